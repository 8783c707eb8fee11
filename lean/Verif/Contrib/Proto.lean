import Verif.Path

/-!
# Dependencies of protocol-buffer files: model of /repo/proto/proto.go; C54

The file system is a parameter, constant while `Deps` runs: what `os.Open` of a name gives, and what can be read from it.  Names are
compared as they are spelled, as the code does.  `bufio.Scanner` with its default limit and the regular expression are modelled as
functions on text, and the regular expression is proved to be matched exactly (`C54_import_lines`).
-/

set_option linter.unusedSectionVars false
set_option linter.unusedVariables false

namespace Fab.Proto
open Path

/-! ## The model -/

/-- The errors of /repo/proto/proto.go, by origin. -/
inductive PErr
  /-- `opening %s` -/
  | opening (name : Str)
  /-- a read error, out of `sc.Err()` -/
  | reading
  /-- `bufio.ErrTooLong`, out of `sc.Err()` -/
  | tooLong
  deriving DecidableEq

/-- What `os.Open` gives. -/
inductive Opened
  /-- an error that is `fs.ErrNotExist` -/
  | noent
  /-- any other error -/
  | fail
  /-- a file: what can be read from it, and whether reading then ends with an error (a directory: nothing, and an error) -/
  | file (content : Str) (bad : Bool)
  deriving DecidableEq

abbrev Files := Str → Opened

/-- `bufio.ScanLines`: the pieces between newlines, without an empty piece at the end. -/
def pieces : Str → List Str
  | [] => []
  | c :: cs =>
    if c = '\n' then [] :: pieces cs
    else match pieces cs with
      | l :: ls => (c :: l) :: ls
      | [] => [[c]]

/-- `bufio.ScanLines` drops one carriage return at the end of a line. -/
def dropCR (l : Str) : Str := if l.getLast? = some '\r' then l.dropLast else l

/-- the length in bytes -/
def bytes (l : Str) : Nat := (l.map Char.utf8Size).sum

/-- The lines that a `bufio.Scanner` yields, and whether it stops at a line that does not fit into its buffer of 64 kB. -/
def scan : List Str → List Str × Bool
  | [] => ([], false)
  | l :: ls => if 65536 ≤ bytes l then ([], true) else (dropCR l :: (scan ls).1, (scan ls).2)

/-- `\s` -/
def isSpace (c : Char) : Bool := c = '\t' || c = '\n' || c = '\x0c' || c = '\r' || c = ' '

/-- what follows a literal text -/
def stripPre : Str → Str → Option Str
  | [], s => some s
  | _ :: _, [] => none
  | p :: ps, c :: cs => if p = c then stripPre ps cs else none

/-- `\s*"([^"]+)"`, at the beginning of a text -/
def quoted (s : Str) : Option Str :=
  match s.dropWhile isSpace with
  | '"' :: r =>
    match r.dropWhile (· ≠ '"') with
    | [] => none
    | _ :: _ => if r.takeWhile (· ≠ '"') = [] then none else some (r.takeWhile (· ≠ '"'))
  | _ => none

/-- /repo/proto/proto.go:113 `importRegex`: `^import(\s+public)?\s*"([^"]+)"`, the second group.  The optional group is tried first. -/
def importOf (l : Str) : Option Str :=
  match stripPre "import".toList l with
  | none => none
  | some r =>
    match (if r.takeWhile isSpace = [] then none else stripPre "public".toList (r.dropWhile isSpace)).bind quoted with
    | some n => some n
    | none => quoted r

/-- The result of a step: the set of files found so far (as a list). -/
inductive Res
  | ok (s : List Str)
  | err (e : PErr)
  /-- out of fuel -/
  | more

/-- /repo/proto/proto.go:129-150 `protodepsImport`; `next` is the call of `protodeps` for an opened file. -/
def importLoop (fs : Files) (next : Str → Bool → List Str → Res) (imp : Str) : List Str → List Str → Res
  | [], s => .ok s
  | inc :: incs, s =>
    if join [inc, imp] ∈ s then importLoop fs next imp incs s
    else match fs (join [inc, imp]) with
      | .noent => importLoop fs next imp incs s
      | .fail => .err (.opening (join [inc, imp]))
      | .file c bad => next c bad (join [inc, imp] :: s)

/-- /repo/proto/proto.go:117-125: the loop over the lines; `one` is the call of `protodepsImport`. -/
def lineLoop (one : Str → List Str → Res) : List Str → List Str → Res
  | [], s => .ok s
  | l :: ls, s =>
    match importOf l with
    | none => lineLoop one ls s
    | some imp =>
      match one imp s with
      | .ok s' => lineLoop one ls s'
      | r => r

/-- /repo/proto/proto.go:126 `return sc.Err()` -/
def finish (tooLong bad : Bool) : Res → Res
  | .ok s => if tooLong then .err .tooLong else if bad then .err .reading else .ok s
  | r => r

/-- /repo/proto/proto.go:115-127 `protodeps`.  The first argument bounds the depth of the recursion. -/
def protodeps (fs : Files) (includes : List Str) : Nat → Str → Bool → List Str → Res
  | 0, _, _, _ => .more
  | n + 1, c, bad, s =>
    finish (scan (pieces c)).2 bad
      (lineLoop (fun imp => importLoop fs (protodeps fs includes n) imp includes) (scan (pieces c)).1 s)

/-- /repo/proto/proto.go:99-111 `Deps`.  The order of the set does not matter: it is sorted. -/
def deps (fs : Files) (includes : List Str) (n : Nat) (filename : Str) : Res :=
  match fs filename with
  | .file c bad =>
    match protodeps fs includes n c bad [filename] with
    | .ok s => .ok (sortStrs s)
    | r => r
  | _ => .err (.opening filename)

/-- `set.Add` -/
def addAll (s l : List Str) : List Str := l.foldl (fun s x => if x ∈ s then s else s ++ [x]) s

/-- /repo/proto/proto.go:41-48: the loop over the inputs. -/
def allDeps (fs : Files) (includes : List Str) (n : Nat) : List Str → List Str → Res
  | [], s => .ok s
  | inp :: inps, s =>
    match deps fs includes n inp with
    | .ok d => allDeps fs includes n inps (addAll s d)
    | r => r

/-- the target that `Proto` makes: a `Files` target around the command `protoc` -/
structure Target where
  args : List Str
  ins : List Str
  outs : List Str

/-- /repo/proto/proto.go:40-57 `Proto`. -/
def proto (fs : Files) (inputs outputs includes opts : List Str) (n : Nat) : Except (Option PErr) Target :=
  match allDeps fs includes n inputs (addAll [] inputs) with
  | .ok s => .ok { args := includes.map ("-I".toList ++ ·) ++ opts ++ inputs, ins := sortStrs s, outs := outputs }
  | .err e => .error (some e)
  | .more => .error none

/-! ## What the words mean, independently of the model -/

/-- `l` is a line of the text. -/
def IsLine (content l : Str) : Prop :=
  ∃ pre post, content = pre ++ l ++ post ∧ (pre = [] ∨ pre.getLast? = some '\n') ∧ (post = [] ∨ post.head? = some '\n') ∧ '\n' ∉ l

/-- The line begins with `import "n"` or `import public "n"`. -/
def ImportLine (l n : Str) : Prop :=
  ∃ g w rest, l = "import".toList ++ g ++ w ++ '"' :: n ++ '"' :: rest ∧
    (g = [] ∨ ∃ v, v ≠ [] ∧ (∀ c ∈ v, isSpace c) ∧ g = v ++ "public".toList) ∧
    (∀ c ∈ w, isSpace c) ∧ n ≠ [] ∧ '"' ∉ n

/-- The file imports the name. -/
def Imports (fs : Files) (f n : Str) : Prop := ∃ c bad l, fs f = .file c bad ∧ IsLine c l ∧ ImportLine l n

/-- `g` is the file that `n` stands for: the first one that exists, in the order of the include directories. -/
def Resolves (fs : Files) (includes : List Str) (n g : Str) : Prop :=
  ∃ pre inc post, includes = pre ++ inc :: post ∧ (∀ i ∈ pre, fs (join [i, n]) = .noent) ∧ g = join [inc, n] ∧ fs g ≠ .noent

/-- `g` can be reached from `f` through imports. -/
inductive Reaches (fs : Files) (includes : List Str) (f : Str) : Str → Prop
  | refl : Reaches fs includes f f
  | step {g n h : Str} : Reaches fs includes f g → Imports fs g n → Resolves fs includes n h → Reaches fs includes f h

/-- `g` is one of the files that `n` could stand for. -/
def Candidate (fs : Files) (includes : List Str) (n g : Str) : Prop := ∃ inc ∈ includes, g = join [inc, n] ∧ fs g ≠ .noent

/-- `g` can be reached from `f` through imports, if any include directory may be chosen. -/
inductive MayReach (fs : Files) (includes : List Str) (f : Str) : Str → Prop
  | refl : MayReach fs includes f f
  | step {g n h : Str} : MayReach fs includes f g → Imports fs g n → Candidate fs includes n h → MayReach fs includes f h

/-! ## The import lines -/

theorem stripPre_iff {p s r : Str} : stripPre p s = some r ↔ s = p ++ r := by
  induction p generalizing s with
  | nil => simp [stripPre, eq_comm]
  | cons a p ih =>
    cases s with
    | nil => simp [stripPre]
    | cons c cs =>
      unfold stripPre
      by_cases h : a = c
      · subst h; simp [ih]
      · simp [h, Ne.symm h]

theorem dropWhile_app {p : Char → Bool} {w s : Str} (h : ∀ c ∈ w, p c) : (w ++ s).dropWhile p = s.dropWhile p := by
  induction w with
  | nil => rfl
  | cons a w ih => simp [h a (by simp), ih (fun c hc => h c (by simp [hc]))]

theorem takeWhile_app {p : Char → Bool} {w s : Str} (h : ∀ c ∈ w, p c) : (w ++ s).takeWhile p = w ++ s.takeWhile p := by
  induction w with
  | nil => rfl
  | cons a w ih => simp [h a (by simp), ih (fun c hc => h c (by simp [hc]))]

theorem mem_takeWhile {p : Char → Bool} {s : Str} {c : Char} (h : c ∈ s.takeWhile p) : p c = true := by
  induction s with
  | nil => cases h
  | cons a s ih =>
    rw [List.takeWhile_cons] at h
    split at h
    · rename_i ha
      rcases List.mem_cons.1 h with rfl | h
      · exact ha
      · exact ih h
    · cases h

theorem quoted_iff {s n : Str} : quoted s = some n ↔
    ∃ w rest, s = w ++ '"' :: n ++ '"' :: rest ∧ (∀ c ∈ w, isSpace c) ∧ n ≠ [] ∧ '"' ∉ n := by
  constructor
  · intro h
    have hs := List.takeWhile_append_dropWhile (p := isSpace) (l := s)
    unfold quoted at h
    split at h
    · rename_i r hr
      have ht := List.takeWhile_append_dropWhile (p := (· ≠ '"')) (l := r)
      split at h
      · cases h
      · rename_i c tl hc
        split at h
        · cases h
        · rename_i hne
          injection h with h
          have hq : c = '"' := by
            have := List.head?_dropWhile_not (fun x : Char => decide (x ≠ '"')) r
            rw [hc] at this
            simpa using this
          subst hq
          refine ⟨s.takeWhile isSpace, tl, ?_, fun c hc => mem_takeWhile hc, ?_, ?_⟩
          · rw [← h]
            conv_lhs => rw [← hs, hr, ← ht, hc]
            simp
          · rw [← h]; exact hne
          · rw [← h]
            intro hm
            have := mem_takeWhile hm
            simp at this
    · cases h
  · rintro ⟨w, rest, rfl, hw, hn, hq⟩
    have hq' : ∀ c ∈ n, decide (c ≠ '"') = true := by
      intro c hc
      simp only [ne_eq, decide_not, Bool.not_eq_eq_eq_not, Bool.not_true, decide_eq_false_iff_not]
      rintro rfl
      exact hq hc
    have h1 : (w ++ '"' :: n ++ '"' :: rest).dropWhile isSpace = '"' :: (n ++ '"' :: rest) := by
      rw [List.append_assoc, dropWhile_app hw]
      rfl
    have h2 : (n ++ '"' :: rest).dropWhile (fun x => decide (x ≠ '"')) = '"' :: rest := by
      rw [dropWhile_app hq']; simp
    have h3 : (n ++ '"' :: rest).takeWhile (fun x => decide (x ≠ '"')) = n := by
      rw [takeWhile_app hq']; simp
    unfold quoted
    rw [h1]
    simp only [h2, h3, if_neg hn]

/-- **The lines that count as imports** are exactly the lines of the documented form, and the name is unique. -/
theorem C54_import_lines (l n : Str) : importOf l = some n ↔ ImportLine l n := by
  unfold importOf ImportLine
  constructor
  · intro h
    split at h
    · cases h
    · rename_i r hr
      rw [stripPre_iff] at hr
      split at h
      · rename_i m hm
        injection h with h
        subst h
        obtain ⟨t, ht, hq⟩ := Option.bind_eq_some_iff.1 hm
        split at ht
        · cases ht
        · rename_i hne
          rw [stripPre_iff] at ht
          obtain ⟨w, rest, h1, h2, h3, h4⟩ := quoted_iff.1 hq
          refine ⟨r.takeWhile isSpace ++ "public".toList, w, rest, ?_, .inr ⟨_, hne, fun c hc => mem_takeWhile hc, rfl⟩, h2, h3, h4⟩
          rw [hr]
          conv_lhs => rw [← List.takeWhile_append_dropWhile (p := isSpace) (l := r), ht, h1]
          simp only [List.append_assoc]
      · obtain ⟨w, rest, h1, h2, h3, h4⟩ := quoted_iff.1 h
        exact ⟨[], w, rest, by rw [hr, h1]; simp only [List.append_nil, List.append_assoc], .inl rfl, h2, h3, h4⟩
  · rintro ⟨g, w, rest, rfl, hg, hw, hn, hq⟩
    rw [show "import".toList ++ g ++ w ++ '"' :: n ++ '"' :: rest = "import".toList ++ (g ++ (w ++ '"' :: n ++ '"' :: rest)) by
      simp only [List.append_assoc]]
    rw [stripPre_iff.2 rfl]
    have h0 : quoted (w ++ '"' :: n ++ '"' :: rest) = some n := quoted_iff.2 ⟨w, rest, rfl, hw, hn, hq⟩
    dsimp only
    rcases hg with rfl | ⟨v, hv, hvs, rfl⟩
    · have : ((if ([] ++ (w ++ '"' :: n ++ '"' :: rest)).takeWhile isSpace = [] then none
          else stripPre "public".toList (([] ++ (w ++ '"' :: n ++ '"' :: rest)).dropWhile isSpace)).bind quoted) = none := by
        split
        · rfl
        · rw [List.nil_append, List.append_assoc, dropWhile_app hw]
          rfl
      rw [this]
      exact h0
    · have h1 : (v ++ "public".toList ++ (w ++ '"' :: n ++ '"' :: rest)).takeWhile isSpace = v := by
        rw [List.append_assoc, takeWhile_app hvs]
        have : ("public".toList ++ (w ++ '"' :: n ++ '"' :: rest)).takeWhile isSpace = [] := rfl
        rw [this, List.append_nil]
      have h2 : (v ++ "public".toList ++ (w ++ '"' :: n ++ '"' :: rest)).dropWhile isSpace =
          "public".toList ++ (w ++ '"' :: n ++ '"' :: rest) := by
        rw [List.append_assoc, dropWhile_app hvs]; rfl
      rw [h1, if_neg hv, h2, stripPre_iff.2 rfl, Option.bind_some, h0]

example : importOf "import \"a/b.proto\";".toList = some "a/b.proto".toList := by decide +kernel
example : importOf "import  public\"b.proto\"; // x".toList = some "b.proto".toList := by decide +kernel
example : importOf "importpublic \"b.proto\";".toList = none ∧ importOf "import \"\";".toList = none ∧ importOf "import weak \"b\";".toList = none := by
  decide +kernel

theorem pieces_single {l : Str} (h : '\n' ∉ l) (hne : l ≠ []) : pieces l = [l] := by
  induction l with
  | nil => exact absurd rfl hne
  | cons a l ih =>
    have ha : a ≠ '\n' := by rintro rfl; simp at h
    have hl : '\n' ∉ l := fun hm => h (by simp [hm])
    unfold pieces
    rw [if_neg ha]
    cases l with
    | nil => rfl
    | cons b l => rw [ih hl (by simp)]

theorem pieces_line {l c : Str} (h : '\n' ∉ l) : pieces (l ++ '\n' :: c) = l :: pieces c := by
  induction l with
  | nil => simp [pieces]
  | cons a l ih =>
    have ha : a ≠ '\n' := by rintro rfl; simp at h
    have hl : '\n' ∉ l := fun hm => h (by simp [hm])
    rw [List.cons_append]
    rw [pieces, if_neg ha, ih hl]

/-- A text is one line, or a line, a newline and the rest. -/
theorem text_cases (c : Str) : '\n' ∉ c ∨ ∃ l c', c = l ++ '\n' :: c' ∧ '\n' ∉ l := by
  induction c with
  | nil => simp
  | cons a c ih =>
    by_cases ha : a = '\n'
    · subst ha; exact .inr ⟨[], c, rfl, by simp⟩
    · rcases ih with h | ⟨l, c', rfl, h⟩
      · exact .inl (by simp [h, Ne.symm ha])
      · exact .inr ⟨a :: l, c', rfl, by simp [h, Ne.symm ha]⟩

theorem pieces_append (a b : Str) : pieces (a ++ '\n' :: b) = pieces (a ++ ['\n']) ++ pieces b := by
  induction hn : a.length using Nat.strong_induction_on generalizing a with
  | _ n ih =>
    rcases text_cases a with h | ⟨l, c', rfl, h⟩
    · rw [pieces_line h, pieces_line h]; simp [pieces]
    · rw [List.append_assoc, List.cons_append, pieces_line h, List.append_assoc, List.cons_append, pieces_line h,
        ih c'.length (by rw [← hn]; simp; omega) c' rfl, List.cons_append]

/-- The scanner yields exactly the lines (an empty one after the last newline excepted). -/
theorem mem_pieces {c l : Str} (hne : l ≠ []) : l ∈ pieces c ↔ IsLine c l := by
  constructor
  · intro h
    induction hn : c.length using Nat.strong_induction_on generalizing c with
    | _ n ih =>
      rcases text_cases c with hc | ⟨l0, c', rfl, hc⟩
      · by_cases hcn : c = []
        · subst hcn; simp [pieces] at h
        · rw [pieces_single hc hcn] at h
          simp only [List.mem_singleton] at h
          subst h
          exact ⟨[], [], by simp, .inl rfl, .inl rfl, hc⟩
      · rw [pieces_line hc] at h
        rcases List.mem_cons.1 h with rfl | h
        · exact ⟨[], '\n' :: c', by simp, .inl rfl, .inr rfl, hc⟩
        · obtain ⟨pre, post, h1, h2, h3, h4⟩ := ih c'.length (by rw [← hn]; simp; omega) h rfl
          refine ⟨l0 ++ '\n' :: pre, post, by rw [h1]; simp, .inr ?_, h3, h4⟩
          rcases h2 with rfl | h2
          · simp
          · rw [List.getLast?_append, List.getLast?_cons, h2]; rfl
  · rintro ⟨pre, post, rfl, hpre, hpost, hl⟩
    have key : l ∈ pieces (l ++ post) := by
      cases post with
      | nil => rw [List.append_nil, pieces_single hl hne]; simp
      | cons a post =>
        have : a = '\n' := by simpa using hpost
        subst this
        rw [pieces_line hl]; simp
    rcases hpre with rfl | hpre
    · simpa using key
    · obtain ⟨q, rfl⟩ : ∃ q, pre = q ++ ['\n'] := by
        obtain ⟨ys, hys⟩ := List.getLast?_eq_some_iff.1 hpre
        exact ⟨ys, hys⟩
      rw [show q ++ ['\n'] ++ l ++ post = q ++ '\n' :: (l ++ post) by simp, pieces_append]
      exact List.mem_append_right _ key

theorem importLine_ne {l n : Str} (h : ImportLine l n) : l ≠ [] := by
  obtain ⟨g, w, rest, rfl, -⟩ := h
  simp

theorem import_dropCR (l n : Str) : ImportLine (dropCR l) n ↔ ImportLine l n := by
  unfold dropCR
  split
  · rename_i h
    obtain ⟨ys, rfl⟩ := List.getLast?_eq_some_iff.1 h
    rw [List.dropLast_concat]
    constructor
    · rintro ⟨g, w, rest, rfl, h2⟩
      exact ⟨g, w, rest ++ ['\r'], by simp, h2⟩
    · rintro ⟨g, w, rest, h1, h⟩
      rcases List.eq_nil_or_concat rest with rfl | ⟨r, x, rfl⟩
      · have := congrArg List.getLast? h1
        rw [List.getLast?_concat, List.getLast?_concat] at this
        simp at this
      · refine ⟨g, w, r, ?_, h⟩
        have := congrArg List.dropLast h1
        rw [List.dropLast_concat] at this
        rw [this, List.concat_eq_append, show "import".toList ++ g ++ w ++ '"' :: n ++ '"' :: (r ++ [x]) =
          ("import".toList ++ g ++ w ++ '"' :: n ++ '"' :: r) ++ [x] by simp, List.dropLast_concat]
  · rfl

theorem scan_ok {ls : List Str} (h : (scan ls).2 = false) : (scan ls).1 = ls.map dropCR := by
  induction ls with
  | nil => rfl
  | cons l ls ih =>
    unfold scan at h ⊢
    split
    · rename_i hl; rw [if_pos hl] at h; cases h
    · rename_i hl; rw [if_neg hl] at h; simp [ih h]

theorem scan_sub {ls : List Str} {l : Str} (h : l ∈ (scan ls).1) : ∃ l' ∈ ls, l = dropCR l' := by
  induction ls with
  | nil => cases h
  | cons a ls ih =>
    unfold scan at h
    split at h
    · cases h
    · rcases List.mem_cons.1 h with rfl | h
      · exact ⟨a, by simp, rfl⟩
      · obtain ⟨l', h1, h2⟩ := ih h
        exact ⟨l', by simp [h1], h2⟩

/-- The names that the lines of a text import, as the code sees them. -/
def names (c : Str) : List Str := (scan (pieces c)).1.filterMap importOf

theorem names_sub {c n : Str} (h : n ∈ names c) : ∃ l, IsLine c l ∧ ImportLine l n := by
  obtain ⟨l, h1, h2⟩ := List.mem_filterMap.1 h
  obtain ⟨l', h3, rfl⟩ := scan_sub h1
  rw [C54_import_lines, import_dropCR] at h2
  exact ⟨l', (mem_pieces (importLine_ne h2)).1 h3, h2⟩

theorem names_all {c n l : Str} (hc : (scan (pieces c)).2 = false) (h1 : IsLine c l) (h2 : ImportLine l n) : n ∈ names c := by
  refine List.mem_filterMap.2 ⟨dropCR l, ?_, ?_⟩
  · rw [scan_ok hc]
    exact List.mem_map.2 ⟨l, (mem_pieces (importLine_ne h2)).2 h1, rfl⟩
  · rw [C54_import_lines, import_dropCR]; exact h2

theorem scan_fits {ls : List Str} : (scan ls).2 = false ↔ ∀ l ∈ ls, bytes l < 65536 := by
  induction ls with
  | nil => simp [scan]
  | cons a ls ih =>
    unfold scan
    split
    · rename_i h
      simp only [List.mem_cons, forall_eq_or_imp, not_lt.2 h, false_and]
      simp
    · rename_i h
      simp only [List.mem_cons, forall_eq_or_imp, ih, not_le.1 h, true_and]

/-- All lines fit into the scanner's buffer. -/
def Fits (c : Str) : Prop := ∀ l, IsLine c l → bytes l < 65536

theorem fits_iff {c : Str} : (scan (pieces c)).2 = false ↔ Fits c := by
  rw [scan_fits]
  constructor
  · intro h l hl
    by_cases hne : l = []
    · subst hne; simp [bytes]
    · exact h l ((mem_pieces hne).2 hl)
  · intro h l hl
    by_cases hne : l = []
    · subst hne; simp [bytes]
    · exact h l ((mem_pieces hne).1 hl)

/-! ## The traversal -/

section
variable {fs : Files} {includes : List Str} {P : Str → Prop}

/-- The file has been read to its end, and the files that its imports stand for are in the set. -/
def Closed (fs : Files) (includes : List Str) (s : List Str) (g : Str) : Prop :=
  ∃ c, fs g = .file c false ∧ Fits c ∧ ∀ n ∈ names c, ∀ h, Resolves fs includes n h → h ∈ s

theorem Closed.mono {s t : List Str} {g : Str} (h : Closed fs includes s g) (hst : s ⊆ t) : Closed fs includes t g := by
  obtain ⟨c, h1, h2, h3⟩ := h
  exact ⟨c, h1, h2, fun n hn x hx => hst (h3 n hn x hx)⟩

structure Good (fs : Files) (includes : List Str) (P : Str → Prop) (ns s s' : List Str) : Prop where
  sub : s ⊆ s'
  nodup : s.Nodup → s'.Nodup
  closed : ∀ g ∈ s', g ∉ s → Closed fs includes s' g
  has : ∀ n ∈ ns, ∀ h, Resolves fs includes n h → h ∈ s'
  only : (∀ g ∈ s, P g) → ∀ g ∈ s', P g

/-- the reason for an error -/
def Why (fs : Files) (P : Str → Prop) : PErr → Prop
  | .opening g => P g ∧ fs g = .fail
  | .reading => ∃ g c, P g ∧ fs g = .file c true
  | .tooLong => ∃ g c b, P g ∧ fs g = .file c b ∧ ¬ Fits c

/-- what holds of the result of a step -/
def Post (fs : Files) (includes : List Str) (P : Str → Prop) (ns s : List Str) : Res → Prop
  | .ok s' => Good fs includes P ns s s'
  | .err e => Why fs P e
  | .more => True

/-- what holds of a call of `protodeps` for a file -/
def Next (fs : Files) (includes : List Str) (P : Str → Prop) (next : Str → Bool → List Str → Res) : Prop :=
  ∀ g c bad s, P g → fs g = .file c bad → Post fs includes P (names c) s (next c bad s) ∧
    ∀ s', next c bad s = .ok s' → bad = false ∧ Fits c

theorem importLoop_post {next : Str → Bool → List Str → Res} (hnext : Next fs includes P next) {n : Str}
    (incs : List Str) (hi : incs ⊆ includes) (s : List Str) (hn : ∀ h, Candidate fs includes n h → P h) :
    (∀ s', importLoop fs next n incs s = .ok s' → Good fs includes P [] s s' ∧ ∀ h, Resolves fs incs n h → h ∈ s') ∧
    (∀ e, importLoop fs next n incs s = .err e → Why fs P e) := by
  induction incs generalizing s with
  | nil =>
    refine ⟨fun s' h => ?_, fun e h => by simp [importLoop] at h⟩
    simp only [importLoop, Res.ok.injEq] at h
    subst h
    refine ⟨⟨fun _ h => h, fun h => h, fun g h1 h2 => absurd h1 h2, by simp, fun h => h⟩, ?_⟩
    rintro h ⟨pre, inc, post, h1, -⟩
    simp at h1
  | cons inc incs ih =>
    have hi' : incs ⊆ includes := fun x hx => hi (List.mem_cons_of_mem _ hx)
    have skip : (join [inc, n] ∈ s ∨ fs (join [inc, n]) = .noent) →
        (∀ s', importLoop fs next n incs s = .ok s' → Good fs includes P [] s s' ∧ ∀ h, Resolves fs (inc :: incs) n h → h ∈ s') ∧
        (∀ e, importLoop fs next n incs s = .err e → Why fs P e) := by
      intro hsk
      refine ⟨fun s' h => ?_, (ih hi' s).2⟩
      obtain ⟨h1, h2⟩ := (ih hi' s).1 s' h
      refine ⟨h1, ?_⟩
      rintro x ⟨pre, inc', post, h3, h4, rfl, h6⟩
      cases pre with
      | nil =>
        simp only [List.nil_append, List.cons.injEq] at h3
        obtain ⟨rfl, rfl⟩ := h3
        rcases hsk with hsk | hsk
        · exact h1.sub hsk
        · exact absurd hsk h6
      | cons p pre =>
        simp only [List.cons_append, List.cons.injEq] at h3
        obtain ⟨rfl, rfl⟩ := h3
        exact h2 _ ⟨pre, inc', post, rfl, fun i hi => h4 i (by simp [hi]), rfl, h6⟩
    unfold importLoop
    by_cases hs : join [inc, n] ∈ s
    · rw [if_pos hs]; exact skip (.inl hs)
    · rw [if_neg hs]
      cases hf : fs (join [inc, n]) with
      | noent => exact skip (.inr hf)
      | fail =>
        refine ⟨fun s' h => (by cases h), fun e h => ?_⟩
        injection h with h
        subst h
        exact ⟨hn _ ⟨inc, hi (by simp), rfl, by rw [hf]; simp⟩, hf⟩
      | file c bad =>
        have hP : P (join [inc, n]) := hn _ ⟨inc, hi (by simp), rfl, by rw [hf]; simp⟩
        obtain ⟨h1, h2⟩ := hnext _ c bad (join [inc, n] :: s) hP hf
        refine ⟨fun s' h => ?_, fun e h => ?_⟩
        · dsimp only at h
          rw [h] at h1
          obtain ⟨hb, hc⟩ := h2 s' h
          subst hb
          have hg : Good fs includes P (names c) (join [inc, n] :: s) s' := h1
          refine ⟨⟨fun x hx => hg.sub (by simp [hx]), fun hd => hg.nodup (List.nodup_cons.2 ⟨hs, hd⟩), ?_, by simp,
            fun h g hgs => hg.only (by simpa using ⟨hP, h⟩) g hgs⟩, ?_⟩
          · intro g hgs hns
            by_cases hgj : g = join [inc, n]
            · subst hgj
              exact ⟨c, hf, hc, hg.has⟩
            · exact hg.closed g hgs (by simp [hgj, hns])
          · rintro x ⟨pre, inc', post, h3, h4, rfl, h6⟩
            cases pre with
            | nil =>
              simp only [List.nil_append, List.cons.injEq] at h3
              obtain ⟨rfl, rfl⟩ := h3
              exact hg.sub (by simp)
            | cons p pre =>
              simp only [List.cons_append, List.cons.injEq] at h3
              obtain ⟨rfl, rfl⟩ := h3
              rw [h4 inc (by simp)] at hf
              cases hf
        · dsimp only at h
          rw [h] at h1
          exact h1

theorem lineLoop_post {one : Str → List Str → Res} (ls : List Str) (s : List Str)
    (hone : ∀ n ∈ ls.filterMap importOf, ∀ s, Post fs includes P [n] s (one n s)) :
    Post fs includes P (ls.filterMap importOf) s (lineLoop one ls s) := by
  induction ls generalizing s with
  | nil => exact ⟨fun _ h => h, fun h => h, fun g h1 h2 => absurd h1 h2, by simp, fun h => h⟩
  | cons l ls ih =>
    unfold lineLoop
    cases hl : importOf l with
    | none =>
      rw [List.filterMap_cons_none hl] at hone ⊢
      exact ih s hone
    | some n =>
      rw [List.filterMap_cons_some hl] at hone ⊢
      have h1 := hone n (by simp) s
      dsimp only
      cases ho : one n s with
      | err e => rw [ho] at h1; exact h1
      | more => trivial
      | ok s1 =>
        rw [ho] at h1
        have g1 : Good fs includes P [n] s s1 := h1
        have h2 := ih s1 (fun m hm => hone m (by simp [hm]))
        dsimp only
        cases hr : lineLoop one ls s1 with
        | err e => rw [hr] at h2; exact h2
        | more => trivial
        | ok s2 =>
          rw [hr] at h2
          have g2 : Good fs includes P (ls.filterMap importOf) s1 s2 := h2
          refine ⟨fun x hx => g2.sub (g1.sub hx), fun h => g2.nodup (g1.nodup h), ?_, ?_, fun h => g2.only (g1.only h)⟩
          · intro g hg hns
            by_cases hg1 : g ∈ s1
            · exact (g1.closed g hg1 hns).mono g2.sub
            · exact g2.closed g hg hg1
          · intro m hm x hx
            rcases List.mem_cons.1 hm with rfl | hm
            · exact g2.sub (g1.has m (by simp) x hx)
            · exact g2.has m hm x hx

theorem protodeps_next (hP : ∀ g n h, P g → Imports fs g n → Candidate fs includes n h → P h) (n : Nat) :
    Next fs includes P (protodeps fs includes n) := by
  induction n with
  | zero =>
    intro g c bad s _ _
    refine ⟨trivial, ?_⟩
    intro s' h
    cases h
  | succ n ih =>
    intro g c bad s hg hf
    have hl : Post fs includes P (names c) s
        (lineLoop (fun imp => importLoop fs (protodeps fs includes n) imp includes) (scan (pieces c)).1 s) := by
      apply lineLoop_post
      intro m hm s
      obtain ⟨l, h1, h2⟩ := names_sub hm
      have := importLoop_post ih includes (fun _ h => h) s (fun h hc => hP g m h hg ⟨c, bad, l, hf, h1, h2⟩ hc)
      cases hr : importLoop fs (protodeps fs includes n) m includes s with
      | more => trivial
      | err e => exact this.2 e hr
      | ok s' =>
        obtain ⟨h3, h4⟩ := this.1 s' hr
        exact ⟨h3.sub, h3.nodup, h3.closed, by simpa using h4, h3.only⟩
    unfold protodeps
    generalize lineLoop _ _ s = r at hl
    cases r with
    | more =>
      refine ⟨trivial, ?_⟩
      intro s' h
      cases h
    | err e => exact ⟨hl, fun s' h => by cases h⟩
    | ok s' =>
      simp only [finish]
      cases ht : (scan (pieces c)).2 with
      | true =>
        refine ⟨⟨g, c, bad, hg, hf, ?_⟩, fun s' h => by cases h⟩
        rw [← fits_iff, ht]; simp
      | false =>
        cases bad with
        | true => exact ⟨⟨g, c, hg, hf⟩, fun s' h => by cases h⟩
        | false => exact ⟨hl, fun s' h => ⟨rfl, fits_iff.1 ht⟩⟩

end

theorem deps_ok {fs : Files} {includes : List Str} {n : Nat} {f : Str} {l : List Str} (h : deps fs includes n f = .ok l) :
    ∃ c s, fs f = .file c false ∧ Fits c ∧ l = sortStrs s ∧ Good fs includes (MayReach fs includes f) (names c) [f] s := by
  unfold deps at h
  split at h
  · rename_i c bad hf
    split at h
    · rename_i s hs
      injection h with h
      obtain ⟨h1, h2⟩ := protodeps_next (P := MayReach fs includes f) (fun g m x h1 h2 h3 => .step h1 h2 h3) n f c bad [f] .refl hf
      obtain ⟨rfl, hc⟩ := h2 s hs
      rw [hs] at h1
      exact ⟨c, s, hf, hc, h.symm, h1⟩
    · rename_i hne
      exact absurd h (hne l)
  · cases h

theorem deps_closed {fs : Files} {includes : List Str} {n : Nat} {f : Str} {l : List Str} (h : deps fs includes n f = .ok l) :
    ∀ g ∈ l, Closed fs includes l g := by
  obtain ⟨c, s, hf, hc, rfl, hg⟩ := deps_ok h
  intro g hm
  rw [mem_sortStrs] at hm
  have hsub : s ⊆ sortStrs s := fun x hx => mem_sortStrs.2 hx
  by_cases hgf : g = f
  · subst hgf
    exact ⟨c, hf, hc, fun m hm x hx => hsub (hg.has m hm x hx)⟩
  · exact (hg.closed g hm (by simp [hgf])).mono hsub

theorem closed_step {fs : Files} {includes l : List Str} {g n h : Str} (hc : Closed fs includes l g) (hi : Imports fs g n)
    (hr : Resolves fs includes n h) : h ∈ l := by
  obtain ⟨c, h1, h2, h3⟩ := hc
  obtain ⟨c', bad, line, h4, h5, h6⟩ := hi
  rw [h1] at h4
  injection h4 with h4 h4'
  subst h4
  exact h3 n (names_all (fits_iff.2 h2) h5 h6) h hr

/-! ## C54 -/

/-- **The list contains the file and every file that can be reached from it through imports**, each import standing for the first file of
that name in the include directories. -/
theorem C54_contains (fs : Files) (includes : List Str) (n : Nat) (f : Str) (l : List Str) (h : deps fs includes n f = .ok l) (g : Str)
    (hr : Reaches fs includes f g) : g ∈ l := by
  induction hr with
  | refl =>
    obtain ⟨c, s, -, -, rfl, hg⟩ := deps_ok h
    exact mem_sortStrs.2 (hg.sub (by simp))
  | step _ h2 h3 ih => exact closed_step (deps_closed h _ ih) h2 h3

/-- **It is sorted and has no duplicates.** -/
theorem C54_sorted (fs : Files) (includes : List Str) (n : Nat) (f : Str) (l : List Str) (h : deps fs includes n f = .ok l) :
    l.Pairwise (· < ·) := by
  obtain ⟨c, s, -, -, rfl, hg⟩ := deps_ok h
  exact sortStrs_nodup (hg.nodup (by simp))

/-- Everything in it can be reached, if any of the include directories may be chosen for an import. -/
theorem C54_nothing_unrelated (fs : Files) (includes : List Str) (n : Nat) (f : Str) (l : List Str) (h : deps fs includes n f = .ok l)
    (g : Str) (hg : g ∈ l) : MayReach fs includes f g := by
  obtain ⟨c, s, -, -, rfl, hG⟩ := deps_ok h
  refine hG.only ?_ g (mem_sortStrs.1 hg)
  intro x hx
  simp only [List.mem_singleton] at hx
  subst hx
  exact .refl

/-- **C54, for include directories that do not shadow each other**: if no import finds a file in more than one include directory, then the
list consists exactly of what can be reached.  Without this hypothesis the last half is false: `C54_counterexample_shadowed`. -/
theorem C54_exact_partial (fs : Files) (includes : List Str) (n : Nat) (f : Str) (l : List Str) (h : deps fs includes n f = .ok l)
    (hu : ∀ g m x y, Imports fs g m → Candidate fs includes m x → Candidate fs includes m y → x = y) (g : Str) :
    g ∈ l ↔ Reaches fs includes f g := by
  refine ⟨fun hg => ?_, C54_contains fs includes n f l h g⟩
  have := C54_nothing_unrelated fs includes n f l h g hg
  clear hg
  induction this with
  | refl => exact .refl
  | step _ h2 h3 ih =>
    rename_i a m x _
    refine .step ih h2 ?_
    -- the first directory that has the file
    obtain ⟨inc, hinc, rfl, hne⟩ := h3
    have key : ∀ incs : List Str, inc ∈ incs → ∃ y, Resolves fs incs m y := by
      intro incs
      induction incs with
      | nil => intro h; cases h
      | cons i incs ih2 =>
        intro hi
        by_cases hn : fs (join [i, m]) = .noent
        · have : inc ∈ incs := by
            rcases List.mem_cons.1 hi with rfl | hi
            · exact absurd hn hne
            · exact hi
          obtain ⟨y, pre, inc', post, h4, h5, h6⟩ := ih2 this
          refine ⟨y, i :: pre, inc', post, by rw [h4]; rfl, ?_, h6⟩
          intro j hj
          rcases List.mem_cons.1 hj with rfl | hj
          · exact hn
          · exact h5 j hj
        · exact ⟨_, [], i, incs, rfl, by simp, rfl, hn⟩
    obtain ⟨y, hy⟩ := key includes hinc
    have hcy : Candidate fs includes m y := by
      obtain ⟨pre, inc', post, h4, h5, h6, h7⟩ := hy
      exact ⟨inc', by rw [h4]; simp, h6, h7⟩
    rw [hu _ _ _ _ h2 ⟨inc, hinc, rfl, hne⟩ hcy]
    exact hy

/-- **Every file in the list has been read to its end**: what is returned without an error is not the result of an incomplete traversal. -/
theorem C54_all_read (fs : Files) (includes : List Str) (n : Nat) (f : Str) (l : List Str) (h : deps fs includes n f = .ok l)
    (g : Str) (hg : g ∈ l) : ∃ c, fs g = .file c false ∧ Fits c := by
  obtain ⟨c, h1, h2, -⟩ := deps_closed h g hg
  exact ⟨c, h1, h2⟩

/-- **An error has a reason**: the file itself cannot be opened, or a file that an import may stand for cannot be opened although it exists,
or cannot be read to its end. -/
theorem C54_errors (fs : Files) (includes : List Str) (n : Nat) (f : Str) (e : PErr) (h : deps fs includes n f = .err e) :
    (e = .opening f ∧ ∀ c b, fs f ≠ .file c b) ∨
    ∃ g, MayReach fs includes f g ∧ ((e = .opening g ∧ fs g = .fail) ∨ (e = .reading ∧ ∃ c, fs g = .file c true) ∨
      (e = .tooLong ∧ ∃ c b, fs g = .file c b ∧ ¬ Fits c)) := by
  unfold deps at h
  split at h
  · rename_i c bad hf
    right
    have h1 := (protodeps_next (P := MayReach fs includes f) (fun g m x h1 h2 h3 => .step h1 h2 h3) n f c bad [f] .refl hf).1
    split at h
    · cases h
    · rw [h] at h1
      cases e with
      | opening g => exact ⟨g, h1.1, .inl ⟨rfl, h1.2⟩⟩
      | reading => obtain ⟨g, c, h2, h3⟩ := h1; exact ⟨g, h2, .inr (.inl ⟨rfl, c, h3⟩)⟩
      | tooLong => obtain ⟨g, c, b, h2, h3, h4⟩ := h1; exact ⟨g, h2, .inr (.inr ⟨rfl, c, b, h3, h4⟩)⟩
  · rename_i hf
    injection h with h
    exact .inl ⟨h.symm, fun c b hc => hf c b hc⟩

/-! ### Termination -/

theorem nodup_length {s u : List Str} (h : s.Nodup) (hs : s ⊆ u) : s.length ≤ u.length := (List.subperm_of_subset h hs).length_le

theorem protodeps_term {fs : Files} {includes : List Str} {P : Str → Prop} (hP : ∀ g n h, P g → Imports fs g n → Candidate fs includes n h → P h)
    {U : List Str} (hU : ∀ g, P g → g ∈ U) (n : Nat) : ∀ g c bad s, P g → fs g = .file c bad → s.Nodup → (∀ x ∈ s, P x) →
    U.length < n + s.length → protodeps fs includes n c bad s ≠ .more := by
  induction n with
  | zero =>
    intro g c bad s _ _ hd hs hn
    have := nodup_length hd (fun x hx => hU x (hs x hx))
    omega
  | succ n ih =>
    intro g c bad s hg hf hd hs hn
    have himp : ∀ m, (∀ h, Candidate fs includes m h → P h) → ∀ incs, incs ⊆ includes → ∀ s : List Str, s.Nodup → (∀ x ∈ s, P x) →
        U.length < n + 1 + s.length → importLoop fs (protodeps fs includes n) m incs s ≠ .more := by
      intro m hm incs
      induction incs with
      | nil => intro _ s _ _ _ h; simp [importLoop] at h
      | cons inc incs ih2 =>
        intro hi s hd hs hn
        have hi' : incs ⊆ includes := fun x hx => hi (List.mem_cons_of_mem _ hx)
        unfold importLoop
        by_cases hj : join [inc, m] ∈ s
        · rw [if_pos hj]; exact ih2 hi' s hd hs hn
        · rw [if_neg hj]
          cases hf : fs (join [inc, m]) with
          | noent => exact ih2 hi' s hd hs hn
          | fail => simp
          | file c bad =>
            have hp : P (join [inc, m]) := hm _ ⟨inc, hi (by simp), rfl, by rw [hf]; simp⟩
            refine ih _ c bad _ hp hf (List.nodup_cons.2 ⟨hj, hd⟩) ?_ (by simp only [List.length_cons]; omega)
            intro x hx
            rcases List.mem_cons.1 hx with rfl | hx
            · exact hp
            · exact hs x hx
    have hline : ∀ ls : List Str, (∀ m ∈ ls.filterMap importOf, ∀ h, Candidate fs includes m h → P h) → ∀ s : List Str, s.Nodup → (∀ x ∈ s, P x) →
        U.length < n + 1 + s.length → lineLoop (fun imp => importLoop fs (protodeps fs includes n) imp includes) ls s ≠ .more := by
      intro ls
      induction ls with
      | nil => intro _ s _ _ _ h; simp [lineLoop] at h
      | cons l ls ih2 =>
        intro hm s hd hs hn
        unfold lineLoop
        cases hl : importOf l with
        | none =>
          rw [List.filterMap_cons_none hl] at hm
          exact ih2 hm s hd hs hn
        | some m =>
          rw [List.filterMap_cons_some hl] at hm
          dsimp only
          have h1 := himp m (hm m (by simp)) includes (fun _ h => h) s hd hs hn
          have h2 := importLoop_post (protodeps_next hP n) includes (fun _ h => h) s (hm m (by simp))
          cases hr : importLoop fs (protodeps fs includes n) m includes s with
          | more => exact absurd hr h1
          | err e => simp
          | ok s' =>
            obtain ⟨g1, -⟩ := h2.1 s' hr
            have := nodup_length hd g1.sub
            exact ih2 (fun k hk => hm k (by simp [hk])) s' (g1.nodup hd) (g1.only hs) (by omega)
    have := hline (scan (pieces c)).1 (fun m hm h hc => by
      obtain ⟨l, h1, h2⟩ := names_sub hm
      exact hP g m h hg ⟨c, bad, l, hf, h1, h2⟩ hc) s hd hs hn
    unfold protodeps
    generalize lineLoop _ _ s = r at this
    cases r with
    | more => exact absurd rfl this
    | err e => simp [finish]
    | ok s' =>
      simp only [finish]
      split
      · simp
      · split <;> simp

/-- **`Deps` terminates**, for cyclic imports too, whenever the files that the imports can stand for are finitely many (`U`): the depth of the
recursion is at most their number. -/
theorem C54_terminates (fs : Files) (includes : List Str) (f : Str) (U : List Str) (hU : ∀ g, MayReach fs includes f g → g ∈ U) (n : Nat)
    (hn : U.length < n + 1) : deps fs includes n f ≠ .more := by
  unfold deps
  split
  · rename_i c bad hf
    have := protodeps_term (P := MayReach fs includes f) (fun g m x h1 h2 h3 => .step h1 h2 h3) hU n f c bad [f] .refl hf (by simp)
      (by simp only [List.mem_singleton, forall_eq]; exact .refl) (by simpa using hn)
    split
    · simp
    · rename_i hne h; exact fun h2 => this h2
  · simp

/-- More fuel changes nothing. -/
theorem protodeps_stable (fs : Files) (includes : List Str) (n : Nat) : ∀ c bad s, protodeps fs includes n c bad s ≠ .more →
    protodeps fs includes (n + 1) c bad s = protodeps fs includes n c bad s := by
  induction n with
  | zero => intro c bad s h; exact absurd rfl h
  | succ n ih =>
    have himp : ∀ m incs s, importLoop fs (protodeps fs includes n) m incs s ≠ .more →
        importLoop fs (protodeps fs includes (n + 1)) m incs s = importLoop fs (protodeps fs includes n) m incs s := by
      intro m incs
      induction incs with
      | nil => intro s _; rfl
      | cons inc incs ih2 =>
        intro s
        unfold importLoop
        by_cases hj : join [inc, m] ∈ s
        · rw [if_pos hj, if_pos hj]; exact ih2 s
        · rw [if_neg hj, if_neg hj]
          cases hf : fs (join [inc, m]) with
          | noent => exact ih2 s
          | fail => intro _; rfl
          | file c bad => exact ih c bad _
    have hline : ∀ ls s, lineLoop (fun imp => importLoop fs (protodeps fs includes n) imp includes) ls s ≠ .more →
        lineLoop (fun imp => importLoop fs (protodeps fs includes (n + 1)) imp includes) ls s =
          lineLoop (fun imp => importLoop fs (protodeps fs includes n) imp includes) ls s := by
      intro ls
      induction ls with
      | nil => intro s _; rfl
      | cons l ls ih2 =>
        intro s
        unfold lineLoop
        cases hl : importOf l with
        | none => exact ih2 s
        | some m =>
          dsimp only
          intro h
          have hne : importLoop fs (protodeps fs includes n) m includes s ≠ .more := by
            intro h2; rw [h2] at h; exact h rfl
          rw [himp m includes s hne]
          cases hr : importLoop fs (protodeps fs includes n) m includes s with
          | ok s' => rw [hr] at h; exact ih2 s' h
          | err e => rfl
          | more => rfl
    intro c bad s h
    rw [protodeps, protodeps, hline]
    intro h2
    apply h
    rw [protodeps, h2]
    rfl

theorem C54_stable (fs : Files) (includes : List Str) (n k : Nat) (f : Str) (h : deps fs includes n f ≠ .more) :
    deps fs includes (n + k) f = deps fs includes n f := by
  induction k with
  | zero => rfl
  | succ k ih =>
    rw [← ih] at h ⊢
    unfold deps at h ⊢
    cases hf : fs f with
    | noent => rfl
    | fail => rfl
    | file c bad =>
      rw [hf] at h
      dsimp only at h ⊢
      rw [← Nat.add_assoc, protodeps_stable]
      intro h2
      rw [h2] at h
      exact h rfl

/-! ### The target -/

theorem mem_addAll {s l : List Str} {x : Str} : x ∈ addAll s l ↔ x ∈ s ∨ x ∈ l := by
  unfold addAll
  induction l generalizing s with
  | nil => simp
  | cons a l ih =>
    rw [List.foldl_cons, ih, List.mem_cons]
    by_cases h : a ∈ s
    · rw [if_pos h]
      constructor
      · rintro (h1 | h1) <;> simp [h1]
      · rintro (h1 | rfl | h1) <;> simp [*]
    · rw [if_neg h]
      simp only [List.mem_append, List.mem_singleton]
      tauto

theorem addAll_nodup {s l : List Str} (h : s.Nodup) : (addAll s l).Nodup := by
  unfold addAll
  induction l generalizing s with
  | nil => exact h
  | cons a l ih =>
    rw [List.foldl_cons]
    apply ih
    by_cases ha : a ∈ s
    · rw [if_pos ha]; exact h
    · rw [if_neg ha]
      rw [List.nodup_append]
      refine ⟨h, by simp, ?_⟩
      intro x hx y hy
      simp only [List.mem_singleton] at hy
      subst hy
      rintro rfl
      exact ha hx

theorem allDeps_ok {fs : Files} {includes : List Str} {n : Nat} {inputs s s' : List Str} (h : allDeps fs includes n inputs s = .ok s') :
    (s.Nodup → s'.Nodup) ∧ (∀ i ∈ inputs, ∃ d, deps fs includes n i = .ok d) ∧
    ∀ x, x ∈ s' ↔ x ∈ s ∨ ∃ i ∈ inputs, ∃ d, deps fs includes n i = .ok d ∧ x ∈ d := by
  induction inputs generalizing s with
  | nil =>
    simp only [allDeps, Res.ok.injEq] at h
    subst h
    simp
  | cons i inps ih =>
    unfold allDeps at h
    split at h
    · rename_i d hd
      obtain ⟨h1, h2, h3⟩ := ih h
      refine ⟨fun hn => h1 (addAll_nodup hn), ?_, ?_⟩
      · intro j hj
        rcases List.mem_cons.1 hj with rfl | hj
        · exact ⟨d, hd⟩
        · exact h2 j hj
      · intro x
        rw [h3, mem_addAll]
        constructor
        · rintro ((h4 | h4) | ⟨j, hj, e, he, hx⟩)
          · exact .inl h4
          · exact .inr ⟨i, by simp, d, hd, h4⟩
          · exact .inr ⟨j, by simp [hj], e, he, hx⟩
        · rintro (h4 | ⟨j, hj, e, he, hx⟩)
          · exact .inl (.inl h4)
          · rcases List.mem_cons.1 hj with rfl | hj
            · rw [hd] at he
              injection he with he
              subst he
              exact .inl (.inr hx)
            · exact .inr ⟨j, hj, e, he, hx⟩
    · rename_i hne
      exact absurd h (hne s')

/-- **The `Proto` target**: its input files are, in order and once each, the inputs and everything they depend on, so that `Files` runs
`protoc` again when one of them changes; its command names every include directory, then the options, then the inputs; its outputs are those given. -/
theorem C54_target (fs : Files) (inputs outputs includes opts : List Str) (n : Nat) (t : Target)
    (h : proto fs inputs outputs includes opts n = .ok t) :
    t.ins.Pairwise (· < ·) ∧ (∀ i ∈ inputs, ∀ g, Reaches fs includes i g → g ∈ t.ins) ∧
    (∀ g ∈ t.ins, ∃ i ∈ inputs, MayReach fs includes i g) ∧
    t.args = includes.map ("-I".toList ++ ·) ++ opts ++ inputs ∧ t.outs = outputs := by
  unfold proto at h
  split at h
  · rename_i s hs
    injection h with h
    subst h
    obtain ⟨h1, h2, h3⟩ := allDeps_ok hs
    refine ⟨sortStrs_nodup (h1 (addAll_nodup (by simp))), ?_, ?_, rfl, rfl⟩
    · intro i hi g hr
      obtain ⟨d, hd⟩ := h2 i hi
      exact mem_sortStrs.2 ((h3 g).2 (.inr ⟨i, hi, d, hd, C54_contains fs includes n i d hd g hr⟩))
    · intro g hg
      rcases (h3 g).1 (mem_sortStrs.1 hg) with h4 | ⟨i, hi, d, hd, hx⟩
      · rcases mem_addAll.1 h4 with h5 | h5
        · cases h5
        · exact ⟨g, h5, .refl⟩
      · exact ⟨i, hi, C54_nothing_unrelated fs includes n i d hd g hx⟩
  · cases h
  · cases h

theorem allDeps_first {fs : Files} {includes : List Str} {n : Nat} {r : Res} (hr : ∀ s, r ≠ .ok s) : ∀ (inputs s : List Str),
    allDeps fs includes n inputs s = r ↔
    ∃ pre i post, inputs = pre ++ i :: post ∧ (∀ j ∈ pre, ∃ d, deps fs includes n j = .ok d) ∧ deps fs includes n i = r := by
  intro inputs
  induction inputs with
  | nil => intro s; simp only [allDeps]; exact ⟨fun h => absurd h.symm (hr _), fun ⟨pre, i, post, h, _⟩ => by simp at h⟩
  | cons inp inps ih =>
    intro s
    cases hd : deps fs includes n inp with
    | ok d =>
      simp only [allDeps, hd]
      rw [ih]
      constructor
      · rintro ⟨pre, i, post, rfl, h2, h3⟩
        exact ⟨inp :: pre, i, post, rfl, by rintro j (_ | ⟨_, hj⟩); exacts [⟨d, hd⟩, h2 j hj], h3⟩
      · rintro ⟨pre, i, post, h1, h2, h3⟩
        cases pre with
        | nil => cases h1; rw [hd] at h3; exact absurd h3.symm (hr _)
        | cons a pre => cases h1; exact ⟨pre, i, post, rfl, fun j hj => h2 j (by simp [hj]), h3⟩
    | err e =>
      simp only [allDeps, hd]
      constructor
      · intro h; exact ⟨[], inp, inps, rfl, by simp, hd.trans h⟩
      · rintro ⟨pre, i, post, h1, h2, h3⟩
        cases pre with
        | nil => cases h1; rw [← hd]; exact h3
        | cons a pre => cases h1; obtain ⟨d, h⟩ := h2 inp (by simp); rw [hd] at h; cases h
    | more =>
      simp only [allDeps, hd]
      constructor
      · intro h; exact ⟨[], inp, inps, rfl, by simp, hd.trans h⟩
      · rintro ⟨pre, i, post, h1, h2, h3⟩
        cases pre with
        | nil => cases h1; rw [← hd]; exact h3
        | cons a pre => cases h1; obtain ⟨d, h⟩ := h2 inp (by simp); rw [hd] at h; cases h

/-- **C54.** `Proto` fails exactly if the dependencies of one of the inputs cannot be determined, with the error of the first such input (`C54_errors` says what can be wrong with it). -/
theorem C54_target_errors (fs : Files) (inputs outputs includes opts : List Str) (n : Nat) :
    (∀ e, proto fs inputs outputs includes opts n = .error (some e) ↔
      ∃ pre i post, inputs = pre ++ i :: post ∧ (∀ j ∈ pre, ∃ d, deps fs includes n j = .ok d) ∧ deps fs includes n i = .err e) ∧
    ((∃ t, proto fs inputs outputs includes opts n = .ok t) ↔ ∀ i ∈ inputs, ∃ d, deps fs includes n i = .ok d) := by
  constructor
  · intro e
    rw [← allDeps_first (r := .err e) (by simp) inputs (addAll [] inputs)]
    unfold proto
    cases allDeps fs includes n inputs (addAll [] inputs) <;> simp
  · constructor
    · rintro ⟨t, h⟩
      unfold proto at h
      split at h
      · rename_i s hs; exact (allDeps_ok hs).2.1
      · cases h
      · cases h
    · intro h
      unfold proto
      split
      · exact ⟨_, rfl⟩
      · rename_i e he
        obtain ⟨pre, i, post, rfl, -, h3⟩ := (allDeps_first (r := .err e) (by simp) _ _).1 he
        obtain ⟨d, hd⟩ := h i (by simp)
        rw [hd] at h3; cases h3
      · rename_i he
        obtain ⟨pre, i, post, rfl, -, h3⟩ := (allDeps_first (r := .more) (by simp) _ _).1 he
        obtain ⟨d, hd⟩ := h i (by simp)
        rw [hd] at h3; cases h3

/-! ### Concrete cases -/

/-- the first file of the name, as a function -/
def resolve (fs : Files) (includes : List Str) (n : Str) : Option Str :=
  (includes.map fun i => join [i, n]).find? fun g => decide (fs g ≠ .noent)

theorem resolves_resolve {fs : Files} {includes : List Str} {n g : Str} (h : Resolves fs includes n g) : resolve fs includes n = some g := by
  obtain ⟨pre, inc, post, rfl, h1, rfl, h2⟩ := h
  unfold resolve
  induction pre with
  | nil => simp [h2]
  | cons p pre ih =>
    rw [List.cons_append, List.map_cons, List.find?_cons_of_neg (by simp [h1 p (by simp)])]
    exact ih (fun i hi => h1 i (by simp [hi]))

/-- A set of files that contains the files that its imports stand for. -/
def closedSet (fs : Files) (includes S : List Str) : Bool := S.all fun g => match fs g with
  | .file c _ => !(scan (pieces c)).2 && (names c).all fun n => match resolve fs includes n with
    | some h => h ∈ S
    | none => true
  | _ => true

theorem reaches_closedSet {fs : Files} {includes S : List Str} (hS : closedSet fs includes S = true) {f g : Str} (hf : f ∈ S)
    (h : Reaches fs includes f g) : g ∈ S := by
  induction h with
  | refl => exact hf
  | step _ h2 h3 ih =>
    obtain ⟨c, bad, l, h4, h5, h6⟩ := h2
    have := List.all_eq_true.1 hS _ ih
    rw [h4] at this
    simp only [Bool.and_eq_true, Bool.not_eq_true', List.all_eq_true] at this
    have := this.2 _ (names_all this.1 h5 h6)
    rw [resolves_resolve h3] at this
    simpa using this

/-- A file, two that it imports in a cycle, one in a second directory, and one that is not imported. -/
def exFs : Files := fun f =>
  if f = "src/a.proto".toList then .file "syntax = \"proto3\";\r\nimport \"b.proto\";\r\nimport public \"x/c.proto\";\r\n".toList false
  else if f = "src/b.proto".toList then .file "import \"a.proto\";\nimport \"none.proto\";".toList false
  else if f = "lib/x/c.proto".toList then .file "import \"b.proto\";\n".toList false
  else if f = "lib/d.proto".toList then .file [] false
  else .noent

def exIncs : List Str := ["src".toList, "./lib".toList]

/-- the files found, if there are any -/
def Res.files : Res → Option (List Str)
  | .ok s => some s
  | _ => none

theorem Res.files_ok {r : Res} {s : List Str} (h : r.files = some s) : r = .ok s := by
  cases r <;> simp_all [Res.files]

theorem ex_deps : deps exFs exIncs 10 "src/a.proto".toList = .ok ["lib/x/c.proto".toList, "src/a.proto".toList, "src/b.proto".toList] :=
  Res.files_ok (by decide +kernel)
example : Reaches exFs exIncs "src/a.proto".toList "lib/x/c.proto".toList := by
  refine .step (n := "x/c.proto".toList) .refl ?_ ?_
  · refine ⟨_, _, "import public \"x/c.proto\";\r".toList, if_pos rfl, ?_, ?_⟩
    · exact (mem_pieces (by decide +kernel)).1 (by decide +kernel)
    · exact (C54_import_lines _ _).1 (by decide +kernel)
  · refine ⟨["src".toList], "./lib".toList, [], rfl, ?_, by decide +kernel, by decide +kernel⟩
    intro i hi
    simp only [List.mem_singleton] at hi
    subst hi
    decide +kernel
/-- the hypothesis of `C54_exact_partial` holds in this case -/
example : ∀ g m x y, Imports exFs g m → Candidate exFs exIncs m x → Candidate exFs exIncs m y → x = y := by
  rintro g m x y ⟨c, bad, l, h1, h2, h3⟩ ⟨i, hi, rfl, h4⟩ ⟨j, hj, rfl, h5⟩
  have hm : m ∈ ["b.proto".toList, "x/c.proto".toList, "a.proto".toList, "none.proto".toList] := by
    have hc : c ∈ ["syntax = \"proto3\";\r\nimport \"b.proto\";\r\nimport public \"x/c.proto\";\r\n".toList,
        "import \"a.proto\";\nimport \"none.proto\";".toList, "import \"b.proto\";\n".toList, []] := by
      unfold exFs at h1
      simp only [List.mem_cons, List.not_mem_nil, or_false]
      split at h1
      · injection h1 with h1 _; exact .inl h1.symm
      · split at h1
        · injection h1 with h1 _; exact .inr (.inl h1.symm)
        · split at h1
          · injection h1 with h1 _; exact .inr (.inr (.inl h1.symm))
          · split at h1
            · injection h1 with h1 _; exact .inr (.inr (.inr h1.symm))
            · cases h1
    have hfit : ∀ c ∈ ["syntax = \"proto3\";\r\nimport \"b.proto\";\r\nimport public \"x/c.proto\";\r\n".toList,
        "import \"a.proto\";\nimport \"none.proto\";".toList, "import \"b.proto\";\n".toList, []],
        (scan (pieces c)).2 = false ∧ ∀ n ∈ names c, n ∈ ["b.proto".toList, "x/c.proto".toList, "a.proto".toList, "none.proto".toList] := by
      decide +kernel
    exact (hfit c hc).2 m (names_all (hfit c hc).1 h2 h3)
  have : ∀ m ∈ ["b.proto".toList, "x/c.proto".toList, "a.proto".toList, "none.proto".toList], ∀ i ∈ exIncs, ∀ j ∈ exIncs,
      exFs (join [i, m]) ≠ .noent → exFs (join [j, m]) ≠ .noent → join [i, m] = join [j, m] := by decide +kernel
  exact this m hm i hi j hj h4 h5
/-- and so does that of `C54_target` -/
example : (proto exFs ["lib/d.proto".toList, "src/b.proto".toList] [] exIncs ["--go_out=.".toList] 10).toOption.map (fun t => (t.args, t.ins)) =
    some (["-Isrc".toList, "-I./lib".toList, "--go_out=.".toList, "lib/d.proto".toList, "src/b.proto".toList],
      ["lib/d.proto".toList, "lib/x/c.proto".toList, "src/a.proto".toList, "src/b.proto".toList]) := by decide +kernel
/-- an error -/
example : deps (fun f => if f = "lib/x/c.proto".toList then .fail else exFs f) exIncs 10 "src/a.proto".toList = .err (.opening "lib/x/c.proto".toList) := by
  have : (match deps (fun f => if f = "lib/x/c.proto".toList then .fail else exFs f) exIncs 10 "src/a.proto".toList with
    | .err e => some e | _ => none) = some (.opening "lib/x/c.proto".toList) := by decide +kernel
  split at this
  · rename_i e h; rw [h]; simpa using this
  · cases this

/-- `C54_target_errors`: the second input is missing -/
example : ∃ e, proto exFs ["src/b.proto".toList, "lib/no.proto".toList, "lib/d.proto".toList] [] exIncs [] 10 = .error (some e) := by
  have h0 : deps exFs exIncs 10 "src/b.proto".toList = .ok ["lib/x/c.proto".toList, "src/a.proto".toList, "src/b.proto".toList] := Res.files_ok (by decide +kernel)
  refine ⟨.opening "lib/no.proto".toList, ((C54_target_errors _ _ _ _ _ _).1 _).2 ⟨["src/b.proto".toList], _, _, rfl, ?_, ?_⟩⟩
  · intro j hj; rw [List.mem_singleton.1 hj]; exact ⟨_, h0⟩
  · unfold deps
    have : exFs "lib/no.proto".toList = .noent := by decide +kernel
    rw [this]

/-- Two include directories with a file of the same name. -/
def shadowFs : Files := fun f =>
  if f = "src/a.proto".toList then .file "import \"b.proto\";\nimport \"c.proto\";\n".toList false
  else if f = "src/b.proto".toList then .file [] false
  else if f = "src/c.proto".toList then .file "import \"b.proto\";\n".toList false
  else if f = "old/b.proto".toList then .file [] false
  else .noent

/-- **The list can contain files that nothing imports.**  `b.proto` is imported twice and stands for `src/b.proto` both times, as for
`protoc`; but at the second time the code, having it already, goes on to the next include directory and takes `old/b.proto`. -/
theorem C54_counterexample_shadowed : deps shadowFs ["src".toList, "old".toList] 10 "src/a.proto".toList =
      .ok ["old/b.proto".toList, "src/a.proto".toList, "src/b.proto".toList, "src/c.proto".toList] ∧
    ¬ Reaches shadowFs ["src".toList, "old".toList] "src/a.proto".toList "old/b.proto".toList := by
  refine ⟨Res.files_ok (by decide +kernel), fun h => ?_⟩
  have := reaches_closedSet (S := ["src/a.proto".toList, "src/b.proto".toList, "src/c.proto".toList]) (by decide +kernel) (by decide +kernel) h
  revert this
  decide +kernel

/-- An import that is legal but not at the beginning of its line, and one with single quotes. -/
def indentFs : Files := fun f =>
  if f = "src/a.proto".toList then .file "  import \"b.proto\";\nimport 'b.proto';\nimport weak \"b.proto\";\n".toList false
  else if f = "src/b.proto".toList then .file [] false
  else .noent

/-- **Imports in other forms are overlooked**: the protocol-buffer language also allows white space before `import`, single quotes and `import weak`;
files imported in these ways are not found. -/
theorem C54_finding_other_forms : deps indentFs ["src".toList] 10 "src/a.proto".toList = .ok ["src/a.proto".toList] :=
  Res.files_ok (by decide +kernel)

end Fab.Proto
