import Verif.FileHash
import Verif.Context

/-!
# Clean (/repo/clean.go) and the autoclean registry: model, and C34, C35, C59

The file system is the one of `Verif/FS.lean` (no symbolic links).  `os.Remove` may in addition be refused anywhere
(permissions), given by a parameter.  The file system does not change by other hands while `Clean` runs.  What is printed
in verbose mode is not modelled.
-/

namespace Fab.CleanT

open Path Files

/-- What is at a path: a file with its contents, or a directory (without what is below it). -/
inductive Entry where
  | file (readable : Bool) (data : Bytes)
  | dir (readable : Bool)
deriving DecidableEq

def entryOf : Item → Entry
  | .file r d => .file r d
  | .dir r _ => .dir r

/-- The entry at a position of the tree. -/
def entry (fs : FS) (pos : List Str) : Option Entry := (fs.at pos).map entryOf

/-- Take the entry at a position out of the tree. -/
def erase : Forest → List Str → Forest
  | f, [] => f
  | .nil, _ => .nil
  | .file m r d rest, c :: cs =>
    if m = c then (if cs = [] then rest else .file m r d rest) else .file m r d (erase rest (c :: cs))
  | .dir m r s rest, c :: cs =>
    if m = c then (if cs = [] then rest else .dir m r (erase s cs) rest) else .dir m r s (erase rest (c :: cs))

/-- Result of `os.Remove`: nil, an error for which `errors.Is(err, fs.ErrNotExist)` holds, or another error. -/
inductive RmRes where
  | ok | notExist | err
deriving DecidableEq

/-- The last non-empty element of a path as written. -/
def lastRaw (p : Str) : Option Str := ((split p).filter (fun c => decide (c ≠ []))).getLast?

/-- `os.Remove` on Unix: unlink(2), then rmdir(2).  A file is removed unless the path ends in '/' (ENOTDIR); a directory is
removed if it is empty (else ENOTEMPTY); a path whose last element is "." or ".." and the root directory are refused. -/
def osRemove (deny : List Str → Bool) (fs : FS) (p : Str) : FS × RmRes :=
  match fs.stat p with
  | .notExist => (fs, .notExist)
  | .otherError => (fs, .err)
  | .found pos it =>
    if lastRaw p = none ∨ lastRaw p = some dot ∨ lastRaw p = some dotdot then (fs, .err)
    else if deny pos then (fs, .err)
    else match it with
      | .file _ _ => if p.getLast? = some '/' then (fs, .err) else ({ fs with root := erase fs.root pos }, .ok)
      | .dir _ .nil => ({ fs with root := erase fs.root pos }, .ok)
      | .dir _ _ => (fs, .err)

/-- A Go slice of strings: its backing array (from the slice's first element on) and its length. -/
structure Slice where
  arr : List Str
  len : Nat

/-- The elements of a slice. -/
def Slice.elems (s : Slice) : List Str := s.arr.take s.len

/-- A slice is well formed if its length is within its capacity. -/
def Slice.OK (s : Slice) : Prop := s.len ≤ s.arr.length

/-- /repo/clean.go:32-35 -/
structure Clean where
  files : Slice
  autoclean : Bool

/-- /repo/clean.go:39-46: the sorted list of files to remove, and what `c.Files` is afterwards.  `append` writes into the
spare capacity of `c.Files` if there is enough, and `sort.Strings` then sorts that shared array, so `c.Files` can change. -/
def cleanList (c : Clean) (reg : List Str) : List Str × Slice :=
  let extra := if c.autoclean then reg else []
  let all := sortStrs (c.files.elems ++ extra)
  if c.files.len + extra.length ≤ c.files.arr.length then
    (all, { arr := all ++ c.files.arr.drop (c.files.len + extra.length), len := c.files.len })
  else (all, c.files)

/-- The loop of /repo/clean.go:61-69; `false` is an error. -/
def removeAll (deny : List Str → Bool) : List Str → FS → FS × Bool
  | [], fs => (fs, true)
  | f :: fs', fs =>
    match osRemove deny fs f with
    | (fs1, .err) => (fs1, false)
    | (fs1, _) => removeAll deny fs' fs1

/-- `(*Clean).Run`, /repo/clean.go:38-71: the new file system, the receiver afterwards, and whether nil was returned.  `reg`
is the autoclean registry in the order in which `Slice()` lists it. -/
def cleanRun (deny : List Str → Bool) (ctx : Ctx) (reg : List Str) (c : Clean) (fs : FS) : FS × Clean × Bool :=
  let (files, own) := cleanList c reg
  let c' : Clean := { c with files := own }
  if files = [] then (fs, c', true)
  else if getDryRun ctx then (fs, c', true)
  else
    let r := removeAll deny files fs
    (r.1, c', r.2)

/-- The option `Autoclean` of a `Files` target with these outputs, /repo/files.go:234-245; the registry is a set. -/
def autocleanOpt (autoclean : Bool) (out : List Str) (reg : List Str) : List Str :=
  if !autoclean then reg else out.foldl (fun r f => if f ∈ r then r else r ++ [f]) reg

/-- The registry after the creation of these `Files` targets, each with its `Autoclean` argument and its outputs. -/
def autocleanReg (created : List (Bool × List Str)) : List Str :=
  created.foldl (fun r e => autocleanOpt e.1 e.2 r) []

/-! ## Specification -/

/-- The files a `Clean` names: its own, and with `Autoclean` the registered ones. -/
def Names (c : Clean) (reg : List Str) (f : Str) : Prop := f ∈ c.files.elems ∨ (c.autoclean = true ∧ f ∈ reg)

/-- A file that `Clean` can remove: an existing file, spelled without a trailing slash, whose removal is not refused. -/
def Removable (deny : List Str → Bool) (fs : FS) (f : Str) : Prop :=
  ∃ pos r d, fs.stat f = .found pos (.file r d) ∧ deny pos = false ∧
    ∃ n, lastRaw f = some n ∧ n ≠ dot ∧ n ≠ dotdot ∧ f.getLast? ≠ some '/'

/-! ## Lemmas -/

theorem find_none_of_not_names {f : Forest} {n : Str} (h : n ∉ f.names) : f.find n = none := by
  cases hf : f.find n with
  | none => rfl
  | some it => exact absurd (find_names hf) h

theorem find_erase {f : Forest} (hw : f.WF) (c : Str) (cs : List Str) (n : Str) :
    (erase f (c :: cs)).find n =
      if n = c then (if cs = [] then none else match f.find c with
        | some (.dir r s) => some (.dir r (erase s cs))
        | x => x)
      else f.find n := by
  induction f with
  | nil => simp [erase, Forest.find]
  | file m r d rest ih =>
    obtain ⟨h1, h2, h3⟩ := hw
    have ih := ih h3
    by_cases hm : m = c
    · subst hm
      by_cases hcs : cs = []
      · subst hcs
        by_cases hn : n = m
        · subst hn; simp [erase, find_none_of_not_names h2]
        · simp [erase, Forest.find, hn, Ne.symm hn]
      · by_cases hn : n = m
        · subst hn; simp [erase, hcs, Forest.find]
        · simp [erase, hcs, Forest.find, hn]
    · simp only [erase, hm, if_false, Forest.find, ih]
      by_cases hn : n = c
      · subst hn; simp [hm]
      · simp [hn]
  | dir m r s rest ihs ih =>
    obtain ⟨h1, h2, h3, h4⟩ := hw
    have ih := ih h4
    by_cases hm : m = c
    · subst hm
      by_cases hcs : cs = []
      · subst hcs
        by_cases hn : n = m
        · subst hn; simp [erase, find_none_of_not_names h2]
        · simp [erase, Forest.find, hn, Ne.symm hn]
      · by_cases hn : n = m
        · subst hn; simp [erase, hcs, Forest.find]
        · simp [erase, hcs, Forest.find, hn, Ne.symm hn]
    · simp only [erase, hm, if_false, Forest.find, ih]
      by_cases hn : n = c
      · subst hn; simp [hm]
      · simp [hn]

theorem names_erase {f : Forest} : ∀ {p : List Str} {n : Str}, n ∈ (erase f p).names → n ∈ f.names := by
  induction f with
  | nil => intro p n h; cases p <;> simpa [erase] using h
  | file m r d rest ih =>
    intro p n h
    cases p with
    | nil => simpa [erase] using h
    | cons c cs =>
      simp only [erase] at h
      split at h
      · split at h
        · simp [Forest.names, h]
        · exact h
      · simp only [Forest.names, List.mem_cons] at h ⊢
        rcases h with h | h
        · exact .inl h
        · exact .inr (ih h)
  | dir m r s rest _ ih =>
    intro p n h
    cases p with
    | nil => simpa [erase] using h
    | cons c cs =>
      simp only [erase] at h
      split at h
      · split at h
        · simp [Forest.names, h]
        · exact h
      · simp only [Forest.names, List.mem_cons] at h ⊢
        rcases h with h | h
        · exact .inl h
        · exact .inr (ih h)

theorem wf_erase {f : Forest} : ∀ {p : List Str}, f.WF → (erase f p).WF := by
  induction f with
  | nil => intro p _; cases p <;> trivial
  | file m r d rest ih =>
    intro p hw
    cases p with
    | nil => exact hw
    | cons c cs =>
      simp only [erase]
      split
      · split
        · exact hw.2.2
        · exact hw
      · exact ⟨hw.1, fun h => hw.2.1 (names_erase h), ih hw.2.2⟩
  | dir m r s rest ihs ih =>
    intro p hw
    cases p with
    | nil => exact hw
    | cons c cs =>
      simp only [erase]
      split
      · split
        · exact hw.2.2.2
        · exact ⟨hw.1, hw.2.1, ihs hw.2.2.1, hw.2.2.2⟩
      · exact ⟨hw.1, fun h => hw.2.1 (names_erase h), hw.2.2.1, ih hw.2.2.2⟩

/-- An entry with nothing below it. -/
def Leaf : Item → Prop
  | .file _ _ => True
  | .dir _ s => s = .nil

theorem lookup_leaf {it : Item} (h : Leaf it) {q : List Str} (hq : q ≠ []) : lookupFS it q = none := by
  cases q with
  | nil => exact absurd rfl hq
  | cons c q =>
    cases it with
    | file r d => rfl
    | dir r s => cases h; rfl

theorem entry_erase (q : List Str) : ∀ (r : Bool) (f : Forest) (p : List Str) (it : Item), f.WF → p ≠ [] →
    lookupFS (.dir r f) p = some it → Leaf it →
    (lookupFS (.dir r (erase f p)) q).map entryOf = if q = p then none else (lookupFS (.dir r f) q).map entryOf := by
  induction q with
  | nil =>
    intro r f p it _ hp _ _
    rw [if_neg (Ne.symm hp)]; rfl
  | cons n q ih =>
    intro r f p it hw hp hl hleaf
    obtain ⟨c, cs, rfl⟩ : ∃ c cs, p = c :: cs := by cases p with | nil => exact absurd rfl hp | cons c cs => exact ⟨c, cs, rfl⟩
    simp only [lookupFS, find_erase hw]
    by_cases hn : n = c
    · subst hn
      simp only [if_true, List.cons.injEq, true_and]
      simp only [lookupFS] at hl
      cases hf : f.find n with
      | none => rw [hf] at hl; cases hl
      | some x =>
        rw [hf] at hl
        simp only at hl
        by_cases hcs : cs = []
        · subst hcs
          simp only [if_true, lookupFS, Option.some.injEq] at hl ⊢
          subst hl
          by_cases hq : q = []
          · simp [hq]
          · simp [hq, lookup_leaf hleaf hq]
        · simp only [if_neg hcs]
          cases x with
          | file r' d =>
            cases cs with
            | nil => exact absurd rfl hcs
            | cons a b => simp [lookupFS] at hl
          | dir r' s =>
            exact ih r' s cs it ((find_name hw hf).2 r' s rfl) hcs hl hleaf
    · simp [hn]

/-- `fs'` is `fs` with some entries removed. -/
structure Less (fs' fs : FS) : Prop where
  cwd : fs'.cwd = fs.cwd
  entry : ∀ q, entry fs' q = none ∨ entry fs' q = CleanT.entry fs q

theorem Less.refl (fs : FS) : Less fs fs := ⟨rfl, fun _ => .inr rfl⟩

theorem Less.trans {a b c : FS} (h1 : Less a b) (h2 : Less b c) : Less a c := by
  refine ⟨h1.cwd.trans h2.cwd, fun q => ?_⟩
  rcases h1.entry q with h | h
  · exact .inl h
  · rw [h]; exact h2.entry q

theorem Less.walk {fs' fs : FS} (h : Less fs' fs) (cs : List Str) : ∀ cur,
    match fs'.walk cur cs with
    | .notExist => True
    | .otherError => fs.walk cur cs = .otherError
    | .found pos it => ∃ it', fs.walk cur cs = .found pos it' ∧ entryOf it = entryOf it' := by
  induction cs with
  | nil =>
    intro cur
    simp only [FS.walk]
    cases h1 : fs'.at cur with
    | none => trivial
    | some it =>
      simp only
      have := h.entry cur
      simp only [CleanT.entry, h1, Option.map_some, reduceCtorEq, false_or] at this
      cases h2 : fs.at cur with
      | none => rw [h2] at this; cases this
      | some it' => rw [h2] at this; exact ⟨it', rfl, by simpa using this⟩
  | cons c cs ih =>
    intro cur
    simp only [FS.walk]
    have h3 := h.entry cur
    simp only [CleanT.entry] at h3
    rcases h1 : fs'.at cur with _ | ⟨r, d⟩ | ⟨r, s⟩
    · trivial
    · rw [h1] at h3
      rcases h2 : fs.at cur with _ | ⟨r', d'⟩ | ⟨r', s'⟩ <;> simp [h2, entryOf] at h3 ⊢
    · rw [h1] at h3
      rcases h2 : fs.at cur with _ | ⟨r', d'⟩ | ⟨r', s'⟩ <;> simp [h2, entryOf] at h3 ⊢
      by_cases hc : c = dotdot
      · simp only [hc, if_true]; exact ih _
      · simp only [hc, if_false]; exact ih _

theorem Less.stat {fs' fs : FS} (h : Less fs' fs) (p : Str) :
    match fs'.stat p with
    | .notExist => True
    | .otherError => fs.stat p = .otherError
    | .found pos it => ∃ it', fs.stat p = .found pos it' ∧ entryOf it = entryOf it' := by
  unfold FS.stat
  by_cases hp : p = []
  · simp only [hp, if_true]
  · simp only [hp, if_false, h.cwd]; exact h.walk _ _

theorem Less.notExist {fs' fs : FS} (h : Less fs' fs) {p : Str} (hp : fs.stat p = .notExist) : fs'.stat p = .notExist := by
  have := h.stat p
  rw [hp] at this
  split at this
  · assumption
  · cases this
  · obtain ⟨_, h1, _⟩ := this; cases h1

theorem lastRaw_comps {p n : Str} (h : lastRaw p = some n) (h1 : n ≠ dot) (_h2 : n ≠ dotdot) :
    ∃ l, comps p = l ++ [n] := by
  unfold lastRaw at h
  rw [List.getLast?_eq_some_iff] at h
  obtain ⟨l, hl⟩ := h
  refine ⟨l.filter (fun c => decide (c ≠ dot)), ?_⟩
  have : comps p = ((split p).filter (fun c => decide (c ≠ []))).filter (fun c => decide (c ≠ dot)) := by
    unfold comps
    rw [List.filter_filter]
    congr 1
    funext c
    by_cases h3 : c = [] <;> by_cases h4 : c = dot <;> simp [h3, h4]
  rw [this, hl, List.filter_append]
  simp [h1]

theorem stat_found_entry {fs : FS} {p : Str} {pos : List Str} {it : Item} (h : fs.stat p = .found pos it) : fs.at pos = some it := by
  unfold FS.stat at h
  split at h
  · cases h
  · exact walk_found_at h

theorem stat_pos_ne_nil {fs : FS} {p n : Str} {pos : List Str} {it : Item} (h : fs.stat p = .found pos it)
    (hn : lastRaw p = some n) (h1 : n ≠ dot) (h2 : n ≠ dotdot) : pos ≠ [] := by
  obtain ⟨l, hl⟩ := lastRaw_comps hn h1 h2
  unfold FS.stat at h
  split at h
  · cases h
  · rw [hl, walk_append] at h
    split at h
    · simp only [FS.walk] at h
      split at h
      · cases h
      · cases h
      · simp only [if_neg h2, FS.walk] at h
        split at h
        · simp only [StatResult.found.injEq] at h
          rw [← h.1]; simp
        · cases h
    · cases h
    · cases h

/-- What one `os.Remove` does. -/
theorem osRemove_spec (deny : List Str → Bool) {fs : FS} (hw : fs.root.WF) (p : Str) :
    (osRemove deny fs p).1.root.WF ∧ Less (osRemove deny fs p).1 fs ∧
    (∀ q, entry (osRemove deny fs p).1 q ≠ entry fs q → ∃ it, fs.stat p = .found q it) ∧
    ((osRemove deny fs p).2 ≠ .err → (osRemove deny fs p).1.stat p = .notExist) ∧
    ((osRemove deny fs p).2 = .err → (osRemove deny fs p).1 = fs) := by
  have key : ∀ pos it, fs.stat p = .found pos it → Leaf it →
      ¬ (lastRaw p = none ∨ lastRaw p = some dot ∨ lastRaw p = some dotdot) →
      ({ fs with root := erase fs.root pos } : FS).root.WF ∧ Less { fs with root := erase fs.root pos } fs ∧
      (∀ q, entry { fs with root := erase fs.root pos } q ≠ entry fs q → ∃ it, fs.stat p = .found q it) ∧
      ({ fs with root := erase fs.root pos } : FS).stat p = .notExist := by
    intro pos it hs hleaf hlast
    simp only [not_or] at hlast
    obtain ⟨n, hn⟩ := Option.ne_none_iff_exists'.1 hlast.1
    have hn1 : n ≠ dot := by rintro rfl; exact hlast.2.1 hn
    have hn2 : n ≠ dotdot := by rintro rfl; exact hlast.2.2 hn
    have hpos := stat_pos_ne_nil hs hn hn1 hn2
    have he : ∀ q, entry { fs with root := erase fs.root pos } q = if q = pos then none else entry fs q :=
      fun q => entry_erase q true fs.root pos it hw hpos (stat_found_entry hs) hleaf
    have hless : Less { fs with root := erase fs.root pos } fs := by
      refine ⟨rfl, fun q => ?_⟩
      rw [he]; split
      · exact .inl rfl
      · exact .inr rfl
    refine ⟨wf_erase hw, hless, ?_, ?_⟩
    · intro q hq
      rw [he] at hq
      split at hq
      · rename_i h; subst h; exact ⟨it, hs⟩
      · exact absurd rfl hq
    · have h1 := hless.stat p
      rw [hs] at h1
      split at h1
      · assumption
      · cases h1
      · rename_i pos' it1 heq
        obtain ⟨it', h2, -⟩ := h1
        simp only [StatResult.found.injEq] at h2
        have h3 := he pos
        rw [if_pos rfl] at h3
        have h4 := stat_found_entry heq
        rw [← h2.1] at h4
        simp [entry, h4] at h3
  have same : fs.root.WF ∧ Less fs fs ∧ (∀ q, entry fs q ≠ entry fs q → ∃ it, fs.stat p = .found q it) :=
    ⟨hw, Less.refl fs, fun q h => absurd rfl h⟩
  unfold osRemove
  split
  · rename_i hs; exact ⟨same.1, same.2.1, same.2.2, fun _ => hs, fun h => by cases h⟩
  · exact ⟨same.1, same.2.1, same.2.2, fun h => absurd rfl h, fun _ => rfl⟩
  · rename_i pos it hs
    split
    · exact ⟨same.1, same.2.1, same.2.2, fun h => absurd rfl h, fun _ => rfl⟩
    · rename_i hlast
      split
      · exact ⟨same.1, same.2.1, same.2.2, fun h => absurd rfl h, fun _ => rfl⟩
      · split
        · split
          · exact ⟨same.1, same.2.1, same.2.2, fun h => absurd rfl h, fun _ => rfl⟩
          · obtain ⟨k1, k2, k3, k4⟩ := key pos _ hs trivial hlast
            exact ⟨k1, k2, k3, fun _ => k4, fun h => by cases h⟩
        · obtain ⟨k1, k2, k3, k4⟩ := key pos _ hs rfl hlast
          exact ⟨k1, k2, k3, fun _ => k4, fun h => by cases h⟩
        · exact ⟨same.1, same.2.1, same.2.2, fun h => absurd rfl h, fun _ => rfl⟩

theorem Less.found {fs' fs : FS} (h : Less fs' fs) {p : Str} {pos : List Str} {it : Item} (hp : fs'.stat p = .found pos it) :
    ∃ it', fs.stat p = .found pos it' ∧ entryOf it = entryOf it' := by
  have := h.stat p
  rw [hp] at this
  exact this

theorem removeAll_spec (deny : List Str → Bool) (l : List Str) : ∀ {fs : FS}, fs.root.WF →
    (removeAll deny l fs).1.root.WF ∧ Less (removeAll deny l fs).1 fs ∧
    (∀ q, entry (removeAll deny l fs).1 q ≠ entry fs q → ∃ f ∈ l, ∃ it, fs.stat f = .found q it) ∧
    ((removeAll deny l fs).2 = true → ∀ f ∈ l, (removeAll deny l fs).1.stat f = .notExist) := by
  induction l with
  | nil => intro fs hw; exact ⟨hw, Less.refl fs, fun q h => absurd rfl h, fun _ f hf => absurd hf (by simp)⟩
  | cons f l ih =>
    intro fs hw
    obtain ⟨s1, s2, s3, s4, s5⟩ := osRemove_spec deny hw f
    unfold removeAll
    split
    · rename_i fs1 heq
      rw [heq] at s1 s2 s3 s4 s5
      refine ⟨s1, s2, ?_, fun h => by cases h⟩
      intro q hq
      obtain ⟨it, h⟩ := s3 q hq
      exact ⟨f, by simp, it, h⟩
    · rename_i fs1 res hres heq
      rw [heq] at s1 s2 s3 s4 s5
      obtain ⟨i1, i2, i3, i4⟩ := ih s1
      have hne : res ≠ .err := by rintro rfl; exact hres rfl
      refine ⟨i1, i2.trans s2, ?_, ?_⟩
      · intro q hq
        by_cases hq1 : entry (removeAll deny l fs1).1 q = entry fs1 q
        · rw [hq1] at hq
          obtain ⟨it, h⟩ := s3 q hq
          exact ⟨f, by simp, it, h⟩
        · obtain ⟨g, hg, it, h⟩ := i3 q hq1
          obtain ⟨it', h', -⟩ := s2.found h
          exact ⟨g, by simp [hg], it', h'⟩
      · intro hok g hg
        rcases List.mem_cons.1 hg with rfl | hg
        · exact i2.notExist (s4 hne)
        · exact i4 hok g hg

theorem mem_cleanList {c : Clean} {reg : List Str} {f : Str} : f ∈ (cleanList c reg).1 ↔ Names c reg f := by
  unfold cleanList Names
  simp only
  rw [apply_ite Prod.fst, ite_self, mem_sortStrs, List.mem_append]
  cases c.autoclean <;> simp

/-! ## C34 -/

/-- **C34** If `Clean` (not in dry-run mode) returns nil, no file it names exists any more. -/
theorem C34_all_gone (deny : List Str → Bool) (ctx : Ctx) (reg : List Str) (c : Clean) {fs : FS} (hw : fs.root.WF)
    (hd : getDryRun ctx = false) (hok : (cleanRun deny ctx reg c fs).2.2 = true) (f : Str) (hf : Names c reg f) :
    (cleanRun deny ctx reg c fs).1.stat f = .notExist := by
  rw [← mem_cleanList] at hf
  unfold cleanRun at hok ⊢
  simp only [hd, Bool.false_eq_true, if_false] at hok ⊢
  split at hok
  · rename_i h; rw [h] at hf; simp at hf
  · rename_i h
    rw [if_neg h]
    exact (removeAll_spec deny _ hw).2.2.2 hok f hf

/-- **C34** Whether it succeeds or fails, `Clean` changes nothing else: every position of the tree has the entry it had before
(file contents, or directory) unless a named path leads there. -/
theorem C34_nothing_else (deny : List Str → Bool) (ctx : Ctx) (reg : List Str) (c : Clean) {fs : FS} (hw : fs.root.WF)
    (q : List Str) (hq : ¬ ∃ f, Names c reg f ∧ ∃ it, fs.stat f = .found q it) :
    entry (cleanRun deny ctx reg c fs).1 q = entry fs q ∧ (cleanRun deny ctx reg c fs).1.cwd = fs.cwd := by
  unfold cleanRun
  simp only
  split
  · exact ⟨rfl, rfl⟩
  · split
    · exact ⟨rfl, rfl⟩
    · obtain ⟨-, s2, s3, -⟩ := removeAll_spec deny (cleanList c reg).1 hw
      refine ⟨?_, s2.cwd⟩
      by_contra hne
      obtain ⟨f, hf, it, h⟩ := s3 q hne
      exact hq ⟨f, mem_cleanList.1 hf, it, h⟩

/-- **C34** A removal that fails is reported: if some named path still exists afterwards, an error was returned. -/
theorem C34_failure_reported (deny : List Str → Bool) (ctx : Ctx) (reg : List Str) (c : Clean) {fs : FS} (hw : fs.root.WF)
    (hd : getDryRun ctx = false) (f : Str) (hf : Names c reg f)
    (hex : (cleanRun deny ctx reg c fs).1.stat f ≠ .notExist) : (cleanRun deny ctx reg c fs).2.2 = false := by
  cases h : (cleanRun deny ctx reg c fs).2.2 with
  | false => rfl
  | true => exact absurd (C34_all_gone deny ctx reg c hw hd h f hf) hex

theorem removeAll_ok (deny : List Str → Bool) (l : List Str) : ∀ {fs : FS}, fs.root.WF →
    (∀ f ∈ l, fs.stat f = .notExist ∨ Removable deny fs f) → (removeAll deny l fs).2 = true := by
  induction l with
  | nil => intro fs _ _; rfl
  | cons f l ih =>
    intro fs hw h
    obtain ⟨s1, s2, -, -, -⟩ := osRemove_spec deny hw f
    have hne : (osRemove deny fs f).2 ≠ .err := by
      rcases h f (by simp) with h1 | ⟨pos, r, d, h1, h2, n, h3, h4, h5, h6⟩
      · simp [osRemove, h1]
      · simp [osRemove, h1, h2, h3, h4, h5, h6]
    unfold removeAll
    split
    · rename_i fs1 heq; rw [heq] at hne; exact absurd rfl hne
    · rename_i fs1 res hres heq
      rw [heq] at s1 s2
      refine ih s1 ?_
      intro g hg
      rcases h g (by simp [hg]) with h1 | ⟨pos, r, d, h1, h2, h3⟩
      · exact .inl (s2.notExist h1)
      · have h4 := s2.stat g
        split at h4
        · left; assumption
        · rw [h1] at h4; cases h4
        · rename_i pos' it heq'
          obtain ⟨it', h5, h6⟩ := h4
          rw [h1] at h5
          simp only [StatResult.found.injEq] at h5
          obtain ⟨rfl, rfl⟩ := h5
          cases it with
          | dir r' s => simp [entryOf] at h6
          | file r' d' => exact .inr ⟨pos, r', d', heq', h2, h3⟩

/-- **C34** Files that are already missing are ignored: if every named path is missing or a removable file, `Clean` returns
nil (and, by `C34_all_gone`, they are all gone). -/
theorem C34_missing_ignored (deny : List Str → Bool) (ctx : Ctx) (reg : List Str) (c : Clean) {fs : FS} (hw : fs.root.WF)
    (h : ∀ f, Names c reg f → fs.stat f = .notExist ∨ Removable deny fs f) : (cleanRun deny ctx reg c fs).2.2 = true := by
  unfold cleanRun
  simp only
  split
  · rfl
  · split
    · rfl
    · exact removeAll_ok deny _ hw (fun f hf => h f (mem_cleanList.1 hf))

theorem mem_autocleanOpt {b : Bool} {out reg : List Str} {f : Str} :
    f ∈ autocleanOpt b out reg ↔ f ∈ reg ∨ (b = true ∧ f ∈ out) := by
  unfold autocleanOpt
  cases b with
  | false => simp
  | true =>
    simp only [Bool.not_true, Bool.false_eq_true, if_false, true_and]
    induction out generalizing reg with
    | nil => simp
    | cons x out ih =>
      simp only [List.foldl_cons, ih, List.mem_cons]
      split
      · rename_i hx
        constructor
        · rintro (h | h) <;> tauto
        · rintro (h | rfl | h) <;> tauto
      · simp only [List.mem_append, List.mem_singleton]; tauto

/-- **C34** The autoclean registry holds exactly the outputs of the `Files` targets created with `Autoclean(true)`. -/
theorem C34_autoclean_registry (created : List (Bool × List Str)) (f : Str) :
    f ∈ autocleanReg created ↔ ∃ e ∈ created, e.1 = true ∧ f ∈ e.2 := by
  unfold autocleanReg
  have : ∀ (l : List (Bool × List Str)) (reg : List Str),
      f ∈ l.foldl (fun r e => autocleanOpt e.1 e.2 r) reg ↔ f ∈ reg ∨ ∃ e ∈ l, e.1 = true ∧ f ∈ e.2 := by
    intro l
    induction l with
    | nil => simp
    | cons e l ih =>
      intro reg
      simp only [List.foldl_cons, ih, mem_autocleanOpt, List.mem_cons, exists_eq_or_imp]
      tauto
  simpa using this created []

/-! ## C35 -/

/-- **C35** In dry-run mode `Clean` returns nil and leaves the file system as it is. -/
theorem C35_dry_run (deny : List Str → Bool) (ctx : Ctx) (reg : List Str) (c : Clean) (fs : FS) (hd : getDryRun ctx = true) :
    (cleanRun deny ctx reg c fs).1 = fs ∧ (cleanRun deny ctx reg c fs).2.2 = true := by
  unfold cleanRun
  simp only [hd, if_true]
  split <;> exact ⟨rfl, rfl⟩

/-! ## C59 -/

/-- **C59** Running the same `Clean` value again cleans the same files, if it has no `Autoclean` or its slice has no spare
capacity. -/
theorem C59_clean_repeatable_partial (deny : List Str → Bool) (ctx : Ctx) (reg reg' : List Str) (c : Clean) (fs : FS) (hok : c.files.OK)
    (h : c.autoclean = false ∨ c.files.arr.length = c.files.len) (f : Str) :
    Names (cleanRun deny ctx reg c fs).2.1 reg' f ↔ Names c reg' f := by
  have h1 : (cleanRun deny ctx reg c fs).2.1 = { c with files := (cleanList c reg).2 } := by
    unfold cleanRun; simp only; split
    · rfl
    · split <;> rfl
  rw [h1]
  unfold Names
  simp only
  have h2 : f ∈ (cleanList c reg).2.elems ↔ f ∈ c.files.elems := by
    unfold Slice.OK at hok
    unfold cleanList
    simp only
    generalize hx : (if c.autoclean then reg else ([] : List Str)) = extra
    split
    · rename_i hfit
      have hz : extra = [] := by
        rcases h with h | h
        · rw [← hx]; simp [h]
        · rw [h] at hfit
          exact List.length_eq_zero_iff.1 (by omega)
      rw [hz]
      simp only [List.append_nil, List.length_nil, Nat.add_zero, Slice.elems]
      rw [List.take_append_of_le_length, List.take_of_length_le, mem_sortStrs]
      · rw [(sortStrs_perm _).length_eq, List.length_take]; omega
      · rw [(sortStrs_perm _).length_eq, List.length_take]; omega
    · rfl
  rw [h2]

/-- **C59, exactly.** With no hypothesis on `Autoclean` and capacity: what `c.Files` holds after a run.  If the registered files fit into the spare
capacity, it is the first `len(c.Files)` of the sorted list of all files, and otherwise what it was. -/
theorem C59_exact (deny : List Str → Bool) (ctx : Ctx) (reg : List Str) (c : Clean) (fs : FS) (hok : c.files.OK) :
    let extra := if c.autoclean then reg else []
    (cleanRun deny ctx reg c fs).2.1.autoclean = c.autoclean ∧
    (c.files.len + extra.length ≤ c.files.arr.length →
      (cleanRun deny ctx reg c fs).2.1.files.elems = (sortStrs (c.files.elems ++ extra)).take c.files.len) ∧
    (c.files.arr.length < c.files.len + extra.length → (cleanRun deny ctx reg c fs).2.1.files.elems = c.files.elems) := by
  intro extra
  have h1 : (cleanRun deny ctx reg c fs).2.1 = { c with files := (cleanList c reg).2 } := by
    unfold cleanRun; simp only; split
    · rfl
    · split <;> rfl
  rw [h1]
  unfold Slice.OK at hok
  refine ⟨rfl, ?_, ?_⟩
  · intro h
    unfold cleanList
    simp only
    rw [if_pos h]
    simp only [Slice.elems]
    rw [List.take_append_of_le_length]
    rw [(sortStrs_perm _).length_eq, List.length_append, List.length_take]; omega
  · intro h
    unfold cleanList
    simp only
    rw [if_neg (by change ¬ (c.files.len + extra.length ≤ _); omega)]

/-- **C59, exactly.** If the registered files fit into the spare capacity, a second run cleans the same files as the first one if and only if none
of the files that are pushed out of `c.Files` is lost: each is also registered, or still among the first ones. -/
theorem C59_iff (deny : List Str → Bool) (ctx : Ctx) (reg : List Str) (c : Clean) (fs : FS) (hok : c.files.OK) (hau : c.autoclean = true)
    (hfit : c.files.len + reg.length ≤ c.files.arr.length) :
    (∀ f, Names (cleanRun deny ctx reg c fs).2.1 reg f ↔ Names c reg f) ↔
      ∀ f ∈ (sortStrs (c.files.elems ++ reg)).drop c.files.len, f ∈ reg ∨ f ∈ (sortStrs (c.files.elems ++ reg)).take c.files.len := by
  obtain ⟨h1, h2, -⟩ := C59_exact deny ctx reg c fs hok
  simp only [hau, if_true] at h2
  specialize h2 hfit
  have hn : ∀ f, Names (cleanRun deny ctx reg c fs).2.1 reg f ↔ f ∈ (sortStrs (c.files.elems ++ reg)).take c.files.len ∨ f ∈ reg := by
    intro f; unfold Names; rw [h1, h2, hau]; simp
  have hm : ∀ f, Names c reg f ↔ f ∈ sortStrs (c.files.elems ++ reg) := by
    intro f; unfold Names; rw [hau, mem_sortStrs]; simp
  simp only [hn, hm]
  constructor
  · intro h f hf
    exact ((h f).2 (List.mem_of_mem_drop hf)).symm
  · intro h f
    constructor
    · rintro (h3 | h3)
      · exact List.mem_of_mem_take h3
      · rw [mem_sortStrs]; simp [h3]
    · intro h3
      rw [← List.take_append_drop c.files.len (sortStrs _)] at h3
      rcases List.mem_append.1 h3 with h3 | h3
      · exact .inl h3
      · exact (h f h3).symm

/-- Both sides occur: here "b" is pushed out by "a", and lost unless it is registered too. -/
example : let c : Clean := { files := { arr := [['b'], [], []], len := 1 }, autoclean := true }
    (∀ f ∈ (sortStrs (c.files.elems ++ [['a'], ['b']])).drop c.files.len, f ∈ [['a'], ['b']] ∨ f ∈ (sortStrs (c.files.elems ++ [['a'], ['b']])).take c.files.len) ∧
    ¬ (∀ f ∈ (sortStrs (c.files.elems ++ [['a']])).drop c.files.len, f ∈ [['a']] ∨ f ∈ (sortStrs (c.files.elems ++ [['a']])).take c.files.len) := by
  decide +kernel

/-- Without that hypothesis it is false of the code: with spare capacity (as slices built by `append` have, for instance
those read from YAML) the registered files are written behind `c.Files` and sorted into it.  Here `Clean` names "b" and
the registry holds "a"; after one run, even a dry one, `c.Files` names "a" instead of "b". -/
theorem C59_counterexample_second_run :
    let c : Clean := { files := { arr := [['b'], []], len := 1 }, autoclean := true }
    let c' := (cleanRun (fun _ => false) (withDryRun .root true) [['a']] c ⟨.nil, []⟩).2.1
    c.files.elems = [['b']] ∧ c'.files.elems = [['a']] := by
  decide +kernel

/-! ## A concrete case -/

/-- a tree with files "out/x", "keep" and a directory "full" containing "y" -/
def exTree : FS where
  root := .dir "out".toList true (.file "x".toList true [1] .nil)
    (.file "keep".toList true [2] (.dir "full".toList true (.file "y".toList true [] .nil) .nil))
  cwd := []

def exClean : Clean := { files := { arr := ["out/x".toList, "missing".toList], len := 2 }, autoclean := true }

theorem exTree_wf : exTree.root.WF := by
  have nm : ∀ s : Str, (s ≠ [] ∧ s ≠ dot ∧ '/' ∉ s ∧ s ≠ dotdot) → Name s := fun s h => ⟨⟨h.1, h.2.1, h.2.2.1⟩, h.2.2.2⟩
  refine ⟨nm _ (by decide), by decide, ⟨nm _ (by decide), by decide, trivial⟩, nm _ (by decide), by decide, nm _ (by decide),
    by decide, ⟨nm _ (by decide), by decide, trivial⟩, trivial⟩

/-- The hypotheses of the theorems are met: this `Clean` succeeds, removes "out/x", ignores "missing" and the registered "z",
and keeps "keep". -/
example : (cleanRun (fun _ => false) .root ["z".toList] exClean exTree).2.2 = true ∧
    entry (cleanRun (fun _ => false) .root ["z".toList] exClean exTree).1 ["out".toList, "x".toList] = none ∧
    entry (cleanRun (fun _ => false) .root ["z".toList] exClean exTree).1 ["keep".toList] = some (.file true [2]) := by
  decide +kernel

/-- A non-empty directory is not removed, and the failure is reported. -/
example : (cleanRun (fun _ => false) .root ["full".toList] exClean exTree).2.2 = false := by decide +kernel

end Fab.CleanT
