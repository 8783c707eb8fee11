import Verif.Base

/-!
# Paths: model of `filepath` (Unix) and of `JoinPath`, `RelPath`; C19, C20

`filepath.Clean`, `Join`, `IsAbs` and `Rel` are modelled by their documented behaviour on Unix, component by component.
`Controller.JoinPath` and `RelPath` are /repo/controller.go:56-71.
-/

namespace Fab.Path

/-- Split at every '/'. -/
def split : Str → List Str
  | [] => [[]]
  | c :: cs =>
    if c = '/' then [] :: split cs
    else match split cs with
      | l :: ls => (c :: l) :: ls
      | [] => [[c]]

def dot : Str := ['.']
def dotdot : Str := ['.', '.']

/-- The elements of a path, without empty ones and ".". -/
def comps (p : Str) : List Str := (split p).filter fun c => c ≠ [] && c ≠ dot

/-- `filepath.IsAbs` -/
def isAbs (p : Str) : Bool := p.head? = some '/'

/-- One element, in `filepath.Clean`: ".." removes the element before it; at the root of a rooted path it disappears, at
the beginning of a relative path it stays.  The stack is in reverse order. -/
def push (rooted : Bool) (stack : List Str) (c : Str) : List Str :=
  if c = dotdot then
    match stack with
    | [] => if rooted then [] else [dotdot]
    | top :: rest => if top = dotdot then dotdot :: stack else rest
  else c :: stack

def normC (rooted : Bool) (cs : List Str) : List Str := (cs.foldl (push rooted) []).reverse

/-- Write a cleaned path. -/
def render (rooted : Bool) (cs : List Str) : Str :=
  if rooted then '/' :: joinWith ['/'] cs
  else if cs = [] then dot else joinWith ['/'] cs

/-- `filepath.Clean` -/
def clean (p : Str) : Str := render (isAbs p) (normC (isAbs p) (comps p))

/-- `filepath.Join` (Unix): skip leading empty elements, join with '/', clean; "" if all are empty -/
def join (elems : List Str) : Str :=
  match elems.dropWhile (· = []) with
  | [] => []
  | es => clean (joinWith ['/'] es)

/-- Remove the common prefix of two lists. -/
def stripCommon : List Str → List Str → List Str × List Str
  | a :: as, b :: bs => if a = b then stripCommon as bs else (a :: as, b :: bs)
  | as, bs => (as, bs)

/-- `filepath.Rel`: `none` is the error "can't make ... relative to ..." -/
def rel (base targ : Str) : Option Str :=
  let b := clean base
  let t := clean targ
  if t = b then some dot
  else if isAbs b ≠ isAbs t then none
  else
    let (br, tr) := stripCommon (comps b) (comps t)
    if br.head? = some dotdot then none
    else some (joinWith ['/'] (br.map (fun _ => dotdot) ++ tr))

/-- `JoinPath` (controller.go:56-66) for a controller whose top directory is `top`: the loop looks for the last absolute
element; `joinFrom` is given the elements in reverse order together with those already passed. -/
def joinLoop (rev : List Str) (after : List Str) : Option Str :=
  match rev with
  | [] => none
  | e :: rest => if isAbs e then some (join (e :: after)) else joinLoop rest (e :: after)

def joinPath (top : Str) (elts : List Str) : Str :=
  match joinLoop elts.reverse [] with
  | some p => p
  | none => join (top :: elts)

/-- `RelPath` (controller.go:69-71) -/
def relPath (top : Str) (p : Str) : Option Str := rel top p

/-! ## Lemmas -/

theorem split_ne_nil (p : Str) : split p ≠ [] := by
  cases p with
  | nil => simp [split]
  | cons c cs =>
    unfold split
    split
    · simp
    · split <;> simp

theorem split_append (a b : Str) : split (a ++ '/' :: b) = split a ++ split b := by
  induction a with
  | nil => simp [split]
  | cons c cs ih =>
    simp only [List.cons_append, split]
    split
    · rw [ih]; rfl
    · rw [ih]
      cases h : split cs with
      | nil => exact absurd h (split_ne_nil cs)
      | cons l ls => rfl

theorem split_single {c : Str} (h : '/' ∉ c) : split c = [c] := by
  induction c with
  | nil => rfl
  | cons x xs ih =>
    simp only [List.mem_cons, not_or] at h
    unfold split
    rw [if_neg (Ne.symm h.1), ih h.2]

theorem comps_append (a b : Str) : comps (a ++ '/' :: b) = comps a ++ comps b := by
  simp [comps, split_append]

theorem comps_nil : comps [] = [] := by simp [comps, split]
theorem comps_dot : comps dot = [] := by simp [comps, split, dot]

theorem comps_slash (a : Str) : comps ('/' :: a) = comps a := by
  have := comps_append [] a
  simpa [comps_nil] using this

/-- A proper path element. -/
def Elem (c : Str) : Prop := c ≠ [] ∧ c ≠ dot ∧ '/' ∉ c

theorem split_noslash (p : Str) : ∀ c ∈ split p, '/' ∉ c := by
  induction p with
  | nil => simp [split]
  | cons x xs ih =>
    unfold split
    split
    · intro c hc
      rcases List.mem_cons.1 hc with rfl | hc
      · simp
      · exact ih c hc
    · rename_i hx
      cases h : split xs with
      | nil => exact absurd h (split_ne_nil xs)
      | cons l ls =>
        rw [h] at ih
        intro c hc
        rcases List.mem_cons.1 hc with rfl | hc
        · simp only [List.mem_cons, not_or]
          exact ⟨Ne.symm hx, ih l (by simp)⟩
        · exact ih c (by simp [hc])

theorem comps_elem (p : Str) : ∀ c ∈ comps p, Elem c := by
  intro c hc
  obtain ⟨h1, h2⟩ := List.mem_filter.1 hc
  simp at h2
  exact ⟨h2.1, h2.2, split_noslash p c h1⟩

theorem comps_single {c : Str} (h : Elem c) : comps c = [c] := by
  simp [comps, split_single h.2.2, h.1, h.2.1]

theorem comps_joinWith (es : List Str) : comps (joinWith ['/'] es) = es.flatMap comps := by
  match es with
  | [] => simp [joinWith, comps_nil]
  | [a] => simp [joinWith]
  | a :: b :: l =>
    have ih := comps_joinWith (b :: l)
    show comps (a ++ ['/'] ++ joinWith ['/'] (b :: l)) = _
    rw [List.append_assoc]
    simp only [List.singleton_append]
    rw [comps_append, ih]; simp

theorem flatMap_comps {cs : List Str} (h : ∀ c ∈ cs, Elem c) : cs.flatMap comps = cs := by
  induction cs with
  | nil => rfl
  | cons c cs ih =>
    rw [List.flatMap_cons, comps_single (h c (by simp)), ih (fun x hx => h x (by simp [hx]))]; rfl

theorem comps_render (r : Bool) {cs : List Str} (h : ∀ c ∈ cs, Elem c) : comps (render r cs) = cs := by
  unfold render
  split
  · rw [comps_slash, comps_joinWith, flatMap_comps h]
  · split
    · rename_i h1; rw [h1, comps_dot]
    · rw [comps_joinWith, flatMap_comps h]

theorem joinWith_head {c : Str} {cs : List Str} (h : c ≠ []) : (joinWith ['/'] (c :: cs)).head? = c.head? := by
  cases c with
  | nil => exact absurd rfl h
  | cons x xs => cases cs <;> simp [joinWith]

theorem isAbs_joinWith {c : Str} {cs : List Str} (h : c ≠ []) : isAbs (joinWith ['/'] (c :: cs)) = isAbs c := by
  simp [isAbs, joinWith_head h]

theorem Elem.not_abs {c : Str} (h : Elem c) : isAbs c = false := by
  unfold isAbs
  cases c with
  | nil => rfl
  | cons x xs =>
    have := h.2.2
    simp only [List.mem_cons, not_or] at this
    simp [Ne.symm this.1]

theorem isAbs_render (r : Bool) {cs : List Str} (h : ∀ c ∈ cs, Elem c) : isAbs (render r cs) = r := by
  unfold render
  cases r with
  | true => simp [isAbs]
  | false =>
    cases cs with
    | nil => simp [isAbs, dot]
    | cons c cs =>
      simp only [Bool.false_eq_true, if_false]
      rw [if_neg (by simp), isAbs_joinWith (h c (by simp)).1]
      exact (h c (by simp)).not_abs

theorem push_elem {r : Bool} {st : List Str} {c : Str} (hs : ∀ x ∈ st, Elem x) (hc : Elem c) :
    ∀ x ∈ push r st c, Elem x := by
  unfold push
  have hdd : Elem dotdot := by simp [Elem, dotdot, dot]
  split
  · cases st with
    | nil => cases r <;> simp [hdd]
    | cons top rest =>
      simp only
      split
      · intro x hx; rcases List.mem_cons.1 hx with rfl | hx
        · exact hdd
        · exact hs x hx
      · intro x hx; exact hs x (by simp [hx])
  · intro x hx; rcases List.mem_cons.1 hx with rfl | hx
    · exact hc
    · exact hs x hx

theorem foldl_push_elem {r : Bool} {cs st : List Str} (hs : ∀ x ∈ st, Elem x) (hc : ∀ x ∈ cs, Elem x) :
    ∀ x ∈ cs.foldl (push r) st, Elem x := by
  induction cs generalizing st with
  | nil => exact hs
  | cons c cs ih => exact ih (push_elem hs (hc c (by simp))) (fun x hx => hc x (by simp [hx]))

theorem normC_elem {r : Bool} {cs : List Str} (hc : ∀ x ∈ cs, Elem x) : ∀ x ∈ normC r cs, Elem x := by
  intro x hx
  exact foldl_push_elem (st := []) (by simp) hc x (by simpa [normC] using hx)

/-- Normal form of a stack: ordinary elements on top of a number of ".." (none if rooted). -/
def NF (r : Bool) (st : List Str) : Prop :=
  ∃ m k, st = m ++ List.replicate k dotdot ∧ dotdot ∉ m ∧ (r = true → k = 0)

theorem push_nf {r : Bool} {st : List Str} (c : Str) (h : NF r st) : NF r (push r st c) := by
  obtain ⟨m, k, rfl, h2, h3⟩ := h
  unfold push
  by_cases hc : c = dotdot
  · rw [if_pos hc]
    cases m with
    | nil =>
      cases k with
      | zero =>
        cases r with
        | true => exact ⟨[], 0, rfl, by simp, fun _ => rfl⟩
        | false => exact ⟨[], 1, rfl, by simp, by simp⟩
      | succ k =>
        simp only [List.nil_append, List.replicate_succ, if_true]
        exact ⟨[], k + 2, by simp [List.replicate_succ], by simp, fun h => by have := h3 h; omega⟩
    | cons a m =>
      simp only [List.mem_cons, not_or] at h2
      simp only [List.cons_append]
      rw [if_neg (Ne.symm h2.1)]
      exact ⟨m, k, rfl, h2.2, h3⟩
  · rw [if_neg hc]
    exact ⟨c :: m, k, rfl, by simp only [List.mem_cons, not_or]; exact ⟨Ne.symm hc, h2⟩, h3⟩

theorem foldl_push_nf {r : Bool} (cs : List Str) {st : List Str} (h : NF r st) : NF r (cs.foldl (push r) st) := by
  induction cs generalizing st with
  | nil => exact h
  | cons c cs ih => exact ih (push_nf c h)

theorem nf_nil (r : Bool) : NF r [] := ⟨[], 0, rfl, by simp, fun _ => rfl⟩

theorem foldl_push_plain {r : Bool} {m : List Str} (h : dotdot ∉ m) (st : List Str) :
    m.foldl (push r) st = m.reverse ++ st := by
  induction m generalizing st with
  | nil => rfl
  | cons c m ih =>
    simp only [List.mem_cons, not_or] at h
    rw [List.foldl_cons, ih h.2, show push r st c = c :: st from if_neg (Ne.symm h.1)]
    simp

theorem foldl_push_ups (j k : Nat) :
    (List.replicate k dotdot).foldl (push false) (List.replicate j dotdot) = List.replicate (k + j) dotdot := by
  induction k generalizing j with
  | zero => simp
  | succ k ih =>
    have : push false (List.replicate j dotdot) dotdot = List.replicate (j + 1) dotdot := by
      cases j <;> simp [push, List.replicate_succ]
    rw [List.replicate_succ, List.foldl_cons, this, ih]
    congr 1; omega

/-- Pushing the elements of a normal form rebuilds it. -/
theorem foldl_push_of_nf {r : Bool} {st : List Str} (h : NF r st) : st.reverse.foldl (push r) [] = st := by
  obtain ⟨m, k, rfl, h2, h3⟩ := h
  rw [List.reverse_append, List.foldl_append, List.reverse_replicate]
  have hk : (List.replicate k dotdot).foldl (push r) [] = List.replicate k dotdot := by
    cases r with
    | true => rw [h3 rfl]; rfl
    | false => exact foldl_push_ups 0 k
  rw [hk, foldl_push_plain (by simpa using h2)]
  simp

theorem foldl_normC (r : Bool) (cs ds : List Str) :
    (normC r cs ++ ds).foldl (push r) [] = (cs ++ ds).foldl (push r) [] := by
  rw [List.foldl_append, List.foldl_append]
  congr 1
  exact foldl_push_of_nf (foldl_push_nf cs (nf_nil r))

theorem normC_normC_append (r : Bool) (cs ds : List Str) : normC r (normC r cs ++ ds) = normC r (cs ++ ds) := by
  unfold normC
  congr 1
  exact foldl_normC r cs ds

theorem normC_idem (r : Bool) (cs : List Str) : normC r (normC r cs) = normC r cs := by
  have := normC_normC_append r cs []
  simpa using this

theorem comps_clean (p : Str) : comps (clean p) = normC (isAbs p) (comps p) :=
  comps_render _ (normC_elem (comps_elem p))

theorem isAbs_clean (p : Str) : isAbs (clean p) = isAbs p := isAbs_render _ (normC_elem (comps_elem p))

theorem clean_clean (p : Str) : clean (clean p) = clean p := by
  rw [clean, isAbs_clean, comps_clean, normC_idem]; rfl

theorem clean_ne_nil (p : Str) : clean p ≠ [] := by
  intro h
  have := congrArg isAbs h
  rw [isAbs_clean] at this
  unfold clean render at h
  have h1 : isAbs p = false := this
  rw [h1] at h
  simp only [Bool.false_eq_true, if_false] at h
  split at h
  · simp [dot] at h
  · rename_i hne
    cases hn : normC false (comps p) with
    | nil => exact hne hn
    | cons c cs =>
      have he := normC_elem (r := false) (comps_elem p) c (by rw [hn]; simp)
      rw [hn] at h
      have := joinWith_head (cs := cs) he.1
      rw [h] at this
      cases c with
      | nil => exact he.1 rfl
      | cons x xs => simp at this

/-- What `join` gives: cleaned, rooted iff its first non-empty element is. -/
theorem join_eq {a : Str} (ha : a ≠ []) (es : List Str) :
    join (a :: es) = render (isAbs a) (normC (isAbs a) (comps a ++ es.flatMap comps)) := by
  unfold join
  rw [List.dropWhile_cons_of_neg (by simpa using ha)]
  simp only
  rw [clean, isAbs_joinWith ha, comps_joinWith]
  rfl

theorem joinLoop_none {rev after : List Str} : joinLoop rev after = none ↔ ∀ e ∈ rev, isAbs e = false := by
  induction rev generalizing after with
  | nil => simp [joinLoop]
  | cons e rest ih =>
    unfold joinLoop
    cases h : isAbs e <;> simp [h, ih]

theorem joinLoop_rel {rels : List Str} (h : ∀ e ∈ rels, isAbs e = false) (rest after : List Str) :
    joinLoop (rels ++ rest) after = joinLoop rest (rels.reverse ++ after) := by
  induction rels generalizing after with
  | nil => rfl
  | cons e rels ih =>
    simp only [List.cons_append, joinLoop]
    rw [h e (by simp)]
    simp only [Bool.false_eq_true, if_false]
    rw [ih (fun x hx => h x (by simp [hx]))]
    simp

theorem isAbs_ne_nil {a : Str} (h : isAbs a = true) : a ≠ [] := by rintro rfl; simp [isAbs] at h

/-! ## C19 -/

/-- **C19, absolute segments.** Everything to the left of the last absolute element is discarded, and so is the top
directory. -/
theorem C19_absolute (top : Str) (pre : List Str) (a : Str) (rels : List Str) (ha : isAbs a = true)
    (hr : ∀ e ∈ rels, isAbs e = false) : joinPath top (pre ++ a :: rels) = join (a :: rels) := by
  unfold joinPath
  have : joinLoop (pre ++ a :: rels).reverse [] = some (join (a :: rels)) := by
    rw [List.reverse_append, List.reverse_cons, List.append_assoc, joinLoop_rel (by simpa using hr)]
    simp [joinLoop, ha]
  rw [this]

/-- **C19, relative segments.** Without an absolute element the result is the top directory joined with all of them. -/
theorem C19_relative (top : Str) (elts : List Str) (hr : ∀ e ∈ elts, isAbs e = false) :
    joinPath top elts = join (top :: elts) := by
  unfold joinPath
  have : joinLoop elts.reverse [] = none := joinLoop_none.2 (by simpa using hr)
  rw [this]

/-- One of the two cases always applies. -/
theorem C19_cases (elts : List Str) : (∀ e ∈ elts, isAbs e = false) ∨
    ∃ pre a rels, elts = pre ++ a :: rels ∧ isAbs a = true ∧ ∀ e ∈ rels, isAbs e = false := by
  induction elts with
  | nil => left; simp
  | cons e es ih =>
    rcases ih with ih | ⟨pre, a, rels, rfl, h1, h2⟩
    · cases he : isAbs e with
      | false => left; intro x hx; rcases List.mem_cons.1 hx with rfl | hx; exacts [he, ih x hx]
      | true => right; exact ⟨[], e, es, rfl, he, ih⟩
    · right; exact ⟨e :: pre, a, rels, rfl, h1, h2⟩

theorem join_clean (es : List Str) : join es = [] ∨ clean (join es) = join es := by
  unfold join
  split
  · exact Or.inl rfl
  · exact Or.inr (clean_clean _)

/-- **C19, cleaned.** The result is a cleaned path (or empty, when the top directory and all elements are empty). -/
theorem C19_clean (top : Str) (elts : List Str) : joinPath top elts = [] ∨ clean (joinPath top elts) = joinPath top elts := by
  rcases C19_cases elts with h | ⟨pre, a, rels, rfl, h1, h2⟩
  · rw [C19_relative top elts h]; exact join_clean _
  · rw [C19_absolute top pre a rels h1 h2]; exact join_clean _

/-- What a cleaned path looks like, independently of the algorithm: rooted or not; its elements are proper names; ".."
occurs only at the beginning, and not at all if rooted. -/
theorem C19_clean_form (p : Str) : ∃ r k names, clean p = render r (List.replicate k dotdot ++ names) ∧
    (∀ n ∈ names, Elem n ∧ n ≠ dotdot) ∧ (r = true → k = 0) := by
  obtain ⟨m, k, h1, h2, h3⟩ := foldl_push_nf (r := isAbs p) (comps p) (nf_nil _)
  refine ⟨isAbs p, k, m.reverse, ?_, ?_, h3⟩
  · rw [clean, normC, h1, List.reverse_append, List.reverse_replicate]
  · intro n hn
    have hn' : n ∈ m := by simpa using hn
    refine ⟨foldl_push_elem (st := []) (by simp) (comps_elem p) n (by rw [h1]; simp [hn']), ?_⟩
    rintro rfl; exact h2 hn'

theorem join_join {a : Str} (ha : isAbs a = true) (es fs : List Str) :
    join (join (a :: es) :: fs) = join (a :: es ++ fs) := by
  have hne := isAbs_ne_nil ha
  rw [List.cons_append, join_eq hne, join_eq hne, ha]
  have hel : ∀ x ∈ normC true (comps a ++ es.flatMap comps), Elem x := by
    apply normC_elem
    intro x hx
    rcases List.mem_append.1 hx with hx | hx
    · exact comps_elem a x hx
    · obtain ⟨e, -, he⟩ := List.mem_flatMap.1 hx; exact comps_elem e x he
  have habs : isAbs (render true (normC true (comps a ++ es.flatMap comps))) = true := isAbs_render _ hel
  rw [join_eq (isAbs_ne_nil habs), habs, comps_render _ hel, normC_normC_append]
  simp

theorem join_abs {a : Str} (ha : isAbs a = true) (es : List Str) : isAbs (join (a :: es)) = true := by
  rw [join_eq (isAbs_ne_nil ha), ha]
  apply isAbs_render
  apply normC_elem
  intro x hx
  rcases List.mem_append.1 hx with hx | hx
  · exact comps_elem a x hx
  · obtain ⟨e, -, he⟩ := List.mem_flatMap.1 hx; exact comps_elem e x he

/-- **C19, associativity.** With an absolute top directory, joining in two steps is the same as joining at once. -/
theorem C19_assoc (top : Str) (ht : isAbs top = true) (xs ys : List Str) :
    joinPath top (joinPath top xs :: ys) = joinPath top (xs ++ ys) := by
  have habs : isAbs (joinPath top xs) = true := by
    rcases C19_cases xs with h | ⟨pre, a, rels, rfl, h1, h2⟩
    · rw [C19_relative top xs h]; exact join_abs ht xs
    · rw [C19_absolute top pre a rels h1 h2]; exact join_abs h1 rels
  rcases C19_cases ys with hy | ⟨pre', a', rels', rfl, h1', h2'⟩
  · rw [show joinPath top xs :: ys = [] ++ joinPath top xs :: ys from rfl, C19_absolute top [] _ ys habs hy]
    rcases C19_cases xs with hx | ⟨pre, a, rels, rfl, h1, h2⟩
    · rw [C19_relative top xs hx, join_join ht, C19_relative top (xs ++ ys)]
      · rfl
      · intro e he; rcases List.mem_append.1 he with he | he
        exacts [hx e he, hy e he]
    · rw [C19_absolute top pre a rels h1 h2, join_join h1, List.append_assoc, List.cons_append,
        C19_absolute top pre a (rels ++ ys) h1]
      · intro e he; rcases List.mem_append.1 he with he | he
        exacts [h2 e he, hy e he]
  · rw [show joinPath top xs :: (pre' ++ a' :: rels') = (joinPath top xs :: pre') ++ a' :: rels' from rfl,
      C19_absolute top _ a' rels' h1' h2', ← List.append_assoc, C19_absolute top _ a' rels' h1' h2']

/-- With a relative top directory it is not: the top directory is joined twice. -/
theorem C19_assoc_needs_absolute_top : ∃ top xs ys, joinPath top (joinPath top xs :: ys) ≠ joinPath top (xs ++ ys) :=
  ⟨"t".toList, ["x".toList], ["y".toList], by decide +kernel⟩

example : joinPath "/top".toList ["a/b".toList, "c/d".toList] = "/top/a/b/c/d".toList ∧
    joinPath "/top".toList ["a/b".toList, "/c/d".toList] = "/c/d".toList ∧
    joinPath "top".toList ["a/../..".toList, "./x//y/".toList] = "x/y".toList ∧
    joinPath "/".toList ["..".toList] = "/".toList := by decide +kernel

/-! ## C20 -/

theorem stripCommon_prefix (a b : List Str) : stripCommon a (a ++ b) = ([], b) := by
  induction a with
  | nil => cases b <;> rfl
  | cons x xs ih => simp [stripCommon, ih]

/-- `dir/ref` does not climb above the top directory: its cleaned form does not begin with "..". -/
def Inside (dir ref : Str) : Prop := (normC false (comps dir ++ comps ref)).head? ≠ some dotdot

theorem inside_plain {cs : List Str} (h : (normC false cs).head? ≠ some dotdot) : dotdot ∉ normC false cs := by
  obtain ⟨m, k, h1, h2, h3⟩ := foldl_push_nf (r := false) cs (nf_nil _)
  rw [normC, h1, List.reverse_append, List.reverse_replicate] at h ⊢
  cases k with
  | zero => simpa using h2
  | succ k => exact absurd rfl h

/-- A stack `st` is not touched by elements that stay inside. -/
theorem foldl_push_inside (cs : List Str) (r : Bool) (st acc : List Str)
    (h : ∀ pre, pre <+: cs → dotdot ∉ pre.foldl (push false) acc) :
    cs.foldl (push r) (acc ++ st) = cs.foldl (push false) acc ++ st := by
  induction cs generalizing acc with
  | nil => rfl
  | cons c cs ih =>
    have h0 : dotdot ∉ acc := h [] List.nil_prefix
    have h1 : dotdot ∉ push false acc c := h [c] ⟨cs, rfl⟩
    have hstep : push r (acc ++ st) c = push false acc c ++ st := by
      unfold push at h1 ⊢
      by_cases hc : c = dotdot
      · rw [if_pos hc] at h1 ⊢
        cases acc with
        | nil => simp at h1
        | cons a acc =>
          simp only [List.mem_cons, not_or] at h0
          simp only [List.cons_append, if_neg (Ne.symm h0.1), if_pos hc]
      · rw [if_neg hc, if_neg hc]; rfl
    rw [List.foldl_cons, List.foldl_cons, hstep]
    apply ih
    intro pre hp
    obtain ⟨suf, rfl⟩ := hp
    exact h (c :: pre) ⟨suf, rfl⟩

/-- Once ".." is at the bottom of the stack it stays: so staying inside at the end means staying inside throughout. -/
theorem dotdot_stays (cs st : List Str) (hnf : NF false st) (h : dotdot ∈ st) : dotdot ∈ cs.foldl (push false) st := by
  induction cs generalizing st with
  | nil => exact h
  | cons c cs ih =>
    refine ih _ (push_nf c hnf) ?_
    obtain ⟨m, k, rfl, h2, -⟩ := hnf
    have hk : 0 < k := by
      rcases List.mem_append.1 h with h | h
      · exact absurd h h2
      · rw [List.mem_replicate] at h; omega
    obtain ⟨k, rfl⟩ : ∃ j, k = j + 1 := ⟨k - 1, by omega⟩
    unfold push
    split
    · cases m with
      | nil => simp [List.replicate_succ]
      | cons a m =>
        simp only [List.cons_append]
        split <;> simp [List.replicate_succ]
    · simp [List.replicate_succ]

theorem foldl_inside {cs : List Str} (h : (normC false cs).head? ≠ some dotdot) (r : Bool) (st : List Str) :
    cs.foldl (push r) st = cs.foldl (push false) [] ++ st := by
  have h1 := inside_plain h
  refine foldl_push_inside cs r st [] ?_
  rintro pre ⟨suf, rfl⟩ hd
  apply h1
  unfold normC
  rw [List.mem_reverse, List.foldl_append]
  exact dotdot_stays suf _ (foldl_push_nf pre (nf_nil _)) hd

theorem render_inj {r : Bool} {cs ds : List Str} (hc : ∀ c ∈ cs, Elem c) (hd : ∀ c ∈ ds, Elem c)
    (h : render r cs = render r ds) : cs = ds := by
  rw [← comps_render r hc, h, comps_render r hd]

theorem rel_of_comps {base targ : Str} (habs : isAbs base = isAbs targ) {cs : List Str}
    (h : comps (clean targ) = comps (clean base) ++ cs) : rel base targ = some (render false cs) := by
  unfold rel
  simp only
  have hb : clean base = render (isAbs base) (comps (clean base)) := by rw [comps_clean]; rfl
  have ht : clean targ = render (isAbs base) (comps (clean targ)) := by rw [comps_clean, habs]; rfl
  by_cases hcs0 : cs = []
  · have : clean targ = clean base := by rw [ht, h, hcs0, List.append_nil]; exact hb.symm
    rw [if_pos this, hcs0]; rfl
  · have hne : clean targ ≠ clean base := by
      intro h'
      have := congrArg comps h'
      rw [h] at this
      simp [hcs0] at this
    rw [if_neg hne, isAbs_clean, isAbs_clean, if_neg (by simp [habs]), h, stripCommon_prefix]
    simp [render, hcs0]

theorem rel_join_form (top dir ref : Str) (hd : isAbs dir = false) (hr : isAbs ref = false) (hin : Inside dir ref) :
    relPath top (joinPath top [dir, ref]) = some (render false (normC false (comps dir ++ comps ref))) := by
  have hj : joinPath top [dir, ref] = join (top :: [dir, ref]) := by
    apply C19_relative
    intro e he
    simp only [List.mem_cons, List.not_mem_nil, or_false] at he
    rcases he with rfl | rfl
    exacts [hd, hr]
  have hel : ∀ x ∈ comps dir ++ comps ref, Elem x := by
    intro x hx; rcases List.mem_append.1 hx with hx | hx
    exacts [comps_elem _ x hx, comps_elem _ x hx]
  rw [hj]
  unfold relPath
  by_cases ht : top = []
  · subst ht
    -- an empty top directory: join skips it
    have hbase : comps (clean []) = [] := by decide
    by_cases hdn : dir = []
    · subst hdn
      by_cases hrn : ref = []
      · subst hrn; decide
      · have : join [[], [], ref] = clean ref := by
          unfold join
          rw [List.dropWhile_cons_of_pos (by simp), List.dropWhile_cons_of_pos (by simp),
            List.dropWhile_cons_of_neg (by simpa using hrn)]
          rfl
        rw [this]
        apply rel_of_comps
        · rw [isAbs_clean, hr]; rfl
        · rw [clean_clean, comps_clean, hbase, hr]; simp [comps_nil]
    · have : join [[], dir, ref] = clean (dir ++ '/' :: ref) := by
        unfold join
        rw [List.dropWhile_cons_of_pos (by simp), List.dropWhile_cons_of_neg (by simpa using hdn)]
        simp [joinWith]
      rw [this]
      have ha : isAbs (dir ++ '/' :: ref) = false := by
        cases dir with
        | nil => exact absurd rfl hdn
        | cons x xs => simpa [isAbs] using hd
      apply rel_of_comps
      · rw [isAbs_clean, ha]; rfl
      · rw [clean_clean, comps_clean, hbase, ha, comps_append]; rfl
  · rw [join_eq ht]
    have hel' : ∀ x ∈ normC (isAbs top) (comps top ++ [dir, ref].flatMap comps), Elem x := by
      apply normC_elem
      intro x hx
      rcases List.mem_append.1 hx with hx | hx
      · exact comps_elem top x hx
      · obtain ⟨e, -, he⟩ := List.mem_flatMap.1 hx; exact comps_elem e x he
    apply rel_of_comps
    · rw [isAbs_render _ hel']
    · rw [comps_clean, comps_clean, isAbs_render _ hel', comps_render _ hel', normC_idem]
      show normC (isAbs top) (comps top ++ (comps dir ++ (comps ref ++ []))) = _
      rw [List.append_nil]
      unfold normC
      rw [List.foldl_append, foldl_inside hin, List.reverse_append]

/-- **C20.** For a directory and a reference that are relative and together do not climb above the top directory, taking
the path with `JoinPath` and making it relative to the top directory with `RelPath` gives the cleaned form of `dir/ref`
(of `ref`, if the directory is empty), whatever the top directory is. -/
theorem C20_rel_join (top dir ref : Str) (hd : isAbs dir = false) (hr : isAbs ref = false) (hin : Inside dir ref) :
    relPath top (joinPath top [dir, ref]) = some (if dir = [] then clean ref else clean (dir ++ '/' :: ref)) := by
  rw [rel_join_form top dir ref hd hr hin]
  by_cases hdn : dir = []
  · rw [if_pos hdn, hdn, comps_nil, List.nil_append, clean, hr]
  · have ha : isAbs (dir ++ '/' :: ref) = false := by
      cases dir with
      | nil => exact absurd rfl hdn
      | cons x xs => simpa [isAbs] using hd
    rw [if_neg hdn, clean, ha, comps_append]

/-- **C20, canonical names.** Two spellings that lead to the same place (the same cleaned elements) get the same
registry name. -/
theorem C20_canonical (top dir ref dir' ref' : Str) (hd : isAbs dir = false) (hr : isAbs ref = false)
    (hd' : isAbs dir' = false) (hr' : isAbs ref' = false) (hin : Inside dir ref)
    (hsame : normC false (comps dir ++ comps ref) = normC false (comps dir' ++ comps ref')) :
    relPath top (joinPath top [dir, ref]) = relPath top (joinPath top [dir', ref']) := by
  rw [rel_join_form top dir ref hd hr hin, rel_join_form top dir' ref' hd' hr' (by unfold Inside; rw [← hsame]; exact hin),
    hsame]

theorem stripCommon_spec (a b : List Str) : ∃ c, a = c ++ (stripCommon a b).1 ∧ b = c ++ (stripCommon a b).2 := by
  induction a generalizing b with
  | nil => exact ⟨[], by cases b <;> simp [stripCommon]⟩
  | cons x a ih =>
    cases b with
    | nil => exact ⟨[], by simp [stripCommon]⟩
    | cons y b =>
      unfold stripCommon
      split
      · rename_i h
        subst h
        obtain ⟨c, h1, h2⟩ := ih b
        exact ⟨x :: c, by rw [List.cons_append, ← h1], by rw [List.cons_append, ← h2]⟩
      · exact ⟨[], by simp⟩

/-- ".." once for each of the top elements removes them -/
theorem foldl_ups (br st : List Str) (h : dotdot ∉ br) : (br.map fun _ => dotdot).foldl (push true) (br ++ st) = st := by
  induction br with
  | nil => rfl
  | cons x br ih =>
    simp only [List.mem_cons, not_or] at h
    rw [List.map_cons, List.foldl_cons]
    have : push true (x :: br ++ st) dotdot = br ++ st := by simp [push, Ne.symm h.1]
    rw [this]
    exact ih h.2

theorem rooted_plain (p : Str) (h : isAbs p = true) : dotdot ∉ comps (clean p) := by
  rw [comps_clean, h]
  obtain ⟨m, k, h1, h2, h3⟩ := foldl_push_nf (r := true) (comps p) (nf_nil _)
  rw [normC, h1, h3 rfl]
  simpa using h2

/-- **C20, any path.** If the top directory is absolute, then every absolute path can be made relative to it with `RelPath`, the
result is relative, and `JoinPath` leads back to the (cleaned) path. -/
theorem C20_join_rel (top p : Str) (ht : isAbs top = true) (hp : isAbs p = true) :
    ∃ r, relPath top p = some r ∧ isAbs r = false ∧ joinPath top [r] = clean p := by
  have htn : top ≠ [] := by rintro rfl; simp [isAbs] at ht
  have key : ∀ r : Str, isAbs r = false → ∀ cs, comps r = cs →
      cs.foldl (push true) (comps (clean top)).reverse = (comps (clean p)).reverse → joinPath top [r] = clean p := by
    intro r hr cs hcs hf
    rw [C19_relative top [r] (by simpa using hr), join_eq htn, ht]
    have h1 : normC true (comps top ++ [r].flatMap comps) = comps (clean p) := by
      rw [← normC_normC_append, ← ht, ← comps_clean, ht]
      have h2 : (comps (clean top)).foldl (push true) [] = (comps (clean top)).reverse := by
        rw [foldl_push_plain (rooted_plain top ht), List.append_nil]
      simp only [List.flatMap_cons, List.flatMap_nil, List.append_nil, normC]
      rw [List.foldl_append, h2, hcs, hf, List.reverse_reverse]
    rw [h1, comps_clean, hp, clean, hp]
  unfold relPath rel
  simp only
  by_cases he : clean p = clean top
  · rw [if_pos he]
    refine ⟨dot, rfl, by decide, key dot (by decide) [] (by decide) ?_⟩
    rw [he]; rfl
  · rw [if_neg he, isAbs_clean, isAbs_clean, ht, hp, if_neg (by simp)]
    obtain ⟨c, h1, h2⟩ := stripCommon_spec (comps (clean top)) (comps (clean p))
    have hb := rooted_plain top ht
    have htp := rooted_plain p hp
    have heq : stripCommon (comps (clean top)) (comps (clean p)) = ((stripCommon (comps (clean top)) (comps (clean p))).1, (stripCommon (comps (clean top)) (comps (clean p))).2) := rfl
    rw [heq]
    generalize (stripCommon (comps (clean top)) (comps (clean p))).1 = br at h1 ⊢
    generalize (stripCommon (comps (clean top)) (comps (clean p))).2 = tr at h2 ⊢
    have hbr : dotdot ∉ br := by intro h; apply hb; rw [h1]; exact List.mem_append_right _ h
    have hh : br.head? ≠ some dotdot := by intro h; exact hbr (List.mem_of_mem_head? h)
    rw [if_neg hh]
    have htr : ∀ x ∈ tr, Elem x := by
      intro x hx; exact comps_elem (clean p) x (by rw [h2]; exact List.mem_append_right _ hx)
    have hel : ∀ x ∈ br.map (fun _ => dotdot) ++ tr, Elem x := by
      intro x hx
      rcases List.mem_append.1 hx with hx | hx
      · obtain ⟨_, -, rfl⟩ := List.mem_map.1 hx; unfold Elem; decide
      · exact htr x hx
    have hne : br.map (fun _ => dotdot) ++ tr ≠ [] := by
      intro h
      simp only [List.append_eq_nil_iff, List.map_eq_nil_iff] at h
      apply he
      rw [clean, clean, hp, ht]
      have e1 := comps_clean p
      have e2 := comps_clean top
      rw [hp] at e1; rw [ht] at e2
      rw [← e1, ← e2, h1, h2, h.1, h.2]
    have hrend : joinWith ['/'] (br.map (fun _ => dotdot) ++ tr) = render false (br.map (fun _ => dotdot) ++ tr) := by
      simp only [render, Bool.false_eq_true, if_false, if_neg hne]
    rw [hrend]
    refine ⟨_, rfl, isAbs_render false hel, key _ (isAbs_render false hel) _ (comps_render false hel) ?_⟩
    rw [h1, h2, List.foldl_append, List.reverse_append, List.reverse_append]
    have hu := foldl_ups br.reverse c.reverse (by simpa using hbr)
    have hm : br.reverse.map (fun _ => dotdot) = br.map (fun _ => dotdot) := by
      rw [List.map_reverse]; simp [List.map_const']
    rw [hm] at hu
    rw [hu]
    exact foldl_push_plain (by intro h; apply htp; rw [h2]; exact List.mem_append_right _ h) _

example : relPath "/a/b/c".toList "/a/x".toList = some "../../x".toList ∧ joinPath "/a/b/c".toList ["../../x".toList] = "/a/x".toList := by
  decide +kernel

example : Inside "a/b".toList "../c".toList ∧ ¬ Inside "a".toList "../../c".toList := by
  unfold Inside; decide +kernel
example : relPath "/top".toList (joinPath "/top".toList ["a/b".toList, "../c".toList]) = some "a/c".toList ∧
    relPath "../t".toList (joinPath "../t".toList ["a".toList, "..".toList]) = some ".".toList := by decide +kernel

end Fab.Path
