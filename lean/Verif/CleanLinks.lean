import Verif.Links
import Verif.Clean

/-!
# Clean and symbolic links: C82

/repo/clean.go:38-71 in the file system of `Verif/Links.lean`: `os.Remove` follows the links on the way to a name, and removes the name
itself, also if it is a link.
-/

namespace Fab.Links
open Fab Path Files CleanT

/-! ## The model -/

/-- What is at a position: a file with its contents, a directory (without what is below it), or a link with its text. -/
inductive LEntry where
  | file (readable : Bool) (data : Bytes)
  | dir (readable : Bool)
  | link (target : Str)
deriving DecidableEq

def lentryOf : LItem → LEntry
  | .file r d => .file r d
  | .dir r _ => .dir r
  | .link t => .link t

/-- The entry at a position of the tree. -/
def lentry (fs : LFS) (pos : List Str) : Option LEntry := (fs.at pos).map lentryOf

/-- Take the entry at a position out of the tree. -/
def eraseL : LForest → List Str → LForest
  | f, [] => f
  | .nil, _ => .nil
  | .file m r d rest, c :: cs =>
    if m = c then (if cs = [] then rest else .file m r d rest) else .file m r d (eraseL rest (c :: cs))
  | .link m t rest, c :: cs =>
    if m = c then (if cs = [] then rest else .link m t rest) else .link m t (eraseL rest (c :: cs))
  | .dir m r s rest, c :: cs =>
    if m = c then (if cs = [] then rest else .dir m r (eraseL s cs) rest) else .dir m r s (eraseL rest (c :: cs))

/-- The path ends in "." or "..", or is "/" or empty. -/
def Special (p : Str) : Prop := lastRaw p = none ∨ lastRaw p = some dot ∨ lastRaw p = some dotdot

instance (p : Str) : Decidable (Special p) := inferInstanceAs (Decidable (_ ∨ _ ∨ _))

/-- What a name leads to, where a link at its end (as opposed to on the way) is not followed. -/
def LFS.lstat (fs : LFS) (p : Str) : LStat :=
  if Special p then fs.stat p
  else match fs.walk maxLinks (if isAbs p then [] else fs.cwd) (comps p).dropLast with
    | .notExist => .notExist
    | .otherError => .otherError
    | .found _ pos (.dir _ _) => match fs.at (pos ++ [(comps p).getLastD []]) with
      | none => .notExist
      | some it => .found (pos ++ [(comps p).getLastD []]) it
    | .found _ _ _ => .otherError

/-- `os.Remove` on Linux: unlink(2), then rmdir(2); neither follows a link at the end of the path.  A file or a link is removed unless
the path ends in '/' (ENOTDIR); a directory is removed if it is empty; a path that ends in "." or "..", and the root directory, are
refused. -/
def osRemoveL (deny : List Str → Bool) (fs : LFS) (p : Str) : LFS × RmRes :=
  match fs.lstat p with
  | .notExist => (fs, .notExist)
  | .otherError => (fs, .err)
  | .found pos it =>
    if Special p then (fs, .err)
    else if deny pos then (fs, .err)
    else match it with
      | .file _ _ => if p.getLast? = some '/' then (fs, .err) else ({ fs with root := eraseL fs.root pos }, .ok)
      | .link _ => if p.getLast? = some '/' then (fs, .err) else ({ fs with root := eraseL fs.root pos }, .ok)
      | .dir _ .nil => ({ fs with root := eraseL fs.root pos }, .ok)
      | .dir _ _ => (fs, .err)

/-- The loop of /repo/clean.go:61-69; `false` is an error. -/
def removeAllL (deny : List Str → Bool) : List Str → LFS → LFS × Bool
  | [], fs => (fs, true)
  | f :: fs', fs =>
    match osRemoveL deny fs f with
    | (fs1, .err) => (fs1, false)
    | (fs1, _) => removeAllL deny fs' fs1

/-- `(*Clean).Run`, /repo/clean.go:38-71 (see `cleanRun`): the new file system, and whether nil was returned. -/
def cleanRunL (deny : List Str → Bool) (ctx : Ctx) (reg : List Str) (c : Clean) (fs : LFS) : LFS × Bool :=
  let files := (cleanList c reg).1
  if files = [] then (fs, true)
  else if getDryRun ctx then (fs, true)
  else removeAllL deny files fs

/-! ## Specification -/

/-- No directory has two entries with the same name. -/
def LForest.Uniq : LForest → Prop
  | .nil => True
  | .file n _ _ rest => n ∉ rest.names ∧ rest.Uniq
  | .dir n _ sub rest => n ∉ rest.names ∧ sub.Uniq ∧ rest.Uniq
  | .link n _ rest => n ∉ rest.names ∧ rest.Uniq

/-- A name that `Clean` can remove: an existing file or link, spelled without a trailing slash, whose removal is not refused. -/
def LRemovable (deny : List Str → Bool) (fs : LFS) (f : Str) : Prop :=
  ∃ pos it, fs.lstat f = .found pos it ∧ (∀ r s, it ≠ .dir r s) ∧ deny pos = false ∧ ¬ Special f ∧ f.getLast? ≠ some '/'

/-! ## Lemmas -/

theorem find_none {f : LForest} {n : Str} (h : n ∉ f.names) : f.find n = none := by
  cases hf : f.find n with
  | none => rfl
  | some it => exact absurd (names_of_find hf) h

theorem find_eraseL {f : LForest} (hw : f.Uniq) (c : Str) (cs : List Str) (n : Str) :
    (eraseL f (c :: cs)).find n =
      if n = c then (if cs = [] then none else match f.find c with
        | some (.dir r s) => some (.dir r (eraseL s cs))
        | x => x)
      else f.find n := by
  induction f with
  | nil => simp [eraseL, LForest.find]
  | file m r d rest ih =>
    obtain ⟨h2, h3⟩ := hw
    have ih := ih h3
    by_cases hm : m = c
    · subst hm
      by_cases hcs : cs = []
      · subst hcs
        by_cases hn : n = m
        · subst hn; simp [eraseL, find_none h2]
        · simp [eraseL, LForest.find, hn, Ne.symm hn]
      · by_cases hn : n = m
        · subst hn; simp [eraseL, hcs, LForest.find]
        · simp [eraseL, hcs, LForest.find, hn]
    · simp only [eraseL, hm, if_false, LForest.find, ih]
      by_cases hn : n = c
      · subst hn; simp [hm]
      · simp [hn]
  | link m t rest ih =>
    obtain ⟨h2, h3⟩ := hw
    have ih := ih h3
    by_cases hm : m = c
    · subst hm
      by_cases hcs : cs = []
      · subst hcs
        by_cases hn : n = m
        · subst hn; simp [eraseL, find_none h2]
        · simp [eraseL, LForest.find, hn, Ne.symm hn]
      · by_cases hn : n = m
        · subst hn; simp [eraseL, hcs, LForest.find]
        · simp [eraseL, hcs, LForest.find, hn]
    · simp only [eraseL, hm, if_false, LForest.find, ih]
      by_cases hn : n = c
      · subst hn; simp [hm]
      · simp [hn]
  | dir m r s rest ihs ih =>
    obtain ⟨h2, h3, h4⟩ := hw
    have ih := ih h4
    by_cases hm : m = c
    · subst hm
      by_cases hcs : cs = []
      · subst hcs
        by_cases hn : n = m
        · subst hn; simp [eraseL, find_none h2]
        · simp [eraseL, LForest.find, hn, Ne.symm hn]
      · by_cases hn : n = m
        · subst hn; simp [eraseL, hcs, LForest.find]
        · simp [eraseL, hcs, LForest.find, hn, Ne.symm hn]
    · simp only [eraseL, hm, if_false, LForest.find, ih]
      by_cases hn : n = c
      · subst hn; simp [hm]
      · simp [hn]

theorem names_eraseL {f : LForest} : ∀ {p : List Str} {n : Str}, n ∈ (eraseL f p).names → n ∈ f.names := by
  induction f with
  | nil => intro p n h; cases p <;> simpa [eraseL] using h
  | file m r d rest ih =>
    intro p n h
    cases p with
    | nil => simpa [eraseL] using h
    | cons c cs =>
      simp only [eraseL] at h
      split at h
      · split at h
        · simp [LForest.names, h]
        · exact h
      · simp only [LForest.names, List.mem_cons] at h ⊢
        exact h.imp id ih
  | link m t rest ih =>
    intro p n h
    cases p with
    | nil => simpa [eraseL] using h
    | cons c cs =>
      simp only [eraseL] at h
      split at h
      · split at h
        · simp [LForest.names, h]
        · exact h
      · simp only [LForest.names, List.mem_cons] at h ⊢
        exact h.imp id ih
  | dir m r s rest _ ih =>
    intro p n h
    cases p with
    | nil => simpa [eraseL] using h
    | cons c cs =>
      simp only [eraseL] at h
      split at h
      · split at h
        · simp [LForest.names, h]
        · exact h
      · simp only [LForest.names, List.mem_cons] at h ⊢
        exact h.imp id ih

theorem uniq_eraseL {f : LForest} : ∀ {p : List Str}, f.Uniq → (eraseL f p).Uniq := by
  induction f with
  | nil => intro p _; cases p <;> trivial
  | file m r d rest ih =>
    intro p hw
    cases p with
    | nil => exact hw
    | cons c cs =>
      simp only [eraseL]
      split
      · split
        · exact hw.2
        · exact hw
      · exact ⟨fun h => hw.1 (names_eraseL h), ih hw.2⟩
  | link m t rest ih =>
    intro p hw
    cases p with
    | nil => exact hw
    | cons c cs =>
      simp only [eraseL]
      split
      · split
        · exact hw.2
        · exact hw
      · exact ⟨fun h => hw.1 (names_eraseL h), ih hw.2⟩
  | dir m r s rest ihs ih =>
    intro p hw
    cases p with
    | nil => exact hw
    | cons c cs =>
      simp only [eraseL]
      split
      · split
        · exact hw.2.2
        · exact ⟨hw.1, ihs hw.2.1, hw.2.2⟩
      · exact ⟨fun h => hw.1 (names_eraseL h), hw.2.1, ih hw.2.2⟩

theorem find_uniq {f : LForest} (hw : f.Uniq) {c : Str} {r : Bool} {s : LForest} (h : f.find c = some (.dir r s)) : s.Uniq := by
  induction f with
  | nil => simp [LForest.find] at h
  | file m r' d rest ih =>
    simp only [LForest.find] at h
    split at h
    · simp at h
    · exact ih hw.2 h
  | link m t rest ih =>
    simp only [LForest.find] at h
    split at h
    · simp at h
    · exact ih hw.2 h
  | dir m r' s' rest _ ih =>
    simp only [LForest.find] at h
    split at h
    · simp only [Option.some.injEq, LItem.dir.injEq] at h; rw [← h.2]; exact hw.2.1
    · exact ih hw.2.2 h

/-- An entry with nothing below it. -/
def LLeaf : LItem → Prop
  | .file _ _ => True
  | .link _ => True
  | .dir _ s => s = .nil

theorem lookup_lleaf {it : LItem} (h : LLeaf it) {q : List Str} (hq : q ≠ []) : lookupL it q = none := by
  cases q with
  | nil => exact absurd rfl hq
  | cons c q =>
    cases it with
    | file r d => rfl
    | link t => rfl
    | dir r s => cases h; rfl

theorem lentry_erase (q : List Str) : ∀ (r : Bool) (f : LForest) (p : List Str) (it : LItem), f.Uniq → p ≠ [] →
    lookupL (.dir r f) p = some it → LLeaf it →
    (lookupL (.dir r (eraseL f p)) q).map lentryOf = if q = p then none else (lookupL (.dir r f) q).map lentryOf := by
  induction q with
  | nil =>
    intro r f p it _ hp _ _
    rw [if_neg (Ne.symm hp)]; rfl
  | cons n q ih =>
    intro r f p it hw hp hl hleaf
    obtain ⟨c, cs, rfl⟩ : ∃ c cs, p = c :: cs := by cases p with | nil => exact absurd rfl hp | cons c cs => exact ⟨c, cs, rfl⟩
    simp only [lookupL, find_eraseL hw]
    by_cases hn : n = c
    · subst hn
      simp only [if_true, List.cons.injEq, true_and]
      simp only [lookupL] at hl
      cases hf : f.find n with
      | none => rw [hf] at hl; cases hl
      | some x =>
        rw [hf] at hl
        simp only at hl
        by_cases hcs : cs = []
        · subst hcs
          simp only [if_true, lookupL, Option.some.injEq] at hl ⊢
          subst hl
          by_cases hq : q = []
          · simp [hq]
          · simp [hq, lookup_lleaf hleaf hq]
        · simp only [if_neg hcs]
          cases x with
          | file r' d =>
            cases cs with
            | nil => exact absurd rfl hcs
            | cons a b => simp [lookupL] at hl
          | link t =>
            cases cs with
            | nil => exact absurd rfl hcs
            | cons a b => simp [lookupL] at hl
          | dir r' s => exact ih r' s cs it (find_uniq hw hf) hcs hl hleaf
    · simp [hn]

/-- `fs'` is `fs` with some entries removed. -/
structure LLess (fs' fs : LFS) : Prop where
  cwd : fs'.cwd = fs.cwd
  entry : ∀ q, lentry fs' q = none ∨ lentry fs' q = lentry fs q

theorem LLess.refl (fs : LFS) : LLess fs fs := ⟨rfl, fun _ => .inr rfl⟩

theorem LLess.trans {a b c : LFS} (h1 : LLess a b) (h2 : LLess b c) : LLess a c := by
  refine ⟨h1.cwd.trans h2.cwd, fun q => ?_⟩
  rcases h1.entry q with h | h
  · exact .inl h
  · rw [h]; exact h2.entry q

theorem LLess.at {fs' fs : LFS} (h : LLess fs' fs) {q : List Str} {it : LItem} (hq : fs'.at q = some it) :
    ∃ it', fs.at q = some it' ∧ lentryOf it = lentryOf it' := by
  have := h.entry q
  simp only [lentry, hq, Option.map_some, reduceCtorEq, false_or] at this
  cases h2 : fs.at q with
  | none => rw [h2] at this; cases this
  | some it' => rw [h2] at this; exact ⟨it', rfl, by simpa using this⟩

theorem LLess.seg {fs' fs : LFS} (h : LLess fs' fs) (cs : List Str) : ∀ cur,
    match fs'.seg cur cs with
    | .missing => True
    | .bad => fs.seg cur cs = .bad
    | .stop pos it => ∃ it', fs.seg cur cs = .stop pos it' ∧ lentryOf it = lentryOf it'
    | .follow t pos rest => fs.seg cur cs = .follow t pos rest := by
  induction cs with
  | nil =>
    intro cur
    simp only [LFS.seg]
    rcases h1 : fs'.at cur with _ | it
    · trivial
    · obtain ⟨it', h2, h3⟩ := h.at h1
      rcases it with ⟨r, d⟩ | ⟨r, s⟩ | t <;> rcases it' with ⟨r', d'⟩ | ⟨r', s'⟩ | t' <;> simp [lentryOf] at h3
      · simp only [h2]; exact ⟨_, rfl, by simp [lentryOf, h3]⟩
      · simp only [h2]; exact ⟨_, rfl, by simp [lentryOf, h3]⟩
      · simp only [h2]
  | cons c cs ih =>
    intro cur
    simp only [LFS.seg]
    rcases h1 : fs'.at cur with _ | it
    · trivial
    · obtain ⟨it', h2, h3⟩ := h.at h1
      rcases it with ⟨r, d⟩ | ⟨r, s⟩ | t <;> rcases it' with ⟨r', d'⟩ | ⟨r', s'⟩ | t' <;> simp [lentryOf] at h3
      · simp only [h2]
      · simp only [h2]
        by_cases hc : c = dotdot
        · simp only [hc, if_true]; exact ih _
        · simp only [hc, if_false]
          rcases h4 : fs'.at (cur ++ [c]) with _ | it1
          · have : fs'.seg (cur ++ [c]) cs = .missing := by cases cs <;> simp [LFS.seg, h4]
            simp only [this]
          · obtain ⟨it1', h5, h6⟩ := h.at h4
            rcases it1 with ⟨r1, d1⟩ | ⟨r1, s1⟩ | t1 <;> rcases it1' with ⟨r1', d1'⟩ | ⟨r1', s1'⟩ | t1' <;> simp [lentryOf] at h6
            · simp only [h5]; exact ih _
            · simp only [h5]; exact ih _
            · simp only [h5, h6]
      · simp only [h2]

theorem LLess.walk {fs' fs : LFS} (h : LLess fs' fs) (n : Nat) : ∀ cur cs,
    match fs'.walk n cur cs with
    | .notExist => True
    | .otherError => fs.walk n cur cs = .otherError
    | .found m pos it => ∃ it', fs.walk n cur cs = .found m pos it' ∧ lentryOf it = lentryOf it' := by
  induction n with
  | zero =>
    intro cur cs
    have hs := h.seg cs cur
    rw [walk_eq fs', walk_eq fs]
    rcases h1 : fs'.seg cur cs with _ | _ | ⟨p, i⟩ | ⟨t, p, rest⟩ <;> rw [h1] at hs
    · trivial
    · simp only at hs; rw [hs]
    · obtain ⟨it', h2, h3⟩ := hs; rw [h2]; exact ⟨it', rfl, h3⟩
    · simp only at hs; rw [hs]
  | succ n ih =>
    intro cur cs
    have hs := h.seg cs cur
    rw [walk_eq fs', walk_eq fs]
    rcases h1 : fs'.seg cur cs with _ | _ | ⟨p, i⟩ | ⟨t, p, rest⟩ <;> rw [h1] at hs
    · trivial
    · simp only at hs; rw [hs]
    · obtain ⟨it', h2, h3⟩ := hs; rw [h2]; exact ⟨it', rfl, h3⟩
    · simp only at hs; rw [hs]; exact ih _ _

theorem LLess.stat {fs' fs : LFS} (h : LLess fs' fs) (p : Str) :
    match fs'.stat p with
    | .notExist => True
    | .otherError => fs.stat p = .otherError
    | .found pos it => ∃ it', fs.stat p = .found pos it' ∧ lentryOf it = lentryOf it' := by
  unfold LFS.stat LFS.walkPath
  by_cases hp : p = []
  · simp only [hp, if_true, Walk.res]
  · simp only [hp, if_false, h.cwd]
    have := h.walk maxLinks (if isAbs p then [] else fs.cwd) (comps p)
    rcases h1 : fs'.walk maxLinks (if isAbs p then [] else fs.cwd) (comps p) with _ | _ | ⟨m, pos, it⟩ <;> rw [h1] at this
    · simp only [Walk.res]
    · simp only at this; simp only [Walk.res, this]
    · obtain ⟨it', h2, h3⟩ := this; rw [h2]; exact ⟨it', rfl, h3⟩

theorem LLess.lstat {fs' fs : LFS} (h : LLess fs' fs) (p : Str) :
    match fs'.lstat p with
    | .notExist => True
    | .otherError => fs.lstat p = .otherError
    | .found pos it => ∃ it', fs.lstat p = .found pos it' ∧ lentryOf it = lentryOf it' := by
  unfold LFS.lstat
  by_cases hp : Special p
  · simp only [hp, if_true]; exact h.stat p
  · simp only [hp, if_false, h.cwd]
    have := h.walk maxLinks (if isAbs p then [] else fs.cwd) (comps p).dropLast
    rcases h1 : fs'.walk maxLinks (if isAbs p then [] else fs.cwd) (comps p).dropLast with _ | _ | ⟨m, pos, it⟩ <;> rw [h1] at this
    · trivial
    · simp only at this; simp only [this]
    · obtain ⟨it', h2, h3⟩ := this
      rw [h2]
      rcases it with ⟨r, d⟩ | ⟨r, s⟩ | t <;> rcases it' with ⟨r', d'⟩ | ⟨r', s'⟩ | t' <;> simp [lentryOf] at h3
      · rfl
      · simp only
        rcases h4 : fs'.at (pos ++ [(comps p).getLastD []]) with _ | it1
        · trivial
        · obtain ⟨it1', h5, h6⟩ := h.at h4
          rw [h5]; exact ⟨it1', rfl, h6⟩
      · rfl

theorem LLess.notExist {fs' fs : LFS} (h : LLess fs' fs) {p : Str} (hp : fs.lstat p = .notExist) : fs'.lstat p = .notExist := by
  have := h.lstat p
  rw [hp] at this
  split at this
  · assumption
  · cases this
  · obtain ⟨_, h1, _⟩ := this; cases h1

theorem LLess.found {fs' fs : LFS} (h : LLess fs' fs) {p : Str} {pos : List Str} {it : LItem} (hp : fs'.lstat p = .found pos it) :
    ∃ it', fs.lstat p = .found pos it' ∧ lentryOf it = lentryOf it' := by
  have := h.lstat p
  rw [hp] at this
  exact this

theorem lstat_found {fs : LFS} {p : Str} {pos : List Str} {it : LItem} (h : fs.lstat p = .found pos it) :
    fs.at pos = some it ∧ (¬ Special p → pos ≠ []) := by
  unfold LFS.lstat at h
  split at h
  · rename_i hs
    exact ⟨(stat_found h).2.1, fun hn => absurd hs hn⟩
  · split at h
    · cases h
    · cases h
    · split at h
      · cases h
      · rename_i it' hat
        simp only [LStat.found.injEq] at h
        obtain ⟨rfl, rfl⟩ := h
        exact ⟨hat, fun _ => by simp⟩
    · cases h

/-- What one `os.Remove` does. -/
theorem osRemoveL_spec (deny : List Str → Bool) {fs : LFS} (hw : fs.root.Uniq) (p : Str) :
    (osRemoveL deny fs p).1.root.Uniq ∧ LLess (osRemoveL deny fs p).1 fs ∧
    (∀ q, lentry (osRemoveL deny fs p).1 q ≠ lentry fs q → ∃ it, fs.lstat p = .found q it) ∧
    ((osRemoveL deny fs p).2 ≠ .err → (osRemoveL deny fs p).1.lstat p = .notExist) ∧
    ((osRemoveL deny fs p).2 = .err → (osRemoveL deny fs p).1 = fs) := by
  have key : ∀ pos it, fs.lstat p = .found pos it → LLeaf it → ¬ Special p →
      ({ fs with root := eraseL fs.root pos } : LFS).root.Uniq ∧ LLess { fs with root := eraseL fs.root pos } fs ∧
      (∀ q, lentry { fs with root := eraseL fs.root pos } q ≠ lentry fs q → ∃ it, fs.lstat p = .found q it) ∧
      ({ fs with root := eraseL fs.root pos } : LFS).lstat p = .notExist := by
    intro pos it hs hleaf hlast
    obtain ⟨hat, hpos⟩ := lstat_found hs
    have he : ∀ q, lentry { fs with root := eraseL fs.root pos } q = if q = pos then none else lentry fs q :=
      fun q => lentry_erase q true fs.root pos it hw (hpos hlast) hat hleaf
    have hless : LLess { fs with root := eraseL fs.root pos } fs := by
      refine ⟨rfl, fun q => ?_⟩
      rw [he]; split
      · exact .inl rfl
      · exact .inr rfl
    refine ⟨uniq_eraseL hw, hless, ?_, ?_⟩
    · intro q hq
      rw [he] at hq
      split at hq
      · rename_i h; subst h; exact ⟨it, hs⟩
      · exact absurd rfl hq
    · have h1 := hless.lstat p
      rw [hs] at h1
      split at h1
      · assumption
      · cases h1
      · rename_i pos' it1 heq
        obtain ⟨it', h2, -⟩ := h1
        simp only [LStat.found.injEq] at h2
        have h3 := he pos
        rw [if_pos rfl] at h3
        have h4 := (lstat_found heq).1
        rw [← h2.1] at h4
        simp [lentry, h4] at h3
  have same : fs.root.Uniq ∧ LLess fs fs ∧ (∀ q, lentry fs q ≠ lentry fs q → ∃ it, fs.lstat p = .found q it) :=
    ⟨hw, LLess.refl fs, fun q h => absurd rfl h⟩
  unfold osRemoveL
  split
  · rename_i hs; exact ⟨same.1, same.2.1, same.2.2, fun _ => hs, fun h => by cases h⟩
  · exact ⟨same.1, same.2.1, same.2.2, fun h => absurd rfl h, fun _ => rfl⟩
  · rename_i pos it hs
    split
    · exact ⟨same.1, same.2.1, same.2.2, fun h => absurd rfl h, fun _ => rfl⟩
    · rename_i hlast
      split
      · exact ⟨same.1, same.2.1, same.2.2, fun h => absurd rfl h, fun _ => rfl⟩
      · split
        · split
          · exact ⟨same.1, same.2.1, same.2.2, fun h => absurd rfl h, fun _ => rfl⟩
          · obtain ⟨k1, k2, k3, k4⟩ := key pos _ hs trivial hlast
            exact ⟨k1, k2, k3, fun _ => k4, fun h => by cases h⟩
        · split
          · exact ⟨same.1, same.2.1, same.2.2, fun h => absurd rfl h, fun _ => rfl⟩
          · obtain ⟨k1, k2, k3, k4⟩ := key pos _ hs trivial hlast
            exact ⟨k1, k2, k3, fun _ => k4, fun h => by cases h⟩
        · obtain ⟨k1, k2, k3, k4⟩ := key pos _ hs rfl hlast
          exact ⟨k1, k2, k3, fun _ => k4, fun h => by cases h⟩
        · exact ⟨same.1, same.2.1, same.2.2, fun h => absurd rfl h, fun _ => rfl⟩

theorem removeAllL_spec (deny : List Str → Bool) (l : List Str) : ∀ {fs : LFS}, fs.root.Uniq →
    (removeAllL deny l fs).1.root.Uniq ∧ LLess (removeAllL deny l fs).1 fs ∧
    (∀ q, lentry (removeAllL deny l fs).1 q ≠ lentry fs q → ∃ f ∈ l, ∃ it, fs.lstat f = .found q it) ∧
    ((removeAllL deny l fs).2 = true → ∀ f ∈ l, (removeAllL deny l fs).1.lstat f = .notExist) := by
  induction l with
  | nil => intro fs hw; exact ⟨hw, LLess.refl fs, fun q h => absurd rfl h, fun _ f hf => absurd hf (by simp)⟩
  | cons f l ih =>
    intro fs hw
    obtain ⟨s1, s2, s3, s4, s5⟩ := osRemoveL_spec deny hw f
    unfold removeAllL
    split
    · rename_i fs1 heq
      rw [heq] at s1 s2 s3 s4 s5
      refine ⟨s1, s2, ?_, fun h => by cases h⟩
      intro q hq
      obtain ⟨it, h⟩ := s3 q hq
      exact ⟨f, by simp, it, h⟩
    · rename_i fs1 res hres heq
      rw [heq] at s1 s2 s3 s4 s5
      obtain ⟨i1, i2, i3, i4⟩ := ih s1
      have hne : res ≠ .err := by rintro rfl; exact hres rfl
      refine ⟨i1, i2.trans s2, ?_, ?_⟩
      · intro q hq
        by_cases hq1 : lentry (removeAllL deny l fs1).1 q = lentry fs1 q
        · rw [hq1] at hq
          obtain ⟨it, h⟩ := s3 q hq
          exact ⟨f, by simp, it, h⟩
        · obtain ⟨g, hg, it, h⟩ := i3 q hq1
          obtain ⟨it', h', -⟩ := s2.found h
          exact ⟨g, by simp [hg], it', h'⟩
      · intro hok g hg
        rcases List.mem_cons.1 hg with rfl | hg
        · exact i2.notExist (s4 hne)
        · exact i4 hok g hg

/-! ## C82 -/

/-- **C82** If `Clean` (not in dry-run mode) returns nil, nothing is left under the names it lists: no file, no directory and no link. -/
theorem C82_all_gone (deny : List Str → Bool) (ctx : Ctx) (reg : List Str) (c : Clean) {fs : LFS} (hw : fs.root.Uniq)
    (hd : getDryRun ctx = false) (hok : (cleanRunL deny ctx reg c fs).2 = true) (f : Str) (hf : Names c reg f) :
    (cleanRunL deny ctx reg c fs).1.lstat f = .notExist := by
  rw [← mem_cleanList] at hf
  unfold cleanRunL at hok ⊢
  simp only [hd, Bool.false_eq_true, if_false] at hok ⊢
  split at hok
  · rename_i h; rw [h] at hf; simp at hf
  · rename_i h
    rw [if_neg h]
    exact (removeAllL_spec deny _ hw).2.2.2 hok f hf

/-- **C82** Whether it succeeds or fails, `Clean` removes only what is itself listed: the entry at every position that no listed name
stands for, where a link at the end of a name is not followed, is as before. In a dry run nothing is removed at all. -/
theorem C82_nothing_else (deny : List Str → Bool) (ctx : Ctx) (reg : List Str) (c : Clean) {fs : LFS} (hw : fs.root.Uniq) (q : List Str)
    (hq : getDryRun ctx = true ∨ ¬ ∃ f, Names c reg f ∧ ∃ it, fs.lstat f = .found q it) :
    lentry (cleanRunL deny ctx reg c fs).1 q = lentry fs q ∧ (cleanRunL deny ctx reg c fs).1.cwd = fs.cwd := by
  unfold cleanRunL
  simp only
  split
  · exact ⟨rfl, rfl⟩
  · split
    · exact ⟨rfl, rfl⟩
    · rename_i hdry
      have hq := hq.resolve_left hdry
      obtain ⟨-, s2, s3, -⟩ := removeAllL_spec deny (cleanList c reg).1 hw
      refine ⟨?_, s2.cwd⟩
      by_contra hne
      obtain ⟨f, hf, it, h⟩ := s3 q hne
      exact hq ⟨f, mem_cleanList.1 hf, it, h⟩

/-- **C82** What a listed link leads to stays as it is, unless it is listed too, in its own place. -/
theorem C82_target_kept (deny : List Str → Bool) (ctx : Ctx) (reg : List Str) (c : Clean) {fs : LFS} (hw : fs.root.Uniq) {f : Str}
    {pos : List Str} {r : Bool} {d : Bytes} (hs : fs.stat f = .found pos (.file r d))
    (hno : ∀ g, Names c reg g → ∀ it, fs.lstat g ≠ .found pos it) :
    (cleanRunL deny ctx reg c fs).1.at pos = some (.file r d) := by
  have h := (C82_nothing_else deny ctx reg c hw pos (.inr (by rintro ⟨g, hg, it, h⟩; exact hno g hg it h))).1
  have hat := (stat_found hs).2.1
  simp only [lentry, hat, Option.map_some, lentryOf] at h
  rcases h1 : (cleanRunL deny ctx reg c fs).1.at pos with _ | ⟨r', d'⟩ | ⟨r', s'⟩ | t <;> rw [h1] at h <;> simp [lentryOf] at h
  rw [h.1, h.2]

theorem removeAllL_ok (deny : List Str → Bool) (l : List Str) : ∀ {fs : LFS}, fs.root.Uniq →
    (∀ f ∈ l, fs.lstat f = .notExist ∨ LRemovable deny fs f) → (removeAllL deny l fs).2 = true := by
  induction l with
  | nil => intro fs _ _; rfl
  | cons f l ih =>
    intro fs hw h
    obtain ⟨s1, s2, -, -, -⟩ := osRemoveL_spec deny hw f
    have hne : (osRemoveL deny fs f).2 ≠ .err := by
      rcases h f (by simp) with h1 | ⟨pos, it, h1, h2, h3, h4, h5⟩
      · simp [osRemoveL, h1]
      · rcases it with ⟨r, d⟩ | ⟨r, s⟩ | t
        · simp [osRemoveL, h1, h3, h4, h5]
        · exact absurd rfl (h2 r s)
        · simp [osRemoveL, h1, h3, h4, h5]
    unfold removeAllL
    split
    · rename_i fs1 heq; rw [heq] at hne; exact absurd rfl hne
    · rename_i fs1 res hres heq
      rw [heq] at s1 s2
      refine ih s1 ?_
      intro g hg
      rcases h g (by simp [hg]) with h1 | ⟨pos, it, h1, h2, h3⟩
      · exact .inl (s2.notExist h1)
      · have h4 := s2.lstat g
        split at h4
        · left; assumption
        · rw [h1] at h4; cases h4
        · rename_i pos' it' heq'
          obtain ⟨it'', h5, h6⟩ := h4
          rw [h1] at h5
          simp only [LStat.found.injEq] at h5
          obtain ⟨rfl, rfl⟩ := h5
          refine .inr ⟨pos, it', heq', ?_, h3⟩
          rintro r s rfl
          rcases it with ⟨r', d'⟩ | ⟨r', s'⟩ | t' <;> simp [lentryOf] at h6
          exact h2 _ _ rfl

/-- **C82** Names that lead nowhere are ignored: if under every listed name there is nothing, or a file or link that can be removed,
`Clean` returns nil (and, by `C82_all_gone`, they are all gone). -/
theorem C82_missing_ignored (deny : List Str → Bool) (ctx : Ctx) (reg : List Str) (c : Clean) {fs : LFS} (hw : fs.root.Uniq)
    (h : ∀ f, Names c reg f → fs.lstat f = .notExist ∨ LRemovable deny fs f) : (cleanRunL deny ctx reg c fs).2 = true := by
  unfold cleanRunL
  simp only
  split
  · rfl
  · split
    · rfl
    · exact removeAllL_ok deny _ hw (fun f hf => h f (mem_cleanList.1 hf))

/-! ## Concrete cases -/

section
/-- a directory `real` with a file `x`; links `a` to the directory, `b` to the file and `c` to nothing -/
def exClean : LFS where
  root := .dir "real".toList true (.file "x".toList true [1] .nil)
    (.link "a".toList "real".toList (.link "b".toList "real/x".toList (.link "c".toList "nowhere".toList .nil)))
  cwd := []

theorem exClean_uniq : exClean.root.Uniq := by
  simp only [exClean, LForest.Uniq, LForest.names]
  refine ⟨?_, ⟨?_, trivial⟩, ?_, ?_, ?_, trivial⟩ <;> decide +kernel

def exC (l : List String) : Clean := { files := { arr := l.map String.toList, len := l.length }, autoclean := false }

/-- The links are removed, also the one that leads nowhere, and the file is kept. -/
example : (cleanRunL (fun _ => false) .root [] (exC ["b", "c", "nothing"]) exClean).2 = true ∧
    lentry (cleanRunL (fun _ => false) .root [] (exC ["b", "c", "nothing"]) exClean).1 ["b".toList] = none ∧
    lentry (cleanRunL (fun _ => false) .root [] (exC ["b", "c", "nothing"]) exClean).1 ["c".toList] = none ∧
    lentry (cleanRunL (fun _ => false) .root [] (exC ["b", "c", "nothing"]) exClean).1 ["real".toList, "x".toList] = some (.file true [1]) := by
  decide +kernel

example : exClean.stat "b".toList = .found ["real".toList, "x".toList] (.file true [1]) := rfl

/-- A file behind a link in the middle of the path is removed. -/
example : lentry (cleanRunL (fun _ => false) .root [] (exC ["a/x"]) exClean).1 ["real".toList, "x".toList] = none := by decide +kernel

/-- **C82, finding.** If both a link to a directory and a file behind it are listed, the link is removed first (the list is sorted), and
then the name of the file leads nowhere: `Clean` returns nil, and the file is still there. -/
theorem C82_finding_behind_link :
    let c := exC ["a/x", "a"]
    let r := cleanRunL (fun _ => false) .root [] c exClean
    exClean.lstat "a/x".toList = .found ["real".toList, "x".toList] (.file true [1]) ∧ Names c [] "a/x".toList ∧ r.2 = true ∧
      lentry r.1 ["real".toList, "x".toList] = some (.file true [1]) := by
  refine ⟨rfl, .inl ?_, ?_, ?_⟩ <;> decide +kernel
end

end Fab.Links
