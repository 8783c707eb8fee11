import Verif.FileHash
import Mathlib.Data.List.Induction

/-!
# Symbolic links: C81

files.go:247-322 once more, in a file system that may contain symbolic links.  `os.Stat` and `os.Open` follow links;
`filepath.Join` works on the text of the path and knows nothing of links.  A link may lead anywhere: to a file, to a
directory, to nothing, to a place above itself.
-/

namespace Fab.Links
open Fab Path Files

/-! ## A file system with symbolic links -/

/-- The contents of a directory; as `Forest` (FS.lean), with links, which have a text. -/
inductive LForest where
  | nil
  | file (name : Str) (readable : Bool) (data : Bytes) (rest : LForest)
  | dir (name : Str) (readable : Bool) (sub : LForest) (rest : LForest)
  | link (name : Str) (target : Str) (rest : LForest)

inductive LItem where
  | file (readable : Bool) (data : Bytes)
  | dir (readable : Bool) (sub : LForest)
  | link (target : Str)

namespace LForest

def names : LForest → List Str
  | nil => []
  | file n _ _ r => n :: names r
  | dir n _ _ r => n :: names r
  | link n _ r => n :: names r

def find (f : LForest) (n : Str) : Option LItem :=
  match f with
  | nil => none
  | file m r d rest => if m = n then some (.file r d) else find rest n
  | dir m r s rest => if m = n then some (.dir r s) else find rest n
  | link m t rest => if m = n then some (.link t) else find rest n

/-- Every name is a proper name. -/
def WF : LForest → Prop
  | nil => True
  | file n _ _ rest => Name n ∧ rest.WF
  | dir n _ sub rest => Name n ∧ sub.WF ∧ rest.WF
  | link n _ rest => Name n ∧ rest.WF

/-- The number of levels. -/
def height : LForest → Nat
  | nil => 0
  | file _ _ _ rest => rest.height
  | dir _ _ sub rest => max (sub.height + 1) rest.height
  | link _ _ rest => rest.height

end LForest

/-- The entry at the end of a list of names; links are not followed. -/
def lookupL : LItem → List Str → Option LItem
  | it, [] => some it
  | .dir _ sub, c :: cs => match sub.find c with
    | some it => lookupL it cs
    | none => none
  | .file _ _, _ :: _ => none
  | .link _, _ :: _ => none

/-- The root directory and the working directory of the process. -/
structure LFS where
  root : LForest
  cwd : List Str

def LFS.at (fs : LFS) (pos : List Str) : Option LItem := lookupL (.dir true fs.root) pos

/-- What a walk along names does up to the first link. -/
inductive Seg where
  | missing
  | bad
  | stop (pos : List Str) (it : LItem)
  | follow (target : Str) (pos : List Str) (rest : List Str)

/-- Walk from the position `cur` along the names, up to the first link. -/
def LFS.seg (fs : LFS) (cur : List Str) : List Str → Seg
  | [] => match fs.at cur with
    | none => .missing
    | some (.link _) => .bad
    | some it => .stop cur it
  | c :: cs => match fs.at cur with
    | none => .missing
    | some (.dir _ _) =>
      if c = dotdot then fs.seg cur.dropLast cs
      else match fs.at (cur ++ [c]) with
        | some (.link t) => .follow t cur cs
        | _ => fs.seg (cur ++ [c]) cs
    | some _ => .bad

/-- The end of a walk: not found (ENOENT), another error (ENOTDIR, or ELOOP after too many links), or an entry with its
position and the number of links that may still be followed. -/
inductive Walk where
  | notExist
  | otherError
  | found (left : Nat) (pos : List Str) (it : LItem)

/-- The kernel's walk along a path, with at most `n` links: the text of a link takes the place of its name. -/
def LFS.walk (fs : LFS) : Nat → List Str → List Str → Walk
  | 0, cur, cs => match fs.seg cur cs with
    | .missing => .notExist
    | .bad => .otherError
    | .stop pos it => .found 0 pos it
    | .follow _ _ _ => .otherError
  | n + 1, cur, cs => match fs.seg cur cs with
    | .missing => .notExist
    | .bad => .otherError
    | .stop pos it => .found (n + 1) pos it
    | .follow t pos rest => fs.walk n (if isAbs t then [] else pos) (comps t ++ rest)

/-- The most links that are followed in one path (Linux: MAXSYMLINKS). -/
def maxLinks : Nat := 40

/-- The walk along a path. -/
def LFS.walkPath (fs : LFS) (p : Str) : Walk :=
  if p = [] then .notExist else fs.walk maxLinks (if isAbs p then [] else fs.cwd) (comps p)

/-- The result of `os.Stat`. -/
inductive LStat where
  | notExist
  | otherError
  | found (pos : List Str) (it : LItem)

def Walk.res : Walk → LStat
  | .notExist => .notExist
  | .otherError => .otherError
  | .found _ pos it => .found pos it

/-- `os.Stat`: links are followed. -/
def LFS.stat (fs : LFS) (p : Str) : LStat := (fs.walkPath p).res

/-! ## The code -/

variable (hex : Bytes → Str)

/-- files.go:268-276 -/
def hashListL (f : Str → HMap → Option (Except HErr HMap)) : List Str → HMap → Option (Except HErr HMap)
  | [], m => some (.ok m)
  | i :: is, m => match f i m with
    | some (.ok m') => hashListL f is m'
    | r => r

/-- files.go:278-307, to a depth of `n` calls (`none`: not finished at that depth). The entries of a directory are taken in
the order in which they are stored. `os.ReadDir` and `os.Open` find what `os.Stat` has just found: the files do not change meanwhile. -/
def hashItemL (fs : LFS) : Nat → Str → HMap → Option (Except HErr HMap)
  | 0, _, _ => none
  | n + 1, item, m =>
    if (m.get item).isSome then some (.ok m)
    else match fs.stat item with
      | .notExist => some (.ok (m.put item []))
      | .otherError => some (.error .panic)
      | .found _ (.file true d) => some (.ok (m.put item (hex d)))
      | .found _ (.file false _) => some (.error .err)
      | .found _ (.dir true sub) => hashListL (hashItemL fs n) (sub.names.map fun c => join [item, c]) m
      | .found _ (.dir false _) => some (.error .err)
      | .found _ (.link _) => some (.error .panic)

/-- files.go:250-266: the call returns `r` (at some depth). -/
def Hashes (fs : LFS) (items : List Str) (r : Except HErr (List Str)) : Prop :=
  ∃ n e, hashListL (hashItemL hex fs n) items [] = some e ∧ r = e.map hashList

/-! ## Specification -/

/-- The paths below a path: the path itself and, if it leads to a directory (perhaps through links), the paths below it joined with
each name in that directory. -/
inductive Below (fs : LFS) : Str → Str → Prop where
  | here (p : Str) : Below fs p p
  | entry {p k c : Str} {pos : List Str} {r : Bool} {sub : LForest} : fs.stat p = .found pos (.dir r sub) → c ∈ sub.names →
      Below fs (join [p, c]) k → Below fs p k

/-- The path leads to a directory. -/
def IsDir (fs : LFS) (p : Str) : Prop := ∃ pos r sub, fs.stat p = .found pos (.dir r sub)

/-- The names that an item stands for. -/
def LCovers (fs : LFS) (item k : Str) : Prop := Below fs item k ∧ ¬ IsDir fs k

/-- The contents found under a name, through links: `none` if there is nothing (also: if a link leads nowhere). -/
def LContent (fs : LFS) (k : Str) (c : Option Bytes) : Prop :=
  (fs.stat k = .notExist ∧ c = none) ∨ ∃ pos d, fs.stat k = .found pos (.file true d) ∧ c = some d

/-- The value recorded for a name. -/
def LVal (fs : LFS) (k v : Str) : Prop := ∃ c, LContent fs k c ∧ v = (c.map hex).getD []

/-- The path can be followed (or leads nowhere), and what it leads to can be read. -/
def Good (fs : LFS) (p : Str) : Prop :=
  match fs.stat p with
  | .notExist => True
  | .otherError => False
  | .found _ (.file r _) => r = true
  | .found _ (.dir r _) => r = true
  | .found _ (.link _) => False

/-- A path with ".." at most at its beginning (an absolute path: nowhere). All cleaned paths are such. -/
def Tidy (p : Str) : Prop := normC (isAbs p) (comps p) = comps p

/-! ## Walks -/

theorem lookupL_append (it : LItem) (a b : List Str) :
    lookupL it (a ++ b) = (lookupL it a).bind fun it' => lookupL it' b := by
  induction a generalizing it with
  | nil => rfl
  | cons c a ih =>
    cases it with
    | file r d => rfl
    | link t => rfl
    | dir r s =>
      simp only [List.cons_append, lookupL]
      cases s.find c with
      | none => rfl
      | some it => exact ih it

theorem seg_append (fs : LFS) (cur a b : List Str) : fs.seg cur (a ++ b) =
    match fs.seg cur a with
    | .missing => .missing
    | .bad => .bad
    | .stop pos _ => fs.seg pos b
    | .follow t pos rest => .follow t pos (rest ++ b) := by
  induction a generalizing cur with
  | nil =>
    simp only [List.nil_append, LFS.seg]
    rcases hc : fs.at cur with _ | ⟨r, d⟩ | ⟨r, s⟩ | t
    · cases b <;> simp [LFS.seg, hc]
    · rfl
    · rfl
    · cases b <;> simp [LFS.seg, hc]
  | cons c a ih =>
    simp only [List.cons_append, LFS.seg]
    rcases hc : fs.at cur with _ | ⟨r, d⟩ | ⟨r, s⟩ | t
    · rfl
    · rfl
    · simp only
      split
      · exact ih _
      · split
        · rfl
        · exact ih _
    · rfl

theorem walk_eq (fs : LFS) (n : Nat) (cur cs : List Str) : fs.walk n cur cs =
    match fs.seg cur cs with
    | .missing => .notExist
    | .bad => .otherError
    | .stop pos it => .found n pos it
    | .follow t pos rest => match n with
      | 0 => .otherError
      | n + 1 => fs.walk n (if isAbs t then [] else pos) (comps t ++ rest) := by
  cases n <;> rfl

theorem walk_append (fs : LFS) (n : Nat) : ∀ (cur a b : List Str), fs.walk n cur (a ++ b) =
    match fs.walk n cur a with
    | .notExist => .notExist
    | .otherError => .otherError
    | .found n' pos _ => fs.walk n' pos b := by
  induction n with
  | zero =>
    intro cur a b
    rw [walk_eq fs 0 cur (a ++ b), walk_eq fs 0 cur a, seg_append]
    cases fs.seg cur a with
    | stop pos it => exact (walk_eq fs 0 pos b).symm
    | _ => rfl
  | succ n ih =>
    intro cur a b
    rw [walk_eq fs (n + 1) cur (a ++ b), walk_eq fs (n + 1) cur a, seg_append]
    rcases hs : fs.seg cur a with _ | _ | ⟨pos, it⟩ | ⟨t, pos, rest⟩
    · rfl
    · rfl
    · exact (walk_eq fs (n + 1) pos b).symm
    · simp only
      rw [← List.append_assoc, ih]

theorem seg_stop {fs : LFS} {cs cur pos : List Str} {it : LItem} (h : fs.seg cur cs = .stop pos it) :
    fs.at pos = some it ∧ ∀ t, it ≠ .link t := by
  induction cs generalizing cur with
  | nil =>
    simp only [LFS.seg] at h
    rcases hc : fs.at cur with _ | ⟨r, d⟩ | ⟨r, s⟩ | t <;> rw [hc] at h <;> simp only [reduceCtorEq, Seg.stop.injEq] at h
    · obtain ⟨rfl, rfl⟩ := h; exact ⟨hc, by simp⟩
    · obtain ⟨rfl, rfl⟩ := h; exact ⟨hc, by simp⟩
  | cons c cs ih =>
    simp only [LFS.seg] at h
    rcases hc : fs.at cur with _ | ⟨r, d⟩ | ⟨r, s⟩ | t <;> rw [hc] at h <;> simp only [reduceCtorEq] at h
    split at h
    · exact ih h
    · split at h
      · simp at h
      · exact ih h

theorem walk_found {fs : LFS} {n : Nat} : ∀ {cs cur pos : List Str} {it : LItem} {n' : Nat}, fs.walk n cur cs = .found n' pos it →
    fs.at pos = some it ∧ (∀ t, it ≠ .link t) ∧ n' ≤ n := by
  induction n with
  | zero =>
    intro cs cur pos it n' h
    unfold LFS.walk at h
    rcases hs : fs.seg cur cs with _ | _ | ⟨p, i⟩ | ⟨t, p, rest⟩ <;> rw [hs] at h <;> simp only [reduceCtorEq, Walk.found.injEq] at h
    obtain ⟨rfl, rfl, rfl⟩ := h
    exact ⟨(seg_stop hs).1, (seg_stop hs).2, le_refl _⟩
  | succ n ih =>
    intro cs cur pos it n' h
    unfold LFS.walk at h
    rcases hs : fs.seg cur cs with _ | _ | ⟨p, i⟩ | ⟨t, p, rest⟩ <;> rw [hs] at h <;> simp only [reduceCtorEq, Walk.found.injEq] at h
    · obtain ⟨rfl, rfl, rfl⟩ := h
      exact ⟨(seg_stop hs).1, (seg_stop hs).2, le_refl _⟩
    · obtain ⟨h1, h2, h3⟩ := ih h
      exact ⟨h1, h2, by omega⟩

theorem stat_found {fs : LFS} {p : Str} {pos : List Str} {it : LItem} (h : fs.stat p = .found pos it) :
    p ≠ [] ∧ fs.at pos = some it ∧ (∀ t, it ≠ .link t) ∧
    ∃ n, n ≤ maxLinks ∧ fs.walk maxLinks (if isAbs p then [] else fs.cwd) (comps p) = .found n pos it := by
  unfold LFS.stat LFS.walkPath at h
  split at h
  · simp [Walk.res] at h
  rename_i hne
  rcases hw : fs.walk maxLinks (if isAbs p then [] else fs.cwd) (comps p) with _ | _ | ⟨n, pos', it'⟩ <;> rw [hw] at h <;>
    simp only [Walk.res, reduceCtorEq, LStat.found.injEq] at h
  obtain ⟨rfl, rfl⟩ := h
  exact ⟨hne, (walk_found hw).1, (walk_found hw).2.1, n, (walk_found hw).2.2, rfl⟩

/-! ## Forests -/

theorem find_of_names {f : LForest} {c : Str} (h : c ∈ f.names) : ∃ it, f.find c = some it := by
  induction f with
  | nil => simp [LForest.names] at h
  | file m r d rest ih =>
    simp only [LForest.names, List.mem_cons] at h
    simp only [LForest.find]
    split
    · exact ⟨_, rfl⟩
    · rename_i hm; exact ih (h.resolve_left (fun e => hm e.symm))
  | dir m r s rest _ ih =>
    simp only [LForest.names, List.mem_cons] at h
    simp only [LForest.find]
    split
    · exact ⟨_, rfl⟩
    · rename_i hm; exact ih (h.resolve_left (fun e => hm e.symm))
  | link m t rest ih =>
    simp only [LForest.names, List.mem_cons] at h
    simp only [LForest.find]
    split
    · exact ⟨_, rfl⟩
    · rename_i hm; exact ih (h.resolve_left (fun e => hm e.symm))

theorem names_of_find {f : LForest} {c : Str} {it : LItem} (h : f.find c = some it) : c ∈ f.names := by
  induction f with
  | nil => simp [LForest.find] at h
  | file m r d rest ih =>
    simp only [LForest.find] at h
    split at h
    · rename_i h'; simp [LForest.names, h']
    · simp [LForest.names, ih h]
  | dir m r s rest _ ih =>
    simp only [LForest.find] at h
    split at h
    · rename_i h'; simp [LForest.names, h']
    · simp [LForest.names, ih h]
  | link m t rest ih =>
    simp only [LForest.find] at h
    split at h
    · rename_i h'; simp [LForest.names, h']
    · simp [LForest.names, ih h]

theorem names_wf {f : LForest} (hw : f.WF) : ∀ c ∈ f.names, Name c := by
  induction f with
  | nil => simp [LForest.names]
  | file m r d rest ih =>
    simp only [LForest.WF] at hw
    simp only [LForest.names, List.mem_cons, forall_eq_or_imp]
    exact ⟨hw.1, ih hw.2⟩
  | dir m r s rest _ ih =>
    simp only [LForest.WF] at hw
    simp only [LForest.names, List.mem_cons, forall_eq_or_imp]
    exact ⟨hw.1, ih hw.2.2⟩
  | link m t rest ih =>
    simp only [LForest.WF] at hw
    simp only [LForest.names, List.mem_cons, forall_eq_or_imp]
    exact ⟨hw.1, ih hw.2⟩

theorem find_dir {f : LForest} {c : Str} {r : Bool} {s : LForest} (h : f.find c = some (.dir r s)) :
    s.height < f.height ∧ (f.WF → s.WF) := by
  induction f with
  | nil => simp [LForest.find] at h
  | file m r' d rest ih =>
    simp only [LForest.find] at h
    split at h
    · simp at h
    · exact ⟨(ih h).1, fun hw => (ih h).2 hw.2⟩
  | dir m r' s' rest _ ih =>
    simp only [LForest.find] at h
    split at h
    · simp only [Option.some.injEq, LItem.dir.injEq] at h
      obtain ⟨rfl, rfl⟩ := h
      exact ⟨by simp only [LForest.height]; omega, fun hw => hw.2.1⟩
    · have := (ih h).1
      exact ⟨by simp only [LForest.height]; omega, fun hw => (ih h).2 hw.2.2⟩
  | link m t rest ih =>
    simp only [LForest.find] at h
    split at h
    · simp at h
    · exact ⟨(ih h).1, fun hw => (ih h).2 hw.2⟩

theorem lookup_wf {rel : List Str} : ∀ {it : LItem} {r : Bool} {s : LForest}, (∀ r s, it = .dir r s → s.WF) →
    lookupL it rel = some (.dir r s) → s.WF := by
  induction rel with
  | nil => intro it r s hw h; simp only [lookupL, Option.some.injEq] at h; exact hw _ _ h
  | cons c cs ih =>
    intro it r s hw h
    cases it with
    | file r d => simp [lookupL] at h
    | link t => simp [lookupL] at h
    | dir r' s' =>
      simp only [lookupL] at h
      rcases hf : s'.find c with _ | it2
      · rw [hf] at h; simp at h
      · rw [hf] at h
        refine ih (fun r2 s2 e => ?_) h
        subst e
        exact (find_dir hf).2 (hw _ _ rfl)

theorem at_wf {fs : LFS} (hw : fs.root.WF) {pos : List Str} {r : Bool} {s : LForest} (h : fs.at pos = some (.dir r s)) : s.WF :=
  lookup_wf (it := .dir true fs.root) (by rintro _ _ h; cases h; exact hw) h

/-! ## One step down -/

theorem normC_snoc {r : Bool} {cs : List Str} {c : Str} (h : c ≠ dotdot) : normC r (cs ++ [c]) = normC r cs ++ [c] := by
  unfold normC
  rw [List.foldl_append]
  simp [push, h]

theorem join_comps {p c : Str} (hp : p ≠ []) (hc : Name c) :
    isAbs (join [p, c]) = isAbs p ∧ comps (join [p, c]) = normC (isAbs p) (comps p) ++ [c] := by
  have hel := normC_elem (r := isAbs p) (elems_append (a := p) (es := [c]))
  rw [join_eq hp, isAbs_render _ hel, comps_render _ hel]
  refine ⟨rfl, ?_⟩
  simp only [List.flatMap_cons, List.flatMap_nil, List.append_nil, comps_single hc.1]
  exact normC_snoc hc.2

theorem tidy_join {p c : Str} (hp : p ≠ []) (hc : Name c) : Tidy (join [p, c]) := by
  obtain ⟨h1, h2⟩ := join_comps hp hc
  unfold Tidy
  rw [h1, h2, normC_snoc hc.2, normC_idem]

/-- Below a tidy path, a name is looked up where the path leads. -/
theorem walk_join (fs : LFS) {p c : Str} {n : Nat} {pos : List Str} {it : LItem} (hp : p ≠ []) (ht : Tidy p) (hc : Name c)
    (h : fs.walk maxLinks (if isAbs p then [] else fs.cwd) (comps p) = .found n pos it) :
    fs.walkPath (join [p, c]) = fs.walk n pos [c] := by
  obtain ⟨h1, h2⟩ := join_comps hp hc
  unfold LFS.walkPath
  rw [if_neg (join_ne_nil hp _), h1, h2, ht, walk_append, h]

/-- One name below a directory: a file or directory there, or what a link there leads to. -/
theorem walk_one (fs : LFS) {n : Nat} {pos : List Str} {r : Bool} {sub : LForest} {c : Str} (hat : fs.at pos = some (.dir r sub))
    (hc : c ≠ dotdot) {it : LItem} (hf : sub.find c = some it) : fs.walk n pos [c] =
      match it with
      | .link t => (match n with
        | 0 => .otherError
        | n + 1 => fs.walk n (if isAbs t then [] else pos) (comps t))
      | it => .found n (pos ++ [c]) it := by
  have h1 : fs.at (pos ++ [c]) = some it := by
    rw [LFS.at, lookupL_append, ← LFS.at, hat]
    simp [lookupL, hf]
  rw [walk_eq]
  simp only [LFS.seg, hat, if_neg hc, h1]
  cases it with
  | file r d => rfl
  | dir r s => rfl
  | link t => simp only [List.append_nil]

/-! ## The recursion ends -/

theorem hashListL_mono {f g : Str → HMap → Option (Except HErr HMap)} (h : ∀ i m e, f i m = some e → g i m = some e) :
    ∀ (l : List Str) (m : HMap) (e), hashListL f l m = some e → hashListL g l m = some e := by
  intro l
  induction l with
  | nil => intro m e h'; exact h'
  | cons i l ih =>
    intro m e h'
    simp only [hashListL] at h' ⊢
    rcases hf : f i m with _ | e' | m'
    · rw [hf] at h'; simp at h'
    · rw [hf] at h'; rw [h _ _ _ hf]; exact h'
    · rw [hf] at h'; rw [h _ _ _ hf]; exact ih _ _ h'

theorem hashItemL_succ (fs : LFS) (n : Nat) : ∀ (i : Str) (m : HMap) (e), hashItemL hex fs n i m = some e →
    hashItemL hex fs (n + 1) i m = some e := by
  induction n with
  | zero => intro i m e h; simp [hashItemL] at h
  | succ n ih =>
    intro i m e h
    unfold hashItemL at h ⊢
    split
    · rename_i h'; rw [if_pos h'] at h; exact h
    · rename_i h'
      rw [if_neg h'] at h
      rcases hs : fs.stat i with _ | _ | ⟨pos, ⟨r, d⟩ | ⟨r, s⟩ | t⟩
      · rw [hs] at h; exact h
      · rw [hs] at h; exact h
      · rw [hs] at h; cases r <;> exact h
      · rw [hs] at h
        cases r
        · exact h
        · exact hashListL_mono ih _ _ _ h
      · rw [hs] at h; exact h

theorem hashItemL_mono (fs : LFS) {n n' : Nat} (hn : n ≤ n') (i : Str) (m : HMap) (e) (h : hashItemL hex fs n i m = some e) :
    hashItemL hex fs n' i m = some e := by
  induction hn with
  | refl => exact h
  | step _ ih => exact hashItemL_succ hex fs _ _ _ _ ih

/-- The call for this item returns, whatever has been recorded before. -/
def Ends (fs : LFS) (item : Str) : Prop := ∃ n, ∀ m, (hashItemL hex fs n item m).isSome

theorem ends_list {fs : LFS} {l : List Str} (h : ∀ i ∈ l, Ends hex fs i) :
    ∃ n, ∀ m, (hashListL (hashItemL hex fs n) l m).isSome := by
  induction l with
  | nil => exact ⟨0, fun m => rfl⟩
  | cons i l ih =>
    simp only [List.mem_cons, forall_eq_or_imp] at h
    obtain ⟨n1, h1⟩ := h.1
    obtain ⟨n2, h2⟩ := ih h.2
    refine ⟨max n1 n2, fun m => ?_⟩
    obtain ⟨e, he⟩ := Option.isSome_iff_exists.1 (h1 m)
    simp only [hashListL]
    rw [hashItemL_mono hex fs (le_max_left n1 n2) _ _ _ he]
    cases e with
    | error e => rfl
    | ok m' =>
      obtain ⟨e', he'⟩ := Option.isSome_iff_exists.1 (h2 m')
      simp only
      rw [hashListL_mono (hashItemL_mono hex fs (le_max_right n1 n2)) _ _ _ he']
      rfl

theorem ends_item {fs : LFS} {item : Str}
    (h : ∀ pos r sub, fs.stat item = .found pos (.dir r sub) → ∀ c ∈ sub.names, Ends hex fs (join [item, c])) : Ends hex fs item := by
  rcases hs : fs.stat item with _ | _ | ⟨pos, ⟨r, d⟩ | ⟨r, s⟩ | t⟩
  case found.dir =>
    obtain ⟨n, hn⟩ := ends_list hex (l := s.names.map fun c => join [item, c]) (fs := fs) (by
      intro i hi
      obtain ⟨c, hc, rfl⟩ := List.mem_map.1 hi
      exact h pos r s hs c hc)
    refine ⟨n + 1, fun m => ?_⟩
    unfold hashItemL
    split
    · rfl
    · rw [hs]
      cases r
      · rfl
      · exact hn m
  case found.file =>
    refine ⟨1, fun m => ?_⟩
    unfold hashItemL
    split
    · rfl
    · rw [hs]; cases r <;> rfl
  all_goals
    refine ⟨1, fun m => ?_⟩
    unfold hashItemL
    split
    · rfl
    · rw [hs]; rfl

/-- A directory below a tidy path: fewer links are left, or as many and it is less high. -/
theorem step_down {fs : LFS} (hw : fs.root.WF) {p c : Str} {n : Nat} {pos : List Str} {r : Bool} {sub : LForest} (hne : p ≠ [])
    (ht : Tidy p) (h : fs.walk maxLinks (if isAbs p then [] else fs.cwd) (comps p) = .found n pos (.dir r sub)) (hc : c ∈ sub.names)
    {n' : Nat} {pos' : List Str} {r' : Bool} {sub' : LForest}
    (h' : fs.walk maxLinks (if isAbs (join [p, c]) then [] else fs.cwd) (comps (join [p, c])) = .found n' pos' (.dir r' sub')) :
    n' < n ∨ n' = n ∧ pos' = pos ++ [c] ∧ sub'.height < sub.height := by
  have hat := (walk_found h).1
  have hname := names_wf (at_wf hw hat) c hc
  obtain ⟨it, hf⟩ := find_of_names hc
  have hj := walk_join fs hne ht hname h
  rw [walk_one fs hat hname.2 hf] at hj
  unfold LFS.walkPath at hj
  rw [if_neg (join_ne_nil hne [c]), h'] at hj
  rcases it with ⟨r3, d3⟩ | ⟨r3, s3⟩ | t
  · simp at hj
  · simp only [Walk.found.injEq, LItem.dir.injEq] at hj
    obtain ⟨rfl, rfl, rfl, rfl⟩ := hj
    exact .inr ⟨rfl, rfl, (find_dir hf).1⟩
  · cases n with
    | zero => simp at hj
    | succ n =>
      simp only at hj
      have := (walk_found hj.symm).2.2
      exact .inl (by omega)

theorem ends_tidy {fs : LFS} (hw : fs.root.WF) (n : Nat) : ∀ (h : Nat) (item : Str) (pos : List Str) (r : Bool) (sub : LForest), Tidy item →
    item ≠ [] → fs.walk maxLinks (if isAbs item then [] else fs.cwd) (comps item) = .found n pos (.dir r sub) → sub.height = h →
    Ends hex fs item := by
  induction n using Nat.strong_induction_on with
  | _ n ihn =>
  intro h
  induction h using Nat.strong_induction_on with
  | _ h ihh =>
  intro item pos r sub ht hne hwk hh
  apply ends_item
  intro pos' r' sub' hs c hc
  obtain ⟨-, hat, -, n', -, hwk'⟩ := stat_found hs
  rw [hwk] at hwk'
  cases hwk'
  have hname := names_wf (at_wf hw hat) c hc
  by_cases hd : IsDir fs (join [item, c])
  · obtain ⟨pos2, r2, s2, hs2⟩ := hd
    obtain ⟨hne2, -, -, n2, -, hw2⟩ := stat_found hs2
    rcases step_down hw hne ht hwk hc hw2 with h1 | ⟨rfl, -, h1⟩
    · exact ihn n2 h1 _ _ _ _ _ (tidy_join hne hname) hne2 hw2 rfl
    · exact ihh _ (by omega) _ _ _ _ (tidy_join hne hname) hne2 hw2 rfl
  · exact ends_item hex fun pos2 r2 s2 hs2 => absurd ⟨pos2, r2, s2, hs2⟩ hd

theorem ends_all {fs : LFS} (hw : fs.root.WF) (item : Str) : Ends hex fs item := by
  apply ends_item
  intro pos r sub hs c hc
  obtain ⟨hne, hat, -⟩ := stat_found hs
  have hname := names_wf (at_wf hw hat) c hc
  by_cases hd : IsDir fs (join [item, c])
  · obtain ⟨pos2, r2, s2, hs2⟩ := hd
    obtain ⟨hne2, -, -, n2, -, hw2⟩ := stat_found hs2
    exact ends_tidy hex hw n2 _ _ _ _ _ (tidy_join hne hname) hne2 hw2 rfl
  · exact ends_item hex fun pos2 r2 s2 hs2 => absurd ⟨pos2, r2, s2, hs2⟩ hd

/-- **C81, termination.** Whatever links there are, also links to a directory above themselves, the computation ends, with one
result. -/
theorem C81_terminates {fs : LFS} (hw : fs.root.WF) (items : List Str) :
    ∃ r, Hashes hex fs items r ∧ ∀ r', Hashes hex fs items r' → r' = r := by
  obtain ⟨n, hn⟩ := ends_list hex (l := items) (fs := fs) fun i _ => ends_all hex hw i
  obtain ⟨e, he⟩ := Option.isSome_iff_exists.1 (hn [])
  refine ⟨_, ⟨n, e, he, rfl⟩, ?_⟩
  rintro r' ⟨n', e', he', rfl⟩
  have h1 := hashListL_mono (hashItemL_mono hex fs (le_max_left n n')) _ _ _ he
  have h2 := hashListL_mono (hashItemL_mono hex fs (le_max_right n n')) _ _ _ he'
  rw [h1] at h2
  cases h2
  rfl

/-! ## What is recorded -/

/-- The table contains only right values. -/
def LInv (fs : LFS) (m : HMap) : Prop := ∀ k v, m.get k = some v → LVal hex fs k v

theorem LVal.content {fs : LFS} {k v : Str} (h : LVal hex fs k v) : Good fs k ∧ ¬ IsDir fs k := by
  obtain ⟨c, ⟨h1, -⟩ | ⟨pos, d, h1, -⟩, -⟩ := h
  · exact ⟨by simp [Good, h1], by rintro ⟨p, r, s, h2⟩; rw [h1] at h2; simp at h2⟩
  · exact ⟨by simp [Good, h1], by rintro ⟨p, r, s, h2⟩; rw [h1] at h2; simp at h2⟩

theorem below_leaf {fs : LFS} {p k : Str} (h : ¬ IsDir fs p) : Below fs p k ↔ k = p := by
  constructor
  · intro hb
    cases hb with
    | here => rfl
    | entry hs hc _ => exact absurd ⟨_, _, _, hs⟩ h
  · rintro rfl; exact .here _

theorem below_dir {fs : LFS} {p k : Str} {pos : List Str} {r : Bool} {sub : LForest} (h : fs.stat p = .found pos (.dir r sub)) :
    Below fs p k ↔ k = p ∨ ∃ c ∈ sub.names, Below fs (join [p, c]) k := by
  constructor
  · intro hb
    cases hb with
    | here => exact .inl rfl
    | entry hs hc hb => rw [h] at hs; cases hs; exact .inr ⟨_, hc, hb⟩
  · rintro (rfl | ⟨c, hc, hb⟩)
    · exact .here _
    · exact .entry h hc hb

/-- What one call says: about its result, for the paths below `P`. -/
def Says (fs : LFS) (P : Str → Prop) (m : HMap) : Except HErr HMap → Prop
  | .ok m' => (∀ k, P k → Good fs k) ∧ LInv hex fs m' ∧ (∀ k, (m'.get k).isSome ↔ (m.get k).isSome ∨ P k ∧ ¬ IsDir fs k) ∧
      (m.keys.Nodup → m'.keys.Nodup)
  | .error .panic => ∃ k, P k ∧ fs.stat k = .otherError
  | .error .err => ∃ k pos it, P k ∧ fs.stat k = .found pos it ∧ ¬ Good fs k

theorem hashListL_says {fs : LFS} {f : Str → HMap → Option (Except HErr HMap)}
    (hf : ∀ i m e, LInv hex fs m → f i m = some e → Says hex fs (Below fs i) m e) : ∀ (l : List Str) (m : HMap) (e), LInv hex fs m →
    hashListL f l m = some e → Says hex fs (fun k => ∃ i ∈ l, Below fs i k) m e := by
  intro l
  induction l with
  | nil =>
    intro m e hm h
    simp only [hashListL, Option.some.injEq] at h
    subst h
    exact ⟨by simp, hm, by simp, id⟩
  | cons i l ih =>
    intro m e hm h
    simp only [hashListL] at h
    rcases hi : f i m with _ | e' | m'
    · rw [hi] at h; simp at h
    · rw [hi] at h
      simp only [Option.some.injEq] at h
      subst h
      have := hf i m _ hm hi
      cases e' with
      | panic => obtain ⟨k, h1, h2⟩ := this; exact ⟨k, ⟨i, by simp, h1⟩, h2⟩
      | err => obtain ⟨k, pos, it, h1, h2⟩ := this; exact ⟨k, pos, it, ⟨i, by simp, h1⟩, h2⟩
    · rw [hi] at h
      simp only at h
      obtain ⟨a1, a2, a3, a4⟩ := hf i m _ hm hi
      have := ih m' e a2 h
      cases e with
      | ok m'' =>
        obtain ⟨b1, b2, b3, b4⟩ := this
        refine ⟨?_, b2, fun k => ?_, fun h => b4 (a4 h)⟩
        · rintro k ⟨j, hj, hb⟩
          rcases List.mem_cons.1 hj with rfl | hj
          · exact a1 k hb
          · exact b1 k ⟨j, hj, hb⟩
        · rw [b3, a3]
          constructor
          · rintro ((h | ⟨h, h'⟩) | ⟨⟨j, hj, h⟩, h'⟩)
            · exact .inl h
            · exact .inr ⟨⟨i, by simp, h⟩, h'⟩
            · exact .inr ⟨⟨j, by simp [hj], h⟩, h'⟩
          · rintro (h | ⟨⟨j, hj, h⟩, h'⟩)
            · exact .inl (.inl h)
            · rcases List.mem_cons.1 hj with rfl | hj
              · exact .inl (.inr ⟨h, h'⟩)
              · exact .inr ⟨⟨j, hj, h⟩, h'⟩
      | error e =>
        cases e with
        | panic => obtain ⟨k, ⟨j, hj, h1⟩, h2⟩ := this; exact ⟨k, ⟨j, by simp [hj], h1⟩, h2⟩
        | err => obtain ⟨k, pos, it, ⟨j, hj, h1⟩, h2⟩ := this; exact ⟨k, pos, it, ⟨j, by simp [hj], h1⟩, h2⟩

theorem hashItemL_says {fs : LFS} (n : Nat) : ∀ (i : Str) (m : HMap) (e), LInv hex fs m → hashItemL hex fs n i m = some e →
    Says hex fs (Below fs i) m e := by
  induction n with
  | zero => intro i m e _ h; simp [hashItemL] at h
  | succ n ih =>
    intro i m e hm h
    unfold hashItemL at h
    split at h
    · rename_i hk
      simp only [Option.some.injEq] at h
      subst h
      obtain ⟨v, hv⟩ := Option.isSome_iff_exists.1 hk
      obtain ⟨h1, h2⟩ := (hm _ _ hv).content
      refine ⟨fun k hb => ?_, hm, fun k => ⟨.inl, ?_⟩, id⟩
      · rw [(below_leaf h2).1 hb]; exact h1
      · rintro (h | ⟨h, -⟩)
        · exact h
        · rw [(below_leaf h2).1 h]; exact hk
    · rename_i hk
      have hput : ∀ v, LVal hex fs i v → Says hex fs (Below fs i) m (.ok (m.put i v)) := by
        intro v hv
        obtain ⟨h1, h2⟩ := hv.content
        refine ⟨fun k hb => ?_, ?_, fun k => ?_, fun h => GoMap.keys_put_nodup h _ _⟩
        · rw [(below_leaf h2).1 hb]; exact h1
        · intro k v' h'
          rw [GoMap.get_put] at h'
          split at h'
          · rename_i he; subst he; simp only [Option.some.injEq] at h'; subst h'; exact hv
          · exact hm k v' h'
        · rw [GoMap.get_put, below_leaf h2]
          by_cases he : i = k
          · subst he; simp [h2]
          · simp [he, Ne.symm he]
      rcases hs : fs.stat i with _ | _ | ⟨pos, ⟨r, d⟩ | ⟨r, s⟩ | t⟩
      · rw [hs] at h
        simp only [Option.some.injEq] at h
        subst h
        exact hput _ ⟨none, .inl ⟨hs, rfl⟩, rfl⟩
      · rw [hs] at h
        simp only [Option.some.injEq] at h
        subst h
        exact ⟨i, .here _, hs⟩
      · rw [hs] at h
        cases r
        · simp only [Option.some.injEq] at h
          subst h
          exact ⟨i, _, _, .here _, hs, by simp [Good, hs]⟩
        · simp only [Option.some.injEq] at h
          subst h
          exact hput _ ⟨some d, .inr ⟨pos, d, hs, rfl⟩, rfl⟩
      · rw [hs] at h
        cases r
        · simp only [Option.some.injEq] at h
          subst h
          exact ⟨i, _, _, .here _, hs, by simp [Good, hs]⟩
        · simp only at h
          have := hashListL_says hex ih _ m e hm h
          have heq : ∀ k, (∃ j ∈ s.names.map (fun c => join [i, c]), Below fs j k) ↔ ∃ c ∈ s.names, Below fs (join [i, c]) k := by
            intro k; simp
          have hgi : Good fs i := by simp [Good, hs]
          cases e with
          | ok m' =>
            obtain ⟨b1, b2, b3, b4⟩ := this
            refine ⟨fun k hb => ?_, b2, fun k => ?_, b4⟩
            · rcases (below_dir hs).1 hb with rfl | hb
              · exact hgi
              · exact b1 k ((heq k).2 hb)
            · rw [b3]
              change _ ∨ (∃ j ∈ s.names.map (fun c => join [i, c]), Below fs j k) ∧ _ ↔ _
              rw [heq, below_dir hs]
              constructor
              · rintro (h | ⟨h, h'⟩)
                · exact .inl h
                · exact .inr ⟨.inr h, h'⟩
              · rintro (h | ⟨rfl | h, h'⟩)
                · exact .inl h
                · exact absurd ⟨_, _, _, hs⟩ h'
                · exact .inr ⟨h, h'⟩
          | error e =>
            cases e with
            | panic =>
              obtain ⟨k, h1, h2⟩ := this
              exact ⟨k, (below_dir hs).2 (.inr ((heq k).1 h1)), h2⟩
            | err =>
              obtain ⟨k, pos', it, h1, h2⟩ := this
              exact ⟨k, pos', it, (below_dir hs).2 (.inr ((heq k).1 h1)), h2⟩
      · exact absurd rfl ((stat_found hs).2.2.1 t)

theorem linv_nil (fs : LFS) : LInv hex fs [] := by intro k v h; simp [GoMap.get] at h

theorem hashes_says {fs : LFS} {items : List Str} {r : Except HErr (List Str)} (h : Hashes hex fs items r) :
    ∃ e, r = e.map hashList ∧ Says hex fs (fun k => ∃ i ∈ items, Below fs i k) [] e := by
  obtain ⟨n, e, he, rfl⟩ := h
  exact ⟨e, rfl, hashListL_says hex (hashItemL_says hex n) _ _ _ (linv_nil hex fs) he⟩

theorem lval_unique {fs : LFS} {k v v' : Str} (h : LVal hex fs k v) (h' : LVal hex fs k v') : v = v' := by
  obtain ⟨c, ⟨h1, rfl⟩ | ⟨p, d, h1, rfl⟩, rfl⟩ := h <;> obtain ⟨c', ⟨h2, rfl⟩ | ⟨p', d', h2, rfl⟩, rfl⟩ := h'
  · rfl
  · rw [h1] at h2; simp at h2
  · rw [h1] at h2; simp at h2
  · rw [h1] at h2; simp only [LStat.found.injEq, LItem.file.injEq, true_and] at h2; rw [h2.2]

/-- **C81, the list.** A successful result lists the names below the items that do not lead to directories, in increasing order and
each once, each with "" if it leads nowhere and otherwise the hash of the contents of the file that it leads to, through whatever links. -/
theorem C81_list {fs : LFS} {items l : List Str} (h : Hashes hex fs items (.ok l)) :
    ∃ kv : List (Str × Str), l = kv.flatMap (fun e => [e.1, e.2]) ∧ (kv.map (·.1)).Pairwise (· < ·) ∧
      ∀ k v, (k, v) ∈ kv ↔ (∃ i ∈ items, LCovers fs i k) ∧ LVal hex fs k v := by
  obtain ⟨e, he, hsays⟩ := hashes_says hex h
  cases e with
  | error e => simp [Except.map] at he
  | ok m =>
  simp only [Except.map, Except.ok.injEq] at he
  obtain ⟨-, h2, h3, h4⟩ := hsays
  refine ⟨(sortStrs m.keys).map fun k => (k, (m.get k).getD []), ?_, ?_, ?_⟩
  · rw [he, hashList, List.flatMap_map]
  · rw [List.map_map]
    have : ((fun e : Str × Str => e.1) ∘ fun k => (k, (m.get k).getD [])) = id := rfl
    rw [this, List.map_id]
    exact sortStrs_nodup (h4 List.nodup_nil)
  · intro k v
    simp only [List.mem_map, mem_sortStrs, Prod.mk.injEq]
    have hk3 : (m.get k).isSome ↔ ∃ i ∈ items, LCovers fs i k := by
      have := h3 k
      rw [this]
      constructor
      · rintro (h | ⟨⟨i, hi, hb⟩, hd⟩)
        · simp [GoMap.get] at h
        · exact ⟨i, hi, hb, hd⟩
      · rintro ⟨i, hi, hb, hd⟩
        exact .inr ⟨⟨i, hi, hb⟩, hd⟩
    constructor
    · rintro ⟨k', hk, rfl, rfl⟩
      obtain ⟨v, hv⟩ := (GoMap.mem_keys_iff m k').1 hk
      refine ⟨hk3.1 (by rw [hv]; rfl), ?_⟩
      rw [hv]; exact h2 k' v hv
    · rintro ⟨hc, hv⟩
      obtain ⟨v', hv'⟩ := Option.isSome_iff_exists.1 (hk3.2 hc)
      refine ⟨k, (GoMap.mem_keys_iff m k).2 ⟨v', hv'⟩, rfl, ?_⟩
      rw [hv']
      exact lval_unique hex (h2 k v' hv') hv

/-- **C81, success.** The computation succeeds exactly if every path below the items can be followed (or leads nowhere) and what it
leads to can be read. It panics only if a path below the items cannot be followed, and returns an error only if something cannot be read. -/
theorem C81_succeeds {fs : LFS} (hw : fs.root.WF) (items : List Str) :
    ((∃ l, Hashes hex fs items (.ok l)) ↔ ∀ i ∈ items, ∀ k, Below fs i k → Good fs k) ∧
    (Hashes hex fs items (.error .panic) → ∃ i ∈ items, ∃ k, Below fs i k ∧ fs.stat k = .otherError) ∧
    (Hashes hex fs items (.error .err) → ∃ i ∈ items, ∃ k, Below fs i k ∧ ¬ Good fs k ∧ fs.stat k ≠ .otherError) := by
  have hpanic : Hashes hex fs items (.error .panic) → ∃ i ∈ items, ∃ k, Below fs i k ∧ fs.stat k = .otherError := by
    intro h
    obtain ⟨e, he, hs⟩ := hashes_says hex h
    cases e with
    | ok m => simp [Except.map] at he
    | error e =>
      simp only [Except.map, Except.error.injEq] at he
      subst he
      obtain ⟨k, ⟨i, hi, hb⟩, h2⟩ := hs
      exact ⟨i, hi, k, hb, h2⟩
  have herr : Hashes hex fs items (.error .err) → ∃ i ∈ items, ∃ k, Below fs i k ∧ ¬ Good fs k ∧ fs.stat k ≠ .otherError := by
    intro h
    obtain ⟨e, he, hs⟩ := hashes_says hex h
    cases e with
    | ok m => simp [Except.map] at he
    | error e =>
      simp only [Except.map, Except.error.injEq] at he
      subst he
      obtain ⟨k, pos, it, ⟨i, hi, hb⟩, h2, h3⟩ := hs
      exact ⟨i, hi, k, hb, h3, by rw [h2]; simp⟩
  refine ⟨⟨?_, fun h => ?_⟩, hpanic, herr⟩
  · rintro ⟨l, h⟩ i hi k hb
    obtain ⟨e, he, hs⟩ := hashes_says hex h
    cases e with
    | error e => simp [Except.map] at he
    | ok m => exact hs.1 k ⟨i, hi, hb⟩
  · obtain ⟨r, hr, -⟩ := C81_terminates hex hw items
    rcases r with e | l
    · cases e with
      | panic =>
        obtain ⟨i, hi, k, hb, h2⟩ := hpanic hr
        have := h i hi k hb
        simp [Good, h2] at this
      | err =>
        obtain ⟨i, hi, k, hb, h2, -⟩ := herr hr
        exact absurd (h i hi k hb) h2
    · exact ⟨l, hr⟩

/-! ## Changes -/

/-- What a list of items shows of a file system: the names covered, with the contents found under them. -/
def LShows (fs : LFS) (items : List Str) (k : Str) (c : Option Bytes) : Prop := (∃ i ∈ items, LCovers fs i k) ∧ LContent fs k c

/-- **C81, changes.** If the lists computed in two file systems are equal, the items show the same names with the same contents in
both: so changing, replacing or removing a file that a link leads to, directing a link to a file with other contents, or to a
directory with other files, changes the list. Only collisions between contents at hand are excluded. -/
theorem C81_changes {fs fs' : LFS} (hhex : ∀ d, hex d ≠ []) {items items' l : List Str}
    (hcol : ∀ k d d', LShows fs items k (some d) → LShows fs' items' k (some d') → hex d = hex d' → d = d')
    (h : Hashes hex fs items (.ok l)) (h' : Hashes hex fs' items' (.ok l)) :
    ∀ k c, LShows fs items k c ↔ LShows fs' items' k c := by
  obtain ⟨kv, e1, p1, m1⟩ := C81_list hex h
  obtain ⟨kv', e2, p2, m2⟩ := C81_list hex h'
  have he : kv = kv' := flat_inj (e1.symm.trans e2)
  subst he
  have dir : ∀ {fs fs' : LFS} {items items' : List Str}, (∀ k v, (k, v) ∈ kv ↔ (∃ i ∈ items, LCovers fs i k) ∧ LVal hex fs k v) →
      (∀ k v, (k, v) ∈ kv ↔ (∃ i ∈ items', LCovers fs' i k) ∧ LVal hex fs' k v) →
      (∀ k d d', LShows fs items k (some d) → LShows fs' items' k (some d') → hex d = hex d' → d = d') →
      ∀ k c, LShows fs items k c → LShows fs' items' k c := by
    intro fs fs' items items' m1 m2 hcol k c hs
    obtain ⟨h1, c', h2, h3⟩ := (m2 k _).1 ((m1 k _).2 ⟨hs.1, c, hs.2, rfl⟩)
    cases c with
    | none =>
      cases c' with
      | none => exact ⟨h1, h2⟩
      | some d' => exact absurd h3.symm (hhex d')
    | some d =>
      cases c' with
      | none => exact absurd h3 (hhex d)
      | some d' => rw [hcol k d d' hs ⟨h1, h2⟩ h3]; exact ⟨h1, h2⟩
  intro k c
  exact ⟨dir m1 m2 hcol k c, dir m2 m1 (fun k d d' a b e => (hcol k d' d b a e.symm).symm) k c⟩

/-! ## The files that are really there -/

/-- The text of a path: an item, and names after it. -/
def text (item : Str) (rel : List Str) : Str := joinWith ['/'] (item :: rel)

/-- Going down from the item along these names: each is a name in the directory to which the path before it leads. -/
def Under (fs : LFS) (item : Str) (rel : List Str) : Prop :=
  ∀ (i : Nat) c, rel[i]? = some c → ∃ pos r sub, fs.stat (text item (rel.take i)) = .found pos (.dir r sub) ∧ c ∈ sub.names

theorem text_comps {item : Str} {rel : List Str} (hne : item ≠ []) (h : ∀ c ∈ rel, Name c) :
    isAbs (text item rel) = isAbs item ∧ comps (text item rel) = comps item ++ rel ∧ text item rel ≠ [] := by
  have h1 : isAbs (text item rel) = isAbs item := isAbs_joinWith hne
  refine ⟨h1, ?_, ?_⟩
  · unfold text
    rw [comps_joinWith]
    simp only [List.flatMap_cons]
    rw [flatMap_comps (fun c hc => (h c hc).1)]
  · intro h'
    have := joinWith_head (cs := rel) hne
    unfold text at h'
    rw [h'] at this
    cases item with
    | nil => exact hne rfl
    | cons x l => simp at this

theorem stat_congr (fs : LFS) {p q : Str} (hp : p ≠ []) (hq : q ≠ []) (h1 : isAbs p = isAbs q) (h2 : comps p = comps q) :
    fs.stat p = fs.stat q := by
  unfold LFS.stat LFS.walkPath
  rw [if_neg hp, if_neg hq, h1, h2]

/-- Two paths with the same elements, one of them an item and names after it. -/
structure Same (item : Str) (rel : List Str) (k : Str) : Prop where
  ne : k ≠ []
  abs : isAbs k = isAbs item
  elems : comps k = comps item ++ rel

theorem Same.tidy {item : Str} {rel : List Str} {k : Str} (h : Same item rel k) (ht : Tidy item) (hr : ∀ c ∈ rel, Name c) : Tidy k := by
  unfold Tidy at *
  rw [h.abs, h.elems]
  unfold normC at *
  rw [List.foldl_append, foldl_push_plain (names_plain hr)]
  simp [ht]

theorem Same.snoc {item : Str} {rel : List Str} {k c : Str} (h : Same item rel k) (ht : Tidy item) (hr : ∀ c ∈ rel, Name c) (hc : Name c) :
    Same item (rel ++ [c]) (join [k, c]) := by
  obtain ⟨h1, h2⟩ := join_comps h.ne hc
  refine ⟨join_ne_nil h.ne _, h1.trans h.abs, ?_⟩
  rw [h2, h.tidy ht hr, h.elems, List.append_assoc]

theorem Same.stat {item : Str} {rel : List Str} {k : Str} (h : Same item rel k) (fs : LFS) (hne : item ≠ []) (hr : ∀ c ∈ rel, Name c) :
    fs.stat k = fs.stat (text item rel) := by
  obtain ⟨h1, h2, h3⟩ := text_comps hne hr
  exact stat_congr fs h.ne h3 (h.abs.trans h1.symm) (h.elems.trans h2.symm)

theorem under_snoc {fs : LFS} {item : Str} {rel : List Str} {c : Str} : Under fs item (rel ++ [c]) ↔
    Under fs item rel ∧ ∃ pos r sub, fs.stat (text item rel) = .found pos (.dir r sub) ∧ c ∈ sub.names := by
  constructor
  · intro h
    refine ⟨fun i c' hi => ?_, ?_⟩
    · have hlt : i < rel.length := (List.getElem?_eq_some_iff.1 hi).1
      have := h i c' (by rw [List.getElem?_append_left hlt]; exact hi)
      rwa [List.take_append_of_le_length (by omega)] at this
    · have := h rel.length c (by simp)
      rwa [List.take_append_of_le_length (le_refl _), List.take_length] at this
  · rintro ⟨h1, h2⟩ i c' hi
    by_cases hlt : i < rel.length
    · rw [List.getElem?_append_left hlt] at hi
      rw [List.take_append_of_le_length (by omega)]
      exact h1 i c' hi
    · have : i = rel.length := by
        have := (List.getElem?_eq_some_iff.1 hi).1
        simp at this
        omega
      subst this
      simp only [List.getElem?_concat_length, Option.some.injEq] at hi
      subst hi
      rw [List.take_append_of_le_length (le_refl _), List.take_length]
      exact h2

theorem under_names {fs : LFS} (hw : fs.root.WF) {item : Str} {rel : List Str} (h : Under fs item rel) : ∀ c ∈ rel, Name c := by
  intro c hc
  obtain ⟨i, hi⟩ := List.mem_iff_getElem?.1 hc
  obtain ⟨pos, r, sub, hs, hm⟩ := h i c hi
  exact names_wf (at_wf hw (stat_found hs).2.1) c hm

theorem below_snoc {fs : LFS} {p k c : Str} {pos : List Str} {r : Bool} {sub : LForest} (h : Below fs p k)
    (hs : fs.stat k = .found pos (.dir r sub)) (hc : c ∈ sub.names) : Below fs p (join [k, c]) := by
  induction h with
  | here p => exact .entry hs hc (.here _)
  | entry h1 h2 _ ih => exact .entry h1 h2 (ih hs)

theorem below_trans {fs : LFS} {p k q : Str} (h : Below fs p k) (h' : Below fs k q) : Below fs p q := by
  induction h with
  | here p => exact h'
  | entry h1 h2 _ ih => exact .entry h1 h2 (ih h')

/-- **C81, the right files.** Below an item in which ".." occurs at most at the beginning, the names hashed lead to exactly the files
that the operating system finds under the item: each stands for the item followed by names going down (through directories and links to
directories), and every such path is hashed. -/
theorem C81_real {fs : LFS} (hw : fs.root.WF) {item : Str} (hne : item ≠ []) (ht : Tidy item) :
    (∀ k, Below fs item k → ∃ rel, Under fs item rel ∧ fs.stat k = fs.stat (text item rel)) ∧
    (∀ rel, Under fs item rel → ∃ k, Below fs item k ∧ fs.stat k = fs.stat (text item rel)) := by
  constructor
  · have key : ∀ p k, Below fs p k → ∀ rel, Under fs item rel → Same item rel p →
        ∃ rel', Under fs item rel' ∧ Same item rel' k := by
      intro p k hb
      induction hb with
      | here p => intro rel h1 h2; exact ⟨rel, h1, h2⟩
      | @entry p k c pos r sub hs hc _ ih =>
        intro rel h1 h2
        have hn := under_names hw h1
        have hname := names_wf (at_wf hw (stat_found hs).2.1) c hc
        refine ih (rel ++ [c]) (under_snoc.2 ⟨h1, pos, r, sub, ?_, hc⟩) (h2.snoc ht hn hname)
        rw [← h2.stat fs hne hn]; exact hs
    intro k hb
    obtain ⟨rel, h1, h2⟩ := key item k hb [] (by intro i c h; simp at h) ⟨hne, rfl, by simp⟩
    exact ⟨rel, h1, h2.stat fs hne (under_names hw h1)⟩
  · have key : ∀ rel, Under fs item rel → ∃ k, Below fs item k ∧ Same item rel k := by
      intro rel
      induction rel using List.reverseRecOn with
      | nil => intro _; exact ⟨item, .here _, hne, rfl, by simp⟩
      | append_singleton rel c ih =>
        intro h
        have hn := under_names hw h
        obtain ⟨h1, pos, r, sub, hs, hc⟩ := under_snoc.1 h
        obtain ⟨k, hb, hk⟩ := ih h1
        have hn' := under_names hw h1
        have hks : fs.stat k = .found pos (.dir r sub) := by rw [hk.stat fs hne hn']; exact hs
        exact ⟨join [k, c], below_snoc hb hks hc, hk.snoc ht hn' (hn c (by simp))⟩
    intro rel h
    obtain ⟨k, h1, h2⟩ := key rel h
    exact ⟨k, h1, h2.stat fs hne (under_names hw h)⟩

/-- The name under which a path below a tidy item is recorded: the cleaned text. -/
theorem below_name {fs : LFS} (hw : fs.root.WF) {item : Str} (hne : item ≠ []) (rel : List Str) : Under fs item rel → Tidy item →
    ∃ k, Below fs item k ∧ Same item rel k ∧ k = if rel = [] then item else clean (text item rel) := by
  induction rel using List.reverseRecOn with
  | nil => intro _ _; exact ⟨item, .here _, ⟨hne, rfl, by simp⟩, by simp⟩
  | append_singleton rel c ih =>
    intro h ht
    have hn := under_names hw h
    obtain ⟨h1, pos, r, sub, hs, hc⟩ := under_snoc.1 h
    obtain ⟨k, hb, hk, -⟩ := ih h1 ht
    have hn' := under_names hw h1
    have hs' := hk.snoc ht hn' (hn c (by simp))
    refine ⟨join [k, c], below_snoc hb (by rw [hk.stat fs hne hn']; exact hs) hc, hs', ?_⟩
    simp only [List.append_eq_nil_iff, List.cons_ne_self, and_false, if_false]
    obtain ⟨t1, t2, -⟩ := text_comps hne hn
    rcases join_clean [k, c] with h' | h'
    · exact absurd h' hs'.ne
    · rw [← h']
      unfold clean
      rw [hs'.abs, hs'.elems, t1, t2]

/-- **C81.** If the list is the same in two file systems, then every file that the operating system finds below a tidy item in the
one, through whatever links, is found there in the other with the same contents, and what leads nowhere leads nowhere. -/
theorem C81_detects_partial {fs fs' : LFS} (hw : fs.root.WF) (hhex : ∀ d, hex d ≠ []) {items l : List Str}
    (hcol : ∀ k d d', LShows fs items k (some d) → LShows fs' items k (some d') → hex d = hex d' → d = d')
    (h : Hashes hex fs items (.ok l)) (h' : Hashes hex fs' items (.ok l)) {item : Str} (hi : item ∈ items) (hne : item ≠ [])
    (ht : Tidy item) {rel : List Str} (hu : Under fs item rel) :
    (∀ pos r d, fs.stat (text item rel) = .found pos (.file r d) → ∃ pos' r', fs'.stat (text item rel) = .found pos' (.file r' d)) ∧
    (fs.stat (text item rel) = .notExist → fs'.stat (text item rel) = .notExist) := by
  obtain ⟨k, hb, hk, -⟩ := below_name hw hne rel hu ht
  have hn := under_names hw hu
  have hst := fun f : LFS => hk.stat f hne hn
  have hgood := (C81_succeeds hex hw items).1.1 ⟨l, h⟩ item hi k hb
  have hch := C81_changes hex hhex hcol h h' k
  constructor
  · intro pos r d hs
    rw [← hst] at hs
    have hr : r = true := by unfold Good at hgood; rw [hs] at hgood; exact hgood
    subst hr
    have hd : ¬ IsDir fs k := by rintro ⟨p, r, s, h2⟩; rw [hs] at h2; simp at h2
    obtain ⟨-, ⟨-, h2⟩ | ⟨pos', d', h2, h3⟩⟩ := (hch (some d)).1 ⟨⟨item, hi, hb, hd⟩, .inr ⟨pos, d, hs, rfl⟩⟩
    · simp at h2
    · cases h3
      exact ⟨pos', true, by rw [← hst]; exact h2⟩
  · intro hs
    rw [← hst] at hs
    have hd : ¬ IsDir fs k := by rintro ⟨p, r, s, h2⟩; rw [hs] at h2; simp at h2
    obtain ⟨-, ⟨h2, -⟩ | ⟨pos', d', h2, h3⟩⟩ := (hch none).1 ⟨⟨item, hi, hb, hd⟩, .inl ⟨hs, rfl⟩⟩
    · rw [← hst]; exact h2
    · simp at h3

/-! ## Links that lead up -/

/-- With fewer links allowed, a walk ends in the same place or fails. -/
theorem walk_fewer (fs : LFS) (n : Nat) : ∀ {cur cs : List Str} {m : Nat} {pos : List Str} {it : LItem}, fs.walk n cur cs = .found m pos it →
    ∀ n' ≤ n, fs.walk n' cur cs = .otherError ∨ ∃ m' ≤ m, fs.walk n' cur cs = .found m' pos it := by
  induction n with
  | zero =>
    intro cur cs m pos it h n' hn
    obtain rfl : n' = 0 := by omega
    exact .inr ⟨m, le_refl _, h⟩
  | succ n ih =>
    intro cur cs m pos it h n' hn
    rw [walk_eq] at h ⊢
    rcases hs : fs.seg cur cs with _ | _ | ⟨p, i⟩ | ⟨t, p, rest⟩
    · rw [hs] at h; simp at h
    · rw [hs] at h; simp at h
    · rw [hs] at h
      simp only [Walk.found.injEq] at h
      obtain ⟨rfl, rfl, rfl⟩ := h
      exact .inr ⟨n', hn, rfl⟩
    · rw [hs] at h
      cases n' with
      | zero => exact .inl rfl
      | succ n' => exact ih h n' (by omega)

/-- The path leads to this position, with so many links left. -/
def At (fs : LFS) (p : Str) (n : Nat) (pos : List Str) (it : LItem) : Prop := fs.walkPath p = .found n pos it

theorem At.ne {fs : LFS} {p : Str} {n : Nat} {pos : List Str} {it : LItem} (h : At fs p n pos it) : p ≠ [] := by
  rintro rfl; simp [At, LFS.walkPath] at h

theorem At.walk {fs : LFS} {p : Str} {n : Nat} {pos : List Str} {it : LItem} (h : At fs p n pos it) :
    fs.walk maxLinks (if isAbs p then [] else fs.cwd) (comps p) = .found n pos it := by
  have := h.ne
  unfold At LFS.walkPath at h
  rwa [if_neg this] at h

theorem At.stat {fs : LFS} {p : Str} {n : Nat} {pos : List Str} {it : LItem} (h : At fs p n pos it) : fs.stat p = .found pos it := by
  unfold LFS.stat; rw [h]; rfl

theorem at_of_stat {fs : LFS} {p : Str} {pos : List Str} {it : LItem} (h : fs.stat p = .found pos it) : ∃ n, At fs p n pos it := by
  obtain ⟨hne, -, -, n, -, hw⟩ := stat_found h
  refine ⟨n, ?_⟩
  unfold At LFS.walkPath
  rw [if_neg hne]; exact hw

/-- Some path below cannot be followed. -/
def BadBelow (fs : LFS) (p : Str) : Prop := ∃ k, Below fs p k ∧ fs.stat k = .otherError

/-- The same name below two paths that lead to the same directory. -/
theorem same_step {fs : LFS} (hw : fs.root.WF) {p q c : Str} {n n' m : Nat} {pos pos1 : List Str} {r : Bool} {sub : LForest} {it1 : LItem}
    (hp : At fs p n pos (.dir r sub)) (hq : At fs q n' pos (.dir r sub)) (hn : n' ≤ n) (tp : Tidy p) (tq : Tidy q) (hc : c ∈ sub.names)
    (h1 : At fs (join [p, c]) m pos1 it1) : BadBelow fs q ∨ ∃ m' ≤ m, At fs (join [q, c]) m' pos1 it1 := by
  have hname := names_wf (at_wf hw (walk_found hp.walk).1) c hc
  have e1 := walk_join fs hp.ne tp hname hp.walk
  have e2 := walk_join fs hq.ne tq hname hq.walk
  unfold At at h1
  rw [e1] at h1
  rcases walk_fewer fs n h1 n' hn with h2 | ⟨m', hm, h2⟩
  · refine .inl ⟨join [q, c], .entry hq.stat hc (.here _), ?_⟩
    unfold LFS.stat; rw [e2, h2]; rfl
  · exact .inr ⟨m', hm, by unfold At; rw [e2, h2]⟩

/-- A way down can be followed again from another path that leads to the same place, or fails. -/
theorem same_way {fs : LFS} (hw : fs.root.WF) {p k : Str} (hb : Below fs p k) : ∀ {q : Str} {n n' : Nat} {pos : List Str} {it : LItem}
    {m : Nat} {posk : List Str} {itk : LItem}, At fs p n pos it → At fs q n' pos it → n' ≤ n → Tidy p → Tidy q → At fs k m posk itk →
    BadBelow fs q ∨ ∃ k' m', Below fs q k' ∧ At fs k' m' posk itk := by
  induction hb with
  | here p =>
    intro q n n' pos it m posk itk h1 h2 hn _ _ hk
    unfold At at h1 hk
    rw [h1] at hk
    cases hk
    exact .inr ⟨q, n', .here _, h2⟩
  | @entry p k c pos0 r sub hs hc hb ih =>
    intro q n n' pos it m posk itk h1 h2 hn tp tq hk
    have := h1.stat
    rw [hs] at this
    cases this
    have hname := names_wf (at_wf hw (walk_found h1.walk).1) c hc
    obtain ⟨m1, pos1, it1, hj⟩ : ∃ m1 pos1 it1, At fs (join [p, c]) m1 pos1 it1 := by
      cases hb with
      | here => exact ⟨_, _, _, hk⟩
      | entry hs' _ _ => obtain ⟨n, hn⟩ := at_of_stat hs'; exact ⟨_, _, _, hn⟩
    rcases same_step hw h1 h2 hn tp tq hc hj with hbad | ⟨m', hm, hj'⟩
    · exact .inl hbad
    · rcases ih hj hj' hm (tidy_join h1.ne hname) (tidy_join h2.ne hname) hk with ⟨j, hb', hj2⟩ | ⟨k', m2, hb', hk'⟩
      · exact .inl ⟨j, .entry h2.stat hc hb', hj2⟩
      · exact .inr ⟨k', m2, .entry h2.stat hc hb', hk'⟩

/-- Going down uses links, or leads physically down. -/
theorem down {fs : LFS} (hw : fs.root.WF) {p k : Str} (hb : Below fs p k) : ∀ {n m : Nat} {pos posk : List Str} {it itk : LItem},
    At fs p n pos it → Tidy p → At fs k m posk itk → Tidy k ∧ (m < n ∨ m = n ∧ ∃ rel, posk = pos ++ rel) := by
  induction hb with
  | here p =>
    intro n m pos posk it itk h1 tp hk
    unfold At at h1 hk
    rw [h1] at hk
    cases hk
    exact ⟨tp, .inr ⟨rfl, [], by simp⟩⟩
  | @entry p k c pos0 r sub hs hc hb ih =>
    intro n m pos posk it itk h1 tp hk
    have := h1.stat
    rw [hs] at this
    cases this
    have hat := (walk_found h1.walk).1
    have hname := names_wf (at_wf hw hat) c hc
    obtain ⟨m1, pos1, it1, hj⟩ : ∃ m1 pos1 it1, At fs (join [p, c]) m1 pos1 it1 := by
      cases hb with
      | here => exact ⟨_, _, _, hk⟩
      | entry hs' _ _ => obtain ⟨n, hn⟩ := at_of_stat hs'; exact ⟨_, _, _, hn⟩
    obtain ⟨tk, h2⟩ := ih hj (tidy_join h1.ne hname) hk
    refine ⟨tk, ?_⟩
    have h3 : m1 < n ∨ m1 = n ∧ pos1 = pos0 ++ [c] := by
      obtain ⟨it, hf⟩ := find_of_names hc
      have e1 := walk_join fs h1.ne tp hname h1.walk
      rw [walk_one fs hat hname.2 hf, hj] at e1
      rcases it with ⟨r3, d3⟩ | ⟨r3, s3⟩ | t
      · simp only [Walk.found.injEq] at e1; exact .inr ⟨e1.1, e1.2.1⟩
      · simp only [Walk.found.injEq] at e1; exact .inr ⟨e1.1, e1.2.1⟩
      · cases n with
        | zero => simp at e1
        | succ n =>
          simp only at e1
          have := (walk_found e1.symm).2.2
          exact .inl (by omega)
    rcases h2 with h2 | ⟨rfl, rel, rfl⟩
    · rcases h3 with h3 | ⟨rfl, -⟩ <;> exact .inl (by omega)
    · rcases h3 with h3 | ⟨rfl, rfl⟩
      · exact .inl h3
      · exact .inr ⟨rfl, c :: rel, by simp⟩

theorem loop_bad {fs : LFS} (hw : fs.root.WF) (n : Nat) : ∀ {p c k : Str} {m : Nat} {pos : List Str} {r : Bool} {sub : LForest},
    At fs p n pos (.dir r sub) → Tidy p → c ∈ sub.names → Below fs (join [p, c]) k → At fs k m pos (.dir r sub) → BadBelow fs p := by
  induction n using Nat.strong_induction_on with
  | _ n ih =>
  intro p c k m pos r sub hp tp hc hb hk
  have hat := (walk_found hp.walk).1
  have hname := names_wf (at_wf hw hat) c hc
  obtain ⟨m1, pos1, it1, hj⟩ : ∃ m1 pos1 it1, At fs (join [p, c]) m1 pos1 it1 := by
    cases hb with
    | here => exact ⟨_, _, _, hk⟩
    | entry hs' _ _ => obtain ⟨n, hn⟩ := at_of_stat hs'; exact ⟨_, _, _, hn⟩
  have tj := tidy_join hp.ne hname
  obtain ⟨tk, hdown⟩ := down hw hb hj tj hk
  have h3 : m1 < n ∨ m1 = n ∧ pos1 = pos ++ [c] := by
    rcases (down hw (.entry hp.stat hc (.here _)) hp tp hj).2 with h | ⟨h, -⟩
    · exact .inl h
    · right
      refine ⟨h, ?_⟩
      subst h
      obtain ⟨it, hf⟩ := find_of_names hc
      have e1 := walk_join fs hp.ne tp hname hp.walk
      rw [walk_one fs hat hname.2 hf, hj] at e1
      rcases it with ⟨r3, d3⟩ | ⟨r3, s3⟩ | t
      · simp only [Walk.found.injEq] at e1; exact e1.2.1
      · simp only [Walk.found.injEq] at e1; exact e1.2.1
      · cases m1 with
        | zero => simp at e1
        | succ n =>
          simp only at e1
          have := (walk_found e1.symm).2.2
          omega
  have hlt : m < n := by
    rcases hdown with h | ⟨rfl, rel, h⟩
    · rcases h3 with h3 | ⟨rfl, -⟩ <;> omega
    · rcases h3 with h3 | ⟨rfl, rfl⟩
      · exact h3
      · have := congrArg List.length h
        simp at this
  have hpk : Below fs p k := .entry hp.stat hc hb
  have lift : BadBelow fs k → BadBelow fs p := fun ⟨j, h1, h2⟩ => ⟨j, below_trans hpk h1, h2⟩
  rcases same_step hw hp hk (by omega) tp tk hc hj with hbad | ⟨m', hm, hj'⟩
  · exact lift hbad
  · rcases same_way hw hb hj hj' hm tj (tidy_join hk.ne hname) hk with ⟨j, hb', hj2⟩ | ⟨k', m2, hb', hk'⟩
    · exact lift ⟨j, .entry hk.stat hc hb', hj2⟩
    · exact lift (ih m hlt hk tk hc hb' hk')

/-- **C81, finding.** If below an item there is a directory, and below that a path that leads back to the same directory (through a
link, then), the computation never succeeds; and if everything there can be read, it panics. -/
theorem C81_finding_loop {fs : LFS} (hw : fs.root.WF) {items : List Str} {item p c k : Str} {pos : List Str} {r : Bool} {sub : LForest}
    (hi : item ∈ items) (hp : Below fs item p) (tp : Tidy p) (hd : fs.stat p = .found pos (.dir r sub)) (hc : c ∈ sub.names)
    (hb : Below fs (join [p, c]) k) (hk : fs.stat k = .found pos (.dir r sub)) :
    (∀ l, ¬ Hashes hex fs items (.ok l)) ∧
    ((∀ i ∈ items, ∀ j, Below fs i j → fs.stat j ≠ .otherError → Good fs j) → Hashes hex fs items (.error .panic)) := by
  obtain ⟨n, hpa⟩ := at_of_stat hd
  obtain ⟨m, hka⟩ := at_of_stat hk
  obtain ⟨j, hj1, hj2⟩ := loop_bad hw n hpa tp hc hb hka
  have hj := below_trans hp hj1
  have hno : ∀ l, ¬ Hashes hex fs items (.ok l) := by
    intro l h
    have := (C81_succeeds hex hw items).1.1 ⟨l, h⟩ item hi j hj
    simp [Good, hj2] at this
  refine ⟨hno, fun hgood => ?_⟩
  obtain ⟨res, hr, -⟩ := C81_terminates hex hw items
  rcases res with e | l
  · cases e with
    | panic => exact hr
    | err =>
      obtain ⟨i, hi, q, hq, h1, h2⟩ := (C81_succeeds hex hw items).2.2 hr
      exact absurd (hgood i hi q hq h2) h1
  · exact absurd hr (hno l)

/-- All cleaned paths are tidy: those of rules read from YAML files, which are joined to the directory of the file, are. -/
theorem tidy_clean (p : Str) : Tidy (clean p) := by
  unfold Tidy
  rw [isAbs_clean, comps_clean, normC_idem]

/-! ## Without links, the earlier model -/

/-- A tree without links. -/
def emb : Forest → LForest
  | .nil => .nil
  | .file n r d rest => .file n r d (emb rest)
  | .dir n r s rest => .dir n r (emb s) (emb rest)

def embI : Item → LItem
  | .file r d => .file r d
  | .dir r s => .dir r (emb s)

def embF (fs : FS) : LFS := ⟨emb fs.root, fs.cwd⟩

theorem emb_names (f : Forest) : (emb f).names = f.names := by
  induction f with
  | nil => rfl
  | file n r d rest ih => simp only [emb, LForest.names, Forest.names, ih]
  | dir n r s rest _ ih => simp only [emb, LForest.names, Forest.names, ih]

theorem emb_find (f : Forest) (c : Str) : (emb f).find c = (f.find c).map embI := by
  induction f with
  | nil => rfl
  | file n r d rest ih => simp only [emb, LForest.find, Forest.find]; split <;> simp [embI, ih]
  | dir n r s rest _ ih => simp only [emb, LForest.find, Forest.find]; split <;> simp [embI, ih]

theorem emb_wf {f : Forest} (h : f.WF) : (emb f).WF := by
  induction f with
  | nil => trivial
  | file n r d rest ih => exact ⟨h.1, ih h.2.2⟩
  | dir n r s rest ih1 ih2 => exact ⟨h.1, ih1 h.2.2.1, ih2 h.2.2.2⟩

theorem emb_lookup (it : Item) (cs : List Str) : lookupL (embI it) cs = (lookupFS it cs).map embI := by
  induction cs generalizing it with
  | nil => cases it <;> rfl
  | cons c cs ih =>
    cases it with
    | file r d => rfl
    | dir r s =>
      simp only [embI, lookupL, lookupFS, emb_find]
      cases s.find c with
      | none => rfl
      | some it => exact ih it

theorem emb_at (fs : FS) (pos : List Str) : (embF fs).at pos = (fs.at pos).map embI := emb_lookup (.dir true fs.root) pos

theorem emb_seg (fs : FS) (cs : List Str) : ∀ cur, (embF fs).seg cur cs =
    match fs.walk cur cs with
    | .notExist => .missing
    | .otherError => .bad
    | .found pos it => .stop pos (embI it) := by
  induction cs with
  | nil =>
    intro cur
    simp only [LFS.seg, FS.walk, emb_at]
    rcases fs.at cur with _ | ⟨r, d⟩ | ⟨r, s⟩ <;> rfl
  | cons c cs ih =>
    intro cur
    simp only [LFS.seg, FS.walk, emb_at]
    rcases fs.at cur with _ | ⟨r, d⟩ | ⟨r, s⟩
    · rfl
    · rfl
    · simp only [Option.map_some, embI]
      split
      · exact ih _
      · rcases fs.at (cur ++ [c]) with _ | ⟨r, d⟩ | ⟨r, s⟩ <;> exact ih _

theorem emb_stat (fs : FS) (p : Str) : (embF fs).stat p =
    match fs.stat p with
    | .notExist => .notExist
    | .otherError => .otherError
    | .found pos it => .found pos (embI it) := by
  unfold LFS.stat LFS.walkPath FS.stat
  split
  · rfl
  · rw [walk_eq, emb_seg]
    change (match (match fs.walk (if isAbs p then [] else fs.cwd) (comps p) with
      | .notExist => Seg.missing
      | .otherError => .bad
      | .found pos it => .stop pos (embI it)) with
      | .missing => Walk.notExist
      | .bad => .otherError
      | .stop pos it => .found maxLinks pos it
      | .follow t pos rest => _).res = _
    cases fs.walk (if isAbs p then [] else fs.cwd) (comps p) <;> rfl

theorem names_find {f : Forest} {c : Str} (h : c ∈ f.names) : ∃ it, f.find c = some it := by
  rw [← emb_names] at h
  obtain ⟨it, hit⟩ := find_of_names h
  rw [emb_find] at hit
  obtain ⟨it', h', -⟩ := Option.map_eq_some_iff.1 hit
  exact ⟨it', h'⟩

theorem emb_isDir {fs : FS} {k : Str} : IsDir (embF fs) k ↔ ∃ pos r s, fs.stat k = .found pos (.dir r s) := by
  unfold IsDir
  rw [emb_stat]
  rcases fs.stat k with _ | _ | ⟨pos, ⟨r, d⟩ | ⟨r, s⟩⟩ <;> simp [embI]

theorem emb_below {fs : FS} (hw : fs.root.WF) {item : Str} {pos : List Str} {r : Bool} {sub : Forest}
    (h : fs.stat item = .found pos (.dir r sub)) (k : Str) :
    Below (embF fs) item k ↔ k = item ∨ ∃ rel it, rel ≠ [] ∧ lookupFS (.dir r sub) rel = some it ∧ k = join (item :: rel) := by
  have hne : item ≠ [] := by rintro rfl; simp [FS.stat] at h
  constructor
  · have key : ∀ p k, Below (embF fs) p k → ∀ rel it, rel ≠ [] → lookupFS (.dir r sub) rel = some it → p = join (item :: rel) →
        ∃ rel it, rel ≠ [] ∧ lookupFS (.dir r sub) rel = some it ∧ k = join (item :: rel) := by
      intro p k hb
      induction hb with
      | here p => intro rel it h1 h2 h3; exact ⟨rel, it, h1, h2, h3⟩
      | @entry p k c pos' r' sub' hs hc _ ih =>
        intro rel it h1 h2 h3
        subst h3
        have hj := (stat_join hw h h2).1
        rw [emb_stat, hj] at hs
        rcases it with ⟨r3, d3⟩ | ⟨r3, s3⟩
        · simp [embI] at hs
        · simp only [embI, LStat.found.injEq, LItem.dir.injEq] at hs
          obtain ⟨-, -, rfl⟩ := hs
          rw [emb_names] at hc
          obtain ⟨it, hf⟩ := names_find hc
          refine ih (rel ++ [c]) it (by simp) ?_ ?_
          · rw [lookupFS_append, h2]; simp [lookupFS, hf]
          · rw [join_join' hne]; simp
    intro hb
    cases hb with
    | here => exact .inl rfl
    | @entry _ _ c _ _ _ hs hc hb =>
      right
      rw [emb_stat, h] at hs
      simp only [embI, LStat.found.injEq, LItem.dir.injEq] at hs
      obtain ⟨-, -, rfl⟩ := hs
      rw [emb_names] at hc
      obtain ⟨it, hf⟩ := names_find hc
      exact key _ _ hb [c] it (by simp) (by simp [lookupFS, hf]) rfl
  · rintro (rfl | ⟨rel, it, h1, h2, rfl⟩)
    · exact .here _
    · induction rel generalizing item pos r sub with
      | nil => exact absurd rfl h1
      | cons c cs ih =>
        have hd : (embF fs).stat item = .found pos (.dir r (emb sub)) := by rw [emb_stat, h]; rfl
        simp only [lookupFS] at h2
        rcases hf : sub.find c with _ | it1
        · rw [hf] at h2; simp at h2
        · rw [hf] at h2
          simp only at h2
          have hc : c ∈ (emb sub).names := by rw [emb_names]; exact find_names hf
          by_cases hcs : cs = []
          · subst hcs; exact .entry hd hc (.here _)
          · have hl1 : lookupFS (.dir r sub) [c] = some it1 := by simp [lookupFS, hf]
            have hj := (stat_join hw h hl1).1
            rcases it1 with ⟨r3, d3⟩ | ⟨r3, s3⟩
            · cases cs with
              | nil => exact absurd rfl hcs
              | cons c' cs' => simp [lookupFS] at h2
            · have := ih hj (join_ne_nil hne [c]) hcs h2
              rw [join_join' hne] at this
              exact .entry hd hc this

theorem lookup_readable {rel : List Str} : ∀ {r : Bool} {s : Forest} {it : Item}, s.Readable → rel ≠ [] → lookupFS (.dir r s) rel = some it →
    (∀ r' d, it = .file r' d → r' = true) ∧ (∀ r' s', it = .dir r' s' → r' = true ∧ s'.Readable) := by
  have hfind : ∀ {s : Forest} {c : Str} {it : Item}, s.Readable → s.find c = some it →
      (∀ r' d, it = .file r' d → r' = true) ∧ (∀ r' s', it = .dir r' s' → r' = true ∧ s'.Readable) := by
    intro s c it hr hf
    induction s with
    | nil => simp [Forest.find] at hf
    | file m r d rest ih =>
      simp only [Forest.find] at hf
      split at hf
      · simp only [Option.some.injEq] at hf; subst hf
        exact ⟨by rintro _ _ h; cases h; exact hr.1, by simp⟩
      · exact ih hr.2 hf
    | dir m r s rest _ ih =>
      simp only [Forest.find] at hf
      split at hf
      · simp only [Option.some.injEq] at hf; subst hf
        exact ⟨by simp, by rintro _ _ h; cases h; exact ⟨hr.1, hr.2.1⟩⟩
      · exact ih hr.2.2 hf
  induction rel with
  | nil => intro r s it _ h; exact absurd rfl h
  | cons c cs ih =>
    intro r s it hr _ hl
    simp only [lookupFS] at hl
    rcases hf : s.find c with _ | it1
    · rw [hf] at hl; simp at hl
    · rw [hf] at hl
      simp only at hl
      have h1 := hfind hr hf
      by_cases hcs : cs = []
      · subst hcs; simp only [lookupFS, Option.some.injEq] at hl; subst hl; exact h1
      · rcases it1 with ⟨r3, d3⟩ | ⟨r3, s3⟩
        · cases cs with
          | nil => exact absurd rfl hcs
          | cons c' cs' => simp [lookupFS] at hl
        · exact ih (h1.2 _ _ rfl).2 hcs hl

theorem readable_of {s : Forest} (hw : s.WF) : (∀ rel it, rel ≠ [] → lookupFS (.dir true s) rel = some it →
    (∀ r' d, it = .file r' d → r' = true) ∧ (∀ r' s', it = .dir r' s' → r' = true)) → s.Readable := by
  induction s with
  | nil => intro _; trivial
  | file m r d rest ih =>
    intro h
    refine ⟨(h [m] (.file r d) (by simp) (by simp [lookupFS, Forest.find])).1 _ _ rfl, ih hw.2.2 ?_⟩
    intro rel it h1 h2
    cases rel with
    | nil => exact absurd rfl h1
    | cons c cs =>
      refine h (c :: cs) it (by simp) ?_
      simp only [lookupFS] at h2 ⊢
      have hc : m ≠ c := by
        rintro rfl
        rcases hf : rest.find m with _ | it1
        · rw [hf] at h2; simp at h2
        · exact hw.2.1 (find_names hf)
      simpa [Forest.find, hc] using h2
  | dir m r s rest ihs ihr =>
    intro h
    refine ⟨(h [m] (.dir r s) (by simp) (by simp [lookupFS, Forest.find])).2 _ _ rfl, ihs hw.2.2.1 ?_, ihr hw.2.2.2 ?_⟩
    · intro rel it h1 h2
      refine h (m :: rel) it (by simp) ?_
      simp only [lookupFS, Forest.find, if_true]
      rw [lookup_flag r true s h1]; exact h2
    · intro rel it h1 h2
      cases rel with
      | nil => exact absurd rfl h1
      | cons c cs =>
        refine h (c :: cs) it (by simp) ?_
        simp only [lookupFS] at h2 ⊢
        have hc : m ≠ c := by
          rintro rfl
          rcases hf : rest.find m with _ | it1
          · rw [hf] at h2; simp at h2
          · exact hw.2.1 (find_names hf)
        simpa [Forest.find, hc] using h2

theorem emb_good {fs : FS} (hw : fs.root.WF) (item : Str) : CanRead fs item ↔ ∀ k, Below (embF fs) item k → Good (embF fs) k := by
  by_cases hd : ∃ pos r s, fs.stat item = .found pos (.dir r s)
  · obtain ⟨pos, r, s, h⟩ := hd
    have hne : item ≠ [] := by rintro rfl; simp [FS.stat] at h
    have hat : fs.at pos = some (.dir r s) := by
      unfold FS.stat at h; rw [if_neg hne] at h; exact Files.walk_found_at h
    have hswf : s.WF := (lookup_names (it := .dir true fs.root) (by rintro r s h; cases h; exact hw) hat).2 _ _ rfl
    simp only [CanRead, h]
    constructor
    · rintro ⟨rfl, hr⟩ k hb
      rcases (emb_below hw h k).1 hb with rfl | ⟨rel, it, h1, h2, rfl⟩
      · simp [Good, emb_stat, h, embI]
      · have h3 := lookup_readable hr h1 h2
        have h4 := (stat_join hw h h2).1
        rcases it with ⟨r', d'⟩ | ⟨r', s'⟩
        · simp [Good, emb_stat, h4, embI, h3.1 _ _ rfl]
        · simp [Good, emb_stat, h4, embI, (h3.2 _ _ rfl).1]
    · intro hg
      have hr : r = true := by
        have := hg item (.here _)
        simpa [Good, emb_stat, h, embI] using this
      subst hr
      refine ⟨rfl, readable_of hswf fun rel it h1 h2 => ?_⟩
      have h4 := (stat_join hw h h2).1
      have := hg _ ((emb_below hw h _).2 (.inr ⟨rel, it, h1, h2, rfl⟩))
      constructor
      · rintro r' d rfl; simpa [Good, emb_stat, h4, embI] using this
      · rintro r' s' rfl; simpa [Good, emb_stat, h4, embI] using this
  · have hnd : ¬ IsDir (embF fs) item := fun h => hd (emb_isDir.1 h)
    simp only [below_leaf hnd, forall_eq]
    unfold CanRead Good
    rw [emb_stat]
    rcases h : fs.stat item with _ | _ | ⟨pos, ⟨r, d⟩ | ⟨r, s⟩⟩
    · simp
    · simp
    · simp [embI]
    · exact absurd ⟨pos, r, s, h⟩ hd

theorem emb_covers {fs : FS} (hw : fs.root.WF) (item k : Str) : LCovers (embF fs) item k ↔ Covers fs item k := by
  unfold LCovers
  by_cases hd : ∃ pos r s, fs.stat item = .found pos (.dir r s)
  · obtain ⟨pos, r, s, h⟩ := hd
    rw [emb_below hw h]
    simp only [Covers, h]
    constructor
    · rintro ⟨rfl | ⟨rel, it, h1, h2, rfl⟩, h3⟩
      · exact absurd (emb_isDir.2 ⟨_, _, _, h⟩) h3
      · rcases it with ⟨r', d'⟩ | ⟨r', s'⟩
        · exact ⟨rel, r', d', h2, rfl⟩
        · exact absurd (emb_isDir.2 ⟨_, _, _, (stat_join hw h h2).1⟩) h3
    · rintro ⟨rel, r', d, h2, rfl⟩
      have h1 : rel ≠ [] := by rintro rfl; simp [lookupFS] at h2
      refine ⟨.inr ⟨rel, _, h1, h2, rfl⟩, fun h3 => ?_⟩
      obtain ⟨p, r2, s2, h4⟩ := emb_isDir.1 h3
      rw [(stat_join hw h h2).1] at h4
      simp at h4
  · have hnd : ¬ IsDir (embF fs) item := fun h => hd (emb_isDir.1 h)
    rw [below_leaf hnd]
    have : Covers fs item k ↔ k = item := by
      unfold Covers
      rcases h : fs.stat item with _ | _ | ⟨pos, ⟨r, d⟩ | ⟨r, s⟩⟩
      · simp
      · simp
      · simp
      · exact absurd ⟨pos, r, s, h⟩ hd
    rw [this]
    exact ⟨fun h => h.1, fun h => ⟨h, by rw [h]; exact hnd⟩⟩

theorem emb_val {fs : FS} {k v : Str} : LVal hex (embF fs) k v ↔ Val hex fs k v := by
  unfold LVal LContent Val
  rw [emb_stat]
  rcases fs.stat k with _ | _ | ⟨pos, ⟨r, d⟩ | ⟨r, s⟩⟩
  · simp
  · simp
  · cases r <;> simp [embI, eq_comm]
  · simp [embI]

/-- **C81, without links.** On a tree without symbolic links, this model and that of `FileHash.lean` succeed together, with the same
list: the theorems that rest on that model are about the same code. -/
theorem C81_without_links {fs : FS} (hw : fs.root.WF) (items l : List Str) :
    Hashes hex (embF fs) items (.ok l) ↔ fileHashes hex fs items = .ok l := by
  have hw' : (embF fs).root.WF := emb_wf hw
  have hsame : ∀ l l', Hashes hex (embF fs) items (.ok l) → fileHashes hex fs items = .ok l' → l = l' := by
    intro l l' h h'
    obtain ⟨kv, e1, p1, m1⟩ := C81_list hex h
    obtain ⟨kv', e2, p2, m2⟩ := C22_list hex hw h'
    rw [e1, e2, kv_unique p1 p2]
    intro k v
    rw [m1, m2, emb_val]
    simp only [emb_covers hw]
  have hsucc : (∃ l, Hashes hex (embF fs) items (.ok l)) ↔ ∃ l, fileHashes hex fs items = .ok l := by
    rw [(C81_succeeds hex hw' items).1, C22_succeeds hex hw]
    exact forall₂_congr fun i _ => (emb_good hw i).symm
  constructor
  · intro h
    obtain ⟨l', h'⟩ := hsucc.1 ⟨l, h⟩
    rw [hsame l l' h h']; exact h'
  · intro h
    obtain ⟨l', h'⟩ := hsucc.2 ⟨l, h⟩
    rw [← hsame l' l h' h]; exact h'

/-! ## Cases that meet the hypotheses -/

section
/-- a directory `real` with a file, and a directory `src` with a link to it, a link to nothing and a file -/
def exL (a : Bytes) : LFS where
  root := .dir "real".toList true (.file "a.go".toList true a .nil)
    (.dir "src".toList true (.link "lib".toList "../real".toList (.link "old".toList "nowhere".toList
      (.file "m".toList true [7] .nil))) .nil)
  cwd := []

theorem exL_wf (a : Bytes) : (exL a).root.WF := by
  simp only [exL, LForest.WF, Name, Elem]
  refine ⟨?_, ⟨?_, trivial⟩, ?_, ⟨?_, ?_, ?_, trivial⟩, trivial⟩ <;> decide +kernel

def exList (a : Bytes) : Option (List Str) := match hashListL (hashItemL exHex (exL a) 9) ["src".toList] [] with
  | some (.ok m) => some (hashList m)
  | _ => none

theorem exList_hashes {a : Bytes} {l : List Str} (h : exList a = some l) : Hashes exHex (exL a) ["src".toList] (.ok l) := by
  unfold exList at h
  split at h
  · rename_i m hm
    simp only [Option.some.injEq] at h
    exact ⟨9, _, hm, by rw [← h]; rfl⟩
  · simp at h

/-- the file is found through the link; the link to nothing counts as a missing file -/
theorem exL_list : exList [1] = some (["src/lib/a.go", "hb", "src/m", "hh", "src/old", ""].map String.toList) := by decide +kernel

example : Hashes exHex (exL [1]) ["src".toList] (.ok (["src/lib/a.go", "hb", "src/m", "hh", "src/old", ""].map String.toList)) :=
  exList_hashes exL_list

/-- changing the file that the link leads to changes the list -/
example : exList [1] ≠ exList [2] := by decide +kernel

theorem exL_under : Under (exL [1]) "src".toList ["lib".toList, "a.go".toList] := by
  intro i c h
  match i with
  | 0 =>
    simp only [List.getElem?_cons_zero, Option.some.injEq] at h
    subst h
    refine ⟨["src".toList], true, _, rfl, ?_⟩
    decide +kernel
  | 1 =>
    simp only [List.getElem?_cons_succ, List.getElem?_cons_zero, Option.some.injEq] at h
    subst h
    refine ⟨["real".toList], true, .file "a.go".toList true [1] .nil, ?_, ?_⟩
    · rfl
    · decide +kernel
  | i + 2 => simp at h

example : Tidy "src".toList := by unfold Tidy; decide +kernel

/-- a directory with a link to itself -/
def exLoop : LFS where
  root := .dir "d".toList true (.file "f".toList true [7] (.link "up".toList ".".toList .nil)) .nil
  cwd := []

theorem exLoop_wf : exLoop.root.WF := by
  simp only [exLoop, LForest.WF, Name, Elem]
  refine ⟨?_, ⟨?_, ?_, trivial⟩, trivial⟩ <;> decide +kernel

/-- it makes the computation panic -/
example : (hashListL (hashItemL exHex exLoop 50) ["d".toList] []) matches some (.error .panic) := by decide +kernel

/-- the hypotheses of the general theorem hold -/
example : ∀ l, ¬ Hashes exHex exLoop ["d".toList] (.ok l) :=
  (C81_finding_loop exHex exLoop_wf (item := "d".toList) (p := "d".toList) (c := "up".toList) (k := "d/up".toList) (pos := ["d".toList])
    (r := true) (sub := .file "f".toList true [7] (.link "up".toList ".".toList .nil)) (by simp) (.here _)
    (by unfold Tidy; decide +kernel) rfl (by decide +kernel)
    (by have : join ["d".toList, "up".toList] = "d/up".toList := by decide +kernel
        rw [this]; exact .here _) rfl).1

/-- directories `d` with `d/sub` and a file `d/x`, and a link `l` to `d/sub` -/
def exUp (x : Bytes) : LFS where
  root := .dir "d".toList true (.dir "sub".toList true .nil (.file "x".toList true x .nil)) (.link "l".toList "d/sub".toList .nil)
  cwd := []

theorem exUp_wf (x : Bytes) : (exUp x).root.WF := by
  simp only [exUp, LForest.WF, Name, Elem]
  refine ⟨?_, ⟨?_, trivial, ?_, trivial⟩, ?_, trivial⟩ <;> decide +kernel

def exUpList (x : Bytes) : Option (List Str) := match hashListL (hashItemL exHex (exUp x) 9) ["l/..".toList] [] with
  | some (.ok m) => some (hashList m)
  | _ => none

theorem exUp_hashes {x : Bytes} {l : List Str} (h : exUpList x = some l) : Hashes exHex (exUp x) ["l/..".toList] (.ok l) := by
  unfold exUpList at h
  split at h
  · rename_i m hm
    simp only [Option.some.injEq] at h
    exact ⟨9, _, hm, by rw [← h]; rfl⟩
  · simp at h

/-- **C81, counterexample.** An item with ".." after a link, here `l/..`, which is the directory `d`: the names in that directory are
joined to the text of the path, which is cleaned to `.`, so that other files are looked for. The file `l/../x` can change without
any change in the list. -/
theorem C81_counterexample_dotdot : ∃ (fs fs' : LFS) (l : List Str) (pos : List Str), fs.root.WF ∧ fs'.root.WF ∧
    Hashes exHex fs ["l/..".toList] (.ok l) ∧ Hashes exHex fs' ["l/..".toList] (.ok l) ∧ Under fs "l/..".toList ["x".toList] ∧
    fs.stat (text "l/..".toList ["x".toList]) = .found pos (.file true [1]) ∧
    fs'.stat (text "l/..".toList ["x".toList]) = .found pos (.file true [2]) := by
  refine ⟨exUp [1], exUp [2], ["sub", "", "x", ""].map String.toList, ["d".toList, "x".toList], exUp_wf _, exUp_wf _,
    exUp_hashes (by decide +kernel), exUp_hashes (by decide +kernel), ?_, rfl, rfl⟩
  intro i c h
  match i with
  | 0 =>
    simp only [List.getElem?_cons_zero, Option.some.injEq] at h
    subst h
    exact ⟨["d".toList], true, .dir "sub".toList true .nil (.file "x".toList true [1] .nil), rfl, by decide +kernel⟩
  | i + 1 => simp at h
end

end Fab.Links
