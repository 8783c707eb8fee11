import Verif.Path

/-!
# A file system

A tree of directories and files, without symbolic links.  A path is resolved element by element, as the kernel does
(".." is the parent directory); a trailing '/' is ignored.  Permissions: a file or directory may be unreadable; searching a
directory never fails.
-/

namespace Fab

abbrev Bytes := List UInt8

/-- The contents of a directory: a list of entries, each with what follows it. -/
inductive Forest where
  | nil
  | file (name : Str) (readable : Bool) (data : Bytes) (rest : Forest)
  | dir (name : Str) (readable : Bool) (sub : Forest) (rest : Forest)

/-- What a path can lead to. -/
inductive Item where
  | file (readable : Bool) (data : Bytes)
  | dir (readable : Bool) (sub : Forest)

namespace Forest

def names : Forest → List Str
  | nil => []
  | file n _ _ r => n :: names r
  | dir n _ _ r => n :: names r

def find (f : Forest) (n : Str) : Option Item :=
  match f with
  | nil => none
  | file m r d rest => if m = n then some (.file r d) else find rest n
  | dir m r s rest => if m = n then some (.dir r s) else find rest n

end Forest

/-- The entry at the end of a list of names, from the root. -/
def lookupFS : Item → List Str → Option Item
  | it, [] => some it
  | .file _ _, _ :: _ => none
  | .dir _ sub, c :: cs => match sub.find c with
    | some it => lookupFS it cs
    | none => none

/-- A file system: the root directory and the working directory of the process. -/
structure FS where
  root : Forest
  cwd : List Str

/-- The result of `os.Stat`: not found (`fs.ErrNotExist`), another error (a file in the middle of the path), or an entry
together with its position. -/
inductive StatResult where
  | notExist
  | otherError
  | found (pos : List Str) (it : Item)

def FS.at (fs : FS) (pos : List Str) : Option Item := lookupFS (.dir true fs.root) pos

def FS.walk (fs : FS) (cur : List Str) : List Str → StatResult
  | [] => match fs.at cur with
    | some it => .found cur it
    | none => .notExist
  | c :: cs => match fs.at cur with
    | none => .notExist
    | some (.file _ _) => .otherError
    | some (.dir _ _) => if c = Path.dotdot then fs.walk cur.dropLast cs else fs.walk (cur ++ [c]) cs

/-- `os.Stat` -/
def FS.stat (fs : FS) (p : Str) : StatResult :=
  if p = [] then .notExist else fs.walk (if Path.isAbs p then [] else fs.cwd) (Path.comps p)

theorem lookupFS_append (it : Item) (a b : List Str) :
    lookupFS it (a ++ b) = (lookupFS it a).bind fun it' => lookupFS it' b := by
  induction a generalizing it with
  | nil => rfl
  | cons c a ih =>
    cases it with
    | file r d => rfl
    | dir r s =>
      simp only [List.cons_append, lookupFS]
      cases s.find c with
      | none => rfl
      | some it => exact ih it

/-- Without "..", the walk ends where the names lead, or fails. -/
theorem FS.walk_plain (fs : FS) (cur cs : List Str) (h : Path.dotdot ∉ cs) :
    (∀ pos it, fs.walk cur cs = .found pos it → pos = cur ++ cs ∧ fs.at (cur ++ cs) = some it) ∧
    (∀ it, fs.at (cur ++ cs) = some it → fs.walk cur cs = .found (cur ++ cs) it) := by
  induction cs generalizing cur with
  | nil =>
    simp only [walk, List.append_nil]
    cases fs.at cur with
    | none => simp
    | some it => simp
  | cons c cs ih =>
    simp only [List.mem_cons, not_or] at h
    have := ih (cur ++ [c]) h.2
    rw [List.append_assoc, List.singleton_append] at this
    simp only [walk]
    rcases hc : fs.at cur with _ | ⟨r, d⟩ | ⟨r, s⟩
    · refine ⟨by simp, fun it h' => ?_⟩
      rw [FS.at, lookupFS_append, ← FS.at, hc] at h'; simp at h'
    · refine ⟨by simp, fun it h' => ?_⟩
      rw [FS.at, lookupFS_append, ← FS.at, hc] at h'; simp [lookupFS] at h'
    · simp only [if_neg (Ne.symm h.1)]
      exact this

namespace Path

/-- A name: a path element that is not "..". -/
def Name (c : Str) : Prop := Elem c ∧ c ≠ dotdot

/-- The absolute path with these elements. -/
def absP (ns : List Str) : Str := render true ns

/-- `filepath.Dir` (Unix): the path up to and including the last '/', cleaned -/
def dirOf (p : Str) : Str := clean (p.reverse.dropWhile (· ≠ '/')).reverse

/-- `filepath.Base` (Unix) -/
def baseOf (p : Str) : Str :=
  if p = [] then dot
  else
    let q := p.reverse.dropWhile (· = '/')
    if q = [] then ['/'] else (q.takeWhile (· ≠ '/')).reverse

/-- `filepath.Abs`, in working directory `cwd` -/
def absOf (cwd : List Str) (p : Str) : Str := if isAbs p then clean p else join [absP cwd, p]

theorem names_elem {ns : List Str} (h : ∀ c ∈ ns, Name c) : ∀ c ∈ ns, Elem c := fun c hc => (h c hc).1

theorem names_plain {ns : List Str} (h : ∀ c ∈ ns, Name c) : dotdot ∉ ns := fun hm => (h _ hm).2 rfl

theorem absP_ne_nil (ns : List Str) : absP ns ≠ [] := by simp [absP, render]

theorem isAbs_absP (ns : List Str) : isAbs (absP ns) = true := by simp [absP, render, isAbs]

theorem comps_absP {ns : List Str} (h : ∀ c ∈ ns, Name c) : comps (absP ns) = ns := comps_render _ (names_elem h)

theorem normC_names {r : Bool} {ns : List Str} (h : ∀ c ∈ ns, Name c) : normC r ns = ns := by
  unfold normC
  rw [foldl_push_plain (names_plain h)]; simp

theorem normC_true_names {cs : List Str} (h : ∀ c ∈ cs, Elem c) : ∀ c ∈ normC true cs, Name c := by
  intro c hc
  refine ⟨normC_elem h c hc, ?_⟩
  rintro rfl
  obtain ⟨m, k, h1, h2, h3⟩ := foldl_push_nf (r := true) cs (nf_nil _)
  have hk := h3 rfl
  subst hk
  unfold normC at hc
  rw [h1] at hc
  simp at hc
  exact h2 hc

theorem absP_inj {a b : List Str} (ha : ∀ c ∈ a, Name c) (hb : ∀ c ∈ b, Name c) (h : absP a = absP b) : a = b := by
  rw [← comps_absP ha, h, comps_absP hb]

theorem join_absP {ns : List Str} (h : ∀ c ∈ ns, Name c) {n : Str} (hn : Name n) : join [absP ns, n] = absP (ns ++ [n]) := by
  rw [join_eq (absP_ne_nil ns), isAbs_absP, comps_absP h]
  simp only [List.flatMap_cons, List.flatMap_nil, List.append_nil, comps_single hn.1]
  rw [normC_names]
  · rfl
  · intro c hc; rcases List.mem_append.1 hc with hc | hc
    · exact h c hc
    · rw [List.mem_singleton.1 hc]; exact hn

theorem joinWith_snoc (sep : Str) (cs : List Str) (c : Str) (h : cs ≠ []) :
    joinWith sep (cs ++ [c]) = joinWith sep cs ++ sep ++ c := by
  match cs, h with
  | [a], _ => rfl
  | a :: b :: cs, _ =>
    have := joinWith_snoc sep (b :: cs) c (by simp)
    simp only [List.cons_append] at this ⊢
    simp only [joinWith, this, List.append_assoc]

/-- Cut a string at its last '/'. -/
theorem cut_last {c : Str} (h : '/' ∉ c) (pre : Str) (hp : pre = [] ∨ pre.getLast? = some '/') :
    ((pre ++ c).reverse.dropWhile (· ≠ '/')).reverse = pre ∧ (c ≠ [] → baseOf (pre ++ c) = c) := by
  have hd : ∀ (l : Str), '/' ∉ l → ∀ r : Str, (r = [] ∨ r.head? = some '/') →
      (l ++ r).dropWhile (· ≠ '/') = r ∧ (l ++ r).takeWhile (· ≠ '/') = l := by
    intro l hl r hr
    induction l with
    | nil =>
      rcases hr with rfl | hr
      · simp
      · cases r with
        | nil => simp
        | cons x r => simp only [List.head?_cons, Option.some.injEq] at hr; subst hr; simp
    | cons x l ih =>
      simp only [List.mem_cons, not_or] at hl
      have := ih hl.2
      rw [List.cons_append, List.dropWhile_cons_of_pos (by simpa using Ne.symm hl.1),
        List.takeWhile_cons_of_pos (by simpa using Ne.symm hl.1), this.1, this.2]
      exact ⟨rfl, rfl⟩
  have hr : pre.reverse = [] ∨ pre.reverse.head? = some '/' := by
    rcases hp with rfl | hp
    · left; rfl
    · right; rw [List.head?_reverse]; exact hp
  have hc : '/' ∉ c.reverse := by simpa using h
  have h1 := hd c.reverse hc pre.reverse hr
  rw [List.reverse_append]
  refine ⟨by rw [h1.1, List.reverse_reverse], fun hne => ?_⟩
  unfold baseOf
  rw [if_neg (by simp [hne])]
  have h2 : ((pre ++ c).reverse.dropWhile (· = '/')) = (pre ++ c).reverse := by
    rw [List.reverse_append]
    cases hcr : c.reverse with
    | nil => simp at hcr; exact absurd hcr hne
    | cons x l =>
      rw [List.cons_append, List.dropWhile_cons_of_neg]
      rw [hcr] at hc
      simp only [List.mem_cons, not_or] at hc
      simpa using Ne.symm hc.1
  simp only [h2]
  rw [if_neg (by simp [hne]), List.reverse_append, h1.2, List.reverse_reverse]

/-- Every string is a part that is empty or ends in '/', and a last element without '/'. -/
theorem exists_cut (p : Str) : ∃ pre c, p = pre ++ c ∧ '/' ∉ c ∧ (pre = [] ∨ pre.getLast? = some '/') := by
  induction p with
  | nil => exact ⟨[], [], rfl, by simp, .inl rfl⟩
  | cons x p ih =>
    obtain ⟨pre, c, h1, h2, h3⟩ := ih
    by_cases hpre : pre = []
    · subst hpre
      by_cases hx : x = '/'
      · subst hx; exact ⟨['/'], c, by simp [h1], h2, .inr rfl⟩
      · exact ⟨[], x :: c, by simp [h1], by simp only [List.mem_cons, not_or]; exact ⟨fun h => hx h.symm, h2⟩, .inl rfl⟩
    · refine ⟨x :: pre, c, by simp [h1], h2, .inr ?_⟩
      rcases h3 with h3 | h3
      · exact absurd h3 hpre
      · rw [List.getLast?_cons, h3]; rfl

theorem comps_trailing (q : Str) (h : q = [] ∨ q.getLast? = some '/') : ∃ q', comps q = comps q' ∧ (q = q' ++ ['/'] ∨ q = []) ∧
    ∀ c, comps (q ++ c) = comps q ++ comps c := by
  rcases h with rfl | h
  · exact ⟨[], rfl, .inr rfl, by simp [comps_nil]⟩
  · obtain ⟨q', rfl⟩ : ∃ q', q = q' ++ ['/'] := by
      rw [List.getLast?_eq_some_iff] at h; exact h
    refine ⟨q', ?_, .inl rfl, fun c => ?_⟩
    · rw [comps_append, comps_nil, List.append_nil]
    · rw [List.append_assoc, List.singleton_append, comps_append, comps_append, comps_nil, List.append_nil]

theorem dirOf_absP_nil : dirOf (absP []) = absP [] := by decide

theorem dirOf_absP {ns : List Str} (h : ∀ c ∈ ns, Name c) {n : Str} (hn : Name n) :
    dirOf (absP (ns ++ [n])) = absP ns ∧ baseOf (absP (ns ++ [n])) = n := by
  obtain ⟨pre, hpre, hlast, hc⟩ : ∃ pre, absP (ns ++ [n]) = pre ++ n ∧ pre.getLast? = some '/' ∧ clean pre = absP ns := by
    by_cases hns : ns = []
    · subst hns
      exact ⟨['/'], rfl, rfl, by decide⟩
    · refine ⟨absP ns ++ ['/'], ?_, by simp, ?_⟩
      · simp only [absP, render, if_true, joinWith_snoc ['/'] ns n hns, List.cons_append, List.append_assoc]
      · rw [clean, comps_append, comps_nil, List.append_nil, comps_absP h]
        have : isAbs (absP ns ++ ['/']) = true := by simp [absP, render, isAbs]
        rw [this, normC_names h]; rfl
  have := cut_last hn.1.2.2 pre (.inr hlast)
  rw [hpre]
  refine ⟨?_, this.2 hn.1.1⟩
  unfold dirOf
  rw [this.1, hc]

theorem absOf_form (cwd : List Str) (p : Str) : ∃ ns, absOf cwd p = absP ns ∧ ∀ c ∈ ns, Name c := by
  unfold absOf
  split
  · rename_i h
    refine ⟨normC true (comps p), ?_, normC_true_names (comps_elem p)⟩
    rw [clean, h]; rfl
  · refine ⟨normC true (comps (absP cwd) ++ [p].flatMap comps), ?_, normC_true_names ?_⟩
    · rw [join_eq (absP_ne_nil cwd), isAbs_absP]; rfl
    · intro c hc'
      rcases List.mem_append.1 hc' with hc' | hc'
      · exact comps_elem _ c hc'
      · obtain ⟨e, -, he⟩ := List.mem_flatMap.1 hc'; exact comps_elem e c he

end Path

theorem FS.stat_absP (fs : FS) {ns : List Str} (h : ∀ c ∈ ns, Path.Name c) :
    (∀ pos it, fs.stat (Path.absP ns) = .found pos it → pos = ns ∧ fs.at ns = some it) ∧
    (∀ it, fs.at ns = some it → fs.stat (Path.absP ns) = .found ns it) := by
  have := fs.walk_plain [] ns (Path.names_plain h)
  simp only [List.nil_append] at this
  unfold stat
  rw [if_neg (Path.absP_ne_nil ns), Path.isAbs_absP, Path.comps_absP h]
  exact this

end Fab
