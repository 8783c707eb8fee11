import Verif.FS

/-!
# `TopDir`: C21

top.go:13-108.  Loops are modelled with a counter of iterations: `none` means "still running after that many", so that
termination is a theorem and not a consequence of the modelling.  Parsing YAML is a parameter: `parse data` is `none` if the
text is not a YAML mapping, otherwise the value of its member `_dir` if that is a string.
-/

namespace Fab.TopDir
open Fab Path

/-- The result of opening a file for reading. -/
inductive Opened where
  | notExist
  | error
  /-- opened, but reading fails (a directory) -/
  | unreadable
  | data (d : Bytes)

/-- `os.Open` -/
def openFile (fs : FS) (p : Str) : Opened :=
  match fs.stat p with
  | .notExist => .notExist
  | .otherError => .error
  | .found _ (.file true d) => .data d
  | .found _ (.file false _) => .error
  | .found _ (.dir true _) => .unreadable
  | .found _ (.dir false _) => .error

def sFab : Str := "_fab".toList
def sYaml : Str := "fab.yaml".toList
def sYml : Str := "fab.yml".toList

/-- yaml.go:263-271 -/
def openFabYAML (fs : FS) (dir : Str) : Opened :=
  match openFile fs (join [dir, sYaml]) with
  | .notExist => openFile fs (join [dir, sYml])
  | r => r

inductive Res where
  | fail
  | ok (p : Str)

/-- top.go:85-107: compare the declaration with the directory, from the end; `none`: still running -/
def declLoop : Nat → Str → Str → Option Res
  | 0, _, _ => none
  | n + 1, dir, decl =>
    if baseOf decl ≠ baseOf dir then some .fail
    else if dirOf dir = dir then some .fail
    else if dirOf decl = dot then some (.ok (dirOf dir))
    else declLoop n (dirOf dir) (dirOf decl)

/-- The three results of `topDirHelper`: an error, "" (no YAML file), a directory. -/
inductive HelperRes where
  | fail
  | nothing
  | ok (p : Str)

/-- top.go:55-108 -/
def helper (n : Nat) (fs : FS) (parse : Bytes → Option (Option Str)) (dir : Str) : Option HelperRes :=
  match openFabYAML fs dir with
  | .notExist => some .nothing
  | .error => some .fail
  | .unreadable => some .fail
  | .data d => match parse d with
    | none => some .fail
    | some none => some (.ok dir)
    | some (some decl) =>
      if isAbs decl then some .fail
      else match declLoop n dir decl with
        | none => none
        | some .fail => some .fail
        | some (.ok p) => some (.ok p)

/-- top.go:30-52: the loop over the ancestors -/
def topLoop (n : Nat) (fs : FS) (parse : Bytes → Option (Option Str)) : Nat → Str → Option Res
  | 0, _ => none
  | m + 1, dir =>
    let next : Option Res :=
      match helper n fs parse dir with
      | none => none
      | some .fail => some .fail
      | some (.ok p) => some (.ok p)
      | some .nothing => if dirOf dir = dir then some .fail else topLoop n fs parse m (dirOf dir)
    match fs.stat (join [dir, sFab]) with
    | .found _ (.dir _ _) => some (.ok dir)
    | .otherError => some .fail
    | .found _ (.file _ _) => next
    | .notExist => next

/-- top.go:23-53, with `n` iterations allowed for each loop -/
def topDir (n : Nat) (fs : FS) (parse : Bytes → Option (Option Str)) (dir : Str) : Option Res :=
  topLoop n fs parse n (absOf fs.cwd dir)

/-! ## Specification -/

/-- Directory `ns` has a subdirectory `_fab`. -/
def HasFab (fs : FS) (ns : List Str) : Prop := ∃ r s, fs.at (ns ++ [sFab]) = some (.dir r s)

/-- `d` is the text of the file `fab.yaml` of directory `ns`, or of `fab.yml` if there is no `fab.yaml`. -/
def YamlText (fs : FS) (ns : List Str) (d : Bytes) : Prop :=
  fs.at (ns ++ [sYaml]) = some (.file true d) ∨
  (fs.at (ns ++ [sYaml]) = none ∧ fs.at (ns ++ [sYml]) = some (.file true d))

/-- Nothing that could mark a project: no directory `_fab`, no entry `fab.yaml` or `fab.yml`. -/
def Unmarked (fs : FS) (ns : List Str) : Prop :=
  ¬ HasFab fs ns ∧ fs.at (ns ++ [sYaml]) = none ∧ fs.at (ns ++ [sYml]) = none

/-- `a` is the top directory that the marks of directory `stop` point at. -/
inductive PointsAt (fs : FS) (parse : Bytes → Option (Option Str)) (stop : List Str) : List Str → Prop where
  | fab : HasFab fs stop → PointsAt fs parse stop stop
  | yaml {d} : ¬ HasFab fs stop → YamlText fs stop d → parse d = some none → PointsAt fs parse stop stop
  | decl {d decl a} : ¬ HasFab fs stop → YamlText fs stop d → parse d = some (some decl) → isAbs decl = false →
      stop = a ++ normC false (comps decl) → PointsAt fs parse stop a

/-- What the code takes for the top directory that the marks of directory `stop` point at: the same, except that a declaration that ends in '/'
is taken as if its last element came twice. -/
inductive TakenFor (fs : FS) (parse : Bytes → Option (Option Str)) (stop : List Str) : List Str → Prop where
  | right {a} : PointsAt fs parse stop a → (∀ d decl, YamlText fs stop d → parse d = some (some decl) → ¬ HasFab fs stop → decl.getLast? ≠ some '/') →
      TakenFor fs parse stop a
  | slash {d decl a e} : ¬ HasFab fs stop → YamlText fs stop d → parse d = some (some decl) → isAbs decl = false → decl.getLast? = some '/' →
      (normC false (comps decl)).getLast? = some e → stop = a ++ normC false (comps decl) ++ [e] → TakenFor fs parse stop a

/-! ## Proofs -/

theorem name_sFab : Name sFab := by unfold Name Elem; decide
theorem name_sYaml : Name sYaml := by unfold Name Elem; decide
theorem name_sYml : Name sYml := by unfold Name Elem; decide

theorem names_snoc {ns : List Str} (h : ∀ c ∈ ns, Name c) {n : Str} (hn : Name n) : ∀ c ∈ ns ++ [n], Name c := by
  intro c hc; rcases List.mem_append.1 hc with hc | hc
  · exact h c hc
  · rw [List.mem_singleton.1 hc]; exact hn

theorem names_init {ns : List Str} {n : Str} (h : ∀ c ∈ ns ++ [n], Name c) : (∀ c ∈ ns, Name c) ∧ Name n :=
  ⟨fun c hc => h c (List.mem_append_left _ hc), h n (by simp)⟩

theorem openFile_data {fs : FS} {ns : List Str} (h : ∀ c ∈ ns, Name c) {d : Bytes} :
    openFile fs (absP ns) = .data d ↔ fs.at ns = some (.file true d) := by
  have hs := fs.stat_absP h
  unfold openFile
  constructor
  · intro h'
    rcases hst : fs.stat (absP ns) with _ | _ | ⟨pos, it⟩
    · simp [hst] at h'
    · simp [hst] at h'
    · obtain ⟨-, h2⟩ := hs.1 pos it hst
      rw [h2]
      rw [hst] at h'
      rcases it with ⟨r, d'⟩ | ⟨r, s⟩ <;> cases r <;> simp at h' ⊢
      exact h'
  · intro h'
    rw [hs.2 _ h']

theorem openFile_notExist {fs : FS} {ns : List Str} (h : ∀ c ∈ ns, Name c) (h' : openFile fs (absP ns) = .notExist) :
    fs.at ns = none := by
  have hs := fs.stat_absP h
  rcases hc : fs.at ns with _ | it
  · rfl
  · exfalso
    have := hs.2 _ hc
    unfold openFile at h'
    rw [this] at h'
    rcases it with ⟨r, d'⟩ | ⟨r, s⟩ <;> cases r <;> simp at h'

theorem openYaml_data {fs : FS} {ns : List Str} (h : ∀ c ∈ ns, Name c) {d : Bytes}
    (h' : openFabYAML fs (absP ns) = .data d) : YamlText fs ns d := by
  unfold openFabYAML at h'
  rw [join_absP h name_sYaml, join_absP h name_sYml] at h'
  have h1 := names_snoc h name_sYaml
  have h2 := names_snoc h name_sYml
  rcases ho : openFile fs (absP (ns ++ [sYaml])) with _ | _ | _ | d'
  · rw [ho] at h'
    exact .inr ⟨openFile_notExist h1 ho, (openFile_data h2).1 h'⟩
  · simp [ho] at h'
  · simp [ho] at h'
  · simp only [ho, Opened.data.injEq] at h'
    subst h'
    exact .inl ((openFile_data h1).1 ho)

theorem openYaml_notExist {fs : FS} {ns : List Str} (h : ∀ c ∈ ns, Name c)
    (h' : openFabYAML fs (absP ns) = .notExist) : fs.at (ns ++ [sYaml]) = none ∧ fs.at (ns ++ [sYml]) = none := by
  unfold openFabYAML at h'
  rw [join_absP h name_sYaml, join_absP h name_sYml] at h'
  rcases ho : openFile fs (absP (ns ++ [sYaml])) with _ | _ | _ | d'
  · rw [ho] at h'
    exact ⟨openFile_notExist (names_snoc h name_sYaml) ho, openFile_notExist (names_snoc h name_sYml) h'⟩
  all_goals simp [ho] at h'

/-- The last element and the rest of a cleaned relative path. -/
theorem dirOf_rel {ds : List Str} {d : Str} (he : ∀ c ∈ ds ++ [d], Elem c) (hnf : normC false (ds ++ [d]) = ds ++ [d]) :
    dirOf (render false (ds ++ [d])) = render false ds ∧ baseOf (render false (ds ++ [d])) = d ∧ normC false ds = ds := by
  have hd : Elem d := he d (by simp)
  have hds : ∀ c ∈ ds, Elem c := fun c hc => he c (List.mem_append_left _ hc)
  have hnf' : normC false ds = ds := by
    -- a prefix of a normal form is a normal form
    obtain ⟨m, k, h1, h2, -⟩ := foldl_push_nf (r := false) (ds ++ [d]) (nf_nil _)
    have h3 : m ++ List.replicate k dotdot = d :: ds.reverse := by
      have := congrArg List.reverse hnf
      unfold normC at this
      rw [List.reverse_reverse, h1] at this
      simpa using this
    have h4 : NF false ds.reverse := by
      cases m with
      | nil =>
        cases k with
        | zero => simp at h3
        | succ k =>
          simp only [List.nil_append, List.replicate_succ, List.cons.injEq] at h3
          exact ⟨[], k, by simp [← h3.2], by simp, by simp⟩
      | cons x m =>
        simp only [List.cons_append, List.cons.injEq] at h3
        simp only [List.mem_cons, not_or] at h2
        exact ⟨m, k, h3.2.symm, h2.2, by simp⟩
    have := foldl_push_of_nf h4
    rw [List.reverse_reverse] at this
    unfold normC
    rw [this, List.reverse_reverse]
  obtain ⟨pre, hpre, hlast, hc⟩ : ∃ pre, render false (ds ++ [d]) = pre ++ d ∧ (pre = [] ∨ pre.getLast? = some '/') ∧
      clean pre = render false ds := by
    by_cases hns : ds = []
    · subst hns
      exact ⟨[], by simp [render, joinWith], .inl rfl, by decide⟩
    · have hr : render false ds = joinWith ['/'] ds := by simp [render, hns]
      refine ⟨render false ds ++ ['/'], ?_, .inr (by simp), ?_⟩
      · rw [hr]; simp [render, joinWith_snoc ['/'] ds d hns]
      · rw [clean, comps_append, comps_nil, List.append_nil, comps_render false hds]
        have : isAbs (render false ds ++ ['/']) = false := by
          have h1 := isAbs_render false hds
          have h2 : render false ds ≠ [] := by
            intro h; have := comps_render false hds; rw [h, comps_nil] at this; exact hns this.symm
          cases hrr : render false ds with
          | nil => exact absurd hrr h2
          | cons x xs => rw [hrr] at h1; simpa [isAbs] using h1
        rw [this, hnf']
  have := cut_last hd.2.2 pre hlast
  rw [hpre]
  refine ⟨?_, this.2 hd.1, hnf'⟩
  unfold dirOf
  rw [this.1, hc]

/-- The loop on a cleaned declaration. -/
theorem declLoop_clean (n : Nat) {ns ds : List Str} (h : ∀ c ∈ ns, Name c) (hd : ∀ c ∈ ds, Elem c) (hne : ds ≠ [])
    (hnf : normC false ds = ds) :
    (∀ p, declLoop n (absP ns) (render false ds) = some (.ok p) → ∃ a, p = absP a ∧ ns = a ++ ds) ∧
    (ns.length < n → ∀ a, ns = a ++ ds → declLoop n (absP ns) (render false ds) = some (.ok (absP a))) := by
  induction n generalizing ns ds with
  | zero => exact ⟨by simp [declLoop], by simp⟩
  | succ n ih =>
    obtain ⟨ds', d, rfl⟩ : ∃ ds' d, ds = ds' ++ [d] := by
      rcases List.eq_nil_or_concat ds with h | ⟨a, b, h⟩
      · exact absurd h hne
      · exact ⟨a, b, by rw [h, List.concat_eq_append]⟩
    obtain ⟨e1, e2, e3⟩ := dirOf_rel hd hnf
    rw [declLoop, e1, e2]
    rcases List.eq_nil_or_concat ns with rfl | ⟨ns', m, rfl⟩
    · rw [dirOf_absP_nil]
      refine ⟨?_, ?_⟩
      · intro p; simp only [if_true]; split <;> simp
      · intro _ a ha; simp at ha
    · rw [List.concat_eq_append] at *
      obtain ⟨hns', hm⟩ := names_init h
      obtain ⟨e4, e5⟩ := dirOf_absP hns' hm
      rw [e4, e5]
      have hne2 : absP ns' ≠ absP (ns' ++ [m]) := by
        intro h'; have := absP_inj hns' h h'; simp at this
      have hd' : ∀ c ∈ ds', Elem c := fun c hc => hd c (List.mem_append_left _ hc)
      have hdot : render false ds' = dot ↔ ds' = [] := by
        constructor
        · intro h'
          have := congrArg comps h'
          rw [comps_render false hd', comps_dot] at this; exact this
        · rintro rfl; rfl
      by_cases hdm : d = m
      · subst hdm
        rw [if_neg (by simp), if_neg hne2]
        by_cases hds' : ds' = []
        · rw [if_pos (hdot.2 hds')]
          subst hds'
          refine ⟨fun p hp => ?_, fun _ a ha => ?_⟩
          · simp only [Option.some.injEq, Res.ok.injEq] at hp; exact ⟨ns', hp.symm, by simp⟩
          · simp only [List.nil_append] at ha
            rw [List.append_left_inj] at ha; rw [ha]
        · rw [if_neg (fun h' => hds' (hdot.1 h'))]
          obtain ⟨i1, i2⟩ := ih hns' hd' hds' e3
          refine ⟨fun p hp => ?_, fun hl a ha => ?_⟩
          · obtain ⟨a, h1, h2⟩ := i1 p hp; exact ⟨a, h1, by rw [h2]; simp⟩
          · rw [← List.append_assoc, List.append_left_inj] at ha
            exact i2 (by simp at hl; omega) a ha
      · rw [if_pos (by simpa using hdm)]
        refine ⟨by simp, fun _ a ha => ?_⟩
        exfalso
        rw [← List.append_assoc] at ha
        have := List.append_inj_right' ha rfl
        simp at this; exact hdm this.symm

/-- The loop on any relative declaration that does not end in '/'. -/
theorem declLoop_ok {n : Nat} {ns : List Str} (h : ∀ c ∈ ns, Name c) {decl p : Str} (hrel : isAbs decl = false)
    (hts : decl.getLast? ≠ some '/') (hr : declLoop n (absP ns) decl = some (.ok p)) :
    ∃ a, p = absP a ∧ ns = a ++ normC false (comps decl) := by
  cases n with
  | zero => simp [declLoop] at hr
  | succ n =>
    obtain ⟨pre, c, rfl, hc, hpre⟩ := exists_cut decl
    rw [declLoop] at hr
    split at hr
    · simp at hr
    rename_i hbase
    simp only [ne_eq, not_not] at hbase
    split at hr
    · simp at hr
    rcases List.eq_nil_or_concat ns with rfl | ⟨ns', m, rfl⟩
    · rename_i hd; exact absurd dirOf_absP_nil hd
    rw [List.concat_eq_append] at *
    obtain ⟨hns', hm⟩ := names_init h
    obtain ⟨e4, e5⟩ := dirOf_absP hns' hm
    rw [e5] at hbase
    rw [e4] at hr
    -- the last element of the declaration
    have hcne : c ≠ [] := by
      rintro rfl
      rw [List.append_nil] at hts
      rcases hpre with rfl | hpre
      · rw [List.append_nil] at hbase
        have : baseOf [] = dot := rfl
        rw [this] at hbase
        exact hm.1.2.1 hbase.symm
      · exact hts hpre
    have hcut := cut_last hc pre hpre
    rw [hcut.2 hcne] at hbase
    subst hbase
    have hdir : dirOf (pre ++ c) = render false (normC false (comps pre)) := by
      unfold dirOf
      rw [hcut.1, clean]
      have : isAbs pre = false := by
        cases pre with
        | nil => rfl
        | cons x xs => simpa [isAbs] using hrel
      rw [this]
    have hcomps : normC false (comps (pre ++ c)) = normC false (comps pre) ++ [c] := by
      obtain ⟨q', -, -, hq⟩ := comps_trailing pre hpre
      rw [hq, comps_single hm.1]
      unfold normC
      rw [List.foldl_append]
      show (push false _ c).reverse = _
      unfold push
      rw [if_neg hm.2]; simp
    rw [hcomps]
    rw [hdir] at hr
    split at hr
    · rename_i hdot
      have : normC false (comps pre) = [] := by
        have h1 := congrArg comps hdot
        rwa [comps_render false (normC_elem (comps_elem pre)), comps_dot] at h1
      rw [this]
      simp only [Option.some.injEq, Res.ok.injEq] at hr
      exact ⟨ns', hr.symm, by simp⟩
    · rename_i hdot
      have hne : normC false (comps pre) ≠ [] := fun h' => hdot (by rw [h']; rfl)
      obtain ⟨a, h1, h2⟩ := (declLoop_clean n hns' (normC_elem (comps_elem pre)) hne (normC_idem _ _)).1 p hr
      exact ⟨a, h1, by rw [h2]; simp⟩

theorem comps_slashes (core : Str) (k : Nat) : comps (core ++ List.replicate k '/') = comps core := by
  induction k with
  | zero => simp
  | succ k ih =>
    rw [List.replicate_succ', ← List.append_assoc, comps_append, comps_nil, List.append_nil, ih]

theorem strip (decl : Str) : ∃ core k, decl = core ++ List.replicate k '/' ∧ core.getLast? ≠ some '/' := by
  generalize hn : decl.length = n
  induction n generalizing decl with
  | zero => exact ⟨[], 0, by simpa using hn, by simp⟩
  | succ n ih =>
    rcases List.eq_nil_or_concat decl with rfl | ⟨l, c, rfl⟩
    · simp at hn
    rw [List.concat_eq_append] at *
    by_cases hc : c = '/'
    · obtain ⟨core, k, h1, h2⟩ := ih l (by simpa using hn)
      exact ⟨core, k + 1, by rw [hc, h1, List.replicate_succ', List.append_assoc], h2⟩
    · exact ⟨l ++ [c], 0, by simp, by simpa using hc⟩

theorem baseOf_slashes {core : Str} (hne : core ≠ []) (hl : core.getLast? ≠ some '/') (k : Nat) :
    baseOf (core ++ List.replicate k '/') = baseOf core := by
  have h1 : ∀ k, (core ++ List.replicate k '/').reverse.dropWhile (· = '/') = core.reverse := by
    intro k
    rw [List.reverse_append, List.reverse_replicate]
    induction k with
    | zero =>
      rcases List.eq_nil_or_concat core with rfl | ⟨l, c, rfl⟩
      · rfl
      · simp at hl ⊢; simp [hl]
    | succ k ih => rw [List.replicate_succ, List.cons_append, List.dropWhile_cons_of_pos (by simp)]; exact ih
  have h2 := h1 0
  simp only [List.replicate_zero, List.append_nil] at h2
  unfold baseOf
  rw [if_neg hne, if_neg (by simp [hne])]
  dsimp only
  rw [h1, h2]

/-- The loop on a relative declaration that ends in '/'. -/
theorem declLoop_slash {n : Nat} {ns : List Str} (h : ∀ c ∈ ns, Name c) {decl p : Str} (hrel : isAbs decl = false)
    (hts : decl.getLast? = some '/') (hr : declLoop n (absP ns) decl = some (.ok p)) :
    ∃ a e, p = absP a ∧ (normC false (comps decl)).getLast? = some e ∧ ns = a ++ normC false (comps decl) ++ [e] := by
  cases n with
  | zero => simp [declLoop] at hr
  | succ n =>
    obtain ⟨core, k, hd, hcore⟩ := strip decl
    have hk : k ≠ 0 := by rintro rfl; rw [hd] at hts; simp at hts; exact hcore hts
    have hcne : core ≠ [] := by
      rintro rfl
      rw [hd] at hrel
      cases k with
      | zero => exact hk rfl
      | succ k => simp [List.replicate_succ, isAbs] at hrel
    obtain ⟨pre, c, rfl, hc, hpre⟩ := exists_cut core
    have hc' : c ≠ [] := by
      rintro rfl
      rcases hpre with rfl | hpre
      · exact hcne rfl
      · rw [List.append_nil] at hcore; exact hcore hpre
    have hbase : baseOf decl = c := by rw [hd, baseOf_slashes hcne hcore, (cut_last hc pre hpre).2 hc']
    have hdir : dirOf decl = render false (normC false (comps decl)) := by
      unfold dirOf
      have : (decl.reverse.dropWhile (· ≠ '/')).reverse = decl := by
        rcases List.eq_nil_or_concat decl with h0 | ⟨l, x, h0⟩
        · rw [h0] at hts; simp at hts
        · rw [h0] at hts ⊢; simp at hts; simp [hts]
      rw [this, clean, hrel]
    rw [declLoop] at hr
    split at hr
    · simp at hr
    rename_i hb
    simp only [ne_eq, not_not] at hb
    split at hr
    · simp at hr
    rcases List.eq_nil_or_concat ns with rfl | ⟨ns', m, rfl⟩
    · rename_i hd; exact absurd dirOf_absP_nil hd
    rw [List.concat_eq_append] at *
    obtain ⟨hns', hm⟩ := names_init h
    obtain ⟨e4, e5⟩ := dirOf_absP hns' hm
    rw [e5, hbase] at hb
    subst hb
    rw [e4, hdir] at hr
    have hcomps : normC false (comps decl) = normC false (comps pre) ++ [c] := by
      obtain ⟨q', -, -, hq⟩ := comps_trailing pre hpre
      rw [hd, comps_slashes, hq, comps_single hm.1]
      unfold normC
      rw [List.foldl_append]
      show (push false _ c).reverse = _
      unfold push
      rw [if_neg hm.2]; simp
    have hne : normC false (comps decl) ≠ [] := by rw [hcomps]; simp
    split at hr
    · rename_i hdot
      have h1 := congrArg comps hdot
      rw [comps_render false (normC_elem (comps_elem decl)), comps_dot] at h1
      exact absurd h1 hne
    · obtain ⟨a, h1, h2⟩ := (declLoop_clean n hns' (normC_elem (comps_elem decl)) hne (normC_idem _ _)).1 p hr
      exact ⟨a, c, h1, by rw [hcomps]; simp, by rw [h2]⟩

theorem declLoop_terminates {n : Nat} {ns : List Str} (h : ∀ c ∈ ns, Name c) (hn : ns.length < n) (decl : Str) :
    declLoop n (absP ns) decl ≠ none := by
  induction n generalizing ns decl with
  | zero => omega
  | succ n ih =>
    rw [declLoop]
    split
    · simp
    split
    · simp
    split
    · simp
    rename_i hd _
    rcases List.eq_nil_or_concat ns with rfl | ⟨ns', m, rfl⟩
    · exact absurd dirOf_absP_nil hd
    · rw [List.concat_eq_append] at *
      obtain ⟨hns', hm⟩ := names_init h
      rw [(dirOf_absP hns' hm).1]
      exact ih hns' (by simp at hn; omega) _

theorem topLoop_terminates (fs : FS) (parse : Bytes → Option (Option Str)) {n m : Nat} {ns : List Str}
    (h : ∀ c ∈ ns, Name c) (hn : ns.length < n) (hm : ns.length < m) : topLoop n fs parse m (absP ns) ≠ none := by
  induction m generalizing ns with
  | zero => omega
  | succ m ih =>
    have hh : helper n fs parse (absP ns) ≠ none := by
      unfold helper
      split
      · simp
      · simp
      · simp
      · split
        · simp
        · simp
        · split
          · simp
          · rename_i decl _ _
            have := declLoop_terminates h hn decl
            split <;> simp_all
    have hnext : (match helper n fs parse (absP ns) with
      | none => none
      | some .fail => some .fail
      | some (.ok p) => some (.ok p)
      | some .nothing => if dirOf (absP ns) = absP ns then some .fail else topLoop n fs parse m (dirOf (absP ns))) ≠ none := by
      split
      · rename_i h'; exact absurd h' hh
      · simp
      · simp
      · split
        · simp
        · rename_i hd
          rcases List.eq_nil_or_concat ns with rfl | ⟨ns', x, rfl⟩
          · exact absurd dirOf_absP_nil hd
          · rw [List.concat_eq_append] at *
            obtain ⟨hns', hx⟩ := names_init h
            rw [(dirOf_absP hns' hx).1]
            exact ih hns' (by simp at hn; omega) (by simp at hm; omega)
    rw [topLoop]
    split
    · simp
    · simp
    · exact hnext
    · exact hnext

/-- **C21, termination.** From any starting directory, each loop is over after at most one iteration more than the
starting directory has elements. -/
theorem C21_terminates (fs : FS) (parse : Bytes → Option (Option Str)) (dir : Str) :
    ∃ n, ∀ m ≥ n, topDir m fs parse dir ≠ none := by
  obtain ⟨ns, h1, h2⟩ := absOf_form fs.cwd dir
  refine ⟨ns.length + 1, fun m hm => ?_⟩
  unfold topDir
  rw [h1]
  exact topLoop_terminates fs parse h2 (by omega) (by omega)

theorem stat_fab {fs : FS} {ns : List Str} (h : ∀ c ∈ ns, Name c) :
    (HasFab fs ns → ∃ pos r s, fs.stat (join [absP ns, sFab]) = .found pos (.dir r s)) ∧
    (∀ pos r s, fs.stat (join [absP ns, sFab]) = .found pos (.dir r s) → HasFab fs ns) := by
  rw [join_absP h name_sFab]
  have := fs.stat_absP (names_snoc h name_sFab)
  refine ⟨?_, fun pos r s h' => ⟨r, s, (this.1 _ _ h').2⟩⟩
  rintro ⟨r, s, h'⟩
  exact ⟨_, r, s, this.2 _ h'⟩

/-- The declarations found in the YAML files do not end in '/'. -/
def NoTrailingSlash (parse : Bytes → Option (Option Str)) : Prop :=
  ∀ d decl, parse d = some (some decl) → decl.getLast? ≠ some '/'

theorem yamlText_uniq {fs : FS} {ns : List Str} {d d' : Bytes} (h : YamlText fs ns d) (h' : YamlText fs ns d') : d = d' := by
  rcases h with h | ⟨h, g⟩ <;> rcases h' with h' | ⟨h', g'⟩
  · rw [h] at h'; simpa using h'
  · rw [h] at h'; cases h'
  · rw [h] at h'; cases h'
  · rw [g] at g'; simpa using g'

theorem topLoop_ok {fs : FS} {parse : Bytes → Option (Option Str)} {n m : Nat} {ns : List Str}
    (h : ∀ c ∈ ns, Name c) {p : Str} (hr : topLoop n fs parse m (absP ns) = some (.ok p)) :
    ∃ stop a, stop <+: ns ∧ (∀ x, stop <+: x → x <+: ns → x ≠ stop → Unmarked fs x) ∧ TakenFor fs parse stop a ∧ p = absP a := by
  induction m generalizing ns with
  | zero => simp [topLoop] at hr
  | succ m ih =>
    by_cases hf : HasFab fs ns
    · obtain ⟨pos, r, s, hs⟩ := (stat_fab h).1 hf
      rw [topLoop, hs] at hr
      simp only [Option.some.injEq, Res.ok.injEq] at hr
      exact ⟨ns, ns, List.prefix_rfl, fun x h1 h2 h3 => absurd (h2.eq_of_length_le h1.length_le) h3, .right (.fab hf) (fun _ _ _ _ h => absurd hf h), hr.symm⟩
    · have hnext : (match helper n fs parse (absP ns) with
          | none => none
          | some .fail => some .fail
          | some (.ok p) => some (.ok p)
          | some .nothing => if dirOf (absP ns) = absP ns then some .fail else topLoop n fs parse m (dirOf (absP ns)))
            = some (Res.ok p) := by
        rw [topLoop] at hr
        rcases hst : fs.stat (join [absP ns, sFab]) with _ | _ | ⟨pos, ⟨r, d⟩ | ⟨r, s⟩⟩
        · rw [hst] at hr; exact hr
        · simp [hst] at hr
        · rw [hst] at hr; exact hr
        · exact absurd ((stat_fab h).2 _ _ _ hst) hf
      have hself : ∀ x, ns <+: x → x <+: ns → x ≠ ns → Unmarked fs x :=
        fun x h1 h2 h3 => absurd (h2.eq_of_length_le h1.length_le) h3
      rcases hh : helper n fs parse (absP ns) with _ | _ | _ | q
      · simp [hh] at hnext
      · simp [hh] at hnext
      · rw [hh] at hnext
        simp only at hnext
        split at hnext
        · simp at hnext
        rename_i hd
        rcases List.eq_nil_or_concat ns with rfl | ⟨ns', x, rfl⟩
        · exact absurd dirOf_absP_nil hd
        rw [List.concat_eq_append] at *
        obtain ⟨hns', hx⟩ := names_init h
        rw [(dirOf_absP hns' hx).1] at hnext
        obtain ⟨stop, a, h1, h2, h3, h4⟩ := ih hns' hnext
        refine ⟨stop, a, h1.trans (List.prefix_append _ _), ?_, h3, h4⟩
        intro y hy1 hy2 hy3
        by_cases hyn : y = ns' ++ [x]
        · subst hyn
          have : openFabYAML fs (absP (ns' ++ [x])) = .notExist := by
            unfold helper at hh
            split at hh
            · assumption
            · simp at hh
            · simp at hh
            · repeat' split at hh
              all_goals simp at hh
          exact ⟨hf, openYaml_notExist h this⟩
        · refine h2 y hy1 ?_ hy3
          rcases List.prefix_concat_iff.1 hy2 with h' | h'
          · exact absurd h' hyn
          · exact h'
      · rw [hh] at hnext
        simp only [Option.some.injEq, Res.ok.injEq] at hnext
        subst hnext
        unfold helper at hh
        split at hh
        · simp at hh
        · simp at hh
        · simp at hh
        · rename_i d hd
          have hy := openYaml_data h hd
          split at hh
          · simp at hh
          · rename_i hpd
            simp only [Option.some.injEq, HelperRes.ok.injEq] at hh
            exact ⟨ns, ns, List.prefix_rfl, hself, .right (.yaml hf hy hpd) (fun d' decl h1 h2 _ => by rw [yamlText_uniq h1 hy, hpd] at h2; simp at h2), hh.symm⟩
          · rename_i decl hpd
            split at hh
            · simp at hh
            rename_i habs
            rcases hdl : declLoop n (absP ns) decl with _ | _ | q'
            · simp [hdl] at hh
            · simp [hdl] at hh
            · simp only [hdl, Option.some.injEq, HelperRes.ok.injEq] at hh
              subst hh
              have habs' : isAbs decl = false := by simpa using habs
              by_cases hts : decl.getLast? = some '/'
              · obtain ⟨a, e, h1, h2, h3⟩ := declLoop_slash h habs' hts hdl
                exact ⟨ns, a, List.prefix_rfl, hself, .slash hf hy hpd habs' hts h2 h3, h1⟩
              · obtain ⟨a, h1, h2⟩ := declLoop_ok h habs' hts hdl
                exact ⟨ns, a, List.prefix_rfl, hself, .right (.decl hf hy hpd habs' h2) (fun d' decl' g1 g2 _ => by
                  rw [yamlText_uniq g1 hy, hpd] at g2; cases g2; exact hts), h1⟩

/-- **C21, exactly.** What `TopDir` answers when it succeeds, for all declarations. -/
theorem C21_answer_exact {fs : FS} {parse : Bytes → Option (Option Str)} {n : Nat} {dir p : Str} (hr : topDir n fs parse dir = some (.ok p)) :
    ∃ start stop a, absOf fs.cwd dir = absP start ∧ p = absP a ∧ stop <+: start ∧
      (∀ x, stop <+: x → x <+: start → x ≠ stop → Unmarked fs x) ∧ TakenFor fs parse stop a := by
  obtain ⟨ns, h1, h2⟩ := absOf_form fs.cwd dir
  unfold topDir at hr
  rw [h1] at hr
  obtain ⟨stop, a, h3, h4, h5, h6⟩ := topLoop_ok h2 hr
  exact ⟨ns, stop, a, h1, h6, h3, h4, h5⟩

/-- **C21 (partial: declarations that do not end in '/').** If `TopDir` succeeds with answer `p`, there is a directory
`stop`, the starting directory or one above it, such that no directory from the starting directory up to, but not
including, `stop` is marked, and the marks of `stop` point at `p`: `stop` has a `_fab` directory and `p` is `stop`; or it
has none but a YAML file without `_dir`, and `p` is `stop`; or a YAML file with a relative `_dir`, and `stop` is `p`
followed by the elements of the declaration. -/
theorem C21_answer_partial {fs : FS} {parse : Bytes → Option (Option Str)}
    (hp : NoTrailingSlash parse) {n : Nat} {dir p : Str} (hr : topDir n fs parse dir = some (.ok p)) :
    ∃ start stop a, absOf fs.cwd dir = absP start ∧ p = absP a ∧ stop <+: start ∧
      (∀ x, stop <+: x → x <+: start → x ≠ stop → Unmarked fs x) ∧ PointsAt fs parse stop a := by
  obtain ⟨start, stop, a, h1, h2, h3, h4, h5⟩ := C21_answer_exact hr
  refine ⟨start, stop, a, h1, h2, h3, h4, ?_⟩
  cases h5 with
  | right h _ => exact h
  | slash _ _ g1 _ g2 _ _ => exact absurd g2 (hp _ _ g1)

/-- The answer is a directory above (or equal to) the starting directory. -/
theorem PointsAt.prefix {fs : FS} {parse : Bytes → Option (Option Str)} {stop a : List Str} (h : PointsAt fs parse stop a) :
    a <+: stop := by
  cases h with
  | fab _ => exact List.prefix_rfl
  | yaml _ _ _ => exact List.prefix_rfl
  | decl _ _ _ _ h => exact ⟨_, h.symm⟩

/-- The answer, joined with the declaration, is the directory of the declaration. -/
theorem pointsAt_join {fs : FS} {parse : Bytes → Option (Option Str)} {stop a : List Str} {d : Bytes} {decl : Str}
    (ha : ∀ c ∈ a, Name c) (hs : ∀ c ∈ stop, Name c) (_ : YamlText fs stop d) (_ : parse d = some (some decl))
    (h : stop = a ++ normC false (comps decl)) : join [absP a, decl] = absP stop := by
  rw [join_eq (absP_ne_nil a), isAbs_absP, comps_absP ha]
  simp only [List.flatMap_cons, List.flatMap_nil, List.append_nil, absP]
  congr 1
  rw [h]
  have hpl : dotdot ∉ normC false (comps decl) := by
    intro hm; exact (hs _ (by rw [h]; exact List.mem_append_right _ hm)).2 rfl
  have hin : (normC false (comps decl)).head? ≠ some dotdot := by
    intro hh; exact hpl (List.mem_of_head? hh)
  unfold normC
  rw [List.foldl_append, foldl_inside hin, foldl_push_plain (names_plain ha)]
  simp

/-- **C21, failure.** If no directory from the starting directory up to the root is marked, `TopDir` does not succeed. -/
theorem C21_unmarked {fs : FS} {parse : Bytes → Option (Option Str)} {n : Nat} {dir : Str} {start : List Str}
    (hs : absOf fs.cwd dir = absP start) (hstart : ∀ c ∈ start, Name c)
    (hu : ∀ x, x <+: start → Unmarked fs x) : ∀ p, topDir n fs parse dir ≠ some (.ok p) := by
  intro p hp
  unfold topDir at hp
  rw [hs] at hp
  -- the marks are needed for success, whatever the declarations
  have key : ∀ m {ns : List Str}, (∀ c ∈ ns, Name c) → (∀ x, x <+: ns → Unmarked fs x) →
      topLoop n fs parse m (absP ns) ≠ some (.ok p) := by
    intro m
    induction m with
    | zero => intro ns _ _; simp [topLoop]
    | succ m ih =>
      intro ns h hu hr
      have hu0 := hu ns List.prefix_rfl
      rw [topLoop] at hr
      have hnext : (match helper n fs parse (absP ns) with
          | none => none
          | some .fail => some .fail
          | some (.ok p) => some (.ok p)
          | some .nothing => if dirOf (absP ns) = absP ns then some .fail else topLoop n fs parse m (dirOf (absP ns)))
            = some (Res.ok p) := by
        rcases hst : fs.stat (join [absP ns, sFab]) with _ | _ | ⟨pos, ⟨r, d⟩ | ⟨r, s⟩⟩
        · rw [hst] at hr; exact hr
        · simp [hst] at hr
        · rw [hst] at hr; exact hr
        · exact absurd ((stat_fab h).2 _ _ _ hst) hu0.1
      have hy : ∀ d, openFabYAML fs (absP ns) ≠ .data d := by
        intro d hd
        rcases openYaml_data h hd with h' | ⟨-, h'⟩
        · rw [hu0.2.1] at h'; simp at h'
        · rw [hu0.2.2] at h'; simp at h'
      rcases hh : helper n fs parse (absP ns) with _ | _ | _ | q
      · simp [hh] at hnext
      · simp [hh] at hnext
      · rw [hh] at hnext
        simp only at hnext
        split at hnext
        · simp at hnext
        rename_i hd
        rcases List.eq_nil_or_concat ns with rfl | ⟨ns', x, rfl⟩
        · exact absurd dirOf_absP_nil hd
        rw [List.concat_eq_append] at *
        obtain ⟨hns', hx⟩ := names_init h
        rw [(dirOf_absP hns' hx).1] at hnext
        exact ih hns' (fun y hy => hu y (hy.trans (List.prefix_append _ _))) hnext
      · unfold helper at hh
        split at hh
        · simp at hh
        · simp at hh
        · simp at hh
        · rename_i d hd; exact hy d hd
  exact key n hstart hu hp

/-! ### Completeness -/

theorem walk_in_dir {fs : FS} {cur cs : List Str} {r : Bool} {sub : Forest} {n : Str} (h : dotdot ∉ cs) (hn : n ≠ dotdot)
    (hd : fs.at (cur ++ cs) = some (.dir r sub)) (hno : fs.at (cur ++ cs ++ [n]) = none) :
    fs.walk cur (cs ++ [n]) = .notExist := by
  induction cs generalizing cur with
  | nil =>
    simp only [List.append_nil, List.nil_append] at *
    rw [FS.walk, hd]
    simp only [if_neg hn, FS.walk, hno]
  | cons c cs ih =>
    simp only [List.mem_cons, not_or] at h
    rw [show cur ++ c :: cs = (cur ++ [c]) ++ cs by simp] at hd hno
    have h1 := hd
    rw [List.append_assoc, FS.at, lookupFS_append] at h1
    rcases hc : fs.at cur with _ | ⟨r', d'⟩ | ⟨r', s'⟩
    · rw [← FS.at, hc] at h1; simp at h1
    · rw [← FS.at, hc] at h1; simp [lookupFS] at h1
    · rw [List.cons_append, FS.walk, hc]
      simp only [if_neg (Ne.symm h.1)]
      exact ih h.2 hd hno

theorem stat_in_dir {fs : FS} {ns : List Str} (h : ∀ c ∈ ns, Name c) {r : Bool} {sub : Forest} {n : Str} (hn : Name n)
    (hd : fs.at ns = some (.dir r sub)) (hno : fs.at (ns ++ [n]) = none) : fs.stat (absP (ns ++ [n])) = .notExist := by
  unfold FS.stat
  rw [if_neg (absP_ne_nil _), isAbs_absP, comps_absP (names_snoc h hn)]
  exact walk_in_dir (cur := []) (names_plain h) hn.2 hd hno

theorem openYaml_of_text {fs : FS} {ns : List Str} (h : ∀ c ∈ ns, Name c) {r : Bool} {sub : Forest}
    (hd : fs.at ns = some (.dir r sub)) {d : Bytes} (hy : YamlText fs ns d) : openFabYAML fs (absP ns) = .data d := by
  unfold openFabYAML
  rw [join_absP h name_sYaml, join_absP h name_sYml]
  rcases hy with hy | ⟨h1, hy⟩
  · rw [(openFile_data (names_snoc h name_sYaml)).2 hy]
  · have : openFile fs (absP (ns ++ [sYaml])) = .notExist := by
      unfold openFile; rw [stat_in_dir h name_sYaml hd h1]
    rw [this]
    exact (openFile_data (names_snoc h name_sYml)).2 hy

theorem openYaml_of_none {fs : FS} {ns : List Str} (h : ∀ c ∈ ns, Name c) {r : Bool} {sub : Forest}
    (hd : fs.at ns = some (.dir r sub)) (h1 : fs.at (ns ++ [sYaml]) = none) (h2 : fs.at (ns ++ [sYml]) = none) :
    openFabYAML fs (absP ns) = .notExist := by
  unfold openFabYAML
  rw [join_absP h name_sYaml, join_absP h name_sYml]
  have : openFile fs (absP (ns ++ [sYaml])) = .notExist := by
    unfold openFile; rw [stat_in_dir h name_sYaml hd h1]
  rw [this]
  unfold openFile; rw [stat_in_dir h name_sYml hd h2]

/-- The marks of `stop` point at `a`; a declaration is a clean relative path. -/
inductive PointsCleanlyAt (fs : FS) (parse : Bytes → Option (Option Str)) (stop : List Str) : List Str → Prop where
  | fab : HasFab fs stop → PointsCleanlyAt fs parse stop stop
  | yaml {d} : ¬ HasFab fs stop → YamlText fs stop d → parse d = some none → PointsCleanlyAt fs parse stop stop
  | decl {d decl a} : ¬ HasFab fs stop → YamlText fs stop d → parse d = some (some decl) → isAbs decl = false →
      clean decl = decl → decl ≠ dot → stop = a ++ comps decl → PointsCleanlyAt fs parse stop a

theorem at_prefix_dir {fs : FS} {x y : List Str} (hxy : x <+: y) {r : Bool} {sub : Forest}
    (hd : fs.at y = some (.dir r sub)) : ∃ r' sub', fs.at x = some (.dir r' sub') := by
  obtain ⟨z, rfl⟩ := hxy
  rw [FS.at, lookupFS_append] at hd
  rcases hc : fs.at x with _ | ⟨r', d'⟩ | ⟨r', s'⟩
  · rw [← FS.at, hc] at hd; simp at hd
  · rw [← FS.at, hc] at hd
    cases z <;> simp [lookupFS] at hd
  · exact ⟨r', s', rfl⟩

/-- **C21, success.** If the starting directory exists, and going up from it the first marked directory is `stop`, whose
marks point at `a`, then `TopDir` answers `a`. -/
theorem C21_finds {fs : FS} {parse : Bytes → Option (Option Str)} {n : Nat} {dir : Str} {start stop a : List Str}
    {r : Bool} {sub : Forest} (hs : absOf fs.cwd dir = absP start) (hstart : ∀ c ∈ start, Name c)
    (hd : fs.at start = some (.dir r sub)) (hpre : stop <+: start)
    (hu : ∀ x, stop <+: x → x <+: start → x ≠ stop → Unmarked fs x) (hp : PointsCleanlyAt fs parse stop a)
    (hn : start.length < n) : topDir n fs parse dir = some (.ok (absP a)) := by
  unfold topDir
  rw [hs]
  have key : ∀ m {ns : List Str}, ns <+: start → stop <+: ns → ns.length < m →
      topLoop n fs parse m (absP ns) = some (.ok (absP a)) := by
    intro m
    induction m with
    | zero => intro ns _ _ h; omega
    | succ m ih =>
      intro ns h1 h2 hm
      have hns : ∀ c ∈ ns, Name c := fun c hc => hstart c (h1.subset hc)
      obtain ⟨r', sub', hdir⟩ := at_prefix_dir h1 hd
      rw [topLoop]
      by_cases hf : HasFab fs ns
      · obtain ⟨pos, r, s, hst⟩ := (stat_fab hns).1 hf
        have : ns = stop := by
          by_contra hne
          exact (hu ns h2 h1 hne).1 hf
        subst this
        cases hp with
        | fab _ => rw [hst]
        | yaml hnf _ _ => exact absurd hf hnf
        | decl hnf _ _ _ _ _ _ => exact absurd hf hnf
      · have hst : (∃ pos r d, fs.stat (join [absP ns, sFab]) = .found pos (.file r d)) ∨
            fs.stat (join [absP ns, sFab]) = .notExist := by
          rw [join_absP hns name_sFab]
          rcases hc : fs.at (ns ++ [sFab]) with _ | ⟨r', d'⟩ | ⟨r', s'⟩
          · exact .inr (stat_in_dir hns name_sFab hdir hc)
          · exact .inl ⟨_, _, _, (fs.stat_absP (names_snoc hns name_sFab)).2 _ hc⟩
          · exact absurd ⟨r', s', hc⟩ hf
        have goal : (match helper n fs parse (absP ns) with
          | none => none
          | some .fail => some .fail
          | some (.ok p) => some (.ok p)
          | some .nothing => if dirOf (absP ns) = absP ns then some .fail else topLoop n fs parse m (dirOf (absP ns)))
            = some (Res.ok (absP a)) := by
          by_cases hstop : ns = stop
          · subst hstop
            cases hp with
            | fab h => exact absurd h hf
            | yaml _ hy hpd =>
              unfold helper
              rw [openYaml_of_text hns hdir hy]
              simp only [hpd]
            | @decl d decl _ _ hy hpd habs hcl hdot hsplit =>
              unfold helper
              rw [openYaml_of_text hns hdir hy]
              simp only [hpd, habs, Bool.false_eq_true, if_false]
              have hne : comps decl ≠ [] := by
                intro h
                apply hdot
                rw [← hcl, clean, h, habs]; rfl
              have hform : decl = render false (comps decl) := by
                have h3 := comps_clean decl
                rw [hcl, habs] at h3
                conv_lhs => rw [← hcl, clean, habs, ← h3]
              have hnf : normC false (comps decl) = comps decl := by
                have h3 := comps_clean decl
                rw [hcl, habs] at h3; exact h3.symm
              have := (declLoop_clean n hns (comps_elem decl) hne hnf).2 (lt_of_le_of_lt h1.length_le hn) a hsplit
              rw [← hform] at this
              rw [this]
          · have hun := hu ns h2 h1 hstop
            unfold helper
            rw [openYaml_of_none hns hdir hun.2.1 hun.2.2]
            simp only
            rcases List.eq_nil_or_concat ns with rfl | ⟨ns', x, rfl⟩
            · exact absurd (List.prefix_nil.1 h2).symm hstop
            rw [List.concat_eq_append] at *
            obtain ⟨hns', hx⟩ := names_init hns
            rw [(dirOf_absP hns' hx).1]
            rw [if_neg (fun h' => by have := absP_inj hns' hns h'; simp at this)]
            refine ih ((List.prefix_append _ _).trans h1) ?_ (by simp at hm; omega)
            rcases List.prefix_concat_iff.1 h2 with h' | h'
            · exact absurd h'.symm hstop
            · exact h'
        rcases hst with ⟨pos, r, d, hst⟩ | hst
        · rw [hst]; exact goal
        · rw [hst]; exact goal
  exact key n List.prefix_rfl hpre hn

/-! ### Cases -/

/-- A parser for the examples: an empty text has no `_dir`; any other text is the declaration. -/
def demoParse (d : Bytes) : Option (Option Str) :=
  if d = [] then some none else some (some (d.map fun b => Char.ofNat b.toNat))

def demoText (s : String) : Bytes := s.toList.map fun c => UInt8.ofNat c.toNat

def S (s : String) : Str := s.toList

/-- /t/a/b/c with /t/a/b/fab.yaml -/
def demoFS (decl : String) : FS :=
  { cwd := [S "t"],
    root := .dir (S "t") true (.dir (S "a") true (.dir (S "b") true
      (.file sYaml true (demoText decl) (.dir (S "c") true .nil .nil)) .nil) .nil) .nil }

/-- The answer, as a string ("" on failure). -/
def answer : Option Res → String
  | some (.ok p) => String.ofList p
  | _ => ""

example : answer (topDir 9 (demoFS "a/b") demoParse (S "a/b/c")) = "/t" ∧
    answer (topDir 9 (demoFS "./a//b") demoParse (S "a/b/c")) = "/t" ∧
    answer (topDir 9 (demoFS "b") demoParse (S "/t/a/b")) = "/t/a" ∧
    answer (topDir 9 (demoFS "") demoParse (S "/t/a/b/c")) = "/t/a/b" ∧
    answer (topDir 9 (demoFS "x/b") demoParse (S "/t/a/b/c")) = "" ∧
    answer (topDir 9 (demoFS "a/b") demoParse (S "/t/a")) = "" := by decide +kernel

example : NoTrailingSlash (fun d => if d = [] then some none else some (some (S "a/b"))) := by
  intro d decl h
  simp only at h
  split at h <;> simp at h
  subst h; decide

/-- /t/b/b with /t/b/b/fab.yaml, whose declaration is "b/" -/
def slashFS : FS :=
  { cwd := [S "t"],
    root := .dir (S "t") true (.dir (S "b") true (.dir (S "b") true
      (.file sYaml true (demoText "b/") .nil) .nil) .nil) .nil }

/-- **C21 fails for a declaration that ends in '/'**: the last element is then compared twice.  Here `/t/b/b/fab.yaml` says
that its directory is `b/` below the top directory, so the top directory is `/t/b`; the answer is `/t`. -/
theorem C21_counterexample_trailing_slash :
    topDir 9 slashFS demoParse (S "/t/b/b") = some (.ok (S "/t")) ∧
    (∀ a, PointsAt slashFS demoParse [S "t", S "b", S "b"] a → a = [S "t", S "b"]) ∧
    topDir 9 (demoFS "a/b/") demoParse (S "/t/a/b") = some .fail := by
  refine ⟨by rfl, ?_, by rfl⟩
  intro a h
  have hnf : ¬ HasFab slashFS [S "t", S "b", S "b"] := by
    rintro ⟨r, s, h⟩
    have : slashFS.at ([S "t", S "b", S "b"] ++ [sFab]) = none := by rfl
    rw [this] at h; simp at h
  have hy : ∀ d, YamlText slashFS [S "t", S "b", S "b"] d → d = demoText "b/" := by
    intro d h
    have : slashFS.at ([S "t", S "b", S "b"] ++ [sYaml]) = some (.file true (demoText "b/")) := by rfl
    rcases h with h | ⟨h, -⟩
    · rw [this] at h; simp at h; exact h.symm
    · rw [this] at h; simp at h
  have hpd : demoParse (demoText "b/") = some (some (S "b/")) := by decide +kernel
  cases h with
  | fab h => exact absurd h hnf
  | yaml h1 h2 h3 => rw [hy _ h2, hpd] at h3; simp at h3
  | decl h1 h2 h3 h4 h5 =>
    rw [hy _ h2, hpd] at h3
    simp only [Option.some.injEq] at h3
    subst h3
    have : normC false (comps (S "b/")) = [S "b"] := by decide +kernel
    rw [this] at h5
    have h6 : [S "t", S "b"] ++ [S "b"] = a ++ [S "b"] := h5
    exact (List.append_cancel_right h6).symm

/-- The hypothesis of `C21_answer_exact` in the case in which the code is wrong: the answer is the one that `TakenFor.slash` describes. -/
example : topDir 9 slashFS demoParse (S "/t/b/b") = some (.ok (S "/t")) ∧ TakenFor slashFS demoParse [S "t", S "b", S "b"] [S "t"] := by
  refine ⟨by rfl, .slash (d := demoText "b/") (decl := S "b/") (e := S "b") ?_ (Or.inl (by rfl)) (by decide +kernel) (by decide +kernel)
    (by decide +kernel) (by decide +kernel) ?_⟩
  · rintro ⟨r, s, h⟩
    have : slashFS.at ([S "t", S "b", S "b"] ++ [sFab]) = none := by rfl
    rw [this] at h; simp at h
  · have : normC false (comps (S "b/")) = [S "b"] := by decide +kernel
    rw [this]; rfl

end Fab.TopDir
