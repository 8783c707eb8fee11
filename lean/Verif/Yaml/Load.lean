import Verif.Yaml.Term

/-!
# Reading the top-level YAML file at the start (/repo/main.go:115-119, /repo/driver.go.tmpl:61-64): C60

Both fab without a driver and the driver read the YAML file of the top directory before anything else, and go on if there is none.
-/

namespace Fab.Yaml
open Path Cmd

/-- main.go:117-119 and driver.go.tmpl:61-64: an error `err` with `errors.Is(err, fs.ErrNotExist)` is ignored. -/
def load (L : Lib) (n : Nat) (s : St) : R Unit :=
  match readYAMLFile L n [] s with
  | .err (.noFile _) s => .ok () s
  | r => r

/-- None of the functions of the library, and none registered by others, returns an error of the sort of a missing file. -/
structure Quiet (L : Lib) : Prop where
  command : ∀ n D, L.decCommand n ≠ .error (.noFile D)
  files : ∀ n D, L.decFiles n ≠ .error (.noFile D)
  deps : ∀ n D, L.decDeps n ≠ .error (.noFile D)
  clean : ∀ n D, L.decClean n ≠ .error (.noFile D)
  glob : ∀ d p D, L.glob d p ≠ .error (.noFile D)
  str : ∀ t fn n d D, L.strFn t = some fn → fn n d ≠ .error (.noFile D)
  target : ∀ t fn n d D, L.targetFn t = some fn → fn n d ≠ .error (.noFile D)

/-- An error about a missing file is true, and the file was asked for. -/
def Hon {α : Type} (L : Lib) (r : R α) : Prop := ∀ D s', r = .err (.noFile D) s' → D ∈ s'.reads ∧ L.file D = .none

theorem Hon.ok {α : Type} {L : Lib} {a : α} {s : St} : Hon L (R.ok a s) := fun _ _ h => by cases h
theorem Hon.more {α : Type} {L : Lib} : Hon L (R.more : R α) := fun _ _ h => by cases h
theorem Hon.err {α : Type} {L : Lib} {e : YErr} {s : St} (h : ∀ D, e ≠ .noFile D) : Hon L (R.err e s : R α) :=
  fun D _ he => by injection he with h1 _; exact absurd h1 (h D)

theorem Hon.bind {α β : Type} {L : Lib} {r : R α} {k : α → St → R β} (h : Hon L r) (hk : ∀ a s, Hon L (k a s)) : Hon L (r.bind k) := by
  cases r with
  | ok a s => exact hk a s
  | err e s =>
    intro D s' he
    simp only [R.bind, R.err.injEq] at he
    obtain ⟨rfl, rfl⟩ := he
    exact h D s rfl
  | more => exact Hon.more

theorem Hon.lift {α : Type} {L : Lib} {x : Except YErr α} {s : St} (h : ∀ D, x ≠ .error (.noFile D)) : Hon L (lift x s) := by
  cases x with
  | ok a => exact Hon.ok
  | error e => exact Hon.err fun D he => h D (by rw [he])

theorem Hon.alloc {L : Lib} {o : Obj} {s : St} : Hon L (alloc o s) := Hon.ok

theorem globAll_quiet {g : Str → Except YErr (List Str)} (h : ∀ p D, g p ≠ .error (.noFile D)) (ps : List Str) (D : Str) :
    globAll g ps ≠ .error (.noFile D) := by
  induction ps with
  | nil => simp [globAll]
  | cons p ps ih =>
    rw [globAll]
    split
    · rename_i e he
      intro hc
      injection hc with hc
      exact h p D (hc ▸ he)
    · split
      · rename_i e he
        intro hc
        injection hc with hc
        exact ih (hc ▸ he)
      · simp

mutual
theorem tagged_quiet {L : Lib} (hq : Quiet L) (tag : Str) : ∀ (node : Node) (dir D : Str), tagged L tag node dir ≠ .error (.noFile D)
  | .mk kind t v h l content, dir, D => by
    rw [tagged]
    split
    · rename_i fn hf
      exact hq.str _ _ _ _ _ hf
    · split
      · split
        · simp
        · split
          · rename_i e he
            intro hc
            injection hc with hc
            exact fromNodes_quiet hq content dir D (hc ▸ he)
          · exact globAll_quiet (hq.glob _) _ _
      · simp
theorem fromNodes_quiet {L : Lib} (hq : Quiet L) : ∀ (nodes : List Node) (dir D : Str), fromNodes L nodes dir ≠ .error (.noFile D)
  | [], dir, D => by simp [fromNodes]
  | .mk kind t v h l content :: rest, dir, D => by
    have ih := fromNodes_quiet hq rest dir D
    have ht := tagged_quiet hq (normalizeTag t) (.mk kind t v h l content) dir D
    rw [fromNodes]
    split
    · split
      · rename_i e he
        intro hc
        injection hc with hc
        exact ih (hc ▸ he)
      · simp
    · split
      · simp
      · split
        · rename_i e he
          intro hc
          injection hc with hc
          exact ht (hc ▸ he)
        · split
          · rename_i e he
            intro hc
            injection hc with hc
            exact ih (hc ▸ he)
          · simp
end

theorem stringList_quiet {L : Lib} (hq : Quiet L) (node : Node) (dir D : Str) : stringList L node dir ≠ .error (.noFile D) := by
  unfold stringList
  dsimp only
  split
  · simp
  · split
    · exact tagged_quiet hq _ _ _ _
    · split
      · simp
      · exact fromNodes_quiet hq _ _ _

theorem fileList_quiet {L : Lib} (hq : Quiet L) (node : Node) (dir D : Str) : fileList L node dir ≠ .error (.noFile D) := by
  unfold fileList
  split
  · rename_i e he
    intro hc
    injection hc with hc
    exact stringList_quiet hq node dir D (hc ▸ he)
  · simp

theorem fileListFromNodes_quiet {L : Lib} (hq : Quiet L) (nodes : List Node) (dir D : Str) : fileListFromNodes L nodes dir ≠ .error (.noFile D) := by
  unfold fileListFromNodes
  split
  · rename_i e he
    intro hc
    injection hc with hc
    exact fromNodes_quiet hq nodes dir D (hc ▸ he)
  · simp

theorem mapT_hon {L : Lib} {yt : Node → Str → St → R Nat} (h : ∀ n d s, Hon L (yt n d s)) (dir : Str) (cs : List Node) (s : St) :
    Hon L (mapT yt dir cs s) := by
  induction cs generalizing s with
  | nil => exact Hon.ok
  | cons c cs ih => exact (h _ _ _).bind fun i s => (ih s).bind fun is s => Hon.ok

theorem allocCmds_hon {L : Lib} (mk : Str → Bool → Command) (first : Bool) (shs : List Str) (s : St) : Hon L (allocCmds mk first shs s) := by
  induction shs generalizing first s with
  | nil => exact Hon.ok
  | cons sh shs ih => exact Hon.alloc.bind fun i s => (ih false s).bind fun is s => Hon.ok

theorem commandDecoder_hon {L : Lib} (hq : Quiet L) (node : Node) (dir : Str) (s : St) : Hon L (commandDecoder L node dir s) := by
  unfold commandDecoder
  split
  · exact Hon.err (by simp)
  refine (Hon.lift (hq.command node)).bind fun c s => ?_
  refine (Hon.lift (stringList_quiet hq _ _)).bind fun args s => ?_
  refine (Hon.lift (stringList_quiet hq _ _)).bind fun env s => ?_
  have hsingle : Hon L (match c.shell.kind with
      | .zero => alloc (.command (toTarget L c [] dir args env false)) s
      | .scalar => alloc (.command (toTarget L c c.shell.value dir args env false)) s
      | _ => .err .badKind s) := by
    split
    · exact Hon.alloc
    · exact Hon.alloc
    · exact Hon.err (by simp)
  dsimp only
  split
  · split
    · exact hsingle
    · rename_i e _ he
      refine Hon.err fun D hc => ?_
      exact stringList_quiet hq _ _ D (hc ▸ he)
    · exact (allocCmds_hon _ _ _ _).bind fun ids s => Hon.alloc
  · exact hsingle

theorem builtin_hon {L : Lib} (hq : Quiet L) {yt : Node → Str → St → R Nat} (h : ∀ n d s, Hon L (yt n d s)) (tag : Str) (node : Node)
    (dir : Str) (s : St) : Hon L (builtin L yt tag node dir s) := by
  have hdeps : ∀ t deps s, Hon L ((yt t dir s).bind fun t s => (mapT yt dir deps s).bind fun ids s =>
      (alloc (.all ids) s).bind fun a s => alloc (.seq [a, t]) s) := fun t deps s =>
    (h _ _ _).bind fun t s => (mapT_hon h _ _ _).bind fun ids s => Hon.alloc.bind fun a s => Hon.alloc
  unfold builtin
  split
  · split
    · exact Hon.err (by simp)
    · exact (mapT_hon h _ _ _).bind fun _ _ => Hon.alloc
  split
  · split
    · exact Hon.err (by simp)
    · exact (mapT_hon h _ _ _).bind fun _ _ => Hon.alloc
  split
  · split
    · split
      · exact Hon.err (by simp)
      · exact hdeps _ _ _
    · exact (Hon.lift (hq.deps node)).bind fun d s => hdeps _ _ _
    · exact Hon.err (by simp)
  split
  · split
    · exact Hon.err (by simp)
    · split
      · exact Hon.err (by simp)
      · exact (h _ _ _).bind fun t s => (Hon.lift (fromNodes_quiet hq _ _)).bind fun _ _ => Hon.alloc
  split
  · split
    · exact Hon.err (by simp)
    · exact (Hon.lift (hq.files node)).bind fun f s => (h _ _ _).bind fun t s => (Hon.lift (fileList_quiet hq _ _)).bind fun _ _ =>
        (Hon.lift (fileList_quiet hq _ _)).bind fun _ _ => Hon.ok
  split
  · split
    · exact (Hon.lift (hq.clean node)).bind fun d s => (Hon.lift (fileList_quiet hq _ _)).bind fun _ _ => Hon.alloc
    · exact (Hon.lift (fileListFromNodes_quiet hq _ _)).bind fun _ _ => Hon.alloc
    · exact Hon.err (by simp)
  split
  · exact commandDecoder_hon hq _ _ _
  · exact Hon.err (by simp)

theorem readItems_hon {L : Lib} {yt : Node → Str → St → R Nat} (h : ∀ n d s, Hon L (yt n d s)) (dir : Str) :
    ∀ (k : Nat) (c : List Node), c.length ≤ k → ∀ (saw : Bool) (s : St), Hon L (readItems yt dir c saw s)
  | _, [], _, _, _ => by rw [readItems]; exacts [Hon.ok, by simp]
  | _, [_], _, _, _ => by rw [readItems]; exacts [Hon.ok, by simp]
  | 0, _ :: _ :: _, hk, _, _ => by simp at hk
  | k + 1, key :: val :: rest, hk, saw, s => by
    have ih := readItems_hon h dir k rest (by simp at hk; omega)
    rw [readItems]
    split
    · exact Hon.err (by simp)
    split
    · split
      · exact Hon.err (by simp)
      split
      · exact Hon.err (by simp)
      · exact ih _ _
    split
    · exact Hon.err (by simp)
    · exact (h _ _ _).bind fun o s => ih _ _

theorem ite_cases {α : Type} {c : Prop} [Decidable c] {a b : α} {P : α → Prop} (h1 : c → P a) (h2 : ¬ c → P b) : P (if c then a else b) := by
  split
  · exact h1 ‹_›
  · exact h2 ‹_›

theorem yaml_hon {L : Lib} (hq : Quiet L) : ∀ n, (∀ node d s, Hon L (yamlTarget L n node d s)) ∧ ∀ d s, Hon L (readYAMLFile L n d s)
  | 0 => ⟨fun _ _ _ => by rw [yamlTarget]; exact Hon.more, fun _ _ => by rw [readYAMLFile]; exact Hon.more⟩
  | n + 1 => by
    obtain ⟨h1, h2⟩ := yaml_hon hq n
    constructor
    · intro node d s
      rw [yamlTarget]
      unfold targetStep
      dsimp only
      split
      · split
        · rename_i fn hf
          exact (Hon.lift fun D => hq.target _ _ _ _ _ hf).bind fun _ _ => Hon.alloc
        · exact builtin_hon hq h1 _ _ _ _
      · split
        · exact Hon.err (by simp)
        · unfold reference
          split
          · exact Hon.alloc
          · split
            · exact Hon.err (by simp)
            · split
              · exact Hon.alloc
              · split
                · exact Hon.ok
                · refine (h2 _ _).bind fun _ s => ?_
                  split
                  · exact Hon.ok
                  · exact Hon.err (by simp)
    · intro d s
      rw [readYAMLFile]
      unfold fileStep
      dsimp only
      split
      · rename_i hf
        intro D s' he
        simp only [R.err.injEq, YErr.noFile.injEq] at he
        obtain ⟨rfl, rfl⟩ := he
        exact ⟨by simp, hf⟩
      · exact Hon.err (by simp)
      · split
        · exact Hon.err (by simp)
        · unfold readDoc
          split
          · exact Hon.err (by simp)
          · split
            · exact Hon.err (by simp)
            · split
              · split
                · exact Hon.err (by simp)
                · split
                  · exact Hon.err (by simp)
                  · refine (readItems_hon h1 _ _ _ (Nat.le_refl _) _ _).bind fun saw s => ?_
                    refine ite_cases (P := Hon L) (fun _ => Hon.err (by simp)) fun _ => Hon.ok
              · exact Hon.err (by simp)

/-! ## C60 -/

/-- **C60, partial.** Fab goes on after reading the top-level YAML file only if there is none, or it has been read to its end.  (What that
means for its targets is C42; here: in a project whose files have distinct, ordinary names of targets, each of the file's targets is
registered, with its comment.)

What is missing: files that are asked for by a reference in a YAML file, and do not exist (`hd`); see below. -/
theorem C60_complete_partial (L : Lib) (hq : Quiet L) (ht : isAbs L.top = true) (n : Nat) (s s' : St) (hs : Consistent s)
    (h : load L n s = .ok () s') (hd : ∀ D ∈ s'.reads, D ≠ join [L.top, []] → L.file D ≠ .none) :
    L.file (join [L.top, []]) = .none ∨
    ∃ doc, L.file (join [L.top, []]) = .doc (some doc) ∧
      ((∀ D doc, L.file D = .doc (some doc) → ((items doc).map fun e => e.1.value).Nodup ∧ ∀ e ∈ items doc, Ordinary e.1.value) →
        ∀ e ∈ items doc, ∃ d o, relDir L (join [L.top, []]) = some d ∧ s'.reg.target (join [d, e.1.value]) = (some o, docOf e.1) ∧
          Denotes L s' e.2 d o) := by
  unfold load at h
  split at h
  · rename_i D s1 he
    simp only [R.ok.injEq, true_and] at h
    subst h
    obtain ⟨h1, h2⟩ := (yaml_hon hq n).2 _ _ _ _ he
    by_cases hD : D = join [L.top, []]
    · exact .inl (hD ▸ h2)
    · exact absurd h2 (hd D h1 hD)
  · obtain ⟨doc, d, h1, h2, -, h3⟩ := C42_file L ht n [] s s' hs h
    refine .inr ⟨doc, h1, fun hn e he => ?_⟩
    obtain ⟨o, h4, h5⟩ := h3 hn e he
    exact ⟨d, o, h2, h4, h5⟩

/-- The other direction: an error that is not about a missing file is always reported, and nothing is run. -/
theorem C60_reports (L : Lib) (n : Nat) (s s' : St) (e : YErr) (h : readYAMLFile L n [] s = .err e s') (he : ∀ D, e ≠ .noFile D) :
    load L n s = .err e s' := by
  unfold load
  rw [h]
  cases e with
  | noFile D => exact absurd rfl (he D)
  | _ => rfl

/-- The YAML file of the top directory: a target, a reference to a directory without a YAML file, and another target. -/
def lostDoc : Node := exDoc [exKey "A" "", exTagged "!Clean" .sequence [exScalar "a"], exKey "B" "", exScalar "sub/X",
  exKey "C" "", exTagged "!Clean" .sequence [exScalar "c"]]

def lostLib : Lib := { exLib with file := fun D => if D = "/top".toList then .doc (some lostDoc) else .none }

/-- the state after reading it -/
def lostEnd : St := match load lostLib 12 St.empty with
  | .ok _ s => s
  | _ => St.empty

theorem lost_ok : load lostLib 12 St.empty = .ok () lostEnd := by
  have : (match load lostLib 12 St.empty with | .ok _ _ => true | _ => false) = true := by decide +kernel
  unfold lostEnd
  cases h : load lostLib 12 St.empty with
  | ok a s => rfl
  | err e s => rw [h] at this; cases this
  | more => rw [h] at this; cases this

/-- **C60 is false.** The file of the top directory exists, and refers to a directory that has no YAML file.  Fab reports no error, and
goes on with the targets before the reference only. -/
theorem C60_counterexample : ∃ doc, lostLib.file (join [lostLib.top, []]) = .doc (some doc) ∧ (items doc).map (fun e => e.1.value) = ["A".toList, "B".toList, "C".toList] ∧
    load lostLib 12 St.empty = .ok () lostEnd ∧ (lostEnd.reg.target "A".toList).1 = some 0 ∧
    (lostEnd.reg.target "B".toList).1 = none ∧ (lostEnd.reg.target "C".toList).1 = none :=
  ⟨lostDoc, by rw [show join [lostLib.top, []] = "/top".toList by decide +kernel]; simp only [lostLib, if_true], by decide +kernel, lost_ok, by decide +kernel, by decide +kernel, by decide +kernel⟩

theorem lost_quiet : Quiet lostLib where
  command _ _ := by simp [lostLib, exLib]
  files _ _ := by simp [lostLib, exLib]
  deps _ _ := by simp [lostLib, exLib]
  clean _ _ := by simp [lostLib, exLib]
  glob d p D := by simp only [lostLib, exLib]; split <;> simp
  str t fn n d D h := by
    simp only [lostLib, exLib] at h
    split at h
    · injection h with h; subst h; simp
    · cases h
  target _ _ _ _ _ h := by simp [lostLib, exLib] at h

/-- a project without missing files, in which the hypotheses of `C60_complete_partial` hold -/
def fullLib : Lib := { exLib with file := fun D => if D = "/top".toList then .doc (some lostDoc) else
  if D = "/top/sub".toList then .doc (some (exDoc [exKey "_dir" "", exScalar "sub", exKey "X" "", exTagged "!Clean" .sequence [exScalar "x"]])) else .none }
def fullEnd : St := match load fullLib 12 St.empty with
  | .ok _ s => s
  | _ => St.empty
example : (match load fullLib 12 St.empty with | .ok _ _ => true | _ => false) = true := by decide +kernel
example : fullEnd.reads = ["/top".toList, "/top/sub".toList] ∧ fullEnd.hist.map (fun x => x.1) = ["A".toList, "sub/X".toList, "B".toList, "C".toList] := by
  decide +kernel
example : ∀ D ∈ fullEnd.reads, D ≠ join [fullLib.top, []] → fullLib.file D ≠ .none := by
  have : fullEnd.reads = ["/top".toList, "/top/sub".toList] := by decide +kernel
  rw [this]
  intro D hD hne
  simp only [List.mem_cons, List.not_mem_nil, or_false] at hD
  rcases hD with rfl | rfl
  · exact absurd (by decide +kernel) hne
  · simp only [fullLib]
    rw [if_neg (by decide +kernel)]
    simp
example : load exLib 5 St.empty = .ok () { St.empty with reads := ["/top".toList] } := by
  have h : readYAMLFile exLib 5 [] St.empty = .err (.noFile "/top".toList) { St.empty with reads := ["/top".toList] } := rfl
  unfold load
  rw [h]

end Fab.Yaml
