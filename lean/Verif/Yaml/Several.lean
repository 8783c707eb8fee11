import Verif.Yaml.Right

/-!
# C91: several builds at the same time

Several fab processes (or several controllers in one program), each of which builds something, with the same files and the same hash databases.  Nothing
keeps them apart: each has its own controller, its own registries and its own goroutines, and the steps of all of them can be mixed in any way.
-/

namespace Fab.Yaml
open Path Cmd Files
open Runner (Proc TRef Env Ev State Reach Label TSt Job Thread allBody seqBody argBody nameBody hist)

/-! ## Specification -/

/-- One process: what it has read from its fab.yaml files (`s`), what its commands do (`own`), the JSON forms of its rules (`J`), and its build: the
targets `os`, and the context (with the hash database).  /repo/main.go:115, /repo/driver.go.tmpl:51: each process has its own controller. -/
structure BuildProc (ρ : Type) where
  own : Own ρ
  s : St
  J : Nat → Json.J
  os : List Nat
  ctx : Ctx

section
variable {ι ρ : Type} [DecidableEq ι] (hex : Bytes → Str) (sum : Str → Str)

/-- What can happen: a goroutine of a process takes a step, or others change files and databases. -/
inductive Move (ι : Type)
  | proc (i : ι) (tid : Nat)
  | other (f : FS → (Nat → List Str) → FS × (Nat → List Str))

/-- The files and databases are those of `w'`; the rest (registries, and so on) is private. -/
def share (w' w : World ρ) : World ρ := { w with fs := w'.fs, db := w'.db }

/-- One step of the whole.  A process that does not move has not been started, is slow, or was killed. -/
def move (P : ι → BuildProc ρ) (x : ι → State (World ρ) Ctx) : Move ι → ι → State (World ρ) Ctx
  | .proc i tid => match Runner.step (buildEnv hex sum (P i).own (P i).s) (x i) tid with
    | none => x
    | some st => fun j => if j = i then st else { x j with world := share st.world (x j).world }
  | .other f => fun j => { x j with world := { (x j).world with fs := (f (x j).world.fs (x j).world.db).1, db := (f (x j).world.fs (x j).world.db).2 } }

/-- The processes after the moves `ms`.  At the beginning the files are `fs`, the databases `db`, and the rest is as in `u`. -/
def several (P : ι → BuildProc ρ) (fs : FS) (db : Nat → List Str) (u : ι → World ρ) (ms : List (Move ι)) : ι → State (World ρ) Ctx :=
  ms.foldl (move hex sum P) fun i => Runner.init { u i with fs := fs, db := db } [.call (P i).ctx ((P i).os.map .ptr) .ret]

variable (P : ι → BuildProc ρ) (T : Sit → Prop)

/-- The files that matter for process `i` are the same. -/
def SameFor (i : ι) (fs fs' : FS) : Prop :=
  ∀ x t ins outs, FilesOf (P i).s (P i).os x t ins outs → ∀ n ∈ ins ++ outs, SameFile fs fs' n

/-- What is asked of each of the processes (as in `FairBuild`), and of everything else. -/
structure FairBuilds (fs : FS) (db : Nat → List Str) (u : ι → World ρ) (ms : List (Move ι)) : Prop where
  noRun : ∀ i o ctx, NoRun ((P i).own.body o ctx)
  orderly : ∀ i, Orderly (P i).own (P i).s (P i).J (P i).os
  cmds : ∀ i c ctx, MayRun (P i).s (P i).os c → ¬ Composite (P i).s c → ((P i).own.body c ctx).Acts (Changes (P i).s (P i).os c)
  outside : ∀ f, .other f ∈ ms → ∀ fs db, (∀ d, ∀ h ∈ (f fs db).2 d, h ∈ db d) ∧ ∀ i, SameFor P i fs (f fs db).1
  sits : ∀ ms₁ ms₂, ms = ms₁ ++ ms₂ → ∀ i x t ins outs, FilesOf (P i).s (P i).os x t ins outs →
    T (sitOf (P i).own (P i).J t ins outs (several hex sum P fs db u ms₁ i).world.fs)

/-- The processes keep apart: no step of one of them changes a file that matters for another.  (They may read the same files, and need the same targets,
as long as the rules of those are not run.) -/
def KeepApart (fs : FS) (db : Nat → List Str) (u : ι → World ρ) (ms : List (Move ι)) : Prop :=
  ∀ ms₁ i tid ms₂, ms = ms₁ ++ .proc i tid :: ms₂ → ∀ j, j ≠ i →
    SameFor P j (several hex sum P fs db u ms₁ j).world.fs (several hex sum P fs db u (ms₁ ++ [.proc i tid]) j).world.fs

/-- The rules do what they are meant to do: when a rule of a process has run successfully, the outputs are what they are meant to be. -/
def AllRulesWork (R : Meaning) (fs : FS) (db : Nat → List Str) (u : ι → World ρ) (ms : List (Move ι)) : Prop :=
  ∀ ms₁ m ms₂, ms = ms₁ ++ m :: ms₂ → ∀ i x t ins outs, FilesOf (P i).s (P i).os x t ins outs → ∀ th key,
    (several hex sum P fs db u (ms₁ ++ [m]) i).log = (several hex sum P fs db u ms₁ i).log ++ [(th, Ev.finish key t none)] →
    (sitOf (P i).own (P i).J t ins outs (several hex sum P fs db u (ms₁ ++ [m]) i).world.fs).right R

end

/-! ## Proofs -/

section
variable {ι ρ : Type} [DecidableEq ι] {hex : Bytes → Str} {sum : Str → Str} {P : ι → BuildProc ρ} {T : Sit → Prop} {R : Meaning} {fs : FS}
  {db : Nat → List Str} {u : ι → World ρ} {ms : List (Move ι)}

theorem move_none {x : ι → State (World ρ) Ctx} {i : ι} {tid : Nat} (h : Runner.step (buildEnv hex sum (P i).own (P i).s) (x i) tid = none) :
    move hex sum P x (.proc i tid) = x := by
  simp only [move, h]

theorem move_some {x : ι → State (World ρ) Ctx} {i : ι} {tid : Nat} {st : State (World ρ) Ctx}
    (h : Runner.step (buildEnv hex sum (P i).own (P i).s) (x i) tid = some st) :
    move hex sum P x (.proc i tid) = fun j => if j = i then st else { x j with world := share st.world (x j).world } := by
  simp only [move, h]

theorem several_snoc {m : Move ι} : several hex sum P fs db u (ms ++ [m]) = move hex sum P (several hex sum P fs db u ms) m := by
  simp [several]

/-- All processes see the same files and databases. -/
theorem several_same (i j : ι) : (several hex sum P fs db u ms i).world.fs = (several hex sum P fs db u ms j).world.fs ∧
    (several hex sum P fs db u ms i).world.db = (several hex sum P fs db u ms j).world.db := by
  induction ms using List.reverseRecOn generalizing i j with
  | nil => exact ⟨rfl, rfl⟩
  | append_singleton ms m ih =>
    rw [several_snoc]
    cases m with
    | proc k tid =>
      cases h : Runner.step (buildEnv hex sum (P k).own (P k).s) (several hex sum P fs db u ms k) tid with
      | none => rw [move_none h]; exact ih i j
      | some st =>
        rw [move_some h]
        dsimp only
        split <;> split <;> simp [share]
    | other f =>
      simp only [move]
      rw [(ih i j).1, (ih i j).2]
      exact ⟨rfl, rfl⟩

/-- What one process does is an execution of it. -/
theorem several_reach (i : ι) : Reach (buildEnv hex sum (P i).own (P i).s) { u i with fs := fs, db := db } [.call (P i).ctx ((P i).os.map .ptr) .ret]
    (several hex sum P fs db u ms i) := by
  induction ms using List.reverseRecOn with
  | nil => exact .init
  | append_singleton ms m ih =>
    rw [several_snoc]
    cases m with
    | proc k tid =>
      cases h : Runner.step (buildEnv hex sum (P k).own (P k).s) (several hex sum P fs db u ms k) tid with
      | none => rw [move_none h]; exact ih
      | some st =>
        rw [move_some h]
        dsimp only
        split
        · rename_i hk; subst hk
          exact .step (.thread tid) ih h
        · exact .step (.extern (share st.world)) ih rfl
    | other f => exact .step (.extern fun w => { w with fs := (f w.fs w.db).1, db := (f w.fs w.db).2 }) ih rfl

/-- While only one process moves. -/
theorem several_segment (i : ι) (ts : List Nat) : several hex sum P fs db u (ms ++ ts.map (.proc i)) = fun j =>
    if j = i then Runner.runSched (buildEnv hex sum (P i).own (P i).s) (several hex sum P fs db u ms i) (ts.map .thread)
    else { several hex sum P fs db u ms j with
      world := share (Runner.runSched (buildEnv hex sum (P i).own (P i).s) (several hex sum P fs db u ms i) (ts.map .thread)).world
        (several hex sum P fs db u ms j).world } := by
  induction ts using List.reverseRecOn with
  | nil =>
    funext j
    simp only [List.map_nil, List.append_nil, Runner.runSched]
    split
    · rename_i h; rw [h]
    · obtain ⟨h1, h2⟩ := several_same (hex := hex) (sum := sum) (P := P) (fs := fs) (db := db) (u := u) (ms := ms) i j
      unfold share
      rw [h1, h2]
  | append_singleton ts t ih =>
    rw [List.map_append, ← List.append_assoc, List.map_singleton, several_snoc, ih, List.map_append, List.map_singleton, runSched_append]
    generalize Runner.runSched (buildEnv hex sum (P i).own (P i).s) (several hex sum P fs db u ms i) (ts.map .thread) = st
    have hst : Runner.runSched (buildEnv hex sum (P i).own (P i).s) st [.thread t] = (Runner.step (buildEnv hex sum (P i).own (P i).s) st t).getD st := rfl
    rw [hst]
    cases h : Runner.step (buildEnv hex sum (P i).own (P i).s) st t with
    | none => rw [move_none (by simpa using h)]; rfl
    | some st' =>
      rw [move_some (st := st') (by simpa using h)]
      funext j
      by_cases hj : j = i
      · simp [hj]
      · simp [hj, share]

/-- The act of a command. -/
theorem act_acts {own : Own ρ} {s : St} {G : FS → FS → Prop} (hG : ∀ fs, G fs fs) {c : Nat} {ctx : Ctx}
    (hcmd : ¬ Composite s c → (own.body c ctx).Acts fun w w' => G w.fs w'.fs)
    (hnf : ∀ t ins outs, s.heap[c]? ≠ some (.files t ins outs)) {h : List (Runner.LEv (World ρ) Ctx)} {f k}
    (hr : Runner.Runs ((buildEnv hex sum own s).body c ctx) h (.at (.act f k))) (w : World ρ) : G w.fs (f w).fs := by
  let Q : World ρ → World ρ → Prop := fun w w' => G w.fs w'.fs
  have acts : ∀ {p : Proc (World ρ) Ctx} {h pos}, p.Acts Q → Runner.Runs p h pos → (match pos with
      | .at q => q.Acts Q
      | .inCall _ k => ∀ e, (k e).Acts Q) := by
    intro p h pos hp hr
    induction hr with
    | nil => exact hp
    | act w _ ih => exact ih.2 w
    | call c _ ih => exact ih
    | ret e _ ih => exact ih e
  have key : ((buildEnv hex sum own s).body c ctx).Acts Q := by
    unfold buildEnv
    dsimp only
    have hseq : ∀ l : List TRef, (seqBody (σ := World ρ) l ctx).Acts Q := by
      intro l
      induction l with
      | nil => trivial
      | cons r l ih =>
        intro e
        cases e with
        | none => exact ih
        | some e => trivial
    split
    · exact fun e => trivial
    · exact hseq _
    · exact fun e => trivial
    · rename_i hh; exact absurd hh (hnf _ _ _)
    · rename_i name hh
      refine ⟨fun w => ?_, fun w => ?_⟩
      · unfold resolveName
        split <;> exact hG _
      · dsimp only
        split
        · trivial
        · exact fun e => trivial
    · rename_i h1 h2 h3 h4 h5
      refine hcmd ?_
      rintro (h | h | h | h | h)
      · exact h1 _ h
      · exact h2 _ h
      · exact h3 _ _ h
      · exact h5 _ h
      · exact h4 _ _ _ h
  exact (acts key hr).1 w

/-- A step of a process changes no files but those that one of its commands changes. -/
theorem step_sep {own : Own ρ} {s : St} {J : Nat → Json.J} {os : List Nat} {G : FS → FS → Prop} (hG : ∀ fs, G fs fs)
    (hown : ∀ o ctx, NoRun (own.body o ctx)) (hord : Orderly own s J os)
    {w : World ρ} {ctx : Ctx} {st st' : State (World ρ) Ctx} (hr : Reach (buildEnv hex sum own s) w [.call ctx (os.map .ptr) .ret] st)
    (i : BuildInv hex sum own s J R T os st) (hcmd : ∀ c ctx, MayRun s os c → ¬ Composite s c → (own.body c ctx).Acts fun w w' => G w.fs w'.fs)
    (hT : ∀ x t ins outs, FilesOf s os x t ins outs → T (sitOf own J t ins outs st.world.fs)) {tid : Nat}
    (hs : Runner.step (buildEnv hex sum own s) st tid = some st') : G st.world.fs st'.world.fs := by
  obtain ⟨⟨jb, ts⟩, hth, hc⟩ := Runner.step_cases hs
  rcases step_fs hc with ⟨f, k, hts, hw, -, -⟩ | ⟨-, hfs, hdb⟩
  · dsimp only at hts; subst hts
    rw [hw]
    obtain ⟨p, ho, hp⟩ := hr.localInv.pos _ _ _ hth
    cases jb with
    | none =>
      exfalso
      have hlt := (List.getElem?_eq_some_iff.1 (show [Proc.call ctx (os.map TRef.ptr) .ret][tid]? = some p from ho)).1
      simp only [List.length_singleton] at hlt
      obtain rfl : tid = 0 := by omega
      have ho : some (Proc.call ctx (os.map TRef.ptr) .ret) = some p := ho
      cases ho
      exact client_still hp _ _ rfl
    | some j =>
      cases ho
      have hmay : MayRun s os j.tgt := (C76_build hown hr).1 _ _ _ _ _ _ (hr.inv.b.started _ _ _ hth rfl)
      by_cases hf : ∃ t ins outs, s.heap[j.tgt]? = some (.files t ins outs)
      · obtain ⟨t, ins, outs, hf⟩ := hf
        have hx : FilesOf s os j.tgt t ins outs := by
          rcases kind hown hord hr tid hth with ⟨k1, k2⟩ | ⟨z, t', ins', outs', k1, k2, -⟩
          · exact ⟨⟨_, k1, k2⟩, hf⟩
          · exact absurd hf ((hord.parts _ _ _ _ _ k1 k2).2 _ _ _)
        have key : (f st.world).fs = st.world.fs := by
          rcases i.files _ _ _ _ hx _ _ _ hth rfl with ⟨rfl, -⟩ | ⟨-, h1⟩
          · rfl
          · exact (h1 st.world (.refl _ _) i.honest (hT _ _ _ _ hx)).1
        rw [key]; exact hG _
      · exact act_acts hG (hcmd _ _ hmay) (fun t ins outs h => hf ⟨t, ins, outs, h⟩) hp st.world
  · rw [hfs]; exact hG _

/-- Everything is in order, in all processes. -/
def AllInv (hex : Bytes → Str) (sum : Str → Str) (P : ι → BuildProc ρ) (R : Meaning) (T : Sit → Prop) (x : ι → State (World ρ) Ctx) : Prop :=
  ∀ i, BuildInv hex sum (P i).own (P i).s (P i).J R T (P i).os (x i)

theorem AllInv.start (hdb : ∀ d, HonestDB hex sum R T (db d)) : AllInv hex sum P R T (several hex sum P fs db u []) :=
  fun i => BuildInv.start (w := { u i with fs := fs, db := db }) (ctx := (P i).ctx) hdb

theorem AllInv.snoc (hno : NoCollision hex sum T) (hf : FairBuilds hex sum P T fs db u ms) {ms₁ ms₂ : List (Move ι)} {m : Move ι} (hms : ms = ms₁ ++ m :: ms₂)
    (hap : ∀ i tid, m = .proc i tid → ∀ j, j ≠ i →
      SameFor P j (several hex sum P fs db u ms₁ j).world.fs (several hex sum P fs db u (ms₁ ++ [m]) j).world.fs)
    (hrule : ∀ i x t ins outs, FilesOf (P i).s (P i).os x t ins outs → ∀ th key,
      (several hex sum P fs db u (ms₁ ++ [m]) i).log = (several hex sum P fs db u ms₁ i).log ++ [(th, Ev.finish key t none)] →
      (sitOf (P i).own (P i).J t ins outs (several hex sum P fs db u (ms₁ ++ [m]) i).world.fs).right R)
    (ih : AllInv hex sum P R T (several hex sum P fs db u ms₁)) : AllInv hex sum P R T (several hex sum P fs db u (ms₁ ++ [m])) := by
  have hT := hf.sits ms₁ _ hms
  have hr := fun i => several_reach (hex := hex) (sum := sum) (P := P) (fs := fs) (db := db) (u := u) (ms := ms₁) i
  rw [several_snoc] at hap hrule ⊢
  generalize several hex sum P fs db u ms₁ = x at *
  cases m with
  | proc i tid =>
    cases h : Runner.step (buildEnv hex sum (P i).own (P i).s) (x i) tid with
    | none => rw [move_none h]; exact ih
    | some st =>
      rw [move_some h] at hap hrule ⊢
      have hi : BuildInv hex sum (P i).own (P i).s (P i).J R T (P i).os st := by
        refine (ih i).step (hf.noRun i) (hf.orderly i) (hr i) hno.tells (hT i) (.of (hf.cmds i)) h fun y t ins outs hy th key hl => ?_
        have := hrule i y t ins outs hy th key
        simp only [if_true] at this
        exact this hl
      intro j
      by_cases hj : j = i
      · subst hj; simpa using hi
      · have hs := hap i tid rfl j hj
        simp only [if_neg hj] at hs ⊢
        exact (ih j).extern (fun d => hi.honest d) fun y t ins outs hy n hn => hs y t ins outs hy n hn
  | other f =>
    have ho := hf.outside f (by rw [hms]; simp)
    intro j
    refine (ih j).extern (fun d h hm => (ih j).honest d h ((ho _ _).1 d h hm)) fun y t ins outs hy n hn => ?_
    exact (ho (x j).world.fs (x j).world.db).2 j y t ins outs hy n hn

/-- The end of a process. -/
theorem AllInv.right (hf : FairBuilds hex sum P T fs db u ms) (hi : AllInv hex sum P R T (several hex sum P fs db u ms)) :
    (∀ i d, HonestDB hex sum R T ((several hex sum P fs db u ms i).world.db d)) ∧
    ∀ i c, (0, Ev.ret c none) ∈ (several hex sum P fs db u ms i).log → ∀ x t ins outs, FilesOf (P i).s (P i).os x t ins outs →
      (sitOf (P i).own (P i).J t ins outs (several hex sum P fs db u ms i).world.fs).right R := by
  refine ⟨fun i => (hi i).honest, fun i c hret x t ins outs hx => ?_⟩
  obtain ⟨o, ho, hso⟩ := hx.1
  obtain ⟨t', th, h1, h2⟩ := ((C76_build (hf.noRun i) (several_reach i)).2 c none hret).2 rfl o ho
  cases h1.uniq hso
  exact ((hi i).fin _ _ _ _ hx _ _ h2).2

/-- **C91.** Any number of builds at the same time, with the same files and databases, whose steps are mixed in any way.  Suppose that
* each project is orderly, and commands and everything outside change only what they should (`FairBuilds`);
* the processes keep apart (`KeepApart`);
* no two different situations that come up have the same hash (`NoCollision`);
* the rules do what they are meant to do, when they are run (`AllRulesWork`);
* the databases are honest at the beginning.

Then the databases are honest at every moment, whatever process wrote into them and whichever of them was killed when; and where a process has returned nil,
the outputs of all Files targets that it needs are what they are meant to be, then and later. -/
theorem C91_correct_partial (hno : NoCollision hex sum T) (hf : FairBuilds hex sum P T fs db u ms) (hap : KeepApart hex sum P fs db u ms)
    (hrule : AllRulesWork hex sum P R fs db u ms) (hdb : ∀ d, HonestDB hex sum R T (db d)) :
    (∀ i d, HonestDB hex sum R T ((several hex sum P fs db u ms i).world.db d)) ∧
    ∀ i c, (0, Ev.ret c none) ∈ (several hex sum P fs db u ms i).log → ∀ x t ins outs, FilesOf (P i).s (P i).os x t ins outs →
      (sitOf (P i).own (P i).J t ins outs (several hex sum P fs db u ms i).world.fs).right R := by
  have key : ∀ ms₁ ms₂, ms = ms₁ ++ ms₂ → AllInv hex sum P R T (several hex sum P fs db u ms₁) := by
    intro ms₁
    induction ms₁ using List.reverseRecOn with
    | nil => exact fun _ _ => .start hdb
    | append_singleton ms₁ m ih =>
      intro ms₂ hms
      have hms' : ms = ms₁ ++ m :: ms₂ := by rw [hms]; simp
      refine .snoc hno hf hms' (fun i tid hm j hj => ?_) (hrule ms₁ m ms₂ hms') (ih _ hms')
      subst hm
      exact hap ms₁ i tid ms₂ hms' j hj
  exact (key ms [] (by simp)).right hf

/-- **C91, commands.** It is enough that no command of a process ever changes a file that matters for another process, and that rules are commands that do what
they are meant to do if nobody else changes their inputs and outputs meanwhile. -/
theorem C91_commands_partial (hno : NoCollision hex sum T) (hf : FairBuilds hex sum P T fs db u ms)
    (hsep : ∀ i c ctx, MayRun (P i).s (P i).os c → ¬ Composite (P i).s c → ((P i).own.body c ctx).Acts fun w w' => ∀ j, j ≠ i → SameFor P j w.fs w'.fs)
    (hcmd : ∀ i x t ins outs, FilesOf (P i).s (P i).os x t ins outs → ¬ Composite (P i).s t ∧
      ∀ ctx fs, ((P i).own.body t ctx).Makes (ins ++ outs) (fun fs => (sitOf (P i).own (P i).J t ins outs fs).right R) fs)
    (hdb : ∀ d, HonestDB hex sum R T (db d)) :
    (∀ i d, HonestDB hex sum R T ((several hex sum P fs db u ms i).world.db d)) ∧
    ∀ i c, (0, Ev.ret c none) ∈ (several hex sum P fs db u ms i).log → ∀ x t ins outs, FilesOf (P i).s (P i).os x t ins outs →
      (sitOf (P i).own (P i).J t ins outs (several hex sum P fs db u ms i).world.fs).right R := by
  have key : ∀ ms₁ ms₂, ms = ms₁ ++ ms₂ → AllInv hex sum P R T (several hex sum P fs db u ms₁) ∧
      ∀ i, CmdInv (P i).own (P i).s (P i).J R (P i).os (several hex sum P fs db u ms₁ i) := by
    intro ms₁
    induction ms₁ using List.reverseRecOn with
    | nil =>
      refine fun _ _ => ⟨.start hdb, ?_⟩
      intro i x t ins outs _ tid j ts ht
      simp only [several, List.foldl_nil, Runner.init, State.th, List.getElem?_map, Option.map_eq_some_iff] at ht
      obtain ⟨p, -, hp⟩ := ht
      cases hp
    | append_singleton ms₁ m ih =>
      intro ms₂ hms
      have hms' : ms = ms₁ ++ m :: ms₂ := by rw [hms]; simp
      obtain ⟨i1, i2⟩ := ih _ hms'
      have hT := hf.sits ms₁ _ hms'
      have hr := fun i => several_reach (hex := hex) (sum := sum) (P := P) (fs := fs) (db := db) (u := u) (ms := ms₁) i
      have hsn := several_snoc (hex := hex) (sum := sum) (P := P) (fs := fs) (db := db) (u := u) (ms := ms₁) (m := m)
      have nolog : ∀ {st st' : State (World ρ) Ctx} {e}, st'.log = st.log → st'.log = st.log ++ [e] → False := by
        intro st st' e h1 h2
        rw [h1] at h2
        have := congrArg List.length h2
        simp at this
      have hap : ∀ i tid, m = .proc i tid → ∀ j, j ≠ i →
          SameFor P j (several hex sum P fs db u ms₁ j).world.fs (several hex sum P fs db u (ms₁ ++ [m]) j).world.fs := by
        rintro i tid rfl j hj
        have hsame := several_same (hex := hex) (sum := sum) (P := P) (fs := fs) (db := db) (u := u) (ms := ms₁) i j
        rw [hsn]
        cases h : Runner.step (buildEnv hex sum (P i).own (P i).s) (several hex sum P fs db u ms₁ i) tid with
        | none => rw [move_none h]; exact fun _ _ _ _ _ _ _ => ⟨rfl, fun _ _ => Iff.rfl⟩
        | some st =>
          rw [move_some h]
          simp only [if_neg hj, share]
          rw [← hsame.1]
          exact step_sep (G := fun a b => ∀ j, j ≠ i → SameFor P j a b) (fun _ _ _ _ _ _ _ _ _ _ => ⟨rfl, fun _ _ => Iff.rfl⟩) (hf.noRun i) (hf.orderly i)
            (hr i) (i1 i) (hsep i) (hT i) h j hj
      have both : (∀ i, CmdInv (P i).own (P i).s (P i).J R (P i).os (several hex sum P fs db u (ms₁ ++ [m]) i)) ∧
          ∀ i x t ins outs, FilesOf (P i).s (P i).os x t ins outs → ∀ th key,
            (several hex sum P fs db u (ms₁ ++ [m]) i).log = (several hex sum P fs db u ms₁ i).log ++ [(th, Ev.finish key t none)] →
            (sitOf (P i).own (P i).J t ins outs (several hex sum P fs db u (ms₁ ++ [m]) i).world.fs).right R := by
        rw [hsn] at hap ⊢
        generalize several hex sum P fs db u ms₁ = x at *
        cases m with
        | proc i tid =>
          cases h : Runner.step (buildEnv hex sum (P i).own (P i).s) (x i) tid with
          | none => rw [move_none h]; exact ⟨i2, fun i y t ins outs _ th key hl => (nolog rfl hl).elim⟩
          | some st =>
            rw [move_some h] at hap ⊢
            obtain ⟨h1, h2⟩ := (i2 i).step (hf.noRun i) (hf.orderly i) (hr i) (hT i) (.of (hf.cmds i)) (hcmd i) (i1 i) h
            constructor
            · intro j
              by_cases hj : j = i
              · subst hj; simpa using h1
              · have hs := hap i tid rfl j hj
                simp only [if_neg hj] at hs ⊢
                exact (i2 j).extern fun y t ins outs hy n hn => hs y t ins outs hy n hn
            · intro j y t ins outs hy th key
              by_cases hj : j = i
              · subst hj; simpa using h2 y t ins outs hy th key
              · simp only [if_neg hj]
                exact fun hl => (nolog (st := x j) (st' := { x j with world := share st.world (x j).world }) rfl hl).elim
        | other f =>
          have ho := hf.outside f (by rw [hms']; simp)
          refine ⟨fun j => (i2 j).extern fun y t ins outs hy n hn => (ho (x j).world.fs (x j).world.db).2 j y t ins outs hy n hn, ?_⟩
          exact fun i y t ins outs _ th key hl => (nolog (st := x i) rfl hl).elim
      exact ⟨.snoc hno hf hms' hap both.2 i1, both.1⟩
  exact (key ms [] (by simp)).1.right hf

end

end Fab.Yaml
