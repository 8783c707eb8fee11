import Verif.Yaml.Dry
import Verif.Yaml.Again
import Verif.Yaml.Right

/-!
# Cancelling a build: C96

`Run` and all targets get a `context.Context`, which the program that uses fab may cancel at any time.  Nothing in /repo looks at that, except through the libraries
that the context is handed to: package os/exec (command.go:200: `exec.CommandContext`), whose `Start` returns the error of a context that is cancelled and starts
nothing, and package database/sql (sqlite/db.go:87-128), whose methods then return that error and do nothing.  (A process that is running when the context is cancelled
is killed: it fails, or has just succeeded.  That is one of the things that a command may do anyway.)

All contexts of a build are made from one (context.go), so being cancelled is modelled as a state of the world.
-/

namespace Fab.Runner
variable {σ C : Type}

/-- In worlds with `M` the process cannot return nil. -/
def Proc.FailsIn (M : σ → Prop) : Proc σ C → Prop
  | .ret e => e ≠ none
  | .act _ k => ∀ w, M w → (k w).FailsIn M
  | .call _ _ k => ∀ e, (k e).FailsIn M

theorem Runs.failsIn {M : σ → Prop} {p : Proc σ C} (hp : p.FailsIn M) {h pos} (hr : Runs p h pos) (hM : ∀ w, LEv.act w ∈ h → M w) :
    match pos with
    | .at q => q.FailsIn M
    | .inCall _ k => ∀ e, (k e).FailsIn M := by
  induction hr with
  | nil => exact hp
  | act w _ ih => exact ih (fun w' h' => hM w' (by simp [h'])) w (hM w (by simp))
  | call c _ ih => exact ih fun w' h' => hM w' (by simp [h'])
  | ret e _ ih => exact ih (fun w' h' => hM w' (by simp [h'])) e

theorem mem_hist_act {t : Nat} {w : σ} {log : List (Nat × Ev σ C)} : LEv.act w ∈ hist t log ↔ (t, Ev.act w) ∈ log := by
  simp only [hist, List.mem_filterMap]
  constructor
  · rintro ⟨⟨t', e⟩, hm, h⟩
    by_cases htt : t' = t
    · subst htt; cases e <;> simp at h; subst h; exact hm
    · simp [htt] at h
  · intro hm; exact ⟨_, hm, by simp⟩

/-- From a state with `M` on: the world keeps `M`, and all actions see such worlds. -/
theorem kept_from {env : Env σ C} {M : σ → Prop} (hk : env.Keeps M) {cl : List (Proc σ C)} (hcl : ∀ p ∈ cl, p.Keeps M) {w : σ} (ls : List (Label σ)) :
    ∀ {s : State σ C}, Reach env w cl s → M s.world → (∀ f, .extern f ∈ ls → ∀ w, M w → M (f w)) →
      M (runSched env s ls).world ∧ ∃ new, (runSched env s ls).log = s.log ++ new ∧ ∀ t w', (t, Ev.act w') ∈ new → M w' := by
  induction ls with
  | nil => intro s _ hM _; exact ⟨hM, [], by simp [runSched], by simp⟩
  | cons l ls ih =>
    intro s hr hM hls
    have hls' : ∀ f, .extern f ∈ ls → ∀ w, M w → M (f w) := fun f hf => hls f (List.mem_cons_of_mem _ hf)
    rw [runSched]
    cases hs : lstep env s l with
    | none => exact ih hr hM hls'
    | some s' =>
      have hr' : Reach env w cl s' := .step l hr hs
      have key : M s'.world ∧ ∃ new, s'.log = s.log ++ new ∧ ∀ t w', (t, Ev.act w') ∈ new → M w' := by
        cases l with
        | extern f =>
          simp only [lstep, Option.some.injEq] at hs
          subst hs
          exact ⟨hls f (List.mem_cons_self ..) _ hM, [], by simp, by simp⟩
        | thread tid =>
          obtain ⟨⟨jb, st⟩, hth, hc⟩ := step_cases hs
          obtain ⟨p, ho, hp⟩ := hr.localInv.pos _ _ _ hth
          have hpk : p.Keeps M := by
            cases jb with
            | some j => cases ho; exact hk.body _ _
            | none => exact hcl _ (List.mem_of_getElem? ho)
          constructor
          · cases hc with
            | act f k h1 =>
              dsimp only at h1; subst h1
              exact (Runs.keeps hpk hp).1 _ hM
            | refuse c i ctx r rs k e w' h1 h2 =>
              rcases h2 with ⟨n, -, -, rfl⟩ | ⟨o, f, rfl, h3, h4⟩
              · exact hM
              · have := hk.resolve _ _ h3 _ hM; rw [h4] at this; exact this
            | spawn c i ctx o rs k t w' h1 h2 =>
              rcases h2 with ⟨-, -, rfl⟩ | ⟨f, h3, h4⟩
              · exact hM
              · have := hk.resolve _ _ h3 _ hM; rw [h4] at this; exact this
            | _ => exact hM
          · cases hc
            case act f k h1 => exact ⟨_, rfl, by simpa using hM⟩
            all_goals first
              | exact ⟨[], (List.append_nil _).symm, fun _ _ h => nomatch h⟩
              | (refine ⟨_, rfl, ?_⟩; intro t w hm; simp at hm)
      obtain ⟨h1, new, h2, h3⟩ := key
      obtain ⟨h4, new', h5, h6⟩ := ih hr' h1 hls'
      refine ⟨h4, new ++ new', ?_, fun t w' hm => ?_⟩
      · rw [Option.getD_some, h5, h2, List.append_assoc]
      · rcases List.mem_append.1 hm with hm | hm
        exacts [h3 t w' hm, h6 t w' hm]

/-- A target that cannot succeed in worlds with `M`, and that is started when the world has `M` for ever, does not succeed. -/
theorem late_fails {env : Env σ C} {M : σ → Prop} (hk : env.Keeps M) {cl : List (Proc σ C)} (hcl : ∀ p ∈ cl, p.Keeps M) {w : σ} {ls : List (Label σ)}
    {s : State σ C} (hr : Reach env w cl s) (hM : M s.world) (hls : ∀ f, .extern f ∈ ls → ∀ w, M w → M (f w)) {t c i key x ctx}
    (h1 : (t, Ev.start c i key x ctx) ∈ (runSched env s ls).log) (h2 : (t, Ev.start c i key x ctx) ∉ s.log) (hx : (env.body x ctx).FailsIn M) (key' : Addr) :
    (t, Ev.finish key' x none) ∉ (runSched env s ls).log := by
  intro hfin
  obtain ⟨-, new, hlog, hact⟩ := kept_from hk hcl ls hr hM hls
  have hr' : Reach env w cl (runSched env s ls) := runSched_reach ls hr
  obtain ⟨l₁, l₂, hl⟩ := List.append_of_mem hfin
  obtain ⟨c', i', ctx', hst, hrun⟩ := finish_path hr' hl
  obtain ⟨rfl, rfl, rfl, -, rfl⟩ := start_uniq hr' h1 (sub_log hl hst)
  -- the goroutine had done nothing before
  have hnone : ∀ w', (t, Ev.act w') ∉ s.log := by
    intro w' hm
    have hst' : (t, Ev.start c i key x ctx) ∈ new := by
      rw [hlog] at h1
      rcases List.mem_append.1 h1 with h | h
      exacts [absurd h h2, h]
    obtain ⟨n₁, n₂, hn⟩ := List.append_of_mem hst'
    have := (hr'.evPath (s.log ++ n₁) (t, Ev.start c i key x ctx) n₂ (by rw [hlog, hn]; simp)).1
    have hin : LEv.act w' ∈ hist t (s.log ++ n₁) := mem_hist_act.2 (by simp [hm])
    rw [this] at hin; cases hin
  have := Runs.failsIn hx hrun fun w' hm => by
    have hm' := sub_log hl (mem_hist_act.1 hm)
    rw [hlog] at hm'
    rcases List.mem_append.1 hm' with h | h
    · exact absurd h (hnone w')
    · exact hact t w' h
  exact this rfl

end Fab.Runner

namespace Fab.Cmd

/-- A context that is cancelled: `Start` starts no process, and returns the error of the context. -/
def Refuses (os : OS) : Prop := ∀ sp, ∃ e, os.proc sp = ⟨[], some e⟩

/-- a machine whose context is cancelled -/
def offOS : OS := { exOS with proc := fun _ => ⟨[], some 7⟩ }

example : Refuses offOS ∧ ∃ sp, Eff.exec sp ∈ (run offOS .root { shell := "x".toList, stdoutFile := ">> log".toList }).trace :=
  ⟨fun _ => ⟨7, rfl⟩, ⟨"/bin/sh".toList, ["-c".toList, "x".toList], [], ["A=B".toList], .null, .file "log".toList, .buf⟩, by decide +kernel⟩

/-- **C96 is false of output files**: the file that a command names without ">>" is emptied, although the command is not started (command.go:226-282 open it first;
the context is looked at by `Start`, in line 339). -/
theorem C96_counterexample_emptied : ∃ os ctx c n, Refuses os ∧ getDryRun ctx = false ∧ os.files n = some [1] ∧ (run os ctx c).files n = some [] ∧ (run os ctx c).err ≠ none :=
  ⟨offOS, .root, { shell := "x".toList, stdoutFile := "log".toList }, "log".toList, fun _ => ⟨7, rfl⟩, rfl, by decide +kernel, by decide +kernel, by decide +kernel⟩

/-- **C96, commands.** A command with a cancelled context (not in a dry run) starts nothing and returns an error; nothing is written anywhere.  But the files that it
names for its output have been opened, if it gets that far: those without ">>" are empty then. -/
theorem C96_command_partial (os : OS) (ctx : Ctx) (c : Command) (hd : getDryRun ctx = false) (hp : Refuses os) :
    (run os ctx c).err ≠ none ∧ (∀ w, (run os ctx c).sent w = []) ∧
    ∀ n, (run os ctx c).files n = os.files n ∨
      ∃ a, (NamesFile c.stdoutFile n a ∨ NamesFile c.stderrFile n a) ∧ (run os ctx c).files n = some (if a then (os.files n).getD [] else []) := by
  by_cases hx : ∃ sp, Eff.exec sp ∈ (run os ctx c).trace
  · obtain ⟨sp, hsp⟩ := hx
    obtain ⟨-, -, -, -, h3, h4, ⟨made, h5⟩, -⟩ := run_exec hsp (parseFile_spec c.stdoutFile) (parseFile_spec c.stderrFile)
    obtain ⟨e, he⟩ := hp sp
    rw [he] at h3 h4 h5
    refine ⟨?_, fun w => ?_, fun n => ?_⟩
    · rw [h5]
      simp only [bytesFor, List.filter_nil, List.flatMap_nil, ne_eq, not_true_eq_false, if_false]
      rw [closeAll_keep]; exact nofun
    · rw [h4]; rfl
    · rw [h3 n]
      simp only [bytesFor, List.filter_nil, List.flatMap_nil, List.append_nil]
      split
      · rename_i hn
        exact .inr ⟨(parseFile c.stdoutFile).2, .inl (by rw [hn.1]; exact parseFile_spec _), rfl⟩
      · split
        · rename_i hn
          exact .inr ⟨(parseFile c.stderrFile).2, .inr (by rw [hn.1]; exact parseFile_spec _), rfl⟩
        · exact .inl rfl
  · have hno : ∀ sp, Eff.exec sp ∉ (run os ctx c).trace := fun sp h => hx ⟨sp, h⟩
    refine ⟨C36_not_started_reported os ctx c hd hno, ?_⟩
    have p1 := parseFile_spec c.stdoutFile
    have p2 := parseFile_spec c.stderrFile
    unfold run at hno ⊢
    simp only [hd, Bool.false_eq_true, if_false] at hno ⊢
    generalize parseFile c.stdoutFile = so at *
    generalize parseFile c.stderrFile = se at *
    by_cases h1 : so.1 = se.1 ∧ so.2 ≠ se.2
    · rw [if_pos h1]; exact ⟨fun _ => rfl, fun _ => .inl rfl⟩
    · rw [if_neg h1] at hno ⊢
      cases h2 : (if so.1 = [] then some os.files else openWrite os os.files so.1 so.2) with
      | none => exact ⟨fun _ => rfl, fun _ => .inl rfl⟩
      | some f1 =>
        have k1 : ∀ n, f1 n = os.files n ∨ n = so.1 ∧ f1 n = some (if so.2 then (os.files n).getD [] else []) := by
          intro n
          split at h2
          · cases h2; exact .inl rfl
          · unfold openWrite at h2
            split at h2
            · cases h2
            · cases h2
              by_cases hn : n = so.1
              · subst hn; exact .inr ⟨rfl, by simp⟩
              · exact .inl (by simp [hn])
        have l1 : ∀ n, f1 n = os.files n ∨
            ∃ a, (NamesFile c.stdoutFile n a ∨ NamesFile c.stderrFile n a) ∧ f1 n = some (if a then (os.files n).getD [] else []) := by
          intro n
          rcases k1 n with h | ⟨rfl, h⟩
          · exact .inl h
          · exact .inr ⟨_, .inl p1, h⟩
        simp only [h2] at hno ⊢
        cases h3 : (if se.1 = [] ∨ so.1 = se.1 then some f1 else openWrite os f1 se.1 se.2) with
        | none => exact ⟨fun _ => rfl, l1⟩
        | some f2 =>
          have l2 : ∀ n, f2 n = os.files n ∨
              ∃ a, (NamesFile c.stdoutFile n a ∨ NamesFile c.stderrFile n a) ∧ f2 n = some (if a then (os.files n).getD [] else []) := by
            intro n
            split at h3
            · cases h3; exact l1 n
            · rename_i hne
              unfold openWrite at h3
              split at h3
              · cases h3
              · cases h3
                by_cases hn : n = se.1
                · subst hn
                  refine .inr ⟨_, .inr p2, ?_⟩
                  have : f1 se.1 = os.files se.1 := by
                    rcases k1 se.1 with h | ⟨h, -⟩
                    · exact h
                    · exact absurd (.inr h.symm) hne
                  simp [this]
                · simpa [hn] using l1 n
          simp only [h3] at hno ⊢
          unfold finishRun at hno ⊢
          by_cases h4 : c.stdinFile ≠ [] ∧ os.readFails c.stdinFile = true
          · rw [if_pos h4]; exact ⟨fun _ => rfl, l2⟩
          · rw [if_neg h4] at hno
            exact absurd (by simp only [List.mem_append, List.mem_singleton]; exact .inl (.inr rfl)) (hno _)

end Fab.Cmd

namespace Fab.Yaml
open Path Cmd Files
open Runner (Proc TRef Env Ev State Reach Label)

/-! ## Builds -/

section
variable {ρ : Type}

/-- The context has been cancelled: the methods of the hash database return errors and do nothing (sqlite/db.go:87-128, package database/sql), and so that commands can
see it. -/
def Off (stopped : ρ → Bool) (w : World ρ) : Prop := w.hasFails = true ∧ w.addFails = true ∧ w.addLost = true ∧ stopped w.rest = true

/-- What is asked of the targets of a project.
* `noRun`: commands do not run targets;
* `note`, `acts`: a context that is cancelled stays so, and only Files targets touch the databases;
* `cmd`: commands are run by `Command.Run`; when the context is cancelled `Start` refuses. -/
structure Cancellable (own : Own ρ) (s : St) (stopped : ρ → Bool) : Prop where
  noRun : ∀ o ctx, NoRun (own.body o ctx)
  note : ∀ o r, stopped r = true → stopped (own.note o r) = true
  acts : ∀ o ctx, (own.body o ctx).Acts fun w w' => w'.db = w.db ∧ (Off stopped w → Off stopped w')
  cmd : ∀ o c, s.heap[o]? = some (.command c) → ∃ look store wrap, (∀ ctx, own.body o ctx = commandBody look store wrap c ctx) ∧
    ∀ w, Off stopped w → Refuses (look w)

variable {hex : Bytes → Str} {sum : Str → Str} {own : Own ρ} {s : St} {os : List Nat} {stopped : ρ → Bool}

/-- The context is cancelled, and the databases have nothing but these hashes. -/
def OffWith (stopped : ρ → Bool) (db : Nat → List Str) (w : World ρ) : Prop := Off stopped w ∧ ∀ d, ∀ h ∈ w.db d, h ∈ db d

theorem dbAdd_off {db : Nat → List Str} {d : Nat} {h : Str} {w : World ρ} (hw : OffWith stopped db w) : OffWith stopped db (dbAdd d h w) := by
  unfold dbAdd
  rw [if_pos (by rw [hw.1.2.1, hw.1.2.2.1]; rfl)]
  exact hw

theorem files_keeps_off {db : Nat → List Str} {ft : FilesT ρ} {ctx : Ctx} : (filesBody hex sum ft ctx).Keeps (OffWith stopped db) := by
  have hb : (filesBuild hex sum ft ctx).Keeps (OffWith stopped db) := by
    unfold filesBuild
    intro e
    dsimp only
    split
    · trivial
    · split
      · trivial
      · split
        · trivial
        · refine computeHash_keeps fun r => ?_
          try dsimp only
          split
          · trivial
          · exact ⟨fun w hw => dbAdd_off hw, fun w => trivial⟩
  have hm : (filesMain hex sum ft ctx).Keeps (OffWith stopped db) := by
    unfold filesMain
    split
    · exact hb
    · split
      · refine computeHash_keeps fun r => ?_
        try dsimp only
        split
        · trivial
        · refine ⟨fun _ h => h, fun w => ?_⟩
          dsimp only
          split
          · trivial
          · split
            · trivial
            · exact hb
      · exact hb
  unfold filesBody
  refine findAll_keeps fun l => ?_
  split
  · exact hm
  · intro e
    dsimp only
    split
    · trivial
    · exact hm

theorem acts_keeps {Q : World ρ → World ρ → Prop} {M : World ρ → Prop} (hQ : ∀ w w', Q w w' → M w → M w') : ∀ {p : P ρ}, p.Acts Q → p.Keeps M
  | .ret _, _ => trivial
  | .act _ _, h => ⟨fun w hw => hQ _ _ (h.1 w) hw, fun w => acts_keeps hQ (h.2 w)⟩
  | .call _ _ _, h => fun e => acts_keeps hQ (h e)

theorem build_keeps_off {db : Nat → List Str} (hc : Cancellable own s stopped) : (buildEnv hex sum own s).Keeps (OffWith stopped db) := by
  have hseq : ∀ (ts : List TRef) (ctx : Ctx), (Runner.seqBody (σ := World ρ) ts ctx).Keeps (OffWith stopped db) := by
    intro ts ctx
    induction ts with
    | nil => trivial
    | cons t ts ih =>
      intro e
      cases e with
      | some e => trivial
      | none => exact ih
  have hres : ∀ o name w, OffWith stopped db w → OffWith stopped db (resolveName own s o name w).1 := by
    intro o name w h
    unfold resolveName
    split
    · exact h
    · exact ⟨⟨h.1.1, h.1.2.1, h.1.2.2.1, hc.note _ _ h.1.2.2.2⟩, h.2⟩
  constructor
  · intro x ctx
    unfold buildEnv
    dsimp only
    split
    · exact fun e => trivial
    · exact hseq _ _
    · exact fun e => trivial
    · exact withReg_keeps files_keeps_off
    · refine ⟨fun w => hres _ _ w, fun w => ?_⟩
      dsimp only
      split
      · trivial
      · exact fun e => trivial
    · refine acts_keeps (fun w w' h hw => ⟨h.2 hw.1, fun d hsh hm => hw.2 d hsh ?_⟩) (hc.acts x ctx)
      rw [h.1] at hm; exact hm
  · intro o f hf w hw
    unfold buildEnv at hf
    dsimp only at hf
    split at hf
    · cases hf; exact hres _ _ w hw
    · cases hf

/-! ### Files targets fail -/

theorem findAll_fails {M : World ρ → Prop} {is : List Str} {acc : List TRef} {k : List TRef → P ρ} (h : ∀ l, (k l).FailsIn M) : (findAll is acc k).FailsIn M := by
  induction is generalizing acc with
  | nil => exact h _
  | cons i is ih => exact fun w _ => ih

theorem withReg_fails {M : World ρ → Prop} {reg : GoMap Str Nat} (hM : ∀ w, M w → M { w with reg := reg }) : ∀ {p : P ρ}, p.FailsIn M → (withReg reg p).FailsIn M
  | .ret _, h => h
  | .act _ _, h => fun w hw => withReg_fails hM (h _ (hM w hw))
  | .call _ _ _, h => fun e => withReg_fails hM (h e)

theorem readItems_fails {M : World ρ → Prop} {is : List Str} {m : HMap} {k : Except HErr HMap → P ρ} (h : ∀ r, (k r).FailsIn M) :
    (Files.readItems hex is m k).FailsIn M := by
  induction is generalizing m with
  | nil => exact h _
  | cons i is ih =>
    intro w _
    dsimp only
    split
    · exact ih
    · exact h _

theorem computeHash_fails {M : World ρ → Prop} {ft : FilesT ρ} {k : Option Str → P ρ} (h : ∀ r, (k r).FailsIn M) : (computeHash hex sum ft k).FailsIn M := by
  unfold computeHash
  refine readItems_fails fun r => ?_
  try dsimp only
  split
  · exact h _
  · refine readItems_fails fun r => ?_
    try dsimp only
    split
    · exact h _
    · intro w _
      dsimp only
      split <;> exact h _

theorem files_fails {ft : FilesT ρ} {ctx : Ctx} {d : Nat} (hdb : getHashDB ctx = some d) (hd : getDryRun ctx = false) :
    (filesBody hex sum ft ctx).FailsIn (Off stopped) := by
  have hb : (filesBuild hex sum ft ctx).FailsIn (Off stopped) := by
    unfold filesBuild
    intro e
    dsimp only
    split
    · exact nofun
    · rw [hdb]
      dsimp only
      rw [hd, if_neg (by simp)]
      refine computeHash_fails fun r => ?_
      try dsimp only
      split
      · exact nofun
      · intro w hw
        dsimp only
        rw [if_pos hw.2.1]
        exact nofun
  have hm : (filesMain hex sum ft ctx).FailsIn (Off stopped) := by
    unfold filesMain
    rw [hdb]
    dsimp only
    split
    · refine computeHash_fails fun r => ?_
      try dsimp only
      split
      · exact nofun
      · intro w hw
        dsimp only
        rw [if_pos hw.1]
        exact nofun
    · exact hb
  unfold filesBody
  refine findAll_fails fun l => ?_
  split
  · exact hm
  · intro e
    dsimp only
    split
    · exact nofun
    · exact hm

/-! ### Properties -/

/-- A Command, or a Files target. -/
def Works (s : St) (x : Nat) : Prop := (∃ c, s.heap[x]? = some (.command c)) ∨ ∃ t ins outs, s.heap[x]? = some (.files t ins outs)

theorem works_fails (hc : Cancellable own s stopped) {x : Nat} (hx : Works s x) {ctx : Ctx} {d : Nat} (hdb : getHashDB ctx = some d) (hd : getDryRun ctx = false) :
    ((buildEnv hex sum own s).body x ctx).FailsIn (Off stopped) := by
  rcases hx with ⟨c, hx⟩ | ⟨t, ins, outs, hx⟩
  · obtain ⟨look, store, wrap, h1, h2⟩ := hc.cmd x c hx
    simp only [buildEnv, hx]
    rw [h1]
    intro w hw
    have := (C96_command_partial (look w) ctx c hd (h2 w hw)).1
    simpa [Runner.Proc.FailsIn] using this
  · simp only [buildEnv, hx]
    exact withReg_fails (fun w hw => hw) (files_fails hdb hd)

theorem buildRun_append {w : World ρ} {ctx : Ctx} (ls₁ ls₂ : List (Label (World ρ))) :
    buildRun hex sum own s os w ctx (ls₁ ++ ls₂) = Runner.runSched (buildEnv hex sum own s) (buildRun hex sum own s os w ctx ls₁) ls₂ := by
  unfold buildRun; rw [runSched_append]

/-- **C96, late targets fail.** In a build with a hash database (not a dry run) every Command and every Files target that begins after the context has been cancelled fails,
whatever the schedule. -/
theorem C96_late (hc : Cancellable own s stopped) {w : World ρ} {ctx : Ctx} {d : Nat} (hdb : getHashDB ctx = some d) (hd : getDryRun ctx = false)
    {ls₁ ls₂ : List (Label (World ρ))} (hoff : Off stopped (buildRun hex sum own s os w ctx ls₁).world)
    (hls : ∀ f, .extern f ∈ ls₂ → ∀ w, Off stopped w → Off stopped (f w)) {th c i key x : Nat} {ctx' : Ctx}
    (hst : (th, Ev.start c i key x ctx') ∈ (buildRun hex sum own s os w ctx (ls₁ ++ ls₂)).log)
    (hnew : (th, Ev.start c i key x ctx') ∉ (buildRun hex sum own s os w ctx ls₁).log) (hx : Works s x) :
    (th, Ev.finish key x none) ∉ (buildRun hex sum own s os w ctx (ls₁ ++ ls₂)).log := by
  have hctx : getHashDB ctx' = some d ∧ getDryRun ctx' = false := by
    refine Runner.start_ctx (K := fun c => getHashDB c = some d ∧ getDryRun c = false) (fun t c hk => build_ctxs (fun c l hk => ?_) hc.noRun t c hk) ?_
      (buildRun_reach (hex := hex) (sum := sum) (own := own) (s := s) (os := os) (w := w) (ctx := ctx) (ls := ls₁ ++ ls₂)) _ _ _ _ _ _ hst
    · exact hk
    · intro p hp
      simp only [List.mem_singleton] at hp
      subst hp
      exact ⟨⟨hdb, hd⟩, fun _ => trivial⟩
  rw [buildRun_append] at hst ⊢
  -- the databases do not matter here
  have hk : (buildEnv hex sum own s).Keeps (Off stopped) := by
    have h0 := fun db => build_keeps_off (hex := hex) (sum := sum) (db := db) hc
    refine ⟨fun t c => ?_, fun o f hf w hw => ((h0 w.db).resolve o f hf w ⟨hw, fun _ _ h => h⟩).1⟩
    have : ∀ p : P ρ, (∀ db, p.Keeps (OffWith stopped db)) → p.Keeps (Off stopped) := by
      intro p
      induction p with
      | ret e => exact fun _ => trivial
      | act f k ih => exact fun h => ⟨fun w hw => ((h w.db).1 w ⟨hw, fun _ _ h => h⟩).1, fun w => ih w fun db => (h db).2 w⟩
      | call c r k ih => exact fun h e => ih e fun db => h db e
    exact this _ fun db => (h0 db).body t c
  refine Runner.late_fails hk (by simp [Runner.Proc.Keeps]) buildRun_reach hoff hls hst hnew (works_fails hc hx hctx.1 hctx.2) key

/-- **C96, success.** If such a build returns nil although its context has been cancelled meanwhile, then every Command and every Files target that it needs had begun
before that. -/
theorem C96_success (hc : Cancellable own s stopped) {w : World ρ} {ctx : Ctx} {d : Nat} (hdb : getHashDB ctx = some d) (hd : getDryRun ctx = false)
    {ls₁ ls₂ : List (Label (World ρ))} (hoff : Off stopped (buildRun hex sum own s os w ctx ls₁).world)
    (hls : ∀ f, .extern f ∈ ls₂ → ∀ w, Off stopped w → Off stopped (f w)) {c : Nat}
    (hret : (0, Ev.ret c none) ∈ (buildRun hex sum own s os w ctx (ls₁ ++ ls₂)).log) {o x : Nat} (ho : Wanted s os o) (hs : Stands s o x) (hx : Works s x) :
    ∃ th c i ctx', (th, Ev.start c i o x ctx') ∈ (buildRun hex sum own s os w ctx ls₁).log := by
  obtain ⟨t, th, h1, hfin⟩ := ((C76_build hc.noRun buildRun_reach).2 c none hret).2 rfl o ho
  cases h1.uniq hs
  obtain ⟨l₁, l₂, hl⟩ := List.append_of_mem hfin
  obtain ⟨c', i', ctx', hst, -⟩ := Runner.finish_path buildRun_reach hl
  by_contra hno
  exact C96_late hc hdb hd hoff hls (Runner.sub_log hl hst) (fun h => hno ⟨_, _, _, _, h⟩) hx hfin

/-- **C96, the database.** After the context of a build has been cancelled nothing is recorded. -/
theorem C96_nothing_recorded (hc : Cancellable own s stopped) {w : World ρ} {ctx : Ctx} {ls₁ ls₂ : List (Label (World ρ))}
    (hoff : Off stopped (buildRun hex sum own s os w ctx ls₁).world)
    (hls : ∀ f, .extern f ∈ ls₂ → ∀ w, (Off stopped w → Off stopped (f w)) ∧ ∀ d, ∀ h ∈ (f w).db d, h ∈ w.db d) (d : Nat) :
    ∀ h ∈ (buildRun hex sum own s os w ctx (ls₁ ++ ls₂)).world.db d, h ∈ (buildRun hex sum own s os w ctx ls₁).world.db d := by
  rw [buildRun_append]
  refine (Runner.kept_from (build_keeps_off hc) (by simp [Runner.Proc.Keeps]) ls₂ buildRun_reach
    (show OffWith stopped (buildRun hex sum own s os w ctx ls₁).world.db _ from ⟨hoff, fun _ _ h => h⟩) (fun f hf w hw => ⟨(hls f hf w).1 hw.1, fun d h hm => ?_⟩)).1.2 d
  exact hw.2 d h ((hls f hf w).2 d h hm)

end

/-! ## A concrete case -/

namespace CancelDemo
open AgainDemo (rep)

def look (w : World (Bool × Option Bytes)) : OS where
  files := fun n => if n = "out".toList then w.rest.2 else none
  openFails := fun _ => false
  readFails := fun _ => false
  environ := []
  shellVar := []
  proc := fun _ => if w.rest.1 then ⟨[], some 1⟩ else ⟨[(true, [65])], none⟩
  closer := fun _ => none

def store (w : World (Bool × Option Bytes)) (r : Res) : World (Bool × Option Bytes) := { w with rest := (w.rest.1, r.files "out".toList) }

def first : Command := { shell := "true".toList }
def second : Command := { shell := "date".toList, stdoutFile := "out".toList }
def bodyOf : Nat → Ctx → P (Bool × Option Bytes)
  | 0, ctx => commandBody look store (fun _ => .atom 1) first ctx
  | 1, ctx => commandBody look store (fun _ => .atom 1) second ctx
  | _, _ => .ret none

def own : Own (Bool × Option Bytes) where
  body := bodyOf
  note _ := id
  typ _ := []
  desc _ _ := some (.str "rule".toList)

/-- Both (3): first a command (0), then the Files target (2) that makes out with another command (1) -/
def proj : St := { St.empty with heap := [.command first, .command second, .files 1 [] ["/out".toList], .seq [0, 2]], filesReg := [("/out".toList, 2)] }

def stopped (r : Bool × Option Bytes) : Bool := r.1

theorem cancellable : Cancellable own proj stopped := by
  have hs : ∀ c w, ((store w (Cmd.run (look w) c first)).db = w.db ∧ (Off stopped w → Off stopped (store w (Cmd.run (look w) c first)))) ∧
      (store w (Cmd.run (look w) c second)).db = w.db ∧ (Off stopped w → Off stopped (store w (Cmd.run (look w) c second))) :=
    fun c w => ⟨⟨rfl, fun h => h⟩, rfl, fun h => h⟩
  refine ⟨fun o ctx => ?_, fun _ _ h => h, fun o ctx => ?_, fun o c h => ?_⟩
  · match o with
    | 0 | 1 => exact fun _ => trivial
    | _ + 2 => trivial
  · match o with
    | 0 => exact ⟨fun w => (hs ctx w).1, fun _ => trivial⟩
    | 1 => exact ⟨fun w => (hs ctx w).2, fun _ => trivial⟩
    | _ + 2 => trivial
  · have hr : ∀ w, Off stopped w → Refuses (look w) := fun w hw sp => ⟨1, by simp only [look]; rw [if_pos (show w.rest.1 = true from hw.2.2.2)]⟩
    match o, h with
    | 0, h => cases h; exact ⟨look, store, _, fun _ => rfl, hr⟩
    | 1, h => cases h; exact ⟨look, store, _, fun _ => rfl, hr⟩
    | 2, h => cases h
    | 3, h => cases h
    | _ + 4, h => cases h

def world : World (Bool × Option Bytes) := ⟨⟨.nil, []⟩, fun _ => [], [], false, false, false, (false, some [1, 2])⟩
def ctx : Ctx := withHashDB .root 0

/-- somebody cancels the context -/
def cancel (w : World (Bool × Option Bytes)) : World (Bool × Option Bytes) := { w with hasFails := true, addFails := true, addLost := true, rest := (true, w.rest.2) }

/-- the first command is run, and then the context is cancelled -/
def before : List (Label (World (Bool × Option Bytes))) := (rep [(2, 0), (3, 1), (9, 2)]).map .thread ++ [.extern cancel]
def after : List (Label (World (Bool × Option Bytes))) := (rep [(12, 1), (12, 3), (12, 4), (12, 3), (12, 1), (3, 0)]).map .thread

def endSt (ls : List (Label (World (Bool × Option Bytes)))) : State (World (Bool × Option Bytes)) Ctx := buildRun exHex id own proj [3] world ctx ls

def starts (st : State (World (Bool × Option Bytes)) Ctx) : List (Nat × Nat) := st.log.filterMap fun e => match e with
  | (t, .start _ _ _ tgt _) => some (t, tgt)
  | _ => none
def finishes (st : State (World (Bool × Option Bytes)) Ctx) : List (Nat × Bool) := st.log.filterMap fun e => match e with
  | (_, .finish _ tgt e) => some (tgt, e.isNone)
  | _ => none

/-- The context is cancelled when the first command is done; the Files target begins after that.  It fails, and so does the build; its rule is not run. -/
example : Cancellable own proj stopped ∧ Off stopped (endSt before).world ∧ starts (endSt before) = [(1, 3), (2, 0)] ∧ finishes (endSt before) = [(0, true)] ∧
    starts (endSt (before ++ after)) = [(1, 3), (2, 0), (3, 2)] ∧ finishes (endSt (before ++ after)) = [(0, true), (2, false), (3, false)] ∧ Works proj 2 :=
  ⟨cancellable, ⟨by decide +kernel, by decide +kernel, by decide +kernel, by decide +kernel⟩, by decide +kernel, by decide +kernel, by decide +kernel, by decide +kernel,
    .inr ⟨_, _, _, rfl⟩⟩

/-- For comparison, the same without cancelling: the rule writes out, everything succeeds. -/
example : finishes (endSt ((rep [(2, 0), (3, 1), (9, 2), (12, 1), (12, 3), (12, 4), (12, 3), (12, 1), (3, 0)]).map .thread)) = [(0, true), (1, true), (2, true), (3, true)] ∧
    (endSt ((rep [(2, 0), (3, 1), (9, 2), (12, 1), (12, 3), (12, 4), (12, 3), (12, 1), (3, 0)]).map .thread)).world.rest = (false, some [65]) := by
  constructor <;> decide +kernel

/-- `C96_success`: the context is cancelled while the last command is running, and the build returns nil. -/
def late : List (Label (World (Bool × Option Bytes))) := (rep [(2, 0), (3, 1), (9, 2), (12, 1), (12, 3), (12, 4), (12, 3)]).map .thread ++ [.extern cancel]

example : Off stopped (endSt late).world ∧
    (((endSt (late ++ (rep [(12, 1), (3, 0)]).map .thread)).log.filterMap fun e => match e with
      | (0, .ret _ e) => some e.isNone
      | _ => none) = [true]) := by
  refine ⟨⟨?_, ?_, ?_, ?_⟩, ?_⟩ <;> decide +kernel

end CancelDemo
end Fab.Yaml
