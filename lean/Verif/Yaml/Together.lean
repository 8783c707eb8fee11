import Verif.Yaml.Beside
import Verif.Yaml.Several
import Verif.Yaml.Trees
import Verif.Yaml.Project
import Verif.Yaml.ProjectDemo

/-!
# C100: several builds of one project at the same time

In `Several` (C91) it is asked of the execution that the processes keep apart.  Here this follows from what the commands do and from the state at the beginning: it is enough that what two of the
processes need is up to date.  The way: for each process, what the others do is something that happens outside it, so all theorems about one build hold for each of the builds.
-/

namespace Fab.Yaml
open Path Cmd Files
open Runner (Proc TRef Env Ev State Reach Label TSt Job Thread StepC step_cases)

section
variable {ι ρ : Type} [DecidableEq ι] {hex : Bytes → Str} {sum : Str → Str} {own : Own ρ} {s : St} {J : Nat → Json.J} {us : List Nat}

/-! ## Specification -/

/-- Any number of builds at the same time, each of an orderly project, without Force or DryRun: their steps are the moves `ms`, mixed in any way, and any of them may be slow, or killed at
any time.  At the beginning the files are `fs`, the databases `db`, and the rest is as in `u`.
* `noRun`, `orderly`, `cmds`: as in C78, for each of them;
* `others`: nobody else changes files that matter for them, or removes anything from database `d`;
* `apart`: each command of a process either never changes a file that matters for another process, or is (a part of) the rule of a Files target that is not behind at the beginning: which is up to date,
  and so is what it needs. -/
structure AtOnce (hex : Bytes → Str) (sum : Str → Str) (P : ι → BuildProc ρ) (d : Nat) (fs : FS) (db : Nat → List Str) (u : ι → World ρ) (ms : List (Move ι)) : Prop where
  noRun : ∀ i o ctx, NoRun ((P i).own.body o ctx)
  orderly : ∀ i, Orderly (P i).own (P i).s (P i).J (P i).os
  cmds : ∀ i c ctx, MayRun (P i).s (P i).os c → ¬ Composite (P i).s c → ((P i).own.body c ctx).Acts (Changes (P i).s (P i).os c)
  usual : ∀ i, Usual d (P i).ctx
  others : ∀ f, .other f ∈ ms → ∀ fs db, (∀ h ∈ db d, h ∈ (f fs db).2 d) ∧ ∀ i, SameFor P i fs (f fs db).1
  apart : ∀ i j, j ≠ i → ∀ c, MayRun (P i).s (P i).os c → ¬ Composite (P i).s c →
    (∀ ctx, ((P i).own.body c ctx).Acts fun w w' => SameFor P j w.fs w'.fs) ∨
    ∃ x t ins outs, FilesOf (P i).s (P i).os x t ins outs ∧ Part (P i).s t c ∧
      ¬ Behind hex sum (P i).own (P i).s d (P i).os { u i with fs := fs, db := db } x

/-- Processes for one project: process `i` builds `os i` in context `ctx i`. -/
def sameProject (own : Own ρ) (s : St) (J : Nat → Json.J) (os : ι → List Nat) (ctx : ι → Ctx) : ι → BuildProc ρ := fun i => ⟨own, s, J, os i, ctx i⟩

/-- What two processes need is up to date when they begin: the files are `fs`, the databases `db`, and the rest is as in `u`. -/
def SharedUpToDate (hex : Bytes → Str) (sum : Str → Str) (own : Own ρ) (s : St) (os : ι → List Nat) (d : Nat) (fs : FS) (db : Nat → List Str) (u : ι → World ρ) : Prop :=
  ∀ i j, i ≠ j → ∀ x t ins outs, FilesOf s (os i) x t ins outs → FilesOf s (os j) x t ins outs → UpToDate hex sum own s d t ins outs { u i with fs := fs, db := db }

/-- Nobody outside the processes changes the files of the project, or removes anything from database `d`. -/
def OthersKeep (s : St) (us : List Nat) (d : Nat) (ms : List (Move ι)) : Prop :=
  ∀ f, .other f ∈ ms → ∀ fs db, (∀ h ∈ db d, h ∈ (f fs db).2 d) ∧ ∀ x t ins outs, FilesOf s us x t ins outs → ∀ n ∈ ins ++ outs, SameFile fs (f fs db).1 n

/-- Any number of builds of an orderly project at the same time, without Force or DryRun, each for some of the targets `us`: their steps are the moves `ms`, mixed in any way, and any of them
may be slow, or killed at any time.  Nobody else changes the files of the project, or removes anything from the database; and what two of the processes need is up to date when they begin. -/
structure Together (hex : Bytes → Str) (sum : Str → Str) (own : Own ρ) (s : St) (J : Nat → Json.J) (us : List Nat) (os : ι → List Nat) (ctx : ι → Ctx) (d : Nat) (fs : FS)
    (db : Nat → List Str) (u : ι → World ρ) (ms : List (Move ι)) : Prop where
  project : FairProject own s J us
  among : ∀ i, ∀ o ∈ os i, o ∈ us
  usual : ∀ i, Usual d (ctx i)
  shared : SharedUpToDate hex sum own s os d fs db u
  others : OthersKeep s us d ms

/-! ## Each process by itself -/

open Classical in
/-- What move `m` is for process `i`: a step of one of its goroutines, or something that happens outside it. -/
noncomputable def seenAs (hex : Bytes → Str) (sum : Str → Str) (P : ι → BuildProc ρ) (i : ι) (x : ι → State (World ρ) Ctx) : Move ι → Label (World ρ)
  | .proc k tid => if k = i then .thread tid else .extern fun w => if w = (x i).world then (move hex sum P x (.proc k tid) i).world else w
  | .other f => .extern fun w => { w with fs := (f w.fs w.db).1, db := (f w.fs w.db).2 }

/-- What the moves `ms` are for process `i`. -/
noncomputable def seenMoves (hex : Bytes → Str) (sum : Str → Str) (P : ι → BuildProc ρ) (i : ι) (x : ι → State (World ρ) Ctx) : List (Move ι) → List (Label (World ρ))
  | [] => []
  | m :: ms => seenAs hex sum P i x m :: seenMoves hex sum P i (move hex sum P x m) ms

variable {P : ι → BuildProc ρ} {fs : FS} {db : Nat → List Str} {u : ι → World ρ} {ms : List (Move ι)}

theorem seenAs_step (i : ι) (x : ι → State (World ρ) Ctx) (m : Move ι) :
    (Runner.lstep (buildEnv hex sum (P i).own (P i).s) (x i) (seenAs hex sum P i x m)).getD (x i) = move hex sum P x m i := by
  cases m with
  | other f => rfl
  | proc k tid =>
    by_cases hk : k = i
    · subst hk
      simp only [seenAs, if_true, Runner.lstep, move]
      cases Runner.step (buildEnv hex sum (P k).own (P k).s) (x k) tid <;> simp
    · simp only [seenAs, if_neg hk, Runner.lstep, Option.getD_some, if_true, move]
      cases Runner.step (buildEnv hex sum (P k).own (P k).s) (x k) tid with
      | none => rfl
      | some st => simp only [if_neg (Ne.symm hk)]

theorem seenMoves_run (i : ι) : ∀ (ms : List (Move ι)) (x : ι → State (World ρ) Ctx),
    Runner.runSched (buildEnv hex sum (P i).own (P i).s) (x i) (seenMoves hex sum P i x ms) = ms.foldl (move hex sum P) x i
  | [], _ => rfl
  | m :: ms, x => by
    simp only [seenMoves, Runner.runSched, List.foldl_cons]
    rw [seenAs_step]
    exact seenMoves_run i ms _

/-- The state in which all processes begin. -/
def beginning (P : ι → BuildProc ρ) (fs : FS) (db : Nat → List Str) (u : ι → World ρ) : ι → State (World ρ) Ctx :=
  fun i => Runner.init { u i with fs := fs, db := db } [.call (P i).ctx ((P i).os.map .ptr) .ret]

/-- **What each of the processes does is a build in which others do something.** -/
theorem several_buildRun (i : ι) : several hex sum P fs db u ms i =
    buildRun hex sum (P i).own (P i).s (P i).os { u i with fs := fs, db := db } (P i).ctx (seenMoves hex sum P i (beginning P fs db u) ms) :=
  (seenMoves_run i ms (beginning P fs db u)).symm

theorem seenMoves_split {i : ι} {ls₁ ls₂ : List (Label (World ρ))} {l : Label (World ρ)} : ∀ (ms : List (Move ι)) (x : ι → State (World ρ) Ctx),
    seenMoves hex sum P i x ms = ls₁ ++ l :: ls₂ → ∃ ms₁ m ms₂, ms = ms₁ ++ m :: ms₂ ∧ ls₁ = seenMoves hex sum P i x ms₁ ∧
      l = seenAs hex sum P i (ms₁.foldl (move hex sum P) x) m ∧ ls₁ ++ [l] = seenMoves hex sum P i x (ms₁ ++ [m]) := by
  induction ls₁ with
  | nil =>
    intro ms x h
    cases ms with
    | nil => simp [seenMoves] at h
    | cons m ms =>
      simp only [seenMoves, List.nil_append, List.cons.injEq] at h
      exact ⟨[], m, ms, rfl, rfl, h.1.symm, by simp [seenMoves, h.1]⟩
  | cons l' ls₁ ih =>
    intro ms x h
    cases ms with
    | nil => simp [seenMoves] at h
    | cons m ms =>
      simp only [seenMoves, List.cons_append, List.cons.injEq] at h
      obtain ⟨ms₁, m', ms₂, h1, h2, h3, h4⟩ := ih ms _ h.2
      exact ⟨m :: ms₁, m', ms₂, by simp [h1], by simp [seenMoves, h.1, h2], h3, by simp [seenMoves, h.1, ← h4]⟩

/-- What happens outside process `i`: another process takes a step, or others do something. -/
theorem seenMoves_extern {i : ι} {f : World ρ → World ρ} (h : .extern f ∈ seenMoves hex sum P i (beginning P fs db u) ms) :
    (∃ ms₁ k tid ms₂, ms = ms₁ ++ .proc k tid :: ms₂ ∧ i ≠ k ∧
      ∀ w, f w = w ∨ w = (several hex sum P fs db u ms₁ i).world ∧ f w = (several hex sum P fs db u (ms₁ ++ [.proc k tid]) i).world) ∨
    ∃ g, .other g ∈ ms ∧ ∀ w, f w = { w with fs := (g w.fs w.db).1, db := (g w.fs w.db).2 } := by
  obtain ⟨ls₁, ls₂, h⟩ := List.append_of_mem h
  obtain ⟨ms₁, m, ms₂, h1, -, h2, -⟩ := seenMoves_split _ _ h
  cases m with
  | other g =>
    simp only [seenAs, Label.extern.injEq] at h2
    exact .inr ⟨g, by simp [h1], fun w => by rw [h2]⟩
  | proc k tid =>
    by_cases hk : k = i
    · simp [seenAs, hk] at h2
    · simp only [seenAs, if_neg hk, Label.extern.injEq] at h2
      refine .inl ⟨ms₁, k, tid, ms₂, h1, Ne.symm hk, fun w => ?_⟩
      rw [h2, several_snoc]
      dsimp only
      split
      · rename_i hw; exact .inr ⟨hw, rfl⟩
      · exact .inl rfl

/-! ## The processes keep apart -/

/-- What each of the processes does is a build as it should be, as long as they keep apart. -/
theorem AtOnce.loose {d : Nat} (h : AtOnce hex sum P d fs db u ms) (hap : KeepApart hex sum P fs db u ms) (i : ι) :
    LooseBuild hex sum (P i).own (P i).s (P i).J (P i).os (fun _ => True) { u i with fs := fs, db := db } (P i).ctx (seenMoves hex sum P i (beginning P fs db u) ms) where
  noRun := h.noRun i
  orderly := h.orderly i
  cmds := h.cmds i
  outside := fun f hf w y t ins outs hy n hn => by
    rcases seenMoves_extern hf with ⟨ms₁, k, tid, ms₂, h1, h2, h3⟩ | ⟨g, h1, h2⟩
    · rcases h3 w with h4 | ⟨h4, h5⟩
      · rw [h4]; exact ⟨rfl, fun _ _ => Iff.rfl⟩
      · rw [h5, h4]; exact hap ms₁ k tid ms₂ h1 i h2 y t ins outs hy n hn
    · rw [h2]; exact (h.others g h1 _ _).2 i y t ins outs hy n hn
  sits := fun _ _ _ _ _ _ _ _ => trivial

/-- Nothing disappears from a database in one step of a process. -/
theorem move_keeps_db (hown : ∀ i o ctx, NoRun ((P i).own.body o ctx))
    (hcmd : ∀ i c ctx, MayRun (P i).s (P i).os c → ¬ Composite (P i).s c → ((P i).own.body c ctx).Acts (Changes (P i).s (P i).os c)) {d : Nat} (i k : ι) (tid : Nat) :
    ∀ h ∈ (several hex sum P fs db u ms i).world.db d, h ∈ (several hex sum P fs db u (ms ++ [.proc k tid]) i).world.db d := by
  have hr := several_reach (hex := hex) (sum := sum) (P := P) (fs := fs) (db := db) (u := u) (ms := ms) k
  have hsame := several_same (hex := hex) (sum := sum) (P := P) (fs := fs) (db := db) (u := u) (ms := ms) i k
  rw [several_snoc]
  generalize several hex sum P fs db u ms = x at *
  cases hs : Runner.step (buildEnv hex sum (P k).own (P k).s) (x k) tid with
  | none => rw [move_none hs]; exact fun h hh => hh
  | some st =>
    have hdb := step_db (d := d) (hown k) hr (.of (hcmd k)) hs
    rw [move_some hs, hsame.2]
    dsimp only
    split
    · exact hdb
    · exact hdb

theorem AtOnce.keeps_db {d : Nat} (h : AtOnce hex sum P d fs db u ms) (i : ι) :
    ∀ f, .extern f ∈ seenMoves hex sum P i (beginning P fs db u) ms → ∀ w, ∀ h ∈ w.db d, h ∈ (f w).db d := by
  intro f hf w h' hh
  rcases seenMoves_extern hf with ⟨ms₁, k, tid, ms₂, h1, h2, h3⟩ | ⟨g, h1, h2⟩
  · rcases h3 w with h4 | ⟨h4, h5⟩
    · rw [h4]; exact hh
    · rw [h5]; rw [h4] at hh; exact move_keeps_db h.noRun h.cmds i k tid h' hh
  · rw [h2]; exact (h.others g h1 _ _).1 h' hh

/-- A step of a process changes no file that matters for another one, as long as it has not run (a part of) the rule of a target that was not behind. -/
theorem step_apart {d : Nat} (h : AtOnce hex sum P d fs db u ms) {i j : ι} {tid : Nat}
    (hnot : ∀ x t ins outs, FilesOf (P i).s (P i).os x t ins outs → ¬ Behind hex sum (P i).own (P i).s d (P i).os { u i with fs := fs, db := db } x → ∀ p, Part (P i).s t p →
      ¬ Ran p (several hex sum P fs db u ms i).log) (hj : j ≠ i) :
    SameFor P j (several hex sum P fs db u ms j).world.fs (several hex sum P fs db u (ms ++ [.proc i tid]) j).world.fs := by
  have hr := several_reach (hex := hex) (sum := sum) (P := P) (fs := fs) (db := db) (u := u) (ms := ms) i
  have hsame := several_same (hex := hex) (sum := sum) (P := P) (fs := fs) (db := db) (u := u) (ms := ms) j i
  rw [several_snoc]
  generalize several hex sum P fs db u ms = x at *
  have refl : ∀ fs, SameFor P j fs fs := fun fs _ _ _ _ _ _ _ => ⟨rfl, fun _ _ => Iff.rfl⟩
  cases hs : Runner.step (buildEnv hex sum (P i).own (P i).s) (x i) tid with
  | none => rw [move_none hs]; exact refl _
  | some st =>
    rw [move_some hs, hsame.1]
    simp only [if_neg hj, share]
    generalize x i = st₀ at *
    obtain ⟨⟨jb, ts⟩, hth, hc⟩ := step_cases hs
    rcases step_fs hc with ⟨f, k, hts, hw, -, -⟩ | ⟨-, hfs, -⟩
    · dsimp only at hts; subst hts
      rw [hw]
      obtain ⟨p, ho, hpos⟩ := hr.localInv.pos _ _ _ hth
      cases jb with
      | none =>
        exfalso
        have hlt := (List.getElem?_eq_some_iff.1 (show [Proc.call (P i).ctx ((P i).os.map TRef.ptr) .ret][tid]? = some p from ho)).1
        simp only [List.length_singleton] at hlt
        obtain rfl : tid = 0 := by omega
        have ho : some (Proc.call (P i).ctx ((P i).os.map TRef.ptr) .ret) = some p := ho
        cases ho
        exact client_still hpos _ _ rfl
      | some jb =>
        cases ho
        have hstart := hr.inv.b.started _ _ _ hth rfl
        have hmay : MayRun (P i).s (P i).os jb.tgt := (C76_build (h.noRun i) hr).1 _ _ _ _ _ _ hstart
        by_cases hfl : ∃ t ins outs, (P i).s.heap[jb.tgt]? = some (.files t ins outs)
        · obtain ⟨t', ins', outs', hfl⟩ := hfl
          have hk : ((buildEnv hex sum (P i).own (P i).s).body jb.tgt jb.ctx).Keeps fun w => w.fs = st₀.world.fs := by
            simp only [buildEnv, hfl]
            exact withReg_keeps (files_keeps_fs (P := fun fs => fs = st₀.world.fs))
          have := (Runner.Runs.keeps hk hpos).1 st₀.world rfl
          rw [this]
          exact refl _
        · have hcmd : ¬ Composite (P i).s jb.tgt → ∀ ctx, ((P i).own.body jb.tgt ctx).Acts fun w w' => SameFor P j w.fs w'.fs := by
            intro hcomp
            rcases h.apart i j hj _ hmay hcomp with h1 | ⟨z, t', ins', outs', h1, h2, h3⟩
            · exact h1
            · exact absurd ⟨_, _, _, _, _, hstart⟩ (hnot _ _ _ _ h1 h3 _ h2)
          exact act_acts (G := SameFor P j) refl (fun h => hcmd h _) (fun t ins outs h => hfl ⟨t, ins, outs, h⟩) hpos st₀.world
    · rw [hfs]; exact refl _

/-! ## Theorems -/

/-- **C100.** The processes keep apart: none of them ever changes a file that matters for another one; and each of them runs only rules, and parts of rules, of targets that were behind at the beginning. -/
theorem C100_apart {d : Nat} (h : AtOnce hex sum P d fs db u ms) :
    KeepApart hex sum P fs db u ms ∧
    ∀ i x t ins outs, FilesOf (P i).s (P i).os x t ins outs → ∀ p, Part (P i).s t p → Ran p (several hex sum P fs db u ms i).log →
      Behind hex sum (P i).own (P i).s d (P i).os { u i with fs := fs, db := db } x := by
  induction ms using List.reverseRecOn with
  | nil =>
    refine ⟨fun ms₁ i tid ms₂ h => by simp at h, fun i x t ins outs _ p _ h => ?_⟩
    obtain ⟨_, _, _, _, _, h⟩ := h
    simp [several, Runner.init] at h
  | append_singleton ms m ih =>
    have h' : AtOnce hex sum P d fs db u ms := { h with others := fun f hf => h.others f (by simp [hf]) }
    obtain ⟨h1, h2⟩ := ih h'
    have hap : KeepApart hex sum P fs db u (ms ++ [m]) := by
      intro ms₁ i tid ms₂ hms j hj
      rcases List.eq_nil_or_concat ms₂ with rfl | ⟨ms₃, m', rfl⟩
      · obtain ⟨rfl, h⟩ := List.append_inj' hms rfl
        exact step_apart h' (fun x t ins outs hx hb p hpart hran => hb (h2 i x t ins outs hx p hpart hran)) hj
      · have h3 : ms ++ [m] = (ms₁ ++ .proc i tid :: ms₃) ++ [m'] := by rw [hms]; simp
        obtain ⟨h3, -⟩ := List.append_inj' h3 rfl
        exact h1 ms₁ i tid ms₃ h3 j hj
    refine ⟨hap, fun i x t ins outs hx p hpart hran => ?_⟩
    rw [several_buildRun] at hran
    exact C93_parts (h.loose hap i) (h.usual i) (h.keeps_db i) hx hpart hran

/-- **C100.** When one of them has returned nil, everything that it needs is up to date, then and later, whatever the others do. -/
theorem C100_up_to_date {d : Nat} (h : AtOnce hex sum P d fs db u ms) {i : ι} (hkept : ∀ hsh o ctx, ((P i).own.body o ctx).Keeps fun w => hsh ∈ w.db d) {c : Nat}
    (hret : (0, Ev.ret c none) ∈ (several hex sum P fs db u ms i).log) :
    AllUpToDate hex sum (P i).own (P i).s d (P i).os (several hex sum P fs db u ms i).world := by
  intro x t ins outs hx
  by_contra hno
  rw [several_buildRun] at hret hno
  have hdep := behind_edited (h.loose (C100_apart h).1 i) hkept (h.usual i).1 (h.usual i).2.2 (h.keeps_db i) hret (fun _ h => h) (.stale hx hno)
  clear hno hx
  induction hdep with
  | file _ _ h => exact h rfl
  | input _ _ _ _ ih => exact ih

theorem seenMoves_append {i : ι} {a b : List (Move ι)} : ∀ (x : ι → State (World ρ) Ctx),
    seenMoves hex sum P i x (a ++ b) = seenMoves hex sum P i x a ++ seenMoves hex sum P i (a.foldl (move hex sum P) x) b := by
  induction a with
  | nil => exact fun _ => rfl
  | cons m a ih => exact fun x => by simp only [List.cons_append, seenMoves, ih, List.foldl_cons]

/-- If the rules work in each of the builds then they work in all of them. -/
theorem AllRulesWork.of {R : Meaning}
    (h : ∀ i, RulesWork hex sum (P i).own (P i).s (P i).J (P i).os R { u i with fs := fs, db := db } (P i).ctx (seenMoves hex sum P i (beginning P fs db u) ms)) :
    AllRulesWork hex sum P R fs db u ms := by
  intro ms₁ m ms₂ hms i x t ins outs hx th key hlog
  have := h i (seenMoves hex sum P i (beginning P fs db u) ms₁) (seenAs hex sum P i (ms₁.foldl (move hex sum P) (beginning P fs db u)) m)
    (seenMoves hex sum P i (move hex sum P (ms₁.foldl (move hex sum P) (beginning P fs db u)) m) ms₂) (by rw [hms, seenMoves_append]; rfl) x t ins outs hx th key
  have hsnoc : seenMoves hex sum P i (beginning P fs db u) ms₁ ++ [seenAs hex sum P i (ms₁.foldl (move hex sum P) (beginning P fs db u)) m] =
      seenMoves hex sum P i (beginning P fs db u) (ms₁ ++ [m]) := by rw [seenMoves_append]; rfl
  rw [hsnoc, ← several_buildRun, ← several_buildRun] at this
  exact this hlog

/-- **C100, correctness.** Suppose moreover that the rules do what they are meant to do when they are run, that no two different situations that come up have the same hash, that nobody outside adds
anything to the databases, and that the databases are honest at the beginning.  Then they are honest at every moment; and when one of the builds has returned nil then the outputs of all Files targets that it needs are
what they are meant to be, then and later. -/
theorem C100_right {d : Nat} {R : Meaning} {T : Sit → Prop} (h : AtOnce hex sum P d fs db u ms) (hno : NoCollision hex sum T)
    (hgain : ∀ f, .other f ∈ ms → ∀ fs db, ∀ d, ∀ h ∈ (f fs db).2 d, h ∈ db d)
    (hsits : ∀ ms₁ ms₂, ms = ms₁ ++ ms₂ → ∀ i x t ins outs, FilesOf (P i).s (P i).os x t ins outs →
      T (sitOf (P i).own (P i).J t ins outs (several hex sum P fs db u ms₁ i).world.fs))
    (hrule : AllRulesWork hex sum P R fs db u ms) (hdb : ∀ d, HonestDB hex sum R T (db d)) :
    (∀ i d, HonestDB hex sum R T ((several hex sum P fs db u ms i).world.db d)) ∧
    ∀ i c, (0, Ev.ret c none) ∈ (several hex sum P fs db u ms i).log → ∀ x t ins outs, FilesOf (P i).s (P i).os x t ins outs →
      (sitOf (P i).own (P i).J t ins outs (several hex sum P fs db u ms i).world.fs).right R :=
  C91_correct_partial hno ⟨h.noRun, h.orderly, h.cmds, fun f hf fs db => ⟨hgain f hf fs db, (h.others f hf fs db).2⟩, hsits⟩ (C100_apart h).1 hrule hdb

/-- **C100, rules.** The rules do what they are meant to do if there is a plan for each of them (`C78_trees`), although other builds are going on. -/
theorem C100_rules {d : Nat} {R : Meaning} (h : AtOnce hex sum P d fs db u ms)
    (hplan : ∀ i x t ins outs, FilesOf (P i).s (P i).os x t ins outs → OnePlace (P i).s t ∧
      ∃ p : Plan, p.Works (P i).own (P i).s t (ins ++ outs) (fun fs => (sitOf (P i).own (P i).J t ins outs fs).right R)) :
    AllRulesWork hex sum P R fs db u ms :=
  .of fun i => C78_trees (h.loose (C100_apart h).1 i) (hplan i)

/-- ... or if they are commands that do what they are meant to do if nobody else changes their files. -/
theorem C100_commands {d : Nat} {R : Meaning} (h : AtOnce hex sum P d fs db u ms)
    (hcmd : ∀ i x t ins outs, FilesOf (P i).s (P i).os x t ins outs → ¬ Composite (P i).s t ∧
      ∀ ctx fs, ((P i).own.body t ctx).Makes (ins ++ outs) (fun fs => (sitOf (P i).own (P i).J t ins outs fs).right R) fs) :
    AllRulesWork hex sum P R fs db u ms :=
  .of fun i => C78_commands (h.loose (C100_apart h).1 i) (hcmd i)

/-- **C100, YAML projects.** The conditions on how a project is written (`Written`, C94) are enough for `orderly`, if the project is read from YAML files; each process reads them for itself. -/
theorem C100_yaml {L : Lib} {os : List Nat} (hl : Loaded L s) (hp : Written s os) (hdesc : ∀ x t ins outs, FilesOf s os x t ins outs → ∀ w, own.desc t w = some (J t)) :
    Orderly own s J os :=
  ⟨⟨fun _ _ _ _ _ hx hc => (hp.rules _ _ _ _ _ hx hc).2, (rules_apart hl.place (hl.place.outer hp.registered) hp.rules).1,
    (rules_apart hl.place (hl.place.outer hp.registered) hp.rules).2, hdesc⟩, C94_once hp.names⟩

/-! ## One project -/

variable {os : ι → List Nat} {ctx : ι → Ctx}

omit [DecidableEq ι] in
theorem SharedUpToDate.not_behind {d : Nat} (hup : SharedUpToDate hex sum own s os d fs db u) {i j : ι} (hij : i ≠ j) {x : Nat}
    (hb : Behind hex sum own s d (os i) { u i with fs := fs, db := db } x) : ∀ {t ins outs}, FilesOf s (os j) x t ins outs → False := by
  induction hb with
  | stale hx hn =>
    intro t ins outs hx'
    have := hx.2
    rw [hx'.2] at this; cases this
    exact hn (hup i j hij _ _ _ _ hx hx')
  | input hx hi hz hb ih =>
    intro t ins outs hx'
    have := hx.2
    rw [hx'.2] at this; cases this
    cases hb with
    | stale h _ => exact ih (hx'.maker hi hz h)
    | input h _ _ _ => exact ih (hx'.maker hi hz h)

omit [DecidableEq ι] in
/-- What may be run stands for something that is needed, or is part of the rule of a Files target that is needed. -/
theorem mayRun_kind {os : List Nat} (hord : Orderly own s J os) {c : Nat} (h : MayRun s os c) :
    (∃ o, Wanted s os o ∧ Stands s o c) ∨ ∃ z t ins outs, FilesOf s os z t ins outs ∧ Part s t c := by
  induction h with
  | arg h hs => exact .inl ⟨_, .arg h, hs⟩
  | dep _ hu hst ih =>
    have part : ∀ z t ins outs o x, FilesOf s os z t ins outs → Part s t o → Stands s o x → ∃ z t ins outs, FilesOf s os z t ins outs ∧ Part s t x :=
      fun z t ins outs o x hf hp hst => by
        have := hst.self (hord.parts _ _ _ _ _ hf hp).1
        exact ⟨z, t, ins, outs, hf, this ▸ hp⟩
    rcases ih with ⟨o, k1, k2⟩ | ⟨z, t, ins, outs, k1, k2⟩
    · cases hu with
      | needs hn => exact .inl ⟨_, .dep k1 k2 hn, hst⟩
      | files hf => exact .inr (part _ _ _ _ _ _ ⟨⟨_, k1, k2⟩, hf⟩ .self hst)
    · obtain ⟨p1, p2⟩ := hord.parts _ _ _ _ _ k1 k2
      refine .inr (part _ _ _ _ _ _ k1 ?_ hst)
      cases hu with
      | needs hn =>
        cases hn with
        | all h hy => exact .all k2 h hy
        | seq h hy => exact .seq k2 h hy
        | arg h => exact .arg k2 h
        | input h => exact absurd h (p2 _ _ _)
        | name h => exact absurd h (p1 _)
      | files hf => exact absurd hf (p2 _ _ _)

omit [DecidableEq ι] in
theorem acts_weaken {Q Q' : World ρ → World ρ → Prop} (h : ∀ w w', Q w w' → Q' w w') {p : Files.P ρ} (hp : p.Acts Q) : p.Acts Q' := by
  induction p with
  | ret e => trivial
  | act f k ih => exact ⟨fun w => h _ _ (hp.1 w), fun w => ih w (hp.2 w)⟩
  | call c refs k ih => exact fun e => ih e (hp e)

omit [DecidableEq ι] in
/-- **C100, one project.** Builds of one project are apart if what two of them need is up to date when they begin. -/
theorem C100_one_project {d : Nat} (h : Together hex sum own s J us os ctx d fs db u ms) : AtOnce hex sum (sameProject own s J os ctx) d fs db u ms where
  noRun := fun _ => h.project.noRun
  orderly := fun i => h.project.orderly.among (h.among i)
  cmds := fun i => h.project.cmds_among (h.among i)
  usual := h.usual
  others := fun f hf fs db => ⟨(h.others f hf fs db).1, fun i x t ins outs hx => (h.others f hf fs db).2 x t ins outs (FilesOf.among (h.among i) hx)⟩
  apart := by
    intro i j hj c hmay hcomp
    change MayRun s (os i) c at hmay
    change ¬ Composite s c at hcomp
    by_cases hsh : ∃ x t ins outs, FilesOf s (os i) x t ins outs ∧ FilesOf s (os j) x t ins outs ∧ Part s t c
    · obtain ⟨x, t, ins, outs, h1, h2, h3⟩ := hsh
      exact .inr ⟨x, t, ins, outs, h1, h3, fun hb => h.shared.not_behind (Ne.symm hj) hb h2⟩
    · refine .inl fun cx => ?_
      have hcmd := h.project.cmds c cx (hmay.among (h.among i)) hcomp
      refine acts_weaken (fun w w' hch => ?_) hcmd
      intro y t ins outs hy n hn
      change FilesOf s (os j) y t ins outs at hy
      rcases hch.2 y t ins outs (hy.among (h.among j)) n hn with h4 | ⟨z, t', ins', outs', h1, h2, h3⟩
      · exact h4
      · exfalso
        have hzj : FilesOf s (os j) z t' ins' outs' := by
          rcases h3 with rfl | ⟨h4, h5⟩
          · have := hy.2
            rw [h1.2] at this; cases this
            exact hy
          · exact hy.maker h4 h5 h1
        have hzi : FilesOf s (os i) z t' ins' outs' := by
          rcases mayRun_kind (h.project.orderly.among (h.among i)) hmay with ⟨o, k1, k2⟩ | ⟨z₂, t₂, ins₂, outs₂, k1, k2⟩
          · exact absurd k2 (h.project.orderly.priv _ _ _ _ _ _ h1 h2 (k1.among (h.among i)))
          · cases h.project.orderly.apart _ _ _ _ _ _ _ _ _ h1 (k1.among (h.among i)) h2 k2
            have := h1.2
            rw [k1.2] at this; cases this
            exact k1
        exact hsh ⟨z, t', ins', outs', hzi, hzj, h2⟩

/-- ... and then no rule, nor any part of a rule, that two of them need is run by any of them. -/
theorem C100_shared {d : Nat} (h : Together hex sum own s J us os ctx d fs db u ms) {i j : ι} (hij : i ≠ j) {x t p : Nat} {ins outs : List Str} (hx : FilesOf s (os i) x t ins outs)
    (hx' : FilesOf s (os j) x t ins outs) (hpart : Part s t p) : ¬ Ran p (several hex sum (sameProject own s J os ctx) fs db u ms i).log :=
  fun hran => h.shared.not_behind hij ((C100_apart (C100_one_project h)).2 i x t ins outs hx p hpart hran) hx'

end

/-! ## A concrete case -/

namespace TogetherDemo
open BuildDemo (docEnd)
open AgainDemo (src gen prog heap4 heap6 startOf retOf rep ctx)
open CleanDemo EditedDemo BesideDemo

/-- After `fab Gen`: `fab Gen` again in one terminal (`false`), and `fab Prog`, which needs Gen, in another one. -/
def os (i : Bool) : List Nat := if i then [4] else [6]

def seg (i : Bool) (l : List (Nat × Nat)) : List (Move Bool) := (rep l).map (.proc i)

/-- The steps of the two, mixed: `fab Gen` looks at its files while the rule of Prog is at work. -/
def moves : List (Move Bool) :=
  seg true [(2, 0), (4, 1), (6, 2)] ++ seg false [(2, 0), (5, 1)] ++ seg true [(5, 2), (8, 1), (4, 3)] ++ seg false [(6, 1)] ++ seg true [(4, 3), (11, 1)] ++ seg false [(3, 0)] ++
    seg true [(3, 0)]

def both : Bool → State (World Unit) Ctx := several exHex id (sameProject own docEnd J os fun _ => ctx) genFirst.world.fs genFirst.world.db (fun _ => genFirst.world) moves

/-- What happens: `fab Prog` runs the rule of Prog, `fab Gen` no rule, and both return nil. -/
theorem C100_example : startOf (both false) = [6] ∧ retOf (both false) = [true] ∧ startOf (both true) = [4, 6, 3] ∧ retOf (both true) = [true] ∧
    isDir (both false).world.fs ⟨some 2, some 3, some 1⟩ = true := by decide +kernel

theorem proc_only {ms : List (Bool × Nat)} (f) : .other f ∉ ms.map fun m => Move.proc m.1 m.2 := by simp

/-- However the steps of the two are mixed, they are as C100 asks ... -/
theorem together {ms : List (Move Bool)} (hms : ∀ f, .other f ∉ ms) :
    Together exHex id own docEnd J [6, 4] os (fun _ => ctx) 0 genFirst.world.fs genFirst.world.db (fun _ => genFirst.world) ms where
  project := project
  among := by intro i; cases i <;> simp [os]
  usual := fun _ => usual
  shared := by
    obtain ⟨c, hret⟩ := AgainDemo.ends (st := genFirst) C99_example.2.1
    have hup : AllUpToDate exHex id own docEnd 0 [6] genFirst.world := by
      unfold genFirst at hret ⊢
      exact C99_success BesideDemo.project (by simp) own_db rfl rfl alone hret
    generalize genFirst.world = u at hup
    intro i j hij x t ins outs hx hx'
    cases i with
    | false => exact hup x t ins outs hx
    | true =>
      cases j with
      | true => exact absurd rfl hij
      | false => exact hup x t ins outs hx'
  others := fun f hf => absurd hf (hms f)

/-- ... so the rule of Gen is never run, and where `fab Prog` has returned nil, Gen and Prog are up to date. -/
example (ms : List (Bool × Nat)) : ¬ Ran 5 (several exHex id (sameProject own docEnd J os fun _ => ctx) genFirst.world.fs genFirst.world.db (fun _ => genFirst.world)
    (ms.map fun m => .proc m.1 m.2) true).log :=
  C100_shared (together (proc_only (ms := ms))) (i := true) (j := false) (by simp) is6 ⟨⟨6, .arg (by simp [os]), .inr ⟨by rw [heap6]; simp, rfl⟩⟩, heap6⟩ .self

/-- `C100_yaml` -/
example : Orderly TreesDemo.own TreesDemo.doc TreesDemo.J [5] :=
  C100_yaml PlaceDemo.loaded ProjectDemo.written (ProjectDemo.behaves (w := world ⟨none, none, none⟩ []) (x := ⟨none, none, none⟩) rfl (ctx := ctx) (noExt [])).desc

theorem moves_proc (f) : .other f ∉ moves := by simp [moves, seg]

/-- `C100_up_to_date`, where `fab Prog` has returned nil. -/
example : UpToDate exHex id own docEnd 0 3 [gen] [prog] (both true).world := by
  obtain ⟨c, hret⟩ := AgainDemo.ends (st := both true) C100_example.2.2.2.1
  unfold both at hret ⊢
  exact C100_up_to_date (C100_one_project (together moves_proc)) (i := true) own_db hret 4 3 [gen] [prog] is4

/-- `C100_apart`: its rule was run, so Prog was behind. -/
example : Behind exHex id own docEnd 0 [4] genFirst.world 4 := by
  have hran : Ran 3 (both true).log := by
    have h : ∃ e ∈ (both true).log, (match e.2 with | Ev.start _ _ _ 3 _ => true | _ => false) = true := by decide +kernel
    obtain ⟨⟨t, e⟩, h1, h2⟩ := h
    split at h2
    · rename_i c i key ctx h3
      exact ⟨t, c, i, key, ctx, h3 ▸ h1⟩
    · cases h2
  unfold both at hran
  have h := (C100_apart (C100_one_project (together moves_proc))).2 true _ _ _ _ is4 _ .self hran
  generalize genFirst.world = u at h ⊢
  exact h

/-- The rules do what they should, if they are left alone. -/
theorem rules {x t ins outs} (h : FilesOf docEnd [6, 4] x t ins outs) : ¬ Composite docEnd t ∧
    ∀ ctx fs, (own.body t ctx).Makes (ins ++ outs) (fun fs => (sitOf own J t ins outs fs).right CleanDemo.R) fs := by
  refine ⟨?_, fun ctx fs => makes (filesOf_all h) ctx fs⟩
  rcases filesOf (filesOf_all h) with ⟨rfl, rfl, rfl, rfl⟩ | ⟨rfl, rfl, rfl, rfl⟩
  · exact plain3
  · exact plain5

/-- The databases are honest after `fab Gen`. -/
theorem honest (d : Nat) : HonestDB exHex id CleanDemo.R T (genFirst.world.db d) := by
  have hl : LooseBuild exHex id own docEnd J [6] (fun _ => True) (world ⟨none, none, some 1⟩ []) ctx ((rep [(2, 0), (8, 1), (8, 2), (11, 1), (3, 0)]).map .thread) :=
    project.build (by simp) alone
  have hf : FairBuild exHex id own docEnd J [6] T (world ⟨none, none, some 1⟩ []) ctx ((rep [(2, 0), (8, 1), (8, 2), (11, 1), (3, 0)]).map .thread) := by
    refine ⟨⟨hl.noRun, hl.orderly.toRulesApart, hl.cmds, fun f hf => absurd hf (noExt _ f), ?_⟩, hl.orderly.once⟩
    rintro ls₁ ls₂ h x t ins outs -
    obtain ⟨y, hy, -⟩ := fs_kept (P := fun f => ∃ y : Dir, f = y.fs ∧ y.s = some 1) (own_fs _) (own := own) (hex := exHex) (sum := id) (s := docEnd) (os := [6])
      (w := world ⟨none, none, some 1⟩ []) (ctx := ctx) (ls := ls₁) ⟨_, rfl, rfl⟩ fun f hf => absurd (h ▸ List.mem_append_left _ hf) (noExt _ f)
    exact ⟨y, hy⟩
  have hw : ∀ d, HonestDB exHex id CleanDemo.R T ((world ⟨none, none, some 1⟩ []).db d) := fun d h hm => by simp [world] at hm
  have hrule : RulesWork exHex id own docEnd J [6] CleanDemo.R (world ⟨none, none, some 1⟩ []) ctx ((rep [(2, 0), (8, 1), (8, 2), (11, 1), (3, 0)]).map .thread) :=
    C78_commands hl fun x t ins outs hx => rules (hx.among (by simp))
  unfold genFirst
  exact (C78_correct noCollision hf hrule hw rfl).1 d

theorem dirs {w : World Unit} (hw : ∃ x : Dir, w.fs = x.fs ∧ x.s = some 1) {ms : List (Move Bool)} (hms : ∀ f, .other f ∉ ms) (i : Bool) :
    ∃ x : Dir, (several exHex id (sameProject own docEnd J os fun _ => ctx) w.fs w.db (fun _ => w) ms i).world.fs = x.fs ∧ x.s = some 1 := by
  induction ms using List.reverseRecOn generalizing i with
  | nil => exact hw
  | append_singleton ms m ih =>
    have ih := ih fun f hf => hms f (by simp [hf])
    have hr := fun i => several_reach (hex := exHex) (sum := id) (P := sameProject own docEnd J os fun _ => ctx) (fs := w.fs) (db := w.db) (u := fun _ => w) (ms := ms) i
    rw [several_snoc]
    generalize several exHex id (sameProject own docEnd J os fun _ => ctx) w.fs w.db (fun _ => w) ms = x at *
    cases m with
    | other f => exact absurd (List.mem_append_right _ (by simp)) (hms f)
    | proc j tid =>
      cases h : Runner.step (buildEnv exHex id own docEnd) (x j) tid with
      | none => rw [move_none h]; exact ih i
      | some st =>
        have hst : ∃ x : Dir, st.world.fs = x.fs ∧ x.s = some 1 := fs_kept_step (P := fun f => ∃ x : Dir, f = x.fs ∧ x.s = some 1) (own_fs _) (hr j) h (ih j)
        rw [move_some h]
        dsimp only
        split
        · exact hst
        · exact hst

/-- `C100_right`, with `C100_commands`: however the steps of the two are mixed, and whoever is killed: where `fab Prog` has returned nil, gen.c is src plus one and prog is gen.c plus one. -/
example (ms : List (Bool × Nat)) {st : State (World Unit) Ctx}
    (hst : several exHex id (sameProject own docEnd J os fun _ => ctx) genFirst.world.fs genFirst.world.db (fun _ => genFirst.world) (ms.map fun m => .proc m.1 m.2) true = st)
    {c : Nat} (hret : (0, Ev.ret c none) ∈ st.log) : st.world.fs = (⟨some 2, some 3, some 1⟩ : Dir).fs := by
  have hfs : genFirst.world.fs = (⟨some 2, none, some 1⟩ : Dir).fs := by
    have h := C99_example.2.2.1
    simpa [isDir] using h
  have ht := C100_one_project (together (proc_only (ms := ms)))
  have hh := honest
  have h := C100_right (R := CleanDemo.R) (T := T) ht noCollision (fun f hf => absurd hf (proc_only f))
    (fun ms₁ ms₂ h i x t ins outs _ => by
      obtain ⟨y, hy, -⟩ := dirs (w := genFirst.world) ⟨_, hfs, rfl⟩ (ms := ms₁) (fun f hf => proc_only (ms := ms) f (by rw [h]; exact List.mem_append_left _ hf)) i
      exact ⟨y, hy⟩)
    (C100_commands ht fun i x t ins outs hx => rules (FilesOf.among ((together (proc_only (ms := ms))).among i) hx)) honest
  obtain ⟨y, hy, hs⟩ := dirs (w := genFirst.world) ⟨_, hfs, rfl⟩ (proc_only (ms := ms)) true
  have h2 := fun x t ins outs hx => h.2 true c (by rw [hst]; exact hret) x t ins outs hx
  rw [hst] at hy h2
  generalize genFirst.world = u at *
  have h4 := h2 _ _ _ _ is4
  have h6 := h2 _ _ _ _ is6
  rw [hy] at h4 h6
  have hne : (Json.J.str "gen".toList) ≠ .str "prog".toList := fun h => absurd (Json.J.str.inj h) (by decide)
  obtain ⟨b, ⟨h1, -⟩ | ⟨-, h1, h2⟩⟩ := h4
  · exact absurd h1.symm hne
  obtain ⟨b', ⟨-, h3, h4⟩ | ⟨h3, -⟩⟩ := h6
  · have e1 := shows_inv (stat_gen y) h1
    have e2 := shows_inv (stat_prog y) h2
    have e3 := shows_inv (stat_src y) h3
    have e4 := shows_inv (stat_gen y) h4
    rw [e1] at e4
    rw [hy]
    obtain ⟨g, p, s⟩ := y
    simp only [Option.some.injEq] at e1 e2 e3 e4 hs
    cases hs
    cases e3
    rw [e1, e2, e4]
    rfl
  · exact absurd h3 hne

end TogetherDemo
end Fab.Yaml
