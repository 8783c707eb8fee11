import Verif.Yaml.SuppliedTrees

/-!
# C101, sessions: editing and building, again and again

runner.go:52-165, files.go:40-195, cmd/fab/main.go.  What C101 asks for is kept by builds, also by builds that are interrupted; so it is enough that edits keep it.
-/

namespace Fab.Yaml
open Path Cmd Files
open Runner (Proc TRef Env Ev State Reach Err Label)

/-! ## Specification -/

/-- A world after editing and building, in any order and any number of times, of the same project or of others, beginning without any database.  Edits keep `I`, and they add nothing to the
databases.  A build need not end: `ls` may stop anywhere. -/
inductive Session {ρ : Type} (hex : Bytes → Str) (sum : Str → Str) (R : Meaning) (T : Sit → Prop) (I : World ρ → Prop) : World ρ → Prop
  | new {w} : (∀ d, w.db d = []) → I w → Session hex sum R T I w
  | edit {w w'} : Session hex sum R T I w → (∀ d, ∀ h ∈ w'.db d, h ∈ w.db d) → I w' → Session hex sum R T I w'
  | build {w own s J os ctx ls} : Session hex sum R T I w → FairBuild hex sum own s J os T w ctx ls → InSupplyTrees own s J R os ctx I →
      (∀ f, .extern f ∈ ls → ∀ w, I w → I (f w)) → Session hex sum R T I (buildRun hex sum own s os w ctx ls).world

/-! ## Proofs -/

section
variable {ρ : Type} {hex : Bytes → Str} {sum : Str → Str} {own : Own ρ} {s : St} {J : Nat → Json.J} {os : List Nat} {R : Meaning} {T : Sit → Prop} {I : World ρ → Prop}

theorem Session.history {w : World ρ} (h : Session hex sum R T I w) : History hex sum R T w ∧ I w := by
  induction h with
  | new h1 h2 => exact ⟨.new h1, h2⟩
  | edit _ h1 h2 ih => exact ⟨.edit ih.1 h1, h2⟩
  | @build w own s J os ctx ls _ hf hi hls ih =>
    refine ⟨.build ih.1 hf (C78_trees hf.loose fun x t ins outs hx => ?_), ?_⟩
    · obtain ⟨h1, p, h2, -⟩ := hi.rules x t ins outs hx
      exact ⟨h1, p, h2⟩
    · exact (Runner.kept_from (supply_env (hex := hex) (sum := sum) (s := s) hi.keeps hi.note hi.add) (cl := [.call ctx (os.map .ptr) .ret]) (by simp [Proc.Keeps]) ls .init ih.2 hls).1

/-- **C101, sessions.** However often one edits and builds, whether builds are interrupted or not: as long as edits keep `I` (for example: the sources are there), no build ever returns an error;
and after each build that returns the outputs of all Files targets that it needs are what they are meant to be. -/
theorem C101_session (hno : NoCollision hex sum T) {w : World ρ} (hw : Session hex sum R T I w) {ctx : Ctx} {ls : List (Label (World ρ))}
    (hf : FairBuild hex sum own s J os T w ctx ls) (hi : InSupplyTrees own s J R os ctx I) (hls : ∀ f, .extern f ∈ ls → ∀ w, I w → I (f w))
    {n : Nat} {e : Option Err} (hret : (0, Ev.ret n e) ∈ (buildRun hex sum own s os w ctx ls).log) :
    e = none ∧ ∀ x t ins outs, FilesOf s os x t ins outs → (sitOf own J t ins outs (buildRun hex sum own s os w ctx ls).world.fs).right R :=
  C101_trees hno hf (hw.history.1.honest hno) hi hw.history.2 hls hret

/-- **C101, sessions, the end.** If, moreover, no target uses itself, then at any time a build can be begun, and nothing keeps it from succeeding. -/
theorem C101_session_ends (hno : NoCollision hex sum T) {w : World ρ} (hw : Session hex sum R T I w) {ctx : Ctx} {ls : List (Label (World ρ))}
    (hf : ∀ ts : List Nat, FairBuild hex sum own s J os T w ctx (ls ++ ts.map .thread)) (hi : InSupplyTrees own s J R os ctx I)
    (hls : ∀ f, .extern f ∈ ls → ∀ w, I w → I (f w)) (hac : ∀ x, ¬ Relation.TransGen (Uses s) x x) :
    (¬ ∃ (sts : Nat → State (World ρ) Ctx) (t : Nat → Nat), sts 0 = buildRun hex sum own s os w ctx ls ∧ ∀ n, Runner.step (buildEnv hex sum own s) (sts n) (t n) = some (sts (n + 1))) ∧
    (∃ ts : List Nat, ∃ n, (0, Ev.ret n none) ∈ (buildRun hex sum own s os w ctx (ls ++ ts.map .thread)).log) ∧
    ∀ ts : List Nat, (∀ t, Runner.step (buildEnv hex sum own s) (buildRun hex sum own s os w ctx (ls ++ ts.map .thread)) t = none) →
      ∃ n, (0, Ev.ret n none) ∈ (buildRun hex sum own s os w ctx (ls ++ ts.map .thread)).log :=
  C101_trees_ends hno hf (hw.history.1.honest hno) hi hw.history.2 hls hac

end

/-! ## A concrete case -/

namespace SessionDemo
open TreesDemo (doc own J fair)
open CleanDemo (Dir world)
open AgainDemo (ctx)
open SuppliedDemo (Fit)
open SuppliedTreesDemo (in_supply acyclic)

/-- In the project of `TreesDemo`: begin with src; a build is interrupted after any moves; then src is changed, gen.c and prog are changed or removed.  The next build ends, and returns nil; and so
on. -/
theorem session (b : UInt8) (ts : List Nat) (g p : Option UInt8) (b' : UInt8) :
    Session exHex id TreesDemo.R CleanDemo.T Fit
      { (buildRun exHex id own doc [5] (world ⟨none, none, some b⟩ []) ctx (ts.map .thread)).world with fs := (⟨g, p, some b'⟩ : Dir).fs } := by
  have h1 : Session exHex id TreesDemo.R CleanDemo.T Fit (buildRun exHex id own doc [5] (world ⟨none, none, some b⟩ []) ctx (ts.map .thread)).world :=
    .build (.new (fun d => by simp [world]) ⟨rfl, rfl, none, none, b, rfl⟩) (fair (x := ⟨none, none, some b⟩) rfl (by simp)) in_supply fun f hf => by simp at hf
  exact .edit h1 (fun _ _ h => h) ⟨h1.history.2.1, h1.history.2.2.1, g, p, b', rfl⟩

example (b : UInt8) (ts : List Nat) (g p : Option UInt8) (b' : UInt8) :
    ∃ us : List Nat, ∃ n, (0, Ev.ret n none) ∈ (buildRun exHex id own doc [5]
      { (buildRun exHex id own doc [5] (world ⟨none, none, some b⟩ []) ctx (ts.map .thread)).world with fs := (⟨g, p, some b'⟩ : Dir).fs } ctx (us.map .thread)).log := by
  have := (C101_session_ends (ls := []) (ctx := ctx) CleanDemo.noCollision (session b ts g p b') (fun us => fair (x := ⟨g, p, some b'⟩) rfl (by simp)) in_supply (fun f hf => by simp at hf) acyclic).2.1
  simpa using this

example (b : UInt8) (ts : List Nat) (g p : Option UInt8) (b' : UInt8) (us : List Nat) {n : Nat} {e : Option Err}
    (hret : (0, Ev.ret n e) ∈ (buildRun exHex id own doc [5]
      { (buildRun exHex id own doc [5] (world ⟨none, none, some b⟩ []) ctx (ts.map .thread)).world with fs := (⟨g, p, some b'⟩ : Dir).fs } ctx (us.map .thread)).log) : e = none :=
  (C101_session CleanDemo.noCollision (session b ts g p b') (fair (x := ⟨g, p, some b'⟩) rfl (by simp)) in_supply (fun f hf => by simp at hf) hret).1

end SessionDemo
end Fab.Yaml
