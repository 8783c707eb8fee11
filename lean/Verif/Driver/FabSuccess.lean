import Verif.Driver.FabEach
import Verif.Yaml.SuppliedTrees

/-!
# C101 for the command `fab`

main.go:24-82 and cmd/fab/main.go: the exit status of fab says whether the build has succeeded (C71).
-/

namespace Fab.Driver
open Path Cmd Files
open Runner (Proc TRef Env Ev State Reach Label)
open Yaml (NoRun InOrder UnknownName FirstFailure buildRun)

section
variable {ρ : Type} {W : World} {n : Nat} {hex : Bytes → Str} {sum : Str → Str} {own : Yaml.Own ρ} {w : Files.World ρ} {argv : List Str} {k : Nat} {s : Yaml.St} {os : List Nat} {ctx : Ctx}
  {ls : List (Label (Files.World ρ))} {st : State (Files.World ρ) Ctx}

/-- **C101, the command.** If fab has run targets and its exit status is not zero, then a name is unknown, or the first thing that failed was a command, or a Files target that had trouble itself. -/
theorem C101_fab (hf : FabRun W n hex sum own w argv k s os ctx ls st) (hown : ∀ o ctx, NoRun (own.body o ctx)) (hk : k ≠ 0) :
    UnknownName s os ∨ FirstFailure own s os ctx st.log := by
  obtain ⟨c, e, hret⟩ := hf.ended
  cases e with
  | none => exact absurd (hf.status.2 ⟨c, hret⟩) hk
  | some e => exact Yaml.C101_culprit hown hf.reach hret

/-- **C101, the command succeeds.** If fab runs targets and everything is in order, then its exit status is zero. -/
theorem C101_fab_success (hf : FabRun W n hex sum own w argv k s os ctx ls st) {I : Files.World ρ → Prop} (hi : InOrder own s os ctx I) (hw : I w)
    (hls : ∀ f, .extern f ∈ ls → ∀ w, I w → I (f w)) : k = 0 := by
  obtain ⟨c, e, hret⟩ := hf.ended
  have hret' := hret
  rw [hf.exec] at hret'
  cases Yaml.C101_success hi hw hls hret'
  exact hf.status.2 ⟨c, hret⟩

/-- **C101, the command succeeds from a clean checkout.** If fab runs targets, each rule succeeds once its inputs have been made, and everything else is in order (`InSupply`), then its exit
status is zero, and the outputs of all Files targets that are needed are what they are meant to be. -/
theorem C101_fab_clean (hf : FabRun W n hex sum own w argv k s os ctx ls st) {J : Nat → Json.J} {R : Yaml.Meaning} {T : Yaml.Sit → Prop} (hno : Yaml.NoCollision hex sum T)
    (hfair : Yaml.FairBuild hex sum own s J os T w ctx ls) (hw : ∀ d, Yaml.HonestDB hex sum R T (w.db d)) {I : Files.World ρ → Prop} (hi : Yaml.InSupply own s J R os ctx I) (hI : I w)
    (hls : ∀ f, .extern f ∈ ls → ∀ w, I w → I (f w)) :
    k = 0 ∧ ∀ x t ins outs, Yaml.FilesOf s os x t ins outs → (Yaml.sitOf own J t ins outs st.world.fs).right R := by
  obtain ⟨c, e, hret⟩ := hf.ended
  have hret' := hret
  rw [hf.exec] at hret'
  obtain ⟨rfl, h⟩ := Yaml.C101_clean hno hfair hw hi hI hls hret'
  exact ⟨hf.status.2 ⟨c, hret⟩, by rw [hf.exec]; exact h⟩

/-- **C101, the command succeeds from a clean checkout, rules of any shape.** As `C101_fab_clean`, for rules that are made of commands with All, Seq and arguments. -/
theorem C101_fab_trees (hf : FabRun W n hex sum own w argv k s os ctx ls st) {J : Nat → Json.J} {R : Yaml.Meaning} {T : Yaml.Sit → Prop} (hno : Yaml.NoCollision hex sum T)
    (hfair : Yaml.FairBuild hex sum own s J os T w ctx ls) (hw : ∀ d, Yaml.HonestDB hex sum R T (w.db d)) {I : Files.World ρ → Prop} (hi : Yaml.InSupplyTrees own s J R os ctx I) (hI : I w)
    (hls : ∀ f, .extern f ∈ ls → ∀ w, I w → I (f w)) :
    k = 0 ∧ ∀ x t ins outs, Yaml.FilesOf s os x t ins outs → (Yaml.sitOf own J t ins outs st.world.fs).right R := by
  obtain ⟨c, e, hret⟩ := hf.ended
  have hret' := hret
  rw [hf.exec] at hret'
  obtain ⟨rfl, h⟩ := Yaml.C101_trees hno hfair hw hi hI hls hret'
  exact ⟨hf.status.2 ⟨c, hret⟩, by rw [hf.exec]; exact h⟩

end

namespace FabSuccessDemo
open Yaml.BuildDemo (docEnd)
open Yaml.AgainDemo (src gen heap6 maker rep)
open Yaml.CleanDemo (own world read read_eq Dir step5 ok5 file stat_gen stat_src)
open FabDemo (W fabCtx)

/-- The database works, and the files are gen.c, prog and src: src is there. -/
def Fit (w : Files.World Unit) : Prop := w.hasFails = false ∧ w.addFails = false ∧ ∃ g p b, w.fs = (⟨g, p, some b⟩ : Dir).fs

theorem read_dir (g p : Option UInt8) (b : UInt8) : read (⟨g, p, some b⟩ : Dir).fs = some ⟨g, p, some b⟩ := by
  cases g <;> cases p <;> exact if_pos rfl

theorem step_fit {w : Files.World Unit} (hw : Fit w) (v : UInt8 → Option UInt8) : Fit (step5 w v) := by
  obtain ⟨h1, h2, g, p, b, h3⟩ := hw
  unfold step5
  rw [h3, read_dir]
  exact ⟨h1, h2, v b, p, b, rfl⟩

theorem ok_fit {w : Files.World Unit} (hw : Fit w) : ok5 w = none := by
  obtain ⟨-, -, g, p, b, h3⟩ := hw
  unfold ok5
  rw [h3, read_dir]

/-- A build of Gen (6) runs only Gen and its command (5). -/
theorem mayRun {t : Nat} (h : Yaml.MayRun docEnd [6] t) : t = 6 ∨ t = 5 := by
  have h5 : docEnd.heap[5]? ≠ none ∧ (∀ n, docEnd.heap[5]? ≠ some (.ref n)) ∧ ¬ Yaml.Composite docEnd 5 := by
    have h : ∃ fs b, docEnd.heap[5]? = some (.clean fs b) := ⟨_, _, rfl⟩
    obtain ⟨c, _, h⟩ := h
    refine ⟨by rw [h]; simp, by rw [h]; simp, ?_⟩
    rintro (h' | h' | h' | h' | h') <;> rw [h] at h' <;> cases h'
  have self : ∀ {o x}, o = 6 ∨ o = 5 → Yaml.Stands docEnd o x → x = o := by
    rintro o x ho (⟨n, hn, -⟩ | ⟨-, rfl⟩)
    · rcases ho with rfl | rfl
      · rw [heap6] at hn; cases hn
      · exact absurd hn (h5.2.1 n)
    · rfl
  induction h with
  | arg h h1 =>
    obtain rfl := List.mem_singleton.1 h
    exact .inl (self (.inl rfl) h1)
  | dep _ h1 h2 ih =>
    rcases ih with rfl | rfl
    · cases h1 with
      | files h3 => rw [heap6] at h3; cases h3; exact .inr (self (.inr rfl) h2)
      | needs h3 =>
        cases h3 with
        | input h3 h4 h5 =>
          rw [heap6] at h3; cases h3
          simp only [List.mem_singleton] at h4; subst h4
          rw [maker.2] at h5; cases h5
        | _ h3 => rw [heap6] at h3; cases h3
    · exfalso
      cases h1 with
      | files h3 => exact h5.2.2 (.files h3)
      | needs h3 =>
        cases h3 with
        | all h3 => exact h5.2.2 (.all h3)
        | seq h3 => exact h5.2.2 (.seq h3)
        | arg h3 => exact h5.2.2 (.arg h3)
        | input h3 => exact h5.2.2 (.files h3)
        | name h3 => exact h5.2.2 (.name h3)

/-- Everything is in order for `fab Gen`, as long as there is src. -/
theorem in_order : InOrder own docEnd [6] fabCtx Fit where
  noRun := by
    intro o ctx
    unfold own
    dsimp only
    split
    · exact fun _ _ => trivial
    · split
      · exact fun _ _ => trivial
      · trivial
  known := by
    rintro ⟨o, name, h1, h2, -⟩
    exact Yaml.SuccessDemo.names_known h1 h2
  cmds := by
    intro c ctx' hm hc
    rcases mayRun hm with rfl | rfl
    · exact absurd (.files heap6) hc
    · exact fun w hw => ⟨step_fit hw _, fun w hw => ⟨step_fit hw _, ok_fit hw⟩⟩
  files := by
    rintro x t ins outs hm hx w ⟨h1, h2, g, p, b, h3⟩ ⟨-, -, h4 | h4 | h4 | ⟨i, hi, h4⟩⟩
    · rw [h1] at h4; exact nomatch h4.1
    · rw [h2] at h4; cases h4
    · cases h4
    · rcases mayRun hm with rfl | rfl
      · rw [heap6] at hx; cases hx
        apply h4
        rw [h3]
        simp only [List.cons_append, List.nil_append, List.mem_cons, List.not_mem_nil, or_false] at hi
        unfold CanRead
        rcases hi with rfl | rfl
        · have h : (⟨g, p, some b⟩ : Dir).fs.stat src = .found _ (.file true [b]) := stat_src _
          rw [h]
        · cases g with
          | none =>
            have h : (⟨none, p, some b⟩ : Dir).fs.stat gen = .notExist := stat_gen _
            rw [h]; trivial
          | some g =>
            have h : (⟨some g, p, some b⟩ : Dir).fs.stat gen = .found _ (.file true [g]) := stat_gen _
            rw [h]
      · have : ∃ fs b, docEnd.heap[5]? = some (.clean fs b) := ⟨_, _, rfl⟩
        obtain ⟨c, _, h⟩ := this
        rw [h] at hx; cases hx
  note := fun _ _ h => h
  add := by
    intro d h w hw
    unfold dbAdd
    split
    · exact hw
    · exact hw

/-- `fab Gen`, when only src is there: the command removes gen.c and makes it again. -/
example : FabEachDemo.first = Yaml.buildRun Files.exHex id own docEnd [6] (world ⟨none, none, some 1⟩ []) fabCtx ((rep [(2, 0), (8, 1), (8, 2), (11, 1), (3, 0)]).map .thread) ∧
    ∀ {k st}, FabRun (W true) 12 Files.exHex id own (world ⟨none, none, some 1⟩ []) FabEachDemo.genLine k docEnd [6] fabCtx
      ((rep [(2, 0), (8, 1), (8, 2), (11, 1), (3, 0)]).map .thread) st → k = 0 :=
  ⟨rfl, fun hf => C101_fab_success hf in_order ⟨rfl, rfl, none, none, 1, rfl⟩ fun f hf => absurd hf (by simp)⟩

/-- `fab Prog`, when only src is there, with an empty database, in any order of the goroutines. -/
example (b : UInt8) (ts : List Nat) {k : Nat} {st : State (Files.World Unit) Ctx}
    (hf : FabRun (W true) 12 Files.exHex id own (world ⟨none, none, some b⟩ []) FabDemo.line k docEnd [4] fabCtx (ts.map .thread) st) : k = 0 :=
  (C101_fab_clean (I := Yaml.SuppliedDemo.Fit) hf Yaml.CleanDemo.noCollision (Yaml.CleanDemo.fair rfl (Yaml.CleanDemo.noExt _)) (fun d h hm => by simp [world] at hm)
    Yaml.SuppliedDemo.in_supply ⟨rfl, rfl, none, none, b, rfl⟩ (fun f hf => by simp at hf)).1

example (b : UInt8) (ts : List Nat) {k : Nat} {st : State (Files.World Unit) Ctx}
    (hf : FabRun (W true) 12 Files.exHex id own (world ⟨none, none, some b⟩ []) FabDemo.line k docEnd [4] fabCtx (ts.map .thread) st) : k = 0 :=
  (C101_fab_trees (I := Yaml.SuppliedDemo.Fit) hf Yaml.CleanDemo.noCollision (Yaml.CleanDemo.fair rfl (Yaml.CleanDemo.noExt _)) (fun d h hm => by simp [world] at hm)
    Yaml.SuppliedTreesDemo.in_supply_doc ⟨rfl, rfl, none, none, b, rfl⟩ (fun f hf => by simp at hf)).1

end FabSuccessDemo

end Fab.Driver
