import Verif.Driver.FabYaml
import Verif.Driver.FabDemo
import Verif.Yaml.ProjectDemo

/-!
# C88: `fab Prog` in the project of `Yaml/ProjectDemo`
-/

namespace Fab.Driver.FabYamlDemo
open Path Registry
open Runner (State Ev Label)
open Yaml.AgainDemo (rep ends src gen prog)
open Yaml.CleanDemo (Dir world noExt)
open Yaml.TreesDemo (doc own)
open FabDemo (fabCtx line)
open Files (exHex)

def W : World := { FabDemo.W true with lib := fun _ _ => Yaml.PlaceDemo.lib }

theorem loads : Yaml.load Yaml.PlaceDemo.lib 12 Yaml.St.empty = .ok () doc := Yaml.BuildDemo.isOk_eq (by decide +kernel)

theorem fab_line : fabMain W 12 line = some ([.ran ⟨["top".toList], true⟩ fabCtx doc [.plain 5]], 0) := by
  have h1 : parse fabFlags (defaults "/cache/fab".toList) line = .ok (defaults "/cache/fab".toList, line) := by decide +kernel
  have h2 : W.fabDir = some "/cache/fab".toList := by decide +kernel
  rw [(fabMain_eq (W := W) 12 h2 h1 (.of_none (by decide)) rfl).1 rfl]
  have h3 : W.openDB (absOf W.cwd (defaults "/cache/fab".toList).fab) = some 0 := by decide +kernel
  have h4 : parseArgs doc.reg line = .ok [.plain 5] := by decide +kernel
  have h5 : Yaml.load (W.lib false (absOf W.cwd "/top".toList)) 12 Yaml.St.empty = .ok () doc := loads
  simp only [driverless, h5]
  rw [if_neg (by decide), h3]
  simp only [finish, h4]
  rfl

def start : Files.World Unit := world ⟨some 9, none, some 5⟩ []

def steps : List Nat := rep [(2, 0), (9, 1), (3, 2), (7, 3), (4, 2), (4, 4), (2, 5), (2, 6), (5, 5), (5, 6), (7, 4), (7, 2), (12, 1), (3, 0)]

/-- there is a run with status 0 -/
example : ∃ st, FabRun W 12 exHex id own start line 0 doc [5] fabCtx (steps.map .thread) st := by
  obtain ⟨c, hc⟩ := ends (st := Yaml.buildRun exHex id own doc [5] start fabCtx (steps.map .thread)) (by decide +kernel)
  exact ⟨_, ⟨_, _, _, fab_line, rfl, ⟨fun _ => ⟨c, hc⟩, fun _ => rfl⟩⟩, rfl, c, none, hc⟩

/-- `C88_yaml`: every run in which nobody interferes, and that has status 0, makes gen.c and prog from src. -/
example (ts : List Nat) (st : State (Files.World Unit) Ctx) (h : FabRun W 12 exHex id own start line 0 doc [5] fabCtx (ts.map .thread) st) :
    ∃ b, Files.Shows st.world.fs [src] = Yaml.CleanDemo.one src b ∧
      Files.Shows st.world.fs [gen, prog] = fun k c => Yaml.CleanDemo.one gen (b + 1) k c ∨ Yaml.CleanDemo.one prog (b + 2) k c := by
  refine C88_yaml (R := Yaml.TreesDemo.R) (.of_none (by decide)) rfl Yaml.CleanDemo.noCollision (.new fun d => by simp [start, world]) h Yaml.ProjectDemo.written.rules
    Yaml.ProjectDemo.written.names (Yaml.ProjectDemo.behaves (x := ⟨some 9, none, some 5⟩) rfl (noExt ts)) (fun x t ins outs h => ?_) _ _ _ _ Yaml.TreesDemo.is5
  obtain ⟨rfl, rfl, rfl, rfl⟩ := Yaml.TreesDemo.filesOf h
  exact ⟨_, Yaml.TreesDemo.works⟩

end Fab.Driver.FabYamlDemo
