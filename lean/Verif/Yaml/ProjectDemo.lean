import Verif.Yaml.Project
import Verif.Yaml.PlaceDemo

/-!
# C78 for YAML projects: an example

The project of `PlaceDemo`, with the commands of `TreesDemo`.
-/

namespace Fab.Yaml.ProjectDemo
open Path Cmd Files
open Runner (Ev Label)
open AgainDemo (src gen prog)
open CleanDemo (Dir one)
open TreesDemo (doc own J)

theorem written : Written doc [5] where
  registered := PlaceDemo.registered
  rules := PlaceDemo.inline
  names o name x t ins outs ho h := by
    rw [TreesDemo.wanted ho, TreesDemo.heap5] at h; cases h

theorem behaves {w : World Unit} {x : Dir} (hw : w.fs = x.fs) {ctx : Ctx} {ls : List (Label (World Unit))} (hls : ∀ f, .extern f ∉ ls) :
    Behaves exHex id own doc J [5] CleanDemo.T w ctx ls :=
  have h := TreesDemo.fair (ctx := ctx) hw hls
  ⟨h.noRun, fun _ _ _ _ _ _ => rfl, h.cmds, h.outside, h.sits⟩

/-- `C94_fair` -/
example {w : World Unit} {x : Dir} (hw : w.fs = x.fs) {ctx : Ctx} {ls : List (Label (World Unit))} (hls : ∀ f, .extern f ∉ ls) :
    FairBuild exHex id own doc J [5] CleanDemo.T w ctx ls := C94_fair PlaceDemo.loaded written (behaves hw hls)

/-- `C78_yaml`: after every build that returns nil gen.c is src plus one, and prog is src plus two; `TreesDemo.first` is such a build. -/
example {w : World Unit} (hw : History exHex id TreesDemo.R CleanDemo.T w) {x : Dir} (hx : w.fs = x.fs) {ctx : Ctx} {ls : List (Label (World Unit))}
    (hls : ∀ f, .extern f ∉ ls) {c : Nat} (hret : (0, Ev.ret c none) ∈ (buildRun exHex id own doc [5] w ctx ls).log) :
    ∃ b, Shows (buildRun exHex id own doc [5] w ctx ls).world.fs [src] = one src b ∧
      Shows (buildRun exHex id own doc [5] w ctx ls).world.fs [gen, prog] = fun k c => one gen (b + 1) k c ∨ one prog (b + 2) k c := by
  refine C78_yaml PlaceDemo.loaded written CleanDemo.noCollision hw (behaves hx hls) (fun x t ins outs h => ?_) hret _ _ _ _ TreesDemo.is5
  obtain ⟨rfl, rfl, rfl, rfl⟩ := TreesDemo.filesOf h
  exact ⟨_, TreesDemo.works⟩

end Fab.Yaml.ProjectDemo
