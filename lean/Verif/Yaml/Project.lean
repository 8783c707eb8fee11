import Verif.Yaml.Place
import Verif.Yaml.Clean

/-!
# C78 for projects that are read from YAML files

What C78 asks of a project follows, for the greater part, from how its YAML files are written: the rules of Files targets are written where they are used, and a
Files target with a name is referred to by a name with a directory, or not at all.
-/

namespace Fab.Yaml
open Path Cmd Files
open Runner (Proc TRef Env Ev State Reach Label)

/-! ## Specification -/

/-- No plain name (one without a directory) that is needed for `os` is the name of a Files target. -/
def FilesUnnamed (s : St) (os : List Nat) : Prop :=
  ∀ o name x t ins outs, Wanted s os o → s.heap[o]? = some (.ref name) → (s.reg.target name).1 = some x → s.heap[x]? ≠ some (.files t ins outs)

/-- How a project is written: the targets `os` are registered; rules contain no references; Files targets have no plain names. -/
structure Written (s : St) (os : List Nat) : Prop where
  registered : ∀ o ∈ os, ∃ q, (s.reg.target q).1 = some o
  rules : RulesInline s os
  names : FilesUnnamed s os

/-- What is asked of the commands, and of everything outside fab (see `NearlyFair`): `noRun`, `desc`, `cmds`, `outside` and `sits`. -/
structure Behaves {ρ : Type} (hex : Bytes → Str) (sum : Str → Str) (own : Own ρ) (s : St) (J : Nat → Json.J) (os : List Nat) (T : Sit → Prop) (w : World ρ) (ctx : Ctx)
    (ls : List (Label (World ρ))) : Prop where
  noRun : ∀ o ctx, NoRun (own.body o ctx)
  desc : ∀ x t ins outs, FilesOf s os x t ins outs → ∀ w, own.desc t w = some (J t)
  cmds : ∀ c ctx, MayRun s os c → ¬ Composite s c → (own.body c ctx).Acts (Changes s os c)
  outside : ∀ f, .extern f ∈ ls → ∀ w, Untouched s os w (f w)
  sits : ∀ ls₁ ls₂, ls = ls₁ ++ ls₂ → ∀ x t ins outs, FilesOf s os x t ins outs →
    T (sitOf own J t ins outs (buildRun hex sum own s os w ctx ls₁).world.fs)

/-! ## Theorems -/

section
variable {ρ : Type} {hex : Bytes → Str} {sum : Str → Str} {own : Own ρ} {L : Lib} {s : St} {J : Nat → Json.J} {os : List Nat} {R : Meaning} {T : Sit → Prop}

/-- **C94.** If no plain name is the name of a Files target then each Files target is run under one name only: itself. -/
theorem C94_once (h : FilesUnnamed s os) : NeededOnce s os := by
  intro x t ins outs o o' hx ho ho' hs hs'
  have key : ∀ {o}, Wanted s os o → Stands s o x → o = x := by
    rintro o ho (⟨name, h1, h2⟩ | ⟨-, h1⟩)
    · exact absurd hx.2 (h _ _ _ _ _ _ ho h1 h2)
    · exact h1.symm
  rw [key ho hs, key ho' hs']

theorem fair_project (hl : PlaceInv s) (hos : Outer s os) (hin : RulesInline s os) (hnames : FilesUnnamed s os) {w : World ρ} {ctx : Ctx}
    {ls : List (Label (World ρ))} (hb : Behaves hex sum own s J os T w ctx ls) : FairBuild hex sum own s J os T w ctx ls where
  noRun := hb.noRun
  apart := ⟨fun _ _ _ _ _ hx hc => (hin _ _ _ _ _ hx hc).2, (rules_apart hl hos hin).1, (rules_apart hl hos hin).2, hb.desc⟩
  cmds := hb.cmds
  outside := hb.outside
  sits := hb.sits
  once := C94_once hnames

/-- **C94.** What C78, C88 and C93 ask of a project, for projects that are read from YAML files. -/
theorem C94_fair (hl : Loaded L s) (hp : Written s os) {w : World ρ} {ctx : Ctx} {ls : List (Label (World ρ))} (hb : Behaves hex sum own s J os T w ctx ls) :
    FairBuild hex sum own s J os T w ctx ls := fair_project hl.place (hl.place.outer hp.registered) hp.rules hp.names hb

theorem rules_work (hl : PlaceInv s) (hos : Outer s os) (hin : RulesInline s os) (hnames : FilesUnnamed s os) {w : World ρ}
    {ctx : Ctx} {ls : List (Label (World ρ))} (hb : Behaves hex sum own s J os T w ctx ls)
    (hplan : ∀ x t ins outs, FilesOf s os x t ins outs → ∃ p : Plan, p.Works own s t (ins ++ outs) (fun fs => (sitOf own J t ins outs fs).right R)) :
    RulesWork hex sum own s J os R w ctx ls :=
  C78_trees (fair_project hl hos hin hnames hb).loose fun _ _ _ _ hx => ⟨rule_places hl hin hx, hplan _ _ _ _ hx⟩

/-- **C78, for YAML projects.** After any number of builds, which may have been interrupted, and any edits of the files: when a build of registered
targets of a YAML project returns success then the outputs of every Files target that is needed for these targets are what they are meant to be, for their inputs and rules as
they are now.  The rules may be made of commands with All, Seq and ArgTarget, in any nesting; there must be a plan for each of them (`Plan.Works`). -/
theorem C78_yaml (hl : Loaded L s) (hp : Written s os) (hno : NoCollision hex sum T) {w : World ρ} (hw : History hex sum R T w) {ctx : Ctx}
    {ls : List (Label (World ρ))} (hb : Behaves hex sum own s J os T w ctx ls)
    (hplan : ∀ x t ins outs, FilesOf s os x t ins outs → ∃ p : Plan, p.Works own s t (ins ++ outs) (fun fs => (sitOf own J t ins outs fs).right R))
    {c : Nat} (hret : (0, Ev.ret c none) ∈ (buildRun hex sum own s os w ctx ls).log) :
    ∀ x t ins outs, FilesOf s os x t ins outs → (sitOf own J t ins outs (buildRun hex sum own s os w ctx ls).world.fs).right R :=
  C78_history hno hw (C94_fair hl hp hb) (rules_work hl.place (hl.place.outer hp.registered) hp.rules hp.names hb hplan) hret

end
end Fab.Yaml
