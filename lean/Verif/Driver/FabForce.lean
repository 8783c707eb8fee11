import Verif.Driver.FabYaml
import Verif.Driver.FabDemo
import Verif.Yaml.Forced
import Verif.Yaml.ProjectDemo

/-!
# C98: `fab -f`

C98 for projects that are read from YAML files, and for the command `fab -f`.
-/

namespace Fab.Yaml
open Path Cmd Files
open Runner (Ev Label)

/-! ## Theorems -/

section
variable {ρ : Type} {hex : Bytes → Str} {sum : Str → Str} {own : Own ρ} {L : Lib} {s : St} {J : Nat → Json.J} {os : List Nat} {R : Meaning} {T : Sit → Prop}

/-- **C98, for YAML projects.** As `C78_yaml`, but for a build with Force, or without a hash database, and whatever has happened to files and databases before. -/
theorem C98_yaml (hl : Loaded L s) (hp : Written s os) {w : World ρ} {ctx : Ctx}
    {ls : List (Label (World ρ))} (hb : Behaves hex sum own s J os T w ctx ls)
    (hplan : ∀ x t ins outs, FilesOf s os x t ins outs → ∃ p : Plan, p.Works own s t (ins ++ outs) (fun fs => (sitOf own J t ins outs fs).right R))
    (hc : Always ctx) {c : Nat} (hret : (0, Ev.ret c none) ∈ (buildRun hex sum own s os w ctx ls).log) :
    ∀ x t ins outs, FilesOf s os x t ins outs → (sitOf own J t ins outs (buildRun hex sum own s os w ctx ls).world.fs).right R :=
  fun _ _ _ _ hx => C98_force (C94_fair hl hp hb).loose (rules_work hl.place (hl.place.outer hp.registered) hp.rules hp.names hb hplan) hc hret hx

end

/-- `C98_yaml`: a forced build of the project of `ProjectDemo` that returns nil, whatever the database says, makes gen.c src plus one and prog src plus two. -/
example {w : World Unit} {x : CleanDemo.Dir} (hx : w.fs = x.fs) {ctx : Ctx} (hc : Always ctx) {ls : List (Label (World Unit))}
    (hls : ∀ f, .extern f ∉ ls) {c : Nat} (hret : (0, Ev.ret c none) ∈ (buildRun exHex id TreesDemo.own TreesDemo.doc [5] w ctx ls).log) :
    ∃ b, Shows (buildRun exHex id TreesDemo.own TreesDemo.doc [5] w ctx ls).world.fs [AgainDemo.src] = CleanDemo.one AgainDemo.src b ∧
      Shows (buildRun exHex id TreesDemo.own TreesDemo.doc [5] w ctx ls).world.fs [AgainDemo.gen, AgainDemo.prog] =
        fun k c => CleanDemo.one AgainDemo.gen (b + 1) k c ∨ CleanDemo.one AgainDemo.prog (b + 2) k c := by
  refine C98_yaml PlaceDemo.loaded ProjectDemo.written (ProjectDemo.behaves hx hls) (R := TreesDemo.R) (fun x t ins outs h => ?_) hc hret _ _ _ _ TreesDemo.is5
  obtain ⟨rfl, rfl, rfl, rfl⟩ := TreesDemo.filesOf h
  exact ⟨_, TreesDemo.works⟩

end Fab.Yaml

namespace Fab.Driver
open Path Registry
open Runner (State Ev Label)

/-! ## Theorems -/

section
variable {ρ : Type} {W : World} {n : Nat} {hex : Bytes → Str} {sum : Str → Str} {own : Yaml.Own ρ} {w : Files.World ρ} {argv : List Str} {s : Yaml.St} {os : List Nat} {ctx : Ctx}
  {ls : List (Label (Files.World ρ))} {st : State (Files.World ρ) Ctx} {J : Nat → Json.J} {R : Yaml.Meaning} {T : Yaml.Sit → Prop}

/-- `fab -f` asks the runner to run every rule. -/
theorem FabRun.always {k : Nat} (hd : PlainArgs argv) (h : FabRun W n hex sum own w argv k s os ctx ls st)
    (hforce : ∀ dir set args, W.fabDir = some dir → parse fabFlags (defaults dir) argv = .ok (set, args) → set.force = true) : Yaml.Always ctx := by
  obtain ⟨dir, set, args, top, p, s₀, ts, db, h1, h2, -, -, -, -, -, -, h3⟩ := C88_line hd h
  exact .inl (h3.2.1.trans (hforce dir set args h1 h2))

/-- **C98, the command.** If `fab -f` with some arguments exits with status 0 then the outputs of all Files targets that the arguments need are what they are meant to be, whatever the files
and the hash database were before. -/
theorem C98_fab (hd : PlainArgs argv) (h : FabRun W n hex sum own w argv 0 s os ctx ls st)
    (hforce : ∀ dir set args, W.fabDir = some dir → parse fabFlags (defaults dir) argv = .ok (set, args) → set.force = true)
    (hf : Yaml.FairBuild hex sum own s J os T w ctx ls) (hrule : Yaml.RulesWork hex sum own s J os R w ctx ls) :
    ∀ x t ins outs, Yaml.FilesOf s os x t ins outs → (Yaml.sitOf own J t ins outs st.world.fs).right R := by
  obtain ⟨c, hc⟩ := h.status.1 rfl
  have ha := h.always hd hforce
  have := h.exec
  subst this
  exact fun _ _ _ _ hx => Yaml.C98_force hf.loose hrule ha hc hx

/-- **C98, the command, for a project without a driver.** As `C88_yaml`, without the history. -/
theorem C98_fab_yaml (hd : PlainArgs argv) (hdr : W.driver = .noDriver) (h : FabRun W n hex sum own w argv 0 s os ctx ls st)
    (hforce : ∀ dir set args, W.fabDir = some dir → parse fabFlags (defaults dir) argv = .ok (set, args) → set.force = true)
    (hin : Yaml.RulesInline s os) (hnames : Yaml.FilesUnnamed s os) (hb : Yaml.Behaves hex sum own s J os T w ctx ls)
    (hplan : ∀ x t ins outs, Yaml.FilesOf s os x t ins outs →
      ∃ p : Yaml.Plan, p.Works own s t (ins ++ outs) (fun fs => (Yaml.sitOf own J t ins outs fs).right R)) :
    ∀ x t ins outs, Yaml.FilesOf s os x t ins outs → (Yaml.sitOf own J t ins outs st.world.fs).right R := by
  obtain ⟨dir, set, args, top, p, s₀, ts, db, -, -, -, hr, hn, hp, -⟩ := C88_line hd h
  cases hr with
  | driver h1 => rw [hdr] at h1; cases h1
  | driverless _ hl =>
    obtain ⟨h1, h2⟩ := placed_place (load_loaded hl).place hn
    rw [hp] at h1 h2
    exact C98_fab hd h hforce (Yaml.fair_project h1 h2 hin hnames hb) (Yaml.rules_work h1 h2 hin hnames hb hplan)

end

/-! ## A concrete case -/

namespace FabForceDemo
open Yaml.BuildDemo (docEnd lib)
open Yaml.CleanDemo (own Dir steps fair noExt R J T)
open Yaml.ForcedDemo (spoilt)
open Files (exHex)
open FabDemo (W loads rules)

def forceLine : List Str := ["-f".toList, "Prog".toList]
def forceCtx : Ctx := withHashDB (driverCtx { defaults "/cache/fab".toList with force := true }) 0

theorem set_force : (W true).fabDir = some "/cache/fab".toList ∧
    parse fabFlags (defaults "/cache/fab".toList) forceLine = .ok ({ defaults "/cache/fab".toList with force := true }, ["Prog".toList]) := by decide +kernel

theorem fab_force : fabMain (W true) 12 forceLine = some ([.ran ⟨["top".toList], true⟩ forceCtx docEnd [.plain 4]], 0) := by
  rw [(fabMain_eq (W := W true) 12 set_force.1 set_force.2 (.of_none (by decide)) rfl).1 rfl]
  have h3 : (W true).openDB (absOf (W true).cwd (defaults "/cache/fab".toList).fab) = some 0 := by decide +kernel
  have h4 : parseArgs docEnd.reg ["Prog".toList] = .ok [.plain 4] := by decide +kernel
  have h5 : Yaml.load ((W true).lib false (absOf (W true).cwd "/top".toList)) 12 Yaml.St.empty = .ok () docEnd := loads
  simp only [driverless, h5]
  rw [if_neg (by decide)]
  rw [h3]
  simp only [finish, h4]
  rfl

/-- `C98_fab`: gen.c and prog are wrong, and the database says that they are up to date (see `ForcedDemo`).  Whatever the goroutines do: after `fab -f Prog` with exit status 0 they
are right ... -/
example (ts : List Nat) (st : State (Files.World Unit) Ctx) (h : FabRun (W true) 12 exHex id own spoilt.world forceLine 0 docEnd [4] forceCtx (ts.map .thread) st) :
    ∀ x t ins outs, Yaml.FilesOf docEnd [4] x t ins outs → (Yaml.sitOf own J t ins outs st.world.fs).right R := by
  have hx : Yaml.CleanDemo.isDir spoilt.world.fs ⟨some 9, some 10, some 1⟩ = true := by decide +kernel
  simp only [Yaml.CleanDemo.isDir, decide_eq_true_eq] at hx
  generalize spoilt.world = u at *
  refine C98_fab (.of_none (by decide)) h (fun dir set args h1 h2 => ?_) (fair hx (noExt ts)) (rules hx ts)
  rw [set_force.1] at h1; cases h1
  rw [set_force.2] at h2; cases h2
  rfl

/-- ... and there is such a run. -/
example : ∃ ls st, FabRun (W true) 12 exHex id own spoilt.world forceLine 0 docEnd [4] forceCtx ls st := by
  obtain ⟨c, hc⟩ := Yaml.AgainDemo.ends (st := Yaml.buildRun exHex id own docEnd [4] spoilt.world forceCtx (steps.map .thread)) (by decide +kernel)
  exact ⟨_, _, ⟨_, _, _, fab_force, rfl, ⟨fun _ => ⟨c, hc⟩, fun _ => rfl⟩⟩, rfl, c, none, hc⟩

end FabForceDemo
end Fab.Driver
