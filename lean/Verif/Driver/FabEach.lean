import Verif.Driver.FabYaml
import Verif.Driver.FabDemo
import Verif.Yaml.Beside
import Verif.Yaml.Together

/-!
# C93, C97, C99: one `fab` command after the other

What `fab` runs again when it is called a second time: after edits (C93), after a command that failed or was interrupted (C97), and after commands for other targets (C99).
-/

namespace Fab.Driver
open Path Registry
open Runner (State Ev Label)

section
variable {ρ : Type} {hex : Bytes → Str} {sum : Str → Str} {own : Yaml.Own ρ} {s : Yaml.St} {J : Nat → Json.J} {us os os' : List Nat}

/-! ## Specification -/

/-- The command line could be parsed, and has neither -f nor -n. -/
def Ordinary (W : World) (argv : List Str) : Prop :=
  PlainArgs argv ∧ ∀ dir set args, W.fabDir = some dir → parse fabFlags (defaults dir) argv = .ok (set, args) → set.force = false ∧ set.dryRun = false

variable (hex sum own s us) in
/-- `fab` has been called some times, with fab's hash database `d`; the files were `w₀` before, and are `w` now.  `os` are the targets named in those of the commands that exited with status 0.
* `ran`: a command comes to its end, with any exit status; nobody else touches the files of the project meanwhile.
* `killed`: a command runs targets, and is interrupted somewhere.
* `time`: nobody changes the files of what has been built. -/
inductive FabEach (d : Nat) (w₀ : Files.World ρ) : List Nat → Files.World ρ → Prop
  | start : FabEach d w₀ [] w₀
  | ran {os os' w W n argv k ctx ls st} : FabEach d w₀ os w → Ordinary W argv → FabRun W n hex sum own w argv k s os' ctx ls st → getHashDB ctx = some d →
      (∀ o ∈ os', o ∈ us) → Yaml.NobodyElse s us d ls → FabEach d w₀ (if k = 0 then os ++ os' else os) st.world
  | killed {os os' w W n argv k p s₀ ts ctx ls} : FabEach d w₀ os w → Ordinary W argv → fabMain W n argv = some ([.ran p ctx s₀ ts], k) → placed s₀ ts = (s, os') →
      getHashDB ctx = some d → (∀ o ∈ os', o ∈ us) → Yaml.NobodyElse s us d ls → FabEach d w₀ os (Yaml.buildRun hex sum own s os' w ctx ls).world
  | time {os w w'} : FabEach d w₀ os w → (∀ h ∈ w.db d, h ∈ w'.db d) →
      (∀ x t ins outs, Yaml.FilesOf s os x t ins outs → ∀ i ∈ ins ++ outs, w'.fs.stat i = w.fs.stat i) → FabEach d w₀ os w'

/-! ## Proofs -/

variable {W : World} {n : Nat} {w : Files.World ρ} {argv : List Str} {k : Nat} {ctx : Ctx} {ls : List (Label (Files.World ρ))} {st : State (Files.World ρ) Ctx}

theorem usual_main {p : Place} {s₀ : Yaml.St} {ts : List PTgt} {d : Nat} (ho : Ordinary W argv) (h : fabMain W n argv = some ([.ran p ctx s₀ ts], k)) (hd : getHashDB ctx = some d) :
    Yaml.Usual d ctx := by
  cases hw : W.fabDir with
  | none => simp only [fabMain, hw, Option.some.injEq, Prod.mk.injEq] at h; cases h.1
  | some dir =>
    cases hp : parse fabFlags (defaults dir) argv with
    | error e => simp only [fabMain, hw, hp, Option.some.injEq, Prod.mk.injEq] at h; cases h.1
    | ok r =>
      obtain ⟨set, args⟩ := r
      cases ht : W.topDir with
      | none =>
        have h0 : set.top = [] := parse_top argv.length argv (Nat.le_refl _) _ _ _ hp
        simp only [fabMain, hw, hp, mainRun, h0, if_true, ht, Option.some.injEq, Prod.mk.injEq] at h
        cases h.1
      | some top =>
        obtain ⟨-, -, -, db, -, -, h1, h2, -⟩ := C71_only_partial hw hp ho.1 ht h
        obtain ⟨h3, h4⟩ := ho.2 dir set args hw hp
        exact ⟨hd, h1.trans h3, h2.trans h4⟩

/-- An ordinary command runs targets without Force and without DryRun, with a hash database. -/
theorem FabRun.usual (ho : Ordinary W argv) (h : FabRun W n hex sum own w argv k s os ctx ls st) : ∃ d, Yaml.Usual d ctx := by
  obtain ⟨dir, set, args, top, p, s₀, ts, db, -, -, -, -, -, -, -, -, -, -, -, h3, -⟩ := C88_line ho.1 h
  obtain ⟨p, s₀, ts, h1, -⟩ := h.main
  exact ⟨db, usual_main ho h1 h3⟩

theorem FabRun.usual' {d : Nat} (ho : Ordinary W argv) (h : FabRun W n hex sum own w argv k s os ctx ls st) (hd : getHashDB ctx = some d) : Yaml.Usual d ctx := by
  obtain ⟨d', h1, h2⟩ := h.usual ho
  exact ⟨hd, h2⟩

/-- Commands that name targets, without a driver: the project is what the YAML files say, whatever the targets are. -/
theorem FabRun.project (hd : PlainArgs argv) (hdr : W.driver = .noDriver) (h : FabRun W n hex sum own w argv k s os ctx ls st)
    (hno : ∀ dir set args, W.fabDir = some dir → parse fabFlags (defaults dir) argv = .ok (set, args) → ¬ OptionForm args) :
    ∃ top, W.topDir = some top ∧ Yaml.load (W.lib false (absOf W.cwd top)) n Yaml.St.empty = .ok () s ∧ Yaml.Loaded (W.lib false (absOf W.cwd top)) s := by
  obtain ⟨dir, set, args, top, p, s₀, ts, db, h1, h2, h3, hr, hn, hp, -⟩ := C88_line hd h
  have : s₀ = s := by
    cases hn with
    | options ho _ => exact absurd ho (hno _ _ _ h1 h2)
    | targets _ _ => rw [placed_plain] at hp; exact (Prod.mk.injEq _ _ _ _ ▸ hp).1
  subst this
  cases hr with
  | driver h1 => rw [hdr] at h1; cases h1
  | driverless _ hl => exact ⟨top, h3, hl, load_loaded hl⟩

theorem FabEach.one {d : Nat} {w₀ : Files.World ρ} (h : FabEach hex sum own s us d w₀ os w) : Yaml.OneByOne hex sum own s us d w₀ os w := by
  induction h with
  | start => exact .start
  | @ran os os' w W n argv k ctx ls st _ ho hf hd hos hn ih =>
    have hu := hf.usual' ho hd
    have hs := hf.status
    have he := hf.exec
    clear hf
    subst he
    split
    · rename_i hk
      obtain ⟨c, hc⟩ := hs.1 hk
      exact .built ih hos hu hn hc
    · exact .stopped ih hos hu hn
  | killed _ ho hm _ hd hos hn ih => exact .stopped ih hos (usual_main ho hm hd) hn
  | time _ h1 h2 ih => exact .time ih h1 h2

/-! ## Theorems -/

/-- **C99, the command.** After any number of `fab` commands, with neither -f nor -n, some of which failed or were interrupted: everything that is needed for the targets of the commands that
exited with status 0 is up to date, and the next `fab` command, with neither -f nor -n, for some of these targets runs none of their rules, nor any part of a rule. -/
theorem C99_fab (hp : Yaml.FairProject own s J us) {d : Nat} (hkept : ∀ hsh o ctx, (own.body o ctx).Keeps fun w => hsh ∈ w.db d) {w₀ : Files.World ρ}
    (h : FabEach hex sum own s us d w₀ os w) :
    Yaml.AllUpToDate hex sum own s d os w ∧
    ∀ (W : World) n argv k os' ctx ls st, Ordinary W argv → FabRun W n hex sum own w argv k s os' ctx ls st → getHashDB ctx = some d → (∀ o ∈ os', o ∈ os) →
      Yaml.NobodyElse s us d ls → ∀ x t ins outs, Yaml.FilesOf s os' x t ins outs → ∀ p, Yaml.Part s t p → ¬ Yaml.Ran p st.log := by
  obtain ⟨h1, h2⟩ := Yaml.C99_one_by_one hp hkept h.one
  refine ⟨h1, fun W n argv k os' ctx ls st ho hf hd hos hn x t ins outs hx p hpart => ?_⟩
  have hu := hf.usual' ho hd
  have he := hf.exec
  clear hf
  subst he
  exact h2 os' ctx ls hos hu hn x t ins outs hx p hpart

/-- **C99, the command, without a driver.** The rules of the Files targets are written where they are used, and no plain name is the name of a Files target. -/
theorem C99_fab_yaml {L : Yaml.Lib} (hl : Yaml.Loaded L s) (hw : Yaml.Written s us) (hown : ∀ o ctx, Yaml.NoRun (own.body o ctx))
    (hdesc : ∀ x t ins outs, Yaml.FilesOf s us x t ins outs → ∀ w, own.desc t w = some (J t))
    (hcmds : ∀ c ctx, Yaml.MayRun s us c → ¬ Yaml.Composite s c → (own.body c ctx).Acts (Yaml.Changes s us c))
    {d : Nat} (hkept : ∀ hsh o ctx, (own.body o ctx).Keeps fun w => hsh ∈ w.db d) {w₀ : Files.World ρ} (h : FabEach hex sum own s us d w₀ os w)
    (ho : Ordinary W argv) (hf : FabRun W n hex sum own w argv k s os' ctx ls st) (hd : getHashDB ctx = some d) (hos : ∀ o ∈ os', o ∈ os) (hn : Yaml.NobodyElse s us d ls) :
    ∀ x t ins outs, Yaml.FilesOf s os' x t ins outs → ∀ p, Yaml.Part s t p → ¬ Yaml.Ran p st.log :=
  (C99_fab ⟨hown, Yaml.C100_yaml hl hw hdesc, hcmds⟩ hkept h).2 W n argv k os' ctx ls st ho hf hd hos hn

/-- **C93, the command.** `fab` exits with status 0; then files are edited; then `fab` is called again, with neither -f nor -n.  The second command runs the rule of a Files target, or a
part of it, only if the target depends on a file that is not as the first command left it. -/
theorem C93_fab {T : Yaml.Sit → Prop} {d : Nat} (h : FabRun W n hex sum own w argv 0 s os ctx ls st) (hf : Yaml.LooseBuild hex sum own s J os T w ctx ls)
    (hkept : ∀ hsh o ctx, (own.body o ctx).Keeps fun w => hsh ∈ w.db d) (hd : getHashDB ctx = some d) (hdry : getDryRun ctx = false)
    (hkeep : ∀ f, .extern f ∈ ls → ∀ w, ∀ h ∈ w.db d, h ∈ (f w).db d)
    -- in between
    {w' : Files.World ρ} (hdb : ∀ h ∈ st.world.db d, h ∈ w'.db d)
    -- the second command
    {W' : World} {n' : Nat} {argv' : List Str} {k' : Nat} {ctx' : Ctx} {ls' : List (Label (Files.World ρ))} {st' : State (Files.World ρ) Ctx} {T' : Yaml.Sit → Prop}
    (ho : Ordinary W' argv') (h' : FabRun W' n' hex sum own w' argv' k' s os ctx' ls' st') (hd' : getHashDB ctx' = some d) (hf' : Yaml.LooseBuild hex sum own s J os T' w' ctx' ls')
    (hkeep' : ∀ f, .extern f ∈ ls' → ∀ w, ∀ h ∈ w.db d, h ∈ (f w).db d)
    {x t p : Nat} {ins outs : List Str} (hx : Yaml.FilesOf s os x t ins outs) (hp : Yaml.Part s t p) (hran : Yaml.Ran p st'.log) :
    Yaml.DependsOn s os (fun i => w'.fs.stat i ≠ st.world.fs.stat i) x := by
  obtain ⟨c, hc⟩ := h.status.1 rfl
  have hu := h'.usual' ho hd'
  have he := h.exec
  have he' := h'.exec
  clear h h'
  subst he he'
  exact Yaml.C93_edited hf hkept hd hdry hkeep hc hdb hf' hu hkeep' hx hp hran

/-- **C97, the command.** A Files target has succeeded in a `fab` command, whatever the exit status was.  After that, commands may fail or be interrupted, and files may be edited that the
target does not depend on.  Then a `fab` command, with neither -f nor -n, that needs the target runs neither its rule nor any part of it. -/
theorem C97_fab {T : Yaml.Sit → Prop} {d : Nat} (h : FabRun W n hex sum own w argv k s os ctx ls st) (hf : Yaml.LooseBuild hex sum own s J os T w ctx ls)
    (hkept : ∀ hsh o ctx, (own.body o ctx).Keeps fun w => hsh ∈ w.db d) (hd : getHashDB ctx = some d) (hdry : getDryRun ctx = false)
    (hkeep : ∀ f, .extern f ∈ ls → ∀ w, ∀ h ∈ w.db d, h ∈ (f w).db d)
    {x t th key : Nat} {ins outs : List Str} (hx : Yaml.FilesOf s os x t ins outs) (hfin : (th, Ev.finish key x none) ∈ st.log)
    -- in between
    {w' : Files.World ρ} (hm : Yaml.Meanwhile hex sum own s J d x st.world w')
    -- the second command
    {W' : World} {n' : Nat} {argv' : List Str} {k' : Nat} {os' : List Nat} {ctx' : Ctx} {ls' : List (Label (Files.World ρ))} {st' : State (Files.World ρ) Ctx} {T' : Yaml.Sit → Prop}
    (ho : Ordinary W' argv') (h' : FabRun W' n' hex sum own w' argv' k' s os' ctx' ls' st') (hd' : getHashDB ctx' = some d)
    (hf' : Yaml.LooseBuild hex sum own s J os' T' w' ctx' ls') (hkeep' : ∀ f, .extern f ∈ ls' → ∀ w, ∀ h ∈ w.db d, h ∈ (f w).db d)
    (hx' : Yaml.FilesOf s os' x t ins outs) {p : Nat} (hp : Yaml.Part s t p) : ¬ Yaml.Ran p st'.log := by
  have hu := h'.usual' ho hd'
  have he := h.exec
  have he' := h'.exec
  clear h h'
  subst he he'
  exact Yaml.C97_not_again hf hkept hd hdry hkeep hx hfin hm hf' hu hkeep' hx' hp

end

/-! ## A concrete case -/

namespace FabEachDemo
open Yaml.BuildDemo (docEnd lib)
open Yaml.AgainDemo (src gen prog rep startOf retOf ends heap6)
open Yaml.CleanDemo (own world J T noExt isDir Dir is4 is6 stat_gen stat_src)
open Yaml.EditedDemo (own_db edit edit_fs edit_db)
open Yaml.BesideDemo (project alone filesOf_more filesOf_all)
open Files (exHex)
open FabDemo (W line fabCtx fab_line loads)

def genLine : List Str := ["Gen".toList]
def bothLine : List Str := ["Gen".toList, "Prog".toList]

theorem fab_gen (b : Bool) : fabMain (W b) 12 genLine = some ([.ran ⟨["top".toList], true⟩ fabCtx docEnd [.plain 6]], if b then 0 else 1) := by
  have h1 : parse fabFlags (defaults "/cache/fab".toList) genLine = .ok (defaults "/cache/fab".toList, genLine) := by decide +kernel
  have h2 : (W b).fabDir = some "/cache/fab".toList := by show (W true).fabDir = _; decide +kernel
  rw [(fabMain_eq (W := W b) 12 h2 h1 (.of_none (by decide)) rfl).1 rfl]
  have h3 : (W b).openDB (absOf (W b).cwd (defaults "/cache/fab".toList).fab) = some 0 := by show (W true).openDB (absOf (W true).cwd _) = _; decide +kernel
  have h4 : parseArgs docEnd.reg genLine = .ok [.plain 6] := by decide +kernel
  have h5 : Yaml.load ((W b).lib false (absOf (W b).cwd "/top".toList)) 12 Yaml.St.empty = .ok () docEnd := loads
  simp only [driverless, h5]
  rw [if_neg (by decide), h3]
  simp only [finish, h4]
  rfl

theorem fab_both (b : Bool) : fabMain (W b) 12 bothLine = some ([.ran ⟨["top".toList], true⟩ fabCtx docEnd [.plain 6, .plain 4]], if b then 0 else 1) := by
  have h1 : parse fabFlags (defaults "/cache/fab".toList) bothLine = .ok (defaults "/cache/fab".toList, bothLine) := by decide +kernel
  have h2 : (W b).fabDir = some "/cache/fab".toList := by show (W true).fabDir = _; decide +kernel
  rw [(fabMain_eq (W := W b) 12 h2 h1 (.of_none (by decide)) rfl).1 rfl]
  have h3 : (W b).openDB (absOf (W b).cwd (defaults "/cache/fab".toList).fab) = some 0 := by show (W true).openDB (absOf (W true).cwd _) = _; decide +kernel
  have h4 : parseArgs docEnd.reg bothLine = .ok [.plain 6, .plain 4] := by decide +kernel
  have h5 : Yaml.load ((W b).lib false (absOf (W b).cwd "/top".toList)) 12 Yaml.St.empty = .ok () docEnd := loads
  simp only [driverless, h5]
  rw [if_neg (by decide), h3]
  simp only [finish, h4]
  rfl

theorem ordinary {argv : List Str} (h : argv = genLine ∨ argv = line ∨ argv = bothLine) (b : Bool) : Ordinary (W b) argv := by
  have hw : (W b).fabDir = some "/cache/fab".toList := by show (W true).fabDir = _; decide +kernel
  have hp : parse fabFlags (defaults "/cache/fab".toList) argv = .ok (defaults "/cache/fab".toList, argv) := by
    rcases h with rfl | rfl | rfl <;> decide +kernel
  refine ⟨.of_none ?_, fun dir set args h1 h2 => ?_⟩
  · rcases h with rfl | rfl | rfl <;> decide
  · rw [hw] at h1; cases h1
    rw [hp] at h2; cases h2
    exact ⟨rfl, rfl⟩

/-- `fab Gen`, then `fab Prog`, which is interrupted before its rule has done anything, then `fab Prog` -/
def first : State (Files.World Unit) Ctx :=
  Yaml.buildRun exHex id own docEnd [6] (world ⟨none, none, some 1⟩ []) fabCtx ((rep [(2, 0), (8, 1), (8, 2), (11, 1), (3, 0)]).map .thread)
def killed : State (Files.World Unit) Ctx := Yaml.buildRun exHex id own docEnd [4] first.world fabCtx ((rep [(2, 0), (4, 1), (11, 2), (8, 1), (3, 3)]).map .thread)
def third : State (Files.World Unit) Ctx :=
  Yaml.buildRun exHex id own docEnd [4] killed.world fabCtx ((rep [(2, 0), (4, 1), (11, 2), (8, 1), (8, 3), (11, 1), (3, 0)]).map .thread)

/-- What happens. -/
theorem happens : startOf first = [6, 5] ∧ retOf first = [true] ∧ startOf killed = [4, 6, 3] ∧ retOf killed = [] ∧ retOf third = [true] := by decide +kernel

theorem first_run : FabRun (W true) 12 exHex id own (world ⟨none, none, some 1⟩ []) genLine 0 docEnd [6] fabCtx ((rep [(2, 0), (8, 1), (8, 2), (11, 1), (3, 0)]).map .thread) first := by
  obtain ⟨c, hc⟩ := ends (st := first) happens.2.1
  exact ⟨⟨_, _, _, fab_gen true, rfl, ⟨fun _ => ⟨c, hc⟩, fun _ => rfl⟩⟩, rfl, c, none, hc⟩

theorem third_run : FabRun (W true) 12 exHex id own killed.world line 0 docEnd [4] fabCtx
    ((rep [(2, 0), (4, 1), (11, 2), (8, 1), (8, 3), (11, 1), (3, 0)]).map .thread) third := by
  obtain ⟨c, hc⟩ := ends (st := third) happens.2.2.2.2
  exact FabDemo.okRun hc

theorem each : FabEach exHex id own docEnd [6, 4] 0 (world ⟨none, none, some 1⟩ []) [6, 4] third.world := by
  have h1 : FabEach exHex id own docEnd [6, 4] 0 (world ⟨none, none, some 1⟩ []) [6] first.world :=
    .ran .start (ordinary (.inl rfl) true) first_run rfl (by simp) alone
  have h2 : FabEach exHex id own docEnd [6, 4] 0 (world ⟨none, none, some 1⟩ []) [6] killed.world := by
    unfold killed
    generalize first.world = u at *
    exact .killed h1 (ordinary (.inr (.inl rfl)) true) (fab_line true) rfl rfl (by simp) alone
  have h3 := third_run
  generalize killed.world = u at *
  generalize third = v at *
  exact .ran h2 (ordinary (.inr (.inl rfl)) true) h3 rfl (by simp) alone

/-- `C99_fab`: after these commands, whatever the goroutines do, `fab Gen Prog` runs no rule ... -/
example (b : Bool) (k : Nat) (ts : List Nat) (st : State (Files.World Unit) Ctx)
    (h : FabRun (W b) 12 exHex id own third.world bothLine k docEnd [6, 4] fabCtx (ts.map .thread) st) : ¬ Yaml.Ran 5 st.log ∧ ¬ Yaml.Ran 3 st.log := by
  have h1 := (C99_fab project own_db each).2 (W b) 12 bothLine k [6, 4] fabCtx (ts.map .thread) st (ordinary (.inr (.inr rfl)) b) h rfl (fun _ h => h) alone
  exact ⟨h1 _ _ _ _ (filesOf_more is6) _ .self, h1 _ _ _ _ (filesOf_more is4) _ .self⟩

/-- ... and there is such a command. -/
example : ∃ (ts : List Nat) (st : State (Files.World Unit) Ctx), FabRun (W true) 12 exHex id own third.world bothLine 0 docEnd [6, 4] fabCtx (ts.map .thread) st := by
  have hr : retOf (Yaml.buildRun exHex id own docEnd [6, 4] third.world fabCtx (((List.replicate 30 [0, 1, 2, 3]).flatten).map .thread)) = [true] := by decide +kernel
  obtain ⟨c, hc⟩ := ends hr
  exact ⟨_, _, ⟨_, _, _, fab_both true, rfl, ⟨fun _ => ⟨c, hc⟩, fun _ => rfl⟩⟩, rfl, c, none, hc⟩

theorem first_done : ∃ th key, (th, Ev.finish key 6 none) ∈ first.log := by
  have h : ∃ e ∈ first.log, (match e with | (_, Ev.finish _ 6 none) => true | _ => false) = true := by decide +kernel
  obtain ⟨⟨t, e⟩, h1, h2⟩ := h
  split at h2
  · rename_i c h3
    exact ⟨_, _, h3 ▸ h1⟩
  · cases h2

/-- `C97_fab`: after `fab Gen` and an interrupted `fab Prog`, no `fab Prog` runs the rule of Gen. -/
example (b : Bool) (k : Nat) (ts : List Nat) (st : State (Files.World Unit) Ctx) (h : FabRun (W b) 12 exHex id own killed.world line k docEnd [4] fabCtx (ts.map .thread) st) :
    ¬ Yaml.Ran 5 st.log := by
  obtain ⟨th, key, hfin⟩ := first_done
  have hf : ∀ {os' : List Nat} {w : Files.World Unit} {ts : List Nat}, (∀ o ∈ os', o ∈ [6, 4]) → Yaml.LooseBuild exHex id own docEnd J os' (fun _ => True) w fabCtx (ts.map .thread) := fun h => project.build h alone
  have h6 : Yaml.FilesOf docEnd [6] 6 5 [src] [gen] := ⟨⟨6, .arg (by simp), .inr ⟨by rw [heap6]; simp, rfl⟩⟩, heap6⟩
  have hkeep : ∀ {ts : List Nat} (f : Files.World Unit → Files.World Unit), Label.extern f ∈ ts.map .thread → ∀ w, ∀ h ∈ w.db 0, h ∈ (f w).db 0 := fun f hf => absurd hf (noExt _ f)
  have hm : Yaml.Meanwhile exHex id own docEnd J 0 6 first.world killed.world := by
    unfold killed
    generalize first.world = u at *
    exact .build .start is6 (hf (by simp)) ⟨rfl, rfl, rfl⟩ hkeep
  have h1 := first_run
  generalize killed.world = u at *
  generalize first = v at *
  exact C97_fab h1 (hf (by simp)) own_db rfl rfl hkeep h6 hfin hm (ordinary (.inr (.inl rfl)) b) h rfl (hf (by simp)) hkeep is6 .self

/-- `C93_fab`: when prog was edited after `fab Gen`, no `fab Gen` runs the rule of Gen. -/
example (b : Bool) (k : Nat) (ts : List Nat) (st : State (Files.World Unit) Ctx)
    (h : FabRun (W b) 12 exHex id own (edit ⟨some 2, some 7, some 1⟩ first.world) genLine k docEnd [6] fabCtx (ts.map .thread) st) : ¬ Yaml.Ran 5 st.log := by
  intro hran
  have hx : isDir first.world.fs ⟨some 2, none, some 1⟩ = true := by decide +kernel
  simp only [isDir, decide_eq_true_eq] at hx
  have hf : ∀ {os' : List Nat} {w : Files.World Unit} {ts : List Nat}, (∀ o ∈ os', o ∈ [6, 4]) → Yaml.LooseBuild exHex id own docEnd J os' (fun _ => True) w fabCtx (ts.map .thread) := fun h => project.build h alone
  have h6 : Yaml.FilesOf docEnd [6] 6 5 [src] [gen] := ⟨⟨6, .arg (by simp), .inr ⟨by rw [heap6]; simp, rfl⟩⟩, heap6⟩
  have hkeep : ∀ {ts : List Nat} (f : Files.World Unit → Files.World Unit), Label.extern f ∈ ts.map .thread → ∀ w, ∀ h ∈ w.db 0, h ∈ (f w).db 0 := fun f hf => absurd hf (noExt _ f)
  have h1 := first_run
  have hfs : (edit ⟨some 2, some 7, some 1⟩ first.world).fs = (⟨some 2, some 7, some 1⟩ : Dir).fs := edit_fs _ _
  have hdb : (edit ⟨some 2, some 7, some 1⟩ first.world).db = first.world.db := edit_db _ _
  generalize edit ⟨some 2, some 7, some 1⟩ first.world = u at *
  generalize first = v at *
  have hd := C93_fab h1 (hf (by simp)) own_db rfl rfl hkeep (fun h hh => by rw [hdb]; exact hh) (ordinary (.inl rfl) b) h rfl (hf (by simp)) hkeep h6 .self hran
  rw [hfs, hx] at hd
  have : ∀ {y}, y = 6 → ¬ Yaml.DependsOn docEnd [6] (fun i => (⟨some 2, some 7, some 1⟩ : Dir).fs.stat i ≠ (⟨some 2, none, some 1⟩ : Dir).fs.stat i) y := by
    intro y hy h
    induction h with
    | file hx hi he =>
      subst hy
      have := hx.2
      rw [heap6] at this; cases this
      simp only [List.cons_append, List.nil_append, List.mem_cons, List.not_mem_nil, or_false] at hi
      rcases hi with rfl | rfl
      · rw [stat_src, stat_src] at he; exact he rfl
      · rw [stat_gen, stat_gen] at he; exact he rfl
    | input hx hi hz _ ih =>
      subst hy
      have := hx.2
      rw [heap6] at this; cases this
      simp only [List.mem_singleton] at hi; subst hi
      rw [Yaml.AgainDemo.maker.2] at hz; cases hz
  exact this rfl hd

end FabEachDemo
end Fab.Driver
