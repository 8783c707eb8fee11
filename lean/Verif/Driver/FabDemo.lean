import Verif.Driver.Fab
import Verif.Yaml.CleanDemo

/-!
# C88: a project

The cases that meet the hypotheses of the theorems of C88: `fab Prog` in the project of `Yaml/CleanDemo`, in which Gen makes gen.c from src and Prog makes prog from gen.c.
-/

namespace Fab.Driver.FabDemo
open Path Registry
open Runner (State Reach Ev Err Label)
open Yaml.BuildDemo (docEnd doc lib)
open Yaml.AgainDemo (rep retOf ends src gen prog heap4 heap6 stands maker)
open Files (exHex)
open Yaml.CleanDemo (own world steps killed killed_history killed_fs Dir R T J noCollision fair noExt correct makes filesOf plain3 plain5 R_fun run_fs shows_one stat_src stat_gen wf)

/-- The project, in /top; `b` says whether running targets succeeds. -/
def W (b : Bool) : World where
  cacheDir := some "/cache".toList
  homeDir := none
  cwd := ["top".toList]
  topDir := some "/top".toList
  driver := .noDriver
  lib := fun _ _ => lib doc
  addr := id
  openDB := fun d => if d = "/cache/fab".toList then some 0 else none
  run := fun _ _ _ _ => b

def line : List Str := ["Prog".toList]
def dryLine : List Str := ["-n".toList, "Prog".toList]

def fabCtx : Ctx := withHashDB (driverCtx (defaults "/cache/fab".toList)) 0
def dryCtx : Ctx := withHashDB (driverCtx { defaults "/cache/fab".toList with dryRun := true }) 0

theorem loads : Yaml.load (lib doc) 12 Yaml.St.empty = .ok () docEnd := Yaml.BuildDemo.isOk_eq (by decide +kernel)

theorem fab_line (b : Bool) : fabMain (W b) 12 line = some ([.ran ⟨["top".toList], true⟩ fabCtx docEnd [.plain 4]], if b then 0 else 1) := by
  have h1 : parse fabFlags (defaults "/cache/fab".toList) line = .ok (defaults "/cache/fab".toList, line) := by decide +kernel
  have h2 : (W b).fabDir = some "/cache/fab".toList := by show (W true).fabDir = _; decide +kernel
  rw [(fabMain_eq (W := W b) 12 h2 h1 (.of_none (by decide)) rfl).1 rfl]
  have h3 : (W b).openDB (absOf (W b).cwd (defaults "/cache/fab".toList).fab) = some 0 := by show (W true).openDB (absOf (W true).cwd _) = _; decide +kernel
  have h4 : parseArgs docEnd.reg line = .ok [.plain 4] := by decide +kernel
  have h5 : Yaml.load ((W b).lib false (absOf (W b).cwd "/top".toList)) 12 Yaml.St.empty = .ok () docEnd := loads
  simp only [driverless, h5]
  rw [if_neg (by decide), h3]
  simp only [finish, h4]
  rfl

theorem fab_dry (b : Bool) : fabMain (W b) 12 dryLine = some ([.ran ⟨["top".toList], true⟩ dryCtx docEnd [.plain 4]], if b then 0 else 1) := by
  have h1 : parse fabFlags (defaults "/cache/fab".toList) dryLine = .ok ({ defaults "/cache/fab".toList with dryRun := true }, line) := by decide +kernel
  have h2 : (W b).fabDir = some "/cache/fab".toList := by show (W true).fabDir = _; decide +kernel
  rw [(fabMain_eq (W := W b) 12 h2 h1 (.of_none (by decide)) rfl).1 rfl]
  have h3 : (W b).openDB (absOf (W b).cwd (defaults "/cache/fab".toList).fab) = some 0 := by show (W true).openDB (absOf (W true).cwd _) = _; decide +kernel
  have h4 : parseArgs docEnd.reg line = .ok [.plain 4] := by decide +kernel
  have h5 : Yaml.load ((W b).lib false (absOf (W b).cwd "/top".toList)) 12 Yaml.St.empty = .ok () docEnd := loads
  simp only [driverless, h5]
  rw [if_neg (by decide)]
  rw [h3]
  simp only [finish, h4]
  rfl

theorem fails {ρ : Type} {st : State (Files.World ρ) Ctx} (h : st.log.filterMap (fun e => match e with | (0, .ret _ e) => some e.isNone | _ => none) = [false]) :
    (∃ c e, (0, Ev.ret c (some e)) ∈ st.log) ∧ ∀ c, (0, Ev.ret c none) ∉ st.log := by
  constructor
  · have hb : false ∈ st.log.filterMap (fun e => match e with | (0, .ret _ e) => some e.isNone | _ => none) := by rw [h]; simp
    obtain ⟨⟨t, e⟩, hm, he⟩ := List.mem_filterMap.1 hb
    split at he
    · rename_i c e' heq
      cases heq
      cases e' with
      | none => cases he
      | some e' => exact ⟨c, e', hm⟩
    · cases he
  · intro c hc
    have : true ∈ st.log.filterMap (fun e => match e with | (0, .ret _ e) => some e.isNone | _ => none) := List.mem_filterMap.2 ⟨_, hc, rfl⟩
    rw [h] at this
    simp at this

/-- An execution that has returned nil makes a run of `fab Prog` with status 0. -/
theorem okRun {hex : Bytes → Str} {own : Yaml.Own Unit} {w : Files.World Unit} {ls : List (Label (Files.World Unit))} {c : Nat}
    (h : (0, Ev.ret c none) ∈ (Yaml.buildRun hex id own docEnd [4] w fabCtx ls).log) :
    FabRun (W true) 12 hex id own w line 0 docEnd [4] fabCtx ls (Yaml.buildRun hex id own docEnd [4] w fabCtx ls) :=
  ⟨⟨_, _, _, fab_line true, rfl, ⟨fun _ => ⟨c, h⟩, fun _ => rfl⟩⟩, rfl, c, none, h⟩

theorem badRun {hex : Bytes → Str} {own : Yaml.Own Unit} {w : Files.World Unit} {ls : List (Label (Files.World Unit))} {c : Nat} {e : Err}
    (h : (0, Ev.ret c (some e)) ∈ (Yaml.buildRun hex id own docEnd [4] w fabCtx ls).log) (hno : ∀ c, (0, Ev.ret c none) ∉ (Yaml.buildRun hex id own docEnd [4] w fabCtx ls).log) :
    FabRun (W false) 12 hex id own w line 1 docEnd [4] fabCtx ls (Yaml.buildRun hex id own docEnd [4] w fabCtx ls) :=
  ⟨⟨_, _, _, fab_line false, rfl, ⟨fun h => (nomatch h), fun ⟨c, h⟩ => absurd h (hno c)⟩⟩, rfl, c, some e, h⟩

/-- `C88_right`: the build that is run after one that was killed. -/
example : ∃ ls st, FabRun (W true) 12 exHex id own killed.world line 0 docEnd [4] fabCtx ls st ∧ st.world.fs = (⟨some 8, some 9, some 7⟩ : Dir).fs := by
  obtain ⟨c, hc⟩ := ends (st := Yaml.buildRun exHex id own docEnd [4] killed.world fabCtx (steps.map .thread)) (by decide +kernel)
  refine ⟨_, _, okRun hc, ?_⟩
  obtain ⟨-, b, h1, h2⟩ := (correct killed_history killed_fs (noExt steps)).2 c hc
  cases h1
  exact h2

theorem rules {w : Files.World Unit} {x : Dir} (hx : w.fs = x.fs) {ctx : Ctx} (ts : List Nat) :
    Yaml.RulesWork exHex id own docEnd J [4] R w ctx (ts.map .thread) := by
  refine Yaml.C78_commands (fair (ctx := ctx) hx (noExt ts)).loose fun x t ins outs h => ⟨?_, makes h⟩
  rcases filesOf h with ⟨rfl, rfl, rfl, rfl⟩ | ⟨rfl, rfl, rfl, rfl⟩
  · exact plain3
  · exact plain5

/-- every run of `fab Prog` in which nobody interferes meets the hypotheses -/
example (ts : List Nat) (st : State (Files.World Unit) Ctx) (h : FabRun (W true) 12 exHex id own killed.world line 0 docEnd [4] fabCtx (ts.map .thread) st) :
    ∀ x t ins outs, Yaml.FilesOf docEnd [4] x t ins outs → (Yaml.sitOf own J t ins outs st.world.fs).right R :=
  C88_right noCollision killed_history h (fair killed_fs (noExt ts)) (rules killed_fs ts)

/-- `C88_same_as_clean`: it gives what a build from scratch gives. -/
example (ts ts' : List Nat) (st st' : State (Files.World Unit) Ctx) (h : FabRun (W true) 12 exHex id own killed.world line 0 docEnd [4] fabCtx (ts.map .thread) st)
    (h' : FabRun (W true) 12 exHex id own (world ⟨none, none, some 7⟩ []) line 0 docEnd [4] fabCtx (ts'.map .thread) st') :
    ∀ x t ins outs, Yaml.FilesOf docEnd [4] x t ins outs → ∀ k c, Files.Shows st.world.fs outs k c ↔ Files.Shows st'.world.fs outs k c := by
  have h0 : Yaml.History exHex id R T (world ⟨none, none, some 7⟩ []) := .new fun d => by simp [world]
  obtain ⟨y, hy, hys⟩ := run_fs (ctx := fabCtx) killed_fs (noExt ts)
  obtain ⟨z, hz, hzs⟩ := run_fs (ctx := fabCtx) (w := world ⟨none, none, some 7⟩ []) (x := ⟨none, none, some 7⟩) rfl (noExt ts')
  rw [← h.exec] at hy
  rw [← h'.exec] at hz
  refine C88_same_as_clean noCollision R_fun (.of_none (by decide)) rfl killed_history h (fair killed_fs (noExt ts)) (rules killed_fs ts)
    h0 h' (fair (x := ⟨none, none, some 7⟩) rfl (noExt ts')) (rules (x := ⟨none, none, some 7⟩) rfl ts') (by rw [hy]; exact wf _) (by rw [hz]; exact wf _) ?_ ?_
  · intro x t ins outs hx i hi hm k d
    rcases filesOf hx with ⟨-, -, rfl, -⟩ | ⟨-, -, rfl, -⟩
    · simp only [List.mem_singleton] at hi; subst hi
      rw [maker.1] at hm; cases hm
    · simp only [List.mem_singleton] at hi; subst hi
      rw [hy, hz, shows_one ((stat_src _).trans (by rw [hys])), shows_one ((stat_src _).trans (by rw [hzs]))]
  · intro x t ins outs hx i hi z' t' ins' outs' hm hz'
    rcases filesOf hx with ⟨-, -, rfl, -⟩ | ⟨-, -, rfl, -⟩
    · simp only [List.mem_singleton] at hi; subst hi
      rw [maker.1] at hm; cases hm
      rw [heap6] at hz'; cases hz'
      refine ⟨by simp, ?_⟩
      rw [hy, hz]
      unfold Yaml.IsDir
      rw [stat_gen, stat_gen]
      have : ∀ (o : Option UInt8) n, ¬ ∃ pos r sub, Yaml.CleanDemo.file o n = .found pos (.dir r sub) := by
        rintro (_ | _) n ⟨_, _, _, h⟩ <;> cases h
      exact ⟨fun h => absurd h (this _ _), fun h => absurd h (this _ _)⟩
    · simp only [List.mem_singleton] at hi; subst hi
      rw [maker.2] at hm; cases hm

/-- `C88_status`, `C88_error`: without src the run fails. -/
example : ∃ ls st, FabRun (W false) 12 exHex id own (world ⟨none, none, none⟩ []) line 1 docEnd [4] fabCtx ls st ∧ ∃ c e, (0, Ev.ret c (some e)) ∈ st.log := by
  obtain ⟨⟨c, e, h⟩, hno⟩ := fails (st := Yaml.buildRun exHex id own docEnd [4] (world ⟨none, none, none⟩ []) fabCtx (steps.map .thread)) (by decide +kernel)
  exact ⟨_, _, badRun h hno, c, e, h⟩

example : (∀ o ctx, Yaml.NoRun (own.body o ctx)) ∧ ∀ o ctx, Yaml.PlainErrs (own.body o ctx) := by
  constructor
  · intro o ctx
    simp only [own]
    split
    · exact fun _ _ => trivial
    · split
      · exact fun _ _ => trivial
      · trivial
  · intro o ctx
    simp only [own]
    have hp : ∀ k : Nat, ∀ r t ts x, some (Err.atom k) = some r → ¬ r.Leads (t :: ts) x := by
      intro k r t ts x h1 h2
      cases h1; cases h2
    split
    · intro _ w r t ts x h1 h2
      unfold Yaml.CleanDemo.ok5 at h1
      split at h1
      · cases h1
      · exact hp _ _ _ _ _ h1 h2
    · split
      · intro _ w r t ts x h1 h2
        unfold Yaml.CleanDemo.ok3 at h1
        split at h1
        · cases h1
        · exact hp _ _ _ _ _ h1 h2
      · intro r t ts x h1 _
        cases h1

/-- `C88_dry`: a run with -n. -/
example : ∃ ls st, FabRun (W true) 12 Yaml.AgainDemo.hex id Yaml.DryDemo.own Yaml.DryDemo.first.world dryLine 0 docEnd [4] dryCtx ls st ∧
    (∀ dir set args, (W true).fabDir = some dir → parse fabFlags (defaults dir) dryLine = .ok (set, args) → set.dryRun = true) := by
  obtain ⟨c, hc⟩ := ends (st := Yaml.buildRun Yaml.AgainDemo.hex id Yaml.DryDemo.own docEnd [4] Yaml.DryDemo.first.world dryCtx
    ((rep [(2, 0), (4, 1), (8, 2), (7, 3), (11, 2), (8, 1), (7, 4), (11, 1), (3, 0)]).map .thread)) (by decide +kernel)
  refine ⟨_, _, ⟨⟨_, _, _, fab_dry true, rfl, ⟨fun _ => ⟨c, hc⟩, fun _ => rfl⟩⟩, rfl, c, none, hc⟩, fun dir set args h1 h2 => ?_⟩
  have h3 : (W true).fabDir = some "/cache/fab".toList := by decide +kernel
  rw [h3] at h1; cases h1
  have h4 : parse fabFlags (defaults "/cache/fab".toList) dryLine = .ok ({ defaults "/cache/fab".toList with dryRun := true }, line) := by decide +kernel
  rw [h4] at h2; cases h2
  rfl

section
open Yaml.AgainDemo (fs0 lastSaw made lastSaw_of made_eq own_keeps)

def firstSteps : List Nat := rep [(2, 0), (4, 1), (8, 2), (7, 3), (11, 2), (8, 1), (7, 4), (11, 1), (3, 0)]

/-- `fab Prog`, from scratch -/
def first : State (Files.World Unit) Ctx := Yaml.buildRun Yaml.AgainDemo.hex id Yaml.AgainDemo.own docEnd [4] (Yaml.AgainDemo.world fs0 []) fabCtx (firstSteps.map .thread)

/-- `C88_second`: after that, every run of `fab Prog` in which nobody interferes changes nothing, runs no rule and exits with status 0. -/
example : FabRun (W true) 12 Yaml.AgainDemo.hex id Yaml.AgainDemo.own (Yaml.AgainDemo.world fs0 []) line 0 docEnd [4] fabCtx (firstSteps.map .thread) first ∧
    ∀ b k ls' st', (∀ f, Label.extern f ∉ ls') → FabRun (W b) 12 Yaml.AgainDemo.hex id Yaml.AgainDemo.own first.world line k docEnd [4] fabCtx ls' st' →
      k = 0 ∧ ∀ t c i key x ctx, (t, Ev.start c i key x ctx) ∈ st'.log → Yaml.Composite docEnd x := by
  obtain ⟨c, hret⟩ := ends (st := first) (by decide +kernel)
  have hrun : FabRun (W true) 12 Yaml.AgainDemo.hex id Yaml.AgainDemo.own (Yaml.AgainDemo.world fs0 []) line 0 docEnd [4] fabCtx (firstSteps.map .thread) first := okRun hret
  refine ⟨hrun, fun b k ls' st' hls' h' => ?_⟩
  have h4 : ∀ u ∈ lastSaw 4 first.log, made gen u.fs = true ∧ made prog u.fs = true := by decide +kernel
  have h6 : ∀ u ∈ lastSaw 6 first.log, made src u.fs = true ∧ made gen u.fs = true := by decide +kernel
  have hw : made src first.world.fs = true ∧ made gen first.world.fs = true ∧ made prog first.world.fs = true := by decide +kernel
  have hcomp : ∀ o x, Yaml.Wanted docEnd [4] o → Yaml.Stands docEnd o x → Yaml.Composite docEnd x := by
    intro o x ho hs
    obtain ⟨-, rfl | rfl⟩ := stands ho hs
    · exact .files heap4
    · exact .files heap6
  have hsame : ∀ o x t ins outs, Yaml.Wanted docEnd [4] o → Yaml.Stands docEnd o x → docEnd.heap[x]? = some (.files t ins outs) → ∀ u, Yaml.LastSaw first.log x u →
      (∀ i ∈ ins ++ outs, first.world.fs.stat i = u.fs.stat i) ∧ Yaml.AgainDemo.own.desc t (Yaml.seen docEnd first.world) = Yaml.AgainDemo.own.desc t (Yaml.seen docEnd u) := by
    intro o x t ins outs ho hs hx u hu
    refine ⟨fun i hi => ?_, rfl⟩
    obtain ⟨-, rfl | rfl⟩ := stands ho hs
    · rw [heap4] at hx; cases hx
      have := h4 u (lastSaw_of hu)
      simp only [List.cons_append, List.nil_append, List.mem_cons, List.not_mem_nil, or_false] at hi
      rcases hi with rfl | rfl
      · exact made_eq hw.2.1 this.1
      · exact made_eq hw.2.2 this.2
    · rw [heap6] at hx; cases hx
      have := h6 u (lastSaw_of hu)
      simp only [List.cons_append, List.nil_append, List.mem_cons, List.not_mem_nil, or_false] at hi
      rcases hi with rfl | rfl
      · exact made_eq hw.1 this.1
      · exact made_eq hw.2.1 this.2
  obtain ⟨r1, r2, -⟩ := C88_second (d := 0) (own := Yaml.AgainDemo.own) (st := first) (fun _ _ _ => trivial) own_keeps hcomp (fun _ _ _ _ _ _ => rfl) hrun (by decide) (by decide)
    (by simp) (w' := first.world) (by decide +kernel) (fun _ h => h) hsame h' ⟨by decide, by decide, by decide⟩ (fun f hf => absurd hf (hls' f))
  exact ⟨r1, r2⟩

end

/-- and there is such a second run -/
example : ∃ ls' st', (∀ f, Label.extern f ∉ ls') ∧ FabRun (W true) 12 Yaml.AgainDemo.hex id Yaml.AgainDemo.own first.world line 0 docEnd [4] fabCtx ls' st' := by
  obtain ⟨c, hc⟩ := ends (st := Yaml.buildRun Yaml.AgainDemo.hex id Yaml.AgainDemo.own docEnd [4] first.world fabCtx
    ((rep [(2, 0), (4, 1), (11, 2), (11, 1), (3, 0)]).map .thread)) (by decide +kernel)
  exact ⟨_, _, noExt _, okRun hc⟩

/-- `placed` with options: `fab Prog -x` -/
example : placed docEnd [.withArgs 4 ["-x".toList]] = ({ docEnd with heap := docEnd.heap ++ [.arg 4 ["-x".toList]] }, [docEnd.heap.length]) := rfl

end Fab.Driver.FabDemo
