import Verif.Yaml.EditedDemo
import Verif.Yaml.Dry

/-!
# C98: `fab -f` repairs everything

C78 says that builds are correct as long as the hash database is honest.  It need not be: see `C92_finding_poisoned`.  A build with Force, or without a hash database, believes nothing:
if it succeeds then all outputs are right, whatever is in the database.
-/

namespace Fab.Yaml
open Path Cmd Files
open Runner (Proc TRef Env Ev State Reach Label TSt Job Thread StepC step_cases allBody seqBody argBody nameBody hist)

section
variable {ρ : Type} {hex : Bytes → Str} {sum : Str → Str} {own : Own ρ} {s : St} {J : Nat → Json.J} {os : List Nat} {R : Meaning} {T : Sit → Prop}

/-! ## Specification -/

/-- The build runs the rule of every Files target that it comes to, up to date or not: `fab -f`, or no hash database. -/
def Always (ctx : Ctx) : Prop := getForce ctx = true ∨ getHashDB ctx = none

/-! ## What a rule has made stays -/

/-- What a rule has made is right, and stays so until the end of the build. -/
theorem rule_right {w : World ρ} {ctx : Ctx} {ls : List (Label (World ρ))} (hf : LooseBuild hex sum own s J os T w ctx ls)
    (hrule : RulesWork hex sum own s J os R w ctx ls) : ∀ ls₁ ls₂, ls = ls₁ ++ ls₂ → ∀ x t ins outs, FilesOf s os x t ins outs → ∀ th key,
    (th, Ev.finish key t none) ∈ (buildRun hex sum own s os w ctx ls₁).log → (sitOf own J t ins outs (buildRun hex sum own s os w ctx ls₁).world.fs).right R := by
  intro ls₁
  induction ls₁ using List.reverseRecOn with
  | nil => intro _ _ x t ins outs _ th key h; simp [buildRun, Runner.runSched, Runner.init] at h
  | append_singleton ls₁ l ih =>
    intro ls₂ hls x t ins outs hx th key hm
    have hls' : ls = ls₁ ++ l :: ls₂ := by rw [hls]; simp
    have ih := ih _ hls' x t ins outs hx th key
    have hnew := hrule ls₁ l ls₂ hls' x t ins outs hx
    have hr := buildRun_reach (hex := hex) (sum := sum) (own := own) (s := s) (os := os) (w := w) (ctx := ctx) (ls := ls₁)
    have hi := buildInv_any hf ls₁ _ hls'
    have hT := hf.sits ls₁ _ hls'
    rw [buildRun_snoc] at hm hnew ⊢
    generalize buildRun hex sum own s os w ctx ls₁ = st at *
    cases l with
    | extern f => exact (right_congr fun i hi => hf.outside f (by rw [hls']; simp) st.world x t ins outs hx i hi).1 (ih hm)
    | thread tid =>
      cases hs : Runner.lstep (buildEnv hex sum own s) st (.thread tid) with
      | none => rw [hs] at hm; exact ih hm
      | some st' =>
        rw [hs, Option.getD_some] at hm hnew
        rw [Option.getD_some]
        obtain ⟨th', hth, hc⟩ := step_cases hs
        rcases new_finish hc hm with hold | ⟨rfl, h1, -⟩
        · obtain ⟨hmk, -⟩ := hi.rule _ _ _ _ hx _ _ hold
          rcases (hi.world hf.noRun hf.orderly hr hT (.of hf.cmds) hth hc).2 x t ins outs hx hmk with h1 | ⟨j, h1, h2, h3⟩
          · exact (right_congr h1).1 (ih hold)
          · obtain ⟨jb, ts⟩ := th'
            dsimp only at h1; subst h1
            exact absurd hold ((hi.inside hf.noRun hf.orderly hr hx hth h2 h3).2.2.1 _ _ _)
        · exact hnew _ _ h1

/-- In a build that believes nothing and succeeds, all rules have been run, successfully. -/
theorem all_rules {w : World ρ} {ctx : Ctx} {ls : List (Label (World ρ))} (hf : LooseBuild hex sum own s J os T w ctx ls) (hc : Always ctx) {c : Nat}
    (hret : (0, Ev.ret c none) ∈ (buildRun hex sum own s os w ctx ls).log) {x t : Nat} {ins outs : List Str} (hx : FilesOf s os x t ins outs) :
    ∃ th, (th, Ev.finish t t none) ∈ (buildRun hex sum own s os w ctx ls).log := by
  have hr := buildRun_reach (hex := hex) (sum := sum) (own := own) (s := s) (os := os) (w := w) (ctx := ctx) (ls := ls)
  obtain ⟨⟨o, ho, hst⟩, hx'⟩ := id hx
  have ha : Asked s os t := by
    have hw : Asked s os o := by
      clear hst
      induction ho with
      | arg h => exact .arg h
      | dep _ h1 h2 ih => exact .dep ih h1 (.needs h2)
    exact .dep hw hst (.files hx')
  obtain ⟨o', th, tgt, h1, h2⟩ := needed_in (K := Always1) (body_passesOn hf.noRun) distinct
    (fun t ctx hk => build_ctxs (K := Always1) (fun _ _ => always_args) hf.noRun t ctx hk) (.inr hc) hr hret (asked_needed ha)
  cases h1
  have := (canRun_stands (Runner.finish_tgt hr (fun _ h => h) h2)).self (hf.orderly.parts _ _ _ _ _ hx .self).1
  subst this
  exact ⟨th, h2⟩

/-! ## Theorems -/

/-- **C98.** A build of `os` with Force, or without a hash database, in any order of the goroutines.  Suppose that the project is orderly, that commands and everything outside fab
change only what they should (`LooseBuild`), and that the rules do what they are meant to do (`RulesWork`).  If the build returns nil then the outputs of all Files targets that it needs
are what they are meant to be, whatever is in the database, and also if hashes collide. -/
theorem C98_force {w : World ρ} {ctx : Ctx} {ls : List (Label (World ρ))} (hf : LooseBuild hex sum own s J os T w ctx ls)
    (hrule : RulesWork hex sum own s J os R w ctx ls) (hc : Always ctx) {c : Nat} (hret : (0, Ev.ret c none) ∈ (buildRun hex sum own s os w ctx ls).log)
    {x t : Nat} {ins outs : List Str} (hx : FilesOf s os x t ins outs) : (sitOf own J t ins outs (buildRun hex sum own s os w ctx ls).world.fs).right R := by
  obtain ⟨th, h⟩ := all_rules hf hc hret hx
  exact rule_right hf hrule ls [] (by simp) x t ins outs hx th t h

/-- **C98, afterwards.** A build with Force and hash database `d` that returns nil leaves everything up to date: if then the inputs and outputs stay the same and nobody removes anything from the
database, `fab` without Force runs no rule and no part of a rule. -/
theorem C98_then {w : World ρ} {ctx : Ctx} {ls : List (Label (World ρ))} {d : Nat} (hf : LooseBuild hex sum own s J os T w ctx ls)
    (hkept : ∀ hsh o ctx, (own.body o ctx).Keeps fun w => hsh ∈ w.db d)
    (hd : getHashDB ctx = some d) (hdry : getDryRun ctx = false) (hkeep : ∀ f, .extern f ∈ ls → ∀ w, ∀ h ∈ w.db d, h ∈ (f w).db d)
    {c : Nat} (hret : (0, Ev.ret c none) ∈ (buildRun hex sum own s os w ctx ls).log)
    {w' : World ρ} (hdb : ∀ h ∈ (buildRun hex sum own s os w ctx ls).world.db d, h ∈ w'.db d)
    (hsame : ∀ x t ins outs, FilesOf s os x t ins outs → ∀ i ∈ ins ++ outs, w'.fs.stat i = (buildRun hex sum own s os w ctx ls).world.fs.stat i)
    {ctx' : Ctx} {ls' : List (Label (World ρ))} {T' : Sit → Prop} (hf' : LooseBuild hex sum own s J os T' w' ctx' ls') (hc' : Usual d ctx')
    (hkeep' : ∀ f, .extern f ∈ ls' → ∀ w, ∀ h ∈ w.db d, h ∈ (f w).db d)
    {x t p : Nat} {ins outs : List Str} (hx : FilesOf s os x t ins outs) (hp : Part s t p) : ¬ Ran p (buildRun hex sum own s os w' ctx' ls').log := by
  intro hran
  have := C93_edited hf hkept hd hdry hkeep hret hdb hf' hc' hkeep' hx hp hran
  clear hran hp hx
  induction this with
  | file h1 h2 h3 => exact h3 (hsame _ _ _ _ h1 _ h2)
  | input _ _ _ _ ih => exact ih

end

/-! ## A concrete case -/

namespace ForcedDemo
open BuildDemo (docEnd)
open AgainDemo (src gen prog startOf retOf rep ctx)
open CleanDemo EditedDemo

/-- While Prog is built somebody writes into gen.c: after its rule has made it, and before its hash is stored. -/
def spoilt : State (World Unit) Ctx := buildRun exHex id own docEnd [4] (world ⟨none, none, some 1⟩ []) ctx
  ((rep [(2, 0), (4, 1), (8, 2), (8, 3)]).map .thread ++ .extern (edit ⟨some 9, none, some 1⟩) :: (rep [(11, 2), (8, 1), (8, 4), (11, 1), (3, 0)]).map .thread)

def forceCtx : Ctx := withForce ctx true

/-- `fab Prog` afterwards, and `fab -f Prog` -/
def plainly : State (World Unit) Ctx := run spoilt.world (rep [(2, 0), (4, 1), (11, 2), (11, 1), (3, 0)])
def forcibly : State (World Unit) Ctx := buildRun exHex id own docEnd [4] spoilt.world forceCtx (steps.map .thread)

/-- What happens: gen.c and prog are wrong, and the database says that they are up to date.  `fab Prog` returns nil and leaves them so.  `fab -f Prog` makes both. -/
theorem C98_example : isDir spoilt.world.fs ⟨some 9, some 10, some 1⟩ = true ∧ retOf spoilt = [true] ∧
    startOf plainly = [4, 6] ∧ retOf plainly = [true] ∧ isDir plainly.world.fs ⟨some 9, some 10, some 1⟩ = true ∧
    startOf forcibly = [4, 6, 5, 3] ∧ retOf forcibly = [true] ∧ isDir forcibly.world.fs ⟨some 2, some 3, some 1⟩ = true := by decide +kernel

/-- `C98_force`: the hypotheses hold for every forced build of Prog, whatever the files and the database are when it begins. -/
theorem forced {w : World Unit} {x : Dir} (hx : w.fs = x.fs) {c : Ctx} (hc : Always c) {ts : List Nat} {n : Nat}
    (hret : (0, Ev.ret n none) ∈ (buildRun exHex id own docEnd [4] w c (ts.map .thread)).log) :
    ∃ b, x.s = some b ∧ (buildRun exHex id own docEnd [4] w c (ts.map .thread)).world.fs = (⟨some (b + 1), some (b + 1 + 1), some b⟩ : Dir).fs := by
  have hf := fair (ctx := c) hx (noExt ts)
  have hrule : RulesWork exHex id own docEnd J [4] CleanDemo.R w c (ts.map .thread) := by
    refine C78_commands hf.loose fun x t ins outs h => ⟨?_, makes h⟩
    rcases filesOf h with ⟨rfl, rfl, rfl, rfl⟩ | ⟨rfl, rfl, rfl, rfl⟩
    · exact plain3
    · exact plain5
  have h4 := C98_force hf.loose hrule hc hret is4
  have h6 := C98_force hf.loose hrule hc hret is6
  obtain ⟨y, hy, hys⟩ := run_fs (ctx := c) hx (noExt ts)
  rw [hy] at h4 h6 ⊢
  have hne : (Json.J.str "gen".toList) ≠ .str "prog".toList := fun h => absurd (Json.J.str.inj h) (by decide)
  obtain ⟨b, ⟨h1, -⟩ | ⟨-, h1, h2⟩⟩ := h4
  · exact absurd h1.symm hne
  obtain ⟨b', ⟨-, h3, h4⟩ | ⟨h3, -⟩⟩ := h6
  · have e1 := shows_inv (stat_gen y) h1
    have e2 := shows_inv (stat_prog y) h2
    have e3 := shows_inv (stat_src y) h3
    have e4 := shows_inv (stat_gen y) h4
    rw [e1] at e4
    refine ⟨b', hys ▸ e3, ?_⟩
    obtain ⟨g, p, s⟩ := y
    simp only [Option.some.injEq] at e1 e2 e3 e4
    rw [e1, e2, e3, e4]
  · exact absurd h3 hne

/-- ... so in whatever order the goroutines act, a forced build after that, if it succeeds, repairs gen.c and prog. -/
example (ts : List Nat) (n : Nat) (hret : (0, Ev.ret n none) ∈ (buildRun exHex id own docEnd [4] spoilt.world forceCtx (ts.map .thread)).log) :
    (buildRun exHex id own docEnd [4] spoilt.world forceCtx (ts.map .thread)).world.fs = (⟨some 2, some 3, some 1⟩ : Dir).fs := by
  have hx : isDir spoilt.world.fs ⟨some 9, some 10, some 1⟩ = true := by decide +kernel
  simp only [isDir, decide_eq_true_eq] at hx
  generalize spoilt.world = u at *
  obtain ⟨b, h1, h2⟩ := forced hx (.inl rfl) hret
  cases h1
  exact h2

/-- `C98_then`: and then `fab Prog` runs no rule, in whatever order. -/
example (ts : List Nat) : ¬ Ran 3 (run forcibly.world ts).log ∧ ¬ Ran 5 (run forcibly.world ts).log := by
  have hx : isDir spoilt.world.fs ⟨some 9, some 10, some 1⟩ = true := by decide +kernel
  have hy : isDir forcibly.world.fs ⟨some 2, some 3, some 1⟩ = true := by decide +kernel
  simp only [isDir, decide_eq_true_eq] at hx hy
  obtain ⟨n, hret⟩ : ∃ n, (0, Ev.ret n none) ∈ forcibly.log := AgainDemo.ends C98_example.2.2.2.2.2.2.1
  have he : forcibly = buildRun exHex id own docEnd [4] spoilt.world forceCtx (steps.map .thread) := rfl
  have key : ∀ {x t ins outs}, FilesOf docEnd [4] x t ins outs → ¬ Ran t (run forcibly.world ts).log := by
    intro x t ins outs h
    generalize hv : forcibly.world = v at *
    rw [he] at hret hv
    generalize spoilt.world = u at *
    exact C98_then (fair hx (noExt _)).loose own_db rfl rfl (keep (noExt _)) hret (fun h hh => by rw [← hv]; exact hh) (fun _ _ _ _ _ _ _ => by rw [hv])
      (fair hy (noExt _)).loose usual (keep (noExt _)) h .self
  exact ⟨key is4, key is6⟩

end ForcedDemo
end Fab.Yaml
