import Verif.Yaml.Success
import Verif.Yaml.CleanDemo
import Verif.Yaml.Project

/-!
# C101 from a clean checkout: commands that need what others make

all.go, seq.go, argtarg.go, files.go:40-195: the makers of the inputs run before the rule.  So a rule need not succeed unless its inputs have been made.
-/

namespace Fab.Yaml
open Path Cmd Files
open Runner (Proc TRef Env Ev State Reach Err Label LEv TSt Job Thread StepC step_cases Runs)

section
variable {ρ : Type}

/-! ## Specification -/

/-- A process, when nobody else changes the files `l`, which are now as in `fs`, and as long as what there is is in order (`I`): it ends with nil, and then the files have the property `good`. -/
def _root_.Fab.Runner.Proc.Delivers (I : World ρ → Prop) (l : List Str) (good : FS → Prop) : P ρ → FS → Prop
  | .ret e, fs => e = none ∧ good fs
  | .act f k, fs => ∀ w, Agree l fs w.fs → I w → (k w).Delivers I l good (f w).fs
  | .call _ _ _, _ => False

/-- Those of the inputs `ins` that Files targets make are what they are meant to be (so are the inputs of those targets). -/
def Supplied (own : Own ρ) (s : St) (J : Nat → Json.J) (R : Meaning) (ins : List Str) (fs : FS) : Prop :=
  ∀ i ∈ ins, ∀ z t' ins' outs', findInFilesRegistry s.filesReg i = some z → s.heap[z]? = some (.files t' ins' outs') → (sitOf own J t' ins' outs' fs).right R

/-- Everything is in order for a build of `os` with context `ctx`, as long as `I` holds:
* `known`: every name that is used stands for a target;
* `keeps`, `note`, `add`: no command, no recording of a hash and so on disturbs `I`;
* `rules`: the rules of the Files targets are commands; each of them succeeds and makes what it should, if it has been supplied with its inputs;
* `others`: the other commands succeed;
* `files`: the Files targets have no trouble. -/
structure InSupply (own : Own ρ) (s : St) (J : Nat → Json.J) (R : Meaning) (os : List Nat) (ctx : Ctx) (I : World ρ → Prop) : Prop where
  known : ¬ UnknownName s os
  keeps : ∀ o ctx, (own.body o ctx).Keeps I
  note : ∀ o w, I w → I { w with rest := own.note o w.rest }
  add : ∀ d h w, I w → I (dbAdd d h w)
  rules : ∀ x t ins outs, FilesOf s os x t ins outs → ¬ Composite s t ∧ ∀ ctx', SameModes ctx' ctx → ∀ fs, Supplied own s J R ins fs →
    (own.body t ctx').Delivers I (ins ++ outs) (fun fs => (sitOf own J t ins outs fs).right R) fs
  others : ∀ c ctx', MayRun s os c → ¬ Composite s c → (∀ x ins outs, ¬ FilesOf s os x c ins outs) → Fine I (own.body c ctx')
  files : ∀ x t ins outs, MayRun s os x → s.heap[x]? = some (.files t ins outs) → ∀ w, I w → ¬ Trouble own s ctx t ins outs w

end

/-! ## Proofs -/

section
variable {ρ : Type} {hex : Bytes → Str} {sum : Str → Str} {own : Own ρ} {s : St} {J : Nat → Json.J} {os : List Nat} {R : Meaning} {T : Sit → Prop} {I : World ρ → Prop}

theorem supply_env (hkeep : ∀ o ctx, (own.body o ctx).Keeps I) (hnote : ∀ o w, I w → I { w with rest := own.note o w.rest }) (hadd : ∀ d h w, I w → I (dbAdd d h w)) :
    (buildEnv hex sum own s).Keeps I := by
  have hseq : ∀ (ts : List TRef) (ctx : Ctx), (Runner.seqBody (σ := World ρ) ts ctx).Keeps I := by
    intro ts ctx
    induction ts with
    | nil => trivial
    | cons t ts ih =>
      intro e
      cases e with
      | some e => trivial
      | none => exact ih
  have hres : ∀ o name w, I w → I (resolveName own s o name w).1 := by
    intro o name w h
    unfold resolveName
    split
    · exact h
    · exact hnote _ _ h
  constructor
  · intro x ctx
    unfold buildEnv
    dsimp only
    split
    · exact fun e => trivial
    · exact hseq _ _
    · exact fun e => trivial
    · exact withReg_keeps (files_keep hadd)
    · refine ⟨fun w h => hres _ _ w h, fun w => ?_⟩
      dsimp only
      split
      · trivial
      · exact fun e => trivial
    · exact hkeep x ctx
  · intro o f hf
    unfold buildEnv at hf
    dsimp only at hf
    split at hf
    · cases hf; exact hres _ _
    · cases hf

theorem delivers_congr {l : List Str} {good : FS → Prop} (hg : ∀ fs fs', Agree l fs fs' → good fs → good fs') {p : P ρ} {fs fs' : FS} (h : Agree l fs fs')
    (hp : p.Delivers I l good fs) : p.Delivers I l good fs' := by
  cases p with
  | ret e => exact ⟨hp.1, hg _ _ h hp.2⟩
  | act f k => exact fun w hw => hp w (h.trans hw)
  | call => exact hp

variable (own s J R os I) in
/-- Where the goroutines of the rules are; and no rule has failed. -/
structure RuleInv (st : State (World ρ) Ctx) : Prop where
  at_ : ∀ x t ins outs, FilesOf s os x t ins outs → ∀ (tid : Nat) (j : Job Ctx) (ts : TSt (World ρ) Ctx), st.th tid = some ⟨some j, ts⟩ → j.tgt = t →
    match ts with
    | .exec p => p.Delivers I (ins ++ outs) (fun fs => (sitOf own J t ins outs fs).right R) st.world.fs
    | .spawning .. => False
    | .joining .. => False
    | _ => True
  nil : ∀ x t ins outs, FilesOf s os x t ins outs → ∀ th key e, (th, Ev.finish key t (some e)) ∉ st.log

/-- When a Files target's makers have succeeded, then it is supplied. -/
theorem supplied_of {w : World ρ} {ctx : Ctx} {st : State (World ρ) Ctx}
    (hr : Reach (buildEnv hex sum own s) w [.call ctx (os.map .ptr) .ret] st) (hb : BuildInv hex sum own s J R T os st) {x t : Nat} {ins outs : List Str}
    (hx : FilesOf s os x t ins outs) (hm : MakersDone s ins st.log) : Supplied own s J R ins st.world.fs := by
  intro i hi z t' ins' outs' hz hz'
  obtain ⟨th, tgt, hfin⟩ := hm i hi z hz
  have hsz : Stands s z z := .inr ⟨fun name h => by (rw [hz'] at h; cases h), rfl⟩
  obtain rfl : tgt = z := (canRun_stands (Runner.finish_tgt hr (o := z) (fun _ h => h) hfin)).uniq hsz
  obtain ⟨⟨o, ho, hso⟩, hx'⟩ := hx
  exact (hb.fin tgt t' ins' outs' ⟨⟨tgt, .dep ho hso (.input hx' hi hz), hsz⟩, hz'⟩ _ _ hfin).2

theorem RuleInv.done {st st' : State (World ρ) Ctx} (ih : RuleInv own s J os R I st) {tid : Nat}
    (hs : Runner.step (buildEnv hex sum own s) st tid = some st') : ∀ x t ins outs, FilesOf s os x t ins outs → ∀ th key raw, (th, Ev.finish key t raw) ∈ st'.log →
      (th, Ev.finish key t raw) ∈ st.log ∨ raw = none ∧ (sitOf own J t ins outs st'.world.fs).right R := by
  obtain ⟨⟨jb, ts⟩, hth, hc⟩ := step_cases hs
  intro x t ins outs hx th key raw hm
  rcases new_finish hc hm with h1 | ⟨rfl, -, h2, j, h3, -, h5⟩
  · exact .inl h1
  · dsimp only at h2 h3; subst h2 h3
    have := ih.at_ _ _ _ _ hx _ _ _ hth h5
    rcases step_fs hc with ⟨f, k, hts, -⟩ | ⟨-, hfs, -⟩
    · cases hts
    · rw [hfs]; exact .inr this

theorem RuleInv.step (hown : ∀ o ctx, NoRun (own.body o ctx)) (hord : Orderly own s J os) {w : World ρ} {ctx : Ctx} {st st' : State (World ρ) Ctx}
    (hr : Reach (buildEnv hex sum own s) w [.call ctx (os.map .ptr) .ret] st)
    (hT : ∀ x t ins outs, FilesOf s os x t ins outs → T (sitOf own J t ins outs st.world.fs)) {tid : Nat} (hcmds : Acting s os own st tid)
    (hi : InSupply own s J R os ctx I) (hI : I st.world)
    (hb : BuildInv hex sum own s J R T os st) (hb' : BuildInv hex sum own s J R T os st') (ih : RuleInv own s J os R I st)
    (hs : Runner.step (buildEnv hex sum own s) st tid = some st') : RuleInv own s J os R I st' := by
  have hgood : ∀ t ins outs fs fs', Agree (ins ++ outs) fs fs' → (sitOf own J t ins outs fs).right R → (sitOf own J t ins outs fs').right R :=
    fun t ins outs fs fs' h => (right_congr h).1
  have hr' : Reach (buildEnv hex sum own s) w [.call ctx (os.map .ptr) .ret] st' := .step (.thread tid) hr hs
  have hdone := ih.done hs
  obtain ⟨⟨jb, ts⟩, hth, hc⟩ := step_cases hs
  obtain ⟨-, hstab⟩ := hb.world hown hord hr hT hcmds hth hc
  constructor
  · intro x t ins outs hx t' j' ts' ht' hj'
    obtain ⟨hpl, hmk⟩ := hi.rules x t ins outs hx
    have ht₀ := ht'
    rcases th_cases hth hc ht' with rfl | hold | hlk
    · obtain ⟨ts₀, h1, -⟩ := Runner.th_persist hth hc hth
      rw [ht'] at h1; cases h1
      have hst := ih.at_ _ _ _ _ hx _ _ _ hth hj'
      cases hc
      all_goals simp only [Runner.th_set hth, Runner.th_set_snoc hth, if_true] at ht'
      case lookupHit => cases ht'; trivial
      case wake => cases ht'; trivial
      case readOut => cases ht'; trivial
      case finish => cases ht'; trivial
      case clientDone => cases ht'; trivial
      case setErrs => cases ht'; trivial
      case setOut => cases ht'; trivial
      case openGate => cases ht'; trivial
      case wgDone => cases ht'; trivial
      case lookupNew j h1 h2 h3 =>
        cases ht'
        cases h2
        have hbody : (buildEnv hex sum own s).body j'.tgt j'.ctx = own.body t j'.ctx := by
          rw [hj']
          unfold buildEnv
          dsimp only
          split
          · rename_i h; exact absurd (.all h) hpl
          · rename_i h; exact absurd (.seq h) hpl
          · rename_i h; exact absurd (.arg h) hpl
          · rename_i h; exact absurd (.files h) hpl
          · rename_i h; exact absurd (.name h) hpl
          · rfl
        have hmd := (hb'.inside hown hord hr' hx ht₀ rfl (hj' ▸ .self)).1
        have hsup := supplied_of hr' hb' hx hmd
        have hmode := same_modes hown hr' (hr'.inv.b.started _ _ _ ht₀ rfl)
        dsimp only at hsup ⊢
        rw [hbody]
        exact hmk _ hmode _ hsup
      case act f k h1 =>
        cases ht'
        dsimp only at h1; subst h1
        exact hst st.world (.refl _ _) hI
      case callNil c k h1 =>
        dsimp only at h1; subst h1; exact hst.elim
      case call c r rs k h1 => dsimp only at h1; subst h1; exact hst.elim
      case loopEnd c n ctx k h1 => dsimp only at h1; subst h1; exact hst.elim
      case refuse c n ctx r rs k e w' h1 h2 => dsimp only at h1; subst h1; exact hst.elim
      case spawn c n ctx o rs k tg w' h1 h2 => dsimp only at h1; subst h1; exact hst.elim
      case ret c k y h1 h2 h3 => dsimp only at h1; subst h1; exact hst.elim
    · have hst := ih.at_ _ _ _ _ hx _ _ _ hold hj'
      cases ts' with
      | exec p =>
        have hp : Part s t j'.tgt := hj' ▸ .self
        have hmd := (hb.inside hown hord hr hx hold rfl hp).1
        rcases hstab _ _ _ _ hx hmd with h1 | ⟨j, h1, h2, h3⟩
        · exact delivers_congr (hgood _ _ _) h1 hst
        · dsimp only at h1; subst h1
          have h4 := part_plain hpl h3
          have key : ∀ (j : Job Ctx) (t₀ : Nat) (ts₀ : TSt (World ρ) Ctx), st.th t₀ = some ⟨some j, ts₀⟩ → j.tgt = t → j.key = t := by
            intro j t₀ ts₀ h5 h6
            rcases kind hown hord hr t₀ h5 with ⟨k1, k2⟩ | ⟨_, _, _, _, -, -, k3⟩
            · exact absurd (h6 ▸ k2) (hord.priv _ _ _ _ _ _ hx .self k1)
            · rw [k3, h6]
          have := same_thread hr hth hold h2 rfl ((key _ _ _ hth h4).trans (key _ _ _ hold hj').symm)
          subst this
          cases (show some _ = some _ from (show st.th tid = _ from hth).symm.trans hold)
          cases hc
          all_goals simp only [Runner.th_set hth, Runner.th_set_snoc hth, if_true] at ht'
          case act f k g2 =>
            dsimp only at g2; cases g2
            simp only [Option.some.injEq, Thread.mk.injEq, TSt.exec.injEq, true_and] at ht'
            rw [← ht']
            exact hst st.world (.refl _ _) hI
          case callNil c k g2 => dsimp only at g2; cases g2; exact hst.elim
          all_goals simp_all
      | _ => exact hst
    · dsimp only at hlk; subst hlk; trivial
  · intro x t ins outs hx th key e hm
    rcases hdone x t ins outs hx th key _ hm with h | ⟨h, -⟩
    · exact ih.nil _ _ _ _ hx _ _ _ h
    · cases h

/-- A rule finishes at most once. -/
theorem finish_new {env : Env (World ρ) Ctx} {w : World ρ} {cl : List (P ρ)} {st st' : State (World ρ) Ctx} (hr' : Reach env w cl st')
    {th key x raw} (hlog : st'.log = st.log ++ [(th, Ev.finish key x raw)]) : ∀ th' x' raw', (th', Ev.finish key x' raw') ∉ st.log := by
  intro th' x' raw' h1
  exact absurd (hr'.inv.b.finOnce key) (by
    rw [hlog, Runner.finN_append, Runner.finN_cons, Runner.finN_nil]
    have : 0 < Runner.finN key st.log := by
      unfold Runner.finN
      rw [List.countP_pos_iff]
      exact ⟨_, h1, by simp [Ev.isFinish]⟩
    simp only [Ev.isFinish, beq_self_eq_true, if_true]
    omega)

theorem supply_all (hno : NoCollision hex sum T) {w : World ρ} {ctx : Ctx} {ls : List (Label (World ρ))} (hf : FairBuild hex sum own s J os T w ctx ls)
    (hw : ∀ d, HonestDB hex sum R T (w.db d)) (hi : InSupply own s J R os ctx I) (hI : I w) (hls : ∀ f, .extern f ∈ ls → ∀ w, I w → I (f w)) :
    ∀ ls₁ ls₂, ls = ls₁ ++ ls₂ → BuildInv hex sum own s J R T os (buildRun hex sum own s os w ctx ls₁) ∧ RuleInv own s J os R I (buildRun hex sum own s os w ctx ls₁) := by
  intro ls₁
  induction ls₁ using List.reverseRecOn with
  | nil =>
    intro _ _
    refine ⟨.start hw, fun x t ins outs _ tid j ts ht => ?_, fun x t ins outs _ th key e h => by simp [buildRun, Runner.runSched, Runner.init] at h⟩
    simp only [buildRun, Runner.runSched, Runner.init, State.th, List.getElem?_map, Option.map_eq_some_iff] at ht
    obtain ⟨p, -, hp⟩ := ht
    cases hp
  | append_singleton ls₁ l ih =>
    intro ls₂ hls₂
    have hls' : ls = ls₁ ++ l :: ls₂ := by rw [hls₂]; simp
    obtain ⟨ihb, ihr⟩ := ih _ hls'
    have hr := buildRun_reach (hex := hex) (sum := sum) (own := own) (s := s) (os := os) (w := w) (ctx := ctx) (ls := ls₁)
    have hr' := buildRun_reach (hex := hex) (sum := sum) (own := own) (s := s) (os := os) (w := w) (ctx := ctx) (ls := ls₁ ++ [l])
    have hb' := BuildInv.snoc hno.tells hf.loose hls' (fun f hm w hh d h hd => hh d h ((hf.outside f hm w).1 d h hd)) (l := l) (ls₁ := ls₁)
      (hrule := by
        intro x t ins outs hx th key hlog
        have hold := finish_new hr' hlog
        rw [buildRun_snoc] at hlog ⊢
        cases l with
        | extern f => have := congrArg List.length hlog; simp [Runner.lstep] at this
        | thread tid =>
          cases hs : Runner.lstep (buildEnv hex sum own s) (buildRun hex sum own s os w ctx ls₁) (.thread tid) with
          | none => rw [hs] at hlog; have := congrArg List.length hlog; simp at this
          | some st' =>
            rw [hs, Option.getD_some] at hlog
            rw [Option.getD_some]
            rcases ihr.done hs x t ins outs hx th key none (by rw [hlog]; simp) with h | h
            · exact absurd h (hold _ _ _)
            · exact h.2) ihb
    refine ⟨hb', ?_⟩
    have hIw : I (buildRun hex sum own s os w ctx ls₁).world :=
      (Runner.kept_from (supply_env hi.keeps hi.note hi.add) (cl := [.call ctx (os.map .ptr) .ret]) (by simp [Proc.Keeps]) ls₁ .init hI fun f hf => hls f (by rw [hls']; simp [hf])).1
    have hT := hf.sits ls₁ _ hls'
    rw [buildRun_snoc] at hb' ⊢
    generalize buildRun hex sum own s os w ctx ls₁ = st at *
    cases l with
    | extern f =>
      have hu := (hf.outside f (by rw [hls']; simp) st.world).2
      refine ⟨fun x t ins outs hx tid j ts ht hj => ?_, ihr.nil⟩
      have := ihr.at_ x t ins outs hx tid j ts ht hj
      cases ts with
      | exec p => exact delivers_congr (fun fs fs' h => (right_congr h).1) (fun i hi => hu x t ins outs hx i hi) this
      | _ => exact this
    | thread tid =>
      cases hs : Runner.lstep (buildEnv hex sum own s) st (.thread tid) with
      | none => exact ihr
      | some st' =>
        rw [hs] at hb'
        exact ihr.step hf.noRun hf.orderly hr hT (.of hf.cmds) hi hIw ihb hb' hs

/-- **C101, from a clean checkout.** A build of `os`, as in C78: the project is orderly, hashes do not collide, the databases are honest at the beginning (for example, empty).  If the names are
known, and each rule succeeds once its inputs have been made, and other commands succeed, and the Files targets have no trouble (`InSupply`), then whenever the build returns, it returns nil;
and then the outputs of all Files targets that it needs are what they are meant to be. -/
theorem C101_clean (hno : NoCollision hex sum T) {w : World ρ} {ctx : Ctx} {ls : List (Label (World ρ))} (hf : FairBuild hex sum own s J os T w ctx ls)
    (hw : ∀ d, HonestDB hex sum R T (w.db d)) (hi : InSupply own s J R os ctx I) (hI : I w) (hls : ∀ f, .extern f ∈ ls → ∀ w, I w → I (f w))
    {n : Nat} {e : Option Err} (hret : (0, Ev.ret n e) ∈ (buildRun hex sum own s os w ctx ls).log) :
    e = none ∧ ∀ x t ins outs, FilesOf s os x t ins outs → (sitOf own J t ins outs (buildRun hex sum own s os w ctx ls).world.fs).right R := by
  obtain ⟨hb, hrule⟩ := supply_all hno hf hw hi hI hls ls [] (by simp)
  have hr := buildRun_reach (hex := hex) (sum := sum) (own := own) (s := s) (os := os) (w := w) (ctx := ctx) (ls := ls)
  obtain ⟨-, new, hnew, hacts⟩ := Runner.kept_from (supply_env (hex := hex) (sum := sum) (s := s) hi.keeps hi.note hi.add) (cl := [.call ctx (os.map .ptr) .ret]) (by simp [Proc.Keeps]) ls .init hI hls
  have hact : ∀ t w', (t, Ev.act w') ∈ (buildRun hex sum own s os w ctx ls).log → I w' := by
    intro t w' hm
    refine hacts t w' ?_
    have : (buildRun hex sum own s os w ctx ls).log = new := hnew
    rw [← this]; exact hm
  have he : e = none := by
    cases e with
    | none => rfl
    | some e =>
      exfalso
      rcases C101_culprit hf.noRun hr hret with h | h
      · exact hi.known h
      · cases h with
        | @command l₁ l₂ th key c e h1 h2 h3 h4 =>
          by_cases hc : ∃ x ins outs, FilesOf s os x c ins outs
          · obtain ⟨x, ins, outs, hx⟩ := hc
            exact hrule.nil _ _ _ _ hx th key e (by rw [h1]; simp)
          · obtain ⟨c', i, ctx', -, hruns⟩ := Runner.finish_path hr h1
            have hbody : (buildEnv hex sum own s).body c ctx' = own.body c ctx' := by
              unfold buildEnv
              dsimp only
              split
              · rename_i h; exact absurd (.all h) h4
              · rename_i h; exact absurd (.seq h) h4
              · rename_i h; exact absurd (.arg h) h4
              · rename_i h; exact absurd (.files h) h4
              · rename_i h; exact absurd (.name h) h4
              · rfl
            rw [hbody] at hruns
            have := fine_runs (hi.others c ctx' h3 h4 fun x ins outs hx => hc ⟨x, ins, outs, hx⟩) hruns
              (fun w' hw' => hact _ _ (by rw [h1]; exact List.mem_append_left _ (Runner.mem_hist_act.1 hw')))
              (fun c e hc => ret_nil hr h1 h2 (Runner.mem_hist_ret.1 hc))
            cases this
        | @files l₁ l₂ th key x e t ins outs w' h1 h2 h3 h4 h5 h6 =>
          exact hi.files x t ins outs h3 h4 w' (hact _ _ (by rw [h1]; exact List.mem_append_left _ h5)) h6
  subst he
  refine ⟨rfl, fun x t ins outs hx => ?_⟩
  obtain ⟨o, ho, hso⟩ := hx.1
  obtain ⟨t', th, h1, h2⟩ := ((C76_build hf.noRun hr).2 n none hret).2 rfl o ho
  cases h1.uniq hso
  exact (hb.fin _ _ _ _ hx _ _ h2).2

/-- **C101, from a clean checkout, the end.** If, moreover, no target uses itself, then nothing keeps the build from succeeding: at every moment, whatever the schedule was before, it cannot go
on for ever, it can go on until it has returned nil, and wherever it cannot go on it has returned nil. -/
theorem C101_clean_ends (hno : NoCollision hex sum T) {w : World ρ} {ctx : Ctx} {ls : List (Label (World ρ))}
    (hf : ∀ ts : List Nat, FairBuild hex sum own s J os T w ctx (ls ++ ts.map .thread))
    (hw : ∀ d, HonestDB hex sum R T (w.db d)) (hi : InSupply own s J R os ctx I) (hI : I w) (hls : ∀ f, .extern f ∈ ls → ∀ w, I w → I (f w))
    (hac : ∀ x, ¬ Relation.TransGen (Uses s) x x) :
    (¬ ∃ (sts : Nat → State (World ρ) Ctx) (t : Nat → Nat), sts 0 = buildRun hex sum own s os w ctx ls ∧ ∀ n, Runner.step (buildEnv hex sum own s) (sts n) (t n) = some (sts (n + 1))) ∧
    (∃ ts : List Nat, ∃ n, (0, Ev.ret n none) ∈ (buildRun hex sum own s os w ctx (ls ++ ts.map .thread)).log) ∧
    ∀ ts : List Nat, (∀ t, Runner.step (buildEnv hex sum own s) (buildRun hex sum own s os w ctx (ls ++ ts.map .thread)) t = none) →
      ∃ n, (0, Ev.ret n none) ∈ (buildRun hex sum own s os w ctx (ls ++ ts.map .thread)).log :=
  ends_nil (hf []).noRun hac fun ts _ _ hret => (C101_clean hno (hf ts) hw hi hI (fun f hm => hls f (by simpa using hm)) hret).1

/-- **C101, YAML projects.** After any number of builds, which may have failed or been interrupted, and any edits of the files (in particular, at the very beginning): if each rule succeeds once
its inputs have been made, and everything else is in order, then a build of registered targets of a YAML project returns nil whenever it returns, and the outputs are what they are meant to be. -/
theorem C101_yaml {L : Lib} (hl : Loaded L s) (hp : Written s os) (hno : NoCollision hex sum T) {w : World ρ} (hw : History hex sum R T w) {ctx : Ctx} {ls : List (Label (World ρ))}
    (hb : Behaves hex sum own s J os T w ctx ls) (hi : InSupply own s J R os ctx I) (hI : I w) (hls : ∀ f, .extern f ∈ ls → ∀ w, I w → I (f w))
    {n : Nat} {e : Option Err} (hret : (0, Ev.ret n e) ∈ (buildRun hex sum own s os w ctx ls).log) :
    e = none ∧ ∀ x t ins outs, FilesOf s os x t ins outs → (sitOf own J t ins outs (buildRun hex sum own s os w ctx ls).world.fs).right R :=
  C101_clean hno (C94_fair hl hp hb) (hw.honest hno) hi hI hls hret

end

/-! ## A concrete case -/

namespace SuppliedDemo
open CleanDemo (own world J R T Dir read read_eq step5 step3 ok5 ok3 file stat_gen stat_src stat_prog filesOf plain3 plain5 fair noExt noCollision shows_one shows_inv one)
open AgainDemo (src gen prog heap4 heap6 ctx)
open BuildDemo (docEnd)

/-- The database works, and the files are gen.c, prog and src, of which src is there. -/
def Fit (w : World Unit) : Prop := w.hasFails = false ∧ w.addFails = false ∧ ∃ g p b, w.fs = (⟨g, p, some b⟩ : Dir).fs

theorem read_dir (g p : Option UInt8) (b : UInt8) : read (⟨g, p, some b⟩ : Dir).fs = some ⟨g, p, some b⟩ := by
  cases g <;> cases p <;> exact if_pos rfl

theorem fit5 {w : World Unit} (hw : Fit w) (v : UInt8 → Option UInt8) : Fit (step5 w v) := by
  obtain ⟨h1, h2, g, p, b, h3⟩ := hw
  unfold step5
  rw [h3, read_dir]
  exact ⟨h1, h2, v b, p, b, rfl⟩

theorem fit3 {w : World Unit} (hw : Fit w) (v : UInt8 → Option UInt8) : Fit (step3 w v) := by
  obtain ⟨h1, h2, g, p, b, h3⟩ := id hw
  unfold step3
  rw [h3, read_dir]
  cases g with
  | none => exact hw
  | some g => exact ⟨h1, h2, some g, v g, b, rfl⟩

theorem files_at {x t : Nat} {ins outs : List Str} (h : docEnd.heap[x]? = some (.files t ins outs)) : x = 4 ∨ x = 6 := by
  have key : ∀ x < 11, (match docEnd.heap[x]? with | some (Obj.files _ _ _) => decide (x = 4 ∨ x = 6) | _ => true) = true := by decide +kernel
  have hlt : x < 11 := by
    have := (List.getElem?_eq_some_iff.1 h).1
    rwa [BuildDemo.doc_objs.1] at this
  have := key x hlt
  rw [h] at this
  exact of_decide_eq_true this

theorem readable {fs : FS} {i n : Str} {o : Option UInt8} (h : fs.stat i = file o n) : CanRead fs i := by
  unfold CanRead
  rw [h]
  cases o with
  | none => trivial
  | some b => rfl

theorem same_gen {fs : FS} {x : Dir} {o : Option UInt8} (h : fs.stat gen = file o "gen.c".toList) (hx : SameFile fs x.fs gen) : x.g = o := by
  have h1 := hx.1
  rw [stat_gen, h] at h1
  cases ho : x.g <;> cases o <;> rw [ho] at h1 <;> simp [file] at h1
  all_goals simp [h1]

/-- The project of `CleanDemo` is in order, as long as src is there: the rule of Prog (3) fails if there is no gen.c, but when it is run gen.c has been made. -/
theorem in_supply {c : Ctx} : InSupply own docEnd J CleanDemo.R [4] c Fit where
  known := fun ⟨o, name, h1, h2, _⟩ => SuccessDemo.names_known h1 h2
  keeps := by
    intro o ctx
    unfold own
    dsimp only
    split
    · exact ⟨fun w h => fit5 h _, fun _ => ⟨fun w h => fit5 h _, fun _ => trivial⟩⟩
    · split
      · exact ⟨fun w h => fit3 h _, fun _ => ⟨fun w h => fit3 h _, fun _ => trivial⟩⟩
      · trivial
  note := fun _ _ h => h
  add := by
    intro d h w hw
    unfold dbAdd
    split
    · exact hw
    · exact hw
  rules := by
    intro x t ins outs hx
    rcases filesOf hx with ⟨rfl, rfl, rfl, rfl⟩ | ⟨rfl, rfl, rfl, rfl⟩
    · refine ⟨plain3, fun ctx' _ fs hsup w hw hI w' hw' hI' => ?_⟩
      have hr := hsup gen (by simp) 6 5 [src] [gen] AgainDemo.maker.1 heap6
      obtain ⟨b, ⟨-, -, ho⟩ | ⟨hj, -, -⟩⟩ := hr
      · have ho : Shows fs [gen] = one gen (b + 1) := ho
        obtain ⟨-, -, g, p, v, h3⟩ := hI
        obtain ⟨-, -, g', p', v', h3'⟩ := hI'
        have hg : g = some (b + 1) := by
          refine shows_inv (o := g) (n := "gen.c".toList) (stat_gen ⟨g, p, some v⟩) ?_
          rw [← ho]
          funext k c
          have := (hw gen (by simp)).2 k c
          rw [h3] at this
          exact propext this
        subst hg
        have e1 : (step3 w fun _ => none).fs = (⟨some (b + 1), none, some v⟩ : Dir).fs := by
          unfold step3
          rw [h3, read_dir]
        have hg' : g' = some (b + 1) := by
          have := hw' gen (by simp)
          rw [e1, h3'] at this
          exact same_gen (stat_gen _) this
        subst hg'
        have e2 : (step3 w' fun b => some (b + 1)).fs = (⟨some (b + 1), some (b + 1 + 1), some v'⟩ : Dir).fs := by
          unfold step3
          rw [h3', read_dir]
        constructor
        · unfold ok3
          rw [h3', read_dir]
        · show (sitOf own J 3 [gen] [prog] (step3 w' fun b => some (b + 1)).fs).right CleanDemo.R
          rw [e2]
          exact ⟨b + 1, .inr ⟨rfl, shows_one (stat_gen _), shows_one (stat_prog _)⟩⟩
      · exact absurd (Json.J.str.inj hj) (by decide)
    · refine ⟨plain5, fun ctx' _ fs hsup w hw hI w' hw' hI' => ?_⟩
      obtain ⟨-, -, g', p', v', h3'⟩ := hI'
      have e2 : (step5 w' fun b => some (b + 1)).fs = (⟨some (v' + 1), p', some v'⟩ : Dir).fs := by
        unfold step5
        rw [h3', read_dir]
      constructor
      · unfold ok5
        rw [h3', read_dir]
      · show (sitOf own J 5 [src] [gen] (step5 w' fun b => some (b + 1)).fs).right CleanDemo.R
        rw [e2]
        exact ⟨v', .inl ⟨rfl, shows_one (stat_src _), shows_one (stat_gen _)⟩⟩
  others := by
    intro c ctx' _ _ hno
    unfold own
    dsimp only
    split
    · rename_i h; subst h; exact absurd CleanDemo.is6 (hno _ _ _)
    · split
      · rename_i h; subst h; exact absurd CleanDemo.is4 (hno _ _ _)
      · rfl
  files := by
    rintro x t ins outs - hx w ⟨h1, h2, g, p, b, h3⟩ ⟨-, -, h4 | h4 | h4 | ⟨i, hi, h4⟩⟩
    · rw [h1] at h4; exact nomatch h4.1
    · rw [h2] at h4; cases h4
    · cases h4
    · apply h4
      rw [h3]
      rcases files_at hx with rfl | rfl
      · rw [heap4] at hx; cases hx
        simp only [List.cons_append, List.nil_append, List.mem_cons, List.not_mem_nil, or_false] at hi
        rcases hi with rfl | rfl
        · exact readable (stat_gen _)
        · exact readable (stat_prog _)
      · rw [heap6] at hx; cases hx
        simp only [List.cons_append, List.nil_append, List.mem_cons, List.not_mem_nil, or_false] at hi
        rcases hi with rfl | rfl
        · exact readable (stat_src _)
        · exact readable (stat_gen _)

/-- From src alone, with an empty database, every build of Prog ends, and returns nil, whatever the schedule. -/
example (b : UInt8) (ts : List Nat) :
    ∃ us : List Nat, ∃ n, (0, Ev.ret n none) ∈ (buildRun exHex id own docEnd [4] (world ⟨none, none, some b⟩ []) ctx (ts.map .thread ++ us.map .thread)).log :=
  (C101_clean_ends (I := Fit) noCollision (fun us => by rw [← List.map_append]; exact fair rfl (noExt _)) (fun d h hm => by simp [world] at hm) in_supply ⟨rfl, rfl, none, none, b, rfl⟩
    (fun f hf => by simp at hf) BuildDemo.doc_acyclic).2.1

/-- In this project the rule of Prog fails if it is run by itself: `InOrder` does not hold, `InSupply` does. -/
example : ¬ Sturdy Fit (own.body 3 ctx) := by
  intro h
  have hw : Fit (world ⟨none, none, some 1⟩ []) := ⟨rfl, rfl, none, none, 1, rfl⟩
  have h1 := ((h _ hw).2 _ hw).2
  have h2 : ok3 (world ⟨none, none, some 1⟩ []) = some (.atom 3) := by
    unfold ok3
    rw [show (world ⟨none, none, some 1⟩ []).fs = (⟨none, none, some 1⟩ : Dir).fs from rfl, read_dir]
  have h3 : ok3 (world ⟨none, none, some 1⟩ []) = none := h1
  rw [h2] at h3
  cases h3

theorem written : Written docEnd [4] where
  registered := by
    intro o ho
    obtain rfl := List.mem_singleton.1 ho
    exact ⟨"Prog".toList, by decide +kernel⟩
  rules := by
    intro x t ins outs c hx hc
    refine ⟨?_, CleanDemo.orderly.parts _ _ _ _ _ hx hc⟩
    have hc' : c = 3 ∨ c = 5 := by
      rcases filesOf hx with ⟨-, rfl, -, -⟩ | ⟨-, rfl, -, -⟩
      · exact .inl (part_plain plain3 hc)
      · exact .inr (part_plain plain5 hc)
    have key : docEnd.hist.all (fun h => decide (h.2.2 ≠ 3 ∧ h.2.2 ≠ 5)) = true := by decide +kernel
    rintro ⟨q, d, h⟩
    have := of_decide_eq_true (List.all_eq_true.1 key _ h)
    rcases hc' with rfl | rfl
    · exact this.1 rfl
    · exact this.2 rfl
  names := by
    intro o name x t ins outs ho h
    rcases AgainDemo.wanted ho with rfl | rfl
    · rw [heap4] at h; cases h
    · rw [heap6] at h; cases h

/-- `C101_yaml`: whatever was built before, and whatever is in gen.c and prog: as long as there is src, a build of Prog that returns returns nil. -/
example {w : World Unit} (hw : History exHex id CleanDemo.R T w) (hI : Fit w) (ts : List Nat) {n : Nat} {e : Option Err}
    (hret : (0, Ev.ret n e) ∈ (buildRun exHex id own docEnd [4] w ctx (ts.map .thread)).log) : e = none := by
  obtain ⟨g, p, b, h⟩ := hI.2.2
  have hf := fair (ctx := ctx) h (noExt ts)
  exact (C101_yaml BuildDemo.doc_loaded written noCollision hw ⟨hf.noRun, fun _ _ _ _ _ _ => rfl, hf.cmds, hf.outside, hf.sits⟩ in_supply hI (fun f hm => by simp at hm) hret).1

end SuppliedDemo
end Fab.Yaml
