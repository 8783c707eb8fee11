import Verif.Yaml.Supplied
import Verif.Yaml.TreesDemo

/-!
# C101 from a clean checkout, for rules made of All and Seq

all.go, seq.go, argtarg.go, files.go:40-195: a command of a rule need not succeed unless the inputs of the Files target have been made, and the commands before it in the rule have been run.
-/

namespace Fab.Yaml
open Path Cmd Files
open Runner (Proc TRef Env Ev State Reach Err Label LEv TSt Job Thread StepC step_cases Runs)

section
variable {ρ : Type}

/-! ## Specification -/

/-- In a plan (`Plan.Works`) for the rule `t`, the commands succeed: each of them succeeds and does what it is for, as long as `I` holds, if the inputs have been made, and the commands before it
have done what they are for (unless it may have been spoiled by then). -/
def Plan.Succeeds (own : Own ρ) (s : St) (J : Nat → Json.J) (R : Meaning) (ctx : Ctx) (I : World ρ → Prop) (p : Plan) (t : Nat) (ins : List Str) : Prop :=
  ∀ c ctx' fs, Leaf s t c → SameModes ctx' ctx → Supplied own s J R ins fs →
    (∀ c₁, Leaf s t c₁ → Earlier s t c₁ c → (∀ c₂, Leaf s t c₂ → p.spoils c₂ c₁ → c₂ = c ∨ Earlier s t c c₂) → p.post c₁ fs) →
    (own.body c ctx').Delivers I (p.files c) (p.post c) fs

/-- Everything is in order for a build of `os` with context `ctx`, as long as `I` holds; as `InSupply`, but the rules may be made of commands with All, Seq and arguments. -/
structure InSupplyTrees (own : Own ρ) (s : St) (J : Nat → Json.J) (R : Meaning) (os : List Nat) (ctx : Ctx) (I : World ρ → Prop) : Prop where
  known : ¬ UnknownName s os
  keeps : ∀ o ctx, (own.body o ctx).Keeps I
  note : ∀ o w, I w → I { w with rest := own.note o w.rest }
  add : ∀ d h w, I w → I (dbAdd d h w)
  rules : ∀ x t ins outs, FilesOf s os x t ins outs → OnePlace s t ∧
    ∃ p : Plan, p.Works own s t (ins ++ outs) (fun fs => (sitOf own J t ins outs fs).right R) ∧ p.Succeeds own s J R ctx I t ins
  others : ∀ c ctx', MayRun s os c → ¬ Composite s c → (∀ x t ins outs, FilesOf s os x t ins outs → ¬ Part s t c) → Fine I (own.body c ctx')
  files : ∀ x t ins outs, MayRun s os x → s.heap[x]? = some (.files t ins outs) → ∀ w, I w → ¬ Trouble own s ctx t ins outs w

end

/-! ## Proofs -/

section
variable {ρ : Type} {hex : Bytes → Str} {sum : Str → Str} {own : Own ρ} {s : St} {J : Nat → Json.J} {os : List Nat} {R : Meaning} {T : Sit → Prop} {I : World ρ → Prop}

variable (s os I) in
/-- Where the goroutines of the commands of the rules are; and none of these commands has failed.  `F` gives the plan of each rule. -/
structure LeafInv (F : Nat → Plan) (st : State (World ρ) Ctx) : Prop where
  at_ : ∀ x t ins outs, FilesOf s os x t ins outs → ∀ c, Leaf s t c → ∀ (tid : Nat) (j : Job Ctx) (ts : TSt (World ρ) Ctx), st.th tid = some ⟨some j, ts⟩ → j.tgt = c →
    match ts with
    | .exec p => p.Delivers I ((F t).files c) ((F t).post c) st.world.fs
    | .spawning .. => False
    | .joining .. => False
    | _ => True
  nil : ∀ x t ins outs, FilesOf s os x t ins outs → ∀ c, Leaf s t c → ∀ th key e, (th, Ev.finish key c (some e)) ∉ st.log

theorem LeafInv.step {F : Nat → Plan} (hnr : ∀ o ctx, NoRun (own.body o ctx)) (hord : Orderly own s J os) {w : World ρ} {ctx : Ctx} {st st' : State (World ρ) Ctx}
    (hr : Reach (buildEnv hex sum own s) w [.call ctx (os.map .ptr) .ret] st)
    (hT : ∀ x t ins outs, FilesOf s os x t ins outs → T (sitOf own J t ins outs st.world.fs)) {tid : Nat} (hcmds : Acting s os own st tid)
    (hone : ∀ x t ins outs, FilesOf s os x t ins outs → OnePlace s t)
    (hplan : ∀ x t ins outs, FilesOf s os x t ins outs → (F t).Works own s t (ins ++ outs) (fun fs => (sitOf own J t ins outs fs).right R))
    (hsucc : ∀ x t ins outs, FilesOf s os x t ins outs → (F t).Succeeds own s J R ctx I t ins) (hI : I st.world)
    (hb : BuildInv hex sum own s J R T os st) (hb' : BuildInv hex sum own s J R T os st') (ht : TreeInv s os F st) (ih : LeafInv s os I F st)
    (hs : Runner.step (buildEnv hex sum own s) st tid = some st') : LeafInv s os I F st' := by
  have hsubs : ∀ {x t ins outs c} {fs fs' : FS}, FilesOf s os x t ins outs → Leaf s t c → Agree (ins ++ outs) fs fs' → Agree ((F t).files c) fs fs' :=
    fun hx hc h => h.mono fun i hi => (hplan _ _ _ _ hx).sub _ hc i hi
  have hr' : Reach (buildEnv hex sum own s) w [.call ctx (os.map .ptr) .ret] st' := .step (.thread tid) hr hs
  obtain ⟨⟨jb, e₀⟩, hth, hc⟩ := step_cases hs
  obtain ⟨lx, hlx⟩ := Runner.log_mono hc
  have hsub : ∀ e ∈ st.log, e ∈ st'.log := fun e he => by rw [hlx]; exact List.mem_append_left _ he
  obtain ⟨-, hstab⟩ := hb.world hnr hord hr hT hcmds hth hc
  -- nobody but the commands of the rule changes the files
  have stable : ∀ x t ins outs, FilesOf s os x t ins outs → MakersDone s ins st.log →
      Agree (ins ++ outs) st.world.fs st'.world.fs ∨ ∃ j, jb = some j ∧ e₀.inBody = true ∧ Leaf s t j.tgt ∧
        ∀ c, Leaf s t c → j.tgt ≠ c → ¬ Earlier s t j.tgt c → ¬ (F t).spoils j.tgt c → Agree ((F t).files c) st.world.fs st'.world.fs := by
    intro x t ins outs hx hmd
    rcases hstab _ _ _ _ hx hmd with h1 | ⟨j, h1, h2, h3⟩
    · exact .inl h1
    · dsimp only at h1; subst h1
      rcases step_fs hc with ⟨f, k, hk, hw, -⟩ | ⟨-, hfs, -⟩
      · dsimp only at hk; subst hk
        obtain ⟨p, ho, hp⟩ := hr.localInv.pos _ _ _ hth
        cases ho
        have hnc : ¬ Composite s j.tgt := fun hcomp =>
          composite_no_act hcomp (hord.parts _ _ _ _ _ hx h3).1 (hord.parts _ _ _ _ _ hx h3).2 hp
        refine .inr ⟨j, rfl, h2, ⟨h3, hnc⟩, fun c hcl hne hea hsp => ?_⟩
        rw [hw]
        refine act_acts (G := Agree ((F t).files c)) (.refl _) (c := j.tgt) (ctx := j.ctx) (fun _ => ?_) (hord.parts _ _ _ _ _ hx h3).2 hp st.world
        exact (hplan _ _ _ _ hx).keeps c _ _ hcl ⟨h3, hnc⟩ hne hea hsp
      · rw [hfs]; exact .inl (.refl _ _)
  constructor
  · intro x t ins outs hx c hcl t' j' e' ht' hj'
    have hpl := hcl.2
    have hW := hplan _ _ _ _ hx
    -- the goroutine that moves
    have moves : ∀ (j' : Job Ctx) (e' : TSt (World ρ) Ctx), st'.th tid = some ⟨some j', e'⟩ → j'.tgt = c → match e' with
        | .exec p => p.Delivers I ((F t).files c) ((F t).post c) st'.world.fs
        | .spawning .. => False
        | .joining .. => False
        | _ => True := by
      clear ht' hj' hstab stable hs
      clear e' j' t'
      intro j' e' ht' hj'
      have ht₀ := ht'
      obtain ⟨ts₀, h1, -⟩ := Runner.th_persist hth hc hth
      rw [ht'] at h1; cases h1
      have hst := ih.at_ _ _ _ _ hx _ hcl _ _ _ hth hj'
      cases hc
      all_goals simp only [Runner.th_set hth, Runner.th_set_snoc hth, if_true] at ht'
      case lookupHit => cases ht'; trivial
      case wake => cases ht'; trivial
      case readOut => cases ht'; trivial
      case finish => cases ht'; trivial
      case clientDone => cases ht'; trivial
      case setErrs => cases ht'; trivial
      case setOut => cases ht'; trivial
      case openGate => cases ht'; trivial
      case wgDone => cases ht'; trivial
      case lookupNew j h1 h2 h3 =>
        cases ht'
        cases h2
        have hbody : (buildEnv hex sum own s).body j'.tgt j'.ctx = own.body c j'.ctx := by
          rw [hj']
          unfold buildEnv
          dsimp only
          split
          · rename_i h; exact absurd (.all h) hpl
          · rename_i h; exact absurd (.seq h) hpl
          · rename_i h; exact absurd (.arg h) hpl
          · rename_i h; exact absurd (.files h) hpl
          · rename_i h; exact absurd (.name h) hpl
          · rfl
        have hmd := (hb'.inside hnr hord hr' hx ht₀ rfl (hj' ▸ hcl.1)).1
        have hsup := supplied_of hr' hb' hx hmd
        have hmode := same_modes hnr hr' (hr'.inv.b.started _ _ _ ht₀ rfl)
        dsimp only at hsup ⊢
        rw [hbody]
        have hk := part_key hnr hord hr hx hth (by rw [hj']; exact hcl.1)
        have h6 : (tid, Ev.start j'.call j'.idx j'.key j'.tgt j'.ctx) ∈ st.log ++ [(tid, Ev.start j'.call j'.idx j'.key j'.tgt j'.ctx)] := by simp
        have hnew : ∀ th c₀ i₀ key ctx₀, (th, Ev.start c₀ i₀ key c ctx₀) ∉ st.log := by
          intro th c₀ i₀ key ctx₀ h4
          have h5 := start_key hnr hord hr hx h4 hcl.1
          rw [h5, ← hj', ← hk] at h4
          have h7 := Runner.start_key_uniq hr' h6 (hsub _ h4)
          subst h7
          obtain ⟨_, e₁, g1, -, -, -, -, -, g2⟩ := hr.inv.f.startJob _ _ _ _ _ _ h4
          rw [show st.th tid = _ from hth] at g1; cases g1
          simp_all
        refine hsucc _ _ _ _ hx c j'.ctx _ hcl hmode hsup fun c₁ hc₁ he hsp => ?_
        obtain ⟨th, h4⟩ := earlier_done hnr hord hr' hx (hone _ _ _ _ hx) (c' := j'.tgt) (by rw [hj']; exact he) h6
        refine (ht.pause x t ins outs hx c₁ hc₁ ⟨th, by simpa using h4⟩ fun c₂ hc₂ h7 th' c₀ i₀ key ctx₀ h8 => ?_).2
        rcases hsp c₂ hc₂ h7 with rfl | h9
        · exact hnew _ _ _ _ _ h8
        · obtain ⟨th'', h5⟩ := earlier_done hnr hord hr hx (hone _ _ _ _ hx) h9 h8
          obtain ⟨l₁, l₂, hl⟩ := List.append_of_mem h5
          obtain ⟨c₃, i₃, ctx₃, h6⟩ := (hr.evOk _ _ _ hl : Runner.EvOk _ l₁ (th'', Ev.finish c c none))
          exact hnew _ _ _ _ _ (Runner.sub_log hl h6)
      case act f k h1 =>
        cases ht'
        dsimp only at h1; subst h1
        exact hst st.world (.refl _ _) hI
      case callNil c k h1 => dsimp only at h1; subst h1; exact hst.elim
      case call c r rs k h1 => dsimp only at h1; subst h1; exact hst.elim
      case loopEnd c n ctx k h1 => dsimp only at h1; subst h1; exact hst.elim
      case refuse c n ctx r rs k e w' h1 h2 => dsimp only at h1; subst h1; exact hst.elim
      case spawn c n ctx o rs k tg w' h1 h2 => dsimp only at h1; subst h1; exact hst.elim
      case ret c k y h1 h2 h3 => dsimp only at h1; subst h1; exact hst.elim
    rcases th_cases hth hc ht' with h0 | hold | hlk
    · subst h0; exact moves _ _ ht' hj'
    · have hst := ih.at_ _ _ _ _ hx _ hcl _ _ _ hold hj'
      cases e' with
      | exec p =>
        have hp : Part s t j'.tgt := by rw [hj']; exact hcl.1
        have hk' := part_key hnr hord hr hx hold hp
        have hmd := (hb.inside hnr hord hr hx hold rfl hp).1
        rcases stable _ _ _ _ hx hmd with h1 | ⟨j, h1, h2, h3, h4⟩
        · exact delivers_congr (fun _ _ => hW.about _ _ _ hcl) (hsubs hx hcl h1) hst
        · subst h1
          have hk := part_key hnr hord hr hx hth h3.1
          by_cases heq : j.tgt = c
          · cases same_thread hr hth hold h2 rfl (by rw [hk, hk', heq, hj'])
            exact moves _ _ ht' hj'
          · refine delivers_congr (fun _ _ => hW.about _ _ _ hcl) (h4 c hcl heq (fun hea => ?_) fun hsp => ?_) hst
            · have s1 := hr.inv.b.started _ _ _ hold (Runner.TSt.owning_of_inBody rfl)
              rw [hj'] at s1
              obtain ⟨th, h5⟩ := earlier_done hnr hord hr hx (hone _ _ _ _ hx) hea s1
              exact not_finished hr hth h2 (by rw [hk]; exact h5)
            have s1 := hr.inv.b.started _ _ _ hth (Runner.TSt.owning_of_inBody h2)
            obtain ⟨th, h5⟩ := earlier_done hnr hord hr hx (hone _ _ _ _ hx) (hW.later _ _ hcl h3 hsp) s1
            exact not_finished hr hold rfl (by rw [hk', hj']; exact h5)
      | _ => exact hst
    · dsimp only at hlk; subst hlk; trivial
  · intro x t ins outs hx c hcl th key e hm
    rcases new_finish hc hm with h1 | ⟨rfl, -, h2, j, h3, -, h5⟩
    · exact ih.nil _ _ _ _ hx _ hcl _ _ _ h1
    · dsimp only at h2 h3; subst h2 h3
      have := (ih.at_ _ _ _ _ hx _ hcl _ _ _ hth h5).1
      cases this

theorem trees_all (hno : NoCollision hex sum T) {w : World ρ} {ctx : Ctx} {ls : List (Label (World ρ))} (hf : FairBuild hex sum own s J os T w ctx ls)
    (hw : ∀ d, HonestDB hex sum R T (w.db d)) (hi : InSupplyTrees own s J R os ctx I) (hI : I w) (hls : ∀ f, .extern f ∈ ls → ∀ w, I w → I (f w)) :
    BuildInv hex sum own s J R T os (buildRun hex sum own s os w ctx ls) ∧ ∃ F, LeafInv s os I F (buildRun hex sum own s os w ctx ls) := by
  classical
  have hF : ∃ F : Nat → Plan, ∀ x t ins outs, FilesOf s os x t ins outs → (F t).Works own s t (ins ++ outs) (fun fs => (sitOf own J t ins outs fs).right R) ∧
      (F t).Succeeds own s J R ctx I t ins := by
    have : ∀ t, ∃ p : Plan, ∀ x ins outs, FilesOf s os x t ins outs → p.Works own s t (ins ++ outs) (fun fs => (sitOf own J t ins outs fs).right R) ∧
        p.Succeeds own s J R ctx I t ins := by
      intro t
      by_cases h : ∃ x ins outs, FilesOf s os x t ins outs
      · obtain ⟨x, ins, outs, hx⟩ := h
        obtain ⟨-, p, hp⟩ := hi.rules x t ins outs hx
        refine ⟨p, fun x' ins' outs' hx' => ?_⟩
        have := hf.orderly.apart _ _ _ _ _ _ _ _ _ hx hx' .self .self
        subst this
        have h1 := hx.2
        rw [hx'.2] at h1; cases h1
        exact hp
      · exact ⟨⟨fun _ => [], fun _ _ => True, fun _ _ => True⟩, fun x ins outs hx => absurd ⟨x, ins, outs, hx⟩ h⟩
    exact ⟨fun t => (this t).choose, fun x t ins outs hx => (this t).choose_spec x ins outs hx⟩
  obtain ⟨F, hF⟩ := hF
  have hone : ∀ x t ins outs, FilesOf s os x t ins outs → OnePlace s t := fun x t ins outs hx => (hi.rules x t ins outs hx).1
  have hrule : RulesWork hex sum own s J os R w ctx ls := C78_trees hf.loose fun x t ins outs hx =>
    ⟨hone _ _ _ _ hx, F t, (hF _ _ _ _ hx).1⟩
  have hball := BuildInv.all hno hf hrule hw
  refine ⟨hball ls [] (by simp), F, ?_⟩
  have key : ∀ ls₁ ls₂, ls = ls₁ ++ ls₂ → TreeInv s os F (buildRun hex sum own s os w ctx ls₁) ∧ LeafInv s os I F (buildRun hex sum own s os w ctx ls₁) := by
    intro ls₁
    induction ls₁ using List.reverseRecOn with
    | nil =>
      refine fun _ _ => ⟨⟨?_, ?_⟩, ?_, ?_⟩
      · intro x t ins outs _ c _ tid j e ht
        simp only [buildRun, Runner.runSched, Runner.init, State.th, List.getElem?_map, Option.map_eq_some_iff] at ht
        obtain ⟨p, -, hp⟩ := ht
        cases hp
      · rintro x t ins outs _ c _ ⟨th, h⟩
        simp [buildRun, Runner.runSched, Runner.init] at h
      · intro x t ins outs _ c _ tid j e ht
        simp only [buildRun, Runner.runSched, Runner.init, State.th, List.getElem?_map, Option.map_eq_some_iff] at ht
        obtain ⟨p, -, hp⟩ := ht
        cases hp
      · intro x t ins outs _ c _ th key e h
        simp [buildRun, Runner.runSched, Runner.init] at h
    | append_singleton ls₁ l ih =>
      intro ls₂ hls₂
      have hls' : ls = ls₁ ++ l :: ls₂ := by rw [hls₂]; simp
      obtain ⟨iht, ihl⟩ := ih _ hls'
      refine ⟨(iht.snoc hf.loose hls' hone (fun _ _ _ _ hx => (hF _ _ _ _ hx).1) (buildInv_any hf.loose ls₁ _ hls')).1, ?_⟩
      have hr := buildRun_reach (hex := hex) (sum := sum) (own := own) (s := s) (os := os) (w := w) (ctx := ctx) (ls := ls₁)
      have hIw : I (buildRun hex sum own s os w ctx ls₁).world :=
        (Runner.kept_from (supply_env hi.keeps hi.note hi.add) (cl := [.call ctx (os.map .ptr) .ret]) (by simp [Proc.Keeps]) ls₁ .init hI fun f hf => hls f (by rw [hls']; simp [hf])).1
      have hT := hf.sits ls₁ _ hls'
      have hb := hball ls₁ _ hls'
      have hb' := hball (ls₁ ++ [l]) ls₂ hls₂
      rw [buildRun_snoc] at hb' ⊢
      generalize buildRun hex sum own s os w ctx ls₁ = st at *
      cases l with
      | extern f =>
        have hu := (hf.outside f (by rw [hls']; simp) st.world).2
        refine ⟨fun x t ins outs hx c hc tid j ts ht hj => ?_, ihl.nil⟩
        have := ihl.at_ x t ins outs hx c hc tid j ts ht hj
        cases ts with
        | exec p =>
          exact delivers_congr (fun _ _ => (hF _ _ _ _ hx).1.about _ _ _ hc) (fun i hi => hu x t ins outs hx i ((hF _ _ _ _ hx).1.sub _ hc i hi)) this
        | _ => exact this
      | thread tid =>
        cases hs : Runner.lstep (buildEnv hex sum own s) st (.thread tid) with
        | none => exact ihl
        | some st' =>
          rw [hs] at hb'
          exact ihl.step hf.noRun hf.orderly hr hT (.of hf.cmds) hone (fun _ _ _ _ hx => (hF _ _ _ _ hx).1) (fun _ _ _ _ hx => (hF _ _ _ _ hx).2) hIw hb hb' iht hs
  exact (key ls [] (by simp)).2

/-- **C101, from a clean checkout, rules of any shape.** As `C101_clean`, for rules that are made of commands with All, Seq and arguments: each command succeeds once the inputs of the Files target
have been made and the commands before it have been run (`InSupplyTrees`).  Then whenever the build returns, it returns nil; and then the outputs of all Files targets that it needs are what they
are meant to be. -/
theorem C101_trees (hno : NoCollision hex sum T) {w : World ρ} {ctx : Ctx} {ls : List (Label (World ρ))} (hf : FairBuild hex sum own s J os T w ctx ls)
    (hw : ∀ d, HonestDB hex sum R T (w.db d)) (hi : InSupplyTrees own s J R os ctx I) (hI : I w) (hls : ∀ f, .extern f ∈ ls → ∀ w, I w → I (f w))
    {n : Nat} {e : Option Err} (hret : (0, Ev.ret n e) ∈ (buildRun hex sum own s os w ctx ls).log) :
    e = none ∧ ∀ x t ins outs, FilesOf s os x t ins outs → (sitOf own J t ins outs (buildRun hex sum own s os w ctx ls).world.fs).right R := by
  obtain ⟨hb, F, hleaf⟩ := trees_all hno hf hw hi hI hls
  have hr := buildRun_reach (hex := hex) (sum := sum) (own := own) (s := s) (os := os) (w := w) (ctx := ctx) (ls := ls)
  obtain ⟨-, new, hnew, hacts⟩ := Runner.kept_from (supply_env (hex := hex) (sum := sum) (s := s) hi.keeps hi.note hi.add) (cl := [.call ctx (os.map .ptr) .ret]) (by simp [Proc.Keeps]) ls .init hI hls
  have hact : ∀ t w', (t, Ev.act w') ∈ (buildRun hex sum own s os w ctx ls).log → I w' := by
    intro t w' hm
    refine hacts t w' ?_
    have : (buildRun hex sum own s os w ctx ls).log = new := hnew
    rw [← this]; exact hm
  have he : e = none := by
    cases e with
    | none => rfl
    | some e =>
      exfalso
      rcases C101_culprit hf.noRun hr hret with h | h
      · exact hi.known h
      · cases h with
        | @command l₁ l₂ th key c e h1 h2 h3 h4 =>
          by_cases hc : ∃ x t ins outs, FilesOf s os x t ins outs ∧ Part s t c
          · obtain ⟨x, t, ins, outs, hx, hp⟩ := hc
            exact hleaf.nil _ _ _ _ hx c ⟨hp, h4⟩ th key e (by rw [h1]; simp)
          · obtain ⟨c', i, ctx', -, hruns⟩ := Runner.finish_path hr h1
            have hbody : (buildEnv hex sum own s).body c ctx' = own.body c ctx' := by
              unfold buildEnv
              dsimp only
              split
              · rename_i h; exact absurd (.all h) h4
              · rename_i h; exact absurd (.seq h) h4
              · rename_i h; exact absurd (.arg h) h4
              · rename_i h; exact absurd (.files h) h4
              · rename_i h; exact absurd (.name h) h4
              · rfl
            rw [hbody] at hruns
            have := fine_runs (hi.others c ctx' h3 h4 fun x t ins outs hx hp => hc ⟨x, t, ins, outs, hx, hp⟩) hruns
              (fun w' hw' => hact _ _ (by rw [h1]; exact List.mem_append_left _ (Runner.mem_hist_act.1 hw')))
              (fun c e hc => ret_nil hr h1 h2 (Runner.mem_hist_ret.1 hc))
            cases this
        | @files l₁ l₂ th key x e t ins outs w' h1 h2 h3 h4 h5 h6 =>
          exact hi.files x t ins outs h3 h4 w' (hact _ _ (by rw [h1]; exact List.mem_append_left _ h5)) h6
  subst he
  refine ⟨rfl, fun x t ins outs hx => ?_⟩
  obtain ⟨o, ho, hso⟩ := hx.1
  obtain ⟨t', th, h1, h2⟩ := ((C76_build hf.noRun hr).2 n none hret).2 rfl o ho
  cases h1.uniq hso
  exact (hb.fin _ _ _ _ hx _ _ h2).2

/-- **C101, from a clean checkout, rules of any shape, the end.** If, moreover, no target uses itself, then nothing keeps the build from succeeding (as `C101_clean_ends`). -/
theorem C101_trees_ends (hno : NoCollision hex sum T) {w : World ρ} {ctx : Ctx} {ls : List (Label (World ρ))}
    (hf : ∀ ts : List Nat, FairBuild hex sum own s J os T w ctx (ls ++ ts.map .thread))
    (hw : ∀ d, HonestDB hex sum R T (w.db d)) (hi : InSupplyTrees own s J R os ctx I) (hI : I w) (hls : ∀ f, .extern f ∈ ls → ∀ w, I w → I (f w))
    (hac : ∀ x, ¬ Relation.TransGen (Uses s) x x) :
    (¬ ∃ (sts : Nat → State (World ρ) Ctx) (t : Nat → Nat), sts 0 = buildRun hex sum own s os w ctx ls ∧ ∀ n, Runner.step (buildEnv hex sum own s) (sts n) (t n) = some (sts (n + 1))) ∧
    (∃ ts : List Nat, ∃ n, (0, Ev.ret n none) ∈ (buildRun hex sum own s os w ctx (ls ++ ts.map .thread)).log) ∧
    ∀ ts : List Nat, (∀ t, Runner.step (buildEnv hex sum own s) (buildRun hex sum own s os w ctx (ls ++ ts.map .thread)) t = none) →
      ∃ n, (0, Ev.ret n none) ∈ (buildRun hex sum own s os w ctx (ls ++ ts.map .thread)).log :=
  ends_nil (hf []).noRun hac fun ts _ _ hret => (C101_trees hno (hf ts) hw hi hI (fun f hm => hls f (by simpa using hm)) hret).1

/-- **C101, YAML projects, rules of any shape.** As `C101_yaml`, for rules that are made of commands with All, Seq and arguments. -/
theorem C101_yaml_trees {L : Lib} (hl : Loaded L s) (hp : Written s os) (hno : NoCollision hex sum T) {w : World ρ} (hw : History hex sum R T w) {ctx : Ctx} {ls : List (Label (World ρ))}
    (hb : Behaves hex sum own s J os T w ctx ls) (hi : InSupplyTrees own s J R os ctx I) (hI : I w) (hls : ∀ f, .extern f ∈ ls → ∀ w, I w → I (f w))
    {n : Nat} {e : Option Err} (hret : (0, Ev.ret n e) ∈ (buildRun hex sum own s os w ctx ls).log) :
    e = none ∧ ∀ x t ins outs, FilesOf s os x t ins outs → (sitOf own J t ins outs (buildRun hex sum own s os w ctx ls).world.fs).right R :=
  C101_trees hno (C94_fair hl hp hb) (hw.honest hno) hi hI hls hret

/-- A rule that is a single command: the plan is to do what the rule is meant to do. -/
theorem InSupply.trees {ctx : Ctx} (hi : InSupply own s J R os ctx I)
    (hcmd : ∀ x t ins outs, FilesOf s os x t ins outs → ∀ ctx fs, (own.body t ctx).Makes (ins ++ outs) (fun fs => (sitOf own J t ins outs fs).right R) fs) :
    InSupplyTrees own s J R os ctx I where
  known := hi.known
  keeps := hi.keeps
  note := hi.note
  add := hi.add
  rules := by
    intro x t ins outs hx
    obtain ⟨hpl, hmk⟩ := hi.rules x t ins outs hx
    have hself : ∀ {c}, Part s t c → c = t := fun h => part_plain hpl h
    refine ⟨⟨?_, ?_, ?_⟩, ⟨fun _ => ins ++ outs, fun _ fs => (sitOf own J t ins outs fs).right R, fun _ _ => False⟩, ⟨?_, ?_, ?_, ?_, ?_, ?_⟩, ?_⟩
    · intro p p' c h h' _ _
      rw [hself h, hself h']
    · intro p h hn
      cases hself h
      cases hn with
      | all h => exact hpl (.all h)
      | seq h => exact hpl (.seq h)
      | arg h => exact hpl (.arg h)
      | input h => exact hpl (.files h)
      | name h => exact hpl (.name h)
    · intro p ts h hs
      cases hself h
      exact absurd (.seq hs) hpl
    · exact fun _ _ _ => id
    · exact fun c fs fs' _ h => (right_congr h).1
    · intro c c' ctx hc hc' hne
      exact absurd ((hself hc'.1).trans (hself hc.1).symm) hne
    · exact fun _ _ _ _ h => h.elim
    · intro c ctx fs hc _
      cases hself hc.1
      exact hcmd _ _ _ _ hx ctx fs
    · exact fun fs h => h t ⟨.self, hpl⟩ fun _ _ => id
    · intro c ctx' fs hc hm hs _
      cases hself hc.1
      exact hmk ctx' hm fs hs
  others := by
    intro c ctx' hm hc hno
    exact hi.others c ctx' hm hc fun x ins outs hx => hno _ _ _ _ hx .self
  files := hi.files

end

/-! ## A concrete case -/

namespace SuppliedTreesDemo
open TreesDemo (doc own J heap5 heap4 heap3 filesOf leaf plan earlier works onePlace stepA stepB stepC okS okG body_cases fair file_inj)
open CleanDemo (Dir read read_eq file stat_gen stat_src stat_prog world)
open AgainDemo (src gen prog ctx)
open SuppliedDemo (Fit read_dir readable)

theorem fitA {w : World Unit} (hw : Fit w) : Fit (stepA w) := by
  obtain ⟨h1, h2, g, p, b, h3⟩ := hw
  unfold stepA
  rw [h3, read_dir]
  exact ⟨h1, h2, some b, p, b, rfl⟩

theorem fitB {w : World Unit} (hw : Fit w) : Fit (stepB w) := by
  obtain ⟨h1, h2, g, p, b, h3⟩ := id hw
  unfold stepB
  rw [h3, read_dir]
  cases g with
  | none => exact hw
  | some g => exact ⟨h1, h2, some (g + 1), p, b, rfl⟩

theorem fitC {w : World Unit} (hw : Fit w) : Fit (stepC w) := by
  obtain ⟨h1, h2, g, p, b, h3⟩ := hw
  unfold stepC
  rw [h3, read_dir]
  exact ⟨h1, h2, g, some (b + 2), b, rfl⟩

theorem obj_lt {o : Nat} {x : Obj} (h : doc.heap[o]? = some x) : o < 6 := (List.getElem?_eq_some_iff.1 h).1

theorem no_ref {o : Nat} {name : Str} (h : doc.heap[o]? = some (.ref name)) : False := by
  have h1 := obj_lt h
  have : o = 0 ∨ o = 1 ∨ o = 2 ∨ o = 3 ∨ o = 4 ∨ o = 5 := by omega
  rcases this with rfl | rfl | rfl | rfl | rfl | rfl <;> cases h

theorem files_at {o t : Nat} {ins outs : List Str} (h : doc.heap[o]? = some (.files t ins outs)) : t = 4 ∧ ins = [src] ∧ outs = [gen, prog] := by
  have h1 := obj_lt h
  have : o = 0 ∨ o = 1 ∨ o = 2 ∨ o = 3 ∨ o = 4 ∨ o = 5 := by omega
  rcases this with rfl | rfl | rfl | rfl | rfl | rfl <;> cases h
  exact ⟨rfl, rfl, rfl⟩

/-- The commands: A copies src, B needs what A has made, C needs src only. -/
theorem succeeds {c : Ctx} : plan.Succeeds own doc J TreesDemo.R c Fit 4 [src] := by
  intro c' ctx' fs hc _ _ hpre
  refine body_cases (P := fun p => p.Delivers Fit (plan.files c') (plan.post c') fs) c' ctx' (fun h => ?_) (fun h => ?_) (fun h => ?_) fun h => absurd (leaf.1 hc) (by omega)
  · subst h
    rintro w _ ⟨-, -, g, p, b, h3⟩
    refine ⟨?_, ?_⟩
    · unfold okS; rw [h3, read_dir]
    · unfold stepA; rw [h3, read_dir]
      exact ⟨_, stat_src _, stat_gen _⟩
  · subst h
    obtain ⟨b, h1, h2⟩ := hpre 0 (leaf.2 (by omega)) (earlier (.inl rfl)) fun c₂ _ h => .inl h.1
    simp only [if_true] at h2
    rintro w hw ⟨-, -, g, p, b', h3⟩
    have hg := (hw gen (by simp [plan])).1
    have hs := (hw src (by simp [plan])).1
    rw [h2, h3, stat_gen] at hg
    rw [h1, h3, stat_src] at hs
    have e1 := file_inj hg
    have e2 := file_inj hs
    dsimp only at e1 e2
    subst e1
    cases e2
    refine ⟨?_, ?_⟩
    · unfold okG; rw [h3, read_dir]
    · unfold stepB; rw [h3, read_dir]
      exact ⟨_, stat_src _, stat_gen _⟩
  · subst h
    rintro w _ ⟨-, -, g, p, b, h3⟩
    refine ⟨?_, ?_⟩
    · unfold okS; rw [h3, read_dir]
    · unfold stepC; rw [h3, read_dir]
      exact ⟨_, stat_src _, stat_prog _⟩

/-- The project of `TreesDemo` is in order, as long as src is there: B fails if there is no gen.c, but when it is run A has made it. -/
theorem in_supply {c : Ctx} : InSupplyTrees own doc J TreesDemo.R [5] c Fit where
  known := fun ⟨_, _, h1, _⟩ => no_ref h1
  keeps o ctx := body_cases o ctx (fun _ => ⟨fun _ => fitA, fun _ => trivial⟩) (fun _ => ⟨fun _ => fitB, fun _ => trivial⟩) (fun _ => ⟨fun _ => fitC, fun _ => trivial⟩) fun _ => trivial
  note := fun _ _ h => h
  add := by
    intro d h w hw
    unfold dbAdd
    split
    · exact hw
    · exact hw
  rules := by
    intro x t ins outs hx
    obtain ⟨rfl, rfl, rfl, rfl⟩ := filesOf hx
    exact ⟨onePlace, plan, works, succeeds⟩
  others := by
    intro c ctx' _ _ hno
    have : ¬ c < 3 := fun h => hno _ _ _ _ TreesDemo.is5 (leaf.2 h).1
    exact body_cases (P := Fine Fit) c ctx' (fun h => absurd h (by omega)) (fun h => absurd h (by omega)) (fun h => absurd h (by omega)) fun _ => rfl
  files := by
    rintro x t ins outs - hx w ⟨h1, h2, g, p, b, h3⟩ ⟨-, -, h4 | h4 | h4 | ⟨i, hi, h4⟩⟩
    · rw [h1] at h4; exact nomatch h4.1
    · rw [h2] at h4; cases h4
    · cases h4
    · apply h4
      rw [h3]
      obtain ⟨rfl, rfl, rfl⟩ := files_at hx
      simp only [List.cons_append, List.nil_append, List.mem_cons, List.not_mem_nil, or_false] at hi
      rcases hi with rfl | rfl | rfl
      · exact readable (stat_src _)
      · exact readable (stat_gen _)
      · exact readable (stat_prog _)

theorem uses_down {x y : Nat} (h : Uses doc x y) : y < x := by
  cases h with
  | files h =>
    have := obj_lt h
    have : x = 0 ∨ x = 1 ∨ x = 2 ∨ x = 3 ∨ x = 4 ∨ x = 5 := by omega
    rcases this with rfl | rfl | rfl | rfl | rfl | rfl <;> cases h
    decide
  | needs h =>
    cases h with
    | all h hy =>
      have := obj_lt h
      have : x = 0 ∨ x = 1 ∨ x = 2 ∨ x = 3 ∨ x = 4 ∨ x = 5 := by omega
      rcases this with rfl | rfl | rfl | rfl | rfl | rfl <;> cases h
      simp at hy; omega
    | seq h hy =>
      have := obj_lt h
      have : x = 0 ∨ x = 1 ∨ x = 2 ∨ x = 3 ∨ x = 4 ∨ x = 5 := by omega
      rcases this with rfl | rfl | rfl | rfl | rfl | rfl <;> cases h
      simp at hy; omega
    | arg h =>
      have := obj_lt h
      have : x = 0 ∨ x = 1 ∨ x = 2 ∨ x = 3 ∨ x = 4 ∨ x = 5 := by omega
      rcases this with rfl | rfl | rfl | rfl | rfl | rfl <;> cases h
    | input h hi hm =>
      obtain ⟨-, rfl, -⟩ := files_at h
      obtain rfl := List.mem_singleton.1 hi
      rw [TreesDemo.maker] at hm; cases hm
    | name h => exact (no_ref h).elim

theorem acyclic (x : Nat) : ¬ Relation.TransGen (Uses doc) x x := by
  have key : ∀ {x y}, Relation.TransGen (Uses doc) x y → y < x := by
    intro x y h
    induction h with
    | single h => exact uses_down h
    | tail _ h ih => exact (uses_down h).trans ih
  exact fun h => absurd (key h) (lt_irrefl _)

/-- From src alone, with an empty database, every build of Prog ends, and returns nil, whatever the schedule. -/
example (b : UInt8) (ts : List Nat) :
    ∃ us : List Nat, ∃ n, (0, Ev.ret n none) ∈ (buildRun exHex id own doc [5] (world ⟨none, none, some b⟩ []) ctx (ts.map .thread ++ us.map .thread)).log :=
  (C101_trees_ends (I := Fit) CleanDemo.noCollision (fun us => by rw [← List.map_append]; exact fair (x := ⟨none, none, some b⟩) rfl (by simp)) (fun d h hm => by simp [world] at hm)
    in_supply ⟨rfl, rfl, none, none, b, rfl⟩ (fun f hf => by simp at hf) acyclic).2.1

/-- A build of Prog that returns, from any files with src among them, returns nil. -/
example (g p : Option UInt8) (b : UInt8) (ts : List Nat) {n : Nat} {e : Option Err}
    (hret : (0, Ev.ret n e) ∈ (buildRun exHex id own doc [5] (world ⟨g, p, some b⟩ []) ctx (ts.map .thread)).log) : e = none :=
  (C101_trees (I := Fit) CleanDemo.noCollision (fair (x := ⟨g, p, some b⟩) rfl (by simp)) (fun d h hm => by simp [world] at hm)
    in_supply ⟨rfl, rfl, g, p, b, rfl⟩ (fun f hf => by simp at hf) hret).1

/-- And B, by itself, fails where there is no gen.c. -/
example : ¬ Fine Fit (own.body 1 ctx) := by
  intro h
  have hw : Fit (world ⟨none, none, some 1⟩ []) := ⟨rfl, rfl, none, none, 1, rfl⟩
  have h1 : okG (world ⟨none, none, some 1⟩ []) = none := h _ hw
  unfold okG at h1
  rw [show (world ⟨none, none, some 1⟩ []).fs = (⟨none, none, some 1⟩ : Dir).fs from rfl, read_dir] at h1
  cases h1

/-- The project of `CleanDemo`, which is read from YAML files, is in order in this sense, too. -/
theorem in_supply_doc {c : Ctx} : InSupplyTrees CleanDemo.own BuildDemo.docEnd CleanDemo.J CleanDemo.R [4] c Fit :=
  SuppliedDemo.in_supply.trees fun _ _ _ _ h => CleanDemo.makes h

example {w : World Unit} (hw : History exHex id CleanDemo.R CleanDemo.T w) (hI : Fit w) (ts : List Nat) {n : Nat} {e : Option Err}
    (hret : (0, Ev.ret n e) ∈ (buildRun exHex id CleanDemo.own BuildDemo.docEnd [4] w ctx (ts.map .thread)).log) : e = none := by
  obtain ⟨g, p, b, h⟩ := hI.2.2
  have hf := CleanDemo.fair (ctx := ctx) h (CleanDemo.noExt ts)
  exact (C101_yaml_trees BuildDemo.doc_loaded SuppliedDemo.written CleanDemo.noCollision hw ⟨hf.noRun, fun _ _ _ _ _ _ => rfl, hf.cmds, hf.outside, hf.sits⟩ in_supply_doc hI
    (fun f hm => by simp at hm) hret).1

end SuppliedTreesDemo
end Fab.Yaml
