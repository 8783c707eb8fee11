import Verif.Yaml.Steps
import Verif.Yaml.Several

/-!
# C78: rules made of All and Seq

A rule can be any arrangement of commands: commands that are run at the same time (All), one after the other (Seq, or a Command target with several shell
commands), with arguments, and these inside each other.
-/

namespace Fab.Yaml
open Path Cmd Files
open Runner (Proc TRef Env Ev State Reach Label TSt Job Thread StepC step_cases allBody seqBody argBody nameBody hist)

/-! ## Specification -/

section
variable {ρ : Type} (own : Own ρ) (s : St)

/-- `c` is one of the commands of the rule `t`. -/
def Leaf (t c : Nat) : Prop := Part s t c ∧ ¬ Composite s c

/-- In rule `t`, `c` comes before `c'`: somewhere in it there is a Seq, with `c` in one of its elements and `c'` in a later one. -/
inductive Earlier (t c c' : Nat) : Prop
  | intro {y a b : Nat} {ts pre mid suf : List Nat} : Part s t y → s.heap[y]? = some (.seq ts) → ts = pre ++ a :: mid ++ b :: suf → Part s a c → Part s b c' →
      Earlier t c c'

/-- Everything in the rule `t` is in one place only. -/
structure OnePlace (t : Nat) : Prop where
  one : ∀ p p' c, Part s t p → Part s t p' → Needs s p c → Needs s p' c → p = p'
  root : ∀ p, Part s t p → ¬ Needs s p t
  seqs : ∀ p ts, Part s t p → s.heap[p]? = some (.seq ts) → ts.Nodup

/-- What the commands of a rule are for: command `c` makes `post c` true, which is about the files `files c`; `spoils c' c`: command `c'` may make it false again. -/
structure Plan where
  files : Nat → List Str
  post : Nat → FS → Prop
  spoils : Nat → Nat → Prop

/-- The plan is right, for a rule `t` about the files `l`, which should lead to `good`. -/
structure Plan.Works (p : Plan) (t : Nat) (l : List Str) (good : FS → Prop) : Prop where
  sub : ∀ c, Leaf s t c → ∀ n ∈ p.files c, n ∈ l
  about : ∀ c fs fs', Leaf s t c → Agree (p.files c) fs fs' → p.post c fs → p.post c fs'
  /-- a command leaves the files of the others, but those that come after it, alone ... -/
  keeps : ∀ c c' ctx, Leaf s t c → Leaf s t c' → c' ≠ c → ¬ Earlier s t c' c → ¬ p.spoils c' c → (own.body c' ctx).Acts fun w w' => Agree (p.files c) w.fs w'.fs
  /-- ... except those of commands before it -/
  later : ∀ c c', Leaf s t c → Leaf s t c' → p.spoils c' c → Earlier s t c c'
  /-- a command does what it is for, if nobody else changes its files meanwhile, and if the commands before it have done what they are for
  (unless it may have been spoiled by then) -/
  makes : ∀ c ctx fs, Leaf s t c → (∀ c₁, Leaf s t c₁ → Earlier s t c₁ c → (∀ c₂, Leaf s t c₂ → p.spoils c₂ c₁ → c₂ = c ∨ Earlier s t c c₂) → p.post c₁ fs) →
    (own.body c ctx).Makes (p.files c) (p.post c) fs
  /-- all together (except what is spoiled) is what the rule is for -/
  done : ∀ fs, (∀ c, Leaf s t c → (∀ c', Leaf s t c' → ¬ p.spoils c' c) → p.post c fs) → good fs

end

/-! ## Proof -/

section
variable {ρ : Type} {hex : Bytes → Str} {sum : Str → Str} {own : Own ρ} {s : St} {J : Nat → Json.J} {os : List Nat} {R : Meaning} {T : Sit → Prop}

theorem Part.trans {t a c : Nat} (h1 : Part s t a) (h2 : Part s a c) : Part s t c := by
  induction h2 with
  | self => exact h1
  | all _ h hy ih => exact .all ih h hy
  | seq _ h hy ih => exact .seq ih h hy
  | arg _ h ih => exact .arg ih h

section
variable (hown : ∀ o ctx, NoRun (own.body o ctx)) (hord : Orderly own s J os)
  {w : World ρ} {ctx : Ctx} {st : State (World ρ) Ctx} (hr : Reach (buildEnv hex sum own s) w [.call ctx (os.map .ptr) .ret] st)
  {x t : Nat} {ins outs : List Str} (hx : FilesOf s os x t ins outs)
include hown hord hr hx

/-- When something in a rule has succeeded, so has everything in it. -/
theorem parts_done {a c : Nat} (ha : Part s t a) (hc : Part s a c) {th : Nat} (h : (th, Ev.finish a a none) ∈ st.log) : ∃ th, (th, Ev.finish c c none) ∈ st.log := by
  have key : ∀ {y z : Nat}, Part s t y → Part s t z → Needs s y z → (∃ th, (th, Ev.finish y y none) ∈ st.log) → ∃ th, (th, Ev.finish z z none) ∈ st.log := by
    rintro y z hy hz hn ⟨th, hf⟩
    obtain ⟨l₁, l₂, hl⟩ := List.append_of_mem hf
    have hcan : ∀ t', (buildEnv hex sum own s).CanRun y t' → t' = y := fun t' ht' => (canRun_stands ht').self (hord.parts _ _ _ _ _ hx hy).1
    obtain ⟨o, th', tgt, h1, h2⟩ := Runner.C75_order (body_passesOn hown) distinct hr (o := y) hl (r := .ptr z)
      fun t' ctx ht' => by rw [hcan t' ht']; exact body_mustAsk hn ctx
    cases h1
    have h2 : (th', Ev.finish z tgt none) ∈ st.log := Runner.sub_log hl h2
    have := (canRun_stands (Runner.finish_tgt hr (o := z) (fun _ h => h) h2)).self (hord.parts _ _ _ _ _ hx hz).1
    subst this
    exact ⟨th', h2⟩
  induction hc with
  | self => exact ⟨th, h⟩
  | all h1 h2 h3 ih => exact key (ha.trans h1) (ha.trans (.all h1 h2 h3)) (.all h2 h3) ih
  | seq h1 h2 h3 ih => exact key (ha.trans h1) (ha.trans (.seq h1 h2 h3)) (.seq h2 h3) ih
  | arg h1 h2 ih => exact key (ha.trans h1) (ha.trans (.arg h1 h2)) (.arg h2) ih

/-- Who starts a part of a rule. -/
theorem starter {c : Nat} (hp : Part s t c) {th c₀ i₀ key ctx₀} (h : (th, Ev.start c₀ i₀ key c ctx₀) ∈ st.log) :
    ∃ t' refs l₁ l₂, st.log = l₁ ++ (t', Ev.call c₀ ctx₀ refs) :: l₂ ∧ .ptr c ∈ refs ∧
      ∃ c₁ i₁ k₁ p ctx₁, (t', Ev.start c₁ i₁ k₁ p ctx₁) ∈ st.log ∧ (p = x ∧ c = t ∨ Part s t p ∧ Needs s p c ∧ k₁ = p) := by
  have hk := start_key hown hord hr hx h hp
  subst hk
  obtain ⟨t', refs, o, b1, b2, b3, -⟩ := Runner.start_ok hr h
  have b3 : o = key := b3
  subst b3
  have hm := List.mem_of_getElem? b2
  obtain ⟨l₁, l₂, hl⟩ := List.append_of_mem b1
  have hself : Stands s o o := .inr ⟨(hord.parts _ _ _ _ _ hx hp).1, rfl⟩
  refine ⟨t', refs, l₁, l₂, hl, hm, ?_⟩
  rcases Runner.caller hr hl with ⟨-, -, h7, -⟩ | ⟨c₁, i₁, key, tgt, ctx₁, k, h7, h8⟩
  · rw [h7] at hm
    exact absurd hself (hord.priv _ _ _ _ _ _ hx hp (.arg (by simpa using hm)))
  · have h9 := Runner.sub_log hl h7
    refine ⟨_, _, _, _, _, h9, ?_⟩
    obtain ⟨j', ts', a1, -, -, rfl, rfl, -⟩ := hr.inv.f.startJob _ _ _ _ _ _ h9
    have hu : Uses s j'.tgt o := mayAsk_below (body_below hown _ _) (h8.mayAsk (r := .ptr o) (.now hm))
    rcases kind hown hord hr t' a1 with ⟨k1, k2⟩ | ⟨z, tz, ins', outs', k1, k2, k3⟩
    · cases hu with
      | needs hn => exact absurd hself (hord.priv _ _ _ _ _ _ hx hp (.dep k1 k2 hn))
      | files hf =>
        have hf' : FilesOf s os j'.tgt o _ _ := ⟨⟨_, k1, k2⟩, hf⟩
        have := hord.apart _ _ _ _ _ _ _ _ _ hx hf' hp .self
        subst this
        have := hx.2
        rw [hf] at this; cases this
        exact .inl ⟨rfl, rfl⟩
    · obtain ⟨p1, p2⟩ := hord.parts _ _ _ _ _ k1 k2
      have hn : Needs s j'.tgt o := by
        cases hu with
        | needs hn => exact hn
        | files hf => exact absurd hf (p2 _ _ _)
      have hpc : Part s tz o := by
        cases hn with
        | all h hy => exact .all k2 h hy
        | seq h hy => exact .seq k2 h hy
        | arg h => exact .arg k2 h
        | input h => exact absurd h (p2 _ _ _)
        | name h => exact absurd h (p1 _)
      have := hord.apart _ _ _ _ _ _ _ _ _ hx k1 hp hpc
      subst this
      have := hx.2
      rw [k1.2] at this; cases this
      exact .inr ⟨k2, hn, k3⟩

/-- What a part is in was started before it. -/
theorem above_started (hone : OnePlace s t) {b c : Nat} (hb : Part s t b) (hc : Part s b c) :
    (∃ th c₀ i₀ key ctx₀, (th, Ev.start c₀ i₀ key c ctx₀) ∈ st.log) → ∃ th c₀ i₀ key ctx₀, (th, Ev.start c₀ i₀ key b ctx₀) ∈ st.log := by
  have key : ∀ {y z : Nat}, Part s t y → Part s t z → Needs s y z → (∃ th c₀ i₀ key ctx₀, (th, Ev.start c₀ i₀ key z ctx₀) ∈ st.log) →
      ∃ th c₀ i₀ key ctx₀, (th, Ev.start c₀ i₀ key y ctx₀) ∈ st.log := by
    rintro y z hy hz hn ⟨th, c₀, i₀, key, ctx₀, h⟩
    obtain ⟨t', refs, l₁, l₂, -, -, c₁, i₁, k₁, p, ctx₁, h1, ⟨rfl, rfl⟩ | ⟨h2, h3, -⟩⟩ := starter hown hord hr hx hz h
    · exact absurd hn (hone.root _ hy)
    · rw [hone.one _ _ _ hy h2 hn h3]
      exact ⟨_, _, _, _, _, h1⟩
  induction hc with
  | self => exact id
  | all h1 h2 h3 ih => exact fun h => ih (key (hb.trans h1) (hb.trans (.all h1 h2 h3)) (.all h2 h3) h)
  | seq h1 h2 h3 ih => exact fun h => ih (key (hb.trans h1) (hb.trans (.seq h1 h2 h3)) (.seq h2 h3) h)
  | arg h1 h2 ih => exact fun h => ih (key (hb.trans h1) (hb.trans (.arg h1 h2)) (.arg h2) h)

/-- What comes before it has succeeded. -/
theorem earlier_done (hone : OnePlace s t) {c c' : Nat} (he : Earlier s t c c') {th c₀ i₀ key ctx₀} (h : (th, Ev.start c₀ i₀ key c' ctx₀) ∈ st.log) :
    ∃ th, (th, Ev.finish c c none) ∈ st.log := by
  obtain @⟨y, a, b, ts, pre, mid, suf, hy, hseq, hsp, ha, hb⟩ := he
  have hya : Part s t a := .seq hy hseq (by rw [hsp]; simp)
  have hyb : Part s t b := .seq hy hseq (by rw [hsp]; simp)
  have hnb : Needs s y b := .seq hseq (by rw [hsp]; simp)
  obtain ⟨th', c₁, i₁, k₁, ctx₁, h1⟩ := above_started hown hord hr hx hone hyb hb ⟨_, _, _, _, _, h⟩
  obtain ⟨t', refs, l₁, l₂, hl, hm, c₂, i₂, k₂, p, ctx₂, h2, ⟨rfl, rfl⟩ | ⟨h3, h4, -⟩⟩ := starter hown hord hr hx hyb h1
  · exact absurd hnb (hone.root _ hy)
  have := hone.one _ _ _ hy h3 hnb h4
  subst this
  have hbd : ∀ ctx, (buildEnv hex sum own s).body y ctx = seqBody (ts.map .ptr) ctx := fun ctx => by
    unfold buildEnv; dsimp only; rw [hseq]
  obtain ⟨r, d1, d2, -, d4⟩ := Runner.C07_seq_order hbd hr hl h2
  rw [d2] at hm
  simp only [List.mem_singleton] at hm
  subst hm
  have hidx : Runner.callsBy t' l₁ = (pre ++ a :: mid).length := by
    have e1 : ts[Runner.callsBy t' l₁]? = some b := by simpa using d1
    have e2 : ts[(pre ++ a :: mid).length]? = some b := by rw [hsp, List.getElem?_append_right (by simp)]; simp
    obtain ⟨l1, m1⟩ := List.getElem?_eq_some_iff.1 e1
    exact (List.getElem?_inj l1 (hone.seqs _ _ hy hseq)).1 (e1.trans e2.symm)
  obtain ⟨r', f1, o', th'', tgt', f2, f3⟩ := d4 pre.length (by rw [hidx]; simp)
  have : ts[pre.length]? = some a := by rw [hsp]; simp
  simp only [List.getElem?_map, this, Option.map_some] at f1
  cases f1; cases f2
  have f3 : (th'', Ev.finish a tgt' none) ∈ st.log := Runner.sub_log hl f3
  have := (canRun_stands (Runner.finish_tgt hr (o := a) (fun _ h => h) f3)).self (hord.parts _ _ _ _ _ hx hya).1
  subst this
  exact parts_done hown hord hr hx hya ha f3

end

/-- Lists and the like do nothing themselves. -/
theorem composite_no_act {c : Nat} {ctx : Ctx} (hcomp : Composite s c) (hnn : ∀ n, s.heap[c]? ≠ some (.ref n))
    (hnf : ∀ t ins outs, s.heap[c]? ≠ some (.files t ins outs)) {h : List (Runner.LEv (World ρ) Ctx)} {f k}
    (hr : Runner.Runs ((buildEnv hex sum own s).body c ctx) h (.at (.act f k))) : False := by
  unfold buildEnv at hr
  dsimp only at hr
  cases hcomp with
  | all h1 =>
    rw [h1] at hr
    rcases Runner.call_ret_path hr with ⟨-, h⟩ | ⟨c, -, h⟩ | ⟨c, e, -, h⟩ <;> cases h
  | seq h1 =>
    rw [h1] at hr
    exact seq_no_act hr
  | arg h1 =>
    rw [h1] at hr
    rcases Runner.call_ret_path hr with ⟨-, h⟩ | ⟨c, -, h⟩ | ⟨c, e, -, h⟩ <;> cases h
  | name h1 => exact hnn _ h1
  | files h1 => exact hnf _ _ _ h1

/-- Where the goroutines of the rules are; `F` gives the plan of each rule. -/
structure TreeInv (s : St) (os : List Nat) (F : Nat → Plan) (st : State (World ρ) Ctx) : Prop where
  run : ∀ x t ins outs, FilesOf s os x t ins outs → ∀ c, Leaf s t c →
    ∀ (tid : Nat) (j : Job Ctx) (e : TSt (World ρ) Ctx), st.th tid = some ⟨some j, e⟩ → j.tgt = c →
    match e with
    | .exec p => p.Makes ((F t).files c) ((F t).post c) st.world.fs
    | .spawning .. => False
    | .joining .. => False
    | _ => True
  pause : ∀ x t ins outs, FilesOf s os x t ins outs → ∀ c, Leaf s t c → (∃ th, (th, Ev.finish c c none) ∈ st.log) →
    (∀ c', Leaf s t c' → (F t).spoils c' c → ∀ th c₀ i₀ key ctx₀, (th, Ev.start c₀ i₀ key c' ctx₀) ∉ st.log) →
    MakersDone s ins st.log ∧ (F t).post c st.world.fs

theorem TreeInv.snoc {w : World ρ} {ctx : Ctx} {ls ls₁ ls₂ : List (Label (World ρ))} {l : Label (World ρ)} {F : Nat → Plan}
    (hf : LooseBuild hex sum own s J os T w ctx ls) (hls : ls = ls₁ ++ l :: ls₂)
    (hone : ∀ x t ins outs, FilesOf s os x t ins outs → OnePlace s t)
    (hplan : ∀ x t ins outs, FilesOf s os x t ins outs → (F t).Works own s t (ins ++ outs) (fun fs => (sitOf own J t ins outs fs).right R))
    {R' : Meaning} (hb : BuildInv hex sum own s J R' T os (buildRun hex sum own s os w ctx ls₁)) (ih : TreeInv s os F (buildRun hex sum own s os w ctx ls₁)) :
    TreeInv s os F (buildRun hex sum own s os w ctx (ls₁ ++ [l])) ∧ ∀ x t ins outs, FilesOf s os x t ins outs → ∀ th key,
      (buildRun hex sum own s os w ctx (ls₁ ++ [l])).log = (buildRun hex sum own s os w ctx ls₁).log ++ [(th, Ev.finish key t none)] →
      (sitOf own J t ins outs (buildRun hex sum own s os w ctx (ls₁ ++ [l])).world.fs).right R := by
  have hr := buildRun_reach (hex := hex) (sum := sum) (own := own) (s := s) (os := os) (w := w) (ctx := ctx) (ls := ls₁)
  have hT := hf.sits ls₁ _ hls
  have hnr := hf.noRun
  have hord := hf.orderly
  rw [buildRun_snoc]
  generalize buildRun hex sum own s os w ctx ls₁ = st at *
  have hsubs : ∀ {x t ins outs c} {fs fs' : FS}, FilesOf s os x t ins outs → Leaf s t c → Agree (ins ++ outs) fs fs' → Agree ((F t).files c) fs fs' :=
    fun hx hc h => h.mono fun i hi => (hplan _ _ _ _ hx).sub _ hc i hi
  have nolog : ∀ {st' : State (World ρ) Ctx}, st'.log = st.log → ∀ x t ins outs, FilesOf s os x t ins outs → ∀ th key,
      st'.log = st.log ++ [(th, Ev.finish key t none)] → (sitOf own J t ins outs st'.world.fs).right R := by
    intro st' h1 x t ins outs _ th key h2
    rw [h1] at h2
    have := congrArg List.length h2
    simp at this
  cases l with
  | extern f =>
    have hu := hf.outside f (by rw [hls]; simp) st.world
    refine ⟨⟨fun x t ins outs hx c hc tid j e ht hj => ?_, fun x t ins outs hx c hc hfin hno => ?_⟩, nolog rfl⟩
    · have := ih.run x t ins outs hx c hc tid j e ht hj
      cases e with
      | exec p => exact makes_congr (fun _ _ => (hplan _ _ _ _ hx).about _ _ _ hc) (hsubs hx hc fun i hi => hu x t ins outs hx i hi) this
      | _ => exact this
    · obtain ⟨a, b⟩ := ih.pause x t ins outs hx c hc hfin hno
      exact ⟨a, (hplan _ _ _ _ hx).about _ _ _ hc (hsubs hx hc fun i hi => hu x t ins outs hx i hi) b⟩
  | thread tid =>
    cases hs : Runner.lstep (buildEnv hex sum own s) st (.thread tid) with
    | none => exact ⟨ih, nolog rfl⟩
    | some st' =>
      obtain ⟨⟨jb, e₀⟩, hth, hc⟩ := step_cases hs
      show TreeInv s os F st' ∧ ∀ x t ins outs, FilesOf s os x t ins outs → ∀ th key, st'.log = st.log ++ [(th, Ev.finish key t none)] →
        (sitOf own J t ins outs st'.world.fs).right R
      have hr' : Reach (buildEnv hex sum own s) w [.call ctx (os.map .ptr) .ret] st' := .step (.thread tid) hr hs
      obtain ⟨lx, hlx⟩ := Runner.log_mono hc
      have hsub : ∀ e ∈ st.log, e ∈ st'.log := fun e he => by rw [hlx]; exact List.mem_append_left _ he
      obtain ⟨-, hstab⟩ := hb.world hnr hord hr hT (.of hf.cmds) hth hc
      -- nobody but the commands of the rule changes the files
      have stable : ∀ x t ins outs, FilesOf s os x t ins outs → MakersDone s ins st.log →
          Agree (ins ++ outs) st.world.fs st'.world.fs ∨ ∃ j, jb = some j ∧ e₀.inBody = true ∧ Leaf s t j.tgt ∧
            ∀ c, Leaf s t c → j.tgt ≠ c → ¬ Earlier s t j.tgt c → ¬ (F t).spoils j.tgt c → Agree ((F t).files c) st.world.fs st'.world.fs := by
        intro x t ins outs hx hmd
        rcases hstab _ _ _ _ hx hmd with h1 | ⟨j, h1, h2, h3⟩
        · exact .inl h1
        · dsimp only at h1; subst h1
          rcases step_fs hc with ⟨f, k, hk, hw, -⟩ | ⟨-, hfs, -⟩
          · dsimp only at hk; subst hk
            obtain ⟨p, ho, hp⟩ := hr.localInv.pos _ _ _ hth
            cases ho
            have hnc : ¬ Composite s j.tgt := fun hcomp =>
              composite_no_act hcomp (hord.parts _ _ _ _ _ hx h3).1 (hord.parts _ _ _ _ _ hx h3).2 hp
            refine .inr ⟨j, rfl, h2, ⟨h3, hnc⟩, fun c hcl hne hea hsp => ?_⟩
            rw [hw]
            refine act_acts (G := Agree ((F t).files c)) (.refl _) (c := j.tgt) (ctx := j.ctx) (fun _ => ?_) (hord.parts _ _ _ _ _ hx h3).2 hp st.world
            exact (hplan _ _ _ _ hx).keeps c _ _ hcl ⟨h3, hnc⟩ hne hea hsp
          · rw [hfs]; exact .inl (.refl _ _)
      have runPart : ∀ x t ins outs, FilesOf s os x t ins outs → ∀ c, Leaf s t c →
          ∀ (t' : Nat) (j : Job Ctx) (e : TSt (World ρ) Ctx), st'.th t' = some ⟨some j, e⟩ → j.tgt = c →
          match e with
          | .exec p => p.Makes ((F t).files c) ((F t).post c) st'.world.fs
          | .spawning .. => False
          | .joining .. => False
          | _ => True := by
        intro x t ins outs hx c hcl t' j' e' ht' hj'
        have hpl := hcl.2
        have hW := hplan _ _ _ _ hx
        -- the goroutine that moves
        have moves : ∀ (j' : Job Ctx) (e' : TSt (World ρ) Ctx), st'.th tid = some ⟨some j', e'⟩ → j'.tgt = c → match e' with
            | .exec p => p.Makes ((F t).files c) ((F t).post c) st'.world.fs
            | .spawning .. => False
            | .joining .. => False
            | _ => True := by
          clear ht' hj' hstab stable hs
          clear e' j' t'
          intro j' e' ht' hj'
          obtain ⟨ts₀, h1, -⟩ := Runner.th_persist hth hc hth
          rw [ht'] at h1; cases h1
          have hst := ih.run _ _ _ _ hx _ hcl _ _ _ hth hj'
          cases hc
          all_goals simp only [Runner.th_set hth, Runner.th_set_snoc hth, if_true] at ht'
          case lookupHit => cases ht'; trivial
          case wake => cases ht'; trivial
          case readOut => cases ht'; trivial
          case finish => cases ht'; trivial
          case clientDone => cases ht'; trivial
          case setErrs => cases ht'; trivial
          case setOut => cases ht'; trivial
          case openGate => cases ht'; trivial
          case wgDone => cases ht'; trivial
          case lookupNew j h1 h2 h3 =>
            cases ht'
            cases h2
            have hbody : (buildEnv hex sum own s).body j'.tgt j'.ctx = own.body c j'.ctx := by
              rw [hj']
              unfold buildEnv
              dsimp only
              split
              · rename_i h; exact absurd (.all h) hpl
              · rename_i h; exact absurd (.seq h) hpl
              · rename_i h; exact absurd (.arg h) hpl
              · rename_i h; exact absurd (.files h) hpl
              · rename_i h; exact absurd (.name h) hpl
              · rfl
            dsimp only
            rw [hbody]
            have hk := part_key hnr hord hr hx hth (by rw [hj']; exact hcl.1)
            have h6 : (tid, Ev.start j'.call j'.idx j'.key j'.tgt j'.ctx) ∈ st.log ++ [(tid, Ev.start j'.call j'.idx j'.key j'.tgt j'.ctx)] := by simp
            have hnew : ∀ th c₀ i₀ key ctx₀, (th, Ev.start c₀ i₀ key c ctx₀) ∉ st.log := by
              intro th c₀ i₀ key ctx₀ h4
              have h5 := start_key hnr hord hr hx h4 hcl.1
              rw [h5, ← hj', ← hk] at h4
              have h7 := Runner.start_key_uniq hr' h6 (hsub _ h4)
              subst h7
              obtain ⟨_, e₁, g1, -, -, -, -, -, g2⟩ := hr.inv.f.startJob _ _ _ _ _ _ h4
              rw [show st.th tid = _ from hth] at g1; cases g1
              simp_all
            refine hW.makes c j'.ctx _ hcl fun c₁ hc₁ he hsp => ?_
            obtain ⟨th, h4⟩ := earlier_done hnr hord hr' hx (hone _ _ _ _ hx) (c' := j'.tgt) (by rw [hj']; exact he) h6
            refine (ih.pause x t ins outs hx c₁ hc₁ ⟨th, by simpa using h4⟩ fun c₂ hc₂ h7 th' c₀ i₀ key ctx₀ h8 => ?_).2
            rcases hsp c₂ hc₂ h7 with rfl | h9
            · exact hnew _ _ _ _ _ h8
            · obtain ⟨th'', h5⟩ := earlier_done hnr hord hr hx (hone _ _ _ _ hx) h9 h8
              obtain ⟨l₁, l₂, hl⟩ := List.append_of_mem h5
              obtain ⟨c₃, i₃, ctx₃, h6⟩ := (hr.evOk _ _ _ hl : Runner.EvOk _ l₁ (th'', Ev.finish c c none))
              exact hnew _ _ _ _ _ (Runner.sub_log hl h6)
          case act f k h1 =>
            cases ht'
            dsimp only at h1; subst h1
            exact hst st.world (.refl _ _)
          case callNil c k h1 => dsimp only at h1; subst h1; exact hst.elim
          case call c r rs k h1 => dsimp only at h1; subst h1; exact hst.elim
          case loopEnd c n ctx k h1 => dsimp only at h1; subst h1; exact hst.elim
          case refuse c n ctx r rs k e w' h1 h2 => dsimp only at h1; subst h1; exact hst.elim
          case spawn c n ctx o rs k tg w' h1 h2 => dsimp only at h1; subst h1; exact hst.elim
          case ret c k y h1 h2 h3 => dsimp only at h1; subst h1; exact hst.elim
        rcases th_cases hth hc ht' with h0 | hold | hlk
        · subst h0; exact moves _ _ ht' hj'
        · have hst := ih.run _ _ _ _ hx _ hcl _ _ _ hold hj'
          cases e' with
          | exec p =>
            have hp : Part s t j'.tgt := by rw [hj']; exact hcl.1
            have hk' := part_key hnr hord hr hx hold hp
            have hmd := (hb.inside hnr hord hr hx hold rfl hp).1
            rcases stable _ _ _ _ hx hmd with h1 | ⟨j, h1, h2, h3, h4⟩
            · exact makes_congr (fun _ _ => hW.about _ _ _ hcl) (hsubs hx hcl h1) hst
            · subst h1
              have hk := part_key hnr hord hr hx hth h3.1
              by_cases heq : j.tgt = c
              · cases same_thread hr hth hold h2 rfl (by rw [hk, hk', heq, hj'])
                exact moves _ _ ht' hj'
              · refine makes_congr (fun _ _ => hW.about _ _ _ hcl) (h4 c hcl heq (fun hea => ?_) fun hsp => ?_) hst
                · have s1 := hr.inv.b.started _ _ _ hold (Runner.TSt.owning_of_inBody rfl)
                  rw [hj'] at s1
                  obtain ⟨th, h5⟩ := earlier_done hnr hord hr hx (hone _ _ _ _ hx) hea s1
                  exact not_finished hr hth h2 (by rw [hk]; exact h5)
                have s1 := hr.inv.b.started _ _ _ hth (Runner.TSt.owning_of_inBody h2)
                obtain ⟨th, h5⟩ := earlier_done hnr hord hr hx (hone _ _ _ _ hx) (hW.later _ _ hcl h3 hsp) s1
                exact not_finished hr hold rfl (by rw [hk', hj']; exact h5)
          | _ => exact hst
        · dsimp only at hlk; subst hlk; trivial
      have pausePart : ∀ x t ins outs, FilesOf s os x t ins outs → ∀ c, Leaf s t c → (∃ th, (th, Ev.finish c c none) ∈ st'.log) →
          (∀ c', Leaf s t c' → (F t).spoils c' c → ∀ th c₀ i₀ key ctx₀, (th, Ev.start c₀ i₀ key c' ctx₀) ∉ st'.log) →
          MakersDone s ins st'.log ∧ (F t).post c st'.world.fs := by
        rintro x t ins outs hx c hcl ⟨th, hfin⟩ hno
        have hW := hplan _ _ _ _ hx
        rcases new_finish hc hfin with h1 | ⟨rfl, h1, h2, j, h3, -, h5⟩
        · obtain ⟨a, b⟩ := ih.pause x t ins outs hx c hcl ⟨_, h1⟩ fun c' hc' h2 th c₀ i₀ key ctx₀ h3 => hno c' hc' h2 _ _ _ _ _ (hsub _ h3)
          refine ⟨a.mono hsub, ?_⟩
          rcases stable _ _ _ _ hx a with h2 | ⟨j, h2, h3, h4, h5⟩
          · exact hW.about _ _ _ hcl (hsubs hx hcl h2) b
          · subst h2
            refine hW.about _ _ _ hcl (h5 c hcl (fun h6 => ?_) (fun h6 => ?_) fun h6 => ?_) b
            · have hk := part_key hnr hord hr hx hth h4.1
              exact not_finished hr hth h3 (by rw [hk, h6]; exact h1)
            · have hk := part_key hnr hord hr hx hth h4.1
              obtain ⟨l₁, l₂, hl⟩ := List.append_of_mem h1
              obtain ⟨c₁, i₁, ctx₁, h7⟩ := (hr.evOk _ _ _ hl : Runner.EvOk _ l₁ (th, Ev.finish c c none))
              obtain ⟨th', h8⟩ := earlier_done hnr hord hr hx (hone _ _ _ _ hx) h6 (Runner.sub_log hl h7)
              exact not_finished hr hth h3 (by rw [hk]; exact h8)
            · exact hno _ h4 h6 _ _ _ _ _ (hsub _ (hr.inv.b.started _ _ _ hth (Runner.TSt.owning_of_inBody h3)))
        · dsimp only at h2 h3; subst h2 h3
          have hp : Part s t j.tgt := by rw [h5]; exact hcl.1
          refine ⟨(hb.inside hnr hord hr hx hth rfl hp).1.mono hsub, ?_⟩
          have := ih.run _ _ _ _ hx c hcl _ _ _ hth h5
          rcases step_fs hc with ⟨f, k, hk, -⟩ | ⟨-, hfs, -⟩
          · cases hk
          · rw [hfs]; exact this rfl
      refine ⟨⟨runPart, pausePart⟩, ?_⟩
      intro x t ins outs hx th key hlog
      have hfin : (th, Ev.finish key t none) ∈ st'.log := by rw [hlog]; simp
      have hkey : key = t := by
        obtain ⟨l₁, l₂, hl⟩ := List.append_of_mem hfin
        obtain ⟨c₃, i₃, ctx₃, h6⟩ := (hr'.evOk _ _ _ hl : Runner.EvOk _ l₁ (th, Ev.finish key t none))
        exact start_key hnr hord hr' hx (Runner.sub_log hl h6) .self
      subst hkey
      exact (hplan _ _ _ _ hx).done _ fun c hcl hns =>
        (pausePart x _ ins outs hx c hcl (parts_done hnr hord hr' hx .self hcl.1 hfin) fun c' hc' h => absurd h (hns c' hc')).2

/-- **C78, rules of any shape.** It is enough that each rule is made of commands with All, Seq and arguments, everything in one place only, and that there is
a plan for it: what each command makes true if the commands before it have done their part and nobody changes its files meanwhile; that commands
which may run at the same time keep off each other's files; and that all of it together is what the rule is meant to do. -/
theorem C78_trees {w : World ρ} {ctx : Ctx} {ls : List (Label (World ρ))} (hf : LooseBuild hex sum own s J os T w ctx ls)
    (hplan : ∀ x t ins outs, FilesOf s os x t ins outs → OnePlace s t ∧ ∃ p : Plan, p.Works own s t (ins ++ outs) (fun fs => (sitOf own J t ins outs fs).right R)) :
    RulesWork hex sum own s J os R w ctx ls := by
  classical
  have hF : ∃ F : Nat → Plan, ∀ x t ins outs, FilesOf s os x t ins outs → (F t).Works own s t (ins ++ outs) (fun fs => (sitOf own J t ins outs fs).right R) := by
    have : ∀ t, ∃ p : Plan, ∀ x ins outs, FilesOf s os x t ins outs → p.Works own s t (ins ++ outs) (fun fs => (sitOf own J t ins outs fs).right R) := by
      intro t
      by_cases h : ∃ x ins outs, FilesOf s os x t ins outs
      · obtain ⟨x, ins, outs, hx⟩ := h
        obtain ⟨-, p, hp⟩ := hplan x t ins outs hx
        refine ⟨p, fun x' ins' outs' hx' => ?_⟩
        have := hf.orderly.apart _ _ _ _ _ _ _ _ _ hx hx' .self .self
        subst this
        have h1 := hx.2
        rw [hx'.2] at h1; cases h1
        exact hp
      · exact ⟨⟨fun _ => [], fun _ _ => True, fun _ _ => True⟩, fun x ins outs hx => absurd ⟨x, ins, outs, hx⟩ h⟩
    exact ⟨fun t => (this t).choose, fun x t ins outs hx => (this t).choose_spec x ins outs hx⟩
  obtain ⟨F, hF⟩ := hF
  have hone : ∀ x t ins outs, FilesOf s os x t ins outs → OnePlace s t := fun x t ins outs hx => (hplan x t ins outs hx).1
  have key : ∀ ls₁ ls₂, ls = ls₁ ++ ls₂ →
      TreeInv s os F (buildRun hex sum own s os w ctx ls₁) := by
    intro ls₁
    induction ls₁ using List.reverseRecOn with
    | nil =>
      refine fun _ _ => ⟨?_, ?_⟩
      · intro x t ins outs _ c _ tid j e ht
        simp only [buildRun, Runner.runSched, Runner.init, State.th, List.getElem?_map, Option.map_eq_some_iff] at ht
        obtain ⟨p, -, hp⟩ := ht
        cases hp
      · rintro x t ins outs _ c _ ⟨th, h⟩
        simp [buildRun, Runner.runSched, Runner.init] at h
    | append_singleton ls₁ l ih =>
      intro ls₂ hls
      have hls' : ls = ls₁ ++ l :: ls₂ := by rw [hls]; simp
      exact ((ih _ hls').snoc hf hls' hone hF (buildInv_any hf ls₁ _ hls')).1
  intro ls₁ l ls₂ hls
  exact ((key _ _ hls).snoc hf hls hone hF (buildInv_any hf ls₁ _ hls)).2

end
end Fab.Yaml
