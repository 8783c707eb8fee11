import Verif.Yaml.Right
import Verif.Yaml.Dry

/-!
# C92: cleaning in a build

Two idioms: `Rebuild: !Seq [Clean, Prog]`, which is right, and `fab Clean Prog`, which is not.
-/

namespace Fab.Yaml
open Path Cmd Files
open Runner (Proc TRef Env Ev State Reach Label TSt Job Thread StepC step_cases allBody seqBody argBody nameBody hist)

section
variable {ρ : Type} {hex : Bytes → Str} {sum : Str → Str} {own : Own ρ} {s : St} {J : Nat → Json.J} {R : Meaning} {T : Sit → Prop}

/-! ## Something is done first -/

/-- Target `x` is `!Seq [c, ...ps]`, where `c` stands for `c'`: a target that is not made of others, such as a Clean or a Command, and that is not run
again for `ps`. -/
structure DoesFirst (s : St) (x c c' : Nat) (ps : List Nat) : Prop where
  seq : s.heap[x]? = some (.seq (c :: ps))
  stands : Stands s c c'
  plain : ¬ Composite s c'
  notAgain : ¬ MayRun s ps c'

variable {x c c' : Nat} {ps : List Nat}

theorem DoesFirst.self (hd : DoesFirst s x c c' ps) {t : Nat} (h : Stands s x t) : t = x :=
  h.self fun name hn => by rw [hd.seq] at hn; cases hn

/-- What is needed. -/
theorem DoesFirst.wanted (hd : DoesFirst s x c c' ps) {o : Nat} (h : Wanted s [x] o) : o = x ∨ o = c ∨ Wanted s ps o := by
  induction h with
  | arg h => exact .inl (List.mem_singleton.1 h)
  | dep h hs hn ih =>
    rcases ih with rfl | rfl | ih
    · cases hd.self hs
      cases hn with
      | seq h hy =>
        rw [hd.seq] at h; cases h
        rcases List.mem_cons.1 hy with rfl | hy
        · exact .inr (.inl rfl)
        · exact .inr (.inr (.arg hy))
      | all h => rw [hd.seq] at h; cases h
      | arg h => rw [hd.seq] at h; cases h
      | input h => rw [hd.seq] at h; cases h
      | name h => rw [hd.seq] at h; cases h
    · cases hs.uniq hd.stands
      exfalso
      cases hn with
      | seq h hy => exact hd.plain (.seq h)
      | all h => exact hd.plain (.all h)
      | arg h => exact hd.plain (.arg h)
      | input h => exact hd.plain (.files h)
      | name h => exact hd.plain (.name h)
    · exact .inr (.inr (.dep ih hs hn))

theorem Wanted.mayRun {os : List Nat} {o t : Nat} (h : Wanted s os o) (hs : Stands s o t) : MayRun s os t := by
  induction h generalizing t with
  | arg h => exact .arg h hs
  | dep _ h1 h2 ih => exact .dep (ih h1) (.needs h2) hs

/-- The Files targets are needed for what comes later, and so are their rules. -/
theorem DoesFirst.files (hd : DoesFirst s x c c' ps) {z t : Nat} {ins outs : List Str} (h : FilesOf s [x] z t ins outs) : MayRun s ps z := by
  obtain ⟨⟨o, ho, hs⟩, hz⟩ := h
  rcases hd.wanted ho with rfl | rfl | ho
  · cases hd.self hs
    rw [hd.seq] at hz; cases hz
  · cases hs.uniq hd.stands
    exact absurd (.files hz) hd.plain
  · exact ho.mayRun hs

theorem DoesFirst.rules (hd : DoesFirst s x c c' ps) (hord : RulesApart own s J [x]) {z t : Nat} {ins outs : List Str} (h : FilesOf s [x] z t ins outs) :
    MayRun s ps t :=
  .dep (hd.files h) (.files h.2) (.inr ⟨(hord.parts _ _ _ _ _ h .self).1, rfl⟩)

/-- What the goroutines work on: `x`, `c`, or something that is done when `c` has been done. -/
theorem DoesFirst.jobs (hd : DoesFirst s x c c' ps) (hown : ∀ o ctx, NoRun (own.body o ctx)) {w : World ρ} {ctx : Ctx} {st : State (World ρ) Ctx}
    (h : Reach (buildEnv hex sum own s) w [.call ctx ([x].map .ptr) .ret] st) (t : Nat) :
    ∀ {j : Job Ctx} {ts : TSt (World ρ) Ctx}, st.th t = some ⟨some j, ts⟩ →
      j.key = x ∧ j.tgt = x ∨ j.key = c ∧ j.tgt = c' ∨ MayRun s ps j.tgt ∧ ∃ th tgt, (th, Ev.finish c tgt none) ∈ st.log := by
  induction t using Nat.strongRecOn with
  | ind t ih =>
    intro j ts ht
    obtain ⟨hst, hor⟩ := asked_by hown h ht
    rcases hor with ho | -
    · obtain rfl := List.mem_singleton.1 ho
      exact .inl ⟨rfl, hd.self hst⟩
    obtain ⟨y, o, h1, h2, h3, -⟩ := h.inv.c.job _ _ _ ht
    have h3 : o = j.key := h3
    subst h3
    obtain ⟨y', g1, g2⟩ := h.nest.older _ _ _ ht
    rw [h1] at g1; cases g1
    have hc : (y.tid, Ev.call j.call y.ctx y.refs) ∈ st.log := (h.inv.f.callEv _ _ _ _).1 (by unfold State.hdr; rw [h1]; rfl)
    have hm : TRef.ptr j.key ∈ y.refs := List.mem_of_getElem? h2
    obtain ⟨l₁, l₂, hl⟩ := List.append_of_mem hc
    rcases Runner.caller h hl with ⟨-, -, h7, -⟩ | ⟨c₁, i₁, key, tgt, ctx₁, k, h7, h8⟩
    · rw [h7] at hm
      obtain h := List.mem_singleton.1 hm
      cases h
      exact .inl ⟨rfl, hd.self hst⟩
    · have h7' := Runner.sub_log hl h7
      obtain ⟨j', ts', a1, a2, a3, a4, a5, a6, -⟩ := h.inv.f.startJob _ _ _ _ _ _ h7'
      have hu : Uses s tgt j.key := mayAsk_below (body_below hown _ _) (h8.mayAsk (r := .ptr j.key) (.now hm))
      rw [← a5] at hu
      rcases ih _ g2 a1 with ⟨-, b2⟩ | ⟨-, b2⟩ | ⟨b1, b2⟩
      · have hx : tgt = x := a5.symm.trans b2
        rw [hx] at h7'
        have hb : ∀ ctx, (buildEnv hex sum own s).body x ctx = seqBody ((c :: ps).map .ptr) ctx := fun ctx => by simp only [buildEnv, hd.seq]
        obtain ⟨r, e1, e2, -, e4⟩ := Runner.C07_seq_order hb h hl h7'
        rw [e2] at hm
        obtain hr := List.mem_singleton.1 hm
        subst hr
        rcases hn : Runner.callsBy y.tid l₁ with - | n
        · rw [hn] at e1
          have : j.key = c := by simpa using e1.symm
          exact .inr (.inl ⟨this, hst.uniq (this ▸ hd.stands)⟩)
        · rw [hn] at e1
          have hk : j.key ∈ ps := by
            have := List.mem_of_getElem? (show (ps.map TRef.ptr)[n]? = some (TRef.ptr j.key) from by simpa using e1)
            simpa using this
          obtain ⟨r', f1, o, th, tg, f2, f3⟩ := e4 0 (by omega)
          subst f2
          have : o = c := by simpa using f1.symm
          subst this
          exact .inr (.inr ⟨.arg hk hst, th, tg, Runner.sub_log hl f3⟩)
      · exfalso
        rw [b2] at hu
        cases hu with
        | needs hn =>
          cases hn with
          | seq h hy => exact hd.plain (.seq h)
          | all h => exact hd.plain (.all h)
          | arg h => exact hd.plain (.arg h)
          | input h => exact hd.plain (.files h)
          | name h => exact hd.plain (.name h)
        | files hf => exact hd.plain (.files hf)
      · exact .inr (.inr ⟨.dep b1 hu hst, b2⟩)

/-- While `c'` is at work, nothing else has begun. -/
theorem DoesFirst.alone (hd : DoesFirst s x c c' ps) (hown : ∀ o ctx, NoRun (own.body o ctx)) {w : World ρ} {ctx : Ctx} {st : State (World ρ) Ctx}
    (h : Reach (buildEnv hex sum own s) w [.call ctx ([x].map .ptr) .ret] st) {t : Nat} {j : Job Ctx} {ts : TSt (World ρ) Ctx}
    (ht : st.th t = some ⟨some j, ts⟩) (hj : j.tgt = c') (hb : ts.inBody = true) :
    (∀ (t' : Nat) (j' : Job Ctx) (ts' : TSt (World ρ) Ctx), st.th t' = some ⟨some j', ts'⟩ → ¬ MayRun s ps j'.tgt) ∧
    ∀ th key tgt raw, (th, Ev.finish key tgt raw) ∈ st.log → ¬ MayRun s ps tgt := by
  have hx : x ≠ c' := fun hxc => hd.plain (.seq (hxc ▸ hd.seq))
  have hno : ∀ th tgt raw, (th, Ev.finish c tgt raw) ∉ st.log := by
    rcases hd.jobs hown h t ht with ⟨-, k⟩ | ⟨k, -⟩ | ⟨k, -⟩
    · exact absurd (k.symm.trans hj) hx
    · intro th tgt raw hf
      exact not_finished h ht hb (k ▸ hf)
    · exact absurd (hj ▸ k) hd.notAgain
  have hxn : ¬ MayRun s ps x := fun hm => hd.notAgain (.dep hm (.needs (.seq hd.seq List.mem_cons_self)) hd.stands)
  have key : ∀ (t' : Nat) (j' : Job Ctx) (ts' : TSt (World ρ) Ctx), st.th t' = some ⟨some j', ts'⟩ → ¬ MayRun s ps j'.tgt := by
    intro t' j' ts' ht'
    rcases hd.jobs hown h t' ht' with ⟨-, k⟩ | ⟨-, k⟩ | ⟨-, th, tgt, k⟩
    · rw [k]; exact hxn
    · rw [k]; exact hd.notAgain
    · exact absurd k (hno _ _ _)
  refine ⟨key, fun th key' tgt raw hf => ?_⟩
  obtain ⟨l₁, l₂, hl⟩ := List.append_of_mem hf
  obtain ⟨c, i, ctx', h5⟩ := (h.evOk _ _ _ hl : Runner.EvOk _ l₁ (th, Ev.finish key' tgt raw))
  obtain ⟨j, ts, a1, -, -, a4, a5, -⟩ := h.inv.f.startJob _ _ _ _ _ _ (Runner.sub_log hl h5)
  rw [← a5]
  exact key _ _ _ a1

/-- What is asked of such a build: as for other builds (`FairBuild`), but what is done first may do anything to files (not to databases). -/
structure FairRebuild (hex : Bytes → Str) (sum : Str → Str) (own : Own ρ) (s : St) (J : Nat → Json.J) (x c' : Nat) (T : Sit → Prop) (w : World ρ) (ctx : Ctx)
    (ls : List (Label (World ρ))) : Prop where
  noRun : ∀ o ctx, NoRun (own.body o ctx)
  orderly : Orderly own s J [x]
  cmds : ∀ y ctx, MayRun s [x] y → ¬ Composite s y → y ≠ c' → (own.body y ctx).Acts (Changes s [x] y)
  first : ∀ ctx, (own.body c' ctx).Acts fun w w' => w'.db = w.db
  outside : ∀ f, .extern f ∈ ls → ∀ w, Untouched s [x] w (f w)
  sits : ∀ ls₁ ls₂, ls = ls₁ ++ ls₂ → ∀ z t ins outs, FilesOf s [x] z t ins outs →
    T (sitOf own J t ins outs (buildRun hex sum own s [x] w ctx ls₁).world.fs)

theorem plain_body {y : Nat} (h : ¬ Composite s y) (ctx : Ctx) : (buildEnv hex sum own s).body y ctx = own.body y ctx := by
  unfold buildEnv
  dsimp only
  split
  · rename_i h1; exact absurd (.all h1) h
  · rename_i h1; exact absurd (.seq h1) h
  · rename_i h1; exact absurd (.arg h1) h
  · rename_i h1; exact absurd (.files h1) h
  · rename_i h1; exact absurd (.name h1) h
  · rfl

/-- A step of such a build: what is done first acts, before anything else has begun; or the goroutine changes only what it should change. -/
theorem FairRebuild.cases {w : World ρ} {ctx : Ctx} {ls : List (Label (World ρ))} (hf : FairRebuild hex sum own s J x c' T w ctx ls)
    (hd : DoesFirst s x c c' ps) {st st' : State (World ρ) Ctx} (h : Reach (buildEnv hex sum own s) w [.call ctx ([x].map .ptr) .ret] st) {tid : Nat}
    (hs : Runner.step (buildEnv hex sum own s) st tid = some st') :
    Acting s [x] own st tid ∨
    st'.world.db = st.world.db ∧ (∀ (t' : Nat) (j' : Job Ctx) (ts' : TSt (World ρ) Ctx), st'.th t' = some ⟨some j', ts'⟩ → ¬ MayRun s ps j'.tgt) ∧
      ∀ th key tgt raw, (th, Ev.finish key tgt raw) ∈ st'.log → ¬ MayRun s ps tgt := by
  by_cases hc : ∃ (j : Job Ctx) (f : World ρ → World ρ) (k : World ρ → P ρ), st.th tid = some ⟨some j, .exec (.act f k)⟩ ∧ j.tgt = c'
  · obtain ⟨j, f, k, h1, h2⟩ := hc
    right
    obtain ⟨⟨jb, ts⟩, hth, hsc⟩ := step_cases hs
    rw [show st.th tid = _ from hth] at h1; cases h1
    obtain ⟨a1, a2⟩ := hd.alone hf.noRun h hth h2 rfl
    rcases step_fs hsc with ⟨f', k', hts, hw, hlog, hths⟩ | ⟨hn, -⟩
    · cases hts
      refine ⟨?_, ?_, ?_⟩
      · obtain ⟨p, ho, hp⟩ := h.localInv.pos _ _ _ hth
        have ho : p = (buildEnv hex sum own s).body j.tgt j.ctx := ho
        rw [ho, h2, plain_body hd.plain] at hp
        rw [hw]
        exact (runs_acts (hf.first _) hp).1 _
      · intro t' j' ts' ht'
        simp only [State.th, hths, List.getElem?_set] at ht'
        split at ht'
        · split at ht'
          · cases ht'; exact a1 _ _ _ hth
          · cases ht'
        · exact a1 _ _ _ ht'
      · intro th key tgt raw hm
        rw [hlog] at hm
        exact a2 th key tgt raw (by simpa using hm)
    · exact absurd rfl (hn _ _)
  · left
    intro j f k h1 h2 h3 ctx
    exact hf.cmds _ _ h2 h3 fun h4 => hc ⟨j, f, k, h1, h4⟩

/-- If no Files target has begun then there is nothing to say about them. -/
theorem BuildInv.fresh (hd : DoesFirst s x c c' ps) (hord : RulesApart own s J [x]) {st : State (World ρ) Ctx} (hh : HonestWorld hex sum R T st.world)
    (h1 : ∀ (t' : Nat) (j' : Job Ctx) (ts' : TSt (World ρ) Ctx), st.th t' = some ⟨some j', ts'⟩ → ¬ MayRun s ps j'.tgt)
    (h2 : ∀ th key tgt raw, (th, Ev.finish key tgt raw) ∈ st.log → ¬ MayRun s ps tgt) :
    BuildInv hex sum own s J R T [x] st := by
  refine ⟨hh, ?_, ?_, ?_⟩
  · intro z t ins outs hz tid j ts ht hj
    exact absurd (hj ▸ hd.files hz) (h1 _ _ _ ht)
  · intro z t ins outs hz th key hm
    exact absurd (hd.files hz) (h2 _ _ _ _ hm)
  · intro z t ins outs hz th key hm
    exact absurd (hd.rules hord hz) (h2 _ _ _ _ hm)

theorem CmdInv.fresh (hd : DoesFirst s x c c' ps) (hord : RulesApart own s J [x]) {st : State (World ρ) Ctx}
    (h1 : ∀ (t' : Nat) (j' : Job Ctx) (ts' : TSt (World ρ) Ctx), st.th t' = some ⟨some j', ts'⟩ → ¬ MayRun s ps j'.tgt) : CmdInv own s J R [x] st := by
  intro z t ins outs hz tid j ts ht hj
  exact absurd (hj ▸ hd.rules hord hz) (h1 _ _ _ ht)

/-- The invariant. -/
theorem BuildInv.rebuild (hno : HashTells hex sum R T) {w : World ρ} {ctx : Ctx} {ls ls₁ ls₂ : List (Label (World ρ))} {l : Label (World ρ)}
    (hf : FairRebuild hex sum own s J x c' T w ctx ls) (hd : DoesFirst s x c c' ps) (hls : ls = ls₁ ++ l :: ls₂)
    (hrule : ∀ z t ins outs, FilesOf s [x] z t ins outs → ∀ th key,
      (buildRun hex sum own s [x] w ctx (ls₁ ++ [l])).log = (buildRun hex sum own s [x] w ctx ls₁).log ++ [(th, Ev.finish key t none)] →
      (sitOf own J t ins outs (buildRun hex sum own s [x] w ctx (ls₁ ++ [l])).world.fs).right R)
    (ih : BuildInv hex sum own s J R T [x] (buildRun hex sum own s [x] w ctx ls₁)) :
    BuildInv hex sum own s J R T [x] (buildRun hex sum own s [x] w ctx (ls₁ ++ [l])) := by
  have hr := buildRun_reach (hex := hex) (sum := sum) (own := own) (s := s) (os := [x]) (w := w) (ctx := ctx) (ls := ls₁)
  have hT := hf.sits ls₁ _ hls
  rw [buildRun_snoc] at hrule ⊢
  generalize buildRun hex sum own s [x] w ctx ls₁ = st at *
  cases l with
  | extern f =>
    have hu := hf.outside f (by rw [hls]; simp) st.world
    exact ih.extern (fun d h hm => ih.honest d h (hu.1 d h hm)) fun z t ins outs hz i hi => hu.2 z t ins outs hz i hi
  | thread tid =>
    cases hs : Runner.lstep (buildEnv hex sum own s) st (.thread tid) with
    | none => exact ih
    | some st' =>
      rw [hs] at hrule
      rcases hf.cases hd hr hs with ha | ⟨h1, h2, h3⟩
      · exact ih.step hf.noRun hf.orderly hr hno hT ha hs hrule
      · refine BuildInv.fresh hd hf.orderly.toRulesApart (fun d => ?_) h2 h3
        show HonestDB _ _ _ _ (st'.world.db d)
        rw [h1]; exact ih.honest d

theorem CmdInv.rebuild {w : World ρ} {ctx : Ctx} {ls ls₁ ls₂ : List (Label (World ρ))} {l : Label (World ρ)}
    (hf : FairRebuild hex sum own s J x c' T w ctx ls) (hd : DoesFirst s x c c' ps) (hls : ls = ls₁ ++ l :: ls₂)
    (hcmd : ∀ z t ins outs, FilesOf s [x] z t ins outs → ¬ Composite s t ∧
      ∀ ctx fs, (own.body t ctx).Makes (ins ++ outs) (fun fs => (sitOf own J t ins outs fs).right R) fs)
    {R' : Meaning} (hb : BuildInv hex sum own s J R' T [x] (buildRun hex sum own s [x] w ctx ls₁)) (ih : CmdInv own s J R [x] (buildRun hex sum own s [x] w ctx ls₁)) :
    CmdInv own s J R [x] (buildRun hex sum own s [x] w ctx (ls₁ ++ [l])) ∧ ∀ z t ins outs, FilesOf s [x] z t ins outs → ∀ th key,
      (buildRun hex sum own s [x] w ctx (ls₁ ++ [l])).log = (buildRun hex sum own s [x] w ctx ls₁).log ++ [(th, Ev.finish key t none)] →
      (sitOf own J t ins outs (buildRun hex sum own s [x] w ctx (ls₁ ++ [l])).world.fs).right R := by
  have hr := buildRun_reach (hex := hex) (sum := sum) (own := own) (s := s) (os := [x]) (w := w) (ctx := ctx) (ls := ls₁)
  have hT := hf.sits ls₁ _ hls
  rw [buildRun_snoc]
  generalize buildRun hex sum own s [x] w ctx ls₁ = st at *
  have nolog : ∀ {st' : State (World ρ) Ctx}, st'.log = st.log → ∀ z t ins outs, FilesOf s [x] z t ins outs → ∀ th key,
      st'.log = st.log ++ [(th, Ev.finish key t none)] → (sitOf own J t ins outs st'.world.fs).right R := by
    intro st' h1 z t ins outs _ th key h2
    rw [h1] at h2
    have := congrArg List.length h2
    simp at this
  cases l with
  | extern f =>
    have hu := hf.outside f (by rw [hls]; simp) st.world
    exact ⟨ih.extern fun z t ins outs hz i hi => hu.2 z t ins outs hz i hi, nolog rfl⟩
  | thread tid =>
    cases hs : Runner.lstep (buildEnv hex sum own s) st (.thread tid) with
    | none => exact ⟨ih, nolog rfl⟩
    | some st' =>
      rcases hf.cases hd hr hs with ha | ⟨h1, h2, h3⟩
      · exact ih.step hf.noRun hf.orderly hr hT ha hcmd hb hs
      · refine ⟨CmdInv.fresh hd hf.orderly.toRulesApart h2, ?_⟩
        · intro z t ins outs hz th key hlog
          exact absurd (hd.rules hf.orderly.toRulesApart hz) (h3 th key t none (by show _ ∈ st'.log; rw [show st'.log = _ from hlog]; simp))

/-- **C92, rebuild.** A build of `!Seq [Clean, ...]`: whatever the first target does to the files, whichever files it removes, and whatever the order of the
goroutines, if the build returns nil then the outputs of all Files targets that it needs are what they are meant to be; and the databases are honest at the
end in any case.  (The other hypotheses are those of C78.) -/
theorem C92_rebuild (hno : NoCollision hex sum T) {w : World ρ} {ctx : Ctx} {ls : List (Label (World ρ))} (hd : DoesFirst s x c c' ps)
    (hf : FairRebuild hex sum own s J x c' T w ctx ls)
    (hrule : RulesWork hex sum own s J [x] R w ctx ls) (hw : ∀ d, HonestDB hex sum R T (w.db d)) {st : State (World ρ) Ctx}
    (hst : st = buildRun hex sum own s [x] w ctx ls) :
    (∀ d, HonestDB hex sum R T (st.world.db d)) ∧
    ∀ n, (0, Ev.ret n none) ∈ st.log → ∀ z t ins outs, FilesOf s [x] z t ins outs → (sitOf own J t ins outs st.world.fs).right R := by
  have key : ∀ ls₁ ls₂, ls = ls₁ ++ ls₂ → BuildInv hex sum own s J R T [x] (buildRun hex sum own s [x] w ctx ls₁) := by
    intro ls₁
    induction ls₁ using List.reverseRecOn with
    | nil => exact fun _ _ => .start hw
    | append_singleton ls₁ l ih =>
      intro ls₂ hls
      have hls' : ls = ls₁ ++ l :: ls₂ := by rw [hls]; simp
      exact .rebuild hno.tells hf hd hls' (hrule ls₁ l ls₂ hls') (ih _ hls')
  subst hst
  have hi := key ls [] (by simp)
  refine ⟨hi.honest, fun n hret z t ins outs hz => ?_⟩
  obtain ⟨o, ho, hso⟩ := hz.1
  obtain ⟨t', th, h1, h2⟩ := ((C76_build hf.noRun buildRun_reach).2 n none hret).2 rfl o ho
  cases h1.uniq hso
  exact (hi.fin _ _ _ _ hz _ _ h2).2

/-- **C92, commands.** There too it is enough that the rules are commands that do what they are meant to do if nobody else changes the inputs and outputs
meanwhile. -/
theorem C92_commands {w : World ρ} {ctx : Ctx} {ls : List (Label (World ρ))} (hd : DoesFirst s x c c' ps)
    (hf : FairRebuild hex sum own s J x c' T w ctx ls)
    (hcmd : ∀ z t ins outs, FilesOf s [x] z t ins outs → ¬ Composite s t ∧
      ∀ ctx fs, (own.body t ctx).Makes (ins ++ outs) (fun fs => (sitOf own J t ins outs fs).right R) fs) :
    RulesWork hex sum own s J [x] R w ctx ls := by
  have key : ∀ ls₁ ls₂, ls = ls₁ ++ ls₂ →
      BuildInv hex sum own s J Anything T [x] (buildRun hex sum own s [x] w ctx ls₁) ∧ CmdInv own s J R [x] (buildRun hex sum own s [x] w ctx ls₁) := by
    intro ls₁
    induction ls₁ using List.reverseRecOn with
    | nil =>
      refine fun _ _ => ⟨.start (R := Anything) fun _ _ _ _ _ _ => trivial, ?_⟩
      intro x t ins outs _ tid j ts ht
      simp only [buildRun, Runner.runSched, Runner.init, State.th, List.getElem?_map, Option.map_eq_some_iff] at ht
      obtain ⟨p, -, hp⟩ := ht
      cases hp
    | append_singleton ls₁ l ih =>
      intro ls₂ hls
      have hls' : ls = ls₁ ++ l :: ls₂ := by rw [hls]; simp
      obtain ⟨i1, i2⟩ := ih _ hls'
      obtain ⟨h1, h2⟩ := i2.rebuild hf hd hls' hcmd i1
      exact ⟨.rebuild (R := Anything) (fun _ _ _ _ _ _ _ _ => trivial) hf hd hls' (fun _ _ _ _ _ _ _ _ => (trivial : Anything ..)) i1, h1⟩
  intro ls₁ l ls₂ hls
  obtain ⟨i1, i2⟩ := key _ _ hls
  exact (i2.rebuild hf hd hls hcmd i1).2

/-! ## What Clean does in a build -/

/-- At some point of the schedule `ls` the world goes from `w₀` to `w₁`. -/
def Passes (hex : Bytes → Str) (sum : Str → Str) (own : Own ρ) (s : St) (os : List Nat) (w : World ρ) (ctx : Ctx) (ls : List (Label (World ρ)))
    (w₀ w₁ : World ρ) : Prop :=
  ∃ ls₁ tid ls₂, ls = ls₁ ++ .thread tid :: ls₂ ∧ (buildRun hex sum own s os w ctx ls₁).world = w₀ ∧
    (buildRun hex sum own s os w ctx (ls₁ ++ [.thread tid])).world = w₁

theorem Passes.snoc {os : List Nat} {w : World ρ} {ctx : Ctx} {ls : List (Label (World ρ))} {w₀ w₁ : World ρ} (h : Passes hex sum own s os w ctx ls w₀ w₁)
    (l : Label (World ρ)) : Passes hex sum own s os w ctx (ls ++ [l]) w₀ w₁ := by
  obtain ⟨ls₁, tid, ls₂, h1, h2⟩ := h
  exact ⟨ls₁, tid, ls₂ ++ [l], by rw [h1]; simp, h2⟩

/-- A target that acts once: if it has returned `raw` then it has acted, and `raw` is what follows from the world that it found. -/
theorem acted {os : List Nat} {w : World ρ} {ctx : Ctx} {y : Nat} {f : Ctx → World ρ → World ρ} {r : Ctx → World ρ → Option Runner.Err}
    (hb : ∀ ctx, (buildEnv hex sum own s).body y ctx = .act (f ctx) fun w => .ret (r ctx w)) (ls : List (Label (World ρ))) :
    (∀ (tid : Nat) (j : Job Ctx) (p : P ρ), (buildRun hex sum own s os w ctx ls).th tid = some ⟨some j, .exec p⟩ → j.tgt = y →
      p = (.act (f j.ctx) fun w => .ret (r j.ctx w)) ∨
      ∃ w₀, p = .ret (r j.ctx w₀) ∧ Passes hex sum own s os w ctx ls w₀ (f j.ctx w₀)) ∧
    (∀ (tid : Nat) (j : Job Ctx), j.tgt = y → (∀ n i c todo k, (buildRun hex sum own s os w ctx ls).th tid ≠ some ⟨some j, .spawning n i c todo k⟩) ∧
      ∀ n k, (buildRun hex sum own s os w ctx ls).th tid ≠ some ⟨some j, .joining n k⟩) ∧
    ∀ th key raw, (th, Ev.finish key y raw) ∈ (buildRun hex sum own s os w ctx ls).log →
      ∃ n i ctx' w₀, (th, Ev.start n i key y ctx') ∈ (buildRun hex sum own s os w ctx ls).log ∧ raw = r ctx' w₀ ∧ Passes hex sum own s os w ctx ls w₀ (f ctx' w₀) := by
  induction ls using List.reverseRecOn with
  | nil =>
    have hth : ∀ (tid : Nat) (j : Job Ctx) ts, (buildRun hex sum own s os w ctx []).th tid ≠ some ⟨some j, ts⟩ := by
      intro tid j ts ht
      simp only [buildRun, Runner.runSched, Runner.init, State.th, List.getElem?_map, Option.map_eq_some_iff] at ht
      obtain ⟨p, -, hp⟩ := ht
      cases hp
    refine ⟨fun tid j p ht => absurd ht (hth _ _ _), fun tid j _ => ⟨fun n i c todo k => hth _ _ _, fun n k => hth _ _ _⟩, ?_⟩
    intro th key raw h; simp [buildRun, Runner.runSched, Runner.init] at h
  | append_singleton ls l ih =>
    have hr := buildRun_reach (hex := hex) (sum := sum) (own := own) (s := s) (os := os) (w := w) (ctx := ctx) (ls := ls)
    obtain ⟨i1, i2, i3⟩ := ih
    have hpass : ∀ tid st', l = .thread tid → Runner.step (buildEnv hex sum own s) (buildRun hex sum own s os w ctx ls) tid = some st' →
        Passes hex sum own s os w ctx (ls ++ [l]) (buildRun hex sum own s os w ctx ls).world st'.world := by
      rintro tid st' rfl h
      refine ⟨ls, tid, [], rfl, rfl, ?_⟩
      rw [buildRun_snoc, show Runner.lstep _ _ (.thread tid) = _ from h]; rfl
    have i1' : ∀ (tid : Nat) (j : Job Ctx) (p : P ρ), (buildRun hex sum own s os w ctx ls).th tid = some ⟨some j, .exec p⟩ → j.tgt = y →
        p = (.act (f j.ctx) fun w => .ret (r j.ctx w)) ∨
        ∃ w₀, p = .ret (r j.ctx w₀) ∧ Passes hex sum own s os w ctx (ls ++ [l]) w₀ (f j.ctx w₀) :=
      fun tid j p h1 h2 => (i1 tid j p h1 h2).imp id fun ⟨w₀, a, b⟩ => ⟨w₀, a, b.snoc l⟩
    have i3' : ∀ th key raw, (th, Ev.finish key y raw) ∈ (buildRun hex sum own s os w ctx ls).log →
        ∃ n i ctx' w₀, (th, Ev.start n i key y ctx') ∈ (buildRun hex sum own s os w ctx ls).log ∧ raw = r ctx' w₀ ∧
          Passes hex sum own s os w ctx (ls ++ [l]) w₀ (f ctx' w₀) := fun th key raw h =>
      let ⟨n, i, c, w₀, a, b, d⟩ := i3 th key raw h
      ⟨n, i, c, w₀, a, b, d.snoc l⟩
    clear i1 i3
    rw [buildRun_snoc]
    generalize hP : Passes hex sum own s os w ctx (ls ++ [l]) = P at *
    generalize buildRun hex sum own s os w ctx ls = st at *
    cases l with
    | extern g => exact ⟨i1', i2, i3'⟩
    | thread tid =>
      cases hs : Runner.lstep (buildEnv hex sum own s) st (.thread tid) with
      | none => exact ⟨i1', i2, i3'⟩
      | some st' =>
        have hp := hpass tid st' rfl hs
        obtain ⟨⟨jb, ts⟩, hth, hc⟩ := step_cases hs
        obtain ⟨lg, hl⟩ := Runner.log_mono hc
        refine ⟨?_, ?_, ?_⟩
        · intro t' j' p ht' hj
          rcases th_cases hth hc ht' with rfl | hold | hlk
          · obtain ⟨ts₀, h1, -⟩ := Runner.th_persist hth hc hth
            rw [show st'.th t' = _ from ht'] at h1; cases h1
            dsimp only [Option.getD] at ht'
            cases hc
            all_goals simp only [Runner.th_set hth, Runner.th_set_snoc hth, if_true] at ht'
            case lookupNew j h1 h2 h3 =>
              cases ht'
              cases h2
              rw [hj]
              exact .inl (hb _)
            case act f' k h1 =>
              cases ht'
              dsimp only at h1; subst h1
              rcases i1' _ _ _ hth hj with h1 | ⟨w₀, h1, -⟩
              · cases h1
                exact .inr ⟨_, rfl, hp⟩
              · cases h1
            case callNil n k h1 =>
              dsimp only at h1; subst h1
              rcases i1' _ _ _ hth hj with h1 | ⟨w₀, h1, -⟩ <;> cases h1
            case ret n k y h1 h2 h3 =>
              dsimp only at h1; subst h1
              exact absurd hth ((i2 _ _ hj).2 _ _)
            case spawn n i c o rs k tg w' h1 h2 => dsimp only at h1; subst h1; exact absurd hth ((i2 _ _ hj).1 _ _ _ _ _)
            all_goals simp_all
          · exact i1' _ _ _ hold hj
          · cases hlk
        · intro t' j' hj
          have aux : ∀ ts', ts' ≠ .lookup → (∀ p, ts' ≠ .exec p) → (∀ n i c todo k, ts' = .spawning n i c todo k → True) →
              st'.th t' = some ⟨some j', ts'⟩ → ts'.inBody = true → False := by
            intro ts' n1 n2 _ ht' hin
            rcases th_cases hth hc ht' with rfl | hold | hlk
            · obtain ⟨ts₀, h1, -⟩ := Runner.th_persist hth hc hth
              rw [ht'] at h1; cases h1
              cases hc
              all_goals simp only [Runner.th_set hth, Runner.th_set_snoc hth, if_true] at ht'
              case call n r rs k h1 =>
                dsimp only at h1; subst h1
                rcases i1' _ _ _ hth hj with h1 | ⟨w₀, h1, -⟩ <;> cases h1
              case loopEnd n i c k h1 => dsimp only at h1; subst h1; exact absurd hth ((i2 _ _ hj).1 _ _ _ _ _)
              case refuse n i c r rs k e w' h1 h2 => dsimp only at h1; subst h1; exact absurd hth ((i2 _ _ hj).1 _ _ _ _ _)
              case spawn n i c o rs k tg w' h1 h2 => dsimp only at h1; subst h1; exact absurd hth ((i2 _ _ hj).1 _ _ _ _ _)
              all_goals (cases ht'; first | exact absurd rfl (n2 _) | cases hin)
            · cases ts' with
              | spawning n i c todo k => exact (i2 _ _ hj).1 _ _ _ _ _ hold
              | joining n k => exact (i2 _ _ hj).2 _ _ hold
              | exec p => exact absurd rfl (n2 p)
              | _ => cases hin
            · exact n1 hlk
          exact ⟨fun n i c todo k ht => aux _ (by simp) (by simp) (by simp) ht rfl, fun n k ht => aux _ (by simp) (by simp) (by simp) ht rfl⟩
        · intro th key raw h
          have h : (th, Ev.finish key y raw) ∈ st'.log := h
          rcases new_finish hc h with hold | ⟨rfl, h1, h2, j, h3, h4, h5⟩
          · obtain ⟨n, i, c, w₀, a, b⟩ := i3' _ _ _ hold
            exact ⟨n, i, c, w₀, by show _ ∈ st'.log; rw [hl]; exact List.mem_append_left _ a, b⟩
          · dsimp only at h2 h3; subst h2 h3
            have hst := hr.inv.b.started _ _ _ hth rfl
            rcases i1' _ _ _ hth h5 with h6 | ⟨w₀, h6, h7⟩
            · cases h6
            · cases h6
              refine ⟨j.call, j.idx, j.ctx, w₀, ?_, rfl, h7⟩
              show _ ∈ st'.log
              rw [hl, ← h4, ← h5]
              exact List.mem_append_left _ hst

/-- **C92, Clean.** A build, in any order of the goroutines, without `DryRun`.  A Clean that has returned has acted, at some point of the build; then nothing
but the files that it names has been removed or changed; if it has returned nil then all of them are gone, and if one of them is still there then it has returned
its error. -/
theorem C92_clean {os : List Nat} {w : World ρ} {ctx : Ctx} {ls : List (Label (World ρ))} (hown : ∀ o ctx, NoRun (own.body o ctx)) (hc : getDryRun ctx = false)
    {deny : List Str → Bool} {reg : List Str} {get : ρ → CleanT.Clean} {set : CleanT.Clean → ρ → ρ} {err : Runner.Err} {y : Nat} (hy : ¬ Composite s y)
    (hb : ∀ ctx, own.body y ctx = cleanBody deny reg get set err ctx)
    (hwf : ∀ ls₁ ls₂, ls = ls₁ ++ ls₂ → (buildRun hex sum own s os w ctx ls₁).world.fs.root.WF) {th key raw}
    (hf : (th, Ev.finish key y raw) ∈ (buildRun hex sum own s os w ctx ls).log) :
    ∃ w₀ w₁, Passes hex sum own s os w ctx ls w₀ w₁ ∧
      (∀ q, (¬ ∃ f, CleanT.Names (get w₀.rest) reg f ∧ ∃ it, w₀.fs.stat f = .found q it) → CleanT.entry w₁.fs q = CleanT.entry w₀.fs q) ∧
      w₁.db = w₀.db ∧
      (raw = none → ∀ f, CleanT.Names (get w₀.rest) reg f → w₁.fs.stat f = .notExist) ∧
      ((∃ f, CleanT.Names (get w₀.rest) reg f ∧ w₁.fs.stat f ≠ .notExist) → raw = some err) := by
  obtain ⟨-, -, h3⟩ := acted (hex := hex) (sum := sum) (own := own) (s := s) (os := os) (w := w) (ctx := ctx) (y := y)
    (f := fun ctx w => let r := CleanT.cleanRun deny ctx reg (get w.rest) w.fs; { w with fs := r.1, rest := set r.2.1 w.rest })
    (r := fun ctx w => if (CleanT.cleanRun deny ctx reg (get w.rest) w.fs).2.2 then none else some err)
    (fun ctx => (plain_body hy ctx).trans (hb ctx)) ls
  obtain ⟨n, i, ctx', w₀, g1, g2, g3⟩ := h3 _ _ _ hf
  have hdry : getDryRun ctx' = false :=
    Runner.start_ctx (K := fun ctx => getDryRun ctx = false) (fun t ctx hk => build_ctxs (K := fun ctx => getDryRun ctx = false)
      (fun ctx l h => by rw [(C18_withArgs_frame ctx l).2.1]; exact h) hown t ctx hk) (by simp [Proc.Ctxs, hc]) buildRun_reach _ _ _ _ _ _ g1
  have hw : w₀.fs.root.WF := by
    obtain ⟨ls₁, tid, ls₂, e1, e2, -⟩ := g3
    rw [← e2]; exact hwf _ _ e1
  refine ⟨w₀, _, g3, fun q hq => (CleanT.C34_nothing_else deny ctx' reg (get w₀.rest) hw q hq).1, rfl, fun h f hn => ?_, fun ⟨f, hn, hne⟩ => ?_⟩
  · cases hok : (CleanT.cleanRun deny ctx' reg (get w₀.rest) w₀.fs).2.2 with
    | true => exact CleanT.C34_all_gone deny ctx' reg (get w₀.rest) hw hdry hok f hn
    | false => rw [hok, h] at g2; cases g2
  · have := CleanT.C34_failure_reported deny ctx' reg (get w₀.rest) hw hdry f hn hne
    rw [g2, this]; rfl

/-- **C92, success.** If a build returns nil then for every Clean that it needs there was a point when all the files it names were gone. -/
theorem C92_success {os : List Nat} {w : World ρ} {ctx : Ctx} {ls : List (Label (World ρ))} (hown : ∀ o ctx, NoRun (own.body o ctx)) (hc : getDryRun ctx = false)
    {deny : List Str → Bool} {reg : List Str} {get : ρ → CleanT.Clean} {set : CleanT.Clean → ρ → ρ} {err : Runner.Err} {y : Nat} (hy : ¬ Composite s y)
    (hb : ∀ ctx, own.body y ctx = cleanBody deny reg get set err ctx)
    (hwf : ∀ ls₁ ls₂, ls = ls₁ ++ ls₂ → (buildRun hex sum own s os w ctx ls₁).world.fs.root.WF) {n : Nat}
    (hret : (0, Ev.ret n none) ∈ (buildRun hex sum own s os w ctx ls).log) {o : Nat} (ho : Wanted s os o) (hs : Stands s o y) :
    ∃ w₀ w₁, Passes hex sum own s os w ctx ls w₀ w₁ ∧ ∀ f, CleanT.Names (get w₀.rest) reg f → w₁.fs.stat f = .notExist := by
  obtain ⟨t', th, h1, h2⟩ := ((C76_build hown buildRun_reach).2 n none hret).2 rfl o ho
  cases h1.uniq hs
  obtain ⟨w₀, w₁, a, -, -, b, -⟩ := C92_clean hown hc hy hb hwf h2
  exact ⟨w₀, w₁, a, b rfl⟩

end
end Fab.Yaml
