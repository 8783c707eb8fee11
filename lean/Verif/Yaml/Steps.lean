import Verif.Yaml.Clean

/-!
# C78: rules with several commands

A rule can be a list of commands that are run one after the other: a Command target with several shell commands (command.go:404-410), or a Seq
target made of commands.
-/

namespace Fab.Yaml
open Path Cmd Files
open Runner (Proc TRef Env Ev State Reach Label TSt Job Thread StepC step_cases allBody seqBody argBody nameBody hist)

/-! ## Specification -/

section
variable {ρ : Type} (own : Own ρ) (s : St)

/-- The rule `t` is the commands `ts`, one after the other: it is a command, or a Seq of different commands. -/
def CmdList (t : Nat) (ts : List Nat) : Prop :=
  (¬ Composite s t ∧ ts = [t]) ∨ (s.heap[t]? = some (.seq ts) ∧ ts.Nodup ∧ ∀ c ∈ ts, ¬ Composite s c)

/-- The commands, one after the other, when nobody else changes the files `l`, which are now as in `fs`: if they all end with nil then the files have the
property `good`. -/
def MakesAll (l : List Str) (good : FS → Prop) : List Nat → FS → Prop
  | [], fs => good fs
  | c :: cs, fs => ∀ ctx, (own.body c ctx).Makes l (MakesAll l good cs) fs

end

/-! ## Proof -/

section
variable {ρ : Type} {hex : Bytes → Str} {sum : Str → Str} {own : Own ρ} {s : St} {J : Nat → Json.J} {os : List Nat} {R : Meaning} {T : Sit → Prop}

theorem makesAll_congr {l : List Str} {good : FS → Prop} (hg : ∀ fs fs', Agree l fs fs' → good fs → good fs') (cs : List Nat) {fs fs' : FS}
    (h : Agree l fs fs') (hp : MakesAll own l good cs fs) : MakesAll own l good cs fs' := by
  induction cs generalizing fs fs' with
  | nil => exact hg _ _ h hp
  | cons c cs ih => exact fun ctx => makes_congr (fun _ _ => ih) h (hp ctx)

theorem CmdList.part {t c : Nat} {ts : List Nat} (h : CmdList s t ts) (hc : c ∈ ts) : Part s t c := by
  rcases h with ⟨-, rfl⟩ | ⟨h, -⟩
  · simp at hc; subst hc; exact .self
  · exact .seq .self h hc

theorem CmdList.plain {t c : Nat} {ts : List Nat} (h : CmdList s t ts) (hc : c ∈ ts) : ¬ Composite s c := by
  rcases h with ⟨h, rfl⟩ | ⟨-, -, h⟩
  · simp at hc; subst hc; exact h
  · exact h c hc

theorem CmdList.nodup {t : Nat} {ts : List Nat} (h : CmdList s t ts) : ts.Nodup := by
  rcases h with ⟨h, rfl⟩ | ⟨-, h, -⟩
  · simp
  · exact h

theorem CmdList.parts {t c : Nat} {ts : List Nat} (h : CmdList s t ts) (hc : Part s t c) : c ∈ ts ∨ c = t ∧ s.heap[t]? = some (.seq ts) := by
  induction hc with
  | self =>
    rcases h with ⟨-, rfl⟩ | ⟨h, -⟩
    · exact .inl (by simp)
    · exact .inr ⟨rfl, h⟩
  | all _ h1 _ ih =>
    rcases ih with ih | ⟨rfl, ih⟩
    · exact absurd (.all h1) (h.plain ih)
    · rw [ih] at h1; cases h1
  | seq _ h1 hy ih =>
    rcases ih with ih | ⟨rfl, ih⟩
    · exact absurd (.seq h1) (h.plain ih)
    · rw [ih] at h1; cases h1; exact .inl hy
  | arg _ h1 ih =>
    rcases ih with ih | ⟨rfl, ih⟩
    · exact absurd (.arg h1) (h.plain ih)
    · rw [ih] at h1; cases h1

theorem uses_composite {x y : Nat} (h : Uses s x y) : Composite s x := by
  cases h with
  | needs h =>
    cases h with
    | all h _ => exact .all h
    | seq h _ => exact .seq h
    | arg h => exact .arg h
    | input h => exact .files h
    | name h => exact .name h
  | files h => exact .files h

theorem seq_no_act {refs : List TRef} {ctx : Ctx} {h : List (Runner.LEv (World ρ) Ctx)} {f k}
    (hr : Runner.Runs (seqBody (σ := World ρ) refs ctx) h (.at (.act f k))) : False := by
  obtain ⟨n, -, (⟨h1, -, -⟩ | ⟨r, c, e, h1, -⟩)⟩ := Runner.seq_path hr
  · rw [seqBody.eq_def] at h1; split at h1 <;> cases h1
  · cases h1

section
variable (hown : ∀ o ctx, NoRun (own.body o ctx)) (hord : Orderly own s J os)
  {w : World ρ} {ctx : Ctx} {st : State (World ρ) Ctx} (hr : Reach (buildEnv hex sum own s) w [.call ctx (os.map .ptr) .ret] st)
  {x t : Nat} {ins outs : List Str} (hx : FilesOf s os x t ins outs) {ts : List Nat} (hts : CmdList s t ts)
include hown hord hr hx hts

omit hts in
theorem part_key {tid : Nat} {j : Job Ctx} {ts' : TSt (World ρ) Ctx} (ht : st.th tid = some ⟨some j, ts'⟩) (hp : Part s t j.tgt) : j.key = j.tgt := by
  rcases kind hown hord hr tid ht with ⟨k1, k2⟩ | ⟨_, _, _, _, -, -, k3⟩
  · exact absurd k2 (hord.priv _ _ _ _ _ _ hx hp k1)
  · exact k3

omit hts in
theorem start_key {th c₀ i₀ key c ctx₀} (h : (th, Ev.start c₀ i₀ key c ctx₀) ∈ st.log) (hp : Part s t c) : key = c := by
  obtain ⟨j, ts', a1, -, -, rfl, rfl, -⟩ := hr.inv.f.startJob _ _ _ _ _ _ h
  exact part_key hown hord hr hx a1 hp

/-- A command of a rule that is a list is run by the list only. -/
theorem list_runs {th : Nat} {j : Job Ctx} {ts' : TSt (World ρ) Ctx} (ht : st.th th = some ⟨some j, ts'⟩) {c : Nat} (hc : c ∈ ts) (hseq : s.heap[t]? = some (.seq ts))
    (hu : Uses s j.tgt c) : j.tgt = t := by
  have hp := hts.part hc
  have hself : Stands s c c := .inr ⟨(hord.parts _ _ _ _ _ hx hp).1, rfl⟩
  rcases kind hown hord hr th ht with ⟨k1, k2⟩ | ⟨z, tz, ins', outs', k1, k2, k3⟩
  · cases hu with
    | needs hn => exact absurd hself (hord.priv _ _ _ _ _ _ hx hp (.dep k1 k2 hn))
    | files hf =>
      have hf' : FilesOf s os j.tgt c _ _ := ⟨⟨_, k1, k2⟩, hf⟩
      have := hord.apart _ _ _ _ _ _ _ _ _ hx hf' hp .self
      subst this
      have := hx.2
      rw [hf] at this; cases this
      exact absurd (.seq hseq) (hts.plain hc)
  · have hpc : Part s tz c := by
      obtain ⟨p1, p2⟩ := hord.parts _ _ _ _ _ k1 k2
      cases hu with
      | needs hn =>
        cases hn with
        | all h hy => exact .all k2 h hy
        | seq h hy => exact .seq k2 h hy
        | arg h => exact .arg k2 h
        | input h => exact absurd h (p2 _ _ _)
        | name h => exact absurd h (p1 _)
      | files hf => exact absurd hf (p2 _ _ _)
    have := hord.apart _ _ _ _ _ _ _ _ _ hx k1 hp hpc
    subst this
    have := hx.2
    rw [k1.2] at this; cases this
    rcases hts.parts k2 with h | ⟨h, -⟩
    · exact absurd (uses_composite hu) (hts.plain h)
    · exact h

/-- The commands before it have succeeded. -/
theorem before {pre cs : List Nat} {c : Nat} (hsplit : ts = pre ++ c :: cs) {th c₀ i₀ key ctx₀} (h : (th, Ev.start c₀ i₀ key c ctx₀) ∈ st.log) :
    ∀ c' ∈ pre, ∃ th, (th, Ev.finish c' c' none) ∈ st.log := by
  have hc : c ∈ ts := by rw [hsplit]; simp
  have hp := hts.part hc
  have hk := start_key hown hord hr hx h hp
  subst hk
  rcases hts with ⟨h1, h2⟩ | ⟨hseq, hnd, hpl⟩
  · rw [h2] at hsplit
    cases pre with
    | nil => simp
    | cons a pre => simp at hsplit
  have hts : CmdList s t ts := .inr ⟨hseq, hnd, hpl⟩
  obtain ⟨t', refs, o, b1, b2, b3, -⟩ := Runner.start_ok hr h
  have b3 : o = key := b3
  subst b3
  have hm := List.mem_of_getElem? b2
  obtain ⟨l₁, l₂, hl⟩ := List.append_of_mem b1
  have hself : Stands s o o := .inr ⟨(hord.parts _ _ _ _ _ hx hp).1, rfl⟩
  rcases Runner.caller hr hl with ⟨-, -, h7, -⟩ | ⟨c₁, i₁, key, tgt, ctx₁, k, h7, h8⟩
  · rw [h7] at hm
    exact absurd hself (hord.priv _ _ _ _ _ _ hx hp (.arg (by simpa using hm)))
  · have h9 := Runner.sub_log hl h7
    obtain ⟨j', ts', a1, -, -, -, rfl, -⟩ := hr.inv.f.startJob _ _ _ _ _ _ h9
    have hu : Uses s j'.tgt o := mayAsk_below (body_below hown _ _) (h8.mayAsk (r := .ptr o) (.now hm))
    have ht := list_runs hown hord hr hx hts a1 hc hseq hu
    rw [ht] at h9
    have hb : ∀ ctx, (buildEnv hex sum own s).body t ctx = seqBody (ts.map .ptr) ctx := fun ctx => by
      unfold buildEnv; dsimp only; rw [hseq]
    obtain ⟨r, d1, d2, -, d4⟩ := Runner.C07_seq_order hb hr hl h9
    rw [d2] at hm
    simp only [List.mem_singleton] at hm
    subst hm
    have hidx : Runner.callsBy t' l₁ = pre.length := by
      have e1 : ts[Runner.callsBy t' l₁]? = some o := by simpa using d1
      have e2 : ts[pre.length]? = some o := by rw [hsplit]; simp
      obtain ⟨l1, m1⟩ := List.getElem?_eq_some_iff.1 e1
      exact (List.getElem?_inj l1 hnd).1 (e1.trans e2.symm)
    intro c' hc'
    obtain ⟨n, hn⟩ := List.mem_iff_getElem?.1 hc'
    have hlt := (List.getElem?_eq_some_iff.1 hn).1
    obtain ⟨r', f1, o', th', tgt', f2, f3⟩ := d4 n (by omega)
    have : ts[n]? = some c' := by rw [hsplit, List.getElem?_append_left hlt]; exact hn
    simp only [List.getElem?_map, this, Option.map_some] at f1
    cases f1; cases f2
    have f3 := Runner.sub_log hl f3
    have f3 : (th', Ev.finish c' tgt' none) ∈ st.log := f3
    have hc'' : c' ∈ ts := by rw [hsplit]; simp [hc']
    have := (canRun_stands (Runner.finish_tgt hr (o := c') (fun _ h => h) f3)).self (hord.parts _ _ _ _ _ hx (hts.part hc'')).1
    subst this
    exact ⟨th', f3⟩

/-- Two commands of a rule are not at work at the same time. -/
theorem one_at_a_time {c c' tid tid' : Nat} {j j' : Job Ctx} {e e' : TSt (World ρ) Ctx} (ht : st.th tid = some ⟨some j, e⟩) (ht' : st.th tid' = some ⟨some j', e'⟩)
    (hb : e.inBody = true) (hb' : e'.inBody = true) (hj : j.tgt = c) (hj' : j'.tgt = c') (hc : c ∈ ts) (hc' : c' ∈ ts) : tid = tid' := by
  subst hj hj'
  have hk := part_key hown hord hr hx ht (hts.part hc)
  have hk' := part_key hown hord hr hx ht' (hts.part hc')
  by_cases heq : j.tgt = j'.tgt
  · exact same_thread hr ht ht' hb hb' (by rw [hk, hk', heq])
  exfalso
  have s1 := hr.inv.b.started _ _ _ ht (Runner.TSt.owning_of_inBody hb)
  have s2 := hr.inv.b.started _ _ _ ht' (Runner.TSt.owning_of_inBody hb')
  obtain ⟨pre, cs, hsplit⟩ := List.append_of_mem hc
  rw [hsplit] at hc'
  rcases List.mem_append.1 hc' with h1 | h1
  · obtain ⟨th, h2⟩ := before hown hord hr hx hts hsplit s1 _ h1
    rw [← hk'] at h2
    exact not_finished hr ht' hb' (by rw [hk'] at h2 ⊢; exact h2)
  · rcases List.mem_cons.1 h1 with h1 | h1
    · exact heq h1.symm
    · obtain ⟨a, b, h3⟩ := List.append_of_mem h1
      obtain ⟨th, h2⟩ := before hown hord hr hx hts (pre := pre ++ j.tgt :: a) (cs := b) (c := j'.tgt) (by rw [hsplit, h3]; simp) s2 j.tgt (by simp)
      exact not_finished hr ht hb (by rw [hk]; exact h2)

end

/-- Where the goroutines of the rules are. -/
structure ListInv (own : Own ρ) (s : St) (J : Nat → Json.J) (R : Meaning) (os : List Nat) (st : State (World ρ) Ctx) : Prop where
  run : ∀ x t ins outs, FilesOf s os x t ins outs → ∀ ts pre c cs, CmdList s t ts → ts = pre ++ c :: cs →
    ∀ (tid : Nat) (j : Job Ctx) (e : TSt (World ρ) Ctx), st.th tid = some ⟨some j, e⟩ → j.tgt = c →
    match e with
    | .exec p => p.Makes (ins ++ outs) (MakesAll own (ins ++ outs) (fun fs => (sitOf own J t ins outs fs).right R) cs) st.world.fs
    | .spawning .. => False
    | .joining .. => False
    | _ => True
  pause : ∀ x t ins outs, FilesOf s os x t ins outs → ∀ ts pre cs, CmdList s t ts → ts = pre ++ cs → pre ≠ [] →
    (∀ c ∈ pre, ∃ th, (th, Ev.finish c c none) ∈ st.log) → (∀ c ∈ cs, ∀ th c₀ i₀ key ctx₀, (th, Ev.start c₀ i₀ key c ctx₀) ∉ st.log) →
    MakersDone s ins st.log ∧ MakesAll own (ins ++ outs) (fun fs => (sitOf own J t ins outs fs).right R) cs st.world.fs

theorem ListInv.snoc {w : World ρ} {ctx : Ctx} {ls ls₁ ls₂ : List (Label (World ρ))} {l : Label (World ρ)}
    (hf : LooseBuild hex sum own s J os T w ctx ls) (hls : ls = ls₁ ++ l :: ls₂)
    (hcmd : ∀ x t ins outs, FilesOf s os x t ins outs → ∃ ts, CmdList s t ts ∧
      ∀ fs, MakesAll own (ins ++ outs) (fun fs => (sitOf own J t ins outs fs).right R) ts fs)
    {R' : Meaning} (hb : BuildInv hex sum own s J R' T os (buildRun hex sum own s os w ctx ls₁)) (ih : ListInv own s J R os (buildRun hex sum own s os w ctx ls₁)) :
    ListInv own s J R os (buildRun hex sum own s os w ctx (ls₁ ++ [l])) ∧ ∀ x t ins outs, FilesOf s os x t ins outs → ∀ th key,
      (buildRun hex sum own s os w ctx (ls₁ ++ [l])).log = (buildRun hex sum own s os w ctx ls₁).log ++ [(th, Ev.finish key t none)] →
      (sitOf own J t ins outs (buildRun hex sum own s os w ctx (ls₁ ++ [l])).world.fs).right R := by
  have hr := buildRun_reach (hex := hex) (sum := sum) (own := own) (s := s) (os := os) (w := w) (ctx := ctx) (ls := ls₁)
  have hT := hf.sits ls₁ _ hls
  have hgood : ∀ t ins outs fs fs', Agree (ins ++ outs) fs fs' → (sitOf own J t ins outs fs).right R → (sitOf own J t ins outs fs').right R :=
    fun t ins outs fs fs' h => (right_congr h).1
  have hnr := hf.noRun
  have hord := hf.orderly
  rw [buildRun_snoc]
  generalize buildRun hex sum own s os w ctx ls₁ = st at *
  have nolog : ∀ {st' : State (World ρ) Ctx}, st'.log = st.log → ∀ x t ins outs, FilesOf s os x t ins outs → ∀ th key,
      st'.log = st.log ++ [(th, Ev.finish key t none)] → (sitOf own J t ins outs st'.world.fs).right R := by
    intro st' h1 x t ins outs _ th key h2
    rw [h1] at h2
    have := congrArg List.length h2
    simp at this
  cases l with
  | extern f =>
    have hu := hf.outside f (by rw [hls]; simp) st.world
    refine ⟨⟨fun x t ins outs hx ts pre c cs hts hsp tid j e ht hj => ?_, fun x t ins outs hx ts pre cs hts hsp hne hfin hno => ?_⟩, nolog rfl⟩
    · have := ih.run x t ins outs hx ts pre c cs hts hsp tid j e ht hj
      cases e with
      | exec p => exact makes_congr (fun _ _ => makesAll_congr (hgood _ _ _) _) (fun i hi => hu x t ins outs hx i hi) this
      | _ => exact this
    · obtain ⟨a, b⟩ := ih.pause x t ins outs hx ts pre cs hts hsp hne hfin hno
      exact ⟨a, makesAll_congr (hgood _ _ _) _ (fun i hi => hu x t ins outs hx i hi) b⟩
  | thread tid =>
    cases hs : Runner.lstep (buildEnv hex sum own s) st (.thread tid) with
    | none => exact ⟨ih, nolog rfl⟩
    | some st' =>
      obtain ⟨⟨jb, e₀⟩, hth, hc⟩ := step_cases hs
      show ListInv own s J R os st' ∧ ∀ x t ins outs, FilesOf s os x t ins outs → ∀ th key, st'.log = st.log ++ [(th, Ev.finish key t none)] →
        (sitOf own J t ins outs st'.world.fs).right R
      have hr' : Reach (buildEnv hex sum own s) w [.call ctx (os.map .ptr) .ret] st' := .step (.thread tid) hr hs
      obtain ⟨lx, hlx⟩ := Runner.log_mono hc
      have hsub : ∀ e ∈ st.log, e ∈ st'.log := fun e he => by rw [hlx]; exact List.mem_append_left _ he
      obtain ⟨-, hstab⟩ := hb.world hnr hord hr hT (.of hf.cmds) hth hc
      -- nobody but the commands of the rule changes the files
      have stable : ∀ x t ins outs, FilesOf s os x t ins outs → MakersDone s ins st.log → ∀ ts, CmdList s t ts →
          Agree (ins ++ outs) st.world.fs st'.world.fs ∨ ∃ j, jb = some j ∧ e₀.inBody = true ∧ j.tgt ∈ ts := by
        intro x t ins outs hx hmd ts hts
        rcases hstab _ _ _ _ hx hmd with h1 | ⟨j, h1, h2, h3⟩
        · exact .inl h1
        · dsimp only at h1; subst h1
          rcases hts.parts h3 with h4 | ⟨h4, h5⟩
          · exact .inr ⟨j, rfl, h2, h4⟩
          · refine .inl ?_
            rcases step_fs hc with ⟨f, k, hk, -⟩ | ⟨-, hfs, -⟩
            · exfalso
              dsimp only at hk; subst hk
              obtain ⟨p, ho, hp⟩ := hr.localInv.pos _ _ _ hth
              cases ho
              have hbd : (buildEnv hex sum own s).body j.tgt j.ctx = seqBody (ts.map .ptr) j.ctx := by
                unfold buildEnv; dsimp only; rw [h4, h5]
              rw [hbd] at hp
              exact seq_no_act hp
            · rw [hfs]; exact .refl _ _
      -- a command that has ended is not at work
      have ended : ∀ x t ins outs, FilesOf s os x t ins outs → ∀ ts, CmdList s t ts → ∀ (t' : Nat) (j : Job Ctx) (e : TSt (World ρ) Ctx),
          st.th t' = some ⟨some j, e⟩ → e.inBody = true → j.tgt ∈ ts → ∀ th tgt raw, (th, Ev.finish j.tgt tgt raw) ∉ st.log := by
        intro x t ins outs hx ts hts t' j e h1 h2 h3 th tgt raw h4
        have hk := part_key hnr hord hr hx h1 (hts.part h3)
        rw [← hk] at h4
        exact not_finished hr h1 h2 h4
      -- between two commands
      have rest : ∀ x t ins outs, FilesOf s os x t ins outs → ∀ ts pre cs, CmdList s t ts → ts = pre ++ cs → (pre = [] ∨
          (∀ c ∈ pre, ∃ th, (th, Ev.finish c c none) ∈ st.log)) → (∀ c ∈ cs, ∀ th c₀ i₀ key ctx₀, (th, Ev.start c₀ i₀ key c ctx₀) ∉ st.log) →
          MakesAll own (ins ++ outs) (fun fs => (sitOf own J t ins outs fs).right R) cs st.world.fs := by
        intro x t ins outs hx ts pre cs hts hsp hpre hno
        by_cases hne : pre = []
        · subst hne
          obtain ⟨ts', h1, h2⟩ := hcmd x t ins outs hx
          have : ts' = ts := by
            rcases h1 with ⟨a, rfl⟩ | ⟨a, -⟩ <;> rcases hts with ⟨b, rfl⟩ | ⟨b, -⟩
            · rfl
            · exact absurd (.seq b) a
            · exact absurd (.seq a) b
            · rw [a] at b; cases b; rfl
          subst this
          simp only [List.nil_append] at hsp
          subst hsp
          exact h2 _
        · exact (ih.pause x t ins outs hx ts pre cs hts hsp hne (hpre.resolve_left hne) hno).2
      have runPart : ∀ x t ins outs, FilesOf s os x t ins outs → ∀ ts pre c cs, CmdList s t ts → ts = pre ++ c :: cs →
          ∀ (t' : Nat) (j : Job Ctx) (e : TSt (World ρ) Ctx), st'.th t' = some ⟨some j, e⟩ → j.tgt = c →
          match e with
          | .exec p => p.Makes (ins ++ outs) (MakesAll own (ins ++ outs) (fun fs => (sitOf own J t ins outs fs).right R) cs) st'.world.fs
          | .spawning .. => False
          | .joining .. => False
          | _ => True := by
        intro x t ins outs hx ts pre c cs hts hsp t' j' e' ht' hj'
        have hcts : c ∈ ts := by rw [hsp]; simp
        have hpl := hts.plain hcts
        -- the goroutine that moves
        have moves : ∀ (j' : Job Ctx) (e' : TSt (World ρ) Ctx), st'.th tid = some ⟨some j', e'⟩ → j'.tgt = c → match e' with
            | .exec p => p.Makes (ins ++ outs) (MakesAll own (ins ++ outs) (fun fs => (sitOf own J t ins outs fs).right R) cs) st'.world.fs
            | .spawning .. => False
            | .joining .. => False
            | _ => True := by
          clear ht' hj' hstab stable hs
          clear e' j' t'
          intro j' e' ht' hj'
          obtain ⟨ts₀, h1, -⟩ := Runner.th_persist hth hc hth
          rw [ht'] at h1; cases h1
          have hst := ih.run _ _ _ _ hx _ _ _ _ hts hsp _ _ _ hth hj'
          cases hc
          all_goals simp only [Runner.th_set hth, Runner.th_set_snoc hth, if_true] at ht'
          case lookupHit => cases ht'; trivial
          case wake => cases ht'; trivial
          case readOut => cases ht'; trivial
          case finish => cases ht'; trivial
          case clientDone => cases ht'; trivial
          case setErrs => cases ht'; trivial
          case setOut => cases ht'; trivial
          case openGate => cases ht'; trivial
          case wgDone => cases ht'; trivial
          case lookupNew j h1 h2 h3 =>
            cases ht'
            cases h2
            have hbody : (buildEnv hex sum own s).body j'.tgt j'.ctx = own.body c j'.ctx := by
              rw [hj']
              unfold buildEnv
              dsimp only
              split
              · rename_i h; exact absurd (.all h) hpl
              · rename_i h; exact absurd (.seq h) hpl
              · rename_i h; exact absurd (.arg h) hpl
              · rename_i h; exact absurd (.files h) hpl
              · rename_i h; exact absurd (.name h) hpl
              · rfl
            dsimp only
            rw [hbody]
            have hk := part_key hnr hord hr hx hth (by rw [hj']; exact hts.part hcts)
            have hnew : ∀ th c₀ i₀ key ctx₀, (th, Ev.start c₀ i₀ key c ctx₀) ∉ st.log := by
              intro th c₀ i₀ key ctx₀ h4
              have h5 := start_key hnr hord hr hx h4 (hts.part hcts)
              rw [h5, ← hj', ← hk] at h4
              have h6 : (tid, Ev.start j'.call j'.idx j'.key j'.tgt j'.ctx) ∈ st.log ++ [(tid, Ev.start j'.call j'.idx j'.key j'.tgt j'.ctx)] := by simp
              have h7 := Runner.start_key_uniq hr' h6 (hsub _ h4)
              subst h7
              obtain ⟨_, e₁, g1, -, -, -, -, -, g2⟩ := hr.inv.f.startJob _ _ _ _ _ _ h4
              rw [show st.th tid = _ from hth] at g1; cases g1
              simp_all
            refine rest x t ins outs hx ts pre (c :: cs) hts hsp ?_ ?_ j'.ctx
            · refine .inr fun c' hc' => ?_
              have h6 : (tid, Ev.start j'.call j'.idx j'.key j'.tgt j'.ctx) ∈ st.log ++ [(tid, Ev.start j'.call j'.idx j'.key j'.tgt j'.ctx)] := by simp
              obtain ⟨th, h4⟩ := before hnr hord hr' hx hts (c := j'.tgt) (by rw [hsp, hj']) h6 c' hc'
              exact ⟨th, by simpa using h4⟩
            · intro c' hc' th c₀ i₀ key ctx₀ h4
              rcases List.mem_cons.1 hc' with rfl | hc'
              · exact hnew _ _ _ _ _ h4
              · obtain ⟨a, b, hab⟩ := List.append_of_mem hc'
                obtain ⟨th', h5⟩ := before hnr hord hr hx hts (pre := pre ++ c :: a) (cs := b) (c := c') (by rw [hsp, hab]; simp) h4 c (by simp)
                obtain ⟨l₁, l₂, hl⟩ := List.append_of_mem h5
                obtain ⟨c₁, i₁, ctx₁, h6⟩ := (hr.evOk _ _ _ hl : Runner.EvOk _ l₁ (th', Ev.finish c c none))
                exact hnew _ _ _ _ _ (Runner.sub_log hl h6)
          case act f k h1 =>
            cases ht'
            dsimp only at h1; subst h1
            exact hst st.world (.refl _ _)
          case callNil c k h1 => dsimp only at h1; subst h1; exact hst.elim
          case call c r rs k h1 => dsimp only at h1; subst h1; exact hst.elim
          case loopEnd c n ctx k h1 => dsimp only at h1; subst h1; exact hst.elim
          case refuse c n ctx r rs k e w' h1 h2 => dsimp only at h1; subst h1; exact hst.elim
          case spawn c n ctx o rs k tg w' h1 h2 => dsimp only at h1; subst h1; exact hst.elim
          case ret c k y h1 h2 h3 => dsimp only at h1; subst h1; exact hst.elim
        rcases th_cases hth hc ht' with h0 | hold | hlk
        · subst h0; exact moves _ _ ht' hj'
        · have hst := ih.run _ _ _ _ hx _ _ _ _ hts hsp _ _ _ hold hj'
          cases e' with
          | exec p =>
            have hp : Part s t j'.tgt := by rw [hj']; exact hts.part hcts
            have hmd := (hb.inside hnr hord hr hx hold rfl hp).1
            rcases stable _ _ _ _ hx hmd ts hts with h1 | ⟨j, h1, h2, h3⟩
            · exact makes_congr (fun _ _ => makesAll_congr (hgood _ _ _) _) h1 hst
            · subst h1
              cases one_at_a_time hnr hord hr hx hts hth hold h2 rfl rfl hj' h3 hcts
              exact moves _ _ ht' hj'
          | _ => exact hst
        · dsimp only at hlk; subst hlk; trivial
      refine ⟨⟨runPart, ?_⟩, ?_⟩
      · intro x t ins outs hx ts pre cs hts hsp hne hfin hno
        have hno' : ∀ c ∈ cs, ∀ th c₀ i₀ key ctx₀, (th, Ev.start c₀ i₀ key c ctx₀) ∉ st.log := fun c h1 th c₀ i₀ key ctx₀ h2 => hno c h1 _ _ _ _ _ (hsub _ h2)
        by_cases hall : ∀ c ∈ pre, ∃ th, (th, Ev.finish c c none) ∈ st.log
        · obtain ⟨a, b⟩ := ih.pause x t ins outs hx ts pre cs hts hsp hne hall hno'
          refine ⟨a.mono hsub, ?_⟩
          rcases stable _ _ _ _ hx a ts hts with h1 | ⟨j, h1, h2, h3⟩
          · exact makesAll_congr (hgood _ _ _) _ h1 b
          · exfalso
            subst h1
            have h4 := h3
            rw [hsp] at h4
            rcases List.mem_append.1 h4 with h5 | h5
            · obtain ⟨th, h6⟩ := hall _ h5
              exact ended _ _ _ _ hx _ hts _ _ _ hth h2 h3 _ _ _ h6
            · exact hno' _ h5 _ _ _ _ _ (hr.inv.b.started _ _ _ hth (Runner.TSt.owning_of_inBody h2))
        · -- a command has just ended
          push Not at hall
          obtain ⟨c, hcp, hc0⟩ := hall
          obtain ⟨th, hc1⟩ := hfin c hcp
          rcases new_finish hc hc1 with h1 | ⟨rfl, h1, h2, j, h3, -, h5⟩
          · exact absurd h1 (hc0 _)
          dsimp only at h2 h3; subst h2 h3
          obtain ⟨a, b, hab⟩ := List.append_of_mem hcp
          have hcts : c ∈ ts := by rw [hsp]; simp [hcp]
          have hp : Part s t j.tgt := by rw [h5]; exact hts.part hcts
          have hbnil : b = [] := by
            cases b with
            | nil => rfl
            | cons c' b =>
              exfalso
              obtain ⟨th', g1⟩ := hfin c' (by rw [hab]; simp)
              have hc't : c' ∈ ts := by rw [hsp, hab]; simp
              rcases new_finish hc g1 with g2 | ⟨rfl, g3, -⟩
              · obtain ⟨l₁, l₂, hl⟩ := List.append_of_mem g2
                obtain ⟨c₁, i₁, ctx₁, g3⟩ := (hr.evOk _ _ _ hl : Runner.EvOk _ l₁ (th', Ev.finish c' c' none))
                obtain ⟨th'', g4⟩ := before hnr hord hr hx hts (pre := a ++ [c]) (cs := b ++ cs) (c := c') (by rw [hsp, hab]; simp) (Runner.sub_log hl g3) c (by simp)
                exact hc0 _ g4
              · rw [h1] at g3
                simp only [List.append_cancel_left_eq, List.cons.injEq, Prod.mk.injEq, Ev.finish.injEq, true_and, and_true, and_self] at g3
                subst g3
                have hnd := hts.nodup
                rw [hsp, hab] at hnd
                simp [List.nodup_append] at hnd
          subst hbnil
          refine ⟨(hb.inside hnr hord hr hx hth rfl hp).1.mono hsub, ?_⟩
          have := ih.run _ _ _ _ hx ts a c cs hts (by rw [hsp, hab]; simp) _ _ _ hth h5
          rcases step_fs hc with ⟨f, k, hk, -⟩ | ⟨-, hfs, -⟩
          · cases hk
          · rw [hfs]; exact this rfl
      · intro x t ins outs hx th key hlog
        obtain ⟨ts, hts, -⟩ := hcmd x t ins outs hx
        have hfin : (th, Ev.finish key t none) ∈ st'.log := by rw [hlog]; simp
        rcases new_finish hc hfin with h1 | ⟨rfl, -, h2, j, h3, -, h5⟩
        · exfalso
          -- a second time is impossible
          exact absurd (hr'.inv.b.finOnce key) (by
            rw [hlog, Runner.finN_append, Runner.finN_cons, Runner.finN_nil]
            have : 0 < Runner.finN key st.log := by
              unfold Runner.finN
              rw [List.countP_pos_iff]
              exact ⟨_, h1, by simp [Ev.isFinish]⟩
            simp only [Ev.isFinish, beq_self_eq_true, if_true]
            omega)
        · dsimp only at h2 h3; subst h2 h3
          have hfs : st'.world.fs = st.world.fs := by
            rcases step_fs hc with ⟨f, k, hk, -⟩ | ⟨-, hfs, -⟩
            · cases hk
            · exact hfs
          rw [hfs]
          have hts' := hts
          rcases hts with ⟨hpl, rfl⟩ | ⟨hseq, hnd, hpl⟩
          · exact ih.run _ _ _ _ hx [t] [] t [] hts' rfl _ _ _ hth h5 rfl
          · have hbd : ∀ ctx, (buildEnv hex sum own s).body t ctx = seqBody (ts.map .ptr) ctx := fun ctx => by
              unfold buildEnv; dsimp only; rw [hseq]
            rcases Runner.C07_seq_result hbd hr' hlog with ⟨-, -, h6⟩ | ⟨n, r, c, ctx, e, e', h6, -⟩
            · refine rest x t ins outs hx ts ts [] hts' (by simp) (.inr fun c hc => ?_) (by simp)
              obtain ⟨o, th', tgt, f2, f3⟩ := h6 (.ptr c) (by simpa using hc)
              cases f2
              have f3 : (th', Ev.finish c tgt none) ∈ st.log := f3
              have := (canRun_stands (Runner.finish_tgt hr (o := c) (fun _ h => h) f3)).self (hord.parts _ _ _ _ _ hx (hts'.part hc)).1
              subst this
              exact ⟨th', f3⟩
            · cases h6

/-- **C78, lists of commands.** It is enough that rules are commands, or lists of different commands to be run one after the other, that do what they are
meant to do if nobody else changes the inputs and outputs meanwhile. -/
theorem C78_sequences {w : World ρ} {ctx : Ctx} {ls : List (Label (World ρ))} (hf : LooseBuild hex sum own s J os T w ctx ls)
    (hcmd : ∀ x t ins outs, FilesOf s os x t ins outs → ∃ ts, CmdList s t ts ∧
      ∀ fs, MakesAll own (ins ++ outs) (fun fs => (sitOf own J t ins outs fs).right R) ts fs) :
    RulesWork hex sum own s J os R w ctx ls := by
  have key : ∀ ls₁ ls₂, ls = ls₁ ++ ls₂ →
      ListInv own s J R os (buildRun hex sum own s os w ctx ls₁) := by
    intro ls₁
    induction ls₁ using List.reverseRecOn with
    | nil =>
      refine fun _ _ => ⟨?_, ?_⟩
      · intro x t ins outs _ ts pre c cs _ _ tid j e ht
        simp only [buildRun, Runner.runSched, Runner.init, State.th, List.getElem?_map, Option.map_eq_some_iff] at ht
        obtain ⟨p, -, hp⟩ := ht
        cases hp
      · intro x t ins outs _ ts pre cs _ _ hne hfin
        cases pre with
        | nil => exact absurd rfl hne
        | cons c pre =>
          obtain ⟨th, h⟩ := hfin c (by simp)
          simp [buildRun, Runner.runSched, Runner.init] at h
    | append_singleton ls₁ l ih =>
      intro ls₂ hls
      have hls' : ls = ls₁ ++ l :: ls₂ := by rw [hls]; simp
      exact ((ih _ hls').snoc hf hls' hcmd (buildInv_any hf ls₁ _ hls')).1
  intro ls₁ l ls₂ hls
  exact ((key _ _ hls).snoc hf hls hcmd (buildInv_any hf ls₁ _ hls)).2

end

end Fab.Yaml
