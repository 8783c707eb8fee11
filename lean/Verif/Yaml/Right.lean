import Verif.Yaml.Correct

/-!
# C78: builds are correct (continued)
-/

namespace Fab.Yaml
open Path Cmd Files
open Runner (Proc TRef Env Ev State Reach Label TSt Job Thread StepC step_cases allBody seqBody argBody nameBody hist)

section
variable {ρ : Type} {hex : Bytes → Str} {sum : Str → Str} {own : Own ρ} {s : St} {J : Nat → Json.J} {os : List Nat}

/-! ## Who runs what -/

/-- The caller of a job. -/
theorem asked_by (hown : ∀ o ctx, NoRun (own.body o ctx)) {w : World ρ} {ctx : Ctx} {st : State (World ρ) Ctx}
    (h : Reach (buildEnv hex sum own s) w [.call ctx (os.map .ptr) .ret] st) {t : Nat} {j : Job Ctx} {ts : TSt (World ρ) Ctx}
    (ht : st.th t = some ⟨some j, ts⟩) :
    Stands s j.key j.tgt ∧ (j.key ∈ os ∨ ∃ (t' : Nat) (j' : Job Ctx) (ts' : TSt (World ρ) Ctx), t' < t ∧ st.th t' = some ⟨some j', ts'⟩ ∧
      Uses s j'.tgt j.key ∧ (ts ≠ .done → ts'.within j.call = true)) := by
  obtain ⟨x, o, h1, h2, h3, h4, h5, h6⟩ := h.inv.c.job _ _ _ ht
  have hk : o = j.key := h3
  subst hk
  have hst : Stands s j.key j.tgt := by
    refine canRun_stands (hex := hex) (sum := sum) (own := own) ?_
    cases hr : (buildEnv hex sum own s).resolve j.key with
    | none => exact .inl ⟨hr, h5 hr⟩
    | some f =>
      obtain ⟨w, hw⟩ := h6 f hr
      exact .inr ⟨f, w, hr, hw⟩
  refine ⟨hst, ?_⟩
  obtain ⟨x', g1, g2⟩ := h.nest.older _ _ _ ht
  rw [h1] at g1; cases g1
  have hc : (x.tid, Ev.call j.call x.ctx x.refs) ∈ st.log := (h.inv.f.callEv _ _ _ _).1 (by unfold State.hdr; rw [h1]; rfl)
  have hm : TRef.ptr j.key ∈ x.refs := List.mem_of_getElem? h2
  obtain ⟨l₁, l₂, hl⟩ := List.append_of_mem hc
  rcases Runner.caller h hl with ⟨-, -, h7, -⟩ | ⟨c₁, i₁, key, tgt, ctx₁, k, h7, h8⟩
  · rw [h7] at hm
    exact .inl (by simpa using hm)
  · obtain ⟨j', ts', a1, a2, a3, a4, a5, a6, -⟩ := h.inv.f.startJob _ _ _ _ _ _ (Runner.sub_log hl h7)
    refine .inr ⟨x.tid, j', ts', g2, a1, ?_, fun hd => ?_⟩
    · rw [a5]
      exact mayAsk_below (body_below hown _ _) (h8.mayAsk (r := .ptr j.key) (.now hm))
    · rcases h.nest.within _ _ h1 with ⟨jb, ts'', b1, b2⟩ | hdone
      · rw [a1] at b1; cases b1; exact b2
      · exact absurd (hdone _ _ _ ht rfl) hd

theorem Stands.self {c t : Nat} (h : Stands s c t) (hn : ∀ name, s.heap[c]? ≠ some (.ref name)) : t = c := by
  rcases h with ⟨n, h1, -⟩ | ⟨-, rfl⟩
  · exact absurd h1 (hn n)
  · rfl

/-- What a goroutine works on. -/
def WorkKind (s : St) (os : List Nat) (j : Job Ctx) : Prop :=
  (Wanted s os j.key ∧ Stands s j.key j.tgt) ∨ (∃ z t ins outs, FilesOf s os z t ins outs ∧ Part s t j.tgt ∧ j.key = j.tgt)

theorem kind (hown : ∀ o ctx, NoRun (own.body o ctx)) (hord : Orderly own s J os) {w : World ρ} {ctx : Ctx} {st : State (World ρ) Ctx}
    (h : Reach (buildEnv hex sum own s) w [.call ctx (os.map .ptr) .ret] st) (t : Nat) :
    ∀ {j : Job Ctx} {ts : TSt (World ρ) Ctx}, st.th t = some ⟨some j, ts⟩ → WorkKind s os j := by
  induction t using Nat.strongRecOn with
  | ind t ih =>
    intro j ts ht
    obtain ⟨hst, hor⟩ := asked_by hown h ht
    rcases hor with ho | ⟨t', j', ts', hlt, ht', hu, -⟩
    · exact .inl ⟨.arg ho, hst⟩
    · have part : ∀ z t ins outs, FilesOf s os z t ins outs → Part s t j.key → WorkKind s os j := fun z t ins outs hf hp => by
        have := hst.self (hord.parts _ _ _ _ _ hf hp).1
        exact .inr ⟨z, t, ins, outs, hf, this ▸ hp, this.symm⟩
      rcases ih t' hlt ht' with ⟨k1, k2⟩ | ⟨z, t, ins, outs, k1, k2, k3⟩
      · cases hu with
        | needs hn => exact .inl ⟨.dep k1 k2 hn, hst⟩
        | files hf => exact part _ _ _ _ ⟨⟨_, k1, k2⟩, hf⟩ .self
      · obtain ⟨p1, p2⟩ := hord.parts _ _ _ _ _ k1 k2
        refine part _ _ _ _ k1 ?_
        cases hu with
        | needs hn =>
          cases hn with
          | all h hy => exact .all k2 h hy
          | seq h hy => exact .seq k2 h hy
          | arg h => exact .arg k2 h
          | input h => exact absurd h (p2 _ _ _)
          | name h => exact absurd h (p1 _)
        | files hf => exact absurd hf (p2 _ _ _)

theorem inBody_of_within {ts : TSt (World ρ) Ctx} {c : Nat} (h : ts.within c = true) : ts.inBody = true := by
  cases ts <;> simp_all [TSt.within, TSt.inBody]

/-- While a part of a rule is at work, so is the whole rule, and its Files target waits for it. -/
theorem inside (hown : ∀ o ctx, NoRun (own.body o ctx)) (hord : Orderly own s J os) {w : World ρ} {ctx : Ctx} {st : State (World ρ) Ctx}
    (h : Reach (buildEnv hex sum own s) w [.call ctx (os.map .ptr) .ret] st) {z tz : Nat} {ins outs : List Str} (hz : FilesOf s os z tz ins outs) (t : Nat) :
    ∀ {j : Job Ctx} {ts : TSt (World ρ) Ctx}, st.th t = some ⟨some j, ts⟩ → ts.inBody = true → Part s tz j.tgt →
      (∃ (t' : Nat) (j' : Job Ctx) (ts' : TSt (World ρ) Ctx), st.th t' = some ⟨some j', ts'⟩ ∧ ts'.inBody = true ∧ j'.tgt = tz ∧ j'.key = tz ∧
        ∃ (t'' : Nat) (j'' : Job Ctx) (ts'' : TSt (World ρ) Ctx), st.th t'' = some ⟨some j'', ts''⟩ ∧ ts''.within j'.call = true ∧ j''.tgt = z) := by
  induction t using Nat.strongRecOn with
  | ind t ih =>
    intro j ts ht hb hp
    have hnd : ts ≠ .done := by rintro rfl; cases hb
    have hno : ∀ {o}, Wanted s os o → ¬ Stands s o j.tgt := fun ho => hord.priv _ _ _ _ _ _ hz hp ho
    obtain ⟨hst, hor⟩ := asked_by hown h ht
    rcases kind hown hord h t ht with ⟨k1, k2⟩ | ⟨z', t', ins', outs', k1, k2, k3⟩
    · exact absurd k2 (hno k1)
    cases hord.apart _ _ _ _ _ _ _ _ _ hz k1 hp k2
    rcases hor with ho | ⟨tc, jc, tsc, hlt, htc, hu, hw⟩
    · exact absurd hst (hno (.arg ho))
    have hw := hw hnd
    rcases kind hown hord h tc htc with ⟨c1, c2⟩ | ⟨z', t', ins', outs', c1, c2, c3⟩
    · cases hu with
      | needs hn => exact absurd hst (hno (.dep c1 c2 hn))
      | files hf =>
        have hf' : FilesOf s os jc.tgt j.key _ _ := ⟨⟨_, c1, c2⟩, hf⟩
        have hp' : Part s j.key j.tgt := k3 ▸ Part.self
        have hz' := hord.apart _ _ _ _ _ _ _ _ _ hz hf' hp hp'
        subst hz'
        have := hz.2
        rw [hf] at this; cases this
        exact ⟨t, j, ts, ht, hb, k3.symm, rfl, tc, jc, tsc, htc, hw, rfl⟩
    · obtain ⟨p1, p2⟩ := hord.parts _ _ _ _ _ c1 c2
      have hp' : Part s t' j.tgt := by
        rw [k3] at hu
        cases hu with
        | needs hn =>
          cases hn with
          | all h hy => exact .all c2 h hy
          | seq h hy => exact .seq c2 h hy
          | arg h => exact .arg c2 h
          | input h => exact absurd h (p2 _ _ _)
          | name h => exact absurd h (p1 _)
        | files hf => exact absurd hf (p2 _ _ _)
      have hz' := hord.apart _ _ _ _ _ _ _ _ _ hz c1 hp hp'
      subst hz'
      have := hz.2
      rw [c1.2] at this; cases this
      exact ih tc hlt htc (inBody_of_within hw) c2

/-- A Files target is at work under one name only. -/
theorem files_key (hown : ∀ o ctx, NoRun (own.body o ctx)) (hord : Orderly own s J os) {w : World ρ} {ctx : Ctx} {st : State (World ρ) Ctx}
    (h : Reach (buildEnv hex sum own s) w [.call ctx (os.map .ptr) .ret] st) {x tx : Nat} {ins outs : List Str} (hx : FilesOf s os x tx ins outs)
    {t : Nat} {j : Job Ctx} {ts : TSt (World ρ) Ctx} (ht : st.th t = some ⟨some j, ts⟩) (hj : j.tgt = x) :
    Wanted s os j.key ∧ Stands s j.key x ∧ ∀ o, Wanted s os o → Stands s o x → j.key = o := by
  subst hj
  rcases kind hown hord h t ht with ⟨k1, k2⟩ | ⟨z, t', ins', outs', k1, k2, -⟩
  · exact ⟨k1, k2, fun o h1 h2 => hord.once _ _ _ _ _ _ hx k1 h1 k2 h2⟩
  · exact absurd hx.2 ((hord.parts _ _ _ _ _ k1 k2).2 _ _ _)

theorem same_thread {env : Env (World ρ) Ctx} {w : World ρ} {cl : List (P ρ)} {st : State (World ρ) Ctx} (h : Reach env w cl st)
    {t t' : Nat} {j j' : Job Ctx} {ts ts' : TSt (World ρ) Ctx} (ht : st.th t = some ⟨some j, ts⟩) (ht' : st.th t' = some ⟨some j', ts'⟩)
    (hb : ts.inBody = true) (hb' : ts'.inBody = true) (hk : j.key = j'.key) : t = t' := by
  obtain ⟨e, h1⟩ := h.inv.a.own _ _ _ ht (Runner.TSt.owning_of_inBody hb)
  obtain ⟨e', h2⟩ := h.inv.a.own _ _ _ ht' (Runner.TSt.owning_of_inBody hb')
  rw [hk, h2] at h1
  cases h1; rfl

theorem not_finished {env : Env (World ρ) Ctx} {w : World ρ} {cl : List (P ρ)} {st : State (World ρ) Ctx} (h : Reach env w cl st)
    {t : Nat} {j : Job Ctx} {ts : TSt (World ρ) Ctx} (ht : st.th t = some ⟨some j, ts⟩) (hb : ts.inBody = true) {th tgt raw}
    (hf : (th, Ev.finish j.key tgt raw) ∈ st.log) : False := by
  have := h.inv.b.body _ _ _ ht hb
  unfold Runner.finN at this
  rw [List.countP_eq_zero] at this
  exact this _ hf (by simp [Ev.isFinish])


/-! ## The invariant -/

/-- The targets that make the inputs have succeeded. -/
def MakersDone (s : St) (ins : List Str) (log : List (Nat × Ev (World ρ) Ctx)) : Prop :=
  ∀ i ∈ ins, ∀ z, findInFilesRegistry s.filesReg i = some z → ∃ th tgt, (th, Ev.finish z tgt none) ∈ log

theorem MakersDone.mono {ins : List Str} {log log' : List (Nat × Ev (World ρ) Ctx)} (h : MakersDone s ins log) (hl : ∀ e ∈ log, e ∈ log') :
    MakersDone s ins log' := fun i hi z hz => by
  obtain ⟨th, tgt, h1⟩ := h i hi z hz
  exact ⟨th, tgt, hl _ h1⟩

variable (hex sum own s J) (R : Meaning) (T : Sit → Prop)

/-- Where the goroutine of a Files target is. -/
def FilesSt (t : Nat) (ins outs : List Str) (tid : Nat) (log : List (Nat × Ev (World ρ) Ctx)) (fs : FS) : TSt (World ρ) Ctx → Prop
  | .exec p => Early hex sum own J R T t ins outs (pres s.filesReg ins) p ∨ MakersDone s ins log ∧ Sound hex sum own J R T t ins outs p fs
  | .spawning c _ _ _ k => CallSt c k
  | .joining c k => CallSt c k
  | _ => True
where
  CallSt (c : Nat) (k : Option Runner.Err → P ρ) : Prop := ∃ ctx refs, (tid, Ev.call c ctx refs) ∈ log ∧
    (refs = pres s.filesReg ins ∧ (∀ fs, Sound hex sum own J R T t ins outs (k none) fs) ∧
        (∀ e, Early hex sum own J R T t ins outs (pres s.filesReg ins) (k (some e))) ∨
     MakersDone s ins log ∧ refs = [.ptr t] ∧
        ∀ e fs', (e = none → (sitOf own J t ins outs fs').right R) → Sound hex sum own J R T t ins outs (k e) fs')

/-- Where everything is. -/
structure BuildInv (os : List Nat) (st : State (World ρ) Ctx) : Prop where
  honest : HonestWorld hex sum R T st.world
  files : ∀ x t ins outs, FilesOf s os x t ins outs → ∀ (tid : Nat) (j : Job Ctx) (ts : TSt (World ρ) Ctx), st.th tid = some ⟨some j, ts⟩ → j.tgt = x →
    FilesSt hex sum own s J R T t ins outs tid st.log st.world.fs ts
  fin : ∀ x t ins outs, FilesOf s os x t ins outs → ∀ th key, (th, Ev.finish key x none) ∈ st.log →
    MakersDone s ins st.log ∧ (sitOf own J t ins outs st.world.fs).right R
  rule : ∀ x t ins outs, FilesOf s os x t ins outs → ∀ th key, (th, Ev.finish key t none) ∈ st.log →
    MakersDone s ins st.log ∧ (sitOf own J t ins outs st.world.fs).right R

variable {hex sum own s J R T}

theorem FilesSt.mono {t : Nat} {ins outs : List Str} {tid : Nat} {log log' : List (Nat × Ev (World ρ) Ctx)} {fs fs' : FS} {ts : TSt (World ρ) Ctx}
    (h : FilesSt hex sum own s J R T t ins outs tid log fs ts) (hl : ∀ e ∈ log, e ∈ log')
    (hfs : ∀ p, ts = .exec p → MakersDone s ins log → Agree (ins ++ outs) fs fs') :
    FilesSt hex sum own s J R T t ins outs tid log' fs' ts := by
  have hc : ∀ c k, FilesSt.CallSt hex sum own s J R T t ins outs tid log c k → FilesSt.CallSt hex sum own s J R T t ins outs tid log' c k := by
    rintro c k ⟨ctx, refs, h1, h2⟩
    exact ⟨ctx, refs, hl _ h1, h2.imp id fun ⟨a, b⟩ => ⟨a.mono hl, b⟩⟩
  cases ts with
  | exec p => exact h.imp id fun ⟨a, b⟩ => ⟨a.mono hl, b.congr (hfs p rfl a)⟩
  | spawning c i ctx todo k => exact hc _ _ h
  | joining c k => exact hc _ _ h
  | _ => trivial

/-- The acting target changes only what it may change. -/
theorem act_changes {c : Nat} (hcmd : ¬ Composite s c → ∀ ctx, (own.body c ctx).Acts (Changes s os c)) {ctx : Ctx}
    (hnf : ∀ t ins outs, s.heap[c]? ≠ some (.files t ins outs)) {h : List (Runner.LEv (World ρ) Ctx)} {f k}
    (hr : Runner.Runs ((buildEnv hex sum own s).body c ctx) h (.at (.act f k))) (w : World ρ) : Changes s os c w (f w) := by
  have acts : ∀ {p : P ρ} {h pos}, p.Acts (Changes s os c) → Runner.Runs p h pos → (match pos with
      | .at q => q.Acts (Changes s os c)
      | .inCall _ k => ∀ e, (k e).Acts (Changes s os c)) := by
    intro p h pos hp hr
    induction hr with
    | nil => exact hp
    | act w _ ih => exact ih.2 w
    | call c _ ih => exact ih
    | ret e _ ih => exact ih e
  have key : ((buildEnv hex sum own s).body c ctx).Acts (Changes s os c) := by
    unfold buildEnv
    dsimp only
    have hseq : ∀ l : List TRef, (seqBody (σ := World ρ) l ctx).Acts (Changes s os c) := by
      intro l
      induction l with
      | nil => trivial
      | cons r l ih =>
        intro e
        cases e with
        | none => exact ih
        | some e => trivial
    split
    · exact fun e => trivial
    · exact hseq _
    · exact fun e => trivial
    · rename_i hh; exact absurd hh (hnf _ _ _)
    · rename_i name hh
      refine ⟨fun w => ?_, fun w => ?_⟩
      · unfold resolveName
        split <;> exact ⟨rfl, fun _ _ _ _ _ i _ => .inl ⟨rfl, fun _ _ => Iff.rfl⟩⟩
      · dsimp only
        split
        · trivial
        · exact fun e => trivial
    · rename_i h1 h2 h3 h4 h5
      refine hcmd ?_ _
      rintro (h | h | h | h | h)
      · exact h1 _ h
      · exact h2 _ h
      · exact h3 _ _ h
      · exact h5 _ h
      · exact h4 _ _ _ h
  exact (acts key hr).1 w


theorem makersDone_nil {ins : List Str} {log : List (Nat × Ev (World ρ) Ctx)} (h : pres s.filesReg ins = []) : MakersDone s ins log := by
  intro i hi z hz
  have : TRef.ptr z ∈ pres s.filesReg ins := mem_pres.2 ⟨i, hi, hz⟩
  rw [h] at this; simp at this

/-- Steps other than actions leave the files and the databases alone. -/
theorem step_fs {st st' : State (World ρ) Ctx} {tid : Nat} {th : Thread (World ρ) Ctx} (hc : StepC (buildEnv hex sum own s) st tid th st') :
    (∃ f k, th.st = .exec (.act f k) ∧ st'.world = f st.world ∧ st'.log = st.log ++ [(tid, .act st.world)] ∧
      st'.threads = st.threads.set tid ⟨th.job, .exec (k st.world)⟩) ∨
    (∀ f k, th.st ≠ .exec (.act f k)) ∧ st'.world.fs = st.world.fs ∧ st'.world.db = st.world.db := by
  have res : ∀ {o f w w' r}, (buildEnv hex sum own s).resolve o = some f → f w = (w', r) → w'.fs = w.fs ∧ w'.db = w.db := by
    intro o f w w' r h1 h2
    simp only [buildEnv] at h1
    split at h1
    · cases h1
      simp only [resolveName] at h2
      split at h2 <;> cases h2 <;> exact ⟨rfl, rfl⟩
    · cases h1
  cases hc
  case act f k h1 => exact .inl ⟨f, k, h1, rfl, rfl, rfl⟩
  case refuse c i ctx r rs k e w' h1 h2 =>
    refine .inr ⟨fun f k h => by (rw [h1] at h; cases h), ?_⟩
    rcases h2 with ⟨n, -, -, rfl⟩ | ⟨o, f, -, h3, h4⟩
    · exact ⟨rfl, rfl⟩
    · exact res h3 h4
  case spawn c i ctx o rs k t w' h1 h2 =>
    refine .inr ⟨fun f k h => by (rw [h1] at h; cases h), ?_⟩
    rcases h2 with ⟨-, -, rfl⟩ | ⟨f, h3, h4⟩
    · exact ⟨rfl, rfl⟩
    · exact res h3 h4
  all_goals exact .inr ⟨fun f k h => by simp_all, rfl, rfl⟩

theorem th_cases {env : Env (World ρ) Ctx} {st st' : State (World ρ) Ctx} {tid : Nat} {th : Thread (World ρ) Ctx} (hth : st.th tid = some th)
    (hc : StepC env st tid th st') {t : Nat} {x : Thread (World ρ) Ctx} (h : st'.th t = some x) : t = tid ∨ st.th t = some x ∨ x.st = .lookup := by
  cases hc <;> simp only [Runner.th_set hth, Runner.th_set_snoc hth] at h <;> split at h
  all_goals first
    | (rename_i h'; exact .inl h')
    | exact .inr (.inl h)
    | (cases h; exact .inr (.inr rfl))
    | (split at h <;> first | (rename_i h'; exact .inl h') | exact .inr (.inl h))

theorem new_finish {env : Env (World ρ) Ctx} {st st' : State (World ρ) Ctx} {tid : Nat} {th : Thread (World ρ) Ctx}
    (hc : StepC env st tid th st') {t key x raw} (h : (t, Ev.finish key x raw) ∈ st'.log) :
    (t, Ev.finish key x raw) ∈ st.log ∨ t = tid ∧ st'.log = st.log ++ [(tid, .finish key x raw)] ∧ th.st = .exec (.ret raw) ∧
      ∃ j, th.job = some j ∧ j.key = key ∧ j.tgt = x := by
  cases hc
  case finish e j h1 h2 =>
    rcases List.mem_append.1 h with h | h
    · exact .inl h
    · simp only [List.mem_singleton, Prod.mk.injEq, Ev.finish.injEq] at h
      obtain ⟨rfl, rfl, rfl, rfl⟩ := h
      exact .inr ⟨rfl, rfl, h1, j, h2, rfl, rfl⟩
  all_goals exact .inl (by simpa using h)

theorem client_still {c : Ctx} {refs : List TRef} {h pos} (hr : Runner.Runs (.call c refs .ret : P ρ) h pos) : ∀ f k, pos ≠ .at (.act f k) := by
  have : (∃ q, pos = .at q ∧ (q = .call c refs .ret ∨ ∃ e, q = .ret e)) ∨ ∃ n, pos = .inCall n .ret := by
    induction hr with
    | nil => exact .inl ⟨_, rfl, .inl rfl⟩
    | act w _ ih =>
      rcases ih with ⟨q, h1, h2⟩ | ⟨n, h1⟩
      · cases h1; rcases h2 with h2 | ⟨e, h2⟩ <;> cases h2
      · cases h1
    | call n _ ih =>
      rcases ih with ⟨q, h1, h2⟩ | ⟨n, h1⟩
      · cases h1
        rcases h2 with h2 | ⟨e, h2⟩ <;> cases h2
        exact .inr ⟨_, rfl⟩
      · cases h1
    | ret e _ ih =>
      rcases ih with ⟨q, h1, h2⟩ | ⟨n, h1⟩
      · cases h1
      · cases h1; exact .inl ⟨_, rfl, .inr ⟨e, rfl⟩⟩
  intro f k hp
  rcases this with ⟨q, h1, h2⟩ | ⟨n, h1⟩
  · rw [h1] at hp; cases hp; rcases h2 with h2 | ⟨e, h2⟩ <;> cases h2
  · rw [h1] at hp; cases hp

/-- If the goroutine is about to do something for a target that is not composite, then that target changes only what it should change. -/
def Acting (s : St) (os : List Nat) (own : Own ρ) (st : State (World ρ) Ctx) (tid : Nat) : Prop :=
  ∀ (j : Job Ctx) f k, st.th tid = some ⟨some j, .exec (.act f k)⟩ → MayRun s os j.tgt → ¬ Composite s j.tgt → ∀ ctx, (own.body j.tgt ctx).Acts (Changes s os j.tgt)

theorem Acting.of (h : ∀ c ctx, MayRun s os c → ¬ Composite s c → (own.body c ctx).Acts (Changes s os c)) {st : State (World ρ) Ctx} {tid : Nat} :
    Acting s os own st tid := fun _ _ _ _ h1 h2 ctx => h _ ctx h1 h2

section step
variable (hown : ∀ o ctx, NoRun (own.body o ctx)) (hord : Orderly own s J os) 
  {w : World ρ} {ctx : Ctx} {st st' : State (World ρ) Ctx} (hr : Reach (buildEnv hex sum own s) w [.call ctx (os.map .ptr) .ret] st)
include hown hord hr

/-- While a rule is at work, its Files target has the inputs. -/
theorem BuildInv.inside (i : BuildInv hex sum own s J R T os st) {x tx : Nat} {ins outs : List Str} (hx : FilesOf s os x tx ins outs)
    {t : Nat} {j : Job Ctx} {ts : TSt (World ρ) Ctx} (ht : st.th t = some ⟨some j, ts⟩) (hb : ts.inBody = true) (hp : Part s tx j.tgt) :
    MakersDone s ins st.log ∧ (∀ th key raw, (th, Ev.finish key x raw) ∉ st.log) ∧ (∀ th key raw, (th, Ev.finish key tx raw) ∉ st.log) ∧
    ∀ (t' : Nat) (j' : Job Ctx) (ts' : TSt (World ρ) Ctx), st.th t' = some ⟨some j', ts'⟩ → j'.tgt = x → ∀ p, ts' ≠ .exec p := by
  obtain ⟨t', j', ts', h1, h2, h3, h4, t'', j'', ts'', g1, g2, g3⟩ := Fab.Yaml.inside hown hord hr hx t ht hb hp
  have hnr := (hord.parts _ _ _ _ _ hx .self).1
  have hpriv : ∀ o, Wanted s os o → ¬ Stands s o tx := fun o ho => hord.priv _ _ _ _ _ _ hx .self ho
  have gb := inBody_of_within g2
  obtain ⟨k1, k2, k3⟩ := files_key hown hord hr hx g1 g3
  have job_of : ∀ th key tgt raw, (th, Ev.finish key tgt raw) ∈ st.log → ∃ j ts, st.th th = some ⟨some j, ts⟩ ∧ j.key = key ∧ j.tgt = tgt := by
    intro th key tgt raw hf
    obtain ⟨l₁, l₂, hl⟩ := List.append_of_mem hf
    obtain ⟨c, i, ctx', h5⟩ := (hr.evOk _ _ _ hl : Runner.EvOk _ l₁ (th, Ev.finish key tgt raw))
    obtain ⟨j, ts, a1, -, -, a4, a5, -⟩ := hr.inv.f.startJob _ _ _ _ _ _ (Runner.sub_log hl h5)
    exact ⟨j, ts, a1, a4, a5⟩
  refine ⟨?_, ?_, ?_, ?_⟩
  · have hst := i.files x tx ins outs hx t'' j'' ts'' g1 g3
    have hcs : ∃ k, FilesSt.CallSt hex sum own s J R T tx ins outs t'' st.log j'.call k := by
      cases ts'' with
      | spawning c n ctx todo k => simp [TSt.within] at g2; subst g2; exact ⟨k, hst⟩
      | joining c k => simp [TSt.within] at g2; subst g2; exact ⟨k, hst⟩
      | _ => cases g2
    obtain ⟨k, ctx', refs, e1, ⟨rfl, -⟩ | ⟨e2, -⟩⟩ := hcs
    · exfalso
      obtain ⟨y, o, f1, f2, f3, -⟩ := hr.inv.c.job _ _ _ h1
      have f3 : o = j'.key := f3
      have hc : (y.tid, Ev.call j'.call y.ctx y.refs) ∈ st.log := (hr.inv.f.callEv _ _ _ _).1 (by unfold State.hdr; rw [f1]; rfl)
      obtain ⟨-, -, hrefs⟩ := Runner.call_uniq hr hc e1
      have hm := List.mem_of_getElem? f2
      rw [hrefs, f3, h4] at hm
      obtain ⟨n, hn, hf⟩ := mem_pres.1 hm
      exact hpriv _ (.dep k1 k2 (.input hx.2 hn hf)) (.inr ⟨hnr, rfl⟩)
    · exact e2
  · intro th key raw hf
    obtain ⟨jf, tf, a1, a2, a3⟩ := job_of _ _ _ _ hf
    obtain ⟨b1, b2, -⟩ := files_key hown hord hr hx a1 a3
    rw [← a2, ← k3 _ b1 b2] at hf
    exact not_finished hr g1 gb hf
  · intro th key raw hf
    obtain ⟨jf, tf, a1, a2, a3⟩ := job_of _ _ _ _ hf
    rcases kind hown hord hr th a1 with ⟨b1, b2⟩ | ⟨z, t, ins', outs', -, -, b3⟩
    · exact hpriv _ b1 (a3 ▸ b2)
    · rw [← a2, b3, a3, ← h4] at hf
      exact not_finished hr h1 h2 hf
  · rintro t₁ j₁ ts₁ ht₁ hj₁ p rfl
    obtain ⟨b1, b2, -⟩ := files_key hown hord hr hx ht₁ hj₁
    have := same_thread hr g1 ht₁ gb rfl (k3 _ b1 b2)
    subst this
    rw [g1] at ht₁; cases ht₁
    cases g2

/-- What a step does to the world. -/
theorem BuildInv.world (i : BuildInv hex sum own s J R T os st)
    (hT : ∀ x t ins outs, FilesOf s os x t ins outs → T (sitOf own J t ins outs st.world.fs)) {tid : Nat} {th : Thread (World ρ) Ctx}
    (hcmd : Acting s os own st tid) (hth : st.th tid = some th) (hc : StepC (buildEnv hex sum own s) st tid th st') :
    HonestWorld hex sum R T st'.world ∧ ∀ y t ins outs, FilesOf s os y t ins outs → MakersDone s ins st.log →
      Agree (ins ++ outs) st.world.fs st'.world.fs ∨ ∃ j, th.job = some j ∧ th.st.inBody = true ∧ Part s t j.tgt := by
  obtain ⟨jb, ts⟩ := th
  rcases step_fs hc with ⟨f, k, hts, hw, -, -⟩ | ⟨-, hfs, hdb⟩
  · dsimp only at hts; subst hts
    rw [hw]
    obtain ⟨p, ho, hp⟩ := hr.localInv.pos _ _ _ hth
    cases jb with
    | none =>
      exfalso
      have hlt := (List.getElem?_eq_some_iff.1 (show [Proc.call ctx (os.map TRef.ptr) .ret][tid]? = some p from ho)).1
      simp only [List.length_singleton] at hlt
      obtain rfl : tid = 0 := by omega
      have ho : some (Proc.call ctx (os.map TRef.ptr) .ret) = some p := ho
      cases ho
      exact client_still hp _ _ rfl
    | some j =>
      cases ho
      have hmay : MayRun s os j.tgt := (C76_build hown hr).1 _ _ _ _ _ _ (hr.inv.b.started _ _ _ hth rfl)
      by_cases hf : ∃ t ins outs, s.heap[j.tgt]? = some (.files t ins outs)
      · obtain ⟨t, ins, outs, hf⟩ := hf
        have hx : FilesOf s os j.tgt t ins outs := by
          rcases kind hown hord hr tid hth with ⟨k1, k2⟩ | ⟨z, t', ins', outs', k1, k2, -⟩
          · exact ⟨⟨_, k1, k2⟩, hf⟩
          · exact absurd hf ((hord.parts _ _ _ _ _ k1 k2).2 _ _ _)
        have key : (f st.world).fs = st.world.fs ∧ HonestWorld hex sum R T (f st.world) := by
          rcases i.files _ _ _ _ hx _ _ _ hth rfl with ⟨rfl, -⟩ | ⟨-, h1⟩
          · exact ⟨rfl, i.honest⟩
          · obtain ⟨a, b, -⟩ := h1 st.world (.refl _ _) i.honest (hT _ _ _ _ hx)
            exact ⟨a, b⟩
        exact ⟨key.2, fun y t ins outs _ _ => .inl (by rw [key.1]; exact .refl _ _)⟩
      · have hch := act_changes (hcmd j _ _ hth hmay) (fun t ins outs h => hf ⟨t, ins, outs, h⟩) hp st.world
        refine ⟨fun d => by rw [hch.1]; exact i.honest d, fun y t ins outs hy hmd => ?_⟩
        by_cases hpt : Part s t j.tgt
        · exact .inr ⟨j, rfl, rfl, hpt⟩
        · refine .inl fun n hn => ?_
          rcases hch.2 y t ins outs hy n hn with h1 | ⟨z, t', ins', outs', hz, hp', rfl | ⟨hin, hmk⟩⟩
          · exact h1
          · have := hz.2
            rw [hy.2] at this; cases this
            exact absurd hp' hpt
          · exfalso
            obtain ⟨th, tgt, hfin⟩ := hmd n hin z hmk
            have hsz : Stands s z z := .inr ⟨fun name h => by (rw [hz.2] at h; cases h), rfl⟩
            have htgt : tgt = z := by
              obtain ⟨l₁, l₂, hl⟩ := List.append_of_mem hfin
              have := Runner.finish_tgt hr (o := z) (fun _ h => h) hfin
              exact (canRun_stands this).uniq hsz
            subst htgt
            exact (i.inside hown hord hr hz hth rfl hp').2.1 _ _ _ hfin
  · refine ⟨fun d => by rw [hdb]; exact i.honest d, fun y t ins outs _ _ => .inl (by rw [hfs]; exact .refl _ _)⟩

theorem BuildInv.step (i : BuildInv hex sum own s J R T os st) (hno : HashTells hex sum R T)
    (hT : ∀ x t ins outs, FilesOf s os x t ins outs → T (sitOf own J t ins outs st.world.fs)) {tid : Nat} (hcmd : Acting s os own st tid)
    (hs : Runner.step (buildEnv hex sum own s) st tid = some st')
    (hrule : ∀ x t ins outs, FilesOf s os x t ins outs → ∀ th key, st'.log = st.log ++ [(th, Ev.finish key t none)] →
      (sitOf own J t ins outs st'.world.fs).right R) : BuildInv hex sum own s J R T os st' := by
  obtain ⟨⟨jb, ts⟩, hth, hc⟩ := step_cases hs
  have hr' : Reach (buildEnv hex sum own s) w [.call ctx (os.map .ptr) .ret] st' := .step (.thread tid) hr hs
  obtain ⟨l, hl⟩ := Runner.log_mono hc
  have hsub : ∀ e ∈ st.log, e ∈ st'.log := fun e he => by rw [hl]; exact List.mem_append_left _ he
  obtain ⟨hon, hstab⟩ := i.world hown hord hr hT hcmd hth hc
  refine ⟨hon, ?_, ?_, ?_⟩
  · intro x t ins outs hx t' j' ts' ht' hj'
    rcases th_cases hth hc ht' with rfl | hold | hlk
    · -- the goroutine that moves
      obtain ⟨ts₀, h1, -⟩ := Runner.th_persist hth hc hth
      rw [ht'] at h1; cases h1
      have hst := i.files _ _ _ _ hx _ _ _ hth hj'
      have hpos := hr.localInv.pos _ _ _ hth
      have stay : ∀ c k, FilesSt.CallSt hex sum own s J R T t ins outs t' st.log c k → FilesSt.CallSt hex sum own s J R T t ins outs t' st'.log c k := by
        rintro c k ⟨ctx, refs, h1, h2⟩
        exact ⟨ctx, refs, hsub _ h1, h2.imp id fun ⟨a, b⟩ => ⟨a.mono hsub, b⟩⟩
      cases hc
      all_goals simp only [Runner.th_set hth, Runner.th_set_snoc hth, if_true] at ht'
      case lookupHit => cases ht'; trivial
      case wake => cases ht'; trivial
      case readOut => cases ht'; trivial
      case finish => cases ht'; trivial
      case clientDone => cases ht'; trivial
      case setErrs => cases ht'; trivial
      case setOut => cases ht'; trivial
      case openGate => cases ht'; trivial
      case wgDone => cases ht'; trivial
      case lookupNew j h1 h2 h3 =>
        cases ht'
        cases h2
        have hb : (buildEnv hex sum own s).body j'.tgt j'.ctx = withReg s.filesReg (filesBody hex sum ⟨.ptr t, own.typ t, own.desc t, ins, outs⟩ j'.ctx) := by
          simp only [buildEnv, hj', hx.2]
        show FilesSt hex sum own s J R T t ins outs t' _ _ (.exec _)
        rw [hb]
        rcases files_sound (R := R) (outs := outs) (ins := ins) (reg := s.filesReg) hno (hord.desc _ _ _ _ hx) j'.ctx with ⟨h4, h5⟩ | h4
        · exact .inr ⟨makersDone_nil h4, h5 _⟩
        · exact .inl h4
      case act f k h1 =>
        cases ht'
        dsimp only at h1; subst h1
        rcases hst with ⟨rfl, h2⟩ | ⟨h2, h3⟩
        · exact .inl (h2 _)
        · obtain ⟨a, b, c⟩ := h3 st.world (.refl _ _) i.honest (hT _ _ _ _ hx)
          refine .inr ⟨h2.mono hsub, ?_⟩
          dsimp only
          rw [a]; exact c
      case callNil c k h1 =>
        cases ht'
        dsimp only at h1; subst h1
        rcases hst with ⟨h2, h3, -⟩ | ⟨h2, h3, -⟩
        · exact .inr ⟨makersDone_nil h2.symm, h3 _⟩
        · cases h3
      case call c r rs k h1 =>
        cases ht'
        dsimp only at h1; subst h1
        refine ⟨c, r :: rs, by simp, ?_⟩
        rcases hst with ⟨h2, h3, h4⟩ | ⟨h2, h3, h4⟩
        · exact .inl ⟨h2, h3, h4⟩
        · exact .inr ⟨h2.mono hsub, h3, h4⟩
      case loopEnd c n ctx k h1 =>
        cases ht'
        dsimp only at h1; subst h1
        exact stay _ _ hst
      case refuse c n ctx r rs k e w' h1 h2 =>
        cases ht'
        dsimp only at h1; subst h1
        exact stay _ _ hst
      case spawn c n ctx o rs k tg w' h1 h2 =>
        dsimp only at h1; subst h1
        split at ht'
        · cases ht'; trivial
        · cases ht'
          exact stay _ _ hst
      case ret c k y h1 h2 h3 =>
        cases ht'
        dsimp only at h1; subst h1
        obtain ⟨ctx', refs, h4, h5⟩ := hst
        show FilesSt hex sum own s J R T t ins outs t' _ _ (.exec _)
        have hok : Runner.errJoin y.errs = none → ∀ r ∈ refs, Runner.FinishedOK (buildEnv hex sum own s) (st.log ++ [(t', Ev.ret c (Runner.errJoin y.errs))]) r := by
          intro he
          refine Runner.ok_of_ret_none hr' (l₂ := []) (t := t') (t' := t') (c := c) (ctx := ctx') (by simp) (List.mem_append_left _ h4) ?_
          rw [he]; simp
        rcases h5 with ⟨rfl, h6, h7⟩ | ⟨h6, rfl, h7⟩
        · cases he : Runner.errJoin y.errs with
          | some e => exact .inl (h7 e)
          | none =>
            refine .inr ⟨?_, h6 _⟩
            intro n hn z hz
            obtain ⟨o, th, tgt, a1, a2⟩ := hok he (.ptr z) (mem_pres.2 ⟨n, hn, hz⟩)
            cases a1
            rw [he] at a2
            exact ⟨th, tgt, a2⟩
        · refine .inr ⟨h6.mono hsub, h7 _ _ fun he => ?_⟩
          obtain ⟨o, th, tgt, a1, a2⟩ := hok he (.ptr t) (by simp)
          cases a1
          have a2 : (th, Ev.finish t tgt none) ∈ st.log ++ [(t', Ev.ret c (Runner.errJoin y.errs))] := a2
          have a3 : (th, Ev.finish t tgt none) ∈ st.log := by simpa using a2
          have hcan := Runner.finish_tgt hr (o := t) (fun _ h => h) a3
          have htg := (canRun_stands hcan).self (hord.parts _ _ _ _ _ hx .self).1
          subst htg
          exact (i.rule _ _ _ _ hx _ _ a3).2
    · refine (i.files _ _ _ _ hx _ _ _ hold hj').mono hsub fun p hp hmd => ?_
      rcases hstab _ _ _ _ hx hmd with h1 | ⟨j, h1, h2, h3⟩
      · exact h1
      · dsimp only at h1; subst h1
        exact absurd hp ((i.inside hown hord hr hx hth h2 h3).2.2.2 _ _ _ hold hj' _)
    · dsimp only at hlk; subst hlk; trivial
  · intro x t ins outs hx th key hf
    rcases new_finish hc hf with hold | ⟨rfl, h1, h2, j, h3, h4, h5⟩
    · obtain ⟨h1, h2⟩ := i.fin _ _ _ _ hx _ _ hold
      refine ⟨h1.mono hsub, ?_⟩
      rcases hstab _ _ _ _ hx h1 with h3 | ⟨j, h3, h4, h5⟩
      · exact (right_congr h3).1 h2
      · dsimp only at h3; subst h3
        exact absurd hold ((i.inside hown hord hr hx hth h4 h5).2.1 _ _ _)
    · dsimp only at h2 h3; subst h2 h3
      rcases i.files _ _ _ _ hx _ _ _ hth h5 with h6 | ⟨h6, h7⟩
      · exact absurd rfl h6
      · refine ⟨h6.mono hsub, ?_⟩
        rcases step_fs hc with ⟨f, k, hts, -⟩ | ⟨-, hfs, -⟩
        · cases hts
        · rw [hfs]; exact h7 rfl
  · intro x t ins outs hx th key hf
    rcases new_finish hc hf with hold | ⟨rfl, h1, h2, j, h3, h4, h5⟩
    · obtain ⟨h1, h2⟩ := i.rule _ _ _ _ hx _ _ hold
      refine ⟨h1.mono hsub, ?_⟩
      rcases hstab _ _ _ _ hx h1 with h3 | ⟨j, h3, h4, h5⟩
      · exact (right_congr h3).1 h2
      · dsimp only at h3; subst h3
        exact absurd hold ((i.inside hown hord hr hx hth h4 h5).2.2.1 _ _ _)
    · dsimp only at h2 h3; subst h2 h3
      refine ⟨?_, hrule _ _ _ _ hx _ _ h1⟩
      exact (i.inside hown hord hr hx hth rfl (h5 ▸ Part.self)).1.mono hsub

end step

/-! ## The theorem -/

theorem runSched_append {env : Env (World ρ) Ctx} (a b : List (Label (World ρ))) (st : State (World ρ) Ctx) :
    Runner.runSched env st (a ++ b) = Runner.runSched env (Runner.runSched env st a) b := by
  induction a generalizing st with
  | nil => rfl
  | cons l a ih => exact ih _

/-- What comes of a build of the targets `os`, in the world `w`, if goroutines and others move as in `ls`. -/
def buildRun (hex : Bytes → Str) (sum : Str → Str) (own : Own ρ) (s : St) (os : List Nat) (w : World ρ) (ctx : Ctx) (ls : List (Label (World ρ))) :
    State (World ρ) Ctx :=
  Runner.runSched (buildEnv hex sum own s) (Runner.init w [.call ctx (os.map .ptr) .ret]) ls

variable (hex sum own s J R T os)

/-- What is asked of a build in which the rules may do anything.
* `noRun`: commands do not run targets (they have no way to do it);
* `apart`: see there;
* `cmds`: commands change only what they should change;
* `outside`: everything outside fab does not change these files, nor add to the databases;
* `sits`: the situations that come up are among `T`. -/
structure NearlyFair (w : World ρ) (ctx : Ctx) (ls : List (Label (World ρ))) : Prop where
  noRun : ∀ o ctx, NoRun (own.body o ctx)
  apart : RulesApart own s J os
  cmds : ∀ c ctx, MayRun s os c → ¬ Composite s c → (own.body c ctx).Acts (Changes s os c)
  outside : ∀ f, .extern f ∈ ls → ∀ w, Untouched s os w (f w)
  sits : ∀ ls₁ ls₂, ls = ls₁ ++ ls₂ → ∀ x t ins outs, FilesOf s os x t ins outs →
    T (sitOf own J t ins outs (buildRun hex sum own s os w ctx ls₁).world.fs)

/-- ... and that no target is needed under two names. -/
structure FairBuild (w : World ρ) (ctx : Ctx) (ls : List (Label (World ρ))) : Prop extends NearlyFair hex sum own s J os T w ctx ls where
  once : NeededOnce s os

/-- What is asked of a build if it does not matter what is in the database: as `FairBuild`, but others may add anything to the databases. -/
structure LooseBuild (w : World ρ) (ctx : Ctx) (ls : List (Label (World ρ))) : Prop where
  noRun : ∀ o ctx, NoRun (own.body o ctx)
  orderly : Orderly own s J os
  cmds : ∀ c ctx, MayRun s os c → ¬ Composite s c → (own.body c ctx).Acts (Changes s os c)
  outside : ∀ f, .extern f ∈ ls → ∀ w, ∀ y t ins outs, FilesOf s os y t ins outs → ∀ i ∈ ins ++ outs, SameFile w.fs (f w).fs i
  sits : ∀ ls₁ ls₂, ls = ls₁ ++ ls₂ → ∀ x t ins outs, FilesOf s os x t ins outs →
    T (sitOf own J t ins outs (buildRun hex sum own s os w ctx ls₁).world.fs)

/-- The rules do what they are meant to do: when the rule of a Files target has run successfully then the outputs of that target are what they are meant
to be. -/
def RulesWork (w : World ρ) (ctx : Ctx) (ls : List (Label (World ρ))) : Prop :=
  ∀ ls₁ l ls₂, ls = ls₁ ++ l :: ls₂ → ∀ x t ins outs, FilesOf s os x t ins outs → ∀ th key,
    (buildRun hex sum own s os w ctx (ls₁ ++ [l])).log = (buildRun hex sum own s os w ctx ls₁).log ++ [(th, Ev.finish key t none)] →
    (sitOf own J t ins outs (buildRun hex sum own s os w ctx (ls₁ ++ [l])).world.fs).right R

variable {hex sum own s J R T os}

theorem FairBuild.orderly {w : World ρ} {ctx : Ctx} {ls : List (Label (World ρ))} (h : FairBuild hex sum own s J os T w ctx ls) : Orderly own s J os :=
  ⟨h.apart, h.once⟩

theorem FairBuild.loose {w : World ρ} {ctx : Ctx} {ls : List (Label (World ρ))} (h : FairBuild hex sum own s J os T w ctx ls) :
    LooseBuild hex sum own s J os T w ctx ls := ⟨h.noRun, h.orderly, h.cmds, fun f hf w => (h.outside f hf w).2, h.sits⟩

instance {w : World ρ} {ctx : Ctx} {ls : List (Label (World ρ))} : Coe (FairBuild hex sum own s J os T w ctx ls) (LooseBuild hex sum own s J os T w ctx ls) := ⟨FairBuild.loose⟩

theorem buildRun_reach {w : World ρ} {ctx : Ctx} {ls : List (Label (World ρ))} :
    Reach (buildEnv hex sum own s) w [.call ctx (os.map .ptr) .ret] (buildRun hex sum own s os w ctx ls) := Runner.runSched_reach _ .init

theorem buildRun_snoc {w : World ρ} {ctx : Ctx} {ls : List (Label (World ρ))} {l : Label (World ρ)} :
    buildRun hex sum own s os w ctx (ls ++ [l]) =
      (Runner.lstep (buildEnv hex sum own s) (buildRun hex sum own s os w ctx ls) l).getD (buildRun hex sum own s os w ctx ls) := by
  unfold buildRun
  rw [runSched_append]; rfl

/-- The invariant holds as long as the rules work. -/
theorem BuildInv.snoc (hno : HashTells hex sum R T) {w : World ρ} {ctx : Ctx} {ls ls₁ ls₂ : List (Label (World ρ))} {l : Label (World ρ)}
    (hf : LooseBuild hex sum own s J os T w ctx ls) (hls : ls = ls₁ ++ l :: ls₂)
    (hgain : ∀ f, .extern f ∈ ls → ∀ w, HonestWorld hex sum R T w → HonestWorld hex sum R T (f w))
    (hrule : ∀ x t ins outs, FilesOf s os x t ins outs → ∀ th key,
      (buildRun hex sum own s os w ctx (ls₁ ++ [l])).log = (buildRun hex sum own s os w ctx ls₁).log ++ [(th, Ev.finish key t none)] →
      (sitOf own J t ins outs (buildRun hex sum own s os w ctx (ls₁ ++ [l])).world.fs).right R)
    (ih : BuildInv hex sum own s J R T os (buildRun hex sum own s os w ctx ls₁)) :
    BuildInv hex sum own s J R T os (buildRun hex sum own s os w ctx (ls₁ ++ [l])) := by
  have hr := buildRun_reach (hex := hex) (sum := sum) (own := own) (s := s) (os := os) (w := w) (ctx := ctx) (ls := ls₁)
  have hT := hf.sits ls₁ _ hls
  rw [buildRun_snoc] at hrule ⊢
  generalize buildRun hex sum own s os w ctx ls₁ = st at *
  cases l with
  | extern f =>
    have hu := hf.outside f (by rw [hls]; simp) st.world
    have hag : ∀ x t ins outs, FilesOf s os x t ins outs → Agree (ins ++ outs) st.world.fs (f st.world).fs := fun x t ins outs hx i hi => hu x t ins outs hx i hi
    refine ⟨fun d => ?_, ?_, ?_, ?_⟩
    · exact hgain f (by rw [hls]; simp) st.world ih.honest d
    · intro x t ins outs hx tid j ts ht hj
      exact (ih.files _ _ _ _ hx tid j ts ht hj).mono (fun e h => h) fun _ _ _ => hag _ _ _ _ hx
    · intro x t ins outs hx th key h
      obtain ⟨a, b⟩ := ih.fin _ _ _ _ hx th key h
      exact ⟨a, (right_congr (hag _ _ _ _ hx)).1 b⟩
    · intro x t ins outs hx th key h
      obtain ⟨a, b⟩ := ih.rule _ _ _ _ hx th key h
      exact ⟨a, (right_congr (hag _ _ _ _ hx)).1 b⟩
  | thread tid =>
    cases hs : Runner.lstep (buildEnv hex sum own s) st (.thread tid) with
    | none => exact ih
    | some st' =>
      rw [hs] at hrule
      exact ih.step hf.noRun hf.orderly hr hno hT (.of hf.cmds) hs hrule

theorem BuildInv.start {w : World ρ} {ctx : Ctx} (hw : HonestWorld hex sum R T w) : BuildInv hex sum own s J R T os (buildRun hex sum own s os w ctx []) := by
  refine ⟨hw, ?_, ?_, ?_⟩
  · intro x t ins outs _ tid j ts ht
    simp only [buildRun, Runner.runSched, Runner.init, State.th, List.getElem?_map, Option.map_eq_some_iff] at ht
    obtain ⟨p, -, hp⟩ := ht
    cases hp
  · intro x t ins outs _ th key h; simp [buildRun, Runner.runSched, Runner.init] at h
  · intro x t ins outs _ th key h; simp [buildRun, Runner.runSched, Runner.init] at h

theorem BuildInv.all (hno : NoCollision hex sum T) {w : World ρ} {ctx : Ctx} {ls : List (Label (World ρ))} (hf : FairBuild hex sum own s J os T w ctx ls)
    (hrule : RulesWork hex sum own s J os R w ctx ls) (hw : ∀ d, HonestDB hex sum R T (w.db d)) :
    ∀ ls₁ ls₂, ls = ls₁ ++ ls₂ → BuildInv hex sum own s J R T os (buildRun hex sum own s os w ctx ls₁) := by
  intro ls₁
  induction ls₁ using List.reverseRecOn with
  | nil => exact fun _ _ => .start hw
  | append_singleton ls₁ l ih =>
    intro ls₂ hls
    have hls' : ls = ls₁ ++ l :: ls₂ := by rw [hls]; simp
    exact .snoc hno.tells hf.loose hls' (fun f hm w hh d h hd => hh d h ((hf.outside f hm w).1 d h hd)) (hrule ls₁ l ls₂ hls') (ih _ hls')

/-- Nothing is asked of what the rules do. -/
def Anything : Meaning := fun _ _ _ _ => True

theorem buildInv_any {w : World ρ} {ctx : Ctx} {ls : List (Label (World ρ))} {T : Sit → Prop} (hf : LooseBuild hex sum own s J os T w ctx ls) :
    ∀ ls₁ ls₂, ls = ls₁ ++ ls₂ → BuildInv hex sum own s J Anything T os (buildRun hex sum own s os w ctx ls₁) := by
  intro ls₁
  induction ls₁ using List.reverseRecOn with
  | nil => exact fun _ _ => .start (R := Anything) fun _ _ _ _ _ _ => trivial
  | append_singleton ls₁ l ih =>
    intro ls₂ hls
    have hls' : ls = ls₁ ++ l :: ls₂ := by rw [hls]; simp
    exact .snoc (R := Anything) (fun _ _ _ _ _ _ _ _ => trivial) hf hls' (fun _ _ _ _ _ _ _ _ _ _ => trivial) (fun _ _ _ _ _ _ _ _ => (trivial : Anything ..)) (ih _ hls')

/-- **C78.** A build of `os`, in any order of the goroutines.  Suppose that
* the project is orderly, and commands and everything outside fab change only what they should (`FairBuild`);
* no two different situations that come up have the same hash (`NoCollision`);
* the rules do what they are meant to do, when they are run (`RulesWork`);
* the databases are honest at the beginning (for example, empty).

Then the databases are honest at the end; and if the build returns nil then the outputs of all Files targets that it needs are what they are meant to be:
also of those whose rules were not run. -/
theorem C78_correct (hno : NoCollision hex sum T) {w : World ρ} {ctx : Ctx} {ls : List (Label (World ρ))} (hf : FairBuild hex sum own s J os T w ctx ls)
    (hrule : RulesWork hex sum own s J os R w ctx ls) (hw : ∀ d, HonestDB hex sum R T (w.db d)) {st : State (World ρ) Ctx}
    (hst : st = buildRun hex sum own s os w ctx ls) :
    (∀ d, HonestDB hex sum R T (st.world.db d)) ∧
    ∀ c, (0, Ev.ret c none) ∈ st.log → ∀ x t ins outs, FilesOf s os x t ins outs → (sitOf own J t ins outs st.world.fs).right R := by
  subst hst
  have hi := BuildInv.all hno hf hrule hw ls [] (by simp)
  refine ⟨hi.honest, fun c hret x t ins outs hx => ?_⟩
  obtain ⟨o, ho, hso⟩ := hx.1
  obtain ⟨t', th, h1, h2⟩ := ((C76_build hf.noRun buildRun_reach).2 c none hret).2 rfl o ho
  cases h1.uniq hso
  exact (hi.fin _ _ _ _ hx _ _ h2).2

/-! ## Rules that are commands -/

/-- A process, when nobody else changes the files `l`, which are now as in `fs`: if it ends with nil then the files have the property `good`. -/
def _root_.Fab.Runner.Proc.Makes (l : List Str) (good : FS → Prop) : P ρ → FS → Prop
  | .ret e, fs => e = none → good fs
  | .act f k, fs => ∀ w, Agree l fs w.fs → (k w).Makes l good (f w).fs
  | .call _ _ _, _ => False

theorem makes_congr {l : List Str} {good : FS → Prop} (hg : ∀ fs fs', Agree l fs fs' → good fs → good fs') {p : P ρ} {fs fs' : FS} (h : Agree l fs fs')
    (hp : p.Makes l good fs) : p.Makes l good fs' := by
  cases p with
  | ret e => exact fun he => hg _ _ h (hp he)
  | act f k => exact fun w hw => hp w (h.trans hw)
  | call => exact hp

theorem part_plain {t c : Nat} (ht : ¬ Composite s t) (h : Part s t c) : c = t := by
  induction h with
  | self => rfl
  | all _ h1 _ ih => subst ih; exact absurd (.all h1) ht
  | seq _ h1 _ ih => subst ih; exact absurd (.seq h1) ht
  | arg _ h1 ih => subst ih; exact absurd (.arg h1) ht

/-- Where the goroutines of the rules are. -/
def CmdInv (own : Own ρ) (s : St) (J : Nat → Json.J) (R : Meaning) (os : List Nat) (st : State (World ρ) Ctx) : Prop :=
  ∀ x t ins outs, FilesOf s os x t ins outs → ∀ (tid : Nat) (j : Job Ctx) (ts : TSt (World ρ) Ctx), st.th tid = some ⟨some j, ts⟩ → j.tgt = t →
    match ts with
    | .exec p => p.Makes (ins ++ outs) (fun fs => (sitOf own J t ins outs fs).right R) st.world.fs
    | .spawning .. => False
    | .joining .. => False
    | _ => True

/-- Another process, or the user, changes something else. -/
theorem BuildInv.extern {st : State (World ρ) Ctx} (ih : BuildInv hex sum own s J R T os st) {w' : World ρ} (hh : HonestWorld hex sum R T w')
    (hag : ∀ x t ins outs, FilesOf s os x t ins outs → Agree (ins ++ outs) st.world.fs w'.fs) : BuildInv hex sum own s J R T os { st with world := w' } := by
  refine ⟨hh, ?_, ?_, ?_⟩
  · intro x t ins outs hx tid j ts ht hj
    exact (ih.files _ _ _ _ hx tid j ts ht hj).mono (fun e h => h) fun _ _ _ => hag _ _ _ _ hx
  · intro x t ins outs hx th key h
    obtain ⟨a, b⟩ := ih.fin _ _ _ _ hx th key h
    exact ⟨a, (right_congr (hag _ _ _ _ hx)).1 b⟩
  · intro x t ins outs hx th key h
    obtain ⟨a, b⟩ := ih.rule _ _ _ _ hx th key h
    exact ⟨a, (right_congr (hag _ _ _ _ hx)).1 b⟩

theorem CmdInv.extern {st : State (World ρ) Ctx} (ih : CmdInv own s J R os st) {w' : World ρ}
    (hag : ∀ x t ins outs, FilesOf s os x t ins outs → Agree (ins ++ outs) st.world.fs w'.fs) : CmdInv own s J R os { st with world := w' } := by
  intro x t ins outs hx tid j ts ht hj
  have := ih x t ins outs hx tid j ts ht hj
  cases ts with
  | exec p => exact makes_congr (fun fs fs' h => (right_congr h).1) (hag x t ins outs hx) this
  | _ => exact this

theorem CmdInv.step (hown : ∀ o ctx, NoRun (own.body o ctx)) (hord : Orderly own s J os) {w : World ρ} {ctx : Ctx} {st st' : State (World ρ) Ctx}
    (hr : Reach (buildEnv hex sum own s) w [.call ctx (os.map .ptr) .ret] st)
    (hT : ∀ x t ins outs, FilesOf s os x t ins outs → T (sitOf own J t ins outs st.world.fs)) {tid : Nat} (hcmds : Acting s os own st tid)
    (hcmd : ∀ x t ins outs, FilesOf s os x t ins outs → ¬ Composite s t ∧
      ∀ ctx fs, (own.body t ctx).Makes (ins ++ outs) (fun fs => (sitOf own J t ins outs fs).right R) fs)
    {R' : Meaning} (hb : BuildInv hex sum own s J R' T os st) (ih : CmdInv own s J R os st)
    (hs : Runner.step (buildEnv hex sum own s) st tid = some st') :
    CmdInv own s J R os st' ∧ ∀ x t ins outs, FilesOf s os x t ins outs → ∀ th key, st'.log = st.log ++ [(th, Ev.finish key t none)] →
      (sitOf own J t ins outs st'.world.fs).right R := by
  have hgood : ∀ t ins outs fs fs', Agree (ins ++ outs) fs fs' → (sitOf own J t ins outs fs).right R → (sitOf own J t ins outs fs').right R :=
    fun t ins outs fs fs' h => (right_congr h).1
  obtain ⟨⟨jb, ts⟩, hth, hc⟩ := step_cases hs
  obtain ⟨-, hstab⟩ := hb.world hown hord hr hT hcmds hth hc
  constructor
  · intro x t ins outs hx t' j' ts' ht' hj'
    obtain ⟨hpl, hmk⟩ := hcmd x t ins outs hx
    rcases th_cases hth hc ht' with rfl | hold | hlk
    · obtain ⟨ts₀, h1, -⟩ := Runner.th_persist hth hc hth
      rw [ht'] at h1; cases h1
      have hst := ih _ _ _ _ hx _ _ _ hth hj'
      cases hc
      all_goals simp only [Runner.th_set hth, Runner.th_set_snoc hth, if_true] at ht'
      case lookupHit => cases ht'; trivial
      case wake => cases ht'; trivial
      case readOut => cases ht'; trivial
      case finish => cases ht'; trivial
      case clientDone => cases ht'; trivial
      case setErrs => cases ht'; trivial
      case setOut => cases ht'; trivial
      case openGate => cases ht'; trivial
      case wgDone => cases ht'; trivial
      case lookupNew j h1 h2 h3 =>
        cases ht'
        cases h2
        have hbody : (buildEnv hex sum own s).body j'.tgt j'.ctx = own.body t j'.ctx := by
          rw [hj']
          unfold buildEnv
          dsimp only
          split
          · rename_i h; exact absurd (.all h) hpl
          · rename_i h; exact absurd (.seq h) hpl
          · rename_i h; exact absurd (.arg h) hpl
          · rename_i h; exact absurd (.files h) hpl
          · rename_i h; exact absurd (.name h) hpl
          · rfl
        dsimp only
        rw [hbody]
        exact hmk _ _
      case act f k h1 =>
        cases ht'
        dsimp only at h1; subst h1
        exact hst st.world (.refl _ _)
      case callNil c k h1 => dsimp only at h1; subst h1; exact hst.elim
      case call c r rs k h1 => dsimp only at h1; subst h1; exact hst.elim
      case loopEnd c n ctx k h1 => dsimp only at h1; subst h1; exact hst.elim
      case refuse c n ctx r rs k e w' h1 h2 => dsimp only at h1; subst h1; exact hst.elim
      case spawn c n ctx o rs k tg w' h1 h2 => dsimp only at h1; subst h1; exact hst.elim
      case ret c k y h1 h2 h3 => dsimp only at h1; subst h1; exact hst.elim
    · have hst := ih _ _ _ _ hx _ _ _ hold hj'
      cases ts' with
      | exec p =>
        have hp : Part s t j'.tgt := hj' ▸ .self
        have hmd := (hb.inside hown hord hr hx hold rfl hp).1
        rcases hstab _ _ _ _ hx hmd with h1 | ⟨j, h1, h2, h3⟩
        · exact makes_congr (hgood _ _ _) h1 hst
        · dsimp only at h1; subst h1
          have h4 := part_plain hpl h3
          have key : ∀ (j : Job Ctx) (t₀ : Nat) (ts₀ : TSt (World ρ) Ctx), st.th t₀ = some ⟨some j, ts₀⟩ → j.tgt = t → j.key = t := by
            intro j t₀ ts₀ h5 h6
            rcases kind hown hord hr t₀ h5 with ⟨k1, k2⟩ | ⟨_, _, _, _, -, -, k3⟩
            · exact absurd (h6 ▸ k2) (hord.priv _ _ _ _ _ _ hx .self k1)
            · rw [k3, h6]
          have := same_thread hr hth hold h2 rfl ((key _ _ _ hth h4).trans (key _ _ _ hold hj').symm)
          subst this
          cases (show some _ = some _ from (show st.th tid = _ from hth).symm.trans hold)
          -- the goroutine that moves, again
          obtain ⟨ts₁, g1, -⟩ := Runner.th_persist hth hc hth
          cases hc
          all_goals simp only [Runner.th_set hth, Runner.th_set_snoc hth, if_true] at ht'
          case act f k g2 =>
            dsimp only at g2; cases g2
            simp only [Option.some.injEq, Thread.mk.injEq, TSt.exec.injEq, true_and] at ht'
            rw [← ht']
            exact hst st.world (.refl _ _)
          case callNil c k g2 => dsimp only at g2; cases g2; exact hst.elim
          all_goals simp_all
      | _ => exact hst
    · dsimp only at hlk; subst hlk; trivial
  · intro x t ins outs hx th key hlog
    rcases new_finish hc (t := th) (key := key) (x := t) (raw := none) (by rw [hlog]; simp) with h1 | ⟨rfl, -, h2, j, h3, -, h5⟩
    · exfalso
      -- a second time is impossible
      have hr' : Reach (buildEnv hex sum own s) w [.call ctx (os.map .ptr) .ret] st' := .step (.thread tid) hr hs
      exact absurd (hr'.inv.b.finOnce key) (by
        rw [hlog, Runner.finN_append, Runner.finN_cons, Runner.finN_nil]
        have : 0 < Runner.finN key st.log := by
          unfold Runner.finN
          rw [List.countP_pos_iff]
          exact ⟨_, h1, by simp [Ev.isFinish]⟩
        simp only [Ev.isFinish, beq_self_eq_true, if_true]
        omega)
    · dsimp only at h2 h3; subst h2 h3
      have := ih _ _ _ _ hx _ _ _ hth h5
      rcases step_fs hc with ⟨f, k, hts, -⟩ | ⟨-, hfs, -⟩
      · cases hts
      · rw [hfs]; exact this rfl

theorem CmdInv.snoc {w : World ρ} {ctx : Ctx} {ls ls₁ ls₂ : List (Label (World ρ))} {l : Label (World ρ)}
    (hf : LooseBuild hex sum own s J os T w ctx ls) (hls : ls = ls₁ ++ l :: ls₂)
    (hcmd : ∀ x t ins outs, FilesOf s os x t ins outs → ¬ Composite s t ∧
      ∀ ctx fs, (own.body t ctx).Makes (ins ++ outs) (fun fs => (sitOf own J t ins outs fs).right R) fs)
    {R' : Meaning} (hb : BuildInv hex sum own s J R' T os (buildRun hex sum own s os w ctx ls₁))
    (ih : CmdInv own s J R os (buildRun hex sum own s os w ctx ls₁)) :
    CmdInv own s J R os (buildRun hex sum own s os w ctx (ls₁ ++ [l])) ∧ ∀ x t ins outs, FilesOf s os x t ins outs → ∀ th key,
      (buildRun hex sum own s os w ctx (ls₁ ++ [l])).log = (buildRun hex sum own s os w ctx ls₁).log ++ [(th, Ev.finish key t none)] →
      (sitOf own J t ins outs (buildRun hex sum own s os w ctx (ls₁ ++ [l])).world.fs).right R := by
  have hr := buildRun_reach (hex := hex) (sum := sum) (own := own) (s := s) (os := os) (w := w) (ctx := ctx) (ls := ls₁)
  have hT := hf.sits ls₁ _ hls
  rw [buildRun_snoc]
  generalize buildRun hex sum own s os w ctx ls₁ = st at *
  have nolog : ∀ {st' : State (World ρ) Ctx}, st'.log = st.log → ∀ x t ins outs, FilesOf s os x t ins outs → ∀ th key,
      st'.log = st.log ++ [(th, Ev.finish key t none)] → (sitOf own J t ins outs st'.world.fs).right R := by
    intro st' h1 x t ins outs _ th key h2
    rw [h1] at h2
    have := congrArg List.length h2
    simp at this
  cases l with
  | extern f =>
    have hu := hf.outside f (by rw [hls]; simp) st.world
    exact ⟨ih.extern fun x t ins outs hx i hi => hu x t ins outs hx i hi, nolog rfl⟩
  | thread tid =>
    cases hs : Runner.lstep (buildEnv hex sum own s) st (.thread tid) with
    | none => exact ⟨ih, nolog rfl⟩
    | some st' =>
      exact ih.step hf.noRun hf.orderly hr hT (.of hf.cmds) hcmd hb hs

/-- **C78, commands.** It is enough that rules are commands that do what they are meant to do if nobody else changes the inputs and outputs meanwhile. -/
theorem C78_commands {w : World ρ} {ctx : Ctx} {ls : List (Label (World ρ))} (hf : LooseBuild hex sum own s J os T w ctx ls)
    (hcmd : ∀ x t ins outs, FilesOf s os x t ins outs → ¬ Composite s t ∧
      ∀ ctx fs, (own.body t ctx).Makes (ins ++ outs) (fun fs => (sitOf own J t ins outs fs).right R) fs) :
    RulesWork hex sum own s J os R w ctx ls := by
  have key : ∀ ls₁ ls₂, ls = ls₁ ++ ls₂ → CmdInv own s J R os (buildRun hex sum own s os w ctx ls₁) := by
    intro ls₁
    induction ls₁ using List.reverseRecOn with
    | nil =>
      intro _ _ x t ins outs _ tid j ts ht
      simp only [buildRun, Runner.runSched, Runner.init, State.th, List.getElem?_map, Option.map_eq_some_iff] at ht
      obtain ⟨p, -, hp⟩ := ht
      cases hp
    | append_singleton ls₁ l ih =>
      intro ls₂ hls
      have hls' : ls = ls₁ ++ l :: ls₂ := by rw [hls]; simp
      exact ((ih _ hls').snoc hf hls' hcmd (buildInv_any hf ls₁ _ hls')).1
  intro ls₁ l ls₂ hls
  exact ((key _ _ hls).snoc hf hls hcmd (buildInv_any hf ls₁ _ hls)).2

end

end Fab.Yaml
