import Verif.Runner.Inv

/-!
# The runner: properties C01 - C04, C11

Every theorem is about an arbitrary `Env` (arbitrary target bodies), an arbitrary list of clients and an arbitrary
reachable state, i.e. every schedule cut off at an arbitrary moment.
-/

namespace Fab.Runner
variable {σ C : Type}

/-! ## Specification vocabulary -/

/-- Activation `c` of `Run` was asked for `r` as its element number `i`. -/
def Requested (log : List (Nat × Ev σ C)) (c i : Nat) (r : TRef) : Prop :=
  ∃ t ctx refs, (t, Ev.call c ctx refs) ∈ log ∧ refs[i]? = some r

/-- How often the `Run` method of target object `x` was entered. -/
def runsOf (x : Obj) (log : List (Nat × Ev σ C)) : Nat :=
  log.countP fun e => match e.2 with
    | .start _ _ _ tgt _ => tgt == x
    | _ => false

/-- How often `Run` was called / returned. -/
def callsN (log : List (Nat × Ev σ C)) : Nat :=
  log.countP fun e => match e.2 with | .call .. => true | _ => false
def retsN (log : List (Nat × Ev σ C)) : Nat :=
  log.countP fun e => match e.2 with | .ret .. => true | _ => false

/-- No by-name references: every target is passed as itself. -/
def Env.NoNames (env : Env σ C) : Prop := ∀ o, env.resolve o = none

/-- Distinct target objects have distinct addresses. -/
def Env.DistinctAddrs (env : Env σ C) : Prop := ∀ o o', env.addr o = env.addr o' → o = o'

/-! ## Helper lemmas -/

theorem Always.mem {P : List (Nat × Ev σ C) → Nat × Ev σ C → Prop} {log} (h : Always P log) {e} (he : e ∈ log) :
    ∃ l₁ l₂, log = l₁ ++ e :: l₂ ∧ P l₁ e := by
  obtain ⟨l₁, l₂, hl⟩ := List.append_of_mem he
  exact ⟨l₁, l₂, hl, h _ _ _ hl⟩

theorem runSched_reach {env : Env σ C} {w : σ} {cl : List (Proc σ C)} (ls : List (Label σ)) {s : State σ C}
    (h : Reach env w cl s) : Reach env w cl (runSched env s ls) := by
  induction ls generalizing s with
  | nil => exact h
  | cons l ls ih =>
    simp only [runSched]
    cases hs : lstep env s l with
    | none => exact ih h
    | some s' => exact ih (.step l h hs)

theorem reach_callN {env : Env σ C} {w : σ} {cl : List (Proc σ C)} {s : State σ C} (h : Reach env w cl s) :
    callsN s.log = retsN s.log + s.depth := by
  induction h with
  | init => simp [callsN, retsN, Runner.init]
  | @step s s' l hr hs ih =>
    cases l with
    | extern f =>
      simp only [lstep, Option.some.injEq] at hs
      subst hs
      exact ih
    | thread tid =>
      obtain ⟨th, hth, hc⟩ := step_cases hs
      have hpos : ∀ c k, th.st = .joining c k → 0 < s.depth := by
        intro c k hst
        rw [hr.inv.d.depth]
        apply List.countP_pos_iff.2
        exact ⟨th, List.mem_of_getElem? hth, by simp [hst, TSt.inCall]⟩
      cases hc <;> simp only [callsN, retsN, List.countP_append, List.countP_cons, List.countP_nil] at * <;>
        first | omega | (simp; done) | (simp; omega) | skip
      case ret c k x h1 h2 h3 => have := hpos c k h1; simp; omega

/-- A start of a target, decomposed: it was requested through a reference with that address. -/
theorem start_ok {env : Env σ C} {w : σ} {cl : List (Proc σ C)} {s : State σ C} (h : Reach env w cl s)
    {t c i key tgt ctx} (hm : (t, Ev.start c i key tgt ctx) ∈ s.log) :
    ∃ t' refs o, (t', Ev.call c ctx refs) ∈ s.log ∧ refs[i]? = some (.ptr o) ∧ env.addr o = key ∧
      (env.resolve o = none → tgt = o) ∧ (∀ f, env.resolve o = some f → ∃ w, (f w).2 = .ok tgt) := by
  obtain ⟨l₁, l₂, hl, -, t', refs, o, h1, h2⟩ := h.evOk.mem hm
  exact ⟨t', refs, o, by rw [hl]; exact List.mem_append_left _ h1, h2⟩

theorem call_uniq {env : Env σ C} {w : σ} {cl : List (Proc σ C)} {s : State σ C} (h : Reach env w cl s)
    {t t' c ctx ctx' refs refs'} (h1 : (t, Ev.call c ctx refs) ∈ s.log) (h2 : (t', Ev.call c ctx' refs') ∈ s.log) :
    t = t' ∧ ctx = ctx' ∧ refs = refs' := by
  have := (h.inv.f.callEv c t ctx refs).2 h1
  have h' := (h.inv.f.callEv c t' ctx' refs').2 h2
  rw [this] at h'
  simpa using h'

theorem finN_two {key : Addr} {l : List (Nat × Ev σ C)} (h : finN key l ≤ 1) {t t' tgt tgt' raw raw'}
    (h1 : (t, Ev.finish key tgt raw) ∈ l) (h2 : (t', Ev.finish key tgt' raw') ∈ l) :
    tgt = tgt' ∧ raw = raw' := by
  unfold finN at h
  induction l with
  | nil => simp at h1
  | cons a l ih =>
    simp only [List.countP_cons] at h
    have self : ∀ tgt raw, (Ev.finish key tgt raw : Ev σ C).isFinish key = true := by simp [Ev.isFinish]
    have none : l.countP (fun e => e.2.isFinish key) = 0 → ∀ t tgt raw, (t, Ev.finish key tgt raw) ∉ l := by
      intro h0 t tgt raw hm
      exact (List.countP_eq_zero.1 h0) _ hm (by simp [Ev.isFinish])
    rcases List.mem_cons.1 h1 with rfl | h1'
    · rcases List.mem_cons.1 h2 with h2' | h2'
      · cases h2'; exact ⟨rfl, rfl⟩
      · exact absurd h2' (none (by simp only [self, if_true] at h; omega) _ _ _)
    · rcases List.mem_cons.1 h2 with rfl | h2'
      · exact absurd h1' (none (by simp only [self, if_true] at h; omega) _ _ _)
      · exact ih (by omega) h1' h2'

/-! ## C01: a target runs at most once per controller -/

/-- Full form, per reference address: for every schedule, under each address a `Run` method is entered at most once. -/
theorem C01_at_most_once_per_address {env : Env σ C} {w : σ} {cl : List (Proc σ C)} {s : State σ C}
    (h : Reach env w cl s) (key : Addr) : startN key s.log ≤ 1 := h.inv.b.once key

/-- `C01` for programs without by-name references.
Missing for the full property: by-name references, for which it is false (`C01_counterexample_by_name`). -/
theorem C01_at_most_once_partial {env : Env σ C} {w : σ} {cl : List (Proc σ C)} {s : State σ C}
    (hn : env.NoNames) (h : Reach env w cl s) (x : Obj) : runsOf x s.log ≤ 1 := by
  refine Nat.le_trans ?_ (h.inv.b.once (env.addr x))
  unfold runsOf startN
  apply List.countP_mono_left
  rintro ⟨t, e⟩ hm
  cases e <;> simp [Ev.isStart]
  rintro rfl
  obtain ⟨t', refs, o, h1, h2, h3, h4, -⟩ := start_ok h hm
  rw [h4 (hn o)] at *
  exact h3.symm

/-- With by-name references: the number of runs of a target is at most the number of distinct addresses through
which it was asked for (the target's own and those of the name-reference objects that resolve to it). -/
theorem C01_bound_with_names {env : Env σ C} {w : σ} {cl : List (Proc σ C)} {s : State σ C}
    (h : Reach env w cl s) (x : Obj) (keys : List Addr)
    (hk : ∀ o, (o = x ∨ ∃ f w', env.resolve o = some f ∧ (f w').2 = .ok x) → env.addr o ∈ keys) :
    runsOf x s.log ≤ keys.length := by
  have key : ∀ t c i k ctx, (t, Ev.start c i k x ctx) ∈ s.log → k ∈ keys := by
    intro t c i k ctx hm
    obtain ⟨t', refs, o, h1, h2, h3, h4, h5⟩ := start_ok h hm
    rw [← h3]
    apply hk
    cases hr : env.resolve o with
    | none => exact Or.inl (h4 hr).symm
    | some f => obtain ⟨w', hw⟩ := h5 f hr; exact Or.inr ⟨f, w', rfl, hw⟩
  have gen : ∀ (keys : List Addr) (log : List (Nat × Ev σ C)), (∀ k, startN k log ≤ 1) →
      (∀ t c i k ctx, (t, Ev.start c i k x ctx) ∈ log → k ∈ keys) → runsOf x log ≤ keys.length := by
    intro keys
    induction keys with
    | nil =>
      intro log _ h2
      have : runsOf x log = 0 := by
        unfold runsOf
        rw [List.countP_eq_zero]
        rintro ⟨t, e⟩ hm
        cases e <;> simp
        rintro rfl
        simpa using h2 _ _ _ _ _ hm
      omega
    | cons k ks ih =>
      intro log h1 h2
      let p : Nat × Ev σ C → Bool := fun e => !(e.2.isStart k)
      have hle : runsOf x log ≤ runsOf x (log.filter p) + startN k log := by
        unfold runsOf startN
        rw [List.countP_filter]
        clear h1 h2 ih
        induction log with
        | nil => simp
        | cons a l ihl =>
          simp only [List.countP_cons]
          obtain ⟨t, e⟩ := a
          cases e <;> simp_all [p, Ev.isStart] <;> grind
      have h3 := ih (log.filter p)
        (fun k' => Nat.le_trans (List.Sublist.countP_le (List.filter_sublist)) (h1 k'))
        (by
          intro t c i k' ctx hm
          have hm' := List.mem_filter.1 hm
          have := h2 _ _ _ _ _ hm'.1
          rcases List.mem_cons.1 this with rfl | h'
          · simp [p, Ev.isStart] at hm'
          · exact h')
      have := h1 k
      simp only [List.length_cons]
      omega
  exact gen keys s.log h.inv.b.once key

/-- A target that was asked for has run when the asking call returns: nothing is skipped by mistake.  Needs distinct
addresses: see `C01_counterexample_shared_address`. -/
theorem C01_requested_targets_run {env : Env σ C} {w : σ} {cl : List (Proc σ C)} {s : State σ C}
    (hn : env.NoNames) (ha : env.DistinctAddrs) (h : Reach env w cl s) {t c e i x}
    (hret : (t, Ev.ret c e) ∈ s.log) (hreq : Requested s.log c i (.ptr x)) : runsOf x s.log = 1 := by
  obtain ⟨l₁, l₂, hl, ctx, refs, h1, -, outs, h3, -, h5⟩ := h.evOk.mem hret
  have hsub : ∀ y, y ∈ l₁ → y ∈ s.log := fun y hy => by rw [hl]; exact List.mem_append_left _ hy
  obtain ⟨t', ctx', refs', h6, h7⟩ := hreq
  obtain ⟨-, -, rfl⟩ := call_uniq h (hsub _ h1) h6
  have hi : i < outs.length := by rw [h3]; exact (List.getElem?_eq_some_iff.1 h7).1
  have hstart : ∃ t c i key ctx, (t, Ev.start c i key x ctx) ∈ s.log := by
    rcases h5 i outs[i] (by simp) with ⟨t₁, e₁, hr, -⟩ | ⟨o, t₁, tgt, raw, ho, hf, -⟩
    · obtain ⟨ctx₁, refs₁, hh, hw⟩ := h.inv.f.refWhy _ _ _ _ (hsub _ hr)
      have hh' := (h.inv.f.callEv c _ _ _).2 h6
      rw [hh'] at hh
      simp only [Option.some.injEq, Prod.mk.injEq] at hh
      obtain ⟨-, -, rfl⟩ := hh
      rcases hw with ⟨n, hv, -⟩ | ⟨o, f, w', hv, hf, -⟩
      · rw [h7] at hv; cases hv
      · rw [hn o] at hf; cases hf
    · rw [h7] at ho
      simp only [Option.some.injEq, TRef.ptr.injEq] at ho
      subst ho
      obtain ⟨l₃, l₄, hl', c', i', ctx', hs⟩ := h.evOk.mem (hsub _ hf)
      have hs' : (t₁, Ev.start c' i' (env.addr x) tgt ctx') ∈ s.log := by
        rw [hl']; exact List.mem_append_left _ hs
      obtain ⟨t₂, refs₂, o₂, -, -, ha₂, hr₂, -⟩ := start_ok h hs'
      have := ha _ _ ha₂
      have := hr₂ (hn _)
      subst_vars
      exact ⟨_, _, _, _, _, hs'⟩
  obtain ⟨t₀, c₀, i₀, k₀, ctx₀, hs⟩ := hstart
  have hpos : 0 < runsOf x s.log := List.countP_pos_iff.2 ⟨_, hs, by simp⟩
  have := C01_at_most_once_partial hn h x
  omega

/-! ## C02: all requests for one target see one outcome -/

/-- Any two results obtained through the same address are equal. -/
theorem C02_same_result {env : Env σ C} {w : σ} {cl : List (Proc σ C)} {s : State σ C} (h : Reach env w cl s)
    {t₁ t₂ c₁ c₂ i₁ i₂ e₁ e₂ o₁ o₂}
    (hr₁ : (t₁, Ev.result c₁ i₁ e₁) ∈ s.log) (hr₂ : (t₂, Ev.result c₂ i₂ e₂) ∈ s.log)
    (hq₁ : Requested s.log c₁ i₁ (.ptr o₁)) (hq₂ : Requested s.log c₂ i₂ (.ptr o₂))
    (ho : env.addr o₁ = env.addr o₂) : e₁ = e₂ := by
  obtain ⟨l₁, l₂, hl, t', ctx, refs, o, h1, h2, t'', tgt, raw, h3, h4⟩ := h.evOk.mem hr₁
  obtain ⟨m₁, m₂, hm, u', ctx', refs', o', g1, g2, u'', tgt', raw', g3, g4⟩ := h.evOk.mem hr₂
  have hs : ∀ y, y ∈ l₁ → y ∈ s.log := fun y hy => by rw [hl]; exact List.mem_append_left _ hy
  have hs' : ∀ y, y ∈ m₁ → y ∈ s.log := fun y hy => by rw [hm]; exact List.mem_append_left _ hy
  obtain ⟨_, _, _, a1, a2⟩ := hq₁
  obtain ⟨_, _, _, b1, b2⟩ := hq₂
  obtain ⟨-, -, rfl⟩ := call_uniq h (hs _ h1) a1
  obtain ⟨-, -, rfl⟩ := call_uniq h (hs' _ g1) b1
  rw [h2] at a2; rw [g2] at b2
  cases a2; cases b2
  have h3' := hs _ h3
  rw [ho] at h3'
  obtain ⟨rfl, rfl⟩ := finN_two (h.inv.b.finOnce _) h3' (hs' _ g3)
  rw [h4, g4]

/-- What a caller is told when the `Run` method of `tgt` returned the given result: nil if it was nil; an error is reported
as "running <tgt>: <error>". -/
def reported (tgt : Obj) : Option Err → Option Err
  | none => none
  | some e => some (.running tgt e)

theorem wrapErr_eq (tgt : Obj) (raw : Option Err) : wrapErr tgt raw = reported tgt raw := by cases raw <;> rfl

/-- A result is the (wrapped) value that the target's one execution returned, and that execution was over before.
Missing for the full property: by-name references, for which it is false (`C02_counterexample_by_name`), and targets that share an address. -/
theorem C02_result_is_execution_outcome_partial {env : Env σ C} {w : σ} {cl : List (Proc σ C)} {s : State σ C}
    (hn : env.NoNames) (ha : env.DistinctAddrs) (h : Reach env w cl s)
    {l₁ l₂ t c i e x} (hl : s.log = l₁ ++ (t, Ev.result c i e) :: l₂) (hq : Requested s.log c i (.ptr x)) :
    ∃ t' raw, (t', Ev.finish (env.addr x) x raw) ∈ l₁ ∧ e = reported x raw ∧ runsOf x s.log = 1 := by
  obtain ⟨t', ctx, refs, o, h1, h2, t'', tgt, raw, h3, h4⟩ := h.evOk _ _ _ hl
  have hs : ∀ y, y ∈ l₁ → y ∈ s.log := fun y hy => by rw [hl]; exact List.mem_append_left _ hy
  obtain ⟨_, _, _, a1, a2⟩ := hq
  obtain ⟨-, -, rfl⟩ := call_uniq h (hs _ h1) a1
  rw [h2] at a2
  cases a2
  obtain ⟨l₃, l₄, hl', c', i', ctx', hs₀⟩ := h.evOk.mem (hs _ h3)
  have hs' : (t'', Ev.start c' i' (env.addr x) tgt ctx') ∈ s.log := by
    rw [hl']; exact List.mem_append_left _ hs₀
  obtain ⟨t₂, refs₂, o₂, -, -, ha₂, hr₂, -⟩ := start_ok h hs'
  have e1 := ha _ _ ha₂
  have e2 := hr₂ (hn _)
  subst e1
  subst e2
  have hpos : 0 < runsOf tgt s.log := List.countP_pos_iff.2 ⟨_, hs', by simp⟩
  have := C01_at_most_once_partial hn h tgt
  exact ⟨t'', raw, h3, by rw [h4, wrapErr_eq], by omega⟩

/-! ## C03: Run does not return before its targets have finished -/

/-- When activation `c` returns, every element of its arguments whose reference can be resolved (in particular every
direct reference) has a finished execution under its address. -/
theorem C03_run_waits {env : Env σ C} {w : σ} {cl : List (Proc σ C)} {s : State σ C} (h : Reach env w cl s)
    {l₁ l₂ t c e i o} (hl : s.log = l₁ ++ (t, Ev.ret c e) :: l₂) (hq : Requested s.log c i (.ptr o))
    (hres : ∀ f, env.resolve o = some f → ∀ w' e', (f w').2 ≠ .error e') :
    ∃ t' tgt raw, (t', Ev.finish (env.addr o) tgt raw) ∈ l₁ ∧ (∃ t'', (t'', Ev.result c i (reported tgt raw)) ∈ l₁) := by
  obtain ⟨ctx, refs, h1, -, outs, h3, -, h5⟩ := h.evOk _ _ _ hl
  have hs : ∀ y, y ∈ l₁ → y ∈ s.log := fun y hy => by rw [hl]; exact List.mem_append_left _ hy
  obtain ⟨_, _, refs', a1, a2⟩ := hq
  obtain ⟨-, -, rfl⟩ := call_uniq h (hs _ h1) a1
  have hi : i < outs.length := by rw [h3]; exact (List.getElem?_eq_some_iff.1 a2).1
  rcases h5 i outs[i] (by simp) with ⟨t₁, e₁, hr, -⟩ | ⟨o', t₁, tgt, raw, ho, hf, hout, t'', hre⟩
  · exfalso
    obtain ⟨ctx₁, refs₁, hh, hw⟩ := h.inv.f.refWhy _ _ _ _ (hs _ hr)
    have hh' := (h.inv.f.callEv c _ _ _).2 a1
    rw [hh'] at hh
    simp only [Option.some.injEq, Prod.mk.injEq] at hh
    obtain ⟨-, -, rfl⟩ := hh
    rcases hw with ⟨n, hv, -⟩ | ⟨o'', f, w', hv, hf, hw'⟩
    · rw [a2] at hv; cases hv
    · rw [a2] at hv; cases hv; exact hres f hf w' _ hw'
  · rw [a2] at ho; cases ho
    exact ⟨t₁, tgt, raw, hf, t'', by rw [← wrapErr_eq]; exact hout ▸ hre⟩

/-! ## C04: Run's result is the join of its targets' outcomes -/

/-- The outcome of element `r` (number `i`) of activation `c`, as far as the log `l` shows: a non-pointer target gives
its own error; a direct pointer gives the wrapped result of the execution under its address; a name gives either
"cannot be resolved" or the wrapped result of the execution of what it resolved to. -/
def ElemOutcome (env : Env σ C) (l : List (Nat × Ev σ C)) (c i : Nat) (r : TRef) (out : Option Err) : Prop :=
  match r with
  | .val n => out = some (.notPointer n)
  | .ptr o =>
    (∃ t tgt raw, (t, Ev.finish (env.addr o) tgt raw) ∈ l ∧ out = reported tgt raw) ∨
    (∃ f w' e, env.resolve o = some f ∧ (f w').2 = .error e ∧ out = some e ∧ ∃ t, (t, Ev.refuse c i e) ∈ l)

/-- `Run` returns the join, in argument order, of the outcomes of its arguments: `nil` iff all of them are `nil`. -/
theorem C04_run_result {env : Env σ C} {w : σ} {cl : List (Proc σ C)} {s : State σ C} (h : Reach env w cl s)
    {l₁ l₂ t c e} (hl : s.log = l₁ ++ (t, Ev.ret c e) :: l₂) :
    ∃ ctx refs, (t, Ev.call c ctx refs) ∈ l₁ ∧
      ∃ outs : List (Option Err), outs.length = refs.length ∧
        (∀ i r out, refs[i]? = some r → outs[i]? = some out → ElemOutcome env l₁ c i r out) ∧
        e = (if ∀ o ∈ outs, o = none then none else some (.join (outs.filterMap id))) := by
  obtain ⟨ctx, refs, h1, -, outs, h3, h4, h5⟩ := h.evOk _ _ _ hl
  have hs : ∀ y, y ∈ l₁ → y ∈ s.log := fun y hy => by rw [hl]; exact List.mem_append_left _ hy
  refine ⟨ctx, refs, h1, outs, h3, ?_, ?_⟩
  · intro i r out hr ho
    rcases h5 i out ho with ⟨t₁, e₁, hre, rfl⟩ | ⟨o, t₁, tgt, raw, hr', hf, rfl, -⟩
    · obtain ⟨ctx₁, refs₁, hh, hw⟩ := h.inv.f.refWhy _ _ _ _ (hs _ hre)
      have hh' := (h.inv.f.callEv c _ _ _).2 (hs _ h1)
      rw [hh'] at hh
      simp only [Option.some.injEq, Prod.mk.injEq] at hh
      obtain ⟨-, -, rfl⟩ := hh
      rcases hw with ⟨n, hv, rfl⟩ | ⟨o'', f, w', hv, hf, hw'⟩
      · rw [hr] at hv; cases hv; rfl
      · rw [hr] at hv; cases hv; exact Or.inr ⟨f, w', e₁, hf, hw', rfl, t₁, hre⟩
    · rw [hr] at hr'; cases hr'
      exact Or.inl ⟨t₁, tgt, raw, hf, wrapErr_eq _ _⟩
  · rw [h4]
    unfold errJoin
    by_cases hall : ∀ o ∈ outs, o = none
    · rw [if_pos hall]
      have : outs.filterMap id = [] := by
        rw [List.filterMap_eq_nil_iff]; intro a ha; simp [hall a ha]
      rw [this]
    · rw [if_neg hall]
      cases hf : outs.filterMap id with
      | nil =>
        exfalso; apply hall
        intro o ho
        exact (List.filterMap_eq_nil_iff.1 hf) o ho
      | cons a as => rfl

/-! ## C11: indentation depth -/

/-- The depth is the number of calls of `Run` that have begun minus the number that have returned (a call without
arguments begins and returns at once), and each call returns at most once. -/
theorem C11_depth {env : Env σ C} {w : σ} {cl : List (Proc σ C)} {s : State σ C} (h : Reach env w cl s) :
    callsN s.log = retsN s.log + s.depth ∧
    (∀ l₁ l₂ t c e, s.log = l₁ ++ (t, Ev.ret c e) :: l₂ →
      (∃ ctx refs, (t, Ev.call c ctx refs) ∈ l₁) ∧ ∀ t' e', (t', Ev.ret c e') ∉ l₁) := by
  refine ⟨reach_callN h, ?_⟩
  intro l₁ l₂ t c e hl
  obtain ⟨ctx, refs, h1, h2, -⟩ := h.evOk _ _ _ hl
  exact ⟨⟨ctx, refs, h1⟩, h2⟩

/-- The depth is also the number of goroutines currently inside a (non-empty) call. -/
theorem C11_depth_threads {env : Env σ C} {w : σ} {cl : List (Proc σ C)} {s : State σ C} (h : Reach env w cl s) :
    s.depth = s.threads.countP (fun th => th.st.inCall) := h.inv.d.depth

/-! ## Concrete cases: hypotheses are met, and the counterexamples -/

namespace Demo

/-- Target 0 runs targets 1 and 2 and the non-pointer 9; target 1 runs 2; target 2 fails. -/
def env : Env Nat Unit where
  addr o := o
  resolve _ := none
  body o _ := match o with
    | 0 => .call () [.ptr 1, .ptr 2, .val 9] .ret
    | 1 => .call () [.ptr 2] .ret
    | _ => .act (· + 1) fun _ => .ret (some (.atom 7))

def client : Proc Nat Unit := .call () [.ptr 0, .ptr 2] fun e => .ret e
def sched (n m : Nat) : List (Label Nat) := (List.replicate n ((List.range m).map Label.thread)).flatten
def final : State Nat Unit := runSched env (init 0 [client, client]) (sched 40 10)

theorem final_reach : Reach env 0 [client, client] final := runSched_reach _ .init

-- both clients return, every target ran once, and the world was changed once
example : final.world = 1 ∧ runsOf 0 final.log = 1 ∧ runsOf 1 final.log = 1 ∧ runsOf 2 final.log = 1 ∧
    retsN final.log = 4 ∧ final.depth = 0 := by decide +kernel
example : env.NoNames ∧ env.DistinctAddrs := ⟨fun _ => rfl, fun _ _ h => h⟩
example : ∃ t e, (t, Ev.ret 0 e) ∈ final.log ∧ Requested final.log 0 0 (.ptr 0) := by
  have h1 : final.log.any (fun e => match e.2 with | .ret 0 _ => true | _ => false) = true := by decide +kernel
  obtain ⟨⟨t, e⟩, hm, he⟩ := List.any_eq_true.1 h1
  cases e <;> simp at he
  rename_i c e
  cases c <;> simp at he
  obtain ⟨l₁, l₂, hl, ctx, refs, hc, -⟩ := final_reach.evOk.mem hm
  refine ⟨t, e, hm, t, ctx, refs, by rw [hl]; exact List.mem_append_left _ hc, ?_⟩
  have h2 : (final.calls[0]?.map (·.refs)) = some [.ptr 0, .ptr 2] := by decide +kernel
  have h3 := (final_reach.inv.f.callEv 0 t ctx refs).2 (by rw [hl]; exact List.mem_append_left _ hc)
  simp only [State.hdr, State.cl] at h3
  cases hcl : final.calls[0]? with
  | none => rw [hcl] at h3; cases h3
  | some x => rw [hcl] at h2 h3; simp at h2 h3; rw [← h3.2, h2]; rfl

/-- Object 0 is a target; objects 1 and 2 are two references to it by name (as created by YAML). -/
def envNames : Env Nat Unit where
  addr o := o
  resolve o := if o = 1 ∨ o = 2 then some fun w => (w, .ok 0) else none
  body _ _ := .act (· + 1) fun _ => .ret none

/-- **C01 is false with by-name references**: a target asked for through two name references runs twice. -/
theorem C01_counterexample_by_name : ∃ s, Reach envNames 0 [.call () [.ptr 1, .ptr 2] .ret] s ∧ runsOf 0 s.log = 2 :=
  ⟨runSched envNames (init 0 [.call () [.ptr 1, .ptr 2] .ret]) (sched 20 3), runSched_reach _ .init, by decide +kernel⟩

/-- The two-names bound of `C01_bound_with_names` is met with equality above (addresses 1 and 2; and 0). -/
example : ∀ o, (o = 0 ∨ ∃ f w', envNames.resolve o = some f ∧ (f w').2 = .ok 0) →
    envNames.addr o ∈ [0, 1, 2] := by
  rintro o (rfl | ⟨f, w', h, -⟩)
  · simp [envNames]
  · simp only [envNames] at h ⊢
    split at h
    · rename_i ho; rcases ho with rfl | rfl <;> simp
    · cases h

/-- Two different targets 0 and 1 that share an address (e.g. pointers to zero-sized values). -/
def envShared : Env Nat Unit where
  addr _ := 5
  resolve _ := none
  body _ _ := .act (· + 1) fun _ => .ret none

/-- **With a shared address a requested target is never run**, although `Run` reports success. -/
theorem C01_counterexample_shared_address :
    ∃ s, Reach envShared 0 [.call () [.ptr 0] fun _ => .call () [.ptr 1] .ret] s ∧
      runsOf 1 s.log = 0 ∧ retsN s.log = 2 :=
  ⟨runSched envShared (init 0 [.call () [.ptr 0] fun _ => .call () [.ptr 1] .ret]) (sched 20 3), runSched_reach _ .init,
    by decide +kernel⟩

end Demo
end Fab.Runner
