import Verif.Runner.Targets

/-!
# C02, C03, C04: requests through references of all kinds

What a request obtains, when the reference may be a name; and what goes wrong with names and with shared addresses.
-/

namespace Fab.Runner
variable {σ C : Type}

/-- **C02, references of all kinds.** What a request through the reference `o` obtains is the (wrapped) value that an execution of the target `o` stands for
has returned (of `o` itself, or of what the name resolved to), which was over before; and there is one execution per reference. -/
theorem C02_by_any_reference {env : Env σ C} {w : σ} {cl : List (Proc σ C)} {s : State σ C} (ha : env.DistinctAddrs) (h : Reach env w cl s)
    {l₁ l₂ t c i e o} (hl : s.log = l₁ ++ (t, Ev.result c i e) :: l₂) (hq : Requested s.log c i (.ptr o)) :
    ∃ t' tgt raw, (t', Ev.finish (env.addr o) tgt raw) ∈ l₁ ∧ e = reported tgt raw ∧ env.CanRun o tgt ∧ startN (env.addr o) s.log = 1 := by
  obtain ⟨t', ctx, refs, o', h1, h2, t'', tgt, raw, h3, h4⟩ := h.evOk _ _ _ hl
  obtain ⟨_, _, _, a1, a2⟩ := hq
  obtain ⟨-, -, rfl⟩ := call_uniq h (sub_log hl h1) a1
  rw [h2] at a2
  cases a2
  have hf := sub_log hl h3
  refine ⟨t'', tgt, raw, h3, by rw [h4, wrapErr_eq], finish_tgt h (fun o' ho => ha _ _ ho) hf, ?_⟩
  obtain ⟨l₃, l₄, hl', c', i', ctx', hs⟩ := h.evOk.mem hf
  have hpos : 0 < startN (env.addr o) s.log := List.countP_pos_iff.2 ⟨_, sub_log hl' hs, by simp [Ev.isStart]⟩
  have := C01_at_most_once_per_address h (env.addr o)
  omega

/-- **C03.** When a call of `Run` returns, every one of its arguments that can be resolved has been executed: itself, or the target that the name resolved to.
Missing for the full property: targets that share an address, for which it is false (`C03_counterexample_shared_address`). -/
theorem C03_targets_done_partial {env : Env σ C} {w : σ} {cl : List (Proc σ C)} {s : State σ C} (ha : env.DistinctAddrs) (h : Reach env w cl s)
    {l₁ l₂ t c e i o} (hl : s.log = l₁ ++ (t, Ev.ret c e) :: l₂) (hq : Requested s.log c i (.ptr o))
    (hres : ∀ f, env.resolve o = some f → ∀ w' e', (f w').2 ≠ .error e') :
    ∃ t' tgt raw, (t', Ev.finish (env.addr o) tgt raw) ∈ l₁ ∧ env.CanRun o tgt ∧ ∃ t'', (t'', Ev.result c i (reported tgt raw)) ∈ l₁ := by
  obtain ⟨t', tgt, raw, h1, h2⟩ := C03_run_waits h hl hq hres
  exact ⟨t', tgt, raw, h1, finish_tgt h (fun o' ho => ha _ _ ho) (sub_log hl h1), h2⟩

/-- The outcome of the argument `r` (number `i`) of the call `c`, as far as the log `l` shows: a target that is not a pointer gives its own error; a name
that cannot be resolved gives that error; otherwise it is the (wrapped) result of the target itself, or of the one that the name resolved to. -/
def ArgOutcome (env : Env σ C) (l : List (Nat × Ev σ C)) (c i : Nat) (out : Option Err) : TRef → Prop
  | .val n => out = some (.notPointer n)
  | .ptr o =>
    (∃ t tgt raw, (t, Ev.finish (env.addr o) tgt raw) ∈ l ∧ env.CanRun o tgt ∧ out = reported tgt raw) ∨
    (∃ f w' e, env.resolve o = some f ∧ (f w').2 = .error e ∧ out = some e ∧ ∃ t, (t, Ev.refuse c i e) ∈ l)

/-- **C04, with targets at addresses of their own.** As `C04_run_result`, and the outcomes are those of the targets that the arguments stand for. -/
theorem C04_targets_outcomes {env : Env σ C} {w : σ} {cl : List (Proc σ C)} {s : State σ C} (ha : env.DistinctAddrs) (h : Reach env w cl s)
    {l₁ l₂ t c e} (hl : s.log = l₁ ++ (t, Ev.ret c e) :: l₂) :
    ∃ ctx refs, (t, Ev.call c ctx refs) ∈ l₁ ∧
      ∃ outs : List (Option Err), outs.length = refs.length ∧
        (∀ (i : Nat) r out, refs[i]? = some r → outs[i]? = some out → ArgOutcome env l₁ c i out r) ∧
        e = (if ∀ o ∈ outs, o = none then none else some (.join (outs.filterMap id))) := by
  obtain ⟨ctx, refs, h1, outs, h2, h3, h4⟩ := C04_run_result h hl
  refine ⟨ctx, refs, h1, outs, h2, fun i r out hr ho => ?_, h4⟩
  have := h3 i r out hr ho
  cases r with
  | val n => exact this
  | ptr o =>
    rcases this with ⟨t', tgt, raw, g1, g2⟩ | this
    · exact .inl ⟨t', tgt, raw, g1, finish_tgt h (fun o' ho => ha _ _ ho) (sub_log hl g1), g2⟩
    · exact .inr this

/-- `FinishedOK` (C07, C08, C09) for targets at addresses of their own: the target itself has been executed without error, or the one that the name resolved to. -/
theorem finished_itself {env : Env σ C} {w : σ} {cl : List (Proc σ C)} {s : State σ C} (ha : env.DistinctAddrs) (h : Reach env w cl s)
    {l₁ l₂ : List (Nat × Ev σ C)} (hl : s.log = l₁ ++ l₂) {r : TRef} (hf : FinishedOK env l₁ r) :
    ∃ o t tgt, r = .ptr o ∧ env.CanRun o tgt ∧ (t, Ev.finish (env.addr o) tgt none) ∈ l₁ := by
  obtain ⟨o, t, tgt, rfl, h1⟩ := hf
  exact ⟨o, t, tgt, rfl, finish_tgt h (fun o' ho => ha _ _ ho) (hl ▸ List.mem_append_left _ h1), h1⟩

/-! ## Counterexamples and cases -/

namespace RequestsDemo
open Demo (sched)

/-- Target 0 fails the second time it is run, and only then; 1 and 2 are references to it by name. -/
def envFlaky : Env Nat Unit where
  addr o := o
  resolve o := if o = 1 ∨ o = 2 then some fun w => (w, .ok 0) else none
  body _ _ := .act (· + 1) fun w => .ret (if w = 1 then some (.atom 7) else none)

def flaky : State Nat Unit := runSched envFlaky (init 0 [.call () [.ptr 1, .ptr 2] .ret]) (sched 20 3)

theorem flaky_log : flaky.log.filterMap (fun e => match e.2 with | .result c i r => some (c, i, r.isNone) | _ => none) = [(0, 0, true), (0, 1, false)] := by
  decide +kernel

theorem flaky_requested : (0, Ev.call 0 () [.ptr 1, .ptr 2]) ∈ flaky.log := by
  have h : flaky.log.head?.map (fun e => (e.1, match e.2 with | .call c _ refs => some (c, refs.map fun | .ptr o => some o | .val _ => none) | _ => none)) =
      some (0, some (0, [some 1, some 2])) := by decide +kernel
  cases hl : flaky.log with
  | nil => rw [hl] at h; cases h
  | cons a l =>
    obtain ⟨t, e⟩ := a
    rw [hl] at h
    simp only [List.head?_cons, Option.map_some, Option.some.injEq, Prod.mk.injEq] at h
    obtain ⟨rfl, h⟩ := h
    cases e <;> simp only [Option.some.injEq, Prod.mk.injEq, reduceCtorEq] at h
    obtain ⟨rfl, h⟩ := h
    rename_i refs
    match refs, h with
    | [.ptr a, .ptr b], h => simp only [List.map_cons, List.map_nil, List.cons.injEq, Option.some.injEq] at h; obtain ⟨rfl, rfl, -⟩ := h; simp

end RequestsDemo
open RequestsDemo Demo

/-- **C02 is false with by-name references**: two requests for one target, through two names, obtain different outcomes. -/
theorem C02_counterexample_by_name : ∃ s, Reach envFlaky 0 [.call () [.ptr 1, .ptr 2] .ret] s ∧
    (∀ o ∈ [1, 2], ∀ t, envFlaky.CanRun o t ↔ t = 0) ∧ Requested s.log 0 0 (.ptr 1) ∧ Requested s.log 0 1 (.ptr 2) ∧
    (∃ t e, (t, Ev.result 0 1 (some e)) ∈ s.log) ∧ ∃ t, (t, Ev.result 0 0 none) ∈ s.log := by
  refine ⟨flaky, runSched_reach _ .init, ?_, ⟨0, (), _, flaky_requested, rfl⟩, ⟨0, (), _, flaky_requested, rfl⟩, ?_, ?_⟩
  · intro o ho t
    have h : envFlaky.resolve o = some fun w => (w, .ok 0) := by
      simp only [List.mem_cons, List.not_mem_nil, or_false] at ho
      simp only [envFlaky]; rw [if_pos ho]
    constructor
    · rintro (⟨h1, -⟩ | ⟨f, w, h1, h2⟩)
      · rw [h] at h1; cases h1
      · rw [h] at h1; cases h1; cases h2; rfl
    · rintro rfl; exact .inr ⟨_, 0, h, rfl⟩
  · have hm : (0, 1, false) ∈ flaky.log.filterMap (fun e => match e.2 with | .result c i r => some (c, i, r.isNone) | _ => none) := by rw [flaky_log]; simp
    obtain ⟨⟨t, e⟩, h1, h2⟩ := List.mem_filterMap.1 hm
    cases e <;> simp only [Option.some.injEq, Prod.mk.injEq, reduceCtorEq] at h2
    obtain ⟨rfl, rfl, h3⟩ := h2
    rename_i r
    cases r with
    | none => cases h3
    | some e => exact ⟨t, e, h1⟩
  · have hm : (0, 0, true) ∈ flaky.log.filterMap (fun e => match e.2 with | .result c i r => some (c, i, r.isNone) | _ => none) := by rw [flaky_log]; simp
    obtain ⟨⟨t, e⟩, h1, h2⟩ := List.mem_filterMap.1 hm
    cases e <;> simp only [Option.some.injEq, Prod.mk.injEq, reduceCtorEq] at h2
    obtain ⟨rfl, rfl, h3⟩ := h2
    rename_i r
    cases r with
    | none => exact ⟨t, h1⟩
    | some e => cases h3

/-- **C03 is false with shared addresses**: a call of `Run` with target 1 has returned nil, but target 1 has not been executed. -/
theorem C03_counterexample_shared_address : ∃ s, Reach envShared 0 [.call () [.ptr 0] fun _ => .call () [.ptr 1] .ret] s ∧
    ∃ c t, (t, Ev.call c () [.ptr 1]) ∈ s.log ∧ (t, Ev.ret c none) ∈ s.log ∧ (∀ t c i key ctx, (t, Ev.start c i key 1 ctx) ∉ s.log) ∧
      ∀ t key raw, (t, Ev.finish key 1 raw) ∉ s.log := by
  refine ⟨runSched envShared (init 0 [.call () [.ptr 0] fun _ => .call () [.ptr 1] .ret]) (sched 20 3), runSched_reach _ .init, 1, 0, ?_⟩
  generalize hl : (runSched envShared (init 0 [.call () [.ptr 0] fun _ => .call () [.ptr 1] .ret]) (sched 20 3)).log = l
  have h1 : l.any (fun e => match e with | (0, .call 1 _ [.ptr 1]) => true | _ => false) = true := by rw [← hl]; decide +kernel
  have h2 : l.any (fun e => match e with | (0, .ret 1 none) => true | _ => false) = true := by rw [← hl]; decide +kernel
  have h3 : l.all (fun e => match e.2 with | .start _ _ _ 1 _ => false | .finish _ 1 _ => false | _ => true) = true := by rw [← hl]; decide +kernel
  refine ⟨?_, ?_, ?_, ?_⟩
  · obtain ⟨e, hm, he⟩ := List.any_eq_true.1 h1
    split at he
    · exact hm
    · cases he
  · obtain ⟨e, hm, he⟩ := List.any_eq_true.1 h2
    split at he
    · exact hm
    · cases he
  · intro t c i key ctx hm
    have := List.all_eq_true.1 h3 _ hm
    simp at this
  · intro t key raw hm
    have := List.all_eq_true.1 h3 _ hm
    simp at this

/-- `C02_by_any_reference`, `C03_targets_done_partial` and `C04_targets_outcomes`: the execution with the two names meets the hypotheses. -/
example : envFlaky.DistinctAddrs ∧ Reach envFlaky 0 [.call () [.ptr 1, .ptr 2] .ret] flaky ∧ (∃ t e, (t, Ev.ret 0 e) ∈ flaky.log) ∧
    ∀ o f, envFlaky.resolve o = some f → ∀ w' e', (f w').2 ≠ .error e' := by
  refine ⟨fun _ _ h => h, runSched_reach _ .init, ?_, ?_⟩
  · have h : flaky.log.any (fun e => match e.2 with | .ret 0 _ => true | _ => false) = true := by decide +kernel
    obtain ⟨⟨t, e⟩, hm, he⟩ := List.any_eq_true.1 h
    split at he
    · rename_i r heq
      dsimp only at heq; subst heq
      exact ⟨t, r, hm⟩
    · cases he
  · intro o f h w' e' h'
    simp only [envFlaky] at h
    split at h
    · cases h; cases h'
    · cases h

end Fab.Runner
