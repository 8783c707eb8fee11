import Verif.Runner.Cycle
import Verif.Runner.Local
import Verif.Context

/-!
# The combinators `All`, `Seq`, `Deps`, `ArgTarget` and name references: C07 - C10, C12
-/

namespace Fab.Runner
variable {σ C : Type}

/-! ## Model -/

/-- `all.Run` (/repo/all.go:32-34): `return con.Run(ctx, a.Targets...)` -/
def allBody (refs : List TRef) (ctx : C) : Proc σ C := .call ctx refs .ret

/-- `seq.Run` (/repo/seq.go:33-40): run the targets one after the other, return at the first error -/
def seqBody (refs : List TRef) (ctx : C) : Proc σ C :=
  match refs with
  | [] => .ret none
  | r :: rs => .call ctx [r] fun e =>
    match e with
    | some e => .ret (some e)
    | none => seqBody rs ctx

/-- `Deps(target, depTargets...)` is `Seq(All(depTargets...), target)` (/repo/deps.go:44-46): object `x` is the `Seq`,
object `a` the `All` inside it. -/
structure IsDeps (env : Env σ C) (x a : Obj) (main : TRef) (deps : List TRef) : Prop where
  seq : ∀ ctx, env.body x ctx = seqBody [.ptr a, main] ctx
  all : ∀ ctx, env.body a ctx = allBody deps ctx
  res : env.resolve a = none
  /-- `a` was allocated by `Deps`; it is not a zero-sized value and it is alive as long as `x` -/
  own : ∀ o, env.addr o = env.addr a → o = a

/-- `argTarget.Run` (/repo/argtarg.go:41-44) -/
def argBody (r : TRef) (args : List String) (ctx : Ctx) : Proc σ Ctx := .call (withArgs ctx args) [r] .ret

/-- `deferredResolutionTarget.Run` (/repo/yaml.go:115-121); it is only entered when a name refers to a name, because
`Controller.Run` resolves one level itself -/
def nameBody (f : σ → σ × Except Err Obj) (ctx : C) : Proc σ C :=
  .act (fun w => (f w).1) fun w =>
    match (f w).2 with
    | .error e => .ret (some e)
    | .ok t => .call ctx [.ptr t] .ret

/-! ## Specification vocabulary -/

/-- `r` has been executed without error, as far as `l` shows. -/
def FinishedOK (env : Env σ C) (l : List (Nat × Ev σ C)) (r : TRef) : Prop :=
  ∃ o t tgt, r = .ptr o ∧ (t, Ev.finish (env.addr o) tgt none) ∈ l

/-- The event is a call of `Run`. -/
def Ev.isCall : Ev σ C → Bool
  | .call .. => true
  | _ => false

/-- How many calls of `Run` goroutine `t` has made. -/
def callsBy (t : Nat) (l : List (Nat × Ev σ C)) : Nat := l.countP fun e => e.1 == t && e.2.isCall

/-! ## Helper lemmas -/

def LEv.isCall : LEv σ C → Bool
  | .call .. => true
  | _ => false

theorem callsBy_hist (t : Nat) (l : List (Nat × Ev σ C)) : callsBy t l = (hist t l).countP LEv.isCall := by
  induction l using snoc_ind with
  | h0 => rfl
  | h1 l x ih =>
    obtain ⟨t', e⟩ := x
    by_cases htt : t' = t
    · subst htt
      rw [hist_snoc, List.countP_append, ← ih]
      unfold callsBy
      rw [List.countP_append]
      cases e <;> simp [LEv.isCall, Ev.isCall]
    · rw [hist_other (tid := t') (fun h => htt h.symm) (by simp), ← ih]
      unfold callsBy
      rw [List.countP_append]
      simp [htt]

/-- If a call returned `nil`, all its arguments have been executed without error. -/
theorem ok_of_ret_none {env : Env σ C} {w : σ} {cl : List (Proc σ C)} {s : State σ C} (h : Reach env w cl s)
    {l₁ l₂ : List (Nat × Ev σ C)} (hl : s.log = l₁ ++ l₂) {t t' c ctx refs} (hc : (t', Ev.call c ctx refs) ∈ l₁)
    (hr : (t, Ev.ret c none) ∈ l₁) : ∀ r ∈ refs, FinishedOK env l₁ r := by
  obtain ⟨m₁, m₂, hm⟩ := List.append_of_mem hr
  have hl' : s.log = m₁ ++ (t, Ev.ret c none) :: (m₂ ++ l₂) := by rw [hl, hm]; simp
  obtain ⟨ctx', refs', h1, outs, h2, h3, h4⟩ := C04_run_result h hl'
  obtain ⟨-, -, rfl⟩ := call_uniq h (sub_log hl' h1) (by rw [hl]; exact List.mem_append_left _ hc)
  intro r hrm
  obtain ⟨i, hi⟩ := List.mem_iff_getElem?.1 hrm
  have hlt := (List.getElem?_eq_some_iff.1 hi).1
  have hout : outs[i]? = some outs[i] := List.getElem?_eq_getElem (by omega)
  have hnone : ∀ o ∈ outs, o = none := by
    apply Classical.byContradiction; intro hn; rw [if_neg hn] at h4; cases h4
  have := h3 i r _ hi hout
  rw [hnone _ (List.getElem_mem _)] at this
  cases r with
  | val n => cases this
  | ptr o =>
    rcases this with ⟨t₁, tgt, raw, hf, hw⟩ | ⟨f, w', e, -, -, he, -⟩
    · cases raw with
      | some e => cases hw
      | none => exact ⟨o, t₁, tgt, rfl, by rw [hm]; exact List.mem_append_left _ hf⟩
    · cases he

/-- Which target was executed under an address. -/
theorem finish_tgt {env : Env σ C} {w : σ} {cl : List (Proc σ C)} {s : State σ C} (h : Reach env w cl s) {o : Obj}
    (ha : ∀ o', env.addr o' = env.addr o → o' = o) {t tgt raw} (hf : (t, Ev.finish (env.addr o) tgt raw) ∈ s.log) :
    env.CanRun o tgt := by
  obtain ⟨l₁, l₂, hl, c, i, ctx, hs⟩ := h.evOk.mem hf
  obtain ⟨t', refs, o', -, -, h3, h4, h5⟩ := start_ok h (sub_log hl hs)
  have := ha o' h3
  subst this
  cases hr : env.resolve o' with
  | none => exact Or.inl ⟨hr, h4 hr⟩
  | some f => obtain ⟨w, hw⟩ := h5 f hr; exact Or.inr ⟨f, w, hr, hw⟩

/-- Paths through `seqBody`. -/
theorem seq_path {refs : List TRef} {ctx : C} {h : List (LEv σ C)} {pos : Pos σ C}
    (hr : Runs (seqBody refs ctx) h pos) :
    ∃ n, (∀ j < n, ∃ r c, refs[j]? = some r ∧ LEv.call c ctx [r] ∈ h ∧ LEv.ret c none ∈ h) ∧
      match pos with
      | .at p => (p = seqBody (refs.drop n) ctx ∧ n ≤ refs.length ∧ h.countP LEv.isCall = n) ∨
          (∃ r c e, p = .ret (some e) ∧ refs[n]? = some r ∧ LEv.call c ctx [r] ∈ h ∧ LEv.ret c (some e) ∈ h ∧
            h.countP LEv.isCall = n + 1)
      | .inCall c k => ∃ r, refs[n]? = some r ∧ LEv.call c ctx [r] ∈ h ∧ h.countP LEv.isCall = n + 1 ∧
          k = fun e => match e with
            | some e => .ret (some e)
            | none => seqBody (refs.drop (n + 1)) ctx := by
  induction hr with
  | nil => exact ⟨0, by simp, Or.inl ⟨by simp, by simp, by simp⟩⟩
  | @act h f k w _ ih =>
    obtain ⟨n, -, (⟨h1, -, -⟩ | ⟨r, c, e, h1, -⟩)⟩ := ih
    · rw [seqBody.eq_def] at h1; split at h1 <;> cases h1
    · cases h1
  | @call h ctx' refs' k c _ ih =>
    obtain ⟨n, h0, (⟨h1, h2, h3⟩ | ⟨r, c, e, h1, -⟩)⟩ := ih
    · rw [seqBody.eq_def] at h1
      split at h1
      · cases h1
      · rename_i r rs hd
        cases h1
        obtain ⟨h5, h6⟩ := drop_cons hd
        refine ⟨n, ?_, r, h5, by simp, by simp [h3, LEv.isCall], by rw [h6]⟩
        intro j hj
        obtain ⟨r', c', a1, a2, a3⟩ := h0 j hj
        exact ⟨r', c', a1, List.mem_append_left _ a2, List.mem_append_left _ a3⟩
    · cases h1
  | @ret h c k e _ ih =>
    obtain ⟨n, h0, r, h1, h2, h3, rfl⟩ := ih
    have hlift : ∀ j < n, ∃ r c', refs[j]? = some r ∧ LEv.call c' ctx [r] ∈ h ++ [LEv.ret c e] ∧
        LEv.ret c' none ∈ h ++ [LEv.ret c e] := by
      intro j hj
      obtain ⟨r', c', a1, a2, a3⟩ := h0 j hj
      exact ⟨r', c', a1, List.mem_append_left _ a2, List.mem_append_left _ a3⟩
    cases e with
    | none =>
      refine ⟨n + 1, ?_, Or.inl ⟨rfl, (List.getElem?_eq_some_iff.1 h1).1, by simp [h3, LEv.isCall]⟩⟩
      intro j hj
      by_cases hjn : j < n
      · exact hlift j hjn
      · have : j = n := by omega
        subst this
        exact ⟨r, c, h1, List.mem_append_left _ h2, by simp⟩
    | some e =>
      exact ⟨n, hlift, Or.inr ⟨r, c, e, rfl, h1, List.mem_append_left _ h2, by simp, by simp [h3, LEv.isCall]⟩⟩

/-- Paths through a body that is a single call. -/
theorem call_ret_path {refs : List TRef} {ctx : C} {h : List (LEv σ C)} {pos : Pos σ C}
    (hr : Runs (.call ctx refs .ret) h pos) :
    (h = [] ∧ pos = .at (.call ctx refs .ret)) ∨ (∃ c, h = [.call c ctx refs] ∧ pos = .inCall c .ret) ∨
    (∃ c e, h = [.call c ctx refs, .ret c e] ∧ pos = .at (.ret e)) := by
  induction hr with
  | nil => exact Or.inl ⟨rfl, rfl⟩
  | act w _ ih => rcases ih with ⟨-, h⟩ | ⟨c, -, h⟩ | ⟨c, e, -, h⟩ <;> cases h
  | call c _ ih =>
    rcases ih with ⟨rfl, h⟩ | ⟨c', -, h⟩ | ⟨c', e, -, h⟩ <;> cases h
    exact Or.inr (Or.inl ⟨c, rfl, rfl⟩)
  | ret e _ ih =>
    rcases ih with ⟨-, h⟩ | ⟨c, rfl, h⟩ | ⟨c, e', -, h⟩ <;> cases h
    exact Or.inr (Or.inr ⟨_, e, rfl, rfl⟩)

/-! ## C07: Seq -/

/-- **C07, order.** The goroutine that runs a `Seq` target makes its calls of `Run` one target at a time, in order
(call number `n` asks for target number `n` only), and when it makes call number `n`, the targets before it have all
been executed without error. -/
theorem C07_seq_order {env : Env σ C} {x : Obj} {refs : List TRef} (hb : ∀ ctx, env.body x ctx = seqBody refs ctx)
    {w : σ} {cl : List (Proc σ C)} {s : State σ C} (h : Reach env w cl s) {l₁ l₂ t c ctx rs}
    (hl : s.log = l₁ ++ (t, Ev.call c ctx rs) :: l₂) {c₀ i₀ key ctx₀} (hs : (t, Ev.start c₀ i₀ key x ctx₀) ∈ s.log) :
    ∃ r, refs[callsBy t l₁]? = some r ∧ rs = [r] ∧ ctx = ctx₀ ∧
      ∀ j < callsBy t l₁, ∃ r', refs[j]? = some r' ∧ FinishedOK env l₁ r' := by
  obtain ⟨k, hp⟩ := call_path h hl hs
  rw [hb] at hp
  obtain ⟨n, h0, (⟨h1, h2, h3⟩ | ⟨r, c, e, h1, -⟩)⟩ := seq_path hp
  · rw [seqBody.eq_def] at h1
    split at h1
    · cases h1
    · rename_i r rs' hd
      cases h1
      rw [callsBy_hist, h3]
      refine ⟨r, (drop_cons hd).1, rfl, rfl, ?_⟩
      intro j hj
      obtain ⟨r', c', a1, a2, a3⟩ := h0 j hj
      exact ⟨r', a1, ok_of_ret_none h hl (mem_hist_call.1 a2) (mem_hist_ret.1 a3) r' (by simp)⟩
  · cases h1

/-- **C07, result.** When a `Seq` target finishes, either it returns `nil`, and all its targets were asked for and
executed without error; or it returns the error of the call for target number `n`, the targets before `n` were executed
without error, and no target after `n` was asked for. -/
theorem C07_seq_result {env : Env σ C} {x : Obj} {refs : List TRef} (hb : ∀ ctx, env.body x ctx = seqBody refs ctx)
    {w : σ} {cl : List (Proc σ C)} {s : State σ C} (h : Reach env w cl s) {l₁ l₂ t key raw}
    (hl : s.log = l₁ ++ (t, Ev.finish key x raw) :: l₂) :
    (raw = none ∧ callsBy t l₁ = refs.length ∧ ∀ r ∈ refs, FinishedOK env l₁ r) ∨
    (∃ n r c ctx e e', raw = some e ∧ refs[n]? = some r ∧ callsBy t l₁ = n + 1 ∧
      (∀ j < n, ∃ r', refs[j]? = some r' ∧ FinishedOK env l₁ r') ∧
      (t, Ev.call c ctx [r]) ∈ l₁ ∧ (t, Ev.ret c (some e)) ∈ l₁ ∧
      e = .join [e'] ∧ ElemOutcome env l₁ c 0 r (some e')) := by
  obtain ⟨c₀, i₀, ctx, hs, hp⟩ := finish_path h hl
  rw [hb] at hp
  obtain ⟨n, h0, hpos⟩ := seq_path hp
  have hok : ∀ j < n, ∃ r', refs[j]? = some r' ∧ FinishedOK env l₁ r' := by
    intro j hj
    obtain ⟨r', c', a1, a2, a3⟩ := h0 j hj
    exact ⟨r', a1, ok_of_ret_none h hl (mem_hist_call.1 a2) (mem_hist_ret.1 a3) r' (by simp)⟩
  rcases hpos with ⟨h1, h2, h3⟩ | ⟨r, c, e, h1, h2, h3, h4, h5⟩
  · left
    rw [seqBody.eq_def] at h1
    split at h1
    · cases h1
      rename_i hd
      have := List.drop_eq_nil_iff.1 hd
      have hn : n = refs.length := by omega
      refine ⟨rfl, by rw [callsBy_hist, h3, hn], ?_⟩
      intro r hr
      obtain ⟨j, hj⟩ := List.mem_iff_getElem?.1 hr
      obtain ⟨r', h5, h6⟩ := hok j (by rw [hn]; exact (List.getElem?_eq_some_iff.1 hj).1)
      rw [hj] at h5; cases h5; exact h6
    · cases h1
  · right
    cases h1
    have hrm := mem_hist_ret.1 h4
    obtain ⟨m₁, m₂, hm⟩ := List.append_of_mem hrm
    have hl' : s.log = m₁ ++ (t, Ev.ret c (some e)) :: (m₂ ++ (t, Ev.finish key x (some e)) :: l₂) := by rw [hl, hm]; simp
    obtain ⟨ctx', refs', g1, outs, g2, g3, g4⟩ := C04_run_result h hl'
    obtain ⟨-, -, rfl⟩ := call_uniq h (sub_log hl' g1) (sub_log hl (mem_hist_call.1 h3))
    match outs, g2 with
    | [out], _ =>
      cases out with
      | none => simp at g4
      | some e' =>
        have he : e = .join [e'] := by simpa using g4
        refine ⟨n, r, c, ctx, e, e', rfl, h2, by rw [callsBy_hist, h5], hok, mem_hist_call.1 h3, hrm, he, ?_⟩
        have := g3 0 r (some e') rfl rfl
        cases r with
        | val n => exact this
        | ptr o =>
          rcases this with ⟨t₁, tgt, raw, a1, a2⟩ | ⟨f, w', e₁, a1, a2, a3, t₂, a4⟩
          · exact Or.inl ⟨t₁, tgt, raw, by rw [hm]; exact List.mem_append_left _ a1, a2⟩
          · exact Or.inr ⟨f, w', e₁, a1, a2, a3, t₂, by rw [hm]; exact List.mem_append_left _ a4⟩

/-! ## C08: All -/

/-- **C08.** When an `All` target finishes with `raw`, it asked for all its targets in one call, `raw` is the join of
their outcomes (in particular `nil` iff all of them are), and each of them has an outcome: also those after a failing
one. -/
theorem C08_all {env : Env σ C} {x : Obj} {refs : List TRef} (hb : ∀ ctx, env.body x ctx = allBody refs ctx)
    {w : σ} {cl : List (Proc σ C)} {s : State σ C} (h : Reach env w cl s) {l₁ l₂ t key raw}
    (hl : s.log = l₁ ++ (t, Ev.finish key x raw) :: l₂) :
    ∃ c ctx, (t, Ev.call c ctx refs) ∈ l₁ ∧ (t, Ev.ret c raw) ∈ l₁ ∧
      ∃ outs : List (Option Err), outs.length = refs.length ∧
        (∀ i r out, refs[i]? = some r → outs[i]? = some out → ElemOutcome env l₁ c i r out) ∧
        raw = (if ∀ o ∈ outs, o = none then none else some (.join (outs.filterMap id))) := by
  obtain ⟨c₀, i₀, ctx, hs, hp⟩ := finish_path h hl
  rw [hb] at hp
  rcases call_ret_path hp with ⟨-, hh⟩ | ⟨c, -, hh⟩ | ⟨c, e, hh, hh'⟩
  · cases hh
  · cases hh
  · cases hh'
    have h1 : (t, Ev.call c ctx refs) ∈ l₁ := mem_hist_call.1 (by rw [hh]; simp)
    have h2 : (t, Ev.ret c raw) ∈ l₁ := mem_hist_ret.1 (by rw [hh]; simp)
    refine ⟨c, ctx, h1, h2, ?_⟩
    obtain ⟨m₁, m₂, hm⟩ := List.append_of_mem h2
    have hl' : s.log = m₁ ++ (t, Ev.ret c raw) :: (m₂ ++ (t, Ev.finish key x raw) :: l₂) := by rw [hl, hm]; simp
    obtain ⟨ctx', refs', g1, outs, g2, g3, g4⟩ := C04_run_result h hl'
    obtain ⟨-, -, rfl⟩ := call_uniq h (sub_log hl' g1) (sub_log hl h1)
    refine ⟨outs, g2, ?_, g4⟩
    intro i r out a b
    have := g3 i r out a b
    cases r with
    | val n => exact this
    | ptr o =>
      rcases this with ⟨t₁, tgt, raw, a1, a2⟩ | ⟨f, w', e₁, a1, a2, a3, t₂, a4⟩
      · exact Or.inl ⟨t₁, tgt, raw, by rw [hm]; exact List.mem_append_left _ a1, a2⟩
      · exact Or.inr ⟨f, w', e₁, a1, a2, a3, t₂, by rw [hm]; exact List.mem_append_left _ a4⟩

/-- Corollary: an `All` target that finished with `nil` has executed all its targets without error. -/
theorem C08_all_ok {env : Env σ C} {x : Obj} {refs : List TRef} (hb : ∀ ctx, env.body x ctx = allBody refs ctx)
    {w : σ} {cl : List (Proc σ C)} {s : State σ C} (h : Reach env w cl s) {l₁ l₂ t key}
    (hl : s.log = l₁ ++ (t, Ev.finish key x none) :: l₂) : ∀ r ∈ refs, FinishedOK env l₁ r := by
  obtain ⟨c, ctx, h1, h2, -⟩ := C08_all hb h hl
  exact ok_of_ret_none h hl h1 h2

/-! ## C09: Deps -/

/-- **C09.** The goroutine that runs a `Deps` target makes at most two calls of `Run`: first for the dependencies, then
for the main target; and when it asks for the main target, every dependency has been executed without error. -/
theorem C09_deps_order {env : Env σ C} {x a : Obj} {main : TRef} {deps : List TRef} (hd : IsDeps env x a main deps)
    {w : σ} {cl : List (Proc σ C)} {s : State σ C} (h : Reach env w cl s) {l₁ l₂ t c ctx rs}
    (hl : s.log = l₁ ++ (t, Ev.call c ctx rs) :: l₂) {c₀ i₀ key ctx₀} (hs : (t, Ev.start c₀ i₀ key x ctx₀) ∈ s.log) :
    (callsBy t l₁ = 0 ∧ rs = [.ptr a]) ∨
    (callsBy t l₁ = 1 ∧ rs = [main] ∧ ∀ d ∈ deps, FinishedOK env l₁ d) := by
  obtain ⟨r, h1, h2, h3, h4⟩ := C07_seq_order hd.seq h hl hs
  match hn : callsBy t l₁ with
  | 0 => rw [hn] at h1; simp at h1; exact Or.inl ⟨rfl, by rw [h2, h1]⟩
  | 1 =>
    rw [hn] at h1 h4; simp at h1
    refine Or.inr ⟨rfl, by rw [h2, h1], ?_⟩
    obtain ⟨r', h5, o, t', tgt, ho, hf⟩ := h4 0 (by omega)
    simp at h5; subst h5; cases ho
    have htgt : tgt = a := by
      rcases finish_tgt h hd.own (sub_log hl hf) with ⟨-, h⟩ | ⟨f, w, h, -⟩
      · exact h
      · rw [hd.res] at h; cases h
    subst htgt
    obtain ⟨m₁, m₂, hm⟩ := List.append_of_mem hf
    have := C08_all_ok hd.all h (l₁ := m₁) (hl.trans (by rw [hm, List.append_assoc]; rfl))
    intro d hdm
    obtain ⟨o, t₁, tgt₁, h6, h7⟩ := this d hdm
    exact ⟨o, t₁, tgt₁, h6, by rw [hm]; exact List.mem_append_left _ h7⟩
  | n + 2 => rw [hn] at h1; simp at h1

/-- **C09, failure.** If a dependency has an execution that failed, the main target is not asked for by the `Deps`
target, at any time; and if the `Deps` target finishes without having asked for the main target, it fails. -/
theorem C09_deps_failure {env : Env σ C} {x a : Obj} {main : TRef} {deps : List TRef} (hd : IsDeps env x a main deps)
    {w : σ} {cl : List (Proc σ C)} {s : State σ C} (h : Reach env w cl s) {t c₀ i₀ key ctx₀}
    (hs : (t, Ev.start c₀ i₀ key x ctx₀) ∈ s.log) :
    (∀ o t' tgt e, .ptr o ∈ deps → (t', Ev.finish (env.addr o) tgt (some e)) ∈ s.log → callsBy t s.log ≤ 1) ∧
    (∀ l₁ l₂ raw, s.log = l₁ ++ (t, Ev.finish key x raw) :: l₂ → callsBy t l₁ ≤ 1 → raw ≠ none) := by
  constructor
  · intro o t' tgt e ho hf
    -- the second call would have seen the dependency succeed
    apply Classical.byContradiction
    intro hn
    have key : ∀ log : List (Nat × Ev σ C), 2 ≤ callsBy t log →
        ∃ l₁ c ctx rs l₂, log = l₁ ++ (t, Ev.call c ctx rs) :: l₂ ∧ callsBy t l₁ = 1 := by
      intro log
      induction log using snoc_ind with
      | h0 => intro h; simp [callsBy] at h
      | h1 l y ih =>
        intro h2
        by_cases h2' : 2 ≤ callsBy t l
        · obtain ⟨l₁, c, ctx, rs, l₂, h3, h4⟩ := ih h2'
          exact ⟨l₁, c, ctx, rs, l₂ ++ [y], by rw [h3]; simp, h4⟩
        · obtain ⟨t₁, ev⟩ := y
          have hle : callsBy t (l ++ [(t₁, ev)]) =
              callsBy t l + if t₁ = t ∧ ev.isCall = true then 1 else 0 := by
            simp [callsBy, List.countP_append, List.countP_cons]
          rw [hle] at h2
          split at h2
          · rename_i hcond
            obtain ⟨rfl, hcond⟩ := hcond
            cases ev <;> simp [Ev.isCall] at hcond
            exact ⟨l, _, _, _, [], rfl, by omega⟩
          · omega
    obtain ⟨l₁, c, ctx, rs, l₂, hl, h1⟩ := key s.log (by omega)
    rcases C09_deps_order hd h hl hs with ⟨h2, -⟩ | ⟨-, -, h3⟩
    · omega
    · obtain ⟨o', t₂, tgt₂, h4, h5⟩ := h3 _ ho
      cases h4
      have := (finN_two (h.inv.b.finOnce _) hf (sub_log hl h5)).2
      cases this
  · intro l₁ l₂ raw hl hle hraw
    rcases C07_seq_result hd.seq h hl with ⟨-, h1, -⟩ | ⟨n, r, c, ctx, e, e', h1, -⟩
    · simp at h1; omega
    · rw [hraw] at h1; cases h1

/-- **C09, success.** If a `Deps` target succeeds, its dependencies and its main target were executed without error. -/
theorem C09_deps_success {env : Env σ C} {x a : Obj} {main : TRef} {deps : List TRef} (hd : IsDeps env x a main deps)
    {w : σ} {cl : List (Proc σ C)} {s : State σ C} (h : Reach env w cl s) {l₁ l₂ t key}
    (hl : s.log = l₁ ++ (t, Ev.finish key x none) :: l₂) :
    FinishedOK env l₁ main ∧ ∀ d ∈ deps, FinishedOK env l₁ d := by
  rcases C07_seq_result hd.seq h hl with ⟨-, h1, h2⟩ | ⟨n, r, c, ctx, e, e', h1, -⟩
  · refine ⟨h2 main (by simp), ?_⟩
    obtain ⟨o, t', tgt, ho, hf⟩ := h2 (.ptr a) (by simp)
    cases ho
    have htgt : tgt = a := by
      rcases finish_tgt h hd.own (sub_log hl hf) with ⟨-, h⟩ | ⟨f, w, h, -⟩
      · exact h
      · rw [hd.res] at h; cases h
    subst htgt
    obtain ⟨m₁, m₂, hm⟩ := List.append_of_mem hf
    have := C08_all_ok hd.all h (l₁ := m₁) (hl.trans (by rw [hm, List.append_assoc]; rfl))
    intro d hdm
    obtain ⟨o, t₁, tgt₁, h6, h7⟩ := this d hdm
    exact ⟨o, t₁, tgt₁, h6, by rw [hm]; exact List.mem_append_left _ h7⟩
  · cases h1

/-! ## C10: contexts -/

/-- **C10, general.** A target is executed with the context of the call of `Run` that started it. -/
theorem C10_context_of_starter {env : Env σ C} {w : σ} {cl : List (Proc σ C)} {s : State σ C} (h : Reach env w cl s)
    {t c i key tgt ctx} (hs : (t, Ev.start c i key tgt ctx) ∈ s.log) :
    ∃ t' refs, (t', Ev.call c ctx refs) ∈ s.log ∧ ∀ t'' ctx'' refs'', (t'', Ev.call c ctx'' refs'') ∈ s.log → ctx'' = ctx := by
  obtain ⟨t', refs, o, h1, -⟩ := start_ok h hs
  exact ⟨t', refs, h1, fun _ _ _ h2 => (call_uniq h h2 h1).2.1⟩

/-- **C10, ArgTarget.** If goroutine `t` executes `ArgTarget(sub, args...)` and its call starts a target, that target's
context has exactly these arguments, and otherwise the settings that the `ArgTarget` itself was run with. -/
theorem C10_argtarget {env : Env σ Ctx} {x : Obj} {r : TRef} {args : List String}
    (hb : ∀ ctx, env.body x ctx = argBody r args ctx) {w : σ} {cl : List (Proc σ Ctx)} {s : State σ Ctx}
    (h : Reach env w cl s) {t c₀ i₀ key ctx₀} (hs : (t, Ev.start c₀ i₀ key x ctx₀) ∈ s.log)
    {c ctx' rs} (hc : (t, Ev.call c ctx' rs) ∈ s.log) {t' i key' tgt ctx}
    (hs' : (t', Ev.start c i key' tgt ctx) ∈ s.log) :
    rs = [r] ∧ getArgs ctx = args ∧ getDryRun ctx = getDryRun ctx₀ ∧ getForce ctx = getForce ctx₀ ∧
      getVerbose ctx = getVerbose ctx₀ ∧ getHashDB ctx = getHashDB ctx₀ := by
  obtain ⟨l₁, l₂, hl⟩ := List.append_of_mem hc
  obtain ⟨k, hp⟩ := call_path h hl hs
  rw [hb] at hp
  obtain ⟨t₁, refs, h1, h2⟩ := C10_context_of_starter h hs'
  have := h2 _ _ _ hc
  subst this
  rcases call_ret_path hp with ⟨-, hh⟩ | ⟨c, -, hh⟩ | ⟨c, e, hh, hh'⟩
  · cases hh; exact ⟨rfl, C18_withArgs_frame _ _⟩
  · cases hh
  · cases hh'

/-! ## C12: references by name -/

/-- **C12 (partial), outcome.** A call that asked for a name which resolves to target `tgt` gets the (wrapped) outcome
of one execution of `tgt`, just as a direct request for `tgt` does.
Missing for the full property: it need not be the *same* execution, see `C01_counterexample_by_name`. -/
theorem C12_name_runs_target_partial {env : Env σ C} {w : σ} {cl : List (Proc σ C)} {s : State σ C}
    (ha : env.DistinctAddrs) (h : Reach env w cl s) {l₁ l₂ t c e i o tgt f}
    (hl : s.log = l₁ ++ (t, Ev.ret c e) :: l₂) (hq : Requested s.log c i (.ptr o))
    (hf : env.resolve o = some f) (hres : ∀ w', (f w').2 = .ok tgt) :
    ∃ t' raw, (t', Ev.finish (env.addr o) tgt raw) ∈ l₁ ∧ ∃ t'', (t'', Ev.result c i (reported tgt raw)) ∈ l₁ := by
  obtain ⟨t', tgt', raw, h1, t'', h2⟩ := C03_run_waits h hl hq (by
    intro f' hf' w' e'
    rw [hf] at hf'; cases hf'
    rw [hres]; intro hh; cases hh)
  have htgt : tgt' = tgt := by
    rcases finish_tgt h (fun o' => ha o' o) (sub_log hl h1) with ⟨hn, -⟩ | ⟨f', w', hn, hw⟩
    · rw [hf] at hn; cases hn
    · rw [hf] at hn; cases hn
      rw [hres] at hw; cases hw; rfl
  subst htgt
  exact ⟨t', raw, h1, t'', h2⟩

/-- A name that refers to a name (YAML `A: B`): when such a reference object is executed, it fails with the resolution
error, or it asks for exactly the target its name resolves to and returns what that call returned. -/
theorem C12_name_chain {env : Env σ C} {o : Obj} {f : σ → σ × Except Err Obj}
    (hb : ∀ ctx, env.body o ctx = nameBody f ctx) {w : σ} {cl : List (Proc σ C)} {s : State σ C} (h : Reach env w cl s)
    {l₁ l₂ t key raw} (hl : s.log = l₁ ++ (t, Ev.finish key o raw) :: l₂) :
    ∃ w', (∃ e, (f w').2 = .error e ∧ raw = some e ∧ callsBy t l₁ = 0) ∨
      (∃ tgt c ctx, (f w').2 = .ok tgt ∧ (t, Ev.call c ctx [.ptr tgt]) ∈ l₁ ∧ (t, Ev.ret c raw) ∈ l₁ ∧
        callsBy t l₁ = 1 ∧ (raw = none → FinishedOK env l₁ (.ptr tgt))) := by
  obtain ⟨c₀, i₀, ctx, hs, hp⟩ := finish_path h hl
  rw [hb] at hp
  have path : ∀ {hh : List (LEv σ C)} {pos : Pos σ C}, Runs (nameBody f ctx) hh pos →
      (hh = [] ∧ pos = .at (nameBody f ctx)) ∨ ∃ w', (∃ e, (f w').2 = .error e ∧ hh = [.act w'] ∧ pos = .at (.ret (some e))) ∨
        (∃ tgt, (f w').2 = .ok tgt ∧ ((hh = [.act w'] ∧ pos = .at (.call ctx [.ptr tgt] .ret)) ∨
          (∃ c, hh = [.act w', .call c ctx [.ptr tgt]] ∧ pos = .inCall c .ret) ∨
          (∃ c e, hh = [.act w', .call c ctx [.ptr tgt], .ret c e] ∧ pos = .at (.ret e)))) := by
    intro hh pos hr
    induction hr with
    | nil => exact Or.inl ⟨rfl, rfl⟩
    | act w' _ ih =>
      rcases ih with ⟨rfl, h⟩ | ⟨w₁, ⟨e, -, -, h⟩ | ⟨tgt, -, ⟨-, h⟩ | ⟨c, -, h⟩ | ⟨c, e, -, h⟩⟩⟩ <;> cases h
      refine Or.inr ⟨w', ?_⟩
      cases hf : (f w').2 with
      | error e => exact Or.inl ⟨e, rfl, rfl, by simp [hf]⟩
      | ok tgt => exact Or.inr ⟨tgt, rfl, Or.inl ⟨rfl, by simp [hf]⟩⟩
    | call c _ ih =>
      rcases ih with ⟨-, h⟩ | ⟨w', ⟨e, -, -, h⟩ | ⟨tgt, hf, ⟨rfl, h⟩ | ⟨c', -, h⟩ | ⟨c', e, -, h⟩⟩⟩ <;> cases h
      exact Or.inr ⟨w', Or.inr ⟨tgt, hf, Or.inr (Or.inl ⟨c, rfl, rfl⟩)⟩⟩
    | ret e _ ih =>
      rcases ih with ⟨-, h⟩ | ⟨w', ⟨e', -, -, h⟩ | ⟨tgt, hf, ⟨-, h⟩ | ⟨c, rfl, h⟩ | ⟨c, e', -, h⟩⟩⟩ <;> cases h
      exact Or.inr ⟨w', Or.inr ⟨tgt, hf, Or.inr (Or.inr ⟨_, e, rfl, rfl⟩)⟩⟩
  rcases path hp with ⟨-, h⟩ | ⟨w', ⟨e, hf, hh, h⟩ | ⟨tgt, hf, ⟨-, h⟩ | ⟨c, -, h⟩ | ⟨c, e, hh, h⟩⟩⟩
  · cases h
  · cases h; exact ⟨w', Or.inl ⟨e, hf, rfl, by rw [callsBy_hist, hh]; rfl⟩⟩
  · cases h
  · cases h
  · cases h
    have h1 : (t, Ev.call c ctx [.ptr tgt]) ∈ l₁ := mem_hist_call.1 (by rw [hh]; simp)
    have h2 : (t, Ev.ret c raw) ∈ l₁ := mem_hist_ret.1 (by rw [hh]; simp)
    refine ⟨w', Or.inr ⟨tgt, c, ctx, hf, h1, h2, by rw [callsBy_hist, hh]; rfl, ?_⟩⟩
    rintro rfl
    exact ok_of_ret_none h hl h1 h2 _ (by simp)

/-! ## Concrete cases -/

namespace Demo

/-- 0 = Deps(main := 3, deps := 4, 5): the `Seq` is 0 and the `All` is 1; 2 = Seq(3, 5, 4); 3, 4 succeed, 5 fails;
6 = All(3, 5, 4); 7 = ArgTarget(3, "a", "b"); 8 refers to 3 by name; 9 refers to 8 by name. -/
def envT : Env Nat Ctx where
  addr o := o
  resolve o := match o with
    | 8 => some fun w => (w, .ok 3)
    | 9 => some fun w => (w, .ok 8)
    | _ => none
  body o ctx := match o with
    | 0 => seqBody [.ptr 1, .ptr 3] ctx
    | 1 => allBody [.ptr 4, .ptr 5] ctx
    | 2 => seqBody [.ptr 3, .ptr 5, .ptr 4] ctx
    | 5 => .ret (some (.atom 0))
    | 6 => allBody [.ptr 3, .ptr 5, .ptr 4] ctx
    | 7 => argBody (.ptr 3) ["a", "b"] ctx
    | 8 => nameBody (fun w => (w, .ok 3)) ctx
    | 9 => nameBody (fun w => (w, .ok 8)) ctx
    | 10 => seqBody [.ptr 11, .ptr 3] ctx
    | 11 => allBody [.ptr 4] ctx
    | _ => .act (· + 1) fun _ => .ret none

def runT (refs : List TRef) : State Nat Ctx :=
  runSched envT (init 0 [.call .root refs .ret]) (sched 40 12)

theorem runT_reach (refs : List TRef) : Reach envT 0 [.call .root refs .ret] (runT refs) := runSched_reach _ .init

example : IsDeps envT 0 1 (.ptr 3) [.ptr 4, .ptr 5] := ⟨fun _ => rfl, fun _ => rfl, rfl, fun _ h => h⟩
example : IsDeps envT 10 11 (.ptr 3) [.ptr 4] := ⟨fun _ => rfl, fun _ => rfl, rfl, fun _ h => h⟩

-- Deps with a failing dependency: the main target is not run; with succeeding ones it is
example : runsOf 3 (runT [.ptr 0]).log = 0 ∧ runsOf 4 (runT [.ptr 0]).log = 1 ∧ runsOf 0 (runT [.ptr 0]).log = 1 ∧
    callsN (runT [.ptr 0]).log = 3 ∧ retsN (runT [.ptr 0]).log = 3 := by decide +kernel
example : runsOf 3 (runT [.ptr 10]).log = 1 ∧ runsOf 4 (runT [.ptr 10]).log = 1 ∧ retsN (runT [.ptr 10]).log = 4 := by
  decide +kernel
-- Seq stops at the failure of its second target; All does not
example : runsOf 3 (runT [.ptr 2]).log = 1 ∧ runsOf 5 (runT [.ptr 2]).log = 1 ∧ runsOf 4 (runT [.ptr 2]).log = 0 ∧
    retsN (runT [.ptr 2]).log = 3 := by decide +kernel
example : runsOf 3 (runT [.ptr 6]).log = 1 ∧ runsOf 5 (runT [.ptr 6]).log = 1 ∧ runsOf 4 (runT [.ptr 6]).log = 1 ∧
    retsN (runT [.ptr 6]).log = 2 := by decide +kernel
-- the target below the ArgTarget is started with its arguments
example : (runT [.ptr 7]).log.any (fun e => match e.2 with
    | .start 1 0 3 3 ctx => getArgs ctx == ["a", "b"]
    | _ => false) = true := by decide +kernel
-- a name of a name runs the target
example : runsOf 3 (runT [.ptr 9]).log = 1 ∧ runsOf 8 (runT [.ptr 9]).log = 1 ∧ retsN (runT [.ptr 9]).log = 2 := by
  decide +kernel
example : envT.DistinctAddrs := fun _ _ h => h

end Demo
end Fab.Runner
