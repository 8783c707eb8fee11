import Verif.Runner.Determ

/-!
# C75: a build does what was asked for, nothing else, and reports every failure

One call of `Controller.Run` on a new controller (as `fab` makes it), from beginning to end.
-/

namespace Fab.Runner
variable {σ C : Type}

/-! ## Specification -/

/-- All ways through `p` end with an error. -/
def Proc.Fails : Proc σ C → Prop
  | .ret e => e ≠ none
  | .act _ k => ∀ w, (k w).Fails
  | .call _ _ k => ∀ e, (k e).Fails

/-- `p` passes on errors: once a call of `Run` has returned an error, `p` will return an error. -/
def Proc.PassesOn : Proc σ C → Prop
  | .ret _ => True
  | .act _ k => ∀ w, (k w).PassesOn
  | .call _ _ k => (∀ e, (k (some e)).Fails) ∧ (k none).PassesOn

/-- All targets pass on the errors of the targets they run. -/
def Env.PassesOn (env : Env σ C) : Prop := ∀ o ctx, (env.body o ctx).PassesOn

/-- `p` may call `Run` with `r` among the arguments. -/
inductive MayAsk (r : TRef) : Proc σ C → Prop
  | now {ctx refs k} : r ∈ refs → MayAsk r (.call ctx refs k)
  | act {f k} (w) : MayAsk r (k w) → MayAsk r (.act f k)
  | call {ctx refs k} (e) : MayAsk r (k e) → MayAsk r (.call ctx refs k)

/-- `p` cannot return nil without having called `Run` with `r` among the arguments. -/
def MustAsk (r : TRef) : Proc σ C → Prop
  | .ret e => e ≠ none
  | .act _ k => ∀ w, MustAsk r (k w)
  | .call _ refs k => r ∈ refs ∨ ∀ e, MustAsk r (k e)

/-- The targets that `Run(refs...)` may run: those that `refs` stand for, those that they may ask for, and so on. -/
inductive Reachable (env : Env σ C) (refs : List TRef) : Obj → Prop
  | arg {o t} : .ptr o ∈ refs → env.CanRun o t → Reachable env refs t
  | dep {o t x ctx} : Reachable env refs x → MayAsk (.ptr o) (env.body x ctx) → env.CanRun o t → Reachable env refs t

/-- The targets without which `Run(refs...)` cannot succeed. -/
inductive Needed (env : Env σ C) (refs : List TRef) : TRef → Prop
  | arg {r} : r ∈ refs → Needed env refs r
  | dep {o r} : Needed env refs (.ptr o) → (∀ t ctx, env.CanRun o t → MustAsk r (env.body t ctx)) → Needed env refs r

/-! ## Proofs -/

theorem Runs.detm {p : Proc σ C} {h : List (LEv σ C)} {pos pos' : Pos σ C} (h1 : Runs p h pos) (h2 : Runs p h pos') : pos = pos' := by
  induction h1 generalizing pos' with
  | nil =>
    generalize hh : ([] : List (LEv σ C)) = h at h2
    cases h2 <;> simp at hh
    rfl
  | @act h f k w _ ih =>
    generalize hh : h ++ [LEv.act w] = h' at h2
    cases h2 with
    | nil => simp at hh
    | act w' h2' =>
      have := List.append_inj' hh rfl
      obtain ⟨rfl, h4⟩ := this
      cases ih h2'; simp at h4; subst h4; rfl
    | call c h2' => have := (List.append_inj' hh rfl).2; simp at this
    | ret e h2' => have := (List.append_inj' hh rfl).2; simp at this
  | @call h ctx refs k c _ ih =>
    generalize hh : h ++ [LEv.call c ctx refs] = h' at h2
    cases h2 with
    | nil => simp at hh
    | act w' h2' => have := (List.append_inj' hh rfl).2; simp at this
    | call c' h2' =>
      have := List.append_inj' hh rfl
      obtain ⟨rfl, h4⟩ := this
      cases ih h2'; simp at h4; subst h4; rfl
    | ret e h2' => have := (List.append_inj' hh rfl).2; simp at this
  | @ret h c k e _ ih =>
    generalize hh : h ++ [LEv.ret c e] = h' at h2
    cases h2 with
    | nil => simp at hh
    | act w' h2' => have := (List.append_inj' hh rfl).2; simp at this
    | call c' h2' => have := (List.append_inj' hh rfl).2; simp at this
    | ret e' h2' =>
      have := List.append_inj' hh rfl
      obtain ⟨rfl, h4⟩ := this
      cases ih h2'; simp at h4; obtain ⟨-, rfl⟩ := h4; rfl

theorem Runs.prefix {p : Proc σ C} {h h' : List (LEv σ C)} {pos : Pos σ C} (hr : Runs p (h ++ h') pos) : ∃ pos', Runs p h pos' := by
  induction h' using snoc_ind generalizing pos with
  | h0 => rw [List.append_nil] at hr; exact ⟨_, hr⟩
  | h1 h' x ih =>
    rw [← List.append_assoc] at hr
    generalize hh : h ++ h' ++ [x] = g at hr
    cases hr with
    | nil => simp at hh
    | act w hr' => obtain ⟨rfl, -⟩ := List.append_inj' hh rfl; exact ih hr'
    | call c hr' => obtain ⟨rfl, -⟩ := List.append_inj' hh rfl; exact ih hr'
    | ret e hr' => obtain ⟨rfl, -⟩ := List.append_inj' hh rfl; exact ih hr'

/-- After the end nothing happens. -/
theorem Runs.ended {p : Proc σ C} {h h' : List (LEv σ C)} {pos : Pos σ C} {raw} (h1 : Runs p h (.at (.ret raw)))
    (h2 : Runs p (h ++ h') pos) : h' = [] := by
  cases h' with
  | nil => rfl
  | cons x h' =>
    exfalso
    rw [show h ++ x :: h' = (h ++ [x]) ++ h' by simp] at h2
    obtain ⟨pos', h3⟩ := h2.prefix
    generalize hh : h ++ [x] = g at h3
    cases h3 with
    | nil => simp at hh
    | act w h4 => obtain ⟨rfl, -⟩ := List.append_inj' hh rfl; cases h1.detm h4
    | call c h4 => obtain ⟨rfl, -⟩ := List.append_inj' hh rfl; cases h1.detm h4
    | ret e h4 => obtain ⟨rfl, -⟩ := List.append_inj' hh rfl; cases h1.detm h4

/-- Calls return before the next thing happens. -/
theorem Runs.returned {p : Proc σ C} {h : List (LEv σ C)} {pos : Pos σ C} (hr : Runs p h pos) :
    match pos with
    | .at _ => ∀ c ctx refs, LEv.call c ctx refs ∈ h → ∃ e, LEv.ret c e ∈ h
    | .inCall c' _ => ∀ c ctx refs, LEv.call c ctx refs ∈ h → c = c' ∨ ∃ e, LEv.ret c e ∈ h := by
  induction hr with
  | nil => simp
  | act w _ ih =>
    intro c ctx refs hm
    obtain ⟨e, he⟩ := ih c ctx refs (by simpa using hm)
    exact ⟨e, List.mem_append_left _ he⟩
  | call c' _ ih =>
    intro c ctx refs hm
    rcases List.mem_append.1 hm with hm | hm
    · obtain ⟨e, he⟩ := ih c ctx refs hm
      exact Or.inr ⟨e, List.mem_append_left _ he⟩
    · simp at hm; exact Or.inl hm.1
  | ret e _ ih =>
    intro c ctx refs hm
    rcases ih c ctx refs (by simpa using hm) with rfl | ⟨e', he⟩
    · exact ⟨e, by simp⟩
    · exact ⟨e', List.mem_append_left _ he⟩

/-- On the way to nil, all calls returned nil. -/
theorem Runs.passes {p : Proc σ C} {h : List (LEv σ C)} {pos : Pos σ C} (hp : p.PassesOn) (hr : Runs p h pos) :
    match pos with
    | .at q => q.Fails ∨ (q.PassesOn ∧ ∀ c e, LEv.ret c e ∈ h → e = none)
    | .inCall _ k => (∀ e, (k e).Fails) ∨ ((∀ e, (k (some e)).Fails) ∧ (k none).PassesOn ∧ ∀ c e, LEv.ret c e ∈ h → e = none) := by
  induction hr with
  | nil => exact Or.inr ⟨hp, by simp⟩
  | act w _ ih =>
    rcases ih with ih | ⟨ih, h2⟩
    · exact Or.inl (ih w)
    · exact Or.inr ⟨ih w, by simpa using h2⟩
  | call c _ ih =>
    rcases ih with ih | ⟨ih, h2⟩
    · exact Or.inl ih
    · exact Or.inr ⟨ih.1, ih.2, by simpa using h2⟩
  | ret e _ ih =>
    rcases ih with ih | ⟨ih, h2, h3⟩
    · exact Or.inl (ih e)
    · cases e with
      | some e => exact Or.inl (ih e)
      | none => exact Or.inr ⟨h2, by simp only [List.mem_append, List.mem_singleton, LEv.ret.injEq]; rintro c e (h | ⟨-, h⟩); exacts [h3 c e h, h]⟩

/-- Whoever returned nil has asked. -/
theorem Runs.asked {r : TRef} {p : Proc σ C} {h : List (LEv σ C)} {pos : Pos σ C} (hp : MustAsk r p) (hr : Runs p h pos) :
    (∃ c ctx refs, LEv.call c ctx refs ∈ h ∧ r ∈ refs) ∨
    match pos with
    | .at q => MustAsk r q
    | .inCall _ k => ∀ e, MustAsk r (k e) := by
  induction hr with
  | nil => exact Or.inr hp
  | act w _ ih =>
    rcases ih with ⟨c, ctx, refs, h1, h2⟩ | ih
    · exact Or.inl ⟨c, ctx, refs, List.mem_append_left _ h1, h2⟩
    · exact Or.inr (ih w)
  | @call h ctx refs k c _ ih =>
    rcases ih with ⟨c, ctx, refs, h1, h2⟩ | ih
    · exact Or.inl ⟨c, ctx, refs, List.mem_append_left _ h1, h2⟩
    · rcases ih with ih | ih
      · exact Or.inl ⟨c, ctx, refs, by simp, ih⟩
      · exact Or.inr ih
  | ret e _ ih =>
    rcases ih with ⟨c, ctx, refs, h1, h2⟩ | ih
    · exact Or.inl ⟨c, ctx, refs, List.mem_append_left _ h1, h2⟩
    · exact Or.inr (ih e)

/-- A call that happens may happen. -/
theorem Runs.mayAsk {r : TRef} {p : Proc σ C} {h : List (LEv σ C)} {pos : Pos σ C} (hr : Runs p h pos) :
    match pos with
    | .at q => MayAsk r q → MayAsk r p
    | .inCall _ k => ∀ e, MayAsk r (k e) → MayAsk r p := by
  induction hr with
  | nil => exact id
  | act w _ ih => exact fun h => ih (.act w h)
  | call c _ ih => exact fun e h => ih (.call e h)
  | ret e _ ih => exact ih e

/-- Two events of a log are the same or one precedes the other. -/
theorem two_events {α : Type} {l l₁ l₂ m₁ m₂ : List α} {a b : α} (h1 : l = l₁ ++ a :: l₂) (h2 : l = m₁ ++ b :: m₂) :
    (l₁ = m₁ ∧ a = b) ∨ a ∈ m₁ ∨ b ∈ l₁ := by
  subst h1
  rcases List.append_eq_append_iff.1 h2 with ⟨x, h3, h4⟩ | ⟨x, h3, h4⟩
  · cases x with
    | nil => simp at h3 h4; exact Or.inl ⟨h3.symm, h4.1⟩
    | cons y ys => simp at h4; refine Or.inr (Or.inl ?_); rw [h3, h4.1]; simp
  · cases x with
    | nil => simp at h3 h4; exact Or.inl ⟨h3, h4.1.symm⟩
    | cons y ys => simp at h4; refine Or.inr (Or.inr ?_); rw [h3, h4.1]; simp

/-- One goroutine runs what is kept under a key. -/
theorem start_key_uniq {env : Env σ C} {w : σ} {cl : List (Proc σ C)} {s : State σ C} (h : Reach env w cl s)
    {t c i key tgt ctx t' c' i' tgt' ctx'} (h1 : (t, Ev.start c i key tgt ctx) ∈ s.log)
    (h2 : (t', Ev.start c' i' key tgt' ctx') ∈ s.log) : t = t' := by
  obtain ⟨l₁, l₂, hl⟩ := List.append_of_mem h1
  obtain ⟨m₁, m₂, hm⟩ := List.append_of_mem h2
  rcases two_events hl hm with ⟨-, h3⟩ | h3 | h3
  · cases h3; rfl
  · exact absurd h3 ((h.evOk _ _ _ hm).1 _ _ _ _ _)
  · exact absurd h3 ((h.evOk _ _ _ hl).1 _ _ _ _ _)

theorem hist_append (t : Nat) (l l' : List (Nat × Ev σ C)) : hist t (l ++ l') = hist t l ++ hist t l' := by
  unfold hist; rw [List.filterMap_append]

/-- A key has at most one finish. -/
theorem finN_pos_twice {l l₁ l₂ : List (Nat × Ev σ C)} {t key tgt raw t' tgt' raw'} (h1 : (t', Ev.finish key tgt' raw') ∈ l₁)
    (hl : l = l₁ ++ (t, Ev.finish key tgt raw) :: l₂) (h : finN key l ≤ 1) : False := by
  have : 0 < finN key l₁ := List.countP_pos_iff.2 ⟨_, h1, by simp [Ev.isFinish]⟩
  rw [hl, finN_append, finN_cons] at h
  simp [Ev.isFinish] at h
  omega

/-- When a call has returned, the goroutines that it started have finished, with all their calls. -/
theorem start_done {env : Env σ C} {w : σ} {cl : List (Proc σ C)} {s : State σ C} (h : Reach env w cl s)
    {t c₀ i₀ key tgt ctx₀ t₀ e₀} (hst : (t, Ev.start c₀ i₀ key tgt ctx₀) ∈ s.log) (hret : (t₀, Ev.ret c₀ e₀) ∈ s.log) :
    ∃ raw m₁ m₂, s.log = m₁ ++ (t, Ev.finish key tgt raw) :: m₂ ∧ Runs (env.body tgt ctx₀) (hist t m₁) (.at (.ret raw)) ∧
      (∀ c ctx refs, (t, Ev.call c ctx refs) ∈ s.log → (t, Ev.call c ctx refs) ∈ m₁ ∧ ∃ e, (t, Ev.ret c e) ∈ m₁) ∧
      (e₀ = none → raw = none) := by
  obtain ⟨t', refs, o, h1, h2, h3, h4, h5⟩ := start_ok h hst
  obtain ⟨l₁, l₂, hl, ctx', refs', g1, -, outs, g2, g3, g4⟩ := h.evOk.mem hret
  obtain ⟨-, -, rfl⟩ := call_uniq h (sub_log hl g1) h1
  have hi : i₀ < outs.length := by rw [g2]; exact (List.getElem?_eq_some_iff.1 h2).1
  obtain ⟨t₁, tgt₁, raw, hf, hout⟩ : ∃ t₁ tgt₁ raw, (t₁, Ev.finish key tgt₁ raw) ∈ s.log ∧ outs[i₀] = wrapErr tgt₁ raw := by
    rcases g4 i₀ outs[i₀] (by simp) with ⟨t₁, e₁, hr, -⟩ | ⟨o', t₁, tgt₁, raw, ho, hf, hw, -⟩
    · obtain ⟨j, st, a1, a2, a3, -⟩ := h.inv.f.startJob _ _ _ _ _ _ hst
      exact absurd ⟨a2, a3⟩ (h.inv.e.refNoJob _ _ _ _ (sub_log hl hr) _ _ _ a1)
    · rw [h2] at ho; cases ho
      exact ⟨t₁, tgt₁, raw, h3 ▸ sub_log hl hf, hw⟩
  obtain ⟨m₁, m₂, hm⟩ := List.append_of_mem hf
  obtain ⟨c₁, i₁, ctx₁, f1, f2⟩ := finish_path h hm
  have := start_key_uniq h (sub_log hm f1) hst
  subst this
  obtain ⟨-, -, -, rfl, rfl⟩ := start_uniq h (sub_log hm f1) hst
  refine ⟨raw, m₁, m₂, hm, f2, ?_, ?_⟩
  · intro c ctx refs hc
    obtain ⟨n₁, n₂, hn⟩ := List.append_of_mem hc
    rcases two_events hm hn with ⟨-, h6⟩ | h6 | h6
    · cases h6
    · -- a call after the end
      exfalso
      obtain ⟨k, hk⟩ := call_path h hn hst
      obtain ⟨x₁, x₂, hx⟩ := List.append_of_mem h6
      have hx1 : x₁ = m₁ := by
        have : s.log = x₁ ++ (t₁, Ev.finish key tgt₁ raw) :: (x₂ ++ (t₁, Ev.call c ctx refs) :: n₂) := by rw [hn, hx]; simp
        rcases two_events hm this with ⟨h7, -⟩ | h7 | h7
        · exact h7.symm
        · exact (finN_pos_twice h7 this (h.inv.b.finOnce key)).elim
        · exact (finN_pos_twice h7 hm (h.inv.b.finOnce key)).elim
      subst hx1
      rw [hx, show x₁ ++ (t₁, Ev.finish key tgt₁ raw) :: x₂ = x₁ ++ ((t₁, Ev.finish key tgt₁ raw) :: x₂) from rfl, hist_append] at hk
      have := f2.ended hk
      rw [this, List.append_nil] at hk
      cases f2.detm hk
    · refine ⟨h6, ?_⟩
      have := f2.returned c ctx refs (mem_hist_call.2 h6)
      obtain ⟨e, he⟩ := this
      exact ⟨e, mem_hist_ret.1 he⟩
  · rintro rfl
    have hn : ∀ x ∈ outs, x = none := by
      unfold errJoin at g3
      split at g3
      · rename_i hnil; rw [List.filterMap_eq_nil_iff] at hnil; exact fun x hx => hnil x hx
      · cases g3
    rw [hn _ (List.getElem_mem hi)] at hout
    cases raw with
    | none => rfl
    | some e => cases hout

/-- The client makes one call, the one with its arguments; every other call is made by a goroutine that was started before. -/
theorem caller {env : Env σ C} {w : σ} {ctx₀ : C} {refs₀ : List TRef} {s : State σ C}
    (h : Reach env w [.call ctx₀ refs₀ .ret] s) {l₁ l₂ t c ctx refs} (hl : s.log = l₁ ++ (t, Ev.call c ctx refs) :: l₂) :
    (t = 0 ∧ ctx = ctx₀ ∧ refs = refs₀ ∧ hist 0 l₁ = []) ∨
    ∃ c₁ i₁ key tgt ctx₁ k, (t, Ev.start c₁ i₁ key tgt ctx₁) ∈ l₁ ∧ Runs (env.body tgt ctx₁) (hist t l₁) (.at (.call ctx refs k)) := by
  obtain ⟨p, k, hex, hr⟩ := h.evPath _ _ _ hl
  rcases hex with ⟨c', i', key', tgt', ctx', hm, rfl⟩ | ⟨h1, -⟩
  · exact Or.inr ⟨_, _, _, _, _, _, hm, hr⟩
  · have ht := (List.getElem?_eq_some_iff.1 h1).1
    simp only [List.length_singleton] at ht
    have ht : t = 0 := by omega
    subst ht
    simp at h1; subst h1
    rcases call_ret_path hr with ⟨h2, h3⟩ | ⟨c', -, h3⟩ | ⟨c', e, -, h3⟩ <;> cases h3
    exact Or.inl ⟨rfl, rfl, rfl, h2⟩

theorem client_job {env : Env σ C} {w : σ} {cl : List (Proc σ C)} {s : State σ C} (h : Reach env w cl s) {t : Nat}
    (ht : t < cl.length) : ∃ st, s.th t = some ⟨none, st⟩ := by
  induction h with
  | init => exact ⟨.exec cl[t], by simp [Runner.init, State.th, ht]⟩
  | @step s s' l hr hs ih =>
    obtain ⟨st, ih⟩ := ih
    cases l with
    | thread tid =>
      obtain ⟨th, hth, hc⟩ := step_cases hs
      obtain ⟨st', h1, -⟩ := th_persist hth hc ih
      exact ⟨st', h1⟩
    | extern f =>
      simp only [lstep, Option.some.injEq] at hs
      subst hs
      exact ⟨st, ih⟩

/-- What goroutine 0 did with `Run` is the client's call. -/
theorem client_call {env : Env σ C} {w : σ} {ctx₀ : C} {refs₀ : List TRef} {s : State σ C}
    (h : Reach env w [.call ctx₀ refs₀ .ret] s) {c ctx refs} (hc : (0, Ev.call c ctx refs) ∈ s.log) :
    ctx = ctx₀ ∧ refs = refs₀ ∧ ∀ c' ctx' refs', (0, Ev.call c' ctx' refs') ∈ s.log → c' = c := by
  have key : ∀ {l₁ l₂ c ctx refs}, s.log = l₁ ++ (0, Ev.call c ctx refs) :: l₂ → ctx = ctx₀ ∧ refs = refs₀ ∧ hist 0 l₁ = [] := by
    intro l₁ l₂ c ctx refs hl
    rcases caller h hl with ⟨-, h1⟩ | ⟨_, _, _, _, _, _, hm, -⟩
    · exact h1
    · obtain ⟨j, st, a1, -⟩ := h.inv.f.startJob _ _ _ _ _ _ (sub_log hl hm)
      obtain ⟨st', a2⟩ := client_job (t := 0) h (by simp)
      rw [a1] at a2; cases a2
  obtain ⟨l₁, l₂, hl⟩ := List.append_of_mem hc
  obtain ⟨h1, h2, h3⟩ := key hl
  refine ⟨h1, h2, fun c' ctx' refs' hc' => ?_⟩
  obtain ⟨m₁, m₂, hm⟩ := List.append_of_mem hc'
  obtain ⟨-, -, h4⟩ := key hm
  rcases two_events hl hm with ⟨-, h5⟩ | h5 | h5
  · cases h5; rfl
  · have := mem_hist_call.2 h5; rw [h4] at this; cases this
  · have := mem_hist_call.2 h5; rw [h3] at this; cases this

/-- Once the client's call has returned, all calls have. -/
theorem all_returned {env : Env σ C} {w : σ} {ctx₀ : C} {refs₀ : List TRef} {s : State σ C}
    (h : Reach env w [.call ctx₀ refs₀ .ret] s) {c₀ e₀} (hret : (0, Ev.ret c₀ e₀) ∈ s.log) {t c ctx refs}
    (hc : (t, Ev.call c ctx refs) ∈ s.log) : ∃ e, (t, Ev.ret c e) ∈ s.log := by
  obtain ⟨l₁, l₂, hl⟩ := List.append_of_mem hc
  clear hc
  induction hn : l₁.length using Nat.strongRecOn generalizing l₁ l₂ t c ctx refs with
  | ind n ih =>
    subst hn
    rcases caller h hl with ⟨rfl, -⟩ | ⟨c₁, i₁, key, tgt, ctx₁, k, hm, -⟩
    · obtain ⟨ctx', refs', hh⟩ := h.inv.f.retEv _ _ _ hret
      have h1 := (h.inv.f.callEv _ _ _ _).1 hh
      have := (client_call h h1).2.2 c ctx refs (by rw [hl]; simp)
      subst this
      exact ⟨e₀, hret⟩
    · obtain ⟨x₁, x₂, hx⟩ := List.append_of_mem hm
      obtain ⟨-, t', refs', o, h1, -⟩ := h.evOk x₁ (t, Ev.start c₁ i₁ key tgt ctx₁) (x₂ ++ (t, Ev.call c ctx refs) :: l₂) (by rw [hl, hx]; simp)
      obtain ⟨y₁, y₂, hy⟩ := List.append_of_mem h1
      obtain ⟨e', he'⟩ := ih (t := t') (c := c₁) (ctx := ctx₁) (refs := refs') y₁.length (by rw [hx, hy]; simp) y₁ (y₂ ++ (t, Ev.start c₁ i₁ key tgt ctx₁) :: x₂ ++ (t, Ev.call c ctx refs) :: l₂)
        (by rw [hl, hx, hy]; simp) rfl
      obtain ⟨raw, m₁, m₂, hm', -, h3, -⟩ := start_done h (sub_log hl hm) he'
      obtain ⟨-, e, he⟩ := h3 c ctx refs (by rw [hl]; simp)
      exact ⟨e, sub_log hm' he⟩

/-- **C75, nothing is left running.** When `Run` has returned, every target that was started has returned, and so has every
call of `Run` made by a target. -/
theorem C75_quiet {env : Env σ C} {w : σ} {ctx₀ : C} {refs₀ : List TRef} {s : State σ C}
    (h : Reach env w [.call ctx₀ refs₀ .ret] s) {c₀ e₀} (hret : (0, Ev.ret c₀ e₀) ∈ s.log) :
    (∀ t c i key tgt ctx, (t, Ev.start c i key tgt ctx) ∈ s.log → ∃ raw, (t, Ev.finish key tgt raw) ∈ s.log) ∧
    (∀ t c ctx refs, (t, Ev.call c ctx refs) ∈ s.log → ∃ e, (t, Ev.ret c e) ∈ s.log) := by
  refine ⟨?_, fun t c ctx refs hc => all_returned h hret hc⟩
  intro t c i key tgt ctx hst
  obtain ⟨t', refs, o, h1, -⟩ := start_ok h hst
  obtain ⟨e, he⟩ := all_returned h hret h1
  obtain ⟨raw, m₁, m₂, hm, -⟩ := start_done h hst he
  exact ⟨raw, by rw [hm]; simp⟩

/-- **C75, nothing else is run.** -/
theorem C75_confined {env : Env σ C} {w : σ} {ctx₀ : C} {refs₀ : List TRef} {s : State σ C}
    (h : Reach env w [.call ctx₀ refs₀ .ret] s) {t c i key tgt ctx} (hst : (t, Ev.start c i key tgt ctx) ∈ s.log) :
    Reachable env refs₀ tgt := by
  obtain ⟨l₁, l₂, hl⟩ := List.append_of_mem hst
  clear hst
  induction hn : l₁.length using Nat.strongRecOn generalizing l₁ l₂ t c i key tgt ctx with
  | ind n ih =>
    subst hn
    obtain ⟨-, t', refs, o, h1, h2, h3, h4, h5⟩ := h.evOk _ _ _ hl
    have hcan : env.CanRun o tgt := by
      cases hr : env.resolve o with
      | none => exact Or.inl ⟨hr, h4 hr⟩
      | some f => obtain ⟨w, hw⟩ := h5 f hr; exact Or.inr ⟨f, w, hr, hw⟩
    obtain ⟨x₁, x₂, hx⟩ := List.append_of_mem h1
    have hmem := List.mem_of_getElem? h2
    rcases caller h (t := t') (c := c) (ctx := ctx) (refs := refs) (l₁ := x₁) (l₂ := x₂ ++ (t, Ev.start c i key tgt ctx) :: l₂) (by rw [hl, hx]; simp) with
      ⟨-, -, h6, -⟩ | ⟨c₁, i₁, key₁, tgt₁, ctx₁, k, hm, hr⟩
    · exact .arg (h6 ▸ hmem) hcan
    · obtain ⟨y₁, y₂, hy⟩ := List.append_of_mem hm
      refine .dep (x := tgt₁) (ctx := ctx₁) ?_ (hr.mayAsk (.now hmem)) hcan
      exact ih (t := t') (c := c₁) (i := i₁) (key := key₁) (ctx := ctx₁) y₁.length (by rw [hx, hy]; simp) y₁
        (y₂ ++ (t', Ev.call c ctx refs) :: x₂ ++ (t, Ev.start c i key tgt ctx) :: l₂) (by rw [hl, hx, hy]; simp) rfl

/-- Targets that pass on errors: if the client's call returned nil, all calls did. -/
theorem all_nil {env : Env σ C} (hp : env.PassesOn) {w : σ} {ctx₀ : C} {refs₀ : List TRef} {s : State σ C}
    (h : Reach env w [.call ctx₀ refs₀ .ret] s) {c₀} (hret : (0, Ev.ret c₀ none) ∈ s.log) {t c ctx refs}
    (hc : (t, Ev.call c ctx refs) ∈ s.log) : (t, Ev.ret c none) ∈ s.log := by
  obtain ⟨l₁, l₂, hl⟩ := List.append_of_mem hc
  clear hc
  induction hn : l₁.length using Nat.strongRecOn generalizing l₁ l₂ t c ctx refs with
  | ind n ih =>
    subst hn
    rcases caller h hl with ⟨rfl, -⟩ | ⟨c₁, i₁, key, tgt, ctx₁, k, hm, -⟩
    · obtain ⟨ctx', refs', hh⟩ := h.inv.f.retEv _ _ _ hret
      have h1 := (h.inv.f.callEv _ _ _ _).1 hh
      have := (client_call h h1).2.2 c ctx refs (by rw [hl]; simp)
      subst this
      exact hret
    · obtain ⟨x₁, x₂, hx⟩ := List.append_of_mem hm
      obtain ⟨-, t', refs', o, h1, -⟩ := h.evOk x₁ (t, Ev.start c₁ i₁ key tgt ctx₁) (x₂ ++ (t, Ev.call c ctx refs) :: l₂) (by rw [hl, hx]; simp)
      obtain ⟨y₁, y₂, hy⟩ := List.append_of_mem h1
      have he' := ih (t := t') (c := c₁) (ctx := ctx₁) (refs := refs') y₁.length (by rw [hx, hy]; simp) y₁ (y₂ ++ (t, Ev.start c₁ i₁ key tgt ctx₁) :: x₂ ++ (t, Ev.call c ctx refs) :: l₂)
        (by rw [hl, hx, hy]; simp) rfl
      obtain ⟨raw, m₁, m₂, hm', h2, h3, h4⟩ := start_done h (sub_log hl hm) he'
      obtain ⟨-, e, he⟩ := h3 c ctx refs (by rw [hl]; simp)
      rcases h2.passes (hp _ _) with h5 | ⟨-, h5⟩
      · exact absurd (h4 rfl) h5
      · have := h5 c e (mem_hist_ret.2 he)
        subst this
        exact sub_log hm' he

theorem errJoin_none {outs : List (Option Err)} : errJoin outs = none ↔ ∀ x ∈ outs, x = none := by
  unfold errJoin
  split
  · rename_i hnil; rw [List.filterMap_eq_nil_iff] at hnil; simpa using hnil
  · rename_i es hne
    simp only [reduceCtorEq, false_iff]
    intro hall; apply hne
    rw [List.filterMap_eq_nil_iff]; simpa using hall

/-- **C75, every failure is reported.** If all targets pass on the errors of the targets that they run, `Run` returns nil exactly
if nothing went wrong anywhere: every target that was run returned nil, and no reference had to be refused. -/
theorem C75_status {env : Env σ C} (hp : env.PassesOn) {w : σ} {ctx₀ : C} {refs₀ : List TRef} {s : State σ C}
    (h : Reach env w [.call ctx₀ refs₀ .ret] s) {c₀ e₀} (hret : (0, Ev.ret c₀ e₀) ∈ s.log) :
    e₀ = none ↔ (∀ t key tgt raw, (t, Ev.finish key tgt raw) ∈ s.log → raw = none) ∧
      (∀ t c i e, (t, Ev.refuse c i e) ∉ s.log) := by
  constructor
  · rintro rfl
    constructor
    · intro t key tgt raw hf
      obtain ⟨l₁, l₂, hl, c, i, ctx, hst⟩ := h.evOk.mem hf
      have hst' := sub_log hl hst
      obtain ⟨t', refs, o, h1, -⟩ := start_ok h hst'
      obtain ⟨raw', m₁, m₂, hm, -, -, h4⟩ := start_done h hst' (all_nil hp h hret h1)
      have hf' : (t, Ev.finish key tgt raw') ∈ s.log := by rw [hm]; simp
      rw [(finN_two (h.inv.b.finOnce key) hf hf').2]
      exact h4 rfl
    · intro t c i e href
      obtain ⟨ctx, refs, hh, hw⟩ := h.inv.f.refWhy _ _ _ _ href
      have hc := (h.inv.f.callEv _ _ _ _).1 hh
      obtain ⟨l₁, l₂, hl, ctx', refs', g1, -, outs, g2, g3, g4⟩ := h.evOk.mem (all_nil hp h hret hc)
      obtain ⟨-, -, rfl⟩ := call_uniq h (sub_log hl g1) hc
      have hi : i < outs.length := by
        rw [g2]
        rcases hw with ⟨n, hv, -⟩ | ⟨o, f, w', hv, -⟩ <;> exact (List.getElem?_eq_some_iff.1 hv).1
      have hnone := errJoin_none.1 g3.symm _ (List.getElem_mem hi)
      rcases g4 i outs[i] (by simp) with ⟨t₁, e₁, -, h6⟩ | ⟨o', t₁, tgt₁, raw, -, -, -, t₂, hre⟩
      · rw [hnone] at h6; cases h6
      · obtain ⟨j, st, a1, a2, a3, -⟩ := h.inv.f.resJob _ _ _ _ (sub_log hl hre)
        exact h.inv.e.refNoJob _ _ _ _ href _ _ _ a1 ⟨a2, a3⟩
  · rintro ⟨h1, h2⟩
    obtain ⟨l₁, l₂, hl, ctx', refs', g1, -, outs, g2, g3, g4⟩ := h.evOk.mem hret
    rw [g3, errJoin_none]
    intro x hx
    obtain ⟨i, hi⟩ := List.mem_iff_getElem?.1 hx
    rcases g4 i x hi with ⟨t₁, e₁, h6, -⟩ | ⟨o', t₁, tgt₁, raw, -, hf, h6, -⟩
    · exact absurd (sub_log hl h6) (h2 _ _ _ _)
    · rw [h6, h1 _ _ _ _ (sub_log hl hf)]; rfl

/-- **C75, everything needed is run.** If `Run` returned nil, every target that is needed (an argument, or something without which a
needed target cannot return nil) has been run and has returned nil. -/
theorem C75_needed {env : Env σ C} (hp : env.PassesOn) (ha : env.DistinctAddrs) {w : σ} {ctx₀ : C} {refs₀ : List TRef}
    {s : State σ C} (h : Reach env w [.call ctx₀ refs₀ .ret] s) {c₀} (hret : (0, Ev.ret c₀ none) ∈ s.log) {r : TRef}
    (hr : Needed env refs₀ r) : FinishedOK env s.log r := by
  have key : ∀ {t c ctx refs}, (t, Ev.call c ctx refs) ∈ s.log → ∀ r ∈ refs, FinishedOK env s.log r := fun hc r hm =>
    ok_of_ret_none h (l₁ := s.log) (l₂ := []) (by simp) hc (all_nil hp h hret hc) r hm
  induction hr with
  | arg hm =>
    obtain ⟨ctx', refs', hh⟩ := h.inv.f.retEv _ _ _ hret
    have h1 := (h.inv.f.callEv _ _ _ _).1 hh
    obtain ⟨-, rfl, -⟩ := client_call h h1
    exact key h1 _ hm
  | @dep o r _ hmust ih =>
    obtain ⟨o', t, tgt, he, hf⟩ := ih
    cases he
    obtain ⟨m₁, m₂, hm⟩ := List.append_of_mem hf
    obtain ⟨c, i, ctx, hst, hruns⟩ := finish_path h hm
    rcases hruns.asked (hmust tgt ctx (finish_tgt h (fun o' ho' => ha o' o ho') hf)) with ⟨c', ctx', refs', h1, h2⟩ | h1
    · exact key (sub_log hm (mem_hist_call.1 h1)) _ h2
    · exact absurd rfl h1

/-- **C75, order.** When a target returns nil, what it needs has already returned nil: whoever calls Run, and however often. -/
theorem C75_order {env : Env σ C} (hp : env.PassesOn) (ha : env.DistinctAddrs) {w : σ} {cl : List (Proc σ C)} {s : State σ C}
    (h : Reach env w cl s) {l₁ l₂ : List (Nat × Ev σ C)} {th : Nat} {o tgt : Obj}
    (hl : s.log = l₁ ++ (th, Ev.finish (env.addr o) tgt none) :: l₂) {r : TRef}
    (hr : ∀ t ctx, env.CanRun o t → MustAsk r (env.body t ctx)) : FinishedOK env l₁ r := by
  obtain ⟨c, i, ctx, hst, hruns⟩ := finish_path h hl
  have hcan : env.CanRun o tgt := finish_tgt h (fun o' ho' => ha o' o ho') (t := th) (raw := none) (by rw [hl]; simp)
  rcases hruns.asked (hr tgt ctx hcan) with ⟨c', ctx', refs', h1, h2⟩ | h1
  · obtain ⟨e, he⟩ := hruns.returned c' ctx' refs' h1
    rcases hruns.passes (hp tgt ctx) with hf | ⟨-, hf⟩
    · exact absurd rfl hf
    · have := hf _ _ he
      subst this
      exact ok_of_ret_none h hl (mem_hist_call.1 h1) (mem_hist_ret.1 he) r h2
  · exact absurd rfl h1

/-- **C75, cycles.** Targets that need one another in a circle do not succeed, and no call of Run with one of them returns nil. -/
theorem C75_needs_itself {env : Env σ C} (hp : env.PassesOn) (ha : env.DistinctAddrs) {S : Obj → Prop}
    (hS : ∀ o, S o → ∃ o', S o' ∧ ∀ t ctx, env.CanRun o t → MustAsk (.ptr o') (env.body t ctx)) {w : σ} {cl : List (Proc σ C)}
    {s : State σ C} (h : Reach env w cl s) :
    (∀ o, S o → ∀ th tgt, (th, Ev.finish (env.addr o) tgt none) ∉ s.log) ∧
    ∀ th c ctx refs o, (th, Ev.call c ctx refs) ∈ s.log → .ptr o ∈ refs → S o → ∀ th', (th', Ev.ret c none) ∉ s.log := by
  have key : ∀ o, S o → ∀ th tgt, (th, Ev.finish (env.addr o) tgt none) ∉ s.log := by
    intro o ho th tgt hm
    obtain ⟨l₁, l₂, hl⟩ := List.append_of_mem hm
    clear hm
    induction hn : l₁.length using Nat.strongRecOn generalizing l₁ l₂ o th tgt with
    | ind n ih =>
      subst hn
      obtain ⟨o', ho', hr⟩ := hS o ho
      obtain ⟨o'', th', tgt', he, hf⟩ := C75_order hp ha h hl hr
      cases he
      obtain ⟨m₁, m₂, hm⟩ := List.append_of_mem hf
      exact ih m₁.length (by rw [hm]; simp) o' ho' th' tgt' m₁ _ (by rw [hl, hm]; simp; rfl) rfl
  refine ⟨key, fun th c ctx refs o hc hm ho th' hret => ?_⟩
  obtain ⟨o', th'', tgt, he, hf⟩ := ok_of_ret_none h (l₁ := s.log) (l₂ := []) (by simp) hc hret _ hm
  cases he
  exact key o ho _ _ hf

/-! ## The combinators pass on errors and need their targets -/

theorem allBody_passesOn (refs : List TRef) (ctx : C) : (allBody (σ := σ) refs ctx).PassesOn :=
  ⟨fun e => by simp [Proc.Fails], trivial⟩

theorem seqBody_passesOn : ∀ (refs : List TRef) (ctx : C), (seqBody (σ := σ) refs ctx).PassesOn
  | [], _ => trivial
  | _ :: rs, ctx => ⟨fun e => by simp [Proc.Fails], seqBody_passesOn rs ctx⟩

theorem argBody_passesOn (r : TRef) (args : List String) (ctx : Ctx) : (argBody (σ := σ) r args ctx).PassesOn :=
  ⟨fun e => by simp [Proc.Fails], trivial⟩

theorem nameBody_passesOn (f : σ → σ × Except Err Obj) (ctx : C) : (nameBody f ctx).PassesOn := by
  intro w
  dsimp only
  split
  · trivial
  · exact ⟨fun e => by simp [Proc.Fails], trivial⟩

/-- **C75** `All` needs all its targets ... -/
theorem C75_all_needs {refs : List TRef} {ctx : C} {r : TRef} (h : r ∈ refs) : MustAsk r (allBody (σ := σ) refs ctx) := Or.inl h

/-- ... and so does `Seq` ... -/
theorem C75_seq_needs : ∀ {refs : List TRef} {ctx : C} {r : TRef}, r ∈ refs → MustAsk r (seqBody (σ := σ) refs ctx)
  | r' :: rs, ctx, r, h => by
    rcases List.mem_cons.1 h with rfl | h
    · exact Or.inl (by simp)
    · refine Or.inr fun e => ?_
      cases e with
      | some e => simp [MustAsk]
      | none => exact C75_seq_needs h

/-- ... and `ArgTarget` needs its target. -/
theorem C75_arg_needs {r : TRef} {args : List String} {ctx : Ctx} : MustAsk r (argBody (σ := σ) r args ctx) := Or.inl (by simp)

/-! ## A concrete case -/

namespace WholeDemo

/-- Target 0 is `All(1, 4)`, target 1 is `Seq(3, 2)`; 2 and 3 act on the world; 2 fails if the world is 0;
4 is a name for 3; 5 is not asked for by anything. -/
def env : Env Nat Unit where
  addr o := o
  resolve o := if o = 4 then some fun w => (w, .ok 3) else none
  body o ctx := match o with
    | 0 => allBody [.ptr 1, .ptr 4] ctx
    | 1 => seqBody [.ptr 3, .ptr 2] ctx
    | 2 => .act (· + 1) fun w => .ret (if w = 0 then some (.atom 7) else none)
    | _ => .act (· * 2) fun _ => .ret none

theorem passesOn : env.PassesOn := by
  intro o ctx
  match o with
  | 0 => exact allBody_passesOn _ _
  | 1 => exact seqBody_passesOn _ _
  | 2 => exact fun _ => trivial
  | n + 3 => exact fun _ => trivial

theorem distinct : env.DistinctAddrs := fun _ _ h => h

/-- target 2 is needed for target 0 -/
theorem needed : Needed env [.ptr 0] (.ptr 2) := by
  refine .dep (o := 1) (.dep (o := 0) (.arg (by simp)) ?_) ?_
  · rintro t ctx (⟨-, rfl⟩ | ⟨f, w, h1, -⟩)
    · exact C75_all_needs (by simp)
    · cases h1
  · rintro t ctx (⟨-, rfl⟩ | ⟨f, w, h1, -⟩)
    · exact C75_seq_needs (by simp)
    · cases h1

/-- target 5 cannot be run for target 0 -/
theorem not_reachable : ¬ Reachable env [.ptr 0] 5 := by
  have can : ∀ {o t}, env.CanRun o t → o = 4 ∧ t = 3 ∨ t = o := by
    rintro o t (⟨-, rfl⟩ | ⟨f, w, h1, h2⟩)
    · exact Or.inr rfl
    · simp only [env] at h1
      split at h1
      · rename_i ho; cases h1; cases h2; exact Or.inl ⟨ho, rfl⟩
      · cases h1
  have all : ∀ t : Nat, Reachable env [.ptr 0] t → t ≤ 3 := by
    intro t h
    induction h with
    | @arg o t hm hc => simp at hm; subst hm; rcases can hc with ⟨h, -⟩ | rfl <;> grind
    | @dep o t x ctx _ hm hc ih =>
      have ho : (o : Nat) ≤ 4 := by
        match x, hm with
        | 0, hm =>
          cases hm with
          | now h => simp at h; grind
          | call e h => cases h
        | 1, hm =>
          cases hm with
          | now h => simp at h; grind
          | call e h =>
            cases e with
            | some e => cases h
            | none =>
              cases h with
              | now h => simp at h; grind
              | call e h => cases e <;> cases h
        | 2, hm => cases hm with | act w h => cases h
        | n + 3, hm => cases hm with | act w h => cases h
      by_cases h4 : o = 4
      · rcases can hc with ⟨-, rfl⟩ | rfl
        · grind
        · subst h4
          rcases hc with ⟨h, -⟩ | ⟨f, w, h1, h2⟩
          · cases h
          · cases h1; cases h2
      · rcases can hc with ⟨h, -⟩ | rfl <;> grind
  intro h
  have := all 5 h
  grind

/-- Target 0 needs 1, which needs 2 and then 0: they do not succeed. -/
def envRound : Env Nat Unit where
  addr o := o
  resolve _ := none
  body o ctx := match o with
    | 0 => allBody [.ptr 2, .ptr 1] ctx
    | 1 => seqBody [.ptr 2, .ptr 0] ctx
    | _ => .act (· + 1) fun w => .ret (if w = 0 then some (.atom 7) else none)

example : envRound.PassesOn ∧ envRound.DistinctAddrs ∧
    ∀ o, o < 2 → ∃ o', o' < 2 ∧ ∀ t ctx, envRound.CanRun o t → MustAsk (.ptr o') (envRound.body t ctx) := by
  refine ⟨fun o ctx => ?_, fun _ _ h => h, fun o ho => ?_⟩
  · match o with
    | 0 => exact allBody_passesOn _ _
    | 1 => exact seqBody_passesOn _ _
    | n + 2 => exact fun _ => trivial
  · match o, ho with
    | 0, _ => exact ⟨1, by decide, by rintro t ctx (⟨-, rfl⟩ | ⟨f, w, h1, -⟩); exacts [C75_all_needs (by simp), by cases h1]⟩
    | 1, _ => exact ⟨0, by decide, by rintro t ctx (⟨-, rfl⟩ | ⟨f, w, h1, -⟩); exacts [C75_seq_needs (by simp), by cases h1]⟩

def run (w : Nat) : State Nat Unit := runSched env (init w [.call () [.ptr 0] .ret]) (Demo.sched 40 7)
theorem run_reach (w : Nat) : Reach env w [.call () [.ptr 0] .ret] (run w) := runSched_reach _ .init

def retOf (s : State Nat Unit) : List (Option Bool) := s.log.filterMap fun e => match e with
  | (0, .ret _ e) => some (e.map fun _ => true)
  | _ => none

/-- `run w` returns nil or an error, according to `w`. -/
theorem ends {w : Nat} {b} (h : retOf (run w) = [b]) : ∃ c e, (0, Ev.ret c e) ∈ (run w).log ∧ (e = none ↔ b = none) := by
  have hb : b ∈ retOf (run w) := by rw [h]; simp
  obtain ⟨⟨t, e⟩, hm, he⟩ := List.mem_filterMap.1 hb
  split at he
  · rename_i c e' heq
    cases heq
    cases he
    exact ⟨c, e', hm, by cases e' <;> simp⟩
  · cases he

/-- C75: one execution returns nil, another one returns an error. -/
example : (∃ s c, Reach env 1 [.call () [.ptr 0] .ret] s ∧ (0, Ev.ret c none) ∈ s.log) ∧
    ∃ s c e, Reach env 0 [.call () [.ptr 0] .ret] s ∧ (0, Ev.ret c (some e)) ∈ s.log := by
  constructor
  · obtain ⟨c, e, h1, h2⟩ := ends (w := 1) (b := none) (by decide +kernel)
    have := h2.2 rfl; subst this
    exact ⟨_, c, run_reach 1, h1⟩
  · obtain ⟨c, e, h1, h2⟩ := ends (w := 0) (b := some true) (by decide +kernel)
    cases e with
    | none => simp at h2
    | some e => exact ⟨_, c, e, run_reach 0, h1⟩

end WholeDemo

end Fab.Runner
