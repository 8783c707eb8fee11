import Verif.Runner.InvB

/-! # The runner: activations of `Run` (helper invariants, no properties) -/

namespace Fab.Runner
variable {σ C : Type}

/-- Activation number `c`. -/
def State.cl (s : State σ C) (c : Nat) : Option (Call C) := s.calls[c]?

theorem cl_same {s : State σ C} (c : Nat) (w : σ) (d r t l) : State.cl ⟨w, d, r, s.calls, t, l⟩ c = s.cl c := rfl

theorem cl_modify {s : State σ C} (c₀ : Nat) (f : Call C → Call C) (c : Nat) (w : σ) (d r t l) :
    State.cl ⟨w, d, r, s.calls.modify c₀ f, t, l⟩ c = if c = c₀ then (s.cl c).map f else s.cl c := by
  unfold State.cl; grind

theorem cl_snoc {s : State σ C} (x : Call C) (c : Nat) (w : σ) (d r t l) :
    State.cl ⟨w, d, r, s.calls ++ [x], t, l⟩ c = if c = s.calls.length then some x else s.cl c := by
  unfold State.cl; grind

/-- The parts of an activation that never change. -/
def State.refs (s : State σ C) (c : Nat) : Option (List TRef) := (s.cl c).map (·.refs)
def State.ctx (s : State σ C) (c : Nat) : Option C := (s.cl c).map (·.ctx)
def State.caller (s : State σ C) (c : Nat) : Option Nat := (s.cl c).map (·.tid)

structure InvC (env : Env σ C) (s : State σ C) : Prop where
  job : ∀ (t : Nat) (j : Job C) (st : TSt σ C), s.th t = some ⟨some j, st⟩ →
    ∃ x o, s.cl j.call = some x ∧ x.refs[j.idx]? = some (.ptr o) ∧ env.addr o = j.key ∧ x.ctx = j.ctx ∧
      (env.resolve o = none → j.tgt = o) ∧
      (∀ f, env.resolve o = some f → ∃ w, (f w).2 = .ok j.tgt)
  spawn : ∀ (t : Nat) (jb : Option (Job C)) (c i ctx todo) (k : Option Err → Proc σ C),
    s.th t = some ⟨jb, .spawning c i ctx todo k⟩ →
    ∃ x, s.cl c = some x ∧ x.tid = t ∧ x.ctx = ctx ∧ x.refs.drop i = todo
  join : ∀ (t : Nat) (jb : Option (Job C)) (c) (k : Option Err → Proc σ C), s.th t = some ⟨jb, .joining c k⟩ →
    ∃ x, s.cl c = some x ∧ x.tid = t
  bound : ∀ (t t' : Nat) (jb : Option (Job C)) (c i ctx todo) (k : Option Err → Proc σ C) (j : Job C) (st : TSt σ C),
    s.th t = some ⟨jb, .spawning c i ctx todo k⟩ → s.th t' = some ⟨some j, st⟩ → j.call = c → j.idx < i
  len : ∀ c x, s.cl c = some x → x.errs.length = x.refs.length

theorem cl_length (s : State σ C) : s.cl s.calls.length = none := by simp [State.cl]

theorem drop_cons {l : List TRef} {i : Nat} {r : TRef} {rs : List TRef} (h : l.drop i = r :: rs) :
    l[i]? = some r ∧ l.drop (i + 1) = rs := by
  have h1 : l[i]? = some r := by
    have := congrArg (·[0]?) h
    simpa using this
  have h2 := congrArg List.tail h
  simp at h2
  exact ⟨h1, h2⟩

theorem InvC.step {env : Env σ C} {s s' : State σ C} {tid th} (ih : InvC env s)
    (hth : s.th tid = some th) (h : StepC env s tid th s') : InvC env s' := by
  obtain ⟨hjob, hspawn, hjoin, hbound, hlen⟩ := ih
  obtain ⟨jb, st⟩ := th
  have hnone : s.th s.threads.length = none := by simp [State.th]
  have hclnone := cl_length s
  have hj0 := hjob tid
  have hs0 := hspawn tid
  have hb0 := fun t' => hbound tid t'
  cases h <;> simp only at * <;> subst_vars <;>
  (constructor <;> simp only [th_set hth, th_set_snoc hth, cl_same, cl_modify, cl_snoc])
  case call.spawn =>
    intro t jb' c i ctx' todo k' h1
    split at h1
    · simp only [Option.some.injEq, Thread.mk.injEq, TSt.spawning.injEq] at h1
      obtain ⟨-, rfl, rfl, rfl, rfl, rfl⟩ := h1
      simp_all
    · obtain ⟨x, h2, h3⟩ := hspawn _ _ _ _ _ _ _ h1
      have : c ≠ s.calls.length := by grind
      simp [this, h2, h3]
  case refuse.spawn =>
    rename_i c₀ i₀ ctx₀ r₀ rs₀ k₀ e₀ w₀ _
    intro t jb' c i ctx' todo k' h1
    split at h1
    · simp only [Option.some.injEq, Thread.mk.injEq, TSt.spawning.injEq] at h1
      obtain ⟨-, rfl, rfl, rfl, rfl, rfl⟩ := h1
      obtain ⟨x, h2, h3, h4, h5⟩ := hspawn _ _ _ _ _ _ _ hth
      refine ⟨Call.setErr i₀ (some e₀) x, by simp [h2], by simp [Call.setErr, *], by simp [Call.setErr, *], ?_⟩
      simpa [Call.setErr] using (drop_cons h5).2
    · obtain ⟨x, h2, h3⟩ := hspawn _ _ _ _ _ _ _ h1
      by_cases hc : c = c₀
      · exact ⟨Call.setErr i₀ (some e₀) x, by rw [if_pos hc, h2]; rfl, by simpa [Call.setErr] using h3⟩
      · exact ⟨x, by simp [hc, h2], h3⟩
  case spawn.spawn =>
    rename_i c₀ i₀ ctx₀ o₀ rs₀ k₀ t₀ w₀ _
    intro t jb' c i ctx' todo k' h1
    split at h1
    · simp at h1
    split at h1
    · simp only [Option.some.injEq, Thread.mk.injEq, TSt.spawning.injEq] at h1
      obtain ⟨-, rfl, rfl, rfl, rfl, rfl⟩ := h1
      obtain ⟨x, h2, h3, h4, h5⟩ := hspawn _ _ _ _ _ _ _ hth
      refine ⟨{ x with live := x.live + 1 }, by simp [h2], by simp [*], by simp [*], ?_⟩
      simpa using (drop_cons h5).2
    · obtain ⟨x, h2, h3⟩ := hspawn _ _ _ _ _ _ _ h1
      by_cases hc : c = c₀
      · exact ⟨{ x with live := x.live + 1 }, by rw [if_pos hc, h2]; rfl, by simpa using h3⟩
      · exact ⟨x, by simp [hc, h2], h3⟩
  case spawn.job =>
    rename_i c₀ i₀ ctx₀ o₀ rs₀ k₀ t₀ w₀ hres
    intro t j st h1
    split at h1
    · simp only [Option.some.injEq, Thread.mk.injEq] at h1
      obtain ⟨rfl, -⟩ := h1
      obtain ⟨x, h2, h3, h4, h5⟩ := hspawn _ _ _ _ _ _ _ hth
      refine ⟨{ x with live := x.live + 1 }, o₀, by simp [h2], (drop_cons h5).1, rfl, h4, ?_, ?_⟩
      · rintro hn; rcases hres with h | ⟨f, hf, -⟩
        · exact h.2.1
        · simp [hn] at hf
      · rintro f hf; rcases hres with h | ⟨f', hf', hw⟩
        · simp [hf] at h
        · rw [hf] at hf'; cases hf'; exact ⟨s.world, by simp [hw]⟩
    · have hh : ∃ st', s.th t = some ⟨some j, st'⟩ := by
        split at h1
        · simp only [Option.some.injEq, Thread.mk.injEq] at h1
          obtain ⟨rfl, -⟩ := h1; subst_vars; exact ⟨_, hth⟩
        · exact ⟨_, h1⟩
      obtain ⟨st', hh⟩ := hh
      obtain ⟨x, o, h2, h3⟩ := hjob _ _ _ hh
      by_cases hc : j.call = c₀
      · exact ⟨{ x with live := x.live + 1 }, o, by rw [if_pos hc, h2]; rfl, by simpa using h3⟩
      · exact ⟨x, o, by simp [hc, h2], h3⟩
  all_goals grind [Call.setErr]

theorem InvC.init (env : Env σ C) (w : σ) (cl : List (Proc σ C)) : InvC env (init w cl) := by
  constructor <;> simp [Runner.init, State.th, State.cl]

end Fab.Runner
