import Verif.Runner.Quiet

/-!
# Calls are nested (helpers for C78)

While a goroutine that was started for a call of Run is at work, its caller is inside that call.
-/

namespace Fab.Runner
variable {σ C : Type}

structure NestInv (s : State σ C) : Prop where
  older : ∀ (t : Nat) (j : Job C) (st : TSt σ C), s.th t = some ⟨some j, st⟩ → ∃ x, s.cl j.call = some x ∧ x.tid < t
  within : ∀ c x, s.cl c = some x → (∃ jb st, s.th x.tid = some ⟨jb, st⟩ ∧ st.within c = true) ∨
    ∀ (t : Nat) (j : Job C) (st : TSt σ C), s.th t = some ⟨some j, st⟩ → j.call = c → st = .done

theorem isDone_eq {st : TSt σ C} (h : st.isDone = true) : st = .done := by cases st <;> simp_all [TSt.isDone]

theorem NestInv.step {env : Env σ C} {s s' : State σ C} {tid th} (ic : InvC env s) (id : InvD env s) (ih : NestInv s)
    (hth : s.th tid = some th) (h : StepC env s tid th s') : NestInv s' := by
  obtain ⟨older, within⟩ := ih
  obtain ⟨jb, st⟩ := th
  have hnone : s.th s.threads.length = none := by simp [State.th]
  have hlt : ∀ t x, s.th t = some x → t < s.threads.length := fun t x h => (List.getElem?_eq_some_iff.1 h).1
  have hclnone := cl_length s
  have hlive := id.live
  have hdead : ∀ c x, s.cl c = some x → x.live = 0 → ∀ (t : Nat) (j : Job C) (st : TSt σ C), s.th t = some ⟨some j, st⟩ → j.call = c → st = .done := by
    intro c x hx h0 t j st ht hj
    have h1 := (hlive c x hx).symm.trans h0
    rw [List.countP_eq_zero] at h1
    have h2 := h1 _ (List.mem_of_getElem? ht)
    refine isDone_eq ?_
    simpa [Thread.liveIn, hj] using h2
  have hsp := ic.spawn tid jb
  clear hlive
  cases h <;> simp only at * <;> subst_vars <;>
  (constructor <;> simp only [th_set hth, th_set_snoc hth, cl_same, cl_modify, cl_snoc])
  case ret.within =>
    rename_i c₀ k₀ x₀ h1 h2
    obtain ⟨x₁, h3, h4⟩ := ic.join _ _ _ _ hth
    have hx : x₀ = x₁ := by have h1 : s.cl c₀ = some x₀ := h1; rw [h3] at h1; cases h1; rfl
    subst hx
    intro c x h5
    by_cases hc : c = c₀
    · subst hc
      refine .inr fun t j st h6 h7 => ?_
      split at h6
      · cases h6
        rename_i ht
        subst ht
        obtain ⟨y, h8, h9⟩ := older _ _ _ hth
        rw [h7, h3] at h8; cases h8
        omega
      · exact hdead _ _ h3 h2 _ _ _ h6 h7
    · rcases within c x h5 with ⟨jb', st', h6, h7⟩ | h6
      · refine .inl ⟨jb', st', ?_, h7⟩
        split
        · rename_i ht
          rw [ht, hth] at h6; cases h6
          simp [TSt.within] at h7; exact absurd h7.symm hc
        · exact h6
      · refine .inr fun t j st h7 h8 => ?_
        split at h7
        · cases h7
          exact absurd (h6 _ _ _ hth h8) (by simp)
        · exact h6 _ _ _ h7 h8
  all_goals intro a b
  all_goals grind [Call.setErr, TSt.within]

theorem Reach.nest {env : Env σ C} {w : σ} {cl : List (Proc σ C)} {s : State σ C} (h : Reach env w cl s) : NestInv s := by
  induction h with
  | init =>
    refine ⟨fun t j st h => ?_, fun c x h => ?_⟩
    · simp only [Runner.init, State.th, List.getElem?_map, Option.map_eq_some_iff] at h
      obtain ⟨p, -, hp⟩ := h
      cases hp
    · simp [Runner.init, State.cl] at h
  | @step s s' l hr hs ih =>
    cases l with
    | thread tid =>
      obtain ⟨th, hth, hc⟩ := step_cases hs
      exact ih.step hr.inv.c hr.inv.d hth hc
    | extern f =>
      simp only [lstep, Option.some.injEq] at hs
      subst hs
      exact ⟨ih.older, ih.within⟩

end Fab.Runner
