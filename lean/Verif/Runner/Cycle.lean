import Verif.Runner.Progress

/-!
# The runner: C06 (a dependency cycle hangs)
-/

namespace Fab.Runner
variable {σ C : Type}

/-! ## Specification -/

/-- A reference to a member of `S` that starts a run (it is not refused because of a name that cannot be resolved). -/
def Env.RefIn (env : Env σ C) (S : Addr → Prop) (refs : List TRef) : Prop :=
  ∃ o, .ptr o ∈ refs ∧ S (env.addr o) ∧ ∀ f w e, env.resolve o = some f → (f w).2 ≠ .error e

/-- On every path, `p` asks for a member of `S` before it returns. -/
def Proc.Must (env : Env σ C) (S : Addr → Prop) : Proc σ C → Prop
  | .ret _ => False
  | .act _ k => ∀ w, (k w).Must env S
  | .call _ refs k => env.RefIn S refs ∨ ∀ e, (k e).Must env S

/-- Every member of `S` needs a member of `S`. -/
def Env.Cyclic (env : Env σ C) (S : Addr → Prop) : Prop :=
  ∀ o t ctx, S (env.addr o) → env.CanRun o t → (env.body t ctx).Must env S

/-! ## Invariant -/

def TSt.Must (env : Env σ C) (S : Addr → Prop) (log : List (Nat × Ev σ C)) : TSt σ C → Prop
  | .exec p => p.Must env S
  | .spawning c _ _ _ k => (∃ t ctx refs, (t, Ev.call c ctx refs) ∈ log ∧ env.RefIn S refs) ∨ ∀ e, (k e).Must env S
  | .joining c k => (∃ t ctx refs, (t, Ev.call c ctx refs) ∈ log ∧ env.RefIn S refs) ∨ ∀ e, (k e).Must env S
  | _ => True

theorem TSt.Must.mono {env : Env σ C} {S : Addr → Prop} {log l : List (Nat × Ev σ C)} {st : TSt σ C}
    (h : st.Must env S log) : st.Must env S (log ++ l) := by
  cases st <;> simp only [TSt.Must] at h ⊢
  · exact h
  all_goals
    rcases h with ⟨t, ctx, refs, h1, h2⟩ | h
    · exact Or.inl ⟨t, ctx, refs, List.mem_append_left _ h1, h2⟩
    · exact Or.inr h

structure InvMust (env : Env σ C) (S : Addr → Prop) (s : State σ C) : Prop where
  st : ∀ (t : Nat) (j : Job C) (st : TSt σ C), s.th t = some ⟨some j, st⟩ → S j.key → st.Must env S s.log
  nofin : ∀ t key tgt raw, (t, Ev.finish key tgt raw) ∈ s.log → ¬ S key

/-- A call that asked for a member of a set without finished members does not return. -/
theorem noret_of_nofin {env : Env σ C} {S : Addr → Prop} {w : σ} {cl : List (Proc σ C)} {s : State σ C}
    (h : Reach env w cl s) {l₁ l₂ t c e t' ctx refs} (hl : s.log = l₁ ++ (t, Ev.ret c e) :: l₂)
    (hnf : ∀ t key tgt raw, (t, Ev.finish key tgt raw) ∈ l₁ → ¬ S key)
    (hc : (t', Ev.call c ctx refs) ∈ s.log) (hr : env.RefIn S refs) : False := by
  obtain ⟨o, ho, hS, hres⟩ := hr
  obtain ⟨i, hi⟩ := List.mem_iff_getElem?.1 ho
  obtain ⟨t₁, tgt, raw, hf, -⟩ := C03_run_waits h hl ⟨t', ctx, refs, hc, hi⟩ (fun f hf w' e' => hres f w' e' hf)
  exact hnf _ _ _ _ hf hS

theorem Reach.mustInv {env : Env σ C} {S : Addr → Prop} (hcy : env.Cyclic S) {w : σ} {cl : List (Proc σ C)}
    {s : State σ C} (h : Reach env w cl s) : InvMust env S s := by
  induction h with
  | init => constructor <;> simp [Runner.init, State.th]
  | @step s s' l hre hs ih =>
    have hre' := Reach.step l hre hs
    cases l with
    | extern f =>
      simp only [lstep, Option.some.injEq] at hs
      subst hs
      exact ⟨ih.1, ih.2⟩
    | thread tid =>
      obtain ⟨⟨jb, st⟩, hth, hc⟩ := step_cases hs
      change s.th tid = _ at hth
      obtain ⟨st0, nofin⟩ := ih
      have hnone : s.th s.threads.length = none := by simp [State.th]
      have other : ∀ (l : List (Nat × Ev σ C)) (t : Nat) (j : Job C) (st : TSt σ C), s.th t = some ⟨some j, st⟩ →
          S j.key → st.Must env S (s.log ++ l) := fun l t j st h1 h2 => (st0 t j st h1 h2).mono
      cases hc
      case lookupNew j h1 h2 h3 =>
        dsimp only at h1 h2; subst h1 h2
        constructor
        · simp only [th_set hth]
          intro t j' st' h' hS
          split at h'
          · cases h'
            obtain ⟨t', refs, o, a1, a2, a3, a4, a5⟩ := jobHdr hre.inv.c hth
            refine hcy o j.tgt j.ctx (by rw [a3]; exact hS) ?_
            cases hres : env.resolve o with
            | none => exact Or.inl ⟨hres, a4 hres⟩
            | some f => obtain ⟨w, hw⟩ := a5 f hres; exact Or.inr ⟨f, w, hres, hw⟩
          · exact other _ _ _ _ h' hS
        · simpa using nofin
      case finish e j h1 h2 =>
        dsimp only at h1 h2; subst h1 h2
        constructor
        · simp only [th_set hth]
          intro t j' st' h' hS
          split at h'
          · cases h'; trivial
          · exact other _ _ _ _ h' hS
        · intro t key tgt raw hm
          rw [List.mem_append] at hm
          rcases hm with hm | hm
          · exact nofin _ _ _ _ hm
          · simp only [List.mem_singleton, Prod.mk.injEq, Ev.finish.injEq] at hm
            obtain ⟨-, rfl, -, -⟩ := hm
            exact fun hS => st0 _ _ _ hth hS
      case ret c k x h1 h2 h3 =>
        dsimp only at h1; subst h1
        constructor
        · simp only [th_set hth]
          intro t j' st' h' hS
          split at h'
          · cases h'
            rcases st0 _ _ _ hth hS with ⟨t₁, ctx, refs, hm, hr⟩ | hk
            · exact absurd (noret_of_nofin (S := S) hre' rfl nofin (List.mem_append_left _ hm) hr) id
            · exact hk _
          · exact other _ _ _ _ h' hS
        · simpa using nofin
      case clientDone e h1 h2 =>
        dsimp only at h1 h2; subst h1 h2
        constructor
        · simp only [th_set hth]
          intro t j' st' h' hS
          split at h'
          · cases h'
          · exact st0 _ _ _ h' hS
        · simpa using nofin
      all_goals
        simp only at *
        subst_vars
        constructor
        · simp only [th_set hth, th_set_snoc hth]
          intro t j' st' h' hS
          first
            | (split at h'
               · cases h'
                 have := st0 _ _ _ hth hS
                 first
                   | trivial
                   | exact this _
                   | exact this
                   | (rcases this with ⟨o, ho, -⟩ | this
                      · simp at ho
                      · exact this _)
                   | (rcases this with this | this
                      · exact Or.inl ⟨tid, _, _, List.mem_append_right _ (List.mem_singleton.2 rfl), this⟩
                      · exact Or.inr this)
                   | exact TSt.Must.mono this
               · first
                   | exact other _ _ _ _ h' hS
                   | exact st0 _ _ _ h' hS)
            | (split at h'
               · cases h'; trivial
               · split at h'
                 · cases h'
                   have := st0 _ _ _ hth hS
                   exact this
                 · exact st0 _ _ _ h' hS)
        · simpa using nofin

/-! ## C06 -/

/-- **C06.** If every member of the set `S` of targets must, on each path, ask for a member of `S` before it returns,
then under every schedule no member of `S` ever finishes, and no call of `Run` that asked for a member of `S` ever
returns. -/
theorem C06_cycle_never_completes {env : Env σ C} {S : Addr → Prop} (hcy : env.Cyclic S) {w : σ}
    {cl : List (Proc σ C)} {s : State σ C} (h : Reach env w cl s) :
    (∀ t key tgt raw, (t, Ev.finish key tgt raw) ∈ s.log → ¬ S key) ∧
    (∀ t c ctx refs, (t, Ev.call c ctx refs) ∈ s.log → env.RefIn S refs → ∀ t' e, (t', Ev.ret c e) ∉ s.log) := by
  have hi := h.mustInv hcy
  refine ⟨hi.nofin, ?_⟩
  intro t c ctx refs hc hr t' e hm
  obtain ⟨l₁, l₂, hl⟩ := List.append_of_mem hm
  exact noret_of_nofin h hl (fun t key tgt raw hf => hi.nofin t key tgt raw (by rw [hl]; exact List.mem_append_left _ hf))
    hc hr

/-- A target that depends on itself is the simplest case. -/
theorem C06_self_dependency {env : Env σ C} {x : Obj} (hx : env.resolve x = none)
    (ha : ∀ o, env.addr o = env.addr x → o = x) (hb : ∀ ctx, (env.body x ctx).Must env (· = env.addr x)) {w : σ}
    {cl : List (Proc σ C)} {s : State σ C} (h : Reach env w cl s) :
    ∀ t raw, (t, Ev.finish (env.addr x) x raw) ∉ s.log := by
  intro t raw hm
  refine (C06_cycle_never_completes (S := (· = env.addr x)) ?_ h).1 _ _ _ _ hm rfl
  intro o t ctx ho hcr
  have := ha o ho
  subst this
  rcases hcr with ⟨-, rfl⟩ | ⟨f, w, hf, -⟩
  · exact hb ctx
  · rw [hx] at hf; cases hf

namespace Demo

/-- Targets 0 and 1 need each other; target 2 is independent. -/
def envCycle : Env Nat Unit where
  addr o := o
  resolve _ := none
  body o _ := match o with
    | 0 => .call () [.ptr 2, .ptr 1] .ret
    | 1 => .act (· + 1) fun _ => .call () [.ptr 0] .ret
    | _ => .ret none

theorem envCycle_cyclic : envCycle.Cyclic (· < 2) := by
  rintro o t ctx ho (⟨-, rfl⟩ | ⟨f, w, h, -⟩)
  · match t with
    | 0 => exact Or.inl ⟨1, by simp, by simp [envCycle], by simp [envCycle]⟩
    | 1 => exact fun _ => Or.inl ⟨0, by simp, by simp [envCycle], by simp [envCycle]⟩
    | n + 2 => simp [envCycle] at ho
  · simp [envCycle] at h

-- the client asks for target 0: target 2 finishes, the call never returns
example : ∃ s, Reach envCycle 0 [.call () [.ptr 0] .ret] s ∧ s.log.length = 9 ∧ s.world = 1 ∧
    (∀ t, step envCycle s t = none) ∧ callsN s.log = 3 ∧ retsN s.log = 0 := by
  refine ⟨runSched envCycle (init 0 [.call () [.ptr 0] .ret]) (sched 20 5), runSched_reach _ .init, by decide +kernel,
    by decide +kernel, ?_, by decide +kernel, by decide +kernel⟩
  intro t
  by_cases ht : t < 5
  · have : ∀ t < 5, (step envCycle (runSched envCycle (init 0 [.call () [.ptr 0] .ret]) (sched 20 5)) t).isNone = true := by
      decide +kernel
    simpa using this t ht
  · have hlen : (runSched envCycle (init 0 [.call () [.ptr 0] .ret]) (sched 20 5)).threads.length = 5 := by decide +kernel
    unfold step
    rw [List.getElem?_eq_none (by omega)]

end Demo
end Fab.Runner
