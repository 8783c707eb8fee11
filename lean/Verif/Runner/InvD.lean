import Verif.Runner.InvC

/-! # The runner: results of the elements of an activation (helper invariants, no properties) -/

namespace Fab.Runner
variable {σ C : Type}

/-- Is the goroutine finished? -/
def TSt.isDone : TSt σ C → Bool
  | .done => true
  | _ => false

/-- Is the goroutine inside a (non-empty) activation of `Run`? -/
def TSt.inCall : TSt σ C → Bool
  | .spawning .. | .joining .. => true
  | _ => false

/-- The goroutine has stored its result in `errs[i]`. -/
def TSt.stored : TSt σ C → Bool
  | .setOut _ | .openGate _ | .wgDone | .done => true
  | _ => false

/-- `t` is a goroutine of activation `c` that has not finished. -/
def Thread.liveIn (c : Nat) (th : Thread σ C) : Bool :=
  th.job.any (fun j => j.call == c) && !th.st.isDone

theorem countP_set_th {s : State σ C} {tid : Nat} {y : Thread σ C} (hth : s.th tid = some y)
    (p : Thread σ C → Bool) (x : Thread σ C) :
    (s.threads.set tid x).countP p + (if p y then 1 else 0) = s.threads.countP p + (if p x then 1 else 0) := by
  unfold State.th at hth
  generalize s.threads = ts at *
  induction ts generalizing tid with
  | nil => simp at hth
  | cons a ts ih =>
    cases tid with
    | zero => simp at hth; subst hth; simp [List.countP_cons]; omega
    | succ n =>
      simp at hth
      have := ih hth
      simp [List.countP_cons]; omega

structure InvD (env : Env σ C) (s : State σ C) : Prop where
  inj : ∀ (t t' : Nat) (j j' : Job C) (st st' : TSt σ C), s.th t = some ⟨some j, st⟩ → s.th t' = some ⟨some j', st'⟩ →
    j.call = j'.call → j.idx = j'.idx → t = t'
  live : ∀ c x, s.cl c = some x → x.live = s.threads.countP (Thread.liveIn c)
  depth : s.depth = s.threads.countP (fun th => th.st.inCall)

theorem InvD.step {env : Env σ C} {s s' : State σ C} {tid th} (ic : InvC env s) (ih : InvD env s)
    (hth : s.th tid = some th) (h : StepC env s tid th s') : InvD env s' := by
  obtain ⟨inj, live, depth⟩ := ih
  obtain ⟨jb, st⟩ := th
  have hnone : s.th s.threads.length = none := by simp [State.th]
  have hclnone := cl_length s
  have hcp := fun c x => countP_set_th hth (Thread.liveIn c) x
  have hcd := fun x => countP_set_th hth (fun th => th.st.inCall) x
  have hb := ic.bound tid
  have hj := ic.job
  have hfresh : s.threads.countP (Thread.liveIn s.calls.length) = 0 := by
    rw [List.countP_eq_zero]
    intro th hmem
    obtain ⟨t, ht⟩ := List.mem_iff_getElem?.1 hmem
    obtain ⟨job, st'⟩ := th
    cases job with
    | none => simp [Thread.liveIn]
    | some j =>
      obtain ⟨x, o, h1, -⟩ := ic.job t j st' ht
      have : j.call ≠ s.calls.length := by grind
      simp [Thread.liveIn, this]
  cases h <;> simp only at * <;> subst_vars <;>
  (constructor <;> simp only [th_set hth, th_set_snoc hth, cl_same, cl_modify, cl_snoc, List.countP_append,
    List.countP_singleton])
  case refuse.live =>
    rename_i c₀ i₀ ctx₀ r₀ rs₀ k₀ e₀ w₀ _
    intro c x hx
    have h1 := Nat.add_right_cancel (hcp c ⟨jb, .spawning c₀ (i₀ + 1) ctx₀ rs₀ k₀⟩)
    have h2 : (s.cl c).map (·.live) = some x.live := by
      split at hx
      · cases h : s.cl c <;> simp_all [Call.setErr]; rw [← hx]
      · simp [hx]
    cases h : s.cl c with
    | none => simp [h] at h2
    | some y =>
      have := live c y h
      simp [h] at h2
      omega
  case spawn.live =>
    rename_i c₀ i₀ ctx₀ o₀ rs₀ k₀ t₀ w₀ _
    intro c x hx
    have h2 : s.threads.countP (Thread.liveIn c) =
      (s.threads.set tid ⟨jb, .spawning c₀ (i₀ + 1) ctx₀ rs₀ k₀⟩).countP (Thread.liveIn c) :=
      (Nat.add_right_cancel (hcp c ⟨jb, .spawning c₀ (i₀ + 1) ctx₀ rs₀ k₀⟩)).symm
    rw [← h2]
    split at hx
    · subst_vars
      cases h : s.cl c with
      | none => simp [h] at hx
      | some y =>
        have := live c y h
        simp [h] at hx
        simp [← hx, Thread.liveIn, TSt.isDone, this]
    · have := live c x hx
      have h3 : c₀ ≠ c := by grind
      simp [Thread.liveIn, h3, this]
  all_goals grind [Call.setErr, Thread.liveIn, TSt.isDone, TSt.inCall]

theorem InvD.init (env : Env σ C) (w : σ) (cl : List (Proc σ C)) : InvD env (init w cl) := by
  constructor <;> simp [Runner.init, State.th, State.cl]
  rw [eq_comm, List.countP_eq_zero]
  simp [TSt.inCall]

end Fab.Runner
