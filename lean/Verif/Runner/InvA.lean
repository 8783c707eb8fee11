import Verif.Runner.Steps

/-! # The runner: ownership of outcomes (helper invariants, no properties) -/

namespace Fab.Runner
variable {σ C : Type}

/-- The goroutine is the one that runs the target. -/
def TSt.owning : TSt σ C → Bool
  | .exec _ | .spawning .. | .joining .. | .setErrs _ | .setOut _ | .openGate _ => true
  | _ => false

/-- The goroutine is inside the target's body. -/
def TSt.inBody : TSt σ C → Bool
  | .exec _ | .spawning .. | .joining .. => true
  | _ => false

/-- The goroutine's result is final. -/
def TSt.settled : TSt σ C → Bool
  | .readOut | .wgDone | .done => true
  | _ => false

/-- Goroutine number `t`. -/
def State.th (s : State σ C) (t : Nat) : Option (Thread σ C) := s.threads[t]?

/-- Lookup after the step of goroutine `tid`. -/
theorem th_set {s : State σ C} {tid : Nat} {y : Thread σ C} (hth : s.th tid = some y)
    (x : Thread σ C) (t : Nat) (w d r c l) :
    State.th ⟨w, d, r, c, s.threads.set tid x, l⟩ t = if t = tid then some x else s.th t := by
  unfold State.th at *; grind

/-- Lookup after goroutine `tid` moves and one is added. -/
theorem th_set_snoc {s : State σ C} {tid : Nat} {y : Thread σ C} (hth : s.th tid = some y)
    (x z : Thread σ C) (t : Nat) (w d r c l) :
    State.th ⟨w, d, r, c, s.threads.set tid x ++ [z], l⟩ t =
      if t = s.threads.length then some z else if t = tid then some x else s.th t := by
  unfold State.th at *; grind

structure InvA (s : State σ C) : Prop where
  own : ∀ (t : Nat) (j : Job C) (st : TSt σ C), s.th t = some ⟨some j, st⟩ → st.owning = true →
    ∃ e, s.ran j.key = some ⟨e, false, t⟩
  hasOwner : ∀ (key : Addr) (e : Option Err) (t : Nat), s.ran key = some ⟨e, false, t⟩ →
    ∃ (j : Job C) (st : TSt σ C), s.th t = some ⟨some j, st⟩ ∧ st.owning = true ∧ j.key = key
  wait : ∀ (t : Nat) (j : Job C), s.th t = some ⟨some j, .waiting⟩ → s.ran j.key ≠ none
  settled : ∀ (t : Nat) (j : Job C) (st : TSt σ C), s.th t = some ⟨some j, st⟩ → st.settled = true →
    ∃ e o, s.ran j.key = some ⟨e, true, o⟩
  client : ∀ (t : Nat) (st : TSt σ C), s.th t = some ⟨none, st⟩ → st.inBody = true ∨ st = .done

theorem InvA.step {env : Env σ C} {s s' : State σ C} {tid th} (ih : InvA s)
    (hth : s.th tid = some th) (h : StepC env s tid th s') : InvA s' := by
  obtain ⟨own, hasOwner, wait, settled, client⟩ := ih
  obtain ⟨job, st⟩ := th
  have hlen : s.th s.threads.length = none := by simp [State.th]
  have hown := fun j h => own tid j st h
  have hwt := fun j => wait tid j
  have hset := fun j h => settled tid j st h
  have hcl := fun h => client tid st h
  cases h <;> simp only at * <;> subst_vars <;>
  (constructor <;> simp only [th_set hth, th_set_snoc hth, upd])
  case lookupNew.own =>
    intro t j st h1 h2
    split at h1
    · exact ⟨none, by grind⟩
    · have := own t j st h1 h2
      grind
  case wake.settled =>
    rename_i j o _ _
    intro t j' st h1 h2
    obtain ⟨e, op, ow⟩ := o
    split at h1 <;> grind
  case openGate.settled =>
    intro t j' st h1 h2
    rename_i o _
    split at h1
    · exact ⟨o.err, o.owner, by grind⟩
    · have := settled t j' st h1 h2
      grind
  all_goals grind [TSt.owning, TSt.settled, TSt.inBody]

theorem InvA.init (w : σ) (cl : List (Proc σ C)) : InvA (init w cl) := by
  constructor <;> simp [Runner.init, State.th, TSt.inBody]

end Fab.Runner
