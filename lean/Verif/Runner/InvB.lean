import Verif.Runner.InvA

/-! # The runner: what the log says about outcomes (helper invariants, no properties) -/

namespace Fab.Runner
variable {σ C : Type}

def Ev.isStart (key : Addr) : Ev σ C → Bool
  | .start _ _ k _ _ => k == key
  | _ => false

def Ev.isFinish (key : Addr) : Ev σ C → Bool
  | .finish k _ _ => k == key
  | _ => false

/-- How many times a target was started under `key`. -/
def startN (key : Addr) (log : List (Nat × Ev σ C)) : Nat := log.countP (fun e => e.2.isStart key)
/-- How many times a target run under `key` finished. -/
def finN (key : Addr) (log : List (Nat × Ev σ C)) : Nat := log.countP (fun e => e.2.isFinish key)

theorem startN_append (key : Addr) (l l' : List (Nat × Ev σ C)) :
    startN key (l ++ l') = startN key l + startN key l' := by simp [startN]
theorem finN_append (key : Addr) (l l' : List (Nat × Ev σ C)) :
    finN key (l ++ l') = finN key l + finN key l' := by simp [finN]
theorem startN_nil (key : Addr) : startN key ([] : List (Nat × Ev σ C)) = 0 := rfl
theorem finN_nil (key : Addr) : finN key ([] : List (Nat × Ev σ C)) = 0 := rfl
theorem startN_cons (key : Addr) (t : Nat) (e : Ev σ C) (l : List (Nat × Ev σ C)) :
    startN key ((t, e) :: l) = startN key l + if e.isStart key then 1 else 0 := by simp [startN, List.countP_cons]
theorem finN_cons (key : Addr) (t : Nat) (e : Ev σ C) (l : List (Nat × Ev σ C)) :
    finN key ((t, e) :: l) = finN key l + if e.isFinish key then 1 else 0 := by simp [finN, List.countP_cons]

/-- The error a goroutine past the body carries. -/
def TSt.carried : TSt σ C → Option (Option Err)
  | .setErrs e | .setOut e | .openGate e => some e
  | _ => none

structure InvB (s : State σ C) : Prop where
  fresh : ∀ key, s.ran key = none → startN key s.log = 0 ∧ finN key s.log = 0
  once : ∀ key, startN key s.log ≤ 1
  body : ∀ (t : Nat) (j : Job C) (st : TSt σ C), s.th t = some ⟨some j, st⟩ → st.inBody = true → finN j.key s.log = 0
  finOnce : ∀ key, finN key s.log ≤ 1
  carry : ∀ (t : Nat) (j : Job C) (st : TSt σ C) (e : Option Err), s.th t = some ⟨some j, st⟩ → st.carried = some e →
    ∃ raw, (t, Ev.finish j.key j.tgt raw) ∈ s.log ∧ e = wrapErr j.tgt raw
  gate : ∀ (t : Nat) (j : Job C) (e : Option Err), s.th t = some ⟨some j, .openGate e⟩ →
    ∃ o, s.ran j.key = some o ∧ o.err = e
  opened : ∀ (key : Addr) (o : Outcome), s.ran key = some o → o.opened = true →
    ∃ t tgt raw, (t, Ev.finish key tgt raw) ∈ s.log ∧ o.err = wrapErr tgt raw
  started : ∀ (t : Nat) (j : Job C) (st : TSt σ C), s.th t = some ⟨some j, st⟩ → st.owning = true →
    (t, Ev.start j.call j.idx j.key j.tgt j.ctx) ∈ s.log

theorem TSt.owning_of_inBody {st : TSt σ C} (h : st.inBody = true) : st.owning = true := by
  cases st <;> simp_all [TSt.inBody, TSt.owning]

theorem InvB.step {env : Env σ C} {s s' : State σ C} {tid th} (ia : InvA s) (ih : InvB s)
    (hth : s.th tid = some th) (h : StepC env s tid th s') : InvB s' := by
  obtain ⟨fresh, once, body, finOnce, carry, gate, opened, started⟩ := ih
  obtain ⟨job, st⟩ := th
  have hlen : s.th s.threads.length = none := by simp [State.th]
  have hown := fun j h => ia.own tid j st h
  have hbody := fun j => body tid j st
  have hcarry := fun j e => carry tid j st e
  have hgate := fun j => gate tid j
  have hstarted := fun j => started tid j st
  have iown := ia.own
  cases h <;> simp only at * <;> subst_vars <;>
  (constructor <;> simp only [th_set hth, th_set_snoc hth, upd, startN_append, finN_append, startN_cons, finN_cons,
    startN_nil, finN_nil, List.mem_append])
  case finish.body =>
    rename_i e j
    intro t j' st' h1 h2
    split at h1
    · grind [TSt.inBody]
    · have ha := iown t j' st' h1 (TSt.owning_of_inBody h2)
      have hb := iown tid j _ hth rfl
      have hc := body t j' st' h1 h2
      have hd : j.key ≠ j'.key := by grind
      simp [Ev.isFinish, hd, hc]
  case openGate.opened =>
    rename_i e j o ho
    intro key o' h1 h2
    split at h1
    · obtain ⟨raw, hr, he⟩ := hcarry j e hth rfl
      obtain ⟨o'', ho'', hoe⟩ := hgate j e hth
      refine ⟨tid, j.tgt, raw, by grind, by grind⟩
    · exact opened key o' h1 h2
  all_goals grind [TSt.owning, TSt.inBody, TSt.carried, Ev.isStart, Ev.isFinish]

theorem InvB.init (w : σ) (cl : List (Proc σ C)) : InvB (init w cl) := by
  constructor <;> simp [Runner.init, State.th, startN_nil, finN_nil]

end Fab.Runner
