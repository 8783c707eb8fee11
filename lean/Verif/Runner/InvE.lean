import Verif.Runner.InvD

/-! # The runner: the slices `errs` (helper invariants, no properties) -/

namespace Fab.Runner
variable {σ C : Type}

/-- Slot `i` of activation `c`. -/
def State.slot (s : State σ C) (c i : Nat) : Option (Option Err) := (s.cl c).bind (·.errs[i]?)

theorem slot_same {s : State σ C} (c i : Nat) (w : σ) (d r t l) :
    State.slot ⟨w, d, r, s.calls, t, l⟩ c i = s.slot c i := rfl

theorem slot_live {s : State σ C} (c₀ : Nat) (g : Nat → Nat) (c i : Nat) (w : σ) (d r t l) :
    State.slot ⟨w, d, r, s.calls.modify c₀ (fun x => { x with live := g x.live }), t, l⟩ c i = s.slot c i := by
  simp only [State.slot, cl_modify]
  split <;> cases h : s.cl c <;> simp

theorem slot_set {s : State σ C} (c₀ i₀ : Nat) (e : Option Err) (c i : Nat) (w : σ) (d r t l) :
    State.slot ⟨w, d, r, s.calls.modify c₀ (Call.setErr i₀ e), t, l⟩ c i =
      if c = c₀ ∧ i = i₀ then (s.slot c i).map (fun _ => e) else s.slot c i := by
  simp only [State.slot, cl_modify]
  cases h : s.cl c <;> simp [Call.setErr]
  · grind

theorem slot_snoc {s : State σ C} (x : Call C) (c i : Nat) (w : σ) (d r t l) :
    State.slot ⟨w, d, r, s.calls ++ [x], t, l⟩ c i = if c = s.calls.length then x.errs[i]? else s.slot c i := by
  simp only [State.slot, cl_snoc]
  split <;> simp

structure InvE (s : State σ C) : Prop where
  refErr : ∀ t c i e, (t, Ev.refuse c i e) ∈ s.log → s.slot c i = some (some e)
  refNoJob : ∀ t c i e, (t, Ev.refuse c i e) ∈ s.log →
    ∀ (t' : Nat) (j : Job C) (st : TSt σ C), s.th t' = some ⟨some j, st⟩ → ¬ (j.call = c ∧ j.idx = i)
  refBound : ∀ t c i e, (t, Ev.refuse c i e) ∈ s.log →
    ∀ (t' : Nat) (jb : Option (Job C)) (i' ctx todo) (k : Option Err → Proc σ C),
      s.th t' = some ⟨jb, .spawning c i' ctx todo k⟩ → i < i'
  carry : ∀ (t : Nat) (j : Job C) (st : TSt σ C) (e : Option Err), s.th t = some ⟨some j, st⟩ → st.carried = some e →
    st.stored = true → s.slot j.call j.idx = some e ∧ (t, Ev.result j.call j.idx e) ∈ s.log
  final : ∀ (t : Nat) (j : Job C) (st : TSt σ C), s.th t = some ⟨some j, st⟩ → st.carried = none →
    st.stored = true → ∀ o, s.ran j.key = some o → s.slot j.call j.idx = some o.err ∧ (t, Ev.result j.call j.idx o.err) ∈ s.log

theorem TSt.settled_of_stored {st : TSt σ C} (h : st.carried = none) (h' : st.stored = true) : st.settled = true := by
  cases st <;> simp_all [TSt.carried, TSt.stored, TSt.settled]

set_option maxHeartbeats 2000000 in
theorem InvE.step {env : Env σ C} {s s' : State σ C} {tid th} (ia : InvA s) (ib : InvB s) (ic : InvC env s)
    (id : InvD env s) (ih : InvE s)
    (hth : s.th tid = some th) (h : StepC env s tid th s') : InvE s' := by
  obtain ⟨refErr, refNoJob, refBound, carry, final⟩ := ih
  obtain ⟨jb, st⟩ := th
  have hnone : s.th s.threads.length = none := by simp [State.th]
  have hclnone : ∀ i, s.slot s.calls.length i = none := by simp [State.slot, cl_length]
  have hjs : ∀ (t : Nat) (j : Job C) (st : TSt σ C), s.th t = some ⟨some j, st⟩ → s.slot j.call j.idx ≠ none := by
    intro t j st h
    obtain ⟨x, o, h1, h2, -⟩ := ic.job t j st h
    have := ic.len _ _ h1
    simp [State.slot, h1]; grind
  have hss : ∀ (t : Nat) (jb : Option (Job C)) (c i ctx r rs) (k : Option Err → Proc σ C),
      s.th t = some ⟨jb, .spawning c i ctx (r :: rs) k⟩ → s.slot c i ≠ none := by
    intro t jb c i ctx r rs k h
    obtain ⟨x, h1, h2, h3, h4⟩ := ic.spawn _ _ _ _ _ _ _ h
    have := ic.len _ _ h1
    have := (drop_cons h4).1
    simp [State.slot, h1]; grind
  have hjs0 := hjs tid
  have hb := ic.bound tid
  have hinj := id.inj tid
  cases h <;> simp only at * <;> subst_vars <;>
  (constructor <;> simp only [th_set hth, th_set_snoc hth, slot_same, slot_live _ (· + 1), slot_live _ (· - 1), slot_set, slot_snoc, upd,
      List.mem_append, List.mem_cons, Prod.mk.injEq, reduceCtorEq, and_false, or_false,
      List.not_mem_nil])
  case lookupNew.final =>
    intro t j st h1 h2 h3 o h4
    split at h1
    · simp_all [TSt.stored]
      grind [TSt.stored]
    · have := ia.settled t j st h1 (TSt.settled_of_stored h2 h3)
      exact final t j st h1 h2 h3 o (by grind)
  case readOut.final =>
    rename_i j₀ o₀ hr
    intro t j st h1 h2 h3 o h4
    split at h1
    · obtain ⟨v, hv⟩ := Option.ne_none_iff_exists'.1 (hjs0 _ _ hth)
      cases h1
      grind
    · have := final t j st h1 h2 h3 o h4
      have hne : ¬ (j.call = j₀.call ∧ j.idx = j₀.idx) := by
        rintro ⟨ha, hb⟩
        have := hinj t j₀ j _ _ hth h1 ha.symm hb.symm
        grind
      simp [hne, this]
  case refuse.refErr =>
    rename_i c₀ i₀ ctx₀ r₀ rs₀ k₀ e₀ w₀ _
    intro t c i e h1
    rcases h1 with h1 | h1
    · have h2 := refErr t c i e h1
      have : ¬ (c = c₀ ∧ i = i₀) := by
        rintro ⟨rfl, rfl⟩
        have := refBound _ _ _ _ h1 _ _ _ _ _ _ hth
        omega
      simp [this, h2]
    · obtain ⟨v, hv⟩ := Option.ne_none_iff_exists'.1 (hss _ _ _ _ _ _ _ _ hth)
      grind
  case refuse.refBound =>
    rename_i c₀ i₀ ctx₀ r₀ rs₀ k₀ e₀ w₀ _
    intro t c i e h1 t' jb' i' ctx todo k h2
    split at h2
    · rcases h1 with h1 | h1
      · have := refBound _ _ _ _ h1 tid
        grind
      · grind
    · rcases h1 with h1 | h1
      · exact refBound _ _ _ _ h1 _ _ _ _ _ _ h2
      · have ha := ic.spawn _ _ _ _ _ _ _ hth
        have hb := ic.spawn _ _ _ _ _ _ _ h2
        grind
  case setErrs.carry =>
    rename_i e₀ j₀
    intro t j st e h1 h2 h3
    split at h1
    · obtain ⟨v, hv⟩ := Option.ne_none_iff_exists'.1 (hjs0 _ _ hth)
      cases h1
      grind [TSt.carried]
    · have := carry t j st e h1 h2 h3
      have hne : ¬ (j.call = j₀.call ∧ j.idx = j₀.idx) := by
        rintro ⟨ha, hb⟩
        have := hinj t j₀ j _ _ hth h1 ha.symm hb.symm
        grind
      simp [hne, this]
  case setOut.final =>
    rename_i e₀ j₀ o₀ hr
    intro t j st h1 h2 h3 o h4
    split at h1
    · grind [TSt.carried]
    · have hs := ia.settled t j st h1 (TSt.settled_of_stored h2 h3)
      have ho := ia.own tid j₀ _ hth rfl
      exact final t j st h1 h2 h3 o (by grind)
  case openGate.final =>
    rename_i e₀ j₀ o₀ hr
    intro t j st h1 h2 h3 o h4
    split at h1
    · have ha := carry tid j₀ _ e₀ hth rfl rfl
      have hb := ib.gate tid j₀ e₀ hth
      grind
    · have hs := ia.settled t j st h1 (TSt.settled_of_stored h2 h3)
      have ho := ia.own tid j₀ _ hth rfl
      exact final t j st h1 h2 h3 o (by grind)
  all_goals grind [TSt.stored, TSt.carried]

theorem InvE.init (w : σ) (cl : List (Proc σ C)) : InvE (init w cl) := by
  constructor <;> simp [Runner.init, State.th]

end Fab.Runner
