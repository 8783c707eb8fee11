import Verif.Runner.InvE

/-! # The runner: what the log says about activations (helper invariants, no properties) -/

namespace Fab.Runner
variable {σ C : Type}

/-- The goroutine is in activation `c`. -/
def TSt.within (c : Nat) : TSt σ C → Bool
  | .spawning c' .. => c' == c
  | .joining c' _ => c' == c
  | _ => false

/-- The constant part of activation `c`. -/
def State.hdr (s : State σ C) (c : Nat) : Option (Nat × C × List TRef) := (s.cl c).map fun x => (x.tid, x.ctx, x.refs)

theorem hdr_same {s : State σ C} (c : Nat) (w : σ) (d r t l) :
    State.hdr ⟨w, d, r, s.calls, t, l⟩ c = s.hdr c := rfl

theorem hdr_live {s : State σ C} (c₀ : Nat) (g : Nat → Nat) (c : Nat) (w : σ) (d r t l) :
    State.hdr ⟨w, d, r, s.calls.modify c₀ (fun x => { x with live := g x.live }), t, l⟩ c = s.hdr c := by
  simp only [State.hdr, cl_modify]
  split <;> cases h : s.cl c <;> simp

theorem hdr_set {s : State σ C} (c₀ i₀ : Nat) (e : Option Err) (c : Nat) (w : σ) (d r t l) :
    State.hdr ⟨w, d, r, s.calls.modify c₀ (Call.setErr i₀ e), t, l⟩ c = s.hdr c := by
  simp only [State.hdr, cl_modify]
  split <;> cases h : s.cl c <;> simp [Call.setErr]

theorem hdr_snoc {s : State σ C} (x : Call C) (c : Nat) (w : σ) (d r t l) :
    State.hdr ⟨w, d, r, s.calls ++ [x], t, l⟩ c =
      if c = s.calls.length then some (x.tid, x.ctx, x.refs) else s.hdr c := by
  simp only [State.hdr, cl_snoc]
  split <;> simp

structure InvF (env : Env σ C) (s : State σ C) : Prop where
  callEv : ∀ c t ctx refs, s.hdr c = some (t, ctx, refs) ↔ (t, Ev.call c ctx refs) ∈ s.log
  within : ∀ (t : Nat) (jb : Option (Job C)) (st : TSt σ C) (c : Nat), s.th t = some ⟨jb, st⟩ → st.within c = true →
    ∀ t' e, (t', Ev.ret c e) ∉ s.log
  retEv : ∀ t c e, (t, Ev.ret c e) ∈ s.log → ∃ ctx refs, s.hdr c = some (t, ctx, refs)
  refWhy : ∀ t c i e, (t, Ev.refuse c i e) ∈ s.log → ∃ ctx refs, s.hdr c = some (t, ctx, refs) ∧
    ((∃ n, refs[i]? = some (.val n) ∧ e = .notPointer n) ∨
     (∃ o f w, refs[i]? = some (.ptr o) ∧ env.resolve o = some f ∧ (f w).2 = .error e))
  resJob : ∀ t c i e, (t, Ev.result c i e) ∈ s.log →
    ∃ (j : Job C) (st : TSt σ C), s.th t = some ⟨some j, st⟩ ∧ j.call = c ∧ j.idx = i ∧ st.stored = true
  startJob : ∀ t c i key tgt ctx, (t, Ev.start c i key tgt ctx) ∈ s.log →
    ∃ (j : Job C) (st : TSt σ C), s.th t = some ⟨some j, st⟩ ∧ j.call = c ∧ j.idx = i ∧ j.key = key ∧ j.tgt = tgt ∧
      j.ctx = ctx ∧ st ≠ .lookup ∧ st ≠ .waiting

theorem InvC.spawnHdr {env : Env σ C} {s : State σ C} (ic : InvC env s) {t : Nat} {jb : Option (Job C)} {c i ctx todo}
    {k : Option Err → Proc σ C} (h : s.th t = some ⟨jb, .spawning c i ctx todo k⟩) :
    ∃ refs, s.hdr c = some (t, ctx, refs) ∧ refs.drop i = todo := by
  obtain ⟨x, h1, h2, h3, h4⟩ := ic.spawn _ _ _ _ _ _ _ h
  exact ⟨x.refs, by simp [State.hdr, h1, h2, h3], h4⟩

theorem InvC.withinHdr {env : Env σ C} {s : State σ C} (ic : InvC env s) {t : Nat} {jb : Option (Job C)} {c}
    {st : TSt σ C} (h : s.th t = some ⟨jb, st⟩) (hw : st.within c = true) :
    ∃ ctx refs, s.hdr c = some (t, ctx, refs) := by
  cases st <;> simp [TSt.within] at hw
  · subst hw
    obtain ⟨refs, h1, -⟩ := ic.spawnHdr h
    exact ⟨_, _, h1⟩
  · subst hw
    obtain ⟨x, h1, h2⟩ := ic.join _ _ _ _ h
    exact ⟨x.ctx, x.refs, by simp [State.hdr, h1, h2]⟩

set_option maxHeartbeats 2000000 in
theorem InvF.step {env : Env σ C} {s s' : State σ C} {tid th} (ic : InvC env s) (ih : InvF env s)
    (hth : s.th tid = some th) (h : StepC env s tid th s') : InvF env s' := by
  obtain ⟨callEv, within, retEv, refWhy, resJob, startJob⟩ := ih
  obtain ⟨jb, st⟩ := th
  have hnone : s.th s.threads.length = none := by simp [State.th]
  have hclnone : s.hdr s.calls.length = none := by simp [State.hdr, cl_length]
  have hw0 := within tid jb st
  have hwh := fun t jb st c h => ic.withinHdr (c := c) (t := t) (jb := jb) (st := st) h
  cases h <;> simp only at * <;> subst_vars <;>
  (constructor <;> simp only [th_set hth, th_set_snoc hth, hdr_same, hdr_live _ (· + 1), hdr_live _ (· - 1), hdr_set, hdr_snoc,
      List.mem_append, List.mem_cons, Prod.mk.injEq, reduceCtorEq, and_false, or_false,
      List.not_mem_nil])
  case lookupNew.startJob =>
    rename_i j₀ _
    intro t c i key tgt ctx h1
    rcases h1 with h1 | h1
    · obtain ⟨j, st, h2, h3⟩ := startJob t c i key tgt ctx h1
      have hne : t ≠ tid := by grind
      exact ⟨j, st, by simp [hne, h2], h3⟩
    · cases h1.1
      cases h1.2
      exact ⟨j₀, .exec (env.body j₀.tgt j₀.ctx), by simp, rfl, rfl, rfl, rfl, rfl, by simp, by simp⟩
  case callNil.retEv =>
    intro t c e h1
    rcases h1 with h1 | h1 | h1
    · obtain ⟨ctx, refs, h2⟩ := retEv t c e h1
      have hne : c ≠ s.calls.length := by grind
      exact ⟨ctx, refs, by simp [hne, h2]⟩
    · exact h1.elim
    · cases h1.1
      cases h1.2
      exact ⟨_, _, by simp; exact ⟨rfl, rfl⟩⟩
  case callNil.refWhy =>
    intro t c i e h1
    obtain ⟨ctx, refs, h2, h3⟩ := refWhy t c i e h1
    have hne : c ≠ s.calls.length := by grind
    exact ⟨ctx, refs, by simp [hne, h2], h3⟩
  case call.refWhy =>
    intro t c i e h1
    obtain ⟨ctx, refs, h2, h3⟩ := refWhy t c i e h1
    have hne : c ≠ s.calls.length := by grind
    exact ⟨ctx, refs, by simp [hne, h2], h3⟩
  case refuse.refWhy =>
    rename_i c₀ i₀ ctx₀ r₀ rs₀ k₀ e₀ w₀ hwhy
    intro t c i e h1
    rcases h1 with h1 | h1
    · exact refWhy t c i e h1
    · cases h1.1
      cases h1.2
      obtain ⟨refs, h2, h3⟩ := ic.spawnHdr hth
      refine ⟨_, refs, h2, ?_⟩
      have h4 := (drop_cons h3).1
      rcases hwhy with ⟨n, ha, hb, -⟩ | ⟨o, f, ha, hb, hc⟩
      · exact Or.inl ⟨n, by rw [h4, ha], hb⟩
      · exact Or.inr ⟨o, f, s.world, by rw [h4, ha], hb, by rw [hc]⟩
  all_goals first | assumption | grind [TSt.stored, TSt.within]

theorem InvF.init (env : Env σ C) (w : σ) (cl : List (Proc σ C)) : InvF env (init w cl) := by
  constructor <;> simp [Runner.init, State.th, State.hdr, State.cl]

end Fab.Runner
