import Verif.Runner.InvF

/-! # The runner: all invariants together, and what holds at each event (helpers, no properties) -/

namespace Fab.Runner
variable {σ C : Type}

/-- Every element of an activation is refused, has a goroutine, or is still to come. -/
def InvG (s : State σ C) : Prop :=
  ∀ c t ctx refs i, s.hdr c = some (t, ctx, refs) → i < refs.length →
    (∃ t' e, (t', Ev.refuse c i e) ∈ s.log) ∨
    (∃ (t' : Nat) (j : Job C) (st : TSt σ C), s.th t' = some ⟨some j, st⟩ ∧ j.call = c ∧ j.idx = i) ∨
    (∃ (jb : Option (Job C)) (i' : Nat) (ctx' : C) (todo : List TRef) (k : Option Err → Proc σ C),
      s.th t = some ⟨jb, .spawning c i' ctx' todo k⟩ ∧ i' ≤ i)

/-- Goroutines keep their job. -/
theorem th_persist {env : Env σ C} {s s' : State σ C} {tid th} (hth : s.th tid = some th) (h : StepC env s tid th s')
    {t : Nat} {jb : Option (Job C)} {st : TSt σ C} (ht : s.th t = some ⟨jb, st⟩) :
    ∃ st', s'.th t = some ⟨jb, st'⟩ ∧ (t ≠ tid → st' = st) := by
  obtain ⟨job, st₀⟩ := th
  have hnone : s.th s.threads.length = none := by simp [State.th]
  by_cases htt : t = tid
  · subst htt
    rw [hth] at ht
    cases ht
    cases h <;> simp only [th_set hth, th_set_snoc hth] <;> simp <;> grind
  · refine ⟨st, ?_, fun _ => rfl⟩
    cases h <;> simp only [th_set hth, th_set_snoc hth] <;> grind

theorem log_mono {env : Env σ C} {s s' : State σ C} {tid th} (h : StepC env s tid th s') :
    ∃ l, s'.log = s.log ++ l := by
  cases h <;> first | exact ⟨_, rfl⟩ | exact ⟨[], (List.append_nil _).symm⟩

theorem InvG.step {env : Env σ C} {s s' : State σ C} {tid th} (ic : InvC env s) (ih : InvG s)
    (hth : s.th tid = some th) (h : StepC env s tid th s') : InvG s' := by
  intro c t ctx refs i h1 h2
  have hnone : s.th s.threads.length = none := by simp [State.th]
  obtain ⟨job, st₀⟩ := th
  obtain ⟨l, hl⟩ := log_mono h
  -- either the activation existed before, or it is the new one
  by_cases hold : s.hdr c = some (t, ctx, refs)
  · rcases ih c t ctx refs i hold h2 with ⟨t', e, hr⟩ | ⟨t', j, st, ha, hb⟩ | ⟨jb, i', ctx', todo, k, ha, hb⟩
    · exact Or.inl ⟨t', e, by rw [hl]; simp [hr]⟩
    · obtain ⟨st', h3, -⟩ := th_persist hth h ha
      exact Or.inr (Or.inl ⟨t', j, st', h3, hb⟩)
    · by_cases htt : t = tid
      · subst htt
        rw [hth] at ha
        cases ha
        obtain ⟨refs', hh, hd⟩ := ic.spawnHdr hth
        cases h <;> (try (simp only [reduceCtorEq] at *; done))
        case loopEnd c₁ i₁ ctx₁ k₁ hst =>
          cases hst
          exfalso
          rw [hold] at hh; cases hh
          have := List.drop_eq_nil_iff.1 hd
          omega
        case refuse c₁ i₁ ctx₁ r₁ rs₁ k₁ e₁ w₁ hst hwhy =>
          cases hst
          by_cases hi : i = i'
          · subst hi; exact Or.inl ⟨t, e₁, by simp⟩
          · exact Or.inr (Or.inr ⟨_, _, _, _, _, by rw [th_set hth, if_pos rfl], by omega⟩)
        case spawn c₁ i₁ ctx₁ o₁ rs₁ k₁ t₁ w₁ hst hwhy =>
          cases hst
          by_cases hi : i = i'
          · subst hi
            refine Or.inr (Or.inl ⟨s.threads.length, _, _, by rw [th_set_snoc hth, if_pos rfl], rfl, rfl⟩)
          · have hne : t ≠ s.threads.length := by grind
            exact Or.inr (Or.inr ⟨_, _, _, _, _, by rw [th_set_snoc hth, if_neg hne, if_pos rfl], by omega⟩)
      · obtain ⟨st', h3, h4⟩ := th_persist hth h ha
        rw [h4 htt] at h3
        exact Or.inr (Or.inr ⟨_, _, _, _, _, h3, hb⟩)
  · cases h <;> simp only [hdr_same, hdr_live _ (· + 1), hdr_live _ (· - 1), hdr_set, hdr_snoc] at h1
    all_goals first | exact absurd h1 hold | skip
    case callNil ctx₀ k₀ hst =>
      split at h1
      · cases h1; simp at h2
      · exact absurd h1 hold
    case call ctx₀ r₀ rs₀ k₀ hst =>
      split at h1
      · cases h1
        subst_vars
        exact Or.inr (Or.inr ⟨_, _, _, _, _, by rw [th_set hth, if_pos rfl], Nat.zero_le _⟩)
      · exact absurd h1 hold

structure Inv (env : Env σ C) (s : State σ C) : Prop where
  a : InvA s
  b : InvB s
  c : InvC env s
  d : InvD env s
  e : InvE s
  f : InvF env s
  g : InvG s

theorem Inv.extern {env : Env σ C} {s : State σ C} (i : Inv env s) (f : σ → σ) :
    Inv env { s with world := f s.world } :=
  ⟨⟨i.a.1, i.a.2, i.a.3, i.a.4, i.a.5⟩, ⟨i.b.1, i.b.2, i.b.3, i.b.4, i.b.5, i.b.6, i.b.7, i.b.8⟩,
   ⟨i.c.1, i.c.2, i.c.3, i.c.4, i.c.5⟩, ⟨i.d.1, i.d.2, i.d.3⟩, ⟨i.e.1, i.e.2, i.e.3, i.e.4, i.e.5⟩,
   ⟨i.f.1, i.f.2, i.f.3, i.f.4, i.f.5, i.f.6⟩, i.g⟩

theorem Reach.inv {env : Env σ C} {w : σ} {cl : List (Proc σ C)} {s : State σ C} (h : Reach env w cl s) :
    Inv env s := by
  induction h with
  | init => exact ⟨.init w cl, .init w cl, .init env w cl, .init env w cl, .init w cl, .init env w cl,
      by intro c t ctx refs i h1 h2; simp [Runner.init, State.hdr, State.cl] at h1⟩
  | @step s s' l hr hs ih =>
    cases l with
    | thread tid =>
      obtain ⟨th, hth, hc⟩ := step_cases hs
      exact ⟨ih.a.step hth hc, ih.b.step ih.a hth hc, ih.c.step hth hc, ih.d.step ih.c hth hc,
        ih.e.step ih.a ih.b ih.c ih.d hth hc, ih.f.step ih.c hth hc, InvG.step ih.c ih.g hth hc⟩
    | extern f =>
      simp only [lstep, Option.some.injEq] at hs
      subst hs
      exact ih.extern f

end Fab.Runner

namespace Fab.Runner
variable {σ C : Type}

/-- `P l e` held at the moment each event `e` was logged, where `l` is the log before it. -/
def Always (P : List (Nat × Ev σ C) → Nat × Ev σ C → Prop) (log : List (Nat × Ev σ C)) : Prop :=
  ∀ l₁ e l₂, log = l₁ ++ e :: l₂ → P l₁ e

theorem Always.nil (P : List (Nat × Ev σ C) → Nat × Ev σ C → Prop) : Always P [] := by
  intro l₁ e l₂ h; simp at h

theorem Always.snoc {P : List (Nat × Ev σ C) → Nat × Ev σ C → Prop} {l : List (Nat × Ev σ C)} {e}
    (h : Always P l) (he : P l e) : Always P (l ++ [e]) := by
  intro l₁ e' l₂ h'
  rcases List.eq_nil_or_concat l₂ with rfl | ⟨l₃, x, rfl⟩
  · have := List.append_inj' h' rfl
    cases this.1; cases this.2; exact he
  · have h'' : l ++ [e] = (l₁ ++ e' :: l₃) ++ [x] := by simp [h']
    have := List.append_inj' h'' rfl
    exact h _ _ _ this.1

/-- What must hold when an event is logged. -/
def EvOk (env : Env σ C) (l : List (Nat × Ev σ C)) (e : Nat × Ev σ C) : Prop :=
  match e with
  | (_, .call c _ _) => ∀ t' ctx refs, (t', Ev.call c ctx refs) ∉ l
  | (t, .ret c err) => ∃ ctx refs, (t, Ev.call c ctx refs) ∈ l ∧ (∀ t' e', (t', Ev.ret c e') ∉ l) ∧
      ∃ outs : List (Option Err), outs.length = refs.length ∧ err = errJoin outs ∧
        ∀ i out, outs[i]? = some out →
          (∃ t' e, (t', Ev.refuse c i e) ∈ l ∧ out = some e) ∨
          (∃ o t' tgt raw, refs[i]? = some (.ptr o) ∧ (t', Ev.finish (env.addr o) tgt raw) ∈ l ∧
            out = wrapErr tgt raw ∧ ∃ t'', (t'', Ev.result c i out) ∈ l)
  | (t, .finish key tgt _) => ∃ c i ctx, (t, Ev.start c i key tgt ctx) ∈ l
  | (_, .start c i key tgt ctx) => (∀ t' c' i' tgt' ctx', (t', Ev.start c' i' key tgt' ctx') ∉ l) ∧
      ∃ t' refs o, (t', Ev.call c ctx refs) ∈ l ∧ refs[i]? = some (.ptr o) ∧ env.addr o = key ∧
      (env.resolve o = none → tgt = o) ∧ (∀ f, env.resolve o = some f → ∃ w, (f w).2 = .ok tgt)
  | (_, .result c i err) => ∃ t' ctx refs o, (t', Ev.call c ctx refs) ∈ l ∧ refs[i]? = some (.ptr o) ∧
      ∃ t'' tgt raw, (t'', Ev.finish (env.addr o) tgt raw) ∈ l ∧ err = wrapErr tgt raw
  | (t, .refuse c i e) => ∃ ctx refs, (t, Ev.call c ctx refs) ∈ l ∧
      ((∃ n, refs[i]? = some (.val n) ∧ e = .notPointer n) ∨
       (∃ o f w, refs[i]? = some (.ptr o) ∧ env.resolve o = some f ∧ (f w).2 = .error e))
  | (_, .act _) => True

theorem startN_zero {key : Addr} {l : List (Nat × Ev σ C)} (h : startN key l = 0) {t c i tgt ctx} :
    (t, Ev.start c i key tgt ctx) ∉ l := by
  intro hm
  unfold startN at h
  rw [List.countP_eq_zero] at h
  exact h _ hm (by simp [Ev.isStart])

theorem jobHdr {env : Env σ C} {s : State σ C} (ic : InvC env s) {t : Nat} {j : Job C} {st : TSt σ C}
    (h : s.th t = some ⟨some j, st⟩) : ∃ t' refs o, s.hdr j.call = some (t', j.ctx, refs) ∧
      refs[j.idx]? = some (.ptr o) ∧ env.addr o = j.key ∧ (env.resolve o = none → j.tgt = o) ∧
      (∀ f, env.resolve o = some f → ∃ w, (f w).2 = .ok j.tgt) := by
  obtain ⟨x, o, h1, h2, h3, h4, h5⟩ := ic.job t j st h
  exact ⟨x.tid, x.refs, o, by simp [State.hdr, h1, h4], h2, h3, h5⟩

theorem evOk_step {env : Env σ C} {s s' : State σ C} {tid th} (i : Inv env s)
    (hth : s.th tid = some th) (h : StepC env s tid th s') (ih : Always (EvOk env) s.log) :
    Always (EvOk env) s'.log := by
  obtain ⟨jb, st⟩ := th
  have hclnone : s.hdr s.calls.length = none := by simp [State.hdr, cl_length]
  have hnocall : ∀ t' ctx refs, (t', Ev.call s.calls.length ctx refs) ∉ s.log := by
    intro t' ctx refs hm
    rw [(i.f.callEv _ _ _ _).2 hm] at hclnone
    cases hclnone
  cases h
  case lookupNew j h1 h2 h3 =>
    dsimp only at h1 h2; subst h1 h2
    refine ih.snoc ⟨fun _ _ _ _ _ => startN_zero (i.b.fresh _ h3).1, ?_⟩
    obtain ⟨t', refs, o, ha, hb⟩ := jobHdr i.c hth
    exact ⟨t', refs, o, (i.f.callEv _ _ _ _).1 ha, hb⟩
  case readOut j o h1 h2 h3 =>
    dsimp only at h1 h2; subst h1 h2
    refine ih.snoc ?_
    obtain ⟨t', refs, o', ha, hb, hc, -⟩ := jobHdr i.c hth
    obtain ⟨e, ow, hset⟩ := i.a.settled _ _ _ hth rfl
    obtain ⟨t'', tgt, raw, hf⟩ := i.b.opened _ o h3 (by rw [h3] at hset; cases hset; rfl)
    exact ⟨t', j.ctx, refs, o', (i.f.callEv _ _ _ _).1 ha, hb, t'', tgt, raw, hc ▸ hf⟩
  case act f k h1 => exact ih.snoc trivial
  case callNil ctx k h1 =>
    have h0 : Always (EvOk env) (s.log ++ [(tid, Ev.call s.calls.length ctx [])]) := ih.snoc hnocall
    rw [show ∀ a b : Nat × Ev σ C, s.log ++ [a, b] = s.log ++ [a] ++ [b] by simp]
    refine h0.snoc ⟨ctx, [], by simp, ?_, [], rfl, rfl, by simp⟩
    intro t' e' hm
    rw [List.mem_append] at hm
    rcases hm with hm | hm
    · obtain ⟨_, _, hh⟩ := i.f.retEv _ _ _ hm
      rw [hh] at hclnone; cases hclnone
    · simp at hm
  case call ctx r rs k h1 => exact ih.snoc hnocall
  case finish e j h1 h2 =>
    dsimp only at h1 h2; subst h1 h2
    exact ih.snoc ⟨_, _, _, i.b.started _ _ _ hth rfl⟩
  case refuse c i₀ ctx r rs k e w' h1 h2 =>
    dsimp only at h1; subst h1
    refine ih.snoc ?_
    obtain ⟨refs, ha, hb⟩ := i.c.spawnHdr hth
    refine ⟨_, refs, (i.f.callEv _ _ _ _).1 ha, ?_⟩
    have h4 := (drop_cons hb).1
    rcases h2 with ⟨n, ha, hb, -⟩ | ⟨o, f, ha, hb, hc⟩
    · exact Or.inl ⟨n, by rw [h4, ha], hb⟩
    · exact Or.inr ⟨o, f, s.world, by rw [h4, ha], hb, by rw [hc]⟩
  case ret c k x h1 h2 h3 =>
    dsimp only at h1; subst h1
    refine ih.snoc ?_
    obtain ⟨x', hx', hxt⟩ := i.c.join _ _ _ _ hth
    have : x' = x := by simp only [State.cl] at hx'; rw [h2] at hx'; cases hx'; rfl
    subst this
    have hhdr : s.hdr c = some (tid, x'.ctx, x'.refs) := by simp [State.hdr, hx', hxt]
    have hlen := i.c.len _ _ hx'
    refine ⟨x'.ctx, x'.refs, (i.f.callEv _ _ _ _).1 hhdr,
      i.f.within _ _ _ _ hth (by simp [TSt.within]), x'.errs, hlen, rfl, ?_⟩
    intro n out hout
    have hn : n < x'.refs.length := by
      rw [← hlen]; exact (List.getElem?_eq_some_iff.1 hout).1
    have hslot : s.slot c n = some out := by simp [State.slot, hx', hout]
    rcases i.g c _ _ _ n hhdr hn with ⟨t', e, hr⟩ | ⟨t', j, st, ha, hb, hc⟩ | ⟨jb', i', ctx', todo, k', ha, hb⟩
    · have := i.e.refErr _ _ _ _ hr
      rw [hslot] at this
      exact Or.inl ⟨t', e, hr, by simpa using this⟩
    · right
      obtain ⟨t₁, refs, o, hd, he, hf, -⟩ := jobHdr i.c ha
      rw [hb, hhdr] at hd
      simp only [Option.some.injEq, Prod.mk.injEq] at hd
      obtain ⟨-, -, rfl⟩ := hd
      -- all goroutines of `c` are finished
      have hlive := i.d.live c x' hx'
      rw [h3, eq_comm, List.countP_eq_zero] at hlive
      have hdone := hlive ⟨some j, st⟩ (List.mem_of_getElem? ha)
      have hst : st = .done := by
        cases st <;> simp_all [Thread.liveIn, TSt.isDone]
      subst hst
      obtain ⟨e, ow, hset⟩ := i.a.settled _ _ _ ha rfl
      have hfin := i.e.final _ _ _ ha rfl rfl _ hset
      rw [hb, hc, hslot] at hfin
      obtain ⟨t'', tgt, raw, hm, hw⟩ := i.b.opened _ _ hset rfl
      have hoe : out = e := by simpa using hfin.1
      subst hoe
      exact ⟨o, t'', tgt, raw, hc ▸ he, hf ▸ hm, hw, t', hfin.2⟩
    · rw [hth] at ha; cases ha
  case setErrs e j h1 h2 =>
    dsimp only at h1 h2; subst h1 h2
    refine ih.snoc ?_
    obtain ⟨t', refs, o', ha, hb, hc, -⟩ := jobHdr i.c hth
    obtain ⟨raw, hm, hw⟩ := i.b.carry _ _ _ e hth rfl
    exact ⟨t', j.ctx, refs, o', (i.f.callEv _ _ _ _).1 ha, hb, tid, j.tgt, raw, hc ▸ hm, hw⟩
  all_goals exact ih

theorem Reach.evOk {env : Env σ C} {w : σ} {cl : List (Proc σ C)} {s : State σ C} (h : Reach env w cl s) :
    Always (EvOk env) s.log := by
  induction h with
  | init => exact Always.nil _
  | @step s s' l hr hs ih =>
    cases l with
    | thread tid =>
      obtain ⟨th, hth, hc⟩ := step_cases hs
      exact evOk_step hr.inv hth hc ih
    | extern f =>
      simp only [lstep, Option.some.injEq] at hs
      subst hs
      exact ih

end Fab.Runner
