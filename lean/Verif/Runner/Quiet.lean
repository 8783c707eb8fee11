import Verif.Runner.Whole

/-!
# Targets that have nothing to do (helpers for C77)

If the targets that a build can reach leave the world as it is and succeed, then so does the build.
-/

namespace Fab.Runner
variable {σ τ C : Type}

/-- In every world with `W`: the process changes nothing of what `v` shows, runs only targets with `R` in contexts with `K`, and returns nil provided that they do. -/
def Proc.Still (v : σ → τ) (W : σ → Prop) (K : C → Prop) (R : Obj → Prop) : Proc σ C → Prop
  | .ret e => e = none
  | .act f k => ∀ w, W w → v (f w) = v w ∧ W (f w) ∧ (k w).Still v W K R
  | .call ctx refs k => K ctx ∧ (∀ r ∈ refs, ∃ o, r = .ptr o ∧ R o) ∧ (k none).Still v W K R

/-- The targets with `R` stand for targets with `T`, and these are still. -/
structure Env.Still (env : Env σ C) (v : σ → τ) (W : σ → Prop) (K : C → Prop) (R T : Obj → Prop) : Prop where
  plain : ∀ o, R o → env.resolve o = none → T o
  named : ∀ o f, R o → env.resolve o = some f → ∀ w, W w → v (f w).1 = v w ∧ W (f w).1 ∧ ∃ t, (f w).2 = .ok t ∧ T t
  body : ∀ t ctx, T t → K ctx → (env.body t ctx).Still v W K R

/-- What such a build can log. -/
def QuietEv (W : σ → Prop) (K : C → Prop) (T : Obj → Prop) : Ev σ C → Prop
  | .act w => W w
  | .call _ ctx _ => K ctx
  | .refuse .. => False
  | .start _ _ _ t ctx => T t ∧ K ctx
  | .finish _ _ raw => raw = none
  | .result _ _ e => e = none
  | .ret _ e => e = none

def QuietSt (v : σ → τ) (W : σ → Prop) (K : C → Prop) (R : Obj → Prop) : TSt σ C → Prop
  | .exec p => p.Still v W K R
  | .spawning _ _ ctx todo k => K ctx ∧ (∀ r ∈ todo, ∃ o, r = .ptr o ∧ R o) ∧ (k none).Still v W K R
  | .joining _ k => (k none).Still v W K R
  | .setErrs e => e = none
  | .setOut e => e = none
  | .openGate e => e = none
  | _ => True

structure QuietInv (v : σ → τ) (W : σ → Prop) (K : C → Prop) (R T : Obj → Prop) (s : State σ C) : Prop where
  st : ∀ th ∈ s.threads, QuietSt v W K R th.st
  job : ∀ th ∈ s.threads, ∀ j, th.job = some j → T j.tgt ∧ K j.ctx
  ran : ∀ a o, s.ran a = some o → o.err = none
  errs : ∀ x ∈ s.calls, ∀ e ∈ x.errs, e = none
  log : ∀ e ∈ s.log, QuietEv W K T e.2

theorem mem_modify {α : Type} {l : List α} {i : Nat} {f : α → α} {x : α} (h : x ∈ l.modify i f) : x ∈ l ∨ ∃ y ∈ l, x = f y := by
  obtain ⟨n, hn, h⟩ := List.getElem_of_mem h
  rw [List.getElem_modify] at h
  split at h
  · exact .inr ⟨_, List.getElem_mem _, h.symm⟩
  · exact .inl (h ▸ List.getElem_mem _)

theorem errJoin_nones {l : List (Option Err)} (h : ∀ e ∈ l, e = none) : errJoin l = none := by
  unfold errJoin
  have : l.filterMap id = [] := by
    rw [List.filterMap_eq_nil_iff]
    exact fun e he => h e he
  rw [this]

theorem QuietInv.step {env : Env σ C} {v : σ → τ} {W : σ → Prop} {K : C → Prop} {R T : Obj → Prop} (he : env.Still v W K R T) {s s' : State σ C} {tid : Nat}
    (hW : W s.world) (i : QuietInv v W K R T s) (h : step env s tid = some s') : v s'.world = v s.world ∧ W s'.world ∧ QuietInv v W K R T s' := by
  obtain ⟨th, hth, hc⟩ := step_cases h
  obtain ⟨i1, i2, i3, i4, i5⟩ := i
  have hm := List.mem_of_getElem? hth
  have hst := i1 th hm
  have hjob := i2 th hm
  have set1 : ∀ {st : TSt σ C}, QuietSt v W K R st → ∀ th' ∈ s.threads.set tid ⟨th.job, st⟩, QuietSt v W K R th'.st := by
    intro st hq th' h'
    rcases List.mem_or_eq_of_mem_set h' with h' | rfl
    · exact i1 _ h'
    · exact hq
  have set2 : ∀ {st : TSt σ C}, ∀ th' ∈ s.threads.set tid ⟨th.job, st⟩, ∀ j, th'.job = some j → T j.tgt ∧ K j.ctx := by
    intro st th' h'
    rcases List.mem_or_eq_of_mem_set h' with h' | rfl
    · exact i2 _ h'
    · exact hjob
  have log1 : ∀ {e : Ev σ C}, QuietEv W K T e → ∀ e' ∈ s.log ++ [(tid, e)], QuietEv W K T e'.2 := by
    intro e hq e' h'
    rcases List.mem_append.1 h' with h' | h'
    · exact i5 _ h'
    · simp at h'; subst h'; exact hq
  have ran1 : ∀ {a : Addr} {o : Outcome}, o.err = none → ∀ a' o', upd s.ran a (some o) a' = some o' → o'.err = none := by
    intro a o ho a' o' h'
    unfold upd at h'
    split at h'
    · cases h'; exact ho
    · exact i3 _ _ h'
  have errs1 : ∀ {c n : Nat}, ∀ x ∈ s.calls.modify c (Call.setErr n none), ∀ e ∈ x.errs, e = none := by
    intro c n x hx e hxe
    rcases mem_modify hx with hx | ⟨y, hy, rfl⟩
    · exact i4 _ hx _ hxe
    · rcases List.mem_or_eq_of_mem_set hxe with h' | rfl
      · exact i4 _ hy _ h'
      · rfl
  have errs2 : ∀ {c : Nat} {f : Call C → Call C}, (∀ x, (f x).errs = x.errs) → ∀ x ∈ s.calls.modify c f, ∀ e ∈ x.errs, e = none := by
    intro c f hf x hx e hxe
    rcases mem_modify hx with hx | ⟨y, hy, rfl⟩
    · exact i4 _ hx _ hxe
    · rw [hf] at hxe; exact i4 _ hy _ hxe
  cases hc
  case lookupHit j o h1 h2 h3 => exact ⟨rfl, hW, set1 trivial, set2, i3, i4, i5⟩
  case lookupNew j h1 h2 h3 =>
    obtain ⟨a, b⟩ := hjob j h2
    exact ⟨rfl, hW, set1 (he.body _ _ a b), set2, ran1 rfl, i4, log1 ⟨a, b⟩⟩
  case wake j o h1 h2 h3 h4 => exact ⟨rfl, hW, set1 trivial, set2, i3, i4, i5⟩
  case readOut j o h1 h2 h3 =>
    have ho := i3 _ _ h3
    rw [ho]
    exact ⟨rfl, hW, set1 trivial, set2, i3, errs1, log1 rfl⟩
  case act f k h1 =>
    rw [h1] at hst
    obtain ⟨a, a', b⟩ := hst _ hW
    exact ⟨a, a', set1 b, set2, i3, i4, log1 hW⟩
  case callNil ctx k h1 =>
    rw [h1] at hst
    refine ⟨rfl, hW, set1 hst.2.2, set2, i3, ?_, ?_⟩
    · intro x hx
      rcases List.mem_append.1 hx with hx | hx
      · exact i4 _ hx
      · simp at hx; subst hx; simp
    · intro e he'
      simp only [List.mem_append, List.mem_cons, List.not_mem_nil, or_false] at he'
      rcases he' with h' | rfl | rfl
      · exact i5 _ h'
      · exact hst.1
      · rfl
  case call ctx r rs k h1 =>
    rw [h1] at hst
    refine ⟨rfl, hW, set1 hst, set2, i3, ?_, log1 hst.1⟩
    intro x hx
    rcases List.mem_append.1 hx with hx | hx
    · exact i4 _ hx
    · simp only [List.mem_singleton] at hx; subst hx
      intro e he'; exact List.eq_of_mem_replicate he'
  case finish e j h1 h2 =>
    rw [h1] at hst
    have he' : e = none := hst
    subst he'
    exact ⟨rfl, hW, set1 rfl, set2, i3, i4, log1 rfl⟩
  case clientDone e h1 h2 => exact ⟨rfl, hW, set1 trivial, set2, i3, i4, i5⟩
  case loopEnd c n ctx k h1 => rw [h1] at hst; exact ⟨rfl, hW, set1 hst.2.2, set2, i3, i4, i5⟩
  case refuse c n ctx r rs k e w' h1 h2 =>
    exfalso
    rw [h1] at hst
    obtain ⟨o, rfl, ho⟩ := hst.2.1 _ (List.mem_cons_self ..)
    rcases h2 with ⟨n, h2, -⟩ | ⟨o', f, h2, h3, h4⟩
    · cases h2
    · cases h2
      obtain ⟨-, -, t, h5, -⟩ := he.named _ _ ho h3 _ hW
      rw [h4] at h5; cases h5
  case spawn c n ctx o rs k t w' h1 h2 =>
    rw [h1] at hst
    obtain ⟨o', ho', ho⟩ := hst.2.1 _ (List.mem_cons_self ..)
    cases ho'
    have key : v w' = v s.world ∧ W w' ∧ T t := by
      rcases h2 with ⟨h3, rfl, rfl⟩ | ⟨f, h3, h4⟩
      · exact ⟨rfl, hW, he.plain _ ho h3⟩
      · obtain ⟨h7, h8, t', h5, h6⟩ := he.named _ _ ho h3 _ hW
        rw [h4] at h5 h7 h8; cases h5; exact ⟨h7, h8, h6⟩
    refine ⟨key.1, key.2.1, ?_, ?_, i3, errs2 fun x => rfl, i5⟩
    · intro th' h'
      rcases List.mem_append.1 h' with h' | h'
      · exact set1 (st := .spawning c (n + 1) ctx rs k) ⟨hst.1, fun r hr => hst.2.1 r (List.mem_cons_of_mem _ hr), hst.2.2⟩ _ h'
      · simp only [List.mem_singleton] at h'; subst h'; trivial
    · intro th' h'
      rcases List.mem_append.1 h' with h' | h'
      · exact set2 _ h'
      · simp only [List.mem_singleton] at h'; subst h'
        intro j hj; cases hj; exact ⟨key.2.2, hst.1⟩
  case ret c k x h1 h2 h3 =>
    rw [h1] at hst
    have := errJoin_nones (i4 x (List.mem_of_getElem? h2))
    rw [this]
    exact ⟨rfl, hW, set1 hst, set2, i3, i4, log1 rfl⟩
  case setErrs e j h1 h2 =>
    rw [h1] at hst
    have he' : e = none := hst
    subst he'
    exact ⟨rfl, hW, set1 rfl, set2, i3, errs1, log1 rfl⟩
  case setOut e j o h1 h2 h3 =>
    rw [h1] at hst
    have he' : e = none := hst
    subst he'
    exact ⟨rfl, hW, set1 rfl, set2, ran1 rfl, i4, i5⟩
  case openGate e j o h1 h2 h3 =>
    have ho := i3 _ _ h3
    exact ⟨rfl, hW, set1 trivial, set2, ran1 ho, i4, i5⟩
  case wgDone j h1 h2 => exact ⟨rfl, hW, set1 trivial, set2, i3, errs2 fun x => rfl, i5⟩

/-- If what the clients can reach is still, then no step of theirs changes anything of what `v` shows, and nothing fails. -/
theorem still_quiet {env : Env σ C} {v : σ → τ} {W : σ → Prop} {K : C → Prop} {R T : Obj → Prop} (he : env.Still v W K R T) {cl : List (Proc σ C)}
    (hcl : ∀ p ∈ cl, p.Still v W K R) {w : σ} (hw : W w) (ls : List (Label σ)) (hls : ∀ f, .extern f ∈ ls → ∀ w, W w → W (f w)) :
    (∀ ls₁ t ls₂, ls = ls₁ ++ .thread t :: ls₂ →
      v (runSched env (init w cl) (ls₁ ++ [.thread t])).world = v (runSched env (init w cl) ls₁).world) ∧
    W (runSched env (init w cl) ls).world ∧ ∀ e ∈ (runSched env (init w cl) ls).log, QuietEv W K T e.2 := by
  have gen : ∀ (ls : List (Label σ)) (s : State σ C), (∀ f, .extern f ∈ ls → ∀ w, W w → W (f w)) → W s.world → QuietInv v W K R T s →
      W (runSched env s ls).world ∧ QuietInv v W K R T (runSched env s ls) := by
    intro ls
    induction ls with
    | nil => intro s _ hw hi; exact ⟨hw, hi⟩
    | cons l ls ih =>
      intro s hls hw hi
      have hls' : ∀ f, .extern f ∈ ls → ∀ w, W w → W (f w) := fun f hf => hls f (List.mem_cons_of_mem _ hf)
      cases l with
      | extern f => exact ih { s with world := f s.world } hls' (hls f (List.mem_cons_self ..) _ hw) ⟨hi.st, hi.job, hi.ran, hi.errs, hi.log⟩
      | thread t =>
        rw [runSched]
        cases hs : lstep env s (.thread t) with
        | none => exact ih s hls' hw hi
        | some s' =>
          obtain ⟨-, h1, h2⟩ := hi.step he hw hs
          exact ih s' hls' h1 h2
  have hi : QuietInv v W K R T (init w cl) := by
    refine ⟨?_, ?_, ?_, ?_, ?_⟩
    · intro th hth
      simp only [init, List.mem_map] at hth
      obtain ⟨p, hp, rfl⟩ := hth
      exact hcl p hp
    · intro th hth j hj
      simp only [init, List.mem_map] at hth
      obtain ⟨p, hp, rfl⟩ := hth
      cases hj
    · intro a o h; cases h
    · intro x hx; simp [init] at hx
    · intro e he; simp [init] at he
  refine ⟨fun ls₁ t ls₂ hl => ?_, (gen ls _ hls hw hi).1, (gen ls _ hls hw hi).2.log⟩
  obtain ⟨h1, h2⟩ := gen ls₁ _ (fun f hf => hls f (by rw [hl]; simp [hf])) hw hi
  have happ : ∀ (a b : List (Label σ)) (s : State σ C), runSched env s (a ++ b) = runSched env (runSched env s a) b := by
    intro a
    induction a with
    | nil => intro b s; rfl
    | cons l a ih => intro b s; exact ih b _
  rw [happ]
  show v ((lstep env (runSched env (init w cl) ls₁) (.thread t)).getD (runSched env (init w cl) ls₁)).world = _
  cases hs : lstep env (runSched env (init w cl) ls₁) (.thread t) with
  | none => rfl
  | some s' => exact (h2.step he h1 hs).1

/-! ## What is never undone -/

/-- Every step of the process preserves `M`. -/
def Proc.Keeps (M : σ → Prop) : Proc σ C → Prop
  | .ret _ => True
  | .act f k => (∀ w, M w → M (f w)) ∧ ∀ w, (k w).Keeps M
  | .call _ _ k => ∀ e, (k e).Keeps M

theorem Runs.keeps {M : σ → Prop} {p : Proc σ C} (hp : p.Keeps M) {h pos} (hr : Runs p h pos) :
    match pos with
    | .at q => q.Keeps M
    | .inCall _ k => ∀ e, (k e).Keeps M := by
  induction hr with
  | nil => exact hp
  | act w _ ih => exact ih.2 w
  | call c _ ih => exact ih
  | ret e _ ih => exact ih e

structure Env.Keeps (env : Env σ C) (M : σ → Prop) : Prop where
  body : ∀ t ctx, (env.body t ctx).Keeps M
  resolve : ∀ o f, env.resolve o = some f → ∀ w, M w → M (f w).1

/-- What an action has achieved stays, if every step preserves it. -/
theorem kept {env : Env σ C} {M : σ → Prop} (hk : env.Keeps M) {cl : List (Proc σ C)} (hcl : ∀ p ∈ cl, p.Keeps M) {w : σ}
    (ls : List (Label σ)) (hls : ∀ f, .extern f ∈ ls → ∀ w, M w → M (f w)) {l₁ l₂ t w'}
    (hl : (runSched env (init w cl) ls).log = l₁ ++ (t, Ev.act w') :: l₂) :
    (M w' → M (runSched env (init w cl) ls).world) ∧
    ∀ p f k, Executes env cl l₁ t p → Runs p (hist t l₁) (.at (.act f k)) → M (f w') → M (runSched env (init w cl) ls).world := by
  -- for every action so far: if `M` held before or after it then it holds now
  let J : State σ C → Prop := fun s => ∀ l₁ t w' l₂, s.log = l₁ ++ (t, Ev.act w') :: l₂ →
    ∃ p f k, Executes env cl l₁ t p ∧ Runs p (hist t l₁) (.at (.act f k)) ∧ (M w' → M (f w')) ∧ (M (f w') → M s.world)
  have stepJ : ∀ s t s', Reach env w cl s → J s → step env s t = some s' → J s' := by
    intro s tid s' hr hJ hs
    obtain ⟨⟨jb, st⟩, hth, hc⟩ := step_cases hs
    have hr' : Reach env w cl s' := .step (.thread tid) hr hs
    obtain ⟨p, ho, hp⟩ := hr.localInv.pos _ _ _ hth
    have hpk : p.Keeps M := by
      cases jb with
      | some j => cases ho; exact hk.body _ _
      | none => exact hcl _ (List.mem_of_getElem? ho)
    have mono : M s.world → M s'.world := by
      cases hc with
      | act f k h1 =>
        dsimp only at h1; subst h1
        exact (Runs.keeps hpk hp).1 _
      | refuse c i ctx r rs k e w' h1 h2 =>
        rcases h2 with ⟨n, -, -, rfl⟩ | ⟨o, f, rfl, h3, h4⟩
        · exact id
        · intro h; have := hk.resolve _ _ h3 _ h; rw [h4] at this; exact this
      | spawn c i ctx o rs k t w' h1 h2 =>
        rcases h2 with ⟨-, -, rfl⟩ | ⟨f, h3, h4⟩
        · exact id
        · intro h; have := hk.resolve _ _ h3 _ h; rw [h4] at this; exact this
      | _ => exact id
    intro l₁ t w' l₂ hl
    have hcase : (∃ f k, st = .exec (.act f k) ∧ s'.world = f s.world ∧ s'.log = s.log ++ [(tid, Ev.act s.world)]) ∨
        ∃ new : List (Nat × Ev σ C), s'.log = s.log ++ new ∧ ∀ t w, (t, Ev.act w) ∉ new := by
      cases hc
      case act f k h1 => exact .inl ⟨f, k, h1, rfl, rfl⟩
      all_goals right; first
        | exact ⟨[], (List.append_nil _).symm, fun _ _ h => nomatch h⟩
        | (refine ⟨_, rfl, ?_⟩; intro t w hm; simp at hm)
    rcases hcase with ⟨f, k, rfl, hw', hlog⟩ | ⟨new, hnew, hno⟩
    · rw [hlog] at hl
      rw [hw'] at mono ⊢
      rcases List.eq_nil_or_concat l₂ with rfl | ⟨l₂', x, rfl⟩
      · have h1 := List.append_inj_left' hl rfl
        have h2 := List.append_inj_right' hl rfl
        subst h1
        simp only [List.cons.injEq, Prod.mk.injEq, Ev.act.injEq, and_true] at h2
        obtain ⟨rfl, rfl⟩ := h2
        exact ⟨p, f, k, .of hr.inv hth rfl ho, hp, (Runs.keeps hpk hp).1 _, id⟩
      · have h1 : s.log ++ [(tid, Ev.act s.world)] = (l₁ ++ (t, Ev.act w') :: l₂') ++ [x] := by simpa using hl
        obtain ⟨p, f, k, a, b, c, d⟩ := hJ _ _ _ _ (List.append_inj_left' h1 rfl)
        exact ⟨p, f, k, a, b, c, mono ∘ d⟩
    · -- no new action
      rw [hnew] at hl
      rcases List.append_eq_append_iff.1 hl with ⟨a, h1, h2⟩ | ⟨a, h1, h2⟩
      · exact absurd (show (t, Ev.act w') ∈ new by rw [h2]; simp) (hno _ _)
      · cases a with
        | nil => simp at h2; exact absurd (show (t, Ev.act w') ∈ new by rw [← h2]; simp) (hno _ _)
        | cons y a =>
          simp only [List.cons_append, List.cons.injEq] at h2
          obtain ⟨rfl, h2⟩ := h2
          obtain ⟨p, f, k, a, b, c, d⟩ := hJ _ _ _ _ h1
          exact ⟨p, f, k, a, b, c, mono ∘ d⟩
  have gen : ∀ (ls : List (Label σ)) (s : State σ C), (∀ f, .extern f ∈ ls → ∀ w, M w → M (f w)) → Reach env w cl s → J s → J (runSched env s ls) := by
    intro ls
    induction ls with
    | nil => intro s _ _ h; exact h
    | cons l ls ih =>
      intro s hls hr hJ
      have hls' : ∀ f, .extern f ∈ ls → ∀ w, M w → M (f w) := fun f hf => hls f (List.mem_cons_of_mem _ hf)
      rw [runSched]
      cases l with
      | extern f =>
        refine ih _ hls' (.step (.extern f) hr rfl) ?_
        intro l₁ t w' l₂ hl
        obtain ⟨p, f', k, a, b, c, d⟩ := hJ l₁ t w' l₂ hl
        exact ⟨p, f', k, a, b, c, fun h => hls f (List.mem_cons_self ..) _ (d h)⟩
      | thread t =>
        cases hs : lstep env s (.thread t) with
        | none => exact ih s hls' hr hJ
        | some s' => exact ih s' hls' (.step (.thread t) hr hs) (stepJ _ _ _ hr hJ hs)
  obtain ⟨p, f, k, a, b, c, d⟩ := gen ls (init w cl) hls .init (by intro l₁ t w' l₂ hl; simp [init] at hl) _ _ _ _ hl
  refine ⟨d ∘ c, fun p' f' k' ex hr' hM => d ?_⟩
  have hpp : p = p' := by
    rcases a with ⟨c1, i1, k1, t1, x1, m1, rfl⟩ | ⟨m1, m2⟩ <;> rcases ex with ⟨c2, i2, k2, t2, x2, n1, rfl⟩ | ⟨n1, n2⟩
    · obtain ⟨-, -, -, rfl, rfl⟩ := start_uniq (runSched_reach ls (Reach.init (env := env) (w := w) (clients := cl))) (sub_log hl m1) (sub_log hl n1)
      rfl
    · exact absurd m1 (n2 _ _ _ _ _)
    · exact absurd n1 (m2 _ _ _ _ _)
    · rw [m1] at n1; cases n1; rfl
  subst hpp
  have := b.detm hr'
  cases this
  exact hM

/-! ## Contexts -/

/-- All calls of the process are with contexts that have `K`. -/
def Proc.Ctxs (K : C → Prop) : Proc σ C → Prop
  | .ret _ => True
  | .act _ k => ∀ w, (k w).Ctxs K
  | .call ctx _ k => K ctx ∧ ∀ e, (k e).Ctxs K

def CtxSt (K : C → Prop) : TSt σ C → Prop
  | .exec p => p.Ctxs K
  | .spawning _ _ ctx _ k => K ctx ∧ ∀ e, (k e).Ctxs K
  | .joining _ k => ∀ e, (k e).Ctxs K
  | _ => True

/-- If targets pass contexts with `K` on as such then all targets are run with such contexts. -/
theorem start_ctx {env : Env σ C} {K : C → Prop} (hb : ∀ t ctx, K ctx → (env.body t ctx).Ctxs K) {cl : List (Proc σ C)} (hcl : ∀ p ∈ cl, p.Ctxs K)
    {w : σ} {s : State σ C} (h : Reach env w cl s) : ∀ t c i key x ctx, (t, Ev.start c i key x ctx) ∈ s.log → K ctx := by
  have key : (∀ th ∈ s.threads, CtxSt K th.st ∧ ∀ j, th.job = some j → K j.ctx) ∧ ∀ t c i key x ctx, (t, Ev.start c i key x ctx) ∈ s.log → K ctx := by
    induction h with
    | init =>
      refine ⟨?_, by simp [init]⟩
      intro th hth
      simp only [init, List.mem_map] at hth
      obtain ⟨p, hp, rfl⟩ := hth
      exact ⟨hcl p hp, fun j hj => by cases hj⟩
    | @step s s' l hr hs ih =>
      cases l with
      | extern f =>
        simp only [lstep, Option.some.injEq] at hs
        subst hs
        exact ih
      | thread tid =>
        obtain ⟨th, hth, hc⟩ := step_cases hs
        obtain ⟨i1, i2⟩ := ih
        have hm := List.mem_of_getElem? hth
        obtain ⟨hst, hjob⟩ := i1 th hm
        have set1 : ∀ {st : TSt σ C}, CtxSt K st → ∀ th' ∈ s.threads.set tid ⟨th.job, st⟩, CtxSt K th'.st ∧ ∀ j, th'.job = some j → K j.ctx := by
          intro st hq th' h'
          rcases List.mem_or_eq_of_mem_set h' with h' | rfl
          · exact i1 _ h'
          · exact ⟨hq, hjob⟩
        have log1 : ∀ {new : List (Nat × Ev σ C)}, (∀ t c i key x ctx, (t, Ev.start c i key x ctx) ∉ new) →
            ∀ t c i key x ctx, (t, Ev.start c i key x ctx) ∈ s.log ++ new → K ctx := by
          intro new hn t c i key x ctx h'
          rcases List.mem_append.1 h' with h' | h'
          · exact i2 _ _ _ _ _ _ h'
          · exact absurd h' (hn _ _ _ _ _ _)
        cases hc
        case lookupHit j o h1 h2 h3 => exact ⟨set1 trivial, i2⟩
        case lookupNew j h1 h2 h3 =>
          refine ⟨set1 (hb _ _ (hjob j h2)), ?_⟩
          intro t c i key x ctx h'
          simp only [List.mem_append, List.mem_singleton, Prod.mk.injEq, Ev.start.injEq] at h'
          rcases h' with h' | ⟨-, -, -, -, -, rfl⟩
          · exact i2 _ _ _ _ _ _ h'
          · exact hjob j h2
        case wake j o h1 h2 h3 h4 => exact ⟨set1 trivial, i2⟩
        case readOut j o h1 h2 h3 => exact ⟨set1 trivial, log1 (by simp)⟩
        case act f k h1 => rw [h1] at hst; exact ⟨set1 (hst _), log1 (by simp)⟩
        case callNil ctx k h1 => rw [h1] at hst; exact ⟨set1 (hst.2 _), log1 (by simp)⟩
        case call ctx r rs k h1 => rw [h1] at hst; exact ⟨set1 hst, log1 (by simp)⟩
        case finish e j h1 h2 => exact ⟨set1 trivial, log1 (by simp)⟩
        case clientDone e h1 h2 => exact ⟨set1 trivial, i2⟩
        case loopEnd c n ctx k h1 => rw [h1] at hst; exact ⟨set1 hst.2, i2⟩
        case refuse c n ctx r rs k e w' h1 h2 => rw [h1] at hst; exact ⟨set1 hst, log1 (by simp)⟩
        case spawn c n ctx o rs k t w' h1 h2 =>
          rw [h1] at hst
          refine ⟨?_, i2⟩
          intro th' h'
          rcases List.mem_append.1 h' with h' | h'
          · exact set1 (st := .spawning c (n + 1) ctx rs k) hst _ h'
          · simp only [List.mem_singleton] at h'; subst h'
            exact ⟨trivial, fun j hj => by cases hj; exact hst.1⟩
        case ret c k x h1 h2 h3 => rw [h1] at hst; exact ⟨set1 (hst _), log1 (by simp)⟩
        case setErrs e j h1 h2 => exact ⟨set1 trivial, log1 (by simp)⟩
        case setOut e j o h1 h2 h3 => exact ⟨set1 trivial, i2⟩
        case openGate e j o h1 h2 h3 => exact ⟨set1 trivial, i2⟩
        case wgDone j h1 h2 => exact ⟨set1 trivial, i2⟩
  exact key.2

end Fab.Runner
