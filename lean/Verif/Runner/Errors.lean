import Verif.Runner.Whole
import Verif.Base

/-!
# C87: an error tells what failed, and on which way it was reached

One call of `Controller.Run` on a new controller.  Errors are trees, as `errors.Wrapf` (/repo/runner.go:108) and `errors.Join` (/repo/runner.go:119) make them.
-/

namespace Fab.Runner
variable {σ C : Type}

/-! ## Specification -/

/-- Unwrapping `e` leads to `x`, passing `running t` for the targets `t` in `ts`, in this order. -/
inductive Err.Leads : Err → List Obj → Err → Prop
  | here {e} : Leads e [] e
  | running {t e ts x} : Leads e ts x → Leads (.running t e) (t :: ts) x
  | join {e es ts x} : e ∈ es → Leads e ts x → Leads (.join es) ts x

/-- All ways through `p` end with an error that has property `P`. -/
def Proc.EndsIn (P : Err → Prop) : Proc σ C → Prop
  | .ret e => ∃ x, e = some x ∧ P x
  | .act _ k => ∀ w, (k w).EndsIn P
  | .call _ _ k => ∀ e, (k e).EndsIn P

/-- `p` hands on errors: when a call of `Run` has returned the error `e`, `p` will return `e`, possibly with something wrapped around it. -/
def Proc.HandsOn : Proc σ C → Prop
  | .ret _ => True
  | .act _ k => ∀ w, (k w).HandsOn
  | .call _ _ k => ∀ e, (k e).HandsOn ∧ ∀ x, e = some x → (k e).EndsIn fun r => r.Leads [] x

def Env.HandsOn (env : Env σ C) : Prop := ∀ o ctx, (env.body o ctx).HandsOn

/-- `p` does not pretend that targets have failed: whatever target its errors name is named in one of the errors `known` that it got from `Run`. -/
def Proc.Frank : List Err → Proc σ C → Prop
  | known, .ret e => ∀ r t ts x, e = some r → r.Leads (t :: ts) x → ∃ y ∈ known, y.Leads (t :: ts) x
  | known, .act _ k => ∀ w, (k w).Frank known
  | known, .call _ _ k => ∀ e, (k e).Frank (e.toList ++ known)

/-- Neither targets nor references pretend that targets have failed. -/
structure Env.Frank (env : Env σ C) : Prop where
  body : ∀ o ctx, (env.body o ctx).Frank []
  resolve : ∀ o f w e, env.resolve o = some f → (f w).2 = .error e → ∀ t ts x, ¬ e.Leads (t :: ts) x

/-- In the course of `l`, target `x` has called `Run` with `o` among the arguments. -/
def AskedFor (l : List (Nat × Ev σ C)) (x : Obj) (r : TRef) : Prop :=
  ∃ th c i key ctx c' ctx' refs, (th, Ev.start c i key x ctx) ∈ l ∧ (th, Ev.call c' ctx' refs) ∈ l ∧ r ∈ refs

/-- `ts` leads from the arguments `refs` of `Run` to a target: the first of them is one of the arguments (or what that stands for), and each has called `Run` for the next. -/
inductive Way (env : Env σ C) (l : List (Nat × Ev σ C)) (refs : List TRef) : List Obj → Prop
  | arg {o t} : .ptr o ∈ refs → env.CanRun o t → Way env l refs [t]
  | dep {ts x o t} : Way env l refs (ts ++ [x]) → AskedFor l x (.ptr o) → env.CanRun o t → Way env l refs (ts ++ [x] ++ [t])

/-! ## Proofs -/

theorem Err.Leads.trans {a b c : Err} {ts us : List Obj} (h1 : a.Leads ts b) (h2 : b.Leads us c) : a.Leads (ts ++ us) c := by
  induction h1 with
  | here => exact h2
  | running _ ih => exact .running (ih h2)
  | join hm _ ih => exact .join hm (ih h2)

theorem Err.Leads.join_inv {es : List Err} {ts : List Obj} {x : Err} (h : (Err.join es).Leads ts x) (hne : ts ≠ []) : ∃ e ∈ es, e.Leads ts x := by
  cases h with
  | here => exact absurd rfl hne
  | join hm h => exact ⟨_, hm, h⟩

theorem Err.Leads.running_inv {t : Obj} {e : Err} {ts : List Obj} {x : Err} (h : (Err.running t e).Leads ts x) (hne : ts ≠ []) :
    ∃ us, ts = t :: us ∧ e.Leads us x := by
  cases h with
  | here => exact absurd rfl hne
  | running h => exact ⟨_, rfl, h⟩

theorem errJoin_some {outs : List (Option Err)} {x : Err} (h : some x ∈ outs) : ∃ es, errJoin outs = some (.join es) ∧ x ∈ es := by
  unfold errJoin
  have hm : x ∈ outs.filterMap id := List.mem_filterMap.2 ⟨some x, h, rfl⟩
  split
  · rename_i hnil; rw [hnil] at hm; cases hm
  · exact ⟨_, rfl, hm⟩

theorem errJoin_inv {outs : List (Option Err)} {e : Err} (h : errJoin outs = some e) : ∃ es, e = .join es ∧ ∀ x ∈ es, some x ∈ outs := by
  unfold errJoin at h
  split at h
  · cases h
  · cases h
    exact ⟨_, rfl, fun x hx => by obtain ⟨y, hy, rfl⟩ := List.mem_filterMap.1 hx; exact hy⟩

/-- What is to be handed on is handed on. -/
theorem Runs.endsIn {P : Err → Prop} {p : Proc σ C} {h : List (LEv σ C)} {pos : Pos σ C} (hp : p.EndsIn P) (hr : Runs p h pos) :
    match pos with
    | .at q => q.EndsIn P
    | .inCall _ k => ∀ e, (k e).EndsIn P := by
  induction hr with
  | nil => exact hp
  | act w _ ih => exact ih w
  | call c _ ih => exact ih
  | ret e _ ih => exact ih e

theorem Runs.handsOn {p : Proc σ C} {h : List (LEv σ C)} {pos : Pos σ C} (hp : p.HandsOn) (hr : Runs p h pos) :
    match pos with
    | .at q => q.HandsOn ∧ ∀ c x, LEv.ret c (some x) ∈ h → q.EndsIn fun r => r.Leads [] x
    | .inCall _ k => (∀ e, (k e).HandsOn ∧ ∀ x, e = some x → (k e).EndsIn fun r => r.Leads [] x) ∧
        ∀ c x, LEv.ret c (some x) ∈ h → ∀ e, (k e).EndsIn fun r => r.Leads [] x := by
  induction hr with
  | nil => exact ⟨hp, by simp⟩
  | act w _ ih => exact ⟨ih.1 w, fun c x hm => ih.2 c x (by simpa using hm) w⟩
  | call c _ ih => exact ⟨ih.1, fun c' x hm => ih.2 c' x (by simpa using hm)⟩
  | ret e _ ih =>
    refine ⟨(ih.1 e).1, fun c x hm => ?_⟩
    rcases List.mem_append.1 hm with hm | hm
    · exact ih.2 c x hm e
    · rw [List.mem_singleton] at hm; cases hm
      exact (ih.1 _).2 x rfl

/-- Whatever is named was named to it. -/
theorem Runs.frank {known : List Err} {p : Proc σ C} {h : List (LEv σ C)} {pos : Pos σ C} (hp : p.Frank known) (hr : Runs p h pos) :
    ∃ known', (∀ y ∈ known', y ∈ known ∨ ∃ c, LEv.ret c (some y) ∈ h) ∧
    match pos with
    | .at q => q.Frank known'
    | .inCall _ k => ∀ e : Option Err, (k e).Frank (e.toList ++ known') := by
  induction hr with
  | nil => exact ⟨known, fun y hy => .inl hy, hp⟩
  | act w _ ih =>
    obtain ⟨kn, h1, h2⟩ := ih
    exact ⟨kn, fun y hy => (h1 y hy).imp_right fun ⟨c, hc⟩ => ⟨c, List.mem_append_left _ hc⟩, h2 w⟩
  | call c _ ih =>
    obtain ⟨kn, h1, h2⟩ := ih
    exact ⟨kn, fun y hy => (h1 y hy).imp_right fun ⟨c, hc⟩ => ⟨c, List.mem_append_left _ hc⟩, h2⟩
  | @ret h c k e _ ih =>
    obtain ⟨kn, h1, h2⟩ := ih
    refine ⟨e.toList ++ kn, fun y hy => ?_, h2 e⟩
    rcases List.mem_append.1 hy with hy | hy
    · rw [Option.mem_toList] at hy
      exact .inr ⟨c, by rw [hy]; simp⟩
    · exact (h1 y hy).imp_right fun ⟨c, hc⟩ => ⟨c, List.mem_append_left _ hc⟩

/-- The error of a target is part of the error of the call that started it. -/
theorem start_reported {env : Env σ C} {w : σ} {cl : List (Proc σ C)} {s : State σ C} (h : Reach env w cl s)
    {t c i key tgt ctx t₀ e₀ raw} (hst : (t, Ev.start c i key tgt ctx) ∈ s.log) (hret : (t₀, Ev.ret c e₀) ∈ s.log)
    (hf : (t, Ev.finish key tgt (some raw)) ∈ s.log) : ∃ e, e₀ = some e ∧ e.Leads [tgt] raw := by
  obtain ⟨t', refs, o, h1, h2, h3, h4, h5⟩ := start_ok h hst
  obtain ⟨l₁, l₂, hl, ctx', refs', g1, -, outs, g2, g3, g4⟩ := h.evOk.mem hret
  obtain ⟨-, -, rfl⟩ := call_uniq h (sub_log hl g1) h1
  have hi : i < outs.length := by rw [g2]; exact (List.getElem?_eq_some_iff.1 h2).1
  rcases g4 i outs[i] (by simp) with ⟨t₁, e₁, hr, -⟩ | ⟨o', t₁, tgt₁, raw₁, ho, hf₁, hw, -⟩
  · obtain ⟨j, st, a1, a2, a3, -⟩ := h.inv.f.startJob _ _ _ _ _ _ hst
    exact absurd ⟨a2, a3⟩ (h.inv.e.refNoJob _ _ _ _ (sub_log hl hr) _ _ _ a1)
  · rw [h2] at ho; cases ho
    rw [h3] at hf₁
    obtain ⟨rfl, he⟩ := finN_two (h.inv.b.finOnce key) (sub_log hl hf₁) hf
    subst he
    obtain ⟨es, h6, h7⟩ := errJoin_some (outs := outs) (x := .running tgt₁ raw) (by rw [← show outs[i] = some (.running tgt₁ raw) from hw]; exact List.getElem_mem hi)
    exact ⟨_, g3.trans h6, .join h7 (.running .here)⟩

theorem ret_uniq {env : Env σ C} {w : σ} {cl : List (Proc σ C)} {s : State σ C} (h : Reach env w cl s) {t t' c e e'}
    (h1 : (t, Ev.ret c e) ∈ s.log) (h2 : (t', Ev.ret c e') ∈ s.log) : e = e' := by
  obtain ⟨l₁, l₂, hl⟩ := List.append_of_mem h1
  obtain ⟨m₁, m₂, hm⟩ := List.append_of_mem h2
  obtain ⟨_, _, -, h3, -⟩ := h.evOk _ _ _ hl
  obtain ⟨_, _, -, h4, -⟩ := h.evOk _ _ _ hm
  rcases two_events hl hm with ⟨-, h5⟩ | h5 | h5
  · cases h5; rfl
  · exact absurd h5 (h4 _ _)
  · exact absurd h5 (h3 _ _)

/-- Where a goroutine stands: it is the client, or it runs the target at the end of the way. -/
def Stands (env : Env σ C) (l : List (Nat × Ev σ C)) (refs₀ : List TRef) (t : Nat) (ts : List Obj) : Prop :=
  (t = 0 ∧ ts = []) ∨ ∃ us c i key x ctx, ts = us ++ [x] ∧ (t, Ev.start c i key x ctx) ∈ l ∧ Way env l refs₀ ts

theorem canRun_of {env : Env σ C} {o tgt : Obj} (h4 : env.resolve o = none → tgt = o) (h5 : ∀ f, env.resolve o = some f → ∃ w, (f w).2 = .ok tgt) :
    env.CanRun o tgt := by
  cases hres : env.resolve o with
  | none => exact .inl ⟨hres, h4 hres⟩
  | some f => obtain ⟨w, hw⟩ := h5 f hres; exact .inr ⟨f, w, hres, hw⟩

theorem stands_start {env : Env σ C} {w : σ} {ctx₀ : C} {refs₀ : List TRef} {s : State σ C} (h : Reach env w [.call ctx₀ refs₀ .ret] s)
    {t t' c i key tgt ctx refs o} {ts : List Obj} (hst : (t, Ev.start c i key tgt ctx) ∈ s.log) (hc : (t', Ev.call c ctx refs) ∈ s.log)
    (hi : refs[i]? = some (.ptr o)) (hcan : env.CanRun o tgt) (hs : Stands env s.log refs₀ t' ts) : Stands env s.log refs₀ t (ts ++ [tgt]) := by
  refine .inr ⟨ts, c, i, key, tgt, ctx, rfl, hst, ?_⟩
  rcases hs with ⟨rfl, rfl⟩ | ⟨us, c₁, i₁, key₁, x, ctx₁, rfl, hx, hw⟩
  · obtain ⟨-, rfl, -⟩ := client_call h hc
    exact .arg (List.mem_of_getElem? hi) hcan
  · exact .dep hw ⟨t', c₁, i₁, key₁, ctx₁, c, ctx, refs, hx, hc, List.mem_of_getElem? hi⟩ hcan

/-- The error of every call is part of the client's. -/
theorem call_reported {env : Env σ C} (hp : env.HandsOn) {w : σ} {ctx₀ : C} {refs₀ : List TRef} {s : State σ C}
    (h : Reach env w [.call ctx₀ refs₀ .ret] s) {c₀ e₀} (hret : (0, Ev.ret c₀ e₀) ∈ s.log) {t c ctx refs} (hc : (t, Ev.call c ctx refs) ∈ s.log) :
    ∃ ts, Stands env s.log refs₀ t ts ∧ ∀ e, (t, Ev.ret c (some e)) ∈ s.log → ∃ x, e₀ = some x ∧ x.Leads ts e := by
  obtain ⟨l₁, l₂, hl⟩ := List.append_of_mem hc
  clear hc
  induction hn : l₁.length using Nat.strongRecOn generalizing l₁ l₂ t c ctx refs with
  | ind n ih =>
    subst hn
    rcases caller h hl with ⟨rfl, -⟩ | ⟨c₁, i₁, key, tgt, ctx₁, k, hm, -⟩
    · refine ⟨[], .inl ⟨rfl, rfl⟩, fun e he => ⟨e, ?_, .here⟩⟩
      obtain ⟨ctx', refs', hh⟩ := h.inv.f.retEv _ _ _ hret
      have := (client_call h ((h.inv.f.callEv _ _ _ _).1 hh)).2.2 c ctx refs (by rw [hl]; simp)
      subst this
      exact ret_uniq h hret he
    · obtain ⟨x₁, x₂, hx⟩ := List.append_of_mem hm
      obtain ⟨-, t', refs', o, h1, h2, h3, h4, h5⟩ :=
        h.evOk x₁ (t, Ev.start c₁ i₁ key tgt ctx₁) (x₂ ++ (t, Ev.call c ctx refs) :: l₂) (by rw [hl, hx]; simp)
      obtain ⟨y₁, y₂, hy⟩ := List.append_of_mem h1
      obtain ⟨ts, hs, hrep⟩ := ih (t := t') (c := c₁) (ctx := ctx₁) (refs := refs') y₁.length (by rw [hx, hy]; simp) y₁
        (y₂ ++ (t, Ev.start c₁ i₁ key tgt ctx₁) :: x₂ ++ (t, Ev.call c ctx refs) :: l₂) (by rw [hl, hx, hy]; simp) rfl
      have hst := sub_log hl hm
      have hc₁ : (t', Ev.call c₁ ctx₁ refs') ∈ s.log := sub_log hl (by rw [hx]; exact List.mem_append_left _ h1)
      refine ⟨ts ++ [tgt], stands_start h hst hc₁ h2 (canRun_of h4 h5) hs, fun e he => ?_⟩
      obtain ⟨e₁, he₁⟩ := all_returned h hret hc₁
      obtain ⟨raw, m₁, m₂, hm', hr, hb, -⟩ := start_done h hst he₁
      obtain ⟨-, e', he'⟩ := hb c ctx refs (by rw [hl]; simp)
      have hee : e' = some e := ret_uniq h (sub_log hm' he') he
      subst hee
      obtain ⟨r, hraw, hlead⟩ := (hr.handsOn (hp tgt ctx₁)).2 c e (mem_hist_ret.2 he')
      subst hraw
      obtain ⟨e₂, rfl, h7⟩ := start_reported h hst he₁ (raw := r) (by rw [hm']; simp)
      obtain ⟨x, hx0, h8⟩ := hrep e₂ he₁
      refine ⟨x, hx0, ?_⟩
      have := h8.trans (h7.trans hlead)
      simpa using this

/-- **C87.** If targets hand on the errors of the targets that they run, then the error that `Run` returns leads to the error of every target that failed, naming the targets on
a way from an argument of `Run` to it, each of which has called `Run` for the next ... -/
theorem C87_every_failure {env : Env σ C} (hp : env.HandsOn) {w : σ} {ctx₀ : C} {refs₀ : List TRef} {s : State σ C}
    (h : Reach env w [.call ctx₀ refs₀ .ret] s) {c₀ e₀} (hret : (0, Ev.ret c₀ e₀) ∈ s.log) {t key tgt raw}
    (hf : (t, Ev.finish key tgt (some raw)) ∈ s.log) :
    ∃ e ts, e₀ = some e ∧ Way env s.log refs₀ (ts ++ [tgt]) ∧ e.Leads (ts ++ [tgt]) raw := by
  obtain ⟨l₁, l₂, hl, c, i, ctx, hst⟩ := h.evOk.mem hf
  have hst := sub_log hl hst
  obtain ⟨t', refs, o, h1, h2, h3, h4, h5⟩ := start_ok h hst
  obtain ⟨ts, hs, hrep⟩ := call_reported hp h hret h1
  obtain ⟨e, he⟩ := all_returned h hret h1
  obtain ⟨e', rfl, h6⟩ := start_reported h hst he hf
  obtain ⟨x, hx, h7⟩ := hrep e' he
  refine ⟨x, ts, hx, ?_, h7.trans h6⟩
  rcases stands_start h hst h1 h2 (canRun_of h4 h5) hs with ⟨-, h8⟩ | ⟨_, _, _, _, _, _, -, -, h8⟩
  · simp at h8
  · exact h8

/-- The reference `r` cannot be run, for the reason `x`: it is not a pointer, or it is a name that cannot be resolved. -/
def RefusedFor (env : Env σ C) (r : TRef) (x : Err) : Prop :=
  (∃ n, r = .val n ∧ x = .notPointer n) ∨ ∃ o f w, r = .ptr o ∧ env.resolve o = some f ∧ (f w).2 = .error x

/-- ... and to every reference that was refused, naming a way to the target that asked for it (or nothing, if it is an argument of `Run`). -/
theorem C87_every_refusal {env : Env σ C} (hp : env.HandsOn) {w : σ} {ctx₀ : C} {refs₀ : List TRef} {s : State σ C}
    (h : Reach env w [.call ctx₀ refs₀ .ret] s) {c₀ e₀} (hret : (0, Ev.ret c₀ e₀) ∈ s.log) {t c i x} (hr : (t, Ev.refuse c i x) ∈ s.log) :
    ∃ e ts r, e₀ = some e ∧ e.Leads ts x ∧ RefusedFor env r x ∧
      ((ts = [] ∧ r ∈ refs₀) ∨ ∃ us y, ts = us ++ [y] ∧ Way env s.log refs₀ ts ∧ AskedFor s.log y r) := by
  obtain ⟨l₁, l₂, hl, ctx, refs, hc, hw⟩ := h.evOk.mem hr
  have hc := sub_log hl hc
  obtain ⟨r, hi, hrf⟩ : ∃ r, refs[i]? = some r ∧ RefusedFor env r x := by
    rcases hw with ⟨n, h1, rfl⟩ | ⟨o, f, w', h1, h2, h3⟩
    · exact ⟨_, h1, .inl ⟨n, rfl, rfl⟩⟩
    · exact ⟨_, h1, .inr ⟨o, f, w', rfl, h2, h3⟩⟩
  obtain ⟨ts, hs, hrep⟩ := call_reported hp h hret hc
  obtain ⟨e, he⟩ := all_returned h hret hc
  obtain ⟨k₁, k₂, hk, ctx', refs', g1, -, outs, g2, g3, g4⟩ := h.evOk.mem he
  obtain ⟨-, -, rfl⟩ := call_uniq h (sub_log hk g1) hc
  have hlt : i < outs.length := by rw [g2]; exact (List.getElem?_eq_some_iff.1 hi).1
  have hout : outs[i] = some x := by
    rcases g4 i outs[i] (by simp) with ⟨t₁, e₁, hr₁, h6⟩ | ⟨o', t₁, tgt₁, raw, -, -, -, t₂, hre⟩
    · have := (h.inv.e.refErr _ _ _ _ (sub_log hk hr₁)).symm.trans (h.inv.e.refErr _ _ _ _ hr)
      rw [h6]; exact Option.some.inj this
    · obtain ⟨j, st, a1, a2, a3, -⟩ := h.inv.f.resJob _ _ _ _ (sub_log hk hre)
      exact absurd ⟨a2, a3⟩ (h.inv.e.refNoJob _ _ _ _ hr _ _ _ a1)
  obtain ⟨es, h6, h7⟩ := errJoin_some (outs := outs) (x := x) (by rw [← hout]; exact List.getElem_mem hlt)
  obtain ⟨y, hy, h8⟩ := hrep (.join es) (by rw [← h6, ← g3]; exact he)
  refine ⟨y, ts, r, hy, ?_, hrf, ?_⟩
  · have := h8.trans (.join h7 .here); simpa using this
  · rcases hs with ⟨rfl, rfl⟩ | ⟨us, c₁, i₁, key, z, ctx₁, rfl, hz, hw⟩
    · obtain ⟨-, rfl, -⟩ := client_call h hc
      exact .inl ⟨rfl, List.mem_of_getElem? hi⟩
    · exact .inr ⟨us, z, rfl, hw, t, c₁, i₁, key, ctx₁, c, ctx, refs', hz, hc, List.mem_of_getElem? hi⟩

/-- **C87.** Conversely, what the error names did happen: if it leads, naming the target `t` last, to `x`, then `t` was run and returned an error, which is `x` or has it
wrapped (without naming another target). -/
theorem C87_true {env : Env σ C} (hp : env.Frank) {w : σ} {cl : List (Proc σ C)} {s : State σ C} (h : Reach env w cl s) {t₀ c₀ e}
    (hret : (t₀, Ev.ret c₀ (some e)) ∈ s.log) {ts : List Obj} {tgt : Obj} {x : Err} (hx : e.Leads (ts ++ [tgt]) x) :
    ∃ t key raw, (t, Ev.finish key tgt (some raw)) ∈ s.log ∧ raw.Leads [] x := by
  obtain ⟨l₁, l₂, hl⟩ := List.append_of_mem hret
  clear hret
  induction hn : l₁.length using Nat.strongRecOn generalizing l₁ l₂ t₀ c₀ e ts with
  | ind n ih =>
    subst hn
    obtain ⟨ctx, refs, g1, -, outs, g2, g3, g4⟩ := h.evOk _ _ _ hl
    obtain ⟨es, rfl, hes⟩ := errJoin_inv g3.symm
    obtain ⟨y, hy, hlead⟩ := hx.join_inv (by simp)
    obtain ⟨i, hi⟩ := List.mem_iff_getElem?.1 (hes y hy)
    rcases g4 i _ hi with ⟨t₁, e₁, hr, h6⟩ | ⟨o, t₁, tgt₁, raw, -, hf, h6, -⟩
    · cases h6
      exfalso
      obtain ⟨u, us, hu⟩ : ∃ u us, ts ++ [tgt] = u :: us := by cases ts <;> simp
      rw [hu] at hlead
      obtain ⟨ctx', refs', -, h7⟩ := h.inv.f.refWhy _ _ _ _ (sub_log hl hr)
      rcases h7 with ⟨n, -, h8⟩ | ⟨o, f, w', -, h8, h9⟩
      · rw [h8] at hlead; cases hlead
      · exact hp.resolve o f w' _ h8 h9 _ _ _ hlead
    · cases raw with
      | none => cases h6
      | some raw =>
      cases h6
      obtain ⟨us, h7, h8⟩ := hlead.running_inv (by simp)
      cases ts with
      | nil =>
        simp only [List.nil_append, List.cons.injEq] at h7
        obtain ⟨rfl, rfl⟩ := h7
        exact ⟨t₁, _, raw, sub_log hl hf, h8⟩
      | cons u ts =>
        simp only [List.cons_append, List.cons.injEq] at h7
        obtain ⟨rfl, rfl⟩ := h7
        obtain ⟨m₁, m₂, hm⟩ := List.append_of_mem hf
        obtain ⟨c, i', ctx', -, hr⟩ := finish_path (t := t₁) (key := env.addr o) (x := u) (raw := some raw) h (l₁ := m₁)
          (l₂ := m₂ ++ (t₀, Ev.ret c₀ (some (.join es))) :: l₂) (by rw [hl, hm]; simp)
        obtain ⟨kn, k1, k2⟩ := hr.frank (hp.body _ _)
        obtain ⟨v, vs, hv⟩ : ∃ v vs, ts ++ [tgt] = v :: vs := by cases ts <;> simp
        obtain ⟨z, hz, hzl⟩ := k2 raw v vs x rfl (hv ▸ h8)
        rcases k1 z hz with hz | ⟨c', hz⟩
        · cases hz
        · obtain ⟨n₁, n₂, hn⟩ := List.append_of_mem (mem_hist_ret.1 hz)
          exact ih (t₀ := t₁) (c₀ := c') (e := z) n₁.length (by rw [hm, hn]; simp) (hv ▸ hzl) n₁ (n₂ ++ (t₁, Ev.finish (env.addr o) u (some raw)) :: m₂ ++ (t₀, Ev.ret c₀ (some (.join es))) :: l₂)
            (by rw [hl, hm, hn]; simp) rfl

/-! ## The text of the error -/

/-- What `Error()` returns: `errors.Wrapf` puts its message and `: ` in front (/repo/runner.go:108, `desc` is what `Describe` returns), and `errors.Join` puts each error
on a line (/repo/runner.go:119); `own` is the text of other errors.  Both functions are from libraries (github.com/bobg/errors, errors), and their texts are assumed to be these. -/
def Err.text (desc : Obj → Str) (own : Err → Str) : Err → Str
  | .running t e => "running ".toList ++ desc t ++ ": ".toList ++ e.text desc own
  | .join es => joinWith ['\n'] (es.map fun e => e.text desc own)
  | e => own e

theorem infix_joinWith (sep : Str) {l : List Str} {a : Str} (h : a ∈ l) : a <:+: joinWith sep l := by
  induction l with
  | nil => cases h
  | cons b l ih =>
    cases l with
    | nil => rw [List.mem_singleton] at h; subst h; exact List.infix_rfl
    | cons c l =>
      simp only [joinWith]
      rcases List.mem_cons.1 h with rfl | h
      · exact ⟨[], sep ++ joinWith sep (c :: l), by simp⟩
      · exact (ih h).trans ⟨b ++ sep, [], by simp⟩

/-- The text of a part of an error is part of its text. -/
theorem leads_text (desc : Obj → Str) (own : Err → Str) {e x : Err} {ts : List Obj} (h : e.Leads ts x) : x.text desc own <:+: e.text desc own := by
  induction h with
  | here => exact List.infix_rfl
  | running _ ih => rw [Err.text]; exact ih.trans (List.suffix_append _ _).isInfix
  | join hm _ ih => rw [Err.text]; exact ih.trans (infix_joinWith _ (List.mem_map.2 ⟨_, hm, rfl⟩))

theorem Err.Leads.last {e x : Err} {us : List Obj} (h : e.Leads us x) : ∀ ts t, us = ts ++ [t] → ∃ raw, e.Leads ts (.running t raw) ∧ raw.Leads [] x := by
  induction h with
  | here => intro ts t h; simp at h
  | @running u e us x h ih =>
    intro ts t hts
    cases ts with
    | nil =>
      simp only [List.nil_append, List.cons.injEq] at hts
      obtain ⟨rfl, rfl⟩ := hts
      exact ⟨e, .here, h⟩
    | cons v ts =>
      simp only [List.cons_append, List.cons.injEq] at hts
      obtain ⟨rfl, rfl⟩ := hts
      obtain ⟨raw, h1, h2⟩ := ih ts t rfl
      exact ⟨raw, .running h1, h2⟩
  | join hm _ ih =>
    intro ts t hts
    obtain ⟨raw, h1, h2⟩ := ih ts t hts
    exact ⟨raw, .join hm h1, h2⟩

/-- **C87.** The text of the error contains, for every target `t` that it names, `running `, the description of `t`, `: `, and the text of what `t` returned. -/
theorem C87_text (desc : Obj → Str) (own : Err → Str) {e x : Err} {ts : List Obj} {t : Obj} (h : e.Leads (ts ++ [t]) x) :
    ∃ raw : Err, raw.Leads [] x ∧ x.text desc own <:+: raw.text desc own ∧
      ("running ".toList ++ desc t ++ ": ".toList ++ raw.text desc own) <:+: e.text desc own := by
  obtain ⟨raw, h1, h2⟩ := h.last ts t rfl
  refine ⟨raw, h2, leads_text desc own h2, ?_⟩
  have := leads_text desc own h1
  rwa [Err.text] at this

/-- **C87, finding.** The text alone does not tell which way leads to a failure: when target `a` returns the errors `x` and `running b: y`, the text is the same as when `a`
returns `x`, and `b` (which `a` has nothing to do with) returns `y`. -/
theorem C87_finding_ambiguous (desc : Obj → Str) (own : Err → Str) (a b : Obj) (x y : Err) :
    (Err.running a (.join [x, .running b y])).text desc own = (Err.join [.running a x, .running b y]).text desc own ∧
      (Err.running a (.join [x, .running b y])).Leads [a, b] y ∧ (Err.join [.running a x, .running b y]).Leads [b] y := by
  refine ⟨?_, .running (.join (by simp) (.running .here)), .join (by simp) (.running .here)⟩
  simp only [Err.text, List.map_cons, List.map_nil, joinWith, List.append_assoc]

/-! ## The targets of the package -/

theorem allBody_handsOn (refs : List TRef) (ctx : C) : (allBody (σ := σ) refs ctx).HandsOn :=
  fun _ => ⟨trivial, fun x h => ⟨x, h, .here⟩⟩

theorem seqBody_handsOn : ∀ (refs : List TRef) (ctx : C), (seqBody (σ := σ) refs ctx).HandsOn
  | [], _ => trivial
  | _ :: rs, ctx => fun e => by
    cases e with
    | none => exact ⟨seqBody_handsOn rs ctx, fun x h => by cases h⟩
    | some e => exact ⟨trivial, fun x h => ⟨x, h, .here⟩⟩

theorem argBody_handsOn (r : TRef) (args : List String) (ctx : Ctx) : (argBody (σ := σ) r args ctx).HandsOn :=
  fun _ => ⟨trivial, fun x h => ⟨x, h, .here⟩⟩

theorem nameBody_handsOn (f : σ → σ × Except Err Obj) (ctx : C) : (nameBody f ctx).HandsOn := by
  intro w
  dsimp only
  split
  · trivial
  · exact fun _ => ⟨trivial, fun x h => ⟨x, h, .here⟩⟩

theorem frank_ret (known : List Err) {e : Option Err} (h : ∀ x, e = some x → x ∈ known) : (Proc.ret (σ := σ) (C := C) e).Frank known :=
  fun r _ _ _ hr hl => ⟨r, h r hr, hl⟩

theorem allBody_frank (refs : List TRef) (ctx : C) : (allBody (σ := σ) refs ctx).Frank [] :=
  fun e => frank_ret _ fun x hx => by simp [hx]

theorem seqBody_frank (refs : List TRef) (ctx : C) : ∀ known, (seqBody (σ := σ) refs ctx).Frank known := by
  induction refs with
  | nil => intro known r _ _ _ h; cases h
  | cons r rs ih =>
    intro known e
    cases e with
    | none => exact ih _
    | some e => exact frank_ret _ fun x hx => by cases hx; simp

theorem argBody_frank (r : TRef) (args : List String) (ctx : Ctx) : (argBody (σ := σ) r args ctx).Frank [] :=
  fun e => frank_ret _ fun x hx => by simp [hx]

theorem nameBody_frank {f : σ → σ × Except Err Obj} (hf : ∀ w e, (f w).2 = .error e → ∀ t ts x, ¬ e.Leads (t :: ts) x) (ctx : C) : (nameBody f ctx).Frank [] := by
  intro w
  dsimp only
  split
  · rename_i e he
    intro r t ts x h1 h2
    cases h1
    exact absurd h2 (hf w e he t ts x)
  · exact fun e => frank_ret _ fun x hx => by simp [hx]

/-! ## Examples -/

namespace ErrDemo

theorem handsOn : WholeDemo.env.HandsOn := by
  intro o ctx
  match o with
  | 0 => exact allBody_handsOn _ _
  | 1 => exact seqBody_handsOn _ _
  | 2 => exact fun _ => trivial
  | n + 3 => exact fun _ => trivial

theorem frank : WholeDemo.env.Frank := by
  refine ⟨fun o ctx => ?_, fun o f w e h1 h2 => ?_⟩
  · match o with
    | 0 => exact allBody_frank _ _
    | 1 => exact seqBody_frank _ _ _
    | 2 =>
      intro w r t ts x h1 h2
      split at h1
      · cases h1; cases h2
      · cases h1
    | n + 3 => intro w r t ts x h1; cases h1
  · simp only [WholeDemo.env] at h1
    split at h1
    · cases h1; cases h2
    · cases h1

/-- target 2 returns the error `atom 7` -/
def fails2 : Nat × Ev Nat Unit → Bool
  | (_, .finish _ 2 (some (.atom 7))) => true
  | _ => false

/-- `Run` returns an error that names 0, 1 and 2 -/
def names012 : Nat × Ev Nat Unit → Bool
  | (0, .ret _ (some (.join [.running 0 (.join [.running 1 (.join [.running 2 (.atom 7)])])]))) => true
  | _ => false

/-- C87: in an execution, target 2 fails; the error that `Run` returns leads to its error by way of targets 0 and 1. -/
example : ∃ s c t key e, Reach WholeDemo.env 0 [.call () [.ptr 0] .ret] s ∧ (0, Ev.ret c (some e)) ∈ s.log ∧ (t, Ev.finish key 2 (some (.atom 7))) ∈ s.log ∧
    e.Leads [0, 1, 2] (.atom 7) := by
  have h1 : (WholeDemo.run 0).log.any fails2 = true := by decide +kernel
  have h2 : (WholeDemo.run 0).log.any names012 = true := by decide +kernel
  obtain ⟨e, hm, he⟩ := List.any_eq_true.1 h1
  obtain ⟨e', hm', he'⟩ := List.any_eq_true.1 h2
  unfold fails2 at he
  unfold names012 at he'
  split at he
  · split at he'
    · exact ⟨_, _, _, _, _, WholeDemo.run_reach 0, hm', hm, .join (.head _) (.running (.join (.head _) (.running (.join (.head _) (.running .here)))))⟩
    · cases he'
  · cases he

/-- its text -/
example : (Err.join [.running 0 (.join [.running 1 (.join [.running 2 (.atom 7)])])]).text (fun o => if o = 0 then ['A'] else if o = 1 then ['B'] else ['C'])
    (fun _ => "exit status 7".toList) = "running A: running B: running C: exit status 7".toList := by
  simp only [Err.text, List.map_cons, List.map_nil, joinWith]
  decide +kernel

/-- Without `Env.HandsOn`: target 0 runs target 1, which fails, and returns nil; `Run` returns nil. -/
def careless : Env Nat Unit where
  addr o := o
  resolve _ := none
  body o ctx := match o with
    | 0 => .call ctx [.ptr 1] fun _ => .ret none
    | _ => .act (· + 1) fun _ => .ret (some (.atom 7))

def failsNil : Nat × Ev Nat Unit → Bool
  | (_, .finish _ 1 (some _)) => true
  | _ => false

def retNil : Nat × Ev Nat Unit → Bool
  | (0, .ret _ none) => true
  | _ => false

/-- The hypothesis of C87 is needed. -/
example : ∃ s c t key e, Reach careless 0 [.call () [.ptr 0] .ret] s ∧ (0, Ev.ret c none) ∈ s.log ∧ (t, Ev.finish key 1 (some e)) ∈ s.log := by
  let s := runSched careless (init 0 [.call () [.ptr 0] .ret]) (Demo.sched 30 4)
  have h1 : s.log.any failsNil = true := by decide +kernel
  have h2 : s.log.any retNil = true := by decide +kernel
  obtain ⟨e, hm, he⟩ := List.any_eq_true.1 h1
  obtain ⟨e', hm', he'⟩ := List.any_eq_true.1 h2
  unfold failsNil at he
  unfold retNil at he'
  split at he
  · split at he'
    · exact ⟨_, _, _, _, _, runSched_reach _ .init, hm', hm⟩
    · cases he'
  · cases he

end ErrDemo

end Fab.Runner
