import Verif.Runner.Targets

/-!
# C74: concurrency does not change the result

A big-step semantics evaluates a target the naive way: run its body, and wherever it calls `Run`, evaluate each of the
arguments from scratch, one after the other.  No goroutines, no table of results, no gates.  C74 says that whatever
`Controller.Run` gives in any schedule is what this evaluation can give, and that it therefore is the same in all schedules
if this evaluation has only one result.
-/

namespace Fab.Runner
variable {σ C : Type}

/-! ## Specification: naive evaluation

`K` is a set of contexts.  (A target that is requested with several contexts gets the one of the first requester, C10.) -/

mutual
/-- The code `p` can return `e`.  What it sees of the world is arbitrary. -/
inductive Big (env : Env σ C) (K : C → Prop) : Proc σ C → Option Err → Prop
  | ret (e) : Big env K (.ret e) e
  | act {f k e} (w) : Big env K (k w) e → Big env K (.act f k) e
  | call {ctx refs k e outs} : BigAll env K refs outs → Big env K (k (errJoin outs)) e → Big env K (.call ctx refs k) e
/-- The arguments of a call of `Run` can have these outcomes. -/
inductive BigAll (env : Env σ C) (K : C → Prop) : List TRef → List (Option Err) → Prop
  | nil : BigAll env K [] []
  | cons {r rs out outs} : BigRef env K r out → BigAll env K rs outs → BigAll env K (r :: rs) (out :: outs)
/-- An argument of `Run` can have this outcome. -/
inductive BigRef (env : Env σ C) (K : C → Prop) : TRef → Option Err → Prop
  | val (n) : BigRef env K (.val n) (some (.notPointer n))
  | unresolved {o f w e} : env.resolve o = some f → (f w).2 = .error e → BigRef env K (.ptr o) (some e)
  | named {o f w t ctx raw} : env.resolve o = some f → (f w).2 = .ok t → K ctx → Big env K (env.body t ctx) raw →
      BigRef env K (.ptr o) (reported t raw)
  | direct {o ctx raw} : env.resolve o = none → K ctx → Big env K (env.body o ctx) raw → BigRef env K (.ptr o) (reported o raw)
end

/-- Target `o` can return `raw`. -/
def BigT (env : Env σ C) (K : C → Prop) (o : Obj) (raw : Option Err) : Prop := ∃ ctx, K ctx ∧ Big env K (env.body o ctx) raw

/-- All calls of `Run` in `p` are made with contexts in `K`. -/
def CallsIn (K : C → Prop) : Proc σ C → Prop
  | .ret _ => True
  | .act _ k => ∀ w, CallsIn K (k w)
  | .call ctx _ k => K ctx ∧ ∀ e, CallsIn K (k e)

/-! ## Proofs -/

theorem bigAll_iff {env : Env σ C} {K : C → Prop} {refs : List TRef} {outs : List (Option Err)} :
    BigAll env K refs outs ↔ outs.length = refs.length ∧
      ∀ (i : Nat) r out, refs[i]? = some r → outs[i]? = some out → BigRef env K r out := by
  induction refs generalizing outs with
  | nil =>
    constructor
    · intro h; cases h; simp
    · rintro ⟨h, -⟩; rw [List.eq_nil_of_length_eq_zero h]; exact .nil
  | cons r rs ih =>
    constructor
    · intro h
      cases h with
      | cons h1 h2 =>
        obtain ⟨h3, h4⟩ := ih.1 h2
        refine ⟨by simp [h3], ?_⟩
        intro i r' out' hr ho
        cases i with
        | zero => simp at hr ho; subst hr ho; exact h1
        | succ i => simp at hr ho; exact h4 i r' out' hr ho
    · rintro ⟨h, h'⟩
      cases outs with
      | nil => simp at h
      | cons out outs =>
        exact .cons (h' 0 r out rfl rfl) (ih.2 ⟨by simpa using h, fun i r' o' hr ho => h' (i + 1) r' o' (by simpa using hr) (by simpa using ho)⟩)

/-- A path from `p` to `q` along which all calls returned what the evaluation can give: what `q` can give, `p` can. -/
theorem Runs.big {env : Env σ C} {K : C → Prop} {p : Proc σ C} {h : List (LEv σ C)} {pos : Pos σ C} (hr : Runs p h pos)
    (hok : ∀ c ctx refs e, LEv.call c ctx refs ∈ h → LEv.ret c e ∈ h → ∃ outs, BigAll env K refs outs ∧ e = errJoin outs) :
    match pos with
    | .at q => ∀ e, Big env K q e → Big env K p e
    | .inCall c k => ∃ ctx refs, LEv.call c ctx refs ∈ h ∧
        ∀ outs, BigAll env K refs outs → ∀ e, Big env K (k (errJoin outs)) e → Big env K p e := by
  induction hr with
  | nil => exact fun _ h => h
  | act w _ ih =>
    have := ih fun c ctx refs e h1 h2 => hok c ctx refs e (List.mem_append_left _ h1) (List.mem_append_left _ h2)
    exact fun e he => this e (.act w he)
  | @call h ctx refs k c _ ih =>
    have := ih fun c ctx refs e h1 h2 => hok c ctx refs e (List.mem_append_left _ h1) (List.mem_append_left _ h2)
    exact ⟨ctx, refs, by simp, fun outs ho e he => this e (.call ho he)⟩
  | @ret h c k e _ ih =>
    obtain ⟨ctx, refs, h1, h2⟩ := ih fun c ctx refs e h1 h2 =>
      hok c ctx refs e (List.mem_append_left _ h1) (List.mem_append_left _ h2)
    obtain ⟨outs, ho, rfl⟩ := hok c ctx refs e (List.mem_append_left _ h1) (by simp)
    exact fun e he => h2 outs ho e he

/-- ... and all its calls have contexts in `K`. -/
theorem Runs.callsIn {K : C → Prop} {p : Proc σ C} {h : List (LEv σ C)} {pos : Pos σ C} (hr : Runs p h pos)
    (hp : CallsIn K p) : match pos with
    | .at q => CallsIn K q
    | .inCall _ k => ∀ e, CallsIn K (k e) := by
  induction hr with
  | nil => exact hp
  | act w _ ih => exact ih w
  | call c _ ih => exact ih.2
  | ret e _ ih => exact ih e

/-- What a log before an event `e` says about `e`. -/
def EvBig (env : Env σ C) (K : C → Prop) (l : List (Nat × Ev σ C)) (e : Nat × Ev σ C) : Prop :=
  match e.2 with
  | .call _ ctx _ => K ctx
  | .finish _ tgt raw => BigT env K tgt raw
  | .ret c e => ∀ t ctx refs, (t, Ev.call c ctx refs) ∈ l → ∃ outs, BigAll env K refs outs ∧ e = errJoin outs
  | _ => True

theorem evBig {env : Env σ C} {K : C → Prop} {w : σ} {cl : List (Proc σ C)} (ha : env.DistinctAddrs)
    (hb : ∀ o ctx, K ctx → CallsIn K (env.body o ctx)) (hc : ∀ p ∈ cl, CallsIn K p) {s : State σ C} (h : Reach env w cl s) :
    Always (EvBig env K) s.log := by
  intro l₁ e l₂ hl
  induction hn : l₁.length using Nat.strongRecOn generalizing l₁ e l₂ with
  | ind n ih =>
    subst hn
    have hs : ∀ {y}, y ∈ l₁ → y ∈ s.log := fun hy => sub_log hl hy
    have before : ∀ {y}, y ∈ l₁ → ∃ m₁ m₂, l₁ = m₁ ++ y :: m₂ ∧ EvBig env K m₁ y := by
      intro y hy
      obtain ⟨m₁, m₂, hm⟩ := List.append_of_mem hy
      exact ⟨m₁, m₂, hm, ih m₁.length (by rw [hm]; simp) m₁ y (m₂ ++ e :: l₂) (by rw [hl, hm]; simp) rfl⟩
    -- the calls of a goroutine so far have returned what they can
    have hret : ∀ t c ctx refs e, LEv.call c ctx refs ∈ hist t l₁ → LEv.ret c e ∈ hist t l₁ →
        ∃ outs, BigAll env K refs outs ∧ e = errJoin outs := by
      intro t c ctx refs e' h1 h2
      rw [mem_hist_call] at h1
      rw [mem_hist_ret] at h2
      obtain ⟨m₁, m₂, hm, hE⟩ := before h2
      have hl' : s.log = m₁ ++ (t, Ev.ret c e') :: (m₂ ++ e :: l₂) := by rw [hl, hm]; simp
      obtain ⟨ctx', refs', h3, -⟩ := h.evOk _ _ _ hl'
      obtain ⟨-, -, rfl⟩ := call_uniq h (sub_log hl' h3) (hs h1)
      exact hE _ _ _ h3
    -- contexts
    have hctx : ∀ {t c i key tgt ctx}, (t, Ev.start c i key tgt ctx) ∈ l₁ → K ctx := by
      intro t c i key tgt ctx hm
      obtain ⟨m₁, m₂, hm', -⟩ := before hm
      obtain ⟨-, t', refs, o, h1, -⟩ := h.evOk m₁ (t, Ev.start c i key tgt ctx) (m₂ ++ e :: l₂) (by rw [hl, hm']; simp)
      obtain ⟨_, _, -, hE⟩ := before (y := (t', Ev.call c ctx refs)) (by rw [hm']; exact List.mem_append_left _ h1)
      exact hE
    obtain ⟨t, ev⟩ := e
    cases ev <;> try trivial
    case call c ctx refs =>
      obtain ⟨p, k, hex, hr⟩ := h.evPath _ _ _ hl
      have hp : CallsIn K p := by
        rcases hex with ⟨c', i', key', tgt', ctx', hm, rfl⟩ | ⟨h1, -⟩
        · exact hb _ _ (hctx hm)
        · exact hc _ (List.mem_of_getElem? h1)
      exact (hr.callsIn hp).1
    case finish key tgt raw =>
      obtain ⟨c, i, ctx, hst, hr⟩ := finish_path h hl
      exact ⟨ctx, hctx hst, (hr.big (hret t)) raw (.ret raw)⟩
    case ret c e =>
      intro t' ctx refs hcall
      obtain ⟨ctx', refs', h1, outs, h2, h3, h4⟩ := C04_run_result h hl
      obtain ⟨-, -, rfl⟩ := call_uniq h (hs h1) (hs hcall)
      refine ⟨outs, bigAll_iff.2 ⟨h2, ?_⟩, ?_⟩
      · intro i r out hr ho
        have := h3 i r out hr ho
        cases r with
        | val n => cases this; exact .val n
        | ptr o =>
          rcases this with ⟨t₁, tgt, raw, hf, rfl⟩ | ⟨f, w', e, hf, hw, rfl, -⟩
          · obtain ⟨_, _, -, ctx₁, hK, hB⟩ := before hf
            rcases finish_tgt h (fun o' ho' => ha o' o ho') (hs hf) with ⟨hr', rfl⟩ | ⟨f, w', hr', hw'⟩
            · exact .direct hr' hK hB
            · exact .named hr' hw' hK hB
          · exact .unresolved hf hw
      · rw [h4]
        unfold errJoin
        split
        · rename_i hall
          have : outs.filterMap id = [] := by
            rw [List.filterMap_eq_nil_iff]; intro x hx; rw [hall x hx]; rfl
          rw [this]
        · rename_i hne
          split
          · rename_i hnil
            exfalso; apply hne
            intro x hx
            rw [List.filterMap_eq_nil_iff] at hnil
            exact hnil x hx
          · rename_i hx; rfl

/-- **C74, one result at a time.** Whatever the schedule and whatever else happens: what a target's `Run` method returns, and what a
call of `Controller.Run` returns, is something that naive evaluation can give. -/
theorem C74_sequential {env : Env σ C} {K : C → Prop} {w : σ} {cl : List (Proc σ C)} (ha : env.DistinctAddrs)
    (hb : ∀ o ctx, K ctx → CallsIn K (env.body o ctx)) (hc : ∀ p ∈ cl, CallsIn K p) {s : State σ C} (h : Reach env w cl s) :
    (∀ t key tgt raw, (t, Ev.finish key tgt raw) ∈ s.log → BigT env K tgt raw) ∧
    (∀ t t' c ctx refs e, (t, Ev.call c ctx refs) ∈ s.log → (t', Ev.ret c e) ∈ s.log →
      ∃ outs, BigAll env K refs outs ∧ e = errJoin outs) := by
  have hE := evBig ha hb hc h
  constructor
  · intro t key tgt raw hm
    obtain ⟨_, _, -, h1⟩ := hE.mem hm
    exact h1
  · intro t t' c ctx refs e h1 h2
    obtain ⟨l₁, l₂, hl, h3⟩ := hE.mem h2
    obtain ⟨ctx', refs', h4, -⟩ := h.evOk _ _ _ hl
    obtain ⟨-, -, rfl⟩ := call_uniq h (sub_log hl h4) h1
    exact h3 _ _ _ h4

/-! ## Steady targets -/

/-- The code `p` can return `e`, if each argument `r` of its calls of `Run` has the outcome `g r`. -/
inductive Ends (g : TRef → Option Err) : Proc σ C → Option Err → Prop
  | ret (e) : Ends g (.ret e) e
  | act {f k e} (w) : Ends g (k w) e → Ends g (.act f k) e
  | call {ctx refs k e} : Ends g (k (errJoin (refs.map g))) e → Ends g (.call ctx refs k) e

/-- What target `o` returns depends only on the outcomes of the targets that it runs: not on the world, nor on which of the
contexts in `K` it gets. -/
def Steady (env : Env σ C) (K : C → Prop) (o : Obj) : Prop :=
  ∀ g ctx ctx' e e', K ctx → K ctx' → Ends g (env.body o ctx) e → Ends g (env.body o ctx') e' → e = e'

/-- What a name stands for does not change. -/
def Env.FixedNames (env : Env σ C) : Prop := ∀ o f w w', env.resolve o = some f → (f w).2 = (f w').2

theorem reported_inj {t : Obj} {raw raw' : Option Err} (h : reported t raw = reported t raw') : raw = raw' := by
  cases raw <;> cases raw' <;> simp_all [reported]

theorem BigAll.map {env : Env σ C} {K : C → Prop} {g : TRef → Option Err} :
    ∀ {refs : List TRef} {outs}, BigAll env K refs outs → (∀ r ∈ refs, ∀ out, BigRef env K r out → out = g r) →
    outs = refs.map g
  | [], _, h, _ => by cases h; rfl
  | r :: rs, _, h, hg => by
    cases h with
    | cons h1 h2 =>
      rw [List.map_cons, hg r (by simp) _ h1, h2.map fun r' hr' => hg r' (by simp [hr'])]

theorem Big.ends {env : Env σ C} {K : C → Prop} {g : TRef → Option Err} {lt : Addr → Prop}
    (hg : ∀ r, (∀ o, r = .ptr o → lt (env.addr o)) → ∀ out, BigRef env K r out → out = g r)
    {p : Proc σ C} {e : Option Err} (hB : p.Below env.addr lt) (h : Big env K p e) : Ends g p e := by
  induction p generalizing e with
  | ret e' => cases h; exact .ret _
  | act f k ih => cases h with | act w h => exact .act w (ih w (hB w) h)
  | call ctx refs k ih =>
    cases h with
    | call h1 h2 =>
      refine .call ?_
      have := h1.map (g := g) fun r hr out ho => hg r (fun o ho' => hB.1 o (by rw [← ho']; exact hr)) out ho
      rw [← this]
      exact ih _ (hB.2 _) h2

theorem bigRef_val {env : Env σ C} {K : C → Prop} {n : Nat} {out : Option Err} (h : BigRef env K (.val n) out) :
    out = some (.notPointer n) := by cases h; rfl

/-- Naive evaluation of steady targets without cycles has one result. -/
theorem bigRef_unique {env : Env σ C} {K : C → Prop} {dep : Addr → Addr → Prop} (wf : WellFounded dep) (hdep : env.Respects dep)
    (hn : env.FixedNames) (hs : ∀ o, Steady env K o) :
    ∀ a o, env.addr o = a → ∀ out out', BigRef env K (.ptr o) out → BigRef env K (.ptr o) out' → out = out' := by
  classical
  intro a
  induction a using wf.induction with
  | _ a ih =>
    rintro o rfl out out' h1 h2
    -- the outcomes of the targets below
    let g : TRef → Option Err := fun r => if h : ∃ out, BigRef env K r out then h.choose else none
    have hg : ∀ r, (∀ o', r = .ptr o' → dep (env.addr o') (env.addr o)) → ∀ out, BigRef env K r out → out = g r := by
      intro r hr out ho
      have hex : ∃ out, BigRef env K r out := ⟨out, ho⟩
      have hgr : g r = hex.choose := dif_pos hex
      rw [hgr]
      cases r with
      | val n => exact (bigRef_val ho).trans (bigRef_val hex.choose_spec).symm
      | ptr o' => exact ih _ (hr o' rfl) o' rfl _ _ ho hex.choose_spec
    have key : ∀ {t raw raw' ctx ctx'}, env.CanRun o t → K ctx → K ctx' → Big env K (env.body t ctx) raw →
        Big env K (env.body t ctx') raw' → raw = raw' := fun hr k1 k2 b1 b2 =>
      hs _ g _ _ _ _ k1 k2 (b1.ends hg (hdep _ _ _ hr)) (b2.ends hg (hdep _ _ _ hr))
    cases h1 with
    | unresolved r1 e1 =>
      cases h2 with
      | unresolved r2 e2 =>
        rw [r1] at r2; cases r2; have := hn _ _ _ _ r1 |>.symm.trans e1 |>.symm.trans e2
        simpa using this
      | named r2 e2 => rw [r1] at r2; cases r2; have := hn _ _ _ _ r1 |>.symm.trans e1 |>.symm.trans e2; simp at this
      | direct r2 => rw [r1] at r2; cases r2
    | @named _ f w t ctx raw r1 e1 k1 b1 =>
      cases h2 with
      | unresolved r2 e2 => rw [r1] at r2; cases r2; have := hn _ _ _ _ r1 |>.symm.trans e1 |>.symm.trans e2; simp at this
      | @named _ f' w' t' ctx' raw' r2 e2 k2 b2 =>
        rw [r1] at r2; cases r2
        have := hn _ _ _ _ r1 |>.symm.trans e1 |>.symm.trans e2
        simp at this; subst this
        rw [key (Or.inr ⟨f, w, r1, e1⟩) k1 k2 b1 b2]
      | direct r2 => rw [r1] at r2; cases r2
    | @direct _ ctx raw r1 k1 b1 =>
      cases h2 with
      | unresolved r2 e2 => rw [r1] at r2; cases r2
      | named r2 => rw [r1] at r2; cases r2
      | direct r2 k2 b2 => rw [key (Or.inl ⟨r1, rfl⟩) k1 k2 b1 b2]

/-- **C74** If the targets do not depend on each other in a cycle, what each returns depends only on what the targets that it runs
return, and names stand for fixed targets, then any two executions agree, whatever their schedules, their worlds, what
happens in these meanwhile, and what else is run: calls of `Run` with the same targets return the same, and a
target that is run in both returns the same in both. -/
theorem C74_schedule_independent {env : Env σ C} {K : C → Prop} {dep : Addr → Addr → Prop} (wf : WellFounded dep)
    (hdep : env.Respects dep) (ha : env.DistinctAddrs) (hn : env.FixedNames) (hs : ∀ o, Steady env K o)
    (hb : ∀ o ctx, K ctx → CallsIn K (env.body o ctx))
    {w w' : σ} {cl cl' : List (Proc σ C)} (hc : ∀ p ∈ cl, CallsIn K p) (hc' : ∀ p ∈ cl', CallsIn K p)
    {s s' : State σ C} (h : Reach env w cl s) (h' : Reach env w' cl' s') :
    (∀ t₁ t₂ t₃ t₄ c c' ctx ctx' refs e e', (t₁, Ev.call c ctx refs) ∈ s.log → (t₂, Ev.ret c e) ∈ s.log →
      (t₃, Ev.call c' ctx' refs) ∈ s'.log → (t₄, Ev.ret c' e') ∈ s'.log → e = e') ∧
    (∀ t t' key key' tgt raw raw', (t, Ev.finish key tgt raw) ∈ s.log → (t', Ev.finish key' tgt raw') ∈ s'.log → raw = raw') := by
  have hu := bigRef_unique wf hdep hn hs
  constructor
  · intro t₁ t₂ t₃ t₄ c c' ctx ctx' refs e e' h1 h2 h3 h4
    obtain ⟨outs, h5, rfl⟩ := (C74_sequential ha hb hc h).2 _ _ _ _ _ _ h1 h2
    obtain ⟨outs', h6, rfl⟩ := (C74_sequential ha hb hc' h').2 _ _ _ _ _ _ h3 h4
    congr 1
    clear h1 h2 h3 h4
    induction refs generalizing outs outs' with
    | nil => cases h5; cases h6; rfl
    | cons r rs ih =>
      cases h5 with
      | cons a1 a2 =>
        cases h6 with
        | cons b1 b2 =>
          congr 1
          · cases r with
            | val n => cases a1; cases b1; rfl
            | ptr o => exact hu _ o rfl _ _ a1 b1
          · exact ih _ a2 _ b2
  · intro t t' key key' tgt raw raw' h1 h2
    obtain ⟨ctx, k1, b1⟩ := (C74_sequential ha hb hc h).1 _ _ _ _ h1
    obtain ⟨ctx', k2, b2⟩ := (C74_sequential ha hb hc' h').1 _ _ _ _ h2
    -- the target was run for some reference
    obtain ⟨l₁, l₂, hl, c, i, ctx₁, hst⟩ := h.evOk.mem h1
    obtain ⟨_, _, o, -, -, -, h4, h5⟩ := start_ok h (sub_log hl hst)
    cases hr : env.resolve o with
    | none =>
      have := h4 hr; subst this
      exact reported_inj (hu _ tgt rfl _ _ (.direct hr k1 b1) (.direct hr k2 b2))
    | some f =>
      obtain ⟨w₁, hw⟩ := h5 f hr
      exact reported_inj (hu _ o rfl _ _ (.named hr hw k1 b1) (.named hr hw k2 b2))

/-! ## The combinators are steady -/

theorem Ends.call_inv {g : TRef → Option Err} {ctx : C} {refs} {k : Option Err → Proc σ C} {e} (h : Ends g (.call ctx refs k) e) :
    Ends g (k (errJoin (refs.map g))) e := by cases h with | call h => exact h
theorem Ends.ret_inv {g : TRef → Option Err} {e e' : Option Err} (h : Ends (σ := σ) (C := C) g (.ret e) e') : e' = e := by
  cases h; rfl

/-- **C74** `All`, `Seq` and `ArgTarget` are steady, and so is every target that runs no others and always returns the same. -/
theorem C74_all_steady {env : Env σ C} {K : C → Prop} {o : Obj} {refs : List TRef} (h : ∀ ctx, env.body o ctx = allBody refs ctx) :
    Steady env K o := by
  intro g ctx ctx' e e' _ _ h1 h2
  rw [h] at h1 h2
  rw [h1.call_inv.ret_inv, h2.call_inv.ret_inv]

theorem seqBody_ends {g : TRef → Option Err} : ∀ {refs : List TRef} {ctx ctx' : C} {e e'},
    Ends (σ := σ) g (seqBody refs ctx) e → Ends (σ := σ) g (seqBody refs ctx') e' → e = e'
  | [], _, _, _, _, h1, h2 => by
    simp only [seqBody] at h1 h2
    rw [h1.ret_inv, h2.ret_inv]
  | r :: rs, ctx, ctx', e, e', h1, h2 => by
    simp only [seqBody] at h1 h2
    have a := h1.call_inv
    have b := h2.call_inv
    cases hj : errJoin ([r].map g) with
    | some x =>
      simp only [hj] at a b
      rw [a.ret_inv, b.ret_inv]
    | none =>
      simp only [hj] at a b
      exact seqBody_ends a b

theorem C74_seq_steady {env : Env σ C} {K : C → Prop} {o : Obj} {refs : List TRef} (h : ∀ ctx, env.body o ctx = seqBody refs ctx) :
    Steady env K o := by
  intro g ctx ctx' e e' _ _ h1 h2
  rw [h] at h1 h2
  exact seqBody_ends h1 h2

theorem C74_arg_steady {env : Env σ Ctx} {K : Ctx → Prop} {o : Obj} {r : TRef} {args} (h : ∀ ctx, env.body o ctx = argBody r args ctx) :
    Steady env K o := by
  intro g ctx ctx' e e' _ _ h1 h2
  rw [h] at h1 h2
  rw [h1.call_inv.ret_inv, h2.call_inv.ret_inv]

/-! ## A concrete case -/

namespace DetDemo

/-- Target 0 is `All(1, 2, 4)`, target 1 is `Seq(3, 2)`; 2 and 3 count in the world, 2 fails; 4 is a name for 3. -/
def env : Env Nat Unit where
  addr o := o
  resolve o := if o = 4 then some fun w => (w, .ok 3) else none
  body o ctx := match o with
    | 0 => allBody [.ptr 1, .ptr 2, .ptr 4] ctx
    | 1 => seqBody [.ptr 3, .ptr 2] ctx
    | 2 => .act (· + 1) fun _ => .ret (some (.atom 7))
    | _ => .act (· * 2) fun _ => .ret none

theorem steady (K : Unit → Prop) (o : Obj) : Steady env K o := by
  match o with
  | 0 => exact C74_all_steady fun _ => rfl
  | 1 => exact C74_seq_steady fun _ => rfl
  | 2 => intro g ctx ctx' e e' _ _ h1 h2; cases h1 with | act w h1 => cases h2 with | act w' h2 => rw [h1.ret_inv, h2.ret_inv]
  | n + 3 => intro g ctx ctx' e e' _ _ h1 h2; cases h1 with | act w h1 => cases h2 with | act w' h2 => rw [h1.ret_inv, h2.ret_inv]

/-- which targets may be asked for: 4 is a name for 3, so 3 and 4 ask for nothing -/
def dep (a b : Addr) : Prop := (b = 0 ∧ (a = 1 ∨ a = 2 ∨ a = 4)) ∨ (b = 1 ∧ (a = 3 ∨ a = 2))

theorem dep_wf : WellFounded dep := by
  refine Subrelation.wf (r := fun a b => (fun x : Nat => if x = 0 then 2 else if x = 1 then 1 else 0) a < (fun x : Nat => if x = 0 then 2 else if x = 1 then 1 else 0) b) ?_
    (InvImage.wf _ Nat.lt_wfRel.wf)
  rintro a b (⟨rfl, rfl | rfl | rfl⟩ | ⟨rfl, rfl | rfl⟩) <;> decide

theorem respects : env.Respects dep := by
  intro o t ctx h
  have ht : o = 4 ∧ t = 3 ∨ t = o := by
    rcases h with ⟨-, rfl⟩ | ⟨f, w, h1, h2⟩
    · exact Or.inr rfl
    · simp only [env] at h1
      split at h1
      · rename_i ho; cases h1; cases h2; exact Or.inl ⟨ho, rfl⟩
      · cases h1
  have leaf : ∀ n lt, ((env.body (n + 3) ctx).Below env.addr lt) := fun n lt w => trivial
  rcases ht with ⟨rfl, rfl⟩ | rfl
  · exact leaf 0 _
  · match t with
    | 0 => exact ⟨by simp [env, dep], fun e => trivial⟩
    | 1 =>
      refine ⟨by simp [env, dep], fun e => ?_⟩
      cases e with
      | some e => trivial
      | none => exact ⟨by simp [env, dep], fun e => by cases e <;> trivial⟩
    | 2 => exact fun w => trivial
    | n + 3 => exact leaf n _

/-- There are executions, with different schedules and different worlds in the end, in which all calls return. -/
example : (∃ s, Reach env 1 [.call () [.ptr 0] .ret] s ∧ retsN s.log = 4 ∧ s.world = 8) ∧
    ∃ s, Reach env 1 [.call () [.ptr 0] .ret] s ∧ retsN s.log = 4 ∧ s.world = 5 := by
  constructor
  · exact ⟨runSched env (init 1 [.call () [.ptr 0] .ret]) (Demo.sched 40 7), runSched_reach _ .init, by decide +kernel, by decide +kernel⟩
  · exact ⟨runSched env (init 1 [.call () [.ptr 0] .ret]) ((([0, 1, 4, 2, 5].map (List.replicate 9)).flatten ++ (List.replicate 40 [6, 5, 4, 3, 2, 1, 0]).flatten).map .thread), runSched_reach _ .init, by decide +kernel, by decide +kernel⟩

/-- C74: the hypotheses are met. -/
example : WellFounded dep ∧ env.Respects dep ∧ env.DistinctAddrs ∧ env.FixedNames ∧ (∀ o, Steady env (fun _ => True) o) ∧
    (∀ o ctx, CallsIn (fun _ => True) (env.body o ctx)) := by
  refine ⟨dep_wf, respects, fun _ _ h => h, ?_, steady _, ?_⟩
  · intro o f w w' h
    simp only [env] at h
    split at h
    · cases h; rfl
    · cases h
  · intro o ctx
    match o with
    | 0 => exact ⟨trivial, fun _ => trivial⟩
    | 1 => exact ⟨trivial, fun e => by cases e with
      | some e => exact trivial
      | none => exact ⟨trivial, fun e => by cases e <;> exact trivial⟩⟩
    | 2 => exact fun _ => trivial
    | n + 3 => exact fun _ => trivial

end DetDemo

end Fab.Runner
