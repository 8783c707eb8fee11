import Verif.Runner.Props
import Mathlib.Logic.Hydra

/-!
# The runner: C05 (no deadlock, termination)
-/

namespace Fab.Runner
variable {σ C : Type}

/-! ## Specification -/

/-- Every target that `p` may ask for, on any path, has an address satisfying `lt`. -/
def Proc.Below (addr : Obj → Addr) (lt : Addr → Prop) : Proc σ C → Prop
  | .ret _ => True
  | .act _ k => ∀ w, (k w).Below addr lt
  | .call _ refs k => (∀ o, .ptr o ∈ refs → lt (addr o)) ∧ ∀ e, (k e).Below addr lt

/-- Reference `o` can lead to running target `t`. -/
def Env.CanRun (env : Env σ C) (o t : Obj) : Prop :=
  (env.resolve o = none ∧ t = o) ∨ ∃ f w, env.resolve o = some f ∧ (f w).2 = .ok t

/-- The dependency relation `dep a b` ("the target at `b` may ask for the one at `a`") covers every request made by a
target body. -/
def Env.Respects (env : Env σ C) (dep : Addr → Addr → Prop) : Prop :=
  ∀ o t ctx, env.CanRun o t → (env.body t ctx).Below env.addr (fun a => dep a (env.addr o))

/-- An infinite execution: `s n` is the state after `n` steps. -/
def Infinite (env : Env σ C) (s : Nat → State σ C) (l : Nat → Label σ) : Prop :=
  ∀ n, lstep env (s n) (l n) = some (s (n + 1))

def Label.isThread : Label σ → Prop
  | .thread _ => True
  | .extern _ => False

/-! ## Bodies only ask below their own address -/

def below (dep : Addr → Addr → Prop) (jb : Option (Job C)) (a : Addr) : Prop :=
  match jb with
  | some j => dep a j.key
  | none => True

/-- The rest of the body of a goroutine. -/
def TSt.Below (addr : Obj → Addr) (lt : Addr → Prop) : TSt σ C → Prop
  | .exec p => p.Below addr lt
  | .spawning _ _ _ _ k => ∀ e, (k e).Below addr lt
  | .joining _ k => ∀ e, (k e).Below addr lt
  | _ => True

structure InvBelow (env : Env σ C) (dep : Addr → Addr → Prop) (s : State σ C) : Prop where
  st : ∀ (t : Nat) (jb : Option (Job C)) (st : TSt σ C), s.th t = some ⟨jb, st⟩ → st.Below env.addr (below dep jb)
  refs : ∀ (t : Nat) (jb : Option (Job C)) (st : TSt σ C) (c t' ctx refs), s.th t = some ⟨jb, st⟩ → st.within c = true →
    s.hdr c = some (t', ctx, refs) → ∀ o, .ptr o ∈ refs → below dep jb (env.addr o)

theorem Proc.Below.true (addr : Obj → Addr) (p : Proc σ C) : p.Below addr (fun _ => True) := by
  induction p with
  | ret => trivial
  | act f k ih => exact ih
  | call ctx refs k ih => exact ⟨fun _ _ => trivial, ih⟩

theorem InvBelow.step {env : Env σ C} {dep : Addr → Addr → Prop} (hr : env.Respects dep) {s s' : State σ C} {tid th}
    (ic : InvC env s) (ih : InvBelow env dep s) (hth : s.th tid = some th) (h : StepC env s tid th s') :
    InvBelow env dep s' := by
  obtain ⟨st0, refs⟩ := ih
  obtain ⟨jb, st⟩ := th
  have hnone : s.th s.threads.length = none := by simp [State.th]
  have hclnone : s.hdr s.calls.length = none := by simp [State.hdr, cl_length]
  have hwh := fun t jb st c h => ic.withinHdr (c := c) (t := t) (jb := jb) (st := st) h
  have e0 := st0 tid jb st hth
  have r0 := refs tid jb st
  cases h
  case lookupNew j h1 h2 h3 =>
    dsimp only at h1 h2; subst h1 h2
    have hb : (env.body j.tgt j.ctx).Below env.addr (below dep (some j)) := by
      obtain ⟨x, o, a1, a2, a3, a4, a5, a6⟩ := ic.job _ _ _ hth
      have : env.CanRun o j.tgt := by
        cases hres : env.resolve o with
        | none => exact Or.inl ⟨hres, a5 hres⟩
        | some f => obtain ⟨w, hw⟩ := a6 f hres; exact Or.inr ⟨f, w, hres, hw⟩
      have := hr o j.tgt j.ctx this
      rw [a3] at this
      exact this
    constructor <;> simp only [th_set hth, hdr_same]
    · intro t jb' st' h
      split at h
      · cases h; exact hb
      · exact st0 _ _ _ h
    · grind [TSt.within]
  all_goals
    simp only at *
    subst_vars
    constructor <;> simp only [th_set hth, th_set_snoc hth, hdr_same, hdr_live _ (· + 1), hdr_live _ (· - 1), hdr_set, hdr_snoc]
    · intro t jb' st' h
      split at h
      · cases h
        first
          | trivial
          | exact e0
          | exact e0 _
          | exact e0.2
          | exact e0.2 _
      · first
          | exact st0 _ _ _ h
          | (split at h
             · cases h; trivial
             · exact st0 _ _ _ h)
    · grind [TSt.within, TSt.Below, Proc.Below]

theorem Reach.belowInv {env : Env σ C} {dep : Addr → Addr → Prop} (hr : env.Respects dep) {w : σ} {cl : List (Proc σ C)}
    {s : State σ C} (h : Reach env w cl s) : InvBelow env dep s := by
  induction h with
  | init =>
    constructor <;> simp [Runner.init, State.th]
    · rintro t jb p p' hp rfl rfl
      exact Proc.Below.true _ _
    · simp [State.hdr, State.cl]
  | @step s s' l hre hs ih =>
    cases l with
    | thread tid =>
      obtain ⟨th, hth, hc⟩ := step_cases hs
      exact ih.step hr hre.inv.c hth hc
    | extern f =>
      simp only [lstep, Option.some.injEq] at hs
      subst hs
      exact ⟨ih.1, ih.2⟩

/-! ## Deadlock freedom -/

/-- A goroutine that is not finished can move, or waits for an outcome, or waits for an unfinished goroutine of its
own call. -/
theorem step_or_blocked {env : Env σ C} {s : State σ C} (i : Inv env s) {t : Nat} {jb : Option (Job C)} {st : TSt σ C}
    (ht : s.th t = some ⟨jb, st⟩) (hd : st.isDone = false) :
    (∃ s', step env s t = some s') ∨
    (st = .waiting ∧ ∃ j e ow, jb = some j ∧ s.ran j.key = some ⟨e, false, ow⟩) ∨
    (∃ c k, st = .joining c k ∧ ∃ t' j' st', s.th t' = some ⟨some j', st'⟩ ∧ j'.call = c ∧ st'.isDone = false) := by
  have ht' : s.threads[t]? = some ⟨jb, st⟩ := ht
  cases jb with
  | none =>
    have hcl := i.a.client t st ht
    cases st <;> simp [TSt.inBody, TSt.isDone] at hcl hd
    case exec p =>
      left; cases p with
      | ret e => exact ⟨_, by simp only [step, ht']; rfl⟩
      | act f k => exact ⟨_, by simp only [step, ht']; rfl⟩
      | call ctx refs k => cases refs <;> exact ⟨_, by simp only [step, ht']; rfl⟩
    case spawning c i ctx todo k =>
      left; cases todo <;> exact ⟨_, by simp only [step, ht']; rfl⟩
    case joining c k =>
      obtain ⟨x, hx, -⟩ := i.c.join _ _ _ _ ht
      by_cases hl : x.live = 0
      · left
        have hx' : s.calls[c]? = some x := hx
        exact ⟨_, by simp only [step, ht', hx', hl, if_true]; rfl⟩
      · right; right
        refine ⟨c, k, rfl, ?_⟩
        have := i.d.live c x hx
        have hpos : 0 < s.threads.countP (Thread.liveIn c) := by omega
        obtain ⟨⟨jb', st'⟩, hm, hp⟩ := List.countP_pos_iff.1 hpos
        obtain ⟨t', ht'⟩ := List.mem_iff_getElem?.1 hm
        cases jb' with
        | none => simp [Thread.liveIn] at hp
        | some j' =>
          simp [Thread.liveIn] at hp
          exact ⟨t', j', st', ht', hp.1, hp.2⟩
  | some j =>
    cases st <;> simp [TSt.isDone] at hd
    case lookup =>
      left
      cases hr : s.ran j.key <;> exact ⟨_, by simp only [step, ht', hr]; rfl⟩
    case waiting =>
      obtain ⟨o, ho⟩ := Option.ne_none_iff_exists'.1 (i.a.wait _ _ ht)
      obtain ⟨e, op, ow⟩ := o
      cases op with
      | true => left; exact ⟨_, by simp only [step, ht', ho, if_true]; rfl⟩
      | false => right; left; exact ⟨rfl, j, e, ow, rfl, ho⟩
    case readOut =>
      obtain ⟨e, o, ho⟩ := i.a.settled _ _ _ ht rfl
      left; exact ⟨_, by simp only [step, ht', ho]; rfl⟩
    case exec p =>
      left; cases p with
      | ret e => exact ⟨_, by simp only [step, ht']; rfl⟩
      | act f k => exact ⟨_, by simp only [step, ht']; rfl⟩
      | call ctx refs k => cases refs <;> exact ⟨_, by simp only [step, ht']; rfl⟩
    case spawning c i ctx todo k =>
      left; cases todo <;> exact ⟨_, by simp only [step, ht']; rfl⟩
    case joining c k =>
      obtain ⟨x, hx, -⟩ := i.c.join _ _ _ _ ht
      by_cases hl : x.live = 0
      · left
        have hx' : s.calls[c]? = some x := hx
        exact ⟨_, by simp only [step, ht', hx', hl, if_true]; rfl⟩
      · right; right
        refine ⟨c, k, rfl, ?_⟩
        have := i.d.live c x hx
        have hpos : 0 < s.threads.countP (Thread.liveIn c) := by omega
        obtain ⟨⟨jb', st'⟩, hm, hp⟩ := List.countP_pos_iff.1 hpos
        obtain ⟨t', ht'⟩ := List.mem_iff_getElem?.1 hm
        cases jb' with
        | none => simp [Thread.liveIn] at hp
        | some j' =>
          simp [Thread.liveIn] at hp
          exact ⟨t', j', st', ht', hp.1, hp.2⟩
    case setErrs e => left; exact ⟨_, by simp only [step, ht']; rfl⟩
    case setOut e =>
      obtain ⟨e', ho⟩ := i.a.own _ _ _ ht rfl
      left; exact ⟨_, by simp only [step, ht', ho]; rfl⟩
    case openGate e =>
      obtain ⟨e', ho⟩ := i.a.own _ _ _ ht rfl
      left; exact ⟨_, by simp only [step, ht', ho]; rfl⟩
    case wgDone => left; exact ⟨_, by simp only [step, ht']; rfl⟩

/-- A child of a call made by `jb` is below `jb`. -/
theorem child_below {env : Env σ C} {dep : Addr → Addr → Prop} {s : State σ C} (i : Inv env s) (ib : InvBelow env dep s)
    {t t' : Nat} {jb : Option (Job C)} {st st' : TSt σ C} {c : Nat} {j' : Job C} (ht : s.th t = some ⟨jb, st⟩)
    (hw : st.within c = true) (ht' : s.th t' = some ⟨some j', st'⟩) (hc : j'.call = c) : below dep jb j'.key := by
  obtain ⟨t₁, refs, o, h1, h2, h3, -⟩ := jobHdr i.c ht'
  rw [hc] at h1
  rw [← h3]
  exact ib.refs _ _ _ _ _ _ _ ht hw h1 o (List.mem_of_getElem? h2)

theorem progress_key {env : Env σ C} {dep : Addr → Addr → Prop} (wf : WellFounded dep) {s : State σ C}
    (i : Inv env s) (ib : InvBelow env dep s) (a : Addr) :
    ∀ (t : Nat) (j : Job C) (st : TSt σ C), s.th t = some ⟨some j, st⟩ → st.isDone = false → j.key = a →
      ∃ t' s', step env s t' = some s' := by
  induction a using wf.induction with
  | _ a ih =>
    -- first for the goroutine that runs the target
    have owner : ∀ (t : Nat) (j : Job C) (st : TSt σ C), s.th t = some ⟨some j, st⟩ → st.owning = true → j.key = a →
        ∃ t' s', step env s t' = some s' := by
      intro t j st ht ho hk
      rcases step_or_blocked i ht (by cases st <;> simp_all [TSt.owning, TSt.isDone]) with
        ⟨s', hs⟩ | ⟨rfl, -⟩ | ⟨c, k, rfl, t', j', st', h1, h2, h3⟩
      · exact ⟨t, s', hs⟩
      · simp [TSt.owning] at ho
      · have hb : below dep (some j) j'.key := child_below i ib ht (by simp [TSt.within]) h1 h2
        simp only [below, hk] at hb
        exact ih j'.key hb t' j' st' h1 h3 rfl
    intro t j st ht hd hk
    rcases step_or_blocked i ht hd with ⟨s', hs⟩ | ⟨rfl, j₀, e, ow, hj, hr⟩ | ⟨c, k, rfl, -⟩
    · exact ⟨t, s', hs⟩
    · cases hj
      obtain ⟨j₁, st₁, h1, h2, h3⟩ := i.a.hasOwner _ _ _ hr
      exact owner ow j₁ st₁ h1 h2 (h3.trans hk)
    · exact owner t j _ ht (by simp [TSt.owning]) hk

/-- **C05, no deadlock.** If the dependency relation between targets is well-founded (for a finite target graph: it
has no cycle), then in every reachable state in which some goroutine has not finished, some goroutine can move. -/
theorem C05_no_deadlock {env : Env σ C} {dep : Addr → Addr → Prop} (wf : WellFounded dep) (hdep : env.Respects dep)
    {w : σ} {cl : List (Proc σ C)} {s : State σ C} (h : Reach env w cl s)
    (hlive : ∃ t : Nat, ∃ th : Thread σ C, s.threads[t]? = some th ∧ th.st.isDone = false) :
    ∃ t s', step env s t = some s' := by
  obtain ⟨t, ⟨jb, st⟩, ht, hd⟩ := hlive
  have i := h.inv
  have ib := h.belowInv hdep
  cases jb with
  | some j => exact progress_key wf i ib j.key t j st ht hd rfl
  | none =>
    rcases step_or_blocked i ht hd with ⟨s', hs⟩ | ⟨-, j, e, ow, hj, -⟩ | ⟨c, k, rfl, t', j', st', h1, h2, h3⟩
    · exact ⟨t, s', hs⟩
    · cases hj
    · exact progress_key wf i ib j'.key t' j' st' h1 h3 rfl

/-- When nothing can move any more, every call of `Run` has returned. -/
theorem C05_stuck_means_all_returned {env : Env σ C} {dep : Addr → Addr → Prop} (wf : WellFounded dep)
    (hdep : env.Respects dep) {w : σ} {cl : List (Proc σ C)} {s : State σ C} (h : Reach env w cl s)
    (hstuck : ∀ t, step env s t = none) : callsN s.log = retsN s.log ∧ s.depth = 0 := by
  have hall : ∀ th ∈ s.threads, th.st.isDone = true := by
    intro th hm
    cases hb : th.st.isDone with
    | true => rfl
    | false =>
      obtain ⟨t, ht⟩ := List.mem_iff_getElem?.1 hm
      obtain ⟨t', s', hs⟩ := C05_no_deadlock wf hdep h ⟨t, th, ht, hb⟩
      rw [hstuck t'] at hs; cases hs
  have h0 : s.depth = 0 := by
    rw [C11_depth_threads h, List.countP_eq_zero]
    intro th hm
    have := hall th hm
    cases hst : th.st <;> simp [hst, TSt.isDone, TSt.inCall] at *
  have := (C11_depth h).1
  omega

/-! ## Termination -/

/-- The shape of a body, without the data that does not matter for termination. -/
inductive Tree (σ : Type) where
  | leaf
  | act (k : σ → Tree σ)
  | call (k : Option Err → Tree σ)

def Proc.tree : Proc σ C → Tree σ
  | .ret _ => .leaf
  | .act _ k => .act fun w => (k w).tree
  | .call _ _ k => .call fun e => (k e).tree

/-- Immediate subtree. -/
inductive Sub : Tree σ → Tree σ → Prop where
  | act (k : σ → Tree σ) (w : σ) : Sub (k w) (.act k)
  | call (k : Option Err → Tree σ) (e : Option Err) : Sub (k e) (.call k)

theorem Sub.wf : WellFounded (Sub (σ := σ)) := by
  constructor
  intro t
  induction t with
  | leaf => constructor; intro y h; cases h
  | act k ih => constructor; intro y h; cases h; exact ih _
  | call k ih => constructor; intro y h; cases h; exact ih _

/-- `dep` with the clients on top. -/
def topRel (dep : Addr → Addr → Prop) : Option Addr → Option Addr → Prop
  | some a, some b => dep a b
  | some _, none => True
  | none, _ => False

theorem topRel.wf {dep : Addr → Addr → Prop} (h : WellFounded dep) : WellFounded (topRel dep) := by
  have hs : ∀ a, Acc (topRel dep) (some a) := by
    intro a
    induction a using h.induction with
    | _ a ih =>
      constructor
      rintro (_ | b) hb
      · cases hb
      · exact ih b hb
  constructor
  rintro (_ | a)
  · constructor
    rintro (_ | b) hb
    · cases hb
    · exact hs b
  · exact hs a

/-- How far a goroutine still has to go. -/
def TSt.meas : TSt σ C → Nat × Tree σ × Nat
  | .lookup => (3, .leaf, 0)
  | .waiting => (2, .leaf, 0)
  | .exec (.call ctx refs k) => (1, (Proc.call ctx refs k).tree, refs.length + 3)
  | .exec p => (1, p.tree, 0)
  | .spawning _ _ _ todo k => (1, .call fun e => (k e).tree, todo.length + 2)
  | .joining _ k => (1, .call fun e => (k e).tree, 1)
  | .setErrs _ => (0, .leaf, 4)
  | .setOut _ => (0, .leaf, 3)
  | .openGate _ => (0, .leaf, 2)
  | .readOut => (0, .leaf, 2)
  | .wgDone => (0, .leaf, 1)
  | .done => (0, .leaf, 0)

abbrev Meas (σ : Type) := Option Addr × Nat × Tree σ × Nat

def Thread.meas (th : Thread σ C) : Meas σ := (th.job.map (·.key), th.st.meas)

def localRel : (Nat × Tree σ × Nat) → (Nat × Tree σ × Nat) → Prop :=
  Prod.Lex (· < ·) (Prod.Lex Sub (· < ·))

def measRel (dep : Addr → Addr → Prop) : Meas σ → Meas σ → Prop :=
  Prod.Lex (topRel dep) localRel

theorem measRel.wf {dep : Addr → Addr → Prop} (h : WellFounded dep) : WellFounded (measRel (σ := σ) dep) :=
  WellFounded.prod_lex (topRel.wf h) (WellFounded.prod_lex Nat.lt_wfRel.wf (WellFounded.prod_lex Sub.wf Nat.lt_wfRel.wf))

def State.meas (s : State σ C) : Multiset (Meas σ) := (s.threads.map Thread.meas : List (Meas σ))

theorem meas_set {dep : Addr → Addr → Prop} {s : State σ C} {tid : Nat} {th x : Thread σ C} {extra : List (Thread σ C)}
    (hth : s.th tid = some th) (hx : measRel dep x.meas th.meas) (he : ∀ y ∈ extra, measRel dep y.meas th.meas) :
    Relation.CutExpand (measRel (σ := σ) dep)
      (((s.threads.set tid x ++ extra).map Thread.meas : List (Meas σ)) : Multiset (Meas σ)) s.meas := by
  refine ⟨((x :: extra).map Thread.meas : List (Meas σ)), th.meas, ?_, ?_⟩
  · intro a ha
    simp only [Multiset.mem_coe, List.mem_map, List.mem_cons] at ha
    obtain ⟨y, rfl | hy, rfl⟩ := ha
    · exact hx
    · exact he y hy
  · unfold State.meas
    unfold State.th at hth
    obtain ⟨hlt, hget⟩ := List.getElem?_eq_some_iff.1 hth
    rw [← Multiset.coe_singleton, Multiset.coe_add, Multiset.coe_add, Multiset.coe_eq_coe]
    have h1 : s.threads.set tid x = s.threads.take tid ++ x :: s.threads.drop (tid + 1) :=
      List.set_eq_take_append_cons_drop .. |>.trans (by simp [hlt])
    have h2 : s.threads = s.threads.take tid ++ th :: s.threads.drop (tid + 1) := by
      conv_lhs => rw [← List.take_append_drop tid s.threads]
      rw [List.drop_eq_getElem_cons hlt, hget]
    rw [h1]
    conv_rhs => rw [h2]
    generalize s.threads.take tid = A
    generalize s.threads.drop (tid + 1) = B
    have : List.Perm ((A ++ x :: B ++ extra) ++ [th]) ((A ++ th :: B) ++ (x :: extra)) := by
      classical
      rw [List.perm_iff_count]
      intro a
      simp [List.count_cons]
      omega
    simpa using this.map Thread.meas

theorem meas_exec (p : Proc σ C) : ∃ n, (TSt.exec p).meas = (1, p.tree, n) := by
  cases p <;> exact ⟨_, rfl⟩

theorem meas_step {env : Env σ C} {dep : Addr → Addr → Prop} {s s' : State σ C} {tid th} (i : Inv env s)
    (ib : InvBelow env dep s) (hth : s.th tid = some th) (h : StepC env s tid th s') :
    Relation.CutExpand (measRel (σ := σ) dep) s'.meas s.meas := by
  obtain ⟨jb, st⟩ := th
  have key : ∀ st', localRel (TSt.meas st') (TSt.meas st) →
      Relation.CutExpand (measRel (σ := σ) dep)
        (((s.threads.set tid ⟨jb, st'⟩).map Thread.meas : List (Meas σ)) : Multiset (Meas σ)) s.meas := by
    intro st' hl
    have := meas_set (dep := dep) (extra := []) (x := ⟨jb, st'⟩) hth (Prod.Lex.right _ hl) (by simp)
    simpa using this
  cases h
  case lookupHit j o h1 h2 h3 => dsimp only at h1; subst h1; exact key _ (Prod.Lex.left _ _ (by decide))
  case lookupNew j h1 h2 h3 =>
    dsimp only at h1; subst h1
    refine key _ ?_
    cases env.body j.tgt j.ctx <;> exact Prod.Lex.left _ _ (by decide)
  case wake j o h1 h2 h3 h4 => dsimp only at h1; subst h1; exact key _ (Prod.Lex.left _ _ (by decide))
  case readOut j o h1 h2 h3 =>
    dsimp only at h1; subst h1; exact key _ (Prod.Lex.right _ (Prod.Lex.right _ (by decide)))
  case act f k h1 =>
    dsimp only at h1; subst h1
    refine key _ ?_
    have hsub := Sub.act (fun w => (k w).tree) s.world
    obtain ⟨n, hn⟩ := meas_exec (C := C) (k s.world)
    rw [hn]
    exact Prod.Lex.right _ (Prod.Lex.left _ _ hsub)
  case callNil ctx k h1 =>
    dsimp only at h1; subst h1
    refine key _ ?_
    have hsub := Sub.call (fun e => (k e).tree) none
    obtain ⟨n, hn⟩ := meas_exec (C := C) (k none)
    rw [hn]
    exact Prod.Lex.right _ (Prod.Lex.left _ _ hsub)
  case call ctx r rs k h1 =>
    dsimp only at h1; subst h1
    exact key _ (Prod.Lex.right _ (Prod.Lex.right _ (by simp)))
  case finish e j h1 h2 => dsimp only at h1; subst h1; exact key _ (Prod.Lex.left _ _ (by decide))
  case clientDone e h1 h2 => dsimp only at h1; subst h1; exact key _ (Prod.Lex.left _ _ (by decide))
  case loopEnd c i ctx k h1 =>
    dsimp only at h1; subst h1
    exact key _ (Prod.Lex.right _ (Prod.Lex.right _ (by simp)))
  case refuse c i ctx r rs k e w' h1 h2 =>
    dsimp only at h1; subst h1
    exact key _ (Prod.Lex.right _ (Prod.Lex.right _ (by simp)))
  case spawn c i₀ ctx o rs k t w' h1 h2 =>
    dsimp only at h1; subst h1
    refine meas_set hth (Prod.Lex.right _ (Prod.Lex.right _ (Prod.Lex.right _ (by simp)))) ?_
    intro y hy
    simp only [List.mem_singleton] at hy
    subst hy
    obtain ⟨refs, ha, hb⟩ := i.c.spawnHdr hth
    have hm : TRef.ptr o ∈ refs := List.mem_of_getElem? (drop_cons hb).1
    have hbel := ib.refs _ _ _ c _ _ _ hth (by simp [TSt.within]) ha o hm
    refine Prod.Lex.left _ _ ?_
    cases jb with
    | none => trivial
    | some j => exact hbel
  case ret c k x h1 h2 h3 =>
    dsimp only at h1; subst h1
    refine key _ ?_
    have hsub := Sub.call (fun e => (k e).tree) (errJoin x.errs)
    obtain ⟨n, hn⟩ := meas_exec (C := C) (k (errJoin x.errs))
    rw [hn]
    exact Prod.Lex.right _ (Prod.Lex.left _ _ hsub)
  case setErrs e j h1 h2 =>
    dsimp only at h1; subst h1; exact key _ (Prod.Lex.right _ (Prod.Lex.right _ (by decide)))
  case setOut e j o h1 h2 h3 =>
    dsimp only at h1; subst h1; exact key _ (Prod.Lex.right _ (Prod.Lex.right _ (by decide)))
  case openGate e j o h1 h2 h3 =>
    dsimp only at h1; subst h1; exact key _ (Prod.Lex.right _ (Prod.Lex.right _ (by decide)))
  case wgDone j h1 h2 =>
    dsimp only at h1; subst h1; exact key _ (Prod.Lex.right _ (Prod.Lex.right _ (by decide)))

/-- **C05, termination.** With a well-founded dependency relation, every infinite execution consists, from some point
on, of changes made by other processes only: the goroutines of the controller take finitely many steps. -/
theorem C05_terminates {env : Env σ C} {dep : Addr → Addr → Prop} (wf : WellFounded dep) (hdep : env.Respects dep)
    {w : σ} {cl : List (Proc σ C)} {s : Nat → State σ C} {l : Nat → Label σ} (h0 : Reach env w cl (s 0))
    (hinf : Infinite env s l) : ∃ N, ∀ n, N ≤ n → ¬ (l n).isThread := by
  have wfm := (measRel.wf (σ := σ) wf).cutExpand
  generalize hm : (s 0).meas = m
  induction m using wfm.induction generalizing s l with
  | _ m ih =>
    have hreach : ∀ n, Reach env w cl (s n) := by
      intro n
      induction n with
      | zero => exact h0
      | succ n ihn => exact .step _ ihn (hinf n)
    by_cases hex : ∃ n, (l n).isThread
    · -- the first step of a goroutine
      classical
      let n := Nat.find hex
      have hn : (l n).isThread := Nat.find_spec hex
      have hlt : ∀ k, k < n → ¬ (l k).isThread := fun k hk => Nat.find_min hex hk
      have hsame : ∀ k, k ≤ n → (s k).meas = m := by
        intro k
        induction k with
        | zero => intro _; exact hm
        | succ k ihk =>
          intro hk
          have hl := hlt k (by omega)
          have hs := hinf k
          cases hlk : l k with
          | thread t => rw [hlk] at hl; exact absurd trivial hl
          | extern f =>
            rw [hlk] at hs
            simp only [lstep, Option.some.injEq] at hs
            rw [← hs]
            exact ihk (by omega)
      have hs := hinf n
      cases hln : l n with
      | extern f => rw [hln] at hn; exact absurd hn (by simp [Label.isThread])
      | thread tid =>
        rw [hln] at hs
        obtain ⟨th, hth, hc⟩ := step_cases hs
        have hdec := meas_step (hreach n).inv ((hreach n).belowInv hdep) hth hc
        rw [hsame n (Nat.le_refl _)] at hdec
        obtain ⟨N, hN⟩ := ih _ hdec (s := fun k => s (n + 1 + k)) (l := fun k => l (n + 1 + k)) (hreach (n + 1))
          (fun k => hinf (n + 1 + k)) rfl
        refine ⟨n + 1 + N, fun k hk => ?_⟩
        have := hN (k - (n + 1)) (by omega)
        rwa [show n + 1 + (k - (n + 1)) = k by omega] at this
    · exact ⟨0, fun n _ hn => hex ⟨n, hn⟩⟩

/-- **C05, combined.** From any reachable state, any way of letting the goroutines run on their own (no step of the
outside world) is finite, and where it ends every call of `Run` has returned. -/
theorem C05_run_always_returns {env : Env σ C} {dep : Addr → Addr → Prop} (wf : WellFounded dep) (hdep : env.Respects dep)
    {w : σ} {cl : List (Proc σ C)} {s₀ : State σ C} (h : Reach env w cl s₀) :
    (¬ ∃ (s : Nat → State σ C) (t : Nat → Nat), s 0 = s₀ ∧ ∀ n, step env (s n) (t n) = some (s (n + 1))) ∧
    (∃ (s : State σ C) (ts : List Nat), runSched env s₀ (ts.map .thread) = s ∧ (∀ t, step env s t = none) ∧
      callsN s.log = retsN s.log ∧ ∀ th ∈ s.threads, th.st.isDone = true) := by
  constructor
  · rintro ⟨s, t, h0, hs⟩
    obtain ⟨N, hN⟩ := C05_terminates (l := fun n => .thread (t n)) wf hdep (h0 ▸ h) hs
    exact hN N (Nat.le_refl _) trivial
  · have wfm := (measRel.wf (σ := σ) wf).cutExpand
    generalize hm : s₀.meas = m
    induction m using wfm.induction generalizing s₀ with
    | _ m ih =>
      by_cases hst : ∃ t s', step env s₀ t = some s'
      · obtain ⟨t, s', hs⟩ := hst
        obtain ⟨th, hth, hc⟩ := step_cases hs
        have hdec := meas_step h.inv (h.belowInv hdep) hth hc
        rw [hm] at hdec
        obtain ⟨s, ts, h1, h2⟩ := ih _ hdec (.step (.thread t) h hs) rfl
        exact ⟨s, t :: ts, by simpa [runSched, lstep, hs] using h1, h2⟩
      · have hst' : ∀ t, step env s₀ t = none := by
          intro t
          cases hs : step env s₀ t with
          | none => rfl
          | some s' => exact absurd ⟨t, s', hs⟩ hst
        refine ⟨s₀, [], rfl, hst', (C05_stuck_means_all_returned wf hdep h hst').1, ?_⟩
        intro th hmem
        cases hb : th.st.isDone with
        | true => rfl
        | false =>
          obtain ⟨t, ht⟩ := List.mem_iff_getElem?.1 hmem
          exact absurd (C05_no_deadlock wf hdep h ⟨t, th, ht, hb⟩) hst

/-! ## The hypotheses are met -/

namespace Demo

/-- Targets 0 → 1 → 2, 0 → 2 of `Demo.env`. -/
def dep (a b : Addr) : Prop := b < a ∧ a ≤ 2

theorem dep_wf : WellFounded dep :=
  Subrelation.wf (r := InvImage (· < ·) (fun a : Nat => 3 - a)) (fun {a b} h => by
    have h1 : @LT.lt Nat _ b a := h.1
    have h2 : @LE.le Nat _ a 2 := h.2
    show @LT.lt Nat _ (3 - a) (3 - b)
    omega) (InvImage.wf _ Nat.lt_wfRel.wf)

theorem env_respects : env.Respects dep := by
  rintro o t ctx (⟨-, rfl⟩ | ⟨f, w, h, -⟩)
  · match t with
    | 0 => exact ⟨fun o ho => by simp at ho; rcases ho with rfl | rfl <;> simp [dep, env], fun _ => trivial⟩
    | 1 => exact ⟨fun o ho => by simp at ho; subst ho; simp [dep, env], fun _ => trivial⟩
    | n + 2 => exact fun _ => trivial
  · simp [env] at h

/-- Both clients of `Demo.env` always get their answer, under every schedule. -/
example : ¬ ∃ (s : Nat → State Nat Unit) (t : Nat → Nat), s 0 = init 0 [client, client] ∧
    ∀ n, step env (s n) (t n) = some (s (n + 1)) :=
  (C05_run_always_returns dep_wf env_respects .init).1
example : ∀ t, step env final t = none → callsN final.log = retsN final.log := fun _ _ => by decide +kernel

end Demo
end Fab.Runner
