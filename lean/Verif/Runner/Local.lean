import Verif.Runner.Props

/-!
# What one goroutine does: its events follow a path through its body

`Runs p h pos`: a process that started as `p` and has performed the events `h` is now at `pos`.  The main result,
`Reach.evPath`, says that in every execution the events of each goroutine are such a path through the body of the target
it runs (helpers, no properties; used for C07-C10, C12 and the `Files` properties).
-/

namespace Fab.Runner
variable {σ C : Type}

/-- What a goroutine does itself. -/
inductive LEv (σ C : Type) where
  | act (w : σ)
  | call (c : Nat) (ctx : C) (refs : List TRef)
  | ret (c : Nat) (e : Option Err)

/-- The events of goroutine `t`. -/
def hist (t : Nat) (log : List (Nat × Ev σ C)) : List (LEv σ C) :=
  log.filterMap fun e => if e.1 = t then
    match e.2 with
    | .act w => some (.act w)
    | .call c ctx refs => some (.call c ctx refs)
    | .ret c e => some (.ret c e)
    | _ => none
  else none

/-- Where in a body a goroutine is: before `p`, or inside call number `c`, to be continued with `k`. -/
inductive Pos (σ C : Type) where
  | at (p : Proc σ C)
  | inCall (c : Nat) (k : Option Err → Proc σ C)

/-- A process that started as `p` and has performed the events `h` is now at `pos`. -/
inductive Runs (p : Proc σ C) : List (LEv σ C) → Pos σ C → Prop where
  | nil : Runs p [] (.at p)
  | act {h f k} (w) : Runs p h (.at (.act f k)) → Runs p (h ++ [.act w]) (.at (k w))
  | call {h ctx refs k} (c) : Runs p h (.at (.call ctx refs k)) → Runs p (h ++ [.call c ctx refs]) (.inCall c k)
  | ret {h c k} (e) : Runs p h (.inCall c k) → Runs p (h ++ [.ret c e]) (.at (k e))

theorem hist_other {t tid : Nat} {log l : List (Nat × Ev σ C)} (h : t ≠ tid) (hl : ∀ e ∈ l, e.1 = tid) :
    hist t (log ++ l) = hist t log := by
  unfold hist
  rw [List.filterMap_append, List.append_right_eq_self, List.filterMap_eq_nil_iff]
  intro e he
  rw [if_neg (by rw [hl e he]; exact fun h' => h h'.symm)]

theorem hist_snoc (t : Nat) (log : List (Nat × Ev σ C)) (e : Ev σ C) :
    hist t (log ++ [(t, e)]) = hist t log ++
      (match e with
        | .act w => [LEv.act w]
        | .call c ctx refs => [.call c ctx refs]
        | .ret c e => [.ret c e]
        | _ => []) := by
  unfold hist
  rw [List.filterMap_append]
  cases e <;> simp

theorem mem_hist_call {t c ctx refs} {log : List (Nat × Ev σ C)} :
    LEv.call c ctx refs ∈ hist t log ↔ (t, Ev.call c ctx refs) ∈ log := by
  simp only [hist, List.mem_filterMap]
  constructor
  · rintro ⟨⟨t', e⟩, hm, h⟩
    by_cases htt : t' = t
    · subst htt; cases e <;> simp at h; obtain ⟨rfl, rfl, rfl⟩ := h; exact hm
    · simp [htt] at h
  · intro hm; exact ⟨_, hm, by simp⟩

theorem mem_hist_ret {t c e} {log : List (Nat × Ev σ C)} :
    LEv.ret c e ∈ hist t log ↔ (t, Ev.ret c e) ∈ log := by
  simp only [hist, List.mem_filterMap]
  constructor
  · rintro ⟨⟨t', e⟩, hm, h⟩
    by_cases htt : t' = t
    · subst htt; cases e <;> simp at h; obtain ⟨rfl, rfl⟩ := h; exact hm
    · simp [htt] at h
  · intro hm; exact ⟨_, hm, by simp⟩

/-- The process that goroutine `t` executes. -/
def Orig (env : Env σ C) (cl : List (Proc σ C)) (t : Nat) (jb : Option (Job C)) (p : Proc σ C) : Prop :=
  match jb with
  | some j => p = env.body j.tgt j.ctx
  | none => cl[t]? = some p

def PosOK (p : Proc σ C) (h : List (LEv σ C)) : TSt σ C → Prop
  | .lookup => h = []
  | .waiting => h = []
  | .readOut => h = []
  | .exec q => Runs p h (.at q)
  | .spawning c _ _ _ k => Runs p h (.inCall c k)
  | .joining c k => Runs p h (.inCall c k)
  | _ => True

structure InvL (env : Env σ C) (cl : List (Proc σ C)) (s : State σ C) : Prop where
  pos : ∀ (t : Nat) (jb : Option (Job C)) (st : TSt σ C), s.th t = some ⟨jb, st⟩ →
    ∃ p, Orig env cl t jb p ∧ PosOK p (hist t s.log) st
  fresh : ∀ t, s.th t = none → hist t s.log = []

theorem hist_nil (t : Nat) : hist t ([] : List (Nat × Ev σ C)) = [] := rfl

theorem InvL.step {env : Env σ C} {cl : List (Proc σ C)} {s s' : State σ C} {tid th} (ih : InvL env cl s)
    (hth : s.th tid = some th) (h : StepC env s tid th s') : InvL env cl s' := by
  obtain ⟨pos, fresh⟩ := ih
  obtain ⟨jb, st⟩ := th
  have hnone : s.th s.threads.length = none := by simp [State.th]
  have hfr := fresh _ hnone
  have hne : tid ≠ s.threads.length := by rintro rfl; rw [hnone] at hth; cases hth
  cases h
  case spawn c i ctx o rs k t w' h1 h2 =>
    dsimp only at h1; subst h1
    constructor <;> simp only [th_set_snoc hth]
    · intro t jb' st' h'
      split at h'
      · cases h'; subst_vars; exact ⟨_, rfl, hfr⟩
      · split at h'
        · cases h'; subst_vars; obtain ⟨p, ho, hp⟩ := pos _ _ _ hth; exact ⟨p, ho, hp⟩
        · exact pos _ _ _ h'
    · intro t h'
      split at h'
      · cases h'
      · split at h'
        · cases h'
        · exact fresh _ h'
  case callNil ctx k h1 =>
    dsimp only at h1; subst h1
    constructor <;> simp only [th_set hth]
    · intro t jb' st' h'
      split at h'
      · cases h'; subst_vars
        obtain ⟨p, ho, hp⟩ := pos _ _ _ hth
        refine ⟨p, ho, ?_⟩
        rw [show ∀ a b : Nat × Ev σ C, s.log ++ [a, b] = s.log ++ [a] ++ [b] by simp, hist_snoc, hist_snoc]
        exact .ret _ (.call _ hp)
      · rename_i hn
        obtain ⟨p', h1, h2⟩ := pos _ _ _ h'
        rw [hist_other (tid := tid) hn (by simp)]
        exact ⟨p', h1, h2⟩
    · intro t h'
      split at h'
      · cases h'
      · rename_i hn
        rw [hist_other (tid := tid) hn (by simp)]
        exact fresh _ h'
  case lookupNew j h1 h2 h3 =>
    dsimp only at h1 h2; subst h1 h2
    constructor <;> simp only [th_set hth]
    · intro t jb' st' h'
      split at h'
      · cases h'; subst_vars
        obtain ⟨p, ho, hp⟩ := pos _ _ _ hth
        refine ⟨p, ho, ?_⟩
        simp only [PosOK] at hp
        rw [hist_snoc, hp]
        cases ho
        exact .nil
      · rename_i hn
        obtain ⟨p', h1, h2⟩ := pos _ _ _ h'
        rw [hist_other (tid := tid) hn (by simp)]
        exact ⟨p', h1, h2⟩
    · intro t h'
      split at h'
      · cases h'
      · rename_i hn
        rw [hist_other (tid := tid) hn (by simp)]
        exact fresh _ h'
  all_goals
    simp only at *
    subst_vars
    constructor <;> simp only [th_set hth]
    · intro t jb' st' h'
      split at h'
      · cases h'; subst_vars
        obtain ⟨p, ho, hp⟩ := pos _ _ _ hth
        refine ⟨p, ho, ?_⟩
        first
          | trivial
          | exact hp
          | (rw [hist_snoc]
             first
               | trivial
               | exact .act _ hp
               | exact .call _ hp
               | exact .ret _ hp
               | (simp only [List.append_nil]; exact hp))
      · rename_i hn
        obtain ⟨p', h1, h2⟩ := pos _ _ _ h'
        first
          | exact ⟨p', h1, h2⟩
          | (rw [hist_other (tid := tid) hn (by simp)]
             exact ⟨p', h1, h2⟩)
    · intro t h'
      split at h'
      · cases h'
      · rename_i hn
        first
          | exact fresh _ h'
          | (rw [hist_other (tid := tid) hn (by simp)]
             exact fresh _ h')

theorem Reach.localInv {env : Env σ C} {w : σ} {cl : List (Proc σ C)} {s : State σ C} (h : Reach env w cl s) :
    InvL env cl s := by
  induction h with
  | init =>
    constructor
    · intro t jb st ht
      simp only [State.th, Runner.init, List.getElem?_map, Option.map_eq_some_iff, Thread.mk.injEq] at ht
      obtain ⟨p, h1, rfl, rfl⟩ := ht
      exact ⟨p, h1, .nil⟩
    · intro t _; rfl
  | @step s s' l hr hs ih =>
    cases l with
    | thread tid =>
      obtain ⟨th, hth, hc⟩ := step_cases hs
      exact ih.step hth hc
    | extern f =>
      simp only [lstep, Option.some.injEq] at hs
      subst hs
      exact ⟨ih.1, ih.2⟩

/-- Goroutine `t` executes `p`: it started a target with that body, or it is a client. -/
def Executes (env : Env σ C) (cl : List (Proc σ C)) (l : List (Nat × Ev σ C)) (t : Nat) (p : Proc σ C) : Prop :=
  (∃ c i key tgt ctx, (t, Ev.start c i key tgt ctx) ∈ l ∧ p = env.body tgt ctx) ∨
  (cl[t]? = some p ∧ ∀ c i key tgt ctx, (t, Ev.start c i key tgt ctx) ∉ l)

/-- What the past of an event looks like for its own goroutine. -/
def EvPath (env : Env σ C) (cl : List (Proc σ C)) (l : List (Nat × Ev σ C)) (e : Nat × Ev σ C) : Prop :=
  match e with
  | (t, .act _) => ∃ p f k, Executes env cl l t p ∧ Runs p (hist t l) (.at (.act f k))
  | (t, .call _ ctx refs) => ∃ p k, Executes env cl l t p ∧ Runs p (hist t l) (.at (.call ctx refs k))
  | (t, .ret c _) => ∃ p k, Executes env cl l t p ∧ Runs p (hist t l) (.inCall c k)
  | (t, .start ..) => hist t l = [] ∧ ∀ c i key tgt ctx, (t, Ev.start c i key tgt ctx) ∉ l
  | (t, .finish key tgt raw) => ∃ c i ctx, (t, Ev.start c i key tgt ctx) ∈ l ∧
      Runs (env.body tgt ctx) (hist t l) (.at (.ret raw))
  | _ => True

theorem Executes.of {env : Env σ C} {cl : List (Proc σ C)} {s : State σ C} (i : Inv env s) {t : Nat}
    {jb : Option (Job C)} {st : TSt σ C} (ht : s.th t = some ⟨jb, st⟩) (hb : st.inBody = true)
    {p : Proc σ C} (ho : Orig env cl t jb p) : Executes env cl s.log t p := by
  cases jb with
  | some j => exact Or.inl ⟨_, _, _, _, _, i.b.started _ _ _ ht (TSt.owning_of_inBody hb), ho⟩
  | none =>
    refine Or.inr ⟨ho, ?_⟩
    intro c i' key tgt ctx hm
    obtain ⟨j, st', h1, -⟩ := i.f.startJob _ _ _ _ _ _ hm
    rw [ht] at h1; cases h1

theorem evPath_step {env : Env σ C} {cl : List (Proc σ C)} {s s' : State σ C} {tid th} (i : Inv env s)
    (il : InvL env cl s) (hth : s.th tid = some th) (h : StepC env s tid th s') (ih : Always (EvPath env cl) s.log) :
    Always (EvPath env cl) s'.log := by
  obtain ⟨jb, st⟩ := th
  obtain ⟨p, ho, hp⟩ := il.pos _ _ _ hth
  have hex : st.inBody = true → Executes env cl s.log tid p := fun hb => .of i hth hb ho
  cases h
  case lookupNew j h1 h2 h3 =>
    dsimp only at h1 h2; subst h1 h2
    refine ih.snoc ⟨hp, ?_⟩
    intro c i' key tgt ctx hm
    obtain ⟨j, st', h1, -, -, -, -, -, h2, -⟩ := i.f.startJob _ _ _ _ _ _ hm
    rw [hth] at h1; cases h1; exact h2 rfl
  case readOut => exact ih.snoc trivial
  case act f k h1 => dsimp only at h1; subst h1; exact ih.snoc ⟨p, f, k, hex rfl, hp⟩
  case callNil ctx k h1 =>
    dsimp only at h1; subst h1
    have h0 : Always (EvPath env cl) (s.log ++ [(tid, Ev.call s.calls.length ctx [])]) := ih.snoc ⟨p, k, hex rfl, hp⟩
    rw [show ∀ a b : Nat × Ev σ C, s.log ++ [a, b] = s.log ++ [a] ++ [b] by simp]
    refine h0.snoc ⟨p, k, ?_, ?_⟩
    · rcases hex rfl with ⟨c, i', key, tgt, ctx', hm, rfl⟩ | ⟨h1, h2⟩
      · exact Or.inl ⟨c, i', key, tgt, ctx', List.mem_append_left _ hm, rfl⟩
      · exact Or.inr ⟨h1, by intro c i' key tgt ctx' hm; simp at hm; exact h2 _ _ _ _ _ hm⟩
    · rw [hist_snoc]; exact .call _ hp
  case call ctx r rs k h1 => dsimp only at h1; subst h1; exact ih.snoc ⟨p, k, hex rfl, hp⟩
  case finish e j h1 h2 =>
    dsimp only at h1 h2; subst h1 h2
    cases ho
    exact ih.snoc ⟨_, _, _, i.b.started _ _ _ hth rfl, hp⟩
  case refuse => exact ih.snoc trivial
  case ret c k x h1 h2 h3 => dsimp only at h1; subst h1; exact ih.snoc ⟨p, k, hex rfl, hp⟩
  case setErrs => exact ih.snoc trivial
  all_goals exact ih

theorem Reach.evPath {env : Env σ C} {w : σ} {cl : List (Proc σ C)} {s : State σ C} (h : Reach env w cl s) :
    Always (EvPath env cl) s.log := by
  induction h with
  | init => exact Always.nil _
  | @step s s' l hr hs ih =>
    cases l with
    | thread tid =>
      obtain ⟨th, hth, hc⟩ := step_cases hs
      exact evPath_step hr.inv hr.localInv hth hc ih
    | extern f =>
      simp only [lstep, Option.some.injEq] at hs
      subst hs
      exact ih

/-- A goroutine starts at most one target. -/
theorem start_uniq {env : Env σ C} {w : σ} {cl : List (Proc σ C)} {s : State σ C} (h : Reach env w cl s)
    {t c i key tgt ctx c' i' key' tgt' ctx'} (h1 : (t, Ev.start c i key tgt ctx) ∈ s.log)
    (h2 : (t, Ev.start c' i' key' tgt' ctx') ∈ s.log) : c = c' ∧ i = i' ∧ key = key' ∧ tgt = tgt' ∧ ctx = ctx' := by
  obtain ⟨j, st, a1, rfl, rfl, rfl, rfl, rfl, -⟩ := h.inv.f.startJob _ _ _ _ _ _ h1
  obtain ⟨j', st', b1, rfl, rfl, rfl, rfl, rfl, -⟩ := h.inv.f.startJob _ _ _ _ _ _ h2
  rw [a1] at b1; cases b1
  exact ⟨rfl, rfl, rfl, rfl, rfl⟩

theorem sub_log {s : State σ C} {l₁ l₂ : List (Nat × Ev σ C)} {e} (hl : s.log = l₁ ++ e :: l₂) {y} (hy : y ∈ l₁) :
    y ∈ s.log := by rw [hl]; exact List.mem_append_left _ hy

/-- The path of the goroutine that runs target `x`, at one of its calls. -/
theorem call_path {env : Env σ C} {w : σ} {cl : List (Proc σ C)} {s : State σ C} (h : Reach env w cl s)
    {l₁ l₂ t c ctx refs} (hl : s.log = l₁ ++ (t, Ev.call c ctx refs) :: l₂)
    {c₀ i₀ key x ctx₀} (hs : (t, Ev.start c₀ i₀ key x ctx₀) ∈ s.log) :
    ∃ k, Runs (env.body x ctx₀) (hist t l₁) (.at (.call ctx refs k)) := by
  obtain ⟨p, k, hex, hr⟩ := h.evPath _ _ _ hl
  rcases hex with ⟨c', i', key', tgt', ctx', hm, rfl⟩ | ⟨h1, h2⟩
  · obtain ⟨-, -, -, rfl, rfl⟩ := start_uniq h hs (sub_log hl hm)
    exact ⟨k, hr⟩
  · -- a client does not start targets
    exfalso
    obtain ⟨j, st, a1, -⟩ := h.inv.f.startJob _ _ _ _ _ _ hs
    have hpre := h.evPath
    -- the start would come after an event of the same goroutine
    rw [hl, List.mem_append, List.mem_cons] at hs
    rcases hs with hs | hs | hs
    · exact h2 _ _ _ _ _ hs
    · cases hs
    · obtain ⟨m₁, m₂, hm⟩ := List.append_of_mem hs
      have := hpre (l₁ ++ (t, Ev.call c ctx refs) :: m₁) (t, .start c₀ i₀ key x ctx₀) m₂ (by rw [hl, hm]; simp)
      replace this := this.1
      have hin : LEv.call c ctx refs ∈ hist t (l₁ ++ (t, Ev.call c ctx refs) :: m₁) := mem_hist_call.2 (by simp)
      rw [this] at hin; cases hin

theorem finish_path {env : Env σ C} {w : σ} {cl : List (Proc σ C)} {s : State σ C} (h : Reach env w cl s)
    {l₁ l₂ t key x raw} (hl : s.log = l₁ ++ (t, Ev.finish key x raw) :: l₂) :
    ∃ c i ctx, (t, Ev.start c i key x ctx) ∈ l₁ ∧ Runs (env.body x ctx) (hist t l₁) (.at (.ret raw)) :=
  h.evPath _ _ _ hl

end Fab.Runner
