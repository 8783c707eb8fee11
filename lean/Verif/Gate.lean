/-!
# The gate (/repo/gate.go): model, and C13

The runner model (`Verif/Runner/Model.lean`) treats "wait until the gate is open" and "open the gate" as atomic.  Here
they are broken into the steps of `sync.Mutex` and `sync.Cond`, with any number of goroutines calling `set` and `wait`
in any interleaving, and with spurious wake-ups (which Go promises not to do, so the result is stronger).

`sync.Cond.Wait` is modelled as in the Go source: join the notify list, unlock, sleep until notified, lock again.
`Broadcast` notifies everybody who is on the list at that moment.
-/

namespace Fab.Gate

/-- Where a goroutine is. -/
inductive PC where
  /-- about to lock in `set(v)`, gate.go:22 -/
  | setStart (v : Bool)
  /-- holds the lock; about to do `wasOpen := g.open; g.open = v`, gate.go:23-24 -/
  | setCrit (v : Bool)
  /-- holds the lock; about to broadcast, gate.go:26 -/
  | setBcast
  /-- holds the lock; about to unlock, gate.go:28 -/
  | setUnlock
  /-- about to lock in `wait`, gate.go:32, or about to lock again at the end of `g.c.Wait()`, gate.go:34 -/
  | waitLock
  /-- holds the lock; about to test `g.open`, gate.go:33 -/
  | waitCheck
  /-- inside `g.c.Wait()`: on the notify list, still holds the lock -/
  | waitAdded
  /-- inside `g.c.Wait()`: asleep -/
  | parked (notified : Bool)
  /-- holds the lock; about to unlock and return from `wait`, gate.go:36 -/
  | waitUnlock
  /-- returned from `wait` -/
  | returned
  /-- returned from `set` -/
  | setDone
deriving DecidableEq

/-- The gate (gate.go:8-11) and the goroutines.  `everOpen` is bookkeeping: was the gate ever open? -/
structure State where
  opened : Bool
  lock : Option Nat
  pcs : List PC
  everOpen : Bool

/-- What a broadcast does to a goroutine. -/
def PC.notify : PC → PC
  | .parked _ => .parked true
  | pc => pc

/-- One step of goroutine `t`; `none` if it cannot move. -/
def step (s : State) (t : Nat) : Option State :=
  match s.pcs[t]? with
  | none => none
  | some pc =>
    match pc with
    | .setStart v => if s.lock = none then some { s with lock := some t, pcs := s.pcs.set t (.setCrit v) } else none
    | .setCrit v =>
      some { s with
        opened := v
        everOpen := s.everOpen || v
        pcs := s.pcs.set t (if v && !s.opened then .setBcast else .setUnlock) }
    | .setBcast => some { s with pcs := (s.pcs.map PC.notify).set t .setUnlock }
    | .setUnlock => some { s with lock := none, pcs := s.pcs.set t .setDone }
    | .waitLock => if s.lock = none then some { s with lock := some t, pcs := s.pcs.set t .waitCheck } else none
    | .waitCheck => some { s with pcs := s.pcs.set t (if s.opened then .waitUnlock else .waitAdded) }
    | .waitAdded => some { s with lock := none, pcs := s.pcs.set t (.parked false) }
    | .parked true => some { s with pcs := s.pcs.set t .waitLock }
    | .parked false => none
    | .waitUnlock => some { s with lock := none, pcs := s.pcs.set t .returned }
    | .returned => none
    | .setDone => none

/-- A spurious wake-up of goroutine `t`. -/
def spurious (s : State) (t : Nat) : Option State :=
  match s.pcs[t]? with
  | some (.parked false) => some { s with pcs := s.pcs.set t .waitLock }
  | _ => none

/-- A step of any kind. -/
def Next (s s' : State) : Prop := ∃ t, step s t = some s' ∨ spurious s t = some s'

/-- `newGate(open)` (gate.go:13-18) and the goroutines that are about to use it: each calls `wait()` or `set(v)`. -/
def init (o : Bool) (calls : List (Option Bool)) : State :=
  { opened := o, lock := none, everOpen := o
    pcs := calls.map fun c => match c with
      | none => .waitLock
      | some v => .setStart v }

inductive Reach (o : Bool) (calls : List (Option Bool)) : State → Prop where
  | init : Reach o calls (init o calls)
  | step {s s'} : Reach o calls s → Next s s' → Reach o calls s'

/-! ## Invariants -/

def PC.holds : PC → Bool
  | .setCrit _ | .setBcast | .setUnlock | .waitCheck | .waitAdded | .waitUnlock => true
  | _ => false

structure Inv (s : State) : Prop where
  lock : ∀ t pc, s.pcs[t]? = some pc → pc.holds = true → s.lock = some t
  held : ∀ t, s.lock = some t → ∃ pc, s.pcs[t]? = some pc ∧ pc.holds = true
  added : ∀ t : Nat, s.pcs[t]? = some .waitAdded → s.opened = false
  wake : s.opened = true → ∀ t : Nat, s.pcs[t]? = some (.parked false) →
    ∃ t' : Nat, s.lock = some t' ∧ s.pcs[t']? = some .setBcast
  ever : s.opened = true → s.everOpen = true
  ret : ∀ t : Nat, s.pcs[t]? = some .returned ∨ s.pcs[t]? = some .waitUnlock → s.everOpen = true
  leave : ∀ t : Nat, s.pcs[t]? = some .waitUnlock → s.opened = true

theorem get_set {l : List PC} {t : Nat} {pc : PC} (h : l[t]? = some pc) (x : PC) (u : Nat) :
    (l.set t x)[u]? = if u = t then some x else l[u]? := by
  grind

theorem get_notify {l : List PC} (u : Nat) : (l.map PC.notify)[u]? = l[u]?.map PC.notify := by simp

theorem get_bcast {l : List PC} {t : Nat} {pc : PC} (h : l[t]? = some pc) (x : PC) (u : Nat) :
    ((l.map PC.notify).set t x)[u]? = if u = t then some x else l[u]?.map PC.notify := by
  grind

theorem notify_holds (pc : PC) : pc.notify.holds = pc.holds := by cases pc <;> rfl
theorem notify_parked (pc : PC) : pc.notify ≠ .parked false := by cases pc <;> simp [PC.notify]
theorem notify_eq {pc x : PC} (h : pc.notify = x) (hx : ∀ b, x ≠ .parked b) : pc = x := by
  cases pc <;> simp_all [PC.notify]

theorem Inv.next {s s' : State} (i : Inv s) (h : Next s s') : Inv s' := by
  obtain ⟨t, h | h⟩ := h
  · unfold step at h
    split at h
    · cases h
    rename_i pc hpc
    obtain ⟨lk, hd, ad, wk, ev, rt, lv⟩ := i
    have l0 := lk t pc hpc
    split at h
    case h_3 =>
      -- broadcast
      injection h with h; subst h
      have l1 := l0 rfl
      constructor <;> simp only [get_bcast hpc]
      · intro u pc' h1 h2
        split at h1
        · rename_i hu; subst hu; exact l1
        · obtain ⟨pc₀, h3, rfl⟩ := Option.map_eq_some_iff.1 h1
          exact lk _ _ h3 (by rw [← notify_holds]; exact h2)
      · intro u hu
        have : u = t := by rw [l1] at hu; cases hu; rfl
        subst this; exact ⟨.setUnlock, by simp, rfl⟩
      · intro u h1
        split at h1
        · cases h1
        · obtain ⟨pc₀, h3, h4⟩ := Option.map_eq_some_iff.1 h1
          exact ad u (by rw [h3, notify_eq h4 (by simp)])
      · intro ho u h1
        split at h1
        · cases h1
        · obtain ⟨pc₀, h3, h4⟩ := Option.map_eq_some_iff.1 h1
          exact absurd h4 (notify_parked _)
      · exact ev
      · intro u h1
        refine rt u ?_
        rcases h1 with h1 | h1 <;> split at h1 <;> first | cases h1; done | skip
        · obtain ⟨pc₀, h3, h4⟩ := Option.map_eq_some_iff.1 h1
          exact Or.inl (by rw [h3, notify_eq h4 (by simp)])
        · obtain ⟨pc₀, h3, h4⟩ := Option.map_eq_some_iff.1 h1
          exact Or.inr (by rw [h3, notify_eq h4 (by simp)])
      · intro u h1
        split at h1
        · cases h1
        · obtain ⟨pc₀, h3, h4⟩ := Option.map_eq_some_iff.1 h1
          exact lv u (by rw [h3, notify_eq h4 (by simp)])
    all_goals
      try split at h
      all_goals
        first
          | (cases h; done)
          | (injection h with h; subst h
             constructor <;> simp only [get_set hpc] <;> grind [PC.holds])
  · unfold spurious at h
    split at h
    · rename_i hpc
      obtain ⟨lk, hd, ad, wk, ev, rt, lv⟩ := i
      injection h with h; subst h
      constructor <;> simp only [get_set hpc] <;> grind [PC.holds]
    · cases h

theorem Reach.inv {o calls s} (h : Reach o calls s) : Inv s := by
  induction h with
  | init =>
    have key : ∀ (t : Nat) pc, (Gate.init o calls).pcs[t]? = some pc → pc = .waitLock ∨ ∃ v, pc = .setStart v := by
      intro t pc h
      simp only [Gate.init, List.getElem?_map, Option.map_eq_some_iff] at h
      obtain ⟨c, -, rfl⟩ := h
      cases c <;> simp
    constructor
    · intro t pc h1 h2; rcases key t pc h1 with rfl | ⟨v, rfl⟩ <;> cases h2
    · intro t h1; cases h1
    · intro t h1; rcases key t _ h1 with h | ⟨v, h⟩ <;> cases h
    · intro _ t h1; rcases key t _ h1 with h | ⟨v, h⟩ <;> cases h
    · exact id
    · intro t h1; rcases h1 with h1 | h1 <;> (rcases key t _ h1 with h | ⟨v, h⟩ <;> cases h)
    · intro t h1; rcases key t _ h1 with h | ⟨v, h⟩ <;> cases h
  | step _ hn ih => exact ih.next hn

/-! ## C13 -/

/-- **C13, safety.** `wait` only returns if the gate has been open; more precisely, it passes its test only in a state
where the gate is open. -/
theorem C13_wait_only_after_open {o calls s} (h : Reach o calls s) :
    (∀ t : Nat, s.pcs[t]? = some .returned → s.everOpen = true) ∧
    (∀ t : Nat, s.pcs[t]? = some .waitUnlock → s.opened = true) :=
  ⟨fun t ht => h.inv.ret t (Or.inl ht), h.inv.leave⟩

/-- The gate was "ever open" only if it was created open or somebody called `set(true)` (so the ghost variable means
what it should). -/
theorem C13_ever_open_meaning {o calls s} (h : Reach o calls s) (he : s.everOpen = true) :
    o = true ∨ some true ∈ calls := by
  have key : (s.everOpen = true → o = true ∨ some true ∈ calls) ∧
      ∀ t : Nat, s.pcs[t]? = some (.setStart true) ∨ s.pcs[t]? = some (.setCrit true) → some true ∈ calls := by
    clear he
    induction h with
    | init =>
      refine ⟨Or.inl, ?_⟩
      intro t ht
      simp only [Gate.init, List.getElem?_map, Option.map_eq_some_iff] at ht
      rcases ht with ⟨c, hc, h⟩ | ⟨c, hc, h⟩
      · cases c with
        | none => cases h
        | some v => cases h; exact List.mem_of_getElem? hc
      · cases c <;> cases h
    | @step s s' hr hn ih =>
      obtain ⟨t, h | h⟩ := hn
      · unfold step at h
        split at h
        · cases h
        rename_i pc hpc
        obtain ⟨i1, i2⟩ := ih
        split at h
        case h_3 =>
          injection h with h; subst h
          refine ⟨i1, ?_⟩
          simp only [get_bcast hpc]
          intro u h1
          rcases h1 with h1 | h1 <;> split at h1 <;> first | cases h1; done | skip
          · obtain ⟨pc₀, h3, h4⟩ := Option.map_eq_some_iff.1 h1
            exact i2 u (Or.inl (by rw [h3, notify_eq h4 (by simp)]))
          · obtain ⟨pc₀, h3, h4⟩ := Option.map_eq_some_iff.1 h1
            exact i2 u (Or.inr (by rw [h3, notify_eq h4 (by simp)]))
        all_goals
          try split at h
          all_goals
            first
              | (cases h; done)
              | (injection h with h; subst h
                 constructor <;> simp only [get_set hpc] <;> grind)
      · unfold spurious at h
        split at h
        · rename_i hpc
          injection h with h; subst h
          refine ⟨ih.1, ?_⟩
          simp only [get_set hpc]
          have := ih.2
          grind
        · cases h
  exact key.1 he

/-- **C13, no lost wake-up.** While the gate is open, every goroutine that sleeps has been notified, except while a
goroutine is between opening the gate and its broadcast (and that goroutine can move). -/
theorem C13_no_lost_wakeup {o calls s} (h : Reach o calls s) (ho : s.opened = true) (t : Nat)
    (ht : s.pcs[t]? = some (.parked false)) :
    ∃ t' : Nat, s.pcs[t']? = some .setBcast ∧ ∃ s', step s t' = some s' := by
  obtain ⟨t', -, h2⟩ := h.inv.wake ho t ht
  exact ⟨t', h2, _, by unfold step; rw [h2]⟩

/-- The call has returned. -/
def PC.fin : PC → Bool
  | .returned | .setDone => true
  | _ => false

/-- **C13, progress.** While the gate is open, if some call of `wait` or `set` has not returned, some goroutine can
move. -/
theorem C13_progress {o calls s} (h : Reach o calls s) (ho : s.opened = true)
    (hn : ∃ (t : Nat) (pc : PC), s.pcs[t]? = some pc ∧ pc.fin = false) : ∃ t s', step s t = some s' := by
  have i := h.inv
  have holder : ∀ t, s.lock = some t → ∃ s', step s t = some s' := by
    intro t ht
    obtain ⟨pc, h1, h2⟩ := i.held t ht
    cases pc <;> simp [PC.holds] at h2 <;> exact ⟨_, by unfold step; rw [h1]⟩
  cases hl : s.lock with
  | some t => obtain ⟨s', hs⟩ := holder t hl; exact ⟨t, s', hs⟩
  | none =>
    obtain ⟨t, pc, h1, h2⟩ := hn
    cases pc <;> simp [PC.fin] at h2
    case setStart v => exact ⟨t, _, by unfold step; rw [h1]; simp [hl]; rfl⟩
    case waitLock => exact ⟨t, _, by unfold step; rw [h1]; simp [hl]; rfl⟩
    case parked b =>
      cases b with
      | true => exact ⟨t, _, by unfold step; rw [h1]⟩
      | false =>
        obtain ⟨t', h3, s', h4⟩ := C13_no_lost_wakeup h ho t h1
        exact ⟨t', s', h4⟩
    all_goals
      have := i.lock t _ h1 rfl
      rw [hl] at this; cases this

/-- How far a goroutine still has to go once the gate is open. -/
def PC.dist : PC → Nat
  | .setStart _ => 5
  | .setCrit _ => 4
  | .setBcast => 3
  | .setUnlock => 2
  | .waitAdded => 9
  | .parked false => 8
  | .parked true => 8
  | .waitLock => 7
  | .waitCheck => 6
  | .waitUnlock => 1
  | .returned => 0
  | .setDone => 0

def State.dist (s : State) : Nat := (s.pcs.map PC.dist).sum

theorem dist_set {l : List PC} {t : Nat} {pc : PC} (h : l[t]? = some pc) (x : PC) :
    ((l.set t x).map PC.dist).sum + pc.dist = (l.map PC.dist).sum + x.dist := by
  induction l generalizing t with
  | nil => simp at h
  | cons a l ih =>
    cases t with
    | zero => simp at h; subst h; simp; omega
    | succ t => simp at h; have := ih h; simp only [List.set_cons_succ, List.map_cons, List.sum_cons]; omega

theorem dist_notify (l : List PC) : ((l.map PC.notify).map PC.dist).sum = (l.map PC.dist).sum := by
  have : PC.dist ∘ PC.notify = PC.dist := by
    funext pc; cases pc <;> try rfl
    rename_i b; cases b <;> rfl
  rw [List.map_map, this]

/-- Nobody closes the gate (as in the runner, where the gate of an outcome is only ever opened). -/
def NoClose (calls : List (Option Bool)) : Prop := some false ∉ calls

theorem noclose_set {o calls s} (hc : NoClose calls) (h : Reach o calls s) :
    ∀ t : Nat, s.pcs[t]? ≠ some (.setStart false) ∧ s.pcs[t]? ≠ some (.setCrit false) := by
  induction h with
  | init =>
    intro t
    simp only [Gate.init, List.getElem?_map, ne_eq, Option.map_eq_some_iff, not_exists, not_and]
    constructor
    · intro c hcm; cases c with
      | none => intro h; cases h
      | some v => intro h; cases h; exact hc (List.mem_of_getElem? hcm)
    · intro c hcm; cases c <;> (intro h; cases h)
  | @step s s' hr hn ih =>
    obtain ⟨t, h | h⟩ := hn
    · unfold step at h
      split at h
      · cases h
      rename_i pc hpc
      split at h
      case h_3 =>
        injection h with h; subst h
        simp only [get_bcast hpc]
        intro u
        constructor
        · intro h1
          split at h1
          · cases h1
          · obtain ⟨pc₀, h3, h4⟩ := Option.map_eq_some_iff.1 h1
            exact (ih u).1 (by rw [h3, notify_eq h4 (by simp)])
        · intro h1
          split at h1
          · cases h1
          · obtain ⟨pc₀, h3, h4⟩ := Option.map_eq_some_iff.1 h1
            exact (ih u).2 (by rw [h3, notify_eq h4 (by simp)])
      all_goals
        try split at h
        all_goals
          first
            | (cases h; done)
            | (injection h with h; subst h; simp only [get_set hpc]; grind)
    · unfold spurious at h
      split at h
      · rename_i hpc; injection h with h; subst h; simp only [get_set hpc]; grind
      · cases h

/-- If nobody closes the gate, it stays open, and every step after that (spurious wake-ups included) brings the
goroutines closer to the end. -/
theorem C13_open_step {o calls s s'} (hc : NoClose calls) (h : Reach o calls s) (ho : s.opened = true)
    (hn : Next s s') : s'.opened = true ∧ s'.dist < s.dist := by
  have nc := noclose_set hc h
  obtain ⟨t, h1 | h1⟩ := hn
  · unfold step at h1
    split at h1
    · cases h1
    rename_i pc hpc
    have nt := nc t
    have hd := fun x => dist_set hpc x
    split at h1
    case h_3 =>
      injection h1 with h1; subst h1
      refine ⟨ho, ?_⟩
      have h3 : (s.pcs.map PC.notify)[t]? = some .setBcast := by rw [get_notify, hpc]; rfl
      have := dist_set h3 .setUnlock
      rw [dist_notify] at this
      simp only [State.dist]
      simp only [PC.dist] at this ⊢
      omega
    case h_2 v =>
      have hv : v = true := by
        cases v with
        | true => rfl
        | false => exact absurd hpc nt.2
      subst hv
      injection h1 with h1; subst h1
      refine ⟨rfl, ?_⟩
      have := hd (if (true && !s.opened) = true then .setBcast else .setUnlock)
      simp only [State.dist]
      simp only [ho] at this ⊢
      simp [PC.dist] at this ⊢
      omega
    case h_6 =>
      injection h1 with h1; subst h1
      refine ⟨ho, ?_⟩
      have := hd .waitUnlock
      simp only [State.dist, ho, if_true]
      simp [PC.dist] at this ⊢
      omega
    all_goals
      try split at h1
      all_goals
        first
          | (cases h1; done)
          | (injection h1 with h1; subst h1
             refine ⟨ho, ?_⟩
             simp only [State.dist]
             first
               | (have := hd (.setCrit ‹Bool›); simp [PC.dist] at this ⊢; omega)
               | (have := hd .setDone; simp [PC.dist] at this ⊢; omega)
               | (have := hd .waitCheck; simp [PC.dist] at this ⊢; omega)
               | (have := hd (.parked false); simp [PC.dist] at this ⊢; omega)
               | (have := hd .waitLock; simp [PC.dist] at this ⊢; omega)
               | (have := hd .returned; simp [PC.dist] at this ⊢; omega))
  · unfold spurious at h1
    split at h1
    · rename_i hpc
      injection h1 with h1; subst h1
      have := dist_set hpc .waitLock
      refine ⟨ho, ?_⟩
      simp only [State.dist]
      simp [PC.dist] at this ⊢
      omega
    · cases h1

/-- **C13, every waiter is released.** If nobody closes the gate, then once it is open every execution, whatever the
interleaving, is finite (at most `s.dist` more steps) and where it stops every call of `wait` has returned. -/
theorem C13_all_waiters_released {o calls s} (hc : NoClose calls) (h : Reach o calls s) (ho : s.opened = true)
    (f : Nat → State) (n : Nat) (h0 : f 0 = s) (hf : ∀ i < n, Next (f i) (f (i + 1))) :
    n ≤ s.dist ∧ ((∀ t, step (f n) t = none) → ∀ pc ∈ (f n).pcs, pc.fin = true) := by
  have key : ∀ i ≤ n, Reach o calls (f i) ∧ (f i).opened = true ∧ (f i).dist + i ≤ s.dist := by
    intro i
    induction i with
    | zero => intro _; rw [h0]; exact ⟨h, ho, by omega⟩
    | succ i ih =>
      intro hi
      obtain ⟨h1, h2, h3⟩ := ih (by omega)
      have hs := hf i (by omega)
      obtain ⟨h4, h5⟩ := C13_open_step hc h1 h2 hs
      exact ⟨.step h1 hs, h4, by omega⟩
  obtain ⟨h1, h2, h3⟩ := key n (Nat.le_refl _)
  refine ⟨by omega, ?_⟩
  intro hst pc hm
  cases hp : pc.fin with
  | true => rfl
  | false =>
    obtain ⟨t, ht⟩ := List.mem_iff_getElem?.1 hm
    obtain ⟨t', s', hs⟩ := C13_progress h1 h2 ⟨t, pc, ht, hp⟩
    rw [hst] at hs; cases hs

/-! ## A concrete case -/

/-- Two waiters and one goroutine that opens the gate. -/
def demo (ts : List Nat) : State := ts.foldl (fun s t => (step s t).getD s) (init false [none, none, some true])

theorem demo_reach (ts : List Nat) : Reach false [none, none, some true] (demo ts) := by
  unfold demo
  have : ∀ (ts : List Nat) (s : State), Reach false [none, none, some true] s →
      Reach false [none, none, some true] (ts.foldl (fun s t => (step s t).getD s) s) := by
    intro ts
    induction ts with
    | nil => intro s h; exact h
    | cons t ts ih =>
      intro s h
      simp only [List.foldl_cons]
      cases hs : step s t with
      | none => exact ih _ h
      | some s' => exact ih _ (.step h ⟨t, Or.inl hs⟩)
  exact this ts _ .init

-- waiter 0 sleeps, waiter 1 is late, the gate is opened, both return
example : (demo [0, 0, 0, 2, 2]).opened = true ∧ (demo [0, 0, 0, 2, 2]).pcs[0]? = some (.parked false) := by decide
example : NoClose [none, none, some true] := by unfold NoClose; decide
example : (demo [0, 0, 0, 2, 2, 1, 2, 2, 1, 0, 1, 1, 0, 0, 0, 0]).pcs = [.returned, .returned, .setDone] := by decide

end Fab.Gate
