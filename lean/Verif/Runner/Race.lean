import Verif.Runner.Inv

/-!
# C72: `Controller.Run` has no data races

The runner model executes the goroutines one atomic step at a time on a sequentially consistent memory.  The Go memory
model promises sequential consistency only to programs without data races, so this module says which memory each step
touches and how it synchronizes, defines happens-before exactly as the Go memory model does (program order, mutexes, `go`
statements, wait groups; nothing for the condition variable), and proves that every two conflicting accesses of every
execution are ordered by it.

Simplifications: an execution is a sequentially consistent one (the race-freedom theorem that turns this into a statement
about all executions, DRF-SC, is part of the Go memory model, not of this proof); the accesses that `sync` and the map
implementation make internally are not modelled; goroutines other than the controller's and its clients' are not.
-/

namespace Fab.Runner

/-- The variables shared between goroutines of a process that uses a controller. -/
inductive Loc where
  /-- `con.depth`, /repo/controller.go:23 -/
  | depth
  /-- the map `con.ran`, /repo/controller.go:26 -/
  | ran
  /-- the maps `con.targetsByName` and `con.targetsByAddr`, /repo/controller.go:29-31 -/
  | registry
  /-- `o.g.open` of the outcome in `con.ran[key]`, /repo/gate.go:10 -/
  | gate (key : Addr)
  /-- `o.err` of the outcome in `con.ran[key]`, /repo/runner.go:17 -/
  | out (key : Addr)
  /-- `errs[i]` of activation `c` of `Run`, /repo/runner.go:62 -/
  | errs (c i : Nat)
  /-- `dt.Target` of a `*deferredResolutionTarget`, /repo/yaml.go:95 -/
  | dtTarget (o : Obj)
  /-- memory that only code outside the controller touches -/
  | user (n : Nat)
deriving DecidableEq

/-- The mutexes. -/
inductive Mutex where
  /-- `con.mu`, /repo/controller.go:21 -/
  | con
  /-- `o.g.c.L` of the outcome in `con.ran[key]`, /repo/gate.go:9, 15 -/
  | gate (key : Addr)
  /-- `dt.mu` of a `*deferredResolutionTarget`, /repo/yaml.go:93 -/
  | dt (o : Obj)
  /-- a mutex of code outside the controller -/
  | user (n : Nat)
deriving DecidableEq

/-- How a piece of code synchronizes. -/
inductive Sync where
  | none
  /-- it is (part of) a critical section of the mutex -/
  | lock (m : Mutex)
  /-- a `go` statement; the new goroutine has this number -/
  | fork (t : Nat)
  /-- `wg.Done()` on the wait group of activation `c` of `Run` -/
  | done (c : Nat)
  /-- a `wg.Wait()` that returned, on the wait group of activation `c` of `Run` -/
  | wait (c : Nat)
deriving DecidableEq

/-- One piece of code executed by goroutine `tid`: its synchronization, and the variables it read and wrote. -/
structure Access where
  tid : Nat
  sync : Sync
  reads : List Loc
  writes : List Loc

def Access.touches (a : Access) (l : Loc) : Prop := l ∈ a.reads ∨ l ∈ a.writes

/-- Two pieces of code conflict on a variable: both touch it and at least one of them writes it. -/
def Conflict (a b : Access) (l : Loc) : Prop := a.touches l ∧ b.touches l ∧ (l ∈ a.writes ∨ l ∈ b.writes)

/-- Happens-before, on the positions of a trace.  https://go.dev/ref/mem: a goroutine's own order; "the n-th call to
`Unlock` of a mutex is synchronized before the m-th call to `Lock` returns, n < m"; "the `go` statement that starts a
new goroutine is synchronized before the start of the goroutine's execution"; "a call to `Done` is synchronized before
the return of any `Wait` call that it unblocks"; and transitivity. -/
inductive HB (τ : List Access) : Nat → Nat → Prop where
  | order {i j a b} : i < j → τ[i]? = some a → τ[j]? = some b → a.tid = b.tid → HB τ i j
  | mutex {i j a b m} : i < j → τ[i]? = some a → τ[j]? = some b → a.sync = .lock m → b.sync = .lock m → HB τ i j
  | fork {i j a b} : i < j → τ[i]? = some a → τ[j]? = some b → a.sync = .fork b.tid → HB τ i j
  | wg {i j a b c} : i < j → τ[i]? = some a → τ[j]? = some b → a.sync = .done c → b.sync = .wait c → HB τ i j
  | trans {i j k} : HB τ i j → HB τ j k → HB τ i k

/-- Two conflicting accesses that happens-before does not order: a data race. -/
def Race (τ : List Access) (l : Loc) : Prop :=
  ∃ i j a b, i < j ∧ τ[i]? = some a ∧ τ[j]? = some b ∧ a.tid ≠ b.tid ∧ Conflict a b l ∧ ¬ HB τ i j

variable {σ C : Type}

/-- `d.resolve(con)` when `r` is a deferred target (/repo/runner.go:74-76, /repo/yaml.go:100-113): under `dt.mu`, read
`dt.Target`, look the name up in the registry (under `con.mu`, /repo/register.go:52-57), write `dt.Target`.  The lookup
and the write are listed even in the runs where `dt.Target` is already set. -/
def resolveAcc (env : Env σ C) (tid : Nat) : TRef → List Access
  | .val _ => []
  | .ptr o =>
    match env.resolve o with
    | .none => []
    | some _ =>
      [⟨tid, .lock (.dt o), [.dtTarget o], []⟩,
       ⟨tid, .lock .con, [.registry], []⟩,
       ⟨tid, .lock (.dt o), [], [.dtTarget o]⟩]

/-- Does the loop of `Run` start a goroutine for `r` (rather than refuse it)?  /repo/runner.go:66-80 -/
def starts (env : Env σ C) (w : σ) : TRef → Bool
  | .val _ => false
  | .ptr o =>
    match env.resolve o with
    | .none => true
    | some f => match (f w).2 with
      | .ok _ => true
      | .error _ => false

/-- What the step of goroutine `tid` (which is `th`) in state `s` does to memory, in program order. -/
def stepAcc (env : Env σ C) (s : State σ C) (tid : Nat) (th : Thread σ C) : List Access :=
  match th.st, th.job with
  | .lookup, some j =>
    match s.ran j.key with
    -- /repo/runner.go:87-93
    | some _ => [⟨tid, .lock .con, [.ran], []⟩]
    -- /repo/runner.go:87-93 with the outcome and its gate created; then, in verbose mode, `Describe` and `Indentf`
    -- (/repo/runner.go:103-105, /repo/register.go:68-70, /repo/runner.go:137-139)
    | .none =>
      [⟨tid, .lock .con, [.ran], [.ran, .gate j.key, .out j.key]⟩,
       ⟨tid, .lock .con, [.registry], []⟩, ⟨tid, .lock .con, [.depth], []⟩]
  -- /repo/gate.go:31-37, the last time around the loop
  | .waiting, some j => [⟨tid, .lock (.gate j.key), [.gate j.key], []⟩]
  -- /repo/runner.go:99
  | .readOut, some j => [⟨tid, .none, [.out j.key], [.errs j.call j.idx]⟩]
  | .exec (.act _ _), _ => []
  | .exec (.call _ [] _), _ => []
  -- /repo/runner.go:57 (incDepth, :20-24), :62
  | .exec (.call _ (r :: rs) _), _ =>
    [⟨tid, .lock .con, [.depth], [.depth]⟩,
     ⟨tid, .none, [], (List.range (r :: rs).length).map (.errs s.calls.length)⟩]
  -- /repo/runner.go:108, `Describe` when the body returned an error
  | .exec (.ret _), some _ => [⟨tid, .lock .con, [.registry], []⟩]
  | .exec (.ret _), .none => []
  | .spawning _ _ _ [] _, _ => []
  -- /repo/runner.go:66-84
  | .spawning c i _ (r :: _) _, _ =>
    resolveAcc env tid r ++
      [if starts env s.world r then ⟨tid, .fork s.threads.length, [], []⟩ else ⟨tid, .none, [], [.errs c i]⟩]
  -- /repo/runner.go:117, 119, 58 (decDepth, :26-33)
  | .joining c _, _ =>
    [⟨tid, .wait c, (List.range ((s.calls[c]?.map (·.refs.length)).getD 0)).map (.errs c), []⟩,
     ⟨tid, .lock .con, [.depth], [.depth]⟩]
  -- /repo/runner.go:110
  | .setErrs _, some j => [⟨tid, .none, [], [.errs j.call j.idx]⟩]
  -- /repo/runner.go:111
  | .setOut _, some j => [⟨tid, .none, [], [.out j.key]⟩]
  -- /repo/runner.go:112, /repo/gate.go:21-29
  | .openGate _, some j => [⟨tid, .lock (.gate j.key), [.gate j.key], [.gate j.key]⟩]
  -- /repo/runner.go:85
  | .wgDone, some j => [⟨tid, .done j.call, [], []⟩]
  | _, _ => []

/-- The executions of a controller, with their traces.  `A` says what code outside `Run` (bodies of targets, their `Desc`
methods, clients) may do; such code runs in goroutine `tid` between the accesses of `Run` itself. -/
inductive Exec (env : Env σ C) (A : Access → Prop) (w : σ) (cl : List (Proc σ C)) :
    State σ C → List Access → Prop where
  | init : Exec env A w cl (init w cl) []
  | step {s s' τ tid th} (us : List Access) : Exec env A w cl s τ → s.threads[tid]? = some th →
      step env s tid = some s' → (∀ u ∈ us, u.tid = tid ∧ A u) →
      Exec env A w cl s' (τ ++ stepAcc env s tid th ++ us)
  /-- /repo/gate.go:33-35: a goroutine in `o.g.wait()` looks at the gate (and finds it closed, or has yet to leave) -/
  | check {s τ tid j} : Exec env A w cl s τ → s.threads[tid]? = some ⟨some j, .waiting⟩ →
      Exec env A w cl s (τ ++ [⟨tid, .lock (.gate j.key), [.gate j.key], []⟩])
  /-- something outside the process changes the world -/
  | extern {s τ} (f : σ → σ) : Exec env A w cl s τ → Exec env A w cl { s with world := f s.world } τ

/-- What code outside `Run` does if it uses the controller through its methods only: the controller's fields under
`con.mu` (/repo/register.go:20-23, 43-45, 53-55, 68-70, /repo/runner.go:137-139, 155-157), the resolution of a deferred
target under its own mutex (/repo/yaml.go:101-102, 124-125), and never the variables of somebody else's `Run`; its own
memory and mutexes as it likes. -/
def ByMethods (a : Access) : Prop :=
  (a.sync = .none ∨ ∃ m, a.sync = .lock m) ∧
  ∀ l, a.touches l →
    match l with
    | .depth | .ran | .registry => a.sync = .lock .con
    | .dtTarget o => a.sync = .lock (.dt o)
    | .user _ => True
    | _ => False

/-! ## Happens-before on growing traces -/

theorem HB.lt {τ : List Access} {i j : Nat} (h : HB τ i j) : i < j := by
  induction h <;> omega

theorem HB.mono {τ : List Access} {i j : Nat} (h : HB τ i j) (υ : List Access) : HB (τ ++ υ) i j := by
  have ex : ∀ {n : Nat} {x : Access}, τ[n]? = some x → (τ ++ υ)[n]? = some x := by
    intro n x hx
    rw [List.getElem?_append_left (List.getElem?_eq_some_iff.1 hx).1]; exact hx
  induction h with
  | order h1 h2 h3 h4 => exact .order h1 (ex h2) (ex h3) h4
  | mutex h1 h2 h3 h4 h5 => exact .mutex h1 (ex h2) (ex h3) h4 h5
  | fork h1 h2 h3 h4 => exact .fork h1 (ex h2) (ex h3) h4
  | wg h1 h2 h3 h4 h5 => exact .wg h1 (ex h2) (ex h3) h4 h5
  | trans _ _ h1 h2 => exact .trans h1 h2

/-- Position `i` is, or happens before, a position with property `P`. -/
def Before (τ : List Access) (P : Access → Prop) (i : Nat) : Prop :=
  ∃ j b, τ[j]? = some b ∧ P b ∧ (i = j ∨ HB τ i j)

/-- Everything goroutine `t` does from now on happens after position `i`. -/
def Knows (τ : List Access) (t i : Nat) : Prop := Before τ (fun b => b.tid = t ∨ b.sync = .fork t) i

theorem Before.mono {τ : List Access} {P : Access → Prop} {i : Nat} (h : Before τ P i) (υ : List Access) :
    Before (τ ++ υ) P i := by
  obtain ⟨j, b, h1, h2, h3⟩ := h
  refine ⟨j, b, ?_, h2, h3.imp id (·.mono υ)⟩
  rw [List.getElem?_append_left (List.getElem?_eq_some_iff.1 h1).1]; exact h1

/-- A new access after a position that is `Before` something it synchronizes with. -/
theorem Before.hb {τ : List Access} {P : Access → Prop} {i : Nat} {e : Access} (h : Before τ P i)
    (hP : ∀ j b, τ[j]? = some b → P b → HB (τ ++ [e]) j τ.length) : HB (τ ++ [e]) i τ.length := by
  obtain ⟨j, b, h1, h2, h3⟩ := h
  rcases h3 with rfl | h3
  · exact hP _ _ h1 h2
  · exact .trans (h3.mono _) (hP _ _ h1 h2)

theorem get_old {τ : List Access} {e : Access} {i : Nat} {b : Access} (h : τ[i]? = some b) :
    i < τ.length ∧ (τ ++ [e])[i]? = some b := by
  have := (List.getElem?_eq_some_iff.1 h).1
  exact ⟨this, by rw [List.getElem?_append_left this]; exact h⟩

theorem get_new {τ : List Access} {e : Access} : (τ ++ [e])[τ.length]? = some e := by simp

theorem get_snoc {τ : List Access} {e b : Access} {i : Nat} (h : (τ ++ [e])[i]? = some b) :
    τ[i]? = some b ∨ (i = τ.length ∧ b = e) := by
  by_cases hi : i < τ.length
  · rw [List.getElem?_append_left hi] at h; exact Or.inl h
  · rw [List.getElem?_append_right (by omega)] at h
    have : i - τ.length = 0 := by
      rcases Nat.eq_zero_or_pos (i - τ.length) with h0 | h0
      · exact h0
      · rw [List.getElem?_eq_none (by simp; omega)] at h; cases h
    rw [this] at h
    exact Or.inr ⟨by omega, by simpa using h.symm⟩

theorem Knows.hb {τ : List Access} {e : Access} {i : Nat} (h : Knows τ e.tid i) : HB (τ ++ [e]) i τ.length := by
  refine Before.hb h fun j b h1 h2 => ?_
  rcases h2 with h2 | h2
  · exact .order (get_old (e := e) h1).1 (get_old h1).2 get_new h2
  · exact .fork (get_old (e := e) h1).1 (get_old h1).2 get_new h2

/-- An earlier critical section of the same mutex. -/
theorem hb_mutex {τ : List Access} {e a : Access} {i : Nat} {m : Mutex} (h : τ[i]? = some a) (ha : a.sync = .lock m)
    (he : e.sync = .lock m) : HB (τ ++ [e]) i τ.length :=
  .mutex (get_old (e := e) h).1 (get_old h).2 get_new ha he

/-- A position that happens before the new access is known to its goroutine (and to the one it starts). -/
theorem HB.knows {τ : List Access} {e : Access} {i : Nat} (h : HB (τ ++ [e]) i τ.length) {t : Nat}
    (ht : e.tid = t ∨ e.sync = .fork t) : Knows (τ ++ [e]) t i :=
  ⟨τ.length, e, get_new, ht, Or.inr h⟩

theorem knows_new {τ : List Access} {e : Access} {t : Nat} (ht : e.tid = t ∨ e.sync = .fork t) :
    Knows (τ ++ [e]) t τ.length := ⟨τ.length, e, get_new, ht, Or.inl rfl⟩

/-! ## The invariant -/

/-- Position `x` touches `l`. -/
def TouchAt (τ : List Access) (x : Nat) (l : Loc) : Prop := ∃ a, τ[x]? = some a ∧ a.touches l
/-- Position `x` writes `l`. -/
def WriteAt (τ : List Access) (x : Nat) (l : Loc) : Prop := ∃ a, τ[x]? = some a ∧ l ∈ a.writes
/-- Position `x` synchronizes by `y`. -/
def SyncAt (τ : List Access) (x : Nat) (y : Sync) : Prop := ∃ a, τ[x]? = some a ∧ a.sync = y

theorem touchAt_snoc {τ : List Access} {e : Access} {x : Nat} {l : Loc} :
    TouchAt (τ ++ [e]) x l ↔ TouchAt τ x l ∨ (x = τ.length ∧ e.touches l) := by
  constructor
  · rintro ⟨a, h, h'⟩
    rcases get_snoc h with h | ⟨rfl, rfl⟩
    · exact Or.inl ⟨a, h, h'⟩
    · exact Or.inr ⟨rfl, h'⟩
  · rintro (⟨a, h, h'⟩ | ⟨rfl, h'⟩)
    · exact ⟨a, (get_old h).2, h'⟩
    · exact ⟨e, get_new, h'⟩

theorem writeAt_snoc {τ : List Access} {e : Access} {x : Nat} {l : Loc} :
    WriteAt (τ ++ [e]) x l ↔ WriteAt τ x l ∨ (x = τ.length ∧ l ∈ e.writes) := by
  constructor
  · rintro ⟨a, h, h'⟩
    rcases get_snoc h with h | ⟨rfl, rfl⟩
    · exact Or.inl ⟨a, h, h'⟩
    · exact Or.inr ⟨rfl, h'⟩
  · rintro (⟨a, h, h'⟩ | ⟨rfl, h'⟩)
    · exact ⟨a, (get_old h).2, h'⟩
    · exact ⟨e, get_new, h'⟩

theorem syncAt_snoc {τ : List Access} {e : Access} {x : Nat} {y : Sync} :
    SyncAt (τ ++ [e]) x y ↔ SyncAt τ x y ∨ (x = τ.length ∧ e.sync = y) := by
  constructor
  · rintro ⟨a, h, h'⟩
    rcases get_snoc h with h | ⟨rfl, rfl⟩
    · exact Or.inl ⟨a, h, h'⟩
    · exact Or.inr ⟨rfl, h'⟩
  · rintro (⟨a, h, h'⟩ | ⟨rfl, h'⟩)
    · exact ⟨a, (get_old h).2, h'⟩
    · exact ⟨e, get_new, h'⟩

theorem WriteAt.touch {τ : List Access} {x : Nat} {l : Loc} (h : WriteAt τ x l) : TouchAt τ x l :=
  h.imp fun _ ⟨h1, h2⟩ => ⟨h1, Or.inr h2⟩

/-- Position `x` happens before (or is) a critical section of `m`. -/
def ToLock (τ : List Access) (m : Mutex) (x : Nat) : Prop := Before τ (fun b => b.sync = .lock m) x
/-- Position `x` happens before (or is) a `wg.Done()` of activation `c`. -/
def ToDone (τ : List Access) (c x : Nat) : Prop := Before τ (fun b => b.sync = .done c) x

/-- Element `n` of activation `c` has a goroutine that has not finished. -/
def Pending (s : State σ C) (c n : Nat) : Prop :=
  ∃ (t' : Nat) (j : Job C) (st' : TSt σ C), s.th t' = some ⟨some j, st'⟩ ∧ j.call = c ∧ j.idx = n ∧ st' ≠ .done

theorem Pending.step {env : Env σ C} {s s' : State σ C} {tid th} (hth : s.th tid = some th) (h : StepC env s tid th s')
    (hd : th.st ≠ .wgDone) {c n} (hp : Pending s c n) : Pending s' c n := by
  obtain ⟨t', j, st', h1, h2, h3, h4⟩ := hp
  obtain ⟨st'', h5, h6⟩ := th_persist hth h h1
  refine ⟨t', j, st'', h5, h2, h3, ?_⟩
  by_cases ht : t' = tid
  · subst ht
    rw [hth] at h1
    cases h1
    have hnone : s.th s.threads.length = none := by simp [State.th]
    cases h <;> simp only [th_set hth, th_set_snoc hth] at h5 <;> grind
  · rw [h6 ht]; exact h4

structure RI (s : State σ C) (τ : List Access) : Prop where
  /-- the caller, in its loop, knows of all accesses to the elements of `errs` it has yet to come to -/
  e1 : ∀ (t : Nat) (jb : Option (Job C)) (c i ctx todo) (k : Option Err → Proc σ C),
    s.th t = some ⟨jb, .spawning c i ctx todo k⟩ → ∀ n x, i ≤ n → TouchAt τ x (.errs c n) → Knows τ t x
  /-- the goroutine of an element knows of all accesses to the element -/
  e2 : ∀ (t : Nat) (j : Job C) (st : TSt σ C), s.th t = some ⟨some j, st⟩ → st ≠ .done →
    ∀ x, TouchAt τ x (.errs j.call j.idx) → Knows τ t x
  /-- what the caller does not know it will learn from the wait group -/
  e3 : ∀ (t : Nat) (jb : Option (Job C)) (st : TSt σ C) (c : Nat), s.th t = some ⟨jb, st⟩ → st.within c = true →
    ∀ n x, TouchAt τ x (.errs c n) → Knows τ t x ∨ ToDone τ c x ∨ Pending s c n
  e4 : ∀ x c n, TouchAt τ x (.errs c n) → s.cl c ≠ none
  o0 : ∀ key, s.ran key = none → ∀ x, ¬ TouchAt τ x (.gate key) ∧ ¬ TouchAt τ x (.out key)
  o1 : ∀ (t : Nat) (j : Job C) (st : TSt σ C), s.th t = some ⟨some j, st⟩ → st.owning = true →
    ∀ x, TouchAt τ x (.out j.key) → Knows τ t x
  o2 : ∀ key o, s.ran key = some o → o.opened = true → ∀ x, WriteAt τ x (.out key) → ToLock τ (.gate key) x
  o3 : ∀ (t : Nat) (j : Job C), s.th t = some ⟨some j, .readOut⟩ → ∀ x, WriteAt τ x (.out j.key) → Knows τ t x
  g1 : ∀ key x, TouchAt τ x (.gate key) → SyncAt τ x (.lock (.gate key)) ∨ (SyncAt τ x (.lock .con) ∧
    ∀ (t : Nat) (j : Job C) (st : TSt σ C), s.th t = some ⟨some j, st⟩ → j.key = key → st ≠ .lookup → Knows τ t x)
  p1 : ∀ x, (TouchAt τ x .depth ∨ TouchAt τ x .ran ∨ TouchAt τ x .registry) → SyncAt τ x (.lock .con)
  p2 : ∀ x o, TouchAt τ x (.dtTarget o) → SyncAt τ x (.lock (.dt o))

/-- The new access `e` happens after everything it conflicts with. -/
def Ordered (τ : List Access) (e : Access) : Prop :=
  ∀ x l, (∀ n, l ≠ .user n) → ((TouchAt τ x l ∧ l ∈ e.writes) ∨ (WriteAt τ x l ∧ e.touches l)) →
    HB (τ ++ [e]) x τ.length

/-- All conflicting accesses are ordered. -/
def RaceFree (τ : List Access) : Prop :=
  ∀ i j a b l, i < j → τ[i]? = some a → τ[j]? = some b → (∀ n, l ≠ .user n) → Conflict a b l → HB τ i j

theorem RaceFree.snoc {τ : List Access} {e : Access} (h : RaceFree τ) (he : Ordered τ e) : RaceFree (τ ++ [e]) := by
  intro i j a b l hij ha hb hl hc
  rcases get_snoc hb with hb | ⟨rfl, rfl⟩
  · have hi : i < τ.length := by have := (List.getElem?_eq_some_iff.1 hb).1; omega
    rw [List.getElem?_append_left hi] at ha
    exact (h i j a b l hij ha hb hl hc).mono _
  · rw [List.getElem?_append_left hij] at ha
    obtain ⟨h1, h2, h3⟩ := hc
    refine he i l hl ?_
    rcases h3 with h3 | h3
    · exact Or.inr ⟨⟨a, ha, h3⟩, h2⟩
    · exact Or.inl ⟨⟨a, ha, h1⟩, h3⟩

/-- What remains true of the old positions when the trace grows. -/
theorem Knows.snoc {τ : List Access} {t x : Nat} (h : Knows τ t x) (e : Access) : Knows (τ ++ [e]) t x := h.mono _
theorem ToLock.snoc {τ : List Access} {m x} (h : ToLock τ m x) (e : Access) : ToLock (τ ++ [e]) m x := h.mono _
theorem ToDone.snoc {τ : List Access} {c x} (h : ToDone τ c x) (e : Access) : ToDone (τ ++ [e]) c x := h.mono _

theorem SyncAt.hb {τ : List Access} {e : Access} {x : Nat} {m : Mutex} (h : SyncAt τ x (.lock m)) (he : e.sync = .lock m) :
    HB (τ ++ [e]) x τ.length := by
  obtain ⟨a, h1, h2⟩ := h; exact hb_mutex h1 h2 he

theorem SyncAt.toLock {τ : List Access} {x : Nat} {m : Mutex} (h : SyncAt τ x (.lock m)) : ToLock τ m x := by
  obtain ⟨a, h1, h2⟩ := h; exact ⟨x, a, h1, h2, Or.inl rfl⟩

theorem ToLock.hb {τ : List Access} {e : Access} {x : Nat} {m : Mutex} (h : ToLock τ m x) (he : e.sync = .lock m) :
    HB (τ ++ [e]) x τ.length := Before.hb h fun _ _ h1 h2 => hb_mutex h1 h2 he

theorem ToDone.hb {τ : List Access} {e : Access} {x c : Nat} (h : ToDone τ c x) (he : e.sync = .wait c) :
    HB (τ ++ [e]) x τ.length :=
  Before.hb h fun _ _ h1 h2 => .wg (get_old (e := e) h1).1 (get_old h1).2 get_new h2 he

theorem HB.toLock {τ : List Access} {e : Access} {x : Nat} {m : Mutex} (h : HB (τ ++ [e]) x τ.length)
    (he : e.sync = .lock m) : ToLock (τ ++ [e]) m x := ⟨τ.length, e, get_new, he, Or.inr h⟩

theorem HB.toDone {τ : List Access} {e : Access} {x c : Nat} (h : HB (τ ++ [e]) x τ.length)
    (he : e.sync = .done c) : ToDone (τ ++ [e]) c x := ⟨τ.length, e, get_new, he, Or.inr h⟩

/-- An access that leaves the variables of `Run` alone. -/
theorem RI.quiet {s : State σ C} {τ : List Access} {e : Access} (i : RI s τ)
    (he : ∀ l, e.touches l → match l with
      | .depth | .ran | .registry => e.sync = .lock .con
      | .dtTarget o => e.sync = .lock (.dt o)
      | .user _ => True
      | _ => False) : RI s (τ ++ [e]) ∧ Ordered τ e := by
  have hg : ∀ k, ¬ e.touches (.gate k) := fun k h => he _ h
  have ho : ∀ k, ¬ e.touches (.out k) := fun k h => he _ h
  have hr : ∀ c k, ¬ e.touches (.errs c k) := fun c k h => he _ h
  have how : ∀ k, .out k ∉ e.writes := fun k h => ho k (Or.inr h)
  have hd : e.touches .depth → e.sync = .lock .con := fun h => he _ h
  have hra : e.touches .ran → e.sync = .lock .con := fun h => he _ h
  have hre : e.touches .registry → e.sync = .lock .con := fun h => he _ h
  have hdt : ∀ o, e.touches (.dtTarget o) → e.sync = .lock (.dt o) := fun o h => he _ h
  obtain ⟨e1, e2, e3, e4, o0, o1, o2, o3, g1, p1, p2⟩ := i
  refine ⟨?_, ?_⟩
  · constructor <;> simp only [touchAt_snoc, writeAt_snoc, syncAt_snoc, hg, ho, hr, how, and_false, or_false]
    · intro t jb c i ctx todo k h n x h1 h2
      exact (e1 t jb c i ctx todo k h n x h1 h2).snoc _
    · intro t j st h h0 x h1
      exact (e2 t j st h h0 x h1).snoc _
    · intro t jb st c h h0 n x h1
      exact (e3 t jb st c h h0 n x h1).imp (·.snoc _) (Or.imp (·.snoc _) id)
    · exact e4
    · exact o0
    · intro t j st h h0 x h1
      exact (o1 t j st h h0 x h1).snoc _
    · intro key o h h0 x h1
      exact (o2 key o h h0 x h1).snoc _
    · intro t j h x h1
      exact (o3 t j h x h1).snoc _
    · intro key x h
      exact (g1 key x h).imp Or.inl fun h => ⟨Or.inl h.1, fun t j st h1 h2 h3 => (h.2 t j st h1 h2 h3).snoc _⟩
    · intro x h
      have := p1 x
      grind
    · intro x o h
      have := p2 x o
      grind
  · intro x l hl h
    have ht : TouchAt τ x l ∧ e.touches l := by
      rcases h with h | h
      · exact ⟨h.1, Or.inr h.2⟩
      · exact ⟨h.1.touch, h.2⟩
    cases l with
    | depth => exact (p1 x (Or.inl ht.1)).hb (hd ht.2)
    | ran => exact (p1 x (Or.inr (Or.inl ht.1))).hb (hra ht.2)
    | registry => exact (p1 x (Or.inr (Or.inr ht.1))).hb (hre ht.2)
    | dtTarget o => exact (p2 x o ht.1).hb (hdt o ht.2)
    | user n => exact absurd rfl (hl n)
    | gate k => exact absurd ht.2 (hg k)
    | out k => exact absurd ht.2 (ho k)
    | errs c k => exact absurd ht.2 (hr c k)

set_option linter.unusedSimpArgs false
set_option linter.unusedVariables false

/-- Steps that touch nothing. -/
theorem RI.silent {env : Env σ C} {s s' : State σ C} {τ : List Access} {tid th} (iv : Inv env s) (i : RI s τ)
    (hth : s.th tid = some th) (h : StepC env s tid th s')
    (hq : (∃ f k, th.st = .exec (.act f k)) ∨ (∃ ctx k, th.st = .exec (.call ctx [] k)) ∨ (∃ e, th.st = .exec (.ret e)) ∨
      (∃ c i ctx k, th.st = .spawning c i ctx [] k)) : RI s' τ := by
  have hP := fun c n => Pending.step (c := c) (n := n) hth h (by grind)
  obtain ⟨e1, e2, e3, e4, o0, o1, o2, o3, g1, p1, p2⟩ := i
  obtain ⟨jb, st⟩ := th
  have hcn := cl_length s
  have he2 := e2 tid
  have he3 := e3 tid
  have ho1 := o1 tid
  have ho3 := o3 tid
  have hcl := iv.a.client tid
  cases h <;> simp only at * <;> subst_vars <;> simp only [reduceCtorEq, TSt.exec.injEq, exists_false,
    or_false, false_or, TSt.spawning.injEq] at hq
  all_goals
    constructor <;> try simp only [th_set hth, cl_same, cl_modify, cl_snoc]
  case loopEnd.e3 =>
    intro t jb' st c' h1 h2 n x h3
    split at h1
    · cases h1
      have := he3 _ _ c' hth (by simpa [TSt.within] using h2) n x h3
      subst_vars
      exact this.imp id (Or.imp id (hP _ _))
    · exact (e3 t jb' st c' h1 h2 n x h3).imp id (Or.imp id (hP _ _))
  all_goals grind [TSt.within, TSt.owning]

/-- A goroutine past its lookup finds an outcome in the table. -/
theorem InvA.past {s : State σ C} (ia : InvA s) {t : Nat} {j : Job C} {st : TSt σ C} (h : s.th t = some ⟨some j, st⟩)
    (hl : st ≠ .lookup) : s.ran j.key ≠ none := by
  have h1 := ia.own t j st h
  have h2 := ia.settled t j st h
  have h3 := ia.wait t j
  cases st <;> first | exact absurd rfl hl | exact h3 h | skip
  all_goals first
    | (obtain ⟨_, h⟩ := h1 rfl; rw [h]; simp; done)
    | (obtain ⟨_, _, h⟩ := h2 rfl; rw [h]; simp; done)

/-- Only one goroutine is inside activation `c`. -/
theorem InvC.within_inj {env : Env σ C} {s : State σ C} (ic : InvC env s) {t t' : Nat} {jb jb' : Option (Job C)}
    {st st' : TSt σ C} {c : Nat} (h : s.th t = some ⟨jb, st⟩) (h' : s.th t' = some ⟨jb', st'⟩)
    (hc : st.within c = true) (hc' : st'.within c = true) : t = t' := by
  obtain ⟨_, _, h1⟩ := ic.withinHdr h hc
  obtain ⟨_, _, h2⟩ := ic.withinHdr h' hc'
  rw [h1] at h2; cases h2; rfl

theorem RI.main_lookupHit {env : Env σ C} {s s' : State σ C} {τ : List Access} {tid : Nat} {th : Thread σ C} (iv : Inv env s)
    (ri : RI s τ) (hth : s.th tid = some th) (h : StepC env s tid th s') {j} (h1 : th.st = .lookup) (h2 : th.job = some j) {o} (h3 : s.ran j.key = some o) (e : Access)
    (he : e = ⟨tid, .lock .con, [.ran], []⟩) : RI s' (τ ++ [e]) ∧ Ordered τ e := by
  have het : e.tid = tid := by rw [he]
  have hes : e.sync = .lock .con := by rw [he]
  have hew : e.writes = [] := by rw [he]
  have hel : ∀ l, e.touches l ↔ l = .ran := by intro l; simp [he, Access.touches]
  have hK := fun t x (h : Knows τ t x) => h.snoc e
  have hL := fun m x (h : ToLock τ m x) => h.snoc e
  have hD := fun c x (h : ToDone τ c x) => h.snoc e
  have hhb := fun x (h : Knows τ tid x) => Knows.hb (e := e) (het ▸ h)
  have hhk := fun x (h : HB (τ ++ [e]) x τ.length) => h.knows (Or.inl het)
  have hkn : Knows (τ ++ [e]) tid τ.length := knows_new (Or.inl het)
  have hwt := fun x l (h : WriteAt τ x l) => h.touch
  clear he
  have hP := fun c n => Pending.step (c := c) (n := n) hth h (by rw [h1]; simp)
  obtain ⟨e1, e2, e3, e4, o0, o1, o2, o3, g1, p1, p2⟩ := ri
  obtain ⟨jb, st⟩ := th
  dsimp only at h1 h2
  subst h1 h2
  have hnone : s.th s.threads.length = none := by simp [State.th]
  have hps : Pending s j.call j.idx := ⟨tid, j, _, hth, rfl, rfl, by simp⟩
  have he2 := e2 tid j _ hth (by simp)
  have ijob := iv.c.job tid j _ hth
  have hlh := fun x (h : ToLock τ (.con) x) => h.hb hes
  have hsl := fun x (h : SyncAt τ x (.lock (.con))) => h.hb hes
  cases h <;> simp only [reduceCtorEq, Option.some.injEq, TSt.setErrs.injEq, TSt.setOut.injEq, TSt.openGate.injEq,
    TSt.exec.injEq, Proc.call.injEq, TSt.spawning.injEq, TSt.joining.injEq, List.cons.injEq] at *
  all_goals (try (exfalso; grind; done))
  subst_vars
  refine ⟨?_, ?_⟩
  · constructor <;> simp only [th_set hth, th_set_snoc hth, cl_same, cl_modify, cl_snoc, touchAt_snoc, writeAt_snoc,
      syncAt_snoc, hel, hew, hes, upd]
    skip
    all_goals grind [TSt.within, TSt.owning]
  · intro x l hl h
    simp only [hel, hew] at h
    grind

theorem RI.main_lookupNew {env : Env σ C} {s s' : State σ C} {τ : List Access} {tid : Nat} {th : Thread σ C} (iv : Inv env s)
    (ri : RI s τ) (hth : s.th tid = some th) (h : StepC env s tid th s') {j} (h1 : th.st = .lookup) (h2 : th.job = some j) (h3 : s.ran j.key = none) (e : Access)
    (he : e = ⟨tid, .lock .con, [.ran], [.ran, .gate j.key, .out j.key]⟩) : RI s' (τ ++ [e]) ∧ Ordered τ e := by
  have het : e.tid = tid := by rw [he]
  have hes : e.sync = .lock .con := by rw [he]
  have hew : e.writes = [.ran, .gate j.key, .out j.key] := by rw [he]
  have hel : ∀ l, e.touches l ↔ l = .ran ∨ l = .gate j.key ∨ l = .out j.key := by intro l; simp [he, Access.touches]
  have hK := fun t x (h : Knows τ t x) => h.snoc e
  have hL := fun m x (h : ToLock τ m x) => h.snoc e
  have hD := fun c x (h : ToDone τ c x) => h.snoc e
  have hhb := fun x (h : Knows τ tid x) => Knows.hb (e := e) (het ▸ h)
  have hhk := fun x (h : HB (τ ++ [e]) x τ.length) => h.knows (Or.inl het)
  have hkn : Knows (τ ++ [e]) tid τ.length := knows_new (Or.inl het)
  have hwt := fun x l (h : WriteAt τ x l) => h.touch
  clear he
  have hP := fun c n => Pending.step (c := c) (n := n) hth h (by rw [h1]; simp)
  obtain ⟨e1, e2, e3, e4, o0, o1, o2, o3, g1, p1, p2⟩ := ri
  obtain ⟨jb, st⟩ := th
  dsimp only at h1 h2
  subst h1 h2
  have hnone : s.th s.threads.length = none := by simp [State.th]
  have hps : Pending s j.call j.idx := ⟨tid, j, _, hth, rfl, rfl, by simp⟩
  have he2 := e2 tid j _ hth (by simp)
  have ijob := iv.c.job tid j _ hth
  have hlh := fun x (h : ToLock τ (.con) x) => h.hb hes
  have hsl := fun x (h : SyncAt τ x (.lock (.con))) => h.hb hes
  have iown := iv.a.own
  have ipast := fun t j st (h : s.th t = some ⟨some j, st⟩) => iv.a.past h
  have iset := fun t j h => iv.a.settled t j .readOut h rfl
  cases h <;> simp only [reduceCtorEq, Option.some.injEq, TSt.setErrs.injEq, TSt.setOut.injEq, TSt.openGate.injEq,
    TSt.exec.injEq, Proc.call.injEq, TSt.spawning.injEq, TSt.joining.injEq, List.cons.injEq] at *
  all_goals (try (exfalso; grind; done))
  subst_vars
  refine ⟨?_, ?_⟩
  · constructor <;> simp only [th_set hth, th_set_snoc hth, cl_same, cl_modify, cl_snoc, touchAt_snoc, writeAt_snoc,
      syncAt_snoc, hel, hew, hes, upd]
    skip
    all_goals grind [TSt.within, TSt.owning]
  · intro x l hl h
    simp only [hel, hew] at h
    grind

theorem RI.main_wake {env : Env σ C} {s s' : State σ C} {τ : List Access} {tid : Nat} {th : Thread σ C} (iv : Inv env s)
    (ri : RI s τ) (hth : s.th tid = some th) (h : StepC env s tid th s') {j} (h1 : th.st = .waiting) (h2 : th.job = some j) (e : Access)
    (he : e = ⟨tid, .lock (.gate j.key), [.gate j.key], []⟩) : RI s' (τ ++ [e]) ∧ Ordered τ e := by
  have het : e.tid = tid := by rw [he]
  have hes : e.sync = .lock (.gate j.key) := by rw [he]
  have hew : e.writes = [] := by rw [he]
  have hel : ∀ l, e.touches l ↔ l = .gate j.key := by intro l; simp [he, Access.touches]
  have hK := fun t x (h : Knows τ t x) => h.snoc e
  have hL := fun m x (h : ToLock τ m x) => h.snoc e
  have hD := fun c x (h : ToDone τ c x) => h.snoc e
  have hhb := fun x (h : Knows τ tid x) => Knows.hb (e := e) (het ▸ h)
  have hhk := fun x (h : HB (τ ++ [e]) x τ.length) => h.knows (Or.inl het)
  have hkn : Knows (τ ++ [e]) tid τ.length := knows_new (Or.inl het)
  have hwt := fun x l (h : WriteAt τ x l) => h.touch
  clear he
  have hP := fun c n => Pending.step (c := c) (n := n) hth h (by rw [h1]; simp)
  obtain ⟨e1, e2, e3, e4, o0, o1, o2, o3, g1, p1, p2⟩ := ri
  obtain ⟨jb, st⟩ := th
  dsimp only at h1 h2
  subst h1 h2
  have hnone : s.th s.threads.length = none := by simp [State.th]
  have hps : Pending s j.call j.idx := ⟨tid, j, _, hth, rfl, rfl, by simp⟩
  have he2 := e2 tid j _ hth (by simp)
  have ijob := iv.c.job tid j _ hth
  have hlh := fun x (h : ToLock τ (.gate j.key) x) => h.hb hes
  have hsl := fun x (h : SyncAt τ x (.lock (.gate j.key))) => h.hb hes
  cases h <;> simp only [reduceCtorEq, Option.some.injEq, TSt.setErrs.injEq, TSt.setOut.injEq, TSt.openGate.injEq,
    TSt.exec.injEq, Proc.call.injEq, TSt.spawning.injEq, TSt.joining.injEq, List.cons.injEq] at *
  skip
  subst_vars
  refine ⟨?_, ?_⟩
  · constructor <;> simp only [th_set hth, th_set_snoc hth, cl_same, cl_modify, cl_snoc, touchAt_snoc, writeAt_snoc,
      syncAt_snoc, hel, hew, hes, upd]
    skip
    all_goals grind [TSt.within, TSt.owning]
  · intro x l hl h
    simp only [hel, hew] at h
    grind

theorem RI.main_readOut {env : Env σ C} {s s' : State σ C} {τ : List Access} {tid : Nat} {th : Thread σ C} (iv : Inv env s)
    (ri : RI s τ) (hth : s.th tid = some th) (h : StepC env s tid th s') {j} (h1 : th.st = .readOut) (h2 : th.job = some j) (e : Access)
    (he : e = ⟨tid, .none, [.out j.key], [.errs j.call j.idx]⟩) : RI s' (τ ++ [e]) ∧ Ordered τ e := by
  have het : e.tid = tid := by rw [he]
  have hes : e.sync = .none := by rw [he]
  have hew : e.writes = [.errs j.call j.idx] := by rw [he]
  have hel : ∀ l, e.touches l ↔ l = .out j.key ∨ l = .errs j.call j.idx := by intro l; simp [he, Access.touches]
  have hK := fun t x (h : Knows τ t x) => h.snoc e
  have hL := fun m x (h : ToLock τ m x) => h.snoc e
  have hD := fun c x (h : ToDone τ c x) => h.snoc e
  have hhb := fun x (h : Knows τ tid x) => Knows.hb (e := e) (het ▸ h)
  have hhk := fun x (h : HB (τ ++ [e]) x τ.length) => h.knows (Or.inl het)
  have hkn : Knows (τ ++ [e]) tid τ.length := knows_new (Or.inl het)
  have hwt := fun x l (h : WriteAt τ x l) => h.touch
  clear he
  have hP := fun c n => Pending.step (c := c) (n := n) hth h (by rw [h1]; simp)
  obtain ⟨e1, e2, e3, e4, o0, o1, o2, o3, g1, p1, p2⟩ := ri
  obtain ⟨jb, st⟩ := th
  dsimp only at h1 h2
  subst h1 h2
  have hnone : s.th s.threads.length = none := by simp [State.th]
  have hps : Pending s j.call j.idx := ⟨tid, j, _, hth, rfl, rfl, by simp⟩
  have he2 := e2 tid j _ hth (by simp)
  have ijob := iv.c.job tid j _ hth
  have ho3 := o3 tid j hth
  have iown := iv.a.own
  have iset := iv.a.settled tid j _ hth rfl
  have ibound := iv.c.bound
  have iinj := fun t' j' => iv.d.inj tid t' j j' .readOut
  cases h <;> simp only [reduceCtorEq, Option.some.injEq, TSt.setErrs.injEq, TSt.setOut.injEq, TSt.openGate.injEq,
    TSt.exec.injEq, Proc.call.injEq, TSt.spawning.injEq, TSt.joining.injEq, List.cons.injEq] at *
  skip
  subst_vars
  refine ⟨?_, ?_⟩
  · constructor <;> simp only [th_set hth, th_set_snoc hth, cl_same, cl_modify, cl_snoc, touchAt_snoc, writeAt_snoc,
      syncAt_snoc, hel, hew, hes, upd]
    skip
    all_goals grind [TSt.within, TSt.owning]
  · intro x l hl h
    simp only [hel, hew] at h
    grind

theorem RI.main_setErrs {env : Env σ C} {s s' : State σ C} {τ : List Access} {tid : Nat} {th : Thread σ C} (iv : Inv env s)
    (ri : RI s τ) (hth : s.th tid = some th) (h : StepC env s tid th s') {j err} (h1 : th.st = .setErrs err) (h2 : th.job = some j) (e : Access)
    (he : e = ⟨tid, .none, [], [.errs j.call j.idx]⟩) : RI s' (τ ++ [e]) ∧ Ordered τ e := by
  have het : e.tid = tid := by rw [he]
  have hes : e.sync = .none := by rw [he]
  have hew : e.writes = [.errs j.call j.idx] := by rw [he]
  have hel : ∀ l, e.touches l ↔ l = .errs j.call j.idx := by intro l; simp [he, Access.touches]
  have hK := fun t x (h : Knows τ t x) => h.snoc e
  have hL := fun m x (h : ToLock τ m x) => h.snoc e
  have hD := fun c x (h : ToDone τ c x) => h.snoc e
  have hhb := fun x (h : Knows τ tid x) => Knows.hb (e := e) (het ▸ h)
  have hhk := fun x (h : HB (τ ++ [e]) x τ.length) => h.knows (Or.inl het)
  have hkn : Knows (τ ++ [e]) tid τ.length := knows_new (Or.inl het)
  have hwt := fun x l (h : WriteAt τ x l) => h.touch
  clear he
  have hP := fun c n => Pending.step (c := c) (n := n) hth h (by rw [h1]; simp)
  obtain ⟨e1, e2, e3, e4, o0, o1, o2, o3, g1, p1, p2⟩ := ri
  obtain ⟨jb, st⟩ := th
  dsimp only at h1 h2
  subst h1 h2
  have hnone : s.th s.threads.length = none := by simp [State.th]
  have hps : Pending s j.call j.idx := ⟨tid, j, _, hth, rfl, rfl, by simp⟩
  have he2 := e2 tid j _ hth (by simp)
  have ijob := iv.c.job tid j _ hth
  have ho1 := o1 tid j _ hth rfl
  have ibound := iv.c.bound
  have iinj := fun t' j' => iv.d.inj tid t' j j' (.setErrs err)
  cases h <;> simp only [reduceCtorEq, Option.some.injEq, TSt.setErrs.injEq, TSt.setOut.injEq, TSt.openGate.injEq,
    TSt.exec.injEq, Proc.call.injEq, TSt.spawning.injEq, TSt.joining.injEq, List.cons.injEq] at *
  skip
  subst_vars
  refine ⟨?_, ?_⟩
  · constructor <;> simp only [th_set hth, th_set_snoc hth, cl_same, cl_modify, cl_snoc, touchAt_snoc, writeAt_snoc,
      syncAt_snoc, hel, hew, hes, upd]
    skip
    all_goals grind [TSt.within, TSt.owning]
  · intro x l hl h
    simp only [hel, hew] at h
    grind

theorem RI.main_setOut {env : Env σ C} {s s' : State σ C} {τ : List Access} {tid : Nat} {th : Thread σ C} (iv : Inv env s)
    (ri : RI s τ) (hth : s.th tid = some th) (h : StepC env s tid th s') {j err} (h1 : th.st = .setOut err) (h2 : th.job = some j) (e : Access)
    (he : e = ⟨tid, .none, [], [.out j.key]⟩) : RI s' (τ ++ [e]) ∧ Ordered τ e := by
  have het : e.tid = tid := by rw [he]
  have hes : e.sync = .none := by rw [he]
  have hew : e.writes = [.out j.key] := by rw [he]
  have hel : ∀ l, e.touches l ↔ l = .out j.key := by intro l; simp [he, Access.touches]
  have hK := fun t x (h : Knows τ t x) => h.snoc e
  have hL := fun m x (h : ToLock τ m x) => h.snoc e
  have hD := fun c x (h : ToDone τ c x) => h.snoc e
  have hhb := fun x (h : Knows τ tid x) => Knows.hb (e := e) (het ▸ h)
  have hhk := fun x (h : HB (τ ++ [e]) x τ.length) => h.knows (Or.inl het)
  have hkn : Knows (τ ++ [e]) tid τ.length := knows_new (Or.inl het)
  have hwt := fun x l (h : WriteAt τ x l) => h.touch
  clear he
  have hP := fun c n => Pending.step (c := c) (n := n) hth h (by rw [h1]; simp)
  obtain ⟨e1, e2, e3, e4, o0, o1, o2, o3, g1, p1, p2⟩ := ri
  obtain ⟨jb, st⟩ := th
  dsimp only at h1 h2
  subst h1 h2
  have hnone : s.th s.threads.length = none := by simp [State.th]
  have hps : Pending s j.call j.idx := ⟨tid, j, _, hth, rfl, rfl, by simp⟩
  have he2 := e2 tid j _ hth (by simp)
  have ijob := iv.c.job tid j _ hth
  have ho1 := o1 tid j _ hth rfl
  have iown := iv.a.own
  have iown0 := iv.a.own tid j _ hth rfl
  have iset := fun t j h => iv.a.settled t j .readOut h rfl
  cases h <;> simp only [reduceCtorEq, Option.some.injEq, TSt.setErrs.injEq, TSt.setOut.injEq, TSt.openGate.injEq,
    TSt.exec.injEq, Proc.call.injEq, TSt.spawning.injEq, TSt.joining.injEq, List.cons.injEq] at *
  skip
  subst_vars
  refine ⟨?_, ?_⟩
  · constructor <;> simp only [th_set hth, th_set_snoc hth, cl_same, cl_modify, cl_snoc, touchAt_snoc, writeAt_snoc,
      syncAt_snoc, hel, hew, hes, upd]
    skip
    all_goals grind [TSt.within, TSt.owning]
  · intro x l hl h
    simp only [hel, hew] at h
    grind

theorem RI.main_openGate {env : Env σ C} {s s' : State σ C} {τ : List Access} {tid : Nat} {th : Thread σ C} (iv : Inv env s)
    (ri : RI s τ) (hth : s.th tid = some th) (h : StepC env s tid th s') {j err} (h1 : th.st = .openGate err) (h2 : th.job = some j) (e : Access)
    (he : e = ⟨tid, .lock (.gate j.key), [.gate j.key], [.gate j.key]⟩) : RI s' (τ ++ [e]) ∧ Ordered τ e := by
  have het : e.tid = tid := by rw [he]
  have hes : e.sync = .lock (.gate j.key) := by rw [he]
  have hew : e.writes = [.gate j.key] := by rw [he]
  have hel : ∀ l, e.touches l ↔ l = .gate j.key := by intro l; simp [he, Access.touches]
  have hK := fun t x (h : Knows τ t x) => h.snoc e
  have hL := fun m x (h : ToLock τ m x) => h.snoc e
  have hD := fun c x (h : ToDone τ c x) => h.snoc e
  have hhb := fun x (h : Knows τ tid x) => Knows.hb (e := e) (het ▸ h)
  have hhk := fun x (h : HB (τ ++ [e]) x τ.length) => h.knows (Or.inl het)
  have hkn : Knows (τ ++ [e]) tid τ.length := knows_new (Or.inl het)
  have hwt := fun x l (h : WriteAt τ x l) => h.touch
  clear he
  have hP := fun c n => Pending.step (c := c) (n := n) hth h (by rw [h1]; simp)
  obtain ⟨e1, e2, e3, e4, o0, o1, o2, o3, g1, p1, p2⟩ := ri
  obtain ⟨jb, st⟩ := th
  dsimp only at h1 h2
  subst h1 h2
  have hnone : s.th s.threads.length = none := by simp [State.th]
  have hps : Pending s j.call j.idx := ⟨tid, j, _, hth, rfl, rfl, by simp⟩
  have he2 := e2 tid j _ hth (by simp)
  have ijob := iv.c.job tid j _ hth
  have hlh := fun x (h : ToLock τ (.gate j.key) x) => h.hb hes
  have hsl := fun x (h : SyncAt τ x (.lock (.gate j.key))) => h.hb hes
  have htl := fun x (h : HB (τ ++ [e]) x τ.length) => h.toLock hes
  have ho1 := o1 tid j _ hth rfl
  have iown := iv.a.own
  have iown0 := iv.a.own tid j _ hth rfl
  cases h <;> simp only [reduceCtorEq, Option.some.injEq, TSt.setErrs.injEq, TSt.setOut.injEq, TSt.openGate.injEq,
    TSt.exec.injEq, Proc.call.injEq, TSt.spawning.injEq, TSt.joining.injEq, List.cons.injEq] at *
  skip
  subst_vars
  refine ⟨?_, ?_⟩
  · constructor <;> simp only [th_set hth, th_set_snoc hth, cl_same, cl_modify, cl_snoc, touchAt_snoc, writeAt_snoc,
      syncAt_snoc, hel, hew, hes, upd]
    skip
    all_goals grind [TSt.within, TSt.owning]
  · intro x l hl h
    simp only [hel, hew] at h
    grind

theorem RI.main_wgDone {env : Env σ C} {s s' : State σ C} {τ : List Access} {tid : Nat} {th : Thread σ C} (iv : Inv env s)
    (ri : RI s τ) (hth : s.th tid = some th) (h : StepC env s tid th s') {j} (h1 : th.st = .wgDone) (h2 : th.job = some j) (e : Access)
    (he : e = ⟨tid, .done j.call, [], []⟩) : RI s' (τ ++ [e]) ∧ Ordered τ e := by
  have het : e.tid = tid := by rw [he]
  have hes : e.sync = .done j.call := by rw [he]
  have hew : e.writes = [] := by rw [he]
  have hel : ∀ l, e.touches l ↔ False := by intro l; simp [he, Access.touches]
  have hK := fun t x (h : Knows τ t x) => h.snoc e
  have hL := fun m x (h : ToLock τ m x) => h.snoc e
  have hD := fun c x (h : ToDone τ c x) => h.snoc e
  have hhb := fun x (h : Knows τ tid x) => Knows.hb (e := e) (het ▸ h)
  have hhk := fun x (h : HB (τ ++ [e]) x τ.length) => h.knows (Or.inl het)
  have hkn : Knows (τ ++ [e]) tid τ.length := knows_new (Or.inl het)
  have hwt := fun x l (h : WriteAt τ x l) => h.touch
  clear he
  skip
  obtain ⟨e1, e2, e3, e4, o0, o1, o2, o3, g1, p1, p2⟩ := ri
  obtain ⟨jb, st⟩ := th
  dsimp only at h1 h2
  subst h1 h2
  have hnone : s.th s.threads.length = none := by simp [State.th]
  have hps : Pending s j.call j.idx := ⟨tid, j, _, hth, rfl, rfl, by simp⟩
  have he2 := e2 tid j _ hth (by simp)
  have ijob := iv.c.job tid j _ hth
  have htd := fun x (h : HB (τ ++ [e]) x τ.length) => h.toDone hes
  cases h <;> simp only [reduceCtorEq, Option.some.injEq, TSt.setErrs.injEq, TSt.setOut.injEq, TSt.openGate.injEq,
    TSt.exec.injEq, Proc.call.injEq, TSt.spawning.injEq, TSt.joining.injEq, List.cons.injEq] at *
  skip
  subst_vars
  refine ⟨?_, ?_⟩
  · constructor <;> simp only [th_set hth, th_set_snoc hth, cl_same, cl_modify, cl_snoc, touchAt_snoc, writeAt_snoc,
      syncAt_snoc, hel, hew, hes, upd]
    case e3 =>
      rename_i j _
      intro t jb' st c h4 h5 n x h6
      have h4' : s.th t = some ⟨jb', st⟩ := by grind [TSt.within]
      simp only [and_false, or_false] at h6
      rcases e3 t jb' st c h4' h5 n x h6 with h7 | h7 | ⟨t', j', st', h7, h8, h9, h10⟩
      · exact Or.inl (hK _ _ h7)
      · exact Or.inr (Or.inl (hD _ _ h7))
      · by_cases ht : t' = e.tid
        · subst ht
          rw [hth] at h7
          cases h7
          subst h8 h9
          exact Or.inr (Or.inl (htd _ (hhb _ (he2 x h6))))
        · exact Or.inr (Or.inr ⟨t', j', st', by rw [th_set hth, if_neg ht]; exact h7, h8, h9, h10⟩)
    all_goals grind [TSt.within, TSt.owning]
  · intro x l hl h
    simp only [hel, hew] at h
    grind

theorem RI.main_call {env : Env σ C} {s s' : State σ C} {τ : List Access} {tid : Nat} {th : Thread σ C} (iv : Inv env s)
    (ri : RI s τ) (hth : s.th tid = some th) (h : StepC env s tid th s') {ctx r rs k} (h1 : th.st = .exec (.call ctx (r :: rs) k)) (e : Access)
    (he : e = ⟨tid, .none, [], (List.range (r :: rs).length).map (.errs s.calls.length)⟩) : RI s' (τ ++ [e]) ∧ Ordered τ e := by
  have het : e.tid = tid := by rw [he]
  have hes : e.sync = .none := by rw [he]
  have hew : e.writes = (List.range (r :: rs).length).map (.errs s.calls.length) := by rw [he]
  have hel : ∀ l, e.touches l ↔ ∃ n, n < (r :: rs).length ∧ .errs s.calls.length n = l := by intro l; simp [he, Access.touches]

  simp only [List.length_cons] at hew hel
  have hK := fun t x (h : Knows τ t x) => h.snoc e
  have hL := fun m x (h : ToLock τ m x) => h.snoc e
  have hD := fun c x (h : ToDone τ c x) => h.snoc e
  have hhb := fun x (h : Knows τ tid x) => Knows.hb (e := e) (het ▸ h)
  have hhk := fun x (h : HB (τ ++ [e]) x τ.length) => h.knows (Or.inl het)
  have hkn : Knows (τ ++ [e]) tid τ.length := knows_new (Or.inl het)
  have hwt := fun x l (h : WriteAt τ x l) => h.touch
  clear he
  have hP := fun c n => Pending.step (c := c) (n := n) hth h (by rw [h1]; simp)
  obtain ⟨e1, e2, e3, e4, o0, o1, o2, o3, g1, p1, p2⟩ := ri
  obtain ⟨jb, st⟩ := th
  dsimp only at h1
  subst h1
  have hnone : s.th s.threads.length = none := by simp [State.th]
  have hcn := cl_length s
  have he2 := fun j => e2 tid j (.exec (.call ctx (r :: rs) k))
  have ho1 := fun j => o1 tid j (.exec (.call ctx (r :: rs) k))
  have hwi := fun t jb st h h' => iv.c.withinHdr (t := t) (jb := jb) (st := st) (c := s.calls.length) h h'
  have hhn : s.hdr s.calls.length = none := by simp [State.hdr, hcn]
  have ijob := iv.c.job
  cases h <;> simp only [reduceCtorEq, Option.some.injEq, TSt.setErrs.injEq, TSt.setOut.injEq, TSt.openGate.injEq,
    TSt.exec.injEq, Proc.call.injEq, TSt.spawning.injEq, TSt.joining.injEq, List.cons.injEq] at *
  rename_i h1
  obtain ⟨rfl, ⟨rfl, rfl⟩, rfl⟩ := h1
  subst_vars
  refine ⟨?_, ?_⟩
  · constructor <;> simp only [th_set hth, th_set_snoc hth, cl_same, cl_modify, cl_snoc, touchAt_snoc, writeAt_snoc,
      syncAt_snoc, hel, hew, hes, upd]
    skip
    all_goals grind [TSt.within, TSt.owning]
  · intro x l hl h
    simp only [hel, hew] at h
    grind

theorem RI.main_ret {env : Env σ C} {s s' : State σ C} {τ : List Access} {tid : Nat} {th : Thread σ C} (iv : Inv env s)
    (ri : RI s τ) (hth : s.th tid = some th) (h : StepC env s tid th s') {c k} (h1 : th.st = .joining c k) (e : Access)
    (he : e = ⟨tid, .wait c, (List.range ((s.calls[c]?.map (·.refs.length)).getD 0)).map (.errs c), []⟩) : RI s' (τ ++ [e]) ∧ Ordered τ e := by
  have het : e.tid = tid := by rw [he]
  have hes : e.sync = .wait c := by rw [he]
  have hew : e.writes = [] := by rw [he]
  have hel : ∀ l, e.touches l ↔ ∃ n, n < (s.calls[c]?.map (·.refs.length)).getD 0 ∧ .errs c n = l := by intro l; simp [he, Access.touches]
  have hK := fun t x (h : Knows τ t x) => h.snoc e
  have hL := fun m x (h : ToLock τ m x) => h.snoc e
  have hD := fun c x (h : ToDone τ c x) => h.snoc e
  have hhb := fun x (h : Knows τ tid x) => Knows.hb (e := e) (het ▸ h)
  have hhk := fun x (h : HB (τ ++ [e]) x τ.length) => h.knows (Or.inl het)
  have hkn : Knows (τ ++ [e]) tid τ.length := knows_new (Or.inl het)
  have hwt := fun x l (h : WriteAt τ x l) => h.touch
  clear he
  have hP := fun c n => Pending.step (c := c) (n := n) hth h (by rw [h1]; simp)
  obtain ⟨e1, e2, e3, e4, o0, o1, o2, o3, g1, p1, p2⟩ := ri
  obtain ⟨jb, st⟩ := th
  dsimp only at h1
  subst h1
  have hnone : s.th s.threads.length = none := by simp [State.th]
  have he3 := e3 tid jb (.joining c k) c hth (by simp [TSt.within])
  have hwi := fun t jb' st' h h' => iv.c.within_inj (t := t) (jb := jb') (st := st') (c := c) h hth h' (by simp [TSt.within])
  have hex := iv.c.join tid jb c k hth
  have htw := fun x (h : ToDone τ c x) => h.hb hes
  have he2 := fun j => e2 tid j (.joining c k)
  have ho1 := fun j => o1 tid j (.joining c k)
  cases h <;> simp only [reduceCtorEq, Option.some.injEq, TSt.setErrs.injEq, TSt.setOut.injEq, TSt.openGate.injEq,
    TSt.exec.injEq, Proc.call.injEq, TSt.spawning.injEq, TSt.joining.injEq, List.cons.injEq] at *
  rename _ = _ ∧ _ = _ => h1
  rename s.calls[_]? = some _ => h2
  rename Call.live _ = 0 => h3
  rename Call C => x'
  obtain ⟨rfl, rfl⟩ := h1
  have hnp : ∀ n, ¬ Pending s c n := by
    rintro n ⟨t', j, st', h4, h5, h6, h7⟩
    have hlive := iv.d.live c x' h2
    rw [h3, eq_comm, List.countP_eq_zero] at hlive
    have hdone := hlive ⟨some j, st'⟩ (List.mem_of_getElem? h4)
    have hc : c = j.call := h5.symm
    clear hlive hP hex he3 hwi
    cases st' <;> simp only [Thread.liveIn, TSt.isDone, hc, Option.any_some, beq_self_eq_true, Bool.true_and, Bool.not_false, not_true] at hdone <;> first | exact hdone.elim | exact h7 rfl
  have hnp2 : ∀ (t' : Nat) (j : Job C) (st' : TSt σ C), s.th t' = some ⟨some j, st'⟩ → st' ≠ .done → j.call ≠ c :=
    fun t' j st' h4 h5 h6 => hnp j.idx ⟨t', j, st', h4, h6, rfl, h5⟩
  subst_vars
  refine ⟨?_, ?_⟩
  · constructor <;> simp only [th_set hth, th_set_snoc hth, cl_same, cl_modify, cl_snoc, touchAt_snoc, writeAt_snoc,
      syncAt_snoc, hel, hew, hes, upd]
    skip
    all_goals grind [TSt.within, TSt.owning]
  · intro x l hl h
    simp only [hel, hew] at h
    grind

theorem RI.main_refuse {env : Env σ C} {s s' : State σ C} {τ : List Access} {tid : Nat} {th : Thread σ C} (iv : Inv env s)
    (ri : RI s τ) (hth : s.th tid = some th) (h : StepC env s tid th s') {c i ctx r rs k} (h1 : th.st = .spawning c i ctx (r :: rs) k) (h2 : starts env s.world r = false) (e : Access)
    (he : e = ⟨tid, .none, [], [.errs c i]⟩) : RI s' (τ ++ [e]) ∧ Ordered τ e := by
  have het : e.tid = tid := by rw [he]
  have hes : e.sync = .none := by rw [he]
  have hew : e.writes = [.errs c i] := by rw [he]
  have hel : ∀ l, e.touches l ↔ l = .errs c i := by intro l; simp [he, Access.touches]
  have hK := fun t x (h : Knows τ t x) => h.snoc e
  have hL := fun m x (h : ToLock τ m x) => h.snoc e
  have hD := fun c x (h : ToDone τ c x) => h.snoc e
  have hhb := fun x (h : Knows τ tid x) => Knows.hb (e := e) (het ▸ h)
  have hhk := fun x (h : HB (τ ++ [e]) x τ.length) => h.knows (Or.inl het)
  have hkn : Knows (τ ++ [e]) tid τ.length := knows_new (Or.inl het)
  have hwt := fun x l (h : WriteAt τ x l) => h.touch
  clear he
  have hP := fun c n => Pending.step (c := c) (n := n) hth h (by rw [h1]; simp)
  obtain ⟨e1, e2, e3, e4, o0, o1, o2, o3, g1, p1, p2⟩ := ri
  obtain ⟨jb, st⟩ := th
  dsimp only at h1
  subst h1
  have hnone : s.th s.threads.length = none := by simp [State.th]
  have he1 := e1 tid jb c i ctx (r :: rs) k hth
  have he3 := e3 tid jb (.spawning c i ctx (r :: rs) k) c hth (by simp [TSt.within])
  have hwi := fun t jb' st' h h' => iv.c.within_inj (t := t) (jb := jb') (st := st') (c := c) h hth h' (by simp [TSt.within])
  have hbd := fun t' j st => iv.c.bound tid t' jb c i ctx (r :: rs) k j st hth
  have hex := iv.c.spawn tid jb c i ctx (r :: rs) k hth
  have he2 := fun j => e2 tid j (.spawning c i ctx (r :: rs) k)
  have ho1 := fun j => o1 tid j (.spawning c i ctx (r :: rs) k)
  cases h <;> simp only [reduceCtorEq, Option.some.injEq, TSt.setErrs.injEq, TSt.setOut.injEq, TSt.openGate.injEq,
    TSt.exec.injEq, Proc.call.injEq, TSt.spawning.injEq, TSt.joining.injEq, List.cons.injEq] at *
  case spawn =>
    exfalso
    rename _ = _ ∧ _ = _ ∧ _ = _ ∧ _ => h1
    obtain ⟨rfl, rfl, rfl, ⟨rfl, rfl⟩, rfl⟩ := h1
    unfold starts at h2
    grind
  rename _ = _ ∧ _ = _ ∧ _ = _ ∧ _ => h1
  obtain ⟨rfl, rfl, rfl, ⟨rfl, rfl⟩, rfl⟩ := h1
  subst_vars
  refine ⟨?_, ?_⟩
  · constructor <;> simp only [th_set hth, th_set_snoc hth, cl_same, cl_modify, cl_snoc, touchAt_snoc, writeAt_snoc,
      syncAt_snoc, hel, hew, hes, upd]
    skip
    all_goals grind [TSt.within, TSt.owning]
  · intro x l hl h
    simp only [hel, hew] at h
    grind

theorem RI.main_spawn {env : Env σ C} {s s' : State σ C} {τ : List Access} {tid : Nat} {th : Thread σ C} (iv : Inv env s)
    (ri : RI s τ) (hth : s.th tid = some th) (h : StepC env s tid th s') {c i ctx r rs k} (h1 : th.st = .spawning c i ctx (r :: rs) k) (h2 : starts env s.world r = true) (e : Access)
    (he : e = ⟨tid, .fork s.threads.length, [], []⟩) : RI s' (τ ++ [e]) ∧ Ordered τ e := by
  have het : e.tid = tid := by rw [he]
  have hes : e.sync = .fork s.threads.length := by rw [he]
  have hew : e.writes = [] := by rw [he]
  have hel : ∀ l, e.touches l ↔ False := by intro l; simp [he, Access.touches]
  have hK := fun t x (h : Knows τ t x) => h.snoc e
  have hL := fun m x (h : ToLock τ m x) => h.snoc e
  have hD := fun c x (h : ToDone τ c x) => h.snoc e
  have hhb := fun x (h : Knows τ tid x) => Knows.hb (e := e) (het ▸ h)
  have hhk := fun x (h : HB (τ ++ [e]) x τ.length) => h.knows (Or.inl het)
  have hkn : Knows (τ ++ [e]) tid τ.length := knows_new (Or.inl het)
  have hwt := fun x l (h : WriteAt τ x l) => h.touch
  clear he
  have hP := fun c n => Pending.step (c := c) (n := n) hth h (by rw [h1]; simp)
  obtain ⟨e1, e2, e3, e4, o0, o1, o2, o3, g1, p1, p2⟩ := ri
  obtain ⟨jb, st⟩ := th
  dsimp only at h1
  subst h1
  have hnone : s.th s.threads.length = none := by simp [State.th]
  have he1 := e1 tid jb c i ctx (r :: rs) k hth
  have he3 := e3 tid jb (.spawning c i ctx (r :: rs) k) c hth (by simp [TSt.within])
  have hwi := fun t jb' st' h h' => iv.c.within_inj (t := t) (jb := jb') (st := st') (c := c) h hth h' (by simp [TSt.within])
  have hbd := fun t' j st => iv.c.bound tid t' jb c i ctx (r :: rs) k j st hth
  have hex := iv.c.spawn tid jb c i ctx (r :: rs) k hth
  have he2 := fun j => e2 tid j (.spawning c i ctx (r :: rs) k)
  have ho1 := fun j => o1 tid j (.spawning c i ctx (r :: rs) k)
  have hhf := fun x (h : HB (τ ++ [e]) x τ.length) => h.knows (Or.inr hes)
  cases h <;> simp only [reduceCtorEq, Option.some.injEq, TSt.setErrs.injEq, TSt.setOut.injEq, TSt.openGate.injEq,
    TSt.exec.injEq, Proc.call.injEq, TSt.spawning.injEq, TSt.joining.injEq, List.cons.injEq] at *
  case refuse =>
    exfalso
    rename _ = _ ∧ _ = _ ∧ _ = _ ∧ _ => h1
    obtain ⟨rfl, rfl, rfl, ⟨rfl, rfl⟩, rfl⟩ := h1
    unfold starts at h2
    grind
  rename _ = _ ∧ _ = _ ∧ _ = _ ∧ _ => h1
  obtain ⟨rfl, rfl, rfl, ⟨rfl, rfl⟩, rfl⟩ := h1
  subst_vars
  refine ⟨?_, ?_⟩
  · constructor <;> simp only [th_set hth, th_set_snoc hth, cl_same, cl_modify, cl_snoc, touchAt_snoc, writeAt_snoc,
      syncAt_snoc, hel, hew, hes, upd]
    skip
    all_goals grind [TSt.within, TSt.owning]
  · intro x l hl h
    simp only [hel, hew] at h
    grind

/-- Accesses that leave the variables of `Run` alone, several at a time. -/
theorem RI.quiets {s : State σ C} {τ : List Access} (ri : RI s τ) (hf : RaceFree τ) (us : List Access)
    (hu : ∀ e ∈ us, ∀ l, e.touches l → match l with
      | .depth | .ran | .registry => e.sync = .lock .con
      | .dtTarget o => e.sync = .lock (.dt o)
      | .user _ => True
      | _ => False) : RI s (τ ++ us) ∧ RaceFree (τ ++ us) := by
  induction us generalizing τ with
  | nil => simpa using ⟨ri, hf⟩
  | cons u us ih =>
    obtain ⟨h1, h2⟩ := ri.quiet (e := u) (hu u (by simp))
    have := ih h1 (hf.snoc h2) (fun e he => hu e (by simp [he]))
    simpa using this

theorem resolve_quiet (env : Env σ C) (tid : Nat) (r : TRef) : ∀ e ∈ resolveAcc env tid r, ∀ l, e.touches l → match l with
      | .depth | .ran | .registry => e.sync = .lock .con
      | .dtTarget o => e.sync = .lock (.dt o)
      | .user _ => True
      | _ => False := by
  intro e he l hl
  unfold resolveAcc at he
  split at he
  · simp at he
  · split at he
    · simp at he
    · simp only [List.mem_cons, List.not_mem_nil, or_false] at he
      rcases he with rfl | rfl | rfl <;> simp [Access.touches] at hl <;> subst hl <;> rfl

/-- The steps that access memory, one by one. -/
theorem RI.step {env : Env σ C} {s s' : State σ C} {τ : List Access} {tid : Nat} {th : Thread σ C} (iv : Inv env s)
    (ri : RI s τ) (hf : RaceFree τ) (hth : s.th tid = some th) (h : StepC env s tid th s') :
    RI s' (τ ++ stepAcc env s tid th) ∧ RaceFree (τ ++ stepAcc env s tid th) := by
  have one : ∀ {e : Access}, RI s' (τ ++ [e]) ∧ Ordered τ e → RI s' (τ ++ [e]) ∧ RaceFree (τ ++ [e]) :=
    fun h => ⟨h.1, hf.snoc h.2⟩
  have con : ∀ (ls : List (List Loc × List Loc)),
      (∀ p ∈ ls, ∀ l, l ∈ p.1 ∨ l ∈ p.2 → l = .depth ∨ l = .ran ∨ l = .registry) →
      ∀ e ∈ ls.map (fun p => (⟨tid, .lock .con, p.1, p.2⟩ : Access)), ∀ l, e.touches l → match l with
      | .depth | .ran | .registry => e.sync = .lock .con
      | .dtTarget o => e.sync = .lock (.dt o)
      | .user _ => True
      | _ => False := by
    intro ls hls e he l hl
    obtain ⟨p, hp, rfl⟩ := List.mem_map.1 he
    rcases hls p hp l hl with rfl | rfl | rfl <;> rfl
  obtain ⟨jb, st⟩ := th
  have h0 := h
  cases h0
  case lookupHit j o h1 h2 h3 =>
    dsimp only at h1 h2; subst h1 h2
    simp only [stepAcc,  h3]
    exact one (ri.main_lookupHit iv hth h rfl rfl h3 _ rfl)
  case lookupNew j h1 h2 h3 =>
    dsimp only at h1 h2; subst h1 h2
    simp only [stepAcc,  h3]
    obtain ⟨h4, h5⟩ := one (ri.main_lookupNew iv hth h rfl rfl h3 _ rfl)
    have := h4.quiets h5 _ (con [([.registry], []), ([.depth], [])] (by simp))
    simpa using this
  case wake j o h1 h2 h3 h4 =>
    dsimp only at h1 h2; subst h1 h2
    simp only [stepAcc]
    exact one (ri.main_wake iv hth h rfl rfl _ rfl)
  case readOut j o h1 h2 h3 =>
    dsimp only at h1 h2; subst h1 h2
    simp only [stepAcc]
    exact one (ri.main_readOut iv hth h rfl rfl _ rfl)
  case act f k h1 =>
    dsimp only at h1; subst h1
    simp only [stepAcc, List.append_nil]
    exact ⟨ri.silent iv hth h (Or.inl ⟨f, k, rfl⟩), hf⟩
  case callNil ctx k h1 =>
    dsimp only at h1; subst h1
    simp only [stepAcc, List.append_nil]
    exact ⟨ri.silent iv hth h (Or.inr (Or.inl ⟨_, k, rfl⟩)), hf⟩
  case call ctx r rs k h1 =>
    dsimp only at h1; subst h1
    simp only [stepAcc]
    obtain ⟨h4, h5⟩ := ri.quiets hf _ (con [([.depth], [.depth])] (by simp))
    obtain ⟨h6, h7⟩ := h4.main_call iv hth h rfl _ rfl
    have h8 := h5.snoc h7
    have : ∀ a b : Access, τ ++ [a, b] = τ ++ [a] ++ [b] := by simp
    rw [this]
    exact ⟨h6, h8⟩
  case finish e j h1 h2 =>
    dsimp only at h1 h2; subst h1 h2
    simp only [stepAcc]
    exact (ri.silent iv hth h (Or.inr (Or.inr (Or.inl ⟨e, rfl⟩)))).quiets hf _ (con [([.registry], [])] (by simp))
  case clientDone e h1 h2 =>
    dsimp only at h1 h2; subst h1 h2
    simp only [stepAcc,  List.append_nil]
    exact ⟨ri.silent iv hth h (Or.inr (Or.inr (Or.inl ⟨e, rfl⟩))), hf⟩
  case loopEnd c i ctx k h1 =>
    dsimp only at h1; subst h1
    simp only [stepAcc, List.append_nil]
    exact ⟨ri.silent iv hth h (Or.inr (Or.inr (Or.inr ⟨c, i, ctx, k, rfl⟩))), hf⟩
  case refuse c i ctx r rs k e w' h1 h2 =>
    dsimp only at h1; subst h1
    have hst : starts env s.world r = false := by
      rcases h2 with ⟨n, rfl, -⟩ | ⟨o, f, rfl, hr, hw⟩
      · rfl
      · simp [starts, hr, hw]
    simp only [stepAcc, hst]
    obtain ⟨h4, h5⟩ := ri.quiets hf _ (resolve_quiet env tid r)
    obtain ⟨h6, h7⟩ := h4.main_refuse iv hth h rfl hst _ rfl
    rw [← List.append_assoc]
    exact ⟨h6, h5.snoc h7⟩
  case spawn c i ctx o rs k t w' h1 h2 =>
    dsimp only at h1; subst h1
    have hst : starts env s.world (.ptr o) = true := by
      rcases h2 with ⟨hr, -⟩ | ⟨f, hr, hw⟩
      · simp [starts, hr]
      · simp [starts, hr, hw]
    simp only [stepAcc, hst]
    obtain ⟨h4, h5⟩ := ri.quiets hf _ (resolve_quiet env tid (.ptr o))
    obtain ⟨h6, h7⟩ := h4.main_spawn iv hth h rfl hst _ rfl
    rw [← List.append_assoc]
    exact ⟨h6, h5.snoc h7⟩
  case ret c k x h1 h2 h3 =>
    dsimp only at h1; subst h1
    simp only [stepAcc]
    obtain ⟨h4, h5⟩ := one (ri.main_ret iv hth h rfl _ rfl)
    have := h4.quiets h5 _ (con [([.depth], [.depth])] (by simp))
    have h' : ∀ a b : Access, τ ++ [a, b] = τ ++ [a] ++ [b] := by simp
    rw [h']
    exact this
  case setErrs e j h1 h2 =>
    dsimp only at h1 h2; subst h1 h2
    simp only [stepAcc]
    exact one (ri.main_setErrs iv hth h rfl rfl _ rfl)
  case setOut e j o h1 h2 h3 =>
    dsimp only at h1 h2; subst h1 h2
    simp only [stepAcc]
    exact one (ri.main_setOut iv hth h rfl rfl _ rfl)
  case openGate e j o h1 h2 h3 =>
    dsimp only at h1 h2; subst h1 h2
    simp only [stepAcc]
    exact one (ri.main_openGate iv hth h rfl rfl _ rfl)
  case wgDone j h1 h2 =>
    dsimp only at h1 h2; subst h1 h2
    simp only [stepAcc]
    exact one (ri.main_wgDone iv hth h rfl rfl _ rfl)

/-- A look at a gate by a goroutine that waits. -/
theorem RI.check {s : State σ C} {τ : List Access} {tid : Nat} {j : Job C} (ri : RI s τ)
    (hth : s.th tid = some ⟨some j, .waiting⟩) (e : Access) (he : e = ⟨tid, .lock (.gate j.key), [.gate j.key], []⟩) :
    (s.ran j.key ≠ none → RI s (τ ++ [e])) ∧ Ordered τ e := by
  have het : e.tid = tid := by rw [he]
  have hes : e.sync = .lock (.gate j.key) := by rw [he]
  have hew : e.writes = [] := by rw [he]
  have hel : ∀ l, e.touches l ↔ l = .gate j.key := by intro l; simp [he, Access.touches]
  have hK := fun t x (h : Knows τ t x) => h.snoc e
  have hL := fun m x (h : ToLock τ m x) => h.snoc e
  have hD := fun c x (h : ToDone τ c x) => h.snoc e
  have hhb := fun x (h : Knows τ tid x) => Knows.hb (e := e) (het ▸ h)
  have hsl := fun x (h : SyncAt τ x (.lock (.gate j.key))) => h.hb hes
  have hwt := fun x l (h : WriteAt τ x l) => h.touch
  clear he
  obtain ⟨e1, e2, e3, e4, o0, o1, o2, o3, g1, p1, p2⟩ := ri
  refine ⟨fun hr => ?_, ?_⟩
  · constructor <;> simp only [touchAt_snoc, writeAt_snoc, syncAt_snoc, hel, hew, hes]
    all_goals grind
  · intro x l hl h
    simp only [hel, hew] at h
    grind

theorem Exec.reach {env : Env σ C} {A : Access → Prop} {w : σ} {cl : List (Proc σ C)} {s : State σ C} {τ : List Access}
    (h : Exec env A w cl s τ) : Reach env w cl s := by
  induction h with
  | init => exact .init
  | step us _ _ hs _ ih => exact .step (.thread _) ih hs
  | check _ _ ih => exact ih
  | extern f _ ih => exact .step (.extern f) ih rfl

theorem Exec.ri {env : Env σ C} {A : Access → Prop} {w : σ} {cl : List (Proc σ C)} {s : State σ C} {τ : List Access}
    (hA : ∀ a, A a → ByMethods a) (h : Exec env A w cl s τ) : RI s τ ∧ RaceFree τ := by
  induction h with
  | init =>
    have hT : ∀ x l, ¬ TouchAt [] x l := by rintro x l ⟨a, h, -⟩; simp at h
    have hW : ∀ x l, ¬ WriteAt [] x l := fun x l h => hT x l h.touch
    refine ⟨?_, ?_⟩
    · constructor <;> simp [hT, hW]
    · intro i j a b l _ ha; simp at ha
  | step us h hth hs hu ih =>
    obtain ⟨th', hth', hc⟩ := step_cases hs
    have : th' = _ := Option.some.inj (hth'.symm.trans hth)
    subst this
    obtain ⟨h1, h2⟩ := ih.1.step h.reach.inv ih.2 hth hc
    exact h1.quiets h2 us fun e he => (hA _ (hu e he).2).2
  | check h hth ih =>
    obtain ⟨h1, h2⟩ := ih.1.check hth _ rfl
    exact ⟨h1 (h.reach.inv.a.wait _ _ hth), ih.2.snoc h2⟩
  | extern f h ih => exact ⟨⟨ih.1.1, ih.1.2, ih.1.3, ih.1.4, ih.1.5, ih.1.6, ih.1.7, ih.1.8, ih.1.9, ih.1.10, ih.1.11⟩, ih.2⟩

/-- **C72**: as long as other code uses the controller and deferred targets through their methods, no execution of a
controller has a data race on the controller's variables, the outcomes of targets, the `errs` slices or the resolutions
of deferred targets: whatever the targets, the contexts, the number of client goroutines and the interleaving. -/
theorem C72_no_race_partial {env : Env σ C} {A : Access → Prop} {w : σ} {cl : List (Proc σ C)} {s : State σ C}
    {τ : List Access} (hA : ∀ a, A a → ByMethods a) (h : Exec env A w cl s τ) (l : Loc) (hl : ∀ n, l ≠ .user n) :
    ¬ Race τ l := by
  rintro ⟨i, j, a, b, h1, h2, h3, -, h4, h5⟩
  exact h5 ((h.ri hA).2 i j a b l h1 h2 h3 hl h4)

/-! ## Concrete executions -/

/-- Run the goroutines in the given order (no code of their own), collecting the trace. -/
def traceOf (env : Env σ C) (s : State σ C) : List Nat → Option (State σ C × List Access)
  | [] => some (s, [])
  | t :: ts =>
    match s.threads[t]?, Runner.step env s t with
    | some th, some s' =>
      match traceOf env s' ts with
      | some (x, τ) => some (x, stepAcc env s t th ++ τ)
      | none => none
    | _, _ => none

theorem Exec.traceOf {env : Env σ C} {A : Access → Prop} {w : σ} {cl : List (Proc σ C)} {s s' : State σ C}
    {τ υ : List Access} (h : Exec env A w cl s τ) {ts : List Nat} (ht : Runner.traceOf env s ts = some (s', υ)) :
    Exec env A w cl s' (τ ++ υ) := by
  induction ts generalizing s τ υ with
  | nil =>
    simp only [Runner.traceOf, Option.some.injEq, Prod.mk.injEq] at ht
    obtain ⟨rfl, rfl⟩ := ht
    simpa using h
  | cons t ts ih =>
    simp only [Runner.traceOf] at ht
    split at ht
    · rename_i th s₁ h1 h2
      split at ht
      · rename_i x υ' h3
        simp only [Option.some.injEq, Prod.mk.injEq] at ht
        obtain ⟨rfl, rfl⟩ := ht
        have := ih (Exec.step [] h h1 h2 (by simp)) h3
        simpa using this
      · cases ht
    · cases ht

/-- Two requests for the same target: the second one waits. -/
def twiceEnv : Env Unit Unit := ⟨id, fun _ _ => .act id fun _ => .ret (some (.atom 7)), fun _ => none⟩
def twiceClient : Proc Unit Unit := .call () [.ptr 5, .ptr 5] fun e => .ret e
/-- The client calls `Run` and starts both goroutines; the first finds the table empty, the second waits; the first
runs the target and opens the gate; the second reads the outcome; the client returns. -/
def twiceOrder : List Nat := [0, 0, 0, 1, 2, 0, 1, 1, 1, 1, 1, 2, 2, 2, 1, 0, 0]

/-- The trace of that schedule has conflicting accesses without a common mutex, by different goroutines: the outcome is
written (position 10) and then read (position 13). -/
example : ∃ s τ a b, Exec twiceEnv ByMethods () [twiceClient] s τ ∧ τ[10]? = some a ∧ τ[13]? = some b ∧
    a.tid = 1 ∧ b.tid = 2 ∧ a.sync = .none ∧ b.sync = .none ∧ Conflict a b (.out 5) ∧ HB τ 10 13 := by
  refine ⟨_, _, _, _, Exec.init.traceOf (ts := twiceOrder) (Eq.refl _), Eq.refl _, Eq.refl _, Eq.refl _, Eq.refl _,
    Eq.refl _, Eq.refl _, ?_, ?_⟩
  · simp [Conflict, Access.touches, twiceEnv]
  · refine (Exec.ri (fun _ h => h) (Exec.init.traceOf (env := twiceEnv) (w := ()) (cl := [twiceClient])
      (A := ByMethods) (ts := twiceOrder) (Eq.refl _))).2 10 13 _ _ (.out 5) (by decide) (Eq.refl _) (Eq.refl _) (by simp) ?_
    simp [Conflict, Access.touches, twiceEnv]

/-- The client registers a target (under `con.mu`) and uses memory of its own before the goroutines that `Run` started
look the registry up. -/
example : ∃ s τ, Exec twiceEnv ByMethods () [twiceClient] s τ ∧
    τ[2]? = some ⟨0, .lock .con, [], [.registry]⟩ ∧ τ[3]? = some ⟨0, .none, [.user 3], [.user 3]⟩ ∧
    (∃ b, τ[7]? = some b ∧ b.tid = 1 ∧ Conflict ⟨0, .lock .con, [], [.registry]⟩ b .registry) ∧ HB τ 2 7 := by
  have h0 := Exec.step (tid := 0) [⟨0, .lock .con, [], [.registry]⟩, ⟨0, .none, [.user 3], [.user 3]⟩]
    (Exec.init (env := twiceEnv) (A := ByMethods) (w := ()) (cl := [twiceClient])) (Eq.refl _) (Eq.refl _)
    (by simp [ByMethods, Access.touches])
  have h1 := h0.traceOf (ts := [0, 0, 1]) (Eq.refl _)
  have hc : Conflict ⟨0, .lock .con, [], [.registry]⟩ ⟨1, .lock .con, [.registry], []⟩ .registry := by
    simp [Conflict, Access.touches]
  exact ⟨_, _, h1, Eq.refl _, Eq.refl _, ⟨_, Eq.refl _, Eq.refl _, hc⟩,
    (Exec.ri (fun _ h => h) h1).2 2 7 _ _ .registry (by decide) (Eq.refl _) (Eq.refl _) (by simp) hc⟩

/-! ## A race in the package's own code -/

/-- A `Files` target (object 0) whose subtarget is the deferred target 1, which stands for the command 2; the world is
`dt.Target`.  `Run` of a `Files` target begins by computing its hash (/repo/files.go:129-130), which marshals the
subtarget and so reads `dt.Target` (/repo/files.go:175-188); then it runs the subtarget (/repo/files.go:146). -/
def jsonEnv : Env (Option Obj) Unit :=
  { addr := id
    body := fun o _ =>
      match o with
      | 0 => .act id fun _ => .call () [.ptr 1] .ret
      | _ => .act id fun _ => .ret none
    resolve := fun o => if o = 1 then some fun _ => (some 2, .ok 2) else none }

/-- `All(F, D)`: run the `Files` target and the deferred target. -/
def jsonClient : Proc (Option Obj) Unit := .call () [.ptr 0, .ptr 1] .ret

/-- What `json.Marshal` does in the goroutine of the `Files` target: it reads `dt.Target`, without `dt.mu`. -/
def Marshals (a : Access) : Prop := a = ⟨1, .none, [.dtTarget 1], []⟩

/-- **C72, what is false**: `computeHash` marshals a deferred subtarget without taking its mutex, while `Run` may be
resolving the same deferred target in another goroutine: a data race on `dt.Target`.  (A `Files` target whose subtarget
is the deferred target itself arises from YAML when `sub/fab.yaml` says `A: B` and the top file has
`F: !Files {Target: sub/A, ...}` and `G: !All [F, sub/A]`, /repo/yaml.go:68-83.) -/
theorem C72_counterexample_json : ∃ s τ, Exec jsonEnv Marshals none [jsonClient] s τ ∧ Race τ (.dtTarget 1) := by
  have h1 := (Exec.init (env := jsonEnv) (A := Marshals) (w := none) (cl := [jsonClient])).traceOf
    (ts := [0, 0, 1]) (Eq.refl _)
  have h2 := Exec.step (tid := 1) [⟨1, .none, [.dtTarget 1], []⟩] h1 (Eq.refl _) (Eq.refl _)
    (by simp [Marshals])
  have h3 := h2.traceOf (ts := [0]) (Eq.refl _)
  refine ⟨_, _, h3, 6, 9, ⟨1, .none, [.dtTarget 1], []⟩, ⟨0, .lock (.dt 1), [], [.dtTarget 1]⟩, by decide, Eq.refl _,
    Eq.refl _, by decide, by simp [Conflict, Access.touches], ?_⟩
  intro hhb
  -- nothing happens after position 6: it is the last one of its goroutine and does not synchronize
  have key : ∀ {i k}, HB ([⟨0, .lock .con, [.depth], [.depth]⟩, ⟨0, .none, [], [.errs 0 0, .errs 0 1]⟩,
      ⟨0, .fork 1, [], []⟩, ⟨1, .lock .con, [.ran], [.ran, .gate 0, .out 0]⟩, ⟨1, .lock .con, [.registry], []⟩,
      ⟨1, .lock .con, [.depth], []⟩, ⟨1, .none, [.dtTarget 1], []⟩, ⟨0, .lock (.dt 1), [.dtTarget 1], []⟩,
      ⟨0, .lock .con, [.registry], []⟩, ⟨0, .lock (.dt 1), [], [.dtTarget 1]⟩, ⟨0, .fork 2, [], []⟩] : List Access) i k →
      i ≠ 6 := by
    intro i k h
    induction h with
    | @order i j a b hij ha hb ht =>
      rintro rfl
      have hj := (List.getElem?_eq_some_iff.1 hb).1
      simp only [List.length_cons, List.length_nil] at hj
      simp only [List.getElem?_cons_succ, List.getElem?_cons_zero, Option.some.injEq] at ha
      subst ha
      obtain rfl | rfl | rfl | rfl : j = 7 ∨ j = 8 ∨ j = 9 ∨ j = 10 := by omega
      all_goals (simp at hb; subst hb; simp at ht)
    | mutex hij ha hb hm =>
      rintro rfl
      simp at ha; subst ha; simp at hm
    | fork hij ha hb hm =>
      rintro rfl
      simp at ha; subst ha; simp at hm
    | wg hij ha hb hm =>
      rintro rfl
      simp at ha; subst ha; simp at hm
    | trans _ _ h _ => exact h
  exact key hhb rfl

end Fab.Runner
