/-!
# The concurrent runner: model

Models `Controller.Run` (/repo/runner.go:52-120), the `ran` table and `depth` counter of the controller
(/repo/controller.go:18-32), `targetAddr` (/repo/register.go:28-34), the short-circuit of
`deferredResolutionTarget` inside `Run` (/repo/runner.go:74-81, /repo/yaml.go:100-113) and the result cell guarded
by a gate (/repo/runner.go:15-18, /repo/gate.go; the gate itself is refined in `Verif/Gate.lean`).

The machine is a labelled transition system.  Its steps are the atomic steps of the goroutines; a schedule is any
sequence of steps, so "for every reachable state" means "for every interleaving and every moment".  A crash is a
schedule that stops.

Simplifications:
* a panic inside a target is not modelled (it kills the process);
* the "Running X" line printed in verbose mode is not modelled here (but in `Verif/Runner/Verbose.lean`, which shows that it changes nothing else);
* `wg.Add(1)` and the `go` statement are one step (no other goroutine can observe the difference);
* memory is sequentially consistent (`Verif/Runner/Race.lean` proves that `Run` has no data races, and for programs
  without data races the Go memory model promises sequential consistency).
-/

namespace Fab.Runner

/-- A target object: the identity of one allocated Go value that implements `Target`. -/
abbrev Obj := Nat

/-- The numeric address of a pointer: what `targetAddr` returns (/repo/register.go:28-34).  Distinct objects can
have the same address: pointers to zero-sized values, a struct and its first field, or an object allocated after
another one was collected (the `ran` table does not keep targets alive). -/
abbrev Addr := Nat

/-- Go `error` values that matter here. `atom` is any error produced by a target body. -/
inductive Err where
  | atom (n : Nat)
  /-- /repo/register.go:31: "got type %T for target, want a pointer type" -/
  | notPointer (n : Nat)
  /-- /repo/yaml.go:107: "cannot resolve target %s" -/
  | unresolved (name : Nat)
  /-- /repo/runner.go:108: `errors.Wrapf(err, "running %s", con.Describe(target))` -/
  | running (tgt : Obj) (e : Err)
  /-- `errors.Join` of the non-nil errors, /repo/runner.go:119 -/
  | join (es : List Err)

/-- `errors.Join(errs...)`: nil iff every element is nil, otherwise an error that carries the non-nil elements in
order.  /repo/runner.go:119. -/
def errJoin (errs : List (Option Err)) : Option Err :=
  match errs.filterMap id with
  | [] => none
  | es => some (.join es)

/-- An argument of `Controller.Run`: a `Target` whose dynamic type is a pointer, or one whose dynamic type is not
(/repo/register.go:29-32). -/
inductive TRef where
  | ptr (o : Obj)
  | val (n : Nat)
deriving DecidableEq

/-- The behaviour of a Go function running inside a target (or of a client of the controller), as an interaction
tree: finish with a result, do one atomic action on the shared world `σ` and continue depending on what it saw, or
call `Controller.Run(ctx, refs...)` and continue with its result.  `Target.Run` (/repo/target.go:7-20) is an
arbitrary Go function, so the theorems quantify over all such trees. -/
inductive Proc (σ C : Type) where
  | ret (e : Option Err)
  | act (f : σ → σ) (k : σ → Proc σ C)
  | call (ctx : C) (refs : List TRef) (k : Option Err → Proc σ C)

/-- The target objects of a process.
* `addr o`: the address of `o` (/repo/register.go:33);
* `body t ctx`: what `t.Run(ctx, con)` does;
* `resolve o`: `some f` iff `o` is a `*deferredResolutionTarget`; `f` is its method `resolve`
  (/repo/yaml.go:100-113), which may cache its result in the world. -/
structure Env (σ C : Type) where
  addr : Obj → Addr
  body : Obj → C → Proc σ C
  resolve : Obj → Option (σ → σ × Except Err Obj)

/-- /repo/runner.go:15-18: the outcome of a target, and whether its gate is open.  `owner` (which goroutine put
the entry into the table) is bookkeeping for the proofs: no step reads it. -/
structure Outcome where
  err : Option Err
  opened : Bool
  owner : Nat

/-- The goroutine created for element `idx` of the arguments of call number `call` (/repo/runner.go:84):
`key` is the address under which it looks in `ran`, `tgt` is the target it would run, `ctx` the context it would
pass. -/
structure Job (C : Type) where
  call : Nat
  idx : Nat
  key : Addr
  tgt : Obj
  ctx : C

/-- Where a goroutine is. -/
inductive TSt (σ C : Type) where
  /-- about to look itself up in `con.ran` (runner.go:87-93) -/
  | lookup
  /-- blocked in `o.g.wait()` (runner.go:98) -/
  | waiting
  /-- about to do `errs[i] = o.err` (runner.go:99) -/
  | readOut
  /-- running the target's body (runner.go:106), or client code -/
  | exec (p : Proc σ C)
  /-- in the `for` loop of call `c`, at index `i`, with `todo` left (runner.go:65-115) -/
  | spawning (c i : Nat) (ctx : C) (todo : List TRef) (k : Option Err → Proc σ C)
  /-- in `wg.Wait()` of call `c` (runner.go:117) -/
  | joining (c : Nat) (k : Option Err → Proc σ C)
  /-- about to do `errs[i] = err` (runner.go:110) -/
  | setErrs (e : Option Err)
  /-- about to do `o.err = err` (runner.go:111) -/
  | setOut (e : Option Err)
  /-- about to do `o.g.set(true)` (runner.go:112) -/
  | openGate (e : Option Err)
  /-- about to run the deferred `wg.Done()` (runner.go:85) -/
  | wgDone
  | done

/-- A goroutine.  `job = none`: a client of the controller (e.g. `main`). -/
structure Thread (σ C : Type) where
  job : Option (Job C)
  st : TSt σ C

/-- One activation of `Controller.Run` (runner.go:52-120): its arguments, the slice `errs`, the wait-group
counter.  `tid` (the caller) is bookkeeping for the proofs. -/
structure Call (C : Type) where
  tid : Nat
  ctx : C
  refs : List TRef
  errs : List (Option Err)
  live : Nat

/-- Observable events (ghost: no step reads the log).
* `act w`: the goroutine performed an atomic action, seeing world `w`
* `call c ctx refs`: it called `Run(ctx, refs...)`; this activation has number `c`
* `refuse c i e`: `errs[i]` of activation `c` was set without running anything
* `start c i key tgt ctx`: `tgt.Run(ctx, con)` was entered on behalf of element `i` of activation `c`
* `finish key tgt raw`: that `Run` method returned `raw`
* `result c i e`: element `i` of activation `c` got the result `e`
* `ret c e`: activation `c` returned `e`. -/
inductive Ev (σ C : Type) where
  | act (w : σ)
  | call (c : Nat) (ctx : C) (refs : List TRef)
  | refuse (c i : Nat) (e : Err)
  | start (c i : Nat) (key : Addr) (tgt : Obj) (ctx : C)
  | finish (key : Addr) (tgt : Obj) (raw : Option Err)
  | result (c i : Nat) (e : Option Err)
  | ret (c : Nat) (e : Option Err)

/-- A controller (`depth`, `ran`: /repo/controller.go:23-26), the world its targets act on, the goroutines, and
the log of events, each tagged with the goroutine it happened in. -/
structure State (σ C : Type) where
  world : σ
  depth : Nat
  ran : Addr → Option Outcome
  calls : List (Call C)
  threads : List (Thread σ C)
  log : List (Nat × Ev σ C)

/-- Map update. -/
def upd {β : Type} (f : Addr → β) (a : Addr) (b : β) : Addr → β := fun x => if x = a then b else f x

variable {σ C : Type}

/-- Goroutine `tid` (now `th`) moves to `st`. -/
def State.setSt (s : State σ C) (tid : Nat) (th : Thread σ C) (st : TSt σ C) : State σ C :=
  { s with threads := s.threads.set tid { th with st := st } }

/-- Append an event of goroutine `tid` to the log. -/
def State.emit (s : State σ C) (tid : Nat) (e : Ev σ C) : State σ C :=
  { s with log := s.log ++ [(tid, e)] }

/-- Change activation `c`. -/
def State.modCall (s : State σ C) (c : Nat) (f : Call C → Call C) : State σ C :=
  { s with calls := s.calls.modify c f }

/-- A new activation (entry of `Run`). -/
def State.addCall (s : State σ C) (x : Call C) : State σ C := { s with calls := s.calls ++ [x] }

/-- `errs[i] = e` in activation `c` -/
def Call.setErr (i : Nat) (e : Option Err) (x : Call C) : Call C := { x with errs := x.errs.set i e }

/-- The result of running target `t` whose `Run` returned `raw` (runner.go:106-109): nil stays nil, an error is
wrapped with "running ...". -/
def wrapErr (t : Obj) (raw : Option Err) : Option Err := raw.map (.running t)

/-- One iteration of the `for` loop of `Run` (runner.go:65-115), on element `i` of activation `c`:
a non-pointer target and an unresolvable name set `errs[i]` (runner.go:66-70, 76-80); anything else starts a
goroutine (runner.go:83-84).  Note that the key `addr` is computed before the name is resolved (runner.go:66, 76). -/
def spawnOne (env : Env σ C) (s : State σ C) (tid c i : Nat) (ctx : C) (r : TRef) : State σ C :=
  match r with
  | .val n => (s.modCall c (Call.setErr i (some (.notPointer n)))).emit tid (.refuse c i (.notPointer n))
  | .ptr o =>
    match env.resolve o with
    | none =>
      { s.modCall c (fun x => { x with live := x.live + 1 }) with
        threads := s.threads ++ [⟨some ⟨c, i, env.addr o, o, ctx⟩, .lookup⟩] }
    | some f =>
      match f s.world with
      | (w', .error e) =>
        ({ s.modCall c (Call.setErr i (some e)) with world := w' }).emit tid (.refuse c i e)
      | (w', .ok t) =>
        { s.modCall c (fun x => { x with live := x.live + 1 }) with
          world := w'
          threads := s.threads ++ [⟨some ⟨c, i, env.addr o, t, ctx⟩, .lookup⟩] }

/-- One atomic step of goroutine `tid`; `none` if it cannot move (finished or blocked). -/
def step (env : Env σ C) (s : State σ C) (tid : Nat) : Option (State σ C) :=
  match s.threads[tid]? with
  | none => none
  | some th =>
    match th.st, th.job with
    -- runner.go:87-93: look up or insert, under con.mu
    | .lookup, some j =>
      match s.ran j.key with
      | some _ => some (s.setSt tid th .waiting)
      | none =>
        some ((({ s with ran := upd s.ran j.key (some ⟨none, false, tid⟩) } : State σ C).setSt
          tid th (.exec (env.body j.tgt j.ctx))).emit tid (.start j.call j.idx j.key j.tgt j.ctx))
    -- runner.go:98: o.g.wait()
    | .waiting, some j =>
      match s.ran j.key with
      | some o => if o.opened then some (s.setSt tid th .readOut) else none
      | none => none
    -- runner.go:99: errs[i] = o.err
    | .readOut, some j =>
      match s.ran j.key with
      | some o => some (((s.modCall j.call (Call.setErr j.idx o.err)).setSt tid th .wgDone).emit
          tid (.result j.call j.idx o.err))
      | none => none
    -- the body acts on the world
    | .exec (.act f k), _ =>
      some ((({ s with world := f s.world } : State σ C).setSt tid th (.exec (k s.world))).emit tid (.act s.world))
    -- runner.go:52-64: entry of Run; no arguments: return nil at once (runner.go:53-55)
    | .exec (.call ctx [] k), _ =>
      let c := s.calls.length
      some (((s.addCall ⟨tid, ctx, [], [], 0⟩).setSt tid th (.exec (k none))).emit tid (.call c ctx [])
        |>.emit tid (.ret c none))
    | .exec (.call ctx (r :: rs) k), _ =>
      let c := s.calls.length
      some (((({ s with depth := s.depth + 1 } : State σ C).addCall
          ⟨tid, ctx, r :: rs, List.replicate (r :: rs).length none, 0⟩).setSt
          tid th (.spawning c 0 ctx (r :: rs) k)).emit tid (.call c ctx (r :: rs)))
    -- runner.go:106-109: the body returned
    | .exec (.ret e), some j =>
      some ((s.setSt tid th (.setErrs (wrapErr j.tgt e))).emit tid (.finish j.key j.tgt e))
    | .exec (.ret _), none => some (s.setSt tid th .done)
    -- runner.go:65-115: the loop
    | .spawning c _ _ [] k, _ => some (s.setSt tid th (.joining c k))
    | .spawning c i ctx (r :: rs) k, _ =>
      some (spawnOne env (s.setSt tid th (.spawning c (i + 1) ctx rs k)) tid c i ctx r)
    -- runner.go:117-119: wg.Wait(), deferred decDepth, errors.Join
    | .joining c k, _ =>
      match s.calls[c]? with
      | some x =>
        if x.live = 0 then
          some ((({ s with depth := s.depth - 1 } : State σ C).setSt tid th (.exec (k (errJoin x.errs)))).emit
            tid (.ret c (errJoin x.errs)))
        else none
      | none => none
    -- runner.go:110
    | .setErrs e, some j =>
      some (((s.modCall j.call (Call.setErr j.idx e)).setSt tid th (.setOut e)).emit tid (.result j.call j.idx e))
    -- runner.go:111
    | .setOut e, some j =>
      match s.ran j.key with
      | some o => some (({ s with ran := upd s.ran j.key (some { o with err := e }) } : State σ C).setSt tid th (.openGate e))
      | none => none
    -- runner.go:112
    | .openGate _, some j =>
      match s.ran j.key with
      | some o => some (({ s with ran := upd s.ran j.key (some { o with opened := true }) } : State σ C).setSt tid th .wgDone)
      | none => none
    -- runner.go:85: deferred wg.Done()
    | .wgDone, some j =>
      some ((s.modCall j.call (fun x => { x with live := x.live - 1 })).setSt tid th .done)
    | _, _ => none

/-- A step of the system: a goroutine moves, or something outside the process changes the world. -/
inductive Label (σ : Type) where
  | thread (tid : Nat)
  | extern (f : σ → σ)

/-- A labelled step. -/
def lstep (env : Env σ C) (s : State σ C) : Label σ → Option (State σ C)
  | .thread tid => step env s tid
  | .extern f => some { s with world := f s.world }

/-- A new controller (/repo/controller.go:38-45) and the goroutines that will use it. -/
def init (w : σ) (clients : List (Proc σ C)) : State σ C :=
  { world := w, depth := 0, ran := fun _ => none, calls := [],
    threads := clients.map fun p => ⟨none, .exec p⟩, log := [] }

/-- `s` can be reached by some schedule from a new controller in world `w` with the given clients. -/
inductive Reach (env : Env σ C) (w : σ) (clients : List (Proc σ C)) : State σ C → Prop where
  | init : Reach env w clients (init w clients)
  | step {s s'} (l : Label σ) : Reach env w clients s → lstep env s l = some s' → Reach env w clients s'

/-- Run a schedule; labels that are not enabled are skipped. -/
def runSched (env : Env σ C) (s : State σ C) : List (Label σ) → State σ C
  | [] => s
  | l :: ls => runSched env ((lstep env s l).getD s) ls

end Fab.Runner
