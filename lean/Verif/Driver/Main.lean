import Verif.Driver.Flags
import Verif.Driver.Targets
import Verif.Yaml.Load

/-!
# The fab command (/repo/cmd/fab/main.go, /repo/main.go:68-143, /repo/driver.go.tmpl): C71

From the command line to the call of `con.Run`, and back to the exit status, with and without a driver.

Parameters of the model: the file system as far as it decides what `TopDir`, `getDriver`, reading the YAML files and opening the
database give (these have models of their own), and whether the targets that are run succeed.  What is printed, apart from the list of
targets, is not modelled.  An interrupted process is not modelled.
-/

namespace Fab.Driver
open Fab Path Registry

/-! ## The model -/

/-- The circumstances in which targets run. -/
structure Place where
  /-- the working directory of the process -/
  cwd : List Str
  /-- the process has the standard input of the fab command (and not an empty one) -/
  stdin : Bool
deriving DecidableEq

/-- A driver, as far as it differs from others: the registrations that were generated for it (`compileDriver`), the values of the variables,
and the objects that exist when `main` begins. -/
structure Prog where
  regs : List (Str × Str)
  value : Str → Tgt
  start : Yaml.St

/-- What `getDriver` returns (main.go:166-288). -/
inductive Drv where
  | noDriver
  | error
  | ok (prog : Prog)

structure World where
  /-- `os.UserCacheDir` and `os.UserHomeDir` -/
  cacheDir : Option Str
  homeDir : Option Str
  /-- the directory in which fab is started -/
  cwd : List Str
  /-- `TopDir(".")` -/
  topDir : Option Str
  driver : Drv
  /-- What YAML files are there below a top directory, and what the tags in them mean: to a driver, and to fab itself.  A process knows
  the tags of those packages that are linked into it. -/
  lib : (driver : Bool) → (top : Str) → Yaml.Lib
  /-- the addresses of targets, `targetAddr` in controller.go -/
  addr : Nat → Nat
  /-- `OpenHashDB` for an absolute path -/
  openDB : Str → Option Nat
  /-- whether `con.Run` returns nil -/
  run : Place → Ctx → Yaml.St → List PTgt → Bool

/-- What a process does that a user can see. -/
inductive Act where
  /-- it prints a list of targets, with the advice to specify one if `hint` -/
  | listed (hint : Bool) (text : Str)
  /-- it runs these targets -/
  | ran (place : Place) (ctx : Ctx) (s : Yaml.St) (targets : List PTgt)

/-- What was done, and the exit status; `none`: the process does not come to an end within the bound for the recursion of YAML files. -/
abbrev Outcome := Option (List Act × Nat)

/-- The fab directory if there is no flag: cmd/fab/main.go:15-23, driver.go.tmpl:19-27 -/
def World.fabDir (W : World) : Option Str :=
  match W.cacheDir with
  | some d => some (join [d, "fab".toList])
  | none => W.homeDir.map fun h => join [join [h, ".cache".toList], "fab".toList]

/-- Exit status for an error of `flag.Parse`, which prints it and exits (`flag.ExitOnError`). -/
def flagExit : FErr → Nat
  | .help => 0
  | _ => 2

/-- main.go:137-142 and driver.go.tmpl:84-91: the end of both ways; the status is that of the driver.  A panic ends a process with
status 2. -/
def finish (W : World) (p : Place) (ctx : Ctx) (s : Yaml.St) (args : List Str) : List Act × Nat :=
  match parseArgs s.reg args with
  | .err _ => ([], 1)
  | .panic => ([], 2)
  | .ok ts => ([.ran p ctx s ts], if W.run p ctx s ts then 0 else 1)

/-- `main` of the driver after the command line was parsed (driver.go.tmpl:46-91) -/
def driverRun (W : World) (n : Nat) (prog : Prog) (p : Place) (st : Settings) (args : List Str) : Outcome :=
  match registerAll W.addr prog.value prog.regs prog.start.reg with
  | none => some ([], 1)
  | some reg =>
    match Yaml.load (W.lib true (absOf p.cwd st.top)) n { prog.start with reg := reg } with
    | .more => none
    | .err _ _ => some ([], 1)
    | .ok _ s =>
      match W.openDB (absOf p.cwd st.fab) with
      | none => some ([], 1)
      | some db =>
        let hint := args.isEmpty && !st.list
        if hint || st.list then some ([.listed hint (listTargets s.reg)], 0)
        else some (finish W p (withHashDB (driverCtx st) db) s args)

/-- `main` of the driver (driver.go.tmpl:19-92), with the registrations, a working directory and a command line. -/
def driverMain (W : World) (n : Nat) (prog : Prog) (p : Place) (argv : List Str) : Outcome :=
  match W.fabDir with
  | none => some ([], 1)
  | some dir =>
    match parse driverFlags (defaults dir) argv with
    | .error e => some ([], flagExit e)
    | .ok (st, args) => driverRun W n prog p st args

/-- `driverless` (main.go:110-143); the status is 0 if it returns nil, 1 if it returns an error, and 2 if it panics. -/
def driverless (W : World) (n : Nat) (st : Settings) (args : List Str) : Outcome :=
  match Yaml.load (W.lib false (absOf W.cwd st.top)) n Yaml.St.empty with
  | .more => none
  | .err _ _ => some ([], 1)
  | .ok _ s =>
    if st.list then some ([.listed false (listTargets s.reg)], 0)
    else
      match W.openDB (absOf W.cwd st.fab) with
      | none => some ([], 1)
      | some db => some (finish W ⟨W.cwd, true⟩ (withHashDB (driverCtx st) db) s args)

/-- `Main.Run` (main.go:68-106), where `st` is what the fields of `Main` say; `cmd.Stdin` is not set (main.go:103), which means an empty
standard input. -/
def mainRun (W : World) (n : Nat) (st : Settings) (args : List Str) : Outcome :=
  match (if st.top = [] then W.topDir else some st.top) with
  | none => some ([], 1)
  | some top =>
    let st := { st with top := top }
    match W.driver with
    | .noDriver => driverless W n st args
    | .error => some ([], 1)
    | .ok prog => (driverMain W n prog ⟨driverCwd W.cwd top, false⟩ (driverArgs st args)).map fun o => (o.1, if o.2 = 0 then 0 else 1)

/-- `main` of fab (cmd/fab/main.go:14-51) -/
def fabMain (W : World) (n : Nat) (argv : List Str) : Outcome :=
  match W.fabDir with
  | none => some ([], 1)
  | some dir =>
    match parse fabFlags (defaults dir) argv with
    | .error e => some ([], flagExit e)
    | .ok (st, args) => mainRun W n st args

/-! ## The specification -/

/-- The settings in a context are those of the command line, and there is a database. -/
def CtxFor (st : Settings) (ctx : Ctx) (db : Nat) : Prop :=
  getVerbose ctx = st.verbose ∧ getForce ctx = st.force ∧ getDryRun ctx = st.dryRun ∧ getHashDB ctx = some db ∧ getArgs ctx = []

/-- The targets that the arguments name, in the words of the property: the arguments are names of targets, or (if the second one is an
option) the name of a target and arguments for it. -/
inductive Names (r : Reg) : List Str → List PTgt → Prop
  | options {a o opts} (ho : OptionForm (a :: opts)) (ht : (r.target a).1 = some o) : Names r (a :: opts) [.withArgs o opts]
  | targets {args} {os : List Nat} (ho : ¬ OptionForm args) (ht : args.map (fun a => (r.target a).1) = os.map some) : Names r args (os.map .plain)

/-- Before targets are run: the top directory was found, the YAML files there have been read and the driver's targets registered, and so the state is
`s`; and the process that runs the targets does so in these circumstances. -/
inductive Ready (W : World) (n : Nat) (top : Str) : Place → Yaml.St → Prop
  | driverless {s} (hd : W.driver = .noDriver) (hl : Yaml.load (W.lib false (absOf W.cwd top)) n Yaml.St.empty = .ok () s) :
    Ready W n top ⟨W.cwd, true⟩ s
  | driver {prog reg s} (hd : W.driver = .ok prog) (hr : registerAll W.addr prog.value prog.regs prog.start.reg = some reg)
    (hl : Yaml.load (W.lib true (absOf (driverCwd W.cwd top) top)) n { prog.start with reg := reg } = .ok () s) :
    Ready W n top ⟨driverCwd W.cwd top, false⟩ s

/-- The command line asks for help. -/
def AsksHelp (argv : List Str) : Prop := ∃ a ∈ argv, ∃ v, classify a = .flag "h".toList v ∨ classify a = .flag "help".toList v

/-! ## Lemmas -/

theorem parse_help (formal : Str → Option Flag) : ∀ (n : Nat) (args : List Str), args.length ≤ n → ∀ st : Settings,
    parse formal st args = .error .help → AsksHelp args := by
  intro n
  induction n with
  | zero =>
    intro args hl st h
    cases args with
    | nil => rw [parse] at h; cases h
    | cons a l => simp at hl
  | succ n ih =>
    intro args hl st h
    cases args with
    | nil => rw [parse] at h; cases h
    | cons s l =>
      simp only [List.length_cons] at hl
      have key : ∀ st1 l1, l1 <:+ l → parse formal st1 l1 = .error .help → AsksHelp (s :: l) := by
        intro st1 l1 hl1 hp
        have := hl1.length_le
        obtain ⟨a, ha, h⟩ := ih l1 (by omega) st1 hp
        exact ⟨a, List.mem_cons_of_mem _ (hl1.subset ha), h⟩
      have hset : ∀ fl v, setFlag st fl v ≠ .error .help := by
        intro fl v
        cases fl <;> simp only [setFlag] <;> (try cases parseBool v) <;> (intro h; cases h)
      rw [parse] at h
      cases hc : classify s with
      | plain => simp only [hc] at h; cases h
      | stop => simp only [hc] at h; cases h
      | bad => simp only [hc] at h; cases h
      | flag name value =>
        simp only [hc] at h
        cases hf : formal name with
        | none =>
          simp only [hf] at h
          by_cases hn : name = "help".toList ∨ name = "h".toList
          · refine ⟨s, by simp, value, ?_⟩
            rcases hn with rfl | rfl
            · exact .inr hc
            · exact .inl hc
          · rw [if_neg hn] at h; cases h
        | some fl =>
          simp only [hf] at h
          split at h
          · cases hs : setFlag st fl (value.getD "true".toList) with
            | error e => rw [hs] at h; injection h with h; subst h; exact absurd hs (hset _ _)
            | ok st1 => rw [hs] at h; exact key st1 l (List.suffix_refl _) h
          · cases value with
            | some v =>
              simp only at h
              cases hs : setFlag st fl v with
              | error e => rw [hs] at h; injection h with h; subst h; exact absurd hs (hset _ _)
              | ok st1 => rw [hs] at h; exact key st1 l (List.suffix_refl _) h
            | none =>
              cases l with
              | nil => simp only at h; cases h
              | cons v l =>
                simp only at h
                cases hs : setFlag st fl v with
                | error e => rw [hs] at h; injection h with h; subst h; exact absurd hs (hset _ _)
                | ok st1 => rw [hs] at h; exact key st1 l (List.suffix_cons _ _) h

theorem parseArgs_names {r : Reg} {args : List Str} {ts : List PTgt} : parseArgs r args = .ok ts ↔ Names r args ts ∧ ¬ EmptySecond args := by
  by_cases he : EmptySecond args
  · obtain ⟨a, rest, rfl⟩ := he
    rw [C16_empty_second_panics]
    constructor
    · intro h; cases h
    · intro h; exact absurd ⟨a, rest, rfl⟩ h.2
  by_cases ho : OptionForm args
  · have hcopy := ho
    obtain ⟨a, rest, c, cs, rfl, rfl⟩ := hcopy
    rw [C16_option_form r a _ ho]
    cases ht : (r.target a).1 with
    | none =>
      constructor
      · intro h; cases h
      · rintro ⟨h, -⟩
        cases h with
        | options _ h => rw [h] at ht; cases ht
        | targets h _ => exact absurd ho h
    | some o =>
      constructor
      · intro h
        injection h with h
        subst h
        exact ⟨.options ho ht, he⟩
      · rintro ⟨h, -⟩
        cases h with
        | options _ h => rw [h] at ht; injection ht with ht; subst ht; rfl
        | targets h _ => exact absurd ho h
  · obtain ⟨h1, h2⟩ := C16_target_list_partial r args ho he
    by_cases hall : ∀ a ∈ args, (r.target a).1 ≠ none
    · obtain ⟨os, e1, e2⟩ := h1 hall
      rw [e1]
      constructor
      · intro h; injection h with h; subst h
        exact ⟨.targets ho e2.symm, he⟩
      · rintro ⟨h, -⟩
        cases h with
        | options h _ => exact absurd h ho
        | @targets _ os' _ h =>
          rw [← e2] at h
          have := List.map_injective_iff.2 (Option.some_injective Nat) h
          rw [this]
    · rw [h2 hall]
      constructor
      · intro h; cases h
      · rintro ⟨h, -⟩
        cases h with
        | options h _ => exact absurd h ho
        | @targets _ os' _ h =>
          exfalso
          apply hall
          intro a ha hn
          have : none ∈ os'.map some := by rw [← h, ← hn]; exact List.mem_map_of_mem ha
          simp at this

theorem ctxFor (st : Settings) (db : Nat) : CtxFor st (withHashDB (driverCtx st) db) db := by
  refine ⟨?_, ?_, ?_, ?_, ?_⟩ <;>
    simp [driverCtx, withHashDB, getHashDB, getVerbose, getForce, getDryRun, getArgs, withDryRun, withForce, withVerbose, Ctx.value, asBool, asDB, asStrs]

theorem finish_status {W : World} {p : Place} {ctx : Ctx} {s : Yaml.St} {args : List Str} {acts : List Act} {k : Nat}
    (h : finish W p ctx s args = (acts, k)) :
    (∃ ts, parseArgs s.reg args = .ok ts ∧ acts = [.ran p ctx s ts] ∧ (k = 0 ↔ W.run p ctx s ts = true)) ∨
    ((∀ ts, parseArgs s.reg args ≠ .ok ts) ∧ acts = [] ∧ k ≠ 0) := by
  unfold finish at h
  cases hp : parseArgs s.reg args with
  | err m => rw [hp] at h; injection h with h1 h2; subst h1 h2; exact .inr ⟨fun ts h => by (cases h), rfl, by decide⟩
  | panic => rw [hp] at h; injection h with h1 h2; subst h1 h2; exact .inr ⟨fun ts h => by (cases h), rfl, by decide⟩
  | ok ts =>
    rw [hp] at h
    injection h with h1 h2
    subst h1 h2
    refine .inl ⟨ts, rfl, rfl, ?_⟩
    cases W.run p ctx s ts <;> simp

theorem driverRun_status {W : World} {n : Nat} {prog : Prog} {p : Place} {st : Settings} {args : List Str} {acts : List Act} {k : Nat}
    (h : driverRun W n prog p st args = some (acts, k)) :
    (∃ p ctx s ts, acts = [.ran p ctx s ts] ∧ (k = 0 ↔ W.run p ctx s ts = true)) ∨ (∃ hint text, acts = [.listed hint text] ∧ k = 0) ∨
    (acts = [] ∧ k ≠ 0) := by
  unfold driverRun at h
  cases hr : registerAll W.addr prog.value prog.regs prog.start.reg with
  | none => simp only [hr, Option.some.injEq, Prod.mk.injEq] at h; exact .inr (.inr ⟨h.1.symm, by omega⟩)
  | some reg =>
    simp only [hr] at h
    cases hl : Yaml.load (W.lib true (absOf p.cwd st.top)) n { prog.start with reg := reg } with
    | more => simp only [hl] at h; cases h
    | err e s' => simp only [hl, Option.some.injEq, Prod.mk.injEq] at h; exact .inr (.inr ⟨h.1.symm, by omega⟩)
    | ok u s =>
      simp only [hl] at h
      cases hdb : W.openDB (absOf p.cwd st.fab) with
      | none => simp only [hdb, Option.some.injEq, Prod.mk.injEq] at h; exact .inr (.inr ⟨h.1.symm, by omega⟩)
      | some db =>
        simp only [hdb] at h
        split at h
        · simp only [Option.some.injEq, Prod.mk.injEq] at h
          exact .inr (.inl ⟨_, _, h.1.symm, h.2.symm⟩)
        · simp only [Option.some.injEq] at h
          rcases finish_status h with ⟨ts, h1, h2, h3⟩ | ⟨h1, h2, h3⟩
          · exact .inl ⟨_, _, _, ts, h2, h3⟩
          · exact .inr (.inr ⟨h2, h3⟩)

theorem driverMain_status {W : World} {n : Nat} {prog : Prog} {p : Place} {argv : List Str} {acts : List Act} {k : Nat}
    (h : driverMain W n prog p argv = some (acts, k)) :
    (∃ p ctx s ts, acts = [.ran p ctx s ts] ∧ (k = 0 ↔ W.run p ctx s ts = true)) ∨ (∃ hint text, acts = [.listed hint text] ∧ k = 0) ∨
    (acts = [] ∧ (k ≠ 0 ∨ ∃ dir, parse driverFlags (defaults dir) argv = .error .help)) := by
  unfold driverMain at h
  cases hw : W.fabDir with
  | none => simp only [hw, Option.some.injEq, Prod.mk.injEq] at h; exact .inr (.inr ⟨h.1.symm, .inl (by omega)⟩)
  | some dir =>
    simp only [hw] at h
    cases hp : parse driverFlags (defaults dir) argv with
    | error e =>
      simp only [hp, Option.some.injEq, Prod.mk.injEq] at h
      refine .inr (.inr ⟨h.1.symm, ?_⟩)
      cases e <;> simp only [flagExit] at h
      case help => exact .inr ⟨dir, hp⟩
      all_goals exact .inl (by omega)
    | ok r =>
      obtain ⟨st, args⟩ := r
      simp only [hp] at h
      rcases driverRun_status h with h | h | ⟨h1, h2⟩
      · exact .inl h
      · exact .inr (.inl h)
      · exact .inr (.inr ⟨h1, .inl h2⟩)

theorem driverless_status {W : World} {n : Nat} {st : Settings} {args : List Str} {acts : List Act} {k : Nat}
    (h : driverless W n st args = some (acts, k)) :
    (∃ p ctx s ts, acts = [.ran p ctx s ts] ∧ (k = 0 ↔ W.run p ctx s ts = true)) ∨ (∃ hint text, acts = [.listed hint text] ∧ k = 0) ∨
    (acts = [] ∧ k ≠ 0) := by
  unfold driverless at h
  cases hl : Yaml.load (W.lib false (absOf W.cwd st.top)) n Yaml.St.empty with
  | more => simp only [hl] at h; cases h
  | err e s' => simp only [hl, Option.some.injEq, Prod.mk.injEq] at h; exact .inr (.inr ⟨h.1.symm, by omega⟩)
  | ok u s =>
    simp only [hl] at h
    split at h
    · simp only [Option.some.injEq, Prod.mk.injEq] at h
      exact .inr (.inl ⟨_, _, h.1.symm, h.2.symm⟩)
    · cases hdb : W.openDB (absOf W.cwd st.fab) with
      | none => simp only [hdb, Option.some.injEq, Prod.mk.injEq] at h; exact .inr (.inr ⟨h.1.symm, by omega⟩)
      | some db =>
        simp only [hdb, Option.some.injEq] at h
        rcases finish_status h with ⟨ts, h1, h2, h3⟩ | ⟨h1, h2, h3⟩
        · exact .inl ⟨_, _, _, ts, h2, h3⟩
        · exact .inr (.inr ⟨h2, h3⟩)

/-! ## C71 -/

/-- **C71, exit status.** Whatever the command line and the project: fab (with or without a driver) runs targets, and its exit status is 0 exactly
if they all succeed; or it prints the list of targets, and its status is 0; or it does neither, and its status is not 0 unless help was asked
for. -/
theorem C71_status {W : World} {n : Nat} {argv : List Str} {acts : List Act} {k : Nat} (h : fabMain W n argv = some (acts, k)) :
    (∃ p ctx s ts, acts = [.ran p ctx s ts] ∧ (k = 0 ↔ W.run p ctx s ts = true)) ∨ (∃ hint text, acts = [.listed hint text] ∧ k = 0) ∨
    (acts = [] ∧ (k ≠ 0 ∨ AsksHelp argv)) := by
  unfold fabMain at h
  cases hw : W.fabDir with
  | none => simp only [hw, Option.some.injEq, Prod.mk.injEq] at h; exact .inr (.inr ⟨h.1.symm, .inl (by omega)⟩)
  | some dir =>
    simp only [hw] at h
    cases hp : parse fabFlags (defaults dir) argv with
    | error e =>
      simp only [hp, Option.some.injEq, Prod.mk.injEq] at h
      refine .inr (.inr ⟨h.1.symm, ?_⟩)
      cases e <;> simp only [flagExit] at h
      case help => exact .inr (parse_help _ _ _ (Nat.le_refl _) _ hp)
      all_goals exact .inl (by omega)
    | ok r =>
      obtain ⟨st, args⟩ := r
      simp only [hp] at h
      have hsuf : args <:+ argv := (parse_rest fabFlags argv.length argv (Nat.le_refl _) _ _ _ hp).1
      unfold mainRun at h
      generalize (if st.top = [] then W.topDir else some st.top) = t at h
      cases t with
      | none => simp only [Option.some.injEq, Prod.mk.injEq] at h; exact .inr (.inr ⟨h.1.symm, .inl (by omega)⟩)
      | some top =>
        simp only at h
        cases hd : W.driver with
        | error => simp only [hd, Option.some.injEq, Prod.mk.injEq] at h; exact .inr (.inr ⟨h.1.symm, .inl (by omega)⟩)
        | noDriver =>
          simp only [hd] at h
          rcases driverless_status h with h | h | ⟨h1, h2⟩
          · exact .inl h
          · exact .inr (.inl h)
          · exact .inr (.inr ⟨h1, .inl h2⟩)
        | ok prog =>
          simp only [hd] at h
          obtain ⟨⟨acts', k'⟩, ho, e⟩ := Option.map_eq_some_iff.1 h
          simp only [Prod.mk.injEq] at e
          obtain ⟨rfl, rfl⟩ := e
          rcases driverMain_status ho with ⟨p, ctx, s, ts, h1, h2⟩ | ⟨hint, text, h1, rfl⟩ | ⟨h1, h2⟩
          · refine .inl ⟨p, ctx, s, ts, h1, ?_⟩
            rw [← h2]
            by_cases hk : k' = 0
            · simp [hk]
            · simp [hk]
          · exact .inr (.inl ⟨hint, text, h1, rfl⟩)
          · refine .inr (.inr ⟨h1, ?_⟩)
            rcases h2 with h2 | ⟨dir', h2⟩
            · exact .inl (by rw [if_neg h2]; decide)
            · refine .inr ?_
              rw [parse_driverArgs] at h2
              obtain ⟨a, ha, hv⟩ := parse_help _ _ _ (Nat.le_refl _) _ h2
              exact ⟨a, hsuf.subset ha, hv⟩

/-- The fab command has no flag for the top directory. -/
theorem parse_top : ∀ (n : Nat) (args : List Str), args.length ≤ n → ∀ (st st' : Settings) (rest : List Str),
    parse fabFlags st args = .ok (st', rest) → st'.top = st.top := by
  intro n
  induction n with
  | zero =>
    intro args hl st st' rest h
    cases args with
    | nil => rw [parse] at h; injection h with h; injection h with h1 h2; rw [h1]
    | cons a l => simp at hl
  | succ n ih =>
    intro args hl st st' rest h
    cases args with
    | nil => rw [parse] at h; injection h with h; injection h with h1 h2; rw [h1]
    | cons s l =>
      simp only [List.length_cons] at hl
      have hset : ∀ name fl v st1, fabFlags name = some fl → setFlag st fl v = .ok st1 → st1.top = st.top := by
        intro name fl v st1 hf hs
        cases fl with
        | top =>
          exfalso
          unfold fabFlags at hf
          repeat' split at hf
          all_goals cases hf
        | fab => simp only [setFlag] at hs; injection hs with hs; subst hs; rfl
        | _ =>
          simp only [setFlag] at hs
          cases hb : parseBool v with
          | none => rw [hb] at hs; cases hs
          | some b => rw [hb] at hs; injection hs with hs; subst hs; rfl
      rw [parse] at h
      cases hc : classify s with
      | plain => simp only [hc] at h; injection h with h; injection h with h1 h2; rw [h1]
      | stop => simp only [hc] at h; injection h with h; injection h with h1 h2; rw [h1]
      | bad => simp only [hc] at h; cases h
      | flag name value =>
        simp only [hc] at h
        cases hf : fabFlags name with
        | none => simp only [hf] at h; split at h <;> cases h
        | some fl =>
          simp only [hf] at h
          split at h
          · cases hs : setFlag st fl (value.getD "true".toList) with
            | error e => rw [hs] at h; cases h
            | ok st1 => rw [hs] at h; rw [ih l (by omega) _ _ _ h, hset _ _ _ _ hf hs]
          · cases value with
            | some v =>
              simp only at h
              cases hs : setFlag st fl v with
              | error e => rw [hs] at h; cases h
              | ok st1 => rw [hs] at h; rw [ih l (by omega) _ _ _ h, hset _ _ _ _ hf hs]
            | none =>
              cases l with
              | nil => simp only at h; cases h
              | cons v l =>
                simp only at h
                simp only [List.length_cons] at hl
                cases hs : setFlag st fl v with
                | error e => rw [hs] at h; cases h
                | ok st1 => rw [hs] at h; rw [ih l (by omega) _ _ _ h, hset _ _ _ _ hf hs]

/-- fab, once its command line was parsed, if the arguments do not begin with one that looks like a flag -/
theorem fabMain_eq {W : World} (n : Nat) {argv : List Str} {dir top : Str} {st : Settings} {args : List Str} (hw : W.fabDir = some dir)
    (hp : parse fabFlags (defaults dir) argv = .ok (st, args)) (hd : PlainArgs argv) (ht : W.topDir = some top) :
    (W.driver = .noDriver → fabMain W n argv = driverless W n { st with top := top } args) ∧ (W.driver = .error → fabMain W n argv = some ([], 1)) ∧
    ∀ prog, W.driver = .ok prog → fabMain W n argv =
      (driverRun W n prog ⟨driverCwd W.cwd top, false⟩ { st with top := top } args).map fun o => (o.1, if o.2 = 0 then 0 else 1) := by
  have h0 : st.top = [] := parse_top argv.length argv (Nat.le_refl _) _ _ _ hp
  refine ⟨fun h => ?_, fun h => ?_, fun prog h => ?_⟩
  · simp only [fabMain, hw, hp, mainRun, h0, if_true, ht, h]
  · simp only [fabMain, hw, hp, mainRun, h0, if_true, ht, h]
  · simp only [fabMain, hw, hp, mainRun, h0, if_true, ht, h, driverMain, (C51_end_to_end_partial dir dir top argv st args hp hd).1]

theorem status_norm (b : Bool) : (if (if b = true then 0 else 1 : Nat) = 0 then 0 else 1 : Nat) = if b = true then 0 else 1 := by
  cases b <;> rfl

theorem driverCtx_top (st : Settings) (top : Str) : driverCtx { st with top := top } = driverCtx st := rfl

/-- **C71, what runs (partly).** If the command line has arguments and no -list, the project could be read, and the arguments name targets, then
these targets are run, with the settings of the command line and the database of the fab directory, and the exit status tells whether they
succeeded.  What is missing: a command line with "--" followed by what looks like a flag (see C51), and one with an empty second argument (see C16). -/
theorem C71_runs_partial {W : World} {n : Nat} {argv : List Str} {dir top : Str} {st : Settings} {args : List Str} {p : Place} {s : Yaml.St} {db : Nat}
    {ts : List PTgt} (hw : W.fabDir = some dir) (hp : parse fabFlags (defaults dir) argv = .ok (st, args)) (hd : PlainArgs argv)
    (ht : W.topDir = some top) (hr : Ready W n top p s) (hl : st.list = false) (ha : args ≠ []) (hdb : W.openDB (absOf p.cwd st.fab) = some db)
    (hn : Names s.reg args ts) (he : ¬ EmptySecond args) :
    ∃ ctx, CtxFor st ctx db ∧ fabMain W n argv = some ([.ran p ctx s ts], if W.run p ctx s ts then 0 else 1) := by
  obtain ⟨h1, -, h3⟩ := fabMain_eq n hw hp hd ht
  have ha' : args.isEmpty = false := by cases args with | nil => exact absurd rfl ha | cons _ _ => rfl
  refine ⟨_, ctxFor st db, ?_⟩
  have hpa := parseArgs_names.2 ⟨hn, he⟩
  cases hr with
  | driverless hdr hload =>
    rw [h1 hdr]
    simp only [driverless, hload, hl, hdb, finish, hpa, Bool.false_eq_true, if_false]
    rfl
  | driver hdr hreg hload =>
    rw [h3 _ hdr]
    simp only [driverRun, hreg, hload, hl, ha', hdb, finish, hpa, Bool.not_false, Bool.and_true, Bool.or_false, Bool.false_eq_true, if_false, Option.map_some, status_norm]
    rfl

/-- **C71, what runs, conversely (partly).** Targets are run only then: -list was not given, and they are the targets that the arguments name, in a project
that could be read, with the settings of the command line and the database of the fab directory.  What is missing: a command line with "--" followed by what looks like a flag. -/
theorem C71_only_partial {W : World} {n : Nat} {argv : List Str} {dir top : Str} {st : Settings} {args : List Str} {p : Place} {ctx : Ctx} {s : Yaml.St}
    {ts : List PTgt} {k : Nat} (hw : W.fabDir = some dir) (hp : parse fabFlags (defaults dir) argv = .ok (st, args)) (hd : PlainArgs argv)
    (ht : W.topDir = some top) (h : fabMain W n argv = some ([.ran p ctx s ts], k)) :
    Ready W n top p s ∧ st.list = false ∧ Names s.reg args ts ∧ ∃ db, W.openDB (absOf p.cwd st.fab) = some db ∧ CtxFor st ctx db := by
  obtain ⟨h1, h2, h3⟩ := fabMain_eq n hw hp hd ht
  have fin : ∀ p' db s', finish W p' (withHashDB (driverCtx st) db) s' args = ([.ran p ctx s ts], k) ∨
      (∃ k', finish W p' (withHashDB (driverCtx st) db) s' args = ([.ran p ctx s ts], k')) →
      p' = p ∧ s' = s ∧ ctx = withHashDB (driverCtx st) db ∧ Names s.reg args ts := by
    intro p' db s' hf
    obtain ⟨k', hf⟩ : ∃ k', finish W p' (withHashDB (driverCtx st) db) s' args = ([.ran p ctx s ts], k') := by
      rcases hf with hf | hf
      · exact ⟨_, hf⟩
      · exact hf
    rcases finish_status hf with ⟨ts', e1, e2, -⟩ | ⟨-, e2, -⟩
    · simp only [List.cons.injEq, Act.ran.injEq, and_true] at e2
      obtain ⟨rfl, rfl, rfl, rfl⟩ := e2
      exact ⟨rfl, rfl, rfl, (parseArgs_names.1 e1).1⟩
    · cases e2
  cases hdr : W.driver with
  | error => rw [h2 hdr] at h; cases h
  | noDriver =>
    rw [h1 hdr] at h
    unfold driverless at h
    cases hload : Yaml.load (W.lib false (absOf W.cwd top)) n Yaml.St.empty with
    | more => simp only [hload] at h; cases h
    | err e s' => simp only [hload] at h; cases h
    | ok u s' =>
      simp only [hload] at h
      cases hl : st.list with
      | true => simp [hl] at h
      | false =>
        simp only [hl, Bool.false_eq_true, if_false] at h
        cases hdb : W.openDB (absOf W.cwd st.fab) with
        | none => simp only [hdb] at h; cases h
        | some db =>
          simp only [hdb, Option.some.injEq] at h
          obtain ⟨rfl, rfl, rfl, hn⟩ := fin _ _ _ (.inl h)
          exact ⟨.driverless hdr hload, rfl, hn, db, hdb, ctxFor st db⟩
  | ok prog =>
    rw [h3 _ hdr] at h
    obtain ⟨⟨acts', k'⟩, h, e⟩ := Option.map_eq_some_iff.1 h
    simp only [Prod.mk.injEq] at e
    obtain ⟨rfl, -⟩ := e
    unfold driverRun at h
    cases hreg : registerAll W.addr prog.value prog.regs prog.start.reg with
    | none => simp only [hreg] at h; cases h
    | some reg =>
      simp only [hreg] at h
      cases hload : Yaml.load (W.lib true (absOf (driverCwd W.cwd top) top)) n { prog.start with reg := reg } with
      | more => simp only [hload] at h; cases h
      | err e s' => simp only [hload] at h; cases h
      | ok u s' =>
        simp only [hload] at h
        cases hdb : W.openDB (absOf (driverCwd W.cwd top) st.fab) with
        | none => simp only [hdb] at h; cases h
        | some db =>
          simp only [hdb, driverCtx_top] at h
          cases hl : st.list with
          | true => simp [hl] at h
          | false =>
            simp only [hl, Bool.not_false, Bool.and_true, Bool.or_false] at h
            split at h
            · simp at h
            · simp only [Option.some.injEq] at h
              obtain ⟨rfl, rfl, rfl, hn⟩ := fin _ _ _ (.inr ⟨k', h⟩)
              exact ⟨.driver hdr hreg hload, rfl, hn, db, hdb, ctxFor st db⟩

/-- **C71, unknown names (partly).** If an argument (other than one after an option) is not the name of a target, then nothing is run, and the exit
status is not 0. -/
theorem C71_unknown_partial {W : World} {n : Nat} {argv : List Str} {dir top : Str} {st : Settings} {args : List Str}
    (hw : W.fabDir = some dir) (hp : parse fabFlags (defaults dir) argv = .ok (st, args)) (hd : PlainArgs argv)
    (ht : W.topDir = some top) (hl : st.list = false) (ha : args ≠ []) (hn : ∀ p s, Ready W n top p s → ∀ ts, ¬ Names s.reg args ts)
    {acts : List Act} {k : Nat} (h : fabMain W n argv = some (acts, k)) : acts = [] ∧ k ≠ 0 := by
  obtain ⟨h1, h2, h3⟩ := fabMain_eq n hw hp hd ht
  rcases C71_status h with ⟨p, ctx, s, ts, rfl, -⟩ | ⟨hint, text, rfl, rfl⟩ | ⟨rfl, hk⟩
  · obtain ⟨hr, -, hnn, -⟩ := C71_only_partial hw hp hd ht h
    exact absurd hnn (hn _ _ hr _)
  · exfalso
    have ha' : args.isEmpty = false := by cases args with | nil => exact absurd rfl ha | cons _ _ => rfl
    have hfin : ∀ p c s k', finish W p c s args = ([.listed hint text], k') → False := by
      intro p c s k' hf
      rcases finish_status hf with ⟨_, _, e, _⟩ | ⟨_, e, _⟩ <;> cases e
    cases hdr : W.driver with
    | error => rw [h2 hdr] at h; cases h
    | noDriver =>
      rw [h1 hdr] at h
      unfold driverless at h
      simp only [hl, Bool.false_eq_true, if_false] at h
      split at h
      · cases h
      · cases h
      · split at h
        · cases h
        · exact hfin _ _ _ _ (Option.some.inj h)
    | ok prog =>
      rw [h3 _ hdr] at h
      obtain ⟨⟨acts', k'⟩, h, e⟩ := Option.map_eq_some_iff.1 h
      simp only [Prod.mk.injEq] at e
      obtain ⟨rfl, -⟩ := e
      unfold driverRun at h
      simp only [hl, ha', Bool.not_false, Bool.and_true, Bool.or_false, Bool.false_eq_true, if_false] at h
      split at h
      · cases h
      · split at h
        · cases h
        · cases h
        · split at h
          · cases h
          · exact hfin _ _ _ _ (Option.some.inj h)
  · refine ⟨rfl, ?_⟩
    rintro rfl
    -- only a help message ends with status 0, and the command line was parsed
    have hfin : ∀ p c s k', finish W p c s args = ([], k') → k' ≠ 0 := by
      intro p c s k' hf
      rcases finish_status hf with ⟨_, _, e, _⟩ | ⟨_, _, e⟩
      · cases e
      · exact e
    cases hdr : W.driver with
    | error => rw [h2 hdr] at h; cases h
    | noDriver =>
      rw [h1 hdr] at h
      rcases driverless_status h with ⟨_, _, _, _, e, _⟩ | ⟨_, _, e, _⟩ | ⟨_, e⟩
      · cases e
      · cases e
      · exact e rfl
    | ok prog =>
      rw [h3 _ hdr] at h
      obtain ⟨⟨acts', k'⟩, h, e⟩ := Option.map_eq_some_iff.1 h
      simp only [Prod.mk.injEq] at e
      obtain ⟨rfl, e2⟩ := e
      rcases driverRun_status h with ⟨_, _, _, _, e, _⟩ | ⟨_, _, e, _⟩ | ⟨_, e⟩
      · cases e
      · cases e
      · rw [if_neg e] at e2; cases e2

/-- **C71, -list (partly).** With -list, in a project that could be read, fab prints the list of targets, whatever the arguments, and runs nothing.
What is missing: with a driver, the database must be there or the list is not printed (`C71_counterexample_list_database`). -/
theorem C71_list_partial {W : World} {n : Nat} {argv : List Str} {dir top : Str} {st : Settings} {args : List Str} {p : Place} {s : Yaml.St}
    (hw : W.fabDir = some dir) (hp : parse fabFlags (defaults dir) argv = .ok (st, args)) (hd : PlainArgs argv)
    (ht : W.topDir = some top) (hr : Ready W n top p s) (hl : st.list = true) (hdb : W.driver = .noDriver ∨ W.openDB (absOf p.cwd st.fab) ≠ none) :
    fabMain W n argv = some ([.listed false (listTargets s.reg)], 0) := by
  obtain ⟨h1, -, h3⟩ := fabMain_eq n hw hp hd ht
  cases hr with
  | driverless hdr hload =>
    rw [h1 hdr]
    simp only [driverless, hload, hl, if_true]
  | @driver prog reg s hdr hreg hload =>
    rw [h3 _ hdr]
    rcases hdb with hdb | hdb
    · rw [hdr] at hdb; cases hdb
    · cases hdb' : W.openDB (absOf (driverCwd W.cwd top) st.fab) with
      | none => exact absurd hdb' hdb
      | some db => simp only [driverRun, hreg, hload, hl, hdb', Bool.not_true, Bool.and_false, Bool.or_true, if_true, Option.map_some]

/-! ## With and without a driver -/

/-- The same acts, apart from the place. -/
def SameActs : List Act → List Act → Prop
  | [], [] => True
  | [.listed h t], [.listed h' t'] => h = h' ∧ t = t'
  | [.ran _ ctx s ts], [.ran _ ctx' s' ts'] => ctx = ctx' ∧ s = s' ∧ ts = ts'
  | _, _ => False

/-- **C71, with and without a driver (partly).** If the driver has no targets of its own, knows the tags that fab knows, and fab has an argument or -list,
then fab does the same with the driver as without it.  What is missing: a command line without arguments; one with "--" followed by what looks like a flag; a database that cannot be opened; a
relative fab directory; and targets that depend on the working directory or the standard input (see below). -/
theorem C71_modes_partial {W : World} {n : Nat} {argv : List Str} {dir top : Str} {st : Settings} {args : List Str} {prog : Prog}
    (hw : W.fabDir = some dir) (hp : parse fabFlags (defaults dir) argv = .ok (st, args)) (hd : PlainArgs argv) (ht : W.topDir = some top)
    (habs : isAbs top = true) (hfab : isAbs st.fab = true) (hdr : W.driver = .ok prog) (hregs : prog.regs = []) (hstart : prog.start = Yaml.St.empty)
    (hlib : W.lib true = W.lib false) (ha : args ≠ [] ∨ st.list = true) (hdb : W.openDB (absOf W.cwd st.fab) ≠ none)
    (hrun : ∀ ctx s ts, W.run ⟨W.cwd, true⟩ ctx s ts = W.run ⟨driverCwd W.cwd top, false⟩ ctx s ts) :
    (fabMain W n argv = none ↔ fabMain { W with driver := .noDriver } n argv = none) ∧
    ∀ acts k acts' k', fabMain W n argv = some (acts, k) → fabMain { W with driver := .noDriver } n argv = some (acts', k') →
      SameActs acts acts' ∧ (k = 0 ↔ k' = 0) := by
  have e1 := (fabMain_eq (W := { W with driver := .noDriver }) n hw hp hd ht).1 rfl
  have e2 := (fabMain_eq n hw hp hd ht).2.2 _ hdr
  obtain ⟨-, k2, k3⟩ := C63_same_directories_partial W.cwd st.fab top [] habs (.inl hfab)
  rw [e1, e2]
  unfold driverless driverRun
  simp only [hregs, hstart, registerAll, hlib, k2, k3]
  cases hdb' : W.openDB (absOf W.cwd st.fab) with
  | none => exact absurd hdb' hdb
  | some db =>
    cases hload : Yaml.load (W.lib false (absOf W.cwd top)) n Yaml.St.empty with
    | more =>
      simp only
      exact ⟨by simp, fun _ _ _ _ h => by (cases h)⟩
    | err e s' =>
      simp only
      refine ⟨by simp, ?_⟩
      intro acts k acts' k' h h'
      simp only [Option.map_some, Option.some.injEq, Prod.mk.injEq] at h h'
      obtain ⟨rfl, rfl⟩ := h
      obtain ⟨rfl, rfl⟩ := h'
      exact ⟨trivial, by decide⟩
    | ok u s =>
      simp only
      cases hl : st.list with
      | true =>
        simp only [Bool.not_true, Bool.and_false, Bool.or_true, if_true]
        refine ⟨by simp, ?_⟩
        intro acts k acts' k' h h'
        simp only [Option.map_some, Option.some.injEq, Prod.mk.injEq] at h h'
        obtain ⟨rfl, rfl⟩ := h
        obtain ⟨rfl, rfl⟩ := h'
        exact ⟨⟨rfl, rfl⟩, by decide⟩
      | false =>
        have ha' : args.isEmpty = false := by
          rcases ha with ha | ha
          · cases args with | nil => exact absurd rfl ha | cons _ _ => rfl
          · rw [hl] at ha; cases ha
        simp only [ha', Bool.not_false, Bool.and_true, Bool.or_false, Bool.false_eq_true, if_false]
        refine ⟨by simp, ?_⟩
        intro acts k acts' k' h h'
        simp only [Option.map_some, Option.some.injEq, Prod.mk.injEq] at h h'
        obtain ⟨rfl, rfl⟩ := h
        unfold finish at h' ⊢
        cases hpa : parseArgs s.reg args with
        | err m =>
          simp only [hpa, Prod.mk.injEq] at h' ⊢
          obtain ⟨rfl, rfl⟩ := h'
          exact ⟨trivial, by simp⟩
        | panic =>
          simp only [hpa, Prod.mk.injEq] at h' ⊢
          obtain ⟨rfl, rfl⟩ := h'
          exact ⟨trivial, by simp⟩
        | ok ts =>
          simp only [hpa, Prod.mk.injEq] at h' ⊢
          obtain ⟨rfl, rfl⟩ := h'
          refine ⟨⟨rfl, rfl, rfl⟩, ?_⟩
          rw [hrun, status_norm]

/-- **C71 is false: no arguments.** With a driver, fab lists the targets and says that one should be specified; without one, it runs no targets, and says
nothing. -/
theorem C71_counterexample_no_arguments {W : World} {n : Nat} {dir top : Str} {p : Place} {s : Yaml.St} {db : Nat}
    (hw : W.fabDir = some dir) (ht : W.topDir = some top) (hr : Ready W n top p s) (hdb : W.openDB (absOf p.cwd dir) = some db) :
    ((∃ prog, W.driver = .ok prog) → fabMain W n [] = some ([.listed true (listTargets s.reg)], 0)) ∧
    (W.driver = .noDriver → ∃ ctx, fabMain W n [] = some ([.ran p ctx s []], if W.run p ctx s [] then 0 else 1)) := by
  have hp : parse fabFlags (defaults dir) [] = .ok (defaults dir, []) := by rw [parse]
  obtain ⟨h1, -, h3⟩ := fabMain_eq n hw hp (.of_none (by simp)) ht
  constructor
  · rintro ⟨prog, hdr⟩
    cases hr with
    | driverless hdr' => rw [hdr] at hdr'; cases hdr'
    | driver hdr' hreg hload =>
      rw [h3 _ hdr']
      have hdb' : W.openDB (absOf (driverCwd W.cwd top) (defaults dir).fab) = some db := hdb
      simp only [driverRun, hreg, hload, hdb']
      rfl
  · intro hdr
    cases hr with
    | driver hdr' => rw [hdr] at hdr'; cases hdr'
    | driverless hdr' hload =>
      rw [h1 hdr]
      have hdb' : W.openDB (absOf W.cwd (defaults dir).fab) = some db := hdb
      exact ⟨withHashDB (driverCtx { defaults dir with top := top }) db, by
        simp only [driverless, hload, hdb']
        simp only [defaults, Bool.false_eq_true, if_false]
        rfl⟩

/-- **C71 is false: -list.** If the database cannot be opened, fab with a driver does not list the targets, but fab without a driver does. -/
theorem C71_counterexample_list_database {W : World} {n : Nat} {dir top : Str} {p : Place} {s : Yaml.St}
    (hw : W.fabDir = some dir) (ht : W.topDir = some top) (hr : Ready W n top p s) (hdb : W.openDB (absOf p.cwd dir) = none) :
    ((∃ prog, W.driver = .ok prog) → fabMain W n ["-list".toList] = some ([], 1)) ∧
    (W.driver = .noDriver → fabMain W n ["-list".toList] = some ([.listed false (listTargets s.reg)], 0)) := by
  have hf : fabFlags "list".toList = some .list := by decide +kernel
  have hp : parse fabFlags (defaults dir) ["-list".toList] = .ok ({ defaults dir with list := true }, []) := by
    rw [parse_bool (st' := { defaults dir with list := true }) c_list hf rfl (by simp only [setFlag, p_true])]
    rw [parse]
  obtain ⟨h1, -, h3⟩ := fabMain_eq n hw hp (.of_none (by decide)) ht
  constructor
  · rintro ⟨prog, hdr⟩
    cases hr with
    | driverless hdr' => rw [hdr] at hdr'; cases hdr'
    | driver hdr' hreg hload =>
      rw [h3 _ hdr']
      have hdb' : W.openDB (absOf (driverCwd W.cwd top) (defaults dir).fab) = none := hdb
      simp only [driverRun, hreg, hload, hdb', Option.map_some]
      rfl
  · intro hdr
    cases hr with
    | driver hdr' => rw [hdr] at hdr'; cases hdr'
    | driverless hdr' hload =>
      rw [h1 hdr]
      simp only [driverless, hload, if_true]

/-- **C71 is false: standard input.** With a driver, targets do not get fab's standard input (and `Stdin: $stdin` means an empty one), and their working
directory is not the one in which fab was started but the top directory; without a driver, it is otherwise. -/
theorem C71_counterexample_place {W : World} {n : Nat} {top : Str} {p : Place} {s : Yaml.St} (hr : Ready W n top p s) :
    ((∃ prog, W.driver = .ok prog) → p.stdin = false ∧ absP p.cwd = absOf W.cwd top) ∧ (W.driver = .noDriver → p.stdin = true ∧ p.cwd = W.cwd) := by
  cases hr with
  | driverless hdr => exact ⟨fun ⟨_, h⟩ => by (rw [hdr] at h; cases h), fun _ => ⟨rfl, rfl⟩⟩
  | driver hdr => exact ⟨fun _ => ⟨rfl, driverCwd_absP⟩, fun h => by (rw [hdr] at h; cases h)⟩

/-! ## An example -/

/-- A project with targets A, B, C and sub/X in its YAML files, with a driver or not; the target C fails. -/
def exWorld (driver : Drv) : World where
  cacheDir := some "/cache".toList
  homeDir := none
  cwd := ["top".toList, "sub".toList]
  topDir := some "/top".toList
  driver := driver
  lib _ _ := Yaml.fullLib
  addr := id
  openDB d := if d = "/cache/fab".toList then some 5 else none
  run _ _ s ts := !(ts.contains (.plain ((s.reg.target "C".toList).1.getD 0)))

def exProg : Prog := ⟨[("Build".toList, "Build builds.".toList)], fun _ => .ptr 0, { Yaml.St.empty with heap := [.ext 0] }⟩

inductive Brief where
  | inl (hint : Bool)
  | inr (x : Bool × Bool × List PTgt)
deriving DecidableEq

/-- an outcome in short -/
def brief : Outcome → Option (List Brief × Nat)
  | none => none
  | some (acts, k) => some (acts.map fun
    | .listed h _ => .inl h
    | .ran p ctx _ ts => .inr (p.stdin, getVerbose ctx, ts), k)

-- the hypotheses of the theorems above hold, with and without a driver
example : (exWorld .noDriver).fabDir = some "/cache/fab".toList ∧
    parse fabFlags (defaults "/cache/fab".toList) ["-v".toList, "A".toList, "B".toList] =
      .ok (⟨"/cache/fab".toList, [], true, false, false, false⟩, ["A".toList, "B".toList]) ∧
    (exWorld .noDriver).openDB (absOf ["top".toList, "sub".toList] "/cache/fab".toList) = some 5 := by decide +kernel
theorem exReady : ∃ s, Ready (exWorld .noDriver) 12 "/top".toList ⟨["top".toList, "sub".toList], true⟩ s ∧ Names s.reg ["A".toList, "sub/X".toList] [.plain 0, .plain 1] ∧
    ¬ EmptySecond ["A".toList, "sub/X".toList] := by
  have hok : ∃ s, Yaml.load Yaml.fullLib 12 Yaml.St.empty = .ok () s := by
    have : (match Yaml.load Yaml.fullLib 12 Yaml.St.empty with | .ok _ _ => true | _ => false) = true := by decide +kernel
    cases h : Yaml.load Yaml.fullLib 12 Yaml.St.empty with
    | ok a s => exact ⟨s, rfl⟩
    | err e s => rw [h] at this; cases this
    | more => rw [h] at this; cases this
  obtain ⟨s, hs⟩ := hok
  have e : s = Yaml.fullEnd := by unfold Yaml.fullEnd; rw [hs]
  have hn : ["A".toList, "sub/X".toList].map (fun a => (Yaml.fullEnd.reg.target a).1) = ([0, 1] : List Nat).map some := by decide +kernel
  have hne : ¬ EmptySecond ["A".toList, "sub/X".toList] := by
    rintro ⟨a, rest, h⟩; simp at h
  refine ⟨s, .driverless (W := exWorld .noDriver) rfl hs, ?_, hne⟩
  rw [e]
  refine Names.targets (os := [0, 1]) ?_ hn
  rintro ⟨a, rest, c, cs, h, rfl⟩; simp at h

example : brief (fabMain (exWorld .noDriver) 12 ["-v".toList, "A".toList, "sub/X".toList]) = some ([.inr (true, true, [.plain 0, .plain 1])], 0) := by decide +kernel
example : brief (fabMain (exWorld (.ok exProg)) 12 ["-v".toList, "A".toList, "Build".toList]) = some ([.inr (false, true, [.plain 1, .plain 0])], 0) := by decide +kernel
example : brief (fabMain (exWorld .noDriver) 12 ["A".toList, "C".toList]) = some ([.inr (true, false, [.plain 0, .plain 2])], 1) := by decide +kernel
example : brief (fabMain (exWorld (.ok exProg)) 12 ["A".toList, "D".toList]) = some ([], 1) := by decide +kernel
example : brief (fabMain (exWorld (.ok exProg)) 12 []) = some ([.inl true], 0) ∧ brief (fabMain (exWorld .noDriver) 12 []) = some ([.inr (true, false, [])], 0) := by
  decide +kernel
example : brief (fabMain (exWorld (.ok exProg)) 12 ["-list".toList, "-fab=/x".toList]) = some ([], 1) ∧
    brief (fabMain (exWorld .noDriver) 12 ["-list".toList, "-fab=/x".toList]) = some ([.inl false], 0) := by decide +kernel
example : brief (fabMain (exWorld .error) 12 ["-h".toList]) = some ([], 0) ∧ brief (fabMain (exWorld .error) 12 ["-x".toList]) = some ([], 2) := by decide +kernel

end Fab.Driver
