import Verif.FS
import Verif.Context

/-!
# Command lines: C51, C63

What fab makes of its command line (/repo/cmd/fab/main.go:25-46), the command line with which it starts the driver
(/repo/main.go:86-104), and what the driver makes of that (/repo/driver.go.tmpl:30-49).

The package `flag` of Go is modelled by its documented behaviour (`parseOne` in flag.go, and `strconv.ParseBool`).
-/

namespace Fab.Driver
open Fab Path

/-! ## The package flag -/

inductive Flag where
  | fab | top | v | list | f | n
deriving DecidableEq

structure Settings where
  fab : Str
  top : Str
  verbose : Bool
  list : Bool
  force : Bool
  dryRun : Bool
deriving DecidableEq

inductive FErr where
  | badSyntax
  | undefined
  | help
  | badBool
  | needsArgument
deriving DecidableEq

/-- `strconv.ParseBool` -/
def parseBool (s : Str) : Option Bool :=
  if s ∈ ["1".toList, "t".toList, "T".toList, "TRUE".toList, "true".toList, "True".toList] then some true
  else if s ∈ ["0".toList, "f".toList, "F".toList, "FALSE".toList, "false".toList, "False".toList] then some false
  else none

def isBool : Flag → Bool
  | .fab => false
  | .top => false
  | _ => true

/-- `flag.Value.Set` -/
def setFlag (st : Settings) : Flag → Str → Except FErr Settings
  | .fab, s => .ok { st with fab := s }
  | .top, s => .ok { st with top := s }
  | .v, s => match parseBool s with | some b => .ok { st with verbose := b } | none => .error .badBool
  | .list, s => match parseBool s with | some b => .ok { st with list := b } | none => .error .badBool
  | .f, s => match parseBool s with | some b => .ok { st with force := b } | none => .error .badBool
  | .n, s => match parseBool s with | some b => .ok { st with dryRun := b } | none => .error .badBool

/-- the name of a flag and the value after '=' if there is one ('=' cannot be the first character) -/
def splitEq : Str → Str × Option Str
  | [] => ([], none)
  | c :: cs =>
    let p := cs.takeWhile (· ≠ '=')
    if p.length = cs.length then (c :: cs, none) else (c :: p, some (cs.drop (p.length + 1)))

/-- One argument, as `parseOne` sees it. -/
inductive Arg where
  /-- not a flag -/
  | plain
  /-- "--" -/
  | stop
  | bad
  | flag (name : Str) (value : Option Str)
deriving DecidableEq

def classify (s : Str) : Arg :=
  match s with
  | '-' :: '-' :: [] => .stop
  | '-' :: '-' :: c :: cs => if c = '-' ∨ c = '=' then .bad else .flag (splitEq (c :: cs)).1 (splitEq (c :: cs)).2
  | '-' :: c :: cs => if c = '=' then .bad else .flag (splitEq (c :: cs)).1 (splitEq (c :: cs)).2
  | _ => .plain

/-- `flag.Parse`: the settings and the remaining arguments.  `formal` are the flags that were defined. -/
def parse (formal : Str → Option Flag) (st : Settings) : List Str → Except FErr (Settings × List Str)
  | [] => .ok (st, [])
  | s :: rest =>
    match classify s with
    | .plain => .ok (st, s :: rest)
    | .stop => .ok (st, rest)
    | .bad => .error .badSyntax
    | .flag name value =>
      match formal name with
      | none => if name = "help".toList ∨ name = "h".toList then .error .help else .error .undefined
      | some fl =>
        if isBool fl then
          match setFlag st fl (value.getD "true".toList) with
          | .error e => .error e
          | .ok st => parse formal st rest
        else
          match value, rest with
          | some v, rest =>
            match setFlag st fl v with
            | .error e => .error e
            | .ok st => parse formal st rest
          | none, v :: rest =>
            match setFlag st fl v with
            | .error e => .error e
            | .ok st => parse formal st rest
          | none, [] => .error .needsArgument

/-! ## fab and the driver -/

/-- the flags of the fab command, cmd/fab/main.go:33-37 -/
def fabFlags (s : Str) : Option Flag :=
  if s = "fab".toList then some .fab
  else if s = "v".toList then some .v
  else if s = "list".toList then some .list
  else if s = "f".toList then some .f
  else if s = "n".toList then some .n
  else none

/-- the flags of the driver, driver.go.tmpl:38-43 -/
def driverFlags (s : Str) : Option Flag :=
  if s = "top".toList then some .top else fabFlags s

/-- the values before parsing: `dir` is the fab directory in the user's cache directory -/
def defaults (dir : Str) : Settings := ⟨dir, [], false, false, false, false⟩

/-- The driver's command line, main.go:86-99 -/
def driverArgs (st : Settings) (args : List Str) : List Str :=
  ["-fab".toList, st.fab, "-top".toList, st.top] ++
  (if st.verbose then ["-v".toList] else []) ++
  (if st.list then ["-list".toList] else []) ++
  (if st.force then ["-f".toList] else []) ++
  (if st.dryRun then ["-n".toList] else []) ++ args

/-- The driver's context, driver.go.tmpl:46-49 -/
def driverCtx (st : Settings) : Ctx := withDryRun (withForce (withVerbose .root st.verbose) st.force) st.dryRun

/-! ## Specification -/

/-- What `flag` takes for a flag: at least two characters, the first of which is '-'. -/
def LooksLikeFlag (s : Str) : Prop := ∃ c cs, s = '-' :: c :: cs

/-! ## Lemmas -/

theorem classify_plain (s : Str) : classify s = .plain ↔ ¬ LooksLikeFlag s := by
  unfold LooksLikeFlag
  constructor
  · rintro h ⟨c, cs, rfl⟩
    revert h
    unfold classify
    split <;> simp_all <;> split <;> simp
  · intro h
    unfold classify
    split
    · exact absurd ⟨_, _, rfl⟩ h
    · exact absurd ⟨_, _, rfl⟩ h
    · exact absurd ⟨_, _, rfl⟩ h
    · rfl

theorem c_fab : classify "-fab".toList = .flag "fab".toList none := by decide +kernel
theorem c_top : classify "-top".toList = .flag "top".toList none := by decide +kernel
theorem c_v : classify "-v".toList = .flag "v".toList none := by decide +kernel
theorem c_list : classify "-list".toList = .flag "list".toList none := by decide +kernel
theorem c_f : classify "-f".toList = .flag "f".toList none := by decide +kernel
theorem c_n : classify "-n".toList = .flag "n".toList none := by decide +kernel
theorem d_fab : driverFlags "fab".toList = some .fab := by decide +kernel
theorem d_top : driverFlags "top".toList = some .top := by decide +kernel
theorem d_v : driverFlags "v".toList = some .v := by decide +kernel
theorem d_list : driverFlags "list".toList = some .list := by decide +kernel
theorem d_f : driverFlags "f".toList = some .f := by decide +kernel
theorem d_n : driverFlags "n".toList = some .n := by decide +kernel
theorem p_true : parseBool "true".toList = some true := by decide +kernel

theorem parse_bool {formal : Str → Option Flag} {st st' : Settings} {s name : Str} {fl : Flag} {rest : List Str}
    (hc : classify s = .flag name none) (hf : formal name = some fl) (hb : isBool fl = true) (hs : setFlag st fl "true".toList = .ok st') :
    parse formal st (s :: rest) = parse formal st' rest := by
  rw [parse]
  simp only [hc, hf, hb, if_true, Option.getD_none, hs]

theorem parse_str {formal : Str → Option Flag} {st st' : Settings} {s name v : Str} {fl : Flag} {rest : List Str}
    (hc : classify s = .flag name none) (hf : formal name = some fl) (hb : isBool fl = false) (hs : setFlag st fl v = .ok st') :
    parse formal st (s :: v :: rest) = parse formal st' rest := by
  rw [parse]
  simp only [hc, hf, hb, Bool.false_eq_true, if_false, hs]

/-- up to the arguments, the driver recovers the settings -/
theorem parse_driverArgs (dir : Str) (st : Settings) (args : List Str) :
    parse driverFlags (defaults dir) (driverArgs st args) = parse driverFlags st args := by
  obtain ⟨fab, top, v, l, f, n⟩ := st
  unfold driverArgs defaults
  simp only [List.cons_append, List.nil_append, List.append_assoc]
  rw [parse_str c_fab d_fab rfl rfl, parse_str c_top d_top rfl rfl]
  have hv : ∀ rest, parse driverFlags ⟨fab, top, false, false, false, false⟩ ((if v then ["-v".toList] else []) ++ rest) =
      parse driverFlags ⟨fab, top, v, false, false, false⟩ rest := by
    intro rest; cases v
    · rfl
    · exact parse_bool c_v d_v rfl (by simp only [setFlag, p_true])
  have hl : ∀ rest, parse driverFlags ⟨fab, top, v, false, false, false⟩ ((if l then ["-list".toList] else []) ++ rest) =
      parse driverFlags ⟨fab, top, v, l, false, false⟩ rest := by
    intro rest; cases l
    · rfl
    · exact parse_bool c_list d_list rfl (by simp only [setFlag, p_true])
  have hf : ∀ rest, parse driverFlags ⟨fab, top, v, l, false, false⟩ ((if f then ["-f".toList] else []) ++ rest) =
      parse driverFlags ⟨fab, top, v, l, f, false⟩ rest := by
    intro rest; cases f
    · rfl
    · exact parse_bool c_f d_f rfl (by simp only [setFlag, p_true])
  have hn : ∀ rest, parse driverFlags ⟨fab, top, v, l, f, false⟩ ((if n then ["-n".toList] else []) ++ rest) =
      parse driverFlags ⟨fab, top, v, l, f, n⟩ rest := by
    intro rest; cases n
    · rfl
    · exact parse_bool c_n d_n rfl (by simp only [setFlag, p_true])
  rw [hv, hl, hf, hn]

theorem parse_plain (formal : Str → Option Flag) (st : Settings) (args : List Str) (h : ∀ a, args.head? = some a → ¬ LooksLikeFlag a) :
    parse formal st args = .ok (st, args) := by
  cases args with
  | nil => rw [parse]
  | cons a l => rw [parse, (classify_plain a).2 (h a rfl)]

/-- what remains is a suffix; it begins with a plain argument, or follows "--" -/
theorem parse_rest (formal : Str → Option Flag) : ∀ (n : Nat) (args : List Str), args.length ≤ n → ∀ (st st' : Settings) (rest : List Str),
    parse formal st args = .ok (st', rest) → rest <:+ args ∧ (∀ a, args.head? = some a → LooksLikeFlag a → rest.length < args.length) ∧
    ((∀ a, rest.head? = some a → ¬ LooksLikeFlag a) ∨ ∃ l, args = l ++ "--".toList :: rest) := by
  intro n
  induction n with
  | zero =>
    intro args hl st st' rest h
    cases args with
    | nil =>
      rw [parse] at h
      injection h with h; injection h with h1 h2; subst h1 h2
      exact ⟨List.suffix_refl _, by simp, .inl (by simp)⟩
    | cons a l => simp at hl
  | succ n ih =>
    intro args hl st st' rest h
    cases args with
    | nil =>
      rw [parse] at h
      injection h with h; injection h with h1 h2; subst h1 h2
      exact ⟨List.suffix_refl _, by simp, .inl (by simp)⟩
    | cons s l =>
      have key : ∀ st1 l1, l1 <:+ l → parse formal st1 l1 = .ok (st', rest) → rest <:+ s :: l ∧
          (∀ a, (s :: l).head? = some a → LooksLikeFlag a → rest.length < (s :: l).length) ∧
          ((∀ a, rest.head? = some a → ¬ LooksLikeFlag a) ∨ ∃ l', s :: l = l' ++ "--".toList :: rest) := by
        intro st1 l1 hl1 hp
        have hle := hl1.length_le
        simp only [List.length_cons] at hl
        obtain ⟨k1, -, k3⟩ := ih l1 (by omega) st1 st' rest hp
        refine ⟨(k1.trans hl1).trans (List.suffix_cons _ _), fun _ _ _ => ?_, k3.imp id fun ⟨l', k⟩ => ?_⟩
        · have := k1.length_le
          simp only [List.length_cons]; omega
        · obtain ⟨l₂, hl₂⟩ := hl1
          exact ⟨s :: l₂ ++ l', by rw [← hl₂, k]; simp⟩
      rw [parse] at h
      cases hc : classify s with
      | plain =>
        simp only [hc] at h
        injection h with h; injection h with h1 h2; subst h1 h2
        have hp := (classify_plain s).1 hc
        exact ⟨List.suffix_refl _, fun a ha hf => by injection ha with ha; subst ha; exact absurd hf hp,
          .inl fun a ha => by injection ha with ha; subst ha; exact hp⟩
      | stop =>
        simp only [hc] at h
        injection h with h; injection h with h1 h2; subst h1 h2
        have hs : s = "--".toList := by
          unfold classify at hc
          split at hc
          · rfl
          · split at hc <;> cases hc
          · split at hc <;> cases hc
          · cases hc
        exact ⟨List.suffix_cons _ _, fun _ _ _ => by simp, .inr ⟨[], by rw [hs]; rfl⟩⟩
      | bad => simp only [hc] at h; cases h
      | flag name value =>
        simp only [hc] at h
        cases hf : formal name with
        | none =>
          simp only [hf] at h
          split at h <;> cases h
        | some fl =>
          simp only [hf] at h
          split at h
          · cases hs : setFlag st fl (value.getD "true".toList) with
            | error e => rw [hs] at h; cases h
            | ok st1 => rw [hs] at h; exact key st1 l (List.suffix_refl _) h
          · cases value with
            | some v =>
              simp only at h
              cases hs : setFlag st fl v with
              | error e => rw [hs] at h; cases h
              | ok st1 => rw [hs] at h; exact key st1 l (List.suffix_refl _) h
            | none =>
              cases l with
              | nil => simp only at h; cases h
              | cons v l =>
                simp only at h
                cases hs : setFlag st fl v with
                | error e => rw [hs] at h; cases h
                | ok st1 => rw [hs] at h; exact key st1 l (List.suffix_cons _ _) h

/-! ## C51 -/

/-- The arguments that follow fab's flags do not begin with one that looks like a flag.  (They cannot, except after "--".) -/
def PlainArgs (argv : List Str) : Prop :=
  ∀ dir st args, parse fabFlags (defaults dir) argv = .ok (st, args) → ∀ a, args.head? = some a → ¬ LooksLikeFlag a

/-- That is so for command lines in which "--" is not directly followed by an argument that looks like a flag; also for `fab -- all` and
`fab x -- -v`, and of course if there is no "--". -/
theorem PlainArgs.of {argv : List Str} (h : ∀ l a r, argv = l ++ "--".toList :: a :: r → ¬ LooksLikeFlag a) : PlainArgs argv := by
  intro dir st args hp a ha
  rcases (parse_rest fabFlags argv.length argv (Nat.le_refl _) _ _ _ hp).2.2 with h1 | ⟨l, hl⟩
  · exact h1 a ha
  · cases args with
    | nil => simp at ha
    | cons b r => cases ha; exact h _ _ _ hl

theorem PlainArgs.of_none {argv : List Str} (h : "--".toList ∉ argv) : PlainArgs argv :=
  .of fun l a r hl => absurd (by rw [hl]; simp) h

-- `fab -- all` and `fab x -- -v` are of this kind, `fab -- -v x` is not
example : PlainArgs (["--", "all"].map String.toList) ∧ PlainArgs (["x", "--", "-v"].map String.toList) ∧ ¬ PlainArgs (["--", "-v", "x"].map String.toList) := by
  refine ⟨fun dir st args h a ha => ?_, fun dir st args h a ha => ?_, fun h => ?_⟩
  · cases (show Except.ok (defaults dir, ["all".toList]) = Except.ok (st, args) from h)
    cases ha
    rintro ⟨c, cs, h⟩; injection h with h; exact absurd h (by decide)
  · cases (show Except.ok (defaults dir, ["x".toList, "--".toList, "-v".toList]) = Except.ok (st, args) from h)
    cases ha
    rintro ⟨c, cs, h⟩; injection h with h; exact absurd h (by decide)
  · exact h [] _ ["-v".toList, "x".toList] rfl _ rfl ⟨'v', [], rfl⟩

/-- **C51.** The driver recovers all settings and the arguments exactly if there are no arguments or the first one does not look like
a flag. -/
theorem C51_driver_recovers (dir : Str) (st : Settings) (args : List Str) :
    parse driverFlags (defaults dir) (driverArgs st args) = .ok (st, args) ↔ ∀ a, args.head? = some a → ¬ LooksLikeFlag a := by
  rw [parse_driverArgs]
  constructor
  · intro h a ha hf
    have := (parse_rest driverFlags args.length args (Nat.le_refl _) st st args h).2.1 a ha hf
    omega
  · exact parse_plain driverFlags st args

/-- **C51, from fab's command line, partial.** Whatever command line fab accepts, if its arguments do not begin with one that looks like a flag then the driver, started with the
top directory that fab found, sees fab's settings and arguments, and runs in a context with these settings.

What is missing: "--" followed by an argument that looks like a flag (see below). -/
theorem C51_end_to_end_partial (dir dir' top : Str) (argv : List Str) (st : Settings) (args : List Str)
    (h : parse fabFlags (defaults dir) argv = .ok (st, args)) (hd : PlainArgs argv) :
    parse driverFlags (defaults dir') (driverArgs { st with top := top } args) = .ok ({ st with top := top }, args) ∧
    getVerbose (driverCtx st) = st.verbose ∧ getForce (driverCtx st) = st.force ∧ getDryRun (driverCtx st) = st.dryRun := by
  refine ⟨(C51_driver_recovers dir' _ args).2 (hd _ _ _ h), ?_, ?_, ?_⟩
  all_goals simp [driverCtx, getVerbose, getForce, getDryRun, withDryRun, withForce, withVerbose, Ctx.value, asBool]

/-- **C51 is false: "--".** `fab -- -v x`: fab is not verbose and has the arguments -v and x; the driver is verbose and has the
argument x. -/
theorem C51_counterexample_verbose (dir top : Str) : ∃ st args st',
    parse fabFlags (defaults dir) ["--".toList, "-v".toList, "x".toList] = .ok (st, args) ∧
    args = ["-v".toList, "x".toList] ∧ st.verbose = false ∧
    parse driverFlags (defaults dir) (driverArgs { st with top := top } args) = .ok (st', ["x".toList]) ∧ st'.verbose = true := by
  refine ⟨defaults dir, ["-v".toList, "x".toList], ⟨dir, top, true, false, false, false⟩, ?_, rfl, rfl, ?_, rfl⟩
  · rw [parse]
    have : classify "--".toList = .stop := by decide +kernel
    rw [this]
  · rw [parse_driverArgs]
    rw [parse_bool (st' := ⟨dir, top, true, false, false, false⟩) c_v d_v rfl (by simp only [setFlag, p_true]; rfl)]
    exact parse_plain _ _ _ (fun a ha => by injection ha with ha; subst ha; rintro ⟨c, cs, h⟩; injection h with h; exact absurd h (by decide))

/-- **C51 is false: "--".** `fab -- -x`: the driver rejects what fab accepted. -/
theorem C51_counterexample_rejected (dir top : Str) : ∃ st args,
    parse fabFlags (defaults dir) ["--".toList, "-x".toList] = .ok (st, args) ∧ args = ["-x".toList] ∧
    parse driverFlags (defaults dir) (driverArgs { st with top := top } args) = .error .undefined := by
  refine ⟨defaults dir, ["-x".toList], ?_, rfl, ?_⟩
  · rw [parse]
    have : classify "--".toList = .stop := by decide +kernel
    rw [this]
  · rw [parse_driverArgs, parse]
    have h1 : classify "-x".toList = .flag "x".toList none := by decide +kernel
    have h2 : driverFlags "x".toList = none := by decide +kernel
    have h3 : ¬ ("x".toList = "help".toList ∨ "x".toList = "h".toList) := by decide +kernel
    rw [h1]
    simp only [h2, if_neg h3]

-- a command line with values, an abbreviated boolean, and arguments that look like flags after a plain one
example : parse fabFlags (defaults "/c".toList) (["-v", "--fab=/x=y", "-n=0", "-fab", "-f", "-list=T", "all", "-f", "--"].map String.toList) =
    .ok (⟨"-f".toList, [], true, true, false, false⟩, ["all".toList, "-f".toList, "--".toList]) := by decide +kernel
example : parse driverFlags (defaults []) (driverArgs ⟨"-f".toList, "/t".toList, true, true, false, false⟩ (["all", "-f", "--"].map String.toList)) =
    .ok (⟨"-f".toList, "/t".toList, true, true, false, false⟩, ["all".toList, "-f".toList, "--".toList]) := by decide +kernel
example : parse fabFlags (defaults []) ["-top".toList, "x".toList] = .error .undefined := by decide +kernel

/-! ## C63 -/

/-- The elements of the directory in which the driver runs, `cmd.Dir = m.Topdir` (main.go:102), when fab runs in `cwd`. -/
def driverCwd (cwd : List Str) (top : Str) : List Str := normC true (comps (absOf cwd top))

/-- The file that is started as the driver: a relative name with a slash is taken relative to `cmd.Dir` (os/exec). -/
def started (cwd : List Str) (top driver : Str) : Str := absOf (driverCwd cwd top) driver

theorem driverCwd_absP {cwd : List Str} {top : Str} : absP (driverCwd cwd top) = absOf cwd top := by
  obtain ⟨ns, h1, h2⟩ := absOf_form cwd top
  unfold driverCwd
  rw [h1, comps_absP h2, normC_names h2]

/-- **C63, partial.** If the fab directory is absolute, or fab is run in the top directory, the driver that is started is the one that was
compiled, and it uses the same fab directory as fab.  If the top directory is absolute, it uses the same top directory.

What is missing: relative directories; see below. -/
theorem C63_same_directories_partial (cwd : List Str) (fab top pkg : Str) (ht : isAbs top = true) (hf : isAbs fab = true ∨ absP cwd = absOf cwd top) :
    started cwd top (join [fab, pkg, "fab.bin".toList]) = absOf cwd (join [fab, pkg, "fab.bin".toList]) ∧
    absOf (driverCwd cwd top) fab = absOf cwd fab ∧ absOf (driverCwd cwd top) top = absOf cwd top := by
  have key : ∀ p, isAbs p = true → absOf (driverCwd cwd top) p = absOf cwd p := by
    intro p hp; unfold absOf; rw [if_pos hp, if_pos hp]
  have same : absP cwd = absOf cwd top → ∀ p, absOf (driverCwd cwd top) p = absOf cwd p := by
    intro h p
    unfold absOf
    rw [driverCwd_absP, ← h]
  rcases hf with hf | hf
  · exact ⟨key _ (join_abs hf _), key _ hf, key _ ht⟩
  · exact ⟨same hf _, same hf _, same hf _⟩

/-- **C63 is false.** `fab -fab cache` in a subdirectory: a relative fab directory (without "..") means one directory to fab, which compiles
the driver there, and another to the driver, and the driver is not started from where it was compiled, whenever fab does not run in the top
directory. -/
theorem C63_counterexample_relative (cwd tops : List Str) (hc : ∀ c ∈ cwd, Name c) (ht : ∀ c ∈ tops, Name c) (hne : cwd ≠ tops) (fabs : List Str)
    (hf : ∀ c ∈ fabs, Name c) :
    let fab := render false fabs
    isAbs fab = false ∧ absOf (driverCwd cwd (absP tops)) fab = absP (tops ++ fabs) ∧ absOf cwd fab = absP (cwd ++ fabs) ∧
    absOf (driverCwd cwd (absP tops)) fab ≠ absOf cwd fab := by
  intro fab
  have hel := names_elem hf
  have habs : isAbs fab = false := isAbs_render false hel
  have hd : absP (driverCwd cwd (absP tops)) = absP tops := by
    rw [driverCwd_absP]
    unfold absOf
    rw [if_pos (isAbs_absP tops), clean, isAbs_absP, comps_absP ht, normC_names ht]; rfl
  have happ : ∀ a b : List Str, (∀ c ∈ a, Name c) → (∀ c ∈ b, Name c) → ∀ c ∈ a ++ b, Name c := by
    intro a b ha hb c hc
    rcases List.mem_append.1 hc with h | h
    exacts [ha c h, hb c h]
  have key : ∀ ns : List Str, (∀ c ∈ ns, Name c) → join [absP ns, fab] = absP (ns ++ fabs) := by
    intro ns hns
    rw [join_eq (absP_ne_nil ns), isAbs_absP, comps_absP hns]
    simp only [List.flatMap_cons, List.flatMap_nil, List.append_nil]
    rw [comps_render false hel, normC_names (happ ns fabs hns hf)]
    rfl
  have e1 : absOf (driverCwd cwd (absP tops)) fab = absP (tops ++ fabs) := by
    unfold absOf; rw [habs, hd]; exact key tops ht
  have e2 : absOf cwd fab = absP (cwd ++ fabs) := by
    unfold absOf; rw [habs]; exact key cwd hc
  refine ⟨habs, e1, e2, ?_⟩
  rw [e1, e2]
  intro h
  have := absP_inj (happ tops fabs ht hf) (happ cwd fabs hc hf) h
  exact hne (List.append_cancel_right this).symm

example : started ["p".toList, "sub".toList] "/p".toList (join ["cache".toList, "m/_fab".toList, "fab.bin".toList]) = "/p/cache/m/_fab/fab.bin".toList ∧
    absOf ["p".toList, "sub".toList] (join ["cache".toList, "m/_fab".toList, "fab.bin".toList]) = "/p/sub/cache/m/_fab/fab.bin".toList := by
  decide +kernel

end Fab.Driver
