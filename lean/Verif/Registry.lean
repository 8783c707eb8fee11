import Verif.Base

/-!
# The target registry and the command line: model, and C14 - C17

Models /repo/register.go, /repo/controller.go:18-45, 73-125 and `bolRegex` (/repo/main.go:145).  The mutex makes each
operation atomic, so a history is a sequence of operations.
-/

namespace Fab.Registry

/-- A `Target` value: a pointer (identified by the object it points to), or a value whose dynamic type is not a pointer
(in particular a nil interface). -/
inductive Tgt where
  | ptr (o : Nat)
  | val (n : Nat)
deriving DecidableEq

/-- register.go:36-39 -/
structure Tuple where
  target : Nat
  name : Str
  doc : Str
deriving DecidableEq

/-- The registry part of a controller (controller.go:29-31). -/
structure Reg where
  byName : GoMap Str Tuple
  byAddr : GoMap Nat Tuple

/-- controller.go:38-45 -/
def Reg.empty : Reg := ⟨[], []⟩

/-- `targetAddr` (register.go:28-34): fails for a non-pointer.  `addr` is the numeric address of an object. -/
def targetAddr (addr : Nat → Nat) : Tgt → Option Nat
  | .ptr o => some (addr o)
  | .val _ => none

/-- `RegisterTarget` (register.go:12-26); the flag says whether it succeeded. -/
def Reg.register (addr : Nat → Nat) (r : Reg) (name doc : Str) (t : Tgt) : Reg × Bool :=
  match t, targetAddr addr t with
  | .ptr o, some a =>
    let tuple : Tuple := ⟨o, name, doc⟩
    (⟨r.byName.put name tuple, r.byAddr.put a tuple⟩, true)
  | _, _ => (r, false)

/-- `RegistryNames` (register.go:42-48) -/
def Reg.names (r : Reg) : List Str := sortStrs r.byName.keys

/-- `RegistryTarget` (register.go:52-57): the target (nil if missing) and the doc string (empty if missing) -/
def Reg.target (r : Reg) (name : Str) : Option Nat × Str :=
  match r.byName.get name with
  | some t => (some t.target, t.doc)
  | none => (none, [])

/-- `Describe` (register.go:65-77); `desc t` is `t.Desc()` -/
def Reg.describe (addr : Nat → Nat) (desc : Tgt → Str) (r : Reg) (t : Tgt) : Str :=
  match targetAddr addr t with
  | some a =>
    match r.byAddr.get a with
    | some tuple => tuple.name
    | none => "unnamed ".toList ++ desc t
  | none => "unnamed ".toList ++ desc t

/-- A history of registrations: name, doc, target. -/
abbrev History := List (Str × Str × Tgt)

/-- The registry after a history. -/
def after (addr : Nat → Nat) (h : History) : Reg :=
  h.foldl (fun r x => (r.register addr x.1 x.2.1 x.2.2).1) Reg.empty

/-! ## Specification -/

/-- The last registration in `h` satisfying `p`. -/
def lastReg (p : Str × Str × Nat → Bool) (h : History) : Option (Str × Str × Nat) :=
  ((h.filterMap fun x => match x.2.2 with
    | .ptr o => some (x.1, x.2.1, o)
    | .val _ => none).filter p).getLast?

/-! ## Helper lemmas -/

theorem snoc_ind {α : Type} {P : List α → Prop} (h0 : P []) (h1 : ∀ l x, P l → P (l ++ [x])) : ∀ l, P l := by
  intro l
  have h : ∀ l : List α, P l.reverse := by
    intro l
    induction l with
    | nil => exact h0
    | cons a l ih => rw [List.reverse_cons]; exact h1 _ _ ih
  simpa using h l.reverse

theorem after_snoc (addr : Nat → Nat) (h : History) (x) :
    after addr (h ++ [x]) = ((after addr h).register addr x.1 x.2.1 x.2.2).1 := by simp [after]

theorem lastReg_val (p : Str × Str × Nat → Bool) (h : History) (a b n) :
    lastReg p (h ++ [(a, b, .val n)]) = lastReg p h := by simp [lastReg]

theorem lastReg_ptr (p : Str × Str × Nat → Bool) (h : History) (a b o) :
    lastReg p (h ++ [(a, b, .ptr o)]) = if p (a, b, o) then some (a, b, o) else lastReg p h := by
  unfold lastReg
  rw [List.filterMap_append, List.filter_append]
  by_cases hp : p (a, b, o) = true <;> simp [hp]

theorem byName_get (addr : Nat → Nat) (h : History) (name : Str) :
    (after addr h).byName.get name = (lastReg (fun x => x.1 = name) h).map fun x => ⟨x.2.2, x.1, x.2.1⟩ := by
  induction h using snoc_ind with
  | h0 => rfl
  | h1 h x ih =>
    obtain ⟨a, b, t⟩ := x
    rw [after_snoc]
    cases t with
    | val n => rw [lastReg_val]; exact ih
    | ptr o =>
      rw [lastReg_ptr]
      simp only [Reg.register, targetAddr, GoMap.get_put, ih]
      by_cases hn : a = name <;> simp [hn]

theorem byAddr_get (addr : Nat → Nat) (h : History) (ad : Nat) :
    (after addr h).byAddr.get ad = (lastReg (fun x => addr x.2.2 = ad) h).map fun x => ⟨x.2.2, x.1, x.2.1⟩ := by
  induction h using snoc_ind with
  | h0 => rfl
  | h1 h x ih =>
    obtain ⟨a, b, t⟩ := x
    rw [after_snoc]
    cases t with
    | val n => rw [lastReg_val]; exact ih
    | ptr o =>
      rw [lastReg_ptr]
      simp only [Reg.register, targetAddr, GoMap.get_put, ih]
      by_cases hn : addr o = ad <;> simp [hn]

theorem byName_nodup (addr : Nat → Nat) (h : History) : (after addr h).byName.keys.Nodup := by
  induction h using snoc_ind with
  | h0 => simp [after, Reg.empty, GoMap.keys]
  | h1 h x ih =>
    obtain ⟨a, b, t⟩ := x
    rw [after_snoc]
    cases t with
    | val n => exact ih
    | ptr o => exact GoMap.keys_put_nodup ih _ _

/-! ## C14 -/

/-- **C14, lookup.** After any history, `RegistryTarget(name)` is the target and doc string of the last registration of
a pointer under that name, and nil if there is none. -/
theorem C14_lookup (addr : Nat → Nat) (h : History) (name : Str) :
    (after addr h).target name =
      match lastReg (fun x => x.1 = name) h with
      | some (_, doc, o) => (some o, doc)
      | none => (none, []) := by
  unfold Reg.target
  rw [byName_get]
  cases lastReg (fun x => x.1 = name) h <;> rfl

/-- **C14, refusal.** Registering a non-pointer fails and changes nothing; registering a pointer succeeds. -/
theorem C14_register_result (addr : Nat → Nat) (r : Reg) (name doc : Str) (t : Tgt) :
    ((r.register addr name doc t).2 = true ↔ ∃ o, t = .ptr o) ∧
    (∀ n, t = .val n → (r.register addr name doc t).1 = r) := by
  cases t <;> simp [Reg.register, targetAddr]

/-- **C14, names.** `RegistryNames` is the strictly increasing (hence duplicate-free) list of exactly the names under
which a pointer was registered. -/
theorem C14_names (addr : Nat → Nat) (h : History) :
    (after addr h).names.Pairwise (· < ·) ∧
    ∀ name, name ∈ (after addr h).names ↔ ∃ doc o, (name, doc, .ptr o) ∈ h := by
  refine ⟨sortStrs_nodup (byName_nodup addr h), ?_⟩
  intro name
  rw [Reg.names, mem_sortStrs, GoMap.mem_keys_iff]
  rw [byName_get]
  constructor
  · rintro ⟨v, hv⟩
    obtain ⟨x, hx, -⟩ := Option.map_eq_some_iff.1 hv
    have hm := List.mem_of_getLast? hx
    obtain ⟨hm1, hm2⟩ := List.mem_filter.1 hm
    obtain ⟨⟨a, b, t⟩, hy, hxy⟩ := List.mem_filterMap.1 hm1
    cases t with
    | val n => cases hxy
    | ptr o => cases hxy; simp at hm2; subst hm2; exact ⟨b, o, hy⟩
  · rintro ⟨doc, o, hm⟩
    have : (lastReg (fun x => decide (x.1 = name)) h).isSome := by
      unfold lastReg
      rw [List.getLast?_isSome]
      exact List.ne_nil_of_mem (a := (name, doc, o))
        (List.mem_filter.2 ⟨List.mem_filterMap.2 ⟨_, hm, rfl⟩, by simp⟩)
    obtain ⟨x, hx⟩ := Option.isSome_iff_exists.1 this
    exact ⟨_, by rw [hx]; rfl⟩

/-- The result does not depend on the (random) order in which Go iterates over the map. -/
theorem C14_names_order_independent (l : List Str) (r : Reg) (hl : l.Perm r.byName.keys) : sortStrs l = r.names :=
  sortStrs_congr hl

/-! ## C15 -/

/-- **C15.** If no other registered target has the same address (see the counterexample below), `Describe(t)` is the
name under which `t` was last registered, and "unnamed ..." if it never was; registrations of other targets have no
effect. -/
theorem C15_describe_partial (addr : Nat → Nat) (desc : Tgt → Str) (h : History) (o : Nat)
    (hd : ∀ name doc o', (name, doc, Tgt.ptr o') ∈ h → addr o' = addr o → o' = o) :
    (after addr h).describe addr desc (.ptr o) =
      match lastReg (fun x => x.2.2 = o) h with
      | some (name, _, _) => name
      | none => "unnamed ".toList ++ desc (.ptr o) := by
  simp only [Reg.describe, targetAddr]
  rw [byAddr_get]
  have : lastReg (fun x => decide (addr x.2.2 = addr o)) h = lastReg (fun x => decide (x.2.2 = o)) h := by
    unfold lastReg
    congr 1
    apply List.filter_congr
    intro x hx
    obtain ⟨⟨a, b, t⟩, hy, hxy⟩ := List.mem_filterMap.1 hx
    cases t with
    | val n => cases hxy
    | ptr o' =>
      cases hxy
      by_cases hoo : o' = o
      · simp [hoo]
      · have : addr o' ≠ addr o := fun h' => hoo (hd _ _ _ hy h')
        simp [hoo, this]
  rw [this]
  cases lastReg (fun x => decide (x.2.2 = o)) h <;> rfl

/-- **C15, exactly.** With no hypothesis: `Describe(t)` is the name of the last registration of a target *at the address of `t`*, and
"unnamed ..." if there is none.  So the description is that of the last registration of `t` itself unless a target at the same address was
registered after it. -/
theorem C15_exact (addr : Nat → Nat) (desc : Tgt → Str) (h : History) (o : Nat) :
    (after addr h).describe addr desc (.ptr o) =
      match lastReg (fun x => addr x.2.2 = addr o) h with
      | some (name, _, _) => name
      | none => "unnamed ".toList ++ desc (.ptr o) := by
  simp only [Reg.describe, targetAddr]
  rw [byAddr_get]
  cases lastReg (fun x => decide (addr x.2.2 = addr o)) h <;> rfl

/-- **C15, steps.** What one registration does to the description of any target: it becomes the new name if the registered target has the same
address, and stays as it is otherwise. -/
theorem C15_step (addr : Nat → Nat) (desc : Tgt → Str) (h : History) (o o' : Nat) (name doc : Str) :
    (after addr (h ++ [(name, doc, .ptr o')])).describe addr desc (.ptr o) =
      if addr o' = addr o then name else (after addr h).describe addr desc (.ptr o) := by
  rw [C15_exact, C15_exact, lastReg_ptr]
  by_cases hc : addr o' = addr o <;> simp [hc]

example : (after id [("A".toList, [], .ptr 0)]).describe id (fun _ => []) (.ptr 0) = "A".toList ∧
    (after id [("A".toList, [], .ptr 0), ("B".toList, [], .ptr 1)]).describe id (fun _ => []) (.ptr 0) = "A".toList ∧
    (after id [("A".toList, [], .ptr 0), ("B".toList, [], .ptr 0)]).describe id (fun _ => []) (.ptr 0) = "B".toList := by decide +kernel

/-- A target that is not a pointer is always "unnamed". -/
theorem C15_describe_nonpointer (addr : Nat → Nat) (desc : Tgt → Str) (r : Reg) (n : Nat) :
    r.describe addr desc (.val n) = "unnamed ".toList ++ desc (.val n) := rfl

/-- **C15 is false for targets that share an address** (e.g. pointers to zero-sized values): registering another target
changes the description. -/
theorem C15_counterexample_shared_address : ∃ (addr : Nat → Nat) (desc : Tgt → Str) (h : History),
    (after addr h).describe addr desc (.ptr 0) = "A".toList ∧
    (after addr (h ++ [("B".toList, [], .ptr 1)])).describe addr desc (.ptr 0) = "B".toList :=
  ⟨fun _ => 7, fun _ => [], [("A".toList, [], .ptr 0)], by decide +kernel⟩

example : let h : History := [("A".toList, "x".toList, .ptr 0), ("B".toList, [], .ptr 1), ("A".toList, "y".toList, .ptr 2),
      ("C".toList, [], .val 0), ("B2".toList, [], .ptr 1)]
    let r := after id h
    r.target "A".toList = (some 2, "y".toList) ∧ r.target "C".toList = (none, []) ∧
    r.names = ["A".toList, "B".toList, "B2".toList] ∧ r.describe id (fun _ => "d".toList) (.ptr 1) = "B2".toList ∧
    r.describe id (fun _ => "d".toList) (.ptr 5) = "unnamed d".toList := by decide +kernel

/-! ## ParseArgs -/

/-- A target returned by `ParseArgs`: one from the registry, or one wrapped with arguments by `ArgTarget`. -/
inductive PTgt where
  | plain (o : Nat)
  | withArgs (o : Nat) (args : List Str)
deriving DecidableEq

/-- The result of `ParseArgs`. -/
inductive PRes where
  | ok (ts : List PTgt)
  | err (msg : Str)
  /-- `args[1][0]` with `args[1] == ""`: index out of range, controller.go:88 -/
  | panic
deriving DecidableEq

/-- The loop of controller.go:96-102, with its accumulators. -/
def parseLoop (r : Reg) (targets : List PTgt) (unknown : List Str) : List Str → List PTgt × List Str
  | [] => (targets, unknown)
  | a :: as =>
    match (r.target a).1 with
    | some t => parseLoop r (targets ++ [.plain t]) unknown as
    | none => parseLoop r targets (unknown ++ [a]) as

/-- controller.go:105-112 -/
def parseFinish (targets : List PTgt) (unknown : List Str) : PRes :=
  match unknown with
  | [] => .ok targets
  | [u] => .err ("unknown target ".toList ++ u)
  | us => .err ("unknown targets: ".toList ++ joinWith " ".toList us)

/-- `ParseArgs` (controller.go:82-113) -/
def parseArgs (r : Reg) (args : List Str) : PRes :=
  match args with
  | a :: b :: rest =>
    match b with
    | [] => .panic
    | c :: _ =>
      if c = '-' then
        match (r.target a).1 with
        | some t => parseFinish [.withArgs t (b :: rest)] []
        | none => parseFinish [] [a]
      else
        let (ts, us) := parseLoop r [] [] args
        parseFinish ts us
  | _ =>
    let (ts, us) := parseLoop r [] [] args
    parseFinish ts us

/-! ## C16 -/

/-- The second argument is an option. -/
def OptionForm (args : List Str) : Prop := ∃ a rest c cs, args = a :: (c :: cs) :: rest ∧ c = '-'

/-- The second argument exists and is empty. -/
def EmptySecond (args : List Str) : Prop := ∃ a rest, args = a :: [] :: rest

/-- The message for unknown names, in the words of the property: names all of them and only them. -/
def unknownMsg (us : List Str) : Str :=
  if us.length = 1 then "unknown target ".toList ++ joinWith " ".toList us
  else "unknown targets: ".toList ++ joinWith " ".toList us

theorem parseLoop_eq (r : Reg) (args : List Str) : ∀ ts us,
    parseLoop r ts us args = (ts ++ (args.filterMap fun a => ((r.target a).1.map PTgt.plain)),
      us ++ args.filter fun a => (r.target a).1.isNone) := by
  induction args with
  | nil => intro ts us; simp [parseLoop]
  | cons a as ih =>
    intro ts us
    unfold parseLoop
    cases h : (r.target a).1 <;> simp [h, ih]

theorem parseFinish_eq (ts : List PTgt) (us : List Str) :
    parseFinish ts us = if us = [] then .ok ts else .err (unknownMsg us) := by
  match us with
  | [] => rfl
  | [u] => simp [parseFinish, unknownMsg, joinWith]
  | a :: b :: l => simp [parseFinish, unknownMsg]

/-- **C16, option form.** One target: that of the first argument, with all the remaining arguments; or an error naming
the first argument. -/
theorem C16_option_form (r : Reg) (a : Str) (opts : List Str) (h : OptionForm (a :: opts)) :
    parseArgs r (a :: opts) =
      match (r.target a).1 with
      | some t => .ok [.withArgs t opts]
      | none => .err ("unknown target ".toList ++ a) := by
  obtain ⟨a', rest, c, cs, h1, rfl⟩ := h
  cases h1
  unfold parseArgs
  simp only [if_true]
  cases (r.target a).1 <;> rfl

/-- **C16, target list.** Otherwise (and if the second argument is not the empty string), if every argument names a
registered target the result is the list of these targets in the order of the arguments; if not, it is an error that
names exactly the unknown arguments, in order. -/
theorem C16_target_list_partial (r : Reg) (args : List Str) (h : ¬ OptionForm args) (he : ¬ EmptySecond args) :
    ((∀ a ∈ args, (r.target a).1 ≠ none) →
      ∃ ts : List Nat, parseArgs r args = .ok (ts.map .plain) ∧ ts.map some = args.map fun a => (r.target a).1) ∧
    (¬ (∀ a ∈ args, (r.target a).1 ≠ none) →
      parseArgs r args = .err (unknownMsg (args.filter fun a => (r.target a).1.isNone))) := by
  have hp : parseArgs r args =
      parseFinish (args.filterMap fun a => ((r.target a).1.map PTgt.plain)) (args.filter fun a => (r.target a).1.isNone) := by
    unfold parseArgs
    split
    · rename_i a b rest
      split
      · exact absurd ⟨a, rest, rfl⟩ he
      · rename_i c cs
        by_cases hc : c = '-'
        · exact absurd ⟨a, rest, c, cs, rfl, hc⟩ h
        · rw [if_neg hc, parseLoop_eq]; rfl
    · rw [parseLoop_eq]; rfl
  rw [hp, parseFinish_eq]
  constructor
  · intro hall
    have hnil : (args.filter fun a => (r.target a).1.isNone) = [] := by
      rw [List.filter_eq_nil_iff]
      intro a ha
      cases hr : (r.target a).1 with
      | none => exact absurd hr (hall a ha)
      | some t => simp
    rw [if_pos hnil]
    refine ⟨args.filterMap fun a => (r.target a).1, ?_, ?_⟩
    · rw [List.map_filterMap]
    · clear hp h he hnil
      induction args with
      | nil => rfl
      | cons a as ih =>
        cases hr : (r.target a).1 with
        | none => exact absurd hr (hall a (by simp))
        | some t =>
          simp only [List.filterMap_cons, hr, List.map_cons]
          rw [ih (fun x hx => hall x (by simp [hx]))]
  · intro hn
    rw [if_neg]
    intro hnil
    apply hn
    intro a ha hr
    have := List.filter_eq_nil_iff.1 hnil a ha
    simp [hr] at this

/-- **C16, exactly.** When `ParseArgs` returns targets, with no hypothesis on the arguments: either the option form with a registered first
argument, or every argument names a registered target and no second argument is empty. -/
theorem C16_ok_iff (r : Reg) (args : List Str) (ts : List PTgt) :
    parseArgs r args = .ok ts ↔
      (OptionForm args ∧ ∃ a opts t, args = a :: opts ∧ (r.target a).1 = some t ∧ ts = [.withArgs t opts]) ∨
      (¬ OptionForm args ∧ ¬ EmptySecond args ∧
        ∃ os : List Nat, ts = os.map .plain ∧ os.map some = args.map fun a => (r.target a).1) := by
  by_cases ho : OptionForm args
  · simp only [ho, true_and, not_true_eq_false, false_and, or_false]
    obtain ⟨a, rest, c, cs, rfl, rfl⟩ := id ho
    rw [C16_option_form r a _ ho]
    cases hr : (r.target a).1 with
    | none =>
      constructor
      · intro h; cases h
      · rintro ⟨a', opts, t, h1, h2, h3⟩
        simp only [List.cons.injEq] at h1
        rw [← h1.1, hr] at h2; cases h2
    | some t =>
      constructor
      · intro h
        simp only [PRes.ok.injEq] at h
        exact ⟨a, _, t, rfl, hr, h.symm⟩
      · rintro ⟨a', opts, t', h1, h2, h3⟩
        simp only [List.cons.injEq] at h1
        rw [← h1.1, hr] at h2
        simp only [Option.some.injEq] at h2
        rw [h3, ← h1.2, h2]
  · by_cases he : EmptySecond args
    · simp only [ho, he, false_and, not_true_eq_false, and_false, or_false, iff_false]
      obtain ⟨a, rest, rfl⟩ := he
      intro h; cases h
    · simp only [ho, he, false_and, not_false_eq_true, true_and, false_or]
      obtain ⟨h1, h2⟩ := C16_target_list_partial r args ho he
      by_cases hall : ∀ a ∈ args, (r.target a).1 ≠ none
      · obtain ⟨os, h3, h4⟩ := h1 hall
        rw [h3]
        constructor
        · intro h; cases h; exact ⟨os, rfl, h4⟩
        · rintro ⟨os', rfl, h5⟩
          have : os' = os := by
            rw [← h4] at h5
            exact List.map_injective_iff.2 (Option.some_injective _) h5
          rw [this]
      · rw [h2 hall]
        constructor
        · intro h; cases h
        · rintro ⟨os, -, h5⟩
          exfalso; apply hall
          intro a ha hn
          have : (r.target a).1 ∈ args.map fun a => (r.target a).1 := List.mem_map_of_mem ha
          rw [← h5, hn] at this
          simp at this

/-- **C16, exception.** An empty second argument crashes the program (`args[1][0]`), whatever the registry. -/
theorem C16_empty_second_panics (r : Reg) (a : Str) (rest : List Str) : parseArgs r (a :: [] :: rest) = .panic := rfl

example : let r := after id [("A".toList, [], .ptr 0), ("B".toList, [], .ptr 1)]
    parseArgs r ["B".toList, "A".toList, "B".toList] = .ok [.plain 1, .plain 0, .plain 1] ∧
    parseArgs r ["A".toList, "-x".toList, "B".toList] = .ok [.withArgs 0 ["-x".toList, "B".toList]] ∧
    parseArgs r ["A".toList, "X".toList, "Y".toList] = .err "unknown targets: X Y".toList ∧
    parseArgs r ["X".toList, "-f".toList] = .err "unknown target X".toList := by decide +kernel
example : OptionForm ["A".toList, "-x".toList, "B".toList] ∧ ¬ OptionForm ["B".toList, "A".toList] ∧
    ¬ EmptySecond ["B".toList, "A".toList] := by
  refine ⟨⟨_, _, _, _, rfl, rfl⟩, ?_, ?_⟩
  · rintro ⟨a, rest, c, cs, h, rfl⟩; simp at h
  · rintro ⟨a, rest, h⟩; simp at h

/-! ## ListTargets -/

/-- `bolRegex.ReplaceAllString(d, "    ")` (controller.go:121, main.go:145).  The pattern is `^` without the flag `m`,
which matches only at the beginning of the text, so this inserts four spaces there and nowhere else. -/
def bolReplace (d : Str) : Str := "    ".toList ++ d

/-- `ListTargets` (controller.go:116-125): what is written -/
def listTargets (r : Reg) : Str :=
  (r.names.map fun name =>
    name ++ ['\n'] ++ (if (r.target name).2 ≠ [] then bolReplace (r.target name).2 ++ ['\n'] else [])).flatten

/-! ## C17 -/

/-- The lines of a text. -/
def splitLines : Str → List Str
  | [] => [[]]
  | c :: cs =>
    if c = '\n' then [] :: splitLines cs
    else match splitLines cs with
      | l :: ls => (c :: l) :: ls
      | [] => [[c]]

/-- Every line of `d` indented by four spaces. -/
def indentLines (d : Str) : Str := joinWith ['\n'] ((splitLines d).map ("    ".toList ++ ·))

/-- The documented output. -/
def listSpec (r : Reg) : Str :=
  (r.names.map fun name =>
    name ++ ['\n'] ++ (if (r.target name).2 ≠ [] then indentLines (r.target name).2 ++ ['\n'] else [])).flatten

theorem splitLines_single {d : Str} (h : '\n' ∉ d) : splitLines d = [d] := by
  induction d with
  | nil => rfl
  | cons c cs ih =>
    simp only [List.mem_cons, not_or] at h
    unfold splitLines
    rw [if_neg (Ne.symm h.1), ih h.2]

/-- **C17 (partial).** For every registry whose doc strings are single lines, the output of `ListTargets` is the
documented one: every registered name once, in sorted order (`C14_names`), each followed by its indented doc string.
Missing: doc strings of several lines, for which it is false (`C17_counterexample`). -/
theorem C17_list_partial (r : Reg) (h : ∀ name ∈ r.names, '\n' ∉ (r.target name).2) : listTargets r = listSpec r := by
  unfold listTargets listSpec
  congr 1
  apply List.map_congr_left
  intro name hn
  have : bolReplace (r.target name).2 = indentLines (r.target name).2 := by
    rw [indentLines, splitLines_single (h name hn)]; rfl
  rw [this]

theorem splitLines_length (d : Str) : (splitLines d).length = d.count '\n' + 1 := by
  induction d with
  | nil => rfl
  | cons c cs ih =>
    unfold splitLines
    by_cases hc : c = '\n'
    · subst hc; simp [ih]
    · rw [if_neg hc, List.count_cons_of_ne hc, ← ih]
      cases hs : splitLines cs with
      | nil => rw [hs] at ih; simp at ih
      | cons l ls => rfl

theorem join_length (l : Str) (ls : List Str) : (joinWith ['\n'] (l :: ls)).length = l.length + (ls.map (·.length + 1)).sum := by
  induction ls generalizing l with
  | nil => simp [joinWith]
  | cons a as ih =>
    have : joinWith ['\n'] (l :: a :: as) = l ++ ['\n'] ++ joinWith ['\n'] (a :: as) := by simp [joinWith]
    rw [this, List.length_append, ih]
    simp; omega

theorem join_splitLines (d : Str) : joinWith ['\n'] (splitLines d) = d := by
  induction d with
  | nil => rfl
  | cons c cs ih =>
    unfold splitLines
    by_cases hc : c = '\n'
    · subst hc
      rw [if_pos rfl]
      have := splitLines_length cs
      cases hs : splitLines cs with
      | nil => rw [hs] at this; simp at this
      | cons l ls => rw [hs] at ih; simp [joinWith, ih]
    · rw [if_neg hc]
      have := splitLines_length cs
      cases hs : splitLines cs with
      | nil => rw [hs] at this; simp at this
      | cons l ls =>
        rw [hs] at ih
        cases ls with
        | nil => simp only [joinWith] at ih ⊢; rw [ih]
        | cons m ms => simp only [joinWith, List.cons_append] at ih ⊢; rw [ih]

theorem indentLines_length (d : Str) : (indentLines d).length = d.length + 4 * (d.count '\n' + 1) := by
  have h1 := splitLines_length d
  have h2 := join_splitLines d
  unfold indentLines
  cases hs : splitLines d with
  | nil => rw [hs] at h1; simp at h1
  | cons l ls =>
    rw [hs] at h1 h2
    have h3 := join_length l ls
    rw [h2] at h3
    rw [List.map_cons, join_length, h3]
    have h4 : ∀ ks : List Str, ((ks.map ("    ".toList ++ ·)).map (·.length + 1)).sum = (ks.map (·.length + 1)).sum + 4 * ks.length := by
      intro ks
      induction ks with
      | nil => rfl
      | cons k ks ih => simp only [List.map_cons, List.sum_cons, ih, List.length_append, List.length_cons]; simp; omega
    rw [h4]
    simp only [List.length_cons] at h1
    simp only [List.length_append]
    simp
    omega

theorem flatten_lengths {α : Type} {f g : α → Str} (l : List α) (hle : ∀ x ∈ l, (f x).length ≤ (g x).length)
    (heq : ((l.map f).flatten).length = ((l.map g).flatten).length) : ∀ x ∈ l, (f x).length = (g x).length := by
  have hmono : ∀ l : List α, (∀ x ∈ l, (f x).length ≤ (g x).length) → ((l.map f).flatten).length ≤ ((l.map g).flatten).length := by
    intro l hl
    induction l with
    | nil => simp
    | cons a l ih =>
      have h1 := hl a (by simp)
      have h2 := ih (fun x hx => hl x (by simp [hx]))
      simp only [List.map_cons, List.flatten_cons, List.length_append]
      omega
  induction l with
  | nil => intro x hx; simp at hx
  | cons a l ih =>
    have h1 := hle a (by simp)
    have h2 := hmono l (fun x hx => hle x (by simp [hx]))
    simp only [List.map_cons, List.flatten_cons, List.length_append] at heq
    intro x hx
    rcases List.mem_cons.1 hx with rfl | hx
    · omega
    · exact ih (fun x hx => hle x (by simp [hx])) (by omega) x hx

/-- **C17, exactly.** The output of `ListTargets` is the documented one precisely when no registered target has a doc string of several
lines. -/
theorem C17_iff (r : Reg) : listTargets r = listSpec r ↔ ∀ name ∈ r.names, '\n' ∉ (r.target name).2 := by
  refine ⟨?_, C17_list_partial r⟩
  intro h name hn
  have h1 := flatten_lengths
    (f := fun name => name ++ ['\n'] ++ (if (r.target name).2 ≠ [] then bolReplace (r.target name).2 ++ ['\n'] else []))
    (g := fun name => name ++ ['\n'] ++ (if (r.target name).2 ≠ [] then indentLines (r.target name).2 ++ ['\n'] else []))
    r.names (by
      intro x _
      by_cases hd : (r.target x).2 = []
      · simp [hd]
      · simp only [ne_eq, hd, not_false_eq_true, if_true, List.length_append, indentLines_length, bolReplace]
        simp; omega) (congrArg List.length h) name hn
  by_cases hd : (r.target name).2 = []
  · simp [hd]
  · simp only [ne_eq, hd, not_false_eq_true, if_true, List.length_append, indentLines_length, bolReplace] at h1
    rw [← List.count_eq_zero]
    simp at h1
    have := h1
    omega

/-- **C17 is false for a doc string of two lines**: the second line is not indented. -/
theorem C17_counterexample : ∃ h : History, listTargets (after id h) ≠ listSpec (after id h) ∧
    listTargets (after id h) = "A\n    x\ny\n".toList :=
  ⟨[("A".toList, "x\ny".toList, .ptr 0)], by decide +kernel⟩

example : listTargets (after id [("B".toList, "doc".toList, .ptr 0), ("A".toList, [], .ptr 1)]) =
    "A\nB\n    doc\n".toList := by decide +kernel

end Fab.Registry
