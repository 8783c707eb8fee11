import Verif.Files.Demo
import Verif.Command
import Verif.Clean

/-!
# The JSON form of the built-in targets: C24; counterexamples to C26

`files.computeHash` (files.go:167-195) puts the JSON form of the subtarget and the name of its type into the text that is
hashed.  Go encodes the exported fields of a struct (without those marked `json:"-"`; a field marked `omitempty` is left out
if it is empty), a nil slice or interface as `null`; canonicaljson-go writes the members in the order of their names.
Here the targets are trees: a target reached by two paths is two subtrees (which is how it is encoded).
-/

namespace Fab.Rule
open Json Cmd

/-- The targets that fab defines.  `none` for a slice is a nil slice; an empty slice is `some []`.  (The elements of `args`
and `env` of a command are lists, because `omitempty` treats nil and empty slices alike.)
* `command`: command.go:66-175; `clean`: clean.go:32-35; `all`: all.go:25-27; `seq` (also made by Deps, deps.go:44-46, and by a
  YAML Command with several shell strings, command.go:404-411): seq.go:26-28; `f`: f.go:17-19, the function being number `n`;
  `arg`: argtarg.go:33-36; `files`: files.go:113-117; `ref`: yaml.go:92-96, with the target it has been resolved to, if any. -/
inductive T where
  | command (c : Command)
  | clean (files : Option (List Str)) (autoclean : Bool)
  | all (targets : Option (List T))
  | seq (targets : Option (List T))
  | f (n : Nat)
  | arg (target : T) (args : Option (List Str))
  | files (target : T) (ins outs : Option (List Str))
  | ref (name : Str) (target : Option T)

/-- `reflect.TypeOf(t).String()` (files.go:176, 184) -/
def typeName : T → Str
  | .command _ => "*fab.Command".toList
  | .clean _ _ => "*fab.Clean".toList
  | .all _ => "*fab.all".toList
  | .seq _ => "*fab.seq".toList
  | .f _ => "*fab.ftarget".toList
  | .arg _ _ => "*fab.argTarget".toList
  | .files _ _ _ => "*fab.files".toList
  | .ref _ _ => "*fab.deferredResolutionTarget".toList

def jStrs : Option (List Str) → J
  | none => .null
  | some l => .arr (l.map .str)

/-- a string field with `omitempty` -/
def omitStr (k : Str) (s : Str) : List (Str × J) := if s = [] then [] else [(k, .str s)]
/-- a slice field with `omitempty` -/
def omitStrs (k : Str) (l : List Str) : List (Str × J) := if l = [] then [] else [(k, .arr (l.map .str))]

/-- The encoded fields of a command, command.go:66-175. -/
def cmdFields (c : Command) : List (Str × J) :=
  omitStrs "args".toList c.args ++ (omitStr "cmd".toList c.cmd ++ (omitStr "dir".toList c.dir ++ (omitStrs "env".toList c.env ++
    (omitStr "shell".toList c.shell ++ (omitStr "stderr_file".toList c.stderrFile ++ (omitStr "stdin_file".toList c.stdinFile ++
      omitStr "stdout_file".toList c.stdoutFile))))))

mutual
/-- The JSON form of a target. -/
def json : T → J
  | .command c => .obj (cmdFields c)
  | .clean fs a => .obj [("Autoclean".toList, .bool a), ("Files".toList, jStrs fs)]
  | .all ts => .obj [("Targets".toList, jsonSlice ts)]
  | .seq _ => .obj []
  | .f _ => .obj []
  | .arg t as => .obj [("Args".toList, jStrs as), ("Target".toList, json t)]
  | .files t i o => .obj [("In".toList, jStrs i), ("Out".toList, jStrs o), ("Target".toList, json t)]
  | .ref n t => .obj [("Name".toList, .str n), ("Target".toList, jsonOpt t)]
def jsonSlice : Option (List T) → J
  | none => .null
  | some l => .arr (jsonList l)
def jsonList : List T → List J
  | [] => []
  | t :: l => json t :: jsonList l
def jsonOpt : Option T → J
  | none => .null
  | some t => json t
end

/-! ## Specification -/

/-- The fields of a command that are not encoded. -/
def hideCmd (c : Command) : Command :=
  { c with stdout := none, stderr := none, stdoutFn := none, stderrFn := none, stdin := none }

/-- The command with nothing in it. -/
def noCmd : Command := {}

mutual
/-- What the hash knows about a rule: everything but the contents of Seq targets and functions, the writers, readers and
functions of commands, and whether something is a Seq, a function or a command without encoded fields. -/
def erase : T → T
  | .command c => .command (hideCmd c)
  | .clean fs a => .clean fs a
  | .all ts => .all (eraseSlice ts)
  | .seq _ => .command noCmd
  | .f _ => .command noCmd
  | .arg t as => .arg (erase t) as
  | .files t i o => .files (erase t) i o
  | .ref n t => .ref n (eraseOpt t)
def eraseSlice : Option (List T) → Option (List T)
  | none => none
  | some l => some (eraseList l)
def eraseList : List T → List T
  | [] => []
  | t :: l => erase t :: eraseList l
def eraseOpt : Option T → Option T
  | none => none
  | some t => some (erase t)
end

mutual
/-- A rule all of whose contents are encoded: no Seq (or Deps, or list of shell strings), no function, and no command with a
writer, a reader or a writer function. -/
def Transparent : T → Prop
  | .command c => c.stdout = none ∧ c.stderr = none ∧ c.stdoutFn = none ∧ c.stderrFn = none ∧ c.stdin = none
  | .clean _ _ => True
  | .all ts => TransparentSlice ts
  | .seq _ => False
  | .f _ => False
  | .arg t _ => Transparent t
  | .files t _ _ => Transparent t
  | .ref _ t => TransparentOpt t
def TransparentSlice : Option (List T) → Prop
  | none => True
  | some l => TransparentList l
def TransparentList : List T → Prop
  | [] => True
  | t :: l => Transparent t ∧ TransparentList l
def TransparentOpt : Option T → Prop
  | none => True
  | some t => Transparent t
end

/-! ## Lemmas -/

theorem strs_inj : ∀ {l l' : List Str}, l.map J.str = l'.map J.str → l = l' := by
  intro l l' h
  exact List.map_injective_iff.2 (fun a b h => by cases h; rfl) h

theorem jStrs_inj {a b : Option (List Str)} (h : jStrs a = jStrs b) : a = b := by
  cases a <;> cases b <;> simp only [jStrs, reduceCtorEq, J.arr.injEq] at h
  · rfl
  · rw [strs_inj h]

/-- Look up a member. -/
def member (k : Str) (l : List (Str × J)) : Option J := (l.find? (fun e => decide (e.1 = k))).map (·.2)

theorem member_omitStr (k k' : Str) (s : Str) (l : List (Str × J)) :
    member k (omitStr k' s ++ l) = if k' = k ∧ s ≠ [] then some (.str s) else member k l := by
  unfold omitStr member
  by_cases hs : s = []
  · simp [hs]
  · by_cases hk : k' = k <;> simp [hs, hk]

theorem member_omitStrs (k k' : Str) (s : List Str) (l : List (Str × J)) :
    member k (omitStrs k' s ++ l) = if k' = k ∧ s ≠ [] then some (.arr (s.map .str)) else member k l := by
  unfold omitStrs member
  by_cases hs : s = []
  · simp [hs]
  · by_cases hk : k' = k <;> simp [hs, hk]

theorem omitStr_nil (k s : Str) : omitStr k s = omitStr k s ++ [] := by simp

theorem member_nil (k : Str) : member k [] = none := rfl

theorem cmdFields_member (k : Str) (c : Command) : member k (cmdFields c) =
    if "args".toList = k ∧ c.args ≠ [] then some (.arr (c.args.map .str)) else
    if "cmd".toList = k ∧ c.cmd ≠ [] then some (.str c.cmd) else
    if "dir".toList = k ∧ c.dir ≠ [] then some (.str c.dir) else
    if "env".toList = k ∧ c.env ≠ [] then some (.arr (c.env.map .str)) else
    if "shell".toList = k ∧ c.shell ≠ [] then some (.str c.shell) else
    if "stderr_file".toList = k ∧ c.stderrFile ≠ [] then some (.str c.stderrFile) else
    if "stdin_file".toList = k ∧ c.stdinFile ≠ [] then some (.str c.stdinFile) else
    if "stdout_file".toList = k ∧ c.stdoutFile ≠ [] then some (.str c.stdoutFile) else none := by
  unfold cmdFields
  rw [member_omitStrs, member_omitStr, member_omitStr, member_omitStrs, member_omitStr, member_omitStr, member_omitStr,
    omitStr_nil, member_omitStr, member_nil]

theorem omit_inj {s s' : Str} (h : (if s ≠ [] then some (J.str s) else none) = (if s' ≠ [] then some (J.str s') else none)) : s = s' := by
  by_cases h1 : s = [] <;> by_cases h2 : s' = [] <;> simp_all

theorem omits_inj {s s' : List Str} (h : (if s ≠ [] then some (J.arr (s.map .str)) else none) =
    (if s' ≠ [] then some (J.arr (s'.map .str)) else none)) : s = s' := by
  by_cases h1 : s = [] <;> by_cases h2 : s' = [] <;> simp_all
  exact strs_inj h

theorem cmdFields_inj {c c' : Command} (h : cmdFields c = cmdFields c') : hideCmd c = hideCmd c' := by
  have hm : ∀ k, member k (cmdFields c) = member k (cmdFields c') := fun k => by rw [h]
  have h1 : c.args = c'.args := by
    have := hm "args".toList; rw [cmdFields_member, cmdFields_member] at this; simp at this; exact omits_inj (by simpa using this)
  have h2 : c.cmd = c'.cmd := by
    have := hm "cmd".toList; rw [cmdFields_member, cmdFields_member] at this; simp at this; exact omit_inj (by simpa using this)
  have h3 : c.dir = c'.dir := by
    have := hm "dir".toList; rw [cmdFields_member, cmdFields_member] at this; simp at this; exact omit_inj (by simpa using this)
  have h4 : c.env = c'.env := by
    have := hm "env".toList; rw [cmdFields_member, cmdFields_member] at this; simp at this; exact omits_inj (by simpa using this)
  have h5 : c.shell = c'.shell := by
    have := hm "shell".toList; rw [cmdFields_member, cmdFields_member] at this; simp at this; exact omit_inj (by simpa using this)
  have h6 : c.stderrFile = c'.stderrFile := by
    have := hm "stderr_file".toList; rw [cmdFields_member, cmdFields_member] at this; simp at this; exact omit_inj (by simpa using this)
  have h7 : c.stdinFile = c'.stdinFile := by
    have := hm "stdin_file".toList; rw [cmdFields_member, cmdFields_member] at this; simp at this; exact omit_inj (by simpa using this)
  have h8 : c.stdoutFile = c'.stdoutFile := by
    have := hm "stdout_file".toList; rw [cmdFields_member, cmdFields_member] at this; simp at this; exact omit_inj (by simpa using this)
  cases c; cases c'
  simp only [hideCmd] at *
  simp_all

theorem cmdFields_noCmd : cmdFields noCmd = [] := by decide

/-- The JSON form of a command is that of no other target with members. -/
theorem cmdFields_ne {c : Command} {k : Str} {j : J} {l : List (Str × J)}
    (hk : k ∉ ["args".toList, "cmd".toList, "dir".toList, "env".toList, "shell".toList, "stderr_file".toList, "stdin_file".toList,
      "stdout_file".toList]) : cmdFields c ≠ (k, j) :: l := by
  intro h
  have := cmdFields_member k c
  rw [h] at this
  simp only [List.mem_cons, List.not_mem_nil, or_false, not_or] at hk
  obtain ⟨h1, h2, h3, h4, h5, h6, h7, h8⟩ := hk
  simp only [Ne.symm h1, Ne.symm h2, Ne.symm h3, Ne.symm h4, Ne.symm h5, Ne.symm h6, Ne.symm h7, Ne.symm h8, false_and, if_false] at this
  simp [member] at this

theorem json_obj (t : T) : ∃ l, json t = .obj l := by
  cases t <;> exact ⟨_, rfl⟩

mutual
theorem json_erase : (t : T) → json (erase t) = json t
  | .command c => by simp only [erase, json]; rfl
  | .clean fs a => rfl
  | .all ts => by simp only [erase, json]; rw [jsonSlice_erase ts]
  | .seq _ => by simp only [erase, json, cmdFields_noCmd]
  | .f _ => by simp only [erase, json, cmdFields_noCmd]
  | .arg t as => by simp only [erase, json]; rw [json_erase t]
  | .files t i o => by simp only [erase, json]; rw [json_erase t]
  | .ref n t => by simp only [erase, json]; rw [jsonOpt_erase t]
theorem jsonSlice_erase : (ts : Option (List T)) → jsonSlice (eraseSlice ts) = jsonSlice ts
  | none => rfl
  | some l => by simp only [eraseSlice, jsonSlice]; rw [jsonList_erase l]
theorem jsonList_erase : (l : List T) → jsonList (eraseList l) = jsonList l
  | [] => rfl
  | t :: l => by simp only [eraseList, jsonList]; rw [json_erase t, jsonList_erase l]
theorem jsonOpt_erase : (t : Option T) → jsonOpt (eraseOpt t) = jsonOpt t
  | none => rfl
  | some t => by simp only [eraseOpt, jsonOpt]; rw [json_erase t]
end

theorem cmd_noCmd {c : Command} (h : cmdFields c = []) : hideCmd c = noCmd := by
  rw [← cmdFields_noCmd] at h
  rw [cmdFields_inj h]; rfl

mutual
theorem json_inj : (t t' : T) → json t = json t' → erase t = erase t'
  | .command c, t', h => by
    cases t' <;> simp only [json, J.obj.injEq] at h <;> simp only [erase]
    · rw [cmdFields_inj h]
    · exact absurd h (cmdFields_ne (by decide))
    · exact absurd h (cmdFields_ne (by decide))
    · rw [cmd_noCmd h]
    · rw [cmd_noCmd h]
    · exact absurd h (cmdFields_ne (by decide))
    · exact absurd h (cmdFields_ne (by decide))
    · exact absurd h (cmdFields_ne (by decide))
  | .clean fs a, t', h => by
    cases t' <;> simp only [json, J.obj.injEq] at h
    · exact absurd h.symm (cmdFields_ne (by decide))
    · simp only [List.cons.injEq, Prod.mk.injEq, true_and, and_true, J.bool.injEq] at h
      simp only [erase]; rw [h.1, jStrs_inj h.2]
    all_goals simp at h
  | .all ts, t', h => by
    cases t' <;> simp only [json, J.obj.injEq] at h
    · exact absurd h.symm (cmdFields_ne (by decide))
    · simp at h
    · simp only [List.cons.injEq, Prod.mk.injEq, true_and, and_true] at h
      simp only [erase]; rw [jsonSlice_inj ts _ h]
    all_goals simp at h
  | .seq _, t', h => by
    cases t' <;> simp only [json, J.obj.injEq] at h <;> simp only [erase]
    · rw [cmd_noCmd h.symm]
    all_goals simp at h
  | .f _, t', h => by
    cases t' <;> simp only [json, J.obj.injEq] at h <;> simp only [erase]
    · rw [cmd_noCmd h.symm]
    all_goals simp at h
  | .arg t as, t', h => by
    cases t' <;> simp only [json, J.obj.injEq] at h
    · exact absurd h.symm (cmdFields_ne (by decide))
    on_goal 5 =>
      simp only [List.cons.injEq, Prod.mk.injEq, true_and, and_true] at h
      simp only [erase]; rw [jStrs_inj h.1, json_inj t _ h.2]
    all_goals simp at h
  | .files t i o, t', h => by
    cases t' <;> simp only [json, J.obj.injEq] at h
    · exact absurd h.symm (cmdFields_ne (by decide))
    on_goal 6 =>
      simp only [List.cons.injEq, Prod.mk.injEq, true_and, and_true] at h
      simp only [erase]; rw [jStrs_inj h.1, jStrs_inj h.2.1, json_inj t _ h.2.2]
    all_goals simp at h
  | .ref n t, t', h => by
    cases t' <;> simp only [json, J.obj.injEq] at h
    · exact absurd h.symm (cmdFields_ne (by decide))
    on_goal 7 =>
      simp only [List.cons.injEq, Prod.mk.injEq, true_and, and_true, J.str.injEq] at h
      simp only [erase]; rw [h.1, jsonOpt_inj t _ h.2]
    all_goals simp at h
theorem jsonSlice_inj : (ts ts' : Option (List T)) → jsonSlice ts = jsonSlice ts' → eraseSlice ts = eraseSlice ts'
  | none, none, _ => rfl
  | none, some _, h => by simp [jsonSlice] at h
  | some _, none, h => by simp [jsonSlice] at h
  | some l, some l', h => by simp only [jsonSlice, J.arr.injEq] at h; simp only [eraseSlice]; rw [jsonList_inj l l' h]
theorem jsonList_inj : (l l' : List T) → jsonList l = jsonList l' → eraseList l = eraseList l'
  | [], [], _ => rfl
  | [], _ :: _, h => by simp [jsonList] at h
  | _ :: _, [], h => by simp [jsonList] at h
  | t :: l, t' :: l', h => by
    simp only [jsonList, List.cons.injEq] at h
    simp only [eraseList]; rw [json_inj t t' h.1, jsonList_inj l l' h.2]
theorem jsonOpt_inj : (t t' : Option T) → jsonOpt t = jsonOpt t' → eraseOpt t = eraseOpt t'
  | none, none, _ => rfl
  | none, some t, h => by obtain ⟨l, hl⟩ := json_obj t; simp [jsonOpt, hl] at h
  | some t, none, h => by obtain ⟨l, hl⟩ := json_obj t; simp [jsonOpt, hl] at h
  | some t, some t', h => by simp only [jsonOpt] at h; simp only [eraseOpt]; rw [json_inj t t' h]
end

mutual
theorem erase_transparent : (t : T) → Transparent t → erase t = t
  | .command c, h => by
    obtain ⟨h1, h2, h3, h4, h5⟩ := h
    cases c
    simp only [erase, hideCmd] at *
    simp_all
  | .clean fs a, _ => rfl
  | .all ts, h => by simp only [Transparent] at h; simp only [erase]; rw [eraseSlice_transparent ts h]
  | .seq _, h => by simp only [Transparent] at h
  | .f _, h => by simp only [Transparent] at h
  | .arg t as, h => by simp only [Transparent] at h; simp only [erase]; rw [erase_transparent t h]
  | .files t i o, h => by simp only [Transparent] at h; simp only [erase]; rw [erase_transparent t h]
  | .ref n t, h => by simp only [Transparent] at h; simp only [erase]; rw [eraseOpt_transparent t h]
theorem eraseSlice_transparent : (ts : Option (List T)) → TransparentSlice ts → eraseSlice ts = ts
  | none, _ => rfl
  | some l, h => by simp only [TransparentSlice] at h; simp only [eraseSlice]; rw [eraseList_transparent l h]
theorem eraseList_transparent : (l : List T) → TransparentList l → eraseList l = l
  | [], _ => rfl
  | t :: l, h => by
    simp only [TransparentList] at h
    simp only [eraseList]; rw [erase_transparent t h.1, eraseList_transparent l h.2]
theorem eraseOpt_transparent : (t : Option T) → TransparentOpt t → eraseOpt t = t
  | none, _ => rfl
  | some t, h => by simp only [TransparentOpt] at h; simp only [eraseOpt]; rw [erase_transparent t h]
end

/-! ## C24 -/

open Files in
/-- The texts hashed for two Files targets are equal only if the types and the JSON forms of the subtargets are. -/
theorem hash_rule {ρ : Type} {hex : Bytes → Str} {sum : Str → Str} {ft ft' : FilesT ρ} {ws ws' : List (World ρ)} {h : Str}
    (h1 : HashOf hex sum ft ws h) (h2 : HashOf hex sum ft' ws' h) (hc : ∀ a b, sum a = h → sum b = h → a = b)
    {t t' : T} (ht : ft.typ = typeName t) (ht' : ft'.typ = typeName t')
    (hd : ∀ w ∈ ws, ft.desc w = some (json t)) (hd' : ∀ w ∈ ws', ft'.desc w = some (json t')) :
    typeName t = typeName t' ∧ json t = json t' := by
  obtain ⟨wi, wo, wd, li, lo, j, rfl, -, -, -, -, hj, e⟩ := h1
  obtain ⟨wi', wo', wd', li', lo', j', rfl, -, -, -, -, hj', e'⟩ := h2
  rw [hd wd (by simp)] at hj; cases hj
  rw [hd' wd' (by simp)] at hj'; cases hj'
  have := hc _ _ e.symm e'.symm
  rw [ht, ht'] at this
  have k := hashText_inj this
  exact ⟨k.2.1, k.1⟩

open Files in
/-- **C24, what is true of the code.** If the hashes of two Files targets with subtargets `t` and `t'` are the same, and
the hash function has no collision there, then the subtargets have the same type and are the same up to what `erase`
forgets; and conversely subtargets of the same type that agree up to that, with the same files, give the same text. -/
theorem C24_rule_exact {ρ : Type} {hex : Bytes → Str} {sum : Str → Str} {ft ft' : FilesT ρ} {ws ws' : List (World ρ)} {h : Str}
    (h1 : HashOf hex sum ft ws h) (h2 : HashOf hex sum ft' ws' h) (hc : ∀ a b, sum a = h → sum b = h → a = b)
    {t t' : T} (ht : ft.typ = typeName t) (ht' : ft'.typ = typeName t')
    (hd : ∀ w ∈ ws, ft.desc w = some (json t)) (hd' : ∀ w ∈ ws', ft'.desc w = some (json t')) :
    typeName t = typeName t' ∧ erase t = erase t' := by
  obtain ⟨a, b⟩ := hash_rule h1 h2 hc ht ht' hd hd'
  exact ⟨a, json_inj t t' b⟩

/-- **C24**: the converse: what `erase` forgets makes no difference to the JSON form. -/
theorem C24_rule_blind (t t' : T) : json t = json t' ↔ erase t = erase t' :=
  ⟨json_inj t t', fun h => by rw [← json_erase t, h, json_erase t']⟩

open Files in
/-- **C24 (partial).** If the hashes of two Files targets are the same, and the hash function has no collision there, then the
subtargets are the same, provided that all of their contents are encoded.
Missing for the full claim: rules with Seq (Deps, lists of shell strings), functions, or commands with writers, readers or writer
functions; for these it is false, `C24_counterexample_seq`, `C24_counterexample_deps`, `C24_counterexample_command`. -/
theorem C24_rule_partial {ρ : Type} {hex : Bytes → Str} {sum : Str → Str} {ft ft' : FilesT ρ} {ws ws' : List (World ρ)} {h : Str}
    (h1 : HashOf hex sum ft ws h) (h2 : HashOf hex sum ft' ws' h) (hc : ∀ a b, sum a = h → sum b = h → a = b)
    {t t' : T} (ht : ft.typ = typeName t) (ht' : ft'.typ = typeName t')
    (hd : ∀ w ∈ ws, ft.desc w = some (json t)) (hd' : ∀ w ∈ ws', ft'.desc w = some (json t'))
    (ht1 : Transparent t) (ht2 : Transparent t') : t = t' := by
  obtain ⟨-, b⟩ := C24_rule_exact h1 h2 hc ht ht' hd hd'
  rwa [erase_transparent t ht1, erase_transparent t' ht2] at b

/-- a command with a shell string -/
def sh (s : String) : T := .command { shell := s.toList }
/-- `Seq`, seq.go:22-24 -/
def Seq (l : List T) : T := .seq (some l)
/-- `All`, all.go:21-23 -/
def All (l : List T) : T := .all (some l)
/-- `Deps`, deps.go:44-46 -/
def Deps (t : T) (l : List T) : T := Seq [All l, t]

/-- **C24 is false for Seq**: the contents of a Seq do not enter the hash. -/
theorem C24_counterexample_seq (l l' : Option (List T)) : typeName (.seq l) = typeName (.seq l') ∧ json (.seq l) = json (.seq l') :=
  ⟨rfl, rfl⟩
theorem C24_counterexample_deps : ∃ t t' l, Deps t l ≠ Deps t' l ∧ typeName (Deps t l) = typeName (Deps t' l) ∧
    json (Deps t l) = json (Deps t' l) := by
  refine ⟨sh "make a", sh "make b", [], ?_, rfl, rfl⟩
  intro h
  simp [Deps, Seq, sh] at h
/-- **C24 is false for commands with a writer**: two commands that differ only in where their output goes. -/
theorem C24_counterexample_command : ∃ c c' : Command, c.stdout ≠ c'.stdout ∧ json (.command c) = json (.command c') :=
  ⟨{ shell := "x".toList, stdout := some .osStdout }, { shell := "x".toList, stdout := some .discard }, by simp, rfl⟩
/-- The kinds of nested targets do not enter either: inside an All, a Seq is like a function. -/
example : json (All [Seq [sh "a"]]) = json (All [.f 3]) := rfl

-- a rule with all its contents encoded
example : Transparent (All [sh "a", .arg (.files (.clean (some ["x".toList]) true) none (some [])) (some ["v".toList]),
    .ref "T".toList (some (sh "b"))]) := by
  simp [All, sh, Transparent, TransparentSlice, TransparentList, TransparentOpt]

open Files in
/-- C24_rule_partial: the hypotheses are met (with the identity for the hash function). -/
example (w : World Unit) : ∃ h, HashOf (fun _ => []) id (⟨.ptr 0, typeName (sh "a"), fun _ => some (json (sh "a")), [], []⟩ : FilesT Unit) [w] h ∧
    (∀ a b : Str, id a = h → id b = h → a = b) := by
  refine ⟨_, ⟨[], [], w, [], [], _, rfl, rfl, rfl, rfl, rfl, rfl, rfl⟩, ?_⟩
  intro a b h1 h2
  exact h1.trans h2.symm

/-! ## C26: rules whose JSON form changes by running -/

namespace Demo
open Files Files.Demo Runner

/-- Object 0 copies `in` to `out`; object 4 is a reference to it by name, in YAML `Target: copy`; object 1 is a Files target with
input `in` and output `out` around the reference.  `rest` says whether the reference of the current process has been
resolved (yaml.go:100-113); it is false in a new process. -/
def namedFt : FilesT Bool := ⟨.ptr 4, typeName (.ref [] none),
  fun w => some (json (.ref "copy".toList (if w.rest then some (sh "cp in out") else none))), ["in".toList], ["out".toList]⟩

def copyB {ρ : Type} : P ρ := .act id fun w => .act (fun w' => { w' with fs := setOut (getIn w.fs) w'.fs }) fun _ => .ret none

def namedProg : Program Bool where
  env := {
    addr := id
    body := fun x ctx => if x = 0 then copyB else if x = 1 then filesBody exHex id namedFt ctx else .ret none
    resolve := fun x => if x = 4 then some fun w => ({ w with rest := true }, .ok 0) else none }
  files := fun x => if x = 1 then some namedFt else none
  clients := [.call dbCtx [.ptr 1] .ret]

def namedWorld : World Bool := ⟨exFiles [1] [0] [7], fun _ => [], regAll [(1, ["out".toList])], false, false, false, false⟩

/-- A process, then a new process. -/
def namedTwice : Sys Bool := sysRun (fun _ => namedProg) ⟨namedWorld, [], []⟩
  ([.spawn] ++ runAll 0 60 ++ [.setRest false, .spawn] ++ runAll 1 60)

/-- **C26 is false for a subtarget given by name.** A Files target whose subtarget is given by name succeeds with a hash
database; then, with nothing changed, a new process runs it again: it starts the subtarget again.  (A third process would do the
same: the two hashes recorded are the same.) -/
theorem C26_counterexample_by_name : ∃ s : Sys Bool, SysReach (fun _ => namedProg) namedWorld s ∧
    started 0 s = [1, 0] ∧ succeeded 0 s = [0, 1] ∧ started 1 s = [1, 0] ∧ succeeded 1 s = [0, 1] ∧
    getIn s.world.fs = [1] ∧ getOut s.world.fs = [1] ∧ (∃ h, s.world.db 0 = [h, h]) := by
  refine ⟨namedTwice, sysRun_reach _ .init, by decide +kernel, by decide +kernel, by decide +kernel, by decide +kernel,
    by decide +kernel, by decide +kernel, ?_⟩
  exact ⟨((namedTwice.world.db 0)[0]?).getD [], by decide +kernel⟩

/-- In one process the second run of a new controller skips: the reference is still resolved. -/
example : started 1 (sysRun (fun _ => namedProg) ⟨namedWorld, [], []⟩ ([.spawn] ++ runAll 0 60 ++ [.spawn] ++ runAll 1 60)) = [1] := by
  decide +kernel

/-- Object 0 is a Clean of the files `t2` and `t1`, in this order (they do not exist); object 1 is a Files target around it.
`rest` is the Clean of the current process, as it is after its runs so far. -/
def cleanFt : FilesT CleanT.Clean := ⟨.ptr 0, typeName (.clean none false),
  fun w => some (json (.clean (some w.rest.files.elems) w.rest.autoclean)), ["in".toList], ["out".toList]⟩

/-- the run of a Clean, in one step (clean.go:38-71) -/
def cleanBody (ctx : Ctx) : P CleanT.Clean :=
  .act (fun w => let r := CleanT.cleanRun (fun _ => false) ctx [] w.rest w.fs; { w with fs := r.1, rest := r.2.1 }) fun _ => .ret none

def cleanProg : Program CleanT.Clean where
  env := {
    addr := id
    body := fun x ctx => if x = 0 then cleanBody ctx else if x = 1 then filesBody exHex id cleanFt ctx else .ret none
    resolve := fun _ => none }
  files := fun x => if x = 1 then some cleanFt else none
  clients := [.call dbCtx [.ptr 1] .ret]

def clean0 : CleanT.Clean := ⟨⟨["t2".toList, "t1".toList], 2⟩, false⟩
def cleanWorld : World CleanT.Clean := ⟨exFiles [1] [0] [7], fun _ => [], regAll [(1, ["out".toList])], false, false, false, clean0⟩

def cleanTwice : Sys CleanT.Clean := sysRun (fun _ => cleanProg) ⟨cleanWorld, [], []⟩
  ([.spawn] ++ runAll 0 60 ++ [.setRest clean0, .spawn] ++ runAll 1 60)

/-- **C26 is false for a Clean whose files are not listed in order**: running it sorts its own list of files (clean.go:46), so the
hash recorded after the run is not the one that a new process computes. -/
theorem C26_counterexample_clean : ∃ s : Sys CleanT.Clean, SysReach (fun _ => cleanProg) cleanWorld s ∧
    started 0 s = [1, 0] ∧ succeeded 0 s = [0, 1] ∧ started 1 s = [1, 0] ∧ succeeded 1 s = [0, 1] ∧
    getIn s.world.fs = [1] ∧ getOut s.world.fs = [0] := by
  exact ⟨cleanTwice, sysRun_reach _ .init, by decide +kernel, by decide +kernel, by decide +kernel, by decide +kernel,
    by decide +kernel, by decide +kernel⟩

end Demo

end Fab.Rule
