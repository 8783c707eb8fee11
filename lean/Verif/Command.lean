import Verif.Path
import Verif.FS
import Verif.Context

/-!
# Command (/repo/command.go): model of `Run`, and C36, C37, C40

The operating system is a parameter: what files there are, which cannot be opened, what the started process writes and how
it ends.  Simplifications:
* a file is identified by its name as spelled: two spellings of one file are two files here;
* the files are changed by the command's output only, not by other processes or by the process itself;
* the closing of files is left out here; it is in `Verif/CommandClose.lean`;
* what is printed in verbose mode before the command starts is not modelled.
-/

namespace Fab.Cmd

/-- An `io.Writer`: `indentOut` and `indentErr` stand for `con.IndentingCopier(os.Stdout, "    ")` and the same for
`os.Stderr` (what these do to the text is in `Verif/Copier.lean`); `ext n` is any other writer. -/
inductive Wr where
  | ext (n : Nat)
  | osStdout | osStderr | discard | indentOut | indentErr
deriving DecidableEq

/-- An `io.Reader`. -/
inductive Rd where
  | ext (n : Nat)
  | osStdin
deriving DecidableEq

/-- /repo/command.go:66-175 -/
structure Command where
  shell : Str := []
  cmd : Str := []
  args : List Str := []
  stdout : Option Wr := none
  stderr : Option Wr := none
  stdoutFn : Option (Ctx → Option Wr) := none
  stderrFn : Option (Ctx → Option Wr) := none
  stdoutFile : Str := []
  stderrFile : Str := []
  stdin : Option Rd := none
  stdinFile : Str := []
  dir : Str := []
  env : List Str := []

/-- Where an output stream of the process goes. -/
inductive Dest where
  | wr (w : Wr)
  | file (name : Str)
  | buf
deriving DecidableEq

/-- Where the process reads its standard input; `file` with the contents at the time it is opened. -/
inductive Src where
  | null
  | rd (r : Rd)
  | file (name : Str) (data : Bytes)
deriving DecidableEq

/-- What is started: `exec.Cmd`. -/
structure Spawn where
  name : Str
  args : List Str
  dir : Str
  env : List Str
  stdin : Src
  stdout : Dest
  stderr : Dest
deriving DecidableEq

/-- What a started process does: the pieces it writes (`true`: to standard output, `false`: to standard error) in order, and
the error `cmd.Run()` returns, if any. -/
structure Outcome where
  chunks : List (Bool × Bytes)
  err : Option Nat

structure OS where
  files : Str → Option Bytes
  /-- opening for writing or appending fails -/
  openFails : Str → Bool
  /-- `os.Open` fails -/
  readFails : Str → Bool
  environ : List Str
  /-- `os.Getenv("SHELL")` -/
  shellVar : Str
  proc : Spawn → Outcome
  /-- `none`: not an `io.Closer`; otherwise the error of its `Close`, if any -/
  closer : Wr → Option (Option Nat)

/-- Effects, in order. -/
inductive Eff where
  | opened (name : Str) (append : Bool)
  | called (stdout : Bool)
  | openedRead (name : Str)
  | exec (sp : Spawn)
  | closed (w : Wr)
deriving DecidableEq

inductive CErr where
  | disagree
  | opening (name : Str)
  | run (e : Nat)
  | commandErr (e : Nat) (output : Bytes)
  | closing (e : Nat)
deriving DecidableEq

/-- The result of `Run`: the files afterwards, what each writer received, the effects and the error. -/
structure Res where
  files : Str → Option Bytes
  sent : Wr → Bytes
  trace : List Eff
  err : Option CErr

/-- `strings.TrimLeft(s, "> ")` -/
def trimGt (s : Str) : Str := s.dropWhile (fun c => c = '>' || c = ' ')

/-- /repo/command.go:214-226: the name of an output file, and whether to append -/
def parseFile (s : Str) : Str × Bool := if ['>', '>'].isPrefixOf s then (trimGt s, true) else (s, false)

/-- `os.OpenFile(name, os.O_WRONLY|os.O_APPEND|os.O_CREATE, 0644)` or `os.Create(name)` -/
def openWrite (os : OS) (files : Str → Option Bytes) (name : Str) (append : Bool) : Option (Str → Option Bytes) :=
  if os.openFails name then none
  else some fun n => if n = name then some (if append then (files name).getD [] else []) else files n

/-- The bytes for destination `d`, in the order in which they arrive. -/
def bytesFor (sp : Spawn) (chunks : List (Bool × Bytes)) (d : Dest) : Bytes :=
  (chunks.filter fun c => decide ((if c.1 then sp.stdout else sp.stderr) = d)).flatMap (·.2)

/-- The deferred calls of `Close` on the writers made by `StdoutFn` and `StderrFn`, /repo/command.go:285-292, 298-305: last
opened, first closed; an error of `Close` is returned if there is no other error. -/
def closeAll (os : OS) : List Wr → Option CErr → List Eff × Option CErr
  | [], e => ([], e)
  | w :: ws, e =>
    match os.closer w with
    | none => closeAll os ws e
    | some ce =>
      let r := closeAll os ws (match e with | some x => some x | none => ce.map CErr.closing)
      (.closed w :: r.1, r.2)

/-- The end of `Run`, /repo/command.go:329-346: standard input, the process, the error; `made` are the writers to close. -/
def finishRun (os : OS) (c : Command) (cmdname : Str) (args : List Str) (files : Str → Option Bytes) (trace : List Eff)
    (out err : Dest) (made : List Wr) : Res :=
  if c.stdinFile ≠ [] ∧ os.readFails c.stdinFile = true then
    let cl := closeAll os made (some (.opening c.stdinFile))
    { files := files, sent := fun _ => [], trace := trace ++ cl.1, err := cl.2 }
  else
    let src : Src := if c.stdinFile ≠ [] then .file c.stdinFile ((files c.stdinFile).getD []) else
      match c.stdin with | some r => .rd r | none => .null
    let rd : List Eff := if c.stdinFile ≠ [] then [.openedRead c.stdinFile] else []
    let sp : Spawn := ⟨cmdname, args, c.dir, os.environ ++ c.env, src, out, err⟩
    let o := os.proc sp
    let buf := bytesFor sp o.chunks .buf
    let e : Option CErr := match o.err with
      | none => none
      | some n => if buf ≠ [] then some (.commandErr n buf) else some (.run n)
    let cl := closeAll os made e
    { files := fun n => if out = .file n ∨ err = .file n then some ((files n).getD [] ++ bytesFor sp o.chunks (.file n)) else files n
      sent := fun w => bytesFor sp o.chunks (.wr w)
      trace := trace ++ rd ++ [.exec sp] ++ cl.1
      err := cl.2 }

/-- /repo/command.go:283-295: the writer of `StdoutFn` (or `StderrFn`, lines 296-308) if there is no other destination yet: the
effects, the destination, and the writer made -/
def tryFn (ctx : Ctx) (isOut : Bool) (cur : Option Dest) (fn : Option (Ctx → Option Wr)) : List Eff × Option Dest × List Wr :=
  match cur, fn with
  | none, some f =>
    match f ctx with
    | some w => ([.called isOut], some (.wr w), [w])
    | none => ([.called isOut], none, [])
  | cur, _ => ([], cur, [])

/-- `(*Command).Run`, /repo/command.go:188-347 -/
def run (os : OS) (ctx : Ctx) (c : Command) : Res :=
  let cmdname := if c.cmd = [] then (if os.shellVar = [] then "/bin/sh".toList else os.shellVar) else c.cmd
  let args := if c.cmd = [] then ["-c".toList, c.shell] else c.args
  if getDryRun ctx then { files := os.files, sent := fun _ => [], trace := [], err := none }
  else
    let so := parseFile c.stdoutFile
    let se := parseFile c.stderrFile
    if so.1 = se.1 ∧ so.2 ≠ se.2 then { files := os.files, sent := fun _ => [], trace := [], err := some .disagree }
    else
      -- lines 232-258
      match (if so.1 = [] then some os.files else openWrite os os.files so.1 so.2) with
      | none => { files := os.files, sent := fun _ => [], trace := [], err := some (.opening so.1) }
      | some files1 =>
        let tr1 : List Eff := if so.1 = [] then [] else [.opened so.1 so.2]
        let out1 : Option Dest := if so.1 = [] then c.stdout.map .wr else some (.file so.1)
        -- lines 260-281
        match (if se.1 = [] ∨ so.1 = se.1 then some files1 else openWrite os files1 se.1 se.2) with
        | none => { files := files1, sent := fun _ => [], trace := tr1, err := some (.opening se.1) }
        | some files2 =>
          let tr2 : List Eff := if se.1 = [] ∨ so.1 = se.1 then tr1 else tr1 ++ [.opened se.1 se.2]
          let err1 : Option Dest := if se.1 = [] then c.stderr.map .wr else if so.1 = se.1 then out1 else some (.file se.1)
          -- lines 283-308
          let f1 := tryFn ctx true out1 c.stdoutFn
          let f2 := tryFn ctx false err1 c.stderrFn
          -- lines 310-327
          let out2 := f1.2.1.getD (if getVerbose ctx then .wr .indentOut else .buf)
          let err2 := f2.2.1.getD (if getVerbose ctx then .wr .indentErr else .buf)
          finishRun os c cmdname args files2 (tr2 ++ f1.1 ++ f2.1) out2 err2 (f2.2.2 ++ f1.2.2)

/-! ## Specification -/

/-- The text `s` of `StdoutFile` or `StderrFile` names file `n`: with a ">>" prefix the file is appended to, and its name is
what follows the prefix and any further '>' and ' '; otherwise the text is the name.  (`n` empty: no file.) -/
def NamesFile (s n : Str) (append : Bool) : Prop :=
  (append = true ∧ ∃ junk, s = ['>', '>'] ++ junk ++ n ∧ (∀ c ∈ junk, c = '>' ∨ c = ' ') ∧ ∀ c, n.head? = some c → c ≠ '>' ∧ c ≠ ' ')
  ∨ (append = false ∧ n = s ∧ ¬ ['>', '>'] <+: s)

/-- Where a stream goes: the file if one is named; else the explicit writer; else what the function yields; else, in verbose
mode, the indented standard stream; else the buffer. -/
def destOf (ctx : Ctx) (file : Str) (explicit : Option Wr) (fn : Option (Ctx → Option Wr)) (indent : Wr) : Dest :=
  if file ≠ [] then .file file
  else match explicit with
    | some w => .wr w
    | none => match fn.bind (fun f => f ctx) with
      | some w => .wr w
      | none => if getVerbose ctx then .wr indent else .buf

/-- What the process wrote to those of its two streams that go to `d`, in the order it wrote it. -/
def routed (out err : Dest) (chunks : List (Bool × Bytes)) (d : Dest) : Bytes :=
  (chunks.flatMap fun c => if c.1 then (if out = d then c.2 else []) else (if err = d then c.2 else []))

/-! ## Lemmas -/

theorem dropWhile_split (p : Char → Bool) (s : Str) : ∃ junk, s = junk ++ s.dropWhile p ∧ (∀ c ∈ junk, p c = true) ∧
    ∀ c, (s.dropWhile p).head? = some c → p c = false := by
  induction s with
  | nil => exact ⟨[], rfl, by simp, by simp⟩
  | cons x s ih =>
    obtain ⟨junk, h1, h2, h3⟩ := ih
    by_cases hx : p x = true
    · refine ⟨x :: junk, ?_, ?_, ?_⟩
      · rw [List.dropWhile_cons_of_pos hx, List.cons_append, ← h1]
      · intro c hc
        rcases List.mem_cons.1 hc with rfl | hc
        · exact hx
        · exact h2 c hc
      · rw [List.dropWhile_cons_of_pos hx]; exact h3
    · refine ⟨[], ?_, by simp, ?_⟩
      · rw [List.dropWhile_cons_of_neg hx]; rfl
      · rw [List.dropWhile_cons_of_neg hx]
        intro c hc
        simp only [List.head?_cons, Option.some.injEq] at hc
        subst hc
        simpa using hx

theorem isPrefixOf_iff (s : Str) : (['>', '>'].isPrefixOf s = true) ↔ ['>', '>'] <+: s := List.isPrefixOf_iff_prefix

theorem parseFile_spec (s : Str) : NamesFile s (parseFile s).1 (parseFile s).2 := by
  unfold parseFile
  split
  · rename_i h
    left
    refine ⟨rfl, ?_⟩
    obtain ⟨t, rfl⟩ := (isPrefixOf_iff s).1 h
    have h1 : trimGt (['>', '>'] ++ t) = trimGt t := by simp [trimGt]
    simp only [h1]
    obtain ⟨junk, h2, h3, h4⟩ := dropWhile_split (fun c => c = '>' || c = ' ') t
    refine ⟨junk, ?_, ?_, ?_⟩
    · conv_lhs => rw [h2]
      simp [trimGt]
    · intro c hc; simpa using h3 c hc
    · intro c hc; simpa using h4 c hc
  · rename_i h
    right
    exact ⟨rfl, rfl, fun h' => h ((isPrefixOf_iff s).2 h')⟩

theorem namesFile_uniq {s n n' : Str} {a a' : Bool} (h : NamesFile s n a) (h' : NamesFile s n' a') : n = n' ∧ a = a' := by
  have key : ∀ {j j' m m' : Str}, (∀ c ∈ j, c = '>' ∨ c = ' ') → (∀ c ∈ j', c = '>' ∨ c = ' ') →
      (∀ c, m.head? = some c → c ≠ '>' ∧ c ≠ ' ') → (∀ c, m'.head? = some c → c ≠ '>' ∧ c ≠ ' ') →
      j ++ m = j' ++ m' → m = m' := by
    intro j
    induction j with
    | nil =>
      intro j' m m' _ h2 h3 _ h5
      cases j' with
      | nil => simpa using h5
      | cons x j' =>
        simp only [List.nil_append, List.cons_append] at h5
        have := h3 x (by rw [h5]; rfl)
        rcases h2 x (by simp) with rfl | rfl
        · exact absurd rfl this.1
        · exact absurd rfl this.2
    | cons y j ih =>
      intro j' m m' h1 h2 h3 h4 h5
      cases j' with
      | nil =>
        simp only [List.nil_append, List.cons_append] at h5
        have := h4 y (by rw [← h5]; rfl)
        rcases h1 y (by simp) with rfl | rfl
        · exact absurd rfl this.1
        · exact absurd rfl this.2
      | cons x j' =>
        simp only [List.cons_append, List.cons.injEq] at h5
        exact ih (fun c hc => h1 c (by simp [hc])) (fun c hc => h2 c (by simp [hc])) h3 h4 h5.2
  rcases h with ⟨rfl, j, rfl, h1, h2⟩ | ⟨rfl, rfl, h1⟩ <;> rcases h' with ⟨rfl, j', h3, h4, h5⟩ | ⟨rfl, rfl, h3⟩
  · refine ⟨?_, rfl⟩
    simp only [List.cons_append, List.nil_append, List.cons.injEq, true_and] at h3
    exact key h1 h4 h2 h5 h3
  · exact absurd ⟨j ++ n, by simp⟩ h3
  · exact absurd ⟨j' ++ n', by rw [h3]; simp⟩ h1
  · exact ⟨rfl, rfl⟩

theorem parseFile_eq {s n : Str} {a : Bool} (h : NamesFile s n a) : parseFile s = (n, a) := by
  obtain ⟨h1, h2⟩ := namesFile_uniq (parseFile_spec s) h
  exact Prod.ext h1 h2

theorem bytesFor_eq (sp : Spawn) (chunks : List (Bool × Bytes)) (d : Dest) :
    bytesFor sp chunks d = routed sp.stdout sp.stderr chunks d := by
  unfold bytesFor routed
  induction chunks with
  | nil => rfl
  | cons c l ih =>
    obtain ⟨b, x⟩ := c
    rw [List.flatMap_cons, ← ih, List.filter_cons]
    cases b
    · by_cases h : sp.stderr = d
      · rw [if_pos (by simpa using h)]; simp only [List.flatMap_cons, Bool.false_eq_true, if_false]; rw [if_pos h]
      · rw [if_neg (by simpa using h)]; simp only [Bool.false_eq_true, if_false]; rw [if_neg h]; rfl
    · by_cases h : sp.stdout = d
      · rw [if_pos (by simpa using h)]; simp only [List.flatMap_cons, if_true]; rw [if_pos h]
      · rw [if_neg (by simpa using h)]; simp only [if_true]; rw [if_neg h]; rfl

theorem tryFn_dest (ctx : Ctx) (b : Bool) (file : Str) (w : Option Wr) (fn : Option (Ctx → Option Wr)) (i : Wr) :
    (tryFn ctx b (if file = [] then w.map .wr else some (.file file)) fn).2.1.getD
      (if getVerbose ctx then .wr i else .buf) = destOf ctx file w fn i := by
  unfold destOf
  by_cases hf : file = []
  · cases w with
    | some w => simp [hf, tryFn]
    | none =>
      cases fn with
      | none => simp [hf, tryFn]
      | some f => cases h : f ctx <;> simp [hf, tryFn, h]
  · simp [hf, tryFn]

theorem exec_mem_closeAll {os : OS} {sp : Spawn} : ∀ {l : List Wr} {e : Option CErr}, Eff.exec sp ∉ (closeAll os l e).1 := by
  intro l
  induction l with
  | nil => intro e; simp [closeAll]
  | cons w l ih =>
    intro e
    unfold closeAll
    split
    · exact ih
    · simp [ih]

theorem tryFn_noexec {ctx : Ctx} {b : Bool} {cur : Option Dest} {fn : Option (Ctx → Option Wr)} {sp : Spawn} :
    Eff.exec sp ∉ (tryFn ctx b cur fn).1 := by
  unfold tryFn
  split
  · split <;> simp
  · simp

/-- The state in which the process is started, if it is: all that `Run` did before. -/
theorem run_exec {os : OS} {ctx : Ctx} {c : Command} {sp : Spawn} (h : Eff.exec sp ∈ (run os ctx c).trace)
    {so se : Str} {ao ae : Bool} (ho : NamesFile c.stdoutFile so ao) (he : NamesFile c.stderrFile se ae) :
    getDryRun ctx = false ∧ ¬ (so = se ∧ ao ≠ ae) ∧
    sp.stdout = destOf ctx so c.stdout c.stdoutFn .indentOut ∧ sp.stderr = destOf ctx se c.stderr c.stderrFn .indentErr ∧
    (∀ n, (run os ctx c).files n =
      if n = so ∧ so ≠ [] then some ((if ao then (os.files n).getD [] else []) ++ bytesFor sp (os.proc sp).chunks (.file n))
      else if n = se ∧ se ≠ [] then some ((if ae then (os.files n).getD [] else []) ++ bytesFor sp (os.proc sp).chunks (.file n))
      else os.files n) ∧
    (∀ w, (run os ctx c).sent w = bytesFor sp (os.proc sp).chunks (.wr w)) ∧
    (∃ made, (run os ctx c).err = (closeAll os made (match (os.proc sp).err with
      | none => none
      | some n => if bytesFor sp (os.proc sp).chunks .buf ≠ [] then some (.commandErr n (bytesFor sp (os.proc sp).chunks .buf))
        else some (.run n))).2) ∧
    sp.name = (if c.cmd = [] then (if os.shellVar = [] then "/bin/sh".toList else os.shellVar) else c.cmd) ∧
    sp.args = (if c.cmd = [] then ["-c".toList, c.shell] else c.args) ∧ sp.dir = c.dir ∧ sp.env = os.environ ++ c.env ∧
    (c.stdinFile ≠ [] → ∃ data, sp.stdin = .file c.stdinFile data ∧
      data = if (c.stdinFile = so ∧ ao = false) ∨ (c.stdinFile = se ∧ ae = false) then [] else (os.files c.stdinFile).getD []) ∧
    (c.stdinFile = [] → sp.stdin = match c.stdin with | some r => .rd r | none => .null) ∧
    (run os ctx c).trace.count (.exec sp) = 1 ∧ (∀ sp', Eff.exec sp' ∈ (run os ctx c).trace → sp' = sp) := by
  unfold run at h ⊢
  simp only [parseFile_eq ho, parseFile_eq he] at h ⊢
  cases hd : getDryRun ctx with
  | true => simp [hd] at h
  | false =>
    simp only [hd, Bool.false_eq_true, if_false] at h ⊢
    by_cases hdis : so = se ∧ ao ≠ ae
    · rw [if_pos hdis] at h; simp at h
    · rw [if_neg hdis] at h ⊢
      have hso : ∀ {f1}, (if so = [] then some os.files else openWrite os os.files so ao) = some f1 → ∀ n, f1 n =
          if n = so ∧ so ≠ [] then some (if ao then (os.files n).getD [] else []) else os.files n := by
        intro f1 h1 n
        by_cases hs : so = []
        · simp only [hs, if_true, Option.some.injEq] at h1; subst h1; simp [hs]
        · simp only [hs, if_false, openWrite] at h1
          split at h1
          · cases h1
          · cases h1
            by_cases hn : n = so
            · subst hn; simp [hs]
            · simp [hn]
      split at h
      · simp at h
      · rename_i files1 hf1
        have k1 := hso hf1
        have hse : ∀ {f2}, (if se = [] ∨ so = se then some files1 else openWrite os files1 se ae) = some f2 → ∀ n, f2 n =
            if n = so ∧ so ≠ [] then some (if ao then (os.files n).getD [] else [])
            else if n = se ∧ se ≠ [] then some (if ae then (os.files n).getD [] else []) else os.files n := by
          intro f2 h2 n
          by_cases hs : se = [] ∨ so = se
          · simp only [hs, if_true, Option.some.injEq] at h2; subst h2; rw [k1]
            by_cases hn : n = so ∧ so ≠ []
            · simp [hn]
            · rw [if_neg hn, if_neg hn]
              rcases hs with hs | hs
              · simp [hs]
              · subst hs; rw [if_neg hn]
          · simp only [hs, if_false, openWrite] at h2
            split at h2
            · cases h2
            · cases h2
              simp only [not_or] at hs
              by_cases hn : n = se
              · subst hn
                have : ¬ (n = so ∧ so ≠ []) := fun h => hs.2 h.1.symm
                simp [k1, this, hs.1]
              · simp only [hn, if_false]
                rw [k1]
                by_cases hn' : n = so ∧ so ≠ []
                · simp [hn']
                · rw [if_neg hn', if_neg hn']; simp
        split at h
        · by_cases hs : so = [] <;> simp [hs] at h
        · rename_i files2 hf2
          have k2 := hse hf2
          clear hso hse
          have herr : (if se = [] then Option.map Dest.wr c.stderr else if so = se then
              (if so = [] then Option.map Dest.wr c.stdout else some (Dest.file so)) else some (Dest.file se)) =
              (if se = [] then Option.map Dest.wr c.stderr else some (Dest.file se)) := by
            by_cases hs : se = []
            · simp [hs]
            · by_cases hs' : so = se
              · subst hs'; simp [hs]
              · simp [hs']
          rw [herr] at h ⊢
          simp only [tryFn_dest] at h ⊢
          generalize htr : (if se = [] ∨ so = se then (if so = [] then ([] : List Eff) else [Eff.opened so ao])
            else (if so = [] then ([] : List Eff) else [Eff.opened so ao]) ++ [Eff.opened se ae]) = tr at h ⊢
          generalize hf1 : tryFn ctx true (if so = [] then Option.map Dest.wr c.stdout else some (Dest.file so)) c.stdoutFn = f1 at h ⊢
          generalize hf2 : tryFn ctx false (if se = [] then Option.map Dest.wr c.stderr else some (Dest.file se)) c.stderrFn = f2 at h ⊢
          have hn1 : ∀ {sp}, Eff.exec sp ∉ f1.1 := by intro sp; rw [← hf1]; exact tryFn_noexec
          have hn2 : ∀ {sp}, Eff.exec sp ∉ f2.1 := by intro sp; rw [← hf2]; exact tryFn_noexec
          have hn3 : ∀ {sp}, Eff.exec sp ∉ tr := by
            intro sp
            rw [← htr]; split <;> split <;> simp
          unfold finishRun at h ⊢
          by_cases hin : c.stdinFile ≠ [] ∧ os.readFails c.stdinFile = true
          · rw [if_pos hin] at h
            simp [hn1, hn2, hn3, exec_mem_closeAll] at h
          · rw [if_neg hin] at h ⊢
            simp only [List.mem_append, hn1, hn2, hn3, exec_mem_closeAll, or_false, false_or, List.mem_singleton, Eff.exec.injEq] at h
            rcases h with h | h
            · split at h <;> simp at h
            · subst h
              refine ⟨trivial, hdis, rfl, rfl, ?_, fun w => rfl, ⟨_, rfl⟩, rfl, rfl, rfl, rfl, ?_, ?_, ?_, ?_⟩
              rotate_left
              · intro hs
                refine ⟨_, if_pos hs, ?_⟩
                rw [k2]
                by_cases q1 : c.stdinFile = so
                · have q3 : so ≠ [] := q1 ▸ hs
                  by_cases q2 : c.stdinFile = se
                  · have : ao = ae := by by_contra hne; exact hdis ⟨q1.symm.trans q2, hne⟩
                    subst this
                    cases ao <;> simp [q1, q3]
                  · cases ao <;> simp [q1, q3, q1 ▸ q2]
                · by_cases q2 : c.stdinFile = se
                  · have q3 : se ≠ [] := q2 ▸ hs
                    cases ae <;> simp [q2, q3, q2 ▸ q1]
                  · simp [q1, q2]
              · intro hs
                exact if_neg (fun h => h hs)
              · have q : ∀ sp' : Spawn, List.count (Eff.exec sp') (if c.stdinFile ≠ [] then [Eff.openedRead c.stdinFile] else []) = 0 := by
                  intro sp'; rw [List.count_eq_zero]; split <;> simp
                simp only [List.count_append, List.count_eq_zero.2 hn1, List.count_eq_zero.2 hn2, List.count_eq_zero.2 hn3,
                  List.count_eq_zero.2 exec_mem_closeAll, q, List.count_singleton_self]
              · intro sp' h'
                simp only [List.mem_append, hn1, hn2, hn3, exec_mem_closeAll, or_false, false_or, List.mem_singleton, Eff.exec.injEq] at h'
                rcases h' with h' | h'
                · split at h' <;> simp at h'
                · exact h'
              intro n
              show (if destOf ctx so c.stdout c.stdoutFn Wr.indentOut = Dest.file n ∨ destOf ctx se c.stderr c.stderrFn Wr.indentErr = Dest.file n
                then some ((files2 n).getD [] ++ _) else files2 n) = _
              generalize bytesFor _ _ (Dest.file n) = bs
              rw [k2 n]
              have d1 : ∀ {f : Str} {w : Option Wr} {fn : Option (Ctx → Option Wr)} {i : Wr},
                  (destOf ctx f w fn i = .file n ↔ n = f ∧ f ≠ []) := by
                intro f w fn i
                unfold destOf
                by_cases hf : f = []
                · simp only [hf, ne_eq, not_true_eq_false, if_false, and_false, iff_false]
                  split
                  · simp
                  · split
                    · simp
                    · split <;> simp
                · simp only [ne_eq, hf, not_false_eq_true, if_true, Dest.file.injEq, and_true]
                  exact ⟨fun h => h.symm, fun h => h.symm⟩
              simp only [d1]
              by_cases q1 : n = so ∧ so ≠ []
              · simp [q1]
              · by_cases q2 : n = se ∧ se ≠ []
                · rw [if_pos (.inr q2), if_neg q1, if_pos q2, if_neg q1, if_pos q2]; rfl
                · rw [if_neg (by tauto), if_neg q1, if_neg q2, if_neg q1, if_neg q2]

/-! ## C36 -/

/-- **C36** When a command runs (not in dry-run mode) and its process is started, standard output and standard error go where
`destOf` says, and every writer receives exactly what the process wrote to the streams that go to it, in order. -/
theorem C36_routing (os : OS) (ctx : Ctx) (c : Command) (sp : Spawn) (h : Eff.exec sp ∈ (run os ctx c).trace)
    {so se : Str} {ao ae : Bool} (ho : NamesFile c.stdoutFile so ao) (he : NamesFile c.stderrFile se ae) :
    sp.stdout = destOf ctx so c.stdout c.stdoutFn .indentOut ∧ sp.stderr = destOf ctx se c.stderr c.stderrFn .indentErr ∧
    ∀ w, (run os ctx c).sent w = routed sp.stdout sp.stderr (os.proc sp).chunks (.wr w) := by
  obtain ⟨-, -, h1, h2, -, h3, -⟩ := run_exec h ho he
  exact ⟨h1, h2, fun w => by rw [h3, bytesFor_eq]⟩

theorem closeAll_keep (os : OS) (e : CErr) : ∀ l, (closeAll os l (some e)).2 = some e := by
  intro l
  induction l with
  | nil => rfl
  | cons w l ih =>
    unfold closeAll
    split
    · exact ih
    · simpa using ih

/-- **C36** If the process fails, the error is returned; what was captured in the buffer, if anything, is attached to it. -/
theorem C36_error_carries_output (os : OS) (ctx : Ctx) (c : Command) (sp : Spawn) (h : Eff.exec sp ∈ (run os ctx c).trace)
    (n : Nat) (hn : (os.proc sp).err = some n) :
    let captured := routed sp.stdout sp.stderr (os.proc sp).chunks .buf
    (captured ≠ [] → (run os ctx c).err = some (.commandErr n captured)) ∧ (captured = [] → (run os ctx c).err = some (.run n)) := by
  obtain ⟨-, -, -, -, -, -, ⟨made, hm⟩, -⟩ := run_exec h (parseFile_spec c.stdoutFile) (parseFile_spec c.stderrFile)
  rw [hn, bytesFor_eq] at hm
  intro captured
  by_cases hc : captured = []
  · have hc' : routed sp.stdout sp.stderr (os.proc sp).chunks .buf = [] := hc
    simp only [hc', ne_eq, not_true_eq_false, if_false, closeAll_keep] at hm
    exact ⟨fun h => absurd hc h, fun _ => hm⟩
  · have hc' : routed sp.stdout sp.stderr (os.proc sp).chunks .buf ≠ [] := hc
    simp only [hc', ne_eq, not_false_eq_true, if_true, closeAll_keep] at hm
    exact ⟨fun _ => hm, fun h => absurd h hc⟩

theorem closeAll_none (os : OS) : ∀ l, (∀ w ∈ l, ∀ e, os.closer w ≠ some (some e)) → (closeAll os l none).2 = none := by
  intro l
  induction l with
  | nil => intro _; rfl
  | cons w l ih =>
    intro h
    unfold closeAll
    split
    · exact ih fun w hw => h w (by simp [hw])
    · rename_i ce hce
      cases ce with
      | none => exact ih fun w hw => h w (by simp [hw])
      | some e => exact absurd hce (h w (by simp) e)

/-- **C36** If the process succeeds and no writer fails to close, `Run` returns nil. -/
theorem C36_success (os : OS) (ctx : Ctx) (c : Command) (sp : Spawn) (h : Eff.exec sp ∈ (run os ctx c).trace)
    (hn : (os.proc sp).err = none) (hc : ∀ w e, os.closer w ≠ some (some e)) : (run os ctx c).err = none := by
  obtain ⟨-, -, -, -, -, -, ⟨made, hm⟩, -⟩ := run_exec h (parseFile_spec c.stdoutFile) (parseFile_spec c.stderrFile)
  rw [hn] at hm
  rw [hm]
  exact closeAll_none os made fun w _ e => hc w e

/-- **C36** If stdout and stderr name one file, both streams are combined there, in the order in which the process wrote. -/
theorem C36_combined (os : OS) (ctx : Ctx) (c : Command) (sp : Spawn) (h : Eff.exec sp ∈ (run os ctx c).trace)
    {f : Str} {a : Bool} (hf : f ≠ []) (ho : NamesFile c.stdoutFile f a) (he : NamesFile c.stderrFile f a) :
    sp.stdout = .file f ∧ sp.stderr = .file f ∧
    (run os ctx c).files f = some ((if a then (os.files f).getD [] else []) ++ (os.proc sp).chunks.flatMap (·.2)) := by
  obtain ⟨-, -, h1, h2, h3, -⟩ := run_exec h ho he
  have e1 : sp.stdout = .file f := by rw [h1]; simp [destOf, hf]
  have e2 : sp.stderr = .file f := by rw [h2]; simp [destOf, hf]
  refine ⟨e1, e2, ?_⟩
  rw [h3, if_pos ⟨rfl, hf⟩, bytesFor_eq, e1, e2]
  simp [routed]

/-- **C36** What is started: the named command with its arguments, or the shell with "-c" and the shell string, in `Dir`, with
`Env` added to the environment; it is started once; its standard input is the named file (as it was before the command, unless
it is also an output of the command), or else the given reader, or else nothing. -/
theorem C36_command (os : OS) (ctx : Ctx) (c : Command) (sp : Spawn) (h : Eff.exec sp ∈ (run os ctx c).trace) :
    (c.cmd ≠ [] → sp.name = c.cmd ∧ sp.args = c.args) ∧
    (c.cmd = [] → (sp.name = os.shellVar ∨ (os.shellVar = [] ∧ sp.name = "/bin/sh".toList)) ∧ sp.args = ["-c".toList, c.shell]) ∧
    sp.dir = c.dir ∧ sp.env = os.environ ++ c.env ∧
    (run os ctx c).trace.count (.exec sp) = 1 ∧ (∀ sp', Eff.exec sp' ∈ (run os ctx c).trace → sp' = sp) ∧
    (c.stdinFile ≠ [] → ∃ data, sp.stdin = .file c.stdinFile data ∧
      ((∀ a, ¬ NamesFile c.stdoutFile c.stdinFile a ∧ ¬ NamesFile c.stderrFile c.stdinFile a) → data = (os.files c.stdinFile).getD [])) ∧
    (c.stdinFile = [] → sp.stdin = match c.stdin with | some r => .rd r | none => .null) := by
  obtain ⟨-, -, -, -, -, -, -, h1, h2, h3, h4, h5, h6, h7, h8⟩ :=
    run_exec h (parseFile_spec c.stdoutFile) (parseFile_spec c.stderrFile)
  have h5' : c.stdinFile ≠ [] → ∃ data, sp.stdin = .file c.stdinFile data ∧
      ((∀ a, ¬ NamesFile c.stdoutFile c.stdinFile a ∧ ¬ NamesFile c.stderrFile c.stdinFile a) → data = (os.files c.stdinFile).getD []) := by
    intro hs
    obtain ⟨data, q1, q2⟩ := h5 hs
    refine ⟨data, q1, fun q => q2.trans (if_neg (not_or.2 ⟨fun he => ?_, fun he => ?_⟩))⟩
    · exact (q (parseFile c.stdoutFile).2).1 (by rw [he.1]; exact parseFile_spec _)
    · exact (q (parseFile c.stderrFile).2).2 (by rw [he.1]; exact parseFile_spec _)
  refine ⟨fun hc => ?_, fun hc => ?_, h3, h4, h7, h8, h5', h6⟩
  · rw [if_neg hc] at h1 h2; exact ⟨h1, h2⟩
  · rw [if_pos hc] at h1 h2
    refine ⟨?_, h2⟩
    by_cases hs : os.shellVar = []
    · rw [if_pos hs] at h1; exact .inr ⟨hs, h1⟩
    · rw [if_neg hs] at h1; exact .inl h1

/-- **C36** What a process with a standard input file gets to read: the contents of the file before the command, except that it is empty if the same file
is named as an output file of the command without `>>`. -/
theorem C36_stdin (os : OS) (ctx : Ctx) (c : Command) (sp : Spawn) (h : Eff.exec sp ∈ (run os ctx c).trace) (hi : c.stdinFile ≠ [])
    {so se : Str} {ao ae : Bool} (ho : NamesFile c.stdoutFile so ao) (he : NamesFile c.stderrFile se ae) :
    sp.stdin = .file c.stdinFile
      (if (c.stdinFile = so ∧ ao = false) ∨ (c.stdinFile = se ∧ ae = false) then [] else (os.files c.stdinFile).getD []) := by
  obtain ⟨-, -, -, -, -, -, -, -, -, -, -, h5, -⟩ := run_exec h ho he
  obtain ⟨data, q1, q2⟩ := h5 hi
  rw [q1, q2]

/-- **C36, finding.** A command that reads a file and writes the same file (`StdinFile: x`, `StdoutFile: x`) finds it empty: what it contained is lost before the process
is started, whatever the process does, and also if it cannot be started. -/
theorem C36_finding_stdin_lost (os : OS) (ctx : Ctx) (c : Command) (x : Str) (hx : x ≠ []) (hp : ¬ ['>', '>'] <+: x) (hi : c.stdinFile = x) (ho : c.stdoutFile = x)
    (he : c.stderrFile = []) (sp : Spawn) (h : Eff.exec sp ∈ (run os ctx c).trace) :
    sp.stdin = .file x [] ∧ (run os ctx c).files x = some (routed sp.stdout sp.stderr (os.proc sp).chunks (.file x)) := by
  have n1 : NamesFile c.stdoutFile x false := .inr ⟨rfl, ho.symm, ho ▸ hp⟩
  have n2 : NamesFile c.stderrFile [] false := .inr ⟨rfl, he.symm, by rw [he]; simp⟩
  refine ⟨?_, ?_⟩
  · rw [C36_stdin os ctx c sp h (by rw [hi]; exact hx) n1 n2, if_pos (.inl ⟨hi, rfl⟩), hi]
  · obtain ⟨-, -, -, -, h3, -⟩ := run_exec h n1 n2
    rw [h3, if_pos ⟨rfl, hx⟩, bytesFor_eq]; rfl

/-! ## C37 -/

/-- **C37** A named output file is afterwards: its old contents (if the name has the ">>" prefix) or nothing (if not), followed
by what the process wrote to the streams that go to it.  Every other file is as before. -/
theorem C37_append_or_replace (os : OS) (ctx : Ctx) (c : Command) (sp : Spawn) (h : Eff.exec sp ∈ (run os ctx c).trace)
    {so se : Str} {ao ae : Bool} (ho : NamesFile c.stdoutFile so ao) (he : NamesFile c.stderrFile se ae) :
    (so ≠ [] → (run os ctx c).files so =
      some ((if ao then (os.files so).getD [] else []) ++ routed sp.stdout sp.stderr (os.proc sp).chunks (.file so))) ∧
    (se ≠ [] → (run os ctx c).files se =
      some ((if ae then (os.files se).getD [] else []) ++ routed sp.stdout sp.stderr (os.proc sp).chunks (.file se))) ∧
    (∀ n, n ≠ [] → n ≠ so → n ≠ se → (run os ctx c).files n = os.files n) := by
  obtain ⟨-, hd, -, -, h3, -⟩ := run_exec h ho he
  refine ⟨fun hs => ?_, fun hs => ?_, fun n _ h1 h2 => ?_⟩
  · rw [h3, if_pos ⟨rfl, hs⟩, bytesFor_eq]
  · by_cases hq : se = so
    · subst hq
      have : ao = ae := by by_contra hne; exact hd ⟨rfl, hne⟩
      subst this
      rw [h3, if_pos ⟨rfl, hs⟩, bytesFor_eq]
    · rw [h3, if_neg (fun h => hq h.1), if_pos ⟨rfl, hs⟩, bytesFor_eq]
  · rw [h3, if_neg (fun h => h1 h.1), if_neg (fun h => h2 h.1)]

/-- **C37** If stdout and stderr name the same file but disagree about appending, the command fails before doing anything. -/
theorem C37_disagreement (os : OS) (ctx : Ctx) (c : Command) (hd : getDryRun ctx = false) {f : Str} {ao ae : Bool}
    (ho : NamesFile c.stdoutFile f ao) (he : NamesFile c.stderrFile f ae) (hne : ao ≠ ae) :
    (run os ctx c).err = some .disagree ∧ (run os ctx c).trace = [] ∧ (run os ctx c).files = os.files ∧
    ∀ w, (run os ctx c).sent w = [] := by
  unfold run
  simp only [parseFile_eq ho, parseFile_eq he, hd, Bool.false_eq_true, if_false, true_and]
  rw [if_pos hne]
  exact ⟨rfl, rfl, rfl, fun _ => rfl⟩

/-- **C37** In every other case in which all files can be opened, the process is started. -/
theorem C37_otherwise_runs (os : OS) (ctx : Ctx) (c : Command) (hd : getDryRun ctx = false) {so se : Str} {ao ae : Bool}
    (ho : NamesFile c.stdoutFile so ao) (he : NamesFile c.stderrFile se ae) (hne : so = se → ao = ae)
    (h1 : ∀ n, os.openFails n = false) (h2 : ∀ n, os.readFails n = false) : ∃ sp, Eff.exec sp ∈ (run os ctx c).trace := by
  unfold run
  simp only [parseFile_eq ho, parseFile_eq he, hd, Bool.false_eq_true, if_false]
  rw [if_neg (fun h => h.2 (hne h.1))]
  have o1 : ∀ fs n a, ∃ fs', openWrite os fs n a = some fs' := fun fs n a => ⟨_, by unfold openWrite; rw [h1]; rfl⟩
  obtain ⟨f1, hf1⟩ : ∃ f1, (if so = [] then some os.files else openWrite os os.files so ao) = some f1 := by
    split
    · exact ⟨_, rfl⟩
    · exact o1 _ _ _
  rw [hf1]
  simp only
  obtain ⟨f2, hf2⟩ : ∃ f2, (if se = [] ∨ so = se then some f1 else openWrite os f1 se ae) = some f2 := by
    split
    · exact ⟨_, rfl⟩
    · exact o1 _ _ _
  rw [hf2]
  simp only [finishRun, h2, Bool.false_eq_true, and_false, if_false]
  exact ⟨_, by simp only [List.mem_append, List.mem_singleton]; exact .inl (.inr rfl)⟩

/-- **C36** A command that returns without having started its process, other than in dry-run mode, returns an error. -/
theorem C36_not_started_reported (os : OS) (ctx : Ctx) (c : Command) (hd : getDryRun ctx = false)
    (h : ∀ sp, Eff.exec sp ∉ (run os ctx c).trace) : (run os ctx c).err ≠ none := by
  unfold run at h ⊢
  simp only [hd, Bool.false_eq_true, if_false] at h ⊢
  generalize parseFile c.stdoutFile = so at *
  generalize parseFile c.stderrFile = se at *
  by_cases h1 : so.1 = se.1 ∧ so.2 ≠ se.2
  · rw [if_pos h1]; simp
  · rw [if_neg h1] at h ⊢
    cases h2 : (if so.1 = [] then some os.files else openWrite os os.files so.1 so.2) with
    | none => simp
    | some f1 =>
      simp only [h2] at h ⊢
      cases h3 : (if se.1 = [] ∨ so.1 = se.1 then some f1 else openWrite os f1 se.1 se.2) with
      | none => simp
      | some f2 =>
        simp only [h3] at h ⊢
        unfold finishRun at h ⊢
        by_cases h4 : c.stdinFile ≠ [] ∧ os.readFails c.stdinFile = true
        · rw [if_pos h4]; simp [closeAll_keep]
        · rw [if_neg h4] at h
          exact absurd (by simp only [List.mem_append, List.mem_singleton]; exact .inl (.inr rfl)) (h _)

/-- **C37** Whether or not the process is started, no file other than the named outputs is created or changed. -/
theorem C37_nothing_else (os : OS) (ctx : Ctx) (c : Command) (n : Str)
    (h : ∀ a, ¬ NamesFile c.stdoutFile n a ∧ ¬ NamesFile c.stderrFile n a) : (run os ctx c).files n = os.files n := by
  have e1 : n ≠ (parseFile c.stdoutFile).1 := by
    intro e; exact (h (parseFile c.stdoutFile).2).1 (by rw [e]; exact parseFile_spec _)
  have e2 : n ≠ (parseFile c.stderrFile).1 := by
    intro e; exact (h (parseFile c.stderrFile).2).2 (by rw [e]; exact parseFile_spec _)
  by_cases hx : ∃ sp, Eff.exec sp ∈ (run os ctx c).trace
  · obtain ⟨sp, hsp⟩ := hx
    obtain ⟨-, -, -, -, h3, -⟩ := run_exec hsp (parseFile_spec c.stdoutFile) (parseFile_spec c.stderrFile)
    rw [h3, if_neg (fun h => e1 h.1), if_neg (fun h => e2 h.1)]
  · have key : ∀ {fs fs' : Str → Option Bytes} {m a}, n ≠ m → openWrite os fs m a = some fs' → fs' n = fs n := by
      intro fs fs' m a hm ho
      unfold openWrite at ho
      split at ho
      · cases ho
      · cases ho; simp [hm]
    unfold run at hx ⊢
    cases hd : getDryRun ctx with
    | true => simp
    | false =>
      simp only [hd, Bool.false_eq_true, if_false] at hx ⊢
      generalize parseFile c.stdoutFile = so at *
      generalize parseFile c.stderrFile = se at *
      by_cases h1 : so.1 = se.1 ∧ so.2 ≠ se.2
      · rw [if_pos h1]
      · rw [if_neg h1] at hx ⊢
        cases h2 : (if so.1 = [] then some os.files else openWrite os os.files so.1 so.2) with
        | none => rfl
        | some f1 =>
          have k1 : f1 n = os.files n := by
            split at h2
            · cases h2; rfl
            · exact key e1 h2
          simp only [h2] at hx ⊢
          cases h3 : (if se.1 = [] ∨ so.1 = se.1 then some f1 else openWrite os f1 se.1 se.2) with
          | none => exact k1
          | some f2 =>
            have k2 : f2 n = os.files n := by
              split at h3
              · cases h3; exact k1
              · rw [key e2 h3, k1]
            simp only [h3] at hx ⊢
            unfold finishRun at hx ⊢
            by_cases h4 : c.stdinFile ≠ [] ∧ os.readFails c.stdinFile = true
            · rw [if_pos h4]; exact k2
            · rw [if_neg h4] at hx
              exact absurd ⟨_, by simp only [List.mem_append, List.mem_singleton]; exact .inl (.inr rfl)⟩ hx

/-! ## C40 -/

/-- **C40** In dry-run mode a command returns nil; it starts nothing, opens or creates no file, calls no writer function and
writes nothing. -/
theorem C40_dry_run (os : OS) (ctx : Ctx) (c : Command) (hd : getDryRun ctx = true) :
    (run os ctx c).err = none ∧ (run os ctx c).trace = [] ∧ (run os ctx c).files = os.files ∧ ∀ w, (run os ctx c).sent w = [] := by
  unfold run
  simp [hd]

/-! ## Concrete cases -/

def exOS : OS where
  files := fun n => if n = "log".toList then some [1] else none
  openFails := fun _ => false
  readFails := fun _ => false
  environ := ["A=B".toList]
  shellVar := []
  proc := fun _ => ⟨[(true, [10]), (false, [20]), (true, [30])], some 7⟩
  closer := fun _ => none

-- both streams captured, the error carries them
example : (run exOS .root { shell := "x".toList }).err = some (.commandErr 7 [10, 20, 30]) := by decide +kernel
-- appending both to one file
example : (run exOS .root { shell := "x".toList, stdoutFile := ">> log".toList, stderrFile := ">>log".toList }).files "log".toList
    = some [1, 10, 20, 30] := by decide +kernel
-- stdout replaces a file, stderr is captured
example : (run exOS .root { shell := "x".toList, stdoutFile := "log".toList }).files "log".toList = some [10, 30] ∧
    (run exOS .root { shell := "x".toList, stdoutFile := "log".toList }).err = some (.commandErr 7 [20]) := by decide +kernel
-- the hypotheses of the theorems: a process is started
example : ∃ sp, Eff.exec sp ∈ (run exOS .root { shell := "x".toList, stdoutFile := ">> log".toList }).trace ∧
    NamesFile ">> log".toList "log".toList true := by
  refine ⟨⟨"/bin/sh".toList, ["-c".toList, "x".toList], [], ["A=B".toList], .null, .file "log".toList, .buf⟩, by decide +kernel, ?_⟩
  exact .inl ⟨rfl, [' '], rfl, by simp, by decide⟩
-- disagreement
/-- a case that meets the hypotheses of `C36_finding_stdin_lost`: a filter in place -/
example : ∃ sp, Eff.exec sp ∈ (run exOS .root { shell := "sort".toList, stdinFile := "log".toList, stdoutFile := "log".toList }).trace ∧
    exOS.files "log".toList ≠ some [] ∧ sp.stdin = .file "log".toList [] :=
  ⟨⟨"/bin/sh".toList, ["-c".toList, "sort".toList], [], exOS.environ, .file "log".toList [], .file "log".toList, .buf⟩, by decide +kernel, by decide +kernel, rfl⟩

/-- with `>>` it is read as it was -/
example : ∃ sp, Eff.exec sp ∈ (run exOS .root { shell := "sort".toList, stdinFile := "log".toList, stdoutFile := ">>log".toList }).trace ∧
    sp.stdin = .file "log".toList ((exOS.files "log".toList).getD []) :=
  ⟨⟨"/bin/sh".toList, ["-c".toList, "sort".toList], [], exOS.environ, .file "log".toList ((exOS.files "log".toList).getD []), .file "log".toList, .buf⟩,
    by decide +kernel, rfl⟩

example : (run exOS .root { shell := "x".toList, stdoutFile := ">> log".toList, stderrFile := "log".toList }).err = some .disagree := by
  decide +kernel

end Fab.Cmd
