import Verif.Command

/-!
# C84: a Command closes what it opens

`Cmd.run` (`Verif/Command.lean`) leaves out the closing of files.  Here are all deferred calls of `(*Command).Run`, /repo/command.go:230-347, with the
variable that each of them assigns to.  In lines 238-243 and 250-255 the closure assigns to the `err` of the enclosing block (`f, err := ...`), not to the result.
-/

namespace Fab.Cmd

/-! ## Model -/

/-- What is closed: an output file, the input file, a writer made by `StdoutFn` or `StderrFn`. -/
inductive Handle where
  | out (name : Str)
  | inp (name : Str)
  | writer (w : Wr)
deriving DecidableEq

/-- A deferred call of `Close`; `result`: whether its error is assigned to the result of `Run` (if that is nil so far). -/
structure Defer where
  h : Handle
  result : Bool

/-- The effects of `Run` with the calls of `Close`. -/
inductive CEff where
  | eff (e : Eff)
  | close (h : Handle)
deriving DecidableEq

/-- The deferred calls, the last first; `ce` are the errors of `Close`. -/
def runDefers (ce : Handle → Option Nat) : List Defer → Option CErr → List CEff × Option CErr
  | [], e => ([], e)
  | d :: ds, e =>
    let r := runDefers ce ds (if d.result then (match e with | some x => some x | none => (ce d.h).map .closing) else e)
    (.close d.h :: r.1, r.2)

/-- The deferred calls for the writers made, /repo/command.go:285-292, 298-305: only for an `io.Closer`. -/
def deferWriters (os : OS) (ws : List Wr) : List Defer :=
  ws.filterMap fun w => if (os.closer w).isSome then some ⟨.writer w, true⟩ else none

/-- `return e`, with these effects so far and these deferred calls. -/
def returnWith (ce : Handle → Option Nat) (tr : List Eff) (ds : List Defer) (e : Option CErr) : List CEff × Option CErr :=
  let r := runDefers ce ds e
  (tr.map .eff ++ r.1, r.2)

/-- The end of `Run`, /repo/command.go:329-346, with line 335: `defer f.Close()` for the standard input. -/
def finishC (os : OS) (ce : Handle → Option Nat) (c : Command) (cmdname : Str) (args : List Str) (files : Str → Option Bytes) (trace : List Eff)
    (out err : Dest) (ds : List Defer) : List CEff × Option CErr :=
  if c.stdinFile ≠ [] ∧ os.readFails c.stdinFile = true then returnWith ce trace ds (some (.opening c.stdinFile))
  else
    let src : Src := if c.stdinFile ≠ [] then .file c.stdinFile ((files c.stdinFile).getD []) else
      match c.stdin with | some r => .rd r | none => .null
    let rd : List Eff := if c.stdinFile ≠ [] then [.openedRead c.stdinFile] else []
    let ds' : List Defer := if c.stdinFile ≠ [] then ⟨.inp c.stdinFile, false⟩ :: ds else ds
    let sp : Spawn := ⟨cmdname, args, c.dir, os.environ ++ c.env, src, out, err⟩
    let o := os.proc sp
    let buf := bytesFor sp o.chunks .buf
    let e : Option CErr := match o.err with
      | none => none
      | some n => if buf ≠ [] then some (.commandErr n buf) else some (.run n)
    returnWith ce (trace ++ rd ++ [.exec sp]) ds' e

/-- `(*Command).Run`, /repo/command.go:188-347, with its deferred calls: the effects and the result. -/
def runC (os : OS) (ce : Handle → Option Nat) (ctx : Ctx) (c : Command) : List CEff × Option CErr :=
  let cmdname := if c.cmd = [] then (if os.shellVar = [] then "/bin/sh".toList else os.shellVar) else c.cmd
  let args := if c.cmd = [] then ["-c".toList, c.shell] else c.args
  if getDryRun ctx then ([], none)
  else
    let so := parseFile c.stdoutFile
    let se := parseFile c.stderrFile
    if so.1 = se.1 ∧ so.2 ≠ se.2 then ([], some .disagree)
    else
      match (if so.1 = [] then some os.files else openWrite os os.files so.1 so.2) with
      | none => ([], some (.opening so.1))
      | some files1 =>
        let tr1 : List Eff := if so.1 = [] then [] else [.opened so.1 so.2]
        -- lines 238-243, 250-255: the closure assigns to the `err` of the block
        let ds1 : List Defer := if so.1 = [] then [] else [⟨.out so.1, false⟩]
        let out1 : Option Dest := if so.1 = [] then c.stdout.map .wr else some (.file so.1)
        match (if se.1 = [] ∨ so.1 = se.1 then some files1 else openWrite os files1 se.1 se.2) with
        | none => returnWith ce tr1 ds1 (some (.opening se.1))
        | some files2 =>
          let tr2 : List Eff := if se.1 = [] ∨ so.1 = se.1 then tr1 else tr1 ++ [.opened se.1 se.2]
          -- lines 270, 278: `defer f.Close()`
          let ds2 : List Defer := if se.1 = [] ∨ so.1 = se.1 then ds1 else ⟨.out se.1, false⟩ :: ds1
          let err1 : Option Dest := if se.1 = [] then c.stderr.map .wr else if so.1 = se.1 then out1 else some (.file se.1)
          let f1 := tryFn ctx true out1 c.stdoutFn
          let f2 := tryFn ctx false err1 c.stderrFn
          let out2 := f1.2.1.getD (if getVerbose ctx then .wr .indentOut else .buf)
          let err2 := f2.2.1.getD (if getVerbose ctx then .wr .indentErr else .buf)
          finishC os ce c cmdname args files2 (tr2 ++ f1.1 ++ f2.1) out2 err2
            (deferWriters os (f2.2.2 ++ f1.2.2) ++ ds2)

/-! ## Specification -/

/-- How often the thing was opened (or made) by the command: files as the effects say; a writer for each function that was called and yielded it, if it is an `io.Closer`. -/
def opens (os : OS) (ctx : Ctx) (c : Command) (tr : List CEff) : Handle → Nat
  | .out n => tr.countP fun x => match x with | .eff (.opened m _) => m == n | _ => false
  | .inp n => tr.countP fun x => match x with | .eff (.openedRead m) => m == n | _ => false
  | .writer w => if (os.closer w).isSome then
      tr.countP fun x => match x with
        | .eff (.called isOut) => (if isOut then c.stdoutFn else c.stderrFn).bind (· ctx) == some w
        | _ => false
    else 0

def CEff.isClose : CEff → Bool
  | .close _ => true
  | .eff _ => false

/-- The effects as in `Verif/Command.lean`, which has the closing of writers only. -/
def CEff.erase : CEff → Option Eff
  | .eff e => some e
  | .close (.writer w) => some (.closed w)
  | .close _ => none

/-! ## Lemmas -/

theorem runDefers_trace (ce : Handle → Option Nat) (ds : List Defer) (e : Option CErr) : (runDefers ce ds e).1 = ds.map fun d => .close d.h := by
  induction ds generalizing e with
  | nil => rfl
  | cons d ds ih => simp only [runDefers, ih, List.map_cons]

theorem runDefers_silent (ce : Handle → Option Nat) (ds : List Defer) (h : ∀ d ∈ ds, d.result = false) (e : Option CErr) : (runDefers ce ds e).2 = e := by
  induction ds generalizing e with
  | nil => rfl
  | cons d ds ih => simp only [runDefers, h d (by simp), Bool.false_eq_true, if_false]; exact ih (fun d hd => h d (by simp [hd])) e

/-- What every return of `Run` looks like: effects, then the deferred calls. -/
theorem returnWith_eq (ce : Handle → Option Nat) (tr : List Eff) (ds : List Defer) (e : Option CErr) :
    returnWith ce tr ds e = (tr.map .eff ++ ds.map (fun d => .close d.h), (runDefers ce ds e).2) := by
  simp only [returnWith, runDefers_trace]

theorem opens_append (os : OS) (ctx : Ctx) (c : Command) (a b : List CEff) (h : Handle) : opens os ctx c (a ++ b) h = opens os ctx c a h + opens os ctx c b h := by
  cases h with
  | out n => simp only [opens, List.countP_append]
  | inp n => simp only [opens, List.countP_append]
  | writer w =>
    simp only [opens, List.countP_append]
    split <;> rfl

/-- The deferred calls are those for what the effects opened. -/
structure Fits (os : OS) (ctx : Ctx) (c : Command) (tr : List Eff) (ds : List Defer) : Prop where
  count : ∀ h, (ds.countP fun d => d.h == h) = opens os ctx c (tr.map .eff) h
  result : ∀ d ∈ ds, d.result = true ↔ ∃ w, d.h = .writer w

section
variable {os : OS} {ctx : Ctx} {c : Command}

theorem Fits.append {tr tr' : List Eff} {ds ds' : List Defer} (h : Fits os ctx c tr ds) (h' : Fits os ctx c tr' ds') : Fits os ctx c (tr ++ tr') (ds' ++ ds) := by
  refine ⟨fun x => ?_, fun d hd => ?_⟩
  · rw [List.countP_append, List.map_append, opens_append, h.count, h'.count, Nat.add_comm]
  · rcases List.mem_append.1 hd with hd | hd
    · exact h'.result d hd
    · exact h.result d hd

theorem Fits.nil : Fits os ctx c [] [] := ⟨fun h => by cases h <;> simp [opens], by simp⟩
theorem Fits.opened (n : Str) (a : Bool) : Fits os ctx c [.opened n a] [⟨.out n, false⟩] := by
  refine ⟨fun h => ?_, by simp⟩
  cases h <;> simp [opens, List.countP_cons]
theorem Fits.openedRead (n : Str) : Fits os ctx c [.openedRead n] [⟨.inp n, false⟩] := by
  refine ⟨fun h => ?_, by simp⟩
  cases h <;> simp [opens, List.countP_cons]
theorem Fits.exec (sp : Spawn) : Fits os ctx c [.exec sp] [] := by
  refine ⟨fun h => ?_, by simp⟩
  cases h <;> simp [opens]

theorem Fits.tryFn (isOut : Bool) (cur : Option Dest) :
    Fits os ctx c (tryFn ctx isOut cur (if isOut then c.stdoutFn else c.stderrFn)).1
      (deferWriters os (Cmd.tryFn ctx isOut cur (if isOut then c.stdoutFn else c.stderrFn)).2.2) := by
  generalize hf : (if isOut then c.stdoutFn else c.stderrFn) = fn
  unfold Cmd.tryFn
  split
  · rename_i f
    split
    · rename_i w hw
      refine ⟨fun h => ?_, ?_⟩
      · cases h with
        | writer w' =>
          simp only [opens, deferWriters, List.map_cons, List.map_nil, List.countP_cons, List.countP_nil, hw, hf, Option.bind_some]
          by_cases hc : (os.closer w).isSome = true
          · by_cases he : w = w'
            · subst he; simp [hc]
            · simp [hc, he]
          · by_cases he : w = w'
            · subst he; simp [hc]
            · simp [hc, he]
        | _ => by_cases hc : (os.closer w).isSome = true <;> simp [opens, deferWriters, hc]
      · intro d hd
        simp only [deferWriters, List.mem_filterMap] at hd
        obtain ⟨a, -, ha⟩ := hd
        split at ha
        · cases ha; simp
        · cases ha
    · rename_i hw
      refine ⟨fun h => ?_, by simp [deferWriters]⟩
      cases h <;> simp [opens, deferWriters, hf, hw]
  · exact Fits.nil

theorem deferWriters_append (a b : List Wr) : deferWriters os (a ++ b) = deferWriters os a ++ deferWriters os b := by simp [deferWriters]

theorem closeAll_eq (ce : Handle → Option Nat) (hce : ∀ w e, os.closer w = some e → ce (.writer w) = e) (ds2 : List Defer) (h2 : ∀ d ∈ ds2, d.result = false)
    (h2' : ∀ d ∈ ds2, ∀ w, d.h ≠ .writer w) (ws : List Wr) (e : Option CErr) :
    ((deferWriters os ws ++ ds2).map (fun d => CEff.close d.h)).filterMap CEff.erase = (closeAll os ws e).1 ∧
      (runDefers ce (deferWriters os ws ++ ds2) e).2 = (closeAll os ws e).2 := by
  induction ws generalizing e with
  | nil =>
    refine ⟨?_, runDefers_silent ce ds2 h2 e⟩
    simp only [deferWriters, List.filterMap_nil, List.nil_append, closeAll, List.filterMap_map]
    rw [List.filterMap_eq_nil_iff]
    intro d hd
    have := h2' d hd
    show CEff.erase (.close d.h) = none
    cases hh : d.h with
    | writer w => exact absurd hh (this w)
    | _ => rfl
  | cons w ws ih =>
    unfold closeAll
    split
    · rename_i hn
      have : deferWriters os (w :: ws) = deferWriters os ws := by simp [deferWriters, hn]
      rw [this]
      exact ih e
    · rename_i x hx
      have : deferWriters os (w :: ws) = ⟨.writer w, true⟩ :: deferWriters os ws := by simp [deferWriters, hx]
      rw [this, List.cons_append, List.map_cons]
      dsimp only
      obtain ⟨i1, i2⟩ := ih (match e with | some x => some x | none => x.map CErr.closing)
      constructor
      · rw [List.filterMap_cons]
        simp only [CEff.erase]
        rw [i1]
        cases e <;> rfl
      · simp only [runDefers, if_true, hce w x hx]
        exact i2


theorem exec_err (p : Prop) [Decidable p] (m : Nat) (buf : Bytes) (n : Nat) : (if p then some (CErr.commandErr m buf) else some (.run m)) ≠ some (.closing n) := by
  split <;> simp

/-- What every way through `Run` comes to. -/
theorem runC_shape' (os : OS) (ctx : Ctx) (c : Command) :
    ∃ tr ds e, (∀ ce, runC os ce ctx c = returnWith ce tr ds e) ∧ Fits os ctx c tr ds ∧ ∀ n, e ≠ some (.closing n) := by
  unfold runC
  dsimp only
  by_cases hd : getDryRun ctx = true
  · simp only [if_pos hd]
    exact ⟨[], [], none, fun _ => rfl, Fits.nil, by simp⟩
  simp only [if_neg hd]
  by_cases hdis : (parseFile c.stdoutFile).1 = (parseFile c.stderrFile).1 ∧ (parseFile c.stdoutFile).2 ≠ (parseFile c.stderrFile).2
  · simp only [if_pos hdis]
    exact ⟨[], [], _, fun _ => rfl, Fits.nil, by simp⟩
  simp only [if_neg hdis]
  generalize (if (parseFile c.stdoutFile).1 = [] then some os.files else openWrite os os.files (parseFile c.stdoutFile).1 (parseFile c.stdoutFile).2) = x1
  cases x1 with
  | none => exact ⟨[], [], _, fun _ => rfl, Fits.nil, by simp⟩
  | some files1 =>
  have f1 : Fits os ctx c (if (parseFile c.stdoutFile).1 = [] then [] else [.opened (parseFile c.stdoutFile).1 (parseFile c.stdoutFile).2])
      (if (parseFile c.stdoutFile).1 = [] then [] else [⟨.out (parseFile c.stdoutFile).1, false⟩]) := by
    split
    · exact Fits.nil
    · exact Fits.opened _ _
  dsimp only
  generalize (if (parseFile c.stdoutFile).1 = [] then ([] : List Eff) else [.opened (parseFile c.stdoutFile).1 (parseFile c.stdoutFile).2]) = tr1 at f1 ⊢
  generalize (if (parseFile c.stdoutFile).1 = [] then ([] : List Defer) else [⟨.out (parseFile c.stdoutFile).1, false⟩]) = ds1 at f1 ⊢
  generalize (if (parseFile c.stderrFile).1 = [] ∨ (parseFile c.stdoutFile).1 = (parseFile c.stderrFile).1 then some files1
    else openWrite os files1 (parseFile c.stderrFile).1 (parseFile c.stderrFile).2) = x2
  cases x2 with
  | none => exact ⟨_, _, _, fun _ => rfl, f1, by simp⟩
  | some files2 =>
  have f2 : Fits os ctx c (if (parseFile c.stderrFile).1 = [] ∨ (parseFile c.stdoutFile).1 = (parseFile c.stderrFile).1 then tr1
        else tr1 ++ [.opened (parseFile c.stderrFile).1 (parseFile c.stderrFile).2])
      (if (parseFile c.stderrFile).1 = [] ∨ (parseFile c.stdoutFile).1 = (parseFile c.stderrFile).1 then ds1 else ⟨.out (parseFile c.stderrFile).1, false⟩ :: ds1) := by
    split
    · exact f1
    · exact f1.append (Fits.opened _ _)
  dsimp only
  generalize (if (parseFile c.stderrFile).1 = [] ∨ (parseFile c.stdoutFile).1 = (parseFile c.stderrFile).1 then tr1
        else tr1 ++ [.opened (parseFile c.stderrFile).1 (parseFile c.stderrFile).2]) = tr2 at f2 ⊢
  generalize (if (parseFile c.stderrFile).1 = [] ∨ (parseFile c.stdoutFile).1 = (parseFile c.stderrFile).1 then ds1
        else (⟨.out (parseFile c.stderrFile).1, false⟩ : Defer) :: ds1) = ds2 at f2 ⊢
  generalize (if (parseFile c.stdoutFile).1 = [] then c.stdout.map Dest.wr else some (.file (parseFile c.stdoutFile).1)) = o1
  generalize (if (parseFile c.stderrFile).1 = [] then c.stderr.map Dest.wr else
    if (parseFile c.stdoutFile).1 = (parseFile c.stderrFile).1 then o1 else some (.file (parseFile c.stderrFile).1)) = e1
  have g1 := Fits.tryFn (os := os) (ctx := ctx) (c := c) true o1
  have g2 := Fits.tryFn (os := os) (ctx := ctx) (c := c) false e1
  simp only [if_true, Bool.false_eq_true, if_false] at g1 g2
  have f3 := (f2.append g1).append g2
  rw [← List.append_assoc, ← deferWriters_append] at f3
  generalize tr2 ++ (tryFn ctx true o1 c.stdoutFn).1 ++ (tryFn ctx false e1 c.stderrFn).1 = tr3 at f3 ⊢
  generalize deferWriters os ((tryFn ctx false e1 c.stderrFn).2.2 ++ (tryFn ctx true o1 c.stdoutFn).2.2) ++ ds2 = ds3 at f3 ⊢
  unfold finishC
  by_cases hrf : c.stdinFile ≠ [] ∧ os.readFails c.stdinFile = true
  · simp only [if_pos hrf]
    exact ⟨_, _, _, fun _ => rfl, f3, by simp⟩
  · simp only [if_neg hrf]
    refine ⟨_, _, _, fun _ => rfl, ?_, ?_⟩
    rotate_left
    · intro n
      split
      · simp
      · exact exec_err _ _ _ _
    by_cases hs : c.stdinFile = []
    · simp only [hs, ne_eq, not_true_eq_false, if_false, List.append_nil]
      exact f3.append (Fits.exec _)
    · simp only [ne_eq, hs, not_false_eq_true, if_true]
      exact (f3.append (Fits.openedRead _)).append (Fits.exec _)

theorem runC_shape (os : OS) (ce : Handle → Option Nat) (ctx : Ctx) (c : Command) :
    ∃ tr ds e, runC os ce ctx c = returnWith ce tr ds e ∧ Fits os ctx c tr ds ∧ ∀ n, e ≠ some (.closing n) := by
  obtain ⟨tr, ds, e, h, hf⟩ := runC_shape' os ctx c
  exact ⟨tr, ds, e, h ce, hf⟩

end

/-- Number of calls of `Close` on this thing. -/
def closes (tr : List CEff) (h : Handle) : Nat := tr.count (.close h)

theorem filterMap_eff (tr : List Eff) : (tr.map CEff.eff).filterMap CEff.erase = tr := by
  induction tr with
  | nil => rfl
  | cons x tr ih => rw [List.map_cons, List.filterMap_cons]; simp only [CEff.erase, ih]

theorem returnWith_agrees (os : OS) (ce : Handle → Option Nat) (hce : ∀ w e, os.closer w = some e → ce (.writer w) = e) (tr : List Eff) (ds2 : List Defer)
    (h2 : ∀ d ∈ ds2, d.result = false ∧ ∀ w, d.h ≠ .writer w) (ws : List Wr) (e : Option CErr) :
    (returnWith ce tr (deferWriters os ws ++ ds2) e).1.filterMap CEff.erase = tr ++ (closeAll os ws e).1 ∧
      (returnWith ce tr (deferWriters os ws ++ ds2) e).2 = (closeAll os ws e).2 := by
  obtain ⟨i1, i2⟩ := closeAll_eq ce hce ds2 (fun d hd => (h2 d hd).1) (fun d hd => (h2 d hd).2) ws e
  rw [returnWith_eq]
  refine ⟨?_, i2⟩
  rw [List.filterMap_append, filterMap_eff, i1]

/-- The input file is closed before the writers. -/
theorem returnWith_agrees_inp (os : OS) (ce : Handle → Option Nat) (hce : ∀ w e, os.closer w = some e → ce (.writer w) = e) (tr : List Eff) (ds2 : List Defer)
    (h2 : ∀ d ∈ ds2, d.result = false ∧ ∀ w, d.h ≠ .writer w) (ws : List Wr) (e : Option CErr) (n : Str) :
    (returnWith ce tr (⟨.inp n, false⟩ :: (deferWriters os ws ++ ds2)) e).1.filterMap CEff.erase = tr ++ (closeAll os ws e).1 ∧
      (returnWith ce tr (⟨.inp n, false⟩ :: (deferWriters os ws ++ ds2)) e).2 = (closeAll os ws e).2 := by
  obtain ⟨i1, i2⟩ := closeAll_eq ce hce ds2 (fun d hd => (h2 d hd).1) (fun d hd => (h2 d hd).2) ws e
  rw [returnWith_eq]
  refine ⟨?_, by simpa [runDefers] using i2⟩
  rw [List.filterMap_append, filterMap_eff, List.map_cons, List.filterMap_cons]
  simp only [CEff.erase]
  rw [i1]

theorem runDefers_err (ce : Handle → Option Nat) (ds : List Defer) (x : CErr) : (runDefers ce ds (some x)).2 = some x := by
  induction ds with
  | nil => rfl
  | cons d ds ih => simp only [runDefers, ite_self, ih]

theorem runDefers_first (ce : Handle → Option Nat) (ds : List Defer) :
    (runDefers ce ds none).2 = (ds.findSome? fun d => if d.result then ce d.h else none).map .closing := by
  induction ds with
  | nil => rfl
  | cons d ds ih =>
    simp only [runDefers, List.findSome?_cons]
    cases hr : d.result with
    | false => simpa using ih
    | true =>
      cases hc : ce d.h with
      | none => simpa using ih
      | some n => simp [runDefers_err]

/-! ## Theorems -/

/-- This model and that of `Verif/Command.lean` are of the same function: without the closing of files, the effects are the same, and the results are the same. -/
theorem runC_agrees (os : OS) (ce : Handle → Option Nat) (hce : ∀ w e, os.closer w = some e → ce (.writer w) = e) (ctx : Ctx) (c : Command) :
    (runC os ce ctx c).1.filterMap CEff.erase = (run os ctx c).trace ∧ (runC os ce ctx c).2 = (run os ctx c).err := by
  unfold runC run
  dsimp only
  by_cases hd : getDryRun ctx = true
  · rw [if_pos hd, if_pos hd]; exact ⟨rfl, rfl⟩
  simp only [if_neg hd]
  by_cases hdis : (parseFile c.stdoutFile).1 = (parseFile c.stderrFile).1 ∧ (parseFile c.stdoutFile).2 ≠ (parseFile c.stderrFile).2
  · rw [if_pos hdis, if_pos hdis]; exact ⟨rfl, rfl⟩
  simp only [if_neg hdis]
  generalize (if (parseFile c.stdoutFile).1 = [] then some os.files else openWrite os os.files (parseFile c.stdoutFile).1 (parseFile c.stdoutFile).2) = x1
  cases x1 with
  | none => exact ⟨rfl, rfl⟩
  | some files1 =>
  dsimp only
  have q1 : ∀ d ∈ (if (parseFile c.stdoutFile).1 = [] then ([] : List Defer) else [⟨.out (parseFile c.stdoutFile).1, false⟩]), d.result = false ∧ ∀ w, d.h ≠ .writer w := by
    split <;> simp
  generalize (if (parseFile c.stdoutFile).1 = [] then ([] : List Defer) else [⟨.out (parseFile c.stdoutFile).1, false⟩]) = ds1 at q1 ⊢
  generalize (if (parseFile c.stdoutFile).1 = [] then ([] : List Eff) else [.opened (parseFile c.stdoutFile).1 (parseFile c.stdoutFile).2]) = tr1
  generalize (if (parseFile c.stderrFile).1 = [] ∨ (parseFile c.stdoutFile).1 = (parseFile c.stderrFile).1 then some files1
    else openWrite os files1 (parseFile c.stderrFile).1 (parseFile c.stderrFile).2) = x2
  cases x2 with
  | none =>
    have := returnWith_agrees os ce hce tr1 ds1 q1 [] (some (.opening (parseFile c.stderrFile).1))
    simpa [closeAll, deferWriters] using this
  | some files2 =>
  dsimp only
  have q2 : ∀ d ∈ (if (parseFile c.stderrFile).1 = [] ∨ (parseFile c.stdoutFile).1 = (parseFile c.stderrFile).1 then ds1
      else (⟨.out (parseFile c.stderrFile).1, false⟩ : Defer) :: ds1), d.result = false ∧ ∀ w, d.h ≠ .writer w := by
    split
    · exact q1
    · intro d hd
      rcases List.mem_cons.1 hd with rfl | hd
      · simp
      · exact q1 d hd
  generalize (if (parseFile c.stderrFile).1 = [] ∨ (parseFile c.stdoutFile).1 = (parseFile c.stderrFile).1 then ds1
        else (⟨.out (parseFile c.stderrFile).1, false⟩ : Defer) :: ds1) = ds2 at q2 ⊢
  generalize (if (parseFile c.stderrFile).1 = [] ∨ (parseFile c.stdoutFile).1 = (parseFile c.stderrFile).1 then tr1
        else tr1 ++ [.opened (parseFile c.stderrFile).1 (parseFile c.stderrFile).2]) = tr2
  generalize (if (parseFile c.stdoutFile).1 = [] then c.stdout.map Dest.wr else some (.file (parseFile c.stdoutFile).1)) = o1
  generalize (if (parseFile c.stderrFile).1 = [] then c.stderr.map Dest.wr else
    if (parseFile c.stdoutFile).1 = (parseFile c.stderrFile).1 then o1 else some (.file (parseFile c.stderrFile).1)) = e1
  generalize tr2 ++ (tryFn ctx true o1 c.stdoutFn).1 ++ (tryFn ctx false e1 c.stderrFn).1 = tr3
  generalize (tryFn ctx false e1 c.stderrFn).2.2 ++ (tryFn ctx true o1 c.stdoutFn).2.2 = ws
  unfold finishC finishRun
  by_cases hrf : c.stdinFile ≠ [] ∧ os.readFails c.stdinFile = true
  · simp only [if_pos hrf]
    exact returnWith_agrees os ce hce _ ds2 q2 ws _
  · simp only [if_neg hrf]
    by_cases hs : c.stdinFile = []
    · simp only [hs, ne_eq, not_true_eq_false, if_false, List.append_nil]
      exact returnWith_agrees os ce hce _ ds2 q2 ws _
    · simp only [ne_eq, hs, not_false_eq_true, if_true]
      exact returnWith_agrees_inp os ce hce _ ds2 q2 ws _ _

/-- **C84.** Whatever a command opens, it closes exactly once: its output files, its input file, and the writers made by `StdoutFn` and `StderrFn` that are `io.Closer`s, and
it closes nothing else (in particular not the `Stdout` and `Stderr` that the caller gave).  This holds for every command, system, context, and on every way out of `Run`. -/
theorem C84_closed (os : OS) (ce : Handle → Option Nat) (ctx : Ctx) (c : Command) (h : Handle) :
    closes (runC os ce ctx c).1 h = opens os ctx c (runC os ce ctx c).1 h := by
  obtain ⟨tr, ds, e, hr, hf, -⟩ := runC_shape os ce ctx c
  rw [hr, returnWith_eq]
  dsimp only
  have h1 : opens os ctx c (ds.map fun d => CEff.close d.h) h = 0 := by
    cases h <;> simp [opens, List.countP_eq_zero]
  have h2 : (tr.map CEff.eff).count (.close h) = 0 := by simp [List.count_eq_zero]
  rw [opens_append, h1, Nat.add_zero, ← hf.count h, closes, List.count_append, h2, Nat.zero_add, List.count_eq_countP, List.countP_map]
  congr 1
  funext d
  by_cases hd : d.h = h <;> simp [hd]

/-- **C84.** Nothing is closed while it may still be used: all calls of `Close` come after everything else, in particular after the process ended. -/
theorem C84_after (os : OS) (ce : Handle → Option Nat) (ctx : Ctx) (c : Command) :
    ∃ a b, (runC os ce ctx c).1 = a ++ b ∧ (∀ x ∈ a, x.isClose = false) ∧ ∀ x ∈ b, x.isClose = true := by
  obtain ⟨tr, ds, e, hr, hf, -⟩ := runC_shape os ce ctx c
  rw [hr, returnWith_eq]
  refine ⟨_, _, rfl, ?_, ?_⟩
  · intro x hx; obtain ⟨y, -, rfl⟩ := List.mem_map.1 hx; rfl
  · intro x hx; obtain ⟨y, -, rfl⟩ := List.mem_map.1 hx; rfl

/-- **C84 (partial).** An error of closing a writer made by `StdoutFn` or `StderrFn` is reported unless there is another error.  For the files see `C84_counterexample_output_lost`. -/
theorem C84_reported_partial (os : OS) (ce : Handle → Option Nat) (ctx : Ctx) (c : Command) (w : Wr) (n : Nat) (hc : CEff.close (.writer w) ∈ (runC os ce ctx c).1)
    (hn : ce (.writer w) = some n) : (runC os ce ctx c).2 ≠ none := by
  obtain ⟨tr, ds, e, hr, hf, -⟩ := runC_shape os ce ctx c
  rw [hr, returnWith_eq] at hc ⊢
  dsimp only at hc ⊢
  cases e with
  | some x => rw [runDefers_err]; simp
  | none =>
    rw [runDefers_first]
    rcases List.mem_append.1 hc with hc | hc
    · simp at hc
    · obtain ⟨d, hd, hdh⟩ := List.mem_map.1 hc
      have hh : d.h = .writer w := by simpa using hdh
      intro h0
      rw [Option.map_eq_none_iff, List.findSome?_eq_none_iff] at h0
      have := h0 d hd
      rw [if_pos ((hf.result d hd).2 ⟨w, hh⟩), hh, hn] at this
      cases this

/-- **C84.** An error of closing is never made up: it is the error of a writer that was closed. -/
theorem C84_true (os : OS) (ce : Handle → Option Nat) (ctx : Ctx) (c : Command) (n : Nat) (h : (runC os ce ctx c).2 = some (.closing n)) :
    ∃ w, CEff.close (.writer w) ∈ (runC os ce ctx c).1 ∧ ce (.writer w) = some n := by
  obtain ⟨tr, ds, e, hr, hf, he⟩ := runC_shape os ce ctx c
  rw [hr, returnWith_eq] at h ⊢
  dsimp only at h ⊢
  cases e with
  | some x => rw [runDefers_err] at h; cases h; exact absurd rfl (he n)
  | none =>
    rw [runDefers_first, Option.map_eq_some_iff] at h
    obtain ⟨m, hm, hmn⟩ := h
    cases hmn
    obtain ⟨d, hd, hd'⟩ := List.exists_of_findSome?_eq_some hm
    split at hd'
    · rename_i hr'
      obtain ⟨w, hw⟩ := (hf.result d hd).1 hr'
      exact ⟨w, List.mem_append_right _ (List.mem_map.2 ⟨d, hd, by rw [hw]⟩), by rw [← hw]; exact hd'⟩
    · cases hd'

/-- **C84, finding.** What `Close` says of a file never reaches the caller: two systems that differ in that only cannot be told apart. -/
theorem C84_finding_files (os : OS) (ce ce' : Handle → Option Nat) (hw : ∀ w, ce (.writer w) = ce' (.writer w)) (ctx : Ctx) (c : Command) :
    runC os ce ctx c = runC os ce' ctx c := by
  obtain ⟨tr, ds, e, hr, hf, -⟩ := runC_shape' os ctx c
  rw [hr ce, hr ce', returnWith_eq, returnWith_eq]
  congr 1
  cases e with
  | some x => rw [runDefers_err, runDefers_err]
  | none =>
    rw [runDefers_first, runDefers_first]
    congr 1
    clear hr
    have hf' := hf.result
    clear hf
    induction ds with
    | nil => rfl
    | cons d ds ih =>
      simp only [List.findSome?_cons]
      rw [ih fun d hd => hf' d (by simp [hd])]
      cases hr : d.result with
      | false => rfl
      | true =>
        obtain ⟨w, hw'⟩ := (hf' d (by simp)).1 hr
        simp only [if_true, hw', hw]

/-! ## Concrete cases -/

/-- The process succeeds; every writer is an `io.Closer` without error. -/
def closeOS : OS := { exOS with proc := fun _ => ⟨[(true, [10]), (false, [20])], none⟩, closer := fun _ => some none }

/-- Standard output to a file, standard error to a writer made by a function, standard input from a file. -/
def closeCmd : Command :=
  { shell := "x".toList, stdoutFile := "out".toList, stderrFn := some fun _ => some (.ext 1), stdinFile := "log".toList }

-- everything is closed, last opened first
example : (runC closeOS (fun _ => none) .root closeCmd).1.filter CEff.isClose = [.close (.inp "log".toList), .close (.writer (.ext 1)), .close (.out "out".toList)] := by
  decide +kernel
example : opens closeOS .root closeCmd (runC closeOS (fun _ => none) .root closeCmd).1 (.writer (.ext 1)) = 1 := by decide +kernel
-- a writer that the caller gave is not closed
example : (runC closeOS (fun _ => none) .root { shell := "x".toList, stdout := some (.ext 1) }).1.filter CEff.isClose = [] := by decide +kernel
-- an error of a writer is reported
example : (runC closeOS (fun h => if h = .writer (.ext 1) then some 5 else none) .root closeCmd).2 = some (.closing 5) := by decide +kernel
-- the output file is closed also when the error file cannot be opened
example : (runC { closeOS with openFails := fun n => n == "e".toList } (fun _ => none) .root { closeCmd with stderrFile := "e".toList }).1 =
    [.eff (.opened "out".toList false), .close (.out "out".toList)] := by decide +kernel

/-- **C84, counterexample.** The command's output may be lost (`Close` of the output file fails: a full disk, say) and `Run` reports success. -/
theorem C84_counterexample_output_lost :
    ∃ (os : OS) (ce : Handle → Option Nat) (c : Command), CEff.close (.out "out".toList) ∈ (runC os ce .root c).1 ∧ ce (.out "out".toList) = some 28 ∧
      (runC os ce .root c).2 = none :=
  ⟨closeOS, fun h => if h = .out "out".toList then some 28 else none, closeCmd, by decide +kernel, by decide +kernel, by decide +kernel⟩

end Fab.Cmd
