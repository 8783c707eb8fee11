import Verif.Yaml.Read

/-!
# C38, C39: commands in YAML
-/

namespace Fab.Yaml
open Path Cmd

/-! ## Specification -/

/-- Where the field Stdout (or Stderr) of a YAML Command says that the output goes; `path` is the file that the field names if it
is not one of the special words, and `indent` the indented standard output (or standard error). -/
def fieldDest (ctx : Ctx) (v : Str) (indent : Wr) (path : Str) : Dest :=
  if v = "$stdout".toList then .wr .osStdout
  else if v = "$stderr".toList then .wr .osStderr
  else if v = "$discard".toList then .wr .discard
  else if v = "$indent".toList then .wr indent
  else if v = "$verbose".toList ∨ v = [] then (if getVerbose ctx then .wr indent else .buf)
  else .file path

/-- The field names a file. -/
def IsFile (v : Str) : Prop :=
  v ≠ [] ∧ v ≠ "$stdout".toList ∧ v ≠ "$stderr".toList ∧ v ≠ "$discard".toList ∧ v ≠ "$indent".toList ∧ v ≠ "$verbose".toList

/-! ## Lemmas -/

theorem joinPath_abs {top : Str} (ht : isAbs top = true) (es : List Str) : isAbs (joinPath top es) = true := by
  rcases C19_cases es with h | ⟨pre, a, post, rfl, ha, hp⟩
  · rw [C19_relative top es h]; exact join_abs ht es
  · rw [C19_absolute top pre a post ha hp]; exact join_abs ha post

theorem abs_not_gt {s : Str} (h : isAbs s = true) : ¬ ['>', '>'] <+: s ∧ s ≠ [] ∧ ∀ c, s.head? = some c → c ≠ '>' ∧ c ≠ ' ' := by
  cases s with
  | nil => cases h
  | cons x s =>
    have hx : x = '/' := by simpa [isAbs] using h
    subst hx
    refine ⟨?_, by simp, ?_⟩
    · rintro ⟨t, ht⟩; cases ht
    · intro c hc; injection hc with hc; subst hc; decide

theorem outField_eq (L : Lib) (dir v : Str) (i : Wr) (app : Bool) :
    (IsFile v → outField L dir v i app = (none, none, if app && !(['>', '>'].isPrefixOf (joinPath L.top [dir, v])) then ['>', '>'] ++ joinPath L.top [dir, v] else joinPath L.top [dir, v])) ∧
    (¬ IsFile v → (outField L dir v i app).2.2 = [] ∧ ∀ b, outField L dir v i b = outField L dir v i app) := by
  constructor
  · rintro ⟨h1, h2, h3, h4, h5, h6⟩
    unfold outField
    rw [if_neg h2, if_neg h3, if_neg h4, if_neg h5, if_neg h6, if_neg h1]
  · intro h
    unfold outField
    by_cases h2 : v = "$stdout".toList
    · simp only [if_pos h2]; exact ⟨trivial, fun _ => trivial⟩
    by_cases h3 : v = "$stderr".toList
    · simp only [if_neg h2, if_pos h3]; exact ⟨trivial, fun _ => trivial⟩
    by_cases h4 : v = "$discard".toList
    · simp only [if_neg h2, if_neg h3, if_pos h4]; exact ⟨trivial, fun _ => trivial⟩
    by_cases h5 : v = "$indent".toList
    · simp only [if_neg h2, if_neg h3, if_neg h4, if_pos h5]; exact ⟨trivial, fun _ => trivial⟩
    by_cases h6 : v = "$verbose".toList
    · simp only [if_neg h2, if_neg h3, if_neg h4, if_neg h5, if_pos h6]; exact ⟨trivial, fun _ => trivial⟩
    by_cases h1 : v = []
    · simp only [if_neg h2, if_neg h3, if_neg h4, if_neg h5, if_neg h6, if_pos h1]; exact ⟨trivial, fun _ => trivial⟩
    exact absurd ⟨h1, h2, h3, h4, h5, h6⟩ h

/-- the file that a field names -/
theorem outField_names (L : Lib) (ht : isAbs L.top = true) (dir v : Str) (i : Wr) (app : Bool) :
    (IsFile v → NamesFile (outField L dir v i app).2.2 (joinPath L.top [dir, v]) app ∧ joinPath L.top [dir, v] ≠ []) ∧
    (¬ IsFile v → NamesFile (outField L dir v i app).2.2 [] false) := by
  have ha := abs_not_gt (joinPath_abs ht [dir, v])
  have hp : ['>', '>'].isPrefixOf (joinPath L.top [dir, v]) = false := by
    rw [Bool.eq_false_iff]; intro h; exact ha.1 (List.isPrefixOf_iff_prefix.1 h)
  constructor
  · intro h
    rw [(outField_eq L dir v i app).1 h, hp]
    refine ⟨?_, ha.2.1⟩
    cases app with
    | true => exact .inl ⟨rfl, [], by simp, by simp, ha.2.2⟩
    | false => exact .inr ⟨rfl, by simp, by simpa using ha.1⟩
  · intro h
    rw [((outField_eq L dir v i app).2 h).1]
    exact .inr ⟨rfl, rfl, by simp⟩

theorem outField_dest (L : Lib) (ht : isAbs L.top = true) (ctx : Ctx) (dir v : Str) (i : Wr) (app : Bool) (f : Str)
    (hf : (IsFile v ∧ f = joinPath L.top [dir, v]) ∨ (¬ IsFile v ∧ f = [])) :
    destOf ctx f (outField L dir v i app).1 (outField L dir v i app).2.1 i = fieldDest ctx v i (joinPath L.top [dir, v]) := by
  rcases hf with ⟨h, rfl⟩ | ⟨h, rfl⟩
  · have ha := abs_not_gt (joinPath_abs ht [dir, v])
    obtain ⟨h1, h2, h3, h4, h5, h6⟩ := h
    unfold fieldDest destOf
    rw [if_pos ha.2.1, if_neg h2, if_neg h3, if_neg h4, if_neg h5, if_neg (by rintro (h | h); exacts [h6 h, h1 h])]
  · unfold fieldDest destOf outField
    rw [if_neg (by simp)]
    by_cases h2 : v = "$stdout".toList
    · simp only [if_pos h2]
    by_cases h3 : v = "$stderr".toList
    · simp only [if_neg h2, if_pos h3]
    by_cases h4 : v = "$discard".toList
    · simp only [if_neg h2, if_neg h3, if_pos h4]
    by_cases h5 : v = "$indent".toList
    · simp only [if_neg h2, if_neg h3, if_neg h4, if_pos h5]; rfl
    by_cases h6 : v = "$verbose".toList
    · simp only [if_neg h2, if_neg h3, if_neg h4, if_neg h5, if_pos h6, if_pos (show v = "$verbose".toList ∨ v = [] from .inl h6)]
      by_cases hv : getVerbose ctx = true <;> simp [hv]
    by_cases h1 : v = []
    · simp only [if_neg h2, if_neg h3, if_neg h4, if_neg h5, if_neg h6, if_pos (show v = "$verbose".toList ∨ v = [] from .inr h1), if_pos h1]
      rfl
    exact absurd ⟨h1, h2, h3, h4, h5, h6⟩ h

/-- the name of the file that a field names, or nothing -/
noncomputable def fileOf (L : Lib) (dir v : Str) : Str := open Classical in if IsFile v then joinPath L.top [dir, v] else []

theorem fileOf_names (L : Lib) (ht : isAbs L.top = true) (dir v : Str) (i : Wr) (app : Bool) :
    NamesFile (outField L dir v i app).2.2 (fileOf L dir v) (app && decide (fileOf L dir v ≠ [])) := by
  unfold fileOf
  by_cases h : IsFile v
  · rw [if_pos h]
    obtain ⟨h1, h2⟩ := (outField_names L ht dir v i app).1 h
    simpa [h2] using h1
  · rw [if_neg h]
    simpa using (outField_names L ht dir v i app).2 h

theorem fileOf_dest (L : Lib) (ht : isAbs L.top = true) (ctx : Ctx) (dir v : Str) (i : Wr) (app : Bool) :
    destOf ctx (fileOf L dir v) (outField L dir v i app).1 (outField L dir v i app).2.1 i = fieldDest ctx v i (joinPath L.top [dir, v]) := by
  apply outField_dest L ht
  unfold fileOf
  by_cases h : IsFile v
  · exact .inl ⟨h, if_pos h⟩
  · exact .inr ⟨h, if_neg h⟩

/-! ## C38 -/

/-- **C38, partial.** When a YAML Command (with one shell string, or a command name) runs, the process runs in `Dir` relative to the
directory of the YAML file; its output streams go where Stdout and Stderr say, where file names are relative to the directory of the
YAML file; and such files are replaced by what was written to them.

What is missing: Stdin names a file (it is ignored), and Stdout or Stderr begin with ">>" (it is taken as part of the file name); see
below. -/
theorem C38_outputs_partial (L : Lib) (ht : isAbs L.top = true) (c : CommandY) (sh dir : Str) (args env : List Str) (os : OS) (ctx : Ctx)
    (sp : Spawn) (h : Eff.exec sp ∈ (run os ctx (toTarget L c sh dir args env false)).trace) :
    sp.dir = joinPath L.top [dir, c.dir] ∧
    sp.stdout = fieldDest ctx c.stdout .indentOut (joinPath L.top [dir, c.stdout]) ∧
    sp.stderr = fieldDest ctx c.stderr .indentErr (joinPath L.top [dir, c.stderr]) ∧
    (∀ v, (v = c.stdout ∨ v = c.stderr) → IsFile v → (run os ctx (toTarget L c sh dir args env false)).files (joinPath L.top [dir, v]) =
      some (routed sp.stdout sp.stderr (os.proc sp).chunks (.file (joinPath L.top [dir, v])))) ∧
    (c.cmd ≠ [] → sp.name = c.cmd ∧ sp.args = args) ∧ (c.cmd = [] → sp.args = ["-c".toList, sh]) ∧
    sp.env = os.environ ++ env ∧ (c.stdin = "$stdin".toList → sp.stdin = .rd .osStdin) ∧ (c.stdin = [] → sp.stdin = .null) := by
  have ho := fileOf_names L ht dir c.stdout .indentOut false
  have he := fileOf_names L ht dir c.stderr .indentErr false
  obtain ⟨r1, r2, -⟩ := C36_routing os ctx _ sp h (so := fileOf L dir c.stdout) (se := fileOf L dir c.stderr) (ao := false) (ae := false) ho he
  obtain ⟨f1, f2, -⟩ := C37_append_or_replace os ctx _ sp h (so := fileOf L dir c.stdout) (se := fileOf L dir c.stderr) (ao := false) (ae := false) ho he
  obtain ⟨g1, g2, g3, g4, -, -, -, g5⟩ := C36_command os ctx _ sp h
  refine ⟨g3, ?_, ?_, ?_, g1, fun hc => (g2 hc).2, g4, ?_, ?_⟩
  · rw [r1]; exact fileOf_dest L ht ctx dir c.stdout .indentOut false
  · rw [r2]; exact fileOf_dest L ht ctx dir c.stderr .indentErr false
  · rintro v (rfl | rfl) hv
    · have hne := ((outField_names L ht dir c.stdout .indentOut false).1 hv).2
      have hf : fileOf L dir c.stdout = joinPath L.top [dir, c.stdout] := if_pos hv
      have := f1 (by rw [hf]; exact hne)
      rw [hf] at this
      simpa using this
    · have hne := ((outField_names L ht dir c.stderr .indentErr false).1 hv).2
      have hf : fileOf L dir c.stderr = joinPath L.top [dir, c.stderr] := if_pos hv
      have := f2 (by rw [hf]; exact hne)
      rw [hf] at this
      simpa using this
  · intro hs
    rw [g5 rfl]
    simp only [toTarget, hs, if_true]
  · intro hs
    rw [g5 rfl]
    simp only [toTarget, hs]
    rw [if_neg (by decide)]

/-- **C38 is false: Stdin.** Whatever file name Stdin is, the process does not read it: its standard input is empty. -/
theorem C38_counterexample_stdin (L : Lib) (c : CommandY) (sh dir : Str) (args env : List Str) (app : Bool) (os : OS) (ctx : Ctx)
    (sp : Spawn) (h : Eff.exec sp ∈ (run os ctx (toTarget L c sh dir args env app)).trace) (hs : c.stdin ≠ "$stdin".toList) :
    sp.stdin = .null ∧ ∀ f, Eff.openedRead f ∉ (run os ctx (toTarget L c sh dir args env app)).trace := by
  obtain ⟨-, -, -, -, -, -, -, g5⟩ := C36_command os ctx _ sp h
  refine ⟨?_, ?_⟩
  · rw [g5 rfl]
    simp only [toTarget]
    rw [if_neg hs]
  · intro f hf
    have key : ∀ (c : Command), c.stdinFile = [] → Eff.openedRead f ∉ (run os ctx c).trace := by
      intro c hc
      have hcl : ∀ made e, Eff.openedRead f ∉ (closeAll os made e).1 := by
        intro made
        induction made with
        | nil => intro e; simp [closeAll]
        | cons w made ih =>
          intro e
          unfold closeAll
          split
          · exact ih e
          · simp only [List.mem_cons, not_or]; exact ⟨by simp, ih _⟩
      have htf : ∀ b cur fn, Eff.openedRead f ∉ (tryFn ctx b cur fn).1 := by
        intro b cur fn
        unfold tryFn
        split
        · split <;> simp
        · simp
      have hfin : ∀ n a fs tr o e made, Eff.openedRead f ∉ tr → Eff.openedRead f ∉ (finishRun os c n a fs tr o e made).trace := by
        intro n a fs tr o e made htr
        unfold finishRun
        rw [if_neg (by simp [hc])]
        simp only [hc, ne_eq, not_true_eq_false, if_false, List.append_nil, List.mem_append, not_or]
        exact ⟨⟨htr, by simp⟩, hcl _ _⟩
      unfold run
      dsimp only
      split
      · simp
      · split
        · simp
        · split
          · simp
          · split
            · dsimp only
              split <;> simp
            · apply hfin
              simp only [List.mem_append, not_or]
              refine ⟨⟨?_, htf _ _ _⟩, htf _ _ _⟩
              split
              · split <;> simp
              · split <;> simp
    exact key _ rfl hf

/-- **C38 is false: ">>".** A name beginning with ">>" is joined to the directory with the ">>" in the middle, so the file is never
appended to, and its name is not the one that was meant: an absolute top directory followed by ... ">>f". -/
theorem C38_counterexample_append (L : Lib) (ht : isAbs L.top = true) (c : CommandY) (sh dir : Str) (args env : List Str) (f : Str)
    (hc : c.stdout = ['>', '>'] ++ f) :
    NamesFile (toTarget L c sh dir args env false).stdoutFile (joinPath L.top [dir, ['>', '>'] ++ f]) false := by
  have hf : IsFile c.stdout := by
    rw [hc]
    refine ⟨by simp, ?_, ?_, ?_, ?_, ?_⟩ <;> · intro h; injection h with h _; exact absurd h (by decide)
  have := ((outField_names L ht dir c.stdout .indentOut false).1 hf).1
  rw [hc] at this
  simpa [toTarget, hc] using this

/-! ## C39 -/

/-- The two commands differ at most in the shell string, and in that the second one appends to the output files. -/
def SameBut (a b : Command) : Prop :=
  a.cmd = b.cmd ∧ a.args = b.args ∧ a.env = b.env ∧ a.dir = b.dir ∧ a.stdin = b.stdin ∧ a.stdinFile = b.stdinFile ∧
  a.stdout = b.stdout ∧ a.stderr = b.stderr ∧ a.stdoutFn = b.stdoutFn ∧ a.stderrFn = b.stderrFn ∧
  (∀ f, NamesFile a.stdoutFile f false → f ≠ [] → NamesFile b.stdoutFile f true) ∧ (a.stdoutFile = [] → b.stdoutFile = []) ∧
  (∀ f, NamesFile a.stderrFile f false → f ≠ [] → NamesFile b.stderrFile f true) ∧ (a.stderrFile = [] → b.stderrFile = [])

/-- Commands of a Seq run one after the other, each from the files that the last one left (`os` may differ otherwise); the processes
that they started are `sp`.  (That a Seq stops at an error is not needed for what follows.) -/
inductive RunsInTurn (ctx : Ctx) : (Str → Option Bytes) → List (OS × Command × Spawn) → (Str → Option Bytes) → Prop
  | nil (fs) : RunsInTurn ctx fs [] fs
  | cons {os c sp l fs'} (h : Eff.exec sp ∈ (run os ctx c).trace) (hl : RunsInTurn ctx (run os ctx c).files l fs') :
      RunsInTurn ctx os.files ((os, c, sp) :: l) fs'

theorem toTarget_sameBut (L : Lib) (ht : isAbs L.top = true) (c : CommandY) (sh sh' dir : Str) (args env : List Str) :
    SameBut (toTarget L c sh dir args env false) (toTarget L c sh' dir args env true) := by
  have key : ∀ v i, (outField L dir v i false).1 = (outField L dir v i true).1 ∧
      (outField L dir v i false).2.1 = (outField L dir v i true).2.1 ∧
      (∀ f, NamesFile (outField L dir v i false).2.2 f false → f ≠ [] → NamesFile (outField L dir v i true).2.2 f true) ∧
      ((outField L dir v i false).2.2 = [] → (outField L dir v i true).2.2 = []) := by
    intro v i
    by_cases hv : IsFile v
    · obtain ⟨n1, n2⟩ := (outField_names L ht dir v i false).1 hv
      obtain ⟨n3, -⟩ := (outField_names L ht dir v i true).1 hv
      refine ⟨by rw [(outField_eq L dir v i false).1 hv, (outField_eq L dir v i true).1 hv],
        by rw [(outField_eq L dir v i false).1 hv, (outField_eq L dir v i true).1 hv], ?_, ?_⟩
      · intro f hf _
        rw [(namesFile_uniq hf n1).1]; exact n3
      · intro he
        rw [he] at n1
        have : NamesFile [] [] false := .inr ⟨rfl, rfl, by simp⟩
        exact absurd (namesFile_uniq n1 this).1 n2
    · obtain ⟨n1, n2⟩ := (outField_eq L dir v i false).2 hv
      rw [n2 true]
      refine ⟨rfl, rfl, ?_, fun h => h⟩
      intro f hf hne
      rw [n1] at hf
      have : NamesFile [] [] false := .inr ⟨rfl, rfl, by simp⟩
      exact absurd (namesFile_uniq hf this).1 hne
  obtain ⟨o1, o2, o3, o4⟩ := key c.stdout .indentOut
  obtain ⟨e1, e2, e3, e4⟩ := key c.stderr .indentErr
  exact ⟨rfl, rfl, rfl, rfl, rfl, rfl, o1, e1, o2, e2, o3, o4, e3, e4⟩

/-- **C39.** A YAML Command with a list of shell strings becomes a Seq with one Command per string, in order; the first one replaces
the output files; the others are identical except for the string and that they append. -/
theorem C39_seq (L : Lib) (ht : isAbs L.top = true) (n : Nat) (node : Node) (dir : Str) (s s' : St) (o : Nat) (hs : Consistent s)
    (h : yamlTarget L n node dir s = .ok o s') (hg : normalizeTag node.tag = "Command".toList)
    (hf : L.targetFn "Command".toList = none) (c : CommandY) (hc : L.decCommand node = .ok c) (hm : c.cmd = []) (shs : List Str)
    (hl : StringList L dir c.shell (.ok shs)) :
    ∃ ids : List Nat, s'.heap[o]? = some (.seq ids) ∧ ∃ cmds : List Command, ids.map (fun i => s'.heap[i]?) = cmds.map (some ∘ Obj.command) ∧
      cmds.map (·.shell) = shs ∧ (∀ c ∈ cmds, c.cmd = []) ∧
      ∀ c0 rest, cmds = c0 :: rest → (∀ b ∈ rest, SameBut c0 b) ∧
        (∀ v, IsFile v → (v = c.stdout → NamesFile c0.stdoutFile (joinPath L.top [dir, v]) false) ∧
          (v = c.stderr → NamesFile c0.stderrFile (joinPath L.top [dir, v]) false)) := by
  have hd := (yaml_ok L n).1 (fun _ _ _ => True) node dir s hs
  rw [h] at hd
  obtain ⟨-, hd⟩ := hd
  have hne : "Command".toList ≠ [] := by decide
  cases hd with
  | ext ht' hf' => rw [hg, hf] at hf'; cases hf'
  | all ht' => rw [hg] at ht'; exact absurd ht' (by decide)
  | seq ht' => rw [hg] at ht'; exact absurd ht' (by decide)
  | depsSeq ht' => rw [hg] at ht'; exact absurd ht' (by decide)
  | depsMap ht' => rw [hg] at ht'; exact absurd ht' (by decide)
  | arg ht' => rw [hg] at ht'; exact absurd ht' (by decide)
  | files ht' => rw [hg] at ht'; exact absurd ht' (by decide)
  | cleanMap ht' => rw [hg] at ht'; exact absurd ht' (by decide)
  | cleanSeq ht' => rw [hg] at ht'; exact absurd ht' (by decide)
  | name ht' => rw [hg] at ht'; exact absurd ht' hne
  | top ht' => rw [hg] at ht'; exact absurd ht' hne
  | foreign ht' => rw [hg] at ht'; exact absurd ht' hne
  | command ht' hf' hk hc' ha he h1 hsh ho =>
    rw [hc] at hc'; injection hc' with hc'; subst hc'
    have := (C41_unique L dir c.shell).unique hl (h1 hm)
    cases this
  | commands ht' hf' hk hc' ha he h1 hsh hlen hi ho =>
    rename_i args env shs' ids c'
    rw [hc] at hc'; injection hc' with hc'; subst hc'
    have := (C41_unique L dir c.shell).unique hl hsh
    injection this with this; subst this
    refine ⟨ids, ho, shs.mapIdx (fun i sh => toTarget L c sh dir args env (decide (0 < i))), ?_, ?_, ?_, ?_⟩
    · apply List.ext_getElem?
      intro i
      simp only [List.getElem?_map, List.getElem?_mapIdx, Option.map_map]
      cases hid : ids[i]? with
      | none =>
        have : shs[i]? = none := by rw [List.getElem?_eq_none_iff] at hid ⊢; omega
        rw [this]; rfl
      | some id =>
        have hlt : i < shs.length := by rw [← hlen]; exact (List.getElem?_eq_some_iff.1 hid).1
        have hsi : shs[i]? = some shs[i] := List.getElem?_eq_getElem hlt
        rw [hsi]
        simp only [Option.map_some, Function.comp]
        rw [hi i id _ hid hsi]
    · apply List.ext_getElem?
      intro i
      simp only [List.getElem?_map, List.getElem?_mapIdx, Option.map_map]
      cases shs[i]? <;> rfl
    · intro b hb
      obtain ⟨i, hi, rfl⟩ := List.mem_mapIdx.1 hb
      exact hm
    · intro c0 rest hcr
      cases shs with
      | nil => cases hcr
      | cons sh0 shs =>
        rw [List.mapIdx_cons] at hcr
        injection hcr with h0 hr
        subst h0
        refine ⟨?_, ?_⟩
        · intro b hb
          rw [← hr] at hb
          obtain ⟨i, hi, rfl⟩ := List.mem_mapIdx.1 hb
          simpa using toTarget_sameBut L ht c sh0 _ dir args env
        · intro v hv
          exact ⟨fun e => by subst e; exact ((outField_names L ht dir _ .indentOut false).1 hv).1,
            fun e => by subst e; exact ((outField_names L ht dir _ .indentErr false).1 hv).1⟩

theorem appends (ctx : Ctx) (f : Str) (hf : f ≠ []) {fs fs' : Str → Option Bytes} {l : List (OS × Command × Spawn)}
    (h : RunsInTurn ctx fs l fs')
    (hn : (∀ x ∈ l, NamesFile x.2.1.stdoutFile f true) ∨ ∀ x ∈ l, NamesFile x.2.1.stderrFile f true) (hl : l ≠ [] ∨ fs f ≠ none) :
    fs' f = some ((fs f).getD [] ++ l.flatMap fun x => routed x.2.2.stdout x.2.2.stderr (x.1.proc x.2.2).chunks (.file f)) := by
  induction h with
  | nil fs =>
    have := hl.resolve_left (by simp)
    cases h : fs f with
    | none => exact absurd h this
    | some b => simp
  | @cons os c sp l fs' h1 h2 ih =>
    have e : (run os ctx c).files f = some ((os.files f).getD [] ++ routed sp.stdout sp.stderr (os.proc sp).chunks (.file f)) := by
      rcases hn with hn | hn
      · have := (C37_append_or_replace os ctx c sp h1 (hn (os, c, sp) (by simp)) (parseFile_spec _)).1 hf
        simpa using this
      · have := (C37_append_or_replace os ctx c sp h1 (parseFile_spec _) (hn (os, c, sp) (by simp))).2.1 hf
        simpa using this
    rw [ih (hn.imp (fun h x hx => h x (by simp [hx])) (fun h x hx => h x (by simp [hx]))) (.inr (by rw [e]; simp)), e]
    simp

/-- **C39, output.** When the commands of such a Seq run in turn (all of them, or the first few), an output file of theirs then
holds exactly what the processes wrote to it, in order: nothing of it is lost. -/
theorem C39_output (L : Lib) (ht : isAbs L.top = true) (n : Nat) (node : Node) (dir : Str) (s s' : St) (o : Nat) (hs : Consistent s)
    (h : yamlTarget L n node dir s = .ok o s') (hg : normalizeTag node.tag = "Command".toList)
    (hf : L.targetFn "Command".toList = none) (c : CommandY) (hc : L.decCommand node = .ok c) (hm : c.cmd = []) (shs : List Str)
    (hl : StringList L dir c.shell (.ok shs)) (ids : List Nat) (ho : s'.heap[o]? = some (.seq ids)) (ctx : Ctx)
    (fs fs' : Str → Option Bytes) (l : List (OS × Command × Spawn)) (hr : RunsInTurn ctx fs l fs') (hne : l ≠ [])
    (hp : l.map (fun x => some (Obj.command x.2.1)) <+: ids.map (fun i => s'.heap[i]?))
    (v : Str) (hv : v = c.stdout ∨ v = c.stderr) (hi : IsFile v) :
    fs' (joinPath L.top [dir, v]) =
      some (l.flatMap fun x => routed x.2.2.stdout x.2.2.stderr (x.1.proc x.2.2).chunks (.file (joinPath L.top [dir, v]))) := by
  obtain ⟨ids', ho', cmds, hcm, -, -, hcs⟩ := C39_seq L ht n node dir s s' o hs h hg hf c hc hm shs hl
  rw [ho] at ho'; injection ho' with ho'; injection ho' with ho'; subst ho'
  rw [hcm] at hp
  have hp' : l.map (fun x => x.2.1) <+: cmds := by
    obtain ⟨t, ht⟩ := hp
    have hlen : l.length ≤ cmds.length := by
      have := congrArg List.length ht; simp at this; omega
    rw [List.prefix_iff_eq_take]
    apply List.ext_getElem?
    intro i
    by_cases hi : i < l.length
    · have e1 := congrArg (fun q => q[i]?) ht
      rw [List.getElem?_append_left (by simpa using hi)] at e1
      simp only [List.getElem?_map, List.getElem?_take, List.length_map, if_pos hi] at e1 ⊢
      rw [List.getElem?_eq_getElem hi] at e1 ⊢
      rw [List.getElem?_eq_getElem (by omega)] at e1 ⊢
      simp only [Option.map_some, Function.comp, Option.some.injEq, Obj.command.injEq] at e1 ⊢
      exact e1
    · simp only [List.getElem?_map, List.getElem?_take, List.length_map, if_neg hi]
      rw [List.getElem?_eq_none (by omega)]; rfl
  have hpn : joinPath L.top [dir, v] ≠ [] := (abs_not_gt (joinPath_abs ht [dir, v])).2.1
  cases hr with
  | nil => exact absurd rfl hne
  | @cons os c0 sp l fs' h1 h2 =>
    obtain ⟨rest, hrest⟩ := hp'
    rw [List.map_cons, List.cons_append] at hrest
    obtain ⟨hsame, hfirst⟩ := hcs c0 _ hrest.symm
    have hmem : ∀ x ∈ l, SameBut c0 x.2.1 := fun x hx => hsame _ (by
      simp only [List.mem_append, List.mem_map]; exact .inl ⟨x, hx, rfl⟩)
    have e1 : (run os ctx c0).files (joinPath L.top [dir, v]) =
        some (routed sp.stdout sp.stderr (os.proc sp).chunks (.file (joinPath L.top [dir, v]))) := by
      rcases hv with hv | hv
      · have := (C37_append_or_replace os ctx c0 sp h1 ((hfirst v hi).1 hv) (parseFile_spec _)).1 hpn
        simpa using this
      · have := (C37_append_or_replace os ctx c0 sp h1 (parseFile_spec _) ((hfirst v hi).2 hv)).2.1 hpn
        simpa using this
    rw [appends ctx _ hpn h2 ?_ (.inr (by rw [e1]; simp)), e1]
    · simp
    · rcases hv with hv | hv
      · left
        intro x hx
        obtain ⟨-, -, -, -, -, -, -, -, -, -, a, -⟩ := hmem x hx
        exact a _ ((hfirst v hi).1 hv) hpn
      · right
        intro x hx
        obtain ⟨-, -, -, -, -, -, -, -, -, -, -, -, a, -⟩ := hmem x hx
        exact a _ ((hfirst v hi).2 hv) hpn

/-! The hypotheses are met: two shell strings, output to a file, in the directory d.  The second command does not overwrite what the
first one wrote; the old contents of the file are gone. -/

def exCmdY : CommandY where
  shell := exTagged "!!seq" .sequence [exScalar "one", exScalar "two"]
  cmd := []
  args := .zero
  stdin := "in.txt".toList
  stdout := "out.txt".toList
  stderr := "$stderr".toList
  dir := "sub".toList
  env := .zero

def exCmdLib : Lib := { exLib with decCommand := fun _ => .ok exCmdY }
def exCmdNode : Node := exTagged "!Command" .mapping []

def exMulti (files : Str → Option Bytes) : OS where
  files := files
  openFails _ := false
  readFails _ := false
  environ := []
  shellVar := []
  proc sp := { chunks := [(true, if "one".toList ∈ sp.args then [1, 11] else [2]), (false, [9])], err := none }
  closer _ := none

def exFiles : Str → Option Bytes := fun n => if n = "/top/d/out.txt".toList then some [0] else
  if n = "/top/d/in.txt".toList then some [7] else none

def exC (sh : String) (app : Bool) : Command := toTarget exCmdLib exCmdY sh.toList "d".toList [] [] app
def exSp (sh : String) : Spawn := ⟨"/bin/sh".toList, ["-c".toList, sh.toList], "/top/d/sub".toList, [], .null, .file "/top/d/out.txt".toList, .wr .osStderr⟩

theorem exRead : ∃ s', yamlTarget exCmdLib 1 exCmdNode "d".toList St.empty = .ok 2 s' ∧ s'.heap[2]? = some (.seq [0, 1]) ∧
    [0, 1].map (fun i => s'.heap[i]?) = [some (.command (exC "one" false)), some (.command (exC "two" true))] := ⟨_, rfl, rfl, rfl⟩

theorem exRun1 : Eff.exec (exSp "one") ∈ (run (exMulti exFiles) .root (exC "one" false)).trace := by decide +kernel
theorem exRun2 : Eff.exec (exSp "two") ∈ (run (exMulti (run (exMulti exFiles) .root (exC "one" false)).files) .root (exC "two" true)).trace := by
  decide +kernel

example : ∃ fs', RunsInTurn .root exFiles [(exMulti exFiles, exC "one" false, exSp "one"),
      (exMulti (run (exMulti exFiles) .root (exC "one" false)).files, exC "two" true, exSp "two")] fs' ∧
    fs' "/top/d/out.txt".toList = some [1, 11, 2] :=
  ⟨_, .cons (os := exMulti exFiles) exRun1 (.cons (os := exMulti (run (exMulti exFiles) .root (exC "one" false)).files) exRun2 (.nil _)), by decide +kernel⟩

example : (∃ s', yamlTarget exCmdLib 1 exCmdNode "d".toList St.empty = .ok 2 s') ∧ Consistent St.empty ∧
    StringList exCmdLib "d".toList exCmdY.shell (.ok ["one".toList, "two".toList]) ∧ IsFile exCmdY.stdout :=
  ⟨⟨_, rfl⟩, rfl, (C41_string_list ..).1 (by decide +kernel), by unfold IsFile; decide +kernel⟩

/-- `Stdin: in.txt`: the file /top/d/in.txt is there, but the process reads nothing -/
example : Eff.exec (exSp "one") ∈ (run (exMulti exFiles) .root (exC "one" false)).trace ∧ (exSp "one").stdin = .null :=
  ⟨exRun1, (C38_counterexample_stdin exCmdLib exCmdY _ _ _ _ false _ _ _ exRun1 (by decide +kernel)).1⟩

/-- `Stdout: ">>out.txt"`: the file /top/d/out.txt is left as it was, and a file /top/d/>>out.txt is made -/
example : let c := toTarget exCmdLib { exCmdY with stdout := ">>out.txt".toList } "one".toList "d".toList [] [] false
    (run (exMulti exFiles) .root c).err = none ∧ (run (exMulti exFiles) .root c).files "/top/d/out.txt".toList = some [0] ∧
    (run (exMulti exFiles) .root c).files "/top/d/>>out.txt".toList = some [1, 11] := by decide +kernel

end Fab.Yaml
