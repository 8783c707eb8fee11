import Verif.Files.Demo
import Verif.Clean
import Verif.Command
import Verif.Indent

/-!
# C86: what targets say in verbose mode

The messages of `Files` (/repo/files.go:139-141), `Clean` (/repo/clean.go:50-60) and `Command` (/repo/command.go:205-210, 319).  The line `Running X` of `Run` is in
`Verif/Runner/Verbose.lean` (C80), the indentation and the writes of `Indentf` in `Verif/Indent.lean` (C70).
-/

namespace Fab.Says
open Fab Path Runner

/-! ## Files -/

section Files
open Fab.Files
variable {ρ : Type} (hex : Bytes → Str) (sum : Str → Str) (emit : Str → ρ → ρ) (name : Str)

/-- files.go:139-142: the message (`emit` prints; `name` is `con.Describe(ft)`), and `return nil` -/
def upToDate (ctx : Ctx) : P ρ :=
  if getVerbose ctx then .act (fun w => { w with rest := emit (Indent.sprintf "%s is up to date".toList [name]) w.rest }) fun _ => .ret none else .ret none

/-- `filesMain` of `Verif/Files/Model.lean` with its message, files.go:127-160 -/
def filesMainV (ft : FilesT ρ) (ctx : Ctx) : P ρ :=
  match getHashDB ctx with
  | none => filesBuild hex sum ft ctx
  | some d =>
    if !getForce ctx && !getDryRun ctx then
      computeHash hex sum ft fun r =>
        match r with
        | none => .ret (some errHash)
        | some h => .act id fun w =>
          if w.hasFails then .ret (some errHas)
          else if h ∈ w.db d then upToDate emit name ctx
          else filesBuild hex sum ft ctx
    else filesBuild hex sum ft ctx

/-- `files.Run` with its message, files.go:122-160, 197-210 -/
def filesBodyV (ft : FilesT ρ) (ctx : Ctx) : P ρ :=
  findAll ft.ins [] fun pre =>
    if pre = [] then filesMainV hex sum emit name ft ctx
    else .call ctx pre fun e =>
      match e with
      | some e => .ret (some e)
      | none => filesMainV hex sum emit name ft ctx

/-- What has happened if the target is up to date: its prerequisites have succeeded; its hash was computed then, and was found in the database, neither `Force` nor `DryRun`
being set. -/
def UpToDate (ft : FilesT ρ) (ctx : Ctx) (h : List (LEv (World ρ) Ctx)) : Prop :=
  ∃ h0 d ws hsh w, PrereqsDone ft ctx h0 ∧ getHashDB ctx = some d ∧ getForce ctx = false ∧ getDryRun ctx = false ∧ HashOf hex sum ft ws hsh ∧ w.hasFails = false ∧
    hsh ∈ w.db d ∧ h = h0 ++ acts ws ++ [.act w]

/-- The subtarget was run and succeeded, and what followed, if anything, was the recording of the hash. -/
def RanRule (ft : FilesT ρ) (ctx : Ctx) (h : List (LEv (World ρ) Ctx)) : Prop :=
  ∃ h0 c ws, h = h0 ++ [.call c ctx [ft.target], .ret c none] ++ acts ws

theorem says_filesMain (ft : FilesT ρ) (ctx : Ctx) (hv : getVerbose ctx = false) : filesMainV hex sum emit name ft ctx = filesMain hex sum ft ctx := by
  unfold filesMainV filesMain upToDate
  simp only [hv, Bool.false_eq_true, if_false]
  rfl

/-- Without verbose mode nothing is different. -/
theorem C86_files_quiet (ft : FilesT ρ) (ctx : Ctx) (hv : getVerbose ctx = false) : filesBodyV hex sum emit name ft ctx = filesBody hex sum ft ctx := by
  unfold filesBodyV filesBody
  simp only [says_filesMain _ _ _ _ _ _ hv]
  rfl

/-- The positions in which nothing is printed, with what has happened if it is a return of nil. -/
def Silent (ft : FilesT ρ) (ctx : Ctx) (h : List (LEv (World ρ) Ctx)) : Pos (World ρ) Ctx → Prop
  | .at (.ret e) => e = none → RanRule ft ctx h
  | .at (.act f _) => ∀ w, (f w).rest = w.rest
  | _ => True

theorem silent_build {ft : FilesT ρ} {ctx : Ctx} {h0 h pos} (hr : Runs (filesBuild hex sum ft ctx) h pos) : Silent ft ctx (h0 ++ h) pos := by
  unfold filesBuild at hr
  rcases Files.Runs.call_inv hr with ⟨rfl, rfl⟩ | ⟨c, rfl, rfl⟩ | ⟨c, e, h', rfl, hr1⟩
  · trivial
  · trivial
  · cases e with
    | some e => obtain ⟨rfl, rfl⟩ := Files.Runs.ret_inv hr1; intro h; cases h
    | none =>
      simp only at hr1
      split at hr1
      · obtain ⟨rfl, rfl⟩ := Files.Runs.ret_inv hr1
        exact fun _ => ⟨h0, c, [], by simp [acts]⟩
      · split at hr1
        · obtain ⟨rfl, rfl⟩ := Files.Runs.ret_inv hr1
          exact fun _ => ⟨h0, c, [], by simp [acts]⟩
        · rcases computeHash_path hex sum ft _ hr1 with ⟨ws, k', rfl, rfl⟩ | ⟨ws, h', rfl, hfl, hr2⟩ | ⟨ws, h', hsh, rfl, hh, hr2⟩
          · exact fun _ => rfl
          · obtain ⟨rfl, rfl⟩ := Files.Runs.ret_inv hr2; intro h; cases h
          · rcases Files.Runs.act_inv hr2 with ⟨rfl, rfl⟩ | ⟨w, h'', rfl, hr3⟩
            · intro w; unfold dbAdd; split <;> rfl
            · obtain ⟨rfl, rfl⟩ := Files.Runs.ret_inv hr3
              exact fun _ => ⟨h0, c, ws ++ [w], by simp [acts]⟩

theorem says_main {ft : FilesT ρ} {ctx : Ctx} {h0 h pos} (h0r : PrereqsDone ft ctx h0) (hr : Runs (filesMainV hex sum emit name ft ctx) h pos) :
    (∃ h1 h2, h0 ++ h = h1 ++ h2 ∧ UpToDate hex sum ft ctx h1 ∧ Runs (upToDate emit name ctx) h2 pos) ∨ Silent ft ctx (h0 ++ h) pos := by
  unfold filesMainV at hr
  split at hr
  · exact .inr (silent_build hex sum hr)
  · rename_i d hdb
    split at hr
    · rename_i hm
      simp only [Bool.and_eq_true, Bool.not_eq_true'] at hm
      rcases computeHash_path hex sum ft _ hr with ⟨ws, k', rfl, rfl⟩ | ⟨ws, h', rfl, hfl, hr1⟩ | ⟨ws, h', hsh, rfl, hh, hr1⟩
      · exact .inr fun _ => rfl
      · obtain ⟨rfl, rfl⟩ := Files.Runs.ret_inv hr1
        exact .inr fun h => by cases h
      · rcases Files.Runs.act_inv hr1 with ⟨rfl, rfl⟩ | ⟨w, h'', rfl, hr2⟩
        · exact .inr fun _ => rfl
        · split at hr2
          · obtain ⟨rfl, rfl⟩ := Files.Runs.ret_inv hr2
            exact .inr fun h => by cases h
          · rename_i hhas
            simp only [Bool.not_eq_true] at hhas
            split at hr2
            · rename_i hin
              exact .inl ⟨h0 ++ acts ws ++ [.act w], h'', by simp, ⟨h0, d, ws, hsh, w, h0r, hdb, hm.1, hm.2, hh, hhas, hin, rfl⟩, hr2⟩
            · have := silent_build (h0 := h0 ++ acts ws ++ [.act w]) hex sum hr2
              exact .inr (by simpa using this)
    · exact .inr (silent_build hex sum hr)

theorem says_body {ft : FilesT ρ} {ctx : Ctx} {h pos} (hr : Runs (filesBodyV hex sum emit name ft ctx) h pos) :
    (∃ h1 h2, h = h1 ++ h2 ∧ UpToDate hex sum ft ctx h1 ∧ Runs (upToDate emit name ctx) h2 pos) ∨ Silent ft ctx h pos := by
  unfold filesBodyV at hr
  rcases findAll_path _ _ _ hr with ⟨ws, k', rfl, hl, rfl, hk⟩ | ⟨ws, h', rfl, hl, hr1⟩
  · exact .inr fun _ => rfl
  · rw [List.nil_append] at hr1
    split at hr1
    · rename_i hp
      exact says_main hex sum emit name ⟨ws, hl, .inl ⟨hp, rfl⟩⟩ hr1
    · rename_i hp
      rcases Files.Runs.call_inv hr1 with ⟨rfl, rfl⟩ | ⟨c, rfl, rfl⟩ | ⟨c, e, h'', rfl, hr2⟩
      · exact .inr trivial
      · exact .inr trivial
      · cases e with
        | some e => obtain ⟨rfl, rfl⟩ := Files.Runs.ret_inv hr2; exact .inr fun h => by cases h
        | none =>
          have := says_main hex sum emit name (h0 := acts ws ++ [.call c ctx (prereqsOf ft.ins ws), .ret c none]) ⟨ws, hl, .inr ⟨hp, c, rfl⟩⟩ hr2
          simpa using this

theorem text_upToDate (n : Str) : Indent.sprintf "%s is up to date".toList [n] = n ++ " is up to date".toList := by
  have : ("%s is up to date".toList : Str) = '%' :: 's' :: " is up to date".toList := by decide
  rw [Indent.sprintf, this]
  simp [Indent.sprint, Indent.verb, Indent.extra]

/-- **C86.** A Files target prints something only if it is up to date and verbose mode is on: then the line `X is up to date`. -/
theorem C86_files_true {ft : FilesT ρ} {ctx : Ctx} {h : List (LEv (World ρ) Ctx)} {f k} (hr : Runs (filesBodyV hex sum emit name ft ctx) h (.at (.act f k)))
    {w : World ρ} (hp : (f w).rest ≠ w.rest) :
    UpToDate hex sum ft ctx h ∧ getVerbose ctx = true ∧ ∀ w, (f w).rest = emit (name ++ " is up to date".toList) w.rest := by
  rcases says_body hex sum emit name hr with ⟨h1, h2, rfl, hu, hr'⟩ | hs
  · unfold upToDate at hr'
    split at hr'
    · rename_i hv
      rcases Files.Runs.act_inv hr' with ⟨rfl, he⟩ | ⟨w', h'', rfl, hr''⟩
      · cases he
        refine ⟨by rwa [List.append_nil], hv, fun w => ?_⟩
        show emit _ _ = _
        rw [text_upToDate]
      · obtain ⟨-, hx⟩ := Files.Runs.ret_inv hr''; cases hx
    · obtain ⟨-, hx⟩ := Files.Runs.ret_inv hr'; cases hx
  · exact absurd (hs w) hp

theorem prereqs_fwdV {ft : FilesT ρ} {ctx : Ctx} {H} (h : PrereqsDone ft ctx H) :
    Runs (filesBodyV hex sum emit name ft ctx) H (.at (filesMainV hex sum emit name ft ctx)) := by
  obtain ⟨ws, hl, ⟨h1, rfl⟩ | ⟨h1, c, rfl⟩⟩ := h
  · have := findAll_fwd ft.ins [] ws hl (Runs.nil (p := filesBodyV hex sum emit name ft ctx))
    rw [List.nil_append, List.nil_append, if_pos h1] at this
    exact this
  · have := findAll_fwd ft.ins [] ws hl (Runs.nil (p := filesBodyV hex sum emit name ft ctx))
    rw [List.nil_append, List.nil_append, if_neg h1] at this
    have := Runs.ret none (Runs.call c this)
    simpa using this

/-- **C86.** In verbose mode, if the target is up to date then the next thing that it does is to print the line `X is up to date`, and then it returns nil. -/
theorem C86_files_complete {ft : FilesT ρ} {ctx : Ctx} (hv : getVerbose ctx = true) {h : List (LEv (World ρ) Ctx)} (hu : UpToDate hex sum ft ctx h) :
    ∃ f, Runs (filesBodyV hex sum emit name ft ctx) h (.at (.act f fun _ => .ret none)) ∧ ∀ w, (f w).rest = emit (name ++ " is up to date".toList) w.rest := by
  obtain ⟨h0, d, ws, hsh, w, h1, h2, h3, h4, h5, h6, h7, rfl⟩ := hu
  have h8 := prereqs_fwdV hex sum emit name h1
  unfold filesMainV at h8
  rw [h2] at h8
  simp only [h3, h4, Bool.not_false, Bool.and_self, if_true] at h8
  have h9 := Runs.act w (computeHash_fwd hex sum h5 h8)
  simp only [h6, Bool.false_eq_true, if_false, if_pos h7] at h9
  unfold upToDate at h9
  rw [if_pos hv] at h9
  refine ⟨_, h9, fun w => ?_⟩
  show emit _ _ = _
  rw [text_upToDate]

/-- **C86.** A Files target that returns nil either was up to date (and has then done nothing but to say so), or has run its subtarget, which succeeded. -/
theorem C86_files_either {ft : FilesT ρ} {ctx : Ctx} {h : List (LEv (World ρ) Ctx)} (hr : Runs (filesBodyV hex sum emit name ft ctx) h (.at (.ret none))) :
    (∃ h' m, h = h' ++ m ∧ UpToDate hex sum ft ctx h' ∧ m.length = if getVerbose ctx then 1 else 0) ∨ RanRule ft ctx h := by
  rcases says_body hex sum emit name hr with ⟨h1, h2, rfl, hu, hr'⟩ | hs
  · refine .inl ⟨h1, h2, rfl, hu, ?_⟩
    unfold upToDate at hr'
    split at hr'
    · rename_i hv
      rcases Files.Runs.act_inv hr' with ⟨rfl, he⟩ | ⟨w', h'', rfl, hr''⟩
      · cases he
      · obtain ⟨rfl, -⟩ := Files.Runs.ret_inv hr''
        simp [hv]
    · rename_i hv
      obtain ⟨rfl, -⟩ := Files.Runs.ret_inv hr'
      simp [hv]
  · exact .inr (hs rfl)

end Files

namespace FilesDemo
open Fab.Files Fab.Files.Demo

/-- the hashes of `in` and of `out` -/
def hashes (f : Str) : List Str := match fileHashesAt exHex [(exFiles [1] [1] [], f)] with
  | .ok l => l
  | .error _ => []

/-- everything is up to date -/
def old : World (List Str) where
  fs := exFiles [1] [1] []
  db := fun _ => [hashText (.str "copy".toList) "copy".toList (hashes "in".toList) (hashes "out".toList)]
  reg := {}
  hasFails := false
  addFails := false
  addLost := false
  rest := []

def copyT : FilesT (List Str) := ⟨.ptr 0, "copy".toList, fun _ => some (.str "copy".toList), ["in".toList], ["out".toList]⟩

def loud : Ctx := withHashDB (withVerbose .root true) 0

theorem old_upToDate : UpToDate exHex id copyT loud [.act old, .act old, .act old, .act old, .act old] := by
  refine ⟨[.act old], 0, [old, old, old], _, old, ⟨[old], rfl, .inl ⟨by decide +kernel, rfl⟩⟩, by decide, by decide, by decide,
    ⟨[old], [old], old, hashes "in".toList, hashes "out".toList, _, rfl, rfl, rfl, ?_, ?_, rfl, rfl⟩, rfl, List.mem_singleton.2 rfl, rfl⟩
  · rfl
  · rfl

/-- `C86_files_complete` and `C86_files_true`: the hypotheses are met: the target prints its line. -/
example : ∃ f k, Runs (filesBodyV exHex id (fun t o => o ++ [t]) "Copy".toList copyT loud) [.act old, .act old, .act old, .act old, .act old] (.at (.act f k)) ∧
    (f old).rest = ["Copy is up to date".toList] ∧ (f old).rest ≠ old.rest := by
  obtain ⟨f, h1, h2⟩ := C86_files_complete exHex id (fun t o => o ++ [t]) "Copy".toList (by decide : getVerbose loud = true) old_upToDate
  have h3 : (f old).rest = ["Copy is up to date".toList] := by rw [h2]; decide +kernel
  exact ⟨f, _, h1, h3, by rw [h3]; decide⟩

/-- `C86_files_either`: both cases occur. -/
example : Runs (filesBodyV exHex id (fun t o => o ++ [t]) "Copy".toList copyT .root) [.act old, .call 0 .root [.ptr 0], .ret 0 none] (.at (.ret none)) := by
  have h := prereqs_fwdV exHex id (fun t o => o ++ [t]) "Copy".toList (ft := copyT) (ctx := .root) ⟨[old], rfl, .inl ⟨by decide +kernel, rfl⟩⟩
  exact Runs.ret none (Runs.call 0 h)

end FilesDemo

/-! ## Clean -/

section Clean
open Fab.CleanT

/-- `fmt` prints a `[]string` with %v. -/
def showList (l : List Str) : Str := '[' :: joinWith [' '] l ++ [']']

/-- `(*Clean).Run` with its messages, /repo/clean.go:38-71: the text of the messages, and the result as in `cleanRun` -/
def cleanRunV (deny : List Str → Bool) (ctx : Ctx) (reg : List Str) (c : Clean) (fs : FS) : List Str × (FS × Clean × Bool) :=
  let (files, own) := cleanList c reg
  let c' : Clean := { c with files := own }
  if files = [] then ([], fs, c', true)
  else if getDryRun ctx then (if getVerbose ctx then [Indent.sprintf "  would remove %v".toList [showList files]] else [], fs, c', true)
  else
    let r := removeAll deny files fs
    (if getVerbose ctx then [Indent.sprintf "  removing %v".toList [showList files]] else [], r.1, c', r.2)

/-- The model is that of C34, with messages. -/
theorem cleanRunV_agrees (deny : List Str → Bool) (ctx : Ctx) (reg : List Str) (c : Clean) (fs : FS) : (cleanRunV deny ctx reg c fs).2 = cleanRun deny ctx reg c fs := by
  unfold cleanRunV cleanRun
  dsimp only
  split
  · rfl
  · split <;> rfl

theorem text_would (t : Str) : Indent.sprintf "  would remove %v".toList [t] = "  would remove ".toList ++ t := by
  have : ("  would remove %v".toList : Str) = "  would remove ".toList ++ ['%', 'v'] := by decide
  rw [Indent.sprintf, this]
  simp [Indent.sprint, Indent.verb, Indent.extra]

theorem text_removing (t : Str) : Indent.sprintf "  removing %v".toList [t] = "  removing ".toList ++ t := by
  have : ("  removing %v".toList : Str) = "  removing ".toList ++ ['%', 'v'] := by decide
  rw [Indent.sprintf, this]
  simp [Indent.sprint, Indent.verb, Indent.extra]

/-- **C86.** Clean prints one line if it is in verbose mode and has files to remove: the list of all files that it names, sorted.  It is the same list in a dry run, which says
`would remove`, and otherwise, when it says `removing`. -/
theorem C86_clean (reg : List Str) (c : Clean) : ∃ l : List Str, l.Pairwise (· ≤ ·) ∧ l.Perm (c.files.elems ++ if c.autoclean then reg else []) ∧
    ∀ (deny : List Str → Bool) (ctx : Ctx) (fs : FS), (cleanRunV deny ctx reg c fs).1 =
      if getVerbose ctx = true ∧ l ≠ [] then [(if getDryRun ctx then "  would remove ".toList else "  removing ".toList) ++ ('[' :: joinWith [' '] l ++ [']'])] else [] := by
  have hl : (cleanList c reg).1 = sortStrs (c.files.elems ++ if c.autoclean then reg else []) := by
    unfold cleanList
    dsimp only
    generalize (if c.autoclean = true then reg else []) = x
    split <;> rfl
  refine ⟨_, sortStrs_sorted _, sortStrs_perm _, fun deny ctx fs => ?_⟩
  unfold cleanRunV
  dsimp only
  rw [hl]
  generalize sortStrs (c.files.elems ++ if c.autoclean then reg else []) = l
  by_cases h0 : l = []
  · rw [if_pos h0]; simp [h0]
  · rw [if_neg h0]
    rw [text_would, text_removing]
    cases getDryRun ctx <;> cases getVerbose ctx <;> simp [h0, showList]

/-- **C86.** What it says it removes is gone if it returns nil. -/
theorem C86_clean_true (deny : List Str → Bool) (ctx : Ctx) (reg : List Str) (c : Clean) {fs : FS} (hw : fs.root.WF) (hd : getDryRun ctx = false)
    (hok : (cleanRunV deny ctx reg c fs).2.2.2 = true) {l : List Str} (hl : l.Perm (c.files.elems ++ if c.autoclean then reg else [])) {f : Str} (hf : f ∈ l) :
    (cleanRunV deny ctx reg c fs).2.1.stat f = .notExist := by
  rw [cleanRunV_agrees] at hok ⊢
  refine C34_all_gone deny ctx reg c hw hd hok f ?_
  have := hl.mem_iff.1 hf
  rw [List.mem_append] at this
  unfold Names
  cases hc : c.autoclean <;> simpa [hc] using this

namespace CleanDemo

-- in a dry run and otherwise, the same list
example : (cleanRunV (fun _ => false) (withDryRun (withVerbose .root true) true) ["z".toList] exClean exTree).1 = ["  would remove [missing out/x z]".toList] := by
  decide +kernel
example : (cleanRunV (fun _ => false) (withVerbose .root true) ["z".toList] exClean exTree).1 = ["  removing [missing out/x z]".toList] := by decide +kernel
example : (cleanRunV (fun _ => false) .root ["z".toList] exClean exTree).1 = [] := by decide +kernel
-- `C86_clean_true`: the hypotheses are met
example : exTree.root.WF ∧ (cleanRunV (fun _ => false) (withVerbose .root true) ["z".toList] exClean exTree).2.2.2 = true ∧
    "out/x".toList ∈ exClean.files.elems := ⟨exTree_wf, by decide +kernel, by decide +kernel⟩

end CleanDemo

end Clean

/-! ## Command -/

section Command
open Fab.Cmd

/-- What `Run` does until the process ends, with its messages. -/
inductive VEff where
  | eff (e : Eff)
  | says (text : Str)
deriving DecidableEq

/-- `(*exec.Cmd).String`: the path of the program (as given, if it cannot be found) and the arguments. -/
def cmdText (look : Str → Option Str) (cmdname : Str) (args : List Str) : Str := joinWith [' '] ((look cmdname).getD cmdname :: args)

/-- The end of `Run` with its message, /repo/command.go:319, 329-346 -/
def finishV (os : OS) (look : Str → Option Str) (ctx : Ctx) (c : Command) (cmdname : Str) (args : List Str) (files : Str → Option Bytes) (trace : List Eff)
    (out err : Dest) : List VEff :=
  let said : List VEff := if getVerbose ctx then [.says (Indent.sprintf "  Running command %s".toList [cmdText look cmdname args])] else []
  if c.stdinFile ≠ [] ∧ os.readFails c.stdinFile = true then trace.map .eff ++ said
  else
    let src : Src := if c.stdinFile ≠ [] then .file c.stdinFile ((files c.stdinFile).getD []) else
      match c.stdin with | some r => .rd r | none => .null
    let rd : List VEff := if c.stdinFile ≠ [] then [.eff (.openedRead c.stdinFile)] else []
    trace.map .eff ++ said ++ rd ++ [.eff (.exec ⟨cmdname, args, c.dir, os.environ ++ c.env, src, out, err⟩)]

/-- `(*Command).Run` with its messages, /repo/command.go:188-347, without what is deferred (C84); `look` is `exec.LookPath`. -/
def runV (os : OS) (look : Str → Option Str) (ctx : Ctx) (c : Command) : List VEff :=
  let cmdname := if c.cmd = [] then (if os.shellVar = [] then "/bin/sh".toList else os.shellVar) else c.cmd
  let args := if c.cmd = [] then ["-c".toList, c.shell] else c.args
  if getDryRun ctx then (if getVerbose ctx then [.says (Indent.sprintf "  Would run command %s".toList [cmdText look cmdname args])] else [])
  else
    let so := parseFile c.stdoutFile
    let se := parseFile c.stderrFile
    if so.1 = se.1 ∧ so.2 ≠ se.2 then []
    else
      match (if so.1 = [] then some os.files else openWrite os os.files so.1 so.2) with
      | none => []
      | some files1 =>
        let tr1 : List Eff := if so.1 = [] then [] else [.opened so.1 so.2]
        let out1 : Option Dest := if so.1 = [] then c.stdout.map .wr else some (.file so.1)
        match (if se.1 = [] ∨ so.1 = se.1 then some files1 else openWrite os files1 se.1 se.2) with
        | none => tr1.map .eff
        | some files2 =>
          let tr2 : List Eff := if se.1 = [] ∨ so.1 = se.1 then tr1 else tr1 ++ [.opened se.1 se.2]
          let err1 : Option Dest := if se.1 = [] then c.stderr.map .wr else if so.1 = se.1 then out1 else some (.file se.1)
          let f1 := tryFn ctx true out1 c.stdoutFn
          let f2 := tryFn ctx false err1 c.stderrFn
          let out2 := f1.2.1.getD (if getVerbose ctx then .wr .indentOut else .buf)
          let err2 := f2.2.1.getD (if getVerbose ctx then .wr .indentErr else .buf)
          finishV os look ctx c cmdname args files2 (tr2 ++ f1.1 ++ f2.1) out2 err2

def VEff.erase : VEff → Option Eff
  | .eff e => some e
  | .says _ => none

def isClosed : Eff → Bool
  | .closed _ => true
  | _ => false

theorem text_run (t : Str) : Indent.sprintf "  Running command %s".toList [t] = "  Running command ".toList ++ t := by
  have : ("  Running command %s".toList : Str) = "  Running command ".toList ++ ['%', 's'] := by decide
  rw [Indent.sprintf, this]
  simp [Indent.sprint, Indent.verb, Indent.extra]

theorem text_wouldRun (t : Str) : Indent.sprintf "  Would run command %s".toList [t] = "  Would run command ".toList ++ t := by
  have : ("  Would run command %s".toList : Str) = "  Would run command ".toList ++ ['%', 's'] := by decide
  rw [Indent.sprintf, this]
  simp [Indent.sprint, Indent.verb, Indent.extra]

/-- The program that a command runs and its arguments (see C36). -/
def program (os : OS) (c : Command) : Str := if c.cmd = [] then (if os.shellVar = [] then "/bin/sh".toList else os.shellVar) else c.cmd
def arguments (c : Command) : List Str := if c.cmd = [] then ["-c".toList, c.shell] else c.args

/-- The two messages. -/
def running (os : OS) (look : Str → Option Str) (c : Command) : VEff := .says ("  Running command ".toList ++ cmdText look (program os c) (arguments c))
def wouldRun (os : OS) (look : Str → Option Str) (c : Command) : VEff := .says ("  Would run command ".toList ++ cmdText look (program os c) (arguments c))

theorem finishV_cases (os : OS) (look : Str → Option Str) (ctx : Ctx) (c : Command) (cmdname : Str) (args : List Str) (files : Str → Option Bytes) (tr : List Eff)
    (out err : Dest) :
    (c.stdinFile ≠ [] ∧ os.readFails c.stdinFile = true ∧ finishV os look ctx c cmdname args files tr out err =
      tr.map .eff ++ if getVerbose ctx then [.says ("  Running command ".toList ++ cmdText look cmdname args)] else []) ∨
    ∃ (rd : List Eff) (sp : Spawn), (∀ sp, .exec sp ∉ rd) ∧ sp.name = cmdname ∧ sp.args = args ∧ finishV os look ctx c cmdname args files tr out err =
      (tr.map .eff ++ if getVerbose ctx then [.says ("  Running command ".toList ++ cmdText look cmdname args)] else []) ++ (rd.map .eff ++ [.eff (.exec sp)]) := by
  unfold finishV
  dsimp only
  rw [text_run]
  by_cases hrf : c.stdinFile ≠ [] ∧ os.readFails c.stdinFile = true
  · rw [if_pos hrf]
    exact .inl ⟨hrf.1, hrf.2, rfl⟩
  · rw [if_neg hrf]
    by_cases hs : c.stdinFile = []
    · exact .inr ⟨[], _, by simp, rfl, rfl, by simp only [ne_eq, hs, not_true_eq_false, if_false, List.append_nil, List.map_nil, List.nil_append]; rfl⟩
    · exact .inr ⟨[.openedRead c.stdinFile], _, by simp, rfl, rfl, by
        simp only [ne_eq, hs, not_false_eq_true, if_true, List.append_assoc, List.map_cons, List.map_nil]; rfl⟩

theorem runV_cases (os : OS) (look : Str → Option Str) (ctx : Ctx) (c : Command) :
    (getDryRun ctx = true ∧ runV os look ctx c = if getVerbose ctx then [wouldRun os look c] else []) ∨
    (getDryRun ctx = false ∧ ∃ tr : List Eff, (∀ sp, .exec sp ∉ tr) ∧ runV os look ctx c = tr.map .eff) ∨
    (getDryRun ctx = false ∧ c.stdinFile ≠ [] ∧ os.readFails c.stdinFile = true ∧ ∃ tr : List Eff, (∀ sp, .exec sp ∉ tr) ∧
      runV os look ctx c = tr.map .eff ++ if getVerbose ctx then [running os look c] else []) ∨
    (getDryRun ctx = false ∧ ∃ (tr : List Eff) (rd : List Eff) (sp : Spawn), (∀ sp, .exec sp ∉ tr) ∧ (∀ sp, .exec sp ∉ rd) ∧ sp.name = program os c ∧ sp.args = arguments c ∧
      runV os look ctx c = (tr.map .eff ++ if getVerbose ctx then [running os look c] else []) ++ (rd.map .eff ++ [.eff (.exec sp)])) := by
  unfold runV running wouldRun program arguments
  dsimp only
  rw [text_wouldRun]
  by_cases hd : getDryRun ctx = true
  · rw [if_pos hd]; exact .inl ⟨hd, rfl⟩
  rw [if_neg hd]
  rw [Bool.not_eq_true] at hd
  right
  by_cases hdis : (parseFile c.stdoutFile).1 = (parseFile c.stderrFile).1 ∧ (parseFile c.stdoutFile).2 ≠ (parseFile c.stderrFile).2
  · rw [if_pos hdis]; exact .inl ⟨hd, [], by simp, rfl⟩
  rw [if_neg hdis]
  generalize (if (parseFile c.stdoutFile).1 = [] then some os.files else openWrite os os.files (parseFile c.stdoutFile).1 (parseFile c.stdoutFile).2) = x1
  cases x1 with
  | none => exact .inl ⟨hd, [], by simp, rfl⟩
  | some files1 =>
  dsimp only
  have n1 : ∀ sp, Eff.exec sp ∉ (if (parseFile c.stdoutFile).1 = [] then ([] : List Eff) else [.opened (parseFile c.stdoutFile).1 (parseFile c.stdoutFile).2]) := by
    intro sp; split <;> simp
  generalize (if (parseFile c.stdoutFile).1 = [] then ([] : List Eff) else [.opened (parseFile c.stdoutFile).1 (parseFile c.stdoutFile).2]) = tr1 at n1 ⊢
  generalize (if (parseFile c.stderrFile).1 = [] ∨ (parseFile c.stdoutFile).1 = (parseFile c.stderrFile).1 then some files1
    else openWrite os files1 (parseFile c.stderrFile).1 (parseFile c.stderrFile).2) = x2
  cases x2 with
  | none => exact .inl ⟨hd, tr1, n1, rfl⟩
  | some files2 =>
  dsimp only
  right
  have n2 : ∀ sp, Eff.exec sp ∉ (if (parseFile c.stderrFile).1 = [] ∨ (parseFile c.stdoutFile).1 = (parseFile c.stderrFile).1 then tr1
        else tr1 ++ [.opened (parseFile c.stderrFile).1 (parseFile c.stderrFile).2]) := by
    intro sp
    split
    · exact n1 sp
    · simpa using n1 sp
  generalize (if (parseFile c.stderrFile).1 = [] ∨ (parseFile c.stdoutFile).1 = (parseFile c.stderrFile).1 then tr1
        else tr1 ++ [.opened (parseFile c.stderrFile).1 (parseFile c.stderrFile).2]) = tr2 at n2 ⊢
  generalize (if (parseFile c.stdoutFile).1 = [] then c.stdout.map Dest.wr else some (.file (parseFile c.stdoutFile).1)) = o1
  generalize (if (parseFile c.stderrFile).1 = [] then c.stderr.map Dest.wr else
    if (parseFile c.stdoutFile).1 = (parseFile c.stderrFile).1 then o1 else some (.file (parseFile c.stderrFile).1)) = e1
  have n3 : ∀ sp, Eff.exec sp ∉ tr2 ++ (tryFn ctx true o1 c.stdoutFn).1 ++ (tryFn ctx false e1 c.stderrFn).1 := by
    intro sp
    rw [List.mem_append, List.mem_append]
    rintro ((h | h) | h)
    · exact n2 sp h
    · exact tryFn_noexec h
    · exact tryFn_noexec h
  generalize tr2 ++ (tryFn ctx true o1 c.stdoutFn).1 ++ (tryFn ctx false e1 c.stderrFn).1 = tr3 at n3 ⊢
  rcases finishV_cases os look ctx c (if c.cmd = [] then if os.shellVar = [] then "/bin/sh".toList else os.shellVar else c.cmd)
      (if c.cmd = [] then ["-c".toList, c.shell] else c.args) files2 tr3 ((tryFn ctx true o1 c.stdoutFn).2.1.getD (if getVerbose ctx = true then Dest.wr Wr.indentOut else Dest.buf))
      ((tryFn ctx false e1 c.stderrFn).2.1.getD (if getVerbose ctx = true then Dest.wr Wr.indentErr else Dest.buf)) with ⟨h1, h2, h3⟩ | ⟨rd, sp, h1, h2, h3, h4⟩
  · exact .inl ⟨hd, h1, h2, tr3, n3, h3⟩
  · exact .inr ⟨hd, tr3, rd, sp, n3, h1, h2, h3, h4⟩

theorem mem_map_eff {tr : List Eff} {e : Eff} : VEff.eff e ∈ tr.map VEff.eff ↔ e ∈ tr := by simp
theorem says_map_eff {tr : List Eff} {t : Str} : VEff.says t ∉ tr.map VEff.eff := by simp

/-- **C86.** In verbose mode a command that starts its process says so first, with the program and the arguments with which it is started. -/
theorem C86_command_complete (os : OS) (look : Str → Option Str) (ctx : Ctx) (c : Command) (hv : getVerbose ctx = true) {sp : Spawn}
    (h : .eff (.exec sp) ∈ runV os look ctx c) :
    ∃ a b, runV os look ctx c = a ++ .says ("  Running command ".toList ++ joinWith [' '] ((look sp.name).getD sp.name :: sp.args)) :: b ∧ .eff (.exec sp) ∈ b := by
  rcases runV_cases os look ctx c with ⟨-, hr⟩ | ⟨-, tr, n, hr⟩ | ⟨-, -, -, tr, n, hr⟩ | ⟨-, tr, rd, sp', n, n', h1, h2, hr⟩
  · rw [hr, if_pos hv] at h; simp [wouldRun] at h
  · rw [hr, mem_map_eff] at h; exact absurd h (n sp)
  · rw [hr, if_pos hv, List.mem_append, mem_map_eff] at h
    rcases h with h | h
    · exact absurd h (n sp)
    · simp [running] at h
  · have : sp = sp' := by
      rw [hr, if_pos hv] at h
      simp only [List.mem_append, mem_map_eff, List.mem_singleton, running, reduceCtorEq, or_false, VEff.eff.injEq, Eff.exec.injEq] at h
      rcases h with h | h | h
      · exact absurd h (n sp)
      · exact absurd h (n' sp)
      · exact h
    subst this
    refine ⟨tr.map .eff, rd.map .eff ++ [.eff (.exec sp)], ?_, by simp⟩
    rw [hr, if_pos hv, h1, h2]
    simp [running, cmdText]

/-- **C86.** A command prints at most one line, and only in verbose mode: in a dry run `Would run command ...`, and nothing else happens; otherwise `Running command ...`, and
what follows is that the process is started, unless its input file cannot be opened. -/
theorem C86_command_true (os : OS) (look : Str → Option Str) (ctx : Ctx) (c : Command) {a b : List VEff} {t : Str} (h : runV os look ctx c = a ++ .says t :: b) :
    getVerbose ctx = true ∧ (∀ t', .says t' ∉ a ++ b) ∧ (∀ sp, .eff (.exec sp) ∉ a) ∧
    (getDryRun ctx = true → a = [] ∧ b = [] ∧ t = "  Would run command ".toList ++ joinWith [' '] ((look (program os c)).getD (program os c) :: arguments c)) ∧
    (getDryRun ctx = false → t = "  Running command ".toList ++ joinWith [' '] ((look (program os c)).getD (program os c) :: arguments c) ∧
      ((∃ sp, .eff (.exec sp) ∈ b ∧ sp.name = program os c ∧ sp.args = arguments c) ∨ b = [] ∧ c.stdinFile ≠ [] ∧ os.readFails c.stdinFile = true)) := by
  have uniq : ∀ {x y : List VEff} {u : Str}, (∀ t', .says t' ∉ x) → (∀ t', .says t' ∉ y) → x ++ .says u :: y = a ++ .says t :: b → a = x ∧ u = t ∧ b = y := by
    intro x y u hx hy he
    rcases List.append_eq_append_iff.1 he with ⟨z, rfl, hz⟩ | ⟨z, rfl, hz⟩
    · cases z with
      | nil => simp only [List.nil_append, List.cons.injEq, VEff.says.injEq] at hz; exact ⟨by simp, hz.1, hz.2.symm⟩
      | cons v z =>
        rw [List.cons_append, List.cons.injEq] at hz
        exact absurd (by rw [hz.2]; simp) (hy t)
    · cases z with
      | nil => simp only [List.nil_append, List.cons.injEq, VEff.says.injEq] at hz; exact ⟨by simp, hz.1.symm, hz.2⟩
      | cons v z =>
        rw [List.cons_append, List.cons.injEq] at hz
        exact absurd (by rw [hz.1]; simp) (hx t)
  rcases runV_cases os look ctx c with ⟨hd, hr⟩ | ⟨hd, tr, n, hr⟩ | ⟨hd, hi, hrf, tr, n, hr⟩ | ⟨hd, tr, rd, sp', n, n', h1, h2, hr⟩
  · rw [hr] at h
    cases hv : getVerbose ctx with
    | false => rw [hv] at h; simp at h
    | true =>
      rw [hv, if_pos rfl] at h
      obtain ⟨rfl, rfl, rfl⟩ := uniq (x := []) (y := []) (by simp) (by simp) h
      exact ⟨rfl, by simp, by simp, fun _ => ⟨rfl, rfl, rfl⟩, fun hd' => by rw [hd] at hd'; cases hd'⟩
  · rw [hr] at h
    exact absurd (by rw [h]; simp) (says_map_eff (tr := tr) (t := t))
  · rw [hr] at h
    cases hv : getVerbose ctx with
    | false =>
      rw [hv] at h
      exact absurd (by simp only [Bool.false_eq_true, if_false, List.append_nil] at h; rw [h]; simp) (says_map_eff (tr := tr) (t := t))
    | true =>
      rw [hv, if_pos rfl] at h
      obtain ⟨rfl, rfl, rfl⟩ := uniq (x := tr.map .eff) (y := []) (by simp) (by simp) h
      exact ⟨rfl, by simp, fun sp hs => n sp (mem_map_eff.1 hs), fun hd' => (by rw [hd] at hd'; cases hd'), fun _ => ⟨rfl, .inr ⟨rfl, hi, hrf⟩⟩⟩
  · rw [hr] at h
    cases hv : getVerbose ctx with
    | false =>
      rw [hv] at h
      exfalso
      simp only [Bool.false_eq_true, if_false, List.append_nil] at h
      have : VEff.says t ∈ tr.map VEff.eff ++ (rd.map VEff.eff ++ [.eff (.exec sp')]) := by rw [h]; simp
      simp at this
    | true =>
      rw [hv, if_pos rfl, List.append_assoc] at h
      simp only [running, List.singleton_append] at h
      obtain ⟨rfl, rfl, rfl⟩ := uniq (x := tr.map .eff) (y := rd.map .eff ++ [.eff (.exec sp')]) (by simp) (by simp) h
      exact ⟨rfl, by simp, fun sp hs => n sp (mem_map_eff.1 hs), fun hd' => (by rw [hd] at hd'; cases hd'),
        fun _ => ⟨rfl, .inl ⟨sp', by simp, h1, h2⟩⟩⟩

theorem erase_map (tr : List Eff) : (tr.map VEff.eff).filterMap VEff.erase = tr := by
  induction tr with
  | nil => rfl
  | cons x tr ih => rw [List.map_cons, List.filterMap_cons]; simp only [VEff.erase, ih]

theorem erase_said (b : Bool) (t : Str) : (if b = true then [VEff.says t] else []).filterMap VEff.erase = [] := by cases b <;> rfl

theorem filter_open {tr : List Eff} (h : ∀ e ∈ tr, isClosed e = false) : tr.filter (fun e => !isClosed e) = tr := by
  rw [List.filter_eq_self]; intro e he; simp [h e he]

theorem tryFn_open {ctx : Ctx} {b : Bool} {cur : Option Dest} {fn : Option (Ctx → Option Wr)} : ∀ e ∈ (tryFn ctx b cur fn).1, isClosed e = false := by
  unfold tryFn
  split
  · split <;> simp [isClosed]
  · simp

theorem closeAll_closed (os : OS) (l : List Wr) (e : Option CErr) : (closeAll os l e).1.filter (fun e => !isClosed e) = [] := by
  induction l generalizing e with
  | nil => rfl
  | cons w l ih =>
    unfold closeAll
    split
    · exact ih e
    · dsimp only; rw [List.filter_cons, if_neg (by simp [isClosed])]; exact ih _

/-- The model is that of C36: with the messages left out here, and the closing of writers left out there, the effects are the same. -/
theorem runV_agrees (os : OS) (look : Str → Option Str) (ctx : Ctx) (c : Command) :
    (runV os look ctx c).filterMap VEff.erase = (run os ctx c).trace.filter (fun e => !isClosed e) := by
  unfold runV run
  dsimp only
  by_cases hd : getDryRun ctx = true
  · rw [if_pos hd, if_pos hd]; split <;> rfl
  rw [if_neg hd, if_neg hd]
  by_cases hdis : (parseFile c.stdoutFile).1 = (parseFile c.stderrFile).1 ∧ (parseFile c.stdoutFile).2 ≠ (parseFile c.stderrFile).2
  · rw [if_pos hdis, if_pos hdis]; rfl
  rw [if_neg hdis, if_neg hdis]
  generalize (if (parseFile c.stdoutFile).1 = [] then some os.files else openWrite os os.files (parseFile c.stdoutFile).1 (parseFile c.stdoutFile).2) = x1
  cases x1 with
  | none => rfl
  | some files1 =>
  dsimp only
  have n1 : ∀ e ∈ (if (parseFile c.stdoutFile).1 = [] then ([] : List Eff) else [.opened (parseFile c.stdoutFile).1 (parseFile c.stdoutFile).2]), isClosed e = false := by
    split <;> simp [isClosed]
  generalize (if (parseFile c.stdoutFile).1 = [] then ([] : List Eff) else [.opened (parseFile c.stdoutFile).1 (parseFile c.stdoutFile).2]) = tr1 at n1 ⊢
  generalize (if (parseFile c.stderrFile).1 = [] ∨ (parseFile c.stdoutFile).1 = (parseFile c.stderrFile).1 then some files1
    else openWrite os files1 (parseFile c.stderrFile).1 (parseFile c.stderrFile).2) = x2
  cases x2 with
  | none => dsimp only; rw [erase_map, filter_open n1]
  | some files2 =>
  dsimp only
  have n2 : ∀ e ∈ (if (parseFile c.stderrFile).1 = [] ∨ (parseFile c.stdoutFile).1 = (parseFile c.stderrFile).1 then tr1
        else tr1 ++ [.opened (parseFile c.stderrFile).1 (parseFile c.stderrFile).2]), isClosed e = false := by
    split
    · exact n1
    · intro e he
      rcases List.mem_append.1 he with he | he
      · exact n1 e he
      · rw [List.mem_singleton.1 he]; rfl
  generalize (if (parseFile c.stderrFile).1 = [] ∨ (parseFile c.stdoutFile).1 = (parseFile c.stderrFile).1 then tr1
        else tr1 ++ [.opened (parseFile c.stderrFile).1 (parseFile c.stderrFile).2]) = tr2 at n2 ⊢
  generalize (if (parseFile c.stdoutFile).1 = [] then c.stdout.map Dest.wr else some (.file (parseFile c.stdoutFile).1)) = o1
  generalize (if (parseFile c.stderrFile).1 = [] then c.stderr.map Dest.wr else
    if (parseFile c.stdoutFile).1 = (parseFile c.stderrFile).1 then o1 else some (.file (parseFile c.stderrFile).1)) = e1
  have n3 : ∀ e ∈ tr2 ++ (tryFn ctx true o1 c.stdoutFn).1 ++ (tryFn ctx false e1 c.stderrFn).1, isClosed e = false := by
    intro e he
    rw [List.mem_append, List.mem_append] at he
    rcases he with (h | h) | h
    · exact n2 e h
    · exact tryFn_open e h
    · exact tryFn_open e h
  generalize tr2 ++ (tryFn ctx true o1 c.stdoutFn).1 ++ (tryFn ctx false e1 c.stderrFn).1 = tr3 at n3 ⊢
  unfold finishV finishRun
  dsimp only
  by_cases hrf : c.stdinFile ≠ [] ∧ os.readFails c.stdinFile = true
  · rw [if_pos hrf, if_pos hrf]
    dsimp only
    rw [List.filterMap_append, erase_map, erase_said, List.filter_append, filter_open n3, closeAll_closed]
  · rw [if_neg hrf, if_neg hrf]
    dsimp only
    rw [List.filterMap_append, List.filterMap_append, List.filterMap_append, erase_map, erase_said, List.filter_append, closeAll_closed, List.filter_append,
      List.filter_append, filter_open n3]
    by_cases hs : c.stdinFile = []
    · simp only [if_neg (not_not.2 hs), List.append_nil]; rfl
    · simp only [ne_eq, hs, not_false_eq_true, if_true, List.append_nil]; rfl

/-! ### Concrete cases -/

/-- the shell is found at its own path -/
def sayLook (n : Str) : Option Str := if n = "make".toList then some "/usr/bin/make".toList else none

def sayCmd : Command := { cmd := "make".toList, args := ["-k".toList, "all".toList], stdoutFile := "log".toList }

-- the file is opened, the line is printed, the process is started
example : runV exOS sayLook (withVerbose .root true) sayCmd = [.eff (.opened "log".toList false), .says "  Running command /usr/bin/make -k all".toList,
    .eff (.exec ⟨"make".toList, ["-k".toList, "all".toList], [], ["A=B".toList], .null, .file "log".toList, .wr .indentErr⟩)] := by decide +kernel
-- in a dry run only the line is printed
example : runV exOS sayLook (withDryRun (withVerbose .root true) true) sayCmd = [.says "  Would run command /usr/bin/make -k all".toList] := by decide +kernel
-- not verbose: no line
example : runV exOS sayLook .root sayCmd = [.eff (.opened "log".toList false),
    .eff (.exec ⟨"make".toList, ["-k".toList, "all".toList], [], ["A=B".toList], .null, .file "log".toList, .buf⟩)] := by decide +kernel

/-- **C86 (finding).** The line `Running command ...` is printed although nothing is run: when the file named by `StdinFile` cannot be opened. -/
theorem C86_finding_not_run : ∃ (os : OS) (look : Str → Option Str) (ctx : Ctx) (c : Command) (t : Str), getVerbose ctx = true ∧ getDryRun ctx = false ∧
    .says ("  Running command ".toList ++ t) ∈ runV os look ctx c ∧ ∀ sp, .exec sp ∉ (run os ctx c).trace := by
  refine ⟨{ exOS with readFails := fun _ => true }, sayLook, withVerbose .root true, { sayCmd with stdinFile := "gone".toList }, "/usr/bin/make -k all".toList,
    by decide, by decide, by decide +kernel, fun sp => ?_⟩
  have : (run { exOS with readFails := fun _ => true } (withVerbose .root true) { sayCmd with stdinFile := "gone".toList }).trace = [.opened "log".toList false] := by
    decide +kernel
  rw [this]
  simp

end Command
end Fab.Says
