import Verif.FS
import Verif.Base

/-!
# Compiling the driver (/repo/compile.go:55-312): C68, C69

`CompilePackage` as a sequence of operations on the file system, each of which may fail, and between which anything else may happen on
the disk outside of the temporary directory: the user edits files, other fab processes compile drivers, too.  A crash is a run that goes on
no more.

Parameters: the files embedded in fab (embeds.go:5-9); the targets found (see Verif.Driver.Targets); the text of driver.go for them; the Go
tool.

Simplifications:
* a file is read, and written, at one moment; what an operation that fails leaves in the temporary directory is arbitrary;
* the temporary directory is a parameter; `os.MkdirTemp` makes it if there is nothing there, and nobody else makes or changes anything in it;
* no symbolic links;
* `go build` is a function of the files in the temporary directory (the environment and the module cache do not change its result);
* the binary is called "x" (on Windows, it would be "x.exe").
-/

namespace Fab.Compile
open Fab

/-- Where something is: the names from the root (or from the temporary directory). -/
abbrev Pos := List Str

inductive Node where
  | dir
  | file (b : Bytes)
deriving DecidableEq

/-- What there is on the disk; or in the temporary directory, relative to it. -/
abbrev Disk := Pos → Option Node

/-- strings -/
def sGo : Str := ".go".toList
def sTest : Str := "_test.go".toList
def sFab : Str := "fab".toList
def sPkg : Str := "pkg".toList
def sDriver : Str := "driver.go".toList
def sMod : Str := "go.mod".toList
def sSum : Str := "go.sum".toList
def sX : Str := "x".toList

/-! ## The model -/

/-- The Go tool, and the code that edits go.mod. -/
structure Tool where
  /-- `mf.AddReplace("github.com/bobg/fab", "", "./fab", "")` on the text of go.mod, compile.go:224-234; `none`: an error -/
  addReplace : Bytes → Option Bytes
  /-- the text of go.mod says that the module github.com/bobg/fab is in ./fab -/
  Replaces : Bytes → Prop
  /-- what `go build` makes of the files in a directory; `none`: it reports errors -/
  build : Disk → Option Bytes

/-- One call of `CompilePackage`. -/
structure Cfg where
  tool : Tool
  /-- the files embedded in fab -/
  embeds : Forest
  /-- the name of the user's package, and the directory with its code -/
  name : Str
  pkgdir : Pos
  /-- names and docs of the targets, compile.go:117-149 -/
  targets : List (Str × Str)
  /-- the template driver.go.tmpl, filled in with a package name and targets -/
  render : Str → List (Str × Str) → Bytes
  /-- where the result goes -/
  binfile : Pos
  /-- the temporary directory -/
  tmp : Pos
  /-- May the file system report only when a file is closed that it could not be written? -/
  lossy : Bool

/-- A replacement takes effect. -/
def Tool.Lawful (T : Tool) : Prop := ∀ b b', T.addReplace b = some b' → T.Replaces b'

/-- Operations; positions are relative to the temporary directory. -/
inductive Op where
  | mkdirTemp
  | mkdirAll (r : Pos)
  | writeFile (r : Pos) (b : Bytes)
  | readDir
  | copyFile (name : Str) (r : Pos)
  | writeDriver
  | modInit
  | readMod
  | tidy
  | build
  | rename
  | removeAll
deriving DecidableEq

inductive Resp where
  | err
  | ok
  | listing (es : List (Str × Bool))
  | bytes (b : Bytes)

/-- Has the result been put into place by this operation? -/
def placed : Op → Resp → Bool
  | .rename, .ok => true
  | _, _ => false

def put (d : Disk) (p : Pos) (n : Option Node) : Disk := fun q => if q = p then n else d q

/-- The files in the temporary directory. -/
def tree (C : Cfg) (d : Disk) : Disk := fun r => d (C.tmp ++ r)

/-- What an operation on the disk `d` may do: the response, and the disk then. -/
inductive Does (C : Cfg) : Op → Disk → Resp → Disk → Prop
  /-- an operation fails, and may have done something in the temporary directory -/
  | fail (o d d') (h : ∀ p, ¬ C.tmp <+: p → d' p = d p) (h1 : o ≠ .mkdirTemp) (h2 : o ≠ .rename) : Does C o d .err d'
  /-- `os.MkdirTemp`, compile.go:151 -/
  | failTemp (d) : Does C .mkdirTemp d .err d
  | mkdirTemp (d) (h : ∀ p, C.tmp <+: p → d p = none) : Does C .mkdirTemp d .ok (put d C.tmp (some .dir))
  /-- `os.MkdirAll`: compile.go:162, 265 -/
  | mkdirAll (d r) (h : ∀ p b, p <+: r → d (C.tmp ++ p) ≠ some (.file b)) :
      Does C (.mkdirAll r) d .ok (fun q => if C.tmp <+: q ∧ q <+: C.tmp ++ r ∧ d q = none then some .dir else d q)
  /-- `os.WriteFile`: compile.go:235, 288 -/
  | writeFile (d r b) (h : d (C.tmp ++ r) ≠ some .dir) : Does C (.writeFile r b) d .ok (put d (C.tmp ++ r) (some (.file b)))
  /-- `os.ReadDir`: compile.go:166 -/
  | readDir (d es) (h : ∀ f isDir, (f, isDir) ∈ es ↔ ∃ n, d (C.pkgdir ++ [f]) = some n ∧ isDir = decide (n = .dir)) :
      Does C .readDir d (.listing es) d
  /-- `copyFile`: compile.go:296-312; the file must not exist -/
  | copyFile (d f r b) (h : d (C.pkgdir ++ [f]) = some (.file b)) (h2 : d (C.tmp ++ r ++ [f]) = none) :
      Does C (.copyFile f r) d .ok (put d (C.tmp ++ r ++ [f]) (some (.file b)))
  /-- `copyFile` does not look at the result of `out.Close()`: compile.go:302 -/
  | copyLost (d f r b b') (h : d (C.pkgdir ++ [f]) = some (.file b)) (h2 : d (C.tmp ++ r ++ [f]) = none) (h3 : C.lossy = true) (h4 : b' <+: b) :
      Does C (.copyFile f r) d .ok (put d (C.tmp ++ r ++ [f]) (some (.file b')))
  /-- driver.go: compile.go:194-210.  `maps.Values` (compile.go:191) returns the targets in any order. -/
  | writeDriver (d order) (h : order.Perm C.targets) (h2 : d (C.tmp ++ [sDriver]) ≠ some .dir) :
      Does C .writeDriver d .ok (put d (C.tmp ++ [sDriver]) (some (.file (C.render C.name order))))
  /-- `go mod init x`: compile.go:212-217 -/
  | modInit (d b) (h : d (C.tmp ++ [sMod]) = none) : Does C .modInit d .ok (put d (C.tmp ++ [sMod]) (some (.file b)))
  /-- `os.ReadFile`: compile.go:220 -/
  | readMod (d b) (h : d (C.tmp ++ [sMod]) = some (.file b)) : Does C .readMod d (.bytes b) d
  /-- `go mod tidy`: compile.go:239-244.  It writes go.mod and go.sum, and keeps replacements. -/
  | tidy (d b b' s) (h : d (C.tmp ++ [sMod]) = some (.file b)) (h2 : C.tool.Replaces b → C.tool.Replaces b') :
      Does C .tidy d .ok (put (put d (C.tmp ++ [sMod]) (some (.file b'))) (C.tmp ++ [sSum]) (some (.file s)))
  /-- `go build`: compile.go:246-251 -/
  | build (d b) (h : C.tool.build (tree C d) = some b) : Does C .build d .ok (put d (C.tmp ++ [sX]) (some (.file b)))
  /-- `os.Rename`: compile.go:253 -/
  | failRename (d) : Does C .rename d .err d
  | rename (d b) (h : d (C.tmp ++ [sX]) = some (.file b)) (h2 : d C.binfile ≠ some .dir) :
      Does C .rename d .ok (put (put d (C.tmp ++ [sX]) none) C.binfile (some (.file b)))
  /-- the deferred `os.RemoveAll`: compile.go:155 -/
  | removeAll (d d') (h : ∀ p, d' p = if C.tmp <+: p then none else d p) : Does C .removeAll d .ok d'

/-- A program: what remains to be done.  `ret` is the result (is it nil?) and whether the temporary directory could be removed, if there was one. -/
inductive Prog where
  | ret (ok removed : Bool)
  | op (o : Op) (k : Resp → Prog)

/-- The deferred `os.RemoveAll(tmpdir)`, compile.go:155, at the end -/
def cleanup (res : Bool) : Prog := .op .removeAll fun r => match r with
  | .err => .ret res false
  | _ => .ret res true

/-- An operation after which, on an error, `CompilePackage` returns the error. -/
def andThen (o : Op) (k : Resp → Prog) : Prog := .op o fun r => match r with
  | .err => cleanup false
  | r => k r

/-- The loop of `populateFabSubdir`, compile.go:272-293, followed by `k`; a call for a directory, compile.go:264-271, is `mkdirAll` and the loop -/
def popEntries (dest : Pos) (k : Prog) : Forest → Prog
  | .nil => k
  | .file n _ b rest =>
    if sTest.isSuffixOf n then popEntries dest k rest
    else andThen (.writeFile (dest ++ [n]) b) fun _ => popEntries dest k rest
  | .dir n _ sub rest => andThen (.mkdirAll (dest ++ [n])) fun _ => popEntries (dest ++ [n]) (popEntries dest k rest) sub

/-- `populateFabDir`: compile.go:260-262 -/
def populate (emb : Forest) (k : Prog) : Prog := andThen (.mkdirAll [sFab]) fun _ => popEntries [sFab] k emb

/-- The loop over the user's files: compile.go:171-184 -/
def copyAll (name : Str) (k : Prog) : List (Str × Bool) → Prog
  | [] => k
  | (f, isDir) :: es =>
    if isDir then copyAll name k es
    else if sTest.isSuffixOf f then copyAll name k es
    else if !sGo.isSuffixOf f then copyAll name k es
    else andThen (.copyFile f [sPkg, name]) fun _ => copyAll name k es

/-- compile.go:239-253 -/
def buildSteps : Prog :=
  andThen .tidy fun _ =>
  andThen .build fun _ =>
  .op .rename fun r => match r with
    | .err => cleanup false
    | _ => cleanup true

/-- compile.go:212-237 -/
def modSteps (C : Cfg) : Prog :=
  andThen .modInit fun _ =>
  andThen .readMod fun r => match r with
  | .bytes b =>
    match C.tool.addReplace b with
    | none => cleanup false
    | some b' => andThen (.writeFile [sMod] b') fun _ => buildSteps
  | _ => cleanup false

/-- `CompilePackage` from `os.MkdirTemp` on: compile.go:151-253 -/
def compileFrom (C : Cfg) : Prog :=
  .op .mkdirTemp fun r => match r with
  | .err => .ret false true
  | _ =>
    populate C.embeds <|
    andThen (.mkdirAll [sPkg, C.name]) fun _ =>
    andThen .readDir fun r => match r with
    | .listing es => copyAll C.name (andThen .writeDriver fun _ => modSteps C) es
    | _ => cleanup false

/-- What `packages.Load` and `parser.ParseDir` return. -/
structure Loaded where
  /-- how many packages there are, compile.go:65, and how many errors the (only) one has -/
  pkgs : Nat
  errors : Nat
  goFiles : List Str
  name : Str
  /-- the names of the packages that were parsed; `none`: an error -/
  parsed : Option (List Str)

/-- The checks at the beginning: compile.go:61-75 (`Compile`) and 81-112 (`CompilePackage`) -/
def checks (L : Loaded) : Bool :=
  L.pkgs == 1 && L.errors == 0 && !L.goFiles.isEmpty && match L.parsed with
    | none => false
    | some ps => ps.length == 1 && ps.contains L.name

/-- `Compile`: compile.go:55-254 -/
def compile (C : Cfg) (L : Loaded) : Prog := if checks L then compileFrom C else .ret false true

/-! ### Runs -/

/-- What others do leaves the temporary directory alone. -/
def Env (C : Cfg) (d d' : Disk) : Prop := ∀ p, C.tmp <+: p → d' p = d p

/-- A run from a program and a disk, while others may make the changes `others`: all the disks there were, the last one first; has the result been
put into place; what remains to be done; the disk now. -/
inductive Exec (C : Cfg) (others : Disk → Disk → Prop) (p : Prog) (d0 : Disk) : List Disk → Bool → Prog → Disk → Prop
  | start : Exec C others p d0 [d0] false p d0
  | env {H b q d d'} (h : Exec C others p d0 H b q d) (he : others d d') : Exec C others p d0 (d' :: H) b q d'
  | own {H b o k d r d'} (h : Exec C others p d0 H b (.op o k) d) (hd : Does C o d r d') :
      Exec C others p d0 (d' :: H) (b || placed o r) (k r) d'

/-! ## The specification -/

/-- The copy of an embedded file or directory: tests are left out. -/
def fabCopy (emb : Forest) (p : Pos) : Option Node :=
  match lookupFS (.dir true emb) p with
  | some (.dir _ _) => some .dir
  | some (.file _ b) => if sTest.isSuffixOf (p.getLast?.getD []) then none else some (.file b)
  | none => none

/-- A Go file that is not a test. -/
def Wanted (f : Str) : Prop := sGo <:+ f ∧ ¬ sTest <:+ f

/-- A directory with exactly these things in it: fab's own code in fab, the user's files `us` in pkg/NAME, and driver.go, go.mod, go.sum. -/
def sources (emb : Forest) (name : Str) (us : Str → Option Bytes) (driver gomod gosum : Option Bytes) : Disk := fun r =>
  if r = [] then some .dir
  else if r.head? = some sFab then fabCopy emb r.tail
  else if r = [sPkg] ∨ r = [sPkg, name] then some .dir
  else if r = [sDriver] then driver.map .file
  else if r = [sMod] then gomod.map .file
  else if r = [sSum] then gosum.map .file
  else if r.length = 3 ∧ [sPkg, name] <+: r then (r.getLast?.bind us).map .file
  else none

/-- These are the user's Go files without tests: those there were at a moment of the run, each with the contents that it had at a moment of
the run (or, if the file system loses data, a part of it). -/
structure UserFiles (C : Cfg) (H : List Disk) (us : Str → Option Bytes) : Prop where
  which : ∃ d ∈ H, ∀ f, (us f).isSome = true ↔ Wanted f ∧ ∃ b, d (C.pkgdir ++ [f]) = some (.file b)
  contents : ∀ f b, us f = some b → ∃ d ∈ H, ∃ b0, d (C.pkgdir ++ [f]) = some (.file b0) ∧ (b = b0 ∨ (C.lossy = true ∧ b <+: b0))

/-- What a directory must contain for the driver to be built from it. -/
def Good (C : Cfg) (H : List Disk) (t : Disk) : Prop :=
  ∃ us order gomod gosum, UserFiles C H us ∧ order.Perm C.targets ∧ C.tool.Replaces gomod ∧
    t = sources C.embeds C.name us (some (C.render C.name order)) (some gomod) (some gosum)

/-- A complete driver, built from the right files. -/
def Complete (C : Cfg) (H : List Disk) (n : Option Node) : Prop :=
  ∃ t b, Good C H t ∧ C.tool.build t = some b ∧ n = some (.file b)

/-- In each directory of the embedded files, the names differ (as in every file system). -/
def EmbedsOK : Forest → Prop
  | .nil => True
  | .file n _ _ rest => n ∉ rest.names ∧ EmbedsOK rest
  | .dir n _ sub rest => n ∉ rest.names ∧ EmbedsOK sub ∧ EmbedsOK rest

/-- The temporary directory has nothing to do with where the code comes from and where the driver goes to. -/
structure Cfg.OK (C : Cfg) : Prop where
  tool : C.tool.Lawful
  embeds : EmbedsOK C.embeds
  bin : ¬ C.tmp <+: C.binfile
  pkgdir : ∀ f, ¬ C.tmp <+: C.pkgdir ++ [f]

/-! ## Reasoning about programs -/

/-- What is known when a program is started in a temporary directory with the files `t`, after a history that includes `H`: whatever happens,
the result is put into place only once, only when it is complete; and at the end, it has been put into place if the result is nil. -/
def WP (C : Cfg) : Prog → Disk → List Disk → Bool → Prop
  | .ret ok removed, t, _, b => ok = b ∧ (removed = true → ∀ r, t r = none)
  | .op o k, t, H, b => ∀ d H', H ⊆ H' → d ∈ H' → tree C d = t → ∀ r d', Does C o d r d' →
      (placed o r = true → b = false ∧ Complete C H' (d' C.binfile)) ∧
      WP C (k r) (tree C d') (d' :: H') (b || placed o r)

variable {C : Cfg}

theorem tree_env {d d' : Disk} (h : Env C d d') : tree C d' = tree C d := funext fun _ => h _ (List.prefix_append _ _)

theorem exec_mem {E : Disk → Disk → Prop} {p : Prog} {d0 : Disk} {H : List Disk} {b : Bool} {q : Prog} {d : Disk} (h : Exec C E p d0 H b q d) : d ∈ H := by
  cases h <;> simp

/-- The rule is sound. -/
theorem wp_exec {E : Disk → Disk → Prop} (hE : ∀ d d', E d d' → Env C d d') {p : Prog} {d0 : Disk} (hw : ∀ H, WP C p (tree C d0) H false)
    {H : List Disk} {b : Bool} {q : Prog} {d : Disk} (h : Exec C E p d0 H b q d) :
    ∃ H0, H0 ⊆ H ∧ WP C q (tree C d) H0 b := by
  induction h with
  | start => exact ⟨_, List.Subset.refl _, hw _⟩
  | env h he ih =>
    obtain ⟨H0, hs, hw⟩ := ih
    exact ⟨H0, fun x hx => List.mem_cons_of_mem _ (hs hx), by rw [tree_env (hE _ _ he)]; exact hw⟩
  | own h hd ih =>
    obtain ⟨H0, hs, hw⟩ := ih
    exact ⟨_, List.Subset.refl _, (hw _ _ hs (exec_mem h) (Eq.refl _) _ _ hd).2⟩

theorem wp_cleanup_false (t : Disk) (H : List Disk) : WP C (cleanup false) t H false := by
  intro d H' _ _ _ r d' hd
  refine ⟨by simp [placed], ?_⟩
  cases hd with
  | fail => exact ⟨by simp [placed], by simp⟩
  | removeAll _ _ h => exact ⟨by simp [placed], fun _ _ => by simp [tree, h]⟩

theorem wp_cleanup_true (t : Disk) (H : List Disk) : WP C (cleanup true) t H true := by
  intro d H' _ _ _ r d' hd
  refine ⟨by simp [placed], ?_⟩
  cases hd with
  | fail => exact ⟨by simp [placed], by simp⟩
  | removeAll _ _ h => exact ⟨by simp [placed], fun _ _ => by simp [tree, h]⟩

/-- The rule for an operation in the middle. -/
theorem wp_andThen {o : Op} {k : Resp → Prog} {t : Disk} {H : List Disk} (ho : o ≠ .rename)
    (hk : ∀ d H' r d', H ⊆ H' → d ∈ H' → tree C d = t → Does C o d r d' → r ≠ .err → WP C (k r) (tree C d') (d' :: H') false) :
    WP C (andThen o k) t H false := by
  intro d H' hs hm ht r d' hd
  have e : placed o r = false := by
    cases o <;> first | rfl | exact absurd (Eq.refl _) ho
  refine ⟨fun h => by simp [e] at h, ?_⟩
  rw [e]
  cases r with
  | err => exact wp_cleanup_false _ _
  | ok => exact hk d H' _ d' hs hm ht hd (by simp)
  | listing es => exact hk d H' _ d' hs hm ht hd (by simp)
  | bytes b => exact hk d H' _ d' hs hm ht hd (by simp)

theorem tree_put (d : Disk) (r : Pos) (n : Option Node) : tree C (put d (C.tmp ++ r) n) = put (tree C d) r n := by
  funext q
  simp [tree, put]

/-! ## fab's own code -/

/-- The files `t`, with the copies of embedded files and directories at `dest`. -/
def overlay (t : Disk) (dest : Pos) (f : Forest) : Disk := fun r =>
  if dest <+: r then (fabCopy f (r.drop dest.length)).or (t r) else t r

theorem overlay_nil (t : Disk) (dest : Pos) (h : t dest = some .dir) : overlay t dest .nil = t := by
  funext r
  unfold overlay
  split
  · rename_i hp
    obtain ⟨s, rfl⟩ := hp
    simp only [List.drop_left]
    cases s with
    | nil => simp [fabCopy, lookupFS, h]
    | cons a s => simp [fabCopy, lookupFS, Forest.find]
  · rfl

theorem fabCopy_nil (f : Forest) : fabCopy f [] = some .dir := rfl

theorem fabCopy_cons (f : Forest) (m : Str) (s : Pos) : fabCopy f (m :: s) =
    match f.find m with
    | none => none
    | some (.file _ b) => if s = [] then (if sTest.isSuffixOf m then none else some (.file b)) else none
    | some (.dir _ sub) => fabCopy sub s := by
  unfold fabCopy
  simp only [lookupFS]
  cases hf : f.find m with
  | none => rfl
  | some it =>
    cases it with
    | file r b =>
      cases s with
      | nil => simp [lookupFS]
      | cons a s => simp [lookupFS]
    | dir r sub =>
      cases s with
      | nil => simp [lookupFS]
      | cons a s =>
        simp only [lookupFS]
        have : (m :: a :: s).getLast?.getD [] = (a :: s).getLast?.getD [] := by simp [List.getLast?_cons]
        rw [this]

theorem find_none {f : Forest} {n : Str} (h : n ∉ f.names) : f.find n = none := by
  induction f with
  | nil => rfl
  | file m r b rest ih =>
    simp only [Forest.names, List.mem_cons, not_or] at h
    simp [Forest.find, Ne.symm h.1, ih h.2]
  | dir m r sub rest _ ih =>
    simp only [Forest.names, List.mem_cons, not_or] at h
    simp [Forest.find, Ne.symm h.1, ih h.2]

theorem overlay_at (t : Disk) (dest s : Pos) (f : Forest) : overlay t dest f (dest ++ s) = (fabCopy f s).or (t (dest ++ s)) := by
  simp [overlay]

theorem overlay_other (t : Disk) (dest r : Pos) (f : Forest) (h : ¬ dest <+: r) : overlay t dest f r = t r := by simp [overlay, h]

theorem overlay_test (t : Disk) (dest : Pos) (n : Str) (rd : Bool) (b : Bytes) (rest : Forest) (hn : n ∉ rest.names) (h : sTest.isSuffixOf n = true) :
    overlay t dest (.file n rd b rest) = overlay t dest rest := by
  funext r
  by_cases hp : dest <+: r
  · obtain ⟨s, rfl⟩ := hp
    rw [overlay_at, overlay_at]
    cases s with
    | nil => rfl
    | cons m s =>
      rw [fabCopy_cons, fabCopy_cons]
      by_cases hm : n = m
      · subst hm
        rw [find_none hn]
        simp [Forest.find, h]
      · simp only [Forest.find, if_neg hm]
  · rw [overlay_other _ _ _ _ hp, overlay_other _ _ _ _ hp]

theorem overlay_file (t : Disk) (dest : Pos) (n : Str) (rd : Bool) (b : Bytes) (rest : Forest) (hn : n ∉ rest.names) (h : ¬ sTest.isSuffixOf n = true) :
    overlay t dest (.file n rd b rest) = overlay (put t (dest ++ [n]) (some (.file b))) dest rest := by
  funext r
  by_cases hp : dest <+: r
  · obtain ⟨s, rfl⟩ := hp
    rw [overlay_at, overlay_at]
    cases s with
    | nil => simp [fabCopy_nil]
    | cons m s =>
      rw [fabCopy_cons, fabCopy_cons]
      by_cases hm : n = m
      · subst hm
        rw [find_none hn]
        by_cases hs : s = []
        · subst hs
          simp [Forest.find, h, put]
        · simp [Forest.find, put, hs]
      · simp only [Forest.find, if_neg hm]
        have : put t (dest ++ [n]) (some (.file b)) (dest ++ m :: s) = t (dest ++ m :: s) := by
          simp [put, Ne.symm hm]
        rw [this]
  · rw [overlay_other _ _ _ _ hp, overlay_other _ _ _ _ hp]
    unfold put
    rw [if_neg]
    rintro rfl
    exact hp (List.prefix_append _ _)

theorem overlay_dir (t : Disk) (dest : Pos) (n : Str) (rd : Bool) (sub rest : Forest) (hn : n ∉ rest.names) :
    overlay t dest (.dir n rd sub rest) = overlay (overlay t (dest ++ [n]) sub) dest rest := by
  funext r
  by_cases hp : dest <+: r
  · obtain ⟨s, rfl⟩ := hp
    rw [overlay_at, overlay_at]
    cases s with
    | nil => simp [fabCopy_nil]
    | cons m s =>
      rw [fabCopy_cons, fabCopy_cons]
      by_cases hm : n = m
      · subst hm
        rw [find_none hn]
        have e : dest ++ n :: s = (dest ++ [n]) ++ s := by simp
        rw [e, overlay_at]
        simp [Forest.find]
      · simp only [Forest.find, if_neg hm]
        rw [overlay_other t (dest ++ [n])]
        rintro ⟨x, hx⟩
        simp at hx
        exact hm hx.1
  · rw [overlay_other _ _ _ _ hp, overlay_other _ _ _ _ hp, overlay_other]
    intro hx
    exact hp ((List.prefix_append _ _).trans hx)

/-- `mkdirAll` of a directory in an existing one -/
theorem tree_mkdir (d : Disk) (r : Pos) :
    tree C (fun q => if C.tmp <+: q ∧ q <+: C.tmp ++ r ∧ d q = none then some .dir else d q) =
      fun q => if q <+: r ∧ tree C d q = none then some .dir else tree C d q := by
  funext q
  by_cases h : q <+: r ∧ d (C.tmp ++ q) = none
  · simp [tree, h]
  · simp [tree, h, List.prefix_append_right_inj]

theorem wp_popEntries (f : Forest) (hf : EmbedsOK f) : ∀ (dest : Pos) (k : Prog) (t : Disk) (H : List Disk), (∀ q, q <+: dest → t q = some .dir) →
    (∀ H', H ⊆ H' → WP C k (overlay t dest f) H' false) → WP C (popEntries dest k f) t H false := by
  induction f with
  | nil =>
    intro dest k t H ht hk
    rw [popEntries]
    have := hk H (List.Subset.refl _)
    rwa [overlay_nil _ _ (ht _ (List.prefix_refl _))] at this
  | file n rd b rest ih =>
    intro dest k t H ht hk
    rw [popEntries]
    by_cases h : sTest.isSuffixOf n = true
    · rw [if_pos h]
      refine ih hf.2 _ _ _ _ ht fun H' hs => ?_
      rw [← overlay_test t dest n rd b rest hf.1 h]
      exact hk H' hs
    · rw [if_neg h]
      refine wp_andThen (by simp) fun d H' r d' hs hm hd hdo hr => ?_
      have e : tree C d' = put t (dest ++ [n]) (some (.file b)) := by
        cases hdo with
        | fail => exact absurd (Eq.refl _) hr
        | writeFile => rw [tree_put, hd]
      rw [e]
      refine ih hf.2 _ _ _ _ ?_ fun H'' hs' => ?_
      · intro q hq
        have : q ≠ dest ++ [n] := by
          rintro rfl
          have := hq.length_le
          simp at this
          omega
        simp [put, this, ht q hq]
      · rw [← overlay_file t dest n rd b rest hf.1 h]
        exact hk _ (fun x hx => hs' (List.mem_cons_of_mem _ (hs hx)))
  | dir n rd sub rest ihs ih =>
    intro dest k t H ht hk
    rw [popEntries]
    refine wp_andThen (by simp) fun d H' r d' hs hm hd hdo hr => ?_
    have e : (∀ b, t (dest ++ [n]) ≠ some (.file b)) ∧ tree C d' = fun q => if q <+: dest ++ [n] ∧ t q = none then some .dir else t q := by
      cases hdo with
      | fail => exact absurd (Eq.refl _) hr
      | mkdirAll _ _ h =>
        refine ⟨fun b => ?_, by rw [tree_mkdir, hd]⟩
        rw [← hd]
        exact h _ b (List.prefix_refl _)
    have e2 : tree C d' = put t (dest ++ [n]) (some .dir) := by
      rw [e.2]
      funext q
      by_cases hq : q = dest ++ [n]
      · subst hq
        cases ht : t (dest ++ [n]) with
        | none => simp [put]
        | some x =>
          cases x with
          | dir => simp [put]
          | file b => exact absurd ht (e.1 b)
      · have : ¬ (q <+: dest ++ [n] ∧ t q = none) := by
          rintro ⟨h1, h2⟩
          rcases List.prefix_concat_iff.1 h1 with h1 | h1
          · exact hq h1
          · rw [ht q h1] at h2
            cases h2
        rw [if_neg this]
        simp [put, hq]
    rw [e2]
    have e3 : overlay (put t (dest ++ [n]) (some .dir)) (dest ++ [n]) sub = overlay t (dest ++ [n]) sub := by
      funext q
      by_cases hp : (dest ++ [n]) <+: q
      · obtain ⟨s, rfl⟩ := hp
        rw [overlay_at, overlay_at]
        cases s with
        | nil => simp [fabCopy_nil]
        | cons a s => simp [put]
      · rw [overlay_other _ _ _ _ hp, overlay_other _ _ _ _ hp]
        unfold put
        rw [if_neg]
        rintro rfl
        exact hp (List.prefix_refl _)
    refine ihs hf.2.1 _ _ _ _ ?_ fun H'' hs' => ?_
    · intro q hq
      rcases List.prefix_concat_iff.1 hq with h1 | h1
      · simp [put, h1]
      · unfold put
        split
        · rfl
        · exact ht q h1
    · rw [e3]
      refine ih hf.2.2 _ _ _ _ ?_ fun H3 hs3 => ?_
      · intro q hq
        have hq' : ¬ (dest ++ [n]) <+: q := by
          intro h
          have := (h.trans hq).length_le
          simp at this
          omega
        rw [overlay_other _ _ _ _ hq']
        exact ht q hq
      · rw [← overlay_dir t dest n rd sub rest hf.1]
        exact hk _ (fun x hx => hs3 (hs' (List.mem_cons_of_mem _ (hs hx))))

/-! ## The stages -/

theorem sources_start (emb : Forest) (name : Str) (t : Disk) (h : ∀ r, t r = if r = [] then some .dir else none) :
    (fun q => if q <+: [sPkg, name] ∧ overlay (fun q => if q <+: [sFab] ∧ t q = none then some .dir else t q) [sFab] emb q = none then some .dir
      else overlay (fun q => if q <+: [sFab] ∧ t q = none then some .dir else t q) [sFab] emb q) =
    sources emb name (fun _ => none) none none none := by
  have hne : sPkg ≠ sFab := by decide
  funext r
  cases r with
  | nil => simp [sources, overlay, h]
  | cons a p =>
    by_cases ha : a = sFab
    · subst ha
      have e : overlay (fun q => if q <+: [sFab] ∧ t q = none then some .dir else t q) [sFab] emb (sFab :: p) = fabCopy emb p := by
        have := overlay_at (fun q => if q <+: [sFab] ∧ t q = none then some .dir else t q) [sFab] p emb
        rw [List.singleton_append] at this
        rw [this]
        cases p with
        | nil => simp [fabCopy_nil]
        | cons b p => simp [h]
      rw [e]
      simp [sources, Ne.symm hne]
    · have e : overlay (fun q => if q <+: [sFab] ∧ t q = none then some .dir else t q) [sFab] emb (a :: p) = none := by
        rw [overlay_other _ _ _ _ (by simp [Ne.symm ha])]
        simp [h, ha]
      rw [e]
      have e2 : (a :: p <+: [sPkg, name]) ↔ (a :: p = [sPkg] ∨ a :: p = [sPkg, name]) := by
        cases p with
        | nil => simp
        | cons b p =>
          cases p with
          | nil => simp
          | cons c p => simp
      by_cases hp : a :: p = [sPkg] ∨ a :: p = [sPkg, name]
      · simp [sources, ha, e2]
      · rw [if_neg (fun h => hp (e2.1 h.1))]
        unfold sources
        rw [if_neg (by simp), if_neg (by simp [ha]), if_neg hp]
        simp

/-- The contents of the copied files. -/
def Contents (C : Cfg) (H : List Disk) (us : Str → Option Bytes) : Prop :=
  ∀ f b, us f = some b → ∃ d ∈ H, ∃ b0, d (C.pkgdir ++ [f]) = some (.file b0) ∧ (b = b0 ∨ (C.lossy = true ∧ b <+: b0))

theorem Contents.mono {H H' : List Disk} {us : Str → Option Bytes} (h : Contents C H us) (hs : H ⊆ H') : Contents C H' us := fun f b hu => by
  obtain ⟨d, hd, r⟩ := h f b hu
  exact ⟨d, hs hd, r⟩

theorem put_user (emb : Forest) (name : Str) (us : Str → Option Bytes) (f : Str) (b : Bytes) :
    put (sources emb name us none none none) [sPkg, name, f] (some (.file b)) =
      sources emb name (fun g => if g = f then some b else us g) none none none := by
  have hne : sPkg ≠ sFab := by decide
  funext r
  unfold put
  by_cases hr : r = [sPkg, name, f]
  · subst hr
    simp [sources, hne]
  · rw [if_neg hr]
    unfold sources
    by_cases h3 : r.length = 3 ∧ [sPkg, name] <+: r
    · obtain ⟨g, rfl⟩ : ∃ g, r = [sPkg, name, g] := by
        obtain ⟨s, rfl⟩ := h3.2
        have := h3.1
        cases s with
        | nil => simp at this
        | cons g s => cases s with
          | nil => exact ⟨g, Eq.refl _⟩
          | cons _ _ => simp at this
      have : g ≠ f := by rintro rfl; exact hr (Eq.refl _)
      simp [this]
    · simp only [if_neg h3]

theorem isSuffixOf_false {x y : Str} (h : ¬ x.isSuffixOf y = true) : ¬ x <:+ y := fun h' => h (List.isSuffixOf_iff_suffix.2 h')

theorem wp_copyAll (k : Prog) (es : List (Str × Bool)) : ∀ (pre : List (Str × Bool)) (us : Str → Option Bytes) (H : List Disk),
    (∀ f, (us f).isSome = true ↔ (f, false) ∈ pre ∧ Wanted f) → Contents C H us →
    (∀ us' H', H ⊆ H' → (∀ f, (us' f).isSome = true ↔ (f, false) ∈ pre ++ es ∧ Wanted f) → Contents C H' us' →
      WP C k (sources C.embeds C.name us' none none none) H' false) →
    WP C (copyAll C.name k es) (sources C.embeds C.name us none none none) H false := by
  induction es with
  | nil =>
    intro pre us H hp hc hk
    exact hk us H (List.Subset.refl _) (by simpa using hp) hc
  | cons e es ih =>
    intro pre us H hp hc hk
    obtain ⟨f, isDir⟩ := e
    have skip : ¬ (isDir = false ∧ Wanted f) → WP C (copyAll C.name k es) (sources C.embeds C.name us none none none) H false := by
      intro hn
      refine ih (pre ++ [(f, isDir)]) us H ?_ hc fun us' H' hs hu hc' => hk us' H' hs (by simpa using hu) hc'
      intro g
      rw [hp g]
      simp only [List.mem_append, List.mem_singleton, Prod.mk.injEq]
      constructor
      · rintro ⟨h1, h2⟩; exact ⟨.inl h1, h2⟩
      · rintro ⟨h1 | ⟨rfl, rfl⟩, h2⟩
        · exact ⟨h1, h2⟩
        · exact absurd ⟨Eq.refl _, h2⟩ hn
    rw [copyAll]
    by_cases h1 : isDir = true
    · rw [if_pos h1]; exact skip (by simp [h1])
    rw [if_neg h1]
    by_cases h2 : sTest.isSuffixOf f = true
    · rw [if_pos h2]; exact skip (fun h => h.2.2 (List.isSuffixOf_iff_suffix.1 h2))
    rw [if_neg h2]
    by_cases h3 : (!sGo.isSuffixOf f) = true
    · rw [if_pos h3]
      exact skip (fun h => by simp [List.isSuffixOf_iff_suffix.2 h.2.1] at h3)
    rw [if_neg h3]
    have hw : Wanted f := ⟨List.isSuffixOf_iff_suffix.1 (by simpa using h3), isSuffixOf_false h2⟩
    refine wp_andThen (by simp) fun d H' r d' hs hm hd hdo hr => ?_
    obtain ⟨b, b0, hb0, hb, e⟩ : ∃ b b0, d (C.pkgdir ++ [f]) = some (.file b0) ∧ (b = b0 ∨ (C.lossy = true ∧ b <+: b0)) ∧
        tree C d' = put (sources C.embeds C.name us none none none) [sPkg, C.name, f] (some (.file b)) := by
      cases hdo with
      | fail => exact absurd (Eq.refl _) hr
      | copyFile _ _ _ b h h2 =>
        refine ⟨b, b, h, .inl (Eq.refl _), ?_⟩
        rw [List.append_assoc, tree_put, hd]; rfl
      | copyLost _ _ _ b b' h h2 h3 h4 =>
        refine ⟨b', b, h, .inr ⟨h3, h4⟩, ?_⟩
        rw [List.append_assoc, tree_put, hd]; rfl
    rw [e, put_user]
    refine ih (pre ++ [(f, false)]) _ _ ?_ ?_ ?_
    · intro g
      by_cases hg : g = f
      · subst hg; simp [hw]
      · simp [hg, hp g]
    · intro g c hg
      by_cases hgf : g = f
      · subst hgf
        simp only [if_pos] at hg
        cases hg
        exact ⟨d, List.mem_cons_of_mem _ hm, b0, hb0, hb⟩
      · simp only [if_neg hgf] at hg
        exact (hc.mono (fun x hx => List.mem_cons_of_mem _ (hs hx))) g c hg
    · intro us' H'' hs' hu hc'
      refine hk us' H'' (fun x hx => hs' (List.mem_cons_of_mem _ (hs hx))) ?_ hc'
      have e1 : isDir = false := by simpa using h1
      subst e1
      simpa using hu

theorem put_driver (emb : Forest) (name : Str) (us : Str → Option Bytes) (b : Bytes) :
    put (sources emb name us none none none) [sDriver] (some (.file b)) = sources emb name us (some b) none none := by
  have h1 : sDriver ≠ sFab := by decide
  have h2 : sDriver ≠ sPkg := by decide
  funext r
  unfold put sources
  by_cases hr : r = [sDriver]
  · subst hr; simp [h1, h2]
  · simp only [if_neg hr]

theorem put_mod (emb : Forest) (name : Str) (us : Str → Option Bytes) (dr gm gs : Option Bytes) (b : Bytes) :
    put (sources emb name us dr gm gs) [sMod] (some (.file b)) = sources emb name us dr (some b) gs := by
  have h1 : sMod ≠ sFab := by decide
  have h2 : sMod ≠ sPkg := by decide
  have h3 : sMod ≠ sDriver := by decide
  funext r
  unfold put sources
  by_cases hr : r = [sMod]
  · subst hr; simp [h1, h2, h3]
  · simp only [if_neg hr]

theorem put_sum (emb : Forest) (name : Str) (us : Str → Option Bytes) (dr gm gs : Option Bytes) (b : Bytes) :
    put (sources emb name us dr gm gs) [sSum] (some (.file b)) = sources emb name us dr gm (some b) := by
  have h1 : sSum ≠ sFab := by decide
  have h2 : sSum ≠ sPkg := by decide
  have h3 : sSum ≠ sDriver := by decide
  have h4 : sSum ≠ sMod := by decide
  funext r
  unfold put sources
  by_cases hr : r = [sSum]
  · subst hr; simp [h1, h2, h3, h4]
  · simp only [if_neg hr]

theorem sources_mod (emb : Forest) (name : Str) (us : Str → Option Bytes) (dr gm gs : Option Bytes) :
    sources emb name us dr gm gs [sMod] = gm.map .file := by
  have h1 : sMod ≠ sFab := by decide
  have h2 : sMod ≠ sPkg := by decide
  have h3 : sMod ≠ sDriver := by decide
  simp [sources, h1, h2, h3]

theorem UserFiles.mono {H H' : List Disk} {us : Str → Option Bytes} (h : UserFiles C H us) (hs : H ⊆ H') : UserFiles C H' us := by
  obtain ⟨⟨d, hd, hw⟩, hc⟩ := h
  exact ⟨⟨d, hs hd, hw⟩, Contents.mono hc hs⟩

theorem wp_buildSteps {H : List Disk} {us : Str → Option Bytes} {order : List (Str × Str)} {gm : Bytes} (hu : UserFiles C H us)
    (ho : order.Perm C.targets) (hg : C.tool.Replaces gm) :
    WP C buildSteps (sources C.embeds C.name us (some (C.render C.name order)) (some gm) none) H false := by
  refine wp_andThen (by simp) fun d H' r d' hs hm hd hdo hr => ?_
  obtain ⟨gm', gs, hg', e⟩ : ∃ gm' gs, C.tool.Replaces gm' ∧ tree C d' = sources C.embeds C.name us (some (C.render C.name order)) (some gm') (some gs) := by
    cases hdo with
    | fail => exact absurd (Eq.refl _) hr
    | tidy _ b b' s h h2 =>
      refine ⟨b', s, h2 ?_, ?_⟩
      · have : tree C d [sMod] = some (.file b) := h
        rw [hd, sources_mod] at this
        cases this
        exact hg
      · rw [tree_put, tree_put, hd, put_mod, put_sum]
  rw [e]
  refine wp_andThen (by simp) fun d2 H2 r2 d2' hs2 hm2 hd2 hdo2 hr2 => ?_
  obtain ⟨b, hb, hx⟩ : ∃ b, C.tool.build (tree C d2) = some b ∧ tree C d2' [sX] = some (.file b) := by
    cases hdo2 with
    | fail => exact absurd (Eq.refl _) hr2
    | build _ b h => exact ⟨b, h, by simp [tree, put]⟩
  intro d3 H3 hs3 hm3 hd3 r3 d3' hdo3
  have hH : H ⊆ H3 := fun x hx => hs3 (List.mem_cons_of_mem _ (hs2 (List.mem_cons_of_mem _ (hs hx))))
  cases hdo3 with
  | fail _ _ _ _ _ h => exact absurd (Eq.refl _) h
  | failRename => exact ⟨by simp [placed], wp_cleanup_false _ _⟩
  | rename _ c h h2 =>
    refine ⟨fun _ => ⟨Eq.refl _, tree C d2, b, ⟨us, order, gm', gs, hu.mono hH, ho, hg', hd2⟩, hb, ?_⟩, wp_cleanup_true _ _⟩
    have : tree C d3 [sX] = some (.file c) := h
    rw [hd3, hx] at this
    cases this
    simp [put]

theorem wp_modSteps (hC : C.OK) {H : List Disk} {us : Str → Option Bytes} {order : List (Str × Str)} (hu : UserFiles C H us) (ho : order.Perm C.targets) :
    WP C (modSteps C) (sources C.embeds C.name us (some (C.render C.name order)) none none) H false := by
  refine wp_andThen (by simp) fun d H' r d' hs hm hd hdo hr => ?_
  obtain ⟨gm, e⟩ : ∃ gm, tree C d' = sources C.embeds C.name us (some (C.render C.name order)) (some gm) none := by
    cases hdo with
    | fail => exact absurd (Eq.refl _) hr
    | modInit _ b h => exact ⟨b, by rw [tree_put, hd, put_mod]⟩
  rw [e]
  refine wp_andThen (by simp) fun d2 H2 r2 d2' hs2 hm2 hd2 hdo2 hr2 => ?_
  cases hdo2 with
  | fail => exact absurd (Eq.refl _) hr2
  | readMod _ b h =>
    dsimp only
    cases ha : C.tool.addReplace b with
    | none => exact wp_cleanup_false _ _
    | some b' =>
      dsimp only
      rw [hd2]
      refine wp_andThen (by simp) fun d3 H3 r3 d3' hs3 hm3 hd3 hdo3 hr3 => ?_
      have e3 : tree C d3' = sources C.embeds C.name us (some (C.render C.name order)) (some b') none := by
        cases hdo3 with
        | fail => exact absurd (Eq.refl _) hr3
        | writeFile => rw [tree_put, hd3, put_mod]
      rw [e3]
      exact wp_buildSteps (hu.mono fun x hx => List.mem_cons_of_mem _ (hs3 (List.mem_cons_of_mem _ (hs2 (List.mem_cons_of_mem _ (hs hx)))))) ho
        (hC.tool b b' ha)

theorem wp_compileFrom (hC : C.OK) (t : Disk) (H : List Disk) (ht : ∀ r, t r = none) : WP C (compileFrom C) t H false := by
  intro d H' hs hm hd r d' hdo
  cases hdo with
  | fail _ _ _ _ h => exact absurd (Eq.refl _) h
  | failTemp => exact ⟨by simp [placed], Eq.refl _, fun _ r => by rw [hd]; exact ht r⟩
  | mkdirTemp _ h =>
    refine ⟨by simp [placed], ?_⟩
    dsimp only
    have e1 : ∀ r, tree C (put d C.tmp (some .dir)) r = if r = [] then some .dir else none := by
      intro r
      have : tree C (put d C.tmp (some .dir)) = put (tree C d) [] (some .dir) := by
        have := tree_put (C := C) d [] (some .dir)
        rwa [List.append_nil] at this
      rw [this, hd]
      simp [put, ht]
    generalize tree C (put d C.tmp (some .dir)) = t1 at e1
    generalize (put d C.tmp (some .dir)) :: H' = H1
    refine wp_andThen (by simp) fun d2 H2 r2 d2' hs2 hm2 hd2 hdo2 hr2 => ?_
    have e2 : tree C d2' = fun q => if q <+: [sFab] ∧ t1 q = none then some .dir else t1 q := by
      cases hdo2 with
      | fail => exact absurd (Eq.refl _) hr2
      | mkdirAll => rw [tree_mkdir, hd2]
    rw [e2]
    refine wp_popEntries _ hC.embeds _ _ _ _ ?_ fun H3 hs3 => ?_
    · intro q hq
      cases q with
      | nil => simp [e1]
      | cons a q =>
        have : a :: q = [sFab] := by
          cases q with
          | nil => simpa using hq
          | cons b q => simp at hq
        simp [this, e1]
    refine wp_andThen (by simp) fun d4 H4 r4 d4' hs4 hm4 hd4 hdo4 hr4 => ?_
    have e4 : tree C d4' = sources C.embeds C.name (fun _ => none) none none none := by
      cases hdo4 with
      | fail => exact absurd (Eq.refl _) hr4
      | mkdirAll => rw [tree_mkdir, hd4, sources_start _ _ _ e1]
    rw [e4]
    refine wp_andThen (by simp) fun d5 H5 r5 d5' hs5 hm5 hd5 hdo5 hr5 => ?_
    cases hdo5 with
    | fail => exact absurd (Eq.refl _) hr5
    | readDir _ es h =>
      dsimp only
      rw [hd5]
      refine wp_copyAll _ es [] _ _ (by simp) (fun f b h => by simp at h) fun us H6 hs6 hu hc => ?_
      have hU : UserFiles C H6 us := by
        refine ⟨⟨d5, hs6 (List.mem_cons_self), fun f => ?_⟩, hc⟩
        rw [hu f, List.nil_append, h, and_comm]
        constructor
        · rintro ⟨hw, n, hn, hf⟩
          cases n with
          | dir => simp at hf
          | file b => exact ⟨hw, b, hn⟩
        · rintro ⟨hw, b, hb⟩
          exact ⟨hw, .file b, hb, by simp⟩
      refine wp_andThen (by simp) fun d7 H7 r7 d7' hs7 hm7 hd7 hdo7 hr7 => ?_
      cases hdo7 with
      | fail => exact absurd (Eq.refl _) hr7
      | writeDriver _ order ho _ =>
        rw [tree_put, hd7, put_driver]
        exact wp_modSteps hC (hU.mono fun x hx => List.mem_cons_of_mem _ (hs7 hx)) ho

theorem wp_compile (hC : C.OK) (L : Loaded) (t : Disk) (H : List Disk) (ht : ∀ r, t r = none) : WP C (compile C L) t H false := by
  unfold compile
  split
  · exact wp_compileFrom hC t H ht
  · exact ⟨Eq.refl _, fun _ => ht⟩

/-! ## What the operations leave alone -/

theorem does_frame {o : Op} {d d' : Disk} {r : Resp} (h : Does C o d r d') :
    ∀ p, ¬ C.tmp <+: p → (p = C.binfile → placed o r = false) → d' p = d p := by
  intro p hp hb
  have key : ∀ (e : Disk) (x : Pos) n, put e (C.tmp ++ x) n p = e p := by
    intro e x n
    unfold put
    rw [if_neg]
    rintro rfl
    exact hp (List.prefix_append _ _)
  cases h with
  | fail _ _ _ h => exact h p hp
  | failTemp => rfl
  | mkdirTemp =>
    have := key d [] (some .dir)
    rwa [List.append_nil] at this
  | mkdirAll => simp [hp]
  | writeFile => exact key _ _ _
  | readDir => rfl
  | copyFile => rw [List.append_assoc]; exact key _ _ _
  | copyLost => rw [List.append_assoc]; exact key _ _ _
  | writeDriver => exact key _ _ _
  | modInit => exact key _ _ _
  | readMod => rfl
  | tidy => rw [key, key]
  | build => exact key _ _ _
  | failRename => rfl
  | rename _ b h h2 =>
    have : p ≠ C.binfile := fun e => by have := hb e; simp [placed] at this
    have e1 : put (put d (C.tmp ++ [sX]) none) C.binfile (some (.file b)) p = put d (C.tmp ++ [sX]) none p := by simp [put, this]
    rw [e1, key]
  | removeAll _ _ h => rw [h, if_neg hp]

/-- There is nothing where the temporary directory is going to be. -/
def Fresh (C : Cfg) (d : Disk) : Prop := ∀ p, C.tmp <+: p → d p = none

theorem Complete.mono {H H' : List Disk} {n : Option Node} (h : Complete C H n) (hs : H ⊆ H') : Complete C H' n := by
  obtain ⟨t, b, ⟨us, order, gm, gs, hu, r⟩, h2⟩ := h
  exact ⟨t, b, ⟨us, order, gm, gs, hu.mono hs, r⟩, h2⟩

theorem compile_wp (hC : C.OK) (L : Loaded) {d0 : Disk} (hf : Fresh C d0) (H : List Disk) : WP C (compile C L) (tree C d0) H false :=
  wp_compile hC L _ H fun _ => hf _ (List.prefix_append _ _)

/-! ## C68 -/

/-- **C68, every operation.** Whatever failed before, and whatever others did meanwhile (outside of the temporary directory): an operation of
`Compile` changes nothing outside of the temporary directory, except that it may replace the result as a whole by a complete driver, if it has not
done so before. -/
theorem C68_operation (hC : C.OK) (L : Loaded) {d0 : Disk} (hf : Fresh C d0) {H : List Disk} {b : Bool} {o : Op} {k : Resp → Prog} {d d' : Disk} {r : Resp}
    (h : Exec C (Env C) (compile C L) d0 H b (.op o k) d) (hd : Does C o d r d') :
    (∀ p, ¬ C.tmp <+: p → p ≠ C.binfile → d' p = d p) ∧
    (d' C.binfile = d C.binfile ∨ (b = false ∧ Complete C H (d' C.binfile))) := by
  refine ⟨fun p hp hb => does_frame hd p hp fun e => absurd e hb, ?_⟩
  obtain ⟨H0, hs, hw⟩ := wp_exec (fun _ _ h => h) (compile_wp hC L hf) h
  have := (hw d H hs (exec_mem h) (Eq.refl _) r d' hd).1
  by_cases hp : placed o r = true
  · exact .inr (this hp)
  · exact .inl (does_frame hd _ hC.bin fun _ => by simpa using hp)

/-- Others touch neither the temporary directory nor the result. -/
def Calm (C : Cfg) (d d' : Disk) : Prop := Env C d d' ∧ d' C.binfile = d C.binfile

/-- **C68, every moment.** At every moment, so also after a crash, the driver is the old one or a complete new one; when `Compile` returns nil, it is a
complete new one, and when it returns an error, it is the old one.  (While it runs, anything else on the disk may change.) -/
theorem C68_old_or_new (hC : C.OK) (L : Loaded) {d0 : Disk} (hf : Fresh C d0) {H : List Disk} {b : Bool} {q : Prog} {d : Disk}
    (h : Exec C (Calm C) (compile C L) d0 H b q d) :
    (d C.binfile = d0 C.binfile ∨ Complete C H (d C.binfile)) ∧
    (∀ removed, q = .ret true removed → Complete C H (d C.binfile)) ∧
    (∀ removed, q = .ret false removed → d C.binfile = d0 C.binfile) := by
  have inv : ∀ {H b q d}, Exec C (Calm C) (compile C L) d0 H b q d → (b = false → d C.binfile = d0 C.binfile) ∧ (b = true → Complete C H (d C.binfile)) := by
    intro H b q d h
    induction h with
    | start => exact ⟨fun _ => Eq.refl _, by simp⟩
    | env h he ih =>
      rw [he.2]
      exact ⟨ih.1, fun hb => (ih.2 hb).mono fun x hx => List.mem_cons_of_mem _ hx⟩
    | @own H b o k d r d' h hd ih =>
      obtain ⟨H0, hs, hw⟩ := wp_exec (fun _ _ h => h.1) (compile_wp hC L hf) h
      have hc := (hw d H hs (exec_mem h) (Eq.refl _) r d' hd).1
      by_cases hp : placed o r = true
      · rw [hp]
        exact ⟨by simp, fun _ => (hc hp).2.mono fun x hx => List.mem_cons_of_mem _ hx⟩
      · have hp : placed o r = false := by simpa using hp
        rw [hp, Bool.or_false, does_frame hd _ hC.bin fun _ => hp]
        exact ⟨ih.1, fun hb => (ih.2 hb).mono fun x hx => List.mem_cons_of_mem _ hx⟩
  obtain ⟨H0, hs, hw⟩ := wp_exec (fun _ _ h => h.1) (compile_wp hC L hf) h
  obtain ⟨h1, h2⟩ := inv h
  refine ⟨?_, ?_, ?_⟩
  · cases b with
    | false => exact .inl (h1 (Eq.refl _))
    | true => exact .inr (h2 (Eq.refl _))
  · rintro removed rfl
    exact h2 hw.1.symm
  · rintro removed rfl
    exact h1 hw.1.symm

/-- **C68, cleaning up.** When `Compile` has returned, whatever the result, there is no temporary directory (unless it could not be removed). -/
theorem C68_cleaned (hC : C.OK) (L : Loaded) {d0 : Disk} (hf : Fresh C d0) {H : List Disk} {b res : Bool} {d : Disk}
    (h : Exec C (Env C) (compile C L) d0 H b (.ret res true) d) : ∀ p, C.tmp <+: p → d p = none := by
  obtain ⟨H0, hs, hw⟩ := wp_exec (fun _ _ h => h) (compile_wp hC L hf) h
  rintro p ⟨r, rfl⟩
  exact hw.2 (Eq.refl _) r

/-- **C68, alone.** If nobody else writes anything, then an error leaves the disk as it was, and success changes nothing but the driver. -/
theorem C68_disk (hC : C.OK) (L : Loaded) {d0 : Disk} (hf : Fresh C d0) {H : List Disk} {b res : Bool} {d : Disk}
    (h : Exec C (fun _ _ => False) (compile C L) d0 H b (.ret res true) d) : d = if res then put d0 C.binfile (d C.binfile) else d0 := by
  have up : ∀ {H b q d}, Exec C (fun _ _ => False) (compile C L) d0 H b q d → Exec C (Calm C) (compile C L) d0 H b q d ∧
      ∀ p, ¬ C.tmp <+: p → p ≠ C.binfile → d p = d0 p := by
    intro H b q d h
    induction h with
    | start => exact ⟨.start, fun _ _ _ => Eq.refl _⟩
    | env h he ih => exact he.elim
    | own h hd ih =>
      refine ⟨.own ih.1 hd, fun p hp hb => ?_⟩
      rw [does_frame hd p hp fun e => absurd e hb]
      exact ih.2 p hp hb
  have up2 : ∀ {H b q d}, Exec C (Calm C) (compile C L) d0 H b q d → Exec C (Env C) (compile C L) d0 H b q d := by
    intro H b q d h
    induction h with
    | start => exact .start
    | env h he ih => exact .env ih he.1
    | own h hd ih => exact .own ih hd
  have hc := C68_cleaned hC L hf (up2 (up h).1)
  have hb := C68_old_or_new hC L hf (up h).1
  have hfr := (up h).2
  funext p
  by_cases hp : C.tmp <+: p
  · have hne : p ≠ C.binfile := by rintro rfl; exact hC.bin hp
    rw [hc p hp]
    cases res <;> simp [put, hne, hf p hp]
  · by_cases hpb : p = C.binfile
    · subst hpb
      cases res with
      | false => simpa using hb.2.2 true (Eq.refl _)
      | true => simp [put]
    · rw [hfr p hp hpb]
      cases res <;> simp [put, hpb]

/-- **C68, bad packages.** If the package cannot be loaded, has errors, has no Go files, cannot be parsed, or the directory does not contain just that
package, then `Compile` returns an error before it does anything. -/
theorem C68_bad_package (C : Cfg) (L : Loaded)
    (h : L.pkgs ≠ 1 ∨ L.errors ≠ 0 ∨ L.goFiles = [] ∨ L.parsed = none ∨ (∃ ps, L.parsed = some ps ∧ ps ≠ [L.name])) : compile C L = .ret false true := by
  unfold compile
  rw [if_neg]
  unfold checks
  rcases h with h | h | h | h | ⟨ps, h, h2⟩
  · simp [h]
  · simp [h]
  · simp [h]
  · simp [h]
  · rw [h]
    simp only [Bool.and_eq_true, not_and]
    intro _ h3
    have h3 := h3
    cases ps with
    | nil => simp at h3
    | cons a ps =>
      cases ps with
      | nil =>
        simp only [List.contains_iff_mem, List.mem_singleton]
        rintro rfl
        exact h2 (Eq.refl _)
      | cons _ _ => simp at h3

/-! ### Several at once -/

/-- Several calls of `Compile` (in one process or in several), each of which may come to a halt at any time, and others. -/
inductive Sys {ι : Type} [DecidableEq ι] (C : ι → Cfg) (L : ι → Loaded) (others : Disk → Disk → Prop) (d0 : Disk) : List Disk → (ι → Bool × Prog) → Disk → Prop
  | start : Sys C L others d0 [d0] (fun i => (false, compile (C i) (L i))) d0
  | env {H ps d d'} (h : Sys C L others d0 H ps d) (he : others d d') : Sys C L others d0 (d' :: H) ps d'
  | own {H ps d d' r o k} (i : ι) (h : Sys C L others d0 H ps d) (hi : (ps i).2 = .op o k) (hd : Does (C i) o d r d') :
      Sys C L others d0 (d' :: H) (fun j => if j = i then ((ps i).1 || placed o r, k r) else ps j) d'

/-- The temporary directories are apart from each other and from all results (as they are: they have random names, and were new). -/
structure Apart {ι : Type} (C : ι → Cfg) : Prop where
  tmp : ∀ i j, i ≠ j → ∀ p, (C i).tmp <+: p → ¬ (C j).tmp <+: p
  bin : ∀ i j, ¬ (C i).tmp <+: (C j).binfile

theorem sys_exec {ι : Type} [DecidableEq ι] {C : ι → Cfg} {L : ι → Loaded} {others : Disk → Disk → Prop} {d0 : Disk} (ha : Apart C)
    (ho : ∀ d d', others d d' → ∀ i, Env (C i) d d') {H : List Disk} {ps : ι → Bool × Prog} {d : Disk} (h : Sys C L others d0 H ps d) (i : ι) :
    Exec (C i) (Env (C i)) (compile (C i) (L i)) d0 H (ps i).1 (ps i).2 d := by
  induction h with
  | start => exact .start
  | env h he ih => exact .env ih (ho _ _ he i)
  | @own H ps d d' r o k j h hi hd ih =>
    by_cases hij : i = j
    · subst hij
      simp only [if_true]
      rw [hi] at ih
      exact .own ih hd
    · simp only [if_neg hij]
      refine .env ih fun p hp => does_frame hd p (ha.tmp i j hij p hp) fun e => ?_
      subst e
      exact absurd hp (ha.bin i j)

/-- **C68, at the same time.** However many calls of `Compile` there are, for the same driver or for others, at every moment each driver is the old one
or a complete new one that one of the calls made for it. -/
theorem C68_concurrent {ι : Type} [DecidableEq ι] (C : ι → Cfg) (L : ι → Loaded) (hC : ∀ i, (C i).OK) (ha : Apart C) (others : Disk → Disk → Prop)
    (bin : Pos) (ho : ∀ d d', others d d' → (∀ i, Env (C i) d d') ∧ d' bin = d bin) {d0 : Disk} (hf : ∀ i, Fresh (C i) d0) {H : List Disk}
    {ps : ι → Bool × Prog} {d : Disk} (h : Sys C L others d0 H ps d) (hb : ∀ i, ¬ (C i).tmp <+: bin) :
    d bin = d0 bin ∨ ∃ i, (C i).binfile = bin ∧ Complete (C i) H (d bin) := by
  induction h with
  | start => exact .inl (Eq.refl _)
  | env h he ih =>
    rw [(ho _ _ he).2]
    rcases ih with ih | ⟨i, h1, h2⟩
    · exact .inl ih
    · exact .inr ⟨i, h1, h2.mono fun x hx => List.mem_cons_of_mem _ hx⟩
  | @own H ps d d' r o k j h hi hd ih =>
    have he := sys_exec ha (fun d d' h => (ho d d' h).1) h j
    rw [hi] at he
    have hop := C68_operation (hC j) (L j) (hf j) he hd
    have same : d' bin = d bin → d' bin = d0 bin ∨ ∃ i, (C i).binfile = bin ∧ Complete (C i) (d' :: H) (d' bin) := by
      intro e
      rw [e]
      rcases ih with ih | ⟨i, h1, h2⟩
      · exact .inl ih
      · exact .inr ⟨i, h1, h2.mono fun x hx => List.mem_cons_of_mem _ hx⟩
    by_cases hbin : bin = (C j).binfile
    · subst hbin
      rcases hop.2 with h2 | ⟨_, h2⟩
      · exact same h2
      · exact .inr ⟨j, Eq.refl _, h2.mono fun x hx => List.mem_cons_of_mem _ hx⟩
    · exact same (hop.1 bin (hb j) hbin)

/-! ## C69 -/

/-- The user's Go files without tests, as they are on a disk. -/
def userFiles (C : Cfg) (d : Disk) (f : Str) : Option Bytes :=
  if sGo.isSuffixOf f ∧ ¬ sTest.isSuffixOf f then
    match d (C.pkgdir ++ [f]) with
    | some (.file b) => some b
    | _ => none
  else none

/-- Others touch neither the temporary directory, nor the result, nor the user's code. -/
def Quiet (C : Cfg) (d d' : Disk) : Prop := Calm C d d' ∧ ∀ f, d' (C.pkgdir ++ [f]) = d (C.pkgdir ++ [f])

/-- **C69, partial.** If nobody edits the user's code meanwhile, and the file system reports when it fails to write, then a driver that `Compile` has made
was built from a directory with exactly these things in it: a copy of fab's code without tests (which go.mod refers to), the user's Go files without
tests, and a main program for the user's targets. -/
theorem C69_built_from_partial (hC : C.OK) (L : Loaded) (hl : C.lossy = false) {d0 : Disk} (hf : Fresh C d0) (hb : ∀ f, C.pkgdir ++ [f] ≠ C.binfile)
    {H : List Disk} {b removed : Bool} {d : Disk} (h : Exec C (Quiet C) (compile C L) d0 H b (.ret true removed) d) :
    ∃ order gomod gosum bin, order.Perm C.targets ∧ C.tool.Replaces gomod ∧
      C.tool.build (sources C.embeds C.name (userFiles C d0) (some (C.render C.name order)) (some gomod) (some gosum)) = some bin ∧
      d C.binfile = some (.file bin) := by
  have up : ∀ {H b q d}, Exec C (Quiet C) (compile C L) d0 H b q d → Exec C (Calm C) (compile C L) d0 H b q d ∧
      (∀ d' ∈ H, ∀ f, d' (C.pkgdir ++ [f]) = d0 (C.pkgdir ++ [f])) := by
    intro H b q d h
    induction h with
    | start => exact ⟨.start, by simp⟩
    | env h he ih =>
      refine ⟨.env ih.1 he.1, fun d' hd f => ?_⟩
      rcases List.mem_cons.1 hd with rfl | hd
      · rw [he.2, ih.2 _ (exec_mem h)]
      · exact ih.2 d' hd f
    | own h hd ih =>
      refine ⟨.own ih.1 hd, fun d' hd' f => ?_⟩
      rcases List.mem_cons.1 hd' with rfl | hd'
      · rw [does_frame hd _ (hC.pkgdir f) fun e => absurd e (hb f), ih.2 _ (exec_mem h)]
      · exact ih.2 d' hd' f
  obtain ⟨h1, h2⟩ := up h
  obtain ⟨t, bin, ⟨us, order, gm, gs, hu, ho, hg, ht⟩, hbd, hbin⟩ := (C68_old_or_new hC L hf h1).2.1 removed (Eq.refl _)
  have hus : us = userFiles C d0 := by
    funext f
    obtain ⟨⟨dw, hdw, hw⟩, hc⟩ := hu
    have hwf := hw f
    rw [h2 dw hdw f] at hwf
    unfold userFiles
    cases huf : us f with
    | none =>
      rw [huf] at hwf
      by_cases hwt : Wanted f
      · have : ∀ b, d0 (C.pkgdir ++ [f]) ≠ some (.file b) := fun b hb => by
          have := hwf.2 ⟨hwt, b, hb⟩
          simp at this
        split
        · split
          · rename_i b hb; exact absurd hb (this b)
          · rfl
        · rfl
      · rw [if_neg]
        rintro ⟨a, b⟩
        exact hwt ⟨List.isSuffixOf_iff_suffix.1 a, isSuffixOf_false b⟩
    | some b =>
      obtain ⟨hwt, _⟩ := hwf.1 (by rw [huf]; rfl)
      rw [if_pos ⟨List.isSuffixOf_iff_suffix.2 hwt.1, fun h => hwt.2 (List.isSuffixOf_iff_suffix.1 h)⟩]
      obtain ⟨dd, hdd, b0, hb0, hbb⟩ := hc f b huf
      rw [h2 dd hdd f] at hb0
      rw [hb0]
      rcases hbb with rfl | ⟨h3, _⟩
      · rfl
      · rw [hl] at h3; cases h3
  subst hus
  rw [ht] at hbd
  exact ⟨order, gm, gs, bin, ho, hg, hbd, hbin⟩

/-- **C69, the copy of fab.** A driver can compile drivers in its turn: what is copied of the code that was copied is the same code. -/
theorem C69_copy_again (emb emb' : Forest) (h : ∀ p, fabCopy emb p = match lookupFS (.dir true emb') p with
    | some (.dir _ _) => some .dir
    | some (.file _ b) => some (.file b)
    | none => none) : ∀ p, fabCopy emb' p = fabCopy emb p := by
  intro p
  have hp := h p
  rw [h p]
  unfold fabCopy at hp ⊢
  cases he : lookupFS (.dir true emb') p with
  | none => rfl
  | some it =>
    cases it with
    | dir _ _ => rfl
    | file _ b =>
      rw [he] at hp
      dsimp only at hp ⊢
      rw [if_neg]
      intro ht
      cases h2 : lookupFS (.dir true emb) p with
      | none => rw [h2] at hp; cases hp
      | some it2 =>
        rw [h2] at hp
        cases it2 with
        | dir _ _ => cases hp
        | file _ c => dsimp only at hp; rw [if_pos ht] at hp; cases hp

/-! ### Runs that exist -/

/-- A run leads from a program and a disk to another. -/
def Leads (C : Cfg) (E : Disk → Disk → Prop) (p : Prog) (d : Disk) (q : Prog) (d' : Disk) : Prop := ∃ H b, Exec C E p d H b q d'

theorem Leads.trans {E : Disk → Disk → Prop} {p q s : Prog} {d d' d'' : Disk} (h1 : Leads C E p d q d') (h2 : Leads C E q d' s d'') : Leads C E p d s d'' := by
  obtain ⟨H2, b2, h2⟩ := h2
  induction h2 with
  | start => exact h1
  | env h he ih => obtain ⟨H, b, h⟩ := ih; exact ⟨_, _, .env h he⟩
  | own h hd ih => obtain ⟨H, b, h⟩ := ih; exact ⟨_, _, .own h hd⟩

theorem leads_refl {E : Disk → Disk → Prop} (p : Prog) (d : Disk) : Leads C E p d p d := ⟨_, _, .start⟩

theorem leads_env {E : Disk → Disk → Prop} {d d' : Disk} (p : Prog) (h : E d d') : Leads C E p d p d' := ⟨_, _, .env .start h⟩

theorem leads_op {E : Disk → Disk → Prop} {o : Op} {k : Resp → Prog} {d d' : Disk} {r : Resp} (h : Does C o d r d') : Leads C E (.op o k) d (k r) d' := ⟨_, _, .own .start h⟩

theorem leads_ok {E : Disk → Disk → Prop} {o : Op} {k : Resp → Prog} {d d' : Disk} (h : Does C o d .ok d') : Leads C E (andThen o k) d (k .ok) d' :=
  leads_op h

/-- strings of the examples -/
def sA : Str := "a.go".toList
def sB : Str := "b.go".toList
def sT : Str := "a_test.go".toList
def sM : Str := "main.go".toList
def sSub : Str := "sub".toList

/-- A Go tool that puts the user's two files into the binary. -/
def exTool : Tool where
  addReplace b := some (1 :: b)
  Replaces b := b.head? = some 1
  build t := match t [sPkg, ['u'], sA], t [sPkg, ['u'], sB], t [sFab, sSub, sM], t [sFab, sSub, sT] with
    | some (.file x), some (.file y), some (.file z), none => some (x ++ y ++ z)
    | _, _, _, _ => none

/-- Embedded files: a directory with a file and a test. -/
def exEmbeds : Forest := .dir sSub true (.file sM true [7] (.file sT true [8] .nil)) .nil

def exCfg (lossy : Bool) : Cfg := ⟨exTool, exEmbeds, ['u'], [['s']], [(['A'], [])], fun n ts => [UInt8.ofNat (n.length + ts.length)], [['b']], [['t']], lossy⟩

def exLoaded : Loaded := ⟨1, 0, ["/s/a.go".toList, "/s/b.go".toList], ['u'], some [['u']]⟩

/-- The disk: the user's files, with these contents; a test; an old driver; and the temporary directory. -/
def exDisk (x y : Bytes) (t : Disk) (bin : Bytes) : Disk
  | [] => some .dir
  | c :: r =>
    if c = ['t'] then t r
    else if c :: r = [['s']] then some .dir
    else if c :: r = [['s'], sA] then some (.file x)
    else if c :: r = [['s'], sB] then some (.file y)
    else if c :: r = [['s'], sT] then some (.file [9])
    else if c :: r = [['b']] then some (.file bin)
    else none

theorem exDisk_put (x y : Bytes) (t : Disk) (bin : Bytes) (r : Pos) (n : Option Node) :
    put (exDisk x y t bin) (['t'] :: r) n = exDisk x y (put t r n) bin := by
  funext q
  cases q with
  | nil => rfl
  | cons c q =>
    by_cases hc : c = ['t']
    · subst hc; simp [put, exDisk]
    · simp [put, exDisk, hc]

theorem exCfg_ok (lossy : Bool) : (exCfg lossy).OK where
  tool := fun b b' h => by cases h; rfl
  embeds := by simp [exCfg, exEmbeds, EmbedsOK, Forest.names]; decide
  bin := by simp [exCfg]
  pkgdir := fun f => by simp [exCfg]

theorem ex_fresh (lossy : Bool) (x y bin : Bytes) : Fresh (exCfg lossy) (exDisk x y (fun _ => none) bin) := by
  rintro p ⟨r, rfl⟩
  simp [exCfg, exDisk]

theorem ex_mkdir (E : Disk → Disk → Prop) (lossy : Bool) (x y bin : Bytes) (t : Disk) (r : Pos) (k : Resp → Prog) (h : ∀ p b, p <+: r → t p ≠ some (.file b)) :
    Leads (exCfg lossy) E (andThen (.mkdirAll r) k) (exDisk x y t bin) (k .ok)
      (exDisk x y (fun q => if q <+: r ∧ t q = none then some .dir else t q) bin) := by
  have := Does.mkdirAll (C := exCfg lossy) (exDisk x y t bin) r (by intro p b hp; simpa [exCfg, exDisk] using h p b hp)
  have e : (fun q => if (exCfg lossy).tmp <+: q ∧ q <+: (exCfg lossy).tmp ++ r ∧ exDisk x y t bin q = none then some Node.dir else exDisk x y t bin q) =
      exDisk x y (fun q => if q <+: r ∧ t q = none then some .dir else t q) bin := by
    funext q
    cases q with
    | nil => simp [exCfg, exDisk]
    | cons c q =>
      by_cases hc : c = ['t']
      · subst hc; simp [exCfg, exDisk]
      · simp [exCfg, exDisk, hc, Ne.symm hc]
  rw [e] at this
  exact leads_ok this

theorem ex_write (E : Disk → Disk → Prop) (lossy : Bool) (x y bin : Bytes) (t : Disk) (r : Pos) (b : Bytes) (k : Resp → Prog) (h : t r ≠ some .dir) :
    Leads (exCfg lossy) E (andThen (.writeFile r b) k) (exDisk x y t bin) (k .ok) (exDisk x y (put t r (some (.file b))) bin) := by
  have := Does.writeFile (C := exCfg lossy) (exDisk x y t bin) r b (by simpa [exCfg, exDisk] using h)
  rw [show (exCfg lossy).tmp ++ r = ['t'] :: r from Eq.refl _, exDisk_put] at this
  exact leads_ok this

theorem copyAll_wanted (name : Str) (k : Prog) (f : Str) (es : List (Str × Bool)) (h1 : sTest.isSuffixOf f = false) (h2 : sGo.isSuffixOf f = true) :
    copyAll name k ((f, false) :: es) = andThen (.copyFile f [sPkg, name]) fun _ => copyAll name k es := by
  simp [copyAll, h1, h2]

theorem copyAll_test (name : Str) (k : Prog) (f : Str) (es : List (Str × Bool)) (h1 : sTest.isSuffixOf f = true) :
    copyAll name k ((f, false) :: es) = copyAll name k es := by
  simp [copyAll, h1]

theorem ex_copy (E : Disk → Disk → Prop) (lossy : Bool) (x y bin : Bytes) (t : Disk) (f : Str) (b b' : Bytes) (k : Resp → Prog)
    (hb : exDisk x y t bin [['s'], f] = some (.file b)) (hb' : b' = b ∨ (lossy = true ∧ b' <+: b)) (ht : t [sPkg, ['u'], f] = none) :
    Leads (exCfg lossy) E (andThen (.copyFile f [sPkg, ['u']]) k) (exDisk x y t bin) (k .ok) (exDisk x y (put t [sPkg, ['u'], f] (some (.file b'))) bin) := by
  have h2 : exDisk x y t bin ((exCfg lossy).tmp ++ [sPkg, ['u']] ++ [f]) = none := by simpa [exCfg, exDisk] using ht
  rcases hb' with rfl | ⟨hl, hb'⟩
  · have := Does.copyFile (C := exCfg lossy) (exDisk x y t bin) f [sPkg, ['u']] b' hb h2
    rw [show (exCfg lossy).tmp ++ [sPkg, ['u']] ++ [f] = ['t'] :: [sPkg, ['u'], f] from Eq.refl _, exDisk_put] at this
    exact leads_ok this
  · have := Does.copyLost (C := exCfg lossy) (exDisk x y t bin) f [sPkg, ['u']] b b' hb h2 hl hb'
    rw [show (exCfg lossy).tmp ++ [sPkg, ['u']] ++ [f] = ['t'] :: [sPkg, ['u'], f] from Eq.refl _, exDisk_put] at this
    exact leads_ok this

theorem ex_rest (E : Disk → Disk → Prop) (lossy : Bool) (x y x' x2 y2 bin : Bytes) (hx : x' = x ∨ (lossy = true ∧ x' <+: x))
    (hE : (x2 = x ∧ y2 = y) ∨ ∀ t bin, E (exDisk x y t bin) (exDisk x2 y2 t bin)) (T : Disk)
    (t1 : T [sDriver] = none) (t2 : T [sMod] = none) (t3 : T [sPkg, ['u'], sA] = none) (t4 : T [sPkg, ['u'], sB] = none)
    (t5 : T [sFab, sSub, sM] = some (.file [7])) (t6 : T [sFab, sSub, sT] = none) :
    Leads (exCfg lossy) E (andThen .readDir fun r => match r with
      | .listing es => copyAll ['u'] (andThen .writeDriver fun _ => modSteps (exCfg lossy)) es
      | _ => cleanup false) (exDisk x y T bin) (.ret true true) (exDisk x2 y2 (fun _ => none) (x' ++ y2 ++ [7])) := by
  have n1 : sA ≠ sB := by decide
  have n2 : sDriver ≠ sMod := by decide
  have n3 : sMod ≠ sSum := by decide
  have n4 : sFab ≠ sPkg := by decide
  have n5 : sA ≠ sT := by decide
  have n6 : sB ≠ sT := by decide
  have hl : ∀ f isDir, (f, isDir) ∈ [(sA, false), (sB, false), (sT, false)] ↔ ∃ n, exDisk x y T bin ((exCfg lossy).pkgdir ++ [f]) = some n ∧ isDir = decide (n = .dir) := by
    intro f isDir
    simp only [exCfg, exDisk, List.cons_append, List.nil_append, List.mem_cons, Prod.mk.injEq, List.not_mem_nil, or_false, List.cons.injEq, and_true,
      show (['s'] : Str) ≠ ['t'] by decide, if_false, true_and, reduceCtorEq, and_false, show (['s'] : Str) ≠ ['b'] by decide]
    by_cases h1 : f = sA
    · subst h1; simp [n1, n5]
    · by_cases h2 : f = sB
      · subst h2; simp [n6, Ne.symm n1]
      · by_cases h3 : f = sT
        · subst h3; simp [Ne.symm n5, Ne.symm n6]
        · simp [h1, h2, h3]
  refine Leads.trans (leads_op (Does.readDir (C := exCfg lossy) _ _ hl)) ?_
  dsimp only
  rw [copyAll_wanted _ _ _ _ (by decide +kernel) (by decide +kernel)]
  refine Leads.trans (ex_copy _ _ _ _ _ _ _ x x' _ (by simp [exDisk]) hx t3) ?_
  have hedit : Leads (exCfg lossy) E (copyAll ['u'] (andThen .writeDriver fun _ => modSteps (exCfg lossy)) [(sB, false), (sT, false)])
      (exDisk x y (put T [sPkg, ['u'], sA] (some (.file x'))) bin)
      (copyAll ['u'] (andThen .writeDriver fun _ => modSteps (exCfg lossy)) [(sB, false), (sT, false)])
      (exDisk x2 y2 (put T [sPkg, ['u'], sA] (some (.file x'))) bin) := by
    rcases hE with ⟨rfl, rfl⟩ | hE
    · exact leads_refl _ _
    · exact leads_env _ (hE _ _)
  refine Leads.trans hedit ?_
  rw [copyAll_wanted _ _ _ _ (by decide +kernel) (by decide +kernel)]
  refine Leads.trans (ex_copy _ _ _ _ _ _ _ y2 y2 _ (by simp [exDisk, Ne.symm n1]) (.inl (Eq.refl _)) (by simp [put, Ne.symm n1, t4])) ?_
  rw [copyAll_test _ _ _ _ (by decide +kernel)]
  simp only [copyAll]
  -- driver.go
  have w := Does.writeDriver (C := exCfg lossy) (exDisk x2 y2 (put (put T [sPkg, ['u'], sA] (some (.file x'))) [sPkg, ['u'], sB] (some (.file y2))) bin) _ (List.Perm.refl _)
    (by simp [exCfg, exDisk, put, t1])
  rw [show (exCfg lossy).tmp ++ [sDriver] = ['t'] :: [sDriver] from Eq.refl _, exDisk_put] at w
  refine Leads.trans (leads_ok w) ?_
  clear w
  -- go.mod
  unfold modSteps
  have w := fun t (ht : t [sMod] = none) => Does.modInit (C := exCfg lossy) (exDisk x2 y2 t bin) [3] (by simpa [exCfg, exDisk] using ht)
  simp only [show (exCfg lossy).tmp ++ [sMod] = ['t'] :: [sMod] from Eq.refl _, exDisk_put] at w
  refine Leads.trans (leads_ok (w _ (by simp [put, t2, Ne.symm n2]))) ?_
  clear w
  refine Leads.trans (leads_op (Does.readMod (C := exCfg lossy) _ [3] (by simp [exCfg, exDisk, put]))) ?_
  dsimp only
  rw [show (exCfg lossy).tool.addReplace [3] = some [1, 3] from Eq.refl _]
  dsimp only
  refine Leads.trans (ex_write _ _ _ _ _ _ _ _ _ (by simp [put])) ?_
  unfold buildSteps
  have w := fun t (ht : t [sMod] = some (.file [1, 3])) => Does.tidy (C := exCfg lossy) (exDisk x2 y2 t bin) [1, 3] [1, 4] [5] (by simpa [exCfg, exDisk] using ht)
    (fun _ => Eq.refl _)
  simp only [show (exCfg lossy).tmp ++ [sMod] = ['t'] :: [sMod] from Eq.refl _, show (exCfg lossy).tmp ++ [sSum] = ['t'] :: [sSum] from Eq.refl _, exDisk_put] at w
  refine Leads.trans (leads_ok (w _ (by simp [put]))) ?_
  clear w
  have w := fun t (ht : exTool.build t = some (x' ++ y2 ++ [7])) => Does.build (C := exCfg lossy) (exDisk x2 y2 t bin) (x' ++ y2 ++ [7]) ht
  simp only [show (exCfg lossy).tmp ++ [sX] = ['t'] :: [sX] from Eq.refl _, exDisk_put] at w
  refine Leads.trans (leads_ok (w _ ?_)) ?_
  · simp [exTool, put, t5, t6, n1, n4]
  clear w
  generalize hD : exDisk x2 y2 _ bin = D
  have hx : D [['t'], sX] = some (.file (x' ++ y2 ++ [7])) := by rw [← hD]; simp [exDisk, put]
  have hbin : D [['b']] ≠ some .dir := by rw [← hD]; simp [exDisk]
  refine Leads.trans (leads_op (Does.rename (C := exCfg lossy) D _ hx hbin)) ?_
  dsimp only
  refine Leads.trans (leads_op (Does.removeAll (C := exCfg lossy) _ (exDisk x2 y2 (fun _ => none) (x' ++ y2 ++ [7])) ?_)) (leads_refl _ _)
  intro p
  subst hD
  cases p with
  | nil => simp [exCfg, exDisk, put]
  | cons c p =>
    by_cases hc : c = ['t']
    · subst hc; simp [exCfg, exDisk]
    · simp only [exCfg, exDisk, hc, put, List.cons_append, List.nil_append, List.cons.injEq, false_and, if_false, List.prefix_cons_iff]
      by_cases hb : c = ['b'] ∧ p = []
      · obtain ⟨rfl, rfl⟩ := hb
        simp
      · simp [hb, Ne.symm hc]

/-- A run: the user's first file is copied, whole or (if that is possible) in part; then the user's files are changed, if that is possible; then the
other one is copied, and the rest goes well. -/
theorem ex_run (E : Disk → Disk → Prop) (lossy : Bool) (x y x' x2 y2 bin : Bytes) (hx : x' = x ∨ (lossy = true ∧ x' <+: x))
    (hE : (x2 = x ∧ y2 = y) ∨ ∀ t bin, E (exDisk x y t bin) (exDisk x2 y2 t bin)) :
    Leads (exCfg lossy) E (compile (exCfg lossy) exLoaded) (exDisk x y (fun _ => none) bin) (.ret true true) (exDisk x2 y2 (fun _ => none) (x' ++ y2 ++ [7])) := by
  have hck : checks exLoaded = true := by decide +kernel
  have hcomp : compile (exCfg lossy) exLoaded = compileFrom (exCfg lossy) := by unfold compile; rw [if_pos hck]
  rw [hcomp]
  -- the temporary directory
  refine Leads.trans (leads_op (Does.mkdirTemp _ (ex_fresh lossy x y bin))) ?_
  dsimp only
  rw [show (exCfg lossy).tmp = ['t'] :: [] from Eq.refl _, exDisk_put]
  -- fab's code
  refine Leads.trans (ex_mkdir _ _ _ _ _ _ _ _ ?_) ?_
  · intro p b _; unfold put; split <;> simp
  rw [show (exCfg lossy).embeds = exEmbeds from Eq.refl _]
  simp only [exEmbeds, popEntries]
  refine Leads.trans (ex_mkdir _ _ _ _ _ _ _ _ ?_) ?_
  · intro p b _; unfold put; split <;> simp
  rw [if_neg (by decide +kernel), if_pos (by decide +kernel)]
  refine Leads.trans (ex_write _ _ _ _ _ _ _ _ _ ?_) ?_
  · decide +kernel
  refine Leads.trans (ex_mkdir _ _ _ _ _ _ _ _ ?_) ?_
  · intro p b hp
    have : p = [] ∨ p = [sPkg] ∨ p = [sPkg, ['u']] := by
      cases p with
      | nil => exact .inl (Eq.refl _)
      | cons a p => cases p with
        | nil => refine .inr (.inl ?_); simp at hp; simp [hp]
        | cons c p => cases p with
          | nil => refine .inr (.inr ?_); simp [exCfg] at hp; simp [hp]
          | cons _ _ => simp at hp
    rcases this with rfl | rfl | rfl
    · intro h; revert h; simp [put]
    · have : ∀ n : Option Node, n = none → n ≠ some (.file b) := by rintro n rfl; simp
      exact this _ (by decide +kernel)
    · have : ∀ n : Option Node, n = none → n ≠ some (.file b) := by rintro n rfl; simp
      exact this _ (by decide +kernel)
  have hname : (exCfg lossy).name = ['u'] := Eq.refl _
  rw [hname]
  exact ex_rest E lossy x y x' x2 y2 bin hx hE _ (by decide +kernel) (by decide +kernel) (by decide +kernel)
    (by decide +kernel) (by decide +kernel) (by decide +kernel)

/-- The binary that the example's Go tool makes of the sources, as they are on a disk. -/
theorem ex_built (lossy : Bool) (x y : Bytes) (d : Disk) (ha : d [['s'], sA] = some (.file x)) (hb : d [['s'], sB] = some (.file y)) (drv gm gs : Bytes) :
    exTool.build (sources exEmbeds ['u'] (userFiles (exCfg lossy) d) (some drv) (some gm) (some gs)) = some (x ++ y ++ [7]) := by
  have n1 : sFab ≠ sPkg := by decide
  have e1 : userFiles (exCfg lossy) d sA = some x := by
    unfold userFiles
    rw [if_pos (by decide +kernel), show (exCfg lossy).pkgdir ++ [sA] = [['s'], sA] from Eq.refl _, ha]
  have e2 : userFiles (exCfg lossy) d sB = some y := by
    unfold userFiles
    rw [if_pos (by decide +kernel), show (exCfg lossy).pkgdir ++ [sB] = [['s'], sB] from Eq.refl _, hb]
  have e3 : fabCopy exEmbeds [sSub, sM] = some (.file [7]) := by decide +kernel
  have e4 : fabCopy exEmbeds [sSub, sT] = none := by decide +kernel
  simp [exTool, sources, Ne.symm n1, e1, e2, e3, e4]

/-- Compiling is possible: a run in which nothing fails. -/
example : Leads (exCfg false) (fun _ _ => False) (compile (exCfg false) exLoaded) (exDisk [1, 2] [3] (fun _ => none) [0]) (.ret true true)
    (exDisk [1, 2] [3] (fun _ => none) [1, 2, 3, 7]) :=
  ex_run _ _ _ _ _ _ _ _ (.inl (Eq.refl _)) (.inl ⟨Eq.refl _, Eq.refl _⟩)
/-- ... and one that fails. -/
example : ∃ d, Leads (exCfg false) (fun _ _ => False) (compile (exCfg false) exLoaded) (exDisk [1, 2] [3] (fun _ => none) [0]) (.ret false false) d := by
  have hcomp : compile (exCfg false) exLoaded = compileFrom (exCfg false) := by unfold compile; rw [if_pos (by decide +kernel)]
  rw [hcomp]
  refine ⟨put (exDisk [1, 2] [3] (fun _ => none) [0]) [['t']] (some .dir), Leads.trans (leads_op (Does.mkdirTemp _ (ex_fresh _ _ _ _))) ?_⟩
  refine Leads.trans (leads_op (Does.fail (.mkdirAll [sFab]) _ _ (fun _ _ => Eq.refl _) (by simp) (by simp))) ?_
  exact Leads.trans (leads_op (Does.fail .removeAll _ _ (fun _ _ => Eq.refl _) (by simp) (by simp))) (leads_refl _ _)
example : (exCfg false).OK ∧ Fresh (exCfg false) (exDisk [1, 2] [3] (fun _ => none) [0]) ∧ ∀ f, (exCfg false).pkgdir ++ [f] ≠ (exCfg false).binfile :=
  ⟨exCfg_ok _, ex_fresh _ _ _ _, fun f => by simp [exCfg]⟩

/-- **C69 is not always true: lost data.** `copyFile` (compile.go:302) ignores the result of closing the copy.  If the file system reports only then
that a file could not be written (as network file systems and quotas do), `Compile` returns nil for a driver that was built from a part of the user's
code. -/
theorem C69_counterexample_lost_data : ∃ (C : Cfg) (L : Loaded) (d0 d : Disk), C.OK ∧ Fresh C d0 ∧
    Leads C (fun _ _ => False) (compile C L) d0 (.ret true true) d ∧
    ∀ order gomod gosum bin, C.tool.build (sources C.embeds C.name (userFiles C d0) (some (C.render C.name order)) (some gomod) (some gosum)) = some bin →
      d C.binfile ≠ some (.file bin) := by
  refine ⟨exCfg true, exLoaded, exDisk [1, 2] [3] (fun _ => none) [0], exDisk [1, 2] [3] (fun _ => none) [1, 3, 7], exCfg_ok _, ex_fresh _ _ _ _,
    ex_run _ _ _ _ [1] _ _ _ (.inr ⟨Eq.refl _, ⟨[2], Eq.refl _⟩⟩) (.inl ⟨Eq.refl _, Eq.refl _⟩), ?_⟩
  intro order gm gs bin h
  have hb := ex_built true [1, 2] [3] (exDisk [1, 2] [3] (fun _ => none) [0]) (by decide +kernel) (by decide +kernel) ((exCfg true).render ['u'] order) gm gs
  rw [show (exCfg true).tool.build _ = exTool.build _ from Eq.refl _] at h
  rw [show (exCfg true).embeds = exEmbeds from Eq.refl _, show (exCfg true).name = ['u'] from Eq.refl _, hb] at h
  cases h
  simp [exCfg, exDisk]

/-- **C69 is not always true: edits.** If the user saves two files while they are being copied, then the driver may be built from the old one and the new
one: from sources that there never were. -/
theorem C69_counterexample_edit : ∃ (C : Cfg) (L : Loaded) (d0 : Disk) (H : List Disk) (b : Bool) (d : Disk), C.OK ∧ C.lossy = false ∧ Fresh C d0 ∧
    Exec C (Calm C) (compile C L) d0 H b (.ret true true) d ∧
    ∀ d' ∈ H, ∀ order gomod gosum bin, C.tool.build (sources C.embeds C.name (userFiles C d') (some (C.render C.name order)) (some gomod) (some gosum)) = some bin →
      d C.binfile ≠ some (.file bin) := by
  let E : Disk → Disk → Prop := fun d d' => ∃ t bin, d = exDisk [1] [2] t bin ∧ d' = exDisk [3] [4] t bin
  obtain ⟨H, b, h⟩ := ex_run E false [1] [2] [1] [3] [4] [0] (.inl (Eq.refl _)) (.inr fun t bin => ⟨t, bin, Eq.refl _, Eq.refl _⟩)
  have inv : ∀ {H b q d}, Exec (exCfg false) E (compile (exCfg false) exLoaded) (exDisk [1] [2] (fun _ => none) [0]) H b q d →
      Exec (exCfg false) (Calm (exCfg false)) (compile (exCfg false) exLoaded) (exDisk [1] [2] (fun _ => none) [0]) H b q d ∧
      ∀ d' ∈ H, (d' [['s'], sA] = some (.file [1]) ∧ d' [['s'], sB] = some (.file [2])) ∨ (d' [['s'], sA] = some (.file [3]) ∧ d' [['s'], sB] = some (.file [4])) := by
    intro H b q d h
    induction h with
    | start =>
      refine ⟨.start, fun d' hd => ?_⟩
      rw [List.mem_singleton] at hd
      subst hd
      exact .inl ⟨by decide +kernel, by decide +kernel⟩
    | env h he ih =>
      obtain ⟨t, bin, rfl, rfl⟩ := he
      refine ⟨.env ih.1 ⟨?_, ?_⟩, fun d' hd => ?_⟩
      · rintro p ⟨r, rfl⟩; rfl
      · rfl
      · rcases List.mem_cons.1 hd with rfl | hd
        · refine .inr ⟨?_, ?_⟩
          · simp [exDisk]
          · simp [exDisk, show sB ≠ sA by decide]
        · exact ih.2 d' hd
    | own h hd ih =>
      refine ⟨.own ih.1 hd, fun d' hd' => ?_⟩
      rcases List.mem_cons.1 hd' with rfl | hd'
      · rw [does_frame hd [['s'], sA] (by simp [exCfg]) (by simp [exCfg]), does_frame hd [['s'], sB] (by simp [exCfg]) (by simp [exCfg])]
        exact ih.2 _ (exec_mem h)
      · exact ih.2 d' hd'
  refine ⟨exCfg false, exLoaded, _, H, b, _, exCfg_ok _, Eq.refl _, ex_fresh _ _ _ _, (inv h).1, ?_⟩
  intro d' hd' order gm gs bin hbd
  rw [show (exCfg false).tool.build _ = exTool.build _ from Eq.refl _, show (exCfg false).embeds = exEmbeds from Eq.refl _,
    show (exCfg false).name = ['u'] from Eq.refl _] at hbd
  rcases (inv h).2 d' hd' with ⟨h1, h2⟩ | ⟨h1, h2⟩
  · rw [ex_built false [1] [2] d' h1 h2] at hbd
    cases hbd
    simp [exCfg, exDisk]
  · rw [ex_built false [3] [4] d' h1 h2] at hbd
    cases hbd
    simp [exCfg, exDisk]

/-- Two calls at the same time: temporary directories r and t. -/
def exTwo (i : Bool) : Cfg := { exCfg false with tmp := if i then [['t']] else [['r']] }

example : (∀ i, (exTwo i).OK) ∧ Apart exTwo ∧ (∀ i, Fresh (exTwo i) (exDisk [1, 2] [3] (fun _ => none) [0])) ∧ (∀ i, ¬ (exTwo i).tmp <+: [['b']]) := by
  refine ⟨fun i => ⟨(exCfg_ok false).tool, (exCfg_ok false).embeds, ?_, ?_⟩, ⟨?_, ?_⟩, ?_, ?_⟩
  · cases i <;> simp [exTwo, exCfg]
  · intro f; cases i <;> simp [exTwo, exCfg]
  · rintro i j hij p ⟨r, rfl⟩
    cases i <;> cases j <;> simp [exTwo] at hij ⊢
  · intro i j; cases i <;> simp [exTwo, exCfg]
  · rintro i p ⟨r, rfl⟩
    cases i
    · simp [exTwo, exDisk]
    · simp [exTwo, exDisk]
  · intro i; cases i <;> simp [exTwo]

end Fab.Compile
