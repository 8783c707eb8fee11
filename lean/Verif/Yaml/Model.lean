import Verif.Path
import Verif.Registry
import Verif.Command

/-!
# YAML files: the model

/repo/yaml.go, and the decoders of the built-in targets in all.go, argtarg.go, clean.go, command.go, deps.go, files.go and seq.go.

Parameters (`Lib`): the parser and `node.Decode` of the package yaml.v3; the contents of the YAML files; what a glob pattern
matches; the functions registered by other packages and by the user (`RegisterYAMLTarget`, `RegisterYAMLStringList`).

Simplifications:
* the texts that `errors.Wrap` adds to errors are not modelled;
* a function registered by the user makes one new target and does not read other YAML files or register targets;
* the YAML files do not change while they are read;
* every target object has its own address (this is so in Go because no built-in target type is of size zero).
-/

namespace Fab.Yaml
open Path Cmd

/-- `yaml.Kind`; `zero` is the kind of the zero `yaml.Node`, which `Decode` leaves in a field that is missing. -/
inductive Kind where
  | zero | document | sequence | mapping | scalar | alias
deriving DecidableEq

/-- `yaml.Node` (the fields that fab uses) -/
inductive Node where
  | mk (kind : Kind) (tag value head line : Str) (content : List Node)

def Node.kind : Node → Kind | .mk k _ _ _ _ _ => k
def Node.tag : Node → Str | .mk _ t _ _ _ _ => t
def Node.value : Node → Str | .mk _ _ v _ _ _ => v
def Node.head : Node → Str | .mk _ _ _ h _ _ => h
def Node.line : Node → Str | .mk _ _ _ _ l _ => l
def Node.content : Node → List Node | .mk _ _ _ _ _ c => c

/-- the zero `yaml.Node` -/
def Node.zero : Node := .mk .zero [] [] [] [] []

inductive YErr where
  /-- `BadYAMLNodeKindError`, yaml.go:316-323 -/
  | badKind
  /-- an unknown tag, yaml.go:48-51, 294-296, 347-349 -/
  | unknownTag (tag : Str)
  /-- "untyped YAML target node", yaml.go:55-57 -/
  | untyped
  /-- `RelPath` fails, yaml.go:63-67 -/
  | noRel
  /-- "cannot resolve target", yaml.go:84 -/
  | unresolved (name : Str)
  /-- an error for which `errors.Is(err, fs.ErrNotExist)` holds: there is no YAML file in the directory -/
  | noFile (dir : Str)
  /-- another error in opening a file -/
  | io
  /-- an error of the YAML library -/
  | yaml
  /-- "no child nodes", argtarg.go:55-57, deps.go:51-53 -/
  | noChildren
  /-- a malformed document, yaml.go:165-179 -/
  | malformed
  /-- a wrong or missing _dir declaration, yaml.go:198-206, 232-234 -/
  | badDir
  /-- "no slashes in target names", yaml.go:210-212 -/
  | slash
  /-- an error of a registered function, or in a glob pattern -/
  | ext (n : Nat)
deriving DecidableEq

/-- command.go:429-438 -/
structure CommandY where
  shell : Node
  cmd : Str
  args : Node
  stdin : Str
  stdout : Str
  stderr : Str
  dir : Str
  env : Node

/-- the struct of files.go:329-334 -/
structure FilesY where
  ins : Node
  outs : Node
  target : Node
  autoclean : Bool

/-- A target object.  Targets inside targets are given by their numbers. -/
inductive Obj where
  | command (c : Command)
  | clean (files : List Str) (autoclean : Bool)
  | all (targets : List Nat)
  | seq (targets : List Nat)
  | arg (target : Nat) (args : List Str)
  | files (target : Nat) (ins outs : List Str)
  | ref (name : Str)
  | ext (n : Nat)

/-- What `openFabYAML` and the parser make of a directory's YAML file: there is none; it cannot be opened; or the node that was
decoded from it, if it could be (yaml.go:155-163, 263-271). -/
inductive File where
  | none
  | ioError
  | doc (node : Option Node)

structure Lib where
  /-- the top directory of the controller -/
  top : Str
  /-- the YAML file in a directory -/
  file : Str → File
  /-- `node.Decode` for the structs in command.go:378-381, files.go:329-337, deps.go:68-74, clean.go:92-98 -/
  decCommand : Node → Except YErr CommandY
  decFiles : Node → Except YErr FilesY
  decDeps : Node → Except YErr (List Node × Node)
  decClean : Node → Except YErr (Node × Bool)
  /-- `fs.Glob(os.DirFS(dir), pattern)`, files.go:367-381 -/
  glob : Str → Str → Except YErr (List Str)
  /-- functions registered by others -/
  strFn : Str → Option (Node → Str → Except YErr (List Str))
  targetFn : Str → Option (Node → Str → Except YErr Nat)

/-! ## String lists -/

/-- `normalizeTag`, yaml.go:391-396 -/
def normalizeTag (tag : Str) : Str :=
  if ['!', '!'].isPrefixOf tag then [] else if ['!'].isPrefixOf tag then tag.drop 1 else tag

def sGlob : Str := "Glob".toList

/-- Expand the patterns, files.go:374-381 -/
def globAll (glob : Str → Except YErr (List Str)) : List Str → Except YErr (List Str)
  | [] => .ok []
  | p :: ps =>
    match glob p with
    | .error e => .error e
    | .ok ms =>
      match globAll glob ps with
      | .error e => .error e
      | .ok r => .ok (ms ++ r)

/-- The directory in which patterns are matched, files.go:367-371 -/
def globDir (L : Lib) (dir : Str) : Str := if joinPath L.top [dir] = [] then dot else joinPath L.top [dir]

mutual
/-- The function registered for a tag, applied: another package's, or else `globDecoder` (files.go:357-384), yaml.go:293-299,
346-355 -/
def tagged (L : Lib) (tag : Str) : Node → Str → Except YErr (List Str)
  | .mk kind t v h l content, dir =>
    match L.strFn tag with
    | some fn => fn (.mk kind t v h l content) dir
    | none =>
      if tag = sGlob then
        if kind ≠ .sequence then .error .badKind
        else
          match fromNodes L content dir with
          | .error e => .error e
          | .ok patterns => globAll (L.glob (globDir L dir)) patterns
      else .error (.unknownTag tag)
/-- `YAMLStringListFromNodes`, yaml.go:331-359 (the accumulated result is built from the right here) -/
def fromNodes (L : Lib) : List Node → Str → Except YErr (List Str)
  | [], _ => .ok []
  | .mk kind t v h l content :: rest, dir =>
    let tag := normalizeTag t
    if tag = [] ∧ kind = .scalar then
      match fromNodes L rest dir with
      | .error e => .error e
      | .ok r => .ok (v :: r)
    else if tag = [] then .error .badKind
    else
      match tagged L tag (.mk kind t v h l content) dir with
      | .error e => .error e
      | .ok strs =>
        match fromNodes L rest dir with
        | .error e => .error e
        | .ok r => .ok (strs ++ r)
end

/-- `YAMLStringList`, yaml.go:285-305 -/
def stringList (L : Lib) (node : Node) (dir : Str) : Except YErr (List Str) :=
  if node.kind = .zero then .ok []
  else
    let tag := normalizeTag node.tag
    if tag ≠ [] then tagged L tag node dir
    else if node.kind ≠ .sequence then .error .badKind
    else fromNodes L node.content dir

/-- `YAMLFileList`, yaml.go:368-374 -/
def fileList (L : Lib) (node : Node) (dir : Str) : Except YErr (List Str) :=
  match stringList L node dir with
  | .error e => .error e
  | .ok l => .ok (l.map fun s => joinPath L.top [dir, s])

/-- `YAMLFileListFromNodes`, yaml.go:383-389 -/
def fileListFromNodes (L : Lib) (nodes : List Node) (dir : Str) : Except YErr (List Str) :=
  match fromNodes L nodes dir with
  | .error e => .error e
  | .ok l => .ok (l.map fun s => joinPath L.top [dir, s])

/-! ## Targets -/

/-- The controller and the global registries, and (for the statements only) all registrations so far and the directories whose YAML
file was asked for. -/
structure St where
  heap : List Obj
  reg : Registry.Reg
  filesReg : GoMap Str Nat
  autoclean : List Str
  hist : List (Str × Str × Nat)
  reads : List Str

/-- The outcome of a computation: a result, an error, or (with a bound on the recursion) not finished within the bound. -/
inductive R (α : Type) where
  | ok (a : α) (s : St)
  | err (e : YErr) (s : St)
  | more

def R.bind {α β : Type} : R α → (α → St → R β) → R β
  | .ok a s, k => k a s
  | .err e s, _ => .err e s
  | .more, _ => .more

/-- lift a computation without effects -/
def lift {α : Type} (x : Except YErr α) (s : St) : R α :=
  match x with
  | .ok a => .ok a s
  | .error e => .err e s

/-- a new object -/
def alloc (o : Obj) (s : St) : R Nat := .ok s.heap.length { s with heap := s.heap ++ [o] }

/-- `slices.Mapx` over a list of nodes: in order, up to the first error -/
def mapT (yt : Node → Str → St → R Nat) (dir : Str) : List Node → St → R (List Nat)
  | [], s => .ok [] s
  | c :: cs, s => (yt c dir s).bind fun i s => (mapT yt dir cs s).bind fun is s => .ok (i :: is) s

/-- The special values of Stdout and Stderr of a YAML command, and a file name: command.go:453-477, 479-503.  `w` and `i` are
the writer for "$indent" and "$verbose". -/
def outField (L : Lib) (dir v : Str) (i : Wr) (forceAppend : Bool) : Option Wr × Option (Ctx → Option Wr) × Str :=
  if v = "$stdout".toList then (some .osStdout, none, [])
  else if v = "$stderr".toList then (some .osStderr, none, [])
  else if v = "$discard".toList then (some .discard, none, [])
  else if v = "$indent".toList then (none, some fun _ => some i, [])
  else if v = "$verbose".toList then (none, some fun ctx => if getVerbose ctx then some i else none, [])
  else if v = [] then (none, none, [])
  else
    let f := joinPath L.top [dir, v]
    (none, none, if forceAppend && !(['>', '>'].isPrefixOf f) then ['>', '>'] ++ f else f)

/-- `toTarget`, command.go:440-506 -/
def toTarget (L : Lib) (c : CommandY) (shell dir : Str) (args env : List Str) (forceAppend : Bool) : Command :=
  let o := outField L dir c.stdout .indentOut forceAppend
  let e := outField L dir c.stderr .indentErr forceAppend
  { shell := shell, cmd := c.cmd, args := args, dir := joinPath L.top [dir, c.dir], env := env
    stdin := if c.stdin = "$stdin".toList then some .osStdin else none
    stdout := o.1, stdoutFn := o.2.1, stdoutFile := o.2.2
    stderr := e.1, stderrFn := e.2.1, stderrFile := e.2.2 }

/-- make the commands of a list of shell strings; `first`: the next one is the first one -/
def allocCmds (mk : Str → Bool → Command) : Bool → List Str → St → R (List Nat)
  | _, [], s => .ok [] s
  | first, sh :: shs, s =>
    (alloc (.command (mk sh (!first))) s).bind fun i s => (allocCmds mk false shs s).bind fun is s => .ok (i :: is) s

/-- `commandDecoder`, command.go:373-427 -/
def commandDecoder (L : Lib) (node : Node) (dir : Str) (s : St) : R Nat :=
  if node.kind ≠ .mapping then .err .badKind s
  else
    (lift (L.decCommand node) s).bind fun c s =>
    (lift (stringList L c.args dir) s).bind fun args s =>
    (lift (stringList L c.env dir) s).bind fun env s =>
    let single : R Nat :=
      match c.shell.kind with
      | .zero => alloc (.command (toTarget L c [] dir args env false)) s
      | .scalar => alloc (.command (toTarget L c c.shell.value dir args env false)) s
      | _ => .err .badKind s
    if c.cmd = [] then
      match stringList L c.shell dir with
      | .error .badKind => single
      | .error e => .err e s
      | .ok strs =>
        (allocCmds (fun sh app => toTarget L c sh dir args env app) true strs s).bind fun ids s => alloc (.seq ids) s
    else single

/-- `Files`, files.go:95-111, with the option `Autoclean` (files.go:234-245) -/
def newFiles (t : Nat) (ins outs : List Str) (autoclean : Bool) (s : St) : R Nat :=
  let id := s.heap.length
  .ok id { s with
    heap := s.heap ++ [.files t ins outs]
    filesReg := outs.foldl (fun r o => r.put o id) s.filesReg
    autoclean := if autoclean then outs.foldl (fun r f => if f ∈ r then r else r ++ [f]) s.autoclean else s.autoclean }

/-- The decoders of the built-in targets other than Command: all.go:41-53, seq.go:46-61, deps.go:48-91, argtarg.go:51-69,
files.go:324-355, clean.go:83-116 -/
def builtin (L : Lib) (yt : Node → Str → St → R Nat) (tag : Str) (node : Node) (dir : Str) (s : St) : R Nat :=
  if tag = "All".toList then
    if node.kind ≠ .sequence then .err .badKind s
    else (mapT yt dir node.content s).bind fun ids s => alloc (.all ids) s
  else if tag = "Seq".toList then
    if node.kind ≠ .sequence then .err .badKind s
    else (mapT yt dir node.content s).bind fun ids s => alloc (.seq ids) s
  else if tag = "Deps".toList then
    match node.kind with
    | .sequence =>
      match node.content with
      | [] => .err .noChildren s
      | t :: deps =>
        (yt t dir s).bind fun t s => (mapT yt dir deps s).bind fun ids s =>
        (alloc (.all ids) s).bind fun a s => alloc (.seq [a, t]) s
    | .mapping =>
      (lift (L.decDeps node) s).bind fun d s =>
      (yt d.2 dir s).bind fun t s => (mapT yt dir d.1 s).bind fun ids s =>
      (alloc (.all ids) s).bind fun a s => alloc (.seq [a, t]) s
    | _ => .err .badKind s
  else if tag = "ArgTarget".toList then
    if node.kind ≠ .sequence then .err .badKind s
    else
      match node.content with
      | [] => .err .noChildren s
      | t :: rest =>
        (yt t dir s).bind fun t s => (lift (fromNodes L rest dir) s).bind fun args s => alloc (.arg t args) s
  else if tag = "Files".toList then
    if node.kind ≠ .mapping then .err .badKind s
    else
      (lift (L.decFiles node) s).bind fun f s =>
      (yt f.target dir s).bind fun t s =>
      (lift (fileList L f.ins dir) s).bind fun ins s =>
      (lift (fileList L f.outs dir) s).bind fun outs s => newFiles t ins outs f.autoclean s
  else if tag = "Clean".toList then
    match node.kind with
    | .mapping =>
      (lift (L.decClean node) s).bind fun d s =>
      (lift (fileList L d.1 dir) s).bind fun files s => alloc (.clean files d.2) s
    | .sequence => (lift (fileListFromNodes L node.content dir) s).bind fun files s => alloc (.clean files false) s
    | _ => .err .badKind s
  else if tag = "Command".toList then commandDecoder L node dir s
  else .err (.unknownTag tag) s

/-- An untagged scalar: yaml.go:59-89.  `rf` is `ReadYAMLFile`. -/
def reference (L : Lib) (rf : Str → St → R Unit) (v dir : Str) (s : St) : R Nat :=
  if '/' ∉ v then alloc (.ref v) s
  else
    match relPath L.top (joinPath L.top [dir, v]) with
    | none => .err .noRel s
    | some q =>
      if dirOf q = dot then alloc (.ref q) s
      else
        match (s.reg.target q).1 with
        | some o => .ok o s
        | none =>
          (rf (dirOf q) s).bind fun _ s =>
          match (s.reg.target q).1 with
          | some o => .ok o s
          | none => .err (.unresolved q) s

/-- `YAMLTarget`, yaml.go:46-90 -/
def targetStep (L : Lib) (yt : Node → Str → St → R Nat) (rf : Str → St → R Unit) (node : Node) (dir : Str) (s : St) : R Nat :=
  let tag := normalizeTag node.tag
  if tag ≠ [] then
    match L.targetFn tag with
    | some fn => (lift (fn node dir) s).bind fun n s => alloc (.ext n) s
    | none => builtin L yt tag node dir s
  else if node.kind ≠ .scalar then .err .untyped s
  else reference L rf node.value dir s

/-- `RegisterTarget`, register.go:12-26 -/
def register (q doc : Str) (o : Nat) (s : St) : St :=
  { s with reg := (s.reg.register id q doc (.ptr o)).1, hist := s.hist ++ [(q, doc, o)] }

/-- `strings.TrimLeft(doc, "# ")` of the comment of a key: yaml.go:189-196 -/
def docOf (key : Node) : Str :=
  (if key.head = [] then key.line else key.head).dropWhile fun c => c = '#' || c = ' '

def sDir : Str := "_dir".toList

/-- The loop of yaml.go:181-230 over the remaining keys and values; the result is `sawDirDecl`. -/
def readItems (yt : Node → Str → St → R Nat) (dir : Str) : List Node → Bool → St → R Bool
  | key :: val :: rest, saw, s =>
    if key.kind ≠ .scalar then .err .badKind s
    else if key.value = sDir then
      if val.kind ≠ .scalar then .err .badDir s
      else if val.value ≠ dir then .err .badDir s
      else readItems yt dir rest true s
    else if '/' ∈ key.value then .err .slash s
    else (yt val dir s).bind fun o s => readItems yt dir rest saw (register (join [dir, key.value]) (docOf key) o s)
  | _, saw, s => .ok saw s

/-- `ReadYAML`, yaml.go:155-237, on what the parser returned -/
def readDoc (yt : Node → Str → St → R Nat) (doc : Option Node) (dir : Str) (s : St) : R Unit :=
  match doc with
  | none => .err .yaml s
  | some doc =>
    if doc.kind ≠ .document then .err .badKind s
    else
      match doc.content with
      | [m] =>
        if m.kind ≠ .mapping then .err .badKind s
        else if m.content.length % 2 ≠ 0 then .err .malformed s
        else (readItems yt dir m.content false s).bind fun saw s =>
          if dir ≠ [] ∧ saw = false then .err .badDir s else .ok () s
      | _ => .err .malformed s

/-- `ReadYAMLFile`, yaml.go:243-261 -/
def fileStep (L : Lib) (yt : Node → Str → St → R Nat) (dir : Str) (s : St) : R Unit :=
  let d := join [L.top, dir]
  let s := { s with reads := s.reads ++ [d] }
  match L.file d with
  | .none => .err (.noFile d) s
  | .ioError => .err .io s
  | .doc doc =>
    match relPath L.top d with
    | none => .err .noRel s
    | some r => readDoc yt doc (if r = dot then [] else r) s

mutual
/-- `YAMLTarget` with at most the given depth of calls -/
def yamlTarget (L : Lib) : Nat → Node → Str → St → R Nat
  | 0 => fun _ _ _ => .more
  | n + 1 => targetStep L (yamlTarget L n) (readYAMLFile L n)
/-- `ReadYAMLFile` with at most the given depth of calls -/
def readYAMLFile (L : Lib) : Nat → Str → St → R Unit
  | 0 => fun _ _ => .more
  | n + 1 => fileStep L (yamlTarget L n)
end

/-- `ReadYAML` with at most the given depth of calls -/
def readYAML (L : Lib) (n : Nat) (doc : Option Node) (dir : Str) (s : St) : R Unit := readDoc (yamlTarget L n) doc dir s

/-- A new controller. -/
def St.empty : St := ⟨[], Registry.Reg.empty, [], [], [], []⟩

/-- `resolve` of a reference by name, yaml.go:100-113: `cache` is `dt.Target` -/
def resolve (name : Str) (cache : Option Nat) (reg : Registry.Reg) : Option Nat × Except YErr Nat :=
  match cache with
  | some o => (some o, .ok o)
  | none =>
    match (reg.target name).1 with
    | none => (none, .error (.unresolved name))
    | some o => (some o, .ok o)

end Fab.Yaml
