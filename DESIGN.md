# A Lean 4 model of bobg/fab

This directory holds a machine-checked model of the Go program in `/repo` (bobg/fab) and proofs of the
properties listed in `properties.jsonl`. The Lean project is `lean/`; modules live under `lean/Verif/`.
`MANIFEST.json` says for each property which theorems prove it and what is missing.

Contents: 1 layout; 2 conventions; 3 plan per property; 4 what is modelled and what is not, file by file;
5 trusted base; 6 where the code departs from what its documentation or a user would expect; 7 axioms of each theorem.

## 1. Layout

| area | Go source | Lean (`lean/Verif/`) |
|---|---|---|
| strings, maps | – | `Base` |
| concurrent runner | runner.go:15-120, controller.go:18-32, register.go:28-34, yaml.go:100-113, gate.go | `Runner/Model` (machine), `Runner/Steps`, `InvA`–`InvF`, `Inv` (invariants), `Runner/Props` (C01–C04, C11), `Runner/Progress` (C05), `Runner/Cycle` (C06), `Runner/Local`, `Runner/Race` (C72), `Gate` (C13) |
| combinators | all.go, seq.go, deps.go, argtarg.go, f.go, named references | `Runner/Targets` (C07–C10, C12), `Runner/Requests` (C02–C04), `Runner/Verbose` (C80), `Runner/Determ` (C74), `Runner/Whole` (C75), `Yaml/Build` (C76: YAML projects), `Runner/Quiet` and `Yaml/Again` (C77: a second build), `Runner/Nest`, `Yaml/Correct`, `Yaml/Right`, `Yaml/Clean`, `Yaml/CleanDemo`, `Yaml/Steps`, `Yaml/StepsDemo`, `Yaml/Trees`, `Yaml/TreesDemo`, `Yaml/Project`, `Yaml/ProjectDemo`, `Yaml/Twice` (C78: builds are correct), `Yaml/Edit`, `Yaml/EditDemo` (C79: edits of rules), `Yaml/Dry` (C83: dry runs), `Yaml/Several`, `Yaml/SeveralDemo` (C91: several builds at the same time), `Yaml/Rebuild`, `Yaml/RebuildDemo` (C92: cleaning in a build), `Yaml/Minimal`, `Yaml/Edited`, `Yaml/EditedDemo` (C93: a build does no more than it has to), `Yaml/Resume` (C97: interrupted builds), `Yaml/Forced`, `Driver/FabForce` (C98: forced builds), `Yaml/Beside` (C99: builds of different targets), `Yaml/Together` (C100: at the same time), `Driver/FabEach` (C93, C97, C99 for `fab` commands), `Yaml/Success`, `Yaml/Supplied`, `Yaml/SuppliedTrees`, `Yaml/Session`, `Driver/FabSuccess` (C101: builds that succeed) |
| registry, ParseArgs, ListTargets | register.go, controller.go:73-125 | `Registry` (C14–C17) |
| context | context.go | `Context` (C18) |
| paths | controller.go:56-71, package path/filepath | `Path` (C19, C20) |
| file system, TopDir | top.go | `FS`, `TopDir` (C21) |
| file hashes | files.go:167-195, 247-322 | `FileHash` (C22, C23), `Links` (C81: symbolic links), `Json` (C56), `Utf8` (C90: names as bytes) |
| Files targets | files.go:95-225 | `Files/Model`, `Files/System`, `Files/Props` (C25–C30, C57), `Files/Demo` |
| JSON forms of targets | struct tags of all target types | `Files/Rule` (C24, C26) |
| hash database | sqlite/db.go, schema.sql, main.go:147-156 | `Sqlite` (C31–C33), `HashDB` (C73) |
| Clean | clean.go | `Clean` (C34, C35, C59), `CleanLinks` (C82: symbolic links), `Yaml/Rebuild` (C92: in a build) |
| Command | command.go | `Command` (C36, C37, C40), `CommandClose` (C84), `CommandEnv` (C85: environment) |
| Messages | files.go, clean.go, command.go | `Says` (C86) |
| Errors | runner.go, all.go, seq.go, argtarg.go, files.go | `Runner/Errors`, `Yaml/Blame` (C87) |
| The whole command | cmd/fab/main.go, main.go, driver.go.tmpl and everything they call | `Driver/Fab`, `Driver/FabDemo`, `Driver/FabYaml`, `Driver/FabYamlDemo` (C88) |
| YAML | yaml.go and the decoders of all target types | `Yaml/Model`, `Yaml/Lists` (C41), `Yaml/Read` (C42, C44), `Yaml/Refs` (C44), `Yaml/Term` (C43), `Yaml/Cmds` (C38, C39), `Yaml/Load` (C60), `Yaml/Outputs` (C67), `Yaml/Place`, `Yaml/PlaceDemo` (C94) |
| copier, messages | runner.go:122-221 | `Copier` (C45, C46, C58), `CopierShared` (C95), `Indent` (C70) |
| cancellation of the context | command.go:200-339, sqlite/db.go:87-128, files.go:122-205 | `Yaml/Cancel` (C96) |
| driver | main.go, compile.go, dirhash.go, driver.go.tmpl, cmd/fab/main.go | `Driver/Hash` (C47), `Driver/Cache` (C48–C50, C61), `Driver/Many` (C89: several processes), `Driver/Flags` (C51, C63), `Driver/Targets` (C62), `Driver/Compile` (C68, C69), `Driver/Main` (C71) |
| Target type check | types.go | `Types` (C52, C53) |
| bundled rules | proto/proto.go, golang/go.go, ts/tsdecls.go | `Contrib/Proto` (C54), `Contrib/Go` (C55, C64–C66), `Contrib/Decoders` (C65) |

## 2. Conventions

* Every definition of a model cites the Go lines that it models and says where it simplifies.
* Property theorems are named `Cxx_…`. A theorem that proves only part of the English statement has the suffix `_partial`;
  then, if the statement is false of the code, a theorem `Cxx_counterexample_…` proves that it is, by exhibiting a
  reachable case (not by assuming one). `Cxx_finding_…` are proved observations about the code that do not contradict the
  statement.
* Specifications (`Canonical`, `Below`, `Importable`, `Matches`, …) are inductive predicates or first-order statements
  written without the functions of the model that they judge.
* Beside each theorem an `example` shows that a concrete, non-trivial case satisfies the hypotheses.
* A Go loop or recursion that may not terminate takes fuel and gives `none`/`more` when the fuel runs out; termination is
  then a theorem ("some fuel suffices") and non-termination is one, too ("no fuel suffices").
* The outside world (operating system, other goroutines, other processes, libraries) is a parameter or an arbitrary
  step; nothing is assumed of it except what section 5 lists.

## 3. Plan per property

* **C01–C04, C11** — small-step machine whose steps are the atomic steps of the goroutines created by
  `Controller.Run` (loop iteration, `ran` lookup under the mutex, gate wait, body step, write of `errs[i]`, write of
  `o.err`, opening the gate, `wg.Done`, return). Target bodies are arbitrary interaction trees, so the theorems hold
  for every implementation of `Target`. The machine keeps a ghost log of observable events
  (call / start / finish / return); the properties are statements about that log, proved by invariants over all
  schedules. C01 and C02 are false for targets referenced by name, C03 for targets that share an address: `_partial` theorems plus proved counterexamples
  (`Runner/Requests`).
* **C05** — deadlock freedom by descent on a rank; termination by a well-founded multiset (hydra) order.
* **C06** — invariant over all schedules.
* **C07–C10, C12** — the bodies of `All`, `Seq`, `Deps`, `ArgTarget`, name references are concrete interaction
  trees; ordering follows from a general "a goroutine's call history is a path of its body" invariant.
* **C13** — separate small-step model of the condition-variable gate.
* **C14–C18** — executable model of the maps and functions, induction over operation lists.
* **C19, C20** — model of Go's lexical path functions; algebraic laws.
* **C21** — recursion up the directory tree over a model file system.
* **C22–C30, C57** — pure model of `fileHashes`/`computeHash` over a tree-shaped file system and canonical JSON, and
  `Files.Run` as an interaction tree over a world holding the file system and database; invariants over all
  schedules, processes and crash points (a crash is a truncated schedule).
* **C31–C33** — table model of the SQL statements; induction over histories; statement-level interleavings.
* **C34, C35, C59** — file removal over the model file system; for C59, Go slices with backing arrays.
* **C36–C40** — decision logic of `Command.Run` as a function producing a plan of effects; YAML translation.
* **C41–C44, C60, C67** — recursive functions over YAML node trees; fuel-indexed loader for the (possibly diverging)
  mutual recursion between files. C43 is false: proved divergence witness plus `_partial`.
* **C45, C46, C58** — byte-level state machine; equational proof against a line-based specification; C58 with an arbitrary
  writer that may accept part of what it is given.
* **C47–C51, C61, C63** — decision functions over an abstract cache state; crash points as prefixes of the write sequence;
  a history is any interleaving of runs of any fab versions and edits.
* **C52, C53** — type graphs with pointer identity; the memoised depth-first check is proved equivalent to the
  existence of a matching relation (bisimulation).
* **C54, C55** — graph closure. **C64–C66** — the functions as they are, over the path model.
* **C56** — unique readability of the canonical JSON text.
* **C62** — the filter over the package scope and the generated registrations; which string literals parse.
* **C68, C69** — `CompilePackage` as a sequence of file-system operations, each of which may fail, interleaved with
  arbitrary activity outside the temporary directory.
* **C70** — the text of a message as a function; concurrent messages as all interleavings of the writes.
* **C71** — fab from the command line to `con.Run`, with and without driver; the two paths are compared.
* **C72** — accesses and synchronization of each step of the runner machine; happens-before of the Go memory model as an
  inductive relation; invariant "what an access needs is ordered before it".
* **C73** — `sqlite.Open` as file-system and SQL steps of any number of processes on top of the table of C31–C33.
* **C74** — a big-step semantics without goroutines and without the table of results; every `finish` and `ret` event of the machine is
  derivable in it (strong induction over the log); it has one result for steady targets under a well-founded dependency.
* **C75** — one client; induction over the log: every call has returned, was made by a goroutine that was started before, and (if
  bodies pass on errors) returned nil when the client's did.  Order: the path of a goroutine that ends with nil; a circle would
  give an infinite descent in the log.
* **C76** — `buildEnv` turns the heap of objects that reading YAML leaves into the targets of the runner.  Invariant of reading: objects
  refer to older objects, registered objects exist; acyclic relations on a finite heap are well-founded (→ C05); otherwise by C06 and C75.
* **C77** — `Proc.Still`: as long as the world satisfies an invariant, a process changes nothing, calls only still targets and returns nil; closed under
  `Run`, so a whole execution is still.  After a build that returned nil each wanted Files target has ended on a path (`FilesAt`) that
  found or added the hash of what it saw; additions stay (`Proc.Keeps`).
* **C78** — invariant of a build: databases hold only hashes of right situations; for each Files target, what it has read so far is what is there now
  (`Sound`), or it waits for its makers or its rule; finished ones are right.  Files change only inside a rule, and while a part of a rule runs its Files target,
  and everything above it, is waiting (`NestInv`: what runs is nested in what waits).  `C78_same_as_clean` by induction over the acyclic "needs" relation.
  `C78_sequences` (`Yaml/Steps`): between two commands of a list the remaining ones would still do what is meant, since nobody else touches the files.
  `C78_trees` (`Yaml/Trees`): rules made of All, Seq and ArgTarget in any nesting.  A plan says what each command makes true, about which files, and which
  later commands may undo it; the invariant is that what a command has made true stays so until one of these begins.
* **C79** — an instance of C78: what a rule with JSON form `j` should do is what the rules encoded as `j` are meant to do; these are the same rule if
  everything in them is encoded (`Rule.json_inj`, C24).
* **C80** — the machine of C01 with the steps of `Indentf` added (read the depth; up to two writes); a simulation in both directions shows that
  the reachable runner states are the same; an invariant per goroutine relates what it has written to the target that it has begun; the
  indentation is C11's depth at the moment of reading, and by nesting of calls at least the number of callers.
* **C81** — a second file system, with links, in which a path is resolved as Linux does it (the text of a link takes the place of its name; at most 40 links);
  the recursion of `fileHashes` to a depth, and a proof that some depth suffices: going down, fewer links may be followed, or as many and the tree is lower.
  Loops: a way down that leads back can be followed again from its end, with fewer links left, until a path cannot be followed.
* **C82** — `Clean.Run` in the file system of C81, with `os.Remove` as unlink(2) and rmdir(2) (a link at the end of the path is not followed); removing entries
  can only make walks fail, so what a later name leads to, it led to at the beginning.
* **C83** — the machine of C76/C77 with `getDryRun` true in all contexts: bodies of commands and Clean that respect it do nothing; `Files` targets ask for their
  prerequisites and their rule without looking at the database. "May run" (`mayRun`, least set closed under the references) and "begun" (a start in the log) are
  compared for all schedules; the database and files are shown to be untouched by the steps.
* **C84** — `Command.Run` again, with every deferred call and the variable that it assigns to; `runC_agrees` shows that it is the function of C36. The specification
  counts what the effects opened.
* **C85** — the list that `Run` passes and the loop of os/exec that removes duplicates from its end; induction over the reversed list with the set of keys seen.
* **C86** — the three `Run`s with their messages; case analysis of all paths (`Runs` of the Files process, inversion lemmas of C25), and agreement with the models without messages.
* **C87** — errors are trees in the runner model already; induction over the log: the error of each call is part of the error of the target that made it, hence of the client's; conversely by induction over the tree. Bodies of the package's targets are shown to hand on errors. The text by induction over the way.
* **C88** — a structure `FabRun` puts the models of the command line (C71), of reading YAML (C43 ff.), of the runner with files and databases (C76–C78) and the exit status together; the theorems follow from those of the parts, and `FabDemo` shows whole runs: from scratch, after a killed run, a failing run, a second run, one with -n. `C88_yaml` (`Driver/FabYaml`): for projects without a driver, with the hypotheses on shape replaced by how the YAML files are written; the ArgTarget that options on the command line make keeps the invariant of C94.
* **C89** — `getDriver` and the execution of the driver cut into single file operations (opening truncates, writing is one `write` at the beginning), done by any number of processes in any order, with edits, removals and crashes; invariants over all histories; `C89_alone` shows that one process alone is the model of C48.
* **C90** — the characters of a name are read as its bytes, so that everything about names stays as it is; only the JSON text is made from the characters that the bytes encode (`C90_exact`: for all bytes, against a relation that says how Go reads a string)
  (Go's decoder). Decoding is inverse to encoding, in both directions unless U+FFFD comes out; the two orders agree; then as C23.
* **C91** — a family of controllers, one per process; a step of one is a change of files and databases from outside for the others. The invariant of C78 for all of them; a step of one keeps that of the others because the databases stay honest and their files are untouched.
* **C92** — the model of Clean (C34) as the body of a target in a build; a target that acts once has acted when it has returned (induction on the schedule). For `!Seq [Clean, ...]`: while the first element is at work nothing else has begun (the order of Seq, C07), so the invariant of C78 holds trivially whatever it does; from then on it is kept as in C78.
* **C93** — an invariant of builds (induction on the schedule): the goroutine of a Files target is either before the prerequisites, or remembers a world in which the makers of its inputs had succeeded and since when its files are the same; in such worlds a process of a target that is up to date makes no call. From the beginning of the build: induction on the length of the schedule, following changes of files back to the rules that made them. After a successful build: what the target saw last is still there at the end.
* **C94** — an invariant of reading (induction on the bound of the recursion and on the documents): an unnamed object has at most one place; a computation that begins at a state only puts objects that are newer than it, or have names, into new objects. `C94_runs`: who may ask for a target, from the bodies. `C94_fair` and `C78_yaml` (`Yaml/Project`): the hypotheses of C78 follow from how the files are written.
* **C95** — the writes of a copier to the standard output are recorded one by one (`BW.log`); what appears is any interleaving of the lists of the goroutines (`Mixed`). A chunk that fits into the buffer is one write (induction on the chunk); permutation and sublist carry over to lines.
* **C96** — cancellation is a step of somebody else after which `Start` and the methods of the database refuse (`Off`). `Proc.FailsIn`: a process that cannot return nil in such worlds; shown for commands and Files targets by recursion on their bodies, and carried over to all goroutines that begin later (`late_fails`), because the world stays cancelled (`kept_from`).
* **C97** — a target that has succeeded is not `Behind` (C93) in the world where the build stops, nor is anything that it depends on (`finished_not_behind`, by induction on `Behind`); a further build keeps that, because it runs no rule of such a target (C93) and files change only by rules (`kept_by_build`); induction on what happens meanwhile.
* **C98** — a build that believes nothing and returns nil has run the rule of every Files target that it needs (`needed_in` of C83, as every body then must ask for it); what a rule has made stays until the end (`rule_right`, by induction on the moves with the invariant of C78 for the meaning that asks for nothing), so neither honest databases nor distinct hashes are needed; `C98_then` is C93 for a first build with Force. `C98_fab`: with `C88_line`, the flag -f gives a context with Force (`Driver/FabForce`).
* **C99** — the conditions of C78 for a project of targets `us`, some of which are built (`FairProject.build`); what is run for `os'` and is part of a rule that `os` needs is needed for `os'`, too (`kind`, C78), and then it was behind (C93), which is false of what is up to date; files change only by the rules that are run (`files_rest`, induction on the moves). `C99_one_by_one` by induction on the history.
* **C100** — for one of the processes, what the others do is something that happens outside it (`several_buildRun`: its moves are those of a build with `extern` steps), so the theorems about one build hold for each of them, as long as the processes keep apart. That they do is shown by induction on the moves: every command of a process either changes no file of another one, or belongs to the rule of a target that was not behind at the beginning (`AtOnce.apart`), and has then not been run so far; so the next step changes no file of another process (`step_apart`); so each is a build in which others do no harm, and by C93 it runs only what was behind at the beginning. For one project (`C100_one_project`): what a command of one process can change that matters for another one belongs to a rule that both need. Correctness from C91, C78.
* **C93_fab, C97_fab, C99_fab** — with `C88_line` a command without -f and -n gives a context with neither Force nor DryRun; `FabEach` is a sequence of such commands, which may fail or be interrupted, and is mapped to `OneByOne` of C99 (`Driver/FabEach`).
* **C101** — `Fine`: a process that returns nil if its calls return nil and what it finds is as it should be; every body of a composite target is one (`fine_body`, recursion on the bodies; a hash can be computed if all files can be read: `walk_total` by recursion on the tree). For the first failure in the history all calls before it have returned nil (`ret_nil`), so a Files target that fails first has met trouble. `Sturdy` adds that commands keep the invariant; `in_order` is by induction on the moves; `C101_ends` joins that to C76 (an acyclic build ends; `client_done`). `C101_clean`: the invariant of C78 (what has finished is right) and one about the goroutines of rules (`RuleInv`: each is at a process that `Delivers`) are shown together by induction on the moves: a rule begins when the makers of its inputs have succeeded, so it is `Supplied`; and what it delivers is what the invariant of C78 needs. `C101_trees` (`Yaml/SuppliedTrees`): the same for rules that are trees of commands: by induction on the schedule, together with the invariant of `C78_trees`, whenever a command of a rule is begun the inputs are there and the commands before it have done what they are for, so it ends with nil; `InSupply.trees`: rules that are single commands are a special case. `C101_session` (`Yaml/Session`): by induction on the session of edits and builds the condition holds and the history is one of C78.

## 4. What is modelled and what is not

| Go source | modelled | not modelled |
|---|---|---|
| runner.go | everything: `Run` with its messages (`Runner/Verbose`), `Indentf`, `IndentingCopier`, both writers | – |
| controller.go, register.go | everything except the `fmt` details of `ListTargets`' error handling | writers that fail in `ListTargets` |
| gate.go | everything | – |
| all.go, seq.go, deps.go, argtarg.go, f.go | `Run` methods, YAML decoders, JSON forms | `Desc` (fixed strings) |
| context.go | everything | deadlines of contexts; cancellation is a state of the world in `Yaml/Cancel` (C96) |
| files.go | everything; `fileHashes` also with symbolic links (C81), the other properties of Files targets in a file system without them | special files; text of wrapped errors |
| clean.go | everything, also with symbolic links (C82); messages (C86) | – |
| command.go | `Run` with its messages (C86), `toTarget`, decoder, JSON form | – |
| top.go | everything | – |
| yaml.go | everything except the choice between `fab.yaml` and `fab.yml` (`openFabYAML`), which is modelled in `TopDir` and is part of a parameter (`Lib`) in `Yaml/*` | the YAML parser (a parameter) |
| sqlite/db.go, schema.sql | everything | SQLite itself (statements are atomic and durable), overflow of 64-bit times |
| main.go, cmd/fab/main.go, driver.go.tmpl | everything that decides what is run, what is written and the exit status | what is printed, signals |
| compile.go | target discovery, all file operations | the Go tool and the type checker (parameters) |
| dirhash.go | everything | read errors |
| types.go | everything | error texts |
| embeds.go | as a list of files with contents (parameter) | – |
| golang/go.go, proto/proto.go, ts/tsdecls.go | everything | `packages.Load`, `filepath.Glob`, `tsdecls.Write` (parameters) |
| registry.go | as maps with atomic operations (`Registry`, `Yaml/Model`) | – |
| target.go, hash.go | interfaces: arbitrary implementations | – |
| `_fab/`, `*_test.go`, `_testdata` | – | fab's own build rules and tests |

Strings are lists of Unicode characters; Go strings that are not valid UTF-8 are modelled only as names of files (C90). Paths are Unix paths.
Panics end the process and are modelled as an outcome where the code can reach one (`ParseArgs`, `golang.Deps`,
`fileHashes`); a panic in a user's target is not modelled.

## 5. Trusted base

* Lean 4.33.0's kernel, and the axioms `propext`, `Classical.choice`, `Quot.sound` (section 7). No axioms of our own, no
  compiled evaluation.
* That the model reflects the code: the code is read, not executed.
* Assumptions on the environment, each visible as a hypothesis or as a parameter of the model:
  - SHA-224 does not collide *on the texts and contents at hand* (C23–C25, C30, C47, C50); otherwise the hash is arbitrary.
  - SQLite executes each statement atomically and durably (C31–C33, C73).
  - `rename` is atomic (C68), `os.MkdirTemp` gives a directory that nobody else writes in (C68, C69).
  - `sync.Mutex`, `sync.Cond`, `sync.WaitGroup` and `go` statements behave as documented; programs without data races
    have sequentially consistent executions (the Go memory model's promise; C72 proves the premise).
  - canonicaljson-go, encoding/json, flag, path/filepath, bufio, fmt and regexp behave as documented, as far as modelled; the
    models of `filepath.Clean/Join/Rel`, `flag`, `bufio.Writer`, `bufio.Scanner` are part of the trusted base.
  - yaml.v3's parser, `packages.Load`, `go/types`, `go/doc/comment`, the Go tool are arbitrary functions.

## 6. Where the code departs from its documentation or from what a user would expect

Each is proved as a `counterexample` or `finding` theorem of the property in parentheses, unless marked (read).

1. A target referenced by name runs once per reference object, not once (C01, C12); targets of size zero that share an address are
   taken for one target (C01, C15).
2. The JSON forms of `Seq`, `Deps`, `F` are empty, and those of Commands omit readers, writers and functions, so changes of these
   rules go unnoticed (C24).
3. A `Files` target with a subtarget given by name, or around a `Clean` with unsorted files, is not skipped by the next process (C26).
4. YAML Commands ignore a file name in `Stdin`, and `>>` in `Stdout`/`Stderr` becomes part of the file name (C38).
5. YAML references to a later target of the same file, or cyclic references between directories, recur forever (C43); directories
   read twice give two objects per target (C44).
6. A forced or first compilation does not write the version file, so the next run compiles again (C49); a crash between
   renaming the binary and writing the hash, or an edit between hashing and compiling, leaves a stale driver that is reused (C50);
   drivers of another fab version are reused after a forced run or a crash (C61). A failure to remove the version file is ignored (read).
7. `proto.Deps` lists files of shadowed include directories, and overlooks indented, single-quoted and weak imports (C54); the YAML
   form takes `Includes` relative to the working directory, and with a relative top directory a file list joins its results
   twice (C65).
8. `golang.Deps` panics on packages without a module, and matches embed patterns in the working directory (C55); `golang.Binary`
   with an absolute directory and no output always fails; in YAML `Dir: .` declares the directory itself as output (C64).
9. `ParseArgs` panics on an empty second argument (C16); `ListTargets` indents only the first line of a doc (C17).
10. With `--`, arguments that look like flags are taken as flags by the driver (C51); a relative `-fab` directory is resolved twice (C63).
11. Dependency cycles between targets hang (C06). `TopDir` rejects `_dir` with a trailing slash (C21).
12. The hash recorded by `Files` is computed after the run: an input edited during the run is recorded as built (C57).
13. `Clean` sorts and may overwrite the caller's slice (C59). A nonempty directory is an error (C34).
14. A missing YAML file of another directory is taken for a missing top-level file, and targets are silently dropped (C60).
15. Exported types that implement Target, or variables of an explicit local type, make the generated driver uncompilable; values that
    are not pointers make it exit; comments inside `var ( … )` groups are lost (C62). A `package x_test` file makes compiling fail (C68).
16. Files copied for compiling are closed without checking the error, and are copied one after the other (C69). The temporary
    directory must be on the same file system as the cache (read). The order of targets in driver.go is random (read).
17. `Indentf` writes the indentation and the text separately, without holding the lock, and indents only the first line (C70).
18. Without arguments, a project with a driver lists its targets and one without does nothing; the driver's standard input is empty;
    the driver runs in the top directory and fab without a driver in the working directory (C71).
19. Computing the hash of a Files target reads a deferred subtarget without its mutex: a data race (C72).
20. A client of the hash database whose clock is behind moves the time of an entry back (C33).
21. The type check compares bare names (C52) and rejects aliases and type parameters (C53).
22. Two files with the same base name in the directory hash depend on the order (C47).
23. `JoinPath` is not associative if the top directory is relative (C19).
24. `Command`: a standard input file is opened after the output files are truncated, so a command that filters a file in place reads nothing (C36_finding_stdin_lost). (read) `!Command` with a sequence, as in the doc comment of `ReadYAML`, is rejected.
25. `fileHashes`: an error of `Stat` other than "does not exist" leads to a nil dereference (C22, example at the end of `FileHash`; C81).
26. In YAML, `All: !All [Prog, Gen]` where Prog has an input that Gen makes runs Gen twice at the same time (by name, and as the maker), and the second run
    may find the hash of a mixture of old and new files in the database: the build returns nil with a wrong output (C78).
27. In YAML, if the rule of a Files target is a Command with a list of shell strings (`Shell: [a, b]`), it becomes a Seq, whose JSON form is `{}`: after an
    edit of the list a build returns nil without running the rule, and the outputs are those of the old list (C79).
28. A symbolic link, below a directory that is an input or output, which leads back to a directory above it (`d/up -> .`) makes `fileHashes` panic: the recursion goes
    on until the operating system refuses the path (too many links), which is an error of `Stat` other than "does not exist" (C81).
29. If a directory is given as an input with `..` after a symbolic link (`l/..`), the files hashed are not those in it (C81).
30. A `Clean` that lists a link to a directory and a file behind it (`a`, `a/x`) removes the link first; the file stays and nil is returned (C82).
31. In a dry run a `Files` target does not look at the database, so `fab -n` shows also the rules of targets that are up to date, which a build would not run (C83).
32. Errors of closing the output files of a `Command` never reach the caller: in command.go:238-255 the deferred closures assign to the inner `err` of `f, err := …`, and
    the error file and the input file are closed with a plain `defer f.Close()`. So output can be lost and `Run` returns nil (C84).
33. A `Command` with `Dir` gets the `PWD` of fab, not its own directory, because os/exec corrects `PWD` only if `cmd.Env` is nil (C85).
34. In verbose mode `Running command ...` is printed before the file of `StdinFile` is opened, hence also if nothing is run because it cannot be (C86).
35. The text of an error does not tell which target a line belongs to: `running A: x` followed by a line `running B: y` may mean that A has run B, or that B has nothing to do with A (C87_finding_ambiguous).
36. Nothing locks the driver's directory: if a fab records its hash (or its build information) after another one has replaced the driver, the record is wrong, and a later fab executes
    a driver of other sources, or of another version of fab (C89).
37. A Files target with an input that is one of its outputs (a formatter: `In: [x]`, `Out: [x]`), or lies below one, waits for itself: no call of Run with it returns, and nothing is
    reported (C76_finding_own_output, C76_finding_formatter).
38. Files whose names are not UTF-8 are recorded with U+FFFD for each such byte: renaming one of them leaves a Files target up to date (C90).
39. Nothing keeps two fabs from building the same target at the same time. One can record the hash of an output that the other has begun to write again; if that one is then killed, the half-written output is taken for up to date by every later fab (C91).
40. `fab Clean A` (as in `make clean all`), `fab A Clean` and `!All [Clean, A]` run the targets at the same time. Both may succeed while the output of A is missing at the end. Worse: if Clean removes the output after the rule has run and before the hash is computed, the hash of the missing output is recorded, and every later `fab A` returns nil without making it (C92). `!Seq [Clean, A]` is right.
41. A target asked for under its name and directly, or through two deferred names, has two outcomes: `Run` may return nil for one and an error for the other, because a reference by name is a target of its own
    (C02_counterexample_by_name). Two targets at the same address (two variables of a type without fields) count as one: `Run(a, b)` may return nil although `b` never began (C03_counterexample_shared_address).
42. In verbose mode the outputs of commands that run at the same time are mixed write by write, not line by line: a line that a command prints in pieces, or that is longer than 4096 bytes with its indentation, can have another
    command's output in its middle; and what a command prints after its last newline gets none, so that the next command's first line is glued to it, even with one command at a time (C95). The indentation of a message is a write of its own, so another goroutine's line may get it (C70, C95).
43. A Command empties the files that it names for its output (without `>>`) before it looks at the context: a build that has been cancelled empties the output files of commands that it never starts (C96).

## 7. Axioms of each theorem

Generated by `tools/gen_axioms.py` from Lean's own dependency analysis (`collectAxioms`) of the theorems of MANIFEST.json:
p = `propext`, c = `Classical.choice`, q = `Quot.sound`, – = none. No other axiom occurs in any theorem of the project, named here or not.

| property | theorems |
|---|---|
| C01 | `C01_at_most_once_per_address` (pcq), `C01_at_most_once_partial` (pcq), `C01_bound_with_names` (pcq), `C01_requested_targets_run` (pcq), `C01_counterexample_by_name` (p), `C01_counterexample_shared_address` (p) |
| C02 | `C02_same_result` (pcq), `C02_result_is_execution_outcome_partial` (pcq), `C02_by_any_reference` (pcq), `C02_counterexample_by_name` (pq) |
| C03 | `C03_run_waits` (pcq), `C03_targets_done_partial` (pcq), `C03_counterexample_shared_address` (pq) |
| C04 | `C04_run_result` (pcq), `C04_targets_outcomes` (pcq) |
| C05 | `C05_no_deadlock` (pcq), `C05_stuck_means_all_returned` (pcq), `C05_terminates` (pcq), `C05_run_always_returns` (pcq) |
| C06 | `C06_cycle_never_completes` (pcq), `C06_self_dependency` (pcq) |
| C07 | `C07_seq_order` (pcq), `C07_seq_result` (pcq), `finished_itself` (pcq) |
| C08 | `C08_all` (pcq), `C08_all_ok` (pcq), `finished_itself` (pcq) |
| C09 | `C09_deps_order` (pcq), `C09_deps_failure` (pcq), `C09_deps_success` (pcq), `finished_itself` (pcq) |
| C10 | `C10_context_of_starter` (pcq), `C10_argtarget` (pcq) |
| C100 | `C100_apart` (pcq), `C100_up_to_date` (pcq), `C100_right` (pcq), `C100_rules` (pcq), `C100_commands` (pcq), `C100_one_project` (pcq), `C100_shared` (pcq), `C100_yaml` (pcq), `several_buildRun` (pcq) |
| C101 | `C101_culprit` (pcq), `C101_success` (pcq), `C101_ends` (pcq), `C101_clean` (pcq), `C101_clean_ends` (pcq), `C101_yaml` (pcq), `C101_trees` (pcq), `C101_trees_ends` (pcq), `C101_yaml_trees` (pcq), `C101_session` (pcq), `C101_session_ends` (pcq), `C101_fab` (pcq), `C101_fab_success` (pcq), `C101_fab_clean` (pcq), `C101_fab_trees` (pcq) |
| C11 | `C11_depth` (pcq), `C11_depth_threads` (pcq) |
| C12 | `C12_name_runs_target_partial` (pcq), `C12_name_chain` (pcq), `C01_counterexample_by_name` (p) |
| C13 | `C13_wait_only_after_open` (pcq), `C13_ever_open_meaning` (pcq), `C13_no_lost_wakeup` (pcq), `C13_progress` (pcq), `C13_open_step` (pcq), `C13_all_waiters_released` (pcq) |
| C14 | `C14_lookup` (pq), `C14_register_result` (pq), `C14_names` (pcq), `C14_names_order_independent` (pcq) |
| C15 | `C15_describe_partial` (pcq), `C15_exact` (pcq), `C15_step` (pcq), `C15_describe_nonpointer` (pcq), `C15_counterexample_shared_address` (pcq) |
| C16 | `C16_option_form` (pcq), `C16_target_list_partial` (pcq), `C16_ok_iff` (pcq), `C16_empty_second_panics` (pcq) |
| C17 | `C17_list_partial` (pcq), `C17_iff` (pcq), `C17_counterexample` (pcq) |
| C18 | `C18_context` (pq), `C18_withArgs_frame` (p) |
| C19 | `C19_absolute` (pq), `C19_relative` (pq), `C19_cases` (pq), `C19_clean` (pq), `C19_clean_form` (pq), `C19_assoc` (pq), `C19_assoc_needs_absolute_top` (pcq) |
| C20 | `C20_rel_join` (pq), `C20_canonical` (pq), `C20_join_rel` (pq) |
| C21 | `C21_answer_partial` (pcq), `C21_answer_exact` (pcq), `C21_finds` (pcq), `C21_unmarked` (pcq), `C21_terminates` (pcq), `C21_counterexample_trailing_slash` (pcq) |
| C22 | `C22_list` (pcq), `C22_succeeds` (pcq), `C22_order_independent` (pcq) |
| C23 | `C23_list_determines_files` (pcq), `C23_hash_determines_files` (pcq) |
| C24 | `C24_rule_partial` (pcq), `C24_rule_exact` (pcq), `C24_rule_blind` (pcq), `C24_counterexample_seq` (pcq), `C24_counterexample_deps` (pcq), `C24_counterexample_command` (pcq) |
| C25 | `C25_skip_sound` (pcq), `C25_same_state` (pcq) |
| C26 | `C26_skip_complete_partial` (pcq), `C26_counterexample_by_name` (pcq), `C26_counterexample_clean` (pcq) |
| C27 | `C27_failure_propagates` (pcq), `C27_error_not_recorded` (pcq), `C27_success_means` (pcq) |
| C28 | `C28_force` (pcq), `C28_dryrun` (pcq) |
| C29 | `C29_registered` (pcq), `C29_calls` (pcq), `C29_actions` (pcq), `C29_producer_fails` (pcq), `find_iff` (pcq) |
| C30 | `C30_db_only_successes` (pcq), `C25_skip_sound` (pcq) |
| C31 | `C31_has_exact` (pcq), `C31_add_adds` (pcq), `C31_only_add_adds` (pcq), `C31_nil` (pcq) |
| C32 | `C32_exact` (pcq), `C32_fresh_survives` (pcq), `C32_old_evicted` (pcq), `C32_no_keep` (pcq) |
| C33 | `C33_add_is_kept` (pcq), `C33_counterexample_backdated` (p) |
| C34 | `C34_all_gone` (pcq), `C34_nothing_else` (pcq), `C34_failure_reported` (pcq), `C34_missing_ignored` (pcq), `C34_autoclean_registry` (pcq) |
| C35 | `C35_dry_run` (pcq) |
| C36 | `C36_routing` (pcq), `C36_error_carries_output` (pcq), `C36_success` (pcq), `C36_combined` (pcq), `C36_command` (pcq), `C36_stdin` (pcq), `C36_finding_stdin_lost` (pcq), `C36_not_started_reported` (pcq) |
| C37 | `C37_append_or_replace` (pcq), `C37_disagreement` (pcq), `C37_otherwise_runs` (pcq), `C37_nothing_else` (pcq) |
| C38 | `C38_outputs_partial` (pcq), `C38_counterexample_stdin` (pcq), `C38_counterexample_append` (pcq) |
| C39 | `C39_seq` (pcq), `C39_output` (pcq) |
| C40 | `C40_dry_run` (pcq) |
| C41 | `C41_string_list` (pcq), `C41_from_nodes` (pcq), `C41_unique` (pcq), `C41_file_list` (pcq), `C41_file_list_from_nodes` (pcq), `C41_tags` (pcq), `C41_glob_dir` (pq) |
| C42 | `C42_rejects` (pcq), `C42_registers` (pcq), `C42_nothing_else` (pcq), `C42_registered` (pcq), `C42_consistent` (pcq), `C42_file` (pcq), `C42_comment` (pq) |
| C43 | `C43_terminates_partial` (pcq), `C43_stable` (pcq), `C43_counterexample_forward_reference` (pcq), `C43_counterexample_two_directories` (pcq) |
| C44 | `C44_foreign` (pcq), `C44_describes` (pcq), `C44_no_file` (pcq), `C44_canonical` (pcq), `C44_plain` (pcq), `C44_resolve` (pq), `C44_finding_stale` (pcq) |
| C45 | `C45_chunks` (pcq) |
| C46 | `C46_line_semantics` (pcq), `C46_indent` (p) |
| C47 | `C47_order` (pcq), `C47_determines` (pcq), `C47_moved` (pcq), `C47_counterexample_same_base` (pcq) |
| C48 | `C48_reuse` (pcq), `C48_otherwise_compiles` (pcq), `C48_force` (pcq), `C48_compiled` (pcq) |
| C49 | `C49_reused_partial` (pcq), `C49_counterexample_second_run` (pcq), `C49_counterexample_forced` (pcq), `C49_counterexample_no_build_info` (pcq) |
| C50 | `C50_reused_current_partial` (pcq), `C50_same_files_partial` (pcq), `C50_counterexample_crash` (pcq), `C50_counterexample_edit` (pcq) |
| C51 | `C51_driver_recovers` (pcq), `C51_end_to_end_partial` (pcq), `C51_counterexample_verbose` (pcq), `C51_counterexample_rejected` (pcq) |
| C52 | `C52_accepted_matches` (pcq), `Matches.surface` (–), `C52_finding_other_package` (pcq), `C52_finding_unnamed` (pcq) |
| C53 | `C53_terminates_and_accepts` (pcq), `C53_order_independent` (pcq), `C53_finding_unhandled` (p) |
| C54 | `C54_contains` (pcq), `C54_sorted` (pcq), `C54_nothing_unrelated` (pcq), `C54_exact_partial` (pcq), `C54_all_read` (pcq), `C54_errors` (pcq), `C54_terminates` (pcq), `C54_stable` (pcq), `C54_import_lines` (pcq), `C54_target` (pcq), `C54_target_errors` (pcq), `C54_counterexample_shadowed` (pcq), `C54_finding_other_forms` (pcq) |
| C55 | `C55_contents` (pcq), `C55_exact_partial` (pcq), `C55_order_independent` (pcq), `C55_terminates` (pcq), `C55_errors` (pcq), `C55_counterexample_patterns` (pcq), `C55_finding_no_module` (pcq) |
| C56 | `C56_canonical_text` (pcq) |
| C57 | `C57_partial` (pcq), `C57_counterexample_edit_during_run` (pcq) |
| C58 | `C58_failing_writer` (pcq), `C58_loss_reported` (pcq) |
| C59 | `C59_clean_repeatable_partial` (pcq), `C59_exact` (pcq), `C59_iff` (pcq), `C59_counterexample_second_run` (pcq) |
| C60 | `C60_complete_partial` (pcq), `C60_reports` (pcq), `C60_counterexample` (pcq) |
| C61 | `C61_reused_same_fab_partial` (pcq), `C61_counterexample_force` (pcq), `C61_counterexample_removed` (pcq), `C61_counterexample_crash` (pcq) |
| C62 | `C62_literal_quote` (pcq), `C62_trim` (pq), `C62_compiles_iff` (pcq), `C62_registers_partial` (pcq), `C62_counterexample_type` (pcq), `C62_counterexample_typed_variable` (pcq), `C62_counterexample_not_pointer` (p), `C62_counterexample_group` (pcq) |
| C63 | `C63_same_directories_partial` (pcq), `C63_counterexample_relative` (pq) |
| C64 | `C64_writes_declared` (pcq), `C64_yaml` (pcq), `C64_finding_default_absolute` (pcq), `C64_counterexample_own_directory` (pcq) |
| C65 | `C65_paths_partial` (pcq), `C65_proto` (pcq), `C65_proto_errors` (pcq), `C65_twice_partial` (pq), `C65_counterexample_includes` (pcq), `C65_finding_lost` (pcq), `C65_counterexample_twice` (pcq) |
| C66 | `C66_decls` (pq), `C66_declared` (pq) |
| C67 | `C67_autoclean` (pcq), `C67_files` (pcq), `C67_files_empty` (p) |
| C68 | `C68_operation` (pcq), `C68_old_or_new` (pcq), `C68_cleaned` (pcq), `C68_disk` (pcq), `C68_bad_package` (pcq), `C68_concurrent` (pcq) |
| C69 | `C69_built_from_partial` (pcq), `C69_copy_again` (pcq), `C69_counterexample_lost_data` (pcq), `C69_counterexample_edit` (pcq) |
| C70 | `C70_message` (pcq), `C70_newline_partial` (pcq), `C70_one_thread` (pcq), `C70_threads_partial` (pcq), `C70_threads_top` (pcq), `C70_counterexample_newline` (pcq), `C70_counterexample_lines` (pcq), `C70_counterexample_threads` (pcq) |
| C71 | `C71_status` (pcq), `C71_runs_partial` (pcq), `C71_only_partial` (pcq), `C71_unknown_partial` (pcq), `C71_list_partial` (pcq), `C71_modes_partial` (pcq), `C71_counterexample_no_arguments` (pcq), `C71_counterexample_list_database` (pcq), `C71_counterexample_place` (pcq) |
| C72 | `C72_no_race_partial` (pcq), `C72_counterexample_json` (pq) |
| C73 | `C73_options` (pq), `C73_open_keeps` (pq), `C73_open_succeeds` (pq), `C73_thirty_days` (pcq) |
| C74 | `C74_sequential` (pcq), `C74_schedule_independent` (pcq), `C74_all_steady` (p), `C74_seq_steady` (p), `C74_arg_steady` (p) |
| C75 | `C75_quiet` (pcq), `C75_confined` (pcq), `C75_status` (pcq), `C75_needed` (pcq), `C75_order` (pcq), `C75_needs_itself` (pcq), `C75_all_needs` (–), `C75_seq_needs` (p), `C75_arg_needs` (p) |
| C76 | `C76_build` (pcq), `C76_returns` (pcq), `C76_older` (pcq), `C76_cycle` (pcq), `C76_circle` (pcq), `C76_finding_twice` (pcq), `C76_finding_own_output` (pcq), `C76_finding_formatter` (pcq) |
| C77 | `C77_nothing_to_do` (pcq), `C77_up_to_date` (pcq), `C77_second_build` (pcq) |
| C78 | `C78_correct` (pcq), `C78_commands` (pcq), `C78_sequences` (pcq), `C78_trees` (pcq), `C78_yaml` (pcq), `C78_no_collision` (pcq), `C78_history` (pcq), `C78_same_as_clean` (pcq), `C78_counterexample_two_names` (pcq) |
| C79 | `C79_edits_partial` (pcq), `C79_clear_partial` (pcq), `C79_visible` (pcq), `C79_commands` (pcq), `C79_counterexample_list` (pcq) |
| C80 | `C80_faithful` (pcq), `C80_text` (pcq), `C80_message` (pcq), `C80_before` (pcq), `C80_complete` (pcq), `C80_indentation` (pcq), `C80_finding_mixed` (pcq) |
| C81 | `C81_detects_partial` (pcq), `C81_list` (pcq), `C81_succeeds` (pcq), `C81_terminates` (pcq), `C81_changes` (pcq), `C81_real` (pq), `C81_without_links` (pcq), `C81_counterexample_dotdot` (pcq), `C81_finding_loop` (pcq) |
| C82 | `C82_all_gone` (pcq), `C82_nothing_else` (pcq), `C82_target_kept` (pcq), `C82_missing_ignored` (pcq), `C82_finding_behind_link` (pcq) |
| C83 | `C83_exactly` (pcq), `C83_shows_everything_partial` (pcq), `C83_forced_partial` (pcq), `C83_succeeds` (pcq), `C83_touches_nothing` (pcq), `C83_command` (pcq), `C83_clean` (pcq), `C83_counterexample_up_to_date` (pcq) |
| C84 | `C84_closed` (pcq), `C84_after` (pcq), `C84_reported_partial` (pcq), `C84_true` (pcq), `C84_finding_files` (pcq), `C84_counterexample_output_lost` (pcq) |
| C85 | `C85_variables` (pcq), `C85_once` (pcq), `C85_nothing_else` (pcq), `C85_refused` (pcq), `C85_run` (pcq), `C85_finding_pwd` (pcq) |
| C86 | `C86_files_quiet` (pcq), `C86_files_true` (pcq), `C86_files_complete` (pcq), `C86_files_either` (pcq), `cleanRunV_agrees` (pcq), `C86_clean` (pcq), `C86_clean_true` (pcq), `runV_agrees` (pcq), `C86_command_complete` (pcq), `C86_command_true` (pcq), `C86_finding_not_run` (pcq) |
| C87 | `C87_every_failure` (pcq), `C87_every_refusal` (pcq), `C87_true` (pcq), `C87_text` (pcq), `C87_build` (pcq), `C87_finding_ambiguous` (pcq) |
| C88 | `C88_line` (pcq), `C88_targets` (pcq), `C88_status` (pcq), `C88_error` (pcq), `C88_dry` (pcq), `C88_right` (pcq), `C88_yaml` (pcq), `C88_same_as_clean` (pcq), `C88_second` (pcq) |
| C89 | `C89_present_partial` (pcq), `C89_same_files_partial` (pcq), `C89_sound_partial` (pcq), `C89_no_edit` (pcq), `C89_same_fab` (pcq), `C89_settles_partial` (pcq), `C89_executes` (pcq), `C89_first` (pcq), `C89_no_waiting` (pcq), `C89_alone` (pcq), `C89_counterexample_edit` (pcq), `C89_counterexample_two_fabs` (pcq) |
| C90 | `C90_exact` (pcq), `C90_valid` (pcq), `C90_written` (pcq), `C90_order` (pcq), `C90_record` (pcq), `C90_determines_partial` (pcq), `C90_finding_renamed` (pcq) |
| C91 | `C91_correct_partial` (pcq), `C91_commands_partial` (pcq), `several_reach` (pcq), `C91_counterexample_same_target` (pcq) |
| C92 | `C92_clean` (pcq), `C92_success` (pcq), `C92_rebuild` (pcq), `C92_commands` (pcq), `C92_finding_together` (pcq), `C92_finding_poisoned` (pcq) |
| C93 | `C93_needed` (pcq), `C93_minimal` (pcq), `C93_parts` (pcq), `C93_edited` (pcq), `C93_cutoff` (pcq), `C93_fab` (pcq) |
| C94 | `C94_one_place` (pcq), `C94_new` (pcq), `C94_runs` (pcq), `C94_rules` (pcq), `C94_rule_places` (pcq), `C94_orderly` (pcq), `C94_once` (p), `C94_fair` (pcq) |
| C95 | `C95_one_goroutine` (pcq), `C95_pieces` (pcq), `C95_lines_partial` (pq), `C95_messages_partial` (pq), `C95_counterexample_cut` (pq), `C95_counterexample_last_line` (pcq), `C95_counterexample_long` (pq), `C95_counterexample_indentation` (pq) |
| C96 | `C96_command_partial` (pcq), `C96_late` (pcq), `C96_success` (pcq), `C96_nothing_recorded` (pcq), `C96_counterexample_emptied` (pcq) |
| C97 | `C97_not_again` (pcq), `C97_fab` (pcq) |
| C98 | `C98_force` (pcq), `C98_then` (pcq), `C98_yaml` (pcq), `C98_fab` (pcq), `C98_fab_yaml` (pcq) |
| C99 | `C99_beside` (pcq), `C99_success` (pcq), `C99_right` (pcq), `C99_one_by_one` (pcq), `C99_fab` (pcq), `C99_fab_yaml` (pcq) |
