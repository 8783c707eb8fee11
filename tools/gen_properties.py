#!/usr/bin/env python3
"""Writes /verif/properties.jsonl. One entry per property; append at the end as the model grows."""
import json, os
P = []
def p(title, statement, quantifier, why, *anchors):
    P.append(dict(id="C%02d" % (len(P)+1), title=title, statement=statement, quantifier=quantifier,
                  why_tests_cant=why, anchors=list(anchors)))

SCHED = "A test runs a handful of goroutine interleavings; the claim is about every interleaving of every number of goroutines."

# --- the runner -------------------------------------------------------------------------------
p("A target's Run method is invoked at most once per controller",
  "However many times, from however many goroutines, and through however many other targets a given target is requested from one Controller (by Run, All, Seq, Deps, ArgTarget, Files, or by name in YAML), its Run method is invoked at most once.",
  "every set of targets with arbitrary Run bodies, every number of concurrent client goroutines, every schedule",
  SCHED, "runner.go:Controller.Run", "controller.go:Controller", "yaml.go:deferredResolutionTarget", "register.go:targetAddr")
p("All requests for one target see one outcome",
  "Every call to Controller.Run that requests a target obtains, for that target, exactly the (wrapped) error or nil that the single execution of its Run method produced, whether the request came before, during or after that execution.",
  "every target, every pair of requests, every schedule", SCHED, "runner.go:Controller.Run", "runner.go:outcome", "gate.go:gate")
p("Run never returns before the targets it was given have finished",
  "When a call to Controller.Run returns, every (pointer-typed, resolvable) target in its argument list has completed its Run method and published its outcome.",
  "every call, every argument list, every schedule", SCHED, "runner.go:Controller.Run")
p("Run's result is exactly the join of its targets' outcomes",
  "Controller.Run returns nil iff every argument is a pointer-typed, resolvable target whose outcome is nil; otherwise it returns the join of exactly the non-nil outcomes in argument order (non-pointer targets and unresolvable names contribute their own error, and do not stop the other targets from running).",
  "every call, every argument list, every schedule", SCHED, "runner.go:Controller.Run", "register.go:targetAddr")
p("Acyclic target graphs never deadlock and always finish",
  "If the targets can be ranked so that each target's Run method only requests lower-ranked targets, then under every schedule there is no infinite execution and the only states without a possible step are those where every call to Controller.Run has returned.",
  "every acyclic target graph, every terminating Run body, every schedule, every number of concurrent clients", "Liveness over all schedules; no finite set of runs shows absence of deadlock.", "runner.go:Controller.Run", "gate.go:gate.wait")
p("A dependency cycle hangs: no member of it ever completes",
  "If every member of a set of targets must, on each path through its Run method, request some member of that set before returning, then no member of the set ever produces an outcome and no Run call requesting one ever returns (there is no cycle detection).",
  "every such set, every schedule", "A test that hangs only shows that one schedule has not finished yet.", "runner.go:Controller.Run", "files.go:files.runPrereqs", "yaml.go:deferredResolutionTarget.Run")
p("Seq runs its targets in order and stops at the first failure",
  "A Seq target requests its k-th target only after targets 1..k-1 have all finished without error; it never requests a target after one that failed; it succeeds iff all its targets succeeded, and otherwise returns the first failure.",
  "every list of targets (at addresses of their own: C03), every outcome, every schedule", SCHED, "seq.go:seq.Run")
p("All requests every one of its targets, regardless of failures",
  "When an All target finishes, every target in its collection has finished, even if some failed; it succeeds iff all of them succeeded.",
  "every list of targets (at addresses of their own: C03), every outcome, every schedule", SCHED, "all.go:all.Run")
p("Deps runs its main target only after every dependency succeeded",
  "A Deps target requests its main target only after all dependency targets have finished without error; if a dependency fails it does not request the main target and itself fails.",
  "every main target and list of dependencies (at addresses of their own: C03), every outcome, every schedule", SCHED, "deps.go:Deps", "seq.go:seq.Run", "all.go:all.Run")
p("ArgTarget delivers its arguments, and context flows from the first requester",
  "When an ArgTarget's subtarget is executed on its behalf, GetArgs in the subtarget's context returns exactly the ArgTarget's arguments; in general a target runs with the context of the request that started it.",
  "every target, argument list and schedule", SCHED, "argtarg.go:argTarget.Run", "context.go:WithArgs", "context.go:GetArgs", "runner.go:Controller.Run")
p("Indentation depth equals the number of Run calls in progress",
  "At every moment the controller's indentation depth equals the number of (non-empty) calls to Controller.Run in progress; it never goes negative and is zero again when all calls have returned.",
  "every history of calls, every schedule", SCHED, "runner.go:incDepth", "runner.go:decDepth", "runner.go:Indentf")
p("Referring to a target by name is transparent",
  "A YAML reference to a target by name behaves like the target itself: running it runs the named target with the same outcome, and it counts as the same target for the run-once rule (the documented diamond-dependency guarantee).",
  "every registry, every chain of references, every schedule", SCHED, "yaml.go:deferredResolutionTarget", "runner.go:Controller.Run", "Readme.md:Defining new target types")
p("Opening the gate releases every waiter (no lost wake-ups)",
  "Waiting for an outcome returns only after the outcome was published, and once it is published every waiter, whenever it began to wait, can proceed and never blocks again.",
  "every number of waiters, every interleaving of lock, wait, broadcast and unlock steps, spurious wake-ups included", SCHED, "gate.go:gate.set", "gate.go:gate.wait")
# --- registry, args, context --------------------------------------------------------------------
p("The target registry behaves like a map: last registration wins",
  "After any sequence of RegisterTarget calls, RegistryTarget(name) returns the target and doc of the last successful registration under that name (nil if none), registering a non-pointer target fails and changes nothing, and RegistryNames returns exactly the registered names, sorted, without duplicates.",
  "every sequence of registrations, every name", "Holds over all histories, which tests sample.", "register.go:RegisterTarget", "register.go:RegistryNames", "register.go:RegistryTarget")
p("Describe names a registered target and only that",
  "Describe(t) is the name most recently registered for t itself, if there is one, and otherwise \"unnamed \" followed by t's own description; registering other targets never changes it.",
  "every registration history, every target", "Holds over all histories.", "register.go:Describe")
p("ParseArgs splits a command line into targets exactly as documented",
  "With a non-empty second argument starting with '-', ParseArgs yields exactly one target: the first argument's target wrapped with all remaining arguments; otherwise it yields the targets of all arguments in order; if any name is unknown it returns an error naming exactly the unknown ones and no targets; it never drops, reorders or invents a target.",
  "every registry and argument list", "Unbounded argument lists and registries.", "controller.go:ParseArgs")
p("ListTargets lists every registered target once, in order, with its documentation",
  "ListTargets prints, for each registered name in sorted order, the name on a line of its own followed, iff the doc string is non-empty, by the doc string with its lines indented by four spaces.",
  "every registry", "Unbounded registries and doc strings.", "controller.go:ListTargets", "main.go:bolRegex")
p("Context settings are independent and the innermost wins",
  "Each Get function returns the value of the innermost corresponding With on the context (default false/nil when there is none), unaffected by any of the other settings, in any order and nesting.",
  "every sequence of With calls", "All nestings of five settings.", "context.go")
# --- paths ---------------------------------------------------------------------------------------
p("JoinPath: absolute segments reset, relative ones land under the top directory",
  "JoinPath of segments with an absolute one equals JoinPath of the suffix starting at the last absolute segment and is independent of the top directory and of everything to its left; JoinPath of relative segments is the top directory joined with them; the result is always a cleaned path and, for an absolute top directory (fab always passes one), joining is associative.",
  "every list of path segments, every top directory", "Unbounded strings; cleaning has many corner cases.", "controller.go:JoinPath")
p("RelPath inverts JoinPath, so a YAML target has one canonical name",
  "For a relative reference that does not climb above the top directory, RelPath(JoinPath(dir, ref)) is the cleaned form of dir/ref, so every way of spelling a reference to the same place yields the same registry name. With an absolute top directory, JoinPath(RelPath(p)) is the cleaned p for every absolute p.",
  "every dir and reference", "Unbounded strings.", "controller.go:RelPath", "controller.go:JoinPath", "yaml.go:YAMLTarget")
p("TopDir finds the nearest marked ancestor, or the directory its _dir declaration points at",
  "If TopDir succeeds, its answer is an ancestor-or-self of the starting directory such that no directory strictly between has a _fab directory or fab.yaml, and the stopping directory either has _fab, or a fab.yaml without _dir (answer: that directory), or a fab.yaml whose _dir declaration is precisely the path from the answer to it; it always terminates, and fails if nothing up to the root is marked.",
  "every file tree and starting directory", "All trees and depths.", "top.go:TopDir", "top.go:topDirHelper")
# --- Files ----------------------------------------------------------------------------------------
p("The file-hash list is canonical",
  "The list of file hashes that feeds the up-to-date check is sorted by name, has one entry per regular file (directories are expanded to all the files below them) and one with an empty hash per missing file, and does not depend on the order or duplication of the names given.",
  "every file tree, every list of names", "All trees and lists.", "files.go:fileHashes", "files.go:fileHashesHelper", "files.go:fileHashesItemHelper")
p("Any change to an input or output file changes the up-to-date hash",
  "If two evaluations of a Files target's hash agree then (absent a hash collision) each input and each output file had the same content, or was absent, in both.",
  "every pair of file trees, every Files target", "All contents.", "files.go:computeHash", "files.go:fileHashes", "files.go:hashFile")
p("Any change to the subtarget's rule changes the up-to-date hash",
  "If two Files targets with the same files have the same hash then (absent a hash collision) their subtargets have the same type and the same rule (commands, arguments, nested targets).",
  "every pair of subtargets built from Command, Clean, All, Seq, Deps, ArgTarget, F, Files and name references", "All rules.", "files.go:computeHash", "seq.go:seq", "f.go:ftarget", "yaml.go:deferredResolutionTarget")
p("A Files target is skipped only in a state some successful run left behind",
  "If a Files target reports success without running its subtarget, then at some earlier moment (in this process or any earlier one sharing the database) a Files target with the same hash completed its subtarget without error and the inputs and outputs then were the same as now.",
  "every history of processes, file edits, runs, crashes and schedules", "All histories.", "files.go:files.Run", "hash.go:HashDB", "sqlite/db.go")
p("A Files target that just succeeded is skipped the next time if nothing changed",
  "If a Files target ran to success with a hash database and then neither the files nor the rule change (and the entry has not expired), running it again with a fresh controller does not run its subtarget.",
  "every Files target, every history of unrelated events", "All histories.", "files.go:files.Run", "files.go:computeHash")
p("A failing run is never recorded as up to date",
  "If prerequisites, the subtarget, hashing or the database lookup fail, the Files target returns an error and adds nothing to the hash database.",
  "every failure point, every schedule", "All failure points.", "files.go:files.Run")
p("Force always rebuilds; dry-run never consults or updates the database",
  "With Force the subtarget is requested whatever the database says (and the new hash is recorded on success); with DryRun, or without a database, the hash database is neither read nor written.",
  "every Files target, state and schedule", "All states.", "files.go:files.Run", "context.go")
p("File chaining: producers of input files run first",
  "Before a Files target checks its hash or requests its subtarget, for each input the Files target created last with that name among its outputs, or else with the nearest directory above it that is an output, has been run and has succeeded; otherwise it fails without requesting its subtarget.",
  "every registry of Files targets, every input list, every schedule", SCHED, "files.go:runPrereqs", "files.go:findInFilesRegistry")
p("Crashes never make a stale target look up to date",
  "If the process dies at any point during any run, the database contains only hashes of states in which a subtarget had completed successfully, so the next process skips a target whose last build was interrupted only if its files are again exactly in a state that a successful run left behind.",
  "every crash point of every schedule", "All crash points.", "files.go:files.Run", "sqlite/db.go:Add")
# --- sqlite ----------------------------------------------------------------------------------------
p("The hash database is a set with exact membership",
  "For every history of Add and Has calls, Has(h) is true iff h was added and has not been evicted since; Has never inserts, and hashes do not affect each other except through eviction.",
  "every history, every clock", "All histories.", "sqlite/db.go:Has", "sqlite/db.go:Add", "sqlite/schema.sql")
p("Expiry evicts old entries and never fresh ones",
  "An entry whose last touch (Add, or Has when update-on-access is on) is within the Keep duration survives every Add; after an Add, no entry older than Keep (plus clock granularity) remains; without Keep nothing is ever evicted.",
  "every history, every keep duration, every clock", "All histories and boundary instants.", "sqlite/db.go:Add", "sqlite/db.go:Keep", "sqlite/db.go:UpdateOnAccess")
p("Concurrent database clients keep each other's entries",
  "Under every interleaving of the individual SQL statements of any number of clients, and crashes between statements, an Add that has returned makes every later Has true until the entry expires.",
  "every interleaving of statements, every crash point", SCHED, "sqlite/db.go:Add", "sqlite/db.go:Has", "hash.go:HashDB")
# --- clean -----------------------------------------------------------------------------------------
p("Clean removes exactly the files it names",
  "If Clean succeeds, none of its files (nor, with Autoclean, the registered output files) exists any more and every other file is untouched; already-missing files are ignored; if a removal fails, Clean returns an error.",
  "every file tree without symbolic links (with them: C82), every list of files", "All trees.", "clean.go:Clean.Run", "files.go:Autoclean")
p("Clean in dry-run mode changes nothing", "With DryRun, Clean returns nil and removes no file.", "every file tree, every list of files", "All trees.", "clean.go:Clean.Run")
# --- command ---------------------------------------------------------------------------------------
p("Command output goes to the specified destination",
  "A Command's output goes to its explicit writer or file if given, else to the writer made by its function if that yields one, else to the indented standard stream in verbose mode, else into the captured buffer that is attached to the returned error; stdout and stderr naming one file are combined there.",
  "every combination of Command fields, verbosity and writer functions", "Large product of configurations.", "command.go:Command.Run", "command.go:CommandErr")
p("Append versus overwrite follows the >> prefix",
  "A Command whose output file has a >> prefix appends to the file, otherwise the file is replaced; if stdout and stderr name the same file but disagree about this, the command fails before touching anything.",
  "every pair of file names", "All file names.", "command.go:Command.Run")
p("A YAML Command honours its Stdin, Stdout, Stderr and Dir fields",
  "A Command declared in YAML reads standard input from the file named by Stdin, writes to the files named by Stdout/Stderr relative to the YAML file's directory (appending when they begin with >>), and runs in Dir relative to that directory.",
  "every YAML Command node, every top directory and YAML directory", "All strings.", "command.go:toTarget", "command.go:commandDecoder")
p("A multi-line YAML Command never clobbers its own earlier output",
  "A YAML Command with a list of shell strings becomes a Seq with one Command per string, in order, identical except for the string, in which the second and later Commands append to the output files.",
  "every list of shell strings and output fields, every absolute top directory", "All lists.", "command.go:commandDecoder", "command.go:toTarget")
p("Command in dry-run mode starts nothing and touches no file",
  "With DryRun, a Command returns nil without starting a process, opening or creating any file or calling its writer functions.",
  "every Command", "All configurations.", "command.go:Command.Run")
# --- YAML -------------------------------------------------------------------------------------------
p("A YAML string list is the in-order concatenation of its items",
  "YAMLStringList of a sequence is the concatenation, in order, of each plain scalar itself and each tagged item's expansion; the first bad item makes the whole call fail; a missing node is an empty list.",
  "every YAML node, every set of registered tags", "All nodes.", "yaml.go:YAMLStringList", "yaml.go:YAMLStringListFromNodes")
p("Reading a YAML file registers each of its targets under dir/name",
  "If ReadYAML succeeds, every key of the document other than _dir is registered under the cleaned dir/name with its target and comment, nothing else defined in that document is, and names with slashes, wrong or missing _dir declarations and malformed documents are rejected.",
  "every YAML document and directory", "All documents.", "yaml.go:ReadYAML")
p("Loading YAML files always terminates",
  "Reading a project's YAML files terminates with success or an error for every set of fab.yaml files.",
  "every tree of YAML files with arbitrary cross references", "Termination over all inputs.", "yaml.go:YAMLTarget", "yaml.go:ReadYAMLFile", "yaml.go:ReadYAML")
p("A YAML reference resolves to the registered target of its canonical name",
  "A reference with a slash resolves, once its directory's YAML file has been read, to the target registered under the canonical name, reading that file only if the name is not yet registered; a plain name resolves when run to whatever is registered under it then, and keeps that resolution.",
  "every registry, reference and directory", "All registries and names.", "yaml.go:YAMLTarget", "yaml.go:deferredResolutionTarget.resolve")
# --- output copier --------------------------------------------------------------------------------
p("The indenting copier does not depend on how its input is split into writes",
  "Writing the same bytes to an indenting copier in any number of Write calls, split anywhere, produces the same output.",
  "every byte sequence and every way of splitting it, on a destination that does not fail (else: C58)", "All splits.", "runner.go:indentingCopier.Write")
p("The indenting copier indents lines and normalises line ends",
  "The output is the input with \\r\\n and bare \\r turned into \\n (a final \\r dropped) and the indentation and prefix inserted at the beginning of every non-empty line; on success Write reports the length of its input.",
  "every byte sequence, on a destination that does not fail (else: C58)", "All byte sequences.", "runner.go:IndentingCopier", "runner.go:indentingCopier.Write")
# --- driver ----------------------------------------------------------------------------------------
p("The driver's directory hash ignores file order and sees every change",
  "The hash of the user's Go files does not depend on the order in which they are added, and (absent a hash collision) two equal hashes mean the same set of base names with the same contents.",
  "every list of files with distinct base names (the files of one directory)", "All lists.", "dirhash.go:dirHasher")
p("An existing driver is reused only if it is current",
  "Without Force, the existing driver is reused only if it exists, the recorded fab build information equals the running one and the recorded directory hash equals the hash of the current sources; otherwise it is recompiled; with Force it is always recompiled.",
  "every cache state, source state and fab version", "All cache states.", "main.go:getDriver", "main.go:checkVersion")
p("An up-to-date driver is not recompiled",
  "Running fab again without changing sources or the fab version does not recompile the driver.",
  "every project, every number of successive runs", "All histories.", "main.go:getDriver", "main.go:checkVersion")
p("A reused driver was compiled from the current sources, whatever crashed before",
  "In every history of source edits, runs and crashes, a driver that is reused without recompilation was compiled from sources with the current hash.",
  "every history, every crash point", "All crash points.", "main.go:getDriver", "compile.go:CompilePackage")
p("The driver sees the settings fab was given",
  "The driver's flag parsing of the command line built by fab recovers the same fab directory, top directory, verbose, list, force and dry-run settings and the same target arguments.",
  "every combination of settings and every argument list fab itself could have parsed", "All argument lists.", "main.go:Main.Run", "driver.go.tmpl", "cmd/fab/main.go")
# --- types -----------------------------------------------------------------------------------------
p("The Target-interface check accepts only matching method signatures",
  "If a user's type is accepted as implementing Target then its Run and Desc methods have parameter and result types structurally matching those of the interface, through arbitrarily recursive types.",
  "every type graph", "All (cyclic) type graphs.", "types.go:checkImplementsTarget", "types.go:checkTypesMatch", "types.go:checkSignaturesMatch")
p("The Target-interface check terminates and accepts every structurally matching type",
  "The check terminates on every, possibly recursive, type and accepts every type whose Run and Desc signatures match structurally within the kinds of types it handles.",
  "every type graph", "All (cyclic) type graphs.", "types.go:checkTypesMatch", "types.go:typeChecker")
# --- proto / go deps -------------------------------------------------------------------------------
p("Proto dependencies contain every transitively imported file",
  "The dependency list of a .proto file contains the file itself and every file reachable through imports resolved against the include directories, is sorted and duplicate-free, and contains nothing that is not reachable.",
  "every import graph (cycles included), every include list", "All import graphs.", "proto/proto.go:Deps", "proto/proto.go:protodeps", "proto/proto.go:protodepsImport")
p("Go dependencies are exactly the files of the packages reachable inside the module",
  "The dependency list of a Go package is the sorted, duplicate-free list of files of all packages reachable from it through imports without leaving its module.",
  "every import graph", "All import graphs.", "golang/go.go:Deps", "golang/go.go:gopkgAdd")
p("Canonical JSON determines the value",
  "Two rule descriptions with the same canonical JSON text are the same, whatever characters their strings contain, so equal texts hashed by Files and by the directory hasher mean equal descriptions.",
  "every string, list and object", "All strings.", "files.go:computeHash", "dirhash.go:hash")

p("What is recorded as up to date was built from the recorded inputs",
  "When a Files target records a state as up to date, the recorded input contents are the ones its subtarget started from, so a later skip means the outputs correspond to the inputs.",
  "every interleaving of the run with edits of the input files", "All interleavings of edits with the run.", "files.go:files.Run", "files.go:computeHash")

p("A failing destination never sees wrong output, and a loss is reported",
  "Whatever the writer behind an IndentingCopier does (short writes, errors), the bytes it accepts are always a prefix of the correct output, even if writing goes on after an error; and if no Write call reported an error then all of the correct output has reached it.",
  "every behaviour of the destination, every sequence of Write calls, every buffer size", "All failure points of the destination.", "runner.go:indentingCopier.Write", "runner.go:indentingCopier.newline")

p("Running a Clean does not change which files it names",
  "Running a Clean target leaves its own list of files naming the same files, so running it again removes the same files.",
  "every Clean, every list (with any spare capacity), every set of registered outputs", "All slice layouts and registries.", "clean.go:Clean.Run")

# --- found while modelling ---------------------------------------------------------------------------
p("A YAML file is read completely or an error is reported",
  "When fab (with or without a driver) goes on to run targets after reading the top-level fab.yaml, every target of that file has been registered; a missing file is tolerated only if it is the top-level one.",
  "every YAML file and every set of files it refers to", "All files and references.", "main.go:Main.driverless", "driver.go.tmpl", "yaml.go:ReadYAMLFile")
p("A reused driver was compiled by the running version of fab",
  "In every history of runs by different versions of fab, with forced runs, removed files and crashes, a driver that is reused was compiled by a fab with the build information of the running one.",
  "every history, every crash point", "All histories and crash points.", "main.go:getDriver", "main.go:checkVersion", "compile.go:CompilePackage")
p("The driver registers exactly the user's exported targets",
  "The generated driver registers each exported top-level variable of the user's package whose type implements Target, under its own name and with its own documentation comment, and nothing else.",
  "every package", "All packages.", "compile.go:CompilePackage", "driver.go.tmpl")
p("Directories mean the same to fab and to the driver",
  "The fab directory and the top directory that fab hands to the driver denote the same directories for the driver, which runs with another working directory.",
  "every working directory and every spelling of the directories", "All paths.", "main.go:Main.Run", "driver.go.tmpl")
p("A Go binary target writes the file it declares",
  "The output file that golang.Binary declares is the file that its go build command, run in its own directory, writes.",
  "every directory and output name", "All paths.", "golang/go.go:Binary")
p("Paths in the YAML forms of the bundled rules are relative to the YAML file",
  "The paths given to !go.Binary, !go.Deps, !ts.Decls, !proto.Proto and !proto.Deps are absolute, or relative to the directory containing the YAML file.",
  "every top directory, YAML directory and path", "All paths.", "golang/go.go:binaryDecoder", "golang/go.go:depsDecoder", "ts/tsdecls.go:declsDecoder", "proto/proto.go:protodepsDecoder", "proto/proto.go:protoDecoder")
p("ts.Decls writes its output file or reports an error",
  "A ts.Decls target that reports success has written exactly the generated declarations to its declared output file; no other file changes; in a dry run nothing changes; every failure is reported.",
  "every type, output file and failure", "All failures of file operations and of the generator.", "ts/tsdecls.go:declsType.Run", "ts/tsdecls.go:Decls")
p("The registries of output files have exactly what the YAML files say",
  "After YAML files have been read, the registry of files maps each output of a Files target to the target created last of those with that output, and nothing else; the registry of files to clean has gained exactly the outputs of those !Files nodes that have Autoclean: true. This holds even if reading ended with an error.",
  "every set of YAML files, every registry before", "All files and nestings.", "files.go:Files", "files.go:Autoclean", "files.go:filesDecoder", "yaml.go:ReadYAMLFile")

p("Compiling a driver replaces it as a whole or not at all",
  "At every moment while Compile runs, and after a crash at any moment, the driver file is the old one or a complete new one. If Compile returns nil it is a complete new one, if it returns an error it is the old one. Nothing else changes, and the temporary directory is removed. This also holds if several Compile calls run at the same time, for the same or for other drivers.",
  "every failure of every operation, every crash point, every interleaving with other processes", "All failures, crash points and interleavings.", "compile.go:Compile", "compile.go:CompilePackage", "compile.go:populateFabDir", "compile.go:copyFile")
p("A driver is built from exactly the user's code and fab's own code",
  "If Compile returns nil, the driver was built from a directory that contains the Go files of the user's package other than tests, a copy of the code of the running fab (which the module file refers to), the main program for the user's targets, and no other code.",
  "every package, every set of embedded files, every behaviour of the file system", "All packages and file system behaviours.", "compile.go:CompilePackage", "compile.go:populateFabSubdir", "compile.go:copyFile", "embeds.go:embeds")

p("Messages of a controller are indented and appear whole",
  "A message printed with Indentf appears indented by two spaces for each nesting level, each of its lines, and ends with a newline, which is added if it is not there; messages printed by concurrent targets appear one after the other, each with its own indentation.",
  "every format and arguments, every depth, every interleaving of goroutines", "All schedules and texts.", "runner.go:Controller.Indentf", "runner.go:indentf")
p("What fab does depends on the command line and the project, and not on whether there is a driver",
  "Fab runs exactly the targets that its arguments name, with the settings of its flags, or lists the targets; its exit status is 0 exactly if it listed the targets or all targets that it ran succeeded (or help was asked for). All this is the same with a driver and in driverless mode.",
  "every command line, every project, every outcome of the targets", "All command lines and projects.", "cmd/fab/main.go:main", "main.go:Main.Run", "main.go:driverless", "driver.go.tmpl:main", "controller.go:ParseArgs")

p("Running targets is free of data races",
  "In every execution of a program in which any number of goroutines run targets through one controller, every two accesses to a variable of the controller, to the recorded outcome of a target, to the list of errors of a Run call or to the resolution of a by-name reference, at least one of which is a write, are ordered by the happens-before relation of the Go memory model. (So the results of the program do not depend on compiler and processor reorderings.)",
  "every set of targets and clients, every interleaving, every moment", "The race detector sees one schedule at a time; the claim is about all of them.", "runner.go:Controller.Run", "gate.go:gate", "yaml.go:deferredResolutionTarget.resolve", "register.go:Controller.Describe", "files.go:files.computeHash")

p("Fab remembers what it has built for thirty days after the last use",
  "OpenHashDB opens the database in the given directory, creating directory and file if need be, and never changes what is in an existing one. Whatever fab processes use the database, one after the other or at the same time, an entry that was added or found at some time is found by every later lookup until a process adds an entry more than thirty days later. The options of sqlite.Open have the documented defaults, and the last one of each kind counts.",
  "every history of processes, failures and crashes, every list of options", "All histories.", "sqlite/db.go:Open", "sqlite/db.go:Keep", "sqlite/db.go:UpdateOnAccess", "main.go:OpenHashDB", "sqlite/schema.sql")

p("Concurrency does not change the result",
  "In every schedule, what a target's Run method returns and what Controller.Run returns is something that evaluating the targets one after the other, without any sharing of results, can give. If the result of every target is determined by the results of the targets it runs, and there is no cycle, then calls of Run with the same targets return the same error (or nil) in all executions.",
  "every set of targets at addresses of their own (C03), every two schedules and worlds", "All pairs of interleavings.", "runner.go:Controller.Run", "all.go:all.Run", "seq.go:seq.Run", "argtarg.go:argTarget.Run")
p("A build runs what was asked for, nothing else, and reports every failure",
  "When Run, called on a new controller, returns: nothing that it started is still running; only targets that can be reached from its arguments have been run; if targets pass on the errors of the targets they run (as All, Seq, Deps and ArgTarget do), it returned nil exactly if every target that was run returned nil and every reference could be resolved; and if it returned nil, everything that the arguments need, directly or indirectly, has been run and has succeeded, in the right order. Targets that need one another in a circle never succeed.",
  "every set of targets (for what is needed: at addresses of their own, see C03), every schedule", "All target graphs and schedules.", "runner.go:Controller.Run", "all.go:all.Run", "seq.go:seq.Run", "deps.go:Deps", "argtarg.go:argTarget.Run")

p("Building a project that is described in YAML",
  "After YAML files have been read (whatever they say), running targets of the project: only the given targets, and the targets that they use (as elements, by name, as makers of input files, or as the rule of a Files target) are run; the result is nil exactly if nothing that was run failed and every name that was looked up is known; and if it is nil, everything that is needed was run and succeeded. If no target uses itself through others then every call of Run returns; such a circle always goes through a name or through an input file that is made by a target. A target that needs itself never succeeds; if nothing can fail or be skipped before it needs itself, running it never returns.",
  "every YAML project, every list of targets, every schedule and outcome of commands", "All projects and schedules.", "yaml.go:Controller.ReadYAML", "yaml.go:deferredResolutionTarget", "runner.go:Controller.Run", "files.go:files.Run", "files.go:files.runPrereqs", "all.go:all.Run", "seq.go:seq.Run", "argtarg.go:argTarget.Run")

p("A second build does nothing",
  "Targets of a project that need, apart from lists and names, only Files targets are built with a hash database, and the build returns nil. Then they are built again, and neither their files, as each Files target saw them at its end, nor their rules nor the database have changed for the worse. Then the second build, without Force, changes no file and no database, runs no rule, and returns nil. More generally, a build in which every Files target that is needed is up to date does nothing. (Rules that contain references by name are excepted: their description changes when a name is looked up.)",
  "every YAML project, every pair of schedules, every outcome of commands, everything others do meanwhile", "All projects and pairs of schedules.", "files.go:files.Run", "files.go:files.computeHash", "files.go:files.runPrereqs", "runner.go:Controller.Run", "yaml.go:deferredResolutionTarget", "context.go:GetHashDB", "hash.go:HashDB")

p("Builds are correct, whatever was built before",
  "Suppose that every rule of a Files target, when it has run successfully, has made the outputs that it should make from the inputs (for example, because it is a command that does so if nobody else changes these files meanwhile); that commands, and everything outside fab, change no inputs and outputs that are not theirs; that rules share no parts; that hashes do not collide; and that no Files target is needed under two names. After any history of builds (successful, failed, or killed at any moment, of this project or of others), changes to the files and losses of database entries: if a build returns nil then the outputs of every Files target that it needs are what they should be, also of those whose rules were not run. If what the outputs should be depends only on the inputs, then they are the same as after a build from scratch.",
  "every YAML project, every history of builds, edits and crashes, every schedule, every behaviour of the commands", "All histories and schedules.", "files.go:files.Run", "files.go:files.computeHash", "files.go:files.runPrereqs", "files.go:fillWithFileHashes", "runner.go:Controller.Run", "yaml.go:deferredResolutionTarget", "hash.go:HashDB")

p("Edits of the rules are noticed",
  "Suppose that the rules of the Files targets in the YAML files do what they are meant to do, with the other assumptions of C78. After any history of builds (also killed ones), edits of files and edits of the YAML files, each rule being changed in any way: if a build returns nil, then the outputs of all Files targets that it needs are those that the rules that are in the YAML files now should make from the inputs.",
  "every sequence of YAML projects, builds, edits and crashes, every schedule", "All histories of edits.", "files.go:files.Run", "files.go:files.computeHash", "command.go:Command", "command.go:commandDecoder", "all.go:all", "seq.go:seq", "argtarg.go:argTarget")

p("Verbose mode says what is run",
  "In verbose mode Run prints, for each target that it runs, exactly one line 'Running X', where X describes the target, and all of it before the target does anything; it prints nothing for targets that have already been run, for arguments that it refuses, and without verbose mode. The line is indented by two spaces for each call of Run in progress, which are at least the calls that the target is nested in, and just these if no other call is in progress. Printing changes nothing else: the same executions are possible.",
  "every set of targets, every schedule, every moment", "All schedules.", "runner.go:Controller.Run", "runner.go:Controller.Indentf", "runner.go:Controller.incDepth", "context.go:GetVerbose")

p("Files behind symbolic links are watched",
  "The hash of a Files target covers what the operating system finds under its input and output names, following symbolic links: a link counts as the file that it leads to, a link to a directory as all files below that directory, a link to nothing as a missing file. Two states with the same list of hashes show the same files with the same contents, so changing a file behind a link, or directing the link elsewhere, is noticed unless the contents found are the same. The computation ends whatever links there are, also links that lead back to a directory above them, and it ends with a result or an error.",
  "every file system with symbolic links, every list of items", "All file systems and link structures, also cyclic ones.", "files.go:fileHashes", "files.go:fileHashesHelper", "files.go:fileHashesItemHelper", "files.go:hashFile")

p("Clean removes links, not what they lead to",
  "In a file system with symbolic links, if a Clean target returns nil then nothing is left under the names it lists: no file, no directory, no link. It removes nothing else: a listed link is removed, and what it leads to is kept, unless it is listed itself in its own place. Names that lead nowhere are ignored, also links to nothing are removed; nothing is removed in a dry run.",
  "every file system with symbolic links, every list of names, every refusal of the operating system", "All file systems and lists of names.", "clean.go:Clean.Run", "files.go:Autoclean")

p("A dry run is a rehearsal",
  "If commands and other targets respect DryRun, a dry run (fab -n) of targets of a YAML project begins exactly the targets that a build in the same state would begin. It returns nil exactly if every name that it comes across is known, and no step of it changes a file or the hash database.",
  "every YAML project, every choice of targets, every state of the files and the database, every schedule", "All projects, states and schedules.", "files.go:files.Run", "command.go:Command.Run", "clean.go:Clean.Run", "context.go:WithDryRun", "yaml.go:deferredResolutionTarget")

p("A Command closes what it opens",
  "When (*Command).Run returns, on whatever way, it has called Close exactly once on each file that it opened (standard output, standard error, standard input) and on each io.Closer that StdoutFn or StderrFn produced, and on nothing else (not on Stdout and Stderr that were given to it), always after the process has ended. If Close reports an error and there is no other error then Run returns an error, so that output is not lost silently.",
  "every Command, every context, every behaviour of the operating system, every way out of Run", "All combinations of fields and all failures.", "command.go:Command.Run")

p("Env adds to the environment",
  "The process that a Command starts sees a variable with the value of the last setting of it in Env, and if Env does not set it, with the value that it has in fab's own environment. Each variable is in its environment at most once, and there is nothing else in it. It is refused only if a setting contains a NUL.",
  "every Command, every environment of fab, every variable", "All environments, lists of settings and variables.", "command.go:Command.Run")

p("What targets say in verbose mode",
  "Without verbose mode targets print nothing of their own. In verbose mode: a Files target prints one line 'X is up to date' exactly if it returns nil without running its rule because its hash is in the database, and then it does nothing else. A Clean target that lists something prints one line with all the files that it lists, sorted, the same list in a dry run ('would remove') and otherwise ('removing'). A Command prints one line with the program and the arguments: in a dry run 'Would run command', and then it does nothing else; otherwise 'Running command', before the process is started, and then the process is started with this program and these arguments, unless the file for its standard input cannot be opened. The lines change nothing else.",
  "every target, every context, every state of the files and the database, every behaviour of the operating system", "All targets, states and ways through Run.", "files.go:files.Run", "clean.go:Clean.Run", "command.go:Command.Run", "context.go:GetVerbose")

p("An error tells what failed, and on which way",
  "The error that Run returns (and fab prints) can be unwrapped to the error of every target that failed, passing 'running T' for each target T on a way to it: the first is an argument of Run, and each has asked Run for the next. The same holds for every reference that cannot be run (a name that is not known, something that is not a pointer), with the way to the target that asked for it. Conversely a target that the error names has been run and has returned the error that follows its name. Its text contains 'running T: ' and the text of T's error for each of them. All this if targets hand on the errors that Run gives them, as the targets of the package do; in a project described in YAML the way is a chain of targets each of which uses the next.",
  "every set of targets, every schedule, every call of Run, every YAML project", "All graphs of targets, all failures and all schedules.", "runner.go:Controller.Run", "all.go:all.Run", "seq.go:seq.Run", "argtarg.go:argTarget.Run", "files.go:files.Run", "yaml.go:deferredResolutionTarget.Run")

p("The fab command, from the command line to the files",
  "Take a whole run of the command fab that runs targets. These are the targets that the arguments name in the project that the YAML files (and the driver) describe, with the settings that the flags give. Nothing is run but these and what they use. The exit status is 0 exactly if no target that was run has returned an error and no name was unknown; then everything that the arguments need has been run successfully, and, without -n, the outputs of every Files target among it are what its rule makes of its inputs, whatever was built, edited or killed before, so that they are the same as after a build from scratch. A second run after it changes nothing, runs no rule and exits with status 0. If the status is not 0 the error leads to every target that failed. With -n no file and no database is changed.",
  "every command line in which '--' is not directly followed by something that looks like a flag, every YAML project (for the outputs and the second run: under the conditions of C78 and C77), every history of builds and edits, every schedule", "All command lines, projects, histories and schedules.", "cmd/fab/main.go:main", "main.go:Main.Run", "main.go:Main.driverless", "driver.go.tmpl:main", "controller.go:Controller.ParseArgs", "runner.go:Controller.Run", "files.go:files.Run")

p("Several fabs at the same time",
  "Several fab processes may run on one project at the same time, for example from two terminals. Whatever the interleaving of their operations on the driver's directory, and wherever one of them is killed: every driver that one of them executes was made from the sources that are there, by a fab of its own version. No process waits for another one or makes it fail. When they have finished, the next fab compiles nothing.",
  "every number of processes, every interleaving, every crash point, every state of the driver's directory", "All interleavings of the file operations of any number of processes.", "main.go:Main.getDriver", "main.go:Main.checkVersion", "main.go:Main.Run", "compile.go:CompilePackage")

p("File names that are not UTF-8",
  "The record of a Files target tells apart all inputs and outputs by their names, bytes and all: names that are UTF-8 are recorded as the texts that they encode, sorted by their bytes, which is the order of the texts, and if two records are equal then the same files with the same contents existed, provided that the names are UTF-8.",
  "every list of files, every name (a list of bytes), every file system", "All names and all file systems.", "files.go:files.computeHash", "files.go:fileHashes")

p("Several builds at the same time",
  "Several fab processes may build targets at the same time, with the same files and the same hash database. Whatever the interleaving of their steps, and wherever one of them is killed: no hash is recorded that makes a wrong output look up to date, and when a process has returned nil the outputs of all Files targets that it needs are what their rules make of their inputs. (Each rule does what it should if nobody else changes its files meanwhile.)",
  "every number of processes, every interleaving, every crash point, every project of each process, every state of the files and of the database", "All interleavings of any number of builds.", "files.go:files.Run", "files.go:files.runPrereqs", "runner.go:Controller.Run", "sqlite/db.go:DB.Has", "sqlite/db.go:DB.Add")

p("Cleaning in a build",
  "A Clean target that a build (without -n) has run has removed or changed nothing but the files that it names, at one point of the build; if it has returned nil then all of these files were gone at that point, and if one was still there then it has returned its error. If a build returns nil then this has happened for every Clean that it needs. After a build of !Seq [Clean, ...] that returns nil the outputs of all Files targets that it needs are what their rules make of their inputs, whatever the Clean has removed and whatever was built before; and no hash is recorded that makes a wrong output look up to date.",
  "every project, every schedule of the goroutines, every set of files that Clean names, every state of the files and of the database", "All projects, schedules and states of the files.", "clean.go:Clean.Run", "seq.go:seq.Run", "files.go:files.Run", "runner.go:Controller.Run")

p("A build does no more than it has to",
  "In a project in which rules change only their own outputs, and each Files target is needed under one name only, a build (without -f or -n) runs the rule of a Files target only if, when the makers of its inputs had succeeded, the target was not up to date: its rule and its files, as they were, were not in the hash database. So only targets are made that were not up to date when the build began, or that have an input made by such a target. After a successful build and any edits, only targets are made again that depend on a file that is not as that build left it; and if a rule makes its output again as it was, then nothing is made again that depends on this output only (early cutoff).",
  "every project, every schedule of the goroutines, every state of the files and of the database, every edit", "All graphs of targets, all edits and all schedules.", "files.go:files.Run", "files.go:files.runPrereqs", "files.go:files.computeHash", "runner.go:Controller.Run")

p("Targets of YAML files are shared by name only",
  "Every target that is written out in a YAML file (inside an All, a Seq, a Files and so on, or as the value of a key) is a new one, even if the same text stands elsewhere. A target that has no name of its own is in one place only: it is an element of at most one other target, once. So in a build of named targets it is run by that target only, and at most once. If the rules of Files targets contain no references to other targets then no two rules have a target in common and nothing in a rule is used otherwise.",
  "every set of YAML files, with references between directories, also if reading fails; every build of registered targets; every schedule", "All YAML files, and all schedules.", "yaml.go:Controller.YAMLTarget", "yaml.go:Controller.ReadYAML", "yaml.go:Controller.ReadYAMLFile", "all.go:allDecoder", "seq.go:seqDecoder", "files.go:filesDecoder", "register.go:Controller.RegisterTarget", "runner.go:Controller.Run")

p("Lines of commands stay whole",
  "In verbose mode each line that a command prints appears on fab's standard output exactly once, whole and on a line of its own, with the indentation of its command, also if other commands print at the same time. The lines of one goroutine's commands appear in their order, and nothing is lost.",
  "every set of goroutines, every sequence of commands of each, every output, every chunking of it, every schedule", "All chunkings of all outputs, and all interleavings.", "command.go:Command.Run", "runner.go:Controller.IndentingCopier", "runner.go:indentingCopier.Write", "runner.go:Controller.Indentf")

p("Cancelling a build",
  "After the context of a build has been cancelled, no further command is started and the files that such commands would have written are unchanged. Every Command and every Files target that begins after that fails, and nothing more is recorded in the hash database. If the build returns nil all the same then every Command and every Files target that it needs had begun before.",
  "every project, every schedule of the goroutines, every moment of cancellation, every command and every state of the files", "All projects, schedules and moments.", "command.go:Command.Run", "files.go:files.Run", "sqlite/db.go:DB.Has", "sqlite/db.go:DB.Add", "runner.go:Controller.Run")

p("An interrupted build is resumed",
  "A build may fail, or be killed at any point. What it has made so far is not made again: if a Files target has succeeded in it then no later build (without -f) runs its rule, or any part of its rule, as long as no file that it depends on is edited; whatever other targets these builds make, in whatever order, and wherever they fail or are killed, too.",
  "every project, every schedule of the goroutines, every point at which a build fails or is killed, every sequence of further builds and edits of other files", "All schedules, crash points and sequences of builds.", "files.go:files.Run", "files.go:files.runPrereqs", "files.go:files.computeHash", "sqlite/db.go:DB.Add", "runner.go:Controller.Run")

p("A forced build repairs everything",
  "After a build with -f, or without a hash database, that returns nil the outputs of all Files targets that it needs are what their rules make of their inputs, whatever was in the hash database and in the files before: also if the database says of wrong files that they are up to date (which happens when somebody writes into a file during a build, or removes one), and even if hashes collide. Afterwards fab without -f runs nothing, if no file is edited.",
  "every project, every schedule of the goroutines, every state of the files and every content of the hash database", "All projects, schedules, files and databases, also corrupt ones.", "files.go:files.Run", "context.go:GetForce", "context.go:GetHashDB", "main.go:Main.Run", "runner.go:Controller.Run")

p("Building one target leaves the others as they are",
  "What has been built stays built while other targets are built: if all Files targets that some arguments need are up to date, and then fab (without -f) builds something else, which may need some of the same targets, succeed, fail, or be killed anywhere, then no rule of theirs is run, their files are not changed, what was right stays right, and they stay up to date. So targets can be built one by one, in any order or some at the same time, and when all builds have succeeded there is nothing left to do for all of them together.",
  "every project, every sequence of builds of any of its targets, every schedule of each, every point at which one fails or is killed", "All projects, sequences of builds, schedules and crash points.", "files.go:files.Run", "files.go:files.runPrereqs", "files.go:files.computeHash", "runner.go:Controller.Run", "main.go:Main.Run")

p("Different targets of one project can be built at the same time",
  "Any number of fab processes (without -f and -n) may build targets of one project at the same time, with the same files and the same hash database, if everything that two of them need is up to date when they begin (in particular, if they need nothing in common). Whatever the interleaving of their steps, and wherever one of them is killed: none ever changes a file that matters for another one; none runs a rule that two of them need, nor a rule of a target that was not behind when they began; when one has returned nil then everything that it needs is up to date, and its outputs are what their rules make of their inputs, then and later, whatever the others do; and no hash is recorded that makes a wrong output look up to date.",
  "every project, every number of processes, every interleaving, every crash point, every state of the files and of the database", "All interleavings of any number of builds.", "files.go:files.Run", "files.go:files.runPrereqs", "files.go:files.computeHash", "runner.go:Controller.Run", "sqlite/db.go:DB.Has", "sqlite/db.go:DB.Add")

p("A build succeeds unless something in it fails",
  "If a build returns an error then it has used a name that no target is registered under, or the first thing that failed in it is a command, or a Files target whose rule has succeeded (or was not begun) and which itself could not use the hash database, describe its rule, or read one of its files, while it was running; a file that does not exist is no error. Conversely, if every name is known, every command succeeds, the database works and the files can be read, then a build of targets that do not need themselves always ends, and returns nil, whatever the schedule and whatever the database says; and fab exits with status 0. That also holds if a rule only succeeds when its inputs have been made: a build from a clean checkout makes them first; and each command of a rule may rely on what the commands before it in the rule have made. So if edits keep things in this order (for example: the sources are there), then however often one edits and builds, also if builds are interrupted, no build ever fails, and each leaves the outputs as they should be.",
  "every project, every schedule of the goroutines, every state of the files and of the database, everything that commands may do", "All projects and schedules: no error may come from nowhere.", "all.go:all.Run", "seq.go:seq.Run", "argtarg.go:argTarget.Run", "files.go:files.Run", "files.go:files.computeHash", "yaml.go:deferredResolutionTarget.resolve", "runner.go:Controller.Run", "cmd/fab/main.go:main")

with open(os.path.join(os.path.dirname(__file__), "..", "properties.jsonl"), "w") as f:
    for x in P:
        f.write(json.dumps(x, ensure_ascii=False) + "\n")
print(len(P))
