import Verif.Base
import Verif.Registry
import Verif.Path
import Verif.Copier
import Verif.CopierShared
import Verif.Json
import Verif.FS
import Verif.TopDir
import Verif.FileHash
import Verif.Links
import Verif.Context
import Verif.Gate
import Verif.Runner.Model
import Verif.Runner.Steps
import Verif.Runner.InvA
import Verif.Runner.InvB
import Verif.Runner.InvC
import Verif.Runner.InvD
import Verif.Runner.InvE
import Verif.Runner.InvF
import Verif.Runner.Inv
import Verif.Runner.Props
import Verif.Runner.Progress
import Verif.Runner.Cycle
import Verif.Runner.Local
import Verif.Runner.Targets
import Verif.Runner.Requests
import Verif.Runner.Race
import Verif.Files.Model
import Verif.Files.System
import Verif.Files.Props
import Verif.Files.Demo
import Verif.Sqlite
import Verif.HashDB
import Verif.Clean
import Verif.CleanLinks
import Verif.Command
import Verif.Files.Rule
import Verif.Yaml.Model
import Verif.Yaml.Lists
import Verif.Yaml.Read
import Verif.Yaml.Refs
import Verif.Yaml.Term
import Verif.Yaml.Cmds
import Verif.Driver.Hash
import Verif.Driver.Cache
import Verif.Driver.Flags
import Verif.Types
import Verif.Driver.Targets
import Verif.Driver.Compile
import Verif.Yaml.Load
import Verif.Yaml.Outputs
import Verif.Contrib.Proto
import Verif.Contrib.Go
import Verif.Indent
import Verif.Driver.Main
import Verif.Contrib.Decoders
import Verif.Runner.Determ
import Verif.Runner.Whole
import Verif.Yaml.Build
import Verif.Runner.Quiet
import Verif.Yaml.Again
import Verif.Runner.Nest
import Verif.Yaml.Correct
import Verif.Yaml.Right
import Verif.Yaml.Clean
import Verif.Yaml.CleanDemo
import Verif.Yaml.Twice
import Verif.Yaml.Steps
import Verif.Yaml.StepsDemo
import Verif.Yaml.Trees
import Verif.Yaml.TreesDemo
import Verif.Yaml.Place
import Verif.Yaml.PlaceDemo
import Verif.Yaml.Project
import Verif.Yaml.ProjectDemo
import Verif.Yaml.Edit
import Verif.Yaml.EditDemo
import Verif.Runner.Verbose
import Verif.Yaml.Dry
import Verif.CommandClose
import Verif.CommandEnv
import Verif.Says
import Verif.Runner.Errors
import Verif.Yaml.Blame
import Verif.Driver.Fab
import Verif.Driver.FabDemo
import Verif.Driver.FabYaml
import Verif.Driver.FabYamlDemo
import Verif.Driver.Many
import Verif.Yaml.Own
import Verif.Utf8
import Verif.Yaml.Several
import Verif.Yaml.SeveralDemo
import Verif.Yaml.Rebuild
import Verif.Yaml.RebuildDemo
import Verif.Yaml.Minimal
import Verif.Yaml.Edited
import Verif.Yaml.EditedDemo
import Verif.Yaml.Cancel
import Verif.Yaml.Resume
import Verif.Yaml.Forced
import Verif.Driver.FabForce
import Verif.Driver.FabEach
import Verif.Yaml.Beside
import Verif.Yaml.Together
import Verif.Yaml.Success
import Verif.Yaml.Supplied
import Verif.Yaml.SuppliedTrees
import Verif.Yaml.Session
import Verif.Driver.FabSuccess
