import Verif.Yaml.Edit
import Verif.Yaml.CleanDemo

/-!
# C79: a rule is edited

Gen makes gen.c from src with a shell command, which is "cp" first and "inc" later.
-/

namespace Fab.Yaml.EditDemo
open Path Cmd Files
open Rule (T json typeName Transparent)
open Runner (Proc TRef Env Ev State Reach Label TSt Job Thread allBody seqBody argBody nameBody hist)
open AgainDemo (src gen retOf startOf ends rep ctx)
open CleanDemo (Dir read read_eq file stat_gen stat_src one shows_one shows_inv sameFile noExt isDir)

/-- `Gen: !Files {In: [src], Out: [gen.c], Target: !Command {Shell: ...}}` -/
def lib (shell : Node) : Lib := { exLib with
  file := fun D => if D = "/top".toList then .doc (some (exDoc [exKey "Gen" "", exTagged "!Files" .mapping []])) else .none
  decFiles := fun _ => .ok ⟨exTagged "!!seq" .sequence [exScalar "src"], exTagged "!!seq" .sequence [exScalar "gen.c"], exTagged "!Command" .mapping [], false⟩
  decCommand := fun _ => .ok ⟨shell, [], .zero, [], [], [], [], .zero⟩ }

/-- the shell string alone -/
def alone (sh : String) : Node := exScalar sh
/-- a list with one shell string -/
def listed (sh : String) : Node := exTagged "!!seq" .sequence [exScalar sh]

def cmd (sh : String) : Command := { shell := sh.toList, dir := "/top".toList }

/-- the project with the shell string, after reading -/
def doc (sh : String) : St where
  heap := [.command (cmd sh), .files 0 [src] [gen]]
  reg := BuildDemo.regOf [("Gen".toList, 1)]
  filesReg := [(gen, 1)]
  autoclean := []
  hist := [("Gen".toList, [], 1)]
  reads := ["/top".toList]

/-- the project with the list of shell strings, after reading -/
def docL (sh : String) : St where
  heap := [.command (cmd sh), .seq [0], .files 1 [src] [gen]]
  reg := BuildDemo.regOf [("Gen".toList, 2)]
  filesReg := [(gen, 2)]
  autoclean := []
  hist := [("Gen".toList, [], 2)]
  reads := ["/top".toList]

/-! The equality of results of reading, as a computation. -/

def same : Obj → Obj → Bool
  | .command ⟨a, b, c, none, none, none, none, d, e, none, f, g, h⟩, .command ⟨a', b', c', none, none, none, none, d', e', none, f', g', h'⟩ =>
      decide (a = a' ∧ b = b' ∧ c = c' ∧ d = d' ∧ e = e' ∧ f = f' ∧ g = g' ∧ h = h')
  | a, b => BuildDemo.same a b

theorem same_eq {a b : Obj} (h : same a b = true) : a = b := by
  unfold same at h
  split at h
  · simp only [decide_eq_true_eq] at h
    obtain ⟨rfl, rfl, rfl, rfl, rfl, rfl, rfl, rfl⟩ := h; rfl
  · exact BuildDemo.same_eq h

def sameAll : List Obj → List Obj → Bool
  | [], [] => true
  | a :: as, b :: bs => same a b && sameAll as bs
  | _, _ => false

theorem sameAll_eq : ∀ {as bs : List Obj}, sameAll as bs = true → as = bs
  | [], [], _ => rfl
  | a :: as, b :: bs, h => by
    simp only [sameAll, Bool.and_eq_true] at h
    rw [same_eq h.1, sameAll_eq h.2]
  | [], _ :: _, h => by cases h
  | _ :: _, [], h => by cases h

def isOk (r : R Unit) (s : St) : Bool := match r with
  | .ok _ s' => sameAll s'.heap s.heap && decide (s'.reg.byName = s.reg.byName) && decide (s'.reg.byAddr = s.reg.byAddr) &&
      decide (s'.filesReg = s.filesReg) && decide (s'.autoclean = s.autoclean) && decide (s'.hist = s.hist) && decide (s'.reads = s.reads)
  | _ => false

theorem isOk_eq {r : R Unit} {s : St} (h : isOk r s = true) : r = .ok () s := by
  unfold isOk at h
  split at h
  · rename_i s'
    simp only [Bool.and_eq_true, decide_eq_true_eq] at h
    obtain ⟨⟨⟨⟨⟨⟨h1, h2⟩, h3⟩, h4⟩, h5⟩, h6⟩, h7⟩ := h
    obtain ⟨hp, ⟨n, a⟩, fr, ac, hi, rd⟩ := s
    obtain ⟨hp', ⟨n', a'⟩, fr', ac', hi', rd'⟩ := s'
    have := sameAll_eq h1
    simp_all
  · cases h

theorem cp_loaded : Loaded (lib (alone "cp")) (doc "cp") := .file (n := 12) (dir := []) .empty (.inl ⟨(), isOk_eq (by decide +kernel)⟩)
theorem inc_loaded : Loaded (lib (alone "inc")) (doc "inc") := .file (n := 12) (dir := []) .empty (.inl ⟨(), isOk_eq (by decide +kernel)⟩)
theorem cpL_loaded : Loaded (lib (listed "cp")) (docL "cp") := .file (n := 12) (dir := []) .empty (.inl ⟨(), isOk_eq (by decide +kernel)⟩)
theorem incL_loaded : Loaded (lib (listed "inc")) (docL "inc") := .file (n := 12) (dir := []) .empty (.inl ⟨(), isOk_eq (by decide +kernel)⟩)

/-! ## What the commands do -/

/-- "inc" adds one to the contents of src, everything else copies it. -/
def f (c : Command) (b : UInt8) : UInt8 := if c.shell = "inc".toList then b + 1 else b

def step (c : Command) (w : World Unit) : World Unit := match read w.fs with
  | some ⟨_, p, some b⟩ => { w with fs := (⟨some (f c b), p, some b⟩ : Dir).fs }
  | _ => w

def ok (w : World Unit) : Option Runner.Err := match read w.fs with
  | some ⟨_, _, some _⟩ => none
  | _ => some (.atom 5)

/-- What running a command does: it writes gen.c; it fails if there is no src. -/
def exec (c : Command) : P Unit := .act (step c) fun w => .ret (ok w)

/-- The targets of a project; type and JSON form are those of the objects. -/
def own (s : St) : Own Unit where
  body o _ := match s.heap[o]? with
    | some (.command c) => exec c
    | _ => .ret none
  note _ := id
  typ o := match s.heap[o]? with
    | some (.command c) => typeName (.command c)
    | some (.seq _) => typeName (.seq none)
    | _ => []
  desc o _ := match s.heap[o]? with
    | some (.command c) => some (json (.command c))
    | some (.seq _) => some (json (.seq none))
    | _ => none

/-- gen.c should be what the command makes of src. -/
def does (c : Command) (i o : View) : Prop := ∃ b, i = one src b ∧ o = one gen (f c b)

def M : Rule.T → View → View → Prop
  | .command c, i, o => does c i o
  | .seq (some [.command c]), i, o => does c i o
  | _, _, _ => True

def J (c : Command) (_ : Nat) : Json.J := json (.command c)

section
variable {sh : String}

theorem heap0 : (doc sh).heap[0]? = some (.command (cmd sh)) := rfl
theorem heap1 : (doc sh).heap[1]? = some (.files 0 [src] [gen]) := rfl
theorem maker : findInFilesRegistry (doc sh).filesReg src = none := by
  show findInFilesRegistry [(gen, 1)] src = none
  decide +kernel

theorem plain : ¬ Composite (doc sh) 0 := by
  rintro (h' | h' | h' | h' | h') <;> rw [heap0] at h' <;> cases h'

theorem wanted {o : Nat} (h : Wanted (doc sh) [1] o) : o = 1 := by
  induction h with
  | arg h => simpa using h
  | dep _ h1 h2 ih =>
    subst ih
    have := h1.self (fun n h => by rw [heap1] at h; cases h)
    subst this
    cases h2 with
    | input h3 h4 h5 =>
      rw [heap1] at h3; cases h3
      simp only [List.mem_singleton] at h4; subst h4
      rw [maker] at h5; cases h5
    | _ h3 => rw [heap1] at h3; cases h3

theorem stands {o x : Nat} (h : Wanted (doc sh) [1] o) (hs : Stands (doc sh) o x) : x = 1 := by
  cases wanted h
  exact hs.self (fun n h => by rw [heap1] at h; cases h)

theorem filesOf {x t ins outs} (h : FilesOf (doc sh) [1] x t ins outs) : x = 1 ∧ t = 0 ∧ ins = [src] ∧ outs = [gen] := by
  obtain ⟨⟨o, ho, hs⟩, hx⟩ := h
  cases stands ho hs
  rw [heap1] at hx; cases hx
  exact ⟨rfl, rfl, rfl, rfl⟩

theorem is1 : FilesOf (doc sh) [1] 1 0 [src] [gen] := ⟨⟨1, .arg (by simp), .inr ⟨by rw [heap1]; simp, rfl⟩⟩, heap1⟩

theorem orderly : Orderly (own (doc sh)) (doc sh) (J (cmd sh)) [1] := by
  have part : ∀ {x t ins outs c}, FilesOf (doc sh) [1] x t ins outs → Part (doc sh) t c → c = 0 := by
    intro x t ins outs c hx hc
    obtain ⟨-, rfl, -, -⟩ := filesOf hx
    exact part_plain plain hc
  refine ⟨⟨?_, ?_, ?_, ?_⟩, ?_⟩
  · intro x t ins outs c hx hc
    cases part hx hc
    exact ⟨fun n h' => plain (.name h'), fun t i o h' => plain (.files h')⟩
  · intro x t ins outs x' t' ins' outs' c hx hx' _ _
    rw [(filesOf hx).1, (filesOf hx').1]
  · intro x t ins outs c o hx hc ho hs
    cases stands ho hs
    cases part hx hc
  · intro x t ins outs hx w
    obtain ⟨-, rfl, -, -⟩ := filesOf hx
    rfl
  · intro x t ins outs o o' _ ho ho' _ _
    rw [wanted ho, wanted ho']

theorem body_cases (s : St) (o : Nat) (ctx : Ctx) : (∃ c, s.heap[o]? = some (.command c) ∧ (own s).body o ctx = exec c) ∨ (own s).body o ctx = .ret none := by
  simp only [own]
  split
  · exact .inl ⟨_, ‹_›, rfl⟩
  · exact .inr rfl

theorem noRun (s : St) (o : Nat) (ctx : Ctx) : NoRun ((own s).body o ctx) := by
  rcases body_cases s o ctx with ⟨c, -, h⟩ | h <;> rw [h]
  · exact fun _ => trivial
  · trivial

theorem own_fs (s : St) (o : Nat) (ctx : Ctx) : ((own s).body o ctx).Keeps fun w => ∃ x : Dir, w.fs = x.fs := by
  rcases body_cases s o ctx with ⟨c, -, h⟩ | h <;> rw [h]
  · refine ⟨?_, fun _ => trivial⟩
    rintro w ⟨x, h1⟩
    unfold step
    split
    · exact ⟨_, rfl⟩
    · exact ⟨x, h1⟩
  · trivial

theorem fair {w : World Unit} {x : Dir} (hw : w.fs = x.fs) {ctx : Ctx} {ls : List (Label (World Unit))} (hls : ∀ f, .extern f ∉ ls) :
    FairBuild exHex id (own (doc sh)) (doc sh) (J (cmd sh)) [1] CleanDemo.T w ctx ls := by
  refine ⟨⟨noRun _, orderly.toRulesApart, ?_, fun f hf => absurd hf (hls f), ?_⟩, orderly.once⟩
  · intro c ctx _ _
    rcases body_cases (doc sh) c ctx with ⟨c', hc, h⟩ | h <;> rw [h]
    · have hc0 : c = 0 := by
        match c, hc with
        | 0, _ => rfl
        | 1, hc => cases hc
        | n + 2, hc => cases hc
      subst hc0
      refine ⟨fun w => ⟨?_, fun y t ins outs hy i hi => .inr ⟨1, 0, _, _, is1, .self, .inl (filesOf hy).1.symm⟩⟩, fun _ => trivial⟩
      unfold step; split <;> rfl
    · trivial
  · rintro ls₁ ls₂ rfl x' t ins outs -
    obtain ⟨y, hy⟩ := fs_kept (hex := exHex) (sum := id) (own := own (doc sh)) (s := doc sh) (os := [1]) (ctx := ctx) (ls := ls₁) (P := fun f => ∃ y : Dir, f = y.fs)
      (own_fs _) ⟨x, hw⟩ fun f hf => absurd hf fun hf => hls f (List.mem_append_left _ hf)
    exact ⟨y, hy⟩

theorem described (s : St) (h : ∀ (o : Nat) t args, s.heap[o]? ≠ some (.arg t args)) (h' : ∀ (o : Nat) ts, s.heap[o]? ≠ some (.all ts)) : Described (own s) s := by
  intro o r hr
  cases hr with
  | command h1 => exact ⟨by simp only [own, h1], fun w => by simp only [own, h1]⟩
  | all h1 => exact absurd h1 (h' _ _)
  | seq h1 => exact ⟨by simp only [own, h1]; rfl, fun w => by simp only [own, h1]; rfl⟩
  | arg h1 => exact absurd h1 (h _ _ _)

theorem described_doc : Described (own (doc sh)) (doc sh) := by
  refine described _ ?_ ?_
  · rintro (_ | _ | _) _ _ h <;> cases h
  · rintro (_ | _ | _) _ h <;> cases h

theorem tree : Tree (doc sh) 0 (.command (cmd sh)) := .command heap0

theorem makes (c : Command) (fs : FS) : (exec c).Makes ([src] ++ [gen]) (fun fs => does c (Shows fs [src]) (Shows fs [gen])) fs := by
  intro w _
  simp only [ok, step]
  split
  · rename_i b p s h
    exact fun _ => ⟨_, shows_one (stat_src _), shows_one (stat_gen _)⟩
  · exact fun h => nomatch h

/-- Rules that are encoded completely. -/
abbrev M' : RuleMeaning := fun r i o => Transparent r → M r i o

theorem clear : Transparent (.command (cmd sh)) := ⟨rfl, rfl, rfl, rfl, rfl⟩

/-- `C79_commands` -/
theorem rulesDo {w : World Unit} {x : Dir} (hx : w.fs = x.fs) {ctx : Ctx}
    {ls : List (Label (World Unit))} (hls : ∀ f, .extern f ∉ ls) : RulesDo exHex id (own (doc sh)) (doc sh) [1] M' w ctx ls := by
  refine C79_commands (C79_visible M) (fair hx hls) described_doc fun x t ins outs h => ?_
  obtain ⟨rfl, rfl, rfl, rfl⟩ := filesOf h
  refine ⟨_, [0], tree, .inl clear, .inl ⟨plain, rfl⟩, fun fs ctx => ?_⟩
  have e : MakesAll (own (doc sh)) ([src] ++ [gen]) (fun fs => M' (.command (cmd sh)) (Shows fs [src]) (Shows fs [gen])) [] =
      fun fs => does (cmd sh) (Shows fs [src]) (Shows fs [gen]) := by
    funext fs
    exact propext ⟨fun h => h clear, fun h _ => h⟩
  rw [e]
  exact makes (cmd sh) fs

theorem rulesIn : RulesIn (doc sh) [1] ClearOrSeq := by
  intro x t ins outs h
  obtain ⟨rfl, rfl, rfl, rfl⟩ := filesOf h
  exact ⟨_, tree, .inl clear⟩

/-- `C79_edits_partial`, `C79_clear_partial`: whatever was built before, with whatever shell strings, after a build that returns nil gen.c is what the present shell
string makes of src. -/
theorem correct {w : World Unit} (hw : Edits exHex id ClearOrSeq M' CleanDemo.T w) {x : Dir} (hx : w.fs = x.fs) {ctx : Ctx}
    {ls : List (Label (World Unit))} (hls : ∀ f, .extern f ∉ ls) :
    Edits exHex id ClearOrSeq M' CleanDemo.T (buildRun exHex id (own (doc sh)) (doc sh) [1] w ctx ls).world ∧
    ∀ c, (0, Ev.ret c none) ∈ (buildRun exHex id (own (doc sh)) (doc sh) [1] w ctx ls).log →
      does (cmd sh) (Shows (buildRun exHex id (own (doc sh)) (doc sh) [1] w ctx ls).world.fs [src])
        (Shows (buildRun exHex id (own (doc sh)) (doc sh) [1] w ctx ls).world.fs [gen]) :=
  ⟨.build hw (fair hx hls) described_doc rulesIn (rulesDo hx hls), fun _ hret =>
    C79_clear_partial M CleanDemo.noCollision hw (fair hx hls) described_doc rulesIn (rulesDo hx hls) hret 1 0 _ _ is1 _ tree clear⟩

end

/-! ## Two builds -/

def run (s : St) (o : Nat) (w : World Unit) (ts : List Nat) : State (World Unit) Ctx := buildRun exHex id (own s) s [o] w ctx (ts.map .thread)

def rerun : List Nat := rep [(2, 0), (8, 1), (7, 2), (11, 1), (3, 0)]

/-- src is 5; a build with "cp"; then the shell string is changed to "inc", and there is another build. -/
def first : State (World Unit) Ctx := run (doc "cp") 1 (CleanDemo.world ⟨none, none, some 5⟩ []) rerun
def second : State (World Unit) Ctx := run (doc "inc") 1 first.world rerun

/-- The second build runs the rule again. -/
example : isDir first.world.fs ⟨some 5, none, some 5⟩ = true ∧ retOf first = [true] ∧ startOf first = [1, 0] ∧
    isDir second.world.fs ⟨some 6, none, some 5⟩ = true ∧ retOf second = [true] ∧ startOf second = [1, 0] := by decide +kernel

/-- The history of the second build meets the hypotheses, in whatever order it runs. -/
theorem first_edits : Edits exHex id ClearOrSeq M' CleanDemo.T first.world := by
  have h0 : Edits exHex id ClearOrSeq M' CleanDemo.T (CleanDemo.world ⟨none, none, some 5⟩ []) := .new fun d => by simp [CleanDemo.world]
  unfold first run
  exact (correct h0 (x := ⟨none, none, some 5⟩) rfl (ctx := ctx) (noExt rerun)).1

theorem first_fs : first.world.fs = (⟨some 5, none, some 5⟩ : Dir).fs := by
  have h : isDir first.world.fs ⟨some 5, none, some 5⟩ = true := by decide +kernel
  simpa [isDir] using h

example (ctx : Ctx) (ts : List Nat) (c : Nat)
    (hret : (0, Ev.ret c none) ∈ (buildRun exHex id (own (doc "inc")) (doc "inc") [1] first.world ctx (ts.map .thread)).log) :
    does (cmd "inc") (Shows (buildRun exHex id (own (doc "inc")) (doc "inc") [1] first.world ctx (ts.map .thread)).world.fs [src])
      (Shows (buildRun exHex id (own (doc "inc")) (doc "inc") [1] first.world ctx (ts.map .thread)).world.fs [gen]) :=
  (correct first_edits first_fs (noExt ts)).2 c hret

/-! ## Lists of shell strings -/

/-- The same with lists of one shell string. -/
def firstL : State (World Unit) Ctx := run (docL "cp") 2 (CleanDemo.world ⟨none, none, some 5⟩ []) (rep [(2, 0), (8, 1), (3, 2), (7, 3), (7, 2), (11, 1), (3, 0)])
def secondL : State (World Unit) Ctx := run (docL "inc") 2 firstL.world (rep [(2, 0), (11, 1), (3, 0)])

theorem described_docL {sh : String} : Described (own (docL sh)) (docL sh) := by
  refine described _ ?_ ?_
  · rintro (_ | _ | _ | _) _ _ h <;> cases h
  · rintro (_ | _ | _ | _) _ h <;> cases h

theorem treeL {sh : String} : Tree (docL sh) 1 (.seq (some [.command (cmd sh)])) := by
  refine .seq (ts := [0]) rfl (by simp) rfl fun i t r h1 h2 => ?_
  match i with
  | 0 => cases h1; cases h2; exact .command rfl
  | i + 1 => cases h1

theorem f_inc (b : UInt8) : f (cmd "inc") b = b + 1 := rfl

/-- **C79 fails for lists of shell strings.**  A YAML file has a Files target whose rule is a command with a list of shell strings.  It is built
from scratch.  Then the shell string is changed, and it is built again.  That build returns nil but does not run the rule, and the output is what the old shell
string made and not what the new one is meant to make; running the new rule would have made it. -/
theorem _root_.Fab.Yaml.C79_counterexample_list : ∃ (L L' : Lib) (s s' : St) (o t : Nat) (r r' : Rule.T) (st st' : State (World Unit) Ctx),
    Loaded L s ∧ Loaded L' s' ∧ Described (own s) s ∧ Described (own s') s' ∧
    s.heap[o]? = some (.files t [src] [gen]) ∧ s'.heap[o]? = some (.files t [src] [gen]) ∧ Tree s t r ∧ Tree s' t r' ∧ r ≠ r' ∧
    CmdList s t [0] ∧ CmdList s' t [0] ∧
    (∀ fs, MakesAll (own s) ([src] ++ [gen]) (fun fs => M r (Shows fs [src]) (Shows fs [gen])) [0] fs) ∧
    (∀ fs, MakesAll (own s') ([src] ++ [gen]) (fun fs => M r' (Shows fs [src]) (Shows fs [gen])) [0] fs) ∧
    (∃ w ls, (∀ d, w.db d = []) ∧ st = buildRun exHex id (own s) s [o] w ctx ls) ∧ (∃ c, (0, Ev.ret c none) ∈ st.log) ∧
    (∃ ls, st' = buildRun exHex id (own s') s' [o] st.world ctx ls) ∧ (∃ c, (0, Ev.ret c none) ∈ st'.log) ∧
    (∀ th c i key ctx, (th, Ev.start c i key t ctx) ∉ st'.log) ∧
    ¬ M r' (Shows st'.world.fs [src]) (Shows st'.world.fs [gen]) := by
  refine ⟨_, _, docL "cp", docL "inc", 2, 1, _, _, firstL, secondL, cpL_loaded, incL_loaded, described_docL, described_docL, rfl, rfl, treeL, treeL, ?_, ?_, ?_,
    fun fs _ => makes (cmd "cp") fs, fun fs _ => makes (cmd "inc") fs, ⟨_, _, fun d => by simp [CleanDemo.world], rfl⟩, ends (by decide +kernel), ⟨_, rfl⟩,
    ends (by decide +kernel), ?_, ?_⟩
  · intro h
    simp only [Rule.T.seq.injEq, Option.some.injEq, List.cons.injEq, Rule.T.command.injEq, and_true] at h
    exact absurd (String.toList_inj.1 (congrArg Command.shell h)) (by decide)
  · exact .inr ⟨rfl, by simp, fun c hc => by
      simp only [List.mem_singleton] at hc; subst hc
      rintro (h' | h' | h' | h' | h') <;> cases h'⟩
  · exact .inr ⟨rfl, by simp, fun c hc => by
      simp only [List.mem_singleton] at hc; subst hc
      rintro (h' | h' | h' | h' | h') <;> cases h'⟩
  · intro th c i key ctx hm
    have h : startOf secondL = [2] := by decide +kernel
    have : 1 ∈ startOf secondL := List.mem_filterMap.2 ⟨_, hm, rfl⟩
    rw [h] at this
    simp at this
  · have h : secondL.world.fs = (⟨some 5, none, some 5⟩ : Dir).fs := by
      have h : isDir secondL.world.fs ⟨some 5, none, some 5⟩ = true := by decide +kernel
      simpa [isDir] using h
    rw [h]
    rintro ⟨b, h1, h2⟩
    have e1 := shows_inv (stat_src _) h1
    have e2 := shows_inv (stat_gen _) h2
    rw [f_inc] at e2
    cases e1
    exact absurd (Option.some.inj e2) (by decide)

end Fab.Yaml.EditDemo
