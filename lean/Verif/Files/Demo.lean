import Verif.Files.Props

/-!
# A concrete system: non-vacuity of C25 - C30, and the counterexample to C57

Object 0 is a subtarget that copies file `in` to file `out` (it reads in one step and writes in the next); object 1 is a Files target
around it with input `in` and output `out`; object 2 is a second Files target, with input `out` and output `fin`, around object 3,
which does nothing.  Every process runs object 2 with hash database number 0.
-/

namespace Fab.Files
open Fab Path Runner

variable {ρ : Type} (hex : Bytes → Str) (sum : Str → Str)

/-! ## C57 -/

/-- **C57 (partial).** In the situation of `C25_skip_sound`: let `F` be the files now, `F₁` the files when the hash was recorded
(unchanged while each of the two hashes was computed) and `F₀` the files when the subtarget whose success was recorded started.  If
the inputs were the same in `F₀` and `F₁`, the inputs now are the ones that subtarget started from; the outputs now are the ones it
left.
Missing for the full claim: the hypothesis on `F₀`; without it the claim is false, `C57_counterexample_edit_during_run`. -/
theorem C57_partial {prog : Nat → Program ρ} {w0 : World ρ} (hh : ∀ i, (prog i).Honest hex sum) (hempty : ∀ d, w0.db d = [])
    {s : Sys ρ} (h : SysReach prog w0 s) {l₁ l₂ i t key x} (hl : s.log = l₁ ++ (i, t, Ev.finish key x none) :: l₂) {ft : FilesT ρ}
    (hx : (prog i).files x = some ft) (hskip : ∀ c ctx, (i, t, Ev.call c ctx [ft.target]) ∉ l₁) (hhex : ∀ d, hex d ≠ []) :
    ∃ d ws hsh pre w, hist t (proj i l₁) = pre ++ acts ws ++ [.act w] ∧ HashOf hex sum ft ws hsh ∧
      ∃ g i' t' ft' ws', g <+: l₁ ∧ RecordedAt hex sum (prog i') (proj i' g) t' d ft' ws' hsh ∧
        ∀ F F₀ F₁ : FS, Steady F ws → Steady F₁ ws' → F.root.WF → F₁.root.WF →
          NoFileCollision hex F ft.ins F₁ ft'.ins → NoFileCollision hex F ft.outs F₁ ft'.outs →
          (∀ a b, sum a = hsh → sum b = hsh → a = b) →
          (∀ k c, Shows F₀ ft'.ins k c ↔ Shows F₁ ft'.ins k c) →
          (∀ k c, Shows F ft.ins k c ↔ Shows F₀ ft'.ins k c) ∧ (∀ k c, Shows F ft.outs k c ↔ Shows F₁ ft'.outs k c) := by
  obtain ⟨d, ws, hsh, pre, w, h1, h2, g, i', t', ft', ws', h3, h4⟩ := C25_skip_sound hex sum hh hempty h hl hx hskip
  refine ⟨d, ws, hsh, pre, w, h1, h2, g, i', t', ft', ws', h3, h4, ?_⟩
  intro F F₀ F₁ hs hs' hw hw' hci hco hct hsame
  obtain ⟨c₀, i₀, key', x', ctx, c, w', pre', k, -, -, -, -, hash', -⟩ := h4
  obtain ⟨r1, r2, -⟩ := C25_same_state hex sum h2 hash' hs hs' hw hw' hhex hci hco hct
  exact ⟨fun k c => (r1 k c).trans (hsame k c).symm, r2⟩

namespace Demo

/-- Run a schedule of a system. -/
inductive Lab (ρ : Type) where
  | spawn
  | step (i tid : Nat)
  | edit (f : FS → FS)
  | setRest (r : ρ)

def sysStep (prog : Nat → Program ρ) (s : Sys ρ) : Lab ρ → Sys ρ
  | .spawn => { s with procs := s.procs ++ [⟨s.world, Runner.init s.world (prog s.procs.length).clients⟩] }
  | .step i tid =>
    match s.procs[i]? with
    | none => s
    | some p =>
      match Runner.step (prog i).env { p.st with world := s.world } tid with
      | none => s
      | some st' => ⟨st'.world, s.procs.set i { p with st := st' }, s.log ++ (st'.log.drop p.st.log.length).map fun e => (i, e)⟩
  | .edit f => { s with world := { s.world with fs := f s.world.fs } }
  | .setRest r => { s with world := { s.world with rest := r } }

def sysRun (prog : Nat → Program ρ) : Sys ρ → List (Lab ρ) → Sys ρ := List.foldl (sysStep prog)

theorem sysRun_reach {prog : Nat → Program ρ} {w0 : World ρ} (ls : List (Lab ρ)) : ∀ {s : Sys ρ}, SysReach prog w0 s →
    SysReach prog w0 (sysRun prog s ls) := by
  induction ls with
  | nil => intro s h; exact h
  | cons l ls ih =>
    intro s h
    refine ih (s := sysStep prog s l) ?_
    cases l with
    | spawn => exact .spawn h
    | step i tid =>
      simp only [sysStep]
      split
      · exact h
      · rename_i p hp
        split
        · exact h
        · rename_i st' hst; exact .step i tid p h hp hst
    | edit f => exact .edit (fun w => { w with fs := f w.fs }) (fun w d h hh => hh) h
    | setRest r => exact .edit (fun w => { w with rest := r }) (fun w d h hh => hh) h

/-- files `in`, `out` and `fin` -/
def exFiles (a o f : Bytes) : FS where
  root := .file "in".toList true a (.file "out".toList true o (.file "fin".toList true f .nil))
  cwd := []

def setIn (a : Bytes) (fs : FS) : FS := match fs.root with
  | .file n r _ rest => ⟨.file n r a rest, fs.cwd⟩
  | _ => fs
def getIn (fs : FS) : Bytes := match fs.root with
  | .file _ _ a _ => a
  | _ => []
def getOut (fs : FS) : Bytes := match fs.root with
  | .file _ _ _ (.file _ _ o _) => o
  | _ => []
def setOut (o : Bytes) (fs : FS) : FS := match fs.root with
  | .file n r a (.file n' r' _ rest) => ⟨.file n r a (.file n' r' o rest), fs.cwd⟩
  | _ => fs

/-- copy `in` to `out` -/
def copy : P Unit := .act id fun w => .act (fun w' => { w' with fs := setOut (getIn w.fs) w'.fs }) fun _ => .ret none

def ft1 : FilesT Unit := ⟨.ptr 0, "copy".toList, fun _ => some (.str "copy".toList), ["in".toList], ["out".toList]⟩
def ft2 : FilesT Unit := ⟨.ptr 3, "nop".toList, fun _ => some (.str "nop".toList), ["out".toList], ["fin".toList]⟩

def exProg (ctx : Ctx) : Program Unit where
  env := {
    addr := id
    body := fun x ctx => if x = 0 then copy else if x = 1 then filesBody exHex id ft1 ctx else
      if x = 2 then filesBody exHex id ft2 ctx else .ret none
    resolve := fun _ => none }
  files := fun x => if x = 1 then some ft1 else if x = 2 then some ft2 else none
  clients := [.call ctx [.ptr 2] .ret]

theorem exProg_honest (ctx : Ctx) : (exProg ctx).Honest exHex id where
  isFiles := by
    intro x ft h ctx
    simp only [exProg] at h ⊢
    by_cases h1 : x = 1
    · subst h1; simp at h; subst h; rfl
    · by_cases h2 : x = 2
      · subst h2; simp at h; subst h; rfl
      · simp [h1, h2] at h
  other := by
    intro x h ctx
    simp only [exProg] at h ⊢
    by_cases h0 : x = 0
    · rw [if_pos h0]; exact ⟨fun _ _ _ h => h, fun w => ⟨fun _ _ _ h => h, fun _ => trivial⟩⟩
    · by_cases h1 : x = 1
      · simp [h1] at h
      · by_cases h2 : x = 2
        · simp [h2] at h
        · simp [h0, h1, h2, NoAdd]
  clients := by
    intro c hc
    simp only [exProg, List.mem_singleton] at hc
    subst hc
    exact fun _ => trivial
  resolve := by intro o f h; cases h

def dbCtx : Ctx := withHashDB .root 0

/-- The world at the beginning: the database is empty, and the outputs are registered. -/
def world0 : World Unit := ⟨exFiles [1] [0] [7], fun _ => [], regAll [(1, ["out".toList]), (2, ["fin".toList])], false, false, false, ()⟩

/-- Let all goroutines of process `i` run for a while. -/
def runAll (i n : Nat) : List (Lab ρ) := (List.range n).flatMap fun _ => (List.range 5).map fun t => .step i t

def sys0 : Sys Unit := ⟨world0, [], []⟩

/-- Two processes one after the other: the first one builds, the second one skips. -/
def twice : Sys Unit := sysRun (fun _ => exProg dbCtx) sys0 ([.spawn] ++ runAll 0 60 ++ [.spawn] ++ runAll 1 60)

theorem twice_reach : SysReach (fun _ => exProg dbCtx) world0 twice := sysRun_reach _ .init

/-- Which targets were started, and which finished with nil, in process `i`. -/
def started (i : Nat) (s : Sys ρ) : List Obj := s.log.filterMap fun e => if e.1 = i then (match e.2.2 with | .start _ _ _ x _ => some x | _ => none) else none
def succeeded (i : Nat) (s : Sys ρ) : List Obj := s.log.filterMap fun e => if e.1 = i then (match e.2.2 with | .finish _ x none => some x | _ => none) else none

-- the first process runs the prerequisite, its subtarget, and then its own subtarget; the second one runs the two Files targets only
example : started 0 twice = [2, 1, 0, 3] ∧ succeeded 0 twice = [0, 1, 3, 2] ∧ started 1 twice = [2, 1] ∧ succeeded 1 twice = [1, 2] ∧
    (twice.world.db 0).length = 2 ∧ getIn twice.world.fs = [1] := by decide +kernel

theorem mem_of_succeeded {i : Nat} {s : Sys Unit} {x : Obj} (h : x ∈ succeeded i s) : ∃ l₁ l₂ t key, s.log = l₁ ++ (i, t, Ev.finish key x none) :: l₂ := by
  simp only [succeeded, List.mem_filterMap] at h
  obtain ⟨⟨j, t, e⟩, hm, he⟩ := h
  by_cases hj : j = i
  · subst hj
    cases e <;> simp at he
    rename_i key y raw
    cases raw <;> simp at he
    subst he
    obtain ⟨l₁, l₂, hl⟩ := List.append_of_mem hm
    exact ⟨l₁, l₂, t, key, hl⟩
  · simp [hj] at he

/-- `s.log` has no call of the reference `r` alone by process `i`. -/
def noCall (i : Nat) (r : TRef) (s : Sys Unit) : Bool := s.log.all fun e => e.1 != i || match e.2.2 with | .call _ _ refs => refs != [r] | _ => true

theorem noCall_spec {i r} {s : Sys Unit} (h : noCall i r s = true) : ∀ t c ctx, (i, t, Ev.call c ctx [r]) ∉ s.log := by
  intro t c ctx hm
  have := List.all_eq_true.1 h _ hm
  simp at this

/-- C25, C57: the hypotheses are met by the second process. -/
example : ∃ l₁ l₂ t key, twice.log = l₁ ++ (1, t, Ev.finish key 1 none) :: l₂ ∧
    ((fun _ : Nat => exProg dbCtx) 1).files 1 = some ft1 ∧ ∀ c ctx, (1, t, Ev.call c ctx [ft1.target]) ∉ l₁ := by
  obtain ⟨l₁, l₂, t, key, hl⟩ := mem_of_succeeded (i := 1) (s := twice) (x := 1) (by decide +kernel)
  refine ⟨l₁, l₂, t, key, hl, rfl, fun c ctx hm => ?_⟩
  have hn : noCall 1 (.ptr 0) twice = true := by decide +kernel
  exact noCall_spec hn t c ctx (by rw [hl]; exact List.mem_append_left _ hm)

/-- C30: the database has entries; and a crash after the copy but before the recording leaves it empty (with the old `fin`). -/
example : ∃ h, h ∈ twice.world.db 0 := by
  have : (twice.world.db 0) ≠ [] := by decide +kernel
  exact List.exists_mem_of_ne_nil _ this

def crashed : Sys Unit := sysRun (fun _ => exProg dbCtx) sys0 ([.spawn] ++ runAll 0 18)
example : started 0 crashed = [2, 1, 0] ∧ succeeded 0 crashed = [0] ∧ crashed.world.db 0 = [] := by decide +kernel
/-- after the crash another process builds everything -/
example : started 1 (sysRun (fun _ => exProg dbCtx) crashed ([.spawn] ++ runAll 1 60)) = [2, 1, 0, 3] := by decide +kernel

/-- after a change of `in` everything is built again -/
example : started 2 (sysRun (fun _ => exProg dbCtx) twice ([.edit (setIn [2]), .spawn] ++ runAll 2 60)) = [2, 1, 0, 3] ∧
  getIn (sysRun (fun _ => exProg dbCtx) twice ([.edit (setIn [2]), .spawn] ++ runAll 2 60)).world.fs = [2] := by decide +kernel

/-- C28: with Force the subtargets run although the database has the entries; in dry-run mode they are requested and the database
does not change -/
example : started 2 (sysRun (fun i => exProg (if i = 2 then withForce dbCtx true else dbCtx)) twice ([.spawn] ++ runAll 2 60)) = [2, 1, 0, 3] := by
  decide +kernel
example : started 0 (sysRun (fun _ => exProg (withDryRun dbCtx true)) sys0 ([.spawn] ++ runAll 0 60)) = [2, 1, 0, 3] ∧
    ((sysRun (fun _ => exProg (withDryRun dbCtx true)) sys0 ([.spawn] ++ runAll 0 60)).world.db 0) = [] := by decide +kernel

/-- C27, C29: the registered producer of `out`, the input of object 2, is object 1 -/
example : Producer world0.reg "out".toList 1 := .self (by decide)
/-- and of a file below it as well -/
example : Producer world0.reg "out/x/y".toList 1 := by
  refine .up (by decide) (by decide) (by decide) (by decide) (by decide) ?_
  refine .up (by decide) (by decide) (by decide) (by decide) (by decide) ?_
  exact (find_iff _ _ _).1 (by decide +kernel)

/-- C27: a failing lookup in the database: the target fails and nothing is recorded. -/
def failing : Sys Unit := sysRun (fun _ => exProg dbCtx) ⟨{ world0 with hasFails := true }, [], []⟩ ([.spawn] ++ runAll 0 60)
example : started 0 failing = [2, 1] ∧ succeeded 0 failing = [] ∧ failing.world.db 0 = [] := by decide +kernel

/-- `in` is edited while the copy is running: after the copy has read it. -/
def edited : Sys Unit := sysRun (fun _ => exProg dbCtx) sys0
  ([.spawn] ++ runAll 0 13 ++ [.edit (setIn [2])] ++ runAll 0 60 ++ [.spawn] ++ runAll 1 60)

/-- **C57 is false in general.** There is an execution in which `in` was edited while the copy was running; the copy, and the Files
target, succeeded; then another process skips the Files target although `out` was made from the old contents of `in`, which is
different from the contents now; no file was changed in between. -/
theorem C57_counterexample_edit_during_run : ∃ s : Sys Unit, SysReach (fun _ => exProg dbCtx) world0 s ∧
    started 0 s = [2, 1, 0, 3] ∧ succeeded 0 s = [0, 1, 3, 2] ∧ started 1 s = [2, 1] ∧ succeeded 1 s = [1, 2] ∧
    getIn s.world.fs = [2] ∧ getOut s.world.fs = [1] :=
  ⟨edited, sysRun_reach _ .init, by decide +kernel, by decide +kernel, by decide +kernel, by decide +kernel, by decide +kernel, by decide +kernel⟩

end Demo
end Fab.Files
