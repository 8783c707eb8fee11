import Verif.Yaml.Build

/-!
# C76: a Files target one of whose inputs is among, or below, its own outputs

A formatter is the common case: `In: [x]`, `Out: [x]`. `Files` (files.go:95-112) registers the target under each of its outputs, and `runPrereqs`
(files.go:197-211) looks up each input in the same registry without leaving out the target itself. So the target waits for itself, and no call of
`Run` in which it is an argument returns.
-/

namespace Fab.Yaml
open Path Cmd Files
open Runner (Proc TRef Env Ev State Reach)

section
variable {ρ : Type} {hex : Bytes → Str} {sum : Str → Str} {own : Own ρ} {s : St}

/-- A Files target that the registry names as the maker of one of its own inputs. -/
theorem own_endless {x t : Nat} {ins outs : List Str} {i : Str} (hx : s.heap[x]? = some (.files t ins outs)) (hi : i ∈ ins)
    (hf : findInFilesRegistry s.filesReg i = some x) : Endless s x :=
  ⟨x, .refl, .single (.input hx hi hf)⟩

/-- **C76, finding.** A Files target that is registered for one of its own inputs never ends, and no call of Run with it returns. -/
theorem C76_finding_own_output {w : World ρ} {cl : List (P ρ)} {st : State (World ρ) Ctx} (h : Reach (buildEnv hex sum own s) w cl st)
    {x t : Nat} {ins outs : List Str} {i : Str} (hx : s.heap[x]? = some (.files t ins outs)) (hi : i ∈ ins)
    (hf : findInFilesRegistry s.filesReg i = some x) :
    (∀ t tgt raw, (t, Ev.finish x tgt raw) ∉ st.log) ∧
    ∀ t c ctx refs, (t, Ev.call c ctx refs) ∈ st.log → .ptr x ∈ refs → ∀ t' e, (t', Ev.ret c e) ∉ st.log :=
  C76_cycle h (own_endless hx hi hf)

end

namespace OwnDemo
open BuildDemo

/-- Fmt: !Files {Target: !Clean [o], In: [x], Out: [x]} -/
def fmtDoc : Node := exDoc [exKey "Fmt" "", files "x" "x"]

/-- Gen: !Files {Target: !Clean [o], In: [d/src], Out: [d]}: the input lies below the output -/
def belowDoc : Node := exDoc [exKey "Gen" "", files "d/src" "d"]

def fmtEnd : St where
  heap := [.clean ["/top/o".toList] false, .files 0 ["/top/x".toList] ["/top/x".toList]]
  reg := regOf [("Fmt".toList, 1)]
  filesReg := [("/top/x".toList, 1)]
  autoclean := []
  hist := [("Fmt".toList, [], 1)]
  reads := ["/top".toList]

def belowEnd : St where
  heap := [.clean ["/top/o".toList] false, .files 0 ["/top/d/src".toList] ["/top/d".toList]]
  reg := regOf [("Gen".toList, 1)]
  filesReg := [("/top/d".toList, 1)]
  autoclean := []
  hist := [("Gen".toList, [], 1)]
  reads := ["/top".toList]

theorem fmt_loaded : Loaded (lib fmtDoc) fmtEnd := .file (n := 12) (dir := []) .empty (.inl ⟨(), isOk_eq (by decide +kernel)⟩)
theorem below_loaded : Loaded (lib belowDoc) belowEnd := .file (n := 12) (dir := []) .empty (.inl ⟨(), isOk_eq (by decide +kernel)⟩)

/-- the hypotheses of the finding, in the state that loading `fmtDoc` gives -/
example : fmtEnd.heap[1]? = some (.files 0 ["/top/x".toList] ["/top/x".toList]) ∧ findInFilesRegistry fmtEnd.filesReg "/top/x".toList = some 1 :=
  ⟨rfl, by decide +kernel⟩

example : belowEnd.heap[1]? = some (.files 0 ["/top/d/src".toList] ["/top/d".toList]) ∧
    findInFilesRegistry belowEnd.filesReg "/top/d/src".toList = some 1 :=
  ⟨rfl, by decide +kernel⟩

end OwnDemo

/-- **C76, finding.** There are fab.yaml files with a single target that reads what it writes, and one that reads something below what it writes; in
no execution does a call of Run with that target return. -/
theorem C76_finding_formatter :
    (∃ L s, Loaded L s ∧ s.heap[1]? = some (.files 0 ["/top/x".toList] ["/top/x".toList]) ∧ (s.reg.target "Fmt".toList).1 = some 1 ∧
      ∀ (hex : Bytes → Str) (sum : Str → Str) (own : Own Nat) (w : World Nat) (cl : List (P Nat)) (st : State (World Nat) Ctx),
        Reach (buildEnv hex sum own s) w cl st →
        ∀ t c ctx refs, (t, Ev.call c ctx refs) ∈ st.log → .ptr 1 ∈ refs → ∀ t' e, (t', Ev.ret c e) ∉ st.log) ∧
    (∃ L s, Loaded L s ∧ s.heap[1]? = some (.files 0 ["/top/d/src".toList] ["/top/d".toList]) ∧ (s.reg.target "Gen".toList).1 = some 1 ∧
      ∀ (hex : Bytes → Str) (sum : Str → Str) (own : Own Nat) (w : World Nat) (cl : List (P Nat)) (st : State (World Nat) Ctx),
        Reach (buildEnv hex sum own s) w cl st →
        ∀ t c ctx refs, (t, Ev.call c ctx refs) ∈ st.log → .ptr 1 ∈ refs → ∀ t' e, (t', Ev.ret c e) ∉ st.log) :=
  ⟨⟨_, _, OwnDemo.fmt_loaded, rfl, by decide +kernel, fun _ _ _ _ _ _ h =>
      (C76_finding_own_output (i := "/top/x".toList) h (by rfl) (by simp) (by decide +kernel)).2⟩,
   ⟨_, _, OwnDemo.below_loaded, rfl, by decide +kernel, fun _ _ _ _ _ _ h =>
      (C76_finding_own_output (i := "/top/d/src".toList) h (by rfl) (by simp) (by decide +kernel)).2⟩⟩

end Fab.Yaml
