import Verif.Contrib.Go
import Verif.Yaml.Lists

/-!
# The YAML forms `!proto.Proto` and `!proto.Deps` (/repo/proto/proto.go:59-91, 152-165), together with the lists of files of a YAML file
(/repo/yaml.go): C65

`node.Decode` is a parameter, as in `Verif.Yaml.Model`.
-/

namespace Fab.Contrib
open Fab Path Yaml

/-! ## The model -/

/-- the struct of proto.go:60-66 -/
structure ProtoY where
  inputs : Node
  outputs : Node
  includes : Node
  opts : List Str
  autoclean : Bool

/-- Why `protoDecoder` reports an error. -/
inductive DErr where
  | yaml (e : YErr)
  | deps (e : Option Proto.PErr)

/-- `protoDecoder` (proto.go:59-87): the target, and whether its outputs are to be cleaned. -/
def protoDecoder (L : Lib) (fs : Proto.Files) (dec : Node → Except YErr ProtoY) (n : Nat) (node : Node) (dir : Str) : Except DErr (Proto.Target × Bool) :=
  match dec node with
  | .error e => .error (.yaml e)
  | .ok p =>
    match fileList L p.inputs dir with
    | .error e => .error (.yaml e)
    | .ok inputs =>
      match fileList L p.outputs dir with
      | .error e => .error (.yaml e)
      | .ok outputs =>
        match fileList L p.includes dir with
        | .error e => .error (.yaml e)
        | .ok includes =>
          match Proto.proto fs inputs outputs includes p.opts n with
          | .error e => .error (.deps e)
          | .ok t => .ok (t, p.autoclean)

/-! ## C65 -/

/-- Each path of a list means what the YAML file says. -/
def AllMean (top dir : Str) (ps qs : List Str) : Prop := List.Forall₂ (GoPkg.Means top dir) ps qs

theorem allMean_map (top dir : Str) (ps : List Str) : AllMean top dir ps (ps.map fun s => joinPath top [dir, s]) := by
  induction ps with
  | nil => exact .nil
  | cons p ps ih => exact .cons (GoPkg.joinPath_means top dir p) ih

theorem fileList_means {L : Lib} {node : Node} {dir : Str} {qs : List Str} (h : fileList L node dir = .ok qs) :
    ∃ ps, stringList L node dir = .ok ps ∧ AllMean L.top dir ps qs := by
  unfold fileList at h
  cases hs : stringList L node dir with
  | error e => rw [hs] at h; cases h
  | ok ps =>
    rw [hs] at h
    injection h with h
    subst h
    exact ⟨ps, rfl, allMean_map _ _ _⟩

/-- **C65, for `!proto.Proto`.** The inputs, outputs and include directories are those that the YAML file names, relative to its directory; `protoc` is called with
exactly these include directories, the options as they are written, and the inputs; the target's inputs are the inputs and all that they import, directly or
indirectly, from these directories. -/
theorem C65_proto {L : Lib} {fs : Proto.Files} {dec : Node → Except YErr ProtoY} {n : Nat} {node : Node} {dir : Str} {t : Proto.Target} {auto : Bool}
    (h : protoDecoder L fs dec n node dir = .ok (t, auto)) :
    ∃ p ins outs incs qins qincs, dec node = .ok p ∧ stringList L p.inputs dir = .ok ins ∧ stringList L p.outputs dir = .ok outs ∧ stringList L p.includes dir = .ok incs ∧
      AllMean L.top dir ins qins ∧ AllMean L.top dir outs t.outs ∧ AllMean L.top dir incs qincs ∧ auto = p.autoclean ∧
      t.args = qincs.map ("-I".toList ++ ·) ++ p.opts ++ qins ∧
      (∀ i ∈ qins, ∀ g, Proto.Reaches fs qincs i g → g ∈ t.ins) ∧ (∀ g ∈ t.ins, ∃ i ∈ qins, Proto.MayReach fs qincs i g) := by
  unfold protoDecoder at h
  cases hd : dec node with
  | error e => rw [hd] at h; cases h
  | ok p =>
    simp only [hd] at h
    cases h1 : fileList L p.inputs dir with
    | error e => simp only [h1] at h; cases h
    | ok inputs =>
      simp only [h1] at h
      cases h2 : fileList L p.outputs dir with
      | error e => simp only [h2] at h; cases h
      | ok outputs =>
        simp only [h2] at h
        cases h3 : fileList L p.includes dir with
        | error e => simp only [h3] at h; cases h
        | ok includes =>
          simp only [h3] at h
          cases h4 : Proto.proto fs inputs outputs includes p.opts n with
          | error e => simp only [h4] at h; cases h
          | ok t' =>
            simp only [h4] at h
            injection h with h
            obtain ⟨rfl, rfl⟩ := Prod.mk.inj h
            obtain ⟨ins, a1, a2⟩ := fileList_means h1
            obtain ⟨outs, b1, b2⟩ := fileList_means h2
            obtain ⟨incs, c1, c2⟩ := fileList_means h3
            obtain ⟨-, d2, d3, d4, d5⟩ := Proto.C54_target fs inputs outputs includes p.opts n _ h4
            exact ⟨p, ins, outs, incs, inputs, includes, rfl, a1, b1, c1, a2, by rw [d5]; exact b2, c2, rfl, d4, d2, d3⟩

/-- **C65, errors of `!proto.Proto`.** An error of any part is reported. -/
theorem C65_proto_errors {L : Lib} {fs : Proto.Files} {dec : Node → Except YErr ProtoY} {n : Nat} {node : Node} {dir : Str} {p : ProtoY} (hd : dec node = .ok p)
    (h : (∃ e, stringList L p.inputs dir = .error e) ∨ (∃ e, stringList L p.outputs dir = .error e) ∨ (∃ e, stringList L p.includes dir = .error e)) :
    ∃ e, protoDecoder L fs dec n node dir = .error e := by
  have key : ∀ nd e, stringList L nd dir = .error e → fileList L nd dir = .error e := by
    intro nd e he; unfold fileList; rw [he]
  unfold protoDecoder
  simp only [hd]
  cases h1 : fileList L p.inputs dir with
  | error e => exact ⟨_, rfl⟩
  | ok _ =>
    cases h2 : fileList L p.outputs dir with
    | error e => exact ⟨_, rfl⟩
    | ok _ =>
      cases h3 : fileList L p.includes dir with
      | error e => exact ⟨_, rfl⟩
      | ok _ =>
        exfalso
        rcases h with ⟨e, h⟩ | ⟨e, h⟩ | ⟨e, h⟩
        · rw [key _ _ h] at h1; cases h1
        · rw [key _ _ h] at h2; cases h2
        · rw [key _ _ h] at h3; cases h3

/-! ### Paths that a tag gives, in a list of files -/

/-- **C65, partly.** The paths that a tag such as `!proto.Deps` or `!go.Deps` gives for the inputs of a target are not changed by their being in a list of files, if
they are absolute.  What is missing: a relative top directory (`C65_counterexample_twice`). -/
theorem C65_twice_partial (top ydir p q : Str) (ht : isAbs top = true) (hq : GoPkg.Means top ydir p q) : joinPath top [ydir, q] = q := by
  have habs : isAbs q = true ∧ clean q = q := by
    rcases hq with ⟨h, rfl⟩ | ⟨-, h, rfl⟩ | ⟨-, -, rfl⟩
    · exact ⟨by rw [isAbs_clean]; exact h, clean_clean _⟩
    · exact ⟨join_abs h _, (join_clean _).resolve_left (isAbs_ne_nil (join_abs h _))⟩
    · exact ⟨join_abs ht _, (join_clean _).resolve_left (isAbs_ne_nil (join_abs ht _))⟩
  rw [show [ydir, q] = [ydir] ++ q :: [] by rfl, C19_absolute top [ydir] q [] habs.1 (by simp), join_eq (isAbs_ne_nil habs.1)]
  have := habs.2
  rw [clean] at this
  simpa using this

/-- A YAML library in which `!proto.Deps` is registered (for the file a.proto, which imports nothing). -/
def depsLib (top : Str) : Lib := { exLib with
  top := top
  strFn := fun t => if t = "proto.Deps".toList then
    some fun node dir => .ok [(GoPkg.protodepsDecoderPaths top dir node.value []).1] else none }

/-- **C65 is false for a relative top directory** (such as the one that a test of fab itself uses, or that of `NewController("")`):
in `In: !proto.Deps {File: a.proto}` the directory is put before the file twice. -/
theorem C65_counterexample_twice :
    (GoPkg.protodepsDecoderPaths "p".toList "sub".toList "a.proto".toList []).1 = "p/sub/a.proto".toList ∧
    fileList (depsLib "p".toList) (.mk .scalar "!proto.Deps".toList "a.proto".toList [] [] []) "sub".toList = .ok ["p/sub/p/sub/a.proto".toList] ∧
    fileList (depsLib "/p".toList) (.mk .scalar "!proto.Deps".toList "a.proto".toList [] [] []) "sub".toList = .ok ["/p/sub/a.proto".toList] := by
  decide +kernel

/-- an example for `C65_proto` -/
def exProtoY : ProtoY := ⟨exTagged "" .sequence [exScalar "a.proto"], exTagged "" .sequence [exScalar "a.pb.go"], exTagged "" .sequence [exScalar "include", exScalar "/usr/include"],
  ["--go_out=.".toList], true⟩

def summary : Except DErr (Proto.Target × Bool) → Option (List Str × List Str × List Str × Bool)
  | .ok (t, a) => some (t.args, t.ins, t.outs, a)
  | .error _ => none

example : summary (protoDecoder exLib GoPkg.yamlFs (fun _ => .ok exProtoY) 5 (exScalar "") "sub".toList) =
    some (["-I/top/sub/include".toList, "-I/usr/include".toList, "--go_out=.".toList, "/top/sub/a.proto".toList],
      ["/top/sub/a.proto".toList, "/top/sub/include/b.proto".toList], ["/top/sub/a.pb.go".toList], true) := by decide +kernel

end Fab.Contrib
