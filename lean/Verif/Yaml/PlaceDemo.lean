import Verif.Yaml.Place
import Verif.Yaml.TreesDemo

/-!
# C94: two projects
-/

namespace Fab.Yaml.PlaceDemo
open Path Cmd Files
open AgainDemo (src gen prog)
open BuildDemo (isOk isOk_eq regOf)

/-- Prog: !Files with the rule !Seq [!Clean [], !All [!Clean [], !Clean []]], which makes gen.c and prog from src -/
def doc : Node := exDoc [exKey "Prog" "", exTagged "!Files" .mapping [exTagged "!!seq" .sequence [exScalar "src"],
  exTagged "!!seq" .sequence [exScalar "gen.c", exScalar "prog"],
  exTagged "!Seq" .sequence [exTagged "!Clean" .sequence [],
    exTagged "!All" .sequence [exTagged "!Clean" .sequence [], exTagged "!Clean" .sequence []]]]]

def lib : Lib := { exLib with
  file := fun D => if D = "/top".toList then .doc (some doc) else .none
  decFiles := fun n => match n.content with
    | [a, b, c] => .ok ⟨a, b, c, false⟩
    | _ => .error .yaml }

/-- The project of `TreesDemo` is this one. -/
theorem loaded : Loaded lib TreesDemo.doc := .file (n := 12) (dir := []) .empty (.inl ⟨(), isOk_eq (by decide +kernel)⟩)

theorem registered : ∀ o ∈ [5], ∃ q, (TreesDemo.doc.reg.target q).1 = some o := by
  intro o ho
  simp only [List.mem_singleton] at ho; subst ho
  exact ⟨"Prog".toList, by decide +kernel⟩

theorem inline : RulesInline TreesDemo.doc [5] := by
  intro x t ins outs c hx hc
  obtain ⟨-, rfl, -, -⟩ := TreesDemo.filesOf hx
  have hlt := TreesDemo.part hc
  refine ⟨?_, (TreesDemo.orderly.parts _ _ _ _ _ hx hc)⟩
  rintro ⟨q, d, h⟩
  simp only [TreesDemo.doc, List.mem_singleton, Prod.mk.injEq] at h
  omega

example : OnePlace TreesDemo.doc 4 := C94_rule_places loaded inline TreesDemo.is5
example : Orderly TreesDemo.own TreesDemo.doc TreesDemo.J [5] :=
  C94_orderly loaded registered inline (fun _ _ _ _ _ _ => rfl) TreesDemo.orderly.once
/-- the Clean targets look alike, but are three objects in three places -/
example : Within TreesDemo.doc 0 4 0 ∧ Within TreesDemo.doc 1 3 0 ∧ Within TreesDemo.doc 2 3 1 ∧ ¬ Named TreesDemo.doc 0 :=
  ⟨⟨_, rfl, rfl⟩, ⟨_, rfl, rfl⟩, ⟨_, rfl, rfl⟩, by rintro ⟨q, d, h⟩; simp [TreesDemo.doc] at h⟩

/-! A target with a name may be in several places. -/

/-- A: !All [sub/B, sub/B, C, C], where sub/B: !Clean [] -/
def top : Node := exDoc [exKey "A" "", exTagged "!All" .sequence [.mk .scalar [] "sub/B".toList [] [] [], .mk .scalar [] "sub/B".toList [] [] [],
  .mk .scalar [] "C".toList [] [] [], .mk .scalar [] "C".toList [] [] []]]
def sub : Node := exDoc [exKey "_dir" "", exScalar "sub", exKey "B" "", exTagged "!Clean" .sequence []]

def lib2 : Lib := { exLib with
  file := fun D => if D = "/top".toList then .doc (some top) else if D = "/top/sub".toList then .doc (some sub) else .none }

def shared : St where
  heap := [.clean [] false, .ref "C".toList, .ref "C".toList, .all [0, 0, 1, 2]]
  reg := regOf [("A".toList, 3), ("sub/B".toList, 0)]
  filesReg := []
  autoclean := []
  hist := [("sub/B".toList, [], 0), ("A".toList, [], 3)]
  reads := ["/top".toList, "/top/sub".toList]

/-- The mentions of sub/B are the same target, those of C are two. -/
example : Loaded lib2 shared ∧ Within shared 0 3 0 ∧ Within shared 0 3 1 ∧ Named shared 0 ∧ ¬ Named shared 1 :=
  ⟨.file (n := 12) (dir := []) .empty (.inl ⟨(), isOk_eq (by decide +kernel)⟩), ⟨_, rfl, rfl⟩, ⟨_, rfl, rfl⟩, ⟨_, _, List.mem_cons_self⟩,
    by rintro ⟨q, d, h⟩; simp [shared] at h⟩

/-- `C94_new`: in a state with one object already -/
example : ∃ o s', yamlTarget lib 3 (exTagged "!All" .sequence [exTagged "!Clean" .sequence []]) [] { St.empty with heap := [.ref []] } = .ok o s' ∧ o = 2 := by
  refine ⟨2, _, by rfl, rfl⟩

end Fab.Yaml.PlaceDemo
