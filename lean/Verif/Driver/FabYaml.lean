import Verif.Driver.Fab
import Verif.Yaml.Project

/-!
# C88: the fab command in a directory with YAML files only
-/

namespace Fab.Driver
open Path Registry
open Runner (State Label)

/-! ## Proof -/

theorem placed_hist (s : Yaml.St) : ∀ ts, (placed s ts).1.hist = s.hist
  | [] => rfl
  | .plain _ :: ts => placed_hist s ts
  | .withArgs _ _ :: ts => placed_hist s ts

theorem placed_plain (s : Yaml.St) : ∀ os : List Nat, placed s (os.map .plain) = (s, os)
  | [] => rfl
  | o :: os => by simp only [List.map_cons, placed, placed_plain s os]

/-- The targets on the command line: registered ones, or a new ArgTarget of a registered one. -/
theorem placed_place {s : Yaml.St} (hs : Yaml.PlaceInv s) {args : List Str} {ts : List PTgt} (hn : Names s.reg args ts) :
    Yaml.PlaceInv (placed s ts).1 ∧ Yaml.Outer (placed s ts).1 (placed s ts).2 := by
  cases hn with
  | @targets _ os _ ht =>
    rw [placed_plain]
    refine ⟨hs, hs.outer fun o ho => ?_⟩
    have : some o ∈ args.map (fun a => (s.reg.target a).1) := by rw [ht]; exact List.mem_map_of_mem ho
    obtain ⟨a, -, ha⟩ := List.mem_map.1 this
    exact ⟨a, ha⟩
  | @options a o opts _ ht =>
    simp only [placed]
    obtain ⟨hno, hlt⟩ := hs.regd _ _ ht
    have hnamed : ∀ x, Yaml.Named { s with heap := s.heap ++ [.arg o opts] } x ↔ Yaml.Named s x := fun _ => Iff.rfl
    have hold : ∀ x i k, Yaml.Within { s with heap := s.heap ++ [.arg o opts] } x i k → Yaml.Within s x i k ∨ x = o := by
      rintro x i k ⟨ob, h1, h2⟩
      dsimp only at h1
      by_cases hi : i < s.heap.length
      · rw [List.getElem?_append_left hi] at h1
        exact .inl ⟨ob, h1, h2⟩
      · have := (List.getElem?_eq_some_iff.1 h1).1
        have hi : i = s.heap.length := by simp at this; omega
        subst hi
        rw [List.getElem?_append_right (Nat.le_refl _)] at h1
        simp only [Nat.sub_self, List.getElem?_cons_zero, Option.some.injEq] at h1
        subst h1
        simp only [Yaml.Obj.parts] at h2
        exact .inr (by simpa using List.mem_of_getElem? h2)
    refine ⟨⟨fun x i k i' k' hx h1 h2 => ?_, fun q x hx => ?_, fun q x hx => ?_, fun x i k h => ?_⟩, fun x hx => .inr fun i k h => ?_⟩
    · rcases hold _ _ _ h1 with h1 | rfl
      · rcases hold _ _ _ h2 with h2 | rfl
        · exact hs.one _ _ _ _ _ hx h1 h2
        · exact absurd hno hx
      · exact absurd hno hx
    · obtain ⟨h1, h2⟩ := hs.regd q x hx
      exact ⟨h1, by simp; omega⟩
    · obtain ⟨t, ins, outs, h⟩ := hs.made q x hx
      exact ⟨t, ins, outs, by dsimp only; rw [List.getElem?_append_left (List.getElem?_eq_some_iff.1 h).1]; exact h⟩
    · have : x < s.heap.length := by
        rcases hold _ _ _ h with h | rfl
        · exact hs.old _ _ _ h
        · exact hlt
      simp; omega
    · simp only [List.mem_singleton] at hx
      rcases hold _ _ _ h with h | h
      · have := hs.old _ _ _ h; omega
      · omega

/-! ## Theorem -/

variable {ρ : Type} {W : World} {n : Nat} {hex : Bytes → Str} {sum : Str → Str} {own : Yaml.Own ρ} {w : Files.World ρ} {argv : List Str} {s : Yaml.St} {os : List Nat} {ctx : Ctx}
  {ls : List (Label (Files.World ρ))} {st : State (Files.World ρ) Ctx} {J : Nat → Json.J} {R : Yaml.Meaning} {T : Yaml.Sit → Prop}

/-- **C88, success, for a project without a driver.** The rules of the Files targets are written where they are used, no plain name is the name of a Files target, and there is
a plan for each rule (see C78).  Whatever was built before, and whatever happened to the files since: if `fab argv` exits with status 0 then the outputs of every Files
target that the arguments need are what they are meant to be. -/
theorem C88_yaml (hd : PlainArgs argv) (hdr : W.driver = .noDriver) (hno : Yaml.NoCollision hex sum T) (hw : Yaml.History hex sum R T w)
    (h : FabRun W n hex sum own w argv 0 s os ctx ls st) (hin : Yaml.RulesInline s os) (hnames : Yaml.FilesUnnamed s os)
    (hb : Yaml.Behaves hex sum own s J os T w ctx ls)
    (hplan : ∀ x t ins outs, Yaml.FilesOf s os x t ins outs →
      ∃ p : Yaml.Plan, p.Works own s t (ins ++ outs) (fun fs => (Yaml.sitOf own J t ins outs fs).right R)) :
    ∀ x t ins outs, Yaml.FilesOf s os x t ins outs → (Yaml.sitOf own J t ins outs st.world.fs).right R := by
  obtain ⟨dir, set, args, top, p, s₀, ts, db, -, -, -, hr, hn, hp, -⟩ := C88_line hd h
  cases hr with
  | driver h1 => rw [hdr] at h1; cases h1
  | driverless _ hl =>
    obtain ⟨h1, h2⟩ := placed_place (load_loaded hl).place hn
    rw [hp] at h1 h2
    exact C88_right hno hw h (Yaml.fair_project h1 h2 hin hnames hb) (Yaml.rules_work h1 h2 hin hnames hb hplan)

end Fab.Driver
