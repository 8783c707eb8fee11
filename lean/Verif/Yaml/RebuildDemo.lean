import Verif.Yaml.Rebuild
import Verif.Yaml.SeveralDemo

/-!
# C92: examples
-/

namespace Fab.Yaml.RebuildDemo
open Path Cmd Files
open Runner (Proc TRef Env Ev State Reach Label TSt Job Thread allBody seqBody argBody nameBody hist)
open BuildDemo (lib regOf isOk isOk_eq)
open AgainDemo (src prog retOf ends rep ctx startOf)
open CleanDemo (opt get file one shows_one shows_inv sameFile exHex_inj)
open TwiceDemo (files a b Dir read read_eq stat_a stat_b stat_src upd ok T noCollision hashOf wf)
open SeveralDemo (make make_eq upd_db upd_same acts_mono)

/-- A: makes a from src; Clean: !Clean [a]; Rebuild: !Seq [Clean, A] -/
def doc : Node := exDoc [exKey "A" "", files ["src"] ["a"], exKey "Clean" "", exTagged "!Clean" .sequence [exScalar "a"],
  exKey "Rebuild" "", exTagged "!Seq" .sequence [exScalar "Clean", exScalar "A"]]

/-- the project, after reading -/
def docEnd : St where
  heap := [.clean ["/top/o".toList] false, .files 0 ["/top/src".toList] ["/top/a".toList], .clean ["/top/a".toList] false,
    .ref "Clean".toList, .ref "A".toList, .seq [3, 4]]
  reg := regOf [("Rebuild".toList, 5), ("Clean".toList, 2), ("A".toList, 1)]
  filesReg := [("/top/a".toList, 1)]
  autoclean := []
  hist := [("A".toList, [], 1), ("Clean".toList, [], 2), ("Rebuild".toList, [], 5)]
  reads := ["/top".toList]

theorem doc_loaded : Loaded (lib doc) docEnd := .file (n := 12) (dir := []) .empty (.inl ⟨(), isOk_eq (by decide +kernel)⟩)

/-- The rule of A (0) writes a (src plus one); Clean (2) removes a. -/
def own : Own Unit where
  body o ctx :=
    if o = 0 then .act (upd · make) fun w => .ret (ok w make)
    else if o = 2 then cleanBody (fun _ => false) [] (fun _ => ⟨⟨[a], 1⟩, false⟩) (fun _ r => r) (.atom 9) ctx
    else .ret none
  note _ := id
  typ _ := []
  desc _ _ := some (.str "a".toList)

def J (_ : Nat) : Json.J := .str "a".toList

/-- a should be src plus one. -/
def R : Meaning := fun _ _ i o => ∃ c, i = one src c ∧ o = one a (c + 1)

def run (os : List Nat) (w : World Unit) (ts : List (Nat × Nat)) : State (World Unit) Ctx := buildRun exHex id own docEnd os w ctx ((rep ts).map .thread)

def world (x : Dir) : World Unit := ⟨x.fs, fun _ => [], [], false, false, false, ()⟩

/-- a does not exist and is built, by `fab A` -/
def first : State (World Unit) Ctx := run [1] (world ⟨none, none, none, some 1⟩) [(2, 0), (9, 1), (7, 2), (11, 1), (3, 0)]

def isDir (f : FS) (x : Dir) : Bool := f = x.fs

/-- then `fab Rebuild` -/
def again : State (World Unit) Ctx := run [5] first.world [(2, 0), (3, 1), (9, 2), (5, 1), (9, 3), (7, 4), (11,3), (9, 1), (3, 0)]

/-- or `fab A Clean`: a is up to date, and then it is removed -/
def both : State (World Unit) Ctx := run [1, 2] first.world [(4, 0), (20, 1), (20, 2), (20, 0)]

/-- `fab A Clean`, in the beginning: the rule runs, then Clean removes a, and then the hash is stored -/
def poisoned : State (World Unit) Ctx := run [1, 2] (world ⟨none, none, none, some 1⟩) [(4, 0), (9, 1), (7, 3), (20, 2), (20, 1), (20, 0)]

/-- then `fab A` -/
def after : State (World Unit) Ctx := run [1] poisoned.world [(2, 0), (20, 1), (20, 0)]

/-! ## Rebuild -/

theorem heap0 : docEnd.heap[0]? = some (.clean ["/top/o".toList] false) := by rfl
theorem heap1 : docEnd.heap[1]? = some (.files 0 [src] [a]) := by rfl
theorem heap2 : docEnd.heap[2]? = some (.clean [a] false) := by rfl
theorem heap3 : docEnd.heap[3]? = some (.ref "Clean".toList) := by rfl
theorem heap4 : docEnd.heap[4]? = some (.ref "A".toList) := by rfl
theorem heap5 : docEnd.heap[5]? = some (.seq [3, 4]) := by rfl
theorem maker : findInFilesRegistry docEnd.filesReg src = none := by decide +kernel
theorem names : (docEnd.reg.target "Clean".toList).1 = some 2 ∧ (docEnd.reg.target "A".toList).1 = some 1 := by decide +kernel

theorem plain {k : Nat} (hk : k = 0 ∨ k = 2) : ¬ Composite docEnd k := by
  have h : ∃ fs, docEnd.heap[k]? = some (.clean fs false) := by rcases hk with rfl | rfl <;> exact ⟨_, rfl⟩
  obtain ⟨fs, h⟩ := h
  rintro (h' | h' | h' | h' | h') <;> rw [h] at h' <;> cases h'

theorem stands_self {o x : Nat} (ho : o = 0 ∨ o = 1 ∨ o = 2 ∨ o = 5) (h : Stands docEnd o x) : x = o := by
  rcases h with ⟨n, hn, -⟩ | ⟨-, rfl⟩
  · exfalso
    rcases ho with rfl | rfl | rfl | rfl
    · rw [heap0] at hn; cases hn
    · rw [heap1] at hn; cases hn
    · rw [heap2] at hn; cases hn
    · rw [heap5] at hn; cases hn
  · rfl
theorem stands3 {x} (h : Stands docEnd 3 x) : x = 2 := by
  rcases h with ⟨n, hn, h⟩ | ⟨h, rfl⟩
  · rw [heap3] at hn; cases hn; rw [names.1] at h; cases h; rfl
  · exact absurd heap3 (h _)
theorem stands4 {x} (h : Stands docEnd 4 x) : x = 1 := by
  rcases h with ⟨n, hn, h⟩ | ⟨h, rfl⟩
  · rw [heap4] at hn; cases hn; rw [names.2] at h; cases h; rfl
  · exact absurd heap4 (h _)

theorem noUses {k y : Nat} (hk : k = 0 ∨ k = 2) : ¬ Uses docEnd k y := by
  intro hu
  have hp := plain hk
  cases hu with
  | needs h => cases h with
    | all h => exact hp (.all h)
    | seq h => exact hp (.seq h)
    | arg h => exact hp (.arg h)
    | input h => exact hp (.files h)
    | name h => exact hp (.name h)
  | files h => exact hp (.files h)

theorem needs1 {o : Nat} (h : Needs docEnd 1 o) : False := by
  cases h with
  | input h3 h4 h5 =>
    rw [heap1] at h3; cases h3
    simp only [List.mem_singleton] at h4; subst h4
    rw [maker] at h5; cases h5
  | _ h3 => rw [heap1] at h3; cases h3

theorem uses1 {o : Nat} (h : Uses docEnd 1 o) : o = 0 := by
  cases h with
  | needs h => exact (needs1 h).elim
  | files h => rw [heap1] at h; cases h; rfl

theorem mayRun4 {c : Nat} (h : MayRun docEnd [4] c) : c = 1 ∨ c = 0 := by
  induction h with
  | arg h hs => simp only [List.mem_singleton] at h; subst h; exact .inl (stands4 hs)
  | dep _ hu hs ih =>
    rcases ih with rfl | rfl
    · cases uses1 hu; exact .inr (stands_self (.inl rfl) hs)
    · exact absurd hu (noUses (.inl rfl))

theorem doesFirst : DoesFirst docEnd 5 3 2 [4] :=
  ⟨heap5, .inl ⟨_, heap3, names.1⟩, plain (.inr rfl), fun h => by rcases mayRun4 h with h | h <;> cases h⟩

theorem wanted {o : Nat} (hw : Wanted docEnd [5] o) : o = 5 ∨ o = 3 ∨ o = 4 := by
  rcases doesFirst.wanted hw with h | h | h
  · exact .inl h
  · exact .inr (.inl h)
  · refine .inr (.inr ?_)
    clear hw
    induction h with
    | arg h => simpa using h
    | dep _ hs hn ih => subst ih; cases stands4 hs; exact (needs1 hn).elim

theorem filesOf {x t ins outs} (h : FilesOf docEnd [5] x t ins outs) : x = 1 ∧ t = 0 ∧ ins = [src] ∧ outs = [a] := by
  have hx := h.2
  rcases mayRun4 (doesFirst.files h) with rfl | rfl
  · rw [heap1] at hx; cases hx; exact ⟨rfl, rfl, rfl, rfl⟩
  · rw [heap0] at hx; cases hx

theorem is1 : FilesOf docEnd [5] 1 0 [src] [a] :=
  ⟨⟨4, .dep (.arg (by simp)) (.inr ⟨by rw [heap5]; simp, rfl⟩) (.seq heap5 (by simp)), .inl ⟨_, heap4, names.2⟩⟩, heap1⟩

theorem orderly : Orderly own docEnd J [5] := by
  refine ⟨⟨?_, ?_, ?_, fun _ _ _ _ _ _ => rfl⟩, ?_⟩
  · intro x t ins outs c hx hc
    obtain ⟨-, rfl, -⟩ := filesOf hx
    cases part_plain (plain (.inl rfl)) hc
    exact ⟨fun n h => plain (.inl rfl) (.name h), fun t i o h => plain (.inl rfl) (.files h)⟩
  · intro x t ins outs x' t' ins' outs' c hx hx' _ _
    rw [(filesOf hx).1, (filesOf hx').1]
  · intro x t ins outs c o hx hc ho hs
    obtain ⟨-, rfl, -⟩ := filesOf hx
    cases part_plain (plain (.inl rfl)) hc
    rcases wanted ho with rfl | rfl | rfl
    · cases stands_self (by simp) hs
    · cases stands3 hs
    · cases stands4 hs
  · intro x t ins outs o o' hx ho ho' h1 h2
    obtain ⟨rfl, -⟩ := filesOf hx
    have key : ∀ {o}, Wanted docEnd [5] o → Stands docEnd o 1 → o = 4 := by
      intro o ho hs
      rcases wanted ho with rfl | rfl | rfl
      · cases stands_self (by simp) hs
      · cases stands3 hs
      · rfl
    rw [key ho h1, key ho' h2]

/-- What Clean does. -/
theorem clean_dir (x : Dir) (ctx : Ctx) (h : getDryRun ctx = false) :
    CleanT.cleanRun (fun _ => false) ctx [] ⟨⟨[a], 1⟩, false⟩ x.fs = (({ x with a := none } : Dir).fs, ⟨⟨[a], 1⟩, false⟩, true) := by
  unfold CleanT.cleanRun
  rw [h]
  obtain ⟨a, b, p, s⟩ := x
  cases a <;> cases b <;> cases p <;> cases s <;> rfl

theorem clean_fs (x : Dir) (ctx : Ctx) : ∃ y : Dir, (CleanT.cleanRun (fun _ => false) ctx [] ⟨⟨[a], 1⟩, false⟩ x.fs).1 = y.fs ∧ y.s = x.s := by
  cases h : getDryRun ctx with
  | true =>
    refine ⟨x, ?_, rfl⟩
    unfold CleanT.cleanRun
    simp [h]
  | false => exact ⟨{ x with a := none }, by rw [clean_dir x ctx h], rfl⟩

theorem noRun (o : Nat) (ctx : Ctx) : NoRun (own.body o ctx) := by
  simp only [own]
  split
  · exact fun _ => trivial
  · split
    · exact fun _ => trivial
    · trivial

theorem own_fs (v : Option UInt8) (o : Nat) (ctx : Ctx) : (own.body o ctx).Keeps fun w => ∃ x : Dir, w.fs = x.fs ∧ x.s = v := by
  have inj : ∀ {x y : Dir}, x.fs = y.fs → x.s = y.s := by
    intro x y h
    have h1 := stat_src x
    rw [h, stat_src y] at h1
    cases hx : x.s <;> cases hy : y.s <;> simp_all [file]
  simp only [own]
  split
  · refine ⟨fun w => ?_, fun _ => trivial⟩
    rintro ⟨x, h1, h2⟩
    unfold upd; dsimp only; split
    · rename_i x' h
      obtain ⟨y, h3, h4⟩ := Option.bind_eq_some_iff.1 h
      exact ⟨_, rfl, ((make_eq h4).2.trans (inj ((read_eq h3).symm.trans h1))).trans h2⟩
    · exact ⟨x, h1, h2⟩
  · split
    · refine ⟨fun w => ?_, fun _ => trivial⟩
      rintro ⟨x, h1, h2⟩
      obtain ⟨y, h3, h4⟩ := clean_fs x ctx
      exact ⟨y, by dsimp only; rw [h1]; exact h3, h4.trans h2⟩
    · trivial

theorem run_fs {os : List Nat} {w : World Unit} {x : Dir} (hw : w.fs = x.fs) {ctx : Ctx} {ls : List (Label (World Unit))} (hls : ∀ f, .extern f ∉ ls) :
    ∃ y : Dir, (buildRun exHex id own docEnd os w ctx ls).world.fs = y.fs ∧ y.s = x.s :=
  fs_kept (P := fun f => ∃ y : Dir, f = y.fs ∧ y.s = x.s) (own_fs _) ⟨x, hw, rfl⟩ fun f hf => absurd hf (hls f)

/-- Every build of Rebuild in which nobody interferes is as it should be. -/
theorem fair {w : World Unit} {x : Dir} (hw : w.fs = x.fs) {ctx : Ctx} {ls : List (Label (World Unit))} (hls : ∀ f, .extern f ∉ ls) :
    FairRebuild exHex id own docEnd J 5 2 T w ctx ls := by
  refine ⟨noRun, orderly, ?_, ?_, fun f hf => absurd hf (hls f), ?_⟩
  · intro y ctx _ _ hy
    simp only [own, if_neg hy]
    split
    · rename_i h; subst h
      refine ⟨fun w => ⟨upd_db w _, fun y t ins outs hx i hi => ?_⟩, fun _ => trivial⟩
      obtain ⟨rfl, rfl, rfl, rfl⟩ := filesOf hx
      exact .inr ⟨1, 0, _, _, is1, .self, .inl rfl⟩
    · trivial
  · intro ctx
    exact ⟨fun _ => rfl, fun _ => trivial⟩
  · rintro ls₁ ls₂ rfl z t ins outs -
    obtain ⟨y, hy, -⟩ := run_fs (os := [5]) (ctx := ctx) (ls := ls₁) hw fun f hf => hls f (List.mem_append_left _ hf)
    exact ⟨y, hy⟩

/-- The rule does what it should, if it is left alone. -/
theorem makes {x t ins outs} (h : FilesOf docEnd [5] x t ins outs) : ¬ Composite docEnd t ∧
    ∀ ctx fs, (own.body t ctx).Makes (ins ++ outs) (fun fs => (sitOf own J t ins outs fs).right R) fs := by
  obtain ⟨rfl, rfl, rfl, rfl⟩ := filesOf h
  refine ⟨plain (.inl rfl), fun ctx fs w _ => ?_⟩
  simp only [ok, upd]
  split
  · rename_i x' h
    obtain ⟨x, -, h2⟩ := Option.bind_eq_some_iff.1 h
    obtain ⟨c, hc, rfl⟩ := Option.map_eq_some_iff.1 h2
    exact fun _ => ⟨c, shows_one ((stat_src _).trans (by rw [← hc])), shows_one (stat_a _)⟩
  · exact fun h => nomatch h

/-- **C92 in this project.** After `fab Rebuild` that returns nil a is src plus one: whatever the order of the goroutines, the files, and the honest database. -/
theorem correct {w : World Unit} {x : Dir} (hx : w.fs = x.fs) (hw : ∀ d, HonestDB exHex id R T (w.db d)) {ctx : Ctx} {ls : List (Label (World Unit))}
    (hls : ∀ f, .extern f ∉ ls) {n : Nat} (hret : (0, Ev.ret n none) ∈ (buildRun exHex id own docEnd [5] w ctx ls).log) :
    ∃ c, x.s = some c ∧ (buildRun exHex id own docEnd [5] w ctx ls).world.fs.stat a = file (some (c + 1)) "a".toList := by
  have hf := fair (ctx := ctx) hx hls
  have hr := (C92_rebuild noCollision doesFirst hf (C92_commands doesFirst hf fun _ _ _ _ h => makes h) hw rfl).2 n hret _ _ _ _ is1
  obtain ⟨y, hy, hys⟩ := run_fs (os := [5]) (ctx := ctx) hx hls
  rw [hy] at hr ⊢
  obtain ⟨c, h1, h2⟩ := hr
  refine ⟨c, hys ▸ shows_inv (stat_src y) h1, ?_⟩
  rw [stat_a, shows_inv (stat_a y) h2]

/-- `fab A`, then `fab Rebuild`, which removes a and runs the rule again. -/
example : isDir first.world.fs ⟨some 2, none, none, some 1⟩ = true ∧ retOf first = [true] ∧
    isDir again.world.fs ⟨some 2, none, none, some 1⟩ = true ∧ retOf again = [true] ∧ startOf again = [5, 2, 1, 0] := by decide +kernel

/-- The hypotheses of C92_clean and C92_success hold for `fab Rebuild`. -/
example {w : World Unit} {x : Dir} (hx : w.fs = x.fs) {ctx : Ctx} (hc : getDryRun ctx = false) {ls : List (Label (World Unit))} (hls : ∀ f, .extern f ∉ ls)
    {n : Nat} (hret : (0, Ev.ret n none) ∈ (buildRun exHex id own docEnd [5] w ctx ls).log) :
    ∃ w₀ w₁, Passes exHex id own docEnd [5] w ctx ls w₀ w₁ ∧ w₁.fs.stat a = .notExist := by
  obtain ⟨w₀, w₁, h1, h2⟩ := C92_success (y := 2) (o := 3) (deny := fun _ => false) (reg := []) (get := fun _ => ⟨⟨[a], 1⟩, false⟩) (set := fun _ r => r) (err := .atom 9) noRun hc (plain (.inr rfl)) (fun ctx => rfl) (fun ls₁ ls₂ h => by
    obtain ⟨y, hy, -⟩ := run_fs (os := [5]) (ctx := ctx) (ls := ls₁) hx fun f hf => hls f (by rw [h]; exact List.mem_append_left _ hf)
    rw [hy]; exact wf y) hret (.dep (.arg (by simp)) (.inr ⟨by rw [heap5]; simp, rfl⟩) (.seq heap5 (by simp))) doesFirst.stands
  exact ⟨w₀, w₁, h1, h2 a (.inl (by simp [CleanT.Slice.elems]))⟩

/-! ## Together -/

/-- **C92, what is false.** `fab A Clean` (or `fab Clean A`, or `!All [Clean, A]`) is not the same: targets named together are run at the same time.  Both
succeed and a does not exist: A was up to date when Clean had not yet removed it. -/
theorem C92_finding_together : (∃ n, (0, Ev.ret n none) ∈ both.log) ∧ both.world.fs.stat a = .notExist := by
  refine ⟨?_, ?_⟩
  · exact ends (st := both) (by decide +kernel)
  · have h : isDir both.world.fs ⟨none, none, none, some 1⟩ = true := by decide +kernel
    rw [of_decide_eq_true h, stat_a]; rfl

/-- **C92, what is worse.** The database is empty, a does not exist.  `fab A Clean`: the rule of A makes a, Clean removes it, and then A stores the hash of its
files, with the output missing.  From then on `fab A` returns nil without running the rule, although a does not exist. -/
theorem C92_finding_poisoned : (∃ n, (0, Ev.ret n none) ∈ poisoned.log) ∧ poisoned.world.fs.stat a = .notExist ∧
    (∃ n, (0, Ev.ret n none) ∈ after.log) ∧ startOf after = [1] ∧ after.world.fs.stat a = .notExist := by
  refine ⟨?_, ?_, ?_, by decide +kernel, ?_⟩
  · exact ends (st := poisoned) (by decide +kernel)
  · have h : isDir poisoned.world.fs ⟨none, none, none, some 1⟩ = true := by decide +kernel
    rw [of_decide_eq_true h, stat_a]; rfl
  · exact ends (st := after) (by decide +kernel)
  · have h : isDir after.world.fs ⟨none, none, none, some 1⟩ = true := by decide +kernel
    rw [of_decide_eq_true h, stat_a]; rfl

end Fab.Yaml.RebuildDemo
