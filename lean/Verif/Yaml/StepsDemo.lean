import Verif.Yaml.Steps
import Verif.Yaml.CleanDemo

/-!
# C78: a rule with two commands

The first copies src to gen.c, the second adds one to gen.c.
-/

namespace Fab.Yaml.StepsDemo
open Path Cmd Files
open Runner (Proc TRef Env Ev State Reach Label TSt Job Thread allBody seqBody argBody nameBody hist)
open AgainDemo (src gen retOf startOf rep ctx)
open CleanDemo (Dir read read_eq file stat_gen stat_src one shows_one shows_inv sameFile noExt isDir)

def doc : St where
  heap := [.clean [] false, .clean [] false, .seq [0, 1], .files 2 [src] [gen]]
  reg := ⟨[], []⟩
  filesReg := [(gen, 3)]
  autoclean := []
  hist := []
  reads := []

def stepA (w : World Unit) : World Unit := match read w.fs with
  | some ⟨_, p, some b⟩ => { w with fs := (⟨some b, p, some b⟩ : Dir).fs }
  | _ => w

def stepB (w : World Unit) : World Unit := match read w.fs with
  | some ⟨some g, p, s⟩ => { w with fs := (⟨some (g + 1), p, s⟩ : Dir).fs }
  | _ => w

def okA (w : World Unit) : Option Runner.Err := match read w.fs with
  | some ⟨_, _, some _⟩ => none
  | _ => some (.atom 5)

def okB (w : World Unit) : Option Runner.Err := match read w.fs with
  | some ⟨some _, _, _⟩ => none
  | _ => some (.atom 3)

def own : Own Unit where
  body o _ := if o = 0 then .act stepA fun w => .ret (okA w) else if o = 1 then .act stepB fun w => .ret (okB w) else .ret none
  note _ := id
  typ _ := []
  desc _ _ := some .null

def J (_ : Nat) : Json.J := .null

def R : Meaning := fun _ _ i o => ∃ b, i = one src b ∧ o = one gen (b + 1)

theorem heap3 : doc.heap[3]? = some (.files 2 [src] [gen]) := rfl
theorem heap2 : doc.heap[2]? = some (.seq [0, 1]) := rfl
theorem maker : findInFilesRegistry doc.filesReg src = none := by decide +kernel

theorem wanted {o : Nat} (h : Wanted doc [3] o) : o = 3 := by
  induction h with
  | arg h => simpa using h
  | dep _ h1 h2 ih =>
    subst ih
    have := h1.self (fun n h => by rw [heap3] at h; cases h)
    subst this
    cases h2 with
    | input h3 h4 h5 =>
      rw [heap3] at h3; cases h3
      simp only [List.mem_singleton] at h4; subst h4
      rw [maker] at h5; cases h5
    | _ h3 => rw [heap3] at h3; cases h3

theorem stands {o x : Nat} (h : Wanted doc [3] o) (hs : Stands doc o x) : x = 3 := by
  cases wanted h
  exact hs.self (fun n h => by rw [heap3] at h; cases h)

theorem filesOf {x t ins outs} (h : FilesOf doc [3] x t ins outs) : x = 3 ∧ t = 2 ∧ ins = [src] ∧ outs = [gen] := by
  obtain ⟨⟨o, ho, hs⟩, hx⟩ := h
  cases stands ho hs
  rw [heap3] at hx; cases hx
  exact ⟨rfl, rfl, rfl, rfl⟩

theorem is3 : FilesOf doc [3] 3 2 [src] [gen] := ⟨⟨3, .arg (by simp), .inr ⟨by rw [heap3]; simp, rfl⟩⟩, heap3⟩

theorem plain {c : Nat} (hc : c ∈ [0, 1]) : ¬ Composite doc c := by
  have h : doc.heap[c]? = some (.clean [] false) := by
    simp only [List.mem_cons, List.not_mem_nil, or_false] at hc
    rcases hc with rfl | rfl <;> rfl
  rintro (h' | h' | h' | h' | h') <;> rw [h] at h' <;> cases h'

theorem list : CmdList doc 2 [0, 1] := .inr ⟨heap2, by decide, fun _ => plain⟩

theorem orderly : Orderly own doc J [3] := by
  have part : ∀ {x t ins outs c}, FilesOf doc [3] x t ins outs → Part doc t c → (c ∈ [0, 1] ∨ c = 2) := by
    intro x t ins outs c hx hc
    obtain ⟨-, rfl, -, -⟩ := filesOf hx
    exact (list.parts hc).imp id And.left
  refine ⟨⟨?_, ?_, ?_, fun _ _ _ _ _ _ => rfl⟩, ?_⟩
  · intro x t ins outs c hx hc
    rcases part hx hc with h | rfl
    · exact ⟨fun n h' => plain h (.name h'), fun t i o h' => plain h (.files h')⟩
    · rw [heap2]; simp
  · intro x t ins outs x' t' ins' outs' c hx hx' _ _
    rw [(filesOf hx).1, (filesOf hx').1]
  · intro x t ins outs c o hx hc ho hs
    cases stands ho hs
    rcases part hx hc with h | h
    · simp at h
    · cases h
  · intro x t ins outs o o' _ ho ho' _ _
    rw [wanted ho, wanted ho']

theorem noRun : ∀ o ctx, NoRun (own.body o ctx) := by
  intro o ctx
  simp only [own]
  split
  · exact fun _ => trivial
  · split
    · exact fun _ => trivial
    · trivial

theorem own_fs (o : Nat) (ctx : Ctx) : (own.body o ctx).Keeps fun w => ∃ x : Dir, w.fs = x.fs := by
  have kA : ∀ w : World Unit, (∃ x : Dir, w.fs = x.fs) → ∃ x : Dir, (stepA w).fs = x.fs := by
    rintro w ⟨x, h1⟩; unfold stepA; split
    · exact ⟨_, rfl⟩
    · exact ⟨x, h1⟩
  have kB : ∀ w : World Unit, (∃ x : Dir, w.fs = x.fs) → ∃ x : Dir, (stepB w).fs = x.fs := by
    rintro w ⟨x, h1⟩; unfold stepB; split
    · exact ⟨_, rfl⟩
    · exact ⟨x, h1⟩
  simp only [own]
  split
  · exact ⟨kA, fun _ => trivial⟩
  · split
    · exact ⟨kB, fun _ => trivial⟩
    · trivial

theorem fair {w : World Unit} {x : Dir} (hw : w.fs = x.fs) {ctx : Ctx} {ls : List (Label (World Unit))} (hls : ∀ f, .extern f ∉ ls) :
    FairBuild exHex id own doc J [3] CleanDemo.T w ctx ls := by
  refine ⟨⟨noRun, orderly.toRulesApart, ?_, fun f hf => absurd hf (hls f), ?_⟩, orderly.once⟩
  · have any : ∀ {c : Nat} {w w' : World Unit}, c ∈ [0, 1] → w'.db = w.db → Changes doc [3] c w w' := fun hc hdb =>
      ⟨hdb, fun y t ins outs hy i hi => .inr ⟨3, 2, _, _, is3, list.part hc, .inl (filesOf hy).1.symm⟩⟩
    intro c ctx _ _
    simp only [own]
    split
    · rename_i h; subst h
      refine ⟨fun w => any (by simp) ?_, fun _ => trivial⟩
      unfold stepA; split <;> rfl
    · split
      · rename_i h; subst h
        refine ⟨fun w => any (by simp) ?_, fun _ => trivial⟩
        unfold stepB; split <;> rfl
      · trivial
  · rintro ls₁ ls₂ rfl x' t ins outs -
    obtain ⟨y, hy⟩ := fs_kept (hex := exHex) (sum := id) (s := doc) (os := [3]) (ctx := ctx) (ls := ls₁) (P := fun f => ∃ y : Dir, f = y.fs) own_fs ⟨x, hw⟩
      fun f hf => absurd hf fun hf => hls f (List.mem_append_left _ hf)
    exact ⟨y, hy⟩

/-- Neither command makes gen.c right alone: the second needs what the first has made. -/
theorem makes (fs : FS) : MakesAll own ([src] ++ [gen]) (fun fs => (sitOf own J 2 [src] [gen] fs).right R) [0, 1] fs := by
  intro ctx
  show Proc.Makes _ _ (.act stepA fun w => .ret (okA w)) _
  intro w _
  simp only [okA, stepA]
  split
  · rename_i b p s h
    intro _ ctx
    show Proc.Makes _ _ (.act stepB fun w => .ret (okB w)) _
    intro w' hw'
    have hg := (hw' gen (by simp)).1
    have hs := (hw' src (by simp)).1
    simp only [okB, stepB]
    split
    · rename_i g p' s' h'
      have h' := read_eq h'
      rw [h'] at hg hs
      rw [stat_gen, stat_gen] at hg
      rw [stat_src, stat_src] at hs
      dsimp only at hg hs
      intro _
      have e1 : g = s := by simpa [file] using hg
      have e2 : s' = some s := by
        cases s' with
        | none => simp [file] at hs
        | some s' => simpa [file] using hs
      subst e1 e2
      exact ⟨g, shows_one (stat_src _), shows_one (stat_gen _)⟩
    · exact fun h => nomatch h
  · exact fun h => nomatch h

/-- `C78_sequences`: after every build that returns nil gen.c is src plus one. -/
theorem correct {w : World Unit} (hw : History exHex id R CleanDemo.T w) {x : Dir} (hx : w.fs = x.fs) {ctx : Ctx} {ls : List (Label (World Unit))}
    (hls : ∀ f, .extern f ∉ ls) {c : Nat} (hret : (0, Ev.ret c none) ∈ (buildRun exHex id own doc [3] w ctx ls).log) :
    ∃ b, Shows (buildRun exHex id own doc [3] w ctx ls).world.fs [src] = one src b ∧
      Shows (buildRun exHex id own doc [3] w ctx ls).world.fs [gen] = one gen (b + 1) := by
  have hf := fair (ctx := ctx) hx hls
  have hrule : RulesWork exHex id own doc J [3] R w ctx ls := by
    refine C78_sequences hf.loose fun x t ins outs h => ?_
    obtain ⟨rfl, rfl, rfl, rfl⟩ := filesOf h
    exact ⟨_, list, makes⟩
  exact C78_history CleanDemo.noCollision hw hf hrule hret _ _ _ _ is3

def run (w : World Unit) (ts : List Nat) : State (World Unit) Ctx := buildRun exHex id own doc [3] w ctx (ts.map .thread)

/-- a build: src is 5, gen.c is 9 -/
def first : State (World Unit) Ctx :=
  run (CleanDemo.world ⟨some 9, none, some 5⟩ []) (rep [(2, 0), (8, 1), (3, 2), (7, 3), (4, 2), (7, 4), (7, 2), (11, 1), (3, 0)])

example : isDir first.world.fs ⟨some 6, none, some 5⟩ = true ∧ retOf first = [true] ∧ startOf first = [3, 2, 0, 1] := by decide +kernel

end Fab.Yaml.StepsDemo
