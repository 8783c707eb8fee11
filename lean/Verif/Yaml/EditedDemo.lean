import Verif.Yaml.Edited
import Verif.Yaml.CleanDemo

/-!
# C93 in a project

Gen (6, with rule 5) makes gen.c from src, Prog (4, with rule 3) makes prog from gen.c.
-/

namespace Fab.Yaml.EditedDemo
open Path Cmd Files
open Runner (Proc TRef Env Ev State Reach Label TSt Job Thread allBody seqBody argBody nameBody hist)
open BuildDemo (docEnd doc doc_loaded)
open AgainDemo (src gen prog heap4 heap6 maker wanted stands retOf ends startOf rep ctx)
open CleanDemo

def edit (x : Dir) (u : World Unit) : World Unit := { u with fs := x.fs }
/-- after the first build prog is removed -/
def noProg : World Unit := edit ⟨some 2, none, some 1⟩ first.world
/-- after the first build src is changed -/
def newSrc : World Unit := edit ⟨some 2, some 3, some 7⟩ first.world
/-- after the first build somebody spoils gen.c -/
def badGen : World Unit := edit ⟨some 9, some 3, some 1⟩ first.world

theorem edit_fs (x : Dir) (u : World Unit) : (edit x u).fs = x.fs := rfl
theorem edit_db (x : Dir) (u : World Unit) : (edit x u).db = u.db := rfl

/-- What happens: if prog is removed, only the rule of Prog is run; if src is changed, both; if gen.c is spoilt, that of Gen, which makes it as it was, and that of Prog is not run. -/
example : startOf (run noProg (rep [(2, 0), (4, 1), (11, 2), (8, 1), (8, 3), (11, 1), (3, 0)])) = [4, 6, 3] ∧
    retOf (run noProg (rep [(2, 0), (4, 1), (11, 2), (8, 1), (8, 3), (11, 1), (3, 0)])) = [true] ∧
    startOf (run newSrc steps) = [4, 6, 5, 3] ∧ retOf (run newSrc steps) = [true] ∧
    startOf (run badGen (rep [(2, 0), (4, 1), (8, 2), (8, 3), (11, 2), (11, 1), (3, 0)])) = [4, 6, 5] ∧
    retOf (run badGen (rep [(2, 0), (4, 1), (8, 2), (8, 3), (11, 2), (11, 1), (3, 0)])) = [true] := by decide +kernel

theorem usual : Usual 0 ctx := ⟨rfl, rfl, rfl⟩

theorem first_fs : first.world.fs = (⟨some 2, some 3, some 1⟩ : Dir).fs := by
  have h : isDir first.world.fs ⟨some 2, some 3, some 1⟩ = true := by decide +kernel
  simpa [isDir] using h

theorem first_ret : ∃ c, (0, Ev.ret c none) ∈ first.log := by
  have h : ∃ e ∈ first.log, (match e with | (0, Ev.ret _ none) => true | _ => false) = true := by decide +kernel
  obtain ⟨⟨t, e⟩, h1, h2⟩ := h
  split at h2
  · rename_i c h3
    exact ⟨c, h3 ▸ h1⟩
  · cases h2

theorem own_db (hsh : Str) (o : Nat) (ctx : Ctx) : (own.body o ctx).Keeps fun w => hsh ∈ w.db 0 := by
  have k5 : ∀ f (w : World Unit), hsh ∈ w.db 0 → hsh ∈ (step5 w f).db 0 := by
    intro f w h; unfold step5; split <;> exact h
  have k3 : ∀ f (w : World Unit), hsh ∈ w.db 0 → hsh ∈ (step3 w f).db 0 := by
    intro f w h; unfold step3; split <;> exact h
  simp only [own]
  split
  · exact ⟨k5 _, fun _ => ⟨k5 _, fun _ => trivial⟩⟩
  · split
    · exact ⟨k3 _, fun _ => ⟨k3 _, fun _ => trivial⟩⟩
    · trivial

theorem first_eq : first = buildRun exHex id own docEnd [4] (world ⟨none, none, some 1⟩ []) ctx (steps.map .thread) := rfl

theorem fair₁ {ls : List (Label (World Unit))} (hls : ∀ f, .extern f ∉ ls) : FairBuild exHex id own docEnd J [4] T (world ⟨none, none, some 1⟩ []) ctx ls :=
  fair (x := ⟨none, none, some 1⟩) rfl hls

theorem keep {ls : List (Label (World Unit))} (hls : ∀ f, .extern f ∉ ls) : ∀ f, .extern f ∈ ls → ∀ w : World Unit, ∀ h ∈ w.db 0, h ∈ (f w).db 0 :=
  fun f hf => absurd hf (hls f)

/-- the hypotheses of `C93_edited`, whatever the files are after the first build -/
theorem edited {ls : List (Label (World Unit))} (hls : ∀ f, .extern f ∉ ls)
    (hret : ∃ c, (0, Ev.ret c none) ∈ (buildRun exHex id own docEnd [4] (world ⟨none, none, some 1⟩ []) ctx ls).log) {w' : World Unit} {x : Dir}
    (hdb : w'.db = (buildRun exHex id own docEnd [4] (world ⟨none, none, some 1⟩ []) ctx ls).world.db) (hfs : w'.fs = x.fs) {ts : List Nat} {y t p : Nat} {ins outs : List Str}
    (hy : FilesOf docEnd [4] y t ins outs) (hp : Part docEnd t p) (hran : Ran p (run w' ts).log) :
    DependsOn docEnd [4] (fun i => w'.fs.stat i ≠ (buildRun exHex id own docEnd [4] (world ⟨none, none, some 1⟩ []) ctx ls).world.fs.stat i) y := by
  obtain ⟨c, hret⟩ := hret
  exact C93_edited (fair₁ hls).loose own_db rfl rfl (keep hls) hret (fun h hh => by rw [hdb]; exact hh) (fair hfs (noExt _)).loose usual (keep (noExt _)) hy hp hran

theorem up₁ {ls : List (Label (World Unit))} (hls : ∀ f, .extern f ∉ ls)
    (hret : ∃ c, (0, Ev.ret c none) ∈ (buildRun exHex id own docEnd [4] (world ⟨none, none, some 1⟩ []) ctx ls).log) :
    UpToDate exHex id own docEnd 0 3 [gen] [prog] (buildRun exHex id own docEnd [4] (world ⟨none, none, some 1⟩ []) ctx ls).world := by
  obtain ⟨c, hret⟩ := hret
  by_contra hn
  have h := behind_edited (fair₁ hls).loose own_db rfl rfl (keep hls) hret (fun h hh => hh) (.stale is4 hn)
  generalize buildRun exHex id own docEnd [4] (world ⟨none, none, some 1⟩ []) ctx ls = st at h
  have : ∀ {y}, ¬ DependsOn docEnd [4] (fun i => st.world.fs.stat i ≠ st.world.fs.stat i) y := by
    intro y h
    induction h with
    | file _ _ h => exact h rfl
    | input _ _ _ _ h => exact h
  exact this h

theorem dependsOn {E : Str → Prop} {y : Nat} (h : DependsOn docEnd [4] E y) : y = 4 ∧ (E gen ∨ E prog ∨ E src) ∨ y = 6 ∧ (E gen ∨ E src) := by
  induction h with
  | file hx hi he =>
    rcases filesOf hx with ⟨rfl, rfl, rfl, rfl⟩ | ⟨rfl, rfl, rfl, rfl⟩ <;>
      simp only [List.cons_append, List.nil_append, List.mem_cons, List.not_mem_nil, or_false] at hi <;> rcases hi with rfl | rfl <;> tauto
  | input hx hi hz _ ih =>
    rcases filesOf hx with ⟨rfl, rfl, rfl, rfl⟩ | ⟨rfl, rfl, rfl, rfl⟩
    · rcases ih with ⟨-, h⟩ | ⟨-, h⟩ <;> tauto
    · simp only [List.mem_singleton] at hi; subst hi
      rw [maker.2] at hz; cases hz

/-- `C93_minimal`, `C93_parts`, `C93_needed`: when src has been changed the rule of Prog is run in this build; so Prog was behind. -/
example : Ran 3 (run newSrc steps).log ∧ Behind exHex id own docEnd 0 [4] newSrc 4 := by
  have hran : Ran 3 (run newSrc steps).log := by
    have h : ∃ e ∈ (run newSrc steps).log, (match e.2 with | Ev.start _ _ _ 3 _ => true | _ => false) = true := by decide +kernel
    obtain ⟨⟨t, e⟩, h1, h2⟩ := h
    split at h2
    · rename_i c i key ctx h3
      exact ⟨t, c, i, key, ctx, h3 ▸ h1⟩
    · cases h2
  have hfs : newSrc.fs = (⟨some 2, some 3, some 7⟩ : Dir).fs := edit_fs _ _
  refine ⟨hran, ?_⟩
  generalize newSrc = w at *
  exact C93_minimal (fair hfs (noExt steps)).loose usual (keep (noExt _)) is4 hran

/-- `C93_edited`: when prog has been removed, the rule of Gen is not run, in whatever order the goroutines act. -/
example (ts : List Nat) : ¬ Ran 5 (run noProg ts).log := by
  intro h
  have hret := first_ret
  have hdb : noProg.db = first.world.db := edit_db _ _
  have hfs : noProg.fs = (⟨some 2, none, some 1⟩ : Dir).fs := edit_fs _ _
  rw [first_eq] at hret hdb
  have hd := edited (noExt steps) hret hdb hfs is6 .self h
  rw [← first_eq, first_fs, hfs] at hd
  rcases dependsOn hd with ⟨h, -⟩ | ⟨-, h | h⟩
  · cases h
  · rw [stat_gen, stat_gen] at h; exact h rfl
  · rw [stat_src, stat_src] at h; exact h rfl

/-- `C93_cutoff`: when gen.c has been spoilt, the rule of Prog is not run, in whatever order the goroutines act. -/
example (ts : List Nat) : ¬ Ran 3 (run badGen ts).log := by
  have hfs : badGen.fs = (⟨some 9, some 3, some 1⟩ : Dir).fs := edit_fs _ _
  have hdb : badGen.db = first.world.db := edit_db _ _
  have hup : UpToDate exHex id own docEnd 0 3 [gen] [prog] first.world := by
    have hret := first_ret
    rw [first_eq] at hret ⊢
    exact up₁ (noExt steps) hret
  have hh : History exHex id CleanDemo.R T badGen := by
    have h0 : History exHex id CleanDemo.R T (world ⟨none, none, some 1⟩ []) := .new fun d => by simp [world]
    have h1 : History exHex id CleanDemo.R T first.world := by
      rw [first_eq]
      exact (correct h0 (x := ⟨none, none, some 1⟩) rfl (ctx := ctx) (noExt steps)).1
    have h2 : ∀ w w' : World Unit, History exHex id CleanDemo.R T w → w'.db = w.db → History exHex id CleanDemo.R T w' := fun w w' h e => .edit h fun d h hm => by rw [e] at hm; exact hm
    exact h2 _ _ h1 hdb
  have h1 := first_fs
  generalize first.world = u at *
  generalize badGen = w at *
  have hf := fair (ctx := ctx) hfs (noExt ts)
  have hrule : RulesWork exHex id own docEnd J [4] CleanDemo.R w ctx (ts.map .thread) := by
    refine C78_commands hf.loose fun x t ins outs h => ⟨?_, makes h⟩
    rcases filesOf h with ⟨rfl, rfl, rfl, rfl⟩ | ⟨rfl, rfl, rfl, rfl⟩
    · exact plain3
    · exact plain5
  refine C93_cutoff hf.loose usual (keep (noExt _)) is4 hup (fun h hm => by rw [hdb]; exact hm) ?_ ?_
  · intro i hi
    simp only [List.mem_singleton] at hi; subst hi
    rw [h1, hfs, stat_prog, stat_prog]
  · intro ls₁ ls₂ hls hm i hi
    simp only [List.mem_singleton] at hi; subst hi
    obtain ⟨th, tgt, hfin⟩ := hm _ (by simp) _ maker.1
    have hb := BuildInv.all noCollision hf hrule (hh.honest noCollision) ls₁ ls₂ hls
    obtain ⟨y, hy, hys⟩ := run_fs (ctx := ctx) (ls := ls₁) hfs fun f hf => noExt ts f (by rw [hls]; exact List.mem_append_left _ hf)
    have htgt : tgt = 6 := by
      have h1 := canRun_stands (Runner.finish_tgt (env := buildEnv exHex id own docEnd) (o := 6) buildRun_reach (fun _ h => h) hfin)
      exact h1.uniq (.inr ⟨by rw [heap6]; simp, rfl⟩)
    subst htgt
    obtain ⟨-, b, ⟨-, h2, h3⟩ | ⟨h2, -⟩⟩ := hb.fin _ _ _ _ is6 _ _ hfin
    · simp only [sitOf] at h2 h3
      rw [hy] at h2 h3
      have e1 := shows_inv (stat_src y) h2
      have e2 := shows_inv (stat_gen y) h3
      rw [hys] at e1
      cases e1
      rw [hy, h1, stat_gen, stat_gen, e2]
      rfl
    · exact absurd (Json.J.str.inj h2) (by decide)

end Fab.Yaml.EditedDemo
