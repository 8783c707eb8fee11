import Verif.Yaml.EditedDemo

/-!
# C97: a build that was interrupted is resumed

A build may fail, or be killed at any point.  What it has made so far is not made again: not by the next build, nor by any later one, as long as the files are not edited.
-/

namespace Fab.Yaml
open Path Cmd Files
open Runner (Proc TRef Env Ev State Reach Label)

section
variable {ρ : Type} {hex : Bytes → Str} {sum : Str → Str} {own : Own ρ} {s : St} {J : Nat → Json.J} {os : List Nat}

/-! ## Specification -/

variable (hex sum own s J) in
/-- What may happen between world `w` and another one, as far as Files target `x` is concerned, with hash database `d`:
* builds that need `x` (among others), without Force or DryRun; each of them may succeed, fail, or stop anywhere (`ls` is any list of steps);
* edits, and anything else that removes nothing from the database and changes no file that `x` depends on. -/
inductive Meanwhile (d x : Nat) (w : World ρ) : World ρ → Prop
  | start : Meanwhile d x w w
  | build {u os t ins outs T ctx ls} : Meanwhile d x w u → FilesOf s os x t ins outs → LooseBuild hex sum own s J os T u ctx ls → Usual d ctx →
      (∀ f, .extern f ∈ ls → ∀ w, ∀ h ∈ w.db d, h ∈ (f w).db d) → Meanwhile d x w (buildRun hex sum own s os u ctx ls).world
  | edit {u u' os t ins outs} : Meanwhile d x w u → FilesOf s os x t ins outs → (∀ h ∈ u.db d, h ∈ u'.db d) →
      ¬ DependsOn s os (fun i => u'.fs.stat i ≠ u.fs.stat i) x → Meanwhile d x w u'

/-! ## Proofs -/

theorem stands_files {x z t : Nat} {ins outs : List Str} (h : s.heap[z]? = some (.files t ins outs)) (hs : Stands s z x) : x = z := by
  rcases hs with ⟨n, hn, -⟩ | ⟨-, rfl⟩
  · rw [h] at hn; cases hn
  · rfl

/-- The maker of an input is needed, too. -/
theorem FilesOf.maker {os' : List Nat} {x t z t' : Nat} {ins outs ins' outs' : List Str} {i : Str} (hx : FilesOf s os x t ins outs) (hi : i ∈ ins)
    (hz : findInFilesRegistry s.filesReg i = some z) (hz' : FilesOf s os' z t' ins' outs') : FilesOf s os z t' ins' outs' := by
  obtain ⟨⟨o, ho, hs⟩, hx⟩ := hx
  refine ⟨⟨z, .dep ho hs (.input hx hi hz), .inr ⟨fun n hn => ?_, rfl⟩⟩, hz'.2⟩
  rw [hz'.2] at hn; cases hn

/-- Whether a target is behind does not depend on what else is needed. -/
theorem Behind.other {os' : List Nat} {d : Nat} {w : World ρ} {x : Nat} (h : Behind hex sum own s d os w x) :
    ∀ {t ins outs}, FilesOf s os' x t ins outs → Behind hex sum own s d os' w x := by
  induction h with
  | stale hx hn =>
    intro t ins outs hx'
    have := hx.2
    rw [hx'.2] at this; cases this
    exact .stale hx' hn
  | input hx hi hz hb ih =>
    intro t ins outs hx'
    have := hx.2
    rw [hx'.2] at this; cases this
    obtain ⟨t', ins', outs', hz'⟩ : ∃ t' ins' outs', FilesOf s os _ t' ins' outs' := by
      cases hb with
      | stale h _ => exact ⟨_, _, _, h⟩
      | input h _ _ _ => exact ⟨_, _, _, h⟩
    exact .input hx' hi hz (ih (hx'.maker hi hz hz'))

theorem DependsOn.other {os' : List Nat} {E : Str → Prop} {x : Nat} (h : DependsOn s os E x) : ∀ {t ins outs}, FilesOf s os' x t ins outs → DependsOn s os' E x := by
  induction h with
  | file hx hi he =>
    intro t ins outs hx'
    have := hx.2
    rw [hx'.2] at this; cases this
    exact .file hx' hi he
  | input hx hi hz hb ih =>
    intro t ins outs hx'
    have := hx.2
    rw [hx'.2] at this; cases this
    obtain ⟨t', ins', outs', hz'⟩ : ∃ t' ins' outs', FilesOf s os _ t' ins' outs' := by
      cases hb with
      | file h _ _ => exact ⟨_, _, _, h⟩
      | input h _ _ _ => exact ⟨_, _, _, h⟩
    exact .input hx' hi hz (ih (hx'.maker hi hz hz'))

/-- What has succeeded is not behind, nor is anything that it depends on. -/
theorem finished_not_behind {w : World ρ} {ctx : Ctx} {ls : List (Label (World ρ))} {T : Sit → Prop} {d : Nat} (hf : LooseBuild hex sum own s J os T w ctx ls)
    (hkept : ∀ hsh o ctx, (own.body o ctx).Keeps fun w => hsh ∈ w.db d)
    (hd : getHashDB ctx = some d) (hdry : getDryRun ctx = false) (hkeep : ∀ f, .extern f ∈ ls → ∀ w, ∀ h ∈ w.db d, h ∈ (f w).db d)
    {x : Nat} (hb : Behind hex sum own s d os (buildRun hex sum own s os w ctx ls).world x) :
    ∀ {th key}, (th, Ev.finish key x none) ∉ (buildRun hex sum own s os w ctx ls).log := by
  induction hb with
  | @stale x t ins outs hx hn =>
    intro th key hfin
    refine hn (finished_up_to_date hf.noRun hkept hd hdry ls hkeep rfl (fun _ h => h) hfin hx.2 fun u hu => ⟨fun i hi => ?_, ?_⟩)
    · exact (lastSaw_still hf hx hu i hi).1
    · rw [hf.orderly.desc _ _ _ _ hx, hf.orderly.desc _ _ _ _ hx]
  | @input x t ins outs i z hx hi hz hb ih =>
    intro th key hfin
    obtain ⟨th', tgt, h1⟩ := ((buildInv_any hf ls [] (by simp)).fin _ _ _ _ hx th key hfin).1 i hi z hz
    obtain ⟨t', ins', outs', hz'⟩ : ∃ t' ins' outs', FilesOf s os z t' ins' outs' := by
      cases hb with
      | stale h _ => exact ⟨_, _, _, h⟩
      | input h _ _ _ => exact ⟨_, _, _, h⟩
    have h2 := canRun_stands (Runner.finish_tgt buildRun_reach (o := z) (fun _ h => h) h1)
    cases stands_files hz'.2 h2
    exact ih h1

/-- A build does not leave behind what was not behind before, wherever it stops. -/
theorem kept_by_build {w : World ρ} {ctx : Ctx} {ls : List (Label (World ρ))} {T : Sit → Prop} {d : Nat} (hf : LooseBuild hex sum own s J os T w ctx ls)
    (hc : Usual d ctx) (hkeep : ∀ f, .extern f ∈ ls → ∀ w, ∀ h ∈ w.db d, h ∈ (f w).db d) {x : Nat}
    (hb : Behind hex sum own s d os (buildRun hex sum own s os w ctx ls).world x) : Behind hex sum own s d os w x := by
  induction hb with
  | @stale x t ins outs hx hn =>
    by_contra hnb
    have hup : UpToDate hex sum own s d t ins outs w := by
      by_contra h; exact hnb (.stale hx h)
    obtain ⟨hdb, hfs⟩ := since_start hf hkeep hx ls [] (by simp)
    refine hn (hup.steady (hf.orderly.desc _ _ _ _ hx) ⟨fun i hi => ?_, hdb⟩)
    rcases hfs i hi with h | ⟨z, t', ins', outs', hz, hran, h⟩
    · exact h.1
    · have := C93_minimal hf hc hkeep hz hran
      rcases h with rfl | ⟨h1, h2⟩
      · exact absurd this hnb
      · exact absurd (.input hx h1 h2 this) hnb
  | input hx hi hz _ ih => exact .input hx hi hz ih

theorem Meanwhile.kept {d x : Nat} {w u : World ρ} (h : Meanwhile hex sum own s J d x w u)
    (hdesc : ∀ x t ins outs, FilesOf s os x t ins outs → ∀ w, own.desc t w = some (J t)) {t : Nat} {ins outs : List Str} (hx : FilesOf s os x t ins outs) (hb : Behind hex sum own s d os u x) : Behind hex sum own s d os w x := by
  induction h with
  | start => exact hb
  | build _ hx' hf hc hkeep ih => exact ih ((kept_by_build hf hc hkeep (hb.other hx')).other hx)
  | @edit u u' os' t' ins' outs' hm hx' hdb hn₀ ih =>
    refine ih ?_
    have hn : ¬ DependsOn s os (fun i => u'.fs.stat i ≠ u.fs.stat i) x := fun h => hn₀ (h.other hx')
    clear ih hx hx' hm hn₀
    induction hb with
    | @stale x t ins outs hx hst =>
      by_contra hnb
      have hup : UpToDate hex sum own s d t ins outs u := by
        by_contra h; exact hnb (.stale hx h)
      refine hst (hup.steady (hdesc _ _ _ _ hx) ⟨fun i hi => ?_, hdb⟩)
      by_contra h; exact hn (.file hx hi h)
    | input hx hi hz _ ih => exact .input hx hi hz (ih fun h => hn (.input hx hi hz h))

/-- **C97.** A build of `os` with hash database `d` (not a dry run), in any order of the goroutines, which may fail or stop anywhere; Files target `x` had succeeded in it.  After that,
anything may happen but edits of files that `x` depends on, and removing entries from the database; other builds may fail or stop anywhere, too.  Then a build of `os'`, without Force
or DryRun, runs neither the rule of `x` nor any part of it. -/
theorem C97_not_again {w : World ρ} {ctx : Ctx} {ls : List (Label (World ρ))} {T : Sit → Prop} {d : Nat} (hf : LooseBuild hex sum own s J os T w ctx ls)
    (hkept : ∀ hsh o ctx, (own.body o ctx).Keeps fun w => hsh ∈ w.db d)
    (hd : getHashDB ctx = some d) (hdry : getDryRun ctx = false) (hkeep : ∀ f, .extern f ∈ ls → ∀ w, ∀ h ∈ w.db d, h ∈ (f w).db d)
    {x t th key : Nat} {ins outs : List Str} (hx : FilesOf s os x t ins outs) (hfin : (th, Ev.finish key x none) ∈ (buildRun hex sum own s os w ctx ls).log)
    -- in between
    {w' : World ρ} (hm : Meanwhile hex sum own s J d x (buildRun hex sum own s os w ctx ls).world w')
    -- the last build
    {os' : List Nat} {ctx' : Ctx} {ls' : List (Label (World ρ))} {T' : Sit → Prop} (hf' : LooseBuild hex sum own s J os' T' w' ctx' ls') (hc' : Usual d ctx')
    (hkeep' : ∀ f, .extern f ∈ ls' → ∀ w, ∀ h ∈ w.db d, h ∈ (f w).db d) (hx' : FilesOf s os' x t ins outs) {p : Nat} (hp : Part s t p) :
    ¬ Ran p (buildRun hex sum own s os' w' ctx' ls').log := by
  intro hran
  have hb := (C93_parts hf' hc' hkeep' hx' hp hran).other hx
  exact finished_not_behind hf hkept hd hdry hkeep (hm.kept hf.orderly.desc hx hb) hfin

end

/-! ## A concrete case -/

namespace ResumeDemo
open BuildDemo (docEnd)
open AgainDemo (src gen prog startOf retOf rep ctx)
open CleanDemo EditedDemo

/-- Prog is to be built, and killed when Gen is done; once more, and killed while the rule of Prog is at work -/
def killed : State (World Unit) Ctx := run (world ⟨none, none, some 1⟩ []) (rep [(2, 0), (4, 1), (8, 2), (8, 3), (11, 2)])
def killed₂ : State (World Unit) Ctx := run killed.world (rep [(2, 0), (4, 1), (11, 2), (8, 1), (3, 3)])
/-- prog is removed -/
def third : World Unit := edit ⟨some 2, none, some 1⟩ killed₂.world

/-- The first build ran the rule of Gen (5), the second one that of Prog (3), without an end; a third one runs that of Prog only, and succeeds. -/
example : startOf killed = [4, 6, 5] ∧ retOf killed = [] ∧ startOf killed₂ = [4, 6, 3] ∧ retOf killed₂ = [] ∧
    startOf (run third (rep [(2, 0), (4, 1), (11, 2), (8, 1), (8, 3), (11, 1), (3, 0)])) = [4, 6, 3] ∧
    retOf (run third (rep [(2, 0), (4, 1), (11, 2), (8, 1), (8, 3), (11, 1), (3, 0)])) = [true] := by decide +kernel

theorem killed_done : ∃ th key, (th, Ev.finish key 6 none) ∈ killed.log := by
  have h : ∃ e ∈ killed.log, (match e with | (_, Ev.finish _ 6 none) => true | _ => false) = true := by decide +kernel
  obtain ⟨⟨t, e⟩, h1, h2⟩ := h
  split at h2
  · rename_i c h3
    exact ⟨_, _, h3 ▸ h1⟩
  · cases h2

/-- `C97_not_again`: no schedule of the third build runs the rule of Gen. -/
example (ts : List Nat) : ¬ Ran 5 (run third ts).log := by
  obtain ⟨th, key, hfin⟩ := killed_done
  have hk : killed = buildRun exHex id own docEnd [4] (world ⟨none, none, some 1⟩ []) ctx ((rep [(2, 0), (4, 1), (8, 2), (8, 3), (11, 2)]).map .thread) := rfl
  have hk₂ : killed₂ = buildRun exHex id own docEnd [4] killed.world ctx ((rep [(2, 0), (4, 1), (11, 2), (8, 1), (3, 3)]).map .thread) := rfl
  have h3 : third.fs = (⟨some 2, none, some 1⟩ : Dir).fs := edit_fs _ _
  have h3d : third.db = killed₂.world.db := edit_db _ _
  have hx : isDir killed.world.fs ⟨some 2, none, some 1⟩ = true := by decide +kernel
  have hx₂ : isDir killed₂.world.fs ⟨some 2, some 3, some 1⟩ = true := by decide +kernel
  simp only [isDir, decide_eq_true_eq] at hx hx₂
  have hm : Meanwhile exHex id own docEnd J 0 6 killed.world killed₂.world := by
    rw [hk₂]
    generalize killed.world = u at *
    exact .build .start is6 (fair hx (noExt _)).loose usual (keep (noExt _))
  have hm : Meanwhile exHex id own docEnd J 0 6 killed.world third := by
    generalize killed₂.world = u at *
    generalize third = u' at *
    refine .edit hm is6 (fun h hh => by rw [h3d]; exact hh) fun hd => ?_
    rw [h3, hx₂] at hd
    rcases dependsOn hd with ⟨h, -⟩ | ⟨-, h | h⟩
    · cases h
    · rw [stat_gen, stat_gen] at h; exact h rfl
    · rw [stat_src, stat_src] at h; exact h rfl
  generalize third = u' at *
  rw [hk] at hm hfin
  exact C97_not_again (fair₁ (noExt _)).loose own_db rfl rfl (keep (noExt _)) is6 hfin hm (fair h3 (noExt _)).loose usual (keep (noExt _)) is6 .self

end ResumeDemo
end Fab.Yaml
