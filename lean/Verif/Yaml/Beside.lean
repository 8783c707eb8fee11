import Verif.Yaml.Resume
import Verif.Yaml.Rebuild

/-!
# C99: building one target leaves the others as they are

What has been built stays built while other targets are built: their rules do not touch it, and nothing of it is made again.  So targets may be built one by one, and then there is nothing left
to do for all of them together.
-/

namespace Fab.Yaml
open Path Cmd Files
open Runner (Proc TRef Env Ev State Reach Label TSt Job Thread StepC step_cases)

section
variable {ρ : Type} {hex : Bytes → Str} {sum : Str → Str} {own : Own ρ} {s : St} {J : Nat → Json.J} {us os os' : List Nat}

/-! ## Specification -/

variable (own s J us) in
/-- What is asked of the project, as in C78, as far as it is needed for the targets `us`, of which some are built now and others later: see `NearlyFair`. -/
structure FairProject : Prop where
  noRun : ∀ o ctx, NoRun (own.body o ctx)
  orderly : Orderly own s J us
  cmds : ∀ c ctx, MayRun s us c → ¬ Composite s c → (own.body c ctx).Acts (Changes s us c)

variable (s us) in
/-- Nobody outside fab changes the files of the project, or removes anything from database `d`, while the moves `ls` are made. -/
def NobodyElse (d : Nat) (ls : List (Label (World ρ))) : Prop :=
  ∀ f, .extern f ∈ ls → ∀ w, (∀ y t ins outs, FilesOf s us y t ins outs → ∀ i ∈ ins ++ outs, SameFile w.fs (f w).fs i) ∧ ∀ h ∈ w.db d, h ∈ (f w).db d

variable (hex sum own s) in
/-- All Files targets that are needed for `os` are up to date. -/
def AllUpToDate (d : Nat) (os : List Nat) (w : World ρ) : Prop := ∀ x t ins outs, FilesOf s os x t ins outs → UpToDate hex sum own s d t ins outs w

variable (hex sum own s us) in
/-- The targets `os`, which are among `us`, have been built one after the other, or some of them at the same time, with hash database `d`; the world was `w₀` before, and is `w` now.
* A build, without Force or DryRun; nobody else touches the files of the project.  If it returns nil then the targets that it was for have been built.
* Time passes: nobody changes the files of what has been built. -/
inductive OneByOne (d : Nat) (w₀ : World ρ) : List Nat → World ρ → Prop
  | start : OneByOne d w₀ [] w₀
  | built {os os' w ctx ls c} : OneByOne d w₀ os w → (∀ o ∈ os', o ∈ us) → Usual d ctx → NobodyElse s us d ls →
      (0, Ev.ret c none) ∈ (buildRun hex sum own s os' w ctx ls).log → OneByOne d w₀ (os ++ os') (buildRun hex sum own s os' w ctx ls).world
  | stopped {os os' w ctx ls} : OneByOne d w₀ os w → (∀ o ∈ os', o ∈ us) → Usual d ctx → NobodyElse s us d ls →
      OneByOne d w₀ os (buildRun hex sum own s os' w ctx ls).world
  | time {os w w'} : OneByOne d w₀ os w → (∀ h ∈ w.db d, h ∈ w'.db d) →
      (∀ x t ins outs, FilesOf s os x t ins outs → ∀ i ∈ ins ++ outs, w'.fs.stat i = w.fs.stat i) → OneByOne d w₀ os w'

/-! ## Proofs -/

theorem Wanted.among (hos : ∀ o ∈ os, o ∈ us) {o : Nat} (h : Wanted s os o) : Wanted s us o := by
  induction h with
  | arg h => exact .arg (hos _ h)
  | dep _ h1 h2 ih => exact .dep ih h1 h2

theorem MayRun.among (hos : ∀ o ∈ os, o ∈ us) {t : Nat} (h : MayRun s os t) : MayRun s us t := by
  induction h with
  | arg h h1 => exact .arg (hos _ h) h1
  | dep _ h1 h2 ih => exact .dep ih h1 h2

theorem FilesOf.among (hos : ∀ o ∈ os, o ∈ us) {x t : Nat} {ins outs : List Str} (h : FilesOf s os x t ins outs) : FilesOf s us x t ins outs := by
  obtain ⟨⟨o, h1, h2⟩, h3⟩ := h
  exact ⟨⟨o, h1.among hos, h2⟩, h3⟩

theorem Wanted.split {o : Nat} (h : Wanted s (os ++ os') o) : Wanted s os o ∨ Wanted s os' o := by
  induction h with
  | arg h => exact (List.mem_append.1 h).imp .arg .arg
  | dep _ h1 h2 ih => exact ih.imp (.dep · h1 h2) (.dep · h1 h2)

theorem FilesOf.split {x t : Nat} {ins outs : List Str} (h : FilesOf s (os ++ os') x t ins outs) : FilesOf s os x t ins outs ∨ FilesOf s os' x t ins outs := by
  obtain ⟨⟨o, h1, h2⟩, h3⟩ := h
  exact h1.split.imp (fun h => ⟨⟨o, h, h2⟩, h3⟩) (fun h => ⟨⟨o, h, h2⟩, h3⟩)

theorem Orderly.among (h : Orderly own s J us) (hos : ∀ o ∈ os, o ∈ us) : Orderly own s J os where
  parts := fun _ _ _ _ _ hx hc => h.parts _ _ _ _ _ (hx.among hos) hc
  apart := fun _ _ _ _ _ _ _ _ _ hx hx' h1 h2 => h.apart _ _ _ _ _ _ _ _ _ (hx.among hos) (hx'.among hos) h1 h2
  priv := fun _ _ _ _ _ _ hx hc ho => h.priv _ _ _ _ _ _ (hx.among hos) hc (ho.among hos)
  desc := fun _ _ _ _ hx => h.desc _ _ _ _ (hx.among hos)
  once := fun _ _ _ _ _ _ hx ho ho' => h.once _ _ _ _ _ _ (hx.among hos) (ho.among hos) (ho'.among hos)

theorem FairProject.cmds_among (hp : FairProject own s J us) (hos : ∀ o ∈ os, o ∈ us) (c : Nat) (ctx : Ctx) (hm : MayRun s os c) (hc : ¬ Composite s c) :
    (own.body c ctx).Acts (Changes s os c) := by
  have h := hp.cmds c ctx (hm.among hos) hc
  generalize own.body c ctx = p at h
  have hch : ∀ w w' : World ρ, Changes s us c w w' → Changes s os c w w' := by
    rintro w w' ⟨h1, h2⟩
    refine ⟨h1, fun y t ins outs hy i hi => ?_⟩
    rcases h2 y t ins outs (hy.among hos) i hi with h3 | ⟨z, t', ins', outs', h3, h4, h5⟩
    · exact .inl h3
    · refine .inr ⟨z, t', ins', outs', ?_, h4, h5⟩
      rcases h5 with rfl | ⟨h5, h6⟩
      · have := hy.2
        rw [h3.2] at this; cases this
        exact hy
      · exact hy.maker h5 h6 h3
  induction p with
  | ret _ => trivial
  | act f k ih => exact ⟨fun w => hch _ _ (h.1 w), fun w => ih w (h.2 w)⟩
  | call _ _ k ih => exact fun e => ih e (h e)

theorem FairProject.build (hp : FairProject own s J us) (hos : ∀ o ∈ os, o ∈ us) {d : Nat} {w : World ρ} {ctx : Ctx} {ls : List (Label (World ρ))}
    (hn : NobodyElse s us d ls) : LooseBuild hex sum own s J os (fun _ => True) w ctx ls where
  noRun := hp.noRun
  orderly := hp.orderly.among hos
  cmds := hp.cmds_among hos
  outside := fun f hf w y t ins outs hy => (hn f hf w).1 y t ins outs (hy.among hos)
  sits := fun _ _ _ _ _ _ _ _ => trivial

theorem NobodyElse.keeps {d : Nat} {ls : List (Label (World ρ))} (h : NobodyElse s us d ls) : ∀ f, .extern f ∈ ls → ∀ w, ∀ h ∈ w.db d, h ∈ (f w).db d :=
  fun f hf w => (h f hf w).2

theorem AllUpToDate.not_behind {d : Nat} {w : World ρ} (h : AllUpToDate hex sum own s d os w) {x : Nat} : ¬ Behind hex sum own s d os w x := by
  intro hb
  induction hb with
  | stale hx hn => exact hn (h _ _ _ _ hx)
  | input _ _ _ _ ih => exact ih

theorem db_kept {w : World ρ} {ctx : Ctx} {ls : List (Label (World ρ))} {T : Sit → Prop} {d : Nat}
    (hf : LooseBuild hex sum own s J os T w ctx ls) (hkeep : ∀ f, .extern f ∈ ls → ∀ w, ∀ h ∈ w.db d, h ∈ (f w).db d) : ∀ ls₁ ls₂, ls = ls₁ ++ ls₂ →
    ∀ h ∈ w.db d, h ∈ (buildRun hex sum own s os w ctx ls₁).world.db d := by
  intro ls₁
  induction ls₁ using List.reverseRecOn with
  | nil => exact fun _ _ _ h => h
  | append_singleton ls₁ l ih =>
    intro ls₂ hls h hh
    have hls' : ls = ls₁ ++ l :: ls₂ := by rw [hls]; simp
    exact (move_mono hf hkeep hls').2.1 h (ih _ hls' h hh)

/-- What has been run in the first moves has been run. -/
theorem ran_later {w : World ρ} {ctx : Ctx} {ls₁ ls₂ : List (Label (World ρ))} {p : Nat} (h : Ran p (buildRun hex sum own s os w ctx ls₁).log) :
    Ran p (buildRun hex sum own s os w ctx (ls₁ ++ ls₂)).log := by
  obtain ⟨-, l, hl⟩ := later (hex := hex) (sum := sum) (own := own) (s := s) (os := os) (w := w) (ctx := ctx) (ls₁ := ls₁) ls₂
  exact h.mono fun e he => by rw [hl]; exact List.mem_append_left _ he

/-- The files of a Files target of the project, whether the build is for it or not, are the same at the end if neither its rule nor those of the makers of its inputs have been run. -/
theorem files_rest (hp : FairProject own s J us) (hos' : ∀ o ∈ os', o ∈ us) {d : Nat} {w : World ρ} {ctx : Ctx} {ls : List (Label (World ρ))}
    (hn : NobodyElse s us d ls) {y t : Nat} {ins outs : List Str} (hy : FilesOf s us y t ins outs)
    (hnot : ∀ z t' ins' outs', FilesOf s us z t' ins' outs' → (z = y ∨ ∃ i ∈ ins, findInFilesRegistry s.filesReg i = some z) →
      ∀ p, Part s t' p → ¬ Ran p (buildRun hex sum own s os' w ctx ls).log) :
    ∀ ls₁ ls₂, ls = ls₁ ++ ls₂ → Agree (ins ++ outs) w.fs (buildRun hex sum own s os' w ctx ls₁).world.fs := by
  intro ls₁
  induction ls₁ using List.reverseRecOn with
  | nil => exact fun _ _ => .refl _ _
  | append_singleton ls₁ l ih =>
    intro ls₂ hls
    have hls' : ls = ls₁ ++ l :: ls₂ := by rw [hls]; simp
    refine (ih _ hls').trans fun i hi => ?_
    have hf : LooseBuild hex sum own s J os' (fun _ => True) w ctx ls := hp.build hos' hn
    have hr := buildRun_reach (hex := hex) (sum := sum) (own := own) (s := s) (os := os') (w := w) (ctx := ctx) (ls := ls₁)
    have hnot' : ∀ z t' ins' outs', FilesOf s us z t' ins' outs' → (z = y ∨ ∃ i ∈ ins, findInFilesRegistry s.filesReg i = some z) →
        ∀ p, Part s t' p → ¬ Ran p (buildRun hex sum own s os' w ctx ls₁).log :=
      fun z t' ins' outs' h1 h2 p h3 h4 => hnot z t' ins' outs' h1 h2 p h3 (by rw [hls']; exact ran_later h4)
    rw [buildRun_snoc]
    generalize buildRun hex sum own s os' w ctx ls₁ = st at *
    cases l with
    | extern f => exact (hn f (by rw [hls']; simp) st.world).1 y t ins outs hy i hi
    | thread tid =>
      cases hs : Runner.lstep (buildEnv hex sum own s) st (.thread tid) with
      | none => exact ⟨rfl, fun _ _ => Iff.rfl⟩
      | some st' =>
        rw [Option.getD_some]
        obtain ⟨⟨jb, ts⟩, hth, hc⟩ := step_cases hs
        rcases step_fs hc with ⟨f, k, hts, hw, -, -⟩ | ⟨-, hfs, hdb⟩
        · dsimp only at hts; subst hts
          rw [hw]
          obtain ⟨p, ho, hpos⟩ := hr.localInv.pos _ _ _ hth
          cases jb with
          | none =>
            exfalso
            have hlt := (List.getElem?_eq_some_iff.1 (show [Proc.call ctx (os'.map TRef.ptr) .ret][tid]? = some p from ho)).1
            simp only [List.length_singleton] at hlt
            obtain rfl : tid = 0 := by omega
            have ho : some (Proc.call ctx (os'.map TRef.ptr) .ret) = some p := ho
            cases ho
            exact client_still hpos _ _ rfl
          | some j =>
            cases ho
            have hstart := hr.inv.b.started _ _ _ hth rfl
            have hmay : MayRun s us j.tgt := ((C76_build hf.noRun hr).1 _ _ _ _ _ _ hstart).among hos'
            by_cases hfl : ∃ t ins outs, s.heap[j.tgt]? = some (.files t ins outs)
            · obtain ⟨t', ins', outs', hfl⟩ := hfl
              have hk : ((buildEnv hex sum own s).body j.tgt j.ctx).Keeps fun w => w.fs = st.world.fs := by
                simp only [buildEnv, hfl]
                exact withReg_keeps (files_keeps_fs (P := fun fs => fs = st.world.fs))
              have := (Runner.Runs.keeps hk hpos).1 st.world rfl
              rw [this]
              exact ⟨rfl, fun _ _ => Iff.rfl⟩
            · have hch := act_changes (fun h ctx => hp.cmds j.tgt ctx hmay h) (fun t ins outs h => hfl ⟨t, ins, outs, h⟩) hpos st.world
              rcases hch.2 y t ins outs hy i hi with h | ⟨z, t', ins', outs', h1, h2, h3⟩
              · exact h
              · exact absurd ⟨_, _, _, _, _, hstart⟩ (hnot' z t' ins' outs' h1 (h3.imp id fun h => ⟨i, h⟩) _ h2)
        · rw [hfs]; exact ⟨rfl, fun _ _ => Iff.rfl⟩

/-! ## Theorems -/

/-- What a successful build was for is up to date. -/
theorem C99_success (hp : FairProject own s J us) (hos : ∀ o ∈ os, o ∈ us) {d : Nat} (hkept : ∀ hsh o ctx, (own.body o ctx).Keeps fun w => hsh ∈ w.db d)
    {w : World ρ} {ctx : Ctx} {ls : List (Label (World ρ))} (hd : getHashDB ctx = some d) (hdry : getDryRun ctx = false) (hn : NobodyElse s us d ls)
    {c : Nat} (hret : (0, Ev.ret c none) ∈ (buildRun hex sum own s os w ctx ls).log) :
    AllUpToDate hex sum own s d os (buildRun hex sum own s os w ctx ls).world := by
  intro x t ins outs hx
  by_contra hno
  have hf : LooseBuild hex sum own s J os (fun _ => True) w ctx ls := hp.build hos hn
  have hdep := behind_edited hf hkept hd hdry hn.keeps hret (fun _ h => h) (.stale hx hno)
  clear hno hx
  induction hdep with
  | file _ _ h => exact h rfl
  | input _ _ _ _ ih => exact ih

/-- **C99.** What is needed for `os` is up to date.  Now other targets `os'` are built, without Force or DryRun, in any order of the goroutines; the build may need some of the same
targets; it may succeed, fail, or stop anywhere.  Then it runs no rule, nor any part of a rule, of what is needed for `os`; the inputs and outputs of these targets stay the same, and they stay
up to date. -/
theorem C99_beside (hp : FairProject own s J us) (hos : ∀ o ∈ os, o ∈ us) (hos' : ∀ o ∈ os', o ∈ us) {d : Nat} {w : World ρ}
    (hup : AllUpToDate hex sum own s d os w) {ctx : Ctx} {ls : List (Label (World ρ))} (hc : Usual d ctx) (hn : NobodyElse s us d ls) :
    (∀ x t ins outs, FilesOf s os x t ins outs → (∀ p, Part s t p → ¬ Ran p (buildRun hex sum own s os' w ctx ls).log) ∧
      ∀ i ∈ ins ++ outs, SameFile w.fs (buildRun hex sum own s os' w ctx ls).world.fs i) ∧
    AllUpToDate hex sum own s d os (buildRun hex sum own s os' w ctx ls).world := by
  have hf : LooseBuild hex sum own s J os' (fun _ => True) w ctx ls := hp.build hos' hn
  have hr := buildRun_reach (hex := hex) (sum := sum) (own := own) (s := s) (os := os') (w := w) (ctx := ctx) (ls := ls)
  have hnot : ∀ x t ins outs, FilesOf s os x t ins outs → ∀ p, Part s t p → ¬ Ran p (buildRun hex sum own s os' w ctx ls).log := by
    intro x t ins outs hx p hpart hran
    obtain ⟨th, c, i, key, ctx', hst⟩ := id hran
    obtain ⟨j, ts, h1, -, -, -, h5, -⟩ := hr.inv.f.startJob _ _ _ _ _ _ hst
    subst h5
    have hx' : FilesOf s os' x t ins outs := by
      rcases kind hp.noRun hf.orderly hr th h1 with ⟨k1, k2⟩ | ⟨z, t', ins', outs', k1, k2, -⟩
      · exact absurd k2 (hp.orderly.priv _ _ _ _ _ _ (hx.among hos) hpart (k1.among hos'))
      · cases hp.orderly.apart _ _ _ _ _ _ _ _ _ (hx.among hos) (k1.among hos') hpart k2
        have := hx.2
        rw [k1.2] at this; cases this
        exact k1
    exact hup.not_behind ((C93_parts hf hc hn.keeps hx' hpart hran).other hx)
  have hsame : ∀ x t ins outs, FilesOf s os x t ins outs → ∀ i ∈ ins ++ outs, SameFile w.fs (buildRun hex sum own s os' w ctx ls).world.fs i := by
    intro x t ins outs hx
    refine files_rest hp hos' hn (hx.among hos) (fun z t' ins' outs' hz hor p hpart => ?_) ls [] (by simp)
    have hz' : FilesOf s os z t' ins' outs' := by
      rcases hor with rfl | ⟨i, hi, hz'⟩
      · have := hx.2
        rw [hz.2] at this; cases this
        exact hx
      · exact hx.maker hi hz' hz
    exact hnot z t' ins' outs' hz' p hpart
  refine ⟨fun x t ins outs hx => ⟨hnot x t ins outs hx, hsame x t ins outs hx⟩, fun x t ins outs hx => ?_⟩
  exact (hup x t ins outs hx).steady (hp.orderly.desc _ _ _ _ (hx.among hos)) ⟨fun i hi => (hsame x t ins outs hx i hi).1, db_kept hf hn.keeps ls [] (by simp)⟩

/-- **C99, correctness.** ... and what was right stays right. -/
theorem C99_right (hp : FairProject own s J us) (hos : ∀ o ∈ os, o ∈ us) (hos' : ∀ o ∈ os', o ∈ us) {d : Nat} {w : World ρ} {R : Meaning}
    (hup : AllUpToDate hex sum own s d os w) {ctx : Ctx} {ls : List (Label (World ρ))} (hc : Usual d ctx) (hn : NobodyElse s us d ls)
    {x t : Nat} {ins outs : List Str} (hx : FilesOf s os x t ins outs) (hr : (sitOf own J t ins outs w.fs).right R) :
    (sitOf own J t ins outs (buildRun hex sum own s os' w ctx ls).world.fs).right R :=
  (right_congr ((C99_beside hp hos hos' hup hc hn).1 x t ins outs hx).2).1 hr

/-- **C99, one by one.** The targets `os` have been built one after the other, or some of them at the same time, in any order, and meanwhile builds of other targets may have failed or stopped
anywhere.  Then everything that is needed for `os` is up to date, and a build of all of them, or of some of them, without Force or DryRun, runs no rule nor any part of a rule. -/
theorem C99_one_by_one (hp : FairProject own s J us) {d : Nat} (hkept : ∀ hsh o ctx, (own.body o ctx).Keeps fun w => hsh ∈ w.db d) {w₀ w : World ρ}
    (h : OneByOne hex sum own s us d w₀ os w) :
    AllUpToDate hex sum own s d os w ∧
    ∀ os' ctx ls, (∀ o ∈ os', o ∈ os) → Usual d ctx → NobodyElse s us d ls → ∀ x t ins outs, FilesOf s os' x t ins outs → ∀ p, Part s t p →
      ¬ Ran p (buildRun hex sum own s os' w ctx ls).log := by
  have key : (∀ o ∈ os, o ∈ us) ∧ AllUpToDate hex sum own s d os w := by
    induction h with
    | start =>
      refine ⟨fun _ h => (nomatch h), fun x t ins outs hx => ?_⟩
      exfalso
      obtain ⟨⟨o, ho, -⟩, -⟩ := hx
      have : ∀ {o}, ¬ Wanted s [] o := by
        intro o h
        induction h with
        | arg h => cases h
        | dep _ _ _ ih => exact ih
      exact this ho
    | built _ h1 h2 h3 h4 ih =>
      obtain ⟨ih1, ih2⟩ := ih
      refine ⟨fun o ho => (List.mem_append.1 ho).elim (ih1 o) (h1 o), fun x t ins outs hx => ?_⟩
      rcases hx.split with hx | hx
      · exact (C99_beside hp ih1 h1 ih2 h2 h3).2 x t ins outs hx
      · exact C99_success hp h1 hkept h2.1 h2.2.2 h3 h4 x t ins outs hx
    | stopped _ h1 h2 h3 ih => exact ⟨ih.1, (C99_beside hp ih.1 h1 ih.2 h2 h3).2⟩
    | time _ h1 h2 ih =>
      exact ⟨ih.1, fun x t ins outs hx => (ih.2 x t ins outs hx).steady (hp.orderly.desc _ _ _ _ (hx.among ih.1)) ⟨h2 x t ins outs hx, h1⟩⟩
  refine ⟨key.2, fun os' ctx ls hos' hc hn x t ins outs hx p hpart hran => ?_⟩
  have := C93_parts (hp.build (fun o ho => key.1 o (hos' o ho)) hn) hc hn.keeps hx hpart hran
  exact key.2.not_behind (this.other (hx.among hos'))

end

/-! ## A concrete case -/

namespace BesideDemo
open BuildDemo (docEnd)
open AgainDemo (src gen prog heap4 heap6 startOf retOf rep ctx)
open CleanDemo EditedDemo

theorem wanted6 : Wanted docEnd [4] 6 := by
  obtain ⟨⟨o, ho, hs⟩, -⟩ := is6
  rcases hs with ⟨n, h1, h2⟩ | ⟨-, rfl⟩
  · obtain ⟨rfl, -⟩ := AgainDemo.stands ho (.inl ⟨n, h1, h2⟩)
    exact ho
  · exact ho

theorem wanted_all {o : Nat} (h : Wanted docEnd [6, 4] o) : Wanted docEnd [4] o := by
  induction h with
  | arg h =>
    simp only [List.mem_cons, List.not_mem_nil, or_false] at h
    rcases h with rfl | rfl
    · exact wanted6
    · exact .arg (by simp)
  | dep _ h1 h2 ih => exact .dep ih h1 h2

theorem filesOf_all {x t ins outs} (h : FilesOf docEnd [6, 4] x t ins outs) : FilesOf docEnd [4] x t ins outs := by
  obtain ⟨⟨o, h1, h2⟩, h3⟩ := h
  exact ⟨⟨o, wanted_all h1, h2⟩, h3⟩

theorem filesOf_more {x t ins outs} (h : FilesOf docEnd [4] x t ins outs) : FilesOf docEnd [6, 4] x t ins outs := h.among fun o ho => by simp at ho ⊢; exact .inr ho

theorem mayRun_all {o : Nat} (h : MayRun docEnd [6, 4] o) : MayRun docEnd [4] o := by
  induction h with
  | arg h h1 =>
    simp only [List.mem_cons, List.not_mem_nil, or_false] at h
    rcases h with rfl | rfl
    · exact wanted6.mayRun h1
    · exact .arg (by simp) h1
  | dep _ h1 h2 ih => exact .dep ih h1 h2

theorem project : FairProject own docEnd J [6, 4] := by
  have hf := fair (w := world ⟨none, none, none⟩ []) (x := ⟨none, none, none⟩) rfl (ctx := ctx) (noExt [])
  refine ⟨hf.noRun, ⟨⟨fun _ _ _ _ _ hx hc => orderly.parts _ _ _ _ _ (filesOf_all hx) hc,
    fun _ _ _ _ _ _ _ _ _ hx hx' h h' => orderly.apart _ _ _ _ _ _ _ _ _ (filesOf_all hx) (filesOf_all hx') h h',
    fun _ _ _ _ _ _ hx hc ho => orderly.priv _ _ _ _ _ _ (filesOf_all hx) hc (wanted_all ho),
    fun _ _ _ _ hx => orderly.desc _ _ _ _ (filesOf_all hx)⟩,
    fun _ _ _ _ _ _ hx ho ho' => orderly.once _ _ _ _ _ _ (filesOf_all hx) (wanted_all ho) (wanted_all ho')⟩, fun c ctx hm hc => ?_⟩
  have h := hf.cmds c ctx (mayRun_all hm) hc
  generalize own.body c ctx = p at h
  have hch : ∀ w w' : World Unit, Changes docEnd [4] c w w' → Changes docEnd [6, 4] c w w' := by
    rintro w w' ⟨h1, h2⟩
    refine ⟨h1, fun y t ins outs hy i hi => (h2 y t ins outs (filesOf_all hy) i hi).imp id ?_⟩
    rintro ⟨z, t', ins', outs', h3, h4⟩
    exact ⟨z, t', ins', outs', filesOf_more h3, h4⟩
  induction p with
  | ret _ => trivial
  | act f k ih => exact ⟨fun w => hch _ _ (h.1 w), fun w => ih w (h.2 w)⟩
  | call _ _ k ih => exact fun e => ih e (h e)

/-- `fab Gen`, and then `fab Prog` -/
def genFirst : State (World Unit) Ctx := buildRun exHex id own docEnd [6] (world ⟨none, none, some 1⟩ []) ctx ((rep [(2, 0), (8, 1), (8, 2), (11, 1), (3, 0)]).map .thread)
def progThen : State (World Unit) Ctx := run genFirst.world (rep [(2, 0), (4, 1), (11, 2), (8, 1), (8, 3), (11, 1), (3, 0)])

/-- What happens: the second build runs the rule of Prog only. -/
theorem C99_example : startOf genFirst = [6, 5] ∧ retOf genFirst = [true] ∧ isDir genFirst.world.fs ⟨some 2, none, some 1⟩ = true ∧
    startOf progThen = [4, 6, 3] ∧ retOf progThen = [true] ∧ isDir progThen.world.fs ⟨some 2, some 3, some 1⟩ = true := by decide +kernel

theorem alone {ts : List Nat} : NobodyElse docEnd [6, 4] 0 (ts.map .thread : List (Label (World Unit))) := fun f hf => absurd hf (noExt ts f)

/-- `C99_beside`: whatever the goroutines do after `fab Gen`, `fab Prog` does not run the rule of Gen ... -/
example (ts : List Nat) : ¬ Ran 5 (run genFirst.world ts).log := by
  obtain ⟨c, hret⟩ := AgainDemo.ends (st := genFirst) C99_example.2.1
  have h6 : FilesOf docEnd [6] 6 5 [src] [gen] := ⟨⟨6, .arg (by simp), .inr ⟨by rw [heap6]; simp, rfl⟩⟩, heap6⟩
  have hup : AllUpToDate exHex id own docEnd 0 [6] genFirst.world := by
    unfold genFirst at hret ⊢
    exact C99_success project (by simp) own_db rfl rfl alone hret
  generalize genFirst.world = u at *
  exact ((C99_beside (us := [6, 4]) project (by simp) (os' := [4]) (by simp) hup usual alone).1 6 5 [src] [gen] h6).1 5 .self

/-- ... and `C99_one_by_one`: after both, whatever they do, `fab Gen Prog` runs no rule. -/
example (ts : List Nat) : ¬ Ran 5 (buildRun exHex id own docEnd [6, 4] progThen.world ctx (ts.map .thread)).log ∧
    ¬ Ran 3 (buildRun exHex id own docEnd [6, 4] progThen.world ctx (ts.map .thread)).log := by
  obtain ⟨c, hret⟩ := AgainDemo.ends (st := genFirst) C99_example.2.1
  obtain ⟨c', hret'⟩ := AgainDemo.ends (st := progThen) C99_example.2.2.2.2.1
  have h1 : OneByOne exHex id own docEnd [6, 4] 0 (world ⟨none, none, some 1⟩ []) [6] genFirst.world := by
    unfold genFirst at hret ⊢
    exact .built .start (by simp) usual alone hret
  have h2 : OneByOne exHex id own docEnd [6, 4] 0 (world ⟨none, none, some 1⟩ []) [6, 4] progThen.world := by
    unfold progThen CleanDemo.run at hret' ⊢
    generalize genFirst.world = u at *
    exact .built h1 (by simp) usual alone hret'
  generalize progThen.world = u at *
  have := (C99_one_by_one project own_db h2).2 [6, 4] ctx (ts.map .thread) (fun _ h => h) usual alone
  exact ⟨this _ _ _ _ (filesOf_more is6) _ .self, this _ _ _ _ (filesOf_more is4) _ .self⟩

end BesideDemo
end Fab.Yaml
