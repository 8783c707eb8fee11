import Verif.Yaml.Right

/-!
# C78: builds after builds, and builds from scratch

Consequences of `C78_correct`: any number of builds, edits and crashes in a row; incremental builds give what a build from scratch gives.
-/

namespace Fab.Yaml
open Path Cmd Files
open Runner (Proc TRef Env Ev State Reach Label TSt Job Thread allBody seqBody argBody nameBody hist)

variable {ρ : Type} {hex : Bytes → Str} {sum : Str → Str} {own : Own ρ} {s : St} {J : Nat → Json.J} {os : List Nat} {R : Meaning} {T : Sit → Prop}

/-! ## Hashes -/

/-- **C78, hashes.** `NoCollision` holds if no two file contents, and no two texts that are hashed, have the same hash (`hex` is the hexadecimal hash of the
contents of a file, files.go:309-322; `sum` that of the text, files.go:188-194; a hexadecimal hash is not empty). -/
theorem C78_no_collision (hhex : ∀ d, hex d ≠ []) (hwf : ∀ a, T a → a.fs.root.WF)
    (hfile : ∀ a b, T a → T b → NoFileCollision hex a.fs a.ins b.fs b.ins ∧ NoFileCollision hex a.fs a.outs b.fs b.outs)
    (htext : ∀ a b, T a → T b → ∀ li lo li' lo', fileHashes hex a.fs a.ins = .ok li → fileHashes hex a.fs a.outs = .ok lo →
      fileHashes hex b.fs b.ins = .ok li' → fileHashes hex b.fs b.outs = .ok lo' →
      sum (hashText a.rule a.typ li lo) = sum (hashText b.rule b.typ li' lo') → hashText a.rule a.typ li lo = hashText b.rule b.typ li' lo') :
    NoCollision hex sum T := by
  rintro a b h ha hb ⟨li, lo, h1, h2, h3⟩ ⟨li', lo', h1', h2', h3'⟩
  obtain ⟨g1, g2, g3, g4⟩ := C23_hash_determines_files hex sum (hwf a ha) (hwf b hb) hhex h1 h2 h1' h2' (hfile a b ha hb).1 (hfile a b ha hb).2
    (htext a b ha hb _ _ _ _ h1 h2 h1' h2') (h3.symm.trans h3')
  exact ⟨g3, g4, g1, g2⟩

/-! ## Builds, edits and crashes in a row -/

/-- A world after any number of builds, of the same project or of others.  A build need not end: `ls` may stop anywhere (fab is killed, or the machine
crashes).  Between builds anything may happen to the files; entries may vanish from the databases (they expire, or a database is deleted), but nobody
else adds entries to them. -/
inductive History (hex : Bytes → Str) (sum : Str → Str) (R : Meaning) (T : Sit → Prop) : World ρ → Prop
  | new {w} : (∀ d, w.db d = []) → History hex sum R T w
  | edit {w w'} : History hex sum R T w → (∀ d, ∀ h ∈ w'.db d, h ∈ w.db d) → History hex sum R T w'
  | build {w own s J os ctx ls} : History hex sum R T w → FairBuild hex sum own s J os T w ctx ls → RulesWork hex sum own s J os R w ctx ls →
      History hex sum R T (buildRun hex sum own s os w ctx ls).world

/-- The databases are honest then. -/
theorem History.honest (hno : NoCollision hex sum T) {w : World ρ} (hw : History hex sum R T w) (d : Nat) : HonestDB hex sum R T (w.db d) := by
  induction hw generalizing d with
  | new h => intro h' hm; rw [h d] at hm; cases hm
  | edit _ h ih => exact fun h' hm => ih d h' (h d h' hm)
  | build _ hf hrule ih => exact (C78_correct hno hf hrule ih rfl).1 d

/-- **C78, histories.** Whatever was built before, and whatever happened to the files since: if a build returns nil then the outputs of all Files targets
that it needs are what they are meant to be. -/
theorem C78_history (hno : NoCollision hex sum T) {w : World ρ} (hw : History hex sum R T w) {ctx : Ctx} {ls : List (Label (World ρ))}
    (hf : FairBuild hex sum own s J os T w ctx ls) (hrule : RulesWork hex sum own s J os R w ctx ls) {c : Nat}
    (hret : (0, Ev.ret c none) ∈ (buildRun hex sum own s os w ctx ls).log) :
    ∀ x t ins outs, FilesOf s os x t ins outs → (sitOf own J t ins outs (buildRun hex sum own s os w ctx ls).world.fs).right R := by
  exact (C78_correct hno hf hrule (hw.honest hno) rfl).2 c hret

/-! ## Builds from scratch -/

/-- `i` is a directory. -/
def IsDir (fs : FS) (i : Str) : Prop := ∃ pos r sub, fs.stat i = .found pos (.dir r sub)

theorem normC_append {r : Bool} {cs rel : List Str} (h : ∀ c ∈ rel, Name c) : normC r (cs ++ rel) = normC r cs ++ rel := by
  unfold normC
  rw [List.foldl_append]
  generalize cs.foldl (push r) [] = st
  induction rel generalizing st with
  | nil => simp
  | cons c rel ih =>
    rw [List.foldl_cons, ih (fun c hc => h c (by simp [hc]))]
    have : c ≠ dotdot := (h c (by simp)).2
    unfold push
    rw [if_neg this]
    simp

/-- What the joined name leads to is below the directory. -/
theorem lookup_of_join {fs : FS} {item : Str} {pos pos' : List Str} {r : Bool} {sub : Forest} {rel : List Str} {it : Fab.Item}
    (hs : fs.stat item = .found pos (.dir r sub)) (hrel : ∀ c ∈ rel, Name c) (hk : fs.stat (join (item :: rel)) = .found pos' it) :
    lookupFS (.dir r sub) rel = some it := by
  unfold FS.stat at hs
  split at hs
  · simp at hs
  rename_i hne
  have hat := walk_found_at hs
  unfold FS.stat at hk
  have hel := normC_elem (r := isAbs item) (elems_append (a := item) (es := rel))
  rw [if_neg (join_ne_nil hne rel), join_eq hne, isAbs_render _ hel, comps_render _ hel, flatMap_comps (fun c hc => (hrel c hc).1),
    normC_append hrel, walk_append] at hk
  have := walk_clean fs (isAbs item) (if isAbs item then [] else fs.cwd) (fun h => by rw [if_pos h]) (comps item) [] (by simpa using hs)
  rw [show normC (isAbs item) (comps item) = ((comps item).foldl (push (isAbs item)) []).reverse from rfl, this] at hk
  dsimp only at hk
  have h2 := ((fs.walk_plain pos rel (names_plain hrel)).1 _ _ hk).2
  rw [FS.at, lookupFS_append, ← FS.at, hat] at h2
  exact h2

theorem shows_mem {fs fs' : FS} {outs : List Str} {i : Str} (hw : fs.root.WF) (hi : i ∈ outs) (hkind : IsDir fs i ↔ IsDir fs' i)
    (h : ∀ k c, Shows fs outs k c → Shows fs' outs k c) (k : Str) (c : Option Bytes) (hk : Shows fs [i] k c) : Shows fs' [i] k c := by
  obtain ⟨⟨i', hm, hc⟩, hcont⟩ := hk
  simp only [List.mem_singleton] at hm; subst hm
  have h2 := (h k c ⟨⟨i', hi, hc⟩, hcont⟩).2
  refine ⟨⟨i', by simp, ?_⟩, h2⟩
  by_cases hd : IsDir fs i'
  · obtain ⟨pos, r, sub, hs⟩ := hd
    obtain ⟨pos', r', sub', hs'⟩ := hkind.1 ⟨pos, r, sub, hs⟩
    simp only [Covers, hs] at hc
    obtain ⟨rel, r'', d, hl, rfl⟩ := hc
    obtain ⟨hj, hn⟩ := stat_join hw hs hl
    rcases h2 with ⟨h3, h3'⟩ | ⟨p, d', h3, -⟩
    · rcases hcont with ⟨h4, -⟩ | ⟨_, _, _, h5⟩
      · rw [hj] at h4; cases h4
      · rw [h3'] at h5; cases h5
    · simp only [Covers, hs']
      exact ⟨rel, _, _, lookup_of_join hs' hn h3, rfl⟩
  · have e1 : k = i' := by
      unfold Covers at hc
      split at hc
      · exact absurd ⟨_, _, _, ‹_›⟩ hd
      · exact hc
    have hd' := fun h => hd (hkind.2 h)
    unfold Covers
    split
    · exact absurd ⟨_, _, _, ‹_›⟩ hd'
    · exact e1

theorem needs_wf (s : St) : WellFounded fun a b => Needs s b a ∧ ¬ Circular s b := by
  have hlt : ∀ {x y}, Needs s x y → x < s.heap.length := fun h => (Uses.needs h).isObj
  let q : Nat → Nat → Prop := fun a b => Needs s b a ∧ ¬ Circular s b
  let r : Fin s.heap.length → Fin s.heap.length → Prop := fun i j => Relation.TransGen q i.val j.val
  have : IsTrans _ r := ⟨fun a b c h1 h2 => Relation.TransGen.trans h1 h2⟩
  have hn : ∀ a b, Relation.TransGen q a b → Relation.TransGen (Needs s) b a ∧ ¬ Circular s b := by
    intro a b h
    induction h with
    | single h => exact ⟨.single h.1, h.2⟩
    | tail _ h ih => exact ⟨.head h.1 ih.1, h.2⟩
  have : Std.Irrefl r := ⟨fun a h => (hn _ _ h).2 ⟨a.val, .refl, (hn _ _ h).1⟩⟩
  have wf : WellFounded r := Finite.wellFounded_of_trans_of_irrefl r
  have h1 : ∀ i : Fin s.heap.length, Acc q i.val := by
    intro i
    induction i using wf.induction with
    | _ i ih =>
      refine ⟨_, fun a ha => ?_⟩
      by_cases hl : a < s.heap.length
      · exact ih ⟨a, hl⟩ (.single ha)
      · exact ⟨_, fun b hb => absurd (hlt hb.1) hl⟩
  refine ⟨fun o => ⟨_, fun a ha => ?_⟩⟩
  by_cases hl : a < s.heap.length
  · exact h1 ⟨a, hl⟩
  · exact ⟨_, fun b hb => absurd (hlt hb.1) hl⟩

theorem Loaded.filesReg {L : Lib} (h : Loaded L s) : FilesRegOk s := by
  induction h with
  | empty => exact C67_files_empty
  | file _ h ih => exact C67_files L _ _ _ _ ih h

theorem producer_value {reg : GoMap Str Nat} {i : Str} {z : Nat} (h : Producer reg i z) : ∃ q, reg.get q = some z := by
  induction h with
  | self h => exact ⟨_, h⟩
  | up _ _ _ _ _ _ ih => exact ih

/-- In a project that was read from YAML files, what makes an input is a Files target. -/
theorem maker_files {L : Lib} (hl : Loaded L s) {i : Str} {z : Nat} (h : findInFilesRegistry s.filesReg i = some z) :
    ∃ t ins outs, s.heap[z]? = some (.files t ins outs) := by
  obtain ⟨q, hq⟩ := producer_value ((find_iff _ _ _).1 h)
  obtain ⟨⟨t, ins, outs, h1, -⟩, -⟩ := (hl.filesReg q z).1 hq
  exact ⟨t, ins, outs, h1⟩

/-- The outcome of a build of the targets `os`, after some history, that returned nil. -/
structure Built (hex : Bytes → Str) (sum : Str → Str) (own : Own ρ) (s : St) (J : Nat → Json.J) (os : List Nat) (R : Meaning) (T : Sit → Prop)
    (st : State (World ρ) Ctx) : Prop where
  run : ∃ w ctx ls, st = buildRun hex sum own s os w ctx ls ∧ History hex sum R T w ∧ FairBuild hex sum own s J os T w ctx ls ∧
    RulesWork hex sum own s J os R w ctx ls
  nil : ∃ c, (0, Ev.ret c none) ∈ st.log

/-- `C78_same_as_clean`, if those who are registered as makers of files are Files targets -/
theorem same_as_clean (hmk : ∀ i z, findInFilesRegistry s.filesReg i = some z → ∃ t ins outs, s.heap[z]? = some (.files t ins outs)) (hno : NoCollision hex sum T) (hfun : ∀ j y i o o', R j y i o → R j y i o' → o = o')
    {st st' : State (World ρ) Ctx} (hb : Built hex sum own s J os R T st) (hb' : Built hex sum own s J os R T st')
    (hwf : st.world.fs.root.WF) (hwf' : st'.world.fs.root.WF)
    (hsrc : ∀ x t ins outs, FilesOf s os x t ins outs → ∀ i ∈ ins, findInFilesRegistry s.filesReg i = none →
      ∀ k c, Shows st.world.fs [i] k c ↔ Shows st'.world.fs [i] k c)
    (hmade : ∀ x t ins outs, FilesOf s os x t ins outs → ∀ i ∈ ins, ∀ z t' ins' outs', findInFilesRegistry s.filesReg i = some z →
      s.heap[z]? = some (.files t' ins' outs') → i ∈ outs' ∧ (IsDir st.world.fs i ↔ IsDir st'.world.fs i)) :
    ∀ x t ins outs, FilesOf s os x t ins outs → ∀ k c, Shows st.world.fs outs k c ↔ Shows st'.world.fs outs k c := by
  obtain ⟨⟨w, ctx, ls, rfl, hw, hf, hrule⟩, ⟨c₁, hret⟩⟩ := hb
  obtain ⟨⟨w', ctx', ls', rfl, hw', hf', hrule'⟩, ⟨c₂, hret'⟩⟩ := hb'
  have hr := C78_history hno hw hf hrule hret
  have hr' := C78_history hno hw' hf' hrule' hret'
  have nocirc : ∀ o, Wanted s os o → ¬ Circular s o := by
    intro o ho hc
    obtain ⟨t, th, -, h2⟩ := ((C76_build hf.noRun buildRun_reach).2 _ none hret).2 rfl o ho
    exact (C76_circle hf.noRun buildRun_reach hc).1 _ _ h2
  intro x
  induction x using (needs_wf s).induction with
  | _ x ih =>
    intro t ins outs hx
    have hcx : ¬ Circular s x := by
      obtain ⟨⟨o, ho, hs⟩, -⟩ := hx
      intro hc
      refine nocirc o ho ?_
      rcases hs with ⟨name, h1, h2⟩ | ⟨-, rfl⟩
      · obtain ⟨z, h3, h4⟩ := hc
        exact ⟨z, .head (.name h1 h2) h3, h4⟩
      · exact hc
    have hins : ∀ i ∈ ins, ∀ k c, Shows (buildRun hex sum own s os w ctx ls).world.fs [i] k c ↔ Shows (buildRun hex sum own s os w' ctx' ls').world.fs [i] k c := by
      intro i hi
      cases hm : findInFilesRegistry s.filesReg i with
      | none => exact hsrc x t ins outs hx i hi hm
      | some z =>
        obtain ⟨t', ins', outs', hz⟩ := hmk i z hm
        have hn : Needs s x z := .input hx.2 hi hm
        obtain ⟨⟨o, ho, hs⟩, hx2⟩ := hx
        have hfz : FilesOf s os z t' ins' outs' := ⟨⟨z, .dep ho hs hn, .inr ⟨fun n h => (by rw [hz] at h; cases h), rfl⟩⟩, hz⟩
        obtain ⟨g1, g2⟩ := hmade x t ins outs ⟨⟨o, ho, hs⟩, hx2⟩ i hi z t' ins' outs' hm hz
        have e := ih z ⟨hn, hcx⟩ t' ins' outs' hfz
        intro k c
        exact ⟨shows_mem hwf g1 g2 (fun k c => (e k c).1) k c, shows_mem hwf' g1 g2.symm (fun k c => (e k c).2) k c⟩
    have e1 : Shows (buildRun hex sum own s os w ctx ls).world.fs ins = Shows (buildRun hex sum own s os w' ctx' ls').world.fs ins := by
      funext k c
      rw [eq_iff_iff, shows_iff, shows_iff (buildRun hex sum own s os w' ctx' ls').world.fs]
      exact ⟨fun ⟨i, h1, h2⟩ => ⟨i, h1, (hins i h1 k c).1 h2⟩, fun ⟨i, h1, h2⟩ => ⟨i, h1, (hins i h1 k c).2 h2⟩⟩
    have a := hr x t ins outs hx
    have b := hr' x t ins outs hx
    unfold Sit.right sitOf at a b
    dsimp only at a b
    rw [← e1] at b
    have := hfun _ _ _ _ _ a b
    intro k c
    rw [this]

/-- **C78, builds from scratch.** Two builds of the same targets that return nil, one after some history and another after another (for example a build
from scratch, with an empty database).  If
* it depends only on the inputs what the outputs are meant to be;
* the inputs that no target makes are the same after both builds;
* each input that a target makes is one of the outputs of that target, and a directory after both builds or after none of them

then all outputs are the same after both builds. -/
theorem C78_same_as_clean {L : Lib} (hl : Loaded L s) (hno : NoCollision hex sum T) (hfun : ∀ j y i o o', R j y i o → R j y i o' → o = o')
    {st st' : State (World ρ) Ctx} (hb : Built hex sum own s J os R T st) (hb' : Built hex sum own s J os R T st')
    (hwf : st.world.fs.root.WF) (hwf' : st'.world.fs.root.WF)
    (hsrc : ∀ x t ins outs, FilesOf s os x t ins outs → ∀ i ∈ ins, findInFilesRegistry s.filesReg i = none →
      ∀ k c, Shows st.world.fs [i] k c ↔ Shows st'.world.fs [i] k c)
    (hmade : ∀ x t ins outs, FilesOf s os x t ins outs → ∀ i ∈ ins, ∀ z t' ins' outs', findInFilesRegistry s.filesReg i = some z →
      s.heap[z]? = some (.files t' ins' outs') → i ∈ outs' ∧ (IsDir st.world.fs i ↔ IsDir st'.world.fs i)) :
    ∀ x t ins outs, FilesOf s os x t ins outs → ∀ k c, Shows st.world.fs outs k c ↔ Shows st'.world.fs outs k c :=
  same_as_clean (fun _ _ h => maker_files hl h) hno hfun hb hb' hwf hwf' hsrc hmade

/-! ## What stays true of the files -/

theorem files_keeps_fs {P : FS → Prop} {ft : FilesT ρ} {ctx : Ctx} : (filesBody hex sum ft ctx).Keeps fun w => P w.fs := by
  have hb : (filesBuild hex sum ft ctx).Keeps fun w => P w.fs := by
    unfold filesBuild
    intro e
    dsimp only
    split
    · trivial
    · split
      · trivial
      · split
        · trivial
        · refine computeHash_keeps fun r => ?_
          split
          · trivial
          · refine ⟨fun w hw => ?_, fun w => trivial⟩
            unfold dbAdd
            split <;> exact hw
  have hm : (filesMain hex sum ft ctx).Keeps fun w => P w.fs := by
    unfold filesMain
    split
    · exact hb
    · split
      · refine computeHash_keeps fun r => ?_
        split
        · trivial
        · refine ⟨fun _ h => h, fun w => ?_⟩
          dsimp only
          split
          · trivial
          · split
            · trivial
            · exact hb
      · exact hb
  unfold filesBody
  refine findAll_keeps fun l => ?_
  split
  · exact hm
  · intro e
    dsimp only
    split
    · trivial
    · exact hm

theorem body_keeps_fs {P : FS → Prop} (hown : ∀ o ctx, (own.body o ctx).Keeps fun w => P w.fs) (x : Nat) (ctx : Ctx) :
    ((buildEnv hex sum own s).body x ctx).Keeps fun w => P w.fs := by
  have hseq : ∀ (ts : List TRef) (ctx : Ctx), (seqBody (σ := World ρ) ts ctx).Keeps fun w => P w.fs := by
    intro ts ctx
    induction ts with
    | nil => trivial
    | cons t ts ih =>
      intro e
      cases e with
      | some e => trivial
      | none => exact ih
  unfold buildEnv
  dsimp only
  split
  · exact fun e => trivial
  · exact hseq _ _
  · exact fun e => trivial
  · exact withReg_keeps files_keeps_fs
  · refine ⟨fun w h => ?_, fun w => ?_⟩
    · unfold resolveName
      split <;> exact h
    · dsimp only
      split
      · trivial
      · exact fun e => trivial
  · exact hown x ctx

theorem fs_kept_step {P : FS → Prop} (hown : ∀ o ctx, (own.body o ctx).Keeps fun w => P w.fs) {w : World ρ} {ctx : Ctx} {st st' : State (World ρ) Ctx}
    (hr : Reach (buildEnv hex sum own s) w [.call ctx (os.map .ptr) .ret] st) {tid : Nat} (hs : Runner.step (buildEnv hex sum own s) st tid = some st')
    (ih : P st.world.fs) : P st'.world.fs := by
  obtain ⟨⟨jb, ts⟩, hth, hc⟩ := Runner.step_cases hs
  rcases step_fs hc with ⟨f, k, hts, hw', -⟩ | ⟨-, hfs, -⟩
  · dsimp only at hts; subst hts
    obtain ⟨p, ho, hp⟩ := hr.localInv.pos _ _ _ hth
    have hpk : p.Keeps fun w => P w.fs := by
      cases jb with
      | some j => cases ho; exact body_keeps_fs hown _ _
      | none =>
        have := List.mem_of_getElem? ho
        simp only [List.mem_singleton] at this
        subst this
        exact fun e => trivial
    rw [hw']
    exact (Runner.Runs.keeps hpk hp).1 _ ih
  · rw [hfs]; exact ih

/-- What every command, and everything outside fab, preserves, stays true of the files during a build. -/
theorem fs_kept {P : FS → Prop} (hown : ∀ o ctx, (own.body o ctx).Keeps fun w => P w.fs) {w : World ρ} (hw : P w.fs) {ctx : Ctx}
    {ls : List (Label (World ρ))} (hls : ∀ f, .extern f ∈ ls → ∀ w, P w.fs → P (f w).fs) : P (buildRun hex sum own s os w ctx ls).world.fs := by
  induction ls using List.reverseRecOn with
  | nil => exact hw
  | append_singleton ls l ih =>
    have ih := ih fun f hf => hls f (by simp [hf])
    have hr := buildRun_reach (hex := hex) (sum := sum) (own := own) (s := s) (os := os) (w := w) (ctx := ctx) (ls := ls)
    rw [buildRun_snoc]
    generalize buildRun hex sum own s os w ctx ls = st at *
    cases l with
    | extern f => exact hls f (by simp) _ ih
    | thread tid =>
      cases hs : Runner.lstep (buildEnv hex sum own s) st (.thread tid) with
      | none => exact ih
      | some st' =>
        exact fs_kept_step hown hr hs ih

end Fab.Yaml
