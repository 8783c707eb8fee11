import Verif.Yaml.Build
import Verif.Runner.Quiet

/-!
# C77: building again

A build of a YAML project in which nothing has to be done does nothing; and after a successful build nothing has to be done.
-/

namespace Fab.Yaml
open Path Cmd Files
open Runner (Proc TRef Env Ev State Reach Label allBody seqBody argBody nameBody hist)

/-! ## Specification -/

section
variable {ρ : Type}

/-- The world as a target of the project sees it: the registry of files is that of the project. -/
def seen (s : St) (w : World ρ) : World ρ := { w with reg := s.filesReg }

variable (hex : Bytes → Str) (sum : Str → Str) (own : Own ρ) (s : St)

/-- A Files target with rule `t`, inputs `ins` and outputs `outs` is up to date: the hash of its rule and of its files, as they are, is in database `d`. -/
def UpToDate (d t : Nat) (ins outs : List Str) (w : World ρ) : Prop :=
  ∃ li lo j, fileHashes hex w.fs ins = .ok li ∧ fileHashes hex w.fs outs = .ok lo ∧ own.desc t (seen s w) = some j ∧
    sum (hashText j (own.typ t) li lo) ∈ w.db d

/-- There is nothing to do for the target itself: it only stands for others, or it is a Files target that is up to date. -/
inductive Settled (d : Nat) (w : World ρ) (x : Nat) : Prop
  | all {ts} : s.heap[x]? = some (.all ts) → Settled d w x
  | seq {ts} : s.heap[x]? = some (.seq ts) → Settled d w x
  | arg {t args} : s.heap[x]? = some (.arg t args) → Settled d w x
  | name {name y} : s.heap[x]? = some (.ref name) → (s.reg.target name).1 = some y → Settled d w x
  | files {t ins outs} : s.heap[x]? = some (.files t ins outs) → UpToDate hex sum own s d t ins outs w → Settled d w x

/-- The target only stands for others, or is a Files target. -/
inductive Composite (x : Nat) : Prop
  | all {ts} : s.heap[x]? = some (.all ts) → Composite x
  | seq {ts} : s.heap[x]? = some (.seq ts) → Composite x
  | arg {t args} : s.heap[x]? = some (.arg t args) → Composite x
  | name {name} : s.heap[x]? = some (.ref name) → Composite x
  | files {t ins outs} : s.heap[x]? = some (.files t ins outs) → Composite x

/-- The Files targets that a build of `os` cannot succeed without. -/
def WantedFiles (os : List Nat) (t : Nat) (ins outs : List Str) : Prop :=
  ∃ o x, Wanted s os o ∧ Stands s o x ∧ s.heap[x]? = some (.files t ins outs)

/-- Nothing has happened, between `w` and `w'`, that matters for these Files targets: their files and their rules are the same, and
nothing has disappeared from database `d`, which works. -/
structure Undisturbed (d : Nat) (os : List Nat) (w w' : World ρ) : Prop where
  files : ∀ t ins outs, WantedFiles s os t ins outs → ∀ i ∈ ins ++ outs, w'.fs.stat i = w.fs.stat i
  rules : ∀ t ins outs, WantedFiles s os t ins outs → own.desc t (seen s w') = own.desc t (seen s w)
  db : ∀ h ∈ w.db d, h ∈ w'.db d
  works : w'.hasFails = false

/-- The rules of these Files targets contain no names: it does not matter for them which names have been looked up. -/
def NoNames (os : List Nat) : Prop :=
  ∀ t ins outs, WantedFiles s os t ins outs → ∀ o w, own.desc t (seen s { w with rest := own.note o w.rest }) = own.desc t (seen s w)

/-- Hash database `d` is used, and neither Force nor DryRun is set. -/
def Usual (d : Nat) (ctx : Ctx) : Prop := getHashDB ctx = some d ∧ getForce ctx = false ∧ getDryRun ctx = false

end

/-! ## Nothing to do -/

section
variable {ρ : Type} {hex : Bytes → Str} {sum : Str → Str} {own : Own ρ} {s : St}

theorem Usual.withArgs {d : Nat} {ctx : Ctx} (h : Usual d ctx) (l : List String) : Usual d (withArgs ctx l) := h

section
variable {τ : Type} {v : World ρ → τ} {W : World ρ → Prop} {K : Ctx → Prop} {R : Nat → Prop} {reg : GoMap Str Nat}

theorem still_findAll {is : List Str} {acc : List TRef} {k : List TRef → P ρ} (h : (withReg reg (k (acc ++ pres reg is))).Still v W K R) :
    (withReg reg (findAll is acc k)).Still v W K R := by
  induction is generalizing acc with
  | nil => simpa [pres, findAll] using h
  | cons i is ih =>
    rw [findAll, withReg]
    refine fun w hw => ⟨rfl, hw, ih ?_⟩
    simpa [pres, List.append_assoc] using h

theorem hashItem_stat {fs fs' : FS} {i : Str} (h : fs'.stat i = fs.stat i) (m : HMap) : hashItem hex fs' i m = hashItem hex fs i m := by
  unfold hashItem
  rw [h]

theorem still_readItems {fs : FS} {is : List Str} (hst : ∀ w, W w → ∀ i ∈ is, w.fs.stat i = fs.stat i) {m m' : HMap}
    (hm : hashItems hex (is.map fun i => (fs, i)) m = .ok m') {k : Except HErr HMap → P ρ} (h : (withReg reg (k (.ok m'))).Still v W K R) :
    (withReg reg (Files.readItems hex is m k)).Still v W K R := by
  induction is generalizing m with
  | nil => cases hm; exact h
  | cons i is ih =>
    rw [Files.readItems, withReg]
    refine fun w hw => ⟨rfl, hw, ?_⟩
    simp only [List.map_cons, hashItems] at hm
    have h1 : hashItem hex w.fs i m = hashItem hex fs i m := hashItem_stat (hst w hw i (by simp)) m
    show (withReg reg (match hashItem hex w.fs i m with | .ok m' => Files.readItems hex is m' k | .error e => k (.error e))).Still v W K R
    rw [h1]
    cases h2 : hashItem hex fs i m with
    | error e => rw [h2] at hm; cases hm
    | ok m2 =>
      rw [h2] at hm
      exact ih (fun w hw i hi => hst w hw i (by simp [hi])) hm

theorem fileHashes_ok {fs : FS} {is : List Str} {l : List Str} (h : fileHashes hex fs is = .ok l) :
    ∃ m, hashItems hex (is.map fun i => (fs, i)) [] = .ok m ∧ hashList m = l := fileHashesAt_ok hex h

end

theorem still_files {d : Nat} {os : List Nat} {w0 : World ρ} {x t : Nat} {ins outs : List Str} (hx : ∃ o, Wanted s os o ∧ Stands s o x)
    (hf : s.heap[x]? = some (.files t ins outs)) (hup : UpToDate hex sum own s d t ins outs w0) {ctx : Ctx} (hc : Usual d ctx) :
    (withReg s.filesReg (filesBody hex sum ⟨.ptr t, own.typ t, own.desc t, ins, outs⟩ ctx)).Still (fun w => (w.fs, w.db))
      (Undisturbed own s d os w0) (Usual d) (Wanted s os) := by
  obtain ⟨o, ho, hs⟩ := hx
  have hwf : WantedFiles s os t ins outs := ⟨o, x, ho, hs, hf⟩
  obtain ⟨li, lo, j, h1, h2, h3, h4⟩ := hup
  obtain ⟨mi, a1, rfl⟩ := fileHashes_ok h1
  obtain ⟨mo, a2, rfl⟩ := fileHashes_ok h2
  have hmain : (withReg s.filesReg (filesMain hex sum (⟨.ptr t, own.typ t, own.desc t, ins, outs⟩ : FilesT ρ) ctx)).Still
      (fun w => (w.fs, w.db)) (Undisturbed own s d os w0) (Usual d) (Wanted s os) := by
    unfold filesMain
    rw [hc.1]
    simp only [hc.2.1, hc.2.2, Bool.not_false, Bool.and_self, if_true]
    unfold computeHash
    refine still_readItems (fun w hw i hi => hw.files _ _ _ hwf i (by simp [show i ∈ ins from hi])) a1 ?_
    refine still_readItems (fun w hw i hi => hw.files _ _ _ hwf i (by simp [show i ∈ outs from hi])) a2 ?_
    dsimp only
    rw [withReg]
    refine fun w hw => ⟨rfl, hw, ?_⟩
    have h5 : own.desc t { w with reg := s.filesReg } = some j := (hw.rules _ _ _ hwf).trans h3
    dsimp only
    rw [h5]
    dsimp only
    rw [withReg]
    refine fun w hw => ⟨rfl, hw, ?_⟩
    dsimp only
    rw [hw.works, if_neg (by simp), if_pos (hw.db _ h4)]
    exact rfl
  unfold filesBody
  refine still_findAll ?_
  rw [List.nil_append]
  split
  · exact hmain
  · rw [withReg]
    refine ⟨hc, fun r hr => ?_, hmain⟩
    simp only [pres, List.mem_flatMap, Option.mem_toList, Option.map_eq_some_iff] at hr
    obtain ⟨i, hi, y, hy, rfl⟩ := hr
    exact ⟨y, rfl, .dep ho hs (.input hf hi hy)⟩

theorem still_build {d : Nat} {os : List Nat} {w0 : World ρ} (hall : ∀ o, Wanted s os o → ∃ x, Stands s o x ∧ Settled hex sum own s d w0 x)
    (hnote : ∀ w o, Undisturbed own s d os w0 w → Undisturbed own s d os w0 { w with rest := own.note o w.rest }) :
    (buildEnv hex sum own s).Still (fun w => (w.fs, w.db)) (Undisturbed own s d os w0) (Usual d) (Wanted s os)
      (fun x => ∃ o, Wanted s os o ∧ Stands s o x) := by
  constructor
  · intro o ho hr
    obtain ⟨x, h1, -⟩ := hall o ho
    rcases h1 with ⟨name, h1, h2⟩ | ⟨h1, rfl⟩
    · simp [buildEnv, h1] at hr
    · exact ⟨x, ho, .inr ⟨h1, rfl⟩⟩
  · intro o f ho hr w hw
    obtain ⟨x, h1, -⟩ := hall o ho
    rcases h1 with ⟨name, h1, h2⟩ | ⟨h1, rfl⟩
    · simp only [buildEnv, h1, Option.some.injEq] at hr
      subst hr
      simp only [resolveName, h2]
      exact ⟨trivial, hnote _ _ hw, x, rfl, o, ho, .inl ⟨name, h1, h2⟩⟩
    · unfold buildEnv at hr
      dsimp only at hr
      split at hr
      · rename_i name hn; exact absurd hn (h1 name)
      · cases hr
  · rintro x ctx ⟨o, ho, hs⟩ hc
    obtain ⟨x', h1, h2⟩ := hall o ho
    cases h1.uniq hs
    have hseq : ∀ (ts : List Nat), (∀ y ∈ ts, Wanted s os y) → (seqBody (ts.map .ptr) ctx).Still (fun w : World ρ => (w.fs, w.db))
        (Undisturbed own s d os w0) (Usual d) (Wanted s os) := by
      intro ts
      induction ts with
      | nil => intro _; exact rfl
      | cons t ts ih =>
        intro h
        refine ⟨hc, fun r hr => ?_, ih fun y hy => h y (by simp [hy])⟩
        simp at hr; subst hr
        exact ⟨t, rfl, h t (by simp)⟩
    cases h2 with
    | @all ts hx =>
      simp only [buildEnv, hx]
      refine ⟨hc, fun r hr => ?_, rfl⟩
      simp only [List.mem_map] at hr
      obtain ⟨y, hy, rfl⟩ := hr
      exact ⟨y, rfl, .dep ho hs (.all hx hy)⟩
    | @seq ts hx =>
      simp only [buildEnv, hx]
      exact hseq ts fun y hy => .dep ho hs (.seq hx hy)
    | @arg t args hx =>
      simp only [buildEnv, hx]
      refine ⟨hc.withArgs _, fun r hr => ?_, rfl⟩
      simp at hr; subst hr
      exact ⟨t, rfl, .dep ho hs (.arg hx)⟩
    | @name name y hx hy =>
      simp only [buildEnv, hx]
      intro w hw
      simp only [resolveName, hy]
      refine ⟨trivial, hnote _ _ hw, hc, fun r hr => ?_, rfl⟩
      simp at hr; subst hr
      exact ⟨y, rfl, .dep ho hs (.name hx hy)⟩
    | @files t ins outs hx hup =>
      simp only [buildEnv, hx]
      exact still_files ⟨o, ho, hs⟩ hx hup hc

/-- **C77, nothing to do.** The targets `os` are built with hash database `d`, without Force or DryRun.  Everything that is needed for them is known and is
settled: nothing but lists, names and Files targets that are up to date.  While the build is running other processes do nothing that matters for these Files targets.  Then
* no step of the build changes a file or a database;
* only settled targets are run (so, no command is);
* all of them succeed, and the build returns nil (if it returns; see `C76_returns`). -/
theorem C77_nothing_to_do {d : Nat} {os : List Nat} {w : World ρ} (hw : w.hasFails = false)
    (hall : ∀ o, Wanted s os o → ∃ x, Stands s o x ∧ Settled hex sum own s d w x)
    (hnote : NoNames own s os)
    {ctx : Ctx} (hc : Usual d ctx) (ls : List (Label (World ρ)))
    (hls : ∀ f, .extern f ∈ ls → ∀ w', Undisturbed own s d os w w' → Undisturbed own s d os w (f w')) :
    let run := fun ls => Runner.runSched (buildEnv hex sum own s) (Runner.init w [.call ctx (os.map .ptr) .ret]) ls
    (∀ ls₁ t ls₂, ls = ls₁ ++ .thread t :: ls₂ →
      (run (ls₁ ++ [.thread t])).world.fs = (run ls₁).world.fs ∧ (run (ls₁ ++ [.thread t])).world.db = (run ls₁).world.db) ∧
    (∀ t c i key x ctx, (t, Ev.start c i key x ctx) ∈ (run ls).log → Settled hex sum own s d w x) ∧
    (∀ t key x raw, (t, Ev.finish key x raw) ∈ (run ls).log → raw = none) ∧
    ∀ t c e, (t, Ev.ret c e) ∈ (run ls).log → e = none := by
  have h0 : Undisturbed own s d os w w := ⟨fun _ _ _ _ _ _ => rfl, fun _ _ _ _ => rfl, fun _ h => h, hw⟩
  obtain ⟨h1, -, h2⟩ := Runner.still_quiet (still_build hall fun w' o h => ⟨h.files, fun t ins outs ht => (hnote t ins outs ht o w').trans (h.rules t ins outs ht), h.db, h.works⟩) (cl := [.call ctx (os.map .ptr) .ret]) (by
    intro p hp
    simp only [List.mem_singleton] at hp; subst hp
    refine ⟨hc, fun r hr => ?_, rfl⟩
    simp only [List.mem_map] at hr
    obtain ⟨o, ho, rfl⟩ := hr
    exact ⟨o, rfl, .arg ho⟩) h0 ls hls
  refine ⟨fun ls₁ t ls₂ hl => ?_, ?_, ?_, ?_⟩
  · have := h1 ls₁ t ls₂ hl
    exact ⟨congrArg Prod.fst this, congrArg Prod.snd this⟩
  · intro t c i key x ctx' h
    obtain ⟨⟨o, a, b⟩, -⟩ := h2 _ h
    obtain ⟨x', c1, c2⟩ := hall o a
    cases c1.uniq b
    exact c2
  · intro t key x raw h; exact h2 _ h
  · intro t c e h; exact h2 _ h

/-! ## After a build -/

/-- The goroutine that ran target `x`, successfully, saw world `u` after the last of its calls of Run. -/
def LastSaw (log : List (Nat × Ev (World ρ) Ctx)) (x : Nat) (u : World ρ) : Prop :=
  ∃ th key l₁ m l₂, log = l₁ ++ (th, Ev.act u) :: m ++ (th, Ev.finish key x none) :: l₂ ∧ ∀ c ctx refs, (th, Ev.call c ctx refs) ∉ m

section
variable {reg : GoMap Str Nat}

/-- what the process sees -/
def regEv (reg : GoMap Str Nat) : Runner.LEv (World ρ) Ctx → Runner.LEv (World ρ) Ctx
  | .act w => .act { w with reg := reg }
  | .call c ctx refs => .call c ctx refs
  | .ret c e => .ret c e

def regPos (reg : GoMap Str Nat) : Runner.Pos (World ρ) Ctx → Runner.Pos (World ρ) Ctx
  | .at p => .at (withReg reg p)
  | .inCall c k => .inCall c fun e => withReg reg (k e)

theorem runs_withReg {p : P ρ} {h pos} (hr : Runner.Runs (withReg reg p) h pos) :
    ∃ pos0, pos = regPos reg pos0 ∧ Runner.Runs p (h.map (regEv reg)) pos0 := by
  induction hr with
  | nil => exact ⟨.at p, rfl, .nil⟩
  | act w _ ih =>
    obtain ⟨pos0, h1, h2⟩ := ih
    cases pos0 with
    | inCall c k => cases h1
    | «at» q =>
      simp only [regPos, Runner.Pos.at.injEq] at h1
      cases q with
      | ret e => rw [withReg] at h1; cases h1
      | call ctx refs k => rw [withReg] at h1; cases h1
      | act f k =>
        rw [withReg] at h1
        cases h1
        refine ⟨.at (k { w with reg := reg }), rfl, ?_⟩
        rw [List.map_append]
        exact .act _ h2
  | call c _ ih =>
    obtain ⟨pos0, h1, h2⟩ := ih
    cases pos0 with
    | inCall c k => cases h1
    | «at» q =>
      simp only [regPos, Runner.Pos.at.injEq] at h1
      cases q with
      | ret e => rw [withReg] at h1; cases h1
      | act f k => rw [withReg] at h1; cases h1
      | call ctx refs k =>
        rw [withReg] at h1
        cases h1
        refine ⟨.inCall c k, rfl, ?_⟩
        rw [List.map_append]
        exact .call _ h2
  | ret e _ ih =>
    obtain ⟨pos0, h1, h2⟩ := ih
    cases pos0 with
    | «at» q => cases h1
    | inCall c k =>
      cases h1
      refine ⟨.at (k e), rfl, ?_⟩
      rw [List.map_append]
      exact .ret _ h2

theorem regPos_ret {pos0 : Runner.Pos (World ρ) Ctx} {e : Option Runner.Err} (h : .at (.ret e) = regPos reg pos0) : pos0 = .at (.ret e) := by
  cases pos0 with
  | inCall c k => cases h
  | «at» q =>
    simp only [regPos, Runner.Pos.at.injEq] at h
    cases q with
    | ret e => rw [withReg] at h; cases h; rfl
    | act f k => rw [withReg] at h; cases h
    | call ctx refs k => rw [withReg] at h; cases h

theorem regPos_act {pos0 : Runner.Pos (World ρ) Ctx} {f k} (h : .at (.act f k) = regPos reg pos0) : ∃ k', pos0 = .at (.act f k') := by
  cases pos0 with
  | inCall c k => cases h
  | «at» q =>
    simp only [regPos, Runner.Pos.at.injEq] at h
    cases q with
    | ret e => rw [withReg] at h; cases h
    | act f k => rw [withReg] at h; cases h; exact ⟨_, rfl⟩
    | call ctx refs k => rw [withReg] at h; cases h

/-! Files targets only add to databases. -/

theorem withReg_keeps {M : World ρ → Prop} {p : P ρ} (h : p.Keeps M) : (withReg reg p).Keeps M := by
  induction p with
  | ret e => trivial
  | act f k ih => exact ⟨h.1, fun w => ih _ (h.2 _)⟩
  | call ctx refs k ih => exact fun e => ih _ (h e)

theorem findAll_keeps {M : World ρ → Prop} {is : List Str} {acc : List TRef} {k : List TRef → P ρ} (h : ∀ l, (k l).Keeps M) : (findAll is acc k).Keeps M := by
  induction is generalizing acc with
  | nil => exact h _
  | cons i is ih => exact ⟨fun _ h => h, fun w => ih⟩

theorem readItems_keeps {M : World ρ → Prop} {is : List Str} {m : HMap} {k : Except HErr HMap → P ρ} (h : ∀ r, (k r).Keeps M) :
    (Files.readItems hex is m k).Keeps M := by
  induction is generalizing m with
  | nil => exact h _
  | cons i is ih =>
    rw [Files.readItems]
    refine ⟨fun _ h => h, fun w => ?_⟩
    dsimp only
    split
    · exact ih
    · exact h _

theorem computeHash_keeps {M : World ρ → Prop} {ft : FilesT ρ} {k : Option Str → P ρ} (h : ∀ r, (k r).Keeps M) : (computeHash hex sum ft k).Keeps M := by
  unfold computeHash
  refine readItems_keeps fun r => ?_
  split
  · exact h _
  · refine readItems_keeps fun r => ?_
    split
    · exact h _
    · refine ⟨fun _ h => h, fun w => ?_⟩
      dsimp only
      split
      · exact h _
      · exact h _

theorem files_keeps {d : Nat} {hsh : Str} {ft : FilesT ρ} {ctx : Ctx} : (filesBody hex sum ft ctx).Keeps fun w => hsh ∈ w.db d := by
  have hb : (filesBuild hex sum ft ctx).Keeps fun w => hsh ∈ w.db d := by
    unfold filesBuild
    intro e
    dsimp only
    split
    · trivial
    · split
      · trivial
      · split
        · trivial
        · refine computeHash_keeps fun r => ?_
          split
          · trivial
          · refine ⟨fun w hw => ?_, fun w => trivial⟩
            unfold dbAdd
            split
            · exact hw
            · dsimp only
              split
              · exact List.mem_cons_of_mem _ hw
              · exact hw
  have hm : (filesMain hex sum ft ctx).Keeps fun w => hsh ∈ w.db d := by
    unfold filesMain
    split
    · exact hb
    · split
      · refine computeHash_keeps fun r => ?_
        split
        · trivial
        · refine ⟨fun _ h => h, fun w => ?_⟩
          dsimp only
          split
          · trivial
          · split
            · trivial
            · exact hb
      · exact hb
  unfold filesBody
  refine findAll_keeps fun l => ?_
  split
  · exact hm
  · intro e
    dsimp only
    split
    · trivial
    · exact hm

end

theorem build_keeps {d : Nat} {hsh : Str} (hown : ∀ o ctx, (own.body o ctx).Keeps fun w => hsh ∈ w.db d) :
    (buildEnv hex sum own s).Keeps fun w => hsh ∈ w.db d := by
  have hseq : ∀ (ts : List TRef) (ctx : Ctx), (seqBody (σ := World ρ) ts ctx).Keeps fun w => hsh ∈ w.db d := by
    intro ts ctx
    induction ts with
    | nil => trivial
    | cons t ts ih =>
      intro e
      cases e with
      | some e => trivial
      | none => exact ih
  have hres : ∀ o name w, hsh ∈ w.db d → hsh ∈ (resolveName own s o name w).1.db d := by
    intro o name w h
    unfold resolveName
    split <;> exact h
  constructor
  · intro x ctx
    unfold buildEnv
    dsimp only
    split
    · exact fun e => trivial
    · exact hseq _ _
    · exact fun e => trivial
    · exact withReg_keeps files_keeps
    · refine ⟨fun w => hres _ _ w, fun w => ?_⟩
      dsimp only
      split
      · trivial
      · exact fun e => trivial
    · exact hown x ctx
  · intro o f hf w hw
    unfold buildEnv at hf
    dsimp only at hf
    split at hf
    · cases hf; exact hres _ _ w hw
    · cases hf

/-! All contexts of a build differ only in the arguments. -/

theorem build_ctxs {K : Ctx → Prop} (hK : ∀ ctx l, K ctx → K (withArgs ctx l)) (hown : ∀ o ctx, NoRun (own.body o ctx)) (x : Nat) (ctx : Ctx) (hc : K ctx) :
    ((buildEnv hex sum own s).body x ctx).Ctxs K := by
  have hseq : ∀ (ts : List TRef), (seqBody (σ := World ρ) ts ctx).Ctxs K := by
    intro ts
    induction ts with
    | nil => trivial
    | cons t ts ih =>
      refine ⟨hc, fun e => ?_⟩
      cases e with
      | some e => trivial
      | none => exact ih
  have hno : ∀ {p : P ρ}, NoRun p → p.Ctxs K := by
    intro p h
    induction p with
    | ret e => trivial
    | act f k ih => exact fun w => ih w (h w)
    | call ctx refs k ih => exact h.elim
  unfold buildEnv
  dsimp only
  split
  · exact ⟨hc, fun e => trivial⟩
  · exact hseq _
  · exact ⟨hK _ _ hc, fun e => trivial⟩
  · rename_i t ins outs h
    have hQ : ∀ (f : World ρ → World ρ) (k : World ρ → P ρ), (∀ w, (k w).Ctxs K) → Proc.Ctxs K (.act f k) := fun f k h => h
    have hm := q_main (Q := Proc.Ctxs K) (hex := hex) (sum := sum) hQ s.filesReg (⟨.ptr t, own.typ t, own.desc t, ins, outs⟩ : FilesT ρ) ctx (fun _ => trivial)
      fun k hk hn => ⟨hc, fun e => by cases e with | none => exact hn | some e => rw [hk]; trivial⟩
    unfold filesBody
    refine q_findAll (Q := Proc.Ctxs K) hQ s.filesReg _ _ _ ?_
    split
    · exact hm
    · rw [withReg]
      refine ⟨hc, fun e => ?_⟩
      cases e with
      | none => exact hm
      | some e => trivial
  · intro w
    dsimp only
    split
    · trivial
    · exact ⟨hc, fun e => trivial⟩
  · exact hno (hown x ctx)

/-! Hashes depend only on what the named files are. -/

theorem hashItems_same {fs : FS} {us : List (World ρ)} {is : List Str} (hl : us.length = is.length)
    (h : ∀ u ∈ us, ∀ i ∈ is, fs.stat i = u.fs.stat i) (m : HMap) :
    hashItems hex (is.map fun i => (fs, i)) m = hashItems hex (List.zip (us.map (·.fs)) is) m := by
  induction is generalizing us m with
  | nil => cases us with
    | nil => rfl
    | cons u us => simp at hl
  | cons i is ih => cases us with
    | nil => simp at hl
    | cons u us =>
      simp only [List.map_cons, List.zip_cons_cons, hashItems]
      rw [hashItem_stat (h u (by simp) i (by simp)) m]
      split
      · exact ih (by simpa using hl) (fun u hu i hi => h u (by simp [hu]) i (by simp [hi])) _
      · rfl

theorem hashOf_same {fs : FS} {us : List (World ρ)} {is : List Str} {l : List Str} (hl : us.length = is.length)
    (h : ∀ u ∈ us, ∀ i ∈ is, fs.stat i = u.fs.stat i) (hh : fileHashesAt hex (List.zip (us.map (·.fs)) is) = .ok l) : fileHashes hex fs is = .ok l := by
  unfold fileHashes fileHashesAt at *
  rw [hashItems_same hl h]
  exact hh

theorem hist_split_act {t : Nat} {L : List (Nat × Ev (World ρ) Ctx)} {A B : List (Runner.LEv (World ρ) Ctx)} {w} (h : hist t L = A ++ .act w :: B) :
    ∃ L₁ L₂, L = L₁ ++ (t, .act w) :: L₂ ∧ hist t L₁ = A ∧ hist t L₂ = B := by
  unfold hist at h
  obtain ⟨l₁, l₂, rfl, h1, h2⟩ := List.filterMap_eq_append_iff.1 h
  obtain ⟨m₁, y, m₂, rfl, h3, h4, h5⟩ := List.filterMap_eq_cons_iff.1 h2
  obtain ⟨j, e⟩ := y
  by_cases hj : j = t
  · subst hj
    have he : e = .act w := by cases e <;> simp at h4; rw [h4]
    refine ⟨l₁ ++ m₁, m₂, by simp [he], ?_, h5⟩
    unfold hist
    rw [List.filterMap_append, h1, List.filterMap_eq_nil_iff.2 h3, List.append_nil]
  · simp [hj] at h4

/-- As C77_up_to_date, for one target that has succeeded. -/
theorem finished_up_to_date (hown : ∀ o ctx, NoRun (own.body o ctx)) {d : Nat} (hkeep : ∀ hsh o ctx, (own.body o ctx).Keeps fun w => hsh ∈ w.db d)
    {os : List Nat} {w : World ρ} {ctx : Ctx} (hd : getHashDB ctx = some d) (hdry : getDryRun ctx = false) (ls : List (Label (World ρ)))
    (hls : ∀ f, .extern f ∈ ls → ∀ w, ∀ h ∈ w.db d, h ∈ (f w).db d) {st : State (World ρ) Ctx}
    (hst : st = Runner.runSched (buildEnv hex sum own s) (Runner.init w [.call ctx (os.map .ptr) .ret]) ls)
    {w' : World ρ} (hdb : ∀ h ∈ st.world.db d, h ∈ w'.db d) {th o x t : Nat} {ins outs : List Str} (h2 : (th, Ev.finish o x none) ∈ st.log)
    (hx : s.heap[x]? = some (.files t ins outs))
    (hsame : ∀ u, LastSaw st.log x u → (∀ i ∈ ins ++ outs, w'.fs.stat i = u.fs.stat i) ∧ own.desc t (seen s w') = own.desc t (seen s u)) :
    UpToDate hex sum own s d t ins outs w' := by
  have hr : Reach (buildEnv hex sum own s) w [.call ctx (os.map .ptr) .ret] st := hst ▸ Runner.runSched_reach _ .init
  obtain ⟨l₁, l₂, hl⟩ := List.append_of_mem h2
  obtain ⟨c₀, i₀, ctx', h3, h4⟩ := Runner.finish_path hr hl
  have hctx : getHashDB ctx' = some d ∧ getDryRun ctx' = false :=
    Runner.start_ctx (K := fun ctx => getHashDB ctx = some d ∧ getDryRun ctx = false) (build_ctxs (fun ctx l h => h) hown)
      (by intro p hp; simp only [List.mem_singleton] at hp; subst hp; exact ⟨⟨hd, hdry⟩, fun e => trivial⟩) hr _ _ _ _ _ _ (Runner.sub_log hl h3)
  simp only [buildEnv, hx] at h4
  obtain ⟨pos0, h5, h6⟩ := runs_withReg h4
  rw [regPos_ret h5] at h6
  have h7 := files_path hex sum h6
  -- the worlds that were seen after the last call
  have hlast : ∀ {A ws}, (hist th l₁).map (regEv s.filesReg) = A ++ acts ws → ∀ u ∈ ws, ∃ u0, u = seen s u0 ∧ LastSaw st.log x u0 := by
    intro A ws hA u hu
    obtain ⟨B, B', rfl⟩ := List.append_of_mem hu
    have hA' : (hist th l₁).map (regEv s.filesReg) = (A ++ acts B) ++ .act u :: acts B' := by rw [hA]; simp [acts]
    obtain ⟨a1, a2, e1, e2, e3⟩ := List.map_eq_append_iff.1 hA'
    obtain ⟨y, a3, rfl, e4, e5⟩ := List.map_eq_cons_iff.1 e3
    cases y with
    | call c ctx refs => cases e4
    | ret c e => cases e4
    | act u0 =>
      cases e4
      obtain ⟨L₁, L₂, rfl, -, hL⟩ := hist_split_act e1
      refine ⟨u0, rfl, th, o, L₁, L₂, l₂, by rw [hl], fun c ctx refs hm => ?_⟩
      have := Runner.mem_hist_call.2 hm
      rw [hL] at this
      have : regEv s.filesReg (.call c ctx refs) ∈ acts B' := e5 ▸ List.mem_map_of_mem this
      simp [regEv, acts] at this
  -- the hash is right
  have hhash : ∀ {A ws B hsh}, (hist th l₁).map (regEv s.filesReg) = A ++ acts ws ++ acts B → HashOf hex sum (⟨.ptr t, own.typ t, own.desc t, ins, outs⟩ : FilesT ρ) ws hsh →
      hsh ∈ st.world.db d → UpToDate hex sum own s d t ins outs w' := by
    intro A ws B hsh hA hh hin
    have hA' : (hist th l₁).map (regEv s.filesReg) = A ++ acts (ws ++ B) := by rw [hA]; simp [acts]
    have hsame' : ∀ u ∈ ws, (∀ i ∈ ins ++ outs, w'.fs.stat i = u.fs.stat i) ∧ own.desc t (seen s w') = own.desc t u := by
      intro u hu
      obtain ⟨u0, rfl, h8⟩ := hlast hA' u (by simp [hu])
      exact hsame u0 h8
    obtain ⟨wi, wo, wd, li, lo, j, rfl, k1, k2, k3, k4, k5, rfl⟩ := hh
    refine ⟨li, lo, j, hashOf_same k1 (fun u hu i hi => (hsame' u (by simp [hu])).1 i (by simp [show i ∈ ins from hi])) k3,
      hashOf_same k2 (fun u hu i hi => (hsame' u (by simp [hu])).1 i (by simp [show i ∈ outs from hi])) k4, ?_, hdb _ hin⟩
    rw [(hsame' wd (by simp)).2]
    exact k5
  -- what the last action achieved remains
  have hkept : ∀ {A : List (Runner.LEv (World ρ) Ctx)} {hsh u}, (hist th l₁).map (regEv s.filesReg) = A ++ [.act u] →
      (hsh ∈ u.db d → hsh ∈ st.world.db d) ∧
      ∀ f k, Runner.Runs (filesBody hex sum (⟨.ptr t, own.typ t, own.desc t, ins, outs⟩ : FilesT ρ) ctx') A (.at (.act f k)) →
        (∀ u0, u = seen s u0 → hsh ∈ (f u0).db d) → hsh ∈ st.world.db d := by
    intro A hsh u hA
    obtain ⟨a1, a2, e1, e2, e3⟩ := List.map_eq_append_iff.1 hA
    obtain ⟨y, a3, rfl, e4, e5⟩ := List.map_eq_cons_iff.1 e3
    cases y with
    | call c ctx refs => cases e4
    | ret c e => cases e4
    | act u0 =>
      cases e4
      simp only [List.map_eq_nil_iff] at e5
      subst e5
      obtain ⟨L₁, L₂, rfl, hL1, hL2⟩ := hist_split_act e1
      have hlog : st.log = L₁ ++ (th, .act u0) :: (L₂ ++ (th, Ev.finish o x none) :: l₂) := by rw [hl]; simp
      have hK := Runner.kept (M := fun w => hsh ∈ w.db d) (build_keeps (hex := hex) (sum := sum) (s := s) (hkeep hsh)) (cl := [.call ctx (os.map .ptr) .ret])
        (by intro p hp; simp only [List.mem_singleton] at hp; subst hp; exact fun e => trivial) ls (fun f hf w h => hls f hf w _ h) (w := w) (hst ▸ hlog)
      rw [← hst] at hK
      refine ⟨fun h => hK.1 h, fun f k hrun hf => ?_⟩
      obtain ⟨p, f', k', hex', hp⟩ := hr.evPath _ _ _ hlog
      have hp' : p = (buildEnv hex sum own s).body x ctx' := by
        rcases hex' with ⟨c2, i2, k2, t2, x2, n1, rfl⟩ | ⟨n1, n2⟩
        · obtain ⟨-, -, -, rfl, rfl⟩ := Runner.start_uniq hr (Runner.sub_log hl h3) (Runner.sub_log hlog n1)
          rfl
        · exfalso
          obtain ⟨j, st', a1', -⟩ := hr.inv.f.startJob _ _ _ _ _ _ (Runner.sub_log hl h3)
          obtain ⟨st'', a2'⟩ := Runner.client_job hr (List.getElem?_eq_some_iff.1 n1).1
          rw [a1'] at a2'; cases a2'
      have hp2 := hp
      rw [hp'] at hp2
      simp only [buildEnv, hx] at hp2
      rw [hL1] at hp2
      obtain ⟨q0, q1, q2⟩ := runs_withReg hp2
      obtain ⟨k2, rfl⟩ := regPos_act q1
      rw [e2] at q2
      have := q2.detm hrun
      cases this
      exact hK.2 p f k' hex' hp (hf u0 rfl)
  generalize hH : (hist th l₁).map (regEv s.filesReg) = H at h7 hhash hkept
  generalize hpp : Runner.Pos.at (Proc.ret none) = pos at h7
  cases h7 <;> first | (cases hpp; done) | skip
  case skipped h0 d' ws hsh u k1 k2 k3 k4 k5 k6 k7 =>
    rw [hctx.1] at k2; cases k2
    exact hhash (B := [u]) rfl k5 ((hkept rfl).1 k7)
  case built h0 c' k1 k2 =>
    rcases k2 with k2 | k2
    · rw [hctx.1] at k2; cases k2
    · rw [hctx.2] at k2; cases k2
  case added h0 c' ws d' hsh u k1 k2 k3 k4 =>
    rw [hctx.1] at k2; cases k2
    have hno : u.addFails = false := by
      simp only [Runner.Pos.at.injEq, Proc.ret.injEq] at hpp
      split at hpp
      · cases hpp
      · simpa using ‹¬ u.addFails = true›
    refine hhash (B := [u]) rfl k4 ((hkept rfl).2 _ _ (k1.adding hex sum hctx.1 hctx.2 c' k4) ?_)
    intro u0 hu
    have : u0.addFails = false := by rw [hu] at hno; exact hno
    simp [dbAdd, this]

/-- **C77, after a build.** The targets `os` were built with hash database `d`, without DryRun, and the build returned nil; nobody removed anything from the database.
Consider a world `w'` in which the database has at least what it had after the build, and in which the files of a Files target that is needed for `os`, and its rule, are as
they were when the target looked at them, at its end.  Then this target is up to date in `w'`. -/
theorem C77_up_to_date (hown : ∀ o ctx, NoRun (own.body o ctx)) {d : Nat} (hkeep : ∀ hsh o ctx, (own.body o ctx).Keeps fun w => hsh ∈ w.db d)
    {os : List Nat} {w : World ρ} {ctx : Ctx} (hd : getHashDB ctx = some d) (hdry : getDryRun ctx = false) (ls : List (Label (World ρ)))
    (hls : ∀ f, .extern f ∈ ls → ∀ w, ∀ h ∈ w.db d, h ∈ (f w).db d) {st : State (World ρ) Ctx}
    (hst : st = Runner.runSched (buildEnv hex sum own s) (Runner.init w [.call ctx (os.map .ptr) .ret]) ls) {c : Nat} (hret : (0, Ev.ret c none) ∈ st.log)
    {w' : World ρ} (hdb : ∀ h ∈ st.world.db d, h ∈ w'.db d) {o x t : Nat} {ins outs : List Str} (ho : Wanted s os o) (hs : Stands s o x)
    (hx : s.heap[x]? = some (.files t ins outs))
    (hsame : ∀ u, LastSaw st.log x u → (∀ i ∈ ins ++ outs, w'.fs.stat i = u.fs.stat i) ∧ own.desc t (seen s w') = own.desc t (seen s u)) :
    UpToDate hex sum own s d t ins outs w' := by
  obtain ⟨x', th, h1, h2⟩ := ((C76_build hown (hst ▸ Runner.runSched_reach _ .init)).2 c none hret).2 rfl o ho
  cases h1.uniq hs
  exact finished_up_to_date hown hkeep hd hdry ls hls hst hdb h2 hx hsame

/-- **C77, the second build.** The targets `os` of a project need, apart from lists and names, only Files targets, whose rules contain no names.  They were built with hash database `d`,
without DryRun, and the build returned nil; nobody removed anything from the database.  Then they are built again, in a world `w'` in which the database still has what it had and
the files and rules of the Files targets are as they were when each target looked at them, at its end; and during the second build others do nothing to these.  Then the second build, without Force or DryRun,
changes no file and no database, runs nothing but lists, names and Files targets, and returns nil. -/
theorem C77_second_build (hown : ∀ o ctx, NoRun (own.body o ctx)) {d : Nat} (hkeep : ∀ hsh o ctx, (own.body o ctx).Keeps fun w => hsh ∈ w.db d)
    {os : List Nat} (hcomp : ∀ o x, Wanted s os o → Stands s o x → Composite s x) (hnames : NoNames own s os)
    -- the first build
    {w : World ρ} {ctx : Ctx} (hd : getHashDB ctx = some d) (hdry : getDryRun ctx = false) (ls : List (Label (World ρ)))
    (hls : ∀ f, .extern f ∈ ls → ∀ w, ∀ h ∈ w.db d, h ∈ (f w).db d) {st : State (World ρ) Ctx}
    (hst : st = Runner.runSched (buildEnv hex sum own s) (Runner.init w [.call ctx (os.map .ptr) .ret]) ls) {c : Nat} (hret : (0, Ev.ret c none) ∈ st.log)
    -- in between
    {w' : World ρ} (hworks : w'.hasFails = false) (hdb : ∀ h ∈ st.world.db d, h ∈ w'.db d)
    (hsame : ∀ o x t ins outs, Wanted s os o → Stands s o x → s.heap[x]? = some (.files t ins outs) → ∀ u, LastSaw st.log x u →
      (∀ i ∈ ins ++ outs, w'.fs.stat i = u.fs.stat i) ∧ own.desc t (seen s w') = own.desc t (seen s u))
    -- the second build
    {ctx' : Ctx} (hc : Usual d ctx') (ls' : List (Label (World ρ)))
    (hls' : ∀ f, .extern f ∈ ls' → ∀ w₁, Undisturbed own s d os w' w₁ → Undisturbed own s d os w' (f w₁)) :
    let run := fun ls => Runner.runSched (buildEnv hex sum own s) (Runner.init w' [.call ctx' (os.map .ptr) .ret]) ls
    (∀ ls₁ t ls₂, ls' = ls₁ ++ .thread t :: ls₂ →
      (run (ls₁ ++ [.thread t])).world.fs = (run ls₁).world.fs ∧ (run (ls₁ ++ [.thread t])).world.db = (run ls₁).world.db) ∧
    (∀ t c i key x ctx, (t, Ev.start c i key x ctx) ∈ (run ls').log → Composite s x) ∧
    ∀ t c e, (t, Ev.ret c e) ∈ (run ls').log → e = none := by
  have hr : Reach (buildEnv hex sum own s) w [.call ctx (os.map .ptr) .ret] st := hst ▸ Runner.runSched_reach _ .init
  have hall : ∀ o, Wanted s os o → ∃ x, Stands s o x ∧ Settled hex sum own s d w' x := by
    intro o ho
    obtain ⟨x, th, h1, h2⟩ := ((C76_build hown hr).2 c none hret).2 rfl o ho
    refine ⟨x, h1, ?_⟩
    cases hcomp o x ho h1 with
    | all h => exact .all h
    | seq h => exact .seq h
    | arg h => exact .arg h
    | files h => exact .files h (C77_up_to_date hown hkeep hd hdry ls hls hst hret hdb ho h1 h (hsame o x _ _ _ ho h1 h))
    | @name name h =>
      cases hy : (s.reg.target name).1 with
      | some y => exact .name h hy
      | none =>
        exfalso
        obtain ⟨l₁, l₂, hl⟩ := List.append_of_mem h2
        obtain ⟨c₀, i₀, ctx₀, h3, h4⟩ := Runner.finish_path hr hl
        simp only [buildEnv, h, nameBody] at h4
        rcases Files.Runs.act_inv h4 with ⟨-, h5⟩ | ⟨u, H, -, h5⟩
        · cases h5
        · simp only [resolveName, hy] at h5
          cases (Files.Runs.ret_inv h5).2
  obtain ⟨h1, h2, -, h3⟩ := C77_nothing_to_do hworks hall hnames hc ls' hls'
  refine ⟨h1, fun t c i key x ctx h => ?_, h3⟩
  cases h2 t c i key x ctx h with
  | all h => exact .all h
  | seq h => exact .seq h
  | arg h => exact .arg h
  | name h _ => exact .name h
  | files h _ => exact .files h

end

/-! ## A concrete case: Prog (4) is made from gen.c, which Gen (6) makes from src. -/

namespace AgainDemo
open BuildDemo (docEnd doc doc_loaded)

def fs (l : List (String × Nat)) : FS := ⟨.dir "top".toList true (l.foldr (fun e f => .file e.1.toList true [e.2.toUInt8] f) .nil) .nil, []⟩
def fs0 : FS := fs [("src", 1)]
def fs1 : FS := fs [("gen.c", 2), ("src", 1)]
def fs2 : FS := fs [("gen.c", 2), ("prog", 3), ("src", 1)]

/-- The rule of Gen (5) writes gen.c, that of Prog (3) writes prog. -/
def own : Own Unit where
  body o _ := .act (fun w => if o = 5 then { w with fs := fs1 } else if o = 3 then { w with fs := fs2 } else w) fun _ => .ret none
  note _ := id
  typ _ := []
  desc t _ := some (.str (if t = 5 then "gen".toList else "prog".toList))

def hex (b : Bytes) : Str := b.map fun c => Char.ofNat (c.toNat + 48)
def world (f : FS) (d : List Str) : World Unit := ⟨f, fun n => if n = 0 then d else [], [], false, false, false, ()⟩
def ctx : Ctx := withHashDB .root 0

def run (w : World Unit) (ts : List Nat) : State (World Unit) Ctx :=
  Runner.runSched (buildEnv hex id own docEnd) (Runner.init w [.call ctx ([4].map .ptr) .ret]) (ts.map .thread)

def rep (l : List (Nat × Nat)) : List Nat := l.flatMap fun e => List.replicate e.1 e.2

def first : State (World Unit) Ctx := run (world fs0 []) (rep [(2, 0), (4, 1), (8, 2), (7, 3), (11, 2), (8, 1), (7, 4), (11, 1), (3, 0)])
def second : State (World Unit) Ctx := run first.world (rep [(2, 0), (4, 1), (11, 2), (11, 1), (3, 0)])

def startOf (st : State (World Unit) Ctx) : List Nat := st.log.filterMap fun e => match e with
  | (_, .start _ _ _ tgt _) => some tgt
  | _ => none

def retOf (st : State (World Unit) Ctx) : List Bool := st.log.filterMap fun e => match e with
  | (0, .ret _ e) => some e.isNone
  | _ => none

theorem ends {st : State (World Unit) Ctx} (h : retOf st = [true]) : ∃ c, (0, Ev.ret c none) ∈ st.log := by
  have hb : true ∈ retOf st := by rw [h]; simp
  obtain ⟨⟨t, e⟩, hm, he⟩ := List.mem_filterMap.1 hb
  split at he
  · rename_i c e' heq
    cases heq
    cases e' with
    | none => exact ⟨c, hm⟩
    | some _ => cases he
  · cases he

/-- `LastSaw`, as a computation -/
def stops (th x : Nat) : List (Nat × Ev (World Unit) Ctx) → Bool
  | [] => false
  | (t, .call ..) :: l => t != th && stops th x l
  | (t, .finish _ y none) :: l => t == th && y == x || stops th x l
  | _ :: l => stops th x l

def lastSaw (x : Nat) : List (Nat × Ev (World Unit) Ctx) → List (World Unit)
  | [] => []
  | (th, .act u) :: l => if stops th x l then u :: lastSaw x l else lastSaw x l
  | _ :: l => lastSaw x l

theorem stops_of {th x key : Nat} {m l₂ : List (Nat × Ev (World Unit) Ctx)} (h : ∀ c ctx refs, (th, Ev.call c ctx refs) ∉ m) :
    stops th x (m ++ (th, Ev.finish key x none) :: l₂) = true := by
  induction m with
  | nil => simp [stops]
  | cons e m ih =>
    have ih := ih fun c ctx refs hm => h c ctx refs (by simp [hm])
    obtain ⟨t, e⟩ := e
    cases e with
    | call c ctx refs =>
      have : t ≠ th := fun ht => h c ctx refs (by simp [ht])
      simp [stops, this, ih]
    | finish k y r => cases r <;> simp [stops, ih]
    | _ => simp [stops, ih]

theorem lastSaw_of {x : Nat} {u : World Unit} {log} (h : LastSaw log x u) : u ∈ lastSaw x log := by
  obtain ⟨th, key, l₁, m, l₂, rfl, hm⟩ := h
  induction l₁ with
  | nil => simp [lastSaw, stops_of hm]
  | cons e l ih =>
    obtain ⟨t, e⟩ := e
    cases e with
    | act v => simp only [List.cons_append, lastSaw]; split <;> simp at ih ⊢ <;> simp [ih]
    | _ => simpa [lastSaw] using ih

def isFile (r : StatResult) (pos : List Str) (d : Bytes) : Bool := match r with
  | .found p (.file true d') => p == pos && d' == d
  | _ => false

theorem isFile_eq {r pos d} (h : isFile r pos d = true) : r = .found pos (.file true d) := by
  unfold isFile at h
  split at h
  · simp at h; rw [h.1, h.2]
  · cases h

def src : Str := "/top/src".toList
def gen : Str := "/top/gen.c".toList
def prog : Str := "/top/prog".toList
def made (i : Str) (f : FS) : Bool :=
  if i = src then isFile (f.stat i) ["top".toList, "src".toList] [1]
  else if i = gen then isFile (f.stat i) ["top".toList, "gen.c".toList] [2]
  else isFile (f.stat i) ["top".toList, "prog".toList] [3]

theorem made_eq {i f g} (h : made i f = true) (h' : made i g = true) : f.stat i = g.stat i := by
  unfold made at h h'
  split at h
  · simp only [if_pos ‹i = src›] at h'
    rw [isFile_eq h, isFile_eq h']
  · simp only [if_neg ‹¬ i = src›] at h'
    split at h
    · simp only [if_pos ‹i = gen›] at h'
      rw [isFile_eq h, isFile_eq h']
    · simp only [if_neg ‹¬ i = gen›] at h'
      rw [isFile_eq h, isFile_eq h']

theorem heap4 : docEnd.heap[4]? = some (.files 3 [gen] [prog]) := by rfl
theorem heap6 : docEnd.heap[6]? = some (.files 5 [src] [gen]) := by rfl
theorem maker : findInFilesRegistry docEnd.filesReg gen = some 6 ∧ findInFilesRegistry docEnd.filesReg src = none := by decide +kernel

theorem wanted {o : Nat} (h : Wanted docEnd [4] o) : o = 4 ∨ o = 6 := by
  have self : ∀ {o x t ins outs}, docEnd.heap[o]? = some (Obj.files t ins outs) → Stands docEnd o x → x = o := by
    rintro o x t ins outs ho (⟨n, hn, -⟩ | ⟨-, rfl⟩)
    · rw [ho] at hn; cases hn
    · rfl
  induction h with
  | arg h => exact .inl (by simpa using h)
  | dep _ h1 h2 ih =>
    rcases ih with rfl | rfl
    · cases self heap4 h1
      cases h2 with
      | input h3 h4 h5 =>
        rw [heap4] at h3; cases h3
        simp only [List.mem_singleton] at h4; subst h4
        rw [maker.1] at h5; cases h5
        exact .inr rfl
      | _ h3 => rw [heap4] at h3; cases h3
    · cases self heap6 h1
      cases h2 with
      | input h3 h4 h5 =>
        rw [heap6] at h3; cases h3
        simp only [List.mem_singleton] at h4; subst h4
        rw [maker.2] at h5; cases h5
      | _ h3 => rw [heap6] at h3; cases h3

theorem stands {o x : Nat} (h : Wanted docEnd [4] o) (hs : Stands docEnd o x) : o = x ∧ (x = 4 ∨ x = 6) := by
  rcases hs with ⟨n, hn, -⟩ | ⟨-, rfl⟩
  · rcases wanted h with rfl | rfl
    · rw [heap4] at hn; cases hn
    · rw [heap6] at hn; cases hn
  · exact ⟨rfl, wanted h⟩

theorem own_keeps : ∀ hsh o ctx, (own.body o ctx).Keeps fun w => hsh ∈ w.db 0 := by
  refine fun hsh o ctx => ⟨fun w hw => ?_, fun _ => trivial⟩
  dsimp only
  split
  · exact hw
  · split <;> exact hw

/-- The first build runs the rules (5 and 3) and returns nil; every hypothesis of `C77_second_build` holds, when nobody interferes; the second build,
whose steps are shown, runs the two Files targets only. -/
example : startOf first = [4, 6, 5, 3] ∧ startOf second = [4, 6] ∧ retOf second = [true] ∧
    ∀ ls', (∀ f, Label.extern f ∉ ls') →
    let st := Runner.runSched (buildEnv hex id own docEnd) (Runner.init first.world [.call ctx ([4].map .ptr) .ret]) ls'
    (∀ t c i key x ctx, (t, Ev.start c i key x ctx) ∈ st.log → Composite docEnd x) ∧ ∀ t c e, (t, Ev.ret c e) ∈ st.log → e = none := by
  refine ⟨by decide +kernel, by decide +kernel, by decide +kernel, fun ls' hls' => ?_⟩
  obtain ⟨c, hret⟩ := ends (st := first) (by decide +kernel)
  have h4 : ∀ u ∈ lastSaw 4 first.log, made gen u.fs = true ∧ made prog u.fs = true := by decide +kernel
  have h6 : ∀ u ∈ lastSaw 6 first.log, made src u.fs = true ∧ made gen u.fs = true := by decide +kernel
  have hw : made src first.world.fs = true ∧ made gen first.world.fs = true ∧ made prog first.world.fs = true := by decide +kernel
  refine (C77_second_build (hex := hex) (sum := id) (s := docEnd) (own := own) (fun _ _ _ => trivial) own_keeps (fun o x ho hs => ?_)
    (fun _ _ _ _ _ _ => rfl) (d := 0) (ctx := ctx) (by decide) (by decide) ((rep [(2, 0), (4, 1), (8, 2), (7, 3), (11, 2), (8, 1), (7, 4), (11, 1), (3, 0)]).map .thread) (by simp)
    (st := first) (w := world fs0 []) (os := [4]) rfl hret (w' := first.world) (by decide +kernel) (fun _ h => h) (fun o x t ins outs ho hs hx u hu => ?_)
    (ctx' := ctx) ⟨by decide, by decide, by decide⟩ ls' (fun f hf => absurd hf (hls' f))).2
  · obtain ⟨-, rfl | rfl⟩ := stands ho hs
    · exact .files heap4
    · exact .files heap6
  · refine ⟨fun i hi => ?_, rfl⟩
    obtain ⟨-, rfl | rfl⟩ := stands ho hs
    · rw [heap4] at hx; cases hx
      have := h4 u (lastSaw_of hu)
      simp only [List.cons_append, List.nil_append, List.mem_cons, List.not_mem_nil, or_false] at hi
      rcases hi with rfl | rfl
      · exact made_eq hw.2.1 this.1
      · exact made_eq hw.2.2 this.2
    · rw [heap6] at hx; cases hx
      have := h6 u (lastSaw_of hu)
      simp only [List.cons_append, List.nil_append, List.mem_cons, List.not_mem_nil, or_false] at hi
      rcases hi with rfl | rfl
      · exact made_eq hw.1 this.1
      · exact made_eq hw.2.1 this.2

end AgainDemo

end Fab.Yaml
