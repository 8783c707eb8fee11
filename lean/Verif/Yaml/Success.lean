import Verif.Yaml.Blame
import Verif.Yaml.Minimal
import Verif.Yaml.Cancel

/-!
# C101: a build succeeds unless something in it fails

all.go, seq.go, argtarg.go, files.go:122-195 and yaml.go:100-121 make no errors of their own accord: what begins an error is a command, a name that nothing stands for, a file
that cannot be read, a database that fails, or a rule that cannot be described.
-/

namespace Fab.Yaml
open Path Cmd Files
open Runner (Proc TRef Env Ev State Reach Err Label LEv Runs allBody seqBody argBody nameBody)

section
variable {ρ : Type} {hex : Bytes → Str} {sum : Str → Str} {own : Own ρ} {s : St} {os : List Nat}

/-! ## Specification -/

/-- What can go wrong with a Files target itself (whose rule is `t`), when it is run with context `ctx` and what there is is `w`: it uses a database, and not for a dry run, and the
database fails, or the rule cannot be described, or an input or an output cannot be read.  (A file that does not exist is no problem.) -/
def Trouble (own : Own ρ) (s : St) (ctx : Ctx) (t : Nat) (ins outs : List Str) (w : World ρ) : Prop :=
  getHashDB ctx ≠ none ∧ getDryRun ctx = false ∧
  (w.hasFails = true ∧ getForce ctx = false ∨ w.addFails = true ∨ own.desc t (seen s w) = none ∨ ∃ i ∈ ins ++ outs, ¬ CanRead w.fs i)

/-- Nothing stands for a name that a build of `os` uses. -/
def UnknownName (s : St) (os : List Nat) : Prop :=
  ∃ o name, s.heap[o]? = some (.ref name) ∧ (s.reg.target name).1 = none ∧ (o ∈ os ∨ MayRun s os o ∨ ∃ y, MayRun s os y ∧ Uses s y o)

/-- Nothing has failed, in this history. -/
def NothingFailed (log : List (Nat × Ev (World ρ) Ctx)) : Prop :=
  (∀ t key tgt e, (t, Ev.finish key tgt (some e)) ∉ log) ∧ ∀ t c i e, (t, Ev.refuse c i e) ∉ log

/-- The first thing that has failed, in this history: either a target that is neither All, nor Seq, nor ArgTarget, nor Files, nor a name; or a Files target that had trouble itself
while it was running. -/
inductive FirstFailure (own : Own ρ) (s : St) (os : List Nat) (ctx : Ctx) (log : List (Nat × Ev (World ρ) Ctx)) : Prop
  | command {l₁ l₂ th key c e} : log = l₁ ++ (th, Ev.finish key c (some e)) :: l₂ → NothingFailed l₁ → MayRun s os c → ¬ Composite s c → FirstFailure own s os ctx log
  | files {l₁ l₂ th key x e t ins outs w} : log = l₁ ++ (th, Ev.finish key x (some e)) :: l₂ → NothingFailed l₁ → MayRun s os x →
      s.heap[x]? = some (.files t ins outs) → (th, Ev.act w) ∈ l₁ → Trouble own s ctx t ins outs w → FirstFailure own s os ctx log

/-! ## Proofs -/

/-- If the calls return nil, and the actions find what `G` says, then the process returns nil. -/
def Fine (G : World ρ → Prop) : P ρ → Prop
  | .ret e => e = none
  | .act _ k => ∀ w, G w → Fine G (k w)
  | .call _ _ k => Fine G (k none)

theorem fine_runs {G : World ρ → Prop} {p : P ρ} (hp : Fine G p) {h pos} (hr : Runs p h pos) (hG : ∀ w, LEv.act w ∈ h → G w) (hc : ∀ c e, LEv.ret c (some e) ∉ h) :
    match pos with
    | .at q => Fine G q
    | .inCall _ k => Fine G (k none) := by
  induction hr with
  | nil => exact hp
  | act w _ ih => exact ih (fun w' h' => hG w' (by simp [h'])) (fun c e h' => hc c e (by simp [h'])) w (hG w (by simp))
  | call c _ ih => exact ih (fun w' h' => hG w' (by simp [h'])) (fun c e h' => hc c e (by simp [h']))
  | @ret h' c' k' e _ ih =>
    cases e with
    | some e => exact absurd (by simp) (hc c' e)
    | none => exact ih (fun w' h' => hG w' (by simp [h'])) (fun c e h' => hc c e (by simp [h']))

theorem walk_total : ∀ (f : Forest) (item : Str) (m : HMap), f.Readable → ∃ m', walkForest hex item f m = .ok m'
  | .nil, item, m, _ => ⟨m, rfl⟩
  | .file n r d rest, item, m, h => by
    rw [walkForest]
    split
    · exact walk_total rest _ _ h.2
    · rw [if_pos h.1]; exact walk_total rest _ _ h.2
  | .dir n r sub rest, item, m, h => by
    rw [walkForest]
    split
    · exact walk_total rest _ _ h.2.2
    · rw [if_pos h.1]
      obtain ⟨m', h'⟩ := walk_total sub (join [item, n]) m h.2.1
      rw [h']
      exact walk_total rest _ _ h.2.2

theorem item_total {fs : FS} {i : Str} (h : CanRead fs i) (m : HMap) : ∃ m', hashItem hex fs i m = .ok m' := by
  unfold hashItem
  unfold CanRead at h
  split
  · exact ⟨_, rfl⟩
  · split
    · exact ⟨_, rfl⟩
    · rename_i h'; rw [h'] at h; exact h.elim
    · exact ⟨_, rfl⟩
    · rename_i h'; rw [h'] at h; exact nomatch h
    · rename_i h'; rw [h'] at h; exact walk_total _ _ _ h.2
    · rename_i h'; rw [h'] at h; exact nomatch h.1

section
variable {G : World ρ → Prop} {reg : GoMap Str Nat}

theorem fine_match {p : P ρ} (h : Fine G (withReg reg p)) : Fine G (withReg reg (match (none : Option Err) with | some e => .ret (some e) | none => p)) := h

theorem fine_findAll (is : List Str) (acc : List TRef) (k : List TRef → P ρ) (h : ∀ l, Fine G (withReg reg (k l))) : Fine G (withReg reg (findAll is acc k)) := by
  induction is generalizing acc with
  | nil => exact h _
  | cons i is ih => exact fun w _ => ih _

theorem fine_readItems (is : List Str) (hG : ∀ w, G w → ∀ i ∈ is, CanRead w.fs i) (m : HMap) (k : Except HErr HMap → P ρ) (h : ∀ m, Fine G (withReg reg (k (.ok m)))) :
    Fine G (withReg reg (Files.readItems hex is m k)) := by
  induction is generalizing m with
  | nil => exact h _
  | cons i is ih =>
    intro w hw
    obtain ⟨m', hm⟩ := item_total (hex := hex) (hG w hw i (by simp)) m
    show Fine G (withReg reg (match hashItem hex w.fs i m with | .ok m' => Files.readItems hex is m' k | .error e => k (.error e)))
    rw [hm]
    exact ih (fun w hw j hj => hG w hw j (by simp [hj])) m'

theorem fine_hash (ft : FilesT ρ) (hG : ∀ w, G w → (∀ i ∈ ft.ins ++ ft.outs, CanRead w.fs i) ∧ ft.desc { w with reg := reg } ≠ none) (k : Option Str → P ρ)
    (h : ∀ x, Fine G (withReg reg (k (some x)))) : Fine G (withReg reg (computeHash hex sum ft k)) := by
  unfold computeHash
  refine fine_readItems _ (fun w hw i hi => (hG w hw).1 i (by simp [hi])) _ _ fun mi => ?_
  dsimp only
  refine fine_readItems _ (fun w hw i hi => (hG w hw).1 i (by simp [hi])) _ _ fun mo => ?_
  dsimp only
  intro w hw
  dsimp only
  split
  · rename_i h'; exact absurd h' (hG w hw).2
  · exact h _

end

theorem fine_files (ctx : Ctx) (t : Nat) (ins outs : List Str) :
    Fine (fun w => ¬ Trouble own s ctx t ins outs w) (withReg s.filesReg (filesBody hex sum ⟨.ptr t, own.typ t, own.desc t, ins, outs⟩ ctx)) := by
  generalize hft : (⟨.ptr t, own.typ t, own.desc t, ins, outs⟩ : FilesT ρ) = ft
  have hG : ∀ d, getHashDB ctx = some d → getDryRun ctx = false → ∀ w, ¬ Trouble own s ctx t ins outs w →
      (∀ i ∈ ft.ins ++ ft.outs, CanRead w.fs i) ∧ ft.desc { w with reg := s.filesReg } ≠ none := by
    intro d hd hdry w hw
    subst hft
    constructor
    · intro i hi
      by_contra hno
      exact hw ⟨by rw [hd]; simp, hdry, .inr (.inr (.inr ⟨i, hi, hno⟩))⟩
    · exact fun hno => hw ⟨by rw [hd]; simp, hdry, .inr (.inr (.inl hno))⟩
  have hb : Fine (fun w => ¬ Trouble own s ctx t ins outs w) (withReg s.filesReg (filesBuild hex sum ft ctx)) := by
    unfold filesBuild
    rw [withReg]
    refine fine_match ?_
    split
    · rfl
    · rename_i d hd
      split
      · rfl
      · rename_i hdry
        simp only [Bool.not_eq_true] at hdry
        refine fine_hash _ (hG d hd hdry) _ fun x => ?_
        dsimp only
        intro w hw
        show (if w.addFails then some errAdd else none) = none
        rw [if_neg]
        intro ha
        exact hw ⟨by rw [hd]; simp, hdry, .inr (.inl ha)⟩
  have hm : Fine (fun w => ¬ Trouble own s ctx t ins outs w) (withReg s.filesReg (filesMain hex sum ft ctx)) := by
    unfold filesMain
    split
    · exact hb
    · rename_i d hd
      split
      · rename_i hmode
        simp only [Bool.and_eq_true, Bool.not_eq_true'] at hmode
        refine fine_hash _ (hG d hd hmode.2) _ fun x => ?_
        dsimp only
        intro w hw
        dsimp only
        split
        · rename_i ha
          exact absurd ⟨by rw [hd]; simp, hmode.2, .inl ⟨ha, hmode.1⟩⟩ hw
        · split
          · rfl
          · exact hb
      · exact hb
  unfold filesBody
  refine fine_findAll _ _ _ fun l => ?_
  split
  · exact hm
  · exact hm

/-- What the targets that are not commands do. -/
theorem fine_body {x : Nat} {ctx : Ctx} (hx : Composite s x) (hknown : ∀ name, s.heap[x]? = some (.ref name) → (s.reg.target name).1 ≠ none) {G : World ρ → Prop}
    (hG : ∀ t ins outs, s.heap[x]? = some (.files t ins outs) → ∀ w, G w → ¬ Trouble own s ctx t ins outs w) : Fine G ((buildEnv hex sum own s).body x ctx) := by
  have mono : ∀ {G G' : World ρ → Prop} {p : P ρ}, (∀ w, G w → G' w) → Fine G' p → Fine G p := by
    intro G G' p h hp
    induction p with
    | ret e => exact hp
    | act f k ih => exact fun w hw => ih w (hp w (h w hw))
    | call ctx refs k ih => exact ih none hp
  have hseq : ∀ l : List TRef, Fine G (seqBody (σ := World ρ) l ctx) := by
    intro l
    induction l with
    | nil => rfl
    | cons r l ih => exact ih
  unfold buildEnv
  dsimp only
  split
  · rfl
  · exact hseq _
  · rfl
  · rename_i t ins outs hh
    exact mono (hG _ _ _ hh) (fine_files ctx t ins outs)
  · rename_i name hh
    intro w _
    dsimp only
    split
    · rename_i e he
      unfold resolveName at he
      split at he
      · rename_i hn; exact absurd hn (hknown _ hh)
      · cases he
    · rfl
  · rename_i h1 h2 h3 h4 h5
    cases hx with
    | all h => exact absurd h (h1 _)
    | seq h => exact absurd h (h2 _)
    | arg h => exact absurd h (h3 _ _)
    | files h => exact absurd h (h4 _ _ _)
    | name h => exact absurd h (h5 _)

theorem first_of {α : Type} {Q : α → Prop} : ∀ {l : List α}, (∃ a ∈ l, Q a) → ∃ l₁ a l₂, l = l₁ ++ a :: l₂ ∧ Q a ∧ ∀ b ∈ l₁, ¬ Q b
  | [], h => by obtain ⟨a, h, -⟩ := h; cases h
  | b :: l, h => by
    by_cases hb : Q b
    · exact ⟨[], b, l, rfl, hb, by simp⟩
    · obtain ⟨a, h1, h2⟩ := h
      have : ∃ a ∈ l, Q a := by
        rcases List.mem_cons.1 h1 with rfl | h1
        · exact absurd h2 hb
        · exact ⟨a, h1, h2⟩
      obtain ⟨l₁, a, l₂, rfl, h4, h5⟩ := first_of this
      refine ⟨b :: l₁, a, l₂, rfl, h4, fun c hc => ?_⟩
      rcases List.mem_cons.1 hc with rfl | hc
      · exact hb
      · exact h5 c hc

/-- this is a failure -/
def IsFailure : Nat × Ev (World ρ) Ctx → Prop
  | (_, .finish _ _ (some _)) => True
  | (_, .refuse _ _ _) => True
  | _ => False

theorem nothing_failed {l : List (Nat × Ev (World ρ) Ctx)} (h : ∀ b ∈ l, ¬ IsFailure b) : NothingFailed l :=
  ⟨fun _ _ _ _ hm => h _ hm trivial, fun _ _ _ _ hm => h _ hm trivial⟩

/-- what is asked for is an argument, or used by what is run -/
theorem asked (hown : ∀ o ctx, NoRun (own.body o ctx)) {w : World ρ} {ctx : Ctx} {st : State (World ρ) Ctx}
    (h : Reach (buildEnv hex sum own s) w [.call ctx (os.map .ptr) .ret] st) {t c ctx₁ refs} (hc : (t, Ev.call c ctx₁ refs) ∈ st.log) :
    (∀ n, TRef.val n ∉ refs) ∧ ∀ o, TRef.ptr o ∈ refs → o ∈ os ∨ ∃ y, MayRun s os y ∧ Uses s y o := by
  obtain ⟨l₁, l₂, hl⟩ := List.append_of_mem hc
  rcases Runner.caller h hl with ⟨rfl, -⟩ | ⟨c', i', key, x, ctx', k, hst, hk⟩
  · obtain ⟨-, rfl, -⟩ := Runner.client_call h hc
    exact ⟨fun n hn => by simp at hn, fun o ho => .inl (by simpa using ho)⟩
  · refine ⟨fun n hn => (body_pointers hown _ _).no_val n (hk.mayAsk (r := .val n) (.now hn)), fun o ho => .inr ⟨x, ?_, ?_⟩⟩
    · exact (C76_build hown h).1 _ _ _ _ _ _ (by rw [hl]; exact List.mem_append_left _ hst)
    · exact mayAsk_below (body_below hown _ _) (hk.mayAsk (r := .ptr o) (.now ho))

theorem refuse_unknown (hown : ∀ o ctx, NoRun (own.body o ctx)) {w : World ρ} {ctx : Ctx} {st : State (World ρ) Ctx}
    (h : Reach (buildEnv hex sum own s) w [.call ctx (os.map .ptr) .ret] st) {t c i e} (hr : (t, Ev.refuse c i e) ∈ st.log) : UnknownName s os := by
  obtain ⟨l₁, l₂, hl, ctx₁, refs, hc, h1⟩ := h.evOk.mem hr
  have hask := asked hown h (Runner.sub_log hl hc)
  rcases h1 with ⟨n, h2, -⟩ | ⟨o, f, w', h2, h5, h6⟩
  · exact absurd (List.mem_of_getElem? h2) (hask.1 n)
  · have h3 := hask.2 o (List.mem_of_getElem? h2)
    unfold buildEnv at h5
    dsimp only at h5
    split at h5
    · rename_i name hname
      cases h5
      unfold resolveName at h6
      split at h6
      · rename_i hnone
        refine ⟨o, name, hname, hnone, ?_⟩
        rcases h3 with h3 | h3
        · exact .inl h3
        · exact .inr (.inr h3)
      · cases h6
    · cases h5

/-- as long as nothing has failed all calls have returned nil -/
theorem ret_nil {w : World ρ} {cl : List (P ρ)} {st : State (World ρ) Ctx} (h : Reach (buildEnv hex sum own s) w cl st) {l₁ l₂ : List (Nat × Ev (World ρ) Ctx)}
    (hl : st.log = l₁ ++ l₂) (hn : NothingFailed l₁) {t c e} : (t, Ev.ret c (some e)) ∉ l₁ := by
  intro hm
  obtain ⟨a, b, rfl⟩ := List.append_of_mem hm
  obtain ⟨ctx, refs, -, -, outs, -, h2, h3⟩ := h.evOk a (t, .ret c (some e)) (b ++ l₂) (by rw [hl]; simp)
  have : Runner.errJoin outs = none := by
    rw [Runner.errJoin_none]
    intro out hout
    obtain ⟨i, hi⟩ := List.mem_iff_getElem?.1 hout
    rcases h3 i out hi with ⟨t', e', h4, -⟩ | ⟨o, t', tgt, raw, -, h4, rfl, -⟩
    · exact absurd (List.mem_append_left _ h4) (hn.2 _ _ _ _)
    · cases raw with
      | none => rfl
      | some raw => exact absurd (List.mem_append_left _ h4) (hn.1 _ _ _ _)
  rw [this] at h2
  cases h2

/-- the settings of a context that matter here -/
def SameModes (c c' : Ctx) : Prop := getHashDB c = getHashDB c' ∧ getDryRun c = getDryRun c' ∧ getForce c = getForce c'

theorem Trouble.of {c c' : Ctx} {t : Nat} {ins outs : List Str} {w : World ρ} (h : Trouble own s c t ins outs w) (hc : SameModes c c') : Trouble own s c' t ins outs w := by
  unfold Trouble at *
  rw [← hc.1, ← hc.2.1, ← hc.2.2]
  exact h

theorem same_modes (hown : ∀ o ctx, NoRun (own.body o ctx)) {w : World ρ} {ctx : Ctx} {st : State (World ρ) Ctx}
    (h : Reach (buildEnv hex sum own s) w [.call ctx (os.map .ptr) .ret] st) {t c i key x ctx'} (hst : (t, Ev.start c i key x ctx') ∈ st.log) : SameModes ctx' ctx := by
  refine Runner.start_ctx (K := fun c => SameModes c ctx) (fun t c hk => build_ctxs (fun c l hk => ?_) hown t c hk) ?_ h _ _ _ _ _ _ hst
  · exact hk
  · intro p hp
    simp only [List.mem_singleton] at hp
    subst hp
    exact ⟨⟨rfl, rfl, rfl⟩, fun _ => trivial⟩

/-- **C101.** A build that returns an error has used a name that nothing stands for; or the first thing in it that failed was a command, or a Files target for which the database failed,
a file could not be read or the rule could not be described while it was running. -/
theorem C101_culprit (hown : ∀ o ctx, NoRun (own.body o ctx)) {w : World ρ} {ctx : Ctx} {st : State (World ρ) Ctx}
    (h : Reach (buildEnv hex sum own s) w [.call ctx (os.map .ptr) .ret] st) {n : Nat} {e : Err} (hret : (0, Ev.ret n (some e)) ∈ st.log) :
    UnknownName s os ∨ FirstFailure own s os ctx st.log := by
  obtain ⟨hmay, hstat⟩ := C76_build hown h
  have hbad : ∃ b ∈ st.log, IsFailure b := by
    by_contra hno
    have : (some e : Option Err) = none := (hstat n (some e) hret).1.2 ⟨?_, ?_⟩
    · cases this
    · intro t key tgt raw hf
      cases raw with
      | none => rfl
      | some raw => exact absurd ⟨_, hf, trivial⟩ hno
    · exact fun t c i e hr => hno ⟨_, hr, trivial⟩
  by_cases hu : UnknownName s os
  · exact .inl hu
  refine .inr ?_
  obtain ⟨l₁, b, l₂, hl, hb, hfirst⟩ := first_of hbad
  have hn := nothing_failed hfirst
  obtain ⟨t, ev⟩ := b
  cases ev with
  | refuse c i x =>
    exfalso
    exact hu (refuse_unknown hown h (by rw [hl]; simp : (t, Ev.refuse c i x) ∈ st.log))
  | finish key x raw =>
    cases raw with
    | none => exact hb.elim
    | some raw =>
      obtain ⟨c, i, ctx', hst, hruns⟩ := Runner.finish_path h hl
      have hx : MayRun s os x := hmay _ _ _ _ _ _ (by rw [hl]; exact List.mem_append_left _ hst)
      by_cases hc : Composite s x
      · by_contra hno
        have hfine : Fine (fun w => (t, Ev.act w) ∈ l₁) ((buildEnv hex sum own s).body x ctx') := by
          refine fine_body hc (fun name hname hnone => ?_) fun t' ins outs hx' w' hw' htr => ?_
          · exact hu ⟨x, name, hname, hnone, .inr (.inl hx)⟩
          · exact hno (.files hl hn hx hx' hw' (htr.of (same_modes hown h (by rw [hl]; exact List.mem_append_left _ hst))))
        have := fine_runs hfine hruns (fun w' hw' => Runner.mem_hist_act.1 hw') fun c e hc => ret_nil h hl hn (Runner.mem_hist_ret.1 hc)
        cases this
      · exact .command hl hn hx hc
  | _ => exact hb.elim

/-! ## Builds that succeed -/

/-- A command that makes no error, as long as what it finds is in order (`I`); and it leaves it in order. -/
def Sturdy (I : World ρ → Prop) : P ρ → Prop
  | .ret e => e = none
  | .act f k => ∀ w, I w → I (f w) ∧ Sturdy I (k w)
  | .call _ _ k => Sturdy I (k none)

/-- Everything is in order for a build of `os` with context `ctx`, as long as `I` holds, and it stays so:
* `known`: every name that is used stands for a target;
* `cmds`: the commands that the build may run succeed;
* `files`: the Files targets that the build may run have no trouble;
* `note`, `add`: remembering what a name stands for (yaml.go:109) and recording a hash do not matter. -/
structure InOrder (own : Own ρ) (s : St) (os : List Nat) (ctx : Ctx) (I : World ρ → Prop) : Prop where
  noRun : ∀ o ctx, NoRun (own.body o ctx)
  known : ¬ UnknownName s os
  cmds : ∀ c ctx', MayRun s os c → ¬ Composite s c → Sturdy I (own.body c ctx')
  files : ∀ x t ins outs, MayRun s os x → s.heap[x]? = some (.files t ins outs) → ∀ w, I w → ¬ Trouble own s ctx t ins outs w
  note : ∀ o w, I w → I { w with rest := own.note o w.rest }
  add : ∀ d h w, I w → I (dbAdd d h w)

section
variable {I : World ρ → Prop}

theorem sturdy_runs {p : P ρ} (hp : Sturdy I p) {h pos} (hr : Runs p h pos) (hI : ∀ w, LEv.act w ∈ h → I w) (hc : ∀ c e, LEv.ret c (some e) ∉ h) :
    match pos with
    | .at q => Sturdy I q
    | .inCall _ k => Sturdy I (k none) := by
  induction hr with
  | nil => exact hp
  | act w _ ih => exact (ih (fun w' h' => hI w' (by simp [h'])) (fun c e h' => hc c e (by simp [h'])) w (hI w (by simp))).2
  | call c _ ih => exact ih (fun w' h' => hI w' (by simp [h'])) (fun c e h' => hc c e (by simp [h']))
  | @ret h' c' k' e _ ih =>
    cases e with
    | some e => exact absurd (by simp) (hc c' e)
    | none => exact ih (fun w' h' => hI w' (by simp [h'])) (fun c e h' => hc c e (by simp [h']))

theorem sturdy_of {p : P ρ} (hk : p.Keeps I) (hf : Fine I p) : Sturdy I p := by
  induction p with
  | ret e => exact hf
  | act f k ih => exact fun w hw => ⟨hk.1 w hw, ih w (hk.2 w) (hf w hw)⟩
  | call ctx refs k ih => exact ih none (hk none) hf

theorem files_keep (hadd : ∀ d h w, I w → I (dbAdd d h w)) {ft : FilesT ρ} {ctx : Ctx} : (filesBody hex sum ft ctx).Keeps I := by
  have hb : (filesBuild hex sum ft ctx).Keeps I := by
    unfold filesBuild
    intro e
    dsimp only
    split
    · trivial
    · split
      · trivial
      · split
        · trivial
        · refine computeHash_keeps fun r => ?_
          try dsimp only
          split
          · trivial
          · exact ⟨fun w hw => hadd _ _ w hw, fun w => trivial⟩
  have hm : (filesMain hex sum ft ctx).Keeps I := by
    unfold filesMain
    split
    · exact hb
    · split
      · refine computeHash_keeps fun r => ?_
        try dsimp only
        split
        · trivial
        · refine ⟨fun _ h => h, fun w => ?_⟩
          dsimp only
          split
          · trivial
          · split
            · trivial
            · exact hb
      · exact hb
  unfold filesBody
  refine findAll_keeps fun l => ?_
  split
  · exact hm
  · intro e
    dsimp only
    split
    · trivial
    · exact hm

theorem sturdy_body {ctx : Ctx} (hi : InOrder own s os ctx I) {x : Nat} (hx : MayRun s os x) {ctx' : Ctx} (hc : SameModes ctx' ctx) :
    Sturdy I ((buildEnv hex sum own s).body x ctx') := by
  have hknown : ∀ name, s.heap[x]? = some (.ref name) → (s.reg.target name).1 ≠ none := fun name h1 h2 => hi.known ⟨x, name, h1, h2, .inr (.inl hx)⟩
  by_cases hcomp : Composite s x
  · refine sturdy_of ?_ (fine_body hcomp hknown fun t ins outs hf w hw htr => hi.files x t ins outs hx hf w hw (htr.of hc))
    have hseq : ∀ (ts : List TRef) (ctx : Ctx), (Runner.seqBody (σ := World ρ) ts ctx).Keeps I := by
      intro ts ctx
      induction ts with
      | nil => trivial
      | cons t ts ih =>
        intro e
        cases e with
        | some e => trivial
        | none => exact ih
    unfold buildEnv
    dsimp only
    split
    · exact fun e => trivial
    · exact hseq _ _
    · exact fun e => trivial
    · exact withReg_keeps (files_keep hi.add)
    · refine ⟨fun w hw => ?_, fun w => ?_⟩
      · unfold resolveName
        split
        · exact hw
        · exact hi.note _ _ hw
      · dsimp only
        split
        · trivial
        · exact fun e => trivial
    · rename_i h1 h2 h3 h4 h5
      cases hcomp with
      | all h => exact absurd h (h1 _)
      | seq h => exact absurd h (h2 _)
      | arg h => exact absurd h (h3 _ _)
      | files h => exact absurd h (h4 _ _ _)
      | name h => exact absurd h (h5 _)
  · have := hi.cmds x ctx' hx hcomp
    unfold buildEnv
    dsimp only
    split
    · rename_i h; exact absurd (.all h) hcomp
    · rename_i h; exact absurd (.seq h) hcomp
    · rename_i h; exact absurd (.arg h) hcomp
    · rename_i h; exact absurd (.files h) hcomp
    · rename_i h; exact absurd (.name h) hcomp
    · exact this

theorem in_order {ctx : Ctx} (hi : InOrder own s os ctx I) {w : World ρ} (hw : I w) (ls : List (Label (World ρ))) (hls : ∀ f, .extern f ∈ ls → ∀ w, I w → I (f w)) :
    I (buildRun hex sum own s os w ctx ls).world ∧ (∀ t w', (t, Ev.act w') ∈ (buildRun hex sum own s os w ctx ls).log → I w') ∧
      NothingFailed (buildRun hex sum own s os w ctx ls).log := by
  induction ls using List.reverseRecOn with
  | nil => exact ⟨hw, fun t w' h => absurd h List.not_mem_nil, nothing_failed fun b h => absurd h List.not_mem_nil⟩
  | append_singleton ls l ih =>
    obtain ⟨i1, i2, i3⟩ := ih fun f hf => hls f (by simp [hf])
    have hr := buildRun_reach (hex := hex) (sum := sum) (own := own) (s := s) (os := os) (w := w) (ctx := ctx) (ls := ls)
    have hr' := buildRun_reach (hex := hex) (sum := sum) (own := own) (s := s) (os := os) (w := w) (ctx := ctx) (ls := ls ++ [l])
    rw [buildRun_snoc] at hr' ⊢
    generalize buildRun hex sum own s os w ctx ls = st at *
    cases hs : Runner.lstep (buildEnv hex sum own s) st l with
    | none => exact ⟨i1, i2, i3⟩
    | some st' =>
      rw [hs] at hr'
      simp only [Option.getD_some] at hr' ⊢
      cases l with
      | extern f =>
        simp only [Runner.lstep, Option.some.injEq] at hs
        subst hs
        exact ⟨hls f (by simp) _ i1, i2, i3⟩
      | thread tid =>
        obtain ⟨⟨jb, ts⟩, hth, hc⟩ := Runner.step_cases hs
        obtain ⟨p, ho, hp⟩ := hr.localInv.pos _ _ _ hth
        have hnil : ∀ c e, LEv.ret c (some e) ∉ Runner.hist tid st.log := fun c e hm => ret_nil hr (l₂ := []) (by simp) i3 (Runner.mem_hist_ret.1 hm)
        have hact : ∀ w', LEv.act w' ∈ Runner.hist tid st.log → I w' := fun w' hm => i2 _ _ (Runner.mem_hist_act.1 hm)
        have hpI : jb = none ∨ (∃ j, jb = some j ∧ (tid, Ev.start j.call j.idx j.key j.tgt j.ctx) ∈ st.log) → Sturdy I p := by
          rintro (rfl | ⟨j, rfl, hst⟩)
          · have hlt := (List.getElem?_eq_some_iff.1 (show [Proc.call ctx (os.map TRef.ptr) .ret][tid]? = some p from ho)).1
            simp only [List.length_singleton] at hlt
            obtain rfl : tid = 0 := by omega
            have ho : some (Proc.call ctx (os.map TRef.ptr) .ret) = some p := ho
            cases ho
            exact rfl
          · cases ho
            exact sturdy_body hi ((C76_build hi.noRun hr).1 _ _ _ _ _ _ hst) (same_modes hi.noRun hr hst)
        have hstart : ts.owning = true → jb = none ∨ (∃ j, jb = some j ∧ (tid, Ev.start j.call j.idx j.key j.tgt j.ctx) ∈ st.log) := by
          intro how
          cases jb with
          | none => exact .inl rfl
          | some j => exact .inr ⟨j, rfl, hr.inv.b.started _ _ _ hth how⟩
        have quiet : ∀ {st'' : State (World ρ) Ctx} (new), st''.world = st.world → st''.log = st.log ++ new → (∀ b ∈ new, ¬ IsFailure b) → (∀ t w', (t, Ev.act w') ∈ new → I w') →
            I st''.world ∧ (∀ t w', (t, Ev.act w') ∈ st''.log → I w') ∧ NothingFailed st''.log := by
          intro st'' new h1 h2 h3 h4
          rw [h1, h2]
          refine ⟨i1, fun t w' hm => ?_, fun t key tgt e hm => ?_, fun t c i e hm => ?_⟩
          · rcases List.mem_append.1 hm with hm | hm
            exacts [i2 _ _ hm, h4 _ _ hm]
          · rcases List.mem_append.1 hm with hm | hm
            exacts [i3.1 _ _ _ _ hm, h3 _ hm trivial]
          · rcases List.mem_append.1 hm with hm | hm
            exacts [i3.2 _ _ _ _ hm, h3 _ hm trivial]
        cases hc
        case act f k h1 =>
          dsimp only at h1; subst h1
          have h2 : Sturdy I (.act f k) := sturdy_runs (hpI (hstart rfl)) hp hact hnil
          refine ⟨(h2 _ i1).1, fun t w' hm => ?_, fun t key tgt e hm => ?_, fun t c i e hm => ?_⟩
          · rcases List.mem_append.1 hm with hm | hm
            · exact i2 _ _ hm
            · simp at hm; rw [hm.2]; exact i1
          · rcases List.mem_append.1 hm with hm | hm
            · exact i3.1 _ _ _ _ hm
            · simp at hm
          · rcases List.mem_append.1 hm with hm | hm
            · exact i3.2 _ _ _ _ hm
            · simp at hm
        case finish e j h1 h2 =>
          dsimp only at h1 h2; subst h1
          have h3 : Sturdy I (.ret e) := sturdy_runs (hpI (hstart rfl)) hp hact hnil
          cases h3
          exact quiet _ rfl rfl (by simp [IsFailure]) (by simp)
        case refuse c i ctx₁ r rs k e w' h1 h2 =>
          exact absurd (refuse_unknown hi.noRun hr' (t := tid) (c := c) (i := i) (e := e) (by simp)) hi.known
        case spawn c i ctx₁ o rs k t w' h1 h2 =>
          rcases h2 with ⟨-, -, rfl⟩ | ⟨f, h3, h4⟩
          · exact quiet [] rfl (List.append_nil _).symm (by simp) (by simp)
          · refine ⟨?_, i2, i3⟩
            dsimp only
            unfold buildEnv at h3
            dsimp only at h3
            split at h3
            · rename_i name hname
              cases h3
              unfold resolveName at h4
              split at h4
              · cases h4
              · cases h4
                exact hi.note _ _ i1
            · cases h3
        all_goals first
          | exact quiet [] rfl (List.append_nil _).symm (by simp) (by simp)
          | exact quiet _ rfl rfl (by simp [IsFailure]) (by simp)

/-- when the goroutine that calls `Run` has ended, `Run` has returned -/
theorem client_done {ctx : Ctx} {w : World ρ} {st : State (World ρ) Ctx} (h : Reach (buildEnv hex sum own s) w [.call ctx (os.map .ptr) .ret] st) :
    ∀ jb, st.th 0 = some ⟨jb, .done⟩ → jb = none → ∃ n e, (0, Ev.ret n e) ∈ st.log := by
  induction h with
  | init => intro jb h1 _; simp [Runner.init, Runner.State.th] at h1
  | @step st st' l hr hs ih =>
    intro jb h1 h2
    subst h2
    cases l with
    | extern f =>
      simp only [Runner.lstep, Option.some.injEq] at hs
      subst hs
      exact ih none h1 rfl
    | thread tid =>
      obtain ⟨⟨jb, ts⟩, hth, hc⟩ := Runner.step_cases hs
      obtain ⟨p, ho, hp⟩ := hr.localInv.pos _ _ _ hth
      have hlt : tid < st.threads.length := (List.getElem?_eq_some_iff.1 hth).1
      have h0 : 0 < st.threads.length := by omega
      have old : st.th 0 = some ⟨none, .done⟩ → ∃ n e, (0, Ev.ret n e) ∈ st'.log := by
        intro h
        obtain ⟨n, e, hm⟩ := ih none h rfl
        obtain ⟨new, hnew⟩ := Runner.log_mono hc
        exact ⟨n, e, by rw [hnew]; exact List.mem_append_left _ hm⟩
      by_cases ht : tid = 0
      · subst ht
        cases hc
        case clientDone e g1 g2 =>
          dsimp only at g1 g2; subst g1; subst g2
          have ho : some (Proc.call ctx (os.map TRef.ptr) .ret) = some p := ho
          cases ho
          rcases Runner.call_ret_path hp with ⟨-, hh⟩ | ⟨c, -, hh⟩ | ⟨c, e', hh, -⟩
          · cases hh
          · cases hh
          · exact ⟨c, e', Runner.mem_hist_ret.1 (by rw [hh]; simp)⟩
        case wgDone j g1 g2 =>
          simp [Runner.State.th, h0] at h1
          subst h1
          cases g2
        all_goals simp [Runner.State.th, h0] at h1
      · apply old
        cases hc <;> simpa [Runner.State.th, List.getElem?_set, ht, List.getElem?_append, h0] using h1

/-- **C101, success.** If the names are known, and the commands succeed and the Files targets have no trouble as long as what there is is in order, and nothing from outside disturbs that,
then whenever the build returns, it returns nil. -/
theorem C101_success {ctx : Ctx} (hi : InOrder own s os ctx I) {w : World ρ} (hw : I w) {ls : List (Label (World ρ))} (hls : ∀ f, .extern f ∈ ls → ∀ w, I w → I (f w))
    {n : Nat} {e : Option Err} (hret : (0, Ev.ret n e) ∈ (buildRun hex sum own s os w ctx ls).log) : e = none := by
  cases e with
  | none => rfl
  | some e => exact absurd hret (ret_nil (buildRun_reach (hex := hex) (sum := sum) (own := own) (s := s) (os := os) (w := w) (ctx := ctx) (ls := ls)) (l₂ := []) (by simp) (in_order hi hw ls hls).2.2)

/-- A build of targets that do not use themselves ends; so if it can only return nil then it does. -/
theorem ends_nil {ctx : Ctx} (hown : ∀ o ctx, NoRun (own.body o ctx)) (hac : ∀ x, ¬ Relation.TransGen (Uses s) x x) {w : World ρ} {ls : List (Label (World ρ))}
    (hnil : ∀ (ts : List Nat) n e, (0, Ev.ret n e) ∈ (buildRun hex sum own s os w ctx (ls ++ ts.map .thread)).log → e = none) :
    (¬ ∃ (sts : Nat → State (World ρ) Ctx) (t : Nat → Nat), sts 0 = buildRun hex sum own s os w ctx ls ∧ ∀ n, Runner.step (buildEnv hex sum own s) (sts n) (t n) = some (sts (n + 1))) ∧
    (∃ ts : List Nat, ∃ n, (0, Ev.ret n none) ∈ (buildRun hex sum own s os w ctx (ls ++ ts.map .thread)).log) ∧
    ∀ ts : List Nat, (∀ t, Runner.step (buildEnv hex sum own s) (buildRun hex sum own s os w ctx (ls ++ ts.map .thread)) t = none) →
      ∃ n, (0, Ev.ret n none) ∈ (buildRun hex sum own s os w ctx (ls ++ ts.map .thread)).log := by
  have key : ∀ ts : List Nat, (∀ t, Runner.step (buildEnv hex sum own s) (buildRun hex sum own s os w ctx (ls ++ ts.map .thread)) t = none) →
      ∃ n, (0, Ev.ret n none) ∈ (buildRun hex sum own s os w ctx (ls ++ ts.map .thread)).log := by
    intro ts hstuck
    have hr := buildRun_reach (hex := hex) (sum := sum) (own := own) (s := s) (os := os) (w := w) (ctx := ctx) (ls := ls ++ ts.map .thread)
    have : ∃ n e, (0, Ev.ret n e) ∈ (buildRun hex sum own s os w ctx (ls ++ ts.map .thread)).log := by
      generalize buildRun hex sum own s os w ctx (ls ++ ts.map .thread) = st at hr hstuck
      obtain ⟨-, st', us, h2, -, -, h3⟩ := C76_returns hown hac hr
      have hsame : ∀ us : List Nat, Runner.runSched (buildEnv hex sum own s) st (us.map .thread) = st := by
        intro us
        induction us with
        | nil => rfl
        | cons u us ih =>
          rw [List.map_cons, Runner.runSched]
          rw [show Runner.lstep (buildEnv hex sum own s) st (.thread u) = none from hstuck u]
          exact ih
      rw [hsame] at h2
      subst h2
      obtain ⟨x, hx⟩ := Runner.client_job hr (t := 0) (by simp)
      have hd := h3 _ (List.mem_of_getElem? hx)
      cases x <;> simp [Runner.TSt.isDone] at hd
      exact client_done hr none hx rfl
    obtain ⟨n, e, hm⟩ := this
    exact ⟨n, by rw [← hnil ts n e hm]; exact hm⟩
  obtain ⟨h1, st', ts, h2, h3, -⟩ := C76_returns hown hac (buildRun_reach (hex := hex) (sum := sum) (own := own) (s := s) (os := os) (w := w) (ctx := ctx) (ls := ls))
  have h2' : buildRun hex sum own s os w ctx (ls ++ ts.map .thread) = st' := by rw [buildRun_append, h2]
  exact ⟨h1, ⟨ts, key ts fun t => by rw [h2']; exact h3 t⟩, key⟩

/-- **C101, the end.** If, moreover, no target uses itself, then nothing keeps the build from succeeding: at every moment, whatever the schedule was before, it cannot go on for ever,
it can go on until it has returned nil, and wherever it cannot go on it has returned nil. -/
theorem C101_ends {ctx : Ctx} (hi : InOrder own s os ctx I) (hac : ∀ x, ¬ Relation.TransGen (Uses s) x x) {w : World ρ} (hw : I w) {ls : List (Label (World ρ))}
    (hls : ∀ f, .extern f ∈ ls → ∀ w, I w → I (f w)) :
    (¬ ∃ (sts : Nat → State (World ρ) Ctx) (t : Nat → Nat), sts 0 = buildRun hex sum own s os w ctx ls ∧ ∀ n, Runner.step (buildEnv hex sum own s) (sts n) (t n) = some (sts (n + 1))) ∧
    (∃ ts : List Nat, ∃ n, (0, Ev.ret n none) ∈ (buildRun hex sum own s os w ctx (ls ++ ts.map .thread)).log) ∧
    ∀ ts : List Nat, (∀ t, Runner.step (buildEnv hex sum own s) (buildRun hex sum own s os w ctx (ls ++ ts.map .thread)) t = none) →
      ∃ n, (0, Ev.ret n none) ∈ (buildRun hex sum own s os w ctx (ls ++ ts.map .thread)).log :=
  ends_nil hi.noRun hac fun ts _ _ => C101_success hi hw fun f hf => hls f (by simpa using hf)

end

end
/-! ## Concrete cases -/

namespace SuccessDemo
open AgainDemo (own ctx fs0 fs1 fs2 hex)
open BuildDemo (docEnd)

instance decReadable : ∀ f : Forest, Decidable f.Readable
  | .nil => isTrue trivial
  | .file _ r _ rest => have := decReadable rest; inferInstanceAs (Decidable (r = true ∧ rest.Readable))
  | .dir _ r sub rest => have := decReadable sub; have := decReadable rest; inferInstanceAs (Decidable (r = true ∧ sub.Readable ∧ rest.Readable))

instance (fs : FS) (i : Str) : Decidable (CanRead fs i) := by
  unfold CanRead
  split <;> infer_instance

/-- The database works, and the files are those from before Gen, between Gen and Prog, or after Prog. -/
def Fit (w : World Unit) : Prop := w.hasFails = false ∧ w.addFails = false ∧ (w.fs = fs0 ∨ w.fs = fs1 ∨ w.fs = fs2)

theorem names_known {o : Nat} {name : Str} (h : docEnd.heap[o]? = some (.ref name)) : (docEnd.reg.target name).1 ≠ none := by
  have key : ∀ o < 11, (match docEnd.heap[o]? with | some (Obj.ref n) => (docEnd.reg.target n).1.isSome | _ => true) = true := by decide +kernel
  have hlt : o < 11 := by
    have := (List.getElem?_eq_some_iff.1 h).1
    rwa [BuildDemo.doc_objs.1] at this
  have := key o hlt
  rw [h] at this
  dsimp only at this
  intro hn
  rw [hn] at this
  cases this

theorem readable {x t : Nat} {ins outs : List Str} (h : docEnd.heap[x]? = some (.files t ins outs)) :
    ∀ i ∈ ins ++ outs, CanRead fs0 i ∧ CanRead fs1 i ∧ CanRead fs2 i := by
  have key : ∀ x < 11, (match docEnd.heap[x]? with | some (Obj.files _ ins outs) => (ins ++ outs).all fun i => decide (CanRead fs0 i ∧ CanRead fs1 i ∧ CanRead fs2 i) | _ => true) = true := by
    decide +kernel
  have hlt : x < 11 := by
    have := (List.getElem?_eq_some_iff.1 h).1
    rwa [BuildDemo.doc_objs.1] at this
  have := key x hlt
  rw [h] at this
  exact fun i hi => of_decide_eq_true (List.all_eq_true.1 this i hi)

/-- The project of `AgainDemo` is in order. -/
theorem in_order : InOrder own docEnd [4] ctx Fit where
  noRun := fun _ _ _ => trivial
  known := fun ⟨o, name, h1, h2, _⟩ => names_known h1 h2
  cmds := by
    intro c ctx' _ _ w hw
    refine ⟨?_, rfl⟩
    dsimp only
    split
    · exact ⟨hw.1, hw.2.1, .inr (.inl rfl)⟩
    · split
      · exact ⟨hw.1, hw.2.1, .inr (.inr rfl)⟩
      · exact hw
  files := by
    rintro x t ins outs - hx w ⟨h1, h2, h3⟩ ⟨-, -, h4 | h4 | h4 | ⟨i, hi, h4⟩⟩
    · rw [h1] at h4; exact nomatch h4.1
    · rw [h2] at h4; cases h4
    · cases h4
    · obtain ⟨r0, r1, r2⟩ := readable hx i hi
      rcases h3 with h3 | h3 | h3 <;> rw [h3] at h4 <;> exact h4 ‹_›
  note := fun o w hw => hw
  add := by
    intro d h w hw
    unfold dbAdd
    split
    · exact hw
    · exact hw

/-- The build of Prog ends, and returns nil, whatever the schedule; with any database, and whichever of the files are there. -/
example {w : World Unit} (hw : Fit w) (ts : List Nat) :
    ∃ us : List Nat, ∃ n, (0, Ev.ret n none) ∈ (buildRun hex id own docEnd [4] w ctx (ts.map .thread ++ us.map .thread)).log :=
  (C101_ends in_order BuildDemo.doc_acyclic hw (fun f hf => by simp at hf)).2.1

/-- When the database fails, then the build fails; and it is Gen that failed first. -/
def broken : World Unit := { AgainDemo.world fs0 [] with hasFails := true }

example : ∃ ts n e, (0, Ev.ret n (some e)) ∈ (buildRun hex id own docEnd [4] broken ctx ts).log ∧
    ¬ UnknownName docEnd [4] ∧ FirstFailure own docEnd [4] ctx (buildRun hex id own docEnd [4] broken ctx ts).log := by
  let ts : List (Label (World Unit)) := ((List.replicate 30 [0, 1, 2]).flatten).map .thread
  have h1 : AgainDemo.retOf (buildRun hex id own docEnd [4] broken ctx ts) = [false] := by decide +kernel
  have h2 : ∃ n e, (0, Ev.ret n (some e)) ∈ (buildRun hex id own docEnd [4] broken ctx ts).log := by
    generalize buildRun hex id own docEnd [4] broken ctx ts = st at h1
    have hb : false ∈ AgainDemo.retOf st := by rw [h1]; simp
    obtain ⟨⟨t, e⟩, hm, he⟩ := List.mem_filterMap.1 hb
    split at he
    · rename_i c e' heq
      cases heq
      cases e' with
      | some e => exact ⟨c, e, hm⟩
      | none => cases he
    · cases he
  obtain ⟨n, e, h2⟩ := h2
  have h3 : ¬ UnknownName docEnd [4] := fun ⟨o, name, h1, h2, _⟩ => names_known h1 h2
  exact ⟨ts, n, e, h2, h3, (C101_culprit (own := own) (fun _ _ _ => trivial) buildRun_reach h2).resolve_left h3⟩

/-- When the command of Extra fails (and there is no database) then it is the first to fail. -/
example : ∃ st n e, Reach (buildEnv BuildDemo.hex BuildDemo.sum BuildDemo.own docEnd) (BuildDemo.world true) [.call .root ([2].map .ptr) .ret] st ∧ (0, Ev.ret n (some e)) ∈ st.log ∧
    ∃ l₁ l₂ th key c e', st.log = l₁ ++ (th, Ev.finish key c (some e')) :: l₂ ∧ NothingFailed l₁ ∧ ¬ Composite docEnd c := by
  obtain ⟨n, e, h1, h2⟩ := BuildDemo.ends (st := BuildDemo.run docEnd true [2] BuildDemo.sched1) (b := some true) (by decide +kernel)
  have hr := BuildDemo.run_reach docEnd true [2] BuildDemo.sched1
  generalize BuildDemo.run docEnd true [2] BuildDemo.sched1 = st at h1 hr
  cases e with
  | none => exact nomatch h2.1 rfl
  | some e =>
    refine ⟨st, n, e, hr, h1, ?_⟩
    rcases C101_culprit BuildDemo.own_noRun hr h1 with ⟨o, name, g1, g2, -⟩ | h
    · exact absurd g2 (names_known g1)
    · cases h with
      | command g1 g2 g3 g4 => exact ⟨_, _, _, _, _, _, g1, g2, g4⟩
      | files g1 g2 g3 g4 g5 g6 => exact absurd rfl g6.1

end SuccessDemo
end Fab.Yaml
