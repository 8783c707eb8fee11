import Verif.Yaml.Right
import Verif.Yaml.Again
import Verif.Runner.Determ
import Verif.Clean
import Verif.Command

/-!
# C83: a dry run is a rehearsal

`fab -n` runs the targets with `DryRun` set in the context (/repo/main.go:96-98, 128).  Commands, Clean and the tools then do nothing
(C40, C41); a Files target runs its subtarget without looking at the hash database (/repo/files.go:129, 150).
-/

namespace Fab.Yaml
open Path Cmd Files
open Runner (Proc TRef Env Ev State Reach allBody seqBody argBody nameBody)

section
variable {ρ : Type} {hex : Bytes → Str} {sum : Str → Str} {own : Own ρ} {s : St}

/-! ## Specification -/

/-- The references that a build of the targets `os` may follow: `os`, and what is used by the targets that these stand for, and so on. -/
inductive Asked (s : St) (os : List Nat) : Nat → Prop
  | arg {o} : o ∈ os → Asked s os o
  | dep {x t o} : Asked s os x → Stands s x t → Uses s t o → Asked s os o

/-- The process runs no targets, changes no file and no database, and returns nil. -/
def Idle : P ρ → Prop
  | .ret e => e = none
  | .act f k => (∀ w, (f w).fs = w.fs ∧ (f w).db = w.db) ∧ ∀ w, Idle (k w)
  | .call .. => False

/-- The targets other than lists, names, `ArgTarget` and Files respect `DryRun`: they do nothing then (for commands and Clean this is C40 and C41). -/
def Own.RespectsDryRun (own : Own ρ) : Prop := ∀ o ctx, getDryRun ctx = true → Idle (own.body o ctx)

/-- Every name that a build of `os` may come across is the name of a target.  (A target may itself be a name, `A: B`.) -/
def NamesKnown (s : St) (os : List Nat) : Prop := ∀ x, Asked s os x ∨ MayRun s os x → ∃ t, Stands s x t

/-- Target `x` was begun. -/
def Began (st : State (World ρ) Ctx) (x : Nat) : Prop := ∃ t c i key ctx, (t, Ev.start c i key x ctx) ∈ st.log

/-- `Run(os...)` by the only client has returned `e`. -/
def Gave (st : State (World ρ) Ctx) (e : Option Runner.Err) : Prop := ∃ c, (0, Ev.ret c e) ∈ st.log

/-! ## What is needed with contexts of a kind -/

/-- The targets without which `Run(refs...)`, with contexts in `K`, cannot succeed. -/
inductive NeededIn {σ C : Type} (env : Env σ C) (K : C → Prop) (refs : List TRef) : TRef → Prop
  | arg {r} : r ∈ refs → NeededIn env K refs r
  | dep {o r} : NeededIn env K refs (.ptr o) → (∀ t ctx, K ctx → env.CanRun o t → Runner.MustAsk r (env.body t ctx)) → NeededIn env K refs r

theorem needed_in {σ C : Type} {env : Env σ C} {K : C → Prop} (hp : env.PassesOn) (ha : env.DistinctAddrs)
    (hb : ∀ t ctx, K ctx → (env.body t ctx).Ctxs K) {w : σ} {ctx₀ : C} (hK : K ctx₀) {refs₀ : List TRef}
    {st : State σ C} (h : Reach env w [.call ctx₀ refs₀ .ret] st) {c₀} (hret : (0, Ev.ret c₀ none) ∈ st.log) {r : TRef}
    (hr : NeededIn env K refs₀ r) : Runner.FinishedOK env st.log r := by
  have key : ∀ {t c ctx refs}, (t, Ev.call c ctx refs) ∈ st.log → ∀ r ∈ refs, Runner.FinishedOK env st.log r := fun hc r hm =>
    Runner.ok_of_ret_none h (l₁ := st.log) (l₂ := []) (by simp) hc (Runner.all_nil hp h hret hc) r hm
  have hctx := Runner.start_ctx hb (cl := [.call ctx₀ refs₀ .ret]) (by simp [Proc.Ctxs, hK]) h
  induction hr with
  | arg hm =>
    obtain ⟨ctx', refs', hh⟩ := h.inv.f.retEv _ _ _ hret
    have h1 := (h.inv.f.callEv _ _ _ _).1 hh
    obtain ⟨-, rfl, -⟩ := Runner.client_call h h1
    exact key h1 _ hm
  | @dep o r _ hmust ih =>
    obtain ⟨o', t, tgt, he, hf⟩ := ih
    cases he
    obtain ⟨m₁, m₂, hm⟩ := List.append_of_mem hf
    obtain ⟨c, i, ctx, hst, hruns⟩ := Runner.finish_path h hm
    rcases hruns.asked (hmust tgt ctx (hctx _ _ _ _ _ _ (Runner.sub_log hm hst)) (Runner.finish_tgt h (fun o' ho' => ha o' o ho') hf)) with
      ⟨c', ctx', refs', h1, h2⟩ | h1
    · exact key (Runner.sub_log hm (Runner.mem_hist_call.1 h1)) _ h2
    · exact absurd rfl h1

/-- With `DryRun`, with `Force` or without a database a Files target runs its subtarget. -/
def Always1 (ctx : Ctx) : Prop := getDryRun ctx = true ∨ getForce ctx = true ∨ getHashDB ctx = none

theorem mustAsk_sub (t : Nat) (typ desc) (ins outs : List Str) (reg : GoMap Str Nat) {ctx : Ctx} (hc : Always1 ctx) :
    Runner.MustAsk (.ptr t) (withReg reg (filesBody hex sum (⟨.ptr t, typ, desc, ins, outs⟩ : FilesT ρ) ctx)) := by
  have hm : Runner.MustAsk (.ptr t) (withReg reg (filesMain hex sum (⟨.ptr t, typ, desc, ins, outs⟩ : FilesT ρ) ctx)) := by
    have hb : Runner.MustAsk (.ptr t) (withReg reg (filesBuild hex sum (⟨.ptr t, typ, desc, ins, outs⟩ : FilesT ρ) ctx)) := by
      unfold filesBuild
      rw [withReg]
      exact .inl (by simp)
    unfold filesMain
    split
    · exact hb
    · rename_i d hd
      rw [if_neg]
      · exact hb
      · rcases hc with h | h | h
        · simp [h]
        · simp [h]
        · rw [hd] at h; cases h
  unfold filesBody
  refine q_findAll (Q := Runner.MustAsk (.ptr t)) (fun f k h => h) reg _ _ _ ?_
  split
  · exact hm
  · rw [withReg]
    refine .inr fun e => ?_
    cases e with
    | none => exact hm
    | some e => simp [withReg, Runner.MustAsk]

theorem uses_mustAsk {x y : Nat} (h : Uses s x y) {ctx : Ctx} (hc : Always1 ctx) : Runner.MustAsk (.ptr y) ((buildEnv hex sum own s).body x ctx) := by
  cases h with
  | needs h => exact body_mustAsk h ctx
  | files h =>
    unfold buildEnv
    dsimp only
    rw [h]
    exact mustAsk_sub _ _ _ _ _ _ hc

theorem always_args {ctx : Ctx} {l : List String} (h : Always1 ctx) : Always1 (withArgs ctx l) := by
  obtain ⟨-, h1, h2, -, h3⟩ := C18_withArgs_frame ctx l
  unfold Always1
  rwa [h1, h2, h3]

theorem asked_needed {os : List Nat} {o : Nat} (h : Asked s os o) : NeededIn (buildEnv hex sum own s) Always1 (os.map .ptr) (.ptr o) := by
  induction h with
  | arg hm => exact .arg (by simpa using hm)
  | dep _ hst hn ih =>
    refine .dep ih fun t' ctx hc hcan => ?_
    cases (canRun_stands hcan).uniq hst
    exact uses_mustAsk hn hc

theorem mayRun_iff {os : List Nat} {t : Nat} : MayRun s os t ↔ ∃ o, Asked s os o ∧ Stands s o t := by
  constructor
  · intro h
    induction h with
    | arg hm hs => exact ⟨_, .arg hm, hs⟩
    | dep _ hu hs ih =>
      obtain ⟨o, h1, h2⟩ := ih
      exact ⟨_, .dep h1 h2 hu, hs⟩
  · rintro ⟨o, h1, h2⟩
    induction h1 generalizing t with
    | arg hm => exact .arg hm h2
    | dep _ hst hu ih => exact .dep (ih hst) hu h2

/-- If such a build succeeds, all references were good and everything was run. -/
theorem all_run (hown : ∀ o ctx, NoRun (own.body o ctx)) {w : World ρ} {ctx : Ctx} (hc : Always1 ctx) {os : List Nat} {st : State (World ρ) Ctx}
    (h : Reach (buildEnv hex sum own s) w [.call ctx (os.map .ptr) .ret] st) (hg : Gave st none) {o : Nat} (ho : Asked s os o) :
    ∃ t, Stands s o t ∧ Began st t := by
  obtain ⟨c, hret⟩ := hg
  obtain ⟨o', th, t, h1, h2⟩ := needed_in (K := Always1) (body_passesOn hown) distinct (fun t ctx hk => build_ctxs (K := Always1) (fun _ _ => always_args) hown t ctx hk) hc h hret
    (asked_needed ho)
  cases h1
  refine ⟨t, canRun_stands (Runner.finish_tgt h (fun _ h => h) h2), ?_⟩
  obtain ⟨l₁, l₂, hl, c, i, ctx, hs⟩ := h.evOk.mem h2
  exact ⟨_, _, _, _, _, Runner.sub_log hl hs⟩

/-! ## A dry run succeeds -/

/-- All calls are with `DryRun` and with references that a build of `os` may follow, and if all calls succeed then so does the process. -/
def Calm (s : St) (os : List Nat) : P ρ → Prop
  | .ret e => e = none
  | .act _ k => ∀ w, Calm s os (k w)
  | .call _ refs k => (∀ r ∈ refs, ∃ o, r = .ptr o ∧ Asked s os o) ∧ Calm s os (k none)

theorem Idle.calm {os : List Nat} {p : P ρ} (h : Idle p) : Calm s os p := by
  induction p with
  | ret e => exact h
  | act f k ih => exact fun w => ih w (h.2 w)
  | call ctx refs k ih => exact h.elim

theorem Idle.noRun {p : P ρ} (h : Idle p) : NoRun p := by
  induction p with
  | ret e => trivial
  | act f k ih => exact fun w => ih w (h.2 w)
  | call ctx refs k ih => exact h.elim

theorem calm_files {os : List Nat} (t : Nat) (typ desc) (ins outs : List Str) (reg : GoMap Str Nat) {ctx : Ctx} (hc : getDryRun ctx = true) (h1 : Asked s os t)
    (h2 : ∀ i ∈ ins, ∀ y, findInFilesRegistry reg i = some y → Asked s os y) :
    Calm s os (withReg reg (filesBody hex sum (⟨.ptr t, typ, desc, ins, outs⟩ : FilesT ρ) ctx)) := by
  have hb : Calm s os (withReg reg (filesBuild hex sum (⟨.ptr t, typ, desc, ins, outs⟩ : FilesT ρ) ctx)) := by
    unfold filesBuild
    rw [withReg]
    refine ⟨fun r hr => ⟨t, by simpa using hr, h1⟩, ?_⟩
    dsimp only
    split
    · rfl
    · rw [if_pos hc]; rfl
  have hm : Calm s os (withReg reg (filesMain hex sum (⟨.ptr t, typ, desc, ins, outs⟩ : FilesT ρ) ctx)) := by
    unfold filesMain
    split
    · exact hb
    · rw [if_neg (by simp [hc])]; exact hb
  unfold filesBody
  refine q_findAll (Q := Calm s os) (fun f k h => h) reg _ _ _ ?_
  rw [List.nil_append]
  split
  · exact hm
  · rw [withReg]
    refine ⟨fun r hr => ?_, hm⟩
    simp only [pres, List.mem_flatMap] at hr
    obtain ⟨i, hi, hr⟩ := hr
    cases hf : findInFilesRegistry reg i with
    | none => rw [hf] at hr; simp at hr
    | some y => rw [hf] at hr; simp at hr; exact ⟨y, hr, h2 i hi y hf⟩

theorem body_calm (hown : own.RespectsDryRun) {os : List Nat} (hn : NamesKnown s os) {o t : Nat} (ho : Asked s os o) (hst : Stands s o t)
    {ctx : Ctx} (hc : getDryRun ctx = true) :
    Calm s os ((buildEnv hex sum own s).body t ctx) := by
  have hu : ∀ {y}, Uses s t y → Asked s os y := fun h => .dep ho hst h
  have hseq : ∀ (ts : List Nat), (∀ y ∈ ts, Asked s os y) → Calm s os (seqBody (σ := World ρ) (ts.map .ptr) ctx) := by
    intro ts
    induction ts with
    | nil => intro _; rfl
    | cons t ts ih =>
      intro h
      exact ⟨fun r hr => ⟨t, by simpa using hr, h _ (by simp)⟩, ih fun y hy => h y (by simp [hy])⟩
  unfold buildEnv
  dsimp only
  split
  · rename_i ts h
    refine ⟨fun r hr => ?_, rfl⟩
    obtain ⟨y, hy, rfl⟩ := List.mem_map.1 hr
    exact ⟨y, rfl, hu (.needs (.all h hy))⟩
  · rename_i ts h
    exact hseq ts fun y hy => hu (.needs (.seq h hy))
  · rename_i y args h
    exact ⟨fun r hr => ⟨y, by simpa using hr, hu (.needs (.arg h))⟩, rfl⟩
  · rename_i y ins outs h
    exact calm_files _ _ _ _ _ _ hc (hu (.files h)) fun i hi y hy => hu (.needs (.input h hi hy))
  · rename_i name h
    intro w
    cases hy : (s.reg.target name).1 with
    | none =>
      obtain ⟨t', ⟨n, h1, h2⟩ | ⟨h1, -⟩⟩ := hn t (.inr (mayRun_iff.2 ⟨o, ho, hst⟩))
      · rw [h] at h1; cases h1; rw [hy] at h2; cases h2
      · exact absurd h (h1 _)
    | some y =>
      simp only [resolveName, hy]
      exact ⟨fun r hr => ⟨y, by simpa using hr, hu (.needs (.name h hy))⟩, rfl⟩
  · exact (hown t ctx hc).calm

theorem dry_calm (hown : own.RespectsDryRun) {os : List Nat} (hn : NamesKnown s os) {refs : List TRef} {outs : List (Option Runner.Err)}
    (h : Runner.BigAll (buildEnv hex sum own s) (fun ctx => getDryRun ctx = true) refs outs) (hr : ∀ r ∈ refs, ∃ o, r = .ptr o ∧ Asked s os o) :
    ∀ x ∈ outs, x = none := by
  refine Runner.BigAll.rec (env := buildEnv hex sum own s) (K := fun ctx => getDryRun ctx = true)
    (motive_1 := fun p e _ => Calm s os p → e = none)
    (motive_2 := fun refs outs _ => (∀ r ∈ refs, ∃ o, r = .ptr o ∧ Asked s os o) → ∀ x ∈ outs, x = none)
    (motive_3 := fun r out _ => (∃ o, r = .ptr o ∧ Asked s os o) → out = none)
    ?_ ?_ ?_ ?_ ?_ ?_ ?_ ?_ ?_ h hr
  · exact fun e h => h
  · exact fun w _ ih h => ih (h w)
  · intro ctx refs k e outs _ _ ih1 ih2 h
    rw [Runner.errJoin_none.2 (ih1 h.1)] at ih2
    exact ih2 h.2
  · simp
  · intro r rs out outs _ _ ih1 ih2 h x hx
    rcases List.mem_cons.1 hx with rfl | hx
    · exact ih1 (h _ (by simp))
    · exact ih2 (fun r hr => h r (by simp [hr])) x hx
  · rintro n ⟨o, h, -⟩; cases h
  · rintro o f w e h1 h2 ⟨o', h, ho⟩
    cases h
    exfalso
    obtain ⟨t, ⟨name, h3, h4⟩ | ⟨h3, -⟩⟩ := hn o (.inl ho)
    · simp only [buildEnv, h3] at h1
      cases h1
      simp [resolveName, h4] at h2
    · simp only [buildEnv] at h1
      cases h1
  · rintro o f w t ctx raw h1 h2 hk _ ih ⟨o', h, ho⟩
    cases h
    rw [ih (body_calm hown hn ho (canRun_stands (.inr ⟨f, w, h1, h2⟩)) hk)]
    rfl
  · rintro o ctx raw h1 hk _ ih ⟨o', h, ho⟩
    cases h
    rw [ih (body_calm hown hn ho (canRun_stands (.inl ⟨h1, rfl⟩)) hk)]
    rfl

theorem names_known {ctx : Ctx} (hown : ∀ o ctx, NoRun (own.body o ctx)) {w : World ρ} (hc : Always1 ctx) {os : List Nat} {st : State (World ρ) Ctx}
    (h : Reach (buildEnv hex sum own s) w [.call ctx (os.map .ptr) .ret] st) (hg : Gave st none) : NamesKnown s os := by
  rintro x (hx | hx)
  · obtain ⟨t, h1, -⟩ := all_run hown hc h hg hx
    exact ⟨t, h1⟩
  · by_contra hno
    obtain ⟨o, ho, hst⟩ := mayRun_iff.1 hx
    obtain ⟨c, hret⟩ := hg
    have hneed : NeededIn (buildEnv hex sum own s) Always1 (os.map .ptr) (.val 0) := by
      refine .dep (asked_needed ho) fun t' ctx _ hcan => ?_
      cases (canRun_stands hcan).uniq hst
      cases hx : s.heap[x]? with
      | none => exact absurd (Exists.intro x (Or.inr (And.intro (fun n (hn : _ = _) => by rw [hx] at hn; cases hn) rfl))) hno
      | some ob =>
        cases ob with
        | ref name =>
          cases hy : (s.reg.target name).1 with
          | some y => exact absurd ⟨y, .inl ⟨name, hx, hy⟩⟩ hno
          | none =>
            simp only [buildEnv, hx]
            intro w
            simp [resolveName, hy, Runner.MustAsk]
        | _ => exact absurd (Exists.intro x (Or.inr (And.intro (fun n (hn : _ = _) => by rw [hx] at hn; cases hn) rfl))) hno
    obtain ⟨_, _, _, h1, -⟩ := needed_in (K := Always1) (body_passesOn hown) distinct (fun t ctx hk => build_ctxs (K := Always1) (fun _ _ => always_args) hown t ctx hk) hc h hret hneed
    cases h1

/-! ## A dry run touches nothing -/

/-- no file and no database is changed -/
def SameFiles (w w' : World ρ) : Prop := w'.fs = w.fs ∧ w'.db = w.db

theorem Idle.acts {p : P ρ} (h : Idle p) : p.Acts SameFiles := by
  induction p with
  | ret e => trivial
  | act f k ih => exact ⟨h.1, fun w => ih w (h.2 w)⟩
  | call ctx refs k ih => exact h.elim

theorem acts_files (ft : FilesT ρ) (reg : GoMap Str Nat) {ctx : Ctx} (hc : getDryRun ctx = true) :
    (withReg reg (filesBody hex sum ft ctx)).Acts SameFiles := by
  have hb : (withReg reg (filesBuild hex sum ft ctx)).Acts SameFiles := by
    unfold filesBuild
    rw [withReg]
    intro e
    cases e with
    | some e => trivial
    | none =>
      dsimp only
      split
      · trivial
      · rw [if_pos hc]; trivial
  have hm : (withReg reg (filesMain hex sum ft ctx)).Acts SameFiles := by
    unfold filesMain
    split
    · exact hb
    · rw [if_neg (by simp [hc])]; exact hb
  have key : ∀ (is : List Str) (acc : List TRef) (k : List TRef → P ρ), (∀ l, (withReg reg (k l)).Acts SameFiles) → (withReg reg (findAll is acc k)).Acts SameFiles := by
    intro is
    induction is with
    | nil => intro acc k h; exact h _
    | cons i is ih => intro acc k h; exact ⟨fun w => ⟨rfl, rfl⟩, fun w => ih _ _ h⟩
  unfold filesBody
  refine key _ _ _ fun l => ?_
  split
  · exact hm
  · rw [withReg]
    intro e
    cases e with
    | some e => trivial
    | none => exact hm

theorem body_acts (hdry : own.RespectsDryRun) (x : Nat) {ctx : Ctx} (hc : getDryRun ctx = true) : ((buildEnv hex sum own s).body x ctx).Acts SameFiles := by
  have hseq : ∀ l : List TRef, (seqBody (σ := World ρ) l ctx).Acts SameFiles := by
    intro l
    induction l with
    | nil => trivial
    | cons r l ih =>
      intro e
      cases e with
      | none => exact ih
      | some e => trivial
  unfold buildEnv
  dsimp only
  split
  · exact fun e => trivial
  · exact hseq _
  · exact fun e => trivial
  · exact acts_files _ _ hc
  · refine ⟨fun w => ?_, fun w => ?_⟩
    · unfold resolveName
      split <;> exact ⟨rfl, rfl⟩
    · dsimp only
      split
      · trivial
      · exact fun e => trivial
  · exact (hdry x ctx hc).acts

theorem runs_acts {Q : World ρ → World ρ → Prop} {p : P ρ} {h pos} (hp : p.Acts Q) (hr : Runner.Runs p h pos) : (match pos with
      | .at q => q.Acts Q
      | .inCall _ k => ∀ e, (k e).Acts Q) := by
  induction hr with
  | nil => exact hp
  | act w _ ih => exact ih.2 w
  | call c _ ih => exact ih
  | ret e _ ih => exact ih e

/-! ## The theorems -/

/-- **C83, a dry run succeeds.** `fab -n` with the targets `os` returns nil exactly if every name that it may come across is known. -/
theorem C83_succeeds (hown : ∀ o ctx, NoRun (own.body o ctx)) (hdry : own.RespectsDryRun) {w : World ρ} {ctx : Ctx} (hc : getDryRun ctx = true) {os : List Nat}
    {st : State (World ρ) Ctx} (h : Reach (buildEnv hex sum own s) w [.call ctx (os.map .ptr) .ret] st) {e} (hg : Gave st e) :
    e = none ↔ NamesKnown s os := by
  constructor
  · rintro rfl
    exact names_known hown (.inl hc) h hg
  · intro hn
    obtain ⟨c, hret⟩ := hg
    have hb : ∀ o ctx, getDryRun ctx = true → Runner.CallsIn (fun ctx => getDryRun ctx = true) ((buildEnv hex sum own s).body o ctx) := by
      intro o ctx hk
      have := build_ctxs (hex := hex) (sum := sum) (s := s) (K := fun ctx => getDryRun ctx = true) (fun ctx l h => by rw [(C18_withArgs_frame ctx l).2.1]; exact h) hown o ctx hk
      revert this
      generalize (buildEnv hex sum own s).body o ctx = p
      intro hp
      induction p with
      | ret e => trivial
      | act f k ih => exact fun w => ih w (hp w)
      | call ctx refs k ih => exact ⟨hp.1, fun e => ih e (hp.2 e)⟩
    obtain ⟨ctx', refs', hh⟩ := h.inv.f.retEv _ _ _ hret
    have h1 := (h.inv.f.callEv _ _ _ _).1 hh
    obtain ⟨-, rfl, -⟩ := Runner.client_call h h1
    obtain ⟨outs, h2, rfl⟩ := (Runner.C74_sequential distinct hb (by simp [Runner.CallsIn, hc]) h).2 _ _ _ _ _ _ h1 hret
    refine Runner.errJoin_none.2 (dry_calm hdry hn h2 fun r hr => ?_)
    obtain ⟨o, ho, rfl⟩ := List.mem_map.1 hr
    exact ⟨o, rfl, .arg ho⟩

/-- **C83, what a dry run runs.** A dry run that returned nil has begun exactly the targets that a build of `os` may run. -/
theorem C83_exactly (hown : ∀ o ctx, NoRun (own.body o ctx)) {w : World ρ} {ctx : Ctx} (hc : getDryRun ctx = true) {os : List Nat}
    {st : State (World ρ) Ctx} (h : Reach (buildEnv hex sum own s) w [.call ctx (os.map .ptr) .ret] st) (hg : Gave st none) (x : Nat) :
    Began st x ↔ MayRun s os x := by
  constructor
  · rintro ⟨t, c, i, key, ctx', hst⟩
    exact (C76_build hown h).1 _ _ _ _ _ _ hst
  · intro hx
    obtain ⟨o, ho, hst⟩ := mayRun_iff.1 hx
    obtain ⟨t, h1, h2⟩ := all_run hown (.inl hc) h hg ho
    cases h1.uniq hst
    exact h2

/-- **C83, nothing is missing.** Whatever a build of `os` begins, in whatever state of the files and the database, and however it ends: a dry run that returned nil has shown it. -/
theorem C83_shows_everything_partial (hown : ∀ o ctx, NoRun (own.body o ctx)) {w w' : World ρ} {ctx ctx' : Ctx} (hc : getDryRun ctx = true) {os : List Nat}
    {st st' : State (World ρ) Ctx} (h : Reach (buildEnv hex sum own s) w [.call ctx (os.map .ptr) .ret] st) (hg : Gave st none)
    (h' : Reach (buildEnv hex sum own s) w' [.call ctx' (os.map .ptr) .ret] st') {x : Nat} (hx : Began st' x) : Began st x := by
  obtain ⟨t, c, i, key, ctx', hst⟩ := hx
  exact (C83_exactly hown hc h hg x).2 ((C76_build hown h').1 _ _ _ _ _ _ hst)

/-- **C83, with `-f`.** If a build with Force, or without a database, returns nil then it has begun the very targets that a dry run begins. -/
theorem C83_forced_partial (hown : ∀ o ctx, NoRun (own.body o ctx)) {w w' : World ρ} {ctx ctx' : Ctx} (hc : getDryRun ctx = true) {os : List Nat}
    {st st' : State (World ρ) Ctx} (h : Reach (buildEnv hex sum own s) w [.call ctx (os.map .ptr) .ret] st) (hg : Gave st none)
    (hc' : getForce ctx' = true ∨ getHashDB ctx' = none)
    (h' : Reach (buildEnv hex sum own s) w' [.call ctx' (os.map .ptr) .ret] st') (hg' : Gave st' none) (x : Nat) : Began st x ↔ Began st' x := by
  refine ⟨fun hx => ?_, C83_shows_everything_partial hown hc h hg h'⟩
  obtain ⟨o, ho, hst⟩ := mayRun_iff.1 ((C83_exactly hown hc h hg x).1 hx)
  obtain ⟨t, h1, h2⟩ := all_run hown (.inr hc') h' hg' ho
  cases h1.uniq hst
  exact h2

/-- **C83, nothing is touched.** No step of a dry run changes a file or the hash database, successful or not. -/
theorem C83_touches_nothing (hown : ∀ o ctx, NoRun (own.body o ctx)) (hdry : own.RespectsDryRun) {w : World ρ} {ctx : Ctx} (hc : getDryRun ctx = true) {os : List Nat}
    {st st' : State (World ρ) Ctx} (h : Reach (buildEnv hex sum own s) w [.call ctx (os.map .ptr) .ret] st) {t : Nat}
    (hs : Runner.step (buildEnv hex sum own s) st t = some st') : st'.world.fs = st.world.fs ∧ st'.world.db = st.world.db := by
  obtain ⟨th, hth, hsc⟩ := Runner.step_cases hs
  rcases step_fs hsc with ⟨f, k, h1, h2, -⟩ | ⟨-, h1⟩
  · obtain ⟨jb, ts⟩ := th
    cases h1
    obtain ⟨p, ho, hp⟩ := h.localInv.pos _ _ _ hth
    have hacts : p.Acts SameFiles := by
      cases jb with
      | none =>
        have hm := List.mem_of_getElem? (show [Proc.call ctx (os.map TRef.ptr) .ret][t]? = some p from ho)
        rw [List.mem_singleton.1 hm]
        exact fun e => trivial
      | some j =>
        have ho : p = _ := ho
        rw [ho]
        have hst := h.inv.b.started t j _ hth rfl
        exact body_acts hdry _ (Runner.start_ctx (K := fun ctx => getDryRun ctx = true) (fun t ctx hk => build_ctxs (K := fun ctx => getDryRun ctx = true)
          (fun ctx l h => by rw [(C18_withArgs_frame ctx l).2.1]; exact h) hown t ctx hk) (by simp [Proc.Ctxs, hc]) h _ _ _ _ _ _ hst)
    rw [h2]
    exact (runs_acts hacts hp).1 _
  · exact h1

/-! ## Commands and Clean respect `DryRun` -/

/-- The body of a Command (`Cmd.run`, /repo/command.go:188-347) that runs in one step: `look` is what it finds, `store` is what becomes of the world when it has run. -/
def commandBody (look : World ρ → Cmd.OS) (store : World ρ → Cmd.Res → World ρ) (wrap : Cmd.CErr → Runner.Err) (c : Command) (ctx : Ctx) : P ρ :=
  .act (fun w => store w (Cmd.run (look w) ctx c)) fun w => .ret ((Cmd.run (look w) ctx c).err.map wrap)

/-- The body of a Clean (`CleanT.cleanRun`, /repo/clean.go:38-71) that runs in one step; `get` and `set` give and store the object. -/
def cleanBody (deny : List Str → Bool) (reg : List Str) (get : ρ → CleanT.Clean) (set : CleanT.Clean → ρ → ρ) (err : Runner.Err) (ctx : Ctx) : P ρ :=
  .act (fun w => let r := CleanT.cleanRun deny ctx reg (get w.rest) w.fs; { w with fs := r.1, rest := set r.2.1 w.rest })
    fun w => .ret (if (CleanT.cleanRun deny ctx reg (get w.rest) w.fs).2.2 then none else some err)

/-- **C83, Command.** If storing files that have not changed changes nothing, Commands respect `DryRun`. -/
theorem C83_command {look : World ρ → Cmd.OS} {store : World ρ → Cmd.Res → World ρ} {wrap : Cmd.CErr → Runner.Err} {c : Command} {ctx : Ctx}
    (hs : ∀ w (r : Cmd.Res), r.files = (look w).files → (store w r).fs = w.fs ∧ (store w r).db = w.db) (hc : getDryRun ctx = true) :
    Idle (commandBody look store wrap c ctx) :=
  ⟨fun w => hs w _ (Cmd.C40_dry_run (look w) ctx c hc).2.2.1, fun w => by
    show Option.map _ _ = none
    rw [(Cmd.C40_dry_run (look w) ctx c hc).1]; rfl⟩

/-- **C83, Clean.** Clean respects `DryRun`. -/
theorem C83_clean {deny : List Str → Bool} {reg : List Str} {get : ρ → CleanT.Clean} {set : CleanT.Clean → ρ → ρ} {err : Runner.Err} {ctx : Ctx}
    (hc : getDryRun ctx = true) : Idle (cleanBody deny reg get set err ctx) := by
  have key : ∀ c fs, (CleanT.cleanRun deny ctx reg c fs).1 = fs ∧ (CleanT.cleanRun deny ctx reg c fs).2.2 = true := by
    intro c fs
    unfold CleanT.cleanRun
    simp [hc]
  refine ⟨fun w => ⟨(key _ _).1, rfl⟩, fun w => ?_⟩
  show (if _ then _ else _) = none
  rw [(key _ _).2, if_pos rfl]

end

/-! ## A concrete case, and what is false -/

namespace DryDemo
open BuildDemo (docEnd doc doc_loaded)
open AgainDemo (fs0 fs1 fs2 hex world ctx rep)

/-- As in `AgainDemo`: the rule of Gen (5) writes gen.c, that of Prog (3) writes prog; but not with `DryRun`. -/
def own : Own Unit where
  body o ctx := if getDryRun ctx then .ret none else
    .act (fun w => if o = 5 then { w with fs := fs1 } else if o = 3 then { w with fs := fs2 } else w) fun _ => .ret none
  note _ := id
  typ _ := []
  desc t _ := some (.str (if t = 5 then "gen".toList else "prog".toList))

theorem own_noRun : ∀ o ctx, NoRun (own.body o ctx) := by
  intro o ctx
  show NoRun (if getDryRun ctx then _ else _)
  split
  · trivial
  · exact fun _ => trivial

theorem own_dry : own.RespectsDryRun := by
  intro o ctx h
  show Idle (if getDryRun ctx then _ else _)
  rw [if_pos h]
  rfl

def run (w : World Unit) (ctx : Ctx) (ts : List Nat) : State (World Unit) Ctx :=
  Runner.runSched (buildEnv hex id own docEnd) (Runner.init w [.call ctx ([4].map .ptr) .ret]) (ts.map .thread)

theorem run_reach (w : World Unit) (ctx : Ctx) (ts : List Nat) :
    Reach (buildEnv hex id own docEnd) w [.call ctx ([4].map .ptr) .ret] (run w ctx ts) := Runner.runSched_reach _ .init

def dryCtx : Ctx := withDryRun ctx true

/-- a build, another build, and then a dry run -/
def first : State (World Unit) Ctx := run (world fs0 []) ctx (rep [(2, 0), (4, 1), (8, 2), (7, 3), (11, 2), (8, 1), (7, 4), (11, 1), (3, 0)])
def second : State (World Unit) Ctx := run first.world ctx (rep [(2, 0), (4, 1), (11, 2), (11, 1), (3, 0)])
def dry : State (World Unit) Ctx := run first.world dryCtx (rep [(2, 0), (4, 1), (8, 2), (7, 3), (11, 2), (8, 1), (7, 4), (11, 1), (3, 0)])

theorem began_iff {st : State (World Unit) Ctx} {x : Nat} : Began st x ↔ x ∈ AgainDemo.startOf st := by
  constructor
  · rintro ⟨t, c, i, key, ctx, h⟩
    exact List.mem_filterMap.2 ⟨_, h, rfl⟩
  · intro h
    obtain ⟨⟨t, e⟩, hm, he⟩ := List.mem_filterMap.1 h
    split at he
    · rename_i heq
      cases heq; cases he
      exact ⟨_, _, _, _, _, hm⟩
    · cases he

theorem dry_gave : Gave dry none := AgainDemo.ends (st := dry) (by decide +kernel)
theorem second_gave : Gave second none := AgainDemo.ends (st := second) (by decide +kernel)

/-- The dry run of Prog (4) begins what a build may run: the Files targets and their rules. -/
example : (∀ x, MayRun docEnd [4] x ↔ x ∈ [4, 6, 5, 3]) ∧ NamesKnown docEnd [4] := by
  constructor
  · intro x
    rw [← C83_exactly own_noRun (show getDryRun dryCtx = true by decide) (run_reach first.world dryCtx _) dry_gave x, began_iff,
      show AgainDemo.startOf (run first.world dryCtx _) = [4, 6, 5, 3] from by decide +kernel]
  · exact (C83_succeeds own_noRun own_dry (show getDryRun dryCtx = true by decide) (run_reach first.world dryCtx _) dry_gave).1 rfl

/-- A name that is not known: the dry run returns an error. -/
def lostEnd : St := { docEnd with heap := docEnd.heap ++ [.ref "Nothing".toList] }

example : ¬ NamesKnown lostEnd [docEnd.heap.length] := by
  intro h
  obtain ⟨t, ⟨n, h1, h2⟩ | ⟨h1, -⟩⟩ := h docEnd.heap.length (.inl (.arg (List.mem_singleton.2 rfl)))
  · have h3 : lostEnd.heap[docEnd.heap.length]? = some (.ref "Nothing".toList) := by simp [lostEnd]
    rw [h3] at h1; cases h1
    have : (lostEnd.reg.target "Nothing".toList).1 = none := by decide +kernel
    rw [this] at h2; cases h2
  · exact h1 "Nothing".toList (by simp [lostEnd])

/-- a forced build, as in `C83_forced_partial` -/
def forced : State (World Unit) Ctx := run first.world (withForce ctx true) (rep [(2, 0), (4, 1), (8, 2), (7, 3), (11, 2), (8, 1), (7, 4), (11, 1), (3, 0)])

example : Gave forced none ∧ ∀ x, Began dry x ↔ Began forced x := by
  have hg : Gave forced none := AgainDemo.ends (st := forced) (by decide +kernel)
  exact ⟨hg, C83_forced_partial own_noRun (show getDryRun dryCtx = true by decide) (run_reach first.world dryCtx _) dry_gave (.inl (by decide))
    (run_reach first.world (withForce ctx true) _) hg⟩

/-- **C83 is false the other way round**: a dry run shows targets that a build would not run.  Everything is up to date here: a build runs no rule, but the dry
run shows the rules 5 and 3, because a Files target does not look at the database in a dry run (files.go:129). -/
theorem _root_.Fab.Yaml.C83_counterexample_up_to_date : ∃ L s own, Loaded L s ∧ own.RespectsDryRun ∧ ∃ (w : World Unit) (dry build : State (World Unit) Ctx),
    Reach (buildEnv hex id own s) w [.call dryCtx [.ptr 4] .ret] dry ∧ Gave dry none ∧
    Reach (buildEnv hex id own s) w [.call ctx [.ptr 4] .ret] build ∧ Gave build none ∧
    Began dry 5 ∧ Began dry 3 ∧ ∀ x, Began build x → x = 4 ∨ x = 6 :=
  ⟨_, docEnd, own, doc_loaded, own_dry, first.world, dry, second, run_reach .., dry_gave, run_reach .., second_gave,
    began_iff.2 (by decide +kernel), began_iff.2 (by decide +kernel), fun x hx => by
      have h := began_iff.1 hx
      rw [show AgainDemo.startOf second = [4, 6] from by decide +kernel] at h
      simpa using h⟩

end DryDemo

end Fab.Yaml
