import Verif.Yaml.Build
import Verif.Runner.Errors

/-!
# C87 for projects that are described in YAML

The targets that YAML files describe hand on errors, and do not pretend that targets have failed; so the error that a build returns says exactly what failed.
-/

namespace Fab.Yaml
open Path Cmd Files
open Runner (Proc TRef Env Ev State Reach Err allBody seqBody argBody nameBody)

section
variable {ρ : Type} {hex : Bytes → Str} {sum : Str → Str} {own : Own ρ} {s : St}

/-! ## Specification -/

/-- The errors that `p` makes itself do not name targets.  (They come from other packages: `os/exec`, `os`, `encoding/json`.) -/
def PlainErrs : P ρ → Prop
  | .ret e => ∀ r t ts x, e = some r → ¬ r.Leads (t :: ts) x
  | .act _ k => ∀ w, PlainErrs (k w)
  | .call _ _ k => ∀ e, PlainErrs (k e)

/-- `ts` is a chain of targets that begins with one of `os` (or what that stands for) and in which each target uses the next (or a name of it). -/
inductive Chain (s : St) (os : List Nat) : List Nat → Prop
  | arg {o t} : o ∈ os → Stands s o t → Chain s os [t]
  | use {ts x y t} : Chain s os (ts ++ [x]) → Uses s x y → Stands s y t → Chain s os (ts ++ [x] ++ [t])

/-! ## Proofs -/

theorem NoRun.handsOn {p : P ρ} (h : NoRun p) : p.HandsOn := by
  induction p with
  | ret e => trivial
  | act f k ih => exact fun w => ih w (h w)
  | call ctx refs k ih => exact h.elim

theorem PlainErrs.frank {p : P ρ} (hp : PlainErrs p) : ∀ known, p.Frank known := by
  induction p with
  | ret e => exact fun known r t ts x h1 h2 => absurd h2 (hp r t ts x h1)
  | act f k ih => exact fun known w => ih w (hp w) known
  | call ctx refs k ih => exact fun known e => ih e (hp e) _

theorem handsOn_files (ft : FilesT ρ) (reg : GoMap Str Nat) (ctx : Ctx) : (withReg reg (filesBody hex sum ft ctx)).HandsOn := by
  have hQ : ∀ (f : World ρ → World ρ) (k : World ρ → P ρ), (∀ w, (k w).HandsOn) → Proc.HandsOn (.act f k) := fun f k h => h
  have hm : (withReg reg (filesMain hex sum ft ctx)).HandsOn := by
    refine q_main (Q := Proc.HandsOn) hQ reg _ _ (fun _ => trivial) fun k hk hn e => ?_
    cases e with
    | none => exact ⟨hn, fun x hx => by cases hx⟩
    | some e => rw [hk]; exact ⟨trivial, fun x hx => ⟨x, hx, .here⟩⟩
  unfold filesBody
  refine q_findAll (Q := Proc.HandsOn) hQ reg _ _ _ ?_
  rw [List.nil_append]
  split
  · exact hm
  · rw [withReg]
    intro e
    cases e with
    | none => exact ⟨hm, fun x hx => by cases hx⟩
    | some e => exact ⟨trivial, fun x hx => ⟨x, hx, .here⟩⟩

/-- like `q_main`, and the errors that are not handed on are plain -/
theorem q_main_plain {Q : P ρ → Prop} (hQ : ∀ f k, (∀ w, Q (k w)) → Q (.act f k)) (reg : GoMap Str Nat) (ft : FilesT ρ) (ctx : Ctx)
    (h0 : Q (.ret none)) (h1 : ∀ n, Q (.ret (some (.atom n)))) (hc : ∀ k, (∀ e, k (some e) = .ret (some e)) → Q (k none) → Q (.call ctx [ft.target] k)) :
    Q (withReg reg (filesMain hex sum ft ctx)) := by
  have hb : Q (withReg reg (filesBuild hex sum ft ctx)) := by
    unfold filesBuild
    rw [withReg]
    refine hc _ (fun e => rfl) ?_
    dsimp only
    split
    · exact h0
    · split
      · exact h0
      · refine q_computeHash hQ reg _ _ fun r => ?_
        split
        · exact h1 _
        · rw [withReg]
          refine hQ _ _ fun w => ?_
          show Q (.ret (if _ then _ else _))
          split
          · exact h1 _
          · exact h0
  unfold filesMain
  split
  · exact hb
  · split
    · refine q_computeHash hQ reg _ _ fun r => ?_
      split
      · exact h1 _
      · rw [withReg]
        refine hQ _ _ fun w => ?_
        split
        · exact h1 _
        · split
          · exact h0
          · exact hb
    · exact hb

theorem frank_files (ft : FilesT ρ) (reg : GoMap Str Nat) (ctx : Ctx) : (withReg reg (filesBody hex sum ft ctx)).Frank [] := by
  have hQ : ∀ (f : World ρ → World ρ) (k : World ρ → P ρ), (∀ w, ∀ known, (k w).Frank known) → ∀ known, Proc.Frank known (.act f k) :=
    fun f k h known w => h w known
  have hret : ∀ e : Err, ∀ known, (Proc.ret (some e) : P ρ).Frank (e :: known) := fun e known r t ts x h1 h2 => by
    cases h1; exact ⟨_, by simp, h2⟩
  have hm : ∀ known, (withReg reg (filesMain hex sum ft ctx)).Frank known := by
    refine q_main_plain (Q := fun p => ∀ known, p.Frank known) hQ reg _ _ (fun known r t ts x h => by cases h)
      (fun n known r t ts x h1 h2 => by cases h1; cases h2) fun k hk hn known e => ?_
    cases e with
    | none => exact hn _
    | some e => rw [hk]; exact hret _ _
  unfold filesBody
  refine q_findAll (Q := fun p => ∀ known, p.Frank known) hQ reg _ _ _ ?_ []
  rw [List.nil_append]
  split
  · exact hm
  · rw [withReg]
    intro known e
    cases e with
    | none => exact hm _
    | some e => exact hret _ _

theorem resolve_plain {name : Str} {o : Nat} {w : World ρ} {e : Err} (h : (resolveName own s o name w).2 = .error e) {t ts x} : ¬ e.Leads (t :: ts) x := by
  unfold resolveName at h
  split at h
  · cases h; intro h; cases h
  · cases h

theorem build_handsOn (hown : ∀ o ctx, NoRun (own.body o ctx)) : (buildEnv hex sum own s).HandsOn := by
  intro x ctx
  unfold buildEnv
  dsimp only
  split
  · exact Runner.allBody_handsOn _ _
  · exact Runner.seqBody_handsOn _ _
  · exact Runner.argBody_handsOn _ _ _
  · exact handsOn_files _ _ _
  · exact Runner.nameBody_handsOn _ _
  · exact (hown x ctx).handsOn

theorem build_frank (hplain : ∀ o ctx, PlainErrs (own.body o ctx)) : (buildEnv hex sum own s).Frank := by
  refine ⟨fun x ctx => ?_, fun o f w e h1 h2 t ts x => ?_⟩
  · unfold buildEnv
    dsimp only
    split
    · exact Runner.allBody_frank _ _
    · exact Runner.seqBody_frank _ _ _
    · exact Runner.argBody_frank _ _ _
    · exact frank_files _ _ _
    · exact Runner.nameBody_frank (fun w e he t ts x => resolve_plain he) _
    · exact (hplain x ctx).frank _
  · unfold buildEnv at h1
    dsimp only at h1
    split at h1
    · cases h1; exact resolve_plain h2
    · cases h1

/-- All references are pointers. -/
def Pointers : P ρ → Prop
  | .ret _ => True
  | .act _ k => ∀ w, Pointers (k w)
  | .call _ refs k => (∀ n, TRef.val n ∉ refs) ∧ ∀ e, Pointers (k e)

theorem Pointers.no_val {p : P ρ} (h : Pointers p) (n : Nat) : ¬ Runner.MayAsk (.val n) p := by
  intro hm
  induction hm with
  | now hm => exact h.1 n hm
  | act w _ ih => exact ih (h w)
  | call e _ ih => exact ih (h.2 e)

theorem NoRun.pointers {p : P ρ} (h : NoRun p) : Pointers p := by
  induction p with
  | ret e => trivial
  | act f k ih => exact fun w => ih w (h w)
  | call ctx refs k ih => exact h.elim

theorem pointers_files (t : Nat) (typ desc) (ins outs : List Str) (reg : GoMap Str Nat) (ctx : Ctx) :
    Pointers (withReg reg (filesBody hex sum (⟨.ptr t, typ, desc, ins, outs⟩ : FilesT ρ) ctx)) := by
  have hQ : ∀ (f : World ρ → World ρ) (k : World ρ → P ρ), (∀ w, Pointers (k w)) → Pointers (.act f k) := fun f k h => h
  have hm : Pointers (withReg reg (filesMain hex sum (⟨.ptr t, typ, desc, ins, outs⟩ : FilesT ρ) ctx)) := by
    refine q_main (Q := Pointers) hQ reg _ _ (fun _ => trivial) fun k hk hn => ⟨fun n hn => by simp at hn, fun e => ?_⟩
    cases e with
    | none => exact hn
    | some e => rw [hk]; trivial
  unfold filesBody
  refine q_findAll (Q := Pointers) hQ reg _ _ _ ?_
  rw [List.nil_append]
  split
  · exact hm
  · rw [withReg]
    refine ⟨fun n hn => by simp [pres] at hn, fun e => ?_⟩
    cases e with
    | none => exact hm
    | some e => trivial

theorem body_pointers (hown : ∀ o ctx, NoRun (own.body o ctx)) (x : Nat) (ctx : Ctx) : Pointers ((buildEnv hex sum own s).body x ctx) := by
  have hseq : ∀ ts : List Nat, Pointers (seqBody (σ := World ρ) (ts.map .ptr) ctx) := by
    intro ts
    induction ts with
    | nil => trivial
    | cons t ts ih =>
      refine ⟨fun n hn => by simp at hn, fun e => ?_⟩
      cases e with
      | some e => trivial
      | none => exact ih
  unfold buildEnv
  dsimp only
  split
  · exact ⟨fun n hn => by simp at hn, fun e => trivial⟩
  · exact hseq _
  · exact ⟨fun n hn => by simp at hn, fun e => trivial⟩
  · exact pointers_files _ _ _ _ _ _ _
  · intro w
    dsimp only
    split
    · trivial
    · exact ⟨fun n hn => by simp at hn, fun e => trivial⟩
  · exact (hown x ctx).pointers

/-- A target asks only for what it uses. -/
theorem askedFor_uses (hown : ∀ o ctx, NoRun (own.body o ctx)) {w : World ρ} {ctx : Ctx} {os : List Nat} {st : State (World ρ) Ctx}
    (h : Reach (buildEnv hex sum own s) w [.call ctx (os.map .ptr) .ret] st) {x y : Nat} (ha : Runner.AskedFor st.log x (.ptr y)) : Uses s x y := by
  obtain ⟨th, c, i, key, ctx₁, c', ctx', refs, h1, h2, h3⟩ := ha
  obtain ⟨l₁, l₂, hl⟩ := List.append_of_mem h2
  obtain ⟨k, hr⟩ := Runner.call_path h hl h1
  exact mayAsk_below (body_below hown x ctx₁) (hr.mayAsk (r := .ptr y) (.now h3))

theorem way_chain (hown : ∀ o ctx, NoRun (own.body o ctx)) {w : World ρ} {ctx : Ctx} {os : List Nat} {st : State (World ρ) Ctx}
    (h : Reach (buildEnv hex sum own s) w [.call ctx (os.map .ptr) .ret] st) {ts : List Nat}
    (hw : Runner.Way (buildEnv hex sum own s) st.log (os.map .ptr) ts) : Chain s os ts := by
  induction hw with
  | arg hm hc =>
    simp only [List.mem_map, TRef.ptr.injEq, exists_eq_right] at hm
    exact .arg hm (canRun_stands hc)
  | dep _ ha hc ih => exact .use ih (askedFor_uses hown h ha) (canRun_stands hc)

/-- **C87.** A build of a project that is described in YAML returns an error that says exactly what failed: for every target that returned an error, it leads to that error, naming
a chain of targets from an argument, each of which uses the next; for every name that is not known, it leads to that error, naming a chain to a target that uses the name; and
a target that it names as the last one before an error has returned that error. -/
theorem C87_build (hown : ∀ o ctx, NoRun (own.body o ctx)) (hplain : ∀ o ctx, PlainErrs (own.body o ctx)) {w : World ρ} {ctx : Ctx} {os : List Nat}
    {st : State (World ρ) Ctx} (h : Reach (buildEnv hex sum own s) w [.call ctx (os.map .ptr) .ret] st) {c : Nat} {e₀ : Option Err}
    (hret : (0, Ev.ret c e₀) ∈ st.log) :
    (∀ t key tgt raw, (t, Ev.finish key tgt (some raw)) ∈ st.log → ∃ e ts, e₀ = some e ∧ Chain s os (ts ++ [tgt]) ∧ e.Leads (ts ++ [tgt]) raw) ∧
    (∀ t c i x, (t, Ev.refuse c i x) ∈ st.log → ∃ e ts o name, e₀ = some e ∧ e.Leads ts x ∧ x = .unresolved o ∧ s.heap[o]? = some (.ref name) ∧ (s.reg.target name).1 = none ∧
      ((ts = [] ∧ o ∈ os) ∨ ∃ us y, ts = us ++ [y] ∧ Chain s os ts ∧ Uses s y o)) ∧
    ∀ e ts tgt x, e₀ = some e → e.Leads (ts ++ [tgt]) x → ∃ t key raw, (t, Ev.finish key tgt (some raw)) ∈ st.log ∧ raw.Leads [] x := by
  refine ⟨fun t key tgt raw hf => ?_, fun t c i x hr => ?_, fun e ts tgt x he hx => ?_⟩
  · obtain ⟨e, ts, h1, h2, h3⟩ := Runner.C87_every_failure (build_handsOn hown) h hret hf
    exact ⟨e, ts, h1, way_chain hown h h2, h3⟩
  · obtain ⟨e, ts, r, h1, h2, h3, h4⟩ := Runner.C87_every_refusal (build_handsOn hown) h hret hr
    rcases h3 with ⟨n, rfl, rfl⟩ | ⟨o, f, w', rfl, h5, h6⟩
    · rcases h4 with ⟨-, h4⟩ | ⟨us, y, -, -, h4⟩
      · simp at h4
      · obtain ⟨th, c, i, key, ctx₁, c', ctx', refs, g1, g2, g3⟩ := h4
        obtain ⟨l₁, l₂, hl⟩ := List.append_of_mem g2
        obtain ⟨k, hr⟩ := Runner.call_path h hl g1
        exact absurd (hr.mayAsk (r := .val n) (.now g3)) ((body_pointers hown _ _).no_val n)
    · unfold buildEnv at h5
      dsimp only at h5
      split at h5
      · rename_i name hn
        cases h5
        unfold resolveName at h6
        split at h6
        · rename_i hnone
          cases h6
          refine ⟨e, ts, o, name, h1, h2, rfl, hn, hnone, ?_⟩
          rcases h4 with ⟨h4, h7⟩ | ⟨us, y, h4, h7, h8⟩
          · exact .inl ⟨h4, by simpa using h7⟩
          · exact .inr ⟨us, y, h4, way_chain hown h h7, askedFor_uses hown h h8⟩
        · cases h6
      · cases h5
  · subst he
    exact Runner.C87_true (build_frank hplain) h hret hx

end

/-! ## Example -/

namespace BuildDemo

theorem own_plain : ∀ o ctx, PlainErrs (own.body o ctx) := by
  intro o ctx w r t ts x h1 h2
  split at h1
  · cases h1; cases h2
  · cases h1

/-- the command of Extra returns `atom 7` -/
def fails8 : Nat × Ev (World Bool) Ctx → Bool
  | (_, .finish _ 8 (some (.atom 7))) => true
  | _ => false

/-- the error that `fab All` returns names All (2), Extra (9) and its command (8) -/
def names298 : Nat × Ev (World Bool) Ctx → Bool
  | (0, .ret _ (some (.join [.running 2 (.join [.running 9 (.join [.running 8 (.atom 7)])])]))) => true
  | _ => false

/-- The command of Extra fails; the error leads to it by way of All and Extra, which is a chain. -/
example : ∃ st c e t key, Reach (buildEnv hex sum own docEnd) (world true) [.call .root ([2].map .ptr) .ret] st ∧ (0, Ev.ret c (some e)) ∈ st.log ∧
    (t, Ev.finish key 8 (some (.atom 7))) ∈ st.log ∧ e.Leads [2, 9, 8] (.atom 7) ∧ Chain docEnd [2] [2, 9, 8] := by
  have h1 : (run docEnd true [2] sched1).log.any fails8 = true := by decide +kernel
  have h2 : (run docEnd true [2] sched1).log.any names298 = true := by decide +kernel
  obtain ⟨e, hm, he⟩ := List.any_eq_true.1 h1
  obtain ⟨e', hm', he'⟩ := List.any_eq_true.1 h2
  unfold fails8 at he
  unfold names298 at he'
  have hch : Chain docEnd [2] [2, 9, 8] := by
    have g2 : docEnd.heap[2]? = some (.all [0, 1]) := by rfl
    have g9 : docEnd.heap[9]? = some (.seq [7, 8]) := by rfl
    have g8 : docEnd.heap[8]? = some (.clean ["/top/x".toList] false) := by rfl
    have k1 : Chain docEnd [2] ([] ++ [2]) := .arg (o := 2) (by simp) doc_needs.2.2.2
    have k2 : Chain docEnd [2] ([2] ++ [9]) := .use (y := 1) k1 (.needs (.all g2 (by simp))) (.inl ⟨"Extra".toList, by rfl, by decide +kernel⟩)
    exact .use (y := 8) k2 (.needs (.seq g9 (by simp))) (.inr ⟨fun n hn => (by rw [g8] at hn; cases hn), rfl⟩)
  split at he
  · split at he'
    · exact ⟨_, _, _, _, _, run_reach .., hm', hm, .join (.head _) (.running (.join (.head _) (.running (.join (.head _) (.running .here))))), hch⟩
    · cases he'
  · cases he

end BuildDemo
end Fab.Yaml
