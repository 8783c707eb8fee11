import Verif.Runner.Nest
import Verif.Indent

/-!
# Verbose mode: what `Run` prints (C80)

`Run` prints a line `Running X` before it runs a target, if its context says so (/repo/runner.go:61, 103-105).  The line is printed with
`Indentf` (/repo/runner.go:128-145): the depth is read under the mutex, and then there are up to two writes, during which other goroutines may
do anything.  The machine of this file is that of `Verif/Runner/Model.lean` with these steps added.

Simplification: the description of a target (`con.Describe`, C15) is a function `name`, i.e. targets are not registered while targets run.
-/

namespace Fab.Runner
open Fab.Indent
variable {σ C : Type}

/-- The writes of the message for a target, runner.go:104, 132-145. -/
def message (name : Obj → Str) (d : Nat) (tgt : Obj) : List Str := indentf d "Running %s".toList [name tgt]

/-- Where a goroutine is in `Indentf`: about to read the depth (runner.go:137-139), or about to do these writes (runner.go:141-144).  With no
writes left it is not in `Indentf`. -/
inductive Phase where
  | reading (tgt : Obj)
  | writing (ws : List Str)

/-- What can be observed: the events of the runner; that the depth was read for the message for a target; a write. -/
inductive Out (σ C : Type) where
  | ev (e : Ev σ C)
  | read (tgt : Obj) (d : Nat)
  | wrote (w : Str)

structure VState (σ C : Type) where
  rs : State σ C
  phase : Nat → Phase
  trace : List (Nat × Out σ C)

/-- The goroutine is about to run a target that nobody has run, and its context says that this is to be printed (runner.go:61, 87-105):
the target.  `verb` is `GetVerbose` (/repo/context.go). -/
def announces (verb : C → Bool) (s : State σ C) (t : Nat) : Option Obj :=
  match s.threads[t]? with
  | some ⟨some j, .lookup⟩ => if (s.ran j.key).isNone && verb j.ctx then some j.tgt else none
  | _ => none

/-- The step of a goroutine: what the machine without messages does (of which the events are recorded), or a step of `Indentf`. -/
def vstep (env : Env σ C) (verb : C → Bool) (name : Obj → Str) (v : VState σ C) : Label σ → Option (VState σ C)
  | .extern f => some { v with rs := { v.rs with world := f v.rs.world } }
  | .thread t =>
    match v.phase t with
    | .writing [] =>
      match step env v.rs t with
      | none => none
      | some r => some
        { rs := r
          phase := match announces verb v.rs t with
            | some tgt => upd v.phase t (.reading tgt)
            | none => v.phase
          trace := v.trace ++ (r.log.drop v.rs.log.length).map fun x => (x.1, .ev x.2) }
    | .reading tgt => some
        { v with phase := upd v.phase t (.writing (message name v.rs.depth tgt)), trace := v.trace ++ [(t, .read tgt v.rs.depth)] }
    | .writing (w :: ws) => some { v with phase := upd v.phase t (.writing ws), trace := v.trace ++ [(t, .wrote w)] }

/-- A new controller. -/
def vinit (w : σ) (cl : List (Proc σ C)) : VState σ C := { rs := init w cl, phase := fun _ => .writing [], trace := [] }

inductive VReach (env : Env σ C) (verb : C → Bool) (name : Obj → Str) (w : σ) (cl : List (Proc σ C)) : VState σ C → Prop where
  | init : VReach env verb name w cl (vinit w cl)
  | step {v v'} (l : Label σ) : VReach env verb name w cl v → vstep env verb name v l = some v' → VReach env verb name w cl v'

/-! ## Specification -/

/-- The events of the runner in a trace. -/
def events (tr : List (Nat × Out σ C)) : List (Nat × Ev σ C) :=
  tr.filterMap fun x => match x.2 with
    | .ev e => some (x.1, e)
    | _ => none

/-- What goroutine `t` wrote. -/
def written (t : Nat) (tr : List (Nat × Out σ C)) : List Str :=
  tr.filterMap fun x => match x.2 with
    | .wrote w => if x.1 = t then some w else none
    | _ => none

/-- Goroutine `t` began to run target `tgt`, in a context that asks for messages. -/
def Began (verb : C → Bool) (t : Nat) (tgt : Obj) (l : List (Nat × Ev σ C)) : Prop :=
  ∃ c i key ctx, (t, Ev.start c i key tgt ctx) ∈ l ∧ verb ctx = true

/-- The goroutines that called `Run` for goroutine `t`, the nearest one first: none for a client of the controller; otherwise the one that made the
call on behalf of which `t` runs its target, and so on. -/
inductive Callers (clients : Nat) (l : List (Nat × Ev σ C)) : Nat → List Nat → Prop where
  | client {t} : t < clients → Callers clients l t []
  | target {t t' c i key tgt ctx ctx' refs as} : (t, Ev.start c i key tgt ctx) ∈ l → (t', Ev.call c ctx' refs) ∈ l → Callers clients l t' as →
      Callers clients l t (t' :: as)

/-! ## Proofs -/

theorem step_log {env : Env σ C} {s s' : State σ C} {t : Nat} (h : step env s t = some s') : ∃ l, s'.log = s.log ++ l ∧ ∀ e ∈ l, e.1 = t := by
  obtain ⟨th, -, h⟩ := step_cases h
  cases h <;> first
    | exact ⟨_, rfl, by simp⟩
    | exact ⟨[], (List.append_nil _).symm, by simp⟩

/-- Either the step announces a target: then its only event is that this target starts.  Or it starts no target in such a context. -/
theorem step_start {env : Env σ C} {s s' : State σ C} {t : Nat} (verb : C → Bool) (h : step env s t = some s') :
    (∃ tgt c i key ctx, announces verb s t = some tgt ∧ verb ctx = true ∧ s'.log = s.log ++ [(t, Ev.start c i key tgt ctx)]) ∨
    (announces verb s t = none ∧ ∃ l, s'.log = s.log ++ l ∧ (∀ e ∈ l, e.1 = t) ∧ ∀ c i key tgt ctx, (t, Ev.start c i key tgt ctx) ∈ l → verb ctx = false) := by
  obtain ⟨⟨jb, st⟩, hth, h⟩ := step_cases h
  unfold announces
  rw [hth]
  cases h
  case lookupNew j h1 h2 h3 =>
    simp only at h1 h2; subst h1 h2
    simp only [h3, Option.isNone_none, Bool.true_and]
    by_cases hv : verb j.ctx = true
    · exact .inl ⟨_, _, _, _, _, if_pos hv, hv, rfl⟩
    · refine .inr ⟨if_neg hv, _, rfl, by simp, ?_⟩
      intro c i key tgt ctx hm
      simp only [List.mem_singleton, Prod.mk.injEq, Ev.start.injEq, true_and] at hm
      rw [hm.2.2.2.2]; simpa using hv
  case lookupHit j o h1 h2 h3 =>
    simp only at h1 h2; subst h1 h2
    exact .inr ⟨by simp [h3], [], (List.append_nil _).symm, by simp, by simp⟩
  all_goals
    right
    refine ⟨?_, ?_⟩
    · split
      · rename_i heq; simp only [Option.some.injEq, Thread.mk.injEq] at heq; simp_all
      · rfl
    · first
        | exact ⟨_, rfl, by simp, by simp⟩
        | exact ⟨[], (List.append_nil _).symm, by simp, by simp⟩

theorem events_append (a b : List (Nat × Out σ C)) : events (a ++ b) = events a ++ events b := List.filterMap_append
theorem written_append (t : Nat) (a b : List (Nat × Out σ C)) : written t (a ++ b) = written t a ++ written t b := List.filterMap_append

theorem events_map (l : List (Nat × Ev σ C)) : events (l.map fun x => (x.1, Out.ev x.2)) = l := by
  unfold events
  rw [List.filterMap_map]
  simp

theorem written_map (t : Nat) (l : List (Nat × Ev σ C)) : written t (l.map fun x => (x.1, Out.ev x.2)) = [] := by
  unfold written
  rw [List.filterMap_map]
  simp

variable {env : Env σ C} {verb : C → Bool} {name : Obj → Str} {w : σ} {cl : List (Proc σ C)}

theorem VReach.reach {v : VState σ C} (h : VReach env verb name w cl v) : Reach env w cl v.rs ∧ events v.trace = v.rs.log := by
  induction h with
  | init => exact ⟨.init, rfl⟩
  | @step v v' l hr hs ih =>
    obtain ⟨i1, i2⟩ := ih
    cases l with
    | extern f =>
      simp only [vstep, Option.some.injEq] at hs; subst hs
      exact ⟨.step (.extern f) i1 rfl, i2⟩
    | thread t =>
      unfold vstep at hs
      simp only at hs
      split at hs
      · split at hs
        · cases hs
        · rename_i r hst
          simp only [Option.some.injEq] at hs; subst hs
          refine ⟨.step (.thread t) i1 hst, ?_⟩
          obtain ⟨l, hl, -⟩ := step_log hst
          simp only [events_append, events_map, i2, hl, List.drop_left]
      · simp only [Option.some.injEq] at hs; subst hs
        exact ⟨i1, by simp only [events_append, i2]; simp [events]⟩
      · simp only [Option.some.injEq] at hs; subst hs
        exact ⟨i1, by simp only [events_append, i2]; simp [events]⟩

/-- What goroutine `t` has done so far, and where it is in `Indentf`. -/
inductive Fine (verb : C → Bool) (name : Obj → Str) (t : Nat) : List (Nat × Out σ C) → Phase → Prop where
  | quiet {tr} : written t tr = [] → (∀ tgt, ¬ Began verb t tgt (events tr)) → Fine verb name t tr (.writing [])
  | reading {tr tgt} : written t tr = [] → Began verb t tgt (events tr) → Fine verb name t tr (.reading tgt)
  | writing {tr tgt d ws} : Began verb t tgt (events tr) → (t, Out.read tgt d) ∈ tr → written t tr ++ ws = message name d tgt →
      Fine verb name t tr (.writing ws)

theorem began_mono {t tgt} {l l' : List (Nat × Ev σ C)} (h : Began verb t tgt l) : Began verb t tgt (l ++ l') := by
  obtain ⟨c, i, key, ctx, h1, h2⟩ := h
  exact ⟨c, i, key, ctx, List.mem_append_left _ h1, h2⟩

/-- What others do. -/
theorem Fine.other {t : Nat} {tr l : List (Nat × Out σ C)} {p : Phase} (h : Fine verb name t tr p) (hl : ∀ x ∈ l, x.1 ≠ t) : Fine verb name t (tr ++ l) p := by
  have hw : written t l = [] := by
    unfold written
    rw [List.filterMap_eq_nil_iff]
    intro x hx
    split
    · rw [if_neg (hl x hx)]
    · rfl
  have hb : ∀ tgt, Began verb t tgt (events (tr ++ l)) → Began verb t tgt (events tr) := by
    rintro tgt ⟨c, i, key, ctx, h1, h2⟩
    rw [events_append, List.mem_append] at h1
    refine ⟨c, i, key, ctx, h1.resolve_right fun h1 => ?_, h2⟩
    obtain ⟨x, hx, hxe⟩ := List.mem_filterMap.1 h1
    split at hxe
    · simp only [Option.some.injEq, Prod.mk.injEq] at hxe; exact hl x hx hxe.1
    · cases hxe
  cases h with
  | quiet h1 h2 => exact .quiet (by rw [written_append, h1, hw]; rfl) fun tgt h => h2 tgt (hb tgt h)
  | reading h1 h2 => exact .reading (by rw [written_append, h1, hw]; rfl) (by rw [events_append]; exact began_mono h2)
  | writing h1 h2 h3 =>
    exact .writing (by rw [events_append]; exact began_mono h1) (List.mem_append_left _ h2) (by rw [written_append, hw, List.append_nil]; exact h3)

theorem VReach.fine {v : VState σ C} (h : VReach env verb name w cl v) (t : Nat) : Fine verb name t v.trace (v.phase t) := by
  induction h with
  | init => exact .quiet rfl (by rintro tgt ⟨c, i, key, ctx, h, -⟩; simp [vinit, events] at h)
  | @step v v' l hr hs ih =>
    cases l with
    | extern f =>
      simp only [vstep, Option.some.injEq] at hs; subst hs
      exact ih
    | thread u =>
      unfold vstep at hs
      simp only at hs
      split at hs
      · rename_i hph
        split at hs
        · cases hs
        · rename_i r hst
          simp only [Option.some.injEq] at hs; subst hs
          simp only
          obtain ⟨l, hl, hlu⟩ := step_log hst
          have hnew : r.log.drop v.rs.log.length = l := by rw [hl, List.drop_left]
          rw [hnew]
          by_cases htu : t = u
          · subst htu
            rw [hph] at ih
            have hr' : Reach env w cl r := .step (.thread t) hr.reach.1 hst
            rcases step_start verb hst with ⟨tgt, c, i, key, ctx, h1, h2, h3⟩ | ⟨h1, l', h3, -, h4⟩
            · have hll : l = [(t, Ev.start c i key tgt ctx)] := List.append_cancel_left (hl.symm.trans h3)
              have hb : Began verb t tgt (events (v.trace ++ l.map fun x => (x.1, Out.ev x.2))) := by
                rw [events_append, events_map, hll]
                exact ⟨c, i, key, ctx, by simp, h2⟩
              simp only [h1, upd, if_true]
              cases ih with
              | quiet h5 h6 => exact .reading (by rw [written_append, written_map, h5]; rfl) hb
              | writing h5 h6 h7 =>
                exfalso
                obtain ⟨c', i', key', ctx', h8, h9⟩ := h5
                rw [hr.reach.2] at h8
                -- a goroutine starts one target
                obtain ⟨-, -, hk, -⟩ := start_uniq hr' (t := t) (c := c) (i := i) (key := key) (tgt := tgt) (ctx := ctx) (by rw [h3]; simp)
                  (by rw [h3]; exact List.mem_append_left _ h8)
                subst hk
                exact (hr'.evOk v.rs.log _ [] h3).1 _ _ _ _ _ h8
            · have hll : l = l' := List.append_cancel_left (hl.symm.trans h3)
              subst hll
              simp only [h1]
              rw [hph]
              cases ih with
              | quiet h5 h6 =>
                refine .quiet (by rw [written_append, written_map, h5]; rfl) ?_
                rintro tgt ⟨c, i, key, ctx, h8, h9⟩
                rw [events_append, events_map, List.mem_append] at h8
                rcases h8 with h8 | h8
                · exact h6 tgt ⟨c, i, key, ctx, h8, h9⟩
                · exact absurd (h4 _ _ _ _ _ h8) (by simp [h9])
              | writing h5 h6 h7 =>
                exact .writing (by rw [events_append]; exact began_mono h5) (List.mem_append_left _ h6)
                  (by rw [written_append, written_map, List.append_nil]; exact h7)
          · have : (match announces verb v.rs u with
                | some tgt => upd v.phase u (.reading tgt)
                | none => v.phase) t = v.phase t := by
              cases announces verb v.rs u with
              | none => rfl
              | some tgt => simp [upd, htu]
            rw [this]
            refine ih.other ?_
            intro x hx
            obtain ⟨y, hy, rfl⟩ := List.mem_map.1 hx
            rw [hlu y hy]; exact fun h => htu h.symm
      · rename_i tgt hph
        simp only [Option.some.injEq] at hs; subst hs
        by_cases htu : t = u
        · subst htu
          rw [hph] at ih
          simp only [upd, if_true]
          cases ih with
          | reading h1 h2 =>
            exact .writing (d := v.rs.depth) (by rw [events_append]; exact began_mono h2) (List.mem_append_right _ (by simp))
              (by rw [written_append, h1]; simp [written])
        · simp only [upd, if_neg htu]
          exact ih.other (by simpa using fun h => htu h.symm)
      · rename_i x ws hph
        simp only [Option.some.injEq] at hs; subst hs
        by_cases htu : t = u
        · subst htu
          rw [hph] at ih
          simp only [upd, if_true]
          cases ih with
          | writing h1 h2 h3 =>
            refine .writing (by rw [events_append]; exact began_mono h1) (List.mem_append_left _ h2) ?_
            rw [written_append, ← h3]
            simp [written]
        · simp only [upd, if_neg htu]
          exact ih.other (by simpa using fun h => htu h.symm)

theorem message_eq (name : Obj → Str) (d : Nat) (tgt : Obj) :
    message name d tgt = (if d > 0 then [spaces d] else []) ++ ["Running ".toList ++ name tgt ++ ['\n']] := by
  have h : (⟨d, "Running %s".toList, [name tgt]⟩ : Msg).body = "Running ".toList ++ name tgt ++ ['\n'] := by
    unfold Msg.body
    have : withNewline "Running %s".toList = "Running ".toList ++ ['%', 's', '\n'] := by decide +kernel
    simp only [this]
    have h2 : "Running ".toList = ['R', 'u', 'n', 'n', 'i', 'n', 'g', ' '] := by decide +kernel
    rw [h2]
    simp [sprintf, sprint, Indent.verb, Indent.extra]
  have := Msg.writes_eq ⟨d, "Running %s".toList, [name tgt]⟩
  rw [h] at this
  exact this

/-- While a goroutine is in `Indentf`, it stays where it began to run its target. -/
theorem VReach.stays {v : VState σ C} (h : VReach env verb name w cl v) (t : Nat) : v.phase t = .writing [] ∨ ∃ j p, v.rs.th t = some ⟨some j, .exec p⟩ := by
  induction h with
  | init => exact .inl rfl
  | @step v v' l hr hs ih =>
    cases l with
    | extern f =>
      simp only [vstep, Option.some.injEq] at hs; subst hs
      exact ih
    | thread u =>
      unfold vstep at hs
      simp only at hs
      split at hs
      · rename_i hph
        split at hs
        · cases hs
        · rename_i r hst
          simp only [Option.some.injEq] at hs; subst hs
          simp only
          obtain ⟨th, hth, hc⟩ := step_cases hst
          by_cases htu : t = u
          · subst htu
            cases hann : announces verb v.rs t with
            | none => exact .inl hph
            | some tgt =>
              right
              have : ∃ j, th = ⟨some j, .lookup⟩ ∧ v.rs.ran j.key = none := by
                unfold announces at hann
                rw [hth] at hann
                split at hann
                · rename_i j heq
                  cases heq
                  refine ⟨j, rfl, ?_⟩
                  split at hann
                  · rename_i h; simp at h; exact h.1
                  · cases hann
                · cases hann
              obtain ⟨j, rfl, hj⟩ := this
              have hth' : v.rs.th t = some ⟨some j, .lookup⟩ := hth
              cases hc <;> simp only at *
              case lookupNew =>
                exact ⟨_, _, by rw [th_set hth', if_pos rfl]⟩
              all_goals simp_all
          · have hsame : (match announces verb v.rs u with
                | some tgt => upd v.phase u (.reading tgt)
                | none => v.phase) t = v.phase t := by
              cases announces verb v.rs u with
              | none => rfl
              | some tgt => simp [upd, htu]
            rw [hsame]
            rcases ih with ih | ⟨j, p, ih⟩
            · exact .inl ih
            · obtain ⟨st', h1, h2⟩ := th_persist hth hc ih
              exact .inr ⟨j, p, by rw [h1, h2 htu]⟩
      · rename_i tgt hph
        simp only [Option.some.injEq] at hs; subst hs
        rcases ih with ih | ih
        · by_cases htu : t = u
          · subst htu; rw [hph] at ih; cases ih
          · exact .inl (by simp [upd, htu, ih])
        · exact .inr ih
      · rename_i x ws hph
        simp only [Option.some.injEq] at hs; subst hs
        rcases ih with ih | ih
        · by_cases htu : t = u
          · subst htu; rw [hph] at ih; cases ih
          · exact .inl (by simp [upd, htu, ih])
        · exact .inr ih

/-- The goroutines that called `Run` for an unfinished goroutine are older, and inside these calls. -/
theorem callers_in {s : State σ C} (hr : Reach env w cl s) {t : Nat} {as : List Nat} (h : Callers cl.length s.log t as)
    (ht : ∀ jb, s.th t ≠ some ⟨jb, .done⟩) :
    as.Pairwise (· > ·) ∧ (∀ a ∈ as, a < t) ∧ ∀ a ∈ as, ∃ x, s.th a = some x ∧ x.st.inCall = true := by
  induction h with
  | client h => simp
  | @target t t' c i key tgt ctx ctx' refs as h1 h2 h3 ih =>
    obtain ⟨j, st, a1, rfl, rfl, rfl, rfl, rfl, -⟩ := hr.inv.f.startJob _ _ _ _ _ _ h1
    obtain ⟨x, b1, b2⟩ := hr.nest.older _ _ _ a1
    have hx : x.tid = t' := by
      have := (hr.inv.f.callEv _ _ _ _).2 h2
      simp only [State.hdr, b1, Option.map_some, Option.some.injEq, Prod.mk.injEq] at this
      exact this.1
    subst hx
    rcases hr.nest.within _ _ b1 with ⟨jb, st', c1, c2⟩ | c1
    · have hin : st'.inCall = true := by cases st' <;> simp_all [TSt.within, TSt.inCall]
      obtain ⟨i1, i2, i3⟩ := ih (by intro jb' h; rw [c1] at h; cases h; simp [TSt.within] at c2)
      refine ⟨List.pairwise_cons.2 ⟨fun a ha => i2 a ha, i1⟩, ?_, ?_⟩
      · intro a ha
        rcases List.mem_cons.1 ha with rfl | ha
        · exact b2
        · exact Nat.lt_trans (i2 a ha) b2
      · intro a ha
        rcases List.mem_cons.1 ha with rfl | ha
        · exact ⟨_, c1, hin⟩
        · exact i3 a ha
    · exact absurd (by rw [c1 _ _ _ a1 rfl] at a1; exact a1) (ht _)

/-- The indices of the elements of a list with a property. -/
theorem countP_range {α : Type} (p : α → Bool) (l : List α) :
    l.countP p = ((List.range l.length).filter fun i => (l[i]?.map p).getD false).length := by
  induction l using List.reverseRecOn with
  | nil => rfl
  | append_singleton l a ih =>
    rw [List.countP_append, ih, List.length_append, List.length_singleton, List.range_succ, List.filter_append, List.length_append]
    congr 1
    · congr 1
      apply List.filter_congr
      intro i hi
      rw [List.getElem?_append_left (by simpa using hi)]
    · by_cases hp : p a = true <;> simp [hp]

/-! ## C80 -/

/-- **C80, faithful.** Messages do not change what can happen: the machine with messages can reach exactly the states that the one without can. -/
theorem C80_faithful (s : State σ C) : Reach env w cl s ↔ ∃ v, VReach env verb name w cl v ∧ v.rs = s := by
  constructor
  · intro h
    have flush : ∀ (t : Nat) (n : Nat) (v : VState σ C), VReach env verb name w cl v → (∀ u, u ≠ t → v.phase u = .writing []) →
        (match v.phase t with | .reading _ => n = 4 | .writing ws => ws.length ≤ n ∧ n ≤ 3) →
        ∃ v', VReach env verb name w cl v' ∧ v'.rs = v.rs ∧ ∀ u, v'.phase u = .writing [] := by
      intro t n
      induction n with
      | zero =>
        intro v hv ho hn
        refine ⟨v, hv, rfl, fun u => ?_⟩
        by_cases hu : u = t
        · subst hu
          cases hp : v.phase u with
          | reading tgt => rw [hp] at hn; cases hn
          | writing ws => rw [hp] at hn; rw [List.length_eq_zero_iff.1 (by omega : ws.length = 0)]
        · exact ho u hu
      | succ n ih =>
        intro v hv ho hn
        cases hp : v.phase t with
        | reading tgt =>
          rw [hp] at hn
          simp only at hn
          obtain ⟨v', h1, h2, h3⟩ := ih
            { v with phase := upd v.phase t (.writing (message name v.rs.depth tgt)), trace := v.trace ++ [(t, .read tgt v.rs.depth)] }
            (.step (.thread t) hv (by unfold vstep; simp only [hp]))
            (by intro u hu; simp only [upd, if_neg hu]; exact ho u hu)
            (by
              simp only [upd, if_true]
              rw [message_eq]
              constructor
              · split <;> simp <;> omega
              · omega)
          exact ⟨v', h1, h2, h3⟩
        | writing ws =>
          rw [hp] at hn
          simp only at hn
          cases ws with
          | nil =>
            refine ⟨v, hv, rfl, fun u => ?_⟩
            by_cases hu : u = t
            · rw [hu, hp]
            · exact ho u hu
          | cons x ws =>
            obtain ⟨v', h1, h2, h3⟩ := ih { v with phase := upd v.phase t (.writing ws), trace := v.trace ++ [(t, .wrote x)] }
              (.step (.thread t) hv (by unfold vstep; simp only [hp]))
              (by intro u hu; simp only [upd, if_neg hu]; exact ho u hu)
              (by simp only [upd, if_true]; simp only [List.length_cons] at hn; omega)
            exact ⟨v', h1, h2, h3⟩
    suffices h : ∃ v, VReach env verb name w cl v ∧ v.rs = s ∧ ∀ u, v.phase u = .writing [] by
      obtain ⟨v, h1, h2, -⟩ := h; exact ⟨v, h1, h2⟩
    induction h with
    | init => exact ⟨_, .init, rfl, fun _ => rfl⟩
    | @step s s' l hr hs ih =>
      obtain ⟨v, h1, rfl, h3⟩ := ih
      cases l with
      | extern f =>
        simp only [lstep, Option.some.injEq] at hs; subst hs
        exact ⟨_, .step (.extern f) h1 rfl, rfl, h3⟩
      | thread t =>
        have hs' : step env v.rs t = some s' := hs
        have hv : vstep env verb name v (.thread t) = some
            { rs := s'
              phase := match announces verb v.rs t with
                | some tgt => upd v.phase t (.reading tgt)
                | none => v.phase
              trace := v.trace ++ (s'.log.drop v.rs.log.length).map fun x => (x.1, .ev x.2) } := by
          unfold vstep; simp only [h3 t, hs']
        have h4 := VReach.step _ h1 hv
        cases ha : announces verb v.rs t with
        | none =>
          rw [ha] at h4
          exact ⟨_, h4, rfl, h3⟩
        | some tgt =>
          rw [ha] at h4
          obtain ⟨v', h5, h6, h7⟩ := flush t 4 _ h4 (by intro u hu; simp only [upd, if_neg hu]; exact h3 u) (by simp only [upd, if_true])
          exact ⟨v', h5, h6, h7⟩
  · rintro ⟨v, h, rfl⟩
    exact h.reach.1

/-- **C80, the text.** The message for a target is one line: two spaces for each level, `Running ` and the target's description. -/
theorem C80_text (name : Obj → Str) (d : Nat) (tgt : Obj) :
    (message name d tgt).flatten = spaces d ++ "Running ".toList ++ name tgt ++ ['\n'] := by
  rw [message_eq]
  by_cases h : d > 0
  · rw [if_pos h]; simp
  · have : d = 0 := by omega
    subst this; simp [spaces]

/-- **C80, exactly these.** At any moment: a goroutine that has not begun to run a target in verbose mode has written nothing; one that has, has written
a part of the message for this target and nothing else, or all of it.  (A goroutine begins to run at most one target, and a target is
begun at most once: C01.) -/
theorem C80_message {v : VState σ C} (h : VReach env verb name w cl v) (t : Nat) :
    ((∀ tgt, ¬ Began verb t tgt v.rs.log) → written t v.trace = []) ∧
    ∀ tgt, Began verb t tgt v.rs.log → ∃ d, written t v.trace <+: message name d tgt := by
  have hf := h.fine t
  have he := h.reach.2
  have uniq : ∀ tgt tgt', Began verb t tgt v.rs.log → Began verb t tgt' v.rs.log → tgt = tgt' := by
    rintro tgt tgt' ⟨c, i, key, ctx, h1, -⟩ ⟨c', i', key', ctx', h2, -⟩
    exact (start_uniq h.reach.1 h1 h2).2.2.2.1
  revert hf
  generalize v.phase t = p
  intro hf
  cases hf with
  | quiet h1 h2 => exact ⟨fun _ => h1, fun tgt hb => absurd (he ▸ hb) (h2 tgt)⟩
  | reading h1 h2 => exact ⟨fun hn => absurd (he ▸ h2) (hn _), fun tgt _ => ⟨0, by rw [h1]; exact List.nil_prefix⟩⟩
  | @writing tgt d ws h1 h2 h3 =>
    refine ⟨fun hn => absurd (he ▸ h1) (hn _), fun tgt' hb => ⟨d, ?_⟩⟩
    rw [uniq tgt' tgt hb (he ▸ h1), ← h3]
    exact List.prefix_append _ _

/-- **C80, before.** The message is complete before the target does anything, and before anybody is told its outcome: before any other event of the goroutine
that runs it. -/
theorem C80_before {v : VState σ C} (h : VReach env verb name w cl v) {a b : List (Nat × Out σ C)} {t : Nat} {e : Ev σ C} {tgt : Obj}
    (hl : v.trace = a ++ (t, .ev e) :: b) (hb : Began verb t tgt (events a)) :
    ∃ d, (t, .read tgt d) ∈ a ∧ written t a = message name d tgt := by
  induction h generalizing a b with
  | init => simp [vinit] at hl
  | @step v v' l hr hs ih =>
    -- what the step adds
    have key : ∀ new, v'.trace = v.trace ++ new →
        (∀ n₁ n₂, new = n₁ ++ (t, .ev e) :: n₂ → a = v.trace ++ n₁ → ∃ d, (t, .read tgt d) ∈ a ∧ written t a = message name d tgt) →
        ∃ d, (t, .read tgt d) ∈ a ∧ written t a = message name d tgt := by
      intro new hn hk
      rw [hn] at hl
      rcases List.append_eq_append_iff.1 hl with ⟨n₁, h1, h2⟩ | ⟨n₁, h1, h2⟩
      · exact hk n₁ _ h2 h1
      · cases n₁ with
        | nil => exact hk [] b (by simpa using h2.symm) (by simpa using h1.symm)
        | cons x xs =>
          simp only [List.cons_append, List.cons.injEq] at h2
          exact ih (a := a) (b := xs) (by rw [h1, h2.1]) hb
    cases l with
    | extern f =>
      simp only [vstep, Option.some.injEq] at hs; subst hs
      exact key [] (by simp) (by intro n₁ n₂ h; simp at h)
    | thread u =>
      unfold vstep at hs
      simp only at hs
      split at hs
      · rename_i hph
        split at hs
        · cases hs
        · rename_i r hst
          simp only [Option.some.injEq] at hs; subst hs
          refine key _ rfl ?_
          intro n₁ n₂ h1 h2
          obtain ⟨l, hl', hlu⟩ := step_log hst
          have hnew : r.log.drop v.rs.log.length = l := by rw [hl', List.drop_left]
          rw [hnew] at h1
          obtain ⟨m₁, m₂, rfl, rfl, h3⟩ := List.map_eq_append_iff.1 h1
          cases m₂ with
          | nil => simp at h3
          | cons y m₂ =>
            simp only [List.map_cons, List.cons.injEq, Prod.mk.injEq, Out.ev.injEq] at h3
            have htu : t = u := by rw [← h3.1.1]; exact hlu y (by simp)
            subst htu
            have hf := hr.fine t
            rw [hph] at hf
            have hin : Began verb t tgt (events v.trace) := by
              obtain ⟨c, i, key, ctx, g1, g2⟩ := hb
              rw [h2, events_append, events_map, List.mem_append] at g1
              refine ⟨c, i, key, ctx, g1.resolve_right fun g1 => ?_, g2⟩
              rcases step_start verb hst with ⟨tgt', c', i', key', ctx', k1, k2, k3⟩ | ⟨k1, l', k3, -, k4⟩
              · have := List.append_cancel_left (hl'.symm.trans k3)
                have := congrArg List.length this
                have g3 := List.length_pos_of_mem g1
                simp at this
                have g4 : m₁.length ≠ 0 := by omega
                omega
              · have := List.append_cancel_left (hl'.symm.trans k3)
                rw [← this] at k4
                have := k4 _ _ _ _ _ (List.mem_append_left _ g1)
                rw [g2] at this; cases this
            cases hf with
            | quiet g1 g2 => exact absurd hin (g2 tgt)
            | @writing tgt' d _ g1 g2 g3 =>
              have : tgt = tgt' := by
                obtain ⟨c, i, key, ctx, k1, -⟩ := hin
                obtain ⟨c', i', key', ctx', k2, -⟩ := g1
                rw [hr.reach.2] at k1 k2
                exact (start_uniq hr.reach.1 k1 k2).2.2.2.1
              subst this
              refine ⟨d, by rw [h2]; exact List.mem_append_left _ g2, ?_⟩
              rw [h2, written_append, written_map, g3]
      · simp only [Option.some.injEq] at hs; subst hs
        refine key _ rfl ?_
        intro n₁ n₂ h1 _
        exfalso
        cases n₁ with
        | nil => simp at h1
        | cons y ys => simp at h1
      · simp only [Option.some.injEq] at hs; subst hs
        refine key _ rfl ?_
        intro n₁ n₂ h1 _
        exfalso
        cases n₁ with
        | nil => simp at h1
        | cons y ys => simp at h1

/-- **C80, in the end.** When nothing can move any more, everybody who has begun to run a target in verbose mode has written its whole message. -/
theorem C80_complete {v : VState σ C} (h : VReach env verb name w cl v) (hend : ∀ t, vstep env verb name v (.thread t) = none) {t : Nat} {tgt : Obj}
    (hb : Began verb t tgt v.rs.log) : ∃ d, written t v.trace = message name d tgt := by
  have hf := h.fine t
  have he := h.reach.2
  have hq : v.phase t = .writing [] := by
    have := hend t
    unfold vstep at this
    cases hp : v.phase t with
    | reading tgt => simp [hp] at this
    | writing ws =>
      cases ws with
      | nil => rfl
      | cons x ws => simp [hp] at this
  rw [hq] at hf
  cases hf with
  | quiet h1 h2 => exact absurd (he ▸ hb) (h2 tgt)
  | @writing tgt' d _ h1 h2 h3 =>
    refine ⟨d, ?_⟩
    have : tgt = tgt' := by
      obtain ⟨c, i, key, ctx, k1, -⟩ := hb
      obtain ⟨c', i', key', ctx', k2, -⟩ := h1
      rw [he] at k2
      exact (start_uniq h.reach.1 k1 k2).2.2.2.1
    subst this
    simpa using h3

/-- **C80, the indentation.** The number of levels of a message is the number of calls of `Run` in progress at some moment (when the depth is read) after the target
was begun.  It is at least the number of calls that the target is nested in, and just this number if no other call is in progress. -/
theorem C80_indentation {v : VState σ C} (h : VReach env verb name w cl v) {a b : List (Nat × Out σ C)} {t : Nat} {tgt : Obj} {d : Nat}
    (hl : v.trace = a ++ (t, .read tgt d) :: b) :
    callsN (events a) = retsN (events a) + d ∧
    ∀ as, Callers cl.length (events a) t as → as.length ≤ d ∧
      ((∀ t' c ctx refs, (t', Ev.call c ctx refs) ∈ events a → (∀ t'' e, (t'', Ev.ret c e) ∉ events a) → t' ∈ as) → d = as.length) := by
  induction h generalizing a b with
  | init => simp [vinit] at hl
  | @step v v' l hr hs ih =>
    have key : ∀ new, v'.trace = v.trace ++ new → (∃ n₁ n₂, new = n₁ ++ (t, .read tgt d) :: n₂ ∧ a = v.trace ++ n₁) ∨ ∃ b', v.trace = a ++ (t, .read tgt d) :: b' := by
      intro new hn
      rw [hn] at hl
      rcases List.append_eq_append_iff.1 hl with ⟨n₁, h1, h2⟩ | ⟨n₁, h1, h2⟩
      · exact .inl ⟨n₁, _, h2, h1⟩
      · cases n₁ with
        | nil => exact .inl ⟨[], b, by simpa using h2.symm, by simpa using h1.symm⟩
        | cons x xs =>
          simp only [List.cons_append, List.cons.injEq] at h2
          exact .inr ⟨xs, by rw [h1, h2.1]⟩
    cases l with
    | extern f =>
      simp only [vstep, Option.some.injEq] at hs; subst hs
      exact ih hl
    | thread u =>
      unfold vstep at hs
      simp only at hs
      split at hs
      · rename_i hph
        split at hs
        · cases hs
        · rename_i r hst
          simp only [Option.some.injEq] at hs; subst hs
          rcases key _ rfl with ⟨n₁, n₂, h1, h2⟩ | ⟨b', h1⟩
          · exfalso
            obtain ⟨m₁, m₂, -, -, h3⟩ := List.map_eq_append_iff.1 h1
            cases m₂ with
            | nil => simp at h3
            | cons y m₂ => simp at h3
          · exact ih h1
      · rename_i tgt' hph
        simp only [Option.some.injEq] at hs; subst hs
        rcases key _ rfl with ⟨n₁, n₂, h1, h2⟩ | ⟨b', h1⟩
        · cases n₁ with
          | cons y ys => simp at h1
          | nil =>
            simp only [List.nil_append, List.cons.injEq, Prod.mk.injEq, Out.read.injEq] at h1
            obtain ⟨⟨rfl, rfl, rfl⟩, -⟩ := h1
            rw [List.append_nil] at h2
            subst h2
            have hev := hr.reach.2
            have hrr := hr.reach.1
            rw [hev]
            refine ⟨(C11_depth hrr).1, ?_⟩
            intro as has
            have hnd : ∀ jb, v.rs.th u ≠ some ⟨jb, .done⟩ := by
              intro jb hd
              rcases hr.stays u with hs | ⟨j, p, hs⟩
              · rw [hph] at hs; cases hs
              · rw [hd] at hs; cases hs
            obtain ⟨p1, p2, p3⟩ := callers_in hrr has hnd
            have hcount := C11_depth_threads hrr
            rw [countP_range] at hcount
            generalize hF : (List.range v.rs.threads.length).filter (fun i => (v.rs.threads[i]?.map fun th => th.st.inCall).getD false) = F at hcount
            have hmem : ∀ x, x ∈ F ↔ ∃ th, v.rs.th x = some th ∧ th.st.inCall = true := by
              intro x
              rw [← hF, List.mem_filter]
              unfold State.th
              constructor
              · rintro ⟨-, h⟩
                cases hx : v.rs.threads[x]? with
                | none => simp [hx] at h
                | some th => exact ⟨th, rfl, by simpa [hx] using h⟩
              · rintro ⟨th, h1, h2⟩
                exact ⟨by simpa using (List.getElem?_eq_some_iff.1 h1).1, by simp [h1, h2]⟩
            have hndF : F.Nodup := by rw [← hF]; exact List.nodup_range.filter _
            have hndA : as.Nodup := p1.imp (fun h => by omega)
            have hle : as.length ≤ F.length := (List.subperm_of_subset hndA fun x hx => (hmem x).2 (p3 x hx)).length_le
            refine ⟨by omega, ?_⟩
            intro honly
            have hge : F.length ≤ as.length := by
              refine (List.subperm_of_subset hndF fun x hx => ?_).length_le
              obtain ⟨⟨jb, st⟩, h1, h2⟩ := (hmem x).1 hx
              have : ∃ c, st.within c = true ∧ ∃ y, v.rs.cl c = some y ∧ y.tid = x := by
                cases st <;> simp [TSt.inCall] at h2
                case spawning c i ctx todo k =>
                  obtain ⟨y, h3, h4, -⟩ := hrr.inv.c.spawn _ _ _ _ _ _ _ h1
                  exact ⟨c, by simp [TSt.within], y, h3, h4⟩
                case joining c k =>
                  obtain ⟨y, h3, h4⟩ := hrr.inv.c.join _ _ _ _ h1
                  exact ⟨c, by simp [TSt.within], y, h3, h4⟩
              obtain ⟨c, h3, y, h4, h5⟩ := this
              refine honly x c y.ctx y.refs ((hrr.inv.f.callEv _ _ _ _).1 (by simp [State.hdr, h4, h5])) ?_
              exact hrr.inv.f.within _ _ _ _ h1 h3
            omega
        · exact ih h1
      · simp only [Option.some.injEq] at hs; subst hs
        rcases key _ rfl with ⟨n₁, n₂, h1, h2⟩ | ⟨b', h1⟩
        · exfalso
          cases n₁ with
          | nil => simp at h1
          | cons y ys => simp at h1
        · exact ih h1

/-! ## Concrete cases -/

/-- The standard output. -/
def stdout (tr : List (Nat × Out σ C)) : Str :=
  (tr.filterMap fun x => match x.2 with
    | .wrote w => some w
    | _ => none).flatten

/-- Run a schedule of goroutines. -/
def vrun (env : Env σ C) (verb : C → Bool) (name : Obj → Str) : VState σ C → List Nat → VState σ C
  | v, [] => v
  | v, t :: ts => vrun env verb name ((vstep env verb name v (.thread t)).getD v) ts

theorem vrun_reach (ts : List Nat) {v : VState σ C} (h : VReach env verb name w cl v) : VReach env verb name w cl (vrun env verb name v ts) := by
  induction ts generalizing v with
  | nil => exact h
  | cons t ts ih =>
    unfold vrun
    cases hs : vstep env verb name v (.thread t) with
    | none => exact ih h
    | some v' => exact ih (.step _ h hs)

namespace VDemo

/-- Target 0 runs target 1; target 1 does something. -/
def denv : Env Nat Bool where
  addr o := o
  resolve _ := none
  body o ctx := match o with
    | 0 => .call ctx [.ptr 1] .ret
    | _ => .act (· + 1) fun _ => .ret none

def dname : Obj → Str
  | 0 => "A".toList
  | 1 => "B".toList
  | _ => "C".toList

/-- One target inside the other, in verbose mode: the messages show the nesting. -/
def nested : VState Nat Bool := vrun denv id dname (vinit 0 [.call true [.ptr 0] .ret])
  ((List.replicate 30 [2, 1, 0]).flatten)

theorem nested_reach : VReach denv id dname 0 [.call true [.ptr 0] .ret] nested := vrun_reach _ .init
example : stdout nested.trace = "  Running A\n    Running B\n".toList ∧ nested.rs.world = 1 := by decide +kernel
-- in the end nothing can move, and both targets were begun
example : ∀ t, vstep denv id dname nested (.thread t) = none := by
  intro t
  have h1 : ∀ t, (vstep denv id dname nested (.thread t)).isNone = true := by
    intro t
    have h3 : nested.rs.threads.length = 3 := by decide +kernel
    by_cases ht : t < 3
    · have : ∀ t : Fin 3, (vstep denv id dname nested (.thread t.1)).isNone = true := by decide +kernel
      exact this ⟨t, ht⟩
    · have hs : step denv nested.rs t = none := by
        unfold step; rw [List.getElem?_eq_none (by omega)]
      unfold vstep
      have hp : nested.phase t = .writing [] := by
        rcases nested_reach.stays t with h | ⟨j, p, h⟩
        · exact h
        · unfold State.th at h; rw [List.getElem?_eq_none (by omega)] at h; cases h
      simp only [hp, hs]; rfl
  simpa using h1 t
example : ∃ a b, nested.trace = a ++ (2, .read 1 2) :: b := by
  have h : nested.trace.any (fun x => match x with | (2, .read 1 2) => true | _ => false) = true := by decide +kernel
  obtain ⟨x, h1, h2⟩ := List.any_eq_true.1 h
  have : x = (2, .read 1 2) := by split at h2 <;> simp_all
  rw [← this]
  exact List.append_of_mem h1

-- without verbose mode nothing is written
example : stdout (vrun denv id dname (vinit 0 [.call false [.ptr 0] .ret]) ((List.replicate 30 [2, 1, 0]).flatten)).trace = [] := by decide +kernel

/-- **C80: the indentation of concurrent messages.** Two targets of one call: both are on the first level, but the lines need not show it. -/
theorem C80_finding_mixed : ∃ v, VReach denv id dname 0 [.call true [.ptr 1, .ptr 2] .ret] v ∧
    stdout v.trace = "    Running B\nRunning C\n".toList :=
  ⟨vrun denv id dname (vinit 0 [.call true [.ptr 1, .ptr 2] .ret]) [0, 0, 0, 1, 2, 1, 2, 1, 2, 1, 2], vrun_reach _ .init, by decide +kernel⟩

end VDemo

end Fab.Runner
