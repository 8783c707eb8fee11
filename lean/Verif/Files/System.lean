import Verif.Files.Model

/-!
# Several processes sharing files and databases; where database entries come from

A system is any number of processes, one after the other or at the same time, each with its own controller, acting on one world.
Processes are started at any time; each step is one step of one goroutine of one process, or an edit of the world from outside
(files change in any way, database entries can disappear - by expiry or otherwise - but are only added by Files targets).  A
crash is a process that is not scheduled any more, so every statement about all reachable systems covers every crash point.
-/

namespace Fab.Files
open Fab Path Runner

variable {ρ : Type}

/-- The change can remove database entries but not add any. -/
def NoGain (f : World ρ → World ρ) : Prop := ∀ w d h, h ∈ (f w).db d → h ∈ w.db d

/-- The process never adds an entry to a hash database by itself. -/
def NoAdd : P ρ → Prop
  | .ret _ => True
  | .act f k => NoGain f ∧ ∀ w, NoAdd (k w)
  | .call _ _ k => ∀ e, NoAdd (k e)

/-- A program: its targets, which of them are Files targets, and its client goroutines (`main`). -/
structure Program (ρ : Type) where
  env : Env (World ρ) Ctx
  files : Obj → Option (FilesT ρ)
  clients : List (P ρ)

variable (hex : Bytes → Str) (sum : Str → Str)

/-- Files targets behave as the code does; nothing else adds to a hash database. -/
structure Program.Honest (p : Program ρ) : Prop where
  isFiles : ∀ x ft, p.files x = some ft → ∀ ctx, p.env.body x ctx = filesBody hex sum ft ctx
  other : ∀ x, p.files x = none → ∀ ctx, NoAdd (p.env.body x ctx)
  clients : ∀ c ∈ p.clients, NoAdd c
  resolve : ∀ o f, p.env.resolve o = some f → NoGain fun w => (f w).1

/-- A running process: the world at its start, and its controller and goroutines. -/
structure Process (ρ : Type) where
  start : World ρ
  st : State (World ρ) Ctx

/-- A system; the log records which process and which goroutine did what, in order. -/
structure Sys (ρ : Type) where
  world : World ρ
  procs : List (Process ρ)
  log : List (Nat × Nat × Ev (World ρ) Ctx)

/-- `s` is reachable from world `w0` when process number `i` runs program `prog i`. -/
inductive SysReach (prog : Nat → Program ρ) (w0 : World ρ) : Sys ρ → Prop where
  | init : SysReach prog w0 ⟨w0, [], []⟩
  | spawn {s : Sys ρ} : SysReach prog w0 s → SysReach prog w0
      { s with procs := s.procs ++ [⟨s.world, Runner.init s.world (prog s.procs.length).clients⟩] }
  | step {s : Sys ρ} {st'} (i tid : Nat) (p : Process ρ) : SysReach prog w0 s → s.procs[i]? = some p →
      Runner.step (prog i).env { p.st with world := s.world } tid = some st' → SysReach prog w0
      ⟨st'.world, s.procs.set i { p with st := st' }, s.log ++ (st'.log.drop p.st.log.length).map fun e => (i, e)⟩
  | edit {s : Sys ρ} (f : World ρ → World ρ) : NoGain f → SysReach prog w0 s → SysReach prog w0 { s with world := f s.world }

/-- The log of process `i`. -/
def proj (i : Nat) (l : List (Nat × Nat × Ev (World ρ) Ctx)) : List (Nat × Ev (World ρ) Ctx) :=
  l.filterMap fun e => if e.1 = i then some e.2 else none

/-- In the log `L` of a process with program `p`, goroutine `t` has just added `hsh` to database `d`, in its run of Files target
`ft`: the last thing it did is that addition; it comes after the subtarget's run returned nil and after the hash was computed, in
the worlds `ws`. -/
def RecordedAt (p : Program ρ) (L : List (Nat × Ev (World ρ) Ctx)) (t d : Nat) (ft : FilesT ρ) (ws : List (World ρ)) (hsh : Str) :
    Prop :=
  ∃ c₀ i₀ key x ctx c w pre k, (t, Ev.start c₀ i₀ key x ctx) ∈ L ∧ p.files x = some ft ∧ getHashDB ctx = some d ∧
    hist t L = pre ++ [.call c ctx [ft.target], .ret c none] ++ acts ws ++ [.act w] ∧ HashOf hex sum ft ws hsh ∧
    Runs (filesBody hex sum ft ctx) (pre ++ [.call c ctx [ft.target], .ret c none] ++ acts ws) (.at (.act (dbAdd d hsh) k))

/-- `hsh` was recorded in database `d` at some moment of the log `l` of the system. -/
def Recorded (prog : Nat → Program ρ) (l : List (Nat × Nat × Ev (World ρ) Ctx)) (d : Nat) (hsh : Str) : Prop :=
  ∃ g i t ft ws, g <+: l ∧ RecordedAt hex sum (prog i) (proj i g) t d ft ws hsh

/-! ## Lemmas -/

theorem proj_append (i : Nat) (a b : List (Nat × Nat × Ev (World ρ) Ctx)) : proj i (a ++ b) = proj i a ++ proj i b := by
  simp [proj]

theorem proj_same (i : Nat) (l : List (Nat × Ev (World ρ) Ctx)) : proj i (l.map fun e => (i, e)) = l := by
  induction l with
  | nil => rfl
  | cons e l ih => simp only [List.map_cons, proj, List.filterMap_cons, if_true]; exact congrArg _ ih

theorem proj_other {i j : Nat} (h : i ≠ j) (l : List (Nat × Ev (World ρ) Ctx)) : proj i (l.map fun e => (j, e)) = [] := by
  induction l with
  | nil => rfl
  | cons e l ih => simp only [List.map_cons, proj, List.filterMap_cons, if_neg (Ne.symm h)]; exact ih

theorem mem_proj {i : Nat} {e : Nat × Ev (World ρ) Ctx} {l : List (Nat × Nat × Ev (World ρ) Ctx)} : e ∈ proj i l ↔ (i, e) ∈ l := by
  simp only [proj, List.mem_filterMap]
  constructor
  · rintro ⟨⟨j, e'⟩, h, h'⟩
    by_cases hj : j = i
    · simp only [hj, if_true, Option.some.injEq] at h'; rw [← hj] at *; rw [← h']; simpa [hj] using h
    · simp [hj] at h'
  · intro h; exact ⟨_, h, by simp⟩

theorem proj_split {i : Nat} {l : List (Nat × Nat × Ev (World ρ) Ctx)} {a b : List (Nat × Ev (World ρ) Ctx)} {x}
    (h : proj i l = a ++ x :: b) : ∃ l₁ l₂, l = l₁ ++ (i, x) :: l₂ ∧ proj i l₁ = a := by
  unfold proj at h
  obtain ⟨l₁, l₂, rfl, h1, h2⟩ := List.filterMap_eq_append_iff.1 h
  obtain ⟨m₁, y, m₂, rfl, h3, h4, -⟩ := List.filterMap_eq_cons_iff.1 h2
  obtain ⟨j, e⟩ := y
  by_cases hj : j = i
  · simp only [hj, if_true, Option.some.injEq] at h4
    refine ⟨l₁ ++ m₁, m₂, by simp [hj, h4], ?_⟩
    unfold proj
    rw [List.filterMap_append, h1, List.filterMap_eq_nil_iff.2 h3, List.append_nil]
  · simp [hj] at h4

theorem hist_split {t : Nat} {L : List (Nat × Ev (World ρ) Ctx)} {H : List (LEv (World ρ) Ctx)} {w} (h : hist t L = H ++ [.act w]) :
    ∃ L₁ L₂, L = L₁ ++ (t, .act w) :: L₂ ∧ hist t L₁ = H := by
  unfold hist at h
  obtain ⟨l₁, l₂, rfl, h1, h2⟩ := List.filterMap_eq_append_iff.1 h
  obtain ⟨m₁, y, m₂, rfl, h3, h4, -⟩ := List.filterMap_eq_cons_iff.1 h2
  obtain ⟨j, e⟩ := y
  by_cases hj : j = t
  · subst hj
    have he : e = .act w := by cases e <;> simp at h4; rw [h4]
    refine ⟨l₁ ++ m₁, m₂, by simp [he], ?_⟩
    unfold hist
    rw [List.filterMap_append, h1, List.filterMap_eq_nil_iff.2 h3, List.append_nil]
  · simp [hj] at h4

theorem step_log {σ C : Type} {env : Env σ C} {s s' : State σ C} {tid : Nat} (h : Runner.step env s tid = some s') :
    ∃ l, s'.log = s.log ++ l := by
  obtain ⟨th, hth, hc⟩ := step_cases h
  cases hc <;> first | exact ⟨_, rfl⟩ | exact ⟨[], by simp⟩

/-- Every process of a system is a run of its program. -/
theorem SysReach.proc {prog : Nat → Program ρ} {w0 : World ρ} {s : Sys ρ} (h : SysReach prog w0 s) :
    ∀ i p, s.procs[i]? = some p → Reach (prog i).env p.start (prog i).clients p.st := by
  induction h with
  | init => intro i p hp; simp at hp
  | @spawn s hs ih =>
    intro i p hp
    rw [List.getElem?_append] at hp
    split at hp
    · exact ih i p hp
    · rename_i hi
      rw [List.getElem?_singleton] at hp
      split at hp
      · have : i = s.procs.length := by omega
        subst this
        cases hp
        exact .init
      · simp at hp
  | @step s st' j tid q hs hq hst ih =>
    intro i p hp
    rw [List.getElem?_set] at hp
    split at hp
    · rename_i hij
      subst hij
      split at hp
      · cases hp
        exact .step (.thread tid) (.step (.extern fun _ => s.world) (ih _ q hq) rfl) hst
      · simp at hp
    · exact ih i p hp
  | edit f hf hs ih => exact ih

theorem SysReach.projLog {prog : Nat → Program ρ} {w0 : World ρ} {s : Sys ρ} (h : SysReach prog w0 s) :
    ∀ i, proj i s.log = match s.procs[i]? with | some p => p.st.log | none => [] := by
  induction h with
  | init => intro i; rfl
  | @spawn s hs ih =>
    intro i
    simp only
    rw [ih i, List.getElem?_append]
    by_cases hi : i < s.procs.length
    · rw [if_pos hi]
    · have hnone : s.procs[i]? = none := List.getElem?_eq_none (by omega)
      rw [if_neg hi, hnone, List.getElem?_singleton]
      by_cases h0 : i - s.procs.length = 0
      · rw [if_pos h0]; rfl
      · rw [if_neg h0]
  | @step s st' j tid q hs hq hst ih =>
    intro i
    have hlt : j < s.procs.length := (List.getElem?_eq_some_iff.1 hq).1
    obtain ⟨l, hl⟩ := step_log hst
    simp only at hl
    have hdrop : st'.log.drop q.st.log.length = l := by rw [hl, List.drop_left]
    simp only
    rw [proj_append, hdrop, List.getElem?_set]
    by_cases hij : j = i
    · subst hij
      rw [if_pos rfl, if_pos hlt, proj_same, ih j, hq]; exact hl.symm
    · rw [if_neg hij, proj_other (Ne.symm hij), List.append_nil]
      exact ih i
  | edit f hf hs ih => exact ih

theorem NoAdd.runs {p : P ρ} (hp : NoAdd p) {h pos} (hr : Runs p h pos) :
    match pos with
    | .at q => NoAdd q
    | .inCall _ k => ∀ e, NoAdd (k e) := by
  induction hr with
  | nil => exact hp
  | act w _ ih => exact ih.2 w
  | call c _ ih => exact ih
  | ret e _ ih => exact ih e

theorem Recorded.mono {prog : Nat → Program ρ} {l l' : List (Nat × Nat × Ev (World ρ) Ctx)} {d hsh} (h : Recorded hex sum prog l d hsh)
    (hp : l <+: l') : Recorded hex sum prog l' d hsh := by
  obtain ⟨g, i, t, ft, ws, hg, hr⟩ := h
  exact ⟨g, i, t, ft, ws, hg.trans hp, hr⟩

/-- Every database entry was there from the beginning or was recorded after a successful run of a subtarget. -/
theorem SysReach.provenance {prog : Nat → Program ρ} {w0 : World ρ} (hh : ∀ i, (prog i).Honest hex sum) {s : Sys ρ}
    (h : SysReach prog w0 s) : ∀ d hsh, hsh ∈ s.world.db d → hsh ∈ w0.db d ∨ Recorded hex sum prog s.log d hsh := by
  induction h with
  | init => intro d hsh h; exact .inl h
  | spawn hs ih => exact ih
  | edit f hf hs ih => intro d hsh h; exact ih d hsh (hf _ _ _ h)
  | @step s st' i tid p hs hp hst ih =>
    intro d hsh hin
    simp only at hin
    have hlt : i < s.procs.length := (List.getElem?_eq_some_iff.1 hp).1
    have hreach : Reach (prog i).env p.start (prog i).clients { p.st with world := s.world } :=
      .step (.extern fun _ => s.world) (hs.proc i p hp) rfl
    have hloc := hreach.localInv
    have hinv := hreach.inv
    have hprojs : proj i s.log = p.st.log := by rw [hs.projLog i, hp]
    have hfin := (SysReach.step i tid p hs hp hst).projLog i
    simp only [List.getElem?_set, if_true, hlt] at hfin
    by_cases hold : hsh ∈ s.world.db d
    · rcases ih d hsh hold with h | h
      · exact .inl h
      · exact .inr (h.mono hex sum (List.prefix_append _ _))
    · -- a new entry
      right
      obtain ⟨th, hth, hc⟩ := step_cases hst
      obtain ⟨jb, tst⟩ := th
      cases hc
      case act f k h1 =>
        simp only at h1 hin hfin ⊢
        subst h1
        obtain ⟨p0, ho, hpos⟩ := hloc.pos _ _ _ hth
        simp only [PosOK] at hpos
        have hng : ¬ NoGain f := fun hg => hold (hg _ _ _ hin)
        cases jb with
        | none =>
          have := (hh i).clients p0 (List.mem_of_getElem? ho)
          exact absurd (this.runs hpos).1 hng
        | some j =>
          simp only [Orig] at ho
          subst ho
          rcases hf : (prog i).files j.tgt with _ | ft
          · exact absurd (((hh i).other _ hf j.ctx).runs hpos).1 hng
          · rw [(hh i).isFiles _ _ hf] at hpos
            have hstart := hinv.b.started _ _ _ hth rfl
            have hcase := files_path hex sum hpos
            generalize hH : hist tid p.st.log = H at hcase
            generalize hpp : Pos.at (Proc.act f k) = pos at hcase
            cases hcase <;> cases hpp
            · exact absurd (fun _ _ _ h => h) hng
            · exact absurd (fun _ _ _ h => h) hng
            · exact absurd (fun _ _ _ h => h) hng
            · rename_i h0 c ws d' hsh' hready hdb hdry hhash
              have hpos' : Runs (filesBody hex sum ft j.ctx) (h0 ++ [LEv.call c j.ctx [ft.target], LEv.ret c none] ++ acts ws)
                  (.at (.act (dbAdd d' hsh') fun w => .ret (if w.addFails then some errAdd else none))) := by
                rw [← hH]; exact hpos
              have hdd : d = d' ∧ hsh = hsh' := by
                simp only [dbAdd] at hin
                split at hin
                · exact absurd hin hold
                · simp only at hin
                  split at hin
                  · rename_i hd
                    simp only [List.mem_cons] at hin
                    rcases hin with hin | hin
                    · exact ⟨hd, hin⟩
                    · exact absurd hin hold
                  · exact absurd hin hold
              obtain ⟨rfl, rfl⟩ := hdd
              refine ⟨_, i, tid, ft, ws, List.prefix_refl _, ?_⟩
              rw [hfin]
              refine ⟨_, _, _, _, _, c, s.world, h0, _, List.mem_append_left _ hstart, hf, hdb, ?_, hhash, hpos'⟩
              rw [hist_snoc, hH]
      case refuse c k' ctx r rs k e w' h1 h2 =>
        simp only at hin
        exfalso
        rcases h2 with ⟨n, -, -, rfl⟩ | ⟨o, f, -, hr, hf⟩
        · exact hold hin
        · have := (hh i).resolve o f hr
          refine hold (this s.world d hsh ?_)
          simp only at hf ⊢
          rw [hf]; exact hin
      case spawn c k' ctx o rs k t w' h1 h2 =>
        simp only at hin
        exfalso
        rcases h2 with ⟨-, -, rfl⟩ | ⟨f, hr, hf⟩
        · exact hold hin
        · have := (hh i).resolve o f hr
          refine hold (this s.world d hsh ?_)
          simp only at hf ⊢
          rw [hf]; exact hin
      all_goals exact absurd hin hold

/-- What a goroutine saw in the database at one of its actions was there from the beginning or had been recorded before. -/
theorem SysReach.seen {prog : Nat → Program ρ} {w0 : World ρ} (hh : ∀ i, (prog i).Honest hex sum) {s : Sys ρ}
    (h : SysReach prog w0 s) : ∀ l₁ l₂ i t w, s.log = l₁ ++ (i, t, .act w) :: l₂ → ∀ d hsh, hsh ∈ w.db d →
      hsh ∈ w0.db d ∨ Recorded hex sum prog l₁ d hsh := by
  induction h with
  | init => intro l₁ l₂ i t w hl; simp at hl
  | spawn hs ih => exact ih
  | edit f hf hs ih => exact ih
  | @step s st' j tid p hs hp hst ih =>
    intro l₁ l₂ i t w hl d hsh hin
    simp only at hl
    obtain ⟨th, hth, hc⟩ := step_cases hst
    obtain ⟨jb, tst⟩ := th
    -- the new events: at most two, and an action sees the current world
    have key : ∀ l, st'.log = p.st.log ++ l → (∀ a b, l = a ++ (t, .act w) :: b → a = [] ∧ w = s.world) →
        hsh ∈ w0.db d ∨ Recorded hex sum prog l₁ d hsh := by
      intro l hlog hnew
      rw [hlog, List.drop_left] at hl
      rcases List.append_eq_append_iff.1 hl with ⟨m, h1, h2⟩ | ⟨m, h1, h2⟩
      · -- the event is new
        obtain ⟨a, b, rfl, h3, h4⟩ := List.map_eq_append_iff.1 h2
        obtain ⟨x, b', rfl, h5, h6⟩ := List.map_eq_cons_iff.1 h4
        simp only [Prod.mk.injEq] at h5
        obtain ⟨h7, rfl⟩ := h5
        obtain ⟨rfl, rfl⟩ := hnew a b' rfl
        simp only [List.map_nil] at h3
        subst h3
        rw [List.append_nil] at h1
        subst h1
        exact hs.provenance hex sum hh d hsh hin
      · cases m with
        | nil =>
          simp only [List.append_nil, List.nil_append] at h1 h2
          obtain ⟨x, b', rfl, h5, h6⟩ := List.map_eq_cons_iff.1 h2.symm
          simp only [Prod.mk.injEq] at h5
          obtain ⟨h7, rfl⟩ := h5
          obtain ⟨-, rfl⟩ := hnew [] b' rfl
          rw [← h1]
          exact hs.provenance hex sum hh d hsh hin
        | cons y m =>
          simp only [List.cons_append, List.cons.injEq] at h2
          obtain ⟨rfl, -⟩ := h2
          exact ih l₁ m i t w h1 d hsh hin
    cases hc
    case act f k h1 =>
      refine key _ rfl ?_
      intro a b hab
      cases a with
      | nil => simp only [List.nil_append, List.cons.injEq, Prod.mk.injEq, Ev.act.injEq] at hab; exact ⟨rfl, hab.1.2.symm⟩
      | cons y a => simp at hab
    case callNil =>
      refine key _ rfl ?_
      intro a b hab
      rcases a with _ | ⟨y, _ | ⟨z, a⟩⟩ <;> simp at hab
    all_goals first
      | (refine key [] (List.append_nil _).symm ?_; intro a b hab; simp at hab)
      | (refine key _ rfl ?_
         intro a b hab
         cases a with
         | nil => simp at hab
         | cons y a => simp at hab)

end Fab.Files
