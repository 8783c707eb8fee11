import Verif.Files.System

/-!
# The Files target: C25 - C30, C57

`HashOf hex sum ft ws h` (Files/Model.lean): `h` is the up-to-date hash of `ft`, computed from what was seen in the worlds `ws`.
`RecordedAt`, `Recorded` (Files/System.lean): a hash was added to a database after a successful run of the subtarget.
-/

namespace Fab.Files
open Fab Path Runner

variable {ρ : Type} (hex : Bytes → Str) (sum : Str → Str)

/-! ## Helpers -/

/-- The process log of a process that has an event in the system log. -/
theorem sys_proc {prog : Nat → Program ρ} {w0 : World ρ} {s : Sys ρ} (h : SysReach prog w0 s) {l₁ l₂ i e}
    (hl : s.log = l₁ ++ (i, e) :: l₂) : ∃ (p : Process ρ) (L₂ : _), Reach (prog i).env p.start (prog i).clients p.st ∧ p.st.log = proj i l₁ ++ e :: L₂ := by
  have hp := h.projLog i
  have hs : proj i s.log = proj i l₁ ++ e :: proj i l₂ := by
    rw [hl, proj_append]; simp [proj]
  rw [hs] at hp
  rcases hi : s.procs[i]? with _ | p
  · rw [hi] at hp; simp at hp
  · rw [hi] at hp; exact ⟨p, proj i l₂, h.proc i p hi, hp.symm⟩

/-- The path of a Files target that finished. -/
theorem finish_files {env : Env (World ρ) Ctx} {w : World ρ} {cl : List (P ρ)} {s : State (World ρ) Ctx} (h : Reach env w cl s)
    {l₁ l₂ t key x raw} (hl : s.log = l₁ ++ (t, Ev.finish key x raw) :: l₂) {ft : FilesT ρ}
    (hb : ∀ ctx, env.body x ctx = filesBody hex sum ft ctx) :
    ∃ c i ctx, (t, Ev.start c i key x ctx) ∈ l₁ ∧ FilesAt hex sum ft ctx (hist t l₁) (.at (.ret raw)) := by
  obtain ⟨c, i, ctx, h1, h2⟩ := finish_path h hl
  rw [hb] at h2
  exact ⟨c, i, ctx, h1, files_path hex sum h2⟩

/-! ## C30: at every moment, also after a crash, a database contains only recorded hashes -/

/-- **C30.** At every moment of every execution of any number of processes, interrupted or not, every entry of a hash database
that was empty at the beginning was recorded by a Files target whose subtarget had just completed without error: the hash is the
hash of the files and the rule after that. -/
theorem C30_db_only_successes {prog : Nat → Program ρ} {w0 : World ρ} (hh : ∀ i, (prog i).Honest hex sum) {d : Nat}
    (hempty : w0.db d = []) {s : Sys ρ} (h : SysReach prog w0 s) {hsh : Str} (hin : hsh ∈ s.world.db d) :
    ∃ g i t ft ws, g <+: s.log ∧ RecordedAt hex sum (prog i) (proj i g) t d ft ws hsh := by
  rcases h.provenance hex sum hh d hsh hin with h' | h'
  · rw [hempty] at h'; simp at h'
  · exact h'

/-! ## C25: skipping is sound -/

/-- **C25.** Suppose a Files target finished without error and without ever having requested its subtarget.  Then it computed its
hash from what it saw in worlds `ws`, and at some earlier moment `g` some Files target (of this process or of another one, in
the same or another program) recorded the same hash, computed from what it saw in worlds `ws'` after its subtarget had completed
without error. -/
theorem C25_skip_sound {prog : Nat → Program ρ} {w0 : World ρ} (hh : ∀ i, (prog i).Honest hex sum) (hempty : ∀ d, w0.db d = [])
    {s : Sys ρ} (h : SysReach prog w0 s) {l₁ l₂ i t key x} (hl : s.log = l₁ ++ (i, t, Ev.finish key x none) :: l₂) {ft : FilesT ρ}
    (hx : (prog i).files x = some ft) (hskip : ∀ c ctx, (i, t, Ev.call c ctx [ft.target]) ∉ l₁) :
    ∃ d ws hsh pre w, hist t (proj i l₁) = pre ++ acts ws ++ [.act w] ∧ HashOf hex sum ft ws hsh ∧
      ∃ g i' t' ft' ws', g <+: l₁ ∧ RecordedAt hex sum (prog i') (proj i' g) t' d ft' ws' hsh := by
  obtain ⟨p, L₂, hr, hpl⟩ := sys_proc h hl
  obtain ⟨c, i₀, ctx, hs, hf⟩ := finish_files hex sum hr hpl ((hh i).isFiles x ft hx)
  have hno : ∀ c ctx, LEv.call c ctx [ft.target] ∉ hist t (proj i l₁) := by
    intro c ctx hm
    exact hskip c ctx (mem_proj.1 (mem_hist_call.1 hm))
  generalize hH : hist t (proj i l₁) = H at hf hno
  generalize hpp : Pos.at (Proc.ret none) = pos at hf
  cases hf <;> first | (cases hpp; done) | skip
  case skipped h0 d ws hsh w h1 h2 h3 h4 h5 h6 h7 =>
    refine ⟨d, ws, hsh, h0, w, rfl, h5, ?_⟩
    obtain ⟨L1, L2, e1, e2⟩ := hist_split hH
    obtain ⟨g1, g2, e3, e4⟩ := proj_split e1
    rcases h.seen hex sum hh g1 (g2 ++ (i, t, Ev.finish key x none) :: l₂) i t w (by rw [hl, e3]; simp) d hsh h7 with h8 | h8
    · rw [hempty] at h8; simp at h8
    · obtain ⟨g, i', t', ft', ws', hg, hrec⟩ := h8
      exact ⟨g, i', t', ft', ws', hg.trans ⟨(i, t, Ev.act w) :: g2, e3.symm⟩, hrec⟩
  case built h0 c h1 h2 => exact absurd (by simp) (hno c ctx)
  case added h0 c ws d hsh w h1 h2 h3 h4 => exact absurd (by simp) (hno c ctx)

/-- All the worlds have the same files. -/
def Steady (F : FS) (ws : List (World ρ)) : Prop := ∀ w ∈ ws, w.fs = F

theorem zip_steady_le {F : FS} {ws : List (World ρ)} (h : Steady F ws) : ∀ {items : List Str}, items.length ≤ ws.length →
    List.zip (ws.map (·.fs)) items = items.map fun i => (F, i) := by
  induction ws with
  | nil => intro items hl; cases items <;> simp_all
  | cons w ws ih =>
    intro items hl
    cases items with
    | nil => simp
    | cons i items =>
      simp only [List.map_cons, List.zip_cons_cons, List.cons.injEq, Prod.mk.injEq, and_true]
      exact ⟨h w (by simp), ih (fun w hw => h w (by simp [hw])) (by simpa using hl)⟩

theorem zip_steady {F : FS} {ws : List (World ρ)} (h : Steady F ws) : ∀ {items : List Str}, ws.length = items.length →
    List.zip (ws.map (·.fs)) items = items.map fun i => (F, i) := by
  induction ws with
  | nil => intro items hl; cases items <;> simp_all
  | cons w ws ih =>
    intro items hl
    cases items with
    | nil => simp at hl
    | cons i items =>
      simp only [List.map_cons, List.zip_cons_cons, List.cons.injEq, Prod.mk.injEq, and_true]
      exact ⟨h w (by simp), ih (fun w hw => h w (by simp [hw])) (by simpa using hl)⟩

theorem HashOf.steady {ft : FilesT ρ} {ws : List (World ρ)} {h : Str} (hh : HashOf hex sum ft ws h) {F : FS} (hs : Steady F ws) :
    ∃ li lo j wd, wd ∈ ws ∧ fileHashes hex F ft.ins = .ok li ∧ fileHashes hex F ft.outs = .ok lo ∧ ft.desc wd = some j ∧
      h = sum (hashText j ft.typ li lo) := by
  obtain ⟨wi, wo, wd, li, lo, j, rfl, h1, h2, h3, h4, h5, h6⟩ := hh
  refine ⟨li, lo, j, wd, by simp, ?_, ?_, h5, h6⟩
  · rw [fileHashes, ← zip_steady (fun w hw => hs w (by simp [hw])) h1]; exact h3
  · rw [fileHashes, ← zip_steady (fun w hw => hs w (by simp [hw])) h2]; exact h4

/-- **C25, same files and same rule.** In the situation of `C25_skip_sound`: if the files did not change while the hash was
computed now (they were `F`) nor while it was computed then (they were `F'`), and the two texts and the file contents concerned
do not collide, then the input and output files, and their contents, are the same now as then, and the JSON form and type of the
subtarget are the same too. -/
theorem C25_same_state {ft ft' : FilesT ρ} {ws ws' : List (World ρ)} {hsh : Str} (h1 : HashOf hex sum ft ws hsh)
    (h2 : HashOf hex sum ft' ws' hsh) {F F' : FS} (hs : Steady F ws) (hs' : Steady F' ws') (hw : F.root.WF) (hw' : F'.root.WF)
    (hhex : ∀ d, hex d ≠ []) (hci : NoFileCollision hex F ft.ins F' ft'.ins) (hco : NoFileCollision hex F ft.outs F' ft'.outs)
    (hct : ∀ a b, sum a = hsh → sum b = hsh → a = b) :
    (∀ k c, Shows F ft.ins k c ↔ Shows F' ft'.ins k c) ∧ (∀ k c, Shows F ft.outs k c ↔ Shows F' ft'.outs k c) ∧
    ft.typ = ft'.typ ∧ ∃ w ∈ ws, ∃ w' ∈ ws', ∃ j, ft.desc w = some j ∧ ft'.desc w' = some j := by
  obtain ⟨li, lo, j, wd, a1, a2, a3, a4, a5⟩ := h1.steady hex sum hs
  obtain ⟨li', lo', j', wd', b1, b2, b3, b4, b5⟩ := h2.steady hex sum hs'
  obtain ⟨r1, r2, r3, r4⟩ := C23_hash_determines_files hex sum hw hw' hhex a2 a3 b2 b3 hci hco
    (fun _ => hct _ _ a5.symm b5.symm) (a5.symm.trans b5)
  exact ⟨r1, r2, r4, wd, a1, wd', b1, j, a4, by rw [b4, r3]⟩

/-! ## C27: failures are not recorded -/

/-- **C27, failures propagate.** If a call of `Run` made by a Files target (for its prerequisites or for its subtarget) returned
an error, the Files target returns that error. -/
theorem C27_failure_propagates {env : Env (World ρ) Ctx} {w : World ρ} {cl : List (P ρ)} {s : State (World ρ) Ctx}
    (h : Reach env w cl s) {l₁ l₂ t key x raw} (hl : s.log = l₁ ++ (t, Ev.finish key x raw) :: l₂) {ft : FilesT ρ}
    (hb : ∀ ctx, env.body x ctx = filesBody hex sum ft ctx) {c e} (he : (t, Ev.ret c (some e)) ∈ l₁) : raw = some e := by
  obtain ⟨c₀, i₀, ctx, hs, hf⟩ := finish_files hex sum h hl hb
  have hm : LEv.ret c (some e) ∈ hist t l₁ := mem_hist_ret.2 he
  have hpre : ∀ {H}, PrereqsDone ft ctx H → LEv.ret c (some e) ∉ H := by
    rintro H ⟨ws, -, ⟨-, rfl⟩ | ⟨-, c', rfl⟩⟩ <;> simp [acts]
  have hready : ∀ {H}, Ready hex sum ft ctx H → LEv.ret c (some e) ∉ H := by
    intro H hH
    cases hH with
    | plain h1 h2 => exact hpre h1
    | stale h1 => have := hpre h1; simp [acts, this]
  generalize hist t l₁ = H at hf hm
  generalize hpp : Pos.at (Proc.ret raw) = pos at hf
  cases hf <;> cases hpp
  case prereqsFailed => simp [acts] at hm; rw [hm.2]
  case checkFailed h1 _ _ _ _ => have := hpre h1; simp [acts, this] at hm
  case skipped h1 _ _ _ _ _ _ => have := hpre h1; simp [acts, this] at hm
  case subFailed h1 => have := hready h1; simp [this] at hm; rw [hm.2]
  case built h1 _ => have := hready h1; simp [this] at hm
  case rehashFailed h1 _ _ _ => have := hready h1; simp [acts, this] at hm
  case added h1 _ _ _ => have := hready h1; simp [acts, this] at hm

/-- What follows the addition. -/
theorem addProc {ft : FilesT ρ} {ctx : Ctx} {H : List (LEv (World ρ) Ctx)} {d hsh k} (hr : Runs (filesBody hex sum ft ctx) H
    (.at (.act (dbAdd d hsh) k))) : k = fun w => .ret (if w.addFails then some errAdd else none) := by
  have hne : ∀ (_ : World ρ), id ≠ dbAdd (ρ := ρ) d hsh := by
    intro w he
    have := congrFun he { w with db := fun _ => [], addFails := false }
    have h2 := congrArg (fun w => w.db d) this
    simp [dbAdd] at h2
  have hcase := files_path hex sum hr
  generalize hpp : Pos.at (Proc.act (dbAdd d hsh) k) = pos at hcase
  by_cases hw : Nonempty (World ρ)
  · obtain ⟨w⟩ := hw
    cases hcase <;> simp only [Pos.at.injEq, Proc.act.injEq, reduceCtorEq] at hpp
    · exact absurd hpp.1.symm (hne w)
    · exact absurd hpp.1.symm (hne w)
    · exact absurd hpp.1.symm (hne w)
    · exact hpp.2
  · funext w; exact absurd ⟨w⟩ hw

/-- **C27, failures are not recorded.** If a Files target finishes with an error and it had added a hash to a database, then the
error is that of the addition itself. -/
theorem C27_error_not_recorded {p : Program ρ} (hp : p.Honest hex sum) {w : World ρ} {s : State (World ρ) Ctx}
    (h : Reach p.env w p.clients s) {l₁ l₂ t key x e} (hl : s.log = l₁ ++ (t, Ev.finish key x (some e)) :: l₂) {ft : FilesT ρ}
    (hx : p.files x = some ft) {g d ft' ws hsh} (hg : g <+: l₁) (hrec : RecordedAt hex sum p g t d ft' ws hsh) :
    e = errAdd ∧ ∃ w', (t, Ev.act w') ∈ l₁ ∧ w'.addFails = true := by
  obtain ⟨c₀, i₀, ctx, hs, hf⟩ := finish_files hex sum h hl (hp.isFiles x ft hx)
  obtain ⟨c₁, i₁, key₁, x₁, ctx₁, c, w₁, pre, k, hs₁, hx₁, hdb₁, hhist, hhash, hruns⟩ := hrec
  obtain ⟨rest, rfl⟩ := hg
  obtain ⟨-, -, -, rfl, rfl⟩ := start_uniq h (sub_log hl (List.mem_append_left _ hs₁)) (sub_log hl hs)
  rw [hx] at hx₁
  cases hx₁
  have hk := addProc hex sum hruns
  subst hk
  have hfin : Runs (filesBody hex sum ft ctx₁) (hist t (g ++ rest)) (.at (.ret (some e))) := by
    obtain ⟨c₂, i₂, ctx₂, hs₂, hr₂⟩ := finish_path h hl
    obtain ⟨-, -, -, -, rfl⟩ := start_uniq h (sub_log hl hs₂) (sub_log hl hs)
    rw [hp.isFiles _ _ hx] at hr₂
    exact hr₂
  have hh : hist t (g ++ rest) = hist t g ++ hist t rest := by unfold hist; rw [List.filterMap_append]
  rw [hh, hhist] at hfin
  have := (Runs.act w₁ hruns).after_ret _ hfin
  simp only [Pos.at.injEq, Proc.ret.injEq] at this
  have h2 := this.2
  split at h2
  · rename_i hfail
    cases h2
    obtain ⟨L1, L2, e1, -⟩ := hist_split hhist
    exact ⟨rfl, w₁, by rw [e1]; simp, hfail⟩
  · cases h2

/-- The hash was recorded (`RecordedAt`), and the insertion, in world `w`, took effect. -/
def StoredAt (p : Program ρ) (L : List (Nat × Ev (World ρ) Ctx)) (t d : Nat) (ft : FilesT ρ) (ws : List (World ρ)) (hsh : Str) : Prop :=
  RecordedAt hex sum p L t d ft ws hsh ∧ ∃ w, (hist t L).getLast? = some (.act w) ∧ hsh ∈ (dbAdd d hsh w).db d

/-- **C27, what success means.** A Files target that finishes without error has got nil from every call of `Run` it made; and if
there is a hash database and no dry-run, then it computed its hash and either found it in the database, or recorded it after its
subtarget had returned nil. -/
theorem C27_success_means {p : Program ρ} (hp : p.Honest hex sum) {w : World ρ} {s : State (World ρ) Ctx}
    (h : Reach p.env w p.clients s) {l₁ l₂ t key x} (hl : s.log = l₁ ++ (t, Ev.finish key x none) :: l₂) {ft : FilesT ρ}
    (hx : p.files x = some ft) : ∃ c i ctx, (t, Ev.start c i key x ctx) ∈ l₁ ∧
      (∀ c' e, (t, Ev.ret c' (some e)) ∉ l₁) ∧
      ((∃ c', (t, Ev.call c' ctx [ft.target]) ∈ l₁ ∧ (t, Ev.ret c' none) ∈ l₁ ∧
          ∀ d, getHashDB ctx = some d → getDryRun ctx = false → ∃ g ws hsh, g <+: l₁ ∧ StoredAt hex sum p g t d ft ws hsh) ∨
       (∃ d ws hsh w, getHashDB ctx = some d ∧ getForce ctx = false ∧ getDryRun ctx = false ∧ HashOf hex sum ft ws hsh ∧
          (∀ w ∈ ws, (t, Ev.act w) ∈ l₁) ∧ (t, Ev.act w) ∈ l₁ ∧ hsh ∈ w.db d)) := by
  obtain ⟨c, i, ctx, hs, hr⟩ := finish_path h hl
  rw [hp.isFiles x ft hx] at hr
  have hf := files_path hex sum hr
  refine ⟨c, i, ctx, hs, fun c' e he => ?_, ?_⟩
  · have := C27_failure_propagates hex sum h hl (hp.isFiles x ft hx) he; cases this
  have hmem : ∀ {w}, LEv.act w ∈ hist t l₁ → (t, Ev.act w) ∈ l₁ := by
    intro w hm
    obtain ⟨A, B, hAB⟩ := List.append_of_mem hm
    unfold hist at hAB
    obtain ⟨a, b, rfl, h1, h2⟩ := List.filterMap_eq_append_iff.1 hAB
    obtain ⟨m₁, y, m₂, rfl, h3, h4, -⟩ := List.filterMap_eq_cons_iff.1 h2
    obtain ⟨j, e⟩ := y
    by_cases hj : j = t
    · subst hj
      cases e <;> simp at h4
      subst h4; simp
    · simp [hj] at h4
  have hcm : ∀ {c' ctx refs}, LEv.call c' ctx refs ∈ hist t l₁ → (t, Ev.call c' ctx refs) ∈ l₁ := mem_hist_call.1
  have hrm : ∀ {c' e}, LEv.ret c' e ∈ hist t l₁ → (t, Ev.ret c' e) ∈ l₁ := mem_hist_ret.1
  generalize hH : hist t l₁ = H at hf hmem hcm hrm hr
  generalize hpp : Pos.at (Proc.ret none) = pos at hf
  cases hf <;> first | (cases hpp; done) | skip
  case skipped h0 d ws hsh w h1 h2 h3 h4 h5 h6 h7 =>
    exact .inr ⟨d, ws, hsh, w, h2, h3, h4, h5, fun w' hw' => hmem (by simp [acts, hw']), hmem (by simp), h7⟩
  case built h0 c' h1 h2 =>
    refine .inl ⟨c', hcm (by simp), hrm (by simp), fun d hd hdry => ?_⟩
    rcases h2 with h2 | h2
    · rw [h2] at hd; cases hd
    · rw [h2] at hdry; cases hdry
  case added h0 c' ws d hsh w h1 h2 h3 h4 =>
    refine .inl ⟨c', hcm (by simp), hrm (by simp), fun d' hd hdry => ?_⟩
    rw [h2] at hd; cases hd
    refine ⟨l₁, ws, hsh, List.prefix_refl _, ⟨c, i, key, x, ctx, c', w, h0, _, hs, hx, h2, hH, h4, h1.adding hex sum h2 h3 c' h4⟩,
      w, by rw [hH, List.getLast?_append]; rfl, ?_⟩
    have hno : w.addFails = false := by
      simp only [Pos.at.injEq, Proc.ret.injEq] at hpp
      split at hpp
      · cases hpp
      · simpa using ‹¬ w.addFails = true›
    simp [dbAdd, hno]

/-! ## C28: Force and DryRun -/

/-- **C28, Force.** With Force a Files target that finishes has requested its subtarget, whatever the database says, unless its
prerequisites failed; and if it succeeds and there is a database and no dry-run, it has recorded its hash. -/
theorem C28_force {p : Program ρ} (hp : p.Honest hex sum) {w : World ρ} {s : State (World ρ) Ctx}
    (h : Reach p.env w p.clients s) {l₁ l₂ t key x raw} (hl : s.log = l₁ ++ (t, Ev.finish key x raw) :: l₂) {ft : FilesT ρ}
    (hx : p.files x = some ft) {c i ctx} (hs : (t, Ev.start c i key x ctx) ∈ l₁) (hforce : getForce ctx = true) :
    ((∃ c', (t, Ev.call c' ctx [ft.target]) ∈ l₁) ∨
      (∃ c' ws e, raw = some e ∧ ws.length = ft.ins.length ∧ hist t l₁ = acts ws ++ [.call c' ctx (prereqsOf ft.ins ws), .ret c' (some e)])) ∧
    (raw = none → ∀ d, getHashDB ctx = some d → getDryRun ctx = false →
      ∃ g ws hsh, g <+: l₁ ∧ StoredAt hex sum p g t d ft ws hsh) := by
  obtain ⟨c₀, i₀, ctx', hs', hf⟩ := finish_files hex sum h hl (hp.isFiles x ft hx)
  obtain ⟨-, -, -, -, rfl⟩ := start_uniq h (sub_log hl hs) (sub_log hl hs')
  constructor
  · have hcm : ∀ {c' refs}, LEv.call c' ctx refs ∈ hist t l₁ → (t, Ev.call c' ctx refs) ∈ l₁ := mem_hist_call.1
    generalize hist t l₁ = H at hf hcm
    generalize hpp : Pos.at (Proc.ret raw) = pos at hf
    cases hf <;> first | (cases hpp; done) | skip
    case prereqsFailed ws c' e h1 h2 => cases hpp; exact .inr ⟨c', ws, e, rfl, h1, rfl⟩
    case checkFailed h4 => simp_all
    case skipped => simp_all
    case subFailed h0 c' e h1 => exact .inl ⟨c', hcm (by simp)⟩
    case built h0 c' h1 h2 => exact .inl ⟨c', hcm (by simp)⟩
    case rehashFailed h0 c' ws d e h1 h2 h3 h4 => exact .inl ⟨c', hcm (by simp)⟩
    case added h0 c' ws d hsh w h1 h2 h3 h4 => exact .inl ⟨c', hcm (by simp)⟩
  · rintro rfl d hd hdry
    obtain ⟨c₂, i₂, ctx₂, hs₂, -, h3⟩ := C27_success_means hex sum hp h hl hx
    obtain ⟨-, -, -, -, rfl⟩ := start_uniq h (sub_log hl hs) (sub_log hl hs₂)
    rcases h3 with ⟨c', -, -, h3⟩ | ⟨d', ws, hsh, w, -, hf', -⟩
    · exact h3 d hd hdry
    · rw [hforce] at hf'; cases hf'

/-- **C28, DryRun or no database.** Then a running Files target does not touch the world (in particular no database) at all,
and what it does next depends on nothing but the registry of Files targets (in particular on no database and no file). -/
theorem C28_dryrun {p : Program ρ} (hp : p.Honest hex sum) {w : World ρ} {s : State (World ρ) Ctx} (h : Reach p.env w p.clients s)
    {t : Nat} {j : Job Ctx} {f k} (ht : s.threads[t]? = some ⟨some j, .exec (.act f k)⟩) {ft : FilesT ρ} (hx : p.files j.tgt = some ft)
    (hd : getDryRun j.ctx = true ∨ getHashDB j.ctx = none) :
    f = id ∧ ∀ w w' : World ρ, w.reg = w'.reg → k w = k w' := by
  obtain ⟨p0, ho, hpos⟩ := h.localInv.pos t _ _ ht
  simp only [Orig] at ho
  subst ho
  simp only [PosOK] at hpos
  rw [hp.isFiles _ _ hx] at hpos
  have hcase := files_path hex sum hpos
  generalize hist t s.log = H at hcase
  generalize hpp : Pos.at (Proc.act f k) = pos at hcase
  cases hcase <;> first | (cases hpp; done) | skip
  case finding ws k' h1 h2 => cases hpp; exact ⟨rfl, h2⟩
  all_goals (rcases hd with hd | hd <;> simp_all)

/-! ## C29: prerequisites first -/

theorem mem_prereqs {reg : GoMap Str Obj} {ws : List (World ρ)} (hw : ∀ w ∈ ws, w.reg = reg) : ∀ {ins : List Str}, ws.length = ins.length →
    ∀ r, r ∈ prereqsOf ins ws ↔ ∃ inp ∈ ins, ∃ o, Producer reg inp o ∧ r = .ptr o := by
  induction ws with
  | nil => intro ins hl r; cases ins <;> simp_all [prereqsOf]
  | cons w ws ih =>
    intro ins hl r
    cases ins with
    | nil => simp at hl
    | cons i ins =>
      have h1 := ih (fun w hw' => hw w (by simp [hw'])) (ins := ins) (by simpa using hl) r
      have h2 : ∀ o, findInFilesRegistry w.reg i = some o ↔ Producer reg i o := by intro o; rw [hw w (by simp)]; exact find_iff reg i o
      simp only [prereqsOf, List.zip_cons_cons, List.mem_filterMap, List.mem_cons, Option.map_eq_some_iff, exists_eq_or_imp] at h1 ⊢
      rw [h1]
      constructor
      · rintro (⟨o, ho, rfl⟩ | h)
        · exact .inl ⟨o, (h2 o).1 ho, rfl⟩
        · exact .inr h
      · rintro (⟨o, ho, rfl⟩ | h)
        · exact .inl ⟨o, (h2 o).2 ho, rfl⟩
        · exact .inr h

theorem mem_hist_act {t w} {log : List (Nat × Ev (World ρ) Ctx)} : LEv.act w ∈ hist t log ↔ (t, Ev.act w) ∈ log := by
  simp only [hist, List.mem_filterMap]
  constructor
  · rintro ⟨⟨t', e⟩, hm, h⟩
    by_cases htt : t' = t
    · subst htt; cases e <;> simp at h; subst h; exact hm
    · simp [htt] at h
  · intro hm; exact ⟨_, hm, by simp⟩

/-- Every producer of an input has been run without error. -/
def ProducersOK (env : Env (World ρ) Ctx) (reg : GoMap Str Obj) (ft : FilesT ρ) (l : List (Nat × Ev (World ρ) Ctx)) : Prop :=
  ∀ inp ∈ ft.ins, ∀ o, Producer reg inp o → FinishedOK env l (.ptr o)

theorem done_ok {env : Env (World ρ) Ctx} {w : World ρ} {cl : List (P ρ)} {s : State (World ρ) Ctx} (h : Reach env w cl s)
    {l₁ l₂ : List (Nat × Ev (World ρ) Ctx)} (hl : s.log = l₁ ++ l₂) {t : Nat} {ft : FilesT ρ} {ctx : Ctx} {H B} (hH : hist t l₁ = H ++ B)
    (hd : PrereqsDone ft ctx H) {reg : GoMap Str Obj} (hreg : ∀ w, (t, Ev.act w) ∈ s.log → w.reg = reg) : ProducersOK env reg ft l₁ := by
  obtain ⟨ws, hlen, hd⟩ := hd
  have hws : ∀ w ∈ ws, w.reg = reg := by
    intro w hw
    have hm : LEv.act w ∈ hist t l₁ := by
      rw [hH]
      rcases hd with ⟨-, rfl⟩ | ⟨-, c, rfl⟩ <;> simp [acts, hw]
    exact hreg w (by rw [hl]; exact List.mem_append_left _ (mem_hist_act.1 hm))
  intro inp hinp o ho
  have hm := (mem_prereqs hws hlen (.ptr o)).2 ⟨inp, hinp, o, ho, rfl⟩
  rcases hd with ⟨h1, -⟩ | ⟨-, c, rfl⟩
  · rw [h1] at hm; simp at hm
  · have hc : (t, Ev.call c ctx (prereqsOf ft.ins ws)) ∈ l₁ := mem_hist_call.1 (by rw [hH]; simp)
    have hr : (t, Ev.ret c none) ∈ l₁ := mem_hist_ret.1 (by rw [hH]; simp)
    exact ok_of_ret_none h hl hc hr _ hm

theorem Ready.done {ft : FilesT ρ} {ctx : Ctx} {H} (h : Ready hex sum ft ctx H) : ∃ A B, H = A ++ B ∧ PrereqsDone ft ctx A := by
  cases h with
  | plain h1 h2 => exact ⟨H, [], by simp, h1⟩
  | @stale h d ws hsh w h1 => exact ⟨h, acts ws ++ [.act w], by simp, h1⟩

theorem regFiles_get (o : Obj) (outs : List Str) : ∀ (reg : GoMap Str Obj) (name : Str),
    (regFiles reg o outs).get name = if name ∈ outs then some o else reg.get name := by
  induction outs with
  | nil => intro reg name; simp [regFiles]
  | cons a outs ih =>
    intro reg name
    have := ih (reg.put a o) name
    rw [regFiles, List.foldl_cons, ← regFiles, this, GoMap.get_put]
    by_cases h : name ∈ outs
    · simp [h]
    · by_cases h' : a = name
      · simp [h']
      · simp [h, h', Ne.symm h']

/-- **C29, what is registered.** The registry gives for a name the Files target created last among those with this output, and
nothing if there is none. -/
theorem C29_registered (l : List (Obj × List Str)) (name : Str) :
    (∀ o, (regAll l).get name = some o ↔ ∃ l₁ outs l₂, l = l₁ ++ (o, outs) :: l₂ ∧ name ∈ outs ∧ ∀ e ∈ l₂, name ∉ e.2) ∧
    ((regAll l).get name = none ↔ ∀ e ∈ l, name ∉ e.2) := by
  induction l using snoc_ind with
  | h0 => simp [regAll, GoMap.get]
  | h1 l e ih =>
    obtain ⟨o', outs'⟩ := e
    have hstep : (regAll (l ++ [(o', outs')])).get name = if name ∈ outs' then some o' else (regAll l).get name := by
      rw [regAll, List.foldl_append, ← regAll, List.foldl_cons, List.foldl_nil, regFiles_get]
    rw [hstep]
    by_cases h : name ∈ outs'
    · rw [if_pos h]
      refine ⟨fun o => ⟨fun ho => ?_, ?_⟩, ?_⟩
      · cases ho; exact ⟨l, outs', [], rfl, h, by simp⟩
      · rintro ⟨l₁, outs, l₂, he, h1, h2⟩
        rcases List.eq_nil_or_concat l₂ with rfl | ⟨l₃, x, rfl⟩
        · have := List.append_inj_right' he rfl; simp at this; rw [this.1]
        · rw [List.concat_eq_append, ← List.cons_append, ← List.append_assoc] at he
          have := List.append_inj_right' he rfl
          simp at this
          subst this
          exact absurd h (h2 (o', outs') (by simp))
      · simp only [reduceCtorEq, false_iff, not_forall]
        exact ⟨(o', outs'), by simp, by simpa using h⟩
    · rw [if_neg h]
      refine ⟨fun o => ?_, ?_⟩
      · rw [ih.1 o]
        constructor
        · rintro ⟨l₁, outs, l₂, rfl, h1, h2⟩
          refine ⟨l₁, outs, l₂ ++ [(o', outs')], by simp, h1, ?_⟩
          intro e he
          rcases List.mem_append.1 he with he | he
          · exact h2 e he
          · rw [List.mem_singleton.1 he]; exact h
        · rintro ⟨l₁, outs, l₂, he, h1, h2⟩
          rcases List.eq_nil_or_concat l₂ with rfl | ⟨l₃, x, rfl⟩
          · have := List.append_inj_right' he rfl; simp at this; rw [this.2] at h; exact absurd h1 h
          · rw [List.concat_eq_append, ← List.cons_append, ← List.append_assoc] at he
            exact ⟨l₁, outs, l₃, List.append_inj_left' he rfl, h1, fun e he => h2 e (by simp [he])⟩
      · rw [ih.2]
        constructor
        · intro h1 e he
          rcases List.mem_append.1 he with he | he
          · exact h1 e he
          · rw [List.mem_singleton.1 he]; exact h
        · intro h1 e he; exact h1 e (by simp [he])

/-- **C29.** Let the registry of Files targets not change while the Files target `x` runs.  Its first call of `Run`, if any input
has a producer, asks for exactly the producers of its inputs: for each input the Files target registered for that name or for the
nearest directory above it.  Any other call asks for its subtarget, and then every producer has been run without error. -/
theorem C29_calls {env : Env (World ρ) Ctx} {w : World ρ} {cl : List (P ρ)} {s : State (World ρ) Ctx} (h : Reach env w cl s)
    {l₁ l₂ t c ctx refs} (hl : s.log = l₁ ++ (t, Ev.call c ctx refs) :: l₂) {c₀ i₀ key x ctx₀}
    (hs : (t, Ev.start c₀ i₀ key x ctx₀) ∈ s.log) {ft : FilesT ρ} (hb : ∀ ctx, env.body x ctx = filesBody hex sum ft ctx)
    {reg : GoMap Str Obj} (hreg : ∀ w, (t, Ev.act w) ∈ s.log → w.reg = reg) :
    (callsBy t l₁ = 0 ∧ ∀ r, r ∈ refs ↔ ∃ inp ∈ ft.ins, ∃ o, Producer reg inp o ∧ r = .ptr o) ∨
    (refs = [ft.target] ∧ ProducersOK env reg ft l₁) := by
  obtain ⟨k, hp⟩ := call_path h hl hs
  rw [hb] at hp
  have hcase := files_path hex sum hp
  have hact : ∀ w, LEv.act w ∈ hist t l₁ → w.reg = reg := by
    intro w hw; exact hreg w (by rw [hl]; exact List.mem_append_left _ (mem_hist_act.1 hw))
  generalize hH : hist t l₁ = H at hcase hact
  generalize hpp : Pos.at (Proc.call ctx refs k) = pos at hcase
  cases hcase <;> cases hpp
  case prereqs ws h1 h2 =>
    left
    refine ⟨?_, mem_prereqs (fun w hw => hact w (by simp [acts, hw])) h1⟩
    rw [callsBy_hist, hH]
    simp [acts, List.countP_map, Function.comp_def, LEv.isCall]
  case requesting h1 =>
    obtain ⟨A, B, rfl, hd⟩ := h1.done hex sum
    exact .inr ⟨rfl, done_ok h hl hH hd hreg⟩

/-- **C29, hashing.** Any action a Files target performs after its registry lookups (one per input), that is, any reading of
files or of the database and any recording, happens after every producer has been run without error. -/
theorem C29_actions {env : Env (World ρ) Ctx} {w : World ρ} {cl : List (P ρ)} {s : State (World ρ) Ctx} (h : Reach env w cl s)
    {l₁ l₂ t w'} (hl : s.log = l₁ ++ (t, Ev.act w') :: l₂) {c₀ i₀ key x ctx₀}
    (hs : (t, Ev.start c₀ i₀ key x ctx₀) ∈ l₁) {ft : FilesT ρ} (hb : ∀ ctx, env.body x ctx = filesBody hex sum ft ctx)
    {reg : GoMap Str Obj} (hreg : ∀ w, (t, Ev.act w) ∈ s.log → w.reg = reg) (hn : ft.ins.length ≤ (hist t l₁).length) :
    ProducersOK env reg ft l₁ := by
  obtain ⟨p, f, k, hex', hp⟩ := h.evPath _ _ _ hl
  have hp' : Runs (filesBody hex sum ft ctx₀) (hist t l₁) (.at (.act f k)) := by
    rcases hex' with ⟨c', i', key', tgt', ctx', hm, rfl⟩ | ⟨h1, h2⟩
    · obtain ⟨-, -, -, rfl, rfl⟩ := start_uniq h (sub_log hl hs) (sub_log hl hm)
      rw [hb] at hp; exact hp
    · exact absurd hs (h2 _ _ _ _ _)
  have hcase := files_path hex sum hp'
  generalize hH : hist t l₁ = H at hcase hn
  generalize hpp : Pos.at (Proc.act f k) = pos at hcase
  cases hcase <;> cases hpp
  case finding ws h1 h2 => simp [acts] at hn; omega
  case checking h0 ws d h1 _ _ _ => exact done_ok h hl hH h1 hreg
  case rehashing h0 c ws d h1 _ _ =>
    obtain ⟨A, B, rfl, hd⟩ := h1.done hex sum
    exact done_ok h hl (B := B ++ ([LEv.call c ctx₀ [ft.target], LEv.ret c none] ++ acts ws)) (by rw [hH]; simp) hd hreg
  case adding h0 c ws d hsh h1 _ _ _ =>
    obtain ⟨A, B, rfl, hd⟩ := h1.done hex sum
    exact done_ok h hl (B := B ++ ([LEv.call c ctx₀ [ft.target], LEv.ret c none] ++ acts ws)) (by rw [hH]; simp) hd hreg

/-- **C29, failing producers.** If the call for the producers returns an error, the Files target never requests its subtarget
(no other call is made) and returns that error. -/
theorem C29_producer_fails {env : Env (World ρ) Ctx} {w : World ρ} {cl : List (P ρ)} {s : State (World ρ) Ctx} (h : Reach env w cl s)
    {l₁ l₂ t key x raw} (hl : s.log = l₁ ++ (t, Ev.finish key x raw) :: l₂) {ft : FilesT ρ}
    (hb : ∀ ctx, env.body x ctx = filesBody hex sum ft ctx) {reg : GoMap Str Obj}
    (hreg : ∀ w, (t, Ev.act w) ∈ s.log → w.reg = reg) (hfail : ¬ ProducersOK env reg ft l₁) :
    (∃ e, raw = some e ∧ ∃ c, (t, Ev.ret c (some e)) ∈ l₁) ∧ callsBy t l₁ = 1 := by
  obtain ⟨c₀, i₀, ctx, hs, hf⟩ := finish_files hex sum h hl hb
  have hrm : ∀ {c' e}, LEv.ret c' e ∈ hist t l₁ → (t, Ev.ret c' e) ∈ l₁ := mem_hist_ret.1
  rw [callsBy_hist]
  generalize hH : hist t l₁ = H at hf hrm
  generalize hpp : Pos.at (Proc.ret raw) = pos at hf
  have hr : ∀ {h0 B}, Ready hex sum ft ctx h0 → H = h0 ++ B → False := by
    intro h0 B h1 hB
    obtain ⟨A, B', rfl, hd⟩ := h1.done hex sum
    exact hfail (done_ok h hl (B := B' ++ B) (by rw [hH, hB]; simp) hd hreg)
  have hd' : ∀ {h0 B}, PrereqsDone ft ctx h0 → H = h0 ++ B → False := by
    intro h0 B h1 hB
    exact hfail (done_ok h hl (B := B) (by rw [hH, hB]) h1 hreg)
  cases hf <;> first | (cases hpp; done) | skip
  case prereqsFailed ws c' e h1 h2 =>
    cases hpp
    refine ⟨⟨e, rfl, c', hrm (by simp)⟩, ?_⟩
    simp [acts, List.countP_map, Function.comp_def, LEv.isCall, List.countP_cons]
  case checkFailed h0 ws d e h1 h2 h3 h4 h5 => exact (hd' h1 rfl).elim
  case skipped h0 d ws hsh w h1 h2 h3 h4 h5 h6 h7 => exact (hd' h1 (List.append_assoc _ _ _)).elim
  case subFailed h0 c' e h1 => exact (hr h1 rfl).elim
  case built h0 c' h1 h2 => exact (hr h1 rfl).elim
  case rehashFailed h0 c' ws d e h1 h2 h3 h4 => exact (hr h1 (List.append_assoc _ _ _)).elim
  case added h0 c' ws d hsh w h1 h2 h3 h4 =>
    exact (hr h1 (by rw [List.append_assoc, List.append_assoc])).elim

/-! ## C26: an up-to-date target is skipped -/

theorem HashOf.det {ft ft' : FilesT ρ} {ws ws' : List (World ρ)} {a b : Str} (h1 : HashOf hex sum ft ws a) (h2 : HashOf hex sum ft' ws' b)
    (hi : ft.ins = ft'.ins) (ho : ft.outs = ft'.outs) (ht : ft.typ = ft'.typ) {F : FS} (hs : Steady F ws) (hs' : Steady F ws')
    {j} (hj : ∀ w ∈ ws, ft.desc w = some j) (hj' : ∀ w ∈ ws', ft'.desc w = some j) : a = b := by
  obtain ⟨li, lo, j1, wd, a1, a2, a3, a4, a5⟩ := h1.steady hex sum hs
  obtain ⟨li', lo', j2, wd', b1, b2, b3, b4, b5⟩ := h2.steady hex sum hs'
  rw [hi, b2] at a2; cases a2
  rw [ho, b3] at a3; cases a3
  rw [hj _ a1] at a4; cases a4
  rw [hj' _ b1] at b4; cases b4
  rw [a5, b5, ht]

/-- The computation cannot fail in the files in which it succeeded once. -/
theorem HashFails.steady {ft ft' : FilesT ρ} {ws ws' : List (World ρ)} {h : Str} (hf : HashFails hex ft ws)
    (hh : HashOf hex sum ft' ws' h) (hi : ft.ins = ft'.ins) (ho : ft.outs = ft'.outs) {F : FS} (hs' : Steady F ws') (hs : Steady F ws)
    (hd : ∀ w ∈ ws, ft.desc w ≠ none) : False := by
  obtain ⟨li, lo, j, wd, a1, a2, a3, a4, a5⟩ := hh.steady hex sum hs'
  have key : ∀ (us : List (World ρ)) (items : List Str) (l : List Str), Steady F us → fileHashes hex F items = .ok l →
      ¬ ∀ ws2, ∃ e, fileHashesAt hex (List.zip ((us ++ ws2).map (·.fs)) items) = .error e := by
    intro us items l hu hl hall
    obtain ⟨e, he⟩ := hall (List.replicate items.length wd)
    rw [zip_steady_le (F := F) (by
      intro w hw
      rcases List.mem_append.1 hw with hw | hw
      · exact hu w hw
      · rw [List.eq_of_mem_replicate hw]; exact hs' wd a1) (by simp)] at he
    rw [fileHashes, he] at hl
    cases hl
  rcases hf with hf | ⟨wi, wo, rfl, hf⟩ | ⟨ws0, w, rfl, hf⟩
  · exact key ws ft.ins li hs (hi ▸ a2) hf
  · exact key wo ft.outs lo (fun w hw => hs w (by simp [hw])) (ho ▸ a3) hf
  · exact hd w (by simp) hf

/-- **C26 (partial).** Suppose a hash was recorded for Files target `ft'` in files `F` with rule `j`.  Now a Files target `ft` with the
same names and subtarget type runs (in any process) with neither Force nor DryRun, and everything it sees has the same files `F`,
the same JSON form `j` of the subtarget, and a working database that still has the entry; and its prerequisites do not fail.
Then it succeeds and requests nothing but its prerequisites.
Missing for the full claim: for a subtarget given by name the JSON form is different before and after it has been resolved, so the
hypothesis that it is the same fails in a fresh process (`C26_counterexample_by_name` in Verif/Files/Rule.lean). -/
theorem C26_skip_complete_partial {env : Env (World ρ) Ctx} {w : World ρ} {cl : List (P ρ)} {s : State (World ρ) Ctx}
    (h : Reach env w cl s) {l₁ l₂ t key x raw} (hl : s.log = l₁ ++ (t, Ev.finish key x raw) :: l₂) {ft : FilesT ρ}
    (hb : ∀ ctx, env.body x ctx = filesBody hex sum ft ctx) {c i ctx} (hs : (t, Ev.start c i key x ctx) ∈ l₁)
    {d} (hd : getHashDB ctx = some d) (hforce : getForce ctx = false) (hdry : getDryRun ctx = false)
    {ft' : FilesT ρ} {ws' : List (World ρ)} {hsh : Str} (hrec : HashOf hex sum ft' ws' hsh)
    (hi : ft.ins = ft'.ins) (ho : ft.outs = ft'.outs) (ht : ft.typ = ft'.typ) {F : FS} {j : Json.J}
    (hF' : Steady F ws') (hj' : ∀ w ∈ ws', ft'.desc w = some j)
    (hnow : ∀ w, (t, Ev.act w) ∈ l₁ → w.fs = F ∧ ft.desc w = some j ∧ hsh ∈ w.db d ∧ w.hasFails = false)
    (hpre : ∀ c e, (t, Ev.ret c (some e)) ∉ l₁) :
    raw = none ∧ ∃ ws A, hist t l₁ = A ++ acts ws ∧ PrereqsDone ft ctx A := by
  obtain ⟨c₀, i₀, ctx', hs', hrun⟩ := finish_path h hl
  obtain ⟨-, -, -, -, rfl⟩ := start_uniq h (sub_log hl hs) (sub_log hl hs')
  rw [hb] at hrun
  have hf := files_path hex sum hrun
  have hnow' : ∀ w, LEv.act w ∈ hist t l₁ → w.fs = F ∧ ft.desc w = some j ∧ hsh ∈ w.db d ∧ w.hasFails = false :=
    fun w hw => hnow w (mem_hist_act.1 hw)
  have hpre' : ∀ c e, LEv.ret c (some e) ∉ hist t l₁ := fun c e hm => hpre c e (mem_hist_ret.1 hm)
  -- the decisive moment: the check cannot fail, nor find the hash missing
  have hstale : ∀ {h0 B}, Ready hex sum ft ctx h0 → hist t l₁ = h0 ++ B → False := by
    intro h0 B h1 hB
    cases h1 with
    | plain h1 h2 => rcases h2 with h2 | h2 | h2 <;> simp_all
    | @stale h0 d' ws hsh' w h1 h2 h3 h4 h5 h6 h7 =>
      rw [h2] at hd; cases hd
      have hss : ∀ w ∈ ws, w.fs = F ∧ ft.desc w = some j ∧ hsh ∈ w.db d ∧ w.hasFails = false := by
        intro w hw; apply hnow'; rw [hB]; simp [acts, hw]
      have he := h5.det hex sum hrec hi ho ht (fun w hw => (hss w hw).1) hF' (fun w hw => (hss w hw).2.1) hj'
      subst he
      exact h7 (hnow' w (by rw [hB]; simp)).2.2.1
  generalize hH : hist t l₁ = H at hf hnow' hpre' hstale hrun
  generalize hpp : Pos.at (Proc.ret raw) = pos at hf
  cases hf <;> first | (cases hpp; done) | skip
  case prereqsFailed ws c' e h1 h2 => exact absurd (by simp) (hpre' c' e)
  case checkFailed h0 ws d' e h1 h2 h3 h4 h5 =>
    exfalso
    have hss : ∀ w ∈ ws, w.fs = F ∧ ft.desc w = some j ∧ hsh ∈ w.db d ∧ w.hasFails = false := by
      intro w hw; exact hnow' w (by simp [acts, hw])
    rcases h5 with h5 | ⟨ws0, w, rfl, h5⟩
    · exact h5.steady hex sum hrec hi ho hF' (fun w hw => (hss w hw).1) fun w hw => by rw [(hss w hw).2.1]; simp
    · have := (hss w (by simp)).2.2.2; rw [h5] at this; cases this
  case skipped h0 d' ws hsh' w h1 h2 h3 h4 h5 h6 h7 =>
    cases hpp
    exact ⟨rfl, ws ++ [w], h0, by simp [acts], h1⟩
  case subFailed h0 c' e h1 => exact (hstale h1 rfl).elim
  case built h0 c' h1 h2 => exact (hstale h1 rfl).elim
  case rehashFailed h0 c' ws d e h1 h2 h3 h4 => exact (hstale h1 (List.append_assoc _ _ _)).elim
  case added h0 c' ws d hsh w h1 h2 h3 h4 =>
    exact (hstale h1 (by rw [List.append_assoc, List.append_assoc])).elim

end Fab.Files
