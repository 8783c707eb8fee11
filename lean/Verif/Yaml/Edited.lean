import Verif.Yaml.Minimal

/-!
# C93: after an edit

After a successful build, only those rules are run whose targets depend on a file that was edited.
-/

namespace Fab.Yaml
open Path Cmd Files
open Runner (Proc TRef Env Ev State Reach Label TSt Job Thread StepC step_cases allBody seqBody argBody nameBody hist)

section
variable {ρ : Type} {hex : Bytes → Str} {sum : Str → Str} {own : Own ρ} {s : St} {J : Nat → Json.J} {os : List Nat}

theorem Ahead.runs {pre : List TRef} {main p : P ρ} (ha : Ahead pre main p) {H pos} (hr : Runner.Runs p H pos) :
    ((∀ c ctx refs, Runner.LEv.call c ctx refs ∉ H) ∧ ∃ q, pos = .at q ∧ Ahead pre main q) ∨
    (∃ c ctx k, Runner.LEv.call c ctx pre ∈ H ∧ pos = .inCall c k ∧ ∀ e, ∃ e', k (some e) = .ret (some e')) ∨
    (∃ c ctx, Runner.LEv.call c ctx pre ∈ H ∧ Runner.LEv.ret c none ∈ H) ∨ ∃ e, pos = .at (.ret (some e)) := by
  induction hr with
  | nil => exact .inl ⟨fun _ _ _ h => by simp at h, p, rfl, ha⟩
  | act w _ ih =>
    rcases ih with ⟨h1, q, h2, h3⟩ | ⟨c, ctx, k, h1, h2, h3⟩ | ⟨c, ctx, h1, h2⟩ | ⟨e, h1⟩
    · cases h2
      exact .inl ⟨fun c ctx refs h => by simp at h; exact h1 _ _ _ h, _, rfl, h3 w⟩
    · cases h2
    · exact .inr (.inr (.inl ⟨c, ctx, by simp [h1], by simp [h2]⟩))
    · cases h1
  | call c _ ih =>
    rcases ih with ⟨h1, q, h2, h3⟩ | ⟨c, ctx, k, h1, h2, h3⟩ | ⟨c, ctx, h1, h2⟩ | ⟨e, h1⟩
    · cases h2
      obtain ⟨rfl, -, h4⟩ := h3
      exact .inr (.inl ⟨c, _, _, List.mem_append_right _ (List.mem_singleton.2 rfl), rfl, h4⟩)
    · cases h2
    · exact .inr (.inr (.inl ⟨c, ctx, by simp [h1], by simp [h2]⟩))
    · cases h1
  | ret e _ ih =>
    rcases ih with ⟨h1, q, h2, h3⟩ | ⟨c, ctx, k, h1, h2, h3⟩ | ⟨c, ctx, h1, h2⟩ | ⟨e, h1⟩
    · cases h2
    · cases h2
      cases e with
      | none => exact .inr (.inr (.inl ⟨_, ctx, List.mem_append_left _ h1, List.mem_append_right _ (List.mem_singleton.2 rfl)⟩))
      | some e =>
        obtain ⟨e', h4⟩ := h3 e
        exact .inr (.inr (.inr ⟨e', by rw [h4]⟩))
    · exact .inr (.inr (.inl ⟨c, ctx, by simp [h1], by simp [h2]⟩))
    · cases h1

theorem files_ahead {t : Nat} {ins outs : List Str} {ctx : Ctx} (hp : pres s.filesReg ins ≠ []) :
    Ahead (pres s.filesReg ins) (withReg s.filesReg (filesMain hex sum (⟨.ptr t, own.typ t, own.desc t, ins, outs⟩ : FilesT ρ) ctx))
      (withReg s.filesReg (filesBody hex sum (⟨.ptr t, own.typ t, own.desc t, ins, outs⟩ : FilesT ρ) ctx)) := by
  unfold filesBody
  refine q_findAll (Q := Ahead _ _) (fun f k h => h) _ _ _ _ ?_
  rw [List.nil_append, if_neg hp, withReg]
  exact ⟨rfl, rfl, fun e => ⟨_, rfl⟩⟩

theorem inCall_last {p : P ρ} {H c k} (hr : Runner.Runs p H (.inCall c k)) : ∃ H' ctx refs, H = H' ++ [.call c ctx refs] := by
  cases hr with
  | call c _ => exact ⟨_, _, _, rfl⟩

theorem hist_append {t : Nat} {a b : List (Nat × Ev (World ρ) Ctx)} : hist t (a ++ b) = hist t a ++ hist t b := by
  simp [hist, List.filterMap_append]

/-- A target is started once under each key. -/
theorem one_starter {env : Env (World ρ) Ctx} {w : World ρ} {cl : List (P ρ)} {st : State (World ρ) Ctx} (h : Reach env w cl st) {t t' c i key tgt ctx c' i' tgt' ctx'}
    (h1 : (t, Ev.start c i key tgt ctx) ∈ st.log) (h2 : (t', Ev.start c' i' key tgt' ctx') ∈ st.log) : t = t' := by
  obtain ⟨a, b, hl⟩ := List.append_of_mem h1
  have hone := h.inv.b.once key
  rw [hl, Runner.startN_append] at hone
  rw [hl] at h2
  have hcount : ∀ l : List (Nat × Ev (World ρ) Ctx), (t', Ev.start c' i' key tgt' ctx') ∈ l → 0 < Runner.startN key l := fun l hl => by
    unfold Runner.startN
    exact List.countP_pos_iff.2 ⟨_, hl, by simp [Ev.isStart]⟩
  have h3 : Runner.startN key ((t, Ev.start c i key tgt ctx) :: b) = Runner.startN key b + 1 := by
    unfold Runner.startN
    rw [List.countP_cons]
    simp [Ev.isStart]
  rcases List.mem_append.1 h2 with h4 | h4
  · have := hcount _ h4; omega
  · rcases List.mem_cons.1 h4 with h5 | h5
    · cases h5; rfl
    · have := hcount _ h5; omega

/-- A goroutine keeps its job, and the log only grows. -/
theorem later {w : World ρ} {ctx : Ctx} {ls₁ : List (Label (World ρ))} : ∀ ls₂ : List (Label (World ρ)),
    (∀ t jb ts, (buildRun hex sum own s os w ctx ls₁).th t = some ⟨jb, ts⟩ → ∃ ts', (buildRun hex sum own s os w ctx (ls₁ ++ ls₂)).th t = some ⟨jb, ts'⟩) ∧
    ∃ l, (buildRun hex sum own s os w ctx (ls₁ ++ ls₂)).log = (buildRun hex sum own s os w ctx ls₁).log ++ l := by
  intro ls₂
  induction ls₂ using List.reverseRecOn with
  | nil => rw [List.append_nil]; exact ⟨fun t jb ts h => ⟨ts, h⟩, [], by simp⟩
  | append_singleton ls₂ l ih =>
    rw [← List.append_assoc, buildRun_snoc]
    generalize buildRun hex sum own s os w ctx (ls₁ ++ ls₂) = st at *
    obtain ⟨h1, L, h2⟩ := ih
    cases l with
    | extern f => exact ⟨h1, L, h2⟩
    | thread tid =>
      cases hs : Runner.lstep (buildEnv hex sum own s) st (.thread tid) with
      | none => exact ⟨h1, L, h2⟩
      | some st' =>
        obtain ⟨th, hth, hcs⟩ := step_cases hs
        obtain ⟨L', hL'⟩ := Runner.log_mono hcs
        refine ⟨fun t jb ts h => ?_, L ++ L', ?_⟩
        · obtain ⟨ts', h3⟩ := h1 t jb ts h
          obtain ⟨ts'', h4, -⟩ := Runner.th_persist hth hcs h3
          exact ⟨ts'', h4⟩
        · rw [Option.getD_some, hL', h2]; simp

/-- What a Files target saw of its files after it had made them is still there at the end of the build. -/
theorem lastSaw_still {w : World ρ} {ctx : Ctx} {ls : List (Label (World ρ))} {T : Sit → Prop}
    (hf : LooseBuild hex sum own s J os T w ctx ls) {x t : Nat} {ins outs : List Str} (hx : FilesOf s os x t ins outs) {u : World ρ}
    (hu : LastSaw (buildRun hex sum own s os w ctx ls).log x u) : Agree (ins ++ outs) u.fs (buildRun hex sum own s os w ctx ls).world.fs := by
  obtain ⟨th, key, l₁, m, l₂, hlog, hm⟩ := hu
  have hr := buildRun_reach (hex := hex) (sum := sum) (own := own) (s := s) (os := os) (w := w) (ctx := ctx) (ls := ls)
  have hlogF : (buildRun hex sum own s os w ctx ls).log = (l₁ ++ (th, Ev.act u) :: m) ++ (th, Ev.finish key x none) :: l₂ := by rw [hlog]
  have hlogA : (buildRun hex sum own s os w ctx ls).log = l₁ ++ (th, Ev.act u) :: (m ++ (th, Ev.finish key x none) :: l₂) := by rw [hlog]; simp
  obtain ⟨c₀, i₀, ctx₀, hst, hpath⟩ := Runner.finish_path hr hlogF
  have hst' : (th, Ev.start c₀ i₀ key x ctx₀) ∈ (buildRun hex sum own s os w ctx ls).log := Runner.sub_log hlogF hst
  obtain ⟨ka, l, kb, hls, e2, e3⟩ := moment hlogA ⟨(fun _ _ _ h => nomatch h), (fun _ _ h => nomatch h)⟩
  obtain ⟨jF, tsF, f1, -, -, f4, f5, -⟩ := hr.inv.f.startJob _ _ _ _ _ _ hst'
  -- the moment of `u`
  have hra := buildRun_reach (hex := hex) (sum := sum) (own := own) (s := s) (os := os) (w := w) (ctx := ctx) (ls := ka)
  obtain ⟨jb, f, k, hth, hw⟩ : ∃ jb f k, (buildRun hex sum own s os w ctx ka).th th = some ⟨jb, .exec (.act f k)⟩ ∧ (buildRun hex sum own s os w ctx ka).world = u := by
    rw [buildRun_snoc] at e3
    rw [← e2] at e3
    generalize buildRun hex sum own s os w ctx ka = st at *
    have hne : ∀ e, st.log ≠ st.log ++ [e] := fun e h => by simpa using congrArg List.length h
    cases l with
    | extern f => exact absurd e3 (hne _)
    | thread tid =>
      cases hs : Runner.lstep (buildEnv hex sum own s) st (.thread tid) with
      | none => rw [hs] at e3; exact absurd e3 (hne _)
      | some st' =>
        rw [hs, Option.getD_some] at e3
        obtain ⟨⟨jb, ts⟩, hth, hcs⟩ := step_cases hs
        cases hcs
        case act f k h1 =>
          simp only [List.append_cancel_left_eq, List.cons.injEq, Prod.mk.injEq, Ev.act.injEq, and_true] at e3
          obtain ⟨rfl, rfl⟩ := e3
          dsimp only at h1; subst h1
          exact ⟨jb, f, k, hth, rfl⟩
        all_goals first
          | exact absurd e3 (hne _)
          | (simp only [List.append_cancel_left_eq] at e3; simp at e3)
  obtain rfl : jb = some jF := by
    obtain ⟨ts', h1⟩ := (later (hex := hex) (sum := sum) (own := own) (s := s) (os := os) (w := w) (ctx := ctx) (ls₁ := ka) (l :: kb)).1 _ _ _ hth
    rw [← hls, f1] at h1
    cases h1; rfl
  -- the makers were done
  have hmk : MakersDone s ins (buildRun hex sum own s os w ctx ka).log := by
    by_cases hp : pres s.filesReg ins = []
    · intro i hi z hz
      have : TRef.ptr z ∈ pres s.filesReg ins := mem_pres.2 ⟨i, hi, hz⟩
      rw [hp] at this
      cases this
    · have hcall : ∃ c ctx', (th, Ev.call c ctx' (pres s.filesReg ins)) ∈ l₁ := by
        simp only [buildEnv, hx.2] at hpath
        rcases (files_ahead hp).runs hpath with ⟨-, q, h2, h3⟩ | ⟨c, ctx, k, h1, h2, h3⟩ | ⟨c, ctx, h1, h2⟩ | ⟨e, h1⟩
        · cases h2; exact h3.elim
        · cases h2
        · have := Runner.mem_hist_call.1 h1
          simp only [List.mem_append, List.mem_cons, Prod.mk.injEq, reduceCtorEq, and_false, false_or] at this
          rcases this with h | h
          · exact ⟨_, _, h⟩
          · exact absurd h (hm _ _ _)
        · cases h1
      obtain ⟨p, ho, hp'⟩ := hra.localInv.pos _ _ _ hth
      cases ho
      simp only [buildEnv, f5, hx.2, e2] at hp'
      rcases (files_ahead hp).runs hp' with ⟨h1, -⟩ | ⟨c, ctx, k, h1, h2, h3⟩ | ⟨c, ctx, h1, h2⟩ | ⟨e, h1⟩
      · obtain ⟨c, ctx', hc⟩ := hcall
        exact absurd (Runner.mem_hist_call.2 hc) (h1 _ _ _)
      · cases h2
      · intro n hn z hz
        obtain ⟨o, th', tgt, a1, a2⟩ := Runner.ok_of_ret_none hra (l₁ := l₁) (l₂ := []) (t := th) (t' := th) (by rw [e2]; simp)
          (Runner.mem_hist_call.1 h1) (Runner.mem_hist_ret.1 h2) (.ptr z) (mem_pres.2 ⟨n, hn, hz⟩)
        cases a1
        exact ⟨th', tgt, by rw [e2]; exact a2⟩
      · cases h1
  -- from then on
  have hall : ∀ k₁ k₂, l :: kb = k₁ ++ k₂ → Agree (ins ++ outs) u.fs (buildRun hex sum own s os w ctx (ka ++ k₁)).world.fs := by
    intro k₁
    induction k₁ using List.reverseRecOn with
    | nil => intro k₂ _; rw [List.append_nil, hw]; exact .refl _ _
    | append_singleton k₁ l' ih =>
      intro k₂ hk
      have hls' : ls = (ka ++ k₁) ++ l' :: k₂ := by rw [hls, hk]; simp
      have ih' := ih (l' :: k₂) (by rw [hk]; simp)
      refine ih'.trans ?_
      rw [← List.append_assoc]
      have hrb := buildRun_reach (hex := hex) (sum := sum) (own := own) (s := s) (os := os) (w := w) (ctx := ctx) (ls := ka ++ k₁)
      have hi := buildInv_any hf (ka ++ k₁) _ hls'
      have hT := hf.sits (ka ++ k₁) _ hls'
      obtain ⟨hjob, lb, hlb⟩ := later (hex := hex) (sum := sum) (own := own) (s := s) (os := os) (w := w) (ctx := ctx) (ls₁ := ka) k₁
      obtain ⟨hjob', lc, hlc⟩ := later (hex := hex) (sum := sum) (own := own) (s := s) (os := os) (w := w) (ctx := ctx) (ls₁ := ka ++ k₁) (l' :: k₂)
      rw [← hls'] at hjob' hlc
      have hmk' : MakersDone s ins (buildRun hex sum own s os w ctx (ka ++ k₁)).log := hmk.mono fun e he => by rw [hlb]; exact List.mem_append_left _ he
      obtain ⟨tsb, hthb⟩ := hjob _ _ _ hth
      -- the rule is not at work
      have quiet : ∀ (t' : Nat) (j' : Job Ctx) (ts' : TSt (World ρ) Ctx), (buildRun hex sum own s os w ctx (ka ++ k₁)).th t' = some ⟨some j', ts'⟩ → ts'.inBody = true →
          Part s t j'.tgt → False := by
        intro t' j' ts' g1 g2 g3
        obtain ⟨-, hnf, -, hne⟩ := hi.inside hf.noRun hf.orderly hrb hx g1 g2 g3
        obtain ⟨-, j₁, -, -, -, -, -, t₂, j₂, ts₂, a1, a2, a3⟩ := Fab.Yaml.inside hf.noRun hf.orderly hrb hx t' g1 g2 g3
        have hin := inBody_of_within a2
        have hs2 := hrb.inv.b.started _ _ _ a1 (Runner.TSt.owning_of_inBody hin)
        have hkey : j₂.key = jF.key := (files_key hf.noRun hf.orderly hrb hx a1 a3).2.2 _ (files_key hf.noRun hf.orderly hrb hx hthb f5).1
          (files_key hf.noRun hf.orderly hrb hx hthb f5).2.1
        have hsame : t₂ = th := by
          have h1 : (t₂, Ev.start j₂.call j₂.idx j₂.key j₂.tgt j₂.ctx) ∈ (buildRun hex sum own s os w ctx ls).log := by rw [hlc]; exact List.mem_append_left _ hs2
          rw [hkey, f4] at h1
          exact one_starter hr h1 hst'
        subst hsame
        rw [a1] at hthb
        cases hthb
        -- no call since `u`
        cases k₁ with
        | nil =>
          rw [List.append_nil, hth] at a1
          cases a1
          cases a2
        | cons l₀ k₁ =>
          have hl₀ : l₀ = l := by
            have := congrArg List.head? hk
            simp at this; exact this.symm
          subst hl₀
          obtain ⟨-, ld, hld⟩ := later (hex := hex) (sum := sum) (own := own) (s := s) (os := os) (w := w) (ctx := ctx) (ls₁ := ka ++ [l₀]) k₁
          rw [e3, List.append_assoc, List.singleton_append] at hld
          have hcmp : ld ++ lc = m ++ (t₂, Ev.finish key x none) :: l₂ := by
            rw [hld, hlogA] at hlc
            simpa using hlc.symm
          have hmm : ∃ m', m = ld ++ m' := by
            rcases List.append_eq_append_iff.1 hcmp with ⟨m', h1, h2⟩ | ⟨m', h1, h2⟩
            · exact ⟨m', h1⟩
            · cases m' with
              | nil => exact ⟨[], by rw [h1]; simp⟩
              | cons e m' =>
                exfalso
                simp only [List.cons_append, List.cons.injEq] at h2
                refine hnf t₂ key none ?_
                rw [hld, h1, ← h2.1]; simp
          obtain ⟨m', hmm⟩ := hmm
          have hlast : ∃ H' c ctx' refs, hist t₂ (buildRun hex sum own s os w ctx (ka ++ l₀ :: k₁)).log = H' ++ [.call c ctx' refs] := by
            obtain ⟨p, -, hp⟩ := hrb.localInv.pos _ _ _ a1
            cases tsb with
            | spawning c n ctx todo k => obtain ⟨H', ctx', refs, h⟩ := inCall_last hp; exact ⟨H', c, ctx', refs, h⟩
            | joining c k => obtain ⟨H', ctx', refs, h⟩ := inCall_last hp; exact ⟨H', c, ctx', refs, h⟩
            | _ => cases a2
          obtain ⟨H', c, ctx', refs, hH⟩ := hlast
          have hh : hist t₂ (buildRun hex sum own s os w ctx (ka ++ l₀ :: k₁)).log = hist t₂ l₁ ++ .act u :: hist t₂ ld := by
            rw [hld, hist_append]
            simp [hist]
          rw [hh] at hH
          rcases List.eq_nil_or_concat (hist t₂ ld) with h0 | ⟨H₂, e, h0⟩
          · rw [h0] at hH
            have := (List.append_inj' hH rfl).2
            cases this
          · rw [List.concat_eq_append] at h0
            rw [h0] at hH
            have hH : (hist t₂ l₁ ++ .act u :: H₂) ++ [e] = H' ++ [.call c ctx' refs] := by rw [← hH]; simp
            have := (List.append_inj' hH rfl).2
            cases this
            have : Runner.LEv.call c ctx' refs ∈ hist t₂ ld := by rw [h0]; simp
            exact hm c ctx' refs (by rw [hmm]; exact List.mem_append_left _ (Runner.mem_hist_call.1 this))
      rw [buildRun_snoc]
      generalize buildRun hex sum own s os w ctx (ka ++ k₁) = st at *
      cases l' with
      | extern f => exact fun i hi => hf.outside f (by rw [hls']; simp) st.world x t ins outs hx i hi
      | thread tid =>
        cases hs : Runner.lstep (buildEnv hex sum own s) st (.thread tid) with
        | none => exact .refl _ _
        | some st' =>
          rw [Option.getD_some]
          obtain ⟨⟨jb, ts⟩, hth', hc⟩ := step_cases hs
          rcases (hi.world hf.noRun hf.orderly hrb hT (.of hf.cmds) hth' hc).2 x t ins outs hx hmk' with h | ⟨j, h1, h2, h3⟩
          · exact h
          · dsimp only at h1; subst h1
            exact (quiet _ _ _ hth' h2 h3).elim
  have := hall (l :: kb) [] (by simp)
  rwa [← hls] at this

/-- **C93.** Early cutoff.  A build of `os` with hash database `d`, without Force or DryRun, in an orderly project (`LooseBuild`), in any order of the goroutines.  Files target `x` was up to
date in world `u`; since then nothing has been removed from the database, and when the build begins the outputs of `x` are as they were.  Suppose that its inputs, once their
makers have succeeded, are as they were: they may have been edited, removed or made again in between.  Then the rule of `x` is not run. -/
theorem C93_cutoff {w : World ρ} {ctx : Ctx} {ls : List (Label (World ρ))} {T : Sit → Prop} {d : Nat}
    (hf : LooseBuild hex sum own s J os T w ctx ls) (hc : Usual d ctx) (hkeep : ∀ f, .extern f ∈ ls → ∀ w, ∀ h ∈ w.db d, h ∈ (f w).db d)
    {x t : Nat} {ins outs : List Str} (hx : FilesOf s os x t ins outs) {u : World ρ} (hup : UpToDate hex sum own s d t ins outs u)
    (hdb : ∀ h ∈ u.db d, h ∈ w.db d) (houts : ∀ i ∈ outs, w.fs.stat i = u.fs.stat i)
    (hins : ∀ ls₁ ls₂, ls = ls₁ ++ ls₂ → MakersDone s ins (buildRun hex sum own s os w ctx ls₁).log →
      ∀ i ∈ ins, (buildRun hex sum own s os w ctx ls₁).world.fs.stat i = u.fs.stat i) :
    ¬ Ran t (buildRun hex sum own s os w ctx ls).log := by
  have key : ∀ n, ∀ ls₁ ls₂, ls₁.length = n → ls = ls₁ ++ ls₂ → ¬ Ran t (buildRun hex sum own s os w ctx ls₁).log := by
    intro n
    induction n using Nat.strongRecOn with
    | ind n ih =>
      rintro ls₁ ls₂ hn hls ⟨th, c, i, key, ctx', hm⟩
      obtain ⟨L, L', hL⟩ := List.append_of_mem hm
      obtain ⟨k₁, l, k₂, e1, e2, e3⟩ := moment hL ⟨(fun _ _ _ h => nomatch h), (fun _ _ h => nomatch h)⟩
      have hls' : ls = k₁ ++ l :: (k₂ ++ ls₂) := by rw [hls, e1]; simp
      obtain ⟨k₀, k₀', e4, hmk, hn', -⟩ := C93_needed hf hc hkeep hls' hx (by rw [e3, e2])
      have hls₀ : ls = k₀ ++ (k₀' ++ l :: (k₂ ++ ls₂)) := by rw [hls', e4]; simp
      obtain ⟨hdb', hfs⟩ := since_start hf hkeep hx k₀ _ hls₀
      have hlt : k₀.length < n := by rw [← hn, e1, e4]; simp
      refine hn' (hup.steady (hf.orderly.desc _ _ _ _ hx) ⟨fun i hi => ?_, fun h hh => hdb' h (hdb h hh)⟩)
      by_cases hin : i ∈ ins
      · exact hins k₀ _ hls₀ hmk i hin
      have hout : i ∈ outs := (List.mem_append.1 hi).resolve_left hin
      rcases hfs i hi with h1 | ⟨z, t', ins', outs', hz, hran, rfl | ⟨h1, h2⟩⟩
      · exact h1.1.trans (houts i hout)
      · have := hx.2
        rw [hz.2] at this; cases this
        exact absurd hran (ih _ hlt k₀ _ rfl hls₀)
      · exact absurd h1 hin
  exact key _ ls [] rfl (by simp)

/-- Files target `x`, which is needed for `os`, is behind after a successful build only if it depends on a file that is not as the build left it. -/
theorem behind_edited {w : World ρ} {ctx : Ctx} {ls : List (Label (World ρ))} {T : Sit → Prop} {d : Nat} (hf : LooseBuild hex sum own s J os T w ctx ls)
    (hkept : ∀ hsh o ctx, (own.body o ctx).Keeps fun w => hsh ∈ w.db d)
    (hd : getHashDB ctx = some d) (hdry : getDryRun ctx = false) (hkeep : ∀ f, .extern f ∈ ls → ∀ w, ∀ h ∈ w.db d, h ∈ (f w).db d)
    {c : Nat} (hret : (0, Ev.ret c none) ∈ (buildRun hex sum own s os w ctx ls).log)
    {w' : World ρ} (hdb : ∀ h ∈ (buildRun hex sum own s os w ctx ls).world.db d, h ∈ w'.db d) {x : Nat} (hb : Behind hex sum own s d os w' x) :
    DependsOn s os (fun i => w'.fs.stat i ≠ (buildRun hex sum own s os w ctx ls).world.fs.stat i) x := by
  induction hb with
  | @stale x t ins outs hx hn =>
    by_cases hall : ∀ i ∈ ins ++ outs, w'.fs.stat i = (buildRun hex sum own s os w ctx ls).world.fs.stat i
    · refine absurd ?_ hn
      obtain ⟨⟨o, ho, hs⟩, hx'⟩ := hx
      refine C77_up_to_date hf.noRun hkept hd hdry ls hkeep rfl hret hdb ho hs hx' fun u hu => ⟨fun i hi => ?_, ?_⟩
      · rw [hall i hi, (lastSaw_still hf ⟨⟨o, ho, hs⟩, hx'⟩ hu i hi).1]
      · rw [hf.orderly.desc _ _ _ _ ⟨⟨o, ho, hs⟩, hx'⟩, hf.orderly.desc _ _ _ _ ⟨⟨o, ho, hs⟩, hx'⟩]
    · push Not at hall
      obtain ⟨i, hi, h⟩ := hall
      exact .file hx hi h
  | input hx hi hz _ ih => exact .input hx hi hz ih

/-- **C93.** A successful build of `os` with hash database `d`; then edits: anything may happen to the files, but nobody removes anything from the database; then another build of `os`,
without Force or DryRun.  Both in an orderly project (`LooseBuild`), in any order of the goroutines.  The second build runs the rule of a Files target, or a part of the rule, only
if the target depends on a file that is not as the first build left it: one of its own inputs or outputs, or one of those of a target that makes an input of it, and so on. -/
theorem C93_edited {w : World ρ} {ctx : Ctx} {ls : List (Label (World ρ))} {T : Sit → Prop} {d : Nat} (hf : LooseBuild hex sum own s J os T w ctx ls)
    (hkept : ∀ hsh o ctx, (own.body o ctx).Keeps fun w => hsh ∈ w.db d)
    (hd : getHashDB ctx = some d) (hdry : getDryRun ctx = false) (hkeep : ∀ f, .extern f ∈ ls → ∀ w, ∀ h ∈ w.db d, h ∈ (f w).db d)
    {c : Nat} (hret : (0, Ev.ret c none) ∈ (buildRun hex sum own s os w ctx ls).log)
    -- in between
    {w' : World ρ} (hdb : ∀ h ∈ (buildRun hex sum own s os w ctx ls).world.db d, h ∈ w'.db d)
    -- the second build
    {ctx' : Ctx} {ls' : List (Label (World ρ))} {T' : Sit → Prop} (hf' : LooseBuild hex sum own s J os T' w' ctx' ls') (hc' : Usual d ctx')
    (hkeep' : ∀ f, .extern f ∈ ls' → ∀ w, ∀ h ∈ w.db d, h ∈ (f w).db d)
    {x t p : Nat} {ins outs : List Str} (hx : FilesOf s os x t ins outs) (hp : Part s t p) (hran : Ran p (buildRun hex sum own s os w' ctx' ls').log) :
    DependsOn s os (fun i => w'.fs.stat i ≠ (buildRun hex sum own s os w ctx ls).world.fs.stat i) x :=
  behind_edited hf hkept hd hdry hkeep hret hdb (C93_parts hf' hc' hkeep' hx hp hran)

end
end Fab.Yaml
