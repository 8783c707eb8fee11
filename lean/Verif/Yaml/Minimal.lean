import Verif.Yaml.Clean

/-!
# C93: a build does no more than it has to

A rule is run only if, when its inputs were there, its target was not up to date.  So after an edit only those rules are run whose targets depend on what was
edited; and if a rule makes the same file as before then nothing that depends on it is made again.
-/

namespace Fab.Yaml
open Path Cmd Files
open Runner (Proc TRef Env Ev State Reach Label TSt Job Thread StepC step_cases allBody seqBody argBody nameBody hist)

section
variable {ρ : Type} (hex : Bytes → Str) (sum : Str → Str) (own : Own ρ) (s : St)

/-! ## Specification -/

/-- Files target `x`, which is needed for `os`, is behind in world `w`: it is not up to date, or it has an input that is made by a target that is behind. -/
inductive Behind (d : Nat) (os : List Nat) (w : World ρ) : Nat → Prop
  | stale {x t ins outs} : FilesOf s os x t ins outs → ¬ UpToDate hex sum own s d t ins outs w → Behind d os w x
  | input {x t ins outs i z} : FilesOf s os x t ins outs → i ∈ ins → findInFilesRegistry s.filesReg i = some z → Behind d os w z → Behind d os w x

/-- Files target `x`, which is needed for `os`, depends on a file for which `E` holds: one of its inputs or outputs is such a file, or it has an input that is made by a target
that depends on such a file. -/
inductive DependsOn (os : List Nat) (E : Str → Prop) : Nat → Prop
  | file {x t ins outs i} : FilesOf s os x t ins outs → i ∈ ins ++ outs → E i → DependsOn os E x
  | input {x t ins outs i z} : FilesOf s os x t ins outs → i ∈ ins → findInFilesRegistry s.filesReg i = some z → DependsOn os E z → DependsOn os E x

/-- Target `t` has been run. -/
def Ran (t : Nat) (log : List (Nat × Ev (World ρ) Ctx)) : Prop := ∃ th c i key ctx, (th, Ev.start c i key t ctx) ∈ log

end

/-! ## The process of a Files target -/

section
variable {ρ : Type} {hex : Bytes → Str} {sum : Str → Str} {own : Own ρ} {s : St} {J : Nat → Json.J} {os : List Nat}

/-- Files and database as in `u`, or more in the database. -/
def Steady (d : Nat) (ins outs : List Str) (u w : World ρ) : Prop := (∀ i ∈ ins ++ outs, w.fs.stat i = u.fs.stat i) ∧ ∀ h ∈ u.db d, h ∈ w.db d

/-- In worlds with `W` the process runs no target. -/
def NoCall (W : World ρ → Prop) : P ρ → Prop
  | .ret _ => True
  | .act _ k => ∀ w, W w → NoCall W (k w)
  | .call .. => False

/-- The process runs nothing but `t`, once. -/
def OnlyRule (t : Nat) : P ρ → Prop
  | .ret _ => True
  | .act _ k => ∀ w, OnlyRule t (k w)
  | .call _ refs k => refs = [.ptr t] ∧ ∀ e, NoRun (k e)

/-- The process runs `pre`, and if this succeeds it goes on with `main`; otherwise it fails. -/
def Ahead (pre : List TRef) (main : P ρ) : P ρ → Prop
  | .ret _ => False
  | .act _ k => ∀ w, Ahead pre main (k w)
  | .call _ refs k => refs = pre ∧ k none = main ∧ ∀ e, ∃ e', k (some e) = .ret (some e')

theorem NoCall.readItems {W : World ρ → Prop} {reg : GoMap Str Nat} {fs : FS} {is : List Str} (hst : ∀ w, W w → ∀ i ∈ is, w.fs.stat i = fs.stat i) {m m' : HMap}
    (hm : hashItems hex (is.map fun i => (fs, i)) m = .ok m') {k : Except HErr HMap → P ρ} (h : NoCall W (withReg reg (k (.ok m')))) :
    NoCall W (withReg reg (Files.readItems hex is m k)) := by
  induction is generalizing m with
  | nil => cases hm; exact h
  | cons i is ih =>
    rw [Files.readItems, withReg]
    refine fun w hw => ?_
    simp only [List.map_cons, hashItems] at hm
    have h1 : hashItem hex w.fs i m = hashItem hex fs i m := hashItem_stat (hst w hw i (by simp)) m
    show NoCall W (withReg reg (match hashItem hex w.fs i m with | .ok m' => Files.readItems hex is m' k | .error e => k (.error e)))
    rw [h1]
    cases h2 : hashItem hex fs i m with
    | error e => rw [h2] at hm; cases hm
    | ok m2 =>
      rw [h2] at hm
      exact ih (fun w hw i hi => hst w hw i (by simp [hi])) hm

theorem NoCall.findAll {W : World ρ → Prop} {reg : GoMap Str Nat} {is : List Str} {acc : List TRef} {k : List TRef → P ρ}
    (h : NoCall W (withReg reg (k (acc ++ pres reg is)))) : NoCall W (withReg reg (findAll is acc k)) := by
  induction is generalizing acc with
  | nil => simpa [pres, Files.findAll] using h
  | cons i is ih =>
    rw [Files.findAll, withReg]
    refine fun w _ => ih ?_
    simpa [pres, List.append_assoc] using h

/-- As long as a target that is up to date stays as it is, its rule is not run. -/
theorem NoCall.main {d t : Nat} {ins outs : List Str} {u : World ρ} (hup : UpToDate hex sum own s d t ins outs u) (hdesc : ∀ w, own.desc t w = some (J t))
    {ctx : Ctx} (hc : Usual d ctx) :
    NoCall (Steady d ins outs u) (withReg s.filesReg (filesMain hex sum (⟨.ptr t, own.typ t, own.desc t, ins, outs⟩ : FilesT ρ) ctx)) := by
  obtain ⟨li, lo, j, h1, h2, h3, h4⟩ := hup
  obtain ⟨mi, a1, rfl⟩ := fileHashes_ok h1
  obtain ⟨mo, a2, rfl⟩ := fileHashes_ok h2
  rw [hdesc] at h3; cases h3
  unfold filesMain
  rw [hc.1]
  simp only [hc.2.1, hc.2.2, Bool.not_false, Bool.and_self, if_true]
  unfold computeHash
  refine NoCall.readItems (fun w hw i hi => hw.1 i (by simp [show i ∈ ins from hi])) a1 ?_
  refine NoCall.readItems (fun w hw i hi => hw.1 i (by simp [show i ∈ outs from hi])) a2 ?_
  dsimp only
  rw [withReg]
  refine fun w hw => ?_
  dsimp only
  rw [hdesc]
  dsimp only
  rw [withReg]
  refine fun w hw => ?_
  dsimp only
  split
  · trivial
  · rw [if_pos (hw.2 _ h4)]
    trivial

theorem onlyRule_main {reg : GoMap Str Nat} {t : Nat} {ins outs : List Str} {ctx : Ctx} :
    OnlyRule t (withReg reg (filesMain hex sum (⟨.ptr t, own.typ t, own.desc t, ins, outs⟩ : FilesT ρ) ctx)) := by
  have hb : OnlyRule t (withReg reg (filesBuild hex sum (⟨.ptr t, own.typ t, own.desc t, ins, outs⟩ : FilesT ρ) ctx)) := by
    have hQ : ∀ (f : World ρ → World ρ) (k : World ρ → P ρ), (∀ w, NoRun (k w)) → NoRun (.act f k) := fun f k h => h
    unfold filesBuild
    rw [withReg]
    refine ⟨rfl, fun e => ?_⟩
    cases e with
    | some e => trivial
    | none =>
      dsimp only
      split
      · trivial
      · split
        · trivial
        · refine q_computeHash (Q := NoRun) hQ reg _ _ fun r => ?_
          split
          · trivial
          · exact fun w => trivial
  have hQ : ∀ (f : World ρ → World ρ) (k : World ρ → P ρ), (∀ w, OnlyRule t (k w)) → OnlyRule t (.act f k) := fun f k h => h
  unfold filesMain
  split
  · exact hb
  · split
    · refine q_computeHash (Q := OnlyRule t) hQ reg _ _ fun r => ?_
      split
      · trivial
      · refine fun w => ?_
        dsimp only
        split
        · trivial
        · split
          · trivial
          · exact hb
    · exact hb

/-- The whole of a Files target: with inputs that others make, and without. -/
theorem files_need {t : Nat} {ins outs : List Str} {d : Nat} (hdesc : ∀ w, own.desc t w = some (J t)) {ctx : Ctx} (hc : Usual d ctx) :
    (pres s.filesReg ins = [] ∧ OnlyRule t (withReg s.filesReg (filesBody hex sum (⟨.ptr t, own.typ t, own.desc t, ins, outs⟩ : FilesT ρ) ctx)) ∧
      ∀ u, UpToDate hex sum own s d t ins outs u →
        NoCall (Steady d ins outs u) (withReg s.filesReg (filesBody hex sum (⟨.ptr t, own.typ t, own.desc t, ins, outs⟩ : FilesT ρ) ctx))) ∨
    Ahead (pres s.filesReg ins) (withReg s.filesReg (filesMain hex sum (⟨.ptr t, own.typ t, own.desc t, ins, outs⟩ : FilesT ρ) ctx))
      (withReg s.filesReg (filesBody hex sum (⟨.ptr t, own.typ t, own.desc t, ins, outs⟩ : FilesT ρ) ctx)) := by
  by_cases hp : pres s.filesReg ins = []
  · refine .inl ⟨hp, ?_, fun u hu => ?_⟩
    · unfold filesBody
      refine q_findAll (Q := OnlyRule t) (fun f k h => h) _ _ _ _ ?_
      rw [List.nil_append, if_pos hp]
      exact onlyRule_main
    · unfold filesBody
      refine NoCall.findAll ?_
      rw [List.nil_append, if_pos hp]
      exact .main hu hdesc hc
  · refine .inr ?_
    unfold filesBody
    refine q_findAll (Q := Ahead _ _) (fun f k h => h) _ _ _ _ ?_
    rw [List.nil_append, if_neg hp, withReg]
    exact ⟨rfl, rfl, fun e => ⟨_, rfl⟩⟩


/-! ## The invariant -/

section inv
variable (hex sum own s os) (d : Nat) (w : World ρ) (ctx : Ctx)

/-- `u` is a world of the past, in which the makers of the inputs had succeeded and since when the files `ins` and `outs` are the same and nothing was removed from database `d`. -/
def Past (ls : List (Label (World ρ))) (ins outs : List Str) (u : World ρ) : Prop :=
  ∃ ls₁ ls₂, ls = ls₁ ++ ls₂ ∧ MakersDone s ins (buildRun hex sum own s os w ctx ls₁).log ∧ u = (buildRun hex sum own s os w ctx ls₁).world ∧
    MakersDone s ins (buildRun hex sum own s os w ctx ls).log ∧ Agree (ins ++ outs) u.fs (buildRun hex sum own s os w ctx ls).world.fs ∧
    ∀ h ∈ u.db d, h ∈ (buildRun hex sum own s os w ctx ls).world.db d

/-- There was such a world in which the target was not up to date. -/
def Need (ls : List (Label (World ρ))) (t : Nat) (ins outs : List Str) : Prop :=
  ∃ u, Past hex sum own s os d w ctx ls ins outs u ∧ ¬ UpToDate hex sum own s d t ins outs u

/-- Where the goroutine of a Files target is. -/
def NeedSt (ls : List (Label (World ρ))) (t : Nat) (ins outs : List Str) (tid : Nat) (main : P ρ) : TSt (World ρ) Ctx → Prop
  | .exec p => Ahead (pres s.filesReg ins) main p ∨ NoRun p ∨ OnlyRule t p ∧ ∃ u, Past hex sum own s os d w ctx ls ins outs u ∧
      (UpToDate hex sum own s d t ins outs u → NoCall (Steady d ins outs u) p)
  | .spawning c _ _ _ k => CallSt c k
  | .joining c k => CallSt c k
  | _ => True
where
  CallSt (c : Nat) (k : Option Runner.Err → P ρ) : Prop := ∃ ctx' refs, (tid, Ev.call c ctx' refs) ∈ (buildRun hex sum own s os w ctx ls).log ∧
    (refs = pres s.filesReg ins ∧ k none = main ∧ (∀ e, NoRun (k (some e))) ∨
     refs = [.ptr t] ∧ (∀ e, NoRun (k e)) ∧ (Need hex sum own s os d w ctx ls t ins outs ∨ Ran t (buildRun hex sum own s os w ctx ls).log))

def NeedInv (ls : List (Label (World ρ))) : Prop :=
  ∀ x t ins outs, FilesOf s os x t ins outs → ∀ (tid : Nat) (j : Job Ctx) (ts : TSt (World ρ) Ctx),
    (buildRun hex sum own s os w ctx ls).th tid = some ⟨some j, ts⟩ → j.tgt = x →
    NeedSt hex sum own s os d w ctx ls t ins outs tid
      (withReg s.filesReg (filesMain hex sum (⟨.ptr t, own.typ t, own.desc t, ins, outs⟩ : FilesT ρ) j.ctx)) ts

variable {hex sum own s os d w ctx}

theorem NeedSt.mono {ls ls' : List (Label (World ρ))} {t : Nat} {ins outs : List Str} {tid : Nat} {main : P ρ} {ts : TSt (World ρ) Ctx}
    (h : NeedSt hex sum own s os d w ctx ls t ins outs tid main ts)
    (hl : ∀ e ∈ (buildRun hex sum own s os w ctx ls).log, e ∈ (buildRun hex sum own s os w ctx ls').log)
    (hp : ∀ p, ts = .exec p → ∀ u, Past hex sum own s os d w ctx ls ins outs u → Past hex sum own s os d w ctx ls' ins outs u)
    (hn : Need hex sum own s os d w ctx ls t ins outs → Need hex sum own s os d w ctx ls' t ins outs ∨ Ran t (buildRun hex sum own s os w ctx ls').log) :
    NeedSt hex sum own s os d w ctx ls' t ins outs tid main ts := by
  have hc : ∀ c k, NeedSt.CallSt hex sum own s os d w ctx ls t ins outs tid main c k → NeedSt.CallSt hex sum own s os d w ctx ls' t ins outs tid main c k := by
    rintro c k ⟨ctx', refs, h1, h2⟩
    refine ⟨ctx', refs, hl _ h1, h2.imp id fun ⟨a, b, c⟩ => ⟨a, b, ?_⟩⟩
    rcases c with c | ⟨th, c₀, i₀, key, ctx₀, c⟩
    · exact hn c
    · exact .inr ⟨th, c₀, i₀, key, ctx₀, hl _ c⟩
  cases ts with
  | exec p =>
    rcases h with h | h | ⟨h1, u, h2, h3⟩
    · exact .inl h
    · exact .inr (.inl h)
    · exact .inr (.inr ⟨h1, u, hp p rfl u h2, h3⟩)
  | spawning c i ctx todo k => exact hc _ _ h
  | joining c k => exact hc _ _ h
  | _ => trivial

/-- The present belongs to the past, once the makers have succeeded. -/
theorem Past.now {ls : List (Label (World ρ))} {ins outs : List Str} (h : MakersDone s ins (buildRun hex sum own s os w ctx ls).log) :
    Past hex sum own s os d w ctx ls ins outs (buildRun hex sum own s os w ctx ls).world :=
  ⟨ls, [], by simp, h, rfl, h, .refl _ _, fun _ h => h⟩

theorem Past.snoc {ls : List (Label (World ρ))} {l : Label (World ρ)} {ins outs : List Str} {u : World ρ} (h : Past hex sum own s os d w ctx ls ins outs u)
    (hl : ∀ e ∈ (buildRun hex sum own s os w ctx ls).log, e ∈ (buildRun hex sum own s os w ctx (ls ++ [l])).log)
    (hf : Agree (ins ++ outs) (buildRun hex sum own s os w ctx ls).world.fs (buildRun hex sum own s os w ctx (ls ++ [l])).world.fs)
    (hd : ∀ h ∈ (buildRun hex sum own s os w ctx ls).world.db d, h ∈ (buildRun hex sum own s os w ctx (ls ++ [l])).world.db d) :
    Past hex sum own s os d w ctx (ls ++ [l]) ins outs u := by
  obtain ⟨ls₁, ls₂, h1, h2, h3, h4, h5, h6⟩ := h
  exact ⟨ls₁, ls₂ ++ [l], by rw [h1]; simp, h2, h3, h4.mono hl, h5.trans hf, fun x hx => hd x (h6 x hx)⟩

theorem Past.makers {ls : List (Label (World ρ))} {ins outs : List Str} {u : World ρ} (h : Past hex sum own s os d w ctx ls ins outs u) :
    MakersDone s ins (buildRun hex sum own s os w ctx ls).log := by
  obtain ⟨ls₁, ls₂, h1, h2, h3, h4, h5, h6⟩ := h
  exact h4

theorem Past.steady {ls : List (Label (World ρ))} {ins outs : List Str} {u : World ρ} (h : Past hex sum own s os d w ctx ls ins outs u) :
    Steady d ins outs u (buildRun hex sum own s os w ctx ls).world := by
  obtain ⟨ls₁, ls₂, h1, h2, h3, h4, h5, h6⟩ := h
  exact ⟨fun i hi => (h5 i hi).1, h6⟩

end inv

/-! ## Steps -/

section step
variable (hown : ∀ o ctx, NoRun (own.body o ctx)) (hord : Orderly own s J os)
  {w : World ρ} {ctx : Ctx} {st st' : State (World ρ) Ctx} (hr : Reach (buildEnv hex sum own s) w [.call ctx (os.map .ptr) .ret] st)
include hown hr

/-- A step of the build removes nothing from a database. -/
theorem step_db {d : Nat} {tid : Nat} (hcmd : Acting s os own st tid) (hs : Runner.step (buildEnv hex sum own s) st tid = some st') :
    ∀ h ∈ st.world.db d, h ∈ st'.world.db d := by
  obtain ⟨⟨jb, ts⟩, hth, hc⟩ := step_cases hs
  intro hsh hm
  rcases step_fs hc with ⟨f, k, hts, hw, -, -⟩ | ⟨-, hfs, hdb⟩
  · dsimp only at hts; subst hts
    rw [hw]
    obtain ⟨p, ho, hp⟩ := hr.localInv.pos _ _ _ hth
    cases jb with
    | none =>
      exfalso
      have hlt := (List.getElem?_eq_some_iff.1 (show [Proc.call ctx (os.map TRef.ptr) .ret][tid]? = some p from ho)).1
      simp only [List.length_singleton] at hlt
      obtain rfl : tid = 0 := by omega
      have ho : some (Proc.call ctx (os.map TRef.ptr) .ret) = some p := ho
      cases ho
      exact client_still hp _ _ rfl
    | some j =>
      cases ho
      have hmay : MayRun s os j.tgt := (C76_build hown hr).1 _ _ _ _ _ _ (hr.inv.b.started _ _ _ hth rfl)
      by_cases hf : ∃ t ins outs, s.heap[j.tgt]? = some (.files t ins outs)
      · obtain ⟨t, ins, outs, hf⟩ := hf
        have hk : ((buildEnv hex sum own s).body j.tgt j.ctx).Keeps fun w => hsh ∈ w.db d := by
          simp only [buildEnv, hf]
          exact withReg_keeps files_keeps
        exact (Runner.Runs.keeps hk hp).1 _ hm
      · have hch := act_changes (hcmd j _ _ hth hmay) (fun t ins outs h => hf ⟨t, ins, outs, h⟩) hp st.world
        rw [hch.1]; exact hm
  · rw [hdb]; exact hm

include hord in
/-- While a part of a rule is at work, the rule has been started. -/
theorem ran_of_inside {x tx : Nat} {ins outs : List Str} (hx : FilesOf s os x tx ins outs)
    {t : Nat} {j : Job Ctx} {ts : TSt (World ρ) Ctx} (ht : st.th t = some ⟨some j, ts⟩) (hb : ts.inBody = true) (hp : Part s tx j.tgt) : Ran tx st.log := by
  obtain ⟨t', j', ts', h1, h2, h3, h4, -⟩ := Fab.Yaml.inside hown hord hr hx t ht hb hp
  have := hr.inv.b.started _ _ _ h1 (Runner.TSt.owning_of_inBody h2)
  rw [h3] at this
  exact ⟨_, _, _, _, _, this⟩

end step

/-- What one move does: nothing disappears from the log or from the database, and the files of a target are the same once its makers are done, unless its rule is at work. -/
theorem move_mono {w : World ρ} {ctx : Ctx} {ls ls₁ ls₂ : List (Label (World ρ))} {l : Label (World ρ)} {T : Sit → Prop} {d : Nat}
    (hf : LooseBuild hex sum own s J os T w ctx ls) (hkeep : ∀ f, .extern f ∈ ls → ∀ w, ∀ h ∈ w.db d, h ∈ (f w).db d) (hls : ls = ls₁ ++ l :: ls₂) :
    (∀ e ∈ (buildRun hex sum own s os w ctx ls₁).log, e ∈ (buildRun hex sum own s os w ctx (ls₁ ++ [l])).log) ∧
    (∀ h ∈ (buildRun hex sum own s os w ctx ls₁).world.db d, h ∈ (buildRun hex sum own s os w ctx (ls₁ ++ [l])).world.db d) ∧
    ∀ x t ins outs, FilesOf s os x t ins outs → MakersDone s ins (buildRun hex sum own s os w ctx ls₁).log →
      Agree (ins ++ outs) (buildRun hex sum own s os w ctx ls₁).world.fs (buildRun hex sum own s os w ctx (ls₁ ++ [l])).world.fs ∨
      Ran t (buildRun hex sum own s os w ctx ls₁).log ∧ ∀ (t' : Nat) (j' : Job Ctx) (ts' : TSt (World ρ) Ctx),
        (buildRun hex sum own s os w ctx ls₁).th t' = some ⟨some j', ts'⟩ → j'.tgt = x → ∀ p, ts' ≠ .exec p := by
  have hr := buildRun_reach (hex := hex) (sum := sum) (own := own) (s := s) (os := os) (w := w) (ctx := ctx) (ls := ls₁)
  have hi := buildInv_any hf ls₁ _ hls
  have hT := hf.sits ls₁ _ hls
  rw [buildRun_snoc]
  generalize buildRun hex sum own s os w ctx ls₁ = st at *
  cases l with
  | extern f =>
    have hu := hf.outside f (by rw [hls]; simp) st.world
    exact ⟨fun e h => h, hkeep f (by rw [hls]; simp) st.world, fun x t ins outs hx _ => .inl fun i hi => hu x t ins outs hx i hi⟩
  | thread tid =>
    cases hs : Runner.lstep (buildEnv hex sum own s) st (.thread tid) with
    | none => exact ⟨fun e h => h, fun h hh => hh, fun x t ins outs hx _ => .inl (.refl _ _)⟩
    | some st' =>
      obtain ⟨⟨jb, ts⟩, hth, hc⟩ := step_cases hs
      obtain ⟨l, hl⟩ := Runner.log_mono hc
      refine ⟨fun e he => by rw [Option.getD_some, hl]; exact List.mem_append_left _ he, step_db hf.noRun hr (.of hf.cmds) hs, fun x t ins outs hx hm => ?_⟩
      rcases (hi.world hf.noRun hf.orderly hr hT (.of hf.cmds) hth hc).2 x t ins outs hx hm with h | ⟨j, h1, h2, h3⟩
      · exact .inl h
      · dsimp only at h1; subst h1
        exact .inr ⟨ran_of_inside hf.noRun hf.orderly hr hx hth h2 h3, (hi.inside hf.noRun hf.orderly hr hx hth h2 h3).2.2.2⟩

theorem buildRun_usual {w : World ρ} {ctx : Ctx} {ls : List (Label (World ρ))} {d : Nat} (hown : ∀ o ctx, NoRun (own.body o ctx)) (hc : Usual d ctx)
    {t c i key x ctx'} (h : (t, Ev.start c i key x ctx') ∈ (buildRun hex sum own s os w ctx ls).log) : Usual d ctx' :=
  Runner.start_ctx (K := Usual d) (build_ctxs (fun ctx l h => h.withArgs l) hown)
    (by intro p hp; simp only [List.mem_singleton] at hp; subst hp; exact ⟨hc, fun e => trivial⟩) buildRun_reach _ _ _ _ _ _ h

theorem NeedInv.snoc {w : World ρ} {ctx : Ctx} {ls ls₁ ls₂ : List (Label (World ρ))} {l : Label (World ρ)} {T : Sit → Prop} {d : Nat}
    (hf : LooseBuild hex sum own s J os T w ctx ls) (hc : Usual d ctx) (hkeep : ∀ f, .extern f ∈ ls → ∀ w, ∀ h ∈ w.db d, h ∈ (f w).db d) (hls : ls = ls₁ ++ l :: ls₂)
    (ih : NeedInv hex sum own s os d w ctx ls₁) : NeedInv hex sum own s os d w ctx (ls₁ ++ [l]) := by
  have hr := buildRun_reach (hex := hex) (sum := sum) (own := own) (s := s) (os := os) (w := w) (ctx := ctx) (ls := ls₁)
  obtain ⟨hlog, hdb, hfs⟩ := move_mono hf hkeep hls
  -- the goroutines that do not move
  have stay : ∀ x t ins outs, FilesOf s os x t ins outs → ∀ (tid : Nat) (j : Job Ctx) (ts : TSt (World ρ) Ctx),
      (buildRun hex sum own s os w ctx ls₁).th tid = some ⟨some j, ts⟩ → j.tgt = x →
      NeedSt hex sum own s os d w ctx (ls₁ ++ [l]) t ins outs tid
        (withReg s.filesReg (filesMain hex sum (⟨.ptr t, own.typ t, own.desc t, ins, outs⟩ : FilesT ρ) j.ctx)) ts := by
    intro x t ins outs hx tid j ts ht hj
    refine (ih x t ins outs hx tid j ts ht hj).mono hlog ?_ ?_
    · rintro p rfl u hu
      rcases hfs x t ins outs hx hu.makers with h3 | ⟨-, h3⟩
      · exact hu.snoc hlog h3 hdb
      · exact absurd rfl (h3 _ _ _ ht hj p)
    · rintro ⟨u, hu, hn⟩
      rcases hfs x t ins outs hx hu.makers with h3 | ⟨⟨th, c₀, i₀, key, ctx₀, h3⟩, -⟩
      · exact .inl ⟨u, hu.snoc hlog h3 hdb, hn⟩
      · exact .inr ⟨th, c₀, i₀, key, ctx₀, hlog _ h3⟩
  have huse := @buildRun_usual ρ hex sum own s os w ctx (ls₁ ++ [l]) d hf.noRun hc
  have hr' := buildRun_reach (hex := hex) (sum := sum) (own := own) (s := s) (os := os) (w := w) (ctx := ctx) (ls := ls₁ ++ [l])
  have hnow := @Past.now ρ hex sum own s os d w ctx (ls₁ ++ [l])
  intro x t ins outs hx tid j ts ht hj
  have hst' := buildRun_snoc (hex := hex) (sum := sum) (own := own) (s := s) (os := os) (w := w) (ctx := ctx) (ls := ls₁) (l := l)
  cases l with
  | extern f =>
    rw [hst'] at ht
    exact stay x t ins outs hx tid j ts ht hj
  | thread t₀ =>
    cases hs : Runner.lstep (buildEnv hex sum own s) (buildRun hex sum own s os w ctx ls₁) (.thread t₀) with
    | none =>
      rw [hs] at hst'
      rw [hst'] at ht
      exact stay x t ins outs hx tid j ts ht hj
    | some st' =>
      rw [hs, Option.getD_some] at hst'
      obtain ⟨⟨jb, ts₀⟩, hth, hcs⟩ := step_cases hs
      rw [hst'] at ht
      rcases th_cases hth hcs ht with rfl | hold | hlk
      · obtain ⟨ts₁, h1, -⟩ := Runner.th_persist hth hcs hth
        rw [ht] at h1; cases h1
        have hold := stay x t ins outs hx _ _ _ hth hj
        have hbefore := ih x t ins outs hx _ _ _ hth hj
        rw [← hst'] at ht
        cases hcs
        all_goals rw [hst'] at ht; simp only [Runner.th_set hth, Runner.th_set_snoc hth, if_true] at ht
        case lookupHit => cases ht; trivial
        case wake => cases ht; trivial
        case readOut => cases ht; trivial
        case finish => cases ht; trivial
        case clientDone => cases ht; trivial
        case setErrs => cases ht; trivial
        case setOut => cases ht; trivial
        case openGate => cases ht; trivial
        case wgDone => cases ht; trivial
        case lookupNew j₁ h1 h2 h3 =>
          cases ht
          cases h2
          have hu : Usual d j.ctx := huse (t := tid) (c := j.call) (i := j.idx) (key := j.key) (x := j.tgt) (by rw [hst']; simp)
          have hb : (buildEnv hex sum own s).body j.tgt j.ctx = withReg s.filesReg (filesBody hex sum ⟨.ptr t, own.typ t, own.desc t, ins, outs⟩ j.ctx) := by
            simp only [buildEnv, hj, hx.2]
          rw [hb]
          rcases files_need (s := s) (hex := hex) (sum := sum) (outs := outs) (ins := ins) (hf.orderly.desc _ _ _ _ hx) hu with ⟨h4, h5, h6⟩ | h4
          · exact .inr (.inr ⟨h5, _, hnow (makersDone_nil h4), h6 _⟩)
          · exact .inl h4
        case act f k h1 =>
          cases ht
          dsimp only at h1; subst h1
          rcases hbefore with h2 | h2 | ⟨h2, u, h3, h4⟩
          · exact .inl (h2 _)
          · exact .inr (.inl (h2 _))
          · refine .inr (.inr ⟨h2 _, u, ?_, fun hu => h4 hu _ h3.steady⟩)
            rcases hfs x t ins outs hx h3.makers with h5 | ⟨-, h5⟩
            · exact h3.snoc hlog h5 hdb
            · exact absurd rfl (h5 _ _ _ hth hj _)
        case callNil c k h1 =>
          cases ht
          dsimp only at h1; subst h1
          rcases hold with ⟨h2, h3, -⟩ | h2 | ⟨⟨h2, -⟩, -⟩
          · rw [h3]
            have hm : MakersDone s ins (buildRun hex sum own s os w ctx (ls₁ ++ [.thread tid])).log := makersDone_nil h2.symm
            have hu : Usual d j.ctx := huse (hlog _ (hr.inv.b.started _ _ _ hth rfl))
            exact .inr (.inr ⟨onlyRule_main, _, hnow hm, fun hup => .main hup (hf.orderly.desc _ _ _ _ hx) hu⟩)
          · exact h2.elim
          · cases h2
        case call c r rs k h1 =>
          cases ht
          dsimp only at h1; subst h1
          refine ⟨c, r :: rs, by rw [hst']; simp, ?_⟩
          rcases hold with ⟨h2, h3, h4⟩ | h2 | ⟨⟨h2, h3⟩, u, h4, h5⟩
          · exact .inl ⟨h2, h3, fun e => by obtain ⟨e', h⟩ := h4 e; rw [h]; trivial⟩
          · exact h2.elim
          · exact .inr ⟨h2, h3, .inl ⟨u, h4, fun h => h5 h⟩⟩
        case loopEnd c n ctx' k h1 =>
          cases ht
          dsimp only at h1; subst h1
          exact hold
        case refuse c n ctx' r rs k e w' h1 h2 =>
          cases ht
          dsimp only at h1; subst h1
          exact hold
        case spawn c n ctx' o rs k tg w' h1 h2 =>
          dsimp only at h1; subst h1
          split at ht
          · cases ht; trivial
          · cases ht
            exact hold
        case ret c k y h1 h2 h3 =>
          cases ht
          dsimp only at h1; subst h1
          obtain ⟨ctx', refs, h4, h5⟩ := hold
          rcases h5 with ⟨rfl, h6, h7⟩ | ⟨rfl, h7, -⟩
          · cases he : Runner.errJoin y.errs with
            | some e => exact .inr (.inl (h7 e))
            | none =>
              rw [h6]
              have hm : MakersDone s ins (buildRun hex sum own s os w ctx (ls₁ ++ [.thread tid])).log := by
                intro n hn z hz
                have hlg : (buildRun hex sum own s os w ctx (ls₁ ++ [.thread tid])).log = (buildRun hex sum own s os w ctx ls₁).log ++ [(tid, Ev.ret c none)] := by
                  rw [hst', ← he]
                have h4 : (tid, Ev.call c ctx' (pres s.filesReg ins)) ∈ (buildRun hex sum own s os w ctx (ls₁ ++ [.thread tid])).log := h4
                obtain ⟨o, th, tgt, a1, a2⟩ := Runner.ok_of_ret_none hr' (l₁ := (buildRun hex sum own s os w ctx (ls₁ ++ [.thread tid])).log) (l₂ := []) (t := tid) (t' := tid) (c := c) (ctx := ctx') (by simp) h4
                  (by rw [hlg]; simp) (.ptr z) (mem_pres.2 ⟨n, hn, hz⟩)
                cases a1
                exact ⟨th, tgt, a2⟩
              have hu : Usual d j.ctx := huse (hlog _ (hr.inv.b.started _ _ _ hth rfl))
              exact .inr (.inr ⟨onlyRule_main, _, hnow hm, fun hup => .main hup (hf.orderly.desc _ _ _ _ hx) hu⟩)
          · exact .inr (.inl (h7 _))
      · exact stay x t ins outs hx tid j ts hold hj
      · dsimp only at hlk; subst hlk
        trivial

theorem NeedInv.all {w : World ρ} {ctx : Ctx} {ls : List (Label (World ρ))} {T : Sit → Prop} {d : Nat}
    (hf : LooseBuild hex sum own s J os T w ctx ls) (hc : Usual d ctx) (hkeep : ∀ f, .extern f ∈ ls → ∀ w, ∀ h ∈ w.db d, h ∈ (f w).db d) :
    ∀ ls₁ ls₂, ls = ls₁ ++ ls₂ → NeedInv hex sum own s os d w ctx ls₁ := by
  intro ls₁
  induction ls₁ using List.reverseRecOn with
  | nil =>
    intro ls₂ _ x t ins outs _ tid j ts ht
    simp only [buildRun, Runner.runSched, Runner.init, State.th, List.getElem?_map, Option.map_eq_some_iff] at ht
    obtain ⟨p, -, hp⟩ := ht
    cases hp
  | append_singleton ls₁ l ih =>
    intro ls₂ hls
    have hls' : ls = ls₁ ++ l :: ls₂ := by rw [hls]; simp
    exact .snoc hf hc hkeep hls' (ih _ hls')

/-- **C93.** A build of `os` with hash database `d`, without Force or DryRun, in an orderly project (`LooseBuild`), in any order of the goroutines; nobody removes anything from the
database meanwhile.  If the rule of a Files target is started then, at some time after the makers of its inputs had succeeded, the target was not up to date: and since then its files are
the same. -/
theorem C93_needed {w : World ρ} {ctx : Ctx} {ls ls₁ ls₂ : List (Label (World ρ))} {l : Label (World ρ)} {T : Sit → Prop} {d : Nat}
    (hf : LooseBuild hex sum own s J os T w ctx ls) (hc : Usual d ctx) (hkeep : ∀ f, .extern f ∈ ls → ∀ w, ∀ h ∈ w.db d, h ∈ (f w).db d) (hls : ls = ls₁ ++ l :: ls₂)
    {x t : Nat} {ins outs : List Str} (hx : FilesOf s os x t ins outs) {th c i key : Nat} {ctx' : Ctx}
    (hstart : (buildRun hex sum own s os w ctx (ls₁ ++ [l])).log = (buildRun hex sum own s os w ctx ls₁).log ++ [(th, Ev.start c i key t ctx')]) :
    ∃ ls₀ ls₀', ls₁ = ls₀ ++ ls₀' ∧ MakersDone s ins (buildRun hex sum own s os w ctx ls₀).log ∧
      ¬ UpToDate hex sum own s d t ins outs (buildRun hex sum own s os w ctx ls₀).world ∧
      Agree (ins ++ outs) (buildRun hex sum own s os w ctx ls₀).world.fs (buildRun hex sum own s os w ctx ls₁).world.fs := by
  have hi := NeedInv.all hf hc hkeep ls₁ _ hls
  have hr := buildRun_reach (hex := hex) (sum := sum) (own := own) (s := s) (os := os) (w := w) (ctx := ctx) (ls := ls₁)
  have hord := hf.orderly
  have hnr := (hord.parts _ _ _ _ _ hx .self).1
  have hpriv : ∀ {o}, Wanted s os o → ¬ Stands s o t := fun ho => hord.priv _ _ _ _ _ _ hx .self ho
  have hself : Stands s t t := .inr ⟨hnr, rfl⟩
  -- the step
  obtain ⟨j, hth, hj, hran⟩ : ∃ j, (buildRun hex sum own s os w ctx ls₁).th th = some ⟨some j, .lookup⟩ ∧ j.tgt = t ∧
      (buildRun hex sum own s os w ctx ls₁).ran j.key = none := by
    rw [buildRun_snoc] at hstart
    generalize buildRun hex sum own s os w ctx ls₁ = st at *
    have hne : ∀ e, st.log ≠ st.log ++ [e] := fun e h => by simpa using congrArg List.length h
    cases l with
    | extern f => exact absurd hstart (hne _)
    | thread tid =>
      cases hs : Runner.lstep (buildEnv hex sum own s) st (.thread tid) with
      | none => rw [hs] at hstart; exact absurd hstart (hne _)
      | some st' =>
        rw [hs, Option.getD_some] at hstart
        obtain ⟨⟨jb, ts⟩, hth, hcs⟩ := step_cases hs
        cases hcs
        case lookupNew j h1 h2 h3 =>
          simp only [List.append_cancel_left_eq, List.cons.injEq, Prod.mk.injEq, Ev.start.injEq, and_true] at hstart
          obtain ⟨rfl, -, -, -, h4, -⟩ := hstart
          dsimp only at h1 h2; subst h1 h2
          exact ⟨j, hth, h4, h3⟩
        all_goals first
          | exact absurd hstart (hne _)
          | (simp only [List.append_cancel_left_eq] at hstart; simp at hstart)
  generalize hst : buildRun hex sum own s os w ctx ls₁ = st at *
  have hkey : ∀ {t' : Nat} {j' : Job Ctx} {ts'}, st.th t' = some ⟨some j', ts'⟩ → j'.tgt = t → j'.key = t := by
    intro t' j' ts' h1 h2
    rcases kind hf.noRun hord hr t' h1 with ⟨k1, k2⟩ | ⟨z, tz, ins', outs', k1, k2, k3⟩
    · rw [h2] at k2; exact absurd k2 (hpriv k1)
    · rw [k3, h2]
  have hjk := hkey hth hj
  rw [hjk] at hran
  -- it was not started before
  have hnot : ¬ Ran t st.log := by
    rintro ⟨th', c', i', key', ctx'', h⟩
    obtain ⟨j', ts', a1, -, -, a4, a5, -⟩ := hr.inv.f.startJob _ _ _ _ _ _ h
    have := hkey a1 a5
    rw [a4] at this
    subst this
    have h0 := (hr.inv.b.fresh _ hran).1
    unfold Runner.startN at h0
    rw [List.countP_eq_zero] at h0
    exact h0 _ h (by simp [Ev.isStart])
  obtain ⟨-, hor⟩ := asked_by hf.noRun hr hth
  rw [hjk] at hor
  rcases hor with ho | ⟨tc, jc, tsc, hlt, htc, hu, hw⟩
  · exact absurd hself (hpriv (.arg ho))
  have hw := hw (by simp)
  rcases kind hf.noRun hord hr tc htc with ⟨c1, c2⟩ | ⟨z', t', ins', outs', c1, c2, c3⟩
  · cases hu with
    | needs hn => exact absurd hself (hpriv (.dep c1 c2 hn))
    | files hfl =>
      have hf' : FilesOf s os jc.tgt t _ _ := ⟨⟨_, c1, c2⟩, hfl⟩
      have hz := hord.apart _ _ _ _ _ _ _ _ _ hx hf' .self .self
      have := hi x t ins outs hx tc jc tsc (by rw [hst]; exact htc) hz.symm
      have hcs : ∃ k, NeedSt.CallSt hex sum own s os d w ctx ls₁ t ins outs tc
          (withReg s.filesReg (filesMain hex sum (⟨.ptr t, own.typ t, own.desc t, ins, outs⟩ : FilesT ρ) jc.ctx)) j.call k := by
        cases tsc with
        | spawning c n ctx todo k => simp [TSt.within] at hw; subst hw; exact ⟨k, this⟩
        | joining c k => simp [TSt.within] at hw; subst hw; exact ⟨k, this⟩
        | _ => cases hw
      obtain ⟨k, ctx₂, refs, e1, ⟨rfl, -⟩ | ⟨-, -, hn | hn⟩⟩ := hcs
      · exfalso
        rw [hst] at e1
        obtain ⟨y, o, f1, f2, f3, -⟩ := hr.inv.c.job _ _ _ hth
        have f3 : o = j.key := f3
        have hc : (y.tid, Ev.call j.call y.ctx y.refs) ∈ st.log := (hr.inv.f.callEv _ _ _ _).1 (by unfold State.hdr; rw [f1]; rfl)
        obtain ⟨-, -, hrefs⟩ := Runner.call_uniq hr hc e1
        have hm := List.mem_of_getElem? f2
        rw [hrefs, f3, hjk] at hm
        obtain ⟨n, hn, hfd⟩ := mem_pres.1 hm
        exact hpriv (.dep c1 c2 (.input (hz ▸ hx.2) hn hfd)) hself
      · obtain ⟨u, ⟨l₁, l₂, h1, h2, h3, -, h5, -⟩, h6⟩ := hn
        rw [h3] at h5 h6
        rw [hst] at h5
        exact ⟨l₁, l₂, h1, h2, h6, h5⟩
      · rw [hst] at hn
        exact absurd hn hnot
  · exfalso
    obtain ⟨p1, p2⟩ := hord.parts _ _ _ _ _ c1 c2
    have hp' : Part s t' t := by
      cases hu with
      | needs hn =>
        cases hn with
        | all h hy => exact .all c2 h hy
        | seq h hy => exact .seq c2 h hy
        | arg h => exact .arg c2 h
        | input h => exact absurd h (p2 _ _ _)
        | name h => exact absurd h (p1 _)
      | files hf => exact absurd hf (p2 _ _ _)
    have hz' := hord.apart _ _ _ _ _ _ _ _ _ hx c1 .self hp'
    subst hz'
    have := hx.2
    rw [c1.2] at this; cases this
    exact hnot (ran_of_inside hf.noRun hord hr hx htc (inBody_of_within hw) c2)

/-! ## What was needed, from the beginning -/

/-- Each move adds at most one event; or two, when Run is called without targets. -/
theorem one_event {w : World ρ} {ctx : Ctx} (ls : List (Label (World ρ))) (l : Label (World ρ)) :
    (buildRun hex sum own s os w ctx (ls ++ [l])).log = (buildRun hex sum own s os w ctx ls).log ∨
    (∃ e, (buildRun hex sum own s os w ctx (ls ++ [l])).log = (buildRun hex sum own s os w ctx ls).log ++ [e]) ∨
    ∃ th c ctx', (buildRun hex sum own s os w ctx (ls ++ [l])).log = (buildRun hex sum own s os w ctx ls).log ++ [(th, Ev.call c ctx' []), (th, Ev.ret c none)] := by
  rw [buildRun_snoc]
  generalize buildRun hex sum own s os w ctx ls = st
  cases l with
  | extern f => exact .inl rfl
  | thread tid =>
    cases hs : Runner.lstep (buildEnv hex sum own s) st (.thread tid) with
    | none => exact .inl rfl
    | some st' =>
      obtain ⟨th, hth, hcs⟩ := step_cases hs
      cases hcs <;> first | exact .inl rfl | exact .inr (.inl ⟨_, rfl⟩) | exact .inr (.inr ⟨_, _, _, rfl⟩)

/-- The moment of an event. -/
theorem moment {w : World ρ} {ctx : Ctx} {ls : List (Label (World ρ))} {e : Nat × Ev (World ρ) Ctx} {L L' : List (Nat × Ev (World ρ) Ctx)}
    (h : (buildRun hex sum own s os w ctx ls).log = L ++ e :: L') (he : (∀ c ctx refs, e.2 ≠ .call c ctx refs) ∧ ∀ c r, e.2 ≠ .ret c r) :
    ∃ ls₁ l ls₂, ls = ls₁ ++ l :: ls₂ ∧ (buildRun hex sum own s os w ctx ls₁).log = L ∧ (buildRun hex sum own s os w ctx (ls₁ ++ [l])).log = L ++ [e] := by
  induction ls using List.reverseRecOn generalizing L' with
  | nil =>
    have h : [] = L ++ e :: L' := h
    simp at h
  | append_singleton ls l ih =>
    have back : ∀ {L''}, (buildRun hex sum own s os w ctx ls).log = L ++ e :: L'' → ∃ ls₁ l₁ ls₂, ls ++ [l] = ls₁ ++ l₁ :: ls₂ ∧
        (buildRun hex sum own s os w ctx ls₁).log = L ∧ (buildRun hex sum own s os w ctx (ls₁ ++ [l₁])).log = L ++ [e] := by
      intro L'' h
      obtain ⟨ls₁, l₁, ls₂, a, b⟩ := ih h
      exact ⟨ls₁, l₁, ls₂ ++ [l], by rw [a]; simp, b⟩
    have last : ∀ {A : List (Nat × Ev (World ρ) Ctx)} {e'}, A ++ [e'] = L ++ e :: L' → A = L ∧ e' = e ∨ ∃ L'', A = L ++ e :: L'' := by
      intro A e' h
      rcases List.eq_nil_or_concat L' with rfl | ⟨L'', e'', rfl⟩
      · obtain ⟨rfl, h2⟩ := List.append_inj' h rfl
        cases h2
        exact .inl ⟨rfl, rfl⟩
      · rw [List.concat_eq_append] at h
        have h' : A ++ [e'] = (L ++ e :: L'') ++ [e''] := by rw [h]; simp
        exact .inr ⟨_, (List.append_inj' h' rfl).1⟩
    rcases one_event (hex := hex) (sum := sum) (own := own) (s := s) (os := os) (w := w) (ctx := ctx) ls l with h1 | ⟨e', h1⟩ | ⟨th, c, ctx', h1⟩
    · rw [h1] at h
      exact back h
    · rw [h1] at h
      rcases last h with ⟨h2, rfl⟩ | ⟨L'', h2⟩
      · exact ⟨ls, l, [], by simp, h2, by rw [h1, h2]⟩
      · exact back h2
    · rw [h1] at h
      have h' : ((buildRun hex sum own s os w ctx ls).log ++ [(th, Ev.call c ctx' [])]) ++ [(th, Ev.ret c none)] = L ++ e :: L' := by rw [← h]; simp
      rcases last h' with ⟨-, rfl⟩ | ⟨L'', h2⟩
      · exact absurd rfl (he.2 _ _)
      · rcases List.eq_nil_or_concat L'' with rfl | ⟨L₃, e'', rfl⟩
        · obtain ⟨-, h3⟩ := List.append_inj' h2 rfl
          cases h3
          exact absurd rfl (he.1 _ _ _)
        · rw [List.concat_eq_append] at h2
          have h' : (buildRun hex sum own s os w ctx ls).log ++ [(th, Ev.call c ctx' [])] = (L ++ e :: L₃) ++ [e''] := by rw [h2]; simp
          exact back (List.append_inj' h' rfl).1

theorem Ran.mono {t : Nat} {log log' : List (Nat × Ev (World ρ) Ctx)} (h : Ran t log) (hl : ∀ e ∈ log, e ∈ log') : Ran t log' := by
  obtain ⟨th, c, i, key, ctx, h⟩ := h
  exact ⟨th, c, i, key, ctx, hl _ h⟩

/-- A file of a target changes only by the work of its rule, or of the rule that makes it. -/
theorem file_moved {w : World ρ} {ctx : Ctx} {ls ls₁ ls₂ : List (Label (World ρ))} {l : Label (World ρ)} {T : Sit → Prop}
    (hf : LooseBuild hex sum own s J os T w ctx ls) (hls : ls = ls₁ ++ l :: ls₂) {x t : Nat} {ins outs : List Str} (hx : FilesOf s os x t ins outs) {i : Str}
    (hi : i ∈ ins ++ outs) :
    SameFile (buildRun hex sum own s os w ctx ls₁).world.fs (buildRun hex sum own s os w ctx (ls₁ ++ [l])).world.fs i ∨
    ∃ z t' ins' outs', FilesOf s os z t' ins' outs' ∧ Ran t' (buildRun hex sum own s os w ctx ls₁).log ∧ (z = x ∨ i ∈ ins ∧ findInFilesRegistry s.filesReg i = some z) := by
  have hr := buildRun_reach (hex := hex) (sum := sum) (own := own) (s := s) (os := os) (w := w) (ctx := ctx) (ls := ls₁)
  rw [buildRun_snoc]
  generalize buildRun hex sum own s os w ctx ls₁ = st at *
  cases l with
  | extern f => exact .inl (hf.outside f (by rw [hls]; simp) st.world x t ins outs hx i hi)
  | thread tid =>
    cases hs : Runner.lstep (buildEnv hex sum own s) st (.thread tid) with
    | none => exact .inl ⟨rfl, fun _ _ => Iff.rfl⟩
    | some st' =>
      rw [Option.getD_some]
      obtain ⟨⟨jb, ts⟩, hth, hc⟩ := step_cases hs
      rcases step_fs hc with ⟨f, k, hts, hw, -, -⟩ | ⟨-, hfs, hdb⟩
      · dsimp only at hts; subst hts
        rw [hw]
        obtain ⟨p, ho, hp⟩ := hr.localInv.pos _ _ _ hth
        cases jb with
        | none =>
          exfalso
          have hlt := (List.getElem?_eq_some_iff.1 (show [Proc.call ctx (os.map TRef.ptr) .ret][tid]? = some p from ho)).1
          simp only [List.length_singleton] at hlt
          obtain rfl : tid = 0 := by omega
          have ho : some (Proc.call ctx (os.map TRef.ptr) .ret) = some p := ho
          cases ho
          exact client_still hp _ _ rfl
        | some j =>
          cases ho
          have hmay : MayRun s os j.tgt := (C76_build hf.noRun hr).1 _ _ _ _ _ _ (hr.inv.b.started _ _ _ hth rfl)
          by_cases hfl : ∃ t ins outs, s.heap[j.tgt]? = some (.files t ins outs)
          · obtain ⟨t', ins', outs', hfl⟩ := hfl
            have hk : ((buildEnv hex sum own s).body j.tgt j.ctx).Keeps fun w => w.fs = st.world.fs := by
              simp only [buildEnv, hfl]
              exact withReg_keeps (files_keeps_fs (P := fun fs => fs = st.world.fs))
            have := (Runner.Runs.keeps hk hp).1 st.world rfl
            rw [this]
            exact .inl ⟨rfl, fun _ _ => Iff.rfl⟩
          · have hch := act_changes (fun h ctx => hf.cmds j.tgt ctx hmay h) (fun t ins outs h => hfl ⟨t, ins, outs, h⟩) hp st.world
            rcases hch.2 x t ins outs hx i hi with h | ⟨z, t', ins', outs', h1, h2, h3⟩
            · exact .inl h
            · exact .inr ⟨z, t', ins', outs', h1, ran_of_inside hf.noRun hf.orderly hr h1 hth rfl h2, h3⟩
      · rw [hfs]; exact .inl ⟨rfl, fun _ _ => Iff.rfl⟩

/-- Nothing disappears from the database in any number of moves, and a file that has changed was changed by a rule. -/
theorem since_start {w : World ρ} {ctx : Ctx} {ls : List (Label (World ρ))} {T : Sit → Prop} {d : Nat}
    (hf : LooseBuild hex sum own s J os T w ctx ls) (hkeep : ∀ f, .extern f ∈ ls → ∀ w, ∀ h ∈ w.db d, h ∈ (f w).db d)
    {x t : Nat} {ins outs : List Str} (hx : FilesOf s os x t ins outs) : ∀ ls₁ ls₂, ls = ls₁ ++ ls₂ →
    (∀ h ∈ w.db d, h ∈ (buildRun hex sum own s os w ctx ls₁).world.db d) ∧
    ∀ i ∈ ins ++ outs, SameFile w.fs (buildRun hex sum own s os w ctx ls₁).world.fs i ∨
      ∃ z t' ins' outs', FilesOf s os z t' ins' outs' ∧ Ran t' (buildRun hex sum own s os w ctx ls₁).log ∧ (z = x ∨ i ∈ ins ∧ findInFilesRegistry s.filesReg i = some z) := by
  intro ls₁
  induction ls₁ using List.reverseRecOn with
  | nil => exact fun _ _ => ⟨fun _ h => h, fun i _ => .inl ⟨rfl, fun _ _ => Iff.rfl⟩⟩
  | append_singleton ls₁ l ih =>
    intro ls₂ hls
    have hls' : ls = ls₁ ++ l :: ls₂ := by rw [hls]; simp
    obtain ⟨h1, h2⟩ := ih _ hls'
    obtain ⟨hlog, hdb, -⟩ := move_mono hf hkeep hls'
    refine ⟨fun h hh => hdb h (h1 h hh), fun i hi => ?_⟩
    rcases h2 i hi with h3 | ⟨z, t', ins', outs', a, b, c⟩
    · rcases file_moved hf hls' hx hi with h4 | ⟨z, t', ins', outs', a, b, c⟩
      · exact .inl ⟨h4.1.trans h3.1, fun k c => (h4.2 k c).trans (h3.2 k c)⟩
      · exact .inr ⟨z, t', ins', outs', a, b.mono hlog, c⟩
    · exact .inr ⟨z, t', ins', outs', a, b.mono hlog, c⟩

theorem UpToDate.steady {d t : Nat} {ins outs : List Str} {u w : World ρ} (h : UpToDate hex sum own s d t ins outs u) (hdesc : ∀ w, own.desc t w = some (J t))
    (hw : Steady d ins outs u w) : UpToDate hex sum own s d t ins outs w := by
  obtain ⟨li, lo, j, h1, h2, h3, h4⟩ := h
  refine ⟨li, lo, j, ?_, ?_, ?_, hw.2 _ h4⟩
  · rw [← h1]; exact fileHashes_same fun i hi => hw.1 i (by simp [show i ∈ ins from hi])
  · rw [← h2]; exact fileHashes_same fun i hi => hw.1 i (by simp [show i ∈ outs from hi])
  · rw [hdesc, ← h3, hdesc]

/-- **C93.** A build of `os` with hash database `d`, without Force or DryRun, in an orderly project (`LooseBuild`), in any order of the goroutines; nobody removes anything from the
database meanwhile.  Only targets that were behind when the build began are made: if the rule of Files target `x` is run then `x` was not up to date, or has an input that is made by
a target that was behind. -/
theorem C93_minimal {w : World ρ} {ctx : Ctx} {ls : List (Label (World ρ))} {T : Sit → Prop} {d : Nat}
    (hf : LooseBuild hex sum own s J os T w ctx ls) (hc : Usual d ctx) (hkeep : ∀ f, .extern f ∈ ls → ∀ w, ∀ h ∈ w.db d, h ∈ (f w).db d)
    {x t : Nat} {ins outs : List Str} (hx : FilesOf s os x t ins outs) (hran : Ran t (buildRun hex sum own s os w ctx ls).log) : Behind hex sum own s d os w x := by
  have key : ∀ n, ∀ ls₁ ls₂, ls₁.length = n → ls = ls₁ ++ ls₂ → ∀ x t ins outs, FilesOf s os x t ins outs → Ran t (buildRun hex sum own s os w ctx ls₁).log →
      Behind hex sum own s d os w x := by
    intro n
    induction n using Nat.strongRecOn with
    | ind n ih =>
      intro ls₁ ls₂ hn hls x t ins outs hx hran
      obtain ⟨th, c, i, key, ctx', hm⟩ := hran
      obtain ⟨L, L', hL⟩ := List.append_of_mem hm
      obtain ⟨k₁, l, k₂, e1, e2, e3⟩ := moment hL ⟨(fun _ _ _ h => nomatch h), (fun _ _ h => nomatch h)⟩
      have hls' : ls = k₁ ++ l :: (k₂ ++ ls₂) := by rw [hls, e1]; simp
      obtain ⟨k₀, k₀', e4, -, hup, -⟩ := C93_needed hf hc hkeep hls' hx (by rw [e3, e2])
      by_cases h0 : UpToDate hex sum own s d t ins outs w
      · obtain ⟨hdb, hfs⟩ := since_start hf hkeep hx k₀ (k₀' ++ l :: (k₂ ++ ls₂)) (by rw [hls', e4]; simp)
        have hlt : k₀.length < n := by rw [← hn, e1, e4]; simp
        by_cases hall : ∀ i ∈ ins ++ outs, SameFile w.fs (buildRun hex sum own s os w ctx k₀).world.fs i
        · exact absurd (h0.steady (hf.orderly.desc _ _ _ _ hx) ⟨fun i hi => (hall i hi).1, hdb⟩) hup
        · push Not at hall
          obtain ⟨i, hi, hne⟩ := hall
          rcases hfs i hi with h1 | ⟨z, t', ins', outs', hz, hran, h1⟩
          · exact absurd h1 hne
          · have := ih _ hlt k₀ _ rfl (show ls = k₀ ++ (k₀' ++ l :: (k₂ ++ ls₂)) by rw [hls', e4]; simp) z t' ins' outs' hz hran
            rcases h1 with rfl | ⟨h1, h2⟩
            · exact this
            · exact .input hx h1 h2 this
      · exact .stale hx h0
  exact key _ ls [] rfl (by simp) x t ins outs hx hran

/-- **C93.** Nor is anything run that only the rule runs: `c` is the rule, or a part of it. -/
theorem C93_parts {w : World ρ} {ctx : Ctx} {ls : List (Label (World ρ))} {T : Sit → Prop} {d : Nat}
    (hf : LooseBuild hex sum own s J os T w ctx ls) (hc : Usual d ctx) (hkeep : ∀ f, .extern f ∈ ls → ∀ w, ∀ h ∈ w.db d, h ∈ (f w).db d)
    {x t c : Nat} {ins outs : List Str} (hx : FilesOf s os x t ins outs) (hp : Part s t c) (hran : Ran c (buildRun hex sum own s os w ctx ls).log) :
    Behind hex sum own s d os w x := by
  refine C93_minimal hf hc hkeep hx ?_
  obtain ⟨th, c', i, key, ctx', hm⟩ := hran
  obtain ⟨L, L', hL⟩ := List.append_of_mem hm
  obtain ⟨k₁, l, k₂, e1, e2, e3⟩ := moment hL ⟨(fun _ _ _ h => nomatch h), (fun _ _ h => nomatch h)⟩
  have hr := buildRun_reach (hex := hex) (sum := sum) (own := own) (s := s) (os := os) (w := w) (ctx := ctx) (ls := k₁ ++ [l])
  have : Ran t (buildRun hex sum own s os w ctx (k₁ ++ [l])).log := by
    have hth : ∃ j ts, (buildRun hex sum own s os w ctx (k₁ ++ [l])).th th = some ⟨some j, ts⟩ ∧ ts.inBody = true ∧ j.tgt = c := by
      rw [buildRun_snoc] at e3 ⊢
      rw [← e2] at e3
      generalize buildRun hex sum own s os w ctx k₁ = st at *
      have hne : ∀ e, st.log ≠ st.log ++ [e] := fun e h => by simpa using congrArg List.length h
      cases l with
      | extern f => exact absurd e3 (hne _)
      | thread tid =>
        cases hs : Runner.lstep (buildEnv hex sum own s) st (.thread tid) with
        | none => rw [hs] at e3; exact absurd e3 (hne _)
        | some st' =>
          rw [hs, Option.getD_some] at e3
          rw [Option.getD_some]
          obtain ⟨⟨jb, ts⟩, hth, hcs⟩ := step_cases hs
          cases hcs
          case lookupNew j h1 h2 h3 =>
            simp only [List.append_cancel_left_eq, List.cons.injEq, Prod.mk.injEq, Ev.start.injEq, and_true] at e3
            obtain ⟨rfl, -, -, -, h4, -⟩ := e3
            dsimp only at h1 h2; subst h1 h2
            exact ⟨j, .exec ((buildEnv hex sum own s).body j.tgt j.ctx), by simp [Runner.th_set hth], rfl, h4⟩
          all_goals first
            | exact absurd e3 (hne _)
            | (simp only [List.append_cancel_left_eq] at e3; simp at e3)
    obtain ⟨j, ts, h1, h2, rfl⟩ := hth
    exact ran_of_inside hf.noRun hf.orderly hr hx h1 h2 hp
  refine this.mono fun e he => ?_
  rw [e3] at he
  rw [hL]
  simp only [List.mem_append, List.mem_cons] at he ⊢
  tauto

end
end Fab.Yaml
