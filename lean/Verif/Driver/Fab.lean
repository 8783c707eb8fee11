import Verif.Driver.Main
import Verif.Yaml.Clean
import Verif.Yaml.Again
import Verif.Yaml.Dry
import Verif.Yaml.Blame

/-!
# C88: the fab command, from the command line to the files

The parts of the model put together: the command line (`Driver/Main`), the objects that reading the YAML files gives (`Yaml/Model`), the concurrent runner (`Runner/Model`) with
targets that work on files and a hash database (`Files/Model`, `Yaml/Build`), and the exit status.
-/

namespace Fab.Driver
open Path Registry
open Runner (State Reach Ev Err Label)
variable {ρ : Type}

/-! ## Model -/

/-- The objects that `con.Run` is called with (main.go:142, driver.go.tmpl:89): `ParseArgs` returns objects of the registry, or a new one that `ArgTarget` makes
(controller.go:88-94, argtarg.go:26-31). -/
def placed (s : Yaml.St) : List PTgt → Yaml.St × List Nat
  | [] => (s, [])
  | .plain o :: ts => ((placed s ts).1, o :: (placed s ts).2)
  | .withArgs o args :: ts => ({ (placed s ts).1 with heap := (placed s ts).1.heap ++ [.arg o args] }, (placed s ts).1.heap.length :: (placed s ts).2)

/-- **One run of the command `fab argv`** in the world `w`, which ran targets and exited with status `k`.  `W` is everything that decides which targets these are: directories, the
driver, the YAML files.  The goroutines of the runner, and everything outside of fab, move as `ls` says; `st` is the state of the runner (with the files and the databases) at the
end; the objects that the project consists of are those of `s`, and `con.Run` was called with the targets `os`, in the context `ctx`. -/
structure FabRun (W : World) (n : Nat) (hex : Bytes → Str) (sum : Str → Str) (own : Yaml.Own ρ) (w : Files.World ρ) (argv : List Str) (k : Nat)
    (s : Yaml.St) (os : List Nat) (ctx : Ctx) (ls : List (Label (Files.World ρ))) (st : State (Files.World ρ) Ctx) : Prop where
  /-- fab gets as far as running targets, and its exit status tells what `con.Run` returned -/
  main : ∃ p s₀ ts, fabMain W n argv = some ([.ran p ctx s₀ ts], k) ∧ placed s₀ ts = (s, os) ∧ (W.run p ctx s₀ ts = true ↔ ∃ c, (0, Ev.ret c none) ∈ st.log)
  /-- `con.Run` is an execution of the runner ... -/
  exec : st = Yaml.buildRun hex sum own s os w ctx ls
  /-- ... that has come to its end -/
  ended : ∃ c e, (0, Ev.ret c e) ∈ st.log

/-! ## Proofs -/

variable {W : World} {n : Nat} {hex : Bytes → Str} {sum : Str → Str} {own : Yaml.Own ρ} {w : Files.World ρ} {argv : List Str} {k : Nat} {s : Yaml.St} {os : List Nat} {ctx : Ctx}
  {ls : List (Label (Files.World ρ))} {st : State (Files.World ρ) Ctx}

theorem FabRun.reach (h : FabRun W n hex sum own w argv k s os ctx ls st) :
    Reach (Yaml.buildEnv hex sum own s) w [.call ctx (os.map .ptr) .ret] st := h.exec ▸ Yaml.buildRun_reach

theorem FabRun.status (h : FabRun W n hex sum own w argv k s os ctx ls st) : k = 0 ↔ ∃ c, (0, Ev.ret c none) ∈ st.log := by
  obtain ⟨p, s₀, ts, h1, -, h2⟩ := h.main
  rcases C71_status h1 with ⟨p', ctx', s', ts', h3, h4⟩ | ⟨_, _, h3, -⟩ | ⟨h3, -⟩
  · cases h3; exact h4.trans h2
  · cases h3
  · cases h3

theorem placed_heap {s : Yaml.St} {z : Nat} {x : Yaml.Obj} (h : s.heap[z]? = some x) : ∀ ts, (placed s ts).1.heap[z]? = some x
  | [] => h
  | .plain _ :: ts => placed_heap h ts
  | .withArgs _ _ :: ts => by
    have := placed_heap h ts
    show ((placed s ts).1.heap ++ _)[z]? = _
    rw [List.getElem?_append_left (List.getElem?_eq_some_iff.1 this).1]
    exact this

/-- the object `z` is the target `t` that the arguments name: an object of the registry, or an `ArgTarget` of one with the remaining arguments -/
def Given (s : Yaml.St) : PTgt → Nat → Prop
  | .plain o, z => z = o
  | .withArgs o args, z => s.heap[z]? = some (.arg o args)

theorem placed_given (s : Yaml.St) : ∀ ts, List.Forall₂ (Given (placed s ts).1) ts (placed s ts).2
  | [] => .nil
  | .plain o :: ts => .cons rfl (placed_given s ts)
  | .withArgs o args :: ts => by
    refine .cons ?_ ((placed_given s ts).imp ?_)
    · show ((placed s ts).1.heap ++ _)[_]? = _
      simp
    · intro t z h
      cases t with
      | plain o' => exact h
      | withArgs o' args' =>
        have h : (placed s ts).1.heap[z]? = some (.arg o' args') := h
        show ((placed s ts).1.heap ++ _)[z]? = _
        rw [List.getElem?_append_left (List.getElem?_eq_some_iff.1 h).1]
        exact h

theorem placed_reg (s : Yaml.St) : ∀ ts, (placed s ts).1.reg = s.reg
  | [] => rfl
  | .plain _ :: ts => placed_reg s ts
  | .withArgs _ _ :: ts => placed_reg s ts

/-- **C88, the command line.** If `fab argv` runs targets then the flags could be parsed, the top directory was found, the project read, and the arguments name targets of the
project: these are run, with the settings that the flags give. -/
theorem C88_line (hd : PlainArgs argv) (h : FabRun W n hex sum own w argv k s os ctx ls st) :
    ∃ dir set args top p s₀ ts db, W.fabDir = some dir ∧ parse fabFlags (defaults dir) argv = .ok (set, args) ∧ W.topDir = some top ∧ Ready W n top p s₀ ∧
      Names s₀.reg args ts ∧ placed s₀ ts = (s, os) ∧ set.list = false ∧ W.openDB (absOf p.cwd set.fab) = some db ∧ CtxFor set ctx db := by
  obtain ⟨p, s₀, ts, h1, h2, -⟩ := h.main
  cases hw : W.fabDir with
  | none => simp only [fabMain, hw, Option.some.injEq, Prod.mk.injEq] at h1; cases h1.1
  | some dir =>
    cases hp : parse fabFlags (defaults dir) argv with
    | error e => simp only [fabMain, hw, hp, Option.some.injEq, Prod.mk.injEq] at h1; cases h1.1
    | ok r =>
      obtain ⟨set, args⟩ := r
      cases ht : W.topDir with
      | none =>
        have h0 : set.top = [] := parse_top argv.length argv (Nat.le_refl _) _ _ _ hp
        simp only [fabMain, hw, hp, mainRun, h0, if_true, ht, Option.some.injEq, Prod.mk.injEq] at h1
        cases h1.1
      | some top =>
        obtain ⟨h3, h4, h5, db, h6, h7⟩ := C71_only_partial hw hp hd ht h1
        exact ⟨dir, set, args, top, p, s₀, ts, db, rfl, hp, rfl, h3, h5, h2, h4, h6, h7⟩

/-- **C88, the targets.** What `con.Run` is called with are exactly the targets that the arguments name, in their order, in the project that was read. -/
theorem C88_targets (hd : PlainArgs argv) (h : FabRun W n hex sum own w argv k s os ctx ls st) :
    ∃ dir set args top p s₀ ts, W.fabDir = some dir ∧ parse fabFlags (defaults dir) argv = .ok (set, args) ∧ W.topDir = some top ∧ Ready W n top p s₀ ∧
      Names s₀.reg args ts ∧ List.Forall₂ (Given s) ts os ∧ s.reg = s₀.reg ∧ ∀ (z : Nat) x, s₀.heap[z]? = some x → s.heap[z]? = some x := by
  obtain ⟨dir, set, args, top, p, s₀, ts, db, h1, h2, h3, h4, h5, h6, -⟩ := C88_line hd h
  have hs : s = (placed s₀ ts).1 := by rw [h6]
  have ho : os = (placed s₀ ts).2 := by rw [h6]
  subst hs ho
  exact ⟨dir, set, args, top, p, s₀, ts, h1, h2, h3, h4, h5, placed_given s₀ ts, placed_reg s₀ ts, fun z x hz => placed_heap hz ts⟩

/-- **C88, what is run, and the exit status.** Nothing is run but the targets that the arguments name and what these use.  The exit status is 0 exactly if none of the targets
that were run has returned an error, and no name was unknown; and then every target that is needed for the arguments has been run and has returned nil. -/
theorem C88_status (hown : ∀ o ctx, Yaml.NoRun (own.body o ctx)) (h : FabRun W n hex sum own w argv k s os ctx ls st) :
    (∀ t c i key x ctx, (t, Ev.start c i key x ctx) ∈ st.log → Yaml.MayRun s os x) ∧
    (k = 0 ↔ (∀ t key x raw, (t, Ev.finish key x raw) ∈ st.log → raw = none) ∧ ∀ t c i e, (t, Ev.refuse c i e) ∉ st.log) ∧
    (k = 0 → ∀ o, Yaml.Wanted s os o → ∃ x t, Yaml.Stands s o x ∧ (t, Ev.finish o x none) ∈ st.log) := by
  obtain ⟨h1, h2⟩ := Yaml.C76_build hown h.reach
  refine ⟨h1, ?_, fun hk => ?_⟩
  · rw [h.status]
    constructor
    · rintro ⟨c, hc⟩
      exact ((h2 c none hc).1).1 rfl
    · intro hall
      obtain ⟨c, e, hc⟩ := h.ended
      have := ((h2 c e hc).1).2 hall
      subst this
      exact ⟨c, hc⟩
  · obtain ⟨c, hc⟩ := h.status.1 hk
    exact (h2 c none hc).2 rfl

/-- **C88, failures.** If the exit status is not 0 then the error that is printed leads to the error of every target that failed, and to every unknown name, by a chain of
targets from the arguments, each of which uses the next; and there is at least one. -/
theorem C88_error (hown : ∀ o ctx, Yaml.NoRun (own.body o ctx)) (hplain : ∀ o ctx, Yaml.PlainErrs (own.body o ctx))
    (h : FabRun W n hex sum own w argv k s os ctx ls st) (hk : k ≠ 0) :
    ∃ c e, (0, Ev.ret c (some e)) ∈ st.log ∧
      (∀ t key x raw, (t, Ev.finish key x (some raw)) ∈ st.log → ∃ ts, Yaml.Chain s os (ts ++ [x]) ∧ e.Leads (ts ++ [x]) raw) ∧
      (∀ t c i x, (t, Ev.refuse c i x) ∈ st.log → ∃ ts o name, e.Leads ts x ∧ x = .unresolved o ∧ s.heap[o]? = some (.ref name) ∧ (s.reg.target name).1 = none ∧
        ((ts = [] ∧ o ∈ os) ∨ ∃ us y, ts = us ++ [y] ∧ Yaml.Chain s os ts ∧ Yaml.Uses s y o)) ∧
      ((∃ t key x raw, (t, Ev.finish key x (some raw)) ∈ st.log) ∨ ∃ t c i x, (t, Ev.refuse c i x) ∈ st.log) := by
  obtain ⟨c, e, hc⟩ := h.ended
  cases e with
  | none => exact absurd (h.status.2 ⟨c, hc⟩) hk
  | some e =>
    obtain ⟨h1, h2, -⟩ := Yaml.C87_build hown hplain h.reach hc
    refine ⟨c, e, hc, fun t key x raw hf => ?_, fun t c i x hr => ?_, ?_⟩
    · obtain ⟨e', ts, h3, h4, h5⟩ := h1 t key x raw hf
      cases h3; exact ⟨ts, h4, h5⟩
    · obtain ⟨e', ts, o, name, h3, h4⟩ := h2 t c i x hr
      cases h3; exact ⟨ts, o, name, h4⟩
    · by_contra hno
      rw [not_or] at hno
      refine hk ((C88_status hown h).2.1.2 ⟨fun t key x raw hf => ?_, fun t c i x hr => hno.2 ⟨t, c, i, x, hr⟩⟩)
      cases raw with
      | none => rfl
      | some raw => exact absurd ⟨t, key, x, raw, hf⟩ hno.1

/-- **C88, dry runs.** With -n, no step of fab changes a file or a hash database, whatever the exit status. -/
theorem C88_dry (hown : ∀ o ctx, Yaml.NoRun (own.body o ctx)) (hdry : own.RespectsDryRun) (hd : PlainArgs argv)
    (h : FabRun W n hex sum own w argv k s os ctx ls st)
    (hn : ∀ dir set args, W.fabDir = some dir → parse fabFlags (defaults dir) argv = .ok (set, args) → set.dryRun = true) :
    ∀ ls₁ t ls₂, ls = ls₁ ++ .thread t :: ls₂ →
      (Yaml.buildRun hex sum own s os w ctx (ls₁ ++ [.thread t])).world.fs = (Yaml.buildRun hex sum own s os w ctx ls₁).world.fs ∧
      (Yaml.buildRun hex sum own s os w ctx (ls₁ ++ [.thread t])).world.db = (Yaml.buildRun hex sum own s os w ctx ls₁).world.db := by
  intro ls₁ t ls₂ hls
  obtain ⟨dir, set, args, top, p, s₀, ts, db, h1, h2, -, -, -, -, -, -, h3⟩ := C88_line hd h
  have hc : getDryRun ctx = true := h3.2.2.1.trans (hn dir set args h1 h2)
  rw [Yaml.buildRun_snoc]
  simp only [Runner.lstep]
  cases hs : Runner.step (Yaml.buildEnv hex sum own s) (Yaml.buildRun hex sum own s os w ctx ls₁) t with
  | none => exact ⟨rfl, rfl⟩
  | some st' => exact Yaml.C83_touches_nothing hown hdry hc Yaml.buildRun_reach hs

section
variable {J : Nat → Json.J} {R : Yaml.Meaning} {T : Yaml.Sit → Prop}

/-- **C88, success.** Whatever was built before, and whatever happened to the files since: if `fab argv` exits with status 0, without -n, then the outputs of every Files
target that the arguments need are what they are meant to be.  (`FairBuild`, `RulesWork`: see C78.) -/
theorem C88_right (hno : Yaml.NoCollision hex sum T) (hw : Yaml.History hex sum R T w) (h : FabRun W n hex sum own w argv 0 s os ctx ls st)
    (hf : Yaml.FairBuild hex sum own s J os T w ctx ls) (hrule : Yaml.RulesWork hex sum own s J os R w ctx ls) :
    ∀ x t ins outs, Yaml.FilesOf s os x t ins outs → (Yaml.sitOf own J t ins outs st.world.fs).right R := by
  obtain ⟨c, hc⟩ := h.status.1 rfl
  have := h.exec
  subst this
  exact Yaml.C78_history hno hw hf hrule hc

theorem placed_filesReg (s : Yaml.St) : ∀ ts, (placed s ts).1.filesReg = s.filesReg
  | [] => rfl
  | .plain _ :: ts => placed_filesReg s ts
  | .withArgs _ _ :: ts => placed_filesReg s ts

theorem load_loaded {L : Yaml.Lib} {n : Nat} {s : Yaml.St} (h : Yaml.load L n Yaml.St.empty = .ok () s) : Yaml.Loaded L s := by
  refine .file (n := n) (dir := []) .empty ?_
  unfold Yaml.load at h
  split at h
  · rename_i D s' hr
    cases h
    exact .inr ⟨_, hr⟩
  · exact .inl ⟨(), h⟩

/-- Without a driver, those who are registered as makers of files are Files targets. -/
theorem FabRun.makers (hd : PlainArgs argv) (hdr : W.driver = .noDriver) (h : FabRun W n hex sum own w argv k s os ctx ls st) {i : Str} {z : Nat}
    (hz : Files.findInFilesRegistry s.filesReg i = some z) : ∃ t ins outs, s.heap[z]? = some (.files t ins outs) := by
  obtain ⟨dir, set, args, top, p, s₀, ts, db, -, -, -, hr, -, hp, -⟩ := C88_line hd h
  have hs : s = (placed s₀ ts).1 := by rw [hp]
  subst hs
  rw [placed_filesReg] at hz
  cases hr with
  | driverless _ hl =>
    obtain ⟨t, ins, outs, h1⟩ := Yaml.maker_files (load_loaded hl) hz
    exact ⟨t, ins, outs, placed_heap h1 ts⟩
  | driver h1 => rw [hdr] at h1; cases h1

/-- **C88, incremental builds.** Two runs of fab for the same targets that exit with status 0, the first after one history of builds and edits and the second after another, for
example one with an empty database.  Then all outputs are the same, if the files that are not made are the same after both runs (and see C78). -/
theorem C88_same_as_clean (hno : Yaml.NoCollision hex sum T) (hfun : ∀ j y i o o', R j y i o → R j y i o' → o = o') (hd : PlainArgs argv) (hdr : W.driver = .noDriver)
    -- one run
    (hw : Yaml.History hex sum R T w) (h : FabRun W n hex sum own w argv 0 s os ctx ls st)
    (hf : Yaml.FairBuild hex sum own s J os T w ctx ls) (hrule : Yaml.RulesWork hex sum own s J os R w ctx ls)
    -- the other
    {W' : World} {n' : Nat} {w' : Files.World ρ} {argv' : List Str} {ctx' : Ctx} {ls' : List (Label (Files.World ρ))} {st' : State (Files.World ρ) Ctx}
    (hw' : Yaml.History hex sum R T w') (h' : FabRun W' n' hex sum own w' argv' 0 s os ctx' ls' st')
    (hf' : Yaml.FairBuild hex sum own s J os T w' ctx' ls') (hrule' : Yaml.RulesWork hex sum own s J os R w' ctx' ls')
    -- the files
    (hwf : st.world.fs.root.WF) (hwf' : st'.world.fs.root.WF)
    (hsrc : ∀ x t ins outs, Yaml.FilesOf s os x t ins outs → ∀ i ∈ ins, Files.findInFilesRegistry s.filesReg i = none →
      ∀ k c, Files.Shows st.world.fs [i] k c ↔ Files.Shows st'.world.fs [i] k c)
    (hmade : ∀ x t ins outs, Yaml.FilesOf s os x t ins outs → ∀ i ∈ ins, ∀ z t' ins' outs', Files.findInFilesRegistry s.filesReg i = some z →
      s.heap[z]? = some (.files t' ins' outs') → i ∈ outs' ∧ (Yaml.IsDir st.world.fs i ↔ Yaml.IsDir st'.world.fs i)) :
    ∀ x t ins outs, Yaml.FilesOf s os x t ins outs → ∀ k c, Files.Shows st.world.fs outs k c ↔ Files.Shows st'.world.fs outs k c :=
  Yaml.same_as_clean (fun _ _ hz => h.makers hd hdr hz) hno hfun ⟨⟨w, ctx, ls, h.exec, hw, hf, hrule⟩, h.status.1 rfl⟩
    ⟨⟨w', ctx', ls', h'.exec, hw', hf', hrule'⟩, h'.status.1 rfl⟩ hwf hwf' hsrc hmade

end

/-- **C88, the second run.** `fab argv` has run targets and has exited with status 0.  Then fab is run again for the same targets, without -f and -n; in between, and during the
second run, nobody touches the files and rules of the targets, nor removes entries from the database.  Then the second run changes nothing, runs no rule, and its exit
status is 0.  (For the hypotheses on the targets see C77.) -/
theorem C88_second (hown : ∀ o ctx, Yaml.NoRun (own.body o ctx)) {d : Nat} (hkeep : ∀ hsh o ctx, (own.body o ctx).Keeps fun w => hsh ∈ w.db d)
    (hcomp : ∀ o x, Yaml.Wanted s os o → Yaml.Stands s o x → Yaml.Composite s x) (hnames : Yaml.NoNames own s os)
    -- the first run
    (h : FabRun W n hex sum own w argv 0 s os ctx ls st) (hdb : getHashDB ctx = some d) (hdry : getDryRun ctx = false)
    (hls : ∀ f, .extern f ∈ ls → ∀ w, ∀ h ∈ w.db d, h ∈ (f w).db d)
    -- in between
    {w' : Files.World ρ} (hworks : w'.hasFails = false) (hdb' : ∀ h ∈ st.world.db d, h ∈ w'.db d)
    (hsame : ∀ o x t ins outs, Yaml.Wanted s os o → Yaml.Stands s o x → s.heap[x]? = some (.files t ins outs) → ∀ u, Yaml.LastSaw st.log x u →
      (∀ i ∈ ins ++ outs, w'.fs.stat i = u.fs.stat i) ∧ own.desc t (Yaml.seen s w') = own.desc t (Yaml.seen s u))
    -- the second run
    {W' : World} {n' : Nat} {argv' : List Str} {k' : Nat} {ctx' : Ctx} {ls' : List (Label (Files.World ρ))} {st' : State (Files.World ρ) Ctx}
    (h' : FabRun W' n' hex sum own w' argv' k' s os ctx' ls' st') (hc : Yaml.Usual d ctx')
    (hls' : ∀ f, .extern f ∈ ls' → ∀ w₁, Yaml.Undisturbed own s d os w' w₁ → Yaml.Undisturbed own s d os w' (f w₁)) :
    k' = 0 ∧ (∀ t c i key x ctx, (t, Ev.start c i key x ctx) ∈ st'.log → Yaml.Composite s x) ∧
    ∀ ls₁ t ls₂, ls' = ls₁ ++ .thread t :: ls₂ →
      (Yaml.buildRun hex sum own s os w' ctx' (ls₁ ++ [.thread t])).world.fs = (Yaml.buildRun hex sum own s os w' ctx' ls₁).world.fs ∧
      (Yaml.buildRun hex sum own s os w' ctx' (ls₁ ++ [.thread t])).world.db = (Yaml.buildRun hex sum own s os w' ctx' ls₁).world.db := by
  obtain ⟨c, hret⟩ := h.status.1 rfl
  obtain ⟨h1, h2, h3⟩ := Yaml.C77_second_build hown hkeep hcomp hnames hdb hdry ls hls (st := st) h.exec hret hworks hdb' hsame hc ls' hls'
  have he : st' = Runner.runSched (Yaml.buildEnv hex sum own s) (Runner.init w' [.call ctx' (os.map .ptr) .ret]) ls' := h'.exec
  subst he
  refine ⟨h'.status.2 ?_, h2, h1⟩
  obtain ⟨c', e, hc'⟩ := h'.ended
  have := h3 0 c' e hc'
  subst this
  exact ⟨c', hc'⟩

end Fab.Driver
