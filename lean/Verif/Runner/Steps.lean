import Verif.Runner.Model

/-! # The runner: case analysis of a step (helper lemmas, no properties) -/

namespace Fab.Runner
variable {σ C : Type}

/-- `step` unfolded into its cases, with explicit resulting states. -/
inductive StepC (env : Env σ C) (s : State σ C) (tid : Nat) (th : Thread σ C) : State σ C → Prop where
  | lookupHit (j o) : th.st = .lookup → th.job = some j → s.ran j.key = some o →
      StepC env s tid th { s with threads := s.threads.set tid ⟨th.job, .waiting⟩ }
  | lookupNew (j) : th.st = .lookup → th.job = some j → s.ran j.key = none →
      StepC env s tid th { s with
        ran := upd s.ran j.key (some ⟨none, false, tid⟩)
        threads := s.threads.set tid ⟨th.job, .exec (env.body j.tgt j.ctx)⟩
        log := s.log ++ [(tid, .start j.call j.idx j.key j.tgt j.ctx)] }
  | wake (j o) : th.st = .waiting → th.job = some j → s.ran j.key = some o → o.opened = true →
      StepC env s tid th { s with threads := s.threads.set tid ⟨th.job, .readOut⟩ }
  | readOut (j o) : th.st = .readOut → th.job = some j → s.ran j.key = some o →
      StepC env s tid th { s with
        calls := s.calls.modify j.call (Call.setErr j.idx o.err)
        threads := s.threads.set tid ⟨th.job, .wgDone⟩
        log := s.log ++ [(tid, .result j.call j.idx o.err)] }
  | act (f k) : th.st = .exec (.act f k) →
      StepC env s tid th { s with
        world := f s.world
        threads := s.threads.set tid ⟨th.job, .exec (k s.world)⟩
        log := s.log ++ [(tid, .act s.world)] }
  | callNil (ctx k) : th.st = .exec (.call ctx [] k) →
      StepC env s tid th { s with
        calls := s.calls ++ [⟨tid, ctx, [], [], 0⟩]
        threads := s.threads.set tid ⟨th.job, .exec (k none)⟩
        log := s.log ++ [(tid, .call s.calls.length ctx []), (tid, .ret s.calls.length none)] }
  | call (ctx r rs k) : th.st = .exec (.call ctx (r :: rs) k) →
      StepC env s tid th { s with
        depth := s.depth + 1
        calls := s.calls ++ [⟨tid, ctx, r :: rs, List.replicate (r :: rs).length none, 0⟩]
        threads := s.threads.set tid ⟨th.job, .spawning s.calls.length 0 ctx (r :: rs) k⟩
        log := s.log ++ [(tid, .call s.calls.length ctx (r :: rs))] }
  | finish (e j) : th.st = .exec (.ret e) → th.job = some j →
      StepC env s tid th { s with
        threads := s.threads.set tid ⟨th.job, .setErrs (wrapErr j.tgt e)⟩
        log := s.log ++ [(tid, .finish j.key j.tgt e)] }
  | clientDone (e) : th.st = .exec (.ret e) → th.job = none →
      StepC env s tid th { s with threads := s.threads.set tid ⟨th.job, .done⟩ }
  | loopEnd (c i ctx k) : th.st = .spawning c i ctx [] k →
      StepC env s tid th { s with threads := s.threads.set tid ⟨th.job, .joining c k⟩ }
  | refuse (c i ctx r rs k e w') : th.st = .spawning c i ctx (r :: rs) k →
      ((∃ n, r = .val n ∧ e = .notPointer n ∧ w' = s.world) ∨
        (∃ o f, r = .ptr o ∧ env.resolve o = some f ∧ f s.world = (w', .error e))) →
      StepC env s tid th { s with
        world := w'
        calls := s.calls.modify c (Call.setErr i (some e))
        threads := s.threads.set tid ⟨th.job, .spawning c (i + 1) ctx rs k⟩
        log := s.log ++ [(tid, .refuse c i e)] }
  | spawn (c i ctx o rs k t w') : th.st = .spawning c i ctx (.ptr o :: rs) k →
      ((env.resolve o = none ∧ t = o ∧ w' = s.world) ∨
        (∃ f, env.resolve o = some f ∧ f s.world = (w', .ok t))) →
      StepC env s tid th { s with
        world := w'
        calls := s.calls.modify c (fun x => { x with live := x.live + 1 })
        threads := s.threads.set tid ⟨th.job, .spawning c (i + 1) ctx rs k⟩ ++
          [⟨some ⟨c, i, env.addr o, t, ctx⟩, .lookup⟩] }
  | ret (c k x) : th.st = .joining c k → s.calls[c]? = some x → x.live = 0 →
      StepC env s tid th { s with
        depth := s.depth - 1
        threads := s.threads.set tid ⟨th.job, .exec (k (errJoin x.errs))⟩
        log := s.log ++ [(tid, .ret c (errJoin x.errs))] }
  | setErrs (e j) : th.st = .setErrs e → th.job = some j →
      StepC env s tid th { s with
        calls := s.calls.modify j.call (Call.setErr j.idx e)
        threads := s.threads.set tid ⟨th.job, .setOut e⟩
        log := s.log ++ [(tid, .result j.call j.idx e)] }
  | setOut (e j o) : th.st = .setOut e → th.job = some j → s.ran j.key = some o →
      StepC env s tid th { s with
        ran := upd s.ran j.key (some ⟨e, o.opened, o.owner⟩)
        threads := s.threads.set tid ⟨th.job, .openGate e⟩ }
  | openGate (e j o) : th.st = .openGate e → th.job = some j → s.ran j.key = some o →
      StepC env s tid th { s with
        ran := upd s.ran j.key (some ⟨o.err, true, o.owner⟩)
        threads := s.threads.set tid ⟨th.job, .wgDone⟩ }
  | wgDone (j) : th.st = .wgDone → th.job = some j →
      StepC env s tid th { s with
        calls := s.calls.modify j.call (fun x => { x with live := x.live - 1 })
        threads := s.threads.set tid ⟨th.job, .done⟩ }

theorem step_cases {env : Env σ C} {s s' : State σ C} {tid : Nat} (h : step env s tid = some s') :
    ∃ th, s.threads[tid]? = some th ∧ StepC env s tid th s' := by
  unfold step at h
  split at h
  · cases h
  rename_i th hth
  refine ⟨th, hth, ?_⟩
  obtain ⟨job, st⟩ := th
  dsimp only at h
  split at h
  · split at h <;> (injection h with h; subst h)
    · rename_i hr; exact .lookupHit _ _ rfl rfl hr
    · rename_i hr; exact .lookupNew _ rfl rfl hr
  · split at h
    · split at h
      · injection h with h; subst h; rename_i hr ho; exact .wake _ _ rfl rfl hr ho
      · cases h
    · cases h
  · split at h
    · injection h with h; subst h; rename_i hr; exact .readOut _ _ rfl rfl hr
    · cases h
  · injection h with h; subst h; exact .act _ _ rfl
  · injection h with h; subst h
    rename_i ctx k
    have := StepC.callNil (env := env) (s := s) (tid := tid) (th := ⟨job, .exec (.call ctx [] k)⟩) ctx k rfl
    simpa [State.emit, State.setSt, State.addCall] using this
  · injection h with h; subst h
    exact .call _ _ _ _ rfl
  · injection h with h; subst h; exact .finish _ _ rfl rfl
  · injection h with h; subst h; exact .clientDone _ rfl rfl
  · injection h with h; subst h; exact .loopEnd _ _ _ _ rfl
  · injection h with h
    rename_i c i ctx r rs k
    unfold spawnOne at h
    split at h
    · subst h; exact .refuse (w' := s.world) _ _ _ _ _ _ _ rfl (Or.inl ⟨_, rfl, rfl, rfl⟩)
    · split at h
      · subst h; rename_i hr; exact .spawn (w' := s.world) _ _ _ _ _ _ _ rfl (Or.inl ⟨hr, rfl, rfl⟩)
      · rename_i f hr
        split at h
        · rename_i hf; subst h
          exact .refuse _ _ _ _ _ _ _ _ rfl (Or.inr ⟨_, f, rfl, hr, hf⟩)
        · rename_i hf; subst h
          exact .spawn _ _ _ _ _ _ _ _ rfl (Or.inr ⟨f, hr, hf⟩)
  · split at h
    · split at h
      · injection h with h; subst h; rename_i hc hl; exact .ret _ _ _ rfl hc hl
      · cases h
    · cases h
  · injection h with h; subst h; exact .setErrs _ _ rfl rfl
  · split at h
    · injection h with h; subst h; rename_i hr; exact .setOut _ _ _ rfl rfl hr
    · cases h
  · split at h
    · injection h with h; subst h; rename_i hr; exact .openGate _ _ _ rfl rfl hr
    · cases h
  · injection h with h; subst h; exact .wgDone _ rfl rfl
  · cases h

end Fab.Runner
