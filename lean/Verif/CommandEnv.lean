import Verif.Command

/-!
# C85: the environment of a Command

/repo/command.go:203: `cmd.Env = append(os.Environ(), c.Env...)`, and what os/exec makes of it when the process is started (`(*Cmd).environ` and `dedupEnvCase` of Go 1.20 on a
POSIX system; the text of a string is a list of characters).
-/

namespace Fab.Cmd

/-! ## Model -/

/-- The key of an entry, as `dedupEnvCase` finds it: what precedes the first '=', or the second one if the entry begins with '='; `none`: there is no '='. -/
def envKey (kv : Str) : Option Str :=
  match kv with
  | [] => none
  | c :: r => if c = '=' then some (if '=' ∈ r then c :: r.takeWhile (· ≠ '=') else []) else if '=' ∈ kv then some (kv.takeWhile (· ≠ '=')) else none

/-- The loop of `dedupEnvCase`, from the last entry to the first: the entries kept (in this order), and whether an entry with a NUL was dropped. -/
def dedupLoop (saw : List Str) : List Str → List Str × Bool
  | [] => ([], false)
  | kv :: l =>
    if '\x00' ∈ kv then ((dedupLoop saw l).1, true)
    else match envKey kv with
      | none => if kv ≠ [] then (kv :: (dedupLoop saw l).1, (dedupLoop saw l).2) else dedupLoop saw l
      | some k => if k ∈ saw then dedupLoop saw l else (kv :: (dedupLoop (k :: saw) l).1, (dedupLoop (k :: saw) l).2)

/-- `(*exec.Cmd).environ`: the environment given to the process; `none`: an error, and the process is not started.  `given` is `cmd.Env`, or nil; only if it is nil, `PWD` is set
to the directory of the command (`pwd`; the error of `filepath.Abs` is left out). -/
def execEnviron (own : List Str) (dir pwd : Str) (given : Option (List Str)) : Option (List Str) :=
  let env := match given with
    | some env => env
    | none => if dir = [] then own else own ++ ["PWD=".toList ++ pwd]
  let r := dedupLoop [] env.reverse
  if r.2 then none else some r.1.reverse

/-- The environment of the process that a `Command` starts, /repo/command.go:203. -/
def processEnv (os : OS) (pwd : Str) (c : Command) : Option (List Str) := execEnviron os.environ c.dir pwd (some (os.environ ++ c.env))

/-! ## Specification -/

/-- The entry sets variable `k`. -/
def Sets (k kv : Str) : Prop := ∃ v, kv = k ++ '=' :: v

/-- The value of variable `k` in a list of settings: that of the last entry that sets it. -/
def LastValue (l : List Str) (k v : Str) : Prop := ∃ a b, l = a ++ (k ++ '=' :: v) :: b ∧ ∀ kv ∈ b, ¬ Sets k kv

/-! ## Lemmas -/

theorem takeWhile_key {k v : Str} (hk : '=' ∉ k) : (k ++ '=' :: v).takeWhile (· ≠ '=') = k := by
  induction k with
  | nil => simp
  | cons c k ih =>
    have hc : c ≠ '=' := fun h => hk (by simp [h])
    rw [List.cons_append, List.takeWhile_cons, if_pos (by simpa using hc), ih (fun h => hk (by simp [h]))]

theorem key_split {kv : Str} (h : '=' ∈ kv) : ∃ v, kv = kv.takeWhile (· ≠ '=') ++ '=' :: v := by
  induction kv with
  | nil => simp at h
  | cons c r ih =>
    by_cases hc : c = '='
    · exact ⟨r, by simp [hc]⟩
    · obtain ⟨v, hv⟩ := ih (by simpa [Ne.symm hc] using h)
      refine ⟨v, ?_⟩
      rw [List.takeWhile_cons, if_pos (by simpa using hc), List.cons_append, ← hv]

theorem envKey_iff {k kv : Str} (hk : k ≠ []) (hk' : '=' ∉ k) : envKey kv = some k ↔ Sets k kv := by
  constructor
  · intro h
    unfold envKey at h
    split at h
    · cases h
    · rename_i c r
      split at h
      · rename_i hc
        exfalso
        split at h
        · cases h; exact hk' (by simp [hc])
        · cases h; exact hk rfl
      · split at h
        · rename_i hm
          cases h
          exact key_split hm
        · cases h
  · rintro ⟨v, rfl⟩
    cases k with
    | nil => exact absurd rfl hk
    | cons c k =>
      have hc : c ≠ '=' := fun h => hk' (by simp [h])
      have := takeWhile_key (v := v) hk'
      simp only [envKey, List.cons_append, if_neg hc]
      rw [if_pos (by simp)]
      rw [List.cons_append] at this
      rw [this]

theorem dedup_sub (l : List Str) (saw : List Str) : ∀ kv ∈ (dedupLoop saw l).1, kv ∈ l := by
  induction l generalizing saw with
  | nil => simp [dedupLoop]
  | cons x l ih =>
    intro kv h
    unfold dedupLoop at h
    split at h
    · exact List.mem_cons_of_mem _ (ih _ _ h)
    · split at h
      · split at h
        · rcases List.mem_cons.1 h with rfl | h
          · simp
          · exact List.mem_cons_of_mem _ (ih _ _ h)
        · exact List.mem_cons_of_mem _ (ih _ _ h)
      · split at h
        · exact List.mem_cons_of_mem _ (ih _ _ h)
        · rcases List.mem_cons.1 h with rfl | h
          · simp
          · exact List.mem_cons_of_mem _ (ih _ _ h)

theorem dedup_nul (l : List Str) (saw : List Str) : (dedupLoop saw l).2 = true ↔ ∃ kv ∈ l, '\x00' ∈ kv := by
  induction l generalizing saw with
  | nil => simp [dedupLoop]
  | cons x l ih =>
    unfold dedupLoop
    by_cases hx : '\x00' ∈ x
    · rw [if_pos hx]; simp [hx]
    · rw [if_neg hx]
      split
      · split <;> simp [ih, hx]
      · split <;> simp [ih, hx]

/-- Of the entries for `k`, the first of the reversed list is kept (unless `k` was seen already), and no other. -/
theorem dedup_key {k : Str} (hk : k ≠ []) (hk' : '=' ∉ k) (l : List Str) (hn : ∀ kv ∈ l, '\x00' ∉ kv) (saw : List Str) :
    (dedupLoop saw l).1.filter (fun kv => envKey kv = some k) = if k ∈ saw then [] else (l.find? (fun kv => envKey kv = some k)).toList := by
  induction l generalizing saw with
  | nil => simp [dedupLoop]
  | cons x l ih =>
    have ih := fun saw => ih (fun kv h => hn kv (by simp [h])) saw
    unfold dedupLoop
    rw [if_neg (hn x (by simp))]
    cases hx : envKey x with
    | none =>
      dsimp only
      split
      · rw [List.filter_cons, if_neg (by simp [hx]), ih, List.find?_cons]
        simp [hx]
      · rw [ih, List.find?_cons]; simp [hx]
    | some k' =>
      dsimp only
      by_cases hs : k' ∈ saw
      · rw [if_pos hs, ih]
        by_cases he : k' = k
        · subst he; simp [hs]
        · rw [List.find?_cons]; simp [hx, he]
      · rw [if_neg hs]
        dsimp only
        by_cases he : k' = k
        · subst he
          rw [List.filter_cons, if_pos (by simp [hx]), ih, if_neg hs, List.find?_cons]
          simp [hx]
        · rw [List.filter_cons, if_neg (by simp [hx, he]), ih, List.find?_cons]
          simp [hx, he, Ne.symm he]

theorem find_reverse {l : List Str} {k v : Str} (hk : k ≠ []) (hk' : '=' ∉ k) :
    l.reverse.find? (fun kv => envKey kv = some k) = some (k ++ '=' :: v) ↔ LastValue l k v := by
  rw [List.find?_eq_some_iff_append]
  constructor
  · rintro ⟨-, a, b, h, hb⟩
    refine ⟨b.reverse, a.reverse, ?_, ?_⟩
    · rw [← List.reverse_reverse l, h]; simp
    · intro kv hkv hs
      have := hb kv (List.mem_reverse.1 hkv)
      rw [(envKey_iff hk hk').2 hs] at this
      simp at this
  · rintro ⟨a, b, rfl, hb⟩
    refine ⟨by simpa using (envKey_iff hk hk').2 ⟨v, rfl⟩, b.reverse, a.reverse, by simp, ?_⟩
    intro kv hkv
    have := hb kv (List.mem_reverse.1 hkv)
    rw [← envKey_iff hk hk'] at this
    simpa using this

theorem lastValue_append {l l' : List Str} {k v : Str} : LastValue (l ++ l') k v ↔ LastValue l' k v ∨ (∀ kv ∈ l', ¬ Sets k kv) ∧ LastValue l k v := by
  constructor
  · rintro ⟨a, b, h, hb⟩
    rcases List.append_eq_append_iff.1 h with ⟨c, rfl, rfl⟩ | ⟨c, rfl, hc⟩
    · exact .inl ⟨c, b, rfl, hb⟩
    · cases c with
      | nil => exact .inl ⟨[], b, by simpa using hc.symm, hb⟩
      | cons x c =>
        rw [List.cons_append, List.cons.injEq] at hc
        obtain ⟨rfl, rfl⟩ := hc
        exact .inr ⟨fun kv h => hb kv (by simp [h]), a, c, rfl, fun kv h => hb kv (by simp [h])⟩
  · rintro (⟨a, b, rfl, hb⟩ | ⟨h, a, b, rfl, hb⟩)
    · exact ⟨l ++ a, b, by simp, hb⟩
    · refine ⟨a, b ++ l', by simp, fun kv hkv => ?_⟩
      rcases List.mem_append.1 hkv with hkv | hkv
      · exact hb kv hkv
      · exact h kv hkv

/-! ## Theorems -/

/-- **C85.** The process sees variable `k` with value `v` exactly if that is the last setting of `k` in the command's `Env`, or `Env` does not set `k` and fab's own environment has
it so (its last setting, should it be there twice). -/
theorem C85_variables (os : OS) (pwd : Str) (c : Command) {env : List Str} (h : processEnv os pwd c = some env) {k : Str} (hk : k ≠ []) (hk' : '=' ∉ k) (v : Str) :
    k ++ '=' :: v ∈ env ↔ LastValue c.env k v ∨ (∀ kv ∈ c.env, ¬ Sets k kv) ∧ LastValue os.environ k v := by
  unfold processEnv execEnviron at h
  dsimp only at h
  split at h
  · cases h
  · rename_i hn
    cases h
    have hn' : ∀ kv ∈ (os.environ ++ c.env).reverse, '\x00' ∉ kv := fun kv hkv hnul => hn ((dedup_nul _ _).2 ⟨kv, hkv, hnul⟩)
    have := dedup_key hk hk' _ hn' []
    rw [← lastValue_append, ← find_reverse hk hk', List.mem_reverse]
    rw [if_neg (by simp)] at this
    have hm : k ++ '=' :: v ∈ (dedupLoop [] (os.environ ++ c.env).reverse).1 ↔
        k ++ '=' :: v ∈ (dedupLoop [] (os.environ ++ c.env).reverse).1.filter (fun kv => envKey kv = some k) := by
      rw [List.mem_filter]
      simp [(envKey_iff hk hk').2 ⟨v, rfl⟩]
    rw [hm, this, Option.mem_toList]

/-- **C85.** Each variable is there at most once, so that all programs find the same value. -/
theorem C85_once (os : OS) (pwd : Str) (c : Command) {env : List Str} (h : processEnv os pwd c = some env) {k : Str} (hk : k ≠ []) (hk' : '=' ∉ k) :
    ∀ i j (hi : i < env.length) (hj : j < env.length), Sets k env[i] → Sets k env[j] → i = j := by
  unfold processEnv execEnviron at h
  dsimp only at h
  split at h
  · cases h
  · rename_i hn
    cases h
    have hn' : ∀ kv ∈ (os.environ ++ c.env).reverse, '\x00' ∉ kv := fun kv hkv hnul => hn ((dedup_nul _ _).2 ⟨kv, hkv, hnul⟩)
    have := dedup_key hk hk' _ hn' []
    rw [if_neg (by simp)] at this
    generalize dedupLoop [] (os.environ ++ c.env).reverse = r at this ⊢
    have hl : (r.1.reverse.filter (fun kv => envKey kv = some k)).length ≤ 1 := by
      rw [List.filter_reverse, List.length_reverse, this]
      cases (List.find? (fun kv => decide (envKey kv = some k)) (os.environ ++ c.env).reverse) <;> simp
    generalize r.1.reverse = l at hl ⊢
    intro i j hi hj si sj
    rw [← envKey_iff hk hk'] at si sj
    clear this
    by_contra hne
    have key : ∀ i j : Nat, ∀ (hi : i < l.length) (hj : j < l.length), envKey l[i] = some k → envKey l[j] = some k → i < j → False := by
      intro i j hi hj si sj hlt
      have h1 : l = l.take j ++ l.drop j := (List.take_append_drop j l).symm
      rw [h1, List.filter_append, List.length_append] at hl
      have h2 : 0 < ((l.take j).filter (fun kv => envKey kv = some k)).length := by
        rw [List.length_pos_iff_exists_mem]
        refine ⟨l[i], List.mem_filter.2 ⟨?_, by simpa using si⟩⟩
        rw [List.mem_iff_getElem]
        exact ⟨i, by simp; omega, by simp⟩
      have h3 : 0 < ((l.drop j).filter (fun kv => envKey kv = some k)).length := by
        rw [List.length_pos_iff_exists_mem]
        refine ⟨l[j], List.mem_filter.2 ⟨?_, by simpa using sj⟩⟩
        rw [List.mem_iff_getElem]
        exact ⟨0, by simp; omega, by simp⟩
      omega
    rcases Nat.lt_or_gt_of_ne hne with h | h
    · exact key i j hi hj si sj h
    · exact key j i hj hi sj si h

/-- **C85.** Nothing is in the environment that is not in fab's or in `Env`. -/
theorem C85_nothing_else (os : OS) (pwd : Str) (c : Command) {env : List Str} (h : processEnv os pwd c = some env) : ∀ kv ∈ env, kv ∈ os.environ ∨ kv ∈ c.env := by
  unfold processEnv execEnviron at h
  dsimp only at h
  split at h
  · cases h
  · cases h
    intro kv hkv
    have := dedup_sub _ _ kv (List.mem_reverse.1 hkv)
    simpa [or_comm] using this

/-- **C85.** The process is refused its environment exactly if an entry contains a NUL. -/
theorem C85_refused (os : OS) (pwd : Str) (c : Command) : processEnv os pwd c = none ↔ ∃ kv, (kv ∈ os.environ ∨ kv ∈ c.env) ∧ '\x00' ∈ kv := by
  unfold processEnv execEnviron
  dsimp only
  rw [ite_eq_left_iff]
  simp only [reduceCtorEq, imp_false, not_not, dedup_nul, List.mem_reverse, List.mem_append]

/-- **C85.** This is the environment that `Run` (C36) asks for. -/
theorem C85_run (os : OS) (ctx : Ctx) (pwd : Str) (c : Command) (sp : Spawn) (h : Eff.exec sp ∈ (run os ctx c).trace) :
    execEnviron os.environ sp.dir pwd (some sp.env) = processEnv os pwd c := by
  obtain ⟨-, -, -, -, -, -, -, -, -, hdir, henv, -⟩ := run_exec h (parseFile_spec _) (parseFile_spec _)
  rw [hdir, henv]; rfl

/-- **C85, finding.** os/exec sets `PWD` to the directory of the process, but only if `cmd.Env` is nil, which it never is here: with `Dir`, the process has the `PWD` of fab
itself, which is another directory. -/
theorem C85_finding_pwd (os : OS) (pwd own : Str) (c : Command) {env : List Str} (h : processEnv os pwd c = some env) (hc : ∀ kv ∈ c.env, ¬ Sets "PWD".toList kv)
    (ho : LastValue os.environ "PWD".toList own) (v : Str) : "PWD".toList ++ '=' :: v ∈ env ↔ v = own := by
  rw [C85_variables os pwd c h (by decide) (by decide)]
  constructor
  · rintro (⟨a, b, he, -⟩ | ⟨-, hv⟩)
    · exact absurd ⟨v, rfl⟩ (hc _ (by rw [he]; simp))
    · have h1 := (find_reverse (by decide) (by decide)).2 hv
      have h2 := (find_reverse (by decide) (by decide)).2 ho
      rw [h1] at h2
      simpa using h2
  · rintro rfl
    exact .inr ⟨hc, ho⟩

/-! ## Concrete cases -/

/-- fab's environment. -/
def envOS : OS := { exOS with environ := ["A=1".toList, "PWD=/top".toList, "B=2".toList] }

-- `Env` replaces a variable, adds one, and keeps the others
example : processEnv envOS [] { shell := "x".toList, env := ["A=3".toList, "C=4".toList, "A=5".toList] } =
    some ["PWD=/top".toList, "B=2".toList, "C=4".toList, "A=5".toList] := by decide +kernel
example : LastValue ["A=3".toList, "C=4".toList, "A=5".toList] "A".toList "5".toList :=
  ⟨["A=3".toList, "C=4".toList], [], by decide, by simp⟩
-- the hypotheses of the finding
example : LastValue envOS.environ "PWD".toList "/top".toList ∧
    processEnv envOS "/top/sub".toList { shell := "x".toList, dir := "sub".toList } = some envOS.environ := by
  refine ⟨⟨["A=1".toList], ["B=2".toList], by decide, ?_⟩, by decide +kernel⟩
  intro kv hkv hs
  rw [← envKey_iff (by decide) (by decide)] at hs
  revert hs; revert kv
  decide
-- a command without settings of its own would have got it
example : execEnviron envOS.environ "sub".toList "/top/sub".toList none = some ["A=1".toList, "B=2".toList, "PWD=/top/sub".toList] := by decide +kernel
example : processEnv envOS [] { shell := "x".toList, env := [['A', '=', '\x00']] } = none := by decide +kernel

end Fab.Cmd
