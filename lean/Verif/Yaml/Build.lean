import Verif.Yaml.Outputs
import Verif.Yaml.Load
import Verif.Files.Model
import Verif.Runner.Whole
import Mathlib.Order.WellFounded
import Mathlib.Data.Fintype.Card
import Mathlib.Order.RelClasses
import Mathlib.Data.Fintype.Order

/-!
# C76: building a project that is described in YAML

The objects that reading YAML files creates (`Verif/Yaml`), run by the concurrent runner (`Verif/Runner`).
-/

namespace Fab.Yaml
open Path Cmd Files
open Runner (Proc TRef Env Ev State Reach allBody seqBody argBody nameBody)

/-! ## Model -/

/-- What the model leaves open about the targets of a project.
* `body`: what the `Run` methods of the other targets do (commands, Clean, targets made by functions of others).  They do not
  run targets.
* `note o`: a name remembers what it stands for (yaml.go:109; only the JSON form can tell the difference).
* `typ`, `desc`: the name of the type of a target and its JSON form, which go into the hashes of Files targets. -/
structure Own (ρ : Type) where
  body : Nat → Ctx → P ρ
  note : Nat → ρ → ρ
  typ : Nat → Str
  desc : Nat → World ρ → Option Json.J

/-- The process does not run targets. -/
def NoRun {σ C : Type} : Proc σ C → Prop
  | .ret _ => True
  | .act _ k => ∀ w, NoRun (k w)
  | .call .. => False

/-- The process sees the given registry of files: that which reading the YAML files has left (files.go:21; nothing changes it
during a build). -/
def withReg {ρ : Type} (reg : GoMap Str Nat) : P ρ → P ρ
  | .ret e => .ret e
  | .act f k => .act f fun w => withReg reg (k { w with reg := reg })
  | .call ctx refs k => .call ctx refs fun e => withReg reg (k e)

/-- `resolve` of a reference by name (yaml.go:100-113).  The registry does not change during a build, so that the remembered
result and a new lookup are the same. -/
def resolveName {ρ : Type} (own : Own ρ) (s : St) (o : Nat) (name : Str) (w : World ρ) : World ρ × Except Runner.Err Nat :=
  match (s.reg.target name).1 with
  | none => (w, .error (.unresolved o))
  | some t => ({ w with rest := own.note o w.rest }, .ok t)

/-- The targets after the YAML files were read, as `Controller.Run` sees them: all are pointers to distinct objects
(all.go:32-34, seq.go:33-40, argtarg.go:41-44, files.go:122-160, yaml.go:100-121). -/
def buildEnv {ρ : Type} (hex : Bytes → Str) (sum : Str → Str) (own : Own ρ) (s : St) : Env (World ρ) Ctx where
  addr o := o
  resolve o := match s.heap[o]? with
    | some (.ref name) => some (resolveName own s o name)
    | _ => none
  body o ctx := match s.heap[o]? with
    | some (.all ts) => allBody (ts.map .ptr) ctx
    | some (.seq ts) => seqBody (ts.map .ptr) ctx
    | some (.arg t args) => argBody (.ptr t) (args.map String.ofList) ctx
    | some (.files t ins outs) => withReg s.filesReg (filesBody hex sum ⟨.ptr t, own.typ t, own.desc t, ins, outs⟩ ctx)
    | some (.ref name) => nameBody (resolveName own s o name) ctx
    | _ => own.body o ctx

/-! ## Specification -/

/-- Target `x` cannot succeed without target `y`: `y` is an element of `x`; `y` makes an input file of `x`; `x` is a name
for `y`. -/
inductive Needs (s : St) (x : Nat) : Nat → Prop
  | all {ts y} : s.heap[x]? = some (.all ts) → y ∈ ts → Needs s x y
  | seq {ts y} : s.heap[x]? = some (.seq ts) → y ∈ ts → Needs s x y
  | arg {y args} : s.heap[x]? = some (.arg y args) → Needs s x y
  | input {t ins outs i y} : s.heap[x]? = some (.files t ins outs) → i ∈ ins → findInFilesRegistry s.filesReg i = some y → Needs s x y
  | name {name y} : s.heap[x]? = some (.ref name) → (s.reg.target name).1 = some y → Needs s x y

/-- Target `x` may run target `y`: it needs it, or it is a Files target that runs `y` unless its outputs are up to date. -/
inductive Uses (s : St) (x : Nat) : Nat → Prop
  | needs {y} : Needs s x y → Uses s x y
  | files {y ins outs} : s.heap[x]? = some (.files y ins outs) → Uses s x y

/-- Target `x` runs target `y` whatever happens. -/
inductive Begins (s : St) (x : Nat) : Nat → Prop
  | all {ts y} : s.heap[x]? = some (.all ts) → y ∈ ts → Begins s x y
  | seq {ts y} : s.heap[x]? = some (.seq (y :: ts)) → Begins s x y
  | arg {y args} : s.heap[x]? = some (.arg y args) → Begins s x y
  | input {t ins outs i y} : s.heap[x]? = some (.files t ins outs) → i ∈ ins → findInFilesRegistry s.filesReg i = some y → Begins s x y
  | name {name y} : s.heap[x]? = some (.ref name) → (s.reg.target name).1 = some y → Begins s x y

/-- The target that is run for `o`: a name stands for the target registered under it, everything else for itself. -/
def Stands (s : St) (o t : Nat) : Prop :=
  (∃ name, s.heap[o]? = some (.ref name) ∧ (s.reg.target name).1 = some t) ∨ (∀ name, s.heap[o]? ≠ some (.ref name)) ∧ t = o

/-- What a build of the targets `os` may run. -/
inductive MayRun (s : St) (os : List Nat) : Nat → Prop
  | arg {o t} : o ∈ os → Stands s o t → MayRun s os t
  | dep {x o t} : MayRun s os x → Uses s x o → Stands s o t → MayRun s os t

/-- What a build of the targets `os` cannot succeed without: those targets, what is needed for what they stand for, and so on. -/
inductive Wanted (s : St) (os : List Nat) : Nat → Prop
  | arg {o} : o ∈ os → Wanted s os o
  | dep {x t o} : Wanted s os x → Stands s x t → Needs s t o → Wanted s os o

/-- The outcome of reading YAML files, starting with a new controller. -/
inductive Loaded (L : Lib) : St → Prop
  | empty : Loaded L St.empty
  | file {n dir s s'} : Loaded L s → EndsIn (readYAMLFile L n dir s) s' → Loaded L s'

/-! ## Objects refer to older objects -/

/-- the objects inside an object -/
def Obj.parts : Obj → List Nat
  | .all ts => ts
  | .seq ts => ts
  | .arg t _ => [t]
  | .files t _ _ => [t]
  | _ => []

structure Tidy (s : St) : Prop where
  parts : ∀ (i : Nat) (o : Obj), s.heap[i]? = some o → ∀ c ∈ o.parts, c < i
  regd : ∀ q o, (s.reg.target q).1 = some o → o < s.heap.length
  made : ∀ q o, s.filesReg.get q = some o → o < s.heap.length

/-- The outcome of a computation from `s`. -/
def Td {α : Type} (P : α → St → Prop) (s : St) : R α → Prop
  | .ok a s' => Tidy s' ∧ s.heap.length ≤ s'.heap.length ∧ P a s'
  | .err _ s' => Tidy s' ∧ s.heap.length ≤ s'.heap.length
  | .more => True

/-- the number of an object -/
def IsObj (a : Nat) (s : St) : Prop := a < s.heap.length
def AreObj (as : List Nat) (s : St) : Prop := ∀ a ∈ as, a < s.heap.length

theorem Td.bind {α β : Type} {P : α → St → Prop} {Q : β → St → Prop} {s : St} {r : R α} {k : α → St → R β} (h : Td P s r)
    (hk : ∀ a s1, r = .ok a s1 → Tidy s1 → s.heap.length ≤ s1.heap.length → P a s1 → Td Q s1 (k a s1)) : Td Q s (r.bind k) := by
  cases r with
  | ok a s1 =>
    obtain ⟨h1, h2, h3⟩ := h
    have h4 := hk a s1 rfl h1 h2 h3
    show Td Q s (k a s1)
    cases hr : k a s1 with
    | ok b s2 => rw [hr] at h4; exact ⟨h4.1, Nat.le_trans h2 h4.2.1, h4.2.2⟩
    | err e s2 => rw [hr] at h4; exact ⟨h4.1, Nat.le_trans h2 h4.2⟩
    | more => trivial
  | err e s1 => exact h
  | more => trivial

theorem Td.lift {α : Type} {s : St} {x : Except YErr α} (h : Tidy s) : Td (fun _ s' => s' = s) s (lift x s) := by
  cases x
  · exact ⟨h, Nat.le_refl _⟩
  · exact ⟨h, Nat.le_refl _, rfl⟩
theorem Td.err {α : Type} {P : α → St → Prop} {s : St} {e} (h : Tidy s) : Td P s (.err e s) := ⟨h, Nat.le_refl _⟩
theorem Td.ok {α : Type} {P : α → St → Prop} {s : St} {a : α} (h : Tidy s) (hp : P a s) : Td P s (.ok a s) := ⟨h, Nat.le_refl _, hp⟩

theorem Td.alloc {s : St} {o : Obj} (h : Tidy s) (hp : AreObj o.parts s) : Td IsObj s (alloc o s) := by
  refine ⟨⟨?_, ?_, ?_⟩, ?_, ?_⟩
  · intro i o' hi c hc
    rcases getElem?_snoc hi with h1 | ⟨rfl, rfl⟩
    · exact h.parts i o' h1 c hc
    · exact hp c hc
  · intro q o' ho
    have := h.regd q o' ho
    simp; omega
  · intro q o' ho
    have := h.made q o' ho
    simp; omega
  · simp
  · simp [IsObj]

theorem Td.register {s : St} {q d : Str} {o : Nat} (h : Tidy s) (ho : IsObj o s) : Tidy (register q d o s) := by
  refine ⟨h.parts, ?_, h.made⟩
  intro q' o' h1
  have h2 : (((s.reg.register id q d (.ptr o)).1).target q').1 = some o' := h1
  unfold Registry.Reg.register Registry.targetAddr Registry.Reg.target at h2
  dsimp only at h2
  rw [GoMap.get_put] at h2
  split at h2
  · rename_i t ht
    split at ht
    · cases ht; cases h2; exact ho
    · cases h2; exact h.regd q' t.target (by unfold Registry.Reg.target; rw [ht])
  · cases h2

theorem mapT_td {yt : Node → Str → St → R Nat} (h : ∀ n d s, Tidy s → Td IsObj s (yt n d s)) (dir : Str) (cs : List Node) (s : St)
    (hs : Tidy s) : Td AreObj s (mapT yt dir cs s) := by
  induction cs generalizing s with
  | nil => exact Td.ok hs (by simp [AreObj])
  | cons c cs ih =>
    refine (h c dir s hs).bind fun i s1 _ t1 _ hi => ?_
    refine (ih s1 t1).bind fun is s2 _ t2 hl his => Td.ok t2 ?_
    intro a ha
    rcases List.mem_cons.1 ha with rfl | ha
    · exact Nat.lt_of_lt_of_le hi hl
    · exact his a ha

theorem allocCmds_td (mk : Str → Bool → Command) (first : Bool) (shs : List Str) (s : St) (hs : Tidy s) :
    Td AreObj s (allocCmds mk first shs s) := by
  induction shs generalizing first s with
  | nil => exact Td.ok hs (by simp [AreObj])
  | cons sh shs ih =>
    refine (Td.alloc hs (by simp [AreObj, Obj.parts])).bind fun i s1 _ t1 _ hi => ?_
    refine (ih false s1 t1).bind fun is s2 _ t2 hl his => Td.ok t2 ?_
    intro a ha
    rcases List.mem_cons.1 ha with rfl | ha
    · exact Nat.lt_of_lt_of_le hi hl
    · exact his a ha

theorem commandDecoder_td (L : Lib) (node : Node) (dir : Str) (s : St) (hs : Tidy s) : Td IsObj s (commandDecoder L node dir s) := by
  unfold commandDecoder
  split
  · exact Td.err hs
  refine (Td.lift hs).bind fun c s1 _ t1 _ _ => ?_
  refine (Td.lift t1).bind fun args s1 _ t1 _ _ => ?_
  refine (Td.lift t1).bind fun env s1 _ t1 _ _ => ?_
  have hsingle : Td IsObj s1 (match c.shell.kind with
      | .zero => alloc (.command (toTarget L c [] dir args env false)) s1
      | .scalar => alloc (.command (toTarget L c c.shell.value dir args env false)) s1
      | _ => .err .badKind s1) := by
    split
    · exact Td.alloc t1 (by simp [AreObj, Obj.parts])
    · exact Td.alloc t1 (by simp [AreObj, Obj.parts])
    · exact Td.err t1
  dsimp only
  split
  · split
    · exact hsingle
    · exact Td.err t1
    · exact (allocCmds_td _ _ _ _ t1).bind fun ids s _ t _ h => Td.alloc t h
  · exact hsingle

theorem newFiles_td {t : Nat} {ins outs : List Str} {ac : Bool} {s : St} (hs : Tidy s) (ht : IsObj t s) : Td IsObj s (newFiles t ins outs ac s) := by
  refine ⟨⟨?_, ?_, ?_⟩, ?_, ?_⟩
  · intro i o' hi c hc
    rcases getElem?_snoc hi with h1 | ⟨rfl, rfl⟩
    · exact hs.parts i o' h1 c hc
    · simp [Obj.parts] at hc; subst hc; exact ht
  · intro q o' ho
    have := hs.regd q o' ho
    simp; omega
  · intro q o' ho
    have ho : (outs.foldl (fun r o => r.put o s.heap.length) s.filesReg).get q = some o' := ho
    rw [fold_put_get] at ho
    split at ho
    · cases ho; simp
    · have := hs.made q o' ho
      simp; omega
  · simp
  · simp [IsObj]

theorem builtin_td (L : Lib) {yt : Node → Str → St → R Nat} (h : ∀ n d s, Tidy s → Td IsObj s (yt n d s)) (tag : Str) (node : Node) (dir : Str)
    (s : St) (hs : Tidy s) : Td IsObj s (builtin L yt tag node dir s) := by
  have hdeps : ∀ t deps s, Tidy s → Td IsObj s ((yt t dir s).bind fun t s => (mapT yt dir deps s).bind fun ids s =>
      (alloc (.all ids) s).bind fun a s => alloc (.seq [a, t]) s) := fun t deps s hs =>
    (h _ _ _ hs).bind fun t s _ t1 _ ht =>
      (mapT_td h _ _ _ t1).bind fun ids s2 _ t2 hl hids =>
        (Td.alloc (o := .all ids) t2 hids).bind fun a s3 _ t3 hl' ha => Td.alloc t3 (by
          intro c hc
          simp only [Obj.parts, List.mem_cons, List.not_mem_nil, or_false] at hc
          unfold IsObj at ha ht
          rcases hc with rfl | rfl <;> omega)
  unfold builtin
  split
  · split
    · exact Td.err hs
    · exact (mapT_td h _ _ _ hs).bind fun _ _ _ t _ h => Td.alloc t h
  split
  · split
    · exact Td.err hs
    · exact (mapT_td h _ _ _ hs).bind fun _ _ _ t _ h => Td.alloc t h
  split
  · split
    · split
      · exact Td.err hs
      · exact hdeps _ _ _ hs
    · exact (Td.lift hs).bind fun d s1 _ t1 _ _ => hdeps _ _ _ t1
    · exact Td.err hs
  split
  · split
    · exact Td.err hs
    · split
      · exact Td.err hs
      · exact (h _ _ _ hs).bind fun t s1 _ t1 _ ht => (Td.lift t1).bind fun _ s2 _ t2 hl _ => Td.alloc t2 (by
          intro c hc; simp [Obj.parts] at hc; subst hc; exact Nat.lt_of_lt_of_le ht hl)
  split
  · split
    · exact Td.err hs
    · refine (Td.lift hs).bind fun f s1 _ t1 _ _ => ?_
      refine (h _ _ _ t1).bind fun t s2 _ t2 _ ht => ?_
      refine (Td.lift t2).bind fun ins s3 _ t3 l3 _ => ?_
      refine (Td.lift t3).bind fun outs s4 _ t4 l4 _ => ?_
      exact newFiles_td t4 (Nat.lt_of_lt_of_le ht (Nat.le_trans l3 l4))
  split
  · split
    · exact (Td.lift hs).bind fun d s _ t _ _ => (Td.lift t).bind fun _ _ _ t _ _ => Td.alloc t (by simp [AreObj, Obj.parts])
    · exact (Td.lift hs).bind fun _ _ _ t _ _ => Td.alloc t (by simp [AreObj, Obj.parts])
    · exact Td.err hs
  split
  · exact commandDecoder_td _ _ _ _ hs
  · exact Td.err hs

theorem readItems_td {yt : Node → Str → St → R Nat} (h : ∀ n d s, Tidy s → Td IsObj s (yt n d s)) (dir : Str) :
    ∀ (k : Nat) (c : List Node), c.length ≤ k → ∀ (saw : Bool) (s : St), Tidy s → Td (fun _ _ => True) s (readItems yt dir c saw s)
  | _, [], _, _, _, hs => by rw [readItems]; exacts [Td.ok hs trivial, by simp]
  | _, [_], _, _, _, hs => by rw [readItems]; exacts [Td.ok hs trivial, by simp]
  | 0, _ :: _ :: _, hk, _, _, _ => by simp at hk
  | k + 1, key :: val :: rest, hk, saw, s, hs => by
    have ih := readItems_td h dir k rest (by simp at hk; omega)
    rw [readItems]
    split
    · exact Td.err hs
    split
    · split
      · exact Td.err hs
      split
      · exact Td.err hs
      · exact ih _ _ hs
    · split
      · exact Td.err hs
      · refine (h _ _ _ hs).bind fun o s1 _ t1 _ ho => ?_
        exact ih saw (register (join [dir, key.value]) (docOf key) o s1) (Td.register t1 ho)

theorem readDoc_td {yt : Node → Str → St → R Nat} (h : ∀ n d s, Tidy s → Td IsObj s (yt n d s)) (doc : Option Node) (dir : Str) (s : St)
    (hs : Tidy s) : Td (fun _ _ => True) s (readDoc yt doc dir s) := by
  unfold readDoc
  split
  · exact Td.err hs
  · split
    · exact Td.err hs
    · split
      · split
        · exact Td.err hs
        · split
          · exact Td.err hs
          · refine (readItems_td h dir _ _ (Nat.le_refl _) _ _ hs).bind fun saw s1 _ t1 _ _ => ?_
            by_cases hc : dir ≠ [] ∧ saw = false
            · rw [if_pos hc]; exact Td.err t1
            · rw [if_neg hc]; exact Td.ok t1 trivial
      · exact Td.err hs

theorem yaml_td (L : Lib) : ∀ n, (∀ node d s, Tidy s → Td IsObj s (yamlTarget L n node d s)) ∧
    ∀ d s, Tidy s → Td (fun _ _ => True) s (readYAMLFile L n d s)
  | 0 => ⟨fun _ _ _ _ => by rw [yamlTarget]; trivial, fun _ _ _ => by rw [readYAMLFile]; trivial⟩
  | n + 1 => by
    obtain ⟨h1, h2⟩ := yaml_td L n
    constructor
    · intro node d s hs
      rw [yamlTarget]
      unfold targetStep
      dsimp only
      split
      · split
        · exact (Td.lift hs).bind fun _ _ _ t _ _ => Td.alloc t (by simp [AreObj, Obj.parts])
        · exact builtin_td L h1 _ _ _ _ hs
      · split
        · exact Td.err hs
        · unfold reference
          split
          · exact Td.alloc hs (by simp [AreObj, Obj.parts])
          · split
            · exact Td.err hs
            · split
              · exact Td.alloc hs (by simp [AreObj, Obj.parts])
              · split
                · rename_i o ho
                  exact Td.ok hs (hs.regd _ _ ho)
                · refine (h2 _ _ hs).bind fun _ s1 _ t1 _ _ => ?_
                  split
                  · rename_i o ho
                    exact Td.ok t1 (t1.regd _ _ ho)
                  · exact Td.err t1
    · intro d s hs
      rw [readYAMLFile]
      unfold fileStep
      dsimp only
      have t1 : Tidy { s with reads := s.reads ++ [join [L.top, d]] } := ⟨hs.parts, hs.regd, hs.made⟩
      split
      · exact ⟨t1, Nat.le_refl _⟩
      · exact ⟨t1, Nat.le_refl _⟩
      · rename_i doc hdoc
        split
        · exact ⟨t1, Nat.le_refl _⟩
        · rename_i r hr
          exact readDoc_td h1 doc _ _ t1

theorem Loaded.tidy {L : Lib} {s : St} (h : Loaded L s) : Tidy s := by
  induction h with
  | empty =>
    refine ⟨?_, ?_, ?_⟩
    · intro i o h; simp [St.empty] at h
    · intro q o h; cases h
    · intro q o h; cases h
  | @file n dir s s' _ he ih =>
    have := (yaml_td L n).2 dir s ih
    rcases he with ⟨a, ha⟩ | ⟨e, he⟩
    · rw [ha] at this; exact this.1
    · rw [he] at this; exact this.1

/-! ## The bodies -/

section
variable {ρ : Type} {hex : Bytes → Str} {sum : Str → Str} {own : Own ρ} {s : St}

theorem canRun_stands {o t : Nat} (h : (buildEnv hex sum own s).CanRun o t) : Stands s o t := by
  unfold Env.CanRun buildEnv at h
  unfold Stands
  dsimp only at h
  split at h
  · rename_i name hn
    rcases h with ⟨h1, -⟩ | ⟨f, w, h1, h2⟩
    · cases h1
    · cases h1
      simp only [resolveName] at h2
      split at h2
      · cases h2
      · rename_i t' ht; cases h2; exact .inl ⟨name, hn, ht⟩
  · rename_i hn
    rcases h with ⟨-, rfl⟩ | ⟨f, w, h1, -⟩
    · exact .inr ⟨hn, rfl⟩
    · cases h1

theorem stands_canRun (w : World ρ) {o t : Nat} (h : Stands s o t) : (buildEnv hex sum own s).CanRun o t := by
  unfold Env.CanRun buildEnv
  dsimp only
  rcases h with ⟨name, h1, h2⟩ | ⟨h1, rfl⟩
  · rw [h1]
    exact .inr ⟨_, w, rfl, by simp [resolveName, h2]⟩
  · refine .inl ⟨?_, rfl⟩
    split
    · rename_i name hn; exact absurd hn (h1 name)
    · rfl

theorem Stands.uniq {o t t' : Nat} (h : Stands s o t) (h' : Stands s o t') : t = t' := by
  rcases h with ⟨n, h1, h2⟩ | ⟨h1, rfl⟩ <;> rcases h' with ⟨n', h1', h2'⟩ | ⟨h1', rfl⟩
  · rw [h1] at h1'; cases h1'; rw [h2] at h2'; cases h2'; rfl
  · exact absurd h1 (h1' n)
  · exact absurd h1' (h1 n')
  · rfl

/-- the targets that make the inputs -/
def pres (reg : GoMap Str Nat) (ins : List Str) : List TRef := ins.flatMap fun i => ((findInFilesRegistry reg i).map TRef.ptr).toList

theorem mem_pres {reg : GoMap Str Nat} {ins : List Str} {y : Nat} : TRef.ptr y ∈ pres reg ins ↔ ∃ i ∈ ins, findInFilesRegistry reg i = some y := by
  simp only [pres, List.mem_flatMap]
  constructor
  · rintro ⟨i, h1, h2⟩
    refine ⟨i, h1, ?_⟩
    cases h : findInFilesRegistry reg i <;> rw [h] at h2 <;> simp at h2
    cases h2; rfl
  · rintro ⟨i, h1, h2⟩
    exact ⟨i, h1, by rw [h2]; simp⟩

section
variable {Q : P ρ → Prop} (hQ : ∀ f k, (∀ w, Q (k w)) → Q (.act f k)) (reg : GoMap Str Nat)
include hQ

theorem q_findAll (is : List Str) (acc : List TRef) (k : List TRef → P ρ) (h : Q (withReg reg (k (acc ++ pres reg is)))) :
    Q (withReg reg (findAll is acc k)) := by
  induction is generalizing acc with
  | nil => simpa [pres, findAll] using h
  | cons i is ih =>
    rw [findAll, withReg]
    refine hQ _ _ fun w => ih _ ?_
    simpa [pres, List.append_assoc] using h

theorem q_readItems (is : List Str) (m : HMap) (k : Except HErr HMap → P ρ) (h : ∀ r, Q (withReg reg (k r))) :
    Q (withReg reg (Files.readItems hex is m k)) := by
  induction is generalizing m with
  | nil => exact h _
  | cons i is ih =>
    rw [Files.readItems, withReg]
    refine hQ _ _ fun w => ?_
    split
    · exact ih _
    · exact h _

theorem q_computeHash (ft : FilesT ρ) (k : Option Str → P ρ) (h : ∀ r, Q (withReg reg (k r))) : Q (withReg reg (computeHash hex sum ft k)) := by
  unfold computeHash
  refine q_readItems hQ reg _ _ _ fun r => ?_
  split
  · exact h _
  · refine q_readItems hQ reg _ _ _ fun r => ?_
    split
    · exact h _
    · rw [withReg]
      refine hQ _ _ fun w => ?_
      split
      · exact h _
      · exact h _

/-- What is true of the ends and is passed on by the calls is true of the whole. -/
theorem q_main (ft : FilesT ρ) (ctx : Ctx) (h0 : ∀ e, Q (.ret e))
    (hc : ∀ k, (∀ e, k (some e) = .ret (some e)) → Q (k none) → Q (.call ctx [ft.target] k)) :
    Q (withReg reg (filesMain hex sum ft ctx)) := by
  have hb : Q (withReg reg (filesBuild hex sum ft ctx)) := by
    unfold filesBuild
    rw [withReg]
    refine hc _ (fun e => rfl) ?_
    dsimp only
    split
    · exact h0 _
    · split
      · exact h0 _
      · refine q_computeHash hQ reg _ _ fun r => ?_
        split
        · exact h0 _
        · rw [withReg]
          exact hQ _ _ fun w => h0 _
  unfold filesMain
  split
  · exact hb
  · split
    · refine q_computeHash hQ reg _ _ fun r => ?_
      split
      · exact h0 _
      · rw [withReg]
        refine hQ _ _ fun w => ?_
        split
        · exact h0 _
        · split
          · exact h0 _
          · exact hb
    · exact hb

end

theorem NoRun.below {p : P ρ} {addr : Nat → Nat} {lt : Nat → Prop} (h : NoRun p) : p.Below addr lt := by
  induction p with
  | ret e => trivial
  | act f k ih => exact fun w => ih w (h w)
  | call ctx refs k ih => exact h.elim

theorem NoRun.passesOn {p : P ρ} (h : NoRun p) : p.PassesOn := by
  induction p with
  | ret e => trivial
  | act f k ih => exact fun w => ih w (h w)
  | call ctx refs k ih => exact h.elim

theorem below_files (t : Nat) (typ desc) (ins outs : List Str) (reg : GoMap Str Nat) (ctx : Ctx) {lt : Nat → Prop} (h1 : lt t)
    (h2 : ∀ i ∈ ins, ∀ y, findInFilesRegistry reg i = some y → lt y) :
    (withReg reg (filesBody hex sum (⟨.ptr t, typ, desc, ins, outs⟩ : FilesT ρ) ctx)).Below id lt := by
  have hQ : ∀ (f : World ρ → World ρ) (k : World ρ → P ρ), (∀ w, (k w).Below id lt) → Proc.Below id lt (.act f k) := fun f k h => h
  have hm : (withReg reg (filesMain hex sum (⟨.ptr t, typ, desc, ins, outs⟩ : FilesT ρ) ctx)).Below id lt := by
    refine q_main (Q := fun p => p.Below id lt) hQ reg _ _ (fun _ => trivial) fun k hk hn => ?_
    refine ⟨fun o ho => by simp at ho; subst ho; exact h1, fun e => ?_⟩
    cases e with
    | none => exact hn
    | some e => rw [hk]; trivial
  unfold filesBody
  refine q_findAll (Q := fun p => p.Below id lt) hQ reg _ _ _ ?_
  rw [List.nil_append]
  split
  · exact hm
  · rw [withReg]
    refine ⟨fun o ho => ?_, fun e => ?_⟩
    · obtain ⟨i, hi, h⟩ := mem_pres.1 ho
      exact h2 i hi o h
    · cases e with
      | none => exact hm
      | some e => trivial

theorem passesOn_files (ft : FilesT ρ) (reg : GoMap Str Nat) (ctx : Ctx) : (withReg reg (filesBody hex sum ft ctx)).PassesOn := by
  have hQ : ∀ (f : World ρ → World ρ) (k : World ρ → P ρ), (∀ w, (k w).PassesOn) → Proc.PassesOn (.act f k) := fun f k h => h
  have hm : (withReg reg (filesMain hex sum ft ctx)).PassesOn := by
    refine q_main (Q := Proc.PassesOn) hQ reg _ _ (fun _ => trivial) fun k hk hn => ⟨fun e => ?_, hn⟩
    rw [hk]; simp [Proc.Fails]
  unfold filesBody
  refine q_findAll (Q := Proc.PassesOn) hQ reg _ _ _ ?_
  rw [List.nil_append]
  split
  · exact hm
  · rw [withReg]
    exact ⟨fun e => by simp [withReg, Proc.Fails], hm⟩

theorem mustAsk_files (ft : FilesT ρ) (reg : GoMap Str Nat) (ctx : Ctx) {i : Str} {y : Nat} (hi : i ∈ ft.ins)
    (hy : findInFilesRegistry reg i = some y) : Runner.MustAsk (.ptr y) (withReg reg (filesBody hex sum ft ctx)) := by
  have hm : TRef.ptr y ∈ pres reg ft.ins := mem_pres.2 ⟨i, hi, hy⟩
  unfold filesBody
  refine q_findAll (Q := Runner.MustAsk (.ptr y)) (fun f k h => h) reg _ _ _ ?_
  rw [List.nil_append, if_neg (by intro h; rw [h] at hm; simp at hm), withReg]
  exact .inl hm

/-- What is run is what may be run. -/
theorem body_below (hown : ∀ o ctx, NoRun (own.body o ctx)) (x : Nat) (ctx : Ctx) :
    ((buildEnv hex sum own s).body x ctx).Below id (Uses s x) := by
  have hseq : ∀ (ts : List Nat), (∀ y ∈ ts, Uses s x y) → (seqBody (σ := World ρ) (ts.map .ptr) ctx).Below id (Uses s x) := by
    intro ts
    induction ts with
    | nil => intro _; trivial
    | cons t ts ih =>
      intro h
      refine ⟨fun o ho => by simp at ho; subst ho; exact h _ (by simp), fun e => ?_⟩
      cases e with
      | some e => trivial
      | none => exact ih fun y hy => h y (by simp [hy])
  unfold buildEnv
  dsimp only
  split
  · rename_i ts h
    exact ⟨fun o ho => by simp at ho; exact .needs (.all h ho), fun e => trivial⟩
  · rename_i ts h
    exact hseq ts fun y hy => .needs (.seq h hy)
  · rename_i t args h
    exact ⟨fun o ho => by simp at ho; subst ho; exact .needs (.arg h), fun e => trivial⟩
  · rename_i t ins outs h
    exact below_files _ _ _ _ _ _ _ (.files h) fun i hi y hy => .needs (.input h hi hy)
  · rename_i name h
    intro w
    simp only [resolveName]
    split
    · trivial
    · rename_i o ho
      split at ho
      · cases ho
      · rename_i t ht
        cases ho
        exact ⟨fun o ho => by simp at ho; subst ho; exact .needs (.name h ht), fun e => trivial⟩
  · exact (hown x ctx).below

theorem body_passesOn (hown : ∀ o ctx, NoRun (own.body o ctx)) : (buildEnv hex sum own s).PassesOn := by
  intro x ctx
  unfold buildEnv
  dsimp only
  split
  · exact Runner.allBody_passesOn _ _
  · exact Runner.seqBody_passesOn _ _
  · exact Runner.argBody_passesOn _ _ _
  · exact passesOn_files _ _ _
  · exact Runner.nameBody_passesOn _ _
  · exact (hown x ctx).passesOn

theorem body_mustAsk {x y : Nat} (h : Needs s x y) (ctx : Ctx) : Runner.MustAsk (.ptr y) ((buildEnv hex sum own s).body x ctx) := by
  unfold buildEnv
  dsimp only
  cases h with
  | all h hy => rw [h]; exact Runner.C75_all_needs (by simp [hy])
  | seq h hy => rw [h]; exact Runner.C75_seq_needs (by simp [hy])
  | arg h => rw [h]; exact Runner.C75_arg_needs
  | input h hi hy => rw [h]; exact mustAsk_files _ _ _ hi hy
  | name h hy =>
    rw [h]
    intro w
    simp only [resolveName, hy]
    exact .inl (by simp)

theorem mayAsk_below {p : P ρ} {lt : Nat → Prop} {o : Nat} (hb : p.Below id lt) (h : Runner.MayAsk (.ptr o) p) : lt o := by
  induction h with
  | now hm => exact hb.1 o hm
  | act w _ ih => exact ih (hb w)
  | call e _ ih => exact ih (hb.2 e)

theorem below_mono {p : P ρ} {lt lt' : Nat → Prop} (hl : ∀ a, lt a → lt' a) (h : p.Below id lt) : p.Below id lt' := by
  induction p with
  | ret e => trivial
  | act f k ih => exact fun w => ih w (h w)
  | call ctx refs k ih => exact ⟨fun o ho => hl _ (h.1 o ho), fun e => ih e (h.2 e)⟩

theorem distinct : (buildEnv hex sum own s).DistinctAddrs := fun _ _ h => h

/-! ## A build ends -/

theorem Uses.isObj {x y : Nat} (h : Uses s x y) : x < s.heap.length := by
  have key : ∀ {o : Obj}, s.heap[x]? = some o → x < s.heap.length := fun h => (List.getElem?_eq_some_iff.1 h).1
  cases h with
  | needs h => cases h <;> exact key ‹_›
  | files h => exact key h

/-- a reference uses what it stands for -/
theorem Stands.uses {o t : Nat} (h : Stands s o t) : o = t ∨ Uses s o t := by
  rcases h with ⟨name, h1, h2⟩ | ⟨-, rfl⟩
  · exact .inr (.needs (.name h1 h2))
  · exact .inl rfl

theorem uses_wf (hac : ∀ x, ¬ Relation.TransGen (Uses s) x x) : WellFounded fun a o => Relation.TransGen (Uses s) o a := by
  have hlt : ∀ {x y}, Relation.TransGen (Uses s) x y → x < s.heap.length := by
    intro x y h
    induction h using Relation.TransGen.head_induction_on with
    | single h => exact h.isObj
    | head h _ _ => exact h.isObj
  let r : Fin s.heap.length → Fin s.heap.length → Prop := fun i j => Relation.TransGen (Uses s) j.val i.val
  have : IsTrans _ r := ⟨fun a b c h1 h2 => Relation.TransGen.trans h2 h1⟩
  have : Std.Irrefl r := ⟨fun a h => hac a.val h⟩
  have wf : WellFounded r := Finite.wellFounded_of_trans_of_irrefl r
  have h1 : ∀ i : Fin s.heap.length, Acc (fun a o => Relation.TransGen (Uses s) o a) i.val := by
    intro i
    induction i using wf.induction with
    | _ i ih =>
      refine ⟨_, fun a ha => ?_⟩
      by_cases hl : a < s.heap.length
      · exact ih ⟨a, hl⟩ ha
      · exact ⟨_, fun b hb => absurd (hlt hb) hl⟩
  refine ⟨fun o => ⟨_, fun a ha => ?_⟩⟩
  by_cases hl : a < s.heap.length
  · exact h1 ⟨a, hl⟩
  · exact ⟨_, fun b hb => absurd (hlt hb) hl⟩

/-- **C76, returns.** If no target of the project uses itself, directly or through others, then every call of Run returns, whatever else
runs at the same time and whatever the order: there is no infinite execution, and where it stops all calls have returned. -/
theorem C76_returns (hown : ∀ o ctx, NoRun (own.body o ctx)) (hac : ∀ x, ¬ Relation.TransGen (Uses s) x x) {w : World ρ}
    {cl : List (P ρ)} {st : State (World ρ) Ctx} (h : Reach (buildEnv hex sum own s) w cl st) :
    (¬ ∃ (sts : Nat → State (World ρ) Ctx) (t : Nat → Nat), sts 0 = st ∧ ∀ n, Runner.step (buildEnv hex sum own s) (sts n) (t n) = some (sts (n + 1))) ∧
    (∃ (st' : State (World ρ) Ctx) (ts : List Nat), Runner.runSched (buildEnv hex sum own s) st (ts.map .thread) = st' ∧
      (∀ t, Runner.step (buildEnv hex sum own s) st' t = none) ∧ Runner.callsN st'.log = Runner.retsN st'.log ∧ ∀ th ∈ st'.threads, th.st.isDone = true) := by
  refine Runner.C05_run_always_returns (uses_wf hac) ?_ h
  intro o t ctx hcan
  have hs := canRun_stands hcan
  refine below_mono (fun a ha => ?_) (body_below hown t ctx)
  rcases hs.uses with rfl | hu
  · exact .single ha
  · exact .tail (.single hu) ha

/-! ## What a build does -/

theorem reachable_mayRun (hown : ∀ o ctx, NoRun (own.body o ctx)) {os : List Nat} {t : Nat}
    (h : Runner.Reachable (buildEnv hex sum own s) (os.map .ptr) t) : MayRun s os t := by
  induction h with
  | arg hm hc =>
    simp only [List.mem_map, TRef.ptr.injEq, exists_eq_right] at hm
    exact .arg hm (canRun_stands hc)
  | dep _ hm hc ih => exact .dep ih (mayAsk_below (body_below hown _ _) hm) (canRun_stands hc)

theorem wanted_needed {os : List Nat} {o : Nat} (h : Wanted s os o) : Runner.Needed (buildEnv hex sum own s) (os.map .ptr) (.ptr o) := by
  induction h with
  | arg hm => exact .arg (by simpa using hm)
  | dep _ hst hn ih =>
    refine .dep ih fun t' ctx hcan => ?_
    cases (canRun_stands hcan).uniq hst
    exact body_mustAsk hn ctx

/-- **C76, a build.** `fab` runs the targets `os` of the project, once, with a new runner; `e` is what comes out.
* `e` is nil exactly if no target failed and no name was unknown.
* Only the targets `os` and what they use are run.
* If `e` is nil then everything that is needed for `os` is known and was run, successfully. -/
theorem C76_build (hown : ∀ o ctx, NoRun (own.body o ctx)) {w : World ρ} {ctx : Ctx} {os : List Nat} {st : State (World ρ) Ctx}
    (h : Reach (buildEnv hex sum own s) w [.call ctx (os.map .ptr) .ret] st) :
    (∀ t c i key tgt ctx, (t, Ev.start c i key tgt ctx) ∈ st.log → MayRun s os tgt) ∧
    ∀ c e, (0, Ev.ret c e) ∈ st.log →
      (e = none ↔ (∀ t key tgt raw, (t, Ev.finish key tgt raw) ∈ st.log → raw = none) ∧ ∀ t c i e, (t, Ev.refuse c i e) ∉ st.log) ∧
      (e = none → ∀ o, Wanted s os o → ∃ t th, Stands s o t ∧ (th, Ev.finish o t none) ∈ st.log) := by
  refine ⟨fun t c i key tgt ctx hst => reachable_mayRun hown (Runner.C75_confined h hst), fun c e hret => ⟨Runner.C75_status (body_passesOn hown) h hret, ?_⟩⟩
  rintro rfl o ho
  obtain ⟨o', th, t, h1, h2⟩ := Runner.C75_needed (body_passesOn hown) distinct h hret (wanted_needed ho)
  cases h1
  exact ⟨t, th, canRun_stands (Runner.finish_tgt h (fun _ h => h) h2), h2⟩

/-! ## Cycles -/

/-- **C76, where cycles come from.** If a target of a project uses itself through others then on the way there is a name, or an input file that is made by another target. -/
theorem C76_older {L : Lib} (hl : Loaded L s) {x : Nat} (h : Relation.TransGen (Uses s) x x) :
    ∃ y z, Relation.ReflTransGen (Uses s) x y ∧ Uses s y z ∧ Relation.ReflTransGen (Uses s) z x ∧
      ((∃ name, s.heap[y]? = some (.ref name) ∧ (s.reg.target name).1 = some z) ∨
       ∃ t ins outs i, s.heap[y]? = some (.files t ins outs) ∧ i ∈ ins ∧ findInFilesRegistry s.filesReg i = some z) := by
  by_contra hno
  have ht := hl.tidy
  have step : ∀ y z, Relation.ReflTransGen (Uses s) x y → Uses s y z → Relation.ReflTransGen (Uses s) z x → z < y := by
    intro y z h1 h2 h3
    cases h2 with
    | needs hn =>
      cases hn with
      | all h hy => exact ht.parts _ _ h _ hy
      | seq h hy => exact ht.parts _ _ h _ hy
      | arg h => exact ht.parts _ _ h _ (by simp [Obj.parts])
      | input h hi hy => exact absurd ⟨y, z, h1, .needs (.input h hi hy), h3, .inr ⟨_, _, _, _, h, hi, hy⟩⟩ hno
      | name h hy => exact absurd ⟨y, z, h1, .needs (.name h hy), h3, .inl ⟨_, h, hy⟩⟩ hno
    | files h => exact ht.parts _ _ h _ (by simp [Obj.parts])
  have all : ∀ w, Relation.TransGen (Uses s) x w → Relation.ReflTransGen (Uses s) w x → w < x := by
    intro w hw
    induction hw with
    | single h1 => exact fun h2 => step _ _ .refl h1 h2
    | tail h1 h2 ih =>
      intro h3
      exact Nat.lt_trans (step _ _ h1.to_reflTransGen h2 h3) (ih (.head h2 h3))
  exact Nat.lt_irrefl x (all x h .refl)

/-- The target always begins something that begins itself again. -/
def Endless (s : St) (x : Nat) : Prop := ∃ z, Relation.ReflTransGen (Begins s) x z ∧ Relation.TransGen (Begins s) z z

theorem Endless.next {x : Nat} (h : Endless s x) : ∃ y, Begins s x y ∧ Endless s y := by
  obtain ⟨z, h1, h2⟩ := h
  rcases h1.cases_head with rfl | ⟨y, h3, h4⟩
  · obtain ⟨y, h3, h4⟩ := Relation.TransGen.head'_iff.1 h2
    exact ⟨y, h3, x, h4, h2⟩
  · exact ⟨y, h3, z, h4, h2⟩

theorem Endless.stands {o t : Nat} (h : Endless s o) (hs : Stands s o t) : Endless s t := by
  rcases hs with ⟨name, h1, h2⟩ | ⟨-, rfl⟩
  · obtain ⟨y, hy, he⟩ := h.next
    cases hy with
    | name h3 h4 => rw [h1] at h3; cases h3; rw [h2] at h4; cases h4; exact he
    | _ h3 => rw [h1] at h3; cases h3
  · exact h

theorem Endless.refIn {y : Nat} {refs : List TRef} (h : Endless s y) (hm : .ptr y ∈ refs) :
    (buildEnv hex sum own s).RefIn (Endless s) refs := by
  refine ⟨y, hm, h, ?_⟩
  intro f w e hf he
  unfold buildEnv at hf
  dsimp only at hf
  split at hf
  · rename_i name hn
    cases hf
    obtain ⟨z, hz, -⟩ := h.next
    cases hz with
    | name h3 h4 => rw [hn] at h3; cases h3; simp only [resolveName, h4] at he; cases he
    | _ h3 => rw [hn] at h3; cases h3
  · cases hf

theorem body_must {x y : Nat} (h : Begins s x y) (ctx : Ctx) {env : Env (World ρ) Ctx} {S : Nat → Prop}
    (hr : ∀ {refs}, .ptr y ∈ refs → env.RefIn S refs) : ((buildEnv hex sum own s).body x ctx).Must env S := by
  unfold buildEnv
  dsimp only
  cases h with
  | all h hy => rw [h]; exact .inl (hr (by simp [hy]))
  | seq h => rw [h]; exact .inl (hr (by simp))
  | arg h => rw [h]; exact .inl (hr (by simp))
  | input h hi hy =>
    rw [h]
    have hm := mem_pres.2 ⟨_, hi, hy⟩
    dsimp only
    unfold filesBody
    refine q_findAll (Q := fun p => p.Must env S) (fun f k h => h) _ _ _ _ ?_
    rw [List.nil_append, if_neg (by intro h; rw [h] at hm; simp at hm), withReg]
    exact .inl (hr hm)
  | name h hy =>
    rw [h]
    intro w
    simp only [resolveName, hy]
    exact .inl (hr (by simp))

/-- **C76, cycles.** If a target always begins others in a way that leads back to one of them, then no call of Run in which it is an argument
returns, and it never ends. -/
theorem C76_cycle {w : World ρ} {cl : List (P ρ)} {st : State (World ρ) Ctx} (h : Reach (buildEnv hex sum own s) w cl st)
    {x : Nat} (hx : Endless s x) :
    (∀ t tgt raw, (t, Ev.finish x tgt raw) ∉ st.log) ∧
    ∀ t c ctx refs, (t, Ev.call c ctx refs) ∈ st.log → .ptr x ∈ refs → ∀ t' e, (t', Ev.ret c e) ∉ st.log := by
  have hcy : (buildEnv hex sum own s).Cyclic (Endless s) := by
    intro o t ctx ho hcan
    obtain ⟨y, hy, he⟩ := (ho.stands (canRun_stands hcan)).next
    exact body_must hy ctx he.refIn
  obtain ⟨h1, h2⟩ := Runner.C06_cycle_never_completes hcy h
  exact ⟨fun t tgt raw hf => h1 t _ tgt raw hf hx, fun t c ctx refs hc hm => h2 t c ctx refs hc (hx.refIn hm)⟩

/-- The target needs something that needs itself. -/
def Circular (s : St) (x : Nat) : Prop := ∃ z, Relation.ReflTransGen (Needs s) x z ∧ Relation.TransGen (Needs s) z z

theorem Circular.next {x : Nat} (h : Circular s x) : ∃ y, Needs s x y ∧ Circular s y := by
  obtain ⟨z, h1, h2⟩ := h
  rcases h1.cases_head with rfl | ⟨y, h3, h4⟩
  · obtain ⟨y, h3, h4⟩ := Relation.TransGen.head'_iff.1 h2
    exact ⟨y, h3, x, h4, h2⟩
  · exact ⟨y, h3, z, h4, h2⟩

theorem Circular.stands {o t : Nat} (h : Circular s o) (hs : Stands s o t) : Circular s t := by
  rcases hs with ⟨name, h1, h2⟩ | ⟨-, rfl⟩
  · obtain ⟨y, hy, he⟩ := h.next
    cases hy with
    | name h3 h4 => rw [h1] at h3; cases h3; rw [h2] at h4; cases h4; exact he
    | _ h3 => rw [h1] at h3; cases h3
  · exact h

/-- **C76, circles.** If a target needs itself, directly or through others, or needs such a target, it does not succeed, and no call of Run in which
it is an argument returns nil. -/
theorem C76_circle (hown : ∀ o ctx, NoRun (own.body o ctx)) {w : World ρ} {cl : List (P ρ)} {st : State (World ρ) Ctx}
    (h : Reach (buildEnv hex sum own s) w cl st) {x : Nat} (hx : Circular s x) :
    (∀ t tgt, (t, Ev.finish x tgt none) ∉ st.log) ∧
    ∀ t c ctx refs, (t, Ev.call c ctx refs) ∈ st.log → .ptr x ∈ refs → ∀ t', (t', Ev.ret c none) ∉ st.log := by
  have hS : ∀ o, (Circular s o ∨ ¬ ∃ t, Stands s o t) → ∃ o', (Circular s o' ∨ ¬ ∃ t, Stands s o' t) ∧
      ∀ t ctx, (buildEnv hex sum own s).CanRun o t → Runner.MustAsk (.ptr o') ((buildEnv hex sum own s).body t ctx) := by
    intro o ho
    by_cases hst : ∃ t, Stands s o t
    · obtain ⟨t, ht⟩ := hst
      rcases ho with ho | ho
      · obtain ⟨y, hy, hc⟩ := (ho.stands ht).next
        refine ⟨y, .inl hc, fun t' ctx hcan => ?_⟩
        cases (canRun_stands hcan).uniq ht
        exact body_mustAsk hy ctx
      · exact absurd ⟨t, ht⟩ ho
    · exact ⟨o, .inr hst, fun t ctx hcan => absurd ⟨t, canRun_stands hcan⟩ hst⟩
  obtain ⟨h1, h2⟩ := Runner.C75_needs_itself (body_passesOn hown) distinct hS h
  exact ⟨fun t tgt hf => h1 x (.inl hx) t tgt hf, fun t c ctx refs hc hm => h2 t c ctx refs x hc hm (.inl hx)⟩

end

/-! ## Two projects -/

/-- a list of the targets that `x` uses -/
def usesList (s : St) (x : Nat) : List Nat :=
  match s.heap[x]? with
  | some (.all ts) => ts
  | some (.seq ts) => ts
  | some (.arg t _) => [t]
  | some (.files t ins _) => t :: ins.flatMap fun i => (findInFilesRegistry s.filesReg i).toList
  | some (.ref name) => (s.reg.target name).1.toList
  | _ => []

theorem mem_usesList {s : St} {x y : Nat} (h : Uses s x y) : y ∈ usesList s x := by
  unfold usesList
  cases h with
  | needs h =>
    cases h with
    | all h hy => rw [h]; exact hy
    | seq h hy => rw [h]; exact hy
    | arg h => rw [h]; simp
    | input h hi hy =>
      rw [h]
      refine List.mem_cons_of_mem _ (List.mem_flatMap.2 ⟨_, hi, ?_⟩)
      rw [hy]; simp
    | name h hy =>
      rw [h]
      dsimp only
      rw [hy]; simp
  | files h => rw [h]; simp

theorem acyclic_of_rank {s : St} (rank : Nat → Nat) (h : ∀ x < s.heap.length, ∀ y ∈ usesList s x, rank y < rank x) :
    ∀ x, ¬ Relation.TransGen (Uses s) x x := by
  have h1 : ∀ {x y}, Relation.TransGen (Uses s) x y → rank y < rank x := by
    intro x y hxy
    induction hxy with
    | single hu => exact h _ hu.isObj _ (mem_usesList hu)
    | tail _ hu ih => exact Nat.lt_trans (h _ hu.isObj _ (mem_usesList hu)) ih
  exact fun x hx => Nat.lt_irrefl _ (h1 hx)

namespace BuildDemo

def decFiles (n : Node) : Except YErr FilesY :=
  match n.content with
  | [a, b] => .ok ⟨a, b, exTagged "!Clean" .sequence [exScalar "o"], false⟩
  | _ => .error .yaml

def files (i o : String) : Node := exTagged "!Files" .mapping [exTagged "!!seq" .sequence [exScalar i], exTagged "!!seq" .sequence [exScalar o]]

/-- All: !All [Prog, Extra]; Prog: makes prog from gen.c; Gen: makes gen.c from src; Extra: !Seq [Gen, !Clean [x]]; Other: !Clean [y] -/
def doc : Node := exDoc [exKey "All" "", exTagged "!All" .sequence [exScalar "Prog", exScalar "Extra"],
  exKey "Prog" "", files "gen.c" "prog", exKey "Gen" "", files "src" "gen.c",
  exKey "Extra" "", exTagged "!Seq" .sequence [exScalar "Gen", exTagged "!Clean" .sequence [exScalar "x"]],
  exKey "Other" "", exTagged "!Clean" .sequence [exScalar "y"]]

/-- A: makes x from y; B: makes y from x; C: !All [D, A]; D: !Clean [d]; E: E; F: !Seq [D, E] -/
def loopDoc : Node := exDoc [exKey "A" "", files "y" "x", exKey "B" "", files "x" "y",
  exKey "C" "", exTagged "!All" .sequence [exScalar "D", exScalar "A"], exKey "D" "", exTagged "!Clean" .sequence [exScalar "d"],
  exKey "E" "", exScalar "E", exKey "F" "", exTagged "!Seq" .sequence [exScalar "D", exScalar "E"]]

def lib (d : Node) : Lib := { exLib with
  file := fun D => if D = "/top".toList then .doc (some d) else .none
  decFiles := decFiles }

def regOf (l : List (Str × Nat)) : Registry.Reg := ⟨l.map fun e => (e.1, ⟨e.2, e.1, []⟩), l.map fun e => (e.2, ⟨e.2, e.1, []⟩)⟩

/-- the first project, after reading -/
def docEnd : St where
  heap := [.ref "Prog".toList, .ref "Extra".toList, .all [0, 1], .clean ["/top/o".toList] false, .files 3 ["/top/gen.c".toList] ["/top/prog".toList],
    .clean ["/top/o".toList] false, .files 5 ["/top/src".toList] ["/top/gen.c".toList], .ref "Gen".toList, .clean ["/top/x".toList] false, .seq [7, 8],
    .clean ["/top/y".toList] false]
  reg := regOf [("Other".toList, 10), ("Extra".toList, 9), ("Gen".toList, 6), ("Prog".toList, 4), ("All".toList, 2)]
  filesReg := [("/top/gen.c".toList, 6), ("/top/prog".toList, 4)]
  autoclean := []
  hist := [("All".toList, [], 2), ("Prog".toList, [], 4), ("Gen".toList, [], 6), ("Extra".toList, [], 9), ("Other".toList, [], 10)]
  reads := ["/top".toList]

/-- the second project, after reading -/
def loopEnd : St where
  heap := [.clean ["/top/o".toList] false, .files 0 ["/top/y".toList] ["/top/x".toList], .clean ["/top/o".toList] false,
    .files 2 ["/top/x".toList] ["/top/y".toList], .ref "D".toList, .ref "A".toList, .all [4, 5], .clean ["/top/d".toList] false, .ref "E".toList,
    .ref "D".toList, .ref "E".toList, .seq [9, 10]]
  reg := regOf [("F".toList, 11), ("E".toList, 8), ("D".toList, 7), ("C".toList, 6), ("B".toList, 3), ("A".toList, 1)]
  filesReg := [("/top/y".toList, 3), ("/top/x".toList, 1)]
  autoclean := []
  hist := [("A".toList, [], 1), ("B".toList, [], 3), ("C".toList, [], 6), ("D".toList, [], 7), ("E".toList, [], 8), ("F".toList, [], 11)]
  reads := ["/top".toList]

/-! The equality of results of reading, as a computation. -/

def same : Obj → Obj → Bool
  | .clean f a, .clean g b => decide (f = g) && decide (a = b)
  | .all a, .all b => decide (a = b)
  | .seq a, .seq b => decide (a = b)
  | .files t i o, .files t' i' o' => decide (t = t') && decide (i = i') && decide (o = o')
  | .ref a, .ref b => decide (a = b)
  | _, _ => false

theorem same_eq {a b : Obj} (h : same a b = true) : a = b := by
  unfold same at h
  split at h <;> simp_all

def sameAll : List Obj → List Obj → Bool
  | [], [] => true
  | a :: as, b :: bs => same a b && sameAll as bs
  | _, _ => false

theorem sameAll_eq : ∀ {as bs : List Obj}, sameAll as bs = true → as = bs
  | [], [], _ => rfl
  | a :: as, b :: bs, h => by
    simp only [sameAll, Bool.and_eq_true] at h
    rw [same_eq h.1, sameAll_eq h.2]
  | [], _ :: _, h => by cases h
  | _ :: _, [], h => by cases h

def isOk (r : R Unit) (s : St) : Bool := match r with
  | .ok _ s' => sameAll s'.heap s.heap && decide (s'.reg.byName = s.reg.byName) && decide (s'.reg.byAddr = s.reg.byAddr) &&
      decide (s'.filesReg = s.filesReg) && decide (s'.autoclean = s.autoclean) && decide (s'.hist = s.hist) && decide (s'.reads = s.reads)
  | _ => false

theorem isOk_eq {r : R Unit} {s : St} (h : isOk r s = true) : r = .ok () s := by
  unfold isOk at h
  split at h
  · rename_i s'
    simp only [Bool.and_eq_true, decide_eq_true_eq] at h
    obtain ⟨⟨⟨⟨⟨⟨h1, h2⟩, h3⟩, h4⟩, h5⟩, h6⟩, h7⟩ := h
    obtain ⟨hp, ⟨n, a⟩, fr, ac, hi, rd⟩ := s
    obtain ⟨hp', ⟨n', a'⟩, fr', ac', hi', rd'⟩ := s'
    have := sameAll_eq h1
    simp_all
  · cases h

theorem doc_loaded : Loaded (lib doc) docEnd := .file (n := 12) (dir := []) .empty (.inl ⟨(), isOk_eq (by decide +kernel)⟩)
theorem loop_loaded : Loaded (lib loopDoc) loopEnd := .file (n := 12) (dir := []) .empty (.inl ⟨(), isOk_eq (by decide +kernel)⟩)

theorem doc_objs : docEnd.heap.length = 11 ∧
    ["All", "Prog", "Gen", "Extra", "Other"].map (fun n => (docEnd.reg.target n.toList).1) = [some 2, some 4, some 6, some 9, some 10] ∧
    (List.range 11).map (usesList docEnd) = [[4], [9], [0, 1], [], [3, 6], [], [5], [6], [], [7, 8], []] := by
  decide +kernel

theorem doc_acyclic : ∀ x, ¬ Relation.TransGen (Uses docEnd) x x :=
  acyclic_of_rank (fun x => ([3, 4, 5, 0, 2, 0, 1, 2, 0, 3, 0] : List Nat).getD x 0) (by decide +kernel)

/-- The Clean targets look at the world; that of Extra fails if `rest` is set. -/
def own : Own Bool where
  body o _ := .act id fun w => .ret (if w.rest && o == 8 then some (.atom 7) else none)
  note _ := id
  typ _ := []
  desc _ _ := none

theorem own_noRun : ∀ o ctx, NoRun (own.body o ctx) := fun _ _ _ => trivial

def hex : Bytes → Str := fun _ => []
def sum : Str → Str := id
def world (b : Bool) : World Bool := ⟨⟨.nil, []⟩, fun _ => [], [], false, false, false, b⟩

/-- an execution -/
def run (s : St) (b : Bool) (os : List Nat) (ts : List Nat) : State (World Bool) Ctx :=
  Runner.runSched (buildEnv hex sum own s) (Runner.init (world b) [.call .root (os.map .ptr) .ret]) (ts.map .thread)

theorem run_reach (s : St) (b : Bool) (os : List Nat) (ts : List Nat) :
    Reach (buildEnv hex sum own s) (world b) [.call .root (os.map .ptr) .ret] (run s b os ts) := Runner.runSched_reach _ .init

def sched1 : List Nat := [0, 0, 1, 0, 1, 1, 2, 1, 2, 3, 1, 2, 3, 2, 3, 4, 5, 2, 3, 4, 5, 4, 5, 4, 5, 6, 7, 4, 5, 6, 6, 6, 6, 6, 7, 6, 7, 4, 7, 4, 5, 4, 5, 4, 5, 4, 5, 4, 5, 2, 5, 2, 3, 2, 3,
  8, 2, 3, 8, 9, 3, 8, 9, 8, 9, 8, 9, 8, 9, 8, 9, 2, 9, 2, 3, 2, 3, 2, 3, 2, 3, 2, 3, 3, 1, 1, 1, 1, 1, 1, 0, 0]
def sched2 : List Nat := [0, 0, 1, 0, 1, 1, 2, 1, 2, 3, 1, 2, 3, 2, 3, 2, 3, 4, 2, 3, 4, 2, 4, 4, 5, 4, 5, 5, 5, 6, 5]

def retOf (st : State (World Bool) Ctx) : List (Option Bool) := st.log.filterMap fun e => match e with
  | (0, .ret _ e) => some (e.map fun _ => true)
  | _ => none

def finOf (st : State (World Bool) Ctx) : List (Nat × Nat) := st.log.filterMap fun e => match e with
  | (_, .finish key tgt none) => some (key, tgt)
  | _ => none

def startOf (st : State (World Bool) Ctx) : List Nat := st.log.filterMap fun e => match e with
  | (_, .start _ _ _ tgt _) => some tgt
  | _ => none

theorem ends {st : State (World Bool) Ctx} {b} (h : retOf st = [b]) : ∃ c e, (0, Ev.ret c e) ∈ st.log ∧ (e = none ↔ b = none) := by
  have hb : b ∈ retOf st := by rw [h]; simp
  obtain ⟨⟨t, e⟩, hm, he⟩ := List.mem_filterMap.1 hb
  split at he
  · rename_i c e' heq
    cases heq
    cases he
    exact ⟨c, e', hm, by cases e' <;> simp⟩
  · cases he

/-- `fab All` succeeds, or fails because a command of Extra fails. -/
example : (∃ st c, Reach (buildEnv hex sum own docEnd) (world false) [.call .root ([2].map .ptr) .ret] st ∧ (0, Ev.ret c none) ∈ st.log) ∧
    ∃ st c e, Reach (buildEnv hex sum own docEnd) (world true) [.call .root ([2].map .ptr) .ret] st ∧ (0, Ev.ret c (some e)) ∈ st.log := by
  constructor
  · obtain ⟨c, e, h1, h2⟩ := ends (st := run docEnd false [2] sched1) (b := none) (by decide +kernel)
    have := h2.2 rfl; subst this
    exact ⟨_, c, run_reach .., h1⟩
  · obtain ⟨c, e, h1, h2⟩ := ends (st := run docEnd true [2] sched1) (b := some true) (by decide +kernel)
    cases e with
    | none => simp at h2
    | some e => exact ⟨_, c, e, run_reach .., h1⟩

theorem doc_needs : Needs docEnd 2 0 ∧ Needs docEnd 4 6 ∧ Stands docEnd 0 4 ∧ Stands docEnd 2 2 := by
  have h2 : docEnd.heap[2]? = some (.all [0, 1]) := by rfl
  refine ⟨.all h2 (by simp), ?_, .inl ⟨"Prog".toList, by rfl, by decide +kernel⟩, .inr ⟨fun n hn => ?_, rfl⟩⟩
  · exact .input (t := 3) (ins := ["/top/gen.c".toList]) (outs := ["/top/prog".toList]) (i := "/top/gen.c".toList) (by rfl) (by simp) (by decide +kernel)
  · rw [h2] at hn; cases hn

/-- Gen (6), which makes an input of Prog, is needed for All (2). -/
example : Wanted docEnd [2] 6 := .dep (.dep (.arg (by simp)) doc_needs.2.2.2 doc_needs.1) doc_needs.2.2.1 doc_needs.2.1

/-- Other (10) may not be run for All (2). -/
example : ¬ MayRun docEnd [2] 10 := by
  have hst : ∀ {o t}, Stands docEnd o t → t = o ∨ t ∈ usesList docEnd o := fun h => by
    rcases h.uses with rfl | h
    · exact .inl rfl
    · exact .inr (mem_usesList h)
  have hall : ∀ x < 11, ∀ y ∈ usesList docEnd x, y < 10 := by decide +kernel
  have hlen := doc_objs.1
  have hu : ∀ {x y}, Uses docEnd x y → y < 10 := fun h => hall _ (hlen ▸ h.isObj) _ (mem_usesList h)
  have key : ∀ t, MayRun docEnd [2] t → t < 10 := by
    intro t h
    induction h with
    | @arg o t hm hs =>
      simp at hm; subst hm
      rcases hs.uses with rfl | h
      · decide
      · exact hu h
    | dep _ h1 h2 _ =>
      rcases h2.uses with rfl | h
      · exact hu h1
      · exact hu h
  exact fun h => absurd (key 10 h) (by decide)

/-- **C76, finding.** A target that is referred to by name in two places, or by name and as the maker of a file, is run twice in one build: here Gen (6). -/
theorem _root_.Fab.Yaml.C76_finding_twice : ∃ L s st, Loaded L s ∧ Reach (buildEnv hex sum own s) (world false) [.call .root [.ptr 2] .ret] st ∧
    startOf st = [2, 4, 9, 6, 6, 5, 3, 8] ∧ (s.reg.target "Gen".toList).1 = some 6 ∧ (s.reg.target "All".toList).1 = some 2 :=
  ⟨_, _, run docEnd false [2] sched1, doc_loaded, run_reach docEnd false [2] sched1, by decide +kernel, by decide +kernel, by decide +kernel⟩

/-! In the other project A and B make each other's input, and E is another name of itself. -/

theorem loop_endless : Endless loopEnd 1 ∧ Endless loopEnd 6 ∧ Endless loopEnd 8 := by
  have b13 : Begins loopEnd 1 3 := .input (t := 0) (ins := ["/top/y".toList]) (outs := ["/top/x".toList]) (i := "/top/y".toList) (by rfl) (by simp) (by decide +kernel)
  have b31 : Begins loopEnd 3 1 := .input (t := 2) (ins := ["/top/x".toList]) (outs := ["/top/y".toList]) (i := "/top/x".toList) (by rfl) (by simp) (by decide +kernel)
  have b65 : Begins loopEnd 6 5 := .all (ts := [4, 5]) (by rfl) (by simp)
  have b51 : Begins loopEnd 5 1 := .name (name := "A".toList) (by rfl) (by decide +kernel)
  have b88 : Begins loopEnd 8 8 := .name (name := "E".toList) (by rfl) (by decide +kernel)
  have c : Relation.TransGen (Begins loopEnd) 1 1 := .tail (.single b13) b31
  exact ⟨⟨1, .refl, c⟩, ⟨1, .tail (.single b65) b51, c⟩, ⟨8, .refl, .single b88⟩⟩

/-- F needs E, which needs itself. -/
example : Circular loopEnd 11 := by
  have n : Needs loopEnd 11 10 := .seq (ts := [9, 10]) (by rfl) (by simp)
  have n' : Needs loopEnd 10 8 := .name (name := "E".toList) (by rfl) (by decide +kernel)
  have n'' : Needs loopEnd 8 8 := .name (name := "E".toList) (by rfl) (by decide +kernel)
  exact ⟨8, .tail (.single n) n', .single n''⟩

/-- a cycle, as `C76_older` has it -/
example : Relation.TransGen (Uses loopEnd) 1 1 :=
  .tail (.single (.needs (.input (t := 0) (ins := ["/top/y".toList]) (outs := ["/top/x".toList]) (i := "/top/y".toList) (y := 3) (by rfl) (by simp) (by decide +kernel))))
    (.needs (.input (t := 2) (ins := ["/top/x".toList]) (outs := ["/top/y".toList]) (i := "/top/x".toList) (by rfl) (by simp) (by decide +kernel)))

/-- `fab C` begins, runs D, and waits for A and B for ever. -/
example : ∃ st, Reach (buildEnv hex sum own loopEnd) (world false) [.call .root [.ptr 6] .ret] st ∧ finOf st = [(4, 7)] ∧
    startOf st = [6, 7, 1, 3, 1] ∧ retOf st = [] :=
  ⟨run loopEnd false [6] sched2, run_reach loopEnd false [6] sched2, by decide +kernel, by decide +kernel, by decide +kernel⟩

end BuildDemo

end Fab.Yaml
