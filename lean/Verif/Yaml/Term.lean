import Verif.Yaml.Refs
import Mathlib.Tactic.FinCases

/-!
# C43: loading YAML files terminates, if references are not circular

The model bounds the depth of nested calls; `more` is the outcome of a computation that was not finished within the bound.  A
computation that never ends (in Go: a stack overflow) is one whose outcome is `more` for every bound.
-/

namespace Fab.Yaml
open Path Cmd

/-! ## Specification -/

/-- The targets directly inside a target: all.go:41-53, seq.go:46-61, deps.go:48-91, argtarg.go:51-69, files.go:324-355 -/
def targetChildren (L : Lib) (node : Node) : List Node :=
  let tag := normalizeTag node.tag
  if (L.targetFn tag).isSome then []
  else if tag = "All".toList ∨ tag = "Seq".toList then node.content
  else if tag = "Deps".toList then
    match node.kind with
    | .sequence => node.content
    | .mapping =>
      match L.decDeps node with
      | .ok d => d.2 :: d.1
      | .error _ => []
    | _ => []
  else if tag = "ArgTarget".toList then node.content.take 1
  else if tag = "Files".toList then
    match L.decFiles node with
    | .ok f => [f.target]
    | .error _ => []
  else []

/-- `m` is `node` or a target somewhere inside it. -/
inductive Mentions (L : Lib) : Node → Node → Prop
  | refl {n} : Mentions L n n
  | child {n c m} (hc : c ∈ targetChildren L n) (h : Mentions L c m) : Mentions L n m

mutual
/-- The depth of a node. -/
def depth : Node → Nat
  | .mk _ _ _ _ _ c => depths c
def depths : List Node → Nat
  | [] => 0
  | n :: ns => max (depth n + 1) (depths ns)
end

/-- Decoding a node gives nodes from inside it, or zero nodes for missing fields. -/
structure Shallow (L : Lib) : Prop where
  files : ∀ n f, L.decFiles n = .ok f → f.target = .zero ∨ depth f.target < depth n
  deps : ∀ n d, L.decDeps n = .ok d → ∀ c ∈ d.2 :: d.1, c = .zero ∨ depth c < depth n

/-- References are not circular: every reference by path, from a target in a YAML file to a target of a directory other than the top
one, leads to a directory of smaller rank, or to a target that comes earlier in the same file. -/
def Ordered (L : Lib) (rank : Str → Nat) : Prop :=
  ∀ D doc d, L.file D = .doc (some doc) → relDir L D = some d → ∀ before key val after, items doc = before ++ (key, val) :: after →
    ∀ m q, Mentions L val m → PathRef L m d q → dirOf q ≠ dot →
      rank (join [L.top, dirOf q]) < rank D ∨ ∃ e ∈ before, q = join [d, e.1.value]

/-! ## More depth never changes an outcome -/

/-- `r'` is `r`, or `r` was not finished -/
def RLe {α : Type} (r r' : R α) : Prop := r = .more ∨ r' = r

theorem RLe.rfl {α : Type} {r : R α} : RLe r r := .inr Eq.refl
where Eq.refl {α : Type} {r : R α} : r = r := by trivial

theorem RLe.bind {α β : Type} {r r' : R α} {k k' : α → St → R β} (h : RLe r r') (hk : ∀ a s, RLe (k a s) (k' a s)) :
    RLe (r.bind k) (r'.bind k') := by
  rcases h with rfl | rfl
  · exact .inl (by trivial)
  · cases r' with
    | ok a s => exact hk a s
    | err e s => exact .inr (by trivial)
    | more => exact .inl (by trivial)

def TLe (f g : Node → Str → St → R Nat) : Prop := ∀ n d s, RLe (f n d s) (g n d s)
def FLe (f g : Str → St → R Unit) : Prop := ∀ d s, RLe (f d s) (g d s)

theorem mapT_le {f g} (h : TLe f g) (dir : Str) (cs : List Node) (s : St) : RLe (mapT f dir cs s) (mapT g dir cs s) := by
  induction cs generalizing s with
  | nil => exact .rfl
  | cons c cs ih => exact RLe.bind (h _ _ _) fun a s => RLe.bind (ih s) fun b s => .rfl

theorem builtin_le {f g} (h : TLe f g) (L : Lib) (tag : Str) (node : Node) (dir : Str) (s : St) :
    RLe (builtin L f tag node dir s) (builtin L g tag node dir s) := by
  have m := mapT_le h dir
  unfold builtin
  split
  · split
    · exact .rfl
    · exact RLe.bind (m _ _) fun a s => .rfl
  split
  · split
    · exact .rfl
    · exact RLe.bind (m _ _) fun a s => .rfl
  split
  · split
    · split
      · exact .rfl
      · exact RLe.bind (h _ _ _) fun a s => RLe.bind (m _ _) fun a s => .rfl
    · exact RLe.bind .rfl fun a s => RLe.bind (h _ _ _) fun a s => RLe.bind (m _ _) fun a s => .rfl
    · exact .rfl
  split
  · split
    · exact .rfl
    · split
      · exact .rfl
      · exact RLe.bind (h _ _ _) fun a s => .rfl
  split
  · split
    · exact .rfl
    · exact RLe.bind .rfl fun a s => RLe.bind (h _ _ _) fun a s => .rfl
  exact .rfl

theorem reference_le {f g} (h : FLe f g) (L : Lib) (v dir : Str) (s : St) : RLe (reference L f v dir s) (reference L g v dir s) := by
  unfold reference
  split
  · exact .rfl
  · split
    · exact .rfl
    · split
      · exact .rfl
      · split
        · exact .rfl
        · exact RLe.bind (h _ _) fun a s => .rfl

theorem targetStep_le {f g f' g'} (h : TLe f g) (h' : FLe f' g') (L : Lib) : TLe (targetStep L f f') (targetStep L g g') := by
  intro n d s
  unfold targetStep
  dsimp only
  split
  · split
    · exact .rfl
    · exact builtin_le h _ _ _ _ _
  · split
    · exact .rfl
    · exact reference_le h' _ _ _ _

theorem readItems_le {f g} (h : TLe f g) (dir : Str) (n : Nat) (c : List Node) (hn : c.length ≤ n) (saw : Bool) (s : St) :
    RLe (readItems f dir c saw s) (readItems g dir c saw s) := by
  induction n generalizing c saw s with
  | zero => cases c with
    | nil => exact .rfl
    | cons => simp at hn
  | succ n ih =>
    match c, hn with
    | [], _ => exact .rfl
    | [_], _ => exact .rfl
    | key :: val :: rest, hn =>
      simp only [List.length_cons] at hn
      rw [readItems, readItems]
      split
      · exact .rfl
      · split
        · split
          · exact .rfl
          · split
            · exact .rfl
            · exact ih rest (by omega) _ _
        · split
          · exact .rfl
          · exact RLe.bind (h _ _ _) fun a s => ih rest (by omega) _ _

theorem fileStep_le {f g} (h : TLe f g) (L : Lib) : FLe (fileStep L f) (fileStep L g) := by
  intro d s
  unfold fileStep
  dsimp only
  split
  · exact .rfl
  · exact .rfl
  · split
    · exact .rfl
    · unfold readDoc
      split
      · exact .rfl
      · split
        · exact .rfl
        · split
          · split
            · exact .rfl
            · split
              · exact .rfl
              · exact RLe.bind (readItems_le h _ _ _ (Nat.le_refl _) _ _) fun a s => .rfl
          · exact .rfl

theorem yaml_le (L : Lib) (n : Nat) : TLe (yamlTarget L n) (yamlTarget L (n + 1)) ∧ FLe (readYAMLFile L n) (readYAMLFile L (n + 1)) := by
  induction n with
  | zero =>
    constructor
    · intro a b c; rw [yamlTarget]; exact .inl (by trivial)
    · intro a b; rw [readYAMLFile]; exact .inl (by trivial)
  | succ n ih =>
    constructor
    · rw [yamlTarget, yamlTarget]; exact targetStep_le ih.1 ih.2 L
    · rw [readYAMLFile, readYAMLFile]; exact fileStep_le ih.1 L

/-- **C43, the bound does not matter.** If `ReadYAMLFile` finishes within some depth of calls, then it has the same outcome within
every greater depth. -/
theorem C43_stable (L : Lib) (n m : Nat) (hm : n ≤ m) (dir : Str) (s : St) (h : readYAMLFile L n dir s ≠ .more) :
    readYAMLFile L m dir s = readYAMLFile L n dir s := by
  induction hm with
  | refl => rfl
  | step hm ih =>
    rename_i m
    rcases (yaml_le L m).2 dir s with h1 | h1
    · rw [ih] at h1; exact absurd h1 h
    · exact h1.trans ih

/-! ## Termination -/

/-- `f` finishes, and a greater bound never changes an outcome -/
structure Halts {α : Type} (f : Nat → R α) : Prop where
  mono : ∀ n, RLe (f n) (f (n + 1))
  halts : ∃ n, f n ≠ .more

theorem mono_le {α : Type} {f : Nat → R α} (h : ∀ n, RLe (f n) (f (n + 1))) {n m : Nat} (hm : n ≤ m) (hn : f n ≠ .more) : f m = f n := by
  induction hm with
  | refl => rfl
  | step hm ih =>
    rename_i m
    rcases h m with h1 | h1
    · rw [ih] at h1; exact absurd h1 hn
    · exact h1.trans ih

theorem Halts.const {α : Type} {r : R α} (h : r ≠ .more) : Halts fun _ => r := ⟨fun _ => .rfl, 0, h⟩

theorem Halts.bind {α β : Type} {f : Nat → R α} {k : Nat → α → St → R β} (h : Halts f) (hm : ∀ n a s, RLe (k n a s) (k (n + 1) a s))
    (hk : ∀ n a s, f n = .ok a s → ∃ m, k m a s ≠ .more) : Halts fun n => (f n).bind (k n) := by
  refine ⟨fun n => RLe.bind (h.mono n) (hm n), ?_⟩
  obtain ⟨n, hn⟩ := h.halts
  cases hf : f n with
  | more => exact absurd hf hn
  | err e s => exact ⟨n, by simp [hf, R.bind]⟩
  | ok a s =>
    obtain ⟨m, hkm⟩ := hk n a s hf
    refine ⟨max n m, ?_⟩
    have h1 : f (max n m) = .ok a s := by rw [mono_le h.mono (Nat.le_max_left n m) hn, hf]
    have h2 : k (max n m) a s = k m a s := mono_le (f := fun n => k n a s) (fun n => hm n a s) (Nat.le_max_right n m) hkm
    simp only [h1, R.bind, h2]
    exact hkm

/-- the names known in a state -/
def Known (s : St) (q : Str) : Prop := ∃ o, (s.reg.target q).1 = some o

theorem lastAs_isSome {q : Str} {h : List (Str × Str × Nat)} : (lastAs q h).isSome ↔ ∃ e ∈ h, e.1 = q := by
  unfold lastAs
  rw [Option.isSome_map, List.getLast?_isSome, Ne, List.filter_eq_nil_iff]
  simp

theorem known_iff {s : St} (hc : Consistent s) (q : Str) : Known s q ↔ ∃ e ∈ s.hist, e.1 = q := by
  rw [← lastAs_isSome, Known, target_eq hc]
  cases lastAs q s.hist with
  | none => simp
  | some x => simp

theorem Known.mono {L A} {s s' : St} (hc : Consistent s) (st : Step L A s s') {q : Str} (h : Known s q) : Known s' q := by
  rw [known_iff (st.cons hc)]
  obtain ⟨e, he, hq⟩ := (known_iff hc q).1 h
  exact ⟨e, st.grow.hist.subset he, hq⟩

/-- In the state `s`, every reference in `node` is to a known name, or to a directory that `ReadYAMLFile` finishes with, whatever the
state. -/
def Safe (L : Lib) (dir : Str) (node : Node) (s : St) : Prop :=
  ∀ m q, Mentions L node m → PathRef L m dir q → dirOf q ≠ dot →
    Known s q ∨ ∀ s', Consistent s' → ∃ n, readYAMLFile L n (dirOf q) s' ≠ .more

theorem Safe.mono {L A} {s s' : St} (hc : Consistent s) (st : Step L A s s') {dir : Str} {node : Node} (h : Safe L dir node s) :
    Safe L dir node s' := by
  intro m q hm hp hd
  rcases h m q hm hp hd with h1 | h1
  · exact .inl (h1.mono hc st)
  · exact .inr h1

theorem Safe.child {L : Lib} {dir : Str} {node c : Node} {s : St} (h : Safe L dir node s) (hc : c ∈ targetChildren L node) :
    Safe L dir c s := fun m q hm => h m q (.child hc hm)

theorem yt_mono (L : Lib) (node : Node) (dir : Str) (s : St) (n : Nat) : RLe (yamlTarget L n node dir s) (yamlTarget L (n + 1) node dir s) :=
  (yaml_le L n).1 node dir s

theorem yt_step {L : Lib} {n : Nat} {node : Node} {dir : Str} {s s' : St} {o : Nat} (hc : Consistent s)
    (h : yamlTarget L n node dir s = .ok o s') : Step L nothing s s' := by
  have := (yaml_ok L n).1 nothing node dir s hc
  rw [h] at this
  exact this.1

theorem mapT_halts {L : Lib} {dir : Str} (cs : List Node)
    (h : ∀ c ∈ cs, ∀ s, Consistent s → Safe L dir c s → ∃ n, yamlTarget L n c dir s ≠ .more) (s : St) (hc : Consistent s)
    (hs : ∀ c ∈ cs, Safe L dir c s) : Halts fun n => mapT (yamlTarget L n) dir cs s := by
  induction cs generalizing s with
  | nil => exact Halts.const (by simp)
  | cons c cs ih =>
    refine Halts.bind (f := fun n => yamlTarget L n c dir s)
      (k := fun n i s => (mapT (yamlTarget L n) dir cs s).bind fun is s => .ok (i :: is) s)
      ⟨yt_mono L c dir s, h c List.mem_cons_self s hc (hs c List.mem_cons_self)⟩ ?_ ?_
    · intro n a s; exact RLe.bind (mapT_le (yaml_le L n).1 dir cs s) fun _ _ => .rfl
    · intro n a s1 hf
      have st := yt_step hc hf
      exact (Halts.bind (ih (fun c hcm => h c (List.mem_cons_of_mem _ hcm)) s1 (st.cons hc)
        fun c hcm => (hs c (List.mem_cons_of_mem _ hcm)).mono hc st) (fun _ _ _ => .rfl) fun n a s _ => ⟨0, by simp⟩).halts

theorem alloc_ne {o : Obj} {s : St} : alloc o s ≠ .more := by simp [alloc]

theorem lift_cases {α : Type} (x : Except YErr α) (s : St) : (∃ a, x = .ok a ∧ lift x s = .ok a s) ∨ ∃ e, lift x s = .err e s := by
  cases x with
  | ok a => exact .inl ⟨a, rfl, rfl⟩
  | error e => exact .inr ⟨e, rfl⟩

theorem allocCmds_ne {mk : Str → Bool → Command} {first : Bool} {l : List Str} {s : St} : allocCmds mk first l s ≠ .more := by
  induction l generalizing first s with
  | nil => simp [allocCmds]
  | cons a l ih =>
    rw [allocCmds]
    simp only [alloc, R.bind]
    split
    · simp
    · simp
    · rename_i h; exact absurd h ih

theorem commandDecoder_ne {L : Lib} {node : Node} {dir : Str} {s : St} : commandDecoder L node dir s ≠ .more := by
  unfold commandDecoder
  split
  · simp
  · rcases lift_cases (L.decCommand node) s with ⟨c, -, h⟩ | ⟨e, h⟩ <;> rw [h]
    · simp only [R.bind]
      rcases lift_cases (stringList L c.args dir) s with ⟨args, -, h⟩ | ⟨e, h⟩ <;> rw [h]
      · simp only
        rcases lift_cases (stringList L c.env dir) s with ⟨a, -, h⟩ | ⟨e, h⟩ <;> rw [h]
        · simp only
          split
          · split
            · split <;> simp [alloc]
            · simp
            · rename_i l hl
              cases hr : allocCmds (fun sh app => toTarget L c sh dir args a app) true l s with
              | ok a s => simp [alloc]
              | err e s => simp
              | more => exact absurd hr allocCmds_ne
          · split <;> simp [alloc]
        · simp
      · simp
    · simp [R.bind]

theorem depth_content {node c : Node} (h : c ∈ node.content) : depth c < depth node := by
  cases node with
  | mk k t v hd l cs =>
    simp only [Node.content] at h
    rw [depth]
    induction cs with
    | nil => cases h
    | cons a cs ih =>
      rw [depths]
      rcases List.mem_cons.1 h with rfl | h
      · omega
      · have := ih h; omega

theorem newFiles_ne {t ins outs ac} {s : St} : newFiles t ins outs ac s ≠ .more := by simp [newFiles]

theorem builtin_halts {L : Lib} {dir : Str} (node : Node) (hf : L.targetFn (normalizeTag node.tag) = none)
    (ih : ∀ c ∈ targetChildren L node, ∀ s, Consistent s → Safe L dir c s → ∃ n, yamlTarget L n c dir s ≠ .more) (s : St)
    (hc : Consistent s) (hs : Safe L dir node s) :
    ∃ n, builtin L (yamlTarget L n) (normalizeTag node.tag) node dir s ≠ .more := by
  have one : ∀ c ∈ targetChildren L node, ∀ s', Step L nothing s s' → Halts fun n => yamlTarget L n c dir s' := fun c hcm s' st =>
    ⟨yt_mono L c dir s', ih c hcm s' (st.cons hc) ((hs.child hcm).mono hc st)⟩
  have many : ∀ cs, (∀ c ∈ cs, c ∈ targetChildren L node) → ∀ s', Step L nothing s s' → Halts fun n => mapT (yamlTarget L n) dir cs s' :=
    fun cs hcs s' st => mapT_halts cs (fun c hcm => ih c (hcs c hcm)) s' (st.cons hc) fun c hcm => (hs.child (hcs c hcm)).mono hc st
  have hfn : (L.targetFn (normalizeTag node.tag)).isSome = false := by rw [hf]; rfl
  have mm : ∀ n cs s', RLe (mapT (yamlTarget L n) dir cs s') (mapT (yamlTarget L (n + 1)) dir cs s') := fun n cs s' =>
    mapT_le (yaml_le L n).1 dir cs s'
  unfold targetChildren at one many
  dsimp only at one many
  rw [hfn] at one many
  simp only [Bool.false_eq_true, if_false] at one many
  by_cases h1 : normalizeTag node.tag = "All".toList
  · rw [if_pos (.inl h1)] at one many
    by_cases hk : node.kind = .sequence
    · obtain ⟨n, hn⟩ := (Halts.bind (many node.content (fun _ h => h) s .rfl) (k := fun _ ids s => alloc (.all ids) s) (fun _ _ _ => .rfl) fun _ _ _ _ => ⟨0, alloc_ne⟩).halts
      exact ⟨n, by rw [builtin, if_pos h1, if_neg (by simp [hk])]; exact hn⟩
    · exact ⟨0, by rw [builtin, if_pos h1, if_pos hk]; simp⟩
  by_cases h2 : normalizeTag node.tag = "Seq".toList
  · rw [if_pos (.inr h2)] at one many
    by_cases hk : node.kind = .sequence
    · obtain ⟨n, hn⟩ := (Halts.bind (many node.content (fun _ h => h) s .rfl) (k := fun _ ids s => alloc (.seq ids) s) (fun _ _ _ => .rfl) fun _ _ _ _ => ⟨0, alloc_ne⟩).halts
      exact ⟨n, by rw [builtin, if_neg h1, if_pos h2, if_neg (by simp [hk])]; exact hn⟩
    · exact ⟨0, by rw [builtin, if_neg h1, if_pos h2, if_pos hk]; simp⟩
  rw [if_neg (by rintro (h | h); exacts [h1 h, h2 h])] at one many
  by_cases h3 : normalizeTag node.tag = "Deps".toList
  · rw [if_pos h3] at one many
    have deps : ∀ t ds, (∀ c, c = t → ∀ s', Step L nothing s s' → Halts fun n => yamlTarget L n c dir s') →
        (∀ s', Step L nothing s s' → Halts fun n => mapT (yamlTarget L n) dir ds s') →
        ∃ n, ((yamlTarget L n t dir s).bind fun t s => (mapT (yamlTarget L n) dir ds s).bind fun ids s =>
          (alloc (.all ids) s).bind fun a s => alloc (.seq [a, t]) s) ≠ .more := by
      intro t ds ht hds
      refine (Halts.bind (ht t rfl s .rfl) (k := fun n t s => (mapT (yamlTarget L n) dir ds s).bind fun ids s =>
          (alloc (.all ids) s).bind fun a s => alloc (.seq [a, t]) s) ?_ ?_).halts
      · intro n a s'; exact RLe.bind (mm n ds s') fun _ _ => .rfl
      · intro n a s1 h
        exact (Halts.bind (hds s1 (yt_step hc h)) (k := fun _ ids s => (alloc (.all ids) s).bind fun a' s => alloc (.seq [a', a]) s)
          (fun _ _ _ => .rfl) fun _ _ _ _ => ⟨0, by simp [alloc, R.bind]⟩).halts
    cases hk : node.kind with
    | sequence =>
      rw [hk] at one many
      simp only at one many
      cases hcont : node.content with
      | nil => exact ⟨0, by rw [builtin, if_neg h1, if_neg h2, if_pos h3, hk]; simp [hcont]⟩
      | cons t ds =>
        rw [hcont] at one many
        obtain ⟨n, hn⟩ := deps t ds (fun c h s' st => by subst h; exact one c List.mem_cons_self s' st)
          (many ds fun c h => List.mem_cons_of_mem _ h)
        refine ⟨n, ?_⟩
        rw [builtin, if_neg h1, if_neg h2, if_pos h3, hk]
        simp only [hcont]
        exact hn
    | mapping =>
      rw [hk] at one many
      simp only at one many
      rcases lift_cases (L.decDeps node) s with ⟨d, hd, hl⟩ | ⟨e, hl⟩
      · rw [hd] at one many
        simp only at one many
        obtain ⟨n, hn⟩ := deps d.2 d.1 (fun c h s' st => by subst h; exact one d.2 List.mem_cons_self s' st)
          (many d.1 fun c h => List.mem_cons_of_mem _ h)
        refine ⟨n, ?_⟩
        rw [builtin, if_neg h1, if_neg h2, if_pos h3, hk]
        simp only [hl, R.bind]
        exact hn
      · refine ⟨0, ?_⟩
        rw [builtin, if_neg h1, if_neg h2, if_pos h3, hk]
        simp [hl, R.bind]
    | _ => exact ⟨0, by rw [builtin, if_neg h1, if_neg h2, if_pos h3, hk]; simp⟩
  rw [if_neg h3] at one many
  by_cases h4 : normalizeTag node.tag = "ArgTarget".toList
  · rw [if_pos h4] at one many
    by_cases hk : node.kind = .sequence
    · cases hcont : node.content with
      | nil => exact ⟨0, by rw [builtin, if_neg h1, if_neg h2, if_neg h3, if_pos h4, if_neg (by simp [hk]), hcont]; simp⟩
      | cons t rest =>
        rw [hcont] at one many
        obtain ⟨n, hn⟩ := (Halts.bind (one t (by simp) s .rfl)
          (k := fun _ t s => (lift (fromNodes L rest dir) s).bind fun args s => alloc (.arg t args) s) (fun _ _ _ => .rfl) (by
            intro n a s' _
            rcases lift_cases (fromNodes L rest dir) s' with ⟨d, -, hl⟩ | ⟨e, hl⟩ <;> exact ⟨0, by simp [hl, R.bind, alloc]⟩)).halts
        exact ⟨n, by rw [builtin, if_neg h1, if_neg h2, if_neg h3, if_pos h4, if_neg (by simp [hk]), hcont]; exact hn⟩
    · exact ⟨0, by rw [builtin, if_neg h1, if_neg h2, if_neg h3, if_pos h4, if_pos hk]; simp⟩
  rw [if_neg h4] at one many
  by_cases h5 : normalizeTag node.tag = "Files".toList
  · rw [if_pos h5] at one many
    by_cases hk : node.kind = .mapping
    · rcases lift_cases (L.decFiles node) s with ⟨f, hd, hl⟩ | ⟨e, hl⟩
      · rw [hd] at one many
        simp only at one many
        obtain ⟨n, hn⟩ := (Halts.bind (one f.target (by simp) s .rfl)
          (k := fun _ t s => (lift (fileList L f.ins dir) s).bind fun ins s =>
            (lift (fileList L f.outs dir) s).bind fun outs s => newFiles t ins outs f.autoclean s) (fun _ _ _ => .rfl) (by
            intro n a s' _
            rcases lift_cases (fileList L f.ins dir) s' with ⟨d, -, hl⟩ | ⟨e, hl⟩
            · rcases lift_cases (fileList L f.outs dir) s' with ⟨d', -, hl'⟩ | ⟨e', hl'⟩
              · exact ⟨0, by simp only [hl, hl', R.bind]; exact newFiles_ne⟩
              · exact ⟨0, by simp [hl, hl', R.bind]⟩
            · exact ⟨0, by simp [hl, R.bind]⟩)).halts
        refine ⟨n, ?_⟩
        rw [builtin, if_neg h1, if_neg h2, if_neg h3, if_neg h4, if_pos h5, if_neg (by simp [hk]), hl]
        exact hn
      · refine ⟨0, ?_⟩
        rw [builtin, if_neg h1, if_neg h2, if_neg h3, if_neg h4, if_pos h5, if_neg (by simp [hk]), hl]
        simp [R.bind]
    · exact ⟨0, by rw [builtin, if_neg h1, if_neg h2, if_neg h3, if_neg h4, if_pos h5, if_pos hk]; simp⟩
  refine ⟨0, ?_⟩
  rw [builtin, if_neg h1, if_neg h2, if_neg h3, if_neg h4, if_neg h5]
  split
  · split
    · rcases lift_cases (L.decClean node) s with ⟨d, -, hl⟩ | ⟨e, hl⟩
      · rcases lift_cases (fileList L d.1 dir) s with ⟨l, -, hl'⟩ | ⟨e, hl'⟩ <;> simp [hl, hl', R.bind, alloc]
      · simp [hl, R.bind]
    · rcases lift_cases (fileListFromNodes L node.content dir) s with ⟨l, -, hl'⟩ | ⟨e, hl'⟩ <;> simp [hl', R.bind, alloc]
    · simp
  · split
    · exact commandDecoder_ne
    · simp

theorem children_shallow {L : Lib} (h : Shallow L) {node c : Node} (hc : c ∈ targetChildren L node) : c = .zero ∨ depth c < depth node := by
  unfold targetChildren at hc
  dsimp only at hc
  split at hc
  · cases hc
  split at hc
  · exact .inr (depth_content hc)
  split at hc
  · split at hc
    · exact .inr (depth_content hc)
    · split at hc
      · rename_i d hd; exact h.deps _ _ hd c hc
      · cases hc
    · cases hc
  split at hc
  · exact .inr (depth_content (List.mem_of_mem_take hc))
  split at hc
  · split at hc
    · rename_i f hf
      rw [List.mem_singleton] at hc
      subst hc
      exact h.files _ _ hf
    · cases hc
  · cases hc

theorem target_halts {L : Lib} (hL : Shallow L) (dir : Str) (k : Nat) : ∀ node, node = Node.zero ∨ depth node < k → ∀ s, Consistent s →
    Safe L dir node s → ∃ n, yamlTarget L n node dir s ≠ .more := by
  have hz : ∀ s, ∃ n, yamlTarget L n .zero dir s ≠ .more := fun s => ⟨1, by
    rw [yamlTarget, targetStep]
    simp [Node.zero, Node.tag, Node.kind, normalizeTag]⟩
  induction k with
  | zero =>
    rintro node (rfl | h) s _ _
    · exact hz s
    · omega
  | succ k ih =>
    rintro node (rfl | hd) s hc hs
    · exact hz s
    have hch : ∀ c ∈ targetChildren L node, ∀ s, Consistent s → Safe L dir c s → ∃ n, yamlTarget L n c dir s ≠ .more := by
      intro c hcm
      refine ih c ?_
      rcases children_shallow hL hcm with h | h
      · exact .inl h
      · exact .inr (by omega)
    by_cases ht : normalizeTag node.tag = []
    · by_cases hk : node.kind = .scalar
      · have := hs node
        suffices ∃ n, reference L (readYAMLFile L n) node.value dir s ≠ .more by
          obtain ⟨n, hn⟩ := this
          exact ⟨n + 1, by rw [yamlTarget_ref L n node dir s ht hk]; exact hn⟩
        unfold reference
        by_cases hv : '/' ∈ node.value
        · simp only [if_neg (not_not.2 hv)]
          cases hq : relPath L.top (joinPath L.top [dir, node.value]) with
          | none => exact ⟨0, by simp⟩
          | some q =>
            simp only
            by_cases hdq : dirOf q = dot
            · exact ⟨0, by rw [if_pos hdq]; exact alloc_ne⟩
            · simp only [if_neg hdq]
              cases hg : (s.reg.target q).1 with
              | some o => exact ⟨0, by simp⟩
              | none =>
                simp only
                rcases hs node q .refl ⟨ht, hk, hv, hq⟩ hdq with ⟨o, ho⟩ | hr
                · rw [hg] at ho; cases ho
                · refine (Halts.bind (f := fun n => readYAMLFile L n (dirOf q) s) ⟨fun n => (yaml_le L n).2 _ _, hr s hc⟩
                    (k := fun _ _ s => match (s.reg.target q).1 with
                      | some o => .ok o s
                      | none => .err (.unresolved q) s) (fun _ _ _ => .rfl) ?_).halts
                  intro n a s1 _
                  exact ⟨0, by split <;> simp⟩
        · exact ⟨0, by rw [if_pos hv]; exact alloc_ne⟩
      · refine ⟨1, ?_⟩
        rw [yamlTarget, targetStep, if_neg (by simp [ht]), if_pos hk]
        simp
    · cases hf : L.targetFn (normalizeTag node.tag) with
      | some fn =>
        refine ⟨1, ?_⟩
        rw [yamlTarget, targetStep]
        simp only [hf]
        rw [if_pos ht]
        rcases lift_cases (fn node dir) s with ⟨d, -, hl⟩ | ⟨e, hl⟩ <;> simp [hl, R.bind, alloc]
      | none =>
        obtain ⟨n, hn⟩ := builtin_halts node hf hch s hc hs
        refine ⟨n + 1, ?_⟩
        rw [yamlTarget, targetStep]
        simp only [hf]
        rw [if_pos ht]
        exact hn

/-- the loop over the items of a file -/
theorem readItems_halts {L : Lib} (hL : Shallow L) (d : Str) (doc : Node)
    (hsafe : ∀ before key val after, items doc = before ++ (key, val) :: after → ∀ m q, Mentions L val m → PathRef L m d q → dirOf q ≠ dot →
      (∀ s', Consistent s' → ∃ n, readYAMLFile L n (dirOf q) s' ≠ .more) ∨ ∃ e ∈ before, q = join [d, e.1.value])
    (k : Nat) (c : List Node) (hk : c.length ≤ k) (before : List (Node × Node))
    (hit : items doc = before ++ (pairs c).filter fun e => e.1.value ≠ "_dir".toList) (saw : Bool) (s : St) (hc : Consistent s)
    (hkn : ∀ e ∈ before, Known s (join [d, e.1.value])) : Halts fun n => readItems (yamlTarget L n) d c saw s := by
  refine ⟨fun n => readItems_le (yaml_le L n).1 _ _ _ (Nat.le_refl _) _ _, ?_⟩
  induction k generalizing c before saw s with
  | zero =>
    cases c with
    | nil => exact ⟨0, by simp [readItems]⟩
    | cons => simp at hk
  | succ k ih =>
    match c, hk with
    | [], _ => exact ⟨0, by simp [readItems]⟩
    | [_], _ => exact ⟨0, by simp [readItems]⟩
    | key :: val :: rest, hk =>
      simp only [List.length_cons] at hk
      simp only [readItems]
      have hp : pairs (key :: val :: rest) = (key, val) :: pairs rest := rfl
      rw [hp] at hit
      by_cases h1 : key.kind = .scalar
      · by_cases h2 : key.value = sDir
        · by_cases h3 : val.kind = .scalar
          · by_cases h4 : val.value = d
            · rw [List.filter_cons_of_neg (by rw [decide_eq_true_eq]; exact not_not.2 h2)] at hit
              obtain ⟨n, hn⟩ := ih rest (by omega) before hit true s hc hkn
              exact ⟨n, by rw [if_neg (by simp [h1]), if_pos h2, if_neg (by simp [h3]), if_neg (by simp [h4])]; exact hn⟩
            · exact ⟨0, by rw [if_neg (by simp [h1]), if_pos h2, if_neg (by simp [h3]), if_pos h4]; simp⟩
          · exact ⟨0, by rw [if_neg (by simp [h1]), if_pos h2, if_pos h3]; simp⟩
        · by_cases h3 : '/' ∈ key.value
          · exact ⟨0, by rw [if_neg (by simp [h1]), if_neg h2, if_pos h3]; simp⟩
          · rw [List.filter_cons_of_pos (by rw [decide_eq_true_eq]; exact h2)] at hit
            have hS : Safe L d val s := by
              intro m q hm hr hd
              rcases hsafe before key val _ hit m q hm hr hd with h | ⟨e, he, rfl⟩
              · exact .inr h
              · exact .inl (hkn e he)
            have hval := target_halts hL d (depth val + 1) val (.inr (by omega)) s hc hS
            obtain ⟨n, hn⟩ := (Halts.bind (f := fun n => yamlTarget L n val d s) ⟨yt_mono L val d s, hval⟩
              (k := fun n o s => readItems (yamlTarget L n) d rest saw (register (join [d, key.value]) (docOf key) o s))
              (fun n a s => readItems_le (yaml_le L n).1 _ _ _ (Nat.le_refl _) _ _) (by
                intro n o s1 h
                have st := yt_step hc h
                have hden : Denotes L s1 val d o := by
                  have := (yaml_ok L n).1 nothing val d s hc
                  rw [h] at this
                  exact this.2
                have st2 : Step L (fun _ _ _ => True) s1 (register (join [d, key.value]) (docOf key) o s1) := register_step trivial hden
                refine ih rest (by omega) (before ++ [(key, val)]) (by rw [hit]; simp) saw _ (st2.cons (st.cons hc)) ?_
                intro e he
                rcases List.mem_append.1 he with he | he
                · exact ((hkn e he).mono hc st).mono (st.cons hc) st2
                · rw [List.mem_singleton] at he
                  subst he
                  rw [known_iff (st2.cons (st.cons hc))]
                  exact ⟨_, by simp only [register]; exact List.mem_append_right _ (List.mem_singleton_self _), rfl⟩)).halts
            exact ⟨n, by rw [if_neg (by simp [h1]), if_neg h2, if_neg h3]; exact hn⟩
      · exact ⟨0, by rw [if_pos h1]; simp⟩

/-- **C43, partial.** If the references between the YAML files are not circular (each leads to a directory of smaller rank, or to an
earlier target of the same file), then reading the YAML file of any directory terminates, with success or with an error.

What is missing: without that hypothesis it is false, see below. -/
theorem C43_terminates_partial (L : Lib) (hL : Shallow L) (rank : Str → Nat) (ho : Ordered L rank) (dir : Str) (s : St)
    (hc : Consistent s) : ∃ n, readYAMLFile L n dir s ≠ .more := by
  generalize hr : rank (join [L.top, dir]) = k
  induction k using Nat.strong_induction_on generalizing dir s with
  | _ k ih =>
    cases hf : L.file (join [L.top, dir]) with
    | none => exact ⟨1, by rw [readYAMLFile, fileStep]; simp [hf]⟩
    | ioError => exact ⟨1, by rw [readYAMLFile, fileStep]; simp [hf]⟩
    | doc doc =>
      cases hrel : relPath L.top (join [L.top, dir]) with
      | none => exact ⟨1, by rw [readYAMLFile, fileStep]; simp [hf, hrel]⟩
      | some r =>
        suffices ∃ n, readDoc (yamlTarget L n) doc (if r = dot then [] else r) { s with reads := s.reads ++ [join [L.top, dir]] } ≠ .more by
          obtain ⟨n, hn⟩ := this
          exact ⟨n + 1, by rw [readYAMLFile, fileStep]; simp only [hf, hrel]; exact hn⟩
        cases doc with
        | none => exact ⟨0, by simp [readDoc]⟩
        | some doc =>
          have hc0 : Consistent { s with reads := s.reads ++ [join [L.top, dir]] } := hc
          generalize { s with reads := s.reads ++ [join [L.top, dir]] } = s0 at hc0 ⊢
          have hD := relDir_eq hrel
          generalize (if r = dot then [] else r) = d at hD ⊢
          unfold readDoc
          simp only
          by_cases h1 : doc.kind = .document
          · simp only [if_neg (not_not.2 h1)]
            split
            · rename_i m hm
              by_cases h2 : m.kind = .mapping
              · simp only [if_neg (not_not.2 h2)]
                by_cases h3 : m.content.length % 2 = 0
                · simp only [if_neg (not_not.2 h3)]
                  have hit : items doc = [] ++ (pairs m.content).filter fun e => e.1.value ≠ "_dir".toList := by
                    rw [items, entries_eq h1 hm h2]; rfl
                  have := readItems_halts hL d doc (by
                    intro before key val after h m q hm hr' hd
                    rcases ho _ doc d hf hD before key val after h m q hm hr' hd with h | h
                    · exact .inl fun s' hs' => ih _ (by rw [← hr]; exact h) (dirOf q) s' hs' rfl
                    · exact .inr h) _ m.content (Nat.le_refl _) [] hit false s0 hc0 (by simp)
                  refine (Halts.bind this (k := fun _ saw s => if d ≠ [] ∧ saw = false then .err .badDir s else .ok () s)
                    (fun _ _ _ => .rfl) ?_).halts
                  intro n a s1 _
                  exact ⟨0, by split <;> simp⟩
                · exact ⟨0, by rw [if_pos h3]; simp⟩
              · exact ⟨0, by rw [if_pos h2]; simp⟩
            · exact ⟨0, by simp⟩
          · exact ⟨0, by rw [if_pos h1]; simp⟩

/-! ## C43 is false: circular references are followed forever -/

/-- One YAML file, in the directory a:

    _dir: a
    P: ./Q
    Q: !Clean []
-/
def loopDoc : Node := exDoc [exKey "_dir" "", exScalar "a", exKey "P" "", exScalar "./Q", exKey "Q" "", exTagged "!Clean" .sequence []]

def loopLib : Lib := { exLib with file := fun D => if D = "/top/a".toList then .doc (some loopDoc) else .none }

theorem loop_ref : PathRef loopLib (exScalar "./Q") "a".toList "a/Q".toList ∧ dirOf "a/Q".toList = "a".toList :=
  ⟨⟨by decide +kernel, rfl, by decide, by decide +kernel⟩, by decide +kernel⟩

theorem loop (n : Nat) (s : St) (hs : (s.reg.target "a/Q".toList).1 = none) :
    yamlTarget loopLib n (exScalar "./Q") "a".toList s = .more ∧ readYAMLFile loopLib n "a".toList s = .more := by
  induction n using Nat.strong_induction_on generalizing s with
  | _ n ih =>
    cases n with
    | zero => exact ⟨by rw [yamlTarget], by rw [readYAMLFile]⟩
    | succ n =>
      constructor
      · obtain ⟨hr, hd⟩ := loop_ref
        rw [yamlTarget_ref _ _ _ _ _ hr.tag hr.kind, reference, if_neg (not_not.2 hr.slash), show relPath loopLib.top _ = _ from hr.name]
        dsimp only
        rw [if_neg (by rw [hd]; decide), hs, hd, (ih n (by omega) s hs).2]
        rfl
      · have hj : join [loopLib.top, "a".toList] = "/top/a".toList := by decide +kernel
        have hrel : relPath loopLib.top "/top/a".toList = some "a".toList := by decide +kernel
        rw [readYAMLFile, fileStep, hj]
        have hf : loopLib.file "/top/a".toList = .doc (some loopDoc) := rfl
        simp only [hf, hrel]
        rw [if_neg (by decide)]
        have := (ih n (by omega) { s with reads := s.reads ++ ["/top/a".toList] } hs).1
        show R.bind (R.bind (yamlTarget loopLib n (exScalar "./Q") "a".toList _) _) _ = _
        rw [this]
        rfl

/-- **C43 is false.** There is a YAML file whose reading never ends: in the directory a, a target that refers to a later target of
the same file by a path (`P: ./Q`). -/
theorem C43_counterexample_forward_reference : ∃ (L : Lib) (dir : Str), isAbs L.top = true ∧ Shallow L ∧
    (∃ doc, L.file (join [L.top, dir]) = .doc (some doc) ∧ WellFormed doc dir ∧ items doc = [(exKey "P" "", exScalar "./Q"), (exKey "Q" "", exTagged "!Clean" .sequence [])]) ∧
    ∀ n, readYAMLFile L n dir St.empty = .more := by
  refine ⟨loopLib, "a".toList, by decide, ⟨fun _ _ h => (nomatch h), fun _ _ h => (nomatch h)⟩, ⟨loopDoc, rfl, ?_, rfl⟩, fun n => (loop n _ rfl).2⟩
  refine ⟨rfl, ⟨_, rfl, rfl, rfl⟩, ?_, ?_, ?_, ?_⟩
  · intro e he
    have he' : e ∈ [(exKey "_dir" "", exScalar "a"), (exKey "P" "", exScalar "./Q"), (exKey "Q" "", exTagged "!Clean" .sequence [])] := he
    fin_cases he' <;> rfl
  · intro e he
    have he' : e ∈ [(exKey "P" "", exScalar "./Q"), (exKey "Q" "", exTagged "!Clean" .sequence [])] := he
    fin_cases he' <;> decide
  · intro e he hv
    have he' : e ∈ [(exKey "_dir" "", exScalar "a"), (exKey "P" "", exScalar "./Q"), (exKey "Q" "", exTagged "!Clean" .sequence [])] := he
    fin_cases he'
    · exact ⟨rfl, rfl⟩
    · exact absurd hv (by decide)
    · exact absurd hv (by decide)
  · intro _; exact ⟨_, List.mem_cons_self, rfl⟩

/-- Two YAML files, in the directories a and b, with the targets `P: ../b/Q` and `Q: ../a/P`. -/
def loop2A : Node := exDoc [exKey "_dir" "", exScalar "a", exKey "P" "", exScalar "../b/Q"]
def loop2B : Node := exDoc [exKey "_dir" "", exScalar "b", exKey "Q" "", exScalar "../a/P"]

def loop2Lib : Lib := { exLib with
  file := fun D => if D = "/top/a".toList then .doc (some loop2A) else if D = "/top/b".toList then .doc (some loop2B) else .none }

/-- **C43 is false.** A circular reference between two directories is followed forever as well. -/
theorem C43_counterexample_two_directories (n : Nat) (s : St) (hP : (s.reg.target "a/P".toList).1 = none)
    (hQ : (s.reg.target "b/Q".toList).1 = none) :
    readYAMLFile loop2Lib n "a".toList s = .more ∧ readYAMLFile loop2Lib n "b".toList s = .more := by
  have hrA : PathRef loop2Lib (exScalar "../b/Q") "a".toList "b/Q".toList ∧ dirOf "b/Q".toList = "b".toList :=
    ⟨⟨by decide +kernel, rfl, by decide, by decide +kernel⟩, by decide +kernel⟩
  have hrB : PathRef loop2Lib (exScalar "../a/P") "b".toList "a/P".toList ∧ dirOf "a/P".toList = "a".toList :=
    ⟨⟨by decide +kernel, rfl, by decide, by decide +kernel⟩, by decide +kernel⟩
  have ref : ∀ (v : String) (dir q d : Str) (k : Nat) (s : St), PathRef loop2Lib (exScalar v) dir q ∧ dirOf q = d → d ≠ dot →
      (s.reg.target q).1 = none → (∀ m < k, readYAMLFile loop2Lib m d s = .more) → yamlTarget loop2Lib k (exScalar v) dir s = .more := by
    rintro v dir q d k s ⟨hr, rfl⟩ hd hs h
    cases k with
    | zero => rw [yamlTarget]
    | succ k =>
      rw [yamlTarget_ref _ _ _ _ _ hr.tag hr.kind, reference, if_neg (not_not.2 hr.slash), show relPath loop2Lib.top _ = _ from hr.name]
      dsimp only
      rw [if_neg hd, hs, h k (by omega)]
      rfl
  induction n using Nat.strong_induction_on generalizing s with
  | _ n ih =>
    cases n with
    | zero => exact ⟨by rw [readYAMLFile], by rw [readYAMLFile]⟩
    | succ n =>
      constructor
      · have hj : join [loop2Lib.top, "a".toList] = "/top/a".toList := by decide +kernel
        have hrel : relPath loop2Lib.top "/top/a".toList = some "a".toList := by decide +kernel
        rw [readYAMLFile, fileStep, hj]
        have hf : loop2Lib.file "/top/a".toList = .doc (some loop2A) := rfl
        simp only [hf, hrel]
        rw [if_neg (by decide)]
        have := ref "../b/Q" _ _ _ n { s with reads := s.reads ++ ["/top/a".toList] } hrA (by decide) hQ
          fun m hm => (ih m (by omega) { s with reads := s.reads ++ ["/top/a".toList] } hP hQ).2
        show R.bind (R.bind (yamlTarget loop2Lib n (exScalar "../b/Q") "a".toList _) _) _ = _
        rw [this]
        rfl
      · have hj : join [loop2Lib.top, "b".toList] = "/top/b".toList := by decide +kernel
        have hrel : relPath loop2Lib.top "/top/b".toList = some "b".toList := by decide +kernel
        rw [readYAMLFile, fileStep, hj]
        have hf : loop2Lib.file "/top/b".toList = .doc (some loop2B) := rfl
        simp only [hf, hrel]
        rw [if_neg (by decide)]
        have := ref "../a/P" _ _ _ n { s with reads := s.reads ++ ["/top/b".toList] } hrB (by decide) hP
          fun m hm => (ih m (by omega) { s with reads := s.reads ++ ["/top/b".toList] } hP hQ).1
        show R.bind (R.bind (yamlTarget loop2Lib n (exScalar "../a/P") "b".toList _) _) _ = _
        rw [this]
        rfl

/-! A project that meets the hypotheses of `C43_terminates_partial`: the file in a refers to b; the file in b to an earlier target of
its own, and it has a Files target with a target inside. -/

def ordA : Node := exDoc [exKey "_dir" "", exScalar "a", exKey "Y" "", exTagged "!All" .sequence [exScalar "../b/Z", exScalar "../W"]]
def ordB : Node := exDoc [exKey "_dir" "", exScalar "b", exKey "X" "", exTagged "!Clean" .sequence [exScalar "x"],
  exKey "Z" "", exTagged "!Files" .mapping [exScalar "Target", exScalar "./X"]]

def ordLib : Lib := { exLib with
  file := fun D => if D = "/top/a".toList then .doc (some ordA) else if D = "/top/b".toList then .doc (some ordB) else .none
  decFiles := fun n => match n.content with
    | [_, t] => .ok ⟨.zero, .zero, t, false⟩
    | _ => .error .yaml }

theorem ord_shallow : Shallow ordLib := by
  constructor
  · intro n f h
    have h : (match n.content with
      | [_, t] => (.ok ⟨.zero, .zero, t, false⟩ : Except YErr FilesY)
      | _ => .error .yaml) = .ok f := h
    split at h
    · rename_i x t hc
      injection h with h
      subst h
      exact .inr (depth_content (by rw [hc]; simp))
    · cases h
  · intro n d h; cases h

theorem exScalar_children (L : Lib) (v : String) : targetChildren L (exScalar v) = [] := by
  unfold targetChildren
  have : normalizeTag (exScalar v).tag = [] := by simp [exScalar, Node.tag, normalizeTag]
  simp only [this]
  split
  · rfl
  · rw [if_neg (by decide), if_neg (by decide), if_neg (by decide), if_neg (by decide)]

theorem mentions_scalar {L : Lib} {v : String} {m : Node} (h : Mentions L (exScalar v) m) : m = exScalar v := by
  cases h with
  | refl => rfl
  | child hc => rw [exScalar_children] at hc; cases hc

theorem ord_ordered : Ordered ordLib fun D => if D = "/top/a".toList then 1 else 0 := by
  intro D doc d hf hd before key val after hit m q hm hr hq
  have : (D = "/top/a".toList ∧ doc = ordA) ∨ (D = "/top/b".toList ∧ doc = ordB) := by
    have hf : (if D = "/top/a".toList then File.doc (some ordA) else if D = "/top/b".toList then .doc (some ordB) else .none) = .doc (some doc) := hf
    split at hf
    · injection hf with hf; injection hf with hf; exact .inl ⟨‹_›, hf.symm⟩
    · split at hf
      · injection hf with hf; injection hf with hf; exact .inr ⟨‹_›, hf.symm⟩
      · cases hf
  rcases this with ⟨rfl, rfl⟩ | ⟨rfl, rfl⟩
  · have hd' : relDir ordLib "/top/a".toList = some "a".toList := by decide +kernel
    rw [hd'] at hd
    injection hd with hd
    subst hd
    have hit' : [(exKey "Y" "", exTagged "!All" .sequence [exScalar "../b/Z", exScalar "../W"])] = before ++ (key, val) :: after := hit
    cases before with
    | cons a b => injection hit' with _ h; cases b <;> cases h
    | nil =>
      injection hit' with h _
      injection h with _ h
      subst h
      left
      have hmm : m = exTagged "!All" .sequence [exScalar "../b/Z", exScalar "../W"] ∨ m = exScalar "../b/Z" ∨ m = exScalar "../W" := by
        cases hm with
        | refl => exact .inl rfl
        | child hc h =>
          rename_i c
          have hc : c ∈ [exScalar "../b/Z", exScalar "../W"] := hc
          rcases List.mem_cons.1 hc with rfl | hc
          · exact .inr (.inl (mentions_scalar h))
          · rw [List.mem_singleton] at hc
            subst hc
            exact .inr (.inr (mentions_scalar h))
      rcases hmm with rfl | rfl | rfl
      · have := hr.kind; cases this
      · have := hr.name
        have h2 : refName ordLib "a".toList (exScalar "../b/Z").value = some "b/Z".toList := by decide +kernel
        rw [h2] at this
        injection this with this
        subst this
        decide +kernel
      · have := hr.name
        have h2 : refName ordLib "a".toList (exScalar "../W").value = some "W".toList := by decide +kernel
        rw [h2] at this
        injection this with this
        subst this
        exact absurd (by decide +kernel) hq
  · have hd' : relDir ordLib "/top/b".toList = some "b".toList := by decide +kernel
    rw [hd'] at hd
    injection hd with hd
    subst hd
    have hit' : [(exKey "X" "", exTagged "!Clean" .sequence [exScalar "x"]),
      (exKey "Z" "", exTagged "!Files" .mapping [exScalar "Target", exScalar "./X"])] = before ++ (key, val) :: after := hit
    match before, hit' with
    | [], hit' =>
      injection hit' with h _
      injection h with _ h
      subst h
      cases hm with
      | refl => have := hr.kind; cases this
      | child hc => cases hc
    | [a], hit' =>
      injection hit' with h1 h2
      injection h2 with h2 _
      injection h2 with _ h2
      subst h1 h2
      right
      refine ⟨_, List.mem_singleton_self _, ?_⟩
      have hmm : m = exTagged "!Files" .mapping [exScalar "Target", exScalar "./X"] ∨ m = exScalar "./X" := by
        cases hm with
        | refl => exact .inl rfl
        | child hc h =>
          rename_i c
          have hc : c ∈ [exScalar "./X"] := hc
          rw [List.mem_singleton] at hc
          subst hc
          exact .inr (mentions_scalar h)
      rcases hmm with rfl | rfl
      · have := hr.kind; cases this
      · have := hr.name
        have h2 : refName ordLib "b".toList (exScalar "./X").value = some "b/X".toList := by decide +kernel
        rw [h2] at this
        injection this with this
        subst this
        decide +kernel
    | a :: b :: c, hit' =>
      injection hit' with _ h
      injection h with _ h
      cases c <;> cases h

example : ∃ n, readYAMLFile ordLib n "a".toList St.empty ≠ .more :=
  C43_terminates_partial ordLib ord_shallow _ ord_ordered "a".toList St.empty rfl

/-! ## A stale target

When a file is read again because of a reference into it while it is being read, its earlier targets get new objects. -/

/-- a: { X, P: ../b/Q, S };  b: { Q, R: ../a/S } -/
def staleA : Node := exDoc [exKey "_dir" "", exScalar "a", exKey "P" "", exScalar "../b/Q",
  exKey "S" "", exTagged "!Clean" .sequence [exScalar "s"]]
def staleB : Node := exDoc [exKey "_dir" "", exScalar "b", exKey "Q" "", exTagged "!Clean" .sequence [exScalar "q"],
  exKey "R" "", exTagged "!All" .sequence [exScalar "../a/S"]]

def staleLib : Lib := { exLib with
  file := fun D => if D = "/top/a".toList then .doc (some staleA) else if D = "/top/b".toList then .doc (some staleB) else .none }

def staleEnd : St := match readYAMLFile staleLib 12 "a".toList St.empty with
  | .ok _ s => s
  | _ => St.empty

/-- **C44, a finding.** After the file in a has been read with success, the target a/S and the target that b/R refers to as ../a/S are
different objects, because the file in a was read twice: a reference keeps the target that was registered when it was read.  (Each of
the two objects runs, so the commands of a/S can run twice in one build.) -/
theorem C44_finding_stale : readYAMLFile staleLib 12 "a".toList St.empty = .ok () staleEnd ∧
    ∃ r o o', (staleEnd.reg.target "b/R".toList).1 = some r ∧ staleEnd.heap[r]? = some (.all [o]) ∧
      (staleEnd.reg.target "a/S".toList).1 = some o' ∧ o ≠ o' := by
  have h : (match readYAMLFile staleLib 12 "a".toList St.empty with | .ok _ _ => true | _ => false) = true := by decide +kernel
  refine ⟨?_, ?_⟩
  · unfold staleEnd
    cases hh : readYAMLFile staleLib 12 "a".toList St.empty with
    | ok a s => rfl
    | err e s => rw [hh] at h; cases h
    | more => rw [hh] at h; cases h
  · have h1 : (staleEnd.reg.target "b/R".toList).1 = some 2 := by decide +kernel
    have h2 : (match staleEnd.heap[2]? with | some (Obj.all l) => l | _ => []) = [1] := by decide +kernel
    have h3 : (staleEnd.reg.target "a/S".toList).1 = some 3 := by decide +kernel
    refine ⟨2, 1, 3, h1, ?_, h3, by decide⟩
    split at h2
    · rename_i l hl; rw [hl, h2]
    · cases h2

end Fab.Yaml
