import Verif.Yaml.Trees

/-!
# C94: targets of YAML files are shared by name only

Reading YAML files makes a new target for each place where one is written.  The same target is used in two places only if these refer to it by its name.
-/

namespace Fab.Yaml
open Path Cmd Files

/-! ## Specification -/

/-- Target `o` has been registered under a name: it is (or was) the value of a key of a YAML file. -/
def Named (s : St) (o : Nat) : Prop := ∃ q doc, (q, doc, o) ∈ s.hist

/-- Target `a` is element number `k` of target `i` (of an All or Seq; the target of an ArgTarget or Files). -/
def Within (s : St) (a i k : Nat) : Prop := ∃ ob, s.heap[i]? = some ob ∧ ob.parts[k]? = some a

/-- The rules of the Files targets that are needed for `os` contain no references to other targets, and no Files targets: everything in them is written there. -/
def RulesInline (s : St) (os : List Nat) : Prop :=
  ∀ x t ins outs c, FilesOf s os x t ins outs → Part s t c →
    ¬ Named s c ∧ (∀ name, s.heap[c]? ≠ some (.ref name)) ∧ ∀ t ins outs, s.heap[c]? ≠ some (.files t ins outs)

/-! ## Proof -/

structure PlaceInv (s : St) : Prop where
  one : ∀ a i k i' k', ¬ Named s a → Within s a i k → Within s a i' k' → i = i' ∧ k = k'
  regd : ∀ q o, (s.reg.target q).1 = some o → Named s o ∧ o < s.heap.length
  made : ∀ q o, s.filesReg.get q = some o → ∃ t ins outs, s.heap[o]? = some (.files t ins outs)
  old : ∀ a i k, Within s a i k → a < s.heap.length

/-- What may happen between `s` and `s'`. -/
structure Frame (s s' : St) : Prop where
  heap : ∃ l, s'.heap = s.heap ++ l
  named : ∀ a, Named s a → Named s' a
  news : ∀ a, Named s' a → a < s.heap.length → Named s a
  parts : ∀ a i k, Within s' a i k → s.heap.length ≤ i → s.heap.length ≤ a ∨ Named s' a

theorem Frame.refl (s : St) : Frame s s where
  heap := ⟨[], by simp⟩
  named _ h := h
  news _ h _ := h
  parts a i k := by
    rintro ⟨ob, h, -⟩ hi
    have := (List.getElem?_eq_some_iff.1 h).1
    omega

theorem Frame.len {s s' : St} (h : Frame s s') : s.heap.length ≤ s'.heap.length := by
  obtain ⟨l, h⟩ := h.heap
  rw [h]; simp

theorem Frame.obj {s s' : St} (h : Frame s s') {i : Nat} {o : Obj} (hi : s.heap[i]? = some o) : s'.heap[i]? = some o := by
  obtain ⟨l, h⟩ := h.heap
  rw [h, List.getElem?_append_left (List.getElem?_eq_some_iff.1 hi).1]; exact hi

theorem Frame.obj' {s s' : St} (h : Frame s s') {i : Nat} (hi : i < s.heap.length) : s'.heap[i]? = s.heap[i]? := by
  obtain ⟨l, h⟩ := h.heap
  rw [h, List.getElem?_append_left hi]

theorem Frame.trans {s s1 s2 : St} (h : Frame s s1) (h' : Frame s1 s2) : Frame s s2 where
  heap := by
    obtain ⟨l, h⟩ := h.heap
    obtain ⟨l', h'⟩ := h'.heap
    exact ⟨l ++ l', by rw [h', h]; simp⟩
  named a ha := h'.named a (h.named a ha)
  news a ha hl := h.news a (h'.news a ha (Nat.lt_of_lt_of_le hl h.len)) hl
  parts a i k ho hi := by
    by_cases hi' : s1.heap.length ≤ i
    · rcases h'.parts a i k ho hi' with h1 | h1
      · exact .inl (Nat.le_trans h.len h1)
      · exact .inr h1
    · have : Within s1 a i k := by
        obtain ⟨ob, h1, h2⟩ := ho
        exact ⟨ob, by rw [← h'.obj' (by omega)]; exact h1, h2⟩
      exact (h.parts a i k this hi).imp id (h'.named a)

/-- A new target, which is nowhere yet, or one that has a name. -/
def Fresh (s : St) (a : Nat) (s' : St) : Prop :=
  a < s'.heap.length ∧ (Named s' a ∨ s.heap.length ≤ a ∧ ∀ i k, ¬ Within s' a i k)

def AllFresh (s : St) (as : List Nat) (s' : St) : Prop :=
  (∀ a ∈ as, Fresh s a s') ∧ ∀ (k k' a : Nat), as[k]? = some a → as[k']? = some a → Named s' a ∨ k = k'

/-- The outcome of a computation, which began at `s`. -/
def Pl {α : Type} (s : St) (P : α → St → Prop) : R α → Prop
  | .ok a s' => PlaceInv s' ∧ Frame s s' ∧ P a s'
  | .err _ s' => PlaceInv s'
  | .more => True

theorem Pl.bind {α β : Type} {P : α → St → Prop} {Q : β → St → Prop} {s : St} {r : R α} {k : α → St → R β} (h : Pl s P r)
    (hk : ∀ a s1, PlaceInv s1 → Frame s s1 → P a s1 → Pl s Q (k a s1)) : Pl s Q (r.bind k) := by
  cases r with
  | ok a s1 => exact hk a s1 h.1 h.2.1 h.2.2
  | err e s1 => exact h
  | more => trivial

/-- a part of a computation -/
theorem Pl.sub {α : Type} {P : α → St → Prop} {s s1 : St} {r : R α} (hf : Frame s s1) (h : Pl s1 P r) : Pl s (fun a s' => Frame s1 s' ∧ P a s') r := by
  cases r with
  | ok a s' => exact ⟨h.1, hf.trans h.2.1, h.2.1, h.2.2⟩
  | err e s' => exact h
  | more => trivial

theorem Pl.lift {α : Type} {s s1 : St} {x : Except YErr α} (h : PlaceInv s1) (hf : Frame s s1) : Pl s (fun _ s' => s' = s1) (lift x s1) := by
  cases x
  · exact h
  · exact ⟨h, hf, rfl⟩

theorem Fresh.later {s s1 s2 : St} {a : Nat} (h : Fresh s a s1) (hf : Frame s1 s2) : Fresh s a s2 := by
  refine ⟨Nat.lt_of_lt_of_le h.1 hf.len, ?_⟩
  by_cases hn : Named s2 a
  · exact .inl hn
  rcases h.2 with h2 | ⟨h2, h3⟩
  · exact absurd (hf.named a h2) hn
  · refine .inr ⟨h2, fun i k ho => ?_⟩
    by_cases hi : s1.heap.length ≤ i
    · rcases hf.parts a i k ho hi with h4 | h4
      · exact absurd h.1 (by omega)
      · exact hn h4
    · obtain ⟨ob, h4, h5⟩ := ho
      exact h3 i k ⟨ob, by rw [← hf.obj' (by omega)]; exact h4, h5⟩

theorem Fresh.wider {s s1 s2 : St} {a : Nat} (h : Fresh s1 a s2) (hf : Frame s s1) : Fresh s a s2 :=
  ⟨h.1, h.2.imp id fun ⟨h1, h2⟩ => ⟨Nat.le_trans hf.len h1, h2⟩⟩

theorem AllFresh.nil {s s' : St} : AllFresh s [] s' := ⟨by simp, by simp⟩

theorem AllFresh.cons {s s1 s2 : St} {a : Nat} {as : List Nat} (ha : Fresh s a s1) (hf : Frame s s1) (hf' : Frame s1 s2) (has : AllFresh s1 as s2) :
    AllFresh s (a :: as) s2 := by
  have hne : ∀ k : Nat, as[k]? = some a → Named s2 a := by
    intro k hk
    rcases (has.1 a (List.mem_of_getElem? hk)).2 with h | ⟨h, -⟩
    · exact h
    · exact absurd ha.1 (by omega)
  refine ⟨?_, ?_⟩
  · intro b hb
    rcases List.mem_cons.1 hb with rfl | hb
    · exact ha.later hf'
    · exact (has.1 b hb).wider hf
  · intro k k' b h1 h2
    cases k <;> cases k' <;> simp only [List.getElem?_cons_zero, List.getElem?_cons_succ, Option.some.injEq] at h1 h2
    · exact .inr rfl
    · subst h1; exact .inl (hne _ h2)
    · subst h2; exact .inl (hne _ h1)
    · exact (has.2 _ _ _ h1 h2).imp id fun h => by rw [h]

theorem AllFresh.single {s s1 : St} {a : Nat} (ha : Fresh s a s1) (hf : Frame s s1) : AllFresh s [a] s1 := .cons ha hf (.refl _) .nil

theorem AllFresh.wider {s s1 s2 : St} {as : List Nat} (h : AllFresh s1 as s2) (hf : Frame s s1) : AllFresh s as s2 :=
  ⟨fun a ha => (h.1 a ha).wider hf, h.2⟩

theorem AllFresh.later {s s1 s2 : St} {as : List Nat} (h : AllFresh s as s1) (hf : Frame s1 s2) : AllFresh s as s2 :=
  ⟨fun a ha => (h.1 a ha).later hf, fun k k' a h1 h2 => (h.2 k k' a h1 h2).imp (hf.named a) id⟩

/-- A new object; files may be registered at the same time. -/
theorem Pl.new {s s1 s2 : St} {o : Obj} (h : PlaceInv s1) (hf : Frame s s1) (hp : AllFresh s o.parts s1) (hheap : s2.heap = s1.heap ++ [o])
    (hreg : s2.reg = s1.reg) (hhist : s2.hist = s1.hist)
    (hmade : ∀ q x, s2.filesReg.get q = some x → s1.filesReg.get q = some x ∨ x = s1.heap.length ∧ ∃ t ins outs, o = .files t ins outs) :
    PlaceInv s2 ∧ Frame s s2 ∧ Fresh s s1.heap.length s2 := by
  have hn : ∀ a, Named s2 a ↔ Named s1 a := fun a => by unfold Named; rw [hhist]
  have occ : ∀ {a i k}, Within s2 a i k → Within s1 a i k ∨ i = s1.heap.length ∧ o.parts[k]? = some a := by
    rintro a i k ⟨ob, h1, h2⟩
    rw [hheap] at h1
    rcases getElem?_snoc h1 with h3 | ⟨rfl, rfl⟩
    · exact .inl ⟨ob, h3, h2⟩
    · exact .inr ⟨rfl, h2⟩
  have lt : ∀ {a i k}, Within s1 a i k → i < s1.heap.length := by
    rintro a i k ⟨ob, h1, -⟩; exact (List.getElem?_eq_some_iff.1 h1).1
  have free : ∀ {a k : Nat}, o.parts[k]? = some a → ¬ Named s1 a → s.heap.length ≤ a ∧ ∀ i k, ¬ Within s1 a i k := fun h1 h2 =>
    (hp.1 _ (List.mem_of_getElem? h1)).2.resolve_left h2
  refine ⟨⟨?_, ?_, ?_, ?_⟩, ⟨?_, ?_, ?_, ?_⟩, ?_, ?_⟩
  · intro a i k i' k' ha h1 h2
    rw [hn] at ha
    rcases occ h1 with g1 | ⟨e1, g1⟩ <;> rcases occ h2 with g2 | ⟨e2, g2⟩
    · exact h.one a i k i' k' ha g1 g2
    · exact absurd g1 ((free g2 ha).2 _ _)
    · exact absurd g2 ((free g1 ha).2 _ _)
    · exact ⟨e1.trans e2.symm, (hp.2 _ _ _ g1 g2).resolve_left ha⟩
  · intro q x hx; rw [hreg] at hx; rw [hheap, List.length_append]; have := h.regd q x hx; exact ⟨(hn x).2 this.1, by omega⟩
  · intro q x hx
    rcases hmade q x hx with h1 | ⟨rfl, t, ins, outs, rfl⟩
    · obtain ⟨t, ins, outs, h2⟩ := h.made q x h1
      exact ⟨t, ins, outs, by rw [hheap, List.getElem?_append_left (List.getElem?_eq_some_iff.1 h2).1]; exact h2⟩
    · exact ⟨t, ins, outs, by rw [hheap]; simp⟩
  · intro a i k h1
    rw [hheap, List.length_append]
    rcases occ h1 with g1 | ⟨-, g1⟩
    · have := h.old a i k g1; omega
    · have := (hp.1 _ (List.mem_of_getElem? g1)).1; omega
  · obtain ⟨l, hl⟩ := hf.heap
    exact ⟨l ++ [o], by rw [hheap, hl]; simp⟩
  · exact fun a ha => (hn a).2 (hf.named a ha)
  · exact fun a ha hl => hf.news a ((hn a).1 ha) hl
  · intro a i k h1 hi
    rw [hn]
    rcases occ h1 with g1 | ⟨-, g1⟩
    · exact hf.parts a i k g1 hi
    · by_cases h2 : Named s1 a
      · exact .inr h2
      · exact .inl (free g1 h2).1
  · rw [hheap]; simp
  · refine .inr ⟨hf.len, fun i k h1 => ?_⟩
    rcases occ h1 with g1 | ⟨-, g1⟩
    · exact absurd (h.old _ _ _ g1) (by omega)
    · exact absurd (hp.1 _ (List.mem_of_getElem? g1)).1 (by omega)

theorem Pl.alloc {s s1 : St} {o : Obj} (h : PlaceInv s1) (hf : Frame s s1) (hp : AllFresh s o.parts s1) : Pl s (Fresh s) (alloc o s1) :=
  Pl.new h hf hp rfl rfl rfl fun _ _ h => .inl h

theorem Pl.leaf {s s1 : St} {o : Obj} (h : PlaceInv s1) (hf : Frame s s1) (hp : o.parts = []) : Pl s (Fresh s) (Yaml.alloc o s1) :=
  Pl.alloc h hf (by rw [hp]; exact .nil)

theorem Pl.register {s s1 : St} {q d : Str} {o : Nat} (h : PlaceInv s1) (hf : Frame s s1) (ho : Fresh s o s1) :
    PlaceInv (register q d o s1) ∧ Frame s (register q d o s1) := by
  have hn : ∀ a, Named (Yaml.register q d o s1) a ↔ Named s1 a ∨ a = o := by
    intro a
    simp only [Named, Yaml.register, List.mem_append, List.mem_singleton, Prod.mk.injEq]
    constructor
    · rintro ⟨q', d', h | ⟨-, -, h⟩⟩
      · exact .inl ⟨q', d', h⟩
      · exact .inr h
    · rintro (⟨q', d', h⟩ | h)
      · exact ⟨q', d', .inl h⟩
      · exact ⟨q, d, .inr ⟨rfl, rfl, h⟩⟩
  refine ⟨⟨?_, ?_, h.made, h.old⟩, ⟨hf.heap, ?_, ?_, ?_⟩⟩
  · intro a i k i' k' ha
    rw [hn] at ha
    push Not at ha
    exact h.one a i k i' k' ha.1
  · intro q' o' h1
    rw [hn]
    have h2 : (((s1.reg.register id q d (.ptr o)).1).target q').1 = some o' := h1
    unfold Registry.Reg.register Registry.targetAddr Registry.Reg.target at h2
    dsimp only at h2
    rw [GoMap.get_put] at h2
    split at h2
    · rename_i t ht
      split at ht
      · cases ht; cases h2; exact ⟨.inr rfl, ho.1⟩
      · cases h2; exact (h.regd q' t.target (by unfold Registry.Reg.target; rw [ht])).imp .inl id
    · cases h2
  · exact fun a ha => (hn a).2 (.inl (hf.named a ha))
  · intro a ha hl
    rcases (hn a).1 ha with h1 | rfl
    · exact hf.news a h1 hl
    · rcases ho.2 with h1 | ⟨h1, -⟩
      · exact hf.news a h1 hl
      · omega
  · intro a i k h1 hi
    exact (hf.parts a i k h1 hi).imp id fun h => (hn a).2 (.inl h)

section
variable {yt : Node → Str → St → R Nat} (h : ∀ n d s, PlaceInv s → Pl s (Fresh s) (yt n d s))
include h

theorem mapT_pl (dir : Str) (cs : List Node) (s : St) (hs : PlaceInv s) : Pl s (AllFresh s) (mapT yt dir cs s) := by
  induction cs generalizing s with
  | nil => exact ⟨hs, .refl _, .nil⟩
  | cons c cs ih =>
    refine (h c dir s hs).bind fun i s1 t1 f1 hi => ?_
    refine ((ih s1 t1).sub f1).bind fun is s2 t2 f2 his => ?_
    exact ⟨t2, f2, .cons hi f1 his.1 his.2⟩

omit h in
theorem allocCmds_pl (mk : Str → Bool → Command) (first : Bool) (shs : List Str) (s : St) (hs : PlaceInv s) :
    Pl s (AllFresh s) (allocCmds mk first shs s) := by
  induction shs generalizing first s with
  | nil => exact ⟨hs, .refl _, .nil⟩
  | cons sh shs ih =>
    refine (Pl.leaf hs (.refl _) rfl).bind fun i s1 t1 f1 hi => ?_
    refine ((ih false s1 t1).sub f1).bind fun is s2 t2 f2 his => ?_
    exact ⟨t2, f2, .cons hi f1 his.1 his.2⟩

omit h in
theorem commandDecoder_pl (L : Lib) (node : Node) (dir : Str) (s : St) (hs : PlaceInv s) : Pl s (Fresh s) (commandDecoder L node dir s) := by
  unfold commandDecoder
  split
  · exact hs
  refine (Pl.lift hs (.refl _)).bind fun c s1 t1 f1 _ => ?_
  refine (Pl.lift t1 f1).bind fun args s1 t1 f1 _ => ?_
  refine (Pl.lift t1 f1).bind fun env s1 t1 f1 _ => ?_
  have hsingle : Pl s (Fresh s) (match c.shell.kind with
      | .zero => alloc (.command (toTarget L c [] dir args env false)) s1
      | .scalar => alloc (.command (toTarget L c c.shell.value dir args env false)) s1
      | _ => .err .badKind s1) := by
    split
    · exact Pl.leaf t1 f1 rfl
    · exact Pl.leaf t1 f1 rfl
    · exact t1
  dsimp only
  split
  · split
    · exact hsingle
    · exact t1
    · exact ((allocCmds_pl _ _ _ _ t1).sub f1).bind fun ids s2 t f hh => Pl.alloc t f (hh.2.wider f1)
  · exact hsingle

omit h in
theorem newFiles_pl {t : Nat} {ins outs : List Str} {ac : Bool} {s s1 : St} (hs : PlaceInv s1) (hf : Frame s s1) (ht : Fresh s t s1) :
    Pl s (Fresh s) (newFiles t ins outs ac s1) := by
  refine Pl.new (o := .files t ins outs) hs hf (.single ht hf) rfl rfl rfl fun q x hx => ?_
  have hx : (outs.foldl (fun r o => r.put o s1.heap.length) s1.filesReg).get q = some x := hx
  rw [fold_put_get] at hx
  split at hx
  · cases hx; exact .inr ⟨rfl, _, _, _, rfl⟩
  · exact .inl hx

theorem builtin_pl (L : Lib) (tag : Str) (node : Node) (dir : Str) (s : St) (hs : PlaceInv s) : Pl s (Fresh s) (builtin L yt tag node dir s) := by
  have hdeps : ∀ t deps s1, PlaceInv s1 → Frame s s1 → Pl s (Fresh s) ((yt t dir s1).bind fun t s => (mapT yt dir deps s).bind fun ids s =>
      (alloc (.all ids) s).bind fun a s => alloc (.seq [a, t]) s) := by
    intro t deps s1 h1 f1
    refine ((h _ _ _ h1).sub f1).bind fun t s2 h2 f2 ht => ?_
    refine ((mapT_pl h _ _ _ h2).sub f2).bind fun ids s3 h3 f3 hids => ?_
    -- the All is newer than the target
    have ha := Pl.alloc (o := .all ids) h3 hids.1 hids.2
    refine (ha.sub f2).bind fun a s4 h4 f4 ha => ?_
    refine Pl.alloc h4 f4 ⟨?_, ?_⟩
    · intro c hc
      simp only [Obj.parts, List.mem_cons, List.not_mem_nil, or_false] at hc
      rcases hc with rfl | rfl
      · exact ha.2.wider f2
      · exact (ht.2.wider f1).later ha.1
    · have hne : a = t → Named s4 t := by
        rintro rfl
        rcases ha.2.2 with h | ⟨h, -⟩
        · exact h
        · exact absurd ht.2.1 (by omega)
      intro k k' c hk hk'
      have e : ∀ k, (Obj.seq [a, t]).parts[k]? = some c → k = 0 ∧ c = a ∨ k = 1 ∧ c = t := by
        intro k hk
        match k, hk with
        | 0, hk => exact .inl ⟨rfl, by simpa [Obj.parts] using hk.symm⟩
        | 1, hk => exact .inr ⟨rfl, by simpa [Obj.parts] using hk.symm⟩
        | k + 2, hk => simp [Obj.parts] at hk
      rcases e k hk with ⟨rfl, rfl⟩ | ⟨rfl, rfl⟩ <;> rcases e k' hk' with ⟨rfl, h1⟩ | ⟨rfl, h1⟩
      · exact .inr rfl
      · exact .inl (by rw [h1]; exact hne h1)
      · exact .inl (hne h1.symm)
      · exact .inr rfl
  unfold builtin
  split
  · split
    · exact hs
    · exact (mapT_pl h _ _ _ hs).bind fun _ _ t f h => Pl.alloc t f h
  split
  · split
    · exact hs
    · exact (mapT_pl h _ _ _ hs).bind fun _ _ t f h => Pl.alloc t f h
  split
  · split
    · split
      · exact hs
      · exact hdeps _ _ _ hs (.refl _)
    · exact (Pl.lift hs (.refl _)).bind fun d s1 t1 f1 _ => hdeps _ _ _ t1 f1
    · exact hs
  split
  · split
    · exact hs
    · split
      · exact hs
      · refine (h _ _ _ hs).bind fun t s1 t1 f1 ht => (Pl.lift t1 f1).bind fun _ s2 t2 f2 he => ?_
        subst he
        exact Pl.alloc t2 f2 (.single ht f2)
  split
  · split
    · exact hs
    · refine (Pl.lift hs (.refl _)).bind fun f s1 t1 f1 e1 => ?_
      subst e1
      refine (h _ _ _ t1).bind fun t s2 t2 f2 ht => ?_
      refine (Pl.lift t2 f2).bind fun ins s3 t3 f3 e3 => ?_
      refine (Pl.lift t3 f3).bind fun outs s4 t4 f4 e4 => ?_
      subst e3 e4
      exact newFiles_pl t4 f4 ht
  split
  · split
    · exact (Pl.lift hs (.refl _)).bind fun d s t f _ => (Pl.lift t f).bind fun _ _ t f _ => Pl.leaf t f rfl
    · exact (Pl.lift hs (.refl _)).bind fun _ _ t f _ => Pl.leaf t f rfl
    · exact hs
  split
  · exact commandDecoder_pl _ _ _ _ hs
  · exact hs

theorem readItems_pl (dir : Str) (s : St) :
    ∀ (k : Nat) (c : List Node), c.length ≤ k → ∀ (saw : Bool) (s1 : St), PlaceInv s1 → Frame s s1 → Pl s (fun _ _ => True) (readItems yt dir c saw s1)
  | _, [], _, _, _, hs, hf => by rw [readItems]; exacts [⟨hs, hf, trivial⟩, by simp]
  | _, [_], _, _, _, hs, hf => by rw [readItems]; exacts [⟨hs, hf, trivial⟩, by simp]
  | 0, _ :: _ :: _, hk, _, _, _, _ => by simp at hk
  | k + 1, key :: val :: rest, hk, saw, s1, hs, hf => by
    have ih := readItems_pl dir s k rest (by simp at hk; omega)
    rw [readItems]
    split
    · exact hs
    split
    · split
      · exact hs
      split
      · exact hs
      · exact ih _ _ hs hf
    · split
      · exact hs
      · refine ((h _ _ _ hs).sub hf).bind fun o s2 t2 f2 ho => ?_
        have := Pl.register (q := join [dir, key.value]) (d := docOf key) t2 f2 (ho.2.wider hf)
        exact ih saw _ this.1 this.2

theorem readDoc_pl (doc : Option Node) (dir : Str) (s s1 : St) (hs : PlaceInv s1) (hf : Frame s s1) : Pl s (fun _ _ => True) (readDoc yt doc dir s1) := by
  unfold readDoc
  split
  · exact hs
  · split
    · exact hs
    · split
      · split
        · exact hs
        · split
          · exact hs
          · refine (readItems_pl h dir s _ _ (Nat.le_refl _) _ _ hs hf).bind fun saw s1 t1 f1 _ => ?_
            by_cases hc : dir ≠ [] ∧ saw = false
            · rw [if_pos hc]; exact t1
            · rw [if_neg hc]; exact ⟨t1, f1, trivial⟩
      · exact hs

end

theorem yaml_pl (L : Lib) : ∀ n, (∀ node d s, PlaceInv s → Pl s (Fresh s) (yamlTarget L n node d s)) ∧
    ∀ d s, PlaceInv s → Pl s (fun _ _ => True) (readYAMLFile L n d s)
  | 0 => ⟨fun _ _ _ _ => by rw [yamlTarget]; trivial, fun _ _ _ => by rw [readYAMLFile]; trivial⟩
  | n + 1 => by
    obtain ⟨h1, h2⟩ := yaml_pl L n
    have found : ∀ {s s1 : St} {q o}, PlaceInv s1 → (s1.reg.target q).1 = some o → Fresh s o s1 :=
      fun h ho => ⟨(h.regd _ _ ho).2, .inl (h.regd _ _ ho).1⟩
    constructor
    · intro node d s hs
      rw [yamlTarget]
      unfold targetStep
      dsimp only
      split
      · split
        · exact (Pl.lift hs (.refl _)).bind fun _ _ t f _ => Pl.leaf t f rfl
        · exact builtin_pl h1 L _ _ _ _ hs
      · split
        · exact hs
        · unfold reference
          split
          · exact Pl.leaf hs (.refl _) rfl
          · split
            · exact hs
            · split
              · exact Pl.leaf hs (.refl _) rfl
              · split
                · rename_i o ho
                  exact ⟨hs, .refl _, found hs ho⟩
                · refine (h2 _ _ hs).bind fun _ s1 t1 f1 _ => ?_
                  split
                  · rename_i o ho
                    exact ⟨t1, f1, found t1 ho⟩
                  · exact t1
    · intro d s hs
      rw [readYAMLFile]
      unfold fileStep
      dsimp only
      have t1 : PlaceInv { s with reads := s.reads ++ [join [L.top, d]] } := ⟨hs.one, hs.regd, hs.made, hs.old⟩
      have f1 : Frame s { s with reads := s.reads ++ [join [L.top, d]] } := ⟨⟨[], by simp⟩, fun _ h => h, fun _ h _ => h, (Frame.refl s).parts⟩
      split
      · exact t1
      · exact t1
      · split
        · exact t1
        · exact readDoc_pl h1 _ _ _ _ t1 f1

/-! Objects are never removed, whatever is read. -/

def Gr {α : Type} (m : Nat) (P : α → St → Prop) : R α → Prop
  | .ok a s' => m ≤ s'.heap.length ∧ P a s'
  | _ => True

theorem Gr.bind {α β : Type} {m : Nat} {P : α → St → Prop} {Q : β → St → Prop} {r : R α} {k : α → St → R β} (h : Gr m P r)
    (hk : ∀ a s1, m ≤ s1.heap.length → Gr m Q (k a s1)) : Gr m Q (r.bind k) := by
  cases r with
  | ok a s1 => exact hk a s1 h.1
  | err e s1 => trivial
  | more => trivial

theorem Gr.lift {α : Type} {m : Nat} {s : St} {x : Except YErr α} (h : m ≤ s.heap.length) : Gr m (fun _ _ => True) (lift x s) := by
  cases x
  · trivial
  · exact ⟨h, trivial⟩

/-- the result is a new object -/
def New (m : Nat) (a : Nat) (s' : St) : Prop := m ≤ a ∧ a < s'.heap.length

theorem Gr.alloc {m : Nat} {s : St} {o : Obj} (h : m ≤ s.heap.length) : Gr m (New m) (alloc o s) := by
  exact ⟨by simp; omega, h, by simp⟩

theorem Gr.weak {α : Type} {m : Nat} {P : α → St → Prop} {r : R α} (h : Gr m P r) : Gr m (fun _ _ => True) r := by
  cases r with
  | ok a s1 => exact ⟨h.1, trivial⟩
  | err e s1 => trivial
  | more => trivial

section
variable {m : Nat} {yt : Node → Str → St → R Nat} (h : ∀ n d s, m ≤ s.heap.length → Gr m (fun _ _ => True) (yt n d s))
include h

theorem mapT_gr (dir : Str) (cs : List Node) (s : St) (hs : m ≤ s.heap.length) : Gr m (fun _ _ => True) (mapT yt dir cs s) := by
  induction cs generalizing s with
  | nil => exact ⟨hs, trivial⟩
  | cons c cs ih => exact (h c dir s hs).bind fun i s1 h1 => (ih s1 h1).bind fun is s2 h2 => ⟨h2, trivial⟩

theorem builtin_gr (L : Lib) (tag : Str) (node : Node) (dir : Str) (s : St) (hs : m ≤ s.heap.length) : Gr m (New m) (builtin L yt tag node dir s) := by
  have hdeps : ∀ t deps s1, m ≤ s1.heap.length → Gr m (New m) ((yt t dir s1).bind fun t s => (mapT yt dir deps s).bind fun ids s =>
      (alloc (.all ids) s).bind fun a s => alloc (.seq [a, t]) s) := fun t deps s1 h1 =>
    (h _ _ _ h1).bind fun t s2 h2 => (mapT_gr h _ _ _ h2).bind fun ids s3 h3 => (Gr.alloc h3).bind fun a s4 h4 => Gr.alloc h4
  have hcmds : ∀ (mk : Str → Bool → Command) (first : Bool) (shs : List Str) (s : St), m ≤ s.heap.length → Gr m (fun _ _ => True) (allocCmds mk first shs s) := by
    intro mk first shs
    induction shs generalizing first with
    | nil => exact fun s hs => ⟨hs, trivial⟩
    | cons sh shs ih => exact fun s hs => (Gr.alloc hs).bind fun i s1 h1 => (ih false s1 h1).bind fun is s2 h2 => ⟨h2, trivial⟩
  unfold builtin
  split
  · split
    · trivial
    · exact (mapT_gr h _ _ _ hs).bind fun _ _ h => Gr.alloc h
  split
  · split
    · trivial
    · exact (mapT_gr h _ _ _ hs).bind fun _ _ h => Gr.alloc h
  split
  · split
    · split
      · trivial
      · exact hdeps _ _ _ hs
    · exact (Gr.lift hs).bind fun d s1 h1 => hdeps _ _ _ h1
    · trivial
  split
  · split
    · trivial
    · split
      · trivial
      · exact (h _ _ _ hs).bind fun t s1 h1 => (Gr.lift h1).bind fun _ s2 h2 => Gr.alloc h2
  split
  · split
    · trivial
    · refine (Gr.lift hs).bind fun f s1 h1 => (h _ _ _ h1).bind fun t s2 h2 => (Gr.lift h2).bind fun ins s3 h3 => (Gr.lift h3).bind fun outs s4 h4 => ?_
      exact ⟨by simp; omega, h4, by simp⟩
  split
  · split
    · exact (Gr.lift hs).bind fun d s1 h1 => (Gr.lift h1).bind fun _ s2 h2 => Gr.alloc h2
    · exact (Gr.lift hs).bind fun _ _ h1 => Gr.alloc h1
    · trivial
  split
  · unfold commandDecoder
    split
    · trivial
    refine (Gr.lift hs).bind fun c s1 h1 => (Gr.lift h1).bind fun args s2 h2 => (Gr.lift h2).bind fun env s3 h3 => ?_
    have hsingle : Gr m (New m) (match c.shell.kind with
        | .zero => alloc (.command (toTarget L c [] dir args env false)) s3
        | .scalar => alloc (.command (toTarget L c c.shell.value dir args env false)) s3
        | _ => .err .badKind s3) := by
      split
      · exact Gr.alloc h3
      · exact Gr.alloc h3
      · trivial
    dsimp only
    split
    · split
      · exact hsingle
      · trivial
      · exact (hcmds _ _ _ _ h3).bind fun ids s4 h => Gr.alloc h
    · exact hsingle
  · trivial

theorem readItems_gr (dir : Str) :
    ∀ (k : Nat) (c : List Node), c.length ≤ k → ∀ (saw : Bool) (s : St), m ≤ s.heap.length → Gr m (fun _ _ => True) (readItems yt dir c saw s)
  | _, [], _, _, _, hs => by rw [readItems]; exacts [⟨hs, trivial⟩, by simp]
  | _, [_], _, _, _, hs => by rw [readItems]; exacts [⟨hs, trivial⟩, by simp]
  | 0, _ :: _ :: _, hk, _, _, _ => by simp at hk
  | k + 1, key :: val :: rest, hk, saw, s, hs => by
    have ih := readItems_gr dir k rest (by simp at hk; omega)
    rw [readItems]
    split
    · trivial
    split
    · split
      · trivial
      split
      · trivial
      · exact ih _ _ hs
    · split
      · trivial
      · exact (h _ _ _ hs).bind fun o s1 h1 => ih saw _ h1

theorem readDoc_gr (doc : Option Node) (dir : Str) (s : St) (hs : m ≤ s.heap.length) : Gr m (fun _ _ => True) (readDoc yt doc dir s) := by
  unfold readDoc
  split
  · trivial
  · split
    · trivial
    · split
      · split
        · trivial
        · split
          · trivial
          · refine (readItems_gr h _ _ _ (Nat.le_refl _) _ _ hs).bind fun saw s1 h3 => ?_
            by_cases hc : dir ≠ [] ∧ saw = false
            · rw [if_pos hc]; trivial
            · rw [if_neg hc]; exact ⟨h3, trivial⟩
      · trivial

end

theorem targetStep_gr (L : Lib) {m : Nat} {yt : Node → Str → St → R Nat} {rf : Str → St → R Unit}
    (h : ∀ n d s, m ≤ s.heap.length → Gr m (fun _ _ => True) (yt n d s)) (hr : ∀ d s, m ≤ s.heap.length → Gr m (fun _ _ => True) (rf d s))
    (node : Node) (dir : Str) (s : St) (hs : m ≤ s.heap.length) :
    Gr m (fun a s' => normalizeTag node.tag ≠ [] ∨ '/' ∉ node.value → New m a s') (targetStep L yt rf node dir s) := by
  have imp : ∀ {r : R Nat}, Gr m (New m) r → Gr m (fun a s' => normalizeTag node.tag ≠ [] ∨ '/' ∉ node.value → New m a s') r := by
    intro r h
    cases r with
    | ok a s1 => exact ⟨h.1, fun _ => h.2⟩
    | err e s1 => trivial
    | more => trivial
  unfold targetStep
  dsimp only
  split
  · split
    · exact imp ((Gr.lift hs).bind fun _ _ h => Gr.alloc h)
    · exact imp (builtin_gr h L _ _ _ _ hs)
  · rename_i h0
    split
    · trivial
    · unfold reference
      split
      · exact imp (Gr.alloc hs)
      · rename_i h1
        have no : ¬ (normalizeTag node.tag ≠ [] ∨ '/' ∉ node.value) := fun h => h.elim h0 h1
        split
        · trivial
        · split
          · exact imp (Gr.alloc hs)
          · split
            · exact ⟨hs, fun h => absurd h no⟩
            · refine (hr _ _ hs).bind fun _ s1 h2 => ?_
              split
              · exact ⟨h2, fun h => absurd h no⟩
              · trivial

theorem yaml_gr (L : Lib) (m : Nat) : ∀ n, (∀ node d s, m ≤ s.heap.length → Gr m (fun _ _ => True) (yamlTarget L n node d s)) ∧
    ∀ d s, m ≤ s.heap.length → Gr m (fun _ _ => True) (readYAMLFile L n d s)
  | 0 => ⟨fun _ _ _ _ => by rw [yamlTarget]; trivial, fun _ _ _ => by rw [readYAMLFile]; trivial⟩
  | n + 1 => by
    obtain ⟨h1, h2⟩ := yaml_gr L m n
    constructor
    · intro node d s hs
      rw [yamlTarget]
      exact (targetStep_gr L h1 h2 node d s hs).weak
    · intro d s hs
      rw [readYAMLFile]
      unfold fileStep
      dsimp only
      split
      · trivial
      · trivial
      · split
        · trivial
        · exact readDoc_gr h1 _ _ _ hs

/-- **C94, new targets.** A target that is written out in a YAML file (it has a tag), and a mention of a name without a slash, is an object that did not exist before,
whatever was read before. -/
theorem C94_new {L : Lib} {n : Nat} {node : Node} {dir : Str} {o : Nat} {s s' : St} (h : yamlTarget L n node dir s = .ok o s')
    (ht : normalizeTag node.tag ≠ [] ∨ '/' ∉ node.value) : s.heap[o]? = none ∧ ∃ ob, s'.heap[o]? = some ob := by
  cases n with
  | zero => rw [yamlTarget] at h; cases h
  | succ n =>
    rw [yamlTarget] at h
    have := targetStep_gr L (yaml_gr L s.heap.length n).1 (yaml_gr L s.heap.length n).2 node dir s (Nat.le_refl _)
    rw [h] at this
    obtain ⟨h1, h2⟩ := this.2 ht
    exact ⟨List.getElem?_eq_none h1, _, List.getElem?_eq_getElem h2⟩

theorem Loaded.place {L : Lib} {s : St} (h : Loaded L s) : PlaceInv s := by
  induction h with
  | empty =>
    refine ⟨?_, ?_, ?_, ?_⟩
    · rintro a i k i' k' - ⟨ob, h, -⟩; simp [St.empty] at h
    · intro q o h; cases h
    · intro q o h; cases h
    · rintro a i k ⟨ob, h, -⟩; simp [St.empty] at h
  | @file n dir s s' _ he ih =>
    have := (yaml_pl L n).2 dir s ih
    rcases he with ⟨a, ha⟩ | ⟨e, he⟩
    · rw [ha] at this; exact this.1
    · rw [he] at this; exact this

/-- **C94.** After reading any YAML files, successfully or not: a target that was not registered under a name is an element of at most one other target, and there
only once. -/
theorem C94_one_place {L : Lib} {s : St} (h : Loaded L s) {a i k i' k' : Nat} (ha : ¬ Named s a) (h1 : Within s a i k) (h2 : Within s a i' k') :
    i = i' ∧ k = k' := h.place.one a i k i' k' ha h1 h2

section
variable {L : Lib} {s : St} {os : List Nat}

theorem inline_owner (hl : PlaceInv s) (hin : RulesInline s os) {x t : Nat} {ins outs : List Str} (hx : FilesOf s os x t ins outs) {c p : Nat} {ob : Obj}
    (hc : Part s t c) (hp : s.heap[p]? = some ob) (hm : c ∈ ob.parts) : c = t ∧ p = x ∨ Part s t p := by
  obtain ⟨k, hk⟩ := List.mem_iff_getElem?.1 hm
  have h1 : Within s c p k := ⟨ob, hp, hk⟩
  have hn := (hin _ _ _ _ _ hx hc).1
  cases hc with
  | self => exact .inl ⟨rfl, (hl.one _ _ _ _ _ hn h1 ⟨_, hx.2, (by rfl : (Obj.files t ins outs).parts[0]? = some t)⟩).1⟩
  | @all y ts _ hy h2 h3 =>
    obtain ⟨k', hk'⟩ := List.mem_iff_getElem?.1 h3
    rw [(hl.one _ _ _ _ _ hn h1 ⟨_, h2, (hk' : (Obj.all ts).parts[k']? = some c)⟩).1]
    exact .inr hy
  | @seq y ts _ hy h2 h3 =>
    obtain ⟨k', hk'⟩ := List.mem_iff_getElem?.1 h3
    rw [(hl.one _ _ _ _ _ hn h1 ⟨_, h2, (hk' : (Obj.seq ts).parts[k']? = some c)⟩).1]
    exact .inr hy
  | @arg y _ args hy h2 =>
    rw [(hl.one _ _ _ _ _ hn h1 ⟨_, h2, (by rfl : (Obj.arg c args).parts[0]? = some c)⟩).1]
    exact .inr hy

theorem maker_get {reg : GoMap Str Nat} {i : Str} {o : Nat} (h : findInFilesRegistry reg i = some o) : ∃ q, reg.get q = some o := by
  have key : ∀ n i r, findReg reg n i = some (some r) → ∃ q, reg.get q = some r := by
    intro n
    induction n with
    | zero => intro i r h; cases h
    | succ n ih =>
      intro i r h
      unfold findReg at h
      split at h
      · cases h; exact ⟨_, ‹_›⟩
      · dsimp only at h
        split at h
        · cases h
        · exact ih _ _ h
  unfold findInFilesRegistry at h
  exact key _ _ _ (Option.join_eq_some_iff.1 h)

theorem needs_parts {p c : Nat} (h : Needs s p c) (h1 : ∀ name, s.heap[p]? ≠ some (.ref name)) (h2 : ∀ t ins outs, s.heap[p]? ≠ some (.files t ins outs)) :
    ∃ ob, s.heap[p]? = some ob ∧ c ∈ ob.parts := by
  cases h with
  | all h hy => exact ⟨_, h, hy⟩
  | seq h hy => exact ⟨_, h, hy⟩
  | arg h => exact ⟨_, h, by simp [Obj.parts]⟩
  | input h => exact absurd h (h2 _ _ _)
  | name h => exact absurd h (h1 _)

/-- Each of the targets has a name, or is not inside another target. -/
def Outer (s : St) (os : List Nat) : Prop := ∀ o ∈ os, Named s o ∨ ∀ i k, ¬ Within s o i k

theorem PlaceInv.outer (hl : PlaceInv s) (hos : ∀ o ∈ os, ∃ q, (s.reg.target q).1 = some o) : Outer s os := by
  intro o ho
  obtain ⟨q, hq⟩ := hos o ho
  exact .inl (hl.regd _ _ hq).1

theorem part_within {x t : Nat} {ins outs : List Str} (hx : FilesOf s os x t ins outs) {c : Nat} (hc : Part s t c) : ∃ i k, Within s c i k := by
  cases hc with
  | self => exact ⟨x, 0, _, hx.2, rfl⟩
  | @all y ts _ _ h h' => obtain ⟨k, hk⟩ := List.mem_iff_getElem?.1 h'; exact ⟨y, k, _, h, hk⟩
  | @seq y ts _ _ h h' => obtain ⟨k, hk⟩ := List.mem_iff_getElem?.1 h'; exact ⟨y, k, _, h, hk⟩
  | @arg y _ args _ h => exact ⟨y, 0, _, h, rfl⟩

theorem rules_apart (hl : PlaceInv s) (hos : Outer s os) (hin : RulesInline s os) :
    (∀ x t ins outs x' t' ins' outs' c, FilesOf s os x t ins outs → FilesOf s os x' t' ins' outs' → Part s t c → Part s t' c → x = x') ∧
      ∀ x t ins outs c o, FilesOf s os x t ins outs → Part s t c → Wanted s os o → ¬ Stands s o c := by
  constructor
  · intro x t ins outs x' t' ins' outs' c hx hx' hc
    have nofiles : ∀ {p}, Part s t' p → p ≠ x := by rintro p hp rfl; exact (hin _ _ _ _ _ hx' hp).2.2 _ _ _ hx.2
    have nofiles' : ∀ {p}, Part s t p → p ≠ x' := by rintro p hp rfl; exact (hin _ _ _ _ _ hx hp).2.2 _ _ _ hx'.2
    have up : ∀ {y c ob}, Part s t y → s.heap[y]? = some ob → c ∈ ob.parts → Part s t' c → Part s t' y := by
      intro y c ob hy h1 h2 hc'
      rcases inline_owner hl hin hx' hc' h1 h2 with ⟨-, h⟩ | h
      · exact absurd h (nofiles' hy)
      · exact h
    induction hc with
    | self =>
      intro hc'
      rcases inline_owner hl hin hx' hc' hx.2 (by simp [Obj.parts]) with ⟨-, h⟩ | h
      · exact h
      · exact absurd rfl (nofiles h)
    | all hy h1 h2 ih => exact fun hc' => ih (up hy h1 h2 hc')
    | seq hy h1 h2 ih => exact fun hc' => ih (up hy h1 h2 hc')
    | arg hy h1 ih => exact fun hc' => ih (up hy h1 (by simp [Obj.parts]) hc')
  · intro x t ins outs c o hx hc hw hs
    induction hw generalizing c with
    | @arg o ho =>
      obtain ⟨hn, hr, -⟩ := hin _ _ _ _ _ hx hc
      rcases hs with ⟨name, -, h2⟩ | ⟨-, rfl⟩
      · exact hn (hl.regd _ _ h2).1
      · obtain ⟨i, k, hik⟩ := part_within hx hc
        rcases hos _ ho with h | h
        · exact hn h
        · exact h _ _ hik
    | @dep x₁ t₁ o h1 h2 h3 ih =>
      obtain ⟨hn, hr, hnf⟩ := hin _ _ _ _ _ hx hc
      rcases hs with ⟨name, -, h4⟩ | ⟨-, rfl⟩
      · exact hn (hl.regd _ _ h4).1
      have own : ∀ {ob}, s.heap[t₁]? = some ob → c ∈ ob.parts → (∀ t ins outs, ob ≠ .files t ins outs) → False := by
        intro ob h4 h5 h6
        rcases inline_owner hl hin hx hc h4 h5 with ⟨-, rfl⟩ | h
        · have := hx.2
          rw [h4] at this; cases this
          exact h6 _ _ _ rfl
        · exact ih _ h h2
      cases h3 with
      | all h hy => exact own h hy (by simp)
      | seq h hy => exact own h hy (by simp)
      | arg h => exact own h (by simp [Obj.parts]) (by simp)
      | input h hi hm =>
        obtain ⟨q, hq⟩ := maker_get hm
        obtain ⟨t', ins', outs', h7⟩ := hl.made _ _ hq
        exact hnf _ _ _ h7
      | name h hm => exact hn (hl.regd _ _ hm).1

theorem rule_places (hl : PlaceInv s) (hin : RulesInline s os) {x t : Nat} {ins outs : List Str} (hx : FilesOf s os x t ins outs) : OnePlace s t where
  one p p' c hp hp' h h' := by
    obtain ⟨-, a1, a2⟩ := hin _ _ _ _ _ hx hp
    obtain ⟨-, b1, b2⟩ := hin _ _ _ _ _ hx hp'
    obtain ⟨ob, g1, g2⟩ := needs_parts h a1 a2
    obtain ⟨ob', g1', g2'⟩ := needs_parts h' b1 b2
    have hc : Part s t c := by
      cases h with
      | all h hy => exact .all hp h hy
      | seq h hy => exact .seq hp h hy
      | arg h => exact .arg hp h
      | input h => exact absurd h (a2 _ _ _)
      | name h => exact absurd h (a1 _)
    obtain ⟨k, hk⟩ := List.mem_iff_getElem?.1 g2
    obtain ⟨k', hk'⟩ := List.mem_iff_getElem?.1 g2'
    exact (hl.one _ _ _ _ _ (hin _ _ _ _ _ hx hc).1 ⟨_, g1, hk⟩ ⟨_, g1', hk'⟩).1
  root p hp h := by
    obtain ⟨hn, a1, a2⟩ := hin _ _ _ _ _ hx hp
    obtain ⟨ob, g1, g2⟩ := needs_parts h a1 a2
    obtain ⟨k, hk⟩ := List.mem_iff_getElem?.1 g2
    have := (hl.one _ _ _ _ _ (hin _ _ _ _ _ hx .self).1 ⟨_, g1, hk⟩ ⟨_, hx.2, (by rfl : (Obj.files t ins outs).parts[0]? = some t)⟩).1
    subst this
    exact a2 _ _ _ hx.2
  seqs p ts hp h := by
    rw [List.nodup_iff_injective_getElem]
    intro ⟨k, hk⟩ ⟨k', hk'⟩ e
    dsimp only at e
    have h1 : ts[k]? = some ts[k] := by simp
    have h2 : ts[k']? = some ts[k] := by rw [e]; simp
    have := (hl.one _ _ _ _ _ (hin _ _ _ _ _ hx (.seq hp h (List.getElem_mem hk))).1 ⟨_, h, (h1 : (Obj.seq ts).parts[k]? = _)⟩
      ⟨_, h, (h2 : (Obj.seq ts).parts[k']? = _)⟩).2
    simpa using this

/-- **C94, rules.** In a project read from YAML files whose rules contain no references to other targets, for a build of registered targets: no two rules have
anything in common, and nothing in a rule is needed for anything else. -/
theorem C94_rules (hl : Loaded L s) (hos : ∀ o ∈ os, ∃ q, (s.reg.target q).1 = some o) (hin : RulesInline s os) :
    (∀ x t ins outs x' t' ins' outs' c, FilesOf s os x t ins outs → FilesOf s os x' t' ins' outs' → Part s t c → Part s t' c → x = x') ∧
      ∀ x t ins outs c o, FilesOf s os x t ins outs → Part s t c → Wanted s os o → ¬ Stands s o c :=
  rules_apart hl.place (hl.place.outer hos) hin

/-- **C94, within a rule.** Everything in such a rule is in one place of it. -/
theorem C94_rule_places (hl : Loaded L s) (hin : RulesInline s os) {x t : Nat} {ins outs : List Str} (hx : FilesOf s os x t ins outs) : OnePlace s t :=
  rule_places hl.place hin hx

/-- **C94, for C78.** What C78 asks of rules holds, then, if their JSON forms do not depend on the state of the world. -/
theorem C94_orderly {ρ : Type} {own : Own ρ} {J : Nat → Json.J} (hl : Loaded L s) (hos : ∀ o ∈ os, ∃ q, (s.reg.target q).1 = some o) (hin : RulesInline s os)
    (hdesc : ∀ x t ins outs, FilesOf s os x t ins outs → ∀ w, own.desc t w = some (J t)) (honce : NeededOnce s os) : Orderly own s J os where
  parts _ _ _ _ _ hx hc := (hin _ _ _ _ _ hx hc).2
  apart := (C94_rules hl hos hin).1
  priv := (C94_rules hl hos hin).2
  desc := hdesc
  once := honce

open Runner (Ev State Reach) in
/-- **C94, in a build.** What is written inside another target is run only by that target, and at most once, in every build of registered targets.  (A Files target
inside another one is also run for its outputs.) -/
theorem C94_runs {ρ : Type} {hex : Bytes → Str} {sum : Str → Str} {own : Own ρ} (hl : Loaded L s) (hos : ∀ o ∈ os, ∃ q, (s.reg.target q).1 = some o)
    (hown : ∀ o ctx, NoRun (own.body o ctx)) {w : World ρ} {ctx : Ctx} {st : State (World ρ) Ctx}
    (hr : Reach (buildEnv hex sum own s) w [.call ctx (os.map .ptr) .ret] st) {c : Nat} (hn : ¬ Named s c) (hnf : ∀ t ins outs, s.heap[c]? ≠ some (.files t ins outs))
    {th c₀ i₀ key : Nat} {ctx₀ : Ctx} (h : (th, Ev.start c₀ i₀ key c ctx₀) ∈ st.log) :
    (∃ p k th' c₁ i₁ key₁ ctx₁ refs, Within s c p k ∧ (th', Ev.start c₁ i₁ key₁ p ctx₁) ∈ st.log ∧ (th', Ev.call c₀ ctx₀ refs) ∈ st.log) ∧
      ∀ th' c₁ i₁ key₁ ctx₁, (th', Ev.start c₁ i₁ key₁ c ctx₁) ∈ st.log → th' = th := by
  have asked : ∀ {th c₀ i₀ key : Nat} {ctx₀ : Ctx}, (th, Ev.start c₀ i₀ key c ctx₀) ∈ st.log → key = c ∧ ∃ t' refs, (t', Ev.call c₀ ctx₀ refs) ∈ st.log ∧ .ptr c ∈ refs := by
    intro th c₀ i₀ key ctx₀ h
    obtain ⟨t', refs, o, b1, b2, b3, b4, b5⟩ := Runner.start_ok hr h
    have b3 : o = key := b3
    subst b3
    have hs : Stands s o c := canRun_stands (by
      cases hres : (buildEnv hex sum own s).resolve o with
      | none => exact .inl ⟨hres, b4 hres⟩
      | some f => obtain ⟨w, hw⟩ := b5 f hres; exact .inr ⟨f, w, hres, hw⟩)
    rcases hs with ⟨name, -, h2⟩ | ⟨-, rfl⟩
    · exact absurd (hl.place.regd _ _ h2).1 hn
    · exact ⟨rfl, t', refs, b1, List.mem_of_getElem? b2⟩
  obtain ⟨rfl, t', refs, b1, hm⟩ := asked h
  refine ⟨?_, fun th' c₁ i₁ key₁ ctx₁ h' => ?_⟩
  · obtain ⟨l₁, l₂, hl'⟩ := List.append_of_mem b1
    rcases Runner.caller hr hl' with ⟨-, -, h7, -⟩ | ⟨c₁, i₁, key₁, p, ctx₁, k, h7, h8⟩
    · rw [h7] at hm
      obtain ⟨q, hq⟩ := hos key (by simpa using hm)
      exact absurd (hl.place.regd _ _ hq).1 hn
    · have hu : Uses s p key := mayAsk_below (body_below hown _ _) (h8.mayAsk (r := .ptr key) (.now hm))
      have hw : ∃ ob, s.heap[p]? = some ob ∧ key ∈ ob.parts := by
        cases hu with
        | needs hu =>
          cases hu with
          | all h hy => exact ⟨_, h, hy⟩
          | seq h hy => exact ⟨_, h, hy⟩
          | arg h => exact ⟨_, h, by simp [Obj.parts]⟩
          | input h hi hm =>
            obtain ⟨q, hq⟩ := maker_get hm
            obtain ⟨t', ins', outs', h9⟩ := hl.place.made _ _ hq
            exact absurd h9 (hnf _ _ _)
          | name h hm => exact absurd (hl.place.regd _ _ hm).1 hn
        | files h => exact ⟨_, h, by simp [Obj.parts]⟩
      obtain ⟨ob, h9, h10⟩ := hw
      obtain ⟨j, hj⟩ := List.mem_iff_getElem?.1 h10
      exact ⟨p, j, t', _, _, _, _, refs, ⟨ob, h9, hj⟩, Runner.sub_log hl' h7, b1⟩
  · obtain ⟨rfl, -⟩ := asked h'
    exact Runner.start_key_uniq hr h' h

end
end Fab.Yaml
