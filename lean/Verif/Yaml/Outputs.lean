import Verif.Yaml.Term

/-!
# C67: the registries of output files

files.go:95-111 (`Files` enters its outputs in the registry of files) and files.go:234-245 (`Autoclean` enters them in the registry of
files to clean), for the targets read from YAML files.
-/

namespace Fab.Yaml
open Path Cmd

/-! ## Specification -/

/-- `node`, in a YAML file of the directory `dir` that was read (or in an item allowed by `A`), describes a target: it is the value of an
item of the file, or somewhere inside one. -/
def Occurs (L : Lib) (A : Str → Node → Node → Prop) (S : St) (node : Node) (dir : Str) : Prop :=
  ∃ key val, (A dir key val ∨ FromFile L S dir key val) ∧ Mentions L val node

/-- `node` in the directory `dir` is a !Files node with the outputs `outs` and the given Autoclean field, and `o` is its target. -/
def FilesNode (L : Lib) (S : St) (node : Node) (dir : Str) (o : Nat) (outs : List Str) (ac : Bool) : Prop :=
  (node.tag = "!Files".toList ∨ node.tag = "Files".toList) ∧ ∃ f l t ins, L.decFiles node = .ok f ∧ f.autoclean = ac ∧
    StringList L dir f.outs (.ok l) ∧ (outs = l.map fun x => joinPath L.top [dir, x]) ∧ S.heap[o]? = some (.files t ins outs)

/-- `o` is the Files target created last of those that have `x` among their outputs. -/
def LastWith (S : St) (x : Str) (o : Nat) : Prop :=
  (∃ t ins outs, S.heap[o]? = some (.files t ins outs) ∧ x ∈ outs) ∧
  ∀ o' t ins outs, o < o' → S.heap[o']? = some (.files t ins outs) → x ∉ outs

/-- The registry of files maps each output of a Files target to the target created last of those. -/
def FilesRegOk (S : St) : Prop := ∀ x o, S.filesReg.get x = some o ↔ LastWith S x o

/-! ## Proof -/

theorem normalizeTag_files {t : Str} (h : normalizeTag t = "Files".toList) : t = "!Files".toList ∨ t = "Files".toList := by
  unfold normalizeTag at h
  split at h
  · cases h
  · split at h
    · cases t with
      | nil => cases h
      | cons c cs =>
        rename_i h1 h2
        simp only [List.isPrefixOf, Bool.and_true, beq_iff_eq] at h2
        simp only [List.drop_succ_cons, List.drop_zero] at h
        left; rw [← h2, h]; rfl
    · exact .inr h

/-- The Files targets made between `s` and `s'` come from the nodes, in the directories, and with the Autoclean fields given by `desc`. -/
def Made (L : Lib) (A : Str → Node → Node → Prop) (s s' : St) (desc : Nat → Node × Str × Bool) : Prop :=
  (∀ o t ins outs, s.heap.length ≤ o → s'.heap[o]? = some (.files t ins outs) →
    Occurs L A s' (desc o).1 (desc o).2.1 ∧ FilesNode L s' (desc o).1 (desc o).2.1 o outs (desc o).2.2) ∧
  ∀ x, x ∈ s'.autoclean ↔ x ∈ s.autoclean ∨
    ∃ o t ins outs, s.heap.length ≤ o ∧ s'.heap[o]? = some (.files t ins outs) ∧ (desc o).2.2 = true ∧ x ∈ outs

structure K (L : Lib) (A : Str → Node → Node → Prop) (s s' : St) : Prop where
  heap : s.heap <+: s'.heap
  reads : s.reads <+: s'.reads
  made : ∃ desc, Made L A s s' desc
  reg : FilesRegOk s → FilesRegOk s'

variable {L : Lib} {A : Str → Node → Node → Prop}

theorem Occurs.mono {s s' : St} (h : s.reads <+: s'.reads) {node dir} (ho : Occurs L A s node dir) : Occurs L A s' node dir := by
  obtain ⟨k, v, h1, h2⟩ := ho
  refine ⟨k, v, ?_, h2⟩
  rcases h1 with h1 | ⟨D, doc, h3, h4⟩
  · exact .inl h1
  · exact .inr ⟨D, doc, h.subset h3, h4⟩

theorem Occurs.child {s : St} {node c dir} (ho : Occurs L A s node dir) (hc : c ∈ targetChildren L node) : Occurs L A s c dir := by
  obtain ⟨k, v, h1, h2⟩ := ho
  refine ⟨k, v, h1, ?_⟩
  clear h1
  induction h2 with
  | refl => exact .child hc .refl
  | child h _ ih => exact .child h (ih hc)

theorem FilesNode.mono {s s' : St} (h : s.heap <+: s'.heap) {node dir o outs ac} (hf : FilesNode L s node dir o outs ac) :
    FilesNode L s' node dir o outs ac := by
  obtain ⟨h0, f, l, t, ins, h1, h2, h3, h4, h5⟩ := hf
  exact ⟨h0, f, l, t, ins, h1, h2, h3, h4, get_of_prefix h h5⟩

theorem Made.same {s s' : St} (hh : ∀ o t ins outs, s.heap.length ≤ o → s'.heap[o]? ≠ some (.files t ins outs)) (ha : s'.autoclean = s.autoclean)
    (desc : Nat → Node × Str × Bool) : Made L A s s' desc := by
  refine ⟨fun o t ins outs h1 h2 => absurd h2 (hh o t ins outs h1), fun x => ?_⟩
  rw [ha]
  refine ⟨.inl, ?_⟩
  rintro (h | ⟨o, t, ins, outs, h1, h2, -⟩)
  · exact h
  · exact absurd h2 (hh o t ins outs h1)

theorem Made.trans {s s1 s2 : St} {d d' : Nat → Node × Str × Bool} (h : Made L A s s1 d) (h' : Made L A s1 s2 d') (hh : s.heap <+: s1.heap)
    (hh' : s1.heap <+: s2.heap) (hr : s1.reads <+: s2.reads) : Made L A s s2 (fun o => if o < s1.heap.length then d o else d' o) := by
  have back : ∀ {o x}, o < s1.heap.length → s2.heap[o]? = some x → s1.heap[o]? = some x := by
    intro o x h1 h2
    obtain ⟨r, hr⟩ := hh'
    rw [← hr, List.getElem?_append_left h1] at h2
    exact h2
  refine ⟨fun o t ins outs h1 h2 => ?_, fun x => ?_⟩
  · dsimp only
    by_cases ho : o < s1.heap.length
    · rw [if_pos ho]
      obtain ⟨h3, h4⟩ := h.1 o t ins outs h1 (back ho h2)
      exact ⟨h3.mono hr, h4.mono hh'⟩
    · rw [if_neg ho]
      exact h'.1 o t ins outs (by omega) h2
  · rw [h'.2, h.2]
    dsimp only
    constructor
    · rintro ((h1 | ⟨o, t, ins, outs, h1, h2, h3, h4⟩) | ⟨o, t, ins, outs, h1, h2, h3, h4⟩)
      · exact .inl h1
      · have ho := (List.getElem?_eq_some_iff.1 h2).1
        exact .inr ⟨o, t, ins, outs, h1, get_of_prefix hh' h2, by rw [if_pos ho]; exact h3, h4⟩
      · have := hh.length_le
        exact .inr ⟨o, t, ins, outs, by omega, h2, by rw [if_neg (by omega)]; exact h3, h4⟩
    · rintro (h1 | ⟨o, t, ins, outs, h1, h2, h3, h4⟩)
      · exact .inl (.inl h1)
      · by_cases ho : o < s1.heap.length
        · rw [if_pos ho] at h3
          exact .inl (.inr ⟨o, t, ins, outs, h1, back ho h2, h3, h4⟩)
        · rw [if_neg ho] at h3
          exact .inr ⟨o, t, ins, outs, by omega, h2, h3, h4⟩

theorem K.rfl {s : St} : K L A s s where
  heap := List.prefix_rfl
  reads := List.prefix_rfl
  made := ⟨fun _ => (.zero, [], false), Made.same (fun o t ins outs h1 h2 => by
    rw [List.getElem?_eq_none h1] at h2; cases h2) (Eq.refl _) _⟩
  reg h := h

theorem K.trans {s s1 s2 : St} (h : K L A s s1) (h' : K L A s1 s2) : K L A s s2 where
  heap := h.heap.trans h'.heap
  reads := h.reads.trans h'.reads
  made := by
    obtain ⟨d, hd⟩ := h.made
    obtain ⟨d', hd'⟩ := h'.made
    exact ⟨_, hd.trans hd' h.heap h'.heap h'.reads⟩
  reg hr := h'.reg (h.reg hr)

/-- The outcome `r` of a computation from `s`. -/
def Kp {α : Type} (L : Lib) (A : Str → Node → Node → Prop) (s : St) : R α → Prop
  | .ok _ s' => K L A s s'
  | .err _ s' => K L A s s'
  | .more => True

theorem Kp.bind {α β : Type} {s : St} {r : R α} {k : α → St → R β} (h : Kp L A s r) (hk : ∀ a s1, r = .ok a s1 → K L A s s1 → Kp L A s1 (k a s1)) :
    Kp L A s (r.bind k) := by
  cases r with
  | ok a s1 =>
    have h2 := hk a s1 (Eq.refl _) h
    show Kp L A s (k a s1)
    cases hr : k a s1 with
    | ok b s2 => rw [hr] at h2; exact K.trans h h2
    | err e s2 => rw [hr] at h2; exact K.trans h h2
    | more => trivial
  | err e s1 => exact h
  | more => trivial

theorem Kp.lift {α : Type} {s : St} {x : Except YErr α} : Kp L A s (lift x s) := by
  cases x <;> exact K.rfl

theorem Kp.err {α : Type} {s : St} {e} : Kp (α := α) L A s (.err e s) := K.rfl
theorem Kp.ok {α : Type} {s : St} {a : α} : Kp L A s (.ok a s) := K.rfl

theorem lift_ok {α : Type} {x : Except YErr α} {s s1 : St} {a : α} (h : Yaml.lift x s = .ok a s1) : x = .ok a ∧ s1 = s := by
  cases x with
  | ok b => simp only [Yaml.lift, R.ok.injEq] at h; exact ⟨by rw [h.1], h.2.symm⟩
  | error e => cases h

theorem getElem?_snoc {s : List Obj} {o : Obj} {i : Nat} {x : Obj} (h : (s ++ [o])[i]? = some x) : s[i]? = some x ∨ i = s.length ∧ x = o := by
  by_cases hi : i < s.length
  · rw [List.getElem?_append_left hi] at h; exact .inl h
  · rw [List.getElem?_append_right (by omega)] at h
    have : i - s.length = 0 := by
      have := (List.getElem?_eq_some_iff.1 h).1
      simp at this; omega
    rw [this] at h
    simp only [List.getElem?_cons_zero, Option.some.injEq] at h
    exact .inr ⟨by omega, h.symm⟩

theorem Kp.alloc {s : St} {o : Obj} (h : ∀ t i u, o ≠ .files t i u) : Kp L A s (alloc o s) where
  heap := by simp
  reads := List.prefix_rfl
  made := ⟨fun _ => (.zero, [], false), Made.same (fun i t ins outs h1 h2 => by
    have h2 : (s.heap ++ [o])[i]? = _ := h2
    rcases getElem?_snoc h2 with h3 | ⟨-, h3⟩
    · rw [List.getElem?_eq_none h1] at h3; cases h3
    · exact absurd h3.symm (h _ _ _)) (by rfl) _⟩
  reg hr x i := by
    have hl : ∀ (i : Nat) t ins outs, (s.heap ++ [o])[i]? = some (.files t ins outs) ↔ s.heap[i]? = some (.files t ins outs) := by
      intro i t ins outs
      constructor
      · intro h2
        rcases getElem?_snoc h2 with h3 | ⟨-, h3⟩
        · exact h3
        · exact absurd h3.symm (h _ _ _)
      · exact get_of_prefix (by simp)
    have h1 := hr x i
    unfold LastWith at h1 ⊢
    simp only [hl]
    exact h1

theorem Kp.register {s : St} {q d : Str} {o : Nat} : K L A s (register q d o s) where
  heap := List.prefix_rfl
  reads := List.prefix_rfl
  made := ⟨fun _ => (.zero, [], false), Made.same (fun i t ins outs h1 h2 => by
    have h2 : s.heap[i]? = _ := h2
    rw [List.getElem?_eq_none h1] at h2; cases h2) (Eq.refl _) _⟩
  reg h := h

theorem fold_put_get (outs : List Str) (id : Nat) (r : GoMap Str Nat) (x : Str) :
    (outs.foldl (fun r o => r.put o id) r).get x = if x ∈ outs then some id else r.get x := by
  induction outs generalizing r with
  | nil => simp
  | cons a outs ih =>
    rw [List.foldl_cons, ih, GoMap.get_put]
    by_cases h : x = a
    · subst h; simp
    · have h' : ¬ a = x := fun e => h e.symm
      simp [h, h']

theorem Kp.newFiles {s : St} {node : Node} {dir : Str} {f : FilesY} {l : List Str} {t : Nat} {ins outs : List Str}
    (hocc : Occurs L A s node dir) (htag : node.tag = "!Files".toList ∨ node.tag = "Files".toList) (hd : L.decFiles node = .ok f)
    (hl : StringList L dir f.outs (.ok l)) (ho : outs = l.map fun x => joinPath L.top [dir, x]) :
    Kp L A s (newFiles t ins outs f.autoclean s) where
  heap := by simp
  reads := List.prefix_rfl
  made := by
    refine ⟨fun _ => (node, dir, f.autoclean), fun i t' ins' outs' h1 h2 => ?_, fun x => ?_⟩
    · rcases getElem?_snoc h2 with h3 | ⟨h3, h4⟩
      · rw [List.getElem?_eq_none h1] at h3; cases h3
      · subst h3
        injection h4 with e1 e2 e3
        subst e1 e2 e3
        exact ⟨hocc.mono List.prefix_rfl, htag, f, l, t', ins', hd, Eq.refl _, hl, ho, by simp⟩
    · dsimp only
      constructor
      · intro hx
        split at hx
        · rename_i hac
          rcases (foldl_auto _ _ _).1 hx with hx | hx
          · exact .inr ⟨s.heap.length, t, ins, outs, Nat.le_refl _, by simp, hac, hx⟩
          · exact .inl hx
        · exact .inl hx
      · rintro (hx | ⟨i, t', ins', outs', h1, h2, h3, h4⟩)
        · split
          · exact (foldl_auto _ _ _).2 (.inr hx)
          · exact hx
        · rw [if_pos h3]
          rcases getElem?_snoc h2 with h5 | ⟨-, h5⟩
          · rw [List.getElem?_eq_none h1] at h5; cases h5
          · injection h5 with _ _ h6
            exact (foldl_auto _ _ _).2 (.inl (h6 ▸ h4))
  reg hr x i := by
    dsimp only
    rw [fold_put_get]
    have hr' := hr x i
    unfold LastWith at hr' ⊢
    dsimp only
    by_cases hx : x ∈ outs
    · rw [if_pos hx]
      constructor
      · intro h
        injection h with h
        subst h
        refine ⟨⟨t, ins, outs, by simp, hx⟩, fun o' t' i' u' h1 h2 => ?_⟩
        rcases getElem?_snoc h2 with h3 | ⟨h3, -⟩
        · exact absurd (List.getElem?_eq_some_iff.1 h3).1 (by omega)
        · omega
      · rintro ⟨⟨t', i', u', h1, h2⟩, h3⟩
        rcases getElem?_snoc h1 with h4 | ⟨h4, -⟩
        · have hlt := (List.getElem?_eq_some_iff.1 h4).1
          exact absurd hx (h3 s.heap.length t ins outs hlt (by simp))
        · rw [h4]
    · rw [if_neg hx, hr']
      constructor
      · rintro ⟨⟨t', i', u', h1, h2⟩, h3⟩
        refine ⟨⟨t', i', u', get_of_prefix (by simp) h1, h2⟩, fun o' t2 i2 u2 h4 h5 => ?_⟩
        rcases getElem?_snoc h5 with h6 | ⟨-, h6⟩
        · exact h3 _ _ _ _ h4 h6
        · injection h6 with _ _ h7; rw [h7]; exact hx
      · rintro ⟨⟨t', i', u', h1, h2⟩, h3⟩
        refine ⟨?_, fun o' t2 i2 u2 h4 h5 => h3 o' t2 i2 u2 h4 (get_of_prefix (by simp) h5)⟩
        rcases getElem?_snoc h1 with h4 | ⟨-, h4⟩
        · exact ⟨t', i', u', h4, h2⟩
        · injection h4 with _ _ h7; rw [h7] at h2; exact absurd h2 hx

/-- `yt` keeps to the rules for nodes that occur. -/
def KT (L : Lib) (A : Str → Node → Node → Prop) (yt : Node → Str → St → R Nat) : Prop :=
  ∀ node dir s, Occurs L A s node dir → Kp L A s (yt node dir s)

theorem mapT_k {yt : Node → Str → St → R Nat} (h : KT L A yt) (dir : Str) (cs : List Node) (s : St) (ho : ∀ c ∈ cs, Occurs L A s c dir) :
    Kp L A s (mapT yt dir cs s) := by
  induction cs generalizing s with
  | nil => exact Kp.ok
  | cons c cs ih =>
    refine (h c dir s (ho c List.mem_cons_self)).bind fun i s1 _ k1 => ?_
    exact (ih s1 fun c hc => (ho c (List.mem_cons_of_mem _ hc)).mono k1.reads).bind fun is s _ _ => Kp.ok

theorem allocCmds_k (mk : Str → Bool → Command) (first : Bool) (shs : List Str) (s : St) : Kp L A s (allocCmds mk first shs s) := by
  induction shs generalizing first s with
  | nil => exact Kp.ok
  | cons sh shs ih => exact (Kp.alloc (by simp)).bind fun i s _ _ => (ih false s).bind fun is s _ _ => Kp.ok

theorem commandDecoder_k (node : Node) (dir : Str) (s : St) : Kp L A s (commandDecoder L node dir s) := by
  unfold commandDecoder
  split
  · exact Kp.err
  refine Kp.lift.bind fun c s1 _ _ => ?_
  refine Kp.lift.bind fun args s1 _ _ => ?_
  refine Kp.lift.bind fun env s1 _ _ => ?_
  have hsingle : Kp L A s1 (match c.shell.kind with
      | .zero => alloc (.command (toTarget L c [] dir args env false)) s1
      | .scalar => alloc (.command (toTarget L c c.shell.value dir args env false)) s1
      | _ => .err .badKind s1) := by
    split
    · exact Kp.alloc (by simp)
    · exact Kp.alloc (by simp)
    · exact Kp.err
  dsimp only
  split
  · split
    · exact hsingle
    · exact Kp.err
    · exact (allocCmds_k _ _ _ _).bind fun ids s _ _ => Kp.alloc (by simp)
  · exact hsingle

theorem builtin_k {yt : Node → Str → St → R Nat} (h : KT L A yt) (node : Node) (dir : Str) (s : St) (hf : L.targetFn (normalizeTag node.tag) = none)
    (ho : Occurs L A s node dir) : Kp L A s (builtin L yt (normalizeTag node.tag) node dir s) := by
  have hdeps : ∀ t deps s, (∀ c ∈ t :: deps, Occurs L A s c dir) → Kp L A s ((yt t dir s).bind fun t s => (mapT yt dir deps s).bind fun ids s =>
      (alloc (.all ids) s).bind fun a s => alloc (.seq [a, t]) s) := fun t deps s hc =>
    (h _ _ _ (hc t List.mem_cons_self)).bind fun t s _ k1 =>
      (mapT_k h _ _ _ fun c hcc => (hc c (List.mem_cons_of_mem _ hcc)).mono k1.reads).bind fun ids s _ _ =>
        (Kp.alloc (by simp)).bind fun a s _ _ => Kp.alloc (by simp)
  have hchild : ∀ c s1, K L A s s1 → c ∈ targetChildren L node → Occurs L A s1 c dir := fun c s1 k hc => (ho.mono k.reads).child hc
  unfold targetChildren at hchild
  dsimp only at hchild
  rw [hf] at hchild
  unfold builtin
  split
  · rename_i ht
    rw [ht] at hchild
    split
    · exact Kp.err
    · exact (mapT_k h _ _ _ fun c hc => hchild c s K.rfl (by simpa using hc)).bind fun _ _ _ _ => Kp.alloc (by simp)
  split
  · rename_i ht
    rw [ht] at hchild
    split
    · exact Kp.err
    · exact (mapT_k h _ _ _ fun c hc => hchild c s K.rfl (by simpa using hc)).bind fun _ _ _ _ => Kp.alloc (by simp)
  split
  · rename_i ht
    rw [ht] at hchild
    split
    · rename_i hk
      split
      · exact Kp.err
      · rename_i t deps hc
        exact hdeps _ _ _ fun c hcc => hchild c s K.rfl (by simp [hk, hc] at hcc ⊢; exact hcc)
    · rename_i hk
      refine Kp.lift.bind fun d s1 he k1 => hdeps _ _ _ fun c hcc => hchild c s1 k1 ?_
      have := (lift_ok he).1
      simp [hk, this] at hcc ⊢; exact hcc
    · exact Kp.err
  split
  · rename_i ht
    rw [ht] at hchild
    split
    · exact Kp.err
    · split
      · exact Kp.err
      · rename_i t rest hc
        exact (h _ _ _ (hchild _ _ K.rfl (by simp [hc]))).bind fun t s _ _ => Kp.lift.bind fun _ _ _ _ => Kp.alloc (by simp)
  split
  · rename_i ht
    rw [ht] at hchild
    split
    · exact Kp.err
    · refine Kp.lift.bind fun f s1 he k1 => ?_
      have hd := (lift_ok he).1
      refine (h _ _ _ (hchild _ _ k1 (by simp [hd]))).bind fun t s2 _ k2 => ?_
      refine Kp.lift.bind fun ins s3 _ k3 => ?_
      refine Kp.lift.bind fun outs s4 he4 k4 => ?_
      have h4 := (lift_ok he4).1
      unfold fileList at h4
      split at h4
      · cases h4
      · rename_i l hl
        injection h4 with h4
        exact Kp.newFiles (ho.mono (k1.trans (k2.trans (k3.trans k4))).reads) (normalizeTag_files ht) hd ((C41_string_list ..).1 hl) h4.symm
  split
  · split
    · exact Kp.lift.bind fun d s _ _ => Kp.lift.bind fun _ _ _ _ => Kp.alloc (by simp)
    · exact Kp.lift.bind fun _ _ _ _ => Kp.alloc (by simp)
    · exact Kp.err
  split
  · exact commandDecoder_k _ _ _
  · exact Kp.err

theorem readItems_k {yt : Node → Str → St → R Nat} (h : KT L A yt) (dir : Str) :
    ∀ (k : Nat) (c : List Node), c.length ≤ k → ∀ (saw : Bool) (s : St),
      (∀ e ∈ pairs c, e.1.value ≠ "_dir".toList → Occurs L A s e.2 dir) → Kp L A s (readItems yt dir c saw s)
  | _, [], _, _, _, _ => by rw [readItems]; exacts [Kp.ok, by simp]
  | _, [_], _, _, _, _ => by rw [readItems]; exacts [Kp.ok, by simp]
  | 0, _ :: _ :: _, hk, _, _, _ => by simp at hk
  | k + 1, key :: val :: rest, hk, saw, s, ho => by
    have ih := readItems_k h dir k rest (by simp at hk; omega)
    rw [readItems]
    split
    · exact Kp.err
    split
    · split
      · exact Kp.err
      split
      · exact Kp.err
      · exact ih _ _ fun e he => ho e (List.mem_cons_of_mem _ he)
    · rename_i hd
      split
      · exact Kp.err
      · refine (h _ _ _ (ho (key, val) List.mem_cons_self hd)).bind fun o s1 _ k1 => ?_
        have k2 : K L A s1 (register (join [dir, key.value]) (docOf key) o s1) := Kp.register
        have h3 := ih saw (register (join [dir, key.value]) (docOf key) o s1) fun e he hn =>
          (ho e (List.mem_cons_of_mem _ he) hn).mono (k1.trans k2).reads
        generalize readItems yt dir rest saw (register (join [dir, key.value]) (docOf key) o s1) = r at h3
        cases r with
        | ok a s' => exact K.trans k2 h3
        | err e s' => exact K.trans k2 h3
        | more => trivial

theorem readDoc_k {yt : Node → Str → St → R Nat} (h : KT L A yt) (doc : Option Node) (dir : Str) (s : St)
    (ho : ∀ d, doc = some d → ∀ e ∈ items d, Occurs L A s e.2 dir) : Kp L A s (readDoc yt doc dir s) := by
  unfold readDoc
  split
  · exact Kp.err
  · rename_i d
    split
    · exact Kp.err
    · rename_i hk
      split
      · rename_i m hm
        split
        · exact Kp.err
        · rename_i hkm
          split
          · exact Kp.err
          · refine (readItems_k h dir _ _ (Nat.le_refl _) _ _ ?_).bind fun saw s _ _ => ?_
            · intro e he hn
              refine ho d rfl e ?_
              cases d with
              | mk k1 t1 v1 h1 l1 c1 =>
                cases m with
                | mk k2 t2 v2 h2 l2 c2 =>
                  simp only [Node.kind, not_not] at hk hkm
                  simp only [Node.content] at hm he
                  subst hk hkm hm
                  unfold items entries
                  exact List.mem_filter.2 ⟨he, by simpa using hn⟩
            · by_cases hc : dir ≠ [] ∧ saw = false
              · rw [if_pos hc]; exact Kp.err
              · rw [if_neg hc]; exact Kp.ok
      · exact Kp.err

theorem yaml_k (L : Lib) (A : Str → Node → Node → Prop) : ∀ n, KT L A (yamlTarget L n) ∧ ∀ d s, Kp L A s (readYAMLFile L n d s)
  | 0 => ⟨fun _ _ _ _ => by rw [yamlTarget]; trivial, fun _ _ => by rw [readYAMLFile]; trivial⟩
  | n + 1 => by
    obtain ⟨h1, h2⟩ := yaml_k L A n
    constructor
    · intro node d s ho
      rw [yamlTarget]
      unfold targetStep
      dsimp only
      split
      · split
        · exact Kp.lift.bind fun _ _ _ _ => Kp.alloc (by simp)
        · rename_i hf
          exact builtin_k h1 _ _ _ hf ho
      · split
        · exact Kp.err
        · unfold reference
          split
          · exact Kp.alloc (by simp)
          · split
            · exact Kp.err
            · split
              · exact Kp.alloc (by simp)
              · split
                · exact Kp.ok
                · refine (h2 _ _).bind fun _ s _ _ => ?_
                  split
                  · exact Kp.ok
                  · exact Kp.err
    · intro d s
      rw [readYAMLFile]
      unfold fileStep
      dsimp only
      have k1 : K L A s { s with reads := s.reads ++ [join [L.top, d]] } := by
        refine ⟨List.prefix_rfl, by simp, ⟨fun _ => (.zero, [], false), Made.same (s := s) (fun o t ins outs h1 h2 => ?_) (by rfl) _⟩, fun h => h⟩
        have h2 : s.heap[o]? = _ := h2
        rw [List.getElem?_eq_none h1] at h2; cases h2
      split
      · exact k1
      · exact k1
      · rename_i doc hdoc
        split
        · exact k1
        · rename_i r hr
          have h3 := readDoc_k h1 doc (if r = dot then [] else r) { s with reads := s.reads ++ [join [L.top, d]] } (by
            intro dd hdd e he
            subst hdd
            refine ⟨e.1, e.2, .inr ⟨join [L.top, d], dd, by simp, ⟨d, rfl⟩, hdoc, ?_, he⟩, .refl⟩
            unfold relDir; rw [hr]; rfl)
          generalize readDoc (yamlTarget L n) doc (if r = dot then [] else r) { s with reads := s.reads ++ [join [L.top, d]] } = o at h3
          cases o with
          | ok a s' => exact K.trans k1 h3
          | err e s' => exact K.trans k1 h3
          | more => trivial

/-! ## C67 -/

/-- The outcome of a computation that has ended, with success or an error, in the state `s'`. -/
def EndsIn {α : Type} (r : R α) (s' : St) : Prop := (∃ a, r = .ok a s') ∨ ∃ e, r = .err e s'

theorem K_of_ends {n : Nat} {dir : Str} {s s' : St} (h : EndsIn (readYAMLFile L n dir s) s') : K L nothing s s' := by
  have := (yaml_k L nothing n).2 dir s
  rcases h with ⟨a, h⟩ | ⟨e, h⟩ <;> rw [h] at this <;> exact this

theorem occurs_nothing {S : St} {node : Node} {dir : Str} (h : Occurs L nothing S node dir) :
    ∃ key val, FromFile L S dir key val ∧ Mentions L val node := by
  obtain ⟨k, v, h1, h2⟩ := h
  rcases h1 with h1 | h1
  · exact h1.elim
  · exact ⟨k, v, h1, h2⟩

/-- **C67, where the Files targets come from.** After a YAML file has been read (with all the files that it refers to, and also if there was
an error), each Files target just made (number `o`) comes from a node `(desc o).1` of one of these files, of the directory `(desc o).2.1`: a !Files
node with these outputs; and, apart from the files it had before, the registry of files to clean has exactly the outputs of those whose node has
`Autoclean: true`. -/
theorem C67_autoclean (L : Lib) (n : Nat) (dir : Str) (s s' : St) (h : EndsIn (readYAMLFile L n dir s) s') :
    ∃ desc : Nat → Node × Str × Bool,
      (∀ o t ins outs, s.heap.length ≤ o → s'.heap[o]? = some (.files t ins outs) →
        (∃ key val, FromFile L s' (desc o).2.1 key val ∧ Mentions L val (desc o).1) ∧
        FilesNode L s' (desc o).1 (desc o).2.1 o outs (desc o).2.2) ∧
      ∀ x, x ∈ s'.autoclean ↔ x ∈ s.autoclean ∨
        ∃ o t ins outs, s.heap.length ≤ o ∧ s'.heap[o]? = some (.files t ins outs) ∧ (desc o).2.2 = true ∧ x ∈ outs := by
  obtain ⟨desc, h1, h2⟩ := (K_of_ends h).made
  refine ⟨desc, fun o t ins outs h3 h4 => ?_, h2⟩
  obtain ⟨h5, h6⟩ := h1 o t ins outs h3 h4
  exact ⟨occurs_nothing h5, h6⟩

/-- **C67, the registry of files.** ... and the registry of files maps every output of every Files target to the one created last of those that
have it as an output, and nothing else to anything. -/
theorem C67_files (L : Lib) (n : Nat) (dir : Str) (s s' : St) (hs : FilesRegOk s) (h : EndsIn (readYAMLFile L n dir s) s') (x : Str) (o : Nat) :
    s'.filesReg.get x = some o ↔
      (∃ t ins outs, s'.heap[o]? = some (.files t ins outs) ∧ x ∈ outs) ∧
      ∀ o' t ins outs, o < o' → s'.heap[o']? = some (.files t ins outs) → x ∉ outs :=
  (K_of_ends h).reg hs x o

/-- In a new process nothing is registered. -/
theorem C67_files_empty : FilesRegOk St.empty := by
  intro x o
  constructor
  · intro h; cases h
  · rintro ⟨⟨t, ins, outs, h, -⟩, -⟩; cases h

/-! ### An example: three Files targets, one of them with Autoclean, two with the same output -/

def outFilesY (n : Node) : Except YErr FilesY :=
  match n.content with
  | [a] => .ok ⟨.zero, a, exScalar "T", false⟩
  | [a, _] => .ok ⟨.zero, a, exTagged "!Clean" .sequence [], true⟩
  | _ => .error .yaml

def outDoc : Node := exDoc [exKey "_dir" "", exScalar "a", exKey "X" "", exTagged "!Files" .mapping [exTagged "!!seq" .sequence [exScalar "x", exScalar "y"]],
  exKey "Y" "", exTagged "!All" .sequence
    [exTagged "!Files" .mapping [exTagged "!!seq" .sequence [exScalar "../z"], exScalar ""],
     exTagged "!Files" .mapping [exTagged "!!seq" .sequence [exScalar "y"]]]]

def outLib : Lib := { exLib with
  file := fun D => if D = "/top/a".toList then .doc (some outDoc) else .none
  decFiles := outFilesY }

def outEnd : St := match readYAMLFile outLib 8 "a".toList St.empty with
  | .ok _ s => s
  | _ => St.empty

example : readYAMLFile outLib 8 "a".toList St.empty = .ok () outEnd ∧ outEnd.autoclean = ["/top/z".toList] ∧
    outEnd.filesReg.get "/top/a/y".toList = some 5 ∧ outEnd.filesReg.get "/top/a/x".toList = some 1 ∧
    outEnd.filesReg.get "/top/z".toList = some 3 ∧ FilesNode outLib outEnd
      (exTagged "!Files" .mapping [exTagged "!!seq" .sequence [exScalar "../z"], exScalar ""]) "a".toList 3 ["/top/z".toList] true := by
  refine ⟨by rfl, by decide +kernel, by decide +kernel, by decide +kernel, by decide +kernel, .inl rfl, _, ["../z".toList], 2, [], rfl, rfl, ?_, ?_, by rfl⟩
  · exact (C41_string_list ..).1 (by rfl)
  · decide +kernel

end Fab.Yaml
