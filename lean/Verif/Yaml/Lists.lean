import Verif.Yaml.Model

/-!
# C41: string lists and file lists in YAML
-/

namespace Fab.Yaml
open Path

/-! ## Specification -/

mutual
/-- What one item of a list stands for (a list of strings, or an error), in the directory `dir`. -/
inductive Item (L : Lib) (dir : Str) : Node → Except YErr (List Str) → Prop
  /-- a plain scalar stands for itself -/
  | scalar {n} (ht : normalizeTag n.tag = []) (hk : n.kind = .scalar) : Item L dir n (.ok [n.value])
  /-- another item without a tag is an error -/
  | untagged {n} (ht : normalizeTag n.tag = []) (hk : n.kind ≠ .scalar) : Item L dir n (.error .badKind)
  /-- an item with a tag stands for whatever the tag makes of it -/
  | tag {n r} (ht : normalizeTag n.tag ≠ []) (h : Tagged L dir (normalizeTag n.tag) n r) : Item L dir n r
/-- What the function of a tag makes of a node. -/
inductive Tagged (L : Lib) (dir : Str) : Str → Node → Except YErr (List Str) → Prop
  /-- a tag that was registered -/
  | registered {t n fn} (h : L.strFn t = some fn) : Tagged L dir t n (fn n dir)
  | unknown {t n} (h : L.strFn t = none) (hg : t ≠ "Glob".toList) : Tagged L dir t n (.error (.unknownTag t))
  /-- Glob: not a sequence -/
  | globKind {n} (h : L.strFn "Glob".toList = none) (hk : n.kind ≠ .sequence) : Tagged L dir "Glob".toList n (.error .badKind)
  /-- Glob: an error in the list of patterns -/
  | globItem {n pre m post parts e} (h : L.strFn "Glob".toList = none) (hk : n.kind = .sequence)
      (hc : n.content = pre ++ m :: post) (hl : parts.length = pre.length)
      (hp : ∀ x ∈ pre.zip parts, Item L dir x.1 (.ok x.2)) (hm : Item L dir m (.error e)) :
      Tagged L dir "Glob".toList n (.error e)
  /-- Glob: a bad pattern -/
  | globBad {n parts before p after e} (h : L.strFn "Glob".toList = none) (hk : n.kind = .sequence)
      (hl : parts.length = n.content.length) (hp : ∀ x ∈ n.content.zip parts, Item L dir x.1 (.ok x.2))
      (hs : parts.flatten = before ++ p :: after)
      (hb : ∀ q ∈ before, ∃ ms, L.glob (globDir L dir) q = .ok ms)
      (hbad : L.glob (globDir L dir) p = .error e) :
      Tagged L dir "Glob".toList n (.error e)
  /-- Glob: the matches of the patterns, in order -/
  | glob {n parts} {ms : List (List Str)} (h : L.strFn "Glob".toList = none) (hk : n.kind = .sequence)
      (hl : parts.length = n.content.length) (hp : ∀ x ∈ n.content.zip parts, Item L dir x.1 (.ok x.2))
      (hml : ms.length = parts.flatten.length)
      (hm : ∀ x ∈ parts.flatten.zip ms, L.glob (globDir L dir) x.1 = .ok x.2) :
      Tagged L dir "Glob".toList n (.ok ms.flatten)
end

/-- What a list of items stands for: the concatenation, in order; or the error of the first bad one. -/
def ListOf (L : Lib) (dir : Str) (nodes : List Node) : Except YErr (List Str) → Prop
  | .ok l => ∃ parts : List (List Str), parts.length = nodes.length ∧ (∀ x ∈ nodes.zip parts, Item L dir x.1 (.ok x.2)) ∧
      l = parts.flatten
  | .error e => ∃ pre n post, nodes = pre ++ n :: post ∧ (∀ m ∈ pre, ∃ p, Item L dir m (.ok p)) ∧ Item L dir n (.error e)

/-- What a node stands for where a list of strings is wanted. -/
inductive StringList (L : Lib) (dir : Str) (n : Node) : Except YErr (List Str) → Prop
  | missing (h : n.kind = .zero) : StringList L dir n (.ok [])
  | tag {r} (h : n.kind ≠ .zero) (ht : normalizeTag n.tag ≠ []) (hr : Tagged L dir (normalizeTag n.tag) n r) :
      StringList L dir n r
  | notSequence (h : n.kind ≠ .zero) (ht : normalizeTag n.tag = []) (hk : n.kind ≠ .sequence) :
      StringList L dir n (.error .badKind)
  | sequence {r} (ht : normalizeTag n.tag = []) (hk : n.kind = .sequence) (hr : ListOf L dir n.content r) :
      StringList L dir n r

/-! ## Helper lemmas -/

theorem node_eta (n : Node) : n = .mk n.kind n.tag n.value n.head n.line n.content := by cases n; rfl

def item (L : Lib) (dir : Str) (n : Node) : Except YErr (List Str) :=
  if normalizeTag n.tag = [] ∧ n.kind = .scalar then .ok [n.value]
  else if normalizeTag n.tag = [] then .error .badKind
  else tagged L (normalizeTag n.tag) n dir

theorem fromNodes_cons (L : Lib) (dir : Str) (n : Node) (rest : List Node) :
    fromNodes L (n :: rest) dir =
      match item L dir n with
      | .error e => .error e
      | .ok p =>
        match fromNodes L rest dir with
        | .error e => .error e
        | .ok r => .ok (p ++ r) := by
  cases n with
  | mk k t v h l c =>
    unfold item
    rw [fromNodes]
    simp only [Node.tag, Node.kind, Node.value]
    by_cases h1 : normalizeTag t = [] ∧ k = .scalar
    · simp [h1]; rfl
    · by_cases h2 : normalizeTag t = []
      · have h3 : k ≠ .scalar := fun h => h1 ⟨h2, h⟩
        simp [h2, h3]
      · simp [h2]; rfl

theorem listOf_iff (L : Lib) (dir : Str) (nodes : List Node) (H : ∀ n ∈ nodes, ∀ r, Item L dir n r ↔ item L dir n = r)
    (r : Except YErr (List Str)) : ListOf L dir nodes r ↔ fromNodes L nodes dir = r := by
  induction nodes generalizing r with
  | nil =>
    rw [fromNodes]
    cases r with
    | ok l =>
      constructor
      · rintro ⟨parts, hl, -, rfl⟩
        rw [List.eq_nil_of_length_eq_zero hl]; rfl
      · intro h
        injection h with h
        exact ⟨[], rfl, by simp, by rw [← h]; rfl⟩
    | error e =>
      constructor
      · rintro ⟨pre, n, post, h, -⟩
        cases pre <;> cases h
      · intro h; cases h
  | cons n nodes ih =>
    have ih := ih fun m hm => H m (List.mem_cons_of_mem _ hm)
    have hn := H n List.mem_cons_self
    rw [fromNodes_cons]
    cases r with
    | ok l =>
      constructor
      · rintro ⟨parts, hl, hp, rfl⟩
        cases parts with
        | nil => cases hl
        | cons p parts =>
          have h1 := (hn (.ok p)).1 (hp (n, p) (by simp))
          have h2 := (ih (.ok parts.flatten)).1 ⟨parts, by simpa using hl, fun x hx => hp x (by simp [hx]), rfl⟩
          simp [h1, h2]
      · intro h
        cases h1 : item L dir n with
        | error e => simp [h1] at h
        | ok p =>
          cases h2 : fromNodes L nodes dir with
          | error e => simp [h1, h2] at h
          | ok q =>
            simp only [h1, h2, Except.ok.injEq] at h
            obtain ⟨parts, hl, hp, rfl⟩ := (ih (.ok q)).2 h2
            refine ⟨p :: parts, by simp [hl], ?_, by rw [← h]; rfl⟩
            intro x hx
            rw [List.zip_cons_cons, List.mem_cons] at hx
            rcases hx with rfl | hx
            · exact (hn _).2 h1
            · exact hp x hx
    | error e =>
      constructor
      · rintro ⟨pre, m, post, h, hpre, hm⟩
        cases pre with
        | nil =>
          injection h with ha hb
          subst ha
          rw [(hn _).1 hm]
        | cons a pre =>
          injection h with ha hb
          subst ha
          obtain ⟨p, hp⟩ := hpre n List.mem_cons_self
          rw [(hn _).1 hp, (ih (.error e)).1 ⟨pre, m, post, hb, fun x hx => hpre x (List.mem_cons_of_mem _ hx), hm⟩]
      · intro h
        cases h1 : item L dir n with
        | error e' =>
          simp only [h1, Except.error.injEq] at h
          exact ⟨[], n, nodes, rfl, by simp, (hn _).2 (by rw [h1, h])⟩
        | ok p =>
          cases h2 : fromNodes L nodes dir with
          | ok q => simp [h1, h2] at h
          | error e' =>
            simp only [h1, h2, Except.error.injEq] at h
            subst h
            obtain ⟨pre, m, post, rfl, hpre, hm⟩ := (ih (.error e')).2 h2
            refine ⟨n :: pre, m, post, rfl, ?_, hm⟩
            intro x hx
            rcases List.mem_cons.1 hx with rfl | hx
            · exact ⟨p, (hn _).2 h1⟩
            · exact hpre x hx

theorem globAll_ok (g : Str → Except YErr (List Str)) (ps l : List Str) :
    globAll g ps = .ok l ↔ ∃ ms : List (List Str), ms.length = ps.length ∧ (∀ x ∈ ps.zip ms, g x.1 = .ok x.2) ∧ l = ms.flatten := by
  induction ps generalizing l with
  | nil =>
    simp only [globAll, Except.ok.injEq]
    constructor
    · rintro rfl; exact ⟨[], rfl, by simp, rfl⟩
    · rintro ⟨ms, hl, -, rfl⟩; rw [List.eq_nil_of_length_eq_zero hl]; rfl
  | cons p ps ih =>
    rw [globAll]
    constructor
    · intro h
      cases h1 : g p with
      | error e => simp [h1] at h
      | ok a =>
        cases h2 : globAll g ps with
        | error e => simp [h1, h2] at h
        | ok b =>
          simp only [h1, h2, Except.ok.injEq] at h
          obtain ⟨ms, hl, hm, rfl⟩ := (ih b).1 h2
          refine ⟨a :: ms, by simp [hl], ?_, by rw [← h]; rfl⟩
          intro x hx
          rw [List.zip_cons_cons, List.mem_cons] at hx
          rcases hx with rfl | hx
          · exact h1
          · exact hm x hx
    · rintro ⟨ms, hl, hm, rfl⟩
      cases ms with
      | nil => cases hl
      | cons a ms =>
        rw [hm (p, a) (by simp), (ih ms.flatten).2 ⟨ms, by simpa using hl, fun x hx => hm x (by simp [hx]), rfl⟩]
        rfl

theorem globAll_error (g : Str → Except YErr (List Str)) (ps : List Str) (e : YErr) :
    globAll g ps = .error e ↔ ∃ before p after, ps = before ++ p :: after ∧ (∀ q ∈ before, ∃ ms, g q = .ok ms) ∧ g p = .error e := by
  induction ps with
  | nil => simp [globAll]
  | cons p ps ih =>
    rw [globAll]
    constructor
    · intro h
      cases h1 : g p with
      | error e' =>
        simp only [h1, Except.error.injEq] at h
        exact ⟨[], p, ps, rfl, by simp, by rw [h1, h]⟩
      | ok a =>
        cases h2 : globAll g ps with
        | ok b => simp [h1, h2] at h
        | error e' =>
          simp only [h1, h2, Except.error.injEq] at h
          obtain ⟨b, q, c, rfl, hb, hq⟩ := ih.1 (by rw [h2, h])
          exact ⟨p :: b, q, c, rfl, by intro x hx; rcases List.mem_cons.1 hx with rfl | hx; exacts [⟨a, h1⟩, hb x hx], hq⟩
    · rintro ⟨b, q, c, h, hb, hq⟩
      cases b with
      | nil => injection h with ha hb'; subst ha; rw [hq]
      | cons x b =>
        injection h with ha hb'
        subst ha
        obtain ⟨ms, hms⟩ := hb p List.mem_cons_self
        rw [hms, ih.2 ⟨b, q, c, hb', fun y hy => hb y (List.mem_cons_of_mem _ hy), hq⟩]

theorem parts_of_all {L : Lib} {dir : Str} {pre : List Node} (h : ∀ m ∈ pre, ∃ p, Item L dir m (.ok p)) :
    ∃ parts : List (List Str), parts.length = pre.length ∧ ∀ x ∈ pre.zip parts, Item L dir x.1 (.ok x.2) := by
  induction pre with
  | nil => exact ⟨[], rfl, by simp⟩
  | cons a pre ih =>
    obtain ⟨parts, hl, hp⟩ := ih fun m hm => h m (List.mem_cons_of_mem _ hm)
    obtain ⟨p, hp0⟩ := h a List.mem_cons_self
    refine ⟨p :: parts, by simp [hl], ?_⟩
    intro x hx
    rw [List.zip_cons_cons, List.mem_cons] at hx
    rcases hx with rfl | hx
    · exact hp0
    · exact hp x hx

theorem all_of_parts {L : Lib} {dir : Str} {pre : List Node} {parts : List (List Str)} (hl : parts.length = pre.length)
    (hp : ∀ x ∈ pre.zip parts, Item L dir x.1 (.ok x.2)) : ∀ m ∈ pre, ∃ p, Item L dir m (.ok p) := by
  induction pre generalizing parts with
  | nil => simp
  | cons a pre ih =>
    cases parts with
    | nil => cases hl
    | cons p parts =>
      intro m hm
      rcases List.mem_cons.1 hm with rfl | hm
      · exact ⟨p, hp (m, p) (by simp)⟩
      · exact ih (by simpa using hl) (fun x hx => hp x (by simp [hx])) m hm

theorem tagged_iff (L : Lib) (dir : Str) (n : Node) (H : ∀ m ∈ n.content, ∀ r, Item L dir m r ↔ item L dir m = r) (t : Str)
    (r : Except YErr (List Str)) : Tagged L dir t n r ↔ tagged L t n dir = r := by
  have heq : tagged L t n dir =
      match L.strFn t with
      | some fn => fn n dir
      | none =>
        if t = "Glob".toList then
          if n.kind ≠ .sequence then .error .badKind
          else
            match fromNodes L n.content dir with
            | .error e => .error e
            | .ok patterns => globAll (L.glob (globDir L dir)) patterns
        else .error (.unknownTag t) := by
    cases n; rw [tagged]; rfl
  have HL := listOf_iff L dir n.content H
  rw [heq]
  constructor
  · intro h
    cases h with
    | registered h => simp [h]
    | unknown h hg => simp only [h]; rw [if_neg hg]
    | globKind h hk => rw [h]; dsimp only; rw [if_pos rfl, if_pos hk]
    | globItem h hk hc hl hp hm =>
      have := (HL (.error _)).1 ⟨_, _, _, hc, all_of_parts hl hp, hm⟩
      rw [h]
      dsimp only
      rw [if_pos rfl, if_neg (by simp [hk])]
      simp only [this]
    | globBad h hk hl hp hs hb hbad =>
      have := (HL (.ok _)).1 ⟨_, hl, hp, rfl⟩
      rw [h]
      dsimp only
      rw [if_pos rfl, if_neg (by simp [hk])]
      simp only [this]
      exact (globAll_error _ _ _).2 ⟨_, _, _, hs, hb, hbad⟩
    | glob h hk hl hp hml hm =>
      have := (HL (.ok _)).1 ⟨_, hl, hp, rfl⟩
      rw [h]
      dsimp only
      rw [if_pos rfl, if_neg (by simp [hk])]
      simp only [this]
      exact (globAll_ok _ _ _).2 ⟨_, hml, hm, rfl⟩
  · intro h
    cases hf : L.strFn t with
    | some fn =>
      simp only [hf] at h
      subst h
      exact .registered hf
    | none =>
      simp only [hf] at h
      split at h
      · rename_i ht
        subst ht
        split at h
        · rename_i hk; subst h; exact .globKind hf hk
        · rename_i hk
          have hk : n.kind = .sequence := not_not.1 hk
          split at h
          · rename_i e he
            subst h
            obtain ⟨pre, m, post, hc, hpre, hm⟩ := (HL (.error e)).2 he
            obtain ⟨parts, hl, hp⟩ := parts_of_all hpre
            exact .globItem hf hk hc hl hp hm
          · rename_i ps he
            obtain ⟨parts, hl, hp, rfl⟩ := (HL (.ok ps)).2 he
            cases r with
            | ok l =>
              obtain ⟨ms, hml, hm, rfl⟩ := (globAll_ok _ _ _).1 h
              exact .glob hf hk hl hp hml hm
            | error e =>
              obtain ⟨b, p, a, hs, hb, hbad⟩ := (globAll_error _ _ _).1 h
              exact .globBad hf hk hl hp hs hb hbad
      · rename_i ht; subst h; exact .unknown hf ht

theorem mem_content_lt {m n : Node} (h : m ∈ n.content) : sizeOf m < sizeOf n := by
  cases n with
  | mk k t v hd l c =>
    have := List.sizeOf_lt_of_mem (show m ∈ c from h)
    simp only [Node.mk.sizeOf_spec]
    omega

theorem item_iff (L : Lib) (dir : Str) (n : Node) (r : Except YErr (List Str)) : Item L dir n r ↔ item L dir n = r := by
  have H : ∀ m ∈ n.content, ∀ r, Item L dir m r ↔ item L dir m = r := fun m hm r => item_iff L dir m r
  have HT := tagged_iff L dir n H
  unfold item
  constructor
  · intro h
    cases h with
    | scalar ht hk => simp [ht, hk]
    | untagged ht hk => simp [ht, hk]
    | tag ht h => rw [if_neg (by simp [ht]), if_neg ht]; exact (HT _ _).1 h
  · intro h
    split at h
    · rename_i hh; subst h; exact .scalar hh.1 hh.2
    · split at h
      · rename_i h1 h2; subst h; exact .untagged h2 fun hk => h1 ⟨h2, hk⟩
      · rename_i h1 h2; exact .tag h2 ((HT _ _).2 h)
termination_by sizeOf n
decreasing_by exact mem_content_lt hm

theorem fromNodes_iff (L : Lib) (dir : Str) (nodes : List Node) (r : Except YErr (List Str)) :
    fromNodes L nodes dir = r ↔ ListOf L dir nodes r := (listOf_iff L dir nodes (fun n _ r => item_iff L dir n r) r).symm

/-! ## C41 -/

/-- **C41.** `YAMLStringListFromNodes` returns exactly what the list of items stands for: the concatenation, in order, of every
plain scalar itself and every tagged item's expansion, or the error of the first bad item. -/
theorem C41_from_nodes (L : Lib) (dir : Str) (nodes : List Node) (r : Except YErr (List Str)) :
    fromNodes L nodes dir = r ↔ ListOf L dir nodes r := fromNodes_iff L dir nodes r

/-- **C41.** `YAMLStringList` returns exactly what the node stands for: nothing for a missing node, the expansion of its tag, the
concatenation of the items of a sequence; another node is an error. -/
theorem C41_string_list (L : Lib) (dir : Str) (n : Node) (r : Except YErr (List Str)) :
    stringList L n dir = r ↔ StringList L dir n r := by
  have HT := tagged_iff L dir n (fun m _ r => item_iff L dir m r)
  unfold stringList
  dsimp only
  constructor
  · intro h
    split at h
    · rename_i hk; subst h; exact .missing hk
    · rename_i hk
      split at h
      · rename_i ht; exact .tag hk ht ((HT _ _).2 h)
      · rename_i ht
        have ht : normalizeTag n.tag = [] := not_not.1 ht
        split at h
        · rename_i hs; subst h; exact .notSequence hk ht hs
        · rename_i hs
          exact .sequence ht (not_not.1 hs) ((fromNodes_iff _ _ _ _).1 h)
  · intro h
    cases h with
    | missing h => rw [if_pos h]
    | tag h ht hr => rw [if_neg h]; rw [if_pos ht]; exact (HT _ _).1 hr
    | notSequence h ht hk => rw [if_neg h]; rw [if_neg (by simp [ht]), if_pos hk]
    | sequence ht hk hr =>
      rw [if_neg (by simp [hk])]
      rw [if_neg (by simp [ht]), if_neg (by simp [hk])]
      exact (fromNodes_iff _ _ _ _).2 hr

/-- **C41, every node has exactly one meaning.** -/
theorem C41_unique (L : Lib) (dir : Str) (n : Node) : ∃! r, StringList L dir n r :=
  ⟨stringList L n dir, (C41_string_list L dir n _).1 rfl, fun _ h => ((C41_string_list L dir n _).2 h).symm⟩

/-- **C41, file lists.** `YAMLFileList` and `YAMLFileListFromNodes` succeed exactly when the list of strings does, with the same
error otherwise, and give each string joined to the directory. -/
theorem C41_file_list (L : Lib) (dir : Str) (n : Node) (r : Except YErr (List Str)) (h : StringList L dir n r) :
    fileList L n dir = match r with
      | .ok l => .ok (l.map fun s => joinPath L.top [dir, s])
      | .error e => .error e := by
  rw [fileList, (C41_string_list L dir n r).2 h]
  cases r <;> rfl

theorem C41_file_list_from_nodes (L : Lib) (dir : Str) (nodes : List Node) (r : Except YErr (List Str)) (h : ListOf L dir nodes r) :
    fileListFromNodes L nodes dir = match r with
      | .ok l => .ok (l.map fun s => joinPath L.top [dir, s])
      | .error e => .error e := by
  rw [fileListFromNodes, (fromNodes_iff L dir nodes r).2 h]
  cases r <;> rfl

/-- **C41, tags.** A node has no tag (`normalizeTag` is empty) if the parser gives it none, one of YAML's own ("!!str" and so on), or the
non-specific one "!"; and it has the tag `name` if it is written `!name` (or the parser gives it as `name`). -/
theorem C41_tags (t : Str) :
    (normalizeTag t = [] ↔ t = [] ∨ t = ['!'] ∨ ∃ r, t = '!' :: '!' :: r) ∧
    ∀ name, name ≠ [] → name.head? ≠ some '!' → (normalizeTag t = name ↔ t = '!' :: name ∨ t = name) := by
  match t with
  | [] => exact ⟨by simp [normalizeTag], fun name h _ => by simp [normalizeTag, h]⟩
  | [c] =>
    by_cases h : c = '!'
    · subst h
      refine ⟨by simp [normalizeTag], fun name h1 h2 => ?_⟩
      simp only [normalizeTag, List.isPrefixOf, Bool.and_false, Bool.false_eq_true, if_false, BEq.rfl, Bool.and_true, if_true, List.drop_succ_cons, List.drop_zero]
      constructor
      · intro h; exact absurd h.symm h1
      · rintro (h | h)
        · simp at h; exact absurd h h1
        · subst h; simp at h2
    · refine ⟨by simp [normalizeTag, h, Ne.symm h], fun name h1 h2 => ?_⟩
      simp [normalizeTag, Ne.symm h, h]
  | c :: d :: r =>
    by_cases h : c = '!'
    · subst h
      by_cases hd : d = '!'
      · subst hd
        refine ⟨by simp [normalizeTag], fun name h1 h2 => ?_⟩
        simp only [normalizeTag, List.isPrefixOf, BEq.rfl, Bool.and_true, if_true]
        constructor
        · intro h; exact absurd h.symm h1
        · rintro (h | h)
          · simp only [List.cons.injEq, true_and] at h; subst h; simp at h2
          · subst h; simp at h2
      · have hd' : ('!' == d) = false := by simpa using Ne.symm hd
        refine ⟨by simp [normalizeTag, hd, Ne.symm hd], fun name h1 h2 => ?_⟩
        simp only [normalizeTag, List.isPrefixOf, BEq.rfl, hd', Bool.and_true, Bool.and_false, Bool.false_eq_true, if_false, if_true, List.drop_succ_cons, List.drop_zero]
        constructor
        · intro h; exact .inl (by rw [h])
        · rintro (h | h)
          · simpa using h
          · subst h; simp at h2
    · refine ⟨by simp [normalizeTag, h, Ne.symm h], fun name h1 h2 => ?_⟩
      simp [normalizeTag, Ne.symm h, h]

/-- **C41, globs.** The patterns of a !Glob list are matched in the directory of the YAML file: the given directory inside the top directory. -/
theorem C41_glob_dir (L : Lib) (dir : Str) (ht : L.top ≠ []) (hd : isAbs dir = false) : globDir L dir = join [L.top, dir] := by
  have hj : joinPath L.top [dir] = join [L.top, dir] := C19_relative L.top [dir] (by simpa using hd)
  unfold globDir
  rw [hj, if_neg]
  unfold join
  rw [show List.dropWhile (fun x => decide (x = [])) [L.top, dir] = [L.top, dir] by simp [List.dropWhile, ht]]
  exact clean_ne_nil _

/-! A list with a plain item, a glob and a registered tag. -/

def exScalar (v : String) : Node := .mk .scalar "!!str".toList v.toList [] [] []
def exTagged (t : String) (k : Kind) (c : List Node) : Node := .mk k t.toList [] [] [] c

def exLib : Lib where
  top := "/top".toList
  file _ := .none
  decCommand _ := .error .yaml
  decFiles _ := .error .yaml
  decDeps _ := .error .yaml
  decClean _ := .error .yaml
  glob d p := if d = "/top/d".toList ∧ p = "*.c".toList then .ok ["a.c".toList, "b.c".toList] else .error (.ext 0)
  strFn t := if t = "Up".toList then some fun n _ => .ok (n.content.map fun m => m.value ++ "!".toList) else none
  targetFn _ := none

def exList : Node := exTagged "!!seq" .sequence
  [exScalar "x", exTagged "!Glob" .sequence [exScalar "*.c"], exTagged "!Up" .sequence [exScalar "p", exScalar "q"]]

example : stringList exLib exList "d".toList = .ok ["x".toList, "a.c".toList, "b.c".toList, "p!".toList, "q!".toList] := by
  decide +kernel
example : fileList exLib exList "d".toList =
    .ok ["/top/d/x".toList, "/top/d/a.c".toList, "/top/d/b.c".toList, "/top/d/p!".toList, "/top/d/q!".toList] := by decide +kernel
example : StringList exLib "d".toList exList (.ok ["x".toList, "a.c".toList, "b.c".toList, "p!".toList, "q!".toList]) :=
  (C41_string_list ..).1 (by decide +kernel)
/-- the first bad item counts -/
example : stringList exLib (exTagged "!!seq" .sequence [exScalar "x", exTagged "!No" .scalar [], exTagged "" .mapping []]) "d".toList =
    .error (.unknownTag "No".toList) := by decide +kernel

end Fab.Yaml
