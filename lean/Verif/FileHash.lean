import Verif.FS
import Verif.Json

/-!
# Hashing files: C22, C23

files.go:247-322 (`fileHashes` and its helpers, `hashFile`) and files.go:167-195 (`computeHash`).

SHA-224 is a parameter `hex : Bytes → Str` (the hash of a file, in hexadecimal) or `sum : Str → Str` (of a text); nothing is
assumed about them except, in some theorems, that the particular contents at hand do not collide and that a hexadecimal
hash is not empty.
-/

namespace Fab.Files
open Fab Path

/-! ## The model -/

/-- What can go wrong: an error is returned, or the code panics (files.go:285-291: if `os.Stat` fails with an error other
than "not exist", `info` is nil and `info.IsDir()` panics). -/
inductive HErr where
  | err
  | panic

abbrev HMap := GoMap Str Str

variable (hex : Bytes → Str)

/-- files.go:291-298: the entries of a directory, given by its contents `f` (the subtree is read at once: files that change
while a directory is being walked are not modelled) -/
def walkForest (item : Str) : Forest → HMap → Except HErr HMap
  | .nil, m => .ok m
  | .file n r d rest, m =>
    if (m.get (join [item, n])).isSome then walkForest item rest m
    else if r then walkForest item rest (m.put (join [item, n]) (hex d))
    else .error .err
  | .dir n r sub rest, m =>
    if (m.get (join [item, n])).isSome then walkForest item rest m
    else if r then
      match walkForest (join [item, n]) sub m with
      | .ok m' => walkForest item rest m'
      | .error e => .error e
    else .error .err

/-- files.go:278-307: one item (`hashFile`, 309-322, is `hex` of the contents; the not-readable cases are its errors and
those of os.ReadDir) -/
def hashItem (fs : FS) (item : Str) (m : HMap) : Except HErr HMap :=
  if (m.get item).isSome then .ok m
  else match fs.stat item with
    | .notExist => .ok (m.put item [])
    | .otherError => .error .panic
    | .found _ (.file true d) => .ok (m.put item (hex d))
    | .found _ (.file false _) => .error .err
    | .found _ (.dir true sub) => walkForest hex item sub m
    | .found _ (.dir false _) => .error .err

/-- files.go:268-276, where each item is read at its own moment -/
def hashItems : List (FS × Str) → HMap → Except HErr HMap
  | [], m => .ok m
  | (fs, item) :: l, m => match hashItem hex fs item m with
    | .ok m' => hashItems l m'
    | .error e => .error e

/-- files.go:257-265: the names in order, each followed by its hash -/
def hashList (m : HMap) : List Str := (sortStrs m.keys).flatMap fun k => [k, (m.get k).getD []]

/-- files.go:250-266 -/
def fileHashesAt (items : List (FS × Str)) : Except HErr (List Str) :=
  match hashItems hex items [] with
  | .ok m => .ok (hashList m)
  | .error e => .error e

/-- files.go:250-266, when the files do not change during the computation -/
def fileHashes (fs : FS) (items : List Str) : Except HErr (List Str) := fileHashesAt hex (items.map fun i => (fs, i))

/-- files.go:176-191: the text that is hashed, from the two lists, the JSON form of the subtarget and its type; members with
an empty list are omitted -/
def hashText (target : Json.J) (targetType : Str) (ins outs : List Str) : Str :=
  Json.enc (.obj (
    (if ins = [] then [] else [("in".toList, .arr (ins.map .str))]) ++
    (if outs = [] then [] else [("out".toList, .arr (outs.map .str))]) ++
    [("target".toList, target), ("target_type".toList, .str targetType)]))

/-! ## Specification -/

/-- Every name in the tree is a proper name and no directory has two entries with the same name. -/
def _root_.Fab.Forest.WF : Forest → Prop
  | .nil => True
  | .file n _ _ rest => Name n ∧ n ∉ rest.names ∧ rest.WF
  | .dir n _ sub rest => Name n ∧ n ∉ rest.names ∧ sub.WF ∧ rest.WF

/-- Every file and directory in the tree is readable. -/
def _root_.Fab.Forest.Readable : Forest → Prop
  | .nil => True
  | .file _ r _ rest => r = true ∧ rest.Readable
  | .dir _ r sub rest => r = true ∧ sub.Readable ∧ rest.Readable

/-- The names that an item stands for: itself, unless it is a directory; then all the files below it. -/
def Covers (fs : FS) (item k : Str) : Prop :=
  match fs.stat item with
  | .found _ (.dir r sub) => ∃ rel r' d, lookupFS (.dir r sub) rel = some (.file r' d) ∧ k = join (item :: rel)
  | _ => k = item

/-- The value recorded for a name: "" if there is no such file, otherwise the hash of its contents. -/
def Val (fs : FS) (k v : Str) : Prop :=
  (fs.stat k = .notExist ∧ v = []) ∨ ∃ pos d, fs.stat k = .found pos (.file true d) ∧ v = hex d

/-- An item that can be read. -/
def CanRead (fs : FS) (item : Str) : Prop :=
  match fs.stat item with
  | .notExist => True
  | .otherError => False
  | .found _ (.file r _) => r = true
  | .found _ (.dir r sub) => r = true ∧ sub.Readable

/-! ## Lemmas on paths and lookups -/

theorem render_ne_nil (r : Bool) {cs : List Str} (h : ∀ c ∈ cs, Elem c) : render r cs ≠ [] := by
  intro h'
  have h1 := comps_render r h
  rw [h', comps_nil] at h1
  subst h1
  cases r <;> simp [render, dot] at h'

theorem elems_append {a : Str} {es : List Str} : ∀ x ∈ comps a ++ es.flatMap comps, Elem x := by
  intro x hx
  rcases List.mem_append.1 hx with hx | hx
  · exact comps_elem a x hx
  · obtain ⟨e, -, he⟩ := List.mem_flatMap.1 hx; exact comps_elem e x he

theorem join_ne_nil {a : Str} (ha : a ≠ []) (es : List Str) : join (a :: es) ≠ [] := by
  rw [join_eq ha]; exact render_ne_nil _ (normC_elem elems_append)

theorem join_join' {a : Str} (ha : a ≠ []) (es fs : List Str) : join (join (a :: es) :: fs) = join (a :: es ++ fs) := by
  rw [List.cons_append, join_eq (join_ne_nil ha es), join_eq ha, join_eq ha]
  have hel := normC_elem (r := isAbs a) (elems_append (a := a) (es := es))
  rw [isAbs_render _ hel, comps_render _ hel, normC_normC_append]
  simp

theorem lookup_flag (r r' : Bool) (f : Forest) {rel : List Str} (h : rel ≠ []) : lookupFS (.dir r f) rel = lookupFS (.dir r' f) rel := by
  cases rel with
  | nil => exact absurd rfl h
  | cons c cs => rfl

theorem find_names {f : Forest} {n : Str} {it : Item} (h : f.find n = some it) : n ∈ f.names := by
  induction f with
  | nil => simp [Forest.find] at h
  | file m r d rest ih =>
    simp only [Forest.find] at h
    split at h
    · rename_i h'; simp [Forest.names, h']
    · simp [Forest.names, ih h]
  | dir m r s rest _ ih =>
    simp only [Forest.find] at h
    split at h
    · rename_i h'; simp [Forest.names, h']
    · simp [Forest.names, ih h]

theorem find_name {f : Forest} (hw : f.WF) {n : Str} {it : Item} (h : f.find n = some it) : Name n ∧
    (∀ r s, it = .dir r s → s.WF) := by
  induction f with
  | nil => simp [Forest.find] at h
  | file m r d rest ih =>
    simp only [Forest.WF] at hw
    simp only [Forest.find] at h
    split at h
    · rename_i h'; subst h'; simp only [Option.some.injEq] at h; subst h; exact ⟨hw.1, by simp⟩
    · exact ih hw.2.2 h
  | dir m r s rest _ ih =>
    simp only [Forest.WF] at hw
    simp only [Forest.find] at h
    split at h
    · rename_i h'; subst h'; simp only [Option.some.injEq] at h; subst h
      exact ⟨hw.1, by rintro r' s' h'; cases h'; exact hw.2.2.1⟩
    · exact ih hw.2.2.2 h

theorem lookup_names {rel : List Str} : ∀ {it it' : Item}, (∀ r s, it = .dir r s → s.WF) → lookupFS it rel = some it' →
    (∀ c ∈ rel, Name c) ∧ (∀ r s, it' = .dir r s → s.WF) := by
  induction rel with
  | nil => intro it it' hw h; simp only [lookupFS, Option.some.injEq] at h; subst h; exact ⟨by simp, hw⟩
  | cons c cs ih =>
    intro it it' hw h
    cases it with
    | file r d => simp [lookupFS] at h
    | dir r s =>
      simp only [lookupFS] at h
      rcases hf : s.find c with _ | it2
      · rw [hf] at h; simp at h
      · rw [hf] at h
        obtain ⟨h1, h2⟩ := find_name (hw r s rfl) hf
        obtain ⟨h3, h4⟩ := ih h2 h
        exact ⟨by simp only [List.mem_cons, forall_eq_or_imp]; exact ⟨h1, h3⟩, h4⟩

theorem walk_append (fs : FS) (cur a b : List Str) : fs.walk cur (a ++ b) =
    match fs.walk cur a with
    | .found pos _ => fs.walk pos b
    | .notExist => .notExist
    | .otherError => .otherError := by
  induction a generalizing cur with
  | nil =>
    simp only [List.nil_append, FS.walk]
    rcases hc : fs.at cur with _ | it
    · cases b <;> simp [FS.walk, hc]
    · simp
  | cons c a ih =>
    simp only [List.cons_append, FS.walk]
    rcases hc : fs.at cur with _ | ⟨r, d⟩ | ⟨r, s⟩
    · rfl
    · rfl
    · simp only
      split
      · exact ih _
      · exact ih _

theorem walk_found_at {fs : FS} {cur cs pos : List Str} {it : Item} (h : fs.walk cur cs = .found pos it) : fs.at pos = some it := by
  induction cs generalizing cur with
  | nil =>
    simp only [FS.walk] at h
    split at h
    · rename_i it' h'; simp only [StatResult.found.injEq] at h; obtain ⟨rfl, rfl⟩ := h; exact h'
    · simp at h
  | cons c cs ih =>
    simp only [FS.walk] at h
    split at h
    · simp at h
    · simp at h
    · split at h
      · exact ih h
      · exact ih h

/-- Cleaning a path that leads somewhere does not change where it leads (there are no symbolic links). -/
theorem walk_clean (fs : FS) (r : Bool) (cur : List Str) (hr : r = true → cur = []) (cs : List Str) : ∀ (st : List Str) {pos it},
    fs.walk cur (st.reverse ++ cs) = .found pos it → fs.walk cur (cs.foldl (push r) st).reverse = .found pos it := by
  induction cs with
  | nil => intro st pos it h; simpa using h
  | cons c cs ih =>
    intro st pos it h
    rw [List.foldl_cons]
    apply ih
    unfold push
    split
    · rename_i hc
      subst hc
      cases st with
      | nil =>
        cases r with
        | false => simpa using h
        | true =>
          have := hr rfl
          subst this
          simp only [List.reverse_nil, List.nil_append, if_true] at h ⊢
          simp only [FS.walk] at h
          split at h
          · simp at h
          · simp at h
          · simpa using h
      | cons top rest =>
        simp only
        split
        · simpa using h
        · rename_i htop
          rw [List.reverse_cons, List.append_assoc, List.singleton_append, walk_append] at h
          rw [walk_append]
          split at h
          · rename_i pos' it' hw
            simp only [FS.walk, if_neg htop] at h ⊢
            split at h
            · simp at h
            · simp at h
            · split at h
              · simp at h
              · simp at h
              · simpa using h
          · simp at h
          · simp at h
    · simpa using h

/-- Below a directory found by its name, the joined name leads to what is there. -/
theorem stat_join {fs : FS} (hw : fs.root.WF) {item : Str} {pos : List Str} {r : Bool} {sub : Forest} {rel : List Str} {it : Item}
    (hs : fs.stat item = .found pos (.dir r sub)) (hl : lookupFS (.dir r sub) rel = some it) :
    fs.stat (join (item :: rel)) = .found (pos ++ rel) it ∧ (∀ c ∈ rel, Name c) := by
  unfold FS.stat at hs
  split at hs
  · simp at hs
  rename_i hne
  have hat := walk_found_at hs
  have hwf : sub.WF :=
    (lookup_names (it := .dir true fs.root) (by rintro r s h; cases h; exact hw) hat).2 _ _ rfl
  have hnames := (lookup_names (fun r' s' e => by cases e; exact hwf) hl).1
  refine ⟨?_, hnames⟩
  unfold FS.stat
  rw [if_neg (join_ne_nil hne rel), join_eq hne]
  have hel := normC_elem (r := isAbs item) (elems_append (a := item) (es := rel))
  rw [isAbs_render _ hel, comps_render _ hel, flatMap_comps (fun c hc => (hnames c hc).1)]
  unfold normC
  apply walk_clean fs (isAbs item) _ (fun h => by rw [if_pos h]) (comps item ++ rel) []
  rw [List.reverse_nil, List.nil_append, walk_append, hs]
  refine (fs.walk_plain pos rel (names_plain hnames)).2 it ?_
  rw [FS.at, lookupFS_append, ← FS.at, hat]; exact hl

/-! ## C22 -/

/-- The table contains only right values. -/
def Inv (fs : FS) (m : HMap) : Prop := ∀ k v, m.get k = some v → Val hex fs k v

theorem Val.not_dir {fs : FS} {k v : Str} (h : Val hex fs k v) {pos r s} : fs.stat k ≠ .found pos (.dir r s) := by
  intro h'
  rcases h with ⟨h, -⟩ | ⟨_, _, h, -⟩ <;> rw [h] at h' <;> simp at h'

theorem walkForest_spec {fs : FS} (f : Forest) : ∀ (item : Str) (m : HMap), item ≠ [] → f.WF → Inv hex fs m →
    (∀ rel it, rel ≠ [] → lookupFS (.dir true f) rel = some it → ∃ pos, fs.stat (join (item :: rel)) = .found pos it) →
    (f.Readable → ∃ m', walkForest hex item f m = .ok m') ∧
    (∀ m', walkForest hex item f m = .ok m' → f.Readable ∧ Inv hex fs m' ∧
      ∀ k, (m'.get k).isSome ↔ (m.get k).isSome ∨
        ∃ rel r d, lookupFS (.dir true f) rel = some (.file r d) ∧ k = join (item :: rel)) := by
  induction f with
  | nil =>
    intro item m _ _ hm _
    refine ⟨fun _ => ⟨m, rfl⟩, fun m' h => ?_⟩
    simp only [walkForest, Except.ok.injEq] at h
    subst h
    refine ⟨trivial, hm, fun k => ⟨.inl, ?_⟩⟩
    rintro (h | ⟨rel, r, d, h, -⟩)
    · exact h
    · cases rel <;> simp [lookupFS, Forest.find] at h
  | file n r d rest ih =>
    intro item m hne hw hm hstat
    simp only [Forest.WF] at hw
    obtain ⟨pos0, h0⟩ := hstat [n] (.file r d) (by simp) (by simp [lookupFS, Forest.find])
    have hlook : ∀ c cs it, c ≠ n → (lookupFS (.dir true (.file n r d rest)) (c :: cs) = some it ↔
        lookupFS (.dir true rest) (c :: cs) = some it) := by
      intro c cs it hc
      simp [lookupFS, Forest.find, Ne.symm hc]
    have hrest : ∀ rel it, rel ≠ [] → lookupFS (.dir true rest) rel = some it →
        ∃ pos, fs.stat (join (item :: rel)) = .found pos it := by
      intro rel it h1 h2
      refine hstat rel it h1 ?_
      cases rel with
      | nil => exact absurd rfl h1
      | cons c cs =>
        have hcn : c ≠ n := by
          rintro rfl
          simp only [lookupFS] at h2
          rcases hf : rest.find c with _ | it2
          · rw [hf] at h2; simp at h2
          · exact hw.2.1 (find_names hf)
        exact (hlook c cs it hcn).2 h2
    -- the files of the whole list: this one, and those of the rest
    have hfiles : ∀ k, (∃ rel r' d', lookupFS (.dir true (.file n r d rest)) rel = some (.file r' d') ∧ k = join (item :: rel)) ↔
        k = join [item, n] ∨ ∃ rel r' d', lookupFS (.dir true rest) rel = some (.file r' d') ∧ k = join (item :: rel) := by
      intro k
      constructor
      · rintro ⟨rel, r', d', h1, rfl⟩
        cases rel with
        | nil => simp [lookupFS] at h1
        | cons c cs =>
          by_cases hc : c = n
          · subst hc
            left
            simp only [lookupFS, Forest.find, if_true] at h1
            cases cs with
            | nil => rfl
            | cons c' cs => simp [lookupFS] at h1
          · exact .inr ⟨c :: cs, r', d', (hlook c cs _ hc).1 h1, rfl⟩
      · rintro (rfl | ⟨rel, r', d', h1, rfl⟩)
        · exact ⟨[n], r, d, by simp [lookupFS, Forest.find], rfl⟩
        · cases rel with
          | nil => simp [lookupFS] at h1
          | cons c cs =>
            have hcn : c ≠ n := by
              rintro rfl
              simp only [lookupFS] at h1
              rcases hf : rest.find c with _ | it2
              · rw [hf] at h1; simp at h1
              · exact hw.2.1 (find_names hf)
            exact ⟨c :: cs, r', d', (hlook c cs _ hcn).2 h1, rfl⟩
    simp only [walkForest]
    by_cases hk : (m.get (join [item, n])).isSome
    · rw [if_pos hk]
      obtain ⟨v, hv⟩ := Option.isSome_iff_exists.1 hk
      have hr : r = true := by
        rcases hm _ _ hv with ⟨h, -⟩ | ⟨_, _, h, -⟩
        · rw [h0] at h; simp at h
        · rw [h0] at h; simp only [StatResult.found.injEq, Item.file.injEq] at h; exact h.2.1
      obtain ⟨i1, i2⟩ := ih item m hne hw.2.2 hm hrest
      refine ⟨fun h => i1 h.2, fun m' h => ?_⟩
      obtain ⟨j1, j2, j3⟩ := i2 m' h
      refine ⟨⟨hr, j1⟩, j2, fun k => ?_⟩
      rw [j3 k, hfiles k]
      constructor
      · rintro (h | h)
        · exact .inl h
        · exact .inr (.inr h)
      · rintro (h | rfl | h)
        · exact .inl h
        · exact .inl hk
        · exact .inr h
    · rw [if_neg hk]
      cases r with
      | false => refine ⟨by simp [Forest.Readable], by simp⟩
      | true =>
        simp only [if_true]
        have hm' : Inv hex fs (m.put (join [item, n]) (hex d)) := by
          intro k v hv
          rw [GoMap.get_put] at hv
          split at hv
          · rename_i he; subst he
            simp only [Option.some.injEq] at hv
            exact .inr ⟨pos0, d, h0, hv.symm⟩
          · exact hm k v hv
        obtain ⟨i1, i2⟩ := ih item _ hne hw.2.2 hm' hrest
        refine ⟨fun h => i1 h.2, fun m' h => ?_⟩
        obtain ⟨j1, j2, j3⟩ := i2 m' h
        refine ⟨⟨rfl, j1⟩, j2, fun k => ?_⟩
        rw [j3 k, hfiles k, GoMap.get_put]
        by_cases he : join [item, n] = k
        · simp [he]
        · simp only [if_neg he]
          constructor
          · rintro (h | h)
            · exact .inl h
            · exact .inr (.inr h)
          · rintro (h | h | h)
            · exact .inl h
            · exact absurd h.symm he
            · exact .inr h
  | dir n r sub rest ihs ihr =>
    intro item m hne hw hm hstat
    simp only [Forest.WF] at hw
    obtain ⟨pos0, h0⟩ := hstat [n] (.dir r sub) (by simp) (by simp [lookupFS, Forest.find])
    have hlook : ∀ c cs it, c ≠ n → (lookupFS (.dir true (.dir n r sub rest)) (c :: cs) = some it ↔
        lookupFS (.dir true rest) (c :: cs) = some it) := by
      intro c cs it hc
      simp [lookupFS, Forest.find, Ne.symm hc]
    have hlookn : ∀ cs it, lookupFS (.dir true (.dir n r sub rest)) (n :: cs) = some it ↔ lookupFS (.dir r sub) cs = some it := by
      intro cs it; simp [lookupFS, Forest.find]
    have hrestn : ∀ c cs it, lookupFS (.dir true rest) (c :: cs) = some it → c ≠ n := by
      rintro c cs it h2 rfl
      simp only [lookupFS] at h2
      rcases hf : rest.find c with _ | it2
      · rw [hf] at h2; simp at h2
      · exact hw.2.1 (find_names hf)
    have hrest : ∀ rel it, rel ≠ [] → lookupFS (.dir true rest) rel = some it →
        ∃ pos, fs.stat (join (item :: rel)) = .found pos it := by
      intro rel it h1 h2
      refine hstat rel it h1 ?_
      cases rel with
      | nil => exact absurd rfl h1
      | cons c cs => exact (hlook c cs it (hrestn c cs it h2)).2 h2
    have hsub : ∀ rel it, rel ≠ [] → lookupFS (.dir true sub) rel = some it →
        ∃ pos, fs.stat (join (join [item, n] :: rel)) = .found pos it := by
      intro rel it h1 h2
      rw [join_join' hne]
      exact hstat (n :: rel) it (by simp) ((hlookn rel it).2 (by rw [lookup_flag r true sub h1]; exact h2))
    have hfiles : ∀ k, (∃ rel r' d', lookupFS (.dir true (.dir n r sub rest)) rel = some (.file r' d') ∧ k = join (item :: rel)) ↔
        (∃ rel r' d', lookupFS (.dir true sub) rel = some (.file r' d') ∧ k = join (join [item, n] :: rel)) ∨
        ∃ rel r' d', lookupFS (.dir true rest) rel = some (.file r' d') ∧ k = join (item :: rel) := by
      intro k
      constructor
      · rintro ⟨rel, r', d', h1, rfl⟩
        cases rel with
        | nil => simp [lookupFS] at h1
        | cons c cs =>
          by_cases hc : c = n
          · subst hc
            left
            have h2 := (hlookn cs _).1 h1
            have hcs : cs ≠ [] := by rintro rfl; simp [lookupFS] at h2
            refine ⟨cs, r', d', by rw [← h2]; exact lookup_flag _ _ _ hcs, ?_⟩
            rw [join_join' hne]; rfl
          · exact .inr ⟨c :: cs, r', d', (hlook c cs _ hc).1 h1, rfl⟩
      · rintro (⟨rel, r', d', h1, rfl⟩ | ⟨rel, r', d', h1, rfl⟩)
        · have hcs : rel ≠ [] := by rintro rfl; simp [lookupFS] at h1
          refine ⟨n :: rel, r', d', (hlookn rel _).2 (by rw [lookup_flag r true sub hcs]; exact h1), ?_⟩
          rw [join_join' hne]; rfl
        · cases rel with
          | nil => simp [lookupFS] at h1
          | cons c cs => exact ⟨c :: cs, r', d', (hlook c cs _ (hrestn c cs _ h1)).2 h1, rfl⟩
    have hk : ¬ (m.get (join [item, n])).isSome := by
      intro hk
      obtain ⟨v, hv⟩ := Option.isSome_iff_exists.1 hk
      exact (hm _ _ hv).not_dir hex h0
    simp only [walkForest]
    rw [if_neg hk]
    cases r with
    | false => refine ⟨by simp [Forest.Readable], by simp⟩
    | true =>
      simp only [if_true]
      obtain ⟨i1, i2⟩ := ihs (join [item, n]) m (join_ne_nil hne _) hw.2.2.1 hm hsub
      refine ⟨fun h => ?_, fun m' h => ?_⟩
      · obtain ⟨m1, h1⟩ := i1 h.2.1
        rw [h1]
        exact (ihr item m1 hne hw.2.2.2 (i2 m1 h1).2.1 hrest).1 h.2.2
      · rcases h1 : walkForest hex (join [item, n]) sub m with e | m1
        · rw [h1] at h; simp at h
        · rw [h1] at h
          simp only at h
          obtain ⟨j1, j2, j3⟩ := i2 m1 h1
          obtain ⟨k1, k2, k3⟩ := (ihr item m1 hne hw.2.2.2 j2 hrest).2 m' h
          refine ⟨⟨rfl, j1, k1⟩, k2, fun k => ?_⟩
          rw [k3 k, j3 k, hfiles k, or_assoc]

theorem hashItem_spec {fs : FS} (hw : fs.root.WF) (item : Str) (m : HMap) (hm : Inv hex fs m) :
    (CanRead fs item → ∃ m', hashItem hex fs item m = .ok m') ∧
    (∀ m', hashItem hex fs item m = .ok m' → CanRead fs item ∧ Inv hex fs m' ∧
      ∀ k, (m'.get k).isSome ↔ (m.get k).isSome ∨ Covers fs item k) := by
  unfold hashItem
  by_cases hk : (m.get item).isSome
  · rw [if_pos hk]
    obtain ⟨v, hv⟩ := Option.isSome_iff_exists.1 hk
    refine ⟨fun _ => ⟨m, rfl⟩, fun m' h => ?_⟩
    simp only [Except.ok.injEq] at h
    subst h
    rcases hm _ _ hv with ⟨h, -⟩ | ⟨_, _, h, -⟩
    · refine ⟨by simp [CanRead, h], hm, fun k => ⟨.inl, ?_⟩⟩
      rintro (h' | h')
      · exact h'
      · simp only [Covers, h] at h'; rw [h']; exact hk
    · refine ⟨by simp [CanRead, h], hm, fun k => ⟨.inl, ?_⟩⟩
      rintro (h' | h')
      · exact h'
      · simp only [Covers, h] at h'; rw [h']; exact hk
  · rw [if_neg hk]
    have hput : ∀ v, Val hex fs item v → Inv hex fs (m.put item v) := by
      intro v hv k v' h'
      rw [GoMap.get_put] at h'
      split at h'
      · rename_i he; subst he; simp only [Option.some.injEq] at h'; subst h'; exact hv
      · exact hm k v' h'
    have hkeys : ∀ v k, ((m.put item v).get k).isSome ↔ (m.get k).isSome ∨ k = item := by
      intro v k
      rw [GoMap.get_put]
      by_cases he : item = k
      · simp [he]
      · simp [he, Ne.symm he]
    rcases hs : fs.stat item with _ | _ | ⟨pos, ⟨r, d⟩ | ⟨r, s⟩⟩
    · refine ⟨fun _ => ⟨_, rfl⟩, fun m' h => ?_⟩
      simp only [Except.ok.injEq] at h
      subst h
      refine ⟨by simp [CanRead, hs], hput _ (.inl ⟨hs, rfl⟩), fun k => ?_⟩
      simp only [Covers, hs]; exact hkeys _ k
    · exact ⟨by simp [CanRead, hs], by simp⟩
    · cases r with
      | false => exact ⟨by simp [CanRead, hs], by simp⟩
      | true =>
        refine ⟨fun _ => ⟨_, rfl⟩, fun m' h => ?_⟩
        simp only [Except.ok.injEq] at h
        subst h
        refine ⟨by simp [CanRead, hs], hput _ (.inr ⟨pos, d, hs, rfl⟩), fun k => ?_⟩
        simp only [Covers, hs]; exact hkeys _ k
    · cases r with
      | false => exact ⟨by simp [CanRead, hs], by simp⟩
      | true =>
        have hne : item ≠ [] := by rintro rfl; simp [FS.stat] at hs
        have hat : fs.at pos = some (.dir true s) := by
          unfold FS.stat at hs
          rw [if_neg hne] at hs
          exact walk_found_at hs
        have hswf : s.WF := (lookup_names (it := .dir true fs.root) (by rintro r s h; cases h; exact hw) hat).2 _ _ rfl
        obtain ⟨i1, i2⟩ := walkForest_spec hex s item m hne hswf hm
          (fun rel it _ hl => ⟨_, (stat_join hw hs hl).1⟩)
        refine ⟨fun h => i1 (by simp [CanRead, hs] at h; exact h), fun m' h => ?_⟩
        obtain ⟨j1, j2, j3⟩ := i2 m' h
        refine ⟨by simp [CanRead, hs]; exact j1, j2, fun k => ?_⟩
        rw [j3 k]
        simp only [Covers, hs]

theorem hashItems_spec {fs : FS} (hw : fs.root.WF) (items : List Str) : ∀ (m : HMap), Inv hex fs m →
    ((∀ i ∈ items, CanRead fs i) → ∃ m', hashItems hex (items.map fun i => (fs, i)) m = .ok m') ∧
    (∀ m', hashItems hex (items.map fun i => (fs, i)) m = .ok m' → (∀ i ∈ items, CanRead fs i) ∧ Inv hex fs m' ∧
      ∀ k, (m'.get k).isSome ↔ (m.get k).isSome ∨ ∃ i ∈ items, Covers fs i k) := by
  induction items with
  | nil =>
    intro m hm
    refine ⟨fun _ => ⟨m, rfl⟩, fun m' h => ?_⟩
    simp only [List.map_nil, hashItems, Except.ok.injEq] at h
    subst h
    exact ⟨by simp, hm, by simp⟩
  | cons i items ih =>
    intro m hm
    obtain ⟨i1, i2⟩ := hashItem_spec hex hw i m hm
    simp only [List.map_cons, hashItems, List.mem_cons, forall_eq_or_imp]
    refine ⟨fun h => ?_, fun m' h => ?_⟩
    · obtain ⟨m1, h1⟩ := i1 h.1
      rw [h1]
      exact (ih m1 (i2 m1 h1).2.1).1 h.2
    · rcases h1 : hashItem hex fs i m with e | m1
      · rw [h1] at h; simp at h
      · rw [h1] at h
        simp only at h
        obtain ⟨j1, j2, j3⟩ := i2 m1 h1
        obtain ⟨k1, k2, k3⟩ := (ih m1 j2).2 m' h
        refine ⟨⟨j1, k1⟩, k2, fun k => ?_⟩
        rw [k3 k, j3 k, or_assoc]
        simp

theorem walkForest_nodup (f : Forest) : ∀ (item : Str) (m m' : HMap), m.keys.Nodup → walkForest hex item f m = .ok m' →
    m'.keys.Nodup := by
  induction f with
  | nil => intro item m m' h h'; simp only [walkForest, Except.ok.injEq] at h'; rw [← h']; exact h
  | file n r d rest ih =>
    intro item m m' h h'
    simp only [walkForest] at h'
    split at h'
    · exact ih _ _ _ h h'
    · split at h'
      · exact ih _ _ _ (GoMap.keys_put_nodup h _ _) h'
      · simp at h'
  | dir n r s rest ihs ihr =>
    intro item m m' h h'
    simp only [walkForest] at h'
    split at h'
    · exact ihr _ _ _ h h'
    · split at h'
      · split at h'
        · rename_i m1 h1; exact ihr _ _ _ (ihs _ _ _ h h1) h'
        · simp at h'
      · simp at h'

theorem hashItems_nodup (l : List (FS × Str)) : ∀ (m m' : HMap), m.keys.Nodup → hashItems hex l m = .ok m' → m'.keys.Nodup := by
  induction l with
  | nil => intro m m' h h'; simp only [hashItems, Except.ok.injEq] at h'; rw [← h']; exact h
  | cons x l ih =>
    obtain ⟨fs, item⟩ := x
    intro m m' h h'
    simp only [hashItems] at h'
    split at h'
    · rename_i m1 h1
      refine ih m1 m' ?_ h'
      unfold hashItem at h1
      split at h1
      · simp only [Except.ok.injEq] at h1; rw [← h1]; exact h
      · split at h1
        · simp only [Except.ok.injEq] at h1; rw [← h1]; exact GoMap.keys_put_nodup h _ _
        · simp at h1
        · simp only [Except.ok.injEq] at h1; rw [← h1]; exact GoMap.keys_put_nodup h _ _
        · simp at h1
        · exact walkForest_nodup hex _ _ _ _ h h1
        · simp at h1
    · simp at h'

theorem val_unique {fs : FS} {k v v' : Str} (h : Val hex fs k v) (h' : Val hex fs k v') : v = v' := by
  rcases h with ⟨h1, rfl⟩ | ⟨p, d, h1, rfl⟩ <;> rcases h' with ⟨h2, rfl⟩ | ⟨p', d', h2, rfl⟩
  · rfl
  · rw [h1] at h2; simp at h2
  · rw [h1] at h2; simp at h2
  · rw [h1] at h2; simp only [StatResult.found.injEq, Item.file.injEq, true_and] at h2; rw [h2.2]

/-- **C22.** The list of file hashes is: the names covered by the items (an item that is a directory stands for all the
files below it, under the joined names), in increasing order and each once, each followed by its value, which is "" if there
is no such file and otherwise the hash of the contents. -/
theorem C22_list {fs : FS} (hw : fs.root.WF) {items l : List Str} (h : fileHashes hex fs items = .ok l) :
    ∃ kv : List (Str × Str), l = kv.flatMap (fun e => [e.1, e.2]) ∧ (kv.map (·.1)).Pairwise (· < ·) ∧
      ∀ k v, (k, v) ∈ kv ↔ (∃ i ∈ items, Covers fs i k) ∧ Val hex fs k v := by
  unfold fileHashes fileHashesAt at h
  split at h
  · rename_i m hm
    simp only [Except.ok.injEq] at h
    have hinv0 : Inv hex fs [] := by intro k v h; simp [GoMap.get] at h
    obtain ⟨-, h2, h3⟩ := (hashItems_spec hex hw items [] hinv0).2 m hm
    have hnd := hashItems_nodup hex _ [] m List.nodup_nil hm
    refine ⟨(sortStrs m.keys).map fun k => (k, (m.get k).getD []), ?_, ?_, ?_⟩
    · rw [← h, hashList, List.flatMap_map]
    · rw [List.map_map]
      have : ((fun e : Str × Str => e.1) ∘ fun k => (k, (m.get k).getD [])) = id := rfl
      rw [this, List.map_id]
      exact sortStrs_nodup hnd
    · intro k v
      simp only [List.mem_map, mem_sortStrs, Prod.mk.injEq]
      have hk3 := h3 k
      simp only [GoMap.get, List.find?_nil, Option.map_none, Option.isSome_none, Bool.false_eq_true, false_or] at hk3
      constructor
      · rintro ⟨k', hk, rfl, rfl⟩
        obtain ⟨v, hv⟩ := (GoMap.mem_keys_iff m k').1 hk
        refine ⟨hk3.1 (by unfold GoMap.get at hv; rw [hv]; rfl), ?_⟩
        rw [hv]; exact h2 k' v hv
      · rintro ⟨hc, hv⟩
        obtain ⟨v', hv'⟩ := Option.isSome_iff_exists.1 (hk3.2 hc)
        have hv'' : m.get k = some v' := hv'
        refine ⟨k, (GoMap.mem_keys_iff m k).2 ⟨v', hv''⟩, rfl, ?_⟩
        rw [hv'']
        exact val_unique hex (h2 k v' hv'') hv
  · simp at h

/-- **C22, success.** The computation succeeds if and only if every item can be read. -/
theorem C22_succeeds {fs : FS} (hw : fs.root.WF) (items : List Str) :
    (∃ l, fileHashes hex fs items = .ok l) ↔ ∀ i ∈ items, CanRead fs i := by
  have hinv0 : Inv hex fs [] := by intro k v h; simp [GoMap.get] at h
  have hs := hashItems_spec hex hw items [] hinv0
  unfold fileHashes fileHashesAt
  constructor
  · rintro ⟨l, h⟩
    split at h
    · rename_i m hm; exact (hs.2 m hm).1
    · simp at h
  · intro h
    obtain ⟨m, hm⟩ := hs.1 h
    exact ⟨hashList m, by rw [hm]⟩

theorem kv_unique {kv kv' : List (Str × Str)} (h1 : (kv.map (·.1)).Pairwise (· < ·)) (h2 : (kv'.map (·.1)).Pairwise (· < ·))
    (h : ∀ k v, (k, v) ∈ kv ↔ (k, v) ∈ kv') : kv = kv' := by
  have p1 : kv.Pairwise (fun a b => a.1 < b.1) := List.pairwise_map.1 h1
  have p2 : kv'.Pairwise (fun a b => a.1 < b.1) := List.pairwise_map.1 h2
  have n1 : kv.Nodup := p1.imp (fun h => by rintro rfl; exact lt_irrefl _ h)
  have n2 : kv'.Nodup := p2.imp (fun h => by rintro rfl; exact lt_irrefl _ h)
  have hp : kv.Perm kv' := (List.perm_ext_iff_of_nodup n1 n2).2 (fun ⟨k, v⟩ => h k v)
  exact hp.eq_of_pairwise (fun a b _ _ h1 h2 => absurd (lt_trans h1 h2) (lt_irrefl _)) p1 p2

/-- **C22, order and repetition do not matter.** Two lists of names with the same members give the same result. -/
theorem C22_order_independent {fs : FS} (hw : fs.root.WF) {items items' l : List Str} (hsame : ∀ i, i ∈ items ↔ i ∈ items')
    (h : fileHashes hex fs items = .ok l) : fileHashes hex fs items' = .ok l := by
  obtain ⟨l', h'⟩ := (C22_succeeds hex hw items').2 (fun i hi => (C22_succeeds hex hw items).1 ⟨l, h⟩ i ((hsame i).2 hi))
  obtain ⟨kv, e1, p1, m1⟩ := C22_list hex hw h
  obtain ⟨kv', e2, p2, m2⟩ := C22_list hex hw h'
  rw [h', e1, e2, kv_unique p1 p2]
  intro k v
  rw [m1, m2]
  simp only [hsame]

/-! ## C23 -/

theorem flat_inj : ∀ {kv kv' : List (Str × Str)}, kv.flatMap (fun e => [e.1, e.2]) = kv'.flatMap (fun e => [e.1, e.2]) → kv = kv' := by
  intro kv
  induction kv with
  | nil => intro kv' h; cases kv' <;> simp_all
  | cons e kv ih =>
    intro kv' h
    cases kv' with
    | nil => simp at h
    | cons e' kv' =>
      simp only [List.flatMap_cons, List.cons_append, List.nil_append, List.cons.injEq] at h
      rw [ih h.2.2, Prod.ext h.1 h.2.1]

/-- The contents of the file called `k`: `none` if there is no such file. -/
def Content (fs : FS) (k : Str) (c : Option Bytes) : Prop :=
  (fs.stat k = .notExist ∧ c = none) ∨ ∃ pos d, fs.stat k = .found pos (.file true d) ∧ c = some d

/-- What a list of items shows of a file system: the names covered, with their contents. -/
def Shows (fs : FS) (items : List Str) (k : Str) (c : Option Bytes) : Prop := (∃ i ∈ items, Covers fs i k) ∧ Content fs k c

/-- The contents hashed do not collide: two files of the same name shown by the two lists of items in the two file systems
with the same hash have the same contents. -/
def NoFileCollision (fs : FS) (items : List Str) (fs' : FS) (items' : List Str) : Prop :=
  ∀ k d d', Shows fs items k (some d) → Shows fs' items' k (some d') → hex d = hex d' → d = d'

/-- **C23, file lists.** If the lists computed in two file systems (from the same names, or others) are equal, then the items
show the same files with the same contents in both: so adding, removing or changing any file named by, or below, the items changes the list. -/
theorem C23_list_determines_files {fs fs' : FS} (hw : fs.root.WF) (hw' : fs'.root.WF) (hhex : ∀ d, hex d ≠ [])
    {items items' l : List Str} (hcol : NoFileCollision hex fs items fs' items')
    (h : fileHashes hex fs items = .ok l) (h' : fileHashes hex fs' items' = .ok l) :
    ∀ k c, Shows fs items k c ↔ Shows fs' items' k c := by
  obtain ⟨kv, e1, p1, m1⟩ := C22_list hex hw h
  obtain ⟨kv', e2, p2, m2⟩ := C22_list hex hw' h'
  have he : kv = kv' := flat_inj (e1.symm.trans e2)
  subst he
  -- one direction, for both orders
  have dir : ∀ {fs fs' : FS} {items items' : List Str}, (∀ k v, (k, v) ∈ kv ↔ (∃ i ∈ items, Covers fs i k) ∧ Val hex fs k v) →
      (∀ k v, (k, v) ∈ kv ↔ (∃ i ∈ items', Covers fs' i k) ∧ Val hex fs' k v) →
      (∀ k d d', Shows fs items k (some d) → Shows fs' items' k (some d') → hex d = hex d' → d = d') →
      ∀ k c, Shows fs items k c → Shows fs' items' k c := by
    intro fs fs' items items' m1 m2 hcol k c hs
    have hs0 := hs
    obtain ⟨hc, ⟨h1, rfl⟩ | ⟨pos, d, h1, rfl⟩⟩ := hs
    · have := (m2 k []).1 ((m1 k []).2 ⟨hc, .inl ⟨h1, rfl⟩⟩)
      refine ⟨this.1, ?_⟩
      rcases this.2 with ⟨h2, -⟩ | ⟨_, d', -, h3⟩
      · exact .inl ⟨h2, rfl⟩
      · exact absurd h3.symm (hhex d')
    · have := (m2 k (hex d)).1 ((m1 k (hex d)).2 ⟨hc, .inr ⟨pos, d, h1, rfl⟩⟩)
      rcases this.2 with ⟨-, h3⟩ | ⟨pos', d', h2, h3⟩
      · exact absurd h3 (hhex d)
      · have hd' : Shows fs' items' k (some d') := ⟨this.1, .inr ⟨pos', d', h2, rfl⟩⟩
        rw [hcol k d d' hs0 hd' h3]; exact hd'
  intro k c
  exact ⟨dir m1 m2 hcol k c, dir m2 m1 (fun k d d' a b e => (hcol k d' d b a e.symm).symm) k c⟩

theorem str_map_inj : ∀ {a b : List Str}, a.map Json.J.str = b.map Json.J.str → a = b := by
  intro a
  induction a with
  | nil => intro b h; cases b <;> simp_all
  | cons x a ih =>
    intro b h
    cases b with
    | nil => simp at h
    | cons y b => simp only [List.map_cons, List.cons.injEq, Json.J.str.injEq] at h; rw [h.1, ih h.2]

/-- The hashed text determines the lists, the JSON form of the subtarget and its type. -/
theorem hashText_inj {t t' : Json.J} {y y' : Str} {i i' o o' : List Str} (h : hashText t y i o = hashText t' y' i' o') :
    t = t' ∧ y = y' ∧ i = i' ∧ o = o' := by
  unfold hashText at h
  have := (Json.C56_canonical_text _ _).1.1 h
  simp only [Json.J.obj.injEq] at this
  have k1 : ("in".toList = "out".toList) = False := eq_false (by decide)
  have k2 : ("in".toList = "target".toList) = False := eq_false (by decide)
  have k3 : ("out".toList = "target".toList) = False := eq_false (by decide)
  have k4 : ("target".toList = "target_type".toList) = False := eq_false (by decide)
  have k1' : ("out".toList = "in".toList) = False := eq_false (by decide)
  have k2' : ("target".toList = "in".toList) = False := eq_false (by decide)
  have k3' : ("target".toList = "out".toList) = False := eq_false (by decide)
  generalize "in".toList = a1 at *
  generalize "out".toList = a2 at *
  generalize "target".toList = a3 at *
  generalize "target_type".toList = a4 at *
  by_cases hi : i = [] <;> by_cases hi' : i' = [] <;> by_cases ho : o = [] <;> by_cases ho' : o' = [] <;>
    simp only [hi, hi', ho, ho', if_true, if_false, List.nil_append, List.cons_append, List.cons.injEq, Prod.mk.injEq,
      Json.J.arr.injEq, Json.J.str.injEq, k1, k2, k3, k4, k1', k2', k3', false_and, and_false, true_and, and_true,
      reduceCtorEq] at this ⊢
  all_goals grind [str_map_inj]

/-- **C23.** If the text hashed for a Files target in one file system equals the text hashed for a Files target (the same, or
another) in a file system, then the same input and output files exist in both, with the same contents: so creating, deleting or
changing any file that an input or output name stands for changes the text. The subtargets' JSON forms and types are then equal
too. `sum` is the hash of a text; only a collision of the two texts at hand, or of two contents at hand, is excluded. -/
theorem C23_hash_determines_files (sum : Str → Str) {fs fs' : FS} (hw : fs.root.WF) (hw' : fs'.root.WF) (hhex : ∀ d, hex d ≠ [])
    {ins outs li lo ins' outs' li' lo' : List Str} {t t' : Json.J} {y y' : Str}
    (hi : fileHashes hex fs ins = .ok li) (ho : fileHashes hex fs outs = .ok lo)
    (hi' : fileHashes hex fs' ins' = .ok li') (ho' : fileHashes hex fs' outs' = .ok lo')
    (hci : NoFileCollision hex fs ins fs' ins') (hco : NoFileCollision hex fs outs fs' outs')
    (hct : sum (hashText t y li lo) = sum (hashText t' y' li' lo') → hashText t y li lo = hashText t' y' li' lo')
    (heq : sum (hashText t y li lo) = sum (hashText t' y' li' lo')) :
    (∀ k c, Shows fs ins k c ↔ Shows fs' ins' k c) ∧ (∀ k c, Shows fs outs k c ↔ Shows fs' outs' k c) ∧ t = t' ∧ y = y' := by
  obtain ⟨h1, h2, h3, h4⟩ := hashText_inj (hct heq)
  subst h3 h4
  exact ⟨C23_list_determines_files hex hw hw' hhex hci hi hi', C23_list_determines_files hex hw hw' hhex hco ho ho', h1, h2⟩

/-! ## Cases that meet the hypotheses -/

section
/-- a tree `src/a.go`, `src/sub/b.go`, `out` -/
def exFS (a : Bytes) : FS where
  root := .dir "src".toList true (.file "a.go".toList true a (.dir "sub".toList true (.file "b.go".toList true [9] .nil) .nil))
    (.file "out".toList true [7] .nil)
  cwd := []

def exHex (d : Bytes) : Str := 'h' :: d.map fun b => Char.ofNat (b.toNat + 97)

/-- a directory, a file below it (again), a missing file and a file, in no particular order -/
def exItems : List Str := ["src/sub/b.go".toList, "src".toList, "none".toList, "out".toList]

example : (fileHashes exHex (exFS [1]) exItems).toOption =
    some (["none", "", "out", "hh", "src/a.go", "hb", "src/sub/b.go", "hj"].map String.toList) := by decide +kernel

theorem exFS_wf (a : Bytes) : (exFS a).root.WF := by
  simp only [exFS, Forest.WF, Forest.names, Name, Elem]
  refine ⟨?_, ?_, ⟨?_, ?_, ?_, ?_, ⟨?_, ?_, trivial⟩, trivial⟩, ?_, ?_, trivial⟩ <;> decide +kernel

example : ∀ i ∈ exItems, CanRead (exFS [1]) i := by
  refine (C22_succeeds exHex (exFS_wf _) exItems).1 ?_
  · cases h : fileHashes exHex (exFS [1]) exItems with
    | ok l => exact ⟨l, rfl⟩
    | error e =>
      have : (fileHashes exHex (exFS [1]) exItems).toOption.isSome = true := by decide +kernel
      rw [h] at this; cases this

/-- changing a file below a directory changes the list -/
example : (fileHashes exHex (exFS [1]) exItems).toOption ≠ (fileHashes exHex (exFS [2]) exItems).toOption := by decide +kernel

theorem charNat {n : Nat} (h : n < 0xd800) : (Char.ofNat n).toNat = n := by
  have hv : n.isValidChar := .inl h
  simp only [Char.ofNat, dif_pos hv]
  simp [Char.ofNatAux, Char.toNat, UInt32.toNat]

example : NoFileCollision exHex (exFS [1]) exItems (exFS [2]) exItems := by
  have inj : ∀ (d d' : Bytes), exHex d = exHex d' → d = d' := by
    intro d
    induction d with
    | nil => intro d' h; cases d' <;> simp_all [exHex]
    | cons b d ih =>
      intro d' h
      cases d' with
      | nil => simp [exHex] at h
      | cons b' d' =>
        simp only [exHex, List.map_cons, List.cons.injEq, true_and] at h
        have hd := ih d' (by simp only [exHex, h.2])
        have hb : b = b' := by
          have := congrArg Char.toNat h.1
          have l1 := b.toNat_lt
          have l2 := b'.toNat_lt
          have e1 : (Char.ofNat (b.toNat + 97)).toNat = b.toNat + 97 := charNat (by omega)
          have e2 : (Char.ofNat (b'.toNat + 97)).toNat = b'.toNat + 97 := charNat (by omega)
          rw [e1, e2] at this
          exact UInt8.toNat_inj.1 (by omega)
        rw [hb, hd]
  intro k d d' _ _ h
  exact inj d d' h

/-- an unreadable file is an error; a path through a file is a panic -/
example : (hashItem exHex (exFS [1]) "out/x".toList []) matches .error .panic := by decide +kernel
end

end Fab.Files
