import Verif.FS
import Verif.Json

/-!
# The hash of the user's Go files (/repo/dirhash.go): C47

SHA-224 is a parameter: `sum` of the contents of a file, and `sumText` (in hexadecimal) of a text.  Nothing is assumed of them except,
where said, that the contents and texts at hand do not collide.  Errors in reading a file are not modelled here.
-/

namespace Fab.Driver
open Fab Path Json

/-! ## The model -/

/-- The characters of base64.StdEncoding. -/
def b64Char (n : Nat) : Char := "ABCDEFGHIJKLMNOPQRSTUVWXYZabcdefghijklmnopqrstuvwxyz0123456789+/".toList.getD n '='

/-- `base64.StdEncoding`, in which JSON represents a `[]byte` -/
def base64 : Bytes → Str
  | [] => []
  | [a] => [b64Char (a.toNat / 4), b64Char (a.toNat % 4 * 16), '=', '=']
  | [a, b] => [b64Char (a.toNat / 4), b64Char (a.toNat % 4 * 16 + b.toNat / 16), b64Char (b.toNat % 16 * 4), '=']
  | a :: b :: c :: rest =>
    b64Char (a.toNat / 4) :: b64Char (a.toNat % 4 * 16 + b.toNat / 16) :: b64Char (b.toNat % 16 * 4 + c.toNat / 64) ::
      b64Char (c.toNat % 64) :: base64 rest

variable (sum : Bytes → Bytes) (sumText : Str → Str)

/-- `(*dirHasher).file`, dirhash.go:25-34 -/
def addFile (m : GoMap Str Bytes) (name : Str) (contents : Bytes) : GoMap Str Bytes := m.put (baseOf name) (sum contents)

/-- the text that is hashed: the canonical JSON form of the map, dirhash.go:39 -/
def dirText (m : GoMap Str Bytes) : Str :=
  enc (.obj ((sortStrs m.keys).map fun k => (k, .str (base64 ((m.get k).getD [])))))

/-- A new hasher, the calls of `file` in order, and `hash`: dirhash.go:18-45, main.go:250-259 -/
def dirHash (files : List (Str × Bytes)) : Str :=
  sumText (dirText (files.foldl (fun m f => addFile sum m f.1 f.2) []))

/-! ## Lemmas -/

theorem b64Char_inj {a b : Nat} (ha : a < 64) (hb : b < 64) (h : b64Char a = b64Char b) : a = b := by
  have key : ∀ x : Fin 64, ∀ y : Fin 64, b64Char x.val = b64Char y.val → x = y := by decide +kernel
  exact congrArg Fin.val (key ⟨a, ha⟩ ⟨b, hb⟩ h)

theorem b64Char_ne {a : Nat} (ha : a < 64) : b64Char a ≠ '=' := by
  have key : ∀ x : Fin 64, b64Char x.val ≠ '=' := by decide +kernel
  exact key ⟨a, ha⟩

theorem byte_lt (a : UInt8) : a.toNat < 256 := a.toNat_lt

theorem base64_inj : ∀ {x y : Bytes}, base64 x = base64 y → x = y
  | [], [], _ => rfl
  | [], [_], h => by simp [base64] at h
  | [], [_, _], h => by simp [base64] at h
  | [], _ :: _ :: _ :: _, h => by simp [base64] at h
  | [_], [], h => by simp [base64] at h
  | [_, _], [], h => by simp [base64] at h
  | _ :: _ :: _ :: _, [], h => by simp [base64] at h
  | [a], [b], h => by
    have := byte_lt a; have := byte_lt b
    simp only [base64, List.cons.injEq, and_true] at h
    have h1 := b64Char_inj (by omega) (by omega) h.1
    have h2 := b64Char_inj (by omega) (by omega) h.2
    have : a = b := UInt8.toNat_inj.1 (by omega)
    rw [this]
  | [a], [b, c], h => by
    have := byte_lt c
    simp only [base64, List.cons.injEq, and_true] at h
    exact absurd h.2.2.symm (b64Char_ne (by omega))
  | [a], b :: c :: d :: rest, h => by
    have := byte_lt c; have := byte_lt d
    simp only [base64, List.cons.injEq] at h
    exact absurd h.2.2.1.symm (b64Char_ne (by omega))
  | [a, a'], [b], h => by
    have := byte_lt a'
    simp only [base64, List.cons.injEq, and_true] at h
    exact absurd h.2.2 (b64Char_ne (by omega))
  | [a, a'], [b, b'], h => by
    have := byte_lt a; have := byte_lt b; have := byte_lt a'; have := byte_lt b'
    simp only [base64, List.cons.injEq, and_true] at h
    have h1 := b64Char_inj (by omega) (by omega) h.1
    have h2 := b64Char_inj (by omega) (by omega) h.2.1
    have h3 := b64Char_inj (by omega) (by omega) h.2.2
    have e1 : a = b := UInt8.toNat_inj.1 (by omega)
    have e2 : a' = b' := UInt8.toNat_inj.1 (by omega)
    rw [e1, e2]
  | [a, a'], b :: c :: d :: rest, h => by
    have := byte_lt d
    simp only [base64, List.cons.injEq] at h
    exact absurd h.2.2.2.1.symm (b64Char_ne (by omega))
  | a :: a' :: a'' :: x, [b], h => by
    have := byte_lt a'; have := byte_lt a''
    simp only [base64, List.cons.injEq] at h
    exact absurd h.2.2.1 (b64Char_ne (by omega))
  | a :: a' :: a'' :: x, [b, c], h => by
    have := byte_lt a''
    simp only [base64, List.cons.injEq] at h
    exact absurd h.2.2.2.1 (b64Char_ne (by omega))
  | a :: a' :: a'' :: x, b :: b' :: b'' :: y, h => by
    have := byte_lt a; have := byte_lt b; have := byte_lt a'; have := byte_lt b'; have := byte_lt a''; have := byte_lt b''
    simp only [base64, List.cons.injEq] at h
    have h1 := b64Char_inj (by omega) (by omega) h.1
    have h2 := b64Char_inj (by omega) (by omega) h.2.1
    have h3 := b64Char_inj (by omega) (by omega) h.2.2.1
    have h4 := b64Char_inj (by omega) (by omega) h.2.2.2.1
    have e1 : a = b := UInt8.toNat_inj.1 (by omega)
    have e2 : a' = b' := UInt8.toNat_inj.1 (by omega)
    have e3 : a'' = b'' := UInt8.toNat_inj.1 (by omega)
    rw [e1, e2, e3, base64_inj h.2.2.2.2]

/-- the table after adding the files -/
def table (files : List (Str × Bytes)) : GoMap Str Bytes := files.foldl (fun m f => addFile sum m f.1 f.2) []

theorem table_get_aux (files : List (Str × Bytes)) (m : GoMap Str Bytes) (hm : m.keys.Nodup) :
    (files.foldl (fun m f => addFile sum m f.1 f.2) m).keys.Nodup ∧
    ∀ b, (files.foldl (fun m f => addFile sum m f.1 f.2) m).get b =
      match (files.filter fun f => baseOf f.1 = b).getLast? with
      | some f => some (sum f.2)
      | none => m.get b := by
  induction files generalizing m with
  | nil => exact ⟨hm, fun b => rfl⟩
  | cons f l ih =>
    obtain ⟨h1, h2⟩ := ih (addFile sum m f.1 f.2) (GoMap.keys_put_nodup hm _ _)
    refine ⟨h1, fun b => ?_⟩
    rw [List.foldl_cons, h2 b, List.filter_cons]
    by_cases hb : baseOf f.1 = b
    · rw [if_pos (by simpa using hb), List.getLast?_cons]
      cases hl : (l.filter fun f => baseOf f.1 = b).getLast? with
      | none => simp [addFile, GoMap.get_put, hb]
      | some g => simp
    · rw [if_neg (by simpa using hb)]
      cases hl : (l.filter fun f => baseOf f.1 = b).getLast? with
      | none => simp [addFile, GoMap.get_put, hb]
      | some g => rfl

theorem table_get (files : List (Str × Bytes)) (b : Str) : (table sum files).get b =
    ((files.filter fun f => baseOf f.1 = b).getLast?).map fun f => sum f.2 := by
  rw [table, (table_get_aux sum files [] List.nodup_nil).2 b]
  cases (files.filter fun f => baseOf f.1 = b).getLast? <;> rfl

theorem table_nodup (files : List (Str × Bytes)) : (table sum files).keys.Nodup := (table_get_aux sum files [] List.nodup_nil).1

/-- the text depends on the table only as a function -/
theorem dirText_congr {m m' : GoMap Str Bytes} (hm : m.keys.Nodup) (hm' : m'.keys.Nodup) (h : ∀ k, m.get k = m'.get k) :
    dirText m = dirText m' := by
  have hk : ∀ k, k ∈ m.keys ↔ k ∈ m'.keys := fun k => by rw [GoMap.mem_keys_iff, GoMap.mem_keys_iff, h]
  have hp : m.keys.Perm m'.keys := (List.perm_ext_iff_of_nodup hm hm').2 hk
  unfold dirText
  rw [sortStrs_congr hp]
  simp only [h]

/-- and determines it -/
theorem dirText_inj {m m' : GoMap Str Bytes} (h : dirText m = dirText m') : ∀ k, m.get k = m'.get k := by
  have h1 := (C56_canonical_text _ _).1.1 h
  injection h1 with h1
  have hk : sortStrs m.keys = sortStrs m'.keys := by
    have := congrArg (List.map Prod.fst) h1
    simpa [Function.comp_def] using this
  intro k
  have hmem : k ∈ m.keys ↔ k ∈ m'.keys := by rw [← mem_sortStrs, hk, mem_sortStrs]
  by_cases hin : k ∈ m.keys
  · obtain ⟨v, hv⟩ := (GoMap.mem_keys_iff m k).1 hin
    obtain ⟨v', hv'⟩ := (GoMap.mem_keys_iff m' k).1 (hmem.1 hin)
    rw [← hk] at h1
    have h2 := List.map_inj_left.1 h1 k (mem_sortStrs.2 hin)
    simp only [hv, hv', Option.getD_some, Prod.mk.injEq, J.str.injEq, true_and] at h2
    rw [hv, hv', base64_inj h2]
  · have hn : m.get k = none := by
      cases hv : m.get k with
      | none => rfl
      | some v => exact absurd ((GoMap.mem_keys_iff m k).2 ⟨v, hv⟩) hin
    have hn' : m'.get k = none := by
      cases hv : m'.get k with
      | none => rfl
      | some v => exact absurd (hmem.2 ((GoMap.mem_keys_iff m' k).2 ⟨v, hv⟩)) hin
    rw [hn, hn']

theorem filter_perm_last {l l' : List (Str × Bytes)} (hp : l.Perm l') (hd : (l.map fun f => baseOf f.1).Nodup) (b : Str) :
    (l.filter fun f => baseOf f.1 = b).getLast? = (l'.filter fun f => baseOf f.1 = b).getLast? := by
  have hq := hp.filter (fun f => decide (baseOf f.1 = b))
  have hlen : (l.filter fun f => baseOf f.1 = b).length ≤ 1 := by
    have h1 : ((l.filter fun f => baseOf f.1 = b).map fun f => baseOf f.1).Nodup :=
      (List.filter_sublist.map _).nodup hd
    have h2 : ∀ x ∈ (l.filter fun f => baseOf f.1 = b).map fun f => baseOf f.1, x = b := by
      intro x hx
      obtain ⟨f, hf, rfl⟩ := List.mem_map.1 hx
      simpa using (List.mem_filter.1 hf).2
    rw [← List.length_map (f := fun f : Str × Bytes => baseOf f.1)]
    generalize (l.filter fun f => baseOf f.1 = b).map (fun f => baseOf f.1) = q at h1 h2
    match q, h1, h2 with
    | [], _, _ => simp
    | [_], _, _ => simp
    | x :: y :: r, h1, h2 =>
      have := h2 x (by simp); have := h2 y (by simp)
      subst_vars
      simp at h1
  generalize l.filter (fun f => decide (baseOf f.1 = b)) = q at hq hlen ⊢
  match q, hlen with
  | [], _ => rw [← hq.nil_eq]
  | [x], _ => rw [List.singleton_perm.1 hq]
  | _ :: _ :: _, h => simp at h

/-! ## C47 -/

/-- **C47, order.** The hash of files with different base names (such as files of one directory) does not depend on the order in
which they are added. -/
theorem C47_order {files files' : List (Str × Bytes)} (hp : files.Perm files') (hd : (files.map fun f => baseOf f.1).Nodup) :
    dirHash sum sumText files = dirHash sum sumText files' := by
  unfold dirHash
  congr 1
  apply dirText_congr (table_nodup sum files) (table_nodup sum files')
  intro k
  show (table sum files).get k = (table sum files').get k
  rw [table_get, table_get, filter_perm_last hp hd]

/-- The contents and texts at hand do not collide. -/
def NoCollision (files files' : List (Str × Bytes)) : Prop :=
  (∀ f ∈ files, ∀ g ∈ files', sum f.2 = sum g.2 → f.2 = g.2) ∧
  (sumText (dirText (table sum files)) = sumText (dirText (table sum files')) → dirText (table sum files) = dirText (table sum files'))

/-- **C47, every change is seen.** If two collections of files (each with different base names) have the same hash, they have the
same base names with the same contents, unless there is a collision. -/
theorem C47_determines {files files' : List (Str × Bytes)} (hd : (files.map fun f => baseOf f.1).Nodup)
    (hd' : (files'.map fun f => baseOf f.1).Nodup) (hc : NoCollision sum sumText files files')
    (h : dirHash sum sumText files = dirHash sum sumText files') (b : Str) (data : Bytes) :
    (∃ f ∈ files, baseOf f.1 = b ∧ f.2 = data) ↔ ∃ f ∈ files', baseOf f.1 = b ∧ f.2 = data := by
  have hg := dirText_inj (hc.2 h)
  have key : ∀ {l : List (Str × Bytes)}, (l.map fun f => baseOf f.1).Nodup → ∀ f ∈ l,
      (l.filter fun g => baseOf g.1 = baseOf f.1).getLast? = some f := by
    intro l hl f hf
    have h1 : f ∈ l.filter fun g => baseOf g.1 = baseOf f.1 := List.mem_filter.2 ⟨hf, by simp⟩
    cases h2 : (l.filter fun g => baseOf g.1 = baseOf f.1).getLast? with
    | none => rw [List.getLast?_eq_none_iff] at h2; rw [h2] at h1; cases h1
    | some g =>
      have hm := List.mem_filter.1 (List.mem_of_getLast? h2)
      have : g = f := List.inj_on_of_nodup_map hl hm.1 hf (by simpa using hm.2)
      rw [this]
  constructor
  · rintro ⟨f, hf, rfl, rfl⟩
    have h1 := hg (baseOf f.1)
    rw [table_get, table_get, key hd f hf] at h1
    cases h2 : (files'.filter fun g => baseOf g.1 = baseOf f.1).getLast? with
    | none => rw [h2] at h1; cases h1
    | some g =>
      rw [h2] at h1
      have hm := List.mem_filter.1 (List.mem_of_getLast? h2)
      simp only [Option.map_some, Option.some.injEq] at h1
      exact ⟨g, hm.1, by simpa using hm.2, (hc.1 f hf g hm.1 h1).symm⟩
  · rintro ⟨f, hf, rfl, rfl⟩
    have h1 := hg (baseOf f.1)
    rw [table_get, table_get, key hd' f hf] at h1
    cases h2 : (files.filter fun g => baseOf g.1 = baseOf f.1).getLast? with
    | none => rw [h2] at h1; cases h1
    | some g =>
      rw [h2] at h1
      have hm := List.mem_filter.1 (List.mem_of_getLast? h2)
      simp only [Option.map_some, Option.some.injEq] at h1
      exact ⟨g, hm.1, by simpa using hm.2, hc.1 g hm.1 f hf h1⟩

/-- **C47, moved sources.** The hash depends on the base names and the contents only: in another directory the same files have the same
hash. -/
theorem C47_moved (files files' : List (Str × Bytes)) (h : (files.map fun f => (baseOf f.1, f.2)) = files'.map fun f => (baseOf f.1, f.2)) :
    dirHash sum sumText files = dirHash sum sumText files' := by
  have key : ∀ (l : List (Str × Bytes)) (m : GoMap Str Bytes), l.foldl (fun m f => addFile sum m f.1 f.2) m =
      (l.map fun f => (baseOf f.1, f.2)).foldl (fun m f => m.put f.1 (sum f.2)) m := by
    intro l
    induction l with
    | nil => intro m; rfl
    | cons f l ih => intro m; simp only [List.foldl_cons, List.map_cons, ih]; rfl
  unfold dirHash
  rw [key, key, h]

example : dirHash (fun d => 7 :: d) (fun s => 'h' :: s) [("/a/x.go".toList, [1]), ("/a/y.go".toList, [])] = dirHash (fun d => 7 :: d) (fun s => 'h' :: s) [("/b/c/x.go".toList, [1]), ("/b/c/y.go".toList, [])] :=
  C47_moved _ _ _ _ (by decide +kernel)

/-- Files with the same base name hide each other: then the order matters. -/
theorem C47_counterexample_same_base (x y : Bytes) (hne : sum x ≠ sum y) (hc : ∀ s t, sumText s = sumText t → s = t) :
    dirHash sum sumText [("a/f.go".toList, x), ("b/f.go".toList, y)] ≠ dirHash sum sumText [("b/f.go".toList, y), ("a/f.go".toList, x)] := by
  intro h
  have hg := dirText_inj (hc _ _ h) "f.go".toList
  have e1 : baseOf "a/f.go".toList = "f.go".toList := by decide +kernel
  have e2 : baseOf "b/f.go".toList = "f.go".toList := by decide +kernel
  simp only [List.foldl_cons, List.foldl_nil, addFile, e1, e2, GoMap.get_put, if_true, Option.some.injEq] at hg
  exact hne hg.symm

/-! A concrete case: two files, one changed. -/

def exSum (d : Bytes) : Bytes := 7 :: d
def exSumText (s : Str) : Str := 'h' :: s
def exSrc (d : Bytes) : List (Str × Bytes) := [("/p/_fab/b.go".toList, d), ("/p/_fab/a.go".toList, [1, 2])]

example : dirHash exSum exSumText (exSrc [0, 255]) = "h{\"a.go\":\"BwEC\",\"b.go\":\"BwD/\"}".toList := by decide +kernel
example : ((exSrc [3]).map fun f => baseOf f.1).Nodup := by decide +kernel
example : NoCollision exSum exSumText (exSrc [3]) (exSrc [4]) :=
  ⟨fun f _ g _ h => by simpa [exSum] using h, fun h => by simpa [exSumText] using h⟩
example : dirHash exSum exSumText (exSrc [3]) ≠ dirHash exSum exSumText (exSrc [4]) := by decide +kernel

end Fab.Driver
