import Verif.Base

/-!
# Canonical JSON: C56

`files.computeHash` (files.go:167-195) and `dirHasher.hash` (dirhash.go:38-56) hash the text produced by the package
`canonicaljson-go`.  That package is modelled by its documented format: no white space, object members in the order of
their names, strings with the shortest escapes, the control characters below U+0020 as two-character escapes or `\u00XX`.
Numbers do not occur in the values that fab encodes.
-/

namespace Fab.Json

/-- A JSON value.  The members of an object are listed in the order in which they are written, which is the order of their
names. -/
inductive J where
  | null
  | bool (b : Bool)
  | str (s : Str)
  | arr (l : List J)
  | obj (l : List (Str × J))

def hexDigit (n : Nat) : Char := "0123456789ABCDEF".toList.getD n '0'

/-- The two-character escapes. -/
def short (c : Char) : Option Char :=
  if c = '"' then some '"'
  else if c = '\\' then some '\\'
  else if c = '\n' then some 'n'
  else if c = '\t' then some 't'
  else if c = '\r' then some 'r'
  else if c = '\x08' then some 'b'
  else if c = '\x0c' then some 'f'
  else none

/-- One character inside a string. -/
def esc (c : Char) : Str :=
  match short c with
  | some d => ['\\', d]
  | none =>
    if c.toNat < 32 then ['\\', 'u', '0', '0', hexDigit (c.toNat / 16), hexDigit (c.toNat % 16)]
    else [c]

def encStr (s : Str) : Str := '"' :: (s.flatMap esc ++ ['"'])

mutual
def enc : J → Str
  | .null => "null".toList
  | .bool true => "true".toList
  | .bool false => "false".toList
  | .str s => encStr s
  | .arr l => '[' :: encArr l
  | .obj l => '{' :: encObj l

/-- the rest of an array, after '[' or ',' -/
def encArr : List J → Str
  | [] => [']']
  | j :: l => enc j ++ encArrRest l

def encArrRest : List J → Str
  | [] => [']']
  | j :: l => ',' :: (enc j ++ encArrRest l)

def encObj : List (Str × J) → Str
  | [] => ['}']
  | (k, j) :: l => encStr k ++ ':' :: (enc j ++ encObjRest l)

def encObjRest : List (Str × J) → Str
  | [] => ['}']
  | (k, j) :: l => ',' :: (encStr k ++ ':' :: (enc j ++ encObjRest l))
end

/-! ## Unique readability -/

theorem toNat_inj {c d : Char} (h : c.toNat = d.toNat) : c = d := by
  have := congrArg Char.ofNat h
  rwa [Char.ofNat_toNat, Char.ofNat_toNat] at this

theorem hex_inj {a b : Nat} (ha : a < 32) (hb : b < 32) (h1 : hexDigit (a / 16) = hexDigit (b / 16))
    (h2 : hexDigit (a % 16) = hexDigit (b % 16)) : a = b := by
  have key : ∀ x : Fin 32, ∀ y : Fin 32, hexDigit (x.val / 16) = hexDigit (y.val / 16) →
      hexDigit (x.val % 16) = hexDigit (y.val % 16) → x = y := by decide +kernel
  have := key ⟨a, ha⟩ ⟨b, hb⟩ h1 h2
  exact congrArg Fin.val this

/-- The inverse of `short`. -/
def unshort (d : Char) : Char :=
  if d = '"' then '"'
  else if d = '\\' then '\\'
  else if d = 'n' then '\n'
  else if d = 't' then '\t'
  else if d = 'r' then '\r'
  else if d = 'b' then '\x08'
  else '\x0c'

theorem short_spec {c d : Char} (h : short c = some d) : c = unshort d ∧ d ≠ 'u' := by
  unfold short at h
  repeat' split at h
  all_goals first
    | (cases h; subst_vars; decide)
    | simp at h

theorem short_none {c : Char} (h : short c = none) : c ≠ '"' ∧ c ≠ '\\' := by
  constructor <;> rintro rfl <;> revert h <;> decide

theorem esc_head (c : Char) (x : Str) : (esc c ++ x).head? ≠ some '"' := by
  unfold esc
  split
  · simp
  · rename_i h
    split
    · simp
    · simpa using (short_none h).1

theorem esc_inj {c d : Char} {x y : Str} (h : esc c ++ x = esc d ++ y) : c = d ∧ x = y := by
  unfold esc at h
  rcases hc : short c with _ | c' <;> rcases hd : short d with _ | d' <;> simp only [hc, hd] at h
  · split at h <;> split at h <;> simp only [List.cons_append, List.nil_append, List.cons.injEq] at h
    · rename_i h1 h2
      exact ⟨toNat_inj (hex_inj h1 h2 h.2.2.2.2.1 h.2.2.2.2.2.1), h.2.2.2.2.2.2⟩
    · exact absurd h.1.symm (short_none hd).2
    · exact absurd h.1 (short_none hc).2
    · exact h
  · split at h <;> simp only [List.cons_append, List.nil_append, List.cons.injEq] at h
    · exact absurd h.2.1.symm (short_spec hd).2
    · exact absurd h.1 (short_none hc).2
  · split at h <;> simp only [List.cons_append, List.nil_append, List.cons.injEq] at h
    · exact absurd h.2.1 (short_spec hc).2
    · exact absurd h.1.symm (short_none hd).2
  · simp only [List.cons_append, List.nil_append, List.cons.injEq, true_and] at h
    refine ⟨?_, h.2⟩
    rw [(short_spec hc).1, (short_spec hd).1, h.1]

theorem body_inj : ∀ (s t : Str) {x y : Str}, s.flatMap esc ++ '"' :: x = t.flatMap esc ++ '"' :: y → s = t ∧ x = y := by
  intro s
  induction s with
  | nil =>
    intro t x y h
    cases t with
    | nil => simpa using h
    | cons d t =>
      exfalso
      simp only [List.flatMap_nil, List.nil_append, List.flatMap_cons, List.append_assoc] at h
      have := esc_head d (t.flatMap esc ++ '"' :: y)
      rw [← h] at this; simp at this
  | cons c s ih =>
    intro t x y h
    cases t with
    | nil =>
      exfalso
      simp only [List.flatMap_nil, List.nil_append, List.flatMap_cons, List.append_assoc] at h
      have := esc_head c (s.flatMap esc ++ '"' :: x)
      rw [h] at this; simp at this
    | cons d t =>
      simp only [List.flatMap_cons, List.append_assoc] at h
      obtain ⟨rfl, h1⟩ := esc_inj h
      obtain ⟨rfl, h2⟩ := ih t h1
      exact ⟨rfl, h2⟩

theorem encStr_inj {s t x y : Str} (h : encStr s ++ x = encStr t ++ y) : s = t ∧ x = y := by
  unfold encStr at h
  simp only [List.cons_append, List.append_assoc, List.nil_append, List.cons.injEq, true_and] at h
  exact body_inj s t h

/-- The first character tells the kind of the value. -/
theorem enc_head (j : J) : ∃ c r, enc j = c :: r ∧ c ≠ ']' ∧ c ≠ ',' ∧ c ≠ '}' := by
  cases j with
  | null => exact ⟨'n', _, rfl, by decide, by decide, by decide⟩
  | bool b => cases b
              · exact ⟨'f', _, rfl, by decide, by decide, by decide⟩
              · exact ⟨'t', _, rfl, by decide, by decide, by decide⟩
  | str s => exact ⟨'"', _, rfl, by decide, by decide, by decide⟩
  | arr l => exact ⟨'[', _, rfl, by decide, by decide, by decide⟩
  | obj l => exact ⟨'{', _, rfl, by decide, by decide, by decide⟩

mutual
theorem enc_inj : ∀ (i j : J) {x y : Str}, enc i ++ x = enc j ++ y → i = j ∧ x = y
  | .null, j, x, y, h => by cases j with
    | null => simpa [enc] using h
    | bool b => cases b <;> simp [enc] at h
    | str s => simp [enc, encStr] at h
    | arr l => simp [enc] at h
    | obj l => simp [enc] at h
  | .bool true, j, x, y, h => by cases j with
    | null => simp [enc] at h
    | bool b => cases b <;> simp [enc] at h ⊢; exact h
    | str s => simp [enc, encStr] at h
    | arr l => simp [enc] at h
    | obj l => simp [enc] at h
  | .bool false, j, x, y, h => by cases j with
    | null => simp [enc] at h
    | bool b => cases b <;> simp [enc] at h ⊢; exact h
    | str s => simp [enc, encStr] at h
    | arr l => simp [enc] at h
    | obj l => simp [enc] at h
  | .str s, j, x, y, h => by cases j with
    | null => simp [enc, encStr] at h
    | bool b => cases b <;> simp [enc, encStr] at h
    | str t => rw [enc, enc] at h; obtain ⟨rfl, h1⟩ := encStr_inj h; exact ⟨rfl, h1⟩
    | arr l => simp [enc, encStr] at h
    | obj l => simp [enc, encStr] at h
  | .arr l, j, x, y, h => by cases j with
    | null => simp [enc] at h
    | bool b => cases b <;> simp [enc] at h
    | str t => simp [enc, encStr] at h
    | arr m =>
      simp only [enc, List.cons_append, List.cons.injEq, true_and] at h
      obtain ⟨rfl, h1⟩ := encArr_inj l m h
      exact ⟨rfl, h1⟩
    | obj l => simp [enc] at h
  | .obj l, j, x, y, h => by cases j with
    | null => simp [enc] at h
    | bool b => cases b <;> simp [enc] at h
    | str t => simp [enc, encStr] at h
    | arr m => simp [enc] at h
    | obj m =>
      simp only [enc, List.cons_append, List.cons.injEq, true_and] at h
      obtain ⟨rfl, h1⟩ := encObj_inj l m h
      exact ⟨rfl, h1⟩
theorem encArr_inj : ∀ (l m : List J) {x y : Str}, encArr l ++ x = encArr m ++ y → l = m ∧ x = y
  | [], m, x, y, h => by cases m with
    | nil => simpa [encArr] using h
    | cons j m =>
      obtain ⟨c, r, h1, h2, -⟩ := enc_head j
      simp [encArr, h1, Ne.symm h2] at h
  | i :: l, m, x, y, h => by cases m with
    | nil =>
      obtain ⟨c, r, h1, h2, -⟩ := enc_head i
      simp [encArr, h1, h2] at h
    | cons j m =>
      simp only [encArr, List.append_assoc] at h
      obtain ⟨rfl, h1⟩ := enc_inj i j h
      obtain ⟨rfl, h2⟩ := encArrRest_inj l m h1
      exact ⟨rfl, h2⟩
theorem encArrRest_inj : ∀ (l m : List J) {x y : Str}, encArrRest l ++ x = encArrRest m ++ y → l = m ∧ x = y
  | [], m, x, y, h => by cases m with
    | nil => simpa [encArrRest] using h
    | cons j m => simp [encArrRest] at h
  | i :: l, m, x, y, h => by cases m with
    | nil => simp [encArrRest] at h
    | cons j m =>
      simp only [encArrRest, List.cons_append, List.append_assoc, List.cons.injEq, true_and] at h
      obtain ⟨rfl, h1⟩ := enc_inj i j h
      obtain ⟨rfl, h2⟩ := encArrRest_inj l m h1
      exact ⟨rfl, h2⟩
theorem encObj_inj : ∀ (l m : List (Str × J)) {x y : Str}, encObj l ++ x = encObj m ++ y → l = m ∧ x = y
  | [], m, x, y, h => by cases m with
    | nil => simpa [encObj] using h
    | cons j m => simp [encObj, encStr] at h
  | (k, i) :: l, m, x, y, h => by cases m with
    | nil => simp [encObj, encStr] at h
    | cons kj m =>
      obtain ⟨k', j⟩ := kj
      simp only [encObj, List.cons_append, List.append_assoc] at h
      obtain ⟨rfl, h1⟩ := encStr_inj h
      simp only [List.cons.injEq, true_and] at h1
      obtain ⟨rfl, h2⟩ := enc_inj i j h1
      obtain ⟨rfl, h3⟩ := encObjRest_inj l m h2
      exact ⟨rfl, h3⟩
theorem encObjRest_inj : ∀ (l m : List (Str × J)) {x y : Str}, encObjRest l ++ x = encObjRest m ++ y → l = m ∧ x = y
  | [], m, x, y, h => by cases m with
    | nil => simpa [encObjRest] using h
    | cons j m => simp [encObjRest] at h
  | (k, i) :: l, m, x, y, h => by cases m with
    | nil => simp [encObjRest] at h
    | cons kj m =>
      obtain ⟨k', j⟩ := kj
      simp only [encObjRest, List.cons_append, List.append_assoc, List.cons.injEq, true_and] at h
      obtain ⟨rfl, h1⟩ := encStr_inj h
      simp only [List.cons.injEq, true_and] at h1
      obtain ⟨rfl, h2⟩ := enc_inj i j h1
      obtain ⟨rfl, h3⟩ := encObjRest_inj l m h2
      exact ⟨rfl, h3⟩
end

/-- **C56.** Two values with the same canonical text are the same value; and the text of a value is never a proper prefix of
the text of another. -/
theorem C56_canonical_text (i j : J) : (enc i = enc j ↔ i = j) ∧ (enc i <+: enc j → i = j) := by
  refine ⟨⟨fun h => ?_, fun h => by rw [h]⟩, ?_⟩
  · exact (enc_inj i j (x := []) (y := []) (by rw [h])).1
  · rintro ⟨r, h⟩
    exact (enc_inj i j (x := r) (y := []) (by rw [h, List.append_nil])).1

/-! ### Cases -/

example : enc (.obj [("a".toList, .arr [.str "x\"y\n".toList, .null]), ("b".toList, .bool true)]) =
    "{\"a\":[\"x\\\"y\\n\",null],\"b\":true}".toList := by decide +kernel
example : esc '\x1f' = "\\u001F".toList := by decide +kernel
example : enc (.arr [.str "a".toList, .str "b".toList]) ≠ enc (.arr [.str "a\",\"b".toList]) := by decide +kernel

end Fab.Json
