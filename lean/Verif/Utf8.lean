import Verif.FileHash

/-!
# Names that are not UTF-8: C90

A Go string is a list of bytes, and so is the name of a file.  Here the characters of a `Str` that is a *name* are read as the bytes of the name (the
characters U+0000 … U+00FF); everything that `FileHash.lean` says about names only compares and sorts them, and looks for `/` and `.`, so it holds for
names read in this way, and `sortStrs` is the order of the bytes, as in `sort.Strings` (files.go:258).

What is different is the JSON text (files.go:176-191): the package canonicaljson-go writes a string as the characters that its bytes encode in UTF-8,
and, like encoding/json, a byte that is not part of a valid encoding as U+FFFD.  `text` is that reading.
-/

namespace Fab.Utf8
open Fab Path

/-- The bytes as characters: how a name is represented. -/
def latin (b : Bytes) : Str := b.map fun x => Char.ofNat x.toNat

/-- U+FFFD -/
def bad : Char := Char.ofNat 0xFFFD

def cont (b : Nat) : Bool := decide (0x80 ≤ b ∧ b ≤ 0xBF)

/-- Go's unicode/utf8: the two bytes are a character -/
def two (a b : Nat) : Bool := decide (0xC2 ≤ a ∧ a ≤ 0xDF) && cont b

/-- Go's unicode/utf8: the three bytes are a character: not one that needs fewer bytes, and not a surrogate -/
def three (a b c : Nat) : Bool :=
  ((decide (a = 0xE0) && decide (0xA0 ≤ b ∧ b ≤ 0xBF)) || (decide ((0xE1 ≤ a ∧ a ≤ 0xEC) ∨ a = 0xEE ∨ a = 0xEF) && cont b) ||
    (decide (a = 0xED) && decide (0x80 ≤ b ∧ b ≤ 0x9F))) && cont c

/-- Go's unicode/utf8: the four bytes are a character: not one that needs fewer bytes, and at most U+10FFFF -/
def four (a b c d : Nat) : Bool :=
  ((decide (a = 0xF0) && decide (0x90 ≤ b ∧ b ≤ 0xBF)) || (decide (0xF1 ≤ a ∧ a ≤ 0xF3) && cont b) ||
    (decide (a = 0xF4) && decide (0x80 ≤ b ∧ b ≤ 0x8F))) && cont c && cont d

/-- Go's conversion of a string to runes, as `for range` and encoding/json do it: a byte that does not begin a valid encoding is U+FFFD -/
def runes : List Nat → Str
  | [] => []
  | a :: r0 =>
    if a < 0x80 then Char.ofNat a :: runes r0
    else match r0 with
      | [] => bad :: runes []
      | b :: r1 =>
        if two a b then Char.ofNat (a % 0x20 * 64 + b % 64) :: runes r1
        else match r1 with
          | [] => bad :: runes [b]
          | c :: r2 =>
            if three a b c then Char.ofNat (a % 0x10 * 4096 + b % 64 * 64 + c % 64) :: runes r2
            else match r2 with
              | [] => bad :: runes [b, c]
              | d :: r3 =>
                if four a b c d then Char.ofNat (a % 8 * 262144 + b % 64 * 4096 + c % 64 * 64 + d % 64) :: runes r3
                else bad :: runes (b :: c :: d :: r3)

/-- The characters that a name stands for in a JSON text. -/
def text (n : Str) : Str := runes (n.map Char.toNat)

/-- The UTF-8 encoding (as in Lean's library). -/
def utf8 (s : Str) : Bytes := s.flatMap String.utf8EncodeChar

/-! ## Valid names are read as they are -/

theorem runes_one {a : Nat} (h : a < 0x80) (r : List Nat) : runes (a :: r) = Char.ofNat a :: runes r := by
  rw [runes.eq_def]; simp only [if_pos h]

theorem runes_two {a b : Nat} (h : two a b = true) (r : List Nat) : runes (a :: b :: r) = Char.ofNat (a % 0x20 * 64 + b % 64) :: runes r := by
  have : ¬ a < 0x80 := by simp only [two, Bool.and_eq_true, decide_eq_true_eq] at h; omega
  rw [runes.eq_def]; simp only [if_neg this, if_pos h]

theorem runes_three {a b c : Nat} (h : three a b c = true) (r : List Nat) :
    runes (a :: b :: c :: r) = Char.ofNat (a % 0x10 * 4096 + b % 64 * 64 + c % 64) :: runes r := by
  have h1 : 0xE0 ≤ a := by simp only [three, Bool.and_eq_true, Bool.or_eq_true, decide_eq_true_eq] at h; omega
  have h2 : ¬ two a b = true := by simp only [two, Bool.and_eq_true, decide_eq_true_eq]; omega
  have h3 : ¬ a < 0x80 := by omega
  rw [runes.eq_def]; simp only [if_neg h3, if_neg h2, if_pos h]

theorem runes_four {a b c d : Nat} (h : four a b c d = true) (r : List Nat) :
    runes (a :: b :: c :: d :: r) = Char.ofNat (a % 8 * 262144 + b % 64 * 4096 + c % 64 * 64 + d % 64) :: runes r := by
  have h1 : 0xF0 ≤ a := by simp only [four, Bool.and_eq_true, Bool.or_eq_true, decide_eq_true_eq] at h; omega
  have h2 : ¬ two a b = true := by simp only [two, Bool.and_eq_true, decide_eq_true_eq]; omega
  have h3 : ¬ a < 0x80 := by omega
  have h4 : ¬ three a b c = true := by simp only [three, Bool.and_eq_true, Bool.or_eq_true, decide_eq_true_eq]; omega
  rw [runes.eq_def]; simp only [if_neg h3, if_neg h2, if_neg h4, if_pos h]

/-- a character and its number -/
theorem ofNat_eq {n : Nat} {c : Char} (h : n = c.toNat) : Char.ofNat n = c := by
  subst h; exact Char.ofNat_toNat c

theorem runes_char (c : Char) (r : List Nat) : runes ((String.utf8EncodeChar c).map UInt8.toNat ++ r) = c :: runes r := by
  have hv : c.val.toNat < 0xD800 ∨ (0xDFFF < c.val.toNat ∧ c.val.toNat < 0x110000) := c.valid
  have hn : c.toNat = c.val.toNat := rfl
  unfold String.utf8EncodeChar
  generalize hvv : c.val.toNat = v at *
  dsimp only
  split
  · simp only [List.map_cons, List.map_nil, List.cons_append, List.nil_append, UInt8.toNat_ofNat']
    rw [runes_one (by omega)]
    rw [ofNat_eq (c := c) (by omega)]
  · split
    · simp only [List.map_cons, List.map_nil, List.cons_append, List.nil_append, UInt8.toNat_ofNat']
      rw [runes_two (by simp only [two, cont, Bool.and_eq_true, decide_eq_true_eq]; omega)]
      rw [ofNat_eq (c := c) (by omega)]
    · split
      · simp only [List.map_cons, List.map_nil, List.cons_append, List.nil_append, UInt8.toNat_ofNat']
        rw [runes_three (by simp only [three, cont, Bool.and_eq_true, Bool.or_eq_true, decide_eq_true_eq]; omega)]
        rw [ofNat_eq (c := c) (by omega)]
      · simp only [List.map_cons, List.map_nil, List.cons_append, List.nil_append, UInt8.toNat_ofNat']
        rw [runes_four (by simp only [four, cont, Bool.and_eq_true, Bool.or_eq_true, decide_eq_true_eq]; omega)]
        rw [ofNat_eq (c := c) (by omega)]

theorem latin_toNat (b : Bytes) : (latin b).map Char.toNat = b.map UInt8.toNat := by
  simp only [latin, List.map_map, List.map_inj_left, Function.comp]
  intro x _
  exact Files.charNat (by have := x.toNat_lt; omega)

theorem text_char (c : Char) (b : Bytes) : text (latin (String.utf8EncodeChar c ++ b)) = c :: text (latin b) := by
  unfold text
  rw [latin_toNat, latin_toNat, List.map_append, runes_char]

/-- **C90.** A name that is the UTF-8 encoding of a text is written as this text. -/
theorem C90_valid (s : Str) : text (latin (utf8 s)) = s := by
  induction s with
  | nil => rfl
  | cons c s ih => rw [utf8, List.flatMap_cons, text_char]; exact congrArg _ ih

/-! ## Only bytes that are not UTF-8 get lost -/

theorem ofNat_val {n : Nat} (h : n < 0xD800 ∨ (0xDFFF < n ∧ n < 0x110000)) : (Char.ofNat n).val.toNat = n := by
  have hv : n.isValidChar := h
  simp only [Char.ofNat, dif_pos hv]
  simp [Char.ofNatAux, UInt32.toNat]

theorem enc_one {a : Nat} (h : a < 0x80) : (String.utf8EncodeChar (Char.ofNat a)).map UInt8.toNat = [a] := by
  unfold String.utf8EncodeChar
  rw [ofNat_val (by omega)]
  dsimp only
  rw [if_pos (by omega)]
  simp only [List.map_cons, List.map_nil, UInt8.toNat_ofNat']
  congr 1; omega

theorem enc_two {a b : Nat} (h : two a b = true) : (String.utf8EncodeChar (Char.ofNat (a % 0x20 * 64 + b % 64))).map UInt8.toNat = [a, b] := by
  simp only [two, cont, Bool.and_eq_true, decide_eq_true_eq] at h
  unfold String.utf8EncodeChar
  rw [ofNat_val (by omega)]
  dsimp only
  rw [if_neg (by omega), if_pos (by omega)]
  simp only [List.map_cons, List.map_nil, UInt8.toNat_ofNat', List.cons.injEq, and_true]
  omega

theorem enc_three {a b c : Nat} (h : three a b c = true) :
    (String.utf8EncodeChar (Char.ofNat (a % 0x10 * 4096 + b % 64 * 64 + c % 64))).map UInt8.toNat = [a, b, c] := by
  simp only [three, cont, Bool.and_eq_true, Bool.or_eq_true, decide_eq_true_eq] at h
  unfold String.utf8EncodeChar
  rw [ofNat_val (by omega)]
  dsimp only
  rw [if_neg (by omega), if_neg (by omega), if_pos (by omega)]
  simp only [List.map_cons, List.map_nil, UInt8.toNat_ofNat', List.cons.injEq, and_true]
  omega

theorem enc_four {a b c d : Nat} (h : four a b c d = true) :
    (String.utf8EncodeChar (Char.ofNat (a % 8 * 262144 + b % 64 * 4096 + c % 64 * 64 + d % 64))).map UInt8.toNat = [a, b, c, d] := by
  simp only [four, cont, Bool.and_eq_true, Bool.or_eq_true, decide_eq_true_eq] at h
  unfold String.utf8EncodeChar
  rw [ofNat_val (by omega)]
  dsimp only
  rw [if_neg (by omega), if_neg (by omega), if_neg (by omega)]
  simp only [List.map_cons, List.map_nil, UInt8.toNat_ofNat', List.cons.injEq, and_true]
  omega

/-- without U+FFFD, the encoding of what was read is what was read -/
theorem runes_utf8 (l : List Nat) : bad ∉ runes l → (utf8 (runes l)).map UInt8.toNat = l := by
  fun_induction runes l with
  | case1 => intro _; rfl
  | case2 a r h ih => 
    intro hb
    simp only [List.mem_cons, not_or] at hb
    rw [utf8, List.flatMap_cons, List.map_append, enc_one h]
    exact congrArg _ (ih hb.2)
  | case4 a h b r h' ih =>
    intro hb
    simp only [List.mem_cons, not_or] at hb
    rw [utf8, List.flatMap_cons, List.map_append, enc_two h']
    exact congrArg (fun x => a :: b :: x) (ih hb.2)
  | case6 a h b h' c r h'' ih =>
    intro hb
    simp only [List.mem_cons, not_or] at hb
    rw [utf8, List.flatMap_cons, List.map_append, enc_three h'']
    exact congrArg (fun x => a :: b :: c :: x) (ih hb.2)
  | case8 a h b h' c h'' d r h3 ih =>
    intro hb
    simp only [List.mem_cons, not_or] at hb
    rw [utf8, List.flatMap_cons, List.map_append, enc_four h3]
    exact congrArg (fun x => a :: b :: c :: d :: x) (ih hb.2)
  | _ => intro hb; exact absurd (List.mem_cons_self ..) hb

theorem latin_inj {a b : Bytes} (h : (latin a).map Char.toNat = (latin b).map Char.toNat) : a = b := by
  rw [latin_toNat, latin_toNat] at h
  exact List.map_injective_iff.2 (fun x y => UInt8.toNat_inj.1) h

/-- **C90.** The bytes of a name that is written without U+FFFD are the UTF-8 encoding of what is written. -/
theorem C90_written (b : Bytes) (h : bad ∉ text (latin b)) : b = utf8 (text (latin b)) := by
  have := runes_utf8 ((latin b).map Char.toNat) h
  apply List.map_injective_iff.2 (fun x y => UInt8.toNat_inj.1 : Function.Injective UInt8.toNat)
  rw [← latin_toNat b]
  exact this.symm

/-- Two names that are written in the same way, and without U+FFFD, are the same. -/
theorem text_inj {a b : Bytes} (ha : bad ∉ text (latin a)) (h : text (latin a) = text (latin b)) : a = b := by
  rw [C90_written a ha, C90_written b (h ▸ ha), h]

/-! ## What is read, for all bytes -/

/-- How Go reads a string (the Go specification, "For range", and encoding/json): the encoding of a character is read as this character, and a byte with
which no encoding of a character begins, as U+FFFD. -/
inductive Reads : Bytes → Str → Prop
  | nil : Reads [] []
  | char (c : Char) {b t} : Reads b t → Reads (String.utf8EncodeChar c ++ b) (c :: t)
  | byte (x : UInt8) {b t} : (∀ c, ¬ String.utf8EncodeChar c <+: x :: b) → Reads b t → Reads (x :: b) (bad :: t)

/-- a byte with which no encoding begins -/
theorem runes_byte {a : Nat} {r : List Nat} (h : ∀ c, ¬ (String.utf8EncodeChar c).map UInt8.toNat <+: a :: r) : runes (a :: r) = bad :: runes r := by
  have h1 : ¬ a < 0x80 := fun hh => h _ (by rw [enc_one hh]; exact ⟨r, rfl⟩)
  rw [runes.eq_def]
  simp only [if_neg h1]
  match r with
  | [] => rfl
  | b :: r1 =>
    have h2 : ¬ two a b = true := fun hh => h _ (by rw [enc_two hh]; exact ⟨r1, rfl⟩)
    simp only [if_neg h2]
    match r1 with
    | [] => rfl
    | c :: r2 =>
      have h3 : ¬ three a b c = true := fun hh => h _ (by rw [enc_three hh]; exact ⟨r2, rfl⟩)
      simp only [if_neg h3]
      match r2 with
      | [] => rfl
      | d :: r3 =>
        have h4 : ¬ four a b c d = true := fun hh => h _ (by rw [enc_four hh]; exact ⟨r3, rfl⟩)
        simp only [if_neg h4]

theorem toNat_inj_list : ∀ {a b : Bytes}, a.map UInt8.toNat = b.map UInt8.toNat → a = b :=
  fun h => List.map_injective_iff.2 (fun _ _ => UInt8.toNat_inj.1) h

/-- **C90.** What is written for a name, whatever its bytes: each encoding of a character as this character, and each other byte as U+FFFD. -/
theorem C90_exact (b : Bytes) (t : Str) : text (latin b) = t ↔ Reads b t := by
  have back : ∀ {b t}, Reads b t → text (latin b) = t := by
    intro b t h
    induction h with
    | nil => rfl
    | char c _ ih => rw [text_char, ih]
    | @byte x b t hx _ ih =>
      unfold text at *
      rw [latin_toNat] at *
      rw [List.map_cons, runes_byte, ih]
      rintro c ⟨r, hr⟩
      refine hx c (List.prefix_iff_eq_take.2 (toNat_inj_list ?_))
      rw [List.map_take, List.map_cons, ← hr, List.take_left' (by simp)]
  refine ⟨?_, back⟩
  rintro rfl
  induction hn : b.length using Nat.strongRecOn generalizing b with
  | _ n ih =>
    subst hn
    match b with
    | [] => exact .nil
    | x :: r =>
      by_cases hc : ∃ c, String.utf8EncodeChar c <+: x :: r
      · obtain ⟨c, r', hr⟩ := hc
        rw [← hr, text_char]
        refine .char c (ih _ ?_ _ rfl)
        have := List.length_pos_iff.2 (String.utf8EncodeChar_ne_nil (c := c))
        rw [← hr, List.length_append]
        omega
      · have hb := Reads.byte x (fun c h => hc ⟨c, h⟩) (ih r.length (by simp) r rfl)
        rw [back hb]
        exact hb

/-! ## The order of the names -/

theorem utf8_char_lt {c d : Char} (h : c < d) (x y : Bytes) : String.utf8EncodeChar c ++ x < String.utf8EncodeChar d ++ y := by
  have hc : c.val.toNat < 0xD800 ∨ (0xDFFF < c.val.toNat ∧ c.val.toNat < 0x110000) := c.valid
  have hd : d.val.toNat < 0xD800 ∨ (0xDFFF < d.val.toNat ∧ d.val.toNat < 0x110000) := d.valid
  have hlt : c.val.toNat < d.val.toNat := h
  unfold String.utf8EncodeChar
  generalize c.val.toNat = v at *
  generalize d.val.toNat = w at *
  dsimp only
  split <;> [skip; split <;> [skip; split]] <;>
    (split <;> [skip; split <;> [skip; split]]) <;>
    simp only [List.cons_append, List.nil_append, List.cons_lt_cons_iff, UInt8.lt_iff_toNat_lt, ← UInt8.toNat_inj, UInt8.toNat_ofNat'] <;>
    try omega
  -- both have four bytes
  have m (n : Nat) : (n % 64 + 128) % 256 = n % 64 + 128 := Nat.mod_eq_of_lt (by omega)
  have m' (n : Nat) : (n % 8 + 240) % 256 = n % 8 + 240 := Nat.mod_eq_of_lt (by omega)
  rw [m, m, m, m, m, m, m', m']
  have ev : v = 262144 * (v / 262144 % 8) + 4096 * (v / 4096 % 64) + 64 * (v / 64 % 64) + v % 64 := by omega
  have ew : w = 262144 * (w / 262144 % 8) + 4096 * (w / 4096 % 64) + 64 * (w / 64 % 64) + w % 64 := by omega
  have b1 := Nat.mod_lt (v / 4096) (show 64 > 0 by omega)
  have b2 := Nat.mod_lt (v / 64) (show 64 > 0 by omega)
  have b3 := Nat.mod_lt v (show 64 > 0 by omega)
  have b4 := Nat.mod_lt (w / 4096) (show 64 > 0 by omega)
  have b5 := Nat.mod_lt (w / 64) (show 64 > 0 by omega)
  have b6 := Nat.mod_lt w (show 64 > 0 by omega)
  generalize v / 262144 % 8 = v3 at *
  generalize w / 262144 % 8 = w3 at *
  generalize v / 4096 % 64 = v2 at *
  generalize w / 4096 % 64 = w2 at *
  generalize v / 64 % 64 = v1 at *
  generalize w / 64 % 64 = w1 at *
  generalize v % 64 = v0 at *
  generalize w % 64 = w0 at *
  omega

/-- **C90.** The order of the bytes, by which fab sorts, is the order of the characters. -/
theorem C90_order (s t : Str) : utf8 s < utf8 t ↔ s < t := by
  have key : ∀ s t : Str, s < t → utf8 s < utf8 t := by
    intro s
    induction s with
    | nil =>
      intro t h
      cases t with
      | nil => exact absurd h (List.not_lt_nil _)
      | cons d t =>
        show ([] : Bytes) < (String.utf8EncodeChar d ++ utf8 t)
        cases hd : String.utf8EncodeChar d with
        | nil => exact absurd hd String.utf8EncodeChar_ne_nil
        | cons u r => exact List.nil_lt_cons _ _
    | cons c s ih =>
      intro t h
      cases t with
      | nil => exact absurd h (List.not_lt_nil _)
      | cons d t =>
        show String.utf8EncodeChar c ++ utf8 s < String.utf8EncodeChar d ++ utf8 t
        rcases List.cons_lt_cons_iff.1 h with h1 | ⟨rfl, h1⟩
        · exact utf8_char_lt h1 _ _
        · exact List.append_left_lt (ih t h1)
  refine ⟨fun h => ?_, key s t⟩
  rcases lt_trichotomy s t with h1 | h1 | h1
  · exact h1
  · subst h1; exact absurd h (List.lt_irrefl _)
  · exact absurd (List.lt_trans h (key t s h1)) (List.lt_irrefl _)

/-! ## What is recorded -/

section
open Files
variable (hex : Bytes → Str)

/-- files.go:176-191: the text that is hashed, from the two lists (whose names are bytes) -/
def recordText (target : Json.J) (targetType : Str) (ins outs : List Str) : Str :=
  hashText target targetType (ins.map text) (outs.map text)

/-- The name is the UTF-8 encoding of a text without U+FFFD. -/
def Proper (k : Str) : Prop := ∃ s, bad ∉ s ∧ k = latin (utf8 s)

/-- The characters of the name are bytes. -/
def IsName (k : Str) : Prop := ∃ b, k = latin b

/-- The hash of a file is written in ASCII. -/
def Ascii (hex : Bytes → Str) : Prop := ∀ d, ∀ c ∈ hex d, c.toNat < 0x80

theorem text_ascii : ∀ {s : Str}, (∀ c ∈ s, c.toNat < 0x80) → text s = s := by
  intro s
  induction s with
  | nil => intro _; rfl
  | cons c s ih =>
    intro h
    show runes (c.toNat :: s.map Char.toNat) = _
    rw [runes_one (h c (by simp)), ofNat_eq rfl]
    exact congrArg _ (ih fun d hd => h d (by simp [hd]))

theorem proper_inj {k k' : Str} (h : Proper k) (h' : IsName k') (e : text k = text k') : k = k' := by
  obtain ⟨s, hs, rfl⟩ := h
  obtain ⟨b, rfl⟩ := h'
  rw [text_inj (by rw [C90_valid]; exact hs) e]

theorem lists_inj : ∀ {kv kv' : List (Str × Str)}, (∀ e ∈ kv, Proper e.1 ∧ text e.2 = e.2) → (∀ e ∈ kv', IsName e.1 ∧ text e.2 = e.2) →
    (kv.flatMap fun e => [e.1, e.2]).map text = (kv'.flatMap fun e => [e.1, e.2]).map text → kv = kv' := by
  intro kv
  induction kv with
  | nil => intro kv' _ _ h; cases kv' <;> simp_all
  | cons e kv ih =>
    intro kv' h1 h2 h
    cases kv' with
    | nil => simp at h
    | cons e' kv' =>
      obtain ⟨k, v⟩ := e
      obtain ⟨k', v'⟩ := e'
      simp only [List.flatMap_cons, List.cons_append, List.nil_append, List.map_cons, List.cons.injEq] at h
      have a := h1 (k, v) (by simp)
      have b := h2 (k', v') (by simp)
      have ek : k = k' := proper_inj a.1 b.1 h.1
      have ev : v = v' := a.2.symm.trans (h.2.1.trans b.2)
      rw [ek, ev, ih (fun e he => h1 e (by simp [he])) (fun e he => h2 e (by simp [he])) h.2.2]

theorem record_list {fs fs' : FS} (hw : fs.root.WF) (hw' : fs'.root.WF) (ha : Ascii hex) {ins ins' li li' : List Str}
    (hi : fileHashes hex fs ins = .ok li) (hi' : fileHashes hex fs' ins' = .ok li')
    (hp : ∀ k c, Shows fs ins k c → Proper k) (hp' : ∀ k c, Shows fs' ins' k c → IsName k) (h : li.map text = li'.map text) : li = li' := by
  obtain ⟨kv, e1, -, m1⟩ := C22_list hex hw hi
  obtain ⟨kv', e2, -, m2⟩ := C22_list hex hw' hi'
  have val : ∀ {fs : FS} {k v : Str}, Val hex fs k v → text v = v ∧ ∃ c, Content fs k c := by
    rintro fs k v (⟨h1, rfl⟩ | ⟨pos, d, h1, rfl⟩)
    · exact ⟨rfl, none, .inl ⟨h1, rfl⟩⟩
    · exact ⟨text_ascii (ha d), some d, .inr ⟨pos, d, h1, rfl⟩⟩
  subst e1 e2
  rw [lists_inj (kv := kv) (kv' := kv') ?_ ?_ h]
  · rintro ⟨k, v⟩ he
    obtain ⟨h1, h2⟩ := (m1 k v).1 he
    obtain ⟨h3, c, h4⟩ := val h2
    exact ⟨hp k c ⟨h1, h4⟩, h3⟩
  · rintro ⟨k, v⟩ he
    obtain ⟨h1, h2⟩ := (m2 k v).1 he
    obtain ⟨h3, c, h4⟩ := val h2
    exact ⟨hp' k c ⟨h1, h4⟩, h3⟩

/-- **C90, partial.** C23 for names that are bytes: if the record of a Files target in one file system is that of one in another, then the same input and output files exist in both,
with the same contents, if in one of them (say, before an edit) all the names are UTF-8 and have no U+FFFD.

What is missing: names that are not UTF-8, see `C90_finding_renamed`. -/
theorem C90_determines_partial (sum : Str → Str) {fs fs' : FS} (hw : fs.root.WF) (hw' : fs'.root.WF) (hhex : ∀ d, hex d ≠ []) (ha : Ascii hex)
    {ins outs li lo ins' outs' li' lo' : List Str} {t t' : Json.J} {y y' : Str}
    (hi : fileHashes hex fs ins = .ok li) (ho : fileHashes hex fs outs = .ok lo)
    (hi' : fileHashes hex fs' ins' = .ok li') (ho' : fileHashes hex fs' outs' = .ok lo')
    (hpi : ∀ k c, Shows fs ins k c → Proper k) (hpo : ∀ k c, Shows fs outs k c → Proper k)
    (hpi' : ∀ k c, Shows fs' ins' k c → IsName k) (hpo' : ∀ k c, Shows fs' outs' k c → IsName k)
    (hci : NoFileCollision hex fs ins fs' ins') (hco : NoFileCollision hex fs outs fs' outs')
    (hct : sum (recordText t y li lo) = sum (recordText t' y' li' lo') → recordText t y li lo = recordText t' y' li' lo')
    (heq : sum (recordText t y li lo) = sum (recordText t' y' li' lo')) :
    (∀ k c, Shows fs ins k c ↔ Shows fs' ins' k c) ∧ (∀ k c, Shows fs outs k c ↔ Shows fs' outs' k c) ∧ t = t' ∧ y = y' := by
  obtain ⟨h1, h2, h3, h4⟩ := hashText_inj (hct heq)
  have h3' := record_list hex hw hw' ha hi hi' hpi hpi' h3
  have h4' := record_list hex hw hw' ha ho ho' hpo hpo' h4
  subst h3' h4'
  exact ⟨C23_list_determines_files hex hw hw' hhex hci hi hi', C23_list_determines_files hex hw hw' hhex hco ho ho', h1, h2⟩

/-- The record of names that are UTF-8 is the one that C22–C30 speak of, for the texts that the names encode. -/
theorem C90_record (target : Json.J) (targetType : Str) (ins outs : List Str) :
    recordText target targetType (ins.map fun s => latin (utf8 s)) (outs.map fun s => latin (utf8 s)) = hashText target targetType ins outs := by
  have : ∀ l : List Str, (l.map fun s => latin (utf8 s)).map text = l := by
    intro l
    rw [List.map_map]
    exact (List.map_congr_left fun s _ => C90_valid s).trans (List.map_id _)
  rw [recordText, this, this]

/-- a directory `d` with one file, whose name is the given byte -/
def oneFile (b : UInt8) (data : Bytes) : FS where
  root := .dir "d".toList true (.file (latin [b]) true data .nil) .nil
  cwd := []

/-- **C90, finding.** A directory is an input; the one file in it is renamed, and neither name is UTF-8.  The record stays the same (whatever the hash functions), although the
inputs are not the same, so the Files target is not run again. -/
theorem C90_finding_renamed (data : Bytes) (t : Json.J) (y : Str) :
    ∃ li li', fileHashes hex (oneFile 0xFF data) ["d".toList] = .ok li ∧ fileHashes hex (oneFile 0xFE data) ["d".toList] = .ok li' ∧
      recordText t y li [] = recordText t y li' [] ∧ li ≠ li' ∧
      Shows (oneFile 0xFF data) ["d".toList] (join ["d".toList, latin [0xFF]]) (some data) ∧
      ¬ Shows (oneFile 0xFE data) ["d".toList] (join ["d".toList, latin [0xFF]]) (some data) := by
  refine ⟨[join ["d".toList, latin [0xFF]], hex data], [join ["d".toList, latin [0xFE]], hex data], rfl, rfl, ?_, ?_, ?_, ?_⟩
  · have : text (join ["d".toList, latin [0xFF]]) = text (join ["d".toList, latin [0xFE]]) := by decide +kernel
    simp only [recordText, List.map_cons, this]
  · intro h
    have := (List.cons.inj h).1
    revert this
    decide +kernel
  · have : Covers (oneFile 0xFF data) "d".toList (join ["d".toList, latin [0xFF]]) := by
      have hs : (oneFile 0xFF data).stat "d".toList = .found ["d".toList] (.dir true (.file (latin [0xFF]) true data .nil)) := rfl
      simp only [Covers, hs]
      exact ⟨[latin [0xFF]], true, data, rfl, rfl⟩
    exact ⟨⟨_, List.mem_singleton.2 rfl, this⟩, .inr ⟨_, _, rfl, rfl⟩⟩
  · rintro ⟨-, ⟨-, h⟩ | ⟨pos, d, h, -⟩⟩
    · cases h
    · have : (oneFile 0xFE data).stat (join ["d".toList, latin [0xFF]]) = .notExist := rfl
      rw [this] at h; cases h

end

/-! ## Cases that meet the hypotheses -/

section
open Files

/-- two bytes that are one character, a byte that is none, a surrogate, an encoding that is too long, and one that is cut off -/
example : text (latin [0xC3, 0xA9]) = ['é'] ∧ text (latin [0xFF, 0x61]) = [bad, 'a'] ∧ text (latin [0xED, 0xA0, 0x80]) = [bad, bad, bad] ∧
    text (latin [0xC0, 0xAF]) = [bad, bad] ∧ text (latin [0xF0, 0x9F, 0x98]) = [bad, bad, bad] ∧ text (latin [0xF0, 0x9F, 0x98, 0x80]) = ['😀'] := by decide +kernel

/-- U+FFFD must be excluded in `C90_determines_partial`: it is written like a byte that is not UTF-8 -/
example : text (latin [0xFF]) = text (latin (utf8 [bad])) ∧ latin [0xFF] ≠ latin (utf8 [bad]) := by decide +kernel

example : utf8 "z".toList < utf8 "é".toList ∧ utf8 "é".toList < utf8 "😀".toList := by
  rw [C90_order, C90_order]; decide +kernel

def hexOf (d : Bytes) : Str := 'h' :: d.flatMap fun b => [Json.hexDigit (b.toNat / 16), Json.hexDigit (b.toNat % 16)]

theorem hexDigit_ascii (n : Nat) : (Json.hexDigit n).toNat < 0x80 := by
  have h : ∀ i < 16, (Json.hexDigit i).toNat < 0x80 := by decide +kernel
  by_cases hn : n < 16
  · exact h n hn
  · have hl : "0123456789ABCDEF".toList.length = 16 := by decide
    have : Json.hexDigit n = '0' := by
      unfold Json.hexDigit
      rw [List.getD_eq_getElem?_getD, List.getElem?_eq_none (by omega)]
      rfl
    rw [this]; decide

theorem hexOf_ascii : Ascii hexOf := by
  intro d c hc
  simp only [hexOf, List.mem_cons, List.mem_flatMap, List.not_mem_nil, or_false] at hc
  rcases hc with rfl | ⟨b, -, rfl | rfl⟩
  · decide
  · exact hexDigit_ascii _
  · exact hexDigit_ascii _

/-- a directory `d` with one file, whose name is the encoding of the given text -/
def namedFS (n : Str) (data : Bytes) : FS where
  root := .dir "d".toList true (.file (latin (utf8 n)) true data .nil) .nil
  cwd := []

/-- the hypotheses of `C90_determines_partial` about the names, for a file `d/é` -/
example : ∀ k c, Shows (namedFS ['é'] [1]) ["d".toList] k c → Proper k := by
  intro k c hk
  have hw : (namedFS ['é'] [1]).root.WF := by
    simp only [namedFS, Forest.WF, Forest.names, Name, Elem]
    refine ⟨?_, ?_, ⟨?_, ?_, trivial⟩, trivial⟩ <;> decide +kernel
  have hl : fileHashes hexOf (namedFS ['é'] [1]) ["d".toList] = .ok [join ["d".toList, latin (utf8 ['é'])], hexOf [1]] := rfl
  obtain ⟨kv, e, -, m⟩ := C22_list hexOf hw hl
  have : kv = [(join ["d".toList, latin (utf8 ['é'])], hexOf [1])] := flat_inj (kv' := [_]) e.symm
  obtain ⟨h1, h2⟩ := hk
  have : ∃ v, (k, v) ∈ kv := by
    rcases h2 with ⟨h2, -⟩ | ⟨pos, d, h2, -⟩
    · exact ⟨_, (m k []).2 ⟨h1, .inl ⟨h2, rfl⟩⟩⟩
    · exact ⟨_, (m k (hexOf d)).2 ⟨h1, .inr ⟨pos, d, h2, rfl⟩⟩⟩
  obtain ⟨v, hv⟩ := this
  subst kv
  simp only [List.mem_singleton, Prod.mk.injEq] at hv
  refine ⟨"d/é".toList, by decide +kernel, ?_⟩
  rw [hv.1]
  decide +kernel

/-- renaming it is noticed -/
example : ∃ li li', fileHashes hexOf (namedFS ['é'] [1]) ["d".toList] = .ok li ∧ fileHashes hexOf (namedFS ['è'] [1]) ["d".toList] = .ok li' ∧
    recordText .null [] li [] ≠ recordText .null [] li' [] :=
  ⟨[join ["d".toList, latin (utf8 ['é'])], hexOf [1]], [join ["d".toList, latin (utf8 ['è'])], hexOf [1]], rfl, rfl, by decide +kernel⟩

end

end Fab.Utf8
