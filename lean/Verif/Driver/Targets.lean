import Verif.Registry

/-!
# Which targets the generated driver registers (/repo/compile.go:114-149, 186-207, /repo/driver.go.tmpl:53-59): C62

The user's package, as the type checker and the parser see it, is a parameter; so are the rendering of doc comments (package go/doc/comment)
and the classification of characters (package unicode).  The Go compiler is modelled as far as the generated registrations are
concerned: each must have a string literal as its second argument and a value as its third.
-/

namespace Fab.Driver
open Fab Registry

/-! ## The model -/

/-- An object of the package's scope (go/types.Scope): is it a variable or a constant (something with a value, as opposed to a type),
and does `checkImplementsTarget` (types.go:43-66, see Verif.Types) accept its type? -/
structure Obj where
  name : Str
  isValue : Bool
  implements : Bool
deriving DecidableEq

/-- One line of a variable declaration: the names it declares, and the comment before it. -/
structure Spec where
  names : List Str
  doc : Str

/-- A variable declaration (`var x = ...` or `var ( ... )`): the comment before the declaration, its lines, and whether package go/doc
lists it with a type of the package rather than with the variables of the package (which it does if the declaration names an exported
type of the package as the type of the variables). -/
structure VarDecl where
  doc : Str
  specs : List Spec
  underType : Bool

/-- The user's package. -/
structure Pkg where
  scope : List Obj
  vars : List VarDecl

/-- Package unicode, and the rendering of a doc comment (compile.go:144). -/
structure Env where
  isUpper : Char → Bool
  isPrint : Char → Bool
  render : Str → Str

/-- `ast.IsExported` -/
def Env.exported (E : Env) (name : Str) : Bool := (name.head?.map E.isUpper).getD false

/-- lower-case hexadecimal digit -/
def hexLower (n : Nat) : Char := "0123456789abcdef".toList.getD n '0'

/-- `strconv.Quote`, one character -/
def quoteChar (E : Env) (c : Char) : Str :=
  if c = '"' ∨ c = '\\' then ['\\', c]
  else if E.isPrint c then [c]
  else if c = '\x07' then ['\\', 'a']
  else if c = '\x08' then ['\\', 'b']
  else if c = '\x0c' then ['\\', 'f']
  else if c = '\n' then ['\\', 'n']
  else if c = '\r' then ['\\', 'r']
  else if c = '\t' then ['\\', 't']
  else if c = '\x0b' then ['\\', 'v']
  else
    let n := c.toNat
    if n < 32 ∨ n = 127 then ['\\', 'x', hexLower (n / 16), hexLower (n % 16)]
    else if n < 65536 then ['\\', 'u', hexLower (n / 4096), hexLower (n / 256 % 16), hexLower (n / 16 % 16), hexLower (n % 16)]
    else ['\\', 'U', hexLower (n / 268435456), hexLower (n / 16777216 % 16), hexLower (n / 1048576 % 16), hexLower (n / 65536 % 16),
      hexLower (n / 4096 % 16), hexLower (n / 256 % 16), hexLower (n / 16 % 16), hexLower (n % 16)]

/-- `strconv.Quote` -/
def quote (E : Env) (s : Str) : Str := '"' :: s.flatMap (quoteChar E) ++ ['"']

/-- `strings.TrimRight(dstr, "\r\n")` -/
def trimRight (s : Str) : Str := (s.reverse.dropWhile fun c => c = '\r' ∨ c = '\n').reverse

/-- The names selected: compile.go:122-134 -/
def selected (E : Env) (P : Pkg) : List Str :=
  (P.scope.filter fun o => E.exported o.name && o.implements).map Obj.name

/-- `dpkg.Vars`: for each declaration not listed with a type, its exported names and its comment (compile.go:137, 141-142). -/
def docVars (E : Env) (P : Pkg) : List (List Str × Str) :=
  (P.vars.filter fun d => !d.underType).map fun d => ((d.specs.flatMap Spec.names).filter E.exported, d.doc)

/-- The loop that fills in the docs: compile.go:141-149.  `targets` maps the names to the Go text of their docs, at first empty. -/
def fillDocs (E : Env) (targets : GoMap Str Str) (vars : List (List Str × Str)) : GoMap Str Str :=
  vars.foldl (fun m v => v.1.foldl (fun m name =>
    if (m.get name).isSome then m.put name (quote E (trimRight (E.render v.2))) else m) m) targets

/-- `targets` as it goes into the template: compile.go:117-149 -/
def pairs (E : Env) (P : Pkg) : GoMap Str Str :=
  fillDocs E ((selected E P).foldl (fun m name => m.put name []) []) (docVars E P)

/-- The value of a hexadecimal digit. -/
def hexVal (c : Char) : Option Nat :=
  if '0' ≤ c ∧ c ≤ '9' then some (c.toNat - 48)
  else if 'a' ≤ c ∧ c ≤ 'f' then some (c.toNat - 87)
  else if 'A' ≤ c ∧ c ≤ 'F' then some (c.toNat - 55)
  else none

/-- The value of a string of hexadecimal digits. -/
def hexNum (cs : List Char) : Option Nat := cs.foldl (fun n c => n.bind fun n => (hexVal c).map (n * 16 + ·)) (some 0)

/-- The character with a number, if there is one. -/
def charOf (n : Nat) : Option Char := if h : n.isValidChar then some (Char.ofNatAux n h) else none

/-- The Go language: an interpreted string literal after its opening quote.  (Octal escapes, and \x escapes beyond ASCII, which denote
bytes, are left out: `strconv.Quote` of a valid string does not produce them.) -/
def literalBody : List Char → Option Str
  | [] => none
  | '"' :: rest => if rest = [] then some [] else none
  | '\\' :: 'a' :: rest => (literalBody rest).map ('\x07' :: ·)
  | '\\' :: 'b' :: rest => (literalBody rest).map ('\x08' :: ·)
  | '\\' :: 'f' :: rest => (literalBody rest).map ('\x0c' :: ·)
  | '\\' :: 'n' :: rest => (literalBody rest).map ('\n' :: ·)
  | '\\' :: 'r' :: rest => (literalBody rest).map ('\r' :: ·)
  | '\\' :: 't' :: rest => (literalBody rest).map ('\t' :: ·)
  | '\\' :: 'v' :: rest => (literalBody rest).map ('\x0b' :: ·)
  | '\\' :: '\\' :: rest => (literalBody rest).map ('\\' :: ·)
  | '\\' :: '"' :: rest => (literalBody rest).map ('"' :: ·)
  | '\\' :: 'x' :: a :: b :: rest =>
    (hexNum [a, b]).bind fun n => if n < 128 then (charOf n).bind fun c => (literalBody rest).map (c :: ·) else none
  | '\\' :: 'u' :: a :: b :: c :: d :: rest => (hexNum [a, b, c, d]).bind fun n => (charOf n).bind fun c => (literalBody rest).map (c :: ·)
  | '\\' :: 'U' :: a :: b :: c :: d :: e :: f :: g :: h :: rest =>
    (hexNum [a, b, c, d, e, f, g, h]).bind fun n => (charOf n).bind fun c => (literalBody rest).map (c :: ·)
  | '\\' :: _ => none
  | c :: rest => if c = '\n' then none else (literalBody rest).map (c :: ·)

/-- The string that a Go string literal denotes; `none` if the text is not a string literal. -/
def literal : Str → Option Str
  | '"' :: rest => literalBody rest
  | _ => none

/-- The Go compiler on the registrations of the rendered template (driver.go.tmpl:54; compile.go:205, 246-251): the names and docs
registered, or `none` if it reports an error.  `order` is the order in which `maps.Values` (compile.go:191) returns the targets. -/
def compileDriver (P : Pkg) (order : List (Str × Str)) : Option (List (Str × Str)) :=
  order.mapM fun p =>
    match literal p.2, P.scope.find? fun o => o.name = p.1 with
    | some doc, some o => if o.isValue then some (p.1, doc) else none
    | _, _ => none

/-- The registrations when the driver runs (driver.go.tmpl:53-59), where `value` gives the variables' values; `none` if the driver exits
with an error. -/
def registerAll (addr : Nat → Nat) (value : Str → Tgt) : List (Str × Str) → Reg → Option Reg
  | [], reg => some reg
  | (name, doc) :: rest, reg =>
    let r := reg.register addr name doc (value name)
    if r.2 then registerAll addr value rest r.1 else none

/-! ## The specification -/

/-- The variable `name` is declared in a declaration with the comment `doc` (which may declare other variables, too) that package go/doc lists
with the variables of the package; and it is declared nowhere else with another comment. -/
def DeclaredWith (P : Pkg) (name doc : Str) : Prop :=
  ∃ d ∈ P.vars, d.underType = false ∧ name ∈ d.specs.flatMap Spec.names ∧ d.doc = doc ∧
    ∀ d' ∈ P.vars, name ∈ d'.specs.flatMap Spec.names → d'.doc = doc

/-- `name` is an exported variable of the package whose type implements Target. -/
def IsTarget (E : Env) (P : Pkg) (name : Str) : Prop :=
  E.exported name = true ∧ ∃ o ∈ P.scope, o.name = name ∧ o.implements = true ∧ o.isValue = true

/-! ## Quoting -/

theorem hexVal_lower {k : Nat} (h : k < 16) : hexVal (hexLower k) = some k := by
  have : ∀ k : Fin 16, hexVal (hexLower k.1) = some k.1 := by decide +kernel
  exact this ⟨k, h⟩

theorem charOf_toNat (c : Char) : charOf c.toNat = some c := by
  unfold charOf
  have hv : c.toNat.isValidChar := c.valid
  rw [dif_pos hv]
  congr 1

theorem literalBody_plain {c : Char} (h1 : c ≠ '"') (h2 : c ≠ '\\') (h3 : c ≠ '\n') (rest : Str) :
    literalBody (c :: rest) = (literalBody rest).map (c :: ·) := by
  rw [literalBody]
  · rw [if_neg h3]
  all_goals simp_all

theorem toNat_lt (c : Char) : c.toNat < 1114112 := by
  have := c.valid
  simp only [UInt32.isValidChar, Nat.isValidChar] at this
  unfold Char.toNat
  omega

theorem literalBody_quoteChar (E : Env) (hE : E.isPrint '\n' = false) (c : Char) (rest : Str) :
    literalBody (quoteChar E c ++ rest) = (literalBody rest).map (c :: ·) := by
  have hn := toNat_lt c
  have hc := charOf_toNat c
  unfold quoteChar
  by_cases h : c = '"' ∨ c = '\\'
  · rw [if_pos h]
    rcases h with rfl | rfl <;> rfl
  rw [if_neg h]
  rw [not_or] at h
  by_cases hp : E.isPrint c = true
  · rw [if_pos hp]
    refine literalBody_plain h.1 h.2 ?_ rest
    rintro rfl
    simp [hE] at hp
  rw [if_neg hp]
  by_cases h : c = '\x07'
  · rw [if_pos h]; subst h; rfl
  rw [if_neg h]; clear h
  by_cases h : c = '\x08'
  · rw [if_pos h]; subst h; rfl
  rw [if_neg h]; clear h
  by_cases h : c = '\x0c'
  · rw [if_pos h]; subst h; rfl
  rw [if_neg h]; clear h
  by_cases h : c = '\n'
  · rw [if_pos h]; subst h; rfl
  rw [if_neg h]; clear h
  by_cases h : c = '\r'
  · rw [if_pos h]; subst h; rfl
  rw [if_neg h]; clear h
  by_cases h : c = '\t'
  · rw [if_pos h]; subst h; rfl
  rw [if_neg h]; clear h
  by_cases h : c = '\x0b'
  · rw [if_pos h]; subst h; rfl
  rw [if_neg h]; clear h
  dsimp only
  generalize hN : c.toNat = n at *
  by_cases h : n < 32 ∨ n = 127
  · rw [if_pos h]
    simp only [List.cons_append, List.nil_append, literalBody, hexNum, List.foldl_cons, List.foldl_nil, Option.bind_some]
    rw [hexVal_lower (by omega), hexVal_lower (by omega)]
    simp only [Option.map_some, Option.bind_some]
    have : (0 * 16 + n / 16) * 16 + n % 16 = n := by omega
    rw [this, if_pos (by omega), hc]
    rfl
  rw [if_neg h]
  by_cases h : n < 65536
  · rw [if_pos h]
    simp only [List.cons_append, List.nil_append, literalBody, hexNum, List.foldl_cons, List.foldl_nil, Option.bind_some]
    rw [hexVal_lower (by omega), hexVal_lower (by omega), hexVal_lower (by omega), hexVal_lower (by omega)]
    simp only [Option.map_some, Option.bind_some]
    have : (((0 * 16 + n / 4096) * 16 + n / 256 % 16) * 16 + n / 16 % 16) * 16 + n % 16 = n := by omega
    rw [this, hc]
    rfl
  · rw [if_neg h]
    simp only [List.cons_append, List.nil_append, literalBody, hexNum, List.foldl_cons, List.foldl_nil, Option.bind_some]
    rw [hexVal_lower (by omega), hexVal_lower (by omega), hexVal_lower (by omega), hexVal_lower (by omega), hexVal_lower (by omega),
      hexVal_lower (by omega), hexVal_lower (by omega), hexVal_lower (by omega)]
    simp only [Option.map_some, Option.bind_some]
    have : (((((((0 * 16 + n / 268435456) * 16 + n / 16777216 % 16) * 16 + n / 1048576 % 16) * 16 + n / 65536 % 16) * 16 + n / 4096 % 16) * 16 +
      n / 256 % 16) * 16 + n / 16 % 16) * 16 + n % 16 = n := by omega
    rw [this, hc]
    rfl

/-- **C62, docs.** Whatever characters a doc contains, the Go literal that the driver is generated with denotes it. -/
theorem C62_literal_quote (E : Env) (hE : E.isPrint '\n' = false) (s : Str) : literal (quote E s) = some s := by
  have key : ∀ s : Str, literalBody (s.flatMap (quoteChar E) ++ ['"']) = some s := by
    intro s
    induction s with
    | nil => rfl
    | cons c s ih => rw [List.flatMap_cons, List.append_assoc, literalBody_quoteChar E hE, ih]; rfl
  exact key s

/-! ## The map of targets -/

theorem get_fold_put (names : List Str) (m : GoMap Str Str) (n : Str) :
    (names.foldl (fun m name => m.put name []) m).get n = if n ∈ names then some [] else m.get n := by
  induction names generalizing m with
  | nil => simp
  | cons a names ih =>
    rw [List.foldl_cons, ih, GoMap.get_put]
    by_cases h1 : n ∈ names
    · simp [h1]
    · by_cases h2 : a = n
      · simp [h2]
      · simp [h1, h2, Ne.symm h2]

theorem nodup_fold_put (names : List Str) (m : GoMap Str Str) (h : m.keys.Nodup) :
    (names.foldl (fun m name => m.put name []) m).keys.Nodup := by
  induction names generalizing m with
  | nil => exact h
  | cons a names ih => exact ih _ (GoMap.keys_put_nodup h _ _)

/-- The inner loop, compile.go:142-148 -/
theorem get_inner (q : Str) (names : List Str) (m : GoMap Str Str) (n : Str) :
    (names.foldl (fun m name => if (m.get name).isSome then m.put name q else m) m).get n =
      if n ∈ names ∧ (m.get n).isSome then some q else m.get n := by
  induction names generalizing m with
  | nil => simp
  | cons a names ih =>
    rw [List.foldl_cons, ih]
    by_cases ha : (m.get a).isSome = true
    · rw [if_pos ha, GoMap.get_put]
      by_cases h2 : a = n
      · subst h2; simp [ha]
      · simp [h2, Ne.symm h2]
    · rw [if_neg ha]
      by_cases h2 : n = a
      · subst h2; simp [ha]
      · simp [h2]

theorem nodup_inner (q : Str) (names : List Str) (m : GoMap Str Str) (h : m.keys.Nodup) :
    (names.foldl (fun m name => if (m.get name).isSome then m.put name q else m) m).keys.Nodup := by
  induction names generalizing m with
  | nil => exact h
  | cons a names ih =>
    rw [List.foldl_cons]
    split
    · exact ih _ (GoMap.keys_put_nodup h _ _)
    · exact ih _ h

theorem fillDocs_cons (E : Env) (m : GoMap Str Str) (v : List Str × Str) (vars : List (List Str × Str)) :
    fillDocs E m (v :: vars) = fillDocs E (v.1.foldl (fun m name =>
      if (m.get name).isSome then m.put name (quote E (trimRight (E.render v.2))) else m) m) vars := rfl

theorem nodup_fillDocs (E : Env) (vars : List (List Str × Str)) (m : GoMap Str Str) (h : m.keys.Nodup) : (fillDocs E m vars).keys.Nodup := by
  induction vars generalizing m with
  | nil => exact h
  | cons v vars ih => rw [fillDocs_cons]; exact ih _ (nodup_inner _ _ _ h)

theorem fillDocs_none (E : Env) (vars : List (List Str × Str)) (m : GoMap Str Str) (n : Str) (h : (∀ v ∈ vars, n ∉ v.1) ∨ m.get n = none) :
    (fillDocs E m vars).get n = m.get n := by
  induction vars generalizing m with
  | nil => rfl
  | cons v vars ih =>
    rw [fillDocs_cons]
    have hi : (v.1.foldl (fun m name => if (m.get name).isSome then m.put name (quote E (trimRight (E.render v.2))) else m) m).get n = m.get n := by
      rw [get_inner]
      rcases h with h | h
      · simp [h v List.mem_cons_self]
      · simp [h]
    rw [ih, hi]
    rcases h with h | h
    · exact .inl fun v' hv' => h v' (List.mem_cons_of_mem _ hv')
    · exact .inr (hi.trans h)

theorem fillDocs_some (E : Env) (vars : List (List Str × Str)) (m : GoMap Str Str) (n : Str) (hm : (m.get n).isSome = true)
    (he : ∃ v ∈ vars, n ∈ v.1) : ∃ v ∈ vars, n ∈ v.1 ∧ (fillDocs E m vars).get n = some (quote E (trimRight (E.render v.2))) := by
  induction vars generalizing m with
  | nil => simp at he
  | cons v vars ih =>
    rw [fillDocs_cons]
    have hi := get_inner (quote E (trimRight (E.render v.2))) v.1 m n
    by_cases hr : ∃ v ∈ vars, n ∈ v.1
    · obtain ⟨w, hw, h1, h2⟩ := ih (v.1.foldl (fun m name =>
        if (m.get name).isSome then m.put name (quote E (trimRight (E.render v.2))) else m) m) (by rw [hi]; split <;> simp [hm]) hr
      exact ⟨w, List.mem_cons_of_mem _ hw, h1, h2⟩
    · obtain ⟨w, hw, h1⟩ := he
      rcases List.mem_cons.1 hw with rfl | hw
      · refine ⟨w, List.mem_cons_self, h1, ?_⟩
        rw [fillDocs_none _ _ _ _ (.inl fun v' hv' hn => hr ⟨v', hv', hn⟩), hi, if_pos ⟨h1, hm⟩]
      · exact absurd ⟨w, hw, h1⟩ hr

theorem mem_selected {E : Env} {P : Pkg} {n : Str} : n ∈ selected E P ↔ E.exported n = true ∧ ∃ o ∈ P.scope, o.name = n ∧ o.implements = true := by
  unfold selected
  simp only [List.mem_map, List.mem_filter, Bool.and_eq_true]
  constructor
  · rintro ⟨o, ⟨h1, h2, h3⟩, rfl⟩; exact ⟨h2, o, h1, rfl, h3⟩
  · rintro ⟨h2, o, h1, rfl, h3⟩; exact ⟨o, ⟨h1, h2, h3⟩, rfl⟩

/-- A declaration that package go/doc lists with the variables of the package declares the name. -/
def Listed (P : Pkg) (d : VarDecl) (name : Str) : Prop := d ∈ P.vars ∧ d.underType = false ∧ name ∈ d.specs.flatMap Spec.names

theorem mem_docVars {E : Env} {P : Pkg} {n : Str} {v : List Str × Str} (_ : E.exported n = true) :
    v ∈ docVars E P ∧ n ∈ v.1 → ∃ d, Listed P d n ∧ d.doc = v.2 := by
  rintro ⟨h, hn⟩
  unfold docVars at h
  obtain ⟨d, hd, rfl⟩ := List.mem_map.1 h
  rw [List.mem_filter] at hd hn
  exact ⟨d, ⟨hd.1, by simpa using hd.2, hn.1⟩, rfl⟩

theorem docVars_mem {E : Env} {P : Pkg} {n : Str} {d : VarDecl} (hx : E.exported n = true) (hl : Listed P d n) :
    ∃ v ∈ docVars E P, n ∈ v.1 := by
  obtain ⟨h1, h2, h3⟩ := hl
  exact ⟨_, List.mem_map.2 ⟨d, List.mem_filter.2 ⟨h1, by simp [h2]⟩, rfl⟩, List.mem_filter.2 ⟨h3, hx⟩⟩

/-- The entries of the map: the names selected, each with the quoted comment of a declaration of it, or with no text at all if there is
none. -/
theorem pairs_get (E : Env) (P : Pkg) (n : Str) :
    (n ∉ selected E P → (pairs E P).get n = none) ∧
    (n ∈ selected E P → (∃ d, Listed P d n) → ∃ d, Listed P d n ∧ (pairs E P).get n = some (quote E (trimRight (E.render d.doc)))) ∧
    (n ∈ selected E P → (¬ ∃ d, Listed P d n) → (pairs E P).get n = some []) := by
  have h0 := get_fold_put (selected E P) [] n
  refine ⟨fun h => ?_, fun h ⟨d, hd⟩ => ?_, fun h hnd => ?_⟩
  · rw [if_neg h] at h0
    unfold pairs
    rw [fillDocs_none _ _ _ _ (.inr (h0.trans rfl)), h0]; rfl
  · rw [if_pos h] at h0
    have hx := (mem_selected.1 h).1
    obtain ⟨v, hv, h1, h2⟩ := fillDocs_some E (docVars E P) _ n (by rw [h0]; rfl) (docVars_mem hx hd)
    obtain ⟨d', hd', he⟩ := mem_docVars hx ⟨hv, h1⟩
    exact ⟨d', hd', by unfold pairs; rw [h2, he]⟩
  · rw [if_pos h] at h0
    have hx := (mem_selected.1 h).1
    unfold pairs
    rw [fillDocs_none _ _ _ _ (.inl fun v hv hn => hnd ?_), h0]
    obtain ⟨d', hd', -⟩ := mem_docVars hx ⟨hv, hn⟩
    exact ⟨d', hd'⟩

theorem pairs_nodup (E : Env) (P : Pkg) : (pairs E P).keys.Nodup :=
  nodup_fillDocs _ _ _ (nodup_fold_put _ _ (by simp [GoMap.keys]))

theorem get_eq_some_iff {m : GoMap Str Str} (h : m.keys.Nodup) {n q : Str} : m.get n = some q ↔ (n, q) ∈ m := by
  unfold GoMap.get GoMap.keys at *
  induction m with
  | nil => simp
  | cons e m ih =>
    rw [List.map_cons, List.nodup_cons] at h
    by_cases he : e.1 = n
    · rw [List.find?_cons_of_pos (by simpa using he)]
      obtain ⟨a, b⟩ := e
      simp only at he
      subst he
      simp only [Option.map_some, Option.some.injEq, List.mem_cons, Prod.mk.injEq, true_and]
      constructor
      · intro h; exact .inl h.symm
      · rintro (h' | h')
        · exact h'.symm
        · exact absurd (List.mem_map_of_mem (f := Prod.fst) h') h.1
    · rw [List.find?_cons_of_neg (by simpa using he), ih h.2, List.mem_cons]
      constructor
      · exact .inr
      · rintro (rfl | h')
        · exact absurd rfl he
        · exact h'

theorem find_obj {P : Pkg} (hn : (P.scope.map Obj.name).Nodup) {o : Obj} (ho : o ∈ P.scope) :
    P.scope.find? (fun o' => o'.name = o.name) = some o := by
  generalize P.scope = l at *
  induction l with
  | nil => simp at ho
  | cons a l ih =>
    rw [List.map_cons, List.nodup_cons] at hn
    rcases List.mem_cons.1 ho with rfl | ho
    · simp
    · have : a.name ≠ o.name := fun h => hn.1 (h ▸ List.mem_map_of_mem (f := Obj.name) ho)
      rw [List.find?_cons_of_neg (by simpa using this)]
      exact ih hn.2 ho

theorem mapM_eq_some {α β : Type} (f : α → Option β) : ∀ (l : List α), (∃ r, l.mapM f = some r) ↔ ∀ a ∈ l, ∃ b, f a = some b
  | [] => by simp
  | a :: l => by
    rw [List.mapM_cons]
    have ih := mapM_eq_some f l
    constructor
    · rintro ⟨r, hr⟩
      simp only [Option.bind_eq_bind, Option.bind_eq_some_iff] at hr
      obtain ⟨b, hb, bs, hbs, -⟩ := hr
      intro x hx
      rcases List.mem_cons.1 hx with rfl | hx
      · exact ⟨b, hb⟩
      · exact ih.1 ⟨bs, hbs⟩ x hx
    · intro h
      obtain ⟨b, hb⟩ := h a List.mem_cons_self
      obtain ⟨bs, hbs⟩ := ih.2 fun x hx => h x (List.mem_cons_of_mem _ hx)
      exact ⟨b :: bs, by simp [hb, hbs]⟩

theorem mapM_mem {α β : Type} (f : α → Option β) : ∀ (l : List α) (r : List β), l.mapM f = some r → ∀ b, b ∈ r ↔ ∃ a ∈ l, f a = some b
  | [], r, h => by simp at h; subst h; simp
  | a :: l, r, h => by
    rw [List.mapM_cons] at h
    simp only [Option.bind_eq_bind, Option.bind_eq_some_iff] at h
    obtain ⟨b, hb, bs, hbs, hr⟩ := h
    have hr : b :: bs = r := Option.some.inj hr
    subst hr
    intro x
    simp only [List.mem_cons, exists_eq_or_imp, mapM_mem f l bs hbs x, hb, Option.some.injEq]
    constructor <;> (rintro (h | h)) <;> simp_all

theorem compile_names {P : Pkg} : ∀ {order regs : List (Str × Str)}, compileDriver P order = some regs → regs.map Prod.fst = order.map Prod.fst
  | [], regs, h => by simp [compileDriver] at h; subst h; rfl
  | p :: order, regs, h => by
    unfold compileDriver at h
    rw [List.mapM_cons] at h
    simp only [Option.bind_eq_bind, Option.bind_eq_some_iff] at h
    obtain ⟨b, hb, bs, hbs, hr⟩ := h
    have hr : b :: bs = regs := Option.some.inj hr
    subst hr
    rw [List.map_cons, List.map_cons, compile_names (order := order) hbs]
    congr 1
    split at hb
    · split at hb
      · injection hb with hb; rw [← hb]
      · cases hb
    · cases hb

/-! ## Registering -/

theorem registerAll_some (addr : Nat → Nat) (value : Str → Tgt) : ∀ (l : List (Str × Str)) (reg : Reg), (l.map Prod.fst).Nodup →
    (∀ p ∈ l, ∃ o, value p.1 = .ptr o) → ∃ reg', registerAll addr value l reg = some reg' ∧
      (∀ n doc, (n, doc) ∈ l → ∃ o, value n = .ptr o ∧ reg'.target n = (some o, doc)) ∧
      ∀ n, n ∉ l.map Prod.fst → reg'.target n = reg.target n
  | [], reg, _, _ => ⟨reg, rfl, by simp, by simp⟩
  | (name, doc) :: l, reg, hn, hp => by
    obtain ⟨o, ho⟩ := hp _ List.mem_cons_self
    rw [List.map_cons, List.nodup_cons] at hn
    simp only at ho hn
    obtain ⟨reg', h1, h2, h3⟩ := registerAll_some addr value l (reg.register addr name doc (value name)).1 hn.2
      fun p h => hp p (List.mem_cons_of_mem _ h)
    have hreg : (reg.register addr name doc (value name)).2 = true := by rw [ho]; rfl
    have ht : ∀ n, (reg.register addr name doc (value name)).1.target n = if name = n then (some o, doc) else reg.target n := by
      intro n
      rw [ho]
      simp only [Reg.register, targetAddr, Reg.target, GoMap.get_put]
      by_cases h : name = n <;> simp [h]
    refine ⟨reg', ?_, ?_, ?_⟩
    · rw [registerAll]; simp only [hreg, if_true]; exact h1
    · intro n d hm
      rcases List.mem_cons.1 hm with he | hm
      · obtain ⟨rfl, rfl⟩ := Prod.mk.inj he
        exact ⟨o, ho, by rw [h3 _ hn.1, ht, if_pos rfl]⟩
      · exact h2 n d hm
    · intro n hnm
      rw [List.map_cons, List.mem_cons, not_or] at hnm
      rw [h3 n hnm.2, ht, if_neg (Ne.symm hnm.1)]

/-! ## C62 -/

/-- **C62, the end of a doc.** What is registered is the rendered comment without the line ends at its end, and nothing else is removed. -/
theorem C62_trim (s : Str) : ∃ post, s = trimRight s ++ post ∧ (∀ c ∈ post, c = '\r' ∨ c = '\n') ∧
    ∀ c, (trimRight s).getLast? = some c → c ≠ '\r' ∧ c ≠ '\n' := by
  refine ⟨(s.reverse.takeWhile fun c => c = '\r' ∨ c = '\n').reverse, ?_, ?_, ?_⟩
  · unfold trimRight
    rw [← List.reverse_append, List.takeWhile_append_dropWhile, List.reverse_reverse]
  · intro c hc
    have := List.all_eq_true.1 (List.all_takeWhile (p := fun c : Char => decide (c = '\r' ∨ c = '\n'))) c (List.mem_reverse.1 hc)
    simpa using this
  · intro c hc
    have := List.head?_dropWhile_not (fun c : Char => decide (c = '\r' ∨ c = '\n')) s.reverse
    unfold trimRight at hc
    rw [List.getLast?_reverse] at hc
    rw [hc] at this
    simpa using this

/-- When does the driver compile?  Exactly if every exported object whose type implements Target is a variable that package go/doc lists
with the variables of the package. -/
theorem C62_compiles_iff (E : Env) (hE : E.isPrint '\n' = false) (P : Pkg) (hn : (P.scope.map Obj.name).Nodup) (order : List (Str × Str))
    (ho : order.Perm (pairs E P)) :
    (∃ regs, compileDriver P order = some regs) ↔
      ∀ o ∈ P.scope, E.exported o.name = true → o.implements = true → o.isValue = true ∧ ∃ d, Listed P d o.name := by
  unfold compileDriver
  rw [mapM_eq_some]
  have hmem : ∀ n q, (n, q) ∈ order ↔ (pairs E P).get n = some q := fun n q => by rw [ho.mem_iff, get_eq_some_iff (pairs_nodup E P)]
  constructor
  · intro h o hos hx hi
    have hsel : o.name ∈ selected E P := mem_selected.2 ⟨hx, o, hos, rfl, hi⟩
    obtain ⟨-, h1, h2⟩ := pairs_get E P o.name
    by_cases hd : ∃ d, Listed P d o.name
    · refine ⟨?_, hd⟩
      obtain ⟨d, -, hg⟩ := h1 hsel hd
      obtain ⟨b, hb⟩ := h _ ((hmem _ _).2 hg)
      simp only [C62_literal_quote E hE, find_obj hn hos] at hb
      split at hb
      · assumption
      · cases hb
    · obtain ⟨b, hb⟩ := h _ ((hmem _ _).2 (h2 hsel hd))
      simp [literal] at hb
  · rintro h ⟨n, q⟩ hm
    have hg := (hmem n q).1 hm
    obtain ⟨h0, h1, -⟩ := pairs_get E P n
    have hsel : n ∈ selected E P := by
      by_contra hc
      rw [h0 hc] at hg
      cases hg
    obtain ⟨hx, o, hos, rfl, hi⟩ := mem_selected.1 hsel
    obtain ⟨hv, hd⟩ := h o hos hx hi
    obtain ⟨d, -, hg'⟩ := h1 hsel hd
    rw [hg] at hg'
    injection hg' with hg'
    subst hg'
    exact ⟨(o.name, trimRight (E.render d.doc)), by simp only [C62_literal_quote E hE, find_obj hn hos, hv, if_true]⟩

/-- **C62, partial.** If every exported object whose type implements Target is a variable whose value is a pointer, and which has a
declaration that package go/doc lists with the variables, then the driver compiles and starts, in whatever order the targets
come; and then exactly these variables are registered, each under its name, with its value, and with the comment of its declaration as
the doc.

What is missing: packages with exported types that implement Target, variables that are not pointers, and variables in a group of
declarations; see below. -/
theorem C62_registers_partial (E : Env) (hE : E.isPrint '\n' = false) (P : Pkg) (hn : (P.scope.map Obj.name).Nodup) (value : Str → Tgt)
    (hall : ∀ o ∈ P.scope, E.exported o.name = true → o.implements = true →
      o.isValue = true ∧ (∃ doc, DeclaredWith P o.name doc) ∧ ∃ a, value o.name = .ptr a)
    (order : List (Str × Str)) (ho : order.Perm (pairs E P)) (addr : Nat → Nat) :
    ∃ regs reg, compileDriver P order = some regs ∧ registerAll addr value regs Reg.empty = some reg ∧
      (∀ name doc, IsTarget E P name → DeclaredWith P name doc → ∃ a, value name = .ptr a ∧ reg.target name = (some a, trimRight (E.render doc))) ∧
      ∀ name, ¬ IsTarget E P name → reg.target name = (none, []) := by
  obtain ⟨regs, hr⟩ := (C62_compiles_iff E hE P hn order ho).2 fun o h1 h2 h3 => by
    obtain ⟨h4, ⟨doc, d, h5, h6, h7, -⟩, -⟩ := hall o h1 h2 h3
    exact ⟨h4, d, h5, h6, h7⟩
  have hnames := compile_names hr
  have hmemo : ∀ n q, (n, q) ∈ order ↔ (pairs E P).get n = some q := fun n q => by rw [ho.mem_iff, get_eq_some_iff (pairs_nodup E P)]
  have hsel : ∀ n, n ∈ regs.map Prod.fst ↔ n ∈ selected E P := by
    intro n
    rw [hnames]
    obtain ⟨h0, h1, h2⟩ := pairs_get E P n
    constructor
    · intro h
      obtain ⟨⟨a, q⟩, hm, rfl⟩ := List.mem_map.1 h
      by_contra hc
      rw [(hmemo _ _).1 hm] at h0
      exact absurd (h0 hc) (by simp)
    · intro h
      by_cases hd : ∃ d, Listed P d n
      · obtain ⟨d, -, hg⟩ := h1 h hd
        exact List.mem_map_of_mem (f := Prod.fst) ((hmemo _ _).2 hg)
      · exact List.mem_map_of_mem (f := Prod.fst) ((hmemo _ _).2 (h2 h hd))
  have hnd : (regs.map Prod.fst).Nodup := by
    rw [hnames]
    exact (ho.map Prod.fst).nodup_iff.2 (pairs_nodup E P)
  obtain ⟨reg, h1, h2, h3⟩ := registerAll_some addr value regs Reg.empty hnd fun p hp => by
    obtain ⟨hx, o, hos, he, hi⟩ := mem_selected.1 ((hsel p.1).1 (List.mem_map_of_mem hp))
    rw [← he] at hx ⊢
    exact (hall o hos hx hi).2.2
  refine ⟨regs, reg, hr, h1, ?_, ?_⟩
  · rintro name doc ⟨hx, o, hos, rfl, hi, hv⟩ ⟨d, hd1, hd2, hd3, rfl, hd5⟩
    have hs : o.name ∈ selected E P := mem_selected.2 ⟨hx, o, hos, rfl, hi⟩
    obtain ⟨d', ⟨hl1, hl2, hl3⟩, hg⟩ := (pairs_get E P o.name).2.1 hs ⟨d, hd1, hd2, hd3⟩
    have hm : (o.name, trimRight (E.render d.doc)) ∈ regs := by
      rw [mapM_mem _ _ _ hr]
      refine ⟨_, (hmemo _ _).2 hg, ?_⟩
      simp only [C62_literal_quote E hE, find_obj hn hos, hv, if_true, hd5 d' hl1 hl3]
    exact h2 _ _ hm
  · intro name hnt
    rw [h3 name]
    · rfl
    · intro hm
      obtain ⟨hx, o, hos, he, hi⟩ := mem_selected.1 ((hsel name).1 hm)
      subst he
      exact hnt ⟨hx, o, hos, rfl, hi, (hall o hos hx hi).1⟩

/-- **C62 is false: types.** If the package has an exported type that implements Target, the driver does not compile, whatever targets there
are besides. -/
theorem C62_counterexample_type (E : Env) (hE : E.isPrint '\n' = false) (P : Pkg) (hn : (P.scope.map Obj.name).Nodup) (o : Obj)
    (ho : o ∈ P.scope) (hx : E.exported o.name = true) (hi : o.implements = true) (hv : o.isValue = false) (order : List (Str × Str))
    (hp : order.Perm (pairs E P)) : compileDriver P order = none := by
  by_contra hc
  obtain ⟨regs, hr⟩ := Option.ne_none_iff_exists'.1 hc
  have := (C62_compiles_iff E hE P hn order hp).1 ⟨regs, hr⟩ o ho hx hi
  rw [hv] at this
  cases this.1

/-- **C62 is false: typed variables.** A variable that is declared with an exported type of the package, as in `var X MyTarget`, is listed
with that type, and the driver does not compile. -/
theorem C62_counterexample_typed_variable (E : Env) (hE : E.isPrint '\n' = false) (P : Pkg) (hn : (P.scope.map Obj.name).Nodup) (name : Str)
    (ht : IsTarget E P name) (hd : ∀ d ∈ P.vars, name ∈ d.specs.flatMap Spec.names → d.underType = true) (order : List (Str × Str))
    (hp : order.Perm (pairs E P)) : compileDriver P order = none := by
  by_contra hc
  obtain ⟨regs, hr⟩ := Option.ne_none_iff_exists'.1 hc
  obtain ⟨hx, o, ho, rfl, hi, -⟩ := ht
  obtain ⟨-, d, h1, h2, h3⟩ := (C62_compiles_iff E hE P hn order hp).1 ⟨regs, hr⟩ o ho hx hi
  rw [hd d h1 h3] at h2
  cases h2

/-- **C62 is false: values.** If a variable that implements Target is not a pointer, the driver exits before it does anything. -/
theorem C62_counterexample_not_pointer (addr : Nat → Nat) (value : Str → Tgt) (regs : List (Str × Str)) (name doc : Str) (n : Nat)
    (hm : (name, doc) ∈ regs) (hv : value name = .val n) (reg : Reg) : registerAll addr value regs reg = none := by
  induction regs generalizing reg with
  | nil => simp at hm
  | cons p regs ih =>
    obtain ⟨a, b⟩ := p
    rw [registerAll]
    split
    · rename_i hr
      rcases List.mem_cons.1 hm with he | hm
      · obtain ⟨rfl, rfl⟩ := Prod.mk.inj he
        rw [hv] at hr
        simp [Reg.register] at hr
      · exact ih hm _
    · rfl

/-- ASCII, and comments as they are -/
def exEnv : Env := ⟨Char.isUpper, fun c => 32 ≤ c.toNat ∧ c.toNat < 127, id⟩

/-- Two targets in a group, with a comment each, and none for the group:
```
var (
	// Build builds.
	Build = ...
	// Test tests.
	Test = ...
)
``` -/
def exGroup : Pkg :=
  ⟨[⟨"Build".toList, true, true⟩, ⟨"Test".toList, true, true⟩],
   [⟨[], [⟨["Build".toList], "Build builds.\n".toList⟩, ⟨["Test".toList], "Test tests.\n".toList⟩], false⟩]⟩

/-- **C62 is false: groups.** In a group of declarations the comments of the variables are lost: the driver registers the comment of the
group for each. -/
theorem C62_counterexample_group : ∃ spec ∈ exGroup.vars.flatMap VarDecl.specs, spec.names = ["Build".toList] ∧ spec.doc = "Build builds.\n".toList ∧
    ∃ regs, compileDriver exGroup (pairs exEnv exGroup) = some regs ∧ ("Build".toList, []) ∈ regs := by
  refine ⟨⟨["Build".toList], "Build builds.\n".toList⟩, by simp [exGroup], rfl, rfl, [("Test".toList, []), ("Build".toList, [])], ?_, ?_⟩
  · decide +kernel
  · decide +kernel

/-- A package with two targets, an exported function, an unexported target, and a comment with quotes, a backslash, and two lines. -/
def exPkg : Pkg :=
  ⟨[⟨"Build".toList, true, true⟩, ⟨"Helper".toList, true, false⟩, ⟨"Test".toList, true, true⟩, ⟨"hidden".toList, true, true⟩],
   [⟨"Build \"builds\" \\.\nAll of it.\n".toList, [⟨["Build".toList], []⟩], false⟩, ⟨[], [⟨["Test".toList, "hidden".toList], []⟩], false⟩]⟩

theorem ex_own : DeclaredWith exPkg "Build".toList "Build \"builds\" \\.\nAll of it.\n".toList ∧ DeclaredWith exPkg "Test".toList [] := by
  constructor
  · exact ⟨_, List.mem_cons_self, rfl, by decide +kernel, rfl, by decide +kernel⟩
  · exact ⟨_, List.mem_cons_of_mem _ List.mem_cons_self, rfl, by decide +kernel, rfl, by decide +kernel⟩

-- the hypotheses of C62_registers_partial
example : ∀ o ∈ exPkg.scope, exEnv.exported o.name = true → o.implements = true →
    o.isValue = true ∧ (∃ doc, DeclaredWith exPkg o.name doc) ∧ ∃ a, (fun n : Str => Tgt.ptr n.length) o.name = .ptr a := by
  intro o ho hx hi
  simp only [exPkg, List.mem_cons, List.not_mem_nil, or_false] at ho
  rcases ho with rfl | rfl | rfl | rfl
  · exact ⟨rfl, ⟨_, ex_own.1⟩, _, rfl⟩
  · cases hi
  · exact ⟨rfl, ⟨_, ex_own.2⟩, _, rfl⟩
  · exact absurd hx (by decide +kernel)
example : compileDriver exPkg (pairs exEnv exPkg) =
    some [("Test".toList, []), ("Build".toList, "Build \"builds\" \\.\nAll of it.".toList)] := by decide +kernel
example : IsTarget exEnv exPkg "Build".toList ∧ ¬ IsTarget exEnv exPkg "hidden".toList := by
  refine ⟨⟨by decide +kernel, _, List.mem_cons_self, rfl, rfl, rfl⟩, fun h => absurd h.1 (by decide +kernel)⟩
-- those of the counterexamples
example : compileDriver ⟨[⟨"Kind".toList, false, true⟩], []⟩ (pairs exEnv ⟨[⟨"Kind".toList, false, true⟩], []⟩) = none :=
  C62_counterexample_type exEnv (by decide +kernel) _ (by decide +kernel) ⟨"Kind".toList, false, true⟩ List.mem_cons_self (by decide +kernel) rfl rfl _ (.refl _)
example : IsTarget exEnv ⟨[⟨"X".toList, true, true⟩], [⟨[], [⟨["X".toList], []⟩], true⟩]⟩ "X".toList :=
  ⟨by decide +kernel, _, List.mem_cons_self, rfl, rfl, rfl⟩

end Fab.Driver
