import Verif.Base

/-!
# Does a user's type implement Target?  (/repo/types.go): C52, C53

The user's types come from the type checker (package go/types), those of the Target interface from reflection (package reflect): two
graphs, with cycles, whose nodes are pointers.  `G` is the first, `H` the second; nothing is assumed of the nodes but that they can be
compared.  A loop on nodes may not terminate, so the functions take fuel, and `more` says that it ran out.

Not modelled: the text of the errors (the only caller, compile.go:130, ignores it).
-/

namespace Fab.Types
open Fab

/-- The kinds of basic types that both packages have (go/types.BasicKind, reflect.Kind). -/
inductive Basic
  | bool | int | int8 | int16 | int32 | int64 | uint | uint8 | uint16 | uint32 | uint64 | uintptr
  | float32 | float64 | complex64 | complex128 | string | unsafePointer
deriving DecidableEq, Repr

/-- The directions of a channel. -/
inductive Dir
  | both | send | recv
deriving DecidableEq, Repr

/-- `*types.Signature`: `Recv() != nil`, `Params`, `Results`, `Variadic` -/
structure Sig (T : Type) where
  recv : Bool
  params : List T
  results : List T
  variadic : Bool

/-- `types.Type`, one level deep.  A basic type `none` is an untyped or invalid one; `other` is every type that the code has no case for
(tuples, type parameters, unions, aliases).  A named type has the path of its package, which the code does not look at. -/
inductive TShape (T : Type)
  | array (len : Int) (elem : T)
  | basic (k : Option Basic)
  | chan (d : Dir) (elem : T)
  | iface (methods : List (Str × Sig T))
  | map (key elem : T)
  | named (pkg name : Str) (underlying : T)
  | ptr (elem : T)
  | sig (s : Sig T)
  | slice (elem : T)
  | struct (fields : List (Str × Str × T))
  | other

/-- `reflect.Type`, one level deep, by its `Kind`.  The type of a method of an interface is that of a function without receiver. -/
inductive RShape (R : Type)
  | array (len : Nat) (elem : R)
  | basic (k : Basic)
  | chan (d : Dir) (elem : R)
  | iface (methods : List (Str × R))
  | map (key elem : R)
  | ptr (elem : R)
  | func (ins outs : List R) (variadic : Bool)
  | slice (elem : R)
  | struct (fields : List (Str × Str × R))

/-- A `reflect.Type`: `PkgPath()`, `Name()` ("" if it is not a defined type), and the rest. -/
structure RType (R : Type) where
  pkg : Str
  name : Str
  shape : RShape R

/-- The outcome of a check: no error, and the pairs seen so far; an error; or out of fuel. -/
inductive Res (T R : Type)
  | ok (seen : List (T × R))
  | err
  | more

namespace Res
variable {T R : Type}
/-- `if err != nil { return err }` -/
def bind : Res T R → (List (T × R) → Res T R) → Res T R
  | ok s, k => k s
  | err, _ => err
  | more, _ => more
end Res

section Model
variable {T R : Type} [DecidableEq T] [DecidableEq R] (G : T → TShape T) (H : R → RType R)

/-- The basic types, types.go:131-205 -/
def basicOk : Option Basic → RShape R → Bool
  | some .bool, .basic .bool => true
  | some .int, .basic .int => true
  | some .int8, .basic .int8 => true
  | some .int16, .basic .int16 => true
  | some .int32, .basic .int32 => true
  | some .int64, .basic .int64 => true
  | some .uint, .basic .uint => true
  | some .uint8, .basic .uint8 => true
  | some .uint16, .basic .uint16 => true
  | some .uint32, .basic .uint32 => true
  | some .uint64, .basic .uint64 => true
  | some .uintptr, .basic .uintptr => true
  | some .float32, .basic .float32 => true
  | some .float64, .basic .float64 => true
  | some .complex64, .basic .complex64 => true
  | some .complex128, .basic .complex128 => true
  | some .string, .basic .string => true
  | some .unsafePointer, .basic .unsafePointer => true
  | _, _ => false

/-- The loops of types.go:92-101 and 102-107, over two lists of the same length. -/
def checkList (rec : T → R → List (T × R) → Res T R) : List T → List R → List (T × R) → Res T R
  | t :: ts, r :: rs, seen => (rec t r seen).bind (checkList rec ts rs)
  | _, _, seen => .ok seen

/-- `checkSignaturesMatch`, types.go:68-110 -/
def checkSigs (rec : T → R → List (T × R) → Res T R) (sig : Sig T) (fn : R) (skipReceiver : Bool) (seen : List (T × R)) : Res T R :=
  match (H fn).shape with
  | .func ins outs variadic =>
    if sig.variadic ≠ variadic then .err
    else
      let hasReceiver := skipReceiver && sig.recv
      if sig.params.length + (if hasReceiver then 1 else 0) ≠ ins.length then .err
      else if sig.results.length ≠ outs.length then .err
      else (checkList rec sig.params (ins.drop (if hasReceiver then 1 else 0)) seen).bind (checkList rec sig.results outs)
  | _ => .err

/-- The loop over the methods of an interface, types.go:235-252.  (The members of a method set are functions.) -/
def checkMethods (rec : T → R → List (T × R) → Res T R) (rmethods : List (Str × R)) : List (Str × Sig T) → List (T × R) → Res T R
  | [], seen => .ok seen
  | (name, sig) :: rest, seen =>
    match rmethods.find? fun m => m.1 = name with
    | none => .err
    | some m => (checkSigs H rec sig m.2 false seen).bind (checkMethods rec rmethods rest)

/-- The loop over the fields of a struct, types.go:292-303 -/
def checkFields (rec : T → R → List (T × R) → Res T R) : List (Str × Str × T) → List (Str × Str × R) → List (T × R) → Res T R
  | (n, tag, t) :: fs, (n', tag', r) :: fs', seen =>
    if n ≠ n' then .err
    else if tag ≠ tag' then .err
    else (rec t r seen).bind (checkFields rec fs fs')
  | _, _, seen => .ok seen

/-- `checkTypesMatch`, types.go:113-312; the argument `fuel` bounds the depth of the calls. -/
def checkTypes : Nat → T → R → List (T × R) → Res T R
  | 0, _, _, _ => .more
  | fuel + 1, t, r, seen =>
    if (t, r) ∈ seen then .ok seen
    else
      let seen := (t, r) :: seen
      match G t with
      | .array n a =>
        match (H r).shape with
        | .array m b => if n ≠ (m : Int) then .err else checkTypes fuel a b seen
        | _ => .err
      | .basic k => if basicOk k (H r).shape then .ok seen else .err
      | .chan d a =>
        match (H r).shape with
        | .chan d' b => if d ≠ d' then .err else checkTypes fuel a b seen
        | _ => .err
      | .iface ms =>
        match (H r).shape with
        | .iface ms' => if ms.length ≠ ms'.length then .err else checkMethods H (checkTypes fuel) ms' ms seen
        | _ => .err
      | .map k a =>
        match (H r).shape with
        | .map k' b => (checkTypes fuel k k' seen).bind (checkTypes fuel a b)
        | _ => .err
      | .named _ name u => if name ≠ (H r).name then .err else checkTypes fuel u r seen
      | .ptr a =>
        match (H r).shape with
        | .ptr b => checkTypes fuel a b seen
        | _ => .err
      | .sig s => checkSigs H (checkTypes fuel) s r true seen
      | .slice a =>
        match (H r).shape with
        | .slice b => checkTypes fuel a b seen
        | _ => .err
      | .struct fs =>
        match (H r).shape with
        | .struct fs' => if fs.length ≠ fs'.length then .err else checkFields (checkTypes fuel) fs fs' seen
        | _ => .err
      | .other => .err

/-- The outcome of `checkImplementsTarget`. -/
inductive Answer
  | implements | doesNot | more
deriving DecidableEq, Repr

/-- `checkImplementsTarget`, types.go:43-66: `methods` is `methodSet.Lookup` on the method set of the type, and `target` is the map
`targetMethods` (types.go:23-30) in the order of the iteration. -/
def checkImplements (fuel : Nat) (methods : Str → Option (Sig T)) : List (Str × R) → Answer
  | [] => .implements
  | (name, fn) :: rest =>
    match methods name with
    | none => .doesNot
    | some sig =>
      match checkSigs H (checkTypes G H fuel) sig fn true [] with
      | .ok _ => checkImplements fuel methods rest
      | .err => .doesNot
      | .more => .more

end Model

/-! ## The specification -/

section Spec
variable {T R : Type} (G : T → TShape T) (H : R → RType R)

/-- A signature and a function type correspond: as many parameters and results, which correspond one by one, and both variadic or
neither.  `ins` are the parameters of the function type without the receiver. -/
structure SameSig (Rel : T → R → Prop) (s : Sig T) (ins outs : List R) (variadic : Bool) : Prop where
  params : List.Forall₂ Rel s.params ins
  results : List.Forall₂ Rel s.results outs
  variadic : s.variadic = variadic

/-- A user's type and a reflected one look the same on the surface, and their parts are related by `Rel`. -/
inductive Surface (Rel : T → R → Prop) (t : T) (r : R) : Prop
  | array (n : Nat) (a : T) (b : R) : G t = .array n a → (H r).shape = .array n b → Rel a b → Surface Rel t r
  | basic (k : Basic) : G t = .basic (some k) → (H r).shape = .basic k → Surface Rel t r
  | chan (d : Dir) (a : T) (b : R) : G t = .chan d a → (H r).shape = .chan d b → Rel a b → Surface Rel t r
  | map (k a : T) (k' b : R) : G t = .map k a → (H r).shape = .map k' b → Rel k k' → Rel a b → Surface Rel t r
  | ptr (a : T) (b : R) : G t = .ptr a → (H r).shape = .ptr b → Rel a b → Surface Rel t r
  | slice (a : T) (b : R) : G t = .slice a → (H r).shape = .slice b → Rel a b → Surface Rel t r
  | func (s : Sig T) (ins outs : List R) (variadic : Bool) : G t = .sig s → (H r).shape = .func ins outs variadic →
      SameSig Rel s ins outs variadic → Surface Rel t r
  /-- the fields have, in order, the same names and tags, and their types correspond -/
  | struct (fs : List (Str × Str × T)) (fs' : List (Str × Str × R)) : G t = .struct fs → (H r).shape = .struct fs' →
      List.Forall₂ (fun f f' => f.1 = f'.1 ∧ f.2.1 = f'.2.1 ∧ Rel f.2.2 f'.2.2) fs fs' → Surface Rel t r
  /-- the methods have the same names, in any order, and methods of the same name correspond -/
  | iface (ms : List (Str × Sig T)) (ms' : List (Str × R)) : G t = .iface ms → (H r).shape = .iface ms' →
      (∀ name, name ∈ ms.map Prod.fst ↔ name ∈ ms'.map Prod.fst) →
      (∀ name s f, (name, s) ∈ ms → (name, f) ∈ ms' →
        ∃ ins outs variadic, (H f).shape = .func ins outs variadic ∧ SameSig Rel s ins outs variadic) → Surface Rel t r
  /-- a defined type corresponds to a defined type of the same (bare) name, and what it stands for corresponds, too -/
  | named (pkg name : Str) (u : T) : G t = .named pkg name u → (H r).name = name → Rel u r → Surface Rel t r

/-- Two types match: they can be unfolded for ever, in step, without a visible difference. -/
def Matches (t : T) (r : R) : Prop := ∃ Rel : T → R → Prop, (∀ a b, Rel a b → Surface G H Rel a b) ∧ Rel t r

/-- What go/types and reflect guarantee of their graphs: the methods of an interface have different names, and the signature of a function
type has no receiver. -/
structure WellFormed : Prop where
  tNames : ∀ t ms, G t = .iface ms → (ms.map Prod.fst).Nodup
  rNames : ∀ r ms, (H r).shape = .iface ms → (ms.map Prod.fst).Nodup
  noRecv : ∀ t s, G t = .sig s → s.recv = false

/-- The method of a type with signature `s` (which has a receiver) matches the method of Target whose function type, receiver included, is
`fn`. -/
def MethodMatches (s : Sig T) (fn : R) : Prop :=
  ∃ self ins outs variadic, (H fn).shape = .func (self :: ins) outs variadic ∧ SameSig (Matches G H) s ins outs variadic

/-- The types that a type consists of. -/
def TShape.parts : TShape T → List T
  | .array _ a | .chan _ a | .ptr a | .slice a => [a]
  | .map k a => [k, a]
  | .named _ _ u => [u]
  | .sig s => s.params ++ s.results
  | .iface ms => ms.flatMap fun m => m.2.params ++ m.2.results
  | .struct fs => fs.map fun f => f.2.2
  | .basic _ | .other => []

/-- The types that a reflected type consists of. -/
def RShape.parts : RShape R → List R
  | .array _ a | .chan _ a | .ptr a | .slice a => [a]
  | .map k a => [k, a]
  | .func ins outs _ => ins ++ outs
  | .iface ms => ms.map Prod.snd
  | .struct fs => fs.map fun f => f.2.2
  | .basic _ => []

end Spec

/-! ## Proofs -/

set_option linter.unusedSectionVars false

section Proofs
variable {T R : Type} [DecidableEq T] [DecidableEq R] {G : T → TShape T} {H : R → RType R}

theorem basicOk_iff {k : Option Basic} {s : RShape R} : basicOk k s = true ↔ ∃ b, k = some b ∧ s = .basic b := by
  constructor
  · intro h
    unfold basicOk at h
    split at h <;> simp_all
  · rintro ⟨b, rfl, rfl⟩
    cases b <;> rfl

theorem SameSig.mono {P Q : T → R → Prop} (h : ∀ a b, P a b → Q a b) {s : Sig T} {ins outs : List R} {v : Bool}
    (hs : SameSig P s ins outs v) : SameSig Q s ins outs v :=
  ⟨hs.params.imp h, hs.results.imp h, hs.variadic⟩

theorem Surface.mono {P Q : T → R → Prop} (h : ∀ a b, P a b → Q a b) {t : T} {r : R} (hs : Surface G H P t r) : Surface G H Q t r := by
  cases hs with
  | array n a b h1 h2 h3 => exact .array n a b h1 h2 (h _ _ h3)
  | basic k h1 h2 => exact .basic k h1 h2
  | chan d a b h1 h2 h3 => exact .chan d a b h1 h2 (h _ _ h3)
  | map k a k' b h1 h2 h3 h4 => exact .map k a k' b h1 h2 (h _ _ h3) (h _ _ h4)
  | ptr a b h1 h2 h3 => exact .ptr a b h1 h2 (h _ _ h3)
  | slice a b h1 h2 h3 => exact .slice a b h1 h2 (h _ _ h3)
  | func s ins outs v h1 h2 h3 => exact .func s ins outs v h1 h2 (h3.mono h)
  | struct fs fs' h1 h2 h3 => exact .struct fs fs' h1 h2 (h3.imp fun _ _ ⟨a, b, c⟩ => ⟨a, b, h _ _ c⟩)
  | iface ms ms' h1 h2 h3 h4 =>
    refine .iface ms ms' h1 h2 h3 fun n s f hs hf => ?_
    obtain ⟨i, o, v, h5, h6⟩ := h4 n s f hs hf
    exact ⟨i, o, v, h5, h6.mono h⟩
  | named p n u h1 h2 h3 => exact .named p n u h1 h2 (h _ _ h3)

/-! ### Soundness -/

/-- What success of a check says: the set of pairs has grown, and the new pairs hold on the surface. -/
def Grows (G : T → TShape T) (H : R → RType R) (seen seen' : List (T × R)) : Prop :=
  (∀ p ∈ seen, p ∈ seen') ∧ ∀ p ∈ seen', p ∈ seen ∨ Surface G H (fun a b => (a, b) ∈ seen') p.1 p.2

theorem Grows.refl (seen : List (T × R)) : Grows G H seen seen := ⟨fun _ h => h, fun _ h => .inl h⟩

theorem Grows.trans {a b c : List (T × R)} (h : Grows G H a b) (h' : Grows G H b c) : Grows G H a c := by
  refine ⟨fun p hp => h'.1 p (h.1 p hp), fun p hp => ?_⟩
  rcases h'.2 p hp with hb | hs
  · rcases h.2 p hb with ha | hs
    · exact .inl ha
    · exact .inr (hs.mono fun a b hab => h'.1 _ hab)
  · exact .inr hs

/-- A sound checker of pairs. -/
def Sound (G : T → TShape T) (H : R → RType R) (rec : T → R → List (T × R) → Res T R) : Prop :=
  ∀ t r seen seen', rec t r seen = .ok seen' → (t, r) ∈ seen' ∧ Grows G H seen seen'

theorem Res.bind_ok {x : Res T R} {k : List (T × R) → Res T R} {s : List (T × R)} (h : x.bind k = .ok s) :
    ∃ s1, x = .ok s1 ∧ k s1 = .ok s := by
  cases x with
  | ok s1 => exact ⟨s1, rfl, h⟩
  | err => cases h
  | more => cases h

theorem checkList_sound {rec : T → R → List (T × R) → Res T R} (hr : Sound G H rec) : ∀ (ts : List T) (rs : List R) (seen seen' : List (T × R)),
    ts.length = rs.length → checkList rec ts rs seen = .ok seen' → Grows G H seen seen' ∧ List.Forall₂ (fun a b => (a, b) ∈ seen') ts rs
  | [], [], seen, seen', _, h => by
    simp only [checkList, Res.ok.injEq] at h
    subst h
    exact ⟨.refl _, .nil⟩
  | t :: ts, r :: rs, seen, seen', hl, h => by
    rw [checkList] at h
    obtain ⟨s1, h1, h2⟩ := Res.bind_ok h
    obtain ⟨hm, hg⟩ := hr _ _ _ _ h1
    obtain ⟨hg', hf⟩ := checkList_sound hr ts rs s1 seen' (by simpa using hl) h2
    exact ⟨hg.trans hg', .cons (hg'.1 _ hm) hf⟩
  | [], _ :: _, _, _, hl, _ => by simp at hl
  | _ :: _, [], _, _, hl, _ => by simp at hl

theorem checkSigs_sound {rec : T → R → List (T × R) → Res T R} (hr : Sound G H rec) {s : Sig T} {fn : R} {skip : Bool}
    {seen seen' : List (T × R)} (h : checkSigs H rec s fn skip seen = .ok seen') :
    Grows G H seen seen' ∧ ∃ ins outs v, (H fn).shape = .func ins outs v ∧
      (if (skip && s.recv) = true then ∃ self ins', ins = self :: ins' ∧ SameSig (fun a b => (a, b) ∈ seen') s ins' outs v
        else SameSig (fun a b => (a, b) ∈ seen') s ins outs v) := by
  unfold checkSigs at h
  split at h
  case h_2 => cases h
  rename_i ins outs v hf
  dsimp only at h
  generalize hk : (if (skip && s.recv) = true then 1 else 0) = k at h
  split at h
  · cases h
  rename_i hv
  split at h
  · cases h
  rename_i hl
  split at h
  · cases h
  rename_i ho
  simp only [ne_eq, not_not] at hv hl ho
  obtain ⟨s1, h1, h2⟩ := Res.bind_ok h
  have hlen : s.params.length = (ins.drop k).length := by
    rw [List.length_drop]; omega
  obtain ⟨hg, hp⟩ := checkList_sound hr _ _ _ _ hlen h1
  obtain ⟨hg', hq⟩ := checkList_sound hr _ _ _ _ ho h2
  have hp' := hp.imp fun a b hab => hg'.1 _ hab
  refine ⟨hg.trans hg', ins, outs, v, hf, ?_⟩
  split
  · rename_i hb
    rw [if_pos hb] at hk
    subst hk
    cases ins with
    | nil => simp at hl
    | cons self ins' => exact ⟨self, ins', rfl, by simpa using hp', hq, hv⟩
  · rename_i hb
    rw [if_neg hb] at hk
    subst hk
    exact ⟨by simpa using hp', hq, hv⟩

theorem checkMethods_sound {rec : T → R → List (T × R) → Res T R} (hr : Sound G H rec) (rms : List (Str × R)) :
    ∀ (ms : List (Str × Sig T)) (seen seen' : List (T × R)), checkMethods H rec rms ms seen = .ok seen' →
      Grows G H seen seen' ∧ ∀ name s, (name, s) ∈ ms → ∃ f ins outs v, rms.find? (fun m => m.1 = name) = some (name, f) ∧
        (H f).shape = .func ins outs v ∧ SameSig (fun a b => (a, b) ∈ seen') s ins outs v
  | [], seen, seen', h => by
    simp only [checkMethods, Res.ok.injEq] at h
    subst h
    exact ⟨.refl _, by simp⟩
  | (name, s) :: ms, seen, seen', h => by
    rw [checkMethods] at h
    split at h
    · cases h
    rename_i m hm
    obtain ⟨s1, h1, h2⟩ := Res.bind_ok h
    obtain ⟨hg, ins, outs, v, hf, hs⟩ := checkSigs_sound hr h1
    obtain ⟨hg', hrest⟩ := checkMethods_sound hr rms ms s1 seen' h2
    have hname : m.1 = name := by simpa using List.find?_some hm
    refine ⟨hg.trans hg', fun n s' hmem => ?_⟩
    rcases List.mem_cons.1 hmem with he | hmem
    · obtain ⟨rfl, rfl⟩ := Prod.mk.inj he
      refine ⟨m.2, ins, outs, v, ?_, hf, ?_⟩
      · rw [hm, ← hname]
      · rw [if_neg (by simp)] at hs
        exact hs.mono fun a b hab => hg'.1 _ hab
    · exact hrest n s' hmem

theorem checkFields_sound {rec : T → R → List (T × R) → Res T R} (hr : Sound G H rec) :
    ∀ (fs : List (Str × Str × T)) (fs' : List (Str × Str × R)) (seen seen' : List (T × R)), fs.length = fs'.length →
      checkFields rec fs fs' seen = .ok seen' → Grows G H seen seen' ∧
        List.Forall₂ (fun f f' => f.1 = f'.1 ∧ f.2.1 = f'.2.1 ∧ (f.2.2, f'.2.2) ∈ seen') fs fs'
  | [], [], seen, seen', _, h => by
    simp only [checkFields, Res.ok.injEq] at h
    subst h
    exact ⟨.refl _, .nil⟩
  | (n, tag, t) :: fs, (n', tag', r) :: fs', seen, seen', hl, h => by
    rw [checkFields] at h
    split at h
    · cases h
    rename_i hn
    split at h
    · cases h
    rename_i ht
    simp only [ne_eq, not_not] at hn ht
    obtain ⟨s1, h1, h2⟩ := Res.bind_ok h
    obtain ⟨hm, hg⟩ := hr _ _ _ _ h1
    obtain ⟨hg', hf⟩ := checkFields_sound hr fs fs' s1 seen' (by simpa using hl) h2
    exact ⟨hg.trans hg', .cons ⟨hn, ht, hg'.1 _ hm⟩ hf⟩
  | [], _ :: _, _, _, hl, _ => by simp at hl
  | _ :: _, [], _, _, hl, _ => by simp at hl

/-- Two lists of names without repetition, of the same length, the first contained in the second, have the same names. -/
theorem names_same {ms : List (Str × Sig T)} {ms' : List (Str × R)} (h1 : (ms.map Prod.fst).Nodup)
    (hl : ms.length = ms'.length) (hs : ∀ n ∈ ms.map Prod.fst, n ∈ ms'.map Prod.fst) (n : Str) : n ∈ ms.map Prod.fst ↔ n ∈ ms'.map Prod.fst := by
  refine ⟨hs n, fun hn => ?_⟩
  have hsp : (ms.map Prod.fst).Subperm (ms'.map Prod.fst) := List.subperm_of_subset h1 hs
  exact ((hsp.perm_of_length_le (by simp [hl])).mem_iff).2 hn

theorem find_unique {ms : List (Str × R)} (hn : (ms.map Prod.fst).Nodup) {name : Str} {f : R} (h : (name, f) ∈ ms) :
    ms.find? (fun m => m.1 = name) = some (name, f) := by
  induction ms with
  | nil => simp at h
  | cons m ms ih =>
    rw [List.map_cons, List.nodup_cons] at hn
    rcases List.mem_cons.1 h with rfl | h
    · simp
    · have : m.1 ≠ name := fun he => hn.1 (he ▸ List.mem_map_of_mem (f := Prod.fst) h)
      rw [List.find?_cons_of_neg (by simpa using this)]
      exact ih hn.2 h

/-- Adding a pair first, and then checking its parts. -/
theorem Grows.ofParts {t : T} {r : R} {seen seen' : List (T × R)} (hg : Grows G H ((t, r) :: seen) seen')
    (hs : Surface G H (fun a b => (a, b) ∈ seen') t r) : (t, r) ∈ seen' ∧ Grows G H seen seen' := by
  refine ⟨hg.1 _ List.mem_cons_self, fun p hp => hg.1 _ (List.mem_cons_of_mem _ hp), fun p hp => ?_⟩
  rcases hg.2 p hp with h | h
  · rcases List.mem_cons.1 h with rfl | h
    · exact .inr hs
    · exact .inl h
  · exact .inr h

theorem checkTypes_sound (hw : WellFormed G H) : ∀ fuel, Sound G H (checkTypes G H fuel)
  | 0 => fun t r seen seen' h => by cases h
  | fuel + 1 => by
    intro t r seen seen' h
    have ih := checkTypes_sound hw fuel
    rw [checkTypes] at h
    split at h
    · rename_i hmem
      simp only [Res.ok.injEq] at h
      subst h
      exact ⟨hmem, .refl _⟩
    dsimp only at h
    split at h
    · -- array
      rename_i n a ht
      split at h
      case h_2 => cases h
      rename_i m b hr
      split at h
      · cases h
      rename_i hn
      simp only [ne_eq, not_not] at hn
      obtain ⟨hm, hg⟩ := ih _ _ _ _ h
      exact hg.ofParts (.array m a b (hn ▸ ht) hr hm)
    · -- basic
      rename_i k ht
      split at h
      · rename_i hk
        obtain ⟨b, rfl, hb⟩ := basicOk_iff.1 hk
        simp only [Res.ok.injEq] at h
        subst h
        exact (Grows.refl _).ofParts (.basic b ht hb)
      · cases h
    · -- chan
      rename_i d a ht
      split at h
      case h_2 => cases h
      rename_i d' b hr
      split at h
      · cases h
      rename_i hd
      simp only [ne_eq, not_not] at hd
      obtain ⟨hm, hg⟩ := ih _ _ _ _ h
      exact hg.ofParts (.chan d a b ht (hd ▸ hr) hm)
    · -- interface
      rename_i ms ht
      split at h
      case h_2 => cases h
      rename_i ms' hr
      split at h
      · cases h
      rename_i hl
      simp only [ne_eq, not_not] at hl
      obtain ⟨hg, hall⟩ := checkMethods_sound ih _ _ _ _ h
      refine hg.ofParts (.iface ms ms' ht hr ?_ ?_)
      · refine names_same (hw.tNames t ms ht) hl fun n hn => ?_
        obtain ⟨⟨n', s⟩, hmem, rfl⟩ := List.mem_map.1 hn
        obtain ⟨f, ins, outs, v, hf, -⟩ := hall n' s hmem
        exact List.mem_map_of_mem (f := Prod.fst) (List.mem_of_find?_eq_some hf)
      · intro name s f hs hf
        obtain ⟨f', ins, outs, v, hf', h1, h2⟩ := hall name s hs
        rw [find_unique (hw.rNames r ms' hr) hf] at hf'
        obtain ⟨-, rfl⟩ := Prod.mk.inj (Option.some.inj hf')
        exact ⟨ins, outs, v, h1, h2⟩
    · -- map
      rename_i k a ht
      split at h
      case h_2 => cases h
      rename_i k' b hr
      obtain ⟨s1, h1, h2⟩ := Res.bind_ok h
      obtain ⟨hm, hg⟩ := ih _ _ _ _ h1
      obtain ⟨hm', hg'⟩ := ih _ _ _ _ h2
      exact (hg.trans hg').ofParts (.map k a k' b ht hr (hg'.1 _ hm) hm')
    · -- named
      rename_i pkg name u ht
      split at h
      · cases h
      rename_i hn
      simp only [ne_eq, not_not] at hn
      obtain ⟨hm, hg⟩ := ih _ _ _ _ h
      exact hg.ofParts (.named pkg name u ht hn.symm hm)
    · -- pointer
      rename_i a ht
      split at h
      case h_2 => cases h
      rename_i b hr
      obtain ⟨hm, hg⟩ := ih _ _ _ _ h
      exact hg.ofParts (.ptr a b ht hr hm)
    · -- signature
      rename_i s ht
      obtain ⟨hg, ins, outs, v, hf, hs⟩ := checkSigs_sound ih h
      rw [hw.noRecv t s ht] at hs
      simp only [Bool.and_false, Bool.false_eq_true, if_false] at hs
      exact hg.ofParts (.func s ins outs v ht hf hs)
    · -- slice
      rename_i a ht
      split at h
      case h_2 => cases h
      rename_i b hr
      obtain ⟨hm, hg⟩ := ih _ _ _ _ h
      exact hg.ofParts (.slice a b ht hr hm)
    · -- struct
      rename_i fs ht
      split at h
      case h_2 => cases h
      rename_i fs' hr
      split at h
      · cases h
      rename_i hl
      simp only [ne_eq, not_not] at hl
      obtain ⟨hg, hf⟩ := checkFields_sound ih _ _ _ _ hl h
      exact hg.ofParts (.struct fs fs' ht hr hf)
    · cases h

/-! ### Completeness -/

/-- A checker that reports no error for related pairs. -/
def Complete (Rel : T → R → Prop) (rec : T → R → List (T × R) → Res T R) : Prop :=
  ∀ t r seen, Rel t r → rec t r seen ≠ .err

theorem Res.bind_ne_err {x : Res T R} {k : List (T × R) → Res T R} (hx : x ≠ .err) (hk : ∀ s, k s ≠ .err) : x.bind k ≠ .err := by
  cases x with
  | ok s => exact hk s
  | err => exact absurd rfl hx
  | more => simp [Res.bind]

theorem checkList_complete {Rel : T → R → Prop} {rec : T → R → List (T × R) → Res T R} (hr : Complete Rel rec) :
    ∀ {ts : List T} {rs : List R} (_ : List.Forall₂ Rel ts rs) (seen : List (T × R)), checkList rec ts rs seen ≠ .err
  | _, _, .nil, seen => by simp [checkList]
  | _, _, .cons h hs, seen => by
    rw [checkList]
    exact Res.bind_ne_err (hr _ _ _ h) fun s => checkList_complete hr hs s

theorem checkSigs_complete {Rel : T → R → Prop} {rec : T → R → List (T × R) → Res T R} (hr : Complete Rel rec) {s : Sig T} {fn : R}
    {skip : Bool} {self ins outs : List R} {v : Bool} (hf : (H fn).shape = .func (self ++ ins) outs v)
    (hs : self.length = if (skip && s.recv) = true then 1 else 0) (h : SameSig Rel s ins outs v) (seen : List (T × R)) :
    checkSigs H rec s fn skip seen ≠ .err := by
  unfold checkSigs
  rw [hf]
  dsimp only
  rw [if_neg (by simp [h.variadic]), if_neg (by simp [hs, h.params.length_eq, Nat.add_comm]), if_neg (by simp [h.results.length_eq]), ← hs,
    List.drop_left]
  exact Res.bind_ne_err (checkList_complete hr h.params _) fun s => checkList_complete hr h.results s

theorem checkMethods_complete {Rel : T → R → Prop} {rec : T → R → List (T × R) → Res T R} (hr : Complete Rel rec) (rms : List (Str × R)) :
    ∀ (ms : List (Str × Sig T)) (_ : ∀ name s, (name, s) ∈ ms → ∃ f ins outs v, rms.find? (fun m => m.1 = name) = some (name, f) ∧
        (H f).shape = .func ins outs v ∧ SameSig Rel s ins outs v) (seen : List (T × R)), checkMethods H rec rms ms seen ≠ .err
  | [], _, seen => by simp [checkMethods]
  | (name, s) :: ms, h, seen => by
    rw [checkMethods]
    obtain ⟨f, ins, outs, v, h1, h2, h3⟩ := h name s List.mem_cons_self
    rw [h1]
    exact Res.bind_ne_err (checkSigs_complete hr (self := []) h2 (by simp) h3 _)
      fun s1 => checkMethods_complete hr rms ms (fun n s' hm => h n s' (List.mem_cons_of_mem _ hm)) s1

theorem checkFields_complete {Rel : T → R → Prop} {rec : T → R → List (T × R) → Res T R} (hr : Complete Rel rec) :
    ∀ {fs : List (Str × Str × T)} {fs' : List (Str × Str × R)}
      (_ : List.Forall₂ (fun f f' => f.1 = f'.1 ∧ f.2.1 = f'.2.1 ∧ Rel f.2.2 f'.2.2) fs fs') (seen : List (T × R)),
      checkFields rec fs fs' seen ≠ .err
  | _, _, .nil, seen => by simp [checkFields]
  | (n, tag, t) :: fs, (n', tag', r) :: fs', .cons ⟨h1, h2, h3⟩ hs, seen => by
    rw [checkFields]
    simp only at h1 h2 h3
    rw [if_neg (by simp [h1]), if_neg (by simp [h2])]
    exact Res.bind_ne_err (hr _ _ _ h3) fun s => checkFields_complete hr hs s

theorem checkTypes_complete (hw : WellFormed G H) {Rel : T → R → Prop} (hRel : ∀ a b, Rel a b → Surface G H Rel a b) :
    ∀ fuel, Complete Rel (checkTypes G H fuel)
  | 0 => fun t r seen _ => by simp [checkTypes]
  | fuel + 1 => by
    intro t r seen h
    have ih := checkTypes_complete hw hRel fuel
    rw [checkTypes]
    split
    · simp
    dsimp only
    cases hRel t r h with
    | array n a b h1 h2 h3 => simp only [h1, h2]; rw [if_neg (by simp)]; exact ih _ _ _ h3
    | basic k h1 h2 => simp only [h1, h2]; rw [if_pos (basicOk_iff.2 ⟨k, rfl, rfl⟩)]; simp
    | chan d a b h1 h2 h3 => simp only [h1, h2]; rw [if_neg (by simp)]; exact ih _ _ _ h3
    | map k a k' b h1 h2 h3 h4 => simp only [h1, h2]; exact Res.bind_ne_err (ih _ _ _ h3) fun s => ih _ _ _ h4
    | ptr a b h1 h2 h3 => simp only [h1, h2]; exact ih _ _ _ h3
    | slice a b h1 h2 h3 => simp only [h1, h2]; exact ih _ _ _ h3
    | func s ins outs v h1 h2 h3 =>
      simp only [h1]
      exact checkSigs_complete ih (self := []) h2 (by simp [hw.noRecv t s h1]) h3 _
    | struct fs fs' h1 h2 h3 => simp only [h1, h2]; rw [if_neg (by simp [h3.length_eq])]; exact checkFields_complete ih h3 _
    | iface ms ms' h1 h2 h3 h4 =>
      simp only [h1, h2]
      have hl : ms.length = ms'.length := by
        have hp : (ms.map Prod.fst).Perm (ms'.map Prod.fst) :=
          (List.perm_ext_iff_of_nodup (hw.tNames t ms h1) (hw.rNames r ms' h2)).2 h3
        simpa using hp.length_eq
      rw [if_neg (by simp [hl])]
      refine checkMethods_complete ih _ _ (fun name s hs => ?_) _
      obtain ⟨⟨n', f⟩, hmem, rfl⟩ := List.mem_map.1 ((h3 name).1 (List.mem_map_of_mem (f := Prod.fst) hs))
      obtain ⟨ins, outs, v, h5, h6⟩ := h4 _ s f hs hmem
      exact ⟨f, ins, outs, v, find_unique (hw.rNames r ms' h2) hmem, h5, h6⟩
    | named p n u h1 h2 h3 => simp only [h1]; rw [if_neg (by simp [h2])]; exact ih _ _ _ h3

/-! ### Termination -/

/-- The pairs of the finite graph that have not been seen yet. -/
def unseen (A : List T) (B : List R) (seen : List (T × R)) : Nat := ((A.product B).filter fun p => decide (p ∉ seen)).length

theorem unseen_mono {A : List T} {B : List R} {s s' : List (T × R)} (h : ∀ p ∈ s, p ∈ s') : unseen A B s' ≤ unseen A B s := by
  unfold unseen
  refine List.Sublist.length_le (List.monotone_filter_right _ fun p hp => ?_)
  simp only [decide_eq_true_eq] at hp ⊢
  exact fun hs => hp (h p hs)

theorem unseen_cons {A : List T} {B : List R} {s : List (T × R)} {t : T} {r : R} (ht : t ∈ A) (hr : r ∈ B) (hn : (t, r) ∉ s) :
    unseen A B ((t, r) :: s) < unseen A B s := by
  unfold unseen
  have hsub : (A.product B).filter (fun p => decide (p ∉ (t, r) :: s)) =
      ((A.product B).filter fun p => decide (p ∉ s)).filter fun p => decide (p ≠ (t, r)) := by
    rw [List.filter_filter]
    refine List.filter_congr fun p _ => ?_
    simp only [List.mem_cons, not_or, ne_eq, Bool.decide_and]
  rw [hsub]
  refine List.length_filter_lt_length_iff_exists.2 ⟨(t, r), ?_, by simp⟩
  simp only [List.mem_filter, decide_eq_true_eq]
  exact ⟨List.pair_mem_product.2 ⟨ht, hr⟩, hn⟩

/-- A checker that ends on the finite graph, if at most `n` pairs are still unseen. -/
def Ends (A : List T) (B : List R) (n : Nat) (rec : T → R → List (T × R) → Res T R) : Prop :=
  ∀ t ∈ A, ∀ r ∈ B, ∀ seen, unseen A B seen ≤ n → rec t r seen ≠ .more

theorem Res.bind_ne_more {x : Res T R} {k : List (T × R) → Res T R} (hx : x ≠ .more) (hk : ∀ s, x = .ok s → k s ≠ .more) : x.bind k ≠ .more := by
  cases x with
  | ok s => exact hk s rfl
  | err => simp [Res.bind]
  | more => exact absurd rfl hx

section
variable {A : List T} {B : List R} {n : Nat} {rec : T → R → List (T × R) → Res T R} (he : Ends A B n rec) (hs : Sound G H rec)
include he hs

theorem checkList_ends : ∀ (ts : List T) (rs : List R) (seen : List (T × R)), (∀ t ∈ ts, t ∈ A) → (∀ r ∈ rs, r ∈ B) → unseen A B seen ≤ n →
    checkList rec ts rs seen ≠ .more ∧ ∀ s', checkList rec ts rs seen = .ok s' → ∀ p ∈ seen, p ∈ s'
  | t :: ts, r :: rs, seen, ht, hr, hu => by
    rw [checkList]
    have key : ∀ s, rec t r seen = .ok s → unseen A B s ≤ n := fun s h => le_trans (unseen_mono (hs _ _ _ _ h).2.1) hu
    refine ⟨Res.bind_ne_more (he t (ht t List.mem_cons_self) r (hr r List.mem_cons_self) seen hu) fun s h =>
      (checkList_ends ts rs s (fun t h => ht t (List.mem_cons_of_mem _ h)) (fun r h => hr r (List.mem_cons_of_mem _ h)) (key s h)).1, ?_⟩
    intro s' h p hp
    obtain ⟨s1, h1, h2⟩ := Res.bind_ok h
    exact (checkList_ends ts rs s1 (fun t h => ht t (List.mem_cons_of_mem _ h)) (fun r h => hr r (List.mem_cons_of_mem _ h)) (key s1 h1)).2 s' h2 p
      ((hs _ _ _ _ h1).2.1 p hp)
  | [], _, seen, _, _, _ => ⟨by simp [checkList], fun s' h p hp => by simp only [checkList, Res.ok.injEq] at h; exact h ▸ hp⟩
  | _ :: _, [], seen, _, _, _ => ⟨by simp [checkList], fun s' h p hp => by simp only [checkList, Res.ok.injEq] at h; exact h ▸ hp⟩

theorem checkSigs_ends (hB : ∀ r ∈ B, ∀ x ∈ (H r).shape.parts, x ∈ B) {s : Sig T} {fn : R} {skip : Bool} {seen : List (T × R)}
    (hp : ∀ t ∈ s.params ++ s.results, t ∈ A) (hf : fn ∈ B) (hu : unseen A B seen ≤ n) : checkSigs H rec s fn skip seen ≠ .more := by
  unfold checkSigs
  split
  case h_2 => simp
  rename_i ins outs v hsh
  have hparts := hB fn hf
  rw [hsh] at hparts
  dsimp only
  generalize (if (skip && s.recv) = true then 1 else 0) = k
  split
  · simp
  split
  · simp
  split
  · simp
  have h1 := checkList_ends he hs s.params (ins.drop k) seen (fun t h => hp t (List.mem_append_left _ h))
    (fun r h => hparts r (List.mem_append_left _ (List.mem_of_mem_drop h))) hu
  exact Res.bind_ne_more h1.1 fun s1 h => (checkList_ends he hs s.results outs s1 (fun t h => hp t (List.mem_append_right _ h))
    (fun r h => hparts r (List.mem_append_right _ h)) (le_trans (unseen_mono (h1.2 s1 h)) hu)).1

theorem checkMethods_ends (hB : ∀ r ∈ B, ∀ x ∈ (H r).shape.parts, x ∈ B) (rms : List (Str × R)) (hr : ∀ m ∈ rms, m.2 ∈ B) :
    ∀ (ms : List (Str × Sig T)) (seen : List (T × R)), (∀ m ∈ ms, ∀ t ∈ m.2.params ++ m.2.results, t ∈ A) → unseen A B seen ≤ n →
      checkMethods H rec rms ms seen ≠ .more
  | [], seen, _, _ => by simp [checkMethods]
  | (name, s) :: ms, seen, hm, hu => by
    rw [checkMethods]
    split
    · simp
    rename_i m hf
    refine Res.bind_ne_more (checkSigs_ends he hs hB (hm (name, s) List.mem_cons_self) (hr m (List.mem_of_find?_eq_some hf)) hu) fun s1 h =>
      checkMethods_ends hB rms hr ms s1 (fun m h => hm m (List.mem_cons_of_mem _ h)) ?_
    exact le_trans (unseen_mono (checkSigs_sound hs h).1.1) hu

theorem checkFields_ends : ∀ (fs : List (Str × Str × T)) (fs' : List (Str × Str × R)) (seen : List (T × R)), (∀ f ∈ fs, f.2.2 ∈ A) →
    (∀ f ∈ fs', f.2.2 ∈ B) → unseen A B seen ≤ n → checkFields rec fs fs' seen ≠ .more
  | (m, tag, t) :: fs, (m', tag', r) :: fs', seen, ht, hr, hu => by
    rw [checkFields]
    split
    · simp
    split
    · simp
    exact Res.bind_ne_more (he t (ht _ List.mem_cons_self) r (hr _ List.mem_cons_self) seen hu) fun s h =>
      checkFields_ends fs fs' s (fun f h => ht f (List.mem_cons_of_mem _ h)) (fun f h => hr f (List.mem_cons_of_mem _ h))
        (le_trans (unseen_mono (hs _ _ _ _ h).2.1) hu)
  | [], _, seen, _, _, _ => by simp [checkFields]
  | _ :: _, [], seen, _, _, _ => by simp [checkFields]

end

theorem checkTypes_ends (hw : WellFormed G H) {A : List T} {B : List R} (hA : ∀ t ∈ A, ∀ x ∈ (G t).parts, x ∈ A)
    (hB : ∀ r ∈ B, ∀ x ∈ (H r).shape.parts, x ∈ B) : ∀ n, Ends A B n (checkTypes G H (n + 1)) := by
  intro n
  induction n with
  | zero =>
    intro t ht r hr seen hu
    rw [checkTypes]
    split
    · simp
    rename_i hmem
    have hlt := unseen_cons ht hr hmem
    omega
  | succ n he =>
    intro t ht r hr seen hu
    rw [checkTypes]
    split
    · simp
    rename_i hmem
    have hlt := unseen_cons ht hr hmem
    have hs := checkTypes_sound hw (n + 1)
    have hu' : unseen A B ((t, r) :: seen) ≤ n := by omega
    have hTp := hA t ht
    have hRp := hB r hr
    dsimp only
    split
    · rename_i m a hg
      rw [hg] at hTp
      split
      · rename_i m' b hh
        rw [hh] at hRp
        split
        · simp
        · exact he a (hTp a (by simp [TShape.parts])) b (hRp b (by simp [RShape.parts])) _ hu'
      · simp
    · split <;> simp
    · rename_i d a hg
      rw [hg] at hTp
      split
      · rename_i m' b hh
        rw [hh] at hRp
        split
        · simp
        · exact he a (hTp a (by simp [TShape.parts])) b (hRp b (by simp [RShape.parts])) _ hu'
      · simp
    · rename_i ms hg
      rw [hg] at hTp
      split
      · rename_i ms' hh
        rw [hh] at hRp
        split
        · simp
        · refine checkMethods_ends he hs hB ms' (fun m h => hRp _ (List.mem_map_of_mem h)) ms _ (fun m h x hx => hTp x ?_) hu'
          exact List.mem_flatMap.2 ⟨m, h, hx⟩
      · simp
    · rename_i k a hg
      rw [hg] at hTp
      split
      · rename_i k' b hh
        rw [hh] at hRp
        refine Res.bind_ne_more (he k (hTp k (by simp [TShape.parts])) k' (hRp k' (by simp [RShape.parts])) _ hu') fun s h => ?_
        exact he a (hTp a (by simp [TShape.parts])) b (hRp b (by simp [RShape.parts])) _
          (le_trans (unseen_mono (hs _ _ _ _ h).2.1) hu')
      · simp
    · rename_i p nm u hg
      rw [hg] at hTp
      split
      · simp
      · exact he u (hTp u (by simp [TShape.parts])) r hr _ hu'
    · rename_i a hg
      rw [hg] at hTp
      split
      · rename_i b hh
        rw [hh] at hRp
        exact he a (hTp a (by simp [TShape.parts])) b (hRp b (by simp [RShape.parts])) _ hu'
      · simp
    · rename_i s hg
      rw [hg] at hTp
      exact checkSigs_ends he hs hB hTp hr hu'
    · rename_i a hg
      rw [hg] at hTp
      split
      · rename_i b hh
        rw [hh] at hRp
        exact he a (hTp a (by simp [TShape.parts])) b (hRp b (by simp [RShape.parts])) _ hu'
      · simp
    · rename_i fs hg
      rw [hg] at hTp
      split
      · rename_i fs' hh
        rw [hh] at hRp
        split
        · simp
        · exact checkFields_ends he hs fs fs' _ (fun f h => hTp _ (List.mem_map_of_mem (f := fun f => f.2.2) h))
            (fun f h => hRp _ (List.mem_map_of_mem (f := fun f => f.2.2) h)) hu'
      · simp
    · simp

theorem matches_of_seen {seen : List (T × R)} (h : Grows G H [] seen) {a : T} {b : R} (hab : (a, b) ∈ seen) : Matches G H a b :=
  ⟨fun a b => (a, b) ∈ seen, fun a b hab => (h.2 (a, b) hab).resolve_left (by simp), hab⟩

/-! ## The theorems -/

/-- What it means to match: the surfaces agree, and the parts match.  (So `Matches` is not empty talk: by following any path from two
matching types one never sees a difference.) -/
theorem Matches.surface {t : T} {r : R} (h : Matches G H t r) : Surface G H (Matches G H) t r := by
  obtain ⟨Rel, h1, h2⟩ := h
  exact (h1 t r h2).mono fun a b hab => ⟨Rel, h1, hab⟩

/-- **C52.** If a user's type is accepted as a Target, it has each of the methods of Target, with parameters and results whose types match,
through arbitrarily recursive types.  For every pair of type graphs, every method set, and every order of iteration. -/
theorem C52_accepted_matches (hw : WellFormed G H) (fuel : Nat) (methods : Str → Option (Sig T))
    (hm : ∀ name s, methods name = some s → s.recv = true) (target : List (Str × R)) (h : checkImplements G H fuel methods target = .implements) :
    ∀ name fn, (name, fn) ∈ target → ∃ s, methods name = some s ∧ MethodMatches G H s fn := by
  induction target with
  | nil => simp
  | cons m rest ih =>
    obtain ⟨name, fn⟩ := m
    rw [checkImplements] at h
    split at h
    · cases h
    rename_i s hs
    split at h
    · rename_i seen hc
      intro name' fn' hmem
      rcases List.mem_cons.1 hmem with he | hmem
      · obtain ⟨rfl, rfl⟩ := Prod.mk.inj he
        obtain ⟨hg, ins, outs, v, hf, hh⟩ := checkSigs_sound (checkTypes_sound hw fuel) hc
        rw [if_pos (by simp [hm _ _ hs])] at hh
        obtain ⟨self, ins', rfl, hsame⟩ := hh
        exact ⟨s, hs, self, ins', outs, v, hf, hsame.mono fun a b hab => matches_of_seen hg hab⟩
      · exact ih h name' fn' hmem
    · cases h
    · cases h

theorem checkSigs_method_complete (hw : WellFormed G H) (fuel : Nat) {s : Sig T} (hr : s.recv = true) {fn : R}
    (h : MethodMatches G H s fn) (seen : List (T × R)) : checkSigs H (checkTypes G H fuel) s fn true seen ≠ .err := by
  obtain ⟨self, ins, outs, v, hf, hs⟩ := h
  exact checkSigs_complete (checkTypes_complete hw (Rel := Matches G H) (fun a b hab => hab.surface) fuel) (self := [self]) hf (by simp [hr]) hs seen

/-- **C53.** On types made of finitely many parts (`A` and `B`, which may refer to each other in cycles) the check terminates, whatever the
method set and the order of iteration; and it accepts exactly the types that have the methods of Target with matching types.

`N` bounds the depth of the recursion: it is the number of pairs of types, and it does not depend on the method set. -/
theorem C53_terminates_and_accepts (hw : WellFormed G H) (A : List T) (B : List R) (hA : ∀ t ∈ A, ∀ x ∈ (G t).parts, x ∈ A)
    (hB : ∀ r ∈ B, ∀ x ∈ (H r).shape.parts, x ∈ B) (methods : Str → Option (Sig T))
    (hm : ∀ name s, methods name = some s → s.recv = true ∧ ∀ t ∈ s.params ++ s.results, t ∈ A) (target : List (Str × R))
    (ht : ∀ m ∈ target, m.2 ∈ B) (fuel : Nat) (hf : A.length * B.length < fuel) :
    checkImplements G H fuel methods target ≠ .more ∧
    (checkImplements G H fuel methods target = .implements ↔
      ∀ name fn, (name, fn) ∈ target → ∃ s, methods name = some s ∧ MethodMatches G H s fn) := by
  have hend : Ends A B (A.length * B.length) (checkTypes G H fuel) := by
    intro t ht r hr seen hu
    obtain ⟨k, rfl⟩ : ∃ k, fuel = k + 1 := ⟨fuel - 1, by omega⟩
    exact checkTypes_ends hw hA hB k t ht r hr seen (by omega)
  have hsnd := checkTypes_sound hw fuel
  have hlen : ∀ seen, unseen A B seen ≤ A.length * B.length := by
    intro seen
    unfold unseen
    refine le_trans (List.length_filter_le ..) (le_of_eq ?_)
    rw [List.product, List.length_flatMap]; simp [List.map_const']
  have hmore : ∀ target : List (Str × R), (∀ m ∈ target, m.2 ∈ B) → checkImplements G H fuel methods target ≠ .more := by
    intro target
    induction target with
    | nil => simp [checkImplements]
    | cons m rest ih =>
      intro ht
      obtain ⟨name, fn⟩ := m
      rw [checkImplements]
      split
      · simp
      rename_i s hs
      split
      · exact ih fun m h => ht m (List.mem_cons_of_mem _ h)
      · simp
      · rename_i hmo
        exact absurd hmo (checkSigs_ends hend hsnd hB (hm _ _ hs).2 (ht _ List.mem_cons_self) (hlen _))
  refine ⟨hmore target ht, C52_accepted_matches hw fuel methods (fun n s h => (hm n s h).1) target, ?_⟩
  intro hall
  have : ∀ target : List (Str × R), (∀ m ∈ target, m.2 ∈ B) →
      (∀ name fn, (name, fn) ∈ target → ∃ s, methods name = some s ∧ MethodMatches G H s fn) →
      checkImplements G H fuel methods target = .implements := by
    intro target
    induction target with
    | nil => simp [checkImplements]
    | cons m rest ih =>
      intro ht hall
      obtain ⟨name, fn⟩ := m
      obtain ⟨s, hs, hmm⟩ := hall name fn List.mem_cons_self
      rw [checkImplements, hs]
      dsimp only
      split
      · exact ih (fun m h => ht m (List.mem_cons_of_mem _ h)) fun n f h => hall n f (List.mem_cons_of_mem _ h)
      · rename_i he
        exact absurd he (checkSigs_method_complete hw fuel (hm _ _ hs).1 hmm [])
      · rename_i hmo
        exact absurd hmo (checkSigs_ends hend hsnd hB (hm _ _ hs).2 (ht _ List.mem_cons_self) (hlen _))
  exact this target ht hall

/-- ... so the answer does not depend on the order in which the methods of Target are gone through. -/
theorem C53_order_independent (hw : WellFormed G H) (A : List T) (B : List R) (hA : ∀ t ∈ A, ∀ x ∈ (G t).parts, x ∈ A)
    (hB : ∀ r ∈ B, ∀ x ∈ (H r).shape.parts, x ∈ B) (methods : Str → Option (Sig T))
    (hm : ∀ name s, methods name = some s → s.recv = true ∧ ∀ t ∈ s.params ++ s.results, t ∈ A) (target target' : List (Str × R))
    (ht : ∀ m ∈ target, m.2 ∈ B) (hp : target.Perm target') (fuel : Nat) (hf : A.length * B.length < fuel) :
    checkImplements G H fuel methods target = checkImplements G H fuel methods target' := by
  have h1 := C53_terminates_and_accepts hw A B hA hB methods hm target ht fuel hf
  have h2 := C53_terminates_and_accepts hw A B hA hB methods hm target' (fun m h => ht m (hp.mem_iff.2 h)) fuel hf
  have h3 : checkImplements G H fuel methods target = .implements ↔ checkImplements G H fuel methods target' = .implements := by
    rw [h1.2, h2.2]
    exact forall_congr' fun n => forall_congr' fun f => by rw [hp.mem_iff]
  generalize checkImplements G H fuel methods target = a at *
  generalize checkImplements G H fuel methods target' = b at *
  cases a <;> cases b <;> simp_all

end Proofs

/-! ## Examples -/

/-- The reflected side: a small version of the types of Target.  0: Run, 12: Desc, 2: context.Context, 3: *Controller, whose struct refers
to *Controller and to a map of itself, 4: error. -/
def exH : Nat → RType Nat
  | 0 => ⟨[], [], .func [1, 2, 3] [4] false⟩
  | 1 => ⟨"fab".toList, "nullTarget".toList, .struct []⟩
  | 2 => ⟨"context".toList, "Context".toList, .iface [("Err".toList, 5), ("Value".toList, 6)]⟩
  | 3 => ⟨[], [], .ptr 7⟩
  | 4 => ⟨[], "error".toList, .iface [("Error".toList, 9)]⟩
  | 5 => ⟨[], [], .func [] [4] false⟩
  | 6 => ⟨[], [], .func [11] [11] false⟩
  | 7 => ⟨"fab".toList, "Controller".toList, .struct [("parent".toList, [], 3), ("byName".toList, "json:\"x\"".toList, 13)]⟩
  | 9 => ⟨[], [], .func [] [10] false⟩
  | 10 => ⟨[], "string".toList, .basic .string⟩
  | 11 => ⟨[], [], .iface []⟩
  | 12 => ⟨[], [], .func [1] [10] false⟩
  | 13 => ⟨[], [], .map 10 3⟩
  | _ => ⟨[], [], .basic .bool⟩

/-- The user's side: 0: context.Context, 1: *Controller, 2: error, 3: string, ... -/
def exG : Nat → TShape Nat
  | 0 => .named "context".toList "Context".toList 4
  | 1 => .ptr 5
  | 2 => .named [] "error".toList 6
  | 3 => .basic (some .string)
  | 4 => .iface [("Err".toList, ⟨true, [], [2], false⟩), ("Value".toList, ⟨true, [7], [7], false⟩)]
  | 5 => .named "fab".toList "Controller".toList 8
  | 6 => .iface [("Error".toList, ⟨true, [], [3], false⟩)]
  | 7 => .iface []
  | 8 => .struct [("parent".toList, [], 1), ("byName".toList, "json:\"x\"".toList, 9)]
  | 9 => .map 3 1
  | 10 => .named "fab".toList "Controller".toList 11
  | 11 => .struct [("parent".toList, [], 1), ("byName".toList, "json:\"y\"".toList, 9)]
  | 12 => .ptr 10
  | 13 => .named "other".toList "Controller".toList 8
  | 14 => .ptr 13
  | 15 => .ptr 8
  | _ => .other

/-- the method set of a type with the methods of Target, whose controller has type `c` -/
def exMethods (c : Nat) (name : Str) : Option (Sig Nat) :=
  if name = "Run".toList then some ⟨true, [0, c], [2], false⟩
  else if name = "Desc".toList then some ⟨true, [], [3], false⟩
  else none

/-- `targetMethods` -/
def exTarget : List (Str × Nat) := [("Desc".toList, 12), ("Run".toList, 0)]

theorem ex_iface {n : Nat} {ms : List (Str × Sig Nat)} (h : exG n = .iface ms) : (ms.map Prod.fst).Nodup := by
  unfold exG at h
  split at h <;> first | (injection h with h; subst h; decide +kernel) | cases h

theorem ex_iface' {n : Nat} {ms : List (Str × Nat)} (h : (exH n).shape = .iface ms) : (ms.map Prod.fst).Nodup := by
  unfold exH at h
  split at h <;> first | (injection h with h; subst h; decide +kernel) | cases h

theorem ex_wf : WellFormed exG exH where
  tNames _ _ h := ex_iface h
  rNames _ _ h := ex_iface' h
  noRecv t s h := by unfold exG at h; split at h <;> cases h

/-- the finite, cyclic graphs are closed -/
theorem ex_closed : (∀ t ∈ List.range 17, ∀ x ∈ (exG t).parts, x ∈ List.range 17) ∧
    ∀ r ∈ List.range 14, ∀ x ∈ (exH r).shape.parts, x ∈ List.range 14 := by
  constructor <;> decide +kernel

theorem ex_methods (c : Nat) (hc : c < 17) : ∀ name s, exMethods c name = some s → s.recv = true ∧ ∀ t ∈ s.params ++ s.results, t ∈ List.range 17 := by
  intro name s h
  unfold exMethods at h
  split at h
  · injection h with h; subst h; simp; omega
  · split at h
    · injection h with h; subst h; simp
    · cases h

-- the hypotheses of C52 and C53 are met by recursive types, and the genuine type is accepted
example : checkImplements exG exH 239 (exMethods 1) exTarget = .implements := by decide +kernel
example : ∀ name fn, (name, fn) ∈ exTarget → ∃ s, exMethods 1 name = some s ∧ MethodMatches exG exH s fn :=
  (C53_terminates_and_accepts ex_wf (List.range 17) (List.range 14) ex_closed.1 ex_closed.2 (exMethods 1) (ex_methods 1 (by omega)) exTarget
    (by decide +kernel) 239 (by simp)).2.1 (by decide +kernel)

-- a Controller with another tag on a field is not accepted, and indeed does not match
example : checkImplements exG exH 239 (exMethods 12) exTarget = .doesNot := by decide +kernel
example : ¬ ∀ name fn, (name, fn) ∈ exTarget → ∃ s, exMethods 12 name = some s ∧ MethodMatches exG exH s fn := by
  rw [← (C53_terminates_and_accepts ex_wf (List.range 17) (List.range 14) ex_closed.1 ex_closed.2 (exMethods 12) (ex_methods 12 (by omega)) exTarget
    (by decide +kernel) 239 (by simp)).2]
  decide +kernel

-- a missing method, an argument of a kind the code does not handle
example : checkImplements exG exH 239 (fun _ => none) exTarget = .doesNot := by decide +kernel
example : checkImplements exG exH 239 (exMethods 16) exTarget = .doesNot := by decide +kernel

/-- **Accepted, but not a Target: another package.** The code compares the bare names of defined types: a type whose Run takes a pointer to
a type Controller of another package, with the same fields, is accepted, although it does not implement Target in Go. -/
theorem C52_finding_other_package : ∃ (u : Nat), exG 14 = .ptr 13 ∧ exG 13 = .named "other".toList "Controller".toList u ∧
    exH 3 = ⟨[], [], .ptr 7⟩ ∧ (exH 7).pkg = "fab".toList ∧ (exH 7).name = "Controller".toList ∧
    checkImplements exG exH 239 (exMethods 14) exTarget = .implements :=
  ⟨8, rfl, rfl, rfl, rfl, rfl, by decide +kernel⟩

/-- **Accepted, but not a Target: no name.** The name of a defined type is compared only if the user's type is a defined type: a type whose
Run takes a pointer to a bare struct with the fields of Controller is accepted. -/
theorem C52_finding_unnamed : ∃ fields, exG 15 = .ptr 8 ∧ exG 8 = .struct fields ∧ (exH 7).name = "Controller".toList ∧
    checkImplements exG exH 239 (exMethods 15) exTarget = .implements :=
  ⟨_, rfl, rfl, rfl, by decide +kernel⟩

/-- Conversely, a type with a part of a kind that the code does not handle matches nothing, not even its own reflection. -/
theorem C53_finding_unhandled {T R : Type} [DecidableEq T] [DecidableEq R] (G : T → TShape T) (H : R → RType R) (t : T) (ht : G t = .other) (r : R)
    (fuel : Nat) : checkTypes G H (fuel + 1) t r [] = .err ∧ ¬ Matches G H t r := by
  refine ⟨by simp [checkTypes, ht], fun h => ?_⟩
  cases h.surface <;> simp_all

end Fab.Types
