import Mathlib.Data.List.Induction
import Verif.FS
import Verif.Contrib.Proto

/-!
# Go packages, Go binaries and TypeScript declarations: model of /repo/golang/go.go, /repo/ts/tsdecls.go and of the YAML decoders of these
and of /repo/proto/proto.go; C55, C64, C65, C66

`packages.Load` (golang.org/x/tools) is a parameter: it gives a graph of packages, or an error.  `filepath.Glob` is a parameter.
-/

set_option linter.unusedSectionVars false
set_option linter.unusedVariables false

namespace Fab.GoPkg
open Path

/-! ## Deps: the model -/

/-- `packages.Package`, the fields that the code uses. -/
structure Pkg (P : Type) where
  /-- `pkg.Module.Path`; `none` if `pkg.Module` is nil -/
  module : Option Str
  goFiles : List Str
  compiledGoFiles : List Str
  otherFiles : List Str
  embedFiles : List Str
  embedPatterns : List Str
  /-- the values of the map `Imports`, in the order in which the loop meets them -/
  imports : List P
  /-- whether `pkg.Errors` is not empty -/
  errors : Bool

inductive GErr
  /-- `loading from %s` -/
  | load
  /-- `after loading from %s` -/
  | package
  /-- `filepath.ErrBadPattern` -/
  | pattern (p : Str)
  deriving DecidableEq

inductive Res
  | ok (s : List Str)
  | err (e : GErr)
  /-- a nil pointer is dereferenced -/
  | panic
  /-- out of fuel -/
  | more

section
variable {P : Type} (G : P → Pkg P) (glob : Str → Option (List Str))

/-- /repo/golang/go.go:144-150: the loop over the patterns. -/
def globs : List Str → List Str → Res
  | [], s => .ok s
  | p :: ps, s =>
    match glob p with
    | none => .err (.pattern p)
    | some ms => globs ps (Proto.addAll s ms)

/-- /repo/golang/go.go:151-155: the loop over the imports; `one` is the recursive call. -/
def impLoop (one : P → List Str → Res) : List P → List Str → Res
  | [], s => .ok s
  | p :: ps, s =>
    match one p s with
    | .ok s' => impLoop one ps s'
    | r => r

/-- /repo/golang/go.go:133-157 `gopkgAdd`.  The first argument bounds the depth of the recursion. -/
def gopkgAdd (modpath : Str) : Nat → P → List Str → Res
  | 0, _, _ => .more
  | n + 1, p, s =>
    if (G p).module = none then .ok s
    else if (G p).module ≠ some modpath then .ok s
    else
      match globs glob (G p).embedPatterns
        (Proto.addAll (Proto.addAll (Proto.addAll (Proto.addAll s (G p).goFiles) (G p).compiledGoFiles) (G p).otherFiles) (G p).embedFiles) with
      | .ok s' => impLoop (gopkgAdd modpath n) (G p).imports s'
      | r => r

/-- /repo/golang/go.go:122-126: the loop over the packages loaded. -/
def roots (n : Nat) : List P → List Str → Res
  | [], s => .ok s
  | p :: ps, s =>
    match (G p).module with
    | none => .panic
    | some m =>
      match gopkgAdd G glob m n p s with
      | .ok s' => roots n ps s'
      | r => r

/-- /repo/golang/go.go:95-131 `Deps`; `loaded` is what `packages.Load` gives. -/
def deps (n : Nat) (loaded : Option (List P)) : Res :=
  match loaded with
  | none => .err .load
  | some ps =>
    if ps.any fun p => (G p).errors then .err .package
    else match roots G glob n ps [] with
      | .ok s => .ok (sortStrs s)
      | r => r

end

/-! ## What the words mean -/

section
variable {P : Type} (G : P → Pkg P) (glob : Str → Option (List Str))

/-- `q` can be reached from `p` through imports, within the module. -/
inductive Within (m : Str) (p : P) : P → Prop
  | refl : (G p).module = some m → Within m p p
  | step {q r : P} : Within m p q → r ∈ (G q).imports → (G r).module = some m → Within m p r

/-- `x` is one of the files of the package. -/
def FileOf (p : P) (x : Str) : Prop :=
  x ∈ (G p).goFiles ∨ x ∈ (G p).compiledGoFiles ∨ x ∈ (G p).otherFiles ∨ x ∈ (G p).embedFiles

/-- One of the package's embedding patterns, taken relative to the working directory, matches `x`. -/
def Matched (p : P) (x : Str) : Prop := ∃ pat ∈ (G p).embedPatterns, ∃ ms, glob pat = some ms ∧ x ∈ ms

end

/-! ## The traversal -/

section
variable {P : Type} {G : P → Pkg P} {glob : Str → Option (List Str)}

theorem globs_ok {ps s s' : List Str} (h : globs glob ps s = .ok s') :
    (s.Nodup → s'.Nodup) ∧ ∀ x, x ∈ s' ↔ x ∈ s ∨ ∃ pat ∈ ps, ∃ ms, glob pat = some ms ∧ x ∈ ms := by
  induction ps generalizing s with
  | nil =>
    simp only [globs, Res.ok.injEq] at h
    subst h
    simp
  | cons p ps ih =>
    unfold globs at h
    cases hp : glob p with
    | none => rw [hp] at h; cases h
    | some ms =>
      rw [hp] at h
      obtain ⟨h1, h2⟩ := ih h
      refine ⟨fun hn => h1 (Proto.addAll_nodup hn), fun x => ?_⟩
      rw [h2, Proto.mem_addAll]
      simp only [List.mem_cons, exists_eq_or_imp, hp, Option.some.injEq, exists_eq_left']
      tauto

/-- What the sub-call adds: `x` is a file of, or matched by, a package within the module. -/
def Adds (G : P → Pkg P) (glob : Str → Option (List Str)) (m : Str) (p : P) (x : Str) : Prop :=
  ∃ q, Within G m p q ∧ (FileOf G q x ∨ Matched G glob q x)

theorem within_unfold {m : Str} {p q : P} (hm : (G p).module = some m) :
    Within G m p q ↔ q = p ∨ ∃ r ∈ (G p).imports, Within G m r q := by
  constructor
  · intro h
    induction h with
    | refl _ => exact .inl rfl
    | step h1 h2 h3 ih =>
      rcases ih with rfl | ⟨r, hr, hw⟩
      · exact .inr ⟨_, h2, .refl h3⟩
      · exact .inr ⟨r, hr, .step hw h2 h3⟩
  · rintro (rfl | ⟨r, hr, hw⟩)
    · exact .refl hm
    · induction hw with
      | refl h => exact .step (.refl hm) hr h
      | step _ h2 h3 ih => exact .step ih h2 h3

theorem within_module {m : Str} {p q : P} (h : Within G m p q) : (G p).module = some m := by
  induction h with
  | refl h => exact h
  | step _ _ _ ih => exact ih

theorem impLoop_ok {one : P → List Str → Res} {A : P → Str → Prop} (hone : ∀ p s s', one p s = .ok s' →
    (s.Nodup → s'.Nodup) ∧ ∀ x, x ∈ s' ↔ x ∈ s ∨ A p x) {ps : List P} {s s' : List Str} (h : impLoop one ps s = .ok s') :
    (s.Nodup → s'.Nodup) ∧ ∀ x, x ∈ s' ↔ x ∈ s ∨ ∃ p ∈ ps, A p x := by
  induction ps generalizing s with
  | nil =>
    simp only [impLoop, Res.ok.injEq] at h
    subst h
    simp
  | cons p ps ih =>
    unfold impLoop at h
    cases hp : one p s with
    | ok s1 =>
      rw [hp] at h
      obtain ⟨h1, h2⟩ := ih h
      obtain ⟨h3, h4⟩ := hone p s s1 hp
      refine ⟨fun hn => h1 (h3 hn), fun x => ?_⟩
      rw [h2, h4]
      simp only [List.mem_cons, exists_eq_or_imp]
      tauto
    | err e => rw [hp] at h; cases h
    | panic => rw [hp] at h; cases h
    | more => rw [hp] at h; cases h

theorem gopkgAdd_ok {m : Str} (n : Nat) : ∀ p s s', gopkgAdd G glob m n p s = .ok s' →
    (s.Nodup → s'.Nodup) ∧ ∀ x, x ∈ s' ↔ x ∈ s ∨ Adds G glob m p x := by
  induction n with
  | zero => intro p s s' h; cases h
  | succ n ih =>
    intro p s s' h
    unfold gopkgAdd at h
    have hno : (G p).module ≠ some m → ∀ x, ¬ Adds G glob m p x := by
      rintro hm x ⟨q, hq, -⟩
      exact hm (within_module hq)
    by_cases h0 : (G p).module = none
    · rw [if_pos h0] at h
      injection h with h
      subst h
      exact ⟨fun h => h, fun x => by simp [hno (by rw [h0]; simp) x]⟩
    · rw [if_neg h0] at h
      by_cases h1 : (G p).module ≠ some m
      · rw [if_pos h1] at h
        injection h with h
        subst h
        exact ⟨fun h => h, fun x => by simp [hno h1 x]⟩
      · rw [if_neg h1] at h
        have hm : (G p).module = some m := not_not.1 h1
        split at h
        · rename_i s1 hg
          obtain ⟨h2, h3⟩ := globs_ok hg
          obtain ⟨h4, h5⟩ := impLoop_ok ih h
          refine ⟨fun hn => h4 (h2 (Proto.addAll_nodup (Proto.addAll_nodup (Proto.addAll_nodup (Proto.addAll_nodup hn))))), fun x => ?_⟩
          rw [h5, h3]
          simp only [Proto.mem_addAll]
          have : Adds G glob m p x ↔ (FileOf G p x ∨ Matched G glob p x) ∨ ∃ r ∈ (G p).imports, Adds G glob m r x := by
            unfold Adds
            constructor
            · rintro ⟨q, hq, hx⟩
              rcases (within_unfold hm).1 hq with rfl | ⟨r, hr, hw⟩
              · exact .inl hx
              · exact .inr ⟨r, hr, q, hw, hx⟩
            · rintro (hx | ⟨r, hr, q, hw, hx⟩)
              · exact ⟨p, .refl hm, hx⟩
              · exact ⟨q, (within_unfold hm).2 (.inr ⟨r, hr, hw⟩), hx⟩
          rw [this]
          simp only [FileOf, Matched, or_assoc]
        · rename_i hne
          exact absurd h (hne s')

theorem roots_ok {n : Nat} {ps : List P} {s s' : List Str} (h : roots G glob n ps s = .ok s') :
    (s.Nodup → s'.Nodup) ∧ ∀ x, x ∈ s' ↔ x ∈ s ∨ ∃ p ∈ ps, ∃ m, (G p).module = some m ∧ Adds G glob m p x := by
  induction ps generalizing s with
  | nil =>
    simp only [roots, Res.ok.injEq] at h
    subst h
    simp
  | cons p ps ih =>
    unfold roots at h
    cases hm : (G p).module with
    | none => rw [hm] at h; cases h
    | some m =>
      rw [hm] at h
      dsimp only at h
      cases hp : gopkgAdd G glob m n p s with
      | ok s1 =>
        rw [hp] at h
        obtain ⟨h1, h2⟩ := ih h
        obtain ⟨h3, h4⟩ := gopkgAdd_ok n p s s1 hp
        refine ⟨fun hn => h1 (h3 hn), fun x => ?_⟩
        rw [h2, h4]
        simp only [List.mem_cons, exists_eq_or_imp, hm, Option.some.injEq, exists_eq_left']
        tauto
      | err e => rw [hp] at h; cases h
      | panic => rw [hp] at h; cases h
      | more => rw [hp] at h; cases h

end

/-! ## C55 -/

section
variable {P : Type}

theorem deps_ok {G : P → Pkg P} {glob : Str → Option (List Str)} {n : Nat} {loaded : Option (List P)} {l : List Str}
    (h : deps G glob n loaded = .ok l) : ∃ ps s, loaded = some ps ∧ (∀ p ∈ ps, (G p).errors = false) ∧ l = sortStrs s ∧ s.Nodup ∧
      ∀ x, x ∈ l ↔ ∃ p ∈ ps, ∃ m, (G p).module = some m ∧ Adds G glob m p x := by
  unfold deps at h
  cases loaded with
  | none => cases h
  | some ps =>
    dsimp only at h
    split at h
    · cases h
    · rename_i he
      split at h
      · rename_i s hs
        injection h with h
        subst h
        obtain ⟨h1, h2⟩ := roots_ok hs
        refine ⟨ps, s, rfl, ?_, rfl, h1 (by simp), fun x => ?_⟩
        · intro p hp
          cases hb : (G p).errors with
          | false => rfl
          | true => exact absurd (List.any_eq_true.2 ⟨p, hp, hb⟩) he
        · rw [mem_sortStrs, h2]; simp
      · rename_i hne
        exact absurd h (hne l)

/-- **What the list consists of**: the files of the packages that can be reached within the module of a loaded package, and what their embedding
patterns match in the working directory.  It is in order and free of duplicates, and no loaded package had errors. -/
theorem C55_contents (G : P → Pkg P) (glob : Str → Option (List Str)) (n : Nat) (loaded : Option (List P)) (l : List Str)
    (h : deps G glob n loaded = .ok l) : ∃ ps, loaded = some ps ∧ (∀ p ∈ ps, (G p).errors = false) ∧ l.Pairwise (· < ·) ∧
      ∀ x, x ∈ l ↔ ∃ p ∈ ps, ∃ m, (G p).module = some m ∧ ∃ q, Within G m p q ∧ (FileOf G q x ∨ Matched G glob q x) := by
  obtain ⟨ps, s, h1, h2, rfl, h3, h4⟩ := deps_ok h
  exact ⟨ps, h1, h2, sortStrs_nodup h3, h4⟩

/-- **C55, for packages whose embedding patterns match nothing in the working directory** (packages that embed nothing, for instance): the list is
exactly the files of the packages reachable within the module.  Otherwise it can have other files: `C55_counterexample_patterns`. -/
theorem C55_exact_partial (G : P → Pkg P) (glob : Str → Option (List Str)) (n : Nat) (p : P) (m : Str) (hm : (G p).module = some m) (l : List Str)
    (h : deps G glob n (some [p]) = .ok l) (hg : ∀ q, Within G m p q → ∀ pat ∈ (G q).embedPatterns, glob pat = some []) :
    l.Pairwise (· < ·) ∧ ∀ x, x ∈ l ↔ ∃ q, Within G m p q ∧ FileOf G q x := by
  obtain ⟨ps, h1, -, h3, h4⟩ := C55_contents G glob n _ l h
  injection h1 with h1
  subst h1
  refine ⟨h3, fun x => ?_⟩
  rw [h4]
  constructor
  · rintro ⟨p', hp', m', hm', q, hq, hx⟩
    simp only [List.mem_singleton] at hp'
    subst hp'
    rw [hm] at hm'
    injection hm' with hm'
    subst hm'
    refine ⟨q, hq, ?_⟩
    rcases hx with hx | ⟨pat, hpat, ms, hms, hx⟩
    · exact hx
    · rw [hg q hq pat hpat] at hms
      injection hms with hms
      subst hms
      cases hx
  · rintro ⟨q, hq, hx⟩
    exact ⟨p, by simp, m, hm, q, hq, .inl hx⟩

/-- **The order in which maps are traversed does not matter**: two graphs with the same packages, listed in different orders, give the same list. -/
theorem C55_order_independent (G G' : P → Pkg P) (glob : Str → Option (List Str)) (n n' : Nat) (ps ps' : List P) (l l' : List Str)
    (hps : ∀ p, p ∈ ps ↔ p ∈ ps') (hmod : ∀ p, (G p).module = (G' p).module) (himp : ∀ p q, q ∈ (G p).imports ↔ q ∈ (G' p).imports)
    (hfile : ∀ p x, FileOf G p x ↔ FileOf G' p x) (hpat : ∀ p pat, pat ∈ (G p).embedPatterns ↔ pat ∈ (G' p).embedPatterns)
    (h : deps G glob n (some ps) = .ok l) (h' : deps G' glob n' (some ps') = .ok l') : l = l' := by
  obtain ⟨qs, h1, -, h3, h4⟩ := C55_contents G glob n _ l h
  obtain ⟨qs', h1', -, h3', h4'⟩ := C55_contents G' glob n' _ l' h'
  injection h1 with h1
  injection h1' with h1'
  subst h1 h1'
  have hw : ∀ m p q, Within G m p q ↔ Within G' m p q := by
    intro m p q
    constructor
    · intro h
      induction h with
      | refl h => exact .refl (hmod _ ▸ h)
      | step _ h2 h3 ih => exact .step ih ((himp _ _).1 h2) (hmod _ ▸ h3)
    · intro h
      induction h with
      | refl h => exact .refl (by rw [hmod]; exact h)
      | step _ h2 h3 ih => exact .step ih ((himp _ _).2 h2) (by rw [hmod]; exact h3)
  have hm : ∀ p x, Matched G glob p x ↔ Matched G' glob p x := by
    intro p x
    unfold Matched
    simp only [hpat]
  have hmem : ∀ x, x ∈ l ↔ x ∈ l' := by
    intro x
    rw [h4, h4']
    simp only [hps, hmod, hw, hfile, hm]
  have hp : l.Perm l' := (List.perm_ext_iff_of_nodup (h3.imp (fun h => ne_of_lt h)) (h3'.imp (fun h => ne_of_lt h))).2 hmem
  exact sorted_perm_eq hp (h3.imp le_of_lt) (h3'.imp le_of_lt)

/-- **`Deps` terminates on acyclic import graphs** (Go's are): the depth of the recursion is bounded by any measure that decreases along imports. -/
theorem C55_terminates (G : P → Pkg P) (glob : Str → Option (List Str)) (rank : P → Nat) (hr : ∀ p, ∀ q ∈ (G p).imports, rank q < rank p)
    (n : Nat) (loaded : Option (List P)) (hn : ∀ ps, loaded = some ps → ∀ p ∈ ps, rank p < n) : deps G glob n loaded ≠ .more := by
  have hglob : ∀ ps s, globs glob ps s ≠ .more := by
    intro ps
    induction ps with
    | nil => intro s; simp [globs]
    | cons p ps ih =>
      intro s
      unfold globs
      cases glob p with
      | none => simp
      | some ms => exact ih _
  have hadd : ∀ n m p s, rank p < n → gopkgAdd G glob m n p s ≠ .more := by
    intro n
    induction n with
    | zero => intro m p s h; omega
    | succ n ih =>
      intro m p s hp
      have himp : ∀ ps : List P, (∀ q ∈ ps, rank q < n) → ∀ s, impLoop (gopkgAdd G glob m n) ps s ≠ .more := by
        intro ps
        induction ps with
        | nil => intro _ s; simp [impLoop]
        | cons q ps ih2 =>
          intro hq s
          unfold impLoop
          have := ih m q s (hq q (by simp))
          cases hres : gopkgAdd G glob m n q s with
          | ok s' => exact ih2 (fun r hr => hq r (by simp [hr])) s'
          | err e => simp
          | panic => simp
          | more => exact absurd hres this
      unfold gopkgAdd
      split
      · simp
      · split
        · simp
        · split
          · exact himp _ (fun q hq => by have := hr p q hq; omega) _
          · exact hglob _ _
  unfold deps
  cases loaded with
  | none => simp
  | some ps =>
    dsimp only
    split
    · simp
    · have : ∀ ps' : List P, (∀ p ∈ ps', rank p < n) → ∀ s, roots G glob n ps' s ≠ .more := by
        intro ps'
        induction ps' with
        | nil => intro _ s; simp [roots]
        | cons q ps' ih2 =>
          intro hq s
          unfold roots
          cases hm : (G q).module with
          | none => simp
          | some m =>
            dsimp only
            have := hadd n m q s (hq q (by simp))
            cases hres : gopkgAdd G glob m n q s with
            | ok s' => exact ih2 (fun r hr => hq r (by simp [hr])) s'
            | err e => simp
            | panic => simp
            | more => exact absurd hres this
      have h1 := this ps (hn ps rfl) []
      split
      · simp
      · exact h1

/-- **Errors are reported**: if loading fails or a loaded package has errors, then `Deps` returns an error. -/
theorem C55_errors (G : P → Pkg P) (glob : Str → Option (List Str)) (n : Nat) (loaded : Option (List P))
    (h : loaded = none ∨ ∃ ps, loaded = some ps ∧ ∃ p ∈ ps, (G p).errors = true) : ∃ e, deps G glob n loaded = .err e := by
  rcases h with rfl | ⟨ps, rfl, p, hp, he⟩
  · exact ⟨_, rfl⟩
  · refine ⟨.package, ?_⟩
    unfold deps
    dsimp only
    rw [if_pos (List.any_eq_true.2 ⟨p, hp, he⟩)]

/-- A package outside of every module makes the code dereference a nil pointer. -/
theorem C55_finding_no_module (G : P → Pkg P) (glob : Str → Option (List Str)) (n : Nat) (p : P) (hm : (G p).module = none)
    (he : (G p).errors = false) : deps G glob n (some [p]) = .panic := by
  unfold deps roots
  simp [hm, he]

end

/-- a module `m` of three packages, of which 0 imports 1 and 2, and 1 imports 2 and a package of another module, which imports a fifth -/
def exG : Fin 5 → Pkg (Fin 5)
  | 0 => ⟨some "m".toList, ["/m/main.go".toList], ["/m/main.go".toList], [], [], [], [1, 2], false⟩
  | 1 => ⟨some "m".toList, ["/m/a/a.go".toList], [], ["/m/a/a.s".toList], [], [], [2, 3], false⟩
  | 2 => ⟨some "m".toList, ["/m/b/b.go".toList], [], [], ["/m/b/data".toList], ["data".toList], [], false⟩
  | 3 => ⟨some "other".toList, ["/o/o.go".toList], [], [], [], [], [4], false⟩
  | 4 => ⟨some "m".toList, ["/m/c/c.go".toList], [], [], [], [], [], false⟩

def Res.files : Res → Option (List Str)
  | .ok s => some s
  | _ => none

theorem Res.files_ok {r : Res} {s : List Str} (h : r.files = some s) : r = .ok s := by
  cases r <;> simp_all [Res.files]

def exGlob : Str → Option (List Str) := fun _ => some []

theorem ex_deps : deps exG exGlob 5 (some [0]) =
    .ok ["/m/a/a.go".toList, "/m/a/a.s".toList, "/m/b/b.go".toList, "/m/b/data".toList, "/m/main.go".toList] :=
  Res.files_ok (by decide +kernel)
example : Within exG "m".toList 0 2 := .step (.step (.refl rfl) (by decide : (1 : Fin 5) ∈ (exG 0).imports) rfl) (by decide : (2 : Fin 5) ∈ (exG 1).imports) rfl
example : ∀ p, ∀ q ∈ (exG p).imports, (4 - q.val : Nat) < 4 - p.val := by decide

/-- the working directory has a file called `data`, and the package does not -/
def cwdGlob : Str → Option (List Str) := fun _ => some ["data".toList]

/-- **The list can contain files that belong to no package**: the embedding patterns of a package are relative to its directory, but are matched
in the working directory of the process. -/
theorem C55_counterexample_patterns : deps exG cwdGlob 5 (some [2]) = .ok ["/m/b/b.go".toList, "/m/b/data".toList, "data".toList] ∧
    ¬ ∃ q, Within exG "m".toList 2 q ∧ FileOf exG q "data".toList := by
  refine ⟨Res.files_ok (by decide +kernel), ?_⟩
  have key : ∀ q, ¬ FileOf exG q "data".toList := by unfold FileOf; decide +kernel
  rintro ⟨q, -, hq⟩
  exact key q hq

/-! ## Binary: the model -/

/-- the `Files` target that `Binary` makes: a command `go` with arguments -/
structure Target where
  args : List Str
  ins : List Str
  outs : List Str
  autoclean : Bool

/-- /repo/golang/go.go:35-56 `Binary`; `depsOf` is `Deps(dir, false, false)`.  `none`: an error is returned. -/
def binary (depsOf : Str → Option (List Str)) (dir outfile : Str) (flags : List Str) : Option Target :=
  let out := if outfile = [] then baseOf dir else outfile
  match rel dir out with
  | none => none
  | some r =>
    match depsOf dir with
    | none => none
    | some ds => some { args := ["build".toList, "-C".toList, dir, "-o".toList, r] ++ flags ++ [dot], ins := ds, outs := [out], autoclean := true }

/-- /repo/golang/go.go:67-89 `binaryDecoder`, after the decoding of the node. -/
def binaryDecoder (depsOf : Str → Option (List Str)) (top ydir bdir bout : Str) (flags : List Str) : Option Target :=
  binary depsOf (joinPath top [ydir, bdir]) (joinPath top [ydir, if bout = [] then baseOf bdir else bout]) flags

/-- /repo/golang/go.go:159-171 `depsDecoder`: the directory that it passes to `Deps`. -/
def depsDecoderDir (top ydir gdir : Str) : Str := joinPath top [ydir, gdir]

/-! ### What `go build` does (its documentation) -/

/-- the path `p` as seen by a process whose working directory is `cwd` -/
def seenFrom (cwd : List Str) (p : Str) : Str := absOf cwd p

/-- The file that `go build -C d -o o ...` writes, started in directory `cwd`: it changes to `d` first; the output is the file `o`, or, if `o` is an
existing directory, a file in it with the name `exe` of the package.  Simplified: the remaining flags do not redirect the output, and symbolic
links are not considered. -/
def goBuild (isDir : Str → Bool) (exe : Str) (cwd : List Str) : List Str → Option Str
  | b :: c :: d :: o :: r :: _ =>
    if b = "build".toList ∧ c = "-C".toList ∧ o = "-o".toList then
      let p := seenFrom (comps (seenFrom cwd d)) r
      some (if isDir p then join [p, exe] else p)
    else none
  | _ => none

/-! ## C64 -/

/-- Cancelling within a relative path first, and in the whole path then, is the same as doing it in the whole path. -/
theorem foldl_normC_false (cs st : List Str) : (normC false cs).foldl (push true) st = cs.foldl (push true) st := by
  have : ∀ cs : List Str, (cs.foldl (push false) []).reverse.foldl (push true) st = cs.foldl (push true) st := by
    intro cs
    induction cs using List.reverseRecOn with
    | nil => rfl
    | append_singleton cs x ih =>
      rw [List.foldl_append, List.foldl_append, List.foldl_cons, List.foldl_nil, List.foldl_cons, List.foldl_nil, ← ih]
      generalize cs.foldl (push false) [] = s
      by_cases hx : x = dotdot
      · subst hx
        cases s with
        | nil => simp [push]
        | cons t s =>
          by_cases ht : t = dotdot
          · subst ht
            have : push false (dotdot :: s) dotdot = dotdot :: dotdot :: s := by simp [push]
            rw [this, List.reverse_cons, List.foldl_append]
            rfl
          · have h1 : push false (t :: s) dotdot = s := by simp [push, ht]
            rw [h1, List.reverse_cons, List.foldl_append, List.foldl_cons, List.foldl_nil]
            generalize s.reverse.foldl (push true) st = y
            have : push true y t = t :: y := by simp [push, ht]
            rw [this]
            simp [push, ht]
      · have : push false s x = x :: s := by simp [push, hx]
        rw [this, List.reverse_cons, List.foldl_append]
        rfl
  exact this cs

theorem comps_absOf_rel {cwd : List Str} (hc : ∀ c ∈ cwd, Name c) {p : Str} (hp : isAbs p = false) :
    absOf cwd p = absP (normC true (cwd ++ comps p)) := by
  unfold absOf
  rw [if_neg (by simp [hp]), join_eq (absP_ne_nil cwd), isAbs_absP, comps_absP hc]
  simp [absP]

theorem absOf_abs {cwd : List Str} {p : Str} (hp : isAbs p = true) : absOf cwd p = absP (normC true (comps p)) := by
  unfold absOf
  rw [if_pos hp, clean, hp]; rfl

theorem absOf_clean {cwd : List Str} (hc : ∀ c ∈ cwd, Name c) (p : Str) : absOf cwd p = absOf cwd (clean p) := by
  cases hp : isAbs p with
  | true =>
    have hp' : isAbs (clean p) = true := by rw [isAbs_clean, hp]
    rw [absOf_abs hp, absOf_abs hp', comps_clean, hp, normC_idem]
  | false =>
    have hp' : isAbs (clean p) = false := by rw [isAbs_clean, hp]
    rw [comps_absOf_rel hc hp, comps_absOf_rel hc hp', comps_clean, hp]
    congr 1
    unfold normC
    congr 1
    rw [List.foldl_append, List.foldl_append]
    exact (foldl_normC_false (comps p) _).symm

/-- In any normal form, a part that does not begin with ".." and follows another part has no "..". -/
theorem nf_suffix {cs c br : List Str} (h : normC false cs = c ++ br) (hb : br.head? ≠ some dotdot) : dotdot ∉ br := by
  obtain ⟨m, k, h1, h2, -⟩ := foldl_push_nf (r := false) cs (nf_nil false)
  have h3 : c ++ br = List.replicate k dotdot ++ m.reverse := by
    rw [← h, normC, h1]; simp
  intro hm
  rcases List.append_eq_append_iff.1 h3 with ⟨d, h4, h5⟩ | ⟨d, h4, h5⟩
  · -- the replicate part ends in `br`
    cases d with
    | nil =>
      rw [List.nil_append] at h5
      rw [h5] at hm
      exact h2 (by simpa using hm)
    | cons x d =>
      have hx : x = dotdot := by
        have : x ∈ List.replicate k dotdot := by rw [h4]; simp
        exact (List.mem_replicate.1 this).2
      apply hb
      rw [h5, hx]; rfl
  · have : dotdot ∈ m.reverse := by rw [h5]; exact List.mem_append_right _ hm
    exact h2 (by simpa using this)

/-- **A relative path leads where it should**: seen from the directory `base`, what `filepath.Rel(base, targ)` gives is `targ`. -/
theorem rel_seen {cwd : List Str} (hc : ∀ c ∈ cwd, Name c) {base targ r : Str} (h : rel base targ = some r) :
    seenFrom (comps (seenFrom cwd base)) r = seenFrom cwd targ := by
  unfold seenFrom
  obtain ⟨bs, hbs, hbn⟩ := absOf_form cwd base
  have hcomps : comps (absOf cwd base) = bs := by rw [hbs, comps_absP hbn]
  rw [hcomps]
  unfold rel at h
  dsimp only at h
  by_cases he : clean targ = clean base
  · rw [if_pos he] at h
    injection h with h
    subst h
    rw [comps_absOf_rel hbn (by decide), comps_dot, List.append_nil, normC_names hbn, ← hbs, absOf_clean hc base, absOf_clean hc targ, he]
  · rw [if_neg he] at h
    by_cases ha : isAbs (clean base) ≠ isAbs (clean targ)
    · rw [if_pos ha] at h; cases h
    · rw [if_neg ha] at h
      have ha' : isAbs (clean base) = isAbs (clean targ) := not_not.1 ha
      obtain ⟨c, h1, h2⟩ := stripCommon_spec (comps (clean base)) (comps (clean targ))
      generalize stripCommon (comps (clean base)) (comps (clean targ)) = bt at h h1 h2
      obtain ⟨br, tr⟩ := bt
      dsimp only at h h1 h2
      by_cases hh : br.head? = some dotdot
      · rw [if_pos hh] at h; cases h
      · rw [if_neg hh] at h
        injection h with h
        -- no ".." in `br`
        have hbr : dotdot ∉ br := by
          cases hb : isAbs base with
          | true =>
            intro hm
            have := rooted_plain base hb
            rw [h1] at this
            exact this (List.mem_append_right _ hm)
          | false =>
            rw [comps_clean, hb] at h1
            exact nf_suffix h1 hh
        have htr : ∀ x ∈ tr, Elem x := by
          intro x hx; exact comps_elem (clean targ) x (by rw [h2]; exact List.mem_append_right _ hx)
        have hel : ∀ x ∈ br.map (fun _ => dotdot) ++ tr, Elem x := by
          intro x hx
          rcases List.mem_append.1 hx with hx | hx
          · obtain ⟨_, -, rfl⟩ := List.mem_map.1 hx; unfold Elem; decide
          · exact htr x hx
        have hrc : comps r = br.map (fun _ => dotdot) ++ tr := by
          rw [← h, comps_joinWith, flatMap_comps hel]
        have hra : isAbs r = false := by
          rw [← h]
          cases hes : br.map (fun _ => dotdot) ++ tr with
          | nil => rfl
          | cons e es =>
            have := hel e (by rw [hes]; simp)
            rw [isAbs_joinWith this.1]
            exact this.not_abs
        obtain ⟨pre, hb, ht⟩ : ∃ pre, bs = normC true (pre ++ comps (clean base)) ∧ absOf cwd targ = absP (normC true (pre ++ comps (clean targ))) := by
          rw [← hcomps, absOf_clean hc base, absOf_clean hc targ]
          cases hb : isAbs (clean base) with
          | true =>
            rw [hb] at ha'
            refine ⟨[], ?_, ?_⟩
            · rw [absOf_abs hb, comps_absP (normC_true_names (comps_elem _)), List.nil_append]
            · rw [absOf_abs ha'.symm, List.nil_append]
          | false =>
            rw [hb] at ha'
            refine ⟨cwd, ?_, ?_⟩
            · rw [comps_absOf_rel hc hb, comps_absP (normC_true_names ?_)]
              intro x hx
              rcases List.mem_append.1 hx with hx | hx
              · exact (hc x hx).1
              · exact comps_elem _ x hx
            · rw [comps_absOf_rel hc ha'.symm]
        rw [comps_absOf_rel hbn hra, ht, hrc, hb, normC_normC_append, h1, h2]
        congr 1
        unfold normC
        congr 1
        simp only [List.foldl_append]
        congr 1
        generalize c.foldl (push true) (pre.foldl (push true) []) = st
        rw [foldl_push_plain hbr]
        have := foldl_ups br.reverse st (by simpa using hbr)
        have hm : br.reverse.map (fun _ => dotdot) = br.map (fun _ => dotdot) := by
          rw [List.map_reverse]; simp [List.map_const']
        rw [hm] at this
        exact this

/-- **C64.** Whatever the directory and the output file are (both absolute or both relative to the working directory), the file that `go build`
writes is the file that the target declares as its output — unless that is an existing directory. -/
theorem C64_writes_declared (isDir : Str → Bool) (exe : Str) (cwd : List Str) (hc : ∀ c ∈ cwd, Name c) (depsOf : Str → Option (List Str))
    (dir outfile : Str) (flags : List Str) (t : Target) (h : binary depsOf dir outfile flags = some t) :
    ∃ out, t.outs = [out] ∧ (outfile ≠ [] → out = outfile) ∧ (outfile = [] → out = baseOf dir) ∧ t.autoclean = true ∧
      depsOf dir = some t.ins ∧ goBuild isDir exe cwd t.args =
        some (if isDir (seenFrom cwd out) then join [seenFrom cwd out, exe] else seenFrom cwd out) := by
  unfold binary at h
  dsimp only at h
  split at h
  · cases h
  · rename_i r hr
    split at h
    · cases h
    · rename_i ds hd
      injection h with h
      subst h
      refine ⟨_, rfl, fun h => if_neg h, fun h => if_pos h, rfl, hd, ?_⟩
      have := rel_seen hc hr
      simp only [goBuild, List.cons_append, List.nil_append]
      rw [if_pos (by simp), this]

/-- **The same from YAML**: both paths are absolute or relative to the YAML file's directory, the target is always made (if the dependencies can be
found), and `go build` writes the file declared. -/
theorem C64_yaml (isDir : Str → Bool) (exe : Str) (cwd : List Str) (hc : ∀ c ∈ cwd, Name c) (depsOf : Str → Option (List Str))
    (top ydir bdir bout : Str) (ht : isAbs top = true) (flags ds : List Str) (hb : bout ≠ []) (hd : depsOf (joinPath top [ydir, bdir]) = some ds) :
    ∃ t, binaryDecoder depsOf top ydir bdir bout flags = some t ∧ t.outs = [joinPath top [ydir, bout]] ∧ t.ins = ds ∧
      (isDir (joinPath top [ydir, bout]) = false → goBuild isDir exe cwd t.args = some (joinPath top [ydir, bout])) := by
  have habs : ∀ x, isAbs (joinPath top [ydir, x]) = true := by
    intro x
    rcases C19_cases [ydir, x] with h | ⟨pre, a, rels, h1, h2, h3⟩
    · rw [C19_relative top _ h]; exact join_abs ht _
    · rw [h1, C19_absolute top pre a rels h2 h3]; exact join_abs h2 _
  obtain ⟨r, hr, -, -⟩ := C20_join_rel (joinPath top [ydir, bdir]) (joinPath top [ydir, bout]) (habs _) (habs _)
  have hne := isAbs_ne_nil (habs bout)
  have hr' : rel (joinPath top [ydir, bdir]) (joinPath top [ydir, bout]) = some r := hr
  have hbin : ∃ t, binaryDecoder depsOf top ydir bdir bout flags = some t ∧ t.outs = [joinPath top [ydir, bout]] ∧ t.ins = ds := by
    unfold binaryDecoder binary
    simp only [if_neg hb, if_neg hne, hr', hd]
    exact ⟨_, rfl, rfl, rfl⟩
  obtain ⟨t, h1, h2, h3⟩ := hbin
  refine ⟨t, h1, h2, h3, fun hnd => ?_⟩
  unfold binaryDecoder at h1
  obtain ⟨out, h4, h5, h6, h7, h8, h9⟩ := C64_writes_declared isDir exe cwd hc depsOf _ _ flags t h1
  rw [h2] at h4
  injection h4 with h4
  subst h4
  have hcl : seenFrom cwd (joinPath top [ydir, bout]) = joinPath top [ydir, bout] := by
    unfold seenFrom absOf
    rw [if_pos (habs _)]
    rcases C19_clean top [ydir, bout] with h | h
    · exact absurd h hne
    · exact h
  rw [h9, hcl, hnd]
  rfl

example : (binary (fun _ => some []) "cmd/foo".toList "bin/foo".toList ["-race".toList]).map (fun t => (t.args, t.outs)) =
    some (["build".toList, "-C".toList, "cmd/foo".toList, "-o".toList, "../../bin/foo".toList, "-race".toList, ".".toList], ["bin/foo".toList]) := by
  decide +kernel
example : goBuild (fun _ => false) [] ["home".toList, "u".toList] ["build".toList, "-C".toList, "cmd/foo".toList, "-o".toList, "../../bin/foo".toList, ".".toList] =
    some "/home/u/bin/foo".toList := by decide +kernel

/-- **The default fails for absolute directories**: "If outfile is empty, it defaults to the last path element of dir", which is a relative path, and
`filepath.Rel` does not relate it to an absolute directory. -/
theorem C64_finding_default_absolute (depsOf : Str → Option (List Str)) (dir : Str) (flags : List Str) (h : isAbs dir = true)
    (hb : isAbs (baseOf dir) = false) : binary depsOf dir [] flags = none := by
  unfold binary
  have hne : clean (baseOf dir) ≠ clean dir := by
    intro he
    have h1 := isAbs_clean (baseOf dir)
    rw [he, isAbs_clean, h, hb] at h1
    cases h1
  have : rel dir (baseOf dir) = none := by
    unfold rel
    simp only
    rw [if_neg hne, if_pos (by rw [isAbs_clean, isAbs_clean, h, hb]; simp)]
  simp [this]
example : isAbs "/src/cmd/foo".toList = true ∧ isAbs (baseOf "/src/cmd/foo".toList) = false := by decide +kernel

/-- **In YAML, the default for the YAML file's own directory is the directory itself**: with `Dir: .` (or no `Dir`) and no `Out`, the declared output is
the directory, and `go build` writes another file, in it. -/
theorem C64_counterexample_own_directory (isDir : Str → Bool) (exe : Str) (cwd : List Str) (hc : ∀ c ∈ cwd, Name c) (depsOf : Str → Option (List Str)) (flags ds : List Str)
    (bdir : Str) (hb : bdir = [] ∨ bdir = dot) (hd : depsOf "/top/cmd".toList = some ds) (hi : isDir "/top/cmd".toList = true) :
    ∃ t, binaryDecoder depsOf "/top".toList "cmd".toList bdir [] flags = some t ∧ t.outs = ["/top/cmd".toList] ∧
      goBuild isDir exe cwd t.args = some (join ["/top/cmd".toList, exe]) := by
  have hj : joinPath "/top".toList ["cmd".toList, bdir] = "/top/cmd".toList := by rcases hb with rfl | rfl <;> decide +kernel
  have hj2 : joinPath "/top".toList ["cmd".toList, if ([] : Str) = [] then baseOf bdir else []] = "/top/cmd".toList := by
    rcases hb with rfl | rfl <;> decide +kernel
  have hbin : ∃ t, binaryDecoder depsOf "/top".toList "cmd".toList bdir [] flags = some t ∧ t.outs = ["/top/cmd".toList] := by
    unfold binaryDecoder binary
    rw [hj, hj2]
    have hr : rel "/top/cmd".toList (if "/top/cmd".toList = [] then baseOf "/top/cmd".toList else "/top/cmd".toList) = some dot := by decide +kernel
    simp only [hr, hd]
    refine ⟨_, rfl, ?_⟩
    show [if "/top/cmd".toList = [] then baseOf "/top/cmd".toList else "/top/cmd".toList] = ["/top/cmd".toList]
    decide +kernel
  obtain ⟨t, h1, h2⟩ := hbin
  refine ⟨t, h1, h2, ?_⟩
  unfold binaryDecoder at h1
  obtain ⟨out, h4, -, -, -, -, h9⟩ := C64_writes_declared isDir exe cwd hc depsOf _ _ flags t h1
  rw [h2] at h4
  injection h4 with h4
  subst h4
  have : seenFrom cwd "/top/cmd".toList = "/top/cmd".toList := by
    unfold seenFrom absOf
    rw [if_pos (by decide +kernel)]
    decide +kernel
  rw [h9, this, if_pos hi]

/-! ## TypeScript declarations -/

/-- the errors of `(*declsType).Run` -/
inductive TErr | opening | generating | closing
  deriving DecidableEq

/-- the world of `(*declsType).Run`: whether the output file can be created and closed, and what `tsdecls.Write` writes, with or without an error -/
structure TWorld where
  files : Str → Option Str
  canCreate : Str → Bool
  closes : Bool
  gen : Str → Str → Str → Str × Bool

/-- /repo/ts/tsdecls.go:67-81 `(*declsType).Run`: the files afterwards and the error. -/
def declsRun (w : TWorld) (dryRun : Bool) (dir typename pfx outfile : Str) : (Str → Option Str) × Option TErr :=
  if dryRun then (w.files, none)
  else if !w.canCreate outfile then (w.files, some .opening)
  else
    let g := w.gen dir typename pfx
    let fs := fun f => if f = outfile then some g.1 else w.files f
    if g.2 then (fs, some .generating)
    else (fs, if w.closes then none else some .closing)

/-- /repo/ts/tsdecls.go:37-50 `Decls`: the inputs and outputs of the `Files` target; `none` if the dependencies cannot be found. -/
def decls (depsOf : Str → Option (List Str)) (dir outfile : Str) : Option (List Str × List Str) := (depsOf dir).map fun ds => (ds, [outfile])

/-- /repo/ts/tsdecls.go:87-100 `declsDecoder`, after the decoding of the node: the directory and the output file. -/
def declsDecoderPaths (top ydir d out : Str) : Str × Str := (joinPath top [ydir, d], joinPath top [ydir, out])

/-- **C66.** A `ts.Decls` target that reports success has written exactly the declarations of the type, to its declared output file, and no other file is
changed; in a dry run nothing is changed; and a failure of any step is reported. -/
theorem C66_decls (w : TWorld) (dry : Bool) (dir typename pfx outfile : Str) :
    (∀ f, f ≠ outfile → (declsRun w dry dir typename pfx outfile).1 f = w.files f) ∧
    (dry = true → declsRun w dry dir typename pfx outfile = (w.files, none)) ∧
    (dry = false → ((declsRun w dry dir typename pfx outfile).2 = none ↔ w.canCreate outfile = true ∧ (w.gen dir typename pfx).2 = false ∧ w.closes = true)) ∧
    (dry = false → (declsRun w dry dir typename pfx outfile).2 = none →
      (declsRun w dry dir typename pfx outfile).1 outfile = some (w.gen dir typename pfx).1) := by
  unfold declsRun
  cases dry <;> cases h1 : w.canCreate outfile <;> cases h2 : (w.gen dir typename pfx).2 <;> cases h3 : w.closes <;> simp [h2] <;>
    intro f hf hne <;> exact absurd hne hf

theorem C66_declared (depsOf : Str → Option (List Str)) (dir outfile : Str) (ins outs : List Str) (h : decls depsOf dir outfile = some (ins, outs)) :
    outs = [outfile] ∧ depsOf dir = some ins := by
  unfold decls at h
  obtain ⟨ds, h1, h2⟩ := Option.map_eq_some_iff.1 h
  injection h2 with h2 h3
  exact ⟨h3.symm, by rw [h1, h2]⟩

example : (declsRun ⟨fun _ => none, fun _ => true, true, fun _ t _ => (t, false)⟩ false "d".toList "T".toList [] "o.ts".toList).1 "o.ts".toList = some "T".toList := by
  decide +kernel

/-! ## C65: paths in YAML -/

/-- /repo/proto/proto.go:152-161 `protodepsDecoder`, after the decoding of the node: the file and the include directories that it passes to `Deps`. -/
def protodepsDecoderPaths (top ydir file : Str) (includes : List Str) : Str × List Str := (joinPath top [ydir, file], includes)

/-- `q` is what a path `p` in the YAML file of directory `ydir` means: an absolute path means itself; any other is relative to the directory of the YAML file,
which is relative to the top directory. -/
def Means (top ydir p q : Str) : Prop :=
  (isAbs p = true ∧ q = clean p) ∨ (isAbs p = false ∧ isAbs ydir = true ∧ q = join [ydir, p]) ∨ (isAbs p = false ∧ isAbs ydir = false ∧ q = join [top, ydir, p])

theorem joinPath_means (top ydir p : Str) : Means top ydir p (joinPath top [ydir, p]) := by
  unfold Means
  cases hp : isAbs p with
  | true =>
    left
    refine ⟨rfl, ?_⟩
    rw [show [ydir, p] = [ydir] ++ p :: [] by rfl, C19_absolute top [ydir] p [] hp (by simp)]
    rw [join_eq (isAbs_ne_nil hp), clean]
    simp
  | false =>
    right
    cases hy : isAbs ydir with
    | true =>
      left
      refine ⟨rfl, rfl, ?_⟩
      rw [show [ydir, p] = [] ++ ydir :: [p] by rfl, C19_absolute top [] ydir [p] hy (by simpa using hp)]
      rfl
    | false =>
      right
      refine ⟨rfl, rfl, ?_⟩
      rw [C19_relative top [ydir, p] (by simp [hp, hy])]

/-- **C65, for `!go.Binary`, `!go.Deps` and `!ts.Decls`, and the file of `!proto.Deps`.**  Not for the include directories of `!proto.Deps`:
`C65_counterexample_includes`. -/
theorem C65_paths_partial (top ydir d out : Str) (flags ds : List Str) (depsOf : Str → Option (List Str)) :
    (∃ q, depsDecoderDir top ydir d = q ∧ Means top ydir d q) ∧
    (∃ q o, declsDecoderPaths top ydir d out = (q, o) ∧ Means top ydir d q ∧ Means top ydir out o) ∧
    (∀ incs, ∃ q, (protodepsDecoderPaths top ydir d incs).1 = q ∧ Means top ydir d q) ∧
    (out ≠ [] → ∃ q o, binaryDecoder depsOf top ydir d out flags = binary depsOf q o flags ∧ Means top ydir d q ∧ Means top ydir out o) ∧
    (∃ q o, binaryDecoder depsOf top ydir d [] flags = binary depsOf q o flags ∧ Means top ydir d q ∧ Means top ydir (baseOf d) o) :=
  ⟨⟨_, rfl, joinPath_means top ydir d⟩, ⟨_, _, rfl, joinPath_means top ydir d, joinPath_means top ydir out⟩,
    fun _ => ⟨_, rfl, joinPath_means top ydir d⟩,
    fun h => ⟨_, _, by rw [binaryDecoder, if_neg h], joinPath_means top ydir d, joinPath_means top ydir out⟩,
    ⟨_, _, by rw [binaryDecoder, if_pos rfl], joinPath_means top ydir d, joinPath_means top ydir (baseOf d)⟩⟩

/-- **The include directories of `!proto.Deps` are taken as they are written**, that is, relative to the working directory of the process. -/
theorem C65_counterexample_includes : ∃ top ydir file inc, (protodepsDecoderPaths top ydir file [inc]).2 = [inc] ∧ ¬ Means top ydir inc inc :=
  ⟨"/top".toList, "sub".toList, "a.proto".toList, "include".toList, rfl, by unfold Means; decide +kernel⟩

/-- The consequence: a dependency is not found, although it is in the include directory next to the YAML file. -/
def yamlFs : Proto.Files := fun f =>
  if f = "/top/sub/a.proto".toList then .file "import \"b.proto\";\n".toList false
  else if f = "/top/sub/include/b.proto".toList then .file [] false
  else .noent

theorem C65_finding_lost : Proto.deps yamlFs (protodepsDecoderPaths "/top".toList "sub".toList "a.proto".toList ["include".toList]).2 5
      (protodepsDecoderPaths "/top".toList "sub".toList "a.proto".toList ["include".toList]).1 = .ok ["/top/sub/a.proto".toList] ∧
    Proto.deps yamlFs [joinPath "/top".toList ["sub".toList, "include".toList]] 5 "/top/sub/a.proto".toList =
      .ok ["/top/sub/a.proto".toList, "/top/sub/include/b.proto".toList] :=
  ⟨Proto.Res.files_ok (by decide +kernel), Proto.Res.files_ok (by decide +kernel)⟩

end Fab.GoPkg
