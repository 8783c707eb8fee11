import Verif.Yaml.Again
import Verif.Runner.Nest

/-!
# C78: builds are correct

If every rule does what it is meant to do when it is run, and a build returns nil, then all outputs are what they are meant to be: also those
whose rules were not run because a hash was found in the database.
-/

namespace Fab.Yaml
open Path Cmd Files
open Runner (Proc TRef Env Ev State Reach Label TSt Job Thread allBody seqBody argBody nameBody hist)

/-! ## Specification -/

/-- What can be seen of some files: their names and contents (`none`: there is no such file). -/
abbrev View := Str → Option Bytes → Prop

/-- What rules are meant to do: `R j y i o`: a rule with JSON form `j` and type `y`, when its inputs are `i`, should produce the outputs `o`. -/
abbrev Meaning := Json.J → Str → View → View → Prop

/-- A situation in which a Files target can be: its rule and the files. -/
structure Sit where
  rule : Json.J
  typ : Str
  fs : FS
  ins : List Str
  outs : List Str

/-- The outputs are what they are meant to be. -/
def Sit.right (R : Meaning) (a : Sit) : Prop := R a.rule a.typ (Shows a.fs a.ins) (Shows a.fs a.outs)

/-- The two situations have the same rule, the same inputs and the same outputs. -/
def Sit.same (a b : Sit) : Prop :=
  a.rule = b.rule ∧ a.typ = b.typ ∧ (∀ k c, Shows a.fs a.ins k c ↔ Shows b.fs b.ins k c) ∧ ∀ k c, Shows a.fs a.outs k c ↔ Shows b.fs b.outs k c

/-- `h` is the hash of the situation. -/
def Sit.hash (hex : Bytes → Str) (sum : Str → Str) (a : Sit) (h : Str) : Prop :=
  ∃ li lo, fileHashes hex a.fs a.ins = .ok li ∧ fileHashes hex a.fs a.outs = .ok lo ∧ h = sum (hashText a.rule a.typ li lo)

/-- No two of the situations with the same hash are different. -/
def NoCollision (hex : Bytes → Str) (sum : Str → Str) (T : Sit → Prop) : Prop :=
  ∀ a b h, T a → T b → a.hash hex sum h → b.hash hex sum h → a.same b

/-- What follows from this, and is enough: if the outputs are right in one of two situations with the same hash, then also in the other. -/
def HashTells (hex : Bytes → Str) (sum : Str → Str) (R : Meaning) (T : Sit → Prop) : Prop :=
  ∀ a b h, T a → T b → a.hash hex sum h → b.hash hex sum h → b.right R → a.right R

theorem NoCollision.tells {hex : Bytes → Str} {sum : Str → Str} {R : Meaning} {T : Sit → Prop} (h : NoCollision hex sum T) : HashTells hex sum R T := by
  intro a b hsh ha hb h1 h2 hr
  obtain ⟨g1, g2, g3, g4⟩ := h a b hsh ha hb h1 h2
  unfold Sit.right at hr ⊢
  rw [g1, g2, funext fun k => funext fun c => propext (g3 k c), funext fun k => funext fun c => propext (g4 k c)]
  exact hr

/-- The database is honest: where the hash of a situation is in it, the outputs are what they are meant to be. -/
def HonestDB (hex : Bytes → Str) (sum : Str → Str) (R : Meaning) (T : Sit → Prop) (db : List Str) : Prop :=
  ∀ h ∈ db, ∀ a, T a → a.hash hex sum h → a.right R

/-- What `i` names is the same in both file systems. -/
def SameFile (fs fs' : FS) (i : Str) : Prop := fs'.stat i = fs.stat i ∧ ∀ k c, Shows fs' [i] k c ↔ Shows fs [i] k c

/-- `x` is a Files target, with rule `t`, inputs `ins` and outputs `outs`, that a build of `os` cannot succeed without. -/
def FilesOf (s : St) (os : List Nat) (x t : Nat) (ins outs : List Str) : Prop :=
  (∃ o, Wanted s os o ∧ Stands s o x) ∧ s.heap[x]? = some (.files t ins outs)

/-- `c` is `t` or a part of it: `t` may be a list of targets, and so on. -/
inductive Part (s : St) (t : Nat) : Nat → Prop
  | self : Part s t t
  | all {c ts y} : Part s t c → s.heap[c]? = some (.all ts) → y ∈ ts → Part s t y
  | seq {c ts y} : Part s t c → s.heap[c]? = some (.seq ts) → y ∈ ts → Part s t y
  | arg {c y args} : Part s t c → s.heap[c]? = some (.arg y args) → Part s t y

/-- Every action of the process satisfies `Q`. -/
def _root_.Fab.Runner.Proc.Acts {σ C : Type} (Q : σ → σ → Prop) : Proc σ C → Prop
  | .ret _ => True
  | .act f k => (∀ w, Q w (f w)) ∧ ∀ w, (k w).Acts Q
  | .call _ _ k => ∀ e, (k e).Acts Q

section
variable {ρ : Type} (hex : Bytes → Str) (sum : Str → Str) (own : Own ρ) (s : St) (J : Nat → Json.J) (os : List Nat)

/-- What is asked of the Files targets that are needed for `os`:
* `parts`: their rules are made of commands and lists, and so on: there are no Files targets or names in a rule;
* `apart`: no two of them have a part of their rules in common;
* `priv`: no part of a rule is needed otherwise;
* `desc`: the JSON form of the rule does not depend on the state of the world. -/
structure RulesApart : Prop where
  parts : ∀ x t ins outs c, FilesOf s os x t ins outs → Part s t c →
    (∀ name, s.heap[c]? ≠ some (.ref name)) ∧ ∀ t ins outs, s.heap[c]? ≠ some (.files t ins outs)
  apart : ∀ x t ins outs x' t' ins' outs' c, FilesOf s os x t ins outs → FilesOf s os x' t' ins' outs' → Part s t c → Part s t' c → x = x'
  priv : ∀ x t ins outs c o, FilesOf s os x t ins outs → Part s t c → Wanted s os o → ¬ Stands s o c
  desc : ∀ x t ins outs, FilesOf s os x t ins outs → ∀ w, own.desc t w = some (J t)

/-- Each Files target that is needed for `os` is needed under one name only: not by its name and also for its outputs, for example.  (A target
that is needed under two names is run twice, at the same time: C01.) -/
def NeededOnce : Prop := ∀ x t ins outs o o', FilesOf s os x t ins outs → Wanted s os o → Wanted s os o' → Stands s o x → Stands s o' x → o = o'

/-- both -/
structure Orderly : Prop extends RulesApart own s J os where
  once : NeededOnce s os

/-- Between `w` and `w'` target `c` has changed no database, and no file that it should not change: an input or output `i` of a Files target `y` is the
same, unless `c` is part of the rule of `y`, or `i` is an input of `y` and `c` is part of the rule of the target that makes `i`. -/
def Changes (c : Nat) (w w' : World ρ) : Prop :=
  w'.db = w.db ∧ ∀ y t ins outs, FilesOf s os y t ins outs → ∀ i ∈ ins ++ outs, SameFile w.fs w'.fs i ∨
    ∃ z t' ins' outs', FilesOf s os z t' ins' outs' ∧ Part s t' c ∧ (z = y ∨ i ∈ ins ∧ findInFilesRegistry s.filesReg i = some z)

/-- Between `w` and `w'` no file that matters for the Files targets has changed, and databases have only lost entries (they expire: sqlite/db.go:121-128). -/
def Untouched (w w' : World ρ) : Prop :=
  (∀ d, ∀ h ∈ w'.db d, h ∈ w.db d) ∧ ∀ y t ins outs, FilesOf s os y t ins outs → ∀ i ∈ ins ++ outs, SameFile w.fs w'.fs i

/-- The situation of a Files target. -/
def sitOf (t : Nat) (ins outs : List Str) (fs : FS) : Sit := ⟨J t, own.typ t, fs, ins, outs⟩

end

/-! ## What a Files target does -/

def HonestWorld {ρ : Type} (hex : Bytes → Str) (sum : Str → Str) (R : Meaning) (T : Sit → Prop) (w : World ρ) : Prop :=
  ∀ d, HonestDB hex sum R T (w.db d)

def Agree (l : List Str) (fs fs' : FS) : Prop := ∀ i ∈ l, SameFile fs fs' i

theorem Agree.refl (l : List Str) (fs : FS) : Agree l fs fs := fun _ _ => ⟨rfl, fun _ _ => Iff.rfl⟩
theorem Agree.symm {l : List Str} {a b : FS} (h : Agree l a b) : Agree l b a := fun i hi => ⟨(h i hi).1.symm, fun k c => ((h i hi).2 k c).symm⟩
theorem Agree.trans {l : List Str} {a b c : FS} (h : Agree l a b) (h' : Agree l b c) : Agree l a c :=
  fun i hi => ⟨(h' i hi).1.trans (h i hi).1, fun k c => ((h' i hi).2 k c).trans ((h i hi).2 k c)⟩
theorem Agree.mono {l l' : List Str} {a b : FS} (h : Agree l a b) (hl : ∀ i ∈ l', i ∈ l) : Agree l' a b := fun i hi => h i (hl i hi)

theorem shows_iff (fs : FS) (l : List Str) (k : Str) (c : Option Bytes) : Shows fs l k c ↔ ∃ i ∈ l, Shows fs [i] k c := by
  unfold Shows
  constructor
  · rintro ⟨⟨i, h1, h2⟩, h3⟩; exact ⟨i, h1, ⟨i, by simp, h2⟩, h3⟩
  · rintro ⟨i, h1, ⟨i', h2, h3⟩, h4⟩
    simp at h2; subst h2
    exact ⟨⟨i', h1, h3⟩, h4⟩

theorem Agree.shows {l : List Str} {a b : FS} (h : Agree l a b) : Shows a l = Shows b l := by
  funext k c
  rw [eq_iff_iff, shows_iff, shows_iff b]
  exact ⟨fun ⟨i, h1, h2⟩ => ⟨i, h1, ((h i h1).2 k c).2 h2⟩, fun ⟨i, h1, h2⟩ => ⟨i, h1, ((h i h1).2 k c).1 h2⟩⟩

section
variable {ρ : Type} (hex : Bytes → Str) (sum : Str → Str) (own : Own ρ) (J : Nat → Json.J) (R : Meaning) (T : Sit → Prop) (t : Nat) (ins outs : List Str)

/-- The process of a Files target, while its files are as in `fs`. -/
def Sound : P ρ → FS → Prop
  | .ret e, fs => e = none → (sitOf own J t ins outs fs).right R
  | .act f k, fs => ∀ w, Agree (ins ++ outs) fs w.fs → HonestWorld hex sum R T w → T (sitOf own J t ins outs w.fs) →
      (f w).fs = w.fs ∧ HonestWorld hex sum R T (f w) ∧ Sound (k w) fs
  | .call _ refs k, _ => refs = [.ptr t] ∧ ∀ e fs', (e = none → (sitOf own J t ins outs fs').right R) → Sound (k e) fs'

/-- The process of a Files target, before its inputs are made. -/
def Early (pre : List TRef) : P ρ → Prop
  | .ret e => e ≠ none
  | .act f k => f = id ∧ ∀ w, Early pre (k w)
  | .call _ refs k => refs = pre ∧ (∀ fs, Sound hex sum own J R T t ins outs (k none) fs) ∧ ∀ e, Early pre (k (some e))

variable {hex sum own J R T t ins outs}

theorem right_congr {fs fs' : FS} (h : Agree (ins ++ outs) fs fs') :
    (sitOf own J t ins outs fs).right R ↔ (sitOf own J t ins outs fs').right R := by
  unfold Sit.right sitOf
  dsimp only
  rw [(h.mono (l' := ins) fun i hi => by simp [show i ∈ ins from hi]).shows, (h.mono (l' := outs) fun i hi => by simp [show i ∈ outs from hi]).shows]

theorem Sound.congr {p : P ρ} {fs fs' : FS} (h : Agree (ins ++ outs) fs fs') (hp : Sound hex sum own J R T t ins outs p fs) :
    Sound hex sum own J R T t ins outs p fs' := by
  induction p with
  | ret e => exact fun he => (right_congr h).1 (hp he)
  | act f k ih =>
    intro w h1 h2 h3
    obtain ⟨a, b, c⟩ := hp w (h.trans h1) h2 h3
    exact ⟨a, b, ih w c⟩
  | call ctx refs k ih => exact hp

theorem fileHashes_same {fs fs' : FS} {is : List Str} (h : ∀ i ∈ is, fs'.stat i = fs.stat i) : fileHashes hex fs' is = fileHashes hex fs is := by
  unfold fileHashes fileHashesAt
  have : ∀ m, hashItems hex (is.map fun i => (fs', i)) m = hashItems hex (is.map fun i => (fs, i)) m := by
    induction is with
    | nil => intro m; rfl
    | cons i is ih =>
      intro m
      simp only [List.map_cons, hashItems]
      rw [hashItem_stat (h i (by simp))]
      split
      · exact ih (fun i hi => h i (by simp [hi])) _
      · rfl
  rw [this]

theorem Sit.hash_congr {fs fs' : FS} (h : Agree (ins ++ outs) fs fs') {hsh : Str} (hh : (sitOf own J t ins outs fs).hash hex sum hsh) :
    (sitOf own J t ins outs fs').hash hex sum hsh := by
  obtain ⟨li, lo, h1, h2, h3⟩ := hh
  refine ⟨li, lo, ?_, ?_, h3⟩
  · rw [← h1]; exact fileHashes_same fun i hi => (h i (by simp [show i ∈ ins from hi])).1
  · rw [← h2]; exact fileHashes_same fun i hi => (h i (by simp [show i ∈ outs from hi])).1

variable {reg : GoMap Str Nat}

theorem sound_readItems {fs : FS} {is : List Str} (his : ∀ i ∈ is, i ∈ ins ++ outs) {m : HMap} {k : Except HErr HMap → P ρ}
    (herr : ∀ e, Sound hex sum own J R T t ins outs (withReg reg (k (.error e))) fs)
    (hok : ∀ m', hashItems hex (is.map fun i => (fs, i)) m = .ok m' → Sound hex sum own J R T t ins outs (withReg reg (k (.ok m'))) fs) :
    Sound hex sum own J R T t ins outs (withReg reg (Files.readItems hex is m k)) fs := by
  induction is generalizing m with
  | nil => exact hok m rfl
  | cons i is ih =>
    rw [Files.readItems, withReg]
    intro w h1 h2 h3
    refine ⟨rfl, h2, ?_⟩
    dsimp only
    have h4 : hashItem hex w.fs i m = hashItem hex fs i m := hashItem_stat (h1 i (his i (by simp))).1 m
    rw [h4]
    cases h5 : hashItem hex fs i m with
    | error e => exact herr e
    | ok m2 =>
      refine ih (fun i hi => his i (by simp [hi])) fun m' hm' => hok m' ?_
      simp only [List.map_cons, hashItems, h5]
      exact hm'

theorem sound_computeHash {fs : FS} (hdesc : ∀ w, own.desc t w = some (J t)) {k : Option Str → P ρ}
    (hnone : Sound hex sum own J R T t ins outs (withReg reg (k none)) fs)
    (hsome : ∀ h, (sitOf own J t ins outs fs).hash hex sum h → Sound hex sum own J R T t ins outs (withReg reg (k (some h))) fs) :
    Sound hex sum own J R T t ins outs (withReg reg (computeHash hex sum ⟨.ptr t, own.typ t, own.desc t, ins, outs⟩ k)) fs := by
  unfold computeHash
  refine sound_readItems (fun i hi => by simp [show i ∈ ins from hi]) (fun e => hnone) fun mi hmi => ?_
  dsimp only
  refine sound_readItems (fun i hi => by simp [show i ∈ outs from hi]) (fun e => hnone) fun mo hmo => ?_
  dsimp only
  rw [withReg]
  intro w h1 h2 h3
  refine ⟨rfl, h2, ?_⟩
  dsimp only
  rw [hdesc]
  refine hsome _ ⟨_, _, ?_, ?_, rfl⟩
  · show fileHashes hex fs ins = _
    unfold fileHashes fileHashesAt; rw [hmi]
  · show fileHashes hex fs outs = _
    unfold fileHashes fileHashesAt; rw [hmo]

theorem sound_build {fs : FS} (hno : HashTells hex sum R T) (hdesc : ∀ w, own.desc t w = some (J t)) {ctx : Ctx} :
    Sound hex sum own J R T t ins outs (withReg reg (filesBuild hex sum ⟨.ptr t, own.typ t, own.desc t, ins, outs⟩ ctx)) fs := by
  unfold filesBuild
  rw [withReg]
  refine ⟨rfl, fun e fs' hr => ?_⟩
  cases e with
  | some e => exact fun h => nomatch h
  | none =>
    have hr := hr rfl
    dsimp only
    split
    · exact fun _ => hr
    · rename_i d hd
      split
      · exact fun _ => hr
      · refine sound_computeHash hdesc (fun h => nomatch h) fun hsh hh => ?_
        dsimp only
        rw [withReg]
        intro w h1 h2 h3
        refine ⟨?_, ?_, fun _ => hr⟩
        · unfold dbAdd; split <;> rfl
        · unfold dbAdd
          split
          · exact h2
          · intro d' h' hm a ha hah
            dsimp only at hm
            split at hm
            · rcases List.mem_cons.1 hm with rfl | hm
              · exact hno a _ _ ha h3 hah (Sit.hash_congr h1 hh) ((right_congr h1).1 hr)
              · exact h2 d' h' hm a ha hah
            · exact h2 d' h' hm a ha hah

theorem sound_main {fs : FS} (hno : HashTells hex sum R T) (hdesc : ∀ w, own.desc t w = some (J t)) {ctx : Ctx} :
    Sound hex sum own J R T t ins outs (withReg reg (filesMain hex sum ⟨.ptr t, own.typ t, own.desc t, ins, outs⟩ ctx)) fs := by
  unfold filesMain
  split
  · exact sound_build hno hdesc
  · rename_i d hd
    split
    · refine sound_computeHash hdesc (fun h => nomatch h) fun hsh hh => ?_
      dsimp only
      rw [withReg]
      intro w h1 h2 h3
      refine ⟨rfl, h2, ?_⟩
      dsimp only
      split
      · exact fun h => nomatch h
      · split
        · rename_i hin
          exact fun _ => (right_congr h1).2 (h2 d _ hin _ h3 (Sit.hash_congr h1 hh))
        · exact sound_build hno hdesc
    · exact sound_build hno hdesc

theorem early_findAll {pre : List TRef} {is : List Str} {acc : List TRef} {k : List TRef → P ρ}
    (h : Early hex sum own J R T t ins outs pre (withReg reg (k (acc ++ pres reg is)))) :
    Early hex sum own J R T t ins outs pre (withReg reg (findAll is acc k)) := by
  induction is generalizing acc with
  | nil => simpa [pres, findAll] using h
  | cons i is ih =>
    rw [findAll, withReg]
    refine ⟨rfl, fun w => ih ?_⟩
    simpa [pres, List.append_assoc] using h

theorem sound_findAll {fs : FS} {is : List Str} {acc : List TRef} {k : List TRef → P ρ}
    (h : Sound hex sum own J R T t ins outs (withReg reg (k (acc ++ pres reg is))) fs) :
    Sound hex sum own J R T t ins outs (withReg reg (findAll is acc k)) fs := by
  induction is generalizing acc with
  | nil => simpa [pres, findAll] using h
  | cons i is ih =>
    rw [findAll, withReg]
    refine fun w h1 h2 h3 => ⟨rfl, h2, ih ?_⟩
    simpa [pres, List.append_assoc] using h

/-- The whole of a Files target: with inputs that others make, and without. -/
theorem files_sound (hno : HashTells hex sum R T) (hdesc : ∀ w, own.desc t w = some (J t)) (ctx : Ctx) :
    (pres reg ins = [] ∧ ∀ fs, Sound hex sum own J R T t ins outs (withReg reg (filesBody hex sum ⟨.ptr t, own.typ t, own.desc t, ins, outs⟩ ctx)) fs) ∨
    Early hex sum own J R T t ins outs (pres reg ins) (withReg reg (filesBody hex sum ⟨.ptr t, own.typ t, own.desc t, ins, outs⟩ ctx)) := by
  by_cases hp : pres reg ins = []
  · refine .inl ⟨hp, fun fs => ?_⟩
    unfold filesBody
    refine sound_findAll ?_
    rw [List.nil_append]
    dsimp only
    rw [if_pos hp]
    exact sound_main hno hdesc
  · refine .inr ?_
    unfold filesBody
    refine early_findAll ?_
    rw [List.nil_append]
    dsimp only
    rw [if_neg hp, withReg]
    exact ⟨rfl, fun fs => sound_main hno hdesc, fun e => by simp [withReg, Early]⟩

end

end Fab.Yaml
