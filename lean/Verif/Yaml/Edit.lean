import Verif.Yaml.Steps
import Verif.Files.Rule

/-!
# C79: edits of the rules are noticed

C78 says what becomes of a build if it is known what a rule with a given JSON form should do.  Here the rules are those of the YAML files: the JSON form is
computed from the commands in them, as it is for the hashes (files.go:167-195), and what a rule should do may be said in terms of these commands.
-/

namespace Fab.Yaml
open Path Cmd Files
open Rule (T json typeName Transparent)
open Runner (Proc TRef Env Ev State Reach Label TSt Job Thread allBody seqBody argBody nameBody hist)

/-! ## Model -/

/-- The target with its contents, as it is encoded: the object `o` is a command (command.go:66-175), an All (all.go:25-27), a Seq (seq.go:26-28) or an
ArgTarget (argtarg.go:33-36) of such.  The arguments of an ArgTarget without arguments are a nil slice (yaml.go:331-359).  Left out are empty
All and Seq targets (it depends on a library whether their slices are nil), Clean targets (running one may change it: C26), and targets of others. -/
inductive Tree (s : St) : Nat → T → Prop
  | command {o c} : s.heap[o]? = some (.command c) → Tree s o (.command c)
  | all {o ts l} : s.heap[o]? = some (.all ts) → ts ≠ [] → ts.length = l.length →
      (∀ (i : Nat) t r, ts[i]? = some t → l[i]? = some r → Tree s t r) → Tree s o (.all (some l))
  | seq {o ts l} : s.heap[o]? = some (.seq ts) → ts ≠ [] → ts.length = l.length →
      (∀ (i : Nat) t r, ts[i]? = some t → l[i]? = some r → Tree s t r) → Tree s o (.seq (some l))
  | arg {o t args r} : s.heap[o]? = some (.arg t args) → Tree s t r → Tree s o (.arg r (if args = [] then none else some args))

section
variable {ρ : Type} (hex : Bytes → Str) (sum : Str → Str) (own : Own ρ) (s : St) (J : Nat → Json.J) (os : List Nat)

/-- Type and JSON form of these targets are as `computeHash` finds them (files.go:176-187). -/
def Described : Prop := ∀ o r, Tree s o r → own.typ o = typeName r ∧ ∀ w, own.desc o w = some (json r)

/-! ## Specification -/

/-- What the rules of a YAML file are meant to do: `M r i o`: rule `r`, when its inputs are `i`, should produce the outputs `o`. -/
abbrev RuleMeaning := T → View → View → Prop

/-- Among the rules in `K`, those that are meant to do different things have different types or differ in something that is encoded. -/
def Visible (K : T → Prop) (M : RuleMeaning) : Prop :=
  ∀ r r', K r → K r' → typeName r = typeName r' → json r = json r' → ∀ i o, M r i o → M r' i o

/-- The rules of the Files targets that are needed are among `K`. -/
def RulesIn (K : T → Prop) : Prop := ∀ x t ins outs, FilesOf s os x t ins outs → ∃ r, Tree s t r ∧ K r

/-- The rules do what they are meant to do: when the rule `r` of a Files target has run successfully then the outputs of that target are what `r` is meant to
produce. -/
def RulesDo (M : RuleMeaning) (w : World ρ) (ctx : Ctx) (ls : List (Label (World ρ))) : Prop :=
  ∀ ls₁ l ls₂, ls = ls₁ ++ l :: ls₂ → ∀ x t ins outs, FilesOf s os x t ins outs → ∀ th key,
    (buildRun hex sum own s os w ctx (ls₁ ++ [l])).log = (buildRun hex sum own s os w ctx ls₁).log ++ [(th, Ev.finish key t none)] →
    ∀ r, Tree s t r →
      M r (Shows (buildRun hex sum own s os w ctx (ls₁ ++ [l])).world.fs ins) (Shows (buildRun hex sum own s os w ctx (ls₁ ++ [l])).world.fs outs)

/-- A world after any number of builds.  Between them everything may be edited: the files, and the YAML files; so that each build may be one of another
project `s`.  A build may be killed.  Entries may vanish from the databases. -/
inductive Edits (K : T → Prop) (M : RuleMeaning) (S : Sit → Prop) : World ρ → Prop
  | new {w} : (∀ d, w.db d = []) → Edits K M S w
  | edit {w w'} : Edits K M S w → (∀ d, ∀ h ∈ w'.db d, h ∈ w.db d) → Edits K M S w'
  | build {w own s J os ctx ls} : Edits K M S w → FairBuild hex sum own s J os S w ctx ls → Described own s → RulesIn s os K →
      RulesDo hex sum own s os M w ctx ls → Edits K M S (buildRun hex sum own s os w ctx ls).world

end

/-! ## Proofs -/

/-- What the rules with a given JSON form are meant to do. -/
def meaningOf (K : T → Prop) (M : RuleMeaning) : Meaning := fun j y i o => ∀ r, K r → json r = j → typeName r = y → M r i o

theorem meaning_iff {K : T → Prop} {M : RuleMeaning} (hv : Visible K M) {r : T} (hr : K r) (i o : View) :
    meaningOf K M (json r) (typeName r) i o ↔ M r i o :=
  ⟨fun h => h r hr rfl rfl, fun h r' hr' hj hy => hv r r' hr hr' hy.symm hj.symm i o h⟩

section
variable {ρ : Type} {hex : Bytes → Str} {sum : Str → Str} {own : Own ρ} {s : St} {J : Nat → Json.J} {os : List Nat} {K : T → Prop} {M : RuleMeaning}
  {S : Sit → Prop}

theorem right_iff (hv : Visible K M) (hd : Described own s) (hap : RulesApart own s J os) {x t : Nat} {ins outs : List Str}
    (hx : FilesOf s os x t ins outs) {r : T} (ht : Tree s t r) (hr : K r) (w : World ρ) (fs : FS) :
    (sitOf own J t ins outs fs).right (meaningOf K M) ↔ M r (Shows fs ins) (Shows fs outs) := by
  obtain ⟨h1, h2⟩ := hd _ _ ht
  have h3 := hap.desc x t ins outs hx w
  rw [h2] at h3
  unfold Sit.right sitOf
  dsimp only
  rw [← Option.some.inj h3, h1]
  exact meaning_iff hv hr _ _

theorem RulesDo.work (hv : Visible K M) (hd : Described own s) {w : World ρ} {ctx : Ctx} {ls : List (Label (World ρ))}
    (hf : FairBuild hex sum own s J os S w ctx ls) (hk : RulesIn s os K) (h : RulesDo hex sum own s os M w ctx ls) :
    RulesWork hex sum own s J os (meaningOf K M) w ctx ls := by
  intro ls₁ l ls₂ hls x t ins outs hx th key hlog
  obtain ⟨r, hr, hkr⟩ := hk x t ins outs hx
  exact (right_iff hv hd hf.apart hx hr hkr w _).2 (h ls₁ l ls₂ hls x t ins outs hx th key hlog r hr)

theorem Edits.history (hv : Visible K M) {w : World ρ} (h : Edits hex sum K M S w) : History hex sum (meaningOf K M) S w := by
  induction h with
  | new h => exact .new h
  | edit _ h ih => exact .edit ih h
  | build _ hf hd hk hr ih => exact .build ih hf (hr.work hv hd hf hk)

/-- **C79.** Whatever was built before, and whatever was edited since, also in the YAML files: if a build returns nil, then the outputs of all Files targets
that it needs are those that the rules that are *now* in the YAML files should produce from the inputs, also where rules were not run.  It is asked that
rules that are meant to do different things are not encoded alike. -/
theorem C79_edits_partial (hno : NoCollision hex sum S) (hv : Visible K M) {w : World ρ} (hw : Edits hex sum K M S w) {ctx : Ctx}
    {ls : List (Label (World ρ))} (hf : FairBuild hex sum own s J os S w ctx ls) (hd : Described own s) (hk : RulesIn s os K)
    (hrule : RulesDo hex sum own s os M w ctx ls) {c : Nat} (hret : (0, Ev.ret c none) ∈ (buildRun hex sum own s os w ctx ls).log) :
    ∀ x t ins outs, FilesOf s os x t ins outs → ∀ r, Tree s t r → K r →
      M r (Shows (buildRun hex sum own s os w ctx ls).world.fs ins) (Shows (buildRun hex sum own s os w ctx ls).world.fs outs) := by
  intro x t ins outs hx r hr hkr
  exact (right_iff hv hd hf.apart hx hr hkr w _).1 (C78_history hno (hw.history hv) hf (hrule.work hv hd hf hk) hret x t ins outs hx)

/-- A rule all of whose contents are encoded, or a Seq. -/
def ClearOrSeq (r : T) : Prop := Transparent r ∨ ∃ l, r = .seq l

/-- Rules all of whose contents are encoded are never encoded alike, whatever they are meant to do. -/
theorem C79_visible (M : RuleMeaning) : Visible ClearOrSeq fun r i o => Transparent r → M r i o := by
  intro r r' hr hr' hy hj i o h ht'
  rcases hr with ht | ⟨l, rfl⟩
  · have e : r = r' := by rw [← Rule.erase_transparent r ht, ← Rule.erase_transparent r' ht']; exact Rule.json_inj r r' hj
    exact e ▸ h ht
  · cases r' with
    | seq l => exact ht'.elim
    | f n => exact ht'.elim
    | _ => exact absurd (String.toList_inj.1 hy) (by decide)

/-- **C79, rules all of whose contents are encoded** (a command, an All of commands, ...; no Seq, no Deps, no list of shell strings).  There may be Seq
targets as rules in the project too; nothing is said about them. -/
theorem C79_clear_partial (M : RuleMeaning) (hno : NoCollision hex sum S) {w : World ρ}
    (hw : Edits hex sum ClearOrSeq (fun r i o => Transparent r → M r i o) S w) {ctx : Ctx}
    {ls : List (Label (World ρ))} (hf : FairBuild hex sum own s J os S w ctx ls) (hd : Described own s) (hk : RulesIn s os ClearOrSeq)
    (hrule : RulesDo hex sum own s os (fun r i o => Transparent r → M r i o) w ctx ls) {c : Nat}
    (hret : (0, Ev.ret c none) ∈ (buildRun hex sum own s os w ctx ls).log) :
    ∀ x t ins outs, FilesOf s os x t ins outs → ∀ r, Tree s t r → Transparent r →
      M r (Shows (buildRun hex sum own s os w ctx ls).world.fs ins) (Shows (buildRun hex sum own s os w ctx ls).world.fs outs) :=
  fun x t ins outs hx r hr ht => C79_edits_partial hno (C79_visible M) hw hf hd hk hrule hret x t ins outs hx r hr (.inl ht) ht

/-- The contents of a target are determined. -/
theorem Tree.uniq {o : Nat} {r r' : T} (h : Tree s o r) (h' : Tree s o r') : r = r' := by
  have lists : ∀ {ts : List Nat} {l l' : List T}, ts.length = l.length → ts.length = l'.length →
      (∀ (i : Nat) t r, ts[i]? = some t → l[i]? = some r → ∀ r', Tree s t r' → r = r') →
      (∀ (i : Nat) t r, ts[i]? = some t → l'[i]? = some r → Tree s t r) → l = l' := by
    intro ts l l' h1 h2 h3 h4
    refine List.ext_getElem (h1.symm.trans h2) fun i hi hi' => ?_
    have ht : i < ts.length := h1 ▸ hi
    exact h3 i ts[i] l[i] (by simp) (by simp) _ (h4 i ts[i] l'[i] (by simp) (by simp))
  induction h generalizing r' with
  | command h1 => cases h' with | _ g1 => rw [h1] at g1; cases g1 <;> rfl
  | all h1 _ h2 _ ih =>
    cases h' with
    | all g1 _ g2 g3 =>
      rw [h1] at g1; cases g1
      rw [lists h2 g2 (fun i t r a b r' c => ih i t r a b c) g3]
    | _ g1 => rw [h1] at g1; cases g1
  | seq h1 _ h2 _ ih =>
    cases h' with
    | seq g1 _ g2 g3 =>
      rw [h1] at g1; cases g1
      rw [lists h2 g2 (fun i t r a b r' c => ih i t r a b c) g3]
    | _ g1 => rw [h1] at g1; cases g1
  | arg h1 _ ih =>
    cases h' with
    | arg g1 g2 =>
      rw [h1] at g1; cases g1
      rw [ih g2]
    | _ g1 => rw [h1] at g1; cases g1

/-- **C79, commands.** It is enough that rules are commands, or Seqs of different commands, that do what they are meant to do if nobody else changes the
inputs and outputs meanwhile. -/
theorem C79_commands (hv : Visible K M) {w : World ρ} {ctx : Ctx}
    {ls : List (Label (World ρ))} (hf : FairBuild hex sum own s J os S w ctx ls) (hd : Described own s)
    (hcmd : ∀ x t ins outs, FilesOf s os x t ins outs → ∃ r cs, Tree s t r ∧ K r ∧ CmdList s t cs ∧
      ∀ fs, MakesAll own (ins ++ outs) (fun fs => M r (Shows fs ins) (Shows fs outs)) cs fs) :
    RulesDo hex sum own s os M w ctx ls := by
  have hwork : RulesWork hex sum own s J os (meaningOf K M) w ctx ls := by
    refine C78_sequences hf.loose fun x t ins outs hx => ?_
    obtain ⟨r, cs, h1, h2, h3, h4⟩ := hcmd x t ins outs hx
    refine ⟨cs, h3, ?_⟩
    simp only [right_iff hv hd hf.apart hx h1 h2 w]
    exact h4
  intro ls₁ l ls₂ hls x t ins outs hx th key hlog r hr
  obtain ⟨r', cs, h1, h2, -, -⟩ := hcmd x t ins outs hx
  cases hr.uniq h1
  exact (right_iff hv hd hf.apart hx h1 h2 w _).1 (hwork ls₁ l ls₂ hls x t ins outs hx th key hlog)
end

end Fab.Yaml
