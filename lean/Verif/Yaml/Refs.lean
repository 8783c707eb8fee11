import Verif.Yaml.Read

/-!
# C44: references to targets in YAML
-/

namespace Fab.Yaml
open Path Cmd

/-- A reference by path: a scalar without a tag, with a slash in it. -/
structure PathRef (L : Lib) (node : Node) (dir q : Str) : Prop where
  tag : normalizeTag node.tag = []
  kind : node.kind = .scalar
  slash : '/' ∈ node.value
  name : refName L dir node.value = some q

theorem yamlTarget_ref (L : Lib) (n : Nat) (node : Node) (dir : Str) (s : St) (ht : normalizeTag node.tag = []) (hk : node.kind = .scalar) :
    yamlTarget L (n + 1) node dir s = reference L (readYAMLFile L n) node.value dir s := by
  rw [yamlTarget, targetStep]
  rw [if_neg (by simp [ht]), if_neg (by simp [hk])]

/-- **C44.** A reference by path to a target of a directory other than the top one: if it is resolved, then to the target registered
under its name relative to the top directory; if that name was registered before, then nothing is read and nothing changes; if not,
then the YAML file of the directory has been read, with success. -/
theorem C44_foreign (L : Lib) (n : Nat) (node : Node) (dir q : Str) (s s' : St) (o : Nat) (hr : PathRef L node dir q) (hd : dirOf q ≠ dot)
    (h : yamlTarget L n node dir s = .ok o s') :
    (s'.reg.target q).1 = some o ∧
      (∀ p, (s.reg.target q).1 = some p → o = p ∧ s' = s) ∧
      ((s.reg.target q).1 = none → ∃ m, readYAMLFile L m (dirOf q) s = .ok () s') := by
  cases n with
  | zero => rw [yamlTarget] at h; cases h
  | succ n =>
    rw [yamlTarget_ref L n node dir s hr.tag hr.kind, reference, if_neg (not_not.2 hr.slash), show relPath L.top _ = _ from hr.name] at h
    dsimp only at h
    rw [if_neg hd] at h
    split at h
    · rename_i p hp
      injection h with h1 h2
      subst h1 h2
      refine ⟨hp, fun p' hp' => ⟨?_, rfl⟩, fun hn => ?_⟩
      · rw [hp] at hp'; injection hp'
      · rw [hp] at hn; cases hn
    · rename_i hp
      cases hf : readYAMLFile L n (dirOf q) s with
      | more => rw [hf] at h; cases h
      | err e s1 => rw [hf] at h; cases h
      | ok a s1 =>
        rw [hf] at h
        simp only [R.bind] at h
        split at h
        · rename_i p hp'
          injection h with h1 h2
          subst h1 h2
          refine ⟨hp', ?_, fun _ => ⟨n, hf⟩⟩
          intro p' h'
          rw [hp] at h'
          cases h'
        · cases h

/-- **C44, what it refers to.** ... and in the last case, if in all YAML files the names of the targets are ordinary names and distinct
within a file, then the target is one that the file of the directory describes under that name. -/
theorem C44_describes (L : Lib) (ht : isAbs L.top = true) (n : Nat) (node : Node) (dir q : Str) (s s' : St) (hs : Consistent s) (o : Nat)
    (hr : PathRef L node dir q) (hd : dirOf q ≠ dot) (h : yamlTarget L n node dir s = .ok o s') (hnew : (s.reg.target q).1 = none)
    (hnames : ∀ D doc, L.file D = .doc (some doc) → ((items doc).map fun e => e.1.value).Nodup ∧ ∀ e ∈ items doc, Ordinary e.1.value) :
    ∃ doc d, L.file (join [L.top, dirOf q]) = .doc (some doc) ∧ relDir L (join [L.top, dirOf q]) = some d ∧
      ∀ e ∈ items doc, join [d, e.1.value] = q → Denotes L s' e.2 d o := by
  obtain ⟨h1, -, h3⟩ := C44_foreign L n node dir q s s' o hr hd h
  obtain ⟨m, hm⟩ := h3 hnew
  obtain ⟨doc, d, hf, hdd, -, hreg⟩ := C42_file L ht m (dirOf q) s s' hs hm
  refine ⟨doc, d, hf, hdd, fun e he hq => ?_⟩
  obtain ⟨o', ho', hden⟩ := hreg hnames e he
  rw [hq] at ho'
  rw [ho'] at h1
  injection h1 with h1
  rw [← h1]
  exact hden

/-- **C44, it fails otherwise.** A reference by path to a name that is not registered fails if the directory has no YAML file, with
an error that says so, and then nothing was registered. -/
theorem C44_no_file (L : Lib) (n : Nat) (node : Node) (dir q : Str) (s : St) (hr : PathRef L node dir q) (hd : dirOf q ≠ dot)
    (hnew : (s.reg.target q).1 = none) (hf : L.file (join [L.top, dirOf q]) = .none) :
    yamlTarget L (n + 2) node dir s = .err (.noFile (join [L.top, dirOf q])) { s with reads := s.reads ++ [join [L.top, dirOf q]] } := by
  rw [yamlTarget_ref L (n + 1) node dir s hr.tag hr.kind, reference, if_neg (not_not.2 hr.slash), show relPath L.top _ = _ from hr.name]
  dsimp only
  rw [if_neg hd, hnew, readYAMLFile, fileStep]
  dsimp only
  rw [hf]
  rfl

/-- **C44, canonical names.** References with a slash that lead to the same place inside the top directory mean the same, however
and in whatever directory they are written. -/
theorem C44_canonical (L : Lib) (n : Nat) (node node' : Node) (dir dir' : Str) (s : St)
    (ht : normalizeTag node.tag = []) (hk : node.kind = .scalar) (hv : '/' ∈ node.value)
    (ht' : normalizeTag node'.tag = []) (hk' : node'.kind = .scalar) (hv' : '/' ∈ node'.value)
    (hd : isAbs dir = false) (hr : isAbs node.value = false) (hd' : isAbs dir' = false) (hr' : isAbs node'.value = false)
    (hin : Inside dir node.value) (hsame : normC false (comps dir ++ comps node.value) = normC false (comps dir' ++ comps node'.value)) :
    yamlTarget L n node dir s = yamlTarget L n node' dir' s := by
  cases n with
  | zero => rw [yamlTarget]
  | succ n =>
    rw [yamlTarget_ref L n node dir s ht hk, yamlTarget_ref L n node' dir' s ht' hk', reference, reference, if_neg (not_not.2 hv),
      if_neg (not_not.2 hv'), C20_canonical L.top dir node.value dir' node'.value hd hr hd' hr' hin hsame]

/-- **C44, plain names.** A name without a slash, and a path to a target of the top directory, make a new target that refers to that
name; no file is read and nothing is registered or looked up. -/
theorem C44_plain (L : Lib) (n : Nat) (node : Node) (dir : Str) (s : St) (ht : normalizeTag node.tag = []) (hk : node.kind = .scalar)
    (q : Str) (hq : '/' ∉ node.value ∧ q = node.value ∨ '/' ∈ node.value ∧ refName L dir node.value = some q ∧ dirOf q = dot) :
    yamlTarget L (n + 1) node dir s = .ok s.heap.length { s with heap := s.heap ++ [.ref q] } := by
  rw [yamlTarget_ref L n node dir s ht hk, reference]
  rcases hq with ⟨hv, rfl⟩ | ⟨hv, hq, hd⟩
  · rw [if_pos hv]; rfl
  · rw [if_neg (not_not.2 hv), show relPath L.top _ = _ from hq]
    dsimp only
    rw [if_pos hd]; rfl

/-- Successive resolutions of one reference, the registry being each time as given. -/
def resolveAll (name : Str) : Option Nat → List Registry.Reg → List (Except YErr Nat)
  | _, [] => []
  | cache, reg :: regs => (resolve name cache reg).2 :: resolveAll name (resolve name cache reg).1 regs

theorem resolveAll_some (name : Str) (o : Nat) (regs : List Registry.Reg) (i : Nat) (hi : i < regs.length) :
    (resolveAll name (some o) regs)[i]? = some (.ok o) := by
  induction regs generalizing i with
  | nil => cases hi
  | cons r regs ih =>
    cases i with
    | zero => rfl
    | succ i => exact ih i (by simpa using hi)

/-- **C44, plain names, later.** Whatever the registry is at each resolution of a reference by name: the resolution fails as long as
the name is not registered; the first time it is, the reference resolves to the target registered then; and it keeps that
resolution. -/
theorem C44_resolve (name : Str) (regs : List Registry.Reg) (i : Nat) (hi : i < regs.length) :
    (∀ j o, j ≤ i → (∀ k reg, k < j → regs[k]? = some reg → (reg.target name).1 = none) →
      (∃ reg, regs[j]? = some reg ∧ (reg.target name).1 = some o) → (resolveAll name none regs)[i]? = some (.ok o)) ∧
    ((∀ k reg, k ≤ i → regs[k]? = some reg → (reg.target name).1 = none) →
      (resolveAll name none regs)[i]? = some (.error (.unresolved name))) := by
  induction regs generalizing i with
  | nil => cases hi
  | cons r regs ih =>
    constructor
    · rintro j o hj hbefore ⟨reg, hreg, ho⟩
      cases j with
      | zero =>
        injection hreg with hreg
        subst hreg
        have hres : resolve name none r = (some o, .ok o) := by simp [resolve, ho]
        rw [resolveAll, hres]
        cases i with
        | zero => rfl
        | succ i => exact resolveAll_some name o regs i (by simpa using hi)
      | succ j =>
        have hres : resolve name none r = (none, .error (.unresolved name)) := by
          simp [resolve, hbefore 0 r (by omega) rfl]
        rw [resolveAll, hres]
        cases i with
        | zero => omega
        | succ i =>
          exact (ih i (by simpa using hi)).1 j o (by omega) (fun k reg hk h => hbefore (k + 1) reg (by omega) h) ⟨reg, hreg, ho⟩
    · intro hall
      have hres : resolve name none r = (none, .error (.unresolved name)) := by
        simp [resolve, hall 0 r (by omega) rfl]
      rw [resolveAll, hres]
      cases i with
      | zero => rfl
      | succ i => exact (ih i (by simpa using hi)).2 fun k reg hk h => hall (k + 1) reg (by omega) h

/-! A project with two YAML files. -/

def exDoc (c : List Node) : Node := .mk .document [] [] [] [] [.mk .mapping "!!map".toList [] [] [] c]
def exKey (k : String) (head : String) : Node := .mk .scalar "!!str".toList k.toList head.toList [] []

/-- the file in the directory a -/
def exA : Node := exDoc [exKey "_dir" "", exScalar "a",
  exKey "X" "# makes x", exTagged "!Clean" .sequence [exScalar "x.o"],
  exKey "Y" "", exTagged "!All" .sequence [exScalar "X", exScalar "../b/Z", exScalar "../W"]]

/-- the file in the directory b -/
def exB : Node := exDoc [exKey "Z" "", exTagged "!Seq" .sequence [exScalar "../b/../a/X", exScalar "../a/./X"], exKey "_dir" "", exScalar "b"]

def exProj : Lib := { exLib with
  file := fun D => if D = "/top/a".toList then .doc (some exA) else if D = "/top/b".toList then .doc (some exB) else .none }

def exEnd (dir : String) : St := match readYAMLFile exProj 8 dir.toList St.empty with
  | .ok _ s => s
  | _ => St.empty

example : (match readYAMLFile exProj 8 "a".toList St.empty with | .ok _ _ => true | _ => false) = true := by decide +kernel
example : (exEnd "a").hist.map (fun x => (x.1, x.2.2)) = [("a/X".toList, 0), ("b/Z".toList, 2), ("a/Y".toList, 4)] := by decide +kernel
example : (exEnd "a").heap.length = 5 ∧ (exEnd "a").reads = ["/top/a".toList, "/top/b".toList] := by decide +kernel
example : (exEnd "a").reg.target "a/X".toList = (some 0, "makes x".toList) := by decide +kernel
example : Consistent St.empty := rfl

theorem exFile : readYAMLFile exProj 8 "a".toList St.empty = .ok () (exEnd "a") := by
  have : (match readYAMLFile exProj 8 "a".toList St.empty with | .ok _ _ => true | _ => false) = true := by decide +kernel
  unfold exEnd
  cases h : readYAMLFile exProj 8 "a".toList St.empty with
  | ok a s => rfl
  | err e s => rw [h] at this; cases this
  | more => rw [h] at this; cases this

/-- the hypotheses of `C42_file`, in the example -/
example : isAbs exProj.top = true ∧
    ∀ D doc, exProj.file D = .doc (some doc) → ((items doc).map fun e => e.1.value).Nodup ∧ ∀ e ∈ items doc, Ordinary e.1.value := by
  refine ⟨by decide, fun D doc h => ?_⟩
  have : doc = exA ∨ doc = exB := by
    simp only [exProj] at h
    split at h
    · injection h with h; injection h with h; exact .inl h.symm
    · split at h
      · injection h with h; injection h with h; exact .inr h.symm
      · cases h
  have hd : ∀ k : Str, (k ≠ [] ∧ k ≠ dot ∧ '/' ∉ k) ∧ k ≠ dotdot → Ordinary k := fun k h => h
  rcases this with rfl | rfl
  · exact ⟨by decide +kernel, fun e he => hd _ (by
      have : ∀ e ∈ items exA, ((e.1.value ≠ [] ∧ e.1.value ≠ dot ∧ '/' ∉ e.1.value) ∧ e.1.value ≠ dotdot) := by
        have : ∀ v ∈ (items exA).map (fun e => e.1.value), ((v ≠ [] ∧ v ≠ dot ∧ '/' ∉ v) ∧ v ≠ dotdot) := by decide +kernel
        exact fun e he => this _ (List.mem_map_of_mem he)
      exact this e he)⟩
  · exact ⟨by decide +kernel, fun e he => hd _ (by
      have : ∀ v ∈ (items exB).map (fun e => e.1.value), ((v ≠ [] ∧ v ≠ dot ∧ '/' ∉ v) ∧ v ≠ dotdot) := by decide +kernel
      exact this _ (List.mem_map_of_mem he))⟩

/-- the references of the example -/
example : PathRef exProj (exScalar "../b/Z") "a".toList "b/Z".toList ∧ dirOf "b/Z".toList ≠ dot :=
  ⟨⟨by decide +kernel, rfl, by decide, by decide +kernel⟩, by decide +kernel⟩

/-- wrong documents are rejected -/
example : (match readYAML exProj 8 (some (exDoc [exKey "_dir" "", exScalar "b"])) "a".toList St.empty with | .err e _ => e | _ => .io) = .badDir ∧
    (match readYAML exProj 8 (some (exDoc [exKey "X" "", exScalar "Y"])) "a".toList St.empty with | .err e _ => e | _ => .io) = .badDir ∧
    (match readYAML exProj 8 (some (exDoc [exKey "X/Y" "", exScalar "Y"])) [] St.empty with | .err e _ => e | _ => .io) = .slash := by
  decide +kernel

end Fab.Yaml
