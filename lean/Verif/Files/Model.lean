import Verif.FileHash
import Verif.Runner.Targets

/-!
# The `Files` target: model of its `Run` method, and the paths through it

files.go:95-225.  The file hashes themselves are in `Verif/FileHash.lean`, the runner in `Verif/Runner`.

Simplifications:
* a panic in `fileHashes` (see `HErr`) is treated as an error: in either case nothing is recorded and the target does not
  succeed;
* the texts that `errors.Wrap` adds and the line printed in verbose mode are not modelled;
* the JSON form of the subtarget is read at one moment;
* the working directory, the registry of Files targets and everything else a process owns are part of the one `World`; when
  several processes are considered, steps of the environment between their steps can change these parts arbitrarily, so every
  behaviour of processes with separate ones is included.
-/

namespace Fab.Files
open Fab Path Runner

/-! ## The model -/

/-- What targets act on.
* `fs`: the files;
* `db d`: the hashes in hash database number `d` (hashdb.go, as a set; its implementation is in `Verif/Sqlite.lean`);
* `reg`: `filesRegistry` (files.go:21): output name to Files target;
* `hasFails`, `addFails`: the next lookup or insertion returns an error (the environment can change this at any time);
  `addLost`: the next insertion has no effect (this is only used together with `addFails`, see `dbAdd`);
* `rest`: anything else. -/
structure World (ρ : Type) where
  fs : FS
  db : Nat → List Str
  reg : GoMap Str Obj
  hasFails : Bool
  addFails : Bool
  addLost : Bool
  rest : ρ

/-- files.go:113-117: a `*files` value.  `typ` is the name of the type of the subtarget and `desc` its JSON form (`none`: it
cannot be marshaled), which can depend on the world because a name reference caches its result (yaml.go:100-113). -/
structure FilesT (ρ : Type) where
  target : TRef
  typ : Str
  desc : World ρ → Option Json.J
  ins : List Str
  outs : List Str

/-- files.go:95-111: creating a Files target `o` with outputs `outs` enters it in the registry under every output name.  (The options
of `Files` do not matter here.) -/
def regFiles (reg : GoMap Str Obj) (o : Obj) (outs : List Str) : GoMap Str Obj := outs.foldl (fun reg out => reg.put out o) reg

/-- The registry after the Files targets in the list were created, in this order. -/
def regAll (l : List (Obj × List Str)) : GoMap Str Obj := l.foldl (fun reg e => regFiles reg e.1 e.2) []

/-- files.go:212-225: the Files target registered for `name` or for the nearest directory above it.  The first argument bounds
the number of iterations of the loop; `none`: the loop is still running. -/
def findReg (reg : GoMap Str Obj) : Nat → Str → Option (Option Obj)
  | 0, _ => none
  | n + 1, name =>
    match reg.get name with
    | some o => some (some o)
    | none =>
      let dir := dirOf name
      if dir = [] ∨ dir = dot ∨ dir = ['/'] ∨ dir = name then some none else findReg reg n dir

/-- files.go:212-225 with enough iterations (`findReg_terminates`) -/
def findInFilesRegistry (reg : GoMap Str Obj) (name : Str) : Option Obj := (findReg reg (name.length + 2) name).join

variable {ρ : Type}

abbrev P (ρ : Type) := Proc (World ρ) Ctx

/-- files.go:200-204: one lookup per input, collected in `acc` -/
def findAll : List Str → List TRef → (List TRef → P ρ) → P ρ
  | [], acc, k => k acc
  | i :: is, acc, k => .act id fun w => findAll is (acc ++ ((findInFilesRegistry w.reg i).map TRef.ptr).toList) k

variable (hex : Bytes → Str) (sum : Str → Str)

/-- files.go:268-276 (`fileHashesHelper` on the top-level items): each item is read in one step -/
def readItems : List Str → HMap → (Except HErr HMap → P ρ) → P ρ
  | [], m, k => k (.ok m)
  | i :: is, m, k => .act id fun w =>
    match hashItem hex w.fs i m with
    | .ok m' => readItems is m' k
    | .error e => k (.error e)

/-- files.go:167-195; `none`: an error -/
def computeHash (ft : FilesT ρ) (k : Option Str → P ρ) : P ρ :=
  readItems hex ft.ins [] fun r =>
    match r with
    | .error _ => k none
    | .ok mi => readItems hex ft.outs [] fun r =>
      match r with
      | .error _ => k none
      | .ok mo => .act id fun w =>
        match ft.desc w with
        | none => k none
        | some j => k (some (sum (hashText j ft.typ (hashList mi) (hashList mo))))

/-- hash.go: `Add`: afterwards the hash is present, unless an error is returned and the hash was not stored -/
def dbAdd (d : Nat) (h : Str) (w : World ρ) : World ρ :=
  if w.addFails && w.addLost then w else { w with db := fun d' => if d' = d then h :: w.db d' else w.db d' }

/-- errors made by `Files` itself -/
def errHash : Err := .atom 1001
def errHas : Err := .atom 1002
def errAdd : Err := .atom 1003

/-- files.go:146-159: run the subtarget; then hash again and record -/
def filesBuild (ft : FilesT ρ) (ctx : Ctx) : P ρ :=
  .call ctx [ft.target] fun e =>
    match e with
    | some e => .ret (some e)
    | none =>
      match getHashDB ctx with
      | none => .ret none
      | some d =>
        if getDryRun ctx then .ret none
        else computeHash hex sum ft fun r =>
          match r with
          | none => .ret (some errHash)
          | some h => .act (dbAdd d h) fun w => .ret (if w.addFails then some errAdd else none)

/-- files.go:127-160: check the database, if there is one and neither Force nor DryRun is set -/
def filesMain (ft : FilesT ρ) (ctx : Ctx) : P ρ :=
  match getHashDB ctx with
  | none => filesBuild hex sum ft ctx
  | some d =>
    if !getForce ctx && !getDryRun ctx then
      computeHash hex sum ft fun r =>
        match r with
        | none => .ret (some errHash)
        | some h => .act id fun w =>
          if w.hasFails then .ret (some errHas)
          else if h ∈ w.db d then .ret none
          else filesBuild hex sum ft ctx
    else filesBuild hex sum ft ctx

/-- `files.Run`, files.go:122-160; 197-210: the prerequisites are run in one call, unless there are none -/
def filesBody (ft : FilesT ρ) (ctx : Ctx) : P ρ :=
  findAll ft.ins [] fun pre =>
    if pre = [] then filesMain hex sum ft ctx
    else .call ctx pre fun e =>
      match e with
      | some e => .ret (some e)
      | none => filesMain hex sum ft ctx

/-! ## `findInFilesRegistry` -/

/-- The directories above `name` that are considered: `name` itself, then `filepath.Dir` again and again until "", ".", "/" or
no change. -/
inductive Above : Str → Str → Prop where
  | self (name) : Above name name
  | up {name a} : dirOf name ≠ [] → dirOf name ≠ dot → dirOf name ≠ ['/'] → dirOf name ≠ name → Above (dirOf name) a → Above name a

/-- The Files target that produces `name`: the one registered for `name`, or for the nearest directory above it. -/
inductive Producer (reg : GoMap Str Obj) : Str → Obj → Prop where
  | self {name o} : reg.get name = some o → Producer reg name o
  | up {name o} : reg.get name = none → dirOf name ≠ [] → dirOf name ≠ dot → dirOf name ≠ ['/'] → dirOf name ≠ name →
      Producer reg (dirOf name) o → Producer reg name o

/-- total length of the elements, each with a '/' -/
def tot (cs : List Str) : Nat := (cs.map fun c => c.length + 1).sum

theorem tot_cons (c : Str) (cs : List Str) : tot (c :: cs) = c.length + 1 + tot cs := by simp [tot]
theorem tot_append (a b : List Str) : tot (a ++ b) = tot a + tot b := by simp [tot]
theorem tot_reverse (a : List Str) : tot a.reverse = tot a := by
  induction a with
  | nil => rfl
  | cons c a ih => rw [List.reverse_cons, tot_append, tot_cons, ih]; simp [tot]; omega

theorem joinWith_len : ∀ cs : List Str, cs ≠ [] → (joinWith ['/'] cs).length + 1 = tot cs
  | [a], _ => by simp [joinWith, tot]
  | a :: b :: cs, _ => by
    have := joinWith_len (b :: cs) (by simp)
    simp only [joinWith, List.length_append, List.length_cons, List.length_nil, tot_cons] at *
    omega

theorem split_tot (p : Str) : tot (split p) = p.length + 1 := by
  induction p with
  | nil => simp [split, tot]
  | cons c p ih =>
    unfold split
    split
    · rw [tot_cons, ih]; simp; omega
    · split
      · rename_i l ls h; rw [h, tot_cons] at ih; rw [tot_cons]; simp only [List.length_cons]; omega
      · rename_i h; exact absurd h (split_ne_nil p)

theorem tot_filter (f : Str → Bool) (cs : List Str) : tot (cs.filter f) ≤ tot cs := by
  induction cs with
  | nil => simp
  | cons c cs ih =>
    rw [List.filter_cons]
    split <;> simp only [tot_cons] <;> omega

theorem comps_tot (p : Str) : tot (comps p) ≤ p.length + 1 := by
  rw [← split_tot]; exact tot_filter _ _

theorem push_tot (r : Bool) (st : List Str) (c : Str) : tot (push r st c) ≤ tot st + (c.length + 1) := by
  unfold push
  split
  · rename_i h
    subst h
    split
    · split <;> simp [tot]
    · split
      · rw [tot_cons]; omega
      · rw [tot_cons]; omega
  · rw [tot_cons]; omega

theorem foldl_push_tot (r : Bool) (cs : List Str) : ∀ st, tot (cs.foldl (push r) st) ≤ tot st + tot cs := by
  induction cs with
  | nil => intro st; simp [tot]
  | cons c cs ih =>
    intro st
    have h1 := ih (push r st c)
    have h2 := push_tot r st c
    rw [List.foldl_cons, tot_cons]
    omega

theorem normC_tot (r : Bool) (cs : List Str) : tot (normC r cs) ≤ tot cs := by
  unfold normC
  rw [tot_reverse]
  have := foldl_push_tot r cs []
  simpa [tot] using this

theorem dirOf_shorter (name : Str) (h1 : dirOf name ≠ dot) (h2 : dirOf name ≠ ['/']) : (dirOf name).length < name.length := by
  obtain ⟨pre, c, rfl, hc, hpre⟩ := exists_cut name
  have hd : dirOf (pre ++ c) = clean pre := by unfold dirOf; rw [(cut_last hc pre hpre).1]
  rw [hd] at h1 h2 ⊢
  rw [List.length_append]
  rcases hpre with rfl | hpre
  · exact absurd (by decide) h1
  · rw [List.getLast?_eq_some_iff] at hpre
    obtain ⟨q, rfl⟩ := hpre
    have hcomps : comps (q ++ ['/']) = comps q := by rw [comps_append, comps_nil, List.append_nil]
    unfold clean at h1 h2 ⊢
    rw [hcomps] at h1 h2 ⊢
    cases q with
    | nil => exact absurd (by decide) h2
    | cons x q =>
      have habs : isAbs (x :: q ++ ['/']) = isAbs (x :: q) := by simp [isAbs]
      rw [habs] at h1 h2 ⊢
      simp only [List.length_append, List.length_cons, List.length_nil]
      have hn := normC_tot (isAbs (x :: q)) (comps (x :: q))
      generalize hcs : normC (isAbs (x :: q)) (comps (x :: q)) = cs at *
      cases hr : isAbs (x :: q) with
      | true =>
        have hx : x = '/' := by simpa [isAbs] using hr
        subst hx
        rw [hr] at h2
        rw [comps_slash] at hn
        have h3 := comps_tot q
        simp only [render, if_true] at h2 ⊢
        have hne : cs ≠ [] := by rintro rfl; exact h2 rfl
        have := joinWith_len cs hne
        simp only [List.length_cons]
        omega
      | false =>
        rw [hr] at h1
        have h3 := comps_tot (x :: q)
        simp only [render, Bool.false_eq_true, if_false] at h1 ⊢
        by_cases hne : cs = []
        · simp [hne] at h1
        · rw [if_neg hne]
          have := joinWith_len cs hne
          simp only [List.length_cons] at h3
          omega

/-- The loop always ends. -/
theorem findReg_terminates (reg : GoMap Str Obj) : ∀ (n : Nat) (name : Str), name.length < n → ∃ r, findReg reg n name = some r := by
  intro n
  induction n with
  | zero => intro name h; omega
  | succ n ih =>
    intro name h
    unfold findReg
    split
    · exact ⟨_, rfl⟩
    · simp only
      split
      · exact ⟨_, rfl⟩
      · rename_i hs
        simp only [not_or] at hs
        exact ih _ (by have := dirOf_shorter name hs.2.1 hs.2.2.1; omega)

theorem findReg_spec (reg : GoMap Str Obj) : ∀ (n : Nat) (name : Str) (r : Option Obj), findReg reg n name = some r →
    ∀ o, r = some o ↔ Producer reg name o := by
  intro n
  induction n with
  | zero => intro name r h; simp [findReg] at h
  | succ n ih =>
    intro name r h o
    unfold findReg at h
    split at h
    · rename_i o' ho
      simp only [Option.some.injEq] at h
      subst h
      constructor
      · intro h; cases h; exact .self ho
      · intro h
        cases h with
        | self h => rw [ho] at h; exact h
        | up h => rw [ho] at h; cases h
    · rename_i hn
      simp only at h
      split at h
      · rename_i hs
        simp only [Option.some.injEq] at h
        subst h
        constructor
        · intro h; cases h
        · intro h
          cases h with
          | self h => rw [hn] at h; cases h
          | up _ h1 h2 h3 h4 _ => rcases hs with hs | hs | hs | hs <;> contradiction
      · rename_i hs
        simp only [not_or] at hs
        rw [ih _ _ h o]
        constructor
        · intro h; exact .up hn hs.1 hs.2.1 hs.2.2.1 hs.2.2.2 h
        · intro h
          cases h with
          | self h => rw [hn] at h; cases h
          | up _ _ _ _ _ h => exact h

/-- `findInFilesRegistry` finds the producer. -/
theorem find_iff (reg : GoMap Str Obj) (name : Str) (o : Obj) : findInFilesRegistry reg name = some o ↔ Producer reg name o := by
  unfold findInFilesRegistry
  obtain ⟨r, h⟩ := findReg_terminates reg (name.length + 2) name (by omega)
  rw [h]
  exact findReg_spec reg _ _ _ h o

/-! ## Paths -/

theorem Runs.ret_inv {σ C : Type} {e : Option Err} {h : List (LEv σ C)} {pos} (hr : Runs (.ret e) h pos) : h = [] ∧ pos = .at (.ret e) := by
  induction hr with
  | nil => exact ⟨rfl, rfl⟩
  | act w _ ih => cases ih.2
  | call c _ ih => cases ih.2
  | ret e _ ih => cases ih.2

theorem Runs.act_inv {σ C : Type} {f : σ → σ} {k : σ → Proc σ C} {h : List (LEv σ C)} {pos} (hr : Runs (.act f k) h pos) :
    (h = [] ∧ pos = .at (.act f k)) ∨ ∃ w h', h = .act w :: h' ∧ Runs (k w) h' pos := by
  induction hr with
  | nil => exact .inl ⟨rfl, rfl⟩
  | act w _ ih =>
    rcases ih with ⟨rfl, h⟩ | ⟨w', h', rfl, h⟩
    · cases h; exact .inr ⟨w, [], rfl, .nil⟩
    · exact .inr ⟨w', _, rfl, .act w h⟩
  | call c _ ih =>
    rcases ih with ⟨rfl, h⟩ | ⟨w', h', rfl, h⟩
    · cases h
    · exact .inr ⟨w', _, rfl, .call c h⟩
  | ret e _ ih =>
    rcases ih with ⟨rfl, h⟩ | ⟨w', h', rfl, h⟩
    · cases h
    · exact .inr ⟨w', _, rfl, .ret e h⟩

theorem Runs.call_inv {σ C : Type} {ctx : C} {refs} {k : Option Err → Proc σ C} {h : List (LEv σ C)} {pos}
    (hr : Runs (.call ctx refs k) h pos) :
    (h = [] ∧ pos = .at (.call ctx refs k)) ∨ (∃ c, h = [.call c ctx refs] ∧ pos = .inCall c k) ∨
    ∃ c e h', h = .call c ctx refs :: .ret c e :: h' ∧ Runs (k e) h' pos := by
  induction hr with
  | nil => exact .inl ⟨rfl, rfl⟩
  | act w _ ih =>
    rcases ih with ⟨rfl, h⟩ | ⟨c, rfl, h⟩ | ⟨c, e, h', rfl, h⟩
    · cases h
    · cases h
    · exact .inr (.inr ⟨c, e, _, rfl, .act w h⟩)
  | call c _ ih =>
    rcases ih with ⟨rfl, h⟩ | ⟨c', rfl, h⟩ | ⟨c', e, h', rfl, h⟩
    · cases h; exact .inr (.inl ⟨c, rfl, rfl⟩)
    · cases h
    · exact .inr (.inr ⟨c', e, _, rfl, .call c h⟩)
  | ret e _ ih =>
    rcases ih with ⟨rfl, h⟩ | ⟨c', rfl, h⟩ | ⟨c', e', h', rfl, h⟩
    · cases h
    · cases h; exact .inr (.inr ⟨_, e, [], rfl, .nil⟩)
    · exact .inr (.inr ⟨c', e', _, rfl, .ret e h⟩)

/-- After the same events a process is at the same place. -/
theorem _root_.Fab.Runner.Runs.det {σ C : Type} {p : Proc σ C} {h : List (LEv σ C)} {pos} (h1 : Runs p h pos) : ∀ {pos'}, Runs p h pos' → pos = pos' := by
  have snoc : ∀ {a b : List (LEv σ C)} {x y}, a ++ [x] = b ++ [y] → a = b ∧ x = y := by
    intro a b x y h; exact ⟨List.append_inj_left' h rfl, by simpa using List.append_inj_right' h rfl⟩
  induction h1 with
  | nil =>
    intro pos' h2
    generalize he : ([] : List (LEv σ C)) = e at h2
    cases h2 with
    | nil => rfl
    | act w' h3 => simp at he
    | call c h3 => simp at he
    | ret e h3 => simp at he
  | @act h f k w _ ih =>
    intro pos' h2
    generalize he : h ++ [LEv.act w] = e at h2
    cases h2 with
    | nil => simp at he
    | act w' h3 => obtain ⟨rfl, h⟩ := snoc he; cases h; cases ih h3; rfl
    | call c h3 => obtain ⟨rfl, h⟩ := snoc he; cases h
    | ret e h3 => obtain ⟨rfl, h⟩ := snoc he; cases h
  | @call h ctx refs k c _ ih =>
    intro pos' h2
    generalize he : h ++ [LEv.call c ctx refs] = e at h2
    cases h2 with
    | nil => simp at he
    | act w' h3 => obtain ⟨rfl, h⟩ := snoc he; cases h
    | call c h3 => obtain ⟨rfl, h⟩ := snoc he; cases h; cases ih h3; rfl
    | ret e h3 => obtain ⟨rfl, h⟩ := snoc he; cases h
  | @ret h c k e _ ih =>
    intro pos' h2
    generalize he : h ++ [LEv.ret c e] = e' at h2
    cases h2 with
    | nil => simp at he
    | act w' h3 => obtain ⟨rfl, h⟩ := snoc he; cases h
    | call c h3 => obtain ⟨rfl, h⟩ := snoc he; cases h
    | ret e h3 => obtain ⟨rfl, h⟩ := snoc he; cases h; cases ih h3; rfl

/-- Nothing comes after the end. -/
theorem _root_.Fab.Runner.Runs.after_ret {σ C : Type} {p : Proc σ C} {h : List (LEv σ C)} {r} (h1 : Runs p h (.at (.ret r))) (h' : List (LEv σ C)) :
    ∀ {pos}, Runs p (h ++ h') pos → h' = [] ∧ pos = .at (.ret r) := by
  induction h' using snoc_ind with
  | h0 => intro pos h2; rw [List.append_nil] at h2; exact ⟨rfl, h2.det h1⟩
  | h1 h' x ih =>
    intro pos h2
    exfalso
    rw [← List.append_assoc] at h2
    generalize he : h ++ h' ++ [x] = e at h2
    cases h2 with
    | nil => simp at he
    | act w' h3 => have := List.append_inj_left' he rfl; subst this; cases (ih h3).2
    | call c h3 => have := List.append_inj_left' he rfl; subst this; cases (ih h3).2
    | ret e h3 => have := List.append_inj_left' he rfl; subst this; cases (ih h3).2

/-- The prerequisites found, given what was seen at the lookup of each input. -/
def prereqsOf (ins : List Str) (ws : List (World ρ)) : List TRef :=
  (List.zip ins ws).filterMap fun e => (findInFilesRegistry e.2.reg e.1).map TRef.ptr

def acts (ws : List (World ρ)) : List (LEv (World ρ) Ctx) := ws.map .act

theorem findAll_path (is : List Str) : ∀ (acc : List TRef) (k : List TRef → P ρ) {h pos}, Runs (findAll is acc k) h pos →
    (∃ ws k', h = acts ws ∧ ws.length < is.length ∧ pos = .at (.act id k') ∧ ∀ w w' : World ρ, w.reg = w'.reg → k' w = k' w') ∨
    (∃ ws h', h = acts ws ++ h' ∧ ws.length = is.length ∧ Runs (k (acc ++ prereqsOf is ws)) h' pos) := by
  induction is with
  | nil => intro acc k h pos hr; exact .inr ⟨[], h, rfl, rfl, by simpa [prereqsOf, findAll] using hr⟩
  | cons i is ih =>
    intro acc k h pos hr
    rw [findAll] at hr
    rcases Runs.act_inv hr with ⟨rfl, rfl⟩ | ⟨w, h', rfl, hr'⟩
    · refine .inl ⟨[], _, rfl, by simp, rfl, ?_⟩
      intro w w' hw
      simp only [hw]
    · rcases ih _ _ hr' with ⟨ws, k', rfl, hl, rfl, hk⟩ | ⟨ws, h'', rfl, hl, h2⟩
      · exact .inl ⟨w :: ws, k', rfl, by simpa using hl, rfl, hk⟩
      · refine .inr ⟨w :: ws, h'', rfl, by simp [hl], ?_⟩
        have he : acc ++ ((findInFilesRegistry w.reg i).map TRef.ptr).toList ++ prereqsOf is ws = acc ++ prereqsOf (i :: is) (w :: ws) := by
          rw [List.append_assoc]
          congr 1
          unfold prereqsOf
          rw [List.zip_cons_cons, List.filterMap_cons]
          cases findInFilesRegistry w.reg i <;> simp
        rw [← he]; exact h2

theorem readItems_path (is : List Str) : ∀ (m : HMap) (k : Except HErr HMap → P ρ) {h pos}, Runs (readItems hex is m k) h pos →
    (∃ ws k', h = acts ws ∧ pos = .at (.act id k')) ∨
    (∃ ws h' e, h = acts ws ++ h' ∧ (∀ ws2, hashItems hex (List.zip ((ws ++ ws2).map (·.fs)) is) m = .error e) ∧ Runs (k (.error e)) h' pos) ∨
    (∃ ws h' m', h = acts ws ++ h' ∧ ws.length = is.length ∧ hashItems hex (List.zip (ws.map (·.fs)) is) m = .ok m' ∧
      Runs (k (.ok m')) h' pos) := by
  induction is with
  | nil => intro m k h pos hr; exact .inr (.inr ⟨[], h, m, rfl, rfl, rfl, hr⟩)
  | cons i is ih =>
    intro m k h pos hr
    rw [readItems] at hr
    rcases Runs.act_inv hr with ⟨rfl, rfl⟩ | ⟨w, h', rfl, hr'⟩
    · exact .inl ⟨[], _, rfl, rfl⟩
    · rcases hi : hashItem hex w.fs i m with e | m'
      · rw [hi] at hr'
        exact .inr (.inl ⟨[w], h', e, rfl, fun ws2 => by simp only [List.cons_append, List.map_cons, List.zip_cons_cons, hashItems, hi], hr'⟩)
      · rw [hi] at hr'
        rcases ih _ _ hr' with ⟨ws, k', rfl, rfl⟩ | ⟨ws, h'', e, rfl, he, h2⟩ | ⟨ws, h'', m2, rfl, hl, h3, h2⟩
        · exact .inl ⟨w :: ws, k', rfl, rfl⟩
        · refine .inr (.inl ⟨w :: ws, h'', e, rfl, fun ws2 => ?_, h2⟩)
          simp only [List.cons_append, List.map_cons, List.zip_cons_cons, hashItems, hi]
          exact he ws2
        · refine .inr (.inr ⟨w :: ws, h'', m2, rfl, by simp [hl], ?_, h2⟩)
          simp only [List.map_cons, List.zip_cons_cons, hashItems, hi]
          exact h3

/-- `h` is the hash of the Files target `ft`, computed by reading each input in one of the worlds `wi`, each output in one of
`wo`, and the JSON form of the subtarget in `wd`, in this order. -/
def HashOf (ft : FilesT ρ) (ws : List (World ρ)) (h : Str) : Prop :=
  ∃ wi wo wd li lo j, ws = wi ++ wo ++ [wd] ∧ wi.length = ft.ins.length ∧ wo.length = ft.outs.length ∧
    fileHashesAt hex (List.zip (wi.map (·.fs)) ft.ins) = .ok li ∧ fileHashesAt hex (List.zip (wo.map (·.fs)) ft.outs) = .ok lo ∧
    ft.desc wd = some j ∧ h = sum (hashText j ft.typ li lo)

/-- The computation of the hash failed: whatever is seen after `ws`, reading the inputs or the outputs fails, or the JSON form of
the subtarget cannot be computed. -/
def HashFails (ft : FilesT ρ) (ws : List (World ρ)) : Prop :=
  (∀ ws2, ∃ e, fileHashesAt hex (List.zip ((ws ++ ws2).map (·.fs)) ft.ins) = .error e) ∨
  (∃ wi wo, ws = wi ++ wo ∧ ∀ ws2, ∃ e, fileHashesAt hex (List.zip ((wo ++ ws2).map (·.fs)) ft.outs) = .error e) ∨
  (∃ ws0 w, ws = ws0 ++ [w] ∧ ft.desc w = none)

theorem computeHash_path (ft : FilesT ρ) (k : Option Str → P ρ) {h pos} (hr : Runs (computeHash hex sum ft k) h pos) :
    (∃ ws k', h = acts ws ∧ pos = .at (.act id k')) ∨
    (∃ ws h', h = acts ws ++ h' ∧ HashFails hex ft ws ∧ Runs (k none) h' pos) ∨
    (∃ ws h' hsh, h = acts ws ++ h' ∧ HashOf hex sum ft ws hsh ∧ Runs (k (some hsh)) h' pos) := by
  unfold computeHash at hr
  rcases readItems_path hex _ _ _ hr with h1 | ⟨ws, h', e, rfl, he, h2⟩ | ⟨wi, h', mi, rfl, hl, hi, h2⟩
  · exact .inl h1
  · exact .inr (.inl ⟨ws, h', rfl, .inl fun ws2 => ⟨e, by rw [fileHashesAt, he]⟩, h2⟩)
  · simp only at h2
    rcases readItems_path hex _ _ _ h2 with ⟨ws, k', rfl, rfl⟩ | ⟨ws, h'', e, rfl, he, h3⟩ | ⟨wo, h'', mo, rfl, hl', ho, h3⟩
    · exact .inl ⟨wi ++ ws, k', by simp [acts], rfl⟩
    · exact .inr (.inl ⟨wi ++ ws, h'', by simp [acts], .inr (.inl ⟨wi, ws, rfl, fun ws2 => ⟨e, by rw [fileHashesAt, he]⟩⟩), h3⟩)
    · simp only at h3
      rcases Runs.act_inv h3 with ⟨rfl, rfl⟩ | ⟨w, h4, rfl, h5⟩
      · exact .inl ⟨wi ++ wo, _, by simp [acts], rfl⟩
      · rcases hd : ft.desc w with _ | j
        · rw [hd] at h5
          exact .inr (.inl ⟨wi ++ wo ++ [w], h4, by simp [acts], .inr (.inr ⟨_, w, rfl, hd⟩), h5⟩)
        · rw [hd] at h5
          refine .inr (.inr ⟨wi ++ wo ++ [w], h4, _, by simp [acts], ?_, h5⟩)
          exact ⟨wi, wo, w, _, _, j, rfl, hl, hl', by rw [fileHashesAt, hi], by rw [fileHashesAt, ho], hd, rfl⟩

/-- The beginning of a run whose prerequisites have succeeded: one lookup per input, then, if any prerequisite was found, one
call of `Run` for all of them, which returned nil. -/
def PrereqsDone (ft : FilesT ρ) (ctx : Ctx) (h : List (LEv (World ρ) Ctx)) : Prop :=
  ∃ ws, ws.length = ft.ins.length ∧ ((prereqsOf ft.ins ws = [] ∧ h = acts ws) ∨
    (prereqsOf ft.ins ws ≠ [] ∧ ∃ c, h = acts ws ++ [.call c ctx (prereqsOf ft.ins ws), .ret c none]))

/-- The beginning of a run that is about to request the subtarget. -/
inductive Ready (ft : FilesT ρ) (ctx : Ctx) : List (LEv (World ρ) Ctx) → Prop where
  | plain {h} : PrereqsDone ft ctx h → (getHashDB ctx = none ∨ getForce ctx = true ∨ getDryRun ctx = true) → Ready ft ctx h
  | stale {h d ws hsh w} : PrereqsDone ft ctx h → getHashDB ctx = some d → getForce ctx = false → getDryRun ctx = false →
      HashOf hex sum ft ws hsh → w.hasFails = false → hsh ∉ w.db d → Ready ft ctx (h ++ acts ws ++ [.act w])

/-- All positions in a run of a Files target, with what has happened before. -/
inductive FilesAt (ft : FilesT ρ) (ctx : Ctx) : List (LEv (World ρ) Ctx) → Pos (World ρ) Ctx → Prop where
  | finding {ws k} : ws.length < ft.ins.length → (∀ w w' : World ρ, w.reg = w'.reg → k w = k w') →
      FilesAt ft ctx (acts ws) (.at (.act id k))
  | prereqs {ws k} : ws.length = ft.ins.length → prereqsOf ft.ins ws ≠ [] →
      FilesAt ft ctx (acts ws) (.at (.call ctx (prereqsOf ft.ins ws) k))
  | inPrereqs {ws c k} : ws.length = ft.ins.length → prereqsOf ft.ins ws ≠ [] →
      FilesAt ft ctx (acts ws ++ [.call c ctx (prereqsOf ft.ins ws)]) (.inCall c k)
  | prereqsFailed {ws c e} : ws.length = ft.ins.length → prereqsOf ft.ins ws ≠ [] →
      FilesAt ft ctx (acts ws ++ [.call c ctx (prereqsOf ft.ins ws), .ret c (some e)]) (.at (.ret (some e)))
  | checking {h ws k d} : PrereqsDone ft ctx h → getHashDB ctx = some d → getForce ctx = false → getDryRun ctx = false →
      FilesAt ft ctx (h ++ acts ws) (.at (.act id k))
  | checkFailed {h ws d e} : PrereqsDone ft ctx h → getHashDB ctx = some d → getForce ctx = false → getDryRun ctx = false →
      (HashFails hex ft ws ∨ ∃ ws0 w, ws = ws0 ++ [w] ∧ w.hasFails = true) →
      FilesAt ft ctx (h ++ acts ws) (.at (.ret (some e)))
  | skipped {h d ws hsh w} : PrereqsDone ft ctx h → getHashDB ctx = some d → getForce ctx = false → getDryRun ctx = false →
      HashOf hex sum ft ws hsh → w.hasFails = false → hsh ∈ w.db d → FilesAt ft ctx (h ++ acts ws ++ [.act w]) (.at (.ret none))
  | requesting {h k} : Ready hex sum ft ctx h → FilesAt ft ctx h (.at (.call ctx [ft.target] k))
  | inSub {h c k} : Ready hex sum ft ctx h → FilesAt ft ctx (h ++ [.call c ctx [ft.target]]) (.inCall c k)
  | subFailed {h c e} : Ready hex sum ft ctx h →
      FilesAt ft ctx (h ++ [.call c ctx [ft.target], .ret c (some e)]) (.at (.ret (some e)))
  | built {h c} : Ready hex sum ft ctx h → (getHashDB ctx = none ∨ getDryRun ctx = true) →
      FilesAt ft ctx (h ++ [.call c ctx [ft.target], .ret c none]) (.at (.ret none))
  | rehashing {h c ws k d} : Ready hex sum ft ctx h → getHashDB ctx = some d → getDryRun ctx = false →
      FilesAt ft ctx (h ++ [.call c ctx [ft.target], .ret c none] ++ acts ws) (.at (.act id k))
  | rehashFailed {h c ws d e} : Ready hex sum ft ctx h → getHashDB ctx = some d → getDryRun ctx = false → HashFails hex ft ws →
      FilesAt ft ctx (h ++ [.call c ctx [ft.target], .ret c none] ++ acts ws) (.at (.ret (some e)))
  | adding {h c ws d hsh} : Ready hex sum ft ctx h → getHashDB ctx = some d → getDryRun ctx = false → HashOf hex sum ft ws hsh →
      FilesAt ft ctx (h ++ [.call c ctx [ft.target], .ret c none] ++ acts ws)
        (.at (.act (dbAdd d hsh) fun w => .ret (if w.addFails then some errAdd else none)))
  | added {h c ws d hsh w} : Ready hex sum ft ctx h → getHashDB ctx = some d → getDryRun ctx = false → HashOf hex sum ft ws hsh →
      FilesAt ft ctx (h ++ [.call c ctx [ft.target], .ret c none] ++ acts ws ++ [.act w])
        (.at (.ret (if w.addFails then some errAdd else none)))

theorem build_path {ft : FilesT ρ} {ctx : Ctx} {h0 h pos} (h0r : Ready hex sum ft ctx h0)
    (hr : Runs (filesBuild hex sum ft ctx) h pos) : FilesAt hex sum ft ctx (h0 ++ h) pos := by
  unfold filesBuild at hr
  rcases Runs.call_inv hr with ⟨rfl, rfl⟩ | ⟨c, rfl, rfl⟩ | ⟨c, e, h', rfl, hr1⟩
  · rw [List.append_nil]; exact .requesting h0r
  · exact .inSub h0r
  · cases e with
    | some e =>
      obtain ⟨rfl, rfl⟩ := Runs.ret_inv hr1
      exact .subFailed h0r
    | none =>
      simp only at hr1
      split at hr1
      · rename_i hdb
        obtain ⟨rfl, rfl⟩ := Runs.ret_inv hr1
        exact .built h0r (.inl hdb)
      · rename_i d hdb
        split at hr1
        · rename_i hdry
          obtain ⟨rfl, rfl⟩ := Runs.ret_inv hr1
          exact .built h0r (.inr hdry)
        · rename_i hdry
          simp only [Bool.not_eq_true] at hdry
          have he : ∀ x : List (LEv (World ρ) Ctx), h0 ++ (LEv.call c ctx [ft.target] :: LEv.ret c none :: x) =
            h0 ++ [LEv.call c ctx [ft.target], LEv.ret c none] ++ x := by intro x; simp
          rw [he]
          rcases computeHash_path hex sum ft _ hr1 with ⟨ws, k', rfl, rfl⟩ | ⟨ws, h', rfl, hfl, hr2⟩ | ⟨ws, h', hsh, rfl, hh, hr2⟩
          · exact .rehashing h0r hdb hdry
          · obtain ⟨rfl, rfl⟩ := Runs.ret_inv hr2
            rw [List.append_nil]
            exact .rehashFailed h0r hdb hdry hfl
          · rcases Runs.act_inv hr2 with ⟨rfl, rfl⟩ | ⟨w, h'', rfl, hr3⟩
            · rw [List.append_nil]; exact .adding h0r hdb hdry hh
            · obtain ⟨rfl, rfl⟩ := Runs.ret_inv hr3
              rw [← List.append_assoc]
              exact .added h0r hdb hdry hh

theorem main_path {ft : FilesT ρ} {ctx : Ctx} {h0 h pos} (h0r : PrereqsDone ft ctx h0)
    (hr : Runs (filesMain hex sum ft ctx) h pos) : FilesAt hex sum ft ctx (h0 ++ h) pos := by
  unfold filesMain at hr
  split at hr
  · rename_i hdb
    exact build_path hex sum (.plain h0r (.inl hdb)) hr
  · rename_i d hdb
    split at hr
    · rename_i hm
      simp only [Bool.and_eq_true, Bool.not_eq_true'] at hm
      rcases computeHash_path hex sum ft _ hr with ⟨ws, k', rfl, rfl⟩ | ⟨ws, h', rfl, hfl, hr1⟩ | ⟨ws, h', hsh, rfl, hh, hr1⟩
      · exact .checking h0r hdb hm.1 hm.2
      · obtain ⟨rfl, rfl⟩ := Runs.ret_inv hr1
        rw [List.append_nil]
        exact .checkFailed h0r hdb hm.1 hm.2 (.inl hfl)
      · rcases Runs.act_inv hr1 with ⟨rfl, rfl⟩ | ⟨w, h'', rfl, hr2⟩
        · rw [List.append_nil]; exact .checking h0r hdb hm.1 hm.2
        · split at hr2
          · rename_i hhf
            obtain ⟨rfl, rfl⟩ := Runs.ret_inv hr2
            have := FilesAt.checkFailed (hex := hex) (sum := sum) (ws := ws ++ [w]) (e := errHas) h0r hdb hm.1 hm.2 (.inr ⟨ws, w, rfl, hhf⟩)
            simpa [acts] using this
          · rename_i hhas
            simp only [Bool.not_eq_true] at hhas
            split at hr2
            · rename_i hin
              obtain ⟨rfl, rfl⟩ := Runs.ret_inv hr2
              rw [← List.append_assoc]
              exact .skipped h0r hdb hm.1 hm.2 hh hhas hin
            · rename_i hin
              have := build_path hex sum (.stale h0r hdb hm.1 hm.2 hh hhas hin) hr2
              simpa using this
    · rename_i hm
      refine build_path hex sum (.plain h0r (.inr ?_)) hr
      by_cases hf : getForce ctx = true
      · exact .inl hf
      · right
        simp only [Bool.and_eq_true, Bool.not_eq_true', not_and, Bool.not_eq_false] at hm hf
        exact hm (by simpa using hf)

/-- Every path through the `Run` method of a Files target. -/
theorem files_path {ft : FilesT ρ} {ctx : Ctx} {h pos} (hr : Runs (filesBody hex sum ft ctx) h pos) :
    FilesAt hex sum ft ctx h pos := by
  unfold filesBody at hr
  rcases findAll_path _ _ _ hr with ⟨ws, k', rfl, hl, rfl, hk⟩ | ⟨ws, h', rfl, hl, hr1⟩
  · exact .finding hl hk
  · rw [List.nil_append] at hr1
    split at hr1
    · rename_i hp
      exact main_path hex sum ⟨ws, hl, .inl ⟨hp, rfl⟩⟩ hr1
    · rename_i hp
      rcases Runs.call_inv hr1 with ⟨rfl, rfl⟩ | ⟨c, rfl, rfl⟩ | ⟨c, e, h'', rfl, hr2⟩
      · rw [List.append_nil]; exact .prereqs hl hp
      · exact .inPrereqs hl hp
      · cases e with
        | some e => obtain ⟨rfl, rfl⟩ := Runs.ret_inv hr2; exact .prereqsFailed hl hp
        | none =>
          have := main_path hex sum ⟨ws, hl, .inr ⟨hp, c, rfl⟩⟩ hr2
          simpa using this

/-! ## Conversely: these histories lead to these positions -/

theorem findAll_fwd {p : P ρ} {k : List TRef → P ρ} (is : List Str) : ∀ (acc : List TRef) (ws : List (World ρ)) {H}, ws.length = is.length →
    Runs p H (.at (findAll is acc k)) → Runs p (H ++ acts ws) (.at (k (acc ++ prereqsOf is ws))) := by
  induction is with
  | nil =>
    intro acc ws H hl hr
    cases ws with
    | nil => simpa [acts, prereqsOf, findAll] using hr
    | cons w ws => simp at hl
  | cons i is ih =>
    intro acc ws H hl hr
    cases ws with
    | nil => simp at hl
    | cons w ws =>
      have h1 := ih _ ws (by simpa using hl) (Runs.act w hr)
      have he : acc ++ ((findInFilesRegistry w.reg i).map TRef.ptr).toList ++ prereqsOf is ws = acc ++ prereqsOf (i :: is) (w :: ws) := by
        rw [List.append_assoc]
        congr 1
        unfold prereqsOf
        rw [List.zip_cons_cons, List.filterMap_cons]
        cases findInFilesRegistry w.reg i <;> simp
      rw [he, List.append_assoc] at h1
      exact h1

theorem readItems_fwd {p : P ρ} {k : Except HErr HMap → P ρ} (is : List Str) : ∀ (m m' : HMap) (ws : List (World ρ)) {H},
    ws.length = is.length → hashItems hex (List.zip (ws.map (·.fs)) is) m = .ok m' →
    Runs p H (.at (readItems hex is m k)) → Runs p (H ++ acts ws) (.at (k (.ok m'))) := by
  induction is with
  | nil =>
    intro m m' ws H hl hh hr
    cases ws with
    | nil => simp only [List.map_nil, List.zip_nil_left, hashItems, Except.ok.injEq] at hh; subst hh; simpa [acts, readItems] using hr
    | cons w ws => simp at hl
  | cons i is ih =>
    intro m m' ws H hl hh hr
    cases ws with
    | nil => simp at hl
    | cons w ws =>
      simp only [List.map_cons, List.zip_cons_cons, hashItems] at hh
      have h1 := Runs.act w hr
      rcases hi : hashItem hex w.fs i m with e | m2
      · rw [hi] at hh; simp at hh
      · rw [hi] at hh
        simp only [hi] at h1
        have h2 := ih m2 m' ws (by simpa using hl) hh h1
        rw [List.append_assoc] at h2
        exact h2

theorem fileHashesAt_ok {l : List (FS × Str)} {r : List Str} (h : fileHashesAt hex l = .ok r) : ∃ m, hashItems hex l [] = .ok m ∧ hashList m = r := by
  unfold fileHashesAt at h
  split at h
  · rename_i m hm; exact ⟨m, hm, by simpa using h⟩
  · simp at h

theorem computeHash_fwd {p : P ρ} {ft : FilesT ρ} {k : Option Str → P ρ} {ws : List (World ρ)} {hsh : Str} {H}
    (hh : HashOf hex sum ft ws hsh) (hr : Runs p H (.at (computeHash hex sum ft k))) : Runs p (H ++ acts ws) (.at (k (some hsh))) := by
  obtain ⟨wi, wo, wd, li, lo, j, rfl, l1, l2, h1, h2, h3, rfl⟩ := hh
  obtain ⟨mi, a1, rfl⟩ := fileHashesAt_ok hex h1
  obtain ⟨mo, a2, rfl⟩ := fileHashesAt_ok hex h2
  unfold computeHash at hr
  have r1 := readItems_fwd hex _ _ _ wi l1 a1 hr
  simp only at r1
  have r2 := readItems_fwd hex _ _ _ wo l2 a2 r1
  simp only at r2
  have r3 := Runs.act wd r2
  simp only [h3] at r3
  have he : H ++ acts (wi ++ wo ++ [wd]) = H ++ acts wi ++ acts wo ++ [LEv.act wd] := by simp [acts]
  rw [he]
  exact r3

theorem PrereqsDone.fwd {ft : FilesT ρ} {ctx : Ctx} {H} (h : PrereqsDone ft ctx H) :
    Runs (filesBody hex sum ft ctx) H (.at (filesMain hex sum ft ctx)) := by
  obtain ⟨ws, hl, ⟨h1, rfl⟩ | ⟨h1, c, rfl⟩⟩ := h
  · have := findAll_fwd ft.ins [] ws hl (Runs.nil (p := filesBody hex sum ft ctx))
    rw [List.nil_append, List.nil_append, if_pos h1] at this
    exact this
  · have := findAll_fwd ft.ins [] ws hl (Runs.nil (p := filesBody hex sum ft ctx))
    rw [List.nil_append, List.nil_append, if_neg h1] at this
    have := Runs.ret none (Runs.call c this)
    simpa using this

theorem Ready.fwd {ft : FilesT ρ} {ctx : Ctx} {H} (h : Ready hex sum ft ctx H) :
    Runs (filesBody hex sum ft ctx) H (.at (filesBuild hex sum ft ctx)) := by
  cases h with
  | plain h1 h2 =>
    have := h1.fwd hex sum
    unfold filesMain at this
    rcases h2 with h2 | h2 | h2
    · rw [h2] at this; exact this
    · split at this
      · exact this
      · rw [if_neg (by simp [h2])] at this; exact this
    · split at this
      · exact this
      · rw [if_neg (by simp [h2])] at this; exact this
  | @stale h d ws hsh w h1 h2 h3 h4 h5 h6 h7 =>
    have h8 := h1.fwd hex sum
    unfold filesMain at h8
    rw [h2] at h8
    simp only [h3, h4, Bool.not_false, Bool.and_self, if_true] at h8
    have h9 := Runs.act w (computeHash_fwd hex sum h5 h8)
    simp only [h6, Bool.false_eq_true, if_false, if_neg h7] at h9
    exact h9

/-- After the subtarget returned nil and the hash was computed, the hash is added. -/
theorem Ready.adding {ft : FilesT ρ} {ctx : Ctx} {H} (h : Ready hex sum ft ctx H) {d} (hd : getHashDB ctx = some d)
    (hdry : getDryRun ctx = false) (c : Nat) {ws hsh} (hh : HashOf hex sum ft ws hsh) :
    Runs (filesBody hex sum ft ctx) (H ++ [.call c ctx [ft.target], .ret c none] ++ acts ws)
      (.at (.act (dbAdd d hsh) fun w => .ret (if w.addFails then some errAdd else none))) := by
  have h1 := h.fwd hex sum
  unfold filesBuild at h1
  have h2 := Runs.ret none (Runs.call c h1)
  simp only [hd, hdry, Bool.false_eq_true, if_false] at h2
  have h3 := computeHash_fwd hex sum hh h2
  simpa using h3

end Fab.Files
