import Verif.Driver.Hash

/-!
# The cached driver (/repo/main.go:162-347): C48, C49, C50, C61

`getDriver` as a sequence of atomic steps, between which the user may edit the sources, and which a crash (or an error) may cut off.

Parameters: the hash functions; the encoding and decoding of build information in JSON.

Simplifications:
* one fab process at a time; the Go files of the package are read at one moment when they are hashed, and at one (other) moment
  when they are compiled;
* loading the package is not modelled; the argument `skipVersionCheck` is always false, as in `Run`;
* compilation (compile.go) is one step that replaces the binary by one made from the present sources and the running fab (it is a
  rename, compile.go:253), or fails;
* writing a file that is cut off leaves a part of the text, from its beginning.
-/

namespace Fab.Driver
open Fab Path

/-- A file in the driver's directory: it is missing, it cannot be read (or statted), or what it contains. -/
inductive F (α : Type) where
  | absent
  | broken
  | data (a : α)
deriving DecidableEq

variable {Info : Type} [DecidableEq Info]

structure Params (Info : Type) where
  sum : Bytes → Bytes
  sumText : Str → Str
  encode : Info → Str
  decode : Str → Option Info

/-- What JSON and SHA-224 promise: a text that was encoded can be decoded, a part of it cannot (or, without the final newline, still
can), and hashes in hexadecimal all have one length. -/
structure Params.Lawful (P : Params Info) : Prop where
  roundTrip : ∀ i, P.decode (P.encode i) = some i
  cut : ∀ i t j, t <+: P.encode i → P.decode t = some j → j = i
  length : ∀ s, (P.sumText s).length = 56

abbrev Src := List (Str × Bytes)

/-- A driver binary: the sources it was compiled from, and the build information of the fab that compiled it (whose code is part of
it). -/
structure Build (Info : Type) where
  src : Src
  fab : Option Info
deriving DecidableEq

/-- The driver's directory, main.go:200-211 -/
structure Cache (Info : Type) where
  driver : F (Build Info)
  hash : F Str
  version : F Str
deriving DecidableEq

abbrev hashOf (P : Params Info) (src : Src) : Str := dirHash P.sum P.sumText src

/-- `checkVersion`, main.go:305-347 (that `os.Remove` fails is not modelled): whether to compile, the build information to be recorded then, and the version file; `none` is an
error.  `ver` is what `debug.ReadBuildInfo` returns. -/
def checkVersion (P : Params Info) (ver : Option Info) (version : F Str) : Option (Bool × Option Info × F Str) :=
  match ver with
  | none => some (true, none, .absent)
  | some i =>
    match version with
    | .absent => some (true, some i, version)
    | .broken => none
    | .data t =>
      match P.decode t with
      | none => some (true, some i, version)
      | some j => if i = j then some (false, none, version) else some (true, some i, version)

/-- What `getDriver` decides. -/
inductive Plan (Info : Type) where
  | fail
  | reuse
  | compile (record : Option Info) (newhash : Str)
deriving DecidableEq

/-- `getDriver` up to the decision, main.go:213-276; also the version file, which may have been removed -/
def plan (P : Params Info) (force : Bool) (ver : Option Info) (c : Cache Info) (src : Src) : Plan Info × F Str :=
  let newhash := hashOf P src
  if force then (.compile none newhash, c.version)
  else
    match c.driver with
    | .broken => (.fail, c.version)
    | .absent => (.compile none newhash, c.version)
    | .data _ =>
      match checkVersion P ver c.version with
      | none => (.fail, c.version)
      | some (true, record, v) => (.compile record newhash, v)
      | some (false, record, v) =>
        match c.hash with
        | .absent => (.compile record newhash, v)
        | .broken => (.fail, v)
        | .data old => if newhash = old then (.reuse, v) else (.compile record newhash, v)

/-- Where the running `getDriver` is: nothing is running; it is going to compile; the driver was put into place (main.go:278); the hash
was written (main.go:281) and build information is going to be. -/
inductive PC (Info : Type) where
  | idle
  | planned (ver record : Option Info) (newhash : Str)
  | built (record : Option Info) (newhash : Str)
  | hashed (record : Info)
deriving DecidableEq

structure S (Info : Type) where
  src : Src
  cache : Cache Info
  pc : PC Info
deriving DecidableEq

inductive Ev (Info : Type) where
  /-- the user edits the sources -/
  | edit (src : Src)
  /-- the user removes a file of the cache -/
  | rmDriver | rmHash | rmVersion
  /-- fab is started -/
  | start (force : Bool) (ver : Option Info)
  | compile
  | writeHash
  | writeVersion
  /-- a crash or an error before a file is touched -/
  | abort
  /-- a crash or an error when the given part of the hash, or of the build information, has been written -/
  | abortIn (part : Str)
deriving DecidableEq

def S.withVersion (s : S Info) (v : F Str) : S Info := { s with cache := { s.cache with version := v } }
def S.withHash (s : S Info) (v : F Str) : S Info := { s with cache := { s.cache with hash := v } }
def S.withDriver (s : S Info) (v : F (Build Info)) : S Info := { s with cache := { s.cache with driver := v } }
def S.at (s : S Info) (pc : PC Info) : S Info := { s with pc := pc }

/-- One step, main.go:213-302; `none`: not possible now. -/
def step (P : Params Info) (s : S Info) : Ev Info → Option (S Info)
  | .edit src => some { s with src := src }
  | .rmDriver => some (s.withDriver .absent)
  | .rmHash => some (s.withHash .absent)
  | .rmVersion => some (s.withVersion .absent)
  | .start force ver =>
    match s.pc with
    | .idle =>
      match plan P force ver s.cache s.src with
      | (.compile record h, v) => some ((s.withVersion v).at (.planned ver record h))
      | (_, v) => some (s.withVersion v)
    | _ => none
  | .compile =>
    match s.pc with
    | .planned ver record h => some ((s.withDriver (.data ⟨s.src, ver⟩)).at (.built record h))
    | _ => none
  | .writeHash =>
    match s.pc with
    | .built (some i) h => some ((s.withHash (.data h)).at (.hashed i))
    | .built none h => some ((s.withHash (.data h)).at .idle)
    | _ => none
  | .writeVersion =>
    match s.pc with
    | .hashed i => some ((s.withVersion (.data (P.encode i))).at .idle)
    | _ => none
  | .abort => if s.pc = .idle then none else some (s.at .idle)
  | .abortIn part =>
    match s.pc with
    | .built _ h => if part <+: h ∧ part ≠ h then some ((s.withHash (.data part)).at .idle) else none
    | .hashed i => if part <+: P.encode i ∧ part ≠ P.encode i then some ((s.withVersion (.data part)).at .idle) else none
    | _ => none

/-- The states after a history in which every event satisfies `ok` at its moment. -/
inductive Hist (P : Params Info) (ok : S Info → Ev Info → Prop) : S Info → S Info → Prop
  | nil (s) : Hist P ok s s
  | snoc {s s' s'' e} (h : Hist P ok s s') (ho : ok s' e) (hs : step P s' e = some s'') : Hist P ok s s''

/-- No cache yet. -/
def fresh (src : Src) : S Info := ⟨src, ⟨.absent, .absent, .absent⟩, .idle⟩

/-- A run of fab that is not disturbed: `start`, and then all the steps that follow. -/
def runEvents (P : Params Info) (force : Bool) (ver : Option Info) (s : S Info) : List (Ev Info) :=
  match (plan P force ver s.cache s.src).1 with
  | .compile none _ => [.start force ver, .compile, .writeHash]
  | .compile (some _) _ => [.start force ver, .compile, .writeHash, .writeVersion]
  | _ => [.start force ver]

def steps (P : Params Info) (s : S Info) : List (Ev Info) → Option (S Info)
  | [] => some s
  | e :: es => (step P s e).bind fun s => steps P s es

/-! ## C48 -/

/-- **C48.** The existing driver is reused exactly if this is not forced to be otherwise, it exists, the recorded build information is
that of the running fab, and the recorded hash is that of the present sources. -/
theorem C48_reuse (P : Params Info) (force : Bool) (ver : Option Info) (c : Cache Info) (src : Src) :
    (plan P force ver c src).1 = .reuse ↔
      force = false ∧ (∃ b, c.driver = .data b) ∧ (∃ i t, ver = some i ∧ c.version = .data t ∧ P.decode t = some i) ∧
      c.hash = .data (hashOf P src) := by
  unfold plan checkVersion
  obtain ⟨d, h, v⟩ := c
  cases force with
  | true => simp
  | false =>
    cases d with
    | absent => simp
    | broken => simp
    | data b =>
      cases ver with
      | none => simp
      | some i =>
        cases v with
        | absent => simp
        | broken => simp
        | data t =>
          cases hd : P.decode t with
          | none => simp [hd]
          | some j =>
            by_cases hij : i = j
            · subst hij
              cases h with
              | absent => simp [hd]
              | broken => simp [hd]
              | data old =>
                by_cases ho : hashOf P src = old
                · simp [hd, ho]
                · simp [hd, ho, Ne.symm ho]
            · simp [hd, hij, Ne.symm hij]

/-- **C48.** In all other cases it is compiled, unless a file cannot be read, which is an error. -/
theorem C48_otherwise_compiles (P : Params Info) (force : Bool) (ver : Option Info) (c : Cache Info) (src : Src)
    (h1 : c.driver ≠ .broken) (h2 : c.hash ≠ .broken) (h3 : c.version ≠ .broken) (hr : (plan P force ver c src).1 ≠ .reuse) :
    ∃ record, (plan P force ver c src).1 = .compile record (hashOf P src) := by
  unfold plan checkVersion at *
  obtain ⟨d, h, v⟩ := c
  cases force with
  | true => simp
  | false =>
    cases d with
    | absent => simp
    | broken => simp at h1
    | data b =>
      cases ver with
      | none => simp
      | some i =>
        cases v with
        | absent => simp
        | broken => simp at h3
        | data t =>
          cases hd : P.decode t with
          | none => simp [hd]
          | some j =>
            by_cases hij : i = j
            · subst hij
              cases h with
              | absent => simp [hd]
              | broken => simp at h2
              | data old =>
                by_cases ho : hashOf P src = old
                · simp [hd, ho] at hr
                · simp [hd, ho]
            · simp [hd, hij]

/-- **C48.** With Force it is compiled, whatever the cache is. -/
theorem C48_force (P : Params Info) (ver : Option Info) (c : Cache Info) (src : Src) :
    (plan P true ver c src).1 = .compile none (hashOf P src) := rfl

/-- **C48.** A run that compiles, undisturbed, ends with a driver compiled from the present sources by the running fab, and their
hash. -/
theorem C48_compiled (P : Params Info) (force : Bool) (ver : Option Info) (s : S Info) (hi : s.pc = .idle) (record : Option Info) (h : Str)
    (hp : (plan P force ver s.cache s.src).1 = .compile record h) :
    ∃ s', steps P s (runEvents P force ver s) = some s' ∧ s'.pc = .idle ∧ s'.src = s.src ∧ s'.cache.driver = .data ⟨s.src, ver⟩ ∧
      s'.cache.hash = .data h ∧ s'.cache.version = record.elim (plan P force ver s.cache s.src).2 fun i => .data (P.encode i) := by
  unfold runEvents
  generalize hpl : plan P force ver s.cache s.src = pl at hp ⊢
  obtain ⟨p, v⟩ := pl
  simp only at hp
  subst hp
  cases record with
  | none =>
    simp only [steps, step, hi, hpl, Option.bind_some, S.at, S.withVersion, S.withDriver, S.withHash]
    exact ⟨_, rfl, rfl, rfl, rfl, rfl, rfl⟩
  | some i =>
    simp only [steps, step, hi, hpl, Option.bind_some, S.at, S.withVersion, S.withDriver, S.withHash]
    exact ⟨_, rfl, rfl, rfl, rfl, rfl, rfl⟩

/-! ## C49 -/

/-- A number of undisturbed runs of fab, without Force, one after the other. -/
def runs (P : Params Info) (ver : Option Info) : Nat → S Info → Option (S Info)
  | 0, s => some s
  | n + 1, s => (steps P s (runEvents P false ver s)).bind (runs P ver n)

/-- Everything is up to date. -/
def Current (P : Params Info) (i : Info) (s : S Info) : Prop :=
  s.pc = .idle ∧ (plan P false (some i) s.cache s.src).1 = .reuse

theorem plan_version (P : Params Info) (i : Info) (force : Bool) (c : Cache Info) (src : Src) : (plan P force (some i) c src).2 = c.version := by
  unfold plan checkVersion
  obtain ⟨d, h, v⟩ := c
  cases force <;> cases d <;> simp
  cases v with
  | absent => simp
  | broken => simp
  | data t =>
    cases hd : P.decode t with
    | none => simp [hd]
    | some j =>
      by_cases hij : i = j
      · subst hij
        cases h with
        | absent => simp [hd]
        | broken => simp [hd]
        | data old => by_cases ho : hashOf P src = old <;> simp [hd, ho]
      · simp [hd, hij]

theorem current_run {P : Params Info} {i : Info} {s : S Info} (h : Current P i s) :
    runEvents P false (some i) s = [.start false (some i)] ∧ steps P s [.start false (some i)] = some s := by
  obtain ⟨h1, h2⟩ := h
  have h3 := plan_version P i false s.cache s.src
  rcases hpl : plan P false (some i) s.cache s.src with ⟨p, v⟩
  rw [hpl] at h2 h3
  simp only at h2 h3
  subst h2 h3
  unfold runEvents
  rw [hpl]
  refine ⟨rfl, ?_⟩
  obtain ⟨src, ⟨d, h, v⟩, pc⟩ := s
  simp only at h1
  subst h1
  simp only [steps, step, hpl, Option.bind_some, S.withVersion]

theorem current_runs {P : Params Info} {i : Info} {s : S Info} (h : Current P i s) (n : Nat) : runs P (some i) n s = some s := by
  induction n with
  | zero => rfl
  | succ n ih => rw [runs, (current_run h).1, (current_run h).2]; exact ih

/-- one run from a state where no file is broken -/
theorem run_once (P : Params Info) (hP : P.Lawful) (i : Info) (s : S Info) (hi : s.pc = .idle) (h1 : s.cache.driver ≠ .broken)
    (h2 : s.cache.hash ≠ .broken) (h3 : s.cache.version ≠ .broken) :
    ∃ s', runs P (some i) 1 s = some s' ∧ s'.pc = .idle ∧ s'.src = s.src ∧ (∃ b, s'.cache.driver = .data b) ∧
      s'.cache.hash ≠ .broken ∧ s'.cache.version ≠ .broken ∧ ((∃ b, s.cache.driver = .data b) → Current P i s') := by
  have hr : ∀ s', runs P (some i) 1 s = some s' ↔ steps P s (runEvents P false (some i) s) = some s' := by
    intro s'
    rw [runs]
    cases steps P s (runEvents P false (some i) s) <;> simp [runs]
  by_cases hp : (plan P false (some i) s.cache s.src).1 = .reuse
  · have hc : Current P i s := ⟨hi, hp⟩
    refine ⟨s, current_runs hc 1, hi, rfl, ((C48_reuse ..).1 hp).2.1, h2, h3, fun _ => hc⟩
  · obtain ⟨record, hpl⟩ := C48_otherwise_compiles P false (some i) s.cache s.src h1 h2 h3 hp
    obtain ⟨s', e1, e2, e3, e4, e5, e6⟩ := C48_compiled P false (some i) s hi record _ hpl
    rw [plan_version] at e6
    refine ⟨s', (hr s').2 e1, e2, e3, ⟨_, e4⟩, by rw [e5]; simp, ?_, ?_⟩
    · rw [e6]; cases record with
      | none => exact h3
      | some j => simp
    · rintro ⟨b, hb⟩
      refine ⟨e2, (C48_reuse ..).2 ⟨rfl, ⟨_, e4⟩, ?_, by rw [e5, e3]⟩⟩
      -- the version file
      unfold plan checkVersion at hpl
      rw [hb] at hpl
      cases hv : s.cache.version with
      | absent =>
        simp [hv] at hpl
        obtain rfl := hpl
        exact ⟨i, _, rfl, e6, hP.roundTrip i⟩
      | broken => exact absurd hv h3
      | data t =>
        cases hd : P.decode t with
        | none =>
          simp [hv, hd] at hpl
          obtain rfl := hpl
          exact ⟨i, _, rfl, e6, hP.roundTrip i⟩
        | some j =>
          by_cases hij : i = j
          · subst hij
            have hn : record = none := by
              simp [hv, hd] at hpl
              revert hpl
              cases s.cache.hash with
              | absent => simp; exact fun h => h.symm
              | broken => simp
              | data old => simp; split <;> simp; exact fun h => h.symm
            subst hn
            exact ⟨i, t, rfl, by rw [e6, hv]; rfl, hd⟩
          · simp [hv, hd, hij] at hpl
            obtain rfl := hpl
            exact ⟨i, _, rfl, e6, hP.roundTrip i⟩

/-- **C49, partial.** If fab can read its build information, then from any cache (without unreadable files) two undisturbed runs
suffice: after two or more runs, another one does not compile, and changes nothing.  One run suffices if there was a driver before.

What is missing: after a first run without a driver, the second run compiles again; see below. -/
theorem C49_reused_partial (P : Params Info) (hP : P.Lawful) (i : Info) (s : S Info) (hi : s.pc = .idle) (h1 : s.cache.driver ≠ .broken)
    (h2 : s.cache.hash ≠ .broken) (h3 : s.cache.version ≠ .broken) (n : Nat)
    (hn : 2 ≤ n ∨ 1 ≤ n ∧ ∃ b, s.cache.driver = .data b) :
    ∃ s', runs P (some i) n s = some s' ∧ s'.src = s.src ∧ (plan P false (some i) s'.cache s'.src).1 = .reuse ∧
      ∀ m, runs P (some i) m s' = some s' := by
  have split : ∀ a b s, runs P (some i) (a + b) s = (runs P (some i) a s).bind (runs P (some i) b) := by
    intro a
    induction a with
    | zero => intro b s; simp [runs]
    | succ a ih =>
      intro b s
      rw [Nat.succ_add, runs, runs]
      cases steps P s (runEvents P false (some i) s) with
      | none => rfl
      | some s1 => simp only [Option.bind_some]; exact ih b s1
  obtain ⟨s1, e1, e2, e3, e4, e5, e6, e7⟩ := run_once P hP i s hi h1 h2 h3
  by_cases hd : ∃ b, s.cache.driver = .data b
  · have hc := e7 hd
    obtain ⟨m, rfl⟩ : ∃ m, n = 1 + m := ⟨n - 1, by omega⟩
    refine ⟨s1, ?_, e3, hc.2, current_runs hc⟩
    rw [split, e1]; exact current_runs hc m
  · have hn : 2 ≤ n := by rcases hn with hn | ⟨_, hn⟩; exacts [hn, absurd hn hd]
    obtain ⟨b, hb⟩ := e4
    obtain ⟨s2, f1, -, f3, -, -, -, f7⟩ := run_once P hP i s1 e2 (by rw [hb]; simp) e5 e6
    have hc := f7 ⟨b, hb⟩
    obtain ⟨m, rfl⟩ : ∃ m, n = 1 + (1 + m) := ⟨n - 2, by omega⟩
    refine ⟨s2, ?_, f3.trans e3, hc.2, current_runs hc⟩
    rw [split, e1]
    simp only [Option.bind_some]
    rw [split, f1]; exact current_runs hc m

/-- **C49 is false.** The second run of fab in a new project compiles the driver again. -/
theorem C49_counterexample_second_run (P : Params Info) (i : Info) (src : Src) :
    ∃ s, runs P (some i) 1 (fresh src) = some s ∧ (plan P false (some i) s.cache s.src).1 = .compile (some i) (hashOf P src) :=
  ⟨_, rfl, rfl⟩

/-- So does every run after a run with Force in a new project, or after the driver was removed. -/
theorem C49_counterexample_forced (P : Params Info) (i : Info) (src : Src) :
    ∃ s, steps P (fresh src) (runEvents P true (some i) (fresh src)) = some s ∧
      (plan P false (some i) s.cache s.src).1 = .compile (some i) (hashOf P src) :=
  ⟨_, rfl, rfl⟩

/-- **C49 is false.** If fab cannot read its build information, every run compiles. -/
theorem C49_counterexample_no_build_info (P : Params Info) (c : Cache Info) (src : Src) (h : c.driver ≠ .broken) :
    (plan P false none c src).1 = .compile none (hashOf P src) := by
  unfold plan checkVersion
  obtain ⟨d, h', v⟩ := c
  cases d with
  | absent => rfl
  | broken => exact absurd rfl h
  | data b => rfl

/-! ## C50 -/

/-- The events allowed in `C50_partial`: the sources are not edited between hashing and compiling, and fab is not cut off between
putting the driver into place and beginning to write the hash. -/
def Calm (s : S Info) : Ev Info → Prop
  | .edit _ => ∀ ver record h, s.pc ≠ .planned ver record h
  | .abort => ∀ record h, s.pc ≠ .built record h
  | _ => True

def Inv50 (P : Params Info) (s : S Info) : Prop :=
  (∀ ver record h, s.pc = .planned ver record h → h = hashOf P s.src) ∧
  (∀ record h, s.pc = .built record h → h.length = 56 ∧ ∀ b, s.cache.driver = .data b → h = hashOf P b.src) ∧
  ((∀ record h, s.pc ≠ .built record h) → ∀ h b, s.cache.hash = .data h → s.cache.driver = .data b → h.length = 56 → h = hashOf P b.src)

theorem plan_hash {P : Params Info} {force : Bool} {ver : Option Info} {c : Cache Info} {src : Src} {record : Option Info} {h : Str}
    (hp : (plan P force ver c src).1 = .compile record h) : h = hashOf P src := by
  unfold plan at hp
  split at hp
  · injection hp with _ hp; exact hp.symm
  · split at hp
    · cases hp
    · injection hp with _ hp; exact hp.symm
    · rcases hcv : checkVersion P ver c.version with _ | ⟨_ | _, r, v⟩ <;> simp only [hcv] at hp
      · cases hp
      · split at hp
        · injection hp with _ hp; exact hp.symm
        · cases hp
        · split at hp
          · cases hp
          · injection hp with _ hp; exact hp.symm
      · injection hp with _ hp; exact hp.symm

theorem inv50_step {P : Params Info} (hP : P.Lawful) {s s' : S Info} {e : Ev Info} (hi : Inv50 P s) (hc : Calm s e)
    (hs : step P s e = some s') : Inv50 P s' := by
  obtain ⟨src, c, pc⟩ := s
  obtain ⟨i1, i2, i3⟩ := hi
  cases e with
  | edit src' =>
    simp only [step, Option.some.injEq] at hs; subst hs
    exact ⟨fun v r h hp => absurd hp (hc v r h), i2, i3⟩
  | rmDriver =>
    simp only [step, Option.some.injEq] at hs; subst hs
    exact ⟨i1, fun r h hp => ⟨(i2 r h hp).1, fun b hb => by simp [S.withDriver] at hb⟩, fun _ h b _ hb => by simp [S.withDriver] at hb⟩
  | rmHash =>
    simp only [step, Option.some.injEq] at hs; subst hs
    exact ⟨i1, i2, fun _ h b hh => by simp [S.withHash] at hh⟩
  | rmVersion =>
    simp only [step, Option.some.injEq] at hs; subst hs
    exact ⟨i1, i2, i3⟩
  | start force ver =>
    simp only [step] at hs
    cases pc with
    | idle =>
      simp only at hs
      have i3' := i3 (by simp)
      rcases hpl : plan P force ver c src with ⟨p, v⟩
      rw [hpl] at hs
      cases p with
      | compile record h =>
        simp only [Option.some.injEq] at hs; subst hs
        refine ⟨?_, by simp [S.at], fun _ => i3'⟩
        intro ver' record' h' hp
        simp only [S.at, PC.planned.injEq] at hp
        rw [← hp.2.2]
        exact plan_hash (congrArg Prod.fst hpl)
      | fail => simp only [Option.some.injEq] at hs; subst hs; exact ⟨by simp [S.withVersion], by simp [S.withVersion], fun _ => i3'⟩
      | reuse => simp only [Option.some.injEq] at hs; subst hs; exact ⟨by simp [S.withVersion], by simp [S.withVersion], fun _ => i3'⟩
    | _ => cases hs
  | compile =>
    simp only [step] at hs
    cases pc with
    | planned ver record h =>
      simp only [Option.some.injEq] at hs; subst hs
      have hh := i1 ver record h rfl
      refine ⟨by simp [S.at], ?_, fun hn => absurd rfl (hn record h)⟩
      intro r h' hp
      simp only [S.at, PC.built.injEq] at hp
      obtain ⟨-, rfl⟩ := hp
      refine ⟨by rw [hh]; exact hP.length _, fun b hb => ?_⟩
      simp only [S.at, S.withDriver, F.data.injEq] at hb
      subst hb
      exact hh
    | _ => cases hs
  | writeHash =>
    simp only [step] at hs
    cases pc with
    | built record h =>
      obtain ⟨-, hb⟩ := i2 record h rfl
      cases record with
      | none =>
        simp only [Option.some.injEq] at hs; subst hs
        refine ⟨by simp [S.at], by simp [S.at], fun _ h' b hh hd _ => ?_⟩
        simp only [S.at, S.withHash, F.data.injEq] at hh hd
        subst hh; exact hb b hd
      | some i =>
        simp only [Option.some.injEq] at hs; subst hs
        refine ⟨by simp [S.at], by simp [S.at], fun _ h' b hh hd _ => ?_⟩
        simp only [S.at, S.withHash, F.data.injEq] at hh hd
        subst hh; exact hb b hd
    | _ => cases hs
  | writeVersion =>
    simp only [step] at hs
    cases pc with
    | hashed i =>
      simp only [Option.some.injEq] at hs; subst hs
      exact ⟨by simp [S.at], by simp [S.at], fun _ => i3 (by simp)⟩
    | _ => cases hs
  | abort =>
    simp only [step] at hs
    split at hs
    · cases hs
    · simp only [Option.some.injEq] at hs; subst hs
      exact ⟨by simp [S.at], by simp [S.at], fun _ => i3 hc⟩
  | abortIn part =>
    simp only [step] at hs
    cases pc with
    | built record h =>
      simp only at hs
      split at hs
      · rename_i hpt
        simp only [Option.some.injEq] at hs; subst hs
        refine ⟨by simp [S.at], by simp [S.at], fun _ h' b hh hd hl => ?_⟩
        simp only [S.at, S.withHash, F.data.injEq] at hh
        subst hh
        have := (i2 record h rfl).1
        exact absurd (hpt.1.eq_of_length (by omega)) hpt.2
      · cases hs
    | hashed i =>
      simp only at hs
      split at hs
      · simp only [Option.some.injEq] at hs; subst hs
        exact ⟨by simp [S.at], by simp [S.at], fun _ => i3 (by simp)⟩
      · cases hs
    | _ => cases hs

theorem inv50_hist {P : Params Info} (hP : P.Lawful) {src : Src} {s : S Info} (h : Hist P Calm (fresh src) s) : Inv50 P s := by
  induction h with
  | nil => exact ⟨by simp [fresh], by simp [fresh], by simp [fresh]⟩
  | snoc _ ho hs ih => exact inv50_step hP ih ho hs

/-- **C50, partial.** In every history of edits, runs (with or without Force, by any versions of fab), removals of cache files, crashes
and errors, a driver that is reused was compiled from sources with the hash of the present ones.

What is missing: a crash or error between putting the driver into place and writing the hash, and an edit between hashing and
compiling (see `Calm`, and the counterexamples below). -/
theorem C50_reused_current_partial (P : Params Info) (hP : P.Lawful) (src : Src) (s : S Info) (h : Hist P Calm (fresh src) s)
    (force : Bool) (ver : Option Info) (hpc : s.pc = .idle) (hr : (plan P force ver s.cache s.src).1 = .reuse) :
    ∃ b, s.cache.driver = .data b ∧ hashOf P b.src = hashOf P s.src := by
  obtain ⟨-, ⟨b, hb⟩, -, hh⟩ := (C48_reuse ..).1 hr
  exact ⟨b, hb, ((inv50_hist hP h).2.2 (by simp [hpc]) _ b hh hb (hP.length _)).symm⟩

/-- ... and so from files with the same base names and contents, if there is no collision. -/
theorem C50_same_files_partial (P : Params Info) (hP : P.Lawful) (src : Src) (s : S Info) (h : Hist P Calm (fresh src) s)
    (force : Bool) (ver : Option Info) (hpc : s.pc = .idle) (hr : (plan P force ver s.cache s.src).1 = .reuse) :
    ∃ b, s.cache.driver = .data b ∧ ((b.src.map fun f => baseOf f.1).Nodup → (s.src.map fun f => baseOf f.1).Nodup →
      NoCollision P.sum P.sumText b.src s.src → ∀ n data,
        (∃ f ∈ b.src, baseOf f.1 = n ∧ f.2 = data) ↔ ∃ f ∈ s.src, baseOf f.1 = n ∧ f.2 = data) := by
  obtain ⟨b, hb, he⟩ := C50_reused_current_partial P hP src s h force ver hpc hr
  exact ⟨b, hb, fun h1 h2 h3 n data => C47_determines P.sum P.sumText h1 h2 h3 he n data⟩

/-- two runs, and then everything is current -/
def twoRuns (i : Info) : List (Ev Info) :=
  [.start false (some i), .compile, .writeHash, .start false (some i), .compile, .writeHash, .writeVersion]

/-- **C50 is false: a crash.** Two runs; an edit; a run that is cut off after it put the driver into place; the edit is undone: the
driver that was compiled from the edited sources is reused. -/
theorem C50_counterexample_crash (P : Params Info) (hP : P.Lawful) (i : Info) (a b : Src) (hab : hashOf P a ≠ hashOf P b) :
    ∃ s, steps P (fresh a) (twoRuns i ++ [.edit b, .start false (some i), .compile, .abort, .edit a]) = some s ∧ s.src = a ∧ s.pc = .idle ∧
      (plan P false (some i) s.cache s.src).1 = .reuse ∧ s.cache.driver = .data ⟨b, some i⟩ := by
  refine ⟨⟨a, ⟨.data ⟨b, some i⟩, .data (hashOf P a), .data (P.encode i)⟩, .idle⟩, ?_, rfl, rfl, ?_, rfl⟩
  · simp [twoRuns, steps, step, fresh, plan, checkVersion, hP.roundTrip, Ne.symm hab, S.at, S.withDriver, S.withHash, S.withVersion]
  · exact (C48_reuse ..).2 ⟨rfl, ⟨_, rfl⟩, ⟨i, _, rfl, rfl, hP.roundTrip i⟩, rfl⟩

/-- **C50 is false: an edit.** Two runs; an edit; a run during which, before the compiler reads the sources, there is another edit, which
is undone after the run: the driver that was compiled from the second edit is reused. -/
theorem C50_counterexample_edit (P : Params Info) (hP : P.Lawful) (i : Info) (a b c : Src) (hab : hashOf P a ≠ hashOf P b) :
    ∃ s, steps P (fresh a) (twoRuns i ++ [.edit b, .start false (some i), .edit c, .compile, .writeHash, .edit b]) = some s ∧ s.src = b ∧
      s.pc = .idle ∧ (plan P false (some i) s.cache s.src).1 = .reuse ∧ s.cache.driver = .data ⟨c, some i⟩ := by
  refine ⟨⟨b, ⟨.data ⟨c, some i⟩, .data (hashOf P b), .data (P.encode i)⟩, .idle⟩, ?_, rfl, rfl, ?_, rfl⟩
  · simp [twoRuns, steps, step, fresh, plan, checkVersion, hP.roundTrip, Ne.symm hab, S.at, S.withDriver, S.withHash, S.withVersion]
  · exact (C48_reuse ..).2 ⟨rfl, ⟨_, rfl⟩, ⟨i, _, rfl, rfl, hP.roundTrip i⟩, rfl⟩

/-! ## C61 -/

/-- The events allowed in `C61_partial`: no run has Force, the driver is not removed, and fab is not cut off between putting the driver
into place and beginning to write the build information, if it is going to be written. -/
def Calm61 (s : S Info) : Ev Info → Prop
  | .start force _ => force = false
  | .rmDriver => False
  | .abort => (∀ i h, s.pc ≠ .built (some i) h) ∧ ∀ i, s.pc ≠ .hashed i
  | .abortIn _ => ∀ i h, s.pc ≠ .built (some i) h
  | _ => True

/-- the version file says `i` -/
def Says (P : Params Info) (c : Cache Info) (i : Info) : Prop := ∃ t, c.version = .data t ∧ P.decode t = some i

def Inv61 (P : Params Info) (s : S Info) : Prop :=
  match s.pc with
  | .idle => (∀ b i, s.cache.driver = .data b → Says P s.cache i → b.fab = some i) ∧ ((∀ b, s.cache.driver ≠ .data b) → ∀ i, ¬ Says P s.cache i)
  | .planned ver record _ => (∀ b i, s.cache.driver = .data b → Says P s.cache i → b.fab = some i) ∧
      ((∀ b, s.cache.driver ≠ .data b) → ∀ i, ¬ Says P s.cache i) ∧
      (∀ i, record = some i → ver = some i) ∧ (record = none → ∀ i, Says P s.cache i → ver = some i)
  | .built record _ => ∃ b, s.cache.driver = .data b ∧ (∀ i, record = some i → b.fab = some i) ∧ (record = none → ∀ i, Says P s.cache i → b.fab = some i)
  | .hashed i => ∃ b, s.cache.driver = .data b ∧ b.fab = some i

/-- what the decision knows of the version file -/
theorem plan_says {P : Params Info} {ver : Option Info} {c : Cache Info} {src : Src} {p : Plan Info} {v : F Str}
    (h : plan P false ver c src = (p, v)) (hd : (∀ b, c.driver ≠ .data b) → ∀ i, ¬ Says P c i) :
    (v = c.version ∨ v = .absent) ∧ (∀ record n, p = .compile record n → (∀ i, record = some i → ver = some i) ∧
      (record = none → ∀ t i, v = .data t → P.decode t = some i → ver = some i)) := by
  obtain ⟨d, hsh, vf⟩ := c
  unfold plan checkVersion at h
  cases d with
  | absent =>
    simp only [Bool.false_eq_true, if_false, Prod.mk.injEq] at h
    obtain ⟨rfl, rfl⟩ := h
    refine ⟨.inl rfl, fun record n hp => ?_⟩
    injection hp with hp _
    subst hp
    exact ⟨fun i hi => by simp at hi, fun _ t i ht hi => absurd ⟨t, ht, hi⟩ (hd (by simp) i)⟩
  | broken =>
    simp only [Bool.false_eq_true, if_false, Prod.mk.injEq] at h
    obtain ⟨rfl, rfl⟩ := h
    exact ⟨.inl rfl, fun record n hp => by cases hp⟩
  | data b =>
    cases ver with
    | none =>
      simp only [Bool.false_eq_true, if_false, Prod.mk.injEq] at h
      obtain ⟨rfl, rfl⟩ := h
      refine ⟨.inr rfl, fun record n hp => ?_⟩
      injection hp with hp _
      subst hp
      exact ⟨fun i hi => by simp at hi, fun _ t i ht => by simp at ht⟩
    | some j =>
      cases vf with
      | absent =>
        simp only [Bool.false_eq_true, if_false, Prod.mk.injEq] at h
        obtain ⟨rfl, rfl⟩ := h
        refine ⟨.inl rfl, fun record n hp => ?_⟩
        injection hp with hp _
        subst hp
        exact ⟨fun i hi => hi, fun hn => by simp at hn⟩
      | broken =>
        simp only [Bool.false_eq_true, if_false, Prod.mk.injEq] at h
        obtain ⟨rfl, rfl⟩ := h
        exact ⟨.inl rfl, fun record n hp => by cases hp⟩
      | data t =>
        cases hdt : P.decode t with
        | none =>
          simp only [Bool.false_eq_true, if_false, hdt, Prod.mk.injEq] at h
          obtain ⟨rfl, rfl⟩ := h
          refine ⟨.inl rfl, fun record n hp => ?_⟩
          injection hp with hp _
          subst hp
          exact ⟨fun i hi => hi, fun hn => by simp at hn⟩
        | some k =>
          by_cases hjk : j = k
          · subst hjk
            have hk : v = .data t ∧ ∀ record n, p = .compile record n → record = none := by
              cases hsh with
              | absent =>
                simp only [Bool.false_eq_true, if_false, hdt, if_true, Prod.mk.injEq] at h
                obtain ⟨rfl, rfl⟩ := h
                exact ⟨rfl, fun r n hp => by injection hp with hp _; exact hp.symm⟩
              | broken =>
                simp only [Bool.false_eq_true, if_false, hdt, if_true, Prod.mk.injEq] at h
                obtain ⟨rfl, rfl⟩ := h
                exact ⟨rfl, fun r n hp => by cases hp⟩
              | data old =>
                simp only [Bool.false_eq_true, if_false, hdt, if_true] at h
                split at h
                · simp only [Prod.mk.injEq] at h
                  obtain ⟨rfl, rfl⟩ := h
                  exact ⟨rfl, fun r n hp => by cases hp⟩
                · simp only [Prod.mk.injEq] at h
                  obtain ⟨rfl, rfl⟩ := h
                  exact ⟨rfl, fun r n hp => by injection hp with hp _; exact hp.symm⟩
            obtain ⟨rfl, hk⟩ := hk
            refine ⟨.inl rfl, fun record n hp => ⟨fun i hi => by (rw [hk record n hp] at hi; cases hi), fun _ t' i ht hi => ?_⟩⟩
            injection ht with ht
            subst ht
            rw [hdt] at hi
            exact hi
          · simp only [Bool.false_eq_true, if_false, hdt, if_neg hjk, Prod.mk.injEq] at h
            obtain ⟨rfl, rfl⟩ := h
            refine ⟨.inl rfl, fun record n hp => ?_⟩
            injection hp with hp _
            subst hp
            exact ⟨fun i hi => hi, fun hn => by simp at hn⟩

theorem inv61_step {P : Params Info} (hP : P.Lawful) {s s' : S Info} {e : Ev Info} (hi : Inv61 P s) (hc : Calm61 s e)
    (hs : step P s e = some s') : Inv61 P s' := by
  obtain ⟨src, c, pc⟩ := s
  cases e with
  | edit src' => simp only [step, Option.some.injEq] at hs; subst hs; exact hi
  | rmDriver => exact hc.elim
  | rmHash => simp only [step, Option.some.injEq] at hs; subst hs; exact hi
  | rmVersion =>
    simp only [step, Option.some.injEq] at hs; subst hs
    have hno : ∀ i, ¬ Says P { c with version := .absent } i := by rintro i ⟨t, ht, -⟩; simp at ht
    cases pc with
    | idle => exact ⟨fun b i _ h => absurd h (hno i), fun _ => hno⟩
    | planned ver record h =>
      obtain ⟨-, -, h3, -⟩ := hi
      exact ⟨fun b i _ h => absurd h (hno i), fun _ => hno, h3, fun _ i h => absurd h (hno i)⟩
    | built record h =>
      obtain ⟨b, h1, h2, -⟩ := hi
      exact ⟨b, h1, h2, fun _ i h => absurd h (hno i)⟩
    | hashed i => exact hi
  | start force ver =>
    have hf : force = false := hc
    subst hf
    simp only [step] at hs
    cases pc with
    | idle =>
      obtain ⟨i1, i2⟩ := hi
      simp only at hs
      rcases hpl : plan P false ver c src with ⟨p, v⟩
      obtain ⟨p1, p2⟩ := plan_says hpl i2
      rw [hpl] at hs
      have hsay : ∀ i, Says P { c with version := v } i → Says P c i := by
        rintro i ⟨t, ht, hd⟩
        rcases p1 with p1 | p1
        · exact ⟨t, by rw [← p1]; exact ht, hd⟩
        · simp only at ht; rw [p1] at ht; cases ht
      have a1 : ∀ b i, c.driver = .data b → Says P { c with version := v } i → b.fab = some i := fun b i hb h => i1 b i hb (hsay i h)
      have a2 : (∀ b, c.driver ≠ .data b) → ∀ i, ¬ Says P { c with version := v } i := fun hb i h => i2 hb i (hsay i h)
      cases p with
      | compile record h =>
        simp only [Option.some.injEq] at hs; subst hs
        obtain ⟨p3, p4⟩ := p2 record h rfl
        exact ⟨a1, a2, p3, fun hn i ⟨t, ht, hd⟩ => p4 hn t i ht hd⟩
      | fail => simp only [Option.some.injEq] at hs; subst hs; exact ⟨a1, a2⟩
      | reuse => simp only [Option.some.injEq] at hs; subst hs; exact ⟨a1, a2⟩
    | _ => cases hs
  | compile =>
    simp only [step] at hs
    cases pc with
    | planned ver record h =>
      simp only [Option.some.injEq] at hs; subst hs
      obtain ⟨-, -, h3, h4⟩ := hi
      exact ⟨_, rfl, h3, h4⟩
    | _ => cases hs
  | writeHash =>
    simp only [step] at hs
    cases pc with
    | built record h =>
      obtain ⟨b, h1, h2, h3⟩ := hi
      cases record with
      | none =>
        simp only [Option.some.injEq] at hs; subst hs
        refine ⟨fun b' i hb hsay => ?_, fun hn => absurd h1 (hn b)⟩
        have : b' = b := by
          have h1' : c.driver = .data b := h1
          have hb' : c.driver = .data b' := hb
          rw [h1'] at hb'; injection hb' with hb'; exact hb'.symm
        rw [this]
        exact h3 rfl i hsay
      | some i =>
        simp only [Option.some.injEq] at hs; subst hs
        exact ⟨b, h1, h2 i rfl⟩
    | _ => cases hs
  | writeVersion =>
    simp only [step] at hs
    cases pc with
    | hashed i =>
      simp only [Option.some.injEq] at hs; subst hs
      obtain ⟨b, h1, h2⟩ := hi
      refine ⟨fun b' j hb ⟨t, ht, hd⟩ => ?_, fun hn => absurd h1 (hn b)⟩
      have h1' : c.driver = .data b := h1
      have hb' : c.driver = .data b' := hb
      rw [h1'] at hb'; injection hb' with hb'; subst hb'
      simp only [S.at, S.withVersion, F.data.injEq] at ht
      subst ht
      rw [hP.roundTrip] at hd
      rw [h2, hd]
    | _ => cases hs
  | abort =>
    simp only [step] at hs
    split at hs
    · cases hs
    · simp only [Option.some.injEq] at hs; subst hs
      obtain ⟨c1, c2⟩ := hc
      cases pc with
      | idle => exact hi
      | planned ver record h => exact ⟨hi.1, hi.2.1⟩
      | built record h =>
        obtain ⟨b, h1, h2, h3⟩ := hi
        cases record with
        | some i => exact absurd rfl (c1 i h)
        | none =>
          refine ⟨fun b' i hb hsay => ?_, fun hn => absurd h1 (hn b)⟩
          have h1' : c.driver = .data b := h1
          have hb' : c.driver = .data b' := hb
          rw [h1'] at hb'; injection hb' with hb'; subst hb'
          exact h3 rfl i hsay
      | hashed i => exact absurd rfl (c2 i)
  | abortIn part =>
    simp only [step] at hs
    cases pc with
    | built record h =>
      simp only at hs
      split at hs
      · simp only [Option.some.injEq] at hs; subst hs
        obtain ⟨b, h1, h2, h3⟩ := hi
        cases record with
        | some i => exact absurd rfl (hc i h)
        | none =>
          refine ⟨fun b' i hb hsay => ?_, fun hn => absurd h1 (hn b)⟩
          have h1' : c.driver = .data b := h1
          have hb' : c.driver = .data b' := hb
          rw [h1'] at hb'; injection hb' with hb'; subst hb'
          exact h3 rfl i hsay
      · cases hs
    | hashed i =>
      simp only at hs
      split at hs
      · rename_i hpt
        simp only [Option.some.injEq] at hs; subst hs
        obtain ⟨b, h1, h2⟩ := hi
        refine ⟨fun b' j hb ⟨t, ht, hd⟩ => ?_, fun hn => absurd h1 (hn b)⟩
        have h1' : c.driver = .data b := h1
        have hb' : c.driver = .data b' := hb
        rw [h1'] at hb'; injection hb' with hb'; subst hb'
        simp only [S.at, S.withVersion, F.data.injEq] at ht
        subst ht
        rw [h2, hP.cut i part j hpt.1 hd]
      · cases hs
    | _ => cases hs

theorem inv61_hist {P : Params Info} (hP : P.Lawful) {src : Src} {s : S Info} (h : Hist P Calm61 (fresh src) s) : Inv61 P s := by
  induction h with
  | nil =>
    have hno : ∀ i, ¬ Says P (fresh (Info := Info) src).cache i := by rintro i ⟨t, ht, -⟩; simp [fresh] at ht
    exact ⟨fun b i _ h => absurd h (hno i), fun _ => hno⟩
  | snoc _ ho hs ih => exact inv61_step hP ih ho hs

/-- **C61, partial.** A driver that is reused was compiled by a fab with the same build information.

What is missing: Force, removal of the driver file, and a crash or error between putting the driver into place and writing the build
information (see `Calm61`, and the counterexamples below). -/
theorem C61_reused_same_fab_partial (P : Params Info) (hP : P.Lawful) (src : Src) (s : S Info) (h : Hist P Calm61 (fresh src) s)
    (force : Bool) (ver : Option Info) (hpc : s.pc = .idle) (hr : (plan P force ver s.cache s.src).1 = .reuse) :
    ∃ b i, s.cache.driver = .data b ∧ ver = some i ∧ b.fab = some i := by
  obtain ⟨-, ⟨b, hb⟩, ⟨i, t, rfl, ht, hd⟩, -⟩ := (C48_reuse ..).1 hr
  have hI := inv61_hist hP h
  unfold Inv61 at hI
  rw [hpc] at hI
  exact ⟨b, i, hb, rfl, hI.1 b i hb ⟨t, ht, hd⟩⟩

/-- **C61 is false: Force.** Two runs of one fab; a run with Force of another fab: when the first fab is run again, it reuses the driver
that the other one compiled. -/
theorem C61_counterexample_force (P : Params Info) (hP : P.Lawful) (i j : Info) (src : Src) :
    ∃ s, steps P (fresh src) (twoRuns i ++ [.start true (some j), .compile, .writeHash]) = some s ∧ s.pc = .idle ∧
      (plan P false (some i) s.cache s.src).1 = .reuse ∧ s.cache.driver = .data ⟨src, some j⟩ := by
  refine ⟨⟨src, ⟨.data ⟨src, some j⟩, .data (hashOf P src), .data (P.encode i)⟩, .idle⟩, ?_, rfl, ?_, rfl⟩
  · simp [twoRuns, steps, step, fresh, plan, checkVersion, S.at, S.withDriver, S.withHash, S.withVersion]
  · exact (C48_reuse ..).2 ⟨rfl, ⟨_, rfl⟩, ⟨i, _, rfl, rfl, hP.roundTrip i⟩, rfl⟩

/-- **C61 is false: a removed driver.** The same without Force, if the driver file was removed. -/
theorem C61_counterexample_removed (P : Params Info) (hP : P.Lawful) (i j : Info) (src : Src) :
    ∃ s, steps P (fresh src) (twoRuns i ++ [.rmDriver, .start false (some j), .compile, .writeHash]) = some s ∧ s.pc = .idle ∧
      (plan P false (some i) s.cache s.src).1 = .reuse ∧ s.cache.driver = .data ⟨src, some j⟩ := by
  refine ⟨⟨src, ⟨.data ⟨src, some j⟩, .data (hashOf P src), .data (P.encode i)⟩, .idle⟩, ?_, rfl, ?_, rfl⟩
  · simp [twoRuns, steps, step, fresh, plan, checkVersion, S.at, S.withDriver, S.withHash, S.withVersion]
  · exact (C48_reuse ..).2 ⟨rfl, ⟨_, rfl⟩, ⟨i, _, rfl, rfl, hP.roundTrip i⟩, rfl⟩

/-- **C61 is false: a crash.** -/
theorem C61_counterexample_crash (P : Params Info) (hP : P.Lawful) (i j : Info) (hij : i ≠ j) (src : Src) :
    ∃ s, steps P (fresh src) (twoRuns i ++ [.start false (some j), .compile, .abort]) = some s ∧ s.pc = .idle ∧
      (plan P false (some i) s.cache s.src).1 = .reuse ∧ s.cache.driver = .data ⟨src, some j⟩ := by
  refine ⟨⟨src, ⟨.data ⟨src, some j⟩, .data (hashOf P src), .data (P.encode i)⟩, .idle⟩, ?_, rfl, ?_, rfl⟩
  · simp [twoRuns, steps, step, fresh, plan, checkVersion, hP.roundTrip, Ne.symm hij, S.at, S.withDriver, S.withHash, S.withVersion]
  · exact (C48_reuse ..).2 ⟨rfl, ⟨_, rfl⟩, ⟨i, _, rfl, rfl, hP.roundTrip i⟩, rfl⟩

/-! ## Concrete cases

There are lawful parameters; an edit between two runs, with a crash while the hash is written, satisfies `Calm`. -/

def exParams : Params Bool where
  sum := exSum
  sumText s := (s ++ List.replicate 56 'x').take 56
  encode i := if i then "{1}".toList else "{0}".toList
  decode t := if t = "{1}".toList then some true else if t = "{0}".toList then some false else none

theorem exLawful : exParams.Lawful where
  roundTrip i := by cases i <;> decide +kernel
  cut i t j h hd := by
    have key : ∀ i, ∀ n < 4, ∀ j, exParams.decode ((exParams.encode i).take n) = some j → j = i := by decide +kernel
    rw [List.prefix_iff_eq_take.1 h] at hd
    have hl : t.length < 4 := by
      have h3 : ∀ i, (exParams.encode i).length = 3 := by decide +kernel
      have := h.length_le; have := h3 i; omega
    exact key i _ hl j hd
  length s := by simp [exParams]

def exHist : List (Ev Bool) := twoRuns true ++
  [.edit (exSrc [9]), .start false (some true), .compile, .abortIn "{".toList, .start false (some true), .compile, .writeHash,
    .start false (some true)]

/-- a history that is checked step by step -/
def check (P : Params Info) (ok : S Info → Ev Info → Bool) : S Info → List (Ev Info) → Option (S Info)
  | s, [] => some s
  | s, e :: es => if ok s e then (step P s e).bind fun s => check P ok s es else none

theorem hist_of_check {P : Params Info} {ok : S Info → Ev Info → Prop} {okB : S Info → Ev Info → Bool} (hok : ∀ s e, okB s e = true → ok s e) :
    ∀ (es : List (Ev Info)) {s0 s s' : S Info}, Hist P ok s0 s → check P okB s es = some s' → Hist P ok s0 s' := by
  intro es
  induction es with
  | nil => intro s0 s s' h hs; simp only [check, Option.some.injEq] at hs; subst hs; exact h
  | cons e es ih =>
    intro s0 s s' h hs
    rw [check] at hs
    split at hs
    · rename_i he
      cases h1 : step P s e with
      | none => rw [h1] at hs; cases hs
      | some s1 => rw [h1] at hs; exact ih (.snoc h (hok s e he) h1) hs
    · cases hs

/-- an edit while nothing runs, and aborts of any kind but the ones excluded -/
def calmB (s : S Bool) : Ev Bool → Bool
  | .edit _ => decide (s.pc = .idle)
  | .abort => match s.pc with | .planned .. => true | _ => false
  | .rmDriver => false
  | .start force _ => !force
  | .abortIn _ => match s.pc with | .built (some _) _ => false | _ => true
  | _ => true

theorem calmB_ok (s : S Bool) (e : Ev Bool) (h : calmB s e = true) : Calm s e ∧ Calm61 s e := by
  obtain ⟨src, c, pc⟩ := s
  cases e <;> simp only [calmB, Calm, Calm61] at h ⊢ <;> cases pc <;> simp_all <;> rename_i r _ <;> cases r <;> simp_all

/-- two runs; an edit; a run that compiles and crashes while it writes the hash; a run that compiles: the state in which the next run
reuses the driver -/
def exEnd : S Bool := ⟨exSrc [9], ⟨.data ⟨exSrc [9], some true⟩, .data (hashOf exParams (exSrc [9])), .data "{1}".toList⟩, .idle⟩

theorem exChecked : check exParams calmB (fresh (exSrc [3])) exHist = some exEnd := by decide +kernel

example : Hist exParams Calm (fresh (exSrc [3])) exEnd ∧ Hist exParams Calm61 (fresh (exSrc [3])) exEnd ∧ exEnd.pc = .idle ∧
    (plan exParams false (some true) exEnd.cache exEnd.src).1 = .reuse :=
  ⟨hist_of_check (fun s e h => (calmB_ok s e h).1) exHist (.nil _) exChecked,
    hist_of_check (fun s e h => (calmB_ok s e h).2) exHist (.nil _) exChecked, rfl, by decide +kernel⟩

/-- the hypothesis of the counterexamples -/
example : hashOf exParams (exSrc [3]) ≠ hashOf exParams (exSrc [9]) := by decide +kernel
example : (∃ s, runs exParams (some true) 5 (fresh (exSrc [3])) = some s ∧ (plan exParams false (some true) s.cache s.src).1 = .reuse) := by
  refine ⟨⟨exSrc [3], ⟨.data ⟨exSrc [3], some true⟩, .data (hashOf exParams (exSrc [3])), .data "{1}".toList⟩, .idle⟩, ?_, ?_⟩ <;> decide +kernel

end Fab.Driver
