import Verif.Driver.Cache

/-!
# Several fab processes at the same time (/repo/main.go:78-105, 162-347): C89

Nothing in fab locks the driver's directory, so the steps of several `fab` processes on one project may be interleaved in any way.  Here
`getDriver` is cut into the single operations on files, and any number of processes do them in any order.

Parameters and simplifications as in `Driver/Cache.lean`, without the restriction to one process: a file is read at one moment, and written in
two: it is truncated when it is opened (`os.WriteFile`, `os.O_TRUNC`), and then the text is written at its beginning by one `write` (which a
crash or an error may cut short).  A file of which the version or the hash cannot be read is an error, as there.
-/

namespace Fab.Driver
open Fab Path

variable {Info : Type} [DecidableEq Info]

/-- Where a process is, main.go:162-303 and 101-104. -/
inductive PP (Info : Type) where
  /-- not started, or finished -/
  | idle
  /-- main.go:213: before the driver is looked for -/
  | begun (force : Bool) (ver : Option Info)
  /-- main.go:232: there is a driver, before the version is checked -/
  | found (ver : Option Info)
  /-- main.go:239: the version is right, before the hash file is read -/
  | checked (ver : Option Info)
  /-- main.go:250: before the sources are hashed; `old` is the recorded hash to be compared, `none` if it is going to compile anyway -/
  | hashing (ver record : Option Info) (old : Option Str)
  /-- main.go:278: before compiling -/
  | planned (ver record : Option Info) (newhash : Str)
  /-- main.go:281: the driver was put into place -/
  | built (record : Option Info) (newhash : Str)
  /-- main.go:281: the hash file was opened and truncated -/
  | truncated (record : Option Info) (newhash : Str)
  /-- main.go:284: the hash was written, and build information is going to be -/
  | hashed (record : Info)
  /-- main.go:285: the version file was opened and truncated -/
  | emptied (record : Info)
  /-- main.go:101-104: before the driver is executed -/
  | ready
deriving DecidableEq

/-- The project, the driver's directory, the processes, and what has been executed by which of them (latest first). -/
structure M (Info : Type) where
  src : Src
  cache : Cache Info
  pc : Nat → PP Info
  log : List (Nat × Build Info)

inductive MEv (Info : Type) where
  /-- the user edits the sources -/
  | edit (src : Src)
  /-- the user removes a file of the cache -/
  | rmDriver | rmHash | rmVersion
  /-- fab is started as the process `p` -/
  | start (p : Nat) (force : Bool) (ver : Option Info)
  /-- the process does its next operation -/
  | go (p : Nat)
  /-- a crash or an error of the process, before its next operation -/
  | abort (p : Nat)
  /-- a crash or an error while it writes the hash, or the build information, when only this part of it has been written -/
  | abortIn (p : Nat) (part : Str)

def setPC (pc : Nat → PP Info) (p : Nat) (x : PP Info) : Nat → PP Info := fun q => if q = p then x else pc q

/-- `write` at the beginning of a file -/
def overwrite (old : F Str) (t : Str) : F Str :=
  match old with
  | .data o => .data (t ++ o.drop t.length)
  | x => x

/-- main.go:284: whether build information is going to be written -/
def afterHash : Option Info → PP Info
  | some i => .hashed i
  | none => .ready

/-- The next operation of the process `p`. -/
def goStep (P : Params Info) (s : M Info) (p : Nat) : Option (M Info) :=
  let move (x : PP Info) : M Info := { s with pc := setPC s.pc p x }
  match s.pc p with
  | .idle => none
  -- main.go:213-228
  | .begun force ver =>
    if force then some (move (.hashing ver none none))
    else
      match s.cache.driver with
      | .absent => some (move (.hashing ver none none))
      | .broken => some (move .idle)
      | .data _ => some (move (.found ver))
  -- main.go:231-236
  | .found ver =>
    match checkVersion P ver s.cache.version with
    | none => some (move .idle)
    | some (true, record, v) => some { move (.hashing ver record none) with cache := { s.cache with version := v } }
    | some (false, _, _) => some (move (.checked ver))
  -- main.go:238-248
  | .checked ver =>
    match s.cache.hash with
    | .absent => some (move (.hashing ver none none))
    | .broken => some (move .idle)
    | .data old => some (move (.hashing ver none (some old)))
  -- main.go:250-276
  | .hashing ver record old => if old = some (hashOf P s.src) then some (move .ready) else some (move (.planned ver record (hashOf P s.src)))
  -- main.go:278
  | .planned ver record h => some { move (.built record h) with cache := { s.cache with driver := .data ⟨s.src, ver⟩ } }
  -- main.go:281, os.WriteFile: open, write
  | .built record h => some { move (.truncated record h) with cache := { s.cache with hash := .data [] } }
  | .truncated record h =>
    some { move (afterHash record) with cache := { s.cache with hash := overwrite s.cache.hash h } }
  -- main.go:284-300
  | .hashed i => some { move (.emptied i) with cache := { s.cache with version := .data [] } }
  | .emptied i => some { move .ready with cache := { s.cache with version := overwrite s.cache.version (P.encode i) } }
  -- main.go:101-104
  | .ready =>
    match s.cache.driver with
    | .data b => some { move .idle with log := (p, b) :: s.log }
    | _ => some (move .idle)

/-- One step; `none`: not possible now. -/
def mstep (P : Params Info) (s : M Info) : MEv Info → Option (M Info)
  | .edit src => some { s with src := src }
  | .rmDriver => some { s with cache := { s.cache with driver := .absent } }
  | .rmHash => some { s with cache := { s.cache with hash := .absent } }
  | .rmVersion => some { s with cache := { s.cache with version := .absent } }
  | .start p force ver => if s.pc p = .idle then some { s with pc := setPC s.pc p (.begun force ver) } else none
  | .go p => goStep P s p
  | .abort p => if s.pc p = .idle then none else some { s with pc := setPC s.pc p .idle }
  | .abortIn p part =>
    match s.pc p with
    | .truncated _ h =>
      if part <+: h then some { s with pc := setPC s.pc p .idle, cache := { s.cache with hash := overwrite s.cache.hash part } } else none
    | .emptied i =>
      if part <+: P.encode i then some { s with pc := setPC s.pc p .idle, cache := { s.cache with version := overwrite s.cache.version part } } else none
    | _ => none

/-- The states after a history in which every event satisfies `ok` at its moment. -/
inductive MHist (P : Params Info) (ok : M Info → MEv Info → Prop) : M Info → M Info → Prop
  | nil (s) : MHist P ok s s
  | snoc {s s' s'' e} (h : MHist P ok s s') (ho : ok s' e) (hs : mstep P s' e = some s'') : MHist P ok s s''

/-- A project, and no process of fab. -/
def quiet (src : Src) (c : Cache Info) : M Info := ⟨src, c, fun _ => .idle, []⟩

/-- No cache yet. -/
def noCache : Cache Info := ⟨.absent, .absent, .absent⟩

def msteps (P : Params Info) (s : M Info) : List (MEv Info) → Option (M Info)
  | [] => some s
  | e :: es => (mstep P s e).bind fun s => msteps P s es

/-- The operations of `goStep`, one by one. -/
inductive Go (P : Params Info) (s : M Info) (p : Nat) : M Info → Prop
  | force {ver} (h : s.pc p = .begun true ver) : Go P s p { s with pc := setPC s.pc p (.hashing ver none none) }
  | absent {ver} (h : s.pc p = .begun false ver) (hd : s.cache.driver = .absent) : Go P s p { s with pc := setPC s.pc p (.hashing ver none none) }
  | failed {x ver} (h : s.pc p = x) (hx : (x = .begun false ver ∧ s.cache.driver = .broken) ∨ (x = .found ver ∧ s.cache.version = .broken) ∨ (x = .checked ver ∧ s.cache.hash = .broken)) :
      Go P s p { s with pc := setPC s.pc p .idle }
  | found {ver b} (h : s.pc p = .begun false ver) (hd : s.cache.driver = .data b) : Go P s p { s with pc := setPC s.pc p (.found ver) }
  | noInfo (h : s.pc p = .found none) : Go P s p { s with pc := setPC s.pc p (.hashing none none none), cache := { s.cache with version := .absent } }
  | other {i} (h : s.pc p = .found (some i)) (hv : s.cache.version = .absent ∨ ∃ t, s.cache.version = .data t ∧ P.decode t ≠ some i) :
      Go P s p { s with pc := setPC s.pc p (.hashing (some i) (some i) none) }
  | checked {i t} (h : s.pc p = .found (some i)) (hv : s.cache.version = .data t) (hd : P.decode t = some i) : Go P s p { s with pc := setPC s.pc p (.checked (some i)) }
  | noHash {ver} (h : s.pc p = .checked ver) (hh : s.cache.hash = .absent) : Go P s p { s with pc := setPC s.pc p (.hashing ver none none) }
  | read {ver t} (h : s.pc p = .checked ver) (hh : s.cache.hash = .data t) : Go P s p { s with pc := setPC s.pc p (.hashing ver none (some t)) }
  | reuse {ver record} (h : s.pc p = .hashing ver record (some (hashOf P s.src))) : Go P s p { s with pc := setPC s.pc p .ready }
  | plan {ver record old} (h : s.pc p = .hashing ver record old) (hn : old ≠ some (hashOf P s.src)) :
      Go P s p { s with pc := setPC s.pc p (.planned ver record (hashOf P s.src)) }
  | compile {ver record n} (h : s.pc p = .planned ver record n) :
      Go P s p { s with pc := setPC s.pc p (.built record n), cache := { s.cache with driver := .data ⟨s.src, ver⟩ } }
  | openHash {record n} (h : s.pc p = .built record n) : Go P s p { s with pc := setPC s.pc p (.truncated record n), cache := { s.cache with hash := .data [] } }
  | writeHash {record n} (h : s.pc p = .truncated record n) :
      Go P s p { s with pc := setPC s.pc p (afterHash record), cache := { s.cache with hash := overwrite s.cache.hash n } }
  | openVersion {i} (h : s.pc p = .hashed i) : Go P s p { s with pc := setPC s.pc p (.emptied i), cache := { s.cache with version := .data [] } }
  | writeVersion {i} (h : s.pc p = .emptied i) :
      Go P s p { s with pc := setPC s.pc p .ready, cache := { s.cache with version := overwrite s.cache.version (P.encode i) } }
  | exec {b} (h : s.pc p = .ready) (hd : s.cache.driver = .data b) : Go P s p { s with pc := setPC s.pc p .idle, log := (p, b) :: s.log }
  | noExec (h : s.pc p = .ready) (hd : ∀ b, s.cache.driver ≠ .data b) : Go P s p { s with pc := setPC s.pc p .idle }

theorem go_cases {P : Params Info} {s s' : M Info} {p : Nat} (h : goStep P s p = some s') : Go P s p s' := by
  unfold goStep at h
  cases hp : s.pc p with
  | idle => simp [hp] at h
  | begun force ver =>
    simp only [hp] at h
    cases force with
    | true => simp only [if_true, Option.some.injEq] at h; subst h; exact .force hp
    | false =>
      simp only [Bool.false_eq_true, if_false] at h
      cases hd : s.cache.driver with
      | absent => simp only [hd, Option.some.injEq] at h; subst h; exact .absent hp hd
      | broken => simp only [hd, Option.some.injEq] at h; subst h; exact .failed hp (.inl ⟨rfl, hd⟩)
      | data b => simp only [hd, Option.some.injEq] at h; subst h; exact .found hp hd
  | found ver =>
    simp only [hp, checkVersion] at h
    cases ver with
    | none => simp only [Option.some.injEq] at h; subst h; exact .noInfo hp
    | some i =>
      cases hv : s.cache.version with
      | absent =>
        simp only [hv, Option.some.injEq] at h; subst h
        have := Go.other (P := P) hp (.inl hv)
        rw [← hv]; exact this
      | broken => simp only [hv, Option.some.injEq] at h; subst h; exact .failed hp (.inr (.inl ⟨rfl, hv⟩))
      | data t =>
        cases hd : P.decode t with
        | none =>
          simp only [hv, hd, Option.some.injEq] at h; subst h
          have := Go.other (P := P) hp (.inr ⟨t, hv, by simp [hd]⟩)
          rw [← hv]; exact this
        | some j =>
          by_cases hij : i = j
          · subst hij; simp only [hv, hd, if_true, Option.some.injEq] at h; subst h; exact .checked hp hv hd
          · simp only [hv, hd, if_neg hij, Option.some.injEq] at h; subst h
            have := Go.other (P := P) hp (.inr ⟨t, hv, by simp [hd, Ne.symm hij]⟩)
            rw [← hv]; exact this
  | checked ver =>
    simp only [hp] at h
    cases hd : s.cache.hash with
    | absent => simp only [hd, Option.some.injEq] at h; subst h; exact .noHash hp hd
    | broken => simp only [hd, Option.some.injEq] at h; subst h; exact .failed hp (.inr (.inr ⟨rfl, hd⟩))
    | data b => simp only [hd, Option.some.injEq] at h; subst h; exact .read hp hd
  | hashing ver record old =>
    simp only [hp] at h
    by_cases ho : old = some (hashOf P s.src)
    · simp only [if_pos ho, Option.some.injEq] at h; subst h; subst ho; exact .reuse hp
    · simp only [if_neg ho, Option.some.injEq] at h; subst h; exact .plan hp ho
  | planned ver record n => simp only [hp, Option.some.injEq] at h; subst h; exact .compile hp
  | built record n => simp only [hp, Option.some.injEq] at h; subst h; exact .openHash hp
  | truncated record n => simp only [hp, Option.some.injEq] at h; subst h; exact .writeHash hp
  | hashed i => simp only [hp, Option.some.injEq] at h; subst h; exact .openVersion hp
  | emptied i => simp only [hp, Option.some.injEq] at h; subst h; exact .writeVersion hp
  | ready =>
    simp only [hp] at h
    cases hd : s.cache.driver with
    | absent => simp only [hd, Option.some.injEq] at h; subst h; exact .noExec hp (by simp [hd])
    | broken => simp only [hd, Option.some.injEq] at h; subst h; exact .noExec hp (by simp [hd])
    | data b => simp only [hd, Option.some.injEq] at h; subst h; exact .exec hp hd

/-! ## Every process runs a driver made from the present sources -/

/-- What the driver in place is made from has the hash of the present sources. -/
def Good (P : Params Info) (s : M Info) : Prop := ∀ b, s.cache.driver = .data b → hashOf P b.src = hashOf P s.src

/-- Some process runs. -/
def Busy (s : M Info) : Prop := ∃ p, s.pc p ≠ .idle

/-- The events allowed in `C89_present_partial`: the sources are edited only while no fab runs, and no process is cut off between putting the driver into place and
opening the hash file. -/
def Calm89 (s : M Info) : MEv Info → Prop
  | .edit _ => ¬ Busy s
  | .abort p => ∀ record h, s.pc p ≠ .built record h
  | _ => True

/-- The events allowed in `C89_no_edit`: no edits. -/
def NoEdit (_ : M Info) : MEv Info → Prop
  | .edit _ => False
  | _ => True

/-- what is known of a process that is at `x` -/
def PcOk (P : Params Info) (s : M Info) : PP Info → Prop
  | .hashing _ _ (some t) => t = hashOf P s.src → Good P s
  | .planned _ _ h => h = hashOf P s.src
  | .built _ h => h = hashOf P s.src ∧ Good P s
  | .truncated _ h => h = hashOf P s.src ∧ Good P s
  | .hashed _ => Good P s
  | .emptied _ => Good P s
  | .ready => Good P s
  | _ => True

/-- the hash file is that of the driver -/
def Matching (P : Params Info) (s : M Info) : Prop :=
  ∀ t b, s.cache.hash = .data t → t.length = 56 → s.cache.driver = .data b → t = hashOf P b.src

def Inv89 (P : Params Info) (s : M Info) : Prop :=
  (∀ p, PcOk P s (s.pc p)) ∧ ((∃ p record h, s.pc p = .built record h) ∨ Matching P s)

/-- the same, when there are no edits -/
def Inv89' (P : Params Info) (s : M Info) : Prop :=
  (∀ p, PcOk P s (s.pc p)) ∧ (s.cache.hash = .data (hashOf P s.src) → Good P s)

omit [DecidableEq Info] in
theorem setPC_same (pc : Nat → PP Info) (p : Nat) (x : PP Info) : setPC pc p x p = x := if_pos rfl
omit [DecidableEq Info] in
theorem setPC_ne (pc : Nat → PP Info) {p q : Nat} (x : PP Info) (h : q ≠ p) : setPC pc p x q = pc q := if_neg h

omit [DecidableEq Info] in
/-- `PcOk` depends only on the sources and the driver, and if the driver stays good it stays true -/
theorem PcOk.mono {P : Params Info} {s s' : M Info} {x : PP Info} (h : PcOk P s x) (hs : s'.src = s.src) (hg : Good P s → Good P s') : PcOk P s' x := by
  cases x with
  | hashing v r o => cases o <;> simp_all [PcOk]
  | _ => simp_all [PcOk]

omit [DecidableEq Info] in
theorem pcs_upd {P : Params Info} {s s' : M Info} {p : Nat} {x : PP Info} (h : ∀ q, PcOk P s (s.pc q)) (hpc : s'.pc = setPC s.pc p x) (hs : s'.src = s.src)
    (hg : Good P s → Good P s') (hx : PcOk P s' x) : ∀ q, PcOk P s' (s'.pc q) := by
  intro q
  rw [hpc]
  by_cases e : q = p
  · subst e; rw [setPC_same]; exact hx
  · rw [setPC_ne _ _ e]; exact (h q).mono hs hg

theorem overwrite_length {o : F Str} {t u : Str} (h : overwrite o t = .data u) : ∃ v, o = .data v ∧ u = t ++ v.drop t.length := by
  cases o with
  | data v => simp only [overwrite, F.data.injEq] at h; exact ⟨v, rfl, h.symm⟩
  | _ => simp [overwrite] at h

/-- a part of a hash over the whole of it -/
theorem overwrite_part {part h : Str} (hp : part <+: h) : part ++ h.drop part.length = h := by
  obtain ⟨r, rfl⟩ := hp
  simp

omit [DecidableEq Info] in
theorem inv89_go {P : Params Info} (hP : P.Lawful) {s s' : M Info} {p : Nat} (hi : Inv89 P s) (hs : Go P s p s') : Inv89 P s' := by
  obtain ⟨i1, i2⟩ := hi
  have ip := i1 p
  have keep : ∀ x, s'.pc = setPC s.pc p x → s'.cache.hash = s.cache.hash → s'.cache.driver = s.cache.driver → (∀ r n, s.pc p ≠ .built r n) →
      (∃ p record h, s'.pc p = .built record h) ∨ Matching P s' := by
    intro x hx h1 h2 hn
    rcases i2 with ⟨q, r, n, hq⟩ | hm
    · refine .inl ⟨q, r, n, ?_⟩
      have : q ≠ p := by rintro rfl; exact hn r n hq
      rw [hx, setPC_ne _ _ this, hq]
    · refine .inr ?_
      unfold Matching at *
      rw [h1, h2]; exact hm
  cases hs with
  | force h => exact ⟨pcs_upd i1 rfl rfl (fun g => g) trivial, keep _ rfl rfl rfl (by simp [h])⟩
  | absent h hd => exact ⟨pcs_upd i1 rfl rfl (fun g => g) trivial, keep _ rfl rfl rfl (by simp [h])⟩
  | failed h hx => exact ⟨pcs_upd i1 rfl rfl (fun g => g) trivial, keep _ rfl rfl rfl (by rcases hx with ⟨e, _⟩ | ⟨e, _⟩ | ⟨e, _⟩ <;> simp [h, e])⟩
  | found h hd => exact ⟨pcs_upd i1 rfl rfl (fun g => g) trivial, keep _ rfl rfl rfl (by simp [h])⟩
  | noInfo h => exact ⟨pcs_upd i1 rfl rfl (fun g => g) trivial, keep _ rfl rfl rfl (by simp [h])⟩
  | other h hv => exact ⟨pcs_upd i1 rfl rfl (fun g => g) trivial, keep _ rfl rfl rfl (by simp [h])⟩
  | checked h hv hd => exact ⟨pcs_upd i1 rfl rfl (fun g => g) trivial, keep _ rfl rfl rfl (by simp [h])⟩
  | noHash h hh => exact ⟨pcs_upd i1 rfl rfl (fun g => g) trivial, keep _ rfl rfl rfl (by simp [h])⟩
  | read h hh =>
    refine ⟨pcs_upd i1 rfl rfl (fun g => g) ?_, keep _ rfl rfl rfl (by simp [h])⟩
    intro ht
    rcases i2 with ⟨q, r, n, hq⟩ | hm
    · have := i1 q; rw [hq] at this; exact this.2
    · intro b hb
      have := hm _ b hh (by rw [ht]; exact hP.length _) hb
      exact this.symm.trans ht
  | reuse h =>
    rw [h] at ip
    exact ⟨pcs_upd i1 rfl rfl (fun g => g) (ip rfl), keep _ rfl rfl rfl (by simp [h])⟩
  | plan h hn => exact ⟨pcs_upd i1 rfl rfl (fun g => g) rfl, keep _ rfl rfl rfl (by simp [h])⟩
  | @compile ver record n h =>
    rw [h] at ip
    have g : Good P { s with pc := setPC s.pc p (.built record n), cache := { s.cache with driver := .data ⟨s.src, ver⟩ } } := by
      intro b hb
      simp only [F.data.injEq] at hb
      rw [← hb]
    exact ⟨pcs_upd i1 rfl rfl (fun _ => g) ⟨ip, g⟩, .inl ⟨p, record, n, setPC_same ..⟩⟩
  | openHash h =>
    rw [h] at ip
    refine ⟨pcs_upd i1 rfl rfl (fun g => g) ⟨ip.1, ip.2⟩, .inr ?_⟩
    intro t b ht hl
    simp only [F.data.injEq] at ht
    rw [← ht] at hl
    exact absurd hl (by decide)
  | @writeHash record n h =>
    rw [h] at ip
    refine ⟨pcs_upd i1 rfl rfl (fun g => g) (by cases record <;> exact ip.2), .inr ?_⟩
    intro t b ht hl hb
    obtain ⟨v, -, hv⟩ := overwrite_length ht
    have hn : n.length = 56 := by rw [ip.1]; exact hP.length _
    have : v.drop n.length = [] := by
      apply List.eq_nil_of_length_eq_zero
      have := congrArg List.length hv
      rw [List.length_append] at this
      omega
    rw [hv, this, List.append_nil, ip.1]
    exact (ip.2 b hb).symm
  | openVersion h =>
    rw [h] at ip
    exact ⟨pcs_upd i1 rfl rfl (fun g => g) ip, keep _ rfl rfl rfl (by simp [h])⟩
  | writeVersion h =>
    rw [h] at ip
    exact ⟨pcs_upd i1 rfl rfl (fun g => g) ip, keep _ rfl rfl rfl (by simp [h])⟩
  | exec h hd => exact ⟨pcs_upd i1 rfl rfl (fun g => g) trivial, keep _ rfl rfl rfl (by simp [h])⟩
  | noExec h hd => exact ⟨pcs_upd i1 rfl rfl (fun g => g) trivial, keep _ rfl rfl rfl (by simp [h])⟩

theorem inv89_step {P : Params Info} (hP : P.Lawful) {s s' : M Info} {e : MEv Info} (hi : Inv89 P s) (hc : Calm89 s e)
    (hs : mstep P s e = some s') : Inv89 P s' := by
  cases e with
  | go p => exact inv89_go hP hi (go_cases hs)
  | edit src =>
    simp only [mstep, Option.some.injEq] at hs; subst hs
    have hid : ∀ p, s.pc p = .idle := fun p => Classical.byContradiction fun h => hc ⟨p, h⟩
    obtain ⟨i1, i2⟩ := hi
    refine ⟨fun p => by simp only [hid p]; trivial, ?_⟩
    rcases i2 with ⟨q, r, n, hq⟩ | hm
    · rw [hid q] at hq; cases hq
    · exact .inr hm
  | rmDriver =>
    simp only [mstep, Option.some.injEq] at hs; subst hs
    obtain ⟨i1, i2⟩ := hi
    have g : Good P { s with cache := { s.cache with driver := .absent } } := fun b hb => by simp at hb
    exact ⟨fun p => (i1 p).mono rfl fun _ => g, .inr fun t b _ _ hb => by simp at hb⟩
  | rmHash =>
    simp only [mstep, Option.some.injEq] at hs; subst hs
    obtain ⟨i1, i2⟩ := hi
    exact ⟨fun p => (i1 p).mono rfl fun g => g, .inr fun t b hh => by simp at hh⟩
  | rmVersion =>
    simp only [mstep, Option.some.injEq] at hs; subst hs
    obtain ⟨i1, i2⟩ := hi
    exact ⟨fun p => (i1 p).mono rfl fun g => g, i2⟩
  | start p force ver =>
    simp only [mstep] at hs
    split at hs
    · rename_i hp
      simp only [Option.some.injEq] at hs; subst hs
      obtain ⟨i1, i2⟩ := hi
      refine ⟨pcs_upd i1 rfl rfl (fun g => g) trivial, ?_⟩
      rcases i2 with ⟨q, r, n, hq⟩ | hm
      · refine .inl ⟨q, r, n, ?_⟩
        have : q ≠ p := by rintro rfl; rw [hp] at hq; cases hq
        simp only [setPC_ne _ _ this, hq]
      · exact .inr hm
    · cases hs
  | abort p =>
    simp only [mstep] at hs
    split at hs
    · cases hs
    · simp only [Option.some.injEq] at hs; subst hs
      obtain ⟨i1, i2⟩ := hi
      refine ⟨pcs_upd i1 rfl rfl (fun g => g) trivial, ?_⟩
      rcases i2 with ⟨q, r, n, hq⟩ | hm
      · refine .inl ⟨q, r, n, ?_⟩
        have : q ≠ p := by rintro rfl; exact hc r n hq
        simp only [setPC_ne _ _ this, hq]
      · exact .inr hm
  | abortIn p part =>
    simp only [mstep] at hs
    obtain ⟨i1, i2⟩ := hi
    have ip := i1 p
    cases hp : s.pc p with
    | truncated record n =>
      rw [hp] at hs ip
      simp only at hs
      split at hs
      · rename_i hpre
        simp only [Option.some.injEq] at hs; subst hs
        refine ⟨pcs_upd i1 rfl rfl (fun g => g) trivial, ?_⟩
        rcases i2 with ⟨q, r, n', hq⟩ | hm
        · refine .inl ⟨q, r, n', ?_⟩
          have : q ≠ p := by rintro rfl; rw [hp] at hq; cases hq
          simp only [setPC_ne _ _ this, hq]
        · refine .inr ?_
          intro t b ht hl hb
          have hn : n.length = 56 := by rw [ip.1]; exact hP.length _
          have hle := hpre.length_le
          obtain ⟨v, hv, hu⟩ := overwrite_length ht
          have hlen := congrArg List.length hu
          rw [List.length_append, List.length_drop] at hlen
          have gb : hashOf P b.src = n := (ip.2 b hb).trans ip.1.symm
          by_cases hfull : part.length = 56
          · have : part = n := hpre.eq_of_length (by omega)
            subst this
            have : v.drop part.length = [] := by
              apply List.eq_nil_of_length_eq_zero
              rw [List.length_drop]; omega
            rw [hu, this, List.append_nil, gb]
          · have hvl : v.length = 56 := by omega
            have hvn : v = n := (hm v b hv hvl hb).trans gb
            rw [hu, hvn, overwrite_part hpre, gb]
      · cases hs
    | emptied i =>
      rw [hp] at hs
      simp only at hs
      split at hs
      · simp only [Option.some.injEq] at hs; subst hs
        refine ⟨pcs_upd i1 rfl rfl (fun g => g) trivial, ?_⟩
        rcases i2 with ⟨q, r, n', hq⟩ | hm
        · refine .inl ⟨q, r, n', ?_⟩
          have : q ≠ p := by rintro rfl; rw [hp] at hq; cases hq
          simp only [setPC_ne _ _ this, hq]
        · exact .inr hm
      · cases hs
    | _ => rw [hp] at hs; cases hs

theorem inv89_hist {P : Params Info} (hP : P.Lawful) {s₀ s : M Info} (h₀ : Inv89 P s₀) (h : MHist P Calm89 s₀ s) : Inv89 P s := by
  induction h with
  | nil => exact h₀
  | snoc _ ho hs ih => exact inv89_step hP ih ho hs

/-- The process `p` executes the driver `b` in the step from `s` to `s'`. -/
def Executes (P : Params Info) (s : M Info) (p : Nat) (b : Build Info) (s' : M Info) : Prop :=
  mstep P s (.go p) = some s' ∧ s'.log = (p, b) :: s.log

theorem executes_ready {P : Params Info} {s s' : M Info} {p : Nat} {b : Build Info} (h : Executes P s p b s') : s.pc p = .ready ∧ s.cache.driver = .data b := by
  obtain ⟨h1, h2⟩ := h
  have hl : ∀ l : List (Nat × Build Info), l ≠ (p, b) :: l := fun l e => by simpa using congrArg List.length e
  cases go_cases h1 with
  | exec h hd =>
    simp only [List.cons.injEq, Prod.mk.injEq, true_and, and_true] at h2
    exact ⟨h, by rw [hd, h2]⟩
  | _ => exact absurd h2 (hl _)

/-- The hash file of the cache is not that of other sources than those of the driver. -/
def SoundCache (P : Params Info) (c : Cache Info) : Prop :=
  ∀ t b, c.hash = .data t → t.length = 56 → c.driver = .data b → t = hashOf P b.src

omit [DecidableEq Info] in
theorem inv89_quiet {P : Params Info} {src : Src} {c : Cache Info} (h : SoundCache P c) : Inv89 P (quiet src c) := ⟨fun _ => trivial, .inr h⟩

/-- **C89, partial.** Any number of fab processes, of any versions, with or without Force, started at any moments and interleaved in any way, with crashes and errors, and
removals of cache files: every driver that one of them executes was made from sources with the hash of those that are there at that moment.

What is missing: edits of the sources while a fab runs, and a crash or error between putting a driver into place and opening the hash file (see `Calm89`, and the
counterexamples below). -/
theorem C89_present_partial (P : Params Info) (hP : P.Lawful) (src : Src) (c : Cache Info) (hc : SoundCache P c) (s s' : M Info) (h : MHist P Calm89 (quiet src c) s)
    (p : Nat) (b : Build Info) (he : Executes P s p b s') : hashOf P b.src = hashOf P s.src := by
  obtain ⟨h1, h2⟩ := executes_ready he
  have := (inv89_hist hP (inv89_quiet hc) h).1 p
  rw [h1] at this
  exact this b h2

/-- ... and so from files with the same base names and contents, if there is no collision. -/
theorem C89_same_files_partial (P : Params Info) (hP : P.Lawful) (src : Src) (c : Cache Info) (hc : SoundCache P c) (s s' : M Info) (h : MHist P Calm89 (quiet src c) s)
    (p : Nat) (b : Build Info) (he : Executes P s p b s') (h1 : (b.src.map fun f => baseOf f.1).Nodup) (h2 : (s.src.map fun f => baseOf f.1).Nodup)
    (h3 : NoCollision P.sum P.sumText b.src s.src) (n : Str) (data : Bytes) :
    (∃ f ∈ b.src, baseOf f.1 = n ∧ f.2 = data) ↔ ∃ f ∈ s.src, baseOf f.1 = n ∧ f.2 = data :=
  C47_determines P.sum P.sumText h1 h2 h3 (C89_present_partial P hP src c hc s s' h p b he) n data

/-- **C89, partial.** When all is quiet again the cache is sound, so the same holds for what comes next. -/
theorem C89_sound_partial (P : Params Info) (hP : P.Lawful) (src : Src) (c : Cache Info) (hc : SoundCache P c) (s : M Info) (h : MHist P Calm89 (quiet src c) s)
    (hq : ¬ Busy s) : SoundCache P s.cache := by
  rcases (inv89_hist hP (inv89_quiet hc) h).2 with ⟨q, r, n, hq'⟩ | hm
  · exact absurd ⟨q, by rw [hq']; simp⟩ hq
  · exact hm

/-! ## Without edits, crashes do not matter -/

omit [DecidableEq Info] in
theorem inv89'_go {P : Params Info} {s s' : M Info} {p : Nat} (hi : Inv89' P s) (hs : Go P s p s') : Inv89' P s' := by
  obtain ⟨i1, i2⟩ := hi
  have ip := i1 p
  cases hs with
  | force h => exact ⟨pcs_upd i1 rfl rfl (fun g => g) trivial, i2⟩
  | absent h hd => exact ⟨pcs_upd i1 rfl rfl (fun g => g) trivial, i2⟩
  | failed h hx => exact ⟨pcs_upd i1 rfl rfl (fun g => g) trivial, i2⟩
  | found h hd => exact ⟨pcs_upd i1 rfl rfl (fun g => g) trivial, i2⟩
  | noInfo h => exact ⟨pcs_upd i1 rfl rfl (fun g => g) trivial, i2⟩
  | other h hv => exact ⟨pcs_upd i1 rfl rfl (fun g => g) trivial, i2⟩
  | checked h hv hd => exact ⟨pcs_upd i1 rfl rfl (fun g => g) trivial, i2⟩
  | noHash h hh => exact ⟨pcs_upd i1 rfl rfl (fun g => g) trivial, i2⟩
  | read h hh => exact ⟨pcs_upd i1 rfl rfl (fun g => g) (fun ht => i2 (by rw [hh, ht])), i2⟩
  | reuse h =>
    rw [h] at ip
    exact ⟨pcs_upd i1 rfl rfl (fun g => g) (ip rfl), i2⟩
  | plan h hn => exact ⟨pcs_upd i1 rfl rfl (fun g => g) rfl, i2⟩
  | @compile ver record n h =>
    rw [h] at ip
    have g : Good P { s with pc := setPC s.pc p (.built record n), cache := { s.cache with driver := .data ⟨s.src, ver⟩ } } := by
      intro b hb
      simp only [F.data.injEq] at hb
      rw [← hb]
    exact ⟨pcs_upd i1 rfl rfl (fun _ => g) ⟨ip, g⟩, fun _ => g⟩
  | openHash h =>
    rw [h] at ip
    exact ⟨pcs_upd i1 rfl rfl (fun g => g) ⟨ip.1, ip.2⟩, fun _ => ip.2⟩
  | @writeHash record n h =>
    rw [h] at ip
    exact ⟨pcs_upd i1 rfl rfl (fun g => g) (by cases record <;> exact ip.2), fun _ => ip.2⟩
  | openVersion h => rw [h] at ip; exact ⟨pcs_upd i1 rfl rfl (fun g => g) ip, i2⟩
  | writeVersion h => rw [h] at ip; exact ⟨pcs_upd i1 rfl rfl (fun g => g) ip, i2⟩
  | exec h hd => exact ⟨pcs_upd i1 rfl rfl (fun g => g) trivial, i2⟩
  | noExec h hd => exact ⟨pcs_upd i1 rfl rfl (fun g => g) trivial, i2⟩

theorem inv89'_step {P : Params Info} {s s' : M Info} {e : MEv Info} (hi : Inv89' P s) (hc : NoEdit s e)
    (hs : mstep P s e = some s') : Inv89' P s' := by
  have hi' := hi
  obtain ⟨i1, i2⟩ := hi
  cases e with
  | go p => exact inv89'_go hi' (go_cases hs)
  | edit src => exact hc.elim
  | rmDriver =>
    simp only [mstep, Option.some.injEq] at hs; subst hs
    have g : Good P { s with cache := { s.cache with driver := .absent } } := fun b hb => by simp at hb
    exact ⟨fun p => (i1 p).mono rfl fun _ => g, fun _ => g⟩
  | rmHash =>
    simp only [mstep, Option.some.injEq] at hs; subst hs
    exact ⟨fun p => (i1 p).mono rfl fun g => g, fun hh => by simp at hh⟩
  | rmVersion =>
    simp only [mstep, Option.some.injEq] at hs; subst hs
    exact ⟨fun p => (i1 p).mono rfl fun g => g, i2⟩
  | start p force ver =>
    simp only [mstep] at hs
    split at hs
    · simp only [Option.some.injEq] at hs; subst hs
      exact ⟨pcs_upd i1 rfl rfl (fun g => g) trivial, i2⟩
    · cases hs
  | abort p =>
    simp only [mstep] at hs
    split at hs
    · cases hs
    · simp only [Option.some.injEq] at hs; subst hs
      exact ⟨pcs_upd i1 rfl rfl (fun g => g) trivial, i2⟩
  | abortIn p part =>
    simp only [mstep] at hs
    have ip := i1 p
    cases hp : s.pc p with
    | truncated record n =>
      rw [hp] at hs ip
      simp only at hs
      split at hs
      · simp only [Option.some.injEq] at hs; subst hs
        exact ⟨pcs_upd i1 rfl rfl (fun g => g) trivial, fun _ => ip.2⟩
      · cases hs
    | emptied i =>
      rw [hp] at hs
      simp only at hs
      split at hs
      · simp only [Option.some.injEq] at hs; subst hs
        exact ⟨pcs_upd i1 rfl rfl (fun g => g) trivial, i2⟩
      · cases hs
    | _ => rw [hp] at hs; cases hs

/-- **C89.** If the sources are not edited, then from a sound cache, whatever processes of fab run, and wherever they are cut off, every driver that is executed was made from
sources with the hash of the present ones. -/
theorem C89_no_edit (P : Params Info) (hP : P.Lawful) (src : Src) (c : Cache Info) (hc : SoundCache P c) (s s' : M Info) (h : MHist P NoEdit (quiet src c) s)
    (p : Nat) (b : Build Info) (he : Executes P s p b s') : s.src = src ∧ hashOf P b.src = hashOf P src := by
  have key : Inv89' P s ∧ s.src = src := by
    clear he s'
    generalize hs₀ : quiet src c = s₀ at h
    induction h with
    | nil =>
      subst hs₀
      exact ⟨⟨fun _ => trivial, fun hh b hb => (hc _ b hh (hP.length _) hb).symm⟩, rfl⟩
    | @snoc s' s'' e _ ho hs ih =>
      have := ih
      refine ⟨inv89'_step this.1 ho hs, ?_⟩
      cases e with
      | edit => exact ho.elim
      | go p => cases go_cases hs <;> exact this.2
      | abortIn p part =>
        simp only [mstep] at hs
        split at hs
        · split at hs
          · simp only [Option.some.injEq] at hs; subst hs; exact this.2
          · cases hs
        · split at hs
          · simp only [Option.some.injEq] at hs; subst hs; exact this.2
          · cases hs
        · cases hs
      | start p f v =>
        simp only [mstep] at hs
        split at hs
        · simp only [Option.some.injEq] at hs; subst hs; exact this.2
        · cases hs
      | abort p =>
        simp only [mstep] at hs
        split at hs
        · cases hs
        · simp only [Option.some.injEq] at hs; subst hs; exact this.2
      | _ => simp only [mstep, Option.some.injEq] at hs; subst hs; exact this.2
  obtain ⟨h1, h2⟩ := executes_ready he
  have := key.1.1 p
  rw [h1] at this
  exact ⟨key.2, (this b h2).trans (by rw [key.2])⟩

/-! ## The fab that made the driver -/

/-- Every fab that is started has the build information `i`. -/
def OneFab (i : Info) (_ : M Info) : MEv Info → Prop
  | .start _ _ ver => ver = some i
  | _ => True

/-- the driver in place was made by the fab `i` -/
def MadeBy (i : Info) (s : M Info) : Prop := ∀ b, s.cache.driver = .data b → b.fab = some i

def PcFab (i : Info) (s : M Info) : PP Info → Prop
  | .idle => True
  | .begun _ v => v = some i
  | .found v => v = some i
  | .checked v => v = some i ∧ MadeBy i s
  | .hashing v r o => v = some i ∧ (∀ j, r = some j → j = i) ∧ (∀ t, o = some t → MadeBy i s)
  | .planned v r _ => v = some i ∧ (∀ j, r = some j → j = i)
  | .built r _ => (∀ j, r = some j → j = i) ∧ MadeBy i s
  | .truncated r _ => (∀ j, r = some j → j = i) ∧ MadeBy i s
  | .hashed j => j = i ∧ MadeBy i s
  | .emptied j => j = i ∧ MadeBy i s
  | .ready => MadeBy i s

def InvFab (P : Params Info) (i : Info) (s : M Info) : Prop :=
  (∀ p, PcFab i s (s.pc p)) ∧ (Says P s.cache i → MadeBy i s)

omit [DecidableEq Info] in
theorem PcFab.mono {i : Info} {s s' : M Info} {x : PP Info} (h : PcFab i s x) (hg : MadeBy i s → MadeBy i s') : PcFab i s' x := by
  cases x <;> simp_all [PcFab]

omit [DecidableEq Info] in
theorem fabs_upd {i : Info} {s s' : M Info} {p : Nat} {x : PP Info} (h : ∀ q, PcFab i s (s.pc q)) (hpc : s'.pc = setPC s.pc p x)
    (hg : MadeBy i s → MadeBy i s') (hx : PcFab i s' x) : ∀ q, PcFab i s' (s'.pc q) := by
  intro q
  rw [hpc]
  by_cases e : q = p
  · subst e; rw [setPC_same]; exact hx
  · rw [setPC_ne _ _ e]; exact (h q).mono hg

omit [DecidableEq Info] in
theorem invFab_go {P : Params Info} {i : Info} {s s' : M Info} {p : Nat} (hi : InvFab P i s) (hs : Go P s p s') : InvFab P i s' := by
  obtain ⟨i1, i2⟩ := hi
  have ip := i1 p
  cases hs with
  | force h => rw [h] at ip; exact ⟨fabs_upd i1 rfl (fun g => g) ⟨ip, by simp, by simp⟩, i2⟩
  | absent h hd => rw [h] at ip; exact ⟨fabs_upd i1 rfl (fun g => g) ⟨ip, by simp, by simp⟩, i2⟩
  | failed h hx => exact ⟨fabs_upd i1 rfl (fun g => g) trivial, i2⟩
  | found h hd => rw [h] at ip; exact ⟨fabs_upd i1 rfl (fun g => g) ip, i2⟩
  | noInfo h => rw [h] at ip; cases ip
  | other h hv => rw [h] at ip; cases ip; exact ⟨fabs_upd i1 rfl (fun g => g) ⟨rfl, by simp, by simp⟩, i2⟩
  | checked h hv hd => rw [h] at ip; cases ip; exact ⟨fabs_upd i1 rfl (fun g => g) ⟨rfl, i2 ⟨_, hv, hd⟩⟩, i2⟩
  | noHash h hh => rw [h] at ip; exact ⟨fabs_upd i1 rfl (fun g => g) ⟨ip.1, by simp, by simp⟩, i2⟩
  | read h hh => rw [h] at ip; exact ⟨fabs_upd i1 rfl (fun g => g) ⟨ip.1, by simp, fun _ _ => ip.2⟩, i2⟩
  | reuse h => rw [h] at ip; exact ⟨fabs_upd i1 rfl (fun g => g) (ip.2.2 _ rfl), i2⟩
  | plan h hn => rw [h] at ip; exact ⟨fabs_upd i1 rfl (fun g => g) ⟨ip.1, ip.2.1⟩, i2⟩
  | @compile ver record n h =>
    rw [h] at ip
    have g : MadeBy i { s with pc := setPC s.pc p (.built record n), cache := { s.cache with driver := .data ⟨s.src, ver⟩ } } := by
      intro b hb
      simp only [F.data.injEq] at hb
      rw [← hb]; exact ip.1
    exact ⟨fabs_upd i1 rfl (fun _ => g) ⟨ip.2, g⟩, fun _ => g⟩
  | openHash h => rw [h] at ip; exact ⟨fabs_upd i1 rfl (fun g => g) ⟨ip.1, ip.2⟩, i2⟩
  | @writeHash record n h =>
    rw [h] at ip
    refine ⟨fabs_upd i1 rfl (fun g => g) ?_, i2⟩
    cases record with
    | none => exact ip.2
    | some j => exact ⟨ip.1 j rfl, ip.2⟩
  | openVersion h => rw [h] at ip; exact ⟨fabs_upd i1 rfl (fun g => g) ⟨ip.1, ip.2⟩, fun _ => ip.2⟩
  | writeVersion h => rw [h] at ip; exact ⟨fabs_upd i1 rfl (fun g => g) ip.2, fun _ => ip.2⟩
  | exec h hd => exact ⟨fabs_upd i1 rfl (fun g => g) trivial, i2⟩
  | noExec h hd => exact ⟨fabs_upd i1 rfl (fun g => g) trivial, i2⟩

theorem invFab_step {P : Params Info} {i : Info} {s s' : M Info} {e : MEv Info} (hi : InvFab P i s) (hc : OneFab i s e)
    (hs : mstep P s e = some s') : InvFab P i s' := by
  have hi' := hi
  obtain ⟨i1, i2⟩ := hi
  cases e with
  | go p => exact invFab_go hi' (go_cases hs)
  | edit src => simp only [mstep, Option.some.injEq] at hs; subst hs; exact ⟨fun p => (i1 p).mono fun g => g, i2⟩
  | rmDriver =>
    simp only [mstep, Option.some.injEq] at hs; subst hs
    have g : MadeBy i { s with cache := { s.cache with driver := .absent } } := fun b hb => by simp at hb
    exact ⟨fun p => (i1 p).mono fun _ => g, fun _ => g⟩
  | rmHash => simp only [mstep, Option.some.injEq] at hs; subst hs; exact ⟨fun p => (i1 p).mono fun g => g, i2⟩
  | rmVersion =>
    simp only [mstep, Option.some.injEq] at hs; subst hs
    exact ⟨fun p => (i1 p).mono fun g => g, fun ⟨t, ht, _⟩ => by simp at ht⟩
  | start p force ver =>
    simp only [mstep] at hs
    split at hs
    · simp only [Option.some.injEq] at hs; subst hs
      exact ⟨fabs_upd i1 rfl (fun g => g) hc, i2⟩
    · cases hs
  | abort p =>
    simp only [mstep] at hs
    split at hs
    · cases hs
    · simp only [Option.some.injEq] at hs; subst hs
      exact ⟨fabs_upd i1 rfl (fun g => g) trivial, i2⟩
  | abortIn p part =>
    simp only [mstep] at hs
    have ip := i1 p
    cases hp : s.pc p with
    | truncated record n =>
      rw [hp] at hs ip
      simp only at hs
      split at hs
      · simp only [Option.some.injEq] at hs; subst hs
        exact ⟨fabs_upd i1 rfl (fun g => g) trivial, i2⟩
      · cases hs
    | emptied j =>
      rw [hp] at hs ip
      simp only at hs
      split at hs
      · simp only [Option.some.injEq] at hs; subst hs
        exact ⟨fabs_upd i1 rfl (fun g => g) trivial, fun _ => ip.2⟩
      · cases hs
    | _ => rw [hp] at hs; cases hs

/-- **C89.** If all the fab processes have the same build information, then whatever else happens (edits, crashes, removals, Force, any interleaving), every driver that is
executed was made by such a fab, if that was so in the beginning. -/
theorem C89_same_fab (P : Params Info) (i : Info) (src : Src) (c : Cache Info) (hc : ∀ b, c.driver = .data b → Says P c i → b.fab = some i)
    (s s' : M Info) (h : MHist P (OneFab i) (quiet src c) s) (p : Nat) (b : Build Info) (he : Executes P s p b s') : b.fab = some i := by
  have key : InvFab P i s := by
    clear he
    induction h with
    | nil => exact ⟨fun _ => trivial, fun hv b hb => hc b hb hv⟩
    | snoc _ ho hs ih => exact invFab_step ih ho hs
  obtain ⟨h1, h2⟩ := executes_ready he
  have := key.1 p
  rw [h1] at this
  exact this b h2

/-! ## Once they have finished, nothing needs to be compiled -/

/-- Runs of fab that have the build information `i`, without Force, and no disturbance. -/
def Plain (i : Info) (_ : M Info) : MEv Info → Prop
  | .start _ force ver => force = false ∧ ver = some i
  | .go _ => True
  | _ => False

/-- the process is going to write the build information -/
def PendV : PP Info → Prop
  | .hashing _ r _ | .planned _ r _ | .built r _ | .truncated r _ => r ≠ none
  | .hashed _ | .emptied _ => True
  | _ => False

/-- the process is going to write the hash -/
def PendH : PP Info → Prop
  | .planned _ _ _ | .built _ _ | .truncated _ _ => True
  | _ => False

def VOk (P : Params Info) (i : Info) (s : M Info) : Prop := Says P s.cache i ∨ ∃ p, PendV (s.pc p)
def HOk (P : Params Info) (src : Src) (s : M Info) : Prop := s.cache.hash = .data (hashOf P src) ∨ ∃ p, PendH (s.pc p)

/-- what is known of a process that is at `x` -/
def PcS (P : Params Info) (i : Info) (src : Src) (s : M Info) : PP Info → Prop
  | .idle => True
  | .begun f v => f = false ∧ v = some i
  | .found v => v = some i
  | .checked v => v = some i ∧ VOk P i s
  | .hashing v r o => v = some i ∧ (∀ j, r = some j → j = i) ∧ VOk P i s ∧ (o = some (hashOf P src) → HOk P src s) ∧ (o ≠ none → r = none)
  | .planned v r h => v = some i ∧ (∀ j, r = some j → j = i) ∧ VOk P i s ∧ h = hashOf P src
  | .built r h => (∀ j, r = some j → j = i) ∧ VOk P i s ∧ h = hashOf P src
  | .truncated r h => (∀ j, r = some j → j = i) ∧ VOk P i s ∧ h = hashOf P src ∧ (s.cache.hash = .data [] ∨ s.cache.hash = .data h)
  | .hashed j => j = i ∧ HOk P src s
  | .emptied j => j = i ∧ HOk P src s ∧ (s.cache.version = .data [] ∨ s.cache.version = .data (P.encode i))
  | .ready => VOk P i s ∧ HOk P src s

structure InvS (P : Params Info) (i : Info) (src : Src) (s : M Info) : Prop where
  srcs : s.src = src
  driver : ∃ b, s.cache.driver = .data b
  hash : s.cache.hash ≠ .broken
  version : s.cache.version ≠ .broken
  pcs : ∀ p, PcS P i src s (s.pc p)
  log : s.log ≠ [] → VOk P i s ∧ HOk P src s

omit [DecidableEq Info] in
theorem invS_upd {P : Params Info} {i : Info} {src : Src} {s s' : M Info} {p : Nat} {x : PP Info} (hi : InvS P i src s) (hpc : s'.pc = setPC s.pc p x)
    (hs : s'.src = s.src) (hd : ∃ b, s'.cache.driver = .data b) (hh : s'.cache.hash = s.cache.hash ∨ s'.cache.hash = .data [] ∨ s'.cache.hash = .data (hashOf P src))
    (hv : s'.cache.version = s.cache.version ∨ s'.cache.version = .data [] ∨ s'.cache.version = .data (P.encode i))
    (v : VOk P i s → VOk P i s') (w : HOk P src s → HOk P src s') (hl : s'.log ≠ [] → s.log = [] → VOk P i s' ∧ HOk P src s') (hx : PcS P i src s' x) : InvS P i src s' := by
  refine ⟨hs.trans hi.srcs, hd, ?_, ?_, ?_, ?_⟩
  · rcases hh with h | h | h <;> rw [h]
    · exact hi.hash
    · simp
    · simp
  · rcases hv with h | h | h <;> rw [h]
    · exact hi.version
    · simp
    · simp
  · intro q
    rw [hpc]
    by_cases e : q = p
    · subst e; rw [setPC_same]; exact hx
    · rw [setPC_ne _ _ e]
      have hq := hi.pcs q
      revert hq
      cases s.pc q with
      | idle => exact fun _ => trivial
      | begun => exact id
      | found => exact id
      | checked => exact fun h => ⟨h.1, v h.2⟩
      | hashing => exact fun h => ⟨h.1, h.2.1, v h.2.2.1, fun e => w (h.2.2.2.1 e), h.2.2.2.2⟩
      | planned => exact fun h => ⟨h.1, h.2.1, v h.2.2.1, h.2.2.2⟩
      | built => exact fun h => ⟨h.1, v h.2.1, h.2.2⟩
      | truncated r n =>
        intro h
        refine ⟨h.1, v h.2.1, h.2.2.1, ?_⟩
        rcases hh with e | e | e
        · rw [e]; exact h.2.2.2
        · exact .inl e
        · exact .inr (by rw [e, h.2.2.1])
      | hashed => exact fun h => ⟨h.1, w h.2⟩
      | emptied j =>
        intro h
        refine ⟨h.1, w h.2.1, ?_⟩
        rcases hv with e | e | e
        · rw [e]; exact h.2.2
        · exact .inl e
        · exact .inr e
      | ready => exact fun h => ⟨v h.1, w h.2⟩
  · intro h
    by_cases e : s.log = []
    · exact hl h e
    · exact ⟨v (hi.log e).1, w (hi.log e).2⟩

omit [DecidableEq Info] in
theorem vok_keep {P : Params Info} {i : Info} {s s' : M Info} {p : Nat} {x : PP Info} (hpc : s'.pc = setPC s.pc p x) (hv : s'.cache.version = s.cache.version)
    (hx : PendV (s.pc p) → PendV x) (h : VOk P i s) : VOk P i s' := by
  rcases h with h | ⟨q, h⟩
  · left; unfold Says at *; rw [hv]; exact h
  · refine .inr ⟨q, ?_⟩
    rw [hpc]
    by_cases e : q = p
    · subst e; rw [setPC_same]; exact hx h
    · rw [setPC_ne _ _ e]; exact h

omit [DecidableEq Info] in
theorem hok_keep {P : Params Info} {src : Src} {s s' : M Info} {p : Nat} {x : PP Info} (hpc : s'.pc = setPC s.pc p x) (hv : s'.cache.hash = s.cache.hash)
    (hx : PendH (s.pc p) → PendH x) (h : HOk P src s) : HOk P src s' := by
  rcases h with h | ⟨q, h⟩
  · left; rw [hv]; exact h
  · refine .inr ⟨q, ?_⟩
    rw [hpc]
    by_cases e : q = p
    · subst e; rw [setPC_same]; exact hx h
    · rw [setPC_ne _ _ e]; exact h

omit [DecidableEq Info] in
theorem pend_same {s' : M Info} {pc : Nat → PP Info} {p : Nat} {x : PP Info} {Q : PP Info → Prop} (hpc : s'.pc = setPC pc p x) (h : Q x) : ∃ q, Q (s'.pc q) :=
  ⟨p, by rw [hpc, setPC_same]; exact h⟩

omit [DecidableEq Info] in
theorem overwrite_two {o : F Str} {t : Str} (h : o = .data [] ∨ o = .data t) : overwrite o t = .data t := by
  rcases h with rfl | rfl <;> simp [overwrite]

omit [DecidableEq Info] in
theorem invS_go {P : Params Info} (hP : P.Lawful) {i : Info} {src : Src} {s s' : M Info} {p : Nat} (hi : InvS P i src s) (hs : Go P s p s') : InvS P i src s' := by
  have ip := hi.pcs p
  have nolog : ∀ {Q : Prop}, s.log ≠ [] → s.log = [] → Q := fun h1 h2 => absurd h2 h1
  cases hs with
  | force h => rw [h] at ip; cases ip.1
  | absent h hd => obtain ⟨b, hb⟩ := hi.driver; rw [hb] at hd; cases hd
  | failed h hx =>
    obtain ⟨b, hb⟩ := hi.driver
    rcases hx with ⟨_, e⟩ | ⟨_, e⟩ | ⟨_, e⟩
    · rw [hb] at e; cases e
    · exact absurd e hi.version
    · exact absurd e hi.hash
  | found h hd =>
    rw [h] at ip
    exact invS_upd hi rfl rfl hi.driver (.inl rfl) (.inl rfl) (vok_keep rfl rfl (by simp [h, PendV])) (hok_keep rfl rfl (by simp [h, PendH])) nolog ip.2
  | noInfo h => rw [h] at ip; cases ip
  | @other j h hv =>
    rw [h] at ip; cases ip
    have v : VOk P i { s with pc := setPC s.pc p (.hashing (some i) (some i) none) } := .inr (pend_same rfl (by simp [PendV]))
    exact invS_upd hi rfl rfl hi.driver (.inl rfl) (.inl rfl) (fun _ => v) (hok_keep rfl rfl (by simp [h, PendH])) nolog ⟨rfl, by simp, v, by simp, by simp⟩
  | checked h hv hd =>
    rw [h] at ip; cases ip
    exact invS_upd hi rfl rfl hi.driver (.inl rfl) (.inl rfl) (vok_keep rfl rfl (by simp [h, PendV])) (hok_keep rfl rfl (by simp [h, PendH])) nolog ⟨rfl, .inl ⟨_, hv, hd⟩⟩
  | @noHash ver h hh =>
    rw [h] at ip
    have v := vok_keep (P := P) (i := i) (s := s) (s' := { s with pc := setPC s.pc p (.hashing ver none none) }) rfl rfl (by simp [h, PendV])
    exact invS_upd hi rfl rfl hi.driver (.inl rfl) (.inl rfl) v (hok_keep rfl rfl (by simp [h, PendH])) nolog ⟨ip.1, by simp, v ip.2, by simp, by simp⟩
  | @read ver t h hh =>
    rw [h] at ip
    have v := vok_keep (P := P) (i := i) (s := s) (s' := { s with pc := setPC s.pc p (.hashing ver none (some t)) }) rfl rfl (by simp [h, PendV])
    exact invS_upd hi rfl rfl hi.driver (.inl rfl) (.inl rfl) v (hok_keep rfl rfl (by simp [h, PendH])) nolog
      ⟨ip.1, by simp, v ip.2, fun e => .inl (by simp only [Option.some.injEq] at e; simp only [hh, e]), fun _ => rfl⟩
  | @reuse ver record h =>
    rw [h] at ip
    have hrn : record = none := ip.2.2.2.2 (by simp)
    have v := vok_keep (P := P) (i := i) (s := s) (s' := { s with pc := setPC s.pc p .ready }) rfl rfl (by simp [h, PendV, hrn])
    have w := hok_keep (P := P) (src := src) (s := s) (s' := { s with pc := setPC s.pc p .ready }) rfl rfl (by simp [h, PendH])
    exact invS_upd hi rfl rfl hi.driver (.inl rfl) (.inl rfl) v w nolog ⟨v ip.2.2.1, w (ip.2.2.2.1 (by rw [hi.srcs]))⟩
  | @plan ver record old h hn =>
    rw [h] at ip
    have v := vok_keep (P := P) (i := i) (s := s) (s' := { s with pc := setPC s.pc p (.planned ver record (hashOf P s.src)) }) rfl rfl (by simp [h, PendV])
    exact invS_upd hi rfl rfl hi.driver (.inl rfl) (.inl rfl) v (hok_keep rfl rfl (by simp [h, PendH])) nolog ⟨ip.1, ip.2.1, v ip.2.2.1, by rw [hi.srcs]⟩
  | @compile ver record n h =>
    rw [h] at ip
    have v := vok_keep (P := P) (i := i) (s := s) (s' := { s with pc := setPC s.pc p (.built record n), cache := { s.cache with driver := .data ⟨s.src, ver⟩ } }) rfl rfl
      (by simp [h, PendV])
    exact invS_upd hi rfl rfl ⟨_, rfl⟩ (.inl rfl) (.inl rfl) v (hok_keep rfl rfl (by simp [h, PendH])) nolog ⟨ip.2.1, v ip.2.2.1, ip.2.2.2⟩
  | @openHash record n h =>
    rw [h] at ip
    have v := vok_keep (P := P) (i := i) (s := s) (s' := { s with pc := setPC s.pc p (.truncated record n), cache := { s.cache with hash := .data [] } }) rfl rfl
      (by simp [h, PendV])
    exact invS_upd hi rfl rfl hi.driver (.inr (.inl rfl)) (.inl rfl) v (fun _ => .inr (pend_same rfl trivial)) nolog ⟨ip.1, v ip.2.1, ip.2.2, .inl rfl⟩
  | @writeHash record n h =>
    rw [h] at ip
    obtain ⟨i1, i2, rfl, i4⟩ := ip
    have e : overwrite s.cache.hash (hashOf P src) = .data (hashOf P src) := overwrite_two i4
    have v := vok_keep (P := P) (i := i) (s := s) (s' := { s with pc := setPC s.pc p (afterHash record), cache := { s.cache with hash := overwrite s.cache.hash (hashOf P src) } }) rfl rfl
      (by cases record <;> simp [h, PendV, afterHash])
    have w : HOk P src { s with pc := setPC s.pc p (afterHash record), cache := { s.cache with hash := overwrite s.cache.hash (hashOf P src) } } := .inl e
    refine invS_upd hi rfl rfl hi.driver (.inr (.inr e)) (.inl rfl) v (fun _ => w) nolog ?_
    cases record with
    | none => exact ⟨v i2, w⟩
    | some j => exact ⟨i1 j rfl, w⟩
  | @openVersion j h =>
    rw [h] at ip
    have v : VOk P i { s with pc := setPC s.pc p (.emptied j), cache := { s.cache with version := .data [] } } := .inr (pend_same rfl trivial)
    have w := hok_keep (P := P) (src := src) (s := s) (s' := { s with pc := setPC s.pc p (.emptied j), cache := { s.cache with version := .data [] } }) rfl rfl (by simp [h, PendH])
    exact invS_upd hi rfl rfl hi.driver (.inl rfl) (.inr (.inl rfl)) (fun _ => v) w nolog ⟨ip.1, w ip.2, .inl rfl⟩
  | @writeVersion j h =>
    rw [h] at ip
    obtain ⟨rfl, i2, i3⟩ := ip
    have e : overwrite s.cache.version (P.encode j) = .data (P.encode j) := overwrite_two i3
    have v : VOk P j { s with pc := setPC s.pc p .ready, cache := { s.cache with version := overwrite s.cache.version (P.encode j) } } := .inl ⟨_, e, hP.roundTrip j⟩
    have w := hok_keep (P := P) (src := src) (s := s) (s' := { s with pc := setPC s.pc p .ready, cache := { s.cache with version := overwrite s.cache.version (P.encode j) } }) rfl rfl
      (by simp [h, PendH])
    exact invS_upd hi rfl rfl hi.driver (.inl rfl) (.inr (.inr e)) (fun _ => v) w nolog ⟨v, w i2⟩
  | @exec b h hd =>
    rw [h] at ip
    have v := vok_keep (P := P) (i := i) (s := s) (s' := { s with pc := setPC s.pc p .idle, log := (p, b) :: s.log }) rfl rfl (by simp [h, PendV])
    have w := hok_keep (P := P) (src := src) (s := s) (s' := { s with pc := setPC s.pc p .idle, log := (p, b) :: s.log }) rfl rfl (by simp [h, PendH])
    exact invS_upd hi rfl rfl hi.driver (.inl rfl) (.inl rfl) v w (fun _ _ => ⟨v ip.1, w ip.2⟩) trivial
  | noExec h hd => obtain ⟨b, hb⟩ := hi.driver; exact absurd hb (hd b)

theorem invS_hist {P : Params Info} (hP : P.Lawful) {i : Info} {s₀ s : M Info} (h₀ : InvS P i s₀.src s₀) (h : MHist P (Plain i) s₀ s) : InvS P i s₀.src s := by
  induction h with
  | nil => exact h₀
  | @snoc s s' e _ ho hs ih =>
    cases e with
    | go p => exact invS_go hP ih (go_cases hs)
    | start p force ver =>
      simp only [mstep] at hs
      split at hs
      · rename_i hp
        simp only [Option.some.injEq] at hs; subst hs
        exact invS_upd ih rfl rfl ih.driver (.inl rfl) (.inl rfl) (vok_keep rfl rfl (by simp [hp, PendV])) (hok_keep rfl rfl (by simp [hp, PendH]))
          (fun h1 h2 => absurd h2 h1) ho
      · cases hs
    | _ => exact ho.elim

/-- **C89, partial.** There is a driver (of whatever sources and fab), and any number of fab processes run without Force and without disturbance, interleaved in any way.
When they have finished, everything is up to date: the next fab compiles nothing.

What is missing: that there was a driver.  The first run never records the build information (C49), so without one the second run, or the second batch of runs, compiles
again, as `C89_first` and `C49_counterexample_second_run` show. -/
theorem C89_settles_partial (P : Params Info) (hP : P.Lawful) (i : Info) (src : Src) (c : Cache Info) (hd : ∃ b, c.driver = .data b) (hh : c.hash ≠ .broken)
    (hv : c.version ≠ .broken) (s : M Info) (h : MHist P (Plain i) (quiet src c) s) (hq : ¬ Busy s) (hl : s.log ≠ []) :
    s.src = src ∧ (plan P false (some i) s.cache s.src).1 = .reuse := by
  have inv := invS_hist hP (s₀ := quiet src c) ⟨rfl, hd, hh, hv, fun _ => trivial, fun h => absurd rfl h⟩ h
  have hid : ∀ p, s.pc p = .idle := fun p => Classical.byContradiction fun h => hq ⟨p, h⟩
  obtain ⟨v, w⟩ := inv.log hl
  refine ⟨inv.srcs, (C48_reuse ..).2 ⟨rfl, inv.driver, ?_, ?_⟩⟩
  · rcases v with ⟨t, h1, h2⟩ | ⟨p, hp⟩
    · exact ⟨i, t, rfl, h1, h2⟩
    · rw [hid p] at hp; exact hp.elim
  · rcases w with h1 | ⟨p, hp⟩
    · rw [h1, inv.srcs]
    · rw [hid p] at hp; exact hp.elim

/-- nothing is broken, and a process that found a driver, or has made one, can execute it -/
structure InvN (P : Params Info) (s : M Info) : Prop where
  driver : s.cache.driver ≠ .broken
  hash : s.cache.hash ≠ .broken
  version : s.cache.version ≠ .broken
  there : ∀ p, s.pc p = .idle ∨ (∃ f v, s.pc p = .begun f v) ∨ (∃ v r, s.pc p = .hashing v r none) ∨ (∃ v r h, s.pc p = .planned v r h) ∨ ∃ b, s.cache.driver = .data b
  log : s.log ≠ [] → ∃ b, s.cache.driver = .data b

omit [DecidableEq Info] in
theorem invN_upd {P : Params Info} {s s' : M Info} {p : Nat} {x : PP Info} (hi : InvN P s) (hpc : s'.pc = setPC s.pc p x)
    (hd : s'.cache.driver = s.cache.driver ∨ ∃ b, s'.cache.driver = .data b) (hh : s'.cache.hash = s.cache.hash ∨ s'.cache.hash ≠ .broken)
    (hv : s'.cache.version = s.cache.version ∨ s'.cache.version ≠ .broken) (hl : s'.log = s.log ∨ ∃ b, s'.cache.driver = .data b)
    (hx : x = .idle ∨ (∃ f v, x = .begun f v) ∨ (∃ v r, x = .hashing v r none) ∨ (∃ v r h, x = .planned v r h) ∨ ∃ b, s'.cache.driver = .data b) : InvN P s' := by
  have mono : (∃ b, s.cache.driver = .data b) → ∃ b, s'.cache.driver = .data b := by
    intro h
    rcases hd with e | e
    · rw [e]; exact h
    · exact e
  refine ⟨?_, ?_, ?_, ?_, ?_⟩
  · rcases hd with e | ⟨b, e⟩
    · rw [e]; exact hi.driver
    · rw [e]; simp
  · rcases hh with e | e
    · rw [e]; exact hi.hash
    · exact e
  · rcases hv with e | e
    · rw [e]; exact hi.version
    · exact e
  · intro q
    rw [hpc]
    by_cases e : q = p
    · subst e; rw [setPC_same]; exact hx
    · rw [setPC_ne _ _ e]
      rcases hi.there q with h | h | h | h | h
      · exact .inl h
      · exact .inr (.inl h)
      · exact .inr (.inr (.inl h))
      · exact .inr (.inr (.inr (.inl h)))
      · exact .inr (.inr (.inr (.inr (mono h))))
  · rcases hl with e | e
    · rw [e]; exact fun h => mono (hi.log h)
    · exact fun _ => e

omit [DecidableEq Info] in
theorem overwrite_broken {o : F Str} {t : Str} (h : o ≠ .broken) : overwrite o t ≠ .broken := by
  cases o <;> simp_all [overwrite]

omit [DecidableEq Info] in
theorem invN_go {P : Params Info} {s s' : M Info} {p : Nat} (hi : InvN P s) (hs : Go P s p s') : InvN P s' := by
  have th := hi.there p
  have there : ∀ {x}, s.pc p = x → x ≠ .idle → (∀ f v, x ≠ .begun f v) → (∀ v r, x ≠ .hashing v r none) → (∀ v r h, x ≠ .planned v r h) → ∃ b, s.cache.driver = .data b := by
    intro x hx h1 h2 h3 h4
    rw [hx] at th
    rcases th with h | ⟨_, _, h⟩ | ⟨_, _, h⟩ | ⟨_, _, _, h⟩ | h
    · exact absurd h h1
    · exact absurd h (h2 _ _)
    · exact absurd h (h3 _ _)
    · exact absurd h (h4 _ _ _)
    · exact h
  cases hs with
  | force h => exact invN_upd hi rfl (.inl rfl) (.inl rfl) (.inl rfl) (.inl rfl) (.inr (.inr (.inl ⟨_, _, rfl⟩)))
  | absent h hd => exact invN_upd hi rfl (.inl rfl) (.inl rfl) (.inl rfl) (.inl rfl) (.inr (.inr (.inl ⟨_, _, rfl⟩)))
  | failed h hx => exact invN_upd hi rfl (.inl rfl) (.inl rfl) (.inl rfl) (.inl rfl) (.inl rfl)
  | found h hd => exact invN_upd hi rfl (.inl rfl) (.inl rfl) (.inl rfl) (.inl rfl) (.inr (.inr (.inr (.inr ⟨_, hd⟩))))
  | noInfo h => exact invN_upd hi rfl (.inl rfl) (.inl rfl) (.inr (by simp)) (.inl rfl) (.inr (.inr (.inl ⟨_, _, rfl⟩)))
  | other h hv => exact invN_upd hi rfl (.inl rfl) (.inl rfl) (.inl rfl) (.inl rfl) (.inr (.inr (.inl ⟨_, _, rfl⟩)))
  | checked h hv hd =>
    exact invN_upd hi rfl (.inl rfl) (.inl rfl) (.inl rfl) (.inl rfl) (.inr (.inr (.inr (.inr (there h (by simp) (by simp) (by simp) (by simp))))))
  | noHash h hh => exact invN_upd hi rfl (.inl rfl) (.inl rfl) (.inl rfl) (.inl rfl) (.inr (.inr (.inl ⟨_, _, rfl⟩)))
  | read h hh => exact invN_upd hi rfl (.inl rfl) (.inl rfl) (.inl rfl) (.inl rfl) (.inr (.inr (.inr (.inr (there h (by simp) (by simp) (by simp) (by simp))))))
  | reuse h => exact invN_upd hi rfl (.inl rfl) (.inl rfl) (.inl rfl) (.inl rfl) (.inr (.inr (.inr (.inr (there h (by simp) (by simp) (by simp) (by simp))))))
  | plan h hn => exact invN_upd hi rfl (.inl rfl) (.inl rfl) (.inl rfl) (.inl rfl) (.inr (.inr (.inr (.inl ⟨_, _, _, rfl⟩))))
  | compile h => exact invN_upd hi rfl (.inr ⟨_, rfl⟩) (.inl rfl) (.inl rfl) (.inl rfl) (.inr (.inr (.inr (.inr ⟨_, rfl⟩))))
  | openHash h =>
    exact invN_upd hi rfl (.inl rfl) (.inr (by simp)) (.inl rfl) (.inl rfl) (.inr (.inr (.inr (.inr (there h (by simp) (by simp) (by simp) (by simp))))))
  | writeHash h =>
    exact invN_upd hi rfl (.inl rfl) (.inr (overwrite_broken hi.hash)) (.inl rfl) (.inl rfl) (.inr (.inr (.inr (.inr (there h (by simp) (by simp) (by simp) (by simp))))))
  | openVersion h =>
    exact invN_upd hi rfl (.inl rfl) (.inl rfl) (.inr (by simp)) (.inl rfl) (.inr (.inr (.inr (.inr (there h (by simp) (by simp) (by simp) (by simp))))))
  | writeVersion h =>
    exact invN_upd hi rfl (.inl rfl) (.inl rfl) (.inr (overwrite_broken hi.version)) (.inl rfl) (.inr (.inr (.inr (.inr (there h (by simp) (by simp) (by simp) (by simp))))))
  | exec h hd => exact invN_upd hi rfl (.inl rfl) (.inl rfl) (.inl rfl) (.inr ⟨_, hd⟩) (.inl rfl)
  | noExec h hd => exact invN_upd hi rfl (.inl rfl) (.inl rfl) (.inl rfl) (.inl rfl) (.inl rfl)

/-- No disturbance: processes are started, in whatever way, and they go on. -/
def Undisturbed (_ : M Info) : MEv Info → Prop
  | .start _ _ _ => True
  | .go _ => True
  | .edit _ => True
  | _ => False

theorem invN_hist {P : Params Info} {s₀ s : M Info} (h₀ : InvN P s₀) (h : MHist P Undisturbed s₀ s) : InvN P s := by
  induction h with
  | nil => exact h₀
  | @snoc s s' e _ ho hs ih =>
    cases e with
    | go p => exact invN_go ih (go_cases hs)
    | edit src => simp only [mstep, Option.some.injEq] at hs; subst hs; exact ⟨ih.driver, ih.hash, ih.version, ih.there, ih.log⟩
    | start p force ver =>
      simp only [mstep] at hs
      split at hs
      · simp only [Option.some.injEq] at hs; subst hs
        exact invN_upd ih rfl (.inl rfl) (.inl rfl) (.inl rfl) (.inl rfl) (.inr (.inl ⟨_, _, rfl⟩))
      · cases hs
    | _ => exact ho.elim

/-- The files of the cache can be read, if they exist. -/
def Readable (c : Cache Info) : Prop := c.driver ≠ .broken ∧ c.hash ≠ .broken ∧ c.version ≠ .broken

omit [DecidableEq Info] in
theorem invN_quiet {P : Params Info} {src : Src} {c : Cache Info} (h : Readable c) : InvN P (quiet src c) :=
  ⟨h.1, h.2.1, h.2.2, fun _ => .inl rfl, fun h => absurd rfl h⟩

/-- **C89.** No process disturbs another one: unless a compilation fails, a cache file is removed or cannot be read, or a process is cut off, every process that ends has
executed a driver.  (The sources may be edited here.) -/
theorem C89_executes (P : Params Info) (src : Src) (c : Cache Info) (hc : Readable c) (s s' : M Info) (h : MHist P Undisturbed (quiet src c) s) (p : Nat)
    (hs : mstep P s (.go p) = some s') (hend : s'.pc p = .idle) : ∃ b, Executes P s p b s' := by
  have inv := invN_hist (invN_quiet hc) h
  have hs' := hs
  cases go_cases hs with
  | exec h hd => exact ⟨_, hs', rfl⟩
  | failed h hx =>
    rcases hx with ⟨_, e⟩ | ⟨_, e⟩ | ⟨_, e⟩
    · exact absurd e inv.driver
    · exact absurd e inv.version
    · exact absurd e inv.hash
  | noExec h hd =>
    rcases inv.there p with e | ⟨_, _, e⟩ | ⟨_, _, e⟩ | ⟨_, _, _, e⟩ | ⟨b, e⟩
    · rw [h] at e; cases e
    · rw [h] at e; cases e
    · rw [h] at e; cases e
    · rw [h] at e; cases e
    · exact absurd e (hd b)
  | @writeHash record n h => simp only [setPC_same] at hend; cases record <;> simp [afterHash] at hend
  | _ => simp only [setPC_same] at hend; cases hend

/-- **C89.** After the first processes have finished there is a driver, so the hypotheses of `C89_settles_partial` are met for the next ones. -/
theorem C89_first (P : Params Info) (src : Src) (c : Cache Info) (hc : Readable c) (s : M Info) (h : MHist P Undisturbed (quiet src c) s) (hl : s.log ≠ []) :
    (∃ b, s.cache.driver = .data b) ∧ s.cache.hash ≠ .broken ∧ s.cache.version ≠ .broken :=
  have inv := invN_hist (invN_quiet hc) h
  ⟨inv.log hl, inv.hash, inv.version⟩

/-! ## No process waits for another -/

/-- How many operations a process has still to do, at most. -/
def rank : PP Info → Nat
  | .idle => 0
  | .ready => 1
  | .emptied _ => 2
  | .hashed _ => 3
  | .truncated _ _ => 4
  | .built _ _ => 5
  | .planned _ _ _ => 6
  | .hashing _ _ _ => 7
  | .checked _ => 8
  | .found _ => 9
  | .begun _ _ => 10

/-- **C89.** A process never waits: whatever the others have done, it can do its next operation, it comes nearer to its end by it, and it is done after at most ten; and
it does not move the others. -/
theorem C89_no_waiting (P : Params Info) (s : M Info) (p : Nat) (h : s.pc p ≠ .idle) :
    ∃ s', mstep P s (.go p) = some s' ∧ rank (s'.pc p) < rank (s.pc p) ∧ rank (s.pc p) ≤ 10 ∧ ∀ q, q ≠ p → s'.pc q = s.pc q := by
  have hb : rank (s.pc p) ≤ 10 := by cases s.pc p <;> simp [rank]
  have ex : ∃ s', mstep P s (.go p) = some s' := by
    simp only [mstep, goStep]
    cases hp : s.pc p with
    | idle => exact absurd hp h
    | begun f v => cases f <;> cases s.cache.driver <;> simp
    | found v =>
      simp only
      rcases checkVersion P v s.cache.version with _ | ⟨_ | _, r, x⟩ <;> simp
    | checked v => cases s.cache.hash <;> simp
    | hashing v r o => simp only; split <;> simp
    | ready => cases s.cache.driver <;> simp
    | _ => simp
  obtain ⟨s', hs⟩ := ex
  refine ⟨s', hs, ?_, hb, ?_⟩
  · cases go_cases hs with
    | @writeHash record n h => simp only [setPC_same, h]; cases record <;> simp [afterHash, rank]
    | failed h hx => simp only [setPC_same, h]; rcases hx with ⟨e, _⟩ | ⟨e, _⟩ | ⟨e, _⟩ <;> simp [e, rank]
    | force h => simp only [setPC_same, h, rank]; omega
    | absent h => simp only [setPC_same, h, rank]; omega
    | found h => simp only [setPC_same, h, rank]; omega
    | noInfo h => simp only [setPC_same, h, rank]; omega
    | other h => simp only [setPC_same, h, rank]; omega
    | checked h => simp only [setPC_same, h, rank]; omega
    | noHash h => simp only [setPC_same, h, rank]; omega
    | read h => simp only [setPC_same, h, rank]; omega
    | reuse h => simp only [setPC_same, h, rank]; omega
    | plan h => simp only [setPC_same, h, rank]; omega
    | compile h => simp only [setPC_same, h, rank]; omega
    | openHash h => simp only [setPC_same, h, rank]; omega
    | openVersion h => simp only [setPC_same, h, rank]; omega
    | writeVersion h => simp only [setPC_same, h, rank]; omega
    | exec h => simp only [setPC_same, h, rank]; omega
    | noExec h => simp only [setPC_same, h, rank]; omega
  · intro q hq
    cases go_cases hs <;> exact setPC_ne _ _ hq

/-! ## A process alone -/

omit [DecidableEq Info] in
theorem setPC_setPC (pc : Nat → PP Info) (p : Nat) (x y : PP Info) : setPC (setPC pc p x) p y = setPC pc p y := by
  funext q; unfold setPC; split <;> rfl

omit [DecidableEq Info] in
theorem setPC_idle {pc : Nat → PP Info} {p : Nat} (h : pc p = .idle) : setPC pc p .idle = pc := by
  funext q; unfold setPC; split
  · rename_i e; rw [e, h]
  · rfl

theorem msteps_cons {P : Params Info} {s s' s'' : M Info} {e : MEv Info} {es : List (MEv Info)} (h : mstep P s e = some s') (h' : msteps P s' es = some s'') :
    msteps P s (e :: es) = some s'' := by
  simp only [msteps, h, Option.bind_some, h']

theorem msteps_append {P : Params Info} {s s' s'' : M Info} {es fs : List (MEv Info)} (h : msteps P s es = some s') (h' : msteps P s' fs = some s'') :
    msteps P s (es ++ fs) = some s'' := by
  induction es generalizing s with
  | nil => simp only [msteps, Option.some.injEq] at h; subst h; exact h'
  | cons e es ih =>
    simp only [msteps] at h
    cases he : mstep P s e with
    | none => simp [he] at h
    | some t => simp only [he, Option.bind_some] at h; exact msteps_cons he (ih h)

/-- `k` operations of one process lead from `s` to `s'` -/
def Does (P : Params Info) (p : Nat) (k : Nat) (s s' : M Info) : Prop := msteps P s (List.replicate k (.go p)) = some s'

theorem Does.cons {P : Params Info} {p k : Nat} {s s' s'' : M Info} (h : mstep P s (.go p) = some s') (h' : Does P p k s' s'') : Does P p (k + 1) s s'' := msteps_cons h h'
theorem Does.zero {P : Params Info} {p : Nat} {s : M Info} : Does P p 0 s s := rfl

theorem Does.append {P : Params Info} {p k k' : Nat} {s s' s'' : M Info} (h : Does P p k s s') (h' : Does P p k' s' s'') : Does P p (k + k') s s'' := by
  unfold Does; rw [List.replicate_add]; exact msteps_append h h'

theorem do_start {P : Params Info} {s : M Info} {p : Nat} (force : Bool) (ver : Option Info) (h : s.pc p = .idle) :
    mstep P s (.start p force ver) = some { s with pc := setPC s.pc p (.begun force ver) } := by simp only [mstep, h, if_true]

theorem do_force {P : Params Info} {s : M Info} {p : Nat} {ver : Option Info} (h : s.pc p = .begun true ver) :
    mstep P s (.go p) = some { s with pc := setPC s.pc p (.hashing ver none none) } := by simp only [mstep, goStep, h, if_true]
theorem do_absent {P : Params Info} {s : M Info} {p : Nat} {ver : Option Info} (h : s.pc p = .begun false ver) (hd : s.cache.driver = .absent) :
    mstep P s (.go p) = some { s with pc := setPC s.pc p (.hashing ver none none) } := by simp only [mstep, goStep, h, hd, Bool.false_eq_true, if_false]
theorem do_broken {P : Params Info} {s : M Info} {p : Nat} {ver : Option Info} (h : s.pc p = .begun false ver) (hd : s.cache.driver = .broken) :
    mstep P s (.go p) = some { s with pc := setPC s.pc p .idle } := by simp only [mstep, goStep, h, hd, Bool.false_eq_true, if_false]
theorem do_found {P : Params Info} {s : M Info} {p : Nat} {ver : Option Info} {b : Build Info} (h : s.pc p = .begun false ver) (hd : s.cache.driver = .data b) :
    mstep P s (.go p) = some { s with pc := setPC s.pc p (.found ver) } := by simp only [mstep, goStep, h, hd, Bool.false_eq_true, if_false]
theorem do_error {P : Params Info} {s : M Info} {p : Nat} {ver : Option Info} (h : s.pc p = .found ver) (hv : checkVersion P ver s.cache.version = none) :
    mstep P s (.go p) = some { s with pc := setPC s.pc p .idle } := by simp only [mstep, goStep, h, hv]
theorem do_other {P : Params Info} {s : M Info} {p : Nat} {ver record : Option Info} {v : F Str} (h : s.pc p = .found ver)
    (hv : checkVersion P ver s.cache.version = some (true, record, v)) :
    mstep P s (.go p) = some { s with pc := setPC s.pc p (.hashing ver record none), cache := { s.cache with version := v } } := by simp only [mstep, goStep, h, hv]
theorem do_checked {P : Params Info} {s : M Info} {p : Nat} {ver record : Option Info} {v : F Str} (h : s.pc p = .found ver)
    (hv : checkVersion P ver s.cache.version = some (false, record, v)) :
    mstep P s (.go p) = some { s with pc := setPC s.pc p (.checked ver) } := by simp only [mstep, goStep, h, hv]
theorem do_noHash {P : Params Info} {s : M Info} {p : Nat} {ver : Option Info} (h : s.pc p = .checked ver) (hh : s.cache.hash = .absent) :
    mstep P s (.go p) = some { s with pc := setPC s.pc p (.hashing ver none none) } := by simp only [mstep, goStep, h, hh]
theorem do_badHash {P : Params Info} {s : M Info} {p : Nat} {ver : Option Info} (h : s.pc p = .checked ver) (hh : s.cache.hash = .broken) :
    mstep P s (.go p) = some { s with pc := setPC s.pc p .idle } := by simp only [mstep, goStep, h, hh]
theorem do_read {P : Params Info} {s : M Info} {p : Nat} {ver : Option Info} {t : Str} (h : s.pc p = .checked ver) (hh : s.cache.hash = .data t) :
    mstep P s (.go p) = some { s with pc := setPC s.pc p (.hashing ver none (some t)) } := by simp only [mstep, goStep, h, hh]
theorem do_reuse {P : Params Info} {s : M Info} {p : Nat} {ver record : Option Info} {t : Str} (h : s.pc p = .hashing ver record (some t)) (ht : t = hashOf P s.src) :
    mstep P s (.go p) = some { s with pc := setPC s.pc p .ready } := by simp only [mstep, goStep, h, ht, if_true]
theorem do_plan {P : Params Info} {s : M Info} {p : Nat} {ver record : Option Info} {o : Option Str} (h : s.pc p = .hashing ver record o) (ht : o ≠ some (hashOf P s.src)) :
    mstep P s (.go p) = some { s with pc := setPC s.pc p (.planned ver record (hashOf P s.src)) } := by simp only [mstep, goStep, h, if_neg ht]
theorem do_compile {P : Params Info} {s : M Info} {p : Nat} {ver record : Option Info} {n : Str} (h : s.pc p = .planned ver record n) :
    mstep P s (.go p) = some { s with pc := setPC s.pc p (.built record n), cache := { s.cache with driver := .data ⟨s.src, ver⟩ } } := by simp only [mstep, goStep, h]
theorem do_openHash {P : Params Info} {s : M Info} {p : Nat} {record : Option Info} {n : Str} (h : s.pc p = .built record n) :
    mstep P s (.go p) = some { s with pc := setPC s.pc p (.truncated record n), cache := { s.cache with hash := .data [] } } := by simp only [mstep, goStep, h]
theorem do_writeHash {P : Params Info} {s : M Info} {p : Nat} {record : Option Info} {n : Str} (h : s.pc p = .truncated record n) (hh : s.cache.hash = .data []) :
    mstep P s (.go p) = some { s with pc := setPC s.pc p (afterHash record), cache := { s.cache with hash := .data n } } := by
  simp only [mstep, goStep, h, hh, overwrite, List.drop_nil, List.append_nil]
theorem do_openVersion {P : Params Info} {s : M Info} {p : Nat} {i : Info} (h : s.pc p = .hashed i) :
    mstep P s (.go p) = some { s with pc := setPC s.pc p (.emptied i), cache := { s.cache with version := .data [] } } := by simp only [mstep, goStep, h]
theorem do_writeVersion {P : Params Info} {s : M Info} {p : Nat} {i : Info} (h : s.pc p = .emptied i) (hh : s.cache.version = .data []) :
    mstep P s (.go p) = some { s with pc := setPC s.pc p .ready, cache := { s.cache with version := .data (P.encode i) } } := by
  simp only [mstep, goStep, h, hh, overwrite, List.drop_nil, List.append_nil]
theorem do_exec {P : Params Info} {s : M Info} {p : Nat} {b : Build Info} (h : s.pc p = .ready) (hd : s.cache.driver = .data b) :
    mstep P s (.go p) = some { s with pc := setPC s.pc p .idle, log := (p, b) :: s.log } := by simp only [mstep, goStep, h, hd]

/-- from the hashing to the end, if it compiles -/
theorem does_compile {P : Params Info} {s : M Info} {p : Nat} {ver record : Option Info} {o : Option Str} (h : s.pc p = .hashing ver record o)
    (ho : o ≠ some (hashOf P s.src)) :
    ∃ k, Does P p k s { s with
      cache := ⟨.data ⟨s.src, ver⟩, .data (hashOf P s.src), record.elim s.cache.version fun i => .data (P.encode i)⟩,
      pc := setPC s.pc p .idle, log := (p, ⟨s.src, ver⟩) :: s.log } := by
  cases record with
  | none =>
    refine ⟨5, .cons (do_plan h ho) (.cons (do_compile (setPC_same ..)) (.cons (do_openHash (setPC_same ..)) (.cons (do_writeHash (setPC_same ..) rfl)
      (.cons (do_exec (setPC_same ..) rfl) ?_))))⟩
    simp only [setPC_setPC]
    exact .zero
  | some i =>
    refine ⟨7, .cons (do_plan h ho) (.cons (do_compile (setPC_same ..)) (.cons (do_openHash (setPC_same ..)) (.cons (do_writeHash (setPC_same ..) rfl)
      (.cons (do_openVersion (setPC_same ..)) (.cons (do_writeVersion (setPC_same ..) rfl) (.cons (do_exec (setPC_same ..) rfl) ?_))))))⟩
    simp only [setPC_setPC]
    exact .zero

/-- **C89.** A process that is alone does what the model of one process (`Driver/Cache.lean`) says: from the same cache it leaves the same cache, and it executes the
driver that is there then, unless it fails. -/
theorem C89_alone (P : Params Info) (force : Bool) (ver : Option Info) (s : M Info) (p : Nat) (hp : s.pc p = .idle) (S' : S Info)
    (h : steps P ⟨s.src, s.cache, .idle⟩ (runEvents P force ver ⟨s.src, s.cache, .idle⟩) = some S') :
    ∃ n s', msteps P s (.start p force ver :: List.replicate n (.go p)) = some s' ∧ s'.pc = s.pc ∧ s'.cache = S'.cache ∧ s'.src = S'.src ∧
      (if (plan P force ver s.cache s.src).1 = .fail then s'.log = s.log else ∃ b, S'.cache.driver = .data b ∧ s'.log = (p, b) :: s.log) := by
  obtain ⟨src, ⟨d, hsh, v⟩, pc, log⟩ := s
  simp only at hp h
  have hs := do_start (P := P) (s := ⟨src, ⟨d, hsh, v⟩, pc, log⟩) force ver hp
  -- the end of a process that compiles
  have fin : ∀ record v', (plan P force ver ⟨d, hsh, v⟩ src) = (.compile record (hashOf P src), v') →
      (∃ k o, o ≠ some (hashOf P src) ∧ Does P p k ⟨src, ⟨d, hsh, v⟩, setPC pc p (.begun force ver), log⟩ ⟨src, ⟨d, hsh, v'⟩, setPC pc p (.hashing ver record o), log⟩) →
      ∃ n s', msteps P ⟨src, ⟨d, hsh, v⟩, pc, log⟩ (.start p force ver :: List.replicate n (.go p)) = some s' ∧ s'.pc = pc ∧ s'.cache = S'.cache ∧ s'.src = S'.src ∧
        (if (plan P force ver ⟨d, hsh, v⟩ src).1 = .fail then s'.log = log else ∃ b, S'.cache.driver = .data b ∧ s'.log = (p, b) :: log) := by
    rintro record v' hpl ⟨k, o, ho, hk⟩
    obtain ⟨k', hk'⟩ := does_compile (P := P) (s := ⟨src, ⟨d, hsh, v'⟩, setPC pc p (.hashing ver record o), log⟩) (setPC_same ..) ho
    simp only [setPC_setPC, setPC_idle hp] at hk'
    refine ⟨k + k', _, msteps_cons hs (hk.append hk'), rfl, ?_, ?_, ?_⟩
    · cases record <;> simp [runEvents, hpl, steps, step, S.at, S.withDriver, S.withHash, S.withVersion] at h <;> subst h <;> rfl
    · cases record <;> simp [runEvents, hpl, steps, step, S.at, S.withDriver, S.withHash, S.withVersion] at h <;> subst h <;> rfl
    · rw [hpl]
      cases record <;> simp [runEvents, hpl, steps, step, S.at, S.withDriver, S.withHash, S.withVersion] at h <;> subst h <;> simp
  -- a process that does not
  have other : ∀ k pl l, plan P force ver ⟨d, hsh, v⟩ src = (pl, v) → (pl = .fail ∧ l = log ∨ pl = .reuse ∧ ∃ b, d = .data b ∧ l = (p, b) :: log) →
      Does P p k ⟨src, ⟨d, hsh, v⟩, setPC pc p (.begun force ver), log⟩ ⟨src, ⟨d, hsh, v⟩, setPC pc p .idle, l⟩ →
      ∃ n s', msteps P ⟨src, ⟨d, hsh, v⟩, pc, log⟩ (.start p force ver :: List.replicate n (.go p)) = some s' ∧ s'.pc = pc ∧ s'.cache = S'.cache ∧ s'.src = S'.src ∧
        (if (plan P force ver ⟨d, hsh, v⟩ src).1 = .fail then s'.log = log else ∃ b, S'.cache.driver = .data b ∧ s'.log = (p, b) :: log) := by
    intro k pl l hpl hl hk
    rw [setPC_idle hp] at hk
    refine ⟨k, _, msteps_cons hs hk, rfl, ?_⟩
    rcases hl with ⟨rfl, rfl⟩ | ⟨rfl, b, rfl, rfl⟩
    · simp [runEvents, hpl, steps, step, S.withVersion] at h
      subst h; simp [hpl]
    · simp [runEvents, hpl, steps, step, S.withVersion] at h
      subst h; simp [hpl]
  cases force with
  | true =>
    refine fin none v rfl ⟨1, none, by simp, .cons (do_force (setPC_same ..)) ?_⟩
    simp only [setPC_setPC]; exact .zero
  | false =>
    cases d with
    | absent =>
      refine fin none v rfl ⟨1, none, by simp, .cons (do_absent (setPC_same ..) rfl) ?_⟩
      simp only [setPC_setPC]; exact .zero
    | broken =>
      refine other 1 .fail log rfl (.inl ⟨rfl, rfl⟩) (.cons (do_broken (setPC_same ..) rfl) ?_)
      simp only [setPC_setPC]; exact .zero
    | data b =>
      have h1 := do_found (P := P) (s := ⟨src, ⟨.data b, hsh, v⟩, setPC pc p (.begun false ver), log⟩) (setPC_same ..) rfl
      rcases hcv : checkVersion P ver v with _ | ⟨_ | _, record, v'⟩
      · refine other 2 .fail log (by simp [plan, hcv]) (.inl ⟨rfl, rfl⟩) (.cons h1 (.cons (do_error (setPC_same ..) hcv) ?_))
        simp only [setPC_setPC]; exact .zero
      · have h2 := do_checked (P := P) (s := ⟨src, ⟨.data b, hsh, v⟩, setPC (setPC pc p (.begun false ver)) p (.found ver), log⟩) (setPC_same ..) hcv
        have hrv : record = none ∧ v' = v := by
          unfold checkVersion at hcv
          split at hcv
          · simp at hcv
          · split at hcv
            · simp at hcv
            · simp at hcv
            · split at hcv
              · simp at hcv
              · split at hcv <;> simp at hcv
                exact ⟨hcv.1.symm, hcv.2.symm⟩
        obtain ⟨rfl, rfl⟩ := hrv
        cases hsh with
        | absent =>
          refine fin none v' (by simp [plan, hcv]) ⟨3, none, by simp, .cons h1 (.cons h2 (.cons (do_noHash (setPC_same ..) rfl) ?_))⟩
          simp only [setPC_setPC]; exact .zero
        | broken =>
          refine other 3 .fail log (by simp [plan, hcv]) (.inl ⟨rfl, rfl⟩) (.cons h1 (.cons h2 (.cons (do_badHash (setPC_same ..) rfl) ?_)))
          simp only [setPC_setPC]; exact .zero
        | data old =>
          have h3 := do_read (P := P) (s := ⟨src, ⟨.data b, .data old, v'⟩, setPC (setPC (setPC pc p (.begun false ver)) p (.found ver)) p (.checked ver), log⟩)
            (setPC_same ..) rfl
          by_cases ho : hashOf P src = old
          · refine other 5 .reuse _ (by simp [plan, hcv, ho]) (.inr ⟨rfl, b, rfl, rfl⟩) (.cons h1 (.cons h2 (.cons h3 (.cons (do_reuse (setPC_same ..) ho.symm)
              (.cons (do_exec (setPC_same ..) rfl) ?_)))))
            simp only [setPC_setPC]; exact .zero
          · refine fin none v' (by simp [plan, hcv, ho]) ⟨3, some old, by simpa using Ne.symm ho, .cons h1 (.cons h2 (.cons h3 ?_))⟩
            simp only [setPC_setPC]; exact .zero
      · refine fin record v' (by simp [plan, hcv]) ⟨2, none, by simp, .cons h1 (.cons (do_other (setPC_same ..) hcv) ?_)⟩
        simp only [setPC_setPC]; exact .zero

/-! ## Counterexamples -/

theorem of_ready {P : Params Info} {s₀ : M Info} {es : List (MEv Info)} {p : Nat} {src : Src} {b : Build Info}
    (h : ∃ s, msteps P s₀ es = some s ∧ s.src = src ∧ s.pc p = .ready ∧ s.cache.driver = .data b) :
    ∃ s s', msteps P s₀ es = some s ∧ s.src = src ∧ Executes P s p b s' :=
  have ⟨s, h1, h2, h3, h4⟩ := h
  ⟨s, _, h1, h2, do_exec h3 h4, rfl⟩

theorem edit_ok {P : Params Info} {s : M Info} (src : Src) : mstep P s (.edit src) = some { s with src := src } := rfl

/-- **C89 is false: an edit while two processes run.** Everything is up to date for the sources `a`.  They are edited to `b`; process 0 compiles; they are edited to `c`; process 1
compiles, records the hash and is done; process 0 records *its* hash.  (Between the hashing and the compiling of a process there is no edit, and nothing is cut off.)  The
second edit is undone: process 2 executes the driver that was made from `c`, though the sources are `b`. -/
theorem C89_counterexample_edit (P : Params Info) (hP : P.Lawful) (i : Info) (a b c : Src) (hab : hashOf P a ≠ hashOf P b) (hac : hashOf P a ≠ hashOf P c) :
    ∃ s s', msteps P (quiet b ⟨.data ⟨a, some i⟩, .data (hashOf P a), .data (P.encode i)⟩)
        ((.start 0 false (some i) :: List.replicate 5 (.go 0)) ++ ((.edit c :: .start 1 false (some i) :: List.replicate 8 (.go 1)) ++ (List.replicate 3 (.go 0) ++
          (.edit b :: .start 2 false (some i) :: List.replicate 4 (.go 2))))) = some s ∧
      s.src = b ∧ Executes P s 2 ⟨c, some i⟩ s' := by
  have hv : ∀ t, t = F.data (P.encode i) → checkVersion P (some i) t = some (false, none, t) := by rintro _ rfl; simp [checkVersion, hP.roundTrip]
  refine of_ready ⟨_, msteps_append (msteps_cons (do_start _ _ rfl) (Does.cons (do_found rfl rfl) (.cons (do_checked rfl (hv _ rfl)) (.cons (do_read rfl rfl)
      (.cons (do_plan rfl (fun e => hab (Option.some.inj e))) (.cons (do_compile rfl) .zero)))))) 
    (msteps_append (msteps_cons (edit_ok _) (msteps_cons (do_start _ _ rfl) (Does.cons (do_found rfl rfl) (.cons (do_checked rfl (hv _ rfl)) (.cons (do_read rfl rfl)
      (.cons (do_plan rfl (fun e => hac (Option.some.inj e))) (.cons (do_compile rfl) (.cons (do_openHash rfl) (.cons (do_writeHash rfl rfl) (.cons (do_exec rfl rfl) .zero))))))))))
    (msteps_append (Does.cons (do_openHash rfl) (.cons (do_writeHash rfl rfl) (.cons (do_exec rfl rfl) .zero)))
    (msteps_cons (edit_ok _) (msteps_cons (do_start _ _ rfl) (Does.cons (do_found rfl rfl) (.cons (do_checked rfl (hv _ rfl)) (.cons (do_read rfl rfl)
      (.cons (do_reuse rfl rfl) .zero)))))))), rfl, rfl, rfl⟩

/-- **C89 is false: two versions of fab.** The sources are not edited, nothing is cut off.  A fab with the build information `k` compiles while one with `i` is about to
record its own: the driver that stays is that of `k`, recorded as that of `i`.  The next fab with `i` (process 2) executes it. -/
theorem C89_counterexample_two_fabs (P : Params Info) (hP : P.Lawful) (i k : Info) (a : Src) (b : Build Info) :
    ∃ s s', msteps P (quiet a ⟨.data b, .absent, .absent⟩)
        ((.start 0 false (some i) :: List.replicate 6 (.go 0)) ++ ((.start 1 false (some k) :: List.replicate 9 (.go 1)) ++ (List.replicate 3 (.go 0) ++
          (.start 2 false (some i) :: List.replicate 4 (.go 2))))) = some s ∧
      s.src = a ∧ Executes P s 2 ⟨a, some k⟩ s' := by
  have hv : ∀ t, t = F.data (P.encode i) → checkVersion P (some i) t = some (false, none, t) := by rintro _ rfl; simp [checkVersion, hP.roundTrip]
  refine of_ready ⟨_, msteps_append (msteps_cons (do_start _ _ rfl) (Does.cons (do_found rfl rfl) (.cons (do_other rfl rfl) (.cons (do_plan rfl (by simp)) (.cons (do_compile rfl)
      (.cons (do_openHash rfl) (.cons (do_writeHash rfl rfl) .zero)))))))
    (msteps_append (msteps_cons (do_start _ _ rfl) (Does.cons (do_found rfl rfl) (.cons (do_other rfl rfl) (.cons (do_plan rfl (by simp)) (.cons (do_compile rfl)
      (.cons (do_openHash rfl) (.cons (do_writeHash rfl rfl) (.cons (do_openVersion rfl) (.cons (do_writeVersion rfl rfl) (.cons (do_exec rfl rfl) .zero))))))))))
    (msteps_append (Does.cons (do_openVersion rfl) (.cons (do_writeVersion rfl rfl) (.cons (do_exec rfl rfl) .zero))) (msteps_cons (do_start _ _ rfl) (Does.cons (do_found rfl rfl) (.cons (do_checked rfl (hv _ rfl)) (.cons (do_read rfl rfl) (.cons (do_reuse rfl rfl) .zero))))))), rfl, rfl, rfl⟩

/-! ## Examples -/

theorem mhist_of {P : Params Info} {ok : M Info → MEv Info → Prop} {s₀ s s' : M Info} (h : MHist P ok s₀ s) (es : List (MEv Info)) (hok : ∀ e ∈ es, ∀ s, ok s e)
    (hs : msteps P s es = some s') : MHist P ok s₀ s' := by
  induction es generalizing s with
  | nil => simp only [msteps, Option.some.injEq] at hs; subst hs; exact h
  | cons e es ih =>
    simp only [msteps] at hs
    cases he : mstep P s e with
    | none => simp [he] at hs
    | some t =>
      simp only [he, Option.bind_some] at hs
      exact ih (.snoc h (hok e (.head _) s) he) (fun e' h' => hok e' (.tail _ h')) hs

/-- only processes below `n` are started -/
def startsBelow (n : Nat) : MEv Info → Bool
  | .start p _ _ => p < n
  | _ => true

theorem pc_above {P : Params Info} {n : Nat} {s s' : M Info} (es : List (MEv Info)) (he : es.all (startsBelow n) = true) (h : ∀ q, n ≤ q → s.pc q = .idle)
    (hs : msteps P s es = some s') : ∀ q, n ≤ q → s'.pc q = .idle := by
  induction es generalizing s with
  | nil => simp only [msteps, Option.some.injEq] at hs; subst hs; exact h
  | cons e es ih =>
    simp only [msteps] at hs
    simp only [List.all_cons, Bool.and_eq_true] at he
    cases hm : mstep P s e with
    | none => simp [hm] at hs
    | some t =>
      simp only [hm, Option.bind_some] at hs
      refine ih he.2 ?_ hs
      intro q hq
      cases e with
      | go p =>
        by_cases e : q = p
        · subst e
          simp only [mstep, goStep, h q hq] at hm
          cases hm
        · cases go_cases hm <;> simp only [setPC_ne _ _ e, h q hq]
      | start p f v =>
        have hp : p < n := by simpa [startsBelow] using he.1
        simp only [mstep] at hm
        split at hm
        · simp only [Option.some.injEq] at hm; subst hm
          have : q ≠ p := by omega
          simp only [setPC_ne _ _ this, h q hq]
        · cases hm
      | abort p =>
        simp only [mstep] at hm
        split at hm
        · cases hm
        · simp only [Option.some.injEq] at hm; subst hm
          simp only [setPC]; split
          · rfl
          · exact h q hq
      | abortIn p part =>
        simp only [mstep] at hm
        split at hm
        · split at hm
          · simp only [Option.some.injEq] at hm; subst hm
            simp only [setPC]; split
            · rfl
            · exact h q hq
          · cases hm
        · split at hm
          · simp only [Option.some.injEq] at hm; subst hm
            simp only [setPC]; split
            · rfl
            · exact h q hq
          · cases hm
        · cases hm
      | _ => simp only [mstep, Option.some.injEq] at hm; subst hm; exact h q hq

namespace ManyDemo

/-- the first two processes, in turn, the second with Force -/
def evs1 : List (MEv Bool) :=
  [.start 0 false (some true), .start 1 true (some true)] ++ (List.replicate 6 [MEv.go 0, .go 1]).flatten

/-- then three processes in turn, the third of which is cut off while it writes the hash -/
def evs2 : List (MEv Bool) :=
  [.start 0 false (some true), .start 1 false (some true), .start 2 false (some true)] ++ (List.replicate 5 [MEv.go 0, .go 1, .go 2]).flatten ++
    [.abortIn 2 ((hashOf exParams (exSrc [9])).take 7)] ++ (List.replicate 3 [MEv.go 0, .go 1]).flatten ++ [.go 1]

theorem run1 : (msteps exParams (quiet (exSrc [3]) noCache) evs1).isSome = true := by decide +kernel
def s1 : M Bool := (msteps exParams (quiet (exSrc [3]) noCache) evs1).get run1
theorem run1' : msteps exParams (quiet (exSrc [3]) noCache) evs1 = some s1 := by rw [s1, Option.some_get]

theorem quiet1 : ¬ Busy s1 := by
  rintro ⟨p, hp⟩
  have h0 := pc_above evs1 (n := 2) (by decide) (fun _ _ => rfl) run1'
  have h1 : ∀ p < 2, s1.pc p = .idle := by decide +kernel
  exact hp (if h : 2 ≤ p then h0 p h else h1 p (by omega))

def s2 : M Bool := { s1 with src := exSrc [9] }

theorem run3 : (msteps exParams s2 evs2).isSome = true := by decide +kernel
def s3 : M Bool := (msteps exParams s2 evs2).get run3
theorem run3' : msteps exParams s2 evs2 = some s3 := by rw [s3, Option.some_get]

/-- after the edit, and when the process 2 was cut off, process 0 is going to execute a driver: of the new sources -/
example : MHist exParams Calm89 (quiet (exSrc [3]) noCache) s3 ∧ SoundCache exParams (noCache : Cache Bool) ∧
    (∃ s', Executes exParams s3 0 ⟨exSrc [9], some true⟩ s') ∧ s3.src = exSrc [9] := by
  refine ⟨?_, fun t b h => by simp [noCache] at h, ⟨_, do_exec (b := ⟨exSrc [9], some true⟩) (by decide +kernel) (by decide +kernel), rfl⟩, by decide +kernel⟩
  refine mhist_of (.snoc (mhist_of (.nil _) evs1 ?_ run1') (e := .edit (exSrc [9])) quiet1 rfl) evs2 ?_ run3'
  · intro e he s
    simp only [evs1, List.flatten, List.replicate, List.append_eq, List.cons_append, List.nil_append, List.mem_cons, List.not_mem_nil, or_false] at he
    rcases he with rfl | rfl | rfl | rfl | rfl | rfl | rfl | rfl | rfl | rfl | rfl | rfl | rfl | rfl <;> trivial
  · intro e he s
    have : ∀ e ∈ evs2, (match e with | .edit _ => false | .abort _ => false | _ => true) = true := by decide +kernel
    have := this e he
    cases e <;> first | (cases this; done) | trivial

/-- the first batch satisfies the other hypotheses, too: both processes have ended, having executed a driver -/
example : MHist exParams (OneFab true) (quiet (exSrc [3]) noCache) s1 ∧ MHist exParams NoEdit (quiet (exSrc [3]) noCache) s1 ∧
    MHist exParams Undisturbed (quiet (exSrc [3]) noCache) s1 ∧ Readable (noCache : Cache Bool) ∧ ¬ Busy s1 ∧ s1.log.length = 2 := by
  have key : ∀ e ∈ evs1, (match e with | .start _ _ v => v == some true | .go _ => true | _ => false) = true := by decide +kernel
  refine ⟨mhist_of (.nil _) evs1 ?_ run1', mhist_of (.nil _) evs1 ?_ run1', mhist_of (.nil _) evs1 ?_ run1', by simp [Readable, noCache], quiet1, by decide +kernel⟩ <;>
  · intro e he s
    have := key e he
    cases e <;> first | trivial | cases this | simpa [OneFab] using this

/-- a batch with an existing driver -/
def evs4 : List (MEv Bool) :=
  [.start 0 false (some true), .start 1 false (some true)] ++ (List.replicate 9 [MEv.go 0, .go 1]).flatten ++ [.start 0 false (some true)] ++ List.replicate 5 (.go 0)

def c4 : Cache Bool := ⟨.data ⟨exSrc [3], some false⟩, .data (hashOf exParams (exSrc [3])), .data (exParams.encode false)⟩

theorem run4 : (msteps exParams (quiet (exSrc [9]) c4) evs4).isSome = true := by decide +kernel
def s4 : M Bool := (msteps exParams (quiet (exSrc [9]) c4) evs4).get run4
theorem run4' : msteps exParams (quiet (exSrc [9]) c4) evs4 = some s4 := by rw [s4, Option.some_get]

example : MHist exParams (Plain true) (quiet (exSrc [9]) c4) s4 ∧ ¬ Busy s4 ∧ s4.log.length = 3 := by
  have key : ∀ e ∈ evs4, (match e with | .start _ f v => f == false && v == some true | .go _ => true | _ => false) = true := by decide +kernel
  refine ⟨mhist_of (.nil _) evs4 ?_ run4', ?_, by decide +kernel⟩
  · intro e he s
    have := key e he
    cases e <;> first | trivial | cases this | simpa [Plain] using this
  · rintro ⟨p, hp⟩
    have h0 := pc_above evs4 (n := 2) (by decide) (fun _ _ => rfl) run4'
    have h1 : ∀ p < 2, s4.pc p = .idle := by decide +kernel
    exact hp (if h : 2 ≤ p then h0 p h else h1 p (by omega))

end ManyDemo

end Fab.Driver
