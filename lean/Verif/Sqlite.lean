import Verif.Base
import Mathlib.Data.List.Induction

/-!
# The hash database (/repo/sqlite/db.go, /repo/sqlite/schema.sql): model, and C31, C32, C33

Any number of clients (each the result of one `sqlite.Open` on the same file, with its own options and its own clock)
work on one table.  The atomic steps are the SQL statements; each may succeed, fail without effect, or take effect and
still be reported as failed (for instance because the context ended in the meantime).  A client may crash between any
two statements.  Clock readings are arbitrary integers (nanoseconds since the epoch): no clock is assumed monotone, and
the clocks of different clients need not agree.

Not modelled: SQLite itself (that each statement is atomic and durable is assumed), overflow of 64-bit times.
-/

namespace Fab.Sqlite

/-- A non-nil `[]byte`. -/
abbrev Bytes := List UInt8

/-- `CREATE TABLE hashes (hash BLOB NOT NULL PRIMARY KEY, unix_secs INT NOT NULL)`: schema.sql:1-4 -/
structure Row where
  hash : Bytes
  secs : Int
deriving DecidableEq, Repr

abbrev Table := List Row

/-- `time.Time.Unix()`: whole seconds, rounded down; times are in nanoseconds. -/
def unix (t : Int) : Int := t / 1000000000

/-- `UPDATE hashes SET unix_secs = $1 WHERE hash = $2`: the new table and the number of affected rows (sqlite/db.go:91) -/
def sqlUpdate (tab : Table) (secs : Int) (h : Bytes) : Table × Nat :=
  (tab.map (fun r => if r.hash = h then { r with secs := secs } else r), (tab.filter (fun r => decide (r.hash = h))).length)

/-- `SELECT COUNT(*) FROM hashes WHERE hash = $1` (sqlite/db.go:101) -/
def sqlCount (tab : Table) (h : Bytes) : Nat := (tab.filter (fun r => decide (r.hash = h))).length

/-- `INSERT INTO hashes (hash, unix_secs) VALUES ($1, $2) ON CONFLICT DO UPDATE SET unix_secs = $2 WHERE hash = $1`:
the primary key makes an existing row with that hash a conflict (sqlite/db.go:115) -/
def sqlUpsert (tab : Table) (h : Bytes) (secs : Int) : Table :=
  if tab.any (fun r => decide (r.hash = h)) then
    tab.map (fun r => if r.hash = h then { r with secs := secs } else r)
  else tab ++ [⟨h, secs⟩]

/-- `DELETE FROM hashes WHERE unix_secs < $1` (sqlite/db.go:122) -/
def sqlDelete (tab : Table) (cutoff : Int) : Table := tab.filter (fun r => !decide (r.secs < cutoff))

/-- The options of one `*DB`: `keep` (nanoseconds; 0 unless `Keep` was given) and `updateOnAccess`
(sqlite/db.go:15-20, 63-85). -/
structure Cfg where
  keep : Int
  updateOnAccess : Bool

/-- The API calls; `none` is a nil `[]byte`, which the driver binds as NULL. -/
inductive Op where
  | has (h : Option Bytes)
  | add (h : Option Bytes)
deriving DecidableEq

/-- What a call returns: an error, `nil` (from `Add`), or a boolean (from `Has`). -/
inductive Res where
  | err
  | ok
  | found (b : Bool)
deriving DecidableEq

/-- The log of observable events.  `added`, `looked` and `evicted` record the moment a statement took effect, with the
clock reading of the call it belongs to. -/
inductive Ev where
  | call (c : Nat) (op : Op) (now : Int)
  | added (c : Nat) (h : Bytes) (t : Int)
  | looked (c : Nat) (h : Bytes) (t : Int) (b : Bool)
  | evicted (c : Nat) (now keep : Int)
  | ret (c : Nat) (op : Op) (r : Res)
deriving DecidableEq

/-- Where a client is. -/
inductive PC where
  | idle
  /-- about to run the INSERT of `Add` -/
  | insert (h : Option Bytes) (now : Int)
  /-- about to run the DELETE of `Add` -/
  | evict (h : Option Bytes) (now : Int)
  /-- about to run the UPDATE or SELECT of `Has` -/
  | look (h : Option Bytes) (now : Int)
  /-- about to return -/
  | done (op : Op) (r : Res)
  | dead
deriving DecidableEq

structure St where
  table : Table
  pc : Nat → PC
  log : List Ev

def init : St := { table := [], pc := fun _ => .idle, log := [] }

/-- How a statement ends: well, without effect and with an error, or with its effect but reported as an error. -/
inductive Fault where
  | none | failed | lost
deriving DecidableEq

inductive Act where
  /-- an idle client calls `op`; its clock reads `now` -/
  | call (c : Nat) (op : Op) (now : Int)
  /-- the client runs its next statement -/
  | exec (c : Nat) (f : Fault)
  /-- the call returns -/
  | ret (c : Nat)
  /-- the client's process dies -/
  | crash (c : Nat)

def St.setPc (s : St) (c : Nat) (p : PC) : St := { s with pc := fun c' => if c' = c then p else s.pc c' }

def St.emit (s : St) (e : Ev) : St := { s with log := s.log ++ [e] }

/-- The INSERT of `Add`, sqlite/db.go:114-120: an error is returned at once; without `keep` the call is finished.
A NULL hash violates the NOT NULL constraint. -/
def stepInsert (cfg : Cfg) (s : St) (c : Nat) (h : Option Bytes) (now : Int) (f : Fault) : St :=
  match f, h with
  | .failed, _ => s.setPc c (.done (.add h) .err)
  | _, .none => s.setPc c (.done (.add h) .err)
  | .lost, some b =>
    ({ s with table := sqlUpsert s.table b (unix now) }.emit (.added c b now)).setPc c (.done (.add h) .err)
  | .none, some b =>
    ({ s with table := sqlUpsert s.table b (unix now) }.emit (.added c b now)).setPc c
      (if cfg.keep > 0 then .evict h now else .done (.add h) .ok)

/-- The DELETE of `Add`, sqlite/db.go:121-129 -/
def stepEvict (cfg : Cfg) (s : St) (c : Nat) (h : Option Bytes) (now : Int) (f : Fault) : St :=
  match f with
  | .failed => s.setPc c (.done (.add h) .err)
  | .lost =>
    ({ s with table := sqlDelete s.table (unix (now - cfg.keep)) }.emit (.evicted c now cfg.keep)).setPc c
      (.done (.add h) .err)
  | .none =>
    ({ s with table := sqlDelete s.table (unix (now - cfg.keep)) }.emit (.evicted c now cfg.keep)).setPc c
      (.done (.add h) .ok)

/-- The statement of `Has`, sqlite/db.go:89-108: an UPDATE if `updateOnAccess`, a SELECT otherwise.  `hash = NULL` is
true of no row. -/
def stepLook (cfg : Cfg) (s : St) (c : Nat) (h : Option Bytes) (now : Int) (f : Fault) : St :=
  match f, h with
  | .failed, _ => s.setPc c (.done (.has h) .err)
  | .lost, .none => s.setPc c (.done (.has h) .err)
  | .none, .none => s.setPc c (.done (.has h) (.found false))
  | f', some b =>
    if cfg.updateOnAccess then
      let u := sqlUpdate s.table (unix now) b
      ({ s with table := u.1 }.emit (.looked c b now (decide (u.2 > 0)))).setPc c
        (.done (.has h) (if f' = Fault.lost then .err else .found (decide (u.2 > 0))))
    else
      (s.emit (.looked c b now (decide (sqlCount s.table b > 0)))).setPc c
        (.done (.has h) (if f' = Fault.lost then .err else .found (decide (sqlCount s.table b > 0))))

/-- One step; an action that does not apply changes nothing. -/
def step (cfg : Nat → Cfg) (s : St) : Act → St
  | .call c op now =>
    match s.pc c with
    | .idle =>
      (s.emit (.call c op now)).setPc c (match op with | .add h => .insert h now | .has h => .look h now)
    | _ => s
  | .exec c f =>
    match s.pc c with
    | .insert h now => stepInsert (cfg c) s c h now f
    | .evict h now => stepEvict (cfg c) s c h now f
    | .look h now => stepLook (cfg c) s c h now f
    | _ => s
  | .ret c =>
    match s.pc c with
    | .done op r => (s.emit (.ret c op r)).setPc c .idle
    | _ => s
  | .crash c => s.setPc c .dead

/-- Every history: any sequence of actions of any clients. -/
def run (cfg : Nat → Cfg) (acts : List Act) : St := acts.foldl (step cfg) init

/-! ## Specification: membership as a function of what happened -/

/-- The time at which an event touches `h`: an `Add`, or a `Has` that found it and updates on access. -/
def touchOf (cfg : Nat → Cfg) (h : Bytes) : Ev → Option Int
  | .added _ h' t => if h' = h then some t else none
  | .looked c h' t b => if h' = h ∧ b = true ∧ (cfg c).updateOnAccess = true then some t else none
  | _ => none

/-- The clock reading of the last touch of `h`. -/
def LastTouch (cfg : Nat → Cfg) (log : List Ev) (h : Bytes) (t : Int) : Prop :=
  ∃ pre e post, log = pre ++ e :: post ∧ touchOf cfg h e = some t ∧ ∀ e' ∈ post, touchOf cfg h e' = none

/-- An entry last touched at `t` has expired at `now` under the duration `keep`, up to the one-second granularity. -/
def Expired (t now keep : Int) : Prop := unix t < unix (now - keep)

/-- `h` is in the set: it was added, and at each eviction since then its last touch had not expired. -/
def Present (cfg : Nat → Cfg) (log : List Ev) (h : Bytes) : Prop :=
  ∃ pre c t post, log = pre ++ .added c h t :: post ∧
    ∀ p c' now keep q, post = p ++ .evicted c' now keep :: q →
      ∀ u, LastTouch cfg (pre ++ .added c h t :: p) h u → ¬ Expired u now keep

/-! ## Lemmas -/

theorem snoc_eq {α} {l : List α} {e : α} {p : List α} {x : α} {q : List α} :
    l ++ [e] = p ++ x :: q ↔ (q = [] ∧ l = p ∧ e = x) ∨ ∃ q', q = q' ++ [e] ∧ l = p ++ x :: q' := by
  constructor
  · intro h
    rcases List.eq_nil_or_concat q with rfl | ⟨q', y, rfl⟩
    · left
      have := List.append_inj' h rfl
      simp_all
    · right
      have h' : l ++ [e] = (p ++ x :: q') ++ [y] := by simpa using h
      have := List.append_inj' h' rfl
      refine ⟨q', ?_, this.1⟩
      have := this.2; simp_all
  · rintro (⟨rfl, rfl, rfl⟩ | ⟨q', rfl, rfl⟩) <;> simp

theorem lastTouch_snoc {cfg : Nat → Cfg} {l : List Ev} {e : Ev} {h : Bytes} {t : Int} :
    LastTouch cfg (l ++ [e]) h t ↔ touchOf cfg h e = some t ∨ (touchOf cfg h e = none ∧ LastTouch cfg l h t) := by
  constructor
  · rintro ⟨pre, x, post, h1, h2, h3⟩
    rcases snoc_eq.1 h1 with ⟨rfl, rfl, rfl⟩ | ⟨q', rfl, rfl⟩
    · exact .inl h2
    · exact .inr ⟨h3 e (by simp), pre, x, q', rfl, h2, fun e' he' => h3 e' (by simp [he'])⟩
  · rintro (h1 | ⟨h1, pre, x, post, rfl, h2, h3⟩)
    · exact ⟨l, e, [], rfl, h1, by simp⟩
    · refine ⟨pre, x, post ++ [e], by simp, h2, ?_⟩
      intro e' he'
      rcases List.mem_append.1 he' with h4 | h4
      · exact h3 e' h4
      · simp only [List.mem_singleton] at h4; rw [h4]; exact h1

theorem lastTouch_uniq {cfg : Nat → Cfg} {h : Bytes} : ∀ {l : List Ev} {t u : Int},
    LastTouch cfg l h t → LastTouch cfg l h u → t = u := by
  intro l
  induction l using List.reverseRecOn with
  | nil => rintro t u ⟨p, x, q, h1, -⟩; simp at h1
  | append_singleton l e ih =>
    intro t u h1 h2
    rw [lastTouch_snoc] at h1 h2
    rcases h1 with h1 | ⟨h1, h1'⟩ <;> rcases h2 with h2 | ⟨h2, h2'⟩
    · rw [h1] at h2; exact Option.some.inj h2
    · rw [h1] at h2; cases h2
    · rw [h1] at h2; cases h2
    · exact ih h1' h2'

theorem present_snoc {cfg : Nat → Cfg} {l : List Ev} {e : Ev} {h : Bytes} :
    Present cfg (l ++ [e]) h ↔ (∃ c t, e = .added c h t) ∨
      (Present cfg l h ∧ ∀ c now keep, e = .evicted c now keep → ∀ u, LastTouch cfg l h u → ¬ Expired u now keep) := by
  constructor
  · rintro ⟨pre, c, t, post, h1, h2⟩
    rcases snoc_eq.1 h1 with ⟨rfl, rfl, rfl⟩ | ⟨q', rfl, rfl⟩
    · exact .inl ⟨c, t, rfl⟩
    · refine .inr ⟨⟨pre, c, t, q', rfl, ?_⟩, ?_⟩
      · rintro p c' now keep q rfl u hu
        exact h2 p c' now keep (q ++ [e]) (by simp) u hu
      · rintro c' now keep rfl u hu
        exact h2 q' c' now keep [] rfl u hu
  · rintro (⟨c, t, rfl⟩ | ⟨⟨pre, c, t, post, rfl, h2⟩, h3⟩)
    · exact ⟨l, c, t, [], rfl, by simp⟩
    · refine ⟨pre, c, t, post ++ [e], by simp, ?_⟩
      intro p c' now keep q h4 u hu
      rcases snoc_eq.1 h4 with ⟨rfl, rfl, rfl⟩ | ⟨q', rfl, rfl⟩
      · exact h3 c' now keep rfl u hu
      · exact h2 p c' now keep q' rfl u hu

theorem present_touched {cfg : Nat → Cfg} {l : List Ev} {h : Bytes} (hp : Present cfg l h) : ∃ u, LastTouch cfg l h u := by
  obtain ⟨pre, c, t, post, rfl, -⟩ := hp
  induction post using List.reverseRecOn with
  | nil => exact ⟨t, pre, _, [], rfl, by simp [touchOf], by simp⟩
  | append_singleton l e ih =>
    obtain ⟨u, hu⟩ := ih
    have h1 : pre ++ Ev.added c h t :: (l ++ [e]) = (pre ++ Ev.added c h t :: l) ++ [e] := by simp
    rw [h1]
    cases h2 : touchOf cfg h e with
    | none => exact ⟨u, lastTouch_snoc.2 (.inr ⟨h2, hu⟩)⟩
    | some v => exact ⟨v, lastTouch_snoc.2 (.inl h2)⟩

/-- The primary key. -/
def Keyed (tab : Table) : Prop := (tab.map (·.hash)).Nodup

theorem map_secs_hash (tab : Table) (h : Bytes) (t : Int) :
    (tab.map (fun r => if r.hash = h then { r with secs := t } else r)).map (·.hash) = tab.map (·.hash) := by
  rw [List.map_map]; apply List.map_congr_left; intro r _; simp only [Function.comp]; split <;> rfl

theorem keyed_update {tab : Table} (hk : Keyed tab) (t : Int) (h : Bytes) : Keyed (sqlUpdate tab t h).1 := by
  unfold Keyed sqlUpdate; rw [map_secs_hash]; exact hk

theorem keyed_upsert {tab : Table} (hk : Keyed tab) (h : Bytes) (t : Int) : Keyed (sqlUpsert tab h t) := by
  unfold sqlUpsert
  split
  · unfold Keyed; rw [map_secs_hash]; exact hk
  · rename_i h1
    unfold Keyed at *
    rw [List.map_append, List.nodup_append]
    refine ⟨hk, by simp, ?_⟩
    simp only [List.any_eq_true, decide_eq_true_eq, not_exists, not_and] at h1
    simp only [List.mem_map, List.map_cons, List.map_nil, List.mem_singleton]
    rintro a ⟨r, hr, rfl⟩ b rfl h2
    exact h1 r hr h2

theorem keyed_delete {tab : Table} (hk : Keyed tab) (t : Int) : Keyed (sqlDelete tab t) :=
  (List.filter_sublist.map _).nodup hk

theorem mem_update {tab : Table} {t : Int} {h : Bytes} {r : Row} :
    r ∈ (sqlUpdate tab t h).1 ↔ (r.hash ≠ h ∧ r ∈ tab) ∨ (r = ⟨h, t⟩ ∧ ∃ u, (⟨h, u⟩ : Row) ∈ tab) := by
  unfold sqlUpdate
  simp only [List.mem_map]
  constructor
  · rintro ⟨a, ha, rfl⟩
    split
    · rename_i h1; subst h1; exact .inr ⟨rfl, a.secs, ha⟩
    · rename_i h1; exact .inl ⟨h1, ha⟩
  · rintro (⟨h1, h2⟩ | ⟨rfl, u, h2⟩)
    · exact ⟨r, h2, by simp [h1]⟩
    · exact ⟨_, h2, by simp⟩

theorem mem_upsert {tab : Table} {t : Int} {h : Bytes} {r : Row} :
    r ∈ sqlUpsert tab h t ↔ (r.hash ≠ h ∧ r ∈ tab) ∨ r = ⟨h, t⟩ := by
  unfold sqlUpsert
  split
  · rename_i h1
    have h2 := @mem_update tab t h r
    unfold sqlUpdate at h2
    rw [h2]
    simp only [List.any_eq_true, decide_eq_true_eq] at h1
    obtain ⟨a, ha, rfl⟩ := h1
    constructor
    · rintro (h3 | ⟨h3, -⟩)
      · exact .inl h3
      · exact .inr h3
    · rintro (h3 | h3)
      · exact .inl h3
      · exact .inr ⟨h3, a.secs, ha⟩
  · rename_i h1
    simp only [List.any_eq_true, decide_eq_true_eq, not_exists, not_and] at h1
    simp only [List.mem_append, List.mem_singleton]
    constructor
    · rintro (h3 | h3)
      · exact .inl ⟨h1 r h3, h3⟩
      · exact .inr h3
    · rintro (⟨-, h3⟩ | h3)
      · exact .inl h3
      · exact .inr h3

theorem mem_delete {tab : Table} {t : Int} {r : Row} : r ∈ sqlDelete tab t ↔ r ∈ tab ∧ ¬ r.secs < t := by
  unfold sqlDelete; simp

theorem count_pos {tab : Table} {h : Bytes} : sqlCount tab h > 0 ↔ ∃ u, (⟨h, u⟩ : Row) ∈ tab := by
  unfold sqlCount
  rw [gt_iff_lt, List.length_pos_iff_exists_mem]
  simp only [List.mem_filter, decide_eq_true_eq]
  constructor
  · rintro ⟨⟨a, u⟩, h1, rfl⟩; exact ⟨u, h1⟩
  · rintro ⟨u, h1⟩; exact ⟨_, h1, rfl⟩

/-- The table holds exactly the present hashes, with the second of their last touch. -/
def TableOK (cfg : Nat → Cfg) (tab : Table) (log : List Ev) : Prop :=
  Keyed tab ∧ ∀ h s, (⟨h, s⟩ : Row) ∈ tab ↔ Present cfg log h ∧ ∃ u, LastTouch cfg log h u ∧ unix u = s

theorem TableOK.exists_iff {cfg : Nat → Cfg} {tab : Table} {log : List Ev} (hT : TableOK cfg tab log) (h : Bytes) :
    (∃ s, (⟨h, s⟩ : Row) ∈ tab) ↔ Present cfg log h := by
  constructor
  · rintro ⟨s, hs⟩; exact ((hT.2 h s).1 hs).1
  · intro hp
    obtain ⟨u, hu⟩ := present_touched hp
    exact ⟨unix u, (hT.2 h _).2 ⟨hp, u, hu, rfl⟩⟩

/-- An event that is neither a touch nor an eviction changes no membership. -/
theorem TableOK.silent {cfg : Nat → Cfg} {tab : Table} {log : List Ev} (hT : TableOK cfg tab log) (e : Ev)
    (h1 : ∀ h, touchOf cfg h e = none) (h2 : ∀ c n k, e ≠ .evicted c n k) : TableOK cfg tab (log ++ [e]) := by
  refine ⟨hT.1, ?_⟩
  intro h s
  rw [hT.2 h s, present_snoc]
  simp only [lastTouch_snoc, h1 h]
  constructor
  · rintro ⟨hp, u, hu, rfl⟩
    exact ⟨.inr ⟨hp, fun c n k he => absurd he (h2 c n k)⟩, u, .inr ⟨trivial, hu⟩, rfl⟩
  · rintro ⟨hp, u, hu, rfl⟩
    refine ⟨?_, u, ?_, rfl⟩
    · rcases hp with ⟨c, t, rfl⟩ | hp
      · have := h1 h; simp [touchOf] at this
      · exact hp.1
    · rcases hu with hu | hu
      · cases hu
      · exact hu.2

theorem TableOK.added {cfg : Nat → Cfg} {tab : Table} {log : List Ev} (hT : TableOK cfg tab log) (c : Nat) (b : Bytes)
    (t : Int) : TableOK cfg (sqlUpsert tab b (unix t)) (log ++ [.added c b t]) := by
  refine ⟨keyed_upsert hT.1 _ _, ?_⟩
  intro h s
  rw [mem_upsert, present_snoc, hT.2 h s]
  simp only [lastTouch_snoc, touchOf]
  by_cases hb : b = h
  · subst hb
    constructor
    · rintro (⟨h1, -⟩ | h1)
      · exact absurd rfl h1
      · cases h1; exact ⟨.inl ⟨c, t, rfl⟩, t, by simp, rfl⟩
    · rintro ⟨-, u, hu, rfl⟩
      simp only [if_true, Option.some.injEq, reduceCtorEq, false_and, or_false] at hu
      subst hu; exact .inr rfl
  · simp only [if_neg hb, reduceCtorEq, false_or, true_and]
    constructor
    · rintro (⟨-, h1, h2⟩ | h1)
      · exact ⟨.inr ⟨h1, by simp⟩, h2⟩
      · cases h1; exact absurd rfl hb
    · rintro ⟨h1, h2⟩
      rcases h1 with ⟨c', t', h1⟩ | h1
      · cases h1; exact absurd rfl hb
      · exact .inl ⟨fun h3 => hb h3.symm, h1.1, h2⟩

theorem TableOK.evicted {cfg : Nat → Cfg} {tab : Table} {log : List Ev} (hT : TableOK cfg tab log) (c : Nat)
    (now keep : Int) : TableOK cfg (sqlDelete tab (unix (now - keep))) (log ++ [.evicted c now keep]) := by
  refine ⟨keyed_delete hT.1 _, ?_⟩
  intro h s
  rw [mem_delete, present_snoc, hT.2 h s]
  simp only [lastTouch_snoc, touchOf, reduceCtorEq, false_or, true_and]
  constructor
  · rintro ⟨⟨hp, u, hu, rfl⟩, h2⟩
    refine ⟨.inr ⟨hp, ?_⟩, u, hu, rfl⟩
    rintro c' n k he v hv
    cases he
    rw [lastTouch_uniq hv hu]; exact h2
  · rintro ⟨hp, u, hu, rfl⟩
    rcases hp with ⟨c', t', h1⟩ | ⟨hp, h1⟩
    · cases h1
    · exact ⟨⟨hp, u, hu, rfl⟩, h1 c now keep rfl u hu⟩

theorem TableOK.looked {cfg : Nat → Cfg} {tab : Table} {log : List Ev} (hT : TableOK cfg tab log) (c : Nat) (b : Bytes)
    (t : Int) (hu : (cfg c).updateOnAccess = true) :
    TableOK cfg (sqlUpdate tab (unix t) b).1 (log ++ [.looked c b t (decide ((sqlUpdate tab (unix t) b).2 > 0))]) := by
  refine ⟨keyed_update hT.1 _ _, ?_⟩
  have hc : (sqlUpdate tab (unix t) b).2 > 0 ↔ Present cfg log b := by
    rw [← hT.exists_iff b, ← count_pos]; rfl
  intro h s
  rw [mem_update, present_snoc, hT.2 h s, hT.exists_iff b]
  simp only [lastTouch_snoc, touchOf, hu, and_true]
  by_cases hp : Present cfg log b
  · have hd : decide ((sqlUpdate tab (unix t) b).2 > 0) = true := by simpa using hc.2 hp
    rw [hd]
    by_cases hb : b = h
    · subst hb
      simp only [hp, and_true, if_true, Option.some.injEq, reduceCtorEq, false_and, or_false, ne_eq, true_and,
        not_true_eq_false, false_or, exists_false, false_implies, implies_true]
      constructor
      · rintro h1; cases h1; exact ⟨t, rfl, rfl⟩
      · rintro ⟨u, rfl, rfl⟩; rfl
    · have hb' : h ≠ b := fun h1 => hb h1.symm
      simp only [hb, false_and, if_false, reduceCtorEq, false_or, true_and, hb', ne_eq, not_false_eq_true, hp,
        exists_false, and_true, false_implies, implies_true]
      constructor
      · rintro (h1 | h1)
        · exact h1
        · cases h1; exact absurd rfl hb
      · exact .inl
  · have hd : decide ((sqlUpdate tab (unix t) b).2 > 0) = false := by
      rw [decide_eq_false_iff_not, hc]; exact hp
    rw [hd]
    simp only [hp, Bool.false_eq_true, and_false, if_false, reduceCtorEq, false_or, true_and, exists_false, or_false,
      false_implies, implies_true, and_true]
    constructor
    · exact fun h1 => h1.2
    · intro h1
      exact ⟨fun h2 => hp (h2 ▸ h1.1), h1⟩

/-- Part of a log that contains no call of client `c`. -/
def NoCall (c : Nat) (l : List Ev) : Prop := ∀ op now, Ev.call c op now ∉ l

/-- What the log says about the call a client is in. -/
def PcOK (cfg : Nat → Cfg) (log : List Ev) (c : Nat) : PC → Prop
  | .idle => True
  | .dead => True
  | .insert h now => ∃ pre mid, log = pre ++ .call c (.add h) now :: mid ∧ NoCall c mid
  | .look h now => ∃ pre mid, log = pre ++ .call c (.has h) now :: mid ∧ NoCall c mid
  | .evict h now => 0 < (cfg c).keep ∧ ∃ b, h = some b ∧ ∃ pre mid mid',
      log = pre ++ .call c (.add h) now :: (mid ++ .added c b now :: mid') ∧ NoCall c mid ∧ NoCall c mid'
  | .done (.add h) .ok => ∃ b, h = some b ∧ ∃ now pre mid mid',
      log = pre ++ .call c (.add h) now :: (mid ++ .added c b now :: mid')
      ∧ NoCall c mid ∧ NoCall c mid' ∧ (0 < (cfg c).keep → Ev.evicted c now (cfg c).keep ∈ mid')
  | .done (.has (some b)) (.found v) => ∃ now pre mid mid',
      log = pre ++ .call c (.has (some b)) now :: (mid ++ .looked c b now v :: mid') ∧ NoCall c mid ∧ NoCall c mid'
  | .done (.has none) (.found v) => v = false
  | .done _ .err => True
  | .done (.add _) (.found _) => False
  | .done (.has _) .ok => False

theorem pcOK_err {cfg : Nat → Cfg} {log : List Ev} {c : Nat} {op : Op} : PcOK cfg log c (.done op .err) := by
  cases op with
  | add h => trivial
  | has h => cases h <;> trivial

theorem noCall_snoc {c : Nat} {l : List Ev} {e : Ev} (h : NoCall c l) (he : ∀ op now, e ≠ .call c op now) : NoCall c (l ++ [e]) := by
  intro op now hm
  rcases List.mem_append.1 hm with h1 | h1
  · exact h op now h1
  · simp only [List.mem_singleton] at h1; exact he op now h1.symm

theorem PcOK.snoc {cfg : Nat → Cfg} {log : List Ev} {c : Nat} {p : PC} (h : PcOK cfg log c p) {e : Ev}
    (he : ∀ op now, e ≠ .call c op now) : PcOK cfg (log ++ [e]) c p := by
  unfold PcOK at *
  split at h
  · trivial
  · trivial
  · obtain ⟨pre, mid, rfl, hm⟩ := h
    exact ⟨pre, mid ++ [e], by simp, noCall_snoc hm he⟩
  · obtain ⟨pre, mid, rfl, hm⟩ := h
    exact ⟨pre, mid ++ [e], by simp, noCall_snoc hm he⟩
  · obtain ⟨hk, b, hb, pre, mid, mid', rfl, hm, hm'⟩ := h
    exact ⟨hk, b, hb, pre, mid, mid' ++ [e], by simp, hm, noCall_snoc hm' he⟩
  · obtain ⟨b, hb, now, pre, mid, mid', rfl, hm, hm', hev⟩ := h
    exact ⟨b, hb, now, pre, mid, mid' ++ [e], by simp, hm, noCall_snoc hm' he,
      fun hk => List.mem_append_left _ (hev hk)⟩
  · obtain ⟨now, pre, mid, mid', rfl, hm, hm'⟩ := h
    exact ⟨now, pre, mid, mid' ++ [e], by simp, hm, noCall_snoc hm' he⟩
  · exact h
  · trivial
  · exact h
  · exact h

/-- What the log says about finished calls and statements. -/
structure LogOK (cfg : Nat → Cfg) (log : List Ev) : Prop where
  looked : ∀ pre c h t b post, log = pre ++ .looked c h t b :: post → (b = true ↔ Present cfg pre h) ∧
    ∃ p mid, pre = p ++ .call c (.has (some h)) t :: mid ∧ NoCall c mid
  added : ∀ pre c h t post, log = pre ++ .added c h t :: post →
    ∃ p mid, pre = p ++ .call c (.add (some h)) t :: mid ∧ NoCall c mid
  evicted : ∀ pre c now keep post, log = pre ++ .evicted c now keep :: post → keep = (cfg c).keep ∧ 0 < keep ∧
    ∃ h p mid mid', pre = p ++ .call c (.add (some h)) now :: (mid ++ .added c h now :: mid') ∧
      NoCall c mid ∧ NoCall c mid'
  ret : ∀ pre c op r post, log = pre ++ .ret c op r :: post → PcOK cfg pre c (.done op r)

theorem LogOK.snoc {cfg : Nat → Cfg} {log : List Ev} (h : LogOK cfg log) {e : Ev}
    (h1 : ∀ c b t v, e = .looked c b t v → (v = true ↔ Present cfg log b) ∧
      ∃ p mid, log = p ++ .call c (.has (some b)) t :: mid ∧ NoCall c mid)
    (h0 : ∀ c b t, e = .added c b t → ∃ p mid, log = p ++ .call c (.add (some b)) t :: mid ∧ NoCall c mid)
    (h2 : ∀ c n k, e = .evicted c n k → k = (cfg c).keep ∧ 0 < k ∧
      ∃ b p mid mid', log = p ++ .call c (.add (some b)) n :: (mid ++ .added c b n :: mid') ∧ NoCall c mid ∧ NoCall c mid')
    (h3 : ∀ c op r, e = .ret c op r → PcOK cfg log c (.done op r)) : LogOK cfg (log ++ [e]) := by
  refine ⟨?_, ?_, ?_, ?_⟩
  · intro pre c b t v post he
    rcases snoc_eq.1 he with ⟨rfl, rfl, rfl⟩ | ⟨q', rfl, rfl⟩
    · exact h1 _ _ _ _ rfl
    · exact h.looked _ _ _ _ _ _ rfl
  · intro pre c b t post he
    rcases snoc_eq.1 he with ⟨rfl, rfl, rfl⟩ | ⟨q', rfl, rfl⟩
    · exact h0 _ _ _ rfl
    · exact h.added _ _ _ _ _ rfl
  · intro pre c n k post he
    rcases snoc_eq.1 he with ⟨rfl, rfl, rfl⟩ | ⟨q', rfl, rfl⟩
    · exact h2 _ _ _ rfl
    · exact h.evicted _ _ _ _ _ rfl
  · intro pre c op r post he
    rcases snoc_eq.1 he with ⟨rfl, rfl, rfl⟩ | ⟨q', rfl, rfl⟩
    · exact h3 _ _ _ rfl
    · exact h.ret _ _ _ _ _ rfl

structure Inv (cfg : Nat → Cfg) (s : St) : Prop where
  table : TableOK cfg s.table s.log
  pcs : ∀ c, PcOK cfg s.log c (s.pc c)
  log : LogOK cfg s.log

theorem inv_init (cfg : Nat → Cfg) : Inv cfg init := by
  refine ⟨⟨by simp [Keyed, init], ?_⟩, fun c => trivial, ⟨?_, ?_, ?_, ?_⟩⟩
  · intro h s
    simp only [init, List.not_mem_nil, false_iff]
    rintro ⟨⟨p, c, t, q, h1, -⟩, -⟩; simp at h1
  · intro pre c h t b post h1; simp [init] at h1
  · intro pre c h t post h1; simp [init] at h1
  · intro pre c n k post h1; simp [init] at h1
  · intro pre c op r post h1; simp [init] at h1

theorem Inv.setPc {cfg : Nat → Cfg} {s : St} (h : Inv cfg s) {c : Nat} {p : PC} (hp : PcOK cfg s.log c p) :
    Inv cfg (s.setPc c p) := by
  refine ⟨h.table, ?_, h.log⟩
  intro c'
  simp only [St.setPc]
  split
  · rename_i h1; subst h1; exact hp
  · exact h.pcs c'

/-- A statement or return of client `c`, seen from all program counters. -/
theorem pcs_snoc {cfg : Nat → Cfg} {s : St} (h : Inv cfg s) {e : Ev} (he : ∀ c op now, e ≠ .call c op now) (c : Nat) :
    PcOK cfg (s.log ++ [e]) c (s.pc c) := (h.pcs c).snoc (he c)

theorem inv_step {cfg : Nat → Cfg} {s : St} (h : Inv cfg s) (a : Act) : Inv cfg (step cfg s a) := by
  cases a with
  | call c op now =>
    simp only [step]
    split
    · rename_i hpc
      refine ⟨h.table.silent _ (by simp [touchOf]) (by simp), ?_, h.log.snoc (by simp) (by simp) (by simp) (by simp)⟩
      intro c'
      simp only [St.setPc, St.emit]
      split
      · rename_i h1; subst h1
        cases op with
        | add k => exact ⟨s.log, [], rfl, by simp [NoCall]⟩
        | has k => exact ⟨s.log, [], rfl, by simp [NoCall]⟩
      · rename_i h1
        exact (h.pcs c').snoc (by intro op' now' h2; cases h2; exact h1 rfl)
    · exact h
  | exec c f =>
    simp only [step]
    split
    · rename_i k now hpc
      have hk := h.pcs c
      rw [hpc] at hk
      have hins : ∀ b, k = some b →
          Inv cfg ({ s with table := sqlUpsert s.table b (unix now) }.emit (.added c b now)) := by
        intro b hb
        obtain ⟨pre, mid, h1, h2⟩ := hk
        refine ⟨h.table.added _ _ _, pcs_snoc h (by simp), h.log.snoc (by simp) ?_ (by simp) (by simp)⟩
        rintro c' b' t h4; cases h4; exact ⟨pre, mid, hb ▸ h1, h2⟩
      have hadd : ∀ b, k = some b → ∃ pre mid mid', s.log ++ [Ev.added c b now] =
          pre ++ .call c (.add k) now :: (mid ++ .added c b now :: mid') ∧ NoCall c mid ∧ NoCall c mid' := by
        intro b _
        obtain ⟨pre, mid, h1, h2⟩ := hk
        exact ⟨pre, mid, [], by simp [h1], h2, by simp [NoCall]⟩
      unfold stepInsert
      split
      · exact h.setPc pcOK_err
      · exact h.setPc pcOK_err
      · exact (hins _ rfl).setPc pcOK_err
      · split
        · rename_i hkeep
          exact (hins _ rfl).setPc ⟨hkeep, _, rfl, hadd _ rfl⟩
        · rename_i hkeep
          obtain ⟨pre, mid, mid', h1, h2, h3⟩ := hadd _ rfl
          exact (hins _ rfl).setPc ⟨_, rfl, now, pre, mid, mid', h1, h2, h3, fun h4 => absurd h4 hkeep⟩
    · rename_i k now hpc
      have hk := h.pcs c
      rw [hpc] at hk
      obtain ⟨hkeep, b, hb, pre, mid, mid', h1, h2, h3⟩ := hk
      have hev : Inv cfg ({ s with table := sqlDelete s.table (unix (now - (cfg c).keep)) }.emit
          (.evicted c now (cfg c).keep)) :=
        ⟨h.table.evicted _ _ _, pcs_snoc h (by simp),
          h.log.snoc (by simp) (by simp)
            (by rintro c' n k' h4; cases h4; exact ⟨rfl, hkeep, b, pre, mid, mid', hb ▸ h1, h2, h3⟩) (by simp)⟩
      unfold stepEvict
      split
      · exact h.setPc pcOK_err
      · exact hev.setPc pcOK_err
      · refine hev.setPc ⟨b, hb, now, pre, mid, mid' ++ [.evicted c now (cfg c).keep], ?_, h2, ?_, by simp⟩
        · simp [St.emit, h1]
        · exact noCall_snoc h3 (by simp)
    · rename_i k now hpc
      have hk := h.pcs c
      rw [hpc] at hk
      obtain ⟨pre, mid, h1, h2⟩ := hk
      unfold stepLook
      split
      · exact h.setPc pcOK_err
      · exact h.setPc pcOK_err
      · exact h.setPc (by rfl)
      · rename_i b _
        split
        · rename_i hu
          have hv : decide ((sqlUpdate s.table (unix now) b).2 > 0) = true ↔ Present cfg s.log b := by
            rw [decide_eq_true_eq, ← h.table.exists_iff b, ← count_pos]; rfl
          have hI : Inv cfg ({ s with table := (sqlUpdate s.table (unix now) b).1 }.emit
              (.looked c b now (decide ((sqlUpdate s.table (unix now) b).2 > 0)))) :=
            ⟨h.table.looked _ _ _ hu, pcs_snoc h (by simp),
              h.log.snoc (by rintro c' b' t v h4; cases h4; exact ⟨hv, pre, mid, h1, h2⟩) (by simp) (by simp) (by simp)⟩
          refine hI.setPc ?_
          split
          · exact pcOK_err
          · exact ⟨now, pre, mid, [], by simp [St.emit, h1], h2, by simp [NoCall]⟩
        · rename_i hu
          have hv : decide (sqlCount s.table b > 0) = true ↔ Present cfg s.log b := by
            rw [decide_eq_true_eq, ← h.table.exists_iff b, ← count_pos]
          have hI : Inv cfg (s.emit (.looked c b now (decide (sqlCount s.table b > 0)))) :=
            ⟨h.table.silent _ (by simp [touchOf, hu]) (by simp), pcs_snoc h (by simp),
              h.log.snoc (by rintro c' b' t v h4; cases h4; exact ⟨hv, pre, mid, h1, h2⟩) (by simp) (by simp) (by simp)⟩
          refine hI.setPc ?_
          split
          · exact pcOK_err
          · exact ⟨now, pre, mid, [], by simp [St.emit, h1], h2, by simp [NoCall]⟩
    · exact h
  | ret c =>
    simp only [step]
    split
    · rename_i op r hpc
      have hk := h.pcs c
      rw [hpc] at hk
      have hI : Inv cfg (s.emit (.ret c op r)) :=
        ⟨h.table.silent _ (by simp [touchOf]) (by simp), pcs_snoc h (by simp),
          h.log.snoc (by simp) (by simp) (by simp) (by rintro c' op' r' h4; cases h4; exact hk)⟩
      exact hI.setPc trivial
    · exact h
  | crash c => exact h.setPc trivial

theorem inv_run (cfg : Nat → Cfg) (acts : List Act) : Inv cfg (run cfg acts) := by
  unfold run
  have : ∀ (l : List Act) (s : St), Inv cfg s → Inv cfg (l.foldl (step cfg) s) := by
    intro l
    induction l with
    | nil => intro s hs; exact hs
    | cons a l ih => intro s hs; exact ih _ (inv_step hs a)
  exact this acts _ (inv_init cfg)

/-! ## C31 -/

/-- **C31** Whenever `Has(h)` returns, its answer is exact membership at some moment between its call and its return:
true iff `h` had been added and not been evicted since. -/
theorem C31_has_exact (cfg : Nat → Cfg) (acts : List Act) (pre : List Ev) (c : Nat) (h : Bytes) (b : Bool)
    (post : List Ev) (hl : (run cfg acts).log = pre ++ .ret c (.has (some h)) (.found b) :: post) :
    ∃ p1 now p2 p3, pre = p1 ++ .call c (.has (some h)) now :: (p2 ++ .looked c h now b :: p3) ∧
      NoCall c p2 ∧ NoCall c p3 ∧ (b = true ↔ Present cfg (p1 ++ .call c (.has (some h)) now :: p2) h) := by
  have hI := (inv_run cfg acts).log
  obtain ⟨now, p1, p2, p3, h1, h2, h3⟩ := hI.ret _ _ _ _ _ hl
  refine ⟨p1, now, p2, p3, h1, h2, h3, ?_⟩
  exact (hI.looked (p1 ++ .call c (.has (some h)) now :: p2) c h now b (p3 ++ .ret c (.has (some h)) (.found b) :: post)
    (by rw [hl, h1]; simp)).1

/-- **C31** An `Add(h)` that returns nil has put `h` in, at some moment between its call and its return. -/
theorem C31_add_adds (cfg : Nat → Cfg) (acts : List Act) (pre : List Ev) (c : Nat) (h : Bytes) (post : List Ev)
    (hl : (run cfg acts).log = pre ++ .ret c (.add (some h)) .ok :: post) :
    ∃ p1 now p2 p3, pre = p1 ++ .call c (.add (some h)) now :: (p2 ++ .added c h now :: p3) ∧
      NoCall c p2 ∧ NoCall c p3 := by
  have hI := (inv_run cfg acts).log
  obtain ⟨b, hb, now, p1, p2, p3, h1, h2, h3, -⟩ := hI.ret _ _ _ _ _ hl
  cases hb
  exact ⟨p1, now, p2, p3, h1, h2, h3⟩

/-- **C31** Only `Add(h)` adds `h`: `Has` never inserts and no call inserts another hash. -/
theorem C31_only_add_adds (cfg : Nat → Cfg) (acts : List Act) (pre : List Ev) (c : Nat) (h : Bytes) (t : Int)
    (post : List Ev) (hl : (run cfg acts).log = pre ++ .added c h t :: post) :
    ∃ p mid, pre = p ++ .call c (.add (some h)) t :: mid ∧ NoCall c mid :=
  (inv_run cfg acts).log.added _ _ _ _ _ hl

/-- **C31** Nil hashes: `Has(nil)` never answers true and `Add(nil)` never returns nil. -/
theorem C31_nil (cfg : Nat → Cfg) (acts : List Act) (c : Nat) :
    Ev.ret c (.has none) (.found true) ∉ (run cfg acts).log ∧ Ev.ret c (.add none) .ok ∉ (run cfg acts).log := by
  have hI := (inv_run cfg acts).log
  constructor <;> intro hm <;> obtain ⟨pre, post, hl⟩ := List.append_of_mem hm
  · have := hI.ret _ _ _ _ _ hl; simp [PcOK] at this
  · obtain ⟨b, hb, -⟩ := hI.ret _ _ _ _ _ hl; cases hb

/-! ## C32 -/

/-- Only a client opened with `Keep` evicts, and it does so during an `Add`, with that call's clock reading. -/
theorem evicted_from_add (cfg : Nat → Cfg) (acts : List Act) {c : Nat} {now keep : Int}
    (hm : Ev.evicted c now keep ∈ (run cfg acts).log) :
    keep = (cfg c).keep ∧ 0 < keep ∧ ∃ h, Ev.call c (.add (some h)) now ∈ (run cfg acts).log := by
  obtain ⟨pre, post, hl⟩ := List.append_of_mem hm
  obtain ⟨h1, h2, h, p, mid, mid', h3, -⟩ := (inv_run cfg acts).log.evicted _ _ _ _ _ hl
  exact ⟨h1, h2, h, by rw [hl, h3]; simp⟩

theorem present_append {cfg : Nat → Cfg} {h : Bytes} {t : Int} : ∀ {l2 l1 : List Ev},
    LastTouch cfg l1 h t → (∀ e ∈ l2, touchOf cfg h e = none) →
    LastTouch cfg (l1 ++ l2) h t ∧ (Present cfg (l1 ++ l2) h ↔ Present cfg l1 h ∧
      ∀ c now keep, Ev.evicted c now keep ∈ l2 → ¬ Expired t now keep) := by
  intro l2
  induction l2 using List.reverseRecOn with
  | nil => intro l1 h1 _; simp [h1]
  | append_singleton l e ih =>
    intro l1 h1 h2
    obtain ⟨i1, i2⟩ := ih h1 (fun e' he' => h2 e' (by simp [he']))
    have he := h2 e (by simp)
    rw [← List.append_assoc]
    refine ⟨lastTouch_snoc.2 (.inr ⟨he, i1⟩), ?_⟩
    rw [present_snoc, i2]
    constructor
    · rintro (⟨c, u, rfl⟩ | ⟨⟨h3, h4⟩, h5⟩)
      · simp [touchOf] at he
      · refine ⟨h3, ?_⟩
        intro c now keep hm
        rcases List.mem_append.1 hm with h6 | h6
        · exact h4 _ _ _ h6
        · simp only [List.mem_singleton] at h6
          exact h5 c now keep h6.symm t i1
    · rintro ⟨h3, h4⟩
      refine .inr ⟨⟨h3, fun c now keep hm => h4 c now keep (List.mem_append_left _ hm)⟩, ?_⟩
      rintro c now keep rfl u hu
      rw [lastTouch_uniq hu i1]
      exact h4 c now keep (by simp)

/-- **C32** The exact rule.  If `e` was the last touch of `h`, at time `t` (an `Add`, or a `Has` that found it with
update-on-access), then a later lookup finds `h` iff no eviction in between had a cut-off later than the second of
`t`. -/
theorem C32_exact (cfg : Nat → Cfg) (acts : List Act) (l1 l2 l3 : List Ev) (e : Ev) (c : Nat) (h : Bytes) (t now : Int)
    (b : Bool) (hl : (run cfg acts).log = l1 ++ e :: (l2 ++ .looked c h now b :: l3)) (ht : touchOf cfg h e = some t)
    (h2 : ∀ e' ∈ l2, touchOf cfg h e' = none) :
    b = true ↔ ∀ c' now' keep', Ev.evicted c' now' keep' ∈ l2 → unix (now' - keep') ≤ unix t := by
  have hI := (inv_run cfg acts).log
  have h3 : LastTouch cfg (l1 ++ [e]) h t := lastTouch_snoc.2 (.inl ht)
  have h4 : Present cfg (l1 ++ [e]) h := by
    rw [present_snoc]
    cases e with
    | added c' h' t' =>
      simp only [touchOf] at ht
      split at ht
      · rename_i h5; subst h5; exact .inl ⟨_, _, rfl⟩
      · cases ht
    | looked c' h' t' b' =>
      simp only [touchOf] at ht
      split at ht
      · rename_i h5
        obtain ⟨rfl, rfl, -⟩ := h5
        exact .inr ⟨((hI.looked _ _ _ _ _ _ hl).1).1 rfl, by simp⟩
      · cases ht
    | call => simp [touchOf] at ht
    | evicted => simp [touchOf] at ht
    | ret => simp [touchOf] at ht
  have h5 := (present_append h3 h2).2
  have h6 : (run cfg acts).log = ((l1 ++ [e]) ++ l2) ++ .looked c h now b :: l3 := by rw [hl]; simp
  rw [(hI.looked _ _ _ _ _ _ h6).1, h5]
  simp only [h4, true_and, Expired]
  constructor
  · intro h7 c' n k hm; have := h7 c' n k hm; omega
  · intro h7 c' n k hm; have := h7 c' n k hm; omega

/-- **C32** An entry whose last touch is within every evicting client's `Keep` duration survives: it is still found. -/
theorem C32_fresh_survives (cfg : Nat → Cfg) (acts : List Act) (l1 l2 l3 : List Ev) (e : Ev) (c : Nat) (h : Bytes)
    (t now : Int) (b : Bool) (hl : (run cfg acts).log = l1 ++ e :: (l2 ++ .looked c h now b :: l3))
    (ht : touchOf cfg h e = some t) (h2 : ∀ e' ∈ l2, touchOf cfg h e' = none)
    (h3 : ∀ c' now', Ev.evicted c' now' (cfg c').keep ∈ l2 → now' - t ≤ (cfg c').keep) : b = true := by
  rw [C32_exact cfg acts l1 l2 l3 e c h t now b hl ht h2]
  intro c' n k hm
  have h4 := (evicted_from_add cfg acts (c := c') (now := n) (keep := k) (by rw [hl]; simp [hm])).1
  subst h4
  have := h3 c' n hm
  unfold unix
  omega

/-- **C32** After an `Add` by a client opened with `Keep(d)` has returned nil, every entry last touched more than `d` plus
one second before that `Add`'s time is gone. -/
theorem C32_old_evicted (cfg : Nat → Cfg) (acts : List Act) (l1 l2 l3 l4 : List Ev) (e : Ev) (c c' : Nat) (h h' : Bytes)
    (t now now' : Int) (b : Bool)
    (hl : (run cfg acts).log = l1 ++ e :: (l2 ++ .ret c' (.add (some h')) .ok :: (l3 ++ .looked c h now b :: l4)))
    (ht : touchOf cfg h e = some t) (h2 : ∀ e' ∈ l2 ++ l3, touchOf cfg h e' = none)
    (hk : 0 < (cfg c').keep) (hcall : ∃ p mid, l2 = p ++ .call c' (.add (some h')) now' :: mid ∧ NoCall c' mid)
    (hold : t + 1000000000 ≤ now' - (cfg c').keep) : b = false := by
  have hI := (inv_run cfg acts).log
  obtain ⟨p, mid, rfl, hmid⟩ := hcall
  obtain ⟨b1, hb1, n1, q1, q2, q3, g1, g2, g3, g4⟩ := hI.ret (l1 ++ e :: (p ++ .call c' (.add (some h')) now' :: mid)) c'
    (.add (some h')) .ok (l3 ++ .looked c h now b :: l4) (by rw [hl]; simp)
  cases hb1
  -- the last call of c' is the same in both decompositions
  have key : ∀ {a a' : List Ev} {x x' : Ev} {m m' : List Ev}, a ++ x :: m = a' ++ x' :: m' →
      (∃ o n, x = .call c' o n) → (∃ o n, x' = .call c' o n) → NoCall c' m → NoCall c' m' → x = x' ∧ m = m' := by
    intro a a' x x' m m' heq hx hx' hm hm'
    rw [List.append_eq_append_iff] at heq
    rcases heq with ⟨w, h5, h6⟩ | ⟨w, h5, h6⟩
    · cases w with
      | nil => simp only [List.nil_append, List.cons.injEq] at h6; exact h6
      | cons y w =>
        simp only [List.cons_append, List.cons.injEq] at h6
        obtain ⟨o, n, rfl⟩ := hx'
        exact absurd (by rw [h6.2]; simp) (hm o n)
    · cases w with
      | nil => simp only [List.nil_append, List.cons.injEq] at h6; exact ⟨h6.1.symm, h6.2.symm⟩
      | cons y w =>
        simp only [List.cons_append, List.cons.injEq] at h6
        obtain ⟨o, n, rfl⟩ := hx
        exact absurd (by rw [h6.2]; simp) (hm' o n)
  have hm2 : NoCall c' (q2 ++ .added c' h' n1 :: q3) := by
    intro o n hm
    simp only [List.mem_append, List.mem_cons, reduceCtorEq, false_or] at hm
    rcases hm with h5 | h5
    · exact g2 o n h5
    · exact g3 o n h5
  have e1 : (l1 ++ e :: p) ++ .call c' (.add (some h')) now' :: mid =
      q1 ++ .call c' (.add (some h')) n1 :: (q2 ++ .added c' h' n1 :: q3) := by rw [← g1]; simp
  obtain ⟨k1, k2⟩ := key e1 ⟨_, _, rfl⟩ ⟨_, _, rfl⟩ hmid hm2
  cases k1
  by_contra hb
  have hb : b = true := by simpa using hb
  have := (C32_exact cfg acts l1 ((p ++ .call c' (.add (some h')) now' :: mid) ++ .ret c' (.add (some h')) .ok :: l3) l4 e c h t
    now b (by rw [hl]; simp) ht (by
      intro e' he'
      simp only [List.mem_append, List.mem_cons] at he'
      rcases he' with h5 | rfl | h5
      · exact h2 e' (by simp only [List.mem_append, List.mem_cons]; tauto)
      · rfl
      · exact h2 e' (by simp [h5]))).1 hb c' now' (cfg c').keep (by
      rw [k2]
      simp only [List.mem_append, List.mem_cons]
      exact .inl (.inr (.inr (.inr (.inr (g4 hk))))))
  unfold unix at this
  omega

/-- **C32** If no client was opened with `Keep`, nothing is ever evicted: `Has(h)` is true iff `h` was ever added before. -/
theorem C32_no_keep (cfg : Nat → Cfg) (acts : List Act) (hk : ∀ c, (cfg c).keep ≤ 0) (l1 l2 : List Ev) (c : Nat)
    (h : Bytes) (now : Int) (b : Bool) (hl : (run cfg acts).log = l1 ++ .looked c h now b :: l2) :
    b = true ↔ ∃ c' t, Ev.added c' h t ∈ l1 := by
  have hI := (inv_run cfg acts).log
  rw [(hI.looked _ _ _ _ _ _ hl).1]
  constructor
  · rintro ⟨p, c', t, q, rfl, -⟩; exact ⟨c', t, by simp⟩
  · rintro ⟨c', t, hm⟩
    obtain ⟨p, q, rfl⟩ := List.append_of_mem hm
    refine ⟨p, c', t, q, rfl, ?_⟩
    rintro p' c'' n k q' rfl
    have h1 := evicted_from_add cfg acts (c := c'') (now := n) (keep := k) (by rw [hl]; simp)
    have := hk c''
    omega

/-! ## C33 -/

theorem present_stays {cfg : Nat → Cfg} {h : Bytes} {T : Int} : ∀ {l2 l1 : List Ev} {t : Int},
    Present cfg l1 h → LastTouch cfg l1 h t → T ≤ t → (∀ e ∈ l2, ∀ u, touchOf cfg h e = some u → T ≤ u) →
    (∀ c now keep, Ev.evicted c now keep ∈ l2 → now - keep ≤ T) →
    Present cfg (l1 ++ l2) h ∧ ∃ u, LastTouch cfg (l1 ++ l2) h u ∧ T ≤ u := by
  intro l2
  induction l2 using List.reverseRecOn with
  | nil => intro l1 t h1 h2 h3 _ _; rw [List.append_nil]; exact ⟨h1, t, h2, h3⟩
  | append_singleton l e ih =>
    intro l1 t h1 h2 h3 h4 h5
    obtain ⟨i1, u, i2, i3⟩ := ih h1 h2 h3 (fun e' he' => h4 e' (by simp [he'])) (fun c n k hm => h5 c n k (by simp [hm]))
    rw [← List.append_assoc]
    constructor
    · refine present_snoc.2 (.inr ⟨i1, ?_⟩)
      rintro c n k rfl v hv
      rw [lastTouch_uniq hv i2]
      have := h5 c n k (by simp)
      unfold Expired unix
      omega
    · cases h6 : touchOf cfg h e with
      | none => exact ⟨u, lastTouch_snoc.2 (.inr ⟨h6, i2⟩), i3⟩
      | some v => exact ⟨v, lastTouch_snoc.2 (.inl h6), h4 e (by simp) v h6⟩

/-- **C33** Under every interleaving of the statements of any number of clients, with failures and crashes anywhere: once an
`Add(h)` has returned nil, every later lookup of `h` finds it, as long as it has not expired — that is, as long as there
is a time `T` such that no call touching `h` since then has an earlier clock reading, and no evicting call's clock has
got more than its `Keep` duration past `T`. -/
theorem C33_add_is_kept (cfg : Nat → Cfg) (acts : List Act) (l1 l2 l3 l4 : List Ev) (c c' : Nat) (h : Bytes) (now now' T : Int)
    (b : Bool)
    (hl : (run cfg acts).log = l1 ++ .call c (.add (some h)) now :: (l2 ++ .ret c (.add (some h)) .ok ::
      (l3 ++ .looked c' h now' b :: l4)))
    (hcall : NoCall c l2)
    (htouch : ∀ e ∈ l2 ++ l3, ∀ u, touchOf cfg h e = some u → T ≤ u)
    (hev : ∀ c'' now'', Ev.evicted c'' now'' (cfg c'').keep ∈ l2 ++ l3 → now'' - T ≤ (cfg c'').keep) :
    b = true := by
  have hI := (inv_run cfg acts).log
  obtain ⟨b1, hb1, n1, q1, q2, q3, g1, g2, g3, -⟩ := hI.ret (l1 ++ .call c (.add (some h)) now :: l2) c
    (.add (some h)) .ok (l3 ++ .looked c' h now' b :: l4) (by rw [hl]; simp)
  cases hb1
  -- the `added` event of this call lies in `l2`
  have hmem : ∃ w1 w2, l2 = w1 ++ .added c h n1 :: w2 := by
    have hm2 : NoCall c (q2 ++ .added c h n1 :: q3) := by
      intro o n hm
      simp only [List.mem_append, List.mem_cons, reduceCtorEq, false_or] at hm
      rcases hm with h5 | h5
      · exact g2 o n h5
      · exact g3 o n h5
    rw [List.append_eq_append_iff] at g1
    rcases g1 with ⟨w, h5, h6⟩ | ⟨w, h5, h6⟩
    · cases w with
      | nil => simp only [List.nil_append, List.cons.injEq] at h6; exact ⟨q2, q3, h6.2⟩
      | cons y w =>
        simp only [List.cons_append, List.cons.injEq] at h6
        exact absurd (by rw [h6.2]; simp) (hcall (.add (some h)) n1)
    · cases w with
      | nil => simp only [List.nil_append, List.cons.injEq] at h6; exact ⟨q2, q3, h6.2.symm⟩
      | cons y w =>
        simp only [List.cons_append, List.cons.injEq] at h6
        exact absurd (by rw [h6.2]; simp) (hm2 (.add (some h)) now)
  obtain ⟨w1, w2, rfl⟩ := hmem
  have h1 : Present cfg ((l1 ++ .call c (.add (some h)) now :: w1) ++ [.added c h n1]) h := present_snoc.2 (.inl ⟨_, _, rfl⟩)
  have h2 : LastTouch cfg ((l1 ++ .call c (.add (some h)) now :: w1) ++ [.added c h n1]) h n1 :=
    lastTouch_snoc.2 (.inl (by simp [touchOf]))
  have h3 : T ≤ n1 := htouch (.added c h n1) (by simp) n1 (by simp [touchOf])
  have h4 := present_stays (l2 := w2 ++ .ret c (.add (some h)) .ok :: l3) h1 h2 h3
    (by
      intro e he u hu
      simp only [List.mem_append, List.mem_cons] at he
      rcases he with h5 | rfl | h5
      · exact htouch e (by simp [h5]) u hu
      · cases hu
      · exact htouch e (by simp [h5]) u hu)
    (by
      intro c'' n k hm
      have h5 := (evicted_from_add cfg acts (c := c'') (now := n) (keep := k) (by
        rw [hl]
        simp only [List.mem_append, List.mem_cons, reduceCtorEq, false_or] at hm ⊢
        tauto)).1
      subst h5
      have h6 : Ev.evicted c'' n (cfg c'').keep ∈ (w1 ++ .added c h n1 :: w2) ++ l3 := by
        simp only [List.mem_append, List.mem_cons, reduceCtorEq, false_or] at hm ⊢
        tauto
      have := hev c'' n h6
      omega)
  exact ((hI.looked _ _ _ _ _ _ (show (run cfg acts).log = (((l1 ++ .call c (.add (some h)) now :: w1) ++ [.added c h n1]) ++
    (w2 ++ .ret c (.add (some h)) .ok :: l3)) ++ .looked c' h now' b :: l4 by rw [hl]; simp)).1).2 h4.1

/-! ## Concrete histories -/

/-- A client with `Keep(10s)` and update-on-access, one without `Keep` and without update-on-access. -/
def exCfg : Nat → Cfg := fun c => if c = 0 then ⟨10000000000, true⟩ else ⟨0, false⟩

def sec : Int := 1000000000

/-- Client 0 adds [1] at 0 s; client 1 looks it up; client 0 adds [2] at 20 s, which evicts [1]; both are looked up. -/
def exActs : List Act :=
  [.call 0 (.add (some [1])) 0, .call 1 (.has (some [1])) 0, .exec 0 .none, .exec 1 .none, .exec 0 .none, .ret 1, .ret 0,
   .call 0 (.add (some [2])) (20 * sec), .exec 0 .none, .exec 0 .none, .ret 0,
   .call 1 (.has (some [1])) 0, .exec 1 .none, .ret 1, .call 0 (.has (some [2])) (21 * sec), .exec 0 .none, .ret 0]

/-- The hypotheses of the C31 and C32 theorems are met by this history: its whole log. -/
example : (run exCfg exActs).log =
  [.call 0 (.add (some [1])) 0, .call 1 (.has (some [1])) 0, .added 0 [1] 0, .looked 1 [1] 0 true, .evicted 0 0 (10 * sec),
   .ret 1 (.has (some [1])) (.found true), .ret 0 (.add (some [1])) .ok,
   .call 0 (.add (some [2])) (20 * sec), .added 0 [2] (20 * sec), .evicted 0 (20 * sec) (10 * sec), .ret 0 (.add (some [2])) .ok,
   .call 1 (.has (some [1])) 0, .looked 1 [1] 0 false, .ret 1 (.has (some [1])) (.found false),
   .call 0 (.has (some [2])) (21 * sec), .looked 0 [2] (21 * sec) true, .ret 0 (.has (some [2])) (.found true)] := by
  decide +kernel

/-- C33's hypotheses, in a history where client 1 crashes in the middle of an `Add`: `T` can be 19 s. -/
def exActs2 : List Act :=
  [.call 1 (.add (some [7])) (19 * sec), .exec 1 .none, .crash 1,
   .call 0 (.add (some [2])) (20 * sec), .exec 0 .none, .exec 0 .none, .ret 0,
   .call 0 (.add (some [3])) (25 * sec), .exec 0 .none, .exec 0 .none, .ret 0,
   .call 2 (.has (some [2])) 0, .exec 2 .none, .ret 2]

example : ∃ l1 l2 l3 l4, (run exCfg exActs2).log = l1 ++ .call 0 (.add (some [2])) (20 * sec) :: (l2 ++
      .ret 0 (.add (some [2])) .ok :: (l3 ++ .looked 2 [2] 0 true :: l4)) ∧ NoCall 0 l2 ∧
    (∀ e ∈ l2 ++ l3, ∀ u, touchOf exCfg [2] e = some u → 19 * sec ≤ u) ∧
    (∀ c'' now'', Ev.evicted c'' now'' (exCfg c'').keep ∈ l2 ++ l3 → now'' - 19 * sec ≤ (exCfg c'').keep) := by
  refine ⟨[.call 1 (.add (some [7])) (19 * sec), .added 1 [7] (19 * sec)],
    [.added 0 [2] (20 * sec), .evicted 0 (20 * sec) (10 * sec)],
    [.call 0 (.add (some [3])) (25 * sec), .added 0 [3] (25 * sec), .evicted 0 (25 * sec) (10 * sec), .ret 0 (.add (some [3])) .ok,
     .call 2 (.has (some [2])) 0], [.ret 2 (.has (some [2])) (.found true)], by decide +kernel, by simp [NoCall], ?_, ?_⟩
  · intro e he u hu
    simp only [List.mem_append, List.mem_cons, List.not_mem_nil, or_false] at he
    rcases he with (rfl | rfl) | rfl | rfl | rfl | rfl | rfl <;> simp [touchOf, sec] at hu ⊢ <;> omega
  · intro c'' now'' he
    simp only [List.mem_append, List.mem_cons, List.not_mem_nil, or_false, reduceCtorEq, false_or, Ev.evicted.injEq] at he
    rcases he with ⟨rfl, rfl, h⟩ | ⟨rfl, rfl, h⟩ <;> simp [exCfg, sec]

/-- C33 cannot be strengthened to "until `Keep` has passed since the latest touch": a client that read its clock early can
run its statement late and so move the entry's time backwards.  Client 0 adds [1] at 100 s; the `Has` of client 2, which
read its clock at 50 s, then runs; at 101 s client 0 adds [2], evicting [1] one second after it was added. -/
def backCfg : Nat → Cfg := fun _ => ⟨10000000000, true⟩

theorem C33_counterexample_backdated :
    (run backCfg [.call 2 (.has (some [1])) (50 * sec), .call 0 (.add (some [1])) (100 * sec), .exec 0 .none, .exec 0 .none,
      .ret 0, .exec 2 .none, .ret 2, .call 0 (.add (some [2])) (101 * sec), .exec 0 .none, .exec 0 .none, .ret 0,
      .call 1 (.has (some [1])) (101 * sec), .exec 1 .none, .ret 1]).log.getLast? =
    some (.ret 1 (.has (some [1])) (.found false)) := by decide +kernel

end Fab.Sqlite
