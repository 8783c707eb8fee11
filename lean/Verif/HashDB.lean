import Verif.Sqlite

/-!
# Opening the hash database (/repo/sqlite/db.go:22-85, /repo/sqlite/schema.sql, /repo/main.go:147-156): model, and C73

`Verif/Sqlite.lean` starts with an empty table and clients that have the database open.  Here a process first has to
create the directory and the file or find them, and to set up the schema; its options become the configuration of its
`*DB`.  Any number of processes, with the same or other options, do this in any interleaving, and each operation may
fail, or succeed and be reported as failed; a process may die at any moment.

Not modelled: a file that is not a database or has other tables (then `Open` fails or every call does); somebody removing
the file or the directory.
-/

namespace Fab.Sqlite

/-- `Option`: sqlite/db.go:58-85.  `WithClock` is the clock readings in `Act.call`. -/
inductive Opt where
  | keep (d : Int)
  | withClock
  | updateOnAccess (b : Bool)
deriving DecidableEq

/-- `opt(result)`: sqlite/db.go:63-85 -/
def Opt.apply (c : Cfg) : Opt → Cfg
  | .keep d => { c with keep := d }
  | .withClock => c
  | .updateOnAccess b => { c with updateOnAccess := b }

/-- The `*DB` that `Open` makes: sqlite/db.go:39-45 -/
def openCfg (opts : List Opt) : Cfg := opts.foldl Opt.apply ⟨0, true⟩

def day : Int := 24 * 3600 * 1000000000

/-- The options of `OpenHashDB`: main.go:154 -/
def fabOpts : List Opt := [.keep (30 * day)]

/-- Where a process is. -/
inductive Phase where
  /-- `os.MkdirAll(dir, 0755)`: main.go:150 -/
  | mkdir
  /-- `sql.Open` and `db.Exec(schema)`: sqlite/db.go:29-37; `sql.Open` itself does nothing -/
  | schema
  /-- it has a `*DB` -/
  | opened
  /-- `OpenHashDB` returned an error, or the process died -/
  | gone
deriving DecidableEq

/-- The directory, the table (`none`: there is no file, or it has no table yet), and the processes: how far they
are with opening, where they are in their calls, and the log. -/
structure World where
  dir : Bool
  table : Option Table
  phase : Nat → Phase
  pc : Nat → PC
  log : List Ev

def World.setPhase (w : World) (c : Nat) (p : Phase) : World :=
  { w with phase := fun c' => if c' = c then p else w.phase c' }

/-- Before fab was ever run. -/
def World.new : World := { dir := false, table := none, phase := fun _ => .mkdir, pc := fun _ => .idle, log := [] }

inductive WAct where
  /-- the process takes the next step of `OpenHashDB` -/
  | opening (c : Nat) (f : Fault)
  /-- something that happens after that -/
  | act (a : Act)

def Act.client : Act → Nat
  | .call c _ _ | .exec c _ | .ret c | .crash c => c

/-- `CREATE TABLE IF NOT EXISTS`: schema.sql:1-6 -/
def sqlCreate (t : Option Table) : Option Table :=
  match t with
  | some t => some t
  | none => some []

/-- One step of a process in `OpenHashDB`: main.go:150-155, sqlite/db.go:28-50.  Opening a file in a directory that does
not exist fails. -/
def openStep (w : World) (c : Nat) (f : Fault) : World :=
  match w.phase c with
  | .mkdir =>
    match f with
    | .none => { w with dir := true }.setPhase c .schema
    | .failed => w.setPhase c .gone
    | .lost => { w with dir := true }.setPhase c .gone
  | .schema =>
    if w.dir then
      match f with
      | .none => { w with table := sqlCreate w.table }.setPhase c .opened
      | .failed => w.setPhase c .gone
      | .lost => { w with table := sqlCreate w.table }.setPhase c .gone
    else w.setPhase c .gone
  | _ => w

/-- The part of the world that the statements see. -/
def World.st (w : World) : St := { table := w.table.getD [], pc := w.pc, log := w.log }

/-- A step.  The calls of `Verif/Sqlite.lean` need an open database (a crash does not). -/
def wstep (opts : Nat → List Opt) (w : World) : WAct → World
  | .opening c f => openStep w c f
  | .act a =>
    match w.phase a.client, w.table with
    | .opened, some _ =>
      let s := step (fun c => openCfg (opts c)) w.st a
      { w with table := some s.table, pc := s.pc, log := s.log }
    | _, _ =>
      match a with
      | .crash c => w.setPhase c .gone
      | _ => w

/-- Every history, from a directory without a database. -/
def wrun (opts : Nat → List Opt) (acts : List WAct) : World := acts.foldl (wstep opts) World.new

/-! ## The history after opening is one of `Verif/Sqlite.lean` -/

theorem st_openStep (w : World) (c : Nat) (f : Fault) : (openStep w c f).st = w.st := by
  have h : (sqlCreate w.table).getD [] = w.table.getD [] := by unfold sqlCreate; split <;> simp_all
  unfold openStep
  repeat' split
  all_goals simp [World.st, World.setPhase, h]

theorem st_wstep (opts : Nat → List Opt) (w : World) (a : WAct) :
    (wstep opts w a).st = w.st ∨ ∃ a', (wstep opts w a).st = step (fun c => openCfg (opts c)) w.st a' := by
  cases a with
  | opening c f => exact Or.inl (st_openStep w c f)
  | act a =>
    simp only [wstep]
    split
    · exact Or.inr ⟨a, rfl⟩
    · split
      · exact Or.inl rfl
      · exact Or.inl rfl

/-- What happens to the database is what happens to one whose users all have it open from the start. -/
theorem wrun_run (opts : Nat → List Opt) (acts : List WAct) :
    ∃ acts', (wrun opts acts).st = run (fun c => openCfg (opts c)) acts' := by
  induction acts using List.reverseRecOn with
  | nil => exact ⟨[], rfl⟩
  | append_singleton l a ih =>
    obtain ⟨acts', h⟩ := ih
    have h1 : wrun opts (l ++ [a]) = wstep opts (wrun opts l) a := by simp [wrun]
    rw [h1]
    rcases st_wstep opts (wrun opts l) a with h2 | ⟨a', h2⟩
    · exact ⟨acts', h2.trans h⟩
    · refine ⟨acts' ++ [a'], ?_⟩
      rw [h2, h]
      simp [run]

/-! ## C73 -/

/-- **C73** The options: the last `Keep` counts (none: keep everything), and the last `UpdateOnAccess` (none: update). -/
theorem C73_options (opts : List Opt) :
    (openCfg opts).keep = ((opts.filterMap fun o => match o with | .keep d => some d | _ => none).getLast?.getD 0) ∧
    (openCfg opts).updateOnAccess =
      ((opts.filterMap fun o => match o with | .updateOnAccess b => some b | _ => none).getLast?.getD true) := by
  induction opts using List.reverseRecOn with
  | nil => exact ⟨rfl, rfl⟩
  | append_singleton l o ih =>
    obtain ⟨h1, h2⟩ := ih
    unfold openCfg at *
    rw [List.foldl_append]
    cases o <;> simp [Opt.apply, h1, h2, List.filterMap_append]

/-- **C73** Opening does not change what is in the database, and does not need anything to exist. -/
theorem C73_open_keeps (w : World) (c : Nat) (f : Fault) (t : Table) (h : w.table = some t) :
    (openStep w c f).table = some t := by
  unfold openStep
  repeat' split
  all_goals simp [World.setPhase, sqlCreate, h]

/-- **C73** If nothing fails, `OpenHashDB` succeeds, whether or not there was a database, and whatever other processes do
between its two operations (removing things apart). -/
theorem C73_open_succeeds (w w' : World) (c : Nat) (h : w.phase c = .mkdir)
    (hw : w'.dir = (openStep w c .none).dir) (hp : w'.phase c = (openStep w c .none).phase c) :
    (openStep w' c .none).phase c = .opened ∧ ∃ t, (openStep w' c .none).table = some t ∧
      t = w'.table.getD [] := by
  simp [openStep, h, World.setPhase] at hw hp
  simp [openStep, hp, hw, World.setPhase, sqlCreate]
  split <;> simp_all

/-- **C73** Thirty days: if every process opens the database the way fab does, an entry that was added, or found by a
lookup, at time `t` is found by every later lookup, as long as no `Add` since then was made by a process whose clock
had gone more than thirty days past `t`, and no process whose clock is behind `t` has touched the entry (which would
date it back, see C33).  Whatever other processes open the database, fail or crash meanwhile. -/
theorem C73_thirty_days (acts : List WAct) (l1 l2 l3 : List Ev) (e : Ev) (c : Nat) (h : Bytes) (t now : Int) (b : Bool)
    (hl : (wrun (fun _ => fabOpts) acts).log = l1 ++ e :: (l2 ++ .looked c h now b :: l3))
    (he : (∃ c', e = .added c' h t) ∨ (∃ c', e = .looked c' h t true))
    (hadd : ∀ c' h' now', Ev.call c' (.add (some h')) now' ∈ l1 ++ l2 → now' ≤ t + 30 * day)
    (hback : ∀ c' u, Ev.added c' h u ∈ l2 ∨ Ev.looked c' h u true ∈ l2 → t ≤ u) : b = true := by
  obtain ⟨acts', ha⟩ := wrun_run (fun _ => fabOpts) acts
  set cfg : Nat → Cfg := fun _ => openCfg fabOpts with hcfg
  have hk : ∀ c, (cfg c).keep = 30 * day := fun c => rfl
  have hu : ∀ c, (cfg c).updateOnAccess = true := fun c => rfl
  have hlog : (run cfg acts').log = l1 ++ e :: (l2 ++ .looked c h now b :: l3) := by
    rw [← hl, ← ha]; rfl
  have hI := (inv_run cfg acts').log
  have key : ∀ (l2 l1 : List Ev) (c : Nat) (now : Int) (b : Bool) (l3 : List Ev) (e : Ev),
      (run cfg acts').log = l1 ++ e :: (l2 ++ .looked c h now b :: l3) →
      ((∃ c', e = .added c' h t) ∨ (∃ c', e = .looked c' h t true)) →
      (∀ c' now', Ev.evicted c' now' (cfg c').keep ∈ l2 → now' ≤ t + 30 * day) →
      (∀ e' ∈ l2, ∀ u, touchOf cfg h e' = some u → t ≤ u) → b = true := by
    intro l2 l1 c now b l3 e hlog he hev hto
    have ht : touchOf cfg h e = some t := by
      rcases he with ⟨c', rfl⟩ | ⟨c', rfl⟩ <;> simp [touchOf, hu]
    have h3 : LastTouch cfg (l1 ++ [e]) h t := lastTouch_snoc.2 (.inl ht)
    have h4 : Present cfg (l1 ++ [e]) h := by
      rw [present_snoc]
      rcases he with ⟨c', rfl⟩ | ⟨c', rfl⟩
      · exact .inl ⟨_, _, rfl⟩
      · exact .inr ⟨((hI.looked _ _ _ _ _ _ hlog).1).1 rfl, by simp⟩
    have h5 := present_stays (l2 := l2) h4 h3 (Int.le_refl t) hto (by
      intro c' n k hm
      have h6 := (evicted_from_add cfg acts' (c := c') (now := n) (keep := k) (by rw [hlog]; simp [hm])).1
      subst h6
      have h7 := hev c' n hm
      have h8 := hk c'
      omega)
    have h6 : (run cfg acts').log = ((l1 ++ [e]) ++ l2) ++ .looked c h now b :: l3 := by rw [hlog]; simp
    exact ((hI.looked _ _ _ _ _ _ h6).1).2 h5.1
  have hev : ∀ c' now', Ev.evicted c' now' (cfg c').keep ∈ l2 → now' ≤ t + 30 * day := by
    intro c' now' hm
    obtain ⟨m1, m2, rfl⟩ := List.append_of_mem hm
    obtain ⟨-, -, h', p, mid, mid', h3, -⟩ := hI.evicted (l1 ++ e :: m1) c' now' (cfg c').keep
      (m2 ++ .looked c h now b :: l3) (by rw [hlog]; simp)
    refine hadd c' h' now' ?_
    have h4 : Ev.call c' (.add (some h')) now' ∈ l1 ++ e :: m1 := by rw [h3]; simp
    simp only [List.mem_append, List.mem_cons] at h4 ⊢
    rcases h4 with h4 | h4 | h4
    · exact Or.inl h4
    · rcases he with ⟨c'', rfl⟩ | ⟨c'', rfl⟩ <;> cases h4
    · exact Or.inr (Or.inl h4)
  refine key l2 l1 c now b l3 e hlog he hev ?_
  intro e' he' u hu'
  cases e' with
  | added c' h' u' =>
    simp only [touchOf] at hu'
    split at hu'
    · rename_i h5; subst h5; cases hu'; exact hback c' u (.inl he')
    · cases hu'
  | looked c' h' u' b' =>
    simp only [touchOf] at hu'
    split at hu'
    · rename_i h5; obtain ⟨rfl, rfl, -⟩ := h5; cases hu'; exact hback c' u (.inr he')
    · cases hu'
  | call => simp [touchOf] at hu'
  | evicted => simp [touchOf] at hu'
  | ret => simp [touchOf] at hu'

/-- Process 0 opens a new database and adds [1]; process 1 dies while opening; process 2 opens it, finds [1] on day 20,
and adds [2] on day 45; process 3 opens it on day 45 and still finds [1]; process 2 adds [3] on day 80, and [1] is gone. -/
def exWActs : List WAct :=
  [.opening 0 .none, .opening 1 .none, .opening 0 .none, .act (.call 0 (.add (some [1])) 0), .act (.exec 0 .none),
   .act (.exec 0 .none), .act (.ret 0), .opening 1 .lost, .opening 2 .none, .opening 2 .none,
   .act (.call 2 (.has (some [1])) (20 * day)), .act (.exec 2 .none), .act (.ret 2),
   .act (.call 2 (.add (some [2])) (45 * day)), .act (.exec 2 .none), .act (.exec 2 .none), .act (.ret 2),
   .opening 3 .none, .opening 3 .none, .act (.call 3 (.has (some [1])) (45 * day)), .act (.exec 3 .none), .act (.ret 3),
   .act (.call 2 (.add (some [3])) (80 * day)), .act (.exec 2 .none), .act (.exec 2 .none), .act (.ret 2),
   .act (.call 3 (.has (some [1])) (80 * day)), .act (.exec 3 .none), .act (.ret 3)]

example : (wrun (fun _ => fabOpts) exWActs).log =
    [.call 0 (.add (some [1])) 0, .added 0 [1] 0, .evicted 0 0 (30 * day), .ret 0 (.add (some [1])) .ok] ++
    -- the touch `e` of `C73_thirty_days` ...
    [.call 2 (.has (some [1])) (20 * day)] ++ .looked 2 [1] (20 * day) true :: (([.ret 2 (.has (some [1])) (.found true),
    .call 2 (.add (some [2])) (45 * day), .added 2 [2] (45 * day), .evicted 2 (45 * day) (30 * day),
    .ret 2 (.add (some [2])) .ok, .call 3 (.has (some [1])) (45 * day)] : List Ev) ++
    -- ... and the later lookup
    .looked 3 [1] (45 * day) true :: [.ret 3 (.has (some [1])) (.found true),
    .call 2 (.add (some [3])) (80 * day), .added 2 [3] (80 * day), .evicted 2 (80 * day) (30 * day),
    .ret 2 (.add (some [3])) .ok, .call 3 (.has (some [1])) (80 * day), .looked 3 [1] (80 * day) false,
    .ret 3 (.has (some [1])) (.found false)]) := by decide +kernel

end Fab.Sqlite
