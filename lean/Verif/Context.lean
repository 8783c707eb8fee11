/-!
# Context settings (/repo/context.go): model, and C18

`context.Context` is modelled as the linked list of `context.WithValue` wrappers that Go builds; lookup by key walks it
from the innermost wrapper outwards, as `valueCtx.Value` in the standard library does.  Deadlines are not modelled;
cancellation is a state of the world, in `Verif/Yaml/Cancel.lean`.
-/

namespace Fab

/-- The key types of context.go:5-11; `other n`: any key that does not belong to fab. -/
inductive CtxKey where
  | dryrun | force | hashDB | verbose | args
  | other (n : Nat)
deriving DecidableEq

/-- The values stored; a `HashDB` is represented by the identity of the database. -/
inductive CtxVal where
  | bool (b : Bool)
  | db (n : Nat)
  | strs (l : List String)
  | other (n : Nat)
deriving DecidableEq

/-- A context: a root, or `context.WithValue(parent, key, val)`. -/
inductive Ctx where
  | root
  | withValue (parent : Ctx) (key : CtxKey) (val : CtxVal)
deriving DecidableEq

/-- `ctx.Value(key)`: the innermost wrapper with that key (nil if none). -/
def Ctx.value : Ctx → CtxKey → Option CtxVal
  | .root, _ => none
  | .withValue p k v, key => if k = key then some v else p.value key

/-- `val, _ := x.(bool)`: type assertion with zero value (context.go:22 etc.). -/
def asBool : Option CtxVal → Bool
  | some (.bool b) => b
  | _ => false

/-- `db, _ := x.(HashDB)` (context.go:48): nil if absent. -/
def asDB : Option CtxVal → Option Nat
  | some (.db n) => some n
  | _ => none

/-- `val, _ := x.([]string)` (context.go:74): nil if absent. -/
def asStrs : Option CtxVal → List String
  | some (.strs l) => l
  | _ => []

/-- /repo/context.go:15-17 -/
def withDryRun (ctx : Ctx) (b : Bool) : Ctx := .withValue ctx .dryrun (.bool b)
/-- /repo/context.go:21-24 -/
def getDryRun (ctx : Ctx) : Bool := asBool (ctx.value .dryrun)
/-- /repo/context.go:28-30 -/
def withForce (ctx : Ctx) (b : Bool) : Ctx := .withValue ctx .force (.bool b)
/-- /repo/context.go:34-37 -/
def getForce (ctx : Ctx) : Bool := asBool (ctx.value .force)
/-- /repo/context.go:41-43 -/
def withHashDB (ctx : Ctx) (db : Nat) : Ctx := .withValue ctx .hashDB (.db db)
/-- /repo/context.go:47-50 -/
def getHashDB (ctx : Ctx) : Option Nat := asDB (ctx.value .hashDB)
/-- /repo/context.go:54-56 -/
def withVerbose (ctx : Ctx) (b : Bool) : Ctx := .withValue ctx .verbose (.bool b)
/-- /repo/context.go:60-63 -/
def getVerbose (ctx : Ctx) : Bool := asBool (ctx.value .verbose)
/-- /repo/context.go:67-69 -/
def withArgs (ctx : Ctx) (args : List String) : Ctx := .withValue ctx .args (.strs args)
/-- /repo/context.go:73-76 -/
def getArgs (ctx : Ctx) : List String := asStrs (ctx.value .args)

/-! ## C18 -/

/-- One `With` call. -/
inductive Setting where
  | dryrun (b : Bool)
  | force (b : Bool)
  | hashDB (n : Nat)
  | verbose (b : Bool)
  | args (l : List String)
  | foreign (n : Nat) (v : CtxVal)

/-- Apply a `With` call to a context. -/
def Setting.apply (ctx : Ctx) : Setting → Ctx
  | .dryrun b => withDryRun ctx b
  | .force b => withForce ctx b
  | .hashDB n => withHashDB ctx n
  | .verbose b => withVerbose ctx b
  | .args l => withArgs ctx l
  | .foreign n v => .withValue ctx (.other n) v

/-- The context after the calls `ss`, the last one being innermost. -/
def build (ss : List Setting) : Ctx := ss.foldl Setting.apply .root

/-- Specification: the last value in `ss` selected by `f`. -/
def lastOf {α : Type} (f : Setting → Option α) (ss : List Setting) : Option α := (ss.filterMap f).getLast?

def Setting.asDryRun : Setting → Option Bool | .dryrun b => some b | _ => none
def Setting.asForce : Setting → Option Bool | .force b => some b | _ => none
def Setting.asHashDB : Setting → Option Nat | .hashDB b => some b | _ => none
def Setting.asVerbose : Setting → Option Bool | .verbose b => some b | _ => none
def Setting.asArgs : Setting → Option (List String) | .args b => some b | _ => none

theorem build_snoc (ss : List Setting) (x : Setting) : build (ss ++ [x]) = x.apply (build ss) := by
  simp [build]

theorem lastOf_snoc {α : Type} (f : Setting → Option α) (ss : List Setting) (x : Setting) :
    lastOf f (ss ++ [x]) = (f x).or (lastOf f ss) := by
  unfold lastOf
  rw [List.filterMap_append]
  cases h : f x <;> simp [h]

theorem snoc_ind {α : Type} {P : List α → Prop} (h0 : P []) (h1 : ∀ l x, P l → P (l ++ [x])) : ∀ l, P l := by
  intro l
  have h : ∀ l : List α, P l.reverse := by
    intro l
    induction l with
    | nil => exact h0
    | cons a l ih => rw [List.reverse_cons]; exact h1 _ _ ih
  simpa using h l.reverse

/-- **C18.** After any sequence of `With` calls (of fab and of anybody else), each `Get` returns the value of the last
corresponding call, or the default if there was none. -/
theorem C18_context (ss : List Setting) :
    getDryRun (build ss) = (lastOf Setting.asDryRun ss).getD false ∧
    getForce (build ss) = (lastOf Setting.asForce ss).getD false ∧
    getHashDB (build ss) = lastOf Setting.asHashDB ss ∧
    getVerbose (build ss) = (lastOf Setting.asVerbose ss).getD false ∧
    getArgs (build ss) = (lastOf Setting.asArgs ss).getD [] := by
  induction ss using snoc_ind with
  | h0 => exact ⟨rfl, rfl, rfl, rfl, rfl⟩
  | h1 ss x ih =>
    obtain ⟨h1, h2, h3, h4, h5⟩ := ih
    simp only [build_snoc, lastOf_snoc]
    cases x <;> refine ⟨?_, ?_, ?_, ?_, ?_⟩ <;>
      simp_all [Setting.apply, Setting.asDryRun, Setting.asForce, Setting.asHashDB, Setting.asVerbose, Setting.asArgs,
        withDryRun, withForce, withHashDB, withVerbose, withArgs, getDryRun, getForce, getHashDB, getVerbose, getArgs,
        Ctx.value, asBool, asDB, asStrs]

example : getForce (build [.force true, .dryrun true, .foreign 3 (.bool false), .args ["a"], .force false]) = false ∧
    getDryRun (build [.force true, .dryrun true, .foreign 3 (.bool false), .args ["a"]]) = true ∧
    getArgs (build [.args ["x"], .force true, .args ["a", "b"]]) = ["a", "b"] := by decide

/-- A setting made after a context was handed out does not affect it, and reading is stable under later settings of
other kinds (in the form used for targets: `WithArgs` changes nothing but the arguments). -/
theorem C18_withArgs_frame (ctx : Ctx) (args : List String) :
    getArgs (withArgs ctx args) = args ∧ getDryRun (withArgs ctx args) = getDryRun ctx ∧
    getForce (withArgs ctx args) = getForce ctx ∧ getVerbose (withArgs ctx args) = getVerbose ctx ∧
    getHashDB (withArgs ctx args) = getHashDB ctx := by
  refine ⟨?_, ?_, ?_, ?_, ?_⟩ <;>
    simp [withArgs, getArgs, getDryRun, getForce, getVerbose, getHashDB, Ctx.value, asStrs]

end Fab
