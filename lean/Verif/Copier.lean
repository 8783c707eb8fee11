import Mathlib.Data.List.Basic

/-!
# The indenting copier: C45, C46, C58

`Controller.IndentingCopier` (runner.go:147-221) wraps a `bufio.Writer` around the given writer.  The given writer is
arbitrary: a function that, from the bytes it has accepted so far and the bytes offered, decides whether to accept them all
or to accept only some and report an error.
-/

namespace Fab.Copier

abbrev Bytes := List UInt8

def NL : UInt8 := 10
def CR : UInt8 := 13

/-- The underlying `io.Writer`: `none` accepts everything offered; `some k` accepts the first `k` bytes and fails. -/
abbrev Sink := Bytes → Bytes → Option Nat

/-- A `bufio.Writer`: what the underlying writer has accepted (`out`; `log` has it piece by piece, one for each call of its `Write`), the buffer, and the sticky
error. -/
structure BW where
  out : Bytes := []
  buf : Bytes := []
  err : Bool := false
  log : List Bytes := []

/-- `bufio.Writer.Flush`: the result is the new state and whether it failed -/
def flush (W : Sink) (s : BW) : BW × Bool :=
  if s.err then (s, true)
  else if s.buf = [] then (s, false)
  else match W s.out s.buf with
    | none => ({ s with out := s.out ++ s.buf, buf := [], log := s.log ++ [s.buf] }, false)
    | some k => ({ out := s.out ++ s.buf.take k, buf := s.buf.drop k, err := true, log := s.log ++ [s.buf.take k] }, true)

/-- `bufio.Writer.WriteByte`, with buffer size `size` -/
def writeByte (W : Sink) (size : Nat) (s : BW) (b : UInt8) : BW × Bool :=
  if s.err then (s, true)
  else if s.buf.length < size then ({ s with buf := s.buf ++ [b] }, false)
  else match flush W s with
    | (s', true) => (s', true)
    | (s', false) => ({ s' with buf := s'.buf ++ [b] }, false)

/-- `bufio.Writer.WriteString`: fills the buffer and flushes whenever it is full, which is the same as writing byte by
byte.  (Simplification: the direct write of a long string to an underlying `io.StringWriter` is not modelled.) -/
def writeString (W : Sink) (size : Nat) (s : BW) : Bytes → BW × Bool
  | [] => (s, s.err)
  | b :: bs => match writeByte W size s b with
    | (s', true) => (s', true)
    | (s', false) => writeString W size s' bs

/-- runner.go:166-170: the state of an `indentingCopier` (the indentation is a parameter) -/
structure St where
  w : BW := {}
  bol : Bool := true
  sawcr : Bool := false

/-- runner.go:214-221 -/
def newline (W : Sink) (size : Nat) (c : St) : St × Bool :=
  match writeByte W size c.w NL with
  | (w, true) => ({ c with w := w }, true)
  | (w, false) => ({ w := w, bol := true, sawcr := false }, false)

/-- runner.go:175-208: one byte of the loop -/
def step (W : Sink) (size : Nat) (indent : Bytes) (c : St) (b : UInt8) : St × Bool :=
  if b = NL then newline W size c
  else if b = CR then
    match (if c.sawcr then newline W size c else (c, false)) with
    | (c, true) => (c, true)
    | (c, false) => ({ c with sawcr := true }, false)
  else
    match (if c.sawcr then newline W size c else (c, false)) with
    | (c, true) => (c, true)
    | (c, false) =>
      match (if c.bol then
          match writeString W size c.w indent with
          | (w, e) => ({ c with w := w }, e)
        else (c, false)) with
      | (c, true) => (c, true)
      | (c, false) =>
        match writeByte W size c.w b with
        | (w, e) => ({ c with w := w, bol := false }, e)

/-- runner.go:172-212: `Write`; `n` counts the bytes dealt with so far; the result is the new state, the count and whether
an error was returned -/
def writeLoop (W : Sink) (size : Nat) (indent : Bytes) (c : St) (n : Nat) : Bytes → St × Nat × Bool
  | [] => match flush W c.w with
    | (w, e) => ({ c with w := w }, n, e)
  | b :: bs => match step W size indent c b with
    | (c, true) => (c, n, true)
    | (c, false) => writeLoop W size indent c (n + 1) bs

def write (W : Sink) (size : Nat) (indent : Bytes) (c : St) (buf : Bytes) : St × Nat × Bool :=
  writeLoop W size indent c 0 buf

/-- A sequence of `Write` calls; the results of the calls are collected. -/
def writes (W : Sink) (size : Nat) (indent : Bytes) : St → List Bytes → St × List (Nat × Bool)
  | c, [] => (c, [])
  | c, b :: bs =>
    let r := write W size indent c b
    let rest := writes W size indent r.1 bs
    (rest.1, r.2 :: rest.2)

/-- runner.go:154-164: a new copier at nesting depth `depth` -/
def indentOf (depth : Nat) (pre : Bytes) : Bytes := (List.replicate depth [32, 32]).flatten ++ pre

/-! ## Specification -/

/-- The lines of a text: what is between newlines (the last one may be empty). -/
def lines : Bytes → List Bytes
  | [] => [[]]
  | b :: bs =>
    if b = NL then [] :: lines bs
    else match lines bs with
      | l :: ls => (b :: l) :: ls
      | [] => [[b]]

def unlines : List Bytes → Bytes
  | [] => []
  | [l] => l
  | l :: m :: ls => l ++ NL :: unlines (m :: ls)

/-- Line ends: "\r\n" and a bare "\r" become "\n"; a "\r" at the very end disappears. -/
def normNL : Bytes → Bytes
  | [] => []
  | [b] => if b = CR then [] else [b]
  | b :: b' :: bs =>
    if b = CR then
      if b' = NL then NL :: normNL bs else NL :: normNL (b' :: bs)
    else b :: normNL (b' :: bs)

/-- What should come out: every non-empty line gets the indentation. -/
def expected (indent input : Bytes) : Bytes :=
  unlines ((lines (normNL input)).map fun l => if l = [] then [] else indent ++ l)

example : normNL [97, 13, 10, 98, 13, 99, 13, 13, 10, 13] = [97, 10, 98, 10, 99, 10, 10] := by decide
example : expected [32] [97, 10, 10, 98, 13, 10, 99] = [32, 97, 10, 10, 32, 98, 10, 32, 99] := by decide
example : expected [32] [97, 10] = [32, 97, 10] := by decide

/-! ## The bytes emitted, as a function of the input alone -/

/-- The bytes one input byte gives rise to, in a state without errors, and the state after it. -/
def emit (indent : Bytes) (bol sawcr : Bool) (b : UInt8) : Bytes × Bool × Bool :=
  if b = NL then ([NL], true, false)
  else if b = CR then (if sawcr then ([NL], true, true) else ([], bol, true))
  else if sawcr then (NL :: indent ++ [b], false, false)
  else ((if bol then indent else []) ++ [b], false, false)

def emits (indent : Bytes) (bol sawcr : Bool) : Bytes → Bytes
  | [] => []
  | b :: bs => (emit indent bol sawcr b).1 ++ emits indent (emit indent bol sawcr b).2.1 (emit indent bol sawcr b).2.2 bs

/-- The state after some input. -/
def after (indent : Bytes) (bol sawcr : Bool) : Bytes → Bool × Bool
  | [] => (bol, sawcr)
  | b :: bs => after indent (emit indent bol sawcr b).2.1 (emit indent bol sawcr b).2.2 bs

theorem emits_append (ind : Bytes) (bol cr : Bool) (x y : Bytes) :
    emits ind bol cr (x ++ y) = emits ind bol cr x ++ emits ind (after ind bol cr x).1 (after ind bol cr x).2 y := by
  induction x generalizing bol cr with
  | nil => rfl
  | cons b x ih => simp only [List.cons_append, emits, after, ih, List.append_assoc]

theorem after_append (ind : Bytes) (bol cr : Bool) (x y : Bytes) :
    after ind bol cr (x ++ y) = after ind (after ind bol cr x).1 (after ind bol cr x).2 y := by
  induction x generalizing bol cr with
  | nil => rfl
  | cons b x ih => simp only [List.cons_append, after, ih]

/-! ### `emits` meets the specification -/

theorem lines_ne (s : Bytes) : ∃ l ls, lines s = l :: ls := by
  cases s with
  | nil => exact ⟨_, _, rfl⟩
  | cons b s =>
    unfold lines
    split
    · exact ⟨_, _, rfl⟩
    · split <;> exact ⟨_, _, rfl⟩

/-- Indenting a text whose first line has (`bol = false`) or has not been begun. -/
def indAll (ind : Bytes) (bol : Bool) (ls : List Bytes) : Bytes :=
  match ls with
  | [] => []
  | l :: ls => unlines ((if bol && l ≠ [] then ind ++ l else l) :: ls.map fun l => if l = [] then [] else ind ++ l)

theorem indAll_nl (ind : Bytes) (bol : Bool) (s : Bytes) :
    indAll ind bol (lines (NL :: s)) = NL :: indAll ind true (lines s) := by
  obtain ⟨l, ls, h⟩ := lines_ne s
  rw [lines, if_pos rfl, h]
  simp only [indAll, List.map_cons, unlines, ne_eq, not_true_eq_false, decide_false, Bool.and_false, Bool.false_eq_true,
    if_false, List.nil_append, Bool.true_and]
  by_cases hl : l = [] <;> simp [hl]

theorem unlines_cons (x : Bytes) (l : Bytes) (ls : List Bytes) : unlines ((x ++ l) :: ls) = x ++ unlines (l :: ls) := by
  cases ls <;> simp [unlines]

theorem indAll_other (ind : Bytes) (bol : Bool) (b : UInt8) (hb : b ≠ NL) (s : Bytes) :
    indAll ind bol (lines (b :: s)) = (if bol then ind else []) ++ b :: indAll ind false (lines s) := by
  obtain ⟨l, ls, h⟩ := lines_ne s
  rw [lines, if_neg hb, h]
  simp only [indAll, ne_eq, reduceCtorEq, not_false_eq_true, decide_true, Bool.and_true, Bool.false_and, Bool.false_eq_true,
    if_false]
  rw [show (if bol = true then ind ++ b :: l else b :: l) = ((if bol then ind else []) ++ [b]) ++ l by cases bol <;> simp,
    unlines_cons]
  simp

/-- With a pending "\r" the rest is read as if the "\r" were still in front. -/
theorem emits_spec (ind : Bytes) (s : Bytes) : ∀ bol,
    emits ind bol false s = indAll ind bol (lines (normNL s)) ∧
    emits ind bol true s = indAll ind bol (lines (normNL (CR :: s))) := by
  have hne : CR ≠ NL := by decide
  have e0 : ∀ bol, indAll ind bol (lines []) = [] := by intro bol; cases bol <;> simp [lines, indAll, unlines]
  induction s with
  | nil => intro bol; simp [emits, normNL, e0]
  | cons b s ih =>
    intro bol
    -- how normNL treats the first byte
    have hother : ∀ b, b ≠ CR → normNL (b :: s) = b :: normNL s := by
      intro b hb; cases s <;> simp [normNL, hb]
    have hcrnl : normNL (CR :: NL :: s) = NL :: normNL s := by simp [normNL]
    have hcro : ∀ b, b ≠ NL → normNL (CR :: b :: s) = NL :: normNL (b :: s) := by
      intro b hb; simp [normNL, hb]
    by_cases h1 : b = NL
    · subst h1
      rw [hother NL hne.symm, hcrnl, indAll_nl]
      simp only [emits, emit, if_true]
      exact ⟨by rw [(ih true).1]; rfl, by rw [(ih true).1]; rfl⟩
    · rw [hcro b h1, indAll_nl]
      by_cases h2 : b = CR
      · subst h2
        simp only [emits, emit, if_neg hne, if_true, Bool.false_eq_true, if_false]
        exact ⟨by rw [(ih bol).2]; rfl, by rw [(ih true).2]; rfl⟩
      · rw [hother b h2, indAll_other _ _ _ h1, indAll_other _ _ _ h1]
        simp only [emits, emit, if_neg h1, if_neg h2, if_true, Bool.false_eq_true, if_false, (ih false).1]
        constructor <;> simp

theorem emits_expected (ind s : Bytes) : emits ind true false s = expected ind s := by
  rw [(emits_spec ind s true).1]
  unfold expected indAll
  obtain ⟨l, ls, h⟩ := lines_ne (normNL s)
  rw [h]
  by_cases hl : l = [] <;> simp [hl]

/-! ### The writer -/

/-- Everything handed to the `bufio.Writer` so far. -/
def BW.all (s : BW) : Bytes := s.out ++ s.buf

variable {W : Sink} {size : Nat} {ind : Bytes}

/-- What a writing operation of bytes `x` may do to the buffered writer: succeed, or fail for good, in which case what has
been accepted and what is buffered is no more than what was to be written. -/
def Did (s : BW) (x : Bytes) (r : BW × Bool) : Prop :=
  (r.2 = false → r.1.err = false ∧ r.1.all = s.all ++ x) ∧
  (r.2 = true → r.1.err = true ∧ ∃ y, y <+: x ∧ r.1.all = s.all ++ y)

theorem flush_did {s : BW} (h : s.err = false) :
    Did s [] (flush W s) ∧ ((flush W s).2 = false → (flush W s).1.buf = []) := by
  unfold flush
  rw [h]
  simp only [Bool.false_eq_true, if_false]
  split
  · rename_i hb; exact ⟨⟨fun _ => ⟨h, by simp⟩, by simp⟩, fun _ => hb⟩
  · split
    · exact ⟨⟨fun _ => ⟨rfl, by simp [BW.all]⟩, by simp⟩, fun _ => rfl⟩
    · exact ⟨⟨by simp, fun _ => ⟨rfl, [], List.prefix_rfl, by simp [BW.all]⟩⟩, by simp⟩

theorem writeByte_did {s : BW} (h : s.err = false) (b : UInt8) : Did s [b] (writeByte W size s b) := by
  unfold writeByte
  rw [h]
  simp only [Bool.false_eq_true, if_false]
  split
  · exact ⟨fun _ => ⟨rfl, by simp [BW.all]⟩, by simp⟩
  · obtain ⟨⟨h1, h2⟩, h3⟩ := flush_did (W := W) h
    rcases hf : flush W s with ⟨s', e⟩
    rw [hf] at h1 h2 h3
    cases e
    · obtain ⟨h4, h5⟩ := h1 rfl
      refine ⟨fun _ => ⟨h4, ?_⟩, by simp⟩
      simp only [BW.all, List.append_nil] at h5 ⊢
      rw [← List.append_assoc, h5]
    · obtain ⟨h4, y, h5, h6⟩ := h2 rfl
      refine ⟨by simp, fun _ => ⟨h4, [], List.nil_prefix, ?_⟩⟩
      rw [h6, List.prefix_nil.1 h5]

theorem writeString_did {s : BW} (h : s.err = false) (x : Bytes) : Did s x (writeString W size s x) := by
  induction x generalizing s with
  | nil => rw [writeString, h]; exact ⟨fun _ => ⟨h, by simp⟩, by simp⟩
  | cons b x ih =>
    have hb := writeByte_did (W := W) (size := size) h b
    rw [writeString]
    rcases hf : writeByte W size s b with ⟨s', e⟩
    rw [hf] at hb
    cases e
    · obtain ⟨h1, h2⟩ := hb.1 rfl
      have := ih h1
      refine ⟨fun h' => ?_, fun h' => ?_⟩
      · obtain ⟨h3, h4⟩ := this.1 h'
        exact ⟨h3, by rw [h4, h2]; simp⟩
      · obtain ⟨h3, y, h4, h5⟩ := this.2 h'
        exact ⟨h3, b :: y, List.cons_prefix_cons.2 ⟨rfl, h4⟩, by rw [h5, h2]; simp⟩
    · obtain ⟨h1, y, h2, h3⟩ := hb.2 rfl
      exact ⟨by simp, fun _ => ⟨h1, y, h2.trans (by simp), h3⟩⟩

/-- The same for the copier: the state after success is given by `emit`. -/
def DidC (c : St) (x : Bytes) (st : Bool × Bool) (r : St × Bool) : Prop :=
  Did c.w x (r.1.w, r.2) ∧ (r.2 = false → (r.1.bol, r.1.sawcr) = st)

theorem newline_did {c : St} (h : c.w.err = false) : DidC c [NL] (true, false) (newline W size c) := by
  have hb := writeByte_did (W := W) (size := size) h NL
  unfold newline
  rcases hf : writeByte W size c.w NL with ⟨w, e⟩
  rw [hf] at hb
  cases e <;> exact ⟨hb, by simp⟩

theorem Did.trans {s : BW} {x y : Bytes} {r r' : BW × Bool} (h1 : Did s x r) (h2 : r.2 = false → Did r.1 y r')
    (h3 : r.2 = true → r' = r) : Did s (x ++ y) r' := by
  cases hr : r.2
  · obtain ⟨h4, h5⟩ := h1.1 hr
    have := h2 hr
    refine ⟨fun h' => ?_, fun h' => ?_⟩
    · obtain ⟨h6, h7⟩ := this.1 h'
      exact ⟨h6, by rw [h7, h5, List.append_assoc]⟩
    · obtain ⟨h6, z, h7, h8⟩ := this.2 h'
      exact ⟨h6, x ++ z, (List.prefix_append_right_inj x).2 h7, by rw [h8, h5, List.append_assoc]⟩
  · rw [h3 hr]
    obtain ⟨h4, z, h5, h6⟩ := h1.2 hr
    exact ⟨fun h => by rw [hr] at h; simp at h, fun _ => ⟨h4, z, h5.trans (List.prefix_append x y), h6⟩⟩

theorem step_did {c : St} (h : c.w.err = false) (b : UInt8) :
    DidC c (emit ind c.bol c.sawcr b).1 (emit ind c.bol c.sawcr b).2 (step W size ind c b) := by
  unfold step emit
  by_cases h1 : b = NL
  · rw [if_pos h1, if_pos h1]; exact newline_did h
  rw [if_neg h1, if_neg h1]
  -- the "\r" part
  obtain ⟨r, hr⟩ : ∃ r, (if c.sawcr then newline W size c else (c, false)) = r := ⟨_, rfl⟩
  have hd : DidC c (if c.sawcr then [NL] else []) (if c.sawcr then true else c.bol, false) r := by
    rw [← hr]
    cases hs : c.sawcr
    · exact ⟨⟨fun _ => ⟨h, by simp⟩, by simp⟩, by simp [hs]⟩
    · exact newline_did h
  rw [hr]
  obtain ⟨c1, e1⟩ := r
  by_cases h2 : b = CR
  · rw [if_pos h2, if_pos h2]
    obtain ⟨hd1, hd2⟩ := hd
    cases e1
    · have := hd2 rfl
      simp only [Prod.mk.injEq] at this
      cases hs : c.sawcr <;> simp only [hs, if_true, Bool.false_eq_true, if_false] at hd1 this ⊢
      all_goals exact ⟨hd1, fun _ => by simp [this.1]⟩
    · cases hs : c.sawcr <;> simp only [hs, if_true, Bool.false_eq_true, if_false] at hd1 ⊢
      all_goals exact ⟨hd1, by simp⟩
  · rw [if_neg h2, if_neg h2]
    obtain ⟨hd1, hd2⟩ := hd
    -- the whole emission
    have hem : ((if c.sawcr then (NL :: ind ++ [b], false, false) else ((if c.bol then ind else []) ++ [b], false, false)) : Bytes × Bool × Bool) =
        ((if c.sawcr then [NL] else []) ++ ((if (if c.sawcr then true else c.bol) then ind else []) ++ [b]), false, false) := by
      cases c.sawcr <;> simp
    rw [hem]
    cases e1
    · have hst := hd2 rfl
      simp only [Prod.mk.injEq] at hst
      obtain ⟨he, -⟩ := hd1.1 rfl
      simp only at he
      rw [← hst.1]
      -- the indentation part
      obtain ⟨r2, hr2⟩ : ∃ r2, (if c1.bol then
          match writeString W size c1.w ind with
          | (w, e) => (({ c1 with w := w } : St), e)
        else (c1, false)) = r2 := ⟨_, rfl⟩
      have hd2' : Did c1.w (if c1.bol then ind else []) (r2.1.w, r2.2) ∧ r2.1.sawcr = false := by
        rw [← hr2]
        cases hb : c1.bol
        · exact ⟨⟨fun _ => ⟨he, by simp⟩, by simp⟩, hst.2⟩
        · exact ⟨writeString_did he ind, hst.2⟩
      simp only [hr2]
      obtain ⟨c2, e2⟩ := r2
      cases e2
      · obtain ⟨he2, -⟩ := hd2'.1.1 rfl
        simp only at he2
        have hb := writeByte_did (W := W) (size := size) he2 b
        refine ⟨?_, fun _ => by have := hd2'.2; simp only at this; simp [this]⟩
        exact Did.trans hd1 (fun _ => Did.trans hd2'.1 (fun _ => hb) (by simp)) (by simp)
      · refine ⟨?_, by simp⟩
        exact Did.trans hd1 (fun _ => Did.trans hd2'.1 (y := [b]) (by simp) (fun _ => rfl)) (by simp)
    · exact ⟨Did.trans hd1 (y := _) (by simp) (fun _ => rfl), by simp⟩

/-- One `Write` call on a copier that has not failed: the bytes, the count and the error. -/
theorem writeLoop_did {c : St} (h : c.w.err = false) (n : Nat) (x : Bytes) :
    (let r := writeLoop W size ind c n x
     Did c.w (emits ind c.bol c.sawcr x) (r.1.w, r.2.2) ∧
     (r.2.2 = false → (r.1.bol, r.1.sawcr) = after ind c.bol c.sawcr x ∧ r.1.w.buf = [] ∧ r.2.1 = n + x.length) ∧
     r.2.1 ≤ n + x.length) := by
  induction x generalizing c n with
  | nil =>
    have hf := flush_did (W := W) h
    simp only [writeLoop]
    exact ⟨hf.1, fun h' => ⟨rfl, hf.2 h', rfl⟩, Nat.le_refl _⟩
  | cons b x ih =>
    have hs := step_did (W := W) (size := size) (ind := ind) h b
    simp only [writeLoop]
    rcases hf : step W size ind c b with ⟨c1, e⟩
    rw [hf] at hs
    cases e
    · obtain ⟨he, -⟩ := hs.1.1 rfl
      have hst := hs.2 rfl
      simp only at he
      have := ih he (n + 1)
      have e1 : c1.bol = (emit ind c.bol c.sawcr b).2.1 := by rw [← hst]
      have e2 : c1.sawcr = (emit ind c.bol c.sawcr b).2.2 := by rw [← hst]
      simp only [e1, e2] at this
      refine ⟨?_, fun h' => ?_, ?_⟩
      · exact Did.trans hs.1 (fun _ => this.1) (by simp)
      · obtain ⟨h1, h2, h3⟩ := this.2.1 h'
        exact ⟨by rw [h1]; rfl, h2, by rw [h3]; simp only [List.length_cons]; omega⟩
      · have := this.2.2; simp only [List.length_cons]; omega
    · exact ⟨Did.trans hs.1 (y := _) (by simp) (fun _ => rfl), by simp, by simp⟩

/-- After an error nothing more is accepted. -/
theorem step_err {c : St} (h : c.w.err = true) (b : UInt8) :
    (step W size ind c b).1.w.out = c.w.out ∧ (step W size ind c b).1.w.err = true := by
  have hw : ∀ (s : BW) b, s.err = true → writeByte W size s b = (s, true) := by
    intro s b hs; unfold writeByte; rw [if_pos hs]
  have hws : ∀ (s : BW) x, s.err = true → writeString W size s x = (s, true) := by
    intro s x hs; cases x with
    | nil => rw [writeString, hs]
    | cons a x => rw [writeString, hw s a hs]
  unfold step newline
  by_cases h1 : b = NL <;> by_cases h2 : b = CR <;> cases hs : c.sawcr <;> cases hb : c.bol <;>
    simp [h1, h2, hs, hb, h, hw _ _ h, hws _ _ h, show CR ≠ NL by decide]

theorem writeLoop_err {c : St} (h : c.w.err = true) (n : Nat) (x : Bytes) :
    (writeLoop W size ind c n x).1.w.out = c.w.out ∧ (writeLoop W size ind c n x).1.w.err = true ∧
    (writeLoop W size ind c n x).2.2 = true := by
  induction x generalizing c n with
  | nil => simp [writeLoop, flush, h]
  | cons b x ih =>
    simp only [writeLoop]
    have hs := step_err (W := W) (size := size) (ind := ind) h b
    rcases hf : step W size ind c b with ⟨c1, e⟩
    rw [hf] at hs
    simp only at hs
    cases e
    · have := ih hs.2 (n + 1); exact ⟨this.1.trans hs.1, this.2⟩
    · exact ⟨hs.1, hs.2, rfl⟩

/-- Invariant of a copier after the writes of `input` in some chunks. -/
def Good (ind : Bytes) (input : Bytes) (c : St) : Prop :=
  (c.w.err = false → c.w.out = emits ind true false input ∧ c.w.buf = [] ∧
    (c.bol, c.sawcr) = after ind true false input) ∧
  (c.w.err = true → c.w.out <+: emits ind true false input)

theorem good_write {c : St} {input : Bytes} (h : Good ind input c) (x : Bytes) :
    Good ind (input ++ x) (write W size ind c x).1 := by
  cases he : c.w.err
  · obtain ⟨h1, h2, h3⟩ := h.1 he
    have := writeLoop_did (W := W) (size := size) (ind := ind) he 0 x
    simp only at this
    have ea : c.w.all = emits ind true false input := by rw [BW.all, h2, List.append_nil, h1]
    rw [show c.bol = (after ind true false input).1 by rw [← h3],
      show c.sawcr = (after ind true false input).2 by rw [← h3]] at this
    unfold Did at this
    rw [ea] at this
    unfold write
    refine ⟨fun h' => ?_, fun h' => ?_⟩
    · have hr : (writeLoop W size ind c 0 x).2.2 = false := by
        by_contra hr
        have := (this.1.2 (by simpa using hr)).1
        simp only at this
        rw [h'] at this; simp at this
      obtain ⟨h4, h5, -⟩ := this.2.1 hr
      have h6 := (this.1.1 hr).2
      simp only [BW.all, h5, List.append_nil] at h6
      exact ⟨by rw [h6, emits_append], h5, by rw [h4, after_append]⟩
    · have hr : (writeLoop W size ind c 0 x).2.2 = true := by
        by_contra hr
        have := (this.1.1 (by simpa using hr)).1
        simp only at this
        rw [h'] at this; simp at this
      obtain ⟨-, y, h4, h5⟩ := this.1.2 hr
      rw [emits_append]
      have h6 := (List.prefix_append_right_inj (emits ind true false input)).2 h4
      rw [← h5] at h6
      exact (List.prefix_append _ _).trans h6
  · have := writeLoop_err (W := W) (size := size) (ind := ind) he 0 x
    unfold write
    refine ⟨fun h' => by rw [this.2.1] at h'; simp at h', fun _ => ?_⟩
    rw [this.1, emits_append]
    exact (h.2 he).trans (List.prefix_append _ _)

theorem good_writes (cs : List Bytes) : ∀ {c : St} {input : Bytes}, Good ind input c →
    Good ind (input ++ cs.flatten) (writes W size ind c cs).1 := by
  induction cs with
  | nil => intro c input h; simpa [writes] using h
  | cons x cs ih =>
    intro c input h
    have := ih (good_write (W := W) (size := size) h x)
    simpa [writes, List.append_assoc] using this

theorem good_init : Good ind [] ({} : St) := ⟨fun _ => ⟨rfl, rfl, rfl⟩, by simp⟩

/-- A writer that never fails. -/
def Reliable (W : Sink) : Prop := ∀ out x, W out x = none

theorem flush_rel (hW : Reliable W) {s : BW} (h : s.err = false) : (flush W s).2 = false := by
  unfold flush; rw [h, hW]; simp only [Bool.false_eq_true, if_false]; split <;> rfl

theorem writeByte_rel (hW : Reliable W) {s : BW} (h : s.err = false) (b : UInt8) : (writeByte W size s b).2 = false := by
  unfold writeByte
  rw [h]
  simp only [Bool.false_eq_true, if_false]
  split
  · rfl
  · have := flush_rel hW h
    rcases hf : flush W s with ⟨s', e⟩
    rw [hf] at this
    simp only at this
    subst this; rfl

theorem writeString_rel (hW : Reliable W) {s : BW} (h : s.err = false) (x : Bytes) : (writeString W size s x).2 = false := by
  induction x generalizing s with
  | nil => exact h
  | cons b x ih =>
    rw [writeString]
    have h1 := writeByte_rel (size := size) hW h b
    have h2 := writeByte_did (W := W) (size := size) h b
    rcases hf : writeByte W size s b with ⟨s', e⟩
    rw [hf] at h1 h2
    simp only at h1
    subst h1
    exact ih (h2.1 rfl).1

theorem newline_rel (hW : Reliable W) {c : St} (h : c.w.err = false) : (newline W size c).2 = false := by
  unfold newline
  have h1 := writeByte_rel (size := size) hW h NL
  rcases hf : writeByte W size c.w NL with ⟨s', e⟩
  rw [hf] at h1
  simp only at h1
  subst h1; rfl

theorem step_rel (hW : Reliable W) {c : St} (h : c.w.err = false) (b : UInt8) : (step W size ind c b).2 = false := by
  unfold step
  by_cases h1 : b = NL
  · rw [if_pos h1]; exact newline_rel hW h
  rw [if_neg h1]
  have hcr : ∃ c1, (if c.sawcr then newline W size c else (c, false)) = (c1, false) ∧ c1.w.err = false := by
    cases c.sawcr
    · exact ⟨c, rfl, h⟩
    · have h2 := newline_rel (size := size) hW h
      have h3 := (newline_did (W := W) (size := size) h).1.1 h2
      exact ⟨(newline W size c).1, by simp only [if_true]; rw [← h2], h3.1⟩
  obtain ⟨c1, hc1, he⟩ := hcr
  rw [hc1]
  split
  · rfl
  · have hin : ∃ c2, (if c1.bol then
          match writeString W size c1.w ind with
          | (w, e) => (({ c1 with w := w } : St), e)
        else (c1, false)) = (c2, false) ∧ c2.w.err = false := by
      cases hbol : c1.bol
      · exact ⟨c1, rfl, he⟩
      · have h2 := writeString_rel (size := size) hW he ind
        have h3 := (writeString_did (W := W) (size := size) he ind).1 h2
        exact ⟨{ c1 with w := (writeString W size c1.w ind).1 }, by simp only [if_true]; rw [← h2, hbol], h3.1⟩
    obtain ⟨c2, hc2, he2⟩ := hin
    simp only [hc2]
    exact writeByte_rel hW he2 b

theorem writeLoop_rel (hW : Reliable W) {c : St} (h : c.w.err = false) (n : Nat) (x : Bytes) :
    (writeLoop W size ind c n x).2.2 = false := by
  induction x generalizing c n with
  | nil => exact flush_rel hW h
  | cons b x ih =>
    rw [writeLoop]
    have h1 := step_rel (size := size) (ind := ind) hW h b
    have h2 := (step_did (W := W) (size := size) (ind := ind) h b).1.1 h1
    rcases hf : step W size ind c b with ⟨s', e⟩
    rw [hf] at h1 h2
    simp only at h1
    subst h1
    exact ih h2.1 _

theorem writes_rel (hW : Reliable W) (cs : List Bytes) : ∀ {c : St}, c.w.err = false →
    (writes W size ind c cs).1.w.err = false ∧
    (writes W size ind c cs).2 = cs.map fun x => (x.length, false) := by
  induction cs with
  | nil => intro c h; exact ⟨h, rfl⟩
  | cons x cs ih =>
    intro c h
    have h1 := writeLoop_rel (size := size) (ind := ind) hW h 0 x
    have h2 := writeLoop_did (W := W) (size := size) (ind := ind) h 0 x
    simp only at h2
    have h3 := ih (c := (write W size ind c x).1) (h2.1.1 h1).1
    have h4 := (h2.2.1 h1).2.2
    refine ⟨h3.1, ?_⟩
    simp only [writes, h3.2, List.map_cons, List.cons.injEq, and_true]
    unfold write
    ext <;> simp [h1, h4]

/-! ## Properties -/

/-- **C46.** On a writer that does not fail, whatever the calls and the size of the buffer, what the writer has received is
the input with its line ends normalised and with the indentation before each non-empty line; every call reports that it has
consumed its whole argument, without error. -/
theorem C46_line_semantics (hW : Reliable W) (cs : List Bytes) :
    (writes W size ind {} cs).1.w.out = expected ind cs.flatten ∧
    (writes W size ind {} cs).2 = cs.map fun x => (x.length, false) := by
  have h := writes_rel (size := size) (ind := ind) hW cs (c := {}) rfl
  have hg := good_writes (W := W) (size := size) cs (good_init (ind := ind))
  refine ⟨?_, h.2⟩
  rw [(hg.1 h.1).1, List.nil_append, emits_expected]

/-- **C46, the indentation** is two spaces per level of nesting, then the prefix. -/
theorem C46_indent (d : Nat) (pre : Bytes) : indentOf 0 pre = pre ∧ indentOf (d + 1) pre = 32 :: 32 :: indentOf d pre := by
  constructor
  · rfl
  · simp [indentOf, List.replicate_succ]

/-- **C45.** How the input is cut into calls does not matter: neither for the output so far, nor for any later output. -/
theorem C45_chunks (hW : Reliable W) (cs ds : List Bytes) (h : cs.flatten = ds.flatten) (later : List Bytes) :
    (writes W size ind {} (cs ++ later)).1.w.out = (writes W size ind {} (ds ++ later)).1.w.out := by
  rw [(C46_line_semantics hW _).1, (C46_line_semantics hW _).1, List.flatten_append, List.flatten_append, h]

/-- **C58.** Whatever the writer does, it never gets anything but the beginning of the right output, even if the calls go on
after an error. -/
theorem C58_failing_writer (W : Sink) (size : Nat) (ind : Bytes) (cs : List Bytes) :
    (writes W size ind {} cs).1.w.out <+: expected ind cs.flatten := by
  have hg := good_writes (W := W) (size := size) cs (good_init (ind := ind))
  rw [List.nil_append] at hg
  rw [← emits_expected]
  cases he : (writes W size ind {} cs).1.w.err
  · rw [(hg.1 he).1]; exact List.prefix_rfl
  · exact hg.2 he

theorem writes_err_sticky (cs : List Bytes) : ∀ {c : St}, c.w.err = true →
    (writes W size ind c cs).1.w.out = c.w.out ∧ ∀ r ∈ (writes W size ind c cs).2, r.2 = true := by
  induction cs with
  | nil => intro c _; exact ⟨rfl, by simp [writes]⟩
  | cons x cs ih =>
    intro c h
    have h1 := writeLoop_err (W := W) (size := size) (ind := ind) h 0 x
    have h2 := ih (c := (write W size ind c x).1) h1.2.1
    refine ⟨h2.1.trans h1.1, ?_⟩
    simp only [writes, List.mem_cons]
    rintro r (rfl | hr)
    · exact h1.2.2
    · exact h2.2 r hr

/-- **C58, reporting.** As long as no call has reported an error, everything due has reached the writer: so a loss is
always reported. -/
theorem C58_loss_reported (W : Sink) (size : Nat) (ind : Bytes) (cs : List Bytes)
    (h : ∀ r ∈ (writes W size ind {} cs).2, r.2 = false) :
    (writes W size ind {} cs).1.w.out = expected ind cs.flatten ∧
    (writes W size ind {} cs).2 = cs.map fun x => (x.length, false) := by
  have hg := good_writes (W := W) (size := size) cs (good_init (ind := ind))
  rw [List.nil_append] at hg
  have key : ∀ (cs : List Bytes) (c : St), c.w.err = false → (∀ r ∈ (writes W size ind c cs).2, r.2 = false) →
      (writes W size ind c cs).1.w.err = false ∧ (writes W size ind c cs).2 = cs.map fun x => (x.length, false) := by
    intro cs
    induction cs with
    | nil => intro c hc _; exact ⟨hc, rfl⟩
    | cons x cs ih =>
      intro c hc hr
      simp only [writes, List.mem_cons, forall_eq_or_imp] at hr
      have h2 := writeLoop_did (W := W) (size := size) (ind := ind) hc 0 x
      simp only at h2
      have h3 := ih (write W size ind c x).1 (h2.1.1 hr.1).1 hr.2
      refine ⟨h3.1, ?_⟩
      simp only [writes, h3.2, List.map_cons, List.cons.injEq, and_true]
      have h4 := (h2.2.1 hr.1).2.2
      have h5 := hr.1
      unfold write at h5 ⊢
      ext <;> simp [h5, h4]
  have hk := key cs {} rfl h
  exact ⟨by rw [(hg.1 hk.1).1, emits_expected], hk.2⟩

/-! ### Cases -/

example : Reliable (fun _ _ => none) := fun _ _ => rfl

example : (writes (fun _ _ => none) 4 [32, 32] {} [[97, 13], [10, 98], [13], [99, 13]]).1.w.out =
    [32, 32, 97, 10, 32, 32, 98, 10, 32, 32, 99] := by decide

/-- A writer that accepts 3 bytes in all. -/
def full3 : Sink := fun out x => if out.length + x.length ≤ 3 then none else some (3 - out.length)

example : (writes full3 4 [32, 32] {} [[97], [98, 99], [100]]).1.w.out = [32, 32, 97] ∧
    (writes full3 4 [32, 32] {} [[97], [98, 99], [100]]).2 = [(1, false), (2, true), (0, true)] := by decide

end Fab.Copier
