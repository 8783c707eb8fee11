import Verif.Copier

/-!
# Several commands that print at the same time: C95

In verbose mode the output of a command goes through an `IndentingCopier` to fab's standard output (command.go:312-318, C36).  Here: what appears there if several
goroutines run commands.  Each command has a copier of its own; a copier hands its buffer on when it is full and at the end of every call of `Write`
(runner.go:172-212, bufio); these writes to the standard output are the atomic steps (os.File.Write of one goroutine is not mixed with another), and they
succeed.  What package os/exec reads from the pipe of the process at a time is one call of `Write` (a chunk); where it is cut is up to the operating system.
-/

namespace Fab.Copier

/-! ## The model -/

/-- The standard output, which accepts everything. -/
def stdoutSink : Sink := fun _ _ => none

/-- A command that is run in verbose mode: the nesting depth when its copier is made (runner.go:155-157), the prefix (command.go:314), and what it prints,
chunk by chunk. -/
structure Job where
  depth : Nat
  pre : Bytes := [32, 32, 32, 32]
  chunks : List Bytes

/-- The indentation of its copier, runner.go:161 -/
def Job.indent (j : Job) : Bytes := indentOf j.depth j.pre

/-- What the copier hands to the standard output, one element for each write.  `size` is the size of the buffer of a `bufio.Writer` (4096). -/
def Job.writes (size : Nat) (j : Job) : List Bytes := (Copier.writes stdoutSink size j.indent {} j.chunks).1.w.log

/-- Goroutines, each with what it has yet to do, in this order; and what is done in the end, in the order in which it is done. -/
inductive Mixed {α : Type} : List (List α) → List α → Prop
  | done {ts} (h : ∀ t ∈ ts, t = []) : Mixed ts []
  | step {l w t r ws} (h : Mixed (l ++ t :: r) ws) : Mixed (l ++ (w :: t) :: r) (w :: ws)

/-- What may appear on the standard output if goroutines run these commands, each its own one after the other. -/
def Screen (size : Nat) (threads : List (List Job)) (out : Bytes) : Prop :=
  ∃ ws, Mixed (threads.map fun js => js.flatMap (Job.writes size)) ws ∧ out = ws.flatten

/-! ## The specification -/

/-- A text that consists of whole lines. -/
def Whole (x : Bytes) : Prop := x = [] ∨ x.getLast? = some NL

instance (x : Bytes) : Decidable (Whole x) := inferInstanceAs (Decidable (_ ∨ _))

/-- The lines of a text of whole lines. -/
def linesOf (x : Bytes) : List Bytes := (lines (normNL x)).dropLast

/-- How a line should appear. -/
def printed (p : Bytes × Bytes) : Bytes := (if p.2 = [] then [] else p.1 ++ p.2) ++ [NL]

/-- The indentation that the lines of a command should have: two spaces for each level, and the prefix. -/
def Job.margin (j : Job) : Bytes := List.replicate (2 * j.depth) 32 ++ j.pre

/-- The lines that a command prints, each with the indentation that it should have. -/
def Job.lines (j : Job) : List (Bytes × Bytes) := (linesOf j.chunks.flatten).map fun l => (j.margin, l)

theorem Job.indent_margin (j : Job) : j.indent = j.margin := by
  have : ∀ n : Nat, (List.replicate n ([32, 32] : Bytes)).flatten = List.replicate (2 * n) 32 := by
    intro n
    induction n with
    | zero => rfl
    | succ n ih => rw [List.replicate_succ, List.flatten_cons, ih]; rfl
  simp only [Job.indent, Job.margin, indentOf, this]

/-! ## One copier -/

theorem writeByte_keeps {W : Sink} {size : Nat} {s : BW} (h : s.err = false) (b : UInt8) (hs : s.buf.length < size) :
    writeByte W size s b = ({ s with buf := s.buf ++ [b] }, false) := by
  unfold writeByte; rw [h]; simp [hs]

theorem writeString_keeps {W : Sink} {size : Nat} (x : Bytes) : ∀ {s : BW}, s.err = false → s.buf.length + x.length ≤ size →
    writeString W size s x = ({ s with buf := s.buf ++ x }, false) := by
  induction x with
  | nil => intro s h _; rw [writeString, h]; simp [← h]
  | cons b x ih =>
    intro s h hs
    simp only [List.length_cons] at hs
    rw [writeString, writeByte_keeps h b (by omega)]
    have := ih (s := { s with buf := s.buf ++ [b] }) h (by simp; omega)
    simp only at this ⊢
    rw [this]
    simp

theorem newline_keeps {W : Sink} {size : Nat} {c : St} (h : c.w.err = false) (hs : c.w.buf.length < size) :
    newline W size c = ({ w := { c.w with buf := c.w.buf ++ [NL] }, bol := true, sawcr := false }, false) := by
  unfold newline; rw [writeByte_keeps h NL hs]

theorem step_keeps {W : Sink} {size : Nat} {ind : Bytes} {c : St} (h : c.w.err = false) (b : UInt8)
    (hs : c.w.buf.length + (emit ind c.bol c.sawcr b).1.length ≤ size) :
    step W size ind c b = (⟨{ c.w with buf := c.w.buf ++ (emit ind c.bol c.sawcr b).1 }, (emit ind c.bol c.sawcr b).2.1,
      (emit ind c.bol c.sawcr b).2.2⟩, false) := by
  obtain ⟨w, bol, cr⟩ := c
  simp only at h
  unfold step
  unfold emit at hs ⊢
  by_cases h1 : b = NL
  · simp only [if_pos h1] at hs ⊢
    exact newline_keeps h (by simp only [List.length_singleton] at hs; simp only; omega)
  · simp only [if_neg h1] at hs ⊢
    by_cases h2 : b = CR
    · simp only [if_pos h2] at hs ⊢
      cases cr
      · simp
      · simp only [if_true] at hs ⊢
        rw [newline_keeps h (by simp only [List.length_singleton] at hs; simp only; omega)]
    · simp only [if_neg h2] at hs ⊢
      cases cr
      · simp only [Bool.false_eq_true, if_false] at hs ⊢
        cases bol
        · simp only [Bool.false_eq_true, if_false, List.nil_append] at hs ⊢
          rw [writeByte_keeps h b (by simp only [List.length_singleton] at hs; omega)]
        · simp only [if_true] at hs ⊢
          simp only [List.length_append, List.length_singleton] at hs
          rw [writeString_keeps ind h (by omega)]
          simp only
          rw [writeByte_keeps (by exact h) b (by simp; omega)]
          simp
      · simp only [if_true] at hs ⊢
        simp only [List.length_append, List.length_cons, List.length_nil] at hs
        rw [newline_keeps h (by simp only; omega)]
        simp only [if_true]
        rw [writeString_keeps ind (by exact h) (by simp; omega)]
        simp only
        rw [writeByte_keeps (by exact h) b (by simp; omega)]
        simp

/-- Input that fits into the buffer together with what is there is not handed on before the end. -/
theorem writeLoop_keeps {W : Sink} {size : Nat} {ind : Bytes} (x y : Bytes) : ∀ {c : St} (n : Nat), c.w.err = false →
    c.w.buf.length + (emits ind c.bol c.sawcr x).length ≤ size →
    writeLoop W size ind c n (x ++ y) = writeLoop W size ind ⟨{ c.w with buf := c.w.buf ++ emits ind c.bol c.sawcr x },
      (after ind c.bol c.sawcr x).1, (after ind c.bol c.sawcr x).2⟩ (n + x.length) y := by
  induction x with
  | nil => intro c n h hs; simp [emits, after]
  | cons b x ih =>
    intro c n h hs
    simp only [emits, List.length_append] at hs
    rw [List.cons_append, writeLoop, step_keeps h b (by omega)]
    simp only
    rw [ih (n + 1) (by exact h) (by simp only [List.length_append]; omega)]
    simp only [emits, after, List.append_assoc, List.length_cons]
    congr 1
    omega

/-- One chunk that fits into the buffer is handed on in one piece. -/
theorem write_piece {size : Nat} {ind : Bytes} {c : St} (x : Bytes) (h : c.w.err = false) (hb : c.w.buf = [])
    (hs : (emits ind c.bol c.sawcr x).length ≤ size) :
    let c' := (write stdoutSink size ind c x).1
    c'.w.err = false ∧ c'.w.buf = [] ∧ (c'.bol, c'.sawcr) = after ind c.bol c.sawcr x ∧
      c'.w.log = c.w.log ++ if emits ind c.bol c.sawcr x = [] then [] else [emits ind c.bol c.sawcr x] := by
  have := writeLoop_keeps (W := stdoutSink) x [] (c := c) 0 h (by rw [hb]; simpa using hs)
  rw [List.append_nil] at this
  simp only [write]
  rw [this, writeLoop, flush]
  simp only [h, hb, List.nil_append, Bool.false_eq_true, if_false]
  by_cases he : emits ind c.bol c.sawcr x = []
  · simp [he]
  · simp [he, stdoutSink]

theorem after_whole {ind x : Bytes} (h : Whole x) : after ind true false x = (true, false) := by
  rcases h with rfl | h
  · rfl
  · obtain ⟨y, rfl⟩ := List.getLast?_eq_some_iff.1 h
    rw [after_append]; simp [after, emit]

/-- A copier is at the beginning of a line, with nothing in its buffer. -/
def Ready (c : St) : Prop := c.w.err = false ∧ c.w.buf = [] ∧ c.bol = true ∧ c.sawcr = false

theorem expected_eq_nil {ind x : Bytes} (h : Whole x) : expected ind x = [] ↔ x = [] := by
  constructor
  · intro he
    rcases h with h | h
    · exact h
    · obtain ⟨y, rfl⟩ := List.getLast?_eq_some_iff.1 h
      rw [← emits_expected, emits_append] at he
      simp [emits, emit] at he
  · rintro rfl; rfl

theorem writes_whole {size : Nat} {ind : Bytes} (cs : List Bytes) : ∀ {c : St}, Ready c → (∀ x ∈ cs, Whole x) → (∀ x ∈ cs, (expected ind x).length ≤ size) →
    (writes stdoutSink size ind c cs).1.w.log = c.w.log ++ (cs.filter (· ≠ [])).map (expected ind) := by
  induction cs with
  | nil => intro c _ _ _; simp [writes]
  | cons x cs ih =>
    intro c hc hw hl
    obtain ⟨h1, h2, h3, h4⟩ := hc
    have hx := hw x (by simp)
    have hp := write_piece (size := size) (ind := ind) x h1 h2 (by rw [h3, h4, emits_expected]; exact hl x (by simp))
    simp only [h3, h4, after_whole hx, emits_expected] at hp
    obtain ⟨p1, p2, p3, p4⟩ := hp
    simp only [Prod.mk.injEq] at p3
    simp only [writes]
    rw [ih ⟨p1, p2, p3.1, p3.2⟩ (fun y hy => hw y (by simp [hy])) (fun y hy => hl y (by simp [hy])), p4]
    by_cases hx0 : x = []
    · subst hx0
      rw [if_pos ((expected_eq_nil hx).2 rfl)]; simp
    · rw [if_neg (fun e => hx0 ((expected_eq_nil hx).1 e)), List.filter_cons_of_pos (by simpa using hx0)]
      simp

/-- **C95, one command.** If a command prints in chunks that are whole lines, and each fits into the buffer of the copier when it is indented, then each chunk is
one write to the standard output. -/
theorem Job.writes_whole {size : Nat} {j : Job} (hw : ∀ x ∈ j.chunks, Whole x) (hl : ∀ x ∈ j.chunks, (expected j.indent x).length ≤ size) :
    j.writes size = (j.chunks.filter (· ≠ [])).map (expected j.indent) := by
  have := Copier.writes_whole (size := size) (ind := j.indent) j.chunks (c := {}) ⟨rfl, rfl, rfl, rfl⟩ hw hl
  simpa [Job.writes] using this

/-! ## Lines -/

theorem normNL_snoc (y : Bytes) : (∃ z, normNL (y ++ [NL]) = z ++ [NL]) ∧ ∃ z, normNL (CR :: (y ++ [NL])) = z ++ [NL] := by
  have hother : ∀ b s, b ≠ CR → normNL (b :: s) = b :: normNL s := by
    intro b s hb; cases s <;> simp [normNL, hb]
  induction y with
  | nil => exact ⟨⟨[], by decide⟩, [], by decide⟩
  | cons b y ih =>
    have h1 : ∃ z, normNL (b :: (y ++ [NL])) = z ++ [NL] := by
      by_cases hb : b = CR
      · subst hb; exact ih.2
      · obtain ⟨z, hz⟩ := ih.1
        exact ⟨b :: z, by rw [hother b _ hb, hz]; rfl⟩
    refine ⟨h1, ?_⟩
    by_cases hb : b = NL
    · subst hb
      obtain ⟨z, hz⟩ := ih.1
      exact ⟨NL :: z, by simp [normNL, hz]⟩
    · obtain ⟨z, hz⟩ := h1
      refine ⟨NL :: z, ?_⟩
      rw [List.cons_append, normNL, if_pos rfl, if_neg hb, hz]; rfl

theorem lines_append (y z : Bytes) : lines (y ++ NL :: z) = lines y ++ lines z := by
  induction y with
  | nil => simp [lines]
  | cons b y ih =>
    obtain ⟨l, ls, h⟩ := lines_ne y
    by_cases hb : b = NL
    · simp [lines, hb, ih]
    · simp [lines, hb, ih, h]

theorem unlines_snoc (ls : List Bytes) : unlines (ls ++ [[]]) = ls.flatMap (· ++ [NL]) := by
  induction ls with
  | nil => rfl
  | cons l ls ih =>
    cases ls with
    | nil => simp [unlines]
    | cons m ls => simp only [List.cons_append, unlines, List.flatMap_cons] at ih ⊢; rw [ih]; simp

/-- What is expected of a text of whole lines: its lines, each as it should appear. -/
theorem expected_whole {ind x : Bytes} (h : Whole x) : expected ind x = (linesOf x).flatMap fun l => printed (ind, l) := by
  rcases h with rfl | h
  · rfl
  · obtain ⟨y, rfl⟩ := List.getLast?_eq_some_iff.1 h
    obtain ⟨z, hz⟩ := (normNL_snoc y).1
    rw [expected, linesOf, hz, lines_append, show lines [] = [[]] from rfl, List.map_append, List.dropLast_concat]
    simp only [List.map_cons, if_true, List.map_nil]
    rw [unlines_snoc]
    simp [List.flatMap_map, printed]

theorem linesOf_append {x y : Bytes} (hx : Whole x) : linesOf (x ++ y) = linesOf x ++ linesOf y := by
  rcases hx with rfl | h
  · rfl
  · obtain ⟨x, rfl⟩ := List.getLast?_eq_some_iff.1 h
    have hnorm : ∀ (x : Bytes), normNL (x ++ [NL] ++ y) = normNL (x ++ [NL]) ++ normNL y ∧
        normNL (CR :: (x ++ [NL] ++ y)) = normNL (CR :: (x ++ [NL])) ++ normNL y := by
      have hother : ∀ b s, b ≠ CR → normNL (b :: s) = b :: normNL s := by
        intro b s hb; cases s <;> simp [normNL, hb]
      intro x
      induction x with
      | nil =>
        refine ⟨?_, ?_⟩
        · rw [List.nil_append, List.singleton_append, hother _ _ (by decide), show normNL [NL] = [NL] by decide]; rfl
        · rw [List.nil_append, List.singleton_append, normNL, if_pos rfl, if_pos rfl, show normNL [CR, NL] = [NL] by decide]; rfl
      | cons b x ih =>
        have h1 : normNL (b :: (x ++ [NL] ++ y)) = normNL (b :: (x ++ [NL])) ++ normNL y := by
          by_cases hb : b = CR
          · subst hb; exact ih.2
          · rw [hother b _ hb, hother b _ hb, ih.1]; rfl
        refine ⟨h1, ?_⟩
        by_cases hb : b = NL
        · subst hb; simp only [List.cons_append, normNL, if_true]; rw [ih.1]
        · simp only [List.cons_append, normNL, if_true, if_neg hb]
          rw [show normNL (b :: (x ++ [NL] ++ y)) = normNL (b :: (x ++ [NL])) ++ normNL y from h1]
    obtain ⟨z, hz⟩ := (normNL_snoc x).1
    simp only [linesOf]
    rw [(hnorm x).1, hz, List.append_assoc, List.singleton_append, lines_append, lines_append, show lines [] = [[]] from rfl, List.dropLast_concat]
    obtain ⟨l, ls, hl⟩ := lines_ne (normNL y)
    rw [hl, List.dropLast_append_of_ne_nil (by simp)]

theorem linesOf_flatten {cs : List Bytes} (h : ∀ x ∈ cs, Whole x) : linesOf cs.flatten = cs.flatMap linesOf := by
  induction cs with
  | nil => rfl
  | cons x cs ih =>
    rw [List.flatten_cons, linesOf_append (h x (by simp)), ih fun y hy => h y (by simp [hy])]; rfl

/-! ## Several goroutines -/

theorem Mixed.perm {α : Type} {ts : List (List α)} {ws : List α} (h : Mixed ts ws) : ws.Perm ts.flatten := by
  induction h with
  | @done ts h => rw [List.flatten_eq_nil_iff.2 h]
  | @step l w t r ws h ih =>
    simp only [List.flatten_append, List.flatten_cons] at ih ⊢
    exact (List.Perm.cons w ih).trans (List.perm_middle (l₁ := l.flatten)).symm

theorem Mixed.sublist {α : Type} {ts : List (List α)} {ws : List α} (h : Mixed ts ws) : ∀ t ∈ ts, t.Sublist ws := by
  induction h with
  | @done ts h => intro t ht; rw [h t ht]
  | @step l w t r ws h ih =>
    intro u hu
    rcases List.mem_append.1 hu with hu | hu
    · exact (ih u (by simp [hu])).cons w
    · rcases List.mem_cons.1 hu with rfl | hu
      · exact (ih t (by simp)).cons_cons w
      · exact (ih u (by simp [hu])).cons w

theorem Mixed.of_map {α β : Type} {f : α → β} {us : List (List β)} {ws : List β} (h : Mixed us ws) : ∀ {ts : List (List α)}, us = ts.map (·.map f) →
    ∃ xs, Mixed ts xs ∧ ws = xs.map f := by
  induction h with
  | @done us h =>
    rintro ts rfl
    exact ⟨[], .done fun t ht => by have := h _ (List.mem_map_of_mem ht); simpa using this, rfl⟩
  | @step l w t r ws h ih =>
    intro ts e
    obtain ⟨l', u', rfl, rfl, e'⟩ := List.map_eq_append_iff.1 e.symm
    clear e
    obtain ⟨t', r', rfl, et, rfl⟩ := List.map_eq_cons_iff.1 e'
    obtain ⟨a, t', rfl, rfl, rfl⟩ := List.map_eq_cons_iff.1 et
    obtain ⟨xs, h1, rfl⟩ := ih (ts := l' ++ t' :: r') (by simp)
    exact ⟨a :: xs, .step h1, rfl⟩

theorem sublist_flatMap {α β : Type} (g : α → List β) {a b : List α} (h : a.Sublist b) : (a.flatMap g).Sublist (b.flatMap g) := by
  induction h with
  | slnil => exact List.Sublist.refl _
  | cons x h ih => exact ih.trans (by simp)
  | cons_cons x h ih => exact List.Sublist.append (List.Sublist.refl _) ih

theorem Mixed.one {α : Type} {ts : List (List α)} {ws : List α} (h : Mixed ts ws) : ∀ {t : List α}, ts = [t] → ws = t := by
  induction h with
  | @done ts h => rintro t rfl; exact (h t (by simp)).symm
  | @step l w t r ws h ih =>
    intro u e
    cases l with
    | nil =>
      simp only [List.nil_append, List.cons.injEq] at e
      obtain ⟨rfl, rfl⟩ := e
      rw [ih rfl]
    | cons a l => simp at e

/-! ## The output of a copier, piece by piece -/

/-- What has been handed on is what the writer has accepted. -/
def Logged (s : BW) : Prop := s.log.flatten = s.out

theorem flush_logged {W : Sink} {s : BW} (h : Logged s) : Logged (flush W s).1 := by
  unfold Logged at *
  unfold flush
  split
  · exact h
  · split
    · exact h
    · split <;> simp [h]

theorem writeByte_logged {W : Sink} {size : Nat} {s : BW} (h : Logged s) (b : UInt8) : Logged (writeByte W size s b).1 := by
  have hf := flush_logged (W := W) h
  unfold writeByte
  split
  · exact h
  · split
    · exact h
    · split <;> rename_i e <;> rw [e] at hf <;> exact hf

theorem writeString_logged {W : Sink} {size : Nat} (x : Bytes) : ∀ {s : BW}, Logged s → Logged (writeString W size s x).1 := by
  induction x with
  | nil => intro s h; exact h
  | cons b x ih =>
    intro s h
    have hb := writeByte_logged (W := W) (size := size) h b
    rw [writeString]
    split <;> rename_i e <;> rw [e] at hb
    · exact hb
    · exact ih hb

theorem newline_logged {W : Sink} {size : Nat} {c : St} (h : Logged c.w) : Logged (newline W size c).1.w := by
  have hb := writeByte_logged (W := W) (size := size) h NL
  unfold newline
  split <;> rename_i e <;> rw [e] at hb <;> exact hb

theorem step_logged {W : Sink} {size : Nat} {ind : Bytes} {c : St} (h : Logged c.w) (b : UInt8) : Logged (step W size ind c b).1.w := by
  unfold step
  have h1 : Logged (if c.sawcr then newline W size c else (c, false)).1.w := by split; exacts [newline_logged h, h]
  generalize (if c.sawcr then newline W size c else (c, false)) = r at h1
  obtain ⟨c1, e1⟩ := r
  split
  · exact newline_logged h
  · split
    · cases e1 <;> exact h1
    · cases e1
      · have h2 : Logged (if c1.bol then
            match writeString W size c1.w ind with
            | (w, e) => (({ c1 with w := w } : St), e)
          else (c1, false)).1.w := by
          split
          · exact writeString_logged ind h1
          · exact h1
        dsimp only
        generalize (if c1.bol then
            match writeString W size c1.w ind with
            | (w, e) => (({ c1 with w := w } : St), e)
          else (c1, false)) = r at h2
        obtain ⟨c2, e2⟩ := r
        cases e2
        · exact writeByte_logged h2 b
        · exact h2
      · exact h1

theorem writeLoop_logged {W : Sink} {size : Nat} {ind : Bytes} (x : Bytes) : ∀ {c : St} (n : Nat), Logged c.w → Logged (writeLoop W size ind c n x).1.w := by
  induction x with
  | nil => intro c n h; exact flush_logged h
  | cons b x ih =>
    intro c n h
    have hs := step_logged (W := W) (size := size) (ind := ind) h b
    rw [writeLoop]
    split <;> rename_i e <;> rw [e] at hs
    · exact hs
    · exact ih _ hs

theorem writes_logged {W : Sink} {size : Nat} {ind : Bytes} (cs : List Bytes) : ∀ {c : St}, Logged c.w → Logged (writes W size ind c cs).1.w := by
  induction cs with
  | nil => intro c h; exact h
  | cons x cs ih => intro c h; exact ih (writeLoop_logged x 0 h)

theorem Job.writes_flatten (size : Nat) (j : Job) : (j.writes size).flatten = expected j.indent j.chunks.flatten := by
  rw [← (C46_line_semantics (W := stdoutSink) (size := size) (ind := j.indent) (fun _ _ => rfl) j.chunks).1]
  exact writes_logged j.chunks rfl

/-! ## Properties -/

/-- **C95, one goroutine.** Commands that are run one after the other: their outputs appear one after the other, each indented. -/
theorem C95_one_goroutine (size : Nat) (js : List Job) (out : Bytes) :
    Screen size [js] out ↔ out = js.flatMap fun j => expected j.margin j.chunks.flatten := by
  have key : (js.flatMap (Job.writes size)).flatten = js.flatMap fun j => expected j.margin j.chunks.flatten := by
    induction js with
    | nil => rfl
    | cons j js ih => simp only [List.flatMap_cons, List.flatten_append, ih, Job.writes_flatten, Job.indent_margin]
  constructor
  · rintro ⟨ws, h, rfl⟩
    rw [h.one rfl, key]
  · rintro rfl
    refine ⟨_, ?_, key.symm⟩
    have : ∀ t : List Bytes, Mixed [t] t := by
      intro t
      induction t with
      | nil => exact .done (by simp)
      | cons w t ih => exact .step (l := []) ih
    exact this _

/-- **C95, nothing is lost.** Whatever the schedule: everything that the commands print appears, once, in pieces; the pieces of one goroutine appear in their
order, and together they are the right output of its commands. -/
theorem C95_pieces {size : Nat} {threads : List (List Job)} {out : Bytes} (h : Screen size threads out) :
    ∃ (pieces : List (List Bytes)) (ws : List Bytes), out = ws.flatten ∧ ws.Perm pieces.flatten ∧ (∀ p ∈ pieces, p.Sublist ws) ∧
      pieces.map List.flatten = threads.map fun js => js.flatMap fun j => expected j.margin j.chunks.flatten := by
  obtain ⟨ws, h, rfl⟩ := h
  refine ⟨_, ws, rfl, h.perm, h.sublist, ?_⟩
  rw [List.map_map]
  refine List.map_congr_left fun js hjs => ?_
  simp only [Function.comp]
  clear hjs
  induction js with
  | nil => rfl
  | cons j js ih => simp only [List.flatMap_cons, List.flatten_append, ih, Job.writes_flatten, Job.indent_margin]

/-- **C95 (partly), whole lines.** If the commands print in chunks of whole lines, each of which fits into the buffer of its copier, then every line of every
command appears exactly once, as a whole and with the indentation of its command, whatever the schedule; and the lines of one goroutine appear in
their order.  What is missing: other chunks (see the counterexamples). -/
theorem C95_lines_partial {size : Nat} {threads : List (List Job)} {out : Bytes} (h : Screen size threads out)
    (hw : ∀ js ∈ threads, ∀ j ∈ js, ∀ x ∈ j.chunks, Whole x) (hl : ∀ js ∈ threads, ∀ j ∈ js, ∀ x ∈ j.chunks, (expected j.margin x).length ≤ size) :
    ∃ order : List (Bytes × Bytes), order.Perm (threads.flatMap fun js => js.flatMap Job.lines) ∧
      (∀ js ∈ threads, (js.flatMap Job.lines).Sublist order) ∧ out = order.flatMap printed := by
  obtain ⟨ws, h, rfl⟩ := h
  simp only [← Job.indent_margin] at hl
  -- the chunks, with their indentation
  have e : (threads.map fun js => js.flatMap (Job.writes size)) =
      (threads.map fun js => js.flatMap fun j => (j.chunks.filter (· ≠ [])).map fun x => (j.indent, x)).map (·.map fun p => expected p.1 p.2) := by
    rw [List.map_map]
    refine List.map_congr_left fun js hjs => ?_
    simp only [Function.comp, List.map_flatMap, List.map_map]
    refine List.flatMap_congr fun j hj => ?_
    rw [Job.writes_whole (hw js hjs j hj) (hl js hjs j hj)]
    rfl
  obtain ⟨xs, hm, rfl⟩ := h.of_map e
  let g : Bytes × Bytes → List (Bytes × Bytes) := fun p => (linesOf p.2).map fun l => (p.1, l)
  have hg : ∀ js ∈ threads, (js.flatMap fun j => (j.chunks.filter (· ≠ [])).map fun x => (j.indent, x)).flatMap g = js.flatMap Job.lines := by
    intro js hjs
    rw [List.flatMap_assoc]
    refine List.flatMap_congr fun j hj => ?_
    rw [List.flatMap_map, Job.lines, ← Job.indent_margin, linesOf_flatten (hw js hjs j hj)]
    have : ∀ cs : List Bytes, (cs.filter (· ≠ [])).flatMap (fun x => g (j.indent, x)) = (cs.flatMap linesOf).map fun l => (j.indent, l) := by
      intro cs
      induction cs with
      | nil => rfl
      | cons x cs ih =>
        by_cases hx : x = []
        · subst hx
          rw [List.filter_cons_of_neg (by simp), ih]; rfl
        · rw [List.filter_cons_of_pos (by simpa using hx), List.flatMap_cons, ih, List.flatMap_cons, List.map_append]
    exact this _
  have hwx : ∀ p ∈ xs, Whole p.2 := by
    intro p hp
    have := hm.perm.mem_iff.1 hp
    simp only [List.mem_flatten, List.mem_map] at this
    obtain ⟨_, ⟨js, hjs, rfl⟩, hp⟩ := this
    simp only [List.mem_flatMap, List.mem_map, List.mem_filter] at hp
    obtain ⟨j, hj, x, ⟨hx, -⟩, rfl⟩ := hp
    exact hw js hjs j hj x hx
  refine ⟨xs.flatMap g, ?_, fun js hjs => ?_, ?_⟩
  · refine (hm.perm.flatMap_right g).trans ?_
    rw [← List.flatMap_def, List.flatMap_assoc, List.flatMap_congr hg]
  · rw [← hg js hjs]
    exact sublist_flatMap g (hm.sublist _ (List.mem_map_of_mem hjs))
  · rw [List.flatMap_assoc, ← List.flatMap_def]
    refine List.flatMap_congr fun p hp => ?_
    rw [expected_whole (hwx p hp), List.flatMap_map]

/-! ### What is false -/

/-- One goroutine runs a command that prints "ab" and then "c" and a newline; another one a command that prints "x" and a newline. -/
def exTwo : List (List Job) := [[⟨0, [32], [[97, 98], [99, 10]]⟩], [⟨0, [32], [[120, 10]]⟩]]

/-- **C95 is false: lines that are printed in several pieces.** The line of one command may appear within a line of another one. -/
theorem C95_counterexample_cut : Screen 4096 exTwo [32, 97, 98, 32, 120, 10, 99, 10] ∧ Screen 4096 exTwo [32, 97, 98, 99, 10, 32, 120, 10] := by
  have h1 : (exTwo.map fun js => js.flatMap (Job.writes 4096)) = [[[32, 97, 98], [99, 10]], [[32, 120, 10]]] := by decide +kernel
  refine ⟨⟨[[32, 97, 98], [32, 120, 10], [99, 10]], ?_, rfl⟩, ⟨[[32, 97, 98], [99, 10], [32, 120, 10]], ?_, rfl⟩⟩ <;> rw [h1]
  · exact .step (l := []) (.step (l := [_]) (r := []) (.step (l := []) (.done (by simp))))
  · exact .step (l := []) (.step (l := []) (.step (l := [_]) (r := []) (.done (by simp))))

/-- **C95 is false: the end of the output.** What a command prints after its last newline gets no newline: the next command's output, even in the same goroutine, goes on in the same line. -/
theorem C95_counterexample_last_line (size : Nat) (out : Bytes) :
    Screen size [[⟨0, [32], [[97]]⟩, ⟨0, [32], [[98, 10]]⟩]] out ↔ out = [32, 97, 32, 98, 10] := by
  rw [C95_one_goroutine]
  have : ([⟨0, [32], [[97]]⟩, ⟨0, [32], [[98, 10]]⟩] : List Job).flatMap (fun j => expected j.margin j.chunks.flatten) = [32, 97, 32, 98, 10] := by decide
  rw [this]

theorem emits_plain (n : Nat) : emits [] false false (List.replicate n 97) = List.replicate n 97 ∧ after [] false false (List.replicate n 97) = (false, false) := by
  induction n with
  | zero => exact ⟨rfl, rfl⟩
  | succ n ih => simp [List.replicate_succ, emits, after, emit, ih, show (97 : UInt8) ≠ NL by decide, show (97 : UInt8) ≠ CR by decide]

/-- A command that prints one line of `size` bytes and a newline, in one chunk: the newline comes in a write of its own. -/
theorem long_writes (size : Nat) (h : 0 < size) : Job.writes size ⟨0, [], [List.replicate size 97 ++ [NL]]⟩ = [List.replicate size 97, [NL]] := by
  obtain ⟨n, rfl⟩ := Nat.exists_eq_succ_of_ne_zero (n := size) (by omega)
  have he : emits [] true false (List.replicate (n + 1) 97) = List.replicate (n + 1) 97 ∧ after [] true false (List.replicate (n + 1) 97) = (false, false) := by
    simp [List.replicate_succ, emits, after, emit, emits_plain n, show (97 : UInt8) ≠ NL by decide, show (97 : UInt8) ≠ CR by decide]
  have hk := writeLoop_keeps (W := stdoutSink) (size := n + 1) (ind := []) (List.replicate (n + 1) 97) [NL] (c := {}) 0 rfl (by simp [he.1])
  simp only [he.1, he.2, List.nil_append] at hk
  simp only [Job.writes, Job.indent, indentOf, List.replicate_zero, List.flatten_nil, List.nil_append, Copier.writes, write]
  rw [hk]
  simp [writeLoop, step, newline, writeByte, flush, stdoutSink]

/-- **C95 is false: long lines.** Even if commands print whole lines, a line that is longer than the buffer is cut, and others may print in between. -/
theorem C95_counterexample_long (size : Nat) (h : 1 < size) :
    Screen size [[⟨0, [], [List.replicate size 97 ++ [NL]]⟩], [⟨0, [], [[98, 10]]⟩]] (List.replicate size 97 ++ [98, 10] ++ [NL]) := by
  refine ⟨[List.replicate size 97, [98, 10], [NL]], ?_, by simp⟩
  have h2 : Job.writes size ⟨0, [], [[98, 10]]⟩ = [[98, 10]] :=
    Job.writes_whole (size := size) (j := ⟨0, [], [[98, 10]]⟩) (by simp [Whole, NL])
      (by
        have : (expected (Job.indent ⟨0, [], [[98, 10]]⟩) [98, 10]).length = 2 := by decide
        intro x hx
        simp only [List.mem_singleton] at hx
        subst hx; rw [this]; omega)
  simp only [List.map_cons, List.map_nil, List.flatMap_cons, List.flatMap_nil, List.append_nil, long_writes size (by omega), h2]
  exact .step (l := []) (.step (l := [_]) (r := []) (.step (l := []) (.done (by simp))))

/-! ### Cases -/

/-- Two goroutines, whole lines: the hypotheses of `C95_lines_partial`. -/
def exWhole : List (List Job) := [[⟨1, [32], [[97, 10, 10, 98, 13, 10]]⟩], [⟨2, [32], [[120, 10], [], [121, 10]]⟩]]

example : (∀ js ∈ exWhole, ∀ j ∈ js, ∀ x ∈ j.chunks, Whole x) ∧ (∀ js ∈ exWhole, ∀ j ∈ js, ∀ x ∈ j.chunks, (expected j.margin x).length ≤ 4096) ∧
    Screen 4096 exWhole ([32, 32, 32, 32, 32, 120, 10] ++ [32, 32, 32, 97, 10, 10, 32, 32, 32, 98, 10] ++ [32, 32, 32, 32, 32, 121, 10]) := by
  refine ⟨by decide +kernel, by decide +kernel, [[32, 32, 32, 32, 32, 120, 10], [32, 32, 32, 97, 10, 10, 32, 32, 32, 98, 10], [32, 32, 32, 32, 32, 121, 10]], ?_, rfl⟩
  have h1 : (exWhole.map fun js => js.flatMap (Job.writes 4096)) =
    [[[32, 32, 32, 97, 10, 10, 32, 32, 32, 98, 10]], [[32, 32, 32, 32, 32, 120, 10], [32, 32, 32, 32, 32, 121, 10]]] := by decide +kernel
  rw [h1]
  exact .step (l := [_]) (r := []) (.step (l := []) (.step (l := [_]) (r := []) (.done (by simp))))

example : exWhole.flatMap (fun js => js.flatMap Job.lines) =
    [([32, 32, 32], [97]), ([32, 32, 32], []), ([32, 32, 32], [98]), ([32, 32, 32, 32, 32], [120]), ([32, 32, 32, 32, 32], [121])] := by decide

/-! ## Commands and messages together -/

/-- What goroutines do with the standard output: they run commands and print messages (the text that `fmt.Fprintf` makes of the format, C70, at a nesting depth). -/
inductive Action where
  | cmd (j : Job)
  | msg (depth : Nat) (text : Bytes)

/-- One element for each write; a message at a depth above 0 is two writes, runner.go:141-144 -/
def Action.writes (size : Nat) : Action → List Bytes
  | .cmd j => j.writes size
  | .msg d t => (if d > 0 then [(List.replicate d [32, 32]).flatten] else []) ++ [t]

/-- What may appear on the standard output. -/
def Shown (size : Nat) (threads : List (List Action)) (out : Bytes) : Prop :=
  ∃ ws, Mixed (threads.map fun as => as.flatMap (Action.writes size)) ws ∧ out = ws.flatten

/-- The lines, without indentation: specification. -/
def Action.lines : Action → List Bytes
  | .cmd j => linesOf j.chunks.flatten
  | .msg _ t => (Copier.lines t).dropLast

/-- Commands print chunks of whole lines that fit into the buffer, and the prefix of their copier consists of spaces (command.go:314); messages are whole lines, too (runner.go:133-135). -/
def Action.Fine (size : Nat) : Action → Prop
  | .cmd j => (∀ x ∈ j.chunks, Whole x) ∧ (∀ x ∈ j.chunks, (expected j.margin x).length ≤ size) ∧ ∀ b ∈ j.pre, b = 32
  | .msg _ t => Whole t

/-- Two lines that differ only in their indentation. -/
def SameText (a b : Bytes) : Prop := a.dropWhile (· = 32) = b.dropWhile (· = 32)

theorem SameText.spaces {x : Bytes} (y : Bytes) (h : ∀ b ∈ x, b = 32) : SameText (x ++ y) y := by
  unfold SameText
  induction x with
  | nil => rfl
  | cons b x ih => rw [List.cons_append, List.dropWhile_cons_of_pos (by simpa using h b (by simp))]; exact ih fun c hc => h c (by simp [hc])

theorem SameText.trans {a b c : Bytes} (h : SameText a b) (h' : SameText b c) : SameText a c := Eq.trans h h'

theorem forall₂_refl (ls : List Bytes) : List.Forall₂ SameText ls ls := by
  induction ls with
  | nil => exact .nil
  | cons l ls ih => exact .cons rfl ih

theorem forall₂_trans {a b c : List Bytes} (h : List.Forall₂ SameText a b) : List.Forall₂ SameText b c → List.Forall₂ SameText a c := by
  induction h generalizing c with
  | nil => exact id
  | cons h _ ih => intro h'; cases h' with | cons h1 h2 => exact .cons (h.trans h1) (ih h2)

/-- What is written at a time: spaces, or lines. -/
inductive Portion where
  | space (x : Bytes)
  | text (x : Bytes) (ls : List Bytes)

def Portion.bytes : Portion → Bytes
  | .space x => x
  | .text x _ => x

def Portion.lines : Portion → List Bytes
  | .space _ => []
  | .text _ ls => ls

def Portion.Ok : Portion → Prop
  | .space x => ∀ b ∈ x, b = 32
  | .text x ls => Whole x ∧ List.Forall₂ SameText (Copier.lines x).dropLast ls

theorem lines_spaces {x : Bytes} (h : ∀ b ∈ x, b = 32) (y : Bytes) {l : Bytes} {ls : List Bytes} (hl : Copier.lines y = l :: ls) :
    Copier.lines (x ++ y) = (x ++ l) :: ls := by
  induction x with
  | nil => exact hl
  | cons b x ih =>
    have hb := h b (by simp)
    subst hb
    rw [List.cons_append, Copier.lines, if_neg (by decide), ih fun c hc => h c (by simp [hc])]; rfl

theorem forall₂_append {a b c d : List Bytes} (h : List.Forall₂ SameText a b) (h' : List.Forall₂ SameText c d) : List.Forall₂ SameText (a ++ c) (b ++ d) := by
  induction h with
  | nil => exact h'
  | cons h _ ih => exact .cons h ih

theorem portions_lines (ps : List Portion) : ∀ {sp : Bytes}, (∀ b ∈ sp, b = 32) → (∀ p ∈ ps, p.Ok) →
    List.Forall₂ SameText (Copier.lines (sp ++ ps.flatMap Portion.bytes)) (ps.flatMap Portion.lines ++ [[]]) := by
  induction ps with
  | nil =>
    intro sp hsp _
    rw [List.flatMap_nil, lines_spaces hsp [] (l := []) (ls := []) rfl]
    exact .cons (.spaces [] hsp) .nil
  | cons p ps ih =>
    intro sp hsp h
    have hp := h p (by simp)
    have h' : ∀ p ∈ ps, p.Ok := fun q hq => h q (by simp [hq])
    cases p with
    | space x =>
      have := ih (sp := sp ++ x) (fun b hb => by rcases List.mem_append.1 hb with hb | hb; exacts [hsp b hb, hp b hb]) h'
      simpa [Portion.bytes, Portion.lines] using this
    | text x ls =>
      obtain ⟨hw, hls⟩ := hp
      rcases hw with rfl | hw
      · have e : ls = [] := by cases hls; rfl
        subst e
        simpa [Portion.bytes, Portion.lines] using ih hsp h'
      · obtain ⟨y, rfl⟩ := List.getLast?_eq_some_iff.1 hw
        rw [lines_append, show Copier.lines [] = [[]] from rfl, List.dropLast_concat] at hls
        have hi := ih (sp := []) (by simp) h'
        rw [List.nil_append] at hi
        simp only [List.flatMap_cons, Portion.bytes, Portion.lines]
        rw [show sp ++ (y ++ [NL] ++ ps.flatMap Portion.bytes) = (sp ++ y) ++ NL :: ps.flatMap Portion.bytes by simp, lines_append, List.append_assoc]
        refine forall₂_append ?_ hi
        obtain ⟨l, m, hl⟩ := lines_ne y
        rw [lines_spaces hsp y hl]
        rw [hl] at hls
        cases hls with
        | cons h1 h2 => exact .cons ((SameText.spaces l hsp).trans h1) h2

theorem lines_flatMap_printed {ind : Bytes} (ls : List Bytes) (hi : ∀ b ∈ ind, b = 32) (h : ∀ l ∈ ls, NL ∉ l) :
    List.Forall₂ SameText (Copier.lines (ls.flatMap fun l => printed (ind, l))).dropLast ls := by
  have hn : ∀ l : Bytes, NL ∉ l → Copier.lines l = [l] := by
    intro l hl
    induction l with
    | nil => rfl
    | cons b l ih => rw [Copier.lines, if_neg (fun e => hl (by simp [e])), ih (fun e => hl (by simp [e]))]
  induction ls with
  | nil => exact .nil
  | cons l ls ih =>
    have hl : NL ∉ (if l = [] then [] else ind ++ l) := by
      split
      · simp
      · intro hm
        rcases List.mem_append.1 hm with hm | hm
        · exact absurd (hi _ hm) (by decide)
        · exact h l (by simp) hm
    rw [List.flatMap_cons, printed, List.append_assoc, List.singleton_append, lines_append, hn _ hl]
    obtain ⟨a, b, e⟩ := lines_ne (ls.flatMap fun l => printed (ind, l))
    have hr := ih fun m hm => h m (by simp [hm])
    rw [e] at hr ⊢
    rw [List.singleton_append, List.dropLast_cons_cons]
    refine .cons ?_ hr
    split
    · rename_i e; subst e; rfl
    · exact .spaces l hi

theorem lines_noNL (x : Bytes) : ∀ l ∈ Copier.lines x, NL ∉ l := by
  induction x with
  | nil => simp [Copier.lines]
  | cons b x ih =>
    obtain ⟨m, ms, e⟩ := lines_ne x
    rw [Copier.lines]
    split
    · intro l hl
      rcases List.mem_cons.1 hl with rfl | hl
      · simp
      · exact ih l hl
    · rename_i hb
      rw [e] at ih ⊢
      intro l hl
      rcases List.mem_cons.1 hl with rfl | hl
      · intro hm
        rcases List.mem_cons.1 hm with hm | hm
        · exact hb hm.symm
        · exact ih m (by simp) hm
      · exact ih l (by simp [hl])

theorem linesOf_noNL (x : Bytes) : ∀ l ∈ linesOf x, NL ∉ l := fun l hl => lines_noNL _ l (List.dropLast_subset _ hl)

theorem indent_spaces {j : Job} (h : ∀ b ∈ j.pre, b = 32) : ∀ b ∈ j.indent, b = 32 := by
  intro b hb
  rcases List.mem_append.1 hb with hb | hb
  · simp only [List.mem_flatten, List.mem_replicate] at hb
    obtain ⟨_, ⟨-, rfl⟩, hb⟩ := hb
    simpa using hb
  · exact h b hb

theorem whole_expected {ind x : Bytes} (h : Whole x) : Whole (expected ind x) := by
  rcases h with rfl | h
  · exact Or.inl rfl
  · obtain ⟨y, rfl⟩ := List.getLast?_eq_some_iff.1 h
    rw [← emits_expected, emits_append]
    right
    simp [emits, emit]

/-- The writes of an action, as portions. -/
def Action.portions : Action → List Portion
  | .cmd j => (j.chunks.filter (· ≠ [])).map fun x => .text (expected j.indent x) (linesOf x)
  | .msg d t => (if d > 0 then [.space (List.replicate d [32, 32]).flatten] else []) ++ [.text t (Copier.lines t).dropLast]

theorem Action.portions_ok {size : Nat} {a : Action} (h : a.Fine size) :
    a.writes size = a.portions.map Portion.bytes ∧ a.portions.flatMap Portion.lines = a.lines ∧ ∀ p ∈ a.portions, p.Ok := by
  cases a with
  | cmd j =>
    obtain ⟨h1, h2, h3⟩ := h
    simp only [← Job.indent_margin] at h2
    refine ⟨?_, ?_, ?_⟩
    · simp only [Action.writes, Action.portions, Job.writes_whole h1 h2, List.map_map]; rfl
    · simp only [Action.portions, Action.lines, linesOf_flatten h1, List.flatMap_map, Portion.lines]
      have : ∀ cs : List Bytes, (cs.filter (· ≠ [])).flatMap linesOf = cs.flatMap linesOf := by
        intro cs
        induction cs with
        | nil => rfl
        | cons x cs ih =>
          by_cases hx : x = []
          · subst hx; rw [List.filter_cons_of_neg (by simp), ih]; rfl
          · rw [List.filter_cons_of_pos (by simpa using hx), List.flatMap_cons, ih, List.flatMap_cons]
      exact this _
    · intro p hp
      simp only [Action.portions, List.mem_map, List.mem_filter] at hp
      obtain ⟨x, ⟨hx, -⟩, rfl⟩ := hp
      refine ⟨whole_expected (h1 x hx), ?_⟩
      rw [expected_whole (h1 x hx)]
      exact lines_flatMap_printed _ (indent_spaces h3) (linesOf_noNL x)
  | msg d t =>
    refine ⟨?_, ?_, ?_⟩
    · simp only [Action.writes, Action.portions]; split <;> simp [Portion.bytes]
    · simp only [Action.portions, Action.lines]; split <;> simp [Portion.lines]
    · intro p hp
      simp only [Action.portions, List.mem_append, List.mem_singleton] at hp
      rcases hp with hp | rfl
      · split at hp
        · simp only [List.mem_singleton] at hp
          subst hp
          intro b hb
          simp only [List.mem_flatten, List.mem_replicate] at hb
          obtain ⟨_, ⟨-, rfl⟩, hb⟩ := hb
          simpa using hb
        · simp at hp
      · exact ⟨h, forall₂_refl _⟩

/-- **C95 (partly), with messages.** If the commands print in chunks of whole lines that fit into the buffer then, whatever the schedule, each line of every command and every message appears
exactly once, on a line of its own, and the lines of one goroutine appear in their order; but only up to indentation (see `C95_counterexample_indentation`).  Nothing else appears. -/
theorem C95_messages_partial {size : Nat} {threads : List (List Action)} {out : Bytes} (h : Shown size threads out) (hf : ∀ as ∈ threads, ∀ a ∈ as, a.Fine size) :
    ∃ order : List Bytes, order.Perm (threads.flatMap fun as => as.flatMap Action.lines) ∧
      (∀ as ∈ threads, (as.flatMap Action.lines).Sublist order) ∧ List.Forall₂ SameText (Copier.lines out) (order ++ [[]]) := by
  obtain ⟨ws, h, rfl⟩ := h
  have e : (threads.map fun as => as.flatMap (Action.writes size)) = (threads.map fun as => as.flatMap Action.portions).map (·.map Portion.bytes) := by
    rw [List.map_map]
    refine List.map_congr_left fun as has => ?_
    simp only [Function.comp, List.map_flatMap]
    exact List.flatMap_congr fun a ha => (Action.portions_ok (hf as has a ha)).1
  obtain ⟨ps, hm, rfl⟩ := h.of_map e
  have hg : ∀ as ∈ threads, (as.flatMap Action.portions).flatMap Portion.lines = as.flatMap Action.lines := by
    intro as has
    rw [List.flatMap_assoc]
    exact List.flatMap_congr fun a ha => (Action.portions_ok (hf as has a ha)).2.1
  refine ⟨ps.flatMap Portion.lines, ?_, fun as has => ?_, ?_⟩
  · refine (hm.perm.flatMap_right _).trans ?_
    rw [← List.flatMap_def, List.flatMap_assoc, List.flatMap_congr hg]
  · rw [← hg as has]
    exact sublist_flatMap _ (hm.sublist _ (List.mem_map_of_mem has))
  · have := portions_lines ps (sp := []) (by simp) (fun p hp => by
      have := hm.perm.mem_iff.1 hp
      simp only [List.mem_flatten, List.mem_map] at this
      obtain ⟨_, ⟨as, has, rfl⟩, hp⟩ := this
      simp only [List.mem_flatMap] at hp
      obtain ⟨a, ha, hp⟩ := hp
      exact (Action.portions_ok (hf as has a ha)).2.2 p hp)
    rwa [List.nil_append, List.flatMap_def] at this

/-- A goroutine that prints the message "m" at depth 1 and one that runs a command which prints "x". -/
def exMsg : List (List Action) := [[.msg 1 [109, 10]], [.cmd ⟨1, [32, 32, 32, 32], [[120, 10]]⟩]]

/-- **C95 is false: the indentation of messages.** It is a write of its own: the command's line may get it instead, and the message none. -/
theorem C95_counterexample_indentation : Shown 4096 exMsg ([32, 32, 32, 32, 32, 32, 32, 32, 120, 10] ++ [109, 10]) ∧
    ∀ as ∈ exMsg, ∀ a ∈ as, a.Fine 4096 := by
  constructor
  · have h1 : (exMsg.map fun as => as.flatMap (Action.writes 4096)) = [[[32, 32], [109, 10]], [[32, 32, 32, 32, 32, 32, 120, 10]]] := by decide +kernel
    refine ⟨[[32, 32], [32, 32, 32, 32, 32, 32, 120, 10], [109, 10]], ?_, rfl⟩
    rw [h1]
    exact .step (l := []) (.step (l := [_]) (r := []) (.step (l := []) (.done (by simp))))
  · intro as has a ha
    simp only [exMsg, List.mem_cons, List.not_mem_nil, or_false] at has
    rcases has with rfl | rfl <;> simp only [List.mem_singleton] at ha <;> subst ha
    · exact Or.inr rfl
    · exact ⟨by decide, by decide +kernel, by decide⟩

end Fab.Copier
