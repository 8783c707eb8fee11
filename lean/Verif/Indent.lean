import Verif.Registry

/-!
# Messages (/repo/runner.go:122-145): C70

`Indentf`: the text of one message, and what appears on the standard output if several goroutines print messages.

Simplifications: of package fmt, the verbs %s, %v and %% without flags are modelled, with arguments that have been turned into strings; formats with flags,
widths or other verbs are not modelled (`sprintf` takes what follows a '%' as a verb).  One call of `fmt.Fprint` or `fmt.Fprintf` is one write, and writes succeed.
-/

namespace Fab.Indent
open Fab

/-! ## The model -/

/-- What `fmt.Sprintf` says about arguments that are left over (package fmt, print.go). -/
def extra : List Str → Str
  | [] => []
  | as => "%!(EXTRA ".toList ++ joinWith ", ".toList (as.map ("string=".toList ++ ·)) ++ ")".toList

/-- What a verb gives (package fmt, print.go). -/
def verb (v : Char) (args : List Str) : Str :=
  match args with
  | [] => ['%', '!', v] ++ "(MISSING)".toList
  | a :: _ => if v = 's' ∨ v = 'v' then a else ['%', '!', v] ++ "(string=".toList ++ a ++ ")".toList

/-- What `fmt.Sprintf` says about a '%' at the end (package fmt, print.go). -/
def noVerb : Str := "%!(NOVERB)".toList

/-- `fmt.Sprintf`; the first argument tells whether a '%' comes before. -/
def sprint : Bool → Str → List Str → Str
  | false, [], args => extra args
  | true, [], args => noVerb ++ extra args
  | false, c :: rest, args => if c = '%' then sprint true rest args else c :: sprint false rest args
  | true, v :: rest, args => if v = '%' then '%' :: sprint false rest args else verb v args ++ sprint false rest args.tail

/-- `fmt.Sprintf` -/
def sprintf (format : Str) (args : List Str) : Str := sprint false format args

/-- `indentf` with a depth: what is written, one string for each write.  runner.go:132-145 -/
def indentf (depth : Nat) (format : Str) (args : List Str) : List Str :=
  let format := if ['\n'].isSuffixOf format then format else format ++ ['\n']
  (if depth > 0 then [(List.replicate depth [' ', ' ']).flatten] else []) ++ [sprintf format args]

/-- A call of `Indentf`: the depth that it reads (runner.go:137-139), the format and the arguments. -/
structure Msg where
  depth : Nat
  format : Str
  args : List Str
  deriving DecidableEq

def Msg.writes (m : Msg) : List Str := indentf m.depth m.format m.args

/-- Goroutines, each with the writes that it has yet to do; what is written in the end. -/
inductive Mix : List (List Str) → List Str → Prop
  | done {ts} (h : ∀ t ∈ ts, t = []) : Mix ts []
  | step {l w t r ws} (h : Mix (l ++ t :: r) ws) : Mix (l ++ (w :: t) :: r) (w :: ws)

/-- What may appear on the standard output if goroutines print these messages. -/
def Output (threads : List (List Msg)) (out : Str) : Prop :=
  ∃ ws, Mix (threads.map fun ms => ms.flatMap Msg.writes) ws ∧ out = ws.flatten

/-! ## The specification -/

/-- Spaces for a nesting depth: two for each level. -/
def spaces (depth : Nat) : Str := List.replicate (2 * depth) ' '

/-- A text, with a newline at its end if there is none yet. -/
def withNewline (s : Str) : Str := if ['\n'] <:+ s then s else s ++ ['\n']

/-- A format that uses only the verbs %s, %v and %%, with this many arguments. -/
inductive Fits : Str → Nat → Prop
  | nil : Fits [] 0
  | char {c rest n} (hc : c ≠ '%') (h : Fits rest n) : Fits (c :: rest) n
  | percent {rest n} (h : Fits rest n) : Fits ('%' :: '%' :: rest) n
  | verb {v rest n} (hv : v = 's' ∨ v = 'v') (h : Fits rest n) : Fits ('%' :: v :: rest) (n + 1)

/-- The text for such a format: each verb gives way to its argument. -/
inductive Text : Str → List Str → Str → Prop
  | nil : Text [] [] []
  | char {c rest args t} (hc : c ≠ '%') (h : Text rest args t) : Text (c :: rest) args (c :: t)
  | percent {rest args t} (h : Text rest args t) : Text ('%' :: '%' :: rest) args ('%' :: t)
  | verb {v rest a args t} (hv : v = 's' ∨ v = 'v') (h : Text rest args t) : Text ('%' :: v :: rest) (a :: args) (a ++ t)

/-! ## One message -/

theorem spaces_add (m n : Nat) : spaces m ++ spaces n = spaces (m + n) := by
  simp [spaces, Nat.mul_add, List.replicate_append_replicate]

theorem spaces_eq (n : Nat) : (List.replicate n [' ', ' ']).flatten = spaces n := by
  induction n with
  | zero => rfl
  | succ n ih =>
    rw [List.replicate_succ, List.flatten_cons, ih, Nat.add_comm n 1, ← spaces_add]
    rfl

/-- `Sprintf` gives the text, for the formats that fit. -/
theorem sprintf_of_text {f args t} (h : Text f args t) : sprintf f args = t := by
  unfold sprintf
  induction h with
  | nil => rfl
  | char hc h ih => rw [sprint, if_neg hc, ih]
  | percent h ih => rw [sprint, if_pos rfl, sprint, if_pos rfl, ih]
  | @verb v rest a args t hv h ih =>
    have hp : v ≠ '%' := by rcases hv with rfl | rfl <;> decide
    rw [sprint, if_pos rfl, sprint, if_neg hp, List.tail_cons, ih, verb, if_pos hv]

theorem text_of_fits {f n} (h : Fits f n) : ∀ args : List Str, args.length = n → ∃ t, Text f args t := by
  induction h with
  | nil => intro args h; rw [List.length_eq_zero_iff] at h; subst h; exact ⟨_, .nil⟩
  | char hc h ih => intro args e; obtain ⟨t, ht⟩ := ih args e; exact ⟨_, .char hc ht⟩
  | percent h ih => intro args e; obtain ⟨t, ht⟩ := ih args e; exact ⟨_, .percent ht⟩
  | verb hv h ih =>
    intro args e
    cases args with
    | nil => simp at e
    | cons a as => obtain ⟨t, ht⟩ := ih as (by simpa using e); exact ⟨_, .verb hv ht⟩

theorem text_append {f args t} (h : Text f args t) {g} {args' t'} (h' : Text g args' t') : Text (f ++ g) (args ++ args') (t ++ t') := by
  induction h with
  | nil => exact h'
  | char hc h ih => exact .char hc ih
  | percent h ih => exact .percent ih
  | verb hv h ih => rw [List.append_assoc]; exact .verb hv ih

/-- The text of a format that ends with a newline does so too. -/
theorem text_newline {f args t} (h : Text f args t) (e : ['\n'] <:+ f) : ['\n'] <:+ t := by
  induction h with
  | nil => exact e
  | @char c rest args t hc h ih =>
    rcases List.suffix_cons_iff.1 e with e | e
    · obtain ⟨rfl, rfl⟩ := List.cons.inj e
      cases h
      exact List.suffix_rfl
    · exact (ih e).trans (List.suffix_cons _ _)
  | percent h ih =>
    rcases List.suffix_cons_iff.1 e with e | e
    · cases e
    · rcases List.suffix_cons_iff.1 e with e | e
      · cases e
      · exact (ih e).trans (List.suffix_cons _ _)
  | verb hv h ih =>
    rcases List.suffix_cons_iff.1 e with e | e
    · cases e
    · rcases List.suffix_cons_iff.1 e with e | e
      · obtain ⟨rfl, -⟩ := List.cons.inj e
        rcases hv with hv | hv <;> cases hv
      · exact (ih e).trans (List.suffix_append _ _)

/-- What follows the indentation of a message. -/
def Msg.body (m : Msg) : Str := sprintf (withNewline m.format) m.args

theorem Msg.writes_eq (m : Msg) : m.writes = (if m.depth > 0 then [spaces m.depth] else []) ++ [m.body] := by
  simp only [Msg.writes, indentf, spaces_eq, Msg.body, withNewline, List.isSuffixOf_iff_suffix]

/-- **C70** A message is indented by two spaces for each level, and then comes its text, with a newline unless the format has one. -/
theorem C70_message (m : Msg) {t : Str} (h : Text m.format m.args t) :
    m.writes.flatten = spaces m.depth ++ (if ['\n'] <:+ m.format then t else t ++ ['\n']) := by
  have hb : m.body = if ['\n'] <:+ m.format then t else t ++ ['\n'] := by
    unfold Msg.body withNewline
    by_cases e : ['\n'] <:+ m.format
    · rw [if_pos e, if_pos e]; exact sprintf_of_text h
    · rw [if_neg e, if_neg e]
      have := sprintf_of_text (text_append h (.char (c := '\n') (by decide) .nil))
      simpa using this
  rw [Msg.writes_eq, hb]
  by_cases hd : m.depth > 0
  · simp [hd]
  · have : m.depth = 0 := by omega
    simp [this, spaces]

/-- **C70** (partly) The printed message ends with one newline, and not with two, if the message that was asked for ends with no newline, or
with one newline that is in the format.  What is missing: a newline at the end that comes from an argument
(`C70_counterexample_newline`). -/
theorem C70_newline_partial (m : Msg) {t : Str} (h : Text m.format m.args t) (hn : ['\n'] <:+ t → ['\n'] <:+ m.format) :
    m.writes.flatten = spaces m.depth ++ withNewline t := by
  rw [C70_message m h, withNewline]
  by_cases e : ['\n'] <:+ m.format
  · rw [if_pos e, if_pos (text_newline h e)]
  · rw [if_neg e, if_neg fun h => e (hn h)]

example : (⟨2, "Running %s".toList, ["x".toList]⟩ : Msg).writes.flatten = "    Running x\n".toList := by decide +kernel
example : Text "Running %s".toList ["x".toList] "Running x".toList := by
  have : ∀ (w : Str), (∀ c ∈ w, c ≠ '%') → Text (w ++ ['%', 's']) ["x".toList] (w ++ "x".toList) := by
    intro w hw
    induction w with
    | nil => exact .verb (.inl rfl) .nil
    | cons c w ih => exact .char (hw _ (by simp)) (ih fun c hc => hw _ (by simp [hc]))
  exact this "Running ".toList (by decide)

/-- An argument that ends with a newline makes an empty line. -/
theorem C70_counterexample_newline :
    ∃ (m : Msg) (t : Str), Text m.format m.args t ∧ ['\n'] <:+ t ∧ m.writes.flatten = spaces m.depth ++ t ++ ['\n'] :=
  ⟨⟨1, "%s".toList, ["x\n".toList]⟩, "x\n".toList ++ [], .verb (.inl rfl) .nil, by decide +kernel, by decide +kernel⟩

/-- Only the first line of a message is indented. -/
theorem C70_counterexample_lines :
    ∃ (m : Msg) (t l₁ l₂ : Str), Text m.format m.args t ∧ t = l₁ ++ ['\n'] ++ l₂ ∧ '\n' ∉ l₁ ∧ '\n' ∉ l₂ ∧ m.depth > 0 ∧
      m.writes.flatten = spaces m.depth ++ l₁ ++ ['\n'] ++ l₂ ++ ['\n'] :=
  ⟨⟨1, "%s".toList, ["x\ny".toList]⟩, "x\ny".toList ++ [], ['x'], ['y'], .verb (.inl rfl) .nil, by decide +kernel, by decide +kernel, by decide +kernel, by decide, by decide +kernel⟩

/-! ## Several messages -/

theorem flatten_flatMap (ms : List Msg) : (ms.flatMap Msg.writes).flatten = ms.flatMap fun m => m.writes.flatten := by
  induction ms with
  | nil => rfl
  | cons m ms ih => rw [List.flatMap_cons, List.flatten_append, ih, List.flatMap_cons]

theorem sum_zero {l : List Nat} (h : ∀ x ∈ l, x = 0) : l.sum = 0 := by
  induction l with
  | nil => rfl
  | cons a l ih => rw [List.sum_cons, h a (by simp), ih fun x hx => h x (by simp [hx])]

theorem le_sum {l : List Nat} {x : Nat} (h : x ∈ l) : x ≤ l.sum := by
  induction l with
  | nil => cases h
  | cons a l ih =>
    rw [List.sum_cons]
    rcases List.mem_cons.1 h with rfl | h
    · omega
    · have := ih h; omega

/-- **C70** Messages that are printed one after the other appear so. -/
theorem C70_one_thread (ms : List Msg) (out : Str) : Output [ms] out ↔ out = ms.flatMap fun m => m.writes.flatten := by
  have key : ∀ (t ws : List Str), Mix [t] ws ↔ ws = t := by
    intro t
    induction t with
    | nil =>
      intro ws
      constructor
      · intro h
        generalize e : [([] : List Str)] = ts at h
        cases h with
        | done => rfl
        | @step l w t r ws h =>
          have : w :: t ∈ ([[]] : List (List Str)) := by rw [e]; simp
          simp at this
      · rintro rfl; exact .done (by simp)
    | cons w t ih =>
      intro ws
      constructor
      · intro h
        generalize e : [w :: t] = ts at h
        cases h with
        | done h => subst e; simp at h
        | @step l w' t' r ws h =>
          cases l with
          | nil =>
            simp only [List.nil_append, List.cons.injEq] at e
            obtain ⟨⟨rfl, rfl⟩, rfl⟩ := e
            rw [(ih ws).1 h]
          | cons a l => simp at e
      · rintro rfl
        exact Mix.step (l := []) (r := []) ((ih t).2 rfl)
  simp only [Output, List.map_cons, List.map_nil]
  constructor
  · rintro ⟨ws, h, rfl⟩
    rw [(key _ _).1 h]
    exact flatten_flatMap ms
  · rintro rfl
    exact ⟨_, (key _ _).2 rfl, (flatten_flatMap ms).symm⟩

/-- What a goroutine has yet to write: messages, of which the first may have been indented already. -/
def rem : Bool × List Msg → List Str
  | (true, m :: ms) => m.body :: ms.flatMap Msg.writes
  | (_, ms) => ms.flatMap Msg.writes

/-- The levels that have yet to be written. -/
def levels : Bool × List Msg → Nat
  | (true, _ :: ms) => (ms.map Msg.depth).sum
  | (_, ms) => (ms.map Msg.depth).sum

theorem mix_order {ts ws} (h : Mix ts ws) : ∀ (sts : List (Bool × List Msg)) (k : Nat), ts = sts.map rem →
    (k > 0 → ∃ st ∈ sts, st.2 ≠ []) →
    ∃ order : List (Msg × Nat), (order.map Prod.fst).Perm (sts.flatMap Prod.snd) ∧ (∀ st ∈ sts, st.2.Sublist (order.map Prod.fst)) ∧
      spaces k ++ ws.flatten = order.flatMap (fun p => spaces p.2 ++ p.1.body) ∧
      (order.map Prod.snd).sum = k + (sts.map levels).sum := by
  induction h with
  | @done ts h =>
    intro sts k e hk
    have hnil : ∀ st ∈ sts, st.2 = [] := by
      rintro ⟨b, ms⟩ hst
      have := h (rem (b, ms)) (by rw [e]; exact List.mem_map_of_mem hst)
      cases ms with
      | nil => rfl
      | cons m ms => cases b <;> simp [rem, Msg.writes_eq] at this
    have hk0 : k = 0 := by
      by_contra hne
      obtain ⟨st, hst, hx⟩ := hk (by omega)
      exact hx (hnil st hst)
    have hlev : (sts.map levels).sum = 0 := by
      refine sum_zero ?_
      intro x hx
      obtain ⟨⟨b, ms⟩, hst, rfl⟩ := List.mem_map.1 hx
      have := hnil _ hst
      simp only at this
      subst this
      cases b <;> rfl
    refine ⟨[], ?_, fun st hst => by rw [hnil st hst]; exact List.nil_sublist _, ?_, ?_⟩
    · have : sts.flatMap Prod.snd = [] := List.flatMap_eq_nil_iff.2 hnil
      rw [this]; exact .nil
    · subst hk0; rfl
    · rw [hk0, hlev]; rfl
  | @step l w t r ws h ih =>
    intro sts k e hk
    obtain ⟨l', sts', rfl, rfl, e'⟩ := List.append_eq_map_iff.1 e
    obtain ⟨st, r', rfl, est, rfl⟩ := List.map_eq_cons_iff.1 e'
    obtain ⟨b, ms⟩ := st
    cases ms with
    | nil => cases b <;> simp [rem] at est
    | cons m ms =>
      -- the message itself is written
      have body : w = m.body → t = ms.flatMap Msg.writes → levels (b, m :: ms) = (ms.map Msg.depth).sum →
          ∃ order : List (Msg × Nat), (order.map Prod.fst).Perm ((l' ++ (b, m :: ms) :: r').flatMap Prod.snd) ∧
            (∀ st ∈ l' ++ (b, m :: ms) :: r', st.2.Sublist (order.map Prod.fst)) ∧
            spaces k ++ (w :: ws).flatten = order.flatMap (fun p => spaces p.2 ++ p.1.body) ∧
            (order.map Prod.snd).sum = k + ((l' ++ (b, m :: ms) :: r').map levels).sum := by
        rintro rfl rfl hl
        obtain ⟨order, hp, hs, ho, hn⟩ := ih (l' ++ (false, ms) :: r') 0 (by simp [rem]) (by simp)
        refine ⟨(m, k) :: order, ?_, ?_, ?_, ?_⟩
        · rw [List.map_cons]
          refine (hp.cons m).trans ?_
          simp only [List.flatMap_append, List.flatMap_cons, List.cons_append]
          exact List.perm_middle.symm
        · intro st hst
          rw [List.map_cons]
          rcases List.mem_append.1 hst with hst | hst
          · exact (hs st (by simp [hst])).cons _
          · rcases List.mem_cons.1 hst with rfl | hst
            · exact (hs (false, ms) (by simp)).cons_cons _
            · exact (hs st (by simp [hst])).cons _
        · rw [List.flatMap_cons, ← ho]; simp [spaces]
        · have : levels (false, ms) = (ms.map Msg.depth).sum := rfl
          simp only [List.map_cons, List.sum_cons, List.map_append, List.sum_append, hl, this] at hn ⊢
          omega
      cases b with
      | true =>
        simp only [rem, List.cons.injEq] at est
        exact body est.1.symm est.2.symm rfl
      | false =>
        simp only [rem, List.flatMap_cons, Msg.writes_eq] at est
        by_cases hd : m.depth > 0
        · rw [if_pos hd] at est
          simp only [List.cons_append, List.nil_append, List.cons.injEq] at est
          obtain ⟨rfl, rfl⟩ := est
          obtain ⟨order, hp, hs, ho, hn⟩ := ih (l' ++ (true, m :: ms) :: r') (k + m.depth) (by simp [rem])
            (fun _ => ⟨(true, m :: ms), by simp, by simp⟩)
          refine ⟨order, ?_, ?_, ?_, ?_⟩
          · simpa using hp
          · intro st hst
            rcases List.mem_append.1 hst with hst | hst
            · exact hs st (by simp [hst])
            · rcases List.mem_cons.1 hst with rfl | hst
              · exact hs (true, m :: ms) (by simp)
              · exact hs st (by simp [hst])
          · rw [← ho, List.flatten_cons, ← List.append_assoc, spaces_add]
          · have h1 : levels (true, m :: ms) = (ms.map Msg.depth).sum := rfl
            have h2 : levels (false, m :: ms) = m.depth + (ms.map Msg.depth).sum := rfl
            simp only [List.map_cons, List.sum_cons, List.map_append, List.sum_append, h1, h2] at hn ⊢
            omega
        · rw [if_neg hd] at est
          simp only [List.nil_append, List.cons_append, List.cons.injEq] at est
          refine body est.1.symm est.2.symm ?_
          have : m.depth = 0 := by omega
          show ((m :: ms).map Msg.depth).sum = _
          simp [this]

/-- **C70** (partly) Whatever the schedule: each message appears exactly once and in one piece, the messages of one goroutine in their order, with
nothing but indentation between them, and all in all as much of it as the messages ask for.  What is missing: that each message gets its own
indentation (`C70_counterexample_threads`). -/
theorem C70_threads_partial {threads : List (List Msg)} {out : Str} (h : Output threads out) :
    ∃ order : List (Msg × Nat), (order.map Prod.fst).Perm threads.flatten ∧ (∀ ms ∈ threads, ms.Sublist (order.map Prod.fst)) ∧
      out = order.flatMap (fun p => spaces p.2 ++ p.1.body) ∧ (order.map Prod.snd).sum = (threads.flatten.map Msg.depth).sum := by
  obtain ⟨ws, hm, rfl⟩ := h
  obtain ⟨order, hp, hs, ho, hn⟩ := mix_order hm (threads.map (false, ·)) 0 (by simp [rem, Function.comp_def]) (by simp)
  refine ⟨order, ?_, ?_, by simpa [spaces] using ho, ?_⟩
  · simpa [List.flatMap_map, List.flatMap_id'] using hp
  · intro ms hms
    exact hs (false, ms) (List.mem_map_of_mem hms)
  · rw [hn, List.map_map, List.map_flatten, List.sum_flatten, List.map_map]
    simp [Function.comp_def, levels]

/-- If no message is indented, then messages of several goroutines appear whole, one after the other. -/
theorem C70_threads_top {threads : List (List Msg)} {out : Str} (h : Output threads out) (h0 : ∀ ms ∈ threads, ∀ m ∈ ms, m.depth = 0) :
    ∃ order : List Msg, order.Perm threads.flatten ∧ (∀ ms ∈ threads, ms.Sublist order) ∧ out = order.flatMap fun m => m.writes.flatten := by
  obtain ⟨order, hp, hs, ho, hn⟩ := C70_threads_partial h
  have hz : (threads.flatten.map Msg.depth).sum = 0 := by
    refine sum_zero ?_
    intro x hx
    obtain ⟨m, hm, rfl⟩ := List.mem_map.1 hx
    obtain ⟨ms, hms, hm⟩ := List.mem_flatten.1 hm
    exact h0 ms hms m hm
  refine ⟨order.map Prod.fst, hp, hs, ?_⟩
  rw [ho, List.flatMap_map]
  rw [hz] at hn
  refine List.flatMap_congr fun p hp' => ?_
  have hp2 : p.2 = 0 := by
    have := le_sum (List.mem_map_of_mem (f := Prod.snd) hp')
    omega
  have hm0 : p.1.depth = 0 := by
    have := hp.subset (List.mem_map_of_mem (f := Prod.fst) hp')
    obtain ⟨ms, hms, hm⟩ := List.mem_flatten.1 this
    exact h0 ms hms _ hm
  rw [Msg.writes_eq, hp2, hm0, if_neg (by decide)]
  simp [spaces]

/-- Two goroutines that each print an indented message: one message may get the indentation of both, and the other one none. -/
theorem C70_counterexample_threads :
    Output [[⟨1, "x".toList, []⟩], [⟨1, "y".toList, []⟩]] "    x\ny\n".toList := by
  refine ⟨["  ".toList, "  ".toList, "x\n".toList, "y\n".toList], ?_, by decide +kernel⟩
  exact Mix.step (l := []) (Mix.step (l := [["x\n".toList]]) (Mix.step (l := []) (Mix.step (l := [[]]) (.done (by simp)))))

example : Output [[⟨1, "x".toList, []⟩], [⟨1, "y".toList, []⟩]] "  x\n  y\n".toList :=
  ⟨["  ".toList, "x\n".toList, "  ".toList, "y\n".toList],
    Mix.step (l := []) (Mix.step (l := []) (Mix.step (l := [[]]) (Mix.step (l := [[]]) (.done (by simp))))), by decide +kernel⟩

end Fab.Indent
