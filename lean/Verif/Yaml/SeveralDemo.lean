import Verif.Yaml.Several
import Verif.Yaml.Twice

/-!
# C91: examples
-/

namespace Fab.Yaml.SeveralDemo
open Path Cmd Files
open Runner (Proc TRef Env Ev State Reach Label TSt Job Thread allBody seqBody argBody nameBody hist)
open BuildDemo (lib regOf isOk isOk_eq)
open AgainDemo (src prog retOf ends rep ctx)
open CleanDemo (opt get file one shows_one shows_inv sameFile exHex_inj)
open TwiceDemo (files a b Dir read read_eq stat_a stat_b stat_src upd ok makeB T noCollision hashOf)

/-- A: makes a from src; B: makes b from src -/
def doc : Node := exDoc [exKey "A" "", files ["src"] ["a"], exKey "B" "", files ["src"] ["b"]]

/-- the project, after reading -/
def docEnd : St where
  heap := [.clean ["/top/o".toList] false, .files 0 ["/top/src".toList] ["/top/a".toList],
    .clean ["/top/o".toList] false, .files 2 ["/top/src".toList] ["/top/b".toList]]
  reg := regOf [("B".toList, 3), ("A".toList, 1)]
  filesReg := [("/top/b".toList, 3), ("/top/a".toList, 1)]
  autoclean := []
  hist := [("A".toList, [], 1), ("B".toList, [], 3)]
  reads := ["/top".toList]

theorem doc_loaded : Loaded (lib doc) docEnd := .file (n := 12) (dir := []) .empty (.inl ⟨(), isOk_eq (by decide +kernel)⟩)

def clear (x : Dir) : Option Dir := x.s.map fun _ => { x with a := some 0 }
def make (x : Dir) : Option Dir := x.s.map fun s => { x with a := some (s + 1) }

/-- The rule of A (0) empties a (the contents are 0) and then writes it (src plus one).  That of B (2) writes b (src plus two). -/
def own : Own Unit where
  body o _ :=
    if o = 0 then .act (upd · clear) fun _ => .act (upd · make) fun w => .ret (ok w make)
    else if o = 2 then .act (upd · makeB) fun w => .ret (ok w makeB)
    else .ret none
  note _ := id
  typ _ := []
  desc t _ := some (.str (if t = 0 then "a".toList else "b".toList))

def J (t : Nat) : Json.J := .str (if t = 0 then "a".toList else "b".toList)

def fs0 : FS := (⟨none, none, none, some 1⟩ : Dir).fs
def world : World Unit := ⟨fs0, fun _ => [], [], false, false, false, ()⟩

/-- A process that builds the target `k`. -/
def proc (k : Nat) : BuildProc Unit := ⟨own, docEnd, J, [k], ctx⟩
/-- One process builds A, the other one B. -/
def P (i : Bool) : BuildProc Unit := proc (if i then 3 else 1)
/-- All processes build A. -/
def Q (_ : Nat) : BuildProc Unit := proc 1

/-- `n` steps of goroutine `t` of process `i`, for each `(n, t)` in the list -/
def seg {ι : Type} (i : ι) (l : List (Nat × Nat)) : List (Move ι) := (rep l).map (.proc i)

def run {ι : Type} [DecidableEq ι] (P : ι → BuildProc Unit) (ms : List (Move ι)) : ι → State (World Unit) Ctx :=
  several exHex id P fs0 (fun _ => []) (fun _ => world) ms

/-- the same, for one process that finds the files and databases of `w` -/
def go (w : World Unit) (st : State (World Unit) Ctx) (l : List (Nat × Nat)) : State (World Unit) Ctx :=
  Runner.runSched (buildEnv exHex id own docEnd) { st with world := share w st.world } ((rep l).map .thread)

def begin (os : List Nat) : State (World Unit) Ctx := Runner.init world [.call ctx (os.map .ptr) .ret]

/-! ## Two targets -/

theorem heap1 : docEnd.heap[1]? = some (.files 0 [src] [a]) := by rfl
theorem heap3 : docEnd.heap[3]? = some (.files 2 [src] [b]) := by rfl
theorem maker : findInFilesRegistry docEnd.filesReg src = none := by decide +kernel

theorem wanted {k o : Nat} (hk : k = 1 ∨ k = 3) (h : Wanted docEnd [k] o) : o = k := by
  induction h with
  | arg h => simpa using h
  | dep _ h1 h2 ih =>
    subst ih
    exfalso
    rcases hk with rfl | rfl
    · rcases h1 with ⟨n, hn, -⟩ | ⟨-, rfl⟩
      · rw [heap1] at hn; cases hn
      · cases h2 with
        | input h3 h4 h5 =>
          rw [heap1] at h3; cases h3
          simp only [List.mem_singleton] at h4; subst h4
          rw [maker] at h5; cases h5
        | _ h3 => rw [heap1] at h3; cases h3
    · rcases h1 with ⟨n, hn, -⟩ | ⟨-, rfl⟩
      · rw [heap3] at hn; cases hn
      · cases h2 with
        | input h3 h4 h5 =>
          rw [heap3] at h3; cases h3
          simp only [List.mem_singleton] at h4; subst h4
          rw [maker] at h5; cases h5
        | _ h3 => rw [heap3] at h3; cases h3

theorem stands {k o x : Nat} (hk : k = 1 ∨ k = 3) (h : Wanted docEnd [k] o) (hs : Stands docEnd o x) : x = k := by
  cases wanted hk h
  rcases hs with ⟨n, hn, -⟩ | ⟨-, rfl⟩
  · rcases hk with rfl | rfl
    · rw [heap1] at hn; cases hn
    · rw [heap3] at hn; cases hn
  · rfl

theorem filesOf1 {x t ins outs} (h : FilesOf docEnd [1] x t ins outs) : x = 1 ∧ t = 0 ∧ ins = [src] ∧ outs = [a] := by
  obtain ⟨⟨o, ho, hs⟩, hx⟩ := h
  cases stands (.inl rfl) ho hs
  rw [heap1] at hx; cases hx; exact ⟨rfl, rfl, rfl, rfl⟩
theorem filesOf3 {x t ins outs} (h : FilesOf docEnd [3] x t ins outs) : x = 3 ∧ t = 2 ∧ ins = [src] ∧ outs = [b] := by
  obtain ⟨⟨o, ho, hs⟩, hx⟩ := h
  cases stands (.inr rfl) ho hs
  rw [heap3] at hx; cases hx; exact ⟨rfl, rfl, rfl, rfl⟩
theorem is1 : FilesOf docEnd [1] 1 0 [src] [a] := ⟨⟨1, .arg (by simp), .inr ⟨by rw [heap1]; simp, rfl⟩⟩, heap1⟩
theorem is3 : FilesOf docEnd [3] 3 2 [src] [b] := ⟨⟨3, .arg (by simp), .inr ⟨by rw [heap3]; simp, rfl⟩⟩, heap3⟩

theorem plain {k : Nat} (hk : k = 0 ∨ k = 2) : ¬ Composite docEnd k := by
  have h : ∃ fs, docEnd.heap[k]? = some (.clean fs false) := by rcases hk with rfl | rfl <;> exact ⟨_, rfl⟩
  obtain ⟨fs, h⟩ := h
  rintro (h' | h' | h' | h' | h') <;> rw [h] at h' <;> cases h'

theorem mayRun {k c : Nat} (hk : k = 1 ∨ k = 3) (h : MayRun docEnd [k] c) : c = k ∨ c + 1 = k := by
  have self : ∀ {o x}, o = k ∨ o + 1 = k → Stands docEnd o x → x = o := by
    intro o x ho hs
    rcases hs with ⟨n, hn, -⟩ | ⟨-, rfl⟩
    · exfalso
      rcases ho with rfl | ho
      · rcases hk with rfl | rfl
        · rw [heap1] at hn; cases hn
        · rw [heap3] at hn; cases hn
      · exact plain (k := o) (by omega) (.name hn)
    · rfl
  have notcomp : ∀ {x y}, x + 1 = k → ¬ Uses docEnd x y := by
    intro x y hx hu
    have hp := plain (k := x) (by omega)
    cases hu with
    | needs h => cases h with
      | all h => exact hp (.all h)
      | seq h => exact hp (.seq h)
      | arg h => exact hp (.arg h)
      | input h => exact hp (.files h)
      | name h => exact hp (.name h)
    | files h => exact hp (.files h)
  induction h with
  | arg h hs =>
    simp only [List.mem_singleton] at h; subst h
    exact .inl (self (.inl rfl) hs)
  | @dep x o t _ hu hs ih =>
    rcases ih with rfl | ih
    · have ho : o + 1 = x := by
        cases hu with
        | needs h =>
          exfalso
          cases h with
          | input h3 h4 h5 =>
            rcases hk with rfl | rfl
            · rw [heap1] at h3; cases h3
              simp only [List.mem_singleton] at h4; subst h4
              rw [maker] at h5; cases h5
            · rw [heap3] at h3; cases h3
              simp only [List.mem_singleton] at h4; subst h4
              rw [maker] at h5; cases h5
          | _ h3 =>
            rcases hk with rfl | rfl
            · rw [heap1] at h3; cases h3
            · rw [heap3] at h3; cases h3
        | files h =>
          rcases hk with rfl | rfl
          · rw [heap1] at h; cases h; rfl
          · rw [heap3] at h; cases h; rfl
      rw [self (.inr ho) hs]
      exact .inr ho
    · exact absurd hu (notcomp ih)

theorem orderly {k : Nat} (hk : k = 1 ∨ k = 3) : Orderly own docEnd J [k] := by
  have filesOf : ∀ {x t ins outs}, FilesOf docEnd [k] x t ins outs → x = k ∧ t + 1 = k ∧ (t = 0 ∨ t = 2) := by
    intro x t ins outs h
    rcases hk with rfl | rfl
    · obtain ⟨rfl, rfl, -⟩ := filesOf1 h; simp
    · obtain ⟨rfl, rfl, -⟩ := filesOf3 h; simp
  refine ⟨⟨?_, ?_, ?_, fun _ _ _ _ _ _ => rfl⟩, ?_⟩
  · intro x t ins outs c hx hc
    obtain ⟨-, -, ht⟩ := filesOf hx
    cases part_plain (plain ht) hc
    exact ⟨fun n h => plain ht (.name h), fun t i o h => plain ht (.files h)⟩
  · intro x t ins outs x' t' ins' outs' c hx hx' _ _
    rw [(filesOf hx).1, (filesOf hx').1]
  · intro x t ins outs c o hx hc ho hs
    obtain ⟨-, h1, ht⟩ := filesOf hx
    cases part_plain (plain ht) hc
    have := stands hk ho hs
    omega
  · intro x t ins outs o o' _ ho ho' _ _
    rw [wanted hk ho, wanted hk ho']

/-! ## What the commands do -/

theorem upd_db (w : World Unit) (f : Dir → Option Dir) : (upd w f).db = w.db := by unfold upd; split <;> rfl

theorem upd_same {f : Dir → Option Dir} {i : Str} {g : Dir → Option UInt8} {n : Str} (hst : ∀ x : Dir, x.fs.stat i = file (g x) n)
    (hf : ∀ x x', f x = some x' → g x' = g x) (w : World Unit) : SameFile w.fs (upd w f).fs i := by
  unfold upd
  split
  · rename_i x' h
    obtain ⟨x, h1, h2⟩ := Option.bind_eq_some_iff.1 h
    have h := read_eq h1
    exact sameFile (h ▸ hst _) (hf _ _ h2 ▸ hst _)
  · exact ⟨rfl, fun _ _ => Iff.rfl⟩

theorem clear_eq {x x' : Dir} (h : clear x = some x') : x'.b = x.b ∧ x'.s = x.s := by
  obtain ⟨c, -, rfl⟩ := Option.map_eq_some_iff.1 h; exact ⟨rfl, rfl⟩
theorem make_eq {x x' : Dir} (h : make x = some x') : x'.b = x.b ∧ x'.s = x.s := by
  obtain ⟨c, -, rfl⟩ := Option.map_eq_some_iff.1 h; exact ⟨rfl, rfl⟩
theorem makeB_eq {x x' : Dir} (h : makeB x = some x') : x'.a = x.a ∧ x'.s = x.s := by
  obtain ⟨c, -, rfl⟩ := Option.map_eq_some_iff.1 h; exact ⟨rfl, rfl⟩

/-- The rule of A does not change src and b, that of B not src and a. -/
theorem acts (o : Nat) (ctx : Ctx) : (own.body o ctx).Acts fun w w' => w'.db = w.db ∧ SameFile w.fs w'.fs src ∧
    (o ≠ 0 → SameFile w.fs w'.fs a) ∧ (o ≠ 2 → SameFile w.fs w'.fs b) := by
  have k1 : ∀ (f : Dir → Option Dir), (∀ x x', f x = some x' → x'.b = x.b ∧ x'.s = x.s) → ∀ w : World Unit,
      (upd w f).db = w.db ∧ SameFile w.fs (upd w f).fs src ∧ ((0 : Nat) ≠ 0 → SameFile w.fs (upd w f).fs a) ∧ ((0 : Nat) ≠ 2 → SameFile w.fs (upd w f).fs b) :=
    fun f hf w => ⟨upd_db w f, upd_same stat_src (fun x x' h => (hf x x' h).2) w, fun h => absurd rfl h, fun _ => upd_same stat_b (fun x x' h => (hf x x' h).1) w⟩
  simp only [own]
  split
  · rename_i h; subst h
    exact ⟨k1 _ fun _ _ => clear_eq, fun _ => ⟨k1 _ fun _ _ => make_eq, fun _ => trivial⟩⟩
  · split
    · rename_i h; subst h
      exact ⟨fun w => ⟨upd_db w _, upd_same stat_src (fun x x' h => (makeB_eq h).2) w, fun _ => upd_same stat_a (fun x x' h => (makeB_eq h).1) w, fun h => absurd rfl h⟩,
        fun _ => trivial⟩
    · trivial

theorem acts_mono {Q Q' : World Unit → World Unit → Prop} (h : ∀ w w', Q w w' → Q' w w') {p : Files.P Unit} (hp : p.Acts Q) : p.Acts Q' := by
  induction p with
  | ret e => trivial
  | act f k ih => exact ⟨fun w => h _ _ (hp.1 w), fun w => ih w (hp.2 w)⟩
  | call c refs k ih => exact fun e => ih e (hp e)

theorem changes {k : Nat} (hk : k = 1 ∨ k = 3) (c : Nat) (ctx : Ctx) : (own.body c ctx).Acts (Changes docEnd [k] c) := by
  refine acts_mono (fun w w' h => ⟨h.1, fun y t ins outs hy i hi => ?_⟩) (acts c ctx)
  rcases hk with rfl | rfl
  · obtain ⟨rfl, rfl, rfl, rfl⟩ := filesOf1 hy
    simp only [List.cons_append, List.nil_append, List.mem_cons, List.not_mem_nil, or_false] at hi
    rcases hi with rfl | rfl
    · exact .inl h.2.1
    · by_cases hc : c = 0
      · subst hc; exact .inr ⟨1, 0, _, _, is1, .self, .inl rfl⟩
      · exact .inl (h.2.2.1 hc)
  · obtain ⟨rfl, rfl, rfl, rfl⟩ := filesOf3 hy
    simp only [List.cons_append, List.nil_append, List.mem_cons, List.not_mem_nil, or_false] at hi
    rcases hi with rfl | rfl
    · exact .inl h.2.1
    · by_cases hc : c = 2
      · subst hc; exact .inr ⟨3, 2, _, _, is3, .self, .inl rfl⟩
      · exact .inl (h.2.2.2 hc)

theorem noRun (o : Nat) (ctx : Ctx) : NoRun (own.body o ctx) := by
  simp only [own]
  split
  · exact fun _ _ => trivial
  · split
    · exact fun _ => trivial
    · trivial

/-- a should be src plus one, b should be src plus two. -/
def R : Meaning := fun j _ i o => ∃ c, j = .str "a".toList ∧ i = one src c ∧ o = one a (c + 1) ∨ j = .str "b".toList ∧ i = one src c ∧ o = one b (c + 2)

/-- The rules do what they should, if they are left alone. -/
theorem makes {k x t ins outs} (hk : k = 1 ∨ k = 3) (h : FilesOf docEnd [k] x t ins outs) : ¬ Composite docEnd t ∧
    ∀ ctx fs, (own.body t ctx).Makes (ins ++ outs) (fun fs => (sitOf own J t ins outs fs).right R) fs := by
  rcases hk with rfl | rfl
  · obtain ⟨rfl, rfl, rfl, rfl⟩ := filesOf1 h
    refine ⟨plain (.inl rfl), fun ctx fs w _ w _ => ?_⟩
    simp only [ok, upd]
    split
    · rename_i x' h
      obtain ⟨x, -, h2⟩ := Option.bind_eq_some_iff.1 h
      obtain ⟨c, hc, rfl⟩ := Option.map_eq_some_iff.1 h2
      exact fun _ => ⟨c, .inl ⟨rfl, shows_one ((stat_src _).trans (by rw [← hc])), shows_one (stat_a _)⟩⟩
    · exact fun h => nomatch h
  · obtain ⟨rfl, rfl, rfl, rfl⟩ := filesOf3 h
    refine ⟨plain (.inr rfl), fun ctx fs w _ => ?_⟩
    simp only [ok, upd]
    split
    · rename_i x' h
      obtain ⟨x, -, h2⟩ := Option.bind_eq_some_iff.1 h
      obtain ⟨c, hc, rfl⟩ := Option.map_eq_some_iff.1 h2
      exact fun _ => ⟨c, .inr ⟨rfl, shows_one ((stat_src _).trans (by rw [← hc])), shows_one (stat_b _)⟩⟩
    · exact fun h => nomatch h

theorem own_fs (o : Nat) (ctx : Ctx) : (own.body o ctx).Keeps fun w => ∃ x : Dir, w.fs = x.fs := by
  have k : ∀ f (w : World Unit), (∃ x : Dir, w.fs = x.fs) → ∃ x : Dir, (upd w f).fs = x.fs := by
    intro f w h; unfold upd; split
    · exact ⟨_, rfl⟩
    · exact h
  simp only [own]
  split
  · exact ⟨k _, fun _ => ⟨k _, fun _ => trivial⟩⟩
  · split
    · exact ⟨k _, fun _ => trivial⟩
    · trivial

/-- These builds are as they should be, if nobody else does anything. -/
theorem fair {ι : Type} [DecidableEq ι] {os : ι → Nat} (hos : ∀ i, os i = 1 ∨ os i = 3) (u : ι → World Unit) {ms : List (Move ι)} (hms : ∀ f, .other f ∉ ms) :
    FairBuilds exHex id (fun i => proc (os i)) T fs0 (fun _ => []) u ms := by
  refine ⟨fun _ => noRun, fun i => orderly (hos i), fun i c ctx _ _ => changes (hos i) c ctx, fun f hf => absurd hf (hms f), ?_⟩
  intro ms₁ ms₂ h i x t ins outs _
  have hms : ∀ f, .other f ∉ ms₁ := fun f hf => hms f (by rw [h]; simp [hf])
  have key : ∀ i, ∃ x : Dir, (several exHex id (fun i => proc (os i)) fs0 (fun _ => []) u ms₁ i).world.fs = x.fs := by
    clear h
    induction ms₁ using List.reverseRecOn with
    | nil => exact fun _ => ⟨_, rfl⟩
    | append_singleton ms₁ m ih =>
      have ih := ih fun f hf => hms f (by simp [hf])
      have hr := fun i => several_reach (hex := exHex) (sum := id) (P := fun i => proc (os i)) (fs := fs0) (db := fun _ => []) (u := u) (ms := ms₁) i
      rw [several_snoc]
      generalize several exHex id (fun i => proc (os i)) fs0 (fun _ => []) u ms₁ = x at *
      intro i
      cases m with
      | other f => exact absurd (List.mem_append_right _ (by simp)) (hms f)
      | proc j tid =>
        cases h : Runner.step (buildEnv exHex id own docEnd) (x j) tid with
        | none => rw [move_none h]; exact ih i
        | some st =>
          have hst : ∃ x : Dir, st.world.fs = x.fs := fs_kept_step (P := fun f => ∃ x : Dir, f = x.fs) own_fs (hr j) h (ih j)
          rw [move_some h]
          dsimp only
          split
          · exact hst
          · exact hst
  exact key i

/-! ## Example: A and B -/

/-- `fab A` and `fab B` at the same time: whatever order their steps are taken in, and whoever is killed when. -/
theorem apart (u : Bool → World Unit) (ms : List (Move Bool)) (hms : ∀ f, .other f ∉ ms) :
    (∀ i d, HonestDB exHex id R T ((several exHex id P fs0 (fun _ => []) u ms i).world.db d)) ∧
    (∀ i c, (0, Ev.ret c none) ∈ (several exHex id P fs0 (fun _ => []) u ms i).log → ∀ x t ins outs, FilesOf docEnd (P i).os x t ins outs →
      (sitOf own J t ins outs (several exHex id P fs0 (fun _ => []) u ms i).world.fs).right R) := by
  have hos : ∀ i : Bool, (if i then 3 else 1) = 1 ∨ (if i then 3 else 1) = 3 := fun i => by cases i <;> simp
  refine C91_commands_partial noCollision (fair hos u hms) ?_ (fun i x t ins outs h => makes (hos i) h) fun d h hm => by cases hm
  intro i c ctx hc _
  have hc0 : i = false → c ≠ 2 := by
    rintro rfl rfl
    rcases mayRun (hos false) hc with h | h <;> cases h
  have hc2 : i = true → c ≠ 0 := by
    rintro rfl rfl
    rcases mayRun (hos true) hc with h | h <;> cases h
  refine acts_mono (fun w w' h j hj y t ins outs hy n hn => ?_) (acts c ctx)
  cases j
  · cases i
    · exact absurd rfl hj
    · obtain ⟨rfl, rfl, rfl, rfl⟩ := filesOf1 hy
      simp only [List.cons_append, List.nil_append, List.mem_cons, List.not_mem_nil, or_false] at hn
      rcases hn with rfl | rfl
      · exact h.2.1
      · exact h.2.2.1 (hc2 rfl)
  · cases i
    · obtain ⟨rfl, rfl, rfl, rfl⟩ := filesOf3 hy
      simp only [List.cons_append, List.nil_append, List.mem_cons, List.not_mem_nil, or_false] at hn
      rcases hn with rfl | rfl
      · exact h.2.1
      · exact h.2.2.2 (hc0 rfl)
    · exact absurd rfl hj

theorem seg_same {ι : Type} [DecidableEq ι] {P : ι → BuildProc Unit} (hP : ∀ i, ∃ k, P i = proc k) (ms : List (Move ι)) (i : ι) (l : List (Nat × Nat)) {w}
    {st : State (World Unit) Ctx} (h : run P ms i = { st with world := share w st.world }) : run P (ms ++ seg i l) i = go w st l := by
  obtain ⟨k, hk⟩ := hP i
  unfold run seg
  rw [several_segment]
  simp only [if_true]
  unfold run at h
  rw [h, hk]
  rfl

theorem seg_other {ι : Type} [DecidableEq ι] {P : ι → BuildProc Unit} (ms : List (Move ι)) {i j : ι} (hj : j ≠ i) (l : List (Nat × Nat)) {w}
    {st st' : State (World Unit) Ctx} (h : run P ms j = { st with world := share w st.world }) (hi : run P (ms ++ seg i l) i = st') :
    run P (ms ++ seg i l) j = { st with world := share st'.world st.world } := by
  subst hi
  unfold run seg at *
  rw [several_segment]
  simp only [if_neg hj, if_true, h]
  rfl

theorem not_other {ι : Type} (i : ι) (l : List (Nat × Nat)) (f) : Move.other f ∉ seg i l := by simp [seg]

theorem keep (st : State (World Unit) Ctx) : st = { st with world := share st.world st.world } := rfl

/-! `fab A` and `fab B`, mixed: both return nil. -/

def p0 : State (World Unit) Ctx := go world (begin [1]) [(3, 0), (9, 1), (2, 2)]
def p1 : State (World Unit) Ctx := go p0.world (begin [3]) [(3, 0), (9, 1), (9, 2)]
def p0' : State (World Unit) Ctx := go p1.world p0 [(6, 2), (16, 1), (5, 0)]
def p1' : State (World Unit) Ctx := go p0'.world p1 [(14, 1), (5, 0)]

def mixed : List (Move Bool) :=
  seg false [(3, 0), (9, 1), (2, 2)] ++ seg true [(3, 0), (9, 1), (9, 2)] ++ seg false [(6, 2), (16, 1), (5, 0)] ++ seg true [(14, 1), (5, 0)]

theorem mixed_ends : run P mixed false = { p0' with world := share p1'.world p0'.world } ∧ run P mixed true = p1' := by
  have hP : ∀ i, ∃ k, P i = proc k := fun i => ⟨_, rfl⟩
  have a0 : run P ([] ++ seg false [(3, 0), (9, 1), (2, 2)]) false = p0 := seg_same hP [] false _ (w := world) (st := begin [1]) rfl
  have a1 := seg_other (P := P) [] (i := false) (j := true) (by simp) [(3, 0), (9, 1), (2, 2)] (w := world) (st := begin [3]) rfl a0
  have b1 := seg_same hP _ true [(3, 0), (9, 1), (9, 2)] a1
  have b0 := seg_other (P := P) _ (i := true) (j := false) (by simp) [(3, 0), (9, 1), (9, 2)] (a0.trans (keep _)) b1
  have c0 := seg_same hP _ false [(6, 2), (16, 1), (5, 0)] b0
  have c1 := seg_other (P := P) _ (i := false) (j := true) (by simp) [(6, 2), (16, 1), (5, 0)] (b1.trans (keep _)) c0
  have d1 := seg_same hP _ true [(14, 1), (5, 0)] c1
  have d0 := seg_other (P := P) _ (i := true) (j := false) (by simp) [(14, 1), (5, 0)] (c0.trans (keep _)) d1
  exact ⟨d0, d1⟩

/-- Both return nil, and both outputs are right. -/
example : (∃ c, (0, Ev.ret c none) ∈ (run P mixed false).log) ∧ (∃ c, (0, Ev.ret c none) ∈ (run P mixed true).log) ∧
    (sitOf own J 0 [src] [a] (run P mixed false).world.fs).right R ∧ (sitOf own J 2 [src] [b] (run P mixed true).world.fs).right R := by
  have h0 : ∃ c, (0, Ev.ret c none) ∈ (run P mixed false).log := by
    have := ends (st := p0') (by decide +kernel)
    rw [mixed_ends.1]
    dsimp only
    exact this
  have h1 : ∃ c, (0, Ev.ret c none) ∈ (run P mixed true).log := by rw [mixed_ends.2]; exact ends (by decide +kernel)
  have hm : ∀ f, Move.other f ∉ mixed := fun f h => by
    simp only [mixed, List.mem_append, not_other, or_false] at h
  have h2 := (apart (fun _ => world) mixed hm).2
  unfold run at *
  generalize several exHex id P fs0 (fun _ => []) (fun _ => world) mixed = z at *
  obtain ⟨c0, hc0⟩ := h0
  obtain ⟨c1, hc1⟩ := h1
  exact ⟨⟨c0, hc0⟩, ⟨c1, hc1⟩, h2 false c0 hc0 _ _ _ _ is1, h2 true c1 hc1 _ _ _ _ is3⟩

/-! ## Finding: the same target -/

def q0 : State (World Unit) Ctx := go world (begin [1]) [(3, 0), (9, 1), (9, 2)]
def q1 : State (World Unit) Ctx := go q0.world (begin [1]) [(3, 0), (9, 1), (2, 2)]
def q0' : State (World Unit) Ctx := go q1.world q0 [(16, 1), (5, 0)]
def q2 : State (World Unit) Ctx := go q0'.world (begin [1]) [(3, 0), (14, 1), (5, 0)]

/-- `fab A` (0) runs the rule of A; another `fab A` (1) begins to run the rule too; 0 reads the files, records their hash and returns nil; 1 is killed. -/
def both : List (Move Nat) := seg 0 [(3, 0), (9, 1), (9, 2)] ++ seg 1 [(3, 0), (9, 1), (2, 2)] ++ seg 0 [(16, 1), (5, 0)]
/-- a third `fab A` (2), later -/
def third : List (Move Nat) := seg 2 [(3, 0), (14, 1), (5, 0)]

theorem both_ends : run Q both 0 = q0' ∧ run Q both 2 = { begin [1] with world := share q0'.world (begin [1]).world } ∧ run Q (both ++ third) 2 = q2 := by
  have hP : ∀ i, ∃ k, Q i = proc k := fun i => ⟨_, rfl⟩
  have a0 : run Q ([] ++ seg 0 [(3, 0), (9, 1), (9, 2)]) 0 = q0 := seg_same hP [] 0 _ (w := world) (st := begin [1]) rfl
  have a1 := seg_other (P := Q) [] (i := 0) (j := 1) (by simp) [(3, 0), (9, 1), (9, 2)] (w := world) (st := begin [1]) rfl a0
  have a2 := seg_other (P := Q) [] (i := 0) (j := 2) (by simp) [(3, 0), (9, 1), (9, 2)] (w := world) (st := begin [1]) rfl a0
  have b1 := seg_same hP _ 1 [(3, 0), (9, 1), (2, 2)] a1
  have b0 := seg_other (P := Q) _ (i := 1) (j := 0) (by simp) [(3, 0), (9, 1), (2, 2)] (a0.trans (keep _)) b1
  have b2 := seg_other (P := Q) _ (i := 1) (j := 2) (by simp) [(3, 0), (9, 1), (2, 2)] a2 b1
  have c0 := seg_same hP _ 0 [(16, 1), (5, 0)] b0
  have c2 := seg_other (P := Q) _ (i := 0) (j := 2) (by simp) [(16, 1), (5, 0)] b2 c0
  have d2 := seg_same hP _ 2 [(3, 0), (14, 1), (5, 0)] c2
  exact ⟨c0, c2, d2⟩

def starts (x : Nat) (st : State (World Unit) Ctx) : Bool := st.log.any fun e => match e with
  | (_, .start _ _ _ t _) => t == x
  | _ => false

def isFs (f : FS) (x : Dir) : Bool := f = x.fs

/-- **C91, finding.** Nothing keeps two `fab` from building the same target at the same time.  Here one of them reads the output after the other has begun to
write it again, and records the hash of what it sees.  If then the other one is killed, a wrong output is left behind, and it is not made again: a later
`fab` returns nil and runs nothing.  (All commands are correct, if they are left alone, and no process does anything else that it should not do.) -/
theorem C91_counterexample_same_target :
    Loaded (lib doc) docEnd ∧ NoCollision exHex id T ∧ FairBuilds exHex id Q T fs0 (fun _ => []) (fun _ => world) (both ++ third) ∧
    (∀ x t ins outs, FilesOf docEnd [1] x t ins outs → ¬ Composite docEnd t ∧
      ∀ ctx fs, (own.body t ctx).Makes (ins ++ outs) (fun fs => (sitOf own J t ins outs fs).right R) fs) ∧
    (∀ i tid, .proc i tid ∈ both → i = 0 ∨ i = 1) ∧ (∀ i tid, .proc i tid ∈ third → i = 2) ∧
    (∃ c, (0, Ev.ret c none) ∈ (several exHex id Q fs0 (fun _ => []) (fun _ => world) both 0).log) ∧
    (∃ c, (0, Ev.ret c none) ∈ (several exHex id Q fs0 (fun _ => []) (fun _ => world) (both ++ third) 2).log) ∧
    (∀ th c i key ctx, (th, Ev.start c i key 0 ctx) ∉ (several exHex id Q fs0 (fun _ => []) (fun _ => world) (both ++ third) 2).log) ∧
    FilesOf docEnd [1] 1 0 [src] [a] ∧
    ¬ (sitOf own J 0 [src] [a] (several exHex id Q fs0 (fun _ => []) (fun _ => world) (both ++ third) 2).world.fs).right R := by
  obtain ⟨e0, e2, e3⟩ := both_ends
  have hm : ∀ f, Move.other f ∉ both ++ third := fun f h => by
    simp only [both, third, List.mem_append, not_other, or_false] at h
  refine ⟨doc_loaded, noCollision, fair (fun _ => .inl rfl) _ hm, fun x t ins outs h => makes (.inl rfl) h, ?_, ?_, ?_, ?_, ?_, is1, ?_⟩
  · intro i tid h
    simp only [both, seg, List.mem_append, List.mem_map, Move.proc.injEq] at h
    rcases h with (⟨_, -, h, -⟩ | ⟨_, -, h, -⟩) | ⟨_, -, h, -⟩
    · exact .inl h.symm
    · exact .inr h.symm
    · exact .inl h.symm
  · intro i tid h
    simp only [third, seg, List.mem_map, Move.proc.injEq] at h
    obtain ⟨_, -, h, -⟩ := h
    exact h.symm
  · unfold run at e0
    rw [e0]; exact ends (by decide +kernel)
  · unfold run at e3
    rw [e3]; exact ends (by decide +kernel)
  · unfold run at e3
    rw [e3]
    intro th c i key ctx h
    have : starts 0 q2 = true := List.any_eq_true.2 ⟨_, h, by simp⟩
    exact absurd this (by decide +kernel)
  · unfold run at e3
    rw [e3]
    have hfs : q2.world.fs = (⟨some 0, none, none, some 1⟩ : Dir).fs := by
      have : isFs q2.world.fs ⟨some 0, none, none, some 1⟩ = true := by decide +kernel
      simpa [isFs] using this
    rw [hfs]
    have hne : (Json.J.str "a".toList) ≠ .str "b".toList := fun h => absurd (Json.J.str.inj h) (by decide)
    rintro ⟨c, ⟨-, h1, h2⟩ | ⟨h1, -⟩⟩
    · have e1 := shows_inv (stat_src _) h1
      have e2 := shows_inv (stat_a _) h2
      dsimp only at e1 e2
      cases e1
      exact absurd e2 (by decide)
    · exact hne h1

end Fab.Yaml.SeveralDemo
