import Verif.Yaml.CleanDemo

/-!
# C78: a target that is needed under two names

Why `C78_correct` asks that no Files target is needed under two names.
-/

namespace Fab.Yaml.TwiceDemo
open Path Cmd Files
open Runner (Proc TRef Env Ev State Reach Label TSt Job Thread allBody seqBody argBody nameBody hist)
open BuildDemo (lib regOf isOk isOk_eq)
open AgainDemo (src prog retOf ends rep ctx)
open CleanDemo (opt get file one shows_one shows_inv sameFile exHex_inj)

def files (i o : List String) : Node :=
  exTagged "!Files" .mapping [exTagged "!!seq" .sequence (i.map exScalar), exTagged "!!seq" .sequence (o.map exScalar)]

/-- All: !All [Prog, Gen]; Gen: makes a and b from src; Prog: makes prog from a -/
def doc : Node := exDoc [exKey "All" "", exTagged "!All" .sequence [exScalar "Prog", exScalar "Gen"],
  exKey "Gen" "", files ["src"] ["a", "b"], exKey "Prog" "", files ["a"] ["prog"]]

def a : Str := "/top/a".toList
def b : Str := "/top/b".toList

/-- the project, after reading -/
def docEnd : St where
  heap := [.ref "Prog".toList, .ref "Gen".toList, .all [0, 1], .clean ["/top/o".toList] false, .files 3 ["/top/src".toList] ["/top/a".toList, "/top/b".toList],
    .clean ["/top/o".toList] false, .files 5 ["/top/a".toList] ["/top/prog".toList]]
  reg := regOf [("Prog".toList, 6), ("Gen".toList, 4), ("All".toList, 2)]
  filesReg := [("/top/prog".toList, 6), ("/top/b".toList, 4), ("/top/a".toList, 4)]
  autoclean := []
  hist := [("All".toList, [], 2), ("Gen".toList, [], 4), ("Prog".toList, [], 6)]
  reads := ["/top".toList]

theorem doc_loaded : Loaded (lib doc) docEnd := .file (n := 12) (dir := []) .empty (.inl ⟨(), isOk_eq (by decide +kernel)⟩)

/-- The files a, b, prog and src. -/
structure Dir where
  a : Option UInt8
  b : Option UInt8
  p : Option UInt8
  s : Option UInt8

def Dir.fs (x : Dir) : FS :=
  ⟨.dir "top".toList true (opt "a".toList x.a (opt "b".toList x.b (opt "prog".toList x.p (opt "src".toList x.s .nil)))) .nil, []⟩

def read (f : FS) : Option Dir := match f.root with
  | .dir _ _ sub _ =>
    if (⟨get sub "a".toList, get sub "b".toList, get sub "prog".toList, get sub "src".toList⟩ : Dir).fs = f then
      some ⟨get sub "a".toList, get sub "b".toList, get sub "prog".toList, get sub "src".toList⟩ else none
  | _ => none

theorem read_eq {f : FS} {x : Dir} (h : read f = some x) : f = x.fs := by
  unfold read at h
  split at h
  · split at h
    · rename_i h1; cases h; exact h1.symm
    · cases h
  · cases h

theorem stat_a (x : Dir) : x.fs.stat a = file x.a "a".toList := by
  obtain ⟨a, b, p, s⟩ := x
  cases a <;> cases b <;> cases p <;> cases s <;> rfl
theorem stat_b (x : Dir) : x.fs.stat b = file x.b "b".toList := by
  obtain ⟨a, b, p, s⟩ := x
  cases a <;> cases b <;> cases p <;> cases s <;> rfl
theorem stat_prog (x : Dir) : x.fs.stat prog = file x.p "prog".toList := by
  obtain ⟨a, b, p, s⟩ := x
  cases a <;> cases b <;> cases p <;> cases s <;> rfl
theorem stat_src (x : Dir) : x.fs.stat src = file x.s "src".toList := by
  obtain ⟨a, b, p, s⟩ := x
  cases a <;> cases b <;> cases p <;> cases s <;> rfl

/-- change the files -/
def upd (w : World Unit) (f : Dir → Option Dir) : World Unit := match (read w.fs).bind f with
  | some x => { w with fs := x.fs }
  | none => w

def ok (w : World Unit) (f : Dir → Option Dir) : Option Runner.Err := match (read w.fs).bind f with
  | some _ => none
  | none => some (.atom 0)

def clearA (x : Dir) : Option Dir := x.s.map fun _ => { x with a := some 0 }
def makeB (x : Dir) : Option Dir := x.s.map fun s => { x with b := some (s + 2) }
def makeA (x : Dir) : Option Dir := x.s.map fun s => { x with a := some (s + 1), b := some (s + 2) }
def makeP (x : Dir) : Option Dir := x.a.map fun a => { x with p := some (a + 1) }

/-- The rule of Gen (3) empties a (the contents are 0), writes b (src plus two) and then a (src plus one).  That of Prog (5) writes prog: the contents of a
plus one. -/
def own : Own Unit where
  body o _ :=
    if o = 3 then .act (upd · clearA) fun _ => .act (upd · makeB) fun _ => .act (upd · makeA) fun w => .ret (ok w makeA)
    else if o = 5 then .act (upd · makeP) fun w => .ret (ok w makeP)
    else .ret none
  note _ := id
  typ _ := []
  desc t _ := some (.str (if t = 3 then "gen".toList else "prog".toList))

def J (t : Nat) : Json.J := .str (if t = 3 then "gen".toList else "prog".toList)

def world (x : Dir) (d : List Str) : World Unit := ⟨x.fs, fun n => if n = 0 then d else [], [], false, false, false, ()⟩

/-- The hash of the situation. -/
def hashOf (s : Sit) : Str := match fileHashes exHex s.fs s.ins, fileHashes exHex s.fs s.outs with
  | .ok li, .ok lo => hashText s.rule s.typ li lo
  | _, _ => []

def gen1 : Sit := sitOf own J 3 [src] [a, b] (⟨some 2, some 3, some 3, some 1⟩ : Dir).fs
def prog1 : Sit := sitOf own J 5 [a] [prog] (⟨some 2, some 3, some 3, some 1⟩ : Dir).fs

/-- All was built; then b was deleted. -/
def start : World Unit := world ⟨some 2, none, some 3, some 1⟩ [hashOf gen1, hashOf prog1]

def run (w : World Unit) (ts : List Nat) : State (World Unit) Ctx := buildRun exHex id own docEnd [2] w ctx (ts.map .thread)

/-- The goroutines of All (1), Prog (2), Gen by its name (3), Gen as the maker of a (4), the rules (5, 6).  Goroutine 3 finds no hash and starts the rule;
goroutine 4 sees the old a (2); the rule empties a and writes b; goroutine 4 sees the new b, and so its hash is in the database, and it returns nil;
then the rule of Prog runs, and only then the rule of Gen writes a. -/
def steps : List Nat :=
  rep [(2, 0), (4, 1), (5, 2), (10, 3), (4, 4), (3, 5), (8, 4), (8, 2), (7, 6), (10, 2), (6, 5), (11, 3), (7, 1), (3, 0)]

/-- a and b should be src plus one and plus two, prog should be a plus one. -/
def R : Meaning := fun j _ i o => ∃ c, j = .str "gen".toList ∧ i = one src c ∧ (o = fun k d => one a (c + 1) k d ∨ one b (c + 2) k d) ∨
  j = .str "prog".toList ∧ i = one a c ∧ o = one prog (c + 1)

def T (s : Sit) : Prop := ∃ x : Dir, s.fs = x.fs

theorem wf (x : Dir) : x.fs.root.WF := by
  have h : Name "a".toList ∧ Name "b".toList ∧ Name "prog".toList ∧ Name "src".toList ∧ Name "top".toList := by
    refine ⟨?_, ?_, ?_, ?_, ?_⟩ <;> (simp only [Name, Elem]; decide +kernel)
  have h2 : ["a".toList, "b".toList, "prog".toList, "src".toList].Nodup := by decide +kernel
  obtain ⟨a, b, p, s⟩ := x
  refine ⟨h.2.2.2.2, by simp [Forest.names], ?_, trivial⟩
  dsimp only
  revert h h2
  generalize "a".toList = n1
  generalize "b".toList = n2
  generalize "prog".toList = n3
  generalize "src".toList = n4
  generalize "top".toList = n5
  rintro ⟨h1, h2, h3, h4, -⟩ h6
  simp only [List.nodup_cons, List.mem_cons, List.not_mem_nil, or_false, not_or] at h6
  cases a <;> cases b <;> cases p <;> cases s <;> simp [opt, Forest.WF, Forest.names, h1, h2, h3, h4, h6]

theorem noCollision : NoCollision exHex id T := by
  refine C78_no_collision (by simp [exHex]) ?_ ?_ ?_
  · rintro a ⟨x, hx⟩; rw [hx]; exact wf x
  · exact fun a b _ _ => ⟨fun k d d' _ _ h => exHex_inj _ _ h, fun k d d' _ _ h => exHex_inj _ _ h⟩
  · exact fun a b _ _ li lo li' lo' _ _ _ _ h => h

theorem heap4 : docEnd.heap[4]? = some (.files 3 [src] [a, b]) := by rfl
theorem heap6 : docEnd.heap[6]? = some (.files 5 [a] [prog]) := by rfl
theorem maker : findInFilesRegistry docEnd.filesReg a = some 4 ∧ findInFilesRegistry docEnd.filesReg src = none := by decide +kernel
theorem names : (docEnd.reg.target "Prog".toList).1 = some 6 ∧ (docEnd.reg.target "Gen".toList).1 = some 4 := by decide +kernel
theorem heap0 : docEnd.heap[0]? = some (.ref "Prog".toList) := by rfl
theorem heap1 : docEnd.heap[1]? = some (.ref "Gen".toList) := by rfl
theorem heap2 : docEnd.heap[2]? = some (.all [0, 1]) := by rfl

theorem stands2 {x} (h : Stands docEnd 2 x) : x = 2 := by
  rcases h with ⟨n, hn, -⟩ | ⟨-, rfl⟩
  · rw [heap2] at hn; cases hn
  · rfl
theorem stands4 {x} (h : Stands docEnd 4 x) : x = 4 := by
  rcases h with ⟨n, hn, -⟩ | ⟨-, rfl⟩
  · rw [heap4] at hn; cases hn
  · rfl
theorem stands0 {x} (h : Stands docEnd 0 x) : x = 6 := by
  rcases h with ⟨n, hn, h⟩ | ⟨h, rfl⟩
  · rw [heap0] at hn; cases hn; rw [names.1] at h; cases h; rfl
  · exact absurd heap0 (h _)
theorem stands1 {x} (h : Stands docEnd 1 x) : x = 4 := by
  rcases h with ⟨n, hn, h⟩ | ⟨h, rfl⟩
  · rw [heap1] at hn; cases hn; rw [names.2] at h; cases h; rfl
  · exact absurd heap1 (h _)

theorem needs4 {o} (h : Needs docEnd 4 o) : False := by
  cases h with
  | input h3 h4 h5 =>
    rw [heap4] at h3; cases h3
    simp only [List.mem_singleton] at h4; subst h4
    rw [maker.2] at h5; cases h5
  | _ h3 => rw [heap4] at h3; cases h3

theorem wanted {o : Nat} (h : Wanted docEnd [2] o) : o = 2 ∨ o = 0 ∨ o = 1 ∨ o = 4 := by
  induction h with
  | arg h => exact .inl (by simpa using h)
  | dep _ h1 h2 ih =>
    rcases ih with rfl | rfl | rfl | rfl
    · cases stands2 h1
      cases h2 with
      | all h3 h4 =>
        rw [heap2] at h3; cases h3
        simp only [List.mem_cons, List.not_mem_nil, or_false] at h4
        omega
      | _ h3 => rw [heap2] at h3; cases h3
    · cases stands0 h1
      cases h2 with
      | input h3 h4 h5 =>
        rw [heap6] at h3; cases h3
        simp only [List.mem_singleton] at h4; subst h4
        rw [maker.1] at h5; cases h5
        simp
      | _ h3 => rw [heap6] at h3; cases h3
    · cases stands1 h1; exact (needs4 h2).elim
    · cases stands4 h1; exact (needs4 h2).elim

theorem stands {o x : Nat} (h : Wanted docEnd [2] o) (hs : Stands docEnd o x) : x = 2 ∨ x = 4 ∨ x = 6 := by
  rcases wanted h with rfl | rfl | rfl | rfl
  · exact .inl (stands2 hs)
  · exact .inr (.inr (stands0 hs))
  · exact .inr (.inl (stands1 hs))
  · exact .inr (.inl (stands4 hs))

theorem filesOf {x t ins outs} (h : FilesOf docEnd [2] x t ins outs) :
    x = 6 ∧ t = 5 ∧ ins = [a] ∧ outs = [prog] ∨ x = 4 ∧ t = 3 ∧ ins = [src] ∧ outs = [a, b] := by
  obtain ⟨⟨o, ho, hs⟩, hx⟩ := h
  rcases stands ho hs with rfl | rfl | rfl
  · rw [heap2] at hx; cases hx
  · rw [heap4] at hx; cases hx; exact .inr ⟨rfl, rfl, rfl, rfl⟩
  · rw [heap6] at hx; cases hx; exact .inl ⟨rfl, rfl, rfl, rfl⟩

theorem is6 : FilesOf docEnd [2] 6 5 [a] [prog] := by
  refine ⟨⟨0, .dep (.arg (by simp : 2 ∈ [2])) (.inr ⟨by rw [heap2]; simp, rfl⟩) (.all heap2 (by simp)), .inl ⟨_, heap0, names.1⟩⟩, heap6⟩
theorem is4 : FilesOf docEnd [2] 4 3 [src] [a, b] := by
  refine ⟨⟨1, .dep (.arg (by simp : 2 ∈ [2])) (.inr ⟨by rw [heap2]; simp, rfl⟩) (.all heap2 (by simp)), .inl ⟨_, heap1, names.2⟩⟩, heap4⟩

theorem plain3 : ¬ Composite docEnd 3 := by
  have h : ∃ fs, docEnd.heap[3]? = some (.clean fs false) := ⟨_, rfl⟩
  obtain ⟨fs, h⟩ := h
  rintro (h' | h' | h' | h' | h') <;> rw [h] at h' <;> cases h'
theorem plain5 : ¬ Composite docEnd 5 := by
  have h : ∃ fs, docEnd.heap[5]? = some (.clean fs false) := ⟨_, rfl⟩
  obtain ⟨fs, h⟩ := h
  rintro (h' | h' | h' | h' | h') <;> rw [h] at h' <;> cases h'

theorem apart : RulesApart own docEnd J [2] := by
  have part : ∀ {x t ins outs c}, FilesOf docEnd [2] x t ins outs → Part docEnd t c → (x = 6 ∧ c = 5 ∨ x = 4 ∧ c = 3) := by
    intro x t ins outs c hx hc
    rcases filesOf hx with ⟨rfl, rfl, -, -⟩ | ⟨rfl, rfl, -, -⟩
    · exact .inl ⟨rfl, part_plain plain5 hc⟩
    · exact .inr ⟨rfl, part_plain plain3 hc⟩
  refine ⟨?_, ?_, ?_, fun _ _ _ _ _ _ => rfl⟩
  · intro x t ins outs c hx hc
    rcases part hx hc with ⟨-, rfl⟩ | ⟨-, rfl⟩
    · exact ⟨fun n h => plain5 (.name h), fun t i o h => plain5 (.files h)⟩
    · exact ⟨fun n h => plain3 (.name h), fun t i o h => plain3 (.files h)⟩
  · intro x t ins outs x' t' ins' outs' c hx hx' hc hc'
    have := part hx hc
    have := part hx' hc'
    omega
  · intro x t ins outs c o hx hc ho hs
    have := part hx hc
    have := stands ho hs
    omega

theorem changes3 {f : Dir → Option Dir} (hf : ∀ x x', f x = some x' → x'.p = x.p ∧ x'.s = x.s) (w : World Unit) : Changes docEnd [2] 3 w (upd w f) := by
  unfold upd
  split
  · rename_i x' h
    obtain ⟨x, h1, h2⟩ := Option.bind_eq_some_iff.1 h
    obtain ⟨e1, e2⟩ := hf _ _ h2
    have h := read_eq h1
    refine ⟨rfl, fun y t ins outs hy i hi => ?_⟩
    dsimp only
    rcases filesOf hy with ⟨rfl, rfl, rfl, rfl⟩ | ⟨rfl, rfl, rfl, rfl⟩
    · simp only [List.cons_append, List.nil_append, List.mem_cons, List.not_mem_nil, or_false] at hi
      rcases hi with rfl | rfl
      · exact .inr ⟨4, 3, _, _, is4, .self, .inr ⟨by simp, maker.1⟩⟩
      · exact .inl (sameFile (h ▸ stat_prog _) (e1 ▸ stat_prog _))
    · exact .inr ⟨4, 3, _, _, is4, .self, .inl rfl⟩
  · exact ⟨rfl, fun y t ins outs hy i hi => .inl ⟨rfl, fun _ _ => Iff.rfl⟩⟩

theorem changes5 (w : World Unit) : Changes docEnd [2] 5 w (upd w makeP) := by
  unfold upd
  split
  · rename_i x' h
    obtain ⟨x, h1, h2⟩ := Option.bind_eq_some_iff.1 h
    obtain ⟨c, -, rfl⟩ := Option.map_eq_some_iff.1 h2
    have h := read_eq h1
    refine ⟨rfl, fun y t ins outs hy i hi => ?_⟩
    dsimp only
    rcases filesOf hy with ⟨rfl, rfl, rfl, rfl⟩ | ⟨rfl, rfl, rfl, rfl⟩
    · exact .inr ⟨6, 5, _, _, is6, .self, .inl rfl⟩
    · simp only [List.cons_append, List.nil_append, List.mem_cons, List.not_mem_nil, or_false] at hi
      rcases hi with rfl | rfl | rfl
      · exact .inl (sameFile (h ▸ stat_src _) (stat_src _))
      · exact .inl (sameFile (h ▸ stat_a _) (stat_a _))
      · exact .inl (sameFile (h ▸ stat_b _) (stat_b _))
  · exact ⟨rfl, fun y t ins outs hy i hi => .inl ⟨rfl, fun _ _ => Iff.rfl⟩⟩

theorem own_fs (o : Nat) (ctx : Ctx) : (own.body o ctx).Keeps fun w => ∃ x : Dir, w.fs = x.fs := by
  have k : ∀ f (w : World Unit), (∃ x : Dir, w.fs = x.fs) → ∃ x : Dir, (upd w f).fs = x.fs := by
    intro f w h; unfold upd; split
    · exact ⟨_, rfl⟩
    · exact h
  simp only [own]
  split
  · exact ⟨k _, fun _ => ⟨k _, fun _ => ⟨k _, fun _ => trivial⟩⟩⟩
  · split
    · exact ⟨k _, fun _ => trivial⟩
    · trivial

theorem fair (ctx : Ctx) (ts : List Nat) : NearlyFair exHex id own docEnd J [2] T start ctx (ts.map .thread) := by
  have e1 : ∀ x x', clearA x = some x' → x'.p = x.p ∧ x'.s = x.s := by
    intro x x' h; obtain ⟨c, -, rfl⟩ := Option.map_eq_some_iff.1 h; exact ⟨rfl, rfl⟩
  have e2 : ∀ x x', makeB x = some x' → x'.p = x.p ∧ x'.s = x.s := by
    intro x x' h; obtain ⟨c, -, rfl⟩ := Option.map_eq_some_iff.1 h; exact ⟨rfl, rfl⟩
  have e3 : ∀ x x', makeA x = some x' → x'.p = x.p ∧ x'.s = x.s := by
    intro x x' h; obtain ⟨c, -, rfl⟩ := Option.map_eq_some_iff.1 h; exact ⟨rfl, rfl⟩
  refine ⟨?_, apart, ?_, fun f hf => absurd hf (by simp), ?_⟩
  · intro o ctx
    simp only [own]
    split
    · exact fun _ _ _ => trivial
    · split
      · exact fun _ => trivial
      · trivial
  · intro c ctx _ _
    simp only [own]
    split
    · rename_i h; subst h
      exact ⟨changes3 e1, fun _ => ⟨changes3 e2, fun _ => ⟨changes3 e3, fun _ => trivial⟩⟩⟩
    · split
      · rename_i h; subst h
        exact ⟨changes5, fun _ => trivial⟩
      · trivial
  · intro ls₁ ls₂ hls x' t ins outs _
    refine fs_kept (P := fun f => ∃ x : Dir, f = x.fs) own_fs ⟨_, rfl⟩ fun f hf => ?_
    have : .extern f ∈ ts.map (Label.thread (σ := World Unit)) := by rw [hls]; exact List.mem_append_left _ hf
    simp at this

theorem shows_two (x : Dir) {c d : UInt8} (h1 : x.a = some c) (h2 : x.b = some d) : Shows x.fs [a, b] = fun k e => one a c k e ∨ one b d k e := by
  funext k e
  rw [eq_iff_iff, shows_iff]
  rw [← shows_one ((stat_a x).trans (by rw [h1])), ← shows_one ((stat_b x).trans (by rw [h2]))]
  simp

/-- The rules do what they should, if they are left alone. -/
theorem makes {x t ins outs} (h : FilesOf docEnd [2] x t ins outs) : ¬ Composite docEnd t ∧
    ∀ ctx fs, (own.body t ctx).Makes (ins ++ outs) (fun fs => (sitOf own J t ins outs fs).right R) fs := by
  rcases filesOf h with ⟨rfl, rfl, rfl, rfl⟩ | ⟨rfl, rfl, rfl, rfl⟩
  · refine ⟨plain5, fun ctx fs w _ => ?_⟩
    simp only [ok, upd]
    split
    · rename_i x' h
      obtain ⟨x, -, h2⟩ := Option.bind_eq_some_iff.1 h
      obtain ⟨c, hc, rfl⟩ := Option.map_eq_some_iff.1 h2
      exact fun _ => ⟨c, .inr ⟨rfl, shows_one ((stat_a _).trans (by rw [← hc])), shows_one (stat_prog _)⟩⟩
    · exact fun h => nomatch h
  · refine ⟨plain3, fun ctx fs w _ w _ w _ => ?_⟩
    simp only [ok, upd]
    split
    · rename_i x' h
      obtain ⟨x, -, h2⟩ := Option.bind_eq_some_iff.1 h
      obtain ⟨c, hc, rfl⟩ := Option.map_eq_some_iff.1 h2
      exact fun _ => ⟨c, .inl ⟨rfl, shows_one ((stat_src _).trans (by rw [← hc])), shows_two _ rfl rfl⟩⟩
    · exact fun h => nomatch h

/-! The rules in this execution, as a computation. -/

def right3 (f : FS) : Bool := match read f with
  | some ⟨some x, some y, _, some s⟩ => x = s + 1 && y = s + 2
  | _ => false
def right5 (f : FS) : Bool := match read f with
  | some ⟨some x, _, some y, _⟩ => y = x + 1
  | _ => false

theorem right3_of {f : FS} (h : right3 f = true) : (sitOf own J 3 [src] [a, b] f).right R := by
  unfold right3 at h
  split at h
  · rename_i x y p s hr
    simp only [Bool.and_eq_true, decide_eq_true_eq] at h
    obtain ⟨rfl, rfl⟩ := h
    rw [read_eq hr]
    exact ⟨s, .inl ⟨rfl, shows_one (stat_src _), shows_two _ rfl rfl⟩⟩
  · cases h

theorem right5_of {f : FS} (h : right5 f = true) : (sitOf own J 5 [a] [prog] f).right R := by
  unfold right5 at h
  split at h
  · rename_i x b y s hr
    simp only [decide_eq_true_eq] at h
    subst h
    rw [read_eq hr]
    exact ⟨x, .inr ⟨rfl, shows_one (stat_a _), shows_one (stat_prog _)⟩⟩
  · cases h

def fine (st : State (World Unit) Ctx) : Bool := match st.log.getLast? with
  | some (_, .finish _ t none) => (t != 3 || right3 st.world.fs) && (t != 5 || right5 st.world.fs)
  | _ => true

def allFine (st : State (World Unit) Ctx) : List Nat → Bool
  | [] => true
  | t :: ts => let st' := (Runner.step (buildEnv exHex id own docEnd) st t).getD st; fine st' && allFine st' ts

theorem allFine_of {st : State (World Unit) Ctx} {ts : List Nat} (h : allFine st ts = true) {ls₁ l ls₂}
    (hls : ts.map Label.thread = ls₁ ++ l :: ls₂) : fine (Runner.runSched (buildEnv exHex id own docEnd) st (ls₁ ++ [l])) = true := by
  induction ts generalizing st ls₁ with
  | nil => simp at hls
  | cons t ts ih =>
    simp only [allFine, Bool.and_eq_true] at h
    cases ls₁ with
    | nil =>
      simp only [List.map_cons, List.nil_append, List.cons.injEq] at hls
      rw [← hls.1]
      exact h.1
    | cons l' ls₁ =>
      simp only [List.map_cons, List.cons_append, List.cons.injEq] at hls
      rw [← hls.1]
      exact ih h.2 hls.2

theorem rulesWork : RulesWork exHex id own docEnd J [2] R start ctx (steps.map .thread) := by
  intro ls₁ l ls₂ hls x t ins outs hx th key hlog
  have hall : allFine (Runner.init start [.call ctx ([2].map .ptr) .ret]) steps = true := by decide +kernel
  have h : fine (buildRun exHex id own docEnd [2] start ctx (ls₁ ++ [l])) = true := allFine_of hall hls
  unfold fine at h
  rw [hlog, List.getLast?_append] at h
  simp only [List.getLast?_singleton, Option.some_or, Bool.and_eq_true, Bool.or_eq_true, bne_iff_ne, ne_eq] at h
  rcases filesOf hx with ⟨-, rfl, rfl, rfl⟩ | ⟨-, rfl, rfl, rfl⟩
  · exact right5_of (h.2.resolve_left (by simp))
  · exact right3_of (h.1.resolve_left (by simp))

theorem honest (d : Nat) : HonestDB exHex id R T (start.db d) := by
  have key : ∀ s : Sit, (hashOf s).isEmpty = false → s.hash exHex id (hashOf s) := by
    intro s hne
    unfold hashOf at hne ⊢
    split at hne
    · rename_i li lo h1 h2
      exact ⟨li, lo, h1, h2, rfl⟩
    · cases hne
  have good : ∀ s : Sit, (hashOf s).isEmpty = false → T s → s.right R → ∀ s', T s' → s'.hash exHex id (hashOf s) → s'.right R := by
    intro s hne hT hr s' hT' hh
    obtain ⟨g1, g2, g3, g4⟩ := noCollision s' s _ hT' hT hh (key s hne)
    unfold Sit.right at hr ⊢
    rw [g1, g2, funext fun k => funext fun c => propext (g3 k c), funext fun k => funext fun c => propext (g4 k c)]
    exact hr
  intro h hm s' hT' hh
  simp only [start, world] at hm
  split at hm
  · simp only [List.mem_cons, List.not_mem_nil, or_false] at hm
    rcases hm with rfl | rfl
    · exact good gen1 (by decide +kernel) ⟨_, rfl⟩ (right3_of (by decide +kernel)) s' hT' hh
    · exact good prog1 (by decide +kernel) ⟨_, rfl⟩ (right5_of (by decide +kernel)) s' hT' hh
  · cases hm

def isDir (f : FS) (x : Dir) : Bool := f = x.fs

/-- **C78, finding.** It is not enough that everything but `NeededOnce` holds.  In this project (`All: !All [Prog, Gen]`, and Prog needs an output of Gen) Gen is
needed by its name and as the maker of `a`; `fab All`, after `b` was deleted, may return nil and leave a wrong `prog`, made from an `a` that the rule of Gen
had emptied and not yet written.  (The next `fab All` makes it again.) -/
theorem C78_counterexample_two_names :
    Loaded (lib doc) docEnd ∧ NoCollision exHex id T ∧ NearlyFair exHex id own docEnd J [2] T start ctx (steps.map .thread) ∧
    RulesWork exHex id own docEnd J [2] R start ctx (steps.map .thread) ∧ (∀ d, HonestDB exHex id R T (start.db d)) ∧
    (∀ x t ins outs, FilesOf docEnd [2] x t ins outs → ¬ Composite docEnd t ∧
      ∀ ctx fs, (own.body t ctx).Makes (ins ++ outs) (fun fs => (sitOf own J t ins outs fs).right R) fs) ∧
    (∃ c, (0, Ev.ret c none) ∈ (buildRun exHex id own docEnd [2] start ctx (steps.map .thread)).log) ∧
    ∃ x t ins outs, FilesOf docEnd [2] x t ins outs ∧
      ¬ (sitOf own J t ins outs (buildRun exHex id own docEnd [2] start ctx (steps.map .thread)).world.fs).right R := by
  refine ⟨doc_loaded, noCollision, fair ctx steps, rulesWork, honest, fun _ _ _ _ => makes, ends (st := run start steps) (by decide +kernel), 6, 5, [a], [prog],
    is6, ?_⟩
  have hfs : (run start steps).world.fs = (⟨some 2, some 3, some 1, some 1⟩ : Dir).fs := by
    have : isDir (run start steps).world.fs ⟨some 2, some 3, some 1, some 1⟩ = true := by decide +kernel
    simpa [isDir] using this
  unfold run at hfs
  rw [hfs]
  have hne : (Json.J.str "gen".toList) ≠ .str "prog".toList := fun h => absurd (Json.J.str.inj h) (by decide)
  rintro ⟨c, ⟨h1, -⟩ | ⟨-, h1, h2⟩⟩
  · exact hne h1.symm
  · have e1 := shows_inv (stat_a _) h1
    have e2 := shows_inv (stat_prog _) h2
    dsimp only at e1 e2
    cases e1
    exact absurd e2 (by decide)

/-- ... because of `NeededOnce`. -/
example : ¬ NeededOnce docEnd [2] := fun h => by
  have := h 4 3 [src] [a, b] 1 4 is4 (.dep (.arg (by simp : 2 ∈ [2])) (.inr ⟨by rw [heap2]; simp, rfl⟩) (.all heap2 (by simp)))
    (.dep (.dep (.arg (by simp : 2 ∈ [2])) (.inr ⟨by rw [heap2]; simp, rfl⟩) (.all heap2 (by simp : 0 ∈ [0, 1]))) (.inl ⟨_, heap0, names.1⟩) (.input heap6 (by simp) maker.1))
    (.inl ⟨_, heap1, names.2⟩) (.inr ⟨by rw [heap4]; simp, rfl⟩)
  cases this

end Fab.Yaml.TwiceDemo
