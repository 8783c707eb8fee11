import Verif.Yaml.Clean

/-!
# C78: a project

The cases that meet the hypotheses of the theorems of C78: Gen makes gen.c from src, Prog makes prog from gen.c.
-/

namespace Fab.Yaml.CleanDemo
open Path Cmd Files
open Runner (Proc TRef Env Ev State Reach Label TSt Job Thread allBody seqBody argBody nameBody hist)
open BuildDemo (docEnd doc doc_loaded)
open AgainDemo (src gen prog heap4 heap6 maker wanted stands retOf ends startOf rep ctx)

deriving instance DecidableEq for Forest
deriving instance DecidableEq for FS

def opt (n : Str) (o : Option UInt8) (f : Forest) : Forest := match o with
  | some b => .file n true [b] f
  | none => f

/-- The files gen.c, prog and src. -/
structure Dir where
  g : Option UInt8
  p : Option UInt8
  s : Option UInt8

def Dir.fs (x : Dir) : FS := ⟨.dir "top".toList true (opt "gen.c".toList x.g (opt "prog".toList x.p (opt "src".toList x.s .nil))) .nil, []⟩

def get (f : Forest) (n : Str) : Option UInt8 := match f.find n with
  | some (.file _ [b]) => some b
  | _ => none

def read (f : FS) : Option Dir := match f.root with
  | .dir _ _ sub _ =>
    if (⟨get sub "gen.c".toList, get sub "prog".toList, get sub "src".toList⟩ : Dir).fs = f then
      some ⟨get sub "gen.c".toList, get sub "prog".toList, get sub "src".toList⟩ else none
  | _ => none

theorem read_eq {f : FS} {x : Dir} (h : read f = some x) : f = x.fs := by
  unfold read at h
  split at h
  · split at h
    · rename_i h1; cases h; exact h1.symm
    · cases h
  · cases h

def file (o : Option UInt8) (n : Str) : StatResult := match o with
  | some b => .found ["top".toList, n] (.file true [b])
  | none => .notExist

theorem stat_gen (x : Dir) : x.fs.stat gen = file x.g "gen.c".toList := by
  obtain ⟨g, p, s⟩ := x
  cases g <;> cases p <;> cases s <;> rfl
theorem stat_prog (x : Dir) : x.fs.stat prog = file x.p "prog".toList := by
  obtain ⟨g, p, s⟩ := x
  cases g <;> cases p <;> cases s <;> rfl
theorem stat_src (x : Dir) : x.fs.stat src = file x.s "src".toList := by
  obtain ⟨g, p, s⟩ := x
  cases g <;> cases p <;> cases s <;> rfl

def step5 (w : World Unit) (v : UInt8 → Option UInt8) : World Unit := match read w.fs with
  | some ⟨_, p, some b⟩ => { w with fs := (⟨v b, p, some b⟩ : Dir).fs }
  | _ => w

def step3 (w : World Unit) (v : UInt8 → Option UInt8) : World Unit := match read w.fs with
  | some ⟨some b, _, s⟩ => { w with fs := (⟨some b, v b, s⟩ : Dir).fs }
  | _ => w

def ok5 (w : World Unit) : Option Runner.Err := match read w.fs with
  | some ⟨_, _, some _⟩ => none
  | _ => some (.atom 5)

def ok3 (w : World Unit) : Option Runner.Err := match read w.fs with
  | some ⟨some _, _, _⟩ => none
  | _ => some (.atom 3)

/-- The rule of Gen (5) removes gen.c and writes it again: the contents of src plus one.  That of Prog (3) does so with prog: the contents of gen.c plus
one.  They fail if there is no src, no gen.c. -/
def own : Own Unit where
  body o _ :=
    if o = 5 then .act (fun w => step5 w fun _ => none) fun _ => .act (fun w => step5 w fun b => some (b + 1)) fun w => .ret (ok5 w)
    else if o = 3 then .act (fun w => step3 w fun _ => none) fun _ => .act (fun w => step3 w fun b => some (b + 1)) fun w => .ret (ok3 w)
    else .ret none
  note _ := id
  typ _ := []
  desc t _ := some (.str (if t = 5 then "gen".toList else "prog".toList))

def J (t : Nat) : Json.J := .str (if t = 5 then "gen".toList else "prog".toList)

def one (n : Str) (b : UInt8) : View := fun k c => k = n ∧ c = some [b]

/-- gen.c should be src plus one, prog should be gen.c plus one. -/
def R : Meaning := fun j _ i o => ∃ b, j = .str "gen".toList ∧ i = one src b ∧ o = one gen (b + 1) ∨
  j = .str "prog".toList ∧ i = one gen b ∧ o = one prog (b + 1)

theorem R_fun : ∀ j y i o o', R j y i o → R j y i o' → o = o' := by
  have inj : ∀ {n b b'}, one n b = one n b' → b = b' := by
    intro n b b' h
    have := congrFun (congrFun h n) (some [b])
    simp only [one, true_and, eq_iff_iff, true_iff, Option.some.injEq, List.cons.injEq, and_true] at this
    exact this
  have hne : (Json.J.str "gen".toList) ≠ .str "prog".toList := fun h => absurd (Json.J.str.inj h) (by decide)
  rintro j y i o o' ⟨b, ⟨h1, h2, h3⟩ | ⟨h1, h2, h3⟩⟩ ⟨b', ⟨h1', h2', h3'⟩ | ⟨h1', h2', h3'⟩⟩
  · rw [h3, h3', inj (h2.symm.trans h2')]
  · exact absurd (h1.symm.trans h1') hne
  · exact absurd (h1'.symm.trans h1) hne
  · rw [h3, h3', inj (h2.symm.trans h2')]

theorem shows_one {fs : FS} {i n : Str} {b : UInt8} (h : fs.stat i = file (some b) n) : Shows fs [i] = one i b := by
  funext k c
  simp only [Shows, List.mem_singleton, exists_eq_left, Covers, h, file, one, eq_iff_iff, Content]
  constructor
  · rintro ⟨rfl, ⟨h1, -⟩ | ⟨pos, d, h1, h2⟩⟩
    · rw [h] at h1; cases h1
    · rw [h] at h1; cases h1; exact ⟨rfl, h2⟩
  · rintro ⟨rfl, rfl⟩
    exact ⟨rfl, .inr ⟨_, _, h, rfl⟩⟩

theorem shows_inv {fs : FS} {i n : Str} {o : Option UInt8} {b : UInt8} (h : fs.stat i = file o n) (hs : Shows fs [i] = one i b) : o = some b := by
  cases o with
  | none =>
    have : Shows fs [i] i none := ⟨⟨i, by simp, by simp [Covers, h, file]⟩, .inl ⟨h, rfl⟩⟩
    rw [hs] at this
    cases this.2
  | some b' =>
    have : Shows fs [i] i (some [b']) := by rw [shows_one h]; exact ⟨rfl, rfl⟩
    rw [hs] at this
    cases this.2; rfl

theorem sameFile {fs fs' : FS} {i n : Str} {o : Option UInt8} (h : fs.stat i = file o n) (h' : fs'.stat i = file o n) : SameFile fs fs' i := by
  refine ⟨h'.trans h.symm, fun k c => ?_⟩
  have e : ∀ {fs : FS}, fs.stat i = file o n → ∀ k, Covers fs i k ↔ k = i := by
    intro fs h k
    unfold Covers
    rw [h]
    cases o <;> exact Iff.rfl
  simp only [Shows, List.mem_singleton, exists_eq_left, e h, e h', Content]
  constructor <;> (rintro ⟨rfl, h2⟩; simp only [h, h', true_and] at h2 ⊢; exact h2)

theorem wf (x : Dir) : x.fs.root.WF := by
  have h : Name "gen.c".toList ∧ Name "prog".toList ∧ Name "src".toList ∧ Name "top".toList := by
    refine ⟨?_, ?_, ?_, ?_⟩ <;> (simp only [Name, Elem]; decide +kernel)
  have h2 : "gen.c".toList ∉ ["prog".toList, "src".toList] ∧ "gen.c".toList ∉ ["prog".toList] ∧ "gen.c".toList ∉ ["src".toList] ∧
      "prog".toList ∉ ["src".toList] := by decide +kernel
  obtain ⟨g, p, s⟩ := x
  refine ⟨h.2.2.2, by simp [Forest.names], ?_, trivial⟩
  dsimp only
  revert h h2
  generalize "gen.c".toList = a
  generalize "prog".toList = b
  generalize "src".toList = c
  generalize "top".toList = d
  rintro ⟨h1, h2, h3, -⟩ ⟨h4, h5, h6, h7⟩
  cases g <;> cases p <;> cases s <;> simp_all [opt, Forest.WF, Forest.names]

theorem exHex_inj : ∀ (d d' : Bytes), exHex d = exHex d' → d = d' := by
  intro d
  induction d with
  | nil => intro d' h; cases d' <;> simp_all [exHex]
  | cons b d ih =>
    intro d' h
    cases d' with
    | nil => simp [exHex] at h
    | cons b' d' =>
      simp only [exHex, List.map_cons, List.cons.injEq, true_and] at h
      have hd := ih d' (by simp only [exHex, h.2])
      have hb : b = b' := by
        have := congrArg Char.toNat h.1
        have l1 := b.toNat_lt
        have l2 := b'.toNat_lt
        have e1 : (Char.ofNat (b.toNat + 97)).toNat = b.toNat + 97 := charNat (by omega)
        have e2 : (Char.ofNat (b'.toNat + 97)).toNat = b'.toNat + 97 := charNat (by omega)
        rw [e1, e2] at this
        exact UInt8.toNat_inj.1 (by omega)
      rw [hb, hd]

/-- The situations that come up. -/
def T (a : Sit) : Prop := ∃ x : Dir, a.fs = x.fs

theorem noCollision : NoCollision exHex id T := by
  refine C78_no_collision (by simp [exHex]) ?_ ?_ ?_
  · rintro a ⟨x, hx⟩; rw [hx]; exact wf x
  · exact fun a b _ _ => ⟨fun k d d' _ _ h => exHex_inj _ _ h, fun k d d' _ _ h => exHex_inj _ _ h⟩
  · exact fun a b _ _ li lo li' lo' _ _ _ _ h => h

theorem filesOf {x t ins outs} (h : FilesOf docEnd [4] x t ins outs) :
    x = 4 ∧ t = 3 ∧ ins = [gen] ∧ outs = [prog] ∨ x = 6 ∧ t = 5 ∧ ins = [src] ∧ outs = [gen] := by
  obtain ⟨⟨o, ho, hs⟩, hx⟩ := h
  obtain ⟨-, rfl | rfl⟩ := stands ho hs
  · rw [heap4] at hx; cases hx; exact .inl ⟨rfl, rfl, rfl, rfl⟩
  · rw [heap6] at hx; cases hx; exact .inr ⟨rfl, rfl, rfl, rfl⟩

theorem is4 : FilesOf docEnd [4] 4 3 [gen] [prog] := ⟨⟨4, .arg (by simp), .inr ⟨by rw [heap4]; simp, rfl⟩⟩, heap4⟩
theorem is6 : FilesOf docEnd [4] 6 5 [src] [gen] :=
  ⟨⟨6, .dep (.arg (by simp)) (.inr ⟨by rw [heap4]; simp, rfl⟩) (.input heap4 (by simp) maker.1), .inr ⟨by rw [heap6]; simp, rfl⟩⟩, heap6⟩

/-- Something with gen.c only has changed, or with prog only. -/
theorem changes5 {w : World Unit} {v : UInt8 → Option UInt8} : Changes docEnd [4] 5 w (step5 w v) := by
  unfold step5
  split
  · rename_i g p b h
    have h := read_eq h
    refine ⟨rfl, fun y t ins outs hy i hi => ?_⟩
    dsimp only
    rcases filesOf hy with ⟨rfl, rfl, rfl, rfl⟩ | ⟨rfl, rfl, rfl, rfl⟩
    · simp only [List.cons_append, List.nil_append, List.mem_cons, List.not_mem_nil, or_false] at hi
      rcases hi with rfl | rfl
      · exact .inr ⟨6, 5, _, _, is6, .self, .inr ⟨by simp, maker.1⟩⟩
      · exact .inl (sameFile (h ▸ stat_prog _) (stat_prog _))
    · exact .inr ⟨6, 5, _, _, is6, .self, .inl rfl⟩
  · exact ⟨rfl, fun y t ins outs hy i hi => .inl ⟨rfl, fun _ _ => Iff.rfl⟩⟩

theorem changes3 {w : World Unit} {v : UInt8 → Option UInt8} : Changes docEnd [4] 3 w (step3 w v) := by
  unfold step3
  split
  · rename_i g p s h
    have h := read_eq h
    refine ⟨rfl, fun y t ins outs hy i hi => ?_⟩
    dsimp only
    rcases filesOf hy with ⟨rfl, rfl, rfl, rfl⟩ | ⟨rfl, rfl, rfl, rfl⟩
    · exact .inr ⟨4, 3, _, _, is4, .self, .inl rfl⟩
    · simp only [List.cons_append, List.nil_append, List.mem_cons, List.not_mem_nil, or_false] at hi
      rcases hi with rfl | rfl
      · exact .inl (sameFile (h ▸ stat_src _) (stat_src _))
      · exact .inl (sameFile (h ▸ stat_gen _) (stat_gen _))
  · exact ⟨rfl, fun y t ins outs hy i hi => .inl ⟨rfl, fun _ _ => Iff.rfl⟩⟩

theorem plain3 : ¬ Composite docEnd 3 := by
  have h : ∃ fs, docEnd.heap[3]? = some (.clean fs false) := ⟨_, rfl⟩
  obtain ⟨fs, h⟩ := h
  rintro (h' | h' | h' | h' | h') <;> rw [h] at h' <;> cases h'
theorem plain5 : ¬ Composite docEnd 5 := by
  have h : ∃ fs, docEnd.heap[5]? = some (.clean fs false) := ⟨_, rfl⟩
  obtain ⟨fs, h⟩ := h
  rintro (h' | h' | h' | h' | h') <;> rw [h] at h' <;> cases h'

theorem orderly : Orderly own docEnd J [4] := by
  have part : ∀ {x t ins outs c}, FilesOf docEnd [4] x t ins outs → Part docEnd t c → (x = 4 ∧ c = 3 ∨ x = 6 ∧ c = 5) := by
    intro x t ins outs c hx hc
    rcases filesOf hx with ⟨rfl, rfl, -, -⟩ | ⟨rfl, rfl, -, -⟩
    · exact .inl ⟨rfl, part_plain plain3 hc⟩
    · exact .inr ⟨rfl, part_plain plain5 hc⟩
  refine ⟨⟨?_, ?_, ?_, fun _ _ _ _ _ _ => rfl⟩, ?_⟩
  · intro x t ins outs c hx hc
    rcases part hx hc with ⟨-, rfl⟩ | ⟨-, rfl⟩
    · exact ⟨fun n h => plain3 (.name h), fun t i o h => plain3 (.files h)⟩
    · exact ⟨fun n h => plain5 (.name h), fun t i o h => plain5 (.files h)⟩
  · intro x t ins outs x' t' ins' outs' c hx hx' hc hc'
    have := part hx hc
    have := part hx' hc'
    omega
  · intro x t ins outs c o hx hc ho hs
    have := part hx hc
    obtain ⟨-, h⟩ := stands ho hs
    omega
  · intro x t ins outs o o' _ ho ho' hs hs'
    rw [(stands ho hs).1, (stands ho' hs').1]

theorem own_fs (v : Option UInt8) (o : Nat) (ctx : Ctx) : (own.body o ctx).Keeps fun w => ∃ x : Dir, w.fs = x.fs ∧ x.s = v := by
  have inj : ∀ {x y : Dir}, x.fs = y.fs → x.s = y.s := by
    intro x y h
    have h1 := stat_src x
    rw [h, stat_src y] at h1
    cases hx : x.s <;> cases hy : y.s <;> simp_all [file]
  have k5 : ∀ f (w : World Unit), (∃ x : Dir, w.fs = x.fs ∧ x.s = v) → ∃ x : Dir, (step5 w f).fs = x.fs ∧ x.s = v := by
    rintro f w ⟨x, h1, h2⟩; unfold step5; split
    · rename_i h
      exact ⟨_, rfl, (inj ((read_eq h).symm.trans h1)).trans h2⟩
    · exact ⟨x, h1, h2⟩
  have k3 : ∀ f (w : World Unit), (∃ x : Dir, w.fs = x.fs ∧ x.s = v) → ∃ x : Dir, (step3 w f).fs = x.fs ∧ x.s = v := by
    rintro f w ⟨x, h1, h2⟩; unfold step3; split
    · rename_i h
      have := inj ((read_eq h).symm.trans h1)
      exact ⟨_, rfl, this.trans h2⟩
    · exact ⟨x, h1, h2⟩
  simp only [own]
  split
  · exact ⟨k5 _, fun _ => ⟨k5 _, fun _ => trivial⟩⟩
  · split
    · exact ⟨k3 _, fun _ => ⟨k3 _, fun _ => trivial⟩⟩
    · trivial

theorem run_fs {w : World Unit} {x : Dir} (hw : w.fs = x.fs) {ctx : Ctx} {ls : List (Label (World Unit))} (hls : ∀ f, .extern f ∉ ls) :
    ∃ y : Dir, (buildRun exHex id own docEnd [4] w ctx ls).world.fs = y.fs ∧ y.s = x.s :=
  fs_kept (P := fun f => ∃ y : Dir, f = y.fs ∧ y.s = x.s) (own_fs _) ⟨x, hw, rfl⟩ fun f hf => absurd hf (hls f)

/-- Every build of Prog in which nobody interferes is fair, wherever it starts. -/
theorem fair {w : World Unit} {x : Dir} (hw : w.fs = x.fs) {ctx : Ctx} {ls : List (Label (World Unit))} (hls : ∀ f, .extern f ∉ ls) :
    FairBuild exHex id own docEnd J [4] T w ctx ls := by
  refine ⟨⟨?_, orderly.toRulesApart, ?_, fun f hf => absurd hf (hls f), ?_⟩, orderly.once⟩
  · intro o ctx
    simp only [own]
    split
    · exact fun _ _ => trivial
    · split
      · exact fun _ _ => trivial
      · trivial
  · intro c ctx _ _
    simp only [own]
    split
    · rename_i h; subst h
      exact ⟨fun _ => changes5, fun _ => ⟨fun _ => changes5, fun _ => trivial⟩⟩
    · split
      · rename_i h; subst h
        exact ⟨fun _ => changes3, fun _ => ⟨fun _ => changes3, fun _ => trivial⟩⟩
      · trivial
  · rintro ls₁ ls₂ rfl x' t ins outs -
    obtain ⟨y, hy, -⟩ := run_fs (ctx := ctx) (ls := ls₁) hw fun f hf => hls f (List.mem_append_left _ hf)
    exact ⟨y, hy⟩

/-- The rules do what they should, if they are left alone. -/
theorem makes {x t ins outs} (h : FilesOf docEnd [4] x t ins outs) (ctx : Ctx) (fs : FS) :
    (own.body t ctx).Makes (ins ++ outs) (fun fs => (sitOf own J t ins outs fs).right R) fs := by
  rcases filesOf h with ⟨rfl, rfl, rfl, rfl⟩ | ⟨rfl, rfl, rfl, rfl⟩
  · intro w _ w _
    simp only [ok3, step3]
    split
    · rename_i b p s h
      exact fun _ => ⟨b, .inr ⟨rfl, shows_one (stat_gen _), shows_one (stat_prog _)⟩⟩
    · exact fun h => nomatch h
  · intro w _ w _
    simp only [ok5, step5]
    split
    · rename_i b p s h
      exact fun _ => ⟨_, .inl ⟨rfl, shows_one (stat_src _), shows_one (stat_gen _)⟩⟩
    · exact fun h => nomatch h

/-- **C78 in this project.** Whatever was built before, and whatever was done to the files: after a build of Prog that returns nil gen.c is src plus one and
prog is gen.c plus one. -/
theorem correct {w : World Unit} (hw : History exHex id R T w) {x : Dir} (hx : w.fs = x.fs) {ctx : Ctx} {ls : List (Label (World Unit))}
    (hls : ∀ f, .extern f ∉ ls) :
    History exHex id R T (buildRun exHex id own docEnd [4] w ctx ls).world ∧
    ∀ c, (0, Ev.ret c none) ∈ (buildRun exHex id own docEnd [4] w ctx ls).log →
      Built exHex id own docEnd J [4] R T (buildRun exHex id own docEnd [4] w ctx ls) ∧
      ∃ b, x.s = some b ∧ (buildRun exHex id own docEnd [4] w ctx ls).world.fs = (⟨some (b + 1), some (b + 1 + 1), some b⟩ : Dir).fs := by
  have hf := fair (ctx := ctx) hx hls
  have hrule : RulesWork exHex id own docEnd J [4] R w ctx ls := by
    refine C78_commands hf.loose fun x t ins outs h => ⟨?_, makes h⟩
    rcases filesOf h with ⟨rfl, rfl, rfl, rfl⟩ | ⟨rfl, rfl, rfl, rfl⟩
    · exact plain3
    · exact plain5
  refine ⟨.build hw hf hrule, fun c hret => ⟨⟨⟨w, ctx, ls, rfl, hw, hf, hrule⟩, c, hret⟩, ?_⟩⟩
  have hr := C78_history noCollision hw hf hrule hret
  obtain ⟨y, hy, hys⟩ := run_fs (ctx := ctx) hx hls
  rw [hy]
  have h4 := hr _ _ _ _ is4
  have h6 := hr _ _ _ _ is6
  rw [hy] at h4 h6
  have hne : (Json.J.str "gen".toList) ≠ .str "prog".toList := fun h => absurd (Json.J.str.inj h) (by decide)
  obtain ⟨b, ⟨h1, -⟩ | ⟨-, h1, h2⟩⟩ := h4
  · exact absurd h1.symm hne
  obtain ⟨b', ⟨-, h3, h4⟩ | ⟨h3, -⟩⟩ := h6
  · have e1 := shows_inv (stat_gen y) h1
    have e2 := shows_inv (stat_prog y) h2
    have e3 := shows_inv (stat_src y) h3
    have e4 := shows_inv (stat_gen y) h4
    rw [e1] at e4
    refine ⟨b', hys ▸ e3, ?_⟩
    obtain ⟨g, p, s⟩ := y
    simp only [Option.some.injEq] at e1 e2 e3 e4
    rw [e1, e2, e3, e4]
  · exact absurd h3 hne

def world (x : Dir) (d : List Str) : World Unit := ⟨x.fs, fun n => if n = 0 then d else [], [], false, false, false, ()⟩

def run (w : World Unit) (ts : List Nat) : State (World Unit) Ctx := buildRun exHex id own docEnd [4] w ctx (ts.map .thread)

/-- a build that runs both rules -/
def steps : List Nat := rep [(2, 0), (4, 1), (8, 2), (8, 3), (11, 2), (8, 1), (8, 4), (11, 1), (3, 0)]

/-- src is 1, nothing has been built -/
def first : State (World Unit) Ctx := run (world ⟨none, none, some 1⟩ []) steps

/-- then src is changed to 7, and there is a build that is killed when gen.c has been removed -/
def killed : State (World Unit) Ctx := run { first.world with fs := (⟨some 2, some 3, some 7⟩ : Dir).fs } (rep [(2, 0), (4, 1), (8, 2), (2, 3)])

/-- then there is a build that is not killed, and another -/
def second : State (World Unit) Ctx := run killed.world steps
def third : State (World Unit) Ctx := run second.world (rep [(2, 0), (4, 1), (11, 2), (11, 1), (3, 0)])

def isDir (f : FS) (x : Dir) : Bool := f = x.fs

/-- What happens in these builds: the second runs both rules again, the third none. -/
example : isDir first.world.fs ⟨some 2, some 3, some 1⟩ = true ∧ retOf first = [true] ∧ isDir killed.world.fs ⟨none, some 3, some 7⟩ = true ∧
    retOf killed = [] ∧ isDir second.world.fs ⟨some 8, some 9, some 7⟩ = true ∧ retOf second = [true] ∧ startOf second = [4, 6, 5, 3] ∧
    isDir third.world.fs ⟨some 8, some 9, some 7⟩ = true ∧ retOf third = [true] ∧ startOf third = [4, 6] := by decide +kernel

theorem noExt (ts : List Nat) (f : World Unit → World Unit) : Label.extern f ∉ ts.map .thread := by simp

theorem killed_history : History exHex id R T killed.world := by
  have h0 : History exHex id R T (world ⟨none, none, some 1⟩ []) := .new fun d => by simp [world]
  have h1 : History exHex id R T first.world := by
    unfold first run
    exact (correct h0 (x := ⟨none, none, some 1⟩) rfl (ctx := ctx) (noExt steps)).1
  have h2 : ∀ w : World Unit, History exHex id R T w → ∀ f, History exHex id R T { w with fs := f } := fun w h f => .edit h fun d h hm => hm
  have h3 := h2 _ h1 (⟨some 2, some 3, some 7⟩ : Dir).fs
  unfold killed run
  exact (correct h3 (x := ⟨some 2, some 3, some 7⟩) rfl (ctx := ctx) (noExt _)).1

theorem killed_fs : killed.world.fs = (⟨none, some 3, some 7⟩ : Dir).fs := by
  have h : isDir killed.world.fs ⟨none, some 3, some 7⟩ = true := by decide +kernel
  simpa [isDir] using h

/-- `C78_correct`, `C78_commands`, `C78_history`, `C78_no_collision`: the hypotheses hold for every build of Prog that starts in the state left by the
killed build, in any order and with any context. -/
example (ctx : Ctx) (ts : List Nat) (c : Nat) (hret : (0, Ev.ret c none) ∈ (buildRun exHex id own docEnd [4] killed.world ctx (ts.map .thread)).log) :
    (buildRun exHex id own docEnd [4] killed.world ctx (ts.map .thread)).world.fs = (⟨some 8, some 9, some 7⟩ : Dir).fs := by
  obtain ⟨-, b, h1, h2⟩ := (correct killed_history killed_fs (noExt ts)).2 c hret
  cases h1
  exact h2

/-- `C78_same_as_clean`: and the outputs are those of a build from scratch. -/
example (ctx ctx' : Ctx) (ts ts' : List Nat) (c c' : Nat)
    (hret : (0, Ev.ret c none) ∈ (buildRun exHex id own docEnd [4] killed.world ctx (ts.map .thread)).log)
    (hret' : (0, Ev.ret c' none) ∈ (buildRun exHex id own docEnd [4] (world ⟨none, none, some 7⟩ []) ctx' (ts'.map .thread)).log) :
    ∀ x t ins outs, FilesOf docEnd [4] x t ins outs → ∀ k d,
      Shows (buildRun exHex id own docEnd [4] killed.world ctx (ts.map .thread)).world.fs outs k d ↔
      Shows (buildRun exHex id own docEnd [4] (world ⟨none, none, some 7⟩ []) ctx' (ts'.map .thread)).world.fs outs k d := by
  have h0 : History exHex id R T (world ⟨none, none, some 7⟩ []) := .new fun d => by simp [world]
  obtain ⟨h1, -⟩ := (correct killed_history killed_fs (noExt ts)).2 c hret
  obtain ⟨h2, -⟩ := (correct h0 (x := ⟨none, none, some 7⟩) rfl (noExt ts')).2 c' hret'
  obtain ⟨y, hy, hys⟩ := run_fs (ctx := ctx) killed_fs (noExt ts)
  obtain ⟨z, hz, hzs⟩ := run_fs (ctx := ctx') (w := world ⟨none, none, some 7⟩ []) (x := ⟨none, none, some 7⟩) rfl (noExt ts')
  refine C78_same_as_clean doc_loaded noCollision R_fun h1 h2 (by rw [hy]; exact wf _) (by rw [hz]; exact wf _) ?_ ?_
  · intro x t ins outs hx i hi hm k d
    rcases filesOf hx with ⟨-, -, rfl, -⟩ | ⟨-, -, rfl, -⟩
    · simp only [List.mem_singleton] at hi; subst hi
      rw [maker.1] at hm; cases hm
    · simp only [List.mem_singleton] at hi; subst hi
      rw [hy, hz, shows_one ((stat_src _).trans (by rw [hys])), shows_one ((stat_src _).trans (by rw [hzs]))]
  · intro x t ins outs hx i hi z' t' ins' outs' hm hz'
    rcases filesOf hx with ⟨-, -, rfl, -⟩ | ⟨-, -, rfl, -⟩
    · simp only [List.mem_singleton] at hi; subst hi
      rw [maker.1] at hm; cases hm
      rw [heap6] at hz'; cases hz'
      refine ⟨by simp, ?_⟩
      rw [hy, hz]
      unfold IsDir
      rw [stat_gen, stat_gen]
      have : ∀ (o : Option UInt8) n, ¬ ∃ pos r sub, file o n = .found pos (.dir r sub) := by
        rintro (_ | _) n ⟨_, _, _, h⟩ <;> cases h
      exact ⟨fun h => absurd h (this _ _), fun h => absurd h (this _ _)⟩
    · simp only [List.mem_singleton] at hi; subst hi
      rw [maker.2] at hm; cases hm

end Fab.Yaml.CleanDemo
