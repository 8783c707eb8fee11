import Verif.Yaml.Trees
import Verif.Yaml.CleanDemo

/-!
# C78: a rule that is `!Seq [A, !All [B, C]]`

A copies src to gen.c; then, at the same time, B adds one to gen.c and C makes prog from src.
-/

namespace Fab.Yaml.TreesDemo
open Path Cmd Files
open Runner (Proc TRef Env Ev State Reach Label TSt Job Thread allBody seqBody argBody nameBody hist)
open AgainDemo (src gen prog retOf startOf rep ctx)
open CleanDemo (Dir read read_eq file stat_gen stat_src stat_prog one shows_one sameFile isDir)

def doc : St where
  heap := [.clean [] false, .clean [] false, .clean [] false, .all [1, 2], .seq [0, 3], .files 4 [src] [gen, prog]]
  reg := BuildDemo.regOf [("Prog".toList, 5)]
  filesReg := [(prog, 5), (gen, 5)]
  autoclean := []
  hist := [("Prog".toList, [], 5)]
  reads := ["/top".toList]

def stepA (w : World Unit) : World Unit := match read w.fs with
  | some ⟨_, p, some b⟩ => { w with fs := (⟨some b, p, some b⟩ : Dir).fs }
  | _ => w

def stepB (w : World Unit) : World Unit := match read w.fs with
  | some ⟨some g, p, s⟩ => { w with fs := (⟨some (g + 1), p, s⟩ : Dir).fs }
  | _ => w

def stepC (w : World Unit) : World Unit := match read w.fs with
  | some ⟨g, _, some b⟩ => { w with fs := (⟨g, some (b + 2), some b⟩ : Dir).fs }
  | _ => w

def okS (w : World Unit) : Option Runner.Err := match read w.fs with
  | some ⟨_, _, some _⟩ => none
  | _ => some (.atom 5)

def okG (w : World Unit) : Option Runner.Err := match read w.fs with
  | some ⟨some _, _, _⟩ => none
  | _ => some (.atom 3)

def own : Own Unit where
  body o _ := if o = 0 then .act stepA fun w => .ret (okS w) else if o = 1 then .act stepB fun w => .ret (okG w) else
    if o = 2 then .act stepC fun w => .ret (okS w) else .ret none
  note _ := id
  typ _ := []
  desc _ _ := some .null

def J (_ : Nat) : Json.J := .null

/-- gen.c should be src plus one, prog should be src plus two. -/
def R : Meaning := fun _ _ i o => ∃ b, i = one src b ∧ o = fun k c => one gen (b + 1) k c ∨ one prog (b + 2) k c

theorem heap5 : doc.heap[5]? = some (.files 4 [src] [gen, prog]) := rfl
theorem heap4 : doc.heap[4]? = some (.seq [0, 3]) := rfl
theorem heap3 : doc.heap[3]? = some (.all [1, 2]) := rfl
theorem maker : findInFilesRegistry doc.filesReg src = none := by decide +kernel

theorem wanted {o : Nat} (h : Wanted doc [5] o) : o = 5 := by
  induction h with
  | arg h => simpa using h
  | dep _ h1 h2 ih =>
    subst ih
    have := h1.self (fun n h => by rw [heap5] at h; cases h)
    subst this
    cases h2 with
    | input h3 h4 h5 =>
      rw [heap5] at h3; cases h3
      simp only [List.mem_singleton] at h4; subst h4
      rw [maker] at h5; cases h5
    | _ h3 => rw [heap5] at h3; cases h3

theorem stands {o x : Nat} (h : Wanted doc [5] o) (hs : Stands doc o x) : x = 5 := by
  cases wanted h
  exact hs.self (fun n h => by rw [heap5] at h; cases h)

theorem filesOf {x t ins outs} (h : FilesOf doc [5] x t ins outs) : x = 5 ∧ t = 4 ∧ ins = [src] ∧ outs = [gen, prog] := by
  obtain ⟨⟨o, ho, hs⟩, hx⟩ := h
  cases stands ho hs
  rw [heap5] at hx; cases hx
  exact ⟨rfl, rfl, rfl, rfl⟩

theorem is5 : FilesOf doc [5] 5 4 [src] [gen, prog] := ⟨⟨5, .arg (by simp), .inr ⟨by rw [heap5]; simp, rfl⟩⟩, heap5⟩

theorem plain {c : Nat} (hc : c < 3) : ¬ Composite doc c := by
  have h : doc.heap[c]? = some (.clean [] false) := by
    have : c = 0 ∨ c = 1 ∨ c = 2 := by omega
    rcases this with rfl | rfl | rfl <;> rfl
  rintro (h' | h' | h' | h' | h') <;> rw [h] at h' <;> cases h'

theorem part {c : Nat} (h : Part doc 4 c) : c < 5 := by
  have lt : ∀ {c}, c < 5 → c < 3 ∨ c = 3 ∨ c = 4 := by omega
  induction h with
  | self => decide
  | all _ h1 hy ih =>
    rcases lt ih with h | rfl | rfl
    · exact absurd (.all h1) (plain h)
    · rw [heap3] at h1; cases h1; simp at hy; omega
    · rw [heap4] at h1; cases h1
  | seq _ h1 hy ih =>
    rcases lt ih with h | rfl | rfl
    · exact absurd (.seq h1) (plain h)
    · rw [heap3] at h1; cases h1
    · rw [heap4] at h1; cases h1; simp at hy; omega
  | arg _ h1 ih =>
    rcases lt ih with h | rfl | rfl
    · exact absurd (.arg h1) (plain h)
    · rw [heap3] at h1; cases h1
    · rw [heap4] at h1; cases h1

theorem part3 : Part doc 4 3 := .seq .self heap4 (by simp)
theorem part_of {c : Nat} (h : c < 3) : Part doc 4 c := by
  have : c = 0 ∨ c = 1 ∨ c = 2 := by omega
  rcases this with rfl | rfl | rfl
  · exact .seq .self heap4 (by simp)
  · exact .all part3 heap3 (by simp)
  · exact .all part3 heap3 (by simp)

theorem leaf {c : Nat} : Leaf doc 4 c ↔ c < 3 := by
  refine ⟨fun ⟨h1, h2⟩ => ?_, fun h => ⟨part_of h, plain h⟩⟩
  have := part h1
  by_contra h
  have : c = 3 ∨ c = 4 := by omega
  rcases this with rfl | rfl
  · exact h2 (.all heap3)
  · exact h2 (.seq heap4)

theorem earlier {c : Nat} (h : c = 1 ∨ c = 2) : Earlier doc 4 0 c :=
  .intro (pre := []) (mid := []) (suf := []) .self heap4 rfl .self (.all .self heap3 (by rcases h with rfl | rfl <;> simp))

theorem needs {p c : Nat} (hp : Part doc 4 p) (h : Needs doc p c) : p = 4 ∧ (c = 0 ∨ c = 3) ∨ p = 3 ∧ (c = 1 ∨ c = 2) := by
  have lt : ∀ {c}, c < 5 → c < 3 ∨ c = 3 ∨ c = 4 := by omega
  rcases lt (part hp) with h0 | rfl | rfl
  · exact absurd (uses_composite (.needs h)) (plain h0)
  · cases h with
    | all h1 hy => rw [heap3] at h1; cases h1; exact .inr ⟨rfl, by simpa using hy⟩
    | _ h1 => rw [heap3] at h1; cases h1
  · cases h with
    | seq h1 hy => rw [heap4] at h1; cases h1; exact .inl ⟨rfl, by simpa using hy⟩
    | _ h1 => rw [heap4] at h1; cases h1

theorem onePlace : OnePlace doc 4 := by
  refine ⟨fun p p' c hp hp' h h' => ?_, fun p hp h => ?_, fun p ts hp h => ?_⟩
  · have := needs hp h; have := needs hp' h'; omega
  · have := needs hp h; omega
  · have lt : ∀ {c}, c < 5 → c < 3 ∨ c = 3 ∨ c = 4 := by omega
    rcases lt (part hp) with h0 | rfl | rfl
    · exact absurd (.seq h) (plain h0)
    · rw [heap3] at h; cases h
    · rw [heap4] at h; cases h; decide

theorem orderly : Orderly own doc J [5] := by
  have part : ∀ {x t ins outs c}, FilesOf doc [5] x t ins outs → Part doc t c → (c < 3 ∨ c = 3 ∨ c = 4) := by
    intro x t ins outs c hx hc
    obtain ⟨-, rfl, -, -⟩ := filesOf hx
    have := part hc
    omega
  refine ⟨⟨?_, ?_, ?_, fun _ _ _ _ _ _ => rfl⟩, ?_⟩
  · intro x t ins outs c hx hc
    rcases part hx hc with h | rfl | rfl
    · exact ⟨fun n h' => plain h (.name h'), fun t i o h' => plain h (.files h')⟩
    · rw [heap3]; simp
    · rw [heap4]; simp
  · intro x t ins outs x' t' ins' outs' c hx hx' _ _
    rw [(filesOf hx).1, (filesOf hx').1]
  · intro x t ins outs c o hx hc ho hs
    cases stands ho hs
    have := part hx hc
    omega
  · intro x t ins outs o o' _ ho ho' _ _
    rw [wanted ho, wanted ho']

theorem body_cases {P : Runner.Proc (World Unit) Ctx → Prop} (o : Nat) (ctx : Ctx) (hA : o = 0 → P (.act stepA fun w => .ret (okS w)))
    (hB : o = 1 → P (.act stepB fun w => .ret (okG w))) (hC : o = 2 → P (.act stepC fun w => .ret (okS w))) (hR : 2 < o → P (.ret none)) : P (own.body o ctx) := by
  simp only [own]
  split
  · exact hA ‹_›
  · split
    · exact hB ‹_›
    · split
      · exact hC ‹_›
      · exact hR (by omega)

theorem noRun : ∀ o ctx, NoRun (own.body o ctx) :=
  fun o ctx => body_cases o ctx (fun _ _ => trivial) (fun _ _ => trivial) (fun _ _ => trivial) fun _ => trivial

theorem own_fs (o : Nat) (ctx : Ctx) : (own.body o ctx).Keeps fun w => ∃ x : Dir, w.fs = x.fs := by
  have kA : ∀ w : World Unit, (∃ x : Dir, w.fs = x.fs) → ∃ x : Dir, (stepA w).fs = x.fs := by
    rintro w ⟨x, h1⟩; unfold stepA; split
    · exact ⟨_, rfl⟩
    · exact ⟨x, h1⟩
  have kB : ∀ w : World Unit, (∃ x : Dir, w.fs = x.fs) → ∃ x : Dir, (stepB w).fs = x.fs := by
    rintro w ⟨x, h1⟩; unfold stepB; split
    · exact ⟨_, rfl⟩
    · exact ⟨x, h1⟩
  have kC : ∀ w : World Unit, (∃ x : Dir, w.fs = x.fs) → ∃ x : Dir, (stepC w).fs = x.fs := by
    rintro w ⟨x, h1⟩; unfold stepC; split
    · exact ⟨_, rfl⟩
    · exact ⟨x, h1⟩
  exact body_cases o ctx (fun _ => ⟨kA, fun _ => trivial⟩) (fun _ => ⟨kB, fun _ => trivial⟩) (fun _ => ⟨kC, fun _ => trivial⟩) fun _ => trivial

theorem fair {w : World Unit} {x : Dir} (hw : w.fs = x.fs) {ctx : Ctx} {ls : List (Label (World Unit))} (hls : ∀ f, .extern f ∉ ls) :
    FairBuild exHex id own doc J [5] CleanDemo.T w ctx ls := by
  refine ⟨⟨noRun, orderly.toRulesApart, ?_, fun f hf => absurd hf (hls f), ?_⟩, orderly.once⟩
  · have any : ∀ {c : Nat} {w w' : World Unit}, c < 3 → w'.db = w.db → Changes doc [5] c w w' := fun hc hdb =>
      ⟨hdb, fun y t ins outs hy i hi => .inr ⟨5, 4, _, _, is5, part_of hc, .inl (filesOf hy).1.symm⟩⟩
    intro c ctx _ _
    refine body_cases c ctx (fun h => ⟨fun w => any (by omega) ?_, fun _ => trivial⟩) (fun h => ⟨fun w => any (by omega) ?_, fun _ => trivial⟩)
      (fun h => ⟨fun w => any (by omega) ?_, fun _ => trivial⟩) fun _ => trivial
    · unfold stepA; split <;> rfl
    · unfold stepB; split <;> rfl
    · unfold stepC; split <;> rfl
  · rintro ls₁ ls₂ rfl x' t ins outs -
    obtain ⟨y, hy⟩ := fs_kept (hex := exHex) (sum := id) (s := doc) (os := [5]) (ctx := ctx) (ls := ls₁) (P := fun f => ∃ y : Dir, f = y.fs) own_fs ⟨x, hw⟩
      fun f hf => absurd hf fun hf => hls f (List.mem_append_left _ hf)
    exact ⟨y, hy⟩

/-! ## The plan -/

/-- A: gen.c is src, which B spoils; B: gen.c is src plus one; C: prog is src plus two. -/
def plan : Plan where
  files c := if c = 2 then [src, prog] else [src, gen]
  post c fs := ∃ b, fs.stat src = file (some b) "src".toList ∧
    if c = 0 then fs.stat gen = file (some b) "gen.c".toList else if c = 1 then fs.stat gen = file (some (b + 1)) "gen.c".toList
    else fs.stat prog = file (some (b + 2)) "prog".toList
  spoils c' c := c' = 1 ∧ c = 0

theorem file_inj {a b : Option UInt8} {n : Str} (h : file a n = file b n) : a = b := by
  cases a <;> cases b <;> simp_all [file]

/-- B keeps src and prog. -/
theorem keepsB (w : World Unit) : Agree [src, prog] w.fs (stepB w).fs := by
  unfold stepB
  split
  · rename_i g p s h
    intro n hn
    simp only [List.mem_cons, List.not_mem_nil, or_false] at hn
    rcases hn with rfl | rfl
    · exact sameFile (read_eq h ▸ stat_src _) (stat_src _)
    · exact sameFile (read_eq h ▸ stat_prog _) (stat_prog _)
  · exact .refl _ _

/-- C keeps src and gen.c. -/
theorem keepsC (w : World Unit) : Agree [src, gen] w.fs (stepC w).fs := by
  unfold stepC
  split
  · rename_i g p s h
    intro n hn
    simp only [List.mem_cons, List.not_mem_nil, or_false] at hn
    rcases hn with rfl | rfl
    · exact sameFile (read_eq h ▸ stat_src _) (stat_src _)
    · exact sameFile (read_eq h ▸ stat_gen _) (stat_gen _)
  · exact .refl _ _

theorem shows_two {fs : FS} {n m : Str} {k c} : Shows fs [n, m] k c ↔ Shows fs [n] k c ∨ Shows fs [m] k c := by
  simp only [Shows, List.mem_cons, List.not_mem_nil, or_false, exists_eq_left, or_and_right]
  rw [exists_or, exists_eq_left, exists_eq_left, or_and_right]

theorem works : plan.Works own doc 4 ([src] ++ [gen, prog]) (fun fs => (sitOf own J 4 [src] [gen, prog] fs).right R) where
  sub c hc n hn := by
    simp only [plan] at hn
    split at hn <;> simp only [List.mem_cons, List.not_mem_nil, or_false] at hn <;> rcases hn with rfl | rfl <;> simp
  about c fs fs' hc hag := by
    rintro ⟨b, h1, h2⟩
    have e : ∀ n ∈ plan.files c, fs'.stat n = fs.stat n := fun n hn => (hag n hn).1
    simp only [plan] at e h2 ⊢
    refine ⟨b, ?_, ?_⟩
    · rw [e src (by split <;> simp)]; exact h1
    · split at h2
      · rename_i h; subst h; simp only [if_true]; rw [e gen (by simp)]; exact h2
      · split at h2
        · rename_i h; subst h; simp only [one_ne_zero, if_false, if_true]; rw [e gen (by simp)]; exact h2
        · rename_i h h'
          have := leaf.1 hc
          have : c = 2 := by omega
          subst this
          simp only [OfNat.ofNat_ne_zero, OfNat.ofNat_ne_one, if_false]
          rw [e prog (by simp)]; exact h2
  keeps c c' ctx hc hc' hne hea hsp := by
    have h1 := leaf.1 hc
    have h2 := leaf.1 hc'
    have h0 : c' ≠ 0 := by rintro rfl; exact hea (earlier (by omega))
    have hs : ¬ (c' = 1 ∧ c = 0) := hsp
    refine body_cases c' ctx (fun h => absurd h h0) (fun h => ?_) (fun h => ?_) fun _ => trivial
    · have : c = 2 := by omega
      subst this
      exact ⟨keepsB, fun _ => trivial⟩
    · have : plan.files c = [src, gen] := by simp only [plan]; rw [if_neg (by omega)]
      rw [this]
      exact ⟨keepsC, fun _ => trivial⟩
  later c c' hc hc' h := by
    obtain ⟨rfl, rfl⟩ := h
    exact earlier (.inl rfl)
  makes c ctx fs hc hpre := by
    refine body_cases (P := fun p => p.Makes (plan.files c) (plan.post c) fs) c ctx (fun h => ?_) (fun h => ?_) (fun h => ?_) fun h => absurd (leaf.1 hc) (by omega)
    · subst h
      intro w _
      simp only [okS, stepA]
      split
      · exact fun _ => ⟨_, stat_src _, stat_gen _⟩
      · exact fun h => nomatch h
    · subst h
      obtain ⟨b, h1, h2⟩ := hpre 0 (leaf.2 (by omega)) (earlier (.inl rfl)) fun c₂ _ h => .inl h.1
      simp only [if_true] at h2
      intro w hw
      have hg := (hw gen (by simp [plan])).1
      have hs := (hw src (by simp [plan])).1
      rw [h2] at hg
      rw [h1] at hs
      simp only [okG, stepB]
      split
      · rename_i g p s h
        have h' := read_eq h
        rw [h', stat_gen] at hg
        rw [h', stat_src] at hs
        have e1 := file_inj hg
        have e2 := file_inj hs
        dsimp only at e1 e2
        cases e1; subst e2
        exact fun _ => ⟨b, stat_src _, stat_gen _⟩
      · exact fun h => nomatch h
    · subst h
      intro w _
      simp only [okS, stepC]
      split
      · exact fun _ => ⟨_, stat_src _, stat_prog _⟩
      · exact fun h => nomatch h
  done fs h := by
    obtain ⟨b, h1, h2⟩ := h 1 (leaf.2 (by omega)) fun c' _ h => absurd h.2 (by omega)
    obtain ⟨b', h1', h2'⟩ := h 2 (leaf.2 (by omega)) fun c' _ h => absurd h.2 (by omega)
    rw [h1] at h1'
    cases file_inj h1'
    simp only [OfNat.ofNat_ne_zero, OfNat.ofNat_ne_one, one_ne_zero, if_false, if_true] at h2 h2'
    refine ⟨b, shows_one h1, ?_⟩
    funext k c
    rw [← shows_one h2, ← shows_one h2']
    exact propext shows_two

/-- `C78_trees`: after every build that returns nil gen.c is src plus one, and prog is src plus two. -/
theorem correct {w : World Unit} (hw : History exHex id R CleanDemo.T w) {x : Dir} (hx : w.fs = x.fs) {ctx : Ctx} {ls : List (Label (World Unit))}
    (hls : ∀ f, .extern f ∉ ls) {c : Nat} (hret : (0, Ev.ret c none) ∈ (buildRun exHex id own doc [5] w ctx ls).log) :
    ∃ b, Shows (buildRun exHex id own doc [5] w ctx ls).world.fs [src] = one src b ∧
      Shows (buildRun exHex id own doc [5] w ctx ls).world.fs [gen, prog] = fun k c => one gen (b + 1) k c ∨ one prog (b + 2) k c := by
  have hf := fair (ctx := ctx) hx hls
  have hrule : RulesWork exHex id own doc J [5] R w ctx ls := by
    refine C78_trees hf.loose fun x t ins outs h => ?_
    obtain ⟨rfl, rfl, rfl, rfl⟩ := filesOf h
    exact ⟨onePlace, plan, works⟩
  exact C78_history CleanDemo.noCollision hw hf hrule hret _ _ _ _ is5

def run (w : World Unit) (ts : List Nat) : State (World Unit) Ctx := buildRun exHex id own doc [5] w ctx (ts.map .thread)

/-- a build: src is 5, gen.c is 9; the last two commands are at work at the same time -/
def first : State (World Unit) Ctx :=
  run (CleanDemo.world ⟨some 9, none, some 5⟩ [])
    (rep [(2, 0), (9, 1), (3, 2), (7, 3), (4, 2), (4, 4), (2, 5), (2, 6), (5, 5), (5, 6), (7, 4), (7, 2), (12, 1), (3, 0)])

example : isDir first.world.fs ⟨some 6, some 7, some 5⟩ = true ∧ retOf first = [true] ∧ startOf first = [5, 4, 0, 3, 1, 2] := by decide +kernel

end Fab.Yaml.TreesDemo
