import Verif.Yaml.Lists

/-!
# C42, C44: reading YAML files
-/

namespace Fab.Yaml
open Path Cmd

/-! ## Specification -/

/-- The name of a target relative to the top directory, for a reference `v` in the directory `dir`. -/
abbrev refName (L : Lib) (dir v : Str) : Option Str := relPath L.top (joinPath L.top [dir, v])

/-- The target registered last under a name, and its comment. -/
def lastAs (q : Str) (h : List (Str × Str × Nat)) : Option (Nat × Str) :=
  ((h.filter fun x => x.1 = q).getLast?).map fun x => (x.2.2, x.2.1)

/-- In the state `S`, the target with number `o` is the one that `node` in a YAML file of the directory `dir` describes. -/
inductive Denotes (L : Lib) (S : St) : Node → Str → Nat → Prop
  /-- a tag registered by others -/
  | ext {node dir o fn n} (ht : normalizeTag node.tag ≠ []) (hf : L.targetFn (normalizeTag node.tag) = some fn)
      (hn : fn node dir = .ok n) (ho : S.heap[o]? = some (.ext n)) : Denotes L S node dir o
  | all {node dir o} {ids : List Nat} (ht : normalizeTag node.tag = "All".toList) (hf : L.targetFn "All".toList = none)
      (hk : node.kind = .sequence) (hl : ids.length = node.content.length)
      (hc : ∀ x ∈ node.content.zip ids, Denotes L S x.1 dir x.2) (ho : S.heap[o]? = some (.all ids)) : Denotes L S node dir o
  | seq {node dir o} {ids : List Nat} (ht : normalizeTag node.tag = "Seq".toList) (hf : L.targetFn "Seq".toList = none)
      (hk : node.kind = .sequence) (hl : ids.length = node.content.length)
      (hc : ∀ x ∈ node.content.zip ids, Denotes L S x.1 dir x.2) (ho : S.heap[o]? = some (.seq ids)) : Denotes L S node dir o
  /-- Deps, as a sequence: the target, and then the targets it depends on -/
  | depsSeq {node dir o t deps t' a} {ids : List Nat} (ht : normalizeTag node.tag = "Deps".toList)
      (hf : L.targetFn "Deps".toList = none) (hk : node.kind = .sequence) (hc : node.content = t :: deps)
      (h1 : Denotes L S t dir t') (hl : ids.length = deps.length) (hd : ∀ x ∈ deps.zip ids, Denotes L S x.1 dir x.2)
      (ha : S.heap[a]? = some (.all ids)) (ho : S.heap[o]? = some (.seq [a, t'])) : Denotes L S node dir o
  /-- Deps, as a mapping with Pre and Post -/
  | depsMap {node dir o pre post t' a} {ids : List Nat} (ht : normalizeTag node.tag = "Deps".toList)
      (hf : L.targetFn "Deps".toList = none) (hk : node.kind = .mapping) (hc : L.decDeps node = .ok (pre, post))
      (h1 : Denotes L S post dir t') (hl : ids.length = pre.length) (hd : ∀ x ∈ pre.zip ids, Denotes L S x.1 dir x.2)
      (ha : S.heap[a]? = some (.all ids)) (ho : S.heap[o]? = some (.seq [a, t'])) : Denotes L S node dir o
  /-- ArgTarget: the target, and then the arguments -/
  | arg {node dir o t rest t' args} (ht : normalizeTag node.tag = "ArgTarget".toList) (hf : L.targetFn "ArgTarget".toList = none)
      (hk : node.kind = .sequence) (hc : node.content = t :: rest) (h1 : Denotes L S t dir t')
      (ha : ListOf L dir rest (.ok args)) (ho : S.heap[o]? = some (.arg t' args)) : Denotes L S node dir o
  /-- Files: the inputs and outputs are taken relative to the directory; the outputs are in the registry of files, and in that of
  files to clean if Autoclean is set -/
  | files {node dir o t ins outs} {f : FilesY} (ht : normalizeTag node.tag = "Files".toList) (hf : L.targetFn "Files".toList = none)
      (hk : node.kind = .mapping) (hc : L.decFiles node = .ok f) (h1 : Denotes L S f.target dir t)
      (hi : StringList L dir f.ins (.ok ins)) (hu : StringList L dir f.outs (.ok outs))
      (ho : S.heap[o]? = some (.files t (ins.map fun x => joinPath L.top [dir, x]) (outs.map fun x => joinPath L.top [dir, x])))
      (hr : ∀ x ∈ outs, (S.filesReg.get (joinPath L.top [dir, x])).isSome)
      (ha : f.autoclean = true → ∀ x ∈ outs, joinPath L.top [dir, x] ∈ S.autoclean) : Denotes L S node dir o
  | cleanMap {node dir o fs l} {ac : Bool} (ht : normalizeTag node.tag = "Clean".toList) (hf : L.targetFn "Clean".toList = none)
      (hk : node.kind = .mapping) (hc : L.decClean node = .ok (fs, ac)) (hl : StringList L dir fs (.ok l))
      (ho : S.heap[o]? = some (.clean (l.map fun x => joinPath L.top [dir, x]) ac)) : Denotes L S node dir o
  | cleanSeq {node dir o l} (ht : normalizeTag node.tag = "Clean".toList) (hf : L.targetFn "Clean".toList = none)
      (hk : node.kind = .sequence) (hl : ListOf L dir node.content (.ok l))
      (ho : S.heap[o]? = some (.clean (l.map fun x => joinPath L.top [dir, x]) false)) : Denotes L S node dir o
  /-- Command, with a command name or one shell string -/
  | command {node dir o args env sh} {c : CommandY} (ht : normalizeTag node.tag = "Command".toList)
      (hf : L.targetFn "Command".toList = none) (hk : node.kind = .mapping) (hc : L.decCommand node = .ok c)
      (ha : StringList L dir c.args (.ok args)) (he : StringList L dir c.env (.ok env))
      (h1 : c.cmd = [] → StringList L dir c.shell (.error .badKind))
      (hs : c.shell.kind = .zero ∧ sh = [] ∨ c.shell.kind = .scalar ∧ sh = c.shell.value)
      (ho : S.heap[o]? = some (Obj.command (toTarget L c sh dir args env false))) : Denotes L S node dir o
  /-- Command, with a list of shell strings: a Seq of one command for each -/
  | commands {node dir o args env shs} {ids : List Nat} {c : CommandY} (ht : normalizeTag node.tag = "Command".toList)
      (hf : L.targetFn "Command".toList = none) (hk : node.kind = .mapping) (hc : L.decCommand node = .ok c)
      (ha : StringList L dir c.args (.ok args)) (he : StringList L dir c.env (.ok env))
      (h1 : c.cmd = []) (hs : StringList L dir c.shell (.ok shs)) (hl : ids.length = shs.length)
      (hi : ∀ (i id : Nat) (sh : Str), ids[i]? = some id → shs[i]? = some sh →
        S.heap[id]? = some (Obj.command (toTarget L c sh dir args env (decide (0 < i)))))
      (ho : S.heap[o]? = some (.seq ids)) : Denotes L S node dir o
  /-- a plain name: resolved when run -/
  | name {node dir o} (ht : normalizeTag node.tag = []) (hk : node.kind = .scalar) (hv : '/' ∉ node.value)
      (ho : S.heap[o]? = some (.ref node.value)) : Denotes L S node dir o
  /-- a path to a target of the top directory: resolved when run -/
  | top {node dir o q} (ht : normalizeTag node.tag = []) (hk : node.kind = .scalar) (hv : '/' ∈ node.value)
      (hq : refName L dir node.value = some q) (hd : dirOf q = dot) (ho : S.heap[o]? = some (.ref q)) : Denotes L S node dir o
  /-- a path to a target of another directory: the target that was registered under its name when the reference was read -/
  | foreign {node dir o q h doc} (ht : normalizeTag node.tag = []) (hk : node.kind = .scalar) (hv : '/' ∈ node.value)
      (hq : refName L dir node.value = some q) (hd : dirOf q ≠ dot) (hh : h <+: S.hist) (ho : lastAs q h = some (o, doc)) :
      Denotes L S node dir o

/-- keys and values -/
def pairs : List Node → List (Node × Node)
  | k :: v :: rest => (k, v) :: pairs rest
  | _ => []

/-- The entries of a document of the right form. -/
def entries : Node → List (Node × Node)
  | .mk .document _ _ _ _ [.mk .mapping _ _ _ _ c] => pairs c
  | _ => []

/-- The targets of a document: the entries other than _dir. -/
def items (doc : Node) : List (Node × Node) := (entries doc).filter fun e => e.1.value ≠ "_dir".toList

/-- A document that may stand in the directory `dir`. -/
structure WellFormed (doc : Node) (dir : Str) : Prop where
  document : doc.kind = .document
  mapping : ∃ m, doc.content = [m] ∧ m.kind = .mapping ∧ m.content.length % 2 = 0
  keys : ∀ e ∈ entries doc, e.1.kind = .scalar
  noSlash : ∀ e ∈ items doc, '/' ∉ e.1.value
  dirs : ∀ e ∈ entries doc, e.1.value = "_dir".toList → e.2.kind = .scalar ∧ e.2.value = dir
  declared : dir ≠ [] → ∃ e ∈ entries doc, e.1.value = "_dir".toList

/-- The name of the directory `D`, relative to the top directory; empty for the top directory. -/
def relDir (L : Lib) (D : Str) : Option Str := (relPath L.top D).map fun r => if r = dot then [] else r

/-- An item of a YAML file that was read. -/
def FromFile (L : Lib) (S : St) (dir : Str) (key val : Node) : Prop :=
  ∃ D doc, D ∈ S.reads ∧ (∃ x, D = join [L.top, x]) ∧ L.file D = .doc (some doc) ∧ relDir L D = some dir ∧ (key, val) ∈ items doc

/-- The registration of the target of an item. -/
def Registers (L : Lib) (S : St) (dir : Str) (key val : Node) (e : Str × Str × Nat) : Prop :=
  e.1 = join [dir, key.value] ∧ e.2.1 = docOf key ∧ Denotes L S val dir e.2.2

/-! ## Helper lemmas -/

/-- The registry is what the registrations made of it. -/
def Consistent (s : St) : Prop := s.reg = Registry.after id (s.hist.map fun x => (x.1, x.2.1, .ptr x.2.2))

structure Grow (s s' : St) : Prop where
  heap : s.heap <+: s'.heap
  hist : s.hist <+: s'.hist
  reads : s.reads <+: s'.reads
  files : ∀ x, (s.filesReg.get x).isSome → (s'.filesReg.get x).isSome
  auto : ∀ x ∈ s.autoclean, x ∈ s'.autoclean

theorem Grow.rfl {s : St} : Grow s s := ⟨List.prefix_rfl, List.prefix_rfl, List.prefix_rfl, fun _ h => h, fun _ h => h⟩

theorem Grow.trans {s s' s'' : St} (h : Grow s s') (h' : Grow s' s'') : Grow s s'' :=
  ⟨h.heap.trans h'.heap, h.hist.trans h'.hist, h.reads.trans h'.reads, fun x hx => h'.files x (h.files x hx),
    fun x hx => h'.auto x (h.auto x hx)⟩

theorem get_of_prefix {α : Type} {l l' : List α} (h : l <+: l') {i : Nat} {a : α} (hi : l[i]? = some a) : l'[i]? = some a := by
  obtain ⟨t, rfl⟩ := h
  rw [List.getElem?_append_left (List.getElem?_eq_some_iff.1 hi).1]; exact hi

theorem Denotes.mono {L : Lib} {s s' : St} (g : Grow s s') {n dir o} (h : Denotes L s n dir o) : Denotes L s' n dir o := by
  have H := fun {i : Nat} {a : Obj} (hi : s.heap[i]? = some a) => get_of_prefix g.heap hi
  induction h with
  | ext ht hf hn ho => exact .ext ht hf hn (H ho)
  | all ht hf hk hl hc ho ih => exact .all ht hf hk hl ih (H ho)
  | seq ht hf hk hl hc ho ih => exact .seq ht hf hk hl ih (H ho)
  | depsSeq ht hf hk hc h1 hl hd ha ho ih1 ih2 => exact .depsSeq ht hf hk hc ih1 hl ih2 (H ha) (H ho)
  | depsMap ht hf hk hc h1 hl hd ha ho ih1 ih2 => exact .depsMap ht hf hk hc ih1 hl ih2 (H ha) (H ho)
  | arg ht hf hk hc h1 ha ho ih => exact .arg ht hf hk hc ih ha (H ho)
  | files ht hf hk hc h1 hi hu ho hr ha ih =>
    exact .files ht hf hk hc ih hi hu (H ho) (fun x hx => g.files _ (hr x hx)) fun h x hx => g.auto _ (ha h x hx)
  | cleanMap ht hf hk hc hl ho => exact .cleanMap ht hf hk hc hl (H ho)
  | cleanSeq ht hf hk hl ho => exact .cleanSeq ht hf hk hl (H ho)
  | command ht hf hk hc ha he h1 hs ho => exact .command ht hf hk hc ha he h1 hs (H ho)
  | commands ht hf hk hc ha he h1 hs hl hi ho =>
    exact .commands ht hf hk hc ha he h1 hs hl (fun i id sh h1 h2 => H (hi i id sh h1 h2)) (H ho)
  | name ht hk hv ho => exact .name ht hk hv (H ho)
  | top ht hk hv hq hd ho => exact .top ht hk hv hq hd (H ho)
  | foreign ht hk hv hq hd hh ho => exact .foreign ht hk hv hq hd (hh.trans g.hist) ho

/-- The new registrations are those of items of files that were read, or of items allowed by `A`. -/
structure Step (L : Lib) (A : Str → Node → Node → Prop) (s s' : St) : Prop where
  grow : Grow s s'
  cons : Consistent s → Consistent s'
  just : ∃ new, s'.hist = s.hist ++ new ∧
    ∀ e ∈ new, ∃ dir key val, (A dir key val ∨ FromFile L s' dir key val) ∧ Registers L s' dir key val e

theorem FromFile.mono {L : Lib} {s s' : St} (g : Grow s s') {d k v} (h : FromFile L s d k v) : FromFile L s' d k v := by
  obtain ⟨D, doc, h1, h2⟩ := h
  exact ⟨D, doc, g.reads.subset h1, h2⟩

theorem Registers.mono {L : Lib} {s s' : St} (g : Grow s s') {d k v e} (h : Registers L s d k v e) : Registers L s' d k v e :=
  ⟨h.1, h.2.1, h.2.2.mono g⟩

theorem Step.rfl {L A} {s : St} : Step L A s s := ⟨.rfl, fun h => h, [], by simp, by simp⟩

theorem Step.trans {L A} {s s' s'' : St} (h : Step L A s s') (h' : Step L A s' s'') : Step L A s s'' := by
  refine ⟨h.grow.trans h'.grow, fun hc => h'.cons (h.cons hc), ?_⟩
  obtain ⟨n, e, hn⟩ := h.just
  obtain ⟨n', e', hn'⟩ := h'.just
  refine ⟨n ++ n', by rw [e', e, List.append_assoc], ?_⟩
  intro x hx
  rcases List.mem_append.1 hx with hx | hx
  · obtain ⟨d, k, v, h1, h2⟩ := hn x hx
    refine ⟨d, k, v, ?_, h2.mono h'.grow⟩
    rcases h1 with h1 | h1
    · exact .inl h1
    · exact .inr (h1.mono h'.grow)
  · exact hn' x hx

theorem Step.weaken {L A B} {s s' : St} (hAB : ∀ d k v, A d k v → B d k v ∨ FromFile L s' d k v) (h : Step L A s s') : Step L B s s' := by
  refine ⟨h.grow, h.cons, ?_⟩
  obtain ⟨n, e, hn⟩ := h.just
  refine ⟨n, e, fun x hx => ?_⟩
  obtain ⟨d, k, v, h1, h2⟩ := hn x hx
  refine ⟨d, k, v, ?_, h2⟩
  rcases h1 with h1 | h1
  · exact hAB _ _ _ h1
  · exact .inr h1

/-- a state that differs only in the objects and the file registries -/
theorem Step.of_heap {L A} {s s' : St} (h1 : s.heap <+: s'.heap) (h2 : s'.reg = s.reg) (h3 : s'.hist = s.hist) (h4 : s.reads <+: s'.reads)
    (h5 : ∀ x, (s.filesReg.get x).isSome → (s'.filesReg.get x).isSome) (h6 : ∀ x ∈ s.autoclean, x ∈ s'.autoclean) : Step L A s s' :=
  ⟨⟨h1, by rw [h3]; exact List.prefix_rfl, h4, h5, h6⟩, by unfold Consistent; rw [h2, h3]; exact fun h => h, [], by simp [h3], by simp⟩

/-- The outcome `r` of a computation from `s`: only such steps were taken, and a result satisfies `P`. -/
def Ok {α : Type} (L : Lib) (A : Str → Node → Node → Prop) (s : St) (P : α → St → Prop) : R α → Prop
  | .ok a s' => Step L A s s' ∧ P a s'
  | .err _ s' => Step L A s s'
  | .more => True

theorem Ok.bind {α β : Type} {L A} {s : St} {P : α → St → Prop} {Q : β → St → Prop} {r : R α} {k : α → St → R β}
    (h : Ok L A s P r) (hk : ∀ a s', Step L A s s' → P a s' → Ok L A s' Q (k a s')) : Ok L A s Q (r.bind k) := by
  cases r with
  | ok a s' =>
    have := hk a s' h.1 h.2
    show Ok L A s Q (k a s')
    cases hr : k a s' with
    | ok b s'' => rw [hr] at this; exact ⟨h.1.trans this.1, this.2⟩
    | err e s'' => rw [hr] at this; exact h.1.trans this
    | more => trivial
  | err e s' => exact h
  | more => trivial

theorem Ok.lift {α : Type} {L A} {s : St} {P : α → St → Prop} {x : Except YErr α} (h : ∀ a, x = .ok a → P a s) :
    Ok L A s P (lift x s) := by
  cases x with
  | ok a => exact ⟨.rfl, h a rfl⟩
  | error e => exact Step.rfl

theorem Ok.alloc {L A} {s : St} {P : Nat → St → Prop} {o : Obj}
    (h : ∀ s', Grow s s' → s'.heap[s.heap.length]? = some o → P s.heap.length s') : Ok L A s P (alloc o s) := by
  have hs : Step L A s { s with heap := s.heap ++ [o] } :=
    Step.of_heap (by simp) rfl rfl List.prefix_rfl (fun _ h => h) fun _ h => h
  exact ⟨hs, h _ hs.grow (by simp)⟩

theorem Ok.err {α : Type} {L A} {s : St} {P : α → St → Prop} {e} : Ok L A s P (R.err e s) := Step.rfl

theorem Ok.post {α : Type} {L A} {s : St} {P Q : α → St → Prop} {r : R α} (h : Ok L A s P r) (hpq : ∀ a s', P a s' → Q a s') :
    Ok L A s Q r := by
  cases r with
  | ok a s' => exact ⟨h.1, hpq _ _ h.2⟩
  | err e s' => exact h
  | more => trivial

/-- `yt` makes targets that the nodes denote. -/
def OkT (L : Lib) (A : Str → Node → Node → Prop) (yt : Node → Str → St → R Nat) : Prop :=
  ∀ node dir s, Consistent s → Ok L A s (fun o s' => Denotes L s' node dir o) (yt node dir s)

theorem mapT_ok {L A} {yt : Node → Str → St → R Nat} (h : OkT L A yt) (dir : Str) (cs : List Node) (s : St) (hc : Consistent s) :
    Ok L A s (fun ids s' => ids.length = cs.length ∧ ∀ x ∈ cs.zip ids, Denotes L s' x.1 dir x.2) (mapT yt dir cs s) := by
  induction cs generalizing s with
  | nil => exact ⟨.rfl, rfl, by simp⟩
  | cons c cs ih =>
    refine Ok.bind (h c dir s hc) fun i s1 st1 h1 => ?_
    refine Ok.bind (ih s1 (st1.cons hc)) fun is s2 st2 h2 => ?_
    refine ⟨.rfl, by simp [h2.1], ?_⟩
    intro x hx
    rw [List.zip_cons_cons, List.mem_cons] at hx
    rcases hx with rfl | hx
    · exact h1.mono st2.grow
    · exact h2.2 x hx

theorem allocCmds_ok {L A} (mk : Str → Bool → Command) (first : Bool) (shs : List Str) (s : St) :
    Ok L A s (fun ids s' => ids.length = shs.length ∧ ∀ (i id : Nat) (sh : Str), ids[i]? = some id → shs[i]? = some sh →
      s'.heap[id]? = some (Obj.command (mk sh (!first || decide (0 < i))))) (allocCmds mk first shs s) := by
  induction shs generalizing first s with
  | nil => exact ⟨.rfl, rfl, by simp⟩
  | cons sh shs ih =>
    refine Ok.bind (P := fun i s' => s'.heap[i]? = some (Obj.command (mk sh (!first)))) (Ok.alloc fun s' _ h => h) fun i s1 st1 h1 => ?_
    refine Ok.bind (ih false s1) fun is s2 st2 h2 => ?_
    refine ⟨.rfl, by simp [h2.1], ?_⟩
    intro j id sh' hj hsh
    cases j with
    | zero =>
      simp only [List.getElem?_cons_zero, Option.some.injEq] at hj hsh
      subst hj hsh
      simpa using get_of_prefix st2.grow.heap h1
    | succ j =>
      simp only [List.getElem?_cons_succ] at hj hsh
      simpa using h2.2 j id sh' hj hsh

theorem commandDecoder_ok {L A} (node : Node) (dir : Str) (s : St) (ht : normalizeTag node.tag = "Command".toList)
    (hf : L.targetFn "Command".toList = none) : Ok L A s (fun o s' => Denotes L s' node dir o) (commandDecoder L node dir s) := by
  unfold commandDecoder
  split
  · exact Ok.err
  · rename_i hk
    have hk : node.kind = .mapping := not_not.1 hk
    refine Ok.bind (P := fun c s' => L.decCommand node = .ok c) (Ok.lift fun a h => h) fun c s1 _ hcd => ?_
    refine Ok.bind (P := fun a s' => StringList L dir c.args (.ok a)) (Ok.lift fun a h => (C41_string_list ..).1 h) fun args s2 _ ha => ?_
    refine Ok.bind (P := fun a s' => StringList L dir c.env (.ok a)) (Ok.lift fun a h => (C41_string_list ..).1 h) fun env s3 _ he => ?_
    have single (h1 : c.cmd = [] → StringList L dir c.shell (.error .badKind)) :
        Ok L A s3 (fun o s' => Denotes L s' node dir o)
          (match c.shell.kind with
          | .zero => alloc (Obj.command (toTarget L c [] dir args env false)) s3
          | .scalar => alloc (Obj.command (toTarget L c c.shell.value dir args env false)) s3
          | _ => .err .badKind s3) := by
      split
      · rename_i hz; exact Ok.alloc fun s' _ ho => .command ht hf hk hcd ha he h1 (.inl ⟨hz, rfl⟩) ho
      · rename_i hz; exact Ok.alloc fun s' _ ho => .command ht hf hk hcd ha he h1 (.inr ⟨hz, rfl⟩) ho
      · exact Ok.err
    dsimp only
    by_cases h0 : c.cmd = []
    · rw [if_pos h0]
      split
      · rename_i hb
        exact single fun _ => (C41_string_list ..).1 hb
      · exact Ok.err
      · rename_i strs hs
        refine Ok.bind (allocCmds_ok _ _ _ _) fun ids s4 _ h4 => ?_
        refine Ok.alloc fun s' g ho => .commands ht hf hk hcd ha he h0 ((C41_string_list ..).1 hs) h4.1 ?_ ho
        intro i id sh h1 h2
        simpa using get_of_prefix g.heap (h4.2 i id sh h1 h2)
    · rw [if_neg h0]; exact single fun h => absurd h h0

theorem foldl_put_isSome (outs : List Str) (id : Nat) (r : GoMap Str Nat) (x : Str) :
    ((outs.foldl (fun r o => r.put o id) r).get x).isSome ↔ x ∈ outs ∨ (r.get x).isSome := by
  induction outs generalizing r with
  | nil => simp
  | cons a outs ih =>
    rw [List.foldl_cons, ih, GoMap.get_put]
    by_cases h : a = x
    · simp [h]
    · simp [h, Ne.symm h]

theorem foldl_auto (outs : List Str) (r : List Str) (x : Str) :
    x ∈ outs.foldl (fun r f => if f ∈ r then r else r ++ [f]) r ↔ x ∈ outs ∨ x ∈ r := by
  induction outs generalizing r with
  | nil => simp
  | cons a outs ih =>
    rw [List.foldl_cons, ih]
    by_cases h : a ∈ r
    · rw [if_pos h, List.mem_cons]
      constructor
      · rintro (h | h); exacts [.inl (.inr h), .inr h]
      · rintro ((rfl | h) | h'); exacts [.inr h, .inl h, .inr h']
    · rw [if_neg h, List.mem_cons, List.mem_append, List.mem_singleton]
      tauto

theorem builtin_ok {L A} {yt : Node → Str → St → R Nat} (h : OkT L A yt) (node : Node) (dir : Str) (s : St) (hc : Consistent s)
    (hf : L.targetFn (normalizeTag node.tag) = none) :
    Ok L A s (fun o s' => Denotes L s' node dir o) (builtin L yt (normalizeTag node.tag) node dir s) := by
  unfold builtin
  split
  · rename_i ht
    rw [ht] at hf
    split
    · exact Ok.err
    · rename_i hk
      refine Ok.bind (mapT_ok h dir node.content s hc) fun ids s1 st1 h1 => ?_
      exact Ok.alloc fun s' g ho => .all ht hf (not_not.1 hk) h1.1 (fun x hx => (h1.2 x hx).mono g) ho
  split
  · rename_i ht
    rw [ht] at hf
    split
    · exact Ok.err
    · rename_i hk
      refine Ok.bind (mapT_ok h dir node.content s hc) fun ids s1 st1 h1 => ?_
      exact Ok.alloc fun s' g ho => .seq ht hf (not_not.1 hk) h1.1 (fun x hx => (h1.2 x hx).mono g) ho
  split
  · rename_i ht
    rw [ht] at hf
    split
    · rename_i hk
      split
      · exact Ok.err
      · rename_i t deps hcont
        refine Ok.bind (h t dir s hc) fun t' s1 st1 h1 => ?_
        refine Ok.bind (mapT_ok h dir deps s1 (st1.cons hc)) fun ids s2 st2 h2 => ?_
        refine Ok.bind (P := fun a s' => s'.heap[a]? = some (Obj.all ids)) (Ok.alloc fun s' _ h => h) fun a s3 st3 h3 => ?_
        exact Ok.alloc fun s' g ho => .depsSeq ht hf hk hcont (h1.mono (st2.grow.trans (st3.grow.trans g))) h2.1
          (fun x hx => (h2.2 x hx).mono (st3.grow.trans g)) (get_of_prefix g.heap h3) ho
    · rename_i hk
      refine Ok.bind (P := fun d s' => L.decDeps node = .ok d ∧ s' = s) (Ok.lift fun a h => ⟨h, rfl⟩) fun d s0 st0 hd => ?_
      obtain ⟨hd, rfl⟩ := hd
      refine Ok.bind (h d.2 dir s0 hc) fun t' s1 st1 h1 => ?_
      refine Ok.bind (mapT_ok h dir d.1 s1 (st1.cons hc)) fun ids s2 st2 h2 => ?_
      refine Ok.bind (P := fun a s' => s'.heap[a]? = some (Obj.all ids)) (Ok.alloc fun s' _ h => h) fun a s3 st3 h3 => ?_
      exact Ok.alloc fun s' g ho => .depsMap ht hf hk (by rw [hd]) (h1.mono (st2.grow.trans (st3.grow.trans g))) h2.1
        (fun x hx => (h2.2 x hx).mono (st3.grow.trans g)) (get_of_prefix g.heap h3) ho
    · exact Ok.err
  split
  · rename_i ht
    rw [ht] at hf
    split
    · exact Ok.err
    · rename_i hk
      split
      · exact Ok.err
      · rename_i t rest hcont
        refine Ok.bind (h t dir s hc) fun t' s1 st1 h1 => ?_
        refine Ok.bind (P := fun a s' => ListOf L dir rest (.ok a)) (Ok.lift fun a h => (C41_from_nodes ..).1 h) fun args s2 st2 h2 => ?_
        exact Ok.alloc fun s' g ho => .arg ht hf (not_not.1 hk) hcont (h1.mono (st2.grow.trans g)) h2 ho
  split
  · rename_i ht
    rw [ht] at hf
    split
    · exact Ok.err
    · rename_i hk
      refine Ok.bind (P := fun d s' => L.decFiles node = .ok d ∧ s' = s) (Ok.lift fun a h => ⟨h, rfl⟩) fun f s0 st0 hd => ?_
      obtain ⟨hd, rfl⟩ := hd
      refine Ok.bind (h f.target dir s0 hc) fun t' s1 st1 h1 => ?_
      have lists (n : Node) (l : List Str) (hl : fileList L n dir = .ok l) :
          ∃ ss, StringList L dir n (.ok ss) ∧ l = ss.map fun x => joinPath L.top [dir, x] := by
        unfold fileList at hl
        split at hl
        · cases hl
        · rename_i ss hss; injection hl with hl; exact ⟨ss, (C41_string_list ..).1 hss, hl.symm⟩
      refine Ok.bind (P := fun l s' => fileList L f.ins dir = .ok l) (Ok.lift fun a h => h) fun ins s2 st2 h2 => ?_
      refine Ok.bind (P := fun l s' => fileList L f.outs dir = .ok l) (Ok.lift fun a h => h) fun outs s3 st3 h3 => ?_
      obtain ⟨i', hi, rfl⟩ := lists _ _ h2
      obtain ⟨o', ho', rfl⟩ := lists _ _ h3
      have hstep : ∀ r, newFiles t' (i'.map fun x => joinPath L.top [dir, x]) (o'.map fun x => joinPath L.top [dir, x]) f.autoclean s3 =
          .ok s3.heap.length r → Step L A s3 r := by
        intro r hr
        unfold newFiles at hr
        injection hr with _ hr
        subst hr
        refine Step.of_heap (by simp) rfl rfl List.prefix_rfl ?_ ?_
        · intro x hx; exact (foldl_put_isSome _ _ _ _).2 (.inr hx)
        · intro x hx
          simp only
          split
          · exact (foldl_auto _ _ _).2 (.inr hx)
          · exact hx
      have g := hstep _ rfl
      refine ⟨g, .files ht hf (not_not.1 hk) hd (h1.mono (st2.grow.trans (st3.grow.trans g.grow))) hi ho' (by simp) ?_ ?_⟩
      · intro x hx
        exact (foldl_put_isSome _ _ _ _).2 (.inl (List.mem_map_of_mem hx))
      · intro hac x hx
        simp only [hac, if_true]
        exact (foldl_auto _ _ _).2 (.inl (List.mem_map_of_mem hx))
  split
  · rename_i ht
    rw [ht] at hf
    split
    · rename_i hk
      refine Ok.bind (P := fun d s' => L.decClean node = .ok d) (Ok.lift fun a h => h) fun d s0 st0 hd => ?_
      refine Ok.bind (P := fun l s' => fileList L d.1 dir = .ok l) (Ok.lift fun a h => h) fun l s1 st1 h1 => ?_
      unfold fileList at h1
      split at h1
      · cases h1
      · rename_i ss hss
        injection h1 with h1
        subst h1
        exact Ok.alloc fun s' g ho => .cleanMap (ac := d.2) ht hf hk (by rw [hd]) ((C41_string_list ..).1 hss) ho
    · rename_i hk
      refine Ok.bind (P := fun l s' => fileListFromNodes L node.content dir = .ok l) (Ok.lift fun a h => h) fun l s1 st1 h1 => ?_
      unfold fileListFromNodes at h1
      split at h1
      · cases h1
      · rename_i ss hss
        injection h1 with h1
        subst h1
        exact Ok.alloc fun s' g ho => .cleanSeq ht hf hk ((C41_from_nodes ..).1 hss) ho
    · exact Ok.err
  split
  · rename_i ht
    rw [ht] at hf
    exact commandDecoder_ok node dir s ht hf
  · exact Ok.err

/-- the registry and the registrations -/
theorem target_eq {s : St} (hc : Consistent s) (q : Str) :
    s.reg.target q = match lastAs q s.hist with
      | some (o, doc) => (some o, doc)
      | none => (none, []) := by
  rw [hc, Registry.Reg.target, Registry.byName_get]
  unfold lastAs Registry.lastReg
  rw [List.filterMap_map]
  simp only [Function.comp_def]
  have : s.hist.filterMap (fun x => some (x.1, x.2.1, x.2.2)) = s.hist := List.filterMap_some
  rw [this]
  cases ((s.hist.filter fun x => x.1 = q).getLast?) <;> rfl

theorem target_some {s : St} (hc : Consistent s) {q : Str} {o : Nat} (h : (s.reg.target q).1 = some o) :
    ∃ doc, lastAs q s.hist = some (o, doc) := by
  rw [target_eq hc] at h
  cases hl : lastAs q s.hist with
  | none => simp [hl] at h
  | some x => simp only [hl, Option.some.injEq] at h; exact ⟨x.2, by rw [← h]⟩

theorem reference_ok {L A} {rf : Str → St → R Unit} (hrf : ∀ d s, Consistent s → Ok L A s (fun _ _ => True) (rf d s)) (node : Node)
    (dir : Str) (s : St) (hc : Consistent s) (ht : normalizeTag node.tag = []) (hk : node.kind = .scalar) :
    Ok L A s (fun o s' => Denotes L s' node dir o) (reference L rf node.value dir s) := by
  unfold reference
  split
  · rename_i hv; exact Ok.alloc fun s' _ ho => .name ht hk hv ho
  · rename_i hv
    have hv := not_not.1 hv
    split
    · exact Ok.err
    · rename_i q hq
      split
      · rename_i hd; exact Ok.alloc fun s' _ ho => .top ht hk hv hq hd ho
      · rename_i hd
        split
        · rename_i o ho
          obtain ⟨doc, hl⟩ := target_some hc ho
          exact ⟨.rfl, .foreign ht hk hv hq hd List.prefix_rfl hl⟩
        · refine Ok.bind (hrf _ s hc) fun _ s1 st1 _ => ?_
          split
          · rename_i o ho
            obtain ⟨doc, hl⟩ := target_some (st1.cons hc) ho
            exact ⟨.rfl, .foreign ht hk hv hq hd List.prefix_rfl hl⟩
          · exact Ok.err

theorem targetStep_ok {L A} {yt : Node → Str → St → R Nat} {rf : Str → St → R Unit} (h : OkT L A yt)
    (hrf : ∀ d s, Consistent s → Ok L A s (fun _ _ => True) (rf d s)) : OkT L A (targetStep L yt rf) := by
  intro node dir s hc
  unfold targetStep
  dsimp only
  split
  · rename_i ht
    split
    · rename_i fn hf
      refine Ok.bind (P := fun n s' => fn node dir = .ok n) (Ok.lift fun a h => h) fun n s1 _ hn => ?_
      exact Ok.alloc fun s' _ ho => .ext ht hf hn ho
    · rename_i hf; exact builtin_ok h node dir s hc hf
  · rename_i ht
    split
    · exact Ok.err
    · rename_i hk; exact reference_ok hrf node dir s hc (not_not.1 ht) (not_not.1 hk)

theorem register_step {L A} {s : St} {dir : Str} {key val : Node} {o : Nat} (ha : A dir key val) (hd : Denotes L s val dir o) :
    Step L A s (register (join [dir, key.value]) (docOf key) o s) := by
  have g : Grow s (register (join [dir, key.value]) (docOf key) o s) :=
    ⟨List.prefix_rfl, by simp [register], List.prefix_rfl, fun _ h => h, fun _ h => h⟩
  refine ⟨g, ?_, [_], rfl, ?_⟩
  · intro hc
    unfold Consistent register at *
    simp only [List.map_append, List.map_cons, List.map_nil]
    rw [Registry.after_snoc, ← hc]
  · intro e he
    rw [List.mem_singleton] at he
    subst he
    exact ⟨dir, key, val, .inl ha, rfl, rfl, hd.mono g⟩

/-- what the loop over the keys and values establishes -/
structure Items (L : Lib) (dir : Str) (c : List Node) (s s' : St) : Prop where
  keys : ∀ e ∈ pairs c, e.1.kind = .scalar
  noSlash : ∀ e ∈ pairs c, e.1.value ≠ "_dir".toList → '/' ∉ e.1.value
  dirs : ∀ e ∈ pairs c, e.1.value = "_dir".toList → e.2.kind = .scalar ∧ e.2.value = dir
  regs : ∃ regs new, s'.hist = s.hist ++ new ∧ regs.Sublist new ∧
    regs.length = ((pairs c).filter fun e => e.1.value ≠ "_dir".toList).length ∧
    ∀ x ∈ ((pairs c).filter fun e => e.1.value ≠ "_dir".toList).zip regs, Registers L s' dir x.1.1 x.1.2 x.2

theorem readItems_ok {L A} {yt : Node → Str → St → R Nat} (h : OkT L A yt) (dir : Str) (n : Nat) (c : List Node) (hn : c.length ≤ n)
    (saw : Bool) (s : St) (hc : Consistent s) (hA : ∀ e ∈ pairs c, e.1.value ≠ "_dir".toList → A dir e.1 e.2) :
    Ok L A s (fun saw' s' => Items L dir c s s' ∧ (saw' = true ↔ saw = true ∨ ∃ e ∈ pairs c, e.1.value = "_dir".toList))
      (readItems yt dir c saw s) := by
  induction n generalizing c saw s with
  | zero =>
    cases c with
    | nil => exact ⟨.rfl, ⟨by simp [pairs], by simp [pairs], by simp [pairs], [], [], by simp, .slnil, by simp [pairs], by simp [pairs]⟩, by simp [pairs]⟩
    | cons => simp at hn
  | succ n ih =>
    match c, hn with
    | [], _ => exact ⟨.rfl, ⟨by simp [pairs], by simp [pairs], by simp [pairs], [], [], by simp, .slnil, by simp [pairs], by simp [pairs]⟩, by simp [pairs]⟩
    | [a], _ => exact ⟨.rfl, ⟨by simp [pairs], by simp [pairs], by simp [pairs], [], [], by simp, .slnil, by simp [pairs], by simp [pairs]⟩, by simp [pairs]⟩
    | key :: val :: rest, hn =>
      simp only [List.length_cons] at hn
      have hp : pairs (key :: val :: rest) = (key, val) :: pairs rest := rfl
      rw [readItems, hp]
      split
      · exact Ok.err
      · rename_i hk
        have hk := not_not.1 hk
        split
        · rename_i hd
          split
          · exact Ok.err
          · rename_i hvk
            split
            · exact Ok.err
            · rename_i hv
              refine (ih rest (by omega) true s hc fun e he => hA e (by rw [hp]; exact List.mem_cons_of_mem _ he)).post ?_
              rintro a s' ⟨⟨h1, h2, h3, h4⟩, h5⟩
              have hf : ((key, val) :: pairs rest).filter (fun e => e.1.value ≠ "_dir".toList) =
                  (pairs rest).filter fun e => e.1.value ≠ "_dir".toList :=
                List.filter_cons_of_neg (by rw [decide_eq_true_eq]; exact not_not.2 hd)
              refine ⟨⟨?_, ?_, ?_, by rw [hp, hf]; exact h4⟩, ?_⟩
              · rw [hp]; intro e he; rcases List.mem_cons.1 he with rfl | he; exacts [hk, h1 e he]
              · rw [hp]; intro e he; rcases List.mem_cons.1 he with rfl | he; exacts [fun hne => absurd hd hne, h2 e he]
              · rw [hp]; intro e he; rcases List.mem_cons.1 he with rfl | he; exacts [fun _ => ⟨not_not.1 hvk, not_not.1 hv⟩, h3 e he]
              · rw [h5]
                simp only [true_or, true_iff]
                exact .inr ⟨_, List.mem_cons_self, hd⟩
        · rename_i hd
          split
          · exact Ok.err
          · rename_i hsl
            refine Ok.bind (h val dir s hc) fun o s1 st1 h1 => ?_
            have hreg : Step L A s1 (register (join [dir, key.value]) (docOf key) o s1) :=
              register_step (hA (key, val) (by rw [hp]; exact List.mem_cons_self) hd) h1
            have := ih rest (by omega) saw _ (hreg.cons (st1.cons hc)) fun e he => hA e (by rw [hp]; exact List.mem_cons_of_mem _ he)
            cases hr : readItems yt dir rest saw (register (join [dir, key.value]) (docOf key) o s1) with
            | more => trivial
            | err e s2 => rw [hr] at this; exact hreg.trans this
            | ok a s2 =>
              rw [hr] at this
              obtain ⟨st2, ⟨g1, g2, g3, regs, new, g4, g5, g6, g7⟩, g8⟩ := this
              obtain ⟨new1, e1, -⟩ := st1.just
              have hf : ((key, val) :: pairs rest).filter (fun e => e.1.value ≠ "_dir".toList) =
                  (key, val) :: (pairs rest).filter fun e => e.1.value ≠ "_dir".toList :=
                List.filter_cons_of_pos (by rw [decide_eq_true_eq]; exact hd)
              refine ⟨hreg.trans st2, ⟨?_, ?_, ?_, (join [dir, key.value], docOf key, o) :: regs, new1 ++ (join [dir, key.value], docOf key, o) :: new,
                ?_, ?_, ?_, ?_⟩, ?_⟩
              · rw [hp]; intro e he; rcases List.mem_cons.1 he with rfl | he; exacts [hk, g1 e he]
              · rw [hp]; intro e he; rcases List.mem_cons.1 he with rfl | he; exacts [fun _ => hsl, g2 e he]
              · rw [hp]; intro e he; rcases List.mem_cons.1 he with rfl | he; exacts [fun hh => absurd hh hd, g3 e he]
              · rw [g4]; simp only [register]; rw [e1]; simp
              · exact (List.Sublist.cons_cons _ g5).trans (List.sublist_append_right _ _)
              · rw [hp, hf]; simp only [List.length_cons]; rw [g6]
              · rw [hp, hf]
                intro x hx
                rw [List.zip_cons_cons, List.mem_cons] at hx
                rcases hx with rfl | hx
                · exact ⟨rfl, rfl, (h1.mono hreg.grow).mono st2.grow⟩
                · exact g7 x hx
              · rw [g8]
                constructor
                · rintro (hh | ⟨e, he, hh⟩)
                  · exact .inl hh
                  · exact .inr ⟨e, List.mem_cons_of_mem _ he, hh⟩
                · rintro (hh | ⟨e, he, hh⟩)
                  · exact .inl hh
                  · rcases List.mem_cons.1 he with rfl | he
                    · exact absurd hh hd
                    · exact .inr ⟨e, he, hh⟩

/-- what reading a document establishes -/
structure DocRead (L : Lib) (doc : Node) (dir : Str) (s s' : St) : Prop where
  wf : WellFormed doc dir
  regs : ∃ regs new, s'.hist = s.hist ++ new ∧ regs.Sublist new ∧ regs.length = (items doc).length ∧
    ∀ x ∈ (items doc).zip regs, Registers L s' dir x.1.1 x.1.2 x.2

theorem entries_eq {doc m : Node} (hd : doc.kind = .document) (hc : doc.content = [m]) (hm : m.kind = .mapping) :
    entries doc = pairs m.content := by
  cases doc with
  | mk k t v h l c =>
    simp only [Node.kind, Node.content] at hd hc
    subst hd hc
    cases m with
    | mk k t v h l c =>
      simp only [Node.kind] at hm
      subst hm
      rfl

theorem readDoc_ok {L A} {yt : Node → Str → St → R Nat} (h : OkT L A yt) (doc : Option Node) (dir : Str) (s : St) (hc : Consistent s)
    (hA : ∀ d, doc = some d → ∀ e ∈ items d, A dir e.1 e.2) :
    Ok L A s (fun _ s' => ∃ d, doc = some d ∧ DocRead L d dir s s') (readDoc yt doc dir s) := by
  unfold readDoc
  split
  · exact Ok.err
  · rename_i d
    split
    · exact Ok.err
    · rename_i hk
      have hk := not_not.1 hk
      split
      · rename_i m hm
        split
        · exact Ok.err
        · rename_i hmk
          have hmk := not_not.1 hmk
          have he := entries_eq hk hm hmk
          split
          · exact Ok.err
          · rename_i hev
            refine Ok.bind (P := fun saw s' => Items L dir m.content s s' ∧ (saw = true ↔ ∃ e ∈ pairs m.content, e.1.value = "_dir".toList))
              ((readItems_ok h dir _ m.content (Nat.le_refl _) false s hc ?_).post ?_) ?_
            · intro e hem hne
              refine hA d rfl e ?_
              rw [items, he]
              exact List.mem_filter.2 ⟨hem, by rw [decide_eq_true_eq]; exact hne⟩
            · rintro a s' ⟨h1, h2⟩
              exact ⟨h1, by rw [h2]; simp⟩
            · rintro saw s1 st1 ⟨⟨g1, g2, g3, g4⟩, g5⟩
              split
              · exact Ok.err
              · rename_i hnd
                refine ⟨.rfl, d, rfl, ⟨hk, ⟨m, hm, hmk, not_not.1 hev⟩, ?_, ?_, ?_, ?_⟩, ?_⟩
                · rw [he]; exact g1
                · intro e hei
                  rw [items, he, List.mem_filter, decide_eq_true_eq] at hei
                  exact g2 e hei.1 hei.2
                · rw [he]; exact g3
                · intro hdir
                  rw [he]
                  apply g5.1
                  by_contra hs
                  exact hnd ⟨hdir, by simpa using hs⟩
                · unfold items; rw [he]; exact g4
      · exact Ok.err

/-- no items of other sources -/
def nothing : Str → Node → Node → Prop := fun _ _ _ => False

theorem relDir_eq {L : Lib} {D r : Str} (h : relPath L.top D = some r) : relDir L D = some (if r = dot then [] else r) := by
  rw [relDir, h]; rfl

/-- Steps that use items of the file `D` -/
theorem fileStep_ok {L : Lib} {yt : Node → Str → St → R Nat} (h : ∀ A, OkT L A yt) (dir : Str) (s : St) (hc : Consistent s) :
    Ok L nothing s (fun _ s' => ∃ d doc, L.file (join [L.top, dir]) = .doc (some doc) ∧ relDir L (join [L.top, dir]) = some d ∧
      DocRead L doc d s s') (fileStep L yt dir s) := by
  unfold fileStep
  dsimp only
  have h0 : ∀ A, Step L A s { s with reads := s.reads ++ [join [L.top, dir]] } := fun A =>
    Step.of_heap List.prefix_rfl rfl rfl (by simp) (fun _ h => h) fun _ h => h
  split
  · exact h0 _
  · exact h0 _
  · rename_i doc hdoc
    split
    · exact h0 _
    · rename_i r hr
      have := readDoc_ok (A := fun d k v => ∃ x, doc = some x ∧ d = (if r = dot then [] else r) ∧ (k, v) ∈ items x) (h _) doc (if r = dot then [] else r)
        { s with reads := s.reads ++ [join [L.top, dir]] } ((h0 nothing).cons hc) (fun d hd e he => ⟨d, hd, rfl, he⟩)
      have hw : ∀ s', Step L (fun d k v => ∃ x, doc = some x ∧ d = (if r = dot then [] else r) ∧ (k, v) ∈ items x)
          { s with reads := s.reads ++ [join [L.top, dir]] } s' → Step L nothing s s' := by
        intro s' st
        refine (h0 _).trans (st.weaken ?_)
        rintro d k v ⟨x, hx, rfl, hm⟩
        refine .inr ⟨join [L.top, dir], x, st.grow.reads.subset (by simp), ⟨dir, rfl⟩, by rw [hdoc, hx], relDir_eq hr, hm⟩
      generalize hres : readDoc yt doc (if r = dot then [] else r) { s with reads := s.reads ++ [join [L.top, dir]] } = res at this ⊢
      cases res with
      | more => trivial
      | err e s' => exact hw s' this
      | ok a s' =>
        obtain ⟨st, d, hd, wf, regs⟩ := this
        exact ⟨hw s' st, _, d, by rw [hdoc, hd], relDir_eq hr, wf, regs⟩

theorem Ok.any {α : Type} {L : Lib} {A : Str → Node → Node → Prop} {s : St} {P : α → St → Prop} {r : R α} (h : Ok L nothing s P r) :
    Ok L A s P r := by
  cases r with
  | ok a s' => exact ⟨h.1.weaken (fun _ _ _ h => h.elim), h.2⟩
  | err e s' => exact Step.weaken (fun _ _ _ h => h.elim) h
  | more => trivial

theorem yaml_ok (L : Lib) (n : Nat) : (∀ A, OkT L A (yamlTarget L n)) ∧
    ∀ dir s, Consistent s → Ok L nothing s (fun _ s' => ∃ d doc, L.file (join [L.top, dir]) = .doc (some doc) ∧
      relDir L (join [L.top, dir]) = some d ∧ DocRead L doc d s s') (readYAMLFile L n dir s) := by
  induction n with
  | zero =>
    constructor
    · intro A node dir s _; rw [yamlTarget]; trivial
    · intro dir s _; rw [readYAMLFile]; trivial
  | succ n ih =>
    constructor
    · intro A
      rw [yamlTarget]
      exact targetStep_ok (ih.1 A) fun d s hc => ((ih.2 d s hc).any).post fun _ _ _ => trivial
    · intro dir s hc
      rw [readYAMLFile]
      exact fileStep_ok ih.1 dir s hc

/-! ## C42 -/

/-- **C42.** If `ReadYAML` of a document for the directory `dir` succeeds, then the document is well formed: one mapping with scalar
keys, no slashes in the names of targets, every _dir declaration names this directory, and there is one unless it is the top
directory. -/
theorem C42_rejects (L : Lib) (n : Nat) (doc : Option Node) (dir : Str) (s s' : St) (hs : Consistent s)
    (h : readYAML L n doc dir s = .ok () s') : ∃ d, doc = some d ∧ WellFormed d dir := by
  have := readDoc_ok (A := fun _ _ _ => True) ((yaml_ok L n).1 _) doc dir s hs (fun _ _ _ _ => trivial)
  rw [readYAML] at h
  rw [h] at this
  obtain ⟨-, d, hd, hr⟩ := this
  exact ⟨d, hd, hr.wf⟩

/-- **C42.** ... and the targets of the document, all of them, were registered in the order of the document: the `i`th under the
cleaned `dir/name`, with its comment, and it is the target that the document describes there. -/
theorem C42_registers (L : Lib) (n : Nat) (d : Node) (dir : Str) (s s' : St) (hs : Consistent s)
    (h : readYAML L n (some d) dir s = .ok () s') :
    ∃ regs new, s'.hist = s.hist ++ new ∧ regs.Sublist new ∧ regs.length = (items d).length ∧
      ∀ x ∈ (items d).zip regs, Registers L s' dir x.1.1 x.1.2 x.2 := by
  have := readDoc_ok (A := fun _ _ _ => True) ((yaml_ok L n).1 _) (some d) dir s hs (fun _ _ _ _ => trivial)
  rw [readYAML] at h
  rw [h] at this
  obtain ⟨-, d', hd, hr⟩ := this
  injection hd with hd
  subst hd
  exact hr.regs

/-- **C42.** ... and nothing else was registered than targets of the document and of YAML files that were read because of references
to them, each under the name, and with the comment, that it has there. -/
theorem C42_nothing_else (L : Lib) (n : Nat) (d : Node) (dir : Str) (s : St) (hs : Consistent s) (e : YErr) (s' : St)
    (h : readYAML L n (some d) dir s = .ok () s' ∨ readYAML L n (some d) dir s = .err e s') :
    ∃ new, s'.hist = s.hist ++ new ∧ ∀ r ∈ new, ∃ dir' key val,
      ((dir' = dir ∧ (key, val) ∈ items d) ∨ FromFile L s' dir' key val) ∧ Registers L s' dir' key val r := by
  have := readDoc_ok (A := fun dir' key val => dir' = dir ∧ (key, val) ∈ items d) ((yaml_ok L n).1 _) (some d) dir s hs
    (fun d' hd e he => by injection hd with hd; subst hd; exact ⟨rfl, he⟩)
  rw [readYAML] at h
  rcases h with h | h
  · rw [h] at this; exact this.1.just
  · rw [h] at this; exact this.just

/-- **C42, the comments.** The comment of a target is the comment before its key, or else the one after it on its line, without the
leading number signs and spaces. -/
theorem C42_comment (key : Node) : ∃ comment pre, comment = pre ++ docOf key ∧ (∀ c ∈ pre, c = '#' ∨ c = ' ') ∧
    (∀ c, (docOf key).head? = some c → c ≠ '#' ∧ c ≠ ' ') ∧
    (key.head ≠ [] → comment = key.head) ∧ (key.head = [] → comment = key.line) := by
  refine ⟨if key.head = [] then key.line else key.head, (if key.head = [] then key.line else key.head).takeWhile fun c => c = '#' || c = ' ',
    (List.takeWhile_append_dropWhile ..).symm, ?_, ?_, fun h => if_neg h, fun h => if_pos h⟩
  · intro c hc
    have := List.all_eq_true.1 (List.all_takeWhile (p := fun c => c = '#' || c = ' ')) c hc
    simpa using this
  · intro c hc
    have := List.head?_dropWhile_not (fun c => c = '#' || c = ' ') (if key.head = [] then key.line else key.head)
    unfold docOf at hc
    rw [hc] at this
    simpa using this

/-- **C42, the registry.** The registry always is what the registrations made of it: under a name it has the target and the comment
of the last registration under that name. -/
theorem C42_consistent (L : Lib) (n : Nat) (doc : Option Node) (dir : Str) (s : St) (hs : Consistent s) :
    match readYAML L n doc dir s with
    | .ok _ s' => Consistent s'
    | .err _ s' => Consistent s'
    | .more => True := by
  have := readDoc_ok (A := fun _ _ _ => True) ((yaml_ok L n).1 _) doc dir s hs (fun _ _ _ _ => trivial)
  rw [readYAML]
  cases h : readDoc (yamlTarget L n) doc dir s with
  | ok a s' => rw [h] at this; exact this.1.cons hs
  | err e s' => rw [h] at this; exact this.cons hs
  | more => trivial

theorem lastAs_append {q : Str} {h new : List (Str × Str × Nat)} {P : Nat → Str → Prop} (hex : ∃ e ∈ new, e.1 = q)
    (hall : ∀ e ∈ new, e.1 = q → P e.2.2 e.2.1) : ∃ o doc, lastAs q (h ++ new) = some (o, doc) ∧ P o doc := by
  unfold lastAs
  rw [List.filter_append]
  have hne : new.filter (fun x => x.1 = q) ≠ [] := by
    obtain ⟨e, he, hq⟩ := hex
    intro hnil
    have : e ∈ new.filter (fun x => x.1 = q) := List.mem_filter.2 ⟨he, by simpa using hq⟩
    rw [hnil] at this
    cases this
  rw [List.getLast?_append_of_ne_nil _ hne]
  obtain ⟨x, hx⟩ := Option.isSome_iff_exists.1 (List.getLast?_isSome.2 hne)
  have hm := List.mem_of_getLast? hx
  rw [List.mem_filter, decide_eq_true_eq] at hm
  exact ⟨x.2.2, x.2.1, by rw [hx]; rfl, hall x hm.1 hm.2⟩

theorem zip_right {α β : Type} {l : List α} {r : List β} (h : r.length = l.length) {a : α} (ha : a ∈ l) : ∃ b ∈ r, (a, b) ∈ l.zip r := by
  induction l generalizing r with
  | nil => cases ha
  | cons x l ih =>
    cases r with
    | nil => simp at h
    | cons y r =>
      rcases List.mem_cons.1 ha with rfl | ha
      · exact ⟨y, List.mem_cons_self, by simp⟩
      · obtain ⟨b, hb, hz⟩ := ih (by simpa using h) ha
        exact ⟨b, List.mem_cons_of_mem _ hb, by rw [List.zip_cons_cons]; exact List.mem_cons_of_mem _ hz⟩

/-- **C42, afterwards.** If `ReadYAML` succeeds then afterwards, for every target of the document whose name is not also that of a
different target (in the document itself or in another YAML file), `RegistryTarget` of the cleaned `dir/name` returns a target that
the document describes there, and its comment. -/
theorem C42_registered (L : Lib) (n : Nat) (d : Node) (dir : Str) (s s' : St) (hs : Consistent s)
    (h : readYAML L n (some d) dir s = .ok () s') (key val : Node) (hm : (key, val) ∈ items d)
    (hu : ∀ dir' key' val', (dir' = dir ∧ (key', val') ∈ items d) ∨ FromFile L s' dir' key' val' →
      join [dir', key'.value] = join [dir, key.value] → dir' = dir ∧ val' = val ∧ docOf key' = docOf key) :
    ∃ o, s'.reg.target (join [dir, key.value]) = (some o, docOf key) ∧ Denotes L s' val dir o := by
  obtain ⟨regs, new, hn, hsub, hl, hz⟩ := C42_registers L n d dir s s' hs h
  obtain ⟨new', hn', hj⟩ := C42_nothing_else L n d dir s hs .yaml s' (.inl h)
  have : new' = new := List.append_cancel_left (hn'.symm.trans hn)
  subst this
  obtain ⟨r, hr, hrz⟩ := zip_right hl hm
  have hreg := hz _ hrz
  obtain ⟨o, doc, ho, hP, hQ⟩ := lastAs_append (q := join [dir, key.value]) (h := s.hist) (new := new')
    (P := fun o doc => doc = docOf key ∧ Denotes L s' val dir o)
    ⟨r, hsub.subset hr, hreg.1⟩ (by
      intro e he hq
      obtain ⟨dir', key', val', hsrc, h1, h2, h3⟩ := hj e he
      obtain ⟨rfl, rfl, hdoc⟩ := hu dir' key' val' hsrc (h1.symm.trans hq)
      exact ⟨h2.trans hdoc, h3⟩)
  have hc := C42_consistent L n (some d) dir s hs
  rw [h] at hc
  rw [← hn] at ho
  refine ⟨o, ?_, hQ⟩
  rw [target_eq hc, ho, hP]

/-! ## C42, whole files -/

/-- An ordinary name: one element of a path, not "." or "..". -/
def Ordinary (k : Str) : Prop := Elem k ∧ k ≠ dotdot

theorem foldl_normC_false (B st : List Str) : (normC false B).foldl (push true) st = B.foldl (push true) st := by
  induction B using Registry.snoc_ind with
  | h0 => rfl
  | h1 B c ih =>
    rw [List.foldl_append, List.foldl_cons, List.foldl_nil, ← ih]
    unfold normC
    rw [List.foldl_append, List.foldl_cons, List.foldl_nil]
    generalize B.foldl (push false) [] = F
    by_cases hc : c = dotdot
    · subst hc
      cases F with
      | nil => rfl
      | cons x F =>
        by_cases hx : x = dotdot
        · subst hx
          have : push false (dotdot :: F) dotdot = dotdot :: dotdot :: F := by simp [push]
          rw [this, List.reverse_cons (a := dotdot) (as := dotdot :: F), List.foldl_append]
          rfl
        · have : push false (x :: F) dotdot = F := by simp [push, hx]
          rw [this, List.reverse_cons, List.foldl_append, List.foldl_cons, List.foldl_nil]
          have h2 : push true (F.reverse.foldl (push true) st) x = x :: F.reverse.foldl (push true) st := by simp [push, hx]
          rw [h2]
          simp [push, hx]
    · have : ∀ r X, push r X c = c :: X := by intro r X; simp [push, hc]
      rw [this, this, List.reverse_cons, List.foldl_append, List.foldl_cons, List.foldl_nil, this]

theorem comps_join2 {d k : Str} (hd : isAbs d = false) (hk : Ordinary k) :
    comps (join [d, k]) = normC false (comps d ++ [k]) := by
  by_cases h : d = []
  · subst h
    have : join [[], k] = clean k := by
      unfold join
      rw [List.dropWhile_cons_of_pos (by simp), List.dropWhile_cons_of_neg (by simpa using hk.1.1)]
      rfl
    rw [this, comps_clean, hk.1.not_abs, comps_single hk.1, comps_nil]
    rfl
  · rw [join_eq h, hd, comps_render]
    · simp [comps_single hk.1]
    · apply normC_elem
      intro x hx
      rcases List.mem_append.1 hx with hx | hx
      · exact comps_elem d x hx
      · obtain ⟨e, -, he⟩ := List.mem_flatMap.1 hx; exact comps_elem e x he

theorem relDir_join {L : Lib} (ht : isAbs L.top = true) (x d : Str) (hd : relDir L (join [L.top, x]) = some d) :
    isAbs d = false ∧ join [L.top, d] = join [L.top, x] := by
  have hD : isAbs (join [L.top, x]) = true := join_abs ht [x]
  obtain ⟨r, hr, hra, hj⟩ := C20_join_rel L.top (join [L.top, x]) ht hD
  have hcl : clean (join [L.top, x]) = join [L.top, x] := by
    rcases join_clean [L.top, x] with h | h
    · rw [h] at hD; cases hD
    · exact h
  rw [hcl, C19_relative L.top [r] (by simpa using hra)] at hj
  rw [relDir_eq hr] at hd
  injection hd with hd
  by_cases h : r = dot
  · rw [if_pos h] at hd
    subst hd
    refine ⟨rfl, ?_⟩
    rw [← hj, h, join_eq (isAbs_ne_nil ht), join_eq (isAbs_ne_nil ht)]
    rfl
  · rw [if_neg h] at hd
    subst hd
    exact ⟨hra, hj⟩

/-- The qualified name of a target determines the directory of its YAML file and its name there. -/
theorem qualified_inj {L : Lib} (ht : isAbs L.top = true) {x x' d d' k k' : Str} (hk : Ordinary k) (hk' : Ordinary k')
    (hd : relDir L (join [L.top, x]) = some d) (hd' : relDir L (join [L.top, x']) = some d') (h : join [d, k] = join [d', k']) :
    join [L.top, x] = join [L.top, x'] ∧ d = d' ∧ k = k' := by
  have key : ∀ {x d k : Str}, Ordinary k → relDir L (join [L.top, x]) = some d →
      normC true (comps L.top ++ comps (join [d, k])) = comps (join [L.top, x]) ++ [k] := by
    intro x d k hk hd
    obtain ⟨ha, hj⟩ := relDir_join ht x d hd
    rw [comps_join2 ha hk]
    unfold normC
    rw [List.foldl_append, show ((comps d ++ [k]).foldl (push false) []).reverse = normC false (comps d ++ [k]) from rfl,
      foldl_normC_false, ← List.foldl_append, ← List.append_assoc, List.foldl_append]
    rw [← hj, join_eq (isAbs_ne_nil ht), ht, comps_render]
    · simp only [List.foldl_cons, List.foldl_nil, List.flatMap_cons, List.flatMap_nil, List.append_nil]
      unfold normC
      rw [show ∀ X, push true X k = k :: X from fun X => by simp [push, hk.2], List.reverse_cons]
    · apply normC_elem
      intro y hy
      rcases List.mem_append.1 hy with hy | hy
      · exact comps_elem _ y hy
      · obtain ⟨e, -, he⟩ := List.mem_flatMap.1 hy; exact comps_elem e y he
  have h1 := key hk hd
  have h2 := key hk' hd'
  rw [h] at h1
  have h3 := h1.symm.trans h2
  obtain ⟨h4, h5⟩ := List.append_inj' h3 rfl
  have hD : join [L.top, x] = join [L.top, x'] := by
    have hcl : ∀ y, join [L.top, y] = render true (comps (join [L.top, y])) := by
      intro y
      rw [join_eq (isAbs_ne_nil ht), ht, comps_render]
      apply normC_elem
      intro z hz
      rcases List.mem_append.1 hz with hz | hz
      · exact comps_elem _ z hz
      · obtain ⟨e, -, he⟩ := List.mem_flatMap.1 hz; exact comps_elem e z he
    rw [hcl x, hcl x', h4]
  refine ⟨hD, ?_, by simpa using h5⟩
  rw [hD, hd'] at hd
  injection hd with hd
  exact hd.symm

/-- **C42, files.** If `ReadYAMLFile` succeeds, then there is a YAML file in the directory and it is well formed for the name of the
directory relative to the top directory; and if, in all YAML files, the names of the targets are ordinary names and distinct within a
file, then for every target in the file, `RegistryTarget` of `dir/name` returns a target that the file describes there and its
comment. -/
theorem C42_file (L : Lib) (ht : isAbs L.top = true) (n : Nat) (dir : Str) (s s' : St) (hs : Consistent s)
    (h : readYAMLFile L n dir s = .ok () s') :
    ∃ doc d, L.file (join [L.top, dir]) = .doc (some doc) ∧ relDir L (join [L.top, dir]) = some d ∧ WellFormed doc d ∧
      ((∀ D doc, L.file D = .doc (some doc) → ((items doc).map fun e => e.1.value).Nodup ∧ ∀ e ∈ items doc, Ordinary e.1.value) →
        ∀ e ∈ items doc, ∃ o, s'.reg.target (join [d, e.1.value]) = (some o, docOf e.1) ∧ Denotes L s' e.2 d o) := by
  have := (yaml_ok L n).2 dir s hs
  rw [h] at this
  obtain ⟨st, d, doc, hf, hd, wf, regs, new, hn, hsub, hl, hz⟩ := this
  refine ⟨doc, d, hf, hd, wf, fun hnames e hm => ?_⟩
  obtain ⟨new', hn', hj⟩ := st.just
  have : new' = new := List.append_cancel_left (hn'.symm.trans hn)
  subst this
  obtain ⟨r, hr, hrz⟩ := zip_right hl hm
  have hreg := hz _ hrz
  obtain ⟨hnd, hord⟩ := hnames _ _ hf
  obtain ⟨o, dc, ho, hP, hQ⟩ := lastAs_append (q := join [d, e.1.value]) (h := s.hist) (new := new')
    (P := fun o dc => dc = docOf e.1 ∧ Denotes L s' e.2 d o)
    ⟨r, hsub.subset hr, hreg.1⟩ (by
      intro e' he' hq
      obtain ⟨dir', key', val', hsrc, h1, h2, h3⟩ := hj e' he'
      rcases hsrc with hsrc | ⟨D', doc', -, ⟨x', rfl⟩, hf', hd', hm'⟩
      · exact hsrc.elim
      obtain ⟨hD, hdd, hkk⟩ := qualified_inj ht ((hnames _ _ hf').2 _ hm') (hord _ hm) hd' hd (h1.symm.trans hq)
      rw [hD, hf] at hf'
      injection hf' with hf'
      injection hf' with hf'
      subst hf' hdd
      have : (key', val') = e := by
        have := List.inj_on_of_nodup_map hnd hm' hm hkk
        exact this
      subst this
      exact ⟨h2, h3⟩)
  have hc := st.cons hs
  rw [← hn] at ho
  refine ⟨o, ?_, hQ⟩
  rw [target_eq hc, ho, hP]

end Fab.Yaml
