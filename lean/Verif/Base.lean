import Mathlib.Data.List.Sort
import Mathlib.Data.List.Lex
import Mathlib.Data.Char

/-!
# Shared basics: Go strings and Go maps

A Go string is modelled as a list of characters (strings that are not valid UTF-8 are not modelled).  The order used by
`sort.Strings` is the lexicographic order; on valid UTF-8 the order of bytes and the order of characters agree.
-/

namespace Fab

abbrev Str := List Char

/-- `sort.Strings` -/
def sortStrs (l : List Str) : List Str := l.insertionSort (· ≤ ·)

theorem sortStrs_perm (l : List Str) : (sortStrs l).Perm l := List.perm_insertionSort _ _

theorem sortStrs_sorted (l : List Str) : (sortStrs l).Pairwise (· ≤ ·) :=
  List.pairwise_insertionSort _ _

theorem mem_sortStrs {l : List Str} {x : Str} : x ∈ sortStrs l ↔ x ∈ l := (sortStrs_perm l).mem_iff

/-- Two sorted lists with the same elements (with multiplicity) are equal. -/
theorem sorted_perm_eq {l m : List Str} (hp : l.Perm m) (hl : l.Pairwise (· ≤ ·)) (hm : m.Pairwise (· ≤ ·)) : l = m :=
  hp.eq_of_pairwise (fun _ _ _ _ h1 h2 => le_antisymm h1 h2) hl hm

theorem sortStrs_congr {l m : List Str} (hp : l.Perm m) : sortStrs l = sortStrs m :=
  sorted_perm_eq ((sortStrs_perm l).trans (hp.trans (sortStrs_perm m).symm)) (sortStrs_sorted l) (sortStrs_sorted m)

theorem sortStrs_of_sorted {l : List Str} (h : l.Pairwise (· ≤ ·)) : sortStrs l = l :=
  sorted_perm_eq (sortStrs_perm l) (sortStrs_sorted l) h

theorem sortStrs_nodup {l : List Str} (h : l.Nodup) : (sortStrs l).Pairwise (· < ·) := by
  have h1 := sortStrs_sorted l
  have h2 : (sortStrs l).Nodup := (sortStrs_perm l).nodup_iff.2 h
  exact (h1.and h2).imp (fun h => lt_of_le_of_ne h.1 h.2)

/-- A Go map, as the list of its entries. -/
abbrev GoMap (K V : Type) := List (K × V)

namespace GoMap
variable {K V : Type} [DecidableEq K]

/-- `m[k]` -/
def get (m : GoMap K V) (k : K) : Option V := (m.find? (fun e => decide (e.1 = k))).map (·.2)

/-- `m[k] = v` -/
def put (m : GoMap K V) (k : K) (v : V) : GoMap K V := (k, v) :: m.filter (fun e => decide (e.1 ≠ k))

/-- `maps.Keys(m)`, in some order -/
def keys (m : GoMap K V) : List K := m.map (·.1)

theorem get_put (m : GoMap K V) (k k' : K) (v : V) : (m.put k v).get k' = if k = k' then some v else m.get k' := by
  unfold get put
  by_cases h : k = k'
  · simp [h]
  · simp only [List.find?_cons, h, decide_false, if_false]
    congr 1
    rw [List.find?_filter]
    congr 1
    funext e
    by_cases h1 : e.1 = k'
    · have : e.1 ≠ k := by rw [h1]; exact fun h2 => h h2.symm
      simp [h1, Ne.symm h]
    · simp [h1]

theorem mem_keys_iff (m : GoMap K V) (k : K) : k ∈ m.keys ↔ ∃ v, m.get k = some v := by
  unfold keys get
  constructor
  · intro h
    obtain ⟨e, he, rfl⟩ := List.mem_map.1 h
    have : (m.find? (fun e' => decide (e'.1 = e.1))).isSome := by
      rw [List.find?_isSome]; exact ⟨e, he, by simp⟩
    obtain ⟨e', he'⟩ := Option.isSome_iff_exists.1 this
    exact ⟨e'.2, by rw [he']; rfl⟩
  · rintro ⟨v, hv⟩
    obtain ⟨e, he, -⟩ := Option.map_eq_some_iff.1 hv
    have h1 := List.find?_some he
    simp only [decide_eq_true_eq] at h1
    exact List.mem_map.2 ⟨e, List.mem_of_find?_eq_some he, h1⟩

theorem keys_put_nodup {m : GoMap K V} (h : m.keys.Nodup) (k : K) (v : V) : (m.put k v).keys.Nodup := by
  unfold keys put at *
  simp only [List.map_cons, List.nodup_cons, List.mem_map, List.mem_filter, decide_eq_true_eq, not_exists, not_and]
  refine ⟨fun e ⟨_, h1⟩ h2 => h1 h2, ?_⟩
  exact (List.filter_sublist.map _).nodup h

end GoMap

/-- `strings.Join(l, sep)` -/
def joinWith (sep : Str) : List Str → Str
  | [] => []
  | [a] => a
  | a :: b :: l => a ++ sep ++ joinWith sep (b :: l)

end Fab
