import Mathlib.Order.Basic
import Mathlib.Order.Defs.LinearOrder
import Mathlib.Data.List.Nodup
import Mathlib.Data.List.Sort
import Mathlib.Data.List.Perm.Basic

/-! # What "the `k` nearest of `n` samples" means, independently of any search algorithm -/
set_option autoImplicit false

namespace Sk.Neigh

variable {D : Type} [LinearOrder D]

/-- `sort` returns its argument reordered by increasing first component (nothing is said about ties). -/
def SortsAsc {T : Type} (key : T → D) (sort : List T → List T) : Prop :=
  ∀ l, (sort l).Perm l ∧ (sort l).Pairwise (fun a b => key a ≤ key b)

/-- `r` lists `k` nearest samples among samples `0..n-1` at distances `dist`: `k` entries, distinct sample numbers, each with its own distance, nearest
first, and no sample left out is closer than any sample listed. -/
structure KNearest (dist : ℕ → D) (n k : ℕ) (r : List (D × ℕ)) : Prop where
  len : r.length = k
  distinct : (r.map Prod.snd).Nodup
  own : ∀ e ∈ r, e.2 < n ∧ e.1 = dist e.2
  ordered : r.Pairwise (fun a b => a.1 ≤ b.1)
  best : ∀ i, i < n → i ∉ r.map Prod.snd → ∀ e ∈ r, e.1 ≤ dist i

/-- `r` lists exactly the samples at distance at most `radius`, each once and with its distance. -/
structure Within (dist : ℕ → D) (n : ℕ) (radius : D) (r : List (D × ℕ)) : Prop where
  distinct : (r.map Prod.snd).Nodup
  own : ∀ e ∈ r, e.1 = dist e.2
  exact : ∀ i, i ∈ r.map Prod.snd ↔ i < n ∧ dist i ≤ radius

/-- Insertion sort, a sort that can be evaluated in examples. -/
def insAsc {T : Type} (key : T → D) (l : List T) : List T := l.insertionSort (fun a b => key a ≤ key b)

theorem insAsc_ok {T : Type} (key : T → D) : SortsAsc key (insAsc key) := by
  intro l
  haveI : Std.Total (fun a b : T => key a ≤ key b) := ⟨fun a b => le_total _ _⟩
  haveI : IsTrans T (fun a b : T => key a ≤ key b) := ⟨fun a b c => le_trans⟩
  exact ⟨List.perm_insertionSort _ _, List.pairwise_insertionSort _ _⟩

/-- All `k`-nearest lists have the same distances. -/
theorem KNearest.unique {dist : ℕ → D} {n k : ℕ} {r r' : List (D × ℕ)} (h : KNearest dist n k r) (h' : KNearest dist n k r') :
    r.map Prod.fst = r'.map Prod.fst := by
  have key : ∀ r, KNearest dist n k r → r.map Prod.fst = (((List.range n).map dist).insertionSort (· ≤ ·)).take k := by
    intro r h
    have hfst : r.map Prod.fst = (r.map Prod.snd).map dist := by
      rw [List.map_map]
      exact List.map_congr_left (fun e he => (h.own e he).2)
    set rest := (List.range n).filter (fun i => decide (i ∉ r.map Prod.snd)) with hrest
    have hperm : (r.map Prod.snd ++ rest).Perm (List.range n) := by
      rw [List.perm_ext_iff_of_nodup]
      · intro i
        simp only [List.mem_append, hrest, List.mem_filter, List.mem_range, decide_eq_true_eq]
        constructor
        · rintro (hi | hi)
          · obtain ⟨e, he, rfl⟩ := List.mem_map.1 hi
            exact (h.own e he).1
          · exact hi.1
        · intro hi
          by_cases hm : i ∈ r.map Prod.snd
          · exact Or.inl hm
          · exact Or.inr ⟨hi, hm⟩
      · refine List.Nodup.append h.distinct (List.nodup_range.filter _) ?_
        intro i hi hj
        simp only [hrest, List.mem_filter, decide_eq_true_eq] at hj
        exact hj.2 hi
      · exact List.nodup_range
    have hs : (((List.range n).map dist).insertionSort (· ≤ ·)) = r.map Prod.fst ++ (rest.map dist).insertionSort (· ≤ ·) := by
      apply List.Perm.eq_of_pairwise (le := (· ≤ ·))
      · intro a b _ _ hab hba
        exact le_antisymm hab hba
      · exact List.pairwise_insertionSort _ _
      · rw [List.pairwise_append]
        refine ⟨?_, List.pairwise_insertionSort _ _, ?_⟩
        · rw [List.pairwise_map]
          exact h.ordered
        · intro a ha b hb
          rw [(List.perm_insertionSort _ _).mem_iff] at hb
          obtain ⟨e, he, rfl⟩ := List.mem_map.1 ha
          obtain ⟨i, hi, rfl⟩ := List.mem_map.1 hb
          simp only [hrest, List.mem_filter, List.mem_range, decide_eq_true_eq] at hi
          exact h.best i hi.1 hi.2 e he
      · refine (List.perm_insertionSort _ _).trans ?_
        refine (hperm.symm.map dist).trans ?_
        rw [List.map_append, hfst]
        exact List.Perm.append_left _ (List.perm_insertionSort _ _).symm
    rw [hs]
    rw [List.take_left' (by simp [h.len])]
  rw [key r h, key r' h']

end Sk.Neigh
