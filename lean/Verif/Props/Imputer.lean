import Verif.Model.Encode
import Verif.Props.Scale

/-!
# C23: `Imputer`
-/
set_option autoImplicit false

namespace Sk.Encode

open Sk.Scale Sk.Stats

variable {K : Type} [Field K] [LinearOrder K] [IsStrictOrderedRing K]

/-- Spec: the present values of a column (`none` = missing). -/
def present (col : List (Option K)) : List K := col.filterMap id

/-- **C23, transform.** Whatever the fitted statistic, a present cell is unchanged and a missing cell receives the statistic. -/
theorem C23_transform (filler : Option K) (col : List (Option K)) : (impTransform filler col).length = col.length ∧
    ∀ (i : ℕ) (h : i < col.length) (h' : i < (impTransform filler col).length),
      (∀ v, col[i] = some v → (impTransform filler col)[i] = some v) ∧ (col[i] = none → (impTransform filler col)[i] = filler) := by
  refine ⟨by simp [impTransform], ?_⟩
  intro i h h'
  simp only [impTransform, List.getElem_map]
  constructor
  · intro v hv; simp [hv]
  · intro hv; simp [hv]

/-- A rational column with a missing cell, filled with 7. -/
example : impTransform (some 7) [some (1 : ℚ), none, some 3] = [some 1, some 7, some 3] := by decide +kernel

theorem filterMap_impTransform (m : K) : ∀ (col : List (Option K)),
    (impTransform (some m) col).filterMap id = col.map (fun v => v.getD m)
  | [] => rfl
  | v :: col => by
    have := filterMap_impTransform m col
    unfold impTransform at this ⊢
    cases v with
    | none => rw [List.map_cons, List.map_cons, ← this]; rfl
    | some x => rw [List.map_cons, List.map_cons, ← this]; rfl

theorem sum_getD (m : K) : ∀ (col : List (Option K)),
    (col.map (fun v => v.getD m)).sum + m * (present col).length = (present col).sum + m * col.length
  | [] => by simp [present]
  | v :: col => by
    have := sum_getD m col
    unfold present at this ⊢
    cases v with
    | none =>
      rw [List.filterMap_cons_none rfl, List.map_cons, List.sum_cons, List.length_cons]
      push_cast
      simp only [Option.getD_none]
      linarith
    | some x =>
      rw [List.filterMap_cons_some (f := id) (a := some x) (b := x) rfl, List.map_cons, List.sum_cons, List.sum_cons, List.length_cons, List.length_cons]
      push_cast
      simp only [Option.getD_some]
      linarith

/-- **C23, mean.** If a column has a present value, the statistic is the mean of the present values; after `Transform` no cell is missing and the mean of the whole
column is that same mean. -/
theorem C23_mean (half : K) (keys : List K) (col : List (Option K)) (hne : present col ≠ []) :
    impFit .mean half keys col = some (some (mean (present col))) ∧
    (∀ v ∈ impTransform (some (mean (present col))) col, v ≠ none) ∧
    mean (present (impTransform (some (mean (present col))) col)) = mean (present col) := by
  have hl : (present col).length ≠ 0 := by simpa using hne
  have hl' : ((present col).length : K) ≠ 0 := by exact_mod_cast hl
  have hcol : col ≠ [] := by rintro rfl; exact hne rfl
  have hc' : (col.length : K) ≠ 0 := by simpa using hcol
  refine ⟨?_, ?_, ?_⟩
  · unfold impFit
    simp only
    rw [if_neg (by simpa [present] using hl)]
    unfold mean present
    rw [← List.sum_eq_foldl]
  · intro v hv
    unfold impTransform at hv
    obtain ⟨w, _, rfl⟩ := List.mem_map.1 hv
    by_cases h : w = none
    · simp [h]
    · simp [h]
  · have h1 : present (impTransform (some (mean (present col))) col) = col.map (fun v => v.getD (mean (present col))) := filterMap_impTransform _ _
    rw [h1]
    have h2 := sum_getD (mean (present col)) col
    have h3 : mean (present col) * (present col).length = (present col).sum := by unfold mean; field_simp
    have h4 : (col.map (fun v => v.getD (mean (present col)))).sum = mean (present col) * col.length := by linarith
    generalize mean (present col) = m at h4 ⊢
    unfold mean
    rw [h4, List.length_map]
    field_simp

example : impFit .mean (1/2) [] [some (1 : ℚ), none, some 3] = some (some 2) := by decide +kernel

/-- **C23, median.** If a column has a present value, the statistic is one of the present values, with at least half of them at most it, and either none or
fewer than half strictly below it. -/
theorem C23_median (keys : List K) (col : List (Option K)) (hne : present col ≠ []) :
    ∃ q ∈ present col, impFit .median (1 / 2) keys col = some (some q) ∧
      (1 / 2 : K) * (present col).length ≤ (((present col).filter (fun x => decide (x ≤ q))).length : K) ∧
      (((present col).filter (fun x => decide (x < q))).length = 0 ∨
        (((present col).filter (fun x => decide (x < q))).length : K) < 1 / 2 * (present col).length) := by
  have hp : ((present col).insertionSort (· ≤ ·)).Perm (present col) := List.perm_insertionSort _ _
  obtain ⟨q, hq, h1, h2, h3⟩ := quantile_spec (1 / 2 : K) (by norm_num) ((present col).insertionSort (· ≤ ·))
    (by intro e; apply hne; rw [e] at hp; exact List.Perm.eq_nil hp.symm) (List.pairwise_insertionSort _ _)
  refine ⟨q, hp.mem_iff.1 hq, ?_, ?_, ?_⟩
  · unfold impFit present at *
    simp only [h1, Option.map_some]
  · rw [hp.length_eq, (hp.filter _).length_eq] at h2; exact h2
  · rw [hp.length_eq, (hp.filter _).length_eq] at h3; exact h3

example : impFit .median (1/2) [] [some (5 : ℚ), none, some 1, some 3] = some (some 3) := by decide +kernel

theorem mode_fold (xs : List K) : ∀ (keys : List K) (b : K × ℕ), 
    let r := keys.foldl (fun (b : K × ℕ) k => if b.2 < occ k xs then (k, occ k xs) else b) b
    b.2 ≤ r.2 ∧ (∀ k ∈ keys, occ k xs ≤ r.2) ∧ (r = b ∨ (r.1 ∈ keys ∧ r.2 = occ r.1 xs))
  | [], b => by simp
  | k :: keys, b => by
    simp only [List.foldl_cons]
    by_cases h : b.2 < occ k xs
    · rw [if_pos h]
      obtain ⟨h1, h2, h3⟩ := mode_fold xs keys (k, occ k xs)
      simp only at h1
      refine ⟨by omega, ?_, ?_⟩
      · intro k' hk'
        rcases List.mem_cons.1 hk' with rfl | hk'
        · exact h1
        · exact h2 k' hk'
      · right
        rcases h3 with h3 | ⟨h3, h4⟩
        · rw [h3]; simp
        · exact ⟨by simp [h3], h4⟩
    · rw [if_neg h]
      obtain ⟨h1, h2, h3⟩ := mode_fold xs keys b
      refine ⟨h1, ?_, ?_⟩
      · intro k' hk'
        rcases List.mem_cons.1 hk' with rfl | hk'
        · omega
        · exact h2 k' hk'
      · rcases h3 with h3 | ⟨h3, h4⟩
        · left; exact h3
        · right; exact ⟨by simp [h3], h4⟩

/-- **C23, most frequent.** If a column has a present value, then for every map iteration order the statistic is a present value that no other value outnumbers. -/
theorem C23_most_frequent (half : K) (keys : List K) (col : List (Option K)) (hne : present col ≠ []) (hk : ∀ v, v ∈ keys ↔ v ∈ present col) :
    ∃ q ∈ present col, impFit .mostFrequent half keys col = some (some q) ∧ ∀ v, (present col).count v ≤ (present col).count q := by
  have h := mode_fold (present col) keys (0, 0)
  simp only at h
  obtain ⟨_, h2, h3⟩ := h
  obtain ⟨x, hx⟩ := List.exists_mem_of_ne_nil _ hne
  have hx1 : 0 < occ x (present col) := List.count_pos_iff.2 hx
  have hx2 := h2 x ((hk x).2 hx)
  have h4 : (mode keys (present col)) ∈ keys ∧ (keys.foldl (fun (b : K × ℕ) k => if b.2 < occ k (present col) then (k, occ k (present col)) else b) (0, 0)).2 =
      occ (mode keys (present col)) (present col) := by
    rcases h3 with h3 | h3
    · rw [h3] at hx2; simp at hx2; omega
    · exact h3
  refine ⟨mode keys (present col), (hk _).1 h4.1, rfl, ?_⟩
  intro v
  by_cases hv : v ∈ present col
  · have := h2 v ((hk v).2 hv)
    rw [h4.2] at this
    exact this
  · rw [List.count_eq_zero.2 hv]; omega

example : impFit .mostFrequent (1/2) [3, 1] [some (3 : ℚ), none, some 1, some 3] = some (some 3) := by decide +kernel

/-- **C23 violated for all-missing columns.** A column without present values stays entirely missing with the mean strategy, panics in `Fit` with the median strategy, and
is filled with 0 by most_frequent. -/
theorem C23_all_missing_violated (half : K) (n : ℕ) :
    (impFit .mean half [] (List.replicate n (none : Option K)) = some none ∧
      impTransform (none : Option K) (List.replicate n none) = List.replicate n none) ∧
    impFit .median half [] (List.replicate n (none : Option K)) = none ∧
    impFit .mostFrequent half [] (List.replicate n (none : Option K)) = some (some 0) := by
  have h : ∀ n, (List.replicate n (none : Option K)).filterMap id = [] := by
    intro n; induction n with
    | zero => rfl
    | succ n ih => simp
  refine ⟨⟨?_, ?_⟩, ?_, ?_⟩
  · simp [impFit, h]
  · simp [impTransform]
  · simp [impFit, h, quantile, quantileFrom]
  · simp [impFit, mode]

end Sk.Encode
