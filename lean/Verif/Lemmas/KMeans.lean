import Verif.Model.KMeans
import Mathlib.Algebra.BigOperators.Group.Finset.Basic
import Mathlib.Algebra.BigOperators.Group.Finset.Piecewise
import Mathlib.Algebra.BigOperators.Ring.Finset
import Mathlib.Algebra.BigOperators.Field
import Mathlib.Algebra.Order.BigOperators.Group.Finset
import Mathlib.Algebra.BigOperators.Group.List.Basic
import Mathlib.Data.List.Induction
import Mathlib.Data.List.GetD
import Mathlib.Tactic.Linarith
import Mathlib.Tactic.Ring
import Mathlib.Tactic.FieldSimp

/-! # KMeans: nearest centroid, recomputed centroids, within-cluster sum of squares -/
set_option autoImplicit false

namespace Sk.KMeans

section Nearest

variable {V D : Type} [LinearOrder D]

theorem nearest_fold (dist : V → V → D) (x : V) (C : List V) :
    (C = [] ∧ C.zipIdx.foldl (fun (b : Option (ℕ × D)) e =>
      match b with
      | none => some (e.2, dist x e.1)
      | some (i, d) => if dist x e.1 < d then some (e.2, dist x e.1) else some (i, d)) none = none) ∨
    ∃ (c : ℕ) (hc : c < C.length), C.zipIdx.foldl (fun (b : Option (ℕ × D)) e =>
      match b with
      | none => some (e.2, dist x e.1)
      | some (i, d) => if dist x e.1 < d then some (e.2, dist x e.1) else some (i, d)) none = some (c, dist x C[c]) ∧
      (∀ (j : ℕ) (hj : j < C.length), dist x C[c] ≤ dist x C[j]) ∧ ∀ (j : ℕ) (hj : j < C.length), j < c → dist x C[c] < dist x C[j] := by
  induction C using List.reverseRecOn with
  | nil => exact Or.inl ⟨rfl, rfl⟩
  | append_singleton C a ih =>
    right
    have hl : (C ++ [a]).length = C.length + 1 := by simp
    have hlast : ∀ h : C.length < (C ++ [a]).length, (C ++ [a])[C.length] = a := by simp
    have hinit : ∀ (j : ℕ) (h : j < (C ++ [a]).length) (hj : j < C.length), (C ++ [a])[j] = C[j] := fun j h hj => List.getElem_append_left hj
    have hz : (C ++ [a]).zipIdx = C.zipIdx ++ [(a, C.length)] := by
      rw [List.zipIdx_append]
      simp
    rw [hz, List.foldl_append, List.foldl_cons, List.foldl_nil]
    rcases ih with ⟨rfl, h⟩ | ⟨c, hc, h, hmin, hlow⟩
    · refine ⟨0, by simp, ?_, ?_, ?_⟩
      · simp
      · intro j hj
        have : j = 0 := by simpa using hj
        subst this
        exact le_refl _
      · intro j _ hj
        omega
    · rw [h]
      simp only
      by_cases hlt : dist x a < dist x C[c]
      · rw [if_pos hlt]
        refine ⟨C.length, by omega, by rw [hlast], ?_, ?_⟩
        · intro j hj
          rw [hlast (by omega)]
          by_cases hjC : j < C.length
          · rw [hinit j hj hjC]
            exact le_trans hlt.le (hmin j hjC)
          · have : j = C.length := by omega
            subst this
            rw [hlast hj]
        · intro j hj hjc
          rw [hlast (by omega), hinit j hj hjc]
          exact lt_of_lt_of_le hlt (hmin j hjc)
      · rw [if_neg hlt]
        refine ⟨c, by omega, by rw [hinit c (by omega) hc], ?_, ?_⟩
        · intro j hj
          rw [hinit c (by omega) hc]
          by_cases hjC : j < C.length
          · rw [hinit j hj hjC]
            exact hmin j hjC
          · have : j = C.length := by omega
            subst this
            rw [hlast hj]
            exact not_lt.1 hlt
        · intro j hj hjc
          rw [hinit c (by omega) hc, hinit j hj (by omega)]
          exact hlow j (by omega) hjc

/-- The index returned by `_nearest`: a nearest centroid, and the lowest such index. -/
theorem nearest_spec (dist : V → V → D) (C : List V) (hC : C ≠ []) (x : V) :
    ∃ (c : ℕ) (hc : c < C.length), nearest dist C x = some c ∧ (∀ (j : ℕ) (hj : j < C.length), dist x C[c] ≤ dist x C[j]) ∧
      ∀ (j : ℕ) (hj : j < C.length), j < c → dist x C[c] < dist x C[j] := by
  rcases nearest_fold dist x C with ⟨h, _⟩ | ⟨c, hc, h, h2⟩
  · exact absurd h hC
  · refine ⟨c, hc, ?_, h2⟩
    exact congrArg (Option.map Prod.fst) h

end Nearest

section Field

variable {K : Type} [Field K]

/-- Coordinate `j` of row `i`. -/
def cell (X : List (List K)) (i j : ℕ) : K := (X.getD i []).getD j 0

/-- `k` rows of length `m`. -/
def Shape (k m : ℕ) (C : List (List K)) : Prop := C.length = k ∧ ∀ row ∈ C, row.length = m

theorem addSample_spec {X : List (List K)} {y : List ℕ} {k m n : ℕ} (hX : Shape n m X) {C : List (List K)} (hC : Shape k m C) {i : ℕ} (hi : i < n) :
    Shape k m (addSample X y C i) ∧ ∀ c j, c < k → j < m →
      cell (addSample X y C i) c j = cell C c j + if y.getD i 0 = c then 1 / (y.count (y.getD i 0) : K) * cell X i j else 0 := by
  obtain ⟨hX1, hX2⟩ := hX
  obtain ⟨hC1, hC2⟩ := hC
  have hrow : (X.getD i []).length = m := by
    have : X.getD i [] = X[i] := by simp [hX1, hi]
    rw [this]
    exact hX2 _ (List.getElem_mem _)
  refine ⟨⟨by rw [addSample, List.length_modify, hC1], ?_⟩, ?_⟩
  · intro row hr
    rw [addSample] at hr
    obtain ⟨a, ha, rfl⟩ := List.mem_iff_getElem.1 hr
    rw [List.getElem_modify]
    rw [List.length_modify] at ha
    split
    · rw [List.length_zipWith, hC2 _ (List.getElem_mem _), hrow, min_self]
    · exact hC2 _ (List.getElem_mem _)
  · intro c j hc hj
    have hcl : c < C.length := by omega
    have hCc : (C[c]).length = m := hC2 _ (List.getElem_mem _)
    rw [addSample]
    simp only [cell]
    have e1 : (C.modify (y.getD i 0) (fun row => List.zipWith (fun a b => a + 1 / (y.count (y.getD i 0) : K) * b) row (X.getD i []))).getD c [] =
        if y.getD i 0 = c then List.zipWith (fun a b => a + 1 / (y.count (y.getD i 0) : K) * b) C[c] (X.getD i []) else C[c] := by
      rw [List.getD_eq_getElem?_getD, List.getElem?_eq_getElem (by rw [List.length_modify]; exact hcl), Option.getD_some, List.getElem_modify]
    have e2 : C.getD c [] = C[c] := by simp [hcl]
    rw [e1, e2]
    split
    · rw [List.getD_eq_getElem?_getD, List.getElem?_eq_getElem (by rw [List.length_zipWith, hCc, hrow, min_self]; exact hj), Option.getD_some,
        List.getElem_zipWith]
      have e3 : C[c].getD j 0 = C[c][j]'(by omega) := by simp [hCc, hj]
      have e4 : (X.getD i []).getD j 0 = (X.getD i [])[j]'(by omega) := by
        rw [List.getD_eq_getElem?_getD, List.getElem?_eq_getElem (by omega), Option.getD_some]
      rw [e3, e4]
    · rw [add_zero]

theorem addAll_spec {X : List (List K)} {y : List ℕ} {k m n : ℕ} (hX : Shape n m X) (order : List ℕ) :
    ∀ {C : List (List K)}, Shape k m C → (∀ i ∈ order, i < n) →
    Shape k m (order.foldl (addSample X y) C) ∧ ∀ c j, c < k → j < m → cell (order.foldl (addSample X y) C) c j =
      cell C c j + (order.map (fun i => if y.getD i 0 = c then 1 / (y.count (y.getD i 0) : K) * cell X i j else 0)).sum := by
  induction order with
  | nil => intro C hC _; exact ⟨hC, by simp⟩
  | cons a order ih =>
    intro C hC ho
    rw [List.forall_mem_cons] at ho
    obtain ⟨h1, h2⟩ := addSample_spec (y := y) hX hC ho.1
    obtain ⟨h3, h4⟩ := ih h1 ho.2
    refine ⟨h3, fun c j hc hj => ?_⟩
    rw [List.foldl_cons, h4 c j hc hj, h2 c j hc hj, List.map_cons, List.sum_cons, add_assoc]

/-- Mean of coordinate `j` over the samples labelled `c` (0 if there are none). -/
def mean (n : ℕ) (X : List (List K)) (y : List ℕ) (c j : ℕ) : K :=
  (∑ i ∈ (Finset.range n).filter (fun i => y.getD i 0 = c), cell X i j) / (((Finset.range n).filter (fun i => y.getD i 0 = c)).card : K)

theorem count_card (y : List ℕ) (c : ℕ) : y.count c = ((Finset.range y.length).filter (fun i => y.getD i 0 = c)).card := by
  induction y using List.reverseRecOn with
  | nil => simp
  | append_singleton y a ih =>
    rw [List.count_append, ih, List.length_append, List.length_singleton, Finset.range_add_one, Finset.filter_insert]
    have e : (Finset.range y.length).filter (fun i => (y ++ [a]).getD i 0 = c) = (Finset.range y.length).filter (fun i => y.getD i 0 = c) := by
      apply Finset.filter_congr
      intro i hi
      rw [List.getD_append _ _ _ _ (Finset.mem_range.1 hi)]
    rw [e]
    have ea : (y ++ [a]).getD y.length 0 = a := by simp
    rw [ea]
    split
    · rename_i h
      rw [Finset.card_insert_of_notMem (by simp)]
      simp [h]
    · rename_i h
      have : List.count c [a] = 0 := by
        rw [List.count_eq_zero]
        simpa using fun hc => h hc.symm
      rw [this, add_zero]

/-- The recomputed centroids are the means of the clusters, whatever the order in which the samples were added. -/
theorem recompute_spec {X : List (List K)} {y : List ℕ} {k m n : ℕ} (hX : Shape n m X) (hy : y.length = n) {order : List ℕ} (ho : order.Perm (List.range n)) :
    Shape k m (recompute k m X y order) ∧ ∀ c j, c < k → j < m → cell (recompute k m X y order) c j = mean n X y c j := by
  have h0 : Shape k m (List.replicate k (List.replicate m (0 : K))) :=
    ⟨by simp, fun row hr => by rw [List.eq_of_mem_replicate hr, List.length_replicate]⟩
  obtain ⟨h1, h2⟩ := addAll_spec (y := y) hX order h0 (fun i hi => List.mem_range.1 (ho.mem_iff.1 hi))
  refine ⟨h1, fun c j hc hj => ?_⟩
  rw [recompute, h2 c j hc hj]
  have e0 : cell (List.replicate k (List.replicate m (0 : K))) c j = 0 := by
    simp [cell, hc, hj]
  rw [e0, zero_add, (ho.map _).sum_eq]
  have e1 : ((List.range n).map (fun i => if y.getD i 0 = c then 1 / (y.count (y.getD i 0) : K) * cell X i j else 0)).sum =
      ∑ i ∈ Finset.range n, if y.getD i 0 = c then 1 / (y.count (y.getD i 0) : K) * cell X i j else 0 := by
    rw [Finset.sum_eq_multiset_sum]
    rfl
  rw [e1, ← Finset.sum_filter, mean, Finset.sum_div]
  apply Finset.sum_congr rfl
  intro i hi
  rw [Finset.mem_filter] at hi
  rw [hi.2, count_card, hy]
  ring

end Field

section Ordered

variable {K : Type} [Field K] [LinearOrder K] [IsStrictOrderedRing K]

/-- Squared Euclidean distance on the first `m` coordinates. -/
def sqd (m : ℕ) (a b : List K) : K := ∑ j ∈ Finset.range m, (a.getD j 0 - b.getD j 0) ^ 2

/-- Within-cluster sum of squares of the samples `X` labelled `y`, for centroids `C`. -/
def wcss (n m : ℕ) (X : List (List K)) (y : List ℕ) (C : List (List K)) : K := ∑ i ∈ Finset.range n, sqd m (X.getD i []) (C.getD (y.getD i 0) [])

theorem mean_min (S : Finset ℕ) (hS : S.Nonempty) (f : ℕ → K) (c : K) :
    ∑ i ∈ S, (f i - (∑ i ∈ S, f i) / (S.card : K)) ^ 2 ≤ ∑ i ∈ S, (f i - c) ^ 2 := by
  have hcard : (S.card : K) ≠ 0 := by
    rw [Nat.cast_ne_zero]
    exact hS.card_pos.ne'
  set μ := (∑ i ∈ S, f i) / (S.card : K) with hμ
  have hsum : ∑ i ∈ S, f i = S.card * μ := by
    rw [hμ]
    field_simp
  have e : ∑ i ∈ S, (f i - c) ^ 2 = ∑ i ∈ S, (f i - μ) ^ 2 + S.card * (μ - c) ^ 2 := by
    have e1 : ∀ i, (f i - c) ^ 2 = (f i - μ) ^ 2 + (μ - c) ^ 2 + (2 * (μ - c)) * f i - 2 * (μ - c) * μ := fun i => by ring
    simp_rw [e1]
    rw [Finset.sum_sub_distrib, Finset.sum_add_distrib, Finset.sum_add_distrib, ← Finset.mul_sum, hsum, Finset.sum_const, Finset.sum_const, nsmul_eq_mul,
      nsmul_eq_mul]
    ring
  rw [e]
  have : 0 ≤ (S.card : K) * (μ - c) ^ 2 := mul_nonneg (Nat.cast_nonneg _) (sq_nonneg _)
  linarith

/-- The means of the clusters minimise the within-cluster sum of squares for given labels. -/
theorem wcss_mean_le {n m k : ℕ} {X : List (List K)} {y : List ℕ} (hy : ∀ i, i < n → y.getD i 0 < k) {M : List (List K)}
    (hM : ∀ c j, c < k → j < m → cell M c j = mean n X y c j) (C : List (List K)) : wcss n m X y M ≤ wcss n m X y C := by
  have key : ∀ C : List (List K), wcss n m X y C =
      ∑ j ∈ Finset.range m, ∑ c ∈ Finset.range k, ∑ i ∈ (Finset.range n).filter (fun i => y.getD i 0 = c), (cell X i j - cell C c j) ^ 2 := by
    intro C
    simp only [wcss, sqd]
    rw [Finset.sum_comm]
    apply Finset.sum_congr rfl
    intro j _
    rw [← Finset.sum_fiberwise_of_maps_to (g := fun i => y.getD i 0) (t := Finset.range k) (fun i hi => Finset.mem_range.2 (hy i (Finset.mem_range.1 hi)))]
    apply Finset.sum_congr rfl
    intro c _
    apply Finset.sum_congr rfl
    intro i hi
    rw [(Finset.mem_filter.1 hi).2]
    rfl
  rw [key, key]
  apply Finset.sum_le_sum
  intro j hj
  apply Finset.sum_le_sum
  intro c hc
  rcases Finset.eq_empty_or_nonempty ((Finset.range n).filter (fun i => y.getD i 0 = c)) with h | h
  · rw [h]
    simp
  · rw [hM c j (Finset.mem_range.1 hc) (Finset.mem_range.1 hj)]
    exact mean_min _ h (fun i => cell X i j) _

/-- Labels computed by `predict`. -/
theorem labels_spec {V D : Type} [LinearOrder D] [Inhabited V] (dist : V → V → D) (C : List V) (hC : C ≠ []) (X : List V) :
    ∃ y, labels dist C X = some y ∧ y.length = X.length ∧ ∀ i, i < X.length →
      y.getD i 0 < C.length ∧ (∀ j, j < C.length → dist (X.getD i default) (C.getD (y.getD i 0) default) ≤ dist (X.getD i default) (C.getD j default)) ∧
      ∀ j, j < y.getD i 0 → dist (X.getD i default) (C.getD (y.getD i 0) default) < dist (X.getD i default) (C.getD j default) := by
  induction X with
  | nil => exact ⟨[], rfl, rfl, by simp⟩
  | cons x X ih =>
    obtain ⟨y, e, hl, h⟩ := ih
    obtain ⟨c, hc, ec, h1, h2⟩ := nearest_spec dist C hC x
    refine ⟨c :: y, ?_, by simp [hl], ?_⟩
    · rw [labels] at e ⊢
      rw [List.mapM_cons, ec, e]
      rfl
    · intro i hi
      have hg : ∀ j (hj : j < C.length), C.getD j default = C[j] := fun j hj => by simp [hj]
      cases i with
      | zero =>
        simp only [List.getD_cons_zero]
        refine ⟨hc, ?_, ?_⟩
        · intro j hj
          rw [hg c hc, hg j hj]
          exact h1 j hj
        · intro j hj
          rw [hg c hc, hg j (by omega)]
          exact h2 j (by omega) hj
      | succ i =>
        simp only [List.getD_cons_succ]
        exact h i (by simpa using hi)

/-- Reassigning every sample to a nearest centroid does not increase the sum of squares. -/
theorem wcss_assign_le {D : Type} [LinearOrder D] {dist : List K → List K → D} {n m k : ℕ} {X C : List (List K)} (hX : Shape n m X) (hC : Shape k m C)
    (hd : ∀ a b c : List K, a.length = m → b.length = m → c.length = m → (dist a b ≤ dist a c ↔ sqd m a b ≤ sqd m a c))
    {y y' : List ℕ} (hy : ∀ i, i < n → y.getD i 0 < k)
    (hy' : ∀ i, i < n → y'.getD i 0 < k ∧ ∀ j, j < k → dist (X.getD i []) (C.getD (y'.getD i 0) []) ≤ dist (X.getD i []) (C.getD j [])) :
    ∀ i, i < n → sqd m (X.getD i []) (C.getD (y'.getD i 0) []) ≤ sqd m (X.getD i []) (C.getD (y.getD i 0) []) := by
  intro i hi
  have hlen : ∀ {r : ℕ} {A : List (List K)}, Shape r m A → ∀ i, i < r → (A.getD i []).length = m := by
    intro r A hA i hi
    have : A.getD i [] = A[i]'(by rw [hA.1]; exact hi) := by simp [hA.1, hi]
    rw [this]
    exact hA.2 _ (List.getElem_mem _)
  exact (hd _ _ _ (hlen hX i hi) (hlen hC _ (hy' i hi).1) (hlen hC _ (hy i hi))).1 ((hy' i hi).2 _ (hy i hi))

end Ordered

end Sk.KMeans
