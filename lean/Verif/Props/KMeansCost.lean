import Verif.Props.KMeansRecover

/-! # C236: how good the clustering of KMeans is -/
set_option autoImplicit false

namespace Sk.KMeans

variable {K D : Type} [Field K] [LinearOrder K] [IsStrictOrderedRing K] [LinearOrder D]

/-- Sum of the squared distances of the rows to the centres assigned to them: row `i` (of `n`, with `m` features) is assigned to centre number `z i`. -/
def cost (n m : ℕ) (x : ℕ → ℕ → K) (z : ℕ → ℕ) (centre : ℕ → ℕ → K) : K := ∑ i ∈ Finset.range n, ∑ j ∈ Finset.range m, (x i j - centre (z i) j) ^ 2

private theorem cost_wcss (n m : ℕ) (X : List (List K)) (y : List ℕ) (C : List (List K)) : wcss n m X y C = cost n m (cell X) (fun i => y.getD i 0) (cell C) := rfl

private theorem range_getD {α : Type} (n : ℕ) (f : ℕ → α) (d : α) (i : ℕ) (hi : i < n) : ((List.range n).map f).getD i d = f i := by
  simp [List.getD_eq_getElem?_getD, hi]

private theorem cost_min {n m k : ℕ} {X : List (List K)} {y : List ℕ} {C : List (List K)} (h : Good n m k X y C) (centre : ℕ → ℕ → K) :
    cost n m (cell X) (fun i => y.getD i 0) (cell C) ≤ cost n m (cell X) (fun i => y.getD i 0) centre := by
  have := wcss_mean_le h.lt h.means ((List.range k).map (fun c => (List.range m).map (centre c)))
  rw [cost_wcss, cost_wcss] at this
  refine this.trans (le_of_eq ?_)
  refine Finset.sum_congr rfl (fun i hi => Finset.sum_congr rfl (fun j hj => ?_))
  have h1 := h.lt i (Finset.mem_range.1 hi)
  have h2 := Finset.mem_range.1 hj
  have : cell ((List.range k).map (fun c => (List.range m).map (centre c))) (y.getD i 0) j = centre (y.getD i 0) j := by
    rw [cell, range_getD k _ _ _ h1, range_getD m _ _ _ h2]
  simp only [this]

private theorem assign_min {dist : List K → List K → D} {n m k : ℕ} (hk : 0 < k) (hd : Orders m dist) {X C : List (List K)} (hX : Shape n m X) (hC : Shape k m C) {y : List ℕ}
    (hy : labels dist C X = some y) (z : ℕ → ℕ) (hz : ∀ i < n, z i < k) :
    cost n m (cell X) (fun i => y.getD i 0) (cell C) ≤ cost n m (cell X) z (cell C) := by
  have hC0 : C ≠ [] := by
    intro h
    have := hC.1
    rw [h] at this
    simp at this
    omega
  obtain ⟨y', e, hl, hs⟩ := labels_spec dist C hC0 X
  obtain rfl : y = y' := Option.some.inj (hy.symm.trans e)
  rw [hX.1, hC.1] at hs
  have hzz : ∀ i < n, ((List.range n).map z).getD i 0 = z i := fun i hi => range_getD n z 0 i hi
  have := wcss_assign_le hX hC hd (y := (List.range n).map z) (y' := y) (fun i hi => by rw [hzz i hi]; exact hz i hi) (fun i hi => ⟨(hs i hi).1, (hs i hi).2.1⟩)
  refine Finset.sum_le_sum (fun i hi => ?_)
  have h1 := this i (Finset.mem_range.1 hi)
  rw [hzz i (Finset.mem_range.1 hi)] at h1
  exact h1

private theorem loop_cost {dist : List K → List K → D} {n m k : ℕ} (hk : 0 < k) (hd : Orders m dist) {X : List (List K)} (hX : Shape n m X)
    {order : ℕ → List ℕ} (ho : ∀ e, (order e).Perm (List.range n)) {Cf : List (List K)} {yf : List ℕ} (hyf : labels dist Cf X = some yf) :
    ∀ (fuel : ℕ) (C : List (List K)) (y : List ℕ) (u : ℕ), Shape k m C → fitLoop dist k m X order fuel C y u = some Cf →
      ∀ z : ℕ → ℕ, (∀ i < n, z i < k) → cost n m (cell X) (fun i => yf.getD i 0) (cell Cf) ≤ cost n m (cell X) z (cell C) := by
  intro fuel
  induction fuel with
  | zero =>
    intro C y u _ h
    rw [fitLoop] at h
    exact absurd h (by simp)
  | succ fuel ih =>
    intro C y u hC h z hz
    rw [fitLoop] at h
    by_cases hu : 2 ≤ u
    · rw [if_pos hu, Option.some_inj] at h
      rw [← h]
      exact assign_min hk hd hX hC (by rw [h]; exact hyf) z hz
    · rw [if_neg hu] at h
      have hC0 : C ≠ [] := by
        intro h
        have := hC.1
        rw [h] at this
        simp at this
        omega
      obtain ⟨y', e, hl, hs⟩ := labels_spec dist C hC0 X
      rw [hX.1] at hl hs
      rw [hC.1] at hs
      simp only [e, Option.bind_eq_bind, Option.bind_some] at h
      obtain ⟨r1, r2⟩ := recompute_spec (k := k) hX hl (ho fuel)
      have good : Good n m k X y' (recompute k m X y' (order fuel)) := ⟨hl, fun i hi => (hs i hi).1, r1, r2⟩
      exact (ih _ _ _ r1 h (fun i => y'.getD i 0) (fun i hi => (hs i hi).1)).trans ((cost_min good _).trans (assign_min hk hd hX hC e z hz))

/-- **C236** (partial: the clustering need not be the best one, `C236_best_violated`).  For every data set with at least as many rows as clusters, every distance that orders as the Euclidean one does and every order of
summation, `Fit` returns centroids with which the sum of the squared distances of the rows to the centroids of the labels given by `Predict`
is not more than with the first rows as centroids, however the rows are assigned to them;
is not less with any other assignment of the rows to these centroids, nor with other centroids for these labels;
is not more than the sum of the squared distances to any single point;
and with one cluster is the least possible. -/
theorem C236_cost_partial {dist : List K → List K → D} {n m k : ℕ} (hk : 0 < k) (hkn : k ≤ n) (hd : Orders m dist) {X : List (List K)} (hX : Shape n m X)
    {order : ℕ → List ℕ} (ho : ∀ e, (order e).Perm (List.range n)) :
    ∃ bound C y, (∀ fuel, bound < fuel → fit dist k m X order fuel = some C) ∧ labels dist C X = some y ∧
      (∀ z : ℕ → ℕ, (∀ i < n, z i < k) → cost n m (cell X) (fun i => y.getD i 0) (cell C) ≤ cost n m (cell X) z (cell X)) ∧
      (∀ z : ℕ → ℕ, (∀ i < n, z i < k) → cost n m (cell X) (fun i => y.getD i 0) (cell C) ≤ cost n m (cell X) z (cell C)) ∧
      (∀ centre, cost n m (cell X) (fun i => y.getD i 0) (cell C) ≤ cost n m (cell X) (fun i => y.getD i 0) centre) ∧
      (∀ p : ℕ → K, cost n m (cell X) (fun i => y.getD i 0) (cell C) ≤ ∑ i ∈ Finset.range n, ∑ j ∈ Finset.range m, (cell X i j - p j) ^ 2) ∧
      (k = 1 → ∀ z : ℕ → ℕ, (∀ i < n, z i < k) → ∀ centre, cost n m (cell X) (fun i => y.getD i 0) (cell C) ≤ cost n m (cell X) z centre) := by
  obtain ⟨bound, C, y, h1, h2, h3, h4, h5⟩ := C77_fit (dist := dist) hk hkn hd hX ho
  have hC0 : C ≠ [] := by
    intro h
    have := h2.1
    rw [h] at this
    simp at this
    omega
  obtain ⟨y', e, hl, hs⟩ := labels_spec dist C hC0 X
  obtain rfl : y = y' := Option.some.inj (h3.symm.trans e)
  rw [hX.1] at hl hs
  rw [h2.1] at hs
  have good : Good n m k X y C := by
    refine ⟨hl, fun i hi => (hs i hi).1, h2, fun c j hc hj => ?_⟩
    by_cases hex : ∃ i, i < n ∧ y.getD i 0 = c
    · exact h4 c hc hex j hj
    · have hno : ∀ i, i < n → y.getD i 0 ≠ c := fun i hi he => hex ⟨i, hi, he⟩
      rw [h5 c hc hno j hj, mean, Finset.filter_false_of_mem (fun i hi => hno i (Finset.mem_range.1 hi)), Finset.sum_empty, zero_div]
  refine ⟨bound, C, y, h1, h3, fun z hz => ?_, fun z hz => assign_min hk hd hX h2 h3 z hz, cost_min good, fun p => cost_min good (fun _ => p), fun hk1 z hz centre => ?_⟩
  · have hf := h1 (bound + 1) (by omega)
    rw [fit, if_neg (by rw [hX.1]; omega)] at hf
    have hT : Shape k m (X.take k) := ⟨by rw [List.length_take, hX.1]; omega, fun row hr => hX.2 row (List.mem_of_mem_take hr)⟩
    refine (loop_cost hk hd hX ho h3 _ _ _ _ hT hf z hz).trans (le_of_eq ?_)
    refine Finset.sum_congr rfl (fun i hi => Finset.sum_congr rfl (fun j _ => ?_))
    have : (X.take k).getD (z i) [] = X.getD (z i) [] := by
      simp [List.getD_eq_getElem?_getD, hz i (Finset.mem_range.1 hi)]
    simp only [cell, this]
  · refine (cost_min good centre).trans (le_of_eq ?_)
    refine Finset.sum_congr rfl (fun i hi => Finset.sum_congr rfl (fun j _ => ?_))
    have a := hz i (Finset.mem_range.1 hi)
    have b := (hs i (Finset.mem_range.1 hi)).1
    have : y.getD i 0 = z i := by omega
    simp only [this]

/-- **C236**: in particular, when every row equals one of the first `NClusters` rows, every row equals the centroid of its label. -/
theorem C236_exact {dist : List K → List K → D} {n m k : ℕ} (hk : 0 < k) (hkn : k ≤ n) (hd : Orders m dist) {X : List (List K)} (hX : Shape n m X)
    {order : ℕ → List ℕ} (ho : ∀ e, (order e).Perm (List.range n)) (hrep : ∀ i < n, ∃ c < k, ∀ j < m, cell X i j = cell X c j) :
    ∃ bound C y, (∀ fuel, bound < fuel → fit dist k m X order fuel = some C) ∧ labels dist C X = some y ∧ ∀ i < n, ∀ j < m, cell C (y.getD i 0) j = cell X i j := by
  obtain ⟨bound, C, y, h1, h2, h3, -⟩ := C236_cost_partial (dist := dist) hk hkn hd hX ho
  refine ⟨bound, C, y, h1, h2, fun i hi j hj => ?_⟩
  classical
  choose! f hf using hrep
  have hle := h3 f (fun i hi => (hf i hi).1)
  have h0 : cost n m (cell X) f (cell X) = 0 := by
    refine Finset.sum_eq_zero (fun i hi => Finset.sum_eq_zero (fun j hj => ?_))
    rw [(hf i (Finset.mem_range.1 hi)).2 j (Finset.mem_range.1 hj), sub_self]
    ring
  rw [h0] at hle
  have h00 := le_antisymm hle (Finset.sum_nonneg (fun _ _ => Finset.sum_nonneg (fun _ _ => sq_nonneg _)))
  have hi0 := (Finset.sum_eq_zero_iff_of_nonneg (fun _ _ => Finset.sum_nonneg (fun _ _ => sq_nonneg _))).1 h00 i (Finset.mem_range.2 hi)
  have hj0 := (Finset.sum_eq_zero_iff_of_nonneg (fun _ _ => sq_nonneg _)).1 hi0 j (Finset.mem_range.2 hj)
  exact (sub_eq_zero.1 (pow_eq_zero_iff (two_ne_zero) |>.1 hj0)).symm

/-- **C236** violated for the best clustering, by any factor: with 3 clusters and the rows 0, 1, `s`, `2s` the sum of squares reached is more than `M` times that of the clusters {0, 1}, {`s`}, {`2s`}, when `s ≥ 4`
and `s² > M`. -/
theorem C236_best_violated {dist : List K → List K → D} (hd : Orders 1 dist) {order : ℕ → List ℕ} (ho : ∀ e, (order e).Perm (List.range 4)) (s M : K) (hs : 4 ≤ s) (hM : M < s ^ 2) :
    ∃ C y, (∀ fuel, 4 < fuel → fit dist 3 1 [[0], [1], [s], [2 * s]] order fuel = some C) ∧ labels dist C [[0], [1], [s], [2 * s]] = some y ∧
      ∃ z : ℕ → ℕ, (∀ i < 4, z i < 3) ∧ ∃ centre, M * cost 4 1 (cell [[0], [1], [s], [2 * s]]) z centre < cost 4 1 (cell [[0], [1], [s], [2 * s]]) (fun i => y.getD i 0) (cell C) := by
  obtain ⟨C, h1, h2⟩ := C234_start_violated hd ho s hs
  refine ⟨C, _, h1, h2, fun i => i - 1, fun i hi => by show i - 1 < 3; omega, fun c _ => if c = 0 then 1 / 2 else if c = 1 then s else 2 * s, ?_⟩
  simp only [cost, Finset.sum_range_succ, Finset.sum_range_zero, cell]
  simp
  set a := (C.getD 2 []).getD 0 0 with ha
  simp only [List.getD_eq_getElem?_getD] at ha
  rw [← ha]
  have e : (s - a) ^ 2 + (2 * s - a) ^ 2 = s ^ 2 / 2 + (2 * a - 3 * s) ^ 2 / 2 := by ring
  have e' : M * ((2 ^ 2)⁻¹ + (1 - 2⁻¹) ^ 2) = M / 2 := by ring
  have g1 := sq_nonneg ((C.getD 0 []).getD 0 0)
  have g2 := sq_nonneg (1 - (C.getD 1 []).getD 0 0)
  have g3 := sq_nonneg (2 * a - 3 * s)
  simp only [List.getD_eq_getElem?_getD] at g1 g2
  rw [e']
  linarith

example : fit (sqd 1) 3 1 [[0], [(1 : ℚ)], [10], [20]] (fun _ => [2, 0, 3, 1]) 6 = some [[0], [1], [15]] ∧ cost 4 1 (cell [[0], [(1 : ℚ)], [10], [20]]) (fun i => [0, 1, 2, 2].getD i 0) (cell [[0], [1], [15]]) = 50 ∧
    cost 4 1 (cell [[0], [(1 : ℚ)], [10], [20]]) (fun i => i - 1) (cell [[1 / 2], [10], [20]]) = 1 / 2 := by decide +kernel

example : ∀ i < 4, ∃ c < 2, ∀ j < 1, cell [[3], [(1 : ℚ)], [3], [1]] i j = cell [[3], [(1 : ℚ)], [3], [1]] c j := by decide +kernel

end Sk.KMeans
