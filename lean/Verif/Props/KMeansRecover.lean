import Verif.Props.KMeans
import Mathlib.Tactic.FieldSimp
import Mathlib.Tactic.Linarith
import Mathlib.Tactic.IntervalCases

/-!
# C234: `KMeans` and groups of rows that are apart
-/
set_option autoImplicit false

namespace Sk.KMeans

variable {K D : Type} [Field K] [LinearOrder K] [IsStrictOrderedRing K] [LinearOrder D]

/-- `dist` orders rows of length `m` as the Euclidean distance does. -/
def Orders (m : ℕ) (dist : List K → List K → D) : Prop := ∀ a b c : List K, a.length = m → b.length = m → c.length = m → (dist a b ≤ dist a c ↔ sqd m a b ≤ sqd m a c)

private theorem row_len {r m : ℕ} {A : List (List K)} (hA : Shape r m A) (i : ℕ) (hi : i < r) : (A.getD i []).length = m := by
  have : A.getD i [] = A[i]'(by rw [hA.1]; exact hi) := by simp [hA.1, hi]
  rw [this]
  exact hA.2 _ (List.getElem_mem _)

private theorem getD_map_range (n : ℕ) (g : ℕ → ℕ) (i : ℕ) (hi : i < n) : ((List.range n).map g).getD i 0 = g i := by simp [hi]

/-- Rows that each have one nearest centroid are labelled with it. -/
private theorem labels_eq {dist : List K → List K → D} {n m k : ℕ} (hd : Orders m dist) {X C : List (List K)} (hX : Shape n m X) (hC : Shape k m C) (hk : 0 < k) (g : ℕ → ℕ) (hg : ∀ i < n, g i < k)
    (h : ∀ i < n, ∀ c < k, c ≠ g i → sqd m (X.getD i []) (C.getD (g i) []) < sqd m (X.getD i []) (C.getD c [])) : labels dist C X = some ((List.range n).map g) := by
  have hC0 : C ≠ [] := by
    intro h0
    have := hC.1
    rw [h0] at this
    simp at this
    omega
  obtain ⟨y, e, hl, hy⟩ := labels_spec dist C hC0 X
  rw [e]
  congr 1
  refine List.ext_getElem (by simp [hl, hX.1]) (fun i h1 h2 => ?_)
  have hi : i < n := by simpa using h2
  obtain ⟨a, b, _⟩ := hy i (by rw [hX.1]; exact hi)
  have hyi : y.getD i 0 = y[i] := by simp [h1]
  rw [hyi] at a b
  rw [hC.1] at a b
  simp only [List.getElem_map, List.getElem_range]
  by_contra hne
  have h3 := b (g i) (hg i hi)
  exact absurd ((hd _ _ _ (row_len hX i hi) (row_len hC _ a) (row_len hC _ (hg i hi))).1 h3) (not_le.2 (h i hi _ a hne))

/-- Two rounds with the same labels: `Fit` returns the means. -/
private theorem fit_of {dist : List K → List K → D} {n m k : ℕ} (hk : 0 < k) (hkn : k ≤ n) {X : List (List K)} (hX : Shape n m X) {order : ℕ → List ℕ} (ho : ∀ e, (order e).Perm (List.range n))
    (y : List ℕ) (h0 : labels dist (X.take k) X = some y) (hl : y.length = n) (hlt : ∀ i < n, y.getD i 0 < k) (h1 : labels dist (recompute k m X y (List.range n)) X = some y) :
    ∀ fuel, 4 < fuel → fit dist k m X order fuel = some (recompute k m X y (List.range n)) := by
  intro fuel hf
  have hg : ∀ o : List ℕ, o.Perm (List.range n) → Good n m k X y (recompute k m X y o) := fun o ho => by
    obtain ⟨a, b⟩ := recompute_spec (k := k) hX hl ho
    exact ⟨hl, hlt, a, b⟩
  obtain ⟨f, rfl⟩ : ∃ f, fuel = f + 1 := ⟨fuel - 1, by omega⟩
  rw [fit, if_neg (by rw [hX.1]; omega), fitLoop, if_neg (by omega)]
  simp only [h0, Option.bind_eq_bind, Option.bind_some]
  rw [Good.unique (hg _ (ho f)) (hg _ (List.Perm.refl _))]
  have hs := stable (dist := dist) hX ho (hg _ (List.Perm.refl _)) h1
  split
  · exact hs 2 0 f rfl (by omega)
  · exact hs 1 1 f rfl (by omega)

private theorem moment (S : Finset ℕ) (hS : S.Nonempty) (f : ℕ → K) (x : K) :
    (S.card : K) * (x - (∑ i ∈ S, f i) / (S.card : K)) ^ 2 = ∑ i ∈ S, (x - f i) ^ 2 - (∑ i ∈ S, ∑ i' ∈ S, (f i - f i') ^ 2) / (2 * (S.card : K)) := by
  have hc : (S.card : K) ≠ 0 := Nat.cast_ne_zero.2 hS.card_pos.ne'
  have e1 : ∑ i ∈ S, (x - f i) ^ 2 = S.card * x ^ 2 - 2 * x * (∑ i ∈ S, f i) + ∑ i ∈ S, f i ^ 2 := by
    have : ∀ i ∈ S, (x - f i) ^ 2 = x ^ 2 - 2 * x * f i + f i ^ 2 := fun i _ => by ring
    rw [Finset.sum_congr rfl this, Finset.sum_add_distrib, Finset.sum_sub_distrib, Finset.sum_const, nsmul_eq_mul, ← Finset.mul_sum]
  have e2 : ∀ i, ∑ i' ∈ S, (f i - f i') ^ 2 = S.card * f i ^ 2 - 2 * f i * (∑ i ∈ S, f i) + ∑ i ∈ S, f i ^ 2 := by
    intro i
    have : ∀ i' ∈ S, (f i - f i') ^ 2 = f i ^ 2 - 2 * f i * f i' + f i' ^ 2 := fun i _ => by ring
    rw [Finset.sum_congr rfl this, Finset.sum_add_distrib, Finset.sum_sub_distrib, Finset.sum_const, nsmul_eq_mul, ← Finset.mul_sum]
  have e3 : ∑ i ∈ S, ∑ i' ∈ S, (f i - f i') ^ 2 = 2 * S.card * (∑ i ∈ S, f i ^ 2) - 2 * (∑ i ∈ S, f i) ^ 2 := by
    rw [Finset.sum_congr rfl (fun i _ => e2 i), Finset.sum_add_distrib, Finset.sum_sub_distrib, Finset.sum_const, nsmul_eq_mul, ← Finset.mul_sum]
    have : ∑ i ∈ S, 2 * f i * ∑ i ∈ S, f i = 2 * (∑ i ∈ S, f i) ^ 2 := by
      rw [← Finset.sum_mul, ← Finset.mul_sum]; ring
    rw [this]; ring
  rw [e1, e3]
  field_simp
  ring

private theorem sqd_mean {n m k : ℕ} {X C : List (List K)} {y : List ℕ} (h : Good n m k X y C) (c : ℕ) (hc : c < k) (hne : ((Finset.range n).filter (fun i => y.getD i 0 = c)).Nonempty) (x : List K) :
    (((Finset.range n).filter (fun i => y.getD i 0 = c)).card : K) * sqd m x (C.getD c []) =
      ∑ i ∈ (Finset.range n).filter (fun i => y.getD i 0 = c), sqd m x (X.getD i []) -
      (∑ i ∈ (Finset.range n).filter (fun i => y.getD i 0 = c), ∑ i' ∈ (Finset.range n).filter (fun i => y.getD i 0 = c), sqd m (X.getD i []) (X.getD i' [])) /
        (2 * (((Finset.range n).filter (fun i => y.getD i 0 = c)).card : K)) := by
  set S := (Finset.range n).filter (fun i => y.getD i 0 = c) with hS
  have hcoord : ∀ j ∈ Finset.range m, (S.card : K) * (x.getD j 0 - (C.getD c []).getD j 0) ^ 2 = ∑ i ∈ S, (x.getD j 0 - cell X i j) ^ 2 - (∑ i ∈ S, ∑ i' ∈ S, (cell X i j - cell X i' j) ^ 2) / (2 * (S.card : K)) := by
    intro j hj
    have e : (C.getD c []).getD j 0 = (∑ i ∈ S, cell X i j) / (S.card : K) := h.means c j hc (Finset.mem_range.1 hj)
    rw [e]
    exact moment S hne (fun i => cell X i j) (x.getD j 0)
  unfold sqd
  rw [Finset.mul_sum, Finset.sum_congr rfl hcoord, Finset.sum_sub_distrib, ← Finset.sum_div, Finset.sum_comm]
  congr 2
  rw [Finset.sum_comm]
  refine Finset.sum_congr rfl (fun i _ => ?_)
  rw [Finset.sum_comm]
  rfl

/-- **C234** (partial: the first rows must lie in different groups, `C234_start_violated`).  Let the rows fall into `k` groups such that the squared distance of rows of different groups is greater than 3/2
of the squared distance of any two rows of one group, and let the first `k` rows lie in different groups (row `c` in group `c`).  Then `Fit` finds the groups: `Predict` labels every row with its group, and
each centroid is the mean of its group; for every distance that orders as the Euclidean one does and every order of summation. -/
theorem C234_recovers_partial {dist : List K → List K → D} {n m k : ℕ} (hk : 0 < k) (hkn : k ≤ n) (hd : Orders m dist) {X : List (List K)} (hX : Shape n m X)
    {order : ℕ → List ℕ} (ho : ∀ e, (order e).Perm (List.range n)) (g : ℕ → ℕ) (hg : ∀ i < n, g i < k) (hfirst : ∀ c < k, g c = c) (d : K)
    (hin : ∀ i < n, ∀ i' < n, g i = g i' → sqd m (X.getD i []) (X.getD i' []) ≤ d) (hout : ∀ i < n, ∀ i' < n, g i ≠ g i' → 3 / 2 * d < sqd m (X.getD i []) (X.getD i' [])) :
    ∃ C, (∀ fuel, 4 < fuel → fit dist k m X order fuel = some C) ∧ labels dist C X = some ((List.range n).map g) ∧ Shape k m C ∧
      ∀ c < k, ∀ j < m, cell C c j = (∑ i ∈ (Finset.range n).filter (fun i => g i = c), cell X i j) / (((Finset.range n).filter (fun i => g i = c)).card : K) := by
  have hd0 : 0 ≤ d := by
    have := hin 0 (by omega) 0 (by omega) rfl
    refine le_trans ?_ this
    exact Finset.sum_nonneg (fun _ _ => sq_nonneg _)
  have hT : Shape k m (X.take k) := ⟨by rw [List.length_take, hX.1]; omega, fun row hr => hX.2 row (List.mem_of_mem_take hr)⟩
  have htake : ∀ c < k, (X.take k).getD c [] = X.getD c [] := by
    intro c hc
    simp [List.getD_eq_getElem?_getD, hc]
  have h0 : labels dist (X.take k) X = some ((List.range n).map g) := by
    refine labels_eq hd hX hT hk g hg (fun i hi c hc hne => ?_)
    rw [htake _ (hg i hi), htake c hc]
    have a := hin i hi (g i) (by have := hg i hi; omega) (hfirst _ (hg i hi)).symm
    have b := hout i hi c (by omega) (by rw [hfirst c hc]; exact hne.symm)
    linarith
  set y := (List.range n).map g with hy
  have hlen : y.length = n := by simp [hy]
  have hyg : ∀ i < n, y.getD i 0 = g i := fun i hi => getD_map_range n g i hi
  have hlt : ∀ i < n, y.getD i 0 < k := fun i hi => by rw [hyg i hi]; exact hg i hi
  obtain ⟨hs, hm⟩ := recompute_spec (k := k) hX hlen (List.Perm.refl (List.range n))
  have good : Good n m k X y (recompute k m X y (List.range n)) := ⟨hlen, hlt, hs, hm⟩
  have hfil : ∀ c, (Finset.range n).filter (fun i => y.getD i 0 = c) = (Finset.range n).filter (fun i => g i = c) := by
    intro c
    refine Finset.filter_congr (fun i hi => ?_)
    rw [hyg i (Finset.mem_range.1 hi)]
  have h1 : labels dist (recompute k m X y (List.range n)) X = some y := by
    refine labels_eq hd hX hs hk g hg (fun i hi c hc hne => ?_)
    have hN : ∀ c < k, ((Finset.range n).filter (fun i => y.getD i 0 = c)).Nonempty := fun c hc =>
      ⟨c, Finset.mem_filter.2 ⟨Finset.mem_range.2 (by omega), by rw [hyg c (by omega), hfirst c hc]⟩⟩
    have hpos : ∀ c < k, (0 : K) < (((Finset.range n).filter (fun i => y.getD i 0 = c)).card : K) := fun c hc => Nat.cast_pos.2 (hN c hc).card_pos
    have own := sqd_mean good (g i) (hg i hi) (hN _ (hg i hi)) (X.getD i [])
    have oth := sqd_mean good c hc (hN c hc) (X.getD i [])
    have A : sqd m (X.getD i []) ((recompute k m X y (List.range n)).getD (g i) []) ≤ d := by
      have p := hpos _ (hg i hi)
      set S := (Finset.range n).filter (fun i' => y.getD i' 0 = g i) with hS
      have b1 : ∑ i' ∈ S, sqd m (X.getD i []) (X.getD i' []) ≤ S.card * d := by
        rw [← nsmul_eq_mul]
        refine Finset.sum_le_card_nsmul _ _ _ (fun i' hi' => ?_)
        obtain ⟨u, v⟩ := Finset.mem_filter.1 hi'
        have u' := Finset.mem_range.1 u
        exact hin i hi i' u' (by rw [← hyg i' u', v])
      have b2 : 0 ≤ (∑ i ∈ S, ∑ i' ∈ S, sqd m (X.getD i []) (X.getD i' [])) / (2 * (S.card : K)) :=
        div_nonneg (Finset.sum_nonneg (fun _ _ => Finset.sum_nonneg (fun _ _ => Finset.sum_nonneg (fun _ _ => sq_nonneg _)))) (by linarith)
      refine le_of_mul_le_mul_left ?_ p
      linarith
    have B : d < sqd m (X.getD i []) ((recompute k m X y (List.range n)).getD c []) := by
      have p := hpos c hc
      have ne := hN c hc
      set S := (Finset.range n).filter (fun i' => y.getD i' 0 = c) with hS
      have b1 : S.card * (3 / 2 * d) < ∑ i' ∈ S, sqd m (X.getD i []) (X.getD i' []) := by
        rw [← nsmul_eq_mul, ← Finset.sum_const]
        refine Finset.sum_lt_sum_of_nonempty ne (fun i' hi' => ?_)
        obtain ⟨u, v⟩ := Finset.mem_filter.1 hi'
        have u' := Finset.mem_range.1 u
        exact hout i hi i' u' (by rw [← hyg i' u', v]; exact hne.symm)
      have b2 : (∑ i ∈ S, ∑ i' ∈ S, sqd m (X.getD i []) (X.getD i' [])) ≤ S.card * (S.card * d) := by
        rw [← nsmul_eq_mul (S.card)]
        refine Finset.sum_le_card_nsmul _ _ _ (fun i1 hi1 => ?_)
        rw [← nsmul_eq_mul]
        refine Finset.sum_le_card_nsmul _ _ _ (fun i2 hi2 => ?_)
        obtain ⟨u, v⟩ := Finset.mem_filter.1 hi1
        obtain ⟨u2, v2⟩ := Finset.mem_filter.1 hi2
        exact hin i1 (Finset.mem_range.1 u) i2 (Finset.mem_range.1 u2) (by rw [← hyg i1 (Finset.mem_range.1 u), ← hyg i2 (Finset.mem_range.1 u2), v, v2])
      have b3 : (∑ i ∈ S, ∑ i' ∈ S, sqd m (X.getD i []) (X.getD i' [])) / (2 * (S.card : K)) ≤ S.card * d / 2 := by
        rw [div_le_iff₀ (by linarith)]
        calc _ ≤ (S.card : K) * (S.card * d) := b2
          _ = _ := by ring
      refine lt_of_mul_lt_mul_left ?_ p.le
      rw [oth]
      linarith
    linarith
  refine ⟨_, fit_of hk hkn hX ho y h0 hlen hlt h1, h1, hs, fun c hc j hj => ?_⟩
  rw [hm c j hc hj, mean, hfil]

/-- The squared distance, as a distance that orders rows as the Euclidean one; used in the concrete case. -/
private theorem sqd_orders (m : ℕ) : Orders (K := ℚ) m (sqd m) := fun _ _ _ _ _ _ => Iff.rfl

example : ∃ C, (∀ fuel, 4 < fuel → fit (sqd 2) 2 2 [[0, 0], [(9 : ℚ), 9], [1, 0], [8, 9]] (fun _ => List.range 4) fuel = some C) ∧ labels (sqd 2) C [[0, 0], [(9 : ℚ), 9], [1, 0], [8, 9]] = some [0, 1, 0, 1] := by
  obtain ⟨C, a, b, _⟩ := C234_recovers_partial (K := ℚ) (n := 4) (m := 2) (k := 2) (by omega) (by omega) (sqd_orders 2) (X := [[0, 0], [(9 : ℚ), 9], [1, 0], [8, 9]]) ⟨rfl, by decide⟩ (order := fun _ => List.range 4)
    (fun _ => List.Perm.refl _) (fun i => i % 2) (fun i _ => by omega) (fun c hc => by omega) 1 (by decide +kernel) (by decide +kernel)
  exact ⟨C, a, b⟩

/-- **C234** violated when two of the first rows lie in one group, however far the groups are apart: with 3 clusters and the rows 0, 1, `s`, `2s`, in this order, `Fit` separates the rows 0 and 1 and puts `s` and
`2s` into one cluster, for every `s ≥ 4`. -/
theorem C234_start_violated {dist : List K → List K → D} (hd : Orders 1 dist) {order : ℕ → List ℕ} (ho : ∀ e, (order e).Perm (List.range 4)) (s : K) (hs : 4 ≤ s) :
    ∃ C, (∀ fuel, 4 < fuel → fit dist 3 1 [[0], [1], [s], [2 * s]] order fuel = some C) ∧ labels dist C [[0], [1], [s], [2 * s]] = some [0, 1, 2, 2] := by
  have hX : Shape 4 1 [[0], [1], [s], [2 * s]] := ⟨rfl, by simp⟩
  have hT : Shape 3 1 ([[0], [1], [s], [2 * s]].take 3) := ⟨rfl, by simp⟩
  have h0 : labels dist ([[0], [1], [s], [2 * s]].take 3) [[0], [1], [s], [2 * s]] = some ((List.range 4).map (fun i => min i 2)) := by
    refine labels_eq hd hX hT (by omega) _ (fun i _ => by omega) (fun i hi c hc hne => ?_)
    interval_cases i <;> interval_cases c <;> simp [sqd] at hne ⊢ <;> nlinarith
  have hy : (List.range 4).map (fun i => min i 2) = [0, 1, 2, 2] := rfl
  rw [hy] at h0
  obtain ⟨hsh, hm⟩ := recompute_spec (k := 3) (y := [0, 1, 2, 2]) hX rfl (List.Perm.refl (List.range 4))
  have c0 : ((recompute 3 1 [[0], [1], [s], [2 * s]] [0, 1, 2, 2] (List.range 4)).getD 0 []).getD 0 0 = 0 := by
    refine (hm 0 0 (by omega) (by omega)).trans ?_
    rw [mean, show (Finset.range 4).filter (fun i => [0, 1, 2, 2].getD i 0 = 0) = {0} by decide]
    simp [cell]
  have c1 : ((recompute 3 1 [[0], [1], [s], [2 * s]] [0, 1, 2, 2] (List.range 4)).getD 1 []).getD 0 0 = 1 := by
    refine (hm 1 0 (by omega) (by omega)).trans ?_
    rw [mean, show (Finset.range 4).filter (fun i => [0, 1, 2, 2].getD i 0 = 1) = {1} by decide]
    simp [cell]
  have c2 : ((recompute 3 1 [[0], [1], [s], [2 * s]] [0, 1, 2, 2] (List.range 4)).getD 2 []).getD 0 0 = 3 / 2 * s := by
    refine (hm 2 0 (by omega) (by omega)).trans ?_
    rw [mean, show (Finset.range 4).filter (fun i => [0, 1, 2, 2].getD i 0 = 2) = {2, 3} by decide]
    rw [Finset.sum_pair (by decide), Finset.card_pair (by decide)]
    simp [cell]
    ring
  have h1 : labels dist (recompute 3 1 [[0], [1], [s], [2 * s]] [0, 1, 2, 2] (List.range 4)) [[0], [1], [s], [2 * s]] = some ((List.range 4).map (fun i => min i 2)) := by
    refine labels_eq hd hX hsh (by omega) _ (fun i _ => by omega) (fun i hi c hc hne => ?_)
    interval_cases i <;> interval_cases c <;> simp only [sqd, Finset.sum_range_one, c0, c1, c2, Nat.zero_min, Nat.min_self, show min 1 2 = 1 from rfl, show min 3 2 = 2 from rfl] at hne ⊢ <;> simp at hne ⊢ <;> nlinarith
  rw [hy] at h1
  exact ⟨_, fit_of (by omega) (by omega) hX ho [0, 1, 2, 2] h0 rfl (by decide) h1, h1⟩

example : fit (sqd 1) 3 1 [[0], [(1 : ℚ)], [10], [20]] (fun _ => [2, 0, 3, 1]) 6 = some [[0], [1], [15]] ∧ labels (sqd 1) [[0], [1], [15]] [[0], [(1 : ℚ)], [10], [20]] = some [0, 1, 2, 2] := by decide +kernel

end Sk.KMeans
