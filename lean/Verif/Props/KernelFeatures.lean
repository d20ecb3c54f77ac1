import Verif.Model.Scale
import Mathlib.Algebra.BigOperators.Fin
import Mathlib.Algebra.BigOperators.Field
import Mathlib.Algebra.BigOperators.Ring.Finset
import Mathlib.Algebra.Order.BigOperators.Ring.Finset
import Mathlib.Tactic.Ring
import Mathlib.Tactic.FieldSimp
import Mathlib.Tactic.LinearCombination

/-! # C227: KernelCenterer centres the features behind the kernel -/
set_option autoImplicit false

namespace Sk.Scale

variable {K : Type} [Field K] [LinearOrder K] [IsStrictOrderedRing K]

/-! ### Specification -/

/-- A matrix as a list of rows. -/
def rowsOf {m n : ℕ} (G : Fin m → Fin n → K) : List (List K) := List.ofFn (fun i => List.ofFn (fun j => G i j))

/-- Inner products of the rows of `A` with the rows of `B`. -/
def gram {m n p : ℕ} (A : Fin m → Fin p → K) (B : Fin n → Fin p → K) : Fin m → Fin n → K := fun a i => ∑ l, A a l * B i l

/-- Mean of the rows. -/
def meanRow {n p : ℕ} (B : Fin n → Fin p → K) : Fin p → K := fun l => (∑ i, B i l) / n

/-- The matrix `H` (kernel values of rows against the training rows) as centred by a fit on `G`. -/
def centredBy {m n : ℕ} (G : Fin n → Fin n → K) (H : Fin m → Fin n → K) : Fin m → Fin n → K := fun a j => H a j - (∑ i, G i j) / n - (∑ i, H a i) / n + (∑ j, (∑ i, G i j) / n) / n

/-! ### The code on matrices -/

omit [LinearOrder K] [IsStrictOrderedRing K] in
theorem kcFit_rowsOf {n : ℕ} (G : Fin n → Fin n → K) : kcFit (rowsOf G) n = (List.ofFn (fun j => (∑ i, G i j) / n), (∑ j, (∑ i, G i j) / n) / n) := by
  have h : (List.range n).map (fun j => ((rowsOf G).map (fun r => r.getD j 0)).sum / ((rowsOf G).length : K)) = List.ofFn (fun j : Fin n => (∑ i, G i j) / n) := by
    apply List.ext_getElem
    · simp
    · intro j h1 h2
      have hj : j < n := by simpa using h2
      rw [List.getElem_map, List.getElem_range, List.getElem_ofFn]
      have e : (rowsOf G).map (fun r => r.getD j 0) = List.ofFn (fun i => G i ⟨j, hj⟩) := by
        rw [rowsOf, List.map_ofFn]
        congr 1
        funext i
        simp [List.getD_eq_getElem?_getD, hj]
      rw [e, List.sum_ofFn]
      simp [rowsOf]
  rw [kcFit, h, List.sum_ofFn]
  simp [rowsOf]

omit [LinearOrder K] [IsStrictOrderedRing K] in
/-- `Fit` on a square matrix, `Transform` of at most as many rows. -/
theorem kc_rowsOf {m n : ℕ} (hm : m ≤ n) (G : Fin n → Fin n → K) (H : Fin m → Fin n → K) :
    kcTransform (kcFit (rowsOf G) n) (rowsOf H) n = some (rowsOf (centredBy G H) ++ List.replicate (n - m) (List.replicate n 0)) := by
  rw [kcFit_rowsOf, kcTransform, if_neg (by simp [rowsOf]; omega)]
  have hl : (rowsOf H).length = m := by simp [rowsOf]
  rw [hl]
  congr 2
  conv_lhs => rw [rowsOf, List.map_ofFn]
  rw [rowsOf]
  congr 1
  funext a
  simp only [Function.comp, List.sum_ofFn, List.length_ofFn]
  apply List.ext_getElem
  · simp
  · intro j h1 h2
    rw [List.getElem_zipWith, List.getElem_ofFn, List.getElem_ofFn, List.getElem_ofFn]
    rfl

/-- **C227, features.** Kernel values that are inner products of features: `Transform` of the kernel values between any at most `n` rows and the training rows gives the inner products of the features minus the mean of the training features (then rows of zeros, C67). -/
theorem C227_features {m n p : ℕ} (hn : n ≠ 0) (hm : m ≤ n) (Φ : Fin n → Fin p → K) (Ψ : Fin m → Fin p → K) :
    kcTransform (kcFit (rowsOf (gram Φ Φ)) n) (rowsOf (gram Ψ Φ)) n =
      some (rowsOf (gram (fun a l => Ψ a l - meanRow Φ l) (fun i l => Φ i l - meanRow Φ l)) ++ List.replicate (n - m) (List.replicate n 0)) := by
  rw [kc_rowsOf hm]
  congr 3
  funext a j
  have hn' : (n : K) ≠ 0 := Nat.cast_ne_zero.2 hn
  simp only [centredBy, gram, meanRow]
  have e1 : (∑ i, ∑ l, Φ i l * Φ j l) / n = ∑ l, (∑ i, Φ i l) / n * Φ j l := by
    rw [Finset.sum_comm, Finset.sum_div]
    apply Finset.sum_congr rfl
    intro l _
    rw [← Finset.sum_mul]; ring
  have e2 : (∑ i, ∑ l, Ψ a l * Φ i l) / n = ∑ l, Ψ a l * ((∑ i, Φ i l) / n) := by
    rw [Finset.sum_comm, Finset.sum_div]
    apply Finset.sum_congr rfl
    intro l _
    rw [← Finset.mul_sum]; ring
  have e3 : (∑ j, (∑ i, ∑ l, Φ i l * Φ j l) / n) / n = ∑ l, (∑ i, Φ i l) / n * ((∑ i, Φ i l) / n) := by
    have : ∀ j, (∑ i, ∑ l, Φ i l * Φ j l) / n = ∑ l, (∑ i, Φ i l) / n * Φ j l := by
      intro j
      rw [Finset.sum_comm, Finset.sum_div]
      apply Finset.sum_congr rfl
      intro l _
      rw [← Finset.sum_mul]; ring
    rw [Finset.sum_congr rfl (fun j _ => this j), Finset.sum_comm, Finset.sum_div]
    apply Finset.sum_congr rfl
    intro l _
    rw [← Finset.mul_sum]; ring
  rw [e1, e2, e3, ← Finset.sum_sub_distrib, ← Finset.sum_sub_distrib, ← Finset.sum_add_distrib]
  apply Finset.sum_congr rfl
  intro l _
  ring

/-- **C227, origin.** Moving all features by the same vector does not change the result. -/
theorem C227_moved {m n p : ℕ} (hn : n ≠ 0) (hm : m ≤ n) (Φ : Fin n → Fin p → K) (Ψ : Fin m → Fin p → K) (s : Fin p → K) :
    kcTransform (kcFit (rowsOf (gram (fun i l => Φ i l + s l) (fun i l => Φ i l + s l))) n) (rowsOf (gram (fun a l => Ψ a l + s l) (fun i l => Φ i l + s l))) n =
      kcTransform (kcFit (rowsOf (gram Φ Φ)) n) (rowsOf (gram Ψ Φ)) n := by
  have hn' : (n : K) ≠ 0 := Nat.cast_ne_zero.2 hn
  rw [C227_features hn hm, C227_features hn hm]
  have e : ∀ l, meanRow (fun i l => Φ i l + s l) l = meanRow Φ l + s l := by
    intro l
    simp only [meanRow, Finset.sum_add_distrib, Finset.sum_const, Finset.card_univ, Fintype.card_fin, nsmul_eq_mul]
    field_simp
  simp only [e, add_sub_add_right_eq_sub]

/-- **C227, distances and repetition.** For every square matrix, centring keeps the squared distances `G i i + G j j - G i j - G j i`, and centring the centred matrix changes nothing. -/
theorem C227_square {n : ℕ} (hn : n ≠ 0) (G : Fin n → Fin n → K) :
    ∃ C : Fin n → Fin n → K, kcTransform (kcFit (rowsOf G) n) (rowsOf G) n = some (rowsOf C) ∧ (∀ i j, C i i + C j j - C i j - C j i = G i i + G j j - G i j - G j i) ∧
      kcTransform (kcFit (rowsOf C) n) (rowsOf C) n = some (rowsOf C) := by
  have hn' : (n : K) ≠ 0 := Nat.cast_ne_zero.2 hn
  have hself : ∀ G : Fin n → Fin n → K, kcTransform (kcFit (rowsOf G) n) (rowsOf G) n = some (rowsOf (centredBy G G)) := by
    intro G
    rw [kc_rowsOf le_rfl]
    simp
  refine ⟨centredBy G G, hself G, fun i j => by simp only [centredBy]; ring, ?_⟩
  rw [hself]
  congr 2
  have hc : ∀ j, ∑ i, centredBy G G i j = 0 := by
    intro j
    simp only [centredBy, Finset.sum_add_distrib, Finset.sum_sub_distrib, Finset.sum_const, Finset.card_univ, Fintype.card_fin, nsmul_eq_mul, ← Finset.sum_div]
    rw [Finset.sum_comm (f := fun i j => G i j)]
    field_simp
    ring
  have hr : ∀ i, ∑ j, centredBy G G i j = 0 := by
    intro i
    simp only [centredBy, Finset.sum_add_distrib, Finset.sum_sub_distrib, Finset.sum_const, Finset.card_univ, Fintype.card_fin, nsmul_eq_mul, ← Finset.sum_div]
    field_simp
    ring
  funext i j
  conv_lhs => rw [centredBy]
  rw [hc j, hr i, Finset.sum_congr rfl (fun j _ => by rw [hc j])]
  simp

/-- Features (1,0), (0,2) and a query (1,1). -/
example : kcTransform (kcFit (rowsOf (gram (K := ℚ) ![![1, 0], ![0, 2]] ![![1, 0], ![0, 2]])) 2) (rowsOf (gram (K := ℚ) ![![1, 1]] ![![1, 0], ![0, 2]])) 2 = some [[1 / 4, -1 / 4], [0, 0]] := by decide +kernel

end Sk.Scale
