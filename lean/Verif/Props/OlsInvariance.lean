import Verif.Props.Linear
import Verif.Model.Metrics
import Mathlib.LinearAlgebra.Matrix.ToLinearEquiv
import Mathlib.LinearAlgebra.Matrix.Determinant.Basic

/-! # C197: LinearRegression finds the one best fit, whatever the order, the coordinates and the units -/
set_option autoImplicit false

namespace Sk.Lin

/-! ### Specification -/

/-- No combination of the columns of `A` is zero. -/
def Independent {n p : ℕ} (A : Fin n → Fin p → ℝ) : Prop := ∀ c : Fin p → ℝ, (∀ i, ∑ j, A i j * c j = 0) → c = 0

/-- The solver solves least squares problems with independent columns. -/
def LeastSquares {n p : ℕ} (solve : (Fin n → Fin p → ℝ) → (Fin n → ℝ) → Fin p → ℝ) : Prop :=
  ∀ A b, Independent A → ∀ c : Fin p → ℝ, ∑ i, (b i - ∑ j, A i j * solve A b j) ^ 2 ≤ ∑ i, (b i - ∑ j, A i j * c j) ^ 2

/-- The samples lie in no hyperplane. -/
def Spans {n p : ℕ} (X : Fin n → Fin p → ℝ) : Prop := ∀ (c : Fin p → ℝ) (b : ℝ), (∀ i, ∑ j, X i j * c j + b = 0) → c = 0

/-- Sum of the squared residuals of coefficients and intercept. -/
noncomputable def sse {n p : ℕ} (X : Fin n → Fin p → ℝ) (y : Fin n → ℝ) (m : Coefs p) : ℝ := ∑ i, (y i - (∑ j, X i j * m.coef j + m.intercept)) ^ 2

theorem Spans.varies {n p : ℕ} {X : Fin n → Fin p → ℝ} (h : Spans X) (j : Fin p) : Varies (fun i => X i j) := by
  by_contra hv
  have hc : ∃ v, ∀ i, X i j = v := by
    by_cases hn : Nonempty (Fin n)
    · obtain ⟨i0⟩ := hn
      refine ⟨X i0 j, fun i => ?_⟩
      by_contra hne
      exact hv ⟨i, i0, hne⟩
    · exact ⟨0, fun i => absurd ⟨i⟩ hn⟩
  obtain ⟨v, hv⟩ := hc
  have := h (Pi.single j 1) (-v) (fun i => by simp [Pi.single_apply, hv])
  have := congrFun this j
  simp at this

theorem Spans.independent {n p : ℕ} {X : Fin n → Fin p → ℝ} (h : Spans X) (mu d : Fin p → ℝ) (hd : ∀ j, d j ≠ 0) : Independent (fun i j => (X i j - mu j) / d j) := by
  intro c hc
  have := h (fun j => c j / d j) (- ∑ j, mu j * (c j / d j)) (fun i => by
    rw [← hc i, ← sub_eq_add_neg, ← Finset.sum_sub_distrib]
    apply Finset.sum_congr rfl
    intro j _
    ring)
  funext j
  have := congrFun this j
  simp only [Pi.zero_apply, div_eq_zero_iff, hd j, or_false] at this
  exact this

/-- A least squares solution satisfies the normal equations. -/
theorem normal_of_best {n p : ℕ} {A : Fin n → Fin p → ℝ} {b : Fin n → ℝ} {s : Fin p → ℝ} (h : ∀ c : Fin p → ℝ, ∑ i, (b i - ∑ j, A i j * s j) ^ 2 ≤ ∑ i, (b i - ∑ j, A i j * c j) ^ 2) (j : Fin p) :
    ∑ i, A i j * (b i - ∑ k, A i k * s k) = 0 := by
  set r : Fin n → ℝ := fun i => b i - ∑ k, A i k * s k with hr
  have key : ∀ e : ℝ, 0 ≤ e ^ 2 * (∑ i, A i j ^ 2) - 2 * e * ∑ i, A i j * r i := by
    intro e
    have h1 := h (fun k => s k + e * if k = j then 1 else 0)
    have h2 : ∀ i, b i - ∑ k, A i k * (s k + e * if k = j then 1 else 0) = r i - e * A i j := by
      intro i
      simp only [mul_add, Finset.sum_add_distrib, hr]
      have : ∑ k, A i k * (e * if k = j then 1 else 0) = e * A i j := by
        simp [Finset.sum_ite_eq', mul_comm]
      rw [this]
      ring
    simp only [h2] at h1
    have h3 : ∑ i, (r i - e * A i j) ^ 2 = ∑ i, r i ^ 2 + (e ^ 2 * (∑ i, A i j ^ 2) - 2 * e * ∑ i, A i j * r i) := by
      rw [Finset.mul_sum, Finset.mul_sum, ← Finset.sum_sub_distrib, ← Finset.sum_add_distrib]
      apply Finset.sum_congr rfl
      intro i _
      ring
    rw [h3] at h1
    linarith
  set q := ∑ i, A i j ^ 2
  set t := ∑ i, A i j * r i
  have hq : 0 ≤ q := Finset.sum_nonneg (fun _ _ => sq_nonneg _)
  by_contra ht
  have ht : t ≠ 0 := ht
  have h4 := key (t / (q + 1))
  have hq1 : 0 < q + 1 := by linarith
  have h5 : (t / (q + 1)) ^ 2 * q - 2 * (t / (q + 1)) * t = - (t ^ 2 * (q + 2)) / (q + 1) ^ 2 := by
    field_simp
    ring
  rw [h5] at h4
  have h6 : 0 < t ^ 2 * (q + 2) / (q + 1) ^ 2 := by positivity
  rw [neg_div] at h4
  linarith

/-- The normal equations of the model, from the specification of the solver. -/
theorem fit_normal {n p : ℕ} (normalize : Bool) {solve : (Fin n → Fin p → ℝ) → (Fin n → ℝ) → Fin p → ℝ} (hs : LeastSquares solve) (old : ℝ) {X : Fin n → Fin p → ℝ} (hX : Spans X) (y : Fin n → ℝ) (hn : n ≠ 0) :
    ∃ m, fit true normalize solve old X y = some m ∧ (∑ i, (y i - decision m (X i)) = 0) ∧ ∀ j, ∑ i, X i j * (y i - decision m (X i)) = 0 := by
  have hv : normalize = true → ∀ j, Varies (fun i => X i j) := fun _ j => hX.varies j
  set A : Fin n → Fin p → ℝ := fun i j => (X i j - colMean (fun i => X i j)) / divisor normalize X j with hA
  have hI : Independent A := hX.independent _ _ (divisor_ne normalize X hv)
  -- the solver, replaced by one that satisfies the normal equations wherever it can
  set b : Fin n → ℝ := fun i => y i - colMean y with hb
  have hN : ∀ j, ∑ i, A i j * (b i - ∑ k, A i k * solve A b k) = 0 := fun j => normal_of_best (hs A b hI) j
  obtain ⟨m, hm, hd⟩ := C48_recombination normalize solve old X y hv
  have hr : ∀ i, y i - decision m (X i) = b i - ∑ k, A i k * solve A b k := by
    intro i
    rw [hd (X i)]
    simp only [hA, hb]
    ring
  have hA0 : ∀ j, ∑ i, A i j = 0 := by
    intro j
    simp only [hA]
    rw [← Finset.sum_div, sum_centred _ hn, zero_div]
  have hsum : ∑ i, (y i - decision m (X i)) = 0 := by
    rw [Finset.sum_congr rfl (fun i _ => hr i), Finset.sum_sub_distrib]
    rw [show ∑ i, b i = 0 from sum_centred y hn, Finset.sum_comm]
    have : ∑ k, ∑ i, A i k * solve A b k = 0 := by
      apply Finset.sum_eq_zero
      intro k _
      rw [← Finset.sum_mul, hA0, zero_mul]
    rw [this, sub_zero]
  refine ⟨m, hm, hsum, fun j => ?_⟩
  have hXA : ∀ i, X i j = A i j * divisor normalize X j + colMean (fun i => X i j) := by
    intro i
    simp only [hA]
    rw [div_mul_cancel₀ _ (divisor_ne normalize X hv j)]
    ring
  have h2 : ∑ i, X i j * (y i - decision m (X i)) = divisor normalize X j * (∑ i, A i j * (b i - ∑ k, A i k * solve A b k)) + colMean (fun i => X i j) * ∑ i, (y i - decision m (X i)) := by
    rw [Finset.mul_sum, Finset.mul_sum, ← Finset.sum_add_distrib]
    apply Finset.sum_congr rfl
    intro i _
    rw [← hr i]
    conv_lhs => rw [hXA i]
    ring
  rw [h2, hN j, hsum]
  ring

/-- Residuals orthogonal to all affine functions of the samples: the excess of any other model is the sum of the squared differences of the predictions. -/
theorem sse_excess {n p : ℕ} {X : Fin n → Fin p → ℝ} {y : Fin n → ℝ} {m : Coefs p} (h0 : ∑ i, (y i - decision m (X i)) = 0) (h1 : ∀ j, ∑ i, X i j * (y i - decision m (X i)) = 0) (m' : Coefs p) :
    sse X y m' = sse X y m + ∑ i, (decision m (X i) - decision m' (X i)) ^ 2 := by
  have key : ∑ i, (y i - decision m (X i)) * (decision m (X i) - decision m' (X i)) = 0 := by
    have e : ∀ i, (y i - decision m (X i)) * (decision m (X i) - decision m' (X i)) =
        (∑ j, (m.coef j - m'.coef j) * (X i j * (y i - decision m (X i)))) + (m.intercept - m'.intercept) * (y i - decision m (X i)) := by
      intro i
      have : ∑ j, (m.coef j - m'.coef j) * (X i j * (y i - decision m (X i))) = ((∑ j, X i j * m.coef j) - ∑ j, X i j * m'.coef j) * (y i - decision m (X i)) := by
        rw [← Finset.sum_sub_distrib, Finset.sum_mul]
        apply Finset.sum_congr rfl
        intro j _
        ring
      rw [this]
      simp only [decision]
      ring
    rw [Finset.sum_congr rfl (fun i _ => e i), Finset.sum_add_distrib, Finset.sum_comm, ← Finset.mul_sum, h0, mul_zero, add_zero]
    apply Finset.sum_eq_zero
    intro j _
    rw [← Finset.mul_sum, h1 j, mul_zero]
  have e2 : sse X y m' = sse X y m + 2 * (∑ i, (y i - decision m (X i)) * (decision m (X i) - decision m' (X i))) + ∑ i, (decision m (X i) - decision m' (X i)) ^ 2 := by
    simp only [sse]
    rw [Finset.mul_sum, ← Finset.sum_add_distrib, ← Finset.sum_add_distrib]
    apply Finset.sum_congr rfl
    intro i _
    simp only [decision]
    ring
  rw [e2, key]
  ring

theorem eq_of_decisions {n p : ℕ} (hn : n ≠ 0) {X : Fin n → Fin p → ℝ} (hX : Spans X) {m m' : Coefs p} (h : ∀ i, decision m (X i) = decision m' (X i)) : m = m' := by
  have e : ∀ i, ∑ j, X i j * (m.coef j - m'.coef j) + (m.intercept - m'.intercept) = 0 := by
    intro i
    have := h i
    simp only [decision] at this
    simp only [mul_sub, Finset.sum_sub_distrib]
    linarith
  have hc := hX (fun j => m.coef j - m'.coef j) _ e
  have hc' : m.coef = m'.coef := funext fun j => sub_eq_zero.1 (congrFun hc j)
  have hb := e ⟨0, Nat.pos_of_ne_zero hn⟩
  have hz : ∀ j, m.coef j - m'.coef j = 0 := fun j => congrFun hc j
  simp only [hz, mul_zero, Finset.sum_const_zero, zero_add] at hb
  cases m; cases m'
  simp only at hc' hb
  rw [hc', sub_eq_zero.1 hb]

/-- **C197, the best fit.** If the samples lie in no hyperplane, `Fit` (with intercept, normalising or not, whatever intercept was left from before) finds the coefficients and the intercept with the least sum of
squared residuals; all others have a greater one. -/
theorem C197_best {n p : ℕ} (hn : n ≠ 0) (normalize : Bool) {solve : (Fin n → Fin p → ℝ) → (Fin n → ℝ) → Fin p → ℝ} (hs : LeastSquares solve) (old : ℝ) {X : Fin n → Fin p → ℝ} (hX : Spans X) (y : Fin n → ℝ) :
    ∃ m, fit true normalize solve old X y = some m ∧ ∀ m', m' ≠ m → sse X y m < sse X y m' := by
  obtain ⟨m, hm, h0, h1⟩ := fit_normal normalize hs old hX y hn
  refine ⟨m, hm, fun m' hne => ?_⟩
  rw [sse_excess h0 h1 m']
  have hne' : ∃ i, decision m (X i) ≠ decision m' (X i) := by
    by_contra hh
    push Not at hh
    exact hne (eq_of_decisions hn hX hh).symm
  obtain ⟨i, hi⟩ := hne'
  have : 0 < ∑ i, (decision m (X i) - decision m' (X i)) ^ 2 := by
    refine Finset.sum_pos' (fun _ _ => sq_nonneg _) ⟨i, Finset.mem_univ _, ?_⟩
    have := sub_ne_zero.2 hi
    positivity
  linarith

/-- **C197, exact data.** Outputs that are an affine function of the features: `Fit` finds its coefficients and its intercept. -/
theorem C197_exact {n p : ℕ} (hn : n ≠ 0) (normalize : Bool) {solve : (Fin n → Fin p → ℝ) → (Fin n → ℝ) → Fin p → ℝ} (hs : LeastSquares solve) (old : ℝ) {X : Fin n → Fin p → ℝ} (hX : Spans X) (c : Fin p → ℝ) (b : ℝ) :
    fit true normalize solve old X (fun i => ∑ j, X i j * c j + b) = some ⟨c, b⟩ := by
  obtain ⟨m, hm, h⟩ := C197_best hn normalize hs old hX (fun i => ∑ j, X i j * c j + b)
  by_cases e : (⟨c, b⟩ : Coefs p) = m
  · rw [hm, e]
  · have := h _ e
    have h0 : sse X (fun i => ∑ j, X i j * c j + b) ⟨c, b⟩ = 0 := by simp [sse]
    rw [h0] at this
    exact absurd this (not_lt.2 (Finset.sum_nonneg (fun _ _ => sq_nonneg _)))

/-- **C197, other coordinates.** The samples in another order, their features replaced by any invertible linear map of the features plus constants, the outputs multiplied and shifted, normalising or not, another
solver: the predictions of the new model at the new features of any row are those of the old model, multiplied and shifted. -/
theorem C197_equivariant {n p : ℕ} (hn : n ≠ 0) (normalize normalize' : Bool) {solve solve' : (Fin n → Fin p → ℝ) → (Fin n → ℝ) → Fin p → ℝ} (hs : LeastSquares solve) (hs' : LeastSquares solve') (old old' : ℝ)
    {X : Fin n → Fin p → ℝ} (hX : Spans X) (y : Fin n → ℝ) (π : Equiv.Perm (Fin n)) (L : (Fin p → ℝ) ≃ₗ[ℝ] (Fin p → ℝ)) (s : Fin p → ℝ) (a b : ℝ) :
    ∃ m m', fit true normalize solve old X y = some m ∧ fit true normalize' solve' old' (fun i => L (X (π i)) + s) (fun i => a * y (π i) + b) = some m' ∧
      ∀ x, decision m' (L x + s) = a * decision m x + b := by
  -- an affine function of the features is one of the new features
  have push : ∀ m : Coefs p, ∃ m' : Coefs p, ∀ x, decision m' (L x + s) = decision m x := by
    intro m
    let f : (Fin p → ℝ) →ₗ[ℝ] ℝ := (Fintype.linearCombination ℝ m.coef).comp L.symm.toLinearMap
    have hf : ∀ z, f z = ∑ j, z j * f (Pi.single j 1) := by
      intro z
      conv_lhs => rw [LinearMap.pi_apply_eq_sum_univ f z]
      apply Finset.sum_congr rfl
      intro j _
      rw [smul_eq_mul]
      congr 2
      funext k
      simp [Pi.single_apply, eq_comm]
    refine ⟨⟨fun j => f (Pi.single j 1), m.intercept - f s⟩, fun x => ?_⟩
    simp only [decision]
    rw [← hf, map_add]
    have : f (L x) = ∑ j, x j * m.coef j := by
      simp [f, Fintype.linearCombination_apply]
    rw [this]
    ring
  have hX' : Spans (fun i => L (X (π i)) + s) := by
    intro c b hc
    have pull : ∃ d : Fin p → ℝ, ∀ x, ∑ j, L x j * c j = ∑ j, x j * d j := by
      let g : (Fin p → ℝ) →ₗ[ℝ] ℝ := (Fintype.linearCombination ℝ c).comp L.toLinearMap
      refine ⟨fun j => g (Pi.single j 1), fun x => ?_⟩
      have h1 : ∑ j, L x j * c j = g x := by simp [g, Fintype.linearCombination_apply]
      rw [h1]
      conv_lhs => rw [LinearMap.pi_apply_eq_sum_univ g x]
      apply Finset.sum_congr rfl
      intro j _
      rw [smul_eq_mul]
      congr 2
      funext k
      simp [Pi.single_apply, eq_comm]
    obtain ⟨d, hd⟩ := pull
    have hd0 := hX d (∑ j, s j * c j + b) (fun i => by
      have := hc (π.symm i)
      simp only [Equiv.apply_symm_apply, Pi.add_apply, add_mul, Finset.sum_add_distrib, hd] at this
      linarith)
    funext j
    have := hd (L.symm (Pi.single j 1))
    rw [hd0] at this
    simpa [Pi.single_apply] using this
  obtain ⟨m, hm, h0, h1⟩ := fit_normal normalize hs old hX y hn
  obtain ⟨m', hm', hb'⟩ := C197_best hn normalize' hs' old' hX' (fun i => a * y (π i) + b)
  refine ⟨m, m', hm, hm', ?_⟩
  -- the candidate
  obtain ⟨q, hq⟩ := push ⟨fun j => a * m.coef j, a * m.intercept + b⟩
  have hqd : ∀ x, decision q (L x + s) = a * decision m x + b := by
    intro x
    rw [hq x]
    simp only [decision]
    rw [mul_add, Finset.mul_sum, ← add_assoc]
    congr 2
    apply Finset.sum_congr rfl
    intro j _
    ring
  suffices m' = q by rw [this]; exact hqd
  by_contra hne
  have hlt := hb' q (Ne.symm hne)
  have hbest : ∀ m2 : Coefs p, sse (fun i => L (X (π i)) + s) (fun i => a * y (π i) + b) q ≤ sse (fun i => L (X (π i)) + s) (fun i => a * y (π i) + b) m2 := by
    intro m2
    have r : ∀ i, (a * y (π i) + b) - decision q (L (X (π i)) + s) = a * (y (π i) - decision m (X (π i))) := by
      intro i
      rw [hqd]
      ring
    have g0 : ∑ i, ((a * y (π i) + b) - decision q (L (X (π i)) + s)) = 0 := by
      rw [Finset.sum_congr rfl (fun i _ => r i), ← Finset.mul_sum, Equiv.sum_comp π (fun i => y i - decision m (X i)), h0, mul_zero]
    have g1 : ∀ j, ∑ i, (L (X (π i)) + s) j * ((a * y (π i) + b) - decision q (L (X (π i)) + s)) = 0 := by
      intro j
      have hL : ∀ x, L x j = ∑ k, x k * L (Pi.single k 1) j := by
        intro x
        let g : (Fin p → ℝ) →ₗ[ℝ] ℝ := (LinearMap.proj j).comp L.toLinearMap
        have h1 : L x j = g x := rfl
        rw [h1]
        conv_lhs => rw [LinearMap.pi_apply_eq_sum_univ g x]
        apply Finset.sum_congr rfl
        intro k _
        rw [smul_eq_mul]
        congr 1
        have : (fun l => if k = l then (1 : ℝ) else 0) = Pi.single k 1 := by
          funext l
          simp [Pi.single_apply, eq_comm]
        rw [this]
        rfl
      have e : ∀ i, (L (X (π i)) + s) j * ((a * y (π i) + b) - decision q (L (X (π i)) + s)) =
          (∑ k, (L (Pi.single k 1) j * a) * (X (π i) k * (y (π i) - decision m (X (π i))))) + s j * a * (y (π i) - decision m (X (π i))) := by
        intro i
        rw [r, Pi.add_apply, hL (X (π i)), add_mul, Finset.sum_mul]
        congr 1
        · apply Finset.sum_congr rfl
          intro k _
          ring
        · ring
      rw [Finset.sum_congr rfl (fun i _ => e i), Finset.sum_add_distrib, Finset.sum_comm, ← Finset.mul_sum, Equiv.sum_comp π (fun i => y i - decision m (X i)), h0, mul_zero, add_zero]
      apply Finset.sum_eq_zero
      intro k _
      rw [← Finset.mul_sum, Equiv.sum_comp π (fun i => X i k * (y i - decision m (X i))), h1 k, mul_zero]
    rw [sse_excess g0 g1 m2]
    have : 0 ≤ ∑ i, (decision q (L (X (π i)) + s) - decision m2 (L (X (π i)) + s)) ^ 2 := Finset.sum_nonneg (fun _ _ => sq_nonneg _)
    linarith
  exact absurd hlt (not_lt.2 (hbest m'))

/-- **C197, the score of the training data.** `Score` on the data of `Fit` is between 0 and 1. -/
theorem C197_score {n p : ℕ} (hn : n ≠ 0) (normalize : Bool) {solve : (Fin n → Fin p → ℝ) → (Fin n → ℝ) → Fin p → ℝ} (hs : LeastSquares solve) (old : ℝ) {X : Fin n → Fin p → ℝ} (hX : Spans X) (y : Fin n → ℝ)
    {eps : ℝ} (he : 0 < eps) :
    ∃ m r, fit true normalize solve old X y = some m ∧ Metrics.r2Score eps [List.ofFn y] [List.ofFn (fun i => decision m (X i))] none .uniform = some [r] ∧ 0 ≤ r ∧ r ≤ 1 := by
  obtain ⟨m, hm, h⟩ := C197_best hn normalize hs old hX y
  have hn' : (n : ℝ) ≠ 0 := Nat.cast_ne_zero.2 hn
  have hw : (List.ofFn y).map (fun _ => (1 : ℝ)) = List.ofFn (fun _ : Fin n => (1 : ℝ)) := by
    rw [List.map_ofFn]; rfl
  have zw : ∀ {a b : Type} (f : ℝ → a → b) (u : Fin n → ℝ) (v : Fin n → a), List.zipWith f (List.ofFn u) (List.ofFn v) = List.ofFn (fun i => f (u i) (v i)) := by
    intro a b f u v
    apply List.ext_getElem <;> simp
  have hfd : Metrics.fdiv (∑ i, y i) (n : ℝ) = some ((∑ i, y i) / n) := by
    unfold Metrics.fdiv
    exact if_neg hn'
  refine ⟨m, 1 - (∑ i, (decision m (X i) - y i) ^ 2) / max (∑ i, (y i - (∑ i, y i) / n) ^ 2) eps, hm, ?_, ?_, ?_⟩
  · simp only [Metrics.r2Score, List.zip_cons_cons, List.zip_nil_left, List.mapM_cons, List.mapM_nil, Option.getD_none, hw, Metrics.r2Output, zw, one_mul, List.map_ofFn, Function.comp_def]
    simp only [List.sum_ofFn, Finset.sum_const, Finset.card_univ, Fintype.card_fin, nsmul_eq_mul, mul_one, hfd, sq]
    simp
  all_goals
    have hd : 0 < max (∑ i, (y i - (∑ i, y i) / n) ^ 2) eps := lt_max_of_lt_right he
    have h0 : 0 ≤ ∑ i, (decision m (X i) - y i) ^ 2 := Finset.sum_nonneg (fun _ _ => sq_nonneg _)
  · rw [sub_nonneg, div_le_one hd]
    refine le_trans ?_ (le_max_left _ _)
    have h1 : sse X y m ≤ sse X y ⟨0, (∑ i, y i) / n⟩ := by
      by_cases e : (⟨0, (∑ i, y i) / n⟩ : Coefs p) = m
      · rw [e]
      · exact (h _ e).le
    simp only [sse, Pi.zero_apply, mul_zero, Finset.sum_const_zero, zero_add] at h1
    refine le_trans (le_of_eq ?_) h1
    apply Finset.sum_congr rfl
    intro i _
    simp only [decision]
    ring
  · have := div_nonneg h0 hd.le
    linarith

/-- **C197, few samples.** With at most as many samples as features, centring leaves the solver with a problem that has neither independent columns nor independent rows, whatever the data: the assumption on
the solver says nothing about it. -/
theorem C197_few_samples {n p : ℕ} (hn : 0 < n) (hp : n ≤ p) (normalize : Bool) (X : Fin n → Fin p → ℝ) (y : Fin n → ℝ) (hv : normalize = true → ∀ j, Varies (fun i => X i j)) :
    (∃ c : Fin p → ℝ, c ≠ 0 ∧ ∀ i, ∑ j, (preprocess true normalize X y).X i j * c j = 0) ∧ ∀ j, ∑ i, (preprocess true normalize X y).X i j = 0 := by
  rw [preprocess_true normalize X y hv]
  have h0 : ∀ j, ∑ i, (X i j - colMean (fun i => X i j)) / divisor normalize X j = 0 := by
    intro j
    rw [← Finset.sum_div, sum_centred _ hn.ne', zero_div]
  refine ⟨?_, h0⟩
  set A : Fin n → Fin p → ℝ := fun i j => (X i j - colMean (fun i => X i j)) / divisor normalize X j with hA
  -- a square matrix with the rows of `A` and zero rows
  let B : Matrix (Fin p) (Fin p) ℝ := fun i j => if h : i.1 < n then A ⟨i.1, h⟩ j else 0
  have hdet : B.det = 0 := by
    refine Matrix.exists_vecMul_eq_zero_iff.1 ⟨fun _ => 1, ?_, ?_⟩
    · intro h
      have := congrFun h ⟨0, by omega⟩
      simp at this
    · funext j
      simp only [Matrix.vecMul, dotProduct, one_mul, Pi.zero_apply]
      rw [← h0 j]
      have : ∀ g : Fin n → ℝ, ∑ i : Fin p, (if h : i.1 < n then g ⟨i.1, h⟩ else 0) = ∑ i, g i := by
        intro g
        obtain ⟨k, rfl⟩ := Nat.exists_eq_add_of_le hp
        rw [Fin.sum_univ_add]
        simp
      exact this (fun i => A i j)
  obtain ⟨c, hc, hB⟩ := Matrix.exists_mulVec_eq_zero_iff.2 hdet
  refine ⟨c, hc, fun i => ?_⟩
  have := congrFun hB ⟨i.1, by omega⟩
  simp only [Matrix.mulVec, dotProduct, Pi.zero_apply, B, i.2, dif_pos] at this
  exact this

/-- The hypotheses are met: three samples of one feature, and the solver of one feature. -/
example : Spans (![![1], ![2], ![4]] : Fin 3 → Fin 1 → ℝ) ∧ LeastSquares (n := 3) (p := 1) (fun A b _ => (∑ i, A i 0 * b i) / (∑ i, A i 0 * A i 0)) := by
  constructor
  · intro c b h
    have h0 := h 0
    have h1 := h 1
    simp at h0 h1
    funext j
    have : j = 0 := Subsingleton.elim _ _
    subst this
    simp only [Pi.zero_apply]
    linarith
  · intro A b hA c
    have hq : ∑ i, A i 0 * A i 0 ≠ 0 := by
      intro hz
      have hz' := (Finset.sum_eq_zero_iff_of_nonneg (fun i _ => mul_self_nonneg (A i 0))).1 hz
      have := congrFun (hA (fun _ => 1) (fun i => by simpa using hz' i (Finset.mem_univ i))) 0
      simp at this
    simp only [Fin.sum_univ_one, Fin.sum_univ_three] at hq ⊢
    have hpos : 0 < A 0 0 * A 0 0 + A 1 0 * A 1 0 + A 2 0 * A 2 0 := lt_of_le_of_ne (by linarith [mul_self_nonneg (A 0 0), mul_self_nonneg (A 1 0), mul_self_nonneg (A 2 0)]) (Ne.symm hq)
    set q := A 0 0 * A 0 0 + A 1 0 * A 1 0 + A 2 0 * A 2 0 with hqd
    set t := A 0 0 * b 0 + A 1 0 * b 1 + A 2 0 * b 2 with htd
    have e : ∀ x : ℝ, (b 0 - A 0 0 * x) ^ 2 + (b 1 - A 1 0 * x) ^ 2 + (b 2 - A 2 0 * x) ^ 2 = b 0 ^ 2 + b 1 ^ 2 + b 2 ^ 2 - 2 * t * x + q * x ^ 2 := by
      intro x
      rw [hqd, htd]
      ring
    rw [e, e]
    have : q * (c 0 - t / q) ^ 2 = (b 0 ^ 2 + b 1 ^ 2 + b 2 ^ 2 - 2 * t * c 0 + q * c 0 ^ 2) - (b 0 ^ 2 + b 1 ^ 2 + b 2 ^ 2 - 2 * t * (t / q) + q * (t / q) ^ 2) := by
      field_simp
      ring
    have h2 : 0 ≤ q * (c 0 - t / q) ^ 2 := by positivity
    linarith

end Sk.Lin
