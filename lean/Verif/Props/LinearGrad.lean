import Verif.Model.Linear
import Mathlib.Analysis.Calculus.Deriv.Add
import Mathlib.Analysis.Calculus.Deriv.Mul
import Mathlib.Analysis.Calculus.Deriv.Abs
import Mathlib.Analysis.Calculus.Deriv.Inv
import Mathlib.Tactic.FieldSimp
import Mathlib.Tactic.Linarith
import Mathlib.Tactic.Positivity
import Mathlib.Tactic.LinearCombination

/-! # C49, C89–C91: the gradients written by the losses of `linear_model` -/
set_option autoImplicit false

namespace Sk.Lin

/-! ### Specification: `g` is the partial derivative of `J` with respect to cell `(j, o)` of the coefficients, at `θ` -/

theorem hasDeriv_of {f g : ℝ → ℝ} {a b x : ℝ} (h : HasDerivAt g b x) (hf : ∀ t, f t = g t) (ha : a = b) : HasDerivAt f a x := by
  rw [show f = g from funext hf, ha]
  exact h

/-- `θ` with cell `(j, o)` replaced. -/
def setCell {p q : ℕ} (θ : Fin p → Fin q → ℝ) (j : Fin p) (o : Fin q) (t : ℝ) : Fin p → Fin q → ℝ := Function.update θ j (Function.update (θ j) o t)

def IsPartial {p q : ℕ} (J : (Fin p → Fin q → ℝ) → ℝ) (θ : Fin p → Fin q → ℝ) (j : Fin p) (o : Fin q) (g : ℝ) : Prop :=
  HasDerivAt (fun t => J (setCell θ j o t)) g (θ j o)

theorem setCell_self {p q : ℕ} (θ : Fin p → Fin q → ℝ) (j : Fin p) (o : Fin q) : setCell θ j o (θ j o) = θ := by
  simp [setCell]

theorem mulT_setCell {n p q : ℕ} (X : Fin n → Fin p → ℝ) (θ : Fin p → Fin q → ℝ) (j : Fin p) (o : Fin q) (t : ℝ) (i : Fin n) (o' : Fin q) :
    mulT X (setCell θ j o t) i o' = mulT X θ i o' + if o' = o then X i j * (t - θ j o) else 0 := by
  unfold mulT
  have : ∀ j', X i j' * setCell θ j o t j' o' = X i j' * θ j' o' + if j' = j then (if o' = o then X i j * (t - θ j o) else 0) else 0 := by
    intro j'
    unfold setCell
    by_cases hj : j' = j
    · subst hj
      by_cases ho : o' = o
      · subst ho; simp; ring
      · simp [ho]
    · simp [hj]
  rw [Finset.sum_congr rfl (fun j' _ => this j'), Finset.sum_add_distrib]
  simp

/-- Derivative of a cost that is a sum over the cells of `X·θ`. -/
theorem data_deriv {n p q : ℕ} (X : Fin n → Fin p → ℝ) (θ : Fin p → Fin q → ℝ) (j : Fin p) (o : Fin q) (L : Fin n → Fin q → ℝ → ℝ) (L' : Fin n → ℝ)
    (h : ∀ i, HasDerivAt (L i o) (L' i) (mulT X θ i o)) : IsPartial (fun θ => ∑ i, ∑ o', L i o' (mulT X θ i o')) θ j o (∑ i, X i j * L' i) := by
  unfold IsPartial
  refine HasDerivAt.fun_sum (fun i _ => ?_)
  have : HasDerivAt (fun t => ∑ o', L i o' (mulT X (setCell θ j o t) i o')) (∑ o', if o' = o then X i j * L' i else 0) (θ j o) := by
    refine HasDerivAt.fun_sum (fun o' _ => ?_)
    by_cases ho : o' = o
    · subst ho
      simp only [if_true]
      have h1 : HasDerivAt (fun t => mulT X (setCell θ j o' t) i o') (X i j) (θ j o') := by
        simp only [mulT_setCell, if_true]
        have := (((hasDerivAt_id (θ j o')).sub_const (θ j o')).const_mul (X i j)).const_add (mulT X θ i o')
        simpa using this
      have h2 : HasDerivAt (L i o') (L' i) (mulT X (setCell θ j o' (θ j o')) i o') := by rw [setCell_self]; exact h i
      have := h2.comp (θ j o') h1
      rw [mul_comm]
      exact this
    · simp only [if_neg ho]
      simp only [mulT_setCell, if_neg ho, add_zero]
      exact hasDerivAt_const _ _
  simpa using this

/-- Derivative of a penalty that is a sum over the rows of `θ`, the first possibly left out. -/
theorem row_deriv {p q : ℕ} (skip : Bool) (θ : Fin p → Fin q → ℝ) (j : Fin p) (o : Fin q) (R : (Fin q → ℝ) → ℝ) (r : ℝ)
    (h : HasDerivAt (fun t => R (Function.update (θ j) o t)) r (θ j o)) :
    IsPartial (fun θ => ∑ j', if skip && decide (j'.val = 0) then 0 else R (θ j')) θ j o (if skip && decide (j.val = 0) then 0 else r) := by
  unfold IsPartial
  have : HasDerivAt (fun t => ∑ j', if skip && decide (j'.val = 0) then 0 else R (setCell θ j o t j'))
      (∑ j', if j' = j then (if skip && decide (j.val = 0) then 0 else r) else 0) (θ j o) := by
    refine HasDerivAt.fun_sum (fun j' _ => ?_)
    by_cases hj : j' = j
    · subst hj
      simp only [if_true]
      split
      · exact hasDerivAt_const _ _
      · simpa [setCell] using h
    · simp only [if_neg hj, setCell, Function.update_of_ne hj]
      exact hasDerivAt_const _ _
  simpa using this

theorem sumsq_deriv {q : ℕ} (v : Fin q → ℝ) (o : Fin q) : HasDerivAt (fun t => ∑ o', Function.update v o t o' ^ 2) (2 * v o) (v o) := by
  have : HasDerivAt (fun t => ∑ o', Function.update v o t o' ^ 2) (∑ o', if o' = o then 2 * v o else 0) (v o) := by
    refine HasDerivAt.fun_sum (fun o' _ => ?_)
    by_cases ho : o' = o
    · subst ho
      simp only [Function.update_self, if_true]
      exact hasDeriv_of ((hasDerivAt_id (v o')).pow 2) (fun t => rfl) (by simp)
    · simp only [Function.update_of_ne ho, if_neg ho]
      exact hasDerivAt_const _ _
  simpa using this

theorem sumabs_deriv {q : ℕ} (v : Fin q → ℝ) (o : Fin q) (h : v o ≠ 0) : HasDerivAt (fun t => ∑ o', |Function.update v o t o'|) (sgn (v o)) (v o) := by
  have : HasDerivAt (fun t => ∑ o', |Function.update v o t o'|) (∑ o', if o' = o then sgn (v o) else 0) (v o) := by
    refine HasDerivAt.fun_sum (fun o' _ => ?_)
    by_cases ho : o' = o
    · subst ho
      simp only [Function.update_self, if_true]
      rcases lt_or_gt_of_ne h with h | h
      · rw [sgn, if_pos h]; exact hasDerivAt_abs_neg h
      · rw [sgn, if_neg (not_lt.2 h.le), if_pos h]; exact hasDerivAt_abs_pos h
    · simp only [Function.update_of_ne ho, if_neg ho]
      exact hasDerivAt_const _ _
  simpa using this

/-- Euclidean norm of row `j` of the coefficients. -/
noncomputable def rowNorm {p q : ℕ} (θ : Fin p → Fin q → ℝ) (j : Fin p) : ℝ := Real.sqrt (∑ o, θ j o ^ 2)

theorem norm_deriv {q : ℕ} (v : Fin q → ℝ) (o : Fin q) (h : ∑ o', v o' ^ 2 ≠ 0) :
    HasDerivAt (fun t => Real.sqrt (∑ o', Function.update v o t o' ^ 2)) (v o / Real.sqrt (∑ o', v o' ^ 2)) (v o) := by
  have h1 := sumsq_deriv v o
  have h2 := h1.sqrt (by simpa using h)
  refine hasDeriv_of h2 (fun t => rfl) ?_
  simp only [Function.update_eq_self]
  rw [mul_div_mul_left _ _ two_ne_zero]

/-- The penalty of one row in `regularization`, whatever the number of outputs. -/
theorem regJ_eq {p q : ℕ} (alpha l1 : ℝ) (h0 : 0 ≤ l1) (h1 : l1 ≤ 1) (skip : Bool) (θ : Fin p → Fin q → ℝ) :
    regJ alpha l1 skip θ = alpha * ∑ j, if skip && decide (j.val = 0) then 0 else (1 - l1) * (∑ o, θ j o ^ 2) + l1 * Real.sqrt (∑ o, θ j o ^ 2) := by
  unfold regJ
  rw [mul_comm]
  congr 1
  apply Finset.sum_congr rfl
  intro j _
  split
  · rfl
  · dsimp only
    congr 1
    · rw [Finset.mul_sum]
      apply Finset.sum_congr rfl
      intro o _
      rcases lt_or_eq_of_le h1 with h | h
      · rw [if_pos h]; ring
      · rw [if_neg (by rw [h]; exact lt_irrefl _), h]; ring
    · rcases lt_or_eq_of_le h0 with h | h
      · rw [if_pos h]
        split
        · rename_i hq
          subst hq
          simp [Real.sqrt_sq_eq_abs]
        · rfl
      · rw [← h]; ring

/-! ### C49: `SquareLoss` -/

/-- The true partial derivatives of the value returned by `SquareLoss`, for any number of outputs, `Alpha > 0` and `L1Ratio` between 0 and 1. -/
theorem C49_square_true {n p q : ℕ} (X : Fin n → Fin p → ℝ) (Y : Fin n → Fin q → ℝ) (alpha l1 : ℝ) (ha : 0 < alpha) (h0 : 0 ≤ l1) (h1 : l1 ≤ 1) (skip : Bool)
    (θ : Fin p → Fin q → ℝ) (j : Fin p) (o : Fin q) (hr : l1 = 0 ∨ rowNorm θ j ≠ 0) :
    IsPartial (squareJ X Y alpha l1 skip) θ j o ((1 / n) * ((∑ i, X i j * (mulT X θ i o - Y i o)) +
      if skip && decide (j.val = 0) then 0 else alpha * ((1 - l1) * θ j o + l1 / 2 * θ j o / rowNorm θ j))) := by
  have hd := data_deriv X θ j o (fun i o' z => (z - Y i o') * (z - Y i o')) (fun i => 2 * (mulT X θ i o - Y i o)) (by
    intro i
    exact hasDeriv_of (((hasDerivAt_id (mulT X θ i o)).sub_const (Y i o)).mul ((hasDerivAt_id (mulT X θ i o)).sub_const (Y i o))) (fun t => rfl) (by simp only [id]; ring))
  have hR := row_deriv skip θ j o (fun v => (1 - l1) * (∑ o, v o ^ 2) + l1 * Real.sqrt (∑ o, v o ^ 2)) ((1 - l1) * (2 * θ j o) + l1 * (θ j o / rowNorm θ j)) (by
    refine ((sumsq_deriv (θ j) o).const_mul _).add ?_
    rcases hr with hr | hr
    · rw [hr]
      simpa using hasDerivAt_const (θ j o) (0 : ℝ)
    · refine (norm_deriv (θ j) o ?_).const_mul _
      intro hz
      exact hr (by rw [rowNorm, hz, Real.sqrt_zero]))
  have := (hd.add (hR.const_mul alpha)).div_const (2 * n : ℝ)
  unfold IsPartial at this ⊢
  refine hasDeriv_of this (fun t => ?_) ?_
  · simp only [squareJ, if_pos ha, regJ_eq alpha l1 h0 h1]
    rfl
  · have e : ∑ i, X i j * (2 * (mulT X θ i o - Y i o)) = 2 * ∑ i, X i j * (mulT X θ i o - Y i o) := by
      rw [Finset.mul_sum]
      apply Finset.sum_congr rfl
      intro i _
      ring
    rw [e]
    split
    · ring
    · ring

/-- C49: without regularisation the gradient written by `SquareLoss` is the gradient of the value it returns.
Missing for the full claim: what `C49_square_ridge_violated`, `C49_square_lasso_violated` refute. -/
theorem C49_square_partial {n p q : ℕ} (X : Fin n → Fin p → ℝ) (Y : Fin n → Fin q → ℝ) (alpha l1 : ℝ) (ha : alpha ≤ 0) (skip : Bool) (θ : Fin p → Fin q → ℝ) (j : Fin p) (o : Fin q) :
    IsPartial (squareJ X Y alpha l1 skip) θ j o (squareGrad X Y alpha l1 skip θ j o) := by
  have hd := data_deriv X θ j o (fun i o' z => (z - Y i o') * (z - Y i o')) (fun i => 2 * (mulT X θ i o - Y i o)) (by
    intro i
    exact hasDeriv_of (((hasDerivAt_id (mulT X θ i o)).sub_const (Y i o)).mul ((hasDerivAt_id (mulT X θ i o)).sub_const (Y i o))) (fun t => rfl) (by simp only [id]; ring))
  have := hd.div_const (2 * n : ℝ)
  unfold IsPartial at this ⊢
  refine hasDeriv_of this (fun t => ?_) ?_
  · simp only [squareJ, if_neg (not_lt.2 ha), add_zero]
  · simp only [squareGrad, if_neg (not_lt.2 ha), add_zero]
    have e : ∑ i, X i j * (2 * (mulT X θ i o - Y i o)) = 2 * ∑ i, X i j * (mulT X θ i o - Y i o) := by
      rw [Finset.mul_sum]
      apply Finset.sum_congr rfl
      intro i _
      ring
    rw [e]
    ring

/-- C49: in the row of the first feature, when it is not penalised (the column of ones), the gradient written by `SquareLoss` is the gradient of the value it returns, whatever the penalty.
Missing for the full claim: what `C49_square_ridge_violated`, `C49_square_lasso_violated` refute. -/
theorem C49_square_first_partial {n p q : ℕ} (X : Fin n → Fin p → ℝ) (Y : Fin n → Fin q → ℝ) (alpha l1 : ℝ) (h0 : 0 ≤ l1) (h1 : l1 ≤ 1) (θ : Fin p → Fin q → ℝ) (j : Fin p) (hj : j.val = 0) (o : Fin q) :
    IsPartial (squareJ X Y alpha l1 true) θ j o (squareGrad X Y alpha l1 true θ j o) := by
  rcases le_or_gt alpha 0 with ha | ha
  · exact C49_square_partial X Y alpha l1 ha true θ j o
  · have hd := data_deriv X θ j o (fun i o' z => (z - Y i o') * (z - Y i o')) (fun i => 2 * (mulT X θ i o - Y i o)) (by
      intro i
      exact hasDeriv_of (((hasDerivAt_id (mulT X θ i o)).sub_const (Y i o)).mul ((hasDerivAt_id (mulT X θ i o)).sub_const (Y i o))) (fun t => rfl) (by simp only [id]; ring))
    have := (hd.add_const (regJ alpha l1 true θ)).div_const (2 * n : ℝ)
    unfold IsPartial at this ⊢
    refine hasDeriv_of this (fun t => ?_) ?_
    · simp only [squareJ, if_pos ha]
      congr 2
      rw [regJ_eq alpha l1 h0 h1, regJ_eq alpha l1 h0 h1]
      congr 1
      refine Finset.sum_congr rfl (fun k _ => ?_)
      by_cases hk : k = j
      · subst hk
        simp [hj]
      · have e : setCell θ j o t k = θ k := by
          funext o'
          simp [setCell, hk]
        rw [e]
    · simp only [squareGrad, if_pos ha, regGrad, hj, decide_true, Bool.and_true, if_true, add_zero]
      have e : ∑ i, X i j * (2 * (mulT X θ i o - Y i o)) = 2 * ∑ i, X i j * (mulT X θ i o - Y i o) := by
        rw [Finset.mul_sum]
        apply Finset.sum_congr rfl
        intro i _
        ring
      rw [e]
      ring

/-- Two samples, two features, `Alpha = 1/2`: the first row. -/
example : IsPartial (squareJ (!![1, 2; 1, 4] : Fin 2 → Fin 2 → ℝ) (!![1; 0] : Fin 2 → Fin 1 → ℝ) (1 / 2) 0 true) (fun _ _ => 3) 0 0
    (squareGrad (!![1, 2; 1, 4] : Fin 2 → Fin 2 → ℝ) (!![1; 0] : Fin 2 → Fin 1 → ℝ) (1 / 2) 0 true (fun _ _ => 3) 0 0) :=
  C49_square_first_partial _ _ _ _ (by norm_num) (by norm_num) _ _ rfl _

/-- C49, violated: with a positive `Alpha` other than 1 and `L1Ratio = 0`, the gradient written by `SquareLoss` is wrong in every penalised cell that is not zero, for every data set. -/
theorem C49_square_ridge_violated {n p q : ℕ} (hn : n ≠ 0) (X : Fin n → Fin p → ℝ) (Y : Fin n → Fin q → ℝ) (alpha : ℝ) (ha : 0 < alpha) (ha1 : alpha ≠ 1)
    (θ : Fin p → Fin q → ℝ) (j : Fin p) (o : Fin q) (hθ : θ j o ≠ 0) : ¬ IsPartial (squareJ X Y alpha 0 false) θ j o (squareGrad X Y alpha 0 false θ j o) := by
  intro h
  have h2 := C49_square_true X Y alpha 0 ha (le_refl _) zero_le_one false θ j o (Or.inl rfl)
  have := HasDerivAt.unique h h2
  have hn' : (n : ℝ) ≠ 0 := Nat.cast_ne_zero.2 hn
  simp only [squareGrad, if_pos ha, regGrad, Bool.false_and, Bool.false_eq_true, if_false, lt_irrefl, gt_iff_lt, zero_lt_one, if_true, sub_zero, one_mul, zero_div, zero_mul, add_zero, zero_add] at this
  have h3 := mul_left_cancel₀ (one_div_ne_zero hn') this
  have h4 : (alpha - 1) * θ j o = 0 := by linarith
  rcases mul_eq_zero.1 h4 with h | h
  · exact ha1 (by linarith)
  · exact hθ h

/-- C49, violated: with `L1Ratio = 1` (lasso penalty) and one output, the gradient is wrong in every penalised cell that is not zero unless `Alpha = 2`. -/
theorem C49_square_lasso_violated {n p : ℕ} (hn : n ≠ 0) (X : Fin n → Fin p → ℝ) (Y : Fin n → Fin 1 → ℝ) (alpha : ℝ) (ha : 0 < alpha) (ha1 : alpha ≠ 2)
    (θ : Fin p → Fin 1 → ℝ) (j : Fin p) (hθ : θ j 0 ≠ 0) : ¬ IsPartial (squareJ X Y alpha 1 false) θ j 0 (squareGrad X Y alpha 1 false θ j 0) := by
  intro h
  have hr : rowNorm θ j ≠ 0 := by
    simp only [rowNorm, Finset.univ_unique, Fin.default_eq_zero, Finset.sum_singleton, Real.sqrt_sq_eq_abs]
    exact abs_ne_zero.2 hθ
  have h2 := C49_square_true X Y alpha 1 ha zero_le_one (le_refl _) false θ j 0 (Or.inr hr)
  have := HasDerivAt.unique h h2
  have hn' : (n : ℝ) ≠ 0 := Nat.cast_ne_zero.2 hn
  simp only [squareGrad, if_pos ha, regGrad, Bool.false_and, Bool.false_eq_true, if_false, lt_irrefl, gt_iff_lt, zero_lt_one, if_true, sub_self, one_mul, zero_mul, add_zero, zero_add] at this
  have h3 := add_left_cancel (mul_left_cancel₀ (one_div_ne_zero hn') this)
  change θ j 0 / rowNorm θ j = _ at h3
  field_simp at h3
  exact ha1 (by linarith)

/-- Two samples, two features, `Alpha = 1/2`. -/
example : ¬ IsPartial (squareJ (!![1, 2; 3, 4] : Fin 2 → Fin 2 → ℝ) (!![1; 0] : Fin 2 → Fin 1 → ℝ) (1 / 2) 0 false) (fun _ _ => 3) 0 0
    (squareGrad (!![1, 2; 3, 4] : Fin 2 → Fin 2 → ℝ) (!![1; 0] : Fin 2 → Fin 1 → ℝ) (1 / 2) 0 false (fun _ _ => 3) 0 0) :=
  C49_square_ridge_violated (by decide) _ _ _ (by norm_num) (by norm_num) _ _ _ (by norm_num)

/-! ### C89: `CrossEntropyLoss` -/

theorem logistic_pos (z : ℝ) : 0 < logistic z := by unfold logistic; positivity

theorem logistic_lt_one (z : ℝ) : logistic z < 1 := by
  unfold logistic
  rw [div_lt_one (by positivity)]
  linarith [Real.exp_pos (-z)]

theorem logistic_deriv (z : ℝ) : HasDerivAt logistic (logistic z * (1 - logistic z)) z := by
  have h1 : HasDerivAt (fun z : ℝ => 1 + Real.exp (-z)) (-Real.exp (-z)) z := by
    have := ((hasDerivAt_neg z).exp).const_add 1
    simpa using this
  have hne : 1 + Real.exp (-z) ≠ 0 := by positivity
  have h2 := h1.inv hne
  have he : logistic = fun z : ℝ => (1 + Real.exp (-z))⁻¹ := by
    funext w; simp [logistic]
  rw [he]
  refine hasDeriv_of h2 (fun t => rfl) ?_
  field_simp
  ring

theorem ceCell_logistic (eps y z : ℝ) : ceCell eps y (logistic z) = -y * Real.log (logistic z) - (1 - y) * Real.log (1 - logistic z) := by
  simp only [ceCell, if_neg (not_le.2 (logistic_pos z)), if_neg (not_le.2 (logistic_lt_one z)), ge_iff_le]
  rw [← sub_eq_add_neg]

/-- C89: for the logistic activation, the gradient written by `CrossEntropyLoss` is the gradient of the value it returns, for every data set, target values, number of outputs,
`Alpha` and `L1Ratio`, wherever that value is differentiable (at a zero coefficient the lasso penalty is not). -/
theorem C89_cross_entropy {n p q : ℕ} (eps : ℝ) (X : Fin n → Fin p → ℝ) (Y : Fin n → Fin q → ℝ) (alpha l1 : ℝ) (skip : Bool) (θ : Fin p → Fin q → ℝ) (j : Fin p) (o : Fin q)
    (hθ : alpha ≤ 0 ∨ (skip = true ∧ j.val = 0) ∨ l1 = 0 ∨ θ j o ≠ 0) : IsPartial (ceJ eps X Y alpha l1 skip) θ j o (ceGrad X Y alpha l1 skip θ j o) := by
  have hd := data_deriv X θ j o (fun i o' z => ceCell eps (Y i o') (logistic z)) (fun i => logistic (mulT X θ i o) - Y i o) (by
    intro i
    simp only [ceCell_logistic]
    set z := mulT X θ i o
    have hp := (logistic_pos z).ne'
    have hq : 1 - logistic z ≠ 0 := by have := logistic_lt_one z; linarith
    have h1 := ((logistic_deriv z).log hp).const_mul (-Y i o)
    have h2 := (((logistic_deriv z).const_sub 1).log hq).const_mul (1 - Y i o)
    refine hasDeriv_of (h1.sub h2) (fun t => rfl) ?_
    field_simp
    ring)
  by_cases ha : alpha > 0
  · have hR1 : IsPartial (fun θ : Fin p → Fin q → ℝ => l1 * ∑ j', if skip && decide (j'.val = 0) then 0 else ∑ o, |θ j' o|) θ j o
        (if skip && decide (j.val = 0) then 0 else l1 * sgn (θ j o)) := by
      rcases hθ with hl | ⟨hs, hj⟩ | hl | hθ
      · exact absurd ha (not_lt.2 hl)
      · have hsk : (skip && decide (j.val = 0)) = true := by simp [hs, hj]
        have hc : IsPartial (fun θ : Fin p → Fin q → ℝ => ∑ j', if skip && decide (j'.val = 0) then 0 else ∑ o, |θ j' o|) θ j o 0 := by
          unfold IsPartial
          have he : ∀ t, (∑ j' : Fin p, if skip && decide (j'.val = 0) then 0 else ∑ o', |setCell θ j o t j' o'|) =
              ∑ j' : Fin p, if skip && decide (j'.val = 0) then 0 else ∑ o', |θ j' o'| := by
            intro t
            refine Finset.sum_congr rfl (fun j' _ => ?_)
            by_cases hjj : j' = j
            · subst hjj
              rw [if_pos hsk, if_pos hsk]
            · simp only [setCell, Function.update_of_ne hjj]
          exact hasDeriv_of (hasDerivAt_const _ _) he rfl
        have := hc.const_mul l1
        rw [if_pos hsk]
        rw [mul_zero] at this
        exact this
      · unfold IsPartial
        simp only [hl, zero_mul, ite_self]
        exact hasDerivAt_const _ _
      · have := (row_deriv skip θ j o (fun v => ∑ o, |v o|) _ (sumabs_deriv (θ j) o hθ)).const_mul l1
        rw [mul_ite, mul_zero] at this
        exact this
    have hR2 : IsPartial (fun θ : Fin p → Fin q → ℝ => (1 - l1) * ∑ j', if skip && decide (j'.val = 0) then 0 else ∑ o, θ j' o * θ j' o / 2) θ j o
        (if skip && decide (j.val = 0) then 0 else (1 - l1) * θ j o) := by
      have h0 : HasDerivAt (fun t => ∑ o', Function.update (θ j) o t o' * Function.update (θ j) o t o' / 2) (θ j o) (θ j o) := by
        have := (sumsq_deriv (θ j) o).div_const 2
        refine hasDeriv_of this (fun t => ?_) ?_
        · rw [Finset.sum_div]
          apply Finset.sum_congr rfl
          intro o' _
          ring
        · ring
      have := (row_deriv skip θ j o (fun v => ∑ o, v o * v o / 2) _ h0).const_mul (1 - l1)
      rw [mul_ite, mul_zero] at this
      exact this
    have := (hd.add ((hR1.add hR2).const_mul alpha)).div_const (n : ℝ)
    unfold IsPartial at this ⊢
    refine hasDeriv_of this (fun t => ?_) ?_
    · simp only [ceJ, if_pos ha]
      rfl
    · simp only [ceGrad, if_pos ha]
      rw [one_div, div_eq_inv_mul]
      congr 2
      split
      · ring
      · ring
  · have := hd.div_const (n : ℝ)
    unfold IsPartial at this ⊢
    refine hasDeriv_of this (fun t => ?_) ?_
    · simp only [ceJ, if_neg ha, add_zero]
    · simp only [ceGrad, if_neg ha, add_zero]
      rw [one_div, div_eq_inv_mul]

example : ∃ θ : Fin 2 → Fin 2 → ℝ, (1 : ℝ) ≤ 0 ∨ (true = true ∧ (1 : Fin 2).val = 0) ∨ (1 / 2 : ℝ) = 0 ∨ θ 1 0 ≠ 0 := ⟨fun _ _ => 1, by right; right; right; exact one_ne_zero⟩

/-- C89, in the words of the property: whatever the point, if the value returned by `CrossEntropyLoss` has a partial derivative there, that derivative is the number written by
`CrossEntropyLoss` (the zero coefficients under a lasso penalty are the only points without one). -/
theorem C89_wherever {n p q : ℕ} (eps : ℝ) (X : Fin n → Fin p → ℝ) (Y : Fin n → Fin q → ℝ) (alpha l1 : ℝ) (skip : Bool) (θ : Fin p → Fin q → ℝ) (j : Fin p) (o : Fin q) (g : ℝ)
    (h : IsPartial (ceJ eps X Y alpha l1 skip) θ j o g) : g = ceGrad X Y alpha l1 skip θ j o := by
  by_cases hc : alpha ≤ 0 ∨ (skip = true ∧ j.val = 0) ∨ l1 = 0 ∨ θ j o ≠ 0
  · exact h.unique (C89_cross_entropy eps X Y alpha l1 skip θ j o hc)
  push Not at hc
  obtain ⟨ha, hs, hl, hz⟩ := hc
  have hsk : (skip && decide (j.val = 0)) = false := by
    cases skip
    · rfl
    · simpa using hs rfl
  rcases Nat.eq_zero_or_pos n with hn | hn
  · have h0 : IsPartial (ceJ eps X Y alpha l1 skip) θ j o 0 := by
      unfold IsPartial
      refine hasDeriv_of (hasDerivAt_const _ 0) (fun t => ?_) rfl
      simp [ceJ, hn]
    rw [h.unique h0]
    simp [ceGrad, hn]
  · exfalso
    have h0 := C89_cross_entropy eps X Y alpha 0 skip θ j o (Or.inr (Or.inr (Or.inl rfl)))
    have hR2 : IsPartial (fun θ : Fin p → Fin q → ℝ => ∑ j', if skip && decide (j'.val = 0) then 0 else ∑ o, θ j' o * θ j' o / 2) θ j o
        (if skip && decide (j.val = 0) then 0 else θ j o) := by
      refine row_deriv skip θ j o (fun v => ∑ o, v o * v o / 2) _ ?_
      have := (sumsq_deriv (θ j) o).div_const 2
      refine hasDeriv_of this (fun t => ?_) (by ring)
      rw [Finset.sum_div]
      exact Finset.sum_congr rfl (fun o' _ => by ring)
    unfold IsPartial at h h0 hR2
    have hn' : (n : ℝ) ≠ 0 := Nat.cast_ne_zero.2 (by omega)
    have hk : alpha * l1 ≠ 0 := mul_ne_zero ha.ne' hl
    have hab := (((h.sub h0).const_mul ((n : ℝ) / (alpha * l1))).add hR2)
    have hS : ∀ t, (∑ j' : Fin p, if skip && decide (j'.val = 0) then 0 else ∑ o', |setCell θ j o t j' o'|) =
        |t| + ((∑ j' : Fin p, if skip && decide (j'.val = 0) then 0 else ∑ o', |θ j' o'|) - |θ j o|) := by
      intro t
      have e1 : ∀ j' : Fin p, (if skip && decide (j'.val = 0) then 0 else ∑ o', |setCell θ j o t j' o'|) =
          (if skip && decide (j'.val = 0) then 0 else ∑ o', |θ j' o'|) + if j' = j then |t| - |θ j o| else 0 := by
        intro j'
        by_cases hjj : j' = j
        · subst hjj
          simp only [hsk, Bool.false_eq_true, if_false, if_true]
          have e2 : ∀ o', |setCell θ j' o t j' o'| = |θ j' o'| + if o' = o then |t| - |θ j' o| else 0 := by
            intro o'
            by_cases ho : o' = o
            · subst ho; simp [setCell]
            · simp [setCell, ho]
          rw [Finset.sum_congr rfl (fun o' _ => e2 o'), Finset.sum_add_distrib]
          simp
        · simp [setCell, hjj]
      rw [Finset.sum_congr rfl (fun j' _ => e1 j'), Finset.sum_add_distrib]
      simp
      ring
    have hd : DifferentiableAt ℝ (fun t : ℝ => |t|) (θ j o) := by
      have := (hab.sub_const ((∑ j' : Fin p, if skip && decide (j'.val = 0) then 0 else ∑ o', |θ j' o'|) - |θ j o|)).differentiableAt
      refine this.congr_of_eventuallyEq (Filter.Eventually.of_forall (fun t => ?_))
      simp only [Pi.add_apply, Pi.sub_apply, ceJ, if_pos (show alpha > 0 from ha)]
      have := hS t
      field_simp
      rw [this]
      ring
    rw [hz] at hd
    exact not_differentiableAt_abs_zero hd

/-- A case meeting the hypothesis: an elastic-net penalty and a non-zero coefficient. -/
example {n p q : ℕ} (eps : ℝ) (X : Fin n → Fin p → ℝ) (Y : Fin n → Fin q → ℝ) (θ : Fin p → Fin q → ℝ) (j : Fin p) (o : Fin q) (hθ : θ j o ≠ 0) :
    ∃ g, IsPartial (ceJ eps X Y 1 (1 / 2) false) θ j o g := ⟨_, C89_cross_entropy eps X Y 1 (1 / 2) false θ j o (by right; right; right; exact hθ)⟩

/-! ### C90: `LogLoss` -/

/-- The true partial derivatives of the value returned by `LogLoss` with the logistic activation. -/
theorem C90_log_true {n p q : ℕ} (X : Fin n → Fin p → ℝ) (Y : Fin n → Fin q → ℝ) (θ : Fin p → Fin q → ℝ) (j : Fin p) (o : Fin q) :
    IsPartial (logJ X Y) θ j o ((1 / n) * ∑ i, X i j * (-Y i o * (1 - logistic (mulT X θ i o)))) := by
  have hd := data_deriv X θ j o (fun i o' z => -Y i o' * Real.log (logistic z)) (fun i => -Y i o * (1 - logistic (mulT X θ i o))) (by
    intro i
    set z := mulT X θ i o
    have hp := (logistic_pos z).ne'
    have h1 := ((logistic_deriv z).log hp).const_mul (-Y i o)
    refine hasDeriv_of h1 (fun t => rfl) ?_
    field_simp)
  have := hd.div_const (n : ℝ)
  unfold IsPartial at this ⊢
  refine hasDeriv_of this (fun t => rfl) ?_
  rw [one_div, div_eq_inv_mul]

/-- C90, violated: the gradient written by `LogLoss` ignores the features.  For 0/1 targets with at least one 1, it is wrong for every feature whose values are all larger than 1,
at every point. -/
theorem C90_log_violated {n p q : ℕ} (X : Fin n → Fin p → ℝ) (Y : Fin n → Fin q → ℝ) (θ : Fin p → Fin q → ℝ) (j : Fin p) (o : Fin q)
    (hY : ∀ i, 0 ≤ Y i o) (hY1 : ∃ i, 0 < Y i o) (hX : ∀ i, 1 < X i j) : ¬ IsPartial (logJ X Y) θ j o (logGrad X Y θ j o) := by
  intro h
  have hu := HasDerivAt.unique h (C90_log_true X Y θ j o)
  obtain ⟨i₀, hi₀⟩ := hY1
  have hn : (n : ℝ) ≠ 0 := by
    have : 0 < n := lt_of_le_of_lt (Nat.zero_le _) i₀.isLt
    positivity
  have h3 := mul_left_cancel₀ (one_div_ne_zero hn) hu
  have h4 : ∑ i, (X i j - 1) * (Y i o * (1 - logistic (mulT X θ i o))) = 0 := by
    rw [← sub_eq_zero] at h3
    rw [← Finset.sum_sub_distrib] at h3
    rw [← h3]
    apply Finset.sum_congr rfl
    intro i _
    have := (logistic_pos (mulT X θ i o)).ne'
    field_simp
    ring
  have hpos : 0 < ∑ i, (X i j - 1) * (Y i o * (1 - logistic (mulT X θ i o))) := by
    have hl : ∀ i, 0 < 1 - logistic (mulT X θ i o) := fun i => by linarith [logistic_lt_one (mulT X θ i o)]
    refine Finset.sum_pos' (fun i _ => mul_nonneg (by linarith [hX i]) (mul_nonneg (hY i) (hl i).le)) ⟨i₀, Finset.mem_univ _, ?_⟩
    exact mul_pos (by linarith [hX i₀]) (mul_pos hi₀ (hl i₀))
  exact hpos.ne' h4

/-- C90: the gradient written by `LogLoss` is correct for a feature that is identically 1 (the column of ones).
Missing for the full claim: what `C90_log_violated` refutes. -/
theorem C90_log_ones_partial {n p q : ℕ} (X : Fin n → Fin p → ℝ) (Y : Fin n → Fin q → ℝ) (θ : Fin p → Fin q → ℝ) (j : Fin p) (o : Fin q) (hX : ∀ i, X i j = 1) :
    IsPartial (logJ X Y) θ j o (logGrad X Y θ j o) := by
  refine hasDeriv_of (C90_log_true X Y θ j o) (fun t => rfl) ?_
  unfold logGrad
  congr 1
  apply Finset.sum_congr rfl
  intro i _
  have := (logistic_pos (mulT X θ i o)).ne'
  rw [hX]
  field_simp

example : ¬ IsPartial (logJ (!![2; 3] : Fin 2 → Fin 1 → ℝ) (!![1; 0] : Fin 2 → Fin 1 → ℝ)) (fun _ _ => 0) 0 0
    (logGrad (!![2; 3] : Fin 2 → Fin 1 → ℝ) (!![1; 0] : Fin 2 → Fin 1 → ℝ) (fun _ _ => 0) 0 0) := by
  apply C90_log_violated
  · intro i; fin_cases i <;> simp
  · exact ⟨0, by simp⟩
  · intro i; fin_cases i <;> simp

/-! ### C91: `SGDRegressor` -/

/-- C91: without regularisation the direction given to the optimiser by `SGDRegressor` is `n` times the gradient of its loss.
Missing for the full claim: what `C91_sgd_violated`, `C91_sgd_ridge_violated` refute. -/
theorem C91_sgd_partial {n p : ℕ} (hn : n ≠ 0) (X : Fin n → Fin p → ℝ) (y : Fin n → ℝ) (l1 : ℝ) (c : Fin p → ℝ) (j : Fin p) :
    HasDerivAt (fun t => sgdLoss X y 0 l1 (Function.update c j t)) (sgdGrad X y 0 l1 c j / n) (c j) := by
  have hd := data_deriv X (fun j (_ : Fin 1) => c j) j 0 (fun i _ z => (z - y i) * (z - y i)) (fun i => 2 * ((∑ j, X i j * c j) - y i)) (by
    intro i
    exact hasDeriv_of (((hasDerivAt_id (∑ j, X i j * c j)).sub_const (y i)).mul ((hasDerivAt_id (∑ j, X i j * c j)).sub_const (y i))) (fun t => rfl) (by simp only [id]; ring))
  have := (hd.div_const 2).div_const (n : ℝ)
  refine hasDeriv_of this (fun t => ?_) ?_
  · have hc : ∀ j', setCell (fun j (_ : Fin 1) => c j) j 0 t j' 0 = Function.update c j t j' := by
      intro j'
      by_cases hj : j' = j
      · subst hj; simp [setCell]
      · simp [setCell, hj]
    simp only [sgdLoss, lt_irrefl, gt_iff_lt, if_false, add_zero, mulT, Finset.univ_unique, Fin.default_eq_zero, Finset.sum_singleton, hc]
  · have hn' : (n : ℝ) ≠ 0 := Nat.cast_ne_zero.2 hn
    simp only [sgdGrad, zero_mul, zero_div, add_zero]
    congr 1
    rw [eq_div_iff two_ne_zero, Finset.sum_mul]
    apply Finset.sum_congr rfl
    intro i _
    ring

/-- C91, violated: with two samples or more it is not the gradient, except where the gradient vanishes. -/
theorem C91_sgd_violated {n p : ℕ} (hn : 2 ≤ n) (X : Fin n → Fin p → ℝ) (y : Fin n → ℝ) (l1 : ℝ) (c : Fin p → ℝ) (j : Fin p) (hg : sgdGrad X y 0 l1 c j ≠ 0) :
    ¬ HasDerivAt (fun t => sgdLoss X y 0 l1 (Function.update c j t)) (sgdGrad X y 0 l1 c j) (c j) := by
  intro h
  have := HasDerivAt.unique h (C91_sgd_partial (by omega) X y l1 c j)
  have hn' : (2 : ℝ) ≤ n := by exact_mod_cast hn
  have h0 : (n : ℝ) ≠ 0 := by linarith
  rw [eq_div_iff h0] at this
  have h1 : sgdGrad X y 0 l1 c j * (n - 1) = 0 := by linarith
  rcases mul_eq_zero.1 h1 with h | h
  · exact hg h
  · linarith

/-- C91, violated: the ridge part of the direction is a multiple of the data gradient instead of the coefficient: at an exact fit it is zero however large the coefficients are, while the
penalised loss has slope `alpha * c_j / n`. -/
theorem C91_sgd_ridge_violated {n p : ℕ} (hn : n ≠ 0) (X : Fin n → Fin p → ℝ) (y : Fin n → ℝ) (alpha : ℝ) (ha : 0 < alpha) (c : Fin p → ℝ) (hfit : ∀ i, ∑ j, X i j * c j = y i)
    (j : Fin p) (hc : c j ≠ 0) : sgdGrad X y alpha 0 c j = 0 ∧ ¬ HasDerivAt (fun t => sgdLoss X y alpha 0 (Function.update c j t)) 0 (c j) := by
  have hg : ∑ i, X i j * ((∑ j, X i j * c j) - y i) = 0 := by
    apply Finset.sum_eq_zero
    intro i _
    rw [hfit i, sub_self, mul_zero]
  refine ⟨?_, ?_⟩
  · simp only [sgdGrad, hg]
    simp
  · have h0 := C91_sgd_partial hn X y 0 c j
    have hz : sgdGrad X y 0 0 c j = 0 := by simp only [sgdGrad, hg]; simp
    rw [hz, zero_div] at h0
    have h1 := (sumsq_deriv c j).const_mul (alpha / 2 / n)
    have h2 := h0.add h1
    intro h
    have h3 : HasDerivAt (fun t => sgdLoss X y alpha 0 (Function.update c j t)) (0 + alpha / 2 / n * (2 * c j)) (c j) := by
      refine hasDeriv_of h2 (fun t => ?_) rfl
      simp only [sgdLoss, if_pos ha, lt_irrefl, gt_iff_lt, if_false, add_zero, mul_zero, zero_div, zero_mul, Finset.sum_const_zero, sub_zero, mul_one, Pi.add_apply]
      rw [Finset.mul_sum]
      congr 1
      apply Finset.sum_congr rfl
      intro k _
      ring
    have := HasDerivAt.unique h h3
    have hn' : (n : ℝ) ≠ 0 := Nat.cast_ne_zero.2 hn
    have : alpha / 2 / n * (2 * c j) = 0 := by linarith
    field_simp at this
    rw [mul_zero] at this
    rcases mul_eq_zero.1 this with h | h
    · linarith
    · exact hc h

example : sgdGrad (!![1; 2] : Fin 2 → Fin 1 → ℝ) ![0, 0] 0 0 (fun _ => 1) 0 ≠ 0 ∧ ∀ i, ∑ j, (!![1; 2] : Fin 2 → Fin 1 → ℝ) i j * (fun _ => 3 : Fin 1 → ℝ) j = ![3, 6] i := by
  refine ⟨?_, ?_⟩
  · simp [sgdGrad]
    norm_num
  · intro i; fin_cases i <;> simp; norm_num

end Sk.Lin
