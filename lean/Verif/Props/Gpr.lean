import Verif.Props.KernelParams
import Mathlib.Analysis.Calculus.Deriv.Slope
import Mathlib.Analysis.SpecialFunctions.Log.Deriv
import Mathlib.LinearAlgebra.Matrix.Block
import Mathlib.LinearAlgebra.Matrix.Adjugate
import Mathlib.LinearAlgebra.Matrix.NonsingularInverse
import Mathlib.Topology.Instances.Matrix

/-!
# Properties of the Gaussian process regressor: C103, C104, C105
-/
set_option autoImplicit false

namespace Sk.GP

/-- `L` is the Cholesky factor of `K`: lower triangular with positive diagonal and `L Lᵀ = K` (assumed of gonum's `Factorize`, `LTo`). -/
structure IsChol {n : ℕ} (L K : Matrix (Fin n) (Fin n) ℝ) : Prop where
  lower : ∀ i j, i < j → L i j = 0
  pos : ∀ i, 0 < L i i
  prod : L * L.transpose = K

/-- Logarithm of the density at `y` of the normal distribution with mean zero and covariance `K`. -/
noncomputable def logDensity {n : ℕ} (K : Matrix (Fin n) (Fin n) ℝ) (y : Fin n → ℝ) : ℝ :=
  -(1 / 2) * dotProduct y (Matrix.mulVec K⁻¹ y) - 1 / 2 * Real.log K.det - n / 2 * Real.log (2 * Real.pi)

theorem chol_det {n : ℕ} {L K : Matrix (Fin n) (Fin n) ℝ} (h : IsChol L K) : K.det = (∏ i, L i i) * ∏ i, L i i := by
  have hL : L.det = ∏ i, L i i := Matrix.det_of_isLowerTriangular L (fun i j hij => h.lower i j hij)
  rw [← h.prod, Matrix.det_mul, Matrix.det_transpose, hL]

theorem chol_det_pos {n : ℕ} {L K : Matrix (Fin n) (Fin n) ℝ} (h : IsChol L K) : 0 < K.det := by
  rw [chol_det h]
  have := Finset.prod_pos (fun i (_ : i ∈ Finset.univ) => h.pos i)
  positivity

theorem chol_log_det {n : ℕ} {L K : Matrix (Fin n) (Fin n) ℝ} (h : IsChol L K) : Real.log K.det = 2 * ∑ i, Real.log (L i i) := by
  have hp := Finset.prod_pos (fun i (_ : i ∈ Finset.univ) => h.pos i)
  rw [chol_det h, Real.log_mul hp.ne' hp.ne', Real.log_prod (fun i _ => (h.pos i).ne')]
  ring

theorem chol_symm {n : ℕ} {L K : Matrix (Fin n) (Fin n) ℝ} (h : IsChol L K) : K.transpose = K := by
  rw [← h.prod, Matrix.transpose_mul, Matrix.transpose_transpose]

theorem solve_eq {n q : ℕ} {K : Matrix (Fin n) (Fin n) ℝ} {A Y : Matrix (Fin n) (Fin q) ℝ} (hd : K.det ≠ 0) (h : K * A = Y) : A = K⁻¹ * Y := by
  rw [← h, Matrix.nonsing_inv_mul_cancel_left _ _ (Ne.isUnit hd)]

/-- **C103**.  The value of `LogMarginalLikelihood` is the logarithm of the density of the training outputs: the sum over the output columns of the log density of a normal distribution with mean zero and
the covariance `K` that is factorised. -/
theorem C103_value {n q : ℕ} (L K : Matrix (Fin n) (Fin n) ℝ) (A Y : Matrix (Fin n) (Fin q) ℝ) (hL : IsChol L K) (hA : K * A = Y) : lml L A Y = ∑ c, logDensity K (fun i => Y i c) := by
  unfold lml logDensity
  refine Finset.sum_congr rfl (fun c _ => ?_)
  have h1 : ∑ i, Y i c * A i c = dotProduct (fun i => Y i c) (Matrix.mulVec K⁻¹ (fun i => Y i c)) := by
    rw [solve_eq (chol_det_pos hL).ne' hA]
    rfl
  rw [h1, chol_log_det hL]
  ring

/-- Two rows with correlated outputs. -/
example : IsChol !![2, 0; 1, 1] (!![4, 2; 2, 2] : Matrix (Fin 2) (Fin 2) ℝ) ∧ (!![4, 2; 2, 2] : Matrix (Fin 2) (Fin 2) ℝ) * (!![1; 1] : Matrix (Fin 2) (Fin 1) ℝ) = (!![6; 4] : Matrix (Fin 2) (Fin 1) ℝ) := by
  refine ⟨⟨?_, ?_, ?_⟩, ?_⟩
  · intro i j h
    fin_cases i <;> fin_cases j <;> simp at h ⊢
  · intro i
    fin_cases i <;> simp
  · ext i j
    fin_cases i <;> fin_cases j <;> simp [Matrix.mul_apply, Fin.sum_univ_two] <;> norm_num
  · ext i j
    fin_cases i <;> fin_cases j <;> simp [Matrix.mul_apply, Fin.sum_univ_two] <;> norm_num

/-! ## The gradient -/

/-- Jacobi's formula. -/
theorem det_deriv {n : ℕ} (K : ℝ → Matrix (Fin n) (Fin n) ℝ) (G : Fin n → Fin n → ℝ) (u : ℝ) (h : ∀ i j, HasDerivAt (fun t => K t i j) (G i j) u) :
    HasDerivAt (fun t => (K t).det) (∑ i, ∑ j, (K u).adjugate i j * G j i) u := by
  classical
  have h1 : HasDerivAt (fun t => ∑ σ : Equiv.Perm (Fin n), ((Equiv.Perm.sign σ : ℤ) : ℝ) * ∏ i, K t (σ i) i)
      (∑ σ : Equiv.Perm (Fin n), ((Equiv.Perm.sign σ : ℤ) : ℝ) * ∑ i, (∏ j ∈ Finset.univ.erase i, K u (σ j) j) • G (σ i) i) u := by
    refine HasDerivAt.fun_sum (fun σ _ => HasDerivAt.const_mul _ ?_)
    exact HasDerivAt.fun_finsetProd (fun i _ => h (σ i) i)
  refine hasDeriv_of h1 (fun t => Matrix.det_apply' _) ?_
  have h2 : ∀ i, ∑ j, (K u).adjugate i j * G j i = ∑ σ : Equiv.Perm (Fin n), ((Equiv.Perm.sign σ : ℤ) : ℝ) * ((∏ j ∈ Finset.univ.erase i, K u (σ j) j) * G (σ i) i) := by
    intro i
    have h3 : ∑ j, (K u).adjugate i j * G j i = Matrix.mulVec (K u).adjugate (fun j => G j i) i := rfl
    rw [h3, ← Matrix.cramer_eq_adjugate_mulVec, Matrix.cramer_apply, Matrix.det_apply']
    refine Finset.sum_congr rfl (fun σ _ => ?_)
    congr 1
    rw [← Finset.prod_erase_mul _ _ (Finset.mem_univ i)]
    congr 1
    · refine Finset.prod_congr rfl (fun j hj => ?_)
      rw [Matrix.updateCol_ne (Finset.ne_of_mem_erase hj)]
    · rw [Matrix.updateCol_self]
  simp only [h2, smul_eq_mul]
  rw [Finset.sum_comm]
  exact Finset.sum_congr rfl (fun σ _ => (Finset.mul_sum _ _ _).symm)

theorem solve_continuous {n : ℕ} (K : ℝ → Matrix (Fin n) (Fin n) ℝ) (u : ℝ) (hK : ContinuousAt K u) (hd : (K u).det ≠ 0) (y : Fin n → ℝ) (i : Fin n) :
    ContinuousAt (fun t => Matrix.mulVec (K t)⁻¹ y i) u := by
  have h1 : ContinuousAt (fun t => (K t).det) u := (Continuous.matrix_det continuous_id).continuousAt.comp hK
  have h2 : ContinuousAt (fun t => (K t).adjugate) u := (Continuous.matrix_adjugate continuous_id).continuousAt.comp hK
  have h3 : ContinuousAt (fun t => ((K t).det)⁻¹ * ∑ j, (K t).adjugate i j * y j) u := by
    refine (h1.inv₀ hd).mul ?_
    refine tendsto_finsetSum _ (fun j _ => Filter.Tendsto.mul_const _ ?_)
    exact ((continuous_apply_apply i j).continuousAt).comp h2
  refine h3.congr (Filter.Eventually.of_forall (fun t => ?_))
  simp only [Matrix.inv_def, Ring.inverse_eq_inv', Matrix.mulVec, dotProduct, Matrix.smul_apply, smul_eq_mul, Finset.mul_sum, mul_assoc]

theorem quad_deriv {n : ℕ} (K : ℝ → Matrix (Fin n) (Fin n) ℝ) (G : Fin n → Fin n → ℝ) (u : ℝ) (h : ∀ i j, HasDerivAt (fun t => K t i j) (G i j) u) (hs : ∀ t, (K t).transpose = K t)
    (hd : ∀ t, (K t).det ≠ 0) (y : Fin n → ℝ) :
    HasDerivAt (fun t => dotProduct y (Matrix.mulVec (K t)⁻¹ y)) (-∑ i, ∑ j, Matrix.mulVec (K u)⁻¹ y i * Matrix.mulVec (K u)⁻¹ y j * G i j) u := by
  set a := fun t => Matrix.mulVec (K t)⁻¹ y with ha
  have hKa : ∀ t, Matrix.mulVec (K t) (a t) = y := by
    intro t
    rw [ha]
    simp only [Matrix.mulVec_mulVec]
    rw [Matrix.mul_nonsing_inv _ (Ne.isUnit (hd t)), Matrix.one_mulVec]
  have hKc : ContinuousAt K u := continuousAt_pi.mpr (fun i => continuousAt_pi.mpr (fun j => (h i j).continuousAt))
  rw [hasDerivAt_iff_tendsto_slope]
  have hdiff : ∀ t, dotProduct y (a t) - dotProduct y (a u) = -∑ i, ∑ j, a u i * a t j * (K t i j - K u i j) := by
    intro t
    have e1 : dotProduct y (a t) = ∑ i, ∑ j, a u i * a t j * K u i j := by
      conv_lhs => rw [← hKa u]
      simp only [dotProduct, Matrix.mulVec, Finset.sum_mul]
      rw [Finset.sum_comm]
      refine Finset.sum_congr rfl (fun i _ => Finset.sum_congr rfl (fun j _ => ?_))
      have : K u j i = K u i j := congrFun (congrFun (hs u) i) j
      rw [this]
      ring
    have e2 : dotProduct y (a u) = ∑ i, ∑ j, a u i * a t j * K t i j := by
      conv_lhs => rw [← hKa t]
      simp only [dotProduct, Matrix.mulVec, Finset.sum_mul]
      exact Finset.sum_congr rfl (fun i _ => Finset.sum_congr rfl (fun j _ => by ring))
    rw [e1, e2, ← Finset.sum_sub_distrib, ← Finset.sum_neg_distrib]
    refine Finset.sum_congr rfl (fun i _ => ?_)
    rw [← Finset.sum_sub_distrib, ← Finset.sum_neg_distrib]
    exact Finset.sum_congr rfl (fun j _ => by ring)
  have hslope : ∀ t, slope (fun t => dotProduct y (a t)) u t = -∑ i, ∑ j, a u i * a t j * slope (fun t => K t i j) u t := by
    intro t
    rw [slope_def_field, hdiff t, neg_div, Finset.sum_div]
    congr 1
    refine Finset.sum_congr rfl (fun i _ => ?_)
    rw [Finset.sum_div]
    refine Finset.sum_congr rfl (fun j _ => ?_)
    rw [slope_def_field, mul_div_assoc]
  have hfun : slope (fun t => dotProduct y (Matrix.mulVec (K t)⁻¹ y)) u = fun t => -∑ i, ∑ j, a u i * a t j * slope (fun t => K t i j) u t := funext hslope
  rw [hfun]
  refine Filter.Tendsto.neg (tendsto_finsetSum _ (fun i _ => tendsto_finsetSum _ (fun j _ => ?_)))
  refine Filter.Tendsto.mul (Filter.Tendsto.const_mul _ ?_) (hasDerivAt_iff_tendsto_slope.mp (h i j))
  exact (solve_continuous K u hKc (hd u) y j).tendsto.mono_left nhdsWithin_le_nhds

/-- The derivative of the log marginal likelihood along any curve of covariance matrices. -/
theorem lml_deriv {n q : ℕ} (K L : ℝ → Matrix (Fin n) (Fin n) ℝ) (A : ℝ → Matrix (Fin n) (Fin q) ℝ) (Y : Matrix (Fin n) (Fin q) ℝ) (hL : ∀ t, IsChol (L t) (K t)) (hA : ∀ t, K t * A t = Y)
    (G : Fin n → Fin n → ℝ) (u : ℝ) (h : ∀ i j, HasDerivAt (fun t => K t i j) (G i j) u) (Kinv : Matrix (Fin n) (Fin n) ℝ) (hi : K u * Kinv = 1) :
    HasDerivAt (fun t => lml (L t) (A t) Y) (lmlGrad Kinv (A u) G) u := by
  have hdp := fun t => chol_det_pos (hL t)
  have hinv : (K u)⁻¹ = Kinv := Matrix.inv_eq_right_inv hi
  have hsym : Kinv.transpose = Kinv := by rw [← hinv, Matrix.transpose_nonsing_inv, chol_symm (hL u)]
  have hld : HasDerivAt (fun t => Real.log (K t).det) (∑ i, ∑ j, Kinv i j * G i j) u := by
    refine hasDeriv_of ((det_deriv K G u h).log (hdp u).ne') (fun t => rfl) ?_
    rw [Finset.sum_div, Finset.sum_comm]
    refine Finset.sum_congr rfl (fun i _ => ?_)
    rw [Finset.sum_div]
    refine Finset.sum_congr rfl (fun j _ => ?_)
    have e : Kinv j i = Kinv i j := congrFun (congrFun hsym i) j
    rw [e, ← hinv, Matrix.inv_def, Ring.inverse_eq_inv', Matrix.smul_apply, smul_eq_mul]
    ring
  have hval : ∀ t, lml (L t) (A t) Y = ∑ c, logDensity (K t) (fun i => Y i c) := fun t => C103_value _ _ _ _ (hL t) (hA t)
  have hq := fun c => quad_deriv K G u h (fun t => chol_symm (hL t)) (fun t => (hdp t).ne') (fun i => Y i c)
  refine hasDeriv_of (HasDerivAt.fun_sum (fun c _ => (((hq c).const_mul (-(1 / 2))).sub (hld.const_mul (1 / 2))).sub_const (n / 2 * Real.log (2 * Real.pi)))) hval ?_
  unfold lmlGrad
  refine Finset.sum_congr rfl (fun c _ => ?_)
  have hAu : ∀ i, A u i c = Matrix.mulVec (K u)⁻¹ (fun i => Y i c) i := by
    intro i
    rw [solve_eq (hdp u).ne' (hA u)]
    rfl
  simp only [hAu]
  rw [Finset.mul_sum, neg_mul_neg, Finset.mul_sum, Finset.mul_sum, ← Finset.sum_sub_distrib]
  refine Finset.sum_congr rfl (fun i _ => ?_)
  rw [Finset.mul_sum, Finset.mul_sum, Finset.mul_sum, ← Finset.sum_sub_distrib]
  exact Finset.sum_congr rfl (fun j _ => by ring)

/-- The covariance whose density C103 takes is the kernel matrix with the noise on its diagonal: one value of `alpha` for every row, or the `i`-th value for the `i`-th row. -/
theorem C103_noise {n : ℕ} (alpha : List ℝ) (K : Matrix (Fin n) (Fin n) ℝ) (ha : alpha.length = 1 ∨ alpha.length = n) :
    ∃ M, addAlpha alpha K = some M ∧ (∀ i j, i ≠ j → M i j = K i j) ∧ (∀ a, alpha = [a] → ∀ i, M i i = K i i + a) ∧ (alpha.length = n → ∀ i : Fin n, ∀ a, alpha[i.val]? = some a → M i i = K i i + a) := by
  unfold addAlpha
  by_cases h1 : alpha.length = 1
  · rw [if_pos h1]
    refine ⟨_, rfl, fun i j hij => by simp [Matrix.diagonal_apply_ne _ hij], fun a e i => by subst e; simp, fun hn i a e => ?_⟩
    have h0 : i.val = 0 := by
      have := i.2
      omega
    rw [h0] at e
    simp [List.getD_eq_getElem?_getD, e]
  · have hn := ha.resolve_left h1
    rw [if_neg h1, if_neg (by omega)]
    refine ⟨_, rfl, fun i j hij => by simp [Matrix.diagonal_apply_ne _ hij], fun a e => by subst e; exact absurd rfl h1, fun _ i a e => ?_⟩
    simp [List.getD_eq_getElem?_getD, e]

/-- Two rows with different noise. -/
example : ([1, 3] : List ℝ).length = 1 ∨ ([1, 3] : List ℝ).length = 2 := Or.inr rfl

/-- The derivative of the value for kernels obtained in any way (`C104_gradient_partial` in Props/GprTheta.lean is about those `LogMarginalLikelihood` uses).  Here `c u` is the kernel with `u` for the `i`-th hyperparameter, `K u` its matrix on the training
rows with `alpha` added to the diagonal, `L u` and `A u` what gonum's Cholesky factorisation returns for it. -/
theorem gradient_any {n d q : ℕ} (X : Fin n → Fin d → ℝ) (Y : Matrix (Fin n) (Fin q) ℝ) (alpha : List ℝ) (k : Kern) (hk : GradOK X k) (hp : FreePos k) :
    ∃ g t, k.grad X = some g ∧ k.theta = some t ∧ g.length = t.length ∧ ∀ (i : ℕ) (hi : i < g.length) (hi' : i < t.length) (c : ℝ → Kern) (K L : ℝ → Matrix (Fin n) (Fin n) ℝ)
      (A : ℝ → Matrix (Fin n) (Fin q) ℝ) (Kinv : Matrix (Fin n) (Fin n) ℝ), (∀ u, Rescaled k (c u) ∧ (c u).theta = some (t.set i u)) →
      (∀ u, ((c u).evalM X X).bind (addAlpha alpha) = some (K u)) → (∀ u, IsChol (L u) (K u)) → (∀ u, K u * A u = Y) → K t[i] * Kinv = 1 →
      HasDerivAt (fun u => lml (L u) (A u) Y) (lmlGrad Kinv (A t[i]) g[i]) t[i] := by
  obtain ⟨g, t, hg, ht, hl, hmain⟩ := C102_gradient_partial X k hk hp
  refine ⟨g, t, hg, ht, hl, fun i hi hi' c K L A Kinv hc hK hL hA hKi => ?_⟩
  refine lml_deriv K L A Y hL hA g[i] t[i] (fun a b => ?_) Kinv hKi
  have hd := hmain i hi hi' c hc a b
  have hsome : ∃ D : Fin n → ℝ, ∀ u, K u = Matrix.of (fun i j => (c u).val (X i) (X j)) + Matrix.diagonal D := by
    by_cases h1 : alpha.length = 1
    · refine ⟨fun _ => alpha.getD 0 0, fun u => ?_⟩
      have := hK u
      unfold Kern.evalM addAlpha at this
      split at this
      · simp only [Option.bind_some, if_pos h1, Option.some.injEq] at this
        exact this.symm
      · simp at this
    · refine ⟨fun i => alpha.getD i.val 0, fun u => ?_⟩
      have := hK u
      unfold Kern.evalM addAlpha at this
      split at this
      · simp only [Option.bind_some, if_neg h1] at this
        split at this
        · cases this
        · simp only [Option.some.injEq] at this
          exact this.symm
      · simp at this
  obtain ⟨D, hD⟩ := hsome
  refine hasDeriv_of (hd.add_const (Matrix.diagonal D a b)) (fun u => ?_) rfl
  rw [hD u]
  rfl

/-- The hypotheses hold for a constant kernel on one row with `alpha = 1`, along `u`. -/
example (u : ℝ) : ((Kern.const (Real.exp u, false)).evalM (fun (_ : Fin 1) (_ : Fin 1) => (0 : ℝ)) (fun _ _ => 0)).bind (addAlpha [1]) = some (Matrix.of fun _ _ : Fin 1 => Real.exp u + 1) ∧
    IsChol (Matrix.of fun _ _ => Real.sqrt (Real.exp u + 1)) (Matrix.of fun _ _ : Fin 1 => Real.exp u + 1) ∧
    (Matrix.of fun _ _ : Fin 1 => Real.exp u + 1) * (Matrix.of fun _ _ : Fin 1 => 3 / (Real.exp u + 1)) = (Matrix.of fun _ _ : Fin 1 => (3 : ℝ)) := by
  have hpos : 0 < Real.exp u + 1 := by positivity
  refine ⟨?_, ⟨?_, ?_, ?_⟩, ?_⟩
  · simp only [Kern.evalM, Kern.evalOK, if_true, Option.bind_some, addAlpha, List.length_singleton]
    refine congrArg some ?_
    ext i j
    fin_cases i; fin_cases j
    simp [Kern.val, Matrix.diagonal]
  · intro i j hij
    exact absurd hij (by simp [Subsingleton.elim i j])
  · intro i
    exact Real.sqrt_pos.mpr hpos
  · ext i j
    simp [Matrix.mul_apply, Matrix.transpose, Real.mul_self_sqrt hpos.le]
  · ext i j
    simp only [Matrix.mul_apply, Matrix.of_apply, Finset.univ_unique, Finset.sum_const, Finset.card_singleton, one_smul]
    field_simp

/-! ## C105: the regressor -/

/-- **C105** violated: after `Fit`, `Predict` panics for every kernel, training set and new rows, because `YtrainMean` is never set. -/
theorem C105_predict_violated {n N d q : ℕ} (m m' : Regressor d q) (hm : m.ytrainMean = none) (X : Fin n → Fin d → ℝ) (Y : Fin n → Fin q → ℝ) (hf : m.fit X Y = some m') (X' : Fin N → Fin d → ℝ)
    (old : Option (Fin N → Fin q → ℝ)) : m'.predict X' old = none := by
  unfold Regressor.fit at hf
  split at hf
  · cases hf
  · cases hf
    unfold Regressor.predict
    simp only
    split
    · rfl
    · simp only [hm]
      split
      · rename_i h; cases h
      · rfl

/-- Even with `YtrainMean` set to zero by the caller, the prediction does not depend on the training outputs: it is `k(x, X) alpha` instead of the posterior mean. -/
theorem C105_outputs_ignored_violated {n N d q : ℕ} (m m₁ m₂ : Regressor d q) (X : Fin n → Fin d → ℝ) (Y₁ Y₂ : Fin n → Fin q → ℝ) (h₁ : m.fit X Y₁ = some m₁) (h₂ : m.fit X Y₂ = some m₂)
    (X' : Fin N → Fin d → ℝ) (old : Option (Fin N → Fin q → ℝ)) : m₁.predict X' old = m₂.predict X' old := by
  unfold Regressor.fit at h₁ h₂
  split at h₁
  · cases h₁
  · rename_i hc
    rw [if_neg hc] at h₂
    cases h₁
    cases h₂
    rfl

/-- A caller-set mean with which `Predict` returns: one row, `alpha = 2`, so 2 times the constant 3. -/
example (Y : Fin 1 → Fin 1 → ℝ) : ∃ m' : Regressor 1 1, (Regressor.mk (.const (3, false)) [2] none (some [[0]]) : Regressor 1 1).fit (fun (_ : Fin 1) _ => (0 : ℝ)) Y = some m' ∧
    m'.predict (fun (_ : Fin 1) _ => 5) none = some (fun _ _ => 6) := by
  refine ⟨_, rfl, ?_⟩
  simp only [Regressor.predict]
  simp [Kern.evalM, Kern.evalOK, Kern.val]
  norm_num

/-- **C105** violated: `Fit` panics for one `alpha` per training row, unless there are as many output columns as rows. -/
theorem C105_alpha_violated {n d q : ℕ} (m : Regressor d q) (h1 : n ≠ 1) (hn : m.alpha.length = n) (hq : n ≠ q) (X : Fin n → Fin d → ℝ) (Y : Fin n → Fin q → ℝ) : m.fit X Y = none := by
  unfold Regressor.fit
  rw [if_pos ⟨by rw [hn]; exact h1, by rw [hn]; exact hq⟩]

/-- **C105** violated: with one `alpha` per output column, which `Fit` accepts, the log marginal likelihood panics when there are more rows than columns. -/
theorem C105_alpha_columns_violated {n d q : ℕ} (m : Regressor d q) (h1 : q ≠ 1) (hn : m.alpha.length = q) (hq : q < n) (X : Fin n → Fin d → ℝ) (Y : Fin n → Fin q → ℝ) (K : Matrix (Fin n) (Fin n) ℝ) :
    (m.fit X Y).isSome = true ∧ addAlpha m.alpha K = none := by
  unfold Regressor.fit addAlpha
  rw [if_neg (by rw [hn]; simp), if_neg (by rw [hn]; exact h1), if_pos (by rw [hn]; exact hq)]
  exact ⟨rfl, rfl⟩

/-- **C105** violated: before `Fit`, `Predict` returns whatever the matrix passed for the result held, instead of zeros. -/
theorem C105_unfitted_violated {N d q : ℕ} (m : Regressor d q) (h : m.train = none) (X : Fin N → Fin d → ℝ) : (∀ old, m.predict X (some old) = some old) ∧ m.predict X none = some (fun _ _ => 0) := by
  unfold Regressor.predict
  rw [h]
  exact ⟨fun _ => rfl, rfl⟩

end Sk.GP
