import Verif.Model.PrepHelpers
import Verif.Spec.Stats
import Verif.Props.Scale
import Mathlib.Analysis.SpecialFunctions.ExpDeriv
import Mathlib.Analysis.SpecialFunctions.Trigonometric.DerivHyp
import Mathlib.Analysis.Calculus.Deriv.Inv
import Mathlib.Tactic.FieldSimp
import Mathlib.Tactic.LinearCombination
import Mathlib.Tactic.NormNum
import Mathlib.Tactic.Positivity

/-!
# C148: means, standard deviations, the dummy feature, the inverse of the normalizer; C150: activation functions
-/
set_option autoImplicit false

namespace Sk.PrepHelpers

theorem foldl_sum {K : Type} [Field K] (xs : List K) : ∀ a : K, xs.foldl (fun v x => v + x) a = a + xs.sum := by
  induction xs with
  | nil => intro a; simp
  | cons x xs ih => intro a; rw [List.foldl_cons, ih, List.sum_cons]; ring

/-- **C148, what holds** of `DenseMean`: with no matrix given, or one that holds zeros, the result is the mean of each column.
Missing from the full statement: a matrix that holds other values (`C148_dense_mean_violated`). -/
theorem C148_dense_mean_partial {K : Type} [Field K] (old : Option K) (h : old = none ∨ old = some 0) (xs : List K) : denseMean old xs = Sk.Stats.mean xs := by
  unfold denseMean Sk.Stats.mean
  rw [foldl_sum]
  rcases h with rfl | rfl <;> simp

/-- **C148 fails for `DenseMean` with a given matrix**: its old values are added before the division, so the result is the mean exactly if they were zero. -/
theorem C148_dense_mean_violated {K : Type} [Field K] [CharZero K] (old : K) (xs : List K) (hx : xs ≠ []) : denseMean (some old) xs = Sk.Stats.mean xs ↔ old = 0 := by
  unfold denseMean Sk.Stats.mean
  rw [foldl_sum]
  have hl : (xs.length : K) ≠ 0 := by
    rw [Nat.cast_ne_zero]
    exact fun h => hx (List.length_eq_zero_iff.1 h)
  rw [div_left_inj' hl]
  simp

example : denseMean (some (4 : ℚ)) [1, 3] = 4 ∧ denseMean (none : Option ℚ) [1, 3] = 2 := by norm_num [denseMean]

/-- **C148**: `AddDummyFeature` puts a 1 before the cells of each row. -/
theorem C148_dummy {K : Type} [Field K] (row : List K) : addDummy row = 1 :: row := by
  unfold addDummy
  rw [List.range_succ_eq_map, List.map_cons, if_pos rfl, List.map_map]
  congr 1
  apply List.ext_getElem?
  intro i
  rw [List.getElem?_map]
  by_cases hi : i < row.length
  · rw [List.getElem?_range hi]
    simp [hi]
  · rw [List.getElem?_eq_none (by simp; omega), List.getElem?_eq_none (by omega)]
    rfl

/-- **C64, standard deviation (partial)**: `NumpyLike.Std` is the population standard deviation exactly when the matrix has as many columns as rows, or the column is constant.
Missing: every other shape, where the claim is false (`C64_std_violated`). -/
theorem C64_std_partial (n : ℕ) (hn : 0 < n) (xs : List ℝ) (hne : xs ≠ []) : numpyStd n xs = Real.sqrt (Sk.Stats.pvar xs) ↔ n = xs.length ∨ Sk.Stats.pvar xs = 0 := by
  have h0 : 0 ≤ Sk.Scale.numpyVar n xs := by
    unfold Sk.Scale.numpyVar
    exact div_nonneg (List.sum_nonneg (by simp only [List.mem_map]; rintro _ ⟨x, _, rfl⟩; exact mul_self_nonneg _)) (Nat.cast_nonneg n)
  have h1 : 0 ≤ Sk.Stats.pvar xs := by
    unfold Sk.Stats.pvar
    exact div_nonneg (List.sum_nonneg (by simp only [List.mem_map]; rintro _ ⟨x, _, rfl⟩; first | exact mul_self_nonneg _ | exact sq_nonneg _)) (Nat.cast_nonneg _)
  rw [numpyStd, Real.sqrt_inj h0 h1]
  exact Sk.Scale.C64_numpy_var_partial n hn xs hne

/-- **C64 is violated** by every column that is not constant in every matrix with another number of columns than rows; variance and standard deviation depend on the other columns: with twice as many
columns the variance halves. -/
theorem C64_std_violated (n : ℕ) (hn : 0 < n) (xs : List ℝ) (hne : xs ≠ []) (hv : Sk.Stats.pvar xs ≠ 0) (hl : n ≠ xs.length) :
    Sk.Scale.numpyVar n xs ≠ Sk.Stats.pvar xs ∧ numpyStd n xs ≠ Real.sqrt (Sk.Stats.pvar xs) ∧ Sk.Scale.numpyVar (2 * n) xs = Sk.Scale.numpyVar n xs / 2 := by
  refine ⟨fun h => ?_, fun h => ?_, ?_⟩
  · rcases (Sk.Scale.C64_numpy_var_partial n hn xs hne).1 h with h | h
    · exact hl h
    · exact hv h
  · rcases (C64_std_partial n hn xs hne).1 h with h | h
    · exact hl h
    · exact hv h
  · unfold Sk.Scale.numpyVar
    push_cast
    rw [div_div, mul_comm (2 : ℝ)]

/-- A column meeting the conditions. -/
example : Sk.Stats.pvar [(0 : ℝ), 2] ≠ 0 ∧ 1 ≠ [(0 : ℝ), 2].length := by
  constructor
  · norm_num [Sk.Stats.pvar, Sk.Stats.mean]
  · simp

/-- Sample standard deviation: the square root of the sum of squared deviations over `n - 1`. -/
noncomputable def sampleStd (xs : List ℝ) : ℝ := Real.sqrt ((xs.map (fun x => (x - Sk.Stats.mean xs) ^ 2)).sum / ((xs.length : ℝ) - 1))

/-- **C148, what holds** of `MeanStdDev` (and `Mean`): the means are the means of the columns.
Missing from the full statement: the standard deviations (`C148_std_violated`). -/
theorem C148_mean_partial (n : ℕ) (xs : List ℝ) : (meanStdDev n xs).1 = Sk.Stats.mean xs ∧ mean xs = Sk.Stats.mean xs := ⟨rfl, rfl⟩

/-- **C148 fails for the standard deviation**: it is multiplied by `(n-1)/n` for the number `n` of columns of the matrix, which has nothing to do with the data:
it is the sample standard deviation only when that is zero, for a single column it is always zero, and the result for a column changes when other columns are added. -/
theorem C148_std_violated (n n' : ℕ) (hn : 0 < n) (hn' : 0 < n') (xs : List ℝ) :
    ((meanStdDev n xs).2 = sampleStd xs ↔ sampleStd xs = 0) ∧ (meanStdDev 1 xs).2 = 0 ∧ (sampleStd xs ≠ 0 → n ≠ n' → (meanStdDev n xs).2 ≠ (meanStdDev n' xs).2) := by
  have hs : ∀ n, (meanStdDev n xs).2 = sampleStd xs * ((n : ℝ) - 1) / n := fun n => rfl
  have h0 : (n : ℝ) ≠ 0 := Nat.cast_ne_zero.2 (by omega)
  have h0' : (n' : ℝ) ≠ 0 := Nat.cast_ne_zero.2 (by omega)
  refine ⟨?_, ?_, ?_⟩
  · rw [hs, div_eq_iff h0]
    constructor
    · intro h; linear_combination -h
    · intro h; rw [h]; ring
  · rw [hs]; norm_num
  · intro hne hnn h
    rw [hs, hs, div_eq_div_iff h0 h0'] at h
    apply hnn
    have : sampleStd xs * ((n : ℝ) - n') = 0 := by linear_combination h
    rcases mul_eq_zero.1 this with h1 | h1
    · exact absurd h1 hne
    · exact_mod_cast sub_eq_zero.1 h1

/-- The column 0, 2 has a sample standard deviation that is not zero. -/
example : sampleStd [0, 2] ≠ 0 := by
  unfold sampleStd Sk.Stats.mean
  norm_num

/-- The population standard deviation is what the code returns when the matrix has as many columns `n` as needed for
`((n-1)/n)² = (m-1)/m`; for two rows this never happens. -/
theorem C148_population_violated (n : ℕ) (hn : 0 < n) (a b : ℝ) (hab : a ≠ b) : (meanStdDev n [a, b]).2 ≠ Real.sqrt (Sk.Stats.pvar [a, b]) := by
  have h1 : (meanStdDev n [a, b]).2 = Real.sqrt ((a - b) ^ 2 / 2) * ((n : ℝ) - 1) / n := by
    simp only [meanStdDev, statMeanStd, List.sum_cons, List.sum_nil, List.map_cons, List.map_nil, List.length_cons, List.length_nil]
    congr 3
    norm_num
    ring
  have h2 : Sk.Stats.pvar [a, b] = (a - b) ^ 2 / 4 := by
    simp only [Sk.Stats.pvar, Sk.Stats.mean, List.sum_cons, List.sum_nil, List.map_cons, List.map_nil, List.length_cons, List.length_nil]
    norm_num
    ring
  rw [h1, h2]
  intro h
  have h0 : (n : ℝ) ≠ 0 := Nat.cast_ne_zero.2 (by omega)
  have hsq := congrArg (fun x => x ^ 2) h
  beta_reduce at hsq
  rw [Real.sq_sqrt (by positivity), div_pow, mul_pow, Real.sq_sqrt (by positivity)] at hsq
  have hd : (a - b) ^ 2 ≠ 0 := pow_ne_zero 2 (sub_ne_zero.2 hab)
  have h3 : (2 : ℝ) * ((n : ℝ) - 1) ^ 2 = n ^ 2 := by
    field_simp at hsq
    linarith
  -- `2 (n-1)² = n²` has no solution in natural numbers
  have h4 : 2 * ((n : ℤ) - 1) ^ 2 = (n : ℤ) ^ 2 := by exact_mod_cast h3
  have h5 : ((n : ℤ) - 2) ^ 2 = 2 := by linear_combination h4
  have h6 : ∀ k : ℤ, k ^ 2 ≠ 2 := by
    intro k hk
    have h7 : k < 2 := by nlinarith
    have h8 : -2 < k := by nlinarith
    have : k = -1 ∨ k = 0 ∨ k = 1 := by omega
    rcases this with rfl | rfl | rfl <;> norm_num at hk
  exact h6 _ h5

/-- **C148 fails for the inverse of the normalizer**: the result matrix is never allocated, so on every non-empty matrix `InverseTransform` panics. -/
theorem C148_normalizer_inverse_violated {K : Type} [Field K] (nrm : List K) (vecs : List (List K)) (h : vecs ≠ []) : normalizerInverse nrm vecs = none := by
  unfold normalizerInverse
  cases vecs with
  | nil => exact absurd rfl h
  | cons v vs =>
    rw [List.zipIdx_cons, List.foldlM_cons]
    cases nrm[0]? <;> rfl

/-! ## C150 -/

/-- **C150, what holds**: `Fprime`, given the value of the activation function, is its derivative: everywhere for identity, logistic and tanh, at every `x ≠ 0` for relu.
Missing from the full statement: relu has no derivative at zero (`Fprime` gives 0 there). -/
theorem C150_derivative_partial (f : Act) (x : ℝ) (h : f = Act.relu → x ≠ 0) : HasDerivAt f.F (f.Fprime (f.F x)) x := by
  cases f with
  | identity => exact hasDerivAt_id x
  | logistic =>
    have hpos : 1 + Real.exp (-x) ≠ 0 := by have := Real.exp_pos (-x); positivity
    have h1 : HasDerivAt (fun x : ℝ => 1 + Real.exp (-x)) (Real.exp (-x) * -1) x := ((hasDerivAt_neg x).exp).const_add 1
    have h2 := (hasDerivAt_const x (1 : ℝ)).div h1 hpos
    refine h2.congr_deriv ?_
    simp only [Act.Fprime, Act.F]
    field_simp
    ring
  | tanh =>
    have hc : Real.cosh x ≠ 0 := (Real.cosh_pos x).ne'
    have h1 := (Real.hasDerivAt_sinh x).div (Real.hasDerivAt_cosh x) hc
    have hf : Act.tanh.F = fun x => Real.sinh x / Real.cosh x := by
      funext x; exact Real.tanh_eq_sinh_div_cosh x
    rw [hf]
    refine h1.congr_deriv ?_
    simp only [Act.Fprime]
    field_simp
  | relu =>
    have hx := h rfl
    rcases lt_or_gt_of_ne hx with hx | hx
    · have h1 : HasDerivAt (fun _ : ℝ => (0 : ℝ)) 0 x := hasDerivAt_const x 0
      have he : Act.relu.F =ᶠ[nhds x] (fun _ => 0) := by
        filter_upwards [Iio_mem_nhds hx] with y hy
        exact if_pos hy
      refine (h1.congr_of_eventuallyEq he).congr_deriv ?_
      simp [Act.Fprime, Act.F, hx]
    · have h1 : HasDerivAt (fun y : ℝ => y) 1 x := hasDerivAt_id x
      have he : Act.relu.F =ᶠ[nhds x] (fun y => y) := by
        filter_upwards [Ioi_mem_nhds hx] with y hy
        exact if_neg (not_lt.2 (le_of_lt hy))
      refine (h1.congr_of_eventuallyEq he).congr_deriv ?_
      have hn : ¬ x < 0 := not_lt.2 hx.le
      simp [Act.Fprime, Act.F, hn, not_le.2 hx]

/-- At zero relu has no derivative, so no value of `Fprime` could be right there. -/
theorem C150_relu_kink : ¬ ∃ d, HasDerivAt Act.relu.F d 0 := by
  rintro ⟨d, hd⟩
  have h1 : HasDerivWithinAt Act.relu.F d (Set.Iio 0) 0 := hd.hasDerivWithinAt
  have h2 : HasDerivWithinAt Act.relu.F d (Set.Ioi 0) 0 := hd.hasDerivWithinAt
  have e1 : HasDerivWithinAt Act.relu.F 0 (Set.Iio 0) 0 := by
    refine (hasDerivWithinAt_const (0 : ℝ) (Set.Iio 0) (0 : ℝ)).congr (fun y hy => ?_) ?_
    · exact if_pos hy
    · simp [Act.F]
  have e2 : HasDerivWithinAt Act.relu.F 1 (Set.Ioi 0) 0 := by
    refine (hasDerivWithinAt_id (0 : ℝ) (Set.Ioi 0)).congr (fun y hy => ?_) ?_
    · exact if_neg (not_lt.2 (le_of_lt hy))
    · simp [Act.F]
  have u1 := (uniqueDiffWithinAt_Iio (0 : ℝ)).eq_deriv _ h1 e1
  have u2 := (uniqueDiffWithinAt_Ioi (0 : ℝ)).eq_deriv _ h2 e2
  rw [u1] at u2
  exact zero_ne_one u2

/-- **C150.** `Fprime`, given the value of the activation function, is its derivative wherever there is one; where there is none (relu at zero) it is a subgradient, the derivative from the left. -/
theorem C150_derivative (f : Act) (x : ℝ) : ((∃ d, HasDerivAt f.F d x) → HasDerivAt f.F (f.Fprime (f.F x)) x) ∧
    ((¬ ∃ d, HasDerivAt f.F d x) → f = Act.relu ∧ x = 0 ∧ (∀ y, f.F x + f.Fprime (f.F x) * (y - x) ≤ f.F y) ∧ ∀ y ≤ x, f.F y = f.F x + f.Fprime (f.F x) * (y - x)) := by
  by_cases h : f = Act.relu ∧ x = 0
  · obtain ⟨rfl, rfl⟩ := h
    refine ⟨fun h => absurd h C150_relu_kink, fun _ => ⟨rfl, rfl, ?_, ?_⟩⟩
    · intro y
      by_cases hy : y < 0
      · simp [Act.F, Act.Fprime, hy]
      · simp only [Act.F, Act.Fprime, lt_irrefl, if_false, le_refl, if_true, hy, zero_mul, add_zero]
        exact not_lt.1 hy
    · intro y hy
      rcases hy.lt_or_eq with hy | rfl
      · simp [Act.F, Act.Fprime, hy]
      · simp [Act.F, Act.Fprime]
  · have hd := C150_derivative_partial f x (fun hf hx => h ⟨hf, hx⟩)
    exact ⟨fun _ => hd, fun hn => absurd ⟨_, hd⟩ hn⟩

/-- The ranges: the logistic values lie strictly between 0 and 1, tanh strictly between -1 and 1, relu is never negative; all are monotone. -/
theorem C150_range (x y : ℝ) : (0 < Act.logistic.F x ∧ Act.logistic.F x < 1) ∧ (-1 < Act.tanh.F x ∧ Act.tanh.F x < 1) ∧ 0 ≤ Act.relu.F x ∧
    ∀ f : Act, x ≤ y → f.F x ≤ f.F y := by
  have he : ∀ x : ℝ, 0 < 1 + Real.exp (-x) := fun x => by have := Real.exp_pos (-x); positivity
  refine ⟨⟨one_div_pos.2 (he x), ?_⟩, ⟨Real.neg_one_lt_tanh x, Real.tanh_lt_one x⟩, ?_, ?_⟩
  · show 1 / (1 + Real.exp (-x)) < 1
    rw [div_lt_one (he x)]
    have := Real.exp_pos (-x)
    linarith
  · show 0 ≤ if x < 0 then 0 else x
    split_ifs with h
    · exact le_refl _
    · exact not_lt.1 h
  · intro f hxy
    cases f with
    | identity => exact hxy
    | logistic =>
      show 1 / (1 + Real.exp (-x)) ≤ 1 / (1 + Real.exp (-y))
      refine one_div_le_one_div_of_le (he y) ?_
      have := Real.exp_le_exp.2 (neg_le_neg hxy)
      linarith
    | tanh =>
      show Real.tanh x ≤ Real.tanh y
      rw [Real.tanh_eq_sinh_div_cosh, Real.tanh_eq_sinh_div_cosh, div_le_div_iff₀ (Real.cosh_pos x) (Real.cosh_pos y)]
      have h1 : 0 ≤ Real.sinh (y - x) := Real.sinh_nonneg_iff.2 (sub_nonneg.2 hxy)
      rw [Real.sinh_sub] at h1
      linarith
    | relu =>
      show (if x < 0 then 0 else x) ≤ if y < 0 then 0 else y
      split_ifs <;> linarith

end Sk.PrepHelpers
