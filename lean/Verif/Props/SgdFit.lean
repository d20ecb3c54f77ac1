import Verif.Model.SgdFit
import Verif.Props.LinFitGom

/-! # C175: what `SGDRegressor` finds -/
set_option autoImplicit false

namespace Sk.Lin

variable {n p q : ℕ}

/-! ### Specification -/

/-- The cost that `SGDRegressor` describes: half the mean squared error of the model with coefficients `v` and intercept `b`, plus `a r / 2n` times the sum of the absolute coefficients, plus `a (1 - r) / 2n` times
the sum of their squares. -/
noncomputable def sgdCost (X : Fin n → Fin p → ℝ) (y : Fin n → ℝ) (a r : ℝ) (v : Fin p → ℝ) (b : ℝ) : ℝ :=
  (∑ i, (y i - (∑ j, X i j * v j + b)) ^ 2 + a * (r * ∑ j, |v j| + (1 - r) * ∑ j, v j ^ 2)) / (2 * n)

/-- Sum of squared residuals of the model with coefficients `v` and intercept `b`. -/
noncomputable def rss (X : Fin n → Fin p → ℝ) (y : Fin n → ℝ) (v : Fin p → ℝ) (b : ℝ) : ℝ := ∑ i, (y i - (∑ j, X i j * v j + b)) ^ 2

/-- What is assumed of the minimiser: for every output, started from zeros, it ends at a point where the gradient it is given on the data `X`, `Y` vanishes. -/
def SgdSolves (alpha l1Ratio : ℝ) (minimize : Fin q → Minimizer p) (X : Fin n → Fin p → ℝ) (Y : Fin n → Fin q → ℝ) : Prop :=
  ∀ o, Stationary (minimize o) (sgdLoss X (fun i => Y i o) alpha l1Ratio) (sgdGrad X (fun i => Y i o) alpha l1Ratio) (fun _ => 0)

/-- The data that the minimiser works on with an intercept: centred, features divided by their spread with `normalize`. -/
noncomputable def centredX (normalize : Bool) (X : Fin n → Fin p → ℝ) : Fin n → Fin p → ℝ := fun i j => (X i j - colMean (fun i => X i j)) / (if normalize then spread (fun i => X i j) else 1)

/-! ### Columns -/

theorem sgd_fold (alpha l1Ratio : ℝ) (minimize : Fin q → Minimizer p) (X : Fin n → Fin p → ℝ) (Y : Fin n → Fin q → ℝ) (r : Fin q → MinRet p)
    (hr : ∀ o, minimize o (sgdLoss X (fun i => Y i o) alpha l1Ratio) (sgdGrad X (fun i => Y i o) alpha l1Ratio) (fun _ => 0) = some (r o)) (l : List (Fin q)) : ∀ c : Fin p → Fin q → ℝ,
    ∃ c', l.foldlM (fun coef o => (minimize o (sgdLoss X (fun i => Y i o) alpha l1Ratio) (sgdGrad X (fun i => Y i o) alpha l1Ratio) (fun _ => 0)).map
      (fun r j o' => if o' = o then r.x j else coef j o')) c = some c' ∧ ∀ j o, c' j o = if o ∈ l then (r o).x j else c j o := by
  induction l with
  | nil => intro c; exact ⟨c, rfl, by simp⟩
  | cons a l ih =>
    intro c
    obtain ⟨c', h1, h2⟩ := ih (fun j o' => if o' = a then (r a).x j else c j o')
    refine ⟨c', ?_, ?_⟩
    · rw [List.foldlM_cons, hr a]
      exact h1
    · intro j o
      rw [h2 j o]
      by_cases ho : o ∈ l
      · rw [if_pos ho, if_pos (List.mem_cons_of_mem _ ho)]
      · rw [if_neg ho]
        by_cases hoa : o = a
        · subst hoa
          simp
        · simp [ho, hoa]

/-- C175: column `o` of the coefficients is what the minimiser returned for the loss and gradient of output `o`, started from zeros. -/
theorem C175_columns (alpha l1Ratio : ℝ) (minimize : Fin q → Minimizer p) (X : Fin n → Fin p → ℝ) (Y : Fin n → Fin q → ℝ) (r : Fin q → MinRet p)
    (hr : ∀ o, minimize o (sgdLoss X (fun i => Y i o) alpha l1Ratio) (sgdGrad X (fun i => Y i o) alpha l1Ratio) (fun _ => 0) = some (r o)) :
    sgdColumns alpha l1Ratio minimize X Y = some (fun j o => (r o).x j) := by
  obtain ⟨c', h1, h2⟩ := sgd_fold alpha l1Ratio minimize X Y r hr (List.finRange q) (fun _ _ => 0)
  unfold sgdColumns
  rw [h1]
  congr 1
  funext j o
  rw [h2, if_pos (List.mem_finRange o)]

/-! ### Where the gradient vanishes -/

/-- With `Alpha ≥ 0` and `0 ≤ L1Ratio ≤ 1`, the gradient given to the minimiser vanishes exactly where that of the sum of squares does. -/
theorem sgdGrad_zero {alpha l1 : ℝ} (ha : 0 ≤ alpha) (h0 : 0 ≤ l1) (h1 : l1 ≤ 1) (X : Fin n → Fin p → ℝ) (y : Fin n → ℝ) (c : Fin p → ℝ) (j : Fin p) :
    sgdGrad X y alpha l1 c j = 0 ↔ ∑ i, X i j * ((∑ j, X i j * c j) - y i) = 0 := by
  set g := ∑ i, X i j * ((∑ j, X i j * c j) - y i) with hg
  have hd : sgdGrad X y alpha l1 c j = g + alpha * l1 / n * sgn g + alpha * (1 - l1) / n * g := rfl
  rw [hd]
  have ha1 : 0 ≤ alpha * l1 / n := by positivity
  have ha2 : 0 ≤ alpha * (1 - l1) / n := by
    have : 0 ≤ 1 - l1 := by linarith
    positivity
  constructor
  · intro h
    rcases lt_trichotomy g 0 with hn | hz | hp
    · have hs : sgn g = -1 := by simp [sgn, hn]
      rw [hs] at h
      have : alpha * (1 - l1) / n * g ≤ 0 := mul_nonpos_of_nonneg_of_nonpos ha2 hn.le
      linarith
    · exact hz
    · have hs : sgn g = 1 := by simp [sgn, hp, hp.le, not_lt.2 hp.le]
      rw [hs] at h
      have : 0 ≤ alpha * (1 - l1) / n * g := mul_nonneg ha2 hp.le
      linarith
  · intro h
    rw [h]
    simp [sgn]

/-- What a fit with intercept returns for each output, given the minimiser's result. -/
theorem sgd_fit_eq (normalize : Bool) (alpha l1 : ℝ) (minimize : Fin q → Minimizer p) (old : Fin q → ℝ) (X : Fin n → Fin p → ℝ) (Y : Fin n → Fin q → ℝ)
    (hv : normalize = true → ∀ j, Varies (fun i => X i j)) (r : Fin q → MinRet p)
    (hr : ∀ o, minimize o (sgdLoss (centredX normalize X) (fun i => Y i o - colMean (fun i => Y i o)) alpha l1) (sgdGrad (centredX normalize X) (fun i => Y i o - colMean (fun i => Y i o)) alpha l1) (fun _ => 0) = some (r o)) :
    sgdFit true normalize alpha l1 minimize old X Y = some (fun o =>
      some ⟨fun j => (r o).x j / divisor normalize X j, colMean (fun i => Y i o) - ∑ j, colMean (fun i => X i j) * ((r o).x j / divisor normalize X j)⟩) := by
  unfold sgdFit
  simp only [preprocess_true normalize X _ hv]
  have hcol : sgdColumns alpha l1 minimize (fun i j => (X i j - colMean (fun i => X i j)) / divisor normalize X j) (fun i o => Y i o - colMean (fun i => Y i o)) = some (fun j o => (r o).x j) :=
    C175_columns alpha l1 minimize (centredX normalize X) _ r hr
  rw [hcol, Option.map_some]
  have hne : ¬ ∃ j, divisor normalize X j = 0 := by
    rintro ⟨j, hj⟩
    exact divisor_ne normalize X hv j hj
  congr 1
  funext o
  simp only [setIntercept, if_neg hne, if_true]

/-- The normal equations at what is found. -/
theorem sgd_solution (normalize : Bool) {alpha l1 : ℝ} (ha : 0 ≤ alpha) (h0 : 0 ≤ l1) (h1 : l1 ≤ 1) (minimize : Fin q → Minimizer p) (old : Fin q → ℝ) (X : Fin n → Fin p → ℝ) (Y : Fin n → Fin q → ℝ)
    (hv : normalize = true → ∀ j, Varies (fun i => X i j)) (hs : SgdSolves alpha l1 minimize (centredX normalize X) (fun i o => Y i o - colMean (fun i => Y i o))) :
    ∃ f, sgdFit true normalize alpha l1 minimize old X Y = some f ∧ ∀ o, ∃ (θ : Fin p → ℝ) (m : Coefs p), f o = some m ∧ m.coef = (fun j => θ j / divisor normalize X j) ∧
      m.intercept = colMean (fun i => Y i o) - ∑ j, colMean (fun i => X i j) * m.coef j ∧
      ∀ j, ∑ i, (X i j - colMean (fun i => X i j)) / divisor normalize X j * ((∑ k, (X i k - colMean (fun i => X i k)) / divisor normalize X k * θ k) - (Y i o - colMean (fun i => Y i o))) + 0 * θ j = 0 := by
  choose r hr hz using hs
  refine ⟨_, sgd_fit_eq normalize alpha l1 minimize old X Y hv r hr, fun o => ⟨(r o).x, _, rfl, rfl, rfl, fun j => ?_⟩⟩
  rw [zero_mul, add_zero]
  exact (sgdGrad_zero ha h0 h1 _ _ _ j).1 (hz o j)

/-- C175: whatever `Alpha ≥ 0` and `L1Ratio` are, if the minimiser ends where the gradient it is given vanishes, every output of the fitted `SGDRegressor` minimises the plain sum of squared residuals over all coefficients
and intercepts: the penalty has no effect. -/
theorem C175_least_squares (hn : n ≠ 0) (normalize : Bool) {alpha l1 : ℝ} (ha : 0 ≤ alpha) (h0 : 0 ≤ l1) (h1 : l1 ≤ 1) (minimize : Fin q → Minimizer p) (old : Fin q → ℝ) (X : Fin n → Fin p → ℝ) (Y : Fin n → Fin q → ℝ)
    (hv : normalize = true → ∀ j, Varies (fun i => X i j)) (hs : SgdSolves alpha l1 minimize (centredX normalize X) (fun i o => Y i o - colMean (fun i => Y i o))) :
    ∃ f, sgdFit true normalize alpha l1 minimize old X Y = some f ∧ ∀ o, ∃ m, f o = some m ∧ ∀ (v : Fin p → ℝ) (b : ℝ), rss X (fun i => Y i o) m.coef m.intercept ≤ rss X (fun i => Y i o) v b := by
  obtain ⟨f, hf, hc⟩ := sgd_solution normalize ha h0 h1 minimize old X Y hv hs
  refine ⟨f, hf, fun o => ?_⟩
  obtain ⟨θ, m, hm, hco, hi, hz⟩ := hc o
  refine ⟨m, hm, fun v b => ?_⟩
  have key : ∀ v b, rss X (fun i => Y i o) v b = ridgeCost X (fun i => Y i o) 0 (divisor normalize X) v b := by
    intro v b
    simp [rss, ridgeCost]
  rw [key, key, ridge_split X _ _ _ _ _ hn (divisor_ne normalize X hv), ridge_split X _ _ _ _ _ hn (divisor_ne normalize X hv)]
  have e0 : colMean (fun i => Y i o) - (∑ j, colMean (fun i => X i j) * m.coef j) - m.intercept = 0 := by rw [hi]; ring
  rw [e0]
  simp only [hco, divisor_cancel normalize X hv]
  have hx := ridge_expand _ _ _ θ hz (fun j => divisor normalize X j * v j - θ j)
  simp only [add_sub_cancel] at hx
  rw [hx]
  have h1 : 0 ≤ ∑ i, (∑ j, (X i j - colMean (fun i => X i j)) / divisor normalize X j * (divisor normalize X j * v j - θ j)) ^ 2 := Finset.sum_nonneg (fun _ _ => sq_nonneg _)
  have h3 : 0 ≤ (n : ℝ) * (colMean (fun i => Y i o) - (∑ j, colMean (fun i => X i j) * v j) - b) ^ 2 := by positivity
  linarith

/-- C175 with `Alpha = 0`: every output minimises the cost described over all coefficients and intercepts.  Missing: positive `Alpha`, for which it is false (`C175_alpha_violated`). -/
theorem C175_cost_partial (hn : n ≠ 0) (l1 : ℝ) (h0 : 0 ≤ l1) (h1 : l1 ≤ 1) (minimize : Fin q → Minimizer p) (old : Fin q → ℝ) (X : Fin n → Fin p → ℝ) (Y : Fin n → Fin q → ℝ)
    (hs : SgdSolves 0 l1 minimize (centredX false X) (fun i o => Y i o - colMean (fun i => Y i o))) :
    ∃ f, sgdFit true false 0 l1 minimize old X Y = some f ∧ ∀ o, ∃ m, f o = some m ∧ ∀ (v : Fin p → ℝ) (b : ℝ), sgdCost X (fun i => Y i o) 0 l1 m.coef m.intercept ≤ sgdCost X (fun i => Y i o) 0 l1 v b := by
  obtain ⟨f, hf, hc⟩ := C175_least_squares hn false le_rfl h0 h1 minimize old X Y (by simp) hs
  refine ⟨f, hf, fun o => ?_⟩
  obtain ⟨m, hm, hv⟩ := hc o
  refine ⟨m, hm, fun v b => ?_⟩
  have := hv v b
  unfold rss at this
  unfold sgdCost
  rw [zero_mul, zero_mul, add_zero, add_zero]
  exact div_le_div_of_nonneg_right this (by positivity)

/-- C175, violated: for every positive `Alpha` (the default is 0.0001) and every `L1Ratio` between 0 and 1, if the minimiser ends where the gradient it is given vanishes, then for every output that is correlated with some
feature the fitted model is *not* a minimiser of the cost. -/
theorem C175_alpha_violated (hn : n ≠ 0) {alpha l1 : ℝ} (ha : 0 < alpha) (h0 : 0 ≤ l1) (h1 : l1 ≤ 1) (minimize : Fin q → Minimizer p) (old : Fin q → ℝ) (X : Fin n → Fin p → ℝ) (Y : Fin n → Fin q → ℝ)
    (hs : SgdSolves alpha l1 minimize (centredX false X) (fun i o => Y i o - colMean (fun i => Y i o))) (o : Fin q)
    (hcor : ∃ j, ∑ i, (X i j - colMean (fun i => X i j)) * (Y i o - colMean (fun i => Y i o)) ≠ 0) :
    ∃ f m, sgdFit true false alpha l1 minimize old X Y = some f ∧ f o = some m ∧ ∃ (v : Fin p → ℝ) (b : ℝ),
      sgdCost X (fun i => Y i o) alpha l1 v b < sgdCost X (fun i => Y i o) alpha l1 m.coef m.intercept := by
  obtain ⟨f, hf, hc⟩ := sgd_solution false ha.le h0 h1 minimize old X Y (by simp) hs
  obtain ⟨θ, m, hm, hco, hi, hz⟩ := hc o
  refine ⟨f, m, hf, hm, ?_⟩
  have hd : ∀ j, divisor false X j = 1 := fun j => rfl
  simp only [hd, div_one] at hco hz
  set A : Fin n → Fin p → ℝ := fun i j => X i j - colMean (fun i => X i j) with hA
  set y : Fin n → ℝ := fun i => Y i o - colMean (fun i => Y i o) with hy
  -- some coefficient is not zero
  obtain ⟨j0, hj0⟩ : ∃ j, θ j ≠ 0 := by
    by_contra hall
    push Not at hall
    obtain ⟨j, hj⟩ := hcor
    apply hj
    have := hz j
    simp only [hall, mul_zero, Finset.sum_const_zero, zero_sub, add_zero, mul_neg, Finset.sum_neg_distrib, neg_eq_zero] at this
    exact this
  set T := ∑ j, θ j ^ 2 with hT
  set N := ∑ j, |θ j| with hN
  set S := ∑ i, (∑ j, A i j * θ j) ^ 2 with hS
  have hT0 : 0 < T := Finset.sum_pos' (fun j _ => sq_nonneg _) ⟨j0, Finset.mem_univ _, by positivity⟩
  have hN0 : 0 < N := Finset.sum_pos' (fun j _ => abs_nonneg _) ⟨j0, Finset.mem_univ _, by positivity⟩
  have hS0 : 0 ≤ S := Finset.sum_nonneg (fun _ _ => sq_nonneg _)
  set D := alpha * (l1 * N + (1 - l1) * T) with hD
  have hD0 : 0 < D := by
    apply mul_pos ha
    rcases h0.lt_or_eq with h | h
    · have : 0 ≤ (1 - l1) * T := mul_nonneg (by linarith) hT0.le
      have : 0 < l1 * N := mul_pos h hN0
      linarith
    · rw [← h]
      simpa using hT0
  set t := D / (S + D) with ht
  have ht0 : 0 < t := div_pos hD0 (by linarith)
  have ht1 : t ≤ 1 := by rw [ht, div_le_one (by linarith)]; linarith
  have htS : t * S < D := by
    rw [ht, div_mul_eq_mul_div, div_lt_iff₀ (by linarith)]
    nlinarith [mul_pos hD0 hD0]
  refine ⟨fun j => θ j + -t * θ j, colMean (fun i => Y i o) - ∑ j, colMean (fun i => X i j) * (θ j + -t * θ j), ?_⟩
  have key : ∀ v b, sgdCost X (fun i => Y i o) alpha l1 v b = (ridgeCost X (fun i => Y i o) 0 (fun _ => 1) v b + alpha * (l1 * ∑ j, |v j| + (1 - l1) * ∑ j, v j ^ 2)) / (2 * n) := by
    intro v b
    simp [sgdCost, ridgeCost]
  rw [key, key, ridge_split X _ _ _ _ _ hn (fun _ => one_ne_zero), ridge_split X _ _ _ _ _ hn (fun _ => one_ne_zero)]
  have e0 : colMean (fun i => Y i o) - (∑ j, colMean (fun i => X i j) * m.coef j) - m.intercept = 0 := by rw [hi]; ring
  rw [e0, sub_self]
  simp only [hco, div_one, one_mul, zero_mul, add_zero]
  have hx := ridge_expand A y 0 θ (fun j => hz j) (fun j => -t * θ j)
  have e1 : ∑ i, (∑ j, A i j * (-t * θ j)) ^ 2 = t ^ 2 * S := by
    rw [hS, Finset.mul_sum]
    apply Finset.sum_congr rfl
    intro i _
    rw [← mul_pow, Finset.mul_sum, ← neg_sq, ← Finset.sum_neg_distrib]
    congr 1
    exact Finset.sum_congr rfl (fun j _ => by ring)
  have e3 : ∑ j, (θ j + -t * θ j) ^ 2 = (1 - t) ^ 2 * T := by
    rw [hT, Finset.mul_sum]
    exact Finset.sum_congr rfl (fun j _ => by ring)
  have e4 : ∑ j, |θ j + -t * θ j| = (1 - t) * N := by
    rw [hN, Finset.mul_sum]
    refine Finset.sum_congr rfl (fun j _ => ?_)
    rw [show θ j + -t * θ j = (1 - t) * θ j by ring, abs_mul, abs_of_nonneg (by linarith : 0 ≤ 1 - t)]
  rw [e1] at hx
  simp only [zero_mul, add_zero] at hx
  rw [e3, e4]
  have hn' : (0 : ℝ) < 2 * n := by
    have : (0 : ℝ) < n := Nat.cast_pos.2 (Nat.pos_of_ne_zero hn)
    linarith
  apply div_lt_div_of_pos_right _ hn'
  change ∑ i, (y i - ∑ j, A i j * (θ j + -t * θ j)) ^ 2 + n * 0 ^ 2 + _ < ∑ i, (y i - ∑ j, A i j * θ j) ^ 2 + n * 0 ^ 2 + _
  rw [hx]
  have e5 : alpha * (l1 * ((1 - t) * N) + (1 - l1) * ((1 - t) ^ 2 * T)) = alpha * (l1 * N + (1 - l1) * T) - t * D - alpha * (1 - l1) * T * (t * (1 - t)) := by
    rw [hD]; ring
  rw [e5]
  have h6 : 0 ≤ alpha * (1 - l1) * T * (t * (1 - t)) := by
    have : 0 ≤ 1 - l1 := by linarith
    have : 0 ≤ 1 - t := by linarith
    positivity
  have h7 : t ^ 2 * S < t * D := by
    rw [sq, mul_assoc]
    exact mul_lt_mul_of_pos_left htS ht0
  linarith

/-- C175, without intercept: every output minimises the sum of squares of models through the origin, whatever `Alpha ≥ 0`, `L1Ratio` and `Normalize` are; the intercept keeps the value it had before the call. -/
theorem C175_no_intercept (normalize : Bool) {alpha l1 : ℝ} (ha : 0 ≤ alpha) (h0 : 0 ≤ l1) (h1 : l1 ≤ 1) (minimize : Fin q → Minimizer p) (old : Fin q → ℝ) (X : Fin n → Fin p → ℝ) (Y : Fin n → Fin q → ℝ)
    (hs : SgdSolves alpha l1 minimize X Y) :
    ∃ f, sgdFit false normalize alpha l1 minimize old X Y = some f ∧ ∀ o, ∃ m, f o = some m ∧ m.intercept = old o ∧ ∀ v : Fin p → ℝ, rss X (fun i => Y i o) m.coef 0 ≤ rss X (fun i => Y i o) v 0 := by
  choose r hr hz using hs
  have hf : sgdFit false normalize alpha l1 minimize old X Y = some (fun o => some ⟨(r o).x, old o⟩) := by
    unfold sgdFit
    simp only [preprocess, setIntercept, Bool.false_eq_true, if_false, one_ne_zero, exists_const_iff, and_false, div_one]
    rw [C175_columns alpha l1 minimize X Y r hr, Option.map_some]
  refine ⟨_, hf, fun o => ⟨_, rfl, rfl, fun v => ?_⟩⟩
  have hx := ridge_expand X (fun i => Y i o) 0 (r o).x (fun j => by rw [zero_mul, add_zero]; exact (sgdGrad_zero ha h0 h1 X _ _ j).1 (hz o j)) (fun j => v j - (r o).x j)
  simp only [add_sub_cancel, zero_mul, add_zero] at hx
  unfold rss
  simp only [add_zero]
  rw [hx]
  have h3 : 0 ≤ ∑ i, (∑ j, X i j * (v j - (r o).x j)) ^ 2 := Finset.sum_nonneg (fun _ _ => sq_nonneg _)
  linarith

/-! ### Cases meeting the hypotheses -/

/-- Two samples `x = ±1`, `y = ±1`, default settings: the gradient given to the minimiser vanishes at 1. -/
example : SgdSolves (q := 1) (1 / 10000) (15 / 100) (fun _ _ _ _ => some ⟨fun _ => 1, 0, 1, false, false⟩)
    (centredX false (fun (i : Fin 2) (_ : Fin 1) => if i = 0 then (1 : ℝ) else -1)) (fun i o => (fun (i : Fin 2) (_ : Fin 1) => if i = 0 then (1 : ℝ) else -1) i o - colMean (fun i => (fun (i : Fin 2) (_ : Fin 1) => if i = 0 then (1 : ℝ) else -1) i o)) := by
  intro o
  refine ⟨_, rfl, fun j => ?_⟩
  rw [sgdGrad_zero (by norm_num) (by norm_num) (by norm_num)]
  simp [centredX, colMean]

/-- The same without intercept. -/
example : SgdSolves (q := 1) (1 / 10000) (15 / 100) (fun _ _ _ _ => some ⟨fun _ => 1, 0, 1, false, false⟩)
    (fun (i : Fin 2) (_ : Fin 1) => if i = 0 then (1 : ℝ) else -1) (fun (i : Fin 2) (_ : Fin 1) => if i = 0 then (1 : ℝ) else -1) := by
  intro o
  refine ⟨_, rfl, fun j => ?_⟩
  rw [sgdGrad_zero (by norm_num) (by norm_num) (by norm_num)]
  simp

end Sk.Lin
