import Verif.Props.OlsInvariance
import Verif.Props.LogisticInv
import Mathlib.Algebra.BigOperators.Fin
import Mathlib.Tactic.FinCases

/-!
# C230: residuals of the training rows, further features, further rows

`Spans X`, `LeastSquares solve`, `sse` as in C197: samples in no hyperplane, a solver of least squares problems, the sum of squared residuals.
-/
set_option autoImplicit false

namespace Sk.Lin

/-- The residuals of a fit are orthogonal to every affine function of the rows. -/
theorem orthogonal_affine {n p : ℕ} {X : Fin n → Fin p → ℝ} {r : Fin n → ℝ} (h0 : ∑ i, r i = 0) (h1 : ∀ j, ∑ i, X i j * r i = 0) (m : Coefs p) : ∑ i, r i * decision m (X i) = 0 := by
  have e : ∀ i, r i * decision m (X i) = (∑ j, m.coef j * (X i j * r i)) + m.intercept * r i := by
    intro i
    rw [decision, mul_add, Finset.mul_sum]
    congr 1
    · exact Finset.sum_congr rfl fun j _ => by ring
    · ring
  rw [Finset.sum_congr rfl (fun i _ => e i), Finset.sum_add_distrib, Finset.sum_comm, ← Finset.mul_sum, h0, mul_zero, add_zero]
  exact Finset.sum_eq_zero fun j _ => by rw [← Finset.mul_sum, h1 j, mul_zero]

/-- **C230, residuals.** The residuals of `LinearRegression` on the training rows have sum 0 and are orthogonal to every feature; the mean of the rows is predicted as the mean of the targets; the squared targets about their mean split into the squared predictions about that mean and the squared residuals. -/
theorem C230_residuals {n p : ℕ} (hn : n ≠ 0) (normalize : Bool) {solve : (Fin n → Fin p → ℝ) → (Fin n → ℝ) → Fin p → ℝ} (hs : LeastSquares solve) (old : ℝ) {X : Fin n → Fin p → ℝ} (hX : Spans X) (y : Fin n → ℝ) :
    ∃ m, fit true normalize solve old X y = some m ∧ ∑ i, (y i - decision m (X i)) = 0 ∧ (∀ j, ∑ i, X i j * (y i - decision m (X i)) = 0) ∧
      decision m (fun j => (∑ i, X i j) / n) = (∑ i, y i) / n ∧
      ∑ i, (y i - (∑ i, y i) / n) ^ 2 = ∑ i, (decision m (X i) - (∑ i, y i) / n) ^ 2 + ∑ i, (y i - decision m (X i)) ^ 2 := by
  have hn' : (n : ℝ) ≠ 0 := Nat.cast_ne_zero.2 hn
  obtain ⟨m, hm, h0, h1⟩ := fit_normal normalize hs old hX y hn
  refine ⟨m, hm, h0, h1, ?_, ?_⟩
  · rw [Finset.sum_sub_distrib, sub_eq_zero] at h0
    rw [h0]
    simp only [decision, Finset.sum_add_distrib, Finset.sum_const, Finset.card_univ, Fintype.card_fin, nsmul_eq_mul]
    rw [Finset.sum_comm, add_div, mul_div_cancel_left₀ _ hn', Finset.sum_div]
    congr 1
    exact Finset.sum_congr rfl fun j _ => by rw [← Finset.sum_mul]; ring
  · have k := orthogonal_affine h0 h1 m
    set c := (∑ i, y i) / n
    have e : ∑ i, (y i - c) ^ 2 = ∑ i, (decision m (X i) - c) ^ 2 + ∑ i, (y i - decision m (X i)) ^ 2 + 2 * (∑ i, (y i - decision m (X i)) * decision m (X i)) - 2 * c * ∑ i, (y i - decision m (X i)) := by
      rw [Finset.mul_sum, Finset.mul_sum, ← Finset.sum_add_distrib, ← Finset.sum_add_distrib, ← Finset.sum_sub_distrib]
      exact Finset.sum_congr rfl fun i _ => by ring
    rw [e, k, h0]
    ring

/-- **C230, more features.** A model fitted with all features of another one among its own has at most its sum of squared training residuals. -/
theorem C230_nested {n p p' : ℕ} (hn : n ≠ 0) (normalize normalize' : Bool) {solve : (Fin n → Fin p → ℝ) → (Fin n → ℝ) → Fin p → ℝ} {solve' : (Fin n → Fin p' → ℝ) → (Fin n → ℝ) → Fin p' → ℝ} (hs : LeastSquares solve) (hs' : LeastSquares solve')
    (old old' : ℝ) {X : Fin n → Fin p → ℝ} {X' : Fin n → Fin p' → ℝ} (hX : Spans X) (hX' : Spans X') (σ : Fin p → Fin p') (hσ : ∀ i j, X' i (σ j) = X i j) (y : Fin n → ℝ) :
    ∃ m m', fit true normalize solve old X y = some m ∧ fit true normalize' solve' old' X' y = some m' ∧ sse X' y m' ≤ sse X y m := by
  obtain ⟨m, hm, _⟩ := C197_best hn normalize hs old hX y
  obtain ⟨m', hm', hbest⟩ := C197_best hn normalize' hs' old' hX' y
  refine ⟨m, m', hm, hm', ?_⟩
  let e : Coefs p' := ⟨fun k => ∑ j, if σ j = k then m.coef j else 0, m.intercept⟩
  have he : sse X' y e = sse X y m := by
    simp only [sse, e]
    refine Finset.sum_congr rfl fun i _ => ?_
    congr 3
    simp only [Finset.mul_sum]
    rw [Finset.sum_comm]
    refine Finset.sum_congr rfl fun j _ => ?_
    rw [Finset.sum_eq_single (σ j)]
    · simp [hσ]
    · intro k _ hk
      simp [Ne.symm hk]
    · simp
  rw [← he]
  by_cases h : e = m'
  · rw [h]
  · exact (hbest e h).le

/-- **C230, one coefficient.** The coefficient of a feature is the slope of the targets over the residuals of that feature when it is itself predicted from the other features. -/
theorem C230_coefficient {n p : ℕ} (hn : n ≠ 0) (normalize normalize' : Bool) {solve : (Fin n → Fin p → ℝ) → (Fin n → ℝ) → Fin p → ℝ} {solve' : (Fin n → Fin (p + 1) → ℝ) → (Fin n → ℝ) → Fin (p + 1) → ℝ} (hs : LeastSquares solve)
    (hs' : LeastSquares solve') (old old' : ℝ) {Z : Fin n → Fin p → ℝ} {x : Fin n → ℝ} (hZ : Spans Z) (hX : Spans (fun i => (Fin.snoc (Z i) (x i) : Fin (p + 1) → ℝ))) (y : Fin n → ℝ) :
    ∃ mx m, fit true normalize solve old Z x = some mx ∧ fit true normalize' solve' old' (fun i => (Fin.snoc (Z i) (x i) : Fin (p + 1) → ℝ)) y = some m ∧
      0 < ∑ i, (x i - decision mx (Z i)) ^ 2 ∧ m.coef (Fin.last p) = (∑ i, (x i - decision mx (Z i)) * y i) / ∑ i, (x i - decision mx (Z i)) ^ 2 := by
  obtain ⟨mx, hmx, a0, a1⟩ := fit_normal normalize hs old hZ x hn
  obtain ⟨m, hm, b0, b1⟩ := fit_normal normalize' hs' old' hX y hn
  set r : Fin n → ℝ := fun i => x i - decision mx (Z i) with hr
  -- the residual as an affine function of all features
  let mr : Coefs (p + 1) := ⟨Fin.snoc (fun j => -mx.coef j) 1, -mx.intercept⟩
  have hmr : ∀ i, decision mr (Fin.snoc (Z i) (x i) : Fin (p + 1) → ℝ) = r i := by
    intro i
    simp only [decision, mr, Fin.sum_univ_castSucc, Fin.snoc_castSucc, Fin.snoc_last, hr, mul_neg, Finset.sum_neg_distrib]
    ring
  have hdec : ∀ i, decision m (Fin.snoc (Z i) (x i) : Fin (p + 1) → ℝ) = decision ⟨fun j => m.coef j.castSucc, m.intercept⟩ (Z i) + x i * m.coef (Fin.last p) := by
    intro i
    simp only [decision, Fin.sum_univ_castSucc, Fin.snoc_castSucc, Fin.snoc_last]
    ring
  have k1 : ∑ i, (y i - decision m (Fin.snoc (Z i) (x i) : Fin (p + 1) → ℝ)) * r i = 0 := by
    have := orthogonal_affine b0 b1 mr
    simpa only [hmr] using this
  have k2 : ∑ i, r i * decision (⟨fun j => m.coef j.castSucc, m.intercept⟩ : Coefs p) (Z i) = 0 := orthogonal_affine a0 a1 _
  have k3 : ∑ i, r i * decision mx (Z i) = 0 := orthogonal_affine a0 a1 _
  have k4 : ∑ i, r i * x i = ∑ i, r i ^ 2 := by
    rw [← sub_eq_zero, ← Finset.sum_sub_distrib, ← k3]
    refine Finset.sum_congr rfl fun i _ => ?_
    simp only [hr]
    ring
  have hpos : 0 < ∑ i, r i ^ 2 := by
    refine lt_of_le_of_ne (Finset.sum_nonneg fun _ _ => sq_nonneg _) fun h => ?_
    have hz : ∀ i, r i = 0 := by
      intro i
      have := (Finset.sum_eq_zero_iff_of_nonneg (fun i _ => sq_nonneg (r i))).1 h.symm i (Finset.mem_univ i)
      exact pow_eq_zero_iff (by norm_num) |>.1 this
    have hc := hX mr.coef mr.intercept (fun i => by
      have := hmr i
      rw [hz i] at this
      exact this)
    have := congrFun hc (Fin.last p)
    simp [mr] at this
  refine ⟨mx, m, hmx, hm, hpos, ?_⟩
  rw [eq_div_iff hpos.ne']
  have e : ∑ i, (y i - decision m (Fin.snoc (Z i) (x i) : Fin (p + 1) → ℝ)) * r i = ∑ i, r i * y i - ∑ i, r i * decision (⟨fun j => m.coef j.castSucc, m.intercept⟩ : Coefs p) (Z i) - m.coef (Fin.last p) * ∑ i, r i * x i := by
    rw [Finset.mul_sum, ← Finset.sum_sub_distrib, ← Finset.sum_sub_distrib]
    refine Finset.sum_congr rfl fun i _ => ?_
    rw [hdec i]
    ring
  rw [k1, k2, k4] at e
  linarith

/-- **C230, rows that fit.** A further training row whose target is the prediction of the model changes nothing. -/
theorem C230_fitting_row {n p : ℕ} (hn : n ≠ 0) (normalize normalize' : Bool) {solve : (Fin n → Fin p → ℝ) → (Fin n → ℝ) → Fin p → ℝ} {solve' : (Fin (n + 1) → Fin p → ℝ) → (Fin (n + 1) → ℝ) → Fin p → ℝ} (hs : LeastSquares solve)
    (hs' : LeastSquares solve') (old old' : ℝ) {X : Fin n → Fin p → ℝ} (hX : Spans X) (y : Fin n → ℝ) (x : Fin p → ℝ) :
    ∃ m, fit true normalize solve old X y = some m ∧ fit true normalize' solve' old' (Fin.snoc X x : Fin (n + 1) → Fin p → ℝ) (Fin.snoc y (decision m x) : Fin (n + 1) → ℝ) = some m := by
  obtain ⟨m, hm, hbest⟩ := C197_best hn normalize hs old hX y
  have hX' : Spans (Fin.snoc X x : Fin (n + 1) → Fin p → ℝ) := by
    intro c b h
    refine hX c b fun i => ?_
    have := h i.castSucc
    rwa [Fin.snoc_castSucc] at this
  obtain ⟨m', hm', hbest'⟩ := C197_best (Nat.succ_ne_zero n) normalize' hs' old' hX' (Fin.snoc y (decision m x) : Fin (n + 1) → ℝ)
  refine ⟨m, hm, ?_⟩
  rw [hm']
  congr 1
  by_contra hne
  have h1 := hbest' m (Ne.symm hne)
  have h2 := hbest m' hne
  have e : ∀ c : Coefs p, sse (Fin.snoc X x : Fin (n + 1) → Fin p → ℝ) (Fin.snoc y (decision m x) : Fin (n + 1) → ℝ) c = sse X y c + (decision m x - decision c x) ^ 2 := by
    intro c
    simp only [sse, Fin.sum_univ_castSucc, Fin.snoc_castSucc, Fin.snoc_last, decision]
  rw [e, e, sub_self] at h1
  have := sq_nonneg (decision m x - decision m' x)
  linarith

/-- **C230, one target.** Changing one target by `δ` moves the prediction for its row by between 0 and `δ`. -/
theorem C230_leverage {n p : ℕ} (hn : n ≠ 0) (normalize : Bool) {solve : (Fin n → Fin p → ℝ) → (Fin n → ℝ) → Fin p → ℝ} (hs : LeastSquares solve) (old : ℝ) {X : Fin n → Fin p → ℝ} (hX : Spans X) (y : Fin n → ℝ) (k : Fin n) (δ : ℝ) (hδ : 0 ≤ δ) :
    ∃ m m', fit true normalize solve old X y = some m ∧ fit true normalize solve old X (fun i => if i = k then y i + δ else y i) = some m' ∧
      decision m (X k) ≤ decision m' (X k) ∧ decision m' (X k) ≤ decision m (X k) + δ := by
  obtain ⟨m, hm, a0, a1⟩ := fit_normal normalize hs old hX y hn
  obtain ⟨m', hm', b0, b1⟩ := fit_normal normalize hs old hX (fun i => if i = k then y i + δ else y i) hn
  refine ⟨m, m', hm, hm', ?_⟩
  have k1 := orthogonal_affine a0 a1 m
  have k2 := orthogonal_affine a0 a1 m'
  have k3 := orthogonal_affine b0 b1 m
  have k4 := orthogonal_affine b0 b1 m'
  have e : ∑ i, (decision m' (X i) - decision m (X i)) ^ 2 = δ * (decision m' (X k) - decision m (X k)) := by
    have s : δ * (decision m' (X k) - decision m (X k)) = ∑ i, (if i = k then δ else 0) * (decision m' (X i) - decision m (X i)) := by
      simp
    rw [s, ← sub_eq_zero, ← Finset.sum_sub_distrib]
    have z : ∑ i, (y i - decision m (X i)) * decision m' (X i) - ∑ i, (y i - decision m (X i)) * decision m (X i) - (∑ i, ((if i = k then y i + δ else y i) - decision m' (X i)) * decision m' (X i) - ∑ i, ((if i = k then y i + δ else y i) - decision m' (X i)) * decision m (X i)) = 0 := by
      rw [k1, k2, k3, k4]; ring
    refine Eq.trans ?_ z
    rw [← Finset.sum_sub_distrib, ← Finset.sum_sub_distrib, ← Finset.sum_sub_distrib]
    refine Finset.sum_congr rfl fun i _ => ?_
    split <;> ring
  have hsingle : (decision m' (X k) - decision m (X k)) ^ 2 ≤ δ * (decision m' (X k) - decision m (X k)) := by
    rw [← e]
    exact Finset.single_le_sum (f := fun i => (decision m' (X i) - decision m (X i)) ^ 2) (fun i _ => sq_nonneg _) (Finset.mem_univ k)
  set d := decision m' (X k) - decision m (X k) with hd
  have h0 : 0 ≤ d := by
    by_contra hc
    push Not at hc
    have := mul_nonpos_of_nonneg_of_nonpos hδ hc.le
    have := sq_pos_of_neg hc
    linarith
  have h1 : d ≤ δ := by
    by_contra hc
    push Not at hc
    have hp : 0 < d := lt_of_le_of_lt hδ hc
    have := mul_lt_mul_of_pos_right hc hp
    rw [pow_two] at hsingle
    linarith
  constructor <;> linarith

/-- Rows 0, 1, 3 lie in no hyperplane, and neither do they together with their squares. -/
example : Spans (n := 3) (p := 1) ![![0], ![1], ![3]] ∧ Spans (n := 3) (p := 2) (fun i => (Fin.snoc (![![0], ![1], ![3]] i) (![0, 1, 9] i) : Fin 2 → ℝ)) := by
  constructor
  · intro c b h
    have h0 := h 0
    have h1 := h 1
    simp at h0 h1
    funext j
    fin_cases j
    simp
    linarith
  · intro c b h
    have h0 := h 0
    have h1 := h 1
    have h2 := h 2
    simp [Fin.sum_univ_two, Fin.snoc] at h0 h1 h2
    funext j
    fin_cases j <;> simp <;> linarith

end Sk.Lin

namespace Sk.Logistic

open Sk.Mlp (Layer)

/-- **C230, logistic regression.** Where the gradient is zero, the mean predicted probability of every class over the training rows is the mean of its targets, the share of the class; and the sum of a feature times (target minus probability) is `alpha` times the coefficient. -/
theorem C230_logistic {alpha : ℝ} {n p q : ℕ} (hn : n ≠ 0) (X : Fin n → Fin p → ℝ) (y : Fin n → Fin q → ℝ) (θ : Layer p q) (h : Stationary alpha X y θ) :
    (∀ o, (∑ i, probas θ (X i) o) / n = (∑ i, y i o) / n) ∧ ∀ j o, ∑ i, X i j * (y i o - probas θ (X i) o) = alpha * θ.1 j o := by
  have hn' : (n : ℝ) ≠ 0 := Nat.cast_ne_zero.2 hn
  constructor
  · intro o
    have h2 := h.2 o
    simp only [grad, div_eq_zero_iff, hn', or_false, Finset.sum_sub_distrib, sub_eq_zero] at h2
    rw [h2]
  · intro j o
    have h1 := h.1 j o
    simp only [grad] at h1
    have e : ∑ i, X i j * (y i o - probas θ (X i) o) = -∑ i, X i j * (probas θ (X i) o - y i o) := by
      rw [← Finset.sum_neg_distrib]
      exact Finset.sum_congr rfl fun i _ => by ring
    rw [e]
    field_simp at h1
    linarith

/-- One feature that is 0 and two rows of different classes: the zero parameters are stationary. -/
example : Stationary 1 (n := 2) (p := 1) (q := 1) (fun _ _ => 0) (fun i _ => if i = 0 then 0 else 1) (fun _ _ => 0, fun _ => 0) := by
  constructor <;> intros <;> simp [grad, probas, outOf, Fin.sum_univ_two] <;> norm_num

end Sk.Logistic
