import Verif.Props.EnetAgree
import Verif.Props.LogisticInv

/-! # C213: a larger penalty -/
set_option autoImplicit false

namespace Sk.EnetFit

open Sk.Lin (colMean divisor Varies spread decision)

variable {n p q : ℕ}

/-- Two penalised costs, minimised up to gaps: the penalty falls and the loss grows, up to the gaps. -/
theorem penalty_tradeoff {L L' Q Q' a a' g g' : ℝ} (ha : 0 ≤ a) (haa : a < a') (h : L + a * Q ≤ L' + a * Q' + g) (h' : L' + a' * Q' ≤ L + a' * Q + g') : (a' - a) * (Q' - Q) ≤ g + g' ∧ (a' - a) * (L - L') ≤ a' * g + a * g' := by
  refine ⟨by linarith, ?_⟩
  have k1 := mul_le_mul_of_nonneg_left h (ha.trans haa.le)
  have k2 := mul_le_mul_of_nonneg_left h' ha
  nlinarith

/-- The penalty of an elastic net for `Alpha = 1`, per sample. -/
noncomputable def penalty (l1Ratio : ℝ) (s v : Fin p → ℝ) : ℝ := l1Ratio * ∑ j, |s j * v j| + (1 - l1Ratio) / 2 * ∑ j, (s j * v j) ^ 2

theorem cost_penalty (X : Fin n → Fin p → ℝ) (y : Fin n → ℝ) (alpha r : ℝ) (s v : Fin p → ℝ) (b : ℝ) :
    cost X y (alpha * r * n) (alpha * (1 - r) * n) s v b = (∑ i, (y i - (∑ j, X i j * v j + b)) ^ 2) / 2 + alpha * (n * penalty r s v) := by
  unfold cost penalty
  ring

/-- **C213, elastic net.** Two fits on the same data with the same settings except for `Alpha` (and tolerance, number of iterations, start and selection): with the larger `Alpha` the penalty of the coefficients is not
larger and the training error not smaller, up to the gaps the fits report. -/
theorem C213_enet (P P' : Params) (hf : P.fitIntercept = true) (hf' : P'.fitIntercept = true) (hnorm : P'.normalize = P.normalize) (hl : P'.l1Ratio = P.l1Ratio) (hpos : P'.positive = P.positive) (ha : 0 ≤ P.alpha)
    (haa : P.alpha < P'.alpha) (hr0 : 0 ≤ P.l1Ratio) (hr1 : P.l1Ratio ≤ 1) (hit : 1 ≤ P.maxIter) (hit' : 1 ≤ P'.maxIter) (draws draws' : ℕ → List (Fin p)) (before before' : Option (Fin p → ℝ)) (w w' : Fin p → ℝ)
    (hw : Start P before w) (hw' : Start P' before' w') (old old' : ℝ) (X : Fin n → Fin p → ℝ) (y : Fin n → ℝ) (hn : n ≠ 0) (hv : P.normalize = true → ∀ j, Varies (fun i => X i j)) :
    ∃ f f', fitEN P draws before old X y = some f ∧ fitEN P' draws' before' old' X y = some f' ∧
      let s : Fin p → ℝ := fun j => if P.normalize then spread (fun i => X i j) else 1
      (P'.alpha - P.alpha) * (n * penalty P.l1Ratio s f'.coefs.coef - n * penalty P.l1Ratio s f.coefs.coef) ≤ f.gap + f'.gap ∧
      (P'.alpha - P.alpha) * ((∑ i, (y i - decision f.coefs (X i)) ^ 2) / 2 - (∑ i, (y i - decision f'.coefs (X i)) ^ 2) / 2) ≤ P'.alpha * f.gap + P.alpha * f'.gap := by
  obtain ⟨f, e, hp, h⟩ := C122_fit P draws before w old X y hn hf hw hv ha hr0 hr1 hit
  obtain ⟨f', e', hp', h'⟩ := C122_fit P' draws' before' w' old' X y hn hf' hw' (by rw [hnorm]; exact hv) (ha.trans haa.le) (by rw [hl]; exact hr0) (by rw [hl]; exact hr1) hit'
  refine ⟨f, f', e, e', ?_⟩
  have k := h f'.coefs.coef f'.coefs.intercept (fun hh => hp' (by rw [hpos]; exact hh))
  have k' := h' f.coefs.coef f.coefs.intercept (fun hh => hp (by rw [← hpos]; exact hh))
  rw [hl, hnorm] at k'
  rw [cost_penalty, cost_penalty] at k k'
  exact penalty_tradeoff ha haa k k'

/-- **C213, elastic net without intercept.** -/
theorem C213_enet_origin (P P' : Params) (hf : P.fitIntercept = false) (hf' : P'.fitIntercept = false) (hl : P'.l1Ratio = P.l1Ratio) (hpos : P'.positive = P.positive) (ha : 0 ≤ P.alpha)
    (haa : P.alpha < P'.alpha) (hr0 : 0 ≤ P.l1Ratio) (hr1 : P.l1Ratio ≤ 1) (hit : 1 ≤ P.maxIter) (hit' : 1 ≤ P'.maxIter) (draws draws' : ℕ → List (Fin p)) (before before' : Option (Fin p → ℝ)) (w w' : Fin p → ℝ)
    (hw : Start P before w) (hw' : Start P' before' w') (old old' : ℝ) (X : Fin n → Fin p → ℝ) (y : Fin n → ℝ) :
    ∃ f f', fitEN P draws before old X y = some f ∧ fitEN P' draws' before' old' X y = some f' ∧
      (P'.alpha - P.alpha) * (n * penalty P.l1Ratio (fun _ => 1) f'.coefs.coef - n * penalty P.l1Ratio (fun _ => 1) f.coefs.coef) ≤ f.gap + f'.gap ∧
      (P'.alpha - P.alpha) * ((∑ i, (y i - (∑ j, X i j * f.coefs.coef j + 0)) ^ 2) / 2 - (∑ i, (y i - (∑ j, X i j * f'.coefs.coef j + 0)) ^ 2) / 2) ≤ P'.alpha * f.gap + P.alpha * f'.gap := by
  obtain ⟨f, e, -, hp, h⟩ := C122_no_intercept P draws before w old X y hf hw ha hr0 hr1 hit
  obtain ⟨f', e', -, hp', h'⟩ := C122_no_intercept P' draws' before' w' old' X y hf' hw' (ha.trans haa.le) (by rw [hl]; exact hr0) (by rw [hl]; exact hr1) hit'
  refine ⟨f, f', e, e', ?_⟩
  have k := h f'.coefs.coef (fun hh => hp' (by rw [hpos]; exact hh))
  have k' := h' f.coefs.coef (fun hh => hp (by rw [← hpos]; exact hh))
  rw [hl] at k'
  rw [cost_penalty, cost_penalty] at k k'
  exact penalty_tradeoff ha haa k k'

/-- The penalty of an elastic net with several outputs for `Alpha = 1`, per sample. -/
noncomputable def penaltyMT (l1Ratio : ℝ) (s : Fin p → ℝ) (V : Fin p → Fin q → ℝ) : ℝ := l1Ratio * ∑ j, √(∑ o, (s j * V j o) ^ 2) + (1 - l1Ratio) / 2 * ∑ j, ∑ o, (s j * V j o) ^ 2

theorem costMT_penalty (X : Fin n → Fin p → ℝ) (Y : Fin n → Fin q → ℝ) (alpha r : ℝ) (s : Fin p → ℝ) (V : Fin p → Fin q → ℝ) (b : Fin q → ℝ) :
    costMT X Y (alpha * r * n) (alpha * (1 - r) * n) s V b = (∑ i, ∑ o, (Y i o - (∑ j, X i j * V j o + b o)) ^ 2) / 2 + alpha * (n * penaltyMT r s V) := by
  unfold costMT penaltyMT
  ring

/-- **C213, elastic net with several outputs.** -/
theorem C213_multi (P P' : Params) (hf : P.fitIntercept = true) (hf' : P'.fitIntercept = true) (hnorm : P'.normalize = P.normalize) (hl : P'.l1Ratio = P.l1Ratio) (ha : 0 ≤ P.alpha)
    (haa : P.alpha < P'.alpha) (hr0 : 0 ≤ P.l1Ratio) (hr1 : P.l1Ratio ≤ 1) (hit : 1 ≤ P.maxIter) (hit' : 1 ≤ P'.maxIter) (draws draws' : ℕ → List (Fin p)) (before before' : Option (Fin p → Fin q → ℝ)) (W W' : Fin p → Fin q → ℝ)
    (hw : if P.warmStart then before = some W else W = fun _ _ => 0) (hw' : if P'.warmStart then before' = some W' else W' = fun _ _ => 0) (old old' : Fin q → ℝ) (X : Fin n → Fin p → ℝ) (Y : Fin n → Fin q → ℝ) (hn : n ≠ 0)
    (hv : P.normalize = true → ∀ j, Varies (fun i => X i j)) :
    ∃ f f', fitMT P draws before old X Y = some f ∧ fitMT P' draws' before' old' X Y = some f' ∧
      let s : Fin p → ℝ := fun j => if P.normalize then spread (fun i => X i j) else 1
      (P'.alpha - P.alpha) * (n * penaltyMT P.l1Ratio s (fun j o => (f'.coefs o).coef j) - n * penaltyMT P.l1Ratio s (fun j o => (f.coefs o).coef j)) ≤ f.gap + f'.gap ∧
      (P'.alpha - P.alpha) * ((∑ i, ∑ o, (Y i o - decision (f.coefs o) (X i)) ^ 2) / 2 - (∑ i, ∑ o, (Y i o - decision (f'.coefs o) (X i)) ^ 2) / 2) ≤ P'.alpha * f.gap + P.alpha * f'.gap := by
  obtain ⟨f, e, h⟩ := C122_multi P draws before W old X Y hn hf hw hv ha hr0 hr1 hit
  obtain ⟨f', e', h'⟩ := C122_multi P' draws' before' W' old' X Y hn hf' hw' (by rw [hnorm]; exact hv) (ha.trans haa.le) (by rw [hl]; exact hr0) (by rw [hl]; exact hr1) hit'
  refine ⟨f, f', e, e', ?_⟩
  have k := h (fun j o => (f'.coefs o).coef j) (fun o => (f'.coefs o).intercept)
  have k' := h' (fun j o => (f.coefs o).coef j) (fun o => (f.coefs o).intercept)
  rw [hl, hnorm] at k'
  rw [costMT_penalty, costMT_penalty] at k k'
  exact penalty_tradeoff ha haa k k'

/-- Fits with `Alpha` 1/2 and 1 of three samples with two features. -/
example : ∃ f f', fitEN ⟨true, true, 1 / 2, 1 / 2, 1 / 1000, 100, false, true⟩ (fun _ => List.finRange 2) none 0 ![![0, 3], ![1, 5], ![2, 1]] ![1, 2, 4] = some f ∧
    fitEN ⟨true, true, 1, 1 / 2, 1 / 10, 7, false, true⟩ (fun _ => List.finRange 2) none 5 ![![0, 3], ![1, 5], ![2, 1]] ![1, 2, 4] = some f' := by
  obtain ⟨f, f', h1, h2, -⟩ := C213_enet (n := 3) (p := 2) ⟨true, true, 1 / 2, 1 / 2, 1 / 1000, 100, false, true⟩ ⟨true, true, 1, 1 / 2, 1 / 10, 7, false, true⟩ rfl rfl rfl rfl rfl (by norm_num) (by norm_num) (by norm_num) (by norm_num)
    (by norm_num) (by norm_num) (fun _ => List.finRange 2) (fun _ => List.finRange 2) none none (fun _ => 0) (fun _ => 0) ⟨rfl, fun _ _ => le_rfl⟩ ⟨rfl, fun _ _ => le_rfl⟩ 0 5 ![![0, 3], ![1, 5], ![2, 1]] ![1, 2, 4] (by norm_num)
    (fun _ j => ⟨0, 1, by fin_cases j <;> norm_num⟩)
  exact ⟨f, f', h1, h2⟩

end Sk.EnetFit

namespace Sk.Logistic
open Sk.Mlp (Layer)

/-- The squared coefficients of a logistic regression (without the intercepts). -/
def sqCoef {p q : ℕ} (θ : Layer p q) : ℝ := ∑ j, ∑ o, θ.1 j o ^ 2

/-- **C213, logistic regression.** Where the gradient given to the minimiser vanishes, a larger `Alpha` gives smaller coefficients (strictly, unless they are all zero), but not smaller than in the inverse ratio of the penalties. -/
theorem C213_logistic {alpha alpha' : ℝ} (ha : 0 ≤ alpha) (haa : alpha < alpha') {n p q : ℕ} (hn : n ≠ 0) (X : Fin n → Fin p → ℝ) (y : Fin n → Fin q → ℝ) (θ θ' : Layer p q) (h : Stationary alpha X y θ)
    (h' : Stationary alpha' X y θ') :
    sqCoef θ' ≤ sqCoef θ ∧ alpha ^ 2 * sqCoef θ ≤ alpha' ^ 2 * sqCoef θ' ∧ (sqCoef θ' = sqCoef θ → ∀ j o, θ.1 j o = 0 ∧ θ'.1 j o = 0) := by
  have hn' : (0 : ℝ) < n := by exact_mod_cast Nat.pos_of_ne_zero hn
  have z1 : inner (grad alpha X y θ) (diff θ' θ) = 0 := by simp [inner, h.1, h.2]
  have z2 : inner (grad alpha' X y θ') (diff θ' θ) = 0 := by simp [inner, h'.1, h'.2]
  rw [inner_grad hn] at z1 z2
  simp only [lin_diff] at z1 z2
  set A := ∑ i, ∑ o, (probas θ' (X i) o - probas θ (X i) o) * (lin θ' (X i) o - lin θ (X i) o) with hAd
  set T := ∑ j, ∑ o, θ.1 j o * θ'.1 j o with hT
  have hA : A = ∑ i, ∑ o, (probas θ' (X i) o - y i o) * (lin θ' (X i) o - lin θ (X i) o) - ∑ i, ∑ o, (probas θ (X i) o - y i o) * (lin θ' (X i) o - lin θ (X i) o) := by
    rw [hAd, ← Finset.sum_sub_distrib]
    refine Finset.sum_congr rfl (fun i _ => ?_)
    rw [← Finset.sum_sub_distrib]
    exact Finset.sum_congr rfl (fun o _ => by ring)
  have hA0 : 0 ≤ A := Finset.sum_nonneg (fun i _ => (row_mono θ θ' (X i)).1)
  have e1 : ∑ j, ∑ o, θ.1 j o * (diff θ' θ).1 j o = T - sqCoef θ := by
    simp only [hT, sqCoef, diff]
    rw [← Finset.sum_sub_distrib]
    refine Finset.sum_congr rfl (fun j _ => ?_)
    rw [← Finset.sum_sub_distrib]
    exact Finset.sum_congr rfl (fun o _ => by ring)
  have e2 : ∑ j, ∑ o, θ'.1 j o * (diff θ' θ).1 j o = sqCoef θ' - T := by
    simp only [hT, sqCoef, diff]
    rw [← Finset.sum_sub_distrib]
    refine Finset.sum_congr rfl (fun j _ => ?_)
    rw [← Finset.sum_sub_distrib]
    exact Finset.sum_congr rfl (fun o _ => by ring)
  rw [e1] at z1
  rw [e2] at z2
  have key : A + alpha' * sqCoef θ' + alpha * sqCoef θ = (alpha + alpha') * T := by
    have z1' := congrArg (· * (n : ℝ)) z1
    have z2' := congrArg (· * (n : ℝ)) z2
    simp only [add_mul, zero_mul, div_mul_cancel₀ _ hn'.ne', div_mul_eq_mul_div] at z1' z2'
    rw [hA]
    linear_combination z2' - z1'
  have sq : ∀ a b : ℝ, ∑ j, ∑ o, (a * θ.1 j o - b * θ'.1 j o) ^ 2 = a ^ 2 * sqCoef θ - 2 * a * b * T + b ^ 2 * sqCoef θ' := by
    intro a b
    simp only [hT, sqCoef, Finset.mul_sum]
    rw [← Finset.sum_sub_distrib, ← Finset.sum_add_distrib]
    refine Finset.sum_congr rfl (fun j _ => ?_)
    rw [← Finset.sum_sub_distrib, ← Finset.sum_add_distrib]
    exact Finset.sum_congr rfl (fun o _ => by ring)
  have sq0 : ∀ a b : ℝ, 0 ≤ a ^ 2 * sqCoef θ - 2 * a * b * T + b ^ 2 * sqCoef θ' := fun a b => by
    rw [← sq]
    exact Finset.sum_nonneg (fun _ _ => Finset.sum_nonneg (fun _ _ => sq_nonneg _))
  have ha' : 0 < alpha' := lt_of_le_of_lt ha haa
  have d := sub_pos.2 haa
  have s1 := sq0 1 1
  have main : sqCoef θ' ≤ sqCoef θ := by
    have k := mul_le_mul_of_nonneg_left (show T ≤ (sqCoef θ + sqCoef θ') / 2 by linarith) (show 0 ≤ alpha + alpha' by linarith)
    have : (alpha' - alpha) * sqCoef θ' ≤ (alpha' - alpha) * sqCoef θ := by linarith
    exact le_of_mul_le_mul_left this d
  refine ⟨main, ?_, fun heq => ?_⟩
  · have s2 := mul_nonneg (show 0 ≤ alpha + alpha' by linarith) (sq0 alpha alpha')
    have k2 := mul_nonneg (mul_nonneg ha ha'.le) hA0
    have : (alpha' - alpha) * (alpha ^ 2 * sqCoef θ) ≤ (alpha' - alpha) * (alpha' ^ 2 * sqCoef θ') := by
      have k3 : 2 * alpha * alpha' * (A + alpha' * sqCoef θ' + alpha * sqCoef θ) = 2 * alpha * alpha' * ((alpha + alpha') * T) := by rw [key]
      linarith
    exact le_of_mul_le_mul_left this d
  · have hTS : sqCoef θ ≤ T := by
      have : (alpha + alpha') * sqCoef θ ≤ (alpha + alpha') * T := by rw [heq] at key; linarith
      exact le_of_mul_le_mul_left this (by linarith)
    have hz : ∑ j, ∑ o, (1 * θ.1 j o - 1 * θ'.1 j o) ^ 2 = 0 := by
      refine le_antisymm ?_ (Finset.sum_nonneg (fun _ _ => Finset.sum_nonneg (fun _ _ => sq_nonneg _)))
      rw [sq 1 1, heq]
      linarith
    have hcoef : ∀ j o, θ'.1 j o = θ.1 j o := by
      intro j o
      have hj := (Finset.sum_eq_zero_iff_of_nonneg (fun j _ => Finset.sum_nonneg (fun o _ => sq_nonneg _))).1 hz j (Finset.mem_univ _)
      have ho := (Finset.sum_eq_zero_iff_of_nonneg (fun o _ => sq_nonneg _)).1 hj o (Finset.mem_univ _)
      have := pow_eq_zero_iff (two_ne_zero) |>.1 ho
      linarith
    have hAz : A = 0 := by
      have : T ≤ sqCoef θ := by rw [heq] at s1; linarith
      have : (alpha + alpha') * T ≤ (alpha + alpha') * sqCoef θ := mul_le_mul_of_nonneg_left this (by linarith)
      rw [heq] at key
      linarith
    have htrain : ∀ i o, probas θ' (X i) o = probas θ (X i) o := fun i =>
      (row_mono θ θ' (X i)).2 ((Finset.sum_eq_zero_iff_of_nonneg (fun i _ => (row_mono θ θ' (X i)).1)).1 hAz i (Finset.mem_univ _))
    intro j o
    have g1 := h.1 j o
    have g2 := h'.1 j o
    simp only [grad, htrain, hcoef] at g1 g2
    have : (alpha' - alpha) / n * θ.1 j o = 0 := by rw [sub_div]; linarith
    have z := (mul_eq_zero.1 this).resolve_left (div_pos d hn').ne'
    exact ⟨z, by rw [hcoef, z]⟩

/-- **C213, logistic regression, training loss.** With the larger `Alpha` the log loss of the training rows is not smaller (probabilities inside the clamp). -/
theorem C213_logistic_loss {alpha alpha' : ℝ} (hmin hmax : ℝ) (ha : 0 ≤ alpha) (haa : alpha < alpha') {n p q : ℕ} (hn : n ≠ 0) (X : Fin n → Fin p → ℝ) (y : Fin n → Fin q → ℝ) (hy : OneHotSums y) (θ θ' : Layer p q)
    (h : Stationary alpha X y θ) (h' : Stationary alpha' X y θ') (h1 : Regular hmin hmax X θ) (h2 : Regular hmin hmax X θ') : loss hmin hmax 0 X y θ ≤ loss hmin hmax 0 X y θ' := by
  have hn' : (0 : ℝ) < n := by exact_mod_cast Nat.pos_of_ne_zero hn
  have k := (C124_optimal_partial hmin hmax alpha ha hn X y hy θ h1 h θ' h2).1
  have m := (C213_logistic ha haa hn X y θ θ' h h').1
  have e : ∀ (a : ℝ) (θ : Layer p q), loss hmin hmax a X y θ = loss hmin hmax 0 X y θ + 0.5 * a * sqCoef θ / n := by
    intro a θ
    simp only [loss, sqCoef, pow_two]
    ring
  rw [e, e alpha θ'] at k
  have : 0.5 * alpha * sqCoef θ' / n ≤ 0.5 * alpha * sqCoef θ / n := div_le_div_of_nonneg_right (mul_le_mul_of_nonneg_left m (by linarith)) hn'.le
  linarith

/-- For the samples 1 and −1 in the classes 1 and 0, the coefficient `log 3` belongs to `Alpha = 1/(2 log 3)` and `log 2` to the larger `Alpha = 2/(3 log 2)`. -/
example : 1 / (2 * Real.log 3) < 2 / (3 * Real.log 2) ∧ Stationary (1 / (2 * Real.log 3)) exX (fun i _ => exY i) ((fun _ _ => Real.log 3, fun _ => 0) : Layer 1 1) ∧
    Stationary (2 / (3 * Real.log 2)) exX (fun i _ => exY i) ((fun _ _ => Real.log 2, fun _ => 0) : Layer 1 1) := by
  have hl2 : 0 < Real.log 2 := Real.log_pos (by norm_num)
  have hl : 0 < Real.log 3 := Real.log_pos (by norm_num)
  have hlt : Real.log 2 < Real.log 3 := Real.log_lt_log (by norm_num) (by norm_num)
  have gen : ∀ (c : ℝ), 0 < c → 0 < Real.log c → Stationary (2 / ((1 + c) * Real.log c)) exX (fun i _ => exY i) ((fun _ _ => Real.log c, fun _ => 0) : Layer 1 1) := by
    intro c hc hlc
    have h1 : ∀ o, probas ((fun _ _ => Real.log c, fun _ => 0) : Layer 1 1) (exX 0) o = c / (1 + c) := by
      intro o
      rw [probas_logi (by norm_num)]
      simp [lin, exX, Real.exp_neg, Real.exp_log hc]
      field_simp
      ring
    have h2 : ∀ o, probas ((fun _ _ => Real.log c, fun _ => 0) : Layer 1 1) (exX 1) o = 1 / (1 + c) := by
      intro o
      rw [probas_logi (by norm_num)]
      simp [lin, exX, Real.exp_log hc]
    have hc1 : 1 + c ≠ 0 := by linarith
    refine ⟨fun j o => ?_, fun o => ?_⟩
    · simp only [grad, Fin.sum_univ_two, h1, h2]
      simp [exX, exY]
      field_simp
      ring
    · simp only [grad, Fin.sum_univ_two, h1, h2]
      simp [exY]
      field_simp
      ring
  refine ⟨?_, ?_, ?_⟩
  · rw [div_lt_div_iff₀ (by positivity) (by positivity)]
    linarith
  · have := gen 3 (by norm_num) hl
    rwa [show 2 / ((1 + 3) * Real.log 3) = 1 / (2 * Real.log 3) by field_simp; norm_num] at this
  · have := gen 2 (by norm_num) hl2
    rwa [show (1 : ℝ) + 2 = 3 by norm_num] at this

end Sk.Logistic
