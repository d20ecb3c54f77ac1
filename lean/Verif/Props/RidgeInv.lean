import Verif.Props.LinFitGom
import Verif.Props.EnetAgree

/-! # C212: what ridge regressions do not depend on -/
set_option autoImplicit false

namespace Sk.Lin

open Sk.EnetFit (cost cost_mid cost_back spread_back back decision_back)

variable {n p q : ℕ}

theorem ridgeCost_cost (X : Fin n → Fin p → ℝ) (y : Fin n → ℝ) (a : ℝ) (s v : Fin p → ℝ) (b : ℝ) : ridgeCost X y a s v b = 2 * cost X y 0 a s v b := by
  unfold ridgeCost cost
  ring

/-- The model with the least ridge cost is unique. -/
theorem ridge_unique (hn : n ≠ 0) (X : Fin n → Fin p → ℝ) (y : Fin n → ℝ) {a : ℝ} (ha : 0 < a) (s : Fin p → ℝ) (hs : ∀ j, s j ≠ 0) (m m' : Coefs p) (h : ∀ v b, cost X y 0 a s m.coef m.intercept ≤ cost X y 0 a s v b)
    (h' : ∀ v b, cost X y 0 a s m'.coef m'.intercept ≤ cost X y 0 a s v b) : m = m' := by
  have hmid := cost_mid X y (l1 := 0) (l2 := a) le_rfl s m m'
  have k1 := h (fun j => (m.coef j + m'.coef j) / 2) ((m.intercept + m'.intercept) / 2)
  have k2 := h' (fun j => (m.coef j + m'.coef j) / 2) ((m.intercept + m'.intercept) / 2)
  have t1 : 0 ≤ ∑ i, (decision m (X i) - decision m' (X i)) ^ 2 := Finset.sum_nonneg (fun _ _ => sq_nonneg _)
  have t2 : 0 ≤ ∑ j, (s j * (m.coef j - m'.coef j)) ^ 2 := Finset.sum_nonneg (fun _ _ => sq_nonneg _)
  have t2' : 0 ≤ a / 4 * ∑ j, (s j * (m.coef j - m'.coef j)) ^ 2 := mul_nonneg (by linarith) t2
  have z2 : ∑ j, (s j * (m.coef j - m'.coef j)) ^ 2 = 0 := by
    have : a / 4 * ∑ j, (s j * (m.coef j - m'.coef j)) ^ 2 = 0 := by linarith
    exact (mul_eq_zero.1 this).resolve_left (by linarith)
  have z1 : ∑ i, (decision m (X i) - decision m' (X i)) ^ 2 = 0 := by linarith
  have hc : m.coef = m'.coef := by
    funext j
    have := (Finset.sum_eq_zero_iff_of_nonneg (fun _ _ => sq_nonneg _)).1 z2 j (Finset.mem_univ j)
    have := (mul_eq_zero.1 (pow_eq_zero_iff (two_ne_zero)|>.1 this)).resolve_left (hs j)
    linarith
  have hi : m.intercept = m'.intercept := by
    have := (Finset.sum_eq_zero_iff_of_nonneg (fun _ _ => sq_nonneg _)).1 z1 ⟨0, Nat.pos_of_ne_zero hn⟩ (Finset.mem_univ _)
    have := pow_eq_zero_iff (two_ne_zero)|>.1 this
    simp only [decision, hc] at this
    linarith
  cases m; cases m'; simp only at hc hi; rw [hc, hi]

/-- **C212, invariance.** Two ridge regressions with the same settings, `Alpha > 0`, on data that differ by the order of the rows and of the features, by shifts of the features and of the outputs and, under
`Normalize`, by the units of the features, predict the same for every row (up to the shift of the outputs), whatever the starts, the order in which the outputs finish and the two minimisers, as long as
these end where the gradient vanishes. -/
theorem C212_invariant (hn : n ≠ 0) (normalize : Bool) {alpha : ℝ} (ha : 0 < alpha) (minimize minimize' : Fin q → Minimizer p) (start start' : Fin p → Fin q → ℝ) (arrival arrival' : List (Fin q)) (h : Arrivals arrival)
    (h' : Arrivals arrival') (old old' : Fin q → ℝ) (X : Fin n → Fin p → ℝ) (Y : Fin n → Fin q → ℝ) (hv : normalize = true → ∀ j, Varies (fun i => X i j)) (π : Equiv.Perm (Fin n)) (σ : Equiv.Perm (Fin p)) (e t : Fin p → ℝ)
    (he : ∀ j, 0 < e j) (he1 : normalize = false → ∀ j, e j = 1) (u : Fin q → ℝ) (hs : Solves normalize alpha minimize start X Y)
    (hs' : Solves normalize alpha minimize' start' (fun i j => e j * X (π i) (σ j) + t j) (fun i o => Y (π i) o + u o)) :
    ∃ f f', ridgeFit true normalize alpha 0 minimize start arrival old X Y = some f ∧
      ridgeFit true normalize alpha 0 minimize' start' arrival' old' (fun i j => e j * X (π i) (σ j) + t j) (fun i o => Y (π i) o + u o) = some f' ∧
      ∀ o, ∃ m m', f.coefs o = some m ∧ f'.coefs o = some m' ∧ ∀ x, decision m' (fun j => e j * x (σ j) + t j) = decision m x + u o := by
  have hv' : normalize = true → ∀ j, Varies (fun i => e j * X (π i) (σ j) + t j) := by
    intro h j
    obtain ⟨i, k, hik⟩ := hv h (σ j)
    refine ⟨π.symm i, π.symm k, ?_⟩
    simp only [Equiv.apply_symm_apply]
    intro h
    exact hik (mul_left_cancel₀ (he j).ne' (add_right_cancel h))
  obtain ⟨f, hf, hc⟩ := C173_used_alpha hn normalize alpha minimize start arrival h old X Y hv hs
  obtain ⟨f', hf', hc'⟩ := C173_used_alpha hn normalize alpha minimize' start' arrival' h' old' _ _ hv' hs'
  refine ⟨f, f', hf, hf', fun o => ?_⟩
  obtain ⟨m, hm, hmin⟩ := hc o
  obtain ⟨m', hm', hmin'⟩ := hc' o
  refine ⟨m, m', hm, hm', fun x => ?_⟩
  rw [if_pos ha] at hmin hmin'
  simp only [ridgeCost_cost] at hmin hmin'
  set s : Fin p → ℝ := fun j => if normalize then spread (fun i => X i j) else 1 with hsd
  have hs0 : ∀ j, s j ≠ 0 := divisor_ne normalize X hv
  have hse : (fun j => if normalize then spread (fun i => e j * X (π i) (σ j) + t j) else 1) = fun j => e j * s (σ j) := by
    funext j
    simp only [hsd]
    by_cases hN : normalize = true
    · rw [if_pos hN, if_pos hN, spread_back (fun i => X i (σ j)) π (he j)]
    · rw [if_neg hN, if_neg hN, he1 (by simpa using hN)]
      ring
  rw [hse] at hmin'
  have hinv : ∀ m : Coefs p, ∃ q : Coefs p, back σ e t (u o) q = m := by
    intro m
    refine ⟨⟨fun j => m.coef (σ j) / e j, m.intercept - ∑ j, t j * (m.coef (σ j) / e j) + u o⟩, ?_⟩
    cases m
    simp only [back, Equiv.apply_symm_apply, Coefs.mk.injEq]
    refine ⟨?_, by ring⟩
    funext j
    have := (he (σ.symm j)).ne'
    field_simp
  have hcb := cost_back X (fun i => Y i o) 0 1 s (fun j => e j * s (σ j)) π σ e t (u o) (fun _ => rfl)
  have key : m = back σ e t (u o) m' := by
    refine ridge_unique hn X (fun i => Y i o) one_pos s hs0 _ _ (fun v b => by have := hmin v b; linarith) (fun v b => ?_)
    obtain ⟨q, hq⟩ := hinv ⟨v, b⟩
    have := hmin' q.coef q.intercept
    rw [hcb m', hcb q, hq] at this
    linarith
  rw [key, decision_back]
  ring

/-- Two stationary points of the same ridge cost are equal. -/
theorem stationary_unique (A : Fin n → Fin p → ℝ) (b : Fin n → ℝ) {w : ℝ} (hw : 0 < w) (θ θ' : Fin p → ℝ) (h : ∀ j, ∑ i, A i j * ((∑ k, A i k * θ k) - b i) + w * θ j = 0)
    (h' : ∀ j, ∑ i, A i j * ((∑ k, A i k * θ' k) - b i) + w * θ' j = 0) : θ = θ' := by
  have e1 := ridge_expand A b w θ h (fun j => θ' j - θ j)
  have e2 := ridge_expand A b w θ' h' (fun j => θ j - θ' j)
  simp only [add_sub_cancel] at e1 e2
  have t1 : 0 ≤ ∑ i, (∑ j, A i j * (θ' j - θ j)) ^ 2 := Finset.sum_nonneg (fun _ _ => sq_nonneg _)
  have t2 : 0 ≤ ∑ i, (∑ j, A i j * (θ j - θ' j)) ^ 2 := Finset.sum_nonneg (fun _ _ => sq_nonneg _)
  have t3 : 0 ≤ ∑ j, (θ' j - θ j) ^ 2 := Finset.sum_nonneg (fun _ _ => sq_nonneg _)
  have t4 : 0 ≤ w * ∑ j, (θ j - θ' j) ^ 2 := mul_nonneg hw.le (Finset.sum_nonneg (fun _ _ => sq_nonneg _))
  have t5 := mul_nonneg hw.le t3
  have z : w * ∑ j, (θ' j - θ j) ^ 2 = 0 := by linarith
  have z := (mul_eq_zero.1 z).resolve_left hw.ne'
  funext j
  have := (Finset.sum_eq_zero_iff_of_nonneg (fun _ _ => sq_nonneg _)).1 z j (Finset.mem_univ j)
  have := pow_eq_zero_iff (two_ne_zero)|>.1 this
  linarith

/-- **C212, superposition.** The predictions of a ridge regression are linear in the targets: those fitted to `c Y + d Z` are `c` times those fitted to `Y` plus `d` times those fitted to `Z`. -/
theorem C212_linear (hn : n ≠ 0) (normalize : Bool) {alpha : ℝ} (ha : 0 < alpha) (mY mZ mW : Fin q → Minimizer p) (sY sZ sW : Fin p → Fin q → ℝ) (aY aZ aW : List (Fin q)) (hY : Arrivals aY) (hZ : Arrivals aZ) (hW : Arrivals aW)
    (oY oZ oW : Fin q → ℝ) (X : Fin n → Fin p → ℝ) (Y Z : Fin n → Fin q → ℝ) (c d : ℝ) (hv : normalize = true → ∀ j, Varies (fun i => X i j)) (solY : Solves normalize alpha mY sY X Y) (solZ : Solves normalize alpha mZ sZ X Z)
    (solW : Solves normalize alpha mW sW X (fun i o => c * Y i o + d * Z i o)) :
    ∃ f g k, ridgeFit true normalize alpha 0 mY sY aY oY X Y = some f ∧ ridgeFit true normalize alpha 0 mZ sZ aZ oZ X Z = some g ∧
      ridgeFit true normalize alpha 0 mW sW aW oW X (fun i o => c * Y i o + d * Z i o) = some k ∧
      ∀ o, ∃ mf mg mk, f.coefs o = some mf ∧ g.coefs o = some mg ∧ k.coefs o = some mk ∧ ∀ x, decision mk x = c * decision mf x + d * decision mg x := by
  obtain ⟨f, hf, cf⟩ := ridge_solution hn normalize alpha mY sY aY hY oY X Y hv solY
  obtain ⟨g, hg, cg⟩ := ridge_solution hn normalize alpha mZ sZ aZ hZ oZ X Z hv solZ
  obtain ⟨k, hk, ck⟩ := ridge_solution hn normalize alpha mW sW aW hW oW X (fun i o => c * Y i o + d * Z i o) hv solW
  refine ⟨f, g, k, hf, hg, hk, fun o => ?_⟩
  obtain ⟨θf, mf, f1, f2, f3, f4⟩ := cf o
  obtain ⟨θg, mg, g1, g2, g3, g4⟩ := cg o
  obtain ⟨θk, mk, k1, k2, k3, k4⟩ := ck o
  refine ⟨mf, mg, mk, f1, g1, k1, ?_⟩
  have hw : 0 < usedAlpha alpha := by rw [usedAlpha, if_pos ha]; exact one_pos
  have hmean : colMean (fun i => c * Y i o + d * Z i o) = c * colMean (fun i => Y i o) + d * colMean (fun i => Z i o) := by
    simp only [colMean]
    rw [Finset.sum_add_distrib, ← Finset.mul_sum, ← Finset.mul_sum]
    ring
  have key : θk = fun j => c * θf j + d * θg j := by
    refine stationary_unique (fun i j => (X i j - colMean (fun i => X i j)) / divisor normalize X j) (fun i => c * Y i o + d * Z i o - colMean (fun i => c * Y i o + d * Z i o)) hw _ _ k4 (fun j => ?_)
    have e : ∀ i, (∑ l, (X i l - colMean (fun i => X i l)) / divisor normalize X l * (c * θf l + d * θg l)) =
        c * (∑ l, (X i l - colMean (fun i => X i l)) / divisor normalize X l * θf l) + d * ∑ l, (X i l - colMean (fun i => X i l)) / divisor normalize X l * θg l := by
      intro i
      rw [Finset.mul_sum, Finset.mul_sum, ← Finset.sum_add_distrib]
      exact Finset.sum_congr rfl (fun l _ => by ring)
    have e2 : ∀ i, (X i j - colMean (fun i => X i j)) / divisor normalize X j * ((∑ l, (X i l - colMean (fun i => X i l)) / divisor normalize X l * (c * θf l + d * θg l)) - (c * Y i o + d * Z i o - colMean (fun i => c * Y i o + d * Z i o))) =
        c * ((X i j - colMean (fun i => X i j)) / divisor normalize X j * ((∑ l, (X i l - colMean (fun i => X i l)) / divisor normalize X l * θf l) - (Y i o - colMean (fun i => Y i o)))) +
        d * ((X i j - colMean (fun i => X i j)) / divisor normalize X j * ((∑ l, (X i l - colMean (fun i => X i l)) / divisor normalize X l * θg l) - (Z i o - colMean (fun i => Z i o)))) := by
      intro i
      rw [e i, hmean]
      ring
    rw [Finset.sum_congr rfl (fun i _ => e2 i), Finset.sum_add_distrib, ← Finset.mul_sum, ← Finset.mul_sum]
    linear_combination c * f4 j + d * g4 j
  have hcoef : ∀ j, mk.coef j = c * mf.coef j + d * mg.coef j := by
    intro j
    rw [k2, f2, g2, key]
    ring
  intro x
  have hs : ∀ z : Fin p → ℝ, ∑ j, z j * mk.coef j = c * (∑ j, z j * mf.coef j) + d * ∑ j, z j * mg.coef j := by
    intro z
    rw [Finset.mul_sum, Finset.mul_sum, ← Finset.sum_add_distrib]
    exact Finset.sum_congr rfl (fun j _ => by rw [hcoef j]; ring)
  simp only [decision]
  rw [hs x, k3, f3, g3, hs, hmean]
  ring

/-- **C212, size.** The squared residuals of the training rows and the squared coefficients (in the units of the features) of every output sum to at most the squared deviations of the output from its mean;
so the R2 score on the training rows is between 0 and 1. -/
theorem C212_size (hn : n ≠ 0) (normalize : Bool) {alpha : ℝ} (ha : 0 < alpha) (minimize : Fin q → Minimizer p) (start : Fin p → Fin q → ℝ) (arrival : List (Fin q)) (h : Arrivals arrival) (old : Fin q → ℝ)
    (X : Fin n → Fin p → ℝ) (Y : Fin n → Fin q → ℝ) (hv : normalize = true → ∀ j, Varies (fun i => X i j)) (hs : Solves normalize alpha minimize start X Y) :
    ∃ f, ridgeFit true normalize alpha 0 minimize start arrival old X Y = some f ∧ ∀ o, ∃ m, f.coefs o = some m ∧
      (∑ i, (Y i o - decision m (X i)) ^ 2) + ∑ j, ((if normalize then spread (fun i => X i j) else 1) * m.coef j) ^ 2 ≤ ∑ i, (Y i o - colMean (fun i => Y i o)) ^ 2 := by
  obtain ⟨f, hf, hc⟩ := C173_used_alpha hn normalize alpha minimize start arrival h old X Y hv hs
  refine ⟨f, hf, fun o => ?_⟩
  obtain ⟨m, hm, hmin⟩ := hc o
  refine ⟨m, hm, ?_⟩
  have := hmin (fun _ => 0) (colMean (fun i => Y i o))
  rw [if_pos ha] at this
  simp only [ridgeCost, mul_zero, Finset.sum_const_zero, zero_add, ne_eq, OfNat.ofNat_ne_zero, not_false_eq_true, zero_pow, add_zero, one_mul] at this
  simpa only [decision] using this

/-- **C212, Alpha** (violated): a larger penalty does not give smaller coefficients; all positive values of `Alpha` give the same model, on all data. -/
theorem C212_alpha_violated (hn : n ≠ 0) (normalize : Bool) {alpha alpha' : ℝ} (ha : 0 < alpha) (ha' : 0 < alpha') (minimize minimize' : Fin q → Minimizer p) (start start' : Fin p → Fin q → ℝ) (arrival arrival' : List (Fin q))
    (h : Arrivals arrival) (h' : Arrivals arrival') (old old' : Fin q → ℝ) (X : Fin n → Fin p → ℝ) (Y : Fin n → Fin q → ℝ) (hv : normalize = true → ∀ j, Varies (fun i => X i j)) (hs : Solves normalize alpha minimize start X Y)
    (hs' : Solves normalize alpha' minimize' start' X Y) :
    ∃ f f', ridgeFit true normalize alpha 0 minimize start arrival old X Y = some f ∧ ridgeFit true normalize alpha' 0 minimize' start' arrival' old' X Y = some f' ∧ ∀ o, ∃ m, f.coefs o = some m ∧ f'.coefs o = some m := by
  obtain ⟨f, hf, hc⟩ := C173_used_alpha hn normalize alpha minimize start arrival h old X Y hv hs
  obtain ⟨f', hf', hc'⟩ := C173_used_alpha hn normalize alpha' minimize' start' arrival' h' old' X Y hv hs'
  refine ⟨f, f', hf, hf', fun o => ?_⟩
  obtain ⟨m, hm, hmin⟩ := hc o
  obtain ⟨m', hm', hmin'⟩ := hc' o
  rw [if_pos ha] at hmin
  rw [if_pos ha'] at hmin'
  simp only [ridgeCost_cost] at hmin hmin'
  have := ridge_unique hn X (fun i => Y i o) one_pos _ (divisor_ne normalize X hv) m m' (fun v b => by have := hmin v b; exact le_of_mul_le_mul_left this two_pos) (fun v b => by have := hmin' v b; exact le_of_mul_le_mul_left this two_pos)
  subst this
  exact ⟨m, hm, hm'⟩

/-- Two samples `x = ±1`, `y = ±1` meet the hypotheses: the minimiser that answers 2/3 solves them ... -/
example (alpha : ℝ) (ha : 0 < alpha) : Solves (q := 1) false alpha (fun _ _ _ _ => some ⟨fun _ => 2 / 3, 0, 1, false, false⟩) (fun _ _ => 0)
    (fun (i : Fin 2) (_ : Fin 1) => if i = 0 then (1 : ℝ) else -1) (fun i _ => if i = 0 then 1 else -1) := by
  intro o
  refine ⟨_, rfl, fun j => ?_⟩
  rw [preprocess_true false _ _ (by simp)]
  simp [colG, squareGrad, mulT, colMean, divisor, ha, regGrad]
  norm_num

/-- ... and so it does for the rows swapped, the feature shifted by 3 and the output by 5. -/
example (alpha : ℝ) (ha : 0 < alpha) : Solves (q := 1) false alpha (fun _ _ _ _ => some ⟨fun _ => 2 / 3, 0, 1, false, false⟩) (fun _ _ => 0)
    (fun (i : Fin 2) (_ : Fin 1) => 1 * (if Equiv.swap 0 1 i = 0 then (1 : ℝ) else -1) + 3) (fun i _ => (if Equiv.swap 0 1 i = 0 then 1 else -1) + 5) := by
  intro o
  refine ⟨_, rfl, fun j => ?_⟩
  rw [preprocess_true false _ _ (by simp)]
  simp [colG, squareGrad, mulT, colMean, divisor, ha, regGrad, Fin.sum_univ_two]
  norm_num

/-- Twice the targets plus three times the targets: the minimiser that answers 10/3 solves it. -/
example (alpha : ℝ) (ha : 0 < alpha) : Solves (q := 1) false alpha (fun _ _ _ _ => some ⟨fun _ => 10 / 3, 0, 1, false, false⟩) (fun _ _ => 0)
    (fun (i : Fin 2) (_ : Fin 1) => if i = 0 then (1 : ℝ) else -1) (fun i _ => 2 * (if i = 0 then 1 else -1) + 3 * (if i = 0 then 1 else -1)) := by
  intro o
  refine ⟨_, rfl, fun j => ?_⟩
  rw [preprocess_true false _ _ (by simp)]
  simp [colG, squareGrad, mulT, colMean, divisor, ha, regGrad, Fin.sum_univ_two]
  norm_num

end Sk.Lin
