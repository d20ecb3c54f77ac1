import Verif.Model.Logistic
import Verif.Props.Label
import Verif.Props.MlpGrad
import Verif.Lemmas.Label
import Mathlib.Analysis.SpecialFunctions.Log.Basic

/-! # C124-C127: logistic regression -/
set_option autoImplicit false

namespace Sk.Logistic
open Sk.Mlp (Layer Out clampP)

/-! ### C124: the objective and its gradient -/

/-- The probabilities of every row are inside the interval to which the loss clamps them, and with several outputs the targets of every row sum to 1 (one-hot targets). -/
def Regular {n p q : ℕ} (hmin hmax : ℝ) (X : Fin n → Fin p → ℝ) (θ : Layer p q) : Prop := ∀ i o, hmin ≤ probas θ (X i) o ∧ probas θ (X i) o ≤ hmax

def OneHotSums {n q : ℕ} (y : Fin n → Fin q → ℝ) : Prop := 1 < q → ∀ i, ∑ o, y i o = 1

/-- Inner product of two sets of parameters. -/
def inner {p q : ℕ} (g v : Layer p q) : ℝ := (∑ j, ∑ o, g.1 j o * v.1 j o) + ∑ o, g.2 o * v.2 o

def diff {p q : ℕ} (a b : Layer p q) : Layer p q := (fun j o => a.1 j o - b.1 j o, fun o => a.2 o - b.2 o)

/-- Jensen's inequality for the exponential. -/
theorem exp_mean_le {ι : Type} [Fintype ι] (w d : ι → ℝ) (hw : ∀ i, 0 ≤ w i) (h1 : ∑ i, w i = 1) : Real.exp (∑ i, w i * d i) ≤ ∑ i, w i * Real.exp (d i) := by
  set m := ∑ i, w i * d i with hm
  have h : ∀ i, w i * (Real.exp m * (d i - m + 1)) ≤ w i * Real.exp (d i) := by
    intro i
    refine mul_le_mul_of_nonneg_left ?_ (hw i)
    have := Real.add_one_le_exp (d i - m)
    calc Real.exp m * (d i - m + 1) ≤ Real.exp m * Real.exp (d i - m) := mul_le_mul_of_nonneg_left this (Real.exp_pos _).le
      _ = Real.exp (d i) := by rw [← Real.exp_add]; congr 1; ring
  have hs : ∑ i, w i * (Real.exp m * (d i - m + 1)) = Real.exp m := by
    have : ∀ i, w i * (Real.exp m * (d i - m + 1)) = Real.exp m * (w i * d i) + (Real.exp m * (1 - m)) * w i := fun i => by ring
    simp only [this, Finset.sum_add_distrib, ← Finset.mul_sum, h1, ← hm]
    ring
  calc Real.exp m = ∑ i, w i * (Real.exp m * (d i - m + 1)) := hs.symm
    _ ≤ _ := Finset.sum_le_sum (fun i _ => h i)

/-- Log-sum-exp lies above its tangents. -/
theorem lse_tangent {q : ℕ} (hq : 0 < q) (z z' : Fin q → ℝ) :
    Real.log (∑ k, Real.exp (z k)) + ∑ o, Real.exp (z o) / (∑ k, Real.exp (z k)) * (z' o - z o) ≤ Real.log (∑ k, Real.exp (z' k)) := by
  have hS : 0 < ∑ k, Real.exp (z k) := Finset.sum_pos (fun k _ => Real.exp_pos _) ⟨⟨0, hq⟩, Finset.mem_univ _⟩
  have hS' : 0 < ∑ k, Real.exp (z' k) := Finset.sum_pos (fun k _ => Real.exp_pos _) ⟨⟨0, hq⟩, Finset.mem_univ _⟩
  have hJ := exp_mean_le (fun o => Real.exp (z o) / ∑ k, Real.exp (z k)) (fun o => z' o - z o) (fun o => (div_pos (Real.exp_pos _) hS).le) (by
    rw [← Finset.sum_div, div_self hS.ne'])
  have he : ∑ o, Real.exp (z o) / (∑ k, Real.exp (z k)) * Real.exp (z' o - z o) = (∑ k, Real.exp (z' k)) / ∑ k, Real.exp (z k) := by
    rw [Finset.sum_div]
    refine Finset.sum_congr rfl (fun o _ => ?_)
    rw [div_mul_eq_mul_div, ← Real.exp_add]
    congr 2; ring
  rw [he] at hJ
  have := Real.log_le_log (Real.exp_pos _) hJ
  rw [Real.log_exp, Real.log_div hS'.ne' hS.ne'] at this
  linarith

/-- `log (1 + e^z)` lies above its tangents. -/
theorem softplus_tangent (z z' : ℝ) : Real.log (1 + Real.exp z) + 1 / (1 + Real.exp (-z)) * (z' - z) ≤ Real.log (1 + Real.exp z') := by
  have h := lse_tangent (q := 2) (by norm_num) ![0, z] ![0, z']
  simp only [Fin.sum_univ_two, Matrix.cons_val_zero, Matrix.cons_val_one, Real.exp_zero, sub_self, mul_zero, zero_add] at h
  have : Real.exp z / (1 + Real.exp z) = 1 / (1 + Real.exp (-z)) := by
    rw [Real.exp_neg]
    have := (Real.exp_pos z).ne'
    have : (1 + Real.exp z) ≠ 0 := by positivity
    field_simp
    ring
  rw [this] at h
  exact h

theorem clamp_in (hmin hmax h : ℝ) (h1 : hmin ≤ h) (h2 : h ≤ hmax) : clampP hmin hmax h = h := by
  simp only [clampP, if_neg (not_lt.2 h1), if_neg (not_lt.2 h2), gt_iff_lt]

/-- Values of the last layer before the activation. -/
def lin {p q : ℕ} (θ : Layer p q) (x : Fin p → ℝ) (o : Fin q) : ℝ := (∑ j, x j * θ.1 j o) + θ.2 o

/-- The loss of one row as a function of its logits. -/
noncomputable def rowLoss {q : ℕ} (y z : Fin q → ℝ) : ℝ :=
  if 1 < q then Real.log (∑ k, Real.exp (z k)) - ∑ o, y o * z o else ∑ o, (Real.log (1 + Real.exp (z o)) - y o * z o)

theorem probas_soft {p q : ℕ} (hq : 1 < q) (θ : Layer p q) (x : Fin p → ℝ) (o : Fin q) : probas θ x o = Real.exp (lin θ x o) / ∑ k, Real.exp (lin θ x k) := by
  simp only [probas, outOf, if_pos (show q > 1 from hq)]
  rfl

theorem probas_logi {p q : ℕ} (hq : ¬ 1 < q) (θ : Layer p q) (x : Fin p → ℝ) (o : Fin q) : probas θ x o = 1 / (1 + Real.exp (-lin θ x o)) := by
  simp only [probas, outOf, if_neg (show ¬ q > 1 from hq)]
  rfl

theorem dataLoss_eq {n p q : ℕ} (hmin hmax : ℝ) (X : Fin n → Fin p → ℝ) (y : Fin n → Fin q → ℝ) (hy : OneHotSums y) (θ : Layer p q) (hr : Regular hmin hmax X θ) :
    dataLoss hmin hmax y (fun i => probas θ (X i)) = (∑ i, rowLoss (y i) (lin θ (X i))) / n := by
  have hcl : ∀ i o, clampP hmin hmax (probas θ (X i) o) = probas θ (X i) o := fun i o => clamp_in _ _ _ (hr i o).1 (hr i o).2
  by_cases hq : 1 < q
  · simp only [dataLoss, outOf, if_pos (show q > 1 from hq), hcl, rowLoss, if_pos hq]
    congr 1
    refine Finset.sum_congr rfl (fun i _ => ?_)
    have hS : 0 < ∑ k, Real.exp (lin θ (X i) k) := Finset.sum_pos (fun k _ => Real.exp_pos _) ⟨⟨0, by omega⟩, Finset.mem_univ _⟩
    have h1 : ∀ o, (if y i o ≠ 0 then -y i o * Real.log (probas θ (X i) o) else 0) = y i o * Real.log (∑ k, Real.exp (lin θ (X i) k)) - y i o * lin θ (X i) o := by
      intro o
      rw [probas_soft hq, Real.log_div (Real.exp_pos _).ne' hS.ne', Real.log_exp]
      by_cases h : y i o = 0
      · simp [h]
      · rw [if_pos h]; ring
    simp only [h1, Finset.sum_sub_distrib, ← Finset.sum_mul, hy hq i, one_mul]
  · simp only [dataLoss, outOf, if_neg (show ¬ q > 1 from hq), hcl, rowLoss, if_neg hq]
    congr 1
    refine Finset.sum_congr rfl (fun i _ => Finset.sum_congr rfl (fun o _ => ?_))
    rw [probas_logi hq]
    set z := lin θ (X i) o
    have hp : 0 < 1 + Real.exp (-z) := by positivity
    have hz : 0 < 1 + Real.exp z := by positivity
    have e1 : 1 / (1 + Real.exp (-z)) = Real.exp z / (1 + Real.exp z) := by
      rw [Real.exp_neg]
      have := (Real.exp_pos z).ne'
      field_simp
      ring
    have e2 : 1 + -(Real.exp z / (1 + Real.exp z)) = 1 / (1 + Real.exp z) := by
      field_simp
      ring
    rw [e1, e2, Real.log_div (Real.exp_pos _).ne' hz.ne', Real.log_exp, one_div, Real.log_inv]
    ring

theorem rowLoss_tangent {n p q : ℕ} (X : Fin n → Fin p → ℝ) (y : Fin n → Fin q → ℝ) (θ θ' : Layer p q) (i : Fin n) :
    rowLoss (y i) (lin θ (X i)) + ∑ o, (probas θ (X i) o - y i o) * (lin θ' (X i) o - lin θ (X i) o) ≤ rowLoss (y i) (lin θ' (X i)) := by
  by_cases hq : 1 < q
  · simp only [rowLoss, if_pos hq]
    have h := lse_tangent (q := q) (by omega) (lin θ (X i)) (lin θ' (X i))
    simp only [← probas_soft hq] at h
    have e : ∑ o, (probas θ (X i) o - y i o) * (lin θ' (X i) o - lin θ (X i) o) =
        ∑ o, probas θ (X i) o * (lin θ' (X i) o - lin θ (X i) o) - (∑ o, y i o * lin θ' (X i) o - ∑ o, y i o * lin θ (X i) o) := by
      rw [← Finset.sum_sub_distrib, ← Finset.sum_sub_distrib]
      exact Finset.sum_congr rfl (fun o _ => by ring)
    rw [e]
    linarith
  · simp only [rowLoss, if_neg hq]
    rw [← Finset.sum_add_distrib]
    refine Finset.sum_le_sum (fun o _ => ?_)
    have h := softplus_tangent (lin θ (X i) o) (lin θ' (X i) o)
    rw [probas_logi hq]
    linarith

theorem inner_grad {n p q : ℕ} (hn : n ≠ 0) (alpha : ℝ) (X : Fin n → Fin p → ℝ) (y : Fin n → Fin q → ℝ) (θ V : Layer p q) :
    inner (grad alpha X y θ) V = (∑ i, ∑ o, (probas θ (X i) o - y i o) * lin V (X i) o) / n + alpha / n * ∑ j, ∑ o, θ.1 j o * V.1 j o := by
  have hn' : (n : ℝ) ≠ 0 := Nat.cast_ne_zero.2 hn
  have e1 : ∑ j, ∑ o, (∑ i, X i j * (probas θ (X i) o - y i o)) * V.1 j o = ∑ i, ∑ o, (probas θ (X i) o - y i o) * ∑ j, X i j * V.1 j o := by
    simp only [Finset.sum_mul, Finset.mul_sum]
    rw [Finset.sum_comm]
    calc ∑ o, ∑ j, ∑ i, X i j * (probas θ (X i) o - y i o) * V.1 j o = ∑ o, ∑ i, ∑ j, X i j * (probas θ (X i) o - y i o) * V.1 j o :=
          Finset.sum_congr rfl (fun o _ => Finset.sum_comm)
      _ = ∑ i, ∑ o, ∑ j, X i j * (probas θ (X i) o - y i o) * V.1 j o := Finset.sum_comm
      _ = _ := Finset.sum_congr rfl (fun i _ => Finset.sum_congr rfl (fun o _ => Finset.sum_congr rfl (fun j _ => by ring)))
  have e2 : ∑ o, (∑ i, (probas θ (X i) o - y i o)) * V.2 o = ∑ i, ∑ o, (probas θ (X i) o - y i o) * V.2 o := by
    simp only [Finset.sum_mul]
    exact Finset.sum_comm
  have e3 : ∑ i, ∑ o, (probas θ (X i) o - y i o) * lin V (X i) o =
      (∑ j, ∑ o, (∑ i, X i j * (probas θ (X i) o - y i o)) * V.1 j o) + ∑ o, (∑ i, (probas θ (X i) o - y i o)) * V.2 o := by
    rw [e1, e2, ← Finset.sum_add_distrib]
    refine Finset.sum_congr rfl (fun i _ => ?_)
    rw [← Finset.sum_add_distrib]
    exact Finset.sum_congr rfl (fun o _ => by simp only [lin]; ring)
  rw [e3]
  simp only [inner, grad, add_mul, Finset.sum_add_distrib]
  have f1 : ∑ j, ∑ o, 1 / (n : ℝ) * (∑ i, X i j * (probas θ (X i) o - y i o)) * V.1 j o = (∑ j, ∑ o, (∑ i, X i j * (probas θ (X i) o - y i o)) * V.1 j o) / n := by
    rw [Finset.sum_div]
    refine Finset.sum_congr rfl (fun j _ => ?_)
    rw [Finset.sum_div]
    exact Finset.sum_congr rfl (fun o _ => by ring)
  have f2 : ∑ j, ∑ o, alpha / (n : ℝ) * θ.1 j o * V.1 j o = alpha / n * ∑ j, ∑ o, θ.1 j o * V.1 j o := by
    rw [Finset.mul_sum]
    refine Finset.sum_congr rfl (fun j _ => ?_)
    rw [Finset.mul_sum]
    exact Finset.sum_congr rfl (fun o _ => by ring)
  have f3 : ∑ o, (∑ i, (probas θ (X i) o - y i o)) / (n : ℝ) * V.2 o = (∑ o, (∑ i, (probas θ (X i) o - y i o)) * V.2 o) / n := by
    rw [Finset.sum_div]
    exact Finset.sum_congr rfl (fun o _ => by ring)
  rw [f1, f2, f3]
  ring

theorem lin_diff {p q : ℕ} (θ θ' : Layer p q) (x : Fin p → ℝ) (o : Fin q) : lin (diff θ' θ) x o = lin θ' x o - lin θ x o := by
  simp only [lin, diff, mul_sub, Finset.sum_sub_distrib]
  ring

/-- C124: the loss minimised by `Fit` is convex, strongly in the coefficients when `Alpha > 0`, and the gradient handed to the optimiser supports it: for all data, targets, parameters `θ` and `θ'`,
the loss at `θ'` is at least the tangent at `θ` plus `Alpha/2n` times the squared distance of the coefficients.  Missing: probabilities so small or so close to 1 that the loss clamps them,
and multi-label targets (`C124_multilabel_violated`). -/
theorem C124_convex_partial (hmin hmax alpha : ℝ) {n p q : ℕ} (hn : n ≠ 0) (X : Fin n → Fin p → ℝ) (y : Fin n → Fin q → ℝ) (hy : OneHotSums y) (θ θ' : Layer p q)
    (h1 : Regular hmin hmax X θ) (h2 : Regular hmin hmax X θ') :
    loss hmin hmax alpha X y θ + inner (grad alpha X y θ) (diff θ' θ) + alpha / (2 * n) * (∑ j, ∑ o, (θ'.1 j o - θ.1 j o) ^ 2) ≤ loss hmin hmax alpha X y θ' := by
  have hn' : (0 : ℝ) < n := by exact_mod_cast Nat.pos_of_ne_zero hn
  rw [inner_grad hn]
  simp only [loss]
  rw [dataLoss_eq hmin hmax X y hy θ h1, dataLoss_eq hmin hmax X y hy θ' h2]
  have hsum : ∑ i, rowLoss (y i) (lin θ (X i)) + ∑ i, ∑ o, (probas θ (X i) o - y i o) * lin (diff θ' θ) (X i) o ≤ ∑ i, rowLoss (y i) (lin θ' (X i)) := by
    rw [← Finset.sum_add_distrib]
    refine Finset.sum_le_sum (fun i _ => ?_)
    simp only [lin_diff]
    exact rowLoss_tangent X y θ θ' i
  have hd := div_le_div_of_nonneg_right hsum hn'.le
  rw [add_div] at hd
  have hsq : ∑ j, ∑ o, θ'.1 j o * θ'.1 j o = ∑ j, ∑ o, θ.1 j o * θ.1 j o + 2 * (∑ j, ∑ o, θ.1 j o * (diff θ' θ).1 j o) + ∑ j, ∑ o, (θ'.1 j o - θ.1 j o) ^ 2 := by
    rw [Finset.mul_sum, ← Finset.sum_add_distrib, ← Finset.sum_add_distrib]
    refine Finset.sum_congr rfl (fun j _ => ?_)
    rw [Finset.mul_sum, ← Finset.sum_add_distrib, ← Finset.sum_add_distrib]
    exact Finset.sum_congr rfl (fun o _ => by simp only [diff]; ring)
  rw [hsq]
  have he : (0.5 * alpha) * (∑ j, ∑ o, θ.1 j o * θ.1 j o + 2 * (∑ j, ∑ o, θ.1 j o * (diff θ' θ).1 j o) + ∑ j, ∑ o, (θ'.1 j o - θ.1 j o) ^ 2) / (n : ℝ) =
      (0.5 * alpha) * (∑ j, ∑ o, θ.1 j o * θ.1 j o) / n + alpha / n * (∑ j, ∑ o, θ.1 j o * (diff θ' θ).1 j o) + alpha / (2 * n) * ∑ j, ∑ o, (θ'.1 j o - θ.1 j o) ^ 2 := by
    field_simp
    ring
  rw [he]
  linarith

/-- C124: parameters at which the computed gradient is zero minimise the loss; with `Alpha > 0` every other minimiser has the same coefficients.
Missing for the full claim: what `C124_multilabel_violated` refutes. -/
theorem C124_optimal_partial (hmin hmax alpha : ℝ) (ha : 0 ≤ alpha) {n p q : ℕ} (hn : n ≠ 0) (X : Fin n → Fin p → ℝ) (y : Fin n → Fin q → ℝ) (hy : OneHotSums y) (θ : Layer p q)
    (h1 : Regular hmin hmax X θ) (hg : (∀ j o, (grad alpha X y θ).1 j o = 0) ∧ ∀ o, (grad alpha X y θ).2 o = 0) :
    ∀ θ', Regular hmin hmax X θ' → loss hmin hmax alpha X y θ ≤ loss hmin hmax alpha X y θ' ∧
      (0 < alpha → loss hmin hmax alpha X y θ' ≤ loss hmin hmax alpha X y θ → ∀ j o, θ'.1 j o = θ.1 j o) := by
  intro θ' h2
  have h := C124_convex_partial hmin hmax alpha hn X y hy θ θ' h1 h2
  have hz : inner (grad alpha X y θ) (diff θ' θ) = 0 := by simp [inner, hg.1, hg.2]
  rw [hz, add_zero] at h
  have hn' : (0 : ℝ) < n := by exact_mod_cast Nat.pos_of_ne_zero hn
  have hs : 0 ≤ ∑ j, ∑ o, (θ'.1 j o - θ.1 j o) ^ 2 := Finset.sum_nonneg (fun j _ => Finset.sum_nonneg (fun o _ => sq_nonneg _))
  refine ⟨?_, fun hpos hle => ?_⟩
  · have : 0 ≤ alpha / (2 * n) * ∑ j, ∑ o, (θ'.1 j o - θ.1 j o) ^ 2 := by positivity
    linarith
  · have hc : 0 < alpha / (2 * n) := by positivity
    have h0 : ∑ j, ∑ o, (θ'.1 j o - θ.1 j o) ^ 2 = 0 := by
      refine le_antisymm ?_ hs
      by_contra hne
      have := mul_pos hc (not_le.1 hne)
      linarith
    intro j o
    have hj := (Finset.sum_eq_zero_iff_of_nonneg (fun j _ => Finset.sum_nonneg (fun o _ => sq_nonneg _))).1 h0 j (Finset.mem_univ _)
    have ho := (Finset.sum_eq_zero_iff_of_nonneg (fun o _ => sq_nonneg _)).1 hj o (Finset.mem_univ _)
    have := pow_eq_zero_iff (two_ne_zero) |>.1 ho
    linarith

/-- Hypotheses met: two samples `x = 0` with the classes 0 and 1; the zero parameters give probability 1/2 and a zero gradient. -/
example : Regular (n := 2) (p := 1) (q := 1) (1 / 10) (9 / 10) (fun _ _ => 0) ((fun _ _ => 0), fun _ => 0) ∧ OneHotSums (fun (i : Fin 2) (_ : Fin 1) => if i = 0 then (0 : ℝ) else 1) ∧
    ∀ o, (grad 1 (fun (_ : Fin 2) (_ : Fin 1) => (0 : ℝ)) (fun (i : Fin 2) (_ : Fin 1) => if i = 0 then (0 : ℝ) else 1) ((fun _ _ => 0), fun _ => 0)).2 o = 0 := by
  have hp : ∀ o : Fin 1, probas (p := 1) (q := 1) ((fun _ _ => 0), fun _ => 0) (fun _ => 0) o = 1 / 2 := by
    intro o
    rw [probas_logi (by norm_num)]
    simp [lin]
    norm_num
  refine ⟨fun i o => ?_, fun h => absurd h (by norm_num), fun o => ?_⟩
  · rw [hp]; norm_num
  · simp only [grad, Fin.sum_univ_two]
    rw [hp]
    norm_num

/-- The model of this file and that of the multilayer perceptron without hidden layers agree. -/
theorem loss_eq_mlp (hmin hmax alpha : ℝ) {n p q : ℕ} (X : Fin n → Fin p → ℝ) (y : Fin n → Fin q → ℝ) (θ : Layer p q) (a : Mlp.Act) :
    loss hmin hmax alpha X y θ = Mlp.lossVal hmin hmax a (outOf q) alpha [] X y θ ∧ grad alpha X y θ = Mlp.grads a (outOf q) alpha [] X y θ := by
  by_cases hq : q > 1
  · have hp : ∀ x, probas θ x = Mlp.forward a .softmax [] θ x := by
      intro x; funext o; rw [probas_soft hq]; rfl
    simp only [loss, dataLoss, grad, hp, outOf, if_pos hq]
    exact ⟨rfl, rfl⟩
  · have hp : ∀ x, probas θ x = Mlp.forward a .logistic [] θ x := by
      intro x; funext o; rw [probas_logi hq]; rfl
    simp only [loss, dataLoss, grad, hp, outOf, if_neg hq]
    exact ⟨rfl, rfl⟩

/-- C124: the gradient handed to the optimiser is the derivative of the loss in every direction, where the clamp is not active.
Missing for the full claim: what `C124_multilabel_violated` refutes. -/
theorem C124_gradient_partial (hmin hmax alpha : ℝ) {n p q : ℕ} (hn : n ≠ 0) (X : Fin n → Fin p → ℝ) (y : Fin n → Fin q → ℝ) (hy : OneHotSums y) (θ V : Layer p q)
    (hr : ∀ i o, hmin < probas θ (X i) o ∧ probas θ (X i) o < hmax) :
    HasDerivAt (fun t : ℝ => loss hmin hmax alpha X y (fun j o => θ.1 j o + t * V.1 j o, fun o => θ.2 o + t * V.2 o)) (inner (grad alpha X y θ) V) 0 := by
  have hp : ∀ i, probas θ (X i) = Mlp.forward .identity (outOf q) [] θ (X i) := by
    intro i; funext o
    by_cases hq : q > 1
    · rw [probas_soft hq]; simp only [outOf, if_pos hq]; rfl
    · rw [probas_logi hq]; simp only [outOf, if_neg hq]; rfl
  have hG := Mlp.C93_backprop_partial hmin hmax .identity (by simp) (outOf q) alpha hn [] X y θ (by simp) (by
    simp only [← hp]
    by_cases hq : q > 1
    · simp only [outOf, if_pos hq, Mlp.GoodTargets]
      exact ⟨hr, hy hq⟩
    · simp only [outOf, if_neg hq, Mlp.GoodTargets]
      exact hr)
  have h := hG V
  rw [← (loss_eq_mlp hmin hmax alpha X y θ .identity).2] at h
  refine Mlp.hasDeriv_of h (fun t => (loss_eq_mlp hmin hmax alpha X y _ .identity).1) rfl

/-- C124, violated: with several labelled output columns (or any 0/1 targets with more than one 1 in a row) the model is one softmax over all columns.  The loss does not change when the same
number is added to all intercepts, yet the intercept gradients sum to `-(Σ_i (s_i - 1))/n`, `s_i` the sum of the targets of row `i`: the computed gradient is zero nowhere, whatever the
data and the parameters. -/
theorem C124_multilabel_violated (hmin hmax alpha : ℝ) {n p q : ℕ} (hq : 1 < q) (X : Fin n → Fin p → ℝ) (y : Fin n → Fin q → ℝ) (hy : ∀ i, 1 ≤ ∑ o, y i o) (i₀ : Fin n) (hi : 1 < ∑ o, y i₀ o) (θ : Layer p q) :
    (∀ c, loss hmin hmax alpha X y (θ.1, fun o => θ.2 o + c) = loss hmin hmax alpha X y θ) ∧
    ∑ o, (grad alpha X y θ).2 o = -(∑ i, (∑ o, y i o - 1)) / n ∧ ∑ o, (grad alpha X y θ).2 o < 0 := by
  have hn' : (0 : ℝ) < n := by exact_mod_cast lt_of_le_of_lt (Nat.zero_le _) i₀.isLt
  have hpr : ∀ c i, probas ((θ.1, fun o => θ.2 o + c) : Layer p q) (X i) = probas θ (X i) := by
    intro c i; funext o
    rw [probas_soft hq, probas_soft hq]
    have e : ∀ k, lin ((θ.1, fun o => θ.2 o + c) : Layer p q) (X i) k = lin θ (X i) k + c := fun k => by simp only [lin]; ring
    simp only [e, Real.exp_add, ← Finset.sum_mul]
    exact mul_div_mul_right _ _ (Real.exp_pos c).ne'
  have hsum1 : ∀ i, ∑ o, probas θ (X i) o = 1 := by
    intro i
    simp only [probas_soft hq]
    rw [← Finset.sum_div]
    exact div_self (Finset.sum_pos (fun k _ => Real.exp_pos _) ⟨⟨0, by omega⟩, Finset.mem_univ _⟩).ne'
  have hs : ∑ o, (grad alpha X y θ).2 o = -(∑ i, (∑ o, y i o - 1)) / n := by
    simp only [grad]
    rw [← Finset.sum_div, Finset.sum_comm]
    congr 1
    rw [← Finset.sum_neg_distrib]
    refine Finset.sum_congr rfl (fun i _ => ?_)
    rw [Finset.sum_sub_distrib, hsum1]
    ring
  refine ⟨fun c => ?_, hs, ?_⟩
  · simp only [loss, hpr]
  · rw [hs]
    refine div_neg_of_neg_of_pos (neg_neg_of_pos ?_) hn'
    exact Finset.sum_pos' (fun i _ => by linarith [hy i]) ⟨i₀, Finset.mem_univ _, by linarith⟩

/-- The binarized targets of a row with two label columns have two ones. -/
example : Label.binRow (0 : ℚ) 1 [[3, 4], [5, 6]] [(3 : ℚ), 6] = some [1, 0, 0, 1] := by decide +kernel

/-! ### C125: layout and type of the arguments -/

section
variable {K : Type} [Sub K]

theorem deltaCell_some (H y D : List K) (pos : ℕ) (h v : K) (hh : H[pos]? = some h) (hv : y[pos]? = some v) (hD : pos < D.length) : deltaCell H y D pos = some (D.set pos (h - v)) := by
  simp [deltaCell, hh, hv, hD]

/-- `D` agrees with `H - y` on the positions below `k` and still has its length. -/
def Done (H y D : List K) (len k : ℕ) : Prop := D.length = len ∧ ∀ i < k, ∃ h v, H[i]? = some h ∧ y[i]? = some v ∧ D[i]? = some (h - v)

theorem deltaRow (H y : List K) (len base : ℕ) (hH : H.length = len) (hy : len ≤ y.length) : ∀ (c : ℕ) (D : List K), base + c ≤ len → Done H y D len base →
    ∃ D', (List.range c).foldlM (fun D o => deltaCell H y D (base + o)) D = some D' ∧ Done H y D' len (base + c) := by
  intro c
  induction c with
  | zero => intro D _ h; exact ⟨D, rfl, h⟩
  | succ c ih =>
    intro D hc hD
    obtain ⟨D', h1, h2⟩ := ih D (by omega) hD
    rw [List.range_succ, List.foldlM_append, h1]
    have hh : H[base + c]? = some (H[base + c]'(by omega)) := List.getElem?_eq_getElem (by omega)
    have hv : y[base + c]? = some (y[base + c]'(by omega)) := List.getElem?_eq_getElem (by omega)
    refine ⟨D'.set (base + c) (H[base + c]'(by omega) - y[base + c]'(by omega)), ?_, ?_⟩
    · simp only [Option.bind_eq_bind, Option.bind_some, List.foldlM_cons, List.foldlM_nil]
      rw [deltaCell_some H y D' _ _ _ hh hv (by rw [h2.1]; omega)]
      rfl
    · refine ⟨by rw [List.length_set]; exact h2.1, fun i hi => ?_⟩
      by_cases hie : i = base + c
      · subst hie
        exact ⟨_, _, hh, hv, List.getElem?_set_self (by rw [h2.1]; omega)⟩
      · obtain ⟨h, v, a1, a2, a3⟩ := h2.2 i (by omega)
        exact ⟨h, v, a1, a2, by rw [List.getElem?_set_ne (fun e => hie e.symm)]; exact a3⟩

theorem deltaRows (H y : List K) (n q : ℕ) (hH : H.length = n * q) (hy : n * q ≤ y.length) : ∀ (r : ℕ) (D : List K), r ≤ n → D.length = n * q →
    ∃ D', (List.range r).foldlM (fun D r => (List.range q).foldlM (fun D o => deltaCell H y D (r * q + o)) D) D = some D' ∧ Done H y D' (n * q) (r * q) := by
  intro r
  induction r with
  | zero => intro D _ h; exact ⟨D, rfl, h, fun i hi => by simp at hi⟩
  | succ r ih =>
    intro D hr hD
    obtain ⟨D', h1, h2⟩ := ih D (by omega) hD
    rw [List.range_succ, List.foldlM_append, h1]
    have hle : r * q + q ≤ n * q := by rw [← Nat.succ_mul]; exact Nat.mul_le_mul_right q hr
    obtain ⟨D'', h3, h4⟩ := deltaRow H y (n * q) (r * q) hH hy q D' hle h2
    refine ⟨D'', ?_, by rw [Nat.succ_mul]; exact h4⟩
    simp only [Option.bind_eq_bind, Option.bind_some, List.foldlM_cons, List.foldlM_nil]
    rw [h3]
    rfl

/-- C125: when the targets are stored contiguously the buffer of deltas holds `H - y` afterwards, whatever it held before; the type of the arguments does not matter when both or neither are
`*mat.Dense`, or only `Y` is.  Missing: `C125_view_violated`, `C125_type_violated`. -/
theorem C125_contiguous_partial (H y D : List K) (n q : ℕ) (hH : H.length = n * q) (hD : D.length = n * q) (hy : y.length = n * q) :
    deltaLoop H y n q q D = some (List.zipWith (· - ·) H y) := by
  obtain ⟨D', h1, h2, h3⟩ := deltaRows H y n q hH hy.ge n D (le_refl n) hD
  rw [deltaLoop, h1]
  congr 1
  refine List.ext_getElem? (fun i => ?_)
  by_cases hi : i < n * q
  · obtain ⟨h, v, a1, a2, a3⟩ := h3 i hi
    rw [a3, List.getElem?_zipWith, a1, a2]
  · rw [List.getElem?_eq_none (by omega), List.getElem?_eq_none (by rw [List.length_zipWith]; omega)]

/-- Hypotheses met. -/
example : deltaLoop [5, 6, 7, 8] [1, 1, 0, 2] 2 2 2 [9, 9, 9, (9 : ℤ)] = some [4, 5, 7, 6] := by decide +kernel

theorem foldlM_none {A B : Type} (f : A → B → Option A) (good : B → Prop) (hbad : ∀ a b, ¬ good b → f a b = none) : ∀ (l : List B) (a : A), (∃ b ∈ l, ¬ good b) → l.foldlM f a = none := by
  intro l
  induction l with
  | nil => intro a h; obtain ⟨b, hb, _⟩ := h; simp at hb
  | cons x xs ih =>
    intro a h
    rw [List.foldlM_cons]
    cases hf : f a x with
    | none => rfl
    | some a' =>
      simp only [Option.bind_eq_bind, Option.bind_some]
      refine ih a' ?_
      obtain ⟨b, hb, hg⟩ := h
      rcases List.mem_cons.1 hb with rfl | hb
      · rw [hbad a b hg] at hf; cases hf
      · exact ⟨b, hb, hg⟩

/-- C125, violated: when `Y` (0/1 labels) is a view of some columns of a wider matrix, `Fit` panics for every data set of two rows or more: the probabilities are indexed with the stride of `Y`. -/
theorem C125_view_violated (H y D : List K) (n q s : ℕ) (hn : 2 ≤ n) (hq : 0 < q) (hs : q < s) (hH : H.length = n * q) : deltaLoop H y n q s D = none := by
  refine foldlM_none _ (fun r => ¬ r = n - 1) (fun D r hr => ?_) _ D ⟨n - 1, List.mem_range.2 (by omega), by simp⟩
  have hr' : r = n - 1 := not_not.1 hr
  subst hr'
  refine foldlM_none _ (fun o => ¬ o = q - 1) (fun D o ho => ?_) _ D ⟨q - 1, List.mem_range.2 (by omega), by simp⟩
  have ho' : o = q - 1 := not_not.1 ho
  subst ho'
  have hge : n * q ≤ (n - 1) * s + (q - 1) := by
    obtain ⟨m, rfl⟩ : ∃ m, n = m + 1 := ⟨n - 1, by omega⟩
    have : m * (q + 1) ≤ m * s := Nat.mul_le_mul_left m hs
    have e : (m + 1) * q = m * q + q := Nat.succ_mul m q
    have e2 : m * (q + 1) = m * q + m := Nat.mul_succ m q
    simp only [Nat.add_sub_cancel]
    omega
  simp [deltaCell, List.getElem?_eq_none (show H.length ≤ (n - 1) * s + (q - 1) by omega)]

/-- Hypotheses met: the first column of a 2×2 matrix. -/
example : deltaLoop [5, 6] [1, 9, 0, (9 : ℤ)] 2 1 2 [0, 0] = none := by decide +kernel

end

theorem C125_types_partial {M : Type} (X Y : M) (xDense yDense : Bool) (h : xDense = true → yDense = true) : fitArgs xDense yDense X Y = some (X, Y) := by
  cases xDense <;> cases yDense <;> simp_all [fitArgs]

/-- Hypotheses met by two dense matrices and by two matrices of other types. -/
example : (true = true → true = true) ∧ (false = true → false = true) := ⟨fun _ => rfl, fun h => h⟩

/-- C125, violated: a dense `X` with a `Y` of another matrix type (a vector, a transpose, …) makes `Fit` panic, whatever the values. -/
theorem C125_type_violated {M : Type} (X Y : M) : fitArgs true false X Y = none := rfl

/-! ### C126: fitting again -/

theorem binRow_one (cs : List ℝ) (v : ℝ) : ∃ r, Label.binRow (0 : ℝ) 1 [cs] [v] = some r := by
  simp [Label.binRow]

theorem columns_one (ys : List ℝ) : columns 1 (ys.map (fun v => [v])) = [ys] := by
  simp only [columns, List.range_one, List.map_cons, List.map_nil, List.map_map]
  rw [show ((fun row : List ℝ => row.getD 0 0) ∘ fun v => [v]) = id from rfl, List.map_id]

theorem mapM_some {A B : Type} (f : A → Option B) (l : List A) (h : ∀ a ∈ l, ∃ b, f a = some b) : ∃ bs, l.mapM f = some bs := by
  induction l with
  | nil => exact ⟨[], rfl⟩
  | cons a l ih =>
    obtain ⟨b, hb⟩ := h a (List.mem_cons_self ..)
    obtain ⟨bs, hbs⟩ := ih (fun x hx => h x (List.mem_cons_of_mem _ hx))
    exact ⟨b :: bs, by rw [List.mapM_cons, hb, hbs]; rfl⟩

theorem isBinarized_one (ys : List ℝ) : isBinarized (ys.map (fun v => [v])) = true ↔ ∀ v ∈ ys, v = 0 ∨ v = 1 := by
  simp [isBinarized]

/-- A single column with other labels than 0 and 1: the estimator gets the sorted labels as classes. -/
theorem fit_labels (train : List (List ℝ) → List ℝ → List ℝ) (m : LR) (ys : List ℝ) (h : ∃ v ∈ ys, v ≠ 0 ∧ v ≠ 1) :
    ∃ Yb, fit train m 1 (ys.map (fun v => [v])) = some ⟨some [Label.distinctSorted ys], (Label.distinctSorted ys).length, train Yb⟩ := by
  have hb : ¬ isBinarized (ys.map (fun v => [v])) = true := by
    rw [isBinarized_one]
    push Not
    exact h
  obtain ⟨Yb, hYb⟩ := mapM_some (fun row => Label.binRow (0 : ℝ) 1 [Label.distinctSorted ys] row) (ys.map (fun v => [v])) (by
    intro row hrow
    obtain ⟨v, _, rfl⟩ := List.mem_map.1 hrow
    exact binRow_one _ v)
  refine ⟨Yb, ?_⟩
  rw [fit, if_neg hb, columns_one]
  simp only [List.map_cons, List.map_nil, hYb]
  simp

theorem fit_binary (train : List (List ℝ) → List ℝ → List ℝ) (m : LR) (ys : List ℝ) (h : ∀ v ∈ ys, v = 0 ∨ v = 1) :
    fit train m 1 (ys.map (fun v => [v])) = some { m with nOut := 1, net := train (ys.map (fun v => [v])) } := by
  rw [fit, if_pos ((isBinarized_one ys).2 h)]

/-- Decoding with one list of classes. -/
theorem inverse_one (cs h : List ℝ) (hne : cs ≠ []) (hl : h.length = cs.length) : ∃ k c, GoSort.maxIdx h = some k ∧ cs[k]? = some c ∧ Label.binInverse 0 [cs] [h] h.length = some [[c]] := by
  have hh : h ≠ [] := by intro e; subst e; simp at hl; exact hne (List.length_eq_zero_iff.1 hl.symm)
  obtain ⟨k, hk, hlt, _, _⟩ := GoSort.maxIdx_spec h hh
  have hc : cs[k]? = some (cs[k]'(by omega)) := List.getElem?_eq_getElem (by omega)
  refine ⟨k, cs[k]'(by omega), hk, hc, ?_⟩
  have hpos : 0 < cs.length := List.length_pos_iff.2 hne
  have htake : List.take cs.length h = h := by rw [← hl]; exact List.take_length
  simp only [Label.binInverse, Label.binInverseLoop, List.flatten_cons, List.flatten_nil, List.append_nil, List.length_cons, List.length_nil, zero_add, hl, if_pos hpos, List.range_one]
  simp [htake, hk, hc, hl, show ¬ cs.length + cs.length < cs.length by omega]

/-- C126: fitting a new estimator, or any estimator on labels that are not all 0 and 1, gives a model that predicts for every row the class with the first largest probability; with 0/1 labels
a new estimator predicts 1 exactly when the probability is above one half.  `train` is any training procedure returning as many outputs as there are target columns.
Missing: an estimator fitted before on other labels (`C126_refit_violated`). -/
theorem C126_predict_partial (train : List (List ℝ) → List ℝ → List ℝ) (m : LR) (ys : List ℝ) (x : List ℝ) :
    ((∃ v ∈ ys, v ≠ 0 ∧ v ≠ 1) → (∀ Y x, (train Y x).length = (Label.distinctSorted ys).length) → ∃ m' h k c, fit train m 1 (ys.map (fun v => [v])) = some m' ∧ predictProbas m' x = some h ∧
      GoSort.maxIdx h = some k ∧ (Label.distinctSorted ys)[k]? = some c ∧ c ∈ ys ∧ predict m' x = some [c]) ∧
    ((∀ v ∈ ys, v = 0 ∨ v = 1) → m.lb = none → (∀ Y x, (train Y x).length = 1) → ∃ m' v, fit train m 1 (ys.map (fun v => [v])) = some m' ∧ predictProbas m' x = some [v] ∧
      predict m' x = some [if v > 1 / 2 then 1 else 0]) := by
  constructor
  · intro hv htr
    obtain ⟨Yb, hfit⟩ := fit_labels train m ys hv
    have hne : Label.distinctSorted ys ≠ [] := by
      obtain ⟨v, hvm, _⟩ := hv
      have := ((Label.distinctSorted_spec ys).2 v).2 hvm
      intro e; rw [e] at this; simp at this
    obtain ⟨k, c, hk, hc, hinv⟩ := inverse_one (Label.distinctSorted ys) (train Yb x) hne (htr Yb x)
    have hpp : predictProbas ⟨some [Label.distinctSorted ys], (Label.distinctSorted ys).length, train Yb⟩ x = some (train Yb x) := by
      simp [predictProbas, probaCols]
    refine ⟨_, train Yb x, k, c, hfit, hpp, hk, hc, ((Label.distinctSorted_spec ys).2 c).1 (List.mem_of_getElem? hc), ?_⟩
    simp only [predict, hpp, Option.bind_eq_bind, Option.bind_some, hinv]
    rfl
  · intro hb hlb htr
    refine ⟨_, (train (ys.map (fun v => [v])) x)[0]'(by rw [htr]; norm_num), fit_binary train m ys hb, ?_, ?_⟩
    · simp only [predictProbas, probaCols, hlb, if_true]
      obtain ⟨v, hv⟩ := List.length_eq_one_iff.1 (htr (ys.map (fun v => [v])) x)
      simp [hv]
    · simp only [predict, predictProbas, probaCols, hlb, if_true, Option.bind_eq_bind, Option.bind_some]
      obtain ⟨v, hv⟩ := List.length_eq_one_iff.1 (htr (ys.map (fun v => [v])) x)
      simp [hv, Mlp.toLogits]

/-- Hypotheses met: labels 3 and 5, and labels 0 and 1. -/
example : (∃ v ∈ [(3 : ℝ), 5, 3], v ≠ 0 ∧ v ≠ 1) ∧ ∀ v ∈ [(0 : ℝ), 1, 1], v = 0 ∨ v = 1 :=
  ⟨⟨3, by simp, by norm_num, by norm_num⟩, by simp⟩

/-- C126, violated: an estimator fitted first on labels that are not all 0 and 1 and then on 0/1 labels keeps the classes of the first fit.  With two or more distinct labels in the first fit,
every prediction after the second panics; with one, every prediction is that old label. -/
theorem C126_refit_violated (train : List (List ℝ) → List ℝ → List ℝ) (m : LR) (ys zs : List ℝ) (hy : ∃ v ∈ ys, v ≠ 0 ∧ v ≠ 1) (hz : ∀ v ∈ zs, v = 0 ∨ v = 1) :
    ∃ m₁ m₂, fit train m 1 (ys.map (fun v => [v])) = some m₁ ∧ fit train m₁ 1 (zs.map (fun v => [v])) = some m₂ ∧
      ((∃ v ∈ ys, ∃ w ∈ ys, v ≠ w) → ∀ x, predict m₂ x = none) ∧
      (∀ w, (∀ v ∈ ys, v = w) → (∀ Y x, (train Y x).length = 1) → ∀ x, predict m₂ x = some [w]) := by
  obtain ⟨Yb, hfit⟩ := fit_labels train m ys hy
  refine ⟨_, _, hfit, fit_binary train _ zs hz, ?_, ?_⟩
  · rintro ⟨v, hv, w, hw, hvw⟩ x
    have hlen : (Label.distinctSorted ys).length ≠ 1 := by
      intro e
      obtain ⟨c, hc⟩ := List.length_eq_one_iff.1 e
      have h1 := ((Label.distinctSorted_spec ys).2 v).2 hv
      have h2 := ((Label.distinctSorted_spec ys).2 w).2 hw
      rw [hc, List.mem_singleton] at h1 h2
      exact hvw (h1.trans h2.symm)
    simp [predict, predictProbas, probaCols, hlen]
  · intro w hw htr x
    have hds : Label.distinctSorted ys = [w] := by
      have hs := Label.distinctSorted_spec ys
      obtain ⟨v, hv, _⟩ := hy
      have hwm : w ∈ Label.distinctSorted ys := (hs.2 w).2 ((hw v hv) ▸ hv)
      cases hd : Label.distinctSorted ys with
      | nil => rw [hd] at hwm; simp at hwm
      | cons a l =>
        cases l with
        | nil => rw [hd] at hwm; rw [List.mem_singleton.1 hwm]
        | cons b l =>
          have ha : a = w := hw a ((hs.2 a).1 (by rw [hd]; simp))
          have hb : b = w := hw b ((hs.2 b).1 (by rw [hd]; simp))
          have := hs.1
          rw [hd] at this
          have hab := (List.pairwise_cons.1 this).1 b (by simp)
          rw [ha, hb] at hab
          exact absurd hab (lt_irrefl _)
    obtain ⟨k, c, hk, hc, hinv⟩ := inverse_one [w] (train (zs.map (fun v => [v])) x) (by simp) (htr _ x)
    have hcw : c = w := by
      have := List.mem_of_getElem? hc
      simpa using this
    simp only [predict, predictProbas, probaCols, hds, List.map_cons, List.map_nil, List.length_cons, List.length_nil, List.sum_cons, List.sum_nil, zero_add, add_zero, if_true,
      Option.bind_eq_bind, Option.bind_some, hinv, hcw]
    rfl

theorem columns_two (ys zs : List ℝ) (hl : ys.length = zs.length) : columns 2 (List.zipWith (fun y z => [y, z]) ys zs) = [ys, zs] := by
  have h1 : (List.zipWith (fun y z => [y, z]) ys zs).map (fun row => row.getD 0 0) = ys := by
    induction ys generalizing zs with
    | nil => simp
    | cons a t ih =>
      cases zs with
      | nil => simp at hl
      | cons b u => simpa using ih u (by simpa using hl)
  have h2 : (List.zipWith (fun y z => [y, z]) ys zs).map (fun row => row.getD 1 0) = zs := by
    clear h1
    induction ys generalizing zs with
    | nil => cases zs with | nil => simp | cons b u => simp at hl
    | cons a t ih =>
      cases zs with
      | nil => simp at hl
      | cons b u => simpa using ih u (by simpa using hl)
  simp only [columns, List.range_succ, List.range_zero, List.nil_append, List.map_append, List.map_cons, List.map_nil, h1, h2]
  rfl

/-- C126, violated for two label columns, whatever the training does: the classes are those of each column, but the prediction of the second output is always 0 (first column with at least as many classes as the
second) or every prediction panics. -/
theorem C126_two_columns_violated (train : List (List ℝ) → List ℝ → List ℝ) (m : LR) (ys zs : List ℝ) (hl : ys.length = zs.length) (hv : ∃ v, (v ∈ ys ∨ v ∈ zs) ∧ v ≠ 0 ∧ v ≠ 1)
    (htr : ∀ Y x, (train Y x).length = (Label.distinctSorted ys).length + (Label.distinctSorted zs).length) :
    ∃ m', fit train m 2 (List.zipWith (fun y z => [y, z]) ys zs) = some m' ∧ m'.lb = some [Label.distinctSorted ys, Label.distinctSorted zs] ∧
      ((Label.distinctSorted zs).length ≤ (Label.distinctSorted ys).length → ∀ x, ∃ c ∈ ys, predict m' x = some [c, 0]) ∧
      ((Label.distinctSorted ys).length < (Label.distinctSorted zs).length → ∀ x, predict m' x = none) := by
  have hne : ys ≠ [] := by
    rintro rfl
    have : zs = [] := List.length_eq_zero_iff.1 (by simpa using hl.symm)
    subst this
    obtain ⟨v, hv, _⟩ := hv
    simp at hv
  have hnez : zs ≠ [] := by
    rintro rfl
    exact hne (List.length_eq_zero_iff.1 (by simpa using hl))
  have hd : ∀ l : List ℝ, l ≠ [] → Label.distinctSorted l ≠ [] := by
    intro l hl e
    obtain ⟨v, hvm⟩ := List.exists_mem_of_ne_nil _ hl
    have := ((Label.distinctSorted_spec l).2 v).2 hvm
    rw [e] at this; simp at this
  have hrow : ∀ row ∈ List.zipWith (fun y z => [y, z]) ys zs, ∃ y z : ℝ, row = [y, z] := by
    intro row hr
    rw [List.mem_iff_getElem] at hr
    obtain ⟨k, hk, rfl⟩ := hr
    exact ⟨_, _, List.getElem_zipWith ..⟩
  have hb : ¬ isBinarized (List.zipWith (fun y z => [y, z]) ys zs) = true := by
    intro h
    obtain ⟨v, hm, h0, h1⟩ := hv
    have hc := columns_two ys zs hl
    have hmem : ∃ row ∈ List.zipWith (fun y z => [y, z]) ys zs, v ∈ row := by
      rcases hm with hm | hm
      · obtain ⟨k, hk, rfl⟩ := List.getElem_of_mem hm
        exact ⟨[ys[k], zs[k]'(by omega)], List.mem_iff_getElem.2 ⟨k, by simp; omega, by simp⟩, by simp⟩
      · obtain ⟨k, hk, rfl⟩ := List.getElem_of_mem hm
        exact ⟨[ys[k]'(by omega), zs[k]], List.mem_iff_getElem.2 ⟨k, by simp; omega, by simp⟩, by simp⟩
    obtain ⟨row, hr, hvr⟩ := hmem
    unfold isBinarized at h
    have := List.all_eq_true.1 (List.all_eq_true.1 h row hr) v hvr
    simp [h0, h1] at this
  obtain ⟨Yb, hYb⟩ := mapM_some (fun row => Label.binRow (0 : ℝ) 1 [Label.distinctSorted ys, Label.distinctSorted zs] row) (List.zipWith (fun y z => [y, z]) ys zs) (by
    intro row hr
    obtain ⟨y, z, rfl⟩ := hrow row hr
    simp [Label.binRow])
  refine ⟨⟨some [Label.distinctSorted ys, Label.distinctSorted zs], (Label.distinctSorted ys).length + (Label.distinctSorted zs).length, train Yb⟩, ?_, rfl, ?_, ?_⟩
  · rw [fit, if_neg hb, columns_two ys zs hl]
    simp only [List.map_cons, List.map_nil, hYb]
    simp
  all_goals
    intro hle x
    obtain ⟨g1, g2⟩ := Label.C15_two_columns_violated (0 : ℝ) (Label.distinctSorted ys) (Label.distinctSorted zs) (hd _ hne) (hd _ hnez) [train Yb x] (by simp) (by simpa using htr Yb x)
    have hpp : predictProbas ⟨some [Label.distinctSorted ys, Label.distinctSorted zs], (Label.distinctSorted ys).length + (Label.distinctSorted zs).length, train Yb⟩ x = some (train Yb x) := by
      simp [predictProbas, probaCols]
  · obtain ⟨col, hcol, hlen, hdec⟩ := g1 hle
    obtain ⟨k, c, _, hc, hcc⟩ := hdec 0 _ rfl
    refine ⟨c, ((Label.distinctSorted_spec ys).2 c).1 (List.mem_of_getElem? hc), ?_⟩
    simp only [predict, hpp, Option.bind_eq_bind, Option.bind_some, htr, hcol]
    simp [hcc]
  · simp only [predict, hpp, Option.bind_eq_bind, Option.bind_some, htr, g2 hle]
    rfl

/-- Labels 3, 5 and 7, 8 for two samples. -/
example : [(3 : ℝ), 5].length = [(7 : ℝ), 8].length ∧ ∃ v, (v ∈ [(3 : ℝ), 5] ∨ v ∈ [(7 : ℝ), 8]) ∧ v ≠ 0 ∧ v ≠ 1 := ⟨rfl, 3, by simp, by norm_num, by norm_num⟩

/-! ### C127: what is reported after the optimisation -/

section
variable {T K : Type} [LinearOrder K]

/-- C127: after a fit `Loss` is the loss of the stored parameters, `BestLoss` is the least loss evaluated and the loss curve has been extended by the evaluated losses in order.
Missing: the stored parameters need not be the best ones (`C127_last_violated`) and the curve is not restarted (`C127_curve_violated`). -/
theorem C127_book_partial (f : T → K) (b : Book T K) (w0 : T) (ws : List T) (h : ws ≠ []) :
    let r := fitLbfgs f b w0 ws
    (∃ w, ws.getLast? = some w ∧ r.params = w ∧ r.loss = f w) ∧ (∃ w ∈ ws, r.best = some (f w) ∧ ∀ w' ∈ ws, f w ≤ f w') ∧ r.curve = b.curve ++ ws.map f := by
  induction ws using List.reverseRecOn with
  | nil => exact absurd rfl h
  | append_singleton ws w ih =>
    by_cases he : ws = []
    · subst he
      simp [fitLbfgs, evalFunc]
    · obtain ⟨_, ⟨v, hv, hb, hmin⟩, hc⟩ := ih he
      have hr : fitLbfgs f b w0 (ws ++ [w]) = evalFunc f (fitLbfgs f b w0 ws) w := by simp [fitLbfgs, List.foldl_append]
      simp only [hr]
      refine ⟨⟨w, by simp, rfl, rfl⟩, ?_, ?_⟩
      · simp only [evalFunc, hb]
        rcases le_total (f v) (f w) with hle | hle
        · refine ⟨v, by simp [hv], by rw [min_eq_left hle], fun w' hw' => ?_⟩
          rcases List.mem_append.1 hw' with hw' | hw'
          · exact hmin w' hw'
          · rw [List.mem_singleton.1 hw']; exact hle
        · refine ⟨w, by simp, by rw [min_eq_right hle], fun w' hw' => ?_⟩
          rcases List.mem_append.1 hw' with hw' | hw'
          · exact hle.trans (hmin w' hw')
          · rw [List.mem_singleton.1 hw']
      · simp only [evalFunc, hc, List.map_append, List.append_assoc, List.map_cons, List.map_nil]

/-- Hypotheses met. -/
example : (fitLbfgs (fun w : ℤ => w * w) ⟨0, 0, none, []⟩ 3 [3, 1, 2]).best = some 1 ∧ (fitLbfgs (fun w : ℤ => w * w) ⟨0, 0, none, []⟩ 3 [3, 1, 2]).params = 2 := by decide

/-- C127, violated: whenever the last point evaluated (for instance the trial step at which `MaxIter` evaluations are reached) is worse than an earlier one, the fitted parameters are the worse
ones. -/
theorem C127_last_violated (f : T → K) (b : Book T K) (w0 : T) (ws : List T) (w w' : T) (hw : w ∈ ws) (hlt : f w < f w') :
    (fitLbfgs f b w0 (ws ++ [w'])).params = w' ∧ ∃ v, (fitLbfgs f b w0 (ws ++ [w'])).best = some v ∧ v < f (fitLbfgs f b w0 (ws ++ [w'])).params := by
  obtain ⟨⟨l, h1, h2, _⟩, ⟨v, _, hb, hmin⟩, _⟩ := C127_book_partial f b w0 (ws ++ [w']) (by simp)
  have hl : l = w' := by simpa using h1.symm
  rw [hl] at h2
  refine ⟨h2, f v, hb, ?_⟩
  rw [h2]
  exact lt_of_le_of_lt (hmin w (by simp [hw])) hlt

/-- C127, violated: after fitting again the loss curve still starts with the losses of the earlier fit. -/
theorem C127_curve_violated (f g : T → K) (b : Book T K) (v0 w0 : T) (vs ws : List T) (hv : vs ≠ []) (hw : ws ≠ []) :
    (fitLbfgs g (fitLbfgs f b v0 vs) w0 ws).curve = b.curve ++ vs.map f ++ ws.map g ∧ (fitLbfgs g (fitLbfgs f b v0 vs) w0 ws).curve ≠ ws.map g := by
  have h1 := (C127_book_partial f b v0 vs hv).2.2
  have h2 := (C127_book_partial g (fitLbfgs f b v0 vs) w0 ws hw).2.2
  simp only [h1] at h2
  refine ⟨h2, fun e => ?_⟩
  rw [e] at h2
  have := congrArg List.length h2
  simp only [List.length_append, List.length_map] at this
  have := List.length_pos_iff.2 hv
  omega

end

end Sk.Logistic
