import Verif.Props.MlpGrad
import Mathlib.Analysis.Calculus.MeanValue
import Mathlib.Order.ConditionallyCompleteLattice.Indexed
import Mathlib.Tactic.Linarith
import Mathlib.Tactic.NormNum

/-! # C252: how far the outputs of a network move -/
set_option autoImplicit false

namespace Sk.MlpMoves

open Sk.Mlp

/-- Greatest slope of an activation. -/
noncomputable def slope : Act → ℝ
  | .identity => 1
  | .logistic => 1 / 4
  | .tanh => 1
  | .relu => 1

/-- Greatest sum of the absolute weights entering a unit of the layer. -/
noncomputable def strength {p q : ℕ} (L : Layer p q) : ℝ := ⨆ o, ∑ j, |L.1 j o|

/-- Product of the strengths of the layers and of the slopes of the hidden activations. -/
noncomputable def gain (a : Act) : {p : ℕ} → (hs : List ℕ) → {q : ℕ} → Params p hs q → ℝ
  | _, [], _, L => strength L
  | _, _ :: hs, _, (L, θ) => gain a hs θ * (slope a * strength L)

/-- Sum of the absolute weights and of the absolute intercept of an output unit. -/
noncomputable def outer : {p : ℕ} → (hs : List ℕ) → {q : ℕ} → Params p hs q → Fin q → ℝ
  | _, [], _, L, o => ∑ j, |L.1 j o| + |L.2 o|
  | _, _ :: hs, _, (_, θ), o => outer hs θ o

private theorem logistic_moves (u v : ℝ) : |1 / (1 + Real.exp (-u)) - 1 / (1 + Real.exp (-v))| ≤ 1 / 4 * |u - v| := by
  have := Convex.norm_image_sub_le_of_norm_hasDerivWithin_le (f := fun z : ℝ => 1 / (1 + Real.exp (-z))) (C := 1 / 4) (s := Set.univ) (x := v) (y := u)
    (fun x _ => (logistic_deriv x).hasDerivWithinAt) (fun x _ => by
      have h1 : 0 < 1 / (1 + Real.exp (-x)) := by have := Real.exp_pos (-x); positivity
      have h2 : 1 / (1 + Real.exp (-x)) < 1 := by
        have := Real.exp_pos (-x)
        rw [div_lt_one (by linarith)]
        linarith
      rw [Real.norm_eq_abs, abs_of_nonneg (mul_nonneg h1.le (by linarith))]
      nlinarith [sq_nonneg (1 / (1 + Real.exp (-x)) - 1 / 2)]) convex_univ (Set.mem_univ _) (Set.mem_univ _)
  simpa only [Real.norm_eq_abs] using this

private theorem act_moves (a : Act) (u v : ℝ) : |a.f u - a.f v| ≤ slope a * |u - v| := by
  cases a with
  | identity => simp [Act.f, slope]
  | logistic => exact logistic_moves u v
  | tanh =>
    have := Convex.norm_image_sub_le_of_norm_hasDerivWithin_le (f := fun z : ℝ => Real.tanh (-z)) (C := 1) (s := Set.univ) (x := v) (y := u)
      (fun x _ => (tanh_deriv x).hasDerivWithinAt) (fun x _ => by
        rw [Real.norm_eq_abs, abs_neg, abs_of_pos (tanh_sq_lt _)]
        nlinarith [mul_self_nonneg (Real.tanh (-x))]) convex_univ (Set.mem_univ _) (Set.mem_univ _)
    simp only [Real.norm_eq_abs] at this
    exact this
  | relu =>
    simp only [Act.f, slope, one_mul]
    split_ifs with h1 h2 h2
    · simp
    · rw [not_lt] at h2
      rw [abs_le]
      exact ⟨by linarith [neg_abs_le (u - v), le_abs_self (u - v)], by linarith [abs_nonneg (u - v)]⟩
    · rw [not_lt] at h1
      rw [abs_le]
      exact ⟨by linarith [abs_nonneg (u - v)], by linarith [le_abs_self (u - v)]⟩
    · exact le_rfl

private theorem slope_nonneg (a : Act) : 0 ≤ slope a := by cases a <;> norm_num [slope]

private theorem strength_ge {p q : ℕ} (L : Layer p q) (o : Fin q) : ∑ j, |L.1 j o| ≤ strength L := le_ciSup (f := fun o => ∑ j, |L.1 j o|) (Set.finite_range _).bddAbove o

private theorem strength_nonneg {p q : ℕ} (L : Layer p q) : 0 ≤ strength L := Real.iSup_nonneg fun _ => Finset.sum_nonneg fun _ _ => abs_nonneg _

private theorem affine_moves {p q : ℕ} (L : Layer p q) (x x' : Fin p → ℝ) {d : ℝ} (hd : 0 ≤ d) (h : ∀ j, |x j - x' j| ≤ d) (o : Fin q) : |affine L x o - affine L x' o| ≤ strength L * d := by
  have e : affine L x o - affine L x' o = ∑ j, (x j - x' j) * L.1 j o := by
    unfold affine
    rw [add_sub_add_right_eq_sub, ← Finset.sum_sub_distrib]
    exact Finset.sum_congr rfl fun j _ => by ring
  rw [e]
  calc |∑ j, (x j - x' j) * L.1 j o| ≤ ∑ j, |(x j - x' j) * L.1 j o| := Finset.abs_sum_le_sum_abs _ _
    _ ≤ ∑ j, |L.1 j o| * d := Finset.sum_le_sum fun j _ => by
        rw [abs_mul, mul_comm]
        exact mul_le_mul_of_nonneg_left (h j) (abs_nonneg _)
    _ = (∑ j, |L.1 j o|) * d := by rw [Finset.sum_mul]
    _ ≤ strength L * d := mul_le_mul_of_nonneg_right (strength_ge L o) hd

private theorem logits_moves (a : Act) : ∀ (hs : List ℕ) {p q : ℕ} (θ : Params p hs q) (x x' : Fin p → ℝ) {d : ℝ}, 0 ≤ d → (∀ j, |x j - x' j| ≤ d) → ∀ o, |logits a hs θ x o - logits a hs θ x' o| ≤ gain a hs θ * d
  | [], _, _, L, x, x', _, hd, h, o => affine_moves L x x' hd h o
  | h' :: hs, _, _, (L, θ), x, x', d, hd, h, o => by
    have hd' : 0 ≤ slope a * strength L * d := mul_nonneg (mul_nonneg (slope_nonneg a) (strength_nonneg L)) hd
    have := logits_moves a hs θ (fun o => a.f (affine L x o)) (fun o => a.f (affine L x' o)) hd' (fun j => by
      refine (act_moves a _ _).trans ?_
      rw [mul_assoc]
      exact mul_le_mul_of_nonneg_left (affine_moves L x x' hd h j) (slope_nonneg a)) o
    change |logits a hs θ _ o - logits a hs θ _ o| ≤ gain a hs θ * (slope a * strength L) * d
    rw [mul_assoc]
    exact this

/-- **C252, moved inputs**: when no feature of a row changes by more than `d`, no output of a regression network changes by more than `d` times the product of the strengths of its layers and of the slopes of its hidden activations,
and the probability of a binary classifier by no more than a quarter of that. -/
theorem C252_moves (a : Act) (hs : List ℕ) {p q : ℕ} (θ : Params p hs q) (x x' : Fin p → ℝ) {d : ℝ} (hd : 0 ≤ d) (h : ∀ j, |x j - x' j| ≤ d) (o : Fin q) :
    |forward a .identity hs θ x o - forward a .identity hs θ x' o| ≤ gain a hs θ * d ∧ |forward a .logistic hs θ x o - forward a .logistic hs θ x' o| ≤ gain a hs θ * d / 4 := by
  have key := logits_moves a hs θ x x' hd h o
  refine ⟨key, (logistic_moves _ _).trans ?_⟩
  linarith

/-- **C252, classes**: when no feature of a row changes by more than `d`, the logarithm of the ratio of the probabilities of two classes given by a classifier with several outputs changes by at most `2 d` times the gain; so a class that is
ahead of another one by more than that stays ahead. -/
theorem C252_classes (a : Act) (hs : List ℕ) {p q : ℕ} (θ : Params p hs q) (x x' : Fin p → ℝ) {d : ℝ} (hd : 0 ≤ d) (h : ∀ j, |x j - x' j| ≤ d) (o k : Fin q) :
    |Real.log (forward a .softmax hs θ x o / forward a .softmax hs θ x k) - Real.log (forward a .softmax hs θ x' o / forward a .softmax hs θ x' k)| ≤ 2 * (gain a hs θ * d) ∧
    (2 * (gain a hs θ * d) < Real.log (forward a .softmax hs θ x o / forward a .softmax hs θ x k) → forward a .softmax hs θ x' k < forward a .softmax hs θ x' o) := by
  have pos : ∀ y : Fin p → ℝ, 0 < ∑ k, Real.exp (logits a hs θ y k) := fun y => Finset.sum_pos (fun _ _ => Real.exp_pos _) ⟨o, Finset.mem_univ _⟩
  have odds : ∀ y : Fin p → ℝ, Real.log (forward a .softmax hs θ y o / forward a .softmax hs θ y k) = logits a hs θ y o - logits a hs θ y k := by
    intro y
    change Real.log (Real.exp (logits a hs θ y o) / (∑ k, Real.exp (logits a hs θ y k)) / (Real.exp (logits a hs θ y k) / ∑ k, Real.exp (logits a hs θ y k))) = _
    rw [div_div_div_cancel_right₀ (pos y).ne', ← Real.exp_sub, Real.log_exp]
  have h1 := abs_le.1 (logits_moves a hs θ x x' hd h o)
  have h2 := abs_le.1 (logits_moves a hs θ x x' hd h k)
  rw [odds, odds]
  refine ⟨abs_le.2 ⟨by linarith [h1.1, h2.2], by linarith [h1.2, h2.1]⟩, fun hm => ?_⟩
  change Real.exp (logits a hs θ x' k) / _ < Real.exp (logits a hs θ x' o) / _
  refine div_lt_div_of_pos_right (Real.exp_lt_exp.2 ?_) (pos x')
  linarith [h1.2, h2.1]

private theorem act_bounded {a : Act} (ha : a = .tanh ∨ a = .logistic) (z : ℝ) : |a.f z| ≤ 1 := by
  rcases ha with rfl | rfl
  · exact (Real.abs_tanh_lt_one (-z)).le
  · have h := Real.exp_pos (-z)
    simp only [Act.f]
    rw [abs_of_pos (by positivity), div_le_one (by linarith)]
    linarith

private theorem logits_bounded {a : Act} (ha : a = .tanh ∨ a = .logistic) : ∀ (hs : List ℕ) {p q : ℕ} (θ : Params p hs q) (x : Fin p → ℝ), (∀ j, |x j| ≤ 1) → ∀ o, |logits a hs θ x o| ≤ outer hs θ o
  | [], _, _, L, x, h, o => by
    change |(∑ j, x j * L.1 j o) + L.2 o| ≤ ∑ j, |L.1 j o| + |L.2 o|
    refine (abs_add_le _ _).trans (add_le_add_left ((Finset.abs_sum_le_sum_abs _ _).trans (Finset.sum_le_sum fun j _ => ?_)) _)
    rw [abs_mul]
    exact mul_le_of_le_one_left (abs_nonneg _) (h j)
  | _ :: hs, _, _, (L, θ), x, _, o => logits_bounded ha hs θ (fun o => a.f (affine L x o)) (fun _ => act_bounded ha _) o

/-- **C252, saturation**: with the hidden activations tanh and logistic and at least one hidden layer, no output of a regression network exceeds the sum of the absolute weights and intercept of its unit, whatever the row. -/
theorem C252_bounded {a : Act} (ha : a = .tanh ∨ a = .logistic) (h : ℕ) (hs : List ℕ) {p q : ℕ} (θ : Params p (h :: hs) q) (x : Fin p → ℝ) (o : Fin q) : |forward a .identity (h :: hs) θ x o| ≤ outer (h :: hs) θ o := by
  obtain ⟨L, θ'⟩ := θ
  exact logits_bounded ha hs θ' (fun o => a.f (affine L x o)) (fun _ => act_bounded ha _) o

/-- A network with two inputs, one hidden unit with weights 2 and -1, and one output with weight 3 and intercept 1: gain 9, outputs between -4 and 4. -/
example : gain .relu [1] ((((fun j _ => ![2, -1] j), fun _ => 0), ((fun _ _ => 3), fun _ => 1)) : Params 2 [1] 1) = 9 ∧ outer [1] ((((fun j _ => ![2, -1] j), fun _ => 0), ((fun _ _ => 3), fun _ => 1)) : Params 2 [1] 1) 0 = 4 := by
  constructor
  · simp [gain, strength, slope, Fin.sum_univ_two]
    norm_num
  · simp [outer]
    norm_num

end Sk.MlpMoves
