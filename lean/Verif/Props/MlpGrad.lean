import Verif.Model.Mlp
import Mathlib.Analysis.Calculus.Deriv.Add
import Mathlib.Analysis.Calculus.Deriv.Mul
import Mathlib.Analysis.Calculus.Deriv.Inv
import Mathlib.Algebra.BigOperators.Field
import Mathlib.Tactic.FieldSimp
import Mathlib.Tactic.Linarith
import Mathlib.Tactic.Positivity
import Mathlib.Tactic.LinearCombination

/-! # C52, C93: activations and backpropagation of the multilayer perceptron -/
set_option autoImplicit false

namespace Sk.Mlp

theorem hasDeriv_of {f g : ℝ → ℝ} {a b x : ℝ} (h : HasDerivAt g b x) (hf : ∀ t, f t = g t) (ha : a = b) : HasDerivAt f a x := by
  rw [show f = g from funext hf, ha]
  exact h

/-! ### C52 -/

theorem logistic_deriv (z : ℝ) : HasDerivAt (fun z : ℝ => 1 / (1 + Real.exp (-z))) (1 / (1 + Real.exp (-z)) * (1 - 1 / (1 + Real.exp (-z)))) z := by
  have h1 : HasDerivAt (fun z : ℝ => 1 + Real.exp (-z)) (-Real.exp (-z)) z := by
    have := ((hasDerivAt_neg z).exp).const_add 1
    simpa using this
  have hne : 1 + Real.exp (-z) ≠ 0 := by positivity
  refine hasDeriv_of (h1.inv hne) (fun t => by simp) ?_
  field_simp
  ring

/-- C52: for `identity`, `logistic` and (away from the kink) `relu`, backpropagation multiplies the deltas by the derivative of the forward function.
Missing for the full claim: what `C52_tanh_value_violated`, `C52_tanh_derivative_violated` refute. -/
theorem C52_derivatives_partial (a : Act) (ha : a ≠ .tanh) (z : ℝ) (hz : a = .relu → z ≠ 0) : ∃ f', HasDerivAt a.f f' z ∧ ∀ d, a.back (a.f z) d = d * f' := by
  cases a with
  | identity => exact ⟨1, hasDerivAt_id z, fun d => (mul_one d).symm⟩
  | logistic => exact ⟨_, logistic_deriv z, fun d => rfl⟩
  | tanh => exact absurd rfl ha
  | relu =>
    rcases lt_or_gt_of_ne (hz rfl) with h | h
    · refine ⟨0, ?_, ?_⟩
      · have : HasDerivAt (fun _ : ℝ => (0 : ℝ)) 0 z := hasDerivAt_const z 0
        refine this.congr_of_eventuallyEq ?_
        filter_upwards [Iio_mem_nhds h] with w hw
        exact if_pos hw
      · intro d
        simp [Act.back, Act.f, h]
    · refine ⟨1, ?_, ?_⟩
      · refine (hasDerivAt_id z).congr_of_eventuallyEq ?_
        filter_upwards [Ioi_mem_nhds h] with w hw
        exact if_neg (not_lt.2 (le_of_lt hw))
      · intro d
        simp [Act.back, Act.f, not_lt.2 h.le, h.ne']

theorem tanh_deriv (z : ℝ) : HasDerivAt (fun z => Real.tanh (-z)) (-(1 - Real.tanh (-z) * Real.tanh (-z))) z := by
  have h1 : HasDerivAt Real.tanh (1 - Real.tanh (-z) ^ 2) (-z) := by
    have hc : Real.cosh (-z) ≠ 0 := (Real.cosh_pos _).ne'
    have := (Real.hasDerivAt_sinh (-z)).div (Real.hasDerivAt_cosh (-z)) hc
    refine hasDeriv_of this (fun t => Real.tanh_eq_sinh_div_cosh t) ?_
    rw [Real.tanh_eq_sinh_div_cosh]
    field_simp
  have := h1.comp z (hasDerivAt_neg z)
  refine hasDeriv_of this (fun t => rfl) ?_
  ring

/-- C52, violated: the activation named `tanh` is the opposite of the hyperbolic tangent, which it equals at 0 only. -/
theorem C52_tanh_value_violated (z : ℝ) (hz : z ≠ 0) : Act.f .tanh z = -Real.tanh z ∧ Act.f .tanh z ≠ Real.tanh z := by
  have h1 : Act.f .tanh z = -Real.tanh z := Real.tanh_neg z
  refine ⟨h1, ?_⟩
  rw [h1]
  intro h
  have h0 : Real.tanh z = 0 := by linarith
  rw [Real.tanh_eq_sinh_div_cosh, div_eq_zero_iff] at h0
  rcases h0 with h0 | h0
  · exact hz (Real.sinh_eq_zero.1 h0)
  · exact (Real.cosh_pos z).ne' h0

theorem tanh_sq_lt (z : ℝ) : 0 < 1 - Real.tanh z * Real.tanh z := by
  rw [Real.tanh_eq_sinh_div_cosh]
  have hc := Real.cosh_pos z
  have h2 := Real.cosh_sq z
  have : 1 - Real.sinh z / Real.cosh z * (Real.sinh z / Real.cosh z) = 1 / (Real.cosh z ^ 2) := by
    field_simp
    linarith
  rw [this]
  positivity

/-- C52, violated: for `tanh`, backpropagation multiplies the deltas by the opposite of the derivative of the forward function, never by that derivative. -/
theorem C52_tanh_derivative_violated (z : ℝ) : ∃ f', HasDerivAt (Act.f .tanh) f' z ∧ f' ≠ 0 ∧ ∀ d, Act.back .tanh (Act.f .tanh z) d = d * -f' := by
  refine ⟨_, tanh_deriv z, ?_, ?_⟩
  · have := tanh_sq_lt (-z)
    linarith
  · intro d
    simp only [Act.back, Act.f]
    ring

example : ∃ f', HasDerivAt (Act.f .relu) f' 3 ∧ ∀ d, Act.back .relu (Act.f .relu 3) d = d * f' := C52_derivatives_partial .relu (by decide) 3 (fun _ => by norm_num)

/-! ### C93: backpropagation, for any number of layers -/

/-- The parameters `θ + t·V`. -/
def line : {p : ℕ} → (hs : List ℕ) → {q : ℕ} → Params p hs q → Params p hs q → ℝ → Params p hs q
  | _, [], _, L, V, t => (fun j o => L.1 j o + t * V.1 j o, fun o => L.2 o + t * V.2 o)
  | _, _ :: hs, _, (L, θ), (V, W), t => ((fun j o => L.1 j o + t * V.1 j o, fun o => L.2 o + t * V.2 o), line hs θ W t)

/-- Sum over all coefficients and intercepts of the products of corresponding entries. -/
def dot : {p : ℕ} → (hs : List ℕ) → {q : ℕ} → Params p hs q → Params p hs q → ℝ
  | _, [], _, L, V => (∑ j, ∑ o, L.1 j o * V.1 j o) + ∑ o, L.2 o * V.2 o
  | _, _ :: hs, _, (L, θ), (V, W) => ((∑ j, ∑ o, L.1 j o * V.1 j o) + ∑ o, L.2 o * V.2 o) + dot hs θ W

/-- `g` is the gradient of `J` at `θ`: it gives the derivative in every direction. -/
def IsGradient {p q : ℕ} (hs : List ℕ) (J : Params p hs q → ℝ) (θ g : Params p hs q) : Prop := ∀ V, HasDerivAt (fun t => J (line hs θ V t)) (dot hs g V) 0

/-- No hidden unit sits exactly at the kink of `relu`. -/
def NoKink (a : Act) : {p : ℕ} → (hs : List ℕ) → {q : ℕ} → Params p hs q → (Fin p → ℝ) → Prop
  | _, [], _, _, _ => True
  | _, _ :: hs, _, (L, θ), x => (∀ o, affine L x o ≠ 0) ∧ NoKink a hs θ (fun o => a.f (affine L x o))

/-- Same sum over coefficients only. -/
def coefDot : {p : ℕ} → (hs : List ℕ) → {q : ℕ} → Params p hs q → Params p hs q → ℝ
  | _, [], _, L, V => ∑ j, ∑ o, L.1 j o * V.1 j o
  | _, _ :: hs, _, (L, θ), (V, W) => (∑ j, ∑ o, L.1 j o * V.1 j o) + coefDot hs θ W

theorem line_zero {p : ℕ} (hs : List ℕ) {q : ℕ} (θ V : Params p hs q) : line hs θ V 0 = θ := by
  induction hs generalizing p with
  | nil =>
    simp only [line, zero_mul, add_zero]
    rfl
  | cons h hs ih =>
    obtain ⟨L, θ⟩ := θ
    obtain ⟨V, W⟩ := V
    simp only [line, ih, zero_mul, add_zero]
    rfl

theorem sumSqLayer_deriv {p q : ℕ} (A V : Fin p → Fin q → ℝ) : HasDerivAt (fun t : ℝ => ∑ j, ∑ o, (A j o + t * V j o) * (A j o + t * V j o)) (2 * ∑ j, ∑ o, A j o * V j o) 0 := by
  rw [Finset.mul_sum]
  refine HasDerivAt.fun_sum (fun j _ => ?_)
  rw [Finset.mul_sum]
  refine HasDerivAt.fun_sum (fun o _ => ?_)
  have h1 : HasDerivAt (fun t : ℝ => A j o + t * V j o) (V j o) 0 := by
    have := ((hasDerivAt_id (0 : ℝ)).mul_const (V j o)).const_add (A j o)
    simpa using this
  exact hasDeriv_of (h1.mul h1) (fun t => rfl) (by simp; ring)

theorem sumSq_deriv {p : ℕ} (hs : List ℕ) {q : ℕ} (θ V : Params p hs q) : HasDerivAt (fun t => sumSq hs (line hs θ V t)) (2 * coefDot hs θ V) 0 := by
  induction hs generalizing p with
  | nil => exact sumSqLayer_deriv θ.1 V.1
  | cons h hs ih =>
    obtain ⟨L, θ⟩ := θ
    obtain ⟨V, W⟩ := V
    have := (sumSqLayer_deriv L.1 V.1).add (ih θ W)
    refine hasDeriv_of this (fun t => rfl) ?_
    simp only [coefDot]
    ring

/-- Derivative of one layer when parameters and inputs move. -/
theorem affine_deriv {p q : ℕ} (L V : Layer p q) (x : ℝ → Fin p → ℝ) (x' : Fin p → ℝ) (hx : ∀ j, HasDerivAt (fun t => x t j) (x' j) 0) (o : Fin q) :
    HasDerivAt (fun t => affine (fun j o => L.1 j o + t * V.1 j o, fun o => L.2 o + t * V.2 o) (x t) o)
      ((∑ j, (x' j * L.1 j o + x 0 j * V.1 j o)) + V.2 o) 0 := by
  unfold affine
  refine HasDerivAt.add ?_ ?_
  · refine HasDerivAt.fun_sum (fun j _ => ?_)
    have h1 : HasDerivAt (fun t : ℝ => L.1 j o + t * V.1 j o) (V.1 j o) 0 := by
      have := ((hasDerivAt_id (0 : ℝ)).mul_const (V.1 j o)).const_add (L.1 j o)
      simpa using this
    exact hasDeriv_of ((hx j).mul h1) (fun t => rfl) (by simp)
  · have := ((hasDerivAt_id (0 : ℝ)).mul_const (V.2 o)).const_add (L.2 o)
    simpa using this

/-- Algebra of one layer: the pairing of the deltas with the derivative of the layer. -/
theorem layer_pair {n p q : ℕ} (hn : n ≠ 0) (alpha : ℝ) (L V : Layer p q) (X X' : Fin n → Fin p → ℝ) (D : Fin n → Fin q → ℝ) :
    ∑ i, ∑ o, D i o * ((∑ j, (X' i j * L.1 j o + X i j * V.1 j o)) + V.2 o) =
      n * ((∑ j, ∑ o, (layerGrad alpha L X D).1 j o * V.1 j o) + ∑ o, (layerGrad alpha L X D).2 o * V.2 o) - alpha * (∑ j, ∑ o, L.1 j o * V.1 j o) +
        ∑ i, ∑ j, (∑ o, D i o * L.1 j o) * X' i j := by
  have hn' : (n : ℝ) ≠ 0 := Nat.cast_ne_zero.2 hn
  have e1 : (n : ℝ) * (∑ j, ∑ o, (layerGrad alpha L X D).1 j o * V.1 j o) = (∑ i, ∑ o, ∑ j, D i o * (X i j * V.1 j o)) + alpha * (∑ j, ∑ o, L.1 j o * V.1 j o) := by
    have : ∀ j o, (n : ℝ) * ((layerGrad alpha L X D).1 j o * V.1 j o) = (∑ i, D i o * (X i j * V.1 j o)) + alpha * (L.1 j o * V.1 j o) := by
      intro j o
      have : ∑ i, D i o * (X i j * V.1 j o) = (∑ i, X i j * D i o) * V.1 j o := by
        rw [Finset.sum_mul]
        exact Finset.sum_congr rfl (fun i _ => by ring)
      rw [this]
      simp only [layerGrad]
      field_simp
    rw [Finset.mul_sum]
    simp only [Finset.mul_sum, this, Finset.sum_add_distrib]
    congr 1
    rw [Finset.sum_comm]
    have : ∀ o : Fin q, ∑ j, ∑ i, D i o * (X i j * V.1 j o) = ∑ i, ∑ j, D i o * (X i j * V.1 j o) := fun o => Finset.sum_comm
    rw [Finset.sum_congr rfl (fun o _ => this o), Finset.sum_comm]
  have e2 : (n : ℝ) * (∑ o, (layerGrad alpha L X D).2 o * V.2 o) = ∑ i, ∑ o, D i o * V.2 o := by
    rw [Finset.sum_comm, Finset.mul_sum]
    refine Finset.sum_congr rfl (fun o _ => ?_)
    rw [← Finset.sum_mul]
    simp only [layerGrad]
    field_simp
  have e3 : ∑ i, ∑ j, (∑ o, D i o * L.1 j o) * X' i j = ∑ i, ∑ o, ∑ j, D i o * (X' i j * L.1 j o) := by
    refine Finset.sum_congr rfl (fun i _ => ?_)
    rw [Finset.sum_comm]
    refine Finset.sum_congr rfl (fun j _ => ?_)
    rw [Finset.sum_mul]
    exact Finset.sum_congr rfl (fun o _ => by ring)
  have e4 : ∑ i, ∑ o, D i o * ((∑ j, (X' i j * L.1 j o + X i j * V.1 j o)) + V.2 o) =
      (∑ i, ∑ o, ∑ j, D i o * (X' i j * L.1 j o)) + (∑ i, ∑ o, ∑ j, D i o * (X i j * V.1 j o)) + ∑ i, ∑ o, D i o * V.2 o := by
    rw [← Finset.sum_add_distrib, ← Finset.sum_add_distrib]
    refine Finset.sum_congr rfl (fun i _ => ?_)
    rw [← Finset.sum_add_distrib, ← Finset.sum_add_distrib]
    refine Finset.sum_congr rfl (fun o _ => ?_)
    rw [mul_add, Finset.mul_sum, ← Finset.sum_add_distrib]
    congr 1
    exact Finset.sum_congr rfl (fun j _ => by ring)
  rw [e4, mul_add, e1, e2, e3]
  ring

/-- Reverse-mode differentiation of the logits. -/
theorem backward_spec (a : Act) (ha : a ≠ .tanh) (alpha : ℝ) {n : ℕ} (hn : n ≠ 0) (hs : List ℕ) : ∀ {p q : ℕ} (θ V : Params p hs q) (X : ℝ → Fin n → Fin p → ℝ) (X' : Fin n → Fin p → ℝ)
    (_ : ∀ i j, HasDerivAt (fun t => X t i j) (X' i j) 0) (_ : a = .relu → ∀ i, NoKink a hs θ (X 0 i)) (D : Fin n → Fin q → ℝ),
    ∃ Z' : Fin n → Fin q → ℝ, (∀ i o, HasDerivAt (fun t => logits a hs (line hs θ V t) (X t i) o) (Z' i o) 0) ∧
      ∑ i, ∑ o, D i o * Z' i o = n * dot hs (backward a alpha hs θ (X 0) D).1 V - alpha * coefDot hs θ V + ∑ i, ∑ j, (backward a alpha hs θ (X 0) D).2 i j * X' i j := by
  induction hs with
  | nil =>
    intro p q θ V X X' hX _ D
    refine ⟨fun i o => (∑ j, (X' i j * θ.1 j o + X 0 i j * V.1 j o)) + V.2 o, fun i o => affine_deriv θ V (fun t => X t i) (X' i) (hX i) o, ?_⟩
    exact layer_pair hn alpha θ V (X 0) X' D
  | cons h hs ih =>
    intro p q θ V X X' hX hk D
    obtain ⟨L, θ⟩ := θ
    obtain ⟨V, W⟩ := V
    set Z1 : Fin n → Fin h → ℝ := fun i o => (∑ j, (X' i j * L.1 j o + X 0 i j * V.1 j o)) + V.2 o with hZ1
    have hz1 : ∀ i o, HasDerivAt (fun t => affine (fun j o => L.1 j o + t * V.1 j o, fun o => L.2 o + t * V.2 o) (X t i) o) (Z1 i o) 0 :=
      fun i o => affine_deriv L V (fun t => X t i) (X' i) (hX i) o
    have hL0 : ((fun j o => L.1 j o + 0 * V.1 j o, fun o => L.2 o + 0 * V.2 o) : Layer p h) = L := by simp
    have hact : ∀ i o, ∃ f', HasDerivAt a.f f' (affine L (X 0 i) o) ∧ ∀ d, a.back (a.f (affine L (X 0 i) o)) d = d * f' := by
      intro i o
      refine C52_derivatives_partial a ha _ (fun hr => ?_)
      have := (hk hr i)
      simp only [NoKink] at this
      exact this.1 o
    choose F hF hB using hact
    set A : ℝ → Fin n → Fin h → ℝ := fun t i o => a.f (affine (fun j o => L.1 j o + t * V.1 j o, fun o => L.2 o + t * V.2 o) (X t i) o) with hA
    have hA0 : A 0 = fun i o => a.f (affine L (X 0 i) o) := by
      simp only [hA, hL0]
    have hA' : ∀ i o, HasDerivAt (fun t => A t i o) (F i o * Z1 i o) 0 := by
      intro i o
      have h1 : HasDerivAt a.f (F i o) (affine (fun j o => L.1 j o + 0 * V.1 j o, fun o => L.2 o + 0 * V.2 o) (X 0 i) o) := by
        rw [hL0]; exact hF i o
      exact h1.comp (0 : ℝ) (hz1 i o)
    obtain ⟨Z', hZ', hsum⟩ := ih θ W A (fun i o => F i o * Z1 i o) hA' (by
      intro hr i
      have := hk hr i
      simp only [NoKink] at this
      rw [hA0]
      exact this.2) D
    refine ⟨Z', hZ', ?_⟩
    rw [hsum]
    have hb : backward a alpha (h :: hs) (L, θ) (X 0) D =
        ((layerGrad alpha L (X 0) (fun i o => a.back (A 0 i o) ((backward a alpha hs θ (A 0) D).2 i o)), (backward a alpha hs θ (A 0) D).1),
          fun i j => ∑ o, a.back (A 0 i o) ((backward a alpha hs θ (A 0) D).2 i o) * L.1 j o) := by
      rw [hA0]; rfl
    rw [hb]
    set C := (backward a alpha hs θ (A 0) D).2 with hC
    have hback : ∀ i o, a.back (A 0 i o) (C i o) = C i o * F i o := by
      intro i o
      rw [hA0]; exact hB i o (C i o)
    have hp := layer_pair hn alpha L V (X 0) X' (fun i o => a.back (A 0 i o) (C i o))
    have hp' : ∑ i, ∑ o, C i o * (F i o * Z1 i o) = ∑ i, ∑ o, a.back (A 0 i o) (C i o) * ((∑ j, (X' i j * L.1 j o + X 0 i j * V.1 j o)) + V.2 o) := by
      refine Finset.sum_congr rfl (fun i _ => Finset.sum_congr rfl (fun o _ => ?_))
      rw [hback]
      ring
    rw [hp', hp]
    simp only [dot, coefDot]
    ring

/-- Targets and predictions for which the loss is differentiable and paired with its activation: for `softmax` the targets of a row sum to 1; the probabilities are not clamped. -/
def GoodTargets {n q : ℕ} (hmin hmax : ℝ) (out : Out) (y h : Fin n → Fin q → ℝ) : Prop :=
  match out with
  | .identity => True
  | .logistic => ∀ i o, hmin < h i o ∧ h i o < hmax
  | .softmax => (∀ i o, hmin < h i o ∧ h i o < hmax) ∧ ∀ i, ∑ o, y i o = 1

theorem clamp_deriv (hmin hmax : ℝ) (f : ℝ → ℝ) (f' : ℝ) (hf : HasDerivAt f f' 0) (h1 : hmin < f 0) (h2 : f 0 < hmax) : HasDerivAt (fun t => clampP hmin hmax (f t)) f' 0 := by
  refine hf.congr_of_eventuallyEq ?_
  have hc := hf.continuousAt
  filter_upwards [hc.eventually (Ioi_mem_nhds h1), hc.eventually (Iio_mem_nhds h2)] with t ht1 ht2
  simp only [clampP, if_neg (not_lt.2 (le_of_lt ht1)), if_neg (not_lt.2 (le_of_lt ht2)), gt_iff_lt]

theorem clamp_inside (hmin hmax h : ℝ) (h1 : hmin < h) (h2 : h < hmax) : clampP hmin hmax h = h := by
  simp only [clampP, if_neg (not_lt.2 h1.le), if_neg (not_lt.2 h2.le), gt_iff_lt]

theorem logistic_pos (z : ℝ) : 0 < 1 / (1 + Real.exp (-z)) := by positivity

theorem logistic_lt_one (z : ℝ) : 1 / (1 + Real.exp (-z)) < 1 := by
  rw [div_lt_one (by positivity)]
  linarith [Real.exp_pos (-z)]

/-- Derivative of the log loss behind a softmax, for any targets. -/
theorem softmax_deriv (hmin hmax : ℝ) {n q : ℕ} (y : Fin n → Fin q → ℝ) (Z : ℝ → Fin n → Fin q → ℝ) (Z' : Fin n → Fin q → ℝ)
    (hZ : ∀ i o, HasDerivAt (fun t => Z t i o) (Z' i o) 0) (hcl : ∀ i o, hmin < Out.f .softmax (Z 0 i) o ∧ Out.f .softmax (Z 0 i) o < hmax) :
    HasDerivAt (fun t => logLoss hmin hmax y (fun i => Out.f .softmax (Z t i))) ((∑ i, ∑ o, ((∑ k, y i k) * Out.f .softmax (Z 0 i) o - y i o) * Z' i o) / n) 0 := by
  have h1 : HasDerivAt (fun t => ∑ i, ∑ o, if y i o ≠ 0 then -y i o * Real.log (clampP hmin hmax (Out.f .softmax (Z t i) o)) else 0)
      (∑ i, ∑ o, ((∑ k, y i k) * Out.f .softmax (Z 0 i) o - y i o) * Z' i o) 0 := by
    refine HasDerivAt.fun_sum (fun i _ => ?_)
    have hden : HasDerivAt (fun t => ∑ k, Real.exp (Z t i k)) (∑ k, Real.exp (Z 0 i k) * Z' i k) 0 := HasDerivAt.fun_sum (fun k _ => (hZ i k).exp)
    rcases Nat.eq_zero_or_pos q with hq0 | hq0
    · subst hq0
      simp only [Finset.univ_eq_empty, Finset.sum_empty]
      exact hasDerivAt_const _ _
    have hdpos : 0 < ∑ k, Real.exp (Z 0 i k) := Finset.sum_pos (fun k _ => Real.exp_pos _) ⟨⟨0, hq0⟩, Finset.mem_univ _⟩
    set S := ∑ k, Real.exp (Z 0 i k) with hS
    have hterm : ∀ o, HasDerivAt (fun t => if y i o ≠ 0 then -y i o * Real.log (clampP hmin hmax (Out.f .softmax (Z t i) o)) else 0)
        (-y i o * (Z' i o - (∑ k, Real.exp (Z 0 i k) * Z' i k) / S)) 0 := by
      intro o
      by_cases hyo : y i o = 0
      · simp only [hyo, ne_eq, not_true_eq_false, if_false, neg_zero, zero_mul]
        exact hasDerivAt_const _ _
      · simp only [ne_eq, hyo, not_false_eq_true, if_true]
        have hf := ((hZ i o).exp).div hden (by rw [← hS]; exact hdpos.ne')
        have hc := clamp_deriv hmin hmax (fun t => Out.f .softmax (Z t i) o) _ hf (hcl i o).1 (hcl i o).2
        have hv := clamp_inside hmin hmax _ (hcl i o).1 (hcl i o).2
        have hpos : 0 < Out.f .softmax (Z 0 i) o := by
          simp only [Out.f]
          exact div_pos (Real.exp_pos _) hdpos
        have hl := (hc.log (by rw [hv]; exact hpos.ne')).const_mul (-y i o)
        refine hasDeriv_of hl (fun t => rfl) ?_
        rw [hv]
        simp only [Out.f]
        rw [← hS]
        have := (Real.exp_pos (Z 0 i o)).ne'
        have := hdpos.ne'
        field_simp
    refine hasDeriv_of (HasDerivAt.fun_sum (fun o _ => hterm o)) (fun t => rfl) ?_
    have e1 : ∑ o, -y i o * (Z' i o - (∑ k, Real.exp (Z 0 i k) * Z' i k) / S) = (∑ o, y i o) * ((∑ k, Real.exp (Z 0 i k) * Z' i k) / S) - ∑ o, y i o * Z' i o := by
      rw [Finset.sum_mul, ← Finset.sum_sub_distrib]
      exact Finset.sum_congr rfl (fun o _ => by ring)
    rw [e1, Finset.sum_div, Finset.mul_sum, ← Finset.sum_sub_distrib]
    refine Finset.sum_congr rfl (fun o _ => ?_)
    simp only [Out.f]
    rw [← hS]
    ring
  exact hasDeriv_of (h1.div_const (n : ℝ)) (fun t => rfl) rfl

/-- Derivative of the loss when the logits move: the deltas are `H - y`. -/
theorem loss_deriv (hmin hmax : ℝ) (out : Out) {n q : ℕ} (y : Fin n → Fin q → ℝ) (Z : ℝ → Fin n → Fin q → ℝ) (Z' : Fin n → Fin q → ℝ)
    (hZ : ∀ i o, HasDerivAt (fun t => Z t i o) (Z' i o) 0) (hg : GoodTargets hmin hmax out y (fun i => out.f (Z 0 i))) :
    HasDerivAt (fun t => lossOf hmin hmax out y (fun i => out.f (Z t i))) ((∑ i, ∑ o, (out.f (Z 0 i) o - y i o) * Z' i o) / n) 0 := by
  cases out with
  | identity =>
    have h1 : HasDerivAt (fun t => ∑ i, ∑ o, (Z t i o - y i o) * (Z t i o - y i o)) (∑ i, ∑ o, 2 * ((Z 0 i o - y i o) * Z' i o)) 0 := by
      refine HasDerivAt.fun_sum (fun i _ => HasDerivAt.fun_sum (fun o _ => ?_))
      exact hasDeriv_of (((hZ i o).sub_const (y i o)).mul ((hZ i o).sub_const (y i o))) (fun t => rfl) (by ring)
    refine hasDeriv_of ((h1.div_const 2).div_const (n : ℝ)) (fun t => rfl) ?_
    simp only [← Finset.mul_sum, Out.f]
    rw [mul_div_cancel_left₀ _ two_ne_zero]
  | logistic =>
    simp only [GoodTargets, Out.f] at hg
    have h1 : HasDerivAt (fun t => ∑ i, ∑ o, (-y i o * Real.log (clampP hmin hmax (1 / (1 + Real.exp (-Z t i o)))) -
        (1 - y i o) * Real.log (1 + -clampP hmin hmax (1 / (1 + Real.exp (-Z t i o)))))) (∑ i, ∑ o, (1 / (1 + Real.exp (-Z 0 i o)) - y i o) * Z' i o) 0 := by
      refine HasDerivAt.fun_sum (fun i _ => HasDerivAt.fun_sum (fun o _ => ?_))
      have hcomp := HasDerivAt.comp (h₂ := fun z : ℝ => 1 / (1 + Real.exp (-z))) (h := fun t => Z t i o) (0 : ℝ) (logistic_deriv (Z 0 i o)) (hZ i o)
      have hc := clamp_deriv hmin hmax (fun t => 1 / (1 + Real.exp (-Z t i o))) _ hcomp (hg i o).1 (hg i o).2
      have hv := clamp_inside hmin hmax _ (hg i o).1 (hg i o).2
      have hp := logistic_pos (Z 0 i o)
      have hq := logistic_lt_one (Z 0 i o)
      set s := 1 / (1 + Real.exp (-Z 0 i o)) with hs
      have hl1 := hc.log (by rw [hv]; exact hp.ne')
      have hl2 := (hc.neg.const_add 1).log (by
        simp only [Pi.neg_apply]
        rw [hv]; linarith)
      have := (hl1.const_mul (-y i o)).sub (hl2.const_mul (1 - y i o))
      refine hasDeriv_of this (fun t => rfl) ?_
      simp only [Pi.neg_apply, ← hs, hv]
      have hs0 : s ≠ 0 := hp.ne'
      have hs1 : 1 + -s ≠ 0 := by linarith
      field_simp
      ring
    exact hasDeriv_of (h1.div_const (n : ℝ)) (fun t => rfl) rfl
  | softmax =>
    simp only [GoodTargets] at hg
    refine hasDeriv_of (softmax_deriv hmin hmax y Z Z' hZ hg.1) (fun t => rfl) ?_
    simp only [hg.2, one_mul]

/-- C93: for every network depth and width, every batch, `Alpha`, and the activations `identity`, `logistic` and `relu`, the gradients written by backpropagation are the gradient of the loss it
returns (regularisation included), wherever that loss is differentiable.
Missing for the full claim: what `C93_tanh_violated`, `C93_multilabel_violated` refute. -/
theorem C93_backprop_partial (hmin hmax : ℝ) (a : Act) (ha : a ≠ .tanh) (out : Out) (alpha : ℝ) {n p q : ℕ} (hn : n ≠ 0) (hs : List ℕ) (X : Fin n → Fin p → ℝ) (y : Fin n → Fin q → ℝ) (θ : Params p hs q)
    (hk : a = .relu → ∀ i, NoKink a hs θ (X i)) (hg : GoodTargets hmin hmax out y (fun i => forward a out hs θ (X i))) :
    IsGradient hs (lossVal hmin hmax a out alpha hs X y) θ (grads a out alpha hs X y θ) := by
  intro V
  obtain ⟨Z', hZ', hsum⟩ := backward_spec a ha alpha hn hs θ V (fun _ => X) (fun _ _ => 0) (fun i j => hasDerivAt_const _ _) hk (fun i o => forward a out hs θ (X i) o - y i o)
  have h1 := loss_deriv hmin hmax out y (fun t i => logits a hs (line hs θ V t) (X i)) Z' hZ' (by rw [line_zero]; exact hg)
  have h2 := ((sumSq_deriv hs θ V).const_mul (0.5 * alpha)).div_const (n : ℝ)
  refine hasDeriv_of (h1.add h2) (fun t => rfl) ?_
  have hn' : (n : ℝ) ≠ 0 := Nat.cast_ne_zero.2 hn
  simp only [line_zero]
  change _ = (∑ i, ∑ o, (forward a out hs θ (X i) o - y i o) * Z' i o) / n + _
  rw [hsum]
  simp only [mul_zero, Finset.sum_const_zero, add_zero, grads]
  field_simp
  ring

/-- Hypotheses met: a regression network 1-1-1 with `relu`, on the sample `x = 1`, `y = 0`, all parameters 1. -/
example : NoKink .relu [1] ((((fun _ _ => 1), fun _ => 1), ((fun _ _ => 1), fun _ => 1)) : Params 1 [1] 1) (fun _ => 1) ∧
    GoodTargets 0 1 .identity (fun (_ : Fin 1) (_ : Fin 1) => 0) (fun _ => forward .relu .identity [1] ((((fun _ _ => 1), fun _ => 1), ((fun _ _ => 1), fun _ => 1)) : Params 1 [1] 1) (fun _ => 1)) := by
  refine ⟨⟨?_, trivial⟩, trivial⟩
  intro o
  simp [affine]

/-- Hypotheses met: a softmax output on two classes. -/
example : GoodTargets 0 1 .softmax (fun (_ : Fin 1) => ![(1 : ℝ), 0]) (fun _ => forward .logistic .softmax [] (((fun _ _ => 1), fun _ => 0) : Params 1 [] 2) (fun _ => 1)) := by
  refine ⟨?_, ?_⟩
  · intro i o
    simp only [forward, logits, affine, Out.f, Fin.sum_univ_two, Finset.univ_unique, Finset.sum_singleton]
    have := Real.exp_pos 1
    constructor
    · positivity
    · rw [div_lt_one (by positivity)]
      norm_num
      exact this
  · intro i; simp

/-! ### Violations -/

/-- `grads` with each layer multiplied by `(-1)` to the number of hidden activations between it and the output. -/
def signs : {p : ℕ} → (hs : List ℕ) → {q : ℕ} → Params p hs q → Params p hs q
  | _, [], _, L => L
  | _, _ :: hs, _, (L, θ) => ((fun j o => (-1) ^ (hs.length + 1) * L.1 j o, fun o => (-1) ^ (hs.length + 1) * L.2 o), signs hs θ)

theorem layer_scale {p q : ℕ} (c : ℝ) (G V : Layer p q) : (∑ j, ∑ o, c * G.1 j o * V.1 j o) + ∑ o, c * G.2 o * V.2 o = c * ((∑ j, ∑ o, G.1 j o * V.1 j o) + ∑ o, G.2 o * V.2 o) := by
  simp only [mul_assoc, ← Finset.mul_sum, ← mul_add]

/-- Reverse-mode differentiation of the logits for the activation named `tanh`. -/
theorem backward_tanh {n : ℕ} (hn : n ≠ 0) (hs : List ℕ) : ∀ {p q : ℕ} (θ V : Params p hs q) (X : ℝ → Fin n → Fin p → ℝ) (X' : Fin n → Fin p → ℝ)
    (_ : ∀ i j, HasDerivAt (fun t => X t i j) (X' i j) 0) (D : Fin n → Fin q → ℝ),
    ∃ Z' : Fin n → Fin q → ℝ, (∀ i o, HasDerivAt (fun t => logits .tanh hs (line hs θ V t) (X t i) o) (Z' i o) 0) ∧
      ∑ i, ∑ o, D i o * Z' i o = n * dot hs (signs hs (backward .tanh 0 hs θ (X 0) D).1) V + (-1) ^ hs.length * ∑ i, ∑ j, (backward .tanh 0 hs θ (X 0) D).2 i j * X' i j := by
  induction hs with
  | nil =>
    intro p q θ V X X' hX D
    refine ⟨fun i o => (∑ j, (X' i j * θ.1 j o + X 0 i j * V.1 j o)) + V.2 o, fun i o => affine_deriv θ V (fun t => X t i) (X' i) (hX i) o, ?_⟩
    rw [layer_pair hn 0 θ V (X 0) X' D, zero_mul, sub_zero, List.length_nil, pow_zero, one_mul]
    rfl
  | cons h hs ih =>
    intro p q θ V X X' hX D
    obtain ⟨L, θ⟩ := θ
    obtain ⟨V, W⟩ := V
    set Z1 : Fin n → Fin h → ℝ := fun i o => (∑ j, (X' i j * L.1 j o + X 0 i j * V.1 j o)) + V.2 o with hZ1
    have hz1 : ∀ i o, HasDerivAt (fun t => affine (fun j o => L.1 j o + t * V.1 j o, fun o => L.2 o + t * V.2 o) (X t i) o) (Z1 i o) 0 :=
      fun i o => affine_deriv L V (fun t => X t i) (X' i) (hX i) o
    have hL0 : ((fun j o => L.1 j o + 0 * V.1 j o, fun o => L.2 o + 0 * V.2 o) : Layer p h) = L := by simp
    have hact : ∀ i o, ∃ f', HasDerivAt (Act.f .tanh) f' (affine L (X 0 i) o) ∧ ∀ d, Act.back .tanh (Act.f .tanh (affine L (X 0 i) o)) d = d * -f' := by
      intro i o
      obtain ⟨f', h1, _, h2⟩ := C52_tanh_derivative_violated (affine L (X 0 i) o)
      exact ⟨f', h1, h2⟩
    choose F hF hB using hact
    set A : ℝ → Fin n → Fin h → ℝ := fun t i o => Act.f .tanh (affine (fun j o => L.1 j o + t * V.1 j o, fun o => L.2 o + t * V.2 o) (X t i) o) with hA
    have hA0 : A 0 = fun i o => Act.f .tanh (affine L (X 0 i) o) := by
      simp only [hA, hL0]
    have hA' : ∀ i o, HasDerivAt (fun t => A t i o) (F i o * Z1 i o) 0 := by
      intro i o
      have h1 : HasDerivAt (Act.f .tanh) (F i o) (affine (fun j o => L.1 j o + 0 * V.1 j o, fun o => L.2 o + 0 * V.2 o) (X 0 i) o) := by
        rw [hL0]; exact hF i o
      exact h1.comp (0 : ℝ) (hz1 i o)
    obtain ⟨Z', hZ', hsum⟩ := ih θ W A (fun i o => F i o * Z1 i o) hA' D
    refine ⟨Z', hZ', ?_⟩
    rw [hsum]
    have hb : backward .tanh 0 (h :: hs) (L, θ) (X 0) D =
        ((layerGrad 0 L (X 0) (fun i o => Act.back .tanh (A 0 i o) ((backward .tanh 0 hs θ (A 0) D).2 i o)), (backward .tanh 0 hs θ (A 0) D).1),
          fun i j => ∑ o, Act.back .tanh (A 0 i o) ((backward .tanh 0 hs θ (A 0) D).2 i o) * L.1 j o) := by
      rw [hA0]; rfl
    rw [hb]
    set C := (backward .tanh 0 hs θ (A 0) D).2 with hC
    have hback : ∀ i o, Act.back .tanh (A 0 i o) (C i o) = C i o * -F i o := by
      intro i o
      rw [hA0]; exact hB i o (C i o)
    have hp := layer_pair hn 0 L V (X 0) X' (fun i o => Act.back .tanh (A 0 i o) (C i o))
    have hp' : ∑ i, ∑ o, C i o * (F i o * Z1 i o) = -∑ i, ∑ o, Act.back .tanh (A 0 i o) (C i o) * ((∑ j, (X' i j * L.1 j o + X 0 i j * V.1 j o)) + V.2 o) := by
      rw [← Finset.sum_neg_distrib]
      refine Finset.sum_congr rfl (fun i _ => ?_)
      rw [← Finset.sum_neg_distrib]
      refine Finset.sum_congr rfl (fun o _ => ?_)
      rw [hback]
      ring
    rw [hp', hp]
    simp only [dot, signs, layer_scale, List.length_cons, pow_succ]
    ring

/-- C93, violated for `tanh`: without regularisation the true gradient is the written one with the layers' signs alternating. -/
theorem C93_tanh_true (hmin hmax : ℝ) (out : Out) {n p q : ℕ} (hn : n ≠ 0) (hs : List ℕ) (X : Fin n → Fin p → ℝ) (y : Fin n → Fin q → ℝ) (θ : Params p hs q)
    (hg : GoodTargets hmin hmax out y (fun i => forward .tanh out hs θ (X i))) :
    IsGradient hs (lossVal hmin hmax .tanh out 0 hs X y) θ (signs hs (grads .tanh out 0 hs X y θ)) := by
  intro V
  obtain ⟨Z', hZ', hsum⟩ := backward_tanh hn hs θ V (fun _ => X) (fun _ _ => 0) (fun i j => hasDerivAt_const _ _) (fun i o => forward .tanh out hs θ (X i) o - y i o)
  have h1 := loss_deriv hmin hmax out y (fun t i => logits .tanh hs (line hs θ V t) (X i)) Z' hZ' (by rw [line_zero]; exact hg)
  have hn' : (n : ℝ) ≠ 0 := Nat.cast_ne_zero.2 hn
  refine hasDeriv_of h1 (fun t => by simp only [lossVal, mul_zero, zero_mul, zero_div, add_zero]; rfl) ?_
  simp only [line_zero]
  change _ = (∑ i, ∑ o, (forward .tanh out hs θ (X i) o - y i o) * Z' i o) / n
  rw [hsum]
  simp only [mul_zero, Finset.sum_const_zero, add_zero, grads]
  field_simp

/-- C93, violated: for a `tanh` network with one hidden layer the gradient written for the first layer has the wrong sign; the written gradient is not the gradient of the loss unless its first
layer vanishes. -/
theorem C93_tanh_violated (hmin hmax : ℝ) (out : Out) {n p q h : ℕ} (hn : n ≠ 0) (X : Fin n → Fin p → ℝ) (y : Fin n → Fin q → ℝ) (θ : Params p [h] q)
    (hg : GoodTargets hmin hmax out y (fun i => forward .tanh out [h] θ (X i))) (j : Fin p) (o : Fin h) (hne : (grads .tanh out 0 [h] X y θ).1.1 j o ≠ 0) :
    ¬ IsGradient [h] (lossVal hmin hmax .tanh out 0 [h] X y) θ (grads .tanh out 0 [h] X y θ) := by
  intro hG
  have hT := C93_tanh_true hmin hmax out hn [h] X y θ hg
  rcases hgr : grads .tanh out 0 [h] X y θ with ⟨⟨G, Gb⟩, g⟩
  rw [hgr] at hG hT hne
  have hu := HasDerivAt.unique (hG ((G, fun _ => 0), ((fun _ _ => 0), fun _ => 0))) (hT ((G, fun _ => 0), ((fun _ _ => 0), fun _ => 0)))
  simp only [dot, signs, List.length_nil, zero_add, pow_one, mul_zero, Finset.sum_const_zero, add_zero, neg_mul, one_mul, Finset.sum_neg_distrib] at hu
  have h0 : ∑ j, ∑ o, G j o * G j o = 0 := by linarith
  have hpos : 0 < ∑ j, ∑ o, G j o * G j o := by
    refine Finset.sum_pos' (fun j _ => Finset.sum_nonneg (fun o _ => mul_self_nonneg _)) ⟨j, Finset.mem_univ _, ?_⟩
    exact Finset.sum_pos' (fun o _ => mul_self_nonneg _) ⟨o, Finset.mem_univ _, mul_self_pos.2 hne⟩
  exact hpos.ne' h0

/-- A 1-1-1 `tanh` network on `x = 1`, `y = 1` with all parameters 0 but the last coefficient 1: the first-layer gradient is `-1`. -/
example : (grads .tanh .identity 0 [1] (fun (_ : Fin 1) (_ : Fin 1) => (1 : ℝ)) (fun (_ : Fin 1) (_ : Fin 1) => 1)
    ((((fun _ _ => 0), fun _ => 0), ((fun _ _ => 1), fun _ => 0)) : Params 1 [1] 1)).1.1 0 0 ≠ 0 := by
  simp [grads, backward, layerGrad, forward, logits, affine, Act.f, Act.back, Out.f]

/-- The direction along the intercept of output `o`. -/
def lastIntercept : {p : ℕ} → (hs : List ℕ) → {q : ℕ} → Fin q → Params p hs q
  | _, [], _, o => (fun _ _ => 0, fun o' => if o' = o then 1 else 0)
  | _, _ :: hs, _, o => ((fun _ _ => 0, fun _ => 0), lastIntercept hs o)

theorem logits_lastIntercept (a : Act) (hs : List ℕ) : ∀ {p q : ℕ} (θ : Params p hs q) (o : Fin q) (t : ℝ) (x : Fin p → ℝ) (o' : Fin q),
    logits a hs (line hs θ (lastIntercept hs o) t) x o' = logits a hs θ x o' + if o' = o then t else 0 := by
  induction hs with
  | nil =>
    intro p q θ o t x o'
    simp only [logits, line, lastIntercept, affine, mul_zero, add_zero, mul_ite, mul_one]
    ring
  | cons h hs ih =>
    intro p q θ o t x o'
    obtain ⟨L, θ⟩ := θ
    simp only [line, lastIntercept, logits, mul_zero, add_zero]
    exact ih θ o t _ o'

theorem dot_lastIntercept (a : Act) (alpha : ℝ) {n : ℕ} (hs : List ℕ) : ∀ {p q : ℕ} (θ : Params p hs q) (X : Fin n → Fin p → ℝ) (D : Fin n → Fin q → ℝ) (o : Fin q),
    dot hs (backward a alpha hs θ X D).1 (lastIntercept hs o) = (∑ i, D i o) / n := by
  induction hs with
  | nil =>
    intro p q θ X D o
    simp [dot, backward, lastIntercept, layerGrad]
  | cons h hs ih =>
    intro p q θ X D o
    obtain ⟨L, θ⟩ := θ
    have := ih θ (fun i o => a.f (affine L (X i) o)) D o
    simp only [backward, dot, lastIntercept, mul_zero, Finset.sum_const_zero, add_zero, zero_add]
    exact this

/-- C93, violated: for two outputs or more and 0/1 targets the output is a softmax even when several targets of a row are 1 (multi-label data); then, for every network, data set and
activation, the written gradient is not the gradient of the returned loss. -/
theorem C93_multilabel_violated (hmin hmax : ℝ) (a : Act) {n p q : ℕ} (hs : List ℕ) (X : Fin n → Fin p → ℝ) (y : Fin n → Fin q → ℝ) (θ : Params p hs q)
    (hcl : ∀ i o, hmin < forward a .softmax hs θ (X i) o ∧ forward a .softmax hs θ (X i) o < hmax) (h1 : ∀ i, 1 ≤ ∑ o, y i o) (i₀ : Fin n) (h2 : 1 < ∑ o, y i₀ o) :
    ¬ IsGradient hs (lossVal hmin hmax a .softmax 0 hs X y) θ (grads a .softmax 0 hs X y θ) := by
  intro hG
  have hq : 0 < q := by
    by_contra h
    have : q = 0 := by omega
    subst this
    simp at h2
    linarith
  set o : Fin q := ⟨0, hq⟩
  have hn : 0 < n := lt_of_le_of_lt (Nat.zero_le _) i₀.isLt
  have hn' : (0 : ℝ) < n := by exact_mod_cast hn
  have hd := hG (lastIntercept hs o)
  rw [grads, dot_lastIntercept] at hd
  have hZ : ∀ (i : Fin n) (o' : Fin q), HasDerivAt (fun t => logits a hs (line hs θ (lastIntercept hs o) t) (X i) o') (if o' = o then 1 else 0) 0 := by
    intro i o'
    simp only [logits_lastIntercept]
    split
    · exact (hasDerivAt_id (0 : ℝ)).const_add _
    · simpa using hasDerivAt_const (0 : ℝ) (logits a hs θ (X i) o')
  have ht := softmax_deriv hmin hmax y (fun t i => logits a hs (line hs θ (lastIntercept hs o) t) (X i)) (fun _ o' => if o' = o then 1 else 0) hZ (by
    intro i o'; rw [line_zero]; exact hcl i o')
  have hu := HasDerivAt.unique hd (hasDeriv_of ht (fun t => by simp only [lossVal, mul_zero, zero_mul, zero_div, add_zero]; rfl) rfl)
  simp only [line_zero, mul_ite, mul_one, mul_zero, Finset.sum_ite_eq', Finset.mem_univ, if_true] at hu
  rw [div_left_inj' hn'.ne'] at hu
  have hz : ∑ i, ((∑ k, y i k) - 1) * Out.f .softmax (logits a hs θ (X i)) o = 0 := by
    rw [← sub_eq_zero, ← neg_eq_zero, ← Finset.sum_sub_distrib, ← Finset.sum_neg_distrib] at hu
    rw [← hu]
    refine Finset.sum_congr rfl (fun i _ => ?_)
    simp only [forward]
    ring
  have hs0 : ∀ i, 0 < Out.f .softmax (logits a hs θ (X i)) o := by
    intro i
    simp only [Out.f]
    exact div_pos (Real.exp_pos _) (Finset.sum_pos (fun k _ => Real.exp_pos _) ⟨o, Finset.mem_univ _⟩)
  have hpos : 0 < ∑ i, ((∑ k, y i k) - 1) * Out.f .softmax (logits a hs θ (X i)) o :=
    Finset.sum_pos' (fun i _ => mul_nonneg (by linarith [h1 i]) (hs0 i).le) ⟨i₀, Finset.mem_univ _, mul_pos (by linarith) (hs0 i₀)⟩
  exact hpos.ne' hz

/-- The output activation chosen for the multi-label targets `[1, 1]` is indeed the softmax. -/
example : chooseOut (fun (_ : Fin 1) (_ : Fin 2) => (1 : ℝ)) = .softmax ∧ 1 < ∑ o : Fin 2, (fun (_ : Fin 1) (_ : Fin 2) => (1 : ℝ)) 0 o := by
  simp [chooseOut]

end Sk.Mlp
