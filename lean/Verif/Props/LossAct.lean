import Verif.Model.LossAct
import Verif.Props.LinearGrad
import Verif.Props.PrepHelpers
import Mathlib.Tactic.FieldSimp
import Mathlib.Tactic.Linarith
import Mathlib.Tactic.Positivity

/-!
# C233: the losses with any activation
-/
set_option autoImplicit false

namespace Sk.LinFit

open Sk.Lin

variable {p q : ℕ}

/-- `Fprime` of the value is the derivative at `z`. -/
def Differentiates (a : Activation) (z : ℝ) : Prop := HasDerivAt a.F (a.Fprime (a.F z)) z

private theorem list_deriv (c : (Fin q → ℝ) → Fin q → ℝ → ℝ) (c' : Row p q → ℝ) (rows : List (Row p q)) (θ : Mat p q) (j : Fin p) (o : Fin q)
    (h : ∀ r ∈ rows, HasDerivAt (c r.2 o) (c' r) (lin r θ o)) :
    IsPartial (fun θ => (rows.map (fun r => ∑ o', c r.2 o' (lin r θ o'))).sum) θ j o (rows.map (fun r => r.1 j * c' r)).sum := by
  have H := data_deriv (fun i : Fin rows.length => rows[i].1) θ j o (fun i o' z => c rows[i].2 o' z) (fun i => c' rows[i]) (fun i => h _ (List.getElem_mem i.isLt))
  refine hasDeriv_of H (fun t => ?_) ?_
  · show (rows.map _).sum = ∑ i : Fin rows.length, _
    rw [← List.sum_ofFn]
    congr 1
    refine List.ext_getElem (by simp) (fun k h1 h2 => ?_)
    simp [lin, mulT]
  · rw [← List.sum_ofFn]
    congr 1
    refine List.ext_getElem (by simp) (fun k h1 h2 => ?_)
    simp

private theorem lossGrad_plain (L : LossKind) (a : Activation) (alpha l1 : ℝ) (ha : alpha ≤ 0) (skip : Bool) (rows : List (Row p q)) (θ : Mat p q) :
    lossGrad L a alpha l1 skip rows.length rows θ = some (fun j o => (1 / rows.length) * (rows.map (fun r => term L a r θ j o)).sum) := by
  unfold lossGrad
  have hp : ∀ j o, penalty L alpha l1 skip θ j o = 0 := fun j o => by unfold penalty; exact if_neg (not_lt.2 ha)
  split
  · simp [hp]
  · rw [if_neg (lt_irrefl _), List.take_length]; simp [hp]

private theorem sum_map_sub' {α : Type} (l : List α) (f g : α → ℝ) : (l.map (fun x => f x - g x)).sum = (l.map f).sum - (l.map g).sum := by
  induction l with
  | nil => simp
  | cons x l ih => simp only [List.map_cons, List.sum_cons, ih]; ring

/-- **C233** (partial: `CrossEntropyLoss` and `LogLoss` fail, `C233_cross_entropy_violated`, `C233_log_violated`).  `SquareLoss` without penalty gives the gradient of the value it returns with every
activation whose `Fprime` is the derivative as a function of the value. -/
theorem C233_square_partial (a : Activation) (hid : a.isIdentity = true → a.F = id) (alpha l1 : ℝ) (ha : alpha ≤ 0) (skip : Bool) (rows : List (Row p q)) (θ : Mat p q) (o : Fin q)
    (hd : ∀ r ∈ rows, Differentiates a (lin r θ o)) :
    ∃ g, lossGrad .square a alpha l1 skip rows.length rows θ = some g ∧ ∀ j, IsPartial (squareJ a rows) θ j o (g j o) := by
  refine ⟨_, lossGrad_plain .square a alpha l1 ha skip rows θ, fun j => ?_⟩
  have H := list_deriv (fun y o' z => (a.F z - y o') * (a.F z - y o')) (fun r => 2 * ((a.F (lin r θ o) - r.2 o) * a.Fprime (a.F (lin r θ o)))) rows θ j o (fun r hr => by
    have h1 := (hd r hr).sub_const (r.2 o)
    exact hasDeriv_of (h1.mul h1) (fun t => rfl) (by ring))
  refine hasDeriv_of (HasDerivAt.div_const H (2 * rows.length)) (fun t => rfl) ?_
  have e : ∀ r ∈ rows, r.1 j * (2 * ((a.F (lin r θ o) - r.2 o) * a.Fprime (a.F (lin r θ o)))) = 2 * term .square a r θ j o := by
    intro r hr
    unfold term
    by_cases hi : a.isIdentity = true
    · have h1 : a.Fprime (a.F (lin r θ o)) = 1 := by
        have h2 := hd r hr
        unfold Differentiates at h2
        rw [hid hi] at h2 ⊢
        exact HasDerivAt.unique h2 (hasDerivAt_id _)
      simp only [hi, if_true, h1]; ring
    · simp only [hi]; simp only [Bool.false_eq_true, if_false]; ring
  rw [List.map_congr_left e, List.sum_map_mul_left]
  by_cases h0 : (rows.length : ℝ) = 0
  · simp [h0]
  · field_simp

/-- What the loss of one sample changes per unit of `X·Theta`. -/
noncomputable def ceSlope (a : Activation) (r : Row p q) (θ : Mat p q) (o : Fin q) : ℝ :=
  a.Fprime (a.F (lin r θ o)) * (-r.2 o / a.F (lin r θ o) + (1 - r.2 o) / (1 - a.F (lin r θ o)))

private theorem ceCell_deriv (eps y : ℝ) (a : Activation) (z : ℝ) (hd : Differentiates a z) (h0 : 0 < a.F z) (h1 : a.F z < 1) :
    HasDerivAt (fun z => ceCell eps y (a.F z)) (a.Fprime (a.F z) * (-y / a.F z + (1 - y) / (1 - a.F z))) z := by
  unfold Differentiates at hd
  have hev : (fun z => ceCell eps y (a.F z)) =ᶠ[nhds z] (fun z => (-y) * Real.log (a.F z) - (1 - y) * Real.log (1 + -a.F z)) := by
    have hc := hd.continuousAt
    have e1 : ∀ᶠ t in nhds z, 0 < a.F t := hc.eventually (lt_mem_nhds h0)
    have e2 : ∀ᶠ t in nhds z, a.F t < 1 := hc.eventually (gt_mem_nhds h1)
    filter_upwards [e1, e2] with t t1 t2
    simp only [ceCell]
    rw [if_neg (not_le.2 t1), if_neg (by simpa using t2)]
  have d1 := (hd.log h0.ne').const_mul (-y)
  have d2 := ((hd.neg.const_add 1).log (by linarith : (1 + -a.F z) ≠ 0)).const_mul (1 - y)
  refine ((d1.sub d2).congr_of_eventuallyEq hev).congr_deriv ?_
  have h1' : 1 - a.F z ≠ 0 := by linarith
  have h1'' : 1 + -a.F z ≠ 0 := by linarith
  have : (1 : ℝ) + (-a.F) z = 1 - a.F z := by rw [Pi.neg_apply]; ring
  rw [this]
  field_simp
  ring

/-- **C233**, what `CrossEntropyLoss` does with an activation other than `base.Logistic`, for predictions between 0 and 1: every feature gets the same number, the derivative with respect to an
intercept; it is the derivative with respect to the coefficient only if the deviations of the feature from 1 cancel. -/
theorem C233_cross_entropy (eps : ℝ) (a : Activation) (hl : a.isLogistic = false) (alpha l1 : ℝ) (ha : alpha ≤ 0) (skip : Bool) (rows : List (Row p q)) (hne : rows ≠ []) (θ : Mat p q) (o : Fin q)
    (hd : ∀ r ∈ rows, Differentiates a (lin r θ o)) (h01 : ∀ r ∈ rows, 0 < a.F (lin r θ o) ∧ a.F (lin r θ o) < 1) :
    ∃ g, lossGrad .crossEntropy a alpha l1 skip rows.length rows θ = some g ∧ ∀ j, g j o = (1 / rows.length) * (rows.map (fun r => ceSlope a r θ o)).sum ∧
      IsPartial (ceValue eps a rows) θ j o ((1 / rows.length) * (rows.map (fun r => r.1 j * ceSlope a r θ o)).sum) ∧
      (IsPartial (ceValue eps a rows) θ j o (g j o) ↔ (rows.map (fun r => (r.1 j - 1) * ceSlope a r θ o)).sum = 0) := by
  have hn : (rows.length : ℝ) ≠ 0 := by simpa using hne
  refine ⟨_, lossGrad_plain .crossEntropy a alpha l1 ha skip rows θ, fun j => ?_⟩
  have e : ∀ r ∈ rows, term .crossEntropy a r θ j o = ceSlope a r θ o := by
    intro r hr
    obtain ⟨h0, h1⟩ := h01 r hr
    have h1' : 1 - a.F (lin r θ o) ≠ 0 := by linarith
    have h0' := h0.ne'
    unfold term ceSlope
    simp only [hl, Bool.false_eq_true, if_false]
    split
    · next hy => rw [hy]; field_simp; ring
    · split
      · next hy => rw [hy]; field_simp; ring
      · field_simp
  have H : IsPartial (ceValue eps a rows) θ j o ((1 / rows.length) * (rows.map (fun r => r.1 j * ceSlope a r θ o)).sum) := by
    have := list_deriv (fun y o' z => ceCell eps (y o') (a.F z)) (fun r => ceSlope a r θ o) rows θ j o (fun r hr => ceCell_deriv eps (r.2 o) a _ (hd r hr) (h01 r hr).1 (h01 r hr).2)
    exact hasDeriv_of (HasDerivAt.div_const this rows.length) (fun t => rfl) (by ring)
  have hg : (rows.map (fun r => term .crossEntropy a r θ j o)).sum = (rows.map (fun r => ceSlope a r θ o)).sum := by rw [List.map_congr_left e]
  have hs : (rows.map (fun r => (r.1 j - 1) * ceSlope a r θ o)).sum = (rows.map (fun r => r.1 j * ceSlope a r θ o)).sum - (rows.map (fun r => ceSlope a r θ o)).sum := by
    rw [← sum_map_sub']
    congr 1
    exact List.map_congr_left (fun r _ => by ring)
  refine ⟨by rw [hg], H, ?_⟩
  rw [hg, hs]
  constructor
  · intro h
    have := HasDerivAt.unique h H
    have := mul_left_cancel₀ (one_div_ne_zero hn) this
    linarith
  · intro h
    rw [show (rows.map (fun r => ceSlope a r θ o)).sum = (rows.map (fun r => r.1 j * ceSlope a r θ o)).sum by linarith]
    exact H

/-- **C233** violated: `CrossEntropyLoss` with an increasing activation other than `base.Logistic`, targets 0 and a feature above 1 in every sample does not give the derivative for this feature. -/
theorem C233_cross_entropy_violated (eps : ℝ) (a : Activation) (hl : a.isLogistic = false) (alpha l1 : ℝ) (ha : alpha ≤ 0) (skip : Bool) (rows : List (Row p q)) (hne : rows ≠ []) (θ : Mat p q) (o : Fin q)
    (hd : ∀ r ∈ rows, Differentiates a (lin r θ o)) (h01 : ∀ r ∈ rows, 0 < a.F (lin r θ o) ∧ a.F (lin r θ o) < 1) (hinc : ∀ r ∈ rows, 0 < a.Fprime (a.F (lin r θ o)))
    (hy : ∀ r ∈ rows, r.2 o = 0) (j : Fin p) (hx : ∀ r ∈ rows, 1 < r.1 j) :
    ∃ g, lossGrad .crossEntropy a alpha l1 skip rows.length rows θ = some g ∧ ¬ IsPartial (ceValue eps a rows) θ j o (g j o) := by
  obtain ⟨g, e, H⟩ := C233_cross_entropy eps a hl alpha l1 ha skip rows hne θ o hd h01
  refine ⟨g, e, fun h => ?_⟩
  have hz := (H j).2.2.1 h
  have hpos : ∀ r ∈ rows, 0 < (r.1 j - 1) * ceSlope a r θ o := by
    intro r hr
    refine mul_pos (by linarith [hx r hr]) ?_
    unfold ceSlope
    rw [hy r hr]
    have h1 : 0 < 1 - a.F (lin r θ o) := by linarith [(h01 r hr).2]
    have := hinc r hr
    simp only [neg_zero, zero_div, sub_zero, zero_add]
    positivity
  have : 0 < (rows.map (fun r => (r.1 j - 1) * ceSlope a r θ o)).sum := by
    refine List.sum_pos _ ?_ (by simpa using hne)
    intro v hv
    obtain ⟨r, hr, rfl⟩ := List.mem_map.1 hv
    exact hpos r hr
  linarith

/-- **C233** violated: `LogLoss` with any activation gives every feature the derivative with respect to an intercept: with predictions between 0 and 1, an increasing activation, targets 1 and a feature
above 1 in every sample this is not the derivative. -/
theorem C233_log_violated (eps : ℝ) (a : Activation) (alpha l1 : ℝ) (ha : alpha ≤ 0) (skip : Bool) (rows : List (Row p q)) (hne : rows ≠ []) (θ : Mat p q) (o : Fin q)
    (hd : ∀ r ∈ rows, Differentiates a (lin r θ o)) (h01 : ∀ r ∈ rows, 0 < a.F (lin r θ o) ∧ a.F (lin r θ o) < 1) (hinc : ∀ r ∈ rows, 0 < a.Fprime (a.F (lin r θ o)))
    (hy : ∀ r ∈ rows, r.2 o = 1) (j : Fin p) (hx : ∀ r ∈ rows, 1 < r.1 j) :
    ∃ g, lossGrad .log a alpha l1 skip rows.length rows θ = some g ∧ (∀ j' : Fin p, g j' o = g j o) ∧ ¬ IsPartial (logValue eps a rows) θ j o (g j o) := by
  have hn : (rows.length : ℝ) ≠ 0 := by simpa using hne
  refine ⟨_, lossGrad_plain .log a alpha l1 ha skip rows θ, fun j' => rfl, fun h => ?_⟩
  have hcell : ∀ r ∈ rows, HasDerivAt (fun z => logCell eps (r.2 o) (a.F z)) (-(a.Fprime (a.F (lin r θ o)) / a.F (lin r θ o))) (lin r θ o) := by
    intro r hr
    have hdr := hd r hr
    unfold Differentiates at hdr
    obtain ⟨h0, h1⟩ := h01 r hr
    have hev : (fun z => logCell eps (r.2 o) (a.F z)) =ᶠ[nhds (lin r θ o)] (fun z => -1 * Real.log (a.F z)) := by
      have hc := hdr.continuousAt
      have e1 : ∀ᶠ t in nhds (lin r θ o), 0 < a.F t := hc.eventually (lt_mem_nhds h0)
      have e2 : ∀ᶠ t in nhds (lin r θ o), a.F t < 1 := hc.eventually (gt_mem_nhds h1)
      filter_upwards [e1, e2] with t t1 t2
      simp only [logCell]
      rw [if_neg t1.ne', if_neg t2.ne, hy r hr]
    exact (((hdr.log h0.ne').const_mul (-1)).congr_of_eventuallyEq hev).congr_deriv (by ring)
  have H := list_deriv (fun y o' z => logCell eps (y o') (a.F z)) (fun r => -(a.Fprime (a.F (lin r θ o)) / a.F (lin r θ o))) rows θ j o hcell
  have H2 := HasDerivAt.div_const H (rows.length : ℝ)
  have hu := HasDerivAt.unique h H2
  have hu2 : (rows.map (fun r => term .log a r θ j o)).sum = (rows.map (fun r => r.1 j * -(a.Fprime (a.F (lin r θ o)) / a.F (lin r θ o)))).sum := by
    rw [div_eq_mul_one_div (List.sum _), mul_comm (List.sum _) (1 / (rows.length : ℝ))] at hu
    exact mul_left_cancel₀ (one_div_ne_zero hn) hu
  have hpos : 0 < (rows.map (fun r => term .log a r θ j o - r.1 j * -(a.Fprime (a.F (lin r θ o)) / a.F (lin r θ o)))).sum := by
    refine List.sum_pos _ ?_ (by simpa using hne)
    intro v hv
    obtain ⟨r, hr, rfl⟩ := List.mem_map.1 hv
    have h0 := (h01 r hr).1
    have h2 : 0 < a.Fprime (a.F (lin r θ o)) / a.F (lin r θ o) := div_pos (hinc r hr) h0
    have h3 := hx r hr
    unfold term
    simp only [hy r hr]
    have : -1 * a.Fprime (a.F (lin r θ o)) / a.F (lin r θ o) - r.1 j * -(a.Fprime (a.F (lin r θ o)) / a.F (lin r θ o)) = (r.1 j - 1) * (a.Fprime (a.F (lin r θ o)) / a.F (lin r θ o)) := by ring
    rw [this]
    exact mul_pos (by linarith) h2
  rw [sum_map_sub', hu2, sub_self] at hpos
  exact lt_irrefl _ hpos

/-- **C233**, the value of `LogLoss` without penalty, for targets that are not negative and predictions from 0 to 1: it is not negative; for predictions between 0 and 1 it is the mean over the samples of `-Σ y log(prediction)`;
predictions 0 and 1 count as `eps` and `1 - eps`. -/
theorem C233_log_value {eps : ℝ} (h0 : 0 < eps) (h1 : eps < 1) (a : Activation) (rows : List (Row p q)) (θ : Mat p q) (hy : ∀ r ∈ rows, ∀ o, 0 ≤ r.2 o) (hp : ∀ r ∈ rows, ∀ o, 0 ≤ a.F (lin r θ o) ∧ a.F (lin r θ o) ≤ 1) :
    0 ≤ logValue eps a rows θ ∧
    ((∀ r ∈ rows, ∀ o, 0 < a.F (lin r θ o) ∧ a.F (lin r θ o) < 1) → logValue eps a rows θ = (rows.map (fun r => ∑ o, -(r.2 o * Real.log (a.F (lin r θ o))))).sum / rows.length) ∧
    ((∀ r ∈ rows, ∀ o, a.F (lin r θ o) = 0) → logValue eps a rows θ = (rows.map (fun r => ∑ o, r.2 o)).sum / rows.length * -Real.log eps) ∧
    ((∀ r ∈ rows, ∀ o, a.F (lin r θ o) = 1) → logValue eps a rows θ = (rows.map (fun r => ∑ o, r.2 o)).sum / rows.length * -Real.log (1 - eps)) := by
  have hall : ∀ c : ℝ, (∀ r ∈ rows, ∀ o, logCell eps (r.2 o) (a.F (lin r θ o)) = r.2 o * c) → logValue eps a rows θ = (rows.map (fun r => ∑ o, r.2 o)).sum / rows.length * c := by
    intro c hc
    unfold logValue
    rw [List.map_congr_left (g := fun r => (∑ o, r.2 o) * c) (fun r hr => by rw [Finset.sum_mul]; exact Finset.sum_congr rfl fun o _ => hc r hr o), List.sum_map_mul_right]
    ring
  refine ⟨div_nonneg (List.sum_nonneg ?_) (Nat.cast_nonneg _), fun h => ?_, fun h => hall _ fun r hr o => ?_, fun h => hall _ fun r hr o => ?_⟩
  · intro v hv
    obtain ⟨r, hr, rfl⟩ := List.mem_map.1 hv
    refine Finset.sum_nonneg fun o _ => ?_
    obtain ⟨p0, p1⟩ := hp r hr o
    have hlog : Real.log (if a.F (lin r θ o) = 0 then a.F (lin r θ o) + eps else if a.F (lin r θ o) = 1 then a.F (lin r θ o) - eps else a.F (lin r θ o)) ≤ 0 := by
      split
      · rename_i e
        rw [e, zero_add]
        exact Real.log_nonpos h0.le h1.le
      · split
        · rename_i e
          rw [e]
          exact Real.log_nonpos (by linarith) (by linarith)
        · exact Real.log_nonpos p0 p1
    unfold logCell
    have := mul_nonneg (hy r hr o) (neg_nonneg.2 hlog)
    linarith
  · unfold logValue
    congr 2
    refine List.map_congr_left fun r hr => Finset.sum_congr rfl fun o _ => ?_
    obtain ⟨p0, p1⟩ := h r hr o
    unfold logCell
    rw [if_neg p0.ne', if_neg p1.ne]
    ring
  · unfold logCell
    rw [h r hr o, if_pos rfl, zero_add]
    ring
  · unfold logCell
    rw [h r hr o, if_neg one_ne_zero, if_pos rfl]
    ring

/-! A case: one feature with value 2, coefficient 1, the activation tanh. -/

/-- `base.Tanh`. -/
noncomputable def exTanh : Activation := ⟨false, false, Sk.PrepHelpers.Act.tanh.F, Sk.PrepHelpers.Act.tanh.Fprime⟩

private theorem exTanh_diff (z : ℝ) : Differentiates exTanh z := Sk.PrepHelpers.C150_derivative_partial Sk.PrepHelpers.Act.tanh z (fun h => by cases h)

private theorem exTanh_range (z : ℝ) (hz : 0 < z) : 0 < exTanh.F z ∧ exTanh.F z < 1 := by
  refine ⟨?_, Real.tanh_lt_one z⟩
  show 0 < Real.tanh z
  rw [Real.tanh_eq_sinh_div_cosh]
  exact div_pos (Real.sinh_pos_iff.2 hz) (Real.cosh_pos z)

private theorem exTanh_prime (z : ℝ) (hz : 0 < z) : 0 < exTanh.Fprime (exTanh.F z) := by
  obtain ⟨h0, h1⟩ := exTanh_range z hz
  show 0 < 1 - exTanh.F z * exTanh.F z
  nlinarith

private theorem exLin (y : ℝ) : ∀ r ∈ [((fun _ => 2, fun _ => y) : Row 1 1)], lin r (fun _ _ => 1) 0 = 2 := by
  intro r hr
  rw [List.mem_singleton.1 hr]
  simp [lin]

example : ∃ g, lossGrad .square exTanh 0 0 false 1 [((fun _ => 2, fun _ => 3) : Row 1 1)] (fun _ _ => 1) = some g ∧ ∀ j, IsPartial (squareJ exTanh [((fun _ => 2, fun _ => 3) : Row 1 1)]) (fun _ _ => 1) j 0 (g j 0) :=
  C233_square_partial exTanh (fun h => by cases h) 0 0 le_rfl false [((fun _ => 2, fun _ => 3) : Row 1 1)] (fun _ _ => 1) 0 (fun r _ => exTanh_diff _)

example : ∃ g, lossGrad .crossEntropy exTanh 0 0 false 1 [((fun _ => 2, fun _ => 0) : Row 1 1)] (fun _ _ => 1) = some g ∧
    ¬ IsPartial (ceValue (1 / 10 ^ 10) exTanh [((fun _ => 2, fun _ => 0) : Row 1 1)]) (fun _ _ => 1) 0 0 (g 0 0) :=
  C233_cross_entropy_violated (1 / 10 ^ 10) exTanh rfl 0 0 le_rfl false [((fun _ => 2, fun _ => 0) : Row 1 1)] (by simp) (fun _ _ => 1) 0 (fun r _ => exTanh_diff _)
    (fun r hr => exTanh_range _ (by rw [exLin 0 r hr]; norm_num)) (fun r hr => exTanh_prime _ (by rw [exLin 0 r hr]; norm_num)) (fun r hr => by rw [List.mem_singleton.1 hr]) 0
    (fun r hr => by rw [List.mem_singleton.1 hr]; norm_num)

example : ∃ g, lossGrad .log exTanh 0 0 false 1 [((fun _ => 2, fun _ => 1) : Row 1 1)] (fun _ _ => 1) = some g ∧ (∀ j' : Fin 1, g j' 0 = g 0 0) ∧
    ¬ IsPartial (logValue (1 / 10 ^ 10) exTanh [((fun _ => 2, fun _ => 1) : Row 1 1)]) (fun _ _ => 1) 0 0 (g 0 0) :=
  C233_log_violated (1 / 10 ^ 10) exTanh 0 0 le_rfl false [((fun _ => 2, fun _ => 1) : Row 1 1)] (by simp) (fun _ _ => 1) 0 (fun r _ => exTanh_diff _)
    (fun r hr => exTanh_range _ (by rw [exLin 1 r hr]; norm_num)) (fun r hr => exTanh_prime _ (by rw [exLin 1 r hr]; norm_num)) (fun r hr => by rw [List.mem_singleton.1 hr]) 0
    (fun r hr => by rw [List.mem_singleton.1 hr]; norm_num)

example : 0 ≤ logValue (1 / 10 ^ 10) exTanh [((fun _ => 2, fun _ => 1) : Row 1 1)] (fun _ _ => 1) :=
  (C233_log_value (by norm_num) (by norm_num) exTanh [((fun _ => 2, fun _ => 1) : Row 1 1)] (fun _ _ => 1) (fun r hr o => by rw [List.mem_singleton.1 hr]; norm_num) (fun r hr o => by
    rw [Subsingleton.elim o 0]
    have := exTanh_range _ (show 0 < lin r (fun _ _ => 1) 0 by rw [exLin 1 r hr]; norm_num)
    exact ⟨this.1.le, this.2.le⟩)).1

end Sk.LinFit
