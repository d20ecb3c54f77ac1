import Verif.Props.LinFit
import Verif.Props.Optimizer
import Verif.Model.OptNames
import Mathlib.Algebra.BigOperators.Ring.Finset
import Mathlib.Algebra.Order.BigOperators.Ring.Finset
import Mathlib.Tactic.Positivity

/-!
# C221: gradient descent with the solver `sgd`
-/
set_option autoImplicit false

namespace Sk.LinFit

variable {p q : ℕ}

/-! ### Specification -/

/-- The size of update number `k` (from 1): `StepSize · 100 / (100 + k) / √k`. -/
noncomputable def size (s : ℝ) (k : ℕ) : ℝ := s * (100 / (100 + (k : ℝ)) / Real.sqrt k)

/-- The squared distance of two parameter matrices. -/
def dist2 (θ θ' : Mat p q) : ℝ := ∑ j, ∑ o, (θ j o - θ' j o) ^ 2

/-- `L` bounds the curvature of the square loss: the mean of `(x·w)²` over the rows is at most `L·|w|²`. -/
def Curvature (rows : List (Row p q)) (L : ℝ) : Prop := ∀ w : Fin p → ℝ, (rows.map (fun r => (∑ j, r.1 j * w j) ^ 2)).sum / rows.length ≤ L * ∑ j, w j ^ 2

/-- The mean of output `o` over the rows. -/
noncomputable def meanOut (rows : List (Row p q)) (o : Fin q) : ℝ := (rows.map (fun r => r.2 o)).sum / rows.length

/-! ### The sizes of the updates -/

theorem size_nonneg (s : ℝ) (hs : 0 ≤ s) (k : ℕ) : 0 ≤ size s k := by
  unfold size
  positivity

theorem size_le (s : ℝ) (hs : 0 ≤ s) (k : ℕ) : size s (k + 1) ≤ s := by
  have h1 : (100 : ℝ) / (100 + ((k + 1 : ℕ) : ℝ)) ≤ 1 := by
    rw [div_le_one (by positivity)]
    have : (0 : ℝ) ≤ ((k + 1 : ℕ) : ℝ) := Nat.cast_nonneg _
    linarith
  have h2 : (1 : ℝ) ≤ Real.sqrt ((k + 1 : ℕ) : ℝ) := by
    rw [Real.one_le_sqrt]
    push_cast
    have : (0 : ℝ) ≤ (k : ℝ) := Nat.cast_nonneg _
    linarith
  have h3 : (100 : ℝ) / (100 + ((k + 1 : ℕ) : ℝ)) / Real.sqrt ((k + 1 : ℕ) : ℝ) ≤ 1 := by
    rw [div_le_one (by linarith)]
    linarith
  unfold size
  nlinarith

/-- The sizes of the updates have a finite sum. -/
theorem sizes_bounded (s : ℝ) (hs : 0 ≤ s) (k : ℕ) : (∑ i ∈ Finset.range k, size s (i + 1)) ≤ s * (40 * Real.sqrt k / (10 + Real.sqrt k)) := by
  induction k with
  | zero => simp
  | succ k ih =>
    rw [Finset.sum_range_succ]
    set a := Real.sqrt (k : ℝ) with ha
    set b := Real.sqrt ((k + 1 : ℕ) : ℝ) with hb
    have ha0 : 0 ≤ a := Real.sqrt_nonneg _
    have hk0 : (0 : ℝ) ≤ (k : ℝ) := Nat.cast_nonneg _
    have ha2 : a ^ 2 = k := Real.sq_sqrt hk0
    have hb2 : b ^ 2 = k + 1 := by
      rw [hb, Real.sq_sqrt (Nat.cast_nonneg _)]
      push_cast
      ring
    have hbp : 0 < b := by
      rw [hb]
      apply Real.sqrt_pos.2
      push_cast
      linarith
    have hab : a ≤ b := Real.sqrt_le_sqrt (by push_cast; linarith)
    have e1 : size s (k + 1) = s * (100 / ((100 + b ^ 2) * b)) := by
      unfold size
      rw [← hb, div_div]
      congr 4
      rw [hb2]
      push_cast
      ring
    have e2 : 40 * b / (10 + b) - 40 * a / (10 + a) = 400 * (b - a) / ((10 + b) * (10 + a)) := by
      field_simp
      ring
    have e3 : (b - a) * (a + b) = 1 := by linear_combination hb2 - ha2
    have key : 100 / ((100 + b ^ 2) * b) ≤ 400 * (b - a) / ((10 + b) * (10 + a)) := by
      rw [div_le_div_iff₀ (by positivity) (by positivity)]
      have h1 : (10 + b) * (10 + a) ≤ 2 * (100 + b ^ 2) := by nlinarith [sq_nonneg (b - 10)]
      have h2 : 1 ≤ (b - a) * (2 * b) := by nlinarith
      have h3 : 0 ≤ b - a := by linarith
      calc 100 * ((10 + b) * (10 + a)) ≤ 100 * (2 * (100 + b ^ 2)) := by linarith
        _ ≤ 100 * (2 * (100 + b ^ 2)) * ((b - a) * (2 * b)) := le_mul_of_one_le_right (by positivity) h2
        _ = 400 * (b - a) * ((100 + b ^ 2) * b) := by ring
    rw [e1]
    have := mul_le_mul_of_nonneg_left key hs
    have e4 : s * (40 * b / (10 + b)) = s * (40 * a / (10 + a)) + s * (400 * (b - a) / ((10 + b) * (10 + a))) := by rw [← e2]; ring
    rw [e4]
    linarith

theorem sizes_le (s : ℝ) (hs : 0 ≤ s) (k : ℕ) : (∑ i ∈ Finset.range k, size s (i + 1)) ≤ 40 * s := by
  have h := sizes_bounded s hs k
  have h1 : 40 * Real.sqrt (k : ℝ) / (10 + Real.sqrt k) ≤ 40 := by
    have := Real.sqrt_nonneg (k : ℝ)
    rw [div_le_iff₀ (by linarith)]
    linarith
  have := mul_le_mul_of_nonneg_left h1 hs
  linarith

/-! ### One update -/

theorem clipped_abs (c : Sk.Opt.Cfg) (G : Mat p q) (j : Fin p) (o : Fin q) : |Sk.Opt.clipped c G j o| ≤ |G j o| := by
  unfold Sk.Opt.clipped
  split
  · rename_i h
    have hp : 0 < Sk.Opt.colNorm G o := lt_trans h.1 h.2
    rw [abs_mul, abs_of_nonneg (div_nonneg h.1.le hp.le)]
    exact mul_le_of_le_one_right (abs_nonneg _) ((div_le_one hp).2 h.2.le)
  · exact le_refl _

/-- What `UpdateParams` of the solver `sgd` does. -/
theorem update_sgd (c : Sk.Opt.Cfg) (hk : c.kind = .sgd) (s : Sk.Opt.St p q) (θ G : Mat p q) :
    (Sk.Opt.updateParams c s θ G).2.t = s.t + 1 ∧
    (∀ j o, (Sk.Opt.updateParams c s θ G).1 j o = θ j o + (Sk.Opt.updateParams c s θ G).2.prev j o) ∧
    ∀ j o, (Sk.Opt.updateParams c s θ G).2.prev j o = (if 0 < c.momentum then c.momentum * (Sk.Opt.init c s).prev j o else 0) - size c.stepSize (s.t + 1) * Sk.Opt.clipped c G j o := by
  refine ⟨Sk.Opt.getUpdate_t c s G, fun j o => rfl, fun j o => ?_⟩
  have e : (Sk.Opt.raw c (Sk.Opt.init c s) G).1 j o = -(size c.stepSize (s.t + 1) * Sk.Opt.clipped c G j o) := by
    unfold Sk.Opt.raw
    rw [hk]
    simp only [Sk.Opt.init_t]
    unfold size
    ring
  show (if 0 < c.momentum then (fun j o => c.momentum * (Sk.Opt.init c s).prev j o + (Sk.Opt.raw c (Sk.Opt.init c s) G).1 j o) else (Sk.Opt.raw c (Sk.Opt.init c s) G).1) j o = _
  split
  · show c.momentum * (Sk.Opt.init c s).prev j o + (Sk.Opt.raw c (Sk.Opt.init c s) G).1 j o = _
    rw [e]; ring
  · rw [e]; ring

/-- One update moves a parameter by no more than its share. -/
theorem reach_step (c : Sk.Opt.Cfg) (hk : c.kind = .sgd) (hs : 0 ≤ c.stepSize) (m : ℝ) (hm : m = max c.momentum 0) (hm1 : m < 1) (s : Sk.Opt.St p q) (θ θ₀ G : Mat p q) (j : Fin p) (o : Fin q) (B : ℝ) (hB : |G j o| ≤ B) (W : ℝ)
    (hW : |θ j o - θ₀ j o| + m / (1 - m) * |(Sk.Opt.init c s).prev j o| ≤ W / (1 - m)) :
    |(Sk.Opt.updateParams c s θ G).1 j o - θ₀ j o| + m / (1 - m) * |(Sk.Opt.init c (Sk.Opt.updateParams c s θ G).2).prev j o| ≤ (W + size c.stepSize (s.t + 1) * B) / (1 - m) := by
  obtain ⟨u1, u2, u3⟩ := update_sgd c hk s θ G
  have hi : Sk.Opt.init c (Sk.Opt.updateParams c s θ G).2 = (Sk.Opt.updateParams c s θ G).2 := by
    unfold Sk.Opt.init
    rw [if_neg (by rw [u1]; omega)]
  have hm0 : 0 ≤ m := by rw [hm]; exact le_max_right _ _
  have h1m : 0 < 1 - m := by linarith
  rw [hi, u2]
  set P := (Sk.Opt.updateParams c s θ G).2.prev j o with hP
  set P0 := (Sk.Opt.init c s).prev j o
  have hη := size_nonneg c.stepSize hs (s.t + 1)
  have hPb : |P| ≤ m * |P0| + size c.stepSize (s.t + 1) * B := by
    rw [hP, u3]
    have e : (if 0 < c.momentum then c.momentum * P0 else 0) = m * P0 := by
      split
      · rename_i h; rw [hm, max_eq_left h.le]
      · rename_i h; rw [hm, max_eq_right (not_lt.1 h), zero_mul]
    rw [e]
    have h1 : |size c.stepSize (s.t + 1) * Sk.Opt.clipped c G j o| ≤ size c.stepSize (s.t + 1) * B := by
      rw [abs_mul, abs_of_nonneg hη]
      exact mul_le_mul_of_nonneg_left (le_trans (clipped_abs c G j o) hB) hη
    have h2 : |m * P0| = m * |P0| := by rw [abs_mul, abs_of_nonneg hm0]
    calc _ ≤ |m * P0| + |size c.stepSize (s.t + 1) * Sk.Opt.clipped c G j o| := abs_sub _ _
      _ ≤ _ := by rw [h2]; linarith
  have h3 : |θ j o + P - θ₀ j o| ≤ |θ j o - θ₀ j o| + |P| := by
    rw [show θ j o + P - θ₀ j o = (θ j o - θ₀ j o) + P by ring]
    exact abs_add_le _ _
  have e4 : |P| + m / (1 - m) * |P| = |P| / (1 - m) := by field_simp; ring
  have h5 : |P| / (1 - m) ≤ (m * |P0| + size c.stepSize (s.t + 1) * B) / (1 - m) := div_le_div_of_nonneg_right hPb h1m.le
  have e6 : (m * |P0| + size c.stepSize (s.t + 1) * B) / (1 - m) = m / (1 - m) * |P0| + size c.stepSize (s.t + 1) * B / (1 - m) := by field_simp
  have e7 : (W + size c.stepSize (s.t + 1) * B) / (1 - m) = W / (1 - m) + size c.stepSize (s.t + 1) * B / (1 - m) := by field_simp
  rw [e7]
  rw [e6] at h5
  linarith

theorem init_prev (c : Sk.Opt.Cfg) (s : Sk.Opt.St p q) (h : s.t = 0) (j : Fin p) (o : Fin q) : (Sk.Opt.init c s).prev j o = 0 := by
  unfold Sk.Opt.init
  rw [if_pos h]

theorem reach_train (c : Sk.Opt.Cfg) (hk : c.kind = .sgd) (hs : 0 ≤ c.stepSize) (hm1 : max c.momentum 0 < 1) (θ₀ : Mat p q) (j : Fin p) (o : Fin q) (B : ℝ) (gs : List (Mat p q)) : ∀ (k : ℕ) (s : Sk.Opt.St p q) (θ : Mat p q), s.t = k →
    (∀ G ∈ gs, |G j o| ≤ B) →
    |θ j o - θ₀ j o| + max c.momentum 0 / (1 - max c.momentum 0) * |(Sk.Opt.init c s).prev j o| ≤ (∑ i ∈ Finset.range k, size c.stepSize (i + 1)) * B / (1 - max c.momentum 0) →
    |(Sk.Opt.train c s θ gs).1 j o - θ₀ j o| ≤ (∑ i ∈ Finset.range (k + gs.length), size c.stepSize (i + 1)) * B / (1 - max c.momentum 0) := by
  induction gs with
  | nil =>
    intro k s θ _ _ h
    have : 0 ≤ max c.momentum 0 / (1 - max c.momentum 0) * |(Sk.Opt.init c s).prev j o| := mul_nonneg (div_nonneg (le_max_right _ _) (by linarith)) (abs_nonneg _)
    simp only [Sk.Opt.train, List.length_nil, add_zero]
    linarith
  | cons G gs ih =>
    intro k s θ hk' hG h
    have h1 := reach_step c hk hs _ rfl hm1 s θ θ₀ G j o B (hG G List.mem_cons_self) _ h
    rw [hk', ← add_mul, ← Finset.sum_range_succ] at h1
    have h2 := ih (k + 1) _ _ (by rw [(update_sgd c hk s θ G).1, hk']) (fun G' h' => hG G' (List.mem_cons_of_mem _ h')) h1
    rw [Sk.Opt.train, List.length_cons, show k + (gs.length + 1) = k + 1 + gs.length by omega]
    exact h2

/-- **C221, violated: the solver `sgd` has a limited reach.** As the sizes of its updates have a finite sum, it never moves a parameter further than `40 · StepSize / (1 − Momentum)` times the largest
gradient, whatever the number of updates and whether gradients are clipped or not. -/
theorem C221_reach_violated (c : Sk.Opt.Cfg) (hk : c.kind = .sgd) (hs : 0 ≤ c.stepSize) (hm : 0 ≤ c.momentum) (hm1 : c.momentum < 1) (θ : Mat p q) (j : Fin p) (o : Fin q) (B : ℝ) (hB : 0 ≤ B) (gs : List (Mat p q)) (hG : ∀ G ∈ gs, |G j o| ≤ B) :
    |(Sk.Opt.train c Sk.Opt.fresh θ gs).1 j o - θ j o| ≤ 40 * c.stepSize / (1 - c.momentum) * B := by
  have em : max c.momentum 0 = c.momentum := max_eq_left hm
  have h := reach_train c hk hs (by rw [em]; exact hm1) θ j o B gs 0 Sk.Opt.fresh θ rfl hG (by rw [init_prev c _ rfl]; simp)
  rw [em] at h
  refine le_trans h ?_
  have h1 := sizes_le c.stepSize hs (0 + gs.length)
  have h2 : 0 < 1 - c.momentum := by linarith
  have h3 := div_le_div_of_nonneg_right (mul_le_mul_of_nonneg_right h1 hB) h2.le
  refine le_trans h3 (le_of_eq ?_)
  ring

/-- The settings of `NewSGDOptimizer`: no parameter ever moves by more than 4 hundredths of the largest gradient. -/
example (θ : Mat p q) (j : Fin p) (o : Fin q) (B : ℝ) (hB : 0 ≤ B) (gs : List (Mat p q)) (hG : ∀ G ∈ gs, |G j o| ≤ B) : |(Sk.Opt.train Sk.OptNames.newSGD.cfg Sk.Opt.fresh θ gs).1 j o - θ j o| ≤ B / 25 := by
  have h := C221_reach_violated Sk.OptNames.newSGD.cfg rfl (by norm_num [Sk.OptNames.newSGD]) (by norm_num [Sk.OptNames.newSGD]) (by norm_num [Sk.OptNames.newSGD]) θ j o B hB gs hG
  norm_num [Sk.OptNames.newSGD] at h ⊢
  linarith

/-! ### The square loss -/

/-- The gradient of the square loss for all rows. -/
noncomputable def gradOf (rows : List (Row p q)) (θ : Mat p q) : Mat p q := fun j o => (1 / (rows.length : ℝ)) * (rows.map (fun r => r.1 j * (lin r θ o - r.2 o))).sum

/-- The inner product of two parameter matrices. -/
def inner2 (θ θ' : Mat p q) : ℝ := ∑ j, ∑ o, θ j o * θ' j o

/-- The sum over rows and outputs of the squared predictions. -/
noncomputable def energy (rows : List (Row p q)) (v : Mat p q) : ℝ := (rows.map (fun r => ∑ o, lin r v o ^ 2)).sum / rows.length

theorem sum_map_sum {α ι : Type} (s : Finset ι) (f : α → ι → ℝ) (l : List α) : (l.map (fun a => ∑ i ∈ s, f a i)).sum = ∑ i ∈ s, (l.map (fun a => f a i)).sum := by
  induction l with
  | nil => simp
  | cons a l ih => simp only [List.map_cons, List.sum_cons, ih, Finset.sum_add_distrib]

theorem lossGrad_square (a : Activation) (hi : a.isIdentity = true) (hF : a.F = fun z => z) (alpha l1Ratio : ℝ) (skipFirst : Bool) (ha : alpha ≤ 0) (rows : List (Row p q)) (θ : Mat p q) :
    lossGrad .square a alpha l1Ratio skipFirst rows.length rows θ = some (gradOf rows θ) := by
  rw [lossGrad, if_pos (show direct .square a = true from hi)]
  congr 1
  funext j o
  simp only [term, hi, if_true, hF, penalty, if_neg (not_lt.2 ha), gradOf, add_zero, gt_iff_lt]

theorem lin_add (r : Row p q) (θ v : Mat p q) (o : Fin q) : lin r (fun j o => θ j o + v j o) o = lin r θ o + lin r v o := by
  simp only [lin, mul_add, Finset.sum_add_distrib]

/-- The square loss is its second-order expansion. -/
theorem loss_add (a : Activation) (hF : a.F = fun z => z) (rows : List (Row p q)) (hn : rows ≠ []) (θ v : Mat p q) :
    squareJ a rows (fun j o => θ j o + v j o) = squareJ a rows θ + inner2 (gradOf rows θ) v + energy rows v / 2 := by
  have hl : (0 : ℝ) < rows.length := Nat.cast_pos.2 (List.length_pos_of_ne_nil hn)
  have e1 : inner2 (gradOf rows θ) v = (rows.map (fun r => ∑ o, lin r v o * (lin r θ o - r.2 o))).sum / rows.length := by
    rw [sum_map_sum, inner2, Finset.sum_comm, Finset.sum_div]
    refine Finset.sum_congr rfl (fun o _ => ?_)
    have : (fun r : Row p q => lin r v o * (lin r θ o - r.2 o)) = fun r => ∑ j, r.1 j * (lin r θ o - r.2 o) * v j o := by
      funext r
      rw [lin, Finset.sum_mul]
      exact Finset.sum_congr rfl (fun j _ => by ring)
    rw [this, sum_map_sum, Finset.sum_div]
    refine Finset.sum_congr rfl (fun j _ => ?_)
    rw [List.sum_map_mul_right, gradOf]
    ring
  rw [e1]
  unfold squareJ energy
  simp only [hF, lin_add]
  have e2 : ∀ l : List (Row p q), (l.map (fun r => ∑ o, (lin r θ o + lin r v o - r.2 o) * (lin r θ o + lin r v o - r.2 o))).sum =
      (l.map (fun r => ∑ o, (lin r θ o - r.2 o) * (lin r θ o - r.2 o))).sum + 2 * (l.map (fun r => ∑ o, lin r v o * (lin r θ o - r.2 o))).sum + (l.map (fun r => ∑ o, lin r v o ^ 2)).sum := by
    intro l
    induction l with
    | nil => simp
    | cons r l ih =>
      simp only [List.map_cons, List.sum_cons, ih]
      have : (∑ o, (lin r θ o + lin r v o - r.2 o) * (lin r θ o + lin r v o - r.2 o)) = (∑ o, (lin r θ o - r.2 o) * (lin r θ o - r.2 o)) + 2 * (∑ o, lin r v o * (lin r θ o - r.2 o)) + ∑ o, lin r v o ^ 2 := by
        rw [Finset.mul_sum, ← Finset.sum_add_distrib, ← Finset.sum_add_distrib]
        exact Finset.sum_congr rfl (fun o _ => by ring)
      rw [this]
      ring
  rw [e2]
  field_simp

theorem energy_nonneg (rows : List (Row p q)) (v : Mat p q) : 0 ≤ energy rows v := by
  unfold energy
  refine div_nonneg (List.sum_nonneg ?_) (Nat.cast_nonneg _)
  intro x hx
  obtain ⟨r, _, rfl⟩ := List.mem_map.1 hx
  exact Finset.sum_nonneg (fun o _ => sq_nonneg _)

theorem energy_le (rows : List (Row p q)) (L : ℝ) (hL : Curvature rows L) (v : Mat p q) : energy rows v ≤ L * inner2 v v := by
  unfold energy
  rw [sum_map_sum, Finset.sum_div, inner2, Finset.sum_comm, Finset.mul_sum]
  refine Finset.sum_le_sum (fun o _ => ?_)
  have := hL (fun j => v j o)
  simp only [lin]
  refine le_trans this (le_of_eq ?_)
  congr 1
  exact Finset.sum_congr rfl (fun j _ => by ring)

/-- One step of gradient descent. -/
theorem descent (a : Activation) (hF : a.F = fun z => z) (rows : List (Row p q)) (hn : rows ≠ []) (L : ℝ) (hL : Curvature rows L) (η : ℝ) (θ : Mat p q) :
    squareJ a rows (fun j o => θ j o + -(η * gradOf rows θ j o)) ≤ squareJ a rows θ - η * (1 - η * L / 2) * inner2 (gradOf rows θ) (gradOf rows θ) := by
  rw [loss_add a hF rows hn θ (fun j o => -(η * gradOf rows θ j o))]
  have h := energy_le rows L hL (fun j o => -(η * gradOf rows θ j o))
  have e1 : inner2 (gradOf rows θ) (fun j o => -(η * gradOf rows θ j o)) = -η * inner2 (gradOf rows θ) (gradOf rows θ) := by
    simp only [inner2, Finset.mul_sum]
    exact Finset.sum_congr rfl (fun j _ => Finset.sum_congr rfl (fun o _ => by ring))
  have e2 : inner2 (fun j o => -(η * gradOf rows θ j o)) (fun j o => -(η * gradOf rows θ j o)) = η ^ 2 * inner2 (gradOf rows θ) (gradOf rows θ) := by
    simp only [inner2, Finset.mul_sum]
    exact Finset.sum_congr rfl (fun j _ => Finset.sum_congr rfl (fun o _ => by ring))
  rw [e2] at h
  rw [e1]
  nlinarith [h]

theorem inner2_self_nonneg (v : Mat p q) : 0 ≤ inner2 v v := Finset.sum_nonneg (fun _ _ => Finset.sum_nonneg (fun _ _ => mul_self_nonneg _))

theorem dist2_nonneg (θ θ' : Mat p q) : 0 ≤ dist2 θ θ' := Finset.sum_nonneg (fun _ _ => Finset.sum_nonneg (fun _ _ => sq_nonneg _))

/-- How much closer one step of gradient descent comes to any parameters. -/
theorem progress (a : Activation) (hF : a.F = fun z => z) (rows : List (Row p q)) (hn : rows ≠ []) (L : ℝ) (hL : Curvature rows L) (η : ℝ) (hη : 0 ≤ η) (hs : η * L ≤ 1) (θ θ' : Mat p q) :
    2 * η * (squareJ a rows (fun j o => θ j o + -(η * gradOf rows θ j o)) - squareJ a rows θ') ≤ dist2 θ θ' - dist2 (fun j o => θ j o + -(η * gradOf rows θ j o)) θ' := by
  have h1 := descent a hF rows hn L hL η θ
  have h2 := loss_add a hF rows hn θ (fun j o => θ' j o - θ j o)
  have h3 := energy_nonneg rows (fun j o => θ' j o - θ j o)
  rw [show (fun j o => θ j o + (θ' j o - θ j o)) = θ' from by funext j o; ring] at h2
  have e1 : dist2 (fun j o => θ j o + -(η * gradOf rows θ j o)) θ' = dist2 θ θ' + 2 * η * inner2 (gradOf rows θ) (fun j o => θ' j o - θ j o) + η ^ 2 * inner2 (gradOf rows θ) (gradOf rows θ) := by
    simp only [dist2, inner2, Finset.mul_sum, ← Finset.sum_add_distrib]
    exact Finset.sum_congr rfl (fun j _ => Finset.sum_congr rfl (fun o _ => by ring))
  have h4 := inner2_self_nonneg (gradOf rows θ)
  rw [e1]
  set g := inner2 (gradOf rows θ) (gradOf rows θ)
  set J' := squareJ a rows (fun j o => θ j o + -(η * gradOf rows θ j o))
  have h5 : J' ≤ squareJ a rows θ - η / 2 * g := by
    have : η / 2 * g ≤ η * (1 - η * L / 2) * g := mul_le_mul_of_nonneg_right (by nlinarith) h4
    linarith
  have h6 : J' - squareJ a rows θ' ≤ -inner2 (gradOf rows θ) (fun j o => θ' j o - θ j o) - η / 2 * g := by linarith
  have := mul_le_mul_of_nonneg_left h6 (show (0 : ℝ) ≤ 2 * η by linarith)
  linarith

/-! ### `LinFit` with the solver `sgd` -/

/-- The epochs of `LinFit` with the solver of settings `c` on the square loss. -/
noncomputable abbrev sgdEpoch (a : Activation) (alpha l1Ratio : ℝ) (skipFirst : Bool) (c : Sk.Opt.Cfg) (requested : ℤ) (perms : ℕ → List ℕ) (rows : List (Row p q)) : ℕ → Mat p q × Sk.Opt.St p q → Option (Mat p q × Sk.Opt.St p q) :=
  fun e => epochStep (lossGrad .square a alpha l1Ratio skipFirst rows.length) (Sk.Opt.updateParams c) (batchSize rows.length requested) rows (perms e)

theorem epoch_full (a : Activation) (hi : a.isIdentity = true) (hF : a.F = fun z => z) (alpha l1Ratio : ℝ) (skipFirst : Bool) (ha : alpha ≤ 0) (c : Sk.Opt.Cfg) (requested : ℤ) (perms : ℕ → List ℕ) (rows : List (Row p q)) (hn : rows ≠ [])
    (hr : (rows.length : ℤ) ≤ requested) (hp : ∀ e, (perms e).Perm (List.range rows.length)) (e : ℕ) (st : Mat p q × Sk.Opt.St p q) :
    sgdEpoch a alpha l1Ratio skipFirst c requested perms rows e st = some (Sk.Opt.updateParams c st.2 st.1 (gradOf rows st.1)) := by
  obtain ⟨full, h1, h2⟩ := C182_full_batch_partial .square a alpha l1Ratio skipFirst (Sk.Opt.updateParams c) requested rows hn hr (perms e) (hp e) st
  rw [lossGrad_square a hi hF alpha l1Ratio skipFirst ha] at h1
  obtain rfl := Option.some.inj h1
  exact h2

theorem epochs_some {S : Type} (step : ℕ → Mat p q × S → Option (Mat p q × S)) (f : Mat p q × S → Mat p q × S) (hs : ∀ e st, step e st = some (f st)) (J rmse : Mat p q → ℝ) (tol : ℝ) (k : ℕ) : ∀ (e : ℕ) (st : Mat p q × S) (r : Res p q),
    ∃ res, epochs step J rmse tol k e st r = some res := by
  induction k with
  | zero => exact fun e st r => ⟨_, rfl⟩
  | succ k ih =>
    intro e st r
    rw [epochs, hs, Option.bind_some]
    dsimp only
    split
    · exact ⟨_, rfl⟩
    · exact ih _ _ _

/-- Training with all rows in one mini-batch returns. -/
theorem C221_returns (a : Activation) (hi : a.isIdentity = true) (hF : a.F = fun z => z) (alpha l1Ratio : ℝ) (skipFirst : Bool) (ha : alpha ≤ 0) (c : Sk.Opt.Cfg) (requested : ℤ) (nEpochs : ℕ) (tol : ℝ) (perms : ℕ → List ℕ) (θ₀ : Mat p q)
    (rows : List (Row p q)) (hn : rows ≠ []) (hr : (rows.length : ℤ) ≤ requested) (hp : ∀ e, (perms e).Perm (List.range rows.length)) :
    ∃ res, linFit .square a alpha l1Ratio skipFirst (squareJ a rows) (rmseOf a rows) (Sk.Opt.updateParams c) Sk.Opt.fresh requested nEpochs tol perms θ₀ rows = some res :=
  epochs_some _ (fun st => Sk.Opt.updateParams c st.2 st.1 (gradOf rows st.1)) (fun e st => epoch_full a hi hF alpha l1Ratio skipFirst ha c requested perms rows hn hr hp e st) _ _ _ _ _ _ _

/-- An update without momentum and clipping. -/
theorem update_plain (c : Sk.Opt.Cfg) (hk : c.kind = .sgd) (hm : c.momentum ≤ 0) (hc : c.clip ≤ 0) (s : Sk.Opt.St p q) (θ G : Mat p q) :
    (Sk.Opt.updateParams c s θ G).1 = fun j o => θ j o + -(size c.stepSize (s.t + 1) * G j o) := by
  obtain ⟨_, u2, u3⟩ := update_sgd c hk s θ G
  funext j o
  rw [u2, u3, if_neg (not_lt.2 hm), Sk.Opt.clipped_off c hc]
  ring

theorem size_mul_le (s L b : ℝ) (hs : 0 ≤ s) (hb : 0 ≤ b) (h : s * L ≤ b) (k : ℕ) : size s (k + 1) * L ≤ b := by
  rcases le_total 0 L with h0 | h0
  · exact le_trans (mul_le_mul_of_nonneg_right (size_le s hs k) h0) h
  · exact le_trans (mul_nonpos_of_nonneg_of_nonpos (size_nonneg s hs _) h0) hb

/-- **C221, descent.** Training with all rows in one mini-batch, the square loss without penalty, and the solver `sgd` without momentum and clipping: if `StepSize` times the curvature of the loss is at
most 2, no epoch increases the loss, whatever the numbers drawn.
Missing for the full claim: `C221_reach_violated`, `C221_constant_violated`. -/
theorem C221_descent_partial (a : Activation) (hi : a.isIdentity = true) (hF : a.F = fun z => z) (alpha l1Ratio : ℝ) (skipFirst : Bool) (ha : alpha ≤ 0) (c : Sk.Opt.Cfg) (hk : c.kind = .sgd) (hm : c.momentum ≤ 0) (hc : c.clip ≤ 0)
    (requested : ℤ) (perms : ℕ → List ℕ) (rows : List (Row p q)) (hn : rows ≠ []) (hr : (rows.length : ℤ) ≤ requested) (hp : ∀ e, (perms e).Perm (List.range rows.length)) (L : ℝ) (hL : Curvature rows L) (hs : 0 ≤ c.stepSize) (hsL : c.stepSize * L ≤ 2)
    (e : ℕ) (st st' : Mat p q × Sk.Opt.St p q) (h : sgdEpoch a alpha l1Ratio skipFirst c requested perms rows e st = some st') : squareJ a rows st'.1 ≤ squareJ a rows st.1 := by
  rw [epoch_full a hi hF alpha l1Ratio skipFirst ha c requested perms rows hn hr hp] at h
  obtain rfl := Option.some.inj h
  rw [update_plain c hk hm hc]
  have h1 := descent a hF rows hn L hL (size c.stepSize (st.2.t + 1)) st.1
  have h2 := size_nonneg c.stepSize hs (st.2.t + 1)
  have h3 := size_mul_le c.stepSize L 2 hs (by norm_num) hsL st.2.t
  have h4 : 0 ≤ size c.stepSize (st.2.t + 1) * (1 - size c.stepSize (st.2.t + 1) * L / 2) * inner2 (gradOf rows st.1) (gradOf rows st.1) :=
    mul_nonneg (mul_nonneg h2 (by linarith)) (inner2_self_nonneg _)
  linarith

theorem ran_rate (a : Activation) (hi : a.isIdentity = true) (hF : a.F = fun z => z) (alpha l1Ratio : ℝ) (skipFirst : Bool) (ha : alpha ≤ 0) (c : Sk.Opt.Cfg) (hk : c.kind = .sgd) (hm : c.momentum ≤ 0) (hc : c.clip ≤ 0)
    (requested : ℤ) (perms : ℕ → List ℕ) (rows : List (Row p q)) (hn : rows ≠ []) (hr : (rows.length : ℤ) ≤ requested) (hp : ∀ e, (perms e).Perm (List.range rows.length)) (L : ℝ) (hL : Curvature rows L) (hs : 0 ≤ c.stepSize) (hsL : c.stepSize * L ≤ 1)
    (b : ℝ) (θ' : Mat p q) (e : ℕ) (st : Mat p q × Sk.Opt.St p q) (l : List (Mat p q × Sk.Opt.St p q)) (h : Ran (sgdEpoch a alpha l1Ratio skipFirst c requested perms rows) e st l) : (∀ st' ∈ l, b ≤ squareJ a rows st'.1) →
    2 * (b - squareJ a rows θ') * ∑ i ∈ Finset.range l.length, size c.stepSize (st.2.t + i + 1) ≤ dist2 st.1 θ' := by
  induction h with
  | nil e st =>
    intro _
    rw [List.length_nil, Finset.sum_range_zero, mul_zero]
    exact dist2_nonneg _ _
  | cons e st st' l h _ ih =>
    intro hb
    have hs' := h
    rw [epoch_full a hi hF alpha l1Ratio skipFirst ha c requested perms rows hn hr hp] at h
    have h' := Option.some.inj h
    have ht : st'.2.t = st.2.t + 1 := by rw [← h']; exact (update_sgd c hk _ _ _).1
    have h1 : st'.1 = fun j o => st.1 j o + -(size c.stepSize (st.2.t + 1) * gradOf rows st.1 j o) := by rw [← h']; exact update_plain c hk hm hc _ _ _
    have hη := size_nonneg c.stepSize hs (st.2.t + 1)
    have h2 := progress a hF rows hn L hL (size c.stepSize (st.2.t + 1)) hη (size_mul_le c.stepSize L 1 hs (by norm_num) hsL st.2.t) st.1 θ'
    rw [← h1] at h2
    have h3 := ih (fun s hs => hb s (List.mem_cons_of_mem _ hs))
    have h4 : 2 * (b - squareJ a rows θ') * size c.stepSize (st.2.t + 1) ≤ 2 * size c.stepSize (st.2.t + 1) * (squareJ a rows st'.1 - squareJ a rows θ') := by
      have := mul_le_mul_of_nonneg_left (hb st' List.mem_cons_self) hη
      linarith
    rw [List.length_cons, Finset.sum_range_succ', mul_add]
    rw [ht] at h3
    have e1 : (∑ i ∈ Finset.range l.length, size c.stepSize (st.2.t + (i + 1) + 1)) = ∑ i ∈ Finset.range l.length, size c.stepSize (st.2.t + 1 + i + 1) :=
      Finset.sum_congr rfl (fun i _ => by rw [show st.2.t + (i + 1) + 1 = st.2.t + 1 + i + 1 by omega])
    rw [e1, add_zero]
    linarith

/-- **C221, the bound.** In the same setting, with `StepSize` times the curvature at most 1, the loss returned exceeds the loss of any parameters by at most their squared distance to the starting point,
divided by twice the sum of the sizes of the updates made.
Missing for the full claim: the sum does not grow beyond `40 · StepSize`, see `C221_reach_violated` and `C221_constant_violated`. -/
theorem C221_rate_partial (a : Activation) (hi : a.isIdentity = true) (hF : a.F = fun z => z) (alpha l1Ratio : ℝ) (skipFirst : Bool) (ha : alpha ≤ 0) (c : Sk.Opt.Cfg) (hk : c.kind = .sgd) (hm : c.momentum ≤ 0) (hc : c.clip ≤ 0)
    (requested : ℤ) (nEpochs : ℕ) (hE : 1 ≤ nEpochs) (tol : ℝ) (perms : ℕ → List ℕ) (θ₀ : Mat p q) (rows : List (Row p q)) (hn : rows ≠ []) (hr : (rows.length : ℤ) ≤ requested) (hp : ∀ e, (perms e).Perm (List.range rows.length))
    (L : ℝ) (hL : Curvature rows L) (hs : 0 < c.stepSize) (hsL : c.stepSize * L ≤ 1) (res : Res p q)
    (h : linFit .square a alpha l1Ratio skipFirst (squareJ a rows) (rmseOf a rows) (Sk.Opt.updateParams c) Sk.Opt.fresh requested nEpochs tol perms θ₀ rows = some res) :
    res.J = some (squareJ a rows res.theta) ∧ ∀ θ' : Mat p q, squareJ a rows res.theta ≤ squareJ a rows θ' + dist2 θ₀ θ' / (2 * ∑ k ∈ Finset.range (res.epoch - 1), size c.stepSize (k + 1)) := by
  obtain ⟨l, last, h1, h2, _, _, h5, _, _, h8, _, h10⟩ := C182_result_partial .square a alpha l1Ratio skipFirst _ _ _ _ requested nEpochs tol perms θ₀ rows hE res h
  refine ⟨h8, fun θ' => ?_⟩
  have h3 := ran_rate a hi hF alpha l1Ratio skipFirst ha c hk hm hc requested perms rows hn hr hp L hL hs.le hsL (squareJ a rows res.theta) θ' 1 _ l h1 h10
  have hlen : 1 ≤ l.length := by
    cases l with
    | nil => simp at h2
    | cons _ _ => simp
  rw [h5, Nat.add_sub_cancel]
  have e : (∑ i ∈ Finset.range l.length, size c.stepSize ((Sk.Opt.fresh : Sk.Opt.St p q).t + i + 1)) = ∑ k ∈ Finset.range l.length, size c.stepSize (k + 1) :=
    Finset.sum_congr rfl (fun i _ => by rw [show (Sk.Opt.fresh : Sk.Opt.St p q).t = 0 from rfl, Nat.zero_add])
  rw [show ((θ₀, (Sk.Opt.fresh : Sk.Opt.St p q)).2).t = (Sk.Opt.fresh : Sk.Opt.St p q).t from rfl, e] at h3
  have hpos : 0 < ∑ k ∈ Finset.range l.length, size c.stepSize (k + 1) := by
    refine lt_of_lt_of_le ?_ (Finset.single_le_sum (fun i _ => size_nonneg c.stepSize hs.le (i + 1)) (Finset.mem_range.2 (show 0 < l.length by omega)))
    unfold size
    norm_num
    linarith
  have h6 : squareJ a rows res.theta - squareJ a rows θ' ≤ dist2 θ₀ θ' / (2 * ∑ k ∈ Finset.range l.length, size c.stepSize (k + 1)) := by
    rw [le_div_iff₀ (by linarith)]
    linarith
  linarith

/-- The mean squared length of the rows bounds the curvature. -/
theorem curvature_length (rows : List (Row p q)) : Curvature rows ((rows.map (fun r => ∑ j, r.1 j ^ 2)).sum / rows.length) := by
  intro w
  rw [div_mul_eq_mul_div]
  refine div_le_div_of_nonneg_right ?_ (Nat.cast_nonneg _)
  rw [← List.sum_map_mul_right]
  refine List.sum_le_sum (fun r _ => ?_)
  exact Finset.sum_mul_sq_le_sq_mul_sq _ _ _

/-- Four rows of two features with mean squared length 2. -/
example : Curvature (p := 2) (q := 1) [(![1, 1], ![3]), (![1, -1], ![5]), (![1, 1], ![0]), (![-1, 1], ![2])] 2 := by
  have := curvature_length (p := 2) (q := 1) [(![1, 1], ![3]), (![1, -1], ![5]), (![1, 1], ![0]), (![-1, 1], ![2])]
  norm_num [Fin.sum_univ_two] at this
  exact this

/-! ### Fitting a constant -/

theorem grad_constant (rows : List (Row 1 q)) (hn : rows ≠ []) (hX : ∀ r ∈ rows, r.1 0 = 1) (θ : Mat 1 q) (o : Fin q) : gradOf rows θ 0 o = θ 0 o - meanOut rows o := by
  have hl : (rows.length : ℝ) ≠ 0 := by
    have := List.length_pos_of_ne_nil hn
    exact_mod_cast (show rows.length ≠ 0 by omega)
  have e : ∀ l : List (Row 1 q), (∀ r ∈ l, r.1 0 = 1) → (l.map (fun r => r.1 0 * (lin r θ o - r.2 o))).sum = l.length * θ 0 o - (l.map (fun r => r.2 o)).sum := by
    intro l
    induction l with
    | nil => simp
    | cons r l ih =>
      intro h
      have hr := h r List.mem_cons_self
      rw [List.map_cons, List.sum_cons, ih (fun r hr => h r (List.mem_cons_of_mem _ hr))]
      simp only [List.map_cons, List.sum_cons, List.length_cons, lin, Fin.sum_univ_one, hr]
      push_cast
      ring
  unfold gradOf meanOut
  rw [e rows hX]
  field_simp

theorem ran_constant (a : Activation) (hi : a.isIdentity = true) (hF : a.F = fun z => z) (alpha l1Ratio : ℝ) (skipFirst : Bool) (ha : alpha ≤ 0) (c : Sk.Opt.Cfg) (hk : c.kind = .sgd) (hm : 0 ≤ c.momentum) (hm1 : c.momentum < 1)
    (requested : ℤ) (perms : ℕ → List ℕ) (rows : List (Row 1 q)) (hn : rows ≠ []) (hX : ∀ r ∈ rows, r.1 0 = 1) (hr : (rows.length : ℤ) ≤ requested) (hp : ∀ e, (perms e).Perm (List.range rows.length)) (hs : 0 ≤ c.stepSize)
    (θ₀ : Mat 1 q) (o : Fin q) (B D : ℝ) (hB : 0 ≤ B) (hD : 40 * c.stepSize / (1 - c.momentum) * B ≤ D) (hDB : |θ₀ 0 o - meanOut rows o| + D ≤ B)
    (e : ℕ) (st : Mat 1 q × Sk.Opt.St 1 q) (l : List (Mat 1 q × Sk.Opt.St 1 q)) (h : Ran (sgdEpoch a alpha l1Ratio skipFirst c requested perms rows) e st l) :
    |st.1 0 o - θ₀ 0 o| + c.momentum / (1 - c.momentum) * |(Sk.Opt.init c st.2).prev 0 o| ≤ (∑ i ∈ Finset.range st.2.t, size c.stepSize (i + 1)) * B / (1 - c.momentum) →
    ∀ st' ∈ l, |st'.1 0 o - θ₀ 0 o| ≤ D := by
  have h1m : 0 < 1 - c.momentum := by linarith
  have bound : ∀ s : Mat 1 q × Sk.Opt.St 1 q, |s.1 0 o - θ₀ 0 o| + c.momentum / (1 - c.momentum) * |(Sk.Opt.init c s.2).prev 0 o| ≤ (∑ i ∈ Finset.range s.2.t, size c.stepSize (i + 1)) * B / (1 - c.momentum) → |s.1 0 o - θ₀ 0 o| ≤ D := by
    intro s h
    have h1 : 0 ≤ c.momentum / (1 - c.momentum) * |(Sk.Opt.init c s.2).prev 0 o| := mul_nonneg (div_nonneg hm h1m.le) (abs_nonneg _)
    have h2 := div_le_div_of_nonneg_right (mul_le_mul_of_nonneg_right (sizes_le c.stepSize hs s.2.t) hB) h1m.le
    have e : 40 * c.stepSize * B / (1 - c.momentum) = 40 * c.stepSize / (1 - c.momentum) * B := by ring
    rw [e] at h2
    linarith
  induction h with
  | nil e st => exact fun _ st' h => absurd h List.not_mem_nil
  | cons e st st' l h _ ih =>
    intro hW
    rw [epoch_full a hi hF alpha l1Ratio skipFirst ha c requested perms rows hn hr hp] at h
    have h' := Option.some.inj h
    have hg : |gradOf rows st.1 0 o| ≤ B := by
      rw [grad_constant rows hn hX, show st.1 0 o - meanOut rows o = (st.1 0 o - θ₀ 0 o) + (θ₀ 0 o - meanOut rows o) by ring]
      have := abs_add_le (st.1 0 o - θ₀ 0 o) (θ₀ 0 o - meanOut rows o)
      have := bound st hW
      linarith
    have h1 := reach_step c hk hs c.momentum (max_eq_left hm).symm hm1 st.2 st.1 θ₀ (gradOf rows st.1) 0 o B hg _ hW
    rw [← add_mul, ← Finset.sum_range_succ, ← (update_sgd c hk st.2 st.1 (gradOf rows st.1)).1, h'] at h1
    intro s hs'
    rcases List.mem_cons.1 hs' with rfl | hs'
    · exact bound _ h1
    · exact ih h1 s hs'

/-- **C221, violated: fitting a constant.** With one feature that is 1 in every row, the least squares solution is the mean of the targets.  `LinFit` with the solver `sgd`, all rows in one mini-batch, and
`δ = 40 · StepSize / (1 − Momentum) < 1` stays away from it by at least `1 − δ / (1 − δ)` times the distance at the start, however many epochs are run. -/
theorem C221_constant_violated (a : Activation) (hi : a.isIdentity = true) (hF : a.F = fun z => z) (alpha l1Ratio : ℝ) (skipFirst : Bool) (ha : alpha ≤ 0) (c : Sk.Opt.Cfg) (hk : c.kind = .sgd) (hm : 0 ≤ c.momentum) (hm1 : c.momentum < 1)
    (requested : ℤ) (nEpochs : ℕ) (hE : 1 ≤ nEpochs) (tol : ℝ) (perms : ℕ → List ℕ) (θ₀ : Mat 1 q) (rows : List (Row 1 q)) (hn : rows ≠ []) (hX : ∀ r ∈ rows, r.1 0 = 1) (hr : (rows.length : ℤ) ≤ requested)
    (hp : ∀ e, (perms e).Perm (List.range rows.length)) (hs : 0 ≤ c.stepSize) (δ : ℝ) (hδ : δ = 40 * c.stepSize / (1 - c.momentum)) (hδ1 : δ < 1) (res : Res 1 q)
    (h : linFit .square a alpha l1Ratio skipFirst (squareJ a rows) (rmseOf a rows) (Sk.Opt.updateParams c) Sk.Opt.fresh requested nEpochs tol perms θ₀ rows = some res) (o : Fin q) :
    (1 - δ / (1 - δ)) * |θ₀ 0 o - meanOut rows o| ≤ |res.theta 0 o - meanOut rows o| := by
  obtain ⟨l, _, h1, _, _, _, _, _, _, _, h9, _⟩ := C182_result_partial .square a alpha l1Ratio skipFirst _ _ _ _ requested nEpochs tol perms θ₀ rows hE res h
  obtain ⟨st, hst, hth⟩ := List.mem_map.1 h9
  set E := |θ₀ 0 o - meanOut rows o| with hEdef
  have hE0 : 0 ≤ E := abs_nonneg _
  have hd : 0 < 1 - δ := by linarith
  have key := ran_constant a hi hF alpha l1Ratio skipFirst ha c hk hm hm1 requested perms rows hn hX hr hp hs θ₀ o (E / (1 - δ)) (δ * (E / (1 - δ))) (div_nonneg hE0 hd.le) (by rw [hδ])
    (le_of_eq (by rw [← hEdef]; field_simp; ring)) 1 _ l h1 (by rw [init_prev c _ rfl]; simp [Sk.Opt.fresh]) st hst
  rw [hth] at key
  have h2 : E ≤ |res.theta 0 o - meanOut rows o| + |res.theta 0 o - θ₀ 0 o| := by
    rw [hEdef, show θ₀ 0 o - meanOut rows o = (res.theta 0 o - meanOut rows o) - (res.theta 0 o - θ₀ 0 o) by ring]
    exact abs_sub _ _
  have e : (1 - δ / (1 - δ)) * E = E - δ * (E / (1 - δ)) := by ring
  rw [e]
  linarith

/-- The settings of `NewSGDOptimizer`: more than nine tenths of the way are left. -/
example : (40 * Sk.OptNames.newSGD.cfg.stepSize / (1 - Sk.OptNames.newSGD.cfg.momentum) = 1 / 25) ∧ 1 - (1 / 25 : ℝ) / (1 - 1 / 25) = 23 / 24 := by norm_num [Sk.OptNames.newSGD]

/-- Three rows, a thousand epochs, the settings of `NewSGDOptimizer`: the mean of the targets is 6, and the result started at 0 is still at least 23/4 away from it. -/
example : ∃ res, linFit (p := 1) (q := 1) .square ⟨true, false, fun z => z, fun _ => 1⟩ 0 0 false (squareJ ⟨true, false, fun z => z, fun _ => 1⟩ [(![1], ![5]), (![1], ![6]), (![1], ![7])]) (rmseOf ⟨true, false, fun z => z, fun _ => 1⟩ [(![1], ![5]), (![1], ![6]), (![1], ![7])])
      (Sk.Opt.updateParams Sk.OptNames.newSGD.cfg) Sk.Opt.fresh 3 1000 (1 / 1000) (fun _ => [2, 0, 1]) (fun _ _ => 0) [(![1], ![5]), (![1], ![6]), (![1], ![7])] = some res ∧ 23 / 4 ≤ |res.theta 0 0 - 6| := by
  obtain ⟨res, h⟩ := C221_returns (p := 1) (q := 1) ⟨true, false, fun z => z, fun _ => 1⟩ rfl rfl 0 0 false (le_refl _) Sk.OptNames.newSGD.cfg 3 1000 (1 / 1000) (fun _ => [2, 0, 1]) (fun _ _ => 0) [(![1], ![5]), (![1], ![6]), (![1], ![7])] (by simp) (by simp) (fun _ => by decide)
  refine ⟨res, h, ?_⟩
  have := C221_constant_violated (q := 1) ⟨true, false, fun z => z, fun _ => 1⟩ rfl rfl 0 0 false (le_refl _) Sk.OptNames.newSGD.cfg rfl (by norm_num [Sk.OptNames.newSGD]) (by norm_num [Sk.OptNames.newSGD]) 3 1000 (by norm_num) (1 / 1000) (fun _ => [2, 0, 1]) (fun _ _ => 0)
    [(![1], ![5]), (![1], ![6]), (![1], ![7])] (by simp) (by simp) (by simp) (fun _ => by decide) (by norm_num [Sk.OptNames.newSGD]) (1 / 25) (by norm_num [Sk.OptNames.newSGD]) (by norm_num) res h 0
  norm_num [meanOut] at this
  linarith

end Sk.LinFit
