import Verif.Model.LinFitGom
import Mathlib.Algebra.BigOperators.Field
import Mathlib.Tactic.Linarith
import Mathlib.Tactic.Ring
import Mathlib.Tactic.FieldSimp
import Mathlib.Tactic.Positivity
import Mathlib.Tactic.LinearCombination

/-!
# C178: fitting all outputs together
-/
set_option autoImplicit false

namespace Sk.Lin

variable {n p q : ℕ}

/-- Penalised squared residuals of the model `θ` for one output, over `2n`; the first feature may be exempt. -/
noncomputable def outputCost (X : Fin n → Fin p → ℝ) (y : Fin n → ℝ) (alpha : ℝ) (skipFirst : Bool) (v : Fin p → ℝ) : ℝ :=
  (∑ i, (y i - ∑ j, X i j * v j) ^ 2 + max alpha 0 * ∑ j, if skipFirst = true ∧ j.val = 0 then 0 else v j ^ 2) / (2 * n)

theorem joint_value (X : Fin n → Fin p → ℝ) (Y : Fin n → Fin q → ℝ) (alpha : ℝ) (skip : Bool) (θ : Fin p → Fin q → ℝ) :
    squareJ X Y alpha 0 skip θ = ∑ o, outputCost X (fun i => Y i o) alpha skip (fun j => θ j o) := by
  unfold outputCost squareJ
  rw [← Finset.sum_div]
  congr 1
  rw [Finset.sum_add_distrib]
  congr 1
  · rw [Finset.sum_comm]
    exact Finset.sum_congr rfl (fun o _ => Finset.sum_congr rfl (fun i _ => by unfold mulT; ring))
  · rw [← Finset.mul_sum, Finset.sum_comm]
    by_cases ha : alpha > 0
    · rw [if_pos ha, max_eq_left ha.le, mul_comm alpha]
      unfold regJ
      congr 1
      refine Finset.sum_congr rfl (fun j _ => ?_)
      by_cases hs : skip = true ∧ j.val = 0
      · simp [hs]
      · have : (skip && decide (j.val = 0)) = false := by
          cases skip <;> simp_all
        simp only [this, hs, Bool.false_eq_true, if_false, lt_irrefl, gt_iff_lt, zero_lt_one, if_true, sub_zero, one_mul, zero_mul, add_zero]
        exact Finset.sum_congr rfl (fun o _ => by ring)
    · rw [if_neg ha, max_eq_right (not_lt.1 ha), zero_mul]

theorem sum_min {q : ℕ} (f g : Fin q → ℝ) (o : Fin q) (h : ∑ o, f o ≤ ∑ o, g o) (he : ∀ o', o' ≠ o → g o' = f o') : f o ≤ g o := by
  rw [← Finset.add_sum_erase _ f (Finset.mem_univ o), ← Finset.add_sum_erase _ g (Finset.mem_univ o)] at h
  have : ∑ x ∈ Finset.univ.erase o, g x = ∑ x ∈ Finset.univ.erase o, f x :=
    Finset.sum_congr rfl (fun x hx => he x (Finset.ne_of_mem_erase hx))
  linarith

/-- C178, `L1Ratio` 0: if the minimiser ends at a point where the value it is given is least, the joint fit gives every output the minimum of its own cost, as separate fits would; `Converged` tells whether the
minimiser reported an error.  Missing: a positive `L1Ratio` (`C178_lasso_violated`) and minimisers that go by the gradient, which lacks the factor `Alpha` (`C173_alpha_violated`). -/
theorem C178_joint_partial (X : Fin n → Fin p → ℝ) (Y : Fin n → Fin q → ℝ) (alpha : ℝ) (skip : Bool) (minimize : JointMinimizer p q) (start : Fin p → Fin q → ℝ)
    (hr : ∀ J G r, (∃ θ, ∀ θ', J θ ≤ J θ') → minimize J G start = some r → ∀ θ', J r.x ≤ J θ') (r : JointRet p q)
    (hsome : minimize (squareJ X Y alpha 0 skip) (squareGrad X Y alpha 0 skip) start = some r)
    (hex : ∀ o, ∃ v, ∀ v', outputCost X (fun i => Y i o) alpha skip v ≤ outputCost X (fun i => Y i o) alpha skip v') :
    ∃ f, gomJoint X Y alpha 0 skip minimize start = some f ∧ (f.converged = true ↔ r.err = false) ∧
      ∀ (o : Fin q) (v : Fin p → ℝ), outputCost X (fun i => Y i o) alpha skip (fun j => f.theta j o) ≤ outputCost X (fun i => Y i o) alpha skip v := by
  refine ⟨_, by unfold gomJoint; rw [hsome]; rfl, by simp, ?_⟩
  choose v hv using hex
  have hmin := hr _ _ r ⟨fun j o => v o j, fun θ' => by
    rw [joint_value, joint_value]
    exact Finset.sum_le_sum (fun o _ => hv o _)⟩ hsome
  intro o w
  have h := hmin (fun j o' => if o' = o then w j else r.x j o')
  rw [joint_value, joint_value] at h
  have := sum_min _ _ o h (fun o' ho => by simp [ho])
  simpa using this

/-- One feature, two outputs, `Alpha = 0`: every output has a minimum. -/
example : ∀ o : Fin 2, ∃ v, ∀ v', outputCost (fun (i : Fin 2) (_ : Fin 1) => if i = 0 then (1 : ℝ) else -1) (fun i => if i = 0 then (o : ℝ) else -(o : ℝ)) 0 false v ≤
    outputCost (fun (i : Fin 2) (_ : Fin 1) => if i = 0 then (1 : ℝ) else -1) (fun i => if i = 0 then (o : ℝ) else -(o : ℝ)) 0 false v' := by
  intro o
  refine ⟨fun _ => (o : ℝ), fun v' => ?_⟩
  unfold outputCost
  simp [Fin.sum_univ_two]
  positivity

/-- C178: for `L1Ratio` 0 the gradient of the joint fit is, cell by cell, the one of the separate fits. -/
theorem C178_gradient (X : Fin n → Fin p → ℝ) (Y : Fin n → Fin q → ℝ) (alpha : ℝ) (θ : Fin p → Fin q → ℝ) (j : Fin p) (o : Fin q) :
    squareGrad X Y alpha 0 false θ j o = colG X alpha 0 (fun i => Y i o) (fun j => θ j o) j := by
  unfold colG squareGrad regGrad mulT
  simp

/-- C178 fails for a positive `L1Ratio`: wherever two outputs use a feature, the gradient of the joint fit differs from the one of the separate fits (the joint penalty is on the norm of the row). -/
theorem C178_lasso_violated (hn : n ≠ 0) (X : Fin n → Fin p → ℝ) (Y : Fin n → Fin q → ℝ) (alpha l1 : ℝ) (ha : 0 < alpha) (hl : 0 < l1) (θ : Fin p → Fin q → ℝ) (j : Fin p) (o o' : Fin q) (hoo : o ≠ o')
    (h1 : θ j o ≠ 0) (h2 : θ j o' ≠ 0) : squareGrad X Y alpha l1 false θ j o ≠ colG X alpha l1 (fun i => Y i o) (fun j => θ j o) j := by
  intro h
  have hn' : (n : ℝ) ≠ 0 := Nat.cast_ne_zero.2 hn
  unfold colG squareGrad at h
  have h3 := mul_left_cancel₀ (one_div_ne_zero hn') h
  simp only [mulT, regGrad, gt_iff_lt, ha, hl, if_true, Bool.false_and, Bool.false_eq_true, if_false] at h3
  have h4 : l1 * θ j o / Real.sqrt (∑ o, θ j o ^ 2) = l1 * θ j o / Real.sqrt (∑ _o : Fin 1, θ j o ^ 2) := by linarith
  rw [Fin.sum_univ_one, Real.sqrt_sq_eq_abs] at h4
  have hle : θ j o ^ 2 + θ j o' ^ 2 ≤ ∑ o, θ j o ^ 2 := by
    rw [← Finset.add_sum_erase _ _ (Finset.mem_univ o)]
    have : θ j o' ^ 2 ≤ ∑ x ∈ Finset.univ.erase o, θ j x ^ 2 :=
      Finset.single_le_sum (f := fun x => θ j x ^ 2) (fun _ _ => sq_nonneg _) (Finset.mem_erase.2 ⟨hoo.symm, Finset.mem_univ _⟩)
    linarith
  have hlt : |θ j o| < Real.sqrt (∑ o, θ j o ^ 2) := by
    rw [← Real.sqrt_sq_eq_abs]
    exact Real.sqrt_lt_sqrt (sq_nonneg _) (by have := pow_pos (abs_pos.2 h2) 2; rw [sq_abs] at this; linarith)
  have hp := abs_pos.2 h1
  have hp2 := hp.trans hlt
  rw [div_eq_div_iff hp2.ne' hp.ne'] at h4
  have := mul_left_cancel₀ (mul_ne_zero hl.ne' h1) h4
  exact hlt.ne this

example : (fun (_ : Fin 1) (o : Fin 2) => if o = 0 then (3 : ℝ) else 4) 0 0 ≠ 0 ∧ (fun (_ : Fin 1) (o : Fin 2) => if o = 0 then (3 : ℝ) else 4) 0 1 ≠ 0 := by norm_num

/-- Mean of the squared residuals over all samples and outputs. -/
noncomputable def meanSquare (X : Fin n → Fin p → ℝ) (Y : Fin n → Fin q → ℝ) (θ : Fin p → Fin q → ℝ) : ℝ := (∑ i, ∑ o, (Y i o - ∑ j, X i j * θ j o) ^ 2) / (n * q)

/-- C178 fails: the `RMSE` of a joint fit, even when the last point evaluated is the one returned, is the root of the mean squared residual only for an exact fit or for as many samples as outputs. -/
theorem C178_rmse_violated (hn : n ≠ 0) (hq : q ≠ 0) (X : Fin n → Fin p → ℝ) (Y : Fin n → Fin q → ℝ) (alpha l1 : ℝ) (skip : Bool) (minimize : JointMinimizer p q) (start : Fin p → Fin q → ℝ) (r : JointRet p q)
    (hr : minimize (squareJ X Y alpha l1 skip) (squareGrad X Y alpha l1 skip) start = some r) (hlast : r.last = r.x) :
    ∃ f, gomJoint X Y alpha l1 skip minimize start = some f ∧ (f.rmse = Real.sqrt (meanSquare X Y f.theta) ↔ meanSquare X Y f.theta = 0 ∨ n = q) := by
  refine ⟨_, by unfold gomJoint; rw [hr]; rfl, ?_⟩
  simp only [hlast]
  have hn0 : (0 : ℝ) < n := Nat.cast_pos.2 (Nat.pos_of_ne_zero hn)
  have hq0 : (0 : ℝ) < q := Nat.cast_pos.2 (Nat.pos_of_ne_zero hq)
  set S : ℝ := ∑ i, ∑ o, (mulT X r.x i o - Y i o) ^ 2 with hS
  have hm : meanSquare X Y r.x = S / (n * q) := by
    unfold meanSquare
    congr 1
    exact Finset.sum_congr rfl (fun i _ => Finset.sum_congr rfl (fun o _ => by unfold mulT; ring))
  have hS0 : 0 ≤ S := Finset.sum_nonneg (fun _ _ => Finset.sum_nonneg (fun _ _ => sq_nonneg _))
  rw [hm]
  have hl0 : 0 ≤ Real.sqrt S / q := by positivity
  have hr0 : 0 ≤ S / (n * q) := by positivity
  constructor
  · intro h
    have h2 : (Real.sqrt S / q) ^ 2 = S / (n * q) := by rw [h, Real.sq_sqrt hr0]
    rw [div_pow, Real.sq_sqrt hS0, div_eq_div_iff (by positivity) (by positivity)] at h2
    by_cases hz : S = 0
    · left; rw [hz, zero_div]
    · right
      have h3 := mul_left_cancel₀ hz h2
      have h4 : (n : ℝ) = q := by
        have h5 : (q : ℝ) * (n - q) = 0 := by linear_combination h3
        rcases mul_eq_zero.1 h5 with h6 | h6
        · exact absurd h6 hq0.ne'
        · linarith
      exact_mod_cast h4
  · rintro (h | h)
    · rw [div_eq_zero_iff] at h
      rcases h with h | h
      · rw [h]; simp
      · exact absurd h (by positivity)
    · subst h
      rw [Real.sqrt_div hS0, Real.sqrt_mul_self hn0.le]

/-- A minimiser that stays where it starts. -/
example : ∃ r : JointRet 1 1, (fun (_ : (Fin 1 → Fin 1 → ℝ) → ℝ) (_ : (Fin 1 → Fin 1 → ℝ) → Fin 1 → Fin 1 → ℝ) (s : Fin 1 → Fin 1 → ℝ) => some (⟨s, s, 1, false⟩ : JointRet 1 1))
    (squareJ (fun (_ : Fin 2) _ => 1) (fun _ _ => 3) 0 0 false) (squareGrad (fun (_ : Fin 2) _ => 1) (fun _ _ => 3) 0 0 false) (fun _ _ => 0) = some r ∧ r.last = r.x := ⟨_, rfl, rfl⟩

/-- C178 fails for the loss as well: the `J` of a joint fit is 0 whatever the fit, and so, without a penalty, is the loss of the returned parameters only if they fit every target exactly. -/
theorem C178_loss_violated (hn : n ≠ 0) (X : Fin n → Fin p → ℝ) (Y : Fin n → Fin q → ℝ) (alpha l1 : ℝ) (ha : alpha ≤ 0) (skip : Bool) (minimize : JointMinimizer p q) (start : Fin p → Fin q → ℝ) (f : GomResult p q)
    (hf : gomJoint X Y alpha l1 skip minimize start = some f) : f.J = 0 ∧ (f.J = squareJ X Y alpha l1 skip f.theta ↔ ∀ i o, (∑ j, X i j * f.theta j o) = Y i o) := by
  have h0 : f.J = 0 := by
    unfold gomJoint at hf
    cases hm : minimize (squareJ X Y alpha l1 skip) (squareGrad X Y alpha l1 skip) start with
    | none => rw [hm] at hf; simp at hf
    | some r =>
      rw [hm] at hf
      rw [← Option.some.inj hf]
  refine ⟨h0, ?_⟩
  have hn0 : (0 : ℝ) < 2 * n := by
    have : (0 : ℝ) < n := Nat.cast_pos.2 (Nat.pos_of_ne_zero hn)
    linarith
  rw [h0, squareJ, if_neg (not_lt.2 ha), add_zero, eq_comm, div_eq_zero_iff, or_iff_left hn0.ne',
    Finset.sum_eq_zero_iff_of_nonneg (fun _ _ => Finset.sum_nonneg (fun _ _ => mul_self_nonneg _))]
  constructor
  · intro h i o
    have := (Finset.sum_eq_zero_iff_of_nonneg (fun _ _ => mul_self_nonneg _)).1 (h i (Finset.mem_univ i)) o (Finset.mem_univ o)
    have := mul_self_eq_zero.1 this
    unfold mulT at this
    linarith
  · intro h i _
    refine Finset.sum_eq_zero (fun o _ => ?_)
    rw [mulT, h i o, sub_self, mul_zero]

/-- A minimiser that stays where it starts, away from the targets 3. -/
example : ∃ f, gomJoint (fun (_ : Fin 2) (_ : Fin 1) => (1 : ℝ)) (fun _ (_ : Fin 1) => 3) 0 0 false (fun _ _ s => some (⟨s, s, 1, false⟩ : JointRet 1 1)) (fun _ _ => 0) = some f ∧ f.J = 0 ∧
    f.J ≠ squareJ (fun (_ : Fin 2) (_ : Fin 1) => (1 : ℝ)) (fun _ (_ : Fin 1) => 3) 0 0 false f.theta := by
  refine ⟨_, rfl, rfl, fun h => ?_⟩
  have := ((C178_loss_violated (by norm_num) _ _ 0 0 (le_refl _) false (fun _ _ s => some (⟨s, s, 1, false⟩ : JointRet 1 1)) (fun _ _ => 0) _ rfl).2.1 h) 0 0
  norm_num at this

end Sk.Lin
