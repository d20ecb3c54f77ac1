import Verif.Model.Mlp
import Verif.Model.Logistic
import Mathlib.Tactic.Linarith
import Mathlib.Tactic.NormNum
import Mathlib.Tactic.Positivity
import Mathlib.Algebra.Order.BigOperators.Ring.Finset
import Mathlib.Algebra.BigOperators.Field

/-!
# C179: the log losses of the networks and of logistic regression

`hmin` and `hmax` are the clamping bounds of the code: the float after 0 and the float before 1.
-/
set_option autoImplicit false

namespace Sk.Mlp

open scoped BigOperators

/-- 0/1 targets. -/
def Binary {n q : ℕ} (y : Fin n → Fin q → ℝ) : Prop := ∀ i o, y i o = 0 ∨ y i o = 1

/-- The probability used by the losses: the nearest one to `h` in `[hmin, hmax]`. -/
theorem clamp_spec (hmin hmax h : ℝ) (h12 : hmin ≤ hmax) : clampP hmin hmax h = max hmin (min hmax h) := by
  unfold clampP
  by_cases h1 : h < hmin
  · rw [if_pos h1, min_eq_right (by linarith), max_eq_left h1.le]
  · rw [if_neg h1]
    by_cases h2 : h > hmax
    · rw [if_pos h2, min_eq_left h2.le, max_eq_right h12]
    · rw [if_neg h2, min_eq_right (not_lt.1 h2), max_eq_right (not_lt.1 h1)]

theorem clamp_mem (hmin hmax h : ℝ) (h12 : hmin ≤ hmax) : hmin ≤ clampP hmin hmax h ∧ clampP hmin hmax h ≤ hmax := by
  rw [clamp_spec _ _ _ h12]
  exact ⟨le_max_left _ _, max_le h12 (min_le_left _ _)⟩

theorem clamp_mono (hmin hmax a b : ℝ) (h12 : hmin ≤ hmax) (h : a ≤ b) : clampP hmin hmax a ≤ clampP hmin hmax b := by
  rw [clamp_spec _ _ _ h12, clamp_spec _ _ _ h12]
  exact max_le_max le_rfl (min_le_min le_rfl h)

/-- C179: for a target matrix with one 1 in each row, at the column `c i`, `log_loss` is the mean over the rows of minus the logarithm of the clamped probability of that column. -/
theorem C179_log_loss {n q : ℕ} (hmin hmax : ℝ) (h12 : hmin ≤ hmax) (c : Fin n → Fin q) (h : Fin n → Fin q → ℝ) :
    logLoss hmin hmax (fun i o => if o = c i then 1 else 0) h = (∑ i, -Real.log (max hmin (min hmax (h i (c i))))) / n := by
  unfold logLoss
  congr 1
  refine Finset.sum_congr rfl fun i _ => ?_
  rw [Finset.sum_eq_single (c i)]
  · simp [clamp_spec _ _ _ h12]
  · intro o _ ho
    simp [ho]
  · simp

/-- C179: with 0/1 targets `binary_log_loss` is the sum over the columns, averaged over the rows, of minus the logarithm of the clamped probability given to the target. -/
theorem C179_binary_log_loss {n q : ℕ} (hmin hmax : ℝ) (h12 : hmin ≤ hmax) (y h : Fin n → Fin q → ℝ) (hy : Binary y) :
    binaryLogLoss hmin hmax y h = (∑ i, ∑ o, -Real.log (if y i o = 1 then max hmin (min hmax (h i o)) else 1 - max hmin (min hmax (h i o)))) / n := by
  unfold binaryLogLoss
  congr 1
  refine Finset.sum_congr rfl fun i _ => Finset.sum_congr rfl fun o _ => ?_
  rw [clamp_spec _ _ _ h12]
  rcases hy i o with h0 | h1
  · rw [h0, if_neg (by norm_num)]
    rw [show (1 : ℝ) + -max hmin (min hmax (h i o)) = 1 - max hmin (min hmax (h i o)) by ring]
    ring
  · rw [h1, if_pos rfl]
    ring

/-- C179: both losses lie between 0 and a bound that does not depend on the probabilities, which may be 0 or 1 (or anything else). -/
theorem C179_bounded {n q : ℕ} (hmin hmax : ℝ) (h0 : 0 < hmin) (h12 : hmin ≤ hmax) (h1 : hmax < 1) (y h : Fin n → Fin q → ℝ) (hy : Binary y) :
    (0 ≤ logLoss hmin hmax y h ∧ logLoss hmin hmax y h ≤ q * -Real.log hmin) ∧
    (0 ≤ binaryLogLoss hmin hmax y h ∧ binaryLogLoss hmin hmax y h ≤ q * -Real.log (min hmin (1 - hmax))) := by
  have hn : (0 : ℝ) ≤ n := Nat.cast_nonneg n
  have mean : ∀ (t : Fin n → Fin q → ℝ) (B : ℝ), 0 ≤ B → (∀ i o, 0 ≤ t i o ∧ t i o ≤ B) → 0 ≤ (∑ i, ∑ o, t i o) / n ∧ (∑ i, ∑ o, t i o) / n ≤ q * B := by
    intro t B hB ht
    refine ⟨div_nonneg (Finset.sum_nonneg fun i _ => Finset.sum_nonneg fun o _ => (ht i o).1) hn, ?_⟩
    have hle : ∑ i, ∑ o, t i o ≤ n * (q * B) := by
      calc ∑ i, ∑ o, t i o ≤ ∑ _i : Fin n, ∑ _o : Fin q, B := Finset.sum_le_sum fun i _ => Finset.sum_le_sum fun o _ => (ht i o).2
        _ = n * (q * B) := by simp
    rcases Nat.eq_zero_or_pos n with rfl | hpos
    · simp only [Nat.cast_zero, div_zero]
      positivity
    · rw [div_le_iff₀ (by exact_mod_cast hpos)]
      linarith
  have hc : ∀ v : ℝ, hmin ≤ clampP hmin hmax v ∧ clampP hmin hmax v ≤ hmax := fun v => clamp_mem _ _ v h12
  have l1 : ∀ v : ℝ, 0 ≤ -Real.log (clampP hmin hmax v) ∧ -Real.log (clampP hmin hmax v) ≤ -Real.log hmin := by
    intro v
    have := Real.log_le_log h0 (hc v).1
    have := Real.log_nonpos (h0.le.trans (hc v).1) ((hc v).2.trans h1.le)
    constructor <;> linarith
  have hm0 : 0 < min hmin (1 - hmax) := lt_min h0 (by linarith)
  have l2 : ∀ v : ℝ, -Real.log (clampP hmin hmax v) ≤ -Real.log (min hmin (1 - hmax)) := by
    intro v
    have := Real.log_le_log hm0 (min_le_left hmin (1 - hmax))
    linarith [(l1 v).2]
  have l3 : ∀ v : ℝ, 0 ≤ -Real.log (1 + -clampP hmin hmax v) ∧ -Real.log (1 + -clampP hmin hmax v) ≤ -Real.log (min hmin (1 - hmax)) := by
    intro v
    have a := (hc v).1
    have b := (hc v).2
    have := Real.log_le_log hm0 (show min hmin (1 - hmax) ≤ 1 + -clampP hmin hmax v from (min_le_right _ _).trans (by linarith))
    have := Real.log_nonpos (show (0 : ℝ) ≤ 1 + -clampP hmin hmax v by linarith) (by linarith)
    constructor <;> linarith
  constructor
  · refine mean _ _ (by linarith [(l1 0).1, (l1 0).2]) fun i o => ?_
    rcases hy i o with e | e
    · rw [e, if_neg (by simp)]
      exact ⟨le_rfl, by linarith [(l1 0).1, (l1 0).2]⟩
    · rw [e, if_pos one_ne_zero]
      have := l1 (h i o)
      constructor <;> linarith
  · refine mean _ _ (by linarith [(l3 0).1, (l3 0).2]) fun i o => ?_
    rcases hy i o with e | e
    · rw [e]
      have := l3 (h i o)
      constructor <;> linarith
    · rw [e]
      have := l1 (h i o)
      have := l2 (h i o)
      constructor <;> linarith

/-- C179: a network that gives every target at least as much probability (at least as much where the target is 1, at most as much where it is 0) has at most the loss.  For `log_loss` only the columns with target 1
matter. -/
theorem C179_monotone {n q : ℕ} (hmin hmax : ℝ) (h0 : 0 < hmin) (h12 : hmin ≤ hmax) (h1 : hmax < 1) (y h h' : Fin n → Fin q → ℝ) (hy : Binary y) (hup : ∀ i o, y i o = 1 → h i o ≤ h' i o) :
    logLoss hmin hmax y h' ≤ logLoss hmin hmax y h ∧ ((∀ i o, y i o = 0 → h' i o ≤ h i o) → binaryLogLoss hmin hmax y h' ≤ binaryLogLoss hmin hmax y h) := by
  have hn : (0 : ℝ) ≤ n := Nat.cast_nonneg n
  have hlog : ∀ a b : ℝ, a ≤ b → Real.log (clampP hmin hmax a) ≤ Real.log (clampP hmin hmax b) := fun a b hab =>
    Real.log_le_log (h0.trans_le (clamp_mem _ _ a h12).1) (clamp_mono _ _ _ _ h12 hab)
  constructor
  · refine div_le_div_of_nonneg_right (Finset.sum_le_sum fun i _ => Finset.sum_le_sum fun o _ => ?_) hn
    rcases hy i o with e | e
    · simp [e]
    · rw [e, if_pos one_ne_zero, if_pos one_ne_zero]
      linarith [hlog _ _ (hup i o e)]
  · intro hdn
    refine div_le_div_of_nonneg_right (Finset.sum_le_sum fun i _ => Finset.sum_le_sum fun o _ => ?_) hn
    rcases hy i o with e | e
    · rw [e]
      have hb := (clamp_mem _ _ (h i o) h12).2
      have := Real.log_le_log (show (0 : ℝ) < 1 + -clampP hmin hmax (h i o) by linarith) (show 1 + -clampP hmin hmax (h i o) ≤ 1 + -clampP hmin hmax (h' i o) by
        linarith [clamp_mono hmin hmax _ _ h12 (hdn i o e)])
      linarith
    · rw [e]
      linarith [hlog _ _ (hup i o e)]

/-- C179: logistic regression uses the same two losses: `log_loss` for several columns, `binary_log_loss` for one. -/
theorem C179_logistic {n q : ℕ} (hmin hmax : ℝ) (y h : Fin n → Fin q → ℝ) :
    Logistic.dataLoss hmin hmax y h = if 1 < q then logLoss hmin hmax y h else binaryLogLoss hmin hmax y h := by
  unfold Logistic.dataLoss Logistic.outOf
  by_cases hq : q > 1
  · rw [if_pos hq, if_pos hq]; rfl
  · rw [if_neg hq, if_neg hq]; rfl

/-- Hypotheses met: one sample of class 0 among two columns, with the probability of its class raised from 0 to 1. -/
example : (0 : ℝ) < 1 / 4 ∧ (1 / 4 : ℝ) ≤ 3 / 4 ∧ (3 / 4 : ℝ) < 1 ∧ Binary (fun (_ : Fin 1) (o : Fin 2) => if o = 0 then (1 : ℝ) else 0) ∧
    ∀ (_ : Fin 1) (o : Fin 2), (if o = 0 then (1 : ℝ) else 0) = 1 → (0 : ℝ) ≤ if o = 0 then 1 else 0 := by
  refine ⟨by norm_num, by norm_num, by norm_num, fun _ o => ?_, fun _ o h => ?_⟩
  · by_cases h : o = 0 <;> simp [h]
  · rw [h]; norm_num

end Sk.Mlp
