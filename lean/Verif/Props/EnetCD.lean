import Verif.Model.EnetCD
import Mathlib.Algebra.BigOperators.Field
import Mathlib.Tactic.Ring
import Mathlib.Tactic.FieldSimp
import Mathlib.Tactic.Linarith
import Mathlib.Tactic.Positivity
import Mathlib.Tactic.LinearCombination

/-! # C46, C47, C88: elastic-net coordinate descent -/
set_option autoImplicit false

namespace Sk.Enet

variable {K : Type} [Field K] [LinearOrder K] [IsStrictOrderedRing K] {n p : ℕ}

/-! ### Specification -/

/-- `1/2 ‖y - Xw‖² + alpha ‖w‖₁ + beta/2 ‖w‖²`. -/
def objective (X : Fin n → Fin p → K) (y : Fin n → K) (alpha beta : K) (w : Fin p → K) : K :=
  (∑ i, (y i - ∑ j, X i j * w j) ^ 2) / 2 + alpha * ∑ j, |w j| + beta / 2 * ∑ j, w j ^ 2

/-- Admissible coefficients: nonnegative when `Positive` is set. -/
def Admissible (positive : Bool) (w : Fin p → K) : Prop := positive = true → ∀ j, 0 ≤ w j

/-- The residual is that of the coefficients. -/
def Tracks (X : Fin n → Fin p → K) (y : Fin n → K) (s : St n p K) : Prop := ∀ i, s.R i = y i - ∑ j, X i j * s.w j

/-! ### One coordinate -/

theorem fsign_soft_nonneg (t alpha : K) (ht : 0 ≤ t) : 0 ≤ fsign t * max (|t| - alpha) 0 := by
  unfold fsign
  split
  · rw [one_mul]; exact le_max_right _ _
  · rw [if_pos (by linarith : t = 0), zero_mul]

/-- The soft-thresholded value minimises `a/2 z² - t z + alpha |z|`. -/
theorem soft_min (a t alpha z : K) (ha : 0 < a) (hal : 0 ≤ alpha) :
    let m := fsign t * max (|t| - alpha) 0 / a
    a / 2 * m ^ 2 - t * m + alpha * |m| ≤ a / 2 * z ^ 2 - t * z + alpha * |z| := by
  intro m
  by_cases h : |t| ≤ alpha
  · have hm : m = 0 := by simp only [m]; rw [max_eq_right (by linarith)]; simp
    rw [hm]
    have h1 : t * z ≤ |t| * |z| := by rw [← abs_mul]; exact le_abs_self _
    have h2 : |t| * |z| ≤ alpha * |z| := mul_le_mul_of_nonneg_right h (abs_nonneg z)
    have h3 : 0 ≤ a / 2 * z ^ 2 := by positivity
    simp only [abs_zero]
    nlinarith
  · push Not at h
    rcases lt_trichotomy t 0 with ht | ht | ht
    · have habs : |t| = -t := abs_of_neg ht
      rw [habs] at h
      have hm : m = (t + alpha) / a := by
        simp only [m, fsign]
        rw [if_neg (by linarith), if_neg ht.ne, habs, max_eq_left (by linarith)]
        ring
      have hm0 : m < 0 := by rw [hm]; exact div_neg_of_neg_of_pos (by linarith) ha
      rw [abs_of_neg hm0]
      have hz : -z ≤ |z| := neg_le_abs z
      have hz2 : alpha * (-z) ≤ alpha * |z| := mul_le_mul_of_nonneg_left hz hal
      have key : a / 2 * m ^ 2 - t * m + alpha * -m ≤ a / 2 * z ^ 2 - t * z + alpha * -z := by
        have e1 : a * m = t + alpha := by rw [hm]; field_simp
        have : 0 ≤ a / 2 * (z - m) ^ 2 := by positivity
        nlinarith
      linarith
    · rw [ht, abs_zero] at h; linarith
    · have habs : |t| = t := abs_of_pos ht
      rw [habs] at h
      have hm : m = (t - alpha) / a := by
        simp only [m, fsign]
        rw [if_pos ht, habs, max_eq_left (by linarith)]
        ring
      have hm0 : 0 < m := by rw [hm]; exact div_pos (by linarith) ha
      rw [abs_of_pos hm0]
      have hz2 : alpha * z ≤ alpha * |z| := mul_le_mul_of_nonneg_left (le_abs_self z) hal
      have key : a / 2 * m ^ 2 - t * m + alpha * m ≤ a / 2 * z ^ 2 - t * z + alpha * z := by
        have e1 : a * m = t - alpha := by rw [hm]; field_simp
        have : 0 ≤ a / 2 * (z - m) ^ 2 := by positivity
        nlinarith
      linarith

theorem normCol_nonneg (X : Fin n → Fin p → K) (j : Fin p) : 0 ≤ normCol X j :=
  Finset.sum_nonneg (fun i _ => mul_self_nonneg _)

theorem sum_update (w : Fin p → K) (ii : Fin p) (z : K) (g : Fin p → K → K) :
    ∑ j, g j (Function.update w ii z j) = ∑ j, g j (w j) - g ii (w ii) + g ii z := by
  rw [← Finset.add_sum_erase Finset.univ _ (Finset.mem_univ ii), ← Finset.add_sum_erase Finset.univ (fun j => g j (w j)) (Finset.mem_univ ii)]
  have : ∑ x ∈ Finset.univ.erase ii, g x (Function.update w ii z x) = ∑ x ∈ Finset.univ.erase ii, g x (w x) := by
    apply Finset.sum_congr rfl
    intro j hj
    rw [Function.update_of_ne (Finset.ne_of_mem_erase hj)]
  rw [this, Function.update_self]
  ring

/-- The objective as a function of one coordinate. -/
theorem objective_update (X : Fin n → Fin p → K) (y : Fin n → K) (alpha beta : K) (w : Fin p → K) (ii : Fin p) (z : K) :
    objective X y alpha beta (Function.update w ii z) = objective X y alpha beta (Function.update w ii 0) +
      ((normCol X ii + beta) / 2 * z ^ 2 - (∑ i, X i ii * (y i - ∑ j, X i j * w j + w ii * X i ii)) * z + alpha * |z|) := by
  have h1 : ∀ i (z : K), y i - ∑ j, X i j * Function.update w ii z j = (y i - ∑ j, X i j * w j + w ii * X i ii) - z * X i ii := by
    intro i z
    rw [sum_update w ii z (fun j v => X i j * v)]
    ring
  unfold objective
  simp only [h1]
  rw [sum_update w ii z (fun _ v => |v|), sum_update w ii 0 (fun _ v => |v|), sum_update w ii z (fun _ v => v ^ 2), sum_update w ii 0 (fun _ v => v ^ 2)]
  have h2 : ∑ i, (y i - ∑ j, X i j * w j + w ii * X i ii - z * X i ii) ^ 2 =
      ∑ i, (y i - ∑ j, X i j * w j + w ii * X i ii - 0 * X i ii) ^ 2 - 2 * z * (∑ i, X i ii * (y i - ∑ j, X i j * w j + w ii * X i ii)) + z ^ 2 * normCol X ii := by
    rw [normCol, Finset.mul_sum, Finset.mul_sum, ← Finset.sum_sub_distrib, ← Finset.sum_add_distrib]
    apply Finset.sum_congr rfl
    intro i _
    ring
  rw [h2, abs_zero]
  ring

/-- Result of a coordinate update on a tracked state. -/
theorem coord_spec (X : Fin n → Fin p → K) (y : Fin n → K) (alpha beta : K) (positive : Bool) (s : St n p K) (ii : Fin p) (ht : Tracks X y s) (hn : normCol X ii ≠ 0) :
    ∃ t z : K, t = ∑ i, X i ii * (y i - ∑ j, X i j * s.w j + s.w ii * X i ii) ∧
      (coord X alpha beta positive s ii).w = Function.update s.w ii z ∧ Tracks X y (coord X alpha beta positive s ii) ∧
      z = if positive && decide (t < 0) then 0 else fsign t * max (|t| - alpha) 0 / (normCol X ii + beta) := by
  have hR1 : (if s.w ii ≠ 0 then fun i => s.R i + s.w ii * X i ii else s.R) = fun i => y i - ∑ j, X i j * s.w j + s.w ii * X i ii := by
    split
    · funext i; rw [ht i]
    · rename_i h
      push Not at h
      funext i; rw [ht i, h]; ring
  unfold coord
  rw [if_neg hn]
  simp only [hR1]
  refine ⟨_, _, rfl, rfl, ?_, rfl⟩
  generalize (if (positive && decide (∑ i, X i ii * (y i - ∑ j, X i j * s.w j + s.w ii * X i ii) < 0)) = true then (0 : K)
      else fsign (∑ i, X i ii * (y i - ∑ j, X i j * s.w j + s.w ii * X i ii)) *
        max (|∑ i, X i ii * (y i - ∑ j, X i j * s.w j + s.w ii * X i ii)| - alpha) 0 / (normCol X ii + beta)) = z
  intro i
  rw [sum_update s.w ii z (fun j v => X i j * v)]
  simp only
  split
  · ring
  · rename_i h
    push Not at h
    rw [h]; ring

/-- C46: one coordinate update keeps the residual exact, keeps nonnegative coefficients nonnegative, and leaves the objective at its minimum along that coordinate (over the
admissible values); so it never increases it. -/
theorem C46_step (X : Fin n → Fin p → K) (y : Fin n → K) (alpha beta : K) (positive : Bool) (s : St n p K) (ii : Fin p)
    (hal : 0 ≤ alpha) (hbe : 0 ≤ beta) (ht : Tracks X y s) (hcol : ∃ i, X i ii ≠ 0) :
    let s' := coord X alpha beta positive s ii
    Tracks X y s' ∧ (∀ j, j ≠ ii → s'.w j = s.w j) ∧ (positive = true → 0 ≤ s'.w ii) ∧
      ∀ z : K, (positive = true → 0 ≤ z) → objective X y alpha beta s'.w ≤ objective X y alpha beta (Function.update s.w ii z) := by
  have hn : 0 < normCol X ii := by
    obtain ⟨i, hi⟩ := hcol
    apply Finset.sum_pos'
    · intro i _; exact mul_self_nonneg _
    · exact ⟨i, Finset.mem_univ i, mul_self_pos.2 hi⟩
  intro s'
  obtain ⟨t, z0, h1, h2, h3, h4⟩ := coord_spec X y alpha beta positive s ii ht hn.ne'
  have ha : 0 < normCol X ii + beta := by linarith
  have hnn : positive = true → 0 ≤ z0 := by
    intro hp
    rw [h4, hp]
    by_cases hlt : t < 0
    · simp [hlt]
    · simp only [hlt, decide_false, Bool.and_false, Bool.false_eq_true, if_false]
      exact div_nonneg (fsign_soft_nonneg t alpha (not_lt.1 hlt)) ha.le
  refine ⟨h3, ?_, ?_, ?_⟩
  · intro j hj
    simp only [s', h2, Function.update_of_ne hj]
  · intro hp
    simp only [s', h2, Function.update_self]
    exact hnn hp
  · intro z hz
    simp only [s', h2]
    rw [objective_update X y alpha beta s.w ii z0, objective_update X y alpha beta s.w ii z, ← h1]
    have : (normCol X ii + beta) / 2 * z0 ^ 2 - t * z0 + alpha * |z0| ≤ (normCol X ii + beta) / 2 * z ^ 2 - t * z + alpha * |z| := by
      rw [h4]
      by_cases hc : positive = true ∧ t < 0
      · obtain ⟨hp, hlt⟩ := hc
        have hz0 := hz hp
        simp only [hp, hlt, decide_true, Bool.and_self, if_true]
        have h5 : 0 ≤ (normCol X ii + beta) / 2 * z ^ 2 := by positivity
        have h6 : 0 ≤ alpha * |z| := by positivity
        simp only [abs_zero]
        nlinarith
      · have : (positive && decide (t < 0)) = false := by
          cases hp : positive
          · rfl
          · simp only [Bool.true_and, decide_eq_false_iff_not]
            intro h
            exact hc ⟨hp, h⟩
        simp only [this, Bool.false_eq_true, if_false]
        exact soft_min _ t alpha z ha hal
    linarith

/-- The invariant of a run started with objective at most `J`. -/
structure Good (X : Fin n → Fin p → K) (y : Fin n → K) (alpha beta : K) (positive : Bool) (J : K) (s : St n p K) : Prop where
  tracks : Tracks X y s
  adm : Admissible positive s.w
  le : objective X y alpha beta s.w ≤ J

theorem coord_good (X : Fin n → Fin p → K) (y : Fin n → K) (alpha beta : K) (positive : Bool) (J : K) (s : St n p K) (ii : Fin p)
    (hal : 0 ≤ alpha) (hbe : 0 ≤ beta) (hs : Good X y alpha beta positive J s) : Good X y alpha beta positive J (coord X alpha beta positive s ii) := by
  by_cases hn : normCol X ii = 0
  · rw [coord, if_pos hn]; exact hs
  · have hcol : ∃ i, X i ii ≠ 0 := by
      by_contra h
      push Not at h
      apply hn
      rw [normCol]
      apply Finset.sum_eq_zero
      intro i _; rw [h i]; ring
    obtain ⟨h1, h2, h3, h4⟩ := C46_step X y alpha beta positive s ii hal hbe hs.tracks hcol
    refine ⟨h1, ?_, ?_⟩
    · intro hp j
      by_cases hj : j = ii
      · rw [hj]; exact h3 hp
      · rw [h2 j hj]; exact hs.adm hp j
    · have := h4 (s.w ii) (fun hp => hs.adm hp ii)
      rw [Function.update_eq_self] at this
      exact this.trans hs.le

theorem sweep_good (X : Fin n → Fin p → K) (y : Fin n → K) (alpha beta : K) (positive : Bool) (J : K) (hal : 0 ≤ alpha) (hbe : 0 ≤ beta) (is : List (Fin p)) :
    ∀ r : St n p K × K × K, Good X y alpha beta positive J r.1 → Good X y alpha beta positive J (sweep X alpha beta positive is r).1 := by
  induction is with
  | nil => intro r h; exact h
  | cons ii is ih =>
    rintro ⟨s, a, b⟩ h
    rw [sweep]
    split
    · exact ih _ h
    · exact ih _ (coord_good X y alpha beta positive J s ii hal hbe h)

theorem loop_good (X : Fin n → Fin p → K) (y : Fin n → K) (alpha beta dwtol tol : K) (positive : Bool) (draws : ℕ → List (Fin p)) (J : K) (hal : 0 ≤ alpha) (hbe : 0 ≤ beta) (k : ℕ) :
    ∀ (it : ℕ) (s : St n p K) (gap : K), Good X y alpha beta positive J s →
      let r := loop X y alpha beta dwtol tol positive draws k it s gap
      Good X y alpha beta positive J r.st ∧ (k ≠ 0 → r.gap = gapOf X y alpha beta positive r.st) ∧ it ≤ r.nIter ∧ r.nIter ≤ it + k ∧ (r.nIter < it + k → r.gap < tol) := by
  induction k with
  | zero => intro it s gap h; exact ⟨h, by simp, le_rfl, le_rfl, by simp [loop]⟩
  | succ k ih =>
    intro it s gap h
    have hg := sweep_good X y alpha beta positive J hal hbe (draws it) (s, 0, 0) h
    rw [loop]
    set r := sweep X alpha beta positive (draws it) (s, 0, 0)
    simp only
    by_cases hc : r.2.1 = 0 ∨ r.2.2 / r.2.1 < dwtol ∨ k = 0
    · rw [if_pos hc]
      by_cases hlt : gapOf X y alpha beta positive r.1 < tol
      · rw [if_pos hlt]
        exact ⟨hg, fun _ => rfl, le_rfl, by simp, fun _ => hlt⟩
      · rw [if_neg hlt]
        obtain ⟨h1, h2, h3, h4, h5⟩ := ih (it + 1) r.1 (gapOf X y alpha beta positive r.1) hg
        refine ⟨h1, ?_, by omega, by omega, fun h => h5 (by omega)⟩
        intro _
        by_cases hk : k = 0
        · subst hk; rfl
        · exact h2 hk
    · rw [if_neg hc]
      obtain ⟨h1, h2, h3, h4, h5⟩ := ih (it + 1) r.1 gap hg
      push Not at hc
      exact ⟨h1, fun _ => h2 hc.2.2, by omega, by omega, fun h => h5 (by omega)⟩

/-- C46: whatever the order of the coordinates and the number of iterations, the coefficients returned have an objective at most that of the starting coefficients, are
nonnegative under `Positive` if the starting ones are, and the maintained residual is exactly `y - Xw`. -/
theorem C46_fit (X : Fin n → Fin p → K) (y : Fin n → K) (alpha beta : K) (maxIter : ℕ) (tol : K) (positive : Bool) (draws : ℕ → List (Fin p)) (w : Fin p → K)
    (hal : 0 ≤ alpha) (hbe : 0 ≤ beta) (hw : positive = true → ∀ j, 0 ≤ w j) :
    let r := enet X y alpha beta maxIter tol positive draws w
    objective X y alpha beta r.w ≤ objective X y alpha beta w ∧ (positive = true → ∀ j, 0 ≤ r.w j) ∧ ∀ i, r.R i = y i - ∑ j, X i j * r.w j := by
  intro r
  obtain ⟨h, _⟩ := loop_good X y alpha beta tol (tol * ∑ i, y i * y i) positive draws (objective X y alpha beta w) hal hbe maxIter 0
    ⟨w, fun i => y i - ∑ j, X i j * w j⟩ (tol + 1) ⟨fun _ => rfl, hw, le_rfl⟩
  exact ⟨h.le, h.adm, h.tracks⟩

/-! ### The gap -/

theorem foldl_max_ge (l : List K) : ∀ a : K, a ≤ l.foldl max a ∧ ∀ v ∈ l, v ≤ l.foldl max a := by
  induction l with
  | nil => intro a; simp
  | cons b l ih =>
    intro a
    obtain ⟨h1, h2⟩ := ih (max a b)
    rw [List.foldl_cons]
    refine ⟨(le_max_left a b).trans h1, ?_⟩
    intro v hv
    rcases List.mem_cons.1 hv with rfl | hv
    · exact (le_max_right a v).trans h1
    · exact h2 v hv

theorem le_vmax (v : Fin p → K) (j : Fin p) : v j ≤ vmax v := by
  have hm : v j ∈ List.ofFn v := by rw [List.mem_ofFn]; exact ⟨j, rfl⟩
  unfold vmax
  cases hl : List.ofFn v with
  | nil => rw [hl] at hm; simp at hm
  | cons a l =>
    rw [hl] at hm
    obtain ⟨h1, h2⟩ := foldl_max_ge l a
    rcases List.mem_cons.1 hm with h | h
    · rw [h]; exact h1
    · exact h2 _ h

/-- Weak duality: for any nonnegative scaling `c` of the residual for which the scaled correlations are at most `alpha` in the directions of `v`. -/
theorem weak_duality (X : Fin n → Fin p → K) (y : Fin n → K) (alpha beta c : K) (s : St n p K) (hbe : 0 ≤ beta) (ht : Tracks X y s) (v : Fin p → K)
    (hc : ∀ j, c * ((∑ i, X i j * s.R i) + -beta * s.w j) * v j ≤ alpha * |v j|) :
    objective X y alpha beta s.w - objective X y alpha beta v ≤
      (1 / 2) * (∑ i, s.R i * s.R i) * (1 + c * c) + ((alpha * (∑ j, |s.w j|) - c * (∑ i, s.R i * y i)) + (1 / 2) * beta * (1 + c * c) * (∑ j, s.w j * s.w j)) := by
  have e1 : ∑ i, (y i - ∑ j, X i j * s.w j) ^ 2 = ∑ i, s.R i * s.R i := by
    apply Finset.sum_congr rfl
    intro i _; rw [ht i]; ring
  have e2 : ∑ j, s.w j ^ 2 = ∑ j, s.w j * s.w j := Finset.sum_congr rfl (fun j _ => by ring)
  -- sum of the hypotheses
  have h1 : ∑ j, c * ((∑ i, X i j * s.R i) + -beta * s.w j) * v j ≤ alpha * ∑ j, |v j| := by
    rw [Finset.mul_sum]
    exact Finset.sum_le_sum (fun j _ => hc j)
  have e3 : ∑ j, c * ((∑ i, X i j * s.R i) + -beta * s.w j) * v j = c * (∑ i, s.R i * ∑ j, X i j * v j) - c * beta * ∑ j, s.w j * v j := by
    have : ∀ j, c * ((∑ i, X i j * s.R i) + -beta * s.w j) * v j = (∑ i, c * (s.R i * (X i j * v j))) - c * beta * (s.w j * v j) := by
      intro j
      have h : ∑ i, c * (s.R i * (X i j * v j)) = c * (∑ i, X i j * s.R i) * v j := by
        rw [Finset.mul_sum, Finset.sum_mul]
        exact Finset.sum_congr rfl (fun i _ => by ring)
      rw [h]; ring
    rw [Finset.sum_congr rfl (fun j _ => this j), Finset.sum_sub_distrib, Finset.sum_comm, ← Finset.mul_sum (f := fun j => s.w j * v j)]
    congr 1
    rw [Finset.mul_sum]
    apply Finset.sum_congr rfl
    intro i _
    rw [Finset.mul_sum, Finset.mul_sum]
  -- Fenchel inequalities
  have h2 : c * (∑ i, s.R i * y i) - c * (∑ i, s.R i * ∑ j, X i j * v j) - c ^ 2 / 2 * (∑ i, s.R i * s.R i) ≤ (∑ i, (y i - ∑ j, X i j * v j) ^ 2) / 2 := by
    rw [Finset.mul_sum, Finset.mul_sum, Finset.mul_sum, Finset.sum_div, ← Finset.sum_sub_distrib, ← Finset.sum_sub_distrib]
    apply Finset.sum_le_sum
    intro i _
    nlinarith [sq_nonneg (y i - ∑ j, X i j * v j - c * s.R i)]
  have h3 : c * beta * (∑ j, s.w j * v j) - c ^ 2 / 2 * beta * (∑ j, s.w j * s.w j) ≤ beta / 2 * ∑ j, v j ^ 2 := by
    rw [Finset.mul_sum, Finset.mul_sum, Finset.mul_sum, ← Finset.sum_sub_distrib]
    apply Finset.sum_le_sum
    intro j _
    nlinarith [mul_nonneg hbe (sq_nonneg (v j - c * s.w j))]
  unfold objective
  rw [e1, e2]
  nlinarith

/-- C47: the gap formula bounds the suboptimality of the coefficients. -/
theorem C47_gap (X : Fin n → Fin p → K) (y : Fin n → K) (alpha beta : K) (positive : Bool) (s : St n p K) (hal : 0 ≤ alpha) (hbe : 0 ≤ beta) (ht : Tracks X y s)
    (v : Fin p → K) (hv : positive = true → ∀ j, 0 ≤ v j) :
    objective X y alpha beta s.w - objective X y alpha beta v ≤ gapOf X y alpha beta positive s := by
  set XtA : Fin p → K := fun j => (∑ i, X i j * s.R i) + -beta * s.w j with hX
  set d : K := if positive then vmax XtA else vmax (fun j => |XtA j|) with hd
  have hbound : ∀ (c : K) (j : Fin p), 0 ≤ c → c * d ≤ alpha → c * XtA j * v j ≤ alpha * |v j| := by
    intro c j hc hcd
    cases hp : positive
    · have h1 : |XtA j| ≤ d := by rw [hd, hp]; exact le_vmax (fun j => |XtA j|) j
      have h2 : XtA j * v j ≤ |XtA j| * |v j| := by rw [← abs_mul]; exact le_abs_self _
      have h3 : c * |XtA j| ≤ alpha := (mul_le_mul_of_nonneg_left h1 hc).trans hcd
      have h4 := mul_le_mul_of_nonneg_right h3 (abs_nonneg (v j))
      have h5 := mul_le_mul_of_nonneg_left h2 hc
      nlinarith
    · have h1 : XtA j ≤ d := by rw [hd, hp]; exact le_vmax XtA j
      have h0 := hv hp j
      rw [abs_of_nonneg h0]
      have h3 : c * XtA j ≤ alpha := (mul_le_mul_of_nonneg_left h1 hc).trans hcd
      exact mul_le_mul_of_nonneg_right h3 h0
  have hgap : gapOf X y alpha beta positive s = (if alpha < d then (1 / 2) * ((∑ i, s.R i * s.R i) + (∑ i, s.R i * s.R i) * (if alpha < d then alpha / d else 1) *
      (if alpha < d then alpha / d else 1)) else (∑ i, s.R i * s.R i)) + ((alpha * (∑ j, |s.w j|) - (if alpha < d then alpha / d else 1) * (∑ i, s.R i * y i)) +
      (1 / 2) * beta * (1 + (if alpha < d then alpha / d else 1) * (if alpha < d then alpha / d else 1)) * (∑ j, s.w j * s.w j)) := rfl
  by_cases hlt : alpha < d
  · have hd0 : 0 < d := lt_of_le_of_lt hal hlt
    have := weak_duality X y alpha beta (alpha / d) s hbe ht v (fun j => hbound (alpha / d) j (by positivity) (by rw [div_mul_cancel₀ _ hd0.ne']))
    have e : gapOf X y alpha beta positive s = (1 / 2) * ((∑ i, s.R i * s.R i) + (∑ i, s.R i * s.R i) * (alpha / d) * (alpha / d)) +
        ((alpha * (∑ j, |s.w j|) - (alpha / d) * (∑ i, s.R i * y i)) + (1 / 2) * beta * (1 + (alpha / d) * (alpha / d)) * (∑ j, s.w j * s.w j)) := by
      rw [hgap]; simp only [if_pos hlt]
    rw [e]
    linarith
  · have := weak_duality X y alpha beta 1 s hbe ht v (fun j => hbound 1 j zero_le_one (by rw [one_mul]; exact not_lt.1 hlt))
    have e : gapOf X y alpha beta positive s = (∑ i, s.R i * s.R i) +
        ((alpha * (∑ j, |s.w j|) - 1 * (∑ i, s.R i * y i)) + (1 / 2) * beta * (1 + 1 * 1) * (∑ j, s.w j * s.w j)) := by
      rw [hgap]; simp only [if_neg hlt]
    rw [e]
    linarith

/-- C47: with at least one iteration, the returned `Gap` bounds the distance of the returned coefficients' objective to that of any competitor (nonnegative when `Positive`).
Missing for the full claim: what `C47_no_iteration_violated` refutes. -/
theorem C47_fit_partial (X : Fin n → Fin p → K) (y : Fin n → K) (alpha beta : K) (maxIter : ℕ) (tol : K) (positive : Bool) (draws : ℕ → List (Fin p)) (w : Fin p → K)
    (hal : 0 ≤ alpha) (hbe : 0 ≤ beta) (hit : 1 ≤ maxIter) (v : Fin p → K) (hv : positive = true → ∀ j, 0 ≤ v j) :
    let r := enet X y alpha beta maxIter tol positive draws w
    objective X y alpha beta r.w - objective X y alpha beta v ≤ r.gap := by
  intro r
  have key : ∀ (k it : ℕ) (s : St n p K) (gap : K), Tracks X y s →
      let q := loop X y alpha beta tol (tol * ∑ i, y i * y i) positive draws k it s gap
      Tracks X y q.st ∧ (k ≠ 0 → q.gap = gapOf X y alpha beta positive q.st) := by
    have hco : ∀ (s : St n p K) (ii : Fin p), Tracks X y s → Tracks X y (coord X alpha beta positive s ii) := by
      intro s ii h
      by_cases hn : normCol X ii = 0
      · rw [coord, if_pos hn]; exact h
      · obtain ⟨_, _, _, _, h3, _⟩ := coord_spec X y alpha beta positive s ii h hn
        exact h3
    have hsw : ∀ (is : List (Fin p)) (q : St n p K × K × K), Tracks X y q.1 → Tracks X y (sweep X alpha beta positive is q).1 := by
      intro is
      induction is with
      | nil => intro q h; exact h
      | cons ii is ih =>
        rintro ⟨s, a, b⟩ h
        rw [sweep]
        split
        · exact ih _ h
        · exact ih _ (hco s ii h)
    intro k
    induction k with
    | zero => intro it s gap h; exact ⟨h, by simp⟩
    | succ k ih =>
      intro it s gap h
      have hg := hsw (draws it) (s, 0, 0) h
      rw [loop]
      set q := sweep X alpha beta positive (draws it) (s, 0, 0)
      simp only
      by_cases hc : q.2.1 = 0 ∨ q.2.2 / q.2.1 < tol ∨ k = 0
      · rw [if_pos hc]
        split
        · exact ⟨hg, fun _ => rfl⟩
        · obtain ⟨h1, h2⟩ := ih (it + 1) q.1 (gapOf X y alpha beta positive q.1) hg
          refine ⟨h1, fun _ => ?_⟩
          by_cases hk : k = 0
          · subst hk; rfl
          · exact h2 hk
      · rw [if_neg hc]
        obtain ⟨h1, h2⟩ := ih (it + 1) q.1 gap hg
        push Not at hc
        exact ⟨h1, fun _ => h2 hc.2.2⟩
  obtain ⟨h1, h2⟩ := key maxIter 0 ⟨w, fun i => y i - ∑ j, X i j * w j⟩ (tol + 1) (fun _ => rfl)
  have h3 := C47_gap X y alpha beta positive _ hal hbe h1 v hv
  rw [← h2 (by omega)] at h3
  exact h3

/-- C47, violated for `MaxIter = 0`: the reported gap is then the tolerance plus one, whatever the data. For every feature matrix with a non-zero column, all penalties, tolerances and starting coefficients there are
targets for which some other coefficients (as nonnegative as the starting ones) improve the objective by more than that. -/
theorem C47_no_iteration_violated (X : Fin n → Fin p → K) (alpha beta tol : K) (positive : Bool) (draws : ℕ → List (Fin p)) (w : Fin p → K) (j : Fin p) (hj : ∃ i, X i j ≠ 0) :
    ∃ (y : Fin n → K) (v : Fin p → K), (∀ k, w k ≤ v k) ∧
      let r := enet X y alpha beta 0 tol positive draws w
      r.gap = tol + 1 ∧ r.gap < objective X y alpha beta r.w - objective X y alpha beta v := by
  obtain ⟨i0, hi0⟩ := hj
  have hN : 0 < ∑ i, X i j ^ 2 := by
    refine Finset.sum_pos' (fun _ _ => sq_nonneg _) ⟨i0, Finset.mem_univ _, ?_⟩
    exact lt_of_le_of_ne (sq_nonneg _) (Ne.symm (pow_ne_zero 2 hi0))
  set v : Fin p → K := fun k => w k + if k = j then 1 else 0 with hv
  set P : (Fin p → K) → K := fun w => alpha * ∑ j, |w j| + beta / 2 * ∑ j, w j ^ 2 with hP
  set N := ∑ i, X i j ^ 2 with hNd
  set c : K := (tol + 2 + P v - P w) / N + 1 / 2 with hc
  refine ⟨fun i => (∑ k, X i k * w k) + c * X i j, v, ?_, rfl, ?_⟩
  · intro k
    simp only [hv]
    split <;> linarith [zero_le_one' K]
  show tol + 1 < objective X _ alpha beta w - objective X _ alpha beta v
  have e1 : ∀ i, (∑ k, X i k * w k) + c * X i j - (∑ k, X i k * w k) = c * X i j := fun i => by ring
  have e2 : ∀ i, (∑ k, X i k * w k) + c * X i j - (∑ k, X i k * v k) = (c - 1) * X i j := by
    intro i
    simp only [hv, mul_add, Finset.sum_add_distrib, mul_ite, mul_one, mul_zero, Finset.sum_ite_eq', Finset.mem_univ, if_true]
    ring
  have o1 : objective X (fun i => (∑ k, X i k * w k) + c * X i j) alpha beta w = c ^ 2 * N / 2 + P w := by
    simp only [objective, e1, mul_pow, ← Finset.mul_sum, hP]
    ring
  have o2 : objective X (fun i => (∑ k, X i k * w k) + c * X i j) alpha beta v = (c - 1) ^ 2 * N / 2 + P v := by
    simp only [objective, e2, mul_pow, ← Finset.mul_sum, hP]
    ring
  rw [o1, o2]
  have hcN : c * N = (tol + 2 + P v - P w) + N / 2 := by
    rw [hc, add_mul, div_mul_cancel₀ _ hN.ne']
    ring
  have : c ^ 2 * N / 2 + P w - ((c - 1) ^ 2 * N / 2 + P v) = tol + 2 := by linear_combination hcN
  linarith

/-- One sample with `x = 1`, no penalties, tolerance 0, from 0: with `y = 2` the objective can be improved by 2 while the gap is 1. -/
example : let r := enet (n := 1) (p := 1) (K := ℚ) (fun _ _ => 1) (fun _ => 2) 0 0 0 0 false (fun _ => List.finRange 1) (fun _ => 0)
    r.gap = 1 ∧ objective (fun (_ _ : Fin 1) => (1 : ℚ)) (fun _ => 2) 0 0 r.w - objective (fun (_ _ : Fin 1) => (1 : ℚ)) (fun _ => 2) 0 0 (fun _ => 2) = 2 := by decide +kernel

/-- C88 (partial): the gap is below `Eps` whenever the reported iteration count shows that the loop stopped early. -/
theorem C88_partial (X : Fin n → Fin p → K) (y : Fin n → K) (alpha beta : K) (maxIter : ℕ) (tol : K) (positive : Bool) (draws : ℕ → List (Fin p)) (w : Fin p → K) 
    (hal : 0 ≤ alpha) (hbe : 0 ≤ beta) (hw : positive = true → ∀ j, 0 ≤ w j) :
    let r := enet X y alpha beta maxIter tol positive draws w
    1 ≤ r.nIter ∧ r.nIter ≤ maxIter + 1 ∧ (r.nIter ≤ maxIter → r.gap < r.eps) := by
  intro r
  obtain ⟨_, _, h3, h4, h5⟩ := loop_good X y alpha beta tol (tol * ∑ i, y i * y i) positive draws (objective X y alpha beta w) hal hbe maxIter 0
    ⟨w, fun i => y i - ∑ j, X i j * w j⟩ (tol + 1) ⟨fun _ => rfl, hw, le_rfl⟩
  refine ⟨by simp [r, enet], by simp only [r, enet]; omega, ?_⟩
  intro h
  apply h5
  simp only [r, enet] at h
  omega

/-- C88, violated: with a tolerance of 0 the loop never stops early, and the count reported is one more than `MaxIter`, for all data. -/
theorem C88_count_violated (X : Fin n → Fin p → K) (y : Fin n → K) (alpha beta : K) (maxIter : ℕ) (positive : Bool) (draws : ℕ → List (Fin p)) (w : Fin p → K)
    (hal : 0 ≤ alpha) (hbe : 0 ≤ beta) (hw : positive = true → ∀ j, 0 ≤ w j) :
    (enet X y alpha beta maxIter 0 positive draws w).nIter = maxIter + 1 := by
  obtain ⟨h1, h2, h3⟩ := C88_partial X y alpha beta maxIter 0 positive draws w hal hbe hw
  by_contra hne
  have hle : (enet X y alpha beta maxIter 0 positive draws w).nIter ≤ maxIter := by omega
  have h4 := h3 hle
  have h5 : 1 ≤ maxIter := by omega
  obtain ⟨_, hadm, _⟩ := C46_fit X y alpha beta maxIter 0 positive draws w hal hbe hw
  have h6 := C47_fit_partial X y alpha beta maxIter 0 positive draws w hal hbe h5 _ hadm
  have h7 : (enet X y alpha beta maxIter 0 positive draws w).eps = 0 := by simp [enet]
  rw [h7] at h4
  simp only [sub_self] at h6
  linarith

/-! ### Fixed points -/

/-- C46: coefficients that no coordinate update changes are a global minimiser (all columns non-zero). -/
theorem C46_fixpoint_optimal (X : Fin n → Fin p → K) (y : Fin n → K) (alpha beta : K) (s : St n p K) (hal : 0 ≤ alpha) (hbe : 0 ≤ beta) (ht : Tracks X y s)
    (hcol : ∀ j, ∃ i, X i j ≠ 0) (hfix : ∀ j, (coord X alpha beta false s j).w = s.w) (v : Fin p → K) :
    objective X y alpha beta s.w ≤ objective X y alpha beta v := by
  have kkt : ∀ j, |(∑ i, X i j * s.R i) + -beta * s.w j| ≤ alpha ∧ ((∑ i, X i j * s.R i) + -beta * s.w j) * s.w j = alpha * |s.w j| := by
    intro j
    have hn : 0 < normCol X j := by
      obtain ⟨i, hi⟩ := hcol j
      apply Finset.sum_pos'
      · intro i _; exact mul_self_nonneg _
      · exact ⟨i, Finset.mem_univ i, mul_self_pos.2 hi⟩
    obtain ⟨t, z, h1, h2, _, h4⟩ := coord_spec X y alpha beta false s j ht hn.ne'
    have hz : z = s.w j := by
      have := congrFun ((hfix j).symm.trans h2) j
      rw [Function.update_self] at this
      exact this.symm
    have ha : 0 < normCol X j + beta := by linarith
    simp only [Bool.false_and, Bool.false_eq_true, if_false] at h4
    rw [hz] at h4
    have h4' : s.w j * (normCol X j + beta) = fsign t * max (|t| - alpha) 0 := by rw [h4]; field_simp
    have ht2 : t = (∑ i, X i j * s.R i) + s.w j * normCol X j := by
      rw [h1, normCol, Finset.mul_sum, ← Finset.sum_add_distrib]
      apply Finset.sum_congr rfl
      intro i _
      rw [ht i]; ring
    have hA : (∑ i, X i j * s.R i) + -beta * s.w j = t - fsign t * max (|t| - alpha) 0 := by rw [← h4', ht2]; ring
    rw [hA]
    by_cases h : |t| ≤ alpha
    · have hm : max (|t| - alpha) 0 = 0 := max_eq_right (by linarith)
      rw [hm, mul_zero] at h4'
      have hw0 : s.w j = 0 := by
        rcases mul_eq_zero.1 h4' with h | h
        · exact h
        · exact absurd h ha.ne'
      rw [hm, hw0]
      simpa using h
    · push Not at h
      have hm : max (|t| - alpha) 0 = |t| - alpha := max_eq_left (by linarith)
      rw [hm] at h4' ⊢
      rcases lt_trichotomy t 0 with h0 | h0 | h0
      · have hs : fsign t = -1 := by rw [fsign, if_neg (by linarith), if_neg h0.ne]
        have habs : |t| = -t := abs_of_neg h0
        rw [hs, habs] at h4' ⊢
        rw [habs] at h
        have hneg : s.w j < 0 := by
          by_contra hh
          push Not at hh
          have := mul_nonneg hh ha.le
          linarith
        have e : t - -1 * (-t - alpha) = -alpha := by ring
        rw [e, abs_neg, abs_of_nonneg hal, abs_of_neg hneg]
        exact ⟨le_rfl, by ring⟩
      · rw [h0, abs_zero] at h; linarith
      · have hs : fsign t = 1 := by rw [fsign, if_pos h0]
        have habs : |t| = t := abs_of_pos h0
        rw [hs, habs] at h4' ⊢
        rw [habs] at h
        have hpos : 0 < s.w j := by
          by_contra hh
          push Not at hh
          have := mul_nonpos_of_nonpos_of_nonneg hh ha.le
          linarith
        have e : t - 1 * (t - alpha) = alpha := by ring
        rw [e, abs_of_nonneg hal, abs_of_pos hpos]
        exact ⟨le_rfl, rfl⟩
  have hwd := weak_duality X y alpha beta 1 s hbe ht v (by
    intro j
    rw [one_mul]
    calc _ ≤ |(∑ i, X i j * s.R i) + -beta * s.w j| * |v j| := by rw [← abs_mul]; exact le_abs_self _
      _ ≤ alpha * |v j| := mul_le_mul_of_nonneg_right (kkt j).1 (abs_nonneg _))
  have hsum : ∑ j, ((∑ i, X i j * s.R i) + -beta * s.w j) * s.w j = alpha * ∑ j, |s.w j| := by
    rw [Finset.mul_sum]
    exact Finset.sum_congr rfl (fun j _ => (kkt j).2)
  have hsum2 : ∑ j, ((∑ i, X i j * s.R i) + -beta * s.w j) * s.w j = (∑ i, s.R i * y i) - (∑ i, s.R i * s.R i) - beta * ∑ j, s.w j * s.w j := by
    have e1 : ∀ j, ((∑ i, X i j * s.R i) + -beta * s.w j) * s.w j = (∑ i, s.R i * (X i j * s.w j)) - beta * (s.w j * s.w j) := by
      intro j
      have h : ∑ i, s.R i * (X i j * s.w j) = (∑ i, X i j * s.R i) * s.w j := by
        rw [Finset.sum_mul]
        exact Finset.sum_congr rfl (fun i _ => by ring)
      rw [h]; ring
    rw [Finset.sum_congr rfl (fun j _ => e1 j), Finset.sum_sub_distrib, Finset.sum_comm, ← Finset.mul_sum, ← Finset.sum_sub_distrib]
    congr 1
    apply Finset.sum_congr rfl
    intro i _
    rw [← Finset.mul_sum]
    have := ht i
    have e : ∑ j, X i j * s.w j = y i - s.R i := by linarith
    rw [e]; ring
  rw [hsum] at hsum2
  linarith

theorem sweep_off (X : Fin n → Fin p → K) (alpha beta : K) (positive : Bool) (is : List (Fin p)) (j : Fin p) (hj : j ∉ is) :
    ∀ r : St n p K × K × K, (sweep X alpha beta positive is r).1.w j = r.1.w j := by
  induction is with
  | nil => intro r; rfl
  | cons ii is ih =>
    rintro ⟨s, a, b⟩
    rw [List.mem_cons, not_or] at hj
    rw [sweep]
    split
    · exact ih hj.2 _
    · rename_i hn
      refine (ih hj.2 _).trans ?_
      simp only [coord, if_neg hn]
      exact Function.update_of_ne hj.1 _ _

/-- The value recorded by a sweep started at `a`: the greatest of `a` and the values of `g` on the coordinates visited. -/
def RecordsMax (is : List (Fin p)) (g : Fin p → K) (a m : K) : Prop := a ≤ m ∧ (∀ j ∈ is, g j ≤ m) ∧ (m = a ∨ ∃ j ∈ is, m = g j)

theorem sweep_max (X : Fin n → Fin p → K) (alpha beta : K) (positive : Bool) (is : List (Fin p)) (hnd : is.Nodup) (hne : ∀ j ∈ is, normCol X j ≠ 0) :
    ∀ (s : St n p K) (a b : K), RecordsMax is (fun j => |(sweep X alpha beta positive is (s, a, b)).1.w j|) a (sweep X alpha beta positive is (s, a, b)).2.1 ∧
      RecordsMax is (fun j => |(sweep X alpha beta positive is (s, a, b)).1.w j - s.w j|) b (sweep X alpha beta positive is (s, a, b)).2.2 := by
  induction is with
  | nil => intro s a b; exact ⟨⟨le_rfl, by simp, Or.inl rfl⟩, le_rfl, by simp, Or.inl rfl⟩
  | cons ii is ih =>
    intro s a b
    rw [List.nodup_cons] at hnd
    have hn := hne ii List.mem_cons_self
    rw [sweep]
    simp only [if_neg hn]
    set s' := coord X alpha beta positive s ii with hs'
    have hoff : ∀ j, j ≠ ii → s'.w j = s.w j := by
      intro j hj
      rw [hs']
      simp only [coord, if_neg hn]
      exact Function.update_of_ne hj _ _
    set a' := if a < |s'.w ii| then |s'.w ii| else a with ha'
    set b' := if b < |s'.w ii - s.w ii| then |s'.w ii - s.w ii| else b with hb'
    have hkeep := sweep_off X alpha beta positive is ii hnd.1 (s', a', b')
    obtain ⟨⟨h1, h2, h3⟩, h4, h5, h6⟩ := ih hnd.2 (fun j hj => hne j (List.mem_cons_of_mem _ hj)) s' a' b'
    have haa : a ≤ a' ∧ |s'.w ii| ≤ a' ∧ (a' = a ∨ a' = |s'.w ii|) := by
      rw [ha']; split
      · rename_i h; exact ⟨h.le, le_rfl, Or.inr rfl⟩
      · rename_i h; exact ⟨le_rfl, not_lt.1 h, Or.inl rfl⟩
    have hbb : b ≤ b' ∧ |s'.w ii - s.w ii| ≤ b' ∧ (b' = b ∨ b' = |s'.w ii - s.w ii|) := by
      rw [hb']; split
      · rename_i h; exact ⟨h.le, le_rfl, Or.inr rfl⟩
      · rename_i h; exact ⟨le_rfl, not_lt.1 h, Or.inl rfl⟩
    have hne' : ∀ j ∈ is, j ≠ ii := fun j hj h => hnd.1 (h ▸ hj)
    refine ⟨⟨haa.1.trans h1, ?_, ?_⟩, hbb.1.trans h4, ?_, ?_⟩
    · intro j hj
      rcases List.mem_cons.1 hj with rfl | hj
      · simp only [hkeep]
        exact haa.2.1.trans h1
      · exact h2 j hj
    · rcases h3 with h3 | ⟨j, hj, h3⟩
      · rcases haa.2.2 with h | h
        · exact Or.inl (h3.trans h)
        · refine Or.inr ⟨ii, List.mem_cons_self, ?_⟩
          simp only [hkeep]
          exact h3.trans h
      · exact Or.inr ⟨j, List.mem_cons_of_mem _ hj, h3⟩
    · intro j hj
      rcases List.mem_cons.1 hj with rfl | hj
      · simp only [hkeep]
        exact hbb.2.1.trans h4
      · have := h5 j hj
        simp only [hoff j (hne' j hj)] at this
        exact this
    · rcases h6 with h6 | ⟨j, hj, h6⟩
      · rcases hbb.2.2 with h | h
        · exact Or.inl (h6.trans h)
        · refine Or.inr ⟨ii, List.mem_cons_self, ?_⟩
          simp only [hkeep]
          exact h6.trans h
      · refine Or.inr ⟨j, List.mem_cons_of_mem _ hj, ?_⟩
        simp only [hoff j (hne' j hj)] at h6
        exact h6

/-- C88: after a sweep that visits every coordinate once (cyclic selection, no zero column) the two numbers compared by the stopping test are the greatest absolute coefficient and the greatest absolute
change of a coefficient in that sweep. -/
theorem C88_sweep_maxima (X : Fin n → Fin p → K) (alpha beta : K) (positive : Bool) (s : St n p K) (hp : 0 < p) (hX : ∀ j, ∃ i, X i j ≠ 0) :
    let r := sweep X alpha beta positive (List.finRange p) (s, 0, 0)
    (∀ j, |r.1.w j| ≤ r.2.1) ∧ (∃ j, r.2.1 = |r.1.w j|) ∧ (∀ j, |r.1.w j - s.w j| ≤ r.2.2) ∧ (∃ j, r.2.2 = |r.1.w j - s.w j|) := by
  have hne : ∀ j ∈ List.finRange p, normCol X j ≠ 0 := by
    intro j _ h
    obtain ⟨i, hi⟩ := hX j
    have := (Finset.sum_eq_zero_iff_of_nonneg (fun i _ => mul_self_nonneg (X i j))).1 h i (Finset.mem_univ _)
    exact hi (mul_self_eq_zero.1 this)
  intro r
  obtain ⟨⟨h1, h2, h3⟩, h4, h5, h6⟩ := sweep_max X alpha beta positive (List.finRange p) (List.nodup_finRange p) hne s 0 0
  have j0 : Fin p := ⟨0, hp⟩
  refine ⟨fun j => h2 j (List.mem_finRange j), ?_, fun j => h5 j (List.mem_finRange j), ?_⟩
  · rcases h3 with h3 | ⟨j, _, h3⟩
    · refine ⟨j0, le_antisymm ?_ (h2 j0 (List.mem_finRange j0))⟩
      show (sweep X alpha beta positive (List.finRange p) (s, 0, 0)).2.1 ≤ _
      rw [h3]; exact abs_nonneg _
    · exact ⟨j, h3⟩
  · rcases h6 with h6 | ⟨j, _, h6⟩
    · refine ⟨j0, le_antisymm ?_ (h5 j0 (List.mem_finRange j0))⟩
      show (sweep X alpha beta positive (List.finRange p) (s, 0, 0)).2.2 ≤ _
      rw [h6]; exact abs_nonneg _
    · exact ⟨j, h6⟩

/-! ### Instances -/

example : let X : Fin 2 → Fin 2 → ℚ := fun i j => if i = j then 2 else 0
    let r := sweep X 1 1 false (List.finRange 2) (⟨fun j => if j = 0 then 3 else 0, fun i => if i = 0 then -5 else -5⟩, 0, 0)
    r.2.1 = 9 / 5 ∧ r.2.2 = 14 / 5 := by decide +kernel

/-- Two samples, two features, penalties 1 and 1: the objective goes from 13 to 24/5 in one sweep. -/
example : let X : Fin 2 → Fin 2 → ℚ := fun i j => if i = j then 2 else 0
    let y : Fin 2 → ℚ := fun i => if i = 0 then 1 else -5
    objective X y 1 1 (fun _ => 0) = 13 ∧ objective X y 1 1 (enet X y 1 1 1 0 false (fun _ => List.finRange 2) (fun _ => 0)).w = 24 / 5 ∧
      (∃ i, X i 0 ≠ 0) ∧ (enet X y 1 1 1 0 false (fun _ => List.finRange 2) (fun _ => 0)).gap = 0 := by decide +kernel

end Sk.Enet
