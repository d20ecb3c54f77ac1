import Verif.Model.Rectangle
import Mathlib.Algebra.Order.BigOperators.Group.Finset
import Mathlib.Tactic.Linarith
import Mathlib.Tactic.Ring
import Mathlib.Tactic.Positivity
import Mathlib.Tactic.FinCases
import Mathlib.Data.Fin.VecNotation
import Mathlib.Algebra.BigOperators.Ring.Finset
import Mathlib.Tactic.NormNum

/-! # C131, C132: hyperrectangles -/
set_option autoImplicit false

namespace Sk.Rect

variable {d : ℕ}

/-- The points of a rectangle. -/
def Rectangle.Mem (r : Rectangle d) (z : Fin d → ℝ) : Prop := ∀ i, r.mins i ≤ z i ∧ z i ≤ r.maxes i

/-- A rectangle with points. -/
def Rectangle.Proper (r : Rectangle d) : Prop := ∀ i, r.mins i ≤ r.maxes i

/-! ### C131: distances -/

theorem norm_some (p : Ord) (hp : p ≠ .other) (hd : 0 < d) (v : Fin d → ℝ) : ∃ a, norm p v = some a := by
  cases p <;> simp_all [norm]

theorem norm_mono (p : Ord) (u v : Fin d → ℝ) (h : ∀ i, |u i| ≤ |v i|) (a b : ℝ) (ha : norm p u = some a) (hb : norm p v = some b) : a ≤ b := by
  by_cases hd : 0 < d
  · cases p with
    | one =>
      simp only [norm, dif_pos hd, Option.some.injEq] at ha hb
      rw [← ha, ← hb]
      exact Finset.sum_le_sum (fun i _ => h i)
    | two =>
      simp only [norm, dif_pos hd, Option.some.injEq] at ha hb
      rw [← ha, ← hb]
      refine Real.sqrt_le_sqrt (Finset.sum_le_sum (fun i _ => ?_))
      rw [← abs_mul_abs_self (u i), ← abs_mul_abs_self (v i)]
      exact mul_le_mul (h i) (h i) (abs_nonneg _) (abs_nonneg _)
    | inf =>
      simp only [norm, dif_pos hd, Option.some.injEq] at ha hb
      rw [← ha, ← hb]
      exact Finset.sup'_le _ _ (fun i _ => (h i).trans (Finset.le_sup' (fun i => |v i|) (Finset.mem_univ i)))
    | other => simp [norm] at ha
  · simp [norm, hd] at ha

theorem norm_congr (p : Ord) (u v : Fin d → ℝ) (h : ∀ i, |u i| = |v i|) : norm p u = norm p v := by
  have h2 : ∀ i, u i * u i = v i * v i := fun i => by rw [← abs_mul_abs_self (u i), ← abs_mul_abs_self (v i), h]
  cases p <;> simp only [norm, h, h2]

/-- The distances between points of two sets. -/
def Distances (p : Ord) (S T : (Fin d → ℝ) → Prop) : Set ℝ := {δ | ∃ z w, S z ∧ T w ∧ norm p (fun i => z i - w i) = some δ}

/-- If all differences are bounded below by `v` and one pair attains it, the norm of `v` is the least distance. -/
theorem least_of (p : Ord) (hp : p ≠ .other) (hd : 0 < d) (S T : (Fin d → ℝ) → Prop) (v : Fin d → ℝ) (hle : ∀ z w, S z → T w → ∀ i, |v i| ≤ |z i - w i|)
    (z w : Fin d → ℝ) (hz : S z) (hw : T w) (he : ∀ i, |z i - w i| = |v i|) : ∃ m, norm p v = some m ∧ IsLeast (Distances p S T) m := by
  obtain ⟨m, hm⟩ := norm_some p hp hd v
  refine ⟨m, hm, ⟨z, w, hz, hw, by rw [norm_congr p _ v he, hm]⟩, ?_⟩
  rintro δ ⟨z', w', hz', hw', hδ⟩
  exact norm_mono p v _ (hle z' w' hz' hw') m δ hm hδ

theorem greatest_of (p : Ord) (hp : p ≠ .other) (hd : 0 < d) (S T : (Fin d → ℝ) → Prop) (v : Fin d → ℝ) (hle : ∀ z w, S z → T w → ∀ i, |z i - w i| ≤ |v i|)
    (z w : Fin d → ℝ) (hz : S z) (hw : T w) (he : ∀ i, |z i - w i| = |v i|) : ∃ m, norm p v = some m ∧ IsGreatest (Distances p S T) m := by
  obtain ⟨m, hm⟩ := norm_some p hp hd v
  refine ⟨m, hm, ⟨z, w, hz, hw, by rw [norm_congr p _ v he, hm]⟩, ?_⟩
  rintro δ ⟨z', w', hz', hw', hδ⟩
  exact norm_mono p _ v (hle z' w' hz' hw') δ m hδ hm

/-- C131: the least and greatest distance between two rectangles, in the norms 1, 2 and ∞ (other orders: see `C131_order_violated`). -/
theorem C131_rectangle_partial (r o : Rectangle d) (hr : r.Proper) (ho : o.Proper) (p : Ord) (hp : p ≠ .other) (hd : 0 < d) :
    (∃ m, r.minDistanceRectangle o p = some m ∧ IsLeast (Distances p r.Mem o.Mem) m) ∧ ∃ m, r.maxDistanceRectangle o p = some m ∧ IsGreatest (Distances p r.Mem o.Mem) m := by
  constructor
  · refine least_of p hp hd r.Mem o.Mem _ (fun z w hz hw i => ?_) (fun i => max (r.mins i) (min (r.maxes i) (o.mins i))) (fun i => max (o.mins i) (min (o.maxes i) (r.mins i))) ?_ ?_ (fun i => ?_)
    · have h1 := hz i; have h2 := hw i
      rw [abs_of_nonneg (le_max_left _ _)]
      refine max_le (abs_nonneg _) (max_le ?_ ?_)
      · exact le_trans (by linarith [h1.1, h2.2]) (le_abs_self _)
      · exact le_trans (by linarith [h1.2, h2.1]) (neg_le_abs _)
    · intro i; exact ⟨le_max_left _ _, max_le (hr i) (min_le_left _ _)⟩
    · intro i; exact ⟨le_max_left _ _, max_le (ho i) (min_le_left _ _)⟩
    · have h1 := hr i; have h2 := ho i
      refine abs_eq_abs.2 ?_
      simp only [max_def, min_def]
      split_ifs <;> first | (left; linarith) | (right; linarith)
  · refine greatest_of p hp hd r.Mem o.Mem _ (fun z w hz hw i => ?_) (fun i => if o.maxes i - r.mins i ≤ r.maxes i - o.mins i then r.maxes i else r.mins i)
      (fun i => if o.maxes i - r.mins i ≤ r.maxes i - o.mins i then o.mins i else o.maxes i) ?_ ?_ (fun i => ?_)
    · have h1 := hz i; have h2 := hw i
      refine le_trans ?_ (le_abs_self _)
      refine abs_le'.2 ⟨le_max_of_le_left (by linarith [h1.2, h2.1]), le_max_of_le_right (by linarith [h1.1, h2.2])⟩
    · intro i; by_cases h : o.maxes i - r.mins i ≤ r.maxes i - o.mins i
      · simp only [if_pos h]; exact ⟨hr i, le_refl _⟩
      · simp only [if_neg h]; exact ⟨le_refl _, hr i⟩
    · intro i; by_cases h : o.maxes i - r.mins i ≤ r.maxes i - o.mins i
      · simp only [if_pos h]; exact ⟨le_refl _, ho i⟩
      · simp only [if_neg h]; exact ⟨ho i, le_refl _⟩
    · by_cases h : o.maxes i - r.mins i ≤ r.maxes i - o.mins i
      · simp only [if_pos h, max_eq_left h]
      · simp only [if_neg h, max_eq_right (le_of_not_ge h)]
        rw [abs_sub_comm]

/-- Hypotheses met: the unit square and the square at distance 3 to its right. -/
example : (⟨![1, 1], ![0, 0]⟩ : Rectangle 2).Proper ∧ (⟨![5, 1], ![4, 0]⟩ : Rectangle 2).Proper := by
  constructor <;> intro i <;> fin_cases i <;> simp <;> norm_num

theorem point_mem (x z : Fin d → ℝ) : (⟨x, x⟩ : Rectangle d).Mem z ↔ z = x := by
  constructor
  · intro h; funext i; exact le_antisymm (h i).2 (h i).1
  · rintro rfl i; exact ⟨le_refl _, le_refl _⟩

/-- C131: the least and greatest distance from a point to the points of a rectangle.
Missing for the full claim: what `C131_order_violated` refutes. -/
theorem C131_point_partial (r : Rectangle d) (hr : r.Proper) (x : Fin d → ℝ) (p : Ord) (hp : p ≠ .other) (hd : 0 < d) :
    (∃ m, r.minDistancePoint x p = some m ∧ IsLeast {δ | ∃ z, r.Mem z ∧ norm p (fun i => z i - x i) = some δ} m) ∧
    ∃ m, r.maxDistancePoint x p = some m ∧ IsGreatest {δ | ∃ z, r.Mem z ∧ norm p (fun i => z i - x i) = some δ} m := by
  have h := C131_rectangle_partial r ⟨x, x⟩ hr (fun i => le_refl _) p hp hd
  have hs : Distances p r.Mem (⟨x, x⟩ : Rectangle d).Mem = {δ | ∃ z, r.Mem z ∧ norm p (fun i => z i - x i) = some δ} := by
    ext δ
    constructor
    · rintro ⟨z, w, hz, hw, hδ⟩
      rw [point_mem] at hw
      rw [hw] at hδ
      exact ⟨z, hz, hδ⟩
    · rintro ⟨z, hz, h⟩
      exact ⟨z, x, hz, (point_mem x x).2 rfl, h⟩
  rw [hs] at h
  exact h

/-- Hypotheses met: the square `[0,1]²`. -/
example : (⟨![1, 1], ![0, 0]⟩ : Rectangle 2).Proper ∧ (⟨![1, 1], ![0, 0]⟩ : Rectangle 2).Mem ![1 / 2, 1] := by
  constructor <;> intro i <;> fin_cases i <;> simp <;> norm_num

/-- C131, violated: the distance functions panic for every other order `p`, although they take any number. -/
theorem C131_order_violated (r o : Rectangle d) (x : Fin d → ℝ) :
    r.minDistancePoint x .other = none ∧ r.maxDistancePoint x .other = none ∧ r.minDistanceRectangle o .other = none ∧ r.maxDistanceRectangle o .other = none := by
  refine ⟨?_, ?_, ?_, ?_⟩ <;> simp [Rectangle.minDistancePoint, Rectangle.maxDistancePoint, Rectangle.minDistanceRectangle, Rectangle.maxDistanceRectangle, norm]

/-! ### C132: splitting -/

/-- C132, violated: the two rectangles made by `Split` have their bounds exchanged.  Whenever the cut is strictly inside, neither contains any point (so together they do not cover the
rectangle), whatever the rectangle, axis and cut. -/
theorem C132_split_violated (r : Rectangle d) (k : Fin d) (s : ℝ) (h1 : r.mins k < s) (h2 : s < r.maxes k) (z : Fin d → ℝ) : ¬ (r.split k s).1.Mem z ∧ ¬ (r.split k s).2.Mem z := by
  constructor
  · intro h
    have := h k
    simp only [Rectangle.split, newRectangle, Function.update_self] at this
    linarith [this.1, this.2]
  · intro h
    have := h k
    simp only [Rectangle.split, newRectangle, Function.update_self] at this
    linarith [this.1, this.2]

/-- Hypotheses met: cutting `[0,2]` at 1. -/
example : (⟨![2], ![0]⟩ : Rectangle 1).mins 0 < 1 ∧ 1 < (⟨![2], ![0]⟩ : Rectangle 1).maxes 0 := by norm_num

theorem volume_parts (r : Rectangle d) (k : Fin d) (s : ℝ) : (r.split k s).1.volume + (r.split k s).2.volume = (-1) ^ d * r.volume := by
  have key : ∀ f g : Fin d → ℝ, ∏ i, (f i - g i) = (-1) ^ d * ∏ i, (g i - f i) := by
    intro f g
    have : ∀ i, f i - g i = -1 * (g i - f i) := fun i => by ring
    simp only [this]
    rw [Finset.prod_mul_distrib, Finset.prod_const, Finset.card_univ, Fintype.card_fin]
  simp only [Rectangle.volume, Rectangle.split, newRectangle]
  rw [key r.mins, key (Function.update r.mins k s), ← mul_add]
  congr 1
  rw [← Finset.mul_prod_erase _ _ (Finset.mem_univ k), ← Finset.mul_prod_erase _ (fun i => r.maxes i - Function.update r.mins k s i) (Finset.mem_univ k),
    ← Finset.mul_prod_erase _ (fun i => r.maxes i - r.mins i) (Finset.mem_univ k)]
  have e1 : ∏ i ∈ Finset.univ.erase k, (Function.update r.maxes k s i - r.mins i) = ∏ i ∈ Finset.univ.erase k, (r.maxes i - r.mins i) :=
    Finset.prod_congr rfl (fun i hi => by rw [Function.update_of_ne (Finset.ne_of_mem_erase hi)])
  have e2 : ∏ i ∈ Finset.univ.erase k, (r.maxes i - Function.update r.mins k s i) = ∏ i ∈ Finset.univ.erase k, (r.maxes i - r.mins i) :=
    Finset.prod_congr rfl (fun i hi => by rw [Function.update_of_ne (Finset.ne_of_mem_erase hi)])
  rw [e1, e2]
  simp only [Function.update_self]
  ring

/-- C132: in an even number of dimensions the volumes of the two parts add up to the volume of the rectangle.  Missing: odd dimensions (`C132_volume_violated`) and the points
(`C132_split_violated`). -/
theorem C132_volume_partial (r : Rectangle d) (k : Fin d) (s : ℝ) (hd : Even d) : (r.split k s).1.volume + (r.split k s).2.volume = r.volume := by
  rw [volume_parts, hd.neg_one_pow, one_mul]

example : Even 2 := by decide

/-- C132, violated: in an odd number of dimensions they add up to minus the volume. -/
theorem C132_volume_violated (r : Rectangle d) (k : Fin d) (s : ℝ) (hd : Odd d) (hv : r.volume ≠ 0) : (r.split k s).1.volume + (r.split k s).2.volume ≠ r.volume := by
  rw [volume_parts, hd.neg_one_pow]
  intro h
  apply hv
  linarith

example : (⟨![2], ![0]⟩ : Rectangle 1).volume ≠ 0 := by simp [Rectangle.volume]

end Sk.Rect
