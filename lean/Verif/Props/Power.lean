import Verif.Model.Power
import Verif.Props.Scale
import Mathlib.Analysis.Convex.SpecificFunctions.Basic

/-!
# C25, C70–C72: power transforms and quantile transform
-/
set_option autoImplicit false

namespace Sk.Power

/-- The Yeo-Johnson transform keeps the sign class of its argument. -/
theorem yj_sign (lam x y : ℝ) (h : yj lam x = some y) : (0 ≤ x → 0 ≤ y) ∧ (x < 0 → y < 0) := by
  unfold yj spacing at h
  constructor
  · intro hx
    rw [if_pos hx, if_neg (not_lt.2 (abs_nonneg _))] at h
    split at h
    · simp at h
    · rename_i hl
      obtain rfl := Option.some.inj h
      rcases lt_or_gt_of_ne hl with h1 | h1
      · apply div_nonneg_of_nonpos _ h1.le
        have : (x + 1) ^ lam ≤ 1 := Real.rpow_le_one_of_one_le_of_nonpos (by linarith) h1.le
        linarith
      · apply div_nonneg _ h1.le
        have : 1 ≤ (x + 1) ^ lam := Real.one_le_rpow (by linarith) h1.le
        linarith
  · intro hx
    rw [if_neg (not_le.2 hx)] at h
    split at h
    · rename_i hl
      have hl : lam - 2 ≠ 0 := by intro e; rw [e] at hl; simp at hl
      obtain rfl := Option.some.inj h
      rw [neg_div, neg_lt_zero]
      rcases lt_or_gt_of_ne hl with h1 | h1
      · apply div_pos _ (by linarith)
        have : 1 < (-x + 1) ^ (2 - lam) := Real.one_lt_rpow (by linarith) (by linarith)
        linarith
      · apply div_pos_of_neg_of_neg _ (by linarith)
        have : (-x + 1) ^ (2 - lam) < 1 := Real.rpow_lt_one_of_one_lt_of_neg (by linarith) (by linarith)
        linarith
    · obtain rfl := Option.some.inj h
      rw [neg_lt_zero]
      exact Real.log_pos (by linarith)

/-- **C25, round trip (lambda ≠ 0).** For every lambda other than 0, and for lambda 0 when the value is negative, the Yeo-Johnson transform gives a number and the inverse recovers
every real value. Missing for the full claim: lambda 0 with values ≥ 0, where it fails (`C25_violated`). -/
theorem C25_roundtrip_partial (lam x : ℝ) (h : lam ≠ 0 ∨ x < 0) : ∃ y, yj lam x = some y ∧ yjInv lam y = x := by
  by_cases hx : 0 ≤ x
  · have hl : lam ≠ 0 := h.resolve_right (not_lt.2 hx)
    have e : yj lam x = some (((x + 1) ^ lam - 1) / lam) := by
      unfold yj spacing
      rw [if_pos hx, if_neg (not_lt.2 (abs_nonneg _)), if_neg hl]
    refine ⟨_, e, ?_⟩
    have hs := (yj_sign _ _ _ e).1 hx
    unfold yjInv spacing
    rw [if_pos hs, if_neg (not_lt.2 (abs_nonneg _)), if_neg hl, div_mul_cancel₀ _ hl, sub_add_cancel, one_div,
      Real.rpow_rpow_inv (by linarith) hl]
    ring
  · have hx' := not_le.1 hx
    by_cases hl : lam - 2 = 0
    · have e : yj lam x = some (-Real.log (-x + 1)) := by
        unfold yj spacing
        rw [if_neg hx, if_neg (by rw [hl]; simp)]
      refine ⟨_, e, ?_⟩
      have hs := (yj_sign _ _ _ e).2 hx'
      unfold yjInv spacing
      rw [if_neg (not_le.2 hs), if_neg (by rw [hl]; simp), neg_neg, Real.exp_log (by linarith)]
      ring
    · have e : yj lam x = some (-((-x + 1) ^ (2 - lam) - 1) / (2 - lam)) := by
        unfold yj spacing
        rw [if_neg hx, if_pos (by simpa using hl)]
      refine ⟨_, e, ?_⟩
      have hs := (yj_sign _ _ _ e).2 hx'
      have hl2 : (2 - lam) ≠ 0 := by intro e; apply hl; linarith
      unfold yjInv spacing
      rw [if_neg (not_le.2 hs), if_pos (by simpa using hl)]
      have : -(2 - lam) * (-((-x + 1) ^ (2 - lam) - 1) / (2 - lam)) + 1 = (-x + 1) ^ (2 - lam) := by
        field_simp; ring
      rw [this, one_div, Real.rpow_rpow_inv (by linarith) hl2]
      ring

/-- Lambda 1/2 and a negative value; lambda 2 with a positive one. -/
example : (∃ y, yj (1/2) (-3) = some y ∧ yjInv (1/2) y = -3) ∧ ∃ y, yj 2 5 = some y ∧ yjInv 2 y = 5 :=
  ⟨C25_roundtrip_partial _ _ (by norm_num), C25_roundtrip_partial _ _ (by norm_num)⟩

/-- **C25 violated at lambda 0.** Every non-negative value is transformed to NaN, and the inverse maps every non-negative number to 0 (instead of `exp x - 1`): the tests
compare with a spacing that is always 0. -/
theorem C25_violated (x : ℝ) (hx : 0 ≤ x) : yj 0 x = none ∧ yjInv 0 x = 0 := by
  unfold yj yjInv spacing
  simp [hx]

/-- **C25, strictly increasing.** For lambda ≠ 0 the transform preserves the strict order of all values (so no two values are merged). -/
theorem C25_strictMono (lam x x' : ℝ) (h : lam ≠ 0) (hx : x < x') : ∃ y y', yj lam x = some y ∧ yj lam x' = some y' ∧ y < y' := by
  obtain ⟨y, hy, _⟩ := C25_roundtrip_partial lam x (Or.inl h)
  obtain ⟨y', hy', _⟩ := C25_roundtrip_partial lam x' (Or.inl h)
  refine ⟨y, y', hy, hy', ?_⟩
  by_cases h0 : 0 ≤ x
  · have h0' : 0 ≤ x' := by linarith
    unfold yj spacing at hy hy'
    rw [if_pos h0, if_neg (not_lt.2 (abs_nonneg _)), if_neg h] at hy
    rw [if_pos h0', if_neg (not_lt.2 (abs_nonneg _)), if_neg h] at hy'
    obtain rfl := Option.some.inj hy
    obtain rfl := Option.some.inj hy'
    rcases lt_or_gt_of_ne h with h1 | h1
    · have : (x' + 1) ^ lam < (x + 1) ^ lam := Real.rpow_lt_rpow_of_neg (by linarith) (by linarith) h1
      apply div_lt_div_of_neg_of_lt h1; linarith
    · have : (x + 1) ^ lam < (x' + 1) ^ lam := Real.rpow_lt_rpow (by linarith) (by linarith) h1
      apply div_lt_div_of_pos_right _ h1; linarith
  · have h0 := not_le.1 h0
    by_cases h0' : 0 ≤ x'
    · exact lt_of_lt_of_le ((yj_sign _ _ _ hy).2 h0) ((yj_sign _ _ _ hy').1 h0')
    · have h0' := not_le.1 h0'
      unfold yj spacing at hy hy'
      rw [if_neg (not_le.2 h0)] at hy
      rw [if_neg (not_le.2 h0')] at hy'
      by_cases hl : |lam - 2| > 0
      · rw [if_pos hl] at hy hy'
        have hl : lam - 2 ≠ 0 := by intro e; rw [e] at hl; simp at hl
        obtain rfl := Option.some.inj hy
        obtain rfl := Option.some.inj hy'
        rw [neg_div, neg_div, neg_lt_neg_iff]
        rcases lt_or_gt_of_ne hl with h1 | h1
        · have : (-x' + 1) ^ (2 - lam) < (-x + 1) ^ (2 - lam) := Real.rpow_lt_rpow (by linarith) (by linarith) (by linarith)
          apply div_lt_div_of_pos_right _ (by linarith); linarith
        · have : (-x + 1) ^ (2 - lam) < (-x' + 1) ^ (2 - lam) := Real.rpow_lt_rpow_of_neg (by linarith) (by linarith) (by linarith)
          apply div_lt_div_of_neg_of_lt (by linarith); linarith
      · rw [if_neg hl] at hy hy'
        obtain rfl := Option.some.inj hy
        obtain rfl := Option.some.inj hy'
        rw [neg_lt_neg_iff]
        exact Real.log_lt_log (by linarith) (by linarith)

example : ∃ y y', yj 3 (-1) = some y ∧ yj 3 4 = some y' ∧ y < y' := C25_strictMono 3 (-1) 4 (by norm_num) (by norm_num)

/-- **C25, whole transformer.** With or without standardisation, for every lambda ≠ 0 and every fitted (non-negative) variance, `InverseTransform` undoes `Transform` on every real value.
Missing: lambda 0, as above. -/
theorem C25_transformer_partial (std : Option (ℝ × ℝ)) (hv : ∀ mv, std = some mv → 0 ≤ mv.2) (lam x : ℝ) (h : lam ≠ 0) :
    ∃ y, ptTransform std lam x = some y ∧ ptInverse std lam y = x := by
  obtain ⟨y, h1, h2⟩ := C25_roundtrip_partial lam x (Or.inl h)
  unfold ptTransform ptInverse
  rw [h1]
  cases std with
  | none => exact ⟨y, rfl, h2⟩
  | some mv =>
    refine ⟨_, rfl, ?_⟩
    simp only
    rw [Sk.Scale.C18_standard_inverse mv (hv mv rfl) true true y]
    exact h2

example : ∃ y, ptTransform (some (1, 4)) 2 3 = some y ∧ ptInverse (some (1, 4)) 2 y = 3 :=
  C25_transformer_partial _ (by rintro mv ⟨⟩; norm_num) _ _ (by norm_num)

/-! ## Box-Cox -/

/-- **C70, domain.** The Box-Cox transform is a number exactly on positive values (and on 0 when lambda is positive). -/
theorem C70_domain (lam x : ℝ) : (bc lam x).isSome ↔ 0 < x ∨ (x = 0 ∧ 0 < lam) := by
  unfold bc
  constructor
  · intro h
    by_contra hc
    rw [if_neg] at h
    · simp at h
    · rintro (h1 | ⟨h1, h2⟩)
      · exact hc (Or.inl h1)
      · rcases lt_or_eq_of_le h1 with h3 | h3
        · exact hc (Or.inl h3)
        · exact hc (Or.inr ⟨h3.symm, h2⟩)
  · intro h
    rw [if_pos]
    · simp
    · rcases h with h | ⟨h1, h2⟩
      · exact Or.inl h
      · exact Or.inr ⟨h1.ge, h2⟩

theorem bc_pos_iff (lam x y : ℝ) (hx : 0 < x) (h : bc lam x = some y) : (0 < y ↔ 1 < x) ∧ (y = 0 ↔ x = 1) := by
  unfold bc at h
  rw [if_pos (Or.inl hx)] at h
  obtain rfl := Option.some.inj h
  by_cases hl : lam = 0
  · simp only [hl, if_true]
    refine ⟨Real.log_pos_iff hx.le, ?_⟩
    constructor
    · intro h
      rcases Real.log_eq_zero.1 h with h | h | h <;> linarith
    · rintro rfl; simp
  · simp only [hl, if_false]
    rcases lt_trichotomy x 1 with h1 | h1 | h1
    · have : (x ^ lam - 1) / lam < 0 := by
        rcases lt_or_gt_of_ne hl with h2 | h2
        · apply div_neg_of_pos_of_neg _ h2
          have := Real.one_lt_rpow_of_pos_of_lt_one_of_neg hx h1 h2
          linarith
        · apply div_neg_of_neg_of_pos _ h2
          have := Real.rpow_lt_one hx.le h1 h2
          linarith
      constructor <;> constructor <;> intro h <;> linarith
    · subst h1; simp
    · have : 0 < (x ^ lam - 1) / lam := by
        rcases lt_or_gt_of_ne hl with h2 | h2
        · apply div_pos_of_neg_of_neg _ h2
          have := Real.rpow_lt_one_of_one_lt_of_neg h1 h2
          linarith
        · apply div_pos _ h2
          have := Real.one_lt_rpow h1 h2
          linarith
      constructor <;> constructor <;> intro h <;> linarith

/-- **C70, what the code does.** For a positive value, the inverse of the Box-Cox transform recovers it exactly when it is greater than 1, or equals 1 with lambda positive; for every other
positive value the inverse returns NaN. Missing for the full claim: all values below 1. -/
theorem C70_roundtrip_partial (lam x : ℝ) (hx : 0 < x) :
    (bc lam x).bind (bcInv lam) = if 1 < x ∨ (x = 1 ∧ 0 < lam) then some x else none := by
  have hsome : (bc lam x).isSome := (C70_domain lam x).2 (Or.inl hx)
  obtain ⟨y, hy⟩ := Option.isSome_iff_exists.1 hsome
  obtain ⟨h1, h2⟩ := bc_pos_iff lam x y hx hy
  rw [hy, Option.bind_some]
  have hcond : (0 < y ∨ (0 ≤ y ∧ 0 < lam)) ↔ (1 < x ∨ (x = 1 ∧ 0 < lam)) := by
    constructor
    · rintro (h | ⟨h, hl⟩)
      · exact Or.inl (h1.1 h)
      · rcases lt_or_eq_of_le h with h3 | h3
        · exact Or.inl (h1.1 h3)
        · exact Or.inr ⟨h2.1 h3.symm, hl⟩
    · rintro (h | ⟨h, hl⟩)
      · exact Or.inl (h1.2 h)
      · exact Or.inr ⟨(h2.2 h).ge, hl⟩
  by_cases hc : 1 < x ∨ (x = 1 ∧ 0 < lam)
  · rw [if_pos hc]
    unfold bcInv
    rw [if_pos (hcond.2 hc)]
    congr 1
    unfold bc at hy
    rw [if_pos (Or.inl hx)] at hy
    obtain rfl := Option.some.inj hy
    by_cases hl : lam = 0
    · simp only [hl, if_true]; exact Real.exp_log hx
    · simp only [hl, if_false]
      rw [div_mul_cancel₀ _ hl, sub_add_cancel, one_div, Real.rpow_rpow_inv hx.le hl]
  · rw [if_neg hc]
    unfold bcInv
    rw [if_neg (fun h => hc (hcond.1 h))]

/-- **C70 violated**: every value strictly between 0 and 1 is transformed to a number whose inverse is NaN, for every lambda. -/
theorem C70_violated (lam x : ℝ) (h0 : 0 < x) (h1 : x < 1) : (bc lam x).isSome ∧ (bc lam x).bind (bcInv lam) = none := by
  refine ⟨(C70_domain lam x).2 (Or.inl h0), ?_⟩
  rw [C70_roundtrip_partial lam x h0, if_neg]
  rintro (h | ⟨h, _⟩) <;> linarith

example : (bc 2 (1/2)).bind (bcInv 2) = none ∧ (bc 2 3).bind (bcInv 2) = some 3 := by
  refine ⟨(C70_violated 2 (1/2) (by norm_num) (by norm_num)).2, ?_⟩
  rw [C70_roundtrip_partial 2 3 (by norm_num), if_pos (by norm_num)]

/-! ## The input of `PowerTransformer.Transform` -/

/-- **C71 violated.** `Transform` of a dense matrix replaces the caller's cells by their power transforms: the input keeps its content only if every cell is a fixed point of the
transform. -/
theorem C71_input_overwritten (lam : ℝ) (col : List ℝ) : ptInputAfter lam col = col.map some ↔ ∀ x ∈ col, yj lam x = some x := by
  unfold ptInputAfter
  rw [List.map_inj_left]

/-- A power above the line or below it, never on it. -/
theorem power_ne (mu t : ℝ) (h1 : mu ≠ 1) (h0 : mu ≠ 0) (ht : 0 < t) : ((t + 1) ^ mu - 1) / mu ≠ t := by
  intro h
  have h' : (1 + t) ^ mu = 1 + mu * t := by
    rw [div_eq_iff h0] at h
    rw [add_comm 1 t]
    linarith
  rcases lt_trichotomy mu 0 with hm | hm | hm
  · have e : (1 + t) ^ mu = Real.exp (Real.log (1 + t) * mu) := Real.rpow_def_of_pos (by linarith) mu
    have l1 := Real.add_one_le_exp (Real.log (1 + t) * mu)
    have l2 : Real.log (1 + t) < t := by
      have := Real.log_lt_sub_one_of_pos (show (0 : ℝ) < 1 + t by linarith) (by linarith)
      linarith
    have l3 := mul_lt_mul_of_neg_right l2 hm
    linarith
  · exact h0 hm
  · rcases lt_or_gt_of_ne h1 with hm1 | hm1
    · exact absurd h' (rpow_one_add_lt_one_add_mul_self (by linarith) ht.ne' hm hm1).ne
    · exact absurd h' (one_add_mul_self_lt_rpow_one_add (by linarith) ht.ne' hm1).ne'

/-- **C71 violated**: for every lambda other than 1, `Transform` changes every cell of the caller's data that is not 0, hence every column with such a cell. -/
theorem C71_violated (lam : ℝ) (h1 : lam ≠ 1) : (∀ x, x ≠ 0 → yj lam x ≠ some x) ∧ ∀ col : List ℝ, (∃ x ∈ col, x ≠ 0) → ptInputAfter lam col ≠ col.map some := by
  have key : ∀ x, x ≠ 0 → yj lam x ≠ some x := by
    intro x hx
    unfold yj spacing
    by_cases h0 : 0 ≤ x
    · rw [if_pos h0, if_neg (not_lt.2 (abs_nonneg _))]
      by_cases hl : lam = 0
      · rw [if_pos hl]
        exact Option.some_ne_none _ |>.symm
      · rw [if_neg hl]
        exact fun h => power_ne lam x h1 hl (lt_of_le_of_ne h0 (Ne.symm hx)) (Option.some.inj h)
    · rw [if_neg h0]
      by_cases hl : |lam - 2| > 0
      · rw [if_pos hl]
        intro h
        have h := Option.some.inj h
        have hl' : 2 - lam ≠ 0 := fun h => by
          exact abs_pos.1 hl (by linarith)
        refine power_ne (2 - lam) (-x) (fun h => h1 (by linarith)) hl' (by linarith) ?_
        rw [neg_div] at h
        linarith
      · rw [if_neg hl]
        intro h
        have h := Option.some.inj h
        have := Real.log_lt_sub_one_of_pos (show (0 : ℝ) < -x + 1 by linarith) (fun h => hx (by linarith))
        linarith
  refine ⟨key, fun col ⟨x, hx, hx0⟩ h => key x hx0 ((C71_input_overwritten lam col).1 h x hx)⟩

/-- With lambda 2 the cell 1 becomes 3/2: the caller's data is changed. -/
example : ptInputAfter 2 [1] = [some (3/2)] := by
  unfold ptInputAfter yj spacing
  simp only [List.map_cons, List.map_nil, abs_nonneg, not_lt.2, if_false, zero_le_one, if_true]
  norm_num

end Sk.Power
