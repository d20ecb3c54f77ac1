import Verif.Model.PowerFit
import Verif.Props.Power
import Verif.Props.TransClone2
import Verif.Lemmas.ListX
import Mathlib.Analysis.SpecialFunctions.Pow.Deriv
import Mathlib.Analysis.SpecialFunctions.Log.Deriv

/-! # C162, C163: choice of the parameters of `PowerTransformer`, and its methods on matrices -/
set_option autoImplicit false

namespace Sk.PowerFit
open Sk.Power

/-! ### C162: the minimised function is the negative log-likelihood -/

/-- Density of the normal distribution with mean `μ` and variance `s`. -/
noncomputable def normalDensity (μ s t : ℝ) : ℝ := Real.exp (-(t - μ) ^ 2 / (2 * s)) / Real.sqrt (2 * Real.pi * s)

/-- Log-likelihood of the sample `x` when `T x` is normal: the density of `x` is the density of `T x` times the derivative of `T`. -/
noncomputable def logLik (T : ℝ → ℝ) (x : List ℝ) (μ s : ℝ) : ℝ := (x.map (fun v => Real.log (normalDensity μ s (T v) * deriv T v))).sum

/-- The constant by which the two sides differ: it does not depend on lambda. -/
noncomputable def offset (n : ℕ) : ℝ := n / 2 * Real.log n - n / 2 - n / 2 * Real.log (2 * Real.pi)

theorem log_normal (μ s t d : ℝ) (hs : 0 < s) (hd : 0 < d) : Real.log (normalDensity μ s t * d) = Real.log d - (t - μ) ^ 2 / (2 * s) - Real.log (2 * Real.pi) / 2 - Real.log s / 2 := by
  have hp := Real.pi_pos
  have h1 : 0 < Real.sqrt (2 * Real.pi * s) := Real.sqrt_pos.2 (by positivity)
  have h2 : 0 < normalDensity μ s t := by unfold normalDensity; positivity
  rw [Real.log_mul h2.ne' hd.ne', normalDensity, Real.log_div (Real.exp_pos _).ne' h1.ne', Real.log_exp, Real.log_sqrt (by positivity), Real.log_mul (by positivity) hs.ne']
  ring

theorem sum_sq (t : List ℝ) (μ : ℝ) (hn : t ≠ []) :
    (t.map (fun v => (v - μ) ^ 2)).sum = Sk.Scale.numpyVar 1 t + t.length * (t.sum / t.length - μ) ^ 2 := by
  have hn' : (t.length : ℝ) ≠ 0 := by
    have := List.length_pos_iff.2 hn
    positivity
  have key : ∀ (l : List ℝ) (a : ℝ), (l.map (fun v => (v - a) ^ 2)).sum = (l.map (fun v => v * v)).sum - 2 * a * l.sum + l.length * (a * a) := by
    intro l a
    induction l with
    | nil => simp
    | cons x l ih => simp only [List.map_cons, List.sum_cons, List.length_cons, ih]; push_cast; ring
  have key2 : Sk.Scale.numpyVar 1 t = (t.map (fun v => (v - t.sum / t.length) ^ 2)).sum := by
    simp only [Sk.Scale.numpyVar, Nat.cast_one, div_one]
    congr 1
    apply List.map_congr_left
    intro v _
    ring
  rw [key2, key, key]
  field_simp
  ring

theorem loglik_form (T : ℝ → ℝ) (x : List ℝ) (μ s : ℝ) (hs : 0 < s) (hd : ∀ v ∈ x, 0 < deriv T v) :
    logLik T x μ s = (x.map (fun v => Real.log (deriv T v))).sum - ((x.map T).map (fun v => (v - μ) ^ 2)).sum / (2 * s) - x.length / 2 * Real.log (2 * Real.pi) - x.length / 2 * Real.log s := by
  unfold logLik
  induction x with
  | nil => simp
  | cons v x ih =>
    simp only [List.map_cons, List.sum_cons, List.length_cons]
    rw [ih (fun w hw => hd w (List.mem_cons_of_mem _ hw)), log_normal μ s _ _ hs (hd v List.mem_cons_self)]
    push_cast
    ring

/-- The maximum of the log-likelihood over mean and variance. -/
theorem profile (T : ℝ → ℝ) (x : List ℝ) (hn : x ≠ []) (hd : ∀ v ∈ x, 0 < deriv T v) (hv : 0 < Sk.Scale.numpyVar 1 (x.map T)) :
    (∀ μ s, 0 < s → logLik T x μ s ≤ (x.map (fun v => Real.log (deriv T v))).sum - x.length / 2 * Real.log (Sk.Scale.numpyVar 1 (x.map T)) + offset x.length) ∧
    ∃ μ s, 0 < s ∧ logLik T x μ s = (x.map (fun v => Real.log (deriv T v))).sum - x.length / 2 * Real.log (Sk.Scale.numpyVar 1 (x.map T)) + offset x.length := by
  have hpos : (0 : ℝ) < x.length := by exact_mod_cast List.length_pos_iff.2 hn
  set W := Sk.Scale.numpyVar 1 (x.map T) with hW
  constructor
  · intro μ s hs
    rw [loglik_form T x μ s hs hd, sum_sq (x.map T) μ (by simpa using hn), ← hW, List.length_map]
    have h1 : Real.log (W / (x.length * s)) ≤ W / (x.length * s) - 1 := Real.log_le_sub_one_of_pos (by positivity)
    rw [Real.log_div hv.ne' (by positivity), Real.log_mul hpos.ne' hs.ne'] at h1
    have h2 : 0 ≤ x.length * ((x.map T).sum / x.length - μ) ^ 2 / (2 * s) := by positivity
    have h3 : (x.length : ℝ) / 2 * (Real.log W - (Real.log x.length + Real.log s)) ≤ x.length / 2 * (W / (x.length * s) - 1) := mul_le_mul_of_nonneg_left h1 (by positivity)
    have h4 : (x.length : ℝ) / 2 * (W / (x.length * s) - 1) = W / (2 * s) - x.length / 2 := by field_simp
    rw [h4] at h3
    rw [add_div]
    unfold offset
    nlinarith
  · refine ⟨(x.map T).sum / x.length, W / x.length, by positivity, ?_⟩
    rw [loglik_form T x _ _ (by positivity) hd, sum_sq (x.map T) _ (by simpa using hn), ← hW, List.length_map, sub_self, Real.log_div hv.ne' hpos.ne']
    unfold offset
    field_simp
    ring

/-- The Yeo-Johnson transform as a function on numbers. -/
noncomputable def yjFun (lam x : ℝ) : ℝ := if 0 ≤ x then ((x + 1) ^ lam - 1) / lam else if lam = 2 then -Real.log (-x + 1) else -((-x + 1) ^ (2 - lam) - 1) / (2 - lam)

theorem yj_eq (lam x : ℝ) (h : lam ≠ 0) : yj lam x = some (yjFun lam x) := by
  unfold yj yjFun spacing
  by_cases hx : 0 ≤ x
  · rw [if_pos hx, if_pos hx, if_neg (not_lt.2 (abs_nonneg _)), if_neg h]
  · rw [if_neg hx, if_neg hx]
    by_cases h2 : lam = 2
    · rw [if_pos h2, if_neg (by simp [h2])]
    · rw [if_neg h2, if_pos (abs_pos.2 (sub_ne_zero.2 h2))]

/-- The derivative of the transform, also at 0. -/
theorem yjFun_deriv (lam x : ℝ) (h : lam ≠ 0) : HasDerivAt (yjFun lam) (if 0 ≤ x then (x + 1) ^ (lam - 1) else (-x + 1) ^ (1 - lam)) x := by
  have hr : ∀ z : ℝ, 0 < z + 1 → HasDerivAt (fun z => ((z + 1) ^ lam - 1) / lam) ((z + 1) ^ (lam - 1)) z := by
    intro z hz
    have h1 := (((hasDerivAt_id z).add_const 1).rpow_const (p := lam) (Or.inl hz.ne')).sub_const 1 |>.div_const lam
    simp only [id_eq, one_mul] at h1
    rwa [mul_div_right_comm, div_self h, one_mul] at h1
  have hl : ∀ z : ℝ, 0 < -z + 1 → HasDerivAt (fun z => if lam = 2 then -Real.log (-z + 1) else -((-z + 1) ^ (2 - lam) - 1) / (2 - lam)) ((-z + 1) ^ (1 - lam)) z := by
    intro z hz
    have hb : HasDerivAt (fun z : ℝ => -z + 1) (-1) z := (hasDerivAt_neg z).add_const 1
    by_cases h2 : lam = 2
    · simp only [if_pos h2]
      have h1 := (hb.log hz.ne').neg
      refine h1.congr_deriv ?_
      rw [h2, show (1 : ℝ) - 2 = -1 by norm_num, Real.rpow_neg_one]
      field_simp
    · simp only [if_neg h2]
      have h1 := ((hb.rpow_const (p := 2 - lam) (Or.inl hz.ne')).sub_const 1).neg.div_const (2 - lam)
      refine h1.congr_deriv ?_
      rw [show 2 - lam - 1 = 1 - lam by ring]
      have h3 : 2 - lam ≠ 0 := fun e => h2 (by linarith)
      field_simp
  rcases lt_trichotomy x 0 with hx | hx | hx
  · rw [if_neg (not_le.2 hx)]
    refine (hl x (by linarith)).congr_of_eventuallyEq ?_
    filter_upwards [Iio_mem_nhds hx] with w hw
    exact if_neg (not_le.2 hw)
  · subst hx
    rw [if_pos le_rfl, zero_add, Real.one_rpow]
    have h1 : HasDerivWithinAt (yjFun lam) 1 (Set.Ici 0) 0 := by
      have := hr 0 (by norm_num)
      rw [zero_add, Real.one_rpow] at this
      exact this.hasDerivWithinAt.congr (fun w hw => if_pos hw) (if_pos le_rfl)
    have h2 : HasDerivWithinAt (yjFun lam) 1 (Set.Iic 0) 0 := by
      have := hl 0 (by norm_num)
      rw [neg_zero, zero_add, Real.one_rpow] at this
      have e0 : yjFun lam 0 = if lam = 2 then -Real.log (-0 + 1) else -((-0 + 1) ^ (2 - lam) - 1) / (2 - lam) := by
        simp [yjFun]
      refine this.hasDerivWithinAt.congr (fun w hw => ?_) e0
      rcases eq_or_lt_of_le (show w ≤ 0 from hw) with e | e
      · rw [e]; exact e0
      · exact if_neg (not_le.2 e)
    have h3 := h2.union h1
    rw [Set.Iic_union_Ici, hasDerivWithinAt_univ] at h3
    exact h3
  · rw [if_pos hx.le]
    refine (hr x (by linarith)).congr_of_eventuallyEq ?_
    filter_upwards [Ioi_mem_nhds hx] with w hw
    exact if_pos (le_of_lt hw)

theorem mapM_some {A B : Type} (f : A → Option B) (g : A → B) (l : List A) (h : ∀ a ∈ l, f a = some (g a)) : l.mapM f = some (l.map g) := by
  induction l with
  | nil => rfl
  | cons a l ih =>
    rw [List.mapM_cons, h a List.mem_cons_self, ih (fun b hb => h b (List.mem_cons_of_mem _ hb))]
    rfl

theorem numpyVar_nonneg (t : List ℝ) : 0 ≤ Sk.Scale.numpyVar 1 t := by
  simp only [Sk.Scale.numpyVar, Nat.cast_one, div_one]
  apply List.sum_nonneg
  intro v hv
  obtain ⟨w, -, rfl⟩ := List.mem_map.1 hv
  exact mul_self_nonneg _

/-- C162: for every lambda other than 0 and every sample whose transformed values are not all equal, the function minimised for the Yeo-Johnson transform is, up to a constant that does not depend on lambda, minus the largest
log-likelihood of the sample over all normal distributions of the transformed values.
Missing for the full claim: what `C162_zero_violated` refutes. -/
theorem C162_yeoJohnson_partial (x : List ℝ) (lam : ℝ) (hl : lam ≠ 0) (hne : ∃ a ∈ x, ∃ b ∈ x, yj lam a ≠ yj lam b) :
    ∃ f T, yjObjective x lam = some f ∧ (∀ v, yj lam v = some (T v)) ∧ (∀ μ s, 0 < s → logLik T x μ s ≤ -f + offset x.length) ∧ ∃ μ s, 0 < s ∧ logLik T x μ s = -f + offset x.length := by
  obtain ⟨a, ha, b, hb, hab⟩ := hne
  have hxn : x ≠ [] := List.ne_nil_of_mem ha
  have hm := mapM_some (yj lam) (yjFun lam) x (fun v _ => yj_eq lam v hl)
  have hvp : 0 < Sk.Scale.numpyVar 1 (x.map (yjFun lam)) := by
    refine lt_of_le_of_ne (numpyVar_nonneg _) (fun h0 => hab ?_)
    have h1 := sum_sq (x.map (yjFun lam)) ((x.map (yjFun lam)).sum / (x.map (yjFun lam)).length) (by simpa using hxn)
    rw [← h0, sub_self] at h1
    have h2 : ∀ v ∈ (x.map (yjFun lam)).map (fun v => (v - (x.map (yjFun lam)).sum / (x.map (yjFun lam)).length) ^ 2), v = 0 := by
      have hnn : ∀ v ∈ (x.map (yjFun lam)).map (fun v => (v - (x.map (yjFun lam)).sum / (x.map (yjFun lam)).length) ^ 2), 0 ≤ v := by
        intro v hv
        obtain ⟨w, -, rfl⟩ := List.mem_map.1 hv
        positivity
      intro v hv
      have h3 := List.single_le_sum hnn v hv
      rw [h1] at h3
      have h4 := hnn v hv
      norm_num at h3
      linarith
    have h5 : ∀ w ∈ x, yjFun lam w = (x.map (yjFun lam)).sum / (x.map (yjFun lam)).length := by
      intro w hw
      have := h2 _ (List.mem_map_of_mem (List.mem_map_of_mem hw))
      have := pow_eq_zero_iff (two_ne_zero) |>.1 this
      linarith
    rw [yj_eq lam a hl, yj_eq lam b hl, h5 a ha, h5 b hb]
  have hderiv : ∀ v, deriv (yjFun lam) v = if 0 ≤ v then (v + 1) ^ (lam - 1) else (-v + 1) ^ (1 - lam) := fun v => (yjFun_deriv lam v hl).deriv
  have hd : ∀ v ∈ x, 0 < deriv (yjFun lam) v := by
    intro v _
    rw [hderiv]
    split_ifs with h
    · exact Real.rpow_pos_of_pos (by linarith) _
    · exact Real.rpow_pos_of_pos (by linarith [not_le.1 h]) _
  have hlog : (x.map (fun v => Real.log (deriv (yjFun lam) v))).sum = (lam - 1) * (x.map (fun xi => if xi > 0 then Real.log (1 + xi) else -Real.log (1 + -xi))).sum := by
    rw [← List.sum_map_mul_left]
    congr 1
    apply List.map_congr_left
    intro v _
    rw [hderiv]
    rcases lt_trichotomy v 0 with h | h | h
    · rw [if_neg (not_le.2 h), if_neg (not_lt.2 h.le), Real.log_rpow (by linarith), add_comm]
      ring
    · subst h
      simp
    · rw [if_pos h.le, if_pos h, Real.log_rpow (by linarith), add_comm]
  obtain ⟨p1, p2⟩ := profile (yjFun lam) x hxn hd hvp
  refine ⟨-(-(x.length : ℝ) / 2 * Real.log (Sk.Scale.numpyVar 1 (x.map (yjFun lam))) + (lam - 1) * (x.map (fun xi => if xi > 0 then Real.log (1 + xi) else -Real.log (1 + -xi))).sum), yjFun lam, ?_, fun v => yj_eq lam v hl, ?_, ?_⟩
  · simp only [yjObjective, hm, Option.bind_eq_bind, Option.bind_some, if_neg hvp.ne']
  · intro μ s hs
    have := p1 μ s hs
    rw [hlog] at this
    linarith
  · obtain ⟨μ, s, hs, he⟩ := p2
    refine ⟨μ, s, hs, ?_⟩
    rw [he, hlog]
    ring

/-- Hypotheses met. -/
example : (2 : ℝ) ≠ 0 ∧ ∃ a ∈ [(0 : ℝ), 1], ∃ b ∈ [(0 : ℝ), 1], yj 2 a ≠ yj 2 b := by
  refine ⟨by norm_num, 0, by simp, 1, by simp, ?_⟩
  rw [yj_eq 2 0 (by norm_num), yj_eq 2 1 (by norm_num)]
  norm_num [yjFun]

/-- C162: of two lambdas, the one with the smaller objective has the larger maximum of the log-likelihood.
Missing for the full claim: what `C162_zero_violated` refutes. -/
theorem C162_order_partial (x : List ℝ) (l₁ l₂ f₁ f₂ : ℝ) (h₁ : l₁ ≠ 0) (h₂ : l₂ ≠ 0) (hne₁ : ∃ a ∈ x, ∃ b ∈ x, yj l₁ a ≠ yj l₁ b) (hne₂ : ∃ a ∈ x, ∃ b ∈ x, yj l₂ a ≠ yj l₂ b)
    (hf₁ : yjObjective x l₁ = some f₁) (hf₂ : yjObjective x l₂ = some f₂) (hle : f₁ ≤ f₂) (T₁ T₂ : ℝ → ℝ) (hT₁ : ∀ v, yj l₁ v = some (T₁ v)) (hT₂ : ∀ v, yj l₂ v = some (T₂ v)) :
    ∀ μ s, 0 < s → ∃ μ' s', 0 < s' ∧ logLik T₂ x μ s ≤ logLik T₁ x μ' s' := by
  obtain ⟨g₁, U₁, e₁, t₁, -, μ', s', hs', q₁⟩ := C162_yeoJohnson_partial x l₁ h₁ hne₁
  obtain ⟨g₂, U₂, e₂, t₂, p₂, -⟩ := C162_yeoJohnson_partial x l₂ h₂ hne₂
  obtain rfl : U₁ = T₁ := funext (fun v => Option.some.inj ((t₁ v).symm.trans (hT₁ v)))
  obtain rfl : U₂ = T₂ := funext (fun v => Option.some.inj ((t₂ v).symm.trans (hT₂ v)))
  rw [hf₁] at e₁
  rw [hf₂] at e₂
  obtain rfl := Option.some.inj e₁
  obtain rfl := Option.some.inj e₂
  intro μ s hs
  refine ⟨μ', s', hs', ?_⟩
  rw [q₁]
  linarith [p₂ μ s hs]

/-- C162: the same for Box-Cox, for every lambda (0 included) and positive samples. -/
theorem C162_boxCox (x : List ℝ) (lam : ℝ) (hx : ∀ v ∈ x, 0 < v) (hne : ∃ a ∈ x, ∃ b ∈ x, bc lam a ≠ bc lam b) :
    ∃ f T, bcObjective x lam = some f ∧ (∀ v, 0 < v → bc lam v = some (T v)) ∧ (∀ μ s, 0 < s → logLik T x μ s ≤ -f + offset x.length) ∧ ∃ μ s, 0 < s ∧ logLik T x μ s = -f + offset x.length := by
  obtain ⟨a, ha, b, hb, hab⟩ := hne
  have hxn : x ≠ [] := List.ne_nil_of_mem ha
  set T : ℝ → ℝ := fun v => if lam = 0 then Real.log v else (v ^ lam - 1) / lam with hT
  have hbc : ∀ v, 0 < v → bc lam v = some (T v) := fun v hv => by unfold bc; rw [if_pos (Or.inl hv)]
  have hm := mapM_some (bc lam) T x (fun v hv => hbc v (hx v hv))
  have hml := mapM_some (fun xi => if 0 < xi then some (Real.log xi) else none) Real.log x (fun v hv => if_pos (hx v hv))
  have hvp : 0 < Sk.Scale.numpyVar 1 (x.map T) := by
    refine lt_of_le_of_ne (numpyVar_nonneg _) (fun h0 => hab ?_)
    have h1 := sum_sq (x.map T) ((x.map T).sum / (x.map T).length) (by simpa using hxn)
    rw [← h0, sub_self] at h1
    have hnn : ∀ v ∈ (x.map T).map (fun v => (v - (x.map T).sum / (x.map T).length) ^ 2), 0 ≤ v := by
      intro v hv
      obtain ⟨w, -, rfl⟩ := List.mem_map.1 hv
      positivity
    have h5 : ∀ w ∈ x, T w = (x.map T).sum / (x.map T).length := by
      intro w hw
      have hmem := List.mem_map_of_mem (f := fun v => (v - (x.map T).sum / (x.map T).length) ^ 2) (List.mem_map_of_mem (f := T) hw)
      have h3 := List.single_le_sum hnn _ hmem
      rw [h1] at h3
      have h4 := hnn _ hmem
      norm_num at h3
      have h6 : (T w - (x.map T).sum / (x.map T).length) ^ 2 = 0 := le_antisymm (by simpa using h3) h4
      have := pow_eq_zero_iff (two_ne_zero) |>.1 h6
      linarith
    rw [hbc a (hx a ha), hbc b (hx b hb), h5 a ha, h5 b hb]
  have hder : ∀ v, 0 < v → HasDerivAt T (v ^ (lam - 1)) v := by
    intro v hv
    by_cases h0 : lam = 0
    · have : HasDerivAt Real.log v⁻¹ v := Real.hasDerivAt_log hv.ne'
      simp only [hT, if_pos h0]
      refine this.congr_deriv ?_
      rw [h0, zero_sub, Real.rpow_neg_one]
    · simp only [hT, if_neg h0]
      have h1 := (((hasDerivAt_id v).rpow_const (p := lam) (Or.inl hv.ne')).sub_const 1).div_const lam
      refine h1.congr_deriv ?_
      simp only [id_eq, one_mul]
      rw [mul_div_right_comm, div_self h0, one_mul]
  have hd : ∀ v ∈ x, 0 < deriv T v := fun v hv => by rw [(hder v (hx v hv)).deriv]; exact Real.rpow_pos_of_pos (hx v hv) _
  have hlog : (x.map (fun v => Real.log (deriv T v))).sum = (lam - 1) * (x.map Real.log).sum := by
    rw [← List.sum_map_mul_left]
    congr 1
    apply List.map_congr_left
    intro v hv
    rw [(hder v (hx v hv)).deriv, Real.log_rpow (hx v hv)]
  obtain ⟨p1, p2⟩ := profile T x hxn hd hvp
  refine ⟨-(-(x.length : ℝ) / 2 * Real.log (Sk.Scale.numpyVar 1 (x.map T)) + (lam - 1) * (x.map Real.log).sum), T, ?_, hbc, ?_, ?_⟩
  · simp only [bcObjective, hm, hml, Option.bind_eq_bind, Option.bind_some, if_neg hvp.ne']
  · intro μ s hs
    have := p1 μ s hs
    rw [hlog] at this
    linarith
  · obtain ⟨μ, s, hs, he⟩ := p2
    refine ⟨μ, s, hs, ?_⟩
    rw [he, hlog]
    ring

/-- Hypotheses met. -/
example : (∀ v ∈ [(1 : ℝ), 2], 0 < v) ∧ ∃ a ∈ [(1 : ℝ), 2], ∃ b ∈ [(1 : ℝ), 2], bc 1 a ≠ bc 1 b := by
  refine ⟨by simp, 1, by simp, 2, by simp, ?_⟩
  norm_num [bc]

/-- C162, violated for lambda 0 (the logarithm): as soon as one value is not negative the objective is not a number. -/
theorem C162_zero_violated (x : List ℝ) (hx : ∃ v ∈ x, 0 ≤ v) : yjObjective x 0 = none := by
  obtain ⟨v, hv, h0⟩ := hx
  have hm : x.mapM (yj 0) = none := by
    induction x with
    | nil => simp at hv
    | cons w x ih =>
      rw [List.mapM_cons]
      rcases List.mem_cons.1 hv with h | h
      · rw [← h, (C25_violated v h0).1]; rfl
      · rw [ih h]
        cases yj 0 w <;> rfl
  simp only [yjObjective, hm, Option.bind_eq_bind, Option.bind_none]

example : ∃ v ∈ [(-1 : ℝ), 0], 0 ≤ v := ⟨0, by simp, le_rfl⟩

/-! ### C163: the methods on matrices -/

section
variable {S : Type} (opt : Method → List Cell → ℝ) (scFit : List (List Cell) → S) (scApply : S → List (List Cell) → List (List Cell)) (first : ℕ → Bool)

theorem runCols_some (m : Method) (cols : List (List Cell)) : ∀ (c : ℕ) (buf : List Cell) (lams : List ℝ), cols.length ≤ lams.length → ∃ out, runCols m first c buf lams cols = some out ∧ out.length = cols.length := by
  induction cols with
  | nil => intro c buf lams _; exact ⟨[], by cases lams <;> rfl, rfl⟩
  | cons col cols ih =>
    intro c buf lams h
    cases lams with
    | nil => simp at h
    | cons lam lams =>
      obtain ⟨out, h1, h2⟩ := ih (c + 1) (stepCol m lam (if first c then List.replicate col.length (some 0) else buf) col) lams (by simpa using h)
      exact ⟨stepCol m lam (if first c then List.replicate col.length (some 0) else buf) col :: out, by simp only [runCols, h1, Option.map_some], by simp [h2]⟩

/-- C163: `FitTransform` leaves the transformer as `Fit` does and returns what `Transform` then returns, for every method, setting, matrix (with NaN or not) and number of workers; on a known method neither panics. -/
theorem C163_fitTransform (pt : PT S) (shares : Bool) (cols : List (List Cell)) :
    fitTransform opt scFit scApply first pt cols = (fitOnly opt scFit scApply first pt cols).bind (fun pt' => (transform scApply first pt' shares cols).map (fun r => (pt', r.1))) ∧
    (pt.method ≠ .other → (fitTransform opt scFit scApply first pt cols).isSome) := by
  unfold fitTransform fitOnly fit transform
  by_cases hm : pt.method = .other
  · simp [hm]
  · obtain ⟨out, ho, -⟩ := runCols_some first pt.method cols 0 [] (cols.map (opt pt.method)) (by simp)
    cases hs : pt.standardize <;> simp [hm, ho, hs]

/-- What the transform of a number is. -/
noncomputable def power : Method → ℝ → ℝ → Cell
  | .yeoJohnson, lam, x => yj lam x
  | _, lam, x => bc lam x

theorem stepCol_num (m : Method) (lam : ℝ) (buf : List Cell) (col : List ℝ) (h : col.length ≤ buf.length) : stepCol m lam buf (col.map some) = col.map (power m lam) := by
  cases m with
  | yeoJohnson =>
    simp only [stepCol, power]
    induction col generalizing buf with
    | nil => simp
    | cons x col ih =>
      cases buf with
      | nil => simp at h
      | cons b buf => simp only [List.map_cons, List.zipWith_cons_cons]; rw [ih buf (by simpa using h)]; rfl
  | boxCox => simp [stepCol, power, Function.comp_def]
  | other => simp [stepCol, power, Function.comp_def]

theorem runCols_num (m : Method) (n : ℕ) (cols : List (List ℝ)) : ∀ (c : ℕ) (buf : List Cell) (lams : List ℝ), (first c = false → n ≤ buf.length) → (∀ col ∈ cols, col.length = n) → cols.length ≤ lams.length →
    runCols m first c buf lams (cols.map (fun col => col.map some)) = some (List.zipWith (fun lam col => col.map (power m lam)) lams cols) := by
  induction cols with
  | nil => intro c buf lams _ _ _; cases lams <;> simp [runCols]
  | cons col cols ih =>
    intro c buf lams hb hn hl
    cases lams with
    | nil => simp at hl
    | cons lam lams =>
      have hc := hn col List.mem_cons_self
      have e : stepCol m lam (if first c then List.replicate (col.map some).length (some 0) else buf) (col.map some) = col.map (power m lam) := by
        apply stepCol_num
        cases hf : first c with
        | false => simpa [hc] using hb hf
        | true => simp
      simp only [List.map_cons, runCols, e, List.zipWith_cons_cons]
      rw [ih (c + 1) _ lams (fun _ => by simp [hc]) (fun col' h' => hn col' (List.mem_cons_of_mem _ h')) (by simpa using hl)]
      rfl

/-- C163: on a matrix of numbers the transform of each cell depends on the cell and the lambda of its column only, not on the number of workers.
Missing for the full claim: what `C163_nan_violated`, `C163_twice_violated`, `C163_stale_violated`, `C163_switch_violated` refute. -/
theorem C163_cells_partial (pt : PT S) (hm : pt.method ≠ .other) (hs : pt.standardize = false) (hf : first 0 = true) (shares : Bool) (n : ℕ) (cols : List (List ℝ)) (hn : ∀ col ∈ cols, col.length = n) (hl : cols.length ≤ pt.lambdas.length) :
    (transform scApply first pt shares (cols.map (fun col => col.map some))).map Prod.fst = some (List.zipWith (fun lam col => col.map (power pt.method lam)) pt.lambdas cols) := by
  unfold transform
  rw [if_neg hm, runCols_num first pt.method n cols 0 [] pt.lambdas (fun h => by rw [hf] at h; cases h) hn hl]
  simp [hs]

/-- Hypotheses met. -/
example : (∀ col ∈ [[(1 : ℝ), -2], [3, 4]], col.length = 2) ∧ [[(1 : ℝ), -2], [3, 4]].length ≤ [(2 : ℝ), 1].length := by simp

/-- C163, violated: a missing value (NaN) does not stay missing under the Yeo-Johnson transform.  In the first column of a worker it becomes 0; in another column it becomes the transformed value of the column before: with
one row `[x, NaN]`, two workers give `0` and one worker gives the transform of `x`. -/
theorem C163_nan_violated (s : Option S) (shares : Bool) (l₁ l₂ x y : ℝ) (hx : yj l₁ x = some y) :
    (transform scApply (fun c => c = 0) ⟨.yeoJohnson, false, [l₁, l₂], s⟩ shares [[some x], [none]]).map Prod.fst = some [[some y], [some y]] ∧
    (transform scApply (fun _ => true) ⟨.yeoJohnson, false, [l₁, l₂], s⟩ shares [[some x], [none]]).map Prod.fst = some [[some y], [some 0]] := by
  simp [transform, runCols, stepCol, hx]

example : yj 2 1 = some (3 / 2) := by
  rw [yj_eq 2 1 (by norm_num)]
  norm_num [yjFun]

/-- C163: `Transform` of a matrix that does not share its memory leaves it as it was; so does `FitTransform` (which only reads its argument).
Missing for the full claim: what `C163_nan_violated`, `C163_twice_violated`, `C163_stale_violated`, `C163_switch_violated` refute. -/
theorem C163_unchanged_partial (pt : PT S) (cols : List (List Cell)) (r : List (List Cell) × List (List Cell)) (h : transform scApply first pt false cols = some r) : r.2 = cols := by
  unfold transform at h
  by_cases hm : pt.method = .other
  · simp [hm] at h
  · rw [if_neg hm] at h
    cases hr : runCols pt.method first 0 [] pt.lambdas cols with
    | none => simp [hr] at h
    | some out =>
      rw [hr] at h
      cases hs : pt.standardize with
      | false => simp [hs] at h; rw [← h]
      | true =>
        cases hsc : pt.scaler with
        | none => simp [hs, hsc] at h
        | some s => simp [hs, hsc] at h; rw [← h]

example : (transform (S := Unit) (fun _ X => X) (fun _ => true) ⟨.boxCox, false, [1], none⟩ false [[some 3]]).map Prod.snd = some [[some 3]] := by
  norm_num [transform, runCols, stepCol, bc, show Method.boxCox ≠ Method.other by decide]

/-- C163, violated: transforming the same dense matrix twice gives the same result both times only if every value is fixed by the transform of its column (here one column, without standardisation). -/
theorem C163_twice_violated (s : Option S) (lam : ℝ) (hl : lam ≠ 0) (col : List ℝ) (hf : first 0 = true) (out after out' after' : List (List Cell))
    (h1 : transform scApply first ⟨.yeoJohnson, false, [lam], s⟩ true [col.map some] = some (out, after)) (h2 : transform scApply first ⟨.yeoJohnson, false, [lam], s⟩ true after = some (out', after')) :
    out' = out ↔ ∀ x ∈ col, yj lam x = some x := by
  have key : ∀ c : List ℝ, transform scApply first ⟨.yeoJohnson, false, [lam], s⟩ true [c.map some] = some ([(c.map (yjFun lam)).map some], [(c.map (yjFun lam)).map some]) := by
    intro c
    have e : stepCol .yeoJohnson lam (List.replicate (c.map (some : ℝ → Cell)).length (some 0)) (c.map some) = (c.map (yjFun lam)).map some := by
      rw [stepCol_num _ _ _ _ (by simp)]
      simp only [power, List.map_map]
      apply List.map_congr_left
      intro x _
      exact yj_eq lam x hl
    unfold transform
    simp only [runCols, hf, if_true, e]
    simp
  rw [key col] at h1
  obtain ⟨rfl, rfl⟩ := Prod.mk.inj (Option.some.inj h1)
  rw [key] at h2
  obtain ⟨rfl, rfl⟩ := Prod.mk.inj (Option.some.inj h2)
  have hinj : ∀ x x', yjFun lam x = yjFun lam x' → x = x' := by
    intro x x' e
    by_contra hne
    rcases lt_or_gt_of_ne hne with hlt | hlt
    · obtain ⟨y, y', e1, e2, hy⟩ := C25_strictMono lam x x' hl hlt
      rw [yj_eq lam x hl] at e1
      rw [yj_eq lam x' hl] at e2
      rw [← Option.some.inj e1, ← Option.some.inj e2, e] at hy
      exact lt_irrefl _ hy
    · obtain ⟨y, y', e1, e2, hy⟩ := C25_strictMono lam x' x hl hlt
      rw [yj_eq lam x' hl] at e1
      rw [yj_eq lam x hl] at e2
      rw [← Option.some.inj e1, ← Option.some.inj e2, e] at hy
      exact lt_irrefl _ hy
  have hsome : Function.Injective (List.map (some : ℝ → Cell)) := List.map_injective_iff.2 (Option.some_injective _)
  constructor
  · intro h x hx
    have h3 := hsome (List.cons.inj h).1
    rw [List.map_map] at h3
    have h4 := List.map_inj_left.1 h3 x hx
    rw [yj_eq lam x hl]
    exact congrArg some (hinj _ _ h4)
  · intro h
    have e : col.map (yjFun lam) = col := by
      conv_rhs => rw [← List.map_id col]
      apply List.map_congr_left
      intro x hx
      have := h x hx
      rw [yj_eq lam x hl] at this
      exact Option.some.inj this
    rw [e, e]

/-- A value that is not fixed. -/
example : yj 2 1 ≠ some 1 := by
  rw [yj_eq 2 1 (by norm_num)]
  norm_num [yjFun]

/-- C163, violated: `Fit` without standardisation keeps the scaler of an earlier fit; if `Standardize` is switched on again, `Transform` scales with the statistics of the earlier data. -/
theorem C163_stale_violated (pt pt₁ pt₂ : PT S) (A B : List (List Cell)) (hstd : pt.standardize = true) (h1 : fitOnly opt scFit scApply first pt A = some pt₁)
    (h2 : fitOnly opt scFit scApply first { pt₁ with standardize := false } B = some pt₂) :
    ∃ TA, runCols pt.method first 0 [] (A.map (opt pt.method)) A = some TA ∧ ∃ TB, runCols pt.method first 0 [] (B.map (opt pt.method)) B = some TB ∧
      (transform scApply first { pt₂ with standardize := true } true B).map Prod.fst = some (scApply (scFit TA) TB) := by
  unfold fitOnly fit at h1 h2
  by_cases hm : pt.method = .other
  · simp [hm] at h1
  · obtain ⟨TA, hA, -⟩ := runCols_some first pt.method A 0 [] (A.map (opt pt.method)) (by simp)
    obtain ⟨TB, hB, -⟩ := runCols_some first pt.method B 0 [] (B.map (opt pt.method)) (by simp)
    simp [hm, hA, hstd] at h1
    subst h1
    simp [hm] at h2
    subst h2
    refine ⟨TA, hA, TB, hB, ?_⟩
    simp [transform, hm, hB]

example : (fitOnly (S := Unit) (fun _ _ => 1) (fun _ => ()) (fun _ X => X) (fun _ => true) ⟨.boxCox, true, [], none⟩ [[some 3]]).isSome := by simp [fitOnly, fit, runCols]

/-- C163, violated: switching `Standardize` on after a fit of a new transformer without it makes `Transform` panic. -/
theorem C163_switch_violated (pt pt₁ : PT S) (A B : List (List Cell)) (shares : Bool) (hstd : pt.standardize = false) (hs : pt.scaler = none) (h1 : fitOnly opt scFit scApply first pt A = some pt₁) :
    transform scApply first { pt₁ with standardize := true } shares B = none := by
  unfold fitOnly fit at h1
  by_cases hm : pt.method = .other
  · simp [hm] at h1
  · simp [hm, hstd] at h1
    subst h1
    cases hB : runCols pt.method first 0 [] (A.map (opt pt.method)) B with
    | none => simp [transform, hm, hB]
    | some out => simp [transform, hm, hB, hs]

example : (fitOnly (S := Unit) (fun _ _ => 1) (fun _ => ()) (fun _ X => X) (fun _ => true) ⟨.boxCox, false, [], none⟩ [[some 3]]).isSome := by simp [fitOnly, fit]

/-- C163: after a fit a transformer, cloned or not, has the lambdas and the scaler that `Fit` computes from these data; lambdas of earlier fits play no role. -/
theorem C163_clone_fit (method : Method) (standardize : Bool) (ops : List (Sk.TransClone.Op (List (List Cell)))) (st st' : Sk.TransClone.St (Option S) (List ℝ)) (i : ℕ) (cols : List (List Cell))
    (hrun : Sk.TransClone.run (powerTransformer opt scFit scApply first method standardize) ops = some st)
    (h : Sk.TransClone.run (powerTransformer opt scFit scApply first method standardize) (ops ++ [.fit i cols]) = some st') :
    ∃ v pt, Sk.TransClone.view st i = some v ∧ (∀ lams, fitOnly opt scFit scApply first ⟨method, standardize, lams, v.1⟩ cols = some pt) ∧ Sk.TransClone.view st' i = some (pt.scaler, some pt.lambdas) := by
  obtain ⟨v, r, h1, h2, h3⟩ := Sk.TransClone.alloc_fit _ _ _ ops st st' hrun i cols h
  obtain ⟨pt, hpt, rfl⟩ := Option.map_eq_some_iff.1 h2
  exact ⟨v, pt, h1, fun lams => by rw [← hpt]; rfl, h3⟩

example : ∃ st, Sk.TransClone.run (powerTransformer (S := Unit) (fun _ _ => 1) (fun _ => ()) (fun _ X => X) (fun _ => true) .boxCox false) [.create 0, .fit 0 [[some 3]]] = some st ∧ Sk.TransClone.view st 0 = some (none, some [1]) := by
  refine ⟨_, rfl, ?_⟩
  simp [Sk.TransClone.view, Sk.TransClone.init, powerTransformer, Sk.TransClone.alloc]

/-- C163: clones are independent: for any program of creations, clones and fits every transformer has the lambdas and the scaler it would have if it owned them. -/
theorem C163_clone (method : Method) (standardize : Bool) (ops : List (Sk.TransClone.Op (List (List Cell)))) (h : Sk.TransClone.FitOnly ops) :
    (Sk.TransClone.run (powerTransformer opt scFit scApply first method standardize) ops).map Sk.TransClone.view = Sk.TransClone.ownRun (powerTransformer opt scFit scApply first method standardize) ops :=
  Sk.TransClone.C151_fit_partial _ (fun _ => rfl) ops h

example : Sk.TransClone.FitOnly ([.create 0, .fit 0 [[some 3]], .clone 0 1, .fit 1 [[some 7]]] : List (Sk.TransClone.Op (List (List Cell)))) := by
  intro i d h
  simp at h

end

end Sk.PowerFit
