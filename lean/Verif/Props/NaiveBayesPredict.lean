import Verif.Model.NaiveBayes
import Mathlib.Analysis.SpecialFunctions.Pow.Real
import Mathlib.Tactic.FieldSimp
import Mathlib.Tactic.Linarith
import Mathlib.Tactic.Positivity

/-! # C87: Gaussian naive Bayes predictions are those of Bayes' rule -/
set_option autoImplicit false

namespace Sk.NB

/-! ### Specification -/

/-- Density of the normal distribution with mean `m` and variance `v`. -/
noncomputable def normalDensity (m v x : ℝ) : ℝ := Real.exp (-((x - m) ^ 2) / (2 * v)) / Real.sqrt (2 * Real.pi * v)

/-- Prior times likelihood of the row `x` for a class with the given prior, means and variances. -/
noncomputable def joint (prior : ℝ) (mu va x : List ℝ) : ℝ :=
  prior * ((List.range x.length).map (fun j => normalDensity (mu.getD j 0) (va.getD j 0) (x.getD j 0))).prod

/-- A trained model that can score rows with `p` features: positive priors and variances. -/
structure Usable (f : Fitted ℝ) (p : ℕ) : Prop where
  some_class : f.classes ≠ []
  len_stats : f.stats.length = f.classes.length
  len_prior : f.prior.length = f.classes.length
  prior_pos : ∀ q ∈ f.prior, 0 < q
  shape : ∀ s ∈ f.stats, s.va.length = p
  var_pos : ∀ s ∈ f.stats, ∀ v ∈ s.va, 0 < v

/-- The joint scores of all classes. -/
noncomputable def joints (f : Fitted ℝ) (x : List ℝ) : List ℝ := List.zipWith (fun p s => joint p s.mu s.va x) f.prior f.stats

/-! ### Lemmas -/

theorem exp_jll1 (q : ℝ) (s : Stat ℝ) (x : List ℝ) (hq : 0 < q) (hl : s.va.length = x.length) (hv : ∀ v ∈ s.va, 0 < v) :
    Real.exp (jll1 q s x) = joint q s.mu s.va x := by
  have hvj : ∀ j ∈ List.range x.length, 0 < s.va.getD j 0 := by
    intro j hj
    rw [List.mem_range] at hj
    rw [List.getD_eq_getElem?_getD, List.getElem?_eq_getElem (by omega)]
    exact hv _ (List.getElem_mem _)
  have key : ∀ (l : List ℕ) (a : ℝ), (∀ j ∈ l, 0 < s.va.getD j 0) → Real.exp (l.foldl (fun nij j =>
    let v := s.va.getD j 0
    let nij := nij - 0.5 * Real.log (2 * Real.pi * v)
    let xd := x.getD j 0 - s.mu.getD j 0
    nij - 0.5 * xd * xd / v) a) = Real.exp a * (l.map (fun j => normalDensity (s.mu.getD j 0) (s.va.getD j 0) (x.getD j 0))).prod := by
    intro l
    induction l with
    | nil => intro a _; simp
    | cons j l ih =>
      intro a h
      rw [List.foldl_cons, ih _ (fun k hk => h k (by simp [hk])), List.map_cons, List.prod_cons, ← mul_assoc]
      congr 1
      have hv := h j (by simp)
      have hpos : 0 < 2 * Real.pi * s.va.getD j 0 := by positivity
      simp only [normalDensity]
      rw [Real.exp_sub, Real.exp_sub]
      have h1 : Real.exp (0.5 * Real.log (2 * Real.pi * s.va.getD j 0)) = Real.sqrt (2 * Real.pi * s.va.getD j 0) := by
        rw [Real.sqrt_eq_rpow, Real.rpow_def_of_pos hpos]
        congr 1
        rw [mul_comm]; norm_num
      have h2 : Real.exp (-((x.getD j 0 - s.mu.getD j 0) ^ 2) / (2 * s.va.getD j 0)) =
          (Real.exp (0.5 * (x.getD j 0 - s.mu.getD j 0) * (x.getD j 0 - s.mu.getD j 0) / s.va.getD j 0))⁻¹ := by
        rw [← Real.exp_neg]
        congr 1
        field_simp
        norm_num
        ring
      rw [h1, h2]
      field_simp
  rw [jll1, Real.exp_add, Real.exp_log hq, key _ _ hvj, Real.exp_zero, one_mul]
  rfl

theorem maxIdx_spec (l : List ℝ) (h : l ≠ []) :
    ∃ hi : (maxIdx l).1 < l.length, (maxIdx l).2 = l[(maxIdx l).1] ∧ (∀ v ∈ l, v ≤ (maxIdx l).2) ∧ ∀ (k : ℕ) (hk : k < l.length), k < (maxIdx l).1 → l[k] < (maxIdx l).2 := by
  cases l with
  | nil => exact absurd rfl h
  | cons a l =>
    have key : ∀ (rest pre : List ℝ) (b : ℕ × ℝ), (∃ hi : b.1 < pre.length, b.2 = pre[b.1] ∧ (∀ v ∈ pre, v ≤ b.2) ∧ ∀ (k : ℕ) (hk : k < pre.length), k < b.1 → pre[k] < b.2) →
        let r := (rest.foldl (fun (b : (ℕ × ℝ) × ℕ) v => (if b.1.2 < v then (b.2, v) else b.1, b.2 + 1)) (b, pre.length)).1
        ∃ hi : r.1 < (pre ++ rest).length, r.2 = (pre ++ rest)[r.1] ∧ (∀ v ∈ pre ++ rest, v ≤ r.2) ∧ ∀ (k : ℕ) (hk : k < (pre ++ rest).length), k < r.1 → (pre ++ rest)[k] < r.2 := by
      intro rest
      induction rest with
      | nil => intro pre b hb; simpa using hb
      | cons v rest ih =>
        intro pre b hb
        have hlen : pre.length + 1 = (pre ++ [v]).length := by simp
        have happ : pre ++ v :: rest = (pre ++ [v]) ++ rest := by simp
        simp only [List.foldl_cons, hlen, happ]
        apply ih
        obtain ⟨hi, h1, h2, h3⟩ := hb
        by_cases hlt : b.2 < v
        · simp only [if_pos hlt]
          refine ⟨by simp, by simp, ?_, ?_⟩
          · intro w hw
            rcases List.mem_append.1 hw with hw | hw
            · exact (h2 w hw).trans hlt.le
            · simp at hw; rw [hw]
          · intro k _ hk2
            rw [List.getElem_append_left hk2]
            exact (h2 _ (List.getElem_mem _)).trans_lt hlt
        · simp only [if_neg hlt]
          refine ⟨by simp; omega, by rw [List.getElem_append_left hi]; exact h1, ?_, ?_⟩
          · intro w hw
            rcases List.mem_append.1 hw with hw | hw
            · exact h2 w hw
            · simp at hw; rw [hw]; exact not_lt.1 hlt
          · intro k _ hk2
            rw [List.getElem_append_left (by omega)]
            exact h3 k (by omega) hk2
    have := key l [a] (0, a) ⟨by simp, by simp, by simp, by simp⟩
    simpa [maxIdx] using this

theorem joints_eq (f : Fitted ℝ) (x : List ℝ) (hf : Usable f x.length) : joints f x = (jll f x).map Real.exp := by
  apply List.ext_getElem
  · simp [joints, jll]
  · intro i h1 h2
    simp only [joints, jll, List.getElem_map, List.getElem_zipWith]
    have h3 : i < f.prior.length ∧ i < f.stats.length := by simpa [joints] using h1
    rw [exp_jll1 _ _ _ (hf.prior_pos _ (List.getElem_mem h3.1)) (hf.shape _ (List.getElem_mem h3.2)) (hf.var_pos _ (List.getElem_mem h3.2))]

theorem jll_length (f : Fitted ℝ) (x : List ℝ) (hf : Usable f x.length) : (jll f x).length = f.classes.length := by
  simp [jll, hf.len_prior, hf.len_stats]

/-! ### C87 -/

/-- C87: for a model with positive priors and variances, `Predict` returns the class for which prior times Gaussian likelihood is greatest, the first such class in case of
ties. -/
theorem C87_predict (f : Fitted ℝ) (x : List ℝ) (hf : Usable f x.length) :
    ∃ (i : ℕ) (hi : i < f.classes.length) (hj : i < (joints f x).length), predict f x = some f.classes[i] ∧ (joints f x).length = f.classes.length ∧
      (∀ v ∈ joints f x, v ≤ (joints f x)[i]) ∧ ∀ (k : ℕ) (hk : k < (joints f x).length), k < i → (joints f x)[k] < (joints f x)[i] := by
  have hlen := jll_length f x hf
  have hne : jll f x ≠ [] := by
    intro h
    rw [h] at hlen
    exact hf.some_class (List.length_eq_zero_iff.1 hlen.symm)
  obtain ⟨hi, h1, h2, h3⟩ := maxIdx_spec (jll f x) hne
  have hj : (maxIdx (jll f x)).1 < (joints f x).length := by rw [joints_eq f x hf, List.length_map]; exact hi
  refine ⟨(maxIdx (jll f x)).1, by rw [← hlen]; exact hi, hj, ?_, ?_, ?_, ?_⟩
  · rw [predict, if_neg hne, List.getElem?_eq_getElem (by rw [← hlen]; exact hi)]
  · rw [joints_eq f x hf, List.length_map, hlen]
  · simp only [joints_eq f x hf, List.getElem_map]
    intro v hv
    rw [List.mem_map] at hv
    obtain ⟨w, hw, rfl⟩ := hv
    rw [← h1]
    exact Real.exp_le_exp.2 (h2 w hw)
  · intro k hk hlt
    simp only [joints_eq f x hf, List.getElem_map]
    rw [← h1]
    exact Real.exp_lt_exp.2 (h3 k (by rw [joints_eq f x hf, List.length_map] at hk; exact hk) hlt)

theorem exp_logSumExp (l : List ℝ) (h : l ≠ []) : Real.exp (logSumExp l) = (l.map Real.exp).sum := by
  have hpos : 0 < (l.map (fun v => Real.exp (v - (maxIdx l).2))).sum := by
    cases l with
    | nil => exact absurd rfl h
    | cons a l =>
      rw [List.map_cons, List.sum_cons]
      have h1 := Real.exp_pos (a - (maxIdx (a :: l)).2)
      have h2 : 0 ≤ (l.map (fun v => Real.exp (v - (maxIdx (a :: l)).2))).sum := by
        apply List.sum_nonneg
        intro y hy
        rw [List.mem_map] at hy
        obtain ⟨v, _, rfl⟩ := hy
        exact (Real.exp_pos _).le
      linarith
  rw [logSumExp, Real.exp_add, Real.exp_log hpos, ← List.sum_map_mul_right]
  congr 2
  funext v
  rw [← Real.exp_add]
  congr 1
  ring

/-- C87: `PredictProbas` returns Bayes' posterior: each class' prior times likelihood divided by the sum over the classes; `PredictLogProbas` its logarithm. -/
theorem C87_proba (f : Fitted ℝ) (x : List ℝ) (hf : Usable f x.length) :
    predictProba f x = (joints f x).map (fun v => v / (joints f x).sum) ∧
      predictLogProba f x = (joints f x).map (fun v => Real.log (v / (joints f x).sum)) := by
  have hlen := jll_length f x hf
  have hne : jll f x ≠ [] := by
    intro h
    rw [h] at hlen
    exact hf.some_class (List.length_eq_zero_iff.1 hlen.symm)
  have key : ∀ v : ℝ, Real.exp v / ((jll f x).map Real.exp).sum = Real.exp (v + -logSumExp (jll f x)) := by
    intro v
    rw [← exp_logSumExp _ hne, ← Real.exp_sub, sub_eq_add_neg]
  constructor
  · rw [joints_eq f x hf, predictProba, predictLogProba, List.map_map, List.map_map]
    congr 1
    funext v
    exact (key v).symm
  · rw [joints_eq f x hf, predictLogProba, List.map_map]
    congr 1
    funext v
    simp only [Function.comp_def, key, Real.log_exp]

/-- C87: the probabilities of a row are positive and sum to one. -/
theorem C87_distribution (f : Fitted ℝ) (x : List ℝ) (hf : Usable f x.length) :
    (predictProba f x).length = f.classes.length ∧ (∀ v ∈ predictProba f x, 0 < v) ∧ (predictProba f x).sum = 1 := by
  have hlen := jll_length f x hf
  have hne : jll f x ≠ [] := by
    intro h
    rw [h] at hlen
    exact hf.some_class (List.length_eq_zero_iff.1 hlen.symm)
  refine ⟨by simp [predictProba, predictLogProba, hlen], ?_, ?_⟩
  · intro v hv
    simp only [predictProba, List.mem_map] at hv
    obtain ⟨w, _, rfl⟩ := hv
    exact Real.exp_pos w
  · rw [(C87_proba f x hf).1]
    simp only [div_eq_mul_inv]
    rw [List.sum_map_mul_right, List.map_id']
    apply mul_inv_cancel₀
    rw [joints_eq f x hf, ← exp_logSumExp _ hne]
    exact (Real.exp_pos _).ne'

/-- A usable model with two classes of different priors and one feature. -/
example : Usable ⟨[0, 1], [⟨1, [0], [1]⟩, ⟨3, [2], [4]⟩], [1 / 4, 3 / 4], 0⟩ [(1 : ℝ)].length :=
  ⟨by simp, by simp, by simp, by simp, by simp, by simp⟩

end Sk.NB
