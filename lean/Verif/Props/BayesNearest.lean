import Verif.Props.Regions
import Mathlib.Tactic.FieldSimp

/-! # C251: `GaussianNB` with common variances -/
set_option autoImplicit false

namespace Sk.BayesNearest

open Sk.NB Sk.Regions

/-- Squared distance of a row to a mean, every feature measured in its standard deviation. -/
noncomputable def apart (v mu x : List ℝ) : ℝ := ∑ j ∈ Finset.range x.length, (x.getD j 0 - mu.getD j 0) ^ 2 / v.getD j 0

private theorem jll_common (f : Fitted ℝ) (x : List ℝ) (hf : Usable f x.length) (v : List ℝ) (hv : ∀ s ∈ f.stats, s.va = v) (i : ℕ) (hi : i < (jll f x).length) (hp : i < f.prior.length) (hs : i < f.stats.length) :
    (jll f x)[i] = Real.log f.prior[i] - apart v f.stats[i].mu x / 2 - ∑ j ∈ Finset.range x.length, 0.5 * Real.log (2 * Real.pi * v.getD j 0) := by
  have e : (jll f x)[i] = jll1 f.prior[i] f.stats[i] x := by simp [jll]
  rw [e, jll1_sum, hv _ (List.getElem_mem hs), Finset.sum_add_distrib, apart, Finset.sum_div]
  have : ∀ j, (0.5 : ℝ) * (x.getD j 0 - f.stats[i].mu.getD j 0) * (x.getD j 0 - f.stats[i].mu.getD j 0) / v.getD j 0 = (x.getD j 0 - f.stats[i].mu.getD j 0) ^ 2 / v.getD j 0 / 2 := by
    intro j
    ring
  simp only [this]
  ring

private theorem jll_ne (f : Fitted ℝ) (x : List ℝ) (hf : Usable f x.length) : jll f x ≠ [] := by
  intro e
  have h := jll_length f x hf
  rw [e] at h
  exact hf.some_class (List.length_eq_zero_iff.1 h.symm)

/-- **C251, nearest mean**: if all classes have the same variances and the same prior, `Predict` returns the class with the nearest mean, distances measured in standard deviations, the first one in case of ties. -/
theorem C251_nearest (f : Fitted ℝ) (x : List ℝ) (hf : Usable f x.length) (v : List ℝ) (hv : ∀ s ∈ f.stats, s.va = v) (q : ℝ) (hq : ∀ p ∈ f.prior, p = q) :
    ∃ (i : ℕ) (hi : i < f.classes.length) (hs : i < f.stats.length), predict f x = some f.classes[i] ∧
      (∀ s ∈ f.stats, apart v f.stats[i].mu x ≤ apart v s.mu x) ∧ ∀ (k : ℕ) (hk : k < f.stats.length), k < i → apart v f.stats[i].mu x < apart v f.stats[k].mu x := by
  have hne := jll_ne f x hf
  have hlen := jll_length f x hf
  obtain ⟨hi, e, hm, hlt⟩ := maxIdx_spec (jll f x) hne
  have hl1 := hf.len_stats
  have hl2 := hf.len_prior
  have val : ∀ k (hk : k < f.stats.length) (hk' : k < (jll f x).length), (jll f x)[k] = Real.log q - apart v f.stats[k].mu x / 2 - ∑ j ∈ Finset.range x.length, 0.5 * Real.log (2 * Real.pi * v.getD j 0) := by
    intro k hk hk'
    rw [jll_common f x hf v hv k hk' (by omega) hk, hq _ (List.getElem_mem _)]
  have hi' : (maxIdx (jll f x)).1 < f.stats.length := by omega
  rw [e, val _ hi' hi] at hm
  refine ⟨(maxIdx (jll f x)).1, by omega, hi', ?_, ?_, ?_⟩
  · rw [predict, if_neg hne, List.getElem?_eq_getElem (by omega)]
  · intro s hs
    obtain ⟨k, hk, rfl⟩ := List.mem_iff_getElem.1 hs
    have := hm _ (List.getElem_mem (show k < (jll f x).length by omega))
    rw [val k hk] at this
    linarith
  · intro k hk hki
    have := hlt k (by omega) hki
    rw [e, val k hk, val _ hi' hi] at this
    linarith

/-- **C251, odds**: if all classes have the same variances, the logarithm of the ratio of the probabilities of two classes is an affine function of the row, as in a logistic regression: that of the ratio of the priors plus, for every feature,
the distance to the middle of the two means times the difference of the means divided by the variance. -/
theorem C251_odds (f : Fitted ℝ) (x : List ℝ) (hf : Usable f x.length) (v : List ℝ) (hv : ∀ s ∈ f.stats, s.va = v) (i k : ℕ) (hi : i < f.classes.length) (hk : k < f.classes.length) :
    ∃ pi pk, (predictProba f x)[i]? = some pi ∧ (predictProba f x)[k]? = some pk ∧ 0 < pi ∧ 0 < pk ∧
      Real.log (pi / pk) = Real.log ((f.prior[i]'(by rw [hf.len_prior]; exact hi)) / (f.prior[k]'(by rw [hf.len_prior]; exact hk))) +
        ∑ j ∈ Finset.range x.length, ((f.stats[i]'(by rw [hf.len_stats]; exact hi)).mu.getD j 0 - (f.stats[k]'(by rw [hf.len_stats]; exact hk)).mu.getD j 0) / v.getD j 0 *
          (x.getD j 0 - ((f.stats[i]'(by rw [hf.len_stats]; exact hi)).mu.getD j 0 + (f.stats[k]'(by rw [hf.len_stats]; exact hk)).mu.getD j 0) / 2) := by
  have hlen := jll_length f x hf
  have hl1 := hf.len_stats
  have hl2 := hf.len_prior
  have get : ∀ m (hm : m < f.classes.length), (predictProba f x)[m]? = some (Real.exp ((jll f x)[m]'(by omega) + -logSumExp (jll f x))) := by
    intro m hm
    simp only [predictProba, predictLogProba, List.getElem?_map]
    rw [List.getElem?_eq_getElem (show m < (jll f x).length by omega)]
    rfl
  refine ⟨_, _, get i hi, get k hk, Real.exp_pos _, Real.exp_pos _, ?_⟩
  have h1 : 0 < f.prior[i]'(by omega) := hf.prior_pos _ (List.getElem_mem _)
  have h2 : 0 < f.prior[k]'(by omega) := hf.prior_pos _ (List.getElem_mem _)
  rw [← Real.exp_sub, Real.log_exp, Real.log_div h1.ne' h2.ne', jll_common f x hf v hv i _ (by omega) (by omega), jll_common f x hf v hv k _ (by omega) (by omega)]
  have key : apart v (f.stats[k]'(by omega)).mu x / 2 - apart v (f.stats[i]'(by omega)).mu x / 2 = ∑ j ∈ Finset.range x.length, ((f.stats[i]'(by omega)).mu.getD j 0 - (f.stats[k]'(by omega)).mu.getD j 0) / v.getD j 0 *
          (x.getD j 0 - ((f.stats[i]'(by omega)).mu.getD j 0 + (f.stats[k]'(by omega)).mu.getD j 0) / 2) := by
    unfold apart
    rw [Finset.sum_div, Finset.sum_div, ← Finset.sum_sub_distrib]
    refine Finset.sum_congr rfl fun j _ => ?_
    ring
  rw [← key]
  ring

/-- Two classes with variances 1 and 2 and equal priors. -/
example : Usable ⟨[3, 5], [⟨2, [0, 1], [1, 2]⟩, ⟨2, [2, 2], [1, 2]⟩], [1 / 2, 1 / 2], 0⟩ [7, 8].length ∧ (∀ s ∈ ([⟨2, [0, 1], [1, 2]⟩, ⟨2, [2, 2], [1, 2]⟩] : List (Stat ℝ)), s.va = [1, 2]) ∧
    apart [1, 2] [0, 1] [7, 8] = 49 + 49 / 2 ∧ apart [1, 2] [2, 2] [7, 8] = 25 + 36 / 2 := by
  refine ⟨?_, by simp, ?_, ?_⟩
  · constructor <;> simp
  · simp [apart, Finset.sum_range_succ]; norm_num
  · simp [apart, Finset.sum_range_succ]; norm_num

end Sk.BayesNearest
