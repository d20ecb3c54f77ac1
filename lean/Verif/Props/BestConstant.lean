import Verif.Props.Regression
import Verif.Props.Classification
import Verif.Props.LossMono
import Mathlib.Tactic.FieldSimp
import Mathlib.Tactic.LinearCombination
import Mathlib.Tactic.FinCases
import Mathlib.Algebra.BigOperators.Fin
import Mathlib.Analysis.SpecialFunctions.Log.Basic

/-!
# C228: the best constant predictions for the scores

What a model that ignores its input scores at best: the reference point of `MeanSquaredError`, `MeanAbsoluteError`, `R2Score`, `AccuracyScore` and `log_loss`.
-/
set_option autoImplicit false

namespace Sk.Metrics

section
variable {K : Type} [Field K] [LinearOrder K] [IsStrictOrderedRing K]

theorem meanError_const (loss : K → K) (yt : List K) (hy : yt ≠ []) (c : K) :
    meanError loss [yt] [yt.map (fun _ => c)] none false = some [(yt.map (fun t => loss (c - t))).sum / (yt.length : K)] := by
  have h := errOutput_eq loss 1 one_ne_zero (yt.map (fun t => (c, t))) (by simpa using hy)
  simp only [List.map_map, Function.comp_def, List.map_id'] at h
  have e : meanLoss loss (yt.map (fun t => (c, t))) = (yt.map (fun t => loss (c - t))).sum / (yt.length : K) := by
    simp [meanLoss, Function.comp_def]
  rw [e] at h
  simp only [meanError, errOutputs, Option.bind_eq_bind, Option.bind_some, h]
  simp

omit [LinearOrder K] [IsStrictOrderedRing K] in
theorem sum_sq_shift (yt : List K) (c m : K) : (yt.map (fun t => (c - t) * (c - t))).sum =
    (yt.map (fun t => (m - t) * (m - t))).sum + (yt.length : K) * (c - m) ^ 2 + 2 * (c - m) * ((yt.length : K) * m - yt.sum) := by
  induction yt with
  | nil => simp
  | cons a l ih =>
    simp only [List.map_cons, List.sum_cons, List.length_cons, Nat.cast_add, Nat.cast_one]
    rw [ih]; ring

/-- **C228, squared error.** The mean squared error of a constant is that of the mean plus the squared difference to the mean. -/
theorem C228_mse (yt : List K) (hy : yt ≠ []) (c : K) :
    ∃ e e0 : K, meanError (fun x => x * x) [yt] [yt.map (fun _ => c)] none false = some [e] ∧
      meanError (fun x => x * x) [yt] [yt.map (fun _ => yt.sum / (yt.length : K))] none false = some [e0] ∧ e = e0 + (c - yt.sum / (yt.length : K)) ^ 2 := by
  have hl : (yt.length : K) ≠ 0 := Nat.cast_ne_zero.2 (by simpa using hy)
  refine ⟨_, _, meanError_const _ yt hy c, meanError_const _ yt hy _, ?_⟩
  rw [sum_sq_shift yt c (yt.sum / (yt.length : K)), mul_div_cancel₀ _ hl]
  field_simp
  ring

omit [Field K] [IsStrictOrderedRing K] in
theorem countP_le_add (yt : List K) (m : K) : yt.countP (fun t => decide (t ≤ m)) + yt.countP (fun t => decide (m < t)) = yt.length := by
  induction yt with
  | nil => rfl
  | cons a l ih =>
    rw [List.countP_cons, List.countP_cons, List.length_cons]
    by_cases h : a ≤ m
    · simp [h, not_lt.2 h]; omega
    · simp [h, not_le.1 h]; omega

theorem abs_up (yt : List K) (c m : K) (h : m ≤ c) : (yt.map (fun t => |m - t|)).sum + (c - m) * ((yt.countP (fun t => decide (t ≤ m)) : K) - (yt.countP (fun t => decide (m < t)) : K)) ≤
    (yt.map (fun t => |c - t|)).sum := by
  induction yt with
  | nil => simp
  | cons a l ih =>
    rw [List.countP_cons, List.countP_cons, List.map_cons, List.map_cons, List.sum_cons, List.sum_cons]
    by_cases ha : a ≤ m
    · have e1 : |m - a| = m - a := abs_of_nonneg (by linarith)
      have e2 : |c - a| = c - a := abs_of_nonneg (by linarith)
      simp [ha, not_lt.2 ha, e1, e2]
      linarith
    · have ha' := not_le.1 ha
      have e1 : |m - a| = a - m := by rw [abs_of_neg (by linarith)]; ring
      have e2 : a - c ≤ |c - a| := by rw [abs_sub_comm]; exact le_abs_self _
      simp [ha, ha', e1]
      linarith

theorem abs_down (yt : List K) (c m : K) (h : c ≤ m) : (yt.map (fun t => |m - t|)).sum + (m - c) * ((yt.countP (fun t => decide (m ≤ t)) : K) - (yt.countP (fun t => decide (t < m)) : K)) ≤
    (yt.map (fun t => |c - t|)).sum := by
  have := abs_up (yt.map (fun t => -t)) (-c) (-m) (by linarith)
  have e : ∀ a b : K, |-a + b| = |a - b| := by intro a b; rw [← abs_neg]; congr 1; ring
  simp only [List.map_map, Function.comp_def, List.countP_map, neg_le_neg_iff, neg_lt_neg_iff, sub_neg_eq_add, e] at this
  have e2 : -c + m = m - c := by ring
  rw [e2] at this
  exact this

omit [Field K] [IsStrictOrderedRing K] in
theorem countP_ge_add (yt : List K) (m : K) : yt.countP (fun t => decide (m ≤ t)) + yt.countP (fun t => decide (t < m)) = yt.length := by
  induction yt with
  | nil => rfl
  | cons a l ih =>
    rw [List.countP_cons, List.countP_cons, List.length_cons]
    by_cases h : m ≤ a
    · simp [h, not_lt.2 h]; omega
    · simp [h, not_le.1 h]; omega

/-- **C228, absolute error.** No constant has a smaller mean absolute error than a median: a number with at most half of the values below and at most half above. -/
theorem C228_mae (yt : List K) (hy : yt ≠ []) (m c : K) (hb : 2 * yt.countP (fun t => decide (t < m)) ≤ yt.length) (ha : 2 * yt.countP (fun t => decide (m < t)) ≤ yt.length) :
    ∃ e e0 : K, meanError (fun x => |x|) [yt] [yt.map (fun _ => c)] none false = some [e] ∧
      meanError (fun x => |x|) [yt] [yt.map (fun _ => m)] none false = some [e0] ∧ e0 ≤ e := by
  refine ⟨_, _, meanError_const _ yt hy c, meanError_const _ yt hy m, ?_⟩
  refine div_le_div_of_nonneg_right ?_ (Nat.cast_nonneg _)
  rcases le_total m c with h | h
  · have h1 := abs_up yt c m h
    have h2 := countP_le_add yt m
    have h3 : (yt.countP (fun t => decide (m < t)) : K) ≤ (yt.countP (fun t => decide (t ≤ m)) : K) := by
      exact_mod_cast (by omega : yt.countP (fun t => decide (m < t)) ≤ yt.countP (fun t => decide (t ≤ m)))
    have := mul_nonneg (sub_nonneg.2 h) (sub_nonneg.2 h3)
    linarith
  · have h1 := abs_down yt c m h
    have h2 := countP_ge_add yt m
    have h3 : (yt.countP (fun t => decide (t < m)) : K) ≤ (yt.countP (fun t => decide (m ≤ t)) : K) := by
      exact_mod_cast (by omega : yt.countP (fun t => decide (t < m)) ≤ yt.countP (fun t => decide (m ≤ t)))
    have := mul_nonneg (sub_nonneg.2 h) (sub_nonneg.2 h3)
    linarith

omit [LinearOrder K] [IsStrictOrderedRing K] in
theorem wtot_const (S : List (K × K × K)) (m c : K) : wtot S (fun s => (c - s.1) ^ 2) =
    wtot S (fun s => (s.1 - m) ^ 2) + (S.map (fun s => s.2.2)).sum * (c - m) ^ 2 + 2 * (c - m) * ((S.map (fun s => s.2.2)).sum * m - wtot S (fun s => s.1)) := by
  unfold wtot
  induction S with
  | nil => simp
  | cons a l ih =>
    simp only [List.map_cons, List.sum_cons]
    rw [ih]; ring

/-- **C228, R².** When the weighted total sum of squares is at least `eps` (the literal 1e-20), the score of a constant `c` is minus the total weight times the squared difference to the weighted mean, divided by that sum: no constant scores more than 0 and only the mean scores 0. -/
theorem C228_r2 (eps : K) (heps : 0 < eps) (S : List (K × K × K)) (hw : ∀ s ∈ S, 0 ≤ s.2.2) (hpos : 0 < (S.map (fun s => s.2.2)).sum) (c m den : K)
    (hm : m = wtot S (fun s => s.1) / (S.map (fun s => s.2.2)).sum) (hden : den = wtot S (fun s => (s.1 - m) ^ 2)) (hle : eps ≤ den) (hc : ∀ s ∈ S, s.2.1 = c) :
    ∃ r, r2Score eps [S.map (fun s => s.1)] [S.map (fun s => s.2.1)] (some (S.map (fun s => s.2.2))) .uniform = some [r] ∧
      r = -((S.map (fun s => s.2.2)).sum * (c - m) ^ 2 / den) ∧ r ≤ 0 ∧ (r = 0 ↔ c = m) := by
  obtain ⟨r, hr, _, _, h⟩ := C31_r2_partial eps heps S hw hpos
  obtain ⟨h1, _⟩ := h m den hm hden hle
  have hd : 0 < den := lt_of_lt_of_le heps hle
  have e : wtot S (fun s => (s.2.1 - s.1) ^ 2) = wtot S (fun s => (c - s.1) ^ 2) := by
    unfold wtot
    congr 1
    apply List.map_congr_left
    intro s hs
    simp only [hc s hs]
  have e2 : (S.map (fun s => s.2.2)).sum * m - wtot S (fun s => s.1) = 0 := by
    rw [hm, mul_div_cancel₀ _ hpos.ne', sub_self]
  rw [e, wtot_const S m c, e2, ← hden] at h1
  have h2 : r = -((S.map (fun s => s.2.2)).sum * (c - m) ^ 2 / den) := by
    rw [h1]
    field_simp
    ring
  refine ⟨r, hr, h2, ?_, ?_⟩
  · rw [h2, neg_nonpos]
    exact div_nonneg (mul_nonneg hpos.le (sq_nonneg _)) hd.le
  · rw [h2, neg_eq_zero, div_eq_zero_iff, or_iff_left hd.ne', mul_eq_zero, or_iff_right hpos.ne', pow_eq_zero_iff (by norm_num), sub_eq_zero]

/-- Total weight of a label. -/
def labelWeight {L : Type} [DecidableEq L] (S : List (List L × K)) (c : List L) : K := (S.map (fun s => if s.1 = c then s.2 else 0)).sum

/-- **C228, accuracy.** The accuracy of predicting the same label everywhere is the share of its weight: a label of greatest weight does best. -/
theorem C228_accuracy {L : Type} [DecidableEq L] (S : List (List L × K)) (hw : ∀ s ∈ S, 0 ≤ s.2) (hpos : 0 < (S.map (fun s => s.2)).sum) (c : List L) (hc : ∀ s ∈ S, s.1.length = c.length) :
    accuracy (S.map (fun s => s.1)) (S.map (fun _ => c)) true (some (S.map (fun s => s.2))) = some (labelWeight S c / (S.map (fun s => s.2)).sum) := by
  have h := (C26_accuracy (S.map (fun s => (s.1, c, s.2))) 
    (by intro s hs; obtain ⟨t, ht, rfl⟩ := List.mem_map.1 hs; exact hc t ht) (by intro s hs; obtain ⟨t, ht, rfl⟩ := List.mem_map.1 hs; exact hw t ht)
    (by simpa [Function.comp_def] using hpos)).2
  obtain ⟨a, h1, h2, _⟩ := h
  simp only [List.map_map, Function.comp_def] at h1 h2
  rw [h1, h2]
  congr 2
  unfold labelWeight wsum
  simp only [List.map_map, Function.comp_def]

/-- The values 1, 2, 6: mean 3, median 2. -/
example : meanError (K := ℚ) (fun x => x * x) [[1, 2, 6]] [[2, 2, 2]] none false = some [17 / 3] ∧ meanError (K := ℚ) (fun x => x * x) [[1, 2, 6]] [[3, 3, 3]] none false = some [14 / 3] ∧
    meanError (K := ℚ) (fun x => |x|) [[1, 2, 6]] [[2, 2, 2]] none false = some [5 / 3] ∧ meanError (K := ℚ) (fun x => |x|) [[1, 2, 6]] [[3, 3, 3]] none false = some [2] ∧
    2 * [(1 : ℚ), 2, 6].countP (fun t => decide (t < 2)) ≤ 3 ∧ 2 * [(1 : ℚ), 2, 6].countP (fun t => decide (2 < t)) ≤ 3 := by decide +kernel
example : r2Score (K := ℚ) (1 / 100) [[1, 2, 6]] [[2, 2, 2]] (some [1, 1, 1]) .uniform = some [-3 / 14] ∧ accuracy (K := ℚ) [["a"], ["b"], ["a"]] [["a"], ["a"], ["a"]] true (some [1, 1, 2]) = some (3 / 4) := by decide +kernel

end

end Sk.Metrics

namespace Sk.Mlp

open scoped BigOperators

/-- Share of the rows with class `o`. -/
noncomputable def share {n q : ℕ} (c : Fin n → Fin q) (o : Fin q) : ℝ := ((Finset.univ.filter (fun i => c i = o)).card : ℝ) / n

theorem share_sum {n q : ℕ} (hn : 0 < n) (c : Fin n → Fin q) : ∑ o, share c o = 1 := by
  have hn' : (n : ℝ) ≠ 0 := Nat.cast_ne_zero.2 hn.ne'
  unfold share
  rw [← Finset.sum_div, div_eq_one_iff_eq hn', ← Nat.cast_sum]
  congr 1
  rw [← Finset.card_eq_sum_card_fiberwise (f := c) (s := Finset.univ) (t := Finset.univ) (fun _ _ => Finset.mem_coe.2 (Finset.mem_univ _))]
  simp

theorem share_pos {n q : ℕ} (c : Fin n → Fin q) (i : Fin n) : 1 / (n : ℝ) ≤ share c (c i) := by
  unfold share
  refine div_le_div_of_nonneg_right ?_ (Nat.cast_nonneg _)
  have : 0 < (Finset.univ.filter (fun k => c k = c i)).card := Finset.card_pos.2 ⟨i, by simp⟩
  exact_mod_cast this

theorem mean_classes {n q : ℕ} (c : Fin n → Fin q) (g : Fin q → ℝ) : (∑ i, g (c i)) / n = ∑ o, share c o * g o := by
  rw [← Finset.sum_fiberwise Finset.univ c (fun i => g (c i)), Finset.sum_div]
  refine Finset.sum_congr rfl fun o _ => ?_
  rw [Finset.sum_congr rfl (g := fun _ => g o) (fun i hi => by rw [(Finset.mem_filter.1 hi).2]), Finset.sum_const, nsmul_eq_mul, share]
  ring

theorem share_le {n q : ℕ} (hn : 0 < n) (c : Fin n → Fin q) (o : Fin q) : share c o = 1 ∨ share c o ≤ 1 - 1 / (n : ℝ) := by
  have hn' : (0 : ℝ) < n := Nat.cast_pos.2 hn
  have hle : (Finset.univ.filter (fun i => c i = o)).card ≤ n := by
    simpa using Finset.card_filter_le (Finset.univ : Finset (Fin n)) (fun i => c i = o)
  rcases Nat.lt_or_ge (Finset.univ.filter (fun i => c i = o)).card n with h | h
  · right
    unfold share
    rw [div_le_iff₀ hn', sub_mul, one_div, inv_mul_cancel₀ hn'.ne', one_mul, le_sub_iff_add_le]
    exact_mod_cast h
  · left
    unfold share
    rw [le_antisymm hle h, div_self hn'.ne']

/-- **C228, log loss.** Among the constant probability vectors (entries at least the clamping bound, sum at most 1) the shares of the classes have the least log loss. -/
theorem C228_log_loss {n q : ℕ} (hn : 0 < n) (hmin hmax : ℝ) (h0 : 0 < hmin) (h1 : hmin ≤ 1 / n) (h2 : 1 - 1 / (n : ℝ) ≤ hmax) (h12 : hmin ≤ hmax) (h3 : hmax < 1) (c : Fin n → Fin q) (p : Fin q → ℝ)
    (hp : ∀ o, hmin ≤ p o) (hs : ∑ o, p o ≤ 1) :
    logLoss hmin hmax (fun i o => if o = c i then 1 else 0) (fun _ o => share c o) ≤ logLoss hmin hmax (fun i o => if o = c i then 1 else 0) (fun _ o => p o) := by
  rw [C179_log_loss hmin hmax h12, C179_log_loss hmin hmax h12, mean_classes c (fun o => -Real.log (max hmin (min hmax (share c o)))), mean_classes c (fun o => -Real.log (max hmin (min hmax (p o))))]
  have hq : ∀ o, max hmin (min hmax (p o)) = min hmax (p o) := fun o => max_eq_right (le_min h12 (hp o))
  have hpos : ∀ o, 0 < min hmax (p o) := fun o => lt_of_lt_of_le h0 (le_min h12 (hp o))
  have hsh : ∀ o, 0 ≤ share c o := fun o => div_nonneg (Nat.cast_nonneg _) (Nat.cast_nonneg _)
  have hocc : ∀ o, share c o ≠ 0 → 1 / (n : ℝ) ≤ share c o := by
    intro o ho
    have : (Finset.univ.filter (fun i => c i = o)).Nonempty := by
      rw [Finset.nonempty_iff_ne_empty]
      intro e
      exact ho (by simp [share, e])
    obtain ⟨i, hi⟩ := this
    have := share_pos c i
    rwa [(Finset.mem_filter.1 hi).2] at this
  -- termwise bound
  have key : ∀ o, share c o * -Real.log (max hmin (min hmax (share c o))) ≤ share c o * -Real.log (max hmin (min hmax (p o))) + (p o - share c o) ∨ share c o = 1 := by
    intro o
    rw [hq o]
    rcases share_le hn c o with h | h
    · exact Or.inr h
    left
    by_cases hz : share c o = 0
    · rw [hz]
      have := hp o
      simp only [zero_mul]
      linarith
    · have hf := hocc o hz
      have hf0 : 0 < share c o := lt_of_lt_of_le h0 (h1.trans hf)
      rw [min_eq_right (h.trans h2), max_eq_right (h1.trans hf)]
      have hl := Real.log_le_sub_one_of_pos (div_pos (hpos o) hf0)
      rw [Real.log_div (hpos o).ne' hf0.ne'] at hl
      have hm := mul_le_mul_of_nonneg_left hl hf0.le
      have e : share c o * (min hmax (p o) / share c o - 1) = min hmax (p o) - share c o := by
        field_simp
      rw [e] at hm
      have := min_le_right hmax (p o)
      linarith
  by_cases hone : ∃ o, share c o = 1
  · obtain ⟨o, ho⟩ := hone
    have hrest : ∀ o', o' ≠ o → share c o' = 0 := by
      intro o' hne
      have hsum := share_sum hn c
      rw [← Finset.add_sum_erase _ _ (Finset.mem_univ o), ho] at hsum
      have hz : ∑ x ∈ Finset.univ.erase o, share c x = 0 := by linarith
      exact (Finset.sum_eq_zero_iff_of_nonneg (fun x _ => hsh x)).1 hz o' (Finset.mem_erase.2 ⟨hne, Finset.mem_univ _⟩)
    refine Finset.sum_le_sum fun o' _ => ?_
    by_cases he : o' = o
    · rw [he, ho, one_mul, one_mul, neg_le_neg_iff, hq o, min_eq_left h3.le, max_eq_right h12]
      exact Real.log_le_log (hpos o) (min_le_left _ _)
    · rw [hrest o' he]; simp
  · have hk : ∀ o, share c o * -Real.log (max hmin (min hmax (share c o))) ≤ share c o * -Real.log (max hmin (min hmax (p o))) + (p o - share c o) :=
      fun o => (key o).resolve_right (fun h => hone ⟨o, h⟩)
    have := Finset.sum_le_sum (fun o (_ : o ∈ Finset.univ) => hk o)
    rw [Finset.sum_add_distrib, Finset.sum_sub_distrib, share_sum hn c] at this
    linarith

/-- Three rows of classes 0, 1, 1: shares 1/3 and 2/3; the constant (1/2, 1/2) does not do better. -/
example : logLoss (1 / 100) (99 / 100) (fun (i : Fin 3) (o : Fin 2) => if o = ![0, 1, 1] i then 1 else 0) (fun _ o => share ![0, 1, 1] o) ≤
    logLoss (1 / 100) (99 / 100) (fun (i : Fin 3) (o : Fin 2) => if o = ![0, 1, 1] i then 1 else 0) (fun _ o => ![1 / 2, 1 / 2] o) :=
  C228_log_loss (by norm_num) _ _ (by norm_num) (by norm_num) (by norm_num) (by norm_num) (by norm_num) _ _ (by intro o; fin_cases o <;> norm_num) (by norm_num [Fin.sum_univ_two])

end Sk.Mlp
