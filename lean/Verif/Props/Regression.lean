import Verif.Model.Metrics
import Verif.Spec.Weights
import Verif.Lemmas.ListX
import Mathlib.Data.List.Zip
import Mathlib.Data.List.Forall2
import Mathlib.Tactic.FieldSimp
import Mathlib.Tactic.NormNum
import Mathlib.Algebra.Order.Ring.Rat
import Mathlib.Algebra.Order.Ring.Abs

/-! # C31: R2Score, MeanSquaredError, MeanAbsoluteError -/
set_option autoImplicit false

namespace Sk.Metrics

variable {K : Type} [Field K] [LinearOrder K] [IsStrictOrderedRing K]

/-! Specification, for a list of samples (true value, predicted value, weight). -/

/-- Weighted sum of `f` over samples. -/
def wtot (S : List (K × K × K)) (f : K × K × K → K) : K := (S.map (fun s => s.2.2 * f s)).sum

theorem wtot_nonneg (S : List (K × K × K)) (f : K × K × K → K) (hw : ∀ s ∈ S, 0 ≤ s.2.2) (hf : ∀ s ∈ S, 0 ≤ f s) : 0 ≤ wtot S f := by
  apply List.sum_nonneg
  intro x hx
  obtain ⟨s, hs, rfl⟩ := List.mem_map.1 hx
  exact mul_nonneg (hw s hs) (hf s hs)

theorem wtot_zero (S : List (K × K × K)) (f : K × K × K → K) (hw : ∀ s ∈ S, 0 ≤ s.2.2) (hf : ∀ s ∈ S, 0 ≤ f s) :
    wtot S f = 0 ↔ ∀ s ∈ S, 0 < s.2.2 → f s = 0 := by
  unfold wtot
  induction S with
  | nil => simp
  | cons a S ih =>
    have ih := ih (fun s hs => hw s (by simp [hs])) (fun s hs => hf s (by simp [hs]))
    have h1 := wtot_nonneg S f (fun s hs => hw s (by simp [hs])) (fun s hs => hf s (by simp [hs]))
    unfold wtot at h1
    have h2 := mul_nonneg (hw a (by simp)) (hf a (by simp))
    rw [List.map_cons, List.sum_cons, add_eq_zero_iff_of_nonneg h2 h1, ih]
    constructor
    · rintro ⟨ha, hS⟩ s hs hp
      rcases List.mem_cons.1 hs with rfl | hs
      · exact (mul_eq_zero.1 ha).resolve_left (ne_of_gt hp)
      · exact hS s hs hp
    · intro h
      refine ⟨?_, fun s hs => h s (by simp [hs])⟩
      rcases eq_or_lt_of_le (hw a (by simp)) with h' | h'
      · rw [← h', zero_mul]
      · rw [h a (by simp) h', mul_zero]

theorem r2Output_eq (eps : K) (S : List (K × K × K)) (hpos : 0 < (S.map (fun s => s.2.2)).sum) :
    r2Output eps (S.map (fun s => s.1)) (S.map (fun s => s.2.1)) (S.map (fun s => s.2.2)) =
      some (wtot S (fun s => (s.1 - wtot S (fun t => t.1) / (S.map (fun s => s.2.2)).sum) ^ 2),
        1 - wtot S (fun s => (s.2.1 - s.1) ^ 2) /
          max (wtot S (fun s => (s.1 - wtot S (fun t => t.1) / (S.map (fun s => s.2.2)).sum) ^ 2)) eps) := by
  unfold r2Output fdiv wtot
  rw [if_neg (ne_of_gt hpos)]
  simp only [List.zipWith_map, List.zipWith_self, Option.bind_eq_bind, Option.bind_some, List.map_map, Function.comp_def, List.zipWith_map_left, List.zipWith_map_right, pow_two]
  rfl

/-- **C31 (partial).** One output of `R2Score`, for samples (true, predicted, weight) with nonnegative weights of positive sum, `eps > 0` (the literal 1e-20):
the score is at most 1; it is 1 iff every sample of positive weight is predicted exactly; it is 1 − (weighted residual sum)/(weighted total sum of
squares about the weighted mean) as soon as that total is at least `eps`; and then predicting the weighted mean everywhere scores 0.
Missing: the mean predictor scoring 0 when the truth is constant, see `C31_constant_violated`. -/
theorem C31_r2_partial (eps : K) (heps : 0 < eps) (S : List (K × K × K)) (hw : ∀ s ∈ S, 0 ≤ s.2.2) (hpos : 0 < (S.map (fun s => s.2.2)).sum) :
    ∃ r, r2Score eps [S.map (fun s => s.1)] [S.map (fun s => s.2.1)] (some (S.map (fun s => s.2.2))) .uniform = some [r] ∧
      r ≤ 1 ∧ (r = 1 ↔ ∀ s ∈ S, 0 < s.2.2 → s.2.1 = s.1) ∧
      ∀ m den, m = wtot S (fun s => s.1) / (S.map (fun s => s.2.2)).sum → den = wtot S (fun s => (s.1 - m) ^ 2) → eps ≤ den →
        r = 1 - wtot S (fun s => (s.2.1 - s.1) ^ 2) / den ∧ ((∀ s ∈ S, s.2.1 = m) → r = 0) := by
  have h := r2Output_eq eps S hpos
  set num := wtot S (fun s => (s.2.1 - s.1) ^ 2) with hnum
  have hn0 : 0 ≤ num := wtot_nonneg S _ hw (fun _ _ => sq_nonneg _)
  set d := wtot S (fun s => (s.1 - wtot S (fun t => t.1) / (S.map (fun s => s.2.2)).sum) ^ 2) with hd
  have hm : 0 < max d eps := lt_of_lt_of_le heps (le_max_right _ _)
  refine ⟨1 - num / max d eps, ?_, ?_, ?_, ?_⟩
  · simp [r2Score, h]
  · have := div_nonneg hn0 hm.le
    linarith
  · have : 1 - num / max d eps = 1 ↔ num = 0 := by
      constructor
      · intro e
        have e' : num / max d eps = 0 := by linarith
        rcases div_eq_zero_iff.1 e' with h' | h'
        · exact h'
        · exact absurd h' (ne_of_gt hm)
      · intro e; rw [e]; simp
    rw [this, hnum, wtot_zero S _ hw (fun _ _ => sq_nonneg _)]
    refine forall_congr' fun s => forall_congr' fun _ => forall_congr' fun _ => ?_
    rw [pow_eq_zero_iff (by norm_num), sub_eq_zero]
  · rintro m den rfl rfl hle
    rw [max_eq_left hle]
    refine ⟨rfl, fun hall => ?_⟩
    have : num = d := by
      rw [hnum, hd]
      unfold wtot
      congr 1
      apply List.map_congr_left
      intro s hs
      simp only
      rw [hall s hs]
      unfold wtot
      ring
    rw [this, div_self (ne_of_gt (lt_of_lt_of_le heps hle)), sub_self]

/-- **C31.** Several outputs: "raw_values" lists the scores of the outputs taken one by one, the default is their plain mean, and omitting the weights
is giving weight one to every sample. -/
theorem C31_r2_outputs (eps : K) (Yt Yp : List (List K)) (hlen : Yt.length = Yp.length) (w : Option (List K)) (rs : List K)
    (h : r2Score eps Yt Yp w .raw = some rs) :
    List.Forall₂ (fun c r => r2Score eps [c.1] [c.2] (some (w.getD (c.1.map (fun _ => 1)))) .uniform = some [r]) (Yt.zip Yp) rs ∧
    r2Score eps Yt Yp w .uniform = some [rs.sum / rs.length] := by
  unfold r2Score at h
  simp only [Option.bind_eq_bind] at h
  cases hds : (Yt.zip Yp).mapM (fun c => r2Output eps c.1 c.2 (w.getD (c.1.map (fun _ => 1)))) with
  | none => rw [hds] at h; simp at h
  | some ds =>
    rw [hds] at h
    simp only [Option.bind_some, Option.some.injEq] at h
    subst h
    have hl : ds.length = Yt.length := by
      rw [ListX.mapM_forall2] at hds
      rw [← hds.length_eq, List.length_zip, hlen, min_self]
    constructor
    · rw [ListX.mapM_forall2] at hds
      rw [List.forall₂_map_right_iff]
      refine hds.imp ?_
      intro c d hcd
      rw [List.map_const'] at hcd
      simp [r2Score, hcd]
    · unfold r2Score
      simp only [Option.bind_eq_bind, hds, Option.bind_some, List.length_map, hl]

/-- **C31 is violated by constant targets**: when the truth is constant, predicting it everywhere (the mean predictor) scores 1, not 0. -/
theorem C31_constant_violated (eps c : K) (n : ℕ) (heps : 0 < eps) (hn : 0 < n) :
    r2Score eps [List.replicate n c] [List.replicate n c] none .uniform = some [1] := by
  have := C31_r2_partial eps heps ((List.replicate n (c, c, (1 : K)))) (by
    intro s hs; rw [List.eq_of_mem_replicate hs]; exact zero_le_one) (by simpa using hn)
  obtain ⟨r, hr, _, h1, _⟩ := this
  have hr1 : r = 1 := h1.2 (by intro s hs _; rw [List.eq_of_mem_replicate hs])
  rw [hr1] at hr
  simpa [r2Score] using hr

/-! ### Mean errors -/

theorem errFold (loss : K → K) (w : K) (l : List (K × K)) : ∀ a b : K,
    l.foldl (fun (a : K × K) c => (a.1 + w * loss (c.1 - c.2), a.2 + w)) (a, b) =
      (a + w * (l.map (fun c => loss (c.1 - c.2))).sum, b + w * (l.length : K)) := by
  induction l with
  | nil => intro a b; simp
  | cons c l ih =>
    intro a b
    rw [List.foldl_cons, ih]
    simp only [List.map_cons, List.sum_cons, List.length_cons, Nat.cast_add, Nat.cast_one]
    congr 1 <;> ring

/-- The unweighted mean of the losses. -/
def meanLoss (loss : K → K) (l : List (K × K)) : K := (l.map (fun c => loss (c.1 - c.2))).sum / (l.length : K)

theorem errOutput_eq (loss : K → K) (w : K) (hw : w ≠ 0) (l : List (K × K)) (hl : l ≠ []) :
    errOutput loss w (l.map Prod.snd) (l.map Prod.fst) = some (meanLoss loss l) := by
  have hz : (l.map Prod.fst).zip (l.map Prod.snd) = l := ListX.zip_map_fst_snd l
  unfold errOutput
  simp only [hz, errFold, zero_add, fdiv]
  have hln : (l.length : K) ≠ 0 := by
    have : 0 < l.length := List.length_pos_iff.2 hl
    exact_mod_cast this.ne'
  rw [if_neg (mul_ne_zero hw hln), mul_div_mul_left _ _ hw]
  rfl

/-- A loss that is nonnegative and vanishes only at 0: the square and the absolute value. -/
def IsLoss (loss : K → K) : Prop := (∀ x, 0 ≤ loss x) ∧ ∀ x, loss x = 0 ↔ x = 0

theorem isLoss_sq : IsLoss (fun x : K => x * x) := ⟨fun x => mul_self_nonneg x, fun x => by simp⟩
theorem isLoss_abs : IsLoss (fun x : K => |x|) := ⟨fun x => abs_nonneg x, fun x => abs_eq_zero⟩

/-- **C31 (partial).** `MeanSquaredError` and `MeanAbsoluteError` without weights, one output: the mean of the squared (absolute) errors; nonnegative,
and zero iff every prediction is exact.  `l` lists (prediction, truth).  Missing: weights, see `C31_weights_violated`. -/
theorem C31_mean_error_partial (loss : K → K) (hloss : IsLoss loss) (l : List (K × K)) (hl : l ≠ []) :
    ∃ e, meanError loss [l.map Prod.snd] [l.map Prod.fst] none false = some [e] ∧
      e = (l.map (fun c => loss (c.1 - c.2))).sum / (l.length : K) ∧ 0 ≤ e ∧ (e = 0 ↔ ∀ c ∈ l, c.1 = c.2) := by
  have hlp : (0 : K) < (l.length : K) := by
    have : 0 < l.length := List.length_pos_iff.2 hl
    exact_mod_cast this
  have hs : 0 ≤ (l.map (fun c => loss (c.1 - c.2))).sum := by
    apply List.sum_nonneg
    intro x hx
    obtain ⟨c, _, rfl⟩ := List.mem_map.1 hx
    exact hloss.1 _
  refine ⟨meanLoss loss l, ?_, rfl, div_nonneg hs hlp.le, ?_⟩
  · simp [meanError, errOutputs, errOutput_eq loss 1 one_ne_zero l hl]
  · unfold meanLoss
    rw [div_eq_zero_iff, or_iff_left (ne_of_gt hlp), ListX.sum_eq_zero_nonneg]
    · constructor
      · intro h c hc
        have := (hloss.2 _).1 (h _ (List.mem_map.2 ⟨c, hc, rfl⟩))
        exact sub_eq_zero.1 this
      · intro h x hx
        obtain ⟨c, hc, rfl⟩ := List.mem_map.1 hx
        exact (hloss.2 _).2 (sub_eq_zero.2 (h c hc))
    · intro x hx
      obtain ⟨c, _, rfl⟩ := List.mem_map.1 hx
      exact hloss.1 _

/-- Weighted sum of squares of the truth about its weighted mean. -/
def totalSS (S : List (K × K × K)) : K := wtot S (fun s => (s.1 - wtot S (fun t => t.1) / (S.map (fun s => s.2.2)).sum) ^ 2)

/-- **C31.** "variance_weighted": the scores of the outputs (as "raw_values" lists them) are averaged with the outputs' total sums of squares as weights; NaN
(`none`) exactly when all outputs are constant.  `Ss` lists the outputs, each a list of samples (true, predicted, weight) with the common weights `ws`. -/
theorem C31_r2_variance (eps : K) (Ss : List (List (K × K × K))) (ws : List K) (hws : ∀ S ∈ Ss, S.map (fun s => s.2.2) = ws) (hpos : 0 < ws.sum) :
    ∃ rs : List K, r2Score eps (Ss.map (List.map (fun s => s.1))) (Ss.map (List.map (fun s => s.2.1))) (some ws) .raw = some rs ∧
      r2Score eps (Ss.map (List.map (fun s => s.1))) (Ss.map (List.map (fun s => s.2.1))) (some ws) .variance =
        if (Ss.map totalSS).sum = 0 then none
        else some [(List.zipWith (· * ·) (Ss.map totalSS) rs).sum / (Ss.map totalSS).sum] := by
  have hds : ((Ss.map (List.map (fun s => s.1))).zip (Ss.map (List.map (fun s => s.2.1)))).mapM
      (fun c => r2Output eps c.1 c.2 ((some ws).getD (c.1.map (fun _ => 1)))) =
      some (Ss.map (fun S => (totalSS S, 1 - wtot S (fun s => (s.2.1 - s.1) ^ 2) / max (totalSS S) eps))) := by
    rw [ListX.mapM_forall2, List.zip_map', List.forall₂_map_left_iff, List.forall₂_map_right_iff, List.forall₂_same]
    intro S hS
    have h := r2Output_eq eps S (by rw [hws S hS]; exact hpos)
    rw [hws S hS] at h
    simp only [Option.getD_some, h, totalSS, hws S hS]
  refine ⟨_, by simp only [r2Score, Option.bind_eq_bind, hds, Option.bind_some]; rfl, ?_⟩
  simp only [r2Score, Option.bind_eq_bind, hds, Option.bind_some, List.map_map, Function.comp_def, List.zipWith_map, List.zipWith_self, fdiv]
  split <;> simp

/-- **C31.** Several outputs of `MeanSquaredError` and `MeanAbsoluteError`: "raw_values" lists the errors of the outputs taken one by one, otherwise the result
is their plain mean. -/
theorem C31_mean_error_outputs (loss : K → K) (Ls : List (List (K × K))) (hL : ∀ l ∈ Ls, l ≠ []) :
    meanError loss (Ls.map (List.map Prod.snd)) (Ls.map (List.map Prod.fst)) none true =
      some (Ls.map (fun l => (l.map (fun c => loss (c.1 - c.2))).sum / (l.length : K))) ∧
    meanError loss (Ls.map (List.map Prod.snd)) (Ls.map (List.map Prod.fst)) none false =
      some [(Ls.map (fun l => (l.map (fun c => loss (c.1 - c.2))).sum / (l.length : K))).sum / (Ls.length : K)] := by
  have h : ∀ (Ls : List (List (K × K))) (j : ℕ), (∀ l ∈ Ls, l ≠ []) →
      errOutputs loss none (Ls.map (List.map Prod.snd)) (Ls.map (List.map Prod.fst)) j = some (Ls.map (meanLoss loss)) := by
    intro Ls
    induction Ls with
    | nil => intro j _; simp [errOutputs]
    | cons l Ls ih =>
      intro j hL
      rw [List.forall_mem_cons] at hL
      simp only [List.map_cons, errOutputs, Option.bind_eq_bind, Option.bind_some, errOutput_eq loss 1 one_ne_zero l hL.1, ih (j + 1) hL.2]
      rfl
  constructor
  · simp only [meanError, Option.bind_eq_bind, h Ls 0 hL, Option.bind_some]
    rfl
  · simp only [meanError, Option.bind_eq_bind, h Ls 0 hL, Option.bind_some, List.length_map]
    rfl

/-- **C31: sample weights are violated** by `MeanSquaredError` and `MeanAbsoluteError`: whatever the column of weights, if the first weight is nonzero the
result is the unweighted one; if it is zero the result is NaN; and with two outputs a column of weights makes them panic. -/
theorem C31_weights_violated (loss : K → K) (l : List (K × K)) (hl : l ≠ []) (w : K) (ws : List (List K)) :
    (w ≠ 0 → meanError loss [l.map Prod.snd] [l.map Prod.fst] (some ([w] :: ws)) false =
      meanError loss [l.map Prod.snd] [l.map Prod.fst] none false) ∧
    (w = 0 → meanError loss [l.map Prod.snd] [l.map Prod.fst] (some ([w] :: ws)) false = none) ∧
    (meanError loss [l.map Prod.snd, l.map Prod.snd] [l.map Prod.fst, l.map Prod.fst] (some ([w] :: ws)) false = none) := by
  refine ⟨fun h => ?_, fun h => ?_, ?_⟩
  · simp [meanError, errOutputs, errOutput_eq loss 1 one_ne_zero l hl, errOutput_eq loss w h l hl]
  · subst h
    have hz : (l.map Prod.fst).zip (l.map Prod.snd) = l := ListX.zip_map_fst_snd l
    have : errOutput loss 0 (l.map Prod.snd) (l.map Prod.fst) = none := by
      unfold errOutput
      simp only [hz, errFold, fdiv]
      simp
    simp [meanError, errOutputs, this]
  · simp [meanError, errOutputs]

example : meanError (K := ℚ) (fun x => x * x) [[3, 2], [0, 1]] [[2, 2], [0, 3]] none false = some [5 / 4] := by decide +kernel
example : r2Score (K := ℚ) (1 / 10 ^ 20) [[1, 2, 3], [1, 0, 0]] [[1, 2, 3], [0, 0, 0]] (some [2, 1, 1]) .variance = some [7 / 15] := by decide +kernel
example : r2Score (K := ℚ) (1 / 10 ^ 20) [[1, 2, 3]] [[3, 2, 1]] none .uniform = some [-3] := by decide +kernel
example : r2Score (K := ℚ) (1 / 10 ^ 20) [[1, 2, 3], [1, 0, 0]] [[1, 2, 3], [0, 0, 0]] (some [2, 1, 1]) .raw = some [1, -1] := by decide +kernel

end Sk.Metrics
