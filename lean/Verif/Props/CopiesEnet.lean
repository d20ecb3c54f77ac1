import Verif.Props.EnetAgree

/-!
# C247 (continued): `ElasticNet` on several copies of every row
-/
set_option autoImplicit false

namespace Sk.Copies

open Sk.EnetFit
open Sk.Lin (decision)

/-- **C247, `ElasticNet`** (without `Normalize`): the training rows of the second fit are those of the first, each taken `k` times in any order; draws, start, tolerance and number of iterations may differ. The squared differences of
the predictions for all training rows, plus those of the coefficients weighted by the quadratic penalty, sum to at most four times the first gap plus the `k`-th part of the second. -/
theorem C247_elastic {n n' p k : ℕ} (hk : k ≠ 0) (P P' : Params) (hf : P.fitIntercept = true) (hf' : P'.fitIntercept = true) (hno : P.normalize = false) (hno' : P'.normalize = false) (hal : P'.alpha = P.alpha) (hl : P'.l1Ratio = P.l1Ratio)
    (hpos : P'.positive = P.positive) (ha : 0 ≤ P.alpha) (hr0 : 0 ≤ P.l1Ratio) (hr1 : P.l1Ratio ≤ 1) (hit : 1 ≤ P.maxIter) (hit' : 1 ≤ P'.maxIter) (draws draws' : ℕ → List (Fin p)) (before before' : Option (Fin p → ℝ)) (w w' : Fin p → ℝ)
    (hw : Start P before w) (hw' : Start P' before' w') (old old' : ℝ) (X : Fin n → Fin p → ℝ) (y : Fin n → ℝ) (hn : n ≠ 0) (row : Fin n' → Fin n) (hrow : ∀ i, (Finset.univ.filter (fun i' => row i' = i)).card = k) :
    ∃ f f', fitEN P draws before old X y = some f ∧ fitEN P' draws' before' old' (fun i' => X (row i')) (fun i' => y (row i')) = some f' ∧
      ∑ i, (decision f.coefs (X i) - decision f'.coefs (X i)) ^ 2 + P.alpha * (1 - P.l1Ratio) * n * ∑ j, (f.coefs.coef j - f'.coefs.coef j) ^ 2 ≤ 4 * (f.gap + f'.gap / k) := by
  have hk' : (0 : ℝ) < k := Nat.cast_pos.2 (Nat.pos_of_ne_zero hk)
  have hsum : ∀ g : Fin n → ℝ, ∑ i', g (row i') = k * ∑ i, g i := by
    intro g
    rw [Finset.mul_sum, ← Finset.sum_fiberwise_of_maps_to (s := Finset.univ) (t := Finset.univ) (g := row) (fun _ _ => Finset.mem_univ _)]
    refine Finset.sum_congr rfl fun i _ => ?_
    rw [Finset.sum_congr rfl (g := fun _ => g i) (fun i' hi' => by rw [(Finset.mem_filter.1 hi').2]), Finset.sum_const, hrow, nsmul_eq_mul]
  have hN : (n' : ℝ) = k * n := by simpa using hsum (fun _ => 1)
  have hn' : n' ≠ 0 := by
    rintro rfl
    rw [Nat.cast_zero] at hN
    rcases mul_eq_zero.1 hN.symm with h | h
    · exact hk'.ne' h
    · exact hn (Nat.cast_eq_zero.1 h)
  obtain ⟨f, h1, h2, h3⟩ := C122_fit P draws before w old X y hn hf hw (by simp [hno]) ha hr0 hr1 hit
  obtain ⟨f', h1', h2', h3'⟩ := C122_fit P' draws' before' w' old' (fun i' => X (row i')) (fun i' => y (row i')) hn' hf' hw' (by simp [hno']) (hal ▸ ha) (hl ▸ hr0) (hl ▸ hr1) hit'
  refine ⟨f, f', h1, h1', ?_⟩
  simp only [hno, hno', hal, hl, Bool.false_eq_true, if_false] at h3 h3'
  have hc : ∀ v b, cost (fun i' => X (row i')) (fun i' => y (row i')) (P.alpha * P.l1Ratio * n') (P.alpha * (1 - P.l1Ratio) * n') (fun _ => 1) v b =
      k * cost X y (P.alpha * P.l1Ratio * n) (P.alpha * (1 - P.l1Ratio) * n) (fun _ => 1) v b := by
    intro v b
    unfold cost
    rw [hsum (fun i => (y i - (∑ j, X i j * v j + b)) ^ 2), hN]
    ring
  have hmid := cost_mid X y (l1 := P.alpha * P.l1Ratio * n) (l2 := P.alpha * (1 - P.l1Ratio) * n) (by positivity) (fun _ => 1) f.coefs f'.coefs
  have hq : P.positive = true → ∀ j, 0 ≤ (f.coefs.coef j + f'.coefs.coef j) / 2 := fun hp j => by
    have := h2 hp j
    have := h2' (hpos.trans hp) j
    linarith
  have k1 := h3 (fun j => (f.coefs.coef j + f'.coefs.coef j) / 2) ((f.coefs.intercept + f'.coefs.intercept) / 2) hq
  have k2 := h3' (fun j => (f.coefs.coef j + f'.coefs.coef j) / 2) ((f.coefs.intercept + f'.coefs.intercept) / 2) (fun hp => hq (hpos.symm.trans hp))
  rw [hc, hc] at k2
  have e : (f'.gap : ℝ) = k * (f'.gap / k) := by field_simp
  rw [e, ← mul_add] at k2
  have k3 := le_of_mul_le_mul_left k2 hk'
  simp only [one_mul] at hmid
  linarith

/-- Three samples of two features, each taken twice. -/
example (draws : ℕ → List (Fin 2)) : ∃ f f', fitEN ⟨true, false, 1, 1 / 2, 1 / 1000, 100, false, true⟩ (fun _ => List.finRange 2) none 0 ![![0, 3], ![1, 5], ![2, 1]] ![1, 2, 4] = some f ∧
    fitEN ⟨true, false, 1, 1 / 2, 1 / 10, 7, false, true⟩ draws none 5 (fun i' => (![![0, 3], ![1, 5], ![2, 1]] : Fin 3 → Fin 2 → ℝ) ((![2, 0, 1, 1, 0, 2] : Fin 6 → Fin 3) i'))
      (fun i' => (![1, 2, 4] : Fin 3 → ℝ) ((![2, 0, 1, 1, 0, 2] : Fin 6 → Fin 3) i')) = some f' ∧
    ∑ i, (decision f.coefs (![![0, 3], ![1, 5], ![2, 1]] i) - decision f'.coefs (![![0, 3], ![1, 5], ![2, 1]] i)) ^ 2 + 1 * (1 - 1 / 2) * (3 : ℕ) * ∑ j, (f.coefs.coef j - f'.coefs.coef j) ^ 2 ≤ 4 * (f.gap + f'.gap / (2 : ℕ)) :=
  C247_elastic (k := 2) (by norm_num) ⟨true, false, 1, 1 / 2, 1 / 1000, 100, false, true⟩ ⟨true, false, 1, 1 / 2, 1 / 10, 7, false, true⟩ rfl rfl rfl rfl rfl rfl rfl (by norm_num) (by norm_num) (by norm_num)
    (by norm_num) (by norm_num) (fun _ => List.finRange 2) draws none none (fun _ => 0) (fun _ => 0) ⟨rfl, fun _ _ => le_rfl⟩ ⟨rfl, fun _ _ => le_rfl⟩ 0 5 ![![0, 3], ![1, 5], ![2, 1]] ![1, 2, 4] (by norm_num)
    ![2, 0, 1, 1, 0, 2] (by decide)

end Sk.Copies
