import Verif.Props.SvmKkt
import Verif.Props.SvmKernels
import Mathlib.Tactic.Linarith
import Mathlib.Tactic.NormNum

/-! # C253: how far a support vector machine gets from its offset -/
set_option autoImplicit false

namespace Sk.SvmBounded

open Sk.Svm

variable {K : Type} [Field K] [LinearOrder K] [IsStrictOrderedRing K] {m : ℕ}

/-- Weights that sum to zero, none above `C` in absolute value, some of them dropped, against values between 0 and 1. -/
private theorem kept (u : Fin m → K) {C : K} (hu : ∀ i, |u i| ≤ C) (h0 : ∑ i, u i = 0) (p : Fin m → Prop) [DecidablePred p] (k : Fin m → K) (hk : ∀ i, 0 ≤ k i ∧ k i ≤ 1) :
    |∑ i, if p i then u i * k i else 0| ≤ m * C / 2 := by
  have h1 : ∑ i, (|u i| + u i) / 2 ≤ m * C / 2 := by
    have : ∑ i, |u i| ≤ ∑ _i : Fin m, C := Finset.sum_le_sum fun i _ => hu i
    rw [Finset.sum_const, Finset.card_univ, Fintype.card_fin, nsmul_eq_mul] at this
    rw [← Finset.sum_div, Finset.sum_add_distrib, h0]
    linarith
  have h2 : ∑ i, (|u i| - u i) / 2 ≤ m * C / 2 := by
    have : ∑ i, |u i| ≤ ∑ _i : Fin m, C := Finset.sum_le_sum fun i _ => hu i
    rw [Finset.sum_const, Finset.card_univ, Fintype.card_fin, nsmul_eq_mul] at this
    rw [← Finset.sum_div, Finset.sum_sub_distrib, h0]
    linarith
  have b1 : ∑ i, (if p i then u i * k i else 0) ≤ ∑ i, (|u i| + u i) / 2 := Finset.sum_le_sum fun i _ => by
    have ha := neg_abs_le (u i)
    split_ifs
    · rcases le_total 0 (u i) with h | h
      · rw [abs_of_nonneg h]
        nlinarith [(hk i).2]
      · rw [abs_of_nonpos h]
        nlinarith [(hk i).1]
    · linarith
  have b2 : -∑ i, (|u i| - u i) / 2 ≤ ∑ i, (if p i then u i * k i else 0) := by
    rw [← Finset.sum_neg_distrib]
    refine Finset.sum_le_sum fun i _ => ?_
    have ha := le_abs_self (u i)
    split_ifs
    · rcases le_total 0 (u i) with h | h
      · rw [abs_of_nonneg h]
        nlinarith [(hk i).1]
      · rw [abs_of_nonpos h]
        nlinarith [(hk i).2]
    · linarith
  exact abs_le.2 ⟨by linarith, by linarith⟩

/-- **C253, `SVR`**: the prediction of a trained regressor for a row whose kernel values `k` with the training samples lie between 0 and 1, as those of the RBF kernel always do, is no further from its offset than half the number of training samples times `C`. The kernel values among the training samples are arbitrary. -/
theorem C253_svr (kern : Fin m → Fin m → K) (Y : Fin m → K) {C : K} (hC : 0 ≤ C) (eps tol : K) (maxPasses : ℕ) (draws : ℕ → Fin m → ℕ) (fuel : ℕ) (st : St m K) (h : loop (svrStep kern Y C eps tol) maxPasses draws fuel 0 0 (start m K) = .done st)
    (M : Model m K) (hM : svrModel tol st = some M) (k : Fin m → K) (hk : ∀ i, 0 ≤ k i ∧ k i ≤ 1) : |svrPredict M k - M.b| ≤ m * C / 2 := by
  obtain ⟨hbox, hbal⟩ := C38_train kern Y hC eps tol maxPasses draws fuel st h
  have hex : ∃ i, tol < |st.α i| := by
    by_contra hn
    push Not at hn
    rw [(C85_model tol st).1 hn] at hM
    cases hM
  obtain ⟨M', e1, e2⟩ := (C85_model tol st).2 hex
  rw [hM] at e1
  cases e1
  have hb : M.b = st.b := by
    unfold svrModel at hM
    simp only at hM
    split at hM
    · cases hM
    · cases hM; rfl
  have := kept st.α (fun i => abs_le.2 (hbox i)) hbal (fun i => tol < |st.α i|) k hk
  rw [e2, hb]
  simpa using this

/-- **C253, `SVC`**: a trained classifier whose offset is further from 0 than half the number of training samples times `C` gives all such rows the same label. -/
theorem C253_svc (kern : Fin m → Fin m → K) (Y : Fin m → K) (hY : ∀ i, Y i = 1 ∨ Y i = -1) {C : K} (hC : 0 ≤ C) (eps tol : K) (maxPasses : ℕ) (draws : ℕ → Fin m → ℕ) (fuel : ℕ) (st : St m K)
    (h : loop (svcStep kern Y C eps tol) maxPasses draws fuel 0 0 (start m K) = .done st) (M : Model m K) (hM : svcModel Y tol st = some M) (k : Fin m → K) (hk : ∀ i, 0 ≤ k i ∧ k i ≤ 1) :
    (m * C / 2 < M.b → svcPredict M k = 1) ∧ (M.b < -(m * C / 2) → svcPredict M k = 0) := by
  obtain ⟨hbox, hbal⟩ := C37_train kern Y hY hC eps tol maxPasses draws fuel st h
  have hex : ∃ i, tol < st.α i := by
    by_contra hn
    push Not at hn
    unfold svcModel at hM
    simp only at hM
    rw [if_pos (by
      rw [List.isEmpty_iff, List.filter_eq_nil_iff]
      intro i _
      simpa using hn i)] at hM
    cases hM
  obtain ⟨M', e1, e2⟩ := C83_model_partial Y tol st hex
  rw [hM] at e1
  cases e1
  have hb : M.b = st.b := by
    unfold svcModel at hM
    simp only at hM
    split at hM
    · cases hM
    · cases hM; rfl
  have := abs_le.1 (kept (fun i => st.α i * Y i) (C := C) (fun i => by
    rcases hY i with e | e <;> rw [e] <;> simp only [mul_one, mul_neg, abs_neg] <;> rw [abs_of_nonneg (hbox i).1] <;> exact (hbox i).2) hbal (fun i => tol < st.α i) k hk)
  rw [e2, hb]
  constructor
  · intro g
    rw [if_pos (by linarith [this.1])]
  · intro g
    rw [if_neg (by rw [not_le]; linarith [this.2])]

/-- Kernel values between 0 and 1 are those of the RBF kernel. -/
example {d : ℕ} (gamma : ℝ) (hg : 0 < gamma) (x : Fin d → ℝ) (X : Fin m → Fin d → ℝ) : ∀ i, 0 ≤ rbfKernel Real.exp gamma (List.ofFn x) (List.ofFn (X i)) ∧ rbfKernel Real.exp gamma (List.ofFn x) (List.ofFn (X i)) ≤ 1 :=
  fun i => ⟨(C218_rbf_values gamma hg x (X i)).1.le, (C218_rbf_values gamma hg x (X i)).2.1⟩

/-- Training of a regressor with two samples and `C = 10` ends with the offset 1; the predictions at the samples are 29/10 and -9/10, within 10 of the offset. -/
example : (match loop (svrStep (K := ℚ) (fun i j => if i = j then 1 else 0) ![3, -1] 10 (1 / 10) (1 / 1000)) 3 (fun _ _ => 0) 9 0 0 (start 2 ℚ) with
    | .done st => decide ((svrModel (1 / 1000) st).map (fun M => (M.b, svrPredict M ![1, 0], svrPredict M ![0, 1])) = some (1, 29 / 10, -9 / 10))
    | _ => false) = true := by decide +kernel

/-- A classifier with the linear kernel, the samples (10, 0) and (0, 7) and `C = 1/50`: training ends with the offset -51/149, further from 0 than 1/50, and the rows (0, 0) and (1/10, 1/7), whose kernel values are 0, 0 and 1, 1, get the label 0, while the first sample gets 1. -/
example : (match loop (svcStep (K := ℚ) (fun i j => if i = j then ![100, 49] i else 0) ![1, -1] (1 / 50) (1 / 1000) (1 / 1000)) 3 (fun _ _ => 0) 9 0 0 (start 2 ℚ) with
    | .done st => decide ((svcModel ![1, -1] (1 / 1000) st).map (fun M => (M.b, svcPredict M ![0, 0], svcPredict M ![1, 1], svcPredict M ![100, 0])) = some (-51 / 149, 0, 0, 1))
    | _ => false) = true := by decide +kernel

end Sk.SvmBounded
