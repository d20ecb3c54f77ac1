import Verif.Props.SvmSymmetry
import Verif.Props.SvmKkt
import Mathlib.Algebra.BigOperators.Fin
import Mathlib.Tactic.FinCases
import Mathlib.Tactic.NormNum

/-! # C172: support vector regression on repeated rows -/
set_option autoImplicit false

namespace Sk.Svm

variable {K : Type} [Field K] [LinearOrder K] [IsStrictOrderedRing K]

theorem ck_const (k : K) (i j : Fin 2) : ck (fun _ _ => k) i j = k := by
  rw [ck]; split <;> rfl

theorem partner_two (i : Fin 2) (r : ℕ) : partner i r = some (1 - i) := by
  unfold partner
  have h : r % (2 - 1) = 0 := Nat.mod_one r
  simp only [h]
  fin_cases i <;> simp

/-- The state in which training gets stuck. -/
def stuck (C : K) (Y : Fin 2 → K) (v : Bool) (c : ℕ) : St 2 K := ⟨![C, -C], (Y 0 + Y 1) / 2, v, c⟩

section
variable (k : K) (Y : Fin 2 → K) {C eps tol : K}

theorem fr_stuck (v : Bool) (c : ℕ) (i : Fin 2) : fr (fun _ _ => k) (stuck C Y v c) i = (Y 0 + Y 1) / 2 := by
  rw [fr, Fin.sum_univ_two]
  simp only [ck_const, stuck, Matrix.cons_val_zero, Matrix.cons_val_one]
  ring

theorem step_first (hC : 0 < C) (he : 0 < eps) (ht : tol ≤ C) (h0 : eps < Y 0) (h1 : Y 0 < Y 1) (r : ℕ) :
    svrStep (fun _ _ => k) Y C eps tol (start 2 K) (0, r) = some (stuck C Y true 1) := by
  have hf : ∀ (v : Bool) (c : ℕ) (i : Fin 2), fr (fun _ _ => k) (⟨fun _ => 0, 0, v, c⟩ : St 2 K) i = 0 := by
    intro v c i
    simp [fr]
  unfold svrStep
  have hE : fr (fun _ _ => k) (start 2 K) 0 - Y 0 < -eps := by
    rw [start, hf]
    linarith
  refine (if_pos (Or.inl ⟨hE, hC⟩)).trans ?_
  simp only [start]
  rw [partner_two, Option.map_some, svrPartner_two _ _ (by decide)]
  congr 1
  unfold svrUpdate
  simp only [hf, ck_const]
  rw [show (2 : K) * k - k - k = 0 by ring]
  have hraw : svrRaw eps 0 (0 - Y 0) (0 - Y (1 - 0)) 0 (0 + 0) (max (0 + 0 - C) (-C)) (min C (C + (0 + 0))) = some (-C) := by
    unfold svrRaw
    rw [if_pos rfl, if_neg (by rw [show (1 : Fin 2) - 0 = 1 from rfl]; intro h; linarith), if_pos he, if_pos (by rw [show (1 : Fin 2) - 0 = 1 from rfl]; linarith)]
    simp
  rw [hraw]
  simp only
  have ha : min (min C (C + (0 + 0))) (max (max (0 + 0 - C) (-C)) (-C)) = -C := by
    simp only [add_zero, zero_sub, max_self, min_self]
    exact min_eq_right (by linarith)
  rw [ha, show (1 : Fin 2) - 0 = 1 from rfl]
  rw [if_neg]
  · unfold stuck
    congr 1
    · funext i
      fin_cases i <;> simp
    · ring
  · push Not
    refine ⟨?_, ?_⟩
    · rw [show -C - 0 = -C by ring, abs_neg, abs_of_pos hC]; exact ht
    · rw [abs_of_neg (show (0 : K) - Y 0 < 0 by linarith), abs_of_neg (show (0 : K) - Y 1 < 0 by linarith)]
      rw [abs_of_pos (by ring_nf; linarith), abs_of_neg (by ring_nf; linarith)]
      ring_nf
      linarith

theorem step_stuck (hC : 0 < C) (he : 0 < eps) (ht : 0 < tol) (h1 : Y 0 + 2 * eps < Y 1) (i : Fin 2) (r : ℕ) (v : Bool) (c : ℕ) :
    svrStep (fun _ _ => k) Y C eps tol (stuck C Y v c) (i, r) = some (stuck C Y true c) := by
  unfold svrStep
  simp only [fr_stuck]
  rw [if_pos, partner_two, Option.map_some, svrPartner_two _ _ (by fin_cases i <;> decide)]
  · congr 1
    have hst : ({ stuck C Y v c with viol := true } : St 2 K) = stuck C Y true c := rfl
    rw [hst]
    unfold svrUpdate
    simp only [fr_stuck, ck_const]
    rw [show (2 : K) * k - k - k = 0 by ring]
    have hraw : svrRaw eps 0 ((Y 0 + Y 1) / 2 - Y i) ((Y 0 + Y 1) / 2 - Y (1 - i)) ((stuck C Y true c).α (1 - i)) ((stuck C Y true c).α i + (stuck C Y true c).α (1 - i))
        (max ((stuck C Y true c).α i + (stuck C Y true c).α (1 - i) - C) (-C)) (min C (C + ((stuck C Y true c).α i + (stuck C Y true c).α (1 - i)))) = some ((stuck C Y true c).α (1 - i)) := by
      unfold svrRaw
      fin_cases i
      · simp only [Fin.zero_eta, show (1 : Fin 2) - 0 = 1 from rfl]
        rw [if_pos trivial, if_neg (by intro h; linarith), if_pos he, if_pos (by linarith)]
        simp [stuck]
      · simp only [Fin.mk_one, show (1 : Fin 2) - 1 = 0 from rfl]
        rw [if_pos trivial, if_neg (by intro h; linarith), if_pos he, if_neg (by linarith)]
        simp [stuck]
    rw [hraw]
    simp only
    have ha : min (min C (C + ((stuck C Y true c).α i + (stuck C Y true c).α (1 - i)))) (max (max ((stuck C Y true c).α i + (stuck C Y true c).α (1 - i) - C) (-C)) ((stuck C Y true c).α (1 - i))) =
        (stuck C Y true c).α (1 - i) := by
      fin_cases i
      · simp [stuck]
        linarith
      · simp [stuck]
    rw [ha]
    exact if_pos (Or.inl (by rw [sub_self, abs_zero]; exact ht))
  · fin_cases i
    · right
      simp only [stuck, Fin.zero_eta, Matrix.cons_val_zero]
      exact ⟨by linarith, by linarith⟩
    · left
      simp only [stuck, Fin.mk_one, Matrix.cons_val_one, Matrix.cons_val_zero]
      exact ⟨by linarith, by linarith⟩

theorem loop_stuck (hC : 0 < C) (he : 0 < eps) (ht : 0 < tol) (h1 : Y 0 + 2 * eps < Y 1) (maxPasses : ℕ) (draws : ℕ → Fin 2 → ℕ) :
    ∀ n passes, maxPasses - passes = n → ∀ t v c, ∃ v' c', loop (svrStep (fun _ _ => k) Y C eps tol) maxPasses draws (n + 1) t passes (stuck C Y v c) = .done (stuck C Y v' c') := by
  intro n
  induction n with
  | zero =>
    intro passes hn t v c
    refine ⟨v, c, ?_⟩
    rw [loop, if_pos (by omega)]
  | succ n ih =>
    intro passes hn t v c
    have hfr : List.finRange 2 = [0, 1] := by decide
    have hst : ({ stuck C Y v c with viol := false, changed := 0 } : St 2 K) = stuck C Y false 0 := rfl
    rw [loop, if_neg (by omega), hfr, hst, List.foldlM_cons, step_stuck k Y hC he ht h1]
    simp only [Option.bind_eq_bind, Option.bind_some, List.foldlM_cons, List.foldlM_nil]
    rw [step_stuck k Y hC he ht h1]
    obtain ⟨v', c', e⟩ := ih (passes + 1) (by omega) (t + 1) true 0
    refine ⟨v', c', ?_⟩
    simp only [Option.bind_some, Option.pure_def]
    exact e

/-- **C172, violated for repeated rows.** Two samples with the same features (and any kernel), targets `Y₀ < Y₁` more than `2·Epsilon` apart and more than `Epsilon` above zero: training moves the multipliers in the wrong direction - the
sample with the smaller target gets `+C`, the one with the larger target `-C`, because the step is divided by `+0` - stays there and ends, for any random numbers; both samples are on the wrong side of the tube for their
multipliers. -/
theorem C172_duplicates_violated (hC : 0 < C) (he : 0 < eps) (ht : 0 < tol) (htC : tol ≤ C) (h0 : eps < Y 0) (h1 : Y 0 + 2 * eps < Y 1) (maxPasses : ℕ) (hp : 1 ≤ maxPasses) (draws : ℕ → Fin 2 → ℕ) :
    ∃ fuel st, loop (svrStep (fun _ _ => k) Y C eps tol) maxPasses draws fuel 0 0 (start 2 K) = .done st ∧ st.α 0 = C ∧ st.α 1 = -C ∧
      Y 0 + eps < svrValue (fun _ _ => k) st.α st.b 0 ∧ svrValue (fun _ _ => k) st.α st.b 1 < Y 1 - eps ∧ ¬ SvrKkt (fun _ _ => k) Y C eps st.α st.b := by
  obtain ⟨v', c', e⟩ := loop_stuck k Y hC he ht h1 maxPasses draws maxPasses 0 rfl 1 true 1
  have hv : ∀ i, svrValue (fun _ _ => k) (stuck C Y v' c').α (stuck C Y v' c').b i = (Y 0 + Y 1) / 2 := by
    intro i
    rw [svrValue, Fin.sum_univ_two]
    simp only [stuck, Matrix.cons_val_zero, Matrix.cons_val_one]
    ring
  refine ⟨maxPasses + 1 + 1, stuck C Y v' c', ?_, rfl, rfl, ?_, ?_, ?_⟩
  · have hfr : List.finRange 2 = [0, 1] := by decide
    have hst : ({ start 2 K with viol := false, changed := 0 } : St 2 K) = start 2 K := rfl
    rw [loop, if_neg (by omega), hfr, hst, List.foldlM_cons, step_first k Y hC he htC h0 (by linarith)]
    simp only [Option.bind_eq_bind, Option.bind_some, List.foldlM_cons, List.foldlM_nil]
    rw [step_stuck k Y hC he ht h1]
    simp only [Option.bind_some, Option.pure_def]
    exact e
  · rw [hv]; linarith
  · rw [hv]; linarith
  · intro hk
    have := (hk 0).2 (by rw [hv]; linarith)
    simp only [stuck, Matrix.cons_val_zero] at this
    linarith

end

/-- The same row measured as 1 and as 3. -/
example : (match loop (svrStep (K := ℚ) (fun _ _ => 5) ![1, 3] 10 (1 / 10) (1 / 1000)) 3 (fun _ _ => 0) 9 0 0 (start 2 ℚ) with
    | .done st => decide (st.α 0 = 10 ∧ st.α 1 = -10 ∧ st.b = 2)
    | _ => false) = true := by decide +kernel

end Sk.Svm
