import Verif.Props.Svc
import Verif.Props.Svr
import Mathlib.Algebra.BigOperators.Fin
import Mathlib.Data.Fin.VecNotation
import Mathlib.Tactic.FinCases

/-! # C174: does training of a support vector regressor end? -/
set_option autoImplicit false

namespace Sk.Svm

variable {K : Type} [Field K] [LinearOrder K] [IsStrictOrderedRing K] {m : ℕ}

/-! ## With `Epsilon = 0` -/

/-- Objective of the dual of SVR without insensitivity tube, to be minimised. -/
def svrDual (kern : Fin m → Fin m → K) (Y α : Fin m → K) : K :=
  (∑ i, ∑ j, α i * α j * kern i j) / 2 - ∑ i, α i * Y i

/-- An accepted update moves both multipliers by `d` in opposite directions, and lowers the dual objective. -/
theorem svrUpdate_zero (kern : Fin m → Fin m → K) (Y : Fin m → K) (C : K) {tol : K} (htol : 0 < tol) (st : St m K) {i j : Fin m} (hij : j ≠ i)
    (heta : 2 * ck kern i j - ck kern i i - ck kern j j < 0) (hf : SvrFeasible C st.α) :
    svrUpdate kern Y C 0 tol st i j = st ∨ ((svrUpdate kern Y C 0 tol st i j).changed = st.changed + 1 ∧
      svrDual (ck kern) Y (svrUpdate kern Y C 0 tol st i j).α + tol ^ 2 * (-(2 * ck kern i j - ck kern i i - ck kern j j)) / 2 ≤ svrDual (ck kern) Y st.α) := by
  set η := 2 * ck kern i j - ck kern i i - ck kern j j with hη
  set G := (fr kern st i - Y i) - (fr kern st j - Y j) with hG
  set s := st.α i + st.α j with hs
  set raw := st.α j - G / η with hraw
  have hr : svrRaw 0 η (fr kern st i - Y i) (fr kern st j - Y j) (st.α j) s (max (s - C) (-C)) (min C (C + s)) = some raw := by
    rw [svrRaw, if_neg heta.ne]
    simp only [mul_zero, zero_div, sub_zero]
    split
    · rename_i h
      rw [if_pos]
      by_contra hc
      push Not at hc
      have h1 := abs_nonpos_iff.1 hc.1
      rw [h1, zero_mul] at h
      exact lt_irrefl _ h
    · rfl
  rw [svrUpdate]
  simp only
  rw [← hη, ← hs, hr]
  simp only
  set a := min (min C (C + s)) (max (max (s - C) (-C)) raw) with ha
  split
  · exact Or.inl rfl
  · rename_i h
    push Not at h
    right
    refine ⟨rfl, ?_⟩
    simp only
    set d := a - st.α j with hd
    set α' := Function.update (Function.update st.α j a) i (s - a) with hα'
    have hji : α' j = a := by rw [hα', Function.update_of_ne hij, Function.update_self]
    have hii : α' i = s - a := by rw [hα', Function.update_self]
    have hquad := quad_move (ck kern) (ck_sym kern) st.α α' hij d (by rw [hji, hd]; ring) (by rw [hii, hd, hs]; ring) (by
      intro l h1 h2
      rw [hα', Function.update_of_ne h1, Function.update_of_ne h2])
    have hlin : ∑ k, α' k * Y k = ∑ k, st.α k * Y k + d * Y j - d * Y i := by
      rw [hα', sum_update₂ (fun k a => a * Y k) st.α hij]
      rw [hd, hs]
      ring
    have hGe : G = (∑ l, st.α l * ck kern l i) - (∑ l, st.α l * ck kern l j) - Y i + Y j := by
      rw [hG, fr, fr]
      ring
    have hW : svrDual (ck kern) Y α' = svrDual (ck kern) Y st.α - (d * G + η * d ^ 2 / 2) := by
      rw [svrDual, svrDual, hquad, hlin, hGe, hη]
      ring
    -- the step lies between zero and the unconstrained one
    have hi := hf.box i
    have hj := hf.box j
    have hL : max (s - C) (-C) ≤ st.α j := max_le (by linarith) (by linarith)
    have hH : st.α j ≤ min C (C + s) := le_min (by linarith) (by linarith)
    have hbetween : 0 ≤ d * (-(G / η) - d) := by
      rcases le_total raw (st.α j) with hle | hle
      · have h1 : a ≤ st.α j := (min_le_right _ _).trans (max_le hL hle)
        have h2 : raw ≤ a := le_min ((hle.trans hH)) (le_max_right _ _)
        have e1 : d ≤ 0 := by rw [hd]; linarith
        have e2 : -(G / η) - d ≤ 0 := by rw [hd]; linarith
        exact mul_nonneg_of_nonpos_of_nonpos e1 e2
      · have h1 : st.α j ≤ a := le_min hH (hle.trans (le_max_right _ _))
        have h2 : a ≤ raw := (min_le_right _ _).trans (max_le (hL.trans hle) le_rfl)
        have e1 : 0 ≤ d := by rw [hd]; linarith
        have e2 : 0 ≤ -(G / η) - d := by rw [hd]; linarith
        exact mul_nonneg e1 e2
    have hmul : 0 ≤ -η * (d * (-(G / η) - d)) := mul_nonneg (by linarith) hbetween
    have hexp : -η * (d * (-(G / η) - d)) = d * G + η * d ^ 2 := by
      have := heta.ne
      field_simp
      ring
    have hd2 : tol ^ 2 ≤ d ^ 2 := by
      have h1 : tol ≤ |d| := h.1
      calc tol ^ 2 ≤ |d| ^ 2 := by nlinarith [abs_nonneg d]
        _ = d ^ 2 := sq_abs d
    have : tol ^ 2 * (-η) ≤ d ^ 2 * (-η) := mul_le_mul_of_nonneg_right hd2 (by linarith)
    rw [hW]
    rw [hexp] at hmul
    linarith

theorem svrDual_ge {C : K} (k : Fin m → Fin m → K) (Y α : Fin m → K) (hf : SvrFeasible C α) :
    -((∑ i, ∑ j, C * C * |k i j|) / 2 + ∑ i, C * |Y i|) ≤ svrDual k Y α := by
  have hab : ∀ i, |α i| ≤ C := fun i => abs_le.2 (hf.box i)
  have h1 : -(∑ i, ∑ j, α i * α j * k i j) ≤ ∑ i, ∑ j, C * C * |k i j| := by
    rw [← Finset.sum_neg_distrib]
    apply Finset.sum_le_sum
    intro i _
    rw [← Finset.sum_neg_distrib]
    apply Finset.sum_le_sum
    intro j _
    have hC : 0 ≤ C := (abs_nonneg _).trans (hab i)
    calc -(α i * α j * k i j) ≤ |α i * α j * k i j| := neg_le_abs _
      _ = |α i| * |α j| * |k i j| := by rw [abs_mul, abs_mul]
      _ ≤ C * C * |k i j| := mul_le_mul_of_nonneg_right (mul_le_mul (hab i) (hab j) (abs_nonneg _) hC) (abs_nonneg _)
  have h2 : ∑ i, α i * Y i ≤ ∑ i, C * |Y i| := by
    apply Finset.sum_le_sum
    intro i _
    calc α i * Y i ≤ |α i * Y i| := le_abs_self _
      _ = |α i| * |Y i| := abs_mul _ _
      _ ≤ C * |Y i| := mul_le_mul_of_nonneg_right (hab i) (abs_nonneg _)
  rw [svrDual]
  linarith

/-- C174, with `Epsilon = 0`: for two or more samples, `C ≥ 0`, a positive tolerance and a symmetric kernel that separates every two samples, whatever the random numbers, there is a number of rounds
within which training stops (without panic).  Missing: a positive `Epsilon`, for which it is false (`C174_cycle_violated`). -/
theorem C174_terminates_partial [Archimedean K] (hm : 2 ≤ m) (kern : Fin m → Fin m → K) (hsym : ∀ i j, kern i j = kern j i) (hpos : ∀ i j, j ≠ i → 2 * kern i j < kern i i + kern j j)
    (Y : Fin m → K) {C : K} (hC : 0 ≤ C) {tol : K} (htol : 0 < tol) (maxPasses : ℕ) (draws : ℕ → Fin m → ℕ) :
    ∃ fuel st, loop (svrStep kern Y C 0 tol) maxPasses draws fuel 0 0 (start m K) = .done st := by
  have heta : ∀ i j, j ≠ i → 2 * ck kern i j - ck kern i i - ck kern j j < 0 := by
    intro i j h
    rw [ck_eq hsym, ck_eq hsym, ck_eq hsym]
    have := hpos i j h
    linarith
  obtain ⟨c, hc, hmin⟩ := pos_min (fun p : Fin m × Fin m => tol ^ 2 * (-(2 * ck kern p.1 p.2 - ck kern p.1 p.1 - ck kern p.2 p.2)) / 2)
  set W := svrDual (ck kern) Y with hW
  set B := -((∑ i, ∑ j, C * C * |ck kern i j|) / 2 + ∑ i, C * |Y i|) with hB
  have pass : ∀ (l : List (Fin m × ℕ)) (s : St m K), SvrFeasible C s.α →
      ∃ s', l.foldlM (svrStep kern Y C 0 tol) s = some s' ∧ SvrFeasible C s'.α ∧
        ((s'.changed = s.changed ∧ W s'.α = W s.α) ∨ (s.changed < s'.changed ∧ W s'.α + c ≤ W s.α)) := by
    intro l
    induction l with
    | nil => intro s hs; exact ⟨s, rfl, hs, Or.inl ⟨rfl, rfl⟩⟩
    | cons a l ih =>
      intro s hs
      have : ∃ t, svrStep kern Y C 0 tol s a = some t ∧ ((t.changed = s.changed ∧ W t.α = W s.α) ∨ (s.changed < t.changed ∧ W t.α + c ≤ W s.α)) := by
        rw [svrStep]
        simp only
        split
        · obtain ⟨j, e, hj⟩ := partner_spec hm a.1 a.2
          have hne := svrPartner_ne (fun i => fr kern s i - Y i) 0 hj
          refine ⟨_, by rw [e, Option.map_some], ?_⟩
          set j' := svrPartner (fun i => fr kern s i - Y i) 0 a.1 j with hj'
          rcases svrUpdate_zero kern Y C htol { s with viol := true } hne (heta _ _ hne) hs with g | ⟨g1, g2⟩
          · left
            rw [g]
            exact ⟨rfl, rfl⟩
          · right
            have hlow := hmin (a.1, j') (by
              have : 0 < -(2 * ck kern a.1 j' - ck kern a.1 a.1 - ck kern j' j') := by have := heta _ _ hne; linarith
              simp only
              positivity)
            simp only at hlow g1
            exact ⟨by omega, by linarith⟩
        · exact ⟨s, rfl, Or.inl ⟨rfl, rfl⟩⟩
      obtain ⟨t, e, ht1⟩ := this
      have ht := svrStep_feasible e hs
      obtain ⟨s', e2, hs', hprog⟩ := ih t ht
      refine ⟨s', by rw [List.foldlM_cons, e]; exact e2, hs', ?_⟩
      rcases ht1 with ⟨q1, q2⟩ | ⟨q1, q2⟩ <;> rcases hprog with ⟨p1, p2⟩ | ⟨p1, p2⟩
      · exact Or.inl ⟨by omega, by rw [p2, q2]⟩
      · exact Or.inr ⟨by omega, by rw [← q2]; exact p2⟩
      · exact Or.inr ⟨by omega, by rw [p2]; exact q2⟩
      · exact Or.inr ⟨by omega, by linarith⟩
  have hbound : ∀ α, SvrFeasible C α → B ≤ W α := fun α h => svrDual_ge (ck kern) Y α h
  have key : ∀ (n k : ℕ) (s : St m K) (t passes : ℕ), SvrFeasible C s.α → W s.α - B < n * c → maxPasses - passes ≤ k →
      ∃ fuel st, loop (svrStep kern Y C 0 tol) maxPasses draws fuel t passes s = .done st := by
    intro n
    induction n with
    | zero =>
      intro k s t passes hs hlt _
      have := hbound _ hs
      simp at hlt
      linarith
    | succ n ihn =>
      intro k
      induction k with
      | zero =>
        intro s t passes _ _ hp
        exact ⟨1, s, by rw [loop, if_pos (by omega)]⟩
      | succ k ihk =>
        intro s t passes hs hlt hp
        by_cases hpm : maxPasses ≤ passes
        · exact ⟨1, s, by rw [loop, if_pos hpm]⟩
        · obtain ⟨s', e, hs', hprog⟩ := pass ((List.finRange m).map (fun i => (i, draws t i))) { s with viol := false, changed := 0 } hs
          rw [List.foldlM_map] at e
          by_cases hv : s'.viol = true
          · rcases hprog with ⟨p1, p2⟩ | ⟨p1, p2⟩
            · simp only at p1 p2
              obtain ⟨fuel, st, h⟩ := ihk s' (t + 1) (passes + 1) hs' (by rw [p2]; exact hlt) (by omega)
              refine ⟨fuel + 1, st, ?_⟩
              rw [loop, if_neg hpm]
              simp only [e, hv, Bool.not_true, Bool.false_eq_true, if_false, p1, if_true]
              exact h
            · simp only at p1 p2
              obtain ⟨fuel, st, h⟩ := ihn maxPasses s' (t + 1) 0 hs' (by push_cast at hlt; linarith) (by omega)
              refine ⟨fuel + 1, st, ?_⟩
              rw [loop, if_neg hpm]
              simp only [e, hv, Bool.not_true, Bool.false_eq_true, if_false]
              rw [if_neg (by omega)]
              exact h
          · refine ⟨1, s', ?_⟩
            rw [loop, if_neg hpm]
            simp only [e, hv, Bool.not_false, if_true]
  obtain ⟨n, hn⟩ := exists_nat_gt ((W (start m K).α - B) / c)
  exact key n maxPasses (start m K) 0 0 (start_svr hC) ((div_lt_iff₀ hc).1 hn) (by omega)

/-- The hypotheses of `C174_terminates_partial` hold for the linear kernel and three different abscissae. -/
example : (∀ i j : Fin 3, (![-1, 1, 2] i * ![-1, 1, 2] j : ℚ) = ![-1, 1, 2] j * ![-1, 1, 2] i) ∧
    (∀ i j : Fin 3, j ≠ i → 2 * (![-1, 1, 2] i * ![-1, 1, 2] j : ℚ) < ![-1, 1, 2] i * ![-1, 1, 2] i + ![-1, 1, 2] j * ![-1, 1, 2] j) := by decide +kernel

/-! ## With a positive `Epsilon` -/

/-- A training loop whose rounds, from multipliers and offset in the list `S`, always lead back into `S` with a change never ends. -/
theorem loop_closed (step : St m K → Fin m × ℕ → Option (St m K)) (maxPasses : ℕ) (hmp : 1 ≤ maxPasses) (d : Fin m → ℕ) (S : List ((Fin m → K) × K))
    (hS : ∀ P ∈ S, ∃ s', (List.finRange m).foldlM (fun st i => step st (i, d i)) ⟨P.1, P.2, false, 0⟩ = some s' ∧ (s'.α, s'.b) ∈ S ∧ s'.viol = true ∧ s'.changed ≠ 0) :
    ∀ (fuel t : ℕ) (s : St m K), (s.α, s.b) ∈ S → loop step maxPasses (fun _ => d) fuel t 0 s = .running := by
  intro fuel
  induction fuel with
  | zero => intro t s _; rfl
  | succ fuel ih =>
    intro t s hs
    obtain ⟨s', e, e1, e3, e4⟩ := hS _ hs
    rw [loop, if_neg (by omega)]
    simp only at e ⊢
    rw [e]
    simp only [e3, Bool.not_true, Bool.false_eq_true, if_false, if_neg e4]
    exact ih (t + 1) s' e1

/-- One round with the default settings `C = 1`, `Epsilon = 0.1`, `Tol = 0.001`, the linear kernel and the three samples (1, 0), (-1, 3/2), (0, 1), from given multipliers and offset. -/
def threeRound (P : (Fin 3 → ℚ) × ℚ) : Option (St 3 ℚ) :=
  (List.finRange 3).foldlM (fun st i => svrStep (fun i j => ![1, -1, 0] i * ![1, -1, 0] j) ![0, 3 / 2, 1] 1 (1 / 10) (1 / 1000) st (i, ![0, 0, 1] i)) ⟨P.1, P.2, false, 0⟩

/-- The multipliers and offsets that occur between the rounds. -/
def threeStates : List ((Fin 3 → ℚ) × ℚ) :=
  [(![0, 0, 0], 0), (![0, 3 / 10, -3 / 10], 11 / 10), (![-7 / 40, 1 / 8, 1 / 20], 11 / 10), (![-7 / 20, 3 / 20, 1 / 5], 1), (![-17 / 40, 3 / 40, 7 / 20], 1), (![-1 / 2, 0, 1 / 2], 1), (![-23 / 40, 1 / 8, 9 / 20], 9 / 10), (![-11 / 20, 3 / 20, 2 / 5], 9 / 10), (![-21 / 40, 7 / 40, 7 / 20], 9 / 10)]

/-- C174, violated: with the default settings, the linear kernel and three samples with different abscissae, training of a support vector regressor never ends, whatever `MaxIter` is, when the random
numbers repeat in every round. -/
theorem C174_cycle_violated : ∃ (x Y : Fin 3 → ℚ) (d : Fin 3 → ℕ), (∀ i j, x i = x j → i = j) ∧
    ∀ maxPasses ≥ 1, ∀ fuel, loop (svrStep (fun i j => x i * x j) Y 1 (1 / 10) (1 / 1000)) maxPasses (fun _ => d) fuel 0 0 (start 3 ℚ) = .running := by
  refine ⟨![1, -1, 0], ![0, 3 / 2, 1], ![0, 0, 1], by decide +kernel, ?_⟩
  intro maxPasses hmp fuel
  refine loop_closed _ maxPasses hmp _ threeStates ?_ fuel 0 _ (by decide +kernel)
  have key : ∀ P ∈ threeStates, ((threeRound P).map (fun s => decide ((s.α, s.b) ∈ threeStates ∧ s.viol = true ∧ s.changed ≠ 0))) = some true := by decide +kernel
  intro P hP
  obtain ⟨s', e, h⟩ := Option.map_eq_some_iff.1 (key P hP)
  simp only [decide_eq_true_eq] at h
  exact ⟨s', e, h⟩

end Sk.Svm
