import Verif.Lemmas.Svm
import Verif.Props.Classification
import Mathlib.Algebra.Order.Archimedean.Basic
import Mathlib.Algebra.BigOperators.Field

/-! # C37, C81, C82, C83, C84: training and using a support vector classifier -/
set_option autoImplicit false

namespace Sk.Svm

variable {K : Type} [Field K] [LinearOrder K] [IsStrictOrderedRing K] {m : ℕ}

/-- **C37**: starting from zero multipliers, after any sequence of (sample, raw random number) steps the multipliers are in the box and balanced; and with two or more
samples no step panics. -/
theorem C37_steps (kern : Fin m → Fin m → K) (Y : Fin m → K) (hY : ∀ i, Y i = 1 ∨ Y i = -1) {C : K} (hC : 0 ≤ C) (eps tol : K) (steps : List (Fin m × ℕ)) :
    (∀ st, steps.foldlM (svcStep kern Y C eps tol) (start m K) = some st → (∀ i, 0 ≤ st.α i ∧ st.α i ≤ C) ∧ ∑ i, st.α i * Y i = 0) ∧
    (2 ≤ m → ∃ st, steps.foldlM (svcStep kern Y C eps tol) (start m K) = some st) := by
  constructor
  · intro st h
    have := foldlM_inv (fun s : St m K => SvcFeasible Y C s.α) _ (fun s a s' h1 h2 => svcStep_feasible hY h2 h1) steps _ st (start_svc Y hC) h
    exact ⟨this.box, this.balance⟩
  · intro hm
    have key : ∀ (steps : List (Fin m × ℕ)) (s : St m K), ∃ st, steps.foldlM (svcStep kern Y C eps tol) s = some st := by
      intro steps
      induction steps with
      | nil => intro s; exact ⟨s, rfl⟩
      | cons a l ih =>
        intro s
        have : ∃ t, svcStep kern Y C eps tol s a = some t := by
          rw [svcStep]
          split
          · obtain ⟨j, e, -⟩ := partner_spec hm a.1 a.2
            exact ⟨_, by rw [e, Option.map_some]⟩
          · exact ⟨s, rfl⟩
        obtain ⟨t, e⟩ := this
        obtain ⟨st, e2⟩ := ih t
        exact ⟨st, by rw [List.foldlM_cons, e]; exact e2⟩
    exact key steps _

/-- **C37**: the multipliers with which training ends are in the box and balanced. -/
theorem C37_train (kern : Fin m → Fin m → K) (Y : Fin m → K) (hY : ∀ i, Y i = 1 ∨ Y i = -1) {C : K} (hC : 0 ≤ C) (eps tol : K) (maxPasses : ℕ)
    (draws : ℕ → Fin m → ℕ) (fuel : ℕ) (st : St m K) (h : loop (svcStep kern Y C eps tol) maxPasses draws fuel 0 0 (start m K) = .done st) :
    (∀ i, 0 ≤ st.α i ∧ st.α i ≤ C) ∧ ∑ i, st.α i * Y i = 0 := by
  have := loop_inv (fun α _ => SvcFeasible Y C α) (fun s ir s' h1 h2 => svcStep_feasible hY h2 h1) fuel 0 0 _ st (start_svc Y hC) h
  exact ⟨this.box, this.balance⟩

example : (match loop (svcStep (K := ℚ) (fun i j => if i = j then 2 else 0) ![1, -1] 1 (1 / 10) (1 / 1000)) 3 (fun _ _ => 0) 5 0 0 (start 2 ℚ) with
    | .done st => decide (st.α 0 = 1 / 2 ∧ st.α 1 = 1 / 2 ∧ st.b = 0)
    | _ => false) = true := by decide +kernel

/-- **C81**: from feasible multipliers, a training step of sample `i` either leaves all multipliers and the offset as they are, or changes exactly two multipliers, strictly
increases the dual objective, and puts sample `i` exactly on its margin if its new multiplier is strictly inside the box (else sample `j`, if that one is). -/
theorem C81_step (kern : Fin m → Fin m → K) (hsym : ∀ i j, kern i j = kern j i) (Y : Fin m → K) (hY : ∀ i, Y i = 1 ∨ Y i = -1) {C tol : K} (htol : 0 < tol) (eps : K)
    (st st' : St m K) (hf : SvcFeasible Y C st.α) (i : Fin m) (r : ℕ) (h : svcStep kern Y C eps tol st (i, r) = some st') :
    (st'.α = st.α ∧ st'.b = st.b) ∨
    ∃ j, j ≠ i ∧ st'.α j ≠ st.α j ∧ (∀ k, k ≠ i → k ≠ j → st'.α k = st.α k) ∧ svcDual kern Y st.α < svcDual kern Y st'.α ∧
      (0 < st'.α i ∧ st'.α i < C → svcValue kern Y st'.α st'.b i = Y i) ∧
      (¬ (0 < st'.α i ∧ st'.α i < C) → 0 < st'.α j ∧ st'.α j < C → svcValue kern Y st'.α st'.b j = Y j) := by
  have hck : ck kern = kern := by funext a b; exact ck_eq hsym a b
  have hval : ∀ l, f kern Y st' l = svcValue kern Y st'.α st'.b l := by
    intro l
    rw [f, svcValue, hck, add_comm]
  rcases svcStep_cases kern Y C eps tol st st' (i, r) h with ⟨e1, e2, -⟩ | ⟨j, hj, g⟩
  · exact Or.inl ⟨e1, e2⟩
  · right
    refine ⟨j, hj, ?_, ?_, ?_, ?_, ?_⟩
    · have := g.tol_le
      intro he
      rw [he] at this
      linarith
    · intro k h1 h2
      have := congrFun g.α k
      rw [Function.update_of_ne h1, Function.update_of_ne h2] at this
      exact this
    · have hd := g.dual hj hY htol hf
      have he := g.eta
      rw [hck] at hd
      have : 0 < tol ^ 2 * (-(2 * ck kern i j - ck kern i i - ck kern j j)) / 2 := by
        have : 0 < -(2 * ck kern i j - ck kern i i - ck kern j j) := by linarith
        positivity
      rw [hck] at this
      linarith
    · intro hi
      rw [← hval]
      exact (g.margin hj).1 hi
    · intro hi hj'
      rw [← hval]
      exact (g.margin hj).2 hi hj'

example : (match svcStep (K := ℚ) (fun i j => if i = j then 2 else 0) ![1, -1] 1 (1 / 10) (1 / 1000) (start 2 ℚ) (0, 0) with
    | some st => decide (st.α 0 = 1 / 2 ∧ st.α 1 = 1 / 2)
    | none => false) = true := by decide +kernel

/-! ### Termination -/

theorem pos_min {ι : Type} [Fintype ι] (g : ι → K) : ∃ c, 0 < c ∧ ∀ x, 0 < g x → c ≤ g x := by
  have key : ∀ s : Finset ι, ∃ c, 0 < c ∧ ∀ x ∈ s, 0 < g x → c ≤ g x := by
    intro s
    classical
    induction s using Finset.induction_on with
    | empty => exact ⟨1, one_pos, by simp⟩
    | insert a s _ ih =>
      obtain ⟨c, hc, h⟩ := ih
      by_cases ha : 0 < g a
      · refine ⟨min c (g a), lt_min hc ha, ?_⟩
        intro x hx hp
        rcases Finset.mem_insert.1 hx with rfl | hx
        · exact min_le_right _ _
        · exact (min_le_left _ _).trans (h x hx hp)
      · refine ⟨c, hc, ?_⟩
        intro x hx hp
        rcases Finset.mem_insert.1 hx with rfl | hx
        · exact absurd hp ha
        · exact h x hx hp
  obtain ⟨c, hc, h⟩ := key Finset.univ
  exact ⟨c, hc, fun x hp => h x (Finset.mem_univ _) hp⟩

theorem dual_le {Y : Fin m → K} (hY : ∀ i, Y i = 1 ∨ Y i = -1) {C : K} (k : Fin m → Fin m → K) (α : Fin m → K) (hf : SvcFeasible Y C α) :
    svcDual k Y α ≤ ∑ _i : Fin m, C + (∑ i, ∑ j, C * C * |k i j|) / 2 := by
  rw [svcDual]
  have h1 : ∑ i, α i ≤ ∑ _i : Fin m, C := Finset.sum_le_sum (fun i _ => (hf.box i).2)
  have h2 : -(∑ i, ∑ j, α i * Y i * (α j * Y j) * k i j) ≤ ∑ i, ∑ j, C * C * |k i j| := by
    rw [← Finset.sum_neg_distrib]
    apply Finset.sum_le_sum
    intro i _
    rw [← Finset.sum_neg_distrib]
    apply Finset.sum_le_sum
    intro j _
    have hi := hf.box i
    have hj := hf.box j
    have hC : 0 ≤ C := hi.1.trans hi.2
    calc -(α i * Y i * (α j * Y j) * k i j) ≤ |α i * Y i * (α j * Y j) * k i j| := neg_le_abs _
      _ = α i * α j * |k i j| := by
        rw [abs_mul, abs_mul, abs_mul, abs_mul, abs_of_nonneg hi.1, abs_of_nonneg hj.1]
        have a1 : |Y i| = 1 := by rcases hY i with g | g <;> rw [g] <;> simp
        have a2 : |Y j| = 1 := by rcases hY j with g | g <;> rw [g] <;> simp
        rw [a1, a2]
        ring
      _ ≤ C * C * |k i j| := mul_le_mul_of_nonneg_right (mul_le_mul hi.2 hj.2 hj.1 hC) (abs_nonneg _)
  linarith

/-- **C82**: training ends.  For two or more samples, labels ±1, `C ≥ 0`, a positive tolerance and any kernel, whatever the random numbers, there is a number of rounds within
which the training loop stops (without panic). -/
theorem C82_terminates [Archimedean K] (hm : 2 ≤ m) (kern : Fin m → Fin m → K) (Y : Fin m → K) (hY : ∀ i, Y i = 1 ∨ Y i = -1) {C : K} (hC : 0 ≤ C) (eps : K) {tol : K}
    (htol : 0 < tol) (maxPasses : ℕ) (draws : ℕ → Fin m → ℕ) :
    ∃ fuel st, loop (svcStep kern Y C eps tol) maxPasses draws fuel 0 0 (start m K) = .done st := by
  obtain ⟨c, hc, hmin⟩ := pos_min (fun p : Fin m × Fin m => tol ^ 2 * (-(2 * ck kern p.1 p.2 - ck kern p.1 p.1 - ck kern p.2 p.2)) / 2)
  set W := svcDual (ck kern) Y with hW
  set B := ∑ _i : Fin m, C + (∑ i, ∑ j, C * C * |ck kern i j|) / 2 with hB
  -- one pass
  have pass : ∀ (l : List (Fin m × ℕ)) (s : St m K), SvcFeasible Y C s.α →
      ∃ s', l.foldlM (svcStep kern Y C eps tol) s = some s' ∧ SvcFeasible Y C s'.α ∧
        ((s'.changed = s.changed ∧ W s'.α = W s.α) ∨ (s.changed < s'.changed ∧ W s.α + c ≤ W s'.α)) := by
    intro l
    induction l with
    | nil => intro s hs; exact ⟨s, rfl, hs, Or.inl ⟨rfl, rfl⟩⟩
    | cons a l ih =>
      intro s hs
      have : ∃ t, svcStep kern Y C eps tol s a = some t := by
        rw [svcStep]
        split
        · obtain ⟨j, e, -⟩ := partner_spec hm a.1 a.2
          exact ⟨_, by rw [e, Option.map_some]⟩
        · exact ⟨s, rfl⟩
      obtain ⟨t, e⟩ := this
      have ht := svcStep_feasible hY e hs
      obtain ⟨s', e2, hs', hprog⟩ := ih t ht
      refine ⟨s', by rw [List.foldlM_cons, e]; exact e2, hs', ?_⟩
      rcases svcStep_cases kern Y C eps tol s t a e with ⟨e1, -, e3⟩ | ⟨j, hj, g⟩
      · rw [e1, e3] at hprog
        exact hprog
      · right
        have hd := g.dual hj hY htol hs
        have hlow := hmin (a.1, j) (by
          have := g.eta
          have : 0 < -(2 * ck kern a.1 j - ck kern a.1 a.1 - ck kern j j) := by linarith
          simp only
          positivity)
        have hch := g.changed
        simp only at hlow
        rcases hprog with ⟨p1, p2⟩ | ⟨p1, p2⟩
        · exact ⟨by omega, by linarith⟩
        · exact ⟨by omega, by linarith⟩
  have hbound : ∀ α, SvcFeasible Y C α → W α ≤ B := fun α h => dual_le hY (ck kern) α h
  -- at most n more improving passes
  have key : ∀ (n k : ℕ) (s : St m K) (t passes : ℕ), SvcFeasible Y C s.α → B - W s.α < n * c → maxPasses - passes ≤ k →
      ∃ fuel st, loop (svcStep kern Y C eps tol) maxPasses draws fuel t passes s = .done st := by
    intro n
    induction n with
    | zero =>
      intro k s t passes hs hlt _
      have := hbound _ hs
      simp at hlt
      linarith
    | succ n ihn =>
      intro k
      induction k with
      | zero =>
        intro s t passes _ _ hp
        exact ⟨1, s, by rw [loop, if_pos (by omega)]⟩
      | succ k ihk =>
        intro s t passes hs hlt hp
        by_cases hpm : maxPasses ≤ passes
        · exact ⟨1, s, by rw [loop, if_pos hpm]⟩
        · obtain ⟨s', e, hs', hprog⟩ := pass ((List.finRange m).map (fun i => (i, draws t i))) { s with viol := false, changed := 0 } hs
          rw [List.foldlM_map] at e
          by_cases hv : s'.viol = true
          · rcases hprog with ⟨p1, p2⟩ | ⟨p1, p2⟩
            · simp only at p1 p2
              obtain ⟨fuel, st, h⟩ := ihk s' (t + 1) (passes + 1) hs' (by rw [p2]; exact hlt) (by omega)
              refine ⟨fuel + 1, st, ?_⟩
              rw [loop, if_neg hpm]
              simp only [e, hv, Bool.not_true, Bool.false_eq_true, if_false, p1, if_true]
              exact h
            · simp only at p1 p2
              obtain ⟨fuel, st, h⟩ := ihn maxPasses s' (t + 1) 0 hs' (by push_cast at hlt; linarith) (by omega)
              refine ⟨fuel + 1, st, ?_⟩
              rw [loop, if_neg hpm]
              simp only [e, hv, Bool.not_true, Bool.false_eq_true, if_false]
              rw [if_neg (by omega)]
              exact h
          · refine ⟨1, s', ?_⟩
            rw [loop, if_neg hpm]
            simp only [e, hv, Bool.not_false, if_true]
  obtain ⟨n, hn⟩ := exists_nat_gt ((B - W (start m K).α) / c)
  exact key n maxPasses (start m K) 0 0 (start_svc Y hC) ((div_lt_iff₀ hc).1 hn) (by omega)

/-! ### The model -/

/-- **C83** violated: when all labels are equal, training leaves all multipliers at zero, and building the model panics: no single-class data set can be fitted. -/
theorem C83_single_class_violated [Archimedean K] (kern : Fin m → Fin m → K) (Y : Fin m → K) (y : K) (hy : y = 1 ∨ y = -1) (hYc : ∀ i, Y i = y) {C : K} (hC : 0 ≤ C) (eps : K)
    {tol : K} (htol : 0 < tol) (maxPasses : ℕ) (draws : ℕ → Fin m → ℕ) :
    (2 ≤ m → ∃ fuel st, loop (svcStep kern Y C eps tol) maxPasses draws fuel 0 0 (start m K) = .done st) ∧
    ∀ fuel st, loop (svcStep kern Y C eps tol) maxPasses draws fuel 0 0 (start m K) = .done st → svcModel Y tol st = none := by
  refine ⟨fun hm => C82_terminates hm kern Y (fun i => (hYc i).symm ▸ hy) hC eps htol maxPasses draws, ?_⟩
  intro fuel st h
  have hz : ∀ i, st.α i = 0 := by
    refine loop_inv (fun α _ => ∀ i, α i = 0) ?_ fuel 0 0 _ st (fun _ => rfl) h
    intro s ir s' hs e
    rw [svcStep] at e
    split at e
    · obtain ⟨j, hj, e2⟩ := Option.map_eq_some_iff.1 e
      rw [svcUpdate] at e2
      simp only at e2
      rw [if_pos (by rw [hYc, hYc, if_pos rfl, if_pos rfl, hs, hs, add_zero, zero_sub, max_eq_left (by linarith), min_eq_right hC])] at e2
      rw [← e2]
      exact hs
    · rw [← Option.some.inj e]
      exact hs
  rw [svcModel]
  rw [if_pos]
  rw [List.isEmpty_iff, List.filter_eq_nil_iff]
  intro i _
  rw [hz i]
  simpa using htol.le

/-- **C83**: when some multiplier exceeds the tolerance, a model is built, and it predicts 1 exactly when the decision value restricted to these samples is nonnegative.

Partial: the English claim is that fitting always gives a model; see `C83_single_class_violated`. -/
theorem C83_model_partial (Y : Fin m → K) (tol : K) (st : St m K) (h : ∃ i, tol < st.α i) :
    ∃ M, svcModel Y tol st = some M ∧ ∀ k : Fin m → K,
      svcPredict M k = if 0 ≤ ∑ i, (if tol < st.α i then st.α i * Y i * k i else 0) + st.b then 1 else 0 := by
  obtain ⟨i, hi⟩ := h
  refine ⟨⟨st.b, ((List.finRange m).filter (fun i => decide (tol < st.α i))).map (fun i => (i, Y i, st.α i))⟩, ?_, ?_⟩
  · rw [svcModel]
    rw [if_neg]
    rw [List.isEmpty_iff, List.filter_eq_nil_iff]
    intro hc
    exact hc i (List.mem_finRange i) (by simpa using hi)
  · intro k
    rw [svcPredict]
    have : ((((List.finRange m).filter (fun i => decide (tol < st.α i))).map (fun i => (i, Y i, st.α i))).map (fun e => e.2.2 * e.2.1 * k e.1)).sum =
        ∑ i, (if tol < st.α i then st.α i * Y i * k i else 0) := by
      rw [List.map_map, ← List.sum_ofFn, List.ofFn_eq_map]
      generalize List.finRange m = l
      induction l with
      | nil => rfl
      | cons a l ih =>
        by_cases ha : tol < st.α a
        · rw [List.filter_cons_of_pos (by simpa using ha), List.map_cons, List.sum_cons, ih, List.map_cons, List.sum_cons, if_pos ha]
          simp only [Function.comp]
        · rw [List.filter_cons_of_neg (by simpa using ha), ih, List.map_cons, List.sum_cons, if_neg ha, zero_add]
    rw [this]

example : svcPredict (K := ℚ) (m := 2) ⟨1 / 2, [(0, 1, 1), (1, -1, 1)]⟩ ![1, 2] = 0 := by decide +kernel

/-- **C84** violated: predictions are 0 or 1.  So for labels ±1, those the classifier must be fitted with, every sample labelled -1 counts as wrong: on any labelled samples the
score is at most the share of the samples labelled 1. -/
theorem C84_score_violated (M : Model m K) (S : List (K × (Fin m → K))) (hS : S ≠ []) (hl : ∀ s ∈ S, s.1 = 1 ∨ s.1 = -1) :
    ∃ a, Metrics.accuracy (K := K) (S.map (fun s => [s.1])) (S.map (fun s => [svcPredict M s.2])) true none = some a ∧
      a ≤ ((S.filter (fun s => decide (s.1 = 1))).length : K) / (S.length : K) := by
  have hones := (Metrics.C26_accuracy_order (L := K) (K := K) [] [] (by simp) (List.Perm.refl _) true).2
  rw [hones, List.length_map]
  have hlen : (0 : K) < (S.length : K) := by
    exact_mod_cast List.length_pos_of_ne_nil hS
  obtain ⟨-, a, e, ha, -, -, -⟩ := Metrics.C26_accuracy (L := K) (K := K) (S.map (fun s => ([s.1], [svcPredict M s.2], (1 : K))))
    (by rintro t ht; obtain ⟨s, -, rfl⟩ := List.mem_map.1 ht; rfl) (by rintro t ht; obtain ⟨s, -, rfl⟩ := List.mem_map.1 ht; exact zero_le_one)
    (by rw [List.map_map]; simpa [Function.comp_def] using hlen)
  simp only [List.map_map, Function.comp_def] at e ha
  rw [List.map_const'] at e
  refine ⟨a, e, ?_⟩
  rw [ha]
  have hn : (S.map (fun _ => (1 : K))).sum = (S.length : K) := by simp
  rw [hn]
  apply div_le_div_of_nonneg_right _ hlen.le
  rw [wsum, List.map_map]
  clear e ha hlen hn hS
  induction S with
  | nil => simp
  | cons s S ih =>
    rw [List.forall_mem_cons] at hl
    have ih := ih hl.2
    rw [List.map_cons, List.sum_cons]
    simp only [Function.comp]
    rcases hl.1 with h | h
    · rw [List.filter_cons_of_pos (by simpa using h), List.length_cons]
      push_cast
      have : (if [s.1] = [svcPredict M s.2] then (1 : K) else 0) ≤ 1 := by split <;> simp
      linarith
    · rw [List.filter_cons_of_neg (by rw [h]; simp; norm_num), if_neg, zero_add]
      · exact ih
      · rw [h, svcPredict]
        split <;> simp <;> norm_num

/-- **C84**: for labels coded 0 and 1, the score is the share of samples whose label is 1 exactly when the decision value is nonnegative.

Partial: the English claim is for the labels used in `Fit`; see `C84_score_violated`. -/
theorem C84_score_partial (M : Model m K) (S : List (K × (Fin m → K))) (hS : S ≠ []) (hl : ∀ s ∈ S, s.1 = 1 ∨ s.1 = 0) :
    Metrics.accuracy (K := K) (S.map (fun s => [s.1])) (S.map (fun s => [svcPredict M s.2])) true none =
      some (((S.filter (fun s => decide (s.1 = 1 ↔ 0 ≤ (M.support.map (fun e => e.2.2 * e.2.1 * s.2 e.1)).sum + M.b))).length : K) / (S.length : K)) := by
  have hones := (Metrics.C26_accuracy_order (L := K) (K := K) [] [] (by simp) (List.Perm.refl _) true).2
  rw [hones, List.length_map]
  have hlen : (0 : K) < (S.length : K) := by
    exact_mod_cast List.length_pos_of_ne_nil hS
  obtain ⟨-, a, e, ha, -, -, -⟩ := Metrics.C26_accuracy (L := K) (K := K) (S.map (fun s => ([s.1], [svcPredict M s.2], (1 : K))))
    (by rintro t ht; obtain ⟨s, -, rfl⟩ := List.mem_map.1 ht; rfl) (by rintro t ht; obtain ⟨s, -, rfl⟩ := List.mem_map.1 ht; exact zero_le_one)
    (by rw [List.map_map]; simpa [Function.comp_def] using hlen)
  simp only [List.map_map, Function.comp_def] at e ha
  rw [List.map_const'] at e
  rw [e, ha]
  have hn : (S.map (fun _ => (1 : K))).sum = (S.length : K) := by simp
  rw [hn]
  congr 2
  rw [wsum, List.map_map]
  clear e ha hlen hn hS
  induction S with
  | nil => simp
  | cons s S ih =>
    rw [List.forall_mem_cons] at hl
    have ih := ih hl.2
    rw [List.map_cons, List.sum_cons, ih]
    simp only [Function.comp]
    have key : ([s.1] = [svcPredict M s.2]) ↔ (s.1 = 1 ↔ 0 ≤ (M.support.map (fun e => e.2.2 * e.2.1 * s.2 e.1)).sum + M.b) := by
      rw [svcPredict]
      rcases hl.1 with h | h
      · rw [h]
        split <;> simp_all
      · rw [h]
        split <;> simp_all
    by_cases hk : s.1 = 1 ↔ 0 ≤ (M.support.map (fun e => e.2.2 * e.2.1 * s.2 e.1)).sum + M.b
    · rw [if_pos (key.2 hk), List.filter_cons_of_pos (by simpa using hk), List.length_cons]
      push_cast
      ring
    · rw [if_neg (fun h => hk (key.1 h)), List.filter_cons_of_neg (by simpa using hk), zero_add]

example : Metrics.accuracy (K := ℚ) [[(1 : ℚ)], [-1]] ([![1, 0], ![0, 1]].map (fun k => [svcPredict (K := ℚ) (m := 2) ⟨0, [(0, 1, 1), (1, -1, 1)]⟩ k])) true none =
    some (1 / 2) := by decide +kernel

end Sk.Svm
