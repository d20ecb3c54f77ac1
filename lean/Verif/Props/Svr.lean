import Verif.Lemmas.Svm

/-! # C38, C85: training a support vector regressor -/
set_option autoImplicit false

namespace Sk.Svm

variable {K : Type} [Field K] [LinearOrder K] [IsStrictOrderedRing K] {m : ℕ}

theorem svrPartner_ne (E : Fin m → K) (eps : K) {i j : Fin m} (h : j ≠ i) : svrPartner E eps i j ≠ i := by
  rw [svrPartner]
  generalize hf : ((List.finRange m).map (fun k => j + k)).find? (fun j3 => decide (j3 ≠ i ∧ (E j3 < -eps ∨ eps < E j))) = o
  cases o with
  | none => exact h
  | some v =>
    have := List.find?_some hf
    simp only [decide_eq_true_eq] at this
    exact this.1

/-- What an accepted joint update of the regressor does; `a` is the new multiplier of `j`. -/
structure SvrMove (kern : Fin m → Fin m → K) (Y : Fin m → K) (C tol : K) (st st' : St m K) (i j : Fin m) (a : K) : Prop where
  α : st'.α = Function.update (Function.update st.α j a) i (st.α i + st.α j - a)
  low : max (st.α i + st.α j - C) (-C) ≤ a ∨ ¬ max (st.α i + st.α j - C) (-C) ≤ min C (C + (st.α i + st.α j))
  high : a ≤ min C (C + (st.α i + st.α j))
  b : st'.b = st.b - ((fr kern st i - Y i + (st.α i + st.α j - a - st.α i) * ck kern i i + (a - st.α j) * ck kern i j) +
    (fr kern st j - Y j + (st.α i + st.α j - a - st.α i) * ck kern i j + (a - st.α j) * ck kern j j)) / 2
  tol_le : tol ≤ |a - st.α j|
  dec : |fr kern st i - Y i + (st.α i + st.α j - a - st.α i) * ck kern i i + (a - st.α j) * ck kern i j + (st'.b - st.b)| +
    |fr kern st j - Y j + (st.α i + st.α j - a - st.α i) * ck kern i j + (a - st.α j) * ck kern j j + (st'.b - st.b)| < |fr kern st i - Y i| + |fr kern st j - Y j|

theorem svrUpdate_cases (kern : Fin m → Fin m → K) (Y : Fin m → K) (C eps tol : K) (st : St m K) (i j : Fin m) :
    svrUpdate kern Y C eps tol st i j = st ∨ ∃ a, SvrMove kern Y C tol st (svrUpdate kern Y C eps tol st i j) i j a := by
  rw [svrUpdate]
  simp only
  generalize svrRaw eps (2 * ck kern i j - ck kern i i - ck kern j j) (fr kern st i - Y i) (fr kern st j - Y j) (st.α j) (st.α i + st.α j)
    (max (st.α i + st.α j - C) (-C)) (min C (C + (st.α i + st.α j))) = o
  cases o with
  | none => exact Or.inl rfl
  | some raw =>
    simp only
    split
    · exact Or.inl rfl
    · rename_i h
      right
      push Not at h
      refine ⟨min (min C (C + (st.α i + st.α j))) (max (max (st.α i + st.α j - C) (-C)) raw), rfl, ?_, min_le_left _ _, ?_, h.1, ?_⟩
      · by_cases hLH : max (st.α i + st.α j - C) (-C) ≤ min C (C + (st.α i + st.α j))
        · exact Or.inl (le_min hLH (le_max_left _ _))
        · exact Or.inr hLH
      · simp only
        ring
      · simp only [add_sub_cancel_left]
        exact h.2

theorem svrStep_cases (kern : Fin m → Fin m → K) (Y : Fin m → K) (C eps tol : K) (st st' : St m K) (ir : Fin m × ℕ) (h : svrStep kern Y C eps tol st ir = some st') :
    (st'.α = st.α ∧ st'.b = st.b) ∨ ∃ j a, j ≠ ir.1 ∧ SvrMove kern Y C tol st st' ir.1 j a := by
  rw [svrStep] at h
  simp only at h
  split at h
  · obtain ⟨j, hj, e⟩ := Option.map_eq_some_iff.1 h
    have hne := svrPartner_ne (fun i => fr kern st i - Y i) eps (partner_ne hj)
    rcases svrUpdate_cases kern Y C eps tol { st with viol := true } ir.1 (svrPartner (fun i => fr kern st i - Y i) eps ir.1 j) with g | ⟨a, g⟩
    · left
      rw [g] at e
      rw [← e]
      exact ⟨rfl, rfl⟩
    · right
      rw [e] at g
      exact ⟨_, a, hne, g.α, g.low, g.high, g.b, g.tol_le, g.dec⟩
  · left
    rw [← Option.some.inj h]
    exact ⟨rfl, rfl⟩

theorem svrStep_feasible {kern : Fin m → Fin m → K} {Y : Fin m → K} {C eps tol : K} {st st' : St m K} {ir : Fin m × ℕ}
    (h : svrStep kern Y C eps tol st ir = some st') (hf : SvrFeasible C st.α) : SvrFeasible C st'.α := by
  rcases svrStep_cases kern Y C eps tol st st' ir h with ⟨e, -⟩ | ⟨j, a, hj, g⟩
  · rw [e]; exact hf
  · have hi := hf.box ir.1
    have hjb := hf.box j
    have hLH : max (st.α ir.1 + st.α j - C) (-C) ≤ min C (C + (st.α ir.1 + st.α j)) :=
      max_le (le_min (by linarith) (by linarith)) (le_min (by linarith) (by linarith))
    have l1 := max_le_iff.1 (g.low.resolve_right (fun h => h hLH))
    have l2 := le_min_iff.1 g.high
    refine ⟨?_, ?_⟩
    · intro k
      rw [g.α]
      by_cases h1 : k = ir.1
      · rw [h1, Function.update_self]
        exact ⟨by linarith [l2.2], by linarith [l1.1]⟩
      · rw [Function.update_of_ne h1]
        by_cases h2 : k = j
        · rw [h2, Function.update_self]
          exact ⟨l1.2, l2.1⟩
        · rw [Function.update_of_ne h2]
          exact hf.box k
    · rw [g.α, sum_update₂ (fun _ a => a) st.α hj, hf.balance]
      ring

theorem start_svr {C : K} (hC : 0 ≤ C) : SvrFeasible C (start m K).α := ⟨fun _ => ⟨by simpa [start] using hC, hC⟩, by simp [start]⟩

/-- **C38**: starting from zero multipliers, after any sequence of (sample, raw random number) steps all multipliers are in `[-C, C]` and sum to zero; with two or more samples no
step panics. -/
theorem C38_steps (kern : Fin m → Fin m → K) (Y : Fin m → K) {C : K} (hC : 0 ≤ C) (eps tol : K) (steps : List (Fin m × ℕ)) :
    (∀ st, steps.foldlM (svrStep kern Y C eps tol) (start m K) = some st → (∀ i, -C ≤ st.α i ∧ st.α i ≤ C) ∧ ∑ i, st.α i = 0) ∧
    (2 ≤ m → ∃ st, steps.foldlM (svrStep kern Y C eps tol) (start m K) = some st) := by
  constructor
  · intro st h
    have := foldlM_inv (fun s : St m K => SvrFeasible C s.α) _ (fun s a s' h1 h2 => svrStep_feasible h2 h1) steps _ st (start_svr hC) h
    exact ⟨this.box, this.balance⟩
  · intro hm
    have key : ∀ (steps : List (Fin m × ℕ)) (s : St m K), ∃ st, steps.foldlM (svrStep kern Y C eps tol) s = some st := by
      intro steps
      induction steps with
      | nil => intro s; exact ⟨s, rfl⟩
      | cons a l ih =>
        intro s
        have : ∃ t, svrStep kern Y C eps tol s a = some t := by
          rw [svrStep]
          simp only
          split
          · obtain ⟨j, e, -⟩ := partner_spec hm a.1 a.2
            exact ⟨_, by rw [e, Option.map_some]⟩
          · exact ⟨s, rfl⟩
        obtain ⟨t, e⟩ := this
        obtain ⟨st, e2⟩ := ih t
        exact ⟨st, by rw [List.foldlM_cons, e]; exact e2⟩
    exact key steps _

/-- **C38**: the multipliers with which training ends are in `[-C, C]` and sum to zero. -/
theorem C38_train (kern : Fin m → Fin m → K) (Y : Fin m → K) {C : K} (hC : 0 ≤ C) (eps tol : K) (maxPasses : ℕ)
    (draws : ℕ → Fin m → ℕ) (fuel : ℕ) (st : St m K) (h : loop (svrStep kern Y C eps tol) maxPasses draws fuel 0 0 (start m K) = .done st) :
    (∀ i, -C ≤ st.α i ∧ st.α i ≤ C) ∧ ∑ i, st.α i = 0 := by
  have := loop_inv (fun α _ => SvrFeasible C α) (fun s ir s' h1 h2 => svrStep_feasible h2 h1) fuel 0 0 _ st (start_svr hC) h
  exact ⟨this.box, this.balance⟩

example : (match svrStep (K := ℚ) (fun i j => if i = j then 1 else 0) ![3, -1] 10 (1 / 10) (1 / 1000) (start 2 ℚ) (0, 0) with
    | some st => decide (st.α 0 = 19 / 10 ∧ st.α 1 = -19 / 10 ∧ st.b = 1)
    | none => false) = true := by decide +kernel

/-- **C85**: a training step of sample `i` either leaves multipliers and offset as they are, or changes only the multipliers of `i` and one other sample `j` so that the true
residuals of the two samples under the new model are opposite, and their absolute sum is strictly smaller than before. -/
theorem C85_step (kern : Fin m → Fin m → K) (hsym : ∀ i j, kern i j = kern j i) (Y : Fin m → K) (C eps tol : K) (st st' : St m K) (i : Fin m) (r : ℕ)
    (h : svrStep kern Y C eps tol st (i, r) = some st') :
    (st'.α = st.α ∧ st'.b = st.b) ∨
    ∃ j, j ≠ i ∧ (∀ k, k ≠ i → k ≠ j → st'.α k = st.α k) ∧
      (∑ k, st'.α k * kern k i + st'.b - Y i) + (∑ k, st'.α k * kern k j + st'.b - Y j) = 0 ∧
      |∑ k, st'.α k * kern k i + st'.b - Y i| + |∑ k, st'.α k * kern k j + st'.b - Y j| <
        |∑ k, st.α k * kern k i + st.b - Y i| + |∑ k, st.α k * kern k j + st.b - Y j| := by
  have hck : ck kern = kern := by funext a b; exact ck_eq hsym a b
  rcases svrStep_cases kern Y C eps tol st st' (i, r) h with ⟨e1, e2⟩ | ⟨j, a, hj, g⟩
  · exact Or.inl ⟨e1, e2⟩
  · right
    have hj : j ≠ i := hj
    have hfr : ∀ (s : St m K) l, ∑ k, s.α k * kern k l + s.b = fr kern s l := by
      intro s l
      rw [fr, hck, add_comm]
    have hnew : ∀ l, ∑ k, st'.α k * kern k l + st'.b = fr kern st l + (st.α i + st.α j - a - st.α i) * kern i l + (a - st.α j) * kern j l + (st'.b - st.b) := by
      intro l
      rw [← hfr, g.α, sum_update₂ (fun k v => v * kern k l) st.α hj]
      ring
    have ei : ∑ k, st'.α k * kern k i + st'.b - Y i =
        fr kern st i - Y i + (st.α i + st.α j - a - st.α i) * kern i i + (a - st.α j) * kern i j + (st'.b - st.b) := by
      rw [hnew, hsym j i]
      ring
    have ej : ∑ k, st'.α k * kern k j + st'.b - Y j =
        fr kern st j - Y j + (st.α i + st.α j - a - st.α i) * kern i j + (a - st.α j) * kern j j + (st'.b - st.b) := by
      rw [hnew]
      ring
    have hb := g.b
    have hdec := g.dec
    simp only [hck] at hb hdec
    refine ⟨j, hj, ?_, ?_, ?_⟩
    · intro k h1 h2
      have := congrFun g.α k
      rw [Function.update_of_ne h1, Function.update_of_ne h2] at this
      exact this
    · rw [ei, ej, hb]
      ring
    · rw [ei, ej, hfr, hfr]
      exact hdec

/-- The fitted regressor predicts the offset plus the contributions of the samples whose multiplier exceeds the tolerance in absolute value; without such samples building the model
panics. -/
theorem C85_model (tol : K) (st : St m K) :
    ((∀ i, |st.α i| ≤ tol) → svrModel tol st = none) ∧
    ((∃ i, tol < |st.α i|) → ∃ M, svrModel tol st = some M ∧ ∀ k : Fin m → K, svrPredict M k = st.b + ∑ i, (if tol < |st.α i| then st.α i * k i else 0)) := by
  constructor
  · intro h
    rw [svrModel, if_pos]
    rw [List.isEmpty_iff, List.filter_eq_nil_iff]
    intro i _
    simpa using h i
  · rintro ⟨i, hi⟩
    refine ⟨⟨st.b, ((List.finRange m).filter (fun i => decide (tol < |st.α i|))).map (fun i => (i, 1, st.α i))⟩, ?_, ?_⟩
    · rw [svrModel, if_neg]
      rw [List.isEmpty_iff, List.filter_eq_nil_iff]
      intro hc
      exact hc i (List.mem_finRange i) (by simpa using hi)
    · intro k
      rw [svrPredict]
      congr 1
      rw [List.map_map, ← List.sum_ofFn, List.ofFn_eq_map]
      generalize List.finRange m = l
      induction l with
      | nil => rfl
      | cons a l ih =>
        by_cases ha : tol < |st.α a|
        · rw [List.filter_cons_of_pos (by simpa using ha), List.map_cons, List.sum_cons, ih, List.map_cons, List.sum_cons, if_pos ha]
          simp only [Function.comp]
        · rw [List.filter_cons_of_neg (by simpa using ha), ih, List.map_cons, List.sum_cons, if_neg ha, zero_add]

end Sk.Svm
