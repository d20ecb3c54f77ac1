import Verif.Model.Linear
import Mathlib.Algebra.BigOperators.Field
import Mathlib.Algebra.Order.BigOperators.Group.Finset
import Mathlib.Tactic.FieldSimp
import Mathlib.Tactic.Linarith
import Mathlib.Tactic.Positivity
import Mathlib.Tactic.LinearCombination

/-! # C48, C50, C92: intercept recombination, mini-batches and best epoch of the linear models -/
set_option autoImplicit false

namespace Sk.Lin

/-! ### Specification -/

/-- Mean of a column. -/
noncomputable def colMean {n : ℕ} (v : Fin n → ℝ) : ℝ := (∑ i, v i) / n

/-- The column is not constant. -/
def Varies {n : ℕ} (v : Fin n → ℝ) : Prop := ∃ i k, v i ≠ v k

/-- Euclidean length of the centred column. -/
noncomputable def spread {n : ℕ} (v : Fin n → ℝ) : ℝ := Real.sqrt (∑ i, (v i - colMean v) ^ 2)

theorem spread_pos {n : ℕ} (v : Fin n → ℝ) (h : Varies v) : 0 < spread v := by
  apply Real.sqrt_pos.2
  obtain ⟨i, k, hik⟩ := h
  have hne : v i - colMean v ≠ 0 ∨ v k - colMean v ≠ 0 := by
    by_contra hh
    push Not at hh
    apply hik
    linarith [hh.1, hh.2]
  rcases hne with h | h
  · exact Finset.sum_pos' (fun _ _ => sq_nonneg _) ⟨i, Finset.mem_univ _, by positivity⟩
  · exact Finset.sum_pos' (fun _ _ => sq_nonneg _) ⟨k, Finset.mem_univ _, by positivity⟩

/-- Divisor applied to feature `j`. -/
noncomputable def divisor {n p : ℕ} (normalize : Bool) (X : Fin n → Fin p → ℝ) (j : Fin p) : ℝ := if normalize then spread (fun i => X i j) else 1

theorem divisor_ne {n p : ℕ} (normalize : Bool) (X : Fin n → Fin p → ℝ) (h : normalize = true → ∀ j, Varies (fun i => X i j)) (j : Fin p) : divisor normalize X j ≠ 0 := by
  unfold divisor
  split
  · exact (spread_pos _ (h (by assumption) j)).ne'
  · exact one_ne_zero

theorem preprocess_true {n p : ℕ} (normalize : Bool) (X : Fin n → Fin p → ℝ) (y : Fin n → ℝ) (h : normalize = true → ∀ j, Varies (fun i => X i j)) :
    preprocess true normalize X y = ⟨fun i j => (X i j - colMean (fun i => X i j)) / divisor normalize X j, fun i => y i - colMean y, fun j => colMean (fun i => X i j), colMean y,
      fun j => divisor normalize X j⟩ := by
  have hs : ∀ j, (if normalize = true then Real.sqrt (∑ i, (X i j - (∑ i, X i j) / n) * (X i j - (∑ i, X i j) / n)) else 1) = divisor normalize X j := by
    intro j
    simp only [divisor, spread, colMean, sq]
  simp only [preprocess, if_true, hs]
  congr 1
  funext i j
  rw [if_pos (divisor_ne normalize X h j)]
  rfl

/-- C48: whatever coefficients the solver returns for the centred and scaled data, the predictions of the model are the mean of `y` plus the solver's prediction for the
centred and scaled row. -/
theorem C48_recombination {n p : ℕ} (normalize : Bool) (solve : (Fin n → Fin p → ℝ) → (Fin n → ℝ) → Fin p → ℝ) (old : ℝ) (X : Fin n → Fin p → ℝ) (y : Fin n → ℝ)
    (h : normalize = true → ∀ j, Varies (fun i => X i j)) :
    ∃ m, fit true normalize solve old X y = some m ∧ ∀ x : Fin p → ℝ,
      decision m x = colMean y + ∑ j, (x j - colMean (fun i => X i j)) / divisor normalize X j *
        solve (fun i j => (X i j - colMean (fun i => X i j)) / divisor normalize X j) (fun i => y i - colMean y) j := by
  unfold fit
  rw [preprocess_true normalize X y h]
  have hne : ¬ ∃ j, divisor normalize X j = 0 := by
    rintro ⟨j, hj⟩
    exact divisor_ne normalize X h j hj
  simp only [setIntercept, if_neg hne, if_true]
  refine ⟨_, rfl, ?_⟩
  intro x
  simp only [decision]
  set c := solve (fun i j => (X i j - colMean (fun i => X i j)) / divisor normalize X j) (fun i => y i - colMean y)
  have : ∑ j, (x j - colMean (fun i => X i j)) / divisor normalize X j * c j = (∑ j, x j * (c j / divisor normalize X j)) - ∑ j, colMean (fun i => X i j) * (c j / divisor normalize X j) := by
    rw [← Finset.sum_sub_distrib]
    apply Finset.sum_congr rfl
    intro j _
    ring
  rw [this]
  ring

theorem sum_centred {n : ℕ} (v : Fin n → ℝ) (hn : n ≠ 0) : ∑ i, (v i - colMean v) = 0 := by
  rw [Finset.sum_sub_distrib, Finset.sum_const, Finset.card_univ, Fintype.card_fin, nsmul_eq_mul, colMean]
  have : (n : ℝ) ≠ 0 := Nat.cast_ne_zero.2 hn
  field_simp
  ring

/-- C48: if the coefficients found for the centred data satisfy the normal equations, the training residuals of the model sum to zero and are orthogonal to every feature,
and no other coefficients and intercept have a smaller sum of squared residuals. -/
theorem C48_least_squares {n p : ℕ} (normalize : Bool) (solve : (Fin n → Fin p → ℝ) → (Fin n → ℝ) → Fin p → ℝ) (old : ℝ) (X : Fin n → Fin p → ℝ) (y : Fin n → ℝ) (hn : n ≠ 0)
    (h : normalize = true → ∀ j, Varies (fun i => X i j))
    (hsolve : ∀ (A : Fin n → Fin p → ℝ) (b : Fin n → ℝ) (j : Fin p), ∑ i, A i j * (b i - ∑ k, A i k * solve A b k) = 0) :
    ∃ m, fit true normalize solve old X y = some m ∧ (∑ i, (y i - decision m (X i)) = 0) ∧ (∀ j, ∑ i, X i j * (y i - decision m (X i)) = 0) ∧
      ∀ (c : Fin p → ℝ) (b : ℝ), ∑ i, (y i - decision m (X i)) ^ 2 ≤ ∑ i, (y i - (∑ j, X i j * c j + b)) ^ 2 := by
  obtain ⟨m, hm, hd⟩ := C48_recombination normalize solve old X y h
  set A : Fin n → Fin p → ℝ := fun i j => (X i j - colMean (fun i => X i j)) / divisor normalize X j with hA
  set b : Fin n → ℝ := fun i => y i - colMean y with hb
  have hr : ∀ i, y i - decision m (X i) = b i - ∑ k, A i k * solve A b k := by
    intro i
    rw [hd (X i)]
    simp only [hA, hb]
    ring
  have hA0 : ∀ j, ∑ i, A i j = 0 := by
    intro j
    simp only [hA]
    rw [← Finset.sum_div, sum_centred _ hn, zero_div]
  have hsum : ∑ i, (y i - decision m (X i)) = 0 := by
    rw [Finset.sum_congr rfl (fun i _ => hr i), Finset.sum_sub_distrib]
    rw [show ∑ i, b i = 0 from sum_centred y hn, Finset.sum_comm]
    have : ∑ k, ∑ i, A i k * solve A b k = 0 := by
      apply Finset.sum_eq_zero
      intro k _
      rw [← Finset.sum_mul, hA0, zero_mul]
    rw [this, sub_zero]
  have horth : ∀ j, ∑ i, X i j * (y i - decision m (X i)) = 0 := by
    intro j
    have hX : ∀ i, X i j = A i j * divisor normalize X j + colMean (fun i => X i j) := by
      intro i
      simp only [hA]
      rw [div_mul_cancel₀ _ (divisor_ne normalize X h j)]
      ring
    have h1 := hsolve A b j
    have h2 : ∑ i, X i j * (y i - decision m (X i)) = divisor normalize X j * (∑ i, A i j * (b i - ∑ k, A i k * solve A b k)) +
        colMean (fun i => X i j) * ∑ i, (y i - decision m (X i)) := by
      rw [Finset.mul_sum, Finset.mul_sum, ← Finset.sum_add_distrib]
      apply Finset.sum_congr rfl
      intro i _
      rw [← hr i]
      conv_lhs => rw [hX i]
      ring
    rw [h2, h1, hsum]
    ring
  refine ⟨m, hm, hsum, horth, ?_⟩
  intro c b'
  have key : ∑ i, (y i - decision m (X i)) * (decision m (X i) - (∑ j, X i j * c j + b')) = 0 := by
    have e : ∀ i, (y i - decision m (X i)) * (decision m (X i) - (∑ j, X i j * c j + b')) =
        (∑ j, (m.coef j - c j) * (X i j * (y i - decision m (X i)))) + (m.intercept - b') * (y i - decision m (X i)) := by
      intro i
      have : ∑ j, (m.coef j - c j) * (X i j * (y i - decision m (X i))) = ((∑ j, X i j * m.coef j) - ∑ j, X i j * c j) * (y i - decision m (X i)) := by
        rw [← Finset.sum_sub_distrib, Finset.sum_mul]
        apply Finset.sum_congr rfl
        intro j _
        ring
      rw [this]
      simp only [decision]
      ring
    rw [Finset.sum_congr rfl (fun i _ => e i), Finset.sum_add_distrib, Finset.sum_comm, ← Finset.mul_sum, hsum, mul_zero, add_zero]
    apply Finset.sum_eq_zero
    intro j _
    rw [← Finset.mul_sum, horth j, mul_zero]
  have e2 : ∑ i, (y i - (∑ j, X i j * c j + b')) ^ 2 = ∑ i, (y i - decision m (X i)) ^ 2 + 2 * (∑ i, (y i - decision m (X i)) * (decision m (X i) - (∑ j, X i j * c j + b'))) +
      ∑ i, (decision m (X i) - (∑ j, X i j * c j + b')) ^ 2 := by
    rw [Finset.mul_sum, ← Finset.sum_add_distrib, ← Finset.sum_add_distrib]
    apply Finset.sum_congr rfl
    intro i _
    ring
  rw [e2, key]
  have : 0 ≤ ∑ i, (decision m (X i) - (∑ j, X i j * c j + b')) ^ 2 := Finset.sum_nonneg (fun _ _ => sq_nonneg _)
  linarith

/-- C48, violated: with `FitIntercept` and `Normalize`, a constant feature makes the coefficients undefined (division by zero: `NaN`), whatever the solver. -/
theorem C48_constant_column_violated {n p : ℕ} (solve : (Fin n → Fin p → ℝ) → (Fin n → ℝ) → Fin p → ℝ) (old : ℝ) (X : Fin n → Fin p → ℝ) (y : Fin n → ℝ) (hn : n ≠ 0)
    (j : Fin p) (c : ℝ) (hc : ∀ i, X i j = c) : fit true true solve old X y = none := by
  have hz : (preprocess true true X y).xscale j = 0 := by
    simp only [preprocess, if_true]
    have : (n : ℝ) ≠ 0 := Nat.cast_ne_zero.2 hn
    have hm : (∑ i, X i j) / n = c := by
      rw [Finset.sum_congr rfl (fun i _ => hc i), Finset.sum_const, Finset.card_univ, Fintype.card_fin, nsmul_eq_mul]
      field_simp
    rw [hm]
    simp [hc]
  have hz' : ∃ j, (preprocess true true X y).xscale j = 0 := ⟨j, hz⟩
  simp only [fit, setIntercept, if_pos hz']

/-- C48: without `FitIntercept` (and no intercept left from before) the model predicts `x · coef` with the solver's coefficients for the raw data, even if `Normalize` is set. -/
theorem C48_no_intercept {n p : ℕ} (normalize : Bool) (solve : (Fin n → Fin p → ℝ) → (Fin n → ℝ) → Fin p → ℝ) (X : Fin n → Fin p → ℝ) (y : Fin n → ℝ) :
    ∃ m, fit false normalize solve 0 X y = some m ∧ ∀ x : Fin p → ℝ, decision m x = ∑ j, x j * solve X y j := by
  simp only [fit, preprocess, setIntercept, Bool.false_eq_true, if_false, one_ne_zero, exists_false, div_one]
  exact ⟨_, rfl, fun x => by simp [decision]⟩

/-- A solver of the normal equations exists and a varying column too: one feature, `solve` is `⟨a,b⟩/⟨a,a⟩`. -/
example : Varies (![1, 2, 4] : Fin 3 → ℝ) ∧ ∀ (A : Fin 3 → Fin 1 → ℝ) (b : Fin 3 → ℝ) (j : Fin 1),
    ∑ i, A i j * (b i - ∑ k, A i k * (fun _ : Fin 1 => (∑ i, A i 0 * b i) / (∑ i, A i 0 * A i 0)) k) = 0 := by
  refine ⟨⟨0, 1, by simp⟩, ?_⟩
  intro A b j
  have hj : j = 0 := Subsingleton.elim _ _
  subst hj
  simp only [Fin.sum_univ_three, Fin.sum_univ_one]
  by_cases hz : A 0 0 * A 0 0 + A 1 0 * A 1 0 + A 2 0 * A 2 0 = 0
  · have h0 : A 0 0 = 0 := by nlinarith [mul_self_nonneg (A 0 0), mul_self_nonneg (A 1 0), mul_self_nonneg (A 2 0)]
    have h1 : A 1 0 = 0 := by nlinarith [mul_self_nonneg (A 0 0), mul_self_nonneg (A 1 0), mul_self_nonneg (A 2 0)]
    have h2 : A 2 0 = 0 := by nlinarith [mul_self_nonneg (A 0 0), mul_self_nonneg (A 1 0), mul_self_nonneg (A 2 0)]
    simp [h0, h1, h2]
  · have hq := div_mul_cancel₀ (A 0 0 * b 0 + A 1 0 * b 1 + A 2 0 * b 2) hz
    linear_combination -hq

/-! ### C50 -/

/-- The rows of a mini-batch. -/
def rowsOf (r : ℕ × ℕ) : List ℕ := List.range' r.1 (r.2 - r.1)

theorem batches_spec (n size : ℕ) (hs : 1 ≤ size) (k : ℕ) : ∀ b, n ≤ (b + k) * size →
    ((batches n size k b).map rowsOf).flatten = List.range' (b * size) (n - b * size) ∧ ∀ r ∈ batches n size k b, r.1 < r.2 ∧ r.2 - r.1 ≤ size ∧ r.2 ≤ n := by
  induction k with
  | zero =>
    intro b h
    rw [Nat.add_zero] at h
    simp [batches, Nat.sub_eq_zero_of_le h]
  | succ k ih =>
    intro b h
    have h1 : (b + 1 + k) * size = (b + (k + 1)) * size := by ring
    obtain ⟨e, hr⟩ := ih (b + 1) (by rw [h1]; exact h)
    rw [batches]
    split
    · rename_i hlt
      have h2 : (b + 1) * size = b * size + size := by ring
      rw [h2] at e
      refine ⟨?_, ?_⟩
      · rw [List.map_cons, List.flatten_cons, e]
        by_cases hgt : b * size + size > n
        · simp only [if_pos hgt, rowsOf]
          rw [show n - (b * size + size) = 0 by omega]
          simp
        · simp only [if_neg hgt, rowsOf]
          rw [show n - b * size = (b * size + size - b * size) + (n - (b * size + size)) by omega]
          rw [← List.range'_append_1]
          congr 2
          omega
      · intro r hr'
        rcases List.mem_cons.1 hr' with rfl | hr'
        · by_cases hgt : b * size + size > n
          · simp only [if_pos hgt]; omega
          · simp only [if_neg hgt]; omega
        · exact hr r hr'
    · rename_i hge
      simp only [List.map_nil, List.flatten_nil, List.not_mem_nil, false_implies, implies_true, and_true]
      rw [show n - b * size = 0 by omega]
      rfl

theorem batches_full (n size : ℕ) (k : ℕ) : ∀ b, ∀ r ∈ batches n size k b, r.2 = r.1 + size ∨ r.2 = n := by
  induction k with
  | zero => intro b r h; simp [batches] at h
  | succ k ih =>
    intro b r h
    rw [batches] at h
    by_cases hb : b * size < n
    · rw [if_pos hb] at h
      rcases List.mem_cons.1 h with rfl | h
      · simp only
        by_cases hg : b * size + size > n
        · rw [if_pos hg]; exact Or.inr rfl
        · rw [if_neg hg]; exact Or.inl rfl
      · exact ih _ r h
    · rw [if_neg hb] at h
      cases h

/-- C50, `LinFit`: for every number of rows and every requested batch size, the mini-batches of an epoch are non-empty, at most the batch size long, and visit the rows
`0, 1, …, n-1` in order, each exactly once; no batch is longer than a requested size of at least 1, and a requested size between 1 and `n` is the size of every batch but the one that ends the epoch. -/
theorem C50_linfit (n requested : ℕ) :
    let size := linFitSize n requested
    ((linFitBatches n size).map rowsOf).flatten = List.range n ∧ (∀ r ∈ linFitBatches n size, r.1 < r.2 ∧ r.2 - r.1 ≤ size ∧ r.2 ≤ n) ∧
      (1 ≤ requested → ∀ r ∈ linFitBatches n size, r.2 - r.1 ≤ requested) ∧ (1 ≤ requested → requested ≤ n → ∀ r ∈ linFitBatches n size, r.2 = r.1 + requested ∨ r.2 = n) := by
  intro size
  have hs : 1 ≤ size := le_max_left _ _
  obtain ⟨h1, h2⟩ := batches_spec n size hs (n + 1) 0 (by nlinarith)
  refine ⟨?_, h2, ?_, ?_⟩
  · rw [linFitBatches, h1, List.range_eq_range']
    simp
  · intro hr r hb
    have h3 : size ≤ requested := max_le hr (min_le_right _ _)
    have := h2 r hb
    omega
  · intro hr hn r hb
    have h3 : size = requested := by
      change max 1 (min n requested) = requested
      omega
    rw [h3] at hb
    exact batches_full n requested (n + 1) 0 r hb

example : linFitBatches 7 (linFitSize 7 3) = [(0, 3), (3, 6), (6, 7)] ∧ linFitBatches 2 (linFitSize 2 100) = [(0, 2)] := by decide

/-! ### C92 -/

section
variable {T K : Type} [LinearOrder K]

/-- Parameters after the epochs `e, e+1, …, e+k-1`. -/
def after (step : ℕ → T → T) (e : ℕ) : ℕ → T → T
  | 0, θ => θ
  | k + 1, θ => step (e + k) (after step e k θ)

/-- A loss strictly better than another, a missing one (`+Inf`, or `NaN`) being the worst. -/
def lossLt : Option K → Option K → Prop
  | some a, some b => a < b
  | some _, none => True
  | none, _ => False

theorem after_shift (step : ℕ → T → T) (e k : ℕ) (θ : T) : after step (e + 1) k (step e θ) = after step e (k + 1) θ := by
  induction k with
  | zero => rfl
  | succ k ih => rw [after, ih, after]; congr 1; omega

theorem better_iff (a b : Option K) : ((match a, b with
      | none, _ => false
      | some _, none => true
      | some j, some b => decide (j < b)) = true) ↔ lossLt a b := by
  cases a <;> cases b <;> simp [lossLt]

theorem lossLt_trans_not (a b c : Option K) (h1 : lossLt a b) (h2 : ¬ lossLt c b) : ¬ lossLt c a := by
  cases a <;> cases b <;> cases c <;> simp_all [lossLt]
  · exact (h1.trans_le h2).le

theorem linFit_spec (step : ℕ → T → T) (J : T → Option K) (conv : T → Bool) (k : ℕ) : ∀ (e : ℕ) (θ : T) (best : Option K × T),
    ∃ d, d ≤ k ∧ (linFitLoop step J conv k e θ best).2.2 = e + d ∧ (∀ i, 1 ≤ i → i < d → conv (after step e i θ) = false) ∧
      (d < k → 1 ≤ d ∧ conv (after step e d θ) = true) ∧
      ¬ lossLt best.1 (linFitLoop step J conv k e θ best).1 ∧ (∀ i, 1 ≤ i → i ≤ d → ¬ lossLt (J (after step e i θ)) (linFitLoop step J conv k e θ best).1) ∧
      (((linFitLoop step J conv k e θ best).1 = best.1 ∧ (linFitLoop step J conv k e θ best).2.1 = best.2) ∨
        ∃ i, 1 ≤ i ∧ i ≤ d ∧ (linFitLoop step J conv k e θ best).2.1 = after step e i θ ∧ (linFitLoop step J conv k e θ best).1 = J (after step e i θ) ∧
          lossLt (linFitLoop step J conv k e θ best).1 best.1 ∧ ∀ i', 1 ≤ i' → i' < i → lossLt (J (after step e i θ)) (J (after step e i' θ))) := by
  induction k with
  | zero =>
    intro e θ best
    refine ⟨0, le_refl _, rfl, fun i h1 h2 => by omega, fun h => by omega, ?_, fun i h1 h2 => by omega, Or.inl ⟨rfl, rfl⟩⟩
    rcases best with ⟨_ | a, _⟩ <;> simp [linFitLoop, lossLt]
  | succ k ih =>
    intro e θ best
    have h1 : after step e 1 θ = step e θ := rfl
    set B : Option K × T := if (match J (step e θ), best.1 with
      | none, _ => false
      | some _, none => true
      | some j, some b => decide (j < b)) = true then (J (step e θ), step e θ) else best with hB
    have hBc : (lossLt (J (step e θ)) best.1 ∧ B = (J (step e θ), step e θ)) ∨ (¬ lossLt (J (step e θ)) best.1 ∧ B = best) := by
      by_cases hh : lossLt (J (step e θ)) best.1
      · exact Or.inl ⟨hh, by rw [hB, if_pos ((better_iff _ _).2 hh)]⟩
      · exact Or.inr ⟨hh, by rw [hB, if_neg (fun h => hh ((better_iff _ _).1 h))]⟩
    have irr : ∀ a : Option K, ¬ lossLt a a := fun a => by cases a <;> simp [lossLt]
    have hloop : linFitLoop step J conv (k + 1) e θ best = if conv (step e θ) = true then (B.1, B.2, e + 1) else linFitLoop step J conv k (e + 1) (step e θ) B := rfl
    by_cases hc : conv (step e θ) = true
    · rw [hloop, if_pos hc]
      refine ⟨1, by omega, rfl, fun i h1 h2 => by omega, fun _ => ⟨le_refl _, hc⟩, ?_, ?_, ?_⟩
      · rcases hBc with ⟨hlt, hb⟩ | ⟨hlt, hb⟩
        · rw [hb]; exact lossLt_trans_not _ _ _ hlt (irr _)
        · rw [hb]; exact irr _
      · intro i hi1 hi2
        have : i = 1 := by omega
        subst this
        rw [h1]
        rcases hBc with ⟨hlt, hb⟩ | ⟨hlt, hb⟩
        · rw [hb]; exact irr _
        · rw [hb]; exact hlt
      · rcases hBc with ⟨hlt, hb⟩ | ⟨hlt, hb⟩
        · right
          refine ⟨1, le_refl _, le_refl _, by rw [hb, h1], by rw [hb, h1], by rw [hb]; exact hlt, fun i' a b => by omega⟩
        · left; rw [hb]; exact ⟨rfl, rfl⟩
    · rw [hloop, if_neg hc]
      obtain ⟨d, hd, he, hnc, hst, hb1, hmin, hcase⟩ := ih (e + 1) (step e θ) B
      set R := linFitLoop step J conv k (e + 1) (step e θ) B with hR
      have sh : ∀ i, after step (e + 1) i (step e θ) = after step e (i + 1) θ := fun i => after_shift step e i θ
      have hbest : ¬ lossLt best.1 R.1 := by
        rcases hBc with ⟨hlt, hb⟩ | ⟨hlt, hb⟩
        · intro hh
          rw [hb] at hb1
          have : ¬ lossLt (J (step e θ)) best.1 := lossLt_trans_not _ _ _ hh hb1
          exact this hlt
        · rw [hb] at hb1; exact hb1
      have hfirst : ¬ lossLt (J (step e θ)) R.1 := by
        rcases hBc with ⟨hlt, hb⟩ | ⟨hlt, hb⟩
        · rw [hb] at hb1; exact hb1
        · intro hh
          exact hlt (by
            by_contra hn
            rw [hb] at hb1
            have : lossLt (J (step e θ)) best.1 := by
              revert hh hb1
              rcases J (step e θ) with _ | a <;> rcases R.1 with _ | r <;> rcases best.1 with _ | b <;> simp [lossLt]
              intro h1 h2; exact lt_of_lt_of_le h2 h1
            exact hn this)
      refine ⟨d + 1, by omega, by rw [he]; omega, ?_, ?_, hbest, ?_, ?_⟩
      · intro i hi1 hi2
        rcases Nat.lt_or_ge 1 i with hi | hi
        · have := hnc (i - 1) (by omega) (by omega)
          rwa [sh, show i - 1 + 1 = i by omega] at this
        · have : i = 1 := by omega
          subst this
          rw [h1]; simpa using hc
      · intro h
        obtain ⟨a, b⟩ := hst (by omega)
        exact ⟨by omega, by rw [← sh]; exact b⟩
      · intro i hi1 hi2
        rcases Nat.lt_or_ge 1 i with hi | hi
        · have := hmin (i - 1) (by omega) (by omega)
          rwa [sh, show i - 1 + 1 = i by omega] at this
        · have : i = 1 := by omega
          subst this
          rw [h1]; exact hfirst
      · rcases hcase with ⟨hr1, hr2⟩ | ⟨i, hi1, hi2, hr2, hr1, hlt', hpre⟩
        · rcases hBc with ⟨hlt, hb⟩ | ⟨hlt, hb⟩
          · right
            refine ⟨1, le_refl _, by omega, by rw [hr2, hb, h1], by rw [hr1, hb, h1], by rw [hr1, hb]; exact hlt, fun i' a b => by omega⟩
          · left; rw [hr1, hr2, hb]; exact ⟨rfl, rfl⟩
        · right
          have tr : ∀ a b c : Option K, lossLt a b → lossLt b c → lossLt a c := by
            intro a b c
            rcases a with _ | a <;> rcases b with _ | b <;> rcases c with _ | c <;> simp [lossLt]
            exact lt_trans
          have tr' : ∀ a b c : Option K, lossLt a b → ¬ lossLt c b → lossLt a c := by
            intro a b c
            rcases a with _ | a <;> rcases b with _ | b <;> rcases c with _ | c <;> simp [lossLt]
            exact lt_of_lt_of_le
          rw [sh] at hr1 hr2
          refine ⟨i + 1, by omega, by omega, hr2, hr1, ?_, ?_⟩
          · rcases hBc with ⟨hlt, hb⟩ | ⟨hlt, hb⟩
            · rw [hb] at hlt'; exact tr _ _ _ hlt' hlt
            · rw [hb] at hlt'; exact hlt'
          · intro i' a b
            rcases Nat.lt_or_ge 1 i' with hi | hi
            · have := hpre (i' - 1) (by omega) (by omega)
              rwa [sh, sh, show i' - 1 + 1 = i' by omega] at this
            · have : i' = 1 := by omega
              subst this
              rw [h1, ← hr1]
              rcases hBc with ⟨hlt, hb⟩ | ⟨hlt, hb⟩
              · rw [hb] at hlt'; exact hlt'
              · rw [hb] at hlt'; exact tr' _ _ _ hlt' hlt

/-- C92: `LinFit` runs epochs until the convergence test succeeds or the budget is used up; the parameters returned are those of the first epoch with the least loss among all
epochs run, together with that loss; if no epoch had a finite loss they are all zero. -/
theorem C92_best_epoch (step : ℕ → T → T) (J : T → Option K) (conv : T → Bool) (epochs : ℕ) (θ zero : T) :
    ∃ ran, ran ≤ epochs ∧ (∀ i, 1 ≤ i → i < ran → conv (after step 1 i θ) = false) ∧ (ran < epochs → conv (after step 1 ran θ) = true) ∧
      let r := linFitLoop step J conv epochs 1 θ (none, zero)
      ((∃ i j, 1 ≤ i ∧ i ≤ ran ∧ r.2.1 = after step 1 i θ ∧ r.1 = some j ∧ J (after step 1 i θ) = some j ∧
          (∀ i' j', 1 ≤ i' → i' ≤ ran → J (after step 1 i' θ) = some j' → j ≤ j') ∧ (∀ i' j', 1 ≤ i' → i' < i → J (after step 1 i' θ) = some j' → j < j')) ∨
        (r.1 = none ∧ r.2.1 = zero ∧ ∀ i, 1 ≤ i → i ≤ ran → J (after step 1 i θ) = none)) := by
  obtain ⟨d, hd, he, hnc, hst, hb1, hmin, hcase⟩ := linFit_spec step J conv epochs 1 θ (none, zero)
  refine ⟨d, hd, hnc, fun h => (hst h).2, ?_⟩
  intro r
  have hr : r = linFitLoop step J conv epochs 1 θ (none, zero) := rfl
  rw [← hr] at hb1 hmin hcase
  rcases hcase with ⟨h1, h2⟩ | ⟨i, hi1, hi2, h2, h1, hlt, hpre⟩
  · right
    refine ⟨h1, h2, ?_⟩
    intro i a b
    have := hmin i a b
    rw [h1] at this
    rcases hJ : J (after step 1 i θ) with _ | j
    · rfl
    · rw [hJ] at this; simp [lossLt] at this
  · left
    rcases hJ : r.1 with _ | j
    · rw [hJ] at hlt; simp [lossLt] at hlt
    · refine ⟨i, j, hi1, hi2, h2, rfl, by rw [← h1, hJ], ?_, ?_⟩
      · intro i' j' a b e
        have := hmin i' a b
        rw [hJ, e] at this
        simpa [lossLt] using this
      · intro i' j' a b e
        have := hpre i' a b
        rw [← h1, hJ, e] at this
        simpa [lossLt] using this

/-- C92, violated: the epoch number reported by `LinFit` is one more than the number of epochs run. -/
theorem C92_epoch_count_violated (step : ℕ → T → T) (J : T → Option K) (conv : T → Bool) (epochs : ℕ) (θ zero : T) :
    ∃ ran, ran ≤ epochs ∧ (∀ i, 1 ≤ i → i < ran → conv (after step 1 i θ) = false) ∧ (ran < epochs → 1 ≤ ran ∧ conv (after step 1 ran θ) = true) ∧
      (linFitLoop step J conv epochs 1 θ (none, zero)).2.2 = ran + 1 := by
  obtain ⟨d, hd, he, hnc, hst, _⟩ := linFit_spec step J conv epochs 1 θ (none, zero)
  exact ⟨d, hd, hnc, hst, by omega⟩

end

/-- Losses 5, 3, 4, 3 over four epochs: the parameters of the second epoch are returned, and the epoch reported is 5. -/
example : linFitLoop (fun _ θ => θ + 1) (fun θ => some (if θ = 1 then 5 else if θ = 3 then 4 else 3 : ℤ)) (fun _ => false) 4 1 (0 : ℤ) (none, 0) = (some 3, 2, 5) := by decide

end Sk.Lin
