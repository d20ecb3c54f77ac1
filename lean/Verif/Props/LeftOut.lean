import Verif.Props.Sensitivity
import Verif.Props.LinFitGom

/-!
# C246: what leaving rows out of the training does to the predictions for these rows
-/
set_option autoImplicit false

namespace Sk.LeftOut

open Sk.Lin

/-- **C246, rows left out.** `LinearRegression` predicts any block of rows at least as well (sum of squared errors) when they are among the training rows as when they are left out, and the remaining rows at most as well. -/
theorem C246_left_out {n k p : ℕ} (hn : n ≠ 0) (normalize normalize' : Bool) {solve : (Fin n → Fin p → ℝ) → (Fin n → ℝ) → Fin p → ℝ} {solve' : (Fin (n + k) → Fin p → ℝ) → (Fin (n + k) → ℝ) → Fin p → ℝ} (hs : LeastSquares solve)
    (hs' : LeastSquares solve') (old old' : ℝ) {X : Fin n → Fin p → ℝ} (hX : Spans X) (y : Fin n → ℝ) (X₂ : Fin k → Fin p → ℝ) (y₂ : Fin k → ℝ) :
    ∃ part full, fit true normalize solve old X y = some part ∧ fit true normalize' solve' old' (Fin.append X X₂) (Fin.append y y₂) = some full ∧
      ∑ i, (y₂ i - decision full (X₂ i)) ^ 2 ≤ ∑ i, (y₂ i - decision part (X₂ i)) ^ 2 ∧ ∑ i, (y i - decision part (X i)) ^ 2 ≤ ∑ i, (y i - decision full (X i)) ^ 2 := by
  have hX' : Spans (Fin.append X X₂) := by
    intro c b h
    refine hX c b fun i => ?_
    have := h (Fin.castAdd k i)
    rwa [Fin.append_left] at this
  obtain ⟨m, hm, hbest⟩ := C197_best hn normalize hs old hX y
  obtain ⟨m', hm', hbest'⟩ := C197_best (by omega) normalize' hs' old' hX' (Fin.append y y₂)
  have e : ∀ c : Coefs p, sse (Fin.append X X₂) (Fin.append y y₂) c = sse X y c + ∑ i, (y₂ i - decision c (X₂ i)) ^ 2 := by
    intro c
    simp only [sse, Fin.sum_univ_add, Fin.append_left, Fin.append_right, decision]
  refine ⟨m, m', hm, hm', ?_⟩
  change _ ∧ sse X y m ≤ sse X y m'
  by_cases h : m' = m
  · subst h
    exact ⟨le_rfl, le_rfl⟩
  · have h1 := hbest m' h
    have h2 := hbest' m (Ne.symm h)
    rw [e, e] at h2
    exact ⟨by linarith, h1.le⟩

private theorem along {n p : ℕ} {X : Fin n → Fin p → ℝ} {y y' : Fin n → ℝ} {m m' : Coefs p} (h0 : ∑ i, (y i - decision m (X i)) = 0) (h1 : ∀ j, ∑ i, X i j * (y i - decision m (X i)) = 0)
    (k0 : ∑ i, (y' i - decision m' (X i)) = 0) (k1 : ∀ j, ∑ i, X i j * (y' i - decision m' (X i)) = 0) (s : ℝ) :
    ∃ c : Coefs p, (∀ x, decision c x = (1 - s) * decision m x + s * decision m' x) ∧ ∑ i, ((1 - s) * y i + s * y' i - decision c (X i)) = 0 ∧ ∀ j, ∑ i, X i j * ((1 - s) * y i + s * y' i - decision c (X i)) = 0 := by
  have hc : ∀ x : Fin p → ℝ, decision ⟨fun j => (1 - s) * m.coef j + s * m'.coef j, (1 - s) * m.intercept + s * m'.intercept⟩ x = (1 - s) * decision m x + s * decision m' x := by
    intro x
    have : ∑ j, x j * ((1 - s) * m.coef j + s * m'.coef j) = (1 - s) * ∑ j, x j * m.coef j + s * ∑ j, x j * m'.coef j := by
      rw [Finset.mul_sum, Finset.mul_sum, ← Finset.sum_add_distrib]
      exact Finset.sum_congr rfl fun j _ => by ring
    simp only [decision, this]
    ring
  refine ⟨_, hc, ?_, fun j => ?_⟩
  · have : ∑ i, ((1 - s) * y i + s * y' i - ((1 - s) * decision m (X i) + s * decision m' (X i))) = (1 - s) * ∑ i, (y i - decision m (X i)) + s * ∑ i, (y' i - decision m' (X i)) := by
      rw [Finset.mul_sum, Finset.mul_sum, ← Finset.sum_add_distrib]
      exact Finset.sum_congr rfl fun i _ => by ring
    simp only [hc]
    rw [this, h0, k0]
    ring
  · have : ∑ i, X i j * ((1 - s) * y i + s * y' i - ((1 - s) * decision m (X i) + s * decision m' (X i))) = (1 - s) * ∑ i, X i j * (y i - decision m (X i)) + s * ∑ i, X i j * (y' i - decision m' (X i)) := by
      rw [Finset.mul_sum, Finset.mul_sum, ← Finset.sum_add_distrib]
      exact Finset.sum_congr rfl fun i _ => by ring
    simp only [hc]
    rw [this, h1 j, k1 j]
    ring

/-- **C246, one row.** For every further row there is a factor `1 - h`, the same for all targets of that row and at most `1 - 1/(n+1)`, by which including the row among the training rows shrinks the error of its prediction;
it never removes the error entirely. -/
theorem C246_one_row {n p : ℕ} (hn : n ≠ 0) (normalize normalize' : Bool) {solve : (Fin n → Fin p → ℝ) → (Fin n → ℝ) → Fin p → ℝ} {solve' : (Fin (n + 1) → Fin p → ℝ) → (Fin (n + 1) → ℝ) → Fin p → ℝ} (hs : LeastSquares solve)
    (hs' : LeastSquares solve') (old old' : ℝ) {X : Fin n → Fin p → ℝ} (hX : Spans X) (y : Fin n → ℝ) (x : Fin p → ℝ) :
    ∃ part h, fit true normalize solve old X y = some part ∧ 1 / ((n + 1 : ℕ) : ℝ) ≤ h ∧ h < 1 ∧
      ∀ v, ∃ full, fit true normalize' solve' old' (Fin.snoc X x : Fin (n + 1) → Fin p → ℝ) (Fin.snoc y v : Fin (n + 1) → ℝ) = some full ∧ v - decision full x = (1 - h) * (v - decision part x) := by
  have hX' : Spans (Fin.snoc X x : Fin (n + 1) → Fin p → ℝ) := by
    intro c b h
    refine hX c b fun i => ?_
    have := h i.castSucc
    rwa [Fin.snoc_castSucc] at this
  obtain ⟨m, hm, hfr⟩ := C230_fitting_row hn normalize normalize' hs hs' old old' hX y x
  obtain ⟨mb, hmb, hbest⟩ := C197_best hn normalize hs old hX y
  obtain rfl : mb = m := Option.some.inj (hmb.symm.trans hm)
  set t := decision mb x with ht
  obtain ⟨m0, m1, h, e0, e1, e2, e3, e4⟩ := Sk.Sensitivity.C240_leverage (Nat.succ_ne_zero n) normalize' hs' old' old' hX' (Fin.snoc y t : Fin (n + 1) → ℝ) (Fin.last n) (t + 1)
  obtain rfl : m0 = mb := Option.some.inj (e0.symm.trans hfr)
  rw [Fin.update_snoc_last] at e1
  simp only [Fin.snoc_last, ← ht] at e2
  have eh : decision m1 x = t + h := by linarith
  obtain ⟨m0', f0, a0, a1⟩ := fit_normal normalize' hs' old' hX' (Fin.snoc y t : Fin (n + 1) → ℝ) (Nat.succ_ne_zero n)
  obtain rfl : m0' = m0 := Option.some.inj (f0.symm.trans hfr)
  obtain ⟨m1', f1, b0, b1⟩ := fit_normal normalize' hs' old' hX' (Fin.snoc y (t + 1) : Fin (n + 1) → ℝ) (Nat.succ_ne_zero n)
  obtain rfl : m1' = m1 := Option.some.inj (f1.symm.trans e1)
  refine ⟨m0', h, hm, e3, lt_of_le_of_ne e4 ?_, fun v => ?_⟩
  · rintro rfl
    have hlast : t + 1 - decision m1' x = 0 := by rw [eh]; ring
    have c0 := b0
    rw [Fin.sum_univ_castSucc] at c0
    simp only [Fin.snoc_castSucc, Fin.snoc_last, hlast, add_zero] at c0
    have c1 : ∀ j, ∑ i, X i j * (y i - decision m1' (X i)) = 0 := by
      intro j
      have := b1 j
      rw [Fin.sum_univ_castSucc] at this
      simpa only [Fin.snoc_castSucc, Fin.snoc_last, hlast, mul_zero, add_zero] using this
    have hne : m1' ≠ m0' := by
      rintro rfl
      rw [← ht] at eh
      linarith
    have s1 := hbest m1' hne
    rw [sse_excess c0 c1 m0'] at s1
    have s2 : 0 ≤ ∑ i, (decision m1' (X i) - decision m0' (X i)) ^ 2 := Finset.sum_nonneg fun _ _ => sq_nonneg _
    linarith
  · obtain ⟨c, hc, d0, d1⟩ := along a0 a1 b0 b1 (v - t)
    have ey : ∀ i : Fin (n + 1), (1 - (v - t)) * (Fin.snoc y t : Fin (n + 1) → ℝ) i + (v - t) * (Fin.snoc y (t + 1) : Fin (n + 1) → ℝ) i = (Fin.snoc y v : Fin (n + 1) → ℝ) i := by
      intro i
      refine Fin.lastCases ?_ (fun i => ?_) i
      · simp only [Fin.snoc_last]
        ring
      · simp only [Fin.snoc_castSucc]
        ring
    simp only [ey] at d0 d1
    obtain ⟨mv, hmv, hvb⟩ := C197_best (Nat.succ_ne_zero n) normalize' hs' old' hX' (Fin.snoc y v : Fin (n + 1) → ℝ)
    refine ⟨mv, hmv, ?_⟩
    have : mv = c := by
      by_contra hne
      have s1 := hvb c (Ne.symm hne)
      rw [sse_excess d0 d1 mv] at s1
      have s2 : 0 ≤ ∑ i, (decision c ((Fin.snoc X x : Fin (n + 1) → Fin p → ℝ) i) - decision mv ((Fin.snoc X x : Fin (n + 1) → Fin p → ℝ) i)) ^ 2 := Finset.sum_nonneg fun _ _ => sq_nonneg _
      linarith
    rw [this, hc, eh, ← ht]
    ring

/-- **C246, ridge regression.** The same for `Ridge` (penalty 1 or none, see C173; without normalising). -/
theorem C246_ridge {n k p q : ℕ} (hn : n ≠ 0) (alpha : ℝ) (minimize minimize' : Fin q → Minimizer p) (start start' : Fin p → Fin q → ℝ) (arrival arrival' : List (Fin q)) (h : Arrivals arrival) (h' : Arrivals arrival')
    (old old' : Fin q → ℝ) (X : Fin n → Fin p → ℝ) (Y : Fin n → Fin q → ℝ) (X₂ : Fin k → Fin p → ℝ) (Y₂ : Fin k → Fin q → ℝ) (hs : Solves false alpha minimize start X Y)
    (hs' : Solves false alpha minimize' start' (Fin.append X X₂) (Fin.append Y Y₂)) :
    ∃ f f', ridgeFit true false alpha 0 minimize start arrival old X Y = some f ∧ ridgeFit true false alpha 0 minimize' start' arrival' old' (Fin.append X X₂) (Fin.append Y Y₂) = some f' ∧
      ∀ o, ∃ part full, f.coefs o = some part ∧ f'.coefs o = some full ∧ ∑ i, (Y₂ i o - decision full (X₂ i)) ^ 2 ≤ ∑ i, (Y₂ i o - decision part (X₂ i)) ^ 2 := by
  obtain ⟨f, hf, c⟩ := C173_used_alpha hn false alpha minimize start arrival h old X Y (by simp) hs
  obtain ⟨f', hf', c'⟩ := C173_used_alpha (by omega) false alpha minimize' start' arrival' h' old' (Fin.append X X₂) (Fin.append Y Y₂) (by simp) hs'
  refine ⟨f, f', hf, hf', fun o => ?_⟩
  obtain ⟨m, hm, hb⟩ := c o
  obtain ⟨m', hm', hb'⟩ := c' o
  refine ⟨m, m', hm, hm', ?_⟩
  have h1 := hb m'.coef m'.intercept
  have h2 := hb' m.coef m.intercept
  simp only [ridgeCost, Fin.sum_univ_add, Fin.append_left, Fin.append_right, Bool.false_eq_true, if_false] at h1 h2
  simp only [decision]
  linarith

/-! ### Cases -/

/-- For one feature the quotient of the products solves the least squares problem, for every number of rows. -/
theorem one_feature (n : ℕ) : LeastSquares (fun (A : Fin n → Fin 1 → ℝ) (b : Fin n → ℝ) (_ : Fin 1) => (∑ i, A i 0 * b i) / ∑ i, A i 0 * A i 0) := by
  intro A b hA c
  set q := ∑ i, A i 0 * A i 0 with hqd
  set t := ∑ i, A i 0 * b i with htd
  have hq : q ≠ 0 := by
    intro hz
    have hz' := (Finset.sum_eq_zero_iff_of_nonneg (fun i _ => mul_self_nonneg (A i 0))).1 hz
    have := congrFun (hA (fun _ => 1) (fun i => by simpa using hz' i (Finset.mem_univ i))) 0
    simp at this
  have hpos : 0 < q := lt_of_le_of_ne (Finset.sum_nonneg fun i _ => mul_self_nonneg _) (Ne.symm hq)
  have e : ∀ x : ℝ, ∑ i, (b i - A i 0 * x) ^ 2 = ∑ i, b i ^ 2 - 2 * t * x + q * x ^ 2 := by
    intro x
    rw [hqd, htd, Finset.mul_sum, Finset.sum_mul, Finset.sum_mul, ← Finset.sum_sub_distrib, ← Finset.sum_add_distrib]
    exact Finset.sum_congr rfl fun i _ => by ring
  simp only [Fin.sum_univ_one]
  rw [e, e]
  have h1 : q * (c 0 - t / q) ^ 2 = (∑ i, b i ^ 2 - 2 * t * c 0 + q * c 0 ^ 2) - (∑ i, b i ^ 2 - 2 * t * (t / q) + q * (t / q) ^ 2) := by
    field_simp
    ring
  have h2 : 0 ≤ q * (c 0 - t / q) ^ 2 := by positivity
  linarith

/-- Rows 0, 1, 3 with targets 0, 1, 5, and a further row 2 with any target. -/
example : ∃ part h, fit true false (fun (A : Fin 3 → Fin 1 → ℝ) b _ => (∑ i, A i 0 * b i) / ∑ i, A i 0 * A i 0) 0 ![![0], ![1], ![3]] ![0, 1, 5] = some part ∧ 1 / ((3 + 1 : ℕ) : ℝ) ≤ h ∧ h < 1 ∧
    ∀ v, ∃ full, fit true true (fun (A : Fin 4 → Fin 1 → ℝ) b _ => (∑ i, A i 0 * b i) / ∑ i, A i 0 * A i 0) 0 (Fin.snoc ![![0], ![1], ![3]] ![2] : Fin 4 → Fin 1 → ℝ) (Fin.snoc ![0, 1, 5] v : Fin 4 → ℝ) = some full ∧
      v - decision full ![2] = (1 - h) * (v - decision part ![2]) :=
  C246_one_row (by norm_num) false true (one_feature 3) (one_feature 4) 0 0 (by
    intro c b h
    have h0 := h 0
    have h1 := h 1
    simp at h0 h1
    funext j
    rw [Subsingleton.elim j 0]
    simp only [Pi.zero_apply]
    linarith) _ _

end Sk.LeftOut
