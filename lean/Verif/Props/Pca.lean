import Verif.Model.Pca
import Mathlib.LinearAlgebra.Matrix.NonsingularInverse
import Mathlib.Analysis.Real.Sqrt
import Mathlib.Algebra.BigOperators.Field
import Mathlib.Algebra.Order.BigOperators.Group.Finset
import Mathlib.Tactic.Ring
import Mathlib.Tactic.Linarith
import Mathlib.Tactic.LinearCombination
import Mathlib.Tactic.FieldSimp
import Mathlib.Tactic.Positivity
import Mathlib.Tactic.NormNum
import Mathlib.Tactic.FinCases

/-! # C114–C117: principal component analysis -/

set_option autoImplicit false

namespace Sk.Pca

open Matrix

/-! ## Specification -/

/-- Sum of the squares of all cells. -/
noncomputable def sqSum {a b : ℕ} (M : Matrix (Fin a) (Fin b) ℝ) : ℝ := ∑ i, ∑ j, M i j ^ 2

/-- `S`, `V` are singular values in descending order and right singular vectors of `X` (with at least as many rows as columns). -/
structure IsSVD {n c : ℕ} (X : Matrix (Fin n) (Fin c) ℝ) (S : Fin c → ℝ) (V : Matrix (Fin c) (Fin c) ℝ) : Prop where
  gram : Xᵀ * X = V * diagonal (fun i => S i ^ 2) * Vᵀ
  orth : Vᵀ * V = 1
  nonneg : ∀ i, 0 ≤ S i
  desc : ∀ i j, i ≤ j → S j ≤ S i

/-- Mean of a column. -/
noncomputable def colMean {n : ℕ} (x : Fin n → ℝ) : ℝ := (∑ i, x i) / n

/-- Variance of a column (population). -/
noncomputable def colVar {n : ℕ} (x : Fin n → ℝ) : ℝ := (∑ i, (x i - colMean x) ^ 2) / n

/-! ## Lemmas -/

private theorem sqSum_eq_trace {a b : ℕ} (M : Matrix (Fin a) (Fin b) ℝ) : sqSum M = ∑ j, (Mᵀ * M) j j := by
  unfold sqSum
  rw [Finset.sum_comm]
  refine Finset.sum_congr rfl fun j _ => ?_
  rw [Matrix.mul_apply]
  exact Finset.sum_congr rfl fun i _ => by rw [Matrix.transpose_apply]; ring

/-- Squared size of `X W` in terms of the components of `W` along the singular vectors. -/
private theorem sqSum_mul {n c k : ℕ} {X : Matrix (Fin n) (Fin c) ℝ} {S : Fin c → ℝ} {V : Matrix (Fin c) (Fin c) ℝ} (h : IsSVD X S V) (W : Matrix (Fin c) (Fin k) ℝ) :
    sqSum (X * W) = ∑ i, S i ^ 2 * ∑ j, (Vᵀ * W) i j ^ 2 := by
  rw [sqSum_eq_trace]
  have e : (X * W)ᵀ * (X * W) = (Vᵀ * W)ᵀ * (diagonal (fun i => S i ^ 2) * (Vᵀ * W)) := by
    rw [Matrix.transpose_mul, Matrix.transpose_mul, Matrix.transpose_transpose]
    calc Wᵀ * Xᵀ * (X * W) = Wᵀ * (Xᵀ * X) * W := by simp only [Matrix.mul_assoc]
      _ = _ := by rw [h.gram]; simp only [Matrix.mul_assoc]
  rw [e]
  have : ∀ j, ((Vᵀ * W)ᵀ * (diagonal (fun i => S i ^ 2) * (Vᵀ * W))) j j = ∑ i, S i ^ 2 * (Vᵀ * W) i j ^ 2 := by
    intro j
    rw [Matrix.mul_apply]
    refine Finset.sum_congr rfl fun i _ => ?_
    rw [Matrix.diagonal_mul, Matrix.transpose_apply]; ring
  rw [Finset.sum_congr rfl fun j _ => this j, Finset.sum_comm]
  exact Finset.sum_congr rfl fun i _ => by rw [Finset.mul_sum]

/-- A matrix with orthonormal columns has rows of norm at most 1. -/
private theorem row_le_one {c k : ℕ} {B : Matrix (Fin c) (Fin k) ℝ} (h : Bᵀ * B = 1) (i : Fin c) : ∑ j, B i j ^ 2 ≤ 1 := by
  set P := B * Bᵀ with hP
  have hPP : P * P = P := by
    rw [hP]
    calc B * Bᵀ * (B * Bᵀ) = B * (Bᵀ * B) * Bᵀ := by simp only [Matrix.mul_assoc]
      _ = _ := by rw [h, Matrix.mul_one]
  have hii : P i i = ∑ j, B i j ^ 2 := by
    rw [hP, Matrix.mul_apply]; exact Finset.sum_congr rfl fun j _ => by rw [Matrix.transpose_apply]; ring
  have hsym : ∀ a b, P a b = P b a := by
    intro a b; rw [hP, Matrix.mul_apply, Matrix.mul_apply]
    exact Finset.sum_congr rfl fun j _ => by rw [Matrix.transpose_apply, Matrix.transpose_apply]; ring
  have h1 : P i i = ∑ l, P i l ^ 2 := by
    have := congrFun (congrFun hPP i) i
    rw [Matrix.mul_apply] at this
    rw [← this]
    exact Finset.sum_congr rfl fun l _ => by rw [hsym l i]; ring
  have h2 : P i i ^ 2 ≤ P i i := by
    conv_rhs => rw [h1]
    exact Finset.single_le_sum (f := fun l => P i l ^ 2) (fun _ _ => sq_nonneg _) (Finset.mem_univ i)
  rw [← hii]; nlinarith

private theorem total_eq {c k : ℕ} {B : Matrix (Fin c) (Fin k) ℝ} (h : Bᵀ * B = 1) : ∑ i, ∑ j, B i j ^ 2 = k := by
  have := sqSum_eq_trace B
  rw [h] at this
  unfold sqSum at this
  rw [this]; simp

/-- Weights in `[0,1]` with total `k` collect at most the `k` largest values. -/
private theorem top_weights {c k : ℕ} (hk : k ≤ c) (s b : Fin c → ℝ) (hs : ∀ i j, i ≤ j → s j ≤ s i) (hb0 : ∀ i, 0 ≤ b i) (hb1 : ∀ i, b i ≤ 1) (hsum : ∑ i, b i = k) :
    ∑ i, s i * b i ≤ ∑ i : Fin k, s (Fin.castLE hk i) := by
  classical
  have hind : ∑ i : Fin k, s (Fin.castLE hk i) = ∑ i : Fin c, if (i : ℕ) < k then s i else 0 := by
    rw [← Finset.sum_filter]
    refine Finset.sum_bij (fun i _ => Fin.castLE hk i) ?_ ?_ ?_ ?_
    · intro i _; simp
    · intro i _ j _ hij; exact Fin.castLE_injective hk hij
    · intro i hi
      exact ⟨⟨i, (Finset.mem_filter.mp hi).2⟩, Finset.mem_univ _, rfl⟩
    · intro i _; rfl
  have hcard : ∑ i : Fin c, (if (i : ℕ) < k then (1 : ℝ) else 0) = k := by
    have : ∑ i : Fin c, (if (i : ℕ) < k then (1 : ℝ) else 0) = ∑ i : Fin k, (1 : ℝ) := by
      rw [← Finset.sum_filter]
      symm
      refine Finset.sum_bij (fun i _ => Fin.castLE hk i) ?_ ?_ ?_ ?_
      · intro i _; simp
      · intro i _ j _ hij; exact Fin.castLE_injective hk hij
      · intro i hi
        exact ⟨⟨i, (Finset.mem_filter.mp hi).2⟩, Finset.mem_univ _, rfl⟩
      · intro i _; rfl
    rw [this]; simp
  rcases Nat.eq_zero_or_pos k with e | hkp
  · subst e
    have hz : ∀ i, b i = 0 := by
      intro i
      have := (Finset.sum_eq_zero_iff_of_nonneg (fun i _ => hb0 i)).mp (by rw [hsum]; simp) i (Finset.mem_univ _)
      exact this
    simp [hz]
  · set t := s ⟨k - 1, by omega⟩ with ht
    have hpt : ∀ i : Fin c, s i * b i ≤ (if (i : ℕ) < k then s i else 0) + t * (b i - if (i : ℕ) < k then 1 else 0) := by
      intro i
      by_cases hi : (i : ℕ) < k
      · rw [if_pos hi, if_pos hi]
        have h1 : t ≤ s i := hs i ⟨k - 1, by omega⟩ (by rw [Fin.le_def]; show (i : ℕ) ≤ k - 1; omega)
        nlinarith [hb1 i]
      · rw [if_neg hi, if_neg hi]
        have h1 : s i ≤ t := hs ⟨k - 1, by omega⟩ i (by rw [Fin.le_def]; show k - 1 ≤ (i : ℕ); omega)
        nlinarith [hb0 i]
    calc ∑ i, s i * b i ≤ ∑ i : Fin c, ((if (i : ℕ) < k then s i else 0) + t * (b i - if (i : ℕ) < k then 1 else 0)) := Finset.sum_le_sum fun i _ => hpt i
      _ = _ := by
        rw [Finset.sum_add_distrib, ← Finset.mul_sum, Finset.sum_sub_distrib, hsum, hcard, hind]; ring

/-! ## C114 -/

/-- C114: the transformed data keep as much of the squares of the training data as any `NComponents` orthonormal directions can: the sum of squares of `Transform(X)` is the sum of
the largest squared singular values, and projecting on any other orthonormal directions gives at most that. -/
theorem C114_optimal {n c : ℕ} (cfg : Config) (X : Matrix (Fin n) (Fin c) ℝ) (S : Fin c → ℝ) (V : Matrix (Fin c) (Fin c) ℝ) (h : IsSVD X S V) (f : Fitted c) (hf : fit n cfg S V = some f)
    (hk : f.cfg.nComponents ≤ c) (Z : Matrix (Fin n) (Fin f.cfg.nComponents) ℝ) (hZ : transform f X = some Z) :
    sqSum Z = ∑ i : Fin f.cfg.nComponents, S (Fin.castLE hk i) ^ 2 ∧
    ∀ W : Matrix (Fin c) (Fin f.cfg.nComponents) ℝ, Wᵀ * W = 1 → sqSum (X * W) ≤ sqSum Z := by
  have hV : f.V = V := by
    unfold fit at hf
    split at hf
    · cases hf
    · cases hf; rfl
  unfold transform at hZ
  split at hZ
  · rename_i hk'
    cases hZ
    set k := f.cfg.nComponents with hkd
    have hVVt : V * Vᵀ = 1 := mul_eq_one_comm.mp h.orth
    have hB : ∀ i j, (Vᵀ * f.V.submatrix id (Fin.castLE hk'.2)) i j = if i = Fin.castLE hk j then 1 else 0 := by
      intro i j
      have := congrFun (congrFun h.orth i) (Fin.castLE hk j)
      rw [Matrix.mul_apply, Matrix.one_apply] at this
      rw [Matrix.mul_apply, ← this, hV]
      rfl
    have e1 : sqSum (X * f.V.submatrix id (Fin.castLE hk'.2)) = ∑ i : Fin k, S (Fin.castLE hk i) ^ 2 := by
      rw [sqSum_mul h]
      simp only [hB]
      have : ∀ i : Fin c, S i ^ 2 * (∑ j : Fin k, (if i = Fin.castLE hk j then (1 : ℝ) else 0) ^ 2) = ∑ j : Fin k, if i = Fin.castLE hk j then S i ^ 2 else 0 := by
        intro i; rw [Finset.mul_sum]; refine Finset.sum_congr rfl fun j _ => ?_
        split <;> simp
      rw [Finset.sum_congr rfl fun i _ => this i, Finset.sum_comm]
      exact Finset.sum_congr rfl fun j _ => by simp
    refine ⟨e1, fun W hW => ?_⟩
    rw [e1, sqSum_mul h]
    have hBW : (Vᵀ * W)ᵀ * (Vᵀ * W) = 1 := by
      rw [Matrix.transpose_mul, Matrix.transpose_transpose]
      calc Wᵀ * V * (Vᵀ * W) = Wᵀ * (V * Vᵀ) * W := by simp only [Matrix.mul_assoc]
        _ = 1 := by rw [hVVt, Matrix.mul_one, hW]
    exact top_weights hk (fun i => S i ^ 2) _ (fun i j hij => pow_le_pow_left₀ (h.nonneg j) (h.desc i j hij) 2)
      (fun i => Finset.sum_nonneg fun _ _ => sq_nonneg _) (row_le_one hBW) (total_eq hBW)
  · cases hZ

private theorem count_spec (thres : ℝ) (l : List ℝ) (acc : ℝ) :
    count thres l acc ≤ l.length ∧ (∀ j < count thres l acc, acc + (l.take j).sum < thres) ∧
      (count thres l acc = l.length ∨ thres ≤ acc + (l.take (count thres l acc)).sum) := by
  induction l generalizing acc with
  | nil => simp [count]
  | cons r rs ih =>
    rw [count]
    split
    · rename_i hlt
      obtain ⟨h1, h2, h3⟩ := ih (acc + r)
      refine ⟨by simpa using h1, ?_, ?_⟩
      · intro j hj
        cases j with
        | zero => simpa using hlt
        | succ j => have := h2 j (by omega); simpa [add_assoc] using this
      · rcases h3 with h3 | h3
        · left; simp [h3]
        · right; simpa [add_assoc] using h3
    · rename_i hge
      refine ⟨by simp, fun j hj => by omega, Or.inr ?_⟩
      simpa using not_lt.mp hge

/-- C114: the reported ratios are non-negative, in descending order and sum to 1; with `MinVarianceRatio` set, `NComponents` is the least number of leading components whose ratios
reach it (all of them if none does); otherwise it is the number asked for, or all of them. -/
theorem C114_components {n c : ℕ} (cfg : Config) (X : Matrix (Fin n) (Fin c) ℝ) (S : Fin c → ℝ) (V : Matrix (Fin c) (Fin c) ℝ) (h : IsSVD X S V) (hX : X ≠ 0) (f : Fitted c)
    (hf : fit n cfg S V = some f) :
    (∀ i, 0 ≤ f.ratio i) ∧ (∀ i j, i ≤ j → f.ratio j ≤ f.ratio i) ∧ ∑ i, f.ratio i = 1 ∧ (∀ i, f.ratio i = S i ^ 2 / sqSum X) ∧
    (cfg.minVarianceRatio ≤ 0 → f.cfg.nComponents = if cfg.nComponents = 0 then c else cfg.nComponents) ∧
    (0 < cfg.minVarianceRatio → f.cfg.nComponents ≤ c ∧
      (∀ j < f.cfg.nComponents, ((List.ofFn f.ratio).take j).sum < cfg.minVarianceRatio) ∧
      (f.cfg.nComponents = c ∨ cfg.minVarianceRatio ≤ ((List.ofFn f.ratio).take f.cfg.nComponents).sum)) := by
  have hsq : sqSum X = ∑ i, S i ^ 2 := by
    have h1 := sqSum_mul h (1 : Matrix (Fin c) (Fin c) ℝ)
    rw [Matrix.mul_one] at h1
    rw [h1]
    refine Finset.sum_congr rfl fun i _ => ?_
    have h2 : (Vᵀ)ᵀ * Vᵀ = 1 := by rw [Matrix.transpose_transpose]; exact mul_eq_one_comm.mp h.orth
    have h3 : V * Vᵀ = 1 := mul_eq_one_comm.mp h.orth
    have h4 := congrFun (congrFun h.orth i) i
    rw [Matrix.mul_apply, Matrix.one_apply_eq] at h4
    rw [Matrix.mul_one]
    have : ∑ j, Vᵀ i j ^ 2 = 1 := by rw [← h4]; exact Finset.sum_congr rfl fun j _ => by rw [Matrix.transpose_apply]; ring
    rw [this, mul_one]
  have hpos : 0 < sqSum X := by
    have hnn : 0 ≤ sqSum X := Finset.sum_nonneg fun _ _ => Finset.sum_nonneg fun _ _ => sq_nonneg _
    rcases hnn.lt_or_eq with h1 | h1
    · exact h1
    · exfalso; apply hX
      ext i j
      have h2 := (Finset.sum_eq_zero_iff_of_nonneg (fun i _ => Finset.sum_nonneg fun _ _ => sq_nonneg _)).mp h1.symm i (Finset.mem_univ _)
      have h3 := (Finset.sum_eq_zero_iff_of_nonneg (fun i _ => sq_nonneg _)).mp h2 j (Finset.mem_univ _)
      simpa using h3
  unfold fit at hf
  split at hf
  · cases hf
  · have hr : ∀ i, f.ratio i = S i ^ 2 / sqSum X := by
      intro i; cases hf; rw [hsq]; simp only [pow_two]; ring
    refine ⟨fun i => ?_, fun i j hij => ?_, ?_, hr, ?_, ?_⟩
    · rw [hr]; positivity
    · rw [hr, hr]; exact div_le_div_of_nonneg_right (pow_le_pow_left₀ (h.nonneg j) (h.desc i j hij) 2) hpos.le
    · simp only [hr]; rw [← Finset.sum_div, ← hsq, div_self hpos.ne']
    · intro hm; cases hf; simp only [if_neg (not_lt.mpr hm)]
    · intro hm
      cases hf
      simp only [if_pos hm]
      obtain ⟨h1, h2, h3⟩ := count_spec cfg.minVarianceRatio (List.ofFn fun i => 1 / (∑ j, S j * S j) * (S i * S i)) 0
      rw [List.length_ofFn] at h1 h3
      refine ⟨h1, fun j hj => by simpa using h2 j hj, ?_⟩
      rcases h3 with h3 | h3
      · exact Or.inl h3
      · exact Or.inr (by simpa using h3)

/-- C114 violated: with fewer rows than columns `Fit` panics, for all data. -/
theorem C114_few_rows_violated {n c : ℕ} (cfg : Config) (S : Fin c → ℝ) (V : Matrix (Fin c) (Fin c) ℝ) (h : n < c) : fit n cfg S V = none := by
  rw [fit, if_pos h]

/-! Data for the examples: `X = diag(2, 1)`. -/

private noncomputable def exX : Matrix (Fin 2) (Fin 2) ℝ := !![2, 0; 0, 1]
private def exS : Fin 2 → ℝ := ![2, 1]

private theorem exSvd : IsSVD exX exS 1 := by
  refine ⟨?_, by simp, ?_, ?_⟩
  · ext i j; fin_cases i <;> fin_cases j <;> simp [exX, exS, Matrix.mul_apply] <;> norm_num
  · intro i; fin_cases i <;> simp [exS]
  · intro i j hij; fin_cases i <;> fin_cases j <;> simp [exS] at hij ⊢

/-- With `MinVarianceRatio = 0.8` one component of `diag(2,1)` suffices; its ratio is 4/5; no unit vector collects more. -/
example : ∃ f : Fitted 2, fit 2 { minVarianceRatio := 4 / 5, nComponents := 0 } exS 1 = some f ∧ f.cfg.nComponents = 1 ∧ f.ratio 0 = 4 / 5 ∧
    (∀ (hk : f.cfg.nComponents ≤ 2) (Z : Matrix (Fin 2) (Fin f.cfg.nComponents) ℝ), transform f exX = some Z →
      ∀ W : Matrix (Fin 2) (Fin f.cfg.nComponents) ℝ, Wᵀ * W = 1 → sqSum (exX * W) ≤ sqSum Z) ∧ (transform f exX).isSome := by
  have hX : exX ≠ 0 := by intro h0; have := congrFun (congrFun h0 0) 0; simp [exX] at this
  have hk1 : count (4 / 5) (List.ofFn fun i : Fin 2 => 1 / (∑ j, exS j * exS j) * (exS i * exS i)) 0 = 1 := by
    simp [count, exS, List.ofFn_succ]; norm_num
  refine ⟨_, by rw [fit, if_neg (by norm_num)], ?_, ?_, ?_, ?_⟩
  · show (if (0 : ℝ) < 4 / 5 then count (4 / 5) (List.ofFn fun i : Fin 2 => 1 / (∑ j, exS j * exS j) * (exS i * exS i)) 0 else _) = 1
    rw [if_pos (by norm_num), hk1]
  · simp [exS]; norm_num
  · intro hk Z hZ W hW
    exact (C114_optimal { minVarianceRatio := 4 / 5, nComponents := 0 } exX exS 1 exSvd _ (by rw [fit, if_neg (by norm_num)]) hk Z hZ).2 W hW
  · unfold transform
    have : (if (0 : ℝ) < 4 / 5 then count (4 / 5) (List.ofFn fun i : Fin 2 => 1 / (∑ j, exS j * exS j) * (exS i * exS i)) 0
        else if (0 : ℕ) = 0 then 2 else 0) = 1 := by rw [if_pos (by norm_num), hk1]
    rw [dif_pos ⟨this.symm ▸ Nat.one_pos, this.symm ▸ (by norm_num : 1 ≤ 2)⟩]
    rfl

/-! ## C115 -/

/-- C115, the part that holds: with as many components as columns, `InverseTransform` undoes `Transform`, for every matrix (not only the training data).
Missing: fewer components (`C115_reduced_violated`). -/
theorem C115_round_trip_partial {n c m : ℕ} (cfg : Config) (X : Matrix (Fin n) (Fin c) ℝ) (S : Fin c → ℝ) (V : Matrix (Fin c) (Fin c) ℝ) (h : IsSVD X S V) (f : Fitted c)
    (hf : fit n cfg S V = some f) (hk : f.cfg.nComponents = c) (hc : 0 < c) (A : Matrix (Fin m) (Fin c) ℝ) :
    ∃ Z, transform f A = some Z ∧ inverse f Z = some A := by
  have hV : f.V = V := by
    unfold fit at hf
    split at hf
    · cases hf
    · cases hf; rfl
  refine ⟨_, by rw [transform, dif_pos ⟨by omega, by omega⟩], ?_⟩
  rw [inverse, dif_pos hk]
  congr 1
  have hVVt : V * Vᵀ = 1 := mul_eq_one_comm.mp h.orth
  rw [hV, Matrix.mul_assoc]
  have : V.submatrix id (Fin.castLE (by omega : f.cfg.nComponents ≤ c)) * (V.submatrix id (Fin.cast hk))ᵀ = 1 := by
    rw [← hVVt]
    ext i j
    rw [Matrix.mul_apply, Matrix.mul_apply]
    exact Fintype.sum_equiv (finCongr hk) _ _ fun l => rfl
  rw [this, Matrix.mul_one]

/-- C115 violated: with fewer components than columns, `InverseTransform` panics on every transformed matrix. -/
theorem C115_reduced_violated {c m : ℕ} (f : Fitted c) (hk : f.cfg.nComponents < c) (Z : Matrix (Fin m) (Fin f.cfg.nComponents) ℝ) : inverse f Z = none := by
  rw [inverse, dif_neg (by omega)]

example : ∃ f : Fitted 2, fit 2 { minVarianceRatio := 0, nComponents := 0 } exS 1 = some f ∧ ∃ Z, transform f exX = some Z ∧ inverse f Z = some exX := by
  refine ⟨_, by rw [fit, if_neg (by norm_num)], ?_⟩
  exact C115_round_trip_partial { minVarianceRatio := 0, nComponents := 0 } exX exS 1 exSvd _ (by rw [fit, if_neg (by norm_num)]) (by simp) (by norm_num) exX

/-! ## C116 -/

/-- C116, the part that holds: `Fit` with an explicit number of components or a ratio does not depend on earlier fits: whatever number an earlier fit left, the result is the same.
Missing: the default (`C116_refit_violated`). -/
theorem C116_refit_partial {c c' n n' : ℕ} (cfg : Config) (S : Fin c → ℝ) (V : Matrix (Fin c) (Fin c) ℝ) (S' : Fin c' → ℝ) (V' : Matrix (Fin c') (Fin c') ℝ) (f : Fitted c)
    (hf : fit n cfg S V = some f) (hcfg : 0 < cfg.minVarianceRatio ∨ 0 < cfg.nComponents) :
    (fit n' f.cfg S' V').map (fun g => (g.V, g.singularValues, g.ratio, g.cfg.nComponents)) =
      (fit n' cfg S' V').map (fun g => (g.V, g.singularValues, g.ratio, g.cfg.nComponents)) := by
  unfold fit at hf
  split at hf
  · cases hf
  · cases hf
    unfold fit
    split
    · rfl
    · simp only [Option.map_some, Option.some.injEq, Prod.mk.injEq, true_and]
      by_cases hm : 0 < cfg.minVarianceRatio
      · simp only [if_pos hm]
      · have hk : cfg.nComponents ≠ 0 := by rcases hcfg with h | h; exacts [absurd h hm, by omega]
        simp only [if_neg hm, if_neg hk]

/-- C116 violated: with the default settings the number of columns of the first data set is kept: fitted again on more columns the estimator keeps fewer components than a new one, on
fewer columns every `Transform` panics, for all data. -/
theorem C116_refit_violated {c c' n n' : ℕ} (cfg : Config) (h0 : cfg.minVarianceRatio ≤ 0) (hd : cfg.nComponents = 0) (S : Fin c → ℝ) (V : Matrix (Fin c) (Fin c) ℝ)
    (S' : Fin c' → ℝ) (V' : Matrix (Fin c') (Fin c') ℝ) (hc : 0 < c) (hn : c ≤ n) (hn' : c' ≤ n') :
    ∃ f g g', fit n cfg S V = some f ∧ fit n' f.cfg S' V' = some g ∧ fit n' cfg S' V' = some g' ∧ g.cfg.nComponents = c ∧ g'.cfg.nComponents = c' ∧
      (c' < c → ∀ (m : ℕ) (A : Matrix (Fin m) (Fin c') ℝ), transform g A = none) := by
  refine ⟨_, _, _, by rw [fit, if_neg (by omega)], by rw [fit, if_neg (by omega)], by rw [fit, if_neg (by omega)], ?_, ?_, ?_⟩
  · simp only [if_neg (not_lt.mpr h0), hd, if_true]
    exact if_neg (by omega)
  · simp only [if_neg (not_lt.mpr h0), hd, if_true]
  · intro hlt m A
    rw [transform, dif_neg]
    rintro ⟨-, h2⟩
    simp only [if_neg (not_lt.mpr h0), hd, if_true] at h2
    rw [if_neg (by omega)] at h2
    omega

example : ∃ f g, fit 2 { minVarianceRatio := 0, nComponents := 0 } exS 1 = some f ∧ fit 3 f.cfg (fun _ : Fin 1 => 1) 1 = some g ∧
    transform g (!![1; 2; 3] : Matrix (Fin 3) (Fin 1) ℝ) = none := by
  obtain ⟨f, g, -, hf, hg, -, -, -, h⟩ := C116_refit_violated (n := 2) (n' := 3) { minVarianceRatio := 0, nComponents := 0 } (le_refl _) rfl exS 1 (fun _ : Fin 1 => 1) 1
    (by norm_num) (by norm_num) (by norm_num)
  exact ⟨f, g, hf, hg, h (by norm_num) 3 _⟩

/-! ## C117 -/

private theorem colMean_mul {n c : ℕ} (X : Matrix (Fin n) (Fin c) ℝ) (h0 : ∀ j, colMean (fun i => X i j) = 0) (v : Fin c → ℝ) : colMean (fun i => ∑ j, X i j * v j) = 0 := by
  unfold colMean at *
  rcases Nat.eq_zero_or_pos n with e | e
  · subst e; simp
  · have hn : (n : ℝ) ≠ 0 := by positivity
    have : ∀ j, ∑ i, X i j = 0 := fun j => by have := h0 j; rcases div_eq_zero_iff.mp this with h | h; exacts [h, absurd h hn]
    rw [Finset.sum_comm]
    simp [← Finset.sum_mul, this]

/-- C117, the part that holds: if every column of the training data has mean zero, `ExplainedVarianceRatio[i]` is the variance of the `i`-th component divided by the sum of the
variances of the columns.  Missing: data that are not centred (`C117_uncentred_violated`). -/
theorem C117_centred_partial {n c : ℕ} (cfg : Config) (X : Matrix (Fin n) (Fin c) ℝ) (S : Fin c → ℝ) (V : Matrix (Fin c) (Fin c) ℝ) (h : IsSVD X S V) (hX : X ≠ 0)
    (h0 : ∀ j, colMean (fun i => X i j) = 0) (f : Fitted c) (hf : fit n cfg S V = some f) (k : Fin c) :
    f.ratio k = colVar (fun i => ∑ j, X i j * V j k) / ∑ j, colVar (fun i => X i j) := by
  obtain ⟨-, -, -, hr, -⟩ := C114_components cfg X S V h hX f hf
  rw [hr]
  have hn : (n : ℝ) ≠ 0 := by
    intro hn; have : n = 0 := by exact_mod_cast hn
    subst this; exact hX (by ext i; exact i.elim0)
  have e1 : ∑ j, colVar (fun i => X i j) = sqSum X / n := by
    unfold colVar sqSum
    rw [Finset.sum_comm, Finset.sum_div]
    refine Finset.sum_congr rfl fun j _ => ?_
    rw [h0 j]; simp
  have e2 : colVar (fun i => ∑ j, X i j * V j k) = S k ^ 2 / n := by
    unfold colVar
    rw [colMean_mul X h0]
    congr 1
    have h1 : (Vᵀ * (Xᵀ * X) * V) k k = S k ^ 2 := by
      rw [h.gram]
      have : Vᵀ * (V * diagonal (fun i => S i ^ 2) * Vᵀ) * V = (Vᵀ * V) * diagonal (fun i => S i ^ 2) * (Vᵀ * V) := by simp only [Matrix.mul_assoc]
      rw [this, h.orth, Matrix.one_mul, Matrix.mul_one, Matrix.diagonal_apply_eq]
    have h2 : Vᵀ * (Xᵀ * X) * V = (X * V)ᵀ * (X * V) := by rw [Matrix.transpose_mul]; simp only [Matrix.mul_assoc]
    rw [← h1, h2, Matrix.mul_apply]
    refine Finset.sum_congr rfl fun i _ => ?_
    rw [Matrix.transpose_apply, Matrix.mul_apply]; ring
  rw [e1, e2, div_div_div_cancel_right₀ hn]

/-- C117 violated: data are not centred.  If the second column is constant with a large value, the first component follows that column: it has variance zero and ratio above
one half, whatever the other column (two rows `(t,a)` and `(-t,a)` with `a > t > 0`). -/
theorem C117_uncentred_violated (cfg : Config) (t a : ℝ) (ht : 0 < t) (ha : t < a) :
    ∃ (S : Fin 2 → ℝ) (V : Matrix (Fin 2) (Fin 2) ℝ) (f : Fitted 2), IsSVD !![t, a; -t, a] S V ∧ fit 2 cfg S V = some f ∧ 1 / 2 < f.ratio 0 ∧
      colVar (fun i => ∑ j, (!![t, a; -t, a] : Matrix (Fin 2) (Fin 2) ℝ) i j * V j 0) = 0 ∧ 0 < ∑ j, colVar (fun i => (!![t, a; -t, a] : Matrix (Fin 2) (Fin 2) ℝ) i j) := by
  have h2 : Real.sqrt 2 * Real.sqrt 2 = 2 := Real.mul_self_sqrt (by norm_num)
  have h0 := Real.sqrt_nonneg 2
  have hap : 0 < a := by linarith
  refine ⟨![Real.sqrt 2 * a, Real.sqrt 2 * t], !![0, 1; 1, 0], _, ⟨?_, ?_, ?_, ?_⟩, by rw [fit, if_neg (by norm_num)], ?_, ?_, ?_⟩
  · ext i j
    have h2' : Real.sqrt 2 ^ 2 = 2 := by rw [pow_two]; exact h2
    simp only [Matrix.mul_apply, Fin.sum_univ_two, Matrix.diagonal_apply, Matrix.transpose_apply]
    fin_cases i <;> fin_cases j <;> simp [mul_pow, h2'] <;> ring
  · ext i j
    simp only [Matrix.mul_apply, Fin.sum_univ_two, Matrix.transpose_apply]
    fin_cases i <;> fin_cases j <;> simp
  · intro i; fin_cases i <;> simp <;> positivity
  · intro i j hij
    fin_cases i <;> fin_cases j <;> simp at hij ⊢
    exact ha.le
  · have e1 : Real.sqrt 2 * a * (Real.sqrt 2 * a) = 2 * (a * a) := by linear_combination a * a * h2
    have e2 : Real.sqrt 2 * t * (Real.sqrt 2 * t) = 2 * (t * t) := by linear_combination t * t * h2
    simp only [Fin.sum_univ_two, Matrix.cons_val_zero, Matrix.cons_val_one, e1, e2]
    rw [one_div_mul_eq_div, div_lt_div_iff₀ (by norm_num) (by positivity)]
    nlinarith
  · simp [colVar, colMean, Fin.sum_univ_two]
  · simp [colVar, colMean, Fin.sum_univ_two]
    positivity

example : ∃ (S : Fin 2 → ℝ) (V : Matrix (Fin 2) (Fin 2) ℝ) (f : Fitted 2), IsSVD !![1, 10; -1, 10] S V ∧ fit 2 { minVarianceRatio := 0, nComponents := 1 } S V = some f ∧ 1 / 2 < f.ratio 0 := by
  obtain ⟨S, V, f, h1, h2, h3, -⟩ := C117_uncentred_violated { minVarianceRatio := 0, nComponents := 1 } 1 10 (by norm_num) (by norm_num)
  exact ⟨S, V, f, h1, h2, h3⟩

/-- Centred data meeting the hypotheses of `C117_centred_partial`: the column `1, -1`. -/
example : ∃ f : Fitted 1, fit 2 { minVarianceRatio := 0, nComponents := 0 } (fun _ : Fin 1 => Real.sqrt 2) 1 = some f ∧
    f.ratio 0 = colVar (fun i => ∑ j, (!![1; -1] : Matrix (Fin 2) (Fin 1) ℝ) i j * (1 : Matrix (Fin 1) (Fin 1) ℝ) j 0) / ∑ j, colVar (fun i => (!![1; -1] : Matrix (Fin 2) (Fin 1) ℝ) i j) := by
  refine ⟨_, by rw [fit, if_neg (by norm_num)], ?_⟩
  refine C117_centred_partial { minVarianceRatio := 0, nComponents := 0 } !![1; -1] (fun _ => Real.sqrt 2) 1 ⟨?_, by simp, fun _ => Real.sqrt_nonneg 2, fun _ _ _ => le_refl _⟩ ?_ ?_ _
    (by rw [fit, if_neg (by norm_num)]) 0
  · ext i j; fin_cases i; fin_cases j; simp [Matrix.mul_apply, Fin.sum_univ_two]; norm_num
  · intro h0; have := congrFun (congrFun h0 0) 0; simp at this
  · intro j; fin_cases j; simp [colMean, Fin.sum_univ_two]

end Sk.Pca
