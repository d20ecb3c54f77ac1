import Verif.Props.Pca
import Mathlib.Algebra.BigOperators.Fin

/-! # C203: what a principal component analysis does not depend on -/

set_option autoImplicit false

namespace Sk.Pca

open Matrix

theorem top_orth {c k : ℕ} {V : Matrix (Fin c) (Fin c) ℝ} (h : Vᵀ * V = 1) (hk : k ≤ c) : (V.submatrix id (Fin.castLE hk))ᵀ * V.submatrix id (Fin.castLE hk) = 1 := by
  ext i j
  have := congrFun (congrFun h (Fin.castLE hk i)) (Fin.castLE hk j)
  rw [Matrix.mul_apply] at this ⊢
  simp only [Matrix.transpose_apply, Matrix.submatrix_apply, id] at this ⊢
  rw [this, Matrix.one_apply, Matrix.one_apply]
  by_cases hij : i = j
  · subst hij; simp
  · rw [if_neg hij, if_neg]
    intro e
    exact hij (Fin.ext (by simpa using congrArg Fin.val e))

/-- The sum of the first `k` squared singular values is the greatest size of `X` in `k` directions. -/
theorem top_le {n c k : ℕ} (hn : c ≤ n) (hk : k ≤ c) {X : Matrix (Fin n) (Fin c) ℝ} {S S' : Fin c → ℝ} {V V' : Matrix (Fin c) (Fin c) ℝ} (h : IsSVD X S V) (h' : IsSVD X S' V') :
    ∑ i : Fin k, S' (Fin.castLE hk i) ^ 2 ≤ ∑ i : Fin k, S (Fin.castLE hk i) ^ 2 := by
  rcases Nat.eq_zero_or_pos k with rfl | hk0
  · simp
  have key : ∀ {S : Fin c → ℝ} {V : Matrix (Fin c) (Fin c) ℝ}, IsSVD X S V → sqSum (X * V.submatrix id (Fin.castLE hk)) = ∑ i : Fin k, S (Fin.castLE hk i) ^ 2 ∧
      ∀ W : Matrix (Fin c) (Fin k) ℝ, Wᵀ * W = 1 → sqSum (X * W) ≤ sqSum (X * V.submatrix id (Fin.castLE hk)) := by
    intro S V h
    let f : Fitted c := { V := V, singularValues := S, ratio := fun i => 1 / (∑ j, S j * S j) * (S i * S i), cfg := ⟨0, k⟩ }
    have hf : fit n ⟨0, k⟩ S V = some f := by
      rw [fit, if_neg (by omega)]
      simp only [lt_irrefl, if_false, if_neg hk0.ne']
      rfl
    have hZ : transform f X = some (X * V.submatrix id (Fin.castLE hk)) := by
      rw [transform, dif_pos ⟨hk0, hk⟩]
    exact C114_optimal ⟨0, k⟩ X S V h f hf hk _ hZ
  rw [← (key h').1, ← (key h).1]
  exact (key h).2 _ (top_orth h'.orth hk)

theorem values_unique {n c : ℕ} (hn : c ≤ n) {X : Matrix (Fin n) (Fin c) ℝ} {S S' : Fin c → ℝ} {V V' : Matrix (Fin c) (Fin c) ℝ} (h : IsSVD X S V) (h' : IsSVD X S' V') (i : Fin c) : S' i = S i := by
  have hs : ∀ (k : ℕ) (hk : k ≤ c), ∑ i : Fin k, S' (Fin.castLE hk i) ^ 2 = ∑ i : Fin k, S (Fin.castLE hk i) ^ 2 := fun k hk => le_antisymm (top_le hn hk h h') (top_le hn hk h' h)
  have h1 := hs (i.val + 1) i.isLt
  have h0 := hs i.val i.isLt.le
  rw [Fin.sum_univ_castSucc, Fin.sum_univ_castSucc] at h1
  have e : ∀ j : Fin i.val, Fin.castLE i.isLt j.castSucc = Fin.castLE i.isLt.le j := fun j => rfl
  have el : Fin.castLE i.isLt (Fin.last i.val) = i := rfl
  simp only [el] at h1
  have h0' : ∑ j : Fin i.val, S' (Fin.castLE i.isLt j.castSucc) ^ 2 = ∑ j : Fin i.val, S (Fin.castLE i.isLt j.castSucc) ^ 2 := h0
  have hsq : S' i ^ 2 = S i ^ 2 := by linarith
  exact (pow_left_inj₀ (h'.nonneg i) (h.nonneg i) two_ne_zero).1 hsq

/-- A decomposition of moved data from one of the original data. -/
theorem svd_move {n n' c : ℕ} {X : Matrix (Fin n) (Fin c) ℝ} {S : Fin c → ℝ} {V : Matrix (Fin c) (Fin c) ℝ} (h : IsSVD X S V) (a : ℝ) (Q : Matrix (Fin n') (Fin n) ℝ) (hQ : Qᵀ * Q = 1)
    (R : Matrix (Fin c) (Fin c) ℝ) (hR : Rᵀ * R = 1) : IsSVD (a • (Q * X * R)) (fun i => |a| * S i) (Rᵀ * V) := by
  have hRt : R * Rᵀ = 1 := mul_eq_one_comm.1 hR
  refine ⟨?_, ?_, fun i => mul_nonneg (abs_nonneg a) (h.nonneg i), fun i j hij => mul_le_mul_of_nonneg_left (h.desc i j hij) (abs_nonneg a)⟩
  · have hd : diagonal (fun i => (|a| * S i) ^ 2) = (a * a) • diagonal (fun i => S i ^ 2) := by
      ext i j
      rw [Matrix.smul_apply, smul_eq_mul, Matrix.diagonal_apply, Matrix.diagonal_apply]
      split
      · rw [mul_pow, sq_abs]; ring
      · ring
    rw [hd, Matrix.transpose_smul, Matrix.smul_mul, Matrix.mul_smul, smul_smul, Matrix.mul_smul, Matrix.smul_mul, Matrix.transpose_mul, Matrix.transpose_mul, Matrix.transpose_mul, Matrix.transpose_transpose]
    congr 1
    calc Rᵀ * (Xᵀ * Qᵀ) * (Q * X * R) = Rᵀ * (Xᵀ * ((Qᵀ * Q) * X)) * R := by simp only [Matrix.mul_assoc]
      _ = Rᵀ * (Xᵀ * X) * R := by rw [hQ, Matrix.one_mul]
      _ = _ := by rw [h.gram]; simp only [Matrix.mul_assoc]
  · rw [Matrix.transpose_mul, Matrix.transpose_transpose]
    calc Vᵀ * R * (Rᵀ * V) = Vᵀ * ((R * Rᵀ) * V) := by simp only [Matrix.mul_assoc]
      _ = 1 := by rw [hRt, Matrix.one_mul, h.orth]

/-- The projector onto the first `k` directions. -/
def projector {c : ℕ} (k : ℕ) (V : Matrix (Fin c) (Fin c) ℝ) : Matrix (Fin c) (Fin c) ℝ := V * diagonal (fun i : Fin c => if i.val < k then 1 else 0) * Vᵀ

theorem projector_unique {n c : ℕ} (hn : c ≤ n) {X : Matrix (Fin n) (Fin c) ℝ} {S S' : Fin c → ℝ} {V V' : Matrix (Fin c) (Fin c) ℝ} (h : IsSVD X S V) (h' : IsSVD X S' V') (k : ℕ)
    (hgap : ∀ i j : Fin c, i.val < k → k ≤ j.val → S j < S i) : projector k V' = projector k V := by
  have hS : S' = S := funext (values_unique hn h h')
  subst hS
  set E : Matrix (Fin c) (Fin c) ℝ := diagonal (fun i : Fin c => if i.val < k then 1 else 0) with hE
  set D : Matrix (Fin c) (Fin c) ℝ := diagonal (fun i => S' i ^ 2) with hD
  have hVt : V * Vᵀ = 1 := mul_eq_one_comm.1 h.orth
  have hVt' : V' * V'ᵀ = 1 := mul_eq_one_comm.1 h'.orth
  set T := Vᵀ * V' with hT
  have hV' : V' = V * T := by rw [hT, ← Matrix.mul_assoc, hVt, Matrix.one_mul]
  have hTT : T * Tᵀ = 1 := by
    rw [hT, Matrix.transpose_mul, Matrix.transpose_transpose]
    calc Vᵀ * V' * (V'ᵀ * V) = Vᵀ * ((V' * V'ᵀ) * V) := by simp only [Matrix.mul_assoc]
      _ = 1 := by rw [hVt', Matrix.one_mul, h.orth]
  have hcomm : D * T = T * D := by
    have e1 : Vᵀ * (Xᵀ * X) * V' = D * T := by
      rw [h.gram, hT]
      calc Vᵀ * (V * D * Vᵀ) * V' = (Vᵀ * V) * D * (Vᵀ * V') := by simp only [Matrix.mul_assoc]
        _ = _ := by rw [h.orth, Matrix.one_mul]
    have e2 : Vᵀ * (Xᵀ * X) * V' = T * D := by
      rw [h'.gram, hT]
      calc Vᵀ * (V' * D * V'ᵀ) * V' = Vᵀ * V' * D * (V'ᵀ * V') := by simp only [Matrix.mul_assoc]
        _ = _ := by rw [h'.orth, Matrix.mul_one]
    rw [← e1, e2]
  have hzero : ∀ i j, S' i ≠ S' j → T i j = 0 := by
    intro i j hne
    have := congrFun (congrFun hcomm i) j
    rw [hD, Matrix.diagonal_mul, Matrix.mul_diagonal] at this
    have hne2 : S' i ^ 2 - S' j ^ 2 ≠ 0 := by
      intro e
      exact hne ((pow_left_inj₀ (h.nonneg i) (h.nonneg j) two_ne_zero).1 (by linarith))
    have : (S' i ^ 2 - S' j ^ 2) * T i j = 0 := by linear_combination this
    exact (mul_eq_zero.1 this).resolve_left hne2
  have hET : T * E = E * T := by
    ext i j
    rw [hE, Matrix.diagonal_mul, Matrix.mul_diagonal]
    by_cases hi : i.val < k <;> by_cases hj : j.val < k
    · rw [if_pos hi, if_pos hj]; ring
    · rw [hzero i j (hgap i j hi (by omega)).ne']; ring
    · rw [hzero i j (hgap j i hj (by omega)).ne]; ring
    · rw [if_neg hi, if_neg hj]; ring
  rw [projector, projector, ← hE, hV', Matrix.transpose_mul]
  calc V * T * E * (Tᵀ * Vᵀ) = V * (T * E * Tᵀ) * Vᵀ := by simp only [Matrix.mul_assoc]
    _ = V * E * Vᵀ := by rw [hET, Matrix.mul_assoc E T, hTT, Matrix.mul_one]

theorem top_mul {c k : ℕ} (V : Matrix (Fin c) (Fin c) ℝ) (hk : k ≤ c) : V.submatrix id (Fin.castLE hk) * (V.submatrix id (Fin.castLE hk))ᵀ = projector k V := by
  ext a b
  rw [projector, Matrix.mul_apply, Matrix.mul_apply]
  simp only [Matrix.mul_diagonal, Matrix.submatrix_apply, Matrix.transpose_apply, id]
  have : ∀ l : Fin c, V a l * (if l.val < k then 1 else 0) * V b l = if l.val < k then V a l * V b l else 0 := by
    intro l; split <;> ring
  simp only [this]
  rw [← Finset.sum_filter]
  refine Finset.sum_bij (fun i _ => Fin.castLE hk i) ?_ ?_ ?_ ?_
  · intro i _; simp
  · intro i _ j _ e; exact Fin.ext (by simpa using congrArg Fin.val e)
  · intro l hl
    exact ⟨⟨l.val, (Finset.mem_filter.1 hl).2⟩, Finset.mem_univ _, rfl⟩
  · intro i _; rfl

theorem transform_gram {c m : ℕ} (f : Fitted c) (A : Matrix (Fin m) (Fin c) ℝ) (Z : Matrix (Fin m) (Fin f.cfg.nComponents) ℝ) (hZ : transform f A = some Z) : Z * Zᵀ = A * projector f.cfg.nComponents f.V * Aᵀ := by
  unfold transform at hZ
  split at hZ
  · rename_i h
    rw [← Option.some.inj hZ, ← top_mul f.V h.2, Matrix.transpose_mul]
    simp only [Matrix.mul_assoc]
  · cases hZ

/-- **C203.** Two fits with the same settings: one to `X`, one to `X` with its rows combined by an isometry (put in another order, for instance, or with rows of zeros added), its features rotated, put in another order or
mirrored, and all values multiplied by `a ≠ 0`; each with any singular value decomposition. The singular values differ by the factor `|a|`, the explained ratios and the number of components are the same. If the last
component kept is separated from the first one dropped, the scalar products of all transformed rows are the same up to the factor `a²`, and so are their distances. -/
theorem C203_moved {n n' c : ℕ} (cfg : Config) (X : Matrix (Fin n) (Fin c) ℝ) (a : ℝ) (ha : a ≠ 0) (Q : Matrix (Fin n') (Fin n) ℝ) (hQ : Qᵀ * Q = 1) (R : Matrix (Fin c) (Fin c) ℝ) (hR : Rᵀ * R = 1)
    (S S' : Fin c → ℝ) (V V' : Matrix (Fin c) (Fin c) ℝ) (h : IsSVD X S V) (h' : IsSVD (a • (Q * X * R)) S' V') (f f' : Fitted c) (hf : fit n cfg S V = some f) (hf' : fit n' cfg S' V' = some f') :
    (∀ i, f'.singularValues i = |a| * f.singularValues i) ∧ f'.ratio = f.ratio ∧ f'.cfg = f.cfg ∧
    ((∀ i j : Fin c, i.val < f.cfg.nComponents → f.cfg.nComponents ≤ j.val → S j < S i) → ∀ (m : ℕ) (A : Matrix (Fin m) (Fin c) ℝ) Z Z', transform f A = some Z → transform f' (a • (A * R)) = some Z' →
      Z' * Z'ᵀ = (a * a) • (Z * Zᵀ) ∧ ∀ r s, ∑ j, (Z' r j - Z' s j) ^ 2 = a * a * ∑ j, (Z r j - Z s j) ^ 2) := by
  have hn' : c ≤ n' := by
    by_contra hlt
    rw [fit, if_pos (by omega)] at hf'
    cases hf'
  have hm := svd_move h a Q hQ R hR
  have hS : ∀ i, S' i = |a| * S i := values_unique hn' hm h'
  have hRt : R * Rᵀ = 1 := mul_eq_one_comm.1 hR
  have ha2 : a * a ≠ 0 := mul_ne_zero ha ha
  have hr : (fun i => 1 / (∑ j, S' j * S' j) * (S' i * S' i)) = fun i => 1 / (∑ j, S j * S j) * (S i * S i) := by
    have e : ∀ i, S' i * S' i = a * a * (S i * S i) := by
      intro i
      rw [hS]
      have := abs_mul_abs_self a
      linear_combination S i * S i * this
    funext i
    simp only [e, ← Finset.mul_sum]
    by_cases h0 : ∑ j, S j * S j = 0
    · rw [h0]; simp
    · field_simp
  unfold fit at hf hf'
  split at hf
  · cases hf
  split at hf'
  · cases hf'
  simp only [hr] at hf'
  have hf := (Option.some.inj hf).symm
  have hf' := (Option.some.inj hf').symm
  have hcfg : f'.cfg = f.cfg := by rw [hf, hf']
  have hV : f.V = V := by rw [hf]
  have hV' : f'.V = V' := by rw [hf']
  refine ⟨fun i => by rw [hf, hf']; exact hS i, by rw [hf, hf'], hcfg, ?_⟩
  intro hgap m A Z Z' hZ hZ'
  have g1 := transform_gram f A Z hZ
  have g2 := transform_gram f' _ Z' hZ'
  have hp : projector f'.cfg.nComponents f'.V = Rᵀ * projector f.cfg.nComponents f.V * R := by
    rw [hV, hV', hcfg, projector_unique hn' hm h' f.cfg.nComponents (fun i j hi hj => mul_lt_mul_of_pos_left (hgap i j hi hj) (abs_pos.2 ha))]
    simp only [projector, Matrix.transpose_mul, Matrix.transpose_transpose, Matrix.mul_assoc]
  have hg : Z' * Z'ᵀ = (a * a) • (Z * Zᵀ) := by
    rw [g1, g2, hp, Matrix.transpose_smul, Matrix.mul_smul, Matrix.smul_mul, Matrix.smul_mul, smul_smul, Matrix.transpose_mul]
    congr 1
    calc A * R * (Rᵀ * projector f.cfg.nComponents f.V * R) * (Rᵀ * Aᵀ) = A * ((R * Rᵀ) * projector f.cfg.nComponents f.V * (R * Rᵀ)) * Aᵀ := by simp only [Matrix.mul_assoc]
      _ = _ := by rw [hRt, Matrix.one_mul, Matrix.mul_one]
  refine ⟨hg, fun r s => ?_⟩
  have hd : ∀ {k : ℕ} (Y : Matrix (Fin m) (Fin k) ℝ), ∑ j, (Y r j - Y s j) ^ 2 = (Y * Yᵀ) r r - 2 * (Y * Yᵀ) r s + (Y * Yᵀ) s s := by
    intro k Y
    simp only [Matrix.mul_apply, Matrix.transpose_apply]
    rw [Finset.mul_sum, ← Finset.sum_sub_distrib, ← Finset.sum_add_distrib]
    exact Finset.sum_congr rfl (fun j _ => by ring)
  rw [hd, hd, hg]
  simp only [Matrix.smul_apply, smul_eq_mul]
  ring

/-- The hypotheses can be met: `diag(2, 1)` with its rows exchanged, its first feature mirrored, and everything tripled; one component. -/
example : ∃ (X : Matrix (Fin 2) (Fin 2) ℝ) (S : Fin 2 → ℝ) (Q R : Matrix (Fin 2) (Fin 2) ℝ) (f : Fitted 2), IsSVD X S 1 ∧ Qᵀ * Q = 1 ∧ Rᵀ * R = 1 ∧ IsSVD ((3 : ℝ) • (Q * X * R)) (fun i => |3| * S i) (Rᵀ * 1) ∧
    fit 2 ⟨0, 1⟩ S 1 = some f ∧ f.cfg.nComponents = 1 ∧ ∀ i j : Fin 2, i.val < f.cfg.nComponents → f.cfg.nComponents ≤ j.val → S j < S i := by
  have h : IsSVD (!![2, 0; 0, 1] : Matrix (Fin 2) (Fin 2) ℝ) ![2, 1] 1 := by
    refine ⟨?_, by simp, ?_, ?_⟩
    · ext i j; fin_cases i <;> fin_cases j <;> simp [Matrix.mul_apply] <;> norm_num
    · intro i; fin_cases i <;> simp
    · intro i j hij; fin_cases i <;> fin_cases j <;> simp at hij ⊢
  have hQ : (!![0, 1; 1, 0] : Matrix (Fin 2) (Fin 2) ℝ)ᵀ * !![0, 1; 1, 0] = 1 := by
    ext i j; fin_cases i <;> fin_cases j <;> simp [Matrix.mul_apply]
  have hR : (!![-1, 0; 0, 1] : Matrix (Fin 2) (Fin 2) ℝ)ᵀ * !![-1, 0; 0, 1] = 1 := by
    ext i j; fin_cases i <;> fin_cases j <;> simp [Matrix.mul_apply]
  refine ⟨_, _, _, _, _, h, hQ, hR, svd_move h 3 _ hQ _ hR, by rw [fit, if_neg (by norm_num)], by simp, ?_⟩
  intro i j hi hj
  simp at hi hj
  fin_cases i <;> fin_cases j <;> simp at hi hj ⊢

end Sk.Pca
