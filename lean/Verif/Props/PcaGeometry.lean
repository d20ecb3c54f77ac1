import Verif.Props.PcaInv
import Mathlib.Algebra.BigOperators.Fin
import Mathlib.Algebra.Order.BigOperators.Group.Finset
import Mathlib.Tactic.Linarith
import Mathlib.Tactic.Ring

/-! # C219: geometry of the transformed data -/
set_option autoImplicit false

namespace Sk.Pca

open Matrix

/-! ## Specification -/

/-- Squared distance between two rows of a table. -/
noncomputable def rowDist {m k : ℕ} (A : Matrix (Fin m) (Fin k) ℝ) (a b : Fin m) : ℝ := ∑ j, (A a j - A b j) ^ 2

/-! ## Proof -/

theorem fit_V {c n : ℕ} {cfg : Config} {S : Fin c → ℝ} {V : Matrix (Fin c) (Fin c) ℝ} {f : Fitted c} (hf : fit n cfg S V = some f) : f.V = V ∧ f.singularValues = S := by
  unfold fit at hf
  split at hf
  · cases hf
  · cases hf
    exact ⟨rfl, rfl⟩

theorem transform_eq {c m : ℕ} {f : Fitted c} {A : Matrix (Fin m) (Fin c) ℝ} {Z : Matrix (Fin m) (Fin f.cfg.nComponents) ℝ} (hZ : transform f A = some Z) :
    ∃ hk : f.cfg.nComponents ≤ c, ∀ i k, Z i k = (A * f.V) i (Fin.castLE hk k) := by
  unfold transform at hZ
  split at hZ
  · rename_i h
    cases hZ
    exact ⟨h.2, fun i k => rfl⟩
  · cases hZ

/-- **C219.** The components of the transformed training data are orthogonal to each other; the sum of squares of the `i`-th is the square of the `i`-th singular value. -/
theorem C219_orthogonal {n c : ℕ} (cfg : Config) (X : Matrix (Fin n) (Fin c) ℝ) (S : Fin c → ℝ) (V : Matrix (Fin c) (Fin c) ℝ) (h : IsSVD X S V) (f : Fitted c) (hf : fit n cfg S V = some f)
    (Z : Matrix (Fin n) (Fin f.cfg.nComponents) ℝ) (hZ : transform f X = some Z) :
    (∀ i j, i ≠ j → ∑ r, Z r i * Z r j = 0) ∧ ∃ hk : f.cfg.nComponents ≤ c, ∀ i, ∑ r, Z r i ^ 2 = f.singularValues (Fin.castLE hk i) ^ 2 := by
  obtain ⟨hV, hS⟩ := fit_V hf
  obtain ⟨hk, hz⟩ := transform_eq hZ
  rw [hV] at hz
  have hg : (X * V)ᵀ * (X * V) = diagonal (fun i => S i ^ 2) := by
    calc (X * V)ᵀ * (X * V) = Vᵀ * (Xᵀ * X) * V := by simp only [transpose_mul, Matrix.mul_assoc]
      _ = (Vᵀ * V) * diagonal (fun i => S i ^ 2) * (Vᵀ * V) := by rw [h.gram]; simp only [Matrix.mul_assoc]
      _ = _ := by rw [h.orth, Matrix.one_mul, Matrix.mul_one]
  have key : ∀ i j, ∑ r, Z r i * Z r j = diagonal (fun i => S i ^ 2) (Fin.castLE hk i) (Fin.castLE hk j) := by
    intro i j
    rw [← hg, Matrix.mul_apply]
    exact Finset.sum_congr rfl fun r _ => by rw [transpose_apply, hz, hz]
  refine ⟨fun i j hij => ?_, hk, fun i => ?_⟩
  · rw [key, diagonal_apply_ne]
    exact fun e => hij (Fin.castLE_injective hk e)
  · have := key i i
    rw [diagonal_apply_eq] at this
    rw [hS, ← this]
    exact Finset.sum_congr rfl fun r _ => by ring

/-- **C219.** Transform never moves two rows apart (rows of any table, not only of the training data), and keeps all distances when all components are kept. -/
theorem C219_distances {n c m : ℕ} (cfg : Config) (X : Matrix (Fin n) (Fin c) ℝ) (S : Fin c → ℝ) (V : Matrix (Fin c) (Fin c) ℝ) (h : IsSVD X S V) (f : Fitted c) (hf : fit n cfg S V = some f)
    (A : Matrix (Fin m) (Fin c) ℝ) (Z : Matrix (Fin m) (Fin f.cfg.nComponents) ℝ) (hZ : transform f A = some Z) (a b : Fin m) :
    rowDist Z a b ≤ rowDist A a b ∧ (f.cfg.nComponents = c → rowDist Z a b = rowDist A a b) := by
  obtain ⟨hV, -⟩ := fit_V hf
  obtain ⟨hk, hz⟩ := transform_eq hZ
  rw [hV] at hz
  have hVV : V * Vᵀ = 1 := mul_eq_one_comm.1 h.orth
  -- all components: an isometry
  have hall : rowDist (A * V) a b = rowDist A a b := by
    have e : ∀ B : Matrix (Fin m) (Fin c) ℝ, rowDist B a b = (B * Bᵀ) a a - 2 * (B * Bᵀ) a b + (B * Bᵀ) b b := by
      intro B
      simp only [rowDist, Matrix.mul_apply, transpose_apply, Finset.mul_sum]
      rw [← Finset.sum_sub_distrib, ← Finset.sum_add_distrib]
      exact Finset.sum_congr rfl fun j _ => by ring
    have e2 : A * V * (A * V)ᵀ = A * Aᵀ := by
      rw [transpose_mul, Matrix.mul_assoc, ← Matrix.mul_assoc V, hVV, Matrix.one_mul]
    rw [e, e, e2]
  have hsub : rowDist Z a b = ∑ k, (fun i => ((A * V) a i - (A * V) b i) ^ 2) (Fin.castLE hk k) := by
    unfold rowDist
    exact Finset.sum_congr rfl fun k _ => by rw [hz, hz]
  constructor
  · rw [← hall, hsub]
    have := Finset.sum_map Finset.univ (Fin.castLEEmb hk) (fun i => ((A * V) a i - (A * V) b i) ^ 2)
    simp only [Fin.coe_castLEEmb] at this
    rw [← this]
    exact Finset.sum_le_univ_sum_of_nonneg fun i => sq_nonneg _
  · intro hc
    rw [← hall, hsub]
    unfold rowDist
    exact (finCongr hc).sum_comp (fun i => ((A * V) a i - (A * V) b i) ^ 2)

/-- **C219.** Fewer components are the first ones of more components: fits of the same data that keep `k ≤ k'` components give tables that agree in the first `k` columns. -/
theorem C219_nested {n c m : ℕ} (cfg cfg' : Config) (S : Fin c → ℝ) (V : Matrix (Fin c) (Fin c) ℝ) (f f' : Fitted c) (hf : fit n cfg S V = some f) (hf' : fit n cfg' S V = some f')
    (hk : f.cfg.nComponents ≤ f'.cfg.nComponents) (A : Matrix (Fin m) (Fin c) ℝ) (Z : Matrix (Fin m) (Fin f.cfg.nComponents) ℝ) (Z' : Matrix (Fin m) (Fin f'.cfg.nComponents) ℝ)
    (hZ : transform f A = some Z) (hZ' : transform f' A = some Z') : ∀ i k, Z' i (Fin.castLE hk k) = Z i k := by
  obtain ⟨k1, h1⟩ := transform_eq hZ
  obtain ⟨k2, h2⟩ := transform_eq hZ'
  intro i k
  rw [h1, h2, (fit_V hf).1, (fit_V hf').1]
  rfl

theorem take_ofFn_sum {c k : ℕ} (hk : k ≤ c) (g : Fin c → ℝ) : ((List.ofFn g).take k).sum = ∑ i : Fin k, g (Fin.castLE hk i) := by
  rw [← List.sum_ofFn]
  congr 1
  apply List.ext_getElem
  · simp [hk]
  · intro i h1 h2
    simp

/-- **C219.** With `MinVarianceRatio` in (0, 1] the transformed training data keep at least that part of the sum of squares of the data. -/
theorem C219_kept {n c : ℕ} (cfg : Config) (X : Matrix (Fin n) (Fin c) ℝ) (S : Fin c → ℝ) (V : Matrix (Fin c) (Fin c) ℝ) (h : IsSVD X S V) (hX : X ≠ 0) (f : Fitted c) (hf : fit n cfg S V = some f)
    (h0 : 0 < cfg.minVarianceRatio) (h1 : cfg.minVarianceRatio ≤ 1) : ∃ Z, transform f X = some Z ∧ cfg.minVarianceRatio * sqSum X ≤ sqSum Z ∧ sqSum Z ≤ sqSum X := by
  obtain ⟨r0, -, rs, rv, -, rm⟩ := C114_components cfg X S V h hX f hf
  obtain ⟨hk, hlt, hge⟩ := rm h0
  have hpos : 0 < f.cfg.nComponents := by
    by_contra hn
    have hz : f.cfg.nComponents = 0 := by omega
    rcases hge with e | e
    · have hc : c = 0 := by omega
      subst hc
      simp at rs
    · rw [hz] at e
      simp at e
      linarith
  have hT : ∃ Z, transform f X = some Z := by
    unfold transform
    rw [dif_pos ⟨hpos, hk⟩]
    exact ⟨_, rfl⟩
  obtain ⟨Z, hZ⟩ := hT
  have hsq := (C114_optimal cfg X S V h f hf hk Z hZ).1
  have hXpos : 0 < sqSum X := by
    unfold sqSum
    obtain ⟨i, j, hij⟩ : ∃ i j, X i j ≠ 0 := by
      by_contra hn
      push Not at hn
      exact hX (by ext i j; exact hn i j)
    refine Finset.sum_pos' (fun i _ => Finset.sum_nonneg fun j _ => sq_nonneg _) ⟨i, Finset.mem_univ _, Finset.sum_pos' (fun j _ => sq_nonneg _) ⟨j, Finset.mem_univ _, by positivity⟩⟩
  have hfrac : sqSum Z = (∑ i : Fin f.cfg.nComponents, f.ratio (Fin.castLE hk i)) * sqSum X := by
    rw [hsq, Finset.sum_mul]
    exact Finset.sum_congr rfl fun i _ => by rw [rv, div_mul_cancel₀ _ hXpos.ne']
  have hle1 : ∑ i : Fin f.cfg.nComponents, f.ratio (Fin.castLE hk i) ≤ 1 := by
    rw [← rs]
    have := Finset.sum_map Finset.univ (Fin.castLEEmb hk) f.ratio
    simp only [Fin.coe_castLEEmb] at this
    rw [← this]
    exact Finset.sum_le_univ_sum_of_nonneg r0
  have hgem : cfg.minVarianceRatio ≤ ∑ i : Fin f.cfg.nComponents, f.ratio (Fin.castLE hk i) := by
    rcases hge with e | e
    · have : ∑ i : Fin f.cfg.nComponents, f.ratio (Fin.castLE hk i) = ∑ i, f.ratio i := (finCongr e).sum_comp f.ratio
      rw [this, rs]
      exact h1
    · rwa [take_ofFn_sum hk] at e
  refine ⟨Z, hZ, ?_, ?_⟩
  · rw [hfrac]
    exact mul_le_mul_of_nonneg_right hgem hXpos.le
  · rw [hfrac]
    nlinarith

/-- Hypotheses met: a decomposition of `diag(2, 1)`, fitted with `MinVarianceRatio = 0.8`. -/
example : IsSVD (!![2, 0; 0, 1] : Matrix (Fin 2) (Fin 2) ℝ) ![2, 1] 1 ∧ (!![2, 0; 0, 1] : Matrix (Fin 2) (Fin 2) ℝ) ≠ 0 ∧ (fit 2 ⟨4 / 5, 0⟩ (![2, 1] : Fin 2 → ℝ) 1).isSome := by
  refine ⟨⟨?_, by simp, ?_, ?_⟩, ?_, ?_⟩
  · ext i j; fin_cases i <;> fin_cases j <;> simp [Matrix.mul_apply] <;> norm_num
  · intro i; fin_cases i <;> simp
  · intro i j hij; fin_cases i <;> fin_cases j <;> simp at hij ⊢
  · intro h0; have := congrFun (congrFun h0 0) 0; simp at this
  · rw [fit, if_neg (by norm_num)]; rfl

end Sk.Pca
