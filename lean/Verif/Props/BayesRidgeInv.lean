import Verif.Model.BayesRidgeFit
import Verif.Props.BayesRidge
import Verif.Props.Linear

/-! # C200: what a Bayesian ridge regression does not depend on -/
set_option autoImplicit false

namespace Sk.Bayes

open Matrix
open Sk.Lin (colMean Varies spread decision Coefs)

variable {n p q : ℕ}

/-! ## Specification -/

/-- The features as they enter the decomposition: centred with `FitIntercept`, and divided by their spread with `Normalize` as well. -/
noncomputable def prepared (fitIntercept normalize : Bool) (X : Fin n → Fin p → ℝ) : Matrix (Fin n) (Fin p) ℝ :=
  Matrix.of fun i j => (X i j - if fitIntercept then colMean (fun i => X i j) else 0) / (if fitIntercept && normalize then spread (fun i => X i j) else 1)

/-- The priors are proper and there is at least one iteration. -/
structure Proper (h : Hyper) : Prop where
  iter : 0 < h.nIter
  alpha1 : 0 < h.alpha1
  alpha2 : 0 < h.alpha2
  lambda1 : 0 < h.lambda1
  lambda2 : 0 < h.lambda2

/-- A sign. -/
def IsSign (s : ℝ) : Prop := s = 1 ∨ s = -1

/-! ## The loop -/

theorem IsSign.sq {s : ℝ} (h : IsSign s) : s * s = 1 := by rcases h with rfl | rfl <;> norm_num

theorem IsSign.abs {s : ℝ} (h : IsSign s) : |s| = 1 := by rcases h with rfl | rfl <;> simp

/-- Coefficients for the changed data. -/
def moved (σ : Equiv.Perm (Fin p)) (τ : Equiv.Perm (Fin q)) (s : Fin p → ℝ) (c : Fin q → ℝ) (w : Matrix (Fin p) (Fin q) ℝ) : Matrix (Fin p) (Fin q) ℝ := Matrix.of fun j o => s j * c o * w (σ j) (τ o)

theorem moved_surj (σ : Equiv.Perm (Fin p)) (τ : Equiv.Perm (Fin q)) (s : Fin p → ℝ) (c : Fin q → ℝ) (hs : ∀ j, IsSign (s j)) (hc : ∀ o, IsSign (c o)) (v : Matrix (Fin p) (Fin q) ℝ) : ∃ w, moved σ τ s c w = v := by
  refine ⟨Matrix.of fun j o => s (σ.symm j) * c (τ.symm o) * v (σ.symm j) (τ.symm o), ?_⟩
  ext j o
  simp only [moved, Matrix.of_apply, Equiv.symm_apply_apply]
  have h1 := (hs j).sq
  have h2 := (hc o).sq
  linear_combination (c o * c o * v j o) * h1 + v j o * h2

theorem moved_sq (σ : Equiv.Perm (Fin p)) (τ : Equiv.Perm (Fin q)) (s : Fin p → ℝ) (c : Fin q → ℝ) (hs : ∀ j, IsSign (s j)) (hc : ∀ o, IsSign (c o)) (w : Matrix (Fin p) (Fin q) ℝ) :
    ∑ j, ∑ o, moved σ τ s c w j o ^ 2 = ∑ j, ∑ o, w j o ^ 2 := by
  rw [← Equiv.sum_comp σ (fun j => ∑ o, w j o ^ 2)]
  refine Finset.sum_congr rfl fun j _ => ?_
  rw [← Equiv.sum_comp τ (fun o => w (σ j) o ^ 2)]
  refine Finset.sum_congr rfl fun o _ => ?_
  simp only [moved, Matrix.of_apply]
  have h1 := (hs j).sq
  have h2 := (hc o).sq
  linear_combination (c o * c o * w (σ j) (τ o) ^ 2) * h1 + w (σ j) (τ o) ^ 2 * h2

theorem moved_abs (σ : Equiv.Perm (Fin p)) (τ : Equiv.Perm (Fin q)) (s : Fin p → ℝ) (c : Fin q → ℝ) (hs : ∀ j, IsSign (s j)) (hc : ∀ o, IsSign (c o)) (w v : Matrix (Fin p) (Fin q) ℝ) :
    ∑ j, ∑ o, |moved σ τ s c w j o - moved σ τ s c v j o| = ∑ j, ∑ o, |w j o - v j o| := by
  rw [← Equiv.sum_comp σ (fun j => ∑ o, |w j o - v j o|)]
  refine Finset.sum_congr rfl fun j _ => ?_
  rw [← Equiv.sum_comp τ (fun o => |w (σ j) o - v (σ j) o|)]
  refine Finset.sum_congr rfl fun o _ => ?_
  simp only [moved, Matrix.of_apply]
  rw [← mul_sub, abs_mul, abs_mul, (hs j).abs, (hc o).abs, one_mul, one_mul]

theorem moved_resid (σ : Equiv.Perm (Fin p)) (τ : Equiv.Perm (Fin q)) (π : Equiv.Perm (Fin n)) (s : Fin p → ℝ) (c : Fin q → ℝ) (hs : ∀ j, IsSign (s j)) (hc : ∀ o, IsSign (c o))
    (X X' : Matrix (Fin n) (Fin p) ℝ) (Y Y' : Matrix (Fin n) (Fin q) ℝ) (hX : ∀ i j, X' i j = s j * X (π i) (σ j)) (hY : ∀ i o, Y' i o = c o * Y (π i) (τ o)) (w : Matrix (Fin p) (Fin q) ℝ) :
    ∑ i, ∑ o, (Y' i o - ∑ j, X' i j * moved σ τ s c w j o) ^ 2 = ∑ i, ∑ o, (Y i o - ∑ j, X i j * w j o) ^ 2 := by
  rw [← Equiv.sum_comp π (fun i => ∑ o, (Y i o - ∑ j, X i j * w j o) ^ 2)]
  refine Finset.sum_congr rfl fun i _ => ?_
  rw [← Equiv.sum_comp τ (fun o => (Y (π i) o - ∑ j, X (π i) j * w j o) ^ 2)]
  refine Finset.sum_congr rfl fun o _ => ?_
  have e : ∑ j, X' i j * moved σ τ s c w j o = c o * ∑ j, X (π i) j * w j (τ o) := by
    rw [← Equiv.sum_comp σ (fun j => X (π i) j * w j (τ o)), Finset.mul_sum]
    refine Finset.sum_congr rfl fun j _ => ?_
    simp only [moved, Matrix.of_apply, hX]
    have h1 := (hs j).sq
    linear_combination (X (π i) (σ j) * c o * w (σ j) (τ o)) * h1
  rw [e, hY]
  have h2 := (hc o).sq
  linear_combination ((Y (π i) (τ o) - ∑ j, X (π i) j * w j (τ o)) ^ 2) * h2

theorem moved_ridge (σ : Equiv.Perm (Fin p)) (τ : Equiv.Perm (Fin q)) (π : Equiv.Perm (Fin n)) (s : Fin p → ℝ) (c : Fin q → ℝ) (hs : ∀ j, IsSign (s j)) (hc : ∀ o, IsSign (c o))
    (X X' : Matrix (Fin n) (Fin p) ℝ) (Y Y' : Matrix (Fin n) (Fin q) ℝ) (hX : ∀ i j, X' i j = s j * X (π i) (σ j)) (hY : ∀ i o, Y' i o = c o * Y (π i) (τ o)) (a l : ℝ) (w w' : Matrix (Fin p) (Fin q) ℝ)
    (h : IsRidge X Y a l w) (h' : IsRidge X' Y' a l w') : w' = moved σ τ s c w := by
  have hobj : ∀ v, ridgeObjective X' Y' a l (moved σ τ s c v) = ridgeObjective X Y a l v := by
    intro v
    simp only [ridgeObjective]
    rw [moved_resid σ τ π s c hs hc X X' Y Y' hX hY, moved_sq σ τ s c hs hc]
  by_contra hne
  obtain ⟨v, rfl⟩ := moved_surj σ τ s c hs hc w'
  have k1 := h' (moved σ τ s c w) (Ne.symm hne)
  have k2 := h v (fun e => hne (by rw [e]))
  rw [hobj, hobj] at k1
  exact lt_asymm k1 k2

theorem fit_moved (h : Hyper) (hp : Proper h) (d d' : Data n p q) (l0 l0' : ℝ) (U U' : Matrix (Fin n) (Fin p) ℝ) (hsvd : IsSVD d.X U d.S d.V) (hsvd' : IsSVD d'.X U' d'.S d'.V) (hn : p < n) (hY0 : d.Y ≠ 0)
    (σ : Equiv.Perm (Fin p)) (τ : Equiv.Perm (Fin q)) (π : Equiv.Perm (Fin n)) (s : Fin p → ℝ) (c : Fin q → ℝ) (hs : ∀ j, IsSign (s j)) (hc : ∀ o, IsSign (c o))
    (hX : ∀ i j, d'.X i j = s j * d.X (π i) (σ j)) (hY : ∀ i o, d'.Y i o = c o * d.Y (π i) (τ o)) :
    ∃ f f', fit h d l0 = some f ∧ fit h d' l0' = some f' ∧ f'.coef = moved σ τ s c f.coef ∧ f'.alpha = f.alpha ∧ f'.lambda = f.lambda ∧ (∀ j k, f'.sigma j k = s j * s k * f.sigma (σ j) (σ k)) ∧
      0 < f.alpha ∧ ∃ b : ℝ, 0 < b ∧ (f.alpha • (d.Xᵀ * d.X) + b • (1 : Matrix (Fin p) (Fin p) ℝ)) * f.sigma = 1 := by
  have hY0' : d'.Y ≠ 0 := by
    intro h0
    apply hY0
    ext i o
    have := hY (π.symm i) (τ.symm o)
    rw [h0, Equiv.apply_symm_apply, Equiv.apply_symm_apply] at this
    rcases mul_eq_zero.1 this.symm with e | e
    · rcases hc (τ.symm o) with e' | e' <;> rw [e'] at e <;> norm_num at e
    · exact e
  obtain ⟨f, hf, α, l, w, K, a0, b0, r, b1, a1, K1, K2, K3, f1, f2, f3, f4⟩ := C111_fit_partial h d l0 U hsvd hn hY0 hp.iter hp.alpha1 hp.alpha2 hp.lambda1 hp.lambda2
  obtain ⟨f', hf', α', l', w', K', a0', b0', r', b1', a1', K1', K2', K3', f1', f2', f3', f4'⟩ := C111_fit_partial h d' l0' U' hsvd' hn hY0' hp.iter hp.alpha1 hp.alpha2 hp.lambda1 hp.lambda2
  have hα0 : α' 0 = α 0 := by
    rw [a0, a0']
    congr 1
    have := moved_resid σ τ π s c hs hc d.X d'.X d.Y d'.Y hX hY 0
    simpa [moved] using this
  have hseq : ∀ k, α' k = α k ∧ l' k = l k ∧ w' k = moved σ τ s c (w k) := by
    have step : ∀ k, α' k = α k → l' k = l k → w' k = moved σ τ s c (w k) := by
      intro k e1 e2
      have := (r' k).2.2
      rw [e1, e2] at this
      exact moved_ridge σ τ π s c hs hc d.X d'.X d.Y d'.Y hX hY _ _ _ _ (r k).2.2 this
    intro k
    induction k with
    | zero => exact ⟨hα0, by rw [b0, b0'], step 0 hα0 (by rw [b0, b0'])⟩
    | succ k ih =>
      have e1 : α' (k + 1) = α (k + 1) := by rw [a1, a1', ih.2.2, moved_resid σ τ π s c hs hc d.X d'.X d.Y d'.Y hX hY]
      have e2 : l' (k + 1) = l (k + 1) := by rw [b1, b1', ih.2.2, moved_sq σ τ s c hs hc]
      exact ⟨e1, e2, step _ e1 e2⟩
  have habs : ∀ k m, ∑ j, ∑ o, |w' k j o - w' m j o| = ∑ j, ∑ o, |w k j o - w m j o| := by
    intro k m
    rw [(hseq k).2.2, (hseq m).2.2, moved_abs σ τ s c hs hc]
  have hK : K' = K := by
    rcases Nat.lt_trichotomy K' K with hlt | heq | hgt
    · rcases K2' with e | ⟨e1, e2⟩
      · omega
      · rw [habs] at e2
        exact absurd e2 (not_lt.2 (K3 K' e1 hlt))
    · exact heq
    · rcases K2 with e | ⟨e1, e2⟩
      · omega
      · rw [← habs] at e2
        exact absurd e2 (not_lt.2 (K3' K e1 hgt))
  subst hK
  have hA : α' (K' + 1) = α (K' + 1) := (hseq _).1
  have hL : l' (K' + 1) = l (K' + 1) := (hseq _).2.1
  refine ⟨f, f', hf, hf', ?_, ?_, ?_, ?_, ?_, ?_⟩
  · rw [f1, f1', (hseq K').2.2]
  · rw [f3, f3', hA]
  · rw [f2, f2', (hseq K').2.1]
  · -- the inverse is unique
    set Z : Matrix (Fin p) (Fin p) ℝ := Matrix.of fun j k => s j * s k * f.sigma (σ j) (σ k) with hZ
    have hXX : ∀ j k, (d'.Xᵀ * d'.X) j k = s j * s k * (d.Xᵀ * d.X) (σ j) (σ k) := by
      intro j k
      simp only [Matrix.mul_apply, Matrix.transpose_apply, Finset.mul_sum]
      rw [← Equiv.sum_comp π (fun i => s j * s k * (d.X i (σ j) * d.X i (σ k)))]
      refine Finset.sum_congr rfl fun i _ => ?_
      rw [hX, hX]
      ring
    have hone : ∀ j k, (1 : Matrix (Fin p) (Fin p) ℝ) j k = s j * s k * (1 : Matrix (Fin p) (Fin p) ℝ) (σ j) (σ k) := by
      intro j k
      by_cases e : j = k
      · subst e; simp [(hs j).sq]
      · rw [Matrix.one_apply_ne e, Matrix.one_apply_ne (fun h => e (σ.injective h)), mul_zero]
    have hZ1 : (α' (K' + 1) • (d'.Xᵀ * d'.X) + l' (K' + 1) • (1 : Matrix (Fin p) (Fin p) ℝ)) * Z = 1 := by
      ext j k
      have hf4 := congrFun (congrFun f4 (σ j)) (σ k)
      rw [hone j k, ← hf4, Matrix.mul_apply, Matrix.mul_apply, ← Equiv.sum_comp σ (fun m => (α (K' + 1) • (d.Xᵀ * d.X) + l (K' + 1) • (1 : Matrix (Fin p) (Fin p) ℝ)) (σ j) m * f.sigma m (σ k)), Finset.mul_sum]
      refine Finset.sum_congr rfl fun m _ => ?_
      rw [hA, hL]
      simp only [Matrix.add_apply, Matrix.smul_apply, smul_eq_mul, hZ, Matrix.of_apply]
      rw [hXX j m, hone j m]
      have := (hs m).sq
      linear_combination ((α (K' + 1) * ((d.Xᵀ * d.X) (σ j) (σ m)) + l (K' + 1) * ((1 : Matrix (Fin p) (Fin p) ℝ) (σ j) (σ m))) * s j * s k * f.sigma (σ m) (σ k)) * this
    have hl := mul_eq_one_comm.1 f4'
    have : f'.sigma = Z := by
      calc f'.sigma = f'.sigma * 1 := (Matrix.mul_one _).symm
        _ = f'.sigma * ((α' (K' + 1) • (d'.Xᵀ * d'.X) + l' (K' + 1) • (1 : Matrix (Fin p) (Fin p) ℝ)) * Z) := by rw [hZ1]
        _ = Z := by rw [← Matrix.mul_assoc, hl, Matrix.one_mul]
    intro j k
    rw [this]
    rfl
  · rw [f3]; exact (r _).1
  · exact ⟨l (K' + 1), (r _).2.1, by rw [f3]; exact f4⟩

/-! ## The whole fit -/

/-- What is subtracted from a column. -/
private noncomputable def off (fi : Bool) (v : Fin n → ℝ) : ℝ := if fi then colMean v else 0

/-- What a column is divided by. -/
private noncomputable def dv (fi norm : Bool) (v : Fin n → ℝ) : ℝ := if fi && norm then spread v else 1

private theorem dv_ne (fi norm : Bool) (v : Fin n → ℝ) (hv : fi = true → norm = true → Varies v) : dv fi norm v ≠ 0 := by
  unfold dv
  split
  · rename_i h
    simp only [Bool.and_eq_true] at h
    exact (Sk.Lin.spread_pos _ (hv h.1 h.2)).ne'
  · exact one_ne_zero

private theorem fitFull_eq (fi norm : Bool) (h : Hyper) (svd : Matrix (Fin n) (Fin p) ℝ → (Fin p → ℝ) × Matrix (Fin p) (Fin p) ℝ) (l0 : ℝ) (X : Fin n → Fin p → ℝ) (Y : Fin n → Fin q → ℝ)
    (hv : fi = true → norm = true → ∀ j, Varies (fun i => X i j)) (f : Fitted p q)
    (hf : fit h ⟨prepared fi norm X, Matrix.of fun i o => Y i o - off fi (fun i => Y i o), (svd (prepared fi norm X)).2, (svd (prepared fi norm X)).1⟩ l0 = some f) :
    fitFull fi norm h svd l0 X Y = some ⟨fun o => ⟨fun j => f.coef j o / dv fi norm (fun i => X i j),
      off fi (fun i => Y i o) - ∑ j, off fi (fun i => X i j) * (f.coef j o / dv fi norm (fun i => X i j))⟩, f.alpha, f.lambda, f.sigma⟩ := by
  have hd := fun j => dv_ne fi norm (fun i => X i j) (fun a b => hv a b j)
  unfold fitFull
  cases fi with
  | false =>
    have e1 : prepared false norm X = Matrix.of X := by
      ext i j
      simp [prepared]
    have e2 : (Matrix.of fun i o => Y i o - off false (fun i => Y i o)) = Matrix.of Y := by
      ext i o
      simp [off]
    rw [e1, e2] at hf
    have e3 : (Matrix.of fun i o => Y i o) = Matrix.of Y := rfl
    simp only [Sk.Lin.preprocess, Bool.false_eq_true, if_false, e3, hf, Option.bind_some, Sk.Lin.setIntercept, one_ne_zero, exists_false, Option.isSome_some, implies_true, dif_pos, Option.get_some]
    simp [dv, off]
  | true =>
    have hv' : norm = true → ∀ j, Varies (fun i => X i j) := hv rfl
    have hdd : ∀ j, dv true norm (fun i => X i j) = Sk.Lin.divisor norm X j := by
      intro j
      simp [dv, Sk.Lin.divisor]
    have e1 : prepared true norm X = Matrix.of fun i j => (X i j - colMean (fun i => X i j)) / Sk.Lin.divisor norm X j := by
      ext i j
      simp [prepared, Sk.Lin.divisor]
    have e2 : (Matrix.of fun i o => Y i o - off true (fun i => Y i o)) = Matrix.of fun i o => Y i o - colMean (fun i => Y i o) := rfl
    rw [e1, e2] at hf
    have hne : ¬ ∃ j, Sk.Lin.divisor norm X j = 0 := by
      rintro ⟨j, hj⟩
      exact Sk.Lin.divisor_ne norm X hv' j hj
    simp only [Sk.Lin.preprocess_true norm X _ hv', hf, Option.bind_some, Sk.Lin.setIntercept, if_neg hne, if_true, Option.isSome_some, implies_true, dif_pos, Option.get_some, hdd]
    rfl

private theorem mean_move (v : Fin n → ℝ) (hn : n ≠ 0) (π : Equiv.Perm (Fin n)) (e t : ℝ) : colMean (fun i => e * v (π i) + t) = e * colMean v + t := by
  have hn' : (n : ℝ) ≠ 0 := Nat.cast_ne_zero.2 hn
  simp only [colMean]
  rw [Finset.sum_add_distrib, ← Finset.mul_sum, Equiv.sum_comp π v, Finset.sum_const, Finset.card_univ, Fintype.card_fin, nsmul_eq_mul]
  field_simp

private theorem spread_move (v : Fin n → ℝ) (hn : n ≠ 0) (π : Equiv.Perm (Fin n)) (e t : ℝ) : spread (fun i => e * v (π i) + t) = |e| * spread v := by
  rw [spread, mean_move v hn, spread]
  have : ∑ i, (e * v (π i) + t - (e * colMean v + t)) ^ 2 = e ^ 2 * ∑ i, (v i - colMean v) ^ 2 := by
    rw [Finset.mul_sum, ← Equiv.sum_comp π (fun i => e ^ 2 * (v i - colMean v) ^ 2)]
    exact Finset.sum_congr rfl (fun i _ => by ring)
  rw [this, Real.sqrt_mul (by positivity), Real.sqrt_sq_eq_abs]

/-- The data in other coordinates: rows, features and outputs in another order, features in other units and from another origin, outputs reflected and from another origin. -/
structure Moved (fi norm : Bool) (X X' : Fin n → Fin p → ℝ) (Y Y' : Fin n → Fin q → ℝ) (σ : Equiv.Perm (Fin p)) (τ : Equiv.Perm (Fin q)) (e t : Fin p → ℝ) (c u : Fin q → ℝ) : Prop where
  rows : ∃ π : Equiv.Perm (Fin n), (∀ i j, X' i j = e j * X (π i) (σ j) + t j) ∧ ∀ i o, Y' i o = c o * Y (π i) (τ o) + u o
  unit : ∀ j, e j ≠ 0
  plain : (fi = true → norm = false) → ∀ j, IsSign (e j)
  sign : ∀ o, IsSign (c o)
  origin : fi = false → (∀ j, t j = 0) ∧ ∀ o, u o = 0

private theorem fitFull_moved (fi norm : Bool) (h : Hyper) (hp : Proper h) (svd svd' : Matrix (Fin n) (Fin p) ℝ → (Fin p → ℝ) × Matrix (Fin p) (Fin p) ℝ) (l0 l0' : ℝ) (X X' : Fin n → Fin p → ℝ) (Y Y' : Fin n → Fin q → ℝ)
    (hn : p < n) (hv : fi = true → norm = true → ∀ j, Varies (fun i => X i j)) (hY : ∃ i o, Y i o ≠ if fi then colMean (fun i => Y i o) else 0)
    (σ : Equiv.Perm (Fin p)) (τ : Equiv.Perm (Fin q)) (e t : Fin p → ℝ) (c u : Fin q → ℝ) (hm : Moved fi norm X X' Y Y' σ τ e t c u)
    (hs : ∃ U, IsSVD (prepared fi norm X) U (svd (prepared fi norm X)).1 (svd (prepared fi norm X)).2) (hs' : ∃ U, IsSVD (prepared fi norm X') U (svd' (prepared fi norm X')).1 (svd' (prepared fi norm X')).2) :
    ∃ f f', fitFull fi norm h svd l0 X Y = some f ∧ fitFull fi norm h svd' l0' X' Y' = some f' ∧
      (∀ o x, decision (f'.coefs o) (fun j => e j * x (σ j) + t j) = c o * decision (f.coefs (τ o)) x + u o) ∧ f'.alpha = f.alpha ∧ f'.lambda = f.lambda ∧
      (∀ j k, f'.sigma j k = e j / |e j| * (e k / |e k|) * f.sigma (σ j) (σ k)) ∧
      0 < f.alpha ∧ ∃ b : ℝ, 0 < b ∧ (f.alpha • ((prepared fi norm X)ᵀ * prepared fi norm X) + b • (1 : Matrix (Fin p) (Fin p) ℝ)) * f.sigma = 1 := by
  obtain ⟨⟨π, hX', hY'⟩, he, hpl, hc, ho⟩ := hm
  have hn0 : n ≠ 0 := by omega
  obtain ⟨U, hs⟩ := hs
  obtain ⟨U', hs'⟩ := hs'
  -- the sign and size of the units
  set s : Fin p → ℝ := fun j => e j / |e j| with hsdef
  have hsg : ∀ j, IsSign (s j) := by
    intro j
    rcases lt_or_gt_of_ne (he j) with h0 | h0
    · right; simp only [hsdef, abs_of_neg h0]; rw [div_neg, div_self (he j)]
    · left; simp only [hsdef, abs_of_pos h0]; rw [div_self (he j)]
  have hoffX : ∀ j, off fi (fun i => X' i j) = e j * off fi (fun i => X i (σ j)) + t j := by
    intro j
    unfold off
    split
    · rw [show (fun i => X' i j) = fun i => e j * X (π i) (σ j) + t j from funext fun i => hX' i j, mean_move (fun i => X i (σ j)) hn0]
    · rename_i h0
      rw [(ho (by simpa using h0)).1 j]; ring
  have hoffY : ∀ o, off fi (fun i => Y' i o) = c o * off fi (fun i => Y i (τ o)) + u o := by
    intro o
    unfold off
    split
    · rw [show (fun i => Y' i o) = fun i => c o * Y (π i) (τ o) + u o from funext fun i => hY' i o, mean_move (fun i => Y i (τ o)) hn0]
    · rename_i h0
      rw [(ho (by simpa using h0)).2 o]; ring
  have hdv : ∀ j, dv fi norm (fun i => X' i j) = |e j| * dv fi norm (fun i => X i (σ j)) := by
    intro j
    unfold dv
    split
    · rw [show (fun i => X' i j) = fun i => e j * X (π i) (σ j) + t j from funext fun i => hX' i j, spread_move (fun i => X i (σ j)) hn0]
    · rename_i h0
      rw [(hpl (fun hfi => by simpa [hfi] using h0) j).abs, one_mul]
  have hv' : fi = true → norm = true → ∀ j, Varies (fun i => X' i j) := by
    intro a b j
    obtain ⟨i, k, hik⟩ := hv a b (σ j)
    refine ⟨π.symm i, π.symm k, ?_⟩
    simp only [hX', Equiv.apply_symm_apply]
    intro h
    exact hik (mul_left_cancel₀ (he j) (add_right_cancel h))
  have hdn := fun j => dv_ne fi norm (fun i => X i j) (fun a b => hv a b j)
  have hprep : ∀ (X : Fin n → Fin p → ℝ) i j, prepared fi norm X i j = (X i j - off fi (fun i => X i j)) / dv fi norm (fun i => X i j) := fun _ _ _ => rfl
  have hPX : ∀ i j, prepared fi norm X' i j = s j * prepared fi norm X (π i) (σ j) := by
    intro i j
    rw [hprep, hprep, hoffX, hdv, hX']
    have h1 := hdn (σ j)
    have h2 : |e j| ≠ 0 := abs_ne_zero.2 (he j)
    simp only [hsdef]
    field_simp
    ring
  have hPY : ∀ i o, Y' i o - off fi (fun i => Y' i o) = c o * (Y (π i) (τ o) - off fi (fun i => Y i (τ o))) := by
    intro i o
    rw [hoffY, hY']
    ring
  obtain ⟨f, f', h1, h2, h3, h4, h5, h6, h7, h8⟩ := fit_moved h hp
    ⟨prepared fi norm X, Matrix.of fun i o => Y i o - off fi (fun i => Y i o), (svd (prepared fi norm X)).2, (svd (prepared fi norm X)).1⟩
    ⟨prepared fi norm X', Matrix.of fun i o => Y' i o - off fi (fun i => Y' i o), (svd' (prepared fi norm X')).2, (svd' (prepared fi norm X')).1⟩ l0 l0' U U' hs hs' hn
    (by
      obtain ⟨i, o, hio⟩ := hY
      intro h0
      have := congrFun (congrFun h0 i) o
      simp only [Matrix.of_apply, Matrix.zero_apply] at this
      exact hio (sub_eq_zero.1 this)) σ τ π s c hsg hc hPX hPY
  refine ⟨_, _, fitFull_eq fi norm h svd l0 X Y hv f h1, fitFull_eq fi norm h svd' l0' X' Y' hv' f' h2, ?_, h4, h5, h6, h7, h8⟩
  intro o x
  have hco : ∀ j, e j * (f'.coef j o / dv fi norm (fun i => X' i j)) = c o * (f.coef (σ j) (τ o) / dv fi norm (fun i => X i (σ j))) := by
    intro j
    rw [h3, hdv]
    simp only [moved, Matrix.of_apply, hsdef]
    have h1 := hdn (σ j)
    have h2 : |e j| ≠ 0 := abs_ne_zero.2 (he j)
    have h3 : e j * e j = |e j| * |e j| := (abs_mul_abs_self _).symm
    field_simp
    linear_combination (c o * f.coef (σ j) (τ o)) * h3
  simp only [decision]
  rw [hoffY, ← Equiv.sum_comp σ (fun j => x j * (f.coef j (τ o) / dv fi norm (fun i => X i j))), ← Equiv.sum_comp σ (fun j => off fi (fun i => X i j) * (f.coef j (τ o) / dv fi norm (fun i => X i j)))]
  have e1 : ∑ j, (e j * x (σ j) + t j) * (f'.coef j o / dv fi norm (fun i => X' i j)) - ∑ j, off fi (fun i => X' i j) * (f'.coef j o / dv fi norm (fun i => X' i j)) =
      c o * (∑ j, x (σ j) * (f.coef (σ j) (τ o) / dv fi norm (fun i => X i (σ j))) - ∑ j, off fi (fun i => X i (σ j)) * (f.coef (σ j) (τ o) / dv fi norm (fun i => X i (σ j)))) := by
    rw [← Finset.sum_sub_distrib, ← Finset.sum_sub_distrib, Finset.mul_sum]
    refine Finset.sum_congr rfl fun j _ => ?_
    rw [hoffX]
    linear_combination (x (σ j) - off fi (fun i => X i (σ j))) * hco j
  linear_combination e1

/-- **C200.** Fitted to data with the rows, features and outputs in another order, features in other units and from another origin (with `FitIntercept` and `Normalize`; without `Normalize` only reflected, without
`FitIntercept` not shifted), outputs reflected and from another origin, and with any other decomposition, a `BayesianRidge` predicts the same for every row, in those coordinates, and reports the same precisions. -/
theorem C200_predictions (fi norm : Bool) (h : Hyper) (hp : Proper h) (svd svd' : Matrix (Fin n) (Fin p) ℝ → (Fin p → ℝ) × Matrix (Fin p) (Fin p) ℝ) (l0 l0' : ℝ) (X X' : Fin n → Fin p → ℝ) (Y Y' : Fin n → Fin q → ℝ)
    (hn : p < n) (hv : fi = true → norm = true → ∀ j, Varies (fun i => X i j)) (hY : ∃ i o, Y i o ≠ if fi then colMean (fun i => Y i o) else 0)
    (σ : Equiv.Perm (Fin p)) (τ : Equiv.Perm (Fin q)) (e t : Fin p → ℝ) (c u : Fin q → ℝ) (hm : Moved fi norm X X' Y Y' σ τ e t c u)
    (hs : ∃ U, IsSVD (prepared fi norm X) U (svd (prepared fi norm X)).1 (svd (prepared fi norm X)).2) (hs' : ∃ U, IsSVD (prepared fi norm X') U (svd' (prepared fi norm X')).1 (svd' (prepared fi norm X')).2) :
    ∃ f f', fitFull fi norm h svd l0 X Y = some f ∧ fitFull fi norm h svd' l0' X' Y' = some f' ∧
      (∀ o x, decision (f'.coefs o) (fun j => e j * x (σ j) + t j) = c o * decision (f.coefs (τ o)) x + u o) ∧ f'.alpha = f.alpha ∧ f'.lambda = f.lambda := by
  obtain ⟨f, f', h1, h2, h3, h4, h5, _⟩ := fitFull_moved fi norm h hp svd svd' l0 l0' X X' Y Y' hn hv hY σ τ e t c u hm hs hs'
  exact ⟨f, f', h1, h2, h3, h4, h5⟩

/-- **C200, the decomposition does not matter.** Any two singular value decompositions of the features (other signs, other order, other bases for equal singular values) and any values the fields had before give the
same fitted model. -/
theorem C200_decomposition (fi norm : Bool) (h : Hyper) (hp : Proper h) (svd svd' : Matrix (Fin n) (Fin p) ℝ → (Fin p → ℝ) × Matrix (Fin p) (Fin p) ℝ) (l0 l0' : ℝ) (X : Fin n → Fin p → ℝ) (Y : Fin n → Fin q → ℝ)
    (hn : p < n) (hv : fi = true → norm = true → ∀ j, Varies (fun i => X i j)) (hY : ∃ i o, Y i o ≠ if fi then colMean (fun i => Y i o) else 0)
    (hs : ∃ U, IsSVD (prepared fi norm X) U (svd (prepared fi norm X)).1 (svd (prepared fi norm X)).2) (hs' : ∃ U, IsSVD (prepared fi norm X) U (svd' (prepared fi norm X)).1 (svd' (prepared fi norm X)).2) :
    fitFull fi norm h svd l0 X Y ≠ none ∧ fitFull fi norm h svd' l0' X Y = fitFull fi norm h svd l0 X Y := by
  obtain ⟨f, f', h1, h2, h3, h4, h5, h6, _⟩ := fitFull_moved fi norm h hp svd svd' l0 l0' X X Y Y hn hv hY (Equiv.refl _) (Equiv.refl _) (fun _ => 1) (fun _ => 0) (fun _ => 1) (fun _ => 0)
    ⟨⟨Equiv.refl _, fun _ _ => by simp, fun _ _ => by simp⟩, fun _ => one_ne_zero, fun _ _ => Or.inl rfl, fun _ => Or.inl rfl, fun _ => ⟨fun _ => rfl, fun _ => rfl⟩⟩ hs hs'
  refine ⟨by rw [h1]; simp, ?_⟩
  rw [h1, h2]
  have hsig : f'.sigma = f.sigma := by
    ext j k
    have := h6 j k
    simpa using this
  have hco : f'.coefs = f.coefs := by
    funext o
    have hd : ∀ x, decision (f'.coefs o) x = decision (f.coefs o) x := by
      intro x
      have := h3 o x
      simpa using this
    have h0 := hd 0
    simp only [decision, Pi.zero_apply, zero_mul, Finset.sum_const_zero, zero_add] at h0
    have h1 : (f'.coefs o).coef = (f.coefs o).coef := by
      funext j
      have := hd (Pi.single j 1)
      simpa [decision, Pi.single_apply, h0] using this
    revert h0 h1
    cases f'.coefs o
    cases f.coefs o
    rintro h0 h1
    simp only at h0 h1
    rw [h0, h1]
  revert h4 h5 hsig hco
  cases f
  cases f'
  rintro rfl rfl rfl rfl
  rfl

/-- **C200, violated: the standard deviations depend on the order of the features.** With two or more features, for all data: exchanging the first two features changes the second result of `Predict2` for some row. -/
theorem C200_std_violated {m : ℕ} (fi norm : Bool) (h : Hyper) (hp : Proper h) (svd svd' : Matrix (Fin n) (Fin (m + 2)) ℝ → (Fin (m + 2) → ℝ) × Matrix (Fin (m + 2)) (Fin (m + 2)) ℝ) (l0 l0' : ℝ) (X : Fin n → Fin (m + 2) → ℝ)
    (Y : Fin n → Fin q → ℝ) (hn : m + 2 < n) (hv : fi = true → norm = true → ∀ j, Varies (fun i => X i j)) (hY : ∃ i o, Y i o ≠ if fi then colMean (fun i => Y i o) else 0)
    (hs : ∃ U, IsSVD (prepared fi norm X) U (svd (prepared fi norm X)).1 (svd (prepared fi norm X)).2)
    (hs' : ∃ U, IsSVD (prepared fi norm (fun i j => X i (Equiv.swap 0 1 j))) U (svd' (prepared fi norm (fun i j => X i (Equiv.swap 0 1 j)))).1 (svd' (prepared fi norm (fun i j => X i (Equiv.swap 0 1 j)))).2)
    (off scale : Fin (m + 2) → ℝ) (hsc : ∀ j, scale j ≠ 0) :
    ∃ f f', fitFull fi norm h svd l0 X Y = some f ∧ fitFull fi norm h svd' l0' (fun i j => X i (Equiv.swap 0 1 j)) Y = some f' ∧
      ∃ x : Fin (m + 2) → ℝ, predict2Std norm (fun j => off (Equiv.swap 0 1 j)) (fun j => scale (Equiv.swap 0 1 j)) f'.sigma f'.alpha (fun j => x (Equiv.swap 0 1 j)) ≠ predict2Std norm off scale f.sigma f.alpha x := by
  obtain ⟨f, f', h1, h2, _, h4, _, h6, h7, b, hb, hA⟩ := fitFull_moved fi norm h hp svd svd' l0 l0' X (fun i j => X i (Equiv.swap 0 1 j)) Y Y hn hv hY (Equiv.swap 0 1) (Equiv.refl _) (fun _ => 1) (fun _ => 0) (fun _ => 1) (fun _ => 0)
    ⟨⟨Equiv.refl _, fun _ _ => by simp, fun _ _ => by simp⟩, fun _ => one_ne_zero, fun _ _ => Or.inl rfl, fun _ => Or.inl rfl, fun _ => ⟨fun _ => rfl, fun _ => rfl⟩⟩ hs hs'
  refine ⟨f, f', h1, h2, ?_⟩
  have hsig : ∀ j k, f'.sigma j k = f.sigma (Equiv.swap 0 1 j) (Equiv.swap 0 1 k) := by
    intro j k
    have := h6 j k
    simpa using this
  by_contra hall
  push Not at hall
  -- the quadratic forms agree for all centred rows
  have hform : ∀ z : Fin (m + 2) → ℝ, ∑ j, z j * f.sigma 1 j * z j = ∑ j, z j * f.sigma 0 j * z j := by
    intro z
    have := hall (fun j => if norm then z j * scale j + off j else z j)
    simp only [predict2Std, h4] at this
    have e : ∀ j, (if norm = true then ((if norm = true then z j * scale j + off j else z j) - off j) / scale j else (if norm = true then z j * scale j + off j else z j)) = z j := by
      intro j
      split
      · have := hsc j; field_simp; ring
      · rfl
    simp only [e, hsig, Equiv.swap_apply_left] at this
    rw [Equiv.sum_comp (Equiv.swap (0 : Fin (m + 2)) 1) (fun j => z j * f.sigma 1 j * z j)] at this
    linarith
  have hcell : ∀ k, f.sigma 1 k = f.sigma 0 k := by
    intro k
    have := hform (Pi.single k 1)
    simpa [Pi.single_apply] using this
  -- so the first two rows of the matrix agree, and it has no inverse
  have hinv := mul_eq_one_comm.1 hA
  have r0 := congrFun (congrFun hinv 0) 0
  have r1 := congrFun (congrFun hinv 1) 0
  rw [Matrix.mul_apply] at r0 r1
  simp only [hcell] at r1
  rw [r0] at r1
  simp at r1

private noncomputable def exH : Hyper := ⟨10, 1 / 1000, 1 / 10, 1 / 10, 1 / 10, 1 / 10⟩

/-- The hypotheses are met: four samples of one feature, in another order, in other units and shifted. -/
example : ∃ (svd : Matrix (Fin 4) (Fin 1) ℝ → (Fin 1 → ℝ) × Matrix (Fin 1) (Fin 1) ℝ) (f f' : Full 1 1), fitFull true false exH svd 0 (fun i _ => ![1, 1, -1, -1] i) (fun i _ => ![3, 4, 0, 1] i) = some f ∧
    fitFull true false exH svd 7 (fun i _ => -(![1, 1, -1, -1] i) + 5) (fun i _ => ![3, 4, 0, 1] i + 2) = some f' ∧ ∀ x, decision (f'.coefs 0) (fun j => -x j + 5) = decision (f.coefs 0) x + 2 := by
  refine ⟨fun _ => (fun _ => 2, 1), ?_⟩
  have hm1 : colMean (fun i : Fin 4 => ![(1 : ℝ), 1, -1, -1] i) = 0 := by simp [colMean, Fin.sum_univ_four]
  have hm2 : colMean (fun i : Fin 4 => -(![(1 : ℝ), 1, -1, -1] i) + 5) = 5 := by
    simp only [colMean, Fin.sum_univ_four]
    norm_num [Matrix.cons_val_two, Matrix.cons_val_three]
  obtain ⟨f, f', h1, h2, h3, _⟩ := C200_predictions (n := 4) (p := 1) (q := 1) true false exH ⟨by norm_num [exH], by norm_num [exH], by norm_num [exH], by norm_num [exH], by norm_num [exH]⟩ (fun _ => (fun _ => 2, 1)) (fun _ => (fun _ => 2, 1)) 0 7
    (fun i _ => ![1, 1, -1, -1] i) (fun i _ => -(![1, 1, -1, -1] i) + 5) (fun i _ => ![3, 4, 0, 1] i) (fun i _ => ![3, 4, 0, 1] i + 2) (by norm_num) (by simp)
    ⟨0, 0, by simp only [colMean, Fin.sum_univ_four]; norm_num [Matrix.cons_val_two, Matrix.cons_val_three]⟩ (Equiv.refl _) (Equiv.refl _) (fun _ => -1) (fun _ => 5) (fun _ => 1) (fun _ => 2)
    ⟨⟨Equiv.refl _, fun _ _ => by simp, fun _ _ => by simp⟩, fun _ => by norm_num, fun _ _ => Or.inr rfl, fun _ => Or.inl rfl, fun h => absurd h (by simp)⟩
    ⟨Matrix.of fun i _ => ![1, 1, -1, -1] i / 2, by
      ext i j
      fin_cases j
      simp only [prepared, hm1]
      simp [Matrix.mul_apply],
      by ext i j; fin_cases i; fin_cases j; simp [Matrix.mul_apply, Fin.sum_univ_four]; norm_num, by simp⟩
    ⟨Matrix.of fun i _ => -![1, 1, -1, -1] i / 2, by
      ext i j
      fin_cases j
      simp only [prepared, hm2]
      simp [Matrix.mul_apply],
      by ext i j; fin_cases i; fin_cases j; simp [Matrix.mul_apply, Fin.sum_univ_four]; norm_num, by simp⟩
  refine ⟨f, f', h1, h2, fun x => ?_⟩
  have := h3 0 x
  simpa using this

/-- The hypotheses of the violation are met: four samples of two features. -/
example : ∃ (f f' : Full 2 1), fitFull (n := 4) true false exH (fun _ => (fun _ => 2, 1)) 0 (fun i => ![![1, 1], ![1, -1], ![-1, 1], ![-1, -1]] i) (fun i _ => ![3, 4, 0, 1] i) = some f ∧
    fitFull (n := 4) true false exH (fun _ => (fun _ => 2, 1)) 0 (fun i j => ![![1, 1], ![1, -1], ![-1, 1], ![-1, -1]] i (Equiv.swap 0 1 j)) (fun i _ => ![3, 4, 0, 1] i) = some f' ∧
    ∃ x : Fin 2 → ℝ, predict2Std false (fun _ => 0) (fun _ => 1) f'.sigma f'.alpha (fun j => x (Equiv.swap 0 1 j)) ≠ predict2Std false (fun _ => 0) (fun _ => 1) f.sigma f.alpha x := by
  have hm : ∀ j, colMean (fun i : Fin 4 => ![![(1 : ℝ), 1], ![1, -1], ![-1, 1], ![-1, -1]] i j) = 0 := by
    intro j
    fin_cases j <;> simp [colMean, Fin.sum_univ_four]
  refine C200_std_violated (m := 0) true false exH ⟨by norm_num [exH], by norm_num [exH], by norm_num [exH], by norm_num [exH], by norm_num [exH]⟩ _ _ 0 0 _ _ (by norm_num) (by simp)
    ⟨0, 0, by simp only [colMean, Fin.sum_univ_four]; norm_num [Matrix.cons_val_two, Matrix.cons_val_three]⟩ ?_ ?_ (fun _ => 0) (fun _ => 1) (fun _ => one_ne_zero)
  · refine ⟨Matrix.of fun i j => ![![1, 1], ![1, -1], ![-1, 1], ![-1, -1]] i j / 2, ?_, ?_, by simp⟩
    · ext i j
      simp only [prepared, hm]
      simp [Matrix.mul_apply, Matrix.diagonal_apply, Matrix.one_apply]
    · ext i j
      fin_cases i <;> fin_cases j <;> simp [Matrix.mul_apply, Fin.sum_univ_four] <;> norm_num
  · refine ⟨Matrix.of fun i j => ![![1, 1], ![1, -1], ![-1, 1], ![-1, -1]] i (Equiv.swap 0 1 j) / 2, ?_, ?_, by simp⟩
    · ext i j
      simp only [prepared, hm]
      simp [Matrix.mul_apply, Matrix.diagonal_apply, Matrix.one_apply]
    · ext i j
      fin_cases i <;> fin_cases j <;> simp [Matrix.mul_apply, Fin.sum_univ_four] <;> norm_num

end Sk.Bayes
