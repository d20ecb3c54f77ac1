import Verif.Props.GprTheta

/-!
# The log marginal likelihood does not depend on the order of rows, features, kernels and outputs: C205
-/
set_option autoImplicit false

namespace Sk.GP

/-- What one call of `LogMarginalLikelihood(Theta, true)` returns, given what gonum computes for it: the covariance `K` is factorised into `L`, `K A = Y` and `K Kinv = 1` are solved, and `value` and
`gradient` are computed from them. -/
structure Call {n d q : ℕ} (alpha : List ℝ) (k : Kern) (X : Fin n → Fin d → ℝ) (Y : Matrix (Fin n) (Fin q) ℝ) (theta : List ℝ) where
  K : Matrix (Fin n) (Fin n) ℝ
  L : Matrix (Fin n) (Fin n) ℝ
  A : Matrix (Fin n) (Fin q) ℝ
  Kinv : Matrix (Fin n) (Fin n) ℝ
  slices : List (Fin n → Fin n → ℝ)
  matrix : lmlMatrix alpha k X theta = some K
  tensor : lmlSlices k X theta = some slices
  chol : IsChol L K
  solve : K * A = Y
  inverse : K * Kinv = 1

/-- The value returned. -/
noncomputable def Call.value {n d q : ℕ} {alpha : List ℝ} {k : Kern} {X : Fin n → Fin d → ℝ} {Y : Matrix (Fin n) (Fin q) ℝ} {theta : List ℝ} (c : Call alpha k X Y theta) : ℝ := lml c.L c.A Y

/-- The gradient returned. -/
noncomputable def Call.gradient {n d q : ℕ} {alpha : List ℝ} {k : Kern} {X : Fin n → Fin d → ℝ} {Y : Matrix (Fin n) (Fin q) ℝ} {theta : List ℝ} (c : Call alpha k X Y theta) : List ℝ :=
  c.slices.map (lmlGrad c.Kinv c.A)

/-! ## Rows -/

theorem logDensity_perm {n : ℕ} (K : Matrix (Fin n) (Fin n) ℝ) (y : Fin n → ℝ) (σ : Equiv.Perm (Fin n)) : logDensity (K.submatrix σ σ) (fun i => y (σ i)) = logDensity K y := by
  unfold logDensity
  rw [Matrix.det_submatrix_equiv_self, Matrix.inv_submatrix_equiv]
  have : dotProduct (fun i => y (σ i)) (Matrix.mulVec (K⁻¹.submatrix σ σ) (fun i => y (σ i))) = dotProduct y (Matrix.mulVec K⁻¹ y) := by
    simp only [dotProduct, Matrix.mulVec, Matrix.submatrix_apply]
    rw [← Equiv.sum_comp σ (fun i => y i * ∑ j, K⁻¹ i j * y j)]
    refine Finset.sum_congr rfl (fun i _ => ?_)
    rw [← Equiv.sum_comp σ (fun j => K⁻¹ (σ i) j * y j)]
  rw [this]

theorem grad_perm {n d : ℕ} (k : Kern) (X : Fin n → Fin d → ℝ) (σ : Equiv.Perm (Fin n)) :
    k.grad (fun i => X (σ i)) = (k.grad X).map (fun gs => gs.map (fun G i j => G (σ i) (σ j))) := by
  induction k with
  | const h => simp only [Kern.grad]; split <;> rfl
  | white h =>
    simp only [Kern.grad]
    split
    · rfl
    · simp
  | rbf ls =>
    rcases ls with _ | ⟨⟨v, fx⟩, ls⟩
    · rfl
    · simp only [Kern.grad]
      split <;> rfl
  | dot h => simp only [Kern.grad]; split <;> rfl
  | sum k₁ k₂ h₁ h₂ =>
    simp only [Kern.grad, h₁, h₂]
    rcases k₁.grad X with _ | g₁
    · rfl
    · rcases k₂.grad X with _ | g₂
      · rfl
      · simp
  | prod k₁ k₂ h₁ h₂ =>
    simp only [Kern.grad, h₁, h₂]
    rcases k₁.grad X with _ | g₁
    · rfl
    · rcases k₂.grad X with _ | g₂
      · rfl
      · simp [Function.comp_def]
  | exp k p h =>
    simp only [Kern.grad, h]
    rcases k.grad X with _ | g
    · rfl
    · simp only [Option.map_some, Option.bind_eq_bind, Option.bind_some, List.length_map]
      split
      · rfl
      · simp [Function.comp_def]

/-- **C205**.  The order of the training rows is irrelevant: value and gradient of `LogMarginalLikelihood` are the same when rows of `X`, rows of `Y` and, if there is one per row, values of `alpha` are
rearranged alike. -/
theorem C205_rows {n d q : ℕ} {alpha alpha' : List ℝ} {k : Kern} {X : Fin n → Fin d → ℝ} {Y : Matrix (Fin n) (Fin q) ℝ} {theta : List ℝ} (σ : Equiv.Perm (Fin n))
    (ha : alpha.length = 1 ∧ alpha' = alpha ∨ alpha.length = n ∧ alpha'.length = n ∧ ∀ i : Fin n, alpha'.getD i 0 = alpha.getD (σ i) 0)
    (c : Call alpha k X Y theta) (c' : Call alpha' k (fun i => X (σ i)) (Y.submatrix σ id) theta) : c'.value = c.value ∧ c'.gradient = c.gradient := by
  have hK : c'.K = c.K.submatrix σ σ := by
    have h1 := c.matrix
    have h2 := c'.matrix
    unfold lmlMatrix at h1 h2
    rcases hc : k.clone theta with _ | cl
    · rw [hc] at h1
      cases h1
    · rw [hc, Option.bind_some] at h1 h2
      unfold Kern.evalM at h1 h2
      by_cases hok : cl.evalOK d
      · rw [if_pos hok, Option.bind_some] at h1 h2
        unfold addAlpha at h1 h2
        by_cases hn : alpha.length = 1
        · have hn' : alpha'.length = 1 := by
            rcases ha with h | h
            · rw [h.2]; exact hn
            · omega
          have h0 : ∀ i : Fin n, alpha'.getD 0 0 = alpha.getD 0 0 := by
            intro i
            rcases ha with h | h
            · rw [h.2]
            · have := h.2.2 i
              have hi : i.val = 0 := by omega
              have hs : (σ i).val = 0 := by omega
              rw [hi, hs] at this
              exact this
          rw [if_pos hn] at h1
          rw [if_pos hn'] at h2
          rw [← Option.some.inj h1, ← Option.some.inj h2]
          ext i j
          simp only [Matrix.add_apply, Matrix.of_apply, Matrix.submatrix_apply, Matrix.diagonal_apply, σ.injective.eq_iff, h0 i]
        · have h := ha.resolve_left (fun g => hn g.1)
          rw [if_neg hn, if_neg (by omega)] at h1
          rw [if_neg (by omega), if_neg (by omega)] at h2
          rw [← Option.some.inj h1, ← Option.some.inj h2]
          ext i j
          simp only [Matrix.add_apply, Matrix.of_apply, Matrix.submatrix_apply, Matrix.diagonal_apply, σ.injective.eq_iff, h.2.2 i]
      · rw [if_neg hok] at h1
        cases h1
  have hd := (chol_det_pos c.chol).ne'
  have hd' := (chol_det_pos c'.chol).ne'
  have hA : c'.A = c.A.submatrix σ id := by
    rw [solve_eq hd' c'.solve, solve_eq hd c.solve, hK, Matrix.inv_submatrix_equiv]
    exact Matrix.submatrix_mul_equiv _ _ _ σ _
  have hI : c'.Kinv = c.Kinv.submatrix σ σ := by
    rw [← Matrix.inv_eq_right_inv c'.inverse, ← Matrix.inv_eq_right_inv c.inverse, hK, Matrix.inv_submatrix_equiv]
  have hS : c'.slices = c.slices.map (fun G i j => G (σ i) (σ j)) := by
    have h1 := c.tensor
    have h2 := c'.tensor
    unfold lmlSlices at h1 h2
    rcases hc : k.clone theta with _ | cl
    · rw [hc] at h1
      cases h1
    · rw [hc, Option.bind_some] at h1 h2
      rw [grad_perm, h1, Option.map_some] at h2
      exact (Option.some.inj h2).symm
  constructor
  · unfold Call.value
    rw [C103_value _ _ _ _ c.chol c.solve, C103_value _ _ _ _ c'.chol c'.solve, hK]
    exact Finset.sum_congr rfl (fun col _ => logDensity_perm c.K (fun i => Y i col) σ)
  · unfold Call.gradient
    rw [hS, List.map_map]
    refine List.map_congr_left (fun G _ => ?_)
    simp only [Function.comp, lmlGrad]
    rw [hA, hI]
    refine Finset.sum_congr rfl (fun col _ => ?_)
    congr 1
    rw [← Equiv.sum_comp σ (fun i => ∑ j, (c.A i col * c.A j col - c.Kinv i j) * G i j)]
    refine Finset.sum_congr rfl (fun i _ => ?_)
    rw [← Equiv.sum_comp σ (fun j => (c.A (σ i) col * c.A j col - c.Kinv (σ i) j) * G (σ i) j)]
    rfl

/-! ## Moves under which the kernel is unchanged -/

/-- If two calls have the same covariance and the same slices, they return the same. -/
theorem call_eq {n d d' q : ℕ} {alpha : List ℝ} {k k' : Kern} {X : Fin n → Fin d → ℝ} {X' : Fin n → Fin d' → ℝ} {Y : Matrix (Fin n) (Fin q) ℝ} {theta theta' : List ℝ} (c : Call alpha k X Y theta)
    (c' : Call alpha k' X' Y theta') (hK : lmlMatrix alpha k X theta = lmlMatrix alpha k' X' theta') : c'.value = c.value ∧ c'.Kinv = c.Kinv ∧ c'.A = c.A := by
  have e : c.K = c'.K := Option.some.inj (c.matrix.symm.trans (hK.trans c'.matrix))
  have hA : c'.A = c.A := by
    rw [solve_eq (chol_det_pos c'.chol).ne' c'.solve, solve_eq (chol_det_pos c.chol).ne' c.solve, e]
  refine ⟨?_, ?_, hA⟩
  · unfold Call.value
    rw [C103_value _ _ _ _ c.chol c.solve, C103_value _ _ _ _ c'.chol c'.solve, e]
  · rw [← Matrix.inv_eq_right_inv c'.inverse, ← Matrix.inv_eq_right_inv c.inverse, e]

theorem setFree_length : ∀ (hs : List Hyper) (ts : List ℝ) (r : List Hyper), setFree hs ts = some r → r.length = hs.length
  | hs, [], r, h => by
    unfold setFree at h
    rw [Option.some.inj h]
  | [], _ :: _, r, h => by
    unfold setFree at h
    cases h
  | (v, true) :: hs, t :: ts, r, h => by
    unfold setFree at h
    rcases hr : setFree hs (t :: ts) with _ | r'
    · rw [hr] at h
      cases h
    · rw [hr] at h
      have := setFree_length hs (t :: ts) r' hr
      rw [← Option.some.inj h]
      simp [this]
  | (v, false) :: hs, t :: ts, r, h => by
    unfold setFree at h
    rcases hr : setFree hs ts with _ | r'
    · rw [hr] at h
      cases h
    · rw [hr] at h
      have := setFree_length hs ts r' hr
      rw [← Option.some.inj h]
      simp [this]

/-- Every RBF kernel in the expression has a single length scale. -/
def Isotropic : Kern → Prop
  | .rbf ls => ls.length = 1
  | .sum k₁ k₂ => Isotropic k₁ ∧ Isotropic k₂
  | .prod k₁ k₂ => Isotropic k₁ ∧ Isotropic k₂
  | .exp k _ => Isotropic k
  | _ => True

/-- A property of kernel expressions that holds for a compound if it holds for the operands, and does not depend on values of hyperparameters. -/
theorem clone_keeps (P : Kern → Prop) (hc : ∀ h h', P (.const h) → P (.const h')) (hr : ∀ ls ls' : List Hyper, ls.length = ls'.length → P (.rbf ls) → P (.rbf ls'))
    (hd : ∀ h h', P (.dot h) → P (.dot h')) (hs : ∀ k₁ k₂, P (.sum k₁ k₂) ↔ P k₁ ∧ P k₂) (hp : ∀ k₁ k₂, P (.prod k₁ k₂) ↔ P k₁ ∧ P k₂) (he : ∀ k p, P (.exp k p) → P k) :
    ∀ (k : Kern) (t : List ℝ) (c : Kern), k.clone t = some c → P k → P c := by
  intro k
  induction k with
  | const h =>
    intro t c e hk
    obtain ⟨l, _, rfl⟩ := Option.map_eq_some_iff.mp e
    exact hc _ _ hk
  | white h =>
    intro t c e hk
    obtain ⟨l, _, rfl⟩ := Option.map_eq_some_iff.mp e
    exact hk
  | rbf ls =>
    intro t c e hk
    obtain ⟨l, hl, rfl⟩ := Option.map_eq_some_iff.mp e
    exact hr _ _ (setFree_length _ _ _ hl).symm hk
  | dot h =>
    intro t c e hk
    obtain ⟨l, _, rfl⟩ := Option.map_eq_some_iff.mp e
    exact hd _ _ hk
  | sum k₁ k₂ h₁ h₂ =>
    intro t c e hk
    simp only [Kern.clone] at e
    rcases ht₁ : k₁.theta with _ | t₁
    · rw [ht₁] at e
      cases e
    rcases ht₂ : k₂.theta with _ | t₂
    · rw [ht₁, ht₂] at e
      cases e
    rw [ht₁, ht₂] at e
    simp only [Option.bind_eq_bind, Option.bind_some] at e
    split at e
    · cases e
    rcases hc₁ : k₁.clone (t.take t₁.length) with _ | c₁
    · rw [hc₁] at e
      cases e
    rcases hc₂ : k₂.clone ((t.drop t₁.length).take t₂.length) with _ | c₂
    · rw [hc₁, hc₂] at e
      cases e
    rw [hc₁, hc₂] at e
    rw [← Option.some.inj e]
    exact (hs _ _).mpr ⟨h₁ _ _ hc₁ ((hs _ _).mp hk).1, h₂ _ _ hc₂ ((hs _ _).mp hk).2⟩
  | prod k₁ k₂ h₁ h₂ =>
    intro t c e hk
    simp only [Kern.clone] at e
    rcases ht₁ : k₁.theta with _ | t₁
    · rw [ht₁] at e
      cases e
    rcases ht₂ : k₂.theta with _ | t₂
    · rw [ht₁, ht₂] at e
      cases e
    rw [ht₁, ht₂] at e
    simp only [Option.bind_eq_bind, Option.bind_some] at e
    split at e
    · cases e
    rcases hc₁ : k₁.clone (t.take t₁.length) with _ | c₁
    · rw [hc₁] at e
      cases e
    rcases hc₂ : k₂.clone ((t.drop t₁.length).take t₂.length) with _ | c₂
    · rw [hc₁, hc₂] at e
      cases e
    rw [hc₁, hc₂] at e
    rw [← Option.some.inj e]
    exact (hp _ _).mpr ⟨h₁ _ _ hc₁ ((hp _ _).mp hk).1, h₂ _ _ hc₂ ((hp _ _).mp hk).2⟩
  | exp k p h =>
    intro t c e hk
    exact h t c e (he _ _ hk)

/-- Gradient slices are unchanged when the values of all sub-kernels and all RBF slices are. -/
theorem grad_move {n d : ℕ} (X X' : Fin n → Fin d → ℝ) (P : Kern → Prop) (hs : ∀ k₁ k₂, P (.sum k₁ k₂) → P k₁ ∧ P k₂) (hp : ∀ k₁ k₂, P (.prod k₁ k₂) → P k₁ ∧ P k₂) (he : ∀ k p, P (.exp k p) → P k)
    (hv : ∀ k, P k → ∀ i j, k.val (X' i) (X' j) = k.val (X i) (X j))
    (hr : ∀ ls, P (.rbf ls) → ∀ i j, ∑ f : Fin d, ((X' i f - X' j f) / scaleOf ls f) * ((X' i f - X' j f) / scaleOf ls f) = ∑ f : Fin d, ((X i f - X j f) / scaleOf ls f) * ((X i f - X j f) / scaleOf ls f)) :
    ∀ k : Kern, P k → k.grad X' = k.grad X := by
  intro k
  induction k with
  | const h => intro _; rfl
  | white h => intro _; rfl
  | dot h => intro _; rfl
  | rbf ls =>
    intro hk
    rcases ls with _ | ⟨⟨v, fx⟩, ls⟩
    · rfl
    · simp only [Kern.grad, hv _ hk, hr _ hk]
  | sum k₁ k₂ h₁ h₂ =>
    intro hk
    simp only [Kern.grad, h₁ (hs _ _ hk).1, h₂ (hs _ _ hk).2]
  | prod k₁ k₂ h₁ h₂ =>
    intro hk
    simp only [Kern.grad, h₁ (hp _ _ hk).1, h₂ (hp _ _ hk).2, hv _ (hp _ _ hk).1, hv _ (hp _ _ hk).2]
  | exp k p h =>
    intro hk
    simp only [Kern.grad, h (he _ _ hk), hv _ (he _ _ hk)]

theorem move_eq {n d q : ℕ} {alpha : List ℝ} {k : Kern} {X X' : Fin n → Fin d → ℝ} {Y : Matrix (Fin n) (Fin q) ℝ} {theta : List ℝ} (P : Kern → Prop) (hk : ∀ c, k.clone theta = some c → P c)
    (hv : ∀ k, P k → ∀ i j, k.val (X' i) (X' j) = k.val (X i) (X j)) (hg : ∀ k, P k → k.grad X' = k.grad X) (c : Call alpha k X Y theta) (c' : Call alpha k X' Y theta) :
    c'.value = c.value ∧ c'.gradient = c.gradient := by
  have hK : lmlMatrix alpha k X theta = lmlMatrix alpha k X' theta := by
    unfold lmlMatrix
    rcases hc : k.clone theta with _ | cl
    · rfl
    · rw [Option.bind_some, Option.bind_some]
      unfold Kern.evalM
      simp only [hv cl (hk _ hc)]
  obtain ⟨h1, h2, h3⟩ := call_eq c c' hK
  refine ⟨h1, ?_⟩
  have hS : c'.slices = c.slices := by
    have e1 := c.tensor
    have e2 := c'.tensor
    unfold lmlSlices at e1 e2
    rcases hc : k.clone theta with _ | cl
    · rw [hc] at e1
      cases e1
    · rw [hc, Option.bind_some] at e1 e2
      rw [hg cl (hk _ hc), e1] at e2
      exact (Option.some.inj e2).symm
  unfold Call.gradient
  rw [hS, h2, h3]

/-- **C205** (partial: without noise kernels).  For a kernel that says it is stationary, translating all training rows changes neither value nor gradient.  Missing: noise kernels, for which the claim is false
(`C205_white_violated`). -/
theorem C205_translate_partial {n d q : ℕ} {alpha : List ℝ} {k : Kern} {X : Fin n → Fin d → ℝ} {Y : Matrix (Fin n) (Fin q) ℝ} {theta : List ℝ} (t : Fin d → ℝ) (hw : NoWhite k) (hs : k.isStationary = true)
    (c : Call alpha k X Y theta) (c' : Call alpha k (fun i f => X i f + t f) Y theta) : c'.value = c.value ∧ c'.gradient = c.gradient := by
  refine move_eq (fun k => NoWhite k ∧ k.isStationary = true) (fun cl hc => ?_) (fun k h i j => C101_stationary_partial k h.1 h.2 (X i) (X j) t) ?_ c c'
  · refine clone_keeps (fun k => NoWhite k ∧ k.isStationary = true) ?_ ?_ ?_ ?_ ?_ ?_ k theta cl hc ⟨hw, hs⟩
    · exact fun _ _ h => h
    · exact fun _ _ _ h => h
    · exact fun _ _ h => h
    · intro k₁ k₂
      simp only [NoWhite, Kern.isStationary, Bool.and_eq_true]
      tauto
    · intro k₁ k₂
      simp only [NoWhite, Kern.isStationary, Bool.and_eq_true]
      tauto
    · exact fun _ _ h => h
  · refine grad_move X _ _ ?_ ?_ (fun _ _ h => h) (fun k h i j => C101_stationary_partial k h.1 h.2 (X i) (X j) t) ?_
    · intro k₁ k₂
      simp only [NoWhite, Kern.isStationary, Bool.and_eq_true]
      tauto
    · intro k₁ k₂
      simp only [NoWhite, Kern.isStationary, Bool.and_eq_true]
      tauto
    · intro ls _ i j
      simp only [add_sub_add_right_eq_sub]

theorem scaleOf_one {ls : List Hyper} (h : ls.length = 1) (f : ℕ) : scaleOf ls f = scaleOf ls 0 := by
  unfold scaleOf
  rw [if_pos h, if_pos h]

theorem val_features {d : ℕ} (τ : Equiv.Perm (Fin d)) (s : Fin d → ℝ) (hs : ∀ f, s f = 1 ∨ s f = -1) (x y : Fin d → ℝ) :
    ∀ k : Kern, Isotropic k → k.val (fun f => s f * x (τ f)) (fun f => s f * y (τ f)) = k.val x y := by
  have hs2 : ∀ f, s f * s f = 1 := fun f => by rcases hs f with h | h <;> rw [h] <;> norm_num
  have hab : ∀ f, |s f| = 1 := fun f => by rcases hs f with h | h <;> rw [h] <;> norm_num
  intro k
  induction k with
  | const h => intro _; rfl
  | white h =>
    intro _
    have e : ∀ f, approxEq (s f * x (τ f)) (s f * y (τ f)) ↔ approxEq (x (τ f)) (y (τ f)) := by
      intro f
      unfold approxEq
      rw [← mul_sub, abs_mul, abs_mul, abs_mul, hab, one_mul, one_mul, one_mul]
    have e2 : (∀ f, approxEq (x (τ f)) (y (τ f))) ↔ ∀ f, approxEq (x f) (y f) := ⟨fun h f => by have := h (τ.symm f); rwa [Equiv.apply_symm_apply] at this, fun h f => h _⟩
    simp only [Kern.val]
    by_cases hc : ∀ f, approxEq (x f) (y f)
    · rw [if_pos hc, if_pos (fun f => (e f).mpr (e2.mpr hc f))]
    · rw [if_neg hc, if_neg (fun g => hc (e2.mp (fun f => (e f).mp (g f))))]
  | rbf ls =>
    intro h
    simp only [Kern.val]
    congr 2
    rw [← Equiv.sum_comp τ (fun f : Fin d => (x f / scaleOf ls f - y f / scaleOf ls f) * (x f / scaleOf ls f - y f / scaleOf ls f))]
    refine Finset.sum_congr rfl (fun f _ => ?_)
    rw [scaleOf_one h f, scaleOf_one h (τ f)]
    linear_combination ((x (τ f) - y (τ f)) / scaleOf ls 0) * ((x (τ f) - y (τ f)) / scaleOf ls 0) * hs2 f
  | dot h =>
    intro _
    simp only [Kern.val]
    congr 1
    rw [← Equiv.sum_comp τ (fun f => x f * y f)]
    refine Finset.sum_congr rfl (fun f _ => ?_)
    linear_combination x (τ f) * y (τ f) * hs2 f
  | sum k₁ k₂ h₁ h₂ =>
    intro h
    simp only [Kern.val, h₁ h.1, h₂ h.2]
  | prod k₁ k₂ h₁ h₂ =>
    intro h
    simp only [Kern.val, h₁ h.1, h₂ h.2]
  | exp k p h' =>
    intro h
    simp only [Kern.val, h' h]

/-- **C205**.  With one length scale for all features, the order of the features and their signs are irrelevant. -/
theorem C205_features {n d q : ℕ} {alpha : List ℝ} {k : Kern} {X : Fin n → Fin d → ℝ} {Y : Matrix (Fin n) (Fin q) ℝ} {theta : List ℝ} (hk : Isotropic k) (τ : Equiv.Perm (Fin d)) (s : Fin d → ℝ)
    (hs : ∀ f, s f = 1 ∨ s f = -1) (c : Call alpha k X Y theta) (c' : Call alpha k (fun i f => s f * X i (τ f)) Y theta) : c'.value = c.value ∧ c'.gradient = c.gradient := by
  have hs2 : ∀ f, s f * s f = 1 := fun f => by rcases hs f with h | h <;> rw [h] <;> norm_num
  refine move_eq Isotropic (fun cl hc => ?_) (fun k h i j => val_features τ s hs (X i) (X j) k h) ?_ c c'
  · exact clone_keeps Isotropic (fun _ _ h => h) (fun ls ls' e h => by unfold Isotropic at *; omega) (fun _ _ h => h) (fun _ _ => Iff.rfl) (fun _ _ => Iff.rfl) (fun _ _ h => h) k theta cl hc hk
  · refine grad_move X _ _ (fun _ _ h => h) (fun _ _ h => h) (fun _ _ h => h) (fun k h i j => val_features τ s hs (X i) (X j) k h) ?_
    intro ls h i j
    rw [← Equiv.sum_comp τ (fun f : Fin d => ((X i f - X j f) / scaleOf ls f) * ((X i f - X j f) / scaleOf ls f))]
    refine Finset.sum_congr rfl (fun f _ => ?_)
    rw [scaleOf_one h f, scaleOf_one h (τ f)]
    linear_combination ((X i (τ f) - X j (τ f)) / scaleOf ls 0) * ((X i (τ f) - X j (τ f)) / scaleOf ls 0) * hs2 f

/-! ## Operands and outputs -/

theorem clone_sum {k₁ k₂ : Kern} {θ₁ θ₂ t₁ t₂ : List ℝ} (e₁ : k₁.theta = some θ₁) (e₂ : k₂.theta = some θ₂) (l₁ : t₁.length = θ₁.length) (l₂ : t₂.length = θ₂.length) :
    (Kern.sum k₁ k₂).clone (t₁ ++ t₂) = (if t₂ = [] then none else (k₁.clone t₁).bind fun c₁ => (k₂.clone t₂).map fun c₂ => .sum c₁ c₂) ∧
    (Kern.prod k₁ k₂).clone (t₁ ++ t₂) = (if t₂ = [] then none else (k₁.clone t₁).bind fun c₁ => (k₂.clone t₂).map fun c₂ => .prod c₁ c₂) := by
  have hlen : (t₁ ++ t₂).length ≤ θ₁.length ∨ (t₁ ++ t₂).length < θ₁.length + θ₂.length ↔ t₂ = [] := by
    rw [List.length_append, l₁, l₂, ← List.length_eq_zero_iff, l₂]
    omega
  have h1 : (t₁ ++ t₂).take θ₁.length = t₁ := by rw [← l₁, List.take_left]
  have h2 : ((t₁ ++ t₂).drop θ₁.length).take θ₂.length = t₂ := by rw [← l₁, List.drop_left, ← l₂, List.take_length]
  constructor
  · simp only [Kern.clone, e₁, e₂, Option.bind_eq_bind, Option.bind_some, h1, h2]
    by_cases h : t₂ = []
    · rw [if_pos h, if_pos (hlen.mpr h)]
    · rw [if_neg h, if_neg (mt hlen.mp h)]
      rcases k₁.clone t₁ with _ | c₁
      · rfl
      · rcases k₂.clone t₂ with _ | c₂ <;> rfl
  · simp only [Kern.clone, e₁, e₂, Option.bind_eq_bind, Option.bind_some, h1, h2]
    by_cases h : t₂ = []
    · rw [if_pos h, if_pos (hlen.mpr h)]
    · rw [if_neg h, if_neg (mt hlen.mp h)]
      rcases k₁.clone t₁ with _ | c₁
      · rfl
      · rcases k₂.clone t₂ with _ | c₂ <;> rfl

theorem swap_calls {n d q : ℕ} {alpha : List ℝ} {k k' k₁ k₂ : Kern} {X : Fin n → Fin d → ℝ} {Y : Matrix (Fin n) (Fin q) ℝ} {t₁ t₂ : List ℝ} (op : Kern → Kern → Kern)
    (hc : k.clone (t₁ ++ t₂) = (if t₂ = [] then none else (k₁.clone t₁).bind fun c₁ => (k₂.clone t₂).map fun c₂ => op c₁ c₂))
    (hc' : k'.clone (t₂ ++ t₁) = (if t₁ = [] then none else (k₂.clone t₂).bind fun c₂ => (k₁.clone t₁).map fun c₁ => op c₂ c₁))
    (hok : ∀ a b, (op a b).evalOK d = (op b a).evalOK d) (hv : ∀ a b, ∀ x y : Fin d → ℝ, (op a b).val x y = (op b a).val x y)
    (hg : ∀ a b g, (op a b).grad X = some g → ∃ u v w, a.grad X = some w ∧ u.length = w.length ∧ g = u ++ v ∧ (op b a).grad X = some (v ++ u))
    (c : Call alpha k X Y (t₁ ++ t₂)) (c' : Call alpha k' X Y (t₂ ++ t₁)) :
    c'.value = c.value ∧ ∃ u v g₁, lmlSlices k₁ X t₁ = some g₁ ∧ u.length = g₁.length ∧ c.gradient = u ++ v ∧ c'.gradient = v ++ u := by
  have m1 := c.matrix
  have m2 := c'.matrix
  have s1 := c.tensor
  have s2 := c'.tensor
  unfold lmlMatrix at m1 m2
  unfold lmlSlices at s1 s2
  rw [hc] at m1 s1
  rw [hc'] at m2 s2
  by_cases h2 : t₂ = []
  · rw [if_pos h2] at m1
    cases m1
  by_cases h1 : t₁ = []
  · rw [if_pos h1] at m2
    cases m2
  rw [if_neg h2] at m1 s1
  rw [if_neg h1] at m2 s2
  rcases e1 : k₁.clone t₁ with _ | c₁
  · rw [e1] at m1
    cases m1
  rcases e2 : k₂.clone t₂ with _ | c₂
  · rw [e1, e2] at m1
    cases m1
  rw [e1, e2, Option.bind_some, Option.map_some, Option.bind_some] at m1 m2 s1 s2
  have hE : (op c₁ c₂).evalM X X = (op c₂ c₁).evalM X X := by
    unfold Kern.evalM
    rw [hok c₁ c₂]
    simp only [hv c₁ c₂]
  have hK : lmlMatrix alpha k X (t₁ ++ t₂) = lmlMatrix alpha k' X (t₂ ++ t₁) := by
    unfold lmlMatrix
    rw [hc, hc', if_neg h2, if_neg h1, e1, e2, Option.bind_some, Option.map_some, Option.bind_some, Option.bind_some, Option.map_some, Option.bind_some, hE]
  obtain ⟨v1, v2, v3⟩ := call_eq c c' hK
  refine ⟨v1, ?_⟩
  obtain ⟨u, v, w, hw, hl, hgs, hgs'⟩ := hg _ _ _ s1
  rw [hgs'] at s2
  refine ⟨u.map (lmlGrad c.Kinv c.A), v.map (lmlGrad c.Kinv c.A), w, ?_, by rw [List.length_map, hl], ?_, ?_⟩
  · unfold lmlSlices
    rw [e1, Option.bind_some, hw]
  · unfold Call.gradient
    rw [hgs, List.map_append]
  · unfold Call.gradient
    rw [← Option.some.inj s2, List.map_append, v2, v3]

/-- **C205**.  The order of the operands of a sum or product of kernels is irrelevant, as long as `theta` is arranged accordingly: the value is the same and the two halves of the gradient are exchanged.
`LogMarginalLikelihood` panics for one of the orders when one operand has no free hyperparameters (`C103_fixed_operand_violated`): then there are no two calls to compare. -/
theorem C205_operands {n d q : ℕ} {alpha : List ℝ} {k₁ k₂ : Kern} {X : Fin n → Fin d → ℝ} {Y : Matrix (Fin n) (Fin q) ℝ} {θ₁ θ₂ t₁ t₂ : List ℝ} (e₁ : k₁.theta = some θ₁) (e₂ : k₂.theta = some θ₂)
    (l₁ : t₁.length = θ₁.length) (l₂ : t₂.length = θ₂.length) :
    (∀ (c : Call alpha (.sum k₁ k₂) X Y (t₁ ++ t₂)) (c' : Call alpha (.sum k₂ k₁) X Y (t₂ ++ t₁)),
      c'.value = c.value ∧ ∃ u v g₁, lmlSlices k₁ X t₁ = some g₁ ∧ u.length = g₁.length ∧ c.gradient = u ++ v ∧ c'.gradient = v ++ u) ∧
    (∀ (c : Call alpha (.prod k₁ k₂) X Y (t₁ ++ t₂)) (c' : Call alpha (.prod k₂ k₁) X Y (t₂ ++ t₁)),
      c'.value = c.value ∧ ∃ u v g₁, lmlSlices k₁ X t₁ = some g₁ ∧ u.length = g₁.length ∧ c.gradient = u ++ v ∧ c'.gradient = v ++ u) := by
  constructor
  · intro c c'
    refine swap_calls Kern.sum (clone_sum e₁ e₂ l₁ l₂).1 (clone_sum e₂ e₁ l₂ l₁).1 (fun a b => Bool.and_comm _ _) (fun a b x y => add_comm _ _) ?_ c c'
    intro a b g hg
    simp only [Kern.grad] at hg ⊢
    rcases ha : a.grad X with _ | ga
    · rw [ha] at hg
      cases hg
    rcases hb : b.grad X with _ | gb
    · rw [ha, hb] at hg
      cases hg
    rw [ha, hb] at hg
    exact ⟨ga, gb, ga, rfl, rfl, (Option.some.inj hg).symm, rfl⟩
  · intro c c'
    refine swap_calls Kern.prod (clone_sum e₁ e₂ l₁ l₂).2 (clone_sum e₂ e₁ l₂ l₁).2 (fun a b => Bool.and_comm _ _) (fun a b x y => mul_comm _ _) ?_ c c'
    intro a b g hg
    simp only [Kern.grad] at hg ⊢
    rcases ha : a.grad X with _ | ga
    · rw [ha] at hg
      cases hg
    rcases hb : b.grad X with _ | gb
    · rw [ha, hb] at hg
      cases hg
    rw [ha, hb] at hg
    exact ⟨_, _, ga, rfl, by rw [List.length_map], (Option.some.inj hg).symm, rfl⟩

/-- **C205**.  Outputs are independent: value and gradient for all output columns together are the sums of those for each column alone; so the order of the columns is irrelevant. -/
theorem C205_outputs {n d q : ℕ} {alpha : List ℝ} {k : Kern} {X : Fin n → Fin d → ℝ} {Y : Matrix (Fin n) (Fin q) ℝ} {theta : List ℝ} (c : Call alpha k X Y theta)
    (cs : ∀ col : Fin q, Call alpha k X (Y.submatrix id (fun _ : Fin 1 => col)) theta) :
    c.value = ∑ col, (cs col).value ∧ ∀ i, c.gradient.getD i 0 = ∑ col, (cs col).gradient.getD i 0 := by
  have hK : ∀ col, (cs col).K = c.K := fun col => Option.some.inj ((cs col).matrix.symm.trans c.matrix)
  have hA : ∀ col i, (cs col).A i 0 = c.A i col := by
    intro col i
    rw [solve_eq (chol_det_pos (cs col).chol).ne' (cs col).solve, solve_eq (chol_det_pos c.chol).ne' c.solve, hK]
    rfl
  have hI : ∀ col, (cs col).Kinv = c.Kinv := fun col => by rw [← Matrix.inv_eq_right_inv (cs col).inverse, ← Matrix.inv_eq_right_inv c.inverse, hK]
  have hS : ∀ col, (cs col).slices = c.slices := fun col => Option.some.inj ((cs col).tensor.symm.trans c.tensor)
  constructor
  · unfold Call.value
    rw [C103_value _ _ _ _ c.chol c.solve]
    refine Finset.sum_congr rfl (fun col _ => ?_)
    rw [C103_value _ _ _ _ (cs col).chol (cs col).solve, hK, Fin.sum_univ_one]
    rfl
  · intro i
    unfold Call.gradient
    simp only [hS, List.getD_eq_getElem?_getD, List.getElem?_map]
    rcases c.slices[i]? with _ | G
    · simp
    · simp only [Option.map_some, Option.getD_some]
      unfold lmlGrad
      refine Finset.sum_congr rfl (fun col _ => ?_)
      rw [Fin.sum_univ_one]
      simp only [hA, hI]

/-! ## The noise kernel -/

/-- Two rows `2e-8` apart, and the same rows moved by 10. -/
noncomputable def near (t : ℝ) : Fin 2 → Fin 1 → ℝ := fun i _ => (if i = 0 then 0 else 2e-8) + t

/-- The covariance of two near rows under a noise kernel. -/
theorem near_matrix (s a t b : ℝ) (hb : (Kern.white (s, true)).val (near t 0) (near t 1) = b) : lmlMatrix [a] (.white (s, true)) (near t) [] = some !![s + a, b; b, s + a] := by
  have h1 : lmlMatrix [a] (.white (s, true)) (near t) [] = some (Matrix.of (fun i j => (Kern.white (s, true)).val (near t i) (near t j)) + Matrix.diagonal (fun _ => a)) := rfl
  rw [h1]
  congr 1
  have h2 := val_comm (Kern.white (s, true)) (near t 1) (near t 0)
  have h3 : ∀ i, (Kern.white (s, true)).val (near t i) (near t i) = s := fun i => val_self _ _
  ext i j
  fin_cases i <;> fin_cases j <;> simp [h3, hb, h2]

/-- **C205** violated for noise kernels, which say they are stationary: for two rows `2e-8` apart and outputs zero the value of `LogMarginalLikelihood` changes when the rows are moved by 10. -/
theorem C205_white_violated (s a : ℝ) (hs : 0 < s) (ha : 0 < a) :
    (Kern.white (s, true)).isStationary = true ∧ Nonempty (Call [a] (.white (s, true)) (near 0) (0 : Matrix (Fin 2) (Fin 1) ℝ) []) ∧
    Nonempty (Call [a] (.white (s, true)) (near 10) (0 : Matrix (Fin 2) (Fin 1) ℝ) []) ∧
    ∀ (c : Call [a] (.white (s, true)) (near 0) (0 : Matrix (Fin 2) (Fin 1) ℝ) []) (c' : Call [a] (.white (s, true)) (near 10) (0 : Matrix (Fin 2) (Fin 1) ℝ) []), c'.value ≠ c.value := by
  have v0 : (Kern.white (s, true)).val (near 0 0) (near 0 1) = 0 := by
    simp only [Kern.val]
    rw [if_neg]
    intro h
    have := h 0
    simp [approxEq, near] at this
    norm_num [abs_of_pos] at this
  have v1 : (Kern.white (s, true)).val (near 10 0) (near 10 1) = s := by
    simp only [Kern.val]
    rw [if_pos]
    intro f
    right
    simp only [near, if_true, one_ne_zero, if_false]
    have : max |(0 : ℝ) + 10| |2e-8 + 10| ≥ 10 := le_trans (by norm_num) (le_max_left _ _)
    have h2 : |(0 : ℝ) + 10 - (2e-8 + 10)| = 2e-8 := by norm_num [abs_of_neg]
    rw [h2]
    norm_num at this ⊢
  have m0 := near_matrix s a 0 0 v0
  have m1 := near_matrix s a 10 s v1
  have exist : ∀ b t, b = 0 ∨ b = s → lmlMatrix [a] (.white (s, true)) (near t) [] = some !![s + a, b; b, s + a] →
      Nonempty (Call [a] (.white (s, true)) (near t) (0 : Matrix (Fin 2) (Fin 1) ℝ) []) := by
    intro b t hb hm
    have hp : 0 < s + a := by linarith
    have hdet : 0 < (s + a) * (s + a) - b * b := by
      rcases hb with rfl | rfl
      · nlinarith
      · nlinarith
    have hq : 0 < (s + a) - b * b / (s + a) := by
      rw [sub_pos, div_lt_iff₀ hp]
      linarith
    have hr := Real.mul_self_sqrt hp.le
    have hr' : Real.sqrt (s + a) ≠ 0 := (Real.sqrt_pos.mpr hp).ne'
    have hd : (!![s + a, b; b, s + a] : Matrix (Fin 2) (Fin 2) ℝ).det ≠ 0 := by
      rw [Matrix.det_fin_two_of]
      exact hdet.ne'
    refine ⟨⟨_, !![Real.sqrt (s + a), 0; b / Real.sqrt (s + a), Real.sqrt ((s + a) - b * b / (s + a))], 0, (!![s + a, b; b, s + a] : Matrix (Fin 2) (Fin 2) ℝ)⁻¹, [], hm, rfl, ⟨?_, ?_, ?_⟩, by simp,
      Matrix.mul_nonsing_inv _ (Ne.isUnit hd)⟩⟩
    · intro i j h
      fin_cases i <;> fin_cases j <;> simp at h ⊢
    · intro i
      fin_cases i
      · simpa using hp
      · simpa using hq
    · have hr2 := Real.mul_self_sqrt hq.le
      ext i j
      fin_cases i <;> fin_cases j <;> simp [Matrix.mul_apply, Fin.sum_univ_two]
      · exact hr
      · field_simp
      · field_simp
      · rw [hr2, div_mul_div_comm, hr]
        ring
  refine ⟨rfl, exist 0 0 (Or.inl rfl) m0, exist s 10 (Or.inr rfl) m1, fun c c' h => ?_⟩
  have e0 : c.K = !![s + a, 0; 0, s + a] := Option.some.inj (c.matrix.symm.trans m0)
  have e1 : c'.K = !![s + a, s; s, s + a] := Option.some.inj (c'.matrix.symm.trans m1)
  unfold Call.value at h
  rw [C103_value _ _ _ _ c.chol c.solve, C103_value _ _ _ _ c'.chol c'.solve, Fin.sum_univ_one, Fin.sum_univ_one] at h
  unfold logDensity at h
  have z : (fun i : Fin 2 => (0 : Matrix (Fin 2) (Fin 1) ℝ) i 0) = 0 := rfl
  rw [z, Matrix.mulVec_zero, Matrix.mulVec_zero, dotProduct_zero] at h
  have hl : Real.log c'.K.det = Real.log c.K.det := by linarith
  have hdet := Real.log_injOn_pos (Set.mem_Ioi.mpr (chol_det_pos c'.chol)) (Set.mem_Ioi.mpr (chol_det_pos c.chol)) hl
  rw [e0, e1, Matrix.det_fin_two_of, Matrix.det_fin_two_of] at hdet
  nlinarith

/-- Non-vacuity: an exchange of two rows; kernels with one length scale, and stationary ones without noise.  Calls exist: see `C205_white_violated`, and any positive definite covariance has a factor. -/
example : (∃ σ : Equiv.Perm (Fin 2), σ 0 = 1) ∧ Isotropic (.sum (.rbf [(1, false)]) (.white (1, true))) ∧ NoWhite (.prod (.const (2, false)) (.rbf [(1, false), (3, true)])) ∧
    (Kern.prod (.const (2, false)) (.rbf [(1, false), (3, true)])).isStationary = true ∧ (Kern.rbf [(1, false), (3, true)]).theta = some [Real.log 1] :=
  ⟨⟨Equiv.swap 0 1, by simp⟩, ⟨rfl, trivial⟩, by simp [NoWhite], rfl, by simp [Kern.theta, Kern.hyper, thetaOf]⟩

end Sk.GP
