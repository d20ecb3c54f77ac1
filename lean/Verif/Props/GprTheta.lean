import Verif.Props.Gpr

/-!
# C103, C104: `LogMarginalLikelihood(Theta, …)` as a function of `Theta`

`Props/Gpr.lean` has the value for a given covariance matrix and its derivative along any path of kernels.  Here the kernel is the one the code uses,
`CloneWithTheta(Theta)`.
-/
set_option autoImplicit false

namespace Sk.GP

theorem rescaledH_trans {h a b : Hyper} (h1 : RescaledH h a) (h2 : RescaledH h b) : RescaledH a b := by
  unfold RescaledH at *
  refine ⟨h2.1.trans h1.1.symm, ?_⟩
  rw [h1.1]
  rcases hh : h.2 with _ | _
  · simp only [hh, Bool.false_eq_true, if_false] at h2 ⊢; exact h2.2
  · simp only [hh, if_true] at h1 h2 ⊢; rw [h2.2, h1.2]

theorem rescaledL_trans : ∀ {l a b : List Hyper}, List.Forall₂ RescaledH l a → List.Forall₂ RescaledH l b → List.Forall₂ RescaledH a b
  | [], _, _, .nil, .nil => .nil
  | _ :: _, _, _, .cons h1 t1, .cons h2 t2 => .cons (rescaledH_trans h1 h2) (rescaledL_trans t1 t2)

theorem rescaled_trans {k a b : Kern} (h1 : Rescaled k a) (h2 : Rescaled k b) : Rescaled a b := by
  induction k generalizing a b with
  | const h => cases a <;> simp only [Rescaled] at h1; cases b <;> simp only [Rescaled] at h2; exact rescaledH_trans h1 h2
  | white h => cases a <;> simp only [Rescaled] at h1; cases b <;> simp only [Rescaled] at h2; exact rescaledH_trans h1 h2
  | rbf ls => cases a <;> simp only [Rescaled] at h1; cases b <;> simp only [Rescaled] at h2; exact rescaledL_trans h1 h2
  | dot h => cases a <;> simp only [Rescaled] at h1; cases b <;> simp only [Rescaled] at h2; exact rescaledH_trans h1 h2
  | sum k₁ k₂ i₁ i₂ => cases a <;> simp only [Rescaled] at h1; cases b <;> simp only [Rescaled] at h2; exact ⟨i₁ h1.1 h2.1, i₂ h1.2 h2.2⟩
  | prod k₁ k₂ i₁ i₂ => cases a <;> simp only [Rescaled] at h1; cases b <;> simp only [Rescaled] at h2; exact ⟨i₁ h1.1 h2.1, i₂ h1.2 h2.2⟩
  | exp k p ih => cases a <;> simp only [Rescaled] at h1; cases b <;> simp only [Rescaled] at h2; exact ⟨h2.1.trans h1.1.symm, ih h1.2 h2.2⟩

theorem rescaledL_pos : ∀ {l a : List Hyper}, List.Forall₂ RescaledH l a → ∀ h ∈ a, h.2 = false → 0 < h.1
  | [], _, .nil, _, hm, _ => by simp at hm
  | _ :: _, _, .cons h1 t1, h, hm, hf => by
    rcases List.mem_cons.1 hm with rfl | hm
    · have := h1.2
      rw [← h1.1, hf] at this
      simpa using this
    · exact rescaledL_pos t1 h hm hf

theorem rescaled_pos {k c : Kern} (h : Rescaled k c) : FreePos c := by
  induction k generalizing c with
  | const h' => cases c <;> simp only [Rescaled] at h; exact rescaledL_pos (.cons h .nil)
  | white h' => cases c <;> simp only [Rescaled] at h; exact rescaledL_pos (.cons h .nil)
  | rbf ls => cases c <;> simp only [Rescaled] at h; exact rescaledL_pos h
  | dot h' => cases c <;> simp only [Rescaled] at h; exact rescaledL_pos (.cons h .nil)
  | sum k₁ k₂ i₁ i₂ =>
    cases c <;> simp only [Rescaled] at h
    intro x hx; rcases List.mem_append.1 hx with hx | hx
    · exact i₁ h.1 x hx
    · exact i₂ h.2 x hx
  | prod k₁ k₂ i₁ i₂ =>
    cases c <;> simp only [Rescaled] at h
    intro x hx; rcases List.mem_append.1 hx with hx | hx
    · exact i₁ h.1 x hx
    · exact i₂ h.2 x hx
  | exp k p ih =>
    cases c <;> simp only [Rescaled] at h
    rename_i c p'
    exact fun x hx hf => ih (c := c) h.2 x hx hf

theorem rescaled_gradOK {n d : ℕ} {X : Fin n → Fin d → ℝ} {k c : Kern} (h : Rescaled k c) (hk : GradOK X k) : GradOK X c := by
  induction k generalizing c with
  | const h' => cases c <;> simp only [Rescaled] at h; trivial
  | white h' => cases c <;> simp only [Rescaled] at h; exact hk.imp (fun e => by rw [h.1, e]) id
  | rbf ls => cases c <;> simp only [Rescaled] at h; exact h.length_eq.symm.trans hk
  | dot h' => cases c <;> simp only [Rescaled] at h; trivial
  | sum k₁ k₂ i₁ i₂ => cases c <;> simp only [Rescaled] at h; exact ⟨i₁ h.1 hk.1, i₂ h.2 hk.2⟩
  | prod k₁ k₂ i₁ i₂ => cases c <;> simp only [Rescaled] at h; exact ⟨i₁ h.1 hk.1, i₂ h.2 hk.2⟩
  | exp k p ih => exact absurd hk id

/-- **C103** (partial: kernels that `CloneWithTheta` copies correctly, that is no exponentiation, no free noise level, and no sum or product whose second operand has no free
hyperparameter).  For every `theta` of the right length, the covariance whose log density is computed (`C103_value`) is the matrix of the same kernel expression with
`theta` as hyperparameters, plus `alpha` on the diagonal.
Missing for the full claim: what `C103_white_violated`, `C103_exponent_violated`, `C103_fixed_operand_violated` refute. -/
theorem C103_theta_partial {n d : ℕ} (alpha : List ℝ) (k : Kern) (hk : Cloneable k) (X : Fin n → Fin d → ℝ) (theta : List ℝ) (ht : theta.length = nfree k) :
    ∃ c, Rescaled k c ∧ c.theta = some theta ∧ (∀ c', Rescaled k c' → c'.theta = some theta → c' = c) ∧
      lmlMatrix alpha k X theta = (c.evalM X X).bind (addAlpha alpha) := by
  obtain ⟨c, h1, h2, h3, h4⟩ := (C56_clone_partial k hk).2.1 theta ht
  exact ⟨c, h3, h2, h4, by unfold lmlMatrix; rw [h1, Option.bind_some]⟩

/-- **C103** violated for a free noise level: the covariance is that of the old noise level, whatever `theta` says. -/
theorem C103_white_violated {n d : ℕ} (alpha : List ℝ) (s t : ℝ) (X : Fin n → Fin d → ℝ) :
    lmlMatrix alpha (.white (s, false)) X [t] = ((Kern.white (s, false)).evalM X X).bind (addAlpha alpha) := rfl

/-- **C103** violated for exponentiations: the covariance is that of the base kernel, without the exponent; for instance a constant kernel of value 4 squared has covariance 4 instead of 16. -/
theorem C103_exponent_violated {n d : ℕ} (alpha : List ℝ) (k : Kern) (p : ℕ) (X : Fin n → Fin d → ℝ) (theta : List ℝ) :
    lmlMatrix alpha (.exp k p) X theta = lmlMatrix alpha k X theta ∧
    ∀ i j, ((Kern.exp (.const (4, true)) 2).clone []).bind (fun c => c.evalM X X) = some (Matrix.of fun _ _ => 4) ∧ (Kern.exp (.const (4, true)) 2).val (X i) (X j) = 16 := by
  refine ⟨rfl, fun i j => ⟨rfl, ?_⟩⟩
  norm_num [Kern.val]

/-- **C103** violated for a sum or product whose second operand is fixed: `LogMarginalLikelihood` panics for every `theta` of the right length. -/
theorem C103_fixed_operand_violated {n d : ℕ} (alpha : List ℝ) (k₁ k₂ : Kern) (h₁ : NoExp k₁) (h₂ : NoExp k₂) (h0 : nfree k₂ = 0) (X : Fin n → Fin d → ℝ) (theta : List ℝ)
    (ht : theta.length = nfree (.sum k₁ k₂)) : lmlMatrix alpha (.sum k₁ k₂) X theta = none ∧ lmlMatrix alpha (.prod k₁ k₂) X theta = none := by
  obtain ⟨a, b⟩ := C56_fixed_operand_violated k₁ k₂ h₁ h₂ h0 theta ht
  unfold lmlMatrix
  rw [a, b]
  exact ⟨rfl, rfl⟩

/-- **C104** (partial: kernels that `CloneWithTheta` copies correctly and whose kernel gradients are right, `C103_theta_partial` and `C102_gradient_partial`).  Each entry of the gradient returned by
`LogMarginalLikelihood(theta, true)` is the derivative of the value with respect to that entry of `theta`.  `K u`, `L u`, `A u` are the matrix, its Cholesky factor and the solution
computed for `theta` with `u` as its `i`-th entry.
Missing for the full claim: what `C104_white_violated`, `C104_anisotropic_violated` refute. -/
theorem C104_gradient_partial {n d q : ℕ} (X : Fin n → Fin d → ℝ) (Y : Matrix (Fin n) (Fin q) ℝ) (alpha : List ℝ) (k : Kern) (hk : GradOK X k) (hc : Cloneable k) (theta : List ℝ)
    (ht : theta.length = nfree k) :
    ∃ g, lmlSlices k X theta = some g ∧ g.length = theta.length ∧ ∀ (i : ℕ) (hi : i < g.length) (hi' : i < theta.length) (K L : ℝ → Matrix (Fin n) (Fin n) ℝ)
      (A : ℝ → Matrix (Fin n) (Fin q) ℝ) (Kinv : Matrix (Fin n) (Fin n) ℝ), (∀ u, lmlMatrix alpha k X (theta.set i u) = some (K u)) →
      (∀ u, IsChol (L u) (K u)) → (∀ u, K u * A u = Y) → K theta[i] * Kinv = 1 →
      HasDerivAt (fun u => lml (L u) (A u) Y) (lmlGrad Kinv (A theta[i]) g[i]) theta[i] := by
  obtain ⟨_, hcl, _⟩ := C56_clone_partial k hc
  obtain ⟨c0, h1, h2, h3, _⟩ := hcl theta ht
  obtain ⟨g, t, hg, ht', hl, hmain⟩ := gradient_any X Y alpha c0 (rescaled_gradOK h3 hk) (rescaled_pos h3)
  rw [h2, Option.some.injEq] at ht'
  subst ht'
  refine ⟨g, by unfold lmlSlices; rw [h1]; exact hg, hl, fun i hi hi' K L A Kinv hK hL hA hKi => ?_⟩
  have hcu : ∀ u, ∃ c, k.clone (theta.set i u) = some c ∧ c.theta = some (theta.set i u) ∧ Rescaled k c := by
    intro u
    obtain ⟨c, a, b, e, _⟩ := hcl (theta.set i u) (by rw [List.length_set]; exact ht)
    exact ⟨c, a, b, e⟩
  choose cu hc1 hc2 hc3 using hcu
  refine hmain i hi hi' cu K L A Kinv (fun u => ⟨rescaled_trans h3 (hc3 u), hc2 u⟩) (fun u => ?_) hL hA hKi
  have := hK u
  unfold lmlMatrix at this
  rw [hc1 u, Option.bind_some] at this
  exact this

/-- **C104** violated for a free noise level `s`: on one training row with output `y`, the value does not depend on `theta` at all, yet the gradient returned is not zero unless `y² = s + alpha`. -/
theorem C104_white_violated {d : ℕ} (X : Fin 1 → Fin d → ℝ) (s a y : ℝ) (hs : 0 < s) (hsa : 0 < s + a) (hy : y ^ 2 ≠ s + a) :
    ∃ (K L A Kinv : Matrix (Fin 1) (Fin 1) ℝ) (g : Fin 1 → Fin 1 → ℝ), (∀ t, lmlMatrix [a] (.white (s, false)) X [t] = some K) ∧ (∀ t, lmlSlices (.white (s, false)) X [t] = some [g]) ∧
      IsChol L K ∧ K * A = Matrix.of (fun _ _ => y) ∧ K * Kinv = 1 ∧ lmlGrad Kinv A g ≠ 0 := by
  refine ⟨Matrix.of fun _ _ => s + a, Matrix.of fun _ _ => Real.sqrt (s + a), Matrix.of fun _ _ => y / (s + a), Matrix.of fun _ _ => 1 / (s + a), fun i j => if i = j then s else 0, ?_, fun t => rfl, ⟨?_, ?_, ?_⟩, ?_, ?_, ?_⟩
  · intro t
    rw [C103_white_violated]
    simp only [Kern.evalM, Kern.evalOK, if_true, Option.bind_some, addAlpha, List.length_singleton]
    refine congrArg some ?_
    ext i j
    fin_cases i; fin_cases j
    have hself : ∀ f, approxEq (X 0 f) (X 0 f) := fun f => Or.inl (by norm_num)
    simp [Kern.val, Matrix.diagonal, hself]
  · intro i j hij
    exact absurd hij (by simp [Subsingleton.elim i j])
  · intro i; exact Real.sqrt_pos.mpr hsa
  · ext i j
    simp [Matrix.mul_apply, Matrix.transpose, Real.mul_self_sqrt hsa.le]
  · ext i j
    simp only [Matrix.mul_apply, Matrix.of_apply, Finset.univ_unique, Finset.sum_const, Finset.card_singleton, one_smul]
    field_simp
  · ext i j
    fin_cases i; fin_cases j
    simp [Matrix.mul_apply]
    field_simp
  · simp only [lmlGrad, Finset.univ_unique, Finset.sum_singleton, Matrix.of_apply, if_true]
    intro h
    have h1 : (y / (s + a) * (y / (s + a)) - 1 / (s + a)) * s = 0 := by linarith
    rcases mul_eq_zero.1 h1 with h2 | h2
    · apply hy
      field_simp at h2
      linarith
    · exact hs.ne' h2

/-- **C104** violated for an anisotropic `RBF`: the gradient has one entry whatever the number of length scales. -/
theorem C104_anisotropic_violated {n d : ℕ} (X : Fin n → Fin d → ℝ) (ls : List Hyper) (h2 : 2 ≤ ls.length) (hf : ∀ h ∈ ls, h.2 = false) (theta : List ℝ) (ht : theta.length = ls.length) :
    ∃ g, lmlSlices (.rbf ls) X theta = some g ∧ g.length = 1 ∧ 2 ≤ theta.length := by
  have hn : nfree (.rbf ls) = ls.length := by
    unfold nfree freeH params
    rw [List.filter_eq_self.mpr (fun h hh => by simp [hf h hh])]
  obtain ⟨c, h1, h3⟩ : ∃ c, (Kern.rbf ls).clone theta = some c ∧ Rescaled (.rbf ls) c := by
    obtain ⟨c, h1, _, h3, _⟩ := (C56_clone_partial (.rbf ls) trivial).2.1 theta (by rw [hn]; exact ht)
    exact ⟨c, h1, h3⟩
  cases c <;> simp only [Rescaled] at h3
  rename_i ls'
  have hf' : ∀ h ∈ ls', h.2 = false := by
    clear h1 hn ht h2
    induction h3 with
    | nil => intro h hm; simp at hm
    | cons hab _ ih =>
      intro h hm
      rcases List.mem_cons.1 hm with rfl | hm
      · rw [hab.1]; exact hf _ (by simp)
      · exact ih (fun x hx => hf x (by simp [hx])) h hm
  obtain ⟨g, t, hg, _, hl, _⟩ := C102_anisotropic_violated X ls' (by rw [← h3.length_eq]; exact h2) hf'
  exact ⟨g, by unfold lmlSlices; rw [h1]; exact hg, hl, by omega⟩

/-- The kernel `c · RBF(l) + dot` with all hyperparameters free meets the hypotheses of `C103_theta_partial` and `C104_gradient_partial` on every data set. -/
example {n d : ℕ} (X : Fin n → Fin d → ℝ) : Cloneable (.sum (.prod (.const (2, false)) (.rbf [(1, false)])) (.dot (3, false))) ∧
    GradOK X (.sum (.prod (.const (2, false)) (.rbf [(1, false)])) (.dot (3, false))) ∧ nfree (.sum (.prod (.const (2, false)) (.rbf [(1, false)])) (.dot (3, false))) = 3 := by
  simp [Cloneable, GradOK, nfree, freeH, params]

end Sk.GP
