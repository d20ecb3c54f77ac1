import Verif.Props.EnetFit

/-! # C199: fits of the elastic net agree up to their reported gaps -/
set_option autoImplicit false

namespace Sk.EnetFit

open Sk.Lin (colMean divisor Varies spread decision Coefs)

variable {n p : ℕ}

/-- The cost at the middle of two models is below the mean cost by at least a quarter of the squared differences. -/
theorem cost_mid (X : Fin n → Fin p → ℝ) (y : Fin n → ℝ) {l1 l2 : ℝ} (h1 : 0 ≤ l1) (s : Fin p → ℝ) (m m' : Coefs p) :
    (∑ i, (decision m (X i) - decision m' (X i)) ^ 2) / 4 + l2 / 4 * ∑ j, (s j * (m.coef j - m'.coef j)) ^ 2 ≤
      cost X y l1 l2 s m.coef m.intercept + cost X y l1 l2 s m'.coef m'.intercept - 2 * cost X y l1 l2 s (fun j => (m.coef j + m'.coef j) / 2) ((m.intercept + m'.intercept) / 2) := by
  have e1 : ∑ i, (y i - (∑ j, X i j * ((m.coef j + m'.coef j) / 2) + (m.intercept + m'.intercept) / 2)) ^ 2 =
      (∑ i, (y i - (∑ j, X i j * m.coef j + m.intercept)) ^ 2) / 2 + (∑ i, (y i - (∑ j, X i j * m'.coef j + m'.intercept)) ^ 2) / 2 - (∑ i, (decision m (X i) - decision m' (X i)) ^ 2) / 4 := by
    rw [Finset.sum_div, Finset.sum_div, Finset.sum_div, ← Finset.sum_add_distrib, ← Finset.sum_sub_distrib]
    apply Finset.sum_congr rfl
    intro i _
    have : ∑ j, X i j * ((m.coef j + m'.coef j) / 2) = (∑ j, X i j * m.coef j + ∑ j, X i j * m'.coef j) / 2 := by
      rw [← Finset.sum_add_distrib, Finset.sum_div]
      exact Finset.sum_congr rfl (fun j _ => by ring)
    rw [this]
    simp only [decision]
    ring
  have e2 : ∑ j, (s j * ((m.coef j + m'.coef j) / 2)) ^ 2 = (∑ j, (s j * m.coef j) ^ 2) / 2 + (∑ j, (s j * m'.coef j) ^ 2) / 2 - (∑ j, (s j * (m.coef j - m'.coef j)) ^ 2) / 4 := by
    rw [Finset.sum_div, Finset.sum_div, Finset.sum_div, ← Finset.sum_add_distrib, ← Finset.sum_sub_distrib]
    exact Finset.sum_congr rfl (fun j _ => by ring)
  have e3 : ∑ j, |s j * ((m.coef j + m'.coef j) / 2)| ≤ (∑ j, |s j * m.coef j| + ∑ j, |s j * m'.coef j|) / 2 := by
    rw [← Finset.sum_add_distrib, Finset.sum_div]
    apply Finset.sum_le_sum
    intro j _
    have : s j * ((m.coef j + m'.coef j) / 2) = (s j * m.coef j + s j * m'.coef j) / 2 := by ring
    rw [this, abs_div, abs_two]
    exact div_le_div_of_nonneg_right (abs_add_le _ _) (by norm_num)
  have e4 := mul_le_mul_of_nonneg_left e3 h1
  unfold cost
  rw [e1, e2]
  linarith

/-- A model of the changed data, in the coordinates of the data. -/
noncomputable def back (σ : Equiv.Perm (Fin p)) (e t : Fin p → ℝ) (u : ℝ) (m : Coefs p) : Coefs p :=
  ⟨fun j => e (σ.symm j) * m.coef (σ.symm j), m.intercept + ∑ j, t j * m.coef j - u⟩

theorem decision_back (σ : Equiv.Perm (Fin p)) (e t : Fin p → ℝ) (u : ℝ) (m : Coefs p) (x : Fin p → ℝ) :
    decision (back σ e t u m) x = decision m (fun j => e j * x (σ j) + t j) - u := by
  simp only [decision, back]
  rw [← Equiv.sum_comp σ (fun j => x j * (e (σ.symm j) * m.coef (σ.symm j)))]
  simp only [Equiv.symm_apply_apply]
  have : ∑ j, (e j * x (σ j) + t j) * m.coef j = ∑ j, x (σ j) * (e j * m.coef j) + ∑ j, t j * m.coef j := by
    rw [← Finset.sum_add_distrib]
    exact Finset.sum_congr rfl (fun j _ => by ring)
  rw [this]
  ring

theorem cost_back (X : Fin n → Fin p → ℝ) (y : Fin n → ℝ) (l1 l2 : ℝ) (s s' : Fin p → ℝ) (π : Equiv.Perm (Fin n)) (σ : Equiv.Perm (Fin p)) (e t : Fin p → ℝ) (u : ℝ) (hs : ∀ j, s' j = e j * s (σ j)) (m : Coefs p) :
    cost (fun i j => e j * X (π i) (σ j) + t j) (fun i => y (π i) + u) l1 l2 s' m.coef m.intercept = cost X y l1 l2 s (back σ e t u m).coef (back σ e t u m).intercept := by
  have h1 : ∑ i, (y (π i) + u - (∑ j, (e j * X (π i) (σ j) + t j) * m.coef j + m.intercept)) ^ 2 = ∑ i, (y i - (∑ j, X i j * (back σ e t u m).coef j + (back σ e t u m).intercept)) ^ 2 := by
    rw [← Equiv.sum_comp π (fun i => (y i - (∑ j, X i j * (back σ e t u m).coef j + (back σ e t u m).intercept)) ^ 2)]
    apply Finset.sum_congr rfl
    intro i _
    have := decision_back σ e t u m (X (π i))
    simp only [decision] at this
    rw [this]
    ring
  have h2 : ∀ f : ℝ → ℝ, ∑ j, f (s' j * m.coef j) = ∑ j, f (s j * (back σ e t u m).coef j) := by
    intro f
    rw [← Equiv.sum_comp σ (fun j => f (s j * (back σ e t u m).coef j))]
    apply Finset.sum_congr rfl
    intro j _
    simp only [back, Equiv.symm_apply_apply, hs]
    congr 1
    ring
  unfold cost
  rw [h1, h2 (fun x => |x|), h2 (fun x => x ^ 2)]

theorem spread_back (v : Fin n → ℝ) (π : Equiv.Perm (Fin n)) {e : ℝ} (he : 0 < e) (t : ℝ) : spread (fun i => e * v (π i) + t) = e * spread v := by
  rcases Nat.eq_zero_or_pos n with rfl | hn
  · simp [spread]
  · have hn' : (n : ℝ) ≠ 0 := Nat.cast_ne_zero.2 hn.ne'
    have hm : colMean (fun i => e * v (π i) + t) = e * colMean v + t := by
      simp only [colMean]
      rw [Finset.sum_add_distrib, ← Finset.mul_sum, Equiv.sum_comp π v, Finset.sum_const, Finset.card_univ, Fintype.card_fin, nsmul_eq_mul]
      field_simp
    rw [spread, hm, spread]
    have : ∑ i, (e * v (π i) + t - (e * colMean v + t)) ^ 2 = e ^ 2 * ∑ i, (v i - colMean v) ^ 2 := by
      rw [Finset.mul_sum, ← Equiv.sum_comp π (fun i => e ^ 2 * (v i - colMean v) ^ 2)]
      exact Finset.sum_congr rfl (fun i _ => by ring)
    rw [this, Real.sqrt_mul (by positivity), Real.sqrt_sq he.le]

/-- **C199.** Two fits of `ElasticNet` with the same penalties on the same data, where the second one may have other draws, another start, tolerance and number of iterations, and its data the rows and the features
in another order, the features and the outputs shifted and, with `Normalize`, the features in other units: the squared differences of the predictions for all training rows, plus the squared differences of the
coefficients weighted by the quadratic penalty, sum to at most four times the sum of the two reported gaps. -/
theorem C199_agree (P P' : Params) (hf : P.fitIntercept = true) (hf' : P'.fitIntercept = true) (hnorm : P'.normalize = P.normalize) (hal : P'.alpha = P.alpha) (hl : P'.l1Ratio = P.l1Ratio)
    (hpos : P'.positive = P.positive) (ha : 0 ≤ P.alpha) (hr0 : 0 ≤ P.l1Ratio) (hr1 : P.l1Ratio ≤ 1) (hit : 1 ≤ P.maxIter) (hit' : 1 ≤ P'.maxIter)
    (draws draws' : ℕ → List (Fin p)) (before before' : Option (Fin p → ℝ)) (w w' : Fin p → ℝ) (hw : Start P before w) (hw' : Start P' before' w') (old old' : ℝ) (X : Fin n → Fin p → ℝ) (y : Fin n → ℝ) (hn : n ≠ 0)
    (hv : P.normalize = true → ∀ j, Varies (fun i => X i j)) (π : Equiv.Perm (Fin n)) (σ : Equiv.Perm (Fin p)) (e t : Fin p → ℝ) (he : ∀ j, 0 < e j) (he1 : P.normalize = false → ∀ j, e j = 1) (u : ℝ) :
    ∃ f f', fitEN P draws before old X y = some f ∧ fitEN P' draws' before' old' (fun i j => e j * X (π i) (σ j) + t j) (fun i => y (π i) + u) = some f' ∧
      ∑ i, (decision f.coefs (X i) - (decision f'.coefs (fun j => e j * X i (σ j) + t j) - u)) ^ 2 +
        P.alpha * (1 - P.l1Ratio) * n * ∑ j, ((if P.normalize then spread (fun i => X i j) else 1) * (f.coefs.coef j - e (σ.symm j) * f'.coefs.coef (σ.symm j))) ^ 2 ≤ 4 * (f.gap + f'.gap) := by
  have hl1 : 0 ≤ P.alpha * P.l1Ratio * n := by positivity
  set s : Fin p → ℝ := fun j => if P.normalize then spread (fun i => X i j) else 1 with hs
  have hs' : ∀ j, (if P'.normalize then spread (fun i => e j * X (π i) (σ j) + t j) else 1) = e j * s (σ j) := by
    intro j
    simp only [hs, hnorm]
    by_cases hN : P.normalize = true
    · rw [if_pos hN, if_pos hN, spread_back (fun i => X i (σ j)) π (he j)]
    · rw [if_neg hN, if_neg hN, he1 (by simpa using hN)]
      ring
  have hv' : P'.normalize = true → ∀ j, Varies (fun i => e j * X (π i) (σ j) + t j) := by
    intro h j
    obtain ⟨i, k, hik⟩ := hv (hnorm ▸ h) (σ j)
    refine ⟨π.symm i, π.symm k, ?_⟩
    simp only [Equiv.apply_symm_apply]
    intro h
    exact hik (mul_left_cancel₀ (he j).ne' (add_right_cancel h))
  obtain ⟨f, h1, h2, h3⟩ := C122_fit P draws before w old X y hn hf hw hv ha hr0 hr1 hit
  obtain ⟨f', h1', h2', h3'⟩ := C122_fit P' draws' before' w' old' (fun i j => e j * X (π i) (σ j) + t j) (fun i => y (π i) + u) hn hf' hw' hv' (hal ▸ ha) (hl ▸ hr0) (hl ▸ hr1) hit'
  refine ⟨f, f', h1, h1', ?_⟩
  rw [hal, hl] at h3'
  simp only [hs'] at h3'
  rw [← hs] at h3
  -- the second model in the first coordinates
  set g := back σ e t u f'.coefs with hg
  have hmid := cost_mid X y (l2 := P.alpha * (1 - P.l1Ratio) * n) hl1 s f.coefs g
  have hgpos : P.positive = true → ∀ j, 0 ≤ g.coef j := fun hp j => mul_nonneg (he _).le (h2' (hpos ▸ hp) _)
  have k1 := h3 (fun j => (f.coefs.coef j + g.coef j) / 2) ((f.coefs.intercept + g.intercept) / 2) (fun hp j => by have := h2 hp j; have := hgpos hp j; linarith)
  -- the middle in the second coordinates
  have hinv : ∀ m : Coefs p, ∃ q : Coefs p, back σ e t u q = m ∧ ((∀ j, 0 ≤ m.coef j) → ∀ j, 0 ≤ q.coef j) := by
    intro m
    refine ⟨⟨fun j => m.coef (σ j) / e j, m.intercept - ∑ j, t j * (m.coef (σ j) / e j) + u⟩, ?_, fun h j => div_nonneg (h _) (he j).le⟩
    cases m
    simp only [back, Equiv.apply_symm_apply, Coefs.mk.injEq]
    refine ⟨?_, by ring⟩
    funext j
    have := (he (σ.symm j)).ne'
    field_simp
  obtain ⟨q, hq, hq0⟩ := hinv ⟨fun j => (f.coefs.coef j + g.coef j) / 2, (f.coefs.intercept + g.intercept) / 2⟩
  have k2 := h3' q.coef q.intercept (fun hp => hq0 (fun j => by have := h2 (hpos ▸ hp) j; have := hgpos (hpos ▸ hp) j; simp only; linarith))
  rw [cost_back X y _ _ s (fun j => e j * s (σ j)) π σ e t u (fun _ => rfl) f'.coefs, cost_back X y _ _ s (fun j => e j * s (σ j)) π σ e t u (fun _ => rfl) q, hq, ← hg] at k2
  have d1 : ∀ i, decision g (X i) = decision f'.coefs (fun j => e j * X i (σ j) + t j) - u := fun i => decision_back σ e t u f'.coefs (X i)
  simp only [d1] at hmid
  have d2 : ∀ j, g.coef j = e (σ.symm j) * f'.coefs.coef (σ.symm j) := fun j => rfl
  simp only [d2] at hmid k1 k2
  linarith

/-- **C199, no gap.** Fits that report a gap of 0 give the same predictions for all training rows, and with a quadratic penalty (`Alpha > 0`, `L1Ratio < 1`) the same coefficients, hence the same model. -/
theorem C199_zero_gap (P : Params) (hf : P.fitIntercept = true) (ha : 0 < P.alpha) (hr0 : 0 ≤ P.l1Ratio) (hr1 : P.l1Ratio < 1) (hit : 1 ≤ P.maxIter)
    (draws draws' : ℕ → List (Fin p)) (before before' : Option (Fin p → ℝ)) (w w' : Fin p → ℝ) (hw : Start P before w) (hw' : Start P before' w') (old old' : ℝ) (X : Fin n → Fin p → ℝ) (y : Fin n → ℝ) (hn : n ≠ 0)
    (hv : P.normalize = true → ∀ j, Varies (fun i => X i j)) (f f' : Fitted p) (h : fitEN P draws before old X y = some f) (h' : fitEN P draws' before' old' X y = some f') (hg : f.gap = 0) (hg' : f'.gap = 0) :
    f.coefs = f'.coefs := by
  obtain ⟨a, a', e1, e2, hle⟩ := C199_agree P P hf hf rfl rfl rfl rfl ha.le hr0 hr1.le hit hit draws draws' before before' w w' hw hw' old old' X y hn hv (Equiv.refl _) (Equiv.refl _) (fun _ => 1) (fun _ => 0)
    (fun _ => one_pos) (fun _ _ => rfl) 0
  simp only [Equiv.refl_apply, one_mul, add_zero] at e2
  have : a = f := Option.some.inj (e1.symm.trans h)
  subst this
  have : a' = f' := Option.some.inj (e2.symm.trans h')
  subst this
  rw [hg, hg'] at hle
  simp only [Equiv.refl_apply, one_mul, add_zero, sub_zero, Equiv.refl_symm, mul_zero] at hle
  set s : Fin p → ℝ := fun j => if P.normalize then spread (fun i => X i j) else 1 with hs
  have hsp : ∀ j, 0 < s j := by
    intro j
    simp only [hs]
    split
    · exact Sk.Lin.spread_pos _ (hv (by assumption) j)
    · exact one_pos
  have hn' : 0 < (n : ℝ) := by positivity
  have hc : 0 < P.alpha * (1 - P.l1Ratio) * n := by
    have : 0 < 1 - P.l1Ratio := by linarith
    positivity
  have t1 : 0 ≤ ∑ i, (decision a.coefs (X i) - decision a'.coefs (X i)) ^ 2 := Finset.sum_nonneg (fun _ _ => sq_nonneg _)
  have t2 : 0 ≤ ∑ j, (s j * (a.coefs.coef j - a'.coefs.coef j)) ^ 2 := Finset.sum_nonneg (fun _ _ => sq_nonneg _)
  have t3 : ∑ j, (s j * (a.coefs.coef j - a'.coefs.coef j)) ^ 2 = 0 := by
    by_contra hne
    have := mul_pos hc (lt_of_le_of_ne t2 (Ne.symm hne))
    linarith
  have t4 : ∑ i, (decision a.coefs (X i) - decision a'.coefs (X i)) ^ 2 = 0 := by
    rw [t3] at hle
    linarith
  have c1 : a.coefs.coef = a'.coefs.coef := by
    funext j
    have := (Finset.sum_eq_zero_iff_of_nonneg (fun j _ => sq_nonneg _)).1 t3 j (Finset.mem_univ j)
    have := pow_eq_zero_iff (two_ne_zero) |>.1 this
    rcases mul_eq_zero.1 this with h | h
    · exact absurd h (hsp j).ne'
    · exact sub_eq_zero.1 h
  have c2 : a.coefs.intercept = a'.coefs.intercept := by
    have := (Finset.sum_eq_zero_iff_of_nonneg (fun i _ => sq_nonneg _)).1 t4 ⟨0, Nat.pos_of_ne_zero hn⟩ (Finset.mem_univ _)
    have := sub_eq_zero.1 (pow_eq_zero_iff (two_ne_zero) |>.1 this)
    simp only [decision, c1] at this
    linarith
  revert c1 c2
  cases a.coefs
  cases a'.coefs
  rintro rfl rfl
  rfl

/-- The hypotheses are met, with cyclic and with other draws: three samples of two features. -/
example (draws : ℕ → List (Fin 2)) : ∃ f f', fitEN ⟨true, true, 1, 1 / 2, 1 / 1000, 100, false, true⟩ (fun _ => List.finRange 2) none 0 ![![0, 3], ![1, 5], ![2, 1]] ![1, 2, 4] = some f ∧
    fitEN ⟨true, true, 1, 1 / 2, 1 / 10, 7, false, true⟩ draws none 5 (fun i j => (10 : ℝ) * ![![0, 3], ![1, 5], ![2, 1]] (Equiv.swap 0 1 i) (Equiv.swap 0 1 j) + 1) (fun i => ![1, 2, 4] (Equiv.swap 0 1 i) + 3) = some f' ∧
    ∑ i, (decision f.coefs (![![0, 3], ![1, 5], ![2, 1]] i) - (decision f'.coefs (fun j => (10 : ℝ) * ![![0, 3], ![1, 5], ![2, 1]] i (Equiv.swap 0 1 j) + 1) - 3)) ^ 2 ≤ 4 * (f.gap + f'.gap) := by
  obtain ⟨f, f', h1, h2, h3⟩ := C199_agree (n := 3) (p := 2) ⟨true, true, 1, 1 / 2, 1 / 1000, 100, false, true⟩ ⟨true, true, 1, 1 / 2, 1 / 10, 7, false, true⟩ rfl rfl rfl rfl rfl rfl (by norm_num) (by norm_num) (by norm_num)
    (by norm_num) (by norm_num) (fun _ => List.finRange 2) draws none none (fun _ => 0) (fun _ => 0) ⟨rfl, fun _ _ => le_rfl⟩ ⟨rfl, fun _ _ => le_rfl⟩ 0 5 ![![0, 3], ![1, 5], ![2, 1]] ![1, 2, 4] (by norm_num)
    (fun _ j => ⟨0, 1, by fin_cases j <;> norm_num⟩) (Equiv.swap 0 1) (Equiv.swap 0 1) (fun _ => 10) (fun _ => 1) (fun _ => by norm_num) (fun h => absurd h (by simp)) 3
  refine ⟨f, f', h1, h2, le_trans (le_add_of_nonneg_right ?_) h3⟩
  exact mul_nonneg (by norm_num) (Finset.sum_nonneg (fun _ _ => sq_nonneg _))

end Sk.EnetFit
