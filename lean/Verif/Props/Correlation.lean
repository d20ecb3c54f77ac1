import Verif.Props.OlsInvariance
import Verif.Props.Scores2
import Verif.Props.LeftOut

/-!
# C248: the score of a linear regression on its training rows, slopes and correlations
-/
set_option autoImplicit false

namespace Sk.Correlation

open Sk.Lin Sk.Metrics

/-- The sum of the products of the deviations from the means (`n` times the covariance). -/
noncomputable def cov {n : ℕ} (u v : Fin n → ℝ) : ℝ := ∑ i, (u i - (∑ k, u k) / n) * (v i - (∑ k, v k) / n)

/-- `Score` of the model `m` on the rows of `X` and one column of targets. -/
noncomputable def score (eps : ℝ) {n p : ℕ} (m : Coefs p) (X : Fin n → Fin p → ℝ) (y : Fin n → ℝ) : Option ℝ :=
  regScore eps 1 (linearRow p [List.ofFn m.coef] [m.intercept]) (List.ofFn fun i => List.ofFn (X i)) (List.ofFn fun i => [y i])

theorem cov_comm {n : ℕ} (u v : Fin n → ℝ) : cov u v = cov v u := Finset.sum_congr rfl fun _ _ => mul_comm _ _

theorem cov_left {n : ℕ} (hn : n ≠ 0) (u v : Fin n → ℝ) : cov u v = ∑ i, u i * (v i - (∑ k, v k) / n) := by
  have hn' : (n : ℝ) ≠ 0 := Nat.cast_ne_zero.2 hn
  have h0 : ∑ i, (v i - (∑ k, v k) / n) = 0 := by
    rw [Finset.sum_sub_distrib, Finset.sum_const, Finset.card_univ, Fintype.card_fin, nsmul_eq_mul]
    field_simp
    ring
  unfold cov
  simp only [sub_mul, Finset.sum_sub_distrib]
  rw [← Finset.mul_sum, h0]
  ring

theorem cov_self_nonneg {n : ℕ} (u : Fin n → ℝ) : 0 ≤ cov u u := Finset.sum_nonneg fun _ _ => mul_self_nonneg _

private theorem zip_ofFn' {n : ℕ} {A B C : Type} (g : A → B → C) (x : Fin n → A) (y : Fin n → B) : List.zipWith g (List.ofFn x) (List.ofFn y) = List.ofFn (fun i => g (x i) (y i)) := by
  apply List.ext_getElem
  · simp
  · intro i h1 h2; simp

theorem score_eq {eps : ℝ} (heps : 0 < eps) {n p : ℕ} (hn : n ≠ 0) (m : Coefs p) (X : Fin n → Fin p → ℝ) (y : Fin n → ℝ) (hy : eps ≤ cov y y) :
    score eps m X y = some (1 - (∑ i, (y i - decision m (X i)) ^ 2) / cov y y) := by
  set P : List (List ℝ) := List.ofFn fun i => [decision m (X i)] with hP
  have hmap : (List.ofFn fun i => List.ofFn (X i)).mapM (linearRow p [List.ofFn m.coef] [m.intercept]) = some P := by
    rw [ListX.mapM_forall2, List.forall₂_iff_get]
    refine ⟨by simp [hP], fun i h1 h2 => ?_⟩
    simp only [List.get_eq_getElem, hP, List.getElem_ofFn, linearRow, List.length_ofFn, if_true, List.zipWith_cons_cons, List.zipWith_nil_left, zip_ofFn', List.sum_ofFn, decision]
  obtain ⟨s, h1, -, -, -, h5⟩ := C171_regressors_partial eps heps 1 one_pos (linearRow p [List.ofFn m.coef] [m.intercept]) (List.ofFn fun i => List.ofFn (X i)) (List.ofFn fun i => [y i]) P hmap (by simp)
    (by
      intro h
      have := congrArg List.length h
      simp at this
      exact hn this) (by
      intro r hr
      obtain ⟨i, rfl⟩ := (List.mem_ofFn' _ _).1 hr
      rfl) (by
      intro r hr
      obtain ⟨i, rfl⟩ := (List.mem_ofFn' _ _).1 hr
      rfl)
  have hcol : colAt (List.ofFn fun i => [y i]) 0 = List.ofFn y := by
    unfold colAt
    rw [List.map_ofFn]
    rfl
  have ht : tss (List.ofFn y) = cov y y := by
    unfold tss cov
    rw [List.map_ofFn, List.sum_ofFn, List.sum_ofFn, List.length_ofFn]
    exact Finset.sum_congr rfl fun i _ => by simp only [Function.comp]; ring
  have hr : rss (List.ofFn fun i => [y i]) P 0 = ∑ i, (y i - decision m (X i)) ^ 2 := by
    unfold rss
    rw [hP, List.zip, zip_ofFn', List.map_ofFn, List.sum_ofFn]
    refine Finset.sum_congr rfl fun i _ => ?_
    simp only [Function.comp, List.getD_cons_zero]
    ring
  have hs := h5 (by
    intro j hj
    obtain rfl : j = 0 := by omega
    rw [hcol, ht]
    exact hy)
  unfold score
  rw [h1, hs]
  unfold meanR2
  rw [show List.range 1 = [0] from rfl, List.map_singleton, List.sum_singleton, hcol, ht, hr, Nat.cast_one, div_one]

/-- **C248, training score.** `LinearRegression` with an intercept: its `Score` on its training rows lies between 0 and 1, is the squared correlation of predictions and targets, is 1 exactly if all targets are predicted, and 0
exactly if no feature is correlated with the targets. -/
theorem C248_training {eps : ℝ} (heps : 0 < eps) {n p : ℕ} (hn : n ≠ 0) (normalize : Bool) {solve : (Fin n → Fin p → ℝ) → (Fin n → ℝ) → Fin p → ℝ} (hs : LeastSquares solve) (old : ℝ) {X : Fin n → Fin p → ℝ} (hX : Spans X) (y : Fin n → ℝ)
    (hy : eps ≤ cov y y) :
    ∃ m s, fit true normalize solve old X y = some m ∧ score eps m X y = some s ∧ 0 ≤ s ∧ s ≤ 1 ∧
      cov (fun i => decision m (X i)) y ^ 2 = s * (cov (fun i => decision m (X i)) (fun i => decision m (X i)) * cov y y) ∧
      (s = 1 ↔ ∀ i, decision m (X i) = y i) ∧ (s = 0 ↔ ∀ j, cov (fun i => X i j) y = 0) := by
  have hc : 0 < cov y y := lt_of_lt_of_le heps hy
  obtain ⟨m, hm, h0, h1⟩ := fit_normal normalize hs old hX y hn
  have hmean : ∑ i, decision m (X i) = ∑ i, y i := by
    rw [Finset.sum_sub_distrib] at h0
    linarith
  have horth : ∑ i, decision m (X i) * (y i - decision m (X i)) = 0 := by
    have e : ∀ i, decision m (X i) * (y i - decision m (X i)) = ∑ j, m.coef j * (X i j * (y i - decision m (X i))) + m.intercept * (y i - decision m (X i)) := by
      intro i
      conv_lhs => rw [show decision m (X i) * (y i - decision m (X i)) = (∑ j, X i j * m.coef j + m.intercept) * (y i - decision m (X i)) from rfl]
      rw [add_mul, Finset.sum_mul]
      congr 1
      exact Finset.sum_congr rfl fun j _ => by ring
    simp only [e]
    rw [Finset.sum_add_distrib, Finset.sum_comm, ← Finset.mul_sum, h0, mul_zero, add_zero]
    refine Finset.sum_eq_zero fun j _ => ?_
    rw [← Finset.mul_sum, h1 j, mul_zero]
  set f : Fin n → ℝ := fun i => decision m (X i) with hf
  have e1 : cov f y = cov f f := by
    rw [cov_left hn, cov_left hn, hmean]
    have : ∑ i, f i * (y i - (∑ k, y k) / n) - ∑ i, f i * (f i - (∑ k, y k) / n) = 0 := by
      rw [← Finset.sum_sub_distrib, ← horth]
      exact Finset.sum_congr rfl fun i _ => by ring
    linarith
  have e2 : cov y y = cov f f + ∑ i, (y i - f i) ^ 2 := by
    have a : cov y y = ∑ i, y i * (y i - (∑ k, y k) / n) := cov_left hn y y
    have b : cov f f = ∑ i, f i * (y i - (∑ k, y k) / n) := by rw [← e1, cov_left hn]
    have c : ∑ i, (y i - f i) ^ 2 = ∑ i, (y i - f i) * y i - ∑ i, f i * (y i - f i) := by
      rw [← Finset.sum_sub_distrib]
      exact Finset.sum_congr rfl fun i _ => by ring
    have d : ∑ i, y i * (y i - (∑ k, y k) / n) - ∑ i, f i * (y i - (∑ k, y k) / n) = ∑ i, (y i - f i) * y i - (∑ i, (y i - f i)) * ((∑ k, y k) / n) := by
      rw [← Finset.sum_sub_distrib, Finset.sum_mul, ← Finset.sum_sub_distrib]
      exact Finset.sum_congr rfl fun i _ => by ring
    rw [h0, zero_mul, sub_zero] at d
    rw [a, b, c, horth, sub_zero]
    linarith
  have hS : 0 ≤ ∑ i, (y i - f i) ^ 2 := Finset.sum_nonneg fun _ _ => sq_nonneg _
  have hF := cov_self_nonneg f
  have es : 1 - (∑ i, (y i - f i) ^ 2) / cov y y = cov f f / cov y y := by
    rw [eq_div_iff hc.ne', sub_mul, div_mul_cancel₀ _ hc.ne']
    linarith
  refine ⟨m, cov f f / cov y y, hm, ?_, div_nonneg hF hc.le, (div_le_one hc).2 (by linarith), ?_, ?_, ?_⟩
  · rw [score_eq heps hn m X y hy, ← es]
  · change cov f y ^ 2 = cov f f / cov y y * (cov f f * cov y y)
    rw [e1]
    field_simp
  · rw [div_eq_one_iff_eq hc.ne']
    constructor
    · intro h i
      have hz : ∑ i, (y i - f i) ^ 2 = 0 := by linarith
      have := (Finset.sum_eq_zero_iff_of_nonneg (fun i _ => sq_nonneg _)).1 hz i (Finset.mem_univ i)
      have := pow_eq_zero_iff (two_ne_zero) |>.1 this
      linarith
    · intro h
      have : f = y := funext h
      rw [this]
  · rw [div_eq_zero_iff, or_iff_left hc.ne']
    constructor
    · intro h j
      have hz : ∀ i, f i = (∑ k, y k) / n := by
        intro i
        have := (Finset.sum_eq_zero_iff_of_nonneg (fun i _ => mul_self_nonneg (f i - (∑ k, f k) / n))).1 h i (Finset.mem_univ i)
        have := mul_self_eq_zero.1 this
        rw [hmean] at this
        linarith
      rw [cov_left hn, ← h1 j]
      exact Finset.sum_congr rfl fun i _ => by rw [← hz i]
    · intro h
      rw [← e1, cov_left hn]
      have e : ∀ i, f i * (y i - (∑ k, y k) / n) = ∑ j, m.coef j * (X i j * (y i - (∑ k, y k) / n)) + m.intercept * (y i - (∑ k, y k) / n) := by
        intro i
        rw [show f i = ∑ j, X i j * m.coef j + m.intercept from rfl, add_mul, Finset.sum_mul]
        congr 1
        exact Finset.sum_congr rfl fun j _ => by ring
      simp only [e]
      have hz : ∑ i, (y i - (∑ k, y k) / n) = 0 := by
        have := cov_left hn (fun _ => 1) y
        simp only [one_mul] at this
        rw [← this, cov]
        have hn' : (n : ℝ) ≠ 0 := Nat.cast_ne_zero.2 hn
        simp [hn']
      rw [Finset.sum_add_distrib, Finset.sum_comm, ← Finset.mul_sum, hz, mul_zero, add_zero]
      refine Finset.sum_eq_zero fun j _ => ?_
      have := h j
      rw [cov_left hn] at this
      rw [← Finset.mul_sum, this, mul_zero]

private theorem spans_one {n : ℕ} {x : Fin n → ℝ} (h : Varies x) : Spans (fun i (_ : Fin 1) => x i) := by
  obtain ⟨i, k, hik⟩ := h
  intro c b hc
  have h1 := hc i
  have h2 := hc k
  simp only [Finset.univ_unique, Finset.sum_singleton] at h1 h2
  funext j
  rw [Subsingleton.elim j default]
  have : (x i - x k) * c default = 0 := by linarith
  exact (mul_eq_zero.1 this).resolve_left (sub_ne_zero.2 hik)

private theorem cov_pos {n : ℕ} {x : Fin n → ℝ} (h : Varies x) : 0 < cov x x := by
  refine lt_of_le_of_ne (cov_self_nonneg x) fun h0 => ?_
  obtain ⟨i, k, hik⟩ := h
  have hz := fun i => mul_self_eq_zero.1 ((Finset.sum_eq_zero_iff_of_nonneg (fun i _ => mul_self_nonneg (x i - (∑ k, x k) / n))).1 h0.symm i (Finset.mem_univ i))
  have h1 := hz i
  have h2 := hz k
  exact hik (by linarith)

/-- **C248, one feature.** The slope is the covariance divided by the variance of the feature, the line goes through the means, and the training score is the squared correlation of feature and target. -/
theorem C248_one_feature {eps : ℝ} (heps : 0 < eps) {n : ℕ} (hn : n ≠ 0) (normalize : Bool) {solve : (Fin n → Fin 1 → ℝ) → (Fin n → ℝ) → Fin 1 → ℝ} (hs : LeastSquares solve) (old : ℝ) (x y : Fin n → ℝ) (hx : Varies x) (hy : eps ≤ cov y y) :
    ∃ m, fit true normalize solve old (fun i _ => x i) y = some m ∧ m.coef 0 = cov x y / cov x x ∧ m.intercept = (∑ i, y i) / n - m.coef 0 * ((∑ i, x i) / n) ∧
      score eps m (fun i _ => x i) y = some (cov x y ^ 2 / (cov x x * cov y y)) := by
  have hn' : (n : ℝ) ≠ 0 := Nat.cast_ne_zero.2 hn
  have hc : 0 < cov y y := lt_of_lt_of_le heps hy
  have hxx := cov_pos hx
  obtain ⟨m, hm, h0, h1⟩ := fit_normal normalize hs old (spans_one hx) y hn
  have hd : ∀ i : Fin n, decision m (fun _ => x i) = x i * m.coef 0 + m.intercept := by
    intro i
    simp [decision]
  simp only [hd] at h0 h1
  have hi : m.intercept = (∑ i, y i) / n - m.coef 0 * ((∑ i, x i) / n) := by
    rw [Finset.sum_sub_distrib, Finset.sum_add_distrib, ← Finset.sum_mul, Finset.sum_const, Finset.card_univ, Fintype.card_fin, nsmul_eq_mul] at h0
    field_simp
    linarith
  have hb : cov x y = m.coef 0 * cov x x := by
    have := h1 0
    have e : ∑ i, x i * (y i - (x i * m.coef 0 + m.intercept)) = cov x y - m.coef 0 * cov x x := by
      rw [cov_left hn, cov_left hn, Finset.mul_sum, ← Finset.sum_sub_distrib]
      refine Finset.sum_congr rfl fun i _ => ?_
      rw [hi]
      ring
    linarith
  refine ⟨m, hm, by rw [hb, mul_div_cancel_right₀ _ hxx.ne'], hi, ?_⟩
  rw [score_eq heps hn m _ y hy]
  simp only [hd]
  have e : ∑ i, (y i - (x i * m.coef 0 + m.intercept)) ^ 2 = cov y y - 2 * m.coef 0 * cov x y + m.coef 0 ^ 2 * cov x x := by
    unfold cov
    rw [Finset.mul_sum, Finset.mul_sum, ← Finset.sum_sub_distrib, ← Finset.sum_add_distrib]
    refine Finset.sum_congr rfl fun i _ => ?_
    rw [hi]
    ring
  rw [e, hb]
  congr 1
  field_simp
  ring

/-- **C248, exchanged roles.** The regression of the targets on one feature and that of the feature on the targets have the same training score, which is the product of their slopes. -/
theorem C248_exchanged {eps : ℝ} (heps : 0 < eps) {n : ℕ} (hn : n ≠ 0) (normalize normalize' : Bool) {solve solve' : (Fin n → Fin 1 → ℝ) → (Fin n → ℝ) → Fin 1 → ℝ} (hs : LeastSquares solve) (hs' : LeastSquares solve') (old old' : ℝ) (x y : Fin n → ℝ)
    (hx : eps ≤ cov x x) (hy : eps ≤ cov y y) :
    ∃ m m', fit true normalize solve old (fun i _ => x i) y = some m ∧ fit true normalize' solve' old' (fun i _ => y i) x = some m' ∧
      score eps m (fun i _ => x i) y = some (m.coef 0 * m'.coef 0) ∧ score eps m' (fun i _ => y i) x = some (m.coef 0 * m'.coef 0) := by
  have hxx : 0 < cov x x := lt_of_lt_of_le heps hx
  have hyy : 0 < cov y y := lt_of_lt_of_le heps hy
  have hv : ∀ {u : Fin n → ℝ}, 0 < cov u u → Varies u := by
    intro u hu
    by_contra hne
    unfold Varies at hne
    push Not at hne
    have hn' : (n : ℝ) ≠ 0 := Nat.cast_ne_zero.2 hn
    have : cov u u = 0 := by
      refine Finset.sum_eq_zero fun i _ => ?_
      have : ∑ k, u k = n * u i := by
        rw [Finset.sum_congr rfl fun k _ => hne k i, Finset.sum_const, Finset.card_univ, Fintype.card_fin, nsmul_eq_mul]
      rw [this, mul_div_cancel_left₀ _ hn', sub_self, zero_mul]
    linarith
  obtain ⟨m, hm, hc, -, hsc⟩ := C248_one_feature heps hn normalize hs old x y (hv hxx) hy
  obtain ⟨m', hm', hc', -, hsc'⟩ := C248_one_feature heps hn normalize' hs' old' y x (hv hyy) hx
  refine ⟨m, m', hm, hm', ?_, ?_⟩
  · rw [hsc, hc, hc', cov_comm y x]
    congr 1
    field_simp
  · rw [hsc', hc, hc', cov_comm y x]
    congr 1
    field_simp

/-- Targets 0, 1, 5 at 0, 1, 3: the slopes are 12/7 and, with exchanged roles, 4/7; the score is 48/49. -/
example : cov (![0, 1, 3] : Fin 3 → ℝ) ![0, 1, 5] = 8 ∧ cov (![0, 1, 3] : Fin 3 → ℝ) ![0, 1, 3] = 14 / 3 ∧ cov (![0, 1, 5] : Fin 3 → ℝ) ![0, 1, 5] = 14 ∧
    ∃ m m', fit true false (fun (A : Fin 3 → Fin 1 → ℝ) b _ => (∑ i, A i 0 * b i) / ∑ i, A i 0 * A i 0) 0 (fun i _ => (![0, 1, 3] : Fin 3 → ℝ) i) ![0, 1, 5] = some m ∧
      fit true true (fun (A : Fin 3 → Fin 1 → ℝ) b _ => (∑ i, A i 0 * b i) / ∑ i, A i 0 * A i 0) 0 (fun i _ => (![0, 1, 5] : Fin 3 → ℝ) i) ![0, 1, 3] = some m' ∧
      score 1 m (fun i _ => (![0, 1, 3] : Fin 3 → ℝ) i) ![0, 1, 5] = some (m.coef 0 * m'.coef 0) ∧ score 1 m' (fun i _ => (![0, 1, 5] : Fin 3 → ℝ) i) ![0, 1, 3] = some (m.coef 0 * m'.coef 0) := by
  have a : cov (![0, 1, 3] : Fin 3 → ℝ) ![0, 1, 5] = 8 := by simp [cov, Fin.sum_univ_three]; norm_num
  have b : cov (![0, 1, 3] : Fin 3 → ℝ) ![0, 1, 3] = 14 / 3 := by simp [cov, Fin.sum_univ_three]; norm_num
  have c : cov (![0, 1, 5] : Fin 3 → ℝ) ![0, 1, 5] = 14 := by simp [cov, Fin.sum_univ_three]; norm_num
  exact ⟨a, b, c, C248_exchanged one_pos (by norm_num) false true (Sk.LeftOut.one_feature 3) (Sk.LeftOut.one_feature 3) 0 0 ![0, 1, 3] ![0, 1, 5] (by rw [b]; norm_num) (by rw [c]; norm_num)⟩

/-- The hypotheses of `C248_training` are met by the same data. -/
example : ∃ m s, fit true false (fun (A : Fin 3 → Fin 1 → ℝ) b _ => (∑ i, A i 0 * b i) / ∑ i, A i 0 * A i 0) 0 (fun i _ => (![0, 1, 3] : Fin 3 → ℝ) i) ![0, 1, 5] = some m ∧
    score 1 m (fun i _ => (![0, 1, 3] : Fin 3 → ℝ) i) ![0, 1, 5] = some s ∧ 0 < s ∧ s ≤ 1 := by
  have c : cov (![0, 1, 5] : Fin 3 → ℝ) ![0, 1, 5] = 14 := by simp [cov, Fin.sum_univ_three]; norm_num
  have a : cov (![0, 1, 3] : Fin 3 → ℝ) ![0, 1, 5] = 8 := by simp [cov, Fin.sum_univ_three]; norm_num
  obtain ⟨m, s, h1, h2, h3, h4, -, -, h5⟩ := C248_training one_pos (by norm_num) false (Sk.LeftOut.one_feature 3) 0 (spans_one (x := ![0, 1, 3]) ⟨0, 1, by norm_num⟩) ![0, 1, 5] (by rw [c]; norm_num)
  refine ⟨m, s, h1, h2, lt_of_le_of_ne h3 fun h => ?_, h4⟩
  have := h5.1 h.symm 0
  rw [show (fun i => (fun i (_ : Fin 1) => (![0, 1, 3] : Fin 3 → ℝ) i) i 0) = ![0, 1, 3] from rfl, a] at this
  norm_num at this

end Sk.Correlation
