import Verif.Props.EnetFit

/-! # C211: elastic nets solved exactly: gap zero, large penalties, orthogonal features -/
set_option autoImplicit false

namespace Sk.Enet

variable {K : Type} [Field K] [LinearOrder K] [IsStrictOrderedRing K] {n p : ℕ}

/-- First-order conditions in one dimension. -/
theorem one_dim {a x w alpha : K} {positive : Bool} (ha : 0 ≤ a) (hw : positive = true → 0 ≤ w)
    (h : ∀ z, (positive = true → 0 ≤ z) → 0 ≤ a / 2 * (z - w) ^ 2 - x * (z - w) + alpha * (|z| - |w|)) (hal : 0 ≤ alpha) : x * w = alpha * |w| ∧ x ≤ alpha ∧ (positive = false → -alpha ≤ x) := by
  have small : ∀ D : K, 0 < D → ∃ d, 0 < d ∧ a / 2 * d < D := by
    intro D hD
    have ha1 : 0 < a + 1 := by linarith
    refine ⟨D / (a + 1), div_pos hD ha1, ?_⟩
    rw [← mul_div_assoc, div_lt_iff₀ ha1]
    nlinarith
  have hx : x ≤ alpha := by
    by_contra hlt
    rw [not_le] at hlt
    obtain ⟨d, hd, hd2⟩ := small (x - alpha) (by linarith)
    have h1 := h (w + d) (fun hp => by have := hw hp; linarith)
    have h2 : |w + d| - |w| ≤ d := by have := abs_add_le w d; rw [abs_of_pos hd] at this; linarith
    have h3 := mul_le_mul_of_nonneg_left h2 hal
    have h4 := mul_lt_mul_of_pos_right hd2 hd
    rw [show w + d - w = d by ring] at h1
    nlinarith
  have hx' : positive = false → -alpha ≤ x := by
    intro hp
    by_contra hlt
    rw [not_le] at hlt
    obtain ⟨d, hd, hd2⟩ := small (-alpha - x) (by linarith)
    have h1 := h (w - d) (fun hp' => by rw [hp] at hp'; cases hp')
    have h2 : |w - d| - |w| ≤ d := by have := abs_sub w d; rw [abs_of_pos hd] at this; linarith
    have h3 := mul_le_mul_of_nonneg_left h2 hal
    have h4 := mul_lt_mul_of_pos_right hd2 hd
    rw [show w - d - w = -d by ring] at h1
    nlinarith
  refine ⟨?_, hx, hx'⟩
  apply le_antisymm
  · cases hp : positive
    · have h1 := hx' hp
      have h2 : x * w ≤ |x| * |w| := by rw [← abs_mul]; exact le_abs_self _
      exact h2.trans (mul_le_mul_of_nonneg_right (abs_le.2 ⟨h1, hx⟩) (abs_nonneg w))
    · rw [abs_of_nonneg (hw hp)]
      exact mul_le_mul_of_nonneg_right hx (hw hp)
  · by_contra hlt
    rw [not_le] at hlt
    have hD : 0 < alpha * |w| - x * w := by linarith
    set D := alpha * |w| - x * w with hDd
    have hq : 0 < a * w ^ 2 + 1 := by positivity
    set e := min 1 (D / (a * w ^ 2 + 1)) with he
    have he0 : 0 < e := lt_min one_pos (div_pos hD hq)
    have he1 : e ≤ 1 := min_le_left _ _
    have he2 : e * (a * w ^ 2 + 1) ≤ D := by
      rw [← le_div_iff₀ hq]; exact min_le_right _ _
    have h1 := h ((1 - e) * w) (fun hp => mul_nonneg (by linarith) (hw hp))
    rw [abs_mul, abs_of_nonneg (by linarith : 0 ≤ 1 - e)] at h1
    have h2 : 0 ≤ e * (a / 2 * (e * w ^ 2) - D) := by
      have : a / 2 * ((1 - e) * w - w) ^ 2 - x * ((1 - e) * w - w) + alpha * ((1 - e) * |w| - |w|) = e * (a / 2 * (e * w ^ 2) - D) := by
        rw [hDd]; ring
      linarith
    have h3 : 0 ≤ a / 2 * (e * w ^ 2) - D := nonneg_of_mul_nonneg_right h2 he0
    nlinarith

/-- Coefficients that are best along coordinate `j` meet the first-order condition there. -/
theorem coord_kkt (X : Fin n → Fin p → K) (y : Fin n → K) {alpha beta : K} {positive : Bool} (hal : 0 ≤ alpha) (hbe : 0 ≤ beta) (s : St n p K) (ht : Tracks X y s) (hadm : positive = true → ∀ j, 0 ≤ s.w j) (j : Fin p)
    (h : ∀ z, (positive = true → 0 ≤ z) → objective X y alpha beta s.w ≤ objective X y alpha beta (Function.update s.w j z)) :
    let x := (∑ i, X i j * s.R i) + -beta * s.w j
    x * s.w j = alpha * |s.w j| ∧ x ≤ alpha ∧ (positive = false → -alpha ≤ x) := by
  intro x
  have hN := normCol_nonneg X j
  have ht' : ∑ i, X i j * (y i - ∑ k, X i k * s.w k + s.w j * X i j) = x + (normCol X j + beta) * s.w j := by
    have : ∀ i, X i j * (y i - ∑ k, X i k * s.w k + s.w j * X i j) = X i j * s.R i + s.w j * (X i j * X i j) := fun i => by rw [ht i]; ring
    rw [Finset.sum_congr rfl (fun i _ => this i), Finset.sum_add_distrib, ← Finset.mul_sum]
    simp only [x, normCol]
    ring
  refine one_dim (a := normCol X j + beta) (by linarith) (fun hp => hadm hp j) ?_ hal
  intro z hz
  have h1 := h z hz
  have e1 := objective_update X y alpha beta s.w j z
  have e2 := objective_update X y alpha beta s.w j (s.w j)
  rw [Function.update_eq_self] at e2
  rw [e1, e2, ht'] at h1
  linarith [show (normCol X j + beta) / 2 * z ^ 2 - (x + (normCol X j + beta) * s.w j) * z + alpha * |z| - ((normCol X j + beta) / 2 * s.w j ^ 2 - (x + (normCol X j + beta) * s.w j) * s.w j + alpha * |s.w j|) =
    (normCol X j + beta) / 2 * (z - s.w j) ^ 2 - x * (z - s.w j) + alpha * (|z| - |s.w j|) by ring]

theorem vmax_le (v : Fin p → K) {a : K} (ha : 0 ≤ a) (h : ∀ j, v j ≤ a) : vmax v ≤ a := by
  have hm : ∀ u ∈ List.ofFn v, u ≤ a := by
    intro u hu
    obtain ⟨j, rfl⟩ := (List.mem_ofFn).1 hu
    exact h j
  have hf : ∀ (l : List K) (b : K), b ≤ a → (∀ u ∈ l, u ≤ a) → l.foldl max b ≤ a := by
    intro l
    induction l with
    | nil => intro b hb _; exact hb
    | cons c l ih =>
      intro b hb hl
      rw [List.forall_mem_cons] at hl
      exact ih _ (max_le hb hl.1) hl.2
  unfold vmax
  cases hl : List.ofFn v with
  | nil => exact ha
  | cons b l =>
    rw [hl, List.forall_mem_cons] at hm
    exact hf l b hm.1 hm.2

/-- The gap is zero where the first-order conditions hold. -/
theorem gap_of_kkt (X : Fin n → Fin p → K) (y : Fin n → K) {alpha beta : K} {positive : Bool} (hal : 0 ≤ alpha) (s : St n p K) (ht : Tracks X y s)
    (h : ∀ j, ((∑ i, X i j * s.R i) + -beta * s.w j) * s.w j = alpha * |s.w j| ∧ (∑ i, X i j * s.R i) + -beta * s.w j ≤ alpha ∧ (positive = false → -alpha ≤ (∑ i, X i j * s.R i) + -beta * s.w j)) :
    gapOf X y alpha beta positive s = 0 := by
  have hd : ¬ alpha < (if positive then vmax (fun j => (∑ i, X i j * s.R i) + -beta * s.w j) else vmax (fun j => |(∑ i, X i j * s.R i) + -beta * s.w j|)) := by
    rw [not_lt]
    cases hp : positive
    · exact vmax_le _ hal (fun j => abs_le.2 ⟨(h j).2.2 hp, (h j).2.1⟩)
    · exact vmax_le _ hal (fun j => (h j).2.1)
  have e : gapOf X y alpha beta positive s = (∑ i, s.R i * s.R i) + ((alpha * (∑ j, |s.w j|) - 1 * (∑ i, s.R i * y i)) + (1 / 2) * beta * (1 + 1 * 1) * (∑ j, s.w j * s.w j)) := by
    simp only [gapOf]
    rw [if_neg hd, if_neg hd]
  have e1 : ∑ i, s.R i * y i = (∑ i, s.R i * s.R i) + ∑ j, (∑ i, X i j * s.R i) * s.w j := by
    have : ∀ i, s.R i * y i = s.R i * s.R i + ∑ j, X i j * s.R i * s.w j := by
      intro i
      have hy : y i = s.R i + ∑ j, X i j * s.w j := by rw [ht i]; ring
      rw [hy, mul_add, Finset.mul_sum]
      congr 1
      exact Finset.sum_congr rfl (fun j _ => by ring)
    rw [Finset.sum_congr rfl (fun i _ => this i), Finset.sum_add_distrib, Finset.sum_comm]
    congr 1
    exact Finset.sum_congr rfl (fun j _ => by rw [Finset.sum_mul])
  have e2 : alpha * (∑ j, |s.w j|) = ∑ j, (∑ i, X i j * s.R i) * s.w j - beta * ∑ j, s.w j * s.w j := by
    rw [Finset.mul_sum, Finset.mul_sum, ← Finset.sum_sub_distrib]
    apply Finset.sum_congr rfl
    intro j _
    rw [← (h j).1]
    ring
  rw [e, e1, e2]
  ring

/-- What the loop returns: the residual of the coefficients, and their gap. -/
theorem loop_gap (X : Fin n → Fin p → K) (y : Fin n → K) (alpha beta dwtol tol : K) (positive : Bool) (draws : ℕ → List (Fin p)) (I : St n p K → Prop)
    (hI : ∀ it s, I s → I (sweep X alpha beta positive (draws it) (s, 0, 0)).1) (k : ℕ) : ∀ (it : ℕ) (s : St n p K) (gap : K), I s →
      let q := loop X y alpha beta dwtol tol positive draws k it s gap
      I q.st ∧ (k ≠ 0 → q.gap = gapOf X y alpha beta positive q.st) := by
  induction k with
  | zero => intro it s gap h; exact ⟨h, by simp⟩
  | succ k ih =>
    intro it s gap h
    have hg := hI it s h
    rw [loop]
    set q := sweep X alpha beta positive (draws it) (s, 0, 0)
    simp only
    by_cases hc : q.2.1 = 0 ∨ q.2.2 / q.2.1 < dwtol ∨ k = 0
    · rw [if_pos hc]
      split
      · exact ⟨hg, fun _ => rfl⟩
      · obtain ⟨h1, h2⟩ := ih (it + 1) q.1 (gapOf X y alpha beta positive q.1) hg
        refine ⟨h1, fun _ => ?_⟩
        by_cases hk : k = 0
        · subst hk; rfl
        · exact h2 hk
    · rw [if_neg hc]
      obtain ⟨h1, h2⟩ := ih (it + 1) q.1 gap hg
      push Not at hc
      exact ⟨h1, fun _ => h2 hc.2.2⟩

theorem coord_tracks (X : Fin n → Fin p → K) (y : Fin n → K) (alpha beta : K) (positive : Bool) (s : St n p K) (ii : Fin p) (h : Tracks X y s) : Tracks X y (coord X alpha beta positive s ii) := by
  by_cases hn : normCol X ii = 0
  · rw [coord, if_pos hn]; exact h
  · obtain ⟨_, _, _, _, h3, _⟩ := coord_spec X y alpha beta positive s ii h hn
    exact h3

/-- A property kept by all coordinate updates is kept by a sweep. -/
theorem sweep_inv (X : Fin n → Fin p → K) (alpha beta : K) (positive : Bool) (I : St n p K → Prop) (hI : ∀ s ii, I s → I (coord X alpha beta positive s ii)) (is : List (Fin p)) :
    ∀ q : St n p K × K × K, I q.1 → I (sweep X alpha beta positive is q).1 := by
  induction is with
  | nil => intro q h; exact h
  | cons ii is ih =>
    rintro ⟨s, a, b⟩ h
    rw [sweep]
    split
    · exact ih _ h
    · exact ih _ (hI s ii h)

/-- **C211, gap.** With at least one iteration, the reported gap is zero exactly when the returned coefficients minimise the objective (over the nonnegative ones under `Positive`). -/
theorem C211_gap_zero (X : Fin n → Fin p → K) (y : Fin n → K) {alpha beta : K} (maxIter : ℕ) (tol : K) (positive : Bool) (draws : ℕ → List (Fin p)) (w : Fin p → K) (hal : 0 ≤ alpha) (hbe : 0 ≤ beta)
    (hw : positive = true → ∀ j, 0 ≤ w j) (hit : 1 ≤ maxIter) :
    let r := enet X y alpha beta maxIter tol positive draws w
    r.gap = 0 ↔ ∀ v : Fin p → K, (positive = true → ∀ j, 0 ≤ v j) → objective X y alpha beta r.w ≤ objective X y alpha beta v := by
  intro r
  constructor
  · intro h v hv
    have := C47_fit_partial X y alpha beta maxIter tol positive draws w hal hbe hit v hv
    simp only at this
    change _ ≤ r.gap at this
    rw [h] at this
    linarith
  · intro h
    obtain ⟨h1, h2⟩ := loop_gap X y alpha beta tol (tol * ∑ i, y i * y i) positive draws (Tracks X y)
      (fun it s hs => sweep_inv X alpha beta positive (Tracks X y) (fun s ii => coord_tracks X y alpha beta positive s ii) _ _ hs) maxIter 0 ⟨w, fun i => y i - ∑ j, X i j * w j⟩ (tol + 1) (fun _ => rfl)
    obtain ⟨-, hadm, -⟩ := C46_fit X y alpha beta maxIter tol positive draws w hal hbe hw
    refine (h2 (by omega)).trans (gap_of_kkt X y hal _ h1 (fun j => ?_))
    refine coord_kkt X y hal hbe _ h1 hadm j (fun z hz => h _ (fun hp k => ?_))
    by_cases hk : k = j
    · subst hk; rw [Function.update_self]; exact hz hp
    · rw [Function.update_of_ne hk]; exact hadm hp k

/-- The value of a coefficient whose column is orthogonal to the others: correlation `c`, squared norm and quadratic penalty `a`. -/
def soft (positive : Bool) (alpha c a : K) : K := (if positive then max (c - alpha) 0 else max (c - alpha) 0 - max (-c - alpha) 0) / a

theorem soft_eq (positive : Bool) {alpha : K} (hal : 0 ≤ alpha) (c a : K) : (if positive && decide (c < 0) then 0 else fsign c * max (|c| - alpha) 0 / a) = soft positive alpha c a := by
  unfold soft fsign
  cases positive
  · simp only [Bool.false_and, Bool.false_eq_true, if_false]
    congr 1
    rcases lt_trichotomy c 0 with h | h | h
    · rw [if_neg (not_lt.2 h.le), if_neg h.ne, abs_of_neg h, max_eq_right (by linarith : c - alpha ≤ 0)]
      ring
    · subst h
      simp
    · rw [if_pos h, abs_of_pos h, max_eq_right (by linarith : -c - alpha ≤ 0)]
      ring
  · simp only [Bool.true_and, decide_eq_true_eq, if_true]
    rcases lt_trichotomy c 0 with h | h | h
    · rw [if_pos h, max_eq_right (by linarith : c - alpha ≤ 0), zero_div]
    · subst h
      rw [if_neg (lt_irrefl _), if_neg (lt_irrefl _), if_pos rfl, max_eq_right (by linarith : 0 - alpha ≤ 0)]
      simp
    · rw [if_neg (not_lt.2 h.le), if_pos h, abs_of_pos h, one_mul]

/-- An update sets the coefficient of a column orthogonal to the others to its final value. -/
theorem coord_orthogonal (X : Fin n → Fin p → K) (y : Fin n → K) {alpha beta : K} (positive : Bool) (hal : 0 ≤ alpha) (s : St n p K) (ii : Fin p) (ht : Tracks X y s) (hn : normCol X ii ≠ 0)
    (horth : ∀ k, k ≠ ii → ∑ i, X i ii * X i k * s.w k = 0) :
    (coord X alpha beta positive s ii).w = Function.update s.w ii (soft positive alpha (∑ i, X i ii * y i) (normCol X ii + beta)) := by
  obtain ⟨t, z, h1, h2, -, h4⟩ := coord_spec X y alpha beta positive s ii ht hn
  have : t = ∑ i, X i ii * y i := by
    rw [h1]
    have e : ∀ i, X i ii * (y i - ∑ j, X i j * s.w j + s.w ii * X i ii) = X i ii * y i - ∑ j ∈ Finset.univ.erase ii, X i ii * X i j * s.w j := by
      intro i
      rw [← Finset.add_sum_erase Finset.univ (fun j => X i j * s.w j) (Finset.mem_univ ii)]
      have : ∑ j ∈ Finset.univ.erase ii, X i ii * X i j * s.w j = X i ii * ∑ j ∈ Finset.univ.erase ii, X i j * s.w j := by
        rw [Finset.mul_sum]
        exact Finset.sum_congr rfl (fun j _ => by ring)
      rw [this]
      ring
    rw [Finset.sum_congr rfl (fun i _ => e i), Finset.sum_sub_distrib, Finset.sum_comm, Finset.sum_eq_zero (s := Finset.univ.erase ii) (fun k hk => horth k (Finset.ne_of_mem_erase hk)), sub_zero]
  rw [h2, h4, this, soft_eq positive hal]

/-- **C211, orthogonal columns.** If the columns are orthogonal and not zero, and the first sweep visits all coordinates (as with cyclic selection), then from any start the returned coefficients are the
soft-thresholded correlations and the gap is zero. -/
theorem C211_orthogonal_columns (X : Fin n → Fin p → K) (y : Fin n → K) {alpha beta : K} (maxIter : ℕ) (tol : K) (positive : Bool) (draws : ℕ → List (Fin p)) (w : Fin p → K) (hal : 0 ≤ alpha) (hbe : 0 ≤ beta)
    (hw : positive = true → ∀ j, 0 ≤ w j) (hit : 1 ≤ maxIter) (hcol : ∀ j, ∃ i, X i j ≠ 0) (horth : ∀ j k, j ≠ k → ∑ i, X i j * X i k = 0) (hdraw : ∀ j, j ∈ draws 0) :
    let r := enet X y alpha beta maxIter tol positive draws w
    (∀ j, r.w j = soft positive alpha (∑ i, X i j * y i) ((∑ i, X i j ^ 2) + beta)) ∧ r.gap = 0 := by
  intro r
  have hN : ∀ j, normCol X j ≠ 0 := by
    intro j
    obtain ⟨i, hi⟩ := hcol j
    have h1 : 0 < X i j * X i j := lt_of_le_of_ne (mul_self_nonneg _) (mul_self_ne_zero.2 hi).symm
    have h2 := Finset.single_le_sum (f := fun i => X i j * X i j) (fun i _ => mul_self_nonneg _) (Finset.mem_univ i)
    exact (lt_of_lt_of_le h1 h2).ne'
  have hNq : ∀ j, ∑ i, X i j ^ 2 = normCol X j := fun j => Finset.sum_congr rfl (fun i _ => by ring)
  set target : Fin p → K := fun j => soft positive alpha (∑ i, X i j * y i) (normCol X j + beta) with htg
  have hc : ∀ s ii, Tracks X y s → (coord X alpha beta positive s ii).w = Function.update s.w ii (target ii) := fun s ii ht =>
    coord_orthogonal X y positive hal s ii ht (hN ii) (fun k hk => by rw [← Finset.sum_mul, horth ii k (Ne.symm hk), zero_mul])
  -- after a sweep the visited coefficients are final, and final ones stay
  have hsw : ∀ (is : List (Fin p)) (q : St n p K × K × K) (done : Fin p → Prop), Tracks X y q.1 → (∀ j, done j → q.1.w j = target j) →
      Tracks X y (sweep X alpha beta positive is q).1 ∧ ∀ j, done j ∨ j ∈ is → (sweep X alpha beta positive is q).1.w j = target j := by
    intro is
    induction is with
    | nil => intro q done h1 h2; exact ⟨h1, fun j hj => h2 j (hj.resolve_right (by simp))⟩
    | cons ii is ih =>
      rintro ⟨s, a, b⟩ done h1 h2
      rw [sweep, if_neg (hN ii)]
      obtain ⟨g1, g2⟩ := ih (coord X alpha beta positive s ii, if a < |(coord X alpha beta positive s ii).w ii| then |(coord X alpha beta positive s ii).w ii| else a,
        if b < |(coord X alpha beta positive s ii).w ii - s.w ii| then |(coord X alpha beta positive s ii).w ii - s.w ii| else b) (fun j => done j ∨ j = ii) (coord_tracks X y alpha beta positive s ii h1) (by
          intro j hj
          simp only
          rw [hc s ii h1]
          by_cases e : j = ii
          · subst e; rw [Function.update_self]
          · rw [Function.update_of_ne e]; exact h2 j (hj.resolve_right e))
      refine ⟨g1, fun j hj => g2 j ?_⟩
      rw [List.mem_cons] at hj
      tauto
  have key : ∀ q : Res n p K, q = loop X y alpha beta tol (tol * ∑ i, y i * y i) positive draws maxIter 0 ⟨w, fun i => y i - ∑ j, X i j * w j⟩ (tol + 1) →
      Tracks X y q.st ∧ (∀ j, q.st.w j = target j) ∧ q.gap = gapOf X y alpha beta positive q.st := by
    rintro q rfl
    have hI : ∀ it s, (Tracks X y s ∧ ∀ j, s.w j = target j) → (Tracks X y (sweep X alpha beta positive (draws it) (s, 0, 0)).1 ∧ ∀ j, (sweep X alpha beta positive (draws it) (s, 0, 0)).1.w j = target j) := by
      rintro it s ⟨h1, h2⟩
      obtain ⟨g1, g2⟩ := hsw (draws it) (s, 0, 0) (fun _ => True) h1 (fun j _ => h2 j)
      exact ⟨g1, fun j => g2 j (Or.inl trivial)⟩
    obtain ⟨m, rfl⟩ : ∃ m, maxIter = m + 1 := ⟨maxIter - 1, by omega⟩
    obtain ⟨g1, g2⟩ := hsw (draws 0) (⟨w, fun i => y i - ∑ j, X i j * w j⟩, 0, 0) (fun _ => False) (fun _ => rfl) (fun j hj => hj.elim)
    have g := And.intro g1 (fun j => g2 j (Or.inr (hdraw j)))
    rw [loop]
    set r1 := sweep X alpha beta positive (draws 0) (⟨w, fun i => y i - ∑ j, X i j * w j⟩, 0, 0)
    simp only
    by_cases hcond : r1.2.1 = 0 ∨ r1.2.2 / r1.2.1 < tol ∨ m = 0
    · rw [if_pos hcond]
      split
      · exact ⟨g.1, g.2, rfl⟩
      · obtain ⟨a1, a2⟩ := loop_gap X y alpha beta tol (tol * ∑ i, y i * y i) positive draws (fun s => Tracks X y s ∧ ∀ j, s.w j = target j) hI m (0 + 1) r1.1 (gapOf X y alpha beta positive r1.1) g
        refine ⟨a1.1, a1.2, ?_⟩
        by_cases hm : m = 0
        · subst hm; rfl
        · exact a2 hm
    · rw [if_neg hcond]
      obtain ⟨a1, a2⟩ := loop_gap X y alpha beta tol (tol * ∑ i, y i * y i) positive draws (fun s => Tracks X y s ∧ ∀ j, s.w j = target j) hI m (0 + 1) r1.1 (tol + 1) g
      push Not at hcond
      exact ⟨a1.1, a1.2, a2 hcond.2.2⟩
  obtain ⟨k1, k2, k3⟩ := key _ rfl
  refine ⟨fun j => by rw [hNq]; exact k2 j, ?_⟩
  refine k3.trans (gap_of_kkt X y hal _ k1 (fun j => ?_))
  obtain ⟨-, hadm, -⟩ := C46_fit X y alpha beta maxIter tol positive draws w hal hbe hw
  refine coord_kkt X y hal hbe _ k1 hadm j (fun z hz => ?_)
  set q := loop X y alpha beta tol (tol * ∑ i, y i * y i) positive draws maxIter 0 ⟨w, fun i => y i - ∑ j, X i j * w j⟩ (tol + 1)
  have hst := C46_step X y alpha beta positive q.st j hal hbe k1 (hcol j)
  have e : (coord X alpha beta positive q.st j).w = q.st.w := by
    rw [hc q.st j k1, ← k2 j, Function.update_eq_self]
  have h5 : objective X y alpha beta (coord X alpha beta positive q.st j).w ≤ objective X y alpha beta (Function.update q.st.w j z) := hst.2.2.2 z hz
  rwa [e] at h5

/-- **C211, large penalty.** If the penalty is at least all correlations of the columns with the targets (in absolute value, without `Positive`), then from zero the descent returns zero, with gap zero, whatever
coordinates are visited. -/
theorem C211_large_penalty (X : Fin n → Fin p → K) (y : Fin n → K) {alpha beta : K} (maxIter : ℕ) (tol : K) (positive : Bool) (draws : ℕ → List (Fin p)) (hal : 0 ≤ alpha) (hit : 1 ≤ maxIter)
    (h1 : ∀ j, ∑ i, X i j * y i ≤ alpha) (h2 : positive = false → ∀ j, -alpha ≤ ∑ i, X i j * y i) :
    let r := enet X y alpha beta maxIter tol positive draws (fun _ => 0)
    (∀ j, r.w j = 0) ∧ r.gap = 0 := by
  intro r
  have hI : ∀ s ii, (Tracks X y s ∧ ∀ j, s.w j = 0) → (Tracks X y (coord X alpha beta positive s ii) ∧ ∀ j, (coord X alpha beta positive s ii).w j = 0) := by
    rintro s ii ⟨ht, hz⟩
    refine ⟨coord_tracks X y alpha beta positive s ii ht, fun j => ?_⟩
    by_cases hn : normCol X ii = 0
    · rw [coord, if_pos hn]; exact hz j
    · rw [coord_orthogonal X y positive hal s ii ht hn (fun k _ => by simp [hz k])]
      by_cases e : j = ii
      · subst e
        rw [Function.update_self, soft, max_eq_right (by have := h1 j; linarith : ∑ i, X i j * y i - alpha ≤ 0)]
        cases hp : positive
        · rw [max_eq_right (by have := h2 hp j; linarith : -(∑ i, X i j * y i) - alpha ≤ 0)]
          simp
        · simp
      · rw [Function.update_of_ne e]; exact hz j
  obtain ⟨g1, g2⟩ := loop_gap X y alpha beta tol (tol * ∑ i, y i * y i) positive draws (fun s => Tracks X y s ∧ ∀ j, s.w j = 0)
    (fun it s hs => sweep_inv X alpha beta positive _ hI _ _ hs) maxIter 0 ⟨fun _ => 0, fun i => y i - ∑ j, X i j * 0⟩ (tol + 1) ⟨fun _ => rfl, fun _ => rfl⟩
  refine ⟨g1.2, ?_⟩
  refine (g2 (by omega)).trans (gap_of_kkt X y hal _ g1.1 (fun j => ?_))
  have hR : ∀ i, (loop X y alpha beta tol (tol * ∑ i, y i * y i) positive draws maxIter 0 ⟨fun _ => 0, fun i => y i - ∑ j, X i j * 0⟩ (tol + 1)).st.R i = y i := by
    intro i
    rw [g1.1 i, Finset.sum_eq_zero (fun k _ => by rw [g1.2 k, mul_zero]), sub_zero]
  rw [g1.2 j, Finset.sum_congr rfl (fun i _ => by rw [hR i])]
  simp only [mul_zero, add_zero, abs_zero, true_and]
  exact ⟨h1 j, fun hp => h2 hp j⟩

/-- Two orthogonal columns, from other coefficients: the first is soft-thresholded, the second vanishes. -/
example : let r := enet (K := ℚ) (n := 2) (p := 2) (fun i j => if i = j then 2 else 0) (fun i => if i = 0 then 5 else 1) 3 1 7 (1/100) false (fun _ => [0, 1]) (fun _ => 9)
    r.w 0 = 7/5 ∧ r.w 1 = 0 ∧ r.gap = 0 := by decide +kernel
example : let r := enet (K := ℚ) (n := 2) (p := 2) (fun i j => if i = j then 2 else 1) (fun i => if i = 0 then 5 else 1) 11 1 7 (1/100) false (fun _ => [0, 1]) (fun _ => 0)
    r.w 0 = 0 ∧ r.w 1 = 0 ∧ r.gap = 0 := by decide +kernel

end Sk.Enet

namespace Sk.EnetFit

open Sk.Lin (colMean divisor Varies spread decision Coefs)

variable {n p : ℕ}

/-- The unit of feature `j`: its spread under `Normalize`, 1 otherwise. -/
noncomputable def unitOf (P : Params) (X : Fin n → Fin p → ℝ) (j : Fin p) : ℝ := if P.normalize then spread (fun i => X i j) else 1

/-- Correlation of feature `j` (centred, in its unit) with the centred targets. -/
noncomputable def corr (P : Params) (X : Fin n → Fin p → ℝ) (y : Fin n → ℝ) (j : Fin p) : ℝ := (∑ i, (X i j - colMean (fun i => X i j)) * (y i - colMean y)) / unitOf P X j

theorem corr_eq (P : Params) (X : Fin n → Fin p → ℝ) (y : Fin n → ℝ) (j : Fin p) :
    ∑ i, (X i j - colMean (fun i => X i j)) / divisor P.normalize X j * (y i - colMean y) = corr P X y j := by
  rw [corr, Finset.sum_div]
  exact Finset.sum_congr rfl (fun i _ => by rw [unitOf, divisor]; ring)

/-- **C211, gap.** The gap reported by a fit with intercept is zero exactly when the fitted model has the least cost, over all coefficients (nonnegative ones under `Positive`) and intercepts. -/
theorem C211_gap (P : Params) (draws : ℕ → List (Fin p)) (before : Option (Fin p → ℝ)) (w : Fin p → ℝ) (old : ℝ) (X : Fin n → Fin p → ℝ) (y : Fin n → ℝ) (hn : n ≠ 0) (hi : P.fitIntercept = true)
    (hw : Start P before w) (hv : P.normalize = true → ∀ j, Varies (fun i => X i j)) (ha : 0 ≤ P.alpha) (hr0 : 0 ≤ P.l1Ratio) (hr1 : P.l1Ratio ≤ 1) (hit : 1 ≤ P.maxIter) :
    ∃ f, fitEN P draws before old X y = some f ∧ (f.gap = 0 ↔
      ∀ (v : Fin p → ℝ) (b : ℝ), (P.positive = true → ∀ j, 0 ≤ v j) →
        cost X y (P.alpha * P.l1Ratio * n) (P.alpha * (1 - P.l1Ratio) * n) (unitOf P X) f.coefs.coef f.coefs.intercept ≤ cost X y (P.alpha * P.l1Ratio * n) (P.alpha * (1 - P.l1Ratio) * n) (unitOf P X) v b) := by
  have hl1 : 0 ≤ P.alpha * P.l1Ratio * n := by positivity
  have hl2 : 0 ≤ P.alpha * (1 - P.l1Ratio) * n := mul_nonneg (mul_nonneg ha (by linarith)) (Nat.cast_nonneg n)
  have hd := divisor_pos P.normalize X hv
  have heq := fitEN_eq P draws before w old X y hi hv hw.eq
  refine ⟨_, heq, ?_⟩
  have hg := Sk.Enet.C211_gap_zero (fun i j => (X i j - colMean (fun i => X i j)) / divisor P.normalize X j) (fun i => y i - colMean y) P.maxIter P.tol P.positive draws w hl1 hl2 hw.2 hit
  set r := Sk.Enet.enet (fun i j => (X i j - colMean (fun i => X i j)) / divisor P.normalize X j) (fun i => y i - colMean y) (P.alpha * P.l1Ratio * n) (P.alpha * (1 - P.l1Ratio) * n)
    P.maxIter P.tol P.positive draws w with hr
  simp only at hg ⊢
  rw [hg]
  have hc := cost_split X y (P.alpha * P.l1Ratio * n) (P.alpha * (1 - P.l1Ratio) * n) (divisor P.normalize X)
  have e3 : unitOf P X = divisor P.normalize X := by funext j; rfl
  rw [e3]
  have e : (fun j => divisor P.normalize X j * (r.w j / divisor P.normalize X j)) = r.w := by
    funext j
    have := (hd j).ne'
    field_simp
  have e2 : colMean y - (∑ j, colMean (fun i => X i j) * (r.w j / divisor P.normalize X j)) - (colMean y - ∑ j, colMean (fun i => X i j) * (r.w j / divisor P.normalize X j)) = 0 := by ring
  have hc2 := hc (fun j => r.w j / divisor P.normalize X j) (colMean y - ∑ j, colMean (fun i => X i j) * (r.w j / divisor P.normalize X j)) hn (fun j => (hd j).ne')
  rw [e, e2] at hc2
  rw [hc2]
  constructor
  · intro h v b hvp
    have h1 := h (fun j => divisor P.normalize X j * v j) (fun hp j => mul_nonneg (hd j).le (hvp hp j))
    rw [hc v b hn (fun j => (hd j).ne')]
    have hsq : 0 ≤ (n : ℝ) * (colMean y - (∑ j, colMean (fun i => X i j) * v j) - b) ^ 2 / 2 := by positivity
    linarith
  · intro h v hvp
    have h1 := h (fun j => v j / divisor P.normalize X j) (colMean y - ∑ j, colMean (fun i => X i j) * (v j / divisor P.normalize X j)) (fun hp j => div_nonneg (hvp hp j) (hd j).le)
    rw [hc _ _ hn (fun j => (hd j).ne')] at h1
    have e' : (fun j => divisor P.normalize X j * (v j / divisor P.normalize X j)) = v := by
      funext j
      have := (hd j).ne'
      field_simp
    have e2' : colMean y - (∑ j, colMean (fun i => X i j) * (v j / divisor P.normalize X j)) - (colMean y - ∑ j, colMean (fun i => X i j) * (v j / divisor P.normalize X j)) = 0 := by ring
    rw [e', e2'] at h1
    linarith

/-- **C211, large penalty.** A fit with intercept from zero whose `Alpha * L1Ratio * n` is at least all correlations (in absolute value, without `Positive`) has zero coefficients, predicts the mean target
for every row, and reports the gap zero; for every selection of coordinates. -/
theorem C211_null (P : Params) (draws : ℕ → List (Fin p)) (before : Option (Fin p → ℝ)) (old : ℝ) (X : Fin n → Fin p → ℝ) (y : Fin n → ℝ) (hi : P.fitIntercept = true)
    (hw : Start P before (fun _ => 0)) (hv : P.normalize = true → ∀ j, Varies (fun i => X i j)) (ha : 0 ≤ P.alpha) (hr0 : 0 ≤ P.l1Ratio) (hit : 1 ≤ P.maxIter)
    (h1 : ∀ j, corr P X y j ≤ P.alpha * P.l1Ratio * n) (h2 : P.positive = false → ∀ j, -(P.alpha * P.l1Ratio * n) ≤ corr P X y j) :
    ∃ f, fitEN P draws before old X y = some f ∧ (∀ j, f.coefs.coef j = 0) ∧ f.gap = 0 ∧ ∀ x, decision f.coefs x = colMean y := by
  have hl1 : 0 ≤ P.alpha * P.l1Ratio * n := by positivity
  have heq := fitEN_eq P draws before (fun _ => 0) old X y hi hv hw.eq
  obtain ⟨g1, g2⟩ := Sk.Enet.C211_large_penalty (beta := P.alpha * (1 - P.l1Ratio) * n) (fun i j => (X i j - colMean (fun i => X i j)) / divisor P.normalize X j) (fun i => y i - colMean y) P.maxIter P.tol P.positive draws hl1 hit
    (fun j => by rw [corr_eq]; exact h1 j) (fun hp j => by rw [corr_eq]; exact h2 hp j)
  refine ⟨_, heq, fun j => ?_, g2, fun x => ?_⟩
  · simp only
    rw [g1 j, zero_div]
  · simp only [decision, g1, zero_div, mul_zero, Finset.sum_const_zero, sub_zero, zero_add]

/-- **C211, orthogonal features.** If the features are not constant and, centred, orthogonal to each other, then a fit with intercept whose first sweep visits all features (as with cyclic selection) gives every
feature its soft-thresholded correlation over its squared length plus the quadratic penalty, and reports the gap zero: from any start, for any tolerance and number of iterations. -/
theorem C211_orthogonal (P : Params) (draws : ℕ → List (Fin p)) (before : Option (Fin p → ℝ)) (w : Fin p → ℝ) (old : ℝ) (X : Fin n → Fin p → ℝ) (y : Fin n → ℝ) (hi : P.fitIntercept = true)
    (hw : Start P before w) (hv : ∀ j, Varies (fun i => X i j)) (ha : 0 ≤ P.alpha) (hr0 : 0 ≤ P.l1Ratio) (hr1 : P.l1Ratio ≤ 1) (hit : 1 ≤ P.maxIter)
    (horth : ∀ j k, j ≠ k → ∑ i, (X i j - colMean (fun i => X i j)) * (X i k - colMean (fun i => X i k)) = 0) (hdraw : ∀ j, j ∈ draws 0) :
    ∃ f, fitEN P draws before old X y = some f ∧ f.gap = 0 ∧
      ∀ j, f.coefs.coef j = Sk.Enet.soft P.positive (P.alpha * P.l1Ratio * n) (corr P X y j) ((∑ i, ((X i j - colMean (fun i => X i j)) / unitOf P X j) ^ 2) + P.alpha * (1 - P.l1Ratio) * n) / unitOf P X j := by
  have hl1 : 0 ≤ P.alpha * P.l1Ratio * n := by positivity
  have hl2 : 0 ≤ P.alpha * (1 - P.l1Ratio) * n := mul_nonneg (mul_nonneg ha (by linarith)) (Nat.cast_nonneg n)
  have hd := divisor_pos P.normalize X (fun _ => hv)
  have heq := fitEN_eq P draws before w old X y hi (fun _ => hv) hw.eq
  obtain ⟨g1, g2⟩ := Sk.Enet.C211_orthogonal_columns (fun i j => (X i j - colMean (fun i => X i j)) / divisor P.normalize X j) (fun i => y i - colMean y) P.maxIter P.tol P.positive draws w hl1 hl2 hw.2 hit
    (fun j => by
      obtain ⟨a, b, hab⟩ := hv j
      by_contra hall
      push Not at hall
      have h0 : ∀ i, X i j = colMean (fun i => X i j) := fun i => by
        have := (div_eq_zero_iff.1 (hall i)).resolve_right (hd j).ne'
        linarith
      exact hab ((h0 a).trans (h0 b).symm))
    (fun j k hjk => by
      have : ∀ i, (X i j - colMean (fun i => X i j)) / divisor P.normalize X j * ((X i k - colMean (fun i => X i k)) / divisor P.normalize X k) =
          (X i j - colMean (fun i => X i j)) * (X i k - colMean (fun i => X i k)) / (divisor P.normalize X j * divisor P.normalize X k) := fun i => by rw [div_mul_div_comm]
      rw [Finset.sum_congr rfl (fun i _ => this i), ← Finset.sum_div, horth j k hjk, zero_div])
    hdraw
  refine ⟨_, heq, g2, fun j => ?_⟩
  simp only
  rw [g1 j, corr_eq]
  rfl

/-- The hypotheses can be met: two centred orthogonal features, `Positive` and a start that is not zero. -/
example : ∃ (P : Params) (X : Fin 4 → Fin 2 → ℝ), P.fitIntercept = true ∧ Start P (some (fun _ : Fin 2 => 3)) (fun _ => 3) ∧ (∀ j, Varies (fun i => X i j)) ∧ 0 < P.alpha ∧ 0 < P.l1Ratio ∧ P.l1Ratio < 1 ∧ 1 ≤ P.maxIter ∧
    ∀ j k, j ≠ k → ∑ i, (X i j - colMean (fun i => X i j)) * (X i k - colMean (fun i => X i k)) = 0 := by
  refine ⟨⟨true, false, 1, 1 / 2, 1 / 1000, 100, true, true⟩, fun i j => if j = 0 then (if i.1 < 2 then 1 else 5) else (if i.1 = 0 ∨ i.1 = 2 then 2 else 6), rfl, ⟨rfl, fun _ _ => by norm_num⟩, ?_, by norm_num, by norm_num, by norm_num, by norm_num, ?_⟩
  · intro j
    fin_cases j
    · exact ⟨0, 2, by norm_num⟩
    · exact ⟨0, 1, by norm_num⟩
  · intro j k hjk
    fin_cases j <;> fin_cases k <;> first | exact absurd rfl hjk | (simp [colMean, Fin.sum_univ_four]; norm_num)

end Sk.EnetFit
