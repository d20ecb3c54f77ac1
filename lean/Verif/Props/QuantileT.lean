import Verif.Model.Power
import Verif.Props.Scale

/-!
# C72: `QuantileTransformer`
-/
set_option autoImplicit false

namespace Sk.Power

variable {K : Type} [Field K] [LinearOrder K] [IsStrictOrderedRing K]

theorem getD_get (l : List K) (d : K) {i : ℕ} (h : i < l.length) : l.getD i d = l[i] := by
  rw [List.getD_eq_getElem?_getD, List.getElem?_eq_getElem h]; rfl

theorem nq_pos {nq : ℕ} (h : 2 ≤ nq) : (0 : K) < (nq : K) - 1 := by
  have : (2 : K) ≤ nq := by exact_mod_cast h
  linarith

theorem qref_lt (nq i j : ℕ) (h : 2 ≤ nq) (hij : i < j) : (qref nq i : K) < qref nq j := by
  unfold qref
  exact div_lt_div_of_pos_right (by exact_mod_cast hij) (nq_pos h)

theorem qref_le (nq i j : ℕ) (h : 2 ≤ nq) (hij : i ≤ j) : (qref nq i : K) ≤ qref nq j := by
  unfold qref
  exact div_le_div_of_nonneg_right (by exact_mod_cast hij) (nq_pos h).le

theorem qref_zero (nq : ℕ) : (qref nq 0 : K) = 0 := by simp [qref]
theorem qref_last (nq : ℕ) (h : 2 ≤ nq) : (qref nq (nq - 1) : K) = 1 := by
  unfold qref
  rw [Nat.cast_sub (by omega), Nat.cast_one]
  exact div_self (nq_pos h).ne'

/-- Linear interpolation in a table, at position `t`. -/
theorem interp_strict [FloorRing K] (values : List K) (hs : values.Pairwise (· < ·)) (t t' : K) (h0 : 0 ≤ t) (htt : t < t') (h1 : t' ≤ (values.length : K) - 1) :
    let f := fun t : K => let i0 := min ⌊t⌋.toNat (values.length - 1)
      if t = i0 ∨ values.length ≤ i0 + 1 then values.getD i0 0
      else values.getD i0 0 * (1 - (t - i0)) + values.getD (i0 + 1) 0 * (t - i0)
    f t < f t' := by
  have hmono : ∀ i j, i < j → j < values.length → values.getD i 0 < values.getD j 0 := by
    intro i j hij hj
    rw [getD_get _ _ (by omega), getD_get _ _ hj]
    exact List.pairwise_iff_getElem.1 hs i j (by omega) hj hij
  have hmono' : ∀ i j, i ≤ j → j < values.length → values.getD i 0 ≤ values.getD j 0 := by
    intro i j hij hj
    rcases Nat.lt_or_eq_of_le hij with h | h
    · exact (hmono i j h hj).le
    · rw [h]
  have hn : (0 : K) < (values.length : K) - 1 := by linarith
  have hn2 : 2 ≤ values.length := by
    by_contra hc
    have : (values.length : K) ≤ 1 := by exact_mod_cast (by omega : values.length ≤ 1)
    linarith
  -- value at `s` in terms of the integer part
  have key : ∀ s : K, 0 ≤ s → s ≤ (values.length : K) - 1 → ∃ (i : ℕ) (p : K), s = i + p ∧ 0 ≤ p ∧ p < 1 ∧ i < values.length ∧ (0 < p → i + 1 < values.length) ∧
      (let i0 := min ⌊s⌋.toNat (values.length - 1)
       if s = i0 ∨ values.length ≤ i0 + 1 then values.getD i0 0
       else values.getD i0 0 * (1 - (s - i0)) + values.getD (i0 + 1) 0 * (s - i0)) = values.getD i 0 + p * (values.getD (i + 1) 0 - values.getD i 0) := by
    intro s hs0 hs1
    have hfl0 : 0 ≤ ⌊s⌋ := Int.floor_nonneg.2 hs0
    have hfl : ((⌊s⌋.toNat : ℕ) : K) = (⌊s⌋ : K) := by
      rw [← Int.cast_natCast, Int.toNat_of_nonneg hfl0]
    have hle := Int.floor_le s
    have hlt := Int.lt_floor_add_one s
    have hb : ⌊s⌋.toNat ≤ values.length - 1 := by
      have : ((⌊s⌋.toNat : ℕ) : K) ≤ ((values.length - 1 : ℕ) : K) := by
        rw [hfl, Nat.cast_sub (by omega), Nat.cast_one]; linarith
      exact_mod_cast this
    refine ⟨⌊s⌋.toNat, s - ⌊s⌋, by rw [hfl]; ring, by linarith, by linarith, by omega, ?_, ?_⟩
    · intro hp
      by_contra hc
      have : (values.length : K) ≤ ((⌊s⌋.toNat + 1 : ℕ) : K) := by exact_mod_cast (by omega)
      push_cast at this
      rw [hfl] at this
      linarith
    · simp only [min_eq_left hb]
      split
      · rename_i hc
        have : s - ⌊s⌋ = 0 := by
          rcases hc with hc | hc
          · rw [hfl] at hc; linarith
          · have h3 : (values.length : K) ≤ ((⌊s⌋.toNat + 1 : ℕ) : K) := by exact_mod_cast hc
            push_cast at h3
            rw [hfl] at h3
            linarith
        rw [this]; ring
      · rw [hfl]; ring
  obtain ⟨i, p, hi, hp0, hp1, hil, hip, hfi⟩ := key t h0 (by linarith)
  obtain ⟨j, q, hj, hq0, hq1, hjl, hjq, hfj⟩ := key t' (by linarith) h1
  simp only at hfi hfj ⊢
  rw [hfi, hfj]
  rcases Nat.lt_trichotomy i j with h | h | h
  · have a1 : values.getD i 0 < values.getD (i + 1) 0 := hmono _ _ (by omega) (by omega)
    have a2 : values.getD (i + 1) 0 ≤ values.getD j 0 := hmono' _ _ (by omega) (by omega)
    have a3 : values.getD i 0 + p * (values.getD (i + 1) 0 - values.getD i 0) < values.getD (i + 1) 0 := by
      nlinarith
    have a4 : 0 ≤ q * (values.getD (j + 1) 0 - values.getD j 0) := by
      rcases lt_or_eq_of_le hq0 with h5 | h5
      · apply mul_nonneg hq0
        have := hmono j (j + 1) (by omega) (hjq h5)
        linarith
      · rw [← h5]; simp
    linarith
  · subst h
    have hpq : p < q := by linarith
    have := hmono i (i + 1) (by omega) (hjq (by linarith))
    nlinarith
  · exfalso
    have : ((j + 1 : ℕ) : K) ≤ i := by exact_mod_cast h
    push_cast at this
    linarith

/-- The fitted quantiles of a strictly increasing column are strictly increasing, from its first to its last value. -/
theorem qfit_strict [FloorRing K] (nq : ℕ) (h : 2 ≤ nq) (values : List K) (hl : 2 ≤ values.length) (hs : values.Pairwise (· < ·)) :
    (∀ i j, i < j → j < nq → qfit nq values i < qfit nq values j) ∧ qfit nq values 0 = values[0] ∧ qfit nq values (nq - 1) = values[values.length - 1] := by
  have hlen : (2 : K) ≤ values.length := by exact_mod_cast hl
  refine ⟨?_, ?_, ?_⟩
  · intro i j hij hj
    have := interp_strict values hs (qref nq i * ((values.length : K) - 1)) (qref nq j * ((values.length : K) - 1))
      (mul_nonneg (by rw [← qref_zero nq]; exact qref_le nq 0 i h (by omega)) (by linarith))
      (mul_lt_mul_of_pos_right (qref_lt nq i j h hij) (by linarith))
      (by
        have := qref_le (K := K) nq j (nq - 1) h (by omega)
        rw [qref_last nq h] at this
        nlinarith)
    exact this
  · unfold qfit
    simp only [qref_zero, zero_mul, Int.floor_zero, Int.toNat_zero, Nat.zero_min, Nat.cast_zero, true_or, if_true]
    exact getD_get _ _ _
  · unfold qfit
    have : ((values.length : K) - 1) = ((values.length - 1 : ℕ) : K) := by rw [Nat.cast_sub (by omega), Nat.cast_one]
    simp only [qref_last nq h, one_mul, this, Int.floor_natCast, Int.toNat_natCast, min_self, true_or, if_true]
    exact getD_get _ _ _

theorem foldl_first {α : Type} (P : ℕ → Prop) [DecidablePred P] (g : ℕ → α) (a0 : α) : ∀ (n q : ℕ), q < n → P q → (∀ i, i < q → ¬ P i) →
    (List.range n).reverse.foldl (fun acc i => if P i then g i else acc) a0 = g q := by
  intro n q hq hP hmin
  have key : ∀ m, q < m → m ≤ n → ∀ a, (List.range m).reverse.foldl (fun acc i => if P i then g i else acc) a = g q := by
    intro m
    induction m with
    | zero => intro h; omega
    | succ m ih =>
      intro hm hmn a
      rw [List.range_succ, List.reverse_append, List.foldl_append]
      by_cases hqm : q < m
      · exact ih hqm (by omega) _
      · have hqe : q = m := by omega
        subst hqe
        have : ∀ k a, k ≤ q → (List.range k).reverse.foldl (fun acc i => if P i then g i else acc) a = a := by
          intro k
          induction k with
          | zero => intro a _; rfl
          | succ k ihk =>
            intro a hk
            rw [List.range_succ, List.reverse_append, List.foldl_append]
            simp only [List.reverse_singleton, List.foldl_cons, List.foldl_nil]
            rw [if_neg (hmin k (by omega))]
            exact ihk a (by omega)
        rw [this q _ (le_refl _)]
        simp [hP]
  exact key n hq (le_refl _) a0

/-- The interval found for `x` and the resulting value. -/
theorem qtransform_spec (eps : K) (nq : ℕ) (h : 2 ≤ nq) (Q : ℕ → K) (hQ : ∀ i j, i < j → j < nq → Q i < Q j) (c : ℕ) (hc : c < nq) (x : K)
    (h0 : Q 0 ≤ x) (h1 : x ≤ Q (nq - 1)) :
    ∃ q, q + 1 < nq ∧ Q q ≤ x ∧ x ≤ Q (q + 1) ∧ (∀ i, i < q → Q (i + 1) < x) ∧
      qtransform eps nq Q c x = some (min (1 - eps) (max eps (qref nq q + (x - Q q) / (Q (q + 1) - Q q) * (qref nq (q + 1) - qref nq q)))) := by
  classical
  have hex : ∃ q, q + 1 < nq ∧ x ≤ Q (q + 1) := ⟨nq - 2, by omega, by rw [show nq - 2 + 1 = nq - 1 by omega]; exact h1⟩
  set q := Nat.find hex with hq
  obtain ⟨hq1, hq2⟩ := Nat.find_spec hex
  have hmin : ∀ i, i < q → Q (i + 1) < x := by
    intro i hi
    have := Nat.find_min hex hi
    by_contra hcon
    exact this ⟨by omega, not_lt.1 hcon⟩
  have hqx : Q q ≤ x := by
    rcases Nat.eq_zero_or_pos q with h2 | h2
    · rw [h2]; exact h0
    · have := hmin (q - 1) (by omega)
      rw [show q - 1 + 1 = q by omega] at this
      exact this.le
  refine ⟨q, hq1, hqx, hq2, hmin, ?_⟩
  unfold qtransform
  rw [if_neg (by omega)]
  rw [foldl_first (fun q => Q q ≤ x ∧ x ≤ Q (q + 1)) _ _ (nq - 1) q (by omega) ⟨hqx, hq2⟩ (by
    rintro i hi ⟨_, h3⟩
    exact absurd (hmin i hi) (not_lt.2 h3))]
  have : Q (q + 1) - Q q ≠ 0 := by
    have := hQ q (q + 1) (by omega) hq1
    exact (sub_pos.2 this).ne'
  rw [if_neg this, qref_last nq h, qref_zero, zero_add]

/-- **C72 (sorted columns without ties).** For every strictly increasing training column of at least two values, number of quantiles `nq ≥ 2` and column number below `nq`: every value in the training
range is mapped into `[eps, 1-eps]`, larger values are never mapped lower, and the q-th fitted quantile is mapped to `q/(nq-1)` (clamped).
Missing for the full claim: columns in any other order, columns with ties, and columns numbered `nq` or more: `C72_*_violated`. -/
theorem C72_quantile_partial [FloorRing K] (eps : K) (he : 0 < eps) (he2 : eps ≤ 1 / 2) (nq : ℕ) (h : 2 ≤ nq) (values : List K) (hl : 2 ≤ values.length)
    (hs : values.Pairwise (· < ·)) (c : ℕ) (hc : c < nq) :
    (∀ x, values[0] ≤ x → x ≤ values[values.length - 1] → ∃ u, qtransform eps nq (qfit nq values) c x = some u ∧ eps ≤ u ∧ u ≤ 1 - eps) ∧
    (∀ x y, values[0] ≤ x → x ≤ y → y ≤ values[values.length - 1] →
      ∃ u v, qtransform eps nq (qfit nq values) c x = some u ∧ qtransform eps nq (qfit nq values) c y = some v ∧ u ≤ v) ∧
    (∀ q, q < nq → qtransform eps nq (qfit nq values) c (qfit nq values q) = some (min (1 - eps) (max eps ((q : K) / ((nq : K) - 1))))) := by
  obtain ⟨hQ, hQ0, hQl⟩ := qfit_strict nq h values hl hs
  rw [← hQ0, ← hQl]
  set Q := qfit nq values with hQdef
  refine ⟨?_, ?_, ?_⟩
  · intro x h0 h1
    obtain ⟨q, _, _, _, _, hv⟩ := qtransform_spec eps nq h Q hQ c hc x h0 h1
    exact ⟨_, hv, le_min (by linarith) (le_max_left _ _), min_le_left _ _⟩
  · intro x y h0 hxy h1
    obtain ⟨q, hq, hq1, hq2, hq3, hv⟩ := qtransform_spec eps nq h Q hQ c hc x h0 (by linarith)
    obtain ⟨r, hr, hr1, hr2, hr3, hw⟩ := qtransform_spec eps nq h Q hQ c hc y (by linarith) h1
    refine ⟨_, _, hv, hw, ?_⟩
    apply min_le_min (le_refl _)
    apply max_le_max (le_refl _)
    have dq : 0 < Q (q + 1) - Q q := sub_pos.2 (hQ q (q + 1) (by omega) hq)
    have dr : 0 < Q (r + 1) - Q r := sub_pos.2 (hQ r (r + 1) (by omega) hr)
    have e : ∀ i, (qref nq (i + 1) : K) - qref nq i = 1 / ((nq : K) - 1) := by
      intro i; unfold qref; push_cast; ring
    have hpos : (0 : K) < 1 / ((nq : K) - 1) := one_div_pos.2 (nq_pos h)
    rcases Nat.lt_trichotomy q r with hlt | heq | hgt
    · have b1 : (x - Q q) / (Q (q + 1) - Q q) ≤ 1 := by rw [div_le_one dq]; linarith
      have b2 : 0 ≤ (y - Q r) / (Q (r + 1) - Q r) := div_nonneg (by linarith) dr.le
      have b3 := qref_le (K := K) nq (q + 1) r h (by omega)
      have b4 := e q
      rw [e, e]
      nlinarith
    · subst heq
      rw [e]
      have : (x - Q q) / (Q (q + 1) - Q q) ≤ (y - Q q) / (Q (q + 1) - Q q) := div_le_div_of_nonneg_right (by linarith) dq.le
      nlinarith
    · exfalso
      have := hq3 r hgt
      linarith
  · intro q hq
    have hmono : ∀ i j, i ≤ j → j < nq → Q i ≤ Q j := by
      intro i j hij hj
      rcases Nat.lt_or_eq_of_le hij with h5 | h5
      · exact (hQ i j h5 hj).le
      · rw [h5]
    obtain ⟨r, hr, hr1, hr2, hr3, hv⟩ := qtransform_spec eps nq h Q hQ c hc (Q q) (hmono 0 q (by omega) hq) (hmono q (nq - 1) (by omega) (by omega))
    rw [hv]
    congr 3
    have dr : 0 < Q (r + 1) - Q r := sub_pos.2 (hQ r (r + 1) (by omega) hr)
    have hrq : q = r ∨ q = r + 1 := by
      have c1 : r ≤ q := by
        by_contra hcon
        exact absurd (hQ q r (by omega) (by omega)) (not_lt.2 hr1)
      have c2 : q ≤ r + 1 := by
        by_contra hcon
        exact absurd (hQ (r + 1) q (by omega) hq) (not_lt.2 hr2)
      omega
    rcases hrq with rfl | rfl
    · simp [qref]
    · rw [div_self dr.ne', one_mul]; unfold qref; ring

example : qtransform (1/10 : ℚ) 3 (qfit 3 [1, 2, 9]) 0 (11/2) = some (3/4) := by decide +kernel

/-- **C72 violated for columns from `nq` on**: the output is constantly 0, whatever the data. -/
theorem C72_columns_violated (eps : K) (nq : ℕ) (Q : ℕ → K) (c : ℕ) (hc : nq ≤ c) (x : K) : qtransform eps nq Q c x = some 0 := by
  unfold qtransform; rw [if_pos hc]

/-- The quantiles of the opposite values are the opposite quantiles. -/
theorem qfit_neg [FloorRing K] (nq : ℕ) (values : List K) (i : ℕ) : qfit nq (values.map (fun v => -v)) i = -qfit nq values i := by
  have e : ∀ k, (values.map (fun v => -v)).getD k 0 = -values.getD k 0 := by
    intro k
    simp only [List.getD_eq_getElem?_getD, List.getElem?_map]
    cases values[k]? <;> simp
  unfold qfit
  simp only [List.length_map, e]
  split
  · rfl
  · ring

/-- **C72 violated for unsorted columns**: after `Fit` on any strictly decreasing column, `Transform` maps every value to 0; the quantiles are not mapped to their positions and the order of the values is lost. -/
theorem C72_unsorted_violated [FloorRing K] (eps : K) (nq : ℕ) (h : 2 ≤ nq) (values : List K) (hl : 2 ≤ values.length) (hs : values.Pairwise (· > ·)) (c : ℕ) (x : K) :
    qtransform eps nq (qfit nq values) c x = some 0 := by
  have hd : ∀ i j, i < j → j < nq → qfit nq values j < qfit nq values i := by
    intro i j hij hj
    have := (qfit_strict nq h (values.map (fun v => -v)) (by simpa using hl) (by rw [List.pairwise_map]; exact hs.imp (fun h => neg_lt_neg h))).1 i j hij hj
    rw [qfit_neg, qfit_neg] at this
    exact neg_lt_neg_iff.1 this
  unfold qtransform
  split
  · rfl
  · have : ∀ l : List ℕ, (∀ q ∈ l, q + 1 < nq) → l.foldl (fun acc q =>
        if qfit nq values q ≤ x ∧ x ≤ qfit nq values (q + 1) then
          if qfit nq values (q + 1) - qfit nq values q = 0 then none
          else some (min (qref nq (nq - 1) - eps) (max (qref nq 0 + eps) (qref nq q + (x - qfit nq values q) / (qfit nq values (q + 1) - qfit nq values q) * (qref nq (q + 1) - qref nq q))))
        else acc) (some 0) = some 0 := by
      intro l
      induction l with
      | nil => intro _; rfl
      | cons q l ih =>
        intro hq
        have hlt := hd q (q + 1) (by omega) (hq q List.mem_cons_self)
        rw [List.foldl_cons, if_neg (fun hh => absurd (hh.1.trans hh.2) (not_le.2 hlt))]
        exact ih (fun q' hq' => hq q' (List.mem_cons_of_mem _ hq'))
    refine this _ (fun q hq => ?_)
    simp only [List.mem_reverse, List.mem_range] at hq
    omega

/-- After `Fit` on the column 3, 1, 2 the smaller training value 1 is mapped above the larger training values 2 and 3. -/
example : qtransform (1/10 : ℚ) 3 (qfit 3 [3, 1, 2]) 0 1 = some (1/2) ∧ qtransform (1/10 : ℚ) 3 (qfit 3 [3, 1, 2]) 0 3 = some 0 := by
  decide +kernel

/-- A decreasing column. -/
example : ([3, 2, 1] : List ℚ).Pairwise (· > ·) := by decide

/-- **C72 violated for ties at the minimum**: on a sorted column that starts with a tie, its smallest value is mapped to NaN, for every number of quantiles whose first two quantiles coincide. -/
theorem C72_ties_violated (eps : K) (nq : ℕ) (h : 2 ≤ nq) (Q : ℕ → K) (c : ℕ) (hc : c < nq) (hQ : Q 1 = Q 0) : qtransform eps nq Q c (Q 0) = none := by
  unfold qtransform
  rw [if_neg (by omega), foldl_first (fun q => Q q ≤ Q 0 ∧ Q 0 ≤ Q (q + 1)) _ _ (nq - 1) 0 (by omega) ⟨le_refl _, hQ.ge⟩ (by intro i hi; omega)]
  simp [hQ]

example : qtransform (1/10 : ℚ) 4 (qfit 4 [5, 5, 6, 7]) 0 5 = none := by decide +kernel

end Sk.Power
