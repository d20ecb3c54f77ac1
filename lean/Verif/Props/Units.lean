import Verif.Props.RowOrder
import Verif.Props.Scale

/-!
# C191: scaling and binning do not depend on the unit of a feature

A column `xs` measured in another unit is `xs.map (fun x => a * x + b)` with `a > 0`.
-/
set_option autoImplicit false

namespace Sk.Units

open Sk.Scale Sk.Encode Sk.Stats Sk.RowOrder

variable {K : Type} [Field K] [LinearOrder K] [IsStrictOrderedRing K]

/-- The column in another unit. -/
def conv (a b : K) (xs : List K) : List K := xs.map (fun x => a * x + b)

theorem conv_ne {a b : K} {xs : List K} (h : xs ≠ []) : conv a b xs ≠ [] := by simpa [conv] using h

/-- **C191, `MinMaxScaler`.** Fitted on either version of a column, the scaler gives the same output for the same sample: for every training cell, and for any cell when the column is not constant. -/
theorem C191_minmax (lo hi a b : K) (ha : 0 < a) (s s' : MinMax K) (xs : List K) (hne : xs ≠ []) (x : K) (h : x ∈ xs ∨ ∃ u ∈ xs, ∃ v ∈ xs, u ≠ v) :
    (MinMax.fit lo hi s' (conv a b xs)).transform (a * x + b) = (MinMax.fit lo hi s xs).transform x := by
  obtain ⟨m, M, hm, hM, hall, _, _, hsc, hsh⟩ := minmax_fit_spec lo hi s xs hne
  obtain ⟨m', M', hm', hM', hall', _, _, hsc', hsh'⟩ := minmax_fit_spec lo hi s' (conv a b xs) (conv_ne hne)
  have em : m' = a * m + b := by
    obtain ⟨z, hz, e⟩ := List.mem_map.1 hm'
    have h1 := (hall' (a * m + b) (List.mem_map.2 ⟨m, hm, rfl⟩)).1
    have h2 := mul_le_mul_of_nonneg_left (hall z hz).1 ha.le
    linarith
  have eM : M' = a * M + b := by
    obtain ⟨z, hz, e⟩ := List.mem_map.1 hM'
    have h1 := (hall' (a * M + b) (List.mem_map.2 ⟨M, hM, rfl⟩)).2
    have h2 := mul_le_mul_of_nonneg_left (hall z hz).2 ha.le
    linarith
  unfold MinMax.transform
  rw [hsh, hsh', hsc, hsc', em, eM]
  by_cases hz : M - m = 0
  · have hMm : M = m := by linarith
    have hconst : ∀ z ∈ xs, z = m := fun z hz => le_antisymm (hMm ▸ (hall z hz).2) (hall z hz).1
    have hx : x ∈ xs := by
      rcases h with h | ⟨u, hu, v, hv, huv⟩
      · exact h
      · exact absurd ((hconst u hu).trans (hconst v hv).symm) huv
    rw [hconst x hx]
    ring
  · have e : a * M + b - (a * m + b) = a * (M - m) := by ring
    have hz' : a * (M - m) ≠ 0 := mul_ne_zero ha.ne' hz
    rw [e, if_neg hz, if_neg hz']
    have ha' := ha.ne'
    field_simp
    ring

theorem mean_conv (a b : K) (xs : List K) (hne : xs ≠ []) : mean (conv a b xs) = a * mean xs + b := by
  have hl : (xs.length : K) ≠ 0 := by
    have := List.length_pos_iff.2 hne
    exact_mod_cast this.ne'
  have : (conv a b xs).sum = a * xs.sum + xs.length * b := by
    unfold conv
    clear hne hl
    induction xs with
    | nil => simp
    | cons x xs ih => simp only [List.map_cons, List.sum_cons, ih, List.length_cons]; push_cast; ring
  unfold mean
  rw [this]
  simp only [conv, List.length_map]
  field_simp

theorem pvar_conv (a b : K) (xs : List K) (hne : xs ≠ []) : pvar (conv a b xs) = a ^ 2 * pvar xs := by
  unfold pvar
  rw [mean_conv a b xs hne]
  simp only [conv, List.length_map, List.map_map, Function.comp_def]
  have : (xs.map (fun x => (a * x + b - (a * mean xs + b)) ^ 2)).sum = a ^ 2 * (xs.map (fun x => (x - mean xs) ^ 2)).sum := by
    rw [← List.sum_map_mul_left]
    congr 1
    apply List.map_congr_left
    intro x _
    ring
  rw [this, mul_div_assoc]

/-- **C191, `StandardScaler`** (with mean and scale), over the reals, all columns together; column `j` has its own unit. -/
theorem C191_standard (s s' : Std ℝ) (rows : ℕ) (hr : 0 < rows) (cols : List (List ℝ)) (hc : ∀ c ∈ cols, c.length = rows) (a b : ℕ → ℝ) (ha : ∀ j, 0 < a j) :
    ∃ st st', Std.fit s rows cols = some st ∧ Std.fit s' rows (cols.mapIdx (fun j c => conv (a j) (b j) c)) = some st' ∧ st.mv.length = cols.length ∧ st'.mv.length = cols.length ∧
      ∀ (j : ℕ) (h : j < cols.length) (h1 : j < st.mv.length) (h2 : j < st'.mv.length) (x : ℝ), (x ∈ cols[j] ∨ ∃ u ∈ cols[j], ∃ v ∈ cols[j], u ≠ v) →
        stdTransform Real.sqrt true true st'.mv[j] (a j * x + b j) = stdTransform Real.sqrt true true st.mv[j] x := by
  obtain ⟨st, e1, m1, _⟩ := C18_fit_stats s rows hr cols hc
  obtain ⟨st', e2, m2, _⟩ := C18_fit_stats s' rows hr (cols.mapIdx (fun j c => conv (a j) (b j) c)) (by
    intro c hcm
    obtain ⟨j, hj, rfl⟩ := List.mem_mapIdx.1 hcm
    simpa [conv] using hc _ (List.getElem_mem hj))
  refine ⟨st, st', e1, e2, by simp [m1], by simp [m2], ?_⟩
  intro j h h1 h2 x hx
  have hne : cols[j] ≠ [] := by
    intro e
    have := hc cols[j] (List.getElem_mem h)
    rw [e] at this; simp at this; omega
  have v1 : st.mv[j] = (mean cols[j], pvar cols[j]) := by simp [m1]
  have v2 : st'.mv[j] = (a j * mean cols[j] + b j, a j ^ 2 * pvar cols[j]) := by
    simp only [m2, List.getElem_map, List.getElem_mapIdx]
    rw [mean_conv _ _ _ hne, pvar_conv _ _ _ hne]
  rw [v1, v2]
  have haj := ha j
  unfold stdTransform stdScale
  simp only [if_true]
  by_cases hv : pvar cols[j] = 0
  · rw [if_pos hv, if_pos (by rw [hv, mul_zero]), Real.sqrt_one, div_one, div_one]
    have hconst : ∀ z ∈ cols[j], z = mean cols[j] := by
      unfold pvar at hv
      have hl : (cols[j].length : ℝ) ≠ 0 := by
        have := List.length_pos_iff.2 hne
        exact_mod_cast this.ne'
      have hsum := (div_eq_zero_iff.1 hv).resolve_right hl
      intro z hz
      have hle := List.single_le_sum (l := cols[j].map (fun x => (x - mean cols[j]) ^ 2)) (by
        intro y hy
        obtain ⟨w, _, rfl⟩ := List.mem_map.1 hy
        exact sq_nonneg _) ((z - mean cols[j]) ^ 2) (List.mem_map.2 ⟨z, hz, rfl⟩)
      rw [hsum] at hle
      have := pow_eq_zero_iff (two_ne_zero) |>.1 (le_antisymm hle (sq_nonneg _))
      linarith
    have hxm : x = mean cols[j] := by
      rcases hx with hx | ⟨u, hu, v, hv', huv⟩
      · exact hconst x hx
      · exact absurd ((hconst u hu).trans (hconst v hv').symm) huv
    rw [hxm]; ring
  · rw [if_neg hv, if_neg (mul_ne_zero (pow_ne_zero 2 haj.ne') hv), Real.sqrt_mul (sq_nonneg _), Real.sqrt_sq haj.le]
    rw [show a j * x + b j - (a j * mean cols[j] + b j) = a j * (x - mean cols[j]) by ring]
    exact mul_div_mul_left _ _ haj.ne'

/-- **C191, `MaxAbsScaler`**: a change of unit without offset. -/
theorem C191_maxabs (a : K) (ha : 0 < a) (s s' : MaxAbs K) (xs : List K) (x : K) (h : ∃ u ∈ xs, u ≠ 0) :
    ∃ st st', MaxAbs.fit s xs = some st ∧ MaxAbs.fit s' (xs.map (fun x => a * x)) = some st' ∧ st'.transform (a * x) = st.transform x := by
  have hfold : ∀ (l : List K) (m : K), (l.map (fun x => |a * x|)).foldl max (a * m) = a * (l.map (fun x => |x|)).foldl max m := by
    intro l
    induction l with
    | nil => intro m; rfl
    | cons y l ih =>
      intro m
      simp only [List.map_cons, List.foldl_cons]
      rw [← ih]
      congr 1
      rw [abs_mul, abs_of_pos ha, mul_max_of_nonneg _ _ ha.le]
  have hpos : 0 < (xs.map (fun x => |x|)).foldl max 0 := by
    obtain ⟨u, hu, hu0⟩ := h
    obtain ⟨_, h2, _⟩ := foldl_max_ge (xs.map (fun x => |x|)) 0
    exact lt_of_lt_of_le (abs_pos.2 hu0) (h2 _ (List.mem_map.2 ⟨u, hu, rfl⟩))
  refine ⟨_, _, rfl, rfl, ?_⟩
  unfold MaxAbs.transform
  simp only [maxabs_fold, List.map_map, Function.comp_def]
  have := hfold xs 0
  rw [mul_zero] at this
  rw [this, if_pos hpos, if_pos (mul_pos ha hpos)]
  exact mul_div_mul_left _ _ ha.ne'

theorem sort_conv (a b : K) (ha : 0 < a) (xs : List K) : (conv a b xs).insertionSort (· ≤ ·) = conv a b (xs.insertionSort (· ≤ ·)) := by
  refine List.Perm.eq_of_pairwise (le := (· ≤ ·)) (fun _ _ _ _ h1 h2 => le_antisymm h1 h2) (List.pairwise_insertionSort _ _) ?_
    ((List.perm_insertionSort _ _).trans ((List.perm_insertionSort (· ≤ ·) xs).symm.map _))
  unfold conv
  rw [List.pairwise_map]
  exact (List.pairwise_insertionSort (· ≤ ·) xs).imp (fun {u v} h => by have := mul_le_mul_of_nonneg_left h ha.le; linarith)

theorem quantile_conv (a b p : K) (xs : List K) : Scale.quantile p (conv a b xs) = (Scale.quantile p xs).map (fun x => a * x + b) := by
  have hf : ∀ (f : K) (xs : List K) (c : ℕ), quantileFrom f (conv a b xs) c = (quantileFrom f xs c).map (fun x => a * x + b) := by
    intro f xs
    induction xs with
    | nil => intro c; rfl
    | cons x xs ih =>
      intro c
      have : conv a b (x :: xs) = (a * x + b) :: conv a b xs := rfl
      rw [this, quantileFrom, quantileFrom, ih]
      split <;> rfl
  unfold Scale.quantile
  rw [hf]
  simp [conv]

/-- **C191, `RobustScaler`** on a first fit: same output for every cell when the two quantiles of the column differ, and the median is converted in any case. -/
theorem C191_robust (half left right a b : K) (ha : 0 < a) (m d m' d' : K) (xs : List K) (st : Robust K) (h : Robust.fit half left right ⟨none, m, d⟩ xs = some st) (hne : xs ≠ []) :
    ∃ st', Robust.fit half left right ⟨none, m', d'⟩ (conv a b xs) = some st' ∧ st'.median = a * st.median + b ∧
      ((∃ q1 q2, Scale.quantile left (xs.insertionSort (· ≤ ·)) = some q1 ∧ Scale.quantile right (xs.insertionSort (· ≤ ·)) = some q2 ∧ q1 ≠ q2) →
        ∀ x, st'.transform true true (a * x + b) = st.transform true true x) := by
  unfold Robust.fit at h ⊢
  have hl : (conv a b xs).length = xs.length := by simp [conv]
  simp only [hne, conv_ne hne, if_false, Option.getD_none, List.length_replicate, lt_irrefl,
    List.drop_eq_nil_of_le (show (List.replicate xs.length (0 : K)).length ≤ xs.length by simp),
    List.drop_eq_nil_of_le (show (List.replicate (conv a b xs).length (0 : K)).length ≤ (conv a b xs).length by simp), List.append_nil, sort_conv a b ha, quantile_conv,
    Option.bind_eq_bind] at h ⊢
  cases e0 : Scale.quantile half (xs.insertionSort (· ≤ ·)) with
  | none => rw [e0] at h; simp at h
  | some md =>
    cases e1 : Scale.quantile left (xs.insertionSort (· ≤ ·)) with
    | none => rw [e0, e1] at h; simp at h
    | some q1 =>
      cases e2 : Scale.quantile right (xs.insertionSort (· ≤ ·)) with
      | none => rw [e0, e1, e2] at h; simp at h
      | some q2 =>
        rw [e0, e1, e2] at h
        simp only [Option.bind_some, Option.pure_def, Option.some.injEq] at h
        subst h
        refine ⟨_, rfl, rfl, ?_⟩
        rintro ⟨r1, r2, h1, h2, hr⟩ x
        rw [Option.some.injEq] at h1 h2
        subst h1 h2
        unfold Robust.transform
        simp only [if_true]
        have hd : q2 - q1 ≠ 0 := sub_ne_zero.2 (Ne.symm hr)
        rw [show a * q2 + b - (a * q1 + b) = a * (q2 - q1) by ring, if_neg hd, if_neg (mul_ne_zero ha.ne' hd),
          show a * x + b - (a * md + b) = a * (x - md) by ring]
        exact mul_div_mul_left _ _ ha.ne'

/-- **C191, `KBinsDiscretizer` with the uniform strategy**: the edges are converted and every cell falls in the same bin. -/
theorem C191_kbins (a b : K) (ha : 0 < a) (nbins : ℕ) (xs : List K) (edges : List K) (h : kbFit .uniform nbins xs = some edges) (enc : BinEncode) (x : K) :
    kbFit .uniform nbins (conv a b xs) = some (conv a b edges) ∧ kbTransform enc (conv a b edges) nbins (a * x + b) = kbTransform enc edges nbins x := by
  constructor
  · cases xs with
    | nil => simp [kbFit] at h
    | cons x0 xs =>
      have hmin : ∀ (l : List K) (m : K), (conv a b l).foldl min (a * m + b) = a * l.foldl min m + b := by
        intro l
        induction l with
        | nil => intro m; rfl
        | cons y l ih =>
          intro m
          have : conv a b (y :: l) = (a * y + b) :: conv a b l := rfl
          rw [this, List.foldl_cons, List.foldl_cons, ← ih]
          congr 1
          rw [min_add_add_right, mul_min_of_nonneg _ _ ha.le]
      have hmax : ∀ (l : List K) (m : K), (conv a b l).foldl max (a * m + b) = a * l.foldl max m + b := by
        intro l
        induction l with
        | nil => intro m; rfl
        | cons y l ih =>
          intro m
          have : conv a b (y :: l) = (a * y + b) :: conv a b l := rfl
          rw [this, List.foldl_cons, List.foldl_cons, ← ih]
          congr 1
          rw [max_add_add_right, mul_max_of_nonneg _ _ ha.le]
      have hc : conv a b (x0 :: xs) = (a * x0 + b) :: conv a b xs := rfl
      have e1 := hmin (x0 :: xs) x0
      have e2 := hmax (x0 :: xs) x0
      rw [hc] at e1 e2
      rw [hc]
      unfold kbFit at h ⊢
      simp only [e1, e2] at h ⊢
      by_cases hn : nbins = 0
      · rw [if_pos hn] at h; exact absurd h (by simp)
      · rw [if_neg hn] at h ⊢
        generalize (x0 :: xs).foldl min x0 = mn at h ⊢
        generalize (x0 :: xs).foldl max x0 = mx at h ⊢
        rw [Sk.Label.mapM_some_of _ _ _ (fun _ _ => rfl)] at h ⊢
        rw [Option.some.injEq] at h ⊢
        rw [← h]
        simp only [conv, List.map_map, Function.comp_def]
        apply List.map_congr_left
        intro k _
        ring
  · have hb : ∀ (fuel i : ℕ), kbBin (conv a b edges) nbins (a * x + b) fuel i = kbBin edges nbins x fuel i := by
      intro fuel
      induction fuel with
      | zero => intro i; rfl
      | succ fuel ih =>
        intro i
        rw [kbBin, kbBin]
        have : (conv a b edges)[i + 1]? = (edges[i + 1]?).map (fun e => a * e + b) := by simp [conv]
        rw [this]
        cases edges[i + 1]? with
        | none => rfl
        | some e =>
          have hle : a * e + b ≤ a * x + b ↔ e ≤ x := by
            rw [add_le_add_iff_right, mul_le_mul_iff_right₀ ha]
          simp only [Option.map_some, hle, ih]
    unfold kbTransform
    rw [hb]

/-- Degrees Celsius and Fahrenheit. -/
example : conv (9 / 5 : ℚ) 32 [0, 100, 25] = [32, 212, 77] ∧
    (MinMax.fit 0 1 ⟨0, 0, 0, 0, 0⟩ [(0 : ℚ), 100, 25]).transform 25 = 1 / 4 ∧ (MinMax.fit 0 1 ⟨0, 0, 0, 0, 0⟩ [(32 : ℚ), 212, 77]).transform 77 = 1 / 4 := by decide +kernel
example : kbFit .uniform 2 [(0 : ℚ), 100, 25] = some [0, 50, 100] ∧ kbFit .uniform 2 [(32 : ℚ), 212, 77] = some [32, 122, 212] := by decide +kernel

end Sk.Units
