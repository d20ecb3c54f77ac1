import Verif.Props.Imputer
import Verif.Props.Outliers
import Mathlib.Tactic.Linarith
import Mathlib.Tactic.Positivity
import Mathlib.Tactic.FieldSimp

/-! # C249: columns after imputation -/
set_option autoImplicit false

namespace Sk.Imputed

open Sk.Scale Sk.Stats Sk.Encode Sk.Outliers

variable {K : Type} [Field K] [LinearOrder K] [IsStrictOrderedRing K]

/-- The values of a column after `Transform` with the statistic `d`. -/
def filled (d : K) (col : List (Option K)) : List K := present (impTransform (some d) col)

private theorem filled_perm (d : K) : ∀ col : List (Option K), (filled d col).Perm (present col ++ List.replicate (col.count none) d)
  | [] => List.Perm.refl _
  | none :: col => by
    have ih := filled_perm d col
    have e1 : filled d (none :: col) = d :: filled d col := by simp [filled, present, impTransform]
    have e2 : present (none :: col : List (Option K)) = present col := by simp [present]
    rw [e1, e2, List.count_cons_self, List.replicate_succ]
    exact (List.Perm.cons d ih).trans (List.perm_middle.symm)
  | some x :: col => by
    have ih := filled_perm d col
    have e1 : filled d (some x :: col) = x :: filled d col := by simp [filled, present, impTransform]
    have e2 : present (some x :: col : List (Option K)) = x :: present col := by simp [present]
    have e3 : (some x :: col).count (none : Option K) = col.count none := by simp
    rw [e1, e2, e3]
    exact List.Perm.cons x ih

private theorem filled_length (d : K) (col : List (Option K)) : (filled d col).length = col.length := by
  unfold filled present
  rw [filterMap_impTransform, List.length_map]

private theorem filled_ne (d : K) {col : List (Option K)} (h : present col ≠ []) : filled d col ≠ [] := by
  intro e
  have := filled_perm d col
  rw [e] at this
  have := (List.nil_perm.1 this)
  exact h (List.append_eq_nil_iff.1 this).1

private theorem median_stays {p q : K} (hp : p ≤ 1) {col : List (Option K)} (h : IsQuantile p (present col) q) : IsQuantile p (filled q col) q := by
  obtain ⟨a, b, c⟩ := h
  have hperm := filled_perm q col
  have hle : (filled q col).countP (fun x => decide (x ≤ q)) = (present col).countP (fun x => decide (x ≤ q)) + col.count none := by
    rw [hperm.countP_eq, List.countP_append, List.countP_replicate]; simp
  have hlt : (filled q col).countP (fun x => decide (x < q)) = (present col).countP (fun x => decide (x < q)) := by
    rw [hperm.countP_eq, List.countP_append, List.countP_replicate]; simp
  have hlen : (filled q col).length = (present col).length + col.count none := by
    rw [hperm.length_eq, List.length_append, List.length_replicate]
  have ht : (0 : K) ≤ (col.count none : ℕ) := Nat.cast_nonneg _
  refine ⟨hperm.mem_iff.2 (List.mem_append_left _ a), ?_, ?_⟩
  · rw [hle, hlen, Nat.cast_add, Nat.cast_add]
    nlinarith
  · rw [hlt, hlen, Nat.cast_add]
    rcases c with c | c
    · exact Or.inl c
    · by_cases hp0 : 0 ≤ p
      · right
        nlinarith [mul_nonneg hp0 ht]
      · exfalso
        have h1 : (0 : K) ≤ ((present col).countP (fun x => decide (x < q)) : ℕ) := Nat.cast_nonneg _
        have h2 : (0 : K) ≤ ((present col).length : ℕ) := Nat.cast_nonneg _
        nlinarith

private theorem quantile_unique {p : K} {xs : List K} {q q' : K} (h : IsQuantile p xs q) (h' : IsQuantile p xs q') : q = q' :=
  le_antisymm (quantile_le le_rfl h h') (quantile_le le_rfl h' h)

private theorem fit_median (keys : List K) {col : List (Option K)} (hne : present col ≠ []) {d : K} (h : impFit .median (1 / 2) keys col = some (some d)) : IsQuantile (1 / 2) (present col) d := by
  unfold impFit at h
  simp only [Option.map_eq_some_iff, Option.some_inj] at h
  obtain ⟨q, hq, rfl⟩ := h
  exact quantile_of (by norm_num) hne (List.perm_insertionSort _ _) (List.pairwise_insertionSort _ _) hq

private theorem filled_count (d v : K) (col : List (Option K)) : (filled d col).count v = (present col).count v + if v = d then col.count none else 0 := by
  rw [(filled_perm d col).count_eq, List.count_append, List.count_replicate]
  by_cases h : v = d
  · simp [h]
  · have : ¬ d = v := fun e => h e.symm
    simp [h, this]

/-- **C249, refitting**: an `Imputer` fitted again on a column it has filled learns the statistic it learnt before, with each strategy and whatever the map iteration orders of the two fits;
with the most frequent value this holds if a cell was missing. -/
theorem C249_again (st : Strategy) (keys keys' : List K) (col : List (Option K)) (hne : present col ≠ []) (d : K) (hk : ∀ v, v ∈ keys ↔ v ∈ present col)
    (hk' : ∀ v, v ∈ keys' ↔ v ∈ filled d col) (hm : st = .mostFrequent → none ∈ col) (hfit : impFit st (1 / 2) keys col = some (some d)) :
    impFit st (1 / 2) keys' (impTransform (some d) col) = some (some d) := by
  have hne' : filled d col ≠ [] := filled_ne d hne
  cases st with
  | mean =>
    have h1 := C23_mean (1 / 2) keys col hne
    rw [hfit, Option.some_inj, Option.some_inj] at h1
    obtain ⟨rfl, -, h2⟩ := h1
    rw [(C23_mean (1 / 2) keys' _ hne').1, h2]
  | median =>
    have hq := median_stays (by norm_num) (fit_median keys hne hfit)
    obtain ⟨q, -, e, -⟩ := C23_median keys' _ hne'
    rw [e, quantile_unique (fit_median keys' hne' e) hq]
  | mostFrequent =>
    obtain ⟨q, hq, e, hmax⟩ := C23_most_frequent (1 / 2) keys col hne hk
    rw [hfit, Option.some_inj, Option.some_inj] at e
    subst e
    obtain ⟨q', hq', e', hmax'⟩ := C23_most_frequent (1 / 2) keys' _ hne' hk'
    rw [e']
    by_cases h : q' = d
    · rw [h]
    · exfalso
      have a := hmax' d
      have b := hmax q'
      have c : 0 < col.count none := List.count_pos_iff.2 (hm rfl)
      have ed := filled_count d d col
      have eq := filled_count d q' col
      rw [if_pos rfl] at ed
      rw [if_neg h] at eq
      unfold filled at ed eq
      omega

/-- **C249, spread**: filling with the mean keeps the sum of the squared deviations, so the variance is multiplied by the share of the cells that were present; it becomes smaller unless nothing was missing or all present values are equal. -/
theorem C249_spread (col : List (Option K)) (hne : present col ≠ []) :
    pvar (filled (mean (present col)) col) = ((present col).length : K) / col.length * pvar (present col) ∧
    pvar (filled (mean (present col)) col) ≤ pvar (present col) ∧
    (pvar (filled (mean (present col)) col) = pvar (present col) ↔ none ∉ col ∨ ∀ v ∈ present col, v = mean (present col)) := by
  have hm := (C23_mean (1 / 2) [] col hne).2.2
  have hl : 0 < (present col).length := List.length_pos_iff.2 hne
  have hlK : (0 : K) < (present col).length := Nat.cast_pos.2 hl
  have hperm := filled_perm (mean (present col)) col
  have hlen : col.length = (present col).length + col.count none := by
    rw [← filled_length (mean (present col)) col, hperm.length_eq, List.length_append, List.length_replicate]
  have hcK : (0 : K) < col.length := Nat.cast_pos.2 (by omega)
  have hsum : ((filled (mean (present col)) col).map (fun x => (x - mean (present col)) ^ 2)).sum = ((present col).map (fun x => (x - mean (present col)) ^ 2)).sum := by
    rw [(hperm.map _).sum_eq, List.map_append, List.sum_append, List.map_replicate, List.sum_replicate]
    simp
  have e1 : pvar (filled (mean (present col)) col) = ((present col).length : K) / col.length * pvar (present col) := by
    unfold pvar
    rw [show mean (filled (mean (present col)) col) = mean (present col) from hm, hsum, filled_length]
    field_simp
  have hnn : ∀ x ∈ (present col).map (fun x => (x - mean (present col)) ^ 2), 0 ≤ x := by
    intro x hx
    obtain ⟨y, -, rfl⟩ := List.mem_map.1 hx
    positivity
  have hS := List.sum_nonneg hnn
  have hv : 0 ≤ pvar (present col) := div_nonneg hS hlK.le
  have hlenK : (col.length : K) = (present col).length + (col.count none : ℕ) := by rw [hlen, Nat.cast_add]
  have ht : (0 : K) ≤ (col.count none : ℕ) := Nat.cast_nonneg _
  have hle : ((present col).length : K) / col.length ≤ 1 := by
    rw [div_le_one hcK]; linarith
  refine ⟨e1, ?_, ?_⟩
  · rw [e1]
    nlinarith
  · rw [e1]
    constructor
    · intro h
      have h' : (((present col).length : K) / col.length - 1) * pvar (present col) = 0 := by linarith
      rcases mul_eq_zero.1 h' with h0 | h0
      · left
        have : ((present col).length : K) = col.length := by
          have := sub_eq_zero.1 h0
          rwa [div_eq_one_iff_eq hcK.ne'] at this
        have h2 : (present col).length = col.length := by exact_mod_cast this
        exact List.count_eq_zero.1 (by omega)
      · right
        intro v hv'
        have h3 : ((present col).map (fun x => (x - mean (present col)) ^ 2)).sum = 0 := by
          unfold pvar at h0
          rcases div_eq_zero_iff.1 h0 with h4 | h4
          · exact h4
          · exact absurd h4 hlK.ne'
        have h4 := List.single_le_sum hnn _ (List.mem_map_of_mem hv')
        rw [h3] at h4
        have h5 := pow_eq_zero_iff (two_ne_zero) |>.1 (le_antisymm h4 (sq_nonneg (v - mean (present col))))
        exact sub_eq_zero.1 h5
    · rintro (h | h)
      · have h0 : col.count none = 0 := List.count_eq_zero.2 h
        rw [h0] at hlen
        have : (col.length : K) = (present col).length := by rw [hlen, Nat.add_zero]
        rw [this, div_self hlK.ne', one_mul]
      · have : pvar (present col) = 0 := by
          have h0 : ((present col).map (fun x => (x - mean (present col)) ^ 2)).sum = 0 := by
            apply List.sum_eq_zero
            intro x hx
            obtain ⟨y, hy, rfl⟩ := List.mem_map.1 hx
            rw [h y hy, sub_self, zero_pow two_ne_zero]
          unfold pvar
          rw [h0, zero_div]
        rw [this, mul_zero]

/-- **C249, mean then `StandardScaler`**: when every column has a present value and is filled with its mean, a `StandardScaler` with `WithMean` fitted on the filled columns turns every missing cell into 0. -/
theorem C249_standard (sqrt : K → K) (hsq : ∀ v, 0 < v → 0 < sqrt v) (withStd : Bool) (s : Std K) (rows : ℕ) (hr : 0 < rows) (cols : List (List (Option K))) (hc : ∀ c ∈ cols, c.length = rows) (hne : ∀ c ∈ cols, present c ≠ []) :
    ∃ st, Std.fit s rows (cols.map (fun c => filled (mean (present c)) c)) = some st ∧
      ∀ (j : ℕ) (h : j < cols.length), ∃ mv, st.mv[j]? = some mv ∧ 0 < stdScale sqrt mv.2 ∧ stdTransform sqrt true withStd mv (mean (present cols[j])) = 0 := by
  obtain ⟨st, e, hmv, -⟩ := C18_fit_stats s rows hr (cols.map (fun c => filled (mean (present c)) c)) (by
    intro c hc'
    obtain ⟨c', h, rfl⟩ := List.mem_map.1 hc'
    rw [filled_length, hc c' h])
  refine ⟨st, e, fun j h => ?_⟩
  refine ⟨(mean (filled (mean (present cols[j])) cols[j]), pvar (filled (mean (present cols[j])) cols[j])), by simp [hmv, h], ?_, ?_⟩
  · unfold stdScale
    apply hsq
    have hv : 0 ≤ pvar (filled (mean (present cols[j])) cols[j]) := by
      refine div_nonneg (List.sum_nonneg ?_) (Nat.cast_nonneg _)
      intro x hx
      obtain ⟨y, -, rfl⟩ := List.mem_map.1 hx
      positivity
    split_ifs with h0
    · exact one_pos
    · exact lt_of_le_of_ne hv (Ne.symm h0)
  · have hm : mean (filled (mean (present cols[j])) cols[j]) = mean (present cols[j]) := (C23_mean (1 / 2) [] cols[j] (hne _ (List.getElem_mem h))).2.2
    simp [stdTransform, hm]

/-- **C249, median then `RobustScaler`**: when a column is filled with its median, a centring `RobustScaler` without a buffer of another length fitted on the filled column turns every missing cell into 0. -/
theorem C249_robust (keys : List K) (left right : K) (h2 : left ≤ 1) (h3 : right ≤ 1) (s : Robust K) (col : List (Option K)) (hne : present col ≠ []) (htmp : ∀ buf, s.tmp = some buf → buf.length = col.length) (d : K)
    (hfit : impFit .median (1 / 2) keys col = some (some d)) :
    ∃ st, Robust.fit (1 / 2) left right s (filled d col) = some st ∧ st.divider ≠ 0 ∧ ∀ scale, st.transform true scale d = 0 := by
  have hh : (1 / 2 : K) ≤ 1 := by norm_num
  have hne' : filled d col ≠ [] := filled_ne d hne
  obtain ⟨st, e, ⟨ys, p, so, m, q1, q2, -, -, hd⟩, -⟩ := C66_robust_partial (1 / 2) left right hh h2 h3 s (filled d col) hne' (by rw [filled_length]; exact htmp)
  have hm := quantile_unique (quantile_of hh hne' p so m) (median_stays hh (fit_median keys hne hfit))
  refine ⟨st, e, ?_, fun scale => ?_⟩
  · rw [hd]
    split_ifs with h
    · exact one_ne_zero
    · exact h
  · unfold Robust.transform
    cases scale <;> simp [hm]

private theorem mean_between {xs : List K} (hne : xs ≠ []) : (∃ a ∈ xs, a ≤ mean xs) ∧ ∃ b ∈ xs, mean xs ≤ b := by
  have hl : (xs.length : K) ≠ 0 := by simpa using hne
  have e : (xs.map (fun _ => mean xs)).sum = (xs.map id).sum := by
    rw [List.map_const', List.sum_replicate, nsmul_eq_mul, List.map_id]
    unfold mean
    field_simp
  exact ⟨List.exists_le_of_sum_le hne id (fun _ => mean xs) e.ge, List.exists_le_of_sum_le hne (fun _ => mean xs) id e.le⟩

private theorem stat_between (st : Strategy) (keys : List K) (col : List (Option K)) (hne : present col ≠ []) (d : K) (hk : ∀ v, v ∈ keys ↔ v ∈ present col)
    (hfit : impFit st (1 / 2) keys col = some (some d)) : (∃ a ∈ present col, a ≤ d) ∧ ∃ b ∈ present col, d ≤ b := by
  cases st with
  | mean =>
    have h1 := (C23_mean (1 / 2) keys col hne).1
    rw [hfit, Option.some_inj, Option.some_inj] at h1
    rw [h1]
    exact mean_between hne
  | median =>
    have h := (fit_median keys hne hfit).1
    exact ⟨⟨d, h, le_rfl⟩, d, h, le_rfl⟩
  | mostFrequent =>
    obtain ⟨q, hq, e, -⟩ := C23_most_frequent (1 / 2) keys col hne hk
    rw [hfit, Option.some_inj, Option.some_inj] at e
    subst e
    exact ⟨⟨d, hq, le_rfl⟩, d, hq, le_rfl⟩

/-- **C249, ranges**: with every strategy the statistic lies between two present values. So a `MinMaxScaler` and a `MaxAbsScaler` fitted on the filled column transform every value as if fitted on the present values alone,
and `MinMaxScaler` puts the missing cells into the feature range. -/
theorem C249_ranges (st : Strategy) (keys : List K) (col : List (Option K)) (hne : present col ≠ []) (d : K) (hk : ∀ v, v ∈ keys ↔ v ∈ present col) (hfit : impFit st (1 / 2) keys col = some (some d)) :
    ((∃ a ∈ present col, a ≤ d) ∧ ∃ b ∈ present col, d ≤ b) ∧
    (∀ (lo hi : K) (s s' : MinMax K), (∀ x, (MinMax.fit lo hi s' (filled d col)).transform x = (MinMax.fit lo hi s (present col)).transform x) ∧
      (lo < hi → none ∈ col → lo ≤ (MinMax.fit lo hi s' (filled d col)).transform d ∧ (MinMax.fit lo hi s' (filled d col)).transform d ≤ hi)) ∧
    ∀ s s' : MaxAbs K, ∃ st st', MaxAbs.fit s (present col) = some st ∧ MaxAbs.fit s' (filled d col) = some st' ∧ ∀ x, st'.transform x = st.transform x := by
  obtain ⟨⟨u, hu, hud⟩, w, hw, hdw⟩ := stat_between st keys col hne d hk hfit
  have hsub : ∀ v ∈ present col, v ∈ filled d col := fun v hv => (filled_perm d col).mem_iff.2 (List.mem_append_left _ hv)
  have hsup : ∀ v ∈ filled d col, v ∈ present col ∨ v = d := by
    intro v hv
    rcases List.mem_append.1 ((filled_perm d col).mem_iff.1 hv) with h | h
    · exact Or.inl h
    · exact Or.inr (List.eq_of_mem_replicate h)
  have hle : ∀ v ∈ filled d col, ∃ a ∈ present col, a ≤ v := by
    intro v hv
    rcases hsup v hv with h | rfl
    · exact ⟨v, h, le_rfl⟩
    · exact ⟨u, hu, hud⟩
  have hge : ∀ v ∈ filled d col, ∃ b ∈ present col, v ≤ b := by
    intro v hv
    rcases hsup v hv with h | rfl
    · exact ⟨v, h, le_rfl⟩
    · exact ⟨w, hw, hdw⟩
  have hne' := filled_ne d hne
  have hMM : ∀ (lo hi : K) (s s' : MinMax K) (x : K), (MinMax.fit lo hi s' (filled d col)).transform x = (MinMax.fit lo hi s (present col)).transform x := by
    intro lo hi s s' x
    generalize present col = xs at *
    generalize filled d col = ys at *
    cases xs with
    | nil => exact absurd rfl hne
    | cons a xs =>
      cases ys with
      | nil => exact absurd rfl hne'
      | cons b ys =>
        have e1 : (b :: ys).foldl min b = (a :: xs).foldl min a := by
          obtain ⟨-, p2, p3⟩ := foldl_min_le (a :: xs) a
          obtain ⟨-, q2, q3⟩ := foldl_min_le (b :: ys) b
          have m1 : (a :: xs).foldl min a ∈ a :: xs := by rcases p3 with e | e <;> [(rw [e]; exact List.mem_cons_self); exact e]
          have m2 : (b :: ys).foldl min b ∈ b :: ys := by rcases q3 with e | e <;> [(rw [e]; exact List.mem_cons_self); exact e]
          obtain ⟨z, hz, hz'⟩ := hle _ m2
          exact le_antisymm (q2 _ (hsub _ m1)) ((p2 _ hz).trans hz')
        have e2 : (b :: ys).foldl max b = (a :: xs).foldl max a := by
          obtain ⟨-, p2, p3⟩ := foldl_max_ge (a :: xs) a
          obtain ⟨-, q2, q3⟩ := foldl_max_ge (b :: ys) b
          have m1 : (a :: xs).foldl max a ∈ a :: xs := by rcases p3 with e | e <;> [(rw [e]; exact List.mem_cons_self); exact e]
          have m2 : (b :: ys).foldl max b ∈ b :: ys := by rcases q3 with e | e <;> [(rw [e]; exact List.mem_cons_self); exact e]
          obtain ⟨z, hz, hz'⟩ := hge _ m2
          exact le_antisymm (hz'.trans (p2 _ hz)) (q2 _ (hsub _ m1))
        unfold MinMax.fit MinMax.partialFit MinMax.transform
        simp only [if_true, e1, e2]
  refine ⟨⟨⟨u, hu, hud⟩, w, hw, hdw⟩, fun lo hi s s' => ⟨hMM lo hi s s', fun hlh hmiss => ?_⟩, fun s s' => ?_⟩
  · refine (C16_minmax_range lo hi hlh s' (filled d col)).1 d ((filled_perm d col).mem_iff.2 (List.mem_append_right _ ?_))
    exact List.mem_replicate.2 ⟨(List.count_pos_iff.2 hmiss).ne', rfl⟩
  · have e : ((filled d col).map (fun x => |x|)).foldl max 0 = ((present col).map (fun x => |x|)).foldl max 0 := by
      obtain ⟨p1, p2, p3⟩ := foldl_max_ge ((present col).map (fun x => |x|)) 0
      obtain ⟨q1, q2, q3⟩ := foldl_max_ge ((filled d col).map (fun x => |x|)) 0
      refine le_antisymm ?_ ?_
      · rcases q3 with e | e
        · rw [e]; exact p1
        · obtain ⟨v, hv, e'⟩ := List.mem_map.1 e
          rw [← e']
          obtain ⟨a, ha, hav⟩ := hle v hv
          obtain ⟨b, hb, hvb⟩ := hge v hv
          have ha' := p2 _ (List.mem_map_of_mem ha)
          have hb' := p2 _ (List.mem_map_of_mem hb)
          exact abs_le.2 ⟨by linarith [neg_abs_le a], by linarith [le_abs_self b]⟩
      · rcases p3 with e | e
        · rw [e]; exact q1
        · obtain ⟨v, hv, e'⟩ := List.mem_map.1 e
          rw [← e']
          exact q2 _ (List.mem_map_of_mem (hsub v hv))
    refine ⟨_, _, rfl, rfl, fun x => ?_⟩
    unfold MaxAbs.transform
    simp only [maxabs_fold, e]

/-- A column with two missing cells: filled with the mean 3, the median 2 or the most frequent value 2. -/
example : impFit .mean (1 / 2) [] [some (2 : ℚ), none, some 5, some 2, none] = some (some 3) ∧ filled 3 [some (2 : ℚ), none, some 5, some 2, none] = [2, 3, 5, 2, 3] ∧
    pvar (filled 3 [some (2 : ℚ), none, some 5, some 2, none]) = 6 / 5 ∧ pvar (present [some (2 : ℚ), none, some 5, some 2, none]) = 2 ∧
    impFit .median (1 / 2) [] [some (2 : ℚ), none, some 5, some 2, none] = some (some 2) ∧
    impFit .mostFrequent (1 / 2) [5, 2] [some (2 : ℚ), none, some 5, some 2, none] = some (some 2) ∧ impFit .mostFrequent (1 / 2) [5, 2] [some (2 : ℚ), some 2, some 5, some 2, some 2] = some (some 2) := by
  decide +kernel

/-- Without a missing cell two fits may find different most frequent values, one for each map iteration order. -/
example : impFit .mostFrequent (1 / 2) [5, 2] [some (2 : ℚ), some 5] = some (some 5) ∧ impFit .mostFrequent (1 / 2) [2, 5] (impTransform (some 5) [some (2 : ℚ), some 5]) = some (some 2) := by decide +kernel

end Sk.Imputed
