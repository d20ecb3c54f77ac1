import Verif.Props.Units

/-!
# C193: in a chain of scalers only the last one matters, and scaling twice changes nothing

One column; `Fit` then `Transform` of a scaler, then of another (or the same) on the result.
-/
set_option autoImplicit false

namespace Sk.Chain

open Sk.Scale Sk.Stats Sk.Units

/-- What a first scaler, fitted on the column `xs`, does to a cell: `MinMaxScaler` with a feature range that is not empty, `StandardScaler`, `RobustScaler` on a first fit with quantiles in
increasing order, `MaxAbsScaler`. -/
inductive Scaler (xs : List ℝ) : (ℝ → ℝ) → Prop where
  | minmax (lo hi : ℝ) (h : lo < hi) (s : MinMax ℝ) : Scaler xs (MinMax.fit lo hi s xs).transform
  | standard (withMean withStd : Bool) (s st : Std ℝ) (mv : ℝ × ℝ) (h : Std.fit s xs.length [xs] = some st) (hm : st.mv = [mv]) : Scaler xs (stdTransform Real.sqrt withMean withStd mv)
  | robust (center scale : Bool) (left right : ℝ) (h : left ≤ right) (m d : ℝ) (st : Robust ℝ) (h : Robust.fit (1 / 2) left right ⟨none, m, d⟩ xs = some st) : Scaler xs (st.transform center scale)
  | maxabs (s st : MaxAbs ℝ) (h : MaxAbs.fit s xs = some st) : Scaler xs st.transform

theorem quantileFrom_mem (f : ℝ) (xs : List ℝ) : ∀ (c : ℕ) (q : ℝ), quantileFrom f xs c = some q → q ∈ xs := by
  induction xs with
  | nil => intro c q h; simp [quantileFrom] at h
  | cons x xs ih =>
    intro c q h
    rw [quantileFrom] at h
    split at h
    · rw [Option.some.injEq] at h; simp [h]
    · exact List.mem_cons_of_mem _ (ih _ _ h)

theorem quantileFrom_mono {f g : ℝ} (hfg : f ≤ g) (xs : List ℝ) (hs : xs.Pairwise (· ≤ ·)) : ∀ (c : ℕ) (p q : ℝ), quantileFrom f xs c = some p → quantileFrom g xs c = some q → p ≤ q := by
  induction xs with
  | nil => intro c p q h; simp [quantileFrom] at h
  | cons x xs ih =>
    intro c p q h h'
    rw [List.pairwise_cons] at hs
    rw [quantileFrom] at h h'
    by_cases h1 : g ≤ ((c + 1 : ℕ) : ℝ)
    · rw [if_pos h1] at h'
      rw [if_pos (hfg.trans h1)] at h
      rw [Option.some.injEq] at h h'
      rw [← h, ← h']
    · rw [if_neg h1] at h'
      by_cases h2 : f ≤ ((c + 1 : ℕ) : ℝ)
      · rw [if_pos h2, Option.some.injEq] at h
        rw [← h]
        exact hs.1 q (quantileFrom_mem _ _ _ _ h')
      · rw [if_neg h2] at h
        exact ih hs.2 _ _ _ h h'

/-- What `RobustScaler.Fit` computes on a first fit. -/
theorem robust_first (half left right m d : ℝ) (xs : List ℝ) (hne : xs ≠ []) (st : Robust ℝ) (h : Robust.fit half left right ⟨none, m, d⟩ xs = some st) :
    ∃ q1 q2, quantile half (xs.insertionSort (· ≤ ·)) = some st.median ∧ quantile left (xs.insertionSort (· ≤ ·)) = some q1 ∧ quantile right (xs.insertionSort (· ≤ ·)) = some q2 ∧
      st.divider = if q2 - q1 = 0 then 1 else q2 - q1 := by
  unfold Robust.fit at h
  simp only [hne, if_false, Option.getD_none, List.length_replicate, lt_irrefl, List.drop_eq_nil_of_le (show (List.replicate xs.length (0 : ℝ)).length ≤ xs.length by simp), List.append_nil,
    Option.bind_eq_bind] at h
  cases e0 : quantile half (xs.insertionSort (· ≤ ·)) with
  | none => rw [e0] at h; simp at h
  | some md =>
    cases e1 : quantile left (xs.insertionSort (· ≤ ·)) with
    | none => rw [e0, e1] at h; simp at h
    | some q1 =>
      cases e2 : quantile right (xs.insertionSort (· ≤ ·)) with
      | none => rw [e0, e1, e2] at h; simp at h
      | some q2 =>
        rw [e0, e1, e2] at h
        simp only [Option.bind_some, Option.pure_def, Option.some.injEq] at h
        subst h
        exact ⟨q1, q2, rfl, rfl, rfl, rfl⟩

theorem maxabs_scale {s st : MaxAbs ℝ} {xs : List ℝ} (h : MaxAbs.fit s xs = some st) : 0 < st.scale := by
  unfold MaxAbs.fit MaxAbs.partialFit at h
  simp only [Option.some.injEq] at h
  rw [← h]
  simp only
  split
  · assumption
  · exact one_pos

/-- **C193, every scaler is an increasing change of unit.** -/
theorem C193_affine (xs : List ℝ) (hne : xs ≠ []) (f : ℝ → ℝ) (hf : Scaler xs f) : ∃ a b, 0 < a ∧ ∀ x, f x = a * x + b := by
  cases hf with
  | minmax lo hi h s =>
    obtain ⟨m, M, hm, _, hall, _, _, hsc, _⟩ := minmax_fit_spec lo hi s xs hne
    refine ⟨(MinMax.fit lo hi s xs).scale, (MinMax.fit lo hi s xs).shift, ?_, fun x => by unfold MinMax.transform; ring⟩
    rw [hsc]
    apply div_pos (sub_pos.2 h)
    have := (hall m hm).2
    split
    · exact one_pos
    · rename_i h0
      exact lt_of_le_of_ne (sub_nonneg.2 this) (Ne.symm h0)
  | standard withMean withStd s st mv h hm =>
    have hs : 0 < (if withStd then stdScale Real.sqrt mv.2 else 1) := by
      split
      · have hl : 0 < xs.length := List.length_pos_of_ne_nil hne
        obtain ⟨st', e, hmv, _⟩ := C18_fit_stats s xs.length hl [xs] (by simp)
        rw [h, Option.some.injEq] at e
        subst e
        have hmv' : mv = (mean xs, pvar xs) := by simpa [hm] using hmv
        rw [hmv']
        unfold stdScale
        apply Real.sqrt_pos.2
        split
        · exact one_pos
        · rename_i h0
          refine lt_of_le_of_ne ?_ (Ne.symm h0)
          unfold pvar
          apply div_nonneg _ (Nat.cast_nonneg _)
          apply List.sum_nonneg
          intro y hy
          obtain ⟨x, _, rfl⟩ := List.mem_map.1 hy
          exact sq_nonneg _
      · exact one_pos
    refine ⟨1 / (if withStd then stdScale Real.sqrt mv.2 else 1), -(if withMean then mv.1 else 0) / (if withStd then stdScale Real.sqrt mv.2 else 1), one_div_pos.2 hs, fun x => ?_⟩
    unfold stdTransform
    rw [sub_eq_add_neg, add_div]
    ring
  | robust center scale left right hlr m d st h =>
    obtain ⟨q1, q2, _, e1, e2, hd⟩ := robust_first _ _ _ _ _ xs hne st h
    have hq : q1 ≤ q2 := quantileFrom_mono (mul_le_mul_of_nonneg_right hlr (Nat.cast_nonneg _)) _ (List.pairwise_insertionSort _ _) 0 q1 q2 e1 e2
    have hpos : 0 < st.divider := by
      rw [hd]
      split
      · exact one_pos
      · rename_i h0; exact lt_of_le_of_ne (sub_nonneg.2 hq) (Ne.symm h0)
    refine ⟨if scale then 1 / st.divider else 1, (if center then -st.median else 0) / (if scale then st.divider else 1), ?_, fun x => ?_⟩
    · split
      · exact one_div_pos.2 hpos
      · exact one_pos
    · unfold Robust.transform
      cases center <;> cases scale <;> simp <;> ring
  | maxabs s st h =>
    exact ⟨1 / st.scale, 0, one_div_pos.2 (maxabs_scale h), fun x => by unfold MaxAbs.transform; ring⟩

theorem map_conv {f : ℝ → ℝ} {a b : ℝ} (hf : ∀ x, f x = a * x + b) (xs : List ℝ) : xs.map f = conv a b xs := List.map_congr_left (fun x _ => hf x)

/-- **C193, `MinMaxScaler` last.** After any scaler, `MinMaxScaler` gives what it gives alone. -/
theorem C193_last_minmax (xs : List ℝ) (hne : xs ≠ []) (f : ℝ → ℝ) (hf : Scaler xs f) (lo hi : ℝ) (s s' : MinMax ℝ) :
    ∀ x ∈ xs, (MinMax.fit lo hi s' (xs.map f)).transform (f x) = (MinMax.fit lo hi s xs).transform x := by
  obtain ⟨a, b, ha, e⟩ := C193_affine xs hne f hf
  intro x hx
  rw [map_conv e, e x]
  exact C191_minmax lo hi a b ha s s' xs hne x (Or.inl hx)

/-- **C193, `StandardScaler` last.** -/
theorem C193_last_standard (xs : List ℝ) (hne : xs ≠ []) (f : ℝ → ℝ) (hf : Scaler xs f) (s s' : Std ℝ) :
    ∃ st st' mv mv', Std.fit s xs.length [xs] = some st ∧ Std.fit s' xs.length [xs.map f] = some st' ∧ st.mv = [mv] ∧ st'.mv = [mv'] ∧
      ∀ x ∈ xs, stdTransform Real.sqrt true true mv' (f x) = stdTransform Real.sqrt true true mv x := by
  obtain ⟨a, b, ha, e⟩ := C193_affine xs hne f hf
  obtain ⟨st, st', h1, h2, l1, l2, h3⟩ := C191_standard s s' xs.length (List.length_pos_of_ne_nil hne) [xs] (by simp) (fun _ => a) (fun _ => b) (fun _ => ha)
  obtain ⟨mv, hmv⟩ := List.length_eq_one_iff.1 l1
  obtain ⟨mv', hmv'⟩ := List.length_eq_one_iff.1 l2
  refine ⟨st, st', mv, mv', h1, ?_, hmv, hmv', ?_⟩
  · rw [map_conv e]
    exact h2
  · intro x hx
    have := h3 0 (by simp) (by rw [hmv]; simp) (by rw [hmv']; simp) x (Or.inl hx)
    simp only [hmv, hmv', List.getElem_cons_zero] at this
    rw [e x]
    exact this

/-- **C193, `RobustScaler` last**, on a first fit, for columns whose two quantiles differ. -/
theorem C193_last_robust (xs : List ℝ) (hne : xs ≠ []) (f : ℝ → ℝ) (hf : Scaler xs f) (half left right m d m' d' : ℝ) (st : Robust ℝ) (h : Robust.fit half left right ⟨none, m, d⟩ xs = some st)
    (hq : quantile left (xs.insertionSort (· ≤ ·)) ≠ quantile right (xs.insertionSort (· ≤ ·))) :
    ∃ st', Robust.fit half left right ⟨none, m', d'⟩ (xs.map f) = some st' ∧ ∀ x, st'.transform true true (f x) = st.transform true true x := by
  obtain ⟨a, b, ha, e⟩ := C193_affine xs hne f hf
  obtain ⟨q1, q2, _, e1, e2, _⟩ := robust_first _ _ _ _ _ xs hne st h
  obtain ⟨st', h1, _, h2⟩ := C191_robust half left right a b ha m d m' d' xs st h hne
  refine ⟨st', by rw [map_conv e]; exact h1, fun x => ?_⟩
  rw [e x]
  exact h2 ⟨q1, q2, e1, e2, fun hh => hq (by rw [e1, e2, hh])⟩ x

/-- **C193, scaling twice.** For each of the four scalers, every column (constant ones included) and any earlier state: a second `Fit` and `Transform` of a scaler of the same kind and settings returns its
input, the output of the first. -/
theorem C193_twice (xs : List ℝ) (hne : xs ≠ []) :
    (∀ (lo hi : ℝ), lo < hi → ∀ s s' : MinMax ℝ, ∀ y ∈ xs.map (MinMax.fit lo hi s xs).transform, (MinMax.fit lo hi s' (xs.map (MinMax.fit lo hi s xs).transform)).transform y = y) ∧
    (∀ (s s' st : Std ℝ) (mv : ℝ × ℝ), Std.fit s xs.length [xs] = some st → st.mv = [mv] →
      ∃ st' mv', Std.fit s' xs.length [xs.map (stdTransform Real.sqrt true true mv)] = some st' ∧ st'.mv = [mv'] ∧ ∀ y ∈ xs.map (stdTransform Real.sqrt true true mv), stdTransform Real.sqrt true true mv' y = y) ∧
    (∀ (left right m d m' d' : ℝ) (st : Robust ℝ), left ≤ right → Robust.fit (1 / 2) left right ⟨none, m, d⟩ xs = some st →
      ∃ st', Robust.fit (1 / 2) left right ⟨none, m', d'⟩ (xs.map (st.transform true true)) = some st' ∧ ∀ y, st'.transform true true y = y) ∧
    (∀ s s' st : MaxAbs ℝ, MaxAbs.fit s xs = some st → ∃ st', MaxAbs.fit s' (xs.map st.transform) = some st' ∧ ∀ y, st'.transform y = y) := by
  refine ⟨?_, ?_, ?_, ?_⟩
  · intro lo hi h s s' y hy
    obtain ⟨x, hx, rfl⟩ := List.mem_map.1 hy
    exact C193_last_minmax xs hne _ (.minmax lo hi h s) lo hi s s' x hx
  · intro s s' st mv h hm
    obtain ⟨st1, st', mv1, mv', h1, h2, h3, h4, h5⟩ := C193_last_standard xs hne _ (.standard true true s st mv h hm) s s'
    rw [h, Option.some.injEq] at h1
    subst h1
    rw [hm, List.cons.injEq] at h3
    obtain ⟨rfl, -⟩ := h3
    refine ⟨st', mv', h2, h4, ?_⟩
    intro y hy
    obtain ⟨x, hx, rfl⟩ := List.mem_map.1 hy
    exact h5 x hx
  · intro left right m d m' d' st hlr h
    obtain ⟨q1, q2, e0, e1, e2, hd⟩ := robust_first _ _ _ _ _ xs hne st h
    have hq : q1 ≤ q2 := quantileFrom_mono (mul_le_mul_of_nonneg_right hlr (Nat.cast_nonneg _)) _ (List.pairwise_insertionSort _ _) 0 q1 q2 e1 e2
    have hpos : 0 < st.divider := by
      rw [hd]
      split
      · exact one_pos
      · rename_i h0; exact lt_of_le_of_ne (sub_nonneg.2 hq) (Ne.symm h0)
    have hf : ∀ x, st.transform true true x = 1 / st.divider * x + -st.median / st.divider := by
      intro x
      unfold Robust.transform
      simp only [if_true]
      ring
    obtain ⟨st', h1, hmed, -⟩ := C191_robust (1 / 2) left right (1 / st.divider) (-st.median / st.divider) (one_div_pos.2 hpos) m d m' d' xs st h hne
    refine ⟨st', by rw [map_conv hf]; exact h1, ?_⟩
    obtain ⟨r1, r2, _, f1, f2, hd'⟩ := robust_first _ _ _ _ _ _ (conv_ne hne) st' h1
    rw [sort_conv _ _ (one_div_pos.2 hpos), quantile_conv, e1, Option.map_some, Option.some.injEq] at f1
    rw [sort_conv _ _ (one_div_pos.2 hpos), quantile_conv, e2, Option.map_some, Option.some.injEq] at f2
    have hm0 : st'.median = 0 := by rw [hmed]; ring
    have hd1 : st'.divider = 1 := by
      rw [hd', ← f1, ← f2, show 1 / st.divider * q2 + -st.median / st.divider - (1 / st.divider * q1 + -st.median / st.divider) = (q2 - q1) / st.divider from by ring]
      by_cases hz : q2 - q1 = 0
      · rw [hz, zero_div, if_pos rfl]
      · rw [if_neg hz] at hd
        rw [hd, div_self hz, if_neg one_ne_zero]
    intro y
    unfold Robust.transform
    simp [hm0, hd1]
  · intro s s' st h
    have hpos := maxabs_scale h
    have hf : xs.map st.transform = xs.map (fun x => 1 / st.scale * x) := List.map_congr_left (fun x _ => by unfold MaxAbs.transform; ring)
    by_cases hz : ∃ u ∈ xs, u ≠ 0
    · refine ⟨_, by unfold MaxAbs.fit MaxAbs.partialFit; rfl, fun y => ?_⟩
      obtain ⟨st1, st', h1, h2, h3⟩ := C191_maxabs (1 / st.scale) (one_div_pos.2 hpos) s s' xs (st.scale * y) hz
      rw [h, Option.some.injEq] at h1
      subst h1
      rw [← hf] at h2
      unfold MaxAbs.fit MaxAbs.partialFit at h2
      simp only [Option.some.injEq] at h2
      rw [h2]
      rw [show 1 / st.scale * (st.scale * y) = y from by field_simp] at h3
      rw [h3]
      unfold MaxAbs.transform
      field_simp
    · push Not at hz
      have hrep : xs.map st.transform = xs := by
        conv_rhs => rw [← List.map_id xs]
        exact List.map_congr_left (fun x hx => by rw [hz x hx]; simp [MaxAbs.transform])
      refine ⟨_, by unfold MaxAbs.fit MaxAbs.partialFit; rfl, fun y => ?_⟩
      rw [hrep]
      unfold MaxAbs.transform
      simp only [maxabs_fold]
      have : ∀ l : List ℝ, (∀ x ∈ l, x = 0) → (l.map (fun x => |x|)).foldl max 0 = 0 := by
        intro l
        induction l with
        | nil => intro _; rfl
        | cons x l ih =>
          intro hl
          rw [List.map_cons, List.foldl_cons, hl x (by simp), abs_zero, max_self]
          exact ih (fun x hx => hl x (by simp [hx]))
      rw [this xs hz, if_neg (lt_irrefl _), div_one]

example : ∃ f, Scaler [1, 3, 2] f ∧ f 3 = 5 ∧ ([1, 3, 2] : List ℝ) ≠ [] := by
  refine ⟨_, .minmax (-1) 5 (by norm_num) ⟨0, 0, 0, 0, 0⟩, ?_, by simp⟩
  norm_num [MinMax.fit, MinMax.partialFit, MinMax.transform]

example : ((MinMax.fit (0 : ℚ) 1 ⟨7, 5, 5, 5, 5⟩ [1, 3, 2]).transform 2, (MaxAbs.fit ⟨some 9, 9, 9⟩ [(1 : ℚ), -4, 2]).map (fun st => st.transform 2)) = (1 / 2, some (1 / 2)) := by decide +kernel

end Sk.Chain
