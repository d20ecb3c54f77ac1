import Verif.Model.Scores2
import Verif.Lemmas.ListX
import Mathlib.Data.List.Zip
import Mathlib.Algebra.Order.Ring.Rat
import Mathlib.Tactic.NormNum
import Mathlib.Tactic.Ring
import Mathlib.Tactic.Linarith
import Mathlib.Tactic.Positivity
import Mathlib.Tactic.FieldSimp
import Mathlib.Algebra.Order.BigOperators.Group.List
import Mathlib.Algebra.BigOperators.Ring.List

/-! # C171: `Score` of the linear models, neighbour estimators, support vector machines, naive Bayes and logistic regression -/
set_option autoImplicit false

namespace Sk.Metrics

variable {K : Type} [Field K] [LinearOrder K] [IsStrictOrderedRing K]

/-! ## Specification -/

/-- Sum of squares about the mean. -/
def tss (y : List K) : K := (y.map (fun t => (t - y.sum / (y.length : K)) ^ 2)).sum

/-- Sum of the squared residuals of column `j`. -/
def rss (Y P : List (List K)) (j : ℕ) : K := ((Y.zip P).map (fun c => (c.2.getD j 0 - c.1.getD j 0) ^ 2)).sum

/-- Column `j`. -/
def colAt (Y : List (List K)) (j : ℕ) : List K := Y.map (fun r => r.getD j 0)

/-- The mean over the columns of `1 - RSS/TSS`. -/
def meanR2 (q : ℕ) (Y P : List (List K)) : K := ((List.range q).map (fun j => 1 - rss Y P j / tss (colAt Y j))).sum / (q : K)

/-- Number of positions where the two lists of rows agree. -/
def agree (Y P : List (List K)) : ℕ := ((Y.zip P).filter (fun c => decide (c.1 = c.2))).length

/-! ## The coefficient of determination -/

theorem zipWith_ones : ∀ (a l : List K), a.length = l.length → List.zipWith (· * ·) (a.map (fun _ => (1 : K))) l = l
  | [], [], _ => rfl
  | [], _ :: _, h => by simp at h
  | _ :: _, [], h => by simp at h
  | a :: as, b :: bs, h => by
    rw [List.map_cons, List.zipWith_cons_cons, zipWith_ones as bs (by simpa using h), one_mul]

theorem sum_ones (a : List K) : (a.map (fun _ => (1 : K))).sum = (a.length : K) := by
  induction a with
  | nil => simp
  | cons a l ih => rw [List.map_cons, List.sum_cons, ih, List.length_cons]; push_cast; ring

theorem r2_col (eps : K) (Y P : List (List K)) (j : ℕ) (hl : Y.length = P.length) (h0 : Y ≠ []) :
    r2Output eps (colAt Y j) (colAt P j) ((colAt Y j).map (fun _ => 1)) = some (tss (colAt Y j), 1 - rss Y P j / max (tss (colAt Y j)) eps) := by
  have hlY : (colAt Y j).length = Y.length := by simp [colAt]
  have hlP : (colAt P j).length = P.length := by simp [colAt]
  have hpos : (((colAt Y j).length : ℕ) : K) ≠ 0 := by
    rw [hlY, Nat.cast_ne_zero]; exact fun h => h0 (List.length_eq_zero_iff.1 h)
  unfold r2Output fdiv
  rw [sum_ones, if_neg hpos, zipWith_ones _ _ rfl, zipWith_ones _ _ (by simp [hlY, hlP, hl])]
  simp only [Option.bind_eq_bind, Option.bind_some]
  rw [zipWith_ones _ _ (by simp)]
  have e : (List.zipWith (fun p t => (p - t) * (p - t)) (colAt P j) (colAt Y j)).sum = rss Y P j := by
    unfold rss colAt
    rw [List.zipWith_map, List.zip, List.map_zipWith, List.zipWith_comm]
    simp only [pow_two]
  have e' : ((colAt Y j).map (fun t => (t - (colAt Y j).sum / ((colAt Y j).length : K)) * (t - (colAt Y j).sum / ((colAt Y j).length : K)))).sum = tss (colAt Y j) := by
    unfold tss; simp only [pow_two]
  rw [e, e']
  rfl

/-- The score for matrices of one shape, as a formula. -/
theorem r2Rows_eq (eps : K) (q : ℕ) (Y P : List (List K)) (hl : Y.length = P.length) (h0 : Y ≠ []) (hP : ∀ p ∈ P, p.length = q) :
    r2Rows eps q Y P = some (((List.range q).map (fun j => 1 - rss Y P j / max (tss (colAt Y j)) eps)).sum / (q : K)) := by
  unfold r2Rows
  rw [if_pos ⟨hl, by simpa [List.all_eq_true] using hP⟩]
  have hm : ((colsOf q Y).zip (colsOf q P)).mapM (fun c => r2Output eps c.1 c.2 ((none : Option (List K)).getD (c.1.map (fun _ => 1)))) =
      some ((List.range q).map (fun j => (tss (colAt Y j), 1 - rss Y P j / max (tss (colAt Y j)) eps))) := by
    rw [ListX.mapM_forall2, colsOf, colsOf, List.zip_map', List.forall₂_map_left_iff, List.forall₂_map_right_iff, List.forall₂_same]
    intro j _
    exact r2_col eps Y P j hl h0
  unfold r2Score
  rw [hm]
  simp only [Option.bind_eq_bind, Option.bind_some, List.getElem?_cons_zero, List.map_map, colsOf, List.length_map, List.length_range, Function.comp_def]

theorem rss_nonneg (Y P : List (List K)) (j : ℕ) : 0 ≤ rss Y P j := by
  apply List.sum_nonneg
  intro x hx
  obtain ⟨c, _, rfl⟩ := List.mem_map.1 hx
  exact sq_nonneg _

theorem sum_zero {A : Type} (f : A → K) (hf : ∀ a, 0 ≤ f a) : ∀ (l : List A), (l.map f).sum = 0 ↔ ∀ a ∈ l, f a = 0
  | [] => by simp
  | a :: l => by
    have h : 0 ≤ (l.map f).sum := List.sum_nonneg (by intro x hx; obtain ⟨c, _, rfl⟩ := List.mem_map.1 hx; exact hf c)
    rw [List.map_cons, List.sum_cons, add_eq_zero_iff_of_nonneg (hf a) h, sum_zero f hf l, List.forall_mem_cons]

theorem sum_le_one {A : Type} (f : A → K) : ∀ (l : List A), (∀ a ∈ l, f a ≤ 1) → (l.map f).sum ≤ (l.length : K) ∧ ((l.map f).sum = (l.length : K) ↔ ∀ a ∈ l, f a = 1)
  | [], _ => by simp
  | a :: l, h => by
    obtain ⟨h1, h2⟩ := sum_le_one f l (fun b hb => h b (List.mem_cons_of_mem _ hb))
    have ha := h a List.mem_cons_self
    rw [List.map_cons, List.sum_cons, List.length_cons, List.forall_mem_cons, ← h2]
    push_cast
    refine ⟨by linarith, fun e => ⟨by linarith, by linarith⟩, ?_⟩
    rintro ⟨e1, e2⟩
    rw [e1, e2, add_comm]

theorem rows_ext {L : Type} (d : L) (q : ℕ) (a b : List L) (ha : a.length = q) (hb : b.length = q) : a = b ↔ ∀ j < q, b.getD j d = a.getD j d := by
  constructor
  · rintro rfl j _; rfl
  · intro h
    apply List.ext_getElem (by omega)
    intro j hj hj'
    have := h j (by omega)
    rw [List.getD_eq_getElem?_getD, List.getD_eq_getElem?_getD, List.getElem?_eq_getElem hj, List.getElem?_eq_getElem hj'] at this
    exact this.symm

theorem zip_forall_eq {A : Type} : ∀ (a b : List A), a.length = b.length → ((∀ c ∈ a.zip b, c.1 = c.2) ↔ a = b)
  | [], [], _ => by simp
  | [], _ :: _, h => by simp at h
  | _ :: _, [], h => by simp at h
  | a :: as, b :: bs, h => by
    rw [List.zip_cons_cons, List.forall_mem_cons, zip_forall_eq as bs (by simpa using h), List.cons.injEq]

/-- All residuals vanish iff the predictions are the targets. -/
theorem rss_zero (q : ℕ) (Y P : List (List K)) (hl : Y.length = P.length) (hY : ∀ y ∈ Y, y.length = q) (hP : ∀ p ∈ P, p.length = q) : (∀ j < q, rss Y P j = 0) ↔ P = Y := by
  have h1 : (∀ j < q, rss Y P j = 0) ↔ ∀ c ∈ Y.zip P, c.1 = c.2 := by
    have h2 : ∀ j, rss Y P j = 0 ↔ ∀ c ∈ Y.zip P, c.2.getD j 0 = c.1.getD j 0 := by
      intro j
      unfold rss
      rw [sum_zero _ (fun c => sq_nonneg _)]
      refine forall₂_congr fun c _ => ?_
      rw [pow_eq_zero_iff (by norm_num), sub_eq_zero]
    constructor
    · intro h c hc
      obtain ⟨hc1, hc2⟩ := List.of_mem_zip hc
      exact (rows_ext 0 q c.1 c.2 (hY _ hc1) (hP _ hc2)).2 (fun j hj => (h2 j).1 (h j hj) c hc)
    · intro h j _
      rw [h2]
      intro c hc
      rw [h c hc]
  rw [h1, zip_forall_eq Y P hl]
  exact eq_comm

theorem r2Rows_spec (eps : K) (heps : 0 < eps) (q : ℕ) (hq : 0 < q) (Y P : List (List K)) (hl : Y.length = P.length) (h0 : Y ≠ []) (hY : ∀ y ∈ Y, y.length = q) (hP : ∀ p ∈ P, p.length = q) :
    ∃ s, r2Rows eps q Y P = some s ∧ s ≤ 1 ∧ (s = 1 ↔ P = Y) ∧ ((∀ j < q, eps ≤ tss (colAt Y j)) → s = meanR2 q Y P) := by
  have hqK : (0 : K) < (q : K) := by exact_mod_cast hq
  have hpos : ∀ j, 0 < max (tss (colAt Y j)) eps := fun j => lt_of_lt_of_le heps (le_max_right _ _)
  have hle : ∀ j ∈ List.range q, 1 - rss Y P j / max (tss (colAt Y j)) eps ≤ 1 := by
    intro j _
    have := div_nonneg (rss_nonneg Y P j) (le_of_lt (hpos j))
    linarith
  obtain ⟨h1, h2⟩ := sum_le_one _ _ hle
  rw [List.length_range] at h1 h2
  refine ⟨_, r2Rows_eq eps q Y P hl h0 hP, (div_le_one hqK).2 h1, ?_, ?_⟩
  · rw [div_eq_one_iff_eq (ne_of_gt hqK), h2, ← rss_zero q Y P hl hY hP]
    refine forall_congr' fun j => ?_
    rw [List.mem_range]
    refine imp_congr_right fun _ => ?_
    rw [sub_eq_self, div_eq_zero_iff]
    exact or_iff_left (ne_of_gt (hpos j))
  · intro h
    unfold meanR2
    congr 2
    apply List.map_congr_left
    intro j hj
    rw [max_eq_left (h j (List.mem_range.1 hj))]

/-! ## The regressors -/

theorem intoZeros_self (q : ℕ) (P : List (List K)) (hP : ∀ p ∈ P, p.length = q) : intoZeros P.length q P = some P := by
  unfold intoZeros
  rw [if_pos ⟨le_refl _, by rw [List.all_eq_true]; intro p hp; simp [hP p hp]⟩, Nat.sub_self, List.replicate_zero, List.append_nil]
  congr 1
  conv_rhs => rw [← List.map_id P]
  apply List.map_congr_left
  intro p hp
  rw [hP p hp]
  simp

/-- **C171.** `Score` of a linear model, an `SVR` or a `KNeighborsRegressor` (`predict` is any function of the row) on as many targets as samples, with as many target columns as predictions: at most 1; 1 exactly if all targets are
predicted; and the mean over the columns of `1 - RSS/TSS` as soon as the sums of squares about the mean are at least `eps` (the literal 1e-20).
Missing for the full claim: what `C171_unit_violated`, `C171_missing_violated`, `C171_surplus_violated`, `C171_shapes_violated` refute. -/
theorem C171_regressors_partial (eps : K) (heps : 0 < eps) (q : ℕ) (hq : 0 < q) (predict : List K → Option (List K)) (X Y P : List (List K)) (hP : X.mapM predict = some P)
    (hl : X.length = Y.length) (h0 : X ≠ []) (hY : ∀ y ∈ Y, y.length = q) (hPq : ∀ p ∈ P, p.length = q) :
    ∃ s, regScore eps q predict X Y = some s ∧ knnRegScore eps q predict X Y = some s ∧ s ≤ 1 ∧ (s = 1 ↔ P = Y) ∧ ((∀ j < q, eps ≤ tss (colAt Y j)) → s = meanR2 q Y P) := by
  have hlP : X.length = P.length := (ListX.mapM_forall2 _ _ _).1 hP |>.length_eq
  have hY0 : Y ≠ [] := by
    intro h; apply h0; rw [← List.length_eq_zero_iff, hl, h]; rfl
  obtain ⟨s, h1, h2⟩ := r2Rows_spec eps heps q hq Y P (by omega) hY0 hY hPq
  refine ⟨s, ?_, ?_, h2⟩
  · simp [regScore, hP, h1]
  · unfold knnRegScore
    rw [hP, Option.bind_some, ← hl, hlP, intoZeros_self q P hPq, Option.bind_some, h1]

/-- **C171.** A linear model scores 1 exactly if `Σ x_k coef_k,j + b_j` is the target for all samples and outputs. -/
theorem C171_linear (eps : K) (heps : 0 < eps) (p q : ℕ) (hq : 0 < q) (coef : List (List K)) (b : List K) (hc : coef.length = q) (hb : b.length = q) (X Y : List (List K)) (hX : ∀ x ∈ X, x.length = p)
    (hl : X.length = Y.length) (h0 : X ≠ []) (hY : ∀ y ∈ Y, y.length = q) :
    ∃ s, regScore eps q (linearRow p coef b) X Y = some s ∧ s ≤ 1 ∧
      (s = 1 ↔ ∀ (i : ℕ) (x y : List K), X[i]? = some x → Y[i]? = some y → ∀ (j : ℕ) (c : List K) (bj v : K), coef[j]? = some c → b[j]? = some bj → y[j]? = some v → v = (List.zipWith (· * ·) x c).sum + bj) := by
  set f : List K → List K := fun x => List.zipWith (fun c bo => (List.zipWith (· * ·) x c).sum + bo) coef b with hf
  have hP : X.mapM (linearRow p coef b) = some (X.map f) := by
    rw [ListX.mapM_forall2, List.forall₂_map_right_iff, List.forall₂_same]
    intro x hx
    unfold linearRow
    rw [if_pos (hX x hx)]
  have hlen : ∀ x, (f x).length = q := by intro x; simp [hf, hc, hb]
  obtain ⟨s, h1, _, h3, h4, _⟩ := C171_regressors_partial eps heps q hq _ X Y _ hP hl h0 hY (by
    intro r hr; obtain ⟨x, _, rfl⟩ := List.mem_map.1 hr; exact hlen x)
  refine ⟨s, h1, h3, h4.trans ?_⟩
  have hfj : ∀ (x c : List K) (j : ℕ) (bj : K), coef[j]? = some c → b[j]? = some bj → (f x)[j]? = some ((List.zipWith (· * ·) x c).sum + bj) := by
    intro x c j bj h h'
    rw [hf]; simp only []
    rw [List.getElem?_zipWith, h, h']
  constructor
  · rintro rfl i x y hx hy j c bj v hj hbj hv
    rw [List.getElem?_map, hx, Option.map_some, Option.some.injEq] at hy
    subst hy
    rw [hfj x c j bj hj hbj] at hv
    exact (Option.some.inj hv).symm
  · intro h
    apply List.ext_getElem (by simpa using hl)
    intro i hi hi'
    have hiX : i < X.length := by simpa using hi
    rw [List.getElem_map]
    apply List.ext_getElem (by rw [hlen, hY _ (List.getElem_mem hi')])
    intro j hj hj'
    rw [hlen] at hj
    have e1 : coef[j]? = some (coef[j]'(by omega)) := List.getElem?_eq_getElem _
    have e2 : b[j]? = some (b[j]'(by omega)) := List.getElem?_eq_getElem _
    have := h i _ _ (List.getElem?_eq_getElem hiX) (List.getElem?_eq_getElem hi') j _ _ _ e1 e2 (List.getElem?_eq_getElem hj')
    rw [this]
    have h5 := hfj X[i] _ j _ e1 e2
    rw [List.getElem?_eq_getElem (by rw [hlen]; exact hj)] at h5
    exact Option.some.inj h5

/-- A model with two features and one output that predicts the first of two samples only. -/
example : regScore (1 / 100 : ℚ) 1 (linearRow 2 [[1, 2]] [1]) [[1, 0], [0, 1]] [[2], [5]] = some (1 / 9) := by
  decide +kernel

/-- **C171.** Predicting the means of the target columns scores 0. -/
theorem C171_mean (eps : K) (heps : 0 < eps) (q : ℕ) (hq : 0 < q) (predict : List K → Option (List K)) (X Y P : List (List K)) (hP : X.mapM predict = some P)
    (hl : X.length = Y.length) (h0 : X ≠ []) (hY : ∀ y ∈ Y, y.length = q) (hPq : ∀ p ∈ P, p.length = q) (ht : ∀ j < q, eps ≤ tss (colAt Y j))
    (hm : ∀ p ∈ P, ∀ j < q, p.getD j 0 = (colAt Y j).sum / ((colAt Y j).length : K)) : regScore eps q predict X Y = some 0 := by
  obtain ⟨s, h1, _, _, _, h5⟩ := C171_regressors_partial eps heps q hq predict X Y P hP hl h0 hY hPq
  rw [h1, h5 ht]
  have hlP : X.length = P.length := (ListX.mapM_forall2 _ _ _).1 hP |>.length_eq
  congr 1
  unfold meanR2
  rw [div_eq_zero_iff]
  left
  have : ∀ j ∈ List.range q, 1 - rss Y P j / tss (colAt Y j) = 0 := by
    intro j hj
    have hj := List.mem_range.1 hj
    have hpos : 0 < tss (colAt Y j) := lt_of_lt_of_le heps (ht j hj)
    have e : rss Y P j = tss (colAt Y j) := by
      unfold rss tss
      have e1 : (Y.zip P).map (fun c => (c.2.getD j 0 - c.1.getD j 0) ^ 2) = (Y.zip P).map (fun c => (c.1.getD j 0 - (colAt Y j).sum / ((colAt Y j).length : K)) ^ 2) := by
        apply List.map_congr_left
        intro c hc
        rw [hm c.2 (List.of_mem_zip hc).2 j hj]
        ring
      rw [e1]
      have e2 : (Y.zip P).map (fun c => (c.1.getD j 0 - (colAt Y j).sum / ((colAt Y j).length : K)) ^ 2) = ((Y.zip P).map Prod.fst).map (fun y => (y.getD j 0 - (colAt Y j).sum / ((colAt Y j).length : K)) ^ 2) := by
        rw [List.map_map]; rfl
      rw [e2, List.map_fst_zip (by omega)]
      conv_rhs => rw [colAt, List.map_map]
      rfl
    rw [e, div_self (ne_of_gt hpos), sub_self]
  rw [List.map_congr_left this]
  simp

theorem scale_col (t : K) (Y : List (List K)) (j : ℕ) : colAt (Y.map (List.map (t * ·))) j = (colAt Y j).map (t * ·) := by
  unfold colAt
  rw [List.map_map, List.map_map]
  apply List.map_congr_left
  intro y _
  simp only [Function.comp_apply, List.getD_eq_getElem?_getD, List.getElem?_map]
  cases y[j]? <;> simp

theorem scale_tss (t : K) (y : List K) : tss (y.map (t * ·)) = t ^ 2 * tss y := by
  unfold tss
  rw [List.map_map, List.length_map, List.sum_map_mul_left, List.map_id', ← List.sum_map_mul_left]
  congr 1
  apply List.map_congr_left
  intro v _
  simp only [Function.comp_apply]
  ring

theorem scale_rss (t : K) (Y P : List (List K)) (j : ℕ) : rss (Y.map (List.map (t * ·))) (P.map (List.map (t * ·))) j = t ^ 2 * rss Y P j := by
  unfold rss
  rw [List.zip_map, List.map_map, ← List.sum_map_mul_left]
  congr 1
  apply List.map_congr_left
  intro c _
  have h : ∀ l : List K, (l.map (t * ·)).getD j 0 = t * l.getD j 0 := by
    intro l
    simp only [List.getD_eq_getElem?_getD, List.getElem?_map]
    cases l[j]? <;> simp
  simp only [Function.comp_apply, Prod.map_fst, Prod.map_snd, h]
  ring

/-- **C171 fails for small targets.** The coefficient of determination does not change if targets and predictions are measured in another unit; this score does: for one output column with a sum of squares of at least `eps` about the mean that
is not predicted exactly, some change of unit changes the score. -/
theorem C171_unit_violated (eps : K) (heps : 0 < eps) (Y P : List (List K)) (hl : Y.length = P.length) (h0 : Y ≠ []) (hP : ∀ p ∈ P, p.length = 1) (ht : eps ≤ tss (colAt Y 0)) (hr : rss Y P 0 ≠ 0) :
    ∃ t : K, 0 < t ∧ r2Rows eps 1 (Y.map (List.map (t * ·))) (P.map (List.map (t * ·))) ≠ r2Rows eps 1 Y P := by
  have hT : 0 < tss (colAt Y 0) := lt_of_lt_of_le heps ht
  refine ⟨eps / (2 * tss (colAt Y 0)), by positivity, ?_⟩
  set t := eps / (2 * tss (colAt Y 0)) with htd
  have ht0 : 0 < t := by rw [htd]; positivity
  have htT : t * tss (colAt Y 0) = eps / 2 := by rw [htd]; field_simp
  have ht1 : t ≤ 1 := by
    rw [htd, div_le_one (by positivity)]; linarith
  have hlt : t ^ 2 * tss (colAt Y 0) < eps := by
    have : t ^ 2 * tss (colAt Y 0) = t * (eps / 2) := by rw [← htT]; ring
    rw [this]
    have : t * (eps / 2) ≤ 1 * (eps / 2) := mul_le_mul_of_nonneg_right ht1 (by positivity)
    linarith
  rw [r2Rows_eq eps 1 _ _ (by simpa using hl) (by simpa using h0) (by
    intro p hp; obtain ⟨r, hr', rfl⟩ := List.mem_map.1 hp; simpa using hP r hr'), r2Rows_eq eps 1 _ _ hl h0 hP]
  simp only [List.range_one, List.map_cons, List.map_nil, List.sum_cons, List.sum_nil, add_zero, Nat.cast_one, div_one]
  rw [scale_col, scale_tss, scale_rss, max_eq_right (le_of_lt hlt), max_eq_left ht]
  intro h
  have h := Option.some.inj h
  have h : t ^ 2 * rss Y P 0 / eps = rss Y P 0 / tss (colAt Y 0) := by linarith
  rw [div_eq_div_iff (ne_of_gt heps) (ne_of_gt hT)] at h
  have h2 : rss Y P 0 * (t ^ 2 * tss (colAt Y 0) - eps) = 0 := by linarith
  rcases mul_eq_zero.1 h2 with h2 | h2
  · exact hr h2
  · linarith

example : (10⁻¹ : ℚ) ≤ tss (colAt [[0], [1]] 0) ∧ rss [[0], [1]] [[0], [(2 : ℚ)]] 0 ≠ 0 := by decide +kernel

/-! ## The classifiers -/

theorem rowEq_take : ∀ (y p : List K) (eq : Bool), y.length ≤ p.length → rowEq y p eq = some (eq && decide (y = p.take y.length))
  | [], p, eq, _ => by simp [rowEq]
  | _ :: _, [], _, h => by simp at h
  | a :: y, b :: p, eq, h => by
    rw [rowEq, rowEq_take y p _ (by simpa using h)]
    by_cases hab : a = b <;> by_cases hy : y = p.take y.length <;> simp [hab, Bool.and_assoc] <;> simp_all

/-- Number of rows of `P` that start with the row of `Y`. -/
def rowHits (Y P : List (List K)) : ℕ := ((Y.zip P).filter (fun c => decide (c.1 = c.2.take c.1.length))).length

theorem accLoop_hits (P : List (List K)) : ∀ (Y : List (List K)) (i : ℕ) (n d : K), i + Y.length ≤ P.length → (∀ c ∈ Y.zip (P.drop i), c.1.length ≤ c.2.length) →
    accLoop (K := K) none P Y i (n, d) = some (n + (rowHits Y (P.drop i) : ℕ), d + (Y.length : ℕ))
  | [], i, n, d, _, _ => by simp [accLoop, rowHits]
  | y :: Y, i, n, d, hl, hc => by
    have hi : i < P.length := by simp only [List.length_cons] at hl; omega
    have hd : P.drop i = P[i] :: P.drop (i + 1) := List.drop_eq_getElem_cons hi
    rw [hd, List.zip_cons_cons, List.forall_mem_cons] at hc
    rw [accLoop, List.getElem?_eq_getElem hi]
    simp only [weightAt, Option.bind_eq_bind, Option.bind_some]
    rw [rowEq_take y P[i] true hc.1]
    simp only [Option.bind_some, Bool.true_and]
    have ih := accLoop_hits P Y (i + 1)
    by_cases h : y = P[i].take y.length
    · rw [if_pos (decide_eq_true h), ih _ _ (by simp only [List.length_cons] at hl; omega) hc.2]
      have : rowHits (y :: Y) (P.drop i) = rowHits Y (P.drop (i + 1)) + 1 := by
        unfold rowHits; rw [hd, List.zip_cons_cons, List.filter_cons_of_pos (by simpa using h), List.length_cons]
      rw [this, List.length_cons]
      push_cast
      congr 2 <;> ring
    · rw [if_neg (by simpa using h), ih _ _ (by simp only [List.length_cons] at hl; omega) hc.2]
      have : rowHits (y :: Y) (P.drop i) = rowHits Y (P.drop (i + 1)) := by
        unfold rowHits; rw [hd, List.zip_cons_cons, List.filter_cons_of_neg (by simpa using h)]
      rw [this, List.length_cons]
      push_cast
      congr 2; ring

theorem accuracy_hits (Y P : List (List K)) (h0 : Y ≠ []) (hl : Y.length ≤ P.length) (hc : ∀ c ∈ Y.zip P, c.1.length ≤ c.2.length) :
    accuracy (K := K) Y P true none = some ((rowHits Y P : K) / (Y.length : K)) := by
  have hpos : ((Y.length : ℕ) : K) ≠ 0 := by rw [Nat.cast_ne_zero]; exact fun h => h0 (List.length_eq_zero_iff.1 h)
  unfold accuracy
  rw [accLoop_hits P Y 0 0 0 (by omega) (by simpa using hc)]
  simp [fdiv, hpos]

theorem hits_agree (q : ℕ) (Y P : List (List K)) (hY : ∀ y ∈ Y, y.length = q) (hP : ∀ p ∈ P, p.length = q) : rowHits Y P = agree Y P := by
  unfold rowHits agree
  congr 1
  apply List.filter_congr
  intro c hc
  rw [hY _ (List.of_mem_zip hc).1, ← hP _ (List.of_mem_zip hc).2, List.take_length]

theorem agree_all : ∀ (Y P : List (List K)), Y.length = P.length → agree Y P ≤ Y.length ∧ (agree Y P = Y.length ↔ P = Y) := by
  intro Y P h
  have hz : (Y.zip P).length = Y.length := by rw [List.length_zip]; omega
  have h1 : agree Y P ≤ Y.length := by rw [← hz]; exact List.length_filter_le _ _
  refine ⟨h1, ?_⟩
  rw [← hz, agree, List.length_filter_eq_length_iff]
  simp only [decide_eq_true_eq]
  rw [zip_forall_eq Y P h]
  exact eq_comm

/-- **C171.** `Score` of `SVC`, `GaussianNB`, `LogisticRegression` or `KNeighborsClassifier` on as many targets as samples, with as many target columns as predictions: the fraction of the rows of targets
that are predicted in all columns; between 0 and 1, and 1 exactly if all targets are predicted.
Missing for the full claim: what `C171_unit_violated`, `C171_missing_violated`, `C171_surplus_violated`, `C171_shapes_violated` refute. -/
theorem C171_classifiers_partial (q : ℕ) (predict : List K → Option (List K)) (X Y P : List (List K)) (hP : X.mapM predict = some P) (hl : X.length = Y.length) (h0 : X ≠ [])
    (hY : ∀ y ∈ Y, y.length = q) (hPq : ∀ p ∈ P, p.length = q) :
    ∃ s : K, clfScore predict X Y = some s ∧ knnClfScore q predict X Y = some s ∧ s = (agree Y P : K) / (Y.length : K) ∧ 0 ≤ s ∧ s ≤ 1 ∧ (s = 1 ↔ P = Y) := by
  have hlP : X.length = P.length := (ListX.mapM_forall2 _ _ _).1 hP |>.length_eq
  have hY0 : Y ≠ [] := by
    intro h; apply h0; rw [← List.length_eq_zero_iff, hl, h]; rfl
  have hpos : (0 : K) < (Y.length : K) := by exact_mod_cast List.length_pos_iff.2 hY0
  have ha := accuracy_hits Y P hY0 (by omega) (fun c hc => by rw [hY _ (List.of_mem_zip hc).1, hPq _ (List.of_mem_zip hc).2])
  rw [hits_agree q Y P hY hPq] at ha
  obtain ⟨h1, h2⟩ := agree_all Y P (by omega)
  refine ⟨_, ?_, ?_, rfl, by positivity, (div_le_one hpos).2 (by exact_mod_cast h1), ?_⟩
  · simp [clfScore, hP, ha]
  · unfold knnClfScore
    rw [hP, Option.bind_some, ← hl, hlP, intoZeros_self q P hPq, Option.bind_some, ha]
    rw [← hlP, hl]
  · rw [div_eq_one_iff_eq (ne_of_gt hpos), Nat.cast_inj, h2]

example : clfScore (K := ℚ) (fun x => some [x.getD 0 0]) [[1], [2], [3]] [[1], [5], [3]] = some (2 / 3) ∧ agree [[1], [5], [3]] [[1], [2], [(3 : ℚ)]] = 2 := by decide +kernel

/-- **C171 fails for fewer samples than targets.** `KNeighborsClassifier.Score` and `NearestCentroid.Score` do not refuse them: the targets without a sample count as predicted if all their labels are 0. -/
theorem C171_missing_violated (q : ℕ) (predict : List K → Option (List K)) (X Y P : List (List K)) (hP : X.mapM predict = some P) (hl : X.length < Y.length)
    (hY : ∀ y ∈ Y, y.length = q) (hPq : ∀ p ∈ P, p.length = q) :
    knnClfScore q predict X Y = some (((agree (Y.take X.length) P + ((Y.drop X.length).filter (fun y => decide (y = List.replicate q 0))).length : ℕ) : K) / (Y.length : K)) := by
  have hlP : X.length = P.length := (ListX.mapM_forall2 _ _ _).1 hP |>.length_eq
  have hz : intoZeros Y.length q P = some (P ++ List.replicate (Y.length - P.length) (List.replicate q 0)) := by
    unfold intoZeros
    rw [if_pos ⟨by omega, by rw [List.all_eq_true]; intro p hp; simp [hPq p hp]⟩]
    congr 2
    conv_rhs => rw [← List.map_id P]
    apply List.map_congr_left
    intro p hp
    rw [hPq p hp]
    simp
  have hQ : ∀ p ∈ P ++ List.replicate (Y.length - P.length) (List.replicate q (0 : K)), p.length = q := by
    intro p hp
    rcases List.mem_append.1 hp with h | h
    · exact hPq p h
    · rw [List.eq_of_mem_replicate h, List.length_replicate]
  have hY0 : Y ≠ [] := by intro h; rw [h] at hl; simp at hl
  unfold knnClfScore
  rw [hP, Option.bind_some, hz, Option.bind_some, accuracy_hits Y _ hY0 (by simp; omega) (fun c hc => by rw [hY _ (List.of_mem_zip hc).1, hQ _ (List.of_mem_zip hc).2]), hits_agree q Y _ hY hQ]
  have hsplit : agree Y (P ++ List.replicate (Y.length - P.length) (List.replicate q 0)) =
      agree (Y.take X.length) P + ((Y.drop X.length).filter (fun y => decide (y = List.replicate q 0))).length := by
    unfold agree
    conv_lhs => rw [← List.take_append_drop X.length Y]
    rw [List.zip_append (by simp; omega), List.filter_append, List.length_append]
    congr 1
    have e : ∀ (l : List (List K)) (k : ℕ), l.length = k → ((l.zip (List.replicate k (List.replicate q (0 : K)))).filter (fun c => decide (c.1 = c.2))).length =
        (l.filter (fun y => decide (y = List.replicate q 0))).length := by
      intro l
      induction l with
      | nil => intro k _; simp
      | cons a l ih =>
        intro k hk
        obtain ⟨k, rfl⟩ : ∃ m, k = m + 1 := ⟨l.length, by simpa using hk.symm⟩
        rw [List.replicate_succ, List.zip_cons_cons]
        have := ih k (by simpa using hk)
        by_cases h : a = List.replicate q 0
        · rw [List.filter_cons_of_pos (by simpa using h), List.filter_cons_of_pos (by simpa using h), List.length_cons, List.length_cons, this]
        · rw [List.filter_cons_of_neg (by simpa using h), List.filter_cons_of_neg (by simpa using h), this]
    have hk : (List.take X.length Y ++ List.drop X.length Y).length - P.length = (Y.drop X.length).length := by rw [List.take_append_drop, List.length_drop]; omega
    rw [hk]
    exact e _ _ rfl
  rw [hsplit]

example : knnClfScore (K := ℚ) 1 (fun x => some x) [[1]] [[1], [0], [0], [2]] = some (3 / 4) := by decide +kernel

/-- **C171.** What `KNeighborsClassifier.Score`, `NearestCentroid.Score` and `KNeighborsRegressor.Score` make of predictions that do not have the shape of the targets: more rows or columns panic; missing cells count as 0. -/
theorem C171_shapes_violated (eps : K) (q : ℕ) (predict : List K → Option (List K)) (X Y P : List (List K)) (hP : X.mapM predict = some P) (h0 : Y ≠ []) (hY : ∀ y ∈ Y, y.length = q) :
    ((Y.length < P.length ∨ ∃ p ∈ P, q < p.length) → knnClfScore q predict X Y = none ∧ knnRegScore eps q predict X Y = none) ∧
    (P.length ≤ Y.length → (∀ p ∈ P, p.length ≤ q) →
      knnClfScore q predict X Y = some ((((List.range Y.length).filter (fun i => decide (∀ j < q, (Y.getD i []).getD j 0 = (P.getD i []).getD j 0))).length : K) / (Y.length : K))) := by
  constructor
  · intro h
    have : intoZeros Y.length q P = none := by
      unfold intoZeros
      rw [if_neg]
      rintro ⟨h1, h2⟩
      rw [List.all_eq_true] at h2
      rcases h with h | ⟨p, hp, h⟩
      · omega
      · have := h2 p hp
        rw [decide_eq_true_eq] at this
        omega
    simp [knnClfScore, knnRegScore, hP, this]
  · intro h1 h2
    set Q := P.map (fun p => p ++ List.replicate (q - p.length) 0) ++ List.replicate (Y.length - P.length) (List.replicate q (0 : K)) with hQ
    have e : intoZeros Y.length q P = some Q := by
      unfold intoZeros
      rw [if_pos ⟨h1, by rw [List.all_eq_true]; intro p hp; simpa using h2 p hp⟩]
    have hQl : Q.length = Y.length := by rw [hQ]; simp; omega
    have hQw : ∀ p ∈ Q, p.length = q := by
      intro p hp
      rw [hQ] at hp
      rcases List.mem_append.1 hp with hp | hp
      · obtain ⟨r, hr, rfl⟩ := List.mem_map.1 hp
        have := h2 r hr
        simp; omega
      · rw [(List.mem_replicate.1 hp).2]; simp
    have hQe : ∀ i < Y.length, ∀ j, (Q.getD i []).getD j 0 = (P.getD i []).getD j 0 := by
      intro i hi j
      simp only [List.getD_eq_getElem?_getD]
      by_cases hip : i < P.length
      · rw [hQ, List.getElem?_append_left (by simpa using hip), List.getElem?_map, List.getElem?_eq_getElem hip, Option.map_some, Option.getD_some, Option.getD_some]
        rw [List.getElem?_append]
        split
        · rfl
        · rename_i hj
          rw [List.getElem?_eq_none (l := P[i]) (by omega), List.getElem?_replicate]
          split <;> rfl
      · rw [hQ, List.getElem?_append_right (by simpa using hip), List.getElem?_eq_none (l := P) (by omega), List.getElem?_replicate]
        simp only [List.length_map]
        rw [if_pos (by omega)]
        simp only [Option.getD_some, Option.getD_none, List.getElem?_nil, List.getElem?_replicate]
        split <;> rfl
    have ha := accuracy_hits Y Q h0 (by omega) (fun c hc => by rw [hY _ (List.of_mem_zip hc).1, hQw _ (List.of_mem_zip hc).2])
    rw [hits_agree q Y Q hY hQw] at ha
    unfold knnClfScore
    rw [hP, Option.bind_some, e, Option.bind_some, ha]
    congr 3
    have hz : Y.zip Q = (List.range Y.length).map (fun i => (Y.getD i [], Q.getD i [])) := by
      apply List.ext_getElem
      · simp [hQl]
      · intro i hi hi'
        simp only [List.length_zip, hQl, min_self] at hi
        simp [hi, hQl]
    unfold agree
    rw [hz, List.filter_map, List.length_map]
    congr 1
    apply List.filter_congr
    intro i hi
    have hi := List.mem_range.1 hi
    simp only [Function.comp_apply, decide_eq_decide]
    have hy : (Y.getD i []).length = q := by
      rw [List.getD_eq_getElem?_getD, List.getElem?_eq_getElem hi]; exact hY _ (List.getElem_mem hi)
    have hq : (Q.getD i []).length = q := by
      rw [List.getD_eq_getElem?_getD, List.getElem?_eq_getElem (by omega)]; exact hQw _ (List.getElem_mem _)
    constructor
    · intro h j _
      rw [← hQe i hi j, h]
    · intro h
      apply List.ext_getElem (by omega)
      intro j hj hj'
      have := h j (by omega)
      rw [← hQe i hi j] at this
      simpa only [List.getD_eq_getElem?_getD (l := Y.getD i []), List.getD_eq_getElem?_getD (l := Q.getD i []), List.getElem?_eq_getElem hj, List.getElem?_eq_getElem hj', Option.getD_some] using this

example : knnClfScore (K := ℚ) 2 (fun x => some x) [[1], [2]] [[1, 0], [2, 3], [0, 0]] = some (2 / 3) ∧ knnClfScore (K := ℚ) 1 (fun x => some x) [[1, 2]] [[1]] = none := by decide +kernel

/-- **C171 fails for fewer target columns than outputs.** `SVC.Score`, `GaussianNB.Score` and `LogisticRegression.Score` compare just the columns of the targets, and just the first rows of the predictions
if there are more samples than targets. -/
theorem C171_surplus_violated (predict : List K → Option (List K)) (X Y P : List (List K)) (hP : X.mapM predict = some P) (hl : Y.length ≤ X.length) (h0 : Y ≠ [])
    (hc : ∀ c ∈ Y.zip P, c.1.length ≤ c.2.length) : clfScore predict X Y = some ((rowHits Y P : K) / (Y.length : K)) := by
  have hlP : X.length = P.length := (ListX.mapM_forall2 _ _ _).1 hP |>.length_eq
  unfold clfScore
  rw [hP, Option.bind_some, accuracy_hits Y P h0 (by omega) hc]

example : clfScore (K := ℚ) (fun x => some x) [[1, 7], [2, 8], [3, 9]] [[1], [2]] = some 1 := by decide +kernel

end Sk.Metrics
