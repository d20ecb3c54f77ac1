import Verif.Props.Outliers
import Verif.Props.RowOrder
import Verif.Props.LeftOut
import Mathlib.Algebra.BigOperators.Ring.Finset

/-!
# C247: training on several copies of every row

`Copies k xs ys`: every value occurs `k` times as often in `ys` as in `xs`, in any order; a column of a matrix each of whose rows was repeated `k` times.
-/
set_option autoImplicit false

namespace Sk.Copies

open Sk.Scale Sk.Stats Sk.Lin Sk.Outliers

section
variable {K : Type} [Field K] [LinearOrder K] [IsStrictOrderedRing K]

/-- Every value occurs `k` times as often in `ys` as in `xs`. -/
def Copies (k : ℕ) (xs ys : List K) : Prop := ∀ v, ys.count v = k * xs.count v

theorem Copies.perm {k : ℕ} {xs ys : List K} (h : Copies k xs ys) : ys.Perm (List.replicate k xs).flatten := by
  rw [List.perm_iff_count]
  intro v
  rw [h v, List.count_flatten, List.map_replicate, List.sum_replicate, smul_eq_mul]

theorem Copies.length {k : ℕ} {xs ys : List K} (h : Copies k xs ys) : ys.length = k * xs.length := by
  rw [h.perm.length_eq, List.length_flatten, List.map_replicate, List.sum_replicate, smul_eq_mul]

theorem Copies.sum {k : ℕ} {xs ys : List K} (h : Copies k xs ys) (f : K → K) : (ys.map f).sum = k * (xs.map f).sum := by
  rw [(h.perm.map f).sum_eq, List.map_flatten, List.sum_flatten, List.map_replicate, List.map_replicate, List.sum_replicate, nsmul_eq_mul]

theorem Copies.countP {k : ℕ} {xs ys : List K} (h : Copies k xs ys) (f : K → Bool) : ys.countP f = k * xs.countP f := by
  rw [h.perm.countP_eq, List.countP_flatten, List.map_replicate, List.sum_replicate, smul_eq_mul]

theorem Copies.mem {k : ℕ} (hk : k ≠ 0) {xs ys : List K} (h : Copies k xs ys) (v : K) : v ∈ ys ↔ v ∈ xs := by
  rw [← List.count_pos_iff, ← List.count_pos_iff, h v]
  exact ⟨fun h => Nat.pos_of_mul_pos_left h, fun h => Nat.mul_pos (Nat.pos_of_ne_zero hk) h⟩

/-- **C247, `MinMaxScaler` and `MaxAbsScaler`**: not even the numbers of copies matter, only which values occur. After `Fit` on a column with the same values, whatever the previous states, both transform every value alike. -/
theorem C247_ranges (lo hi : K) (xs ys : List K) (hne : xs ≠ []) (h : ∀ v, v ∈ ys ↔ v ∈ xs) :
    (∀ (s s' : MinMax K) (x : K), (MinMax.fit lo hi s' ys).transform x = (MinMax.fit lo hi s xs).transform x ∧ (MinMax.fit lo hi s' ys).inverse x = (MinMax.fit lo hi s xs).inverse x) ∧
    ∀ s s' : MaxAbs K, ∃ st st', MaxAbs.fit s xs = some st ∧ MaxAbs.fit s' ys = some st' ∧ ∀ x, st'.transform x = st.transform x ∧ st'.inverse x = st.inverse x := by
  constructor
  · intro s s' x
    cases xs with
    | nil => exact absurd rfl hne
    | cons a xs =>
      cases ys with
      | nil => exact absurd ((h a).2 (by simp)) (by simp)
      | cons b ys =>
        have e1 : (b :: ys).foldl min b = (a :: xs).foldl min a := by
          obtain ⟨-, p2, p3⟩ := foldl_min_le (a :: xs) a
          obtain ⟨-, q2, q3⟩ := foldl_min_le (b :: ys) b
          have m1 : (a :: xs).foldl min a ∈ a :: xs := by rcases p3 with e | e <;> [rw [e]; skip] <;> simp_all
          have m2 : (b :: ys).foldl min b ∈ b :: ys := by rcases q3 with e | e <;> [rw [e]; skip] <;> simp_all
          exact le_antisymm (q2 _ ((h _).2 m1)) (p2 _ ((h _).1 m2))
        have e2 : (b :: ys).foldl max b = (a :: xs).foldl max a := by
          obtain ⟨-, p2, p3⟩ := foldl_max_ge (a :: xs) a
          obtain ⟨-, q2, q3⟩ := foldl_max_ge (b :: ys) b
          have m1 : (a :: xs).foldl max a ∈ a :: xs := by rcases p3 with e | e <;> [rw [e]; skip] <;> simp_all
          have m2 : (b :: ys).foldl max b ∈ b :: ys := by rcases q3 with e | e <;> [rw [e]; skip] <;> simp_all
          exact le_antisymm (p2 _ ((h _).1 m2)) (q2 _ ((h _).2 m1))
        unfold MinMax.fit MinMax.partialFit MinMax.transform MinMax.inverse
        simp only [if_true, e1, e2, and_self]
  · intro s s'
    have e : (ys.map (fun x => |x|)).foldl max 0 = (xs.map (fun x => |x|)).foldl max 0 := by
      obtain ⟨p1, p2, p3⟩ := foldl_max_ge (xs.map (fun x => |x|)) 0
      obtain ⟨q1, q2, q3⟩ := foldl_max_ge (ys.map (fun x => |x|)) 0
      have hm : ∀ v, v ∈ ys.map (fun x => |x|) ↔ v ∈ xs.map (fun x => |x|) := fun v => by simp only [List.mem_map, h]
      refine le_antisymm ?_ ?_
      · rcases q3 with e | e
        · rw [e]; exact p1
        · exact p2 _ ((hm _).1 e)
      · rcases p3 with e | e
        · rw [e]; exact q1
        · exact q2 _ ((hm _).2 e)
    refine ⟨_, _, rfl, rfl, fun x => ?_⟩
    unfold MaxAbs.transform MaxAbs.inverse
    simp only [maxabs_fold, e, and_self]

theorem copies_mean {k : ℕ} (hk : k ≠ 0) {xs ys : List K} (h : Copies k xs ys) : mean ys = mean xs := by
  have hk' : (k : K) ≠ 0 := Nat.cast_ne_zero.2 hk
  have := h.sum id
  rw [List.map_id, List.map_id] at this
  unfold mean
  rw [this, h.length, Nat.cast_mul, mul_div_mul_left _ _ hk']

theorem copies_pvar {k : ℕ} (hk : k ≠ 0) {xs ys : List K} (h : Copies k xs ys) : pvar ys = pvar xs := by
  have hk' : (k : K) ≠ 0 := Nat.cast_ne_zero.2 hk
  unfold pvar
  rw [copies_mean hk h, h.sum, h.length, Nat.cast_mul, mul_div_mul_left _ _ hk']

/-- **C247, `StandardScaler`**: with every row repeated `k` times, `Fit` learns the same means and variances. -/
theorem C247_standard {k : ℕ} (hk : k ≠ 0) (s s' : Std K) (rows : ℕ) (hr : 0 < rows) (cols cols' : List (List K)) (hc : ∀ c ∈ cols, c.length = rows) (h : List.Forall₂ (Copies k) cols cols') :
    ∃ st st', Std.fit s rows cols = some st ∧ Std.fit s' (k * rows) cols' = some st' ∧ st'.mv = st.mv := by
  have hc' : ∀ c ∈ cols', c.length = k * rows := by
    clear s s'
    induction h with
    | nil => simp
    | cons h1 _ ih =>
      intro c hcm
      rcases List.mem_cons.1 hcm with rfl | hm
      · rw [h1.length, hc _ (by simp)]
      · exact ih (fun c hc' => hc c (by simp [hc'])) c hm
  obtain ⟨st, e, m, -⟩ := C18_fit_stats s rows hr cols hc
  obtain ⟨st', e', m', -⟩ := C18_fit_stats s' (k * rows) (Nat.mul_pos (Nat.pos_of_ne_zero hk) hr) cols' hc'
  refine ⟨st, st', e, e', ?_⟩
  rw [m, m']
  clear m m' e e' hc hc'
  induction h with
  | nil => rfl
  | cons h1 _ ih => rw [List.map_cons, List.map_cons, ih, copies_mean hk h1, copies_pvar hk h1]

/-- **C247, `RobustScaler`**: with every row repeated `k` times, `Fit` by a scaler without a buffer of another length learns the same median and divider. -/
theorem C247_robust {k : ℕ} (hk : k ≠ 0) (half left right : K) (h1 : half ≤ 1) (h2 : left ≤ 1) (h3 : right ≤ 1) (s s' : Robust K) (xs ys : List K) (hne : xs ≠ []) (h : Copies k xs ys)
    (htmp : ∀ buf, s.tmp = some buf → buf.length = xs.length) (htmp' : ∀ buf, s'.tmp = some buf → buf.length = ys.length) :
    ∃ st st', Robust.fit half left right s xs = some st ∧ Robust.fit half left right s' ys = some st' ∧ ∀ center scale x, st'.transform center scale x = st.transform center scale x := by
  have hne' : ys ≠ [] := by
    rintro rfl
    obtain ⟨a, ha⟩ := List.exists_mem_of_ne_nil xs hne
    exact absurd ((h.mem hk a).2 ha) (by simp)
  have hk' : (0 : K) < k := Nat.cast_pos.2 (Nat.pos_of_ne_zero hk)
  have key : ∀ {p q : K}, IsQuantile p ys q → IsQuantile p xs q := by
    rintro p q ⟨a, b, c⟩
    rw [h.countP, h.length, Nat.cast_mul, Nat.cast_mul] at b
    rw [h.countP, h.length, Nat.cast_mul, Nat.cast_mul] at c
    refine ⟨(h.mem hk q).1 a, ?_, ?_⟩
    · refine le_of_mul_le_mul_left ?_ hk'
      linarith
    · rcases c with c | c
      · exact Or.inl ((Nat.mul_eq_zero.1 c).resolve_left hk)
      · refine Or.inr (lt_of_mul_lt_mul_left ?_ hk'.le)
        linarith
  obtain ⟨st, e, ⟨zs, p, so, m, u1, u2, r1, r2, d⟩, -⟩ := C66_robust_partial half left right h1 h2 h3 s xs hne htmp
  obtain ⟨st', e', ⟨zs', p', so', m', u1', u2', r1', r2', d'⟩, -⟩ := C66_robust_partial half left right h1 h2 h3 s' ys hne' htmp'
  have uniq : ∀ {p : K} {xs : List K} {q q' : K}, IsQuantile p xs q → IsQuantile p xs q' → q = q' := fun h h' => le_antisymm (quantile_le le_rfl h h') (quantile_le le_rfl h' h)
  have t1 := uniq (quantile_of h2 hne p so r1) (key (quantile_of h2 hne' p' so' r1'))
  have t2 := uniq (quantile_of h3 hne p so r2) (key (quantile_of h3 hne' p' so' r2'))
  have tm := uniq (quantile_of h1 hne p so m) (key (quantile_of h1 hne' p' so' m'))
  refine ⟨st, st', e, e', fun center scale x => ?_⟩
  unfold Robust.transform
  rw [← tm, d, d', t1, t2]

/-- Two copies of the column 1, 5, 2, in another order. -/
example : Copies 2 ([1, 5, 2] : List ℚ) [5, 1, 2, 2, 5, 1] ∧
    (Std.fit ⟨0, []⟩ 3 [[1, 5, 2]] : Option (Std ℚ)).map (·.mv) = some [(8 / 3, 26 / 9)] ∧ (Std.fit ⟨0, []⟩ 6 [[5, 1, 2, 2, 5, 1]] : Option (Std ℚ)).map (·.mv) = some [(8 / 3, 26 / 9)] ∧
    (Robust.fit (1 / 2 : ℚ) (1 / 4) (3 / 4) ⟨none, 0, 0⟩ [1, 5, 2]).map (fun s => (s.median, s.divider)) = some (2, 4) ∧
    (Robust.fit (1 / 2 : ℚ) (1 / 4) (3 / 4) ⟨none, 0, 0⟩ [5, 1, 2, 2, 5, 1]).map (fun s => (s.median, s.divider)) = some (2, 4) := by
  refine ⟨fun v => ?_, by decide +kernel, by decide +kernel, by decide +kernel, by decide +kernel⟩
  simp only [List.count_cons, List.count_nil]
  omega

end

/-- **C247, `LinearRegression`**: when the training rows are those of another training set, each taken `k` times in any order, the fit is the same. -/
theorem C247_linear {n n' p k : ℕ} (hk : k ≠ 0) (hn : n ≠ 0) (normalize normalize' : Bool) {solve : (Fin n → Fin p → ℝ) → (Fin n → ℝ) → Fin p → ℝ} {solve' : (Fin n' → Fin p → ℝ) → (Fin n' → ℝ) → Fin p → ℝ} (hs : LeastSquares solve)
    (hs' : LeastSquares solve') (old old' : ℝ) {X : Fin n → Fin p → ℝ} (hX : Spans X) (y : Fin n → ℝ) (row : Fin n' → Fin n) (hrow : ∀ i, (Finset.univ.filter (fun i' => row i' = i)).card = k) :
    ∃ m, fit true normalize solve old X y = some m ∧ fit true normalize' solve' old' (fun i' => X (row i')) (fun i' => y (row i')) = some m := by
  have hsurj : ∀ i, ∃ i', row i' = i := by
    intro i
    have : 0 < (Finset.univ.filter (fun i' => row i' = i)).card := by rw [hrow]; exact Nat.pos_of_ne_zero hk
    obtain ⟨i', hi⟩ := Finset.card_pos.1 this
    exact ⟨i', (Finset.mem_filter.1 hi).2⟩
  have hX' : Spans (fun i' => X (row i')) := by
    intro c b h
    refine hX c b fun i => ?_
    obtain ⟨i', rfl⟩ := hsurj i
    exact h i'
  have hn' : n' ≠ 0 := by
    rintro rfl
    obtain ⟨i', -⟩ := hsurj ⟨0, Nat.pos_of_ne_zero hn⟩
    exact i'.elim0
  obtain ⟨m, hm, hb⟩ := C197_best hn normalize hs old hX y
  obtain ⟨m', hm', hb'⟩ := C197_best hn' normalize' hs' old' hX' (fun i' => y (row i'))
  have e : ∀ c : Coefs p, sse (fun i' => X (row i')) (fun i' => y (row i')) c = k * sse X y c := by
    intro c
    unfold sse
    rw [Finset.mul_sum, ← Finset.sum_fiberwise_of_maps_to (s := Finset.univ) (t := Finset.univ) (g := row) (fun _ _ => Finset.mem_univ _)]
    refine Finset.sum_congr rfl fun i _ => ?_
    rw [Finset.sum_congr rfl (g := fun _ => (y i - (∑ j, X i j * c.coef j + c.intercept)) ^ 2) (fun i' hi' => by obtain rfl := (Finset.mem_filter.1 hi').2; rfl), Finset.sum_const, hrow, nsmul_eq_mul]
  refine ⟨m, hm, ?_⟩
  rw [hm']
  by_contra hne
  have hne' : m' ≠ m := fun h => hne (by rw [h])
  have s1 := hb m' hne'
  have s2 := hb' m (Ne.symm hne')
  rw [e, e] at s2
  have hk' : (0 : ℝ) < k := Nat.cast_pos.2 (Nat.pos_of_ne_zero hk)
  exact absurd (lt_of_mul_lt_mul_left s2 hk'.le) (not_lt.2 s1.le)

/-- Three rows, each taken twice. -/
example : ∃ m, fit true true (fun (A : Fin 3 → Fin 1 → ℝ) b _ => (∑ i, A i 0 * b i) / ∑ i, A i 0 * A i 0) 0 ![![0], ![1], ![3]] ![0, 1, 5] = some m ∧
    fit true false (fun (A : Fin 6 → Fin 1 → ℝ) b _ => (∑ i, A i 0 * b i) / ∑ i, A i 0 * A i 0) 0 (fun i' => (![![0], ![1], ![3]] : Fin 3 → Fin 1 → ℝ) ((![2, 0, 1, 1, 0, 2] : Fin 6 → Fin 3) i'))
      (fun i' => (![0, 1, 5] : Fin 3 → ℝ) ((![2, 0, 1, 1, 0, 2] : Fin 6 → Fin 3) i')) = some m :=
  C247_linear (k := 2) (by norm_num) (by norm_num) true false (Sk.LeftOut.one_feature 3) (Sk.LeftOut.one_feature 6) 0 0 (by
    intro c b h
    have h0 := h 0
    have h1 := h 1
    simp at h0 h1
    funext j
    rw [Subsingleton.elim j 0]
    simp
    linarith) _ _ (by decide)

end Sk.Copies
