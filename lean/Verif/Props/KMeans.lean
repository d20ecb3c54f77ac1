import Verif.Lemmas.KMeans
import Mathlib.Data.Set.Finite.List
import Mathlib.Data.Real.Sqrt

/-! # C34, C77: KMeans -/
set_option autoImplicit false

namespace Sk.KMeans

/-! ## C34: assignment and one iteration -/

/-- **C34**, `Predict`: for every distance into a linear order, every non-empty list of centroids and every data set, row `i` gets the lowest index among the centroids
at minimal distance. -/
theorem C34_predict {V D : Type} [LinearOrder D] [Inhabited V] (dist : V → V → D) (C : List V) (hC : C ≠ []) (X : List V) :
    ∃ y, labels dist C X = some y ∧ y.length = X.length ∧ ∀ i, i < X.length →
      y.getD i 0 < C.length ∧ (∀ j, j < C.length → dist (X.getD i default) (C.getD (y.getD i 0) default) ≤ dist (X.getD i default) (C.getD j default)) ∧
      ∀ j, j < y.getD i 0 → dist (X.getD i default) (C.getD (y.getD i 0) default) < dist (X.getD i default) (C.getD j default) :=
  labels_spec dist C hC X

example : labels (fun a b : ℤ => |a - b|) [4, 0, 10, 0] [1, 2, 9, 7, -3] = some [1, 0, 2, 0, 1] := by decide

variable {K : Type} [Field K] [LinearOrder K] [IsStrictOrderedRing K] {D : Type} [LinearOrder D]

/-- **C34**, one iteration of `Fit`, for every data set, every centroids, every previous labels `y` and every order of summation: the samples are given the labels `y'` of
their nearest centroids; the new centroid of every non-empty cluster is the mean of its samples; and the within-cluster sum of squares does not increase.  `dist` is any
distance that orders pairs as the squared Euclidean distance does (the default `EuclideanDistance`: `euclid_orders`). -/
theorem C34_iteration {dist : List K → List K → D} {n m k : ℕ} (hk : 0 < k)
    (hd : ∀ a b c : List K, a.length = m → b.length = m → c.length = m → (dist a b ≤ dist a c ↔ sqd m a b ≤ sqd m a c))
    {X C : List (List K)} (hX : Shape n m X) (hC : Shape k m C) {order : List ℕ} (ho : order.Perm (List.range n)) :
    ∃ y', labels dist C X = some y' ∧ y'.length = n ∧ (∀ i, i < n → y'.getD i 0 < k) ∧
      (∀ c, c < k → (∃ i, i < n ∧ y'.getD i 0 = c) → ∀ j, j < m → cell (recompute k m X y' order) c j =
        (∑ i ∈ (Finset.range n).filter (fun i => y'.getD i 0 = c), cell X i j) / ((Finset.range n).filter (fun i => y'.getD i 0 = c)).card) ∧
      ∀ y : List ℕ, (∀ i, i < n → y.getD i 0 < k) → wcss n m X y' (recompute k m X y' order) ≤ wcss n m X y C := by
  have hC0 : C ≠ [] := by
    rintro rfl
    have := hC.1
    simp at this
    omega
  obtain ⟨y', e, hl, h⟩ := labels_spec dist C hC0 X
  rw [hX.1] at hl h
  rw [hC.1] at h
  obtain ⟨_, hm⟩ := recompute_spec (k := k) hX hl ho
  refine ⟨y', e, hl, fun i hi => (h i hi).1, fun c hc _ j hj => hm c j hc hj, ?_⟩
  intro y hy
  refine le_trans (wcss_mean_le (fun i hi => (h i hi).1) hm C) ?_
  apply Finset.sum_le_sum
  intro i hi
  exact wcss_assign_le hX hC hd hy (fun i hi => ⟨(h i hi).1, (h i hi).2.1⟩) i (Finset.mem_range.1 hi)

/-! ## C77: `Fit` terminates at a fixed point -/

section Loop

variable {dist : List K → List K → D} {n m k : ℕ} {X : List (List K)}

/-- The centroids `C` are the means for the labels `y`. -/
structure Good (n m k : ℕ) (X : List (List K)) (y : List ℕ) (C : List (List K)) : Prop where
  len : y.length = n
  lt : ∀ i, i < n → y.getD i 0 < k
  shape : Shape k m C
  means : ∀ c j, c < k → j < m → cell C c j = mean n X y c j

theorem Good.unique {y : List ℕ} {C C' : List (List K)} (h : Good n m k X y C) (h' : Good n m k X y C') : C = C' := by
  apply List.ext_getElem
  · rw [h.shape.1, h'.shape.1]
  · intro c h1 h2
    have hc : c < k := by rw [← h.shape.1]; exact h1
    have l1 : C[c].length = m := h.shape.2 _ (List.getElem_mem _)
    have l2 : C'[c].length = m := h'.shape.2 _ (List.getElem_mem _)
    apply List.ext_getElem
    · rw [l1, l2]
    · intro j g1 g2
      have hj : j < m := by omega
      have e := (h.means c j hc hj).trans (h'.means c j hc hj).symm
      simpa [cell, h1, h2, g1, g2] using e

/-- Sum of squares when every centroid is the mean of its cluster. -/
def energy (n m : ℕ) (X : List (List K)) (y : List ℕ) : K := ∑ i ∈ Finset.range n, ∑ j ∈ Finset.range m, (cell X i j - mean n X y (y.getD i 0) j) ^ 2

theorem Good.wcss_eq {y : List ℕ} {C : List (List K)} (h : Good n m k X y C) : wcss n m X y C = energy n m X y := by
  apply Finset.sum_congr rfl
  intro i hi
  apply Finset.sum_congr rfl
  intro j hj
  rw [← h.means _ j (h.lt i (Finset.mem_range.1 hi)) (Finset.mem_range.1 hj)]
  rfl

def total (n : ℕ) (y : List ℕ) : ℕ := ∑ i ∈ Finset.range n, y.getD i 0

/-- The order in which labellings go down. -/
def Below (n m : ℕ) (X : List (List K)) (y' y : List ℕ) : Prop := energy n m X y' < energy n m X y ∨ (energy n m X y' = energy n m X y ∧ total n y' < total n y)

theorem Below.trans {a b c : List ℕ} (h1 : Below n m X a b) (h2 : Below n m X b c) : Below n m X a c := by
  rcases h1 with h1 | ⟨h1, h1'⟩
  · rcases h2 with h2 | ⟨h2, _⟩
    · exact Or.inl (h1.trans h2)
    · exact Or.inl (h2 ▸ h1)
  · rcases h2 with h2 | ⟨h2, h2'⟩
    · exact Or.inl (h1 ▸ h2)
    · exact Or.inr ⟨h1.trans h2, h1'.trans h2'⟩

theorem Below.irrefl (a : List ℕ) : ¬ Below n m X a a := by
  rintro (h | ⟨_, h⟩)
  · exact lt_irrefl _ h
  · exact lt_irrefl _ h

theorem finite_labels (n k : ℕ) : Set.Finite {l : List ℕ | l.length = n ∧ ∀ x ∈ l, x < k} := by
  refine ((List.finite_length_eq (Fin k) n).image (fun l => l.map Fin.val)).subset ?_
  rintro l ⟨h1, h2⟩
  refine ⟨l.attach.map (fun x => ⟨x.1, h2 x.1 x.2⟩), ?_, ?_⟩
  · simp [h1]
  · simp

/-- One round from centroids that are means: same labels, or labels strictly below. -/
theorem round_below (hk : 0 < k) (hX : Shape n m X)
    (hd : ∀ a b c : List K, a.length = m → b.length = m → c.length = m → (dist a b ≤ dist a c ↔ sqd m a b ≤ sqd m a c))
    {y : List ℕ} {C : List (List K)} (h : Good n m k X y C) :
    ∃ y', labels dist C X = some y' ∧ (∀ order : List ℕ, order.Perm (List.range n) → Good n m k X y' (recompute k m X y' order)) ∧
      (y' = y ∨ Below n m X y' y) := by
  have hC0 : C ≠ [] := by
    intro h0
    have := h.shape.1
    rw [h0] at this
    simp at this
    omega
  obtain ⟨y', e, hl, hy'⟩ := labels_spec dist C hC0 X
  rw [hX.1] at hl hy'
  rw [h.shape.1] at hy'
  have hgood : ∀ order : List ℕ, order.Perm (List.range n) → Good n m k X y' (recompute k m X y' order) := by
    intro order ho
    obtain ⟨h1, h2⟩ := recompute_spec (k := k) hX hl ho
    exact ⟨hl, fun i hi => (hy' i hi).1, h1, h2⟩
  refine ⟨y', e, hgood, ?_⟩
  have hstep := wcss_assign_le hX h.shape hd h.lt (fun i hi => ⟨(hy' i hi).1, (hy' i hi).2.1⟩)
  have hg := hgood (List.range n) (List.Perm.refl _)
  have h1 : energy n m X y' ≤ wcss n m X y' C := by
    rw [← hg.wcss_eq]
    exact wcss_mean_le (fun i hi => (hy' i hi).1) hg.means C
  have h2 : wcss n m X y' C ≤ energy n m X y := by
    rw [← h.wcss_eq]
    exact Finset.sum_le_sum (fun i hi => hstep i (Finset.mem_range.1 hi))
  rcases lt_or_eq_of_le (h1.trans h2) with hlt | heq
  · exact Or.inr (Or.inl hlt)
  · have heq2 : wcss n m X y' C = wcss n m X y C := by
      rw [h.wcss_eq]
      exact le_antisymm h2 (heq ▸ h1)
    have hpt := (Finset.sum_eq_sum_iff_of_le (fun i hi => hstep i (Finset.mem_range.1 hi))).1 heq2
    have hle : ∀ i, i < n → y'.getD i 0 ≤ y.getD i 0 := by
      intro i hi
      by_contra hlt
      have := (hy' i hi).2.2 _ (not_le.1 hlt)
      have hlen : ∀ {r : ℕ} {A : List (List K)}, Shape r m A → ∀ i, i < r → (A.getD i []).length = m := by
        intro r A hA i hi
        have : A.getD i [] = A[i]'(by rw [hA.1]; exact hi) := by simp [hA.1, hi]
        rw [this]
        exact hA.2 _ (List.getElem_mem _)
      refine absurd ?_ (not_le.2 this)
      exact (hd _ _ _ (hlen hX i hi) (hlen h.shape _ (h.lt i hi)) (hlen h.shape _ (hy' i hi).1)).2 (hpt i (Finset.mem_range.2 hi)).ge
    by_cases hne : y' = y
    · exact Or.inl hne
    · refine Or.inr (Or.inr ⟨heq, ?_⟩)
      apply Finset.sum_lt_sum (fun i hi => hle i (Finset.mem_range.1 hi))
      by_contra hno
      apply hne
      apply List.ext_getElem
      · rw [hl, h.len]
      · intro i g1 g2
        have hi : i < n := by omega
        by_contra hc
        apply hno
        refine ⟨i, Finset.mem_range.2 hi, lt_of_le_of_ne (hle i hi) ?_⟩
        simpa [g1, g2] using hc

theorem stable (hX : Shape n m X) {order : ℕ → List ℕ} (ho : ∀ e, (order e).Perm (List.range n)) {y : List ℕ} {C : List (List K)} (h : Good n m k X y C)
    (hl : labels dist C X = some y) : ∀ (d u fuel : ℕ), u + d = 2 → d < fuel → fitLoop dist k m X order fuel C y u = some C := by
  intro d
  induction d with
  | zero =>
    intro u fuel hu hf
    obtain ⟨fuel, rfl⟩ : ∃ f, fuel = f + 1 := ⟨fuel - 1, by omega⟩
    rw [fitLoop, if_pos (by omega)]
  | succ d ih =>
    intro u fuel hu hf
    obtain ⟨fuel, rfl⟩ : ∃ f, fuel = f + 1 := ⟨fuel - 1, by omega⟩
    rw [fitLoop, if_neg (by omega)]
    simp only [hl, Option.bind_eq_bind, Option.bind_some, ne_eq, not_true_eq_false, if_false]
    have : recompute k m X y (order fuel) = C := by
      obtain ⟨h1, h2⟩ := recompute_spec (k := k) hX h.len (ho fuel)
      exact Good.unique ⟨h.len, h.lt, h1, h2⟩ h
    rw [this]
    exact ih (u + 1) fuel (by omega) (by omega)

theorem loop_ends (hk : 0 < k) (hX : Shape n m X)
    (hd : ∀ a b c : List K, a.length = m → b.length = m → c.length = m → (dist a b ≤ dist a c ↔ sqd m a b ≤ sqd m a c))
    {order : ℕ → List ℕ} (ho : ∀ e, (order e).Perm (List.range n)) :
    ∀ (N : ℕ) (y : List ℕ) (C : List (List K)) (u : ℕ), Good n m k X y C → u < 2 →
      ((finite_labels n k).toFinset.filter (fun z => @decide (Below n m X z y) (Classical.dec _))).card ≤ N →
      ∃ bound yf Cf, Good n m k X yf Cf ∧ labels dist Cf X = some yf ∧ ∀ fuel, bound < fuel → fitLoop dist k m X order fuel C y u = some Cf := by
  classical
  intro N
  induction N using Nat.strong_induction_on with
  | _ N ih =>
    intro y C u h hu hN
    obtain ⟨y', e, hgood, hor⟩ := round_below (dist := dist) hk hX hd h
    by_cases hyy : y' = y
    · subst hyy
      exact ⟨2, y', C, h, e, fun fuel hf => stable hX ho h e (2 - u) u fuel (by omega) (by omega)⟩
    · have hb := hor.resolve_left hyy
      have hg0 := hgood (List.range n) (List.Perm.refl _)
      have hmem : y' ∈ (finite_labels n k).toFinset := by
        rw [Set.Finite.mem_toFinset]
        refine ⟨hg0.len, ?_⟩
        intro x hx
        obtain ⟨i, hi, rfl⟩ := List.mem_iff_getElem.1 hx
        have := hg0.lt i (by rw [← hg0.len]; exact hi)
        simpa [hi] using this
      have hcard : ((finite_labels n k).toFinset.filter (fun z => @decide (Below n m X z y') (Classical.dec _))).card <
          ((finite_labels n k).toFinset.filter (fun z => @decide (Below n m X z y) (Classical.dec _))).card := by
        apply Finset.card_lt_card
        refine ⟨?_, ?_⟩
        · intro z hz
          simp only [Finset.mem_filter, decide_eq_true_eq] at hz ⊢
          exact ⟨hz.1, hz.2.trans hb⟩
        · intro hc
          have : y' ∈ (finite_labels n k).toFinset.filter (fun z => @decide (Below n m X z y) (Classical.dec _)) := by
            simp only [Finset.mem_filter, decide_eq_true_eq]
            exact ⟨hmem, hb⟩
          have := hc this
          simp only [Finset.mem_filter, decide_eq_true_eq] at this
          exact Below.irrefl _ this.2
      obtain ⟨bound, yf, Cf, h1, h2, h3⟩ := ih _ (lt_of_lt_of_le hcard hN) y' (recompute k m X y' (List.range n)) 0 hg0 (by omega) (le_refl _)
      refine ⟨bound + 1, yf, Cf, h1, h2, fun fuel hf => ?_⟩
      obtain ⟨fuel, rfl⟩ : ∃ f, fuel = f + 1 := ⟨fuel - 1, by omega⟩
      rw [fitLoop, if_neg (by omega)]
      simp only [e, Option.bind_eq_bind, Option.bind_some, ne_eq, hyy, not_false_eq_true, if_true]
      rw [Good.unique (hgood _ (ho fuel)) hg0]
      exact h3 fuel (by omega)

end Loop

/-- **C77.** For every data set with at least as many samples as clusters, `KMeans.Fit` returns, whatever the order in which samples are summed, and its result is a
fixed point: with the labels `y` that `Predict` gives the training samples, every centroid of a non-empty cluster is the mean of the samples labelled with it, and the centroid of
an empty cluster is the origin. -/
theorem C77_fit {dist : List K → List K → D} {n m k : ℕ} (hk : 0 < k) (hkn : k ≤ n)
    (hd : ∀ a b c : List K, a.length = m → b.length = m → c.length = m → (dist a b ≤ dist a c ↔ sqd m a b ≤ sqd m a c))
    {X : List (List K)} (hX : Shape n m X) {order : ℕ → List ℕ} (ho : ∀ e, (order e).Perm (List.range n)) :
    ∃ bound C y, (∀ fuel, bound < fuel → fit dist k m X order fuel = some C) ∧ Shape k m C ∧ labels dist C X = some y ∧
      (∀ c, c < k → (∃ i, i < n ∧ y.getD i 0 = c) → ∀ j, j < m → cell C c j =
        (∑ i ∈ (Finset.range n).filter (fun i => y.getD i 0 = c), cell X i j) / ((Finset.range n).filter (fun i => y.getD i 0 = c)).card) ∧
      ∀ c, c < k → (∀ i, i < n → y.getD i 0 ≠ c) → ∀ j, j < m → cell C c j = 0 := by
  have hC : Shape k m (X.take k) := ⟨by rw [List.length_take, hX.1]; omega, fun row hr => hX.2 row (List.mem_of_mem_take hr)⟩
  have hC0 : X.take k ≠ [] := by
    intro h
    have := hC.1
    rw [h] at this
    simp at this
    omega
  obtain ⟨y1, e1, hl1, h1⟩ := labels_spec dist (X.take k) hC0 X
  rw [hX.1] at hl1 h1
  rw [hC.1] at h1
  have hg : ∀ order : List ℕ, order.Perm (List.range n) → Good n m k X y1 (recompute k m X y1 order) := by
    intro order ho
    obtain ⟨g1, g2⟩ := recompute_spec (k := k) hX hl1 ho
    exact ⟨hl1, fun i hi => (h1 i hi).1, g1, g2⟩
  obtain ⟨bound, yf, Cf, g1, g2, g3⟩ := loop_ends (dist := dist) hk hX hd ho _ y1 (recompute k m X y1 (List.range n))
    (if y1 ≠ List.replicate n 0 then 0 else 1) (hg _ (List.Perm.refl _)) (by split <;> omega) (le_refl _)
  refine ⟨bound + 1, Cf, yf, fun fuel hf => ?_, g1.shape, g2, fun c hc _ j hj => g1.means c j hc hj, fun c hc he j hj => ?_⟩
  swap
  · rw [g1.means c j hc hj, mean, Finset.filter_false_of_mem (fun i hi => he i (Finset.mem_range.1 hi)), Finset.sum_empty, zero_div]
  obtain ⟨fuel, rfl⟩ : ∃ f, fuel = f + 1 := ⟨fuel - 1, by omega⟩
  rw [fit, if_neg (by rw [hX.1]; omega), fitLoop, if_neg (by omega)]
  simp only [e1, Option.bind_eq_bind, Option.bind_some, hX.1, Nat.zero_add]
  rw [(hg _ (ho fuel)).unique (hg _ (List.Perm.refl _))]
  exact g3 fuel (by omega)

/-- C77: an empty cluster is not moved to the data: when the data have fewer distinct rows than clusters, some centroid of the fitted model is the origin, wherever the
data are. -/
theorem C77_empty {dist : List K → List K → D} {n m k : ℕ} (hkn : k ≤ n)
    (hd : ∀ a b c : List K, a.length = m → b.length = m → c.length = m → (dist a b ≤ dist a c ↔ sqd m a b ≤ sqd m a c))
    {X : List (List K)} (hX : Shape n m X) (hdup : X.toFinset.card < k) {order : ℕ → List ℕ} (ho : ∀ e, (order e).Perm (List.range n)) :
    ∃ bound C, (∀ fuel, bound < fuel → fit dist k m X order fuel = some C) ∧ ∃ c, c < k ∧ ∀ j, j < m → cell C c j = 0 := by
  obtain ⟨bound, C, y, h1, h2, h3, _, h5⟩ := C77_fit (dist := dist) (by omega) hkn hd hX ho
  refine ⟨bound, C, h1, ?_⟩
  have hf : ∀ (X : List (List K)) (y : List ℕ), labels dist C X = some y → ∀ i, i < X.length → nearest dist C (X.getD i []) = some (y.getD i 0) := by
    intro X
    induction X with
    | nil => intro y _ i hi; simp at hi
    | cons x X ih =>
      intro y hy i hi
      unfold labels at hy
      rw [List.mapM_cons] at hy
      simp only [Option.bind_eq_bind, Option.pure_def] at hy
      obtain ⟨c, hc, hy⟩ := Option.bind_eq_some_iff.1 hy
      obtain ⟨ys, hys, hy⟩ := Option.bind_eq_some_iff.1 hy
      cases hy
      cases i with
      | zero => simpa using hc
      | succ i =>
        simp only [List.getD_cons_succ]
        exact ih ys hys i (by simpa using hi)
  have hlab := hf X y h3
  rw [hX.1] at hlab
  have hcard : (X.toFinset.image (fun x => (nearest dist C x).getD 0)).card < (Finset.range k).card := by
    rw [Finset.card_range]
    exact lt_of_le_of_lt Finset.card_image_le hdup
  obtain ⟨c, hc, hn⟩ := Finset.exists_mem_notMem_of_card_lt_card hcard
  refine ⟨c, Finset.mem_range.1 hc, h5 c (Finset.mem_range.1 hc) ?_⟩
  intro i hi he
  apply hn
  rw [Finset.mem_image]
  refine ⟨X.getD i [], ?_, ?_⟩
  · have hi' : i < X.length := by rw [hX.1]; exact hi
    simp [hi']
  · rw [hlab i hi, Option.getD_some, he]

/-- Two clusters for three copies of the row `(5, 5)`. -/
example : ([[5, 5], [5, 5], [5, 5]] : List (List ℚ)).toFinset.card < 2 ∧ Shape 3 2 ([[5, 5], [5, 5], [5, 5]] : List (List ℚ)) := by
  refine ⟨by decide, rfl, by simp⟩

/-- `Fit` refuses fewer samples than clusters. -/
theorem C77_panics (dist : List K → List K → D) (k m : ℕ) (X : List (List K)) (h : X.length < k) (order : ℕ → List ℕ) (fuel : ℕ) :
    fit dist k m X order fuel = none := by
  rw [fit, if_pos (Or.inl h)]

/-- The default distance of the library orders pairs as the squared distance does. -/
theorem euclid_orders (m : ℕ) (a b c : List ℝ) (ha : a.length = m) (hb : b.length = m) (hc : c.length = m) :
    Neigh.euclid Real.sqrt a b ≤ Neigh.euclid Real.sqrt a c ↔ sqd m a b ≤ sqd m a c := by
  have hnn : ∀ b : List ℝ, 0 ≤ sqd m a b := fun b => Finset.sum_nonneg (fun _ _ => sq_nonneg _)
  have key : ∀ b : List ℝ, b.length = m → Neigh.euclid Real.sqrt a b = Real.sqrt (sqd m a b) := by
    intro b hb
    rw [Neigh.euclid]
    by_cases h1 : a.length = 1
    · rw [if_pos h1]
      have : m = 1 := by omega
      subst this
      simp only [sqd, Finset.sum_range_one]
      rw [Real.sqrt_sq_eq_abs, abs_sub_comm]
    · rw [if_neg h1]
      congr 1
      have e : List.zipWith (fun x y : ℝ => (y - x) * (y - x)) a b = (List.range m).map (fun j => (a.getD j 0 - b.getD j 0) ^ 2) := by
        apply List.ext_getElem
        · simp [ha, hb]
        · intro i g1 g2
          simp only [List.length_zipWith, ha, hb, min_self] at g1
          simp [ha, hb, g1]
          ring
      have e2 : ∀ (l : List ℝ) (s : ℝ), l.foldl (· + ·) s = s + l.sum := by
        intro l
        induction l with
        | nil => intro s; simp
        | cons x l ih => intro s; rw [List.foldl_cons, ih, List.sum_cons, add_assoc]
      rw [e, e2, zero_add, sqd, Finset.sum_eq_multiset_sum]
      rfl
  rw [key b hb, key c hc, Real.sqrt_le_sqrt_iff (hnn c)]

/-- Six points on the line, two clusters started at 0 and 1. -/
example : fit (K := ℚ) (fun a b => (a.getD 0 0 - b.getD 0 0) ^ 2) 2 1 [[0], [1], [2], [10], [11], [12]] (fun _ => [5, 4, 3, 2, 1, 0]) 20 = some [[1], [11]] := by
  decide +kernel

/-- A cluster left without samples is moved to the origin. -/
example : fit (K := ℚ) (fun a b => (a.getD 0 0 - b.getD 0 0) ^ 2) 2 1 [[5], [5], [5]] (fun _ => [0, 1, 2]) 20 = some [[5], [0]] := by
  decide +kernel

end Sk.KMeans
