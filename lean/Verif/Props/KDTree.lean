import Verif.Lemmas.KDBuild
import Verif.Props.Neighbors

/-! # C41, C42, C40 (kd-tree): construction and queries of the kd-tree -/
set_option autoImplicit false

namespace Sk.Neigh

variable {K : Type} [Field K] [LinearOrder K] [IsStrictOrderedRing K]

/-! ## C42: construction -/

theorem newKDTree_spec {fuel : ℕ} {X : List (List K)} {leafSize m : ℕ} (hm : 0 < m) (hne : X ≠ []) (hX : ∀ row ∈ X, row.length = m) {T : KDTree K}
    (hT : newKDTree fuel X leafSize = some T) :
    T.data = X ∧ T.maxes.length = m ∧ T.mins.length = m ∧ Box X m (List.range X.length) T.maxes T.mins ∧
      T.tree.idx.Perm (List.range X.length) ∧ Cells X m T.tree := by
  rw [newKDTree] at hT
  simp only [Option.bind_eq_bind] at hT
  obtain ⟨t, ht, hT⟩ := Option.bind_eq_some_iff.1 hT
  cases hT
  obtain ⟨h1, h2, h3⟩ := extremes_box X m hne hX
  obtain ⟨h4, h5⟩ := build_ok X (max leafSize 1) m hm fuel _ _ _ t h1 ht
  exact ⟨rfl, h1, h2, h3, h4, h5⟩

/-- **C42** (partial). If no value occurs more than `max(leafSize, 1)` times in a column, `NewKDTree` returns (for any number of allowed nested calls beyond a bound
that depends on the data) a tree whose leaves hold every sample number exactly once, and at every inner node the samples on the left are at most the split
value and those on the right above it.  Without the hypothesis on repeated values the claim is false: `C42_repeated_violated`. -/
theorem C42_build_partial (X : List (List K)) (m : ℕ) (hm : 0 < m) (hne : X ≠ []) (hX : ∀ row ∈ X, row.length = m) (leafSize : ℕ)
    (hties : ∀ d, d < m → ∀ v, (X.filter (fun row => decide (row.getD d 0 = v))).length ≤ max leafSize 1) :
    ∃ bound, ∀ fuel, bound < fuel → ∃ T, newKDTree fuel X leafSize = some T ∧ T.tree.idx.Perm (List.range X.length) ∧ Cells X m T.tree := by
  obtain ⟨h1, h2, h3⟩ := extremes_box X m hne hX
  refine ⟨(List.range X.length).length * (m + 1) + (loose X m (List.range X.length) (extremes (fun a v => decide (a < v)) X)).card, fun fuel hfuel => ?_⟩
  obtain ⟨t, ht⟩ := build_terminates X (max leafSize 1) m hm fuel (List.range X.length) _ _ h1 h2 h3 (by
    intro d hd v
    refine le_trans (le_of_eq ?_) (hties d hd v)
    have e : X = (List.range X.length).map (fun i => X.getD i []) := by
      apply List.ext_getElem
      · simp
      · intro i h1 h2
        simp [h1]
    conv_rhs => rw [e, List.filter_map, List.length_map]
    rfl) hfuel
  have hT : newKDTree fuel X leafSize = some ⟨X, extremes (fun a v => decide (a < v)) X, extremes (fun a v => decide (v < a)) X, t⟩ := by
    rw [newKDTree]
    simp only [Option.bind_eq_bind, ht, Option.bind_some]
    rfl
  obtain ⟨_, _, _, _, h4, h5⟩ := newKDTree_spec hm hne hX hT
  exact ⟨_, hT, h4, h5⟩

/-- **C42** (leaves). In every tree `NewKDTree` returns, a leaf holds at most `max(leafSize, 1)` samples, unless all the samples of that leaf are the same point. -/
theorem C42_leaves (X : List (List K)) (m : ℕ) (hm : 0 < m) (hne : X ≠ []) (hX : ∀ row ∈ X, row.length = m) (leafSize fuel : ℕ) (T : KDTree K)
    (hT : newKDTree fuel X leafSize = some T) :
    ∀ l ∈ leaves T.tree, l.length ≤ max leafSize 1 ∨ ∀ i ∈ l, ∀ j ∈ l, X[i]? = X[j]? := by
  rw [newKDTree] at hT
  simp only [Option.bind_eq_bind] at hT
  obtain ⟨t, ht, hT⟩ := Option.bind_eq_some_iff.1 hT
  cases hT
  obtain ⟨h1, h2, h3⟩ := extremes_box X m hne hX
  intro l hl
  obtain ⟨hin, h | h⟩ := build_leaves X (max leafSize 1) m hm fuel _ _ _ t h1 h2 h3 ht l hl
  · exact Or.inl h
  · refine Or.inr (fun i hi j hj => ?_)
    have hi' := List.mem_range.1 (hin i hi)
    have hj' := List.mem_range.1 (hin j hj)
    rw [List.getElem?_eq_getElem hi', List.getElem?_eq_getElem hj']
    congr 1
    have li := hX _ (List.getElem_mem hi')
    have lj := hX _ (List.getElem_mem hj')
    apply List.ext_getElem (by omega)
    intro d hd hd'
    have := h i hi j hj d (by omega)
    simpa [at', hi', hj', hd, hd'] using this

/-- Five points of two features, three of them the same: with `leafSize` 1 the three share a leaf, and two leaves are empty. -/
example : ((newKDTree 20 [[0, 0], [0, 0], [0, 0], [4, 1], [1, 7]] 1).map (fun T : KDTree ℚ => leaves T.tree)) = some [[0, 1, 2], [], [], [3], [4]] := by
  decide +kernel

/-- **C42 is false with repeated values.** One feature, one sample `a` and `leafSize + 1` (at least two) samples `b > a`: the construction never returns, whatever
the number of nested calls allowed. -/
theorem C42_repeated_violated (a b : K) (hab : a < b) (leafSize n : ℕ) (hn : max leafSize 1 < n) :
    ∀ fuel, newKDTree fuel ([a] :: List.replicate n [b]) leafSize = none := by
  intro fuel
  have hX : ∀ row ∈ ([a] :: List.replicate n [b]), row.length = 1 := by
    intro row hrow
    rcases List.mem_cons.1 hrow with rfl | h
    · rfl
    · rw [List.eq_of_mem_replicate h]
      rfl
  have hmaxes : ∀ n, 0 < n → (List.replicate n [b]).foldl (fun acc row => List.zipWith (fun x v => if decide (x < v) then v else x) acc row) [a] = [b] := by
    intro n hn0
    obtain ⟨n, rfl⟩ : ∃ k, n = k + 1 := ⟨n - 1, by omega⟩
    rw [List.replicate_succ, List.foldl_cons]
    simp only [List.zipWith_cons_cons, List.zipWith_nil_right, hab, decide_true, if_true]
    clear hn hn0 hX
    induction n with
    | zero => rfl
    | succ n ih =>
      rw [List.replicate_succ, List.foldl_cons]
      simpa using ih
  have hmins : ∀ n, (List.replicate n [b]).foldl (fun acc row => List.zipWith (fun x v => if decide (v < x) then v else x) acc row) [a] = [a] := by
    intro n
    induction n with
    | zero => rfl
    | succ n ih =>
      rw [List.replicate_succ, List.foldl_cons]
      simp only [List.zipWith_cons_cons, List.zipWith_nil_right, not_lt.2 hab.le, decide_false, Bool.false_eq_true, if_false]
      exact ih
  have hat0 : at' ([a] :: List.replicate n [b]) 0 0 = a := by simp [at']
  have hat : ∀ i, 1 ≤ i → i < n + 1 → at' ([a] :: List.replicate n [b]) i 0 = b := by
    intro i h1 h2
    obtain ⟨i, rfl⟩ : ∃ k, i = k + 1 := ⟨i - 1, by omega⟩
    have : i < n := by omega
    simp [at', this]
  rw [newKDTree]
  simp only [extremes, hmaxes n (by omega), hmins n, Option.bind_eq_bind]
  have : build ([a] :: List.replicate n [b]) (max leafSize 1) fuel (List.range ([a] :: List.replicate n [b]).length) [b] [a] = none := by
    cases fuel with
    | zero => rfl
    | succ fuel =>
      rw [build, if_neg (by simp; omega)]
      have hw : widest [b] [a] = 0 := by simp [widest, widestFrom]
      simp only [hw, List.getD_cons_zero]
      rw [if_neg (ne_of_gt hab)]
      simp only [List.length_cons, List.length_replicate]
      have hmid1 : a < (b + a) / 2 := by linarith
      have hmid2 : (b + a) / 2 < b := by linarith
      have hl : (lgfill ([a] :: List.replicate n [b]) 0 (List.range (n + 1)) ((b + a) / 2)).1 ≠ [] := by
        apply List.ne_nil_of_mem (a := 0)
        simp only [lgfill, List.mem_filter, List.mem_range, decide_eq_true_eq]
        exact ⟨by omega, by rw [hat0]; exact hmid1.le⟩
      have hg : (lgfill ([a] :: List.replicate n [b]) 0 (List.range (n + 1)) ((b + a) / 2)).2 ≠ [] := by
        apply List.ne_nil_of_mem (a := 1)
        simp only [lgfill, List.mem_filter, List.mem_range, decide_eq_true_eq]
        exact ⟨by omega, by rw [hat 1 (by omega) (by omega)]; exact hmid2⟩
      have hc : chooseSplit ([a] :: List.replicate n [b]) 0 (List.range (n + 1)) b a =
          ((b + a) / 2, lgfill ([a] :: List.replicate n [b]) 0 (List.range (n + 1)) ((b + a) / 2)) := by
        have b1 : (lgfill ([a] :: List.replicate n [b]) 0 (List.range (n + 1)) ((b + a) / 2)).1.isEmpty = false := by simpa using hl
        have b2 : (lgfill ([a] :: List.replicate n [b]) 0 (List.range (n + 1)) ((b + a) / 2)).2.isEmpty = false := by simpa using hg
        simp only [chooseSplit, b1, b2, Bool.false_eq_true, if_false]
      rw [hc]
      simp only [List.set_cons_zero]
      have hgr : build ([a] :: List.replicate n [b]) (max leafSize 1) fuel
          (lgfill ([a] :: List.replicate n [b]) 0 (List.range (n + 1)) ((b + a) / 2)).2 [b] [(b + a) / 2] = none := by
        apply build_loops _ _ _ _ hmid2
        · have hp := (lgfill_perm ([a] :: List.replicate n [b]) 0 (List.range (n + 1)) ((b + a) / 2)).length_eq
          rw [List.length_append, List.length_range] at hp
          have h1 : (lgfill ([a] :: List.replicate n [b]) 0 (List.range (n + 1)) ((b + a) / 2)).1.length ≤ 1 := by
            have hsub : (lgfill ([a] :: List.replicate n [b]) 0 (List.range (n + 1)) ((b + a) / 2)).1 ⊆ [0] := by
              intro i hi
              simp only [lgfill, List.mem_filter, List.mem_range, decide_eq_true_eq] at hi
              rw [List.mem_singleton]
              by_contra hc
              rw [hat i (by omega) hi.1] at hi
              linarith [hi.2]
            have hnd : (lgfill ([a] :: List.replicate n [b]) 0 (List.range (n + 1)) ((b + a) / 2)).1.Nodup := List.nodup_range.filter _
            exact (List.subperm_of_subset hnd hsub).length_le
          omega
        · intro i hi
          simp only [lgfill, List.mem_filter, List.mem_range, decide_eq_true_eq] at hi
          apply hat i _ hi.1
          rcases Nat.eq_zero_or_pos i with rfl | h
          · rw [hat0] at hi
            linarith [hi.2]
          · exact h
      simp only [hgr, Option.bind_eq_bind, Option.bind_none]
      cases build ([a] :: List.replicate n [b]) (max leafSize 1) fuel
          (lgfill ([a] :: List.replicate n [b]) 0 (List.range (n + 1)) ((b + a) / 2)).1 [(b + a) / 2] [a] <;> rfl
  rw [this]
  rfl

example : (0 : ℚ) < 10 ∧ max 1 1 < 2 := by decide +kernel

/-- Seven points of the plane with no repeated coordinate, leaf size 1. -/
example : (newKDTree (K := ℚ) 100 [[1, 4], [5, 5], [9, 2], [3, 7], [4, 1], [2, 6], [0, 0]] 1).map (fun T => T.tree.idx) =
    some [6, 4, 0, 5, 3, 2, 1] := by decide +kernel

/-! ## C41: queries -/

theorem at'_row (X : List (List K)) (i d : ℕ) : at' X i d = (X.getD i []).getD d 0 := rfl

theorem zipWith_getD_eq {m : ℕ} (f : K → K → K) (a b : List K) (ha : a.length = m) (hb : b.length = m) :
    List.zipWith f a b = (List.range m).map (fun j => f (a.getD j 0) (b.getD j 0)) := by
  apply List.ext_getElem
  · simp [ha, hb]
  · intro i h1 h2
    simp only [List.length_zipWith, ha, hb, min_self] at h1
    simp [ha, hb, h1]

theorem foldl_max_ge (l : List K) : ∀ (m : K), m ≤ l.foldl max m ∧ ∀ x ∈ l, x ≤ l.foldl max m := by
  induction l with
  | nil => intro m; simp
  | cons x l ih =>
    intro m
    obtain ⟨h1, h2⟩ := ih (max m x)
    simp only [List.foldl_cons]
    refine ⟨le_trans (le_max_left _ _) h1, ?_⟩
    intro y hy
    rcases List.mem_cons.1 hy with rfl | hy
    · exact le_trans (le_max_right _ _) h1
    · exact h2 y hy

theorem foldl_max_le (l : List K) : ∀ (m c : K), m ≤ c → (∀ x ∈ l, x ≤ c) → l.foldl max m ≤ c := by
  induction l with
  | nil => intro m c h _; exact h
  | cons x l ih =>
    intro m c h hl
    rw [List.forall_mem_cons] at hl
    exact ih _ c (max_le h hl.1) hl.2

/-- Distances (before the root) used by the search: sums of powers, unless there is one feature and `p ≠ 1`. -/
theorem minkP_sum {M : Mink K} (hM : MinkOK M) {m : ℕ} {a b : List K} (ha : a.length = m) (hb : b.length = m) (hinf : M.inf = false)
    (h1 : m ≠ 1 ∨ M.one = true) : minkP M a b = ((List.range m).map (fun j => M.pw |b.getD j 0 - a.getD j 0|)).sum := by
  rw [minkP]
  by_cases hm : a.length = 1
  · rw [if_pos hm]
    have hm1 : m = 1 := by omega
    subst hm1
    have hone : M.one = true := h1.resolve_left (fun h => h rfl)
    simp [hM.pw_one hone _ (abs_nonneg _)]
  · rw [if_neg hm]
    simp only [hinf, Bool.false_eq_true, if_false]
    rw [foldl_add_zero, zipWith_getD_eq (fun x y => M.pw |y - x|) a b ha hb]

theorem minkP_max {M : Mink K} {m : ℕ} {a b : List K} (ha : a.length = m) (hb : b.length = m) (hinf : M.inf = true) :
    ∀ j, j < m → |b.getD j 0 - a.getD j 0| ≤ minkP M a b := by
  intro j hj
  rw [minkP]
  by_cases hm : a.length = 1
  · rw [if_pos hm]
    have : j = 0 := by omega
    rw [this]
  · rw [if_neg hm]
    simp only [hinf, if_true]
    rw [zipWith_getD_eq (fun x y => |y - x|) a b ha hb]
    exact (foldl_max_ge _ 0).2 _ (List.mem_map.2 ⟨j, List.mem_range.2 hj, rfl⟩)

theorem minkP_nonneg {M : Mink K} (hM : MinkOK M) (a b : List K) : 0 ≤ minkP M a b := by
  rw [minkP]
  split
  · exact abs_nonneg _
  · split
    · exact (foldl_max_ge _ 0).1
    · rw [foldl_add_zero]
      apply List.sum_nonneg
      intro x hx
      rw [List.mem_iff_getElem] at hx
      obtain ⟨i, hi, rfl⟩ := hx
      rw [List.getElem_zipWith]
      exact hM.pw_nonneg _ (abs_nonneg _)

/-- A distance computed by the search equals the library's Minkowski distance. -/
theorem root_eq {M : Mink K} (hM : MinkOK M) (a b : List K) : (if M.inf then minkP M a b else M.rt (minkP M a b)) = mink M a b := by
  rw [mink]
  cases hi : M.inf with
  | true => simp
  | false =>
    cases ho : M.one with
    | true => simp [hM.rt_one ho _ (minkP_nonneg hM a b)]
    | false => simp

/-- What the loop guarantees at its end, for any factor `fac` and any bound. -/
theorem query_inv {S : Sorts K} (hS : SortsOK S) {fsort : List (K × ℕ) → List (K × ℕ)} {M : Mink K} (hM : MinkOK M)
    {fuel : ℕ} {X : List (List K)} {leafSize m : ℕ} (hm : 0 < m) (hne : X ≠ []) (hX : ∀ row ∈ X, row.length = m) {T : KDTree K}
    (hT : newKDTree fuel X leafSize = some T) (hdim : m ≠ 1 ∨ M.one = true ∨ M.inf = true) (x : List K) (hx : x.length = m) {k : ℕ} (hk : 0 < k)
    {fac : K} (ub0 : Option K) :
    ∃ (ns : List (K × ℕ)) (ub : Option K) (V P : List ℕ),
      query S fsort M T fac k ub0 x = some ((fsort (ns.map (fun e => (if M.inf then -e.1 else M.rt (-e.1), e.2)))).take k) ∧
      (V ++ P).Perm (List.range X.length) ∧ Inv (fun i => minkP M x (X.getD i [])) k ub0 fac V P ns ub := by
  obtain ⟨rfl, h1, h2, hbox, hperm, hcells⟩ := newKDTree_spec hm hne hX hT
  have hrow : ∀ i, i < T.data.length → (T.data.getD i []).length = m := by
    intro i hi
    have : T.data.getD i [] = T.data[i] := by simp [hi]
    rw [this]
    exact hX _ (List.getElem_mem hi)
  have hds : M.inf = false → ∀ i ∈ List.range T.data.length, minkP M x (T.data.getD i []) =
      ((List.range m).map (fun j => M.pw |at' T.data i j - x.getD j 0|)).sum := by
    intro hinf i hi
    rw [minkP_sum hM hx (hrow i (List.mem_range.1 hi)) hinf (by
      rcases hdim with h | h | h
      · exact Or.inl h
      · exact Or.inr h
      · rw [hinf] at h
        cases h)]
    rfl
  have hinf : M.inf = true → ∀ i ∈ List.range T.data.length, ∀ j, j < m → |at' T.data i j - x.getD j 0| ≤ minkP M x (T.data.getD i []) := by
    intro hinf i hi j hj
    exact minkP_max hx (hrow i (List.mem_range.1 hi)) hinf j hj
  rw [query]
  set side := List.zipWith (fun xj (mm : K × K) => if M.inf then max 0 (max (xj - mm.1) (mm.2 - xj)) else M.pw (max 0 (max (xj - mm.1) (mm.2 - xj))))
    x (T.maxes.zip T.mins) with hside
  have hslen : side.length = m := by
    rw [hside]
    simp [h1, h2, hx]
  have hget : ∀ j, j < m → side.getD j 0 = if M.inf then max 0 (max (x.getD j 0 - T.maxes.getD j 0) (T.mins.getD j 0 - x.getD j 0))
      else M.pw (max 0 (max (x.getD j 0 - T.maxes.getD j 0) (T.mins.getD j 0 - x.getD j 0))) := by
    intro j hj
    rw [List.getD_eq_getElem?_getD, List.getElem?_eq_getElem (by omega), Option.getD_some]
    simp only [hside, List.getElem_zipWith, List.getElem_zip]
    simp [h1, h2, hx, hj]
  have hbd : ∀ i ∈ List.range T.data.length, ∀ j, j < m →
      max 0 (max (x.getD j 0 - T.maxes.getD j 0) (T.mins.getD j 0 - x.getD j 0)) ≤ |at' T.data i j - x.getD j 0| := by
    intro i hi j hj
    obtain ⟨b1, b2⟩ := hbox i hi j hj
    refine max_le (abs_nonneg _) (max_le ?_ ?_)
    · refine le_trans ?_ (neg_le_abs _)
      linarith
    · refine le_trans ?_ (le_abs_self _)
      linarith
  have hsl : M.inf = false → ∀ i ∈ List.range T.data.length, ∀ j, j < m → side.getD j 0 ≤ M.pw |at' T.data i j - x.getD j 0| := by
    intro hb i hi j hj
    rw [hget j hj, hb]
    simp only [Bool.false_eq_true, if_false]
    exact hM.pw_mono _ _ (le_max_left _ _) (hbd i hi j hj)
  set minD := (if M.inf then side.foldl max 0 else side.foldl (· + ·) 0) with hminD
  have hcell : CellOK M T.data m x (fun i => minkP M x (T.data.getD i [])) ⟨minD, side, T.tree⟩ := by
    refine ⟨hcells, ?_, hslen, ?_, fun hb i hi => hsl hb i (hperm.mem_iff.1 hi)⟩
    · intro i hi
      have hi' := hperm.mem_iff.1 hi
      show minD ≤ minkP M x (T.data.getD i [])
      cases hb : M.inf with
      | false =>
        rw [hminD, hb, hds hb i hi']
        simp only [Bool.false_eq_true, if_false]
        rw [foldl_add_zero, sum_range_getD, hslen]
        apply List.sum_le_sum
        intro j hj
        exact hsl hb i hi' j (List.mem_range.1 hj)
      | true =>
        rw [hminD, hb]
        simp only [if_true]
        apply foldl_max_le _ _ _ (minkP_nonneg hM _ _)
        intro v hv
        obtain ⟨j, hj, rfl⟩ := List.mem_iff_getElem.1 hv
        have hj' : j < m := by omega
        have e : side[j] = side.getD j 0 := by simp [hj]
        rw [e, hget j hj', hb]
        simp only [if_true]
        exact le_trans (hbd i hi' j hj') (hinf hb i hi' j hj')
    · intro hb
      show minD = side.sum
      rw [hminD, hb]
      simp only [Bool.false_eq_true, if_false]
      rw [foldl_add_zero]
  obtain ⟨ns, ub, V, P, e, hp, hI⟩ := queryLoop_inv hS hM hk (ub0 := ub0) (fac := fac) (List.range T.data.length) List.nodup_range hds hinf T.tree.size
    [⟨minD, side, T.tree⟩] [] ub0 [] [] (by simp [qsize]) (by simpa using hcell) (by simp) (by simpa using hperm)
    ⟨by simp, by simp, by simp, by simp, by intro h; simp at h; omega, fun b hb => Or.inl hb, by simp⟩
  refine ⟨ns, ub, V, P, ?_, hp, hI⟩
  simp only [Option.bind_eq_bind]
  rw [e, Option.bind_some]
  rfl

/-- In a sorted list, if at least `k` entries are at most `t` then the first `k` are. -/
theorem take_count {D : Type} [LinearOrder D] (l : List (D × ℕ)) (t : D) : ∀ (k : ℕ), l.Pairwise (fun a b => a.1 ≤ b.1) →
    k ≤ l.countP (fun e => decide (e.1 ≤ t)) → ∀ e ∈ l.take k, e.1 ≤ t := by
  induction l with
  | nil => intro k _ _ e he; simp at he
  | cons a l ih =>
    intro k ho hk e he
    rw [List.pairwise_cons] at ho
    cases k with
    | zero => simp at he
    | succ k =>
      by_cases ha : a.1 ≤ t
      · rw [List.countP_cons_of_pos (by simpa using ha)] at hk
        rw [List.take_succ_cons] at he
        rcases List.mem_cons.1 he with rfl | he
        · exact ha
        · exact ih k ho.2 (by omega) e he
      · rw [List.countP_cons_of_neg (by simpa using ha)] at hk
        have : l.countP (fun e => decide (e.1 ≤ t)) = 0 := by
          rw [List.countP_eq_zero]
          intro b hb
          rw [decide_eq_true_eq]
          exact fun h => ha (le_trans (ho.1 b hb) h)
        omega

/-- The list returned by a query, in terms of the candidates left at the end of the loop. -/
theorem final_list {M : Mink K} (hM : MinkOK M) {x : List K} {X : List (List K)} {k : ℕ} {ub0 : Option K} {fac : K} {V P : List ℕ} {ns : List (K × ℕ)}
    {ub : Option K} {fsort : List (K × ℕ) → List (K × ℕ)} (hf : SortsAsc Prod.fst fsort)
    (hp : (V ++ P).Perm (List.range X.length)) (hI : Inv (fun i => minkP M x (X.getD i [])) k ub0 fac V P ns ub) :
    let L := fsort (ns.map (fun e => (if M.inf then -e.1 else M.rt (-e.1), e.2)))
    L.length = ns.length ∧ (L.map Prod.snd).Perm (ns.map Prod.snd) ∧ (L.map Prod.snd).Nodup ∧
      (∀ e ∈ L, e.2 < X.length ∧ e.1 = mink M x (X.getD e.2 [])) ∧ L.Pairwise (fun a b => a.1 ≤ b.1) ∧
      ∀ t c, 0 ≤ t → k ≤ cnt ns t → (if M.inf then t else M.rt t) ≤ c → ∀ e ∈ L.take k, e.1 ≤ c := by
  intro L
  obtain ⟨hL1, hL2⟩ := hf (ns.map (fun e => (if M.inf then -e.1 else M.rt (-e.1), e.2)))
  have hsnd : (L.map Prod.snd).Perm (ns.map Prod.snd) := by
    have := hL1.map Prod.snd
    rwa [List.map_map] at this
  have hval : ∀ e ∈ ns, -e.1 = minkP M x (X.getD e.2 []) := by
    intro e he
    rw [(hI.mem e he).2, neg_neg]
  refine ⟨?_, hsnd, hsnd.nodup_iff.2 hI.nodup, ?_, hL2, ?_⟩
  · rw [hL1.length_eq, List.length_map]
  · intro e he
    obtain ⟨a, ha, rfl⟩ := List.mem_map.1 (hL1.mem_iff.1 he)
    refine ⟨List.mem_range.1 (hp.mem_iff.1 (List.mem_append_left _ (hI.mem a ha).1)), ?_⟩
    simp only
    rw [hval a ha, root_eq hM]
  · intro t c ht hcnt htc
    apply take_count L c k hL2
    refine le_trans hcnt ?_
    rw [hL1.countP_eq, List.countP_map, cnt]
    apply List.countP_mono_left
    intro e he h
    rw [decide_eq_true_eq] at h
    have h0 : 0 ≤ -e.1 := by
      rw [hval e he]
      exact minkP_nonneg hM _ _
    simp only [Function.comp, decide_eq_true_eq]
    refine le_trans ?_ htc
    cases M.inf with
    | true => simpa using h
    | false => simpa using hM.rt_mono _ _ h0 h

/-- **C41** (partial). For data with at least two features, or with `p = 1` or `p = ∞`, and `1 ≤ k ≤ n`, a query of a constructed kd-tree with `eps = 0` and no
bound returns `k` nearest samples for the Minkowski distance of the library: the same distances as the exhaustive search (`C41_same_as_brute`).
The claim fails for one feature with another `p`, see `C41_one_feature_violated`. -/
theorem C41_query_partial {S : Sorts K} (hS : SortsOK S) {fsort : List (K × ℕ) → List (K × ℕ)} (hf : SortsAsc Prod.fst fsort) {M : Mink K} (hM : MinkOK M)
    {fuel : ℕ} {X : List (List K)} {leafSize m : ℕ} (hm : 0 < m) (hX : ∀ row ∈ X, row.length = m) {T : KDTree K}
    (hT : newKDTree fuel X leafSize = some T) (hdim : m ≠ 1 ∨ M.one = true ∨ M.inf = true) (x : List K) (hx : x.length = m) {k : ℕ} (hk : 0 < k)
    (hkn : k ≤ X.length) :
    ∃ r, query S fsort M T 1 k none x = some r ∧ KNearest (fun i => mink M x (X.getD i [])) X.length k r := by
  have hne : X ≠ [] := by
    rintro rfl
    simp at hkn
    omega
  obtain ⟨ns, ub, V, P, hq, hp, hI⟩ := query_inv hS (fsort := fsort) hM hm hne hX hT hdim x hx hk (fac := 1) none
  obtain ⟨g1, g2, g3, g4, g5, g6⟩ := final_list hM hf hp hI
  refine ⟨_, hq, ?_⟩
  set L := fsort (ns.map (fun e => (if M.inf then -e.1 else M.rt (-e.1), e.2))) with hL
  have hlen : k ≤ L.length := by
    by_contra hc
    rw [g1] at hc
    have hno : ∀ t, ¬ k ≤ cnt ns t := fun t h => hc (le_trans h (cnt_le ns t))
    have hP : P = [] := by
      cases P with
      | nil => rfl
      | cons p P =>
        obtain ⟨b, _, hb⟩ := hI.pruned p List.mem_cons_self
        rcases hb with hb | hb
        · cases hb
        · exact absurd hb (hno _)
    have hsub : List.range X.length ⊆ ns.map Prod.snd := by
      intro i hi
      have hiV := hp.mem_iff.2 hi
      rw [hP, List.append_nil] at hiV
      exact (hI.dropped i hiV).resolve_right (hno _)
    have := (List.subperm_of_subset List.nodup_range hsub).length_le
    rw [List.length_range, List.length_map] at this
    omega
  refine ⟨by rw [List.length_take]; omega, ?_, fun e he => g4 e (List.mem_of_mem_take he), g5.sublist (List.take_sublist _ _), ?_⟩
  · exact g3.sublist ((List.take_sublist _ _).map _)
  · intro i hi hnot e he
    have hiVP := hp.mem_iff.2 (List.mem_range.2 hi)
    have key : i ∈ ns.map Prod.snd ∨ ∃ t, 0 ≤ t ∧ k ≤ cnt ns t ∧ t ≤ minkP M x (X.getD i []) := by
      rcases List.mem_append.1 hiVP with hV | hP
      · rcases hI.dropped i hV with h | h
        · exact Or.inl h
        · exact Or.inr ⟨_, minkP_nonneg hM _ _, h, le_refl _⟩
      · obtain ⟨b, hb1, hb2⟩ := hI.pruned i hP
        rw [mul_one] at hb1
        have hb2 := hb2.resolve_left (by simp)
        exact Or.inr ⟨_, minkP_nonneg hM _ _, le_trans hb2 (List.countP_mono_left (fun a _ h => by
          rw [decide_eq_true_eq] at h ⊢
          exact le_trans h hb1.le)), le_refl _⟩
    rcases key with h | ⟨t, ht0, hcnt, ht⟩
    · have hiL := g2.mem_iff.2 h
      rw [← List.take_append_drop k L, List.map_append, List.mem_append] at hiL
      obtain ⟨a, ha, rfl⟩ := List.mem_map.1 (hiL.resolve_left hnot)
      have h5 := g5
      rw [← List.take_append_drop k L, List.pairwise_append] at h5
      have := h5.2.2 e he a ha
      rwa [(g4 a (List.mem_of_mem_drop ha)).2] at this
    · apply g6 t _ ht0 hcnt _ e he
      rw [← root_eq hM]
      cases M.inf with
      | true => simpa using ht
      | false => simpa using hM.rt_mono _ _ ht0 ht

/-- **C41** (partial), against the exhaustive search: under the same hypotheses the distances returned by the tree are those returned by the exhaustive
search, in the same order.
Missing for the full claim: what `C41_one_feature_violated` refutes. -/
theorem C41_same_as_brute_partial {S : Sorts K} (hS : SortsOK S) {fsort bsort : List (K × ℕ) → List (K × ℕ)} (hf : SortsAsc Prod.fst fsort)
    (hb : SortsAsc Prod.fst bsort) {M : Mink K} (hM : MinkOK M)
    {fuel : ℕ} {X : List (List K)} {leafSize m : ℕ} (hm : 0 < m) (hX : ∀ row ∈ X, row.length = m) {T : KDTree K}
    (hT : newKDTree fuel X leafSize = some T) (hdim : m ≠ 1 ∨ M.one = true ∨ M.inf = true) (x : List K) (hx : x.length = m) {k : ℕ} (hk : 0 < k)
    (hkn : k ≤ X.length) :
    ∃ r r', query S fsort M T 1 k none x = some r ∧ kNeighbors bsort (mink M) X k x = some r' ∧ r.map Prod.fst = r'.map Prod.fst := by
  obtain ⟨r, h1, h2⟩ := C41_query_partial hS hf hM hm hX hT hdim x hx hk hkn
  obtain ⟨r', h3, h4⟩ := (C39_kneighbors (mink M) X x bsort hb k).1 hkn
  exact ⟨r, r', h1, h3, h2.unique h4⟩

/-- **C40** for the tree (partial). Under the same restriction on the number of features, `RadiusNeighbors` with a tree returns exactly the samples within the
radius (boundary included), each once and with its distance.
Missing for the full claim: one feature with a power other than 1, where the distances themselves are wrong (`C41_one_feature_violated`, C43). -/
theorem C40_tree_partial {S : Sorts K} (hS : SortsOK S) {fsort : List (K × ℕ) → List (K × ℕ)} (hf : SortsAsc Prod.fst fsort) {M : Mink K} (hM : MinkOK M)
    {fuel : ℕ} {X : List (List K)} {leafSize m : ℕ} (hm : 0 < m) (hne : X ≠ []) (hX : ∀ row ∈ X, row.length = m) {T : KDTree K}
    (hT : newKDTree fuel X leafSize = some T) (hdim : m ≠ 1 ∨ M.one = true ∨ M.inf = true) (x : List K) (hx : x.length = m)
    {radius : K} (hr : 0 ≤ radius) :
    ∃ r, treeRadius S fsort M T radius x = some r ∧ Within (fun i => mink M x (X.getD i [])) X.length radius r := by
  have hn : 0 < X.length := List.length_pos_iff.2 hne
  have hTd : T.data = X := (newKDTree_spec hm hne hX hT).1
  set b0 := (if !M.inf && !M.one then M.pw radius else radius) with hb0
  obtain ⟨ns, ub, V, P, hq, hp, hI⟩ := query_inv hS (fsort := fsort) hM hm hne hX hT hdim x hx hn (fac := 1) (some b0)
  obtain ⟨g1, g2, g3, g4, g5, g6⟩ := final_list hM hf hp hI
  rw [treeRadius]
  simp only [hTd, ← hb0, hq, Option.map_some]
  refine ⟨_, rfl, ?_⟩
  set L := fsort (ns.map (fun e => (if M.inf then -e.1 else M.rt (-e.1), e.2))) with hL
  have hnV : ns.map Prod.snd ⊆ V := by
    intro i hi
    obtain ⟨e, he, rfl⟩ := List.mem_map.1 hi
    exact (hI.mem e he).1
  have hVP : (V ++ P).Nodup := hp.nodup_iff.2 List.nodup_range
  have hlV : ns.length ≤ V.length := by
    have := (List.subperm_of_subset hI.nodup hnV).length_le
    rwa [List.length_map] at this
  have hlVP : V.length + P.length = X.length := by
    have := hp.length_eq
    rwa [List.length_append, List.length_range] at this
  have htake : L.take X.length = L := List.take_of_length_le (by rw [g1]; omega)
  have hall : ∀ t, X.length ≤ cnt ns t → ∀ i, i < X.length → i ∈ ns.map Prod.snd := by
    intro t ht i hi
    have h1 : X.length ≤ ns.length := le_trans ht (cnt_le ns t)
    have hsub : (ns.map Prod.snd).Subperm (List.range X.length) := List.subperm_of_subset hI.nodup (by
      intro j hj
      exact hp.mem_iff.1 (List.mem_append_left _ (hnV hj)))
    have := hsub.perm_of_length_le (by rw [List.length_range, List.length_map]; exact h1)
    exact this.mem_iff.2 (List.mem_range.2 hi)
  rw [htake]
  refine ⟨g3.sublist ((List.filter_sublist).map _), fun e he => (g4 e (List.mem_filter.1 he).1).2, ?_⟩
  intro i
  constructor
  · intro hi
    obtain ⟨e, he, rfl⟩ := List.mem_map.1 hi
    obtain ⟨h1, h2⟩ := List.mem_filter.1 he
    obtain ⟨h3, h4⟩ := g4 e h1
    rw [decide_eq_true_eq, h4] at h2
    exact ⟨h3, h2⟩
  · rintro ⟨hi, hd⟩
    have hin : i ∈ ns.map Prod.snd := by
      rcases List.mem_append.1 (hp.mem_iff.2 (List.mem_range.2 hi)) with hV | hP
      · rcases hI.dropped i hV with h | h
        · exact h
        · exact hall _ h i hi
      · obtain ⟨b, hb1, hb2⟩ := hI.pruned i hP
        rcases hb2 with hb2 | hb2
        · exfalso
          rw [mul_one] at hb1
          cases hb2
          have h0 := minkP_nonneg hM x (X.getD i [])
          have hd' : mink M x (X.getD i []) ≤ radius := hd
          rw [mink] at hd'
          rw [hb0] at hb1
          cases hc : (!M.inf && !M.one) with
          | false =>
            simp only [hc, Bool.false_eq_true, if_false] at hd' hb1
            exact absurd hd' (not_le.2 hb1)
          | true =>
            simp only [hc, if_true] at hd' hb1
            have := hM.pw_mono _ _ (hM.rt_nonneg _ h0) hd'
            rw [hM.pw_rt _ h0] at this
            exact absurd this (not_le.2 hb1)
        · exact hall _ hb2 i hi
    obtain ⟨e, he, rfl⟩ := List.mem_map.1 (g2.mem_iff.2 hin)
    refine List.mem_map.2 ⟨e, List.mem_filter.2 ⟨he, ?_⟩, rfl⟩
    rw [decide_eq_true_eq, (g4 e he).2]
    exact hd

/-! ## Approximate queries -/

/-- **C41**, approximate queries (partial, same restriction). With a positive factor `fac ≤ 1` (`1 / (1 + eps)^p`), no sample left out is closer than any listed one
by more than that factor: `pw` of a listed distance, times `fac`, is at most the `p`-th power sum of every sample left out.  (`pw` is dropped for `p = ∞`.) -/
theorem query_eps {S : Sorts K} (hS : SortsOK S) {fsort : List (K × ℕ) → List (K × ℕ)} (hf : SortsAsc Prod.fst fsort) {M : Mink K} (hM : MinkOK M)
    {fuel : ℕ} {X : List (List K)} {leafSize m : ℕ} (hm : 0 < m) (hX : ∀ row ∈ X, row.length = m) {T : KDTree K}
    (hT : newKDTree fuel X leafSize = some T) (hdim : m ≠ 1 ∨ M.one = true ∨ M.inf = true) (x : List K) (hx : x.length = m) {k : ℕ} (hk : 0 < k)
    (hkn : k ≤ X.length) {fac : K} (hfac : 0 < fac) (hfac1 : fac ≤ 1) :
    ∃ r, query S fsort M T fac k none x = some r ∧ r.length = k ∧ (r.map Prod.snd).Nodup ∧
      (∀ e ∈ r, e.2 < X.length ∧ e.1 = mink M x (X.getD e.2 [])) ∧ r.Pairwise (fun a b => a.1 ≤ b.1) ∧
      ∀ i, i < X.length → i ∉ r.map Prod.snd → ∀ e ∈ r, e.1 ≤ (if M.inf then minkP M x (X.getD i []) / fac else M.rt (minkP M x (X.getD i []) / fac)) := by
  have hne : X ≠ [] := by
    rintro rfl
    simp at hkn
    omega
  obtain ⟨ns, ub, V, P, hq, hp, hI⟩ := query_inv hS (fsort := fsort) hM hm hne hX hT hdim x hx hk (fac := fac) none
  obtain ⟨g1, g2, g3, g4, g5, g6⟩ := final_list hM hf hp hI
  refine ⟨_, hq, ?_⟩
  set L := fsort (ns.map (fun e => (if M.inf then -e.1 else M.rt (-e.1), e.2))) with hL
  have hlen : k ≤ L.length := by
    by_contra hc
    rw [g1] at hc
    have hno : ∀ t, ¬ k ≤ cnt ns t := fun t h => hc (le_trans h (cnt_le ns t))
    have hP : P = [] := by
      cases P with
      | nil => rfl
      | cons p P =>
        obtain ⟨b, _, hb⟩ := hI.pruned p List.mem_cons_self
        rcases hb with hb | hb
        · cases hb
        · exact absurd hb (hno _)
    have hsub : List.range X.length ⊆ ns.map Prod.snd := by
      intro i hi
      have hiV := hp.mem_iff.2 hi
      rw [hP, List.append_nil] at hiV
      exact (hI.dropped i hiV).resolve_right (hno _)
    have := (List.subperm_of_subset List.nodup_range hsub).length_le
    rw [List.length_range, List.length_map] at this
    omega
  have hge : ∀ v, 0 ≤ v → v ≤ v / fac := fun v hv => by
    rw [le_div_iff₀ hfac]
    exact mul_le_of_le_one_right hv hfac1
  refine ⟨by rw [List.length_take]; omega, g3.sublist ((List.take_sublist _ _).map _), fun e he => g4 e (List.mem_of_mem_take he),
    g5.sublist (List.take_sublist _ _), ?_⟩
  intro i hi hnot e he
  have hiVP := hp.mem_iff.2 (List.mem_range.2 hi)
  have h0 := minkP_nonneg hM x (X.getD i [])
  have key : i ∈ ns.map Prod.snd ∨ k ≤ cnt ns (minkP M x (X.getD i []) / fac) := by
    rcases List.mem_append.1 hiVP with hV | hP
    · refine (hI.dropped i hV).imp id (fun h => le_trans h (List.countP_mono_left (fun a _ h => ?_)))
      rw [decide_eq_true_eq] at h ⊢
      exact le_trans h (hge _ h0)
    · obtain ⟨b, hb1, hb2⟩ := hI.pruned i hP
      have hb2 := hb2.resolve_left (by simp)
      refine Or.inr (le_trans hb2 (List.countP_mono_left (fun a _ h => ?_)))
      rw [decide_eq_true_eq] at h ⊢
      refine le_trans h ?_
      rw [le_div_iff₀ hfac]
      exact hb1.le
  rcases key with h | hcnt
  · have hiL := g2.mem_iff.2 h
    rw [← List.take_append_drop k L, List.map_append, List.mem_append] at hiL
    obtain ⟨a, ha, rfl⟩ := List.mem_map.1 (hiL.resolve_left hnot)
    have h5 := g5
    rw [← List.take_append_drop k L, List.pairwise_append] at h5
    have := h5.2.2 e he a ha
    rw [(g4 a (List.mem_of_mem_drop ha)).2, ← root_eq hM] at this
    refine le_trans this ?_
    cases M.inf with
    | true => simpa using hge _ h0
    | false => simpa using hM.rt_mono _ _ h0 (hge _ h0)
  · exact g6 _ _ (le_trans h0 (hge _ h0)) hcnt (le_refl _) e he

/-! ## Real distances, and what goes wrong with one feature -/

theorem rp_ok (p : ℝ) (hp : 0 < p) : MinkOK (rp p) where
  pw_nonneg := fun t ht => Real.rpow_nonneg ht p
  pw_mono := fun s t hs hst => Real.rpow_le_rpow hs hst hp.le
  rt_nonneg := fun t ht => Real.rpow_nonneg ht _
  rt_mono := fun s t hs hst => Real.rpow_le_rpow hs hst (by positivity)
  pw_rt := fun t ht => by
    show (t ^ (1 / p)) ^ p = t
    rw [← Real.rpow_mul ht, one_div, inv_mul_cancel₀ hp.ne', Real.rpow_one]
  pw_one := fun h t _ => by
    have : p = 1 := by simpa [rp] using h
    simp [rp, this]
  rt_one := fun h t _ => by
    have : p = 1 := by simpa [rp] using h
    simp [rp, this]

theorem rinf_ok : MinkOK rinf where
  pw_nonneg := fun t ht => ht
  pw_mono := fun s t _ h => h
  rt_nonneg := fun t ht => ht
  rt_mono := fun s t _ h => h
  pw_rt := fun t _ => rfl
  pw_one := fun h => by cases h
  rt_one := fun h => by cases h

/-- `epsfac`, /repo/neighbors/kdtree.go:350-357, for finite `p`. -/
noncomputable def epsfac (p eps : ℝ) : ℝ := if eps = 0 then 1 else 1 / (1 + eps) ^ p

/-- **C41** for real data, finite `p` and any `eps ≥ 0` (partial: more than one feature or `p = 1`): the query returns `k` distinct samples with their distances in
increasing order, and every sample left out is at distance at least `1/(1+eps)` times that of every sample returned.
Missing for the full claim: what `C41_one_feature_violated` refutes. -/
theorem C41_eps_partial {S : Sorts ℝ} (hS : SortsOK S) {fsort : List (ℝ × ℕ) → List (ℝ × ℕ)} (hf : SortsAsc Prod.fst fsort) {p : ℝ} (hp : 0 < p)
    {fuel : ℕ} {X : List (List ℝ)} {leafSize m : ℕ} (hm : 0 < m) (hX : ∀ row ∈ X, row.length = m) {T : KDTree ℝ}
    (hT : newKDTree fuel X leafSize = some T) (hdim : m ≠ 1 ∨ p = 1) (x : List ℝ) (hx : x.length = m) {k : ℕ} (hk : 0 < k)
    (hkn : k ≤ X.length) {eps : ℝ} (heps : 0 ≤ eps) :
    ∃ r, query S fsort (rp p) T (epsfac p eps) k none x = some r ∧ r.length = k ∧ (r.map Prod.snd).Nodup ∧
      (∀ e ∈ r, e.2 < X.length ∧ e.1 = mink (rp p) x (X.getD e.2 [])) ∧ r.Pairwise (fun a b => a.1 ≤ b.1) ∧
      ∀ i, i < X.length → i ∉ r.map Prod.snd → ∀ e ∈ r, e.1 ≤ (1 + eps) * mink (rp p) x (X.getD i []) := by
  have h1e : (1 : ℝ) ≤ 1 + eps := by linarith
  have hpow : (1 : ℝ) ≤ (1 + eps) ^ p := Real.one_le_rpow h1e hp.le
  have hfac : epsfac p eps = 1 / (1 + eps) ^ p := by
    rw [epsfac]
    split
    · rename_i h
      simp [h]
    · rfl
  have hpos : 0 < epsfac p eps := by
    rw [hfac]
    positivity
  have hle : epsfac p eps ≤ 1 := by
    rw [hfac, div_le_one (by linarith)]
    exact hpow
  obtain ⟨r, h1, h2, h3, h4, h5, h6⟩ := query_eps hS hf (rp_ok p hp) hm hX hT (hdim.imp id (fun h => Or.inl (by simp [rp, h]))) x hx hk hkn hpos hle
  refine ⟨r, h1, h2, h3, h4, h5, fun i hi hn e he => le_trans (h6 i hi hn e he) (le_of_eq ?_)⟩
  rw [← root_eq (rp_ok p hp)]
  have h0 := minkP_nonneg (rp_ok p hp) x (X.getD i [])
  have hi : (rp p).inf = false := rfl
  simp only [hi, Bool.false_eq_true, if_false]
  show (minkP (rp p) x (X.getD i []) / epsfac p eps) ^ (1 / p) = (1 + eps) * (minkP (rp p) x (X.getD i [])) ^ (1 / p)
  rw [hfac, div_div_eq_mul_div, div_one, Real.mul_rpow h0 (by positivity), ← Real.rpow_mul (by linarith), one_div, mul_inv_cancel₀ hp.ne', Real.rpow_one,
    mul_comm]

/-- Euclidean distance without the root, on rational numbers; used in concrete cases, where only the order of the candidates matters. -/
def sq : Mink ℚ := ⟨false, false, fun t => t * t, id⟩

def insSorts : Sorts ℚ := ⟨insAsc QEle.minD, insAsc Prod.fst⟩

theorem insSorts_ok : SortsOK insSorts := ⟨insAsc_ok _, insAsc_ok _⟩

/-- **C41**, `k = 0`: a query of a constructed tree for no neighbour panics, whatever the data (the exhaustive search returns nothing). -/
theorem C41_zero_violated {S : Sorts K} (hS : SortsOK S) (fsort : List (K × ℕ) → List (K × ℕ)) (M : Mink K) {fuel : ℕ} {X : List (List K)} {leafSize m : ℕ} (hm : 0 < m) (hne : X ≠ []) (hX : ∀ row ∈ X, row.length = m)
    {T : KDTree K} (hT : newKDTree fuel X leafSize = some T) (epsfac : K) (x : List K) : query S fsort M T epsfac 0 none x = none := by
  have key : ∀ (ds : ℕ → K) (fuel : ℕ) (q : List (QEle K)), (∃ e ∈ q, e.node.idx ≠ []) → queryLoop S M epsfac 0 x ds fuel q [] none = none := by
    intro ds fuel
    induction fuel with
    | zero =>
      rintro (_ | ⟨e, q⟩) ⟨e', he', _⟩
      · simp at he'
      · rfl
    | succ fuel ih =>
      rintro (_ | ⟨e, q⟩) ⟨e', he', hi⟩
      · simp at he'
      · obtain ⟨minD, side, node⟩ := e
        cases node with
        | leaf idx =>
          cases idx with
          | cons i idx => rfl
          | nil =>
            show queryLoop S M epsfac 0 x ds fuel q [] none = none
            refine ih q ⟨e', ?_, hi⟩
            rcases List.mem_cons.1 he' with h | h
            · subst h
              exact absurd rfl hi
            · exact h
        | inner dim split less greater =>
          rw [queryLoop]
          refine (if_neg (by simp [leBound])).trans ?_
          refine ih _ ?_
          have mem : ∀ (q : List (QEle K)) (a b : QEle K), a ∈ qPush S q b ↔ a ∈ q ∨ a = b := by
            intro q a b
            rw [(qPush_ok hS q b).1.mem_iff]
            simp
          rcases List.mem_cons.1 he' with h | h
          · subst h
            have hlg : less.idx ≠ [] ∨ greater.idx ≠ [] := by
              by_contra hh
              push Not at hh
              exact hi (by simp [Node.idx, hh.1, hh.2])
            simp only [leBound, Option.map_none, if_true]
            by_cases hx : x.getD dim 0 < split
            · rcases hlg with hl | hl
              · exact ⟨_, (mem _ _ _).2 (Or.inl ((mem _ _ _).2 (Or.inr rfl))), by simp only [hx, if_true, if_false]; exact hl⟩
              · exact ⟨_, (mem _ _ _).2 (Or.inr rfl), by simp only [hx, if_true, if_false]; exact hl⟩
            · rcases hlg with hl | hl
              · exact ⟨_, (mem _ _ _).2 (Or.inr rfl), by simp only [hx, if_true, if_false]; exact hl⟩
              · exact ⟨_, (mem _ _ _).2 (Or.inl ((mem _ _ _).2 (Or.inr rfl))), by simp only [hx, if_true, if_false]; exact hl⟩
          · simp only [leBound, Option.map_none, if_true]
            exact ⟨e', (mem _ _ _).2 (Or.inl ((mem _ _ _).2 (Or.inl h))), hi⟩
  obtain ⟨-, -, -, -, hp, -⟩ := newKDTree_spec hm hne hX hT
  rw [query]
  simp only [Option.bind_eq_bind]
  rw [key _ _ _ ⟨_, List.mem_singleton_self _, ?_⟩]
  · rfl
  · intro h
    rw [h] at hp
    have := hp.length_eq
    simp at this
    exact hne (List.length_eq_zero_iff.1 this.symm)

/-- **C41 is false with one feature.** Samples 10, 0 and 4, leaf size 1, query 6.9, `k = 1`, `p = 2`: the tree answers with sample 0 (10, at 3.1) although sample 2
(4) is at 2.9: the cell of samples 1 and 2 is discarded because its squared distance is compared with the distances of the samples, which are not
squared when there is one feature. -/
theorem C41_one_feature_violated :
    ((newKDTree 10 [[10], [0], [4]] 1).bind (fun T => query insSorts (insAsc Prod.fst) sq T 1 1 none [69 / 10])) = some [(31 / 10, 0)] ∧
      mink sq [69 / 10] [4] < mink sq [69 / 10] [10] := by
  decide +kernel

/-- Two features: the three samples nearest to (3, 3) among seven. -/
example : ((newKDTree 100 [[1, 4], [5, 5], [9, 2], [3, 7], [4, 1], [2, 6], [0, 0]] 1).bind
    (fun T => query insSorts (insAsc Prod.fst) sq T 1 3 none [3, 3])) = some [(5, 4), (5, 0), (8, 1)] := by decide +kernel

example : ((newKDTree 100 [[1, 4], [5, 5], [9, 2], [3, 7], [4, 1], [2, 6], [0, 0]] 1).bind
    (fun T => treeRadius insSorts (insAsc Prod.fst) ⟨false, true, id, id⟩ T 4 [3, 3])) = some [(3, 4), (3, 0), (4, 3), (4, 1), (4, 5)] := by decide +kernel

/-- The hypotheses on a Minkowski parameter are met by real powers. -/
example : MinkOK (rp 2) := rp_ok 2 (by norm_num)

end Sk.Neigh
