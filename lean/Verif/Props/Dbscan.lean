import Verif.Lemmas.Dbscan
import Verif.Props.Neighbors
import Verif.Props.KDTree

/-! # C32, C33, C76: DBSCAN -/
set_option autoImplicit false

namespace Sk.Dbscan

open Sk.Neigh

/-! ## C32: the search on an abstract neighbourhood relation -/

/-- **C32**, on every neighbourhood relation. For `n` samples with any core flags and any neighbour lists within range in which neighbourhood between core samples is
mutual, `dbscanInner` returns (no panic, no endless loop), and its labels are the density clustering. -/
theorem C32_inner {isCore : List Bool} {nbh : List (List ℕ)} {n : ℕ} (hc : isCore.length = n) (hn : nbh.length = n)
    (hin : ∀ i, i < n → ∀ j ∈ nbh.getD i [], j < n)
    (hsym : ∀ i j, i < n → j < n → isCore.getD i false = true → isCore.getD j false = true → j ∈ nbh.getD i [] → i ∈ nbh.getD j []) :
    ∃ l k, dbscanInner isCore nbh (List.replicate n (-1)) = some l ∧ l.length = n ∧
      Clustering n (fun i => isCore.getD i false = true) (fun i j => j ∈ nbh.getD i []) (fun i => l.getD i (-1)) k :=
  inner_ok hc hn hin hsym

/-- Two chains, one sample at the border of one of them and one noise sample. -/
example : dbscanInner [true, false, true, true, false, true] [[0, 2], [1, 3], [0, 2], [1, 3, 5], [4], [3, 5]] (List.replicate 6 (-1)) =
    some [0, 1, 0, 1, -1, 1] := by decide

/-! ## C32 and C33: `Fit` on data -/

variable {K : Type} [Field K] [LinearOrder K] [IsStrictOrderedRing K] {V D : Type} [LinearOrder D]

/-- Sample `j` is in the neighbourhood of sample `i`: at distance at most `eps`. -/
def Near [Inhabited V] (dist : V → V → D) (eps : D) (X : List V) (i j : ℕ) : Prop := j < X.length ∧ dist (X.getD i default) (X.getD j default) ≤ eps

/-- Weight of a sample; 1 without weights. -/
def weightOf (weight : Option (List K)) (j : ℕ) : K :=
  match weight with
  | none => 1
  | some w => w.getD j 0

/-- Weight of the neighbourhood of sample `i`. -/
def density [Inhabited V] (dist : V → V → D) (eps : D) (weight : Option (List K)) (X : List V) (i : ℕ) : K :=
  (((List.range X.length).filter (fun j => decide (dist (X.getD i default) (X.getD j default) ≤ eps))).map
    (weightOf weight)).sum

theorem mapM_some {α β : Type} (f : α → Option β) (g : α → β) (l : List α) (h : ∀ a ∈ l, f a = some (g a)) : l.mapM f = some (l.map g) := by
  induction l with
  | nil => rfl
  | cons a l ih =>
    rw [List.forall_mem_cons] at h
    rw [List.mapM_cons, h.1, ih h.2]
    rfl

theorem nNeighbors_eq (weight : Option (List K)) (nb : List ℕ) (h : ∀ w, weight = some w → ∀ v ∈ nb, v < w.length) :
    nNeighbors weight nb = some ((nb.map (weightOf weight)).sum) := by
  cases weight with
  | none =>
    have : weightOf (none : Option (List K)) = fun _ => 1 := rfl
    simp [nNeighbors, this]
  | some w =>
    have hw := h w rfl
    have key : ∀ (nb : List ℕ) (s : K), (∀ v ∈ nb, v < w.length) →
        nb.foldlM (fun s v => (w[v]?).map (fun x => s + x)) s = some (s + (nb.map (fun j => w.getD j 0)).sum) := by
      intro nb
      induction nb with
      | nil => intro s _; simp
      | cons a nb ih =>
        intro s hv
        rw [List.forall_mem_cons] at hv
        have e : w[a]? = some (w.getD a 0) := by simp [hv.1]
        rw [List.foldlM_cons, e]
        simp only [Option.map_some, Option.bind_eq_bind, Option.bind_some]
        rw [ih _ hv.2, List.map_cons, List.sum_cons, add_assoc]
    rw [nNeighbors]
    have h0 := key nb 0 hw
    rw [zero_add] at h0
    exact h0

variable [Inhabited V]

/-- What follows the search of neighbours, for every exact search. -/
theorem fitOn_spec (search : V → Option (List (D × ℕ))) (dist : V → V → D) (eps : D)
    (minSamples : K) (weight : Option (List K)) (X : List V) (hsym : ∀ a ∈ X, ∀ b ∈ X, dist a b = dist b a)
    (hsearch : ∀ x ∈ X, ∃ r, search x = some r ∧ Within (fun i => dist x (X.getD i default)) X.length eps r)
    (hw : ∀ w, weight = some w → w.length = X.length) (st : State) :
    ∃ st', (X.mapM (fun x => (search x).map (fun r => r.map Prod.snd))).bind (fitOn minSamples weight X.length st) = some st' ∧ st'.labels.length = X.length ∧
      (∃ k, Clustering X.length (fun i => i < X.length ∧ minSamples < density dist eps weight X i) (Near dist eps X) (fun i => st'.labels.getD i (-1)) k) ∧
      ∃ cores, st'.core = st.core ++ cores ∧ cores.Pairwise (· < ·) ∧ ∀ i, i ∈ cores ↔ i < X.length ∧ minSamples < density dist eps weight X i := by
  classical
  have hXmem : ∀ i, i < X.length → X.getD i default ∈ X := by
    intro i hi
    simp [hi]
  set g : V → List ℕ := fun x => ((search x).getD []).map Prod.snd with hg
  have hgspec : ∀ x ∈ X, (search x).map (fun r => r.map Prod.snd) = some (g x) ∧ (g x).Nodup ∧
      ∀ j, j ∈ g x ↔ j < X.length ∧ dist x (X.getD j default) ≤ eps := by
    intro x hx
    obtain ⟨r, e, hr⟩ := hsearch x hx
    simp only [hg, e, Option.map_some, Option.getD_some]
    exact ⟨trivial, hr.distinct, hr.exact⟩
  have hnbh : X.mapM (fun x => (search x).map (fun r => r.map Prod.snd)) = some (X.map g) :=
    mapM_some _ _ _ (fun x hx => (hgspec x hx).1)
  have hcnt : (X.map g).mapM (nNeighbors weight) =
      some ((X.map g).map (fun nb => (nb.map (weightOf weight)).sum)) := by
    apply mapM_some
    intro nb hnb
    apply nNeighbors_eq
    intro w hww v hv
    obtain ⟨x, hx, rfl⟩ := List.mem_map.1 hnb
    rw [hw w hww]
    exact (((hgspec x hx).2.2 v).1 hv).1
  have hsum : ∀ i, i < X.length → ((g (X.getD i default)).map (weightOf weight)).sum =
      density dist eps weight X i := by
    intro i hi
    rw [density]
    apply List.Perm.sum_eq
    apply List.Perm.map
    rw [List.perm_ext_iff_of_nodup (hgspec _ (hXmem i hi)).2.1 (List.nodup_range.filter _)]
    intro j
    rw [(hgspec _ (hXmem i hi)).2.2, List.mem_filter, List.mem_range, decide_eq_true_eq]
  set isCore := ((X.map g).map (fun nb => (nb.map (weightOf weight)).sum)).map
    (fun c => decide (minSamples < c)) with hisCore
  have hcl : isCore.length = X.length := by simp [hisCore]
  have hcg : ∀ i, isCore.getD i false = true ↔ i < X.length ∧ minSamples < density dist eps weight X i := by
    intro i
    by_cases hi : i < X.length
    · have hX : X[i] = X.getD i default := by simp [hi]
      rw [List.getD_eq_getElem?_getD, List.getElem?_eq_getElem (by omega), Option.getD_some]
      simp only [hisCore, List.getElem_map, decide_eq_true_eq]
      rw [hX, hsum i hi]
      simp [hi]
    · rw [List.getD_eq_getElem?_getD, List.getElem?_eq_none (by omega)]
      simp [hi]
  have hng : ∀ i, i < X.length → (X.map g).getD i [] = g (X.getD i default) := by
    intro i hi
    simp [hi]
  have hin : ∀ i, i < X.length → ∀ j, (j ∈ (X.map g).getD i [] ↔ Near dist eps X i j) := by
    intro i hi j
    rw [hng i hi, (hgspec _ (hXmem i hi)).2.2, Near]
  obtain ⟨l, k, el, hl, hC⟩ := inner_ok (isCore := isCore) (nbh := X.map g) (n := X.length) hcl (by simp)
    (fun i hi j hj => ((hin i hi j).1 hj).1) (fun i j hi hj _ _ hij => by
      rw [hin i hi, Near] at hij
      rw [hin j hj, Near, hsym _ (hXmem j hj) _ (hXmem i hi)]
      exact ⟨hi, hij.2⟩)
  have hcoreEq : (fun i => isCore.getD i false = true) = (fun i => i < X.length ∧ minSamples < density dist eps weight X i) := by
    funext i
    exact propext (hcg i)
  rw [hcoreEq] at hC
  refine ⟨⟨l, st.core ++ (List.range X.length).filter (fun i => isCore.getD i false)⟩, ?_, hl, ⟨k, ?_⟩, _, rfl, ?_, ?_⟩
  · rw [hnbh, Option.bind_some, fitOn]
    simp only [Option.bind_eq_bind, hcnt, Option.bind_some, ← hisCore, el]
    rfl
  · -- neighbourhoods of samples out of range do not matter
    have hchain : ∀ i j, Chain (fun i => i < X.length ∧ minSamples < density dist eps weight X i) (fun i j => j ∈ (X.map g).getD i []) i j ↔
        Chain (fun i => i < X.length ∧ minSamples < density dist eps weight X i) (Near dist eps X) i j := by
      intro i j
      have : (fun a b => (a < X.length ∧ minSamples < density dist eps weight X a) ∧ (b < X.length ∧ minSamples < density dist eps weight X b) ∧
          b ∈ (X.map g).getD a []) = (fun a b => (a < X.length ∧ minSamples < density dist eps weight X a) ∧
          (b < X.length ∧ minSamples < density dist eps weight X b) ∧ Near dist eps X a b) := by
        funext a b
        apply propext
        constructor
        · rintro ⟨h1, h2, h3⟩
          exact ⟨h1, h2, (hin a h1.1 b).1 h3⟩
        · rintro ⟨h1, h2, h3⟩
          exact ⟨h1, h2, (hin a h1.1 b).2 h3⟩
      rw [Chain, Chain, this]
    refine ⟨hC.range, hC.used, hC.core_clustered, fun i j hi hj h1 h2 => (hC.same_iff i j hi hj h1 h2).trans (hchain i j), ?_, ?_, hC.first, ?_⟩
    · intro i hi hci
      rw [hC.noise_iff i hi hci]
      exact forall_congr' (fun j => forall_congr' (fun hj => forall_congr' (fun _ => not_congr (hin j hj i))))
    · intro i hi hci h1
      obtain ⟨j, g1, g2, g3, g4⟩ := hC.border i hi hci h1
      exact ⟨j, g1, g2, (hin j g1 i).1 g3, g4⟩
    · intro i hi hci j hj hcj hji
      exact hC.least i hi hci j hj hcj ((hin j hj i).2 hji)
  · exact (List.pairwise_lt_range).sublist List.filter_sublist
  · intro i
    rw [List.mem_filter, List.mem_range, hcg i]
    tauto

/-- The whole of `Fit` with the exhaustive search, for all data. -/
theorem fit_spec (sort : List (D × ℕ) → List (D × ℕ)) (hs : SortsAsc Prod.fst sort) (dist : V → V → D) (hsym : ∀ a b, dist a b = dist b a) (eps : D)
    (minSamples : K) (weight : Option (List K)) (X : List V) (hw : ∀ w, weight = some w → w.length = X.length) (st : State) :
    ∃ st', fit sort dist eps minSamples weight X st = some st' ∧ st'.labels.length = X.length ∧
      (∃ k, Clustering X.length (fun i => i < X.length ∧ minSamples < density dist eps weight X i) (Near dist eps X) (fun i => st'.labels.getD i (-1)) k) ∧
      ∃ cores, st'.core = st.core ++ cores ∧ cores.Pairwise (· < ·) ∧ ∀ i, i ∈ cores ↔ i < X.length ∧ minSamples < density dist eps weight X i :=
  fitOn_spec _ dist eps minSamples weight X (fun a _ b _ => hsym a b)
    (fun x _ => by obtain ⟨r, e, hr, _⟩ := C40_radius dist X x eps sort hs; exact ⟨r, e, hr⟩) hw st

/-- **C32.** For every data set, symmetric distance, radius, `MinSamples` and weights (one per sample), `DBSCAN.Fit` returns and its labels are the density clustering
of the samples for the neighbourhoods "at distance at most `Eps`" and the core samples "neighbourhood heavier than `MinSamples`" (what a core sample should be is C33):
labels are `-1` or `0..k-1`, every number is used, two core samples share their label iff a chain of neighbouring core samples joins them, a non-core sample is noise iff it
is near no core sample and otherwise has the label of a core sample near it. Clusters are numbered in the order of their first core samples, and a sample near core samples of several clusters belongs
to the one with the smallest number, so the labels are determined by the samples (C196). -/
theorem C32_fit (sort : List (D × ℕ) → List (D × ℕ)) (hs : SortsAsc Prod.fst sort) (dist : V → V → D) (hsym : ∀ a b, dist a b = dist b a) (eps : D)
    (minSamples : K) (weight : Option (List K)) (X : List V) (hw : ∀ w, weight = some w → w.length = X.length) (st : State) :
    ∃ st' k, fit sort dist eps minSamples weight X st = some st' ∧ st'.labels.length = X.length ∧
      Clustering X.length (fun i => i < X.length ∧ minSamples < density dist eps weight X i) (Near dist eps X) (fun i => st'.labels.getD i (-1)) k := by
  obtain ⟨st', h1, h2, ⟨k, h3⟩, _⟩ := fit_spec sort hs dist hsym eps minSamples weight X hw st
  exact ⟨st', k, h1, h2, h3⟩

theorem zipWith_abs_comm (f : K → K) : ∀ a b : List K, List.zipWith (fun x y => f |y - x|) a b = List.zipWith (fun x y => f |y - x|) b a := by
  intro a
  induction a with
  | nil => intro b; simp
  | cons x a ih =>
    intro b
    cases b with
    | nil => simp
    | cons y b => rw [List.zipWith_cons_cons, List.zipWith_cons_cons, ih b, abs_sub_comm]

theorem mink_comm (M : Mink K) (a b : List K) (h : a.length = b.length) : mink M a b = mink M b a := by
  have : minkP M a b = minkP M b a := by
    unfold minkP
    rw [h, abs_sub_comm (b.getD 0 0), zipWith_abs_comm M.pw a b, zipWith_abs_comm (fun x => x) a b]
  unfold mink
  rw [this]

/-- **C32 and C33 with a tree.** Whenever the tree is built, for data with `m ≥ 2` features (or the powers 1 and infinity, see C43 for one feature), every non-negative `Eps` and every Minkowski
metric, the labels are again the density clustering of the samples, and the core samples found are those whose neighbourhood weighs more than `MinSamples`.
Missing for the full claim: what `C32_one_feature_violated` refutes. -/
theorem C32_tree_partial {S : Sorts K} (hS : SortsOK S) {fsort : List (K × ℕ) → List (K × ℕ)} (hf : SortsAsc Prod.fst fsort) {M : Mink K} (hM : MinkOK M) {fuel leafSize m : ℕ} (hm : 0 < m)
    {X : List (List K)} (hne : X ≠ []) (hX : ∀ row ∈ X, row.length = m) (hdim : m ≠ 1 ∨ M.one = true ∨ M.inf = true) {T : KDTree K} (hT : newKDTree fuel X leafSize = some T)
    {eps : K} (heps : 0 ≤ eps) (minSamples : K) (weight : Option (List K)) (hw : ∀ w, weight = some w → w.length = X.length) (st : State) :
    ∃ st' k cores, fitTree fuel leafSize S fsort M eps minSamples weight X st = some st' ∧ st'.labels.length = X.length ∧
      Clustering X.length (fun i => i < X.length ∧ minSamples < density (mink M) eps weight X i) (Near (mink M) eps X) (fun i => st'.labels.getD i (-1)) k ∧
      st'.core = st.core ++ cores ∧ cores.Pairwise (· < ·) ∧ ∀ i, i ∈ cores ↔ i < X.length ∧ minSamples < density (mink M) eps weight X i := by
  obtain ⟨st', h1, h2, ⟨k, h3⟩, cores, h4⟩ := fitOn_spec (treeRadius S fsort M T eps) (mink M) eps minSamples weight X
    (fun a ha b hb => mink_comm M a b (by rw [hX a ha, hX b hb]))
    (fun x hx => C40_tree_partial hS hf hM hm hne hX hT hdim x (hX x hx) heps) hw st
  refine ⟨st', k, cores, ?_, h2, h3, h4⟩
  rw [fitTree, hT, Option.bind_some]
  exact h1

/-- Two groups in the plane and a noise sample, found with a tree. -/
example : (fitTree (K := ℚ) 100 1 insSorts (insAsc Prod.fst) ⟨false, true, id, id⟩ 2 2 none [[0, 0], [1, 0], [0, 1], [9, 9], [8, 9], [9, 8], [30, 0]] ⟨[], []⟩).map (fun s => (s.labels, s.core)) =
    some ([0, 0, 0, 1, 1, 1, -1], [0, 1, 2, 3, 4, 5]) := by decide +kernel

/-- The power 2 on numbers whose roots are whole. -/
def wholeSq : Mink ℚ := ⟨false, false, fun t => t * t, fun t => (Nat.sqrt t.num.toNat : ℚ)⟩

/-- **C32 is false with a tree and one feature.** Samples 0, 900 and 2500 with the default metric, `Eps = 40`, `MinSamples = 1`: for the distance of the library (the square root of the difference, see
C43) the first and the second, and the second and the third sample are neighbours; the exhaustive search finds one cluster, the tree finds noise only. -/
theorem C32_one_feature_violated :
    (fit (K := ℚ) (insAsc Prod.fst) (mink wholeSq) 40 1 none [[0], [900], [2500]] ⟨[], []⟩).map (fun s => s.labels) = some [0, 0, 0] ∧
      (fitTree 20 1 insSorts (insAsc Prod.fst) wholeSq 40 1 none [[0], [900], [2500]] ⟨[], []⟩).map (fun s => s.labels) = some [-1, -1, -1] := by
  refine ⟨by decide +kernel, by decide +kernel⟩

/-- **C32**, `Predict`: exactly the labels of the last `Fit`, and a panic for another number of rows. -/
theorem C32_predict (st : State) (n : ℕ) :
    (n = st.labels.length → (predict st n : Option (List K)) = some (st.labels.map (fun l => (l : K)))) ∧
    (n ≠ st.labels.length → (predict st n : Option (List K)) = none) := by
  rw [predict]
  constructor
  · intro h
    rw [if_neg (by simp [h])]
  · intro h
    rw [if_pos h]

/-- Points of the line in two groups, with a border sample (index 3) and noise (index 6). -/
example : (fit (K := ℚ) (insAsc Prod.fst) (fun a b : ℤ => |a - b|) 2 2 none [0, 1, 2, 4, 20, 21, 50, 22] ⟨[], []⟩).map (fun s => (s.labels, s.core)) =
    some ([0, 0, 0, 0, 1, 1, -1, 1], [0, 1, 2, 4, 5, 7]) := by decide +kernel

example : ∀ a b : ℤ, |a - b| = |b - a| := abs_sub_comm

/-! ## C33: core samples -/

/-- **C33** (partial). After the first `Fit`, `CoreSampleIndices` lists in increasing order exactly the samples whose neighbourhood (within `Eps`, itself
included) weighs **more than** `MinSamples`.  The documented rule is "at least", and further `Fit`s keep the former indices; both are refuted below. -/
theorem C33_core_partial (sort : List (D × ℕ) → List (D × ℕ)) (hs : SortsAsc Prod.fst sort) (dist : V → V → D) (hsym : ∀ a b, dist a b = dist b a) (eps : D)
    (minSamples : K) (weight : Option (List K)) (X : List V) (hw : ∀ w, weight = some w → w.length = X.length) (labels : List ℤ) :
    ∃ st', fit sort dist eps minSamples weight X ⟨labels, []⟩ = some st' ∧ st'.core.Pairwise (· < ·) ∧
      ∀ i, i ∈ st'.core ↔ i < X.length ∧ minSamples < density dist eps weight X i := by
  obtain ⟨st', h1, _, _, cores, h2, h3, h4⟩ := fit_spec sort hs dist hsym eps minSamples weight X hw ⟨labels, []⟩
  refine ⟨st', h1, ?_, ?_⟩
  · rw [h2]
    simpa using h3
  · intro i
    rw [h2]
    simpa using h4 i

/-- The density without weights is the number of neighbours. -/
theorem density_count (dist : V → V → D) (eps : D) (X : List V) (i : ℕ) : density (K := K) dist eps none X i =
    (((List.range X.length).filter (fun j => decide (dist (X.getD i default) (X.getD j default) ≤ eps))).length : K) := by
  have : weightOf (none : Option (List K)) = fun _ => 1 := rfl
  simp [density, this]

/-- **C33 is false at the threshold.** On every data set, a sample with exactly `MinSamples` neighbours is not reported as core sample. -/
theorem C33_threshold_violated (sort : List (D × ℕ) → List (D × ℕ)) (hs : SortsAsc Prod.fst sort) (dist : V → V → D) (hsym : ∀ a b, dist a b = dist b a)
    (eps : D) (X : List V) (labels : List ℤ) (i minSamples : ℕ)
    (h : ((List.range X.length).filter (fun j => decide (dist (X.getD i default) (X.getD j default) ≤ eps))).length = minSamples) :
    ∃ st', fit sort dist eps (minSamples : K) none X ⟨labels, []⟩ = some st' ∧ i ∉ st'.core := by
  obtain ⟨st', h1, _, h2⟩ := C33_core_partial sort hs dist hsym eps (minSamples : K) none X (by simp) labels
  refine ⟨st', h1, fun hi => ?_⟩
  have := ((h2 i).1 hi).2
  rw [density_count, h] at this
  exact lt_irrefl _ this

/-- Three mutual neighbours and `MinSamples = 3`: everything is noise. -/
example : (fit (K := ℚ) (insAsc Prod.fst) (fun a b : ℤ => |a - b|) 2 3 none [0, 1, 2] ⟨[], []⟩).map (fun s => (s.labels, s.core)) =
    some ([-1, -1, -1], []) := by decide +kernel

/-- **C33 is false for a second `Fit`.** Whatever the second data set, the core samples of the first one are still reported. -/
theorem C33_refit_violated (sort : List (D × ℕ) → List (D × ℕ)) (hs : SortsAsc Prod.fst sort) (dist : V → V → D) (hsym : ∀ a b, dist a b = dist b a) (eps : D)
    (minSamples : K) (X X' : List V) (st : State) :
    ∃ st1 st2, fit sort dist eps minSamples none X st = some st1 ∧ fit sort dist eps minSamples none X' st1 = some st2 ∧
      ∀ i, i < X.length → minSamples < density dist eps none X i → i ∈ st2.core := by
  obtain ⟨st1, h1, _, _, c1, h2, _, h3⟩ := fit_spec sort hs dist hsym eps minSamples none X (by simp) st
  obtain ⟨st2, h4, _, _, c2, h5, _, _⟩ := fit_spec sort hs dist hsym eps minSamples none X' (by simp) st1
  refine ⟨st1, st2, h1, h4, fun i hi hd => ?_⟩
  rw [h5, h2]
  exact List.mem_append_left _ (List.mem_append_right _ ((h3 i).2 ⟨hi, hd⟩))

/-- Ten samples, then three: sample 9 is still reported. -/
example : (((fit (K := ℚ) (insAsc Prod.fst) (fun a b : ℤ => |a - b|) 2 1 none [0, 10, 20, 30, 40, 50, 60, 70, 80, 81] ⟨[], []⟩).bind
    (fit (K := ℚ) (insAsc Prod.fst) (fun a b : ℤ => |a - b|) 2 1 none [0, 1, 9]))).map (fun s => (s.labels, s.core)) =
    some ([0, 0, -1], [8, 9, 0, 1]) := by decide +kernel

/-! ## C76: the configured power -/

/-- **C76 is false.** The power configured for a Minkowski metric has no effect on `DBSCAN.Fit`. -/
theorem C76_power_violated (metric : String) (p p' : K) : dbscanPower metric p = dbscanPower metric p' := rfl

/-- **C76** (partial): the named metrics get their power (1 for manhattan and cityblock, 2 for euclidean).
Missing for the full claim: what `C76_power_violated` refutes. -/
theorem C76_named_partial (p : K) : dbscanPower "manhattan" p = 1 ∧ dbscanPower "cityblock" p = 1 ∧ dbscanPower "euclidean" p = 2 ∧
    (p ≠ 2 → dbscanPower "minkowski" p ≠ p) := by
  refine ⟨by simp [dbscanPower, metricPower], by simp [dbscanPower, metricPower], by simp [dbscanPower, metricPower], ?_⟩
  intro h
  simpa [dbscanPower, metricPower] using h.symm

example : (3 : ℚ) ≠ 2 := by norm_num

end Sk.Dbscan
