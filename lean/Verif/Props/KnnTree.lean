import Verif.Model.KnnTree
import Verif.Props.KDMatrix
import Verif.Props.KnnPredict
import Mathlib.Tactic.IntervalCases
import Mathlib.Tactic.NormNum

/-!
# C223: neighbour estimators predict the same with the tree as with the exhaustive search
-/
set_option autoImplicit false

namespace Sk.Knn

open Sk.Neigh

variable {K : Type} [Field K] [LinearOrder K] [IsStrictOrderedRing K]

/-! ### From the rows of the query to the votes -/

/-- A row of `KNeighbors` is the answer of the search, filled up with sample 0 at distance 0. -/
theorem treeNeighbours_eq {S : Sorts K} {fsort : List (K × ℕ) → List (K × ℕ)} {M : Mink K} {T : KDTree K} {epsfac : K} {k : ℕ} (hk : 0 < k) {q : List K} {r : List (K × ℕ)} (h : query S fsort M T epsfac k none q = some r) :
    treeNeighbours S fsort M T epsfac k q = some (r ++ List.replicate (k - r.length) (0, 0)) := by
  obtain ⟨dd, ii, h1⟩ := treeQuery_some S fsort M T epsfac k hk none [q] (by simp) (fun x hx => ⟨r, by rw [List.mem_singleton.1 hx]; exact h⟩)
  obtain ⟨_, _, h2⟩ := C222_rows S fsort M T epsfac k none [q] dd ii h1
  obtain ⟨r', hr', _, hd, hi⟩ := h2 0 (by simp)
  obtain rfl : r = r' := Option.some.inj (h.symm.trans hr')
  rw [treeNeighbours, h1, Option.map_some]
  simp only [List.getD_eq_getElem?_getD, hd, hi, Option.getD_some]
  rw [List.zip_append (by rw [List.length_map, List.length_map])]
  congr 2
  · rw [List.zip_map']; simp
  · rw [List.zip_replicate']

theorem votes_of_list (eps : K) (w : Weights) (Y : List K) (r : List (K × ℕ)) (h : ∀ e ∈ r, e.2 < Y.length) :
    r.mapM (fun e => (Y[e.2]?).map (fun c => (c, weightOf eps w e.1))) = some (r.map (fun e => (Y.getD e.2 0, weightOf eps w e.1))) := by
  induction r with
  | nil => rfl
  | cons a r ih =>
    rw [List.mapM_cons, ih (fun e he => h e (List.mem_cons_of_mem _ he))]
    have := h a List.mem_cons_self
    rw [List.getElem?_eq_getElem this, Option.map_some]
    simp [this]

/-- With different distances there is one list of nearest samples. -/
theorem nearest_unique {dist : ℕ → K} {n k : ℕ} {r r' : List (K × ℕ)} (hinj : ∀ i < n, ∀ j < n, dist i = dist j → i = j) (h : KNearest dist n k r) (h' : KNearest dist n k r') : r = r' := by
  have hf := h.unique h'
  apply List.ext_getElem (by rw [h.len, h'.len])
  intro i h1 h2
  have e1 : r[i].1 = r'[i].1 := by
    have := congrArg (fun l => l[i]?) hf
    simpa [h1, h2] using this
  obtain ⟨a1, a2⟩ := h.own _ (List.getElem_mem h1)
  obtain ⟨b1, b2⟩ := h'.own _ (List.getElem_mem h2)
  exact Prod.ext e1 (hinj _ a1 _ b1 (by rw [← a2, ← b2, e1]))

theorem neighbourVotes_of {sort : List (K × ℕ) → List (K × ℕ)} (hs : SortsAsc Prod.fst sort) {dist : List K → List K → K} {eps : K} {w : Weights} {X : List (List K)} {Y : List K} (hY : Y.length = X.length) {k : ℕ} (hk : k ≤ X.length) {q : List K}
    (hinj : ∀ i < X.length, ∀ j < X.length, dist q (X.getD i []) = dist q (X.getD j []) → i = j) {r : List (K × ℕ)} (hr : KNearest (fun i => dist q (X.getD i [])) X.length k r) :
    neighbourVotes sort dist eps w X Y k q = some (r.map (fun e => (Y.getD e.2 0, weightOf eps w e.1))) := by
  obtain ⟨r', e, h'⟩ := (C39_kneighbors dist X q sort hs k).1 hk
  obtain rfl := nearest_unique hinj hr h'
  rw [neighbourVotes, e]
  exact votes_of_list eps w Y r (fun e he => by rw [hY]; exact (hr.own e he).1)

theorem treeVotes_of {S : Sorts K} {fsort : List (K × ℕ) → List (K × ℕ)} {M : Mink K} {T : KDTree K} {epsfac eps : K} {w : Weights} {Y : List K} {n k : ℕ} (hk : 0 < k) (hY : Y.length = n) {q : List K} {dist : ℕ → K} {r : List (K × ℕ)}
    (h : query S fsort M T epsfac k none q = some r) (hr : KNearest dist n k r) : treeVotes S fsort M T epsfac eps w Y k q = some (r.map (fun e => (Y.getD e.2 0, weightOf eps w e.1))) := by
  rw [treeVotes, treeNeighbours_eq hk h, hr.len, Nat.sub_self, List.replicate_zero, List.append_nil, Option.bind_some]
  exact votes_of_list eps w Y r (fun e he => by rw [hY]; exact (hr.own e he).1)

/-- **C223.** Real data with at least two features (or `p = 1`), finite `p`, `1 ≤ k ≤ n`, and no two samples whose distances from the query agree up to the factor `1 + tol` (the estimators
use `tol = 1e-15`): the classifier, its probabilities and the regressor give the same with the tree as with the exhaustive search, for every weighting, sort and order of the map.
Missing for the full claim: one feature with another `p`, ties, `k > n`. -/
theorem C223_same_partial {S : Sorts ℝ} (hS : SortsOK S) {fsort sort : List (ℝ × ℕ) → List (ℝ × ℕ)} (hf : SortsAsc Prod.fst fsort) (hs : SortsAsc Prod.fst sort) {p : ℝ} (hp : 0 < p)
    {fuel : ℕ} {X : List (List ℝ)} {leafSize m : ℕ} (hm : 0 < m) (hX : ∀ row ∈ X, row.length = m) {T : KDTree ℝ} (hT : newKDTree fuel X leafSize = some T) (hdim : m ≠ 1 ∨ p = 1)
    (Y : List ℝ) (hY : Y.length = X.length) {k : ℕ} (hk : 0 < k) (hkn : k ≤ X.length) {tol : ℝ} (htol : 0 ≤ tol) (q : List ℝ) (hq : q.length = m)
    (hsep : ∀ i < X.length, ∀ j < X.length, i ≠ j → (1 + tol) * mink (rp p) q (X.getD i []) < mink (rp p) q (X.getD j []) ∨ (1 + tol) * mink (rp p) q (X.getD j []) < mink (rp p) q (X.getD i []))
    (it : List (ℝ × ℝ) → List (ℝ × ℝ)) (eps : ℝ) (w : Weights) :
    treeClassify S fsort (rp p) it T (epsfac p tol) eps w Y k q = classify sort it (mink (rp p)) eps w X Y k q ∧
    (∀ classes old, treeProba S fsort (rp p) T (epsfac p tol) eps w Y classes k q old = predictProba sort (mink (rp p)) eps w X Y classes k q old) ∧
    treeRegress S fsort (rp p) T (epsfac p tol) eps w Y k q = regress sort (mink (rp p)) eps w X Y k q := by
  obtain ⟨r, h1, h2, h3, h4, h5, h6⟩ := C41_eps_partial hS hf hp hm hX hT hdim q hq hk hkn htol
  have hnn : ∀ i, 0 ≤ mink (rp p) q (X.getD i []) := fun i => by
    rw [← root_eq (rp_ok p hp)]
    exact Real.rpow_nonneg (minkP_nonneg (rp_ok p hp) _ _) _
  have hmul : ∀ i, mink (rp p) q (X.getD i []) ≤ (1 + tol) * mink (rp p) q (X.getD i []) := fun i => by
    have := mul_nonneg htol (hnn i)
    linarith
  have hinj : ∀ i < X.length, ∀ j < X.length, mink (rp p) q (X.getD i []) = mink (rp p) q (X.getD j []) → i = j := by
    intro i hi j hj e
    by_contra hne
    rcases hsep i hi j hj hne with h | h
    · have := hmul i; linarith
    · have := hmul j; linarith
  have hN : KNearest (fun i => mink (rp p) q (X.getD i [])) X.length k r := by
    refine ⟨h2, h3, h4, h5, fun i hi hnot e he => ?_⟩
    have hb := h6 i hi hnot e he
    obtain ⟨he1, he2⟩ := h4 e he
    have hne : i ≠ e.2 := fun h => hnot (h ▸ List.mem_map_of_mem he)
    rcases hsep i hi e.2 he1 hne with h | h
    · rw [he2] at hb
      exact absurd hb (not_le.2 h)
    · rw [he2]
      exact ((hmul e.2).trans_lt h).le
  have hv : treeVotes S fsort (rp p) T (epsfac p tol) eps w Y k q = neighbourVotes sort (mink (rp p)) eps w X Y k q := by
    rw [treeVotes_of hk hY h1 hN, neighbourVotes_of hs hY hkn hinj hN]
  refine ⟨by rw [treeClassify, classify, hv], fun classes old => by rw [treeProba, predictProba, hv], by rw [treeRegress, regress, hv]⟩

/-- Distances 21, 4 and 1 are far enough apart; and a tree of these samples exists. -/
example : (∀ i < 3, ∀ j < 3, i ≠ j → (1 + 1 / 1000) * mink (rp 1) [10, 11] (([[0, 0], [9, 8], [10, 10]] : List (List ℝ)).getD i []) < mink (rp 1) [10, 11] (([[0, 0], [9, 8], [10, 10]] : List (List ℝ)).getD j []) ∨
    (1 + 1 / 1000) * mink (rp 1) [10, 11] (([[0, 0], [9, 8], [10, 10]] : List (List ℝ)).getD j []) < mink (rp 1) [10, 11] (([[0, 0], [9, 8], [10, 10]] : List (List ℝ)).getD i [])) ∧
    ∃ T, newKDTree (K := ℝ) 1 [[0, 0], [9, 8], [10, 10]] 30 = some T := by
  constructor
  · intro i hi j hj hne
    interval_cases i <;> interval_cases j <;> first | exact absurd rfl hne | (simp [mink, minkP, rp]; norm_num [abs_of_neg])
  · simp [newKDTree, build]

/-! ### More neighbours than samples -/

theorem treeVotes_all {S : Sorts K} (hS : SortsOK S) {fsort : List (K × ℕ) → List (K × ℕ)} (hf : SortsAsc Prod.fst fsort) {M : Mink K} (hM : MinkOK M)
    {fuel : ℕ} {X : List (List K)} {leafSize m : ℕ} (hm : 0 < m) (hne : X ≠ []) (hX : ∀ row ∈ X, row.length = m) {T : KDTree K} (hT : newKDTree fuel X leafSize = some T) (hdim : m ≠ 1 ∨ M.one = true ∨ M.inf = true)
    (Y : List K) (hY : Y.length = X.length) {k : ℕ} (hkn : X.length < k) (epsfac eps : K) (w : Weights) (q : List K) (hq : q.length = m) :
    ∃ r, KNearest (fun i => mink M q (X.getD i [])) X.length X.length r ∧
      treeVotes S fsort M T epsfac eps w Y k q = some (r.map (fun e => (Y.getD e.2 0, weightOf eps w e.1)) ++ List.replicate (k - X.length) (Y.getD 0 0, weightOf eps w 0)) := by
  obtain ⟨r, h, hr⟩ := query_all hS hf hM hm hne hX hT hdim hkn epsfac q hq
  have hn : 0 < X.length := List.length_pos_iff.2 hne
  refine ⟨r, hr, ?_⟩
  rw [treeVotes, treeNeighbours_eq (by omega) h, hr.len, Option.bind_some, votes_of_list, List.map_append, List.map_replicate]
  intro e he
  rcases List.mem_append.1 he with he | he
  · rw [hY]; exact (hr.own e he).1
  · rw [(List.mem_replicate.1 he).2, hY]; exact hn

/-- **C223, violated: more neighbours than samples, distance weights.** The exhaustive search refuses; with a tree the classifier always predicts the class of the first training sample, for every query farther than `n * eps` from all samples
(`eps` is 1e-15). -/
theorem C223_first_violated {S : Sorts K} (hS : SortsOK S) {fsort sort : List (K × ℕ) → List (K × ℕ)} (hf : SortsAsc Prod.fst fsort) (hs : SortsAsc Prod.fst sort) {M : Mink K} (hM : MinkOK M)
    {fuel : ℕ} {X : List (List K)} {leafSize m : ℕ} (hm : 0 < m) (hne : X ≠ []) (hX : ∀ row ∈ X, row.length = m) {T : KDTree K} (hT : newKDTree fuel X leafSize = some T) (hdim : m ≠ 1 ∨ M.one = true ∨ M.inf = true)
    (Y : List K) (hY : Y.length = X.length) {k : ℕ} (hkn : X.length < k) (epsfac : K) {eps : K} (heps : 0 < eps) (it : List (K × K) → List (K × K)) (hit : ∀ l, (it l).Perm l) (q : List K) (hq : q.length = m)
    (hfar : ∀ i < X.length, (X.length : K) * eps ≤ mink M q (X.getD i [])) :
    classify sort it (mink M) eps .distance X Y k q = none ∧ treeClassify S fsort M it T epsfac eps .distance Y k q = some (Y.getD 0 0) := by
  have hn : 0 < X.length := List.length_pos_iff.2 hne
  constructor
  · rw [classify, neighbourVotes, (C39_kneighbors (mink M) X q sort hs k).2 hkn]
    rfl
  obtain ⟨r, hr, hv⟩ := treeVotes_all hS hf hM hm hne hX hT hdim Y hY hkn epsfac eps .distance q hq
  rw [treeClassify, hv, Option.map_some]
  set ns := r.map (fun e => (Y.getD e.2 0, weightOf eps .distance e.1)) ++ List.replicate (k - X.length) (Y.getD 0 0, weightOf eps .distance 0) with hns
  have hnK : (0 : K) < X.length := by exact_mod_cast hn
  have hd : ∀ e ∈ r, (X.length : K) * eps ≤ e.1 := fun e he => by
    obtain ⟨h1, h2⟩ := hr.own e he
    rw [h2]
    exact hfar _ h1
  have hw : ∀ e ∈ r, weightOf eps .distance e.1 ≤ 1 / (((X.length : K) + 1) * eps) := fun e he => by
    rw [weightOf]
    apply one_div_le_one_div_of_le (by positivity)
    have := hd e he
    linarith
  have hpos : ∀ e ∈ ns, 0 < e.2 := by
    intro e he
    rcases List.mem_append.1 he with he | he
    · obtain ⟨a, ha, rfl⟩ := List.mem_map.1 he
      exact weightOf_pos eps heps .distance _ (le_trans (by positivity) (hd a ha))
    · rw [(List.mem_replicate.1 he).2]
      exact weightOf_pos eps heps .distance _ le_rfl
  have hnn : ns ≠ [] := by
    intro h
    have := congrArg List.length h
    simp [hns] at this
    omega
  obtain ⟨_, hmax⟩ := C44_vote ns hnn hpos it hit
  have h0 : 1 / eps ≤ classWeight ns (Y.getD 0 0) := by
    rw [classWeight, hns, List.map_append, List.sum_append, List.map_replicate, List.sum_replicate, if_pos rfl, weightOf, add_zero]
    have h1 : 0 ≤ ((r.map (fun e => (Y.getD e.2 0, weightOf eps .distance e.1))).map (fun e => if e.1 = Y.getD 0 0 then e.2 else 0)).sum := by
      apply List.sum_nonneg
      intro x hx
      obtain ⟨e, he, rfl⟩ := List.mem_map.1 hx
      split
      · exact (hpos e (List.mem_append_left _ he)).le
      · exact le_rfl
    have h2 : 1 / eps ≤ (k - X.length) • (1 / eps) := by
      rw [nsmul_eq_mul]
      have h3 : (1 : K) ≤ ((k - X.length : ℕ) : K) := by exact_mod_cast (by omega : 1 ≤ k - X.length)
      have h4 : 0 < 1 / eps := by positivity
      nlinarith
    linarith
  have hother : ∀ c, c ≠ Y.getD 0 0 → classWeight ns c < 1 / eps := by
    intro c hc
    rw [classWeight, hns, List.map_append, List.sum_append, List.map_replicate, List.sum_replicate, if_neg (Ne.symm hc), smul_zero, add_zero]
    have key : ∀ l : List (K × ℕ), (∀ e ∈ l, 0 ≤ weightOf eps .distance e.1 ∧ weightOf eps .distance e.1 ≤ 1 / (((X.length : K) + 1) * eps)) →
        ((l.map (fun e => (Y.getD e.2 0, weightOf eps .distance e.1))).map (fun e => if e.1 = c then e.2 else 0)).sum ≤ (l.length : K) * (1 / (((X.length : K) + 1) * eps)) := by
      intro l
      induction l with
      | nil => intro _; simp
      | cons a l ih =>
        intro h
        have h1 := ih (fun e he => h e (List.mem_cons_of_mem _ he))
        obtain ⟨h2, h3⟩ := h a List.mem_cons_self
        rw [List.map_cons, List.map_cons, List.sum_cons, List.length_cons]
        push_cast
        have : (if Y.getD a.2 0 = c then weightOf eps .distance a.1 else 0) ≤ 1 / (((X.length : K) + 1) * eps) := by
          split
          · exact h3
          · exact h2.trans h3
        linarith
    have hb := key r (fun e he => ⟨(weightOf_pos eps heps _ _ (le_trans (by positivity) (hd e he))).le, hw e he⟩)
    refine lt_of_le_of_lt hb ?_
    rw [hr.len, mul_one_div, div_lt_div_iff₀ (by positivity) heps]
    nlinarith
  by_contra hc
  have hc' : pick (it (votes ns)) ≠ Y.getD 0 0 := fun h => hc (by rw [h])
  exact absurd (h0.trans (hmax _)) (not_le.2 (hother _ hc'))

theorem sum_by_index (Y : List K) (r : List ℕ) (h : r.Perm (List.range Y.length)) : (r.map (fun i => Y.getD i 0)).sum = Y.sum := by
  rw [(h.map _).sum_eq]
  congr 1
  apply List.ext_getElem (by simp)
  intro i h1 h2
  simp at h1
  simp [h1]

/-- **C223, violated: more neighbours than samples, regression.** Where the exhaustive search refuses, a tree makes the regressor with equal weights return the same number for every query: the mean of the targets with the first one counted `k - n` times more. -/
theorem C223_mean_violated {S : Sorts K} (hS : SortsOK S) {fsort sort : List (K × ℕ) → List (K × ℕ)} (hf : SortsAsc Prod.fst fsort) (hs : SortsAsc Prod.fst sort) {M : Mink K} (hM : MinkOK M)
    {fuel : ℕ} {X : List (List K)} {leafSize m : ℕ} (hm : 0 < m) (hne : X ≠ []) (hX : ∀ row ∈ X, row.length = m) {T : KDTree K} (hT : newKDTree fuel X leafSize = some T) (hdim : m ≠ 1 ∨ M.one = true ∨ M.inf = true)
    (Y : List K) (hY : Y.length = X.length) {k : ℕ} (hkn : X.length < k) (epsfac eps : K) (q : List K) (hq : q.length = m) :
    regress sort (mink M) eps .uniform X Y k q = none ∧ treeRegress S fsort M T epsfac eps .uniform Y k q = some ((Y.sum + ((k : K) - X.length) * Y.getD 0 0) / k) := by
  constructor
  · rw [regress, neighbourVotes, (C39_kneighbors (mink M) X q sort hs k).2 hkn]
    rfl
  obtain ⟨r, hr, hv⟩ := treeVotes_all hS hf hM hm hne hX hT hdim Y hY hkn epsfac eps .uniform q hq
  have hperm : (r.map Prod.snd).Perm (List.range Y.length) := by
    have hsub : (r.map Prod.snd).Subperm (List.range Y.length) := List.subperm_of_subset hr.distinct (fun i hi => by
      obtain ⟨e, he, rfl⟩ := List.mem_map.1 hi
      rw [List.mem_range, hY]
      exact (hr.own e he).1)
    exact hsub.perm_of_length_le (by rw [List.length_range, List.length_map, hr.len, hY])
  have hsum : (r.map (fun e => Y.getD e.2 0)).sum = Y.sum := by
    rw [← sum_by_index Y _ hperm, List.map_map]
    rfl
  rw [treeRegress, hv, Option.map_some]
  simp only [weightOf, List.map_append, List.map_map, Function.comp_def, one_mul, List.map_replicate, List.sum_append, List.sum_replicate, hsum, List.map_const', hr.len, nsmul_eq_mul, mul_one]
  rw [Nat.cast_sub hkn.le]
  congr 2
  ring

/-- **C223, violated: the default algorithm.** With "auto", distance weights and more neighbours than samples, the prediction is refused for up to 1000 cells of training data, and from then on it is the class of the first sample whatever the query. -/
theorem C223_auto_violated {S : Sorts K} (hS : SortsOK S) {fsort sort : List (K × ℕ) → List (K × ℕ)} (hf : SortsAsc Prod.fst fsort) (hs : SortsAsc Prod.fst sort) {M : Mink K} (hM : MinkOK M)
    {fuel : ℕ} {X : List (List K)} {leafSize m : ℕ} (hm : 0 < m) (hne : X ≠ []) (hX : ∀ row ∈ X, row.length = m) (hT : newKDTree fuel X (if leafSize = 0 then 30 else leafSize) ≠ none) (hdim : m ≠ 1 ∨ M.one = true ∨ M.inf = true)
    (Y : List K) (hY : Y.length = X.length) {k : ℕ} (hkn : X.length < k) (epsfac : K) {eps : K} (heps : 0 < eps) (it : List (K × K) → List (K × K)) (hit : ∀ l, (it l).Perm l) (q : List K) (hq : q.length = m)
    (hfar : ∀ i < X.length, (X.length : K) * eps ≤ mink M q (X.getD i [])) :
    classifyBy S fsort sort M it false true fuel leafSize epsfac eps .distance X Y k q = if X.length * m ≤ 1000 then none else some (Y.getD 0 0) := by
  obtain ⟨T, hT⟩ := Option.ne_none_iff_exists'.1 hT
  obtain ⟨h1, h2⟩ := C223_first_violated (sort := sort) hS hf hs hM hm hne hX hT hdim Y hY hkn epsfac heps it hit q hq hfar
  have hh : (X.headD []).length = m := by
    cases X with
    | nil => exact absurd rfl hne
    | cons a X => exact hX a List.mem_cons_self
  rw [classifyBy, hh]
  by_cases h : X.length * m ≤ 1000
  · rw [if_neg (by simp [usesTree]; exact h), if_pos h, h1]
  · rw [if_pos (by simp [usesTree]; omega), if_neg h, hT, Option.bind_some, h2]

/-- Three samples, K = 4, a query next to the last sample: with the tree class 7 of the first sample is predicted, and the mean of the targets 7, 3, 3 with 7 counted twice. -/
example : ((newKDTree (K := ℚ) 100 [[0, 0], [9, 8], [10, 10]] 30).bind (fun T => treeClassify insSorts (insAsc Prod.fst) ⟨false, true, id, id⟩ id T 1 (1 / 1000) .distance [7, 3, 3] 4 [10, 11])) = some 7 ∧
    ((newKDTree (K := ℚ) 100 [[0, 0], [9, 8], [10, 10]] 30).bind (fun T => treeRegress insSorts (insAsc Prod.fst) ⟨false, true, id, id⟩ T 1 (1 / 1000) .uniform [7, 3, 3] 4 [10, 11])) = some 5 ∧
    ((newKDTree (K := ℚ) 100 [[0, 0], [9, 8], [10, 10]] 30).bind (fun T => treeClassify insSorts (insAsc Prod.fst) ⟨false, true, id, id⟩ id T 1 (1 / 1000) .distance [7, 3, 3] 2 [10, 11])) = some 3 ∧
    ((newKDTree (K := ℚ) 100 [[0, 0], [9, 8], [10, 10]] 30).bind (fun T => treeProba insSorts (insAsc Prod.fst) ⟨false, true, id, id⟩ T 1 (1 / 1000) .uniform [7, 3, 3] [3, 7] 3 [10, 11] [0, 0])) = some [2 / 3, 1 / 3] := by decide +kernel

end Sk.Knn
