import Verif.Props.Dbscan
import Verif.Props.KnnPredict
import Mathlib.Tactic.IntervalCases
import Mathlib.Tactic.NormNum

/-! # C235: DBSCAN and the neighbour predictors on groups of rows that are apart -/
set_option autoImplicit false

namespace Sk.GroupsApart

open Sk.Neigh

section Dbscan

variable {V D K : Type} [Inhabited V] [LinearOrder D] [Field K] [LinearOrder K] [IsStrictOrderedRing K]

/-- The rows come in groups, `g i` being the group of row `i`: rows of one group are at distance at most `eps`, rows of different groups are further apart. -/
def Apart (dist : V → V → D) (eps : D) (X : List V) (g : ℕ → ℕ) : Prop :=
  ∀ i j (hi : i < X.length) (hj : j < X.length), dist X[i] X[j] ≤ eps ↔ g i = g j

/-- Total weight of the group of row `i`. -/
def groupWeight (weight : Option (List K)) (n : ℕ) (g : ℕ → ℕ) (i : ℕ) : K :=
  ∑ j ∈ Finset.range n, if g i = g j then Dbscan.weightOf weight j else 0

theorem density_eq (dist : V → V → D) (eps : D) (weight : Option (List K)) (X : List V) (g : ℕ → ℕ) (h : Apart dist eps X g) (i : ℕ) (hi : i < X.length) :
    Dbscan.density dist eps weight X i = groupWeight weight X.length g i := by
  have e : (List.range X.length).filter (fun j => decide (dist (X.getD i default) (X.getD j default) ≤ eps)) = (List.range X.length).filter (fun j => decide (g i = g j)) := by
    apply List.filter_congr
    intro j hj
    have hj := List.mem_range.1 hj
    rw [List.getD_eq_getElem _ _ hi, List.getD_eq_getElem _ _ hj]
    exact decide_eq_decide.2 (h i j hi hj)
  rw [Dbscan.density, e, groupWeight]
  generalize X.length = n
  induction n with
  | zero => simp
  | succ n ih =>
    rw [List.range_succ, List.filter_append, List.map_append, List.sum_append, ih, Finset.sum_range_succ]
    congr 1
    by_cases hg : g i = g n
    · simp [hg]
    · simp [hg]

/-- **C235**, DBSCAN: when the rows come in groups, rows of one group being within `Eps` and rows of different groups further apart, `DBSCAN.Fit` makes one cluster of every group heavier than `MinSamples`
and noise of the rows of the others. -/
theorem C235_dbscan (sort : List (D × ℕ) → List (D × ℕ)) (hs : SortsAsc Prod.fst sort) (dist : V → V → D) (hsym : ∀ a b, dist a b = dist b a) (eps : D)
    (minSamples : K) (weight : Option (List K)) (X : List V) (hw : ∀ w, weight = some w → w.length = X.length) (st : Dbscan.State) (g : ℕ → ℕ) (h : Apart dist eps X g) :
    ∃ st', Dbscan.fit sort dist eps minSamples weight X st = some st' ∧ st'.labels.length = X.length ∧
      ∀ i, i < X.length →
        (minSamples < groupWeight weight X.length g i → st'.labels[i]? ≠ some (-1) ∧ ∀ j, j < X.length → (st'.labels[j]? = st'.labels[i]? ↔ g j = g i)) ∧
        (groupWeight weight X.length g i ≤ minSamples → st'.labels[i]? = some (-1)) := by
  obtain ⟨st', k, h1, h2, hc⟩ := Dbscan.C32_fit sort hs dist hsym eps minSamples weight X hw st
  have hget : ∀ i, i < X.length → st'.labels[i]? = some (st'.labels.getD i (-1)) := by
    intro i hi
    rw [List.getElem?_eq_getElem (by omega), List.getD_eq_getElem _ _ (by omega)]
  have hcore : ∀ i, i < X.length → ((i < X.length ∧ minSamples < Dbscan.density dist eps weight X i) ↔ minSamples < groupWeight weight X.length g i) := by
    intro i hi
    rw [density_eq dist eps weight X g h i hi]
    simp [hi]
  have hnear : ∀ i j, i < X.length → j < X.length → (Dbscan.Near dist eps X i j ↔ g i = g j) := by
    intro i j hi hj
    rw [Dbscan.Near, List.getD_eq_getElem _ _ hi, List.getD_eq_getElem _ _ hj]
    simp [hj, h i j hi hj]
  have hgw : ∀ i j, g i = g j → groupWeight weight X.length g i = groupWeight weight X.length g j := by
    intro i j e
    rw [groupWeight, groupWeight, e]
  have hlight : ∀ i, i < X.length → ¬ minSamples < groupWeight weight X.length g i → st'.labels.getD i (-1) = -1 := by
    intro i hi hl
    rw [hc.noise_iff i hi (fun hh => hl ((hcore i hi).1 hh))]
    intro j hj hcj hn
    exact hl ((hgw j i ((hnear j i hj hi).1 hn)) ▸ (hcore j hj).1 hcj)
  refine ⟨st', h1, h2, fun i hi => ⟨fun hheavy => ⟨?_, ?_⟩, fun hl => ?_⟩⟩
  · rw [hget i hi]
    intro e
    exact hc.core_clustered i hi ((hcore i hi).2 hheavy) (Option.some.inj e)
  · intro j hj
    rw [hget i hi, hget j hj, Option.some_inj]
    by_cases hheavy' : minSamples < groupWeight weight X.length g j
    · rw [hc.same_iff j i hj hi ((hcore j hj).2 hheavy') ((hcore i hi).2 hheavy)]
      constructor
      · intro hch
        have : ∀ b, Dbscan.Chain (fun i => i < X.length ∧ minSamples < Dbscan.density dist eps weight X i) (Dbscan.Near dist eps X) j b → g j = g b := by
          intro b hb
          induction hb with
          | refl => rfl
          | tail _ hstep ih => exact ih.trans ((hnear _ _ hstep.1.1 hstep.2.1.1).1 hstep.2.2)
        exact this i hch
      · intro e
        exact Relation.ReflTransGen.single ⟨(hcore j hj).2 hheavy', (hcore i hi).2 hheavy, (hnear j i hj hi).2 e⟩
    · rw [hlight j hj hheavy']
      constructor
      · intro e
        exact absurd e.symm (hc.core_clustered i hi ((hcore i hi).2 hheavy))
      · intro e
        exact absurd (hgw j i e ▸ hheavy) hheavy'
  · rw [hget i hi, hlight i hi (not_lt.2 hl)]

example : Apart (fun a b : ℚ => |a - b|) 1 [0, 1, 10, (1 : ℚ) / 2, 11] (fun i => if i = 2 ∨ i = 4 then 1 else 0) := by
  intro i j hi hj
  have hi' : i < 5 := hi
  have hj' : j < 5 := hj
  interval_cases i <;> interval_cases j <;> simp <;> norm_num [abs_le]

end Dbscan

section Knn

variable {V K : Type} [Inhabited V] [Field K] [LinearOrder K] [IsStrictOrderedRing K]

/-- The rows with target `c` surround the query: there are at least `k` of them, and each is nearer to it than every row with another target. -/
def Surrounded (dist : V → V → K) (X : List V) (Y : List K) (k : ℕ) (q : V) (c : K) : Prop :=
  k ≤ Y.count c ∧ ∀ i j (hi : i < X.length) (hj : j < X.length), Y[i]? = some c → Y[j]? ≠ some c → dist q X[i] < dist q X[j]

theorem count_idx (Y : List K) (c : K) : ((List.range Y.length).filter (fun i => decide (Y[i]? = some c))).length = Y.count c := by
  induction Y using List.reverseRecOn with
  | nil => simp
  | append_singleton Y y ih =>
    rw [List.length_append, List.length_singleton, List.range_succ, List.filter_append, List.length_append, List.count_append, ← ih]
    congr 1
    · congr 1
      apply List.filter_congr
      intro i hi
      rw [List.getElem?_append_left (List.mem_range.1 hi)]
    · by_cases hy : y = c <;> simp [hy, List.count_singleton]

theorem all_of_class (dist : V → V → K) (X : List V) (Y : List K) (hY : Y.length = X.length) {k : ℕ} {q : V} {c : K} (h : Surrounded dist X Y k q c) {r : List (K × ℕ)}
    (hr : KNearest (fun i => dist q (X.getD i default)) X.length k r) : ∀ e ∈ r, Y[e.2]? = some c := by
  intro e he
  by_contra hne
  have hle : ((List.range Y.length).filter (fun i => decide (Y[i]? = some c))) ⊆ (r.map Prod.snd).erase e.2 := by
    intro i hi
    obtain ⟨hi1, hi2⟩ := List.mem_filter.1 hi
    have hi1 : i < X.length := by
      have := List.mem_range.1 hi1
      omega
    have hi2 : Y[i]? = some c := by simpa using hi2
    rw [hr.distinct.mem_erase_iff]
    refine ⟨fun e' => hne (e' ▸ hi2), ?_⟩
    by_contra hout
    have h1 := hr.best i hi1 hout e he
    obtain ⟨h2, h3⟩ := hr.own e he
    rw [h3] at h1
    simp only [List.getD_eq_getElem _ _ hi1, List.getD_eq_getElem _ _ h2] at h1
    exact absurd h1 (not_le.2 (h.2 i e.2 hi1 h2 hi2 hne))
  have hlen := (List.Nodup.subperm (List.nodup_range.filter _) hle).length_le
  rw [count_idx, List.length_erase_of_mem (List.mem_map_of_mem he), List.length_map, hr.len] at hlen
  have hpos : 0 < k := by
    rw [← hr.len]
    exact List.length_pos_of_mem he
  have := h.1
  omega

/-- **C235**, neighbours: when at least `k` training rows have the target `c` and these are nearer to the query than all others, the k-neighbours classifier and the k-neighbours regressor predict `c`, with both
weightings. -/
theorem C235_neighbours {sort : List (K × ℕ) → List (K × ℕ)} (hs : SortsAsc Prod.fst sort) (it : List (K × K) → List (K × K)) (hit : ∀ l, (it l).Perm l)
    (dist : V → V → K) (hd : ∀ a b, 0 ≤ dist a b) {eps : K} (heps : 0 < eps) (w : Knn.Weights) (X : List V) (Y : List K) (hY : Y.length = X.length) {k : ℕ} (hk0 : 0 < k)
    (q : V) (c : K) (h : Surrounded dist X Y k q c) :
    Knn.classify sort it dist eps w X Y k q = some c ∧ Knn.regress sort dist eps w X Y k q = some c := by
  have hk : k ≤ X.length := h.1.trans (List.count_le_length.trans_eq hY)
  have hval : ∀ {r : List (K × ℕ)}, KNearest (fun i => dist q (X.getD i default)) X.length k r → ∀ e ∈ r, Y.getD e.2 0 = c := by
    intro r hr e he
    rw [List.getD_eq_getElem?_getD, all_of_class dist X Y hY h hr e he, Option.getD_some]
  constructor
  · obtain ⟨r, c', hr, e, hm, -⟩ := Knn.C44_predict hs it hit dist hd heps w X Y hY hk0 hk q
    obtain ⟨a, ha, rfl⟩ := List.mem_map.1 hm
    rw [e, hval hr a ha]
  · obtain ⟨r, y, hr, e, -, -, hb⟩ := Knn.C79_regress hs dist hd heps w X Y hY hk0 hk q
    obtain ⟨h1, h2⟩ := hb c c (fun a ha => by rw [hval hr a ha]; exact ⟨le_refl _, le_refl _⟩)
    rw [e, le_antisymm h2 h1]

example : Surrounded (fun a b : ℚ => |a - b|) [0, 1, 10, 2] [5, 5, 7, 5] 2 (1 / 2) 5 := by
  refine ⟨by decide +kernel, ?_⟩
  intro i j hi hj
  have hi' : i < 4 := hi
  have hj' : j < 4 := hj
  interval_cases i <;> interval_cases j <;> simp <;> norm_num [abs_lt, lt_abs]

end Knn

end Sk.GroupsApart
