import Verif.Model.Neighbors
import Verif.Spec.Nearest
import Mathlib.Analysis.MeanInequalities
import Mathlib.Analysis.SpecialFunctions.Pow.Real
import Mathlib.Algebra.BigOperators.Fin

/-! # C39, C40 (brute force), C43, C75: distances, `KNeighbors`, `RadiusNeighbors`, `KNeighborsGraph` -/
set_option autoImplicit false

namespace Sk.Neigh

section Brute

variable {V D : Type} [LinearOrder D]

/-- Distances from `q` to the rows of `X`, by sample number. -/
def distTo [Inhabited V] (dist : V → V → D) (X : List V) (q : V) (i : ℕ) : D := dist q (X.getD i default)

theorem knn_pairs [Inhabited V] (dist : V → V → D) (X : List V) (q : V) :
    X.zipIdx.map (fun e => (dist q e.1, e.2)) = (List.range X.length).map (fun i => (distTo dist X q i, i)) := by
  apply List.ext_getElem
  · simp
  · intro i h1 h2
    simp only [List.length_map, List.length_zipIdx] at h1
    simp [distTo, h1]

theorem sorted_all [Inhabited V] (dist : V → V → D) (X : List V) (q : V) (sort : List (D × ℕ) → List (D × ℕ)) (hs : SortsAsc Prod.fst sort) :
    KNearest (distTo dist X q) X.length X.length (sort (X.zipIdx.map (fun e => (dist q e.1, e.2)))) := by
  rw [knn_pairs]
  obtain ⟨hp, ho⟩ := hs ((List.range X.length).map (fun i => (distTo dist X q i, i)))
  have hsnd : ((sort ((List.range X.length).map (fun i => (distTo dist X q i, i)))).map Prod.snd).Perm (List.range X.length) := by
    refine (hp.map Prod.snd).trans ?_
    rw [List.map_map]
    simp [Function.comp_def]
  refine ⟨by simpa using hp.length_eq, hsnd.nodup_iff.2 List.nodup_range, ?_, ho, ?_⟩
  · intro e he
    obtain ⟨i, hi, rfl⟩ := List.mem_map.1 (hp.mem_iff.1 he)
    exact ⟨List.mem_range.1 hi, rfl⟩
  · intro i hi hni
    exact absurd (hsnd.mem_iff.2 (List.mem_range.2 hi)) hni

theorem KNearest.take {dist : ℕ → D} {n m k : ℕ} {r : List (D × ℕ)} (h : KNearest dist n m r) (hk : k ≤ m) : KNearest dist n k (r.take k) := by
  refine ⟨by simp [h.len, hk], ?_, ?_, h.ordered.sublist (List.take_sublist _ _), ?_⟩
  · exact h.distinct.sublist ((List.take_sublist _ _).map _)
  · intro e he
    exact h.own e (List.mem_of_mem_take he)
  · intro i hi hni e he
    by_cases hir : i ∈ r.map Prod.snd
    · obtain ⟨e', he', rfl⟩ := List.mem_map.1 hir
      have hd : e' ∈ r.drop k := by
        rw [← List.take_append_drop k r, List.mem_append] at he'
        rcases he' with h1 | h1
        · exact absurd (List.mem_map_of_mem h1) hni
        · exact h1
      have ho := h.ordered
      rw [← List.take_append_drop k r, List.pairwise_append] at ho
      rw [← (h.own e' he').2]
      exact ho.2.2 e he e' hd
    · exact h.best i hi hir e (List.mem_of_mem_take he)

/-- **C39.** For every data set, query, distance function into a linear order, sort, and `k` up to the number of fitted samples, the brute force `KNeighbors`
returns `k` nearest samples: distinct, each with its distance, in order of non decreasing distance, none left out is closer.  Beyond the number of samples it
panics. -/
theorem C39_kneighbors [Inhabited V] (dist : V → V → D) (X : List V) (q : V) (sort : List (D × ℕ) → List (D × ℕ)) (hs : SortsAsc Prod.fst sort)
    (k : ℕ) :
    (k ≤ X.length → ∃ r, kNeighbors sort dist X k q = some r ∧ KNearest (fun i => dist q (X.getD i default)) X.length k r) ∧
    (X.length < k → kNeighbors sort dist X k q = none) := by
  have h := sorted_all dist X q sort hs
  have hl := h.len
  constructor
  · intro hk
    refine ⟨_, ?_, h.take hk⟩
    simp only [kNeighbors]
    rw [if_neg (by rw [hl]; omega)]
  · intro hk
    simp only [kNeighbors]
    rw [if_pos (by rw [hl]; omega)]

/-- **C39**, the distances do not depend on how the sort breaks ties. -/
theorem C39_ties [Inhabited V] (dist : V → V → D) (X : List V) (q : V) (sort sort' : List (D × ℕ) → List (D × ℕ)) (hs : SortsAsc Prod.fst sort)
    (hs' : SortsAsc Prod.fst sort') (k : ℕ) :
    (kNeighbors sort dist X k q).map (List.map Prod.fst) = (kNeighbors sort' dist X k q).map (List.map Prod.fst) := by
  rcases Nat.lt_or_ge X.length k with hk | hk
  · rw [(C39_kneighbors dist X q sort hs k).2 hk, (C39_kneighbors dist X q sort' hs' k).2 hk]
  · obtain ⟨r, e, h⟩ := (C39_kneighbors dist X q sort hs k).1 hk
    obtain ⟨r', e', h'⟩ := (C39_kneighbors dist X q sort' hs' k).1 hk
    rw [e, e', Option.map_some, Option.map_some, h.unique h']

example : kNeighbors (insAsc Prod.fst) (fun a b : ℤ => |a - b|) [5, 1, 9, 4, 1] 3 2 = some [(1, 1), (1, 4), (2, 3)] := by decide
example : SortsAsc (Prod.fst : ℤ × ℕ → ℤ) (insAsc Prod.fst) := insAsc_ok _

theorem takeWhile_mem {l : List (D × ℕ)} (ho : l.Pairwise (fun a b => a.1 ≤ b.1)) (radius : D) (e : D × ℕ) :
    e ∈ l.takeWhile (fun e => decide (e.1 ≤ radius)) ↔ e ∈ l ∧ e.1 ≤ radius := by
  induction l with
  | nil => simp
  | cons a l ih =>
    rw [List.pairwise_cons] at ho
    by_cases ha : a.1 ≤ radius
    · rw [List.takeWhile_cons_of_pos (by simpa using ha), List.mem_cons, List.mem_cons, ih ho.2]
      constructor
      · rintro (rfl | h)
        · exact ⟨Or.inl rfl, ha⟩
        · exact ⟨Or.inr h.1, h.2⟩
      · rintro ⟨rfl | h, h2⟩
        · exact Or.inl rfl
        · exact Or.inr ⟨h, h2⟩
    · rw [List.takeWhile_cons_of_neg (by simpa using ha)]
      constructor
      · simp
      · rintro ⟨h, h2⟩
        exfalso
        rcases List.mem_cons.1 h with rfl | h
        · exact ha h2
        · exact ha (le_trans (ho.1 e h) h2)

/-- **C40** (brute force). `RadiusNeighbors` returns exactly the fitted samples at distance at most the radius, each once, with its distance, nearest first. -/
theorem C40_radius [Inhabited V] (dist : V → V → D) (X : List V) (q : V) (radius : D) (sort : List (D × ℕ) → List (D × ℕ)) (hs : SortsAsc Prod.fst sort) :
    ∃ r, radiusNeighbors sort dist X radius q = some r ∧ Within (fun i => dist q (X.getD i default)) X.length radius r ∧
      r.Pairwise (fun a b => a.1 ≤ b.1) := by
  obtain ⟨r, e, h⟩ := (C39_kneighbors dist X q sort hs X.length).1 (Nat.le_refl _)
  refine ⟨_, by rw [radiusNeighbors, e, Option.map_some], ⟨?_, ?_, ?_⟩, h.ordered.sublist (List.takeWhile_sublist _)⟩
  · exact h.distinct.sublist ((List.takeWhile_sublist _).map _)
  · intro e he
    exact (h.own e ((takeWhile_mem h.ordered radius e).1 he).1).2
  · intro i
    rw [List.mem_map]
    constructor
    · rintro ⟨e, he, rfl⟩
      obtain ⟨h1, h2⟩ := (takeWhile_mem h.ordered radius e).1 he
      exact ⟨(h.own e h1).1, by rw [← (h.own e h1).2]; exact h2⟩
    · rintro ⟨hi, hd⟩
      have hir : i ∈ r.map Prod.snd := by
        by_contra hni
        have hlt : (r.map Prod.snd).toFinset.card < (Finset.range X.length).card := by
          apply Finset.card_lt_card
          refine ⟨?_, ?_⟩
          · intro j hj
            rw [List.mem_toFinset] at hj
            obtain ⟨e', he', rfl⟩ := List.mem_map.1 hj
            exact Finset.mem_range.2 (h.own e' he').1
          · intro hc
            exact hni (List.mem_toFinset.1 (hc (Finset.mem_range.2 hi)))
        rw [List.toFinset_card_of_nodup h.distinct, List.length_map, h.len, Finset.card_range] at hlt
        exact lt_irrefl _ hlt
      obtain ⟨e', he', rfl⟩ := List.mem_map.1 hir
      exact ⟨e', (takeWhile_mem h.ordered radius e').2 ⟨he', by rw [(h.own e' he').2]; exact hd⟩, rfl⟩

example : radiusNeighbors (insAsc Prod.fst) (fun a b : ℤ => |a - b|) [5, 1, 9, 4, 1] 2 2 = some [(1, 1), (1, 4), (2, 3)] := by decide

/-! ## `KNeighborsGraph` -/

variable {K : Type} [Field K] [LinearOrder K] [IsStrictOrderedRing K]

theorem graphRow_spec (includeSelf : Bool) (row : ℕ) (src : List ℕ) : ∀ (g : List K), (∀ i ∈ src, i < g.length) →
    ∃ g', graphRow includeSelf row src g = some g' ∧ g'.length = g.length ∧
      ∀ j, j < g.length → g'.getD j 0 = if j ∈ src ∧ (includeSelf = true ∨ j ≠ row) then 1 else g.getD j 0 := by
  induction src with
  | nil =>
    intro g _
    exact ⟨g, rfl, rfl, by simp⟩
  | cons a src ih =>
    intro g hg
    rw [List.forall_mem_cons] at hg
    rw [graphRow]
    by_cases hskip : row = a ∧ includeSelf = false
    · rw [if_pos (by simp [hskip.1, hskip.2])]
      obtain ⟨g', e, hl, h⟩ := ih g hg.2
      refine ⟨g', e, hl, fun j hj => ?_⟩
      rw [h j hj]
      apply if_congr _ rfl rfl
      rw [List.mem_cons, hskip.2]
      constructor
      · rintro ⟨h1, h2⟩
        exact ⟨Or.inr h1, h2⟩
      · rintro ⟨h1 | h1, h2⟩
        · rcases h2 with h2 | h2
          · simp at h2
          · exact absurd (h1.trans hskip.1.symm) h2
        · exact ⟨h1, h2⟩
    · have hns : ¬ ((decide (row = a) && !includeSelf) = true) := by
        intro hc
        rw [Bool.and_eq_true, decide_eq_true_eq, Bool.not_eq_true'] at hc
        exact hskip hc
      rw [if_neg hns, if_pos hg.1]
      obtain ⟨g', e, hl, h⟩ := ih (g.set a 1) (by simpa using hg.2)
      refine ⟨g', e, by simpa using hl, fun j hj => ?_⟩
      rw [h j (by simpa using hj)]
      by_cases hja : j = a
      · subst hja
        have hinc : includeSelf = true ∨ j ≠ row := by
          by_cases h1 : includeSelf = true
          · exact Or.inl h1
          · exact Or.inr (fun h2 => hskip ⟨h2.symm, by simpa using h1⟩)
        simp [hinc, hj]
      · have : (g.set a 1).getD j 0 = g.getD j 0 := by
          simp [List.getD_eq_getElem?_getD, List.getElem?_set_ne (Ne.symm hja)]
        rw [this]
        simp [hja]

/-- **C75** (partial). In "connectivity" mode row `row` of `KNeighborsGraph` has a one exactly at the `k` nearest samples (sample `row` left out unless
`includeSelf`), zero elsewhere.  The "distance" mode is refuted below. -/
theorem C75_graph_connectivity_partial [Inhabited V] (dist : V → V → D) (trunc : D → ℕ) (X : List V) (q : V) (sort : List (D × ℕ) → List (D × ℕ))
    (hs : SortsAsc Prod.fst sort) (k : ℕ) (hk : k ≤ X.length) (includeSelf : Bool) (row : ℕ) :
    ∃ (r : List (D × ℕ)) (g : List K), KNearest (fun i => dist q (X.getD i default)) X.length k r ∧
      kGraph sort dist trunc X k .connectivity includeSelf row q = some g ∧ g.length = X.length ∧
      ∀ j, j < X.length → g.getD j 0 = if j ∈ r.map Prod.snd ∧ (includeSelf = true ∨ j ≠ row) then 1 else 0 := by
  obtain ⟨r, e, h⟩ := (C39_kneighbors dist X q sort hs k).1 hk
  obtain ⟨g', eg, hl, hg⟩ := graphRow_spec (K := K) includeSelf row (r.map Prod.snd) (List.replicate X.length 0) (by
    intro i hi
    obtain ⟨e', he', rfl⟩ := List.mem_map.1 hi
    simpa using (h.own e' he').1)
  refine ⟨r, g', h, ?_, by simpa using hl, fun j hj => ?_⟩
  · simp only [kGraph, e, Option.bind_eq_bind, Option.bind_some]
    exact eg
  · rw [hg j (by simpa using hj)]
    simp [List.getD_eq_getElem?_getD, hj]

/-- **C75 is false for the "distance" mode.** The truncated distance is used as a column number.  Here the samples 0, 2, 4 on a line: sample 1 (at
distance 2 from the query) gets 0 and sample 2 (at distance 4, not among the 2 neighbours) gets the value 1. -/
theorem C75_graph_distance_violated :
    kGraph (K := ℚ) (insAsc Prod.fst) (fun a b : ℚ => |a - b|) (fun d => d.floor.toNat) [0, 2, 4] 2 .distance false 0 0 = some [0, 0, 1] := by
  decide +kernel

/-- … and in general every entry written in "distance" mode is 0 or 1, never a distance: a neighbour at a distance other than 0 and 1 is not represented. -/
theorem C75_graph_distance_values_violated (dist : V → V → D) (trunc : D → ℕ) (X : List V) (q : V) (sort : List (D × ℕ) → List (D × ℕ)) (k : ℕ)
    (includeSelf : Bool) (row : ℕ) (g : List K) (hg : kGraph sort dist trunc X k .distance includeSelf row q = some g) : ∀ v ∈ g, v = 0 ∨ v = 1 := by
  have aux : ∀ (src : List ℕ) (g0 g : List K), (∀ v ∈ g0, v = 0 ∨ v = 1) → graphRow includeSelf row src g0 = some g → ∀ v ∈ g, v = 0 ∨ v = 1 := by
    intro src
    induction src with
    | nil =>
      intro g0 g h0 e
      rw [graphRow, Option.some.injEq] at e
      exact e ▸ h0
    | cons a src ih =>
      intro g0 g h0 e
      rw [graphRow] at e
      split at e
      · exact ih g0 g h0 e
      · split at e
        · refine ih _ g ?_ e
          intro v hv
          rcases List.mem_or_eq_of_mem_set hv with h1 | h1
          · exact h0 v h1
          · exact Or.inr h1
        · cases e
  simp only [kGraph, Option.bind_eq_bind] at hg
  obtain ⟨nb, _, h2⟩ := Option.bind_eq_some_iff.1 hg
  refine aux _ _ g ?_ h2
  intro v hv
  exact Or.inl (List.eq_of_mem_replicate hv)

example : kGraph (K := ℚ) (insAsc Prod.fst) (fun a b : ℚ => |a - b|) (fun d => d.floor.toNat) [0, 2, 4] 2 .connectivity false 0 0 = some [0, 1, 0] := by
  decide +kernel

end Brute

/-! ## C43: the Minkowski distance -/

/-- The exponent `p` as a real number (finite). -/
noncomputable def rp (p : ℝ) : Mink ℝ := ⟨false, @decide (p = 1) (Classical.dec _), fun x => x ^ p, fun x => x ^ (1 / p)⟩

/-- `p = +Inf`. -/
noncomputable def rinf : Mink ℝ := ⟨true, false, id, id⟩

theorem zipWith_ofFn' {A B C : Type} {n : ℕ} (f : A → B → C) (a : Fin n → A) (b : Fin n → B) :
    List.zipWith f (List.ofFn a) (List.ofFn b) = List.ofFn (fun i => f (a i) (b i)) := by
  apply List.ext_getElem
  · simp
  · intro i h1 h2
    simp

theorem foldl_add_zero {K : Type} [Field K] (l : List K) : l.foldl (· + ·) 0 = l.sum := by
  rw [List.sum_eq_foldl]

/-- **C43** (partial). For every dimension other than 1 and every `p > 0`, `MinkowskiDistance(p)(a, b)` is `(Σ |a_i - b_i|^p)^(1/p)`.
Missing for the full claim: what `C43_one_feature_violated` refutes. -/
theorem C43_formula_partial {n : ℕ} (hn : n ≠ 1) (p : ℝ) (hp : 0 < p) (a b : Fin n → ℝ) :
    mink (rp p) (List.ofFn a) (List.ofFn b) = (∑ i, |a i - b i| ^ p) ^ (1 / p) := by
  have h1 : minkP (rp p) (List.ofFn a) (List.ofFn b) = ∑ i, |a i - b i| ^ p := by
    rw [minkP, if_neg (by simpa using hn)]
    simp only [rp, Bool.false_eq_true, if_false]
    rw [foldl_add_zero, zipWith_ofFn', List.sum_ofFn]
    exact Finset.sum_congr rfl (fun i _ => by rw [abs_sub_comm])
  rw [mink, h1]
  by_cases h : p = 1
  · simp [rp, h]
  · simp [rp, h]

/-- For one feature the distance is `|a - b|^(1/p)` unless `p` is 1 or infinite. -/
theorem mink_one (p : ℝ) (hp : p ≠ 1) (a b : ℝ) : mink (rp p) [a] [b] = |a - b| ^ (1 / p) := by
  simp [mink, minkP, rp, hp, abs_sub_comm]

/-- **C43 is false for one feature**: for every finite `p` other than 1 (the default is 2) and every pair at distance neither 0 nor 1, the value is not
`|a - b|`. -/
theorem C43_one_feature_violated (p : ℝ) (hp : 0 < p) (hp1 : p ≠ 1) (a b : ℝ) (h0 : |a - b| ≠ 0) (h1 : |a - b| ≠ 1) :
    mink (rp p) [a] [b] ≠ |a - b| := by
  rw [mink_one p hp1]
  intro h
  have hpos : 0 < |a - b| := lt_of_le_of_ne (abs_nonneg _) (Ne.symm h0)
  have hlog := congrArg Real.log h
  rw [Real.log_rpow hpos] at hlog
  have hl : Real.log |a - b| ≠ 0 := by
    intro hc
    rcases Real.log_eq_zero.1 hc with h2 | h2 | h2
    · exact h0 h2
    · exact h1 h2
    · linarith
  have : 1 / p = 1 := mul_right_cancel₀ hl (by rw [hlog, one_mul])
  rw [div_eq_one_iff_eq (ne_of_gt hp)] at this
  exact hp1 this.symm

/-- **C43** (partial). Zero exactly for equal vectors, symmetric, non negative and, for `p ≥ 1`, subject to the triangle inequality, in every dimension other
than 1.
Missing for the full claim: what `C43_one_feature_violated` refutes. -/
theorem C43_metric_partial {n : ℕ} (hn : n ≠ 1) (p : ℝ) (hp : 0 < p) (a b c : Fin n → ℝ) :
    (mink (rp p) (List.ofFn a) (List.ofFn b) = 0 ↔ a = b) ∧
    mink (rp p) (List.ofFn a) (List.ofFn b) = mink (rp p) (List.ofFn b) (List.ofFn a) ∧
    0 ≤ mink (rp p) (List.ofFn a) (List.ofFn b) ∧
    (1 ≤ p → mink (rp p) (List.ofFn a) (List.ofFn c) ≤ mink (rp p) (List.ofFn a) (List.ofFn b) + mink (rp p) (List.ofFn b) (List.ofFn c)) := by
  simp only [C43_formula_partial hn p hp]
  have hnn : ∀ a b : Fin n → ℝ, 0 ≤ ∑ i, |a i - b i| ^ p := fun a b => Finset.sum_nonneg (fun i _ => Real.rpow_nonneg (abs_nonneg _) _)
  refine ⟨?_, ?_, ?_, ?_⟩
  · rw [Real.rpow_eq_zero (hnn a b) (by positivity), Finset.sum_eq_zero_iff_of_nonneg (fun i _ => Real.rpow_nonneg (abs_nonneg _) _)]
    constructor
    · intro h
      funext i
      have := h i (Finset.mem_univ i)
      rw [Real.rpow_eq_zero (abs_nonneg _) (ne_of_gt hp), abs_eq_zero, sub_eq_zero] at this
      exact this
    · rintro rfl i _
      rw [sub_self, abs_zero, Real.zero_rpow (ne_of_gt hp)]
  · congr 1
    exact Finset.sum_congr rfl (fun i _ => by rw [abs_sub_comm])
  · exact Real.rpow_nonneg (hnn a b) _
  · intro hp1
    have := Real.Lp_add_le Finset.univ (fun i => a i - b i) (fun i => b i - c i) hp1
    simpa using this

/-- **C43** for `p = +Inf`: the largest coordinate difference, in every dimension (also 1). -/
theorem C43_inf {n : ℕ} (a b : Fin n → ℝ) :
    (∀ i, |a i - b i| ≤ mink rinf (List.ofFn a) (List.ofFn b)) ∧
    (n ≠ 0 → ∃ i, mink rinf (List.ofFn a) (List.ofFn b) = |a i - b i|) ∧
    (n = 0 → mink rinf (List.ofFn a) (List.ofFn b) = 0) := by
  by_cases hn : n = 1
  · subst hn
    have : mink rinf (List.ofFn a) (List.ofFn b) = |a 0 - b 0| := by
      simp [mink, minkP, rinf, abs_sub_comm]
    refine ⟨fun i => ?_, fun _ => ⟨0, this⟩, fun h => absurd h one_ne_zero⟩
    rw [this, Subsingleton.elim i 0]
  · have e : mink rinf (List.ofFn a) (List.ofFn b) = (List.ofFn (fun i => |a i - b i|)).foldl max 0 := by
      have h1 : minkP rinf (List.ofFn a) (List.ofFn b) = (List.ofFn (fun i => |a i - b i|)).foldl max 0 := by
        rw [minkP, if_neg (by simpa using hn)]
        simp only [rinf, if_true]
        rw [zipWith_ofFn']
        simp [abs_sub_comm]
      rw [mink, h1]
      simp [rinf]
    have hle : ∀ (l : List ℝ) (m : ℝ), m ≤ l.foldl max m ∧ (∀ x ∈ l, x ≤ l.foldl max m) ∧ (l.foldl max m = m ∨ l.foldl max m ∈ l) := by
      intro l
      induction l with
      | nil => intro m; simp
      | cons x l ih =>
        intro m
        obtain ⟨h1, h2, h3⟩ := ih (max m x)
        simp only [List.foldl_cons]
        refine ⟨le_trans (le_max_left _ _) h1, ?_, ?_⟩
        · intro y hy
          rcases List.mem_cons.1 hy with rfl | hy
          · exact le_trans (le_max_right _ _) h1
          · exact h2 y hy
        · rcases h3 with h3 | h3
          · rw [h3]
            rcases max_choice m x with h | h
            · exact Or.inl h
            · rw [h]
              exact Or.inr List.mem_cons_self
          · exact Or.inr (List.mem_cons_of_mem _ h3)
    obtain ⟨_, h2, h3⟩ := hle (List.ofFn (fun i => |a i - b i|)) 0
    rw [e]
    refine ⟨fun i => h2 _ (List.mem_ofFn.2 ⟨i, rfl⟩), fun h0 => ?_, fun h0 => ?_⟩
    · rcases h3 with h3 | h3
      · refine ⟨⟨0, Nat.pos_of_ne_zero h0⟩, ?_⟩
        apply le_antisymm
        · rw [h3]
          exact abs_nonneg _
        · exact h2 _ (List.mem_ofFn.2 ⟨_, rfl⟩)
      · obtain ⟨i, hi⟩ := List.mem_ofFn.1 h3
        exact ⟨i, hi.symm⟩
    · subst h0
      simp

/-- Two features, `p = 2`: the usual distance, here 5. -/
example : mink (rp 2) [0, 0] [3, 4] = 5 := by
  have := C43_formula_partial (n := 2) (by decide) 2 (by norm_num) ![0, 0] ![3, 4]
  simp only [List.ofFn_succ, List.ofFn_zero, Matrix.cons_val_zero, Matrix.cons_val_succ] at this
  rw [this, Fin.sum_univ_two]
  have h25 : (|(![0, 0] : Fin 2 → ℝ) 0 - (![3, 4] : Fin 2 → ℝ) 0| ^ (2 : ℝ) + |(![0, 0] : Fin 2 → ℝ) 1 - (![3, 4] : Fin 2 → ℝ) 1| ^ (2 : ℝ)) = 5 ^ (2 : ℝ) := by
    norm_num
  rw [h25, ← Real.rpow_mul (by norm_num)]
  norm_num

/-- One feature, `p = 2`: points 4 apart are at "distance" 2. -/
example : mink (rp 2) [1] [5] ≠ 4 := by
  have := C43_one_feature_violated 2 (by norm_num) (by norm_num) 1 5 (by norm_num) (by norm_num)
  norm_num at this ⊢
  exact this

end Sk.Neigh
