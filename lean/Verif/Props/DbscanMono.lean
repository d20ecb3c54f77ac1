import Verif.Props.ClusterInvariance

/-! # C209: DBSCAN with a larger radius, a smaller `MinSamples` or more samples -/
set_option autoImplicit false

namespace Sk.Dbscan

open Sk.Neigh

variable {K : Type} [Field K] [LinearOrder K] [IsStrictOrderedRing K] {V D : Type} [LinearOrder D] [Inhabited V]

/-- `weight'` are the weights of the first `n` samples, `weight`, followed by those of `m` further ones, none negative; or there are no weights at all. -/
def MoreWeights (n m : ℕ) (weight weight' : Option (List K)) : Prop :=
  (weight = none ∧ weight' = none) ∨
    ∃ w v : List K, weight = some w ∧ weight' = some (w ++ v) ∧ w.length = n ∧ v.length = m ∧ (∀ x ∈ w, 0 ≤ x) ∧ ∀ x ∈ v, 0 ≤ x

theorem filter_sum_le (f f' : ℕ → K) (p q : ℕ → Bool) : ∀ l : List ℕ, (∀ j ∈ l, f' j = f j ∧ 0 ≤ f j ∧ (p j = true → q j = true)) → ((l.filter p).map f).sum ≤ ((l.filter q).map f').sum := by
  intro l
  induction l with
  | nil => intro _; simp
  | cons a l ih =>
    intro h
    rw [List.forall_mem_cons] at h
    obtain ⟨⟨h1, h2, h3⟩, h⟩ := h
    have := ih h
    by_cases hp : p a = true
    · rw [List.filter_cons_of_pos hp, List.filter_cons_of_pos (h3 hp)]
      simp only [List.map_cons, List.sum_cons, h1]
      linarith
    · rw [List.filter_cons_of_neg hp]
      by_cases hq : q a = true
      · rw [List.filter_cons_of_pos hq]
        simp only [List.map_cons, List.sum_cons, h1]
        linarith
      · rwa [List.filter_cons_of_neg hq]

theorem MoreWeights.nonneg {n m : ℕ} {weight weight' : Option (List K)} (h : MoreWeights n m weight weight') (j : ℕ) : 0 ≤ weightOf weight' j := by
  rcases h with ⟨-, rfl⟩ | ⟨w, v, -, rfl, -, -, h1, h2⟩
  · exact zero_le_one
  · rw [weightOf, List.getD_eq_getElem?_getD]
    cases e : (w ++ v)[j]? with
    | none => exact le_rfl
    | some x =>
      rcases List.mem_append.1 (List.mem_of_getElem? e) with h | h
      · exact h1 x h
      · exact h2 x h

theorem MoreWeights.same {n m : ℕ} {weight weight' : Option (List K)} (h : MoreWeights n m weight weight') (j : ℕ) (hj : j < n) : weightOf weight' j = weightOf weight j := by
  rcases h with ⟨rfl, rfl⟩ | ⟨w, v, rfl, rfl, rfl, -, -, -⟩
  · rfl
  · simp only [weightOf]
    rw [List.getD_eq_getElem?_getD, List.getElem?_append_left hj, ← List.getD_eq_getElem?_getD]

theorem density_mono (dist : V → V → D) {eps eps' : D} (he : eps ≤ eps') (X Z : List V) {weight weight' : Option (List K)} (h : MoreWeights X.length Z.length weight weight') (i : ℕ) (hi : i < X.length) :
    density dist eps weight X i ≤ density dist eps' weight' (X ++ Z) i := by
  rw [density, density, List.length_append, List.range_add, List.filter_append, List.map_append, List.sum_append]
  have hx : ∀ j, j < X.length → (X ++ Z).getD j default = X.getD j default := fun j hj => by
    rw [List.getD_eq_getElem?_getD, List.getElem?_append_left hj, ← List.getD_eq_getElem?_getD]
  refine le_add_of_le_of_nonneg (filter_sum_le _ _ _ _ _ (fun j hj => ?_)) ?_
  · have hj := List.mem_range.1 hj
    refine ⟨h.same j hj, ?_, ?_⟩
    · rw [← h.same j hj]; exact h.nonneg j
    · simp only [decide_eq_true_eq, hx i hi, hx j hj]
      exact fun hd => hd.trans he
  · apply List.sum_nonneg
    intro x hx
    obtain ⟨j, _, rfl⟩ := List.mem_map.1 hx
    exact h.nonneg j

/-- **C209** (partial). Let a second fit have a radius at least as large, `MinSamples` at most as large, and the same samples possibly followed by further ones, with weights that are not negative.
Then the core samples of the first fit are core samples of the second; samples that were in a cluster still are; and core samples that shared their cluster still do, whatever the sorts and the old labels.
Missing for the full claim (any two samples that shared a cluster still do): `C209_border_violated`; without the condition on the weights: `C209_negative_violated`. -/
theorem C209_monotone_partial {sort sort' : List (D × ℕ) → List (D × ℕ)} (hs : SortsAsc Prod.fst sort) (hs' : SortsAsc Prod.fst sort') (dist : V → V → D) (hsym : ∀ a b, dist a b = dist b a)
    {eps eps' : D} (he : eps ≤ eps') {ms ms' : K} (hm : ms' ≤ ms) (X Z : List V) {weight weight' : Option (List K)} (hw : MoreWeights X.length Z.length weight weight') (l l' : List ℤ) :
    ∃ r r', fit sort dist eps ms weight X ⟨l, []⟩ = some r ∧ fit sort' dist eps' ms' weight' (X ++ Z) ⟨l', []⟩ = some r' ∧
      (∀ i ∈ r.core, i ∈ r'.core) ∧
      (∀ i, i < X.length → r.labels[i]? ≠ some (-1) → r'.labels[i]? ≠ some (-1)) ∧
      ∀ i j, i ∈ r.core → j ∈ r.core → r.labels[i]? = r.labels[j]? → r'.labels[i]? = r'.labels[j]? := by
  obtain ⟨r, h1, h2, ⟨k, h3⟩, c, h4, -, h6⟩ := fit_spec_on sort hs dist eps ms weight X (fun a _ b _ => hsym a b)
    (by rcases hw with ⟨rfl, -⟩ | ⟨w, v, rfl, -, h, -⟩ <;> simp [*]) ⟨l, []⟩
  obtain ⟨r', h1', h2', ⟨k', h3'⟩, c', h4', -, h6'⟩ := fit_spec_on sort' hs' dist eps' ms' weight' (X ++ Z) (fun a _ b _ => hsym a b)
    (by rcases hw with ⟨-, rfl⟩ | ⟨w, v, -, rfl, h, h', -⟩ <;> simp [*]) ⟨l', []⟩
  simp only [List.nil_append] at h4 h4'
  subst h4 h4'
  have hXZ : ∀ i, i < X.length → i < (X ++ Z).length := fun i hi => by rw [List.length_append]; omega
  have hx : ∀ j, j < X.length → (X ++ Z).getD j default = X.getD j default := fun j hj => by
    rw [List.getD_eq_getElem?_getD, List.getElem?_append_left hj, ← List.getD_eq_getElem?_getD]
  have hcore : ∀ i, (i < X.length ∧ ms < density dist eps weight X i) → (i < (X ++ Z).length ∧ ms' < density dist eps' weight' (X ++ Z) i) := fun i hi =>
    ⟨hXZ i hi.1, hm.trans_lt (hi.2.trans_le (density_mono dist he X Z hw i hi.1))⟩
  have hnear : ∀ i j, i < X.length → Near dist eps X i j → Near dist eps' (X ++ Z) i j := fun i j hi hij => by
    refine ⟨hXZ j hij.1, ?_⟩
    rw [hx i hi, hx j hij.1]
    exact hij.2.trans he
  have hlab : ∀ i, i < X.length → r.labels[i]? = some (r.labels.getD i (-1)) := fun i hi => by simp [h2, hi]
  have hlab' : ∀ i, i < X.length → r'.labels[i]? = some (r'.labels.getD i (-1)) := fun i hi => by
    have := hXZ i hi
    rw [List.length_append] at this
    simp [h2', this]
  refine ⟨r, r', h1, h1', fun i hi => (h6' i).2 (hcore i ((h6 i).1 hi)), fun i hi => ?_, fun i j hi hj => ?_⟩
  · rw [hlab i hi, hlab' i hi, Ne, Ne, Option.some_inj, Option.some_inj]
    intro hn
    by_cases hc' : i < (X ++ Z).length ∧ ms' < density dist eps' weight' (X ++ Z) i
    · exact h3'.core_clustered i (hXZ i hi) hc'
    · obtain ⟨j, hj, hcj, hji, -⟩ := h3.border i hi (fun hc => hc' (hcore i hc)) hn
      intro e
      exact (h3'.noise_iff i (hXZ i hi) hc').1 e j (hXZ j hj) (hcore j hcj) (hnear j i hj hji)
  · have hi := (h6 i).1 hi
    have hj := (h6 j).1 hj
    rw [hlab i hi.1, hlab j hj.1, hlab' i hi.1, hlab' j hj.1, Option.some_inj, Option.some_inj]
    intro e
    refine (h3'.same_iff i j (hXZ i hi.1) (hXZ j hj.1) (hcore i hi) (hcore j hj)).2 ?_
    refine Relation.ReflTransGen.lift id ?_ _ _ ((h3.same_iff i j hi.1 hj.1 hi hj).1 e)
    exact fun a b hab => ⟨hcore a hab.1, hcore b hab.2.1, hnear a b hab.1.1 hab.2.2⟩

/-- A larger radius, a smaller threshold and two more samples: noise becomes a border sample, two clusters become one. -/
example : (fit (K := ℚ) (insAsc Prod.fst) (fun a b : ℤ => |a - b|) 1 2 none [0, 1, 2, 5, 6, 7, 9] ⟨[], []⟩).map (fun s => (s.labels, s.core)) = some ([0, 0, 0, 1, 1, 1, -1], [1, 4]) ∧
    (fit (K := ℚ) (insAsc Prod.fst) (fun a b : ℤ => |a - b|) 2 2 none ([0, 1, 2, 5, 6, 7, 9] ++ [3, 20]) ⟨[], []⟩).map (fun s => (s.labels, s.core)) = some ([0, 0, 0, 0, 0, 0, 0, 0, -1], [0, 1, 2, 3, 4, 5, 7]) ∧
    MoreWeights (K := ℚ) 7 2 none none := ⟨by decide +kernel, by decide +kernel, Or.inl ⟨rfl, rfl⟩⟩

/-! ### The two ends of the scale -/

theorem sum_filter_all (f : ℕ → K) (p : ℕ → Bool) (l : List ℕ) (h : ∀ j ∈ l, p j = true) : ((l.filter p).map f).sum = (l.map f).sum := by
  rw [List.filter_eq_self.2 h]

/-- **C209, one cluster.** If all samples are within the radius of each other and `MinSamples` is below the total weight (the number of samples without weights), then all samples are core samples of
cluster 0. -/
theorem C209_one_cluster {sort : List (D × ℕ) → List (D × ℕ)} (hs : SortsAsc Prod.fst sort) (dist : V → V → D) (hsym : ∀ a b, dist a b = dist b a) (eps : D) (ms : K) (X : List V) (weight : Option (List K))
    (hw : ∀ w, weight = some w → w.length = X.length) (hall : ∀ a ∈ X, ∀ b ∈ X, dist a b ≤ eps) (hms : ms < weight.elim (X.length : K) List.sum) (l : List ℤ) :
    fit sort dist eps ms weight X ⟨l, []⟩ = some ⟨List.replicate X.length 0, List.range X.length⟩ := by
  obtain ⟨r, h1, h2, ⟨k, h3⟩, c, h4, h5, h6⟩ := fit_spec_on sort hs dist eps ms weight X (fun a _ b _ => hsym a b) hw ⟨l, []⟩
  simp only [List.nil_append] at h4
  subst h4
  have hmem : ∀ i, i < X.length → X.getD i default ∈ X := fun i hi => by simp [hi]
  have hden : ∀ i, i < X.length → density dist eps weight X i = weight.elim (X.length : K) List.sum := by
    intro i hi
    rw [density, sum_filter_all _ _ _ (fun j hj => by simpa using hall _ (hmem i hi) _ (hmem j (List.mem_range.1 hj)))]
    cases weight with
    | none => rw [show (weightOf none : ℕ → K) = fun _ => 1 from rfl]; simp
    | some w =>
      simp only [Option.elim, ← hw w rfl]
      congr 1
      apply List.ext_getElem
      · simp
      · intro i _ h
        simp [weightOf, h]
  have hcore : ∀ i, i < X.length → i < X.length ∧ ms < density dist eps weight X i := fun i hi => ⟨hi, by rw [hden i hi]; exact hms⟩
  have hlab : ∀ i, i < X.length → r.labels.getD i (-1) = 0 := by
    intro i hi
    have h0 : 0 < X.length := by omega
    have hr := (h3.range i hi).resolve_left (h3.core_clustered i hi (hcore i hi))
    obtain ⟨a, ha, -, hl, -⟩ := h3.first 0 (by omega)
    have : r.labels.getD i (-1) = r.labels.getD a (-1) := (h3.same_iff i a hi ha (hcore i hi) (hcore a ha)).2
      (Relation.ReflTransGen.single ⟨hcore i hi, hcore a ha, ha, hall _ (hmem i hi) _ (hmem a ha)⟩)
    rw [this, hl]
    rfl
  rw [h1]
  congr 1
  have e1 : r.labels = List.replicate X.length 0 := by
    apply List.ext_getElem (by simp [h2])
    intro i hi _
    have := hlab i (by omega)
    simpa [hi] using this
  have e2 : r.core = List.range X.length := by
    refine List.Perm.eq_of_pairwise (le := (· < ·)) (fun a b _ _ h1 h2 => absurd h1 (lt_asymm h2)) h5 List.pairwise_lt_range ((List.perm_ext_iff_of_nodup (h5.imp ne_of_lt) List.nodup_range).2 ?_)
    intro i
    rw [h6, List.mem_range]
    exact ⟨And.left, hcore i⟩
  cases r
  simp only at e1 e2
  rw [e1, e2]

/-- **C209, only noise.** If `MinSamples` is at least the total weight (the number of samples without weights; no weight being negative), there are no core samples and all samples are noise. -/
theorem C209_only_noise {sort : List (D × ℕ) → List (D × ℕ)} (hs : SortsAsc Prod.fst sort) (dist : V → V → D) (hsym : ∀ a b, dist a b = dist b a) (eps : D) (ms : K) (X : List V) (weight : Option (List K))
    (hw : ∀ w, weight = some w → w.length = X.length ∧ ∀ x ∈ w, 0 ≤ x) (hms : weight.elim (X.length : K) List.sum ≤ ms) (l : List ℤ) :
    fit sort dist eps ms weight X ⟨l, []⟩ = some ⟨List.replicate X.length (-1), []⟩ := by
  obtain ⟨r, h1, h2, ⟨k, h3⟩, c, h4, h5, h6⟩ := fit_spec_on sort hs dist eps ms weight X (fun a _ b _ => hsym a b) (fun w e => (hw w e).1) ⟨l, []⟩
  simp only [List.nil_append] at h4
  subst h4
  have hMW : MoreWeights X.length 0 weight weight := by
    cases weight with
    | none => exact Or.inl ⟨rfl, rfl⟩
    | some w => exact Or.inr ⟨w, [], rfl, by simp, (hw w rfl).1, rfl, (hw w rfl).2, by simp⟩
  have hden : ∀ i, density dist eps weight X i ≤ weight.elim (X.length : K) List.sum := by
    intro i
    have := filter_sum_le (weightOf weight) (weightOf weight) (fun j => decide (dist (X.getD i default) (X.getD j default) ≤ eps)) (fun _ => true) (List.range X.length) (fun j _ => ⟨rfl, hMW.nonneg j, fun _ => rfl⟩)
    rw [density]
    refine this.trans (le_of_eq ?_)
    rw [sum_filter_all _ _ _ (fun _ _ => rfl)]
    cases weight with
    | none => rw [show (weightOf none : ℕ → K) = fun _ => 1 from rfl]; simp
    | some w =>
      simp only [Option.elim, ← (hw w rfl).1]
      congr 1
      apply List.ext_getElem
      · simp
      · intro i _ h
        simp [weightOf, h]
  have hcore : ∀ i, ¬ (i < X.length ∧ ms < density dist eps weight X i) := fun i h => absurd h.2 (not_lt.2 ((hden i).trans hms))
  rw [h1]
  congr 1
  have e1 : r.labels = List.replicate X.length (-1) := by
    apply List.ext_getElem (by simp [h2])
    intro i hi _
    have := (h3.noise_iff i (by omega) (hcore i)).2 (fun j _ hj => absurd hj (hcore j))
    simpa [hi] using this
  have e2 : r.core = [] := List.eq_nil_iff_forall_not_mem.2 (fun i hi => hcore i ((h6 i).1 hi))
  cases r
  simp only at e1 e2
  rw [e1, e2]

example : (∀ a ∈ [(0 : ℤ), 3, 5], ∀ b ∈ [(0 : ℤ), 3, 5], |a - b| ≤ 5) ∧ (2 : ℚ) < (none : Option (List ℚ)).elim (([(0 : ℤ), 3, 5].length : ℕ) : ℚ) List.sum ∧
    (some [1, (1/2 : ℚ), 1]).elim (([(0 : ℤ), 3, 5].length : ℕ) : ℚ) List.sum ≤ (5/2 : ℚ) := by
  refine ⟨by decide, ?_, ?_⟩ <;> norm_num

/-! ### What is not monotone -/

/-- Eleven samples on a line: two groups, joined by a border sample, and first a sample of the right group that is a core sample only with the smaller threshold. -/
def eleven {F : Type} [Field F] (a e : F) : List F :=
  [a + 2 * e, a - 2 * e, a - 2 * e, a - 2 * e, a - 2 * e, a - e, a, a + e, a + 2 * e, a + 2 * e, a + 2 * e]

/-- With `MinSamples` 5 the samples 5 and 6 are in one cluster; with `MinSamples` 4 they are in two, for every origin and radius: a sample between two clusters joins the one that is numbered first. -/
theorem C209_border_violated {F : Type} [Field F] [LinearOrder F] [IsStrictOrderedRing F] {sort : List (F × ℕ) → List (F × ℕ)} (hs : SortsAsc Prod.fst sort) (a e : F) (he : 0 < e) (st : State) :
    ∃ r r', fit (K := ℚ) sort (fun x y => |x - y|) e 5 none (eleven a e) st = some r ∧ fit (K := ℚ) sort (fun x y => |x - y|) e 4 none (eleven a e) st = some r' ∧
      r.labels[5]? = r.labels[6]? ∧ r'.labels[5]? ≠ r'.labels[6]? ∧ r'.labels = [0, 1, 1, 1, 1, 1, 0, 0, 0, 0, 0] := by
  haveI : Inhabited F := ⟨0⟩
  have key : ∀ (ms : ℚ) (X : List F) (Z : List ℤ), X = Z.map (fun z : ℤ => a + e * (z : F)) → ∃ cores, fit (K := ℚ) sort (fun x y => |x - y|) e ms none X st = some ⟨((fit (K := ℚ) (insAsc Prod.fst) (fun x y : ℤ => |x - y|) 1 ms none Z ⟨[], []⟩).map State.labels).getD [], cores⟩ := by
    intro ms X Z hXZ
    obtain ⟨l, c, h1, h2⟩ := C196_dbscan_determined (K := ℚ) (insAsc_ok Prod.fst) hs (fun x y : ℤ => |x - y|) (fun x y : F => |x - y|) 1 e ms none Z X (by rw [hXZ]; simp)
      (fun a _ b _ => abs_sub_comm a b) (fun a _ b _ => abs_sub_comm a b) (fun i j hi hj => by
        subst hXZ
        simp only [List.getElem_map]
        rw [show a + e * ((Z[i] : ℤ) : F) - (a + e * ((Z[j] : ℤ) : F)) = e * ((Z[i] - Z[j] : ℤ) : F) by push_cast; ring, abs_mul, abs_of_pos he]
        rw [mul_le_iff_le_one_right he]
        exact_mod_cast Iff.rfl) (by simp) ⟨[], []⟩ st
    rw [h2, h1]
    exact ⟨_, rfl⟩
  have hX : eleven a e = [2, -2, -2, -2, -2, -1, 0, 1, 2, 2, 2].map (fun z : ℤ => a + e * (z : F)) := by
    simp [eleven]; ring_nf; simp
  obtain ⟨c, h⟩ := key 5 (eleven a e) _ hX
  obtain ⟨c', h'⟩ := key 4 (eleven a e) _ hX
  have e1 : ((fit (K := ℚ) (insAsc Prod.fst) (fun x y : ℤ => |x - y|) 1 5 none [2, -2, -2, -2, -2, -1, 0, 1, 2, 2, 2] ⟨[], []⟩).map State.labels).getD [] = [1, 0, 0, 0, 0, 0, 0, 1, 1, 1, 1] := by decide +kernel
  have e2 : ((fit (K := ℚ) (insAsc Prod.fst) (fun x y : ℤ => |x - y|) 1 4 none [2, -2, -2, -2, -2, -1, 0, 1, 2, 2, 2] ⟨[], []⟩).map State.labels).getD [] = [0, 1, 1, 1, 1, 1, 0, 0, 0, 0, 0] := by decide +kernel
  refine ⟨_, _, h, h', ?_, ?_, ?_⟩
  · simp only [e1]; rfl
  · simp only [e2]; decide
  · exact e2

/-- With negative weights a larger radius may turn a core sample into noise: any two samples that only the larger radius reaches, weights `u` and `v` with `ms < u` and `u + v ≤ ms`, `v ≤ ms`. -/
theorem C209_negative_violated {sort : List (D × ℕ) → List (D × ℕ)} (hs : SortsAsc Prod.fst sort) (dist : V → V → D) (hsym : ∀ a b, dist a b = dist b a) (x y : V) {eps eps' : D} (hx : dist x x ≤ eps) (hy : dist y y ≤ eps)
    (h1 : eps < dist x y) (h2 : dist x y ≤ eps') {ms u v : K} (hu : ms < u) (huv : u + v ≤ ms) (hv : v ≤ ms) (l : List ℤ) :
    (∃ r, fit sort dist eps ms (some [u, v]) [x, y] ⟨l, []⟩ = some r ∧ r.core = [0] ∧ r.labels[0]? ≠ some (-1)) ∧ fit sort dist eps' ms (some [u, v]) [x, y] ⟨l, []⟩ = some ⟨[-1, -1], []⟩ := by
  constructor
  · obtain ⟨r, g1, g2, ⟨k, g3⟩, c, g4, g5, g6⟩ := fit_spec_on sort hs dist eps ms (some [u, v]) [x, y] (fun a _ b _ => hsym a b) (by simp) ⟨l, []⟩
    simp only [List.nil_append] at g4
    subst g4
    have d0 : density dist eps (some [u, v]) [x, y] 0 = u := by
      simp [density, List.range_succ, weightOf, hx, not_le.2 h1]
    have d1 : density dist eps (some [u, v]) [x, y] 1 = v := by
      have : ¬ dist y x ≤ eps := by rw [hsym]; exact not_le.2 h1
      simp [density, List.range_succ, weightOf, hy, this]
    have c0 := (g6 0).2 ⟨by simp, by rw [d0]; exact hu⟩
    refine ⟨r, g1, ?_, ?_⟩
    · refine List.Perm.eq_of_pairwise (le := (· < ·)) (fun a b _ _ h1 h2 => absurd h1 (lt_asymm h2)) g5 (by simp) ((List.perm_ext_iff_of_nodup (g5.imp ne_of_lt) (by simp)).2 ?_)
      intro i
      rw [List.mem_singleton]
      refine ⟨fun hi => ?_, fun e => e ▸ c0⟩
      obtain ⟨a, b⟩ := (g6 i).1 hi
      have a : i < 2 := by simpa using a
      rcases (show i = 0 ∨ i = 1 by omega) with rfl | rfl
      · rfl
      · rw [d1] at b
        exact absurd b (not_lt.2 hv)
    · have := g3.core_clustered 0 (by simp) ((g6 0).1 c0)
      simpa [g2] using this
  · obtain ⟨r, g1, g2, ⟨k, g3⟩, c, g4, g5, g6⟩ := fit_spec_on sort hs dist eps' ms (some [u, v]) [x, y] (fun a _ b _ => hsym a b) (by simp) ⟨l, []⟩
    simp only [List.nil_append] at g4
    subst g4
    have he : eps ≤ eps' := (h1.trans_le h2).le
    have h2' : dist y x ≤ eps' := by rw [hsym]; exact h2
    have d0 : density dist eps' (some [u, v]) [x, y] 0 = u + v := by
      simp [density, List.range_succ, weightOf, hx.trans he, h2]
    have d1 : density dist eps' (some [u, v]) [x, y] 1 = u + v := by
      simp [density, List.range_succ, weightOf, hy.trans he, h2']
    have hcore : ∀ i, ¬ (i < [x, y].length ∧ ms < density dist eps' (some [u, v]) [x, y] i) := by
      rintro i ⟨a, b⟩
      have a : i < 2 := by simpa using a
      rcases (show i = 0 ∨ i = 1 by omega) with rfl | rfl
      · rw [d0] at b; exact absurd b (not_lt.2 huv)
      · rw [d1] at b; exact absurd b (not_lt.2 huv)
    rw [g1]
    congr 1
    have e1 : r.labels = [-1, -1] := by
      apply List.ext_getElem (by simp [g2])
      intro i hi hi'
      have := (g3.noise_iff i (by simpa [g2] using hi) (hcore i)).2 (fun j _ hj => absurd hj (hcore j))
      have hi' : i < 2 := by simpa using hi'
      rcases (show i = 0 ∨ i = 1 by omega) with rfl | rfl <;> simpa [hi] using this
    have e2 : r.core = [] := List.eq_nil_iff_forall_not_mem.2 (fun i hi => hcore i ((g6 i).1 hi))
    cases r
    simp only at e1 e2
    rw [e1, e2]

example : |(0 : ℤ) - 0| ≤ 1 ∧ (1 : ℤ) < |0 - 3| ∧ |(0 : ℤ) - 3| ≤ 4 ∧ (1 : ℚ) < 2 ∧ (2 : ℚ) + (-1) ≤ 1 ∧ (-1 : ℚ) ≤ 1 := by
  refine ⟨by decide, by decide, by decide, ?_, ?_, ?_⟩ <;> norm_num

end Sk.Dbscan
