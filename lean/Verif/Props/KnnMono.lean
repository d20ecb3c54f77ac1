import Verif.Props.KnnInvariance

/-! # C210: how neighbours change with `k`, the radius and the training set -/
set_option autoImplicit false

namespace Sk.KnnMono

open Sk.Neigh Sk.Knn Sk.KnnInv

section
variable {V D : Type} [LinearOrder D] [Inhabited V]

/-- **C210, k.** The first `k` distances found with `k'` neighbours are those found with `k`, for all `k ≤ k'` and all sorts; with the same sort the samples are the same too. -/
theorem C210_more_neighbours {sort sort' : List (D × ℕ) → List (D × ℕ)} (hs : SortsAsc Prod.fst sort) (hs' : SortsAsc Prod.fst sort') (dist : V → V → D) (X : List V) (q : V) {k k' : ℕ} (hk : k ≤ k') (hk' : k' ≤ X.length) :
    ∃ r r', kNeighbors sort dist X k q = some r ∧ kNeighbors sort' dist X k' q = some r' ∧ r.map Prod.fst <+: r'.map Prod.fst ∧ (sort = sort' → r <+: r') := by
  obtain ⟨r, e, h⟩ := (C39_kneighbors dist X q sort hs k).1 (hk.trans hk')
  obtain ⟨r', e', h'⟩ := (C39_kneighbors dist X q sort' hs' k').1 hk'
  refine ⟨r, r', e, e', ?_, ?_⟩
  · rw [h.unique (h'.take hk), List.map_take]
    exact List.take_prefix _ _
  · rintro rfl
    simp only [kNeighbors] at e e'
    split at e <;> split at e' <;> simp_all
    subst e e'
    exact List.take_prefix_take_left hk

/-- **C210, radius.** If `c` samples are within the radius, `RadiusNeighbors` and `KNeighbors` with `c` neighbours return the same samples with the same distances, up to the order of samples at equal
distances. -/
theorem C210_radius {sort sort' : List (D × ℕ) → List (D × ℕ)} (hs : SortsAsc Prod.fst sort) (hs' : SortsAsc Prod.fst sort') (dist : V → V → D) (X : List V) (q : V) (radius : D) :
    ∃ r r', radiusNeighbors sort dist X radius q = some r ∧ kNeighbors sort' dist X r.length q = some r' ∧ r'.Perm r ∧ r'.map Prod.fst = r.map Prod.fst := by
  obtain ⟨r, e, h, ho⟩ := C40_radius dist X q radius sort hs
  have hlen : r.length ≤ X.length := by
    have : (r.map Prod.snd).toFinset.card ≤ (Finset.range X.length).card := Finset.card_le_card (fun i hi => by
      rw [List.mem_toFinset] at hi
      exact Finset.mem_range.2 ((h.exact i).1 hi).1)
    rwa [List.toFinset_card_of_nodup h.distinct, List.length_map, Finset.card_range] at this
  obtain ⟨r', e', h'⟩ := (C39_kneighbors dist X q sort' hs' r.length).1 hlen
  have hsub : ∀ i ∈ r'.map Prod.snd, i ∈ r.map Prod.snd := by
    intro i hi
    by_contra hni
    obtain ⟨x, hx, rfl⟩ := List.mem_map.1 hi
    obtain ⟨hxn, hxd⟩ := h'.own x hx
    have hfar : radius < x.1 := by
      rw [hxd]
      exact not_le.1 (fun hle => hni ((h.exact x.2).2 ⟨hxn, hle⟩))
    have hout : ∃ j ∈ r.map Prod.snd, j ∉ r'.map Prod.snd := by
      by_contra hall
      push Not at hall
      have hss : (r.map Prod.snd).toFinset ⊂ (r'.map Prod.snd).toFinset := by
        rw [Finset.ssubset_iff_of_subset (fun j hj => by rw [List.mem_toFinset] at *; exact hall j hj)]
        exact ⟨x.2, by rw [List.mem_toFinset]; exact hi, by rw [List.mem_toFinset]; exact hni⟩
      have := Finset.card_lt_card hss
      rw [List.toFinset_card_of_nodup h.distinct, List.toFinset_card_of_nodup h'.distinct, List.length_map, List.length_map, h'.len] at this
      omega
    obtain ⟨j, hj, hj'⟩ := hout
    obtain ⟨hjn, hjd⟩ := (h.exact j).1 hj
    exact absurd ((h'.best j hjn hj' x hx).trans hjd) (not_le.2 hfar)
  have hperm : r'.Perm r := by
    have hn : r'.Nodup := List.Nodup.of_map _ h'.distinct
    refine (List.subperm_of_subset hn ?_).perm_of_length_le (by rw [h'.len])
    intro x hx
    obtain ⟨y, hy, hyx⟩ := List.mem_map.1 (hsub x.2 (List.mem_map_of_mem hx))
    have : y = x := Prod.ext (by rw [h.own y hy, (h'.own x hx).2, hyx]) hyx
    exact this ▸ hy
  refine ⟨r, r', e, e', hperm, ?_⟩
  refine List.Perm.eq_of_pairwise (le := (· ≤ ·)) (fun a b _ _ h1 h2 => le_antisymm h1 h2) ?_ ?_ (hperm.map _)
  · rw [List.pairwise_map]; exact h'.ordered
  · rw [List.pairwise_map]; exact ho

theorem sorted_le {s s' : List D} (h : s.Pairwise (· ≤ ·)) (h' : s'.Pairwise (· ≤ ·)) (m : List D) (hp : s'.Perm (s ++ m)) (i : ℕ) (hi : i < s.length) (hi' : i < s'.length) : s'[i] ≤ s[i] := by
  by_contra hlt
  rw [not_le] at hlt
  obtain ⟨v, hv⟩ : ∃ v, v = s[i] := ⟨_, rfl⟩
  rw [← hv] at hlt
  have h1 : i + 1 ≤ s.countP (fun x => decide (x ≤ v)) := by
    conv_rhs => rw [← List.take_append_drop (i + 1) s]
    rw [List.countP_append, show (s.take (i + 1)).countP (fun x => decide (x ≤ v)) = (s.take (i + 1)).length from List.countP_eq_length.2 ?_]
    · rw [List.length_take]; omega
    · intro a ha
      obtain ⟨j, hj, rfl⟩ := List.mem_iff_getElem.1 ha
      rw [List.length_take] at hj
      simp only [List.getElem_take, decide_eq_true_eq, hv]
      rcases Nat.lt_or_ge j i with hji | hji
      · exact (List.pairwise_iff_getElem.1 h) j i _ hi hji
      · have : j = i := by omega
        subst this
        exact le_rfl
  have h2 : s'.countP (fun x => decide (x ≤ v)) ≤ i := by
    conv_lhs => rw [← List.take_append_drop i s']
    rw [List.countP_append, show (s'.drop i).countP (fun x => decide (x ≤ v)) = 0 from List.countP_eq_zero.2 ?_]
    · rw [Nat.add_zero]
      exact List.countP_le_length.trans (by rw [List.length_take]; omega)
    · intro a ha
      obtain ⟨j, hj, rfl⟩ := List.mem_iff_getElem.1 ha
      rw [List.length_drop] at hj
      simp only [List.getElem_drop, decide_eq_true_eq, not_le]
      refine hlt.trans_le ?_
      rcases Nat.eq_zero_or_pos j with rfl | hj0
      · exact le_rfl
      · exact (List.pairwise_iff_getElem.1 h') i (i + j) hi' (by omega) (by omega)
  rw [hp.countP_eq, List.countP_append] at h2
  omega

/-- **C210, more samples.** Further samples, anywhere among the rows, never make a neighbour more distant: for each rank the distance found is at most the one found without them. -/
theorem C210_more_samples {sort sort' : List (D × ℕ) → List (D × ℕ)} (hs : SortsAsc Prod.fst sort) (hs' : SortsAsc Prod.fst sort') (dist : V → V → D) (X Z X' : List V) (hX : X'.Perm (X ++ Z)) (q : V) {k : ℕ} (hk : k ≤ X.length) :
    ∃ r r', kNeighbors sort dist X k q = some r ∧ kNeighbors sort' dist X' k q = some r' ∧ ∀ (i : ℕ) (h : i < r.length) (h' : i < r'.length), (r'[i]).1 ≤ (r[i]).1 := by
  have hl : X'.length = X.length + Z.length := by rw [hX.length_eq, List.length_append]
  set L := X.zipIdx.map (fun e => (dist q e.1, e.2)) with hL
  set L' := X'.zipIdx.map (fun e => (dist q e.1, e.2)) with hL'
  have hf : ∀ X : List V, (X.zipIdx.map (fun e => (dist q e.1, e.2))).map Prod.fst = X.map (dist q) := by
    intro X
    apply List.ext_getElem <;> simp
  have hsl : (sort L).length = X.length := by rw [(hs L).1.length_eq]; simp [hL]
  have hsl' : (sort' L').length = X'.length := by rw [(hs' L').1.length_eq]; simp [hL']
  refine ⟨(sort L).take k, (sort' L').take k, ?_, ?_, ?_⟩
  · simp only [kNeighbors, ← hL]
    exact if_neg (by omega)
  · simp only [kNeighbors, ← hL']
    exact if_neg (by omega)
  · intro i h h'
    rw [List.length_take] at h h'
    rw [List.getElem_take, List.getElem_take]
    have hp : ((sort' L').map Prod.fst).Perm ((sort L).map Prod.fst ++ Z.map (dist q)) := by
      refine ((hs' L').1.map _).trans ?_
      rw [hL', hf]
      refine (hX.map _).trans ?_
      rw [List.map_append]
      refine List.Perm.append_right _ ?_
      refine List.Perm.trans ?_ ((hs L).1.map _).symm
      rw [hL, hf]
    have := sorted_le (s := (sort L).map Prod.fst) (s' := (sort' L').map Prod.fst) (by rw [List.pairwise_map]; exact (hs L).2) (by rw [List.pairwise_map]; exact (hs' L').2) _ hp i (by rw [List.length_map]; omega) (by rw [List.length_map]; omega)
    simpa using this

example : kNeighbors (insAsc Prod.fst) (fun a b : ℤ => |a - b|) [5, 1, 9, 4] 3 2 = some [(1, 1), (2, 3), (3, 0)] ∧ kNeighbors (insAsc Prod.fst) (fun a b : ℤ => |a - b|) [5, 1, 9, 4] 2 2 = some [(1, 1), (2, 3)] ∧
    radiusNeighbors (insAsc Prod.fst) (fun a b : ℤ => |a - b|) [5, 1, 9, 4] 2 2 = some [(1, 1), (2, 3)] ∧ kNeighbors (insAsc Prod.fst) (fun a b : ℤ => |a - b|) [5, 3, 1, 9, 4] 3 2 = some [(1, 1), (1, 2), (2, 4)] := by decide

end

variable {K : Type} [Field K] [LinearOrder K] [IsStrictOrderedRing K]

theorem sorted_filter_prefix {T : Type} (p : T → Bool) : ∀ {s : List T}, s.Pairwise (fun a b => p b = true → p a = true) → s.filter p <+: s := by
  intro s
  induction s with
  | nil => intro _; simp
  | cons a s ih =>
    intro h
    rw [List.pairwise_cons] at h
    by_cases ha : p a = true
    · rw [List.filter_cons_of_pos ha]
      exact (List.prefix_cons_inj a).2 (ih h.2)
    · rw [List.filter_eq_nil_iff.2]
      · exact List.nil_prefix
      · intro b hb
        rcases List.mem_cons.1 hb with rfl | hb
        · exact ha
        · exact fun hpb => ha (h.1 b hb hpb)

theorem take_of_prefix {T : Type} {a s : List T} (h : a <+: s) {k : ℕ} (hk : k ≤ a.length) : s.take k = a.take k := by
  obtain ⟨t, rfl⟩ := h
  exact List.take_append_of_le_length hk

open Classical in
/-- **C210, far samples.** Rows added to the training set, anywhere, change neither the predictions of the classifier (for the same order of iterating the votes), nor the class probabilities, nor the
predictions of the regressor, if at least `k` of the old training samples are closer to the query than all new ones. As in C194, old training samples at the same distance of the query must have the same target. -/
theorem C210_far_samples {V : Type} {sort sort' : List (K × ℕ) → List (K × ℕ)} (hs : SortsAsc Prod.fst sort) (hs' : SortsAsc Prod.fst sort') (dist : V → V → K) (eps : K) (w : Weights) (T Z T' : List (V × K))
    (hT : T'.Perm (T ++ Z)) (k : ℕ) (q : V) (hc : Clear dist q T) (hfar : k ≤ (T.filter (fun t => decide (∀ z ∈ Z, dist q t.1 < dist q z.1))).length) :
    (∀ it, classify sort' it dist eps w (T'.map Prod.fst) (T'.map Prod.snd) k q = classify sort it dist eps w (T.map Prod.fst) (T.map Prod.snd) k q) ∧
    (∀ classes old, predictProba sort' dist eps w (T'.map Prod.fst) (T'.map Prod.snd) classes k q old = predictProba sort dist eps w (T.map Prod.fst) (T.map Prod.snd) classes k q old) ∧
    regress sort' dist eps w (T'.map Prod.fst) (T'.map Prod.snd) k q = regress sort dist eps w (T.map Prod.fst) (T.map Prod.snd) k q := by
  obtain ⟨s, hp, ho, hv⟩ := votes_ranked hs dist eps w T k q
  obtain ⟨s', hp', ho', hv'⟩ := votes_ranked hs' dist eps w T' k q
  set p : K × K → Bool := fun e => decide (∀ z ∈ Z, e.1 < dist q z.1) with hpd
  have hkT : k ≤ T.length := hfar.trans (List.length_filter_le _ _)
  have hkT' : k ≤ T'.length := by rw [hT.length_eq, List.length_append]; omega
  have hfT : (T.map (fun t => (dist q t.1, t.2))).filter p = (T.filter (fun t => decide (∀ z ∈ Z, dist q t.1 < dist q z.1))).map (fun t => (dist q t.1, t.2)) := by
    rw [List.filter_map]
    rfl
  have hfZ : (Z.map (fun t => (dist q t.1, t.2))).filter p = [] := by
    rw [List.filter_eq_nil_iff]
    intro e he hpe
    obtain ⟨z, hz, rfl⟩ := List.mem_map.1 he
    rw [hpd] at hpe
    simp only [decide_eq_true_eq] at hpe
    exact lt_irrefl _ (hpe z hz)
  have hps : (s.filter p).Perm ((T.map (fun t => (dist q t.1, t.2))).filter p) := hp.filter p
  have hps' : (s'.filter p).Perm ((T.map (fun t => (dist q t.1, t.2))).filter p) := by
    refine (hp'.filter p).trans ?_
    refine ((hT.map _).filter p).trans ?_
    rw [List.map_append, List.filter_append, hfZ, List.append_nil]
  have hss : s.filter p = s'.filter p := by
    refine ranked_unique (hps.trans hps'.symm) (ho.sublist List.filter_sublist) (ho'.sublist List.filter_sublist) ?_
    intro a ha b hb hab
    obtain ⟨u, hu, rfl⟩ := List.mem_map.1 (hp.mem_iff.1 (List.mem_of_mem_filter ha))
    obtain ⟨v, hv, rfl⟩ := List.mem_map.1 (hp.mem_iff.1 (List.mem_of_mem_filter hb))
    exact hc u hu v hv hab
  have hdown : ∀ a b : K × K, a.1 ≤ b.1 → p b = true → p a = true := by
    intro a b hab hb
    rw [hpd] at *
    simp only [decide_eq_true_eq] at *
    exact fun z hz => hab.trans_lt (hb z hz)
  have hlen : k ≤ (s.filter p).length := by
    rw [hps.length_eq, hfT, List.length_map]
    exact hfar
  have e1 : s.take k = (s.filter p).take k := take_of_prefix (sorted_filter_prefix p (ho.imp (fun {a b} h => hdown a b h))) hlen
  have e2 : s'.take k = (s'.filter p).take k := take_of_prefix (sorted_filter_prefix p (ho'.imp (fun {a b} h => hdown a b h))) (hss ▸ hlen)
  have key : neighbourVotes sort' dist eps w (T'.map Prod.fst) (T'.map Prod.snd) k q = neighbourVotes sort dist eps w (T.map Prod.fst) (T.map Prod.snd) k q := by
    rw [hv, hv', if_neg (by omega), if_neg (by omega), e1, e2, hss]
  refine ⟨fun it => ?_, fun classes old => ?_, ?_⟩
  · rw [classify, classify, key]
  · rw [predictProba, predictProba, key]
  · rw [regress, regress, key]

/-- Two neighbours of 2 among three samples; the new sample is put first. -/
example : regress (K := ℚ) (insAsc Prod.fst) (fun a b : ℚ => |a - b|) 0 .uniform [1, 4, 9] [3, 5, 100] 2 2 = some 4 ∧ regress (K := ℚ) (insAsc Prod.fst) (fun a b : ℚ => |a - b|) 0 .uniform [6, 1, 4, 9] [7, 3, 5, 100] 2 2 = some 4 := by
  constructor <;> decide +kernel

example : Clear (fun a b : ℚ => |a - b|) 2 [((1 : ℚ), (3 : ℚ)), (4, 5), (9, 100)] := by
  unfold Clear
  decide +kernel

end Sk.KnnMono
