import Verif.Model.KDMatrix
import Verif.Props.KDTree
import Verif.Lemmas.ListX

/-!
# C222: `KDTree.Query` with a bound, with more neighbours than samples, on a matrix of queries
-/
set_option autoImplicit false

namespace Sk.Neigh

variable {K : Type} [Field K] [LinearOrder K] [IsStrictOrderedRing K]

/-! ### Specification -/

/-- `r` is what a search for `k` neighbours within `bound` may return: different samples with their distances, in order, and every sample within the bound is listed unless `k` others that are no farther are. -/
structure Covers (dist : ℕ → K) (n k : ℕ) (bound : K) (r : List (K × ℕ)) : Prop where
  len : r.length ≤ k
  distinct : (r.map Prod.snd).Nodup
  own : ∀ e ∈ r, e.2 < n ∧ e.1 = dist e.2
  ordered : r.Pairwise (fun a b => a.1 ≤ b.1)
  covers : ∀ i, i < n → dist i ≤ bound → i ∈ r.map Prod.snd ∨ (r.length = k ∧ ∀ e ∈ r, e.1 ≤ dist i)

/-! ### Filling rows -/

theorem fill_getElem {α : Type} (vs : List α) : ∀ (off : ℕ) (row : List α) (j : ℕ),
    ((vs.zipIdx off).foldl (fun row e => row.set e.2 e.1) row)[j]? = if off ≤ j ∧ j < off + vs.length ∧ j < row.length then vs[j - off]? else row[j]? := by
  induction vs with
  | nil =>
    intro off row j
    rw [if_neg (by simp only [List.length_nil]; omega)]
    rfl
  | cons v vs ih =>
    intro off row j
    rw [List.zipIdx_cons, List.foldl_cons, ih, List.length_set]
    simp only [List.length_cons]
    by_cases h : off + 1 ≤ j ∧ j < off + 1 + vs.length ∧ j < row.length
    · rw [if_pos h, if_pos ⟨by omega, by omega, h.2.2⟩, show j - off = j - (off + 1) + 1 by omega, List.getElem?_cons_succ]
    · rw [if_neg h, List.getElem?_set]
      by_cases hj : off = j
      · subst hj
        rw [if_pos rfl]
        by_cases hr : off < row.length
        · rw [if_pos hr, if_pos ⟨le_refl _, by omega, hr⟩, Nat.sub_self, List.getElem?_cons_zero]
        · rw [if_neg hr, if_neg (by omega)]
          exact (List.getElem?_eq_none (by omega)).symm
      · rw [if_neg hj, if_neg (by omega)]

theorem fillRow_eq {α : Type} (zero : α) (k : ℕ) (vs : List α) (h : vs.length ≤ k) : fillRow zero k vs = vs ++ List.replicate (k - vs.length) zero := by
  apply List.ext_getElem?
  intro j
  rw [fillRow, fill_getElem, List.length_replicate, List.getElem?_append]
  by_cases hj : j < vs.length
  · rw [if_pos ⟨by omega, by omega, by omega⟩, if_pos hj, Nat.sub_zero]
  · rw [if_neg (by omega), if_neg hj, List.getElem?_replicate, List.getElem?_replicate]
    by_cases hk : j < k
    · rw [if_pos hk, if_pos (by omega)]
    · rw [if_neg hk, if_neg (by omega)]

theorem query_length (S : Sorts K) (fsort : List (K × ℕ) → List (K × ℕ)) (M : Mink K) (T : KDTree K) (epsfac : K) (k : ℕ) (ub : Option K) (x : List K) (r : List (K × ℕ)) (h : query S fsort M T epsfac k ub x = some r) : r.length ≤ k := by
  unfold query at h
  simp only [Option.bind_eq_bind] at h
  obtain ⟨ns, _, h2⟩ := Option.bind_eq_some_iff.1 h
  rw [← Option.some.inj h2, List.length_take]
  omega

/-- **C222, rows.** Every row of the result is that of its own query: the distances and indices found, in order, then zeros. -/
theorem C222_rows (S : Sorts K) (fsort : List (K × ℕ) → List (K × ℕ)) (M : Mink K) (T : KDTree K) (epsfac : K) (k : ℕ) (bound : Option K) (X : List (List K)) (dd : List (List K)) (ii : List (List ℕ))
    (h : treeQuery S fsort M T epsfac k bound X = some (dd, ii)) :
    dd.length = X.length ∧ ii.length = X.length ∧ ∀ s (hs : s < X.length), ∃ r, query S fsort M T epsfac k (scaledBound M bound) X[s] = some r ∧ r.length ≤ k ∧
      dd[s]? = some (r.map Prod.fst ++ List.replicate (k - r.length) 0) ∧ ii[s]? = some (r.map Prod.snd ++ List.replicate (k - r.length) 0) := by
  unfold treeQuery at h
  split at h
  · simp at h
  · obtain ⟨rs, h1, h2⟩ := Option.map_eq_some_iff.1 h
    have hf := (Sk.ListX.mapM_forall2 _ _ _).1 h1
    have e1 : dd = rs.map (fun r => fillRow 0 k (r.map Prod.fst)) := (congrArg Prod.fst h2).symm
    have e2 : ii = rs.map (fun r => fillRow 0 k (r.map Prod.snd)) := (congrArg Prod.snd h2).symm
    have hl := hf.length_eq
    refine ⟨by rw [e1, List.length_map, hl], by rw [e2, List.length_map, hl], fun s hs => ?_⟩
    have hs' : s < rs.length := by omega
    have hq := List.forall₂_iff_get.1 hf |>.2 s hs hs'
    have hk := query_length S fsort M T epsfac k _ _ _ hq
    refine ⟨rs[s], hq, hk, ?_, ?_⟩
    · rw [e1, List.getElem?_map, List.getElem?_eq_getElem hs', Option.map_some, fillRow_eq _ _ _ (by rw [List.length_map]; exact hk), List.length_map]
    · rw [e2, List.getElem?_map, List.getElem?_eq_getElem hs', Option.map_some, fillRow_eq _ _ _ (by rw [List.length_map]; exact hk), List.length_map]

theorem treeQuery_some (S : Sorts K) (fsort : List (K × ℕ) → List (K × ℕ)) (M : Mink K) (T : KDTree K) (epsfac : K) (k : ℕ) (hk : 0 < k) (bound : Option K) (X : List (List K)) (hX : X ≠ [])
    (h : ∀ x ∈ X, ∃ r, query S fsort M T epsfac k (scaledBound M bound) x = some r) : ∃ dd ii, treeQuery S fsort M T epsfac k bound X = some (dd, ii) := by
  have : ∃ rs, X.mapM (query S fsort M T epsfac k (scaledBound M bound)) = some rs := by
    clear hX
    induction X with
    | nil => exact ⟨[], rfl⟩
    | cons x X ih =>
      obtain ⟨r, hr⟩ := h x List.mem_cons_self
      obtain ⟨rs, hrs⟩ := ih (fun y hy => h y (List.mem_cons_of_mem _ hy))
      exact ⟨r :: rs, by rw [List.mapM_cons, hr, hrs]; rfl⟩
  obtain ⟨rs, hrs⟩ := this
  unfold treeQuery
  rw [if_neg (by push Not; exact ⟨by omega, hX⟩), hrs]
  exact ⟨_, _, rfl⟩

/-- **C222, nearest neighbours.** For data with at least two features, or `p = 1` or `p = ∞`, without bound, `eps = 0` and `1 ≤ k ≤ n`: every row of the result lists `k` nearest samples.
Missing for the full claim: one feature with another `p` (`C41_one_feature_violated`); bounds and `k > n`, see below. -/
theorem C222_nearest_partial {S : Sorts K} (hS : SortsOK S) {fsort : List (K × ℕ) → List (K × ℕ)} (hf : SortsAsc Prod.fst fsort) {M : Mink K} (hM : MinkOK M)
    {fuel : ℕ} {X : List (List K)} {leafSize m : ℕ} (hm : 0 < m) (hX : ∀ row ∈ X, row.length = m) {T : KDTree K} (hT : newKDTree fuel X leafSize = some T) (hdim : m ≠ 1 ∨ M.one = true ∨ M.inf = true) {k : ℕ} (hk : 0 < k) (hkn : k ≤ X.length)
    (Q : List (List K)) (hQ : Q ≠ []) (hQm : ∀ x ∈ Q, x.length = m) :
    ∃ dd ii, treeQuery S fsort M T 1 k none Q = some (dd, ii) ∧ dd.length = Q.length ∧ ii.length = Q.length ∧
      ∀ s (hs : s < Q.length), ∃ d i, dd[s]? = some d ∧ ii[s]? = some i ∧ d.length = k ∧ i.length = k ∧ KNearest (fun j => mink M Q[s] (X.getD j [])) X.length k (d.zip i) := by
  have hq : ∀ x ∈ Q, ∃ r, query S fsort M T 1 k none x = some r ∧ KNearest (fun i => mink M x (X.getD i [])) X.length k r := fun x hx => C41_query_partial hS hf hM hm hX hT hdim x (hQm x hx) hk hkn
  obtain ⟨dd, ii, h⟩ := treeQuery_some S fsort M T 1 k hk none Q hQ (fun x hx => by obtain ⟨r, hr, _⟩ := hq x hx; exact ⟨r, hr⟩)
  obtain ⟨h1, h2, h3⟩ := C222_rows S fsort M T 1 k none Q dd ii h
  refine ⟨dd, ii, h, h1, h2, fun s hs => ?_⟩
  obtain ⟨r, hr, _, hd, hi⟩ := h3 s hs
  obtain ⟨r', hr', hN⟩ := hq Q[s] (List.getElem_mem hs)
  obtain rfl : r' = r := Option.some.inj (hr'.symm.trans hr)
  rw [hN.len, Nat.sub_self, List.replicate_zero, List.append_nil] at hd hi
  refine ⟨_, _, hd, hi, by rw [List.length_map, hN.len], by rw [List.length_map, hN.len], ?_⟩
  rwa [show (r'.map Prod.fst).zip (r'.map Prod.snd) = r' from by rw [List.zip_map']; simp]

/-- **C222, a bound.** Under the same hypotheses, with a bound that is not negative and any positive `k`: no sample within the bound is left out, unless `k` samples that are no farther are listed.
Missing for the full claim: the samples listed need not be within the bound, see `C222_bound_violated`. -/
theorem C222_within_partial {S : Sorts K} (hS : SortsOK S) {fsort : List (K × ℕ) → List (K × ℕ)} (hf : SortsAsc Prod.fst fsort) {M : Mink K} (hM : MinkOK M)
    {fuel : ℕ} {X : List (List K)} {leafSize m : ℕ} (hm : 0 < m) (hne : X ≠ []) (hX : ∀ row ∈ X, row.length = m) {T : KDTree K} (hT : newKDTree fuel X leafSize = some T) (hdim : m ≠ 1 ∨ M.one = true ∨ M.inf = true)
    (x : List K) (hx : x.length = m) {k : ℕ} (hk : 0 < k) (R : K) :
    ∃ r, query S fsort M T 1 k (scaledBound M (some R)) x = some r ∧ Covers (fun i => mink M x (X.getD i [])) X.length k R r := by
  set b0 := (if !M.inf && !M.one then M.pw R else R) with hb0
  obtain ⟨ns, ub, V, P, hq, hp, hI⟩ := query_inv hS (fsort := fsort) hM hm hne hX hT hdim x hx hk (fac := 1) (some b0)
  obtain ⟨g1, g2, g3, g4, g5, g6⟩ := final_list hM hf hp hI
  refine ⟨_, hq, ?_⟩
  set L := fsort (ns.map (fun e => (if M.inf then -e.1 else M.rt (-e.1), e.2))) with hL
  refine ⟨by rw [List.length_take]; omega, g3.sublist ((List.take_sublist _ _).map _), fun e he => g4 e (List.mem_of_mem_take he), g5.sublist (List.take_sublist _ _), ?_⟩
  intro i hi hd
  have key : i ∈ ns.map Prod.snd ∨ k ≤ cnt ns (minkP M x (X.getD i [])) := by
    rcases List.mem_append.1 (hp.mem_iff.2 (List.mem_range.2 hi)) with hV | hP
    · exact hI.dropped i hV
    · obtain ⟨b, hb1, hb2⟩ := hI.pruned i hP
      rw [mul_one] at hb1
      rcases hb2 with hb2 | hb2
      · exfalso
        obtain rfl := Option.some.inj hb2
        have h0 := minkP_nonneg hM x (X.getD i [])
        have hd' : mink M x (X.getD i []) ≤ R := hd
        rw [mink] at hd'
        rw [hb0] at hb1
        cases hc : (!M.inf && !M.one) with
        | false =>
          simp only [hc, Bool.false_eq_true, if_false] at hd' hb1
          exact absurd hd' (not_le.2 hb1)
        | true =>
          simp only [hc, if_true] at hd' hb1
          have := hM.pw_mono _ _ (hM.rt_nonneg _ h0) hd'
          rw [hM.pw_rt _ h0] at this
          exact absurd this (not_le.2 hb1)
      · exact Or.inr (le_trans hb2 (List.countP_mono_left (fun a _ h => by
          rw [decide_eq_true_eq] at h ⊢
          exact le_trans h hb1.le)))
  rcases key with h | h
  · have hiL := g2.mem_iff.2 h
    rw [← List.take_append_drop k L, List.map_append, List.mem_append] at hiL
    rcases hiL with hiL | hiL
    · exact Or.inl hiL
    · right
      obtain ⟨a, ha, rfl⟩ := List.mem_map.1 hiL
      have hlen : k < L.length := by
        by_contra hc
        rw [List.drop_eq_nil_of_le (not_lt.1 hc)] at ha
        exact absurd ha List.not_mem_nil
      refine ⟨by rw [List.length_take]; omega, fun e he => ?_⟩
      have h5 := g5
      rw [← List.take_append_drop k L, List.pairwise_append] at h5
      have := h5.2.2 e he a ha
      rwa [(g4 a (List.mem_of_mem_drop ha)).2] at this
  · right
    have hlen : k ≤ L.length := by rw [g1]; exact le_trans h (cnt_le ns _)
    refine ⟨by rw [List.length_take]; omega, fun e he => ?_⟩
    apply g6 _ _ (minkP_nonneg hM x (X.getD i [])) h _ e he
    rw [root_eq hM]

/-- The tree of data that fit into one leaf. -/
theorem one_leaf {fuel : ℕ} {X : List (List K)} {leafSize : ℕ} (hn : X.length ≤ max leafSize 1) {T : KDTree K} (hT : newKDTree fuel X leafSize = some T) : T.data = X ∧ T.tree = .leaf (List.range X.length) := by
  rw [newKDTree] at hT
  simp only [Option.bind_eq_bind] at hT
  obtain ⟨t, ht, hT⟩ := Option.bind_eq_some_iff.1 hT
  cases hT
  cases fuel with
  | zero => simp [build] at ht
  | succ fuel =>
    rw [build, if_pos (by rw [List.length_range]; exact hn)] at ht
    exact ⟨rfl, (Option.some.inj ht).symm⟩

/-- **C222, violated: the bound.** With no more samples than fit into a leaf (30 unless set otherwise), a bound has no effect: the `k` nearest samples are returned even if none is within the bound. -/
theorem C222_bound_violated {S : Sorts K} (hS : SortsOK S) {fsort : List (K × ℕ) → List (K × ℕ)} (hf : SortsAsc Prod.fst fsort) {M : Mink K} (hM : MinkOK M) {fuel : ℕ} {X : List (List K)} {leafSize : ℕ} (hn : X.length ≤ max leafSize 1)
    {T : KDTree K} (hT : newKDTree fuel X leafSize = some T) (epsfac : K) (x : List K) {k : ℕ} (hk : 0 < k) (hkn : k ≤ X.length) (R : K) :
    ∃ r, query S fsort M T epsfac k (scaledBound M (some R)) x = some r ∧ KNearest (fun i => mink M x (X.getD i [])) X.length k r ∧ ((∀ i < X.length, R < mink M x (X.getD i [])) → ∀ e ∈ r, R < e.1) := by
  obtain ⟨hd, ht⟩ := one_leaf hn hT
  set b0 := (if !M.inf && !M.one then M.pw R else R) with hb0
  have hI0 : Inv (fun i => minkP M x (X.getD i [])) k (some b0) epsfac [] [] [] (some b0) :=
    ⟨List.nodup_nil, fun e he => absurd he List.not_mem_nil, List.Pairwise.nil, fun v hv => absurd hv List.not_mem_nil, fun h => absurd h (by simp; omega), fun b hb => Or.inl hb, fun p hp => absurd hp List.not_mem_nil⟩
  obtain ⟨st, hst, hI⟩ := leaf_inv hS hk (List.range X.length) hI0 List.nodup_range (fun _ _ => List.not_mem_nil)
  rw [List.append_nil] at hI
  have hq : query S fsort M T epsfac k (scaledBound M (some R)) x = some ((fsort (st.1.map (fun e => (if M.inf then -e.1 else M.rt (-e.1), e.2)))).take k) := by
    unfold query
    simp only [scaledBound, Option.map_some, ← hb0, ht, Node.size, hd, queryLoop, Option.bind_eq_bind, hst, Option.bind_some]
    rfl
  obtain ⟨g1, g2, g3, g4, g5, g6⟩ := final_list (P := []) hM hf (by rw [List.append_nil]) hI
  set L := fsort (st.1.map (fun e => (if M.inf then -e.1 else M.rt (-e.1), e.2))) with hL
  have hlen : k ≤ L.length := by
    by_contra hc
    rw [g1] at hc
    have hno : ∀ t, ¬ k ≤ cnt st.1 t := fun t h => hc (le_trans h (cnt_le st.1 t))
    have hsub : List.range X.length ⊆ st.1.map Prod.snd := fun i hi => (hI.dropped i hi).resolve_right (hno _)
    have := (List.subperm_of_subset List.nodup_range hsub).length_le
    rw [List.length_range, List.length_map] at this
    omega
  refine ⟨_, hq, ⟨by rw [List.length_take]; omega, g3.sublist ((List.take_sublist _ _).map _), fun e he => g4 e (List.mem_of_mem_take he), g5.sublist (List.take_sublist _ _), ?_⟩, ?_⟩
  · intro i hi hnot e he
    rcases hI.dropped i (List.mem_range.2 hi) with h | h
    · have hiL := g2.mem_iff.2 h
      rw [← List.take_append_drop k L, List.map_append, List.mem_append] at hiL
      obtain ⟨a, ha, rfl⟩ := List.mem_map.1 (hiL.resolve_left hnot)
      have h5 := g5
      rw [← List.take_append_drop k L, List.pairwise_append] at h5
      have := h5.2.2 e he a ha
      rwa [(g4 a (List.mem_of_mem_drop ha)).2] at this
    · apply g6 _ _ (minkP_nonneg hM x (X.getD i [])) h _ e he
      rw [root_eq hM]
  · intro hall e he
    obtain ⟨h1, h2⟩ := g4 e (List.mem_of_mem_take he)
    rw [h2]
    exact hall _ h1

/-- Asked for more neighbours than there are samples, the search lists all samples. -/
theorem query_all {S : Sorts K} (hS : SortsOK S) {fsort : List (K × ℕ) → List (K × ℕ)} (hf : SortsAsc Prod.fst fsort) {M : Mink K} (hM : MinkOK M)
    {fuel : ℕ} {X : List (List K)} {leafSize m : ℕ} (hm : 0 < m) (hne : X ≠ []) (hX : ∀ row ∈ X, row.length = m) {T : KDTree K} (hT : newKDTree fuel X leafSize = some T) (hdim : m ≠ 1 ∨ M.one = true ∨ M.inf = true) {k : ℕ} (hkn : X.length < k) (epsfac : K)
    (x : List K) (hx : x.length = m) : ∃ r, query S fsort M T epsfac k none x = some r ∧ KNearest (fun i => mink M x (X.getD i [])) X.length X.length r := by
  have hk : 0 < k := by omega
  obtain ⟨ns, ub, V, P, hq, hp, hI⟩ := query_inv hS (fsort := fsort) hM hm hne hX hT hdim x hx hk (fac := epsfac) none
  obtain ⟨g1, g2, g3, g4, g5, g6⟩ := final_list hM hf hp hI
  set L := fsort (ns.map (fun e => (if M.inf then -e.1 else M.rt (-e.1), e.2))) with hL
  have hle : L.length ≤ X.length := by
    have hsub : (L.map Prod.snd).Subperm (List.range X.length) := List.subperm_of_subset g3 (by
      intro i hi
      obtain ⟨e, he, rfl⟩ := List.mem_map.1 hi
      exact List.mem_range.2 (g4 e he).1)
    have := hsub.length_le
    rwa [List.length_map, List.length_range] at this
  have hno : ∀ t, ¬ k ≤ cnt ns t := fun t h => by
    have := cnt_le ns t
    rw [g1] at hle
    omega
  have hP : P = [] := by
    cases P with
    | nil => rfl
    | cons p P =>
      obtain ⟨b, _, hb⟩ := hI.pruned p List.mem_cons_self
      rcases hb with hb | hb
      · cases hb
      · exact absurd hb (hno _)
  have hall : ∀ i, i < X.length → i ∈ L.map Prod.snd := by
    intro i hi
    have hiV := hp.mem_iff.2 (List.mem_range.2 hi)
    rw [hP, List.append_nil] at hiV
    exact g2.mem_iff.2 ((hI.dropped i hiV).resolve_right (hno _))
  have hge : X.length ≤ L.length := by
    have := (List.subperm_of_subset List.nodup_range (fun i hi => hall i (List.mem_range.1 hi))).length_le
    rwa [List.length_range, List.length_map] at this
  rw [List.take_of_length_le (by omega)] at hq
  exact ⟨L, hq, ⟨by omega, g3, g4, g5, fun i hi hn => absurd (hall i hi) hn⟩⟩

/-- **C222, violated: missing neighbours.** For more neighbours than samples (without a bound) every row lists all samples and then, where the documentation promises infinite distances, reports sample 0 at
distance 0. -/
theorem C222_missing_violated {S : Sorts K} (hS : SortsOK S) {fsort : List (K × ℕ) → List (K × ℕ)} (hf : SortsAsc Prod.fst fsort) {M : Mink K} (hM : MinkOK M)
    {fuel : ℕ} {X : List (List K)} {leafSize m : ℕ} (hm : 0 < m) (hne : X ≠ []) (hX : ∀ row ∈ X, row.length = m) {T : KDTree K} (hT : newKDTree fuel X leafSize = some T) (hdim : m ≠ 1 ∨ M.one = true ∨ M.inf = true) {k : ℕ} (hkn : X.length < k) (epsfac : K)
    (Q : List (List K)) (hQ : Q ≠ []) (hQm : ∀ x ∈ Q, x.length = m) :
    ∃ dd ii, treeQuery S fsort M T epsfac k none Q = some (dd, ii) ∧ ∀ s (hs : s < Q.length), ∃ d i, dd[s]? = some d ∧ ii[s]? = some i ∧ d.length = k ∧ i.length = k ∧
      KNearest (fun j => mink M Q[s] (X.getD j [])) X.length X.length ((d.take X.length).zip (i.take X.length)) ∧ ∀ j, X.length ≤ j → j < k → d[j]? = some 0 ∧ i[j]? = some 0 := by
  have hk : 0 < k := by omega
  have hq : ∀ x ∈ Q, ∃ r, query S fsort M T epsfac k none x = some r ∧ KNearest (fun i => mink M x (X.getD i [])) X.length X.length r := fun x hx => query_all hS hf hM hm hne hX hT hdim hkn epsfac x (hQm x hx)
  obtain ⟨dd, ii, h⟩ := treeQuery_some S fsort M T epsfac k hk none Q hQ (fun x hx => by obtain ⟨r, hr, _⟩ := hq x hx; exact ⟨r, hr⟩)
  obtain ⟨_, _, h3⟩ := C222_rows S fsort M T epsfac k none Q dd ii h
  refine ⟨dd, ii, h, fun s hs => ?_⟩
  obtain ⟨r, hr, _, hd, hi⟩ := h3 s hs
  obtain ⟨r', hr', hN⟩ := hq Q[s] (List.getElem_mem hs)
  obtain rfl : r' = r := Option.some.inj (hr'.symm.trans hr)
  have hlen := hN.len
  refine ⟨_, _, hd, hi, by simp [hlen]; omega, by simp [hlen]; omega, ?_, fun j h1 h2 => ?_⟩
  · rw [List.take_left' (by rw [List.length_map, hlen]), List.take_left' (by rw [List.length_map, hlen]), show (r'.map Prod.fst).zip (r'.map Prod.snd) = r' from by rw [List.zip_map']; simp]
    exact hN
  · constructor
    · rw [List.getElem?_append_right (by rw [List.length_map]; omega), List.getElem?_replicate, if_pos (by rw [List.length_map]; omega)]
    · rw [List.getElem?_append_right (by rw [List.length_map]; omega), List.getElem?_replicate, if_pos (by rw [List.length_map]; omega)]

/-- Two samples, three neighbours of (10, 10) asked for (Manhattan distance): sample 0 is reported a second time, at distance 0.  With the bound 1, two samples at distances 17 and 20 are listed. -/
example : ((newKDTree (K := ℚ) 10 [[0, 0], [1, 2]] 30).bind (fun T => treeQuery insSorts (insAsc Prod.fst) ⟨false, true, id, id⟩ T 1 3 none [[10, 10]])) = some ([[17, 20, 0]], [[1, 0, 0]]) ∧
    ((newKDTree (K := ℚ) 10 [[0, 0], [1, 2]] 30).bind (fun T => treeQuery insSorts (insAsc Prod.fst) ⟨false, true, id, id⟩ T 1 2 (some 1) [[10, 10]])) = some ([[17, 20]], [[1, 0]]) := by decide +kernel

/-- Four samples in leaves of one: two neighbours for each of two rows. -/
example : ((newKDTree (K := ℚ) 100 [[0, 0], [1, 2], [5, 5], [6, 7]] 1).bind (fun T => treeQuery insSorts (insAsc Prod.fst) ⟨false, true, id, id⟩ T 1 2 none [[0, 1], [6, 6]])) = some ([[1, 2], [1, 2]], [[0, 1], [3, 2]]) := by decide +kernel

end Sk.Neigh
