import Verif.Model.Neighbors
import Verif.Spec.Nearest
import Mathlib.Tactic.Linarith
import Mathlib.Tactic.Ring
import Mathlib.Algebra.BigOperators.Group.List.Basic
import Mathlib.Algebra.Order.BigOperators.Group.List

/-! # The loop of a kd-tree query: invariants -/
set_option autoImplicit false

namespace Sk.Neigh

variable {K : Type} [Field K] [LinearOrder K] [IsStrictOrderedRing K]

/-- Sample numbers below a node. -/
def Node.idx : Node K → List ℕ
  | .leaf i => i
  | .inner _ _ l g => l.idx ++ g.idx

/-- The sorts of a query do sort. -/
structure SortsOK (S : Sorts K) : Prop where
  q : SortsAsc QEle.minD S.q
  n : SortsAsc Prod.fst S.n

theorem qPush_ok {S : Sorts K} (h : SortsOK S) (q : List (QEle K)) (e : QEle K) :
    (qPush S q e).Perm (q ++ [e]) ∧ (qPush S q e).Pairwise (fun a b => a.minD ≤ b.minD) := by
  rw [qPush]
  split
  · exact h.q _
  · refine ⟨List.Perm.refl _, ?_⟩
    rename_i hl
    have : q = [] := by
      cases q with
      | nil => rfl
      | cons a q => exact absurd (by simp) hl
    simp [this]

theorem nPush_ok {S : Sorts K} (h : SortsOK S) (q : List (K × ℕ)) (e : K × ℕ) :
    (nPush S q e).Perm (q ++ [e]) ∧ (nPush S q e).Pairwise (fun a b => a.1 ≤ b.1) := by
  rw [nPush]
  split
  · exact h.n _
  · refine ⟨List.Perm.refl _, ?_⟩
    rename_i hl
    have : q = [] := by
      cases q with
      | nil => rfl
      | cons a q => exact absurd (by simp) hl
    simp [this]

/-- Number of candidates at distance at most `t`. -/
def cnt (ns : List (K × ℕ)) (t : K) : ℕ := ns.countP (fun e => decide (-e.1 ≤ t))

/-- What holds of the candidates `ns` and the bound `ub` when the samples `V` were examined and the samples `P` were discarded with their cell; `ub0` is the
bound given by the caller. -/
structure Inv (ds : ℕ → K) (k : ℕ) (ub0 : Option K) (fac : K) (V P : List ℕ) (ns : List (K × ℕ)) (ub : Option K) : Prop where
  nodup : (ns.map Prod.snd).Nodup
  mem : ∀ e ∈ ns, e.2 ∈ V ∧ e.1 = -ds e.2
  sorted : ns.Pairwise (fun a b => a.1 ≤ b.1)
  dropped : ∀ v ∈ V, v ∈ ns.map Prod.snd ∨ k ≤ cnt ns (ds v)
  full : ns.length = k → ∃ e r, ns = e :: r ∧ ub = some (-e.1)
  bound : ∀ b, ub = some b → ub0 = some b ∨ k ≤ cnt ns b
  pruned : ∀ p ∈ P, ∃ b, b * fac < ds p ∧ (ub0 = some b ∨ k ≤ cnt ns b)

theorem Inv.congr {ds : ℕ → K} {k : ℕ} {ub0 : Option K} {fac : K} {V V' P P' : List ℕ} {ns : List (K × ℕ)} {ub : Option K}
    (h : Inv ds k ub0 fac V P ns ub) (hV : ∀ v, v ∈ V' ↔ v ∈ V) (hP : ∀ p, p ∈ P' → p ∈ P) : Inv ds k ub0 fac V' P' ns ub :=
  ⟨h.nodup, fun e he => ⟨(hV _).2 (h.mem e he).1, (h.mem e he).2⟩, h.sorted, fun v hv => h.dropped v ((hV v).1 hv), h.full, h.bound,
    fun p hp => h.pruned p (hP p hp)⟩

theorem cnt_perm {a b : List (K × ℕ)} (h : a.Perm b) (t : K) : cnt a t = cnt b t := h.countP_eq _

theorem cnt_snoc (a : List (K × ℕ)) (e : K × ℕ) (t : K) : cnt (a ++ [e]) t = cnt a t + if -e.1 ≤ t then 1 else 0 := by
  simp [cnt, List.countP_append, List.countP_cons]

theorem cnt_cons (a : List (K × ℕ)) (e : K × ℕ) (t : K) : cnt (e :: a) t = cnt a t + if -e.1 ≤ t then 1 else 0 := by
  simp [cnt, List.countP_cons]

theorem cnt_le (a : List (K × ℕ)) (t : K) : cnt a t ≤ a.length := List.countP_le_length

/-- The bookkeeping after the candidate was pushed, given that no count went down. -/
theorem leaf_finish {S : Sorts K} (hS : SortsOK S) {ds : ℕ → K} {k : ℕ} (hk : 0 < k) {ub0 : Option K} {fac : K} {V P : List ℕ}
    {ns ns1 : List (K × ℕ)} {ub : Option K} (h : Inv ds k ub0 fac V P ns ub) (i : ℕ) (hi : i ∉ V)
    (hsub : ns1.Sublist ns)
    (hcnt : ∀ t, cnt ns t ≤ cnt ns1 t + if ds i ≤ t then 1 else 0)
    (hdrop : ∀ e ∈ ns, e ∈ ns1 ∨ k ≤ cnt ns1 (-e.1) + if ds i ≤ -e.1 then 1 else 0) :
    ∃ st, (let ns' := nPush S ns1 (-(ds i), i)
      (if ns'.length = k then pure (ns', (ns'.head?.map (fun e => -e.1)).or ub) else pure (ns', ub) : Option (List (K × ℕ) × Option K))) = some st ∧
      Inv ds k ub0 fac (i :: V) P st.1 st.2 := by
  obtain ⟨hp, ho⟩ := nPush_ok hS ns1 (-(ds i), i)
  have hc : ∀ t, cnt (nPush S ns1 (-(ds i), i)) t = cnt ns1 t + if ds i ≤ t then 1 else 0 := by
    intro t
    rw [cnt_perm hp, cnt_snoc]
    simp
  have hcm : ∀ t, cnt ns t ≤ cnt (nPush S ns1 (-(ds i), i)) t := fun t => by
    rw [hc]
    exact hcnt t
  have hnodup : ((nPush S ns1 (-(ds i), i)).map Prod.snd).Nodup := by
    rw [(hp.map Prod.snd).nodup_iff, List.map_append, List.map_singleton]
    refine List.Nodup.append (h.nodup.sublist (hsub.map _)) (List.nodup_singleton _) ?_
    intro j hj hj2
    rw [List.mem_singleton] at hj2
    subst hj2
    obtain ⟨e, he, rfl⟩ := List.mem_map.1 hj
    exact hi (h.mem e (hsub.subset he)).1
  have hmem : ∀ e ∈ nPush S ns1 (-(ds i), i), e.2 ∈ i :: V ∧ e.1 = -ds e.2 := by
    intro e he
    rw [hp.mem_iff, List.mem_append, List.mem_singleton] at he
    rcases he with he | rfl
    · exact ⟨List.mem_cons_of_mem _ (h.mem e (hsub.subset he)).1, (h.mem e (hsub.subset he)).2⟩
    · exact ⟨List.mem_cons_self, rfl⟩
  have hdropped : ∀ v ∈ i :: V, v ∈ (nPush S ns1 (-(ds i), i)).map Prod.snd ∨ k ≤ cnt (nPush S ns1 (-(ds i), i)) (ds v) := by
    intro v hv
    rcases List.mem_cons.1 hv with rfl | hv
    · exact Or.inl (List.mem_map.2 ⟨(-(ds v), v), hp.mem_iff.2 (by simp), rfl⟩)
    · rcases h.dropped v hv with h1 | h1
      · obtain ⟨e, he, rfl⟩ := List.mem_map.1 h1
        rcases hdrop e he with h2 | h2
        · exact Or.inl (List.mem_map.2 ⟨e, hp.mem_iff.2 (List.mem_append_left _ h2), rfl⟩)
        · right
          rw [(h.mem e he).2, neg_neg] at h2
          rw [hc]
          exact h2
      · exact Or.inr (le_trans h1 (hcm _))
  have hpruned : ∀ p ∈ P, ∃ b, b * fac < ds p ∧ (ub0 = some b ∨ k ≤ cnt (nPush S ns1 (-(ds i), i)) b) := by
    intro p hpP
    obtain ⟨b, hb, hb2⟩ := h.pruned p hpP
    exact ⟨b, hb, hb2.imp id (fun h2 => le_trans h2 (hcm _))⟩
  simp only
  generalize nPush S ns1 (-(ds i), i) = ns' at *
  by_cases hl : ns'.length = k
  · rw [if_pos hl]
    obtain ⟨e, r, rfl⟩ : ∃ e r, ns' = e :: r := by
      cases ns' with
      | nil => simp at hl; omega
      | cons e r => exact ⟨e, r, rfl⟩
    refine ⟨_, rfl, hnodup, hmem, ho, hdropped, fun _ => ⟨e, r, rfl, by simp⟩, ?_, hpruned⟩
    intro b hb
    simp only [List.head?_cons, Option.map_some, Option.some_or, Option.some.injEq] at hb
    subst hb
    right
    have : cnt (e :: r) (-e.1) = (e :: r).length := by
      rw [cnt, List.countP_eq_length]
      intro a ha
      rw [decide_eq_true_eq, neg_le_neg_iff]
      rcases List.mem_cons.1 ha with rfl | ha
      · exact le_refl _
      · exact (List.pairwise_cons.1 ho).1 a ha
    rw [this, hl]
  · rw [if_neg hl]
    refine ⟨_, rfl, hnodup, hmem, ho, hdropped, fun h1 => absurd h1 hl, ?_, hpruned⟩
    intro b hb
    exact (h.bound b hb).imp id (fun h2 => le_trans h2 (hcm _))

theorem leafStep_inv {S : Sorts K} (hS : SortsOK S) {ds : ℕ → K} {k : ℕ} (hk : 0 < k) {ub0 : Option K} {fac : K} {V P : List ℕ}
    {ns : List (K × ℕ)} {ub : Option K} (h : Inv ds k ub0 fac V P ns ub) (i : ℕ) (hi : i ∉ V) :
    ∃ st, leafStep S k ds (ns, ub) i = some st ∧ Inv ds k ub0 fac (i :: V) P st.1 st.2 := by
  rw [leafStep]
  simp only [Option.bind_eq_bind]
  by_cases hpop : (ltBound (ds i) ub && ns.length == k) = true
  · rw [if_pos hpop]
    rw [Bool.and_eq_true, beq_iff_eq] at hpop
    obtain ⟨e, r, rfl, hub⟩ := h.full hpop.2
    simp only [Option.bind_some]
    have hlt : ds i < -e.1 := by
      have := hpop.1
      rw [hub, ltBound, decide_eq_true_eq] at this
      exact this
    have hall : ∀ a ∈ r, -a.1 ≤ -e.1 := fun a ha => neg_le_neg ((List.pairwise_cons.1 h.sorted).1 a ha)
    apply leaf_finish hS hk h i hi (List.sublist_cons_self _ _)
    · intro t
      rw [cnt_cons]
      by_cases h1 : -e.1 ≤ t
      · rw [if_pos h1, if_pos (le_trans (le_of_lt hlt) h1)]
      · rw [if_neg h1]
        omega
    · intro a ha
      rcases List.mem_cons.1 ha with rfl | ha
      · right
        have : cnt r (-a.1) = r.length := by
          rw [cnt, List.countP_eq_length]
          intro b hb
          rw [decide_eq_true_eq]
          exact hall b hb
        rw [this, if_pos (le_of_lt hlt)]
        have := hpop.2
        simp at this
        omega
      · exact Or.inl ha
  · rw [if_neg hpop]
    simp only [Option.bind_some]
    apply leaf_finish hS hk h i hi (List.Sublist.refl _)
    · intro t
      omega
    · intro a ha
      exact Or.inl ha

theorem leaf_inv {S : Sorts K} (hS : SortsOK S) {ds : ℕ → K} {k : ℕ} (hk : 0 < k) {ub0 : Option K} {fac : K} {P : List ℕ} (idx : List ℕ) :
    ∀ {V : List ℕ} {ns : List (K × ℕ)} {ub : Option K}, Inv ds k ub0 fac V P ns ub → idx.Nodup → (∀ i ∈ idx, i ∉ V) →
    ∃ st, idx.foldlM (leafStep S k ds) (ns, ub) = some st ∧ Inv ds k ub0 fac (idx ++ V) P st.1 st.2 := by
  induction idx with
  | nil =>
    intro V ns ub h _ _
    exact ⟨(ns, ub), rfl, h⟩
  | cons i idx ih =>
    intro V ns ub h hn hV
    rw [List.nodup_cons] at hn
    obtain ⟨st, e, h'⟩ := leafStep_inv hS hk h i (hV i List.mem_cons_self)
    obtain ⟨st', e', h''⟩ := ih h' hn.2 (by
      intro j hj hc
      rcases List.mem_cons.1 hc with rfl | hc
      · exact hn.1 hj
      · exact hV j (List.mem_cons_of_mem _ hj) hc)
    refine ⟨st', ?_, h''.congr ?_ (fun _ h => h)⟩
    · rw [List.foldlM_cons, Option.bind_eq_bind, e, Option.bind_some]
      exact e'
    · intro v
      simp only [List.mem_append, List.mem_cons]
      tauto

/-- `pw`, `rt` behave like `t ↦ t^p`, `t ↦ t^(1/p)` on non negative numbers, as far as the search needs it. -/
structure MinkOK (M : Mink K) : Prop where
  pw_nonneg : ∀ t, 0 ≤ t → 0 ≤ M.pw t
  pw_mono : ∀ s t, 0 ≤ s → s ≤ t → M.pw s ≤ M.pw t
  rt_nonneg : ∀ t, 0 ≤ t → 0 ≤ M.rt t
  rt_mono : ∀ s t, 0 ≤ s → s ≤ t → M.rt s ≤ M.rt t
  pw_rt : ∀ t, 0 ≤ t → M.pw (M.rt t) = t
  pw_one : M.one = true → ∀ t, 0 ≤ t → M.pw t = t
  rt_one : M.one = true → ∀ t, 0 ≤ t → M.rt t = t

/-- What the split values say about the samples below a node, for data with `m` columns. -/
def Cells (X : List (List K)) (m : ℕ) : Node K → Prop
  | .leaf _ => True
  | .inner d s l g => d < m ∧ (∀ i ∈ l.idx, at' X i d ≤ s) ∧ (∀ i ∈ g.idx, s < at' X i d) ∧ Cells X m l ∧ Cells X m g

/-- A queue entry bounds from below the distance of the query to every sample in its cell. -/
structure CellOK (M : Mink K) (X : List (List K)) (m : ℕ) (x : List K) (ds : ℕ → K) (e : QEle K) : Prop where
  cells : Cells X m e.node
  low : ∀ i ∈ e.node.idx, e.minD ≤ ds i
  len : e.side.length = m
  sum : M.inf = false → e.minD = e.side.sum
  side : M.inf = false → ∀ i ∈ e.node.idx, ∀ j, j < m → e.side.getD j 0 ≤ M.pw |at' X i j - x.getD j 0|

theorem sum_range_getD (l : List K) : l.sum = ((List.range l.length).map (fun j => l.getD j 0)).sum := by
  congr 1
  apply List.ext_getElem
  · simp
  · intro i h1 h2
    simp [h1]

/-- The entry pushed for the farther child is a valid bound. -/
theorem far_ok {M : Mink K} (hM : MinkOK M) {X : List (List K)} {m : ℕ} {x : List K} {ds : ℕ → K}
    (e : QEle K) (he : CellOK M X m x ds e) (dim : ℕ) (hdim : dim < m) (split : K) (far : Node K)
    (hds : M.inf = false → ∀ i ∈ far.idx, ds i = ((List.range m).map (fun j => M.pw |at' X i j - x.getD j 0|)).sum)
    (hinf : M.inf = true → ∀ i ∈ far.idx, ∀ j, j < m → |at' X i j - x.getD j 0| ≤ ds i) (hcell : Cells X m far)
    (hsub : ∀ i ∈ far.idx, i ∈ e.node.idx)
    (hfar : ∀ i ∈ far.idx, |split - x.getD dim 0| ≤ |at' X i dim - x.getD dim 0|) (sdv minD : K)
    (hsdv : sdv = if M.inf then e.side.getD dim 0 else if M.one then |split - x.getD dim 0| else M.pw |split - x.getD dim 0|)
    (hminD : minD = if M.inf then max e.minD |split - x.getD dim 0| else e.minD - e.side.getD dim 0 + sdv) :
    CellOK M X m x ds ⟨minD, e.side.set dim sdv, far⟩ := by
  have hsdv' : M.inf = false → sdv = M.pw |split - x.getD dim 0| := by
    intro h
    rw [hsdv, h]
    by_cases h1 : M.one = true
    · simp [h1, hM.pw_one h1 _ (abs_nonneg _)]
    · simp [h1]
  have hside : M.inf = false → ∀ i ∈ far.idx, ∀ j, j < m → (e.side.set dim sdv).getD j 0 ≤ M.pw |at' X i j - x.getD j 0| := by
    intro h i hi j hj
    by_cases hjd : j = dim
    · subst hjd
      rw [List.getD_eq_getElem?_getD, List.getElem?_set_self (by rw [he.len]; exact hj), Option.getD_some, hsdv' h]
      exact hM.pw_mono _ _ (abs_nonneg _) (hfar i hi)
    · rw [List.getD_eq_getElem?_getD, List.getElem?_set_ne (Ne.symm hjd), ← List.getD_eq_getElem?_getD]
      exact he.side h i (hsub i hi) j hj
  have hsum : M.inf = false → minD = (e.side.set dim sdv).sum := by
    intro h
    have h1 := List.sum_set' e.side dim sdv
    rw [dif_pos (by rw [he.len]; exact hdim)] at h1
    rw [h1, hminD, h, he.sum h]
    have : e.side.getD dim 0 = e.side[dim]'(by rw [he.len]; exact hdim) := by
      simp [he.len, hdim]
    rw [this]
    simp only [Bool.false_eq_true, if_false]
    ring
  refine ⟨hcell, ?_, by simp [he.len], hsum, hside⟩
  intro i hi
  cases hb : M.inf with
  | false =>
    have h3 := hsum hb
    show minD ≤ ds i
    rw [h3, hds hb i hi, sum_range_getD, List.length_set, he.len]
    apply List.sum_le_sum
    intro j hj
    exact hside hb i hi j (List.mem_range.1 hj)
  | true =>
    show minD ≤ ds i
    rw [hminD, hb]
    simp only [if_true]
    exact max_le (he.low i (hsub i hi)) (le_trans (hfar i hi) (hinf hb i hi dim hdim))

/-- Sum of the sizes of the queued nodes. -/
def qsize (q : List (QEle K)) : ℕ := (q.map (fun e => e.node.size)).sum

theorem qsize_perm {a b : List (QEle K)} (h : a.Perm b) : qsize a = qsize b := (h.map _).sum_eq

theorem size_pos (t : Node K) : 0 < t.size := by
  cases t <;> simp only [Node.size] <;> omega

theorem leBound_false {x : K} {b : Option K} (h : (!leBound x b) = true) : ∃ c, b = some c ∧ c < x := by
  cases b with
  | none => simp [leBound] at h
  | some c =>
    refine ⟨c, rfl, ?_⟩
    simpa [leBound] using h

/-- **The loop.** It ends, and at the end every sample was either examined (`V`) or discarded (`P`). -/
theorem queryLoop_inv {S : Sorts K} (hS : SortsOK S) {M : Mink K} (hM : MinkOK M) {X : List (List K)} {m : ℕ} {x : List K} {ds : ℕ → K}
    {k : ℕ} (hk : 0 < k) {ub0 : Option K} {fac : K} (all : List ℕ) (hall : all.Nodup)
    (hds : M.inf = false → ∀ i ∈ all, ds i = ((List.range m).map (fun j => M.pw |at' X i j - x.getD j 0|)).sum)
    (hinf : M.inf = true → ∀ i ∈ all, ∀ j, j < m → |at' X i j - x.getD j 0| ≤ ds i) :
    ∀ (fuel : ℕ) (q : List (QEle K)) (ns : List (K × ℕ)) (ub : Option K) (V P : List ℕ), qsize q ≤ fuel →
      (∀ e ∈ q, CellOK M X m x ds e) → q.Pairwise (fun a b => a.minD ≤ b.minD) →
      (V ++ P ++ q.flatMap (fun e => e.node.idx)).Perm all → Inv ds k ub0 fac V P ns ub →
      ∃ (ns' : List (K × ℕ)) (ub' : Option K) (V' P' : List ℕ), queryLoop S M fac k x ds fuel q ns ub = some ns' ∧
        (V' ++ P').Perm all ∧ Inv ds k ub0 fac V' P' ns' ub' := by
  intro fuel
  induction fuel with
  | zero =>
    intro q ns ub V P hq hc hs hp hI
    cases q with
    | nil => exact ⟨ns, ub, V, P, rfl, by simpa using hp, hI⟩
    | cons e q =>
      exfalso
      simp only [qsize, List.map_cons, List.sum_cons] at hq
      have := size_pos e.node
      omega
  | succ fuel ih =>
    intro q ns ub V P hq hc hs hp hI
    cases q with
    | nil => exact ⟨ns, ub, V, P, rfl, by simpa using hp, hI⟩
    | cons e q =>
      rw [List.forall_mem_cons] at hc
      rw [List.pairwise_cons] at hs
      rw [List.flatMap_cons] at hp
      have hq' : e.node.size + qsize q ≤ fuel + 1 := by simpa [qsize] using hq
      rw [queryLoop.eq_3]
      cases hnode : e.node with
      | leaf idx =>
        simp only
        rw [hnode] at hp hq'
        simp only [Node.idx] at hp
        simp only [Node.size] at hq'
        have hnd : (V ++ P ++ (idx ++ q.flatMap (fun e => e.node.idx))).Nodup := hp.nodup_iff.2 hall
        have hidx : idx.Nodup := by
          rw [List.nodup_append] at hnd
          exact (List.nodup_append.1 hnd.2.1).1
        have hdisj : ∀ i ∈ idx, i ∉ V := by
          intro i hi hv
          rw [List.nodup_append] at hnd
          exact hnd.2.2 i (List.mem_append_left _ hv) i (List.mem_append_left _ hi) rfl
        obtain ⟨st, est, hst⟩ := leaf_inv hS hk idx hI hidx hdisj
        rw [Option.bind_eq_bind, est, Option.bind_some]
        refine ih q st.1 st.2 (idx ++ V) P (by omega) hc.2 hs.2 ?_ hst
        refine List.Perm.trans ?_ hp
        simp only [List.append_assoc]
        have : (idx ++ (V ++ (P ++ q.flatMap (fun e => e.node.idx)))).Perm ((V ++ P) ++ (idx ++ q.flatMap (fun e => e.node.idx))) := by
          rw [← List.append_assoc V P, ← List.append_assoc idx, ← List.append_assoc (V ++ P)]
          exact List.Perm.append_right _ List.perm_append_comm
        simpa only [List.append_assoc] using this
      | inner dim split less greater =>
        simp only
        have hcell := hc.1.cells
        rw [hnode] at hcell hp hq'
        simp only [Node.idx] at hp
        simp only [Node.size] at hq'
        obtain ⟨hdim, hl, hg, hcl, hcg⟩ := hcell
        by_cases hbreak : (!leBound e.minD (ub.map (· * fac))) = true
        · rw [if_pos hbreak]
          obtain ⟨c, hc1, hc2⟩ := leBound_false hbreak
          obtain ⟨b, hb, rfl⟩ := Option.map_eq_some_iff.1 hc1
          refine ⟨ns, ub, V, P ++ (less.idx ++ greater.idx ++ q.flatMap (fun e => e.node.idx)), rfl, by simpa only [List.append_assoc] using hp, hI.nodup,
            hI.mem, hI.sorted, hI.dropped, hI.full, hI.bound, ?_⟩
          intro p hpP
          rw [List.mem_append] at hpP
          rcases hpP with hpP | hpP
          · exact hI.pruned p hpP
          · refine ⟨b, ?_, hI.bound b hb⟩
            rw [List.mem_append] at hpP
            rcases hpP with hpP | hpP
            · refine lt_of_lt_of_le hc2 (hc.1.low p ?_)
              rw [hnode]
              exact hpP
            · obtain ⟨e', he', hpe'⟩ := List.mem_flatMap.1 hpP
              exact lt_of_lt_of_le hc2 (le_trans (hs.1 e' he') ((hc.2 e' he').low p hpe'))
        · rw [if_neg hbreak]
          set xv := x.getD dim 0 with hxv
          set near := if xv < split then less else greater with hnear
          set far := if xv < split then greater else less with hfar
          have hnf : (near.idx ++ far.idx).Perm (less.idx ++ greater.idx) := by
            rw [hnear, hfar]
            by_cases h1 : xv < split
            · simp [h1]
            · simp only [h1, if_false]
              exact List.perm_append_comm
          have hsz : near.size + far.size = less.size + greater.size := by
            rw [hnear, hfar]
            by_cases h1 : xv < split
            · simp [h1]
            · simp only [h1, if_false]
              omega
          have hnsub : ∀ i ∈ near.idx, i ∈ e.node.idx := by
            intro i hi
            rw [hnode]
            exact hnf.mem_iff.1 (List.mem_append_left _ hi)
          have hfsub : ∀ i ∈ far.idx, i ∈ e.node.idx := by
            intro i hi
            rw [hnode]
            exact hnf.mem_iff.1 (List.mem_append_right _ hi)
          have hfall : ∀ i ∈ far.idx, i ∈ all := by
            intro i hi
            apply hp.mem_iff.1
            exact List.mem_append_right _ (List.mem_append_left _ (hnf.mem_iff.1 (List.mem_append_right _ hi)))
          have hcn : Cells X m near := by
            rw [hnear]
            by_cases h1 : xv < split <;> simp only [h1, if_true, if_false] <;> assumption
          have hcf : Cells X m far := by
            rw [hfar]
            by_cases h1 : xv < split <;> simp only [h1, if_true, if_false] <;> assumption
          have hfd : ∀ i ∈ far.idx, |split - x.getD dim 0| ≤ |at' X i dim - x.getD dim 0| := by
            intro i hi
            rw [← hxv]
            rw [hfar] at hi
            by_cases h1 : xv < split
            · simp only [h1, if_true] at hi
              have := hg i hi
              rw [abs_of_nonneg (by linarith), abs_of_nonneg (by linarith)]
              linarith
            · simp only [h1, if_false] at hi
              have := hl i hi
              rw [abs_of_nonpos (by linarith), abs_of_nonpos (by linarith)]
              linarith
          set sdv := if M.inf then e.side.getD dim 0 else if M.one then |split - xv| else M.pw |split - xv| with hsdv
          set minD := if M.inf then max e.minD |split - xv| else e.minD - e.side.getD dim 0 + sdv with hminD
          have hcellnear : CellOK M X m x ds ⟨e.minD, e.side, near⟩ :=
            ⟨hcn, fun i hi => hc.1.low i (hnsub i hi), hc.1.len, hc.1.sum, fun h i hi => hc.1.side h i (hnsub i hi)⟩
          have hcellfar : CellOK M X m x ds ⟨minD, e.side.set dim sdv, far⟩ :=
            far_ok hM e hc.1 dim hdim split far (fun h i hi => hds h i (hfall i hi)) (fun h i hi => hinf h i (hfall i hi)) hcf hfsub hfd sdv minD hsdv hminD
          obtain ⟨hq1, ho1⟩ := qPush_ok hS q ⟨e.minD, e.side, near⟩
          have hc1 : ∀ e' ∈ qPush S q ⟨e.minD, e.side, near⟩, CellOK M X m x ds e' := by
            intro e' he'
            rw [hq1.mem_iff, List.mem_append, List.mem_singleton] at he'
            rcases he' with he' | rfl
            · exact hc.2 e' he'
            · exact hcellnear
          have hqs1 : qsize (qPush S q ⟨e.minD, e.side, near⟩) = qsize q + near.size := by
            rw [qsize_perm hq1]
            simp [qsize]
          have hfm1 : ((qPush S q ⟨e.minD, e.side, near⟩).flatMap (fun e => e.node.idx)).Perm (q.flatMap (fun e => e.node.idx) ++ near.idx) := by
            refine (List.Perm.flatMap_right _ hq1).trans ?_
            simp
          by_cases hpush : leBound minD (ub.map (· * fac)) = true
          · rw [if_pos hpush]
            obtain ⟨hq2, ho2⟩ := qPush_ok hS (qPush S q ⟨e.minD, e.side, near⟩) ⟨minD, e.side.set dim sdv, far⟩
            refine ih _ ns ub V P ?_ ?_ ho2 ?_ hI
            · rw [qsize_perm hq2]
              have : qsize (qPush S q ⟨e.minD, e.side, near⟩ ++ [⟨minD, e.side.set dim sdv, far⟩]) = qsize q + near.size + far.size := by
                rw [← hqs1]
                simp [qsize]
              omega
            · intro e' he'
              rw [hq2.mem_iff, List.mem_append, List.mem_singleton] at he'
              rcases he' with he' | rfl
              · exact hc1 e' he'
              · exact hcellfar
            · refine List.Perm.trans (List.Perm.append_left _ ?_) hp
              refine (List.Perm.flatMap_right _ hq2).trans ?_
              rw [List.flatMap_append]
              simp only [List.flatMap_cons, List.flatMap_nil, List.append_nil]
              refine (List.Perm.append_right _ hfm1).trans ?_
              rw [List.append_assoc]
              exact List.perm_append_comm.trans (List.Perm.append_right _ hnf)
          · rw [if_neg hpush]
            have hnp : (!leBound minD (ub.map (· * fac))) = true := by
              rw [Bool.not_eq_true'] at *
              simpa using hpush
            obtain ⟨c, hc1', hc2'⟩ := leBound_false hnp
            obtain ⟨b, hb, rfl⟩ := Option.map_eq_some_iff.1 hc1'
            refine ih _ ns ub V (P ++ far.idx) (by omega) hc1 ho1 ?_ ?_
            · refine List.Perm.trans ?_ hp
              rw [← List.append_assoc V P far.idx, List.append_assoc (V ++ P)]
              refine List.Perm.append_left _ ?_
              refine (List.Perm.append_left _ hfm1).trans ?_
              have h1 : (far.idx ++ (q.flatMap (fun e => e.node.idx) ++ near.idx)).Perm ((near.idx ++ far.idx) ++ q.flatMap (fun e => e.node.idx)) := by
                rw [← List.append_assoc]
                refine List.perm_append_comm.trans ?_
                rw [List.append_assoc]
              exact h1.trans (List.Perm.append_right _ hnf)
            · refine ⟨hI.nodup, hI.mem, hI.sorted, hI.dropped, hI.full, hI.bound, ?_⟩
              intro p hpP
              rw [List.mem_append] at hpP
              rcases hpP with hpP | hpP
              · exact hI.pruned p hpP
              · exact ⟨b, lt_of_lt_of_le hc2' (hcellfar.low p hpP), hI.bound b hb⟩

end Sk.Neigh
