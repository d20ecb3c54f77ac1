import Verif.Props.KnnPredict
import Mathlib.Data.List.Indexes
import Mathlib.Tactic.FieldSimp
import Mathlib.Analysis.SpecialFunctions.Pow.Real

/-!
# C194: neighbour estimators reproduce their training data, and do not depend on the order of rows and features, the origin and the unit

A training set is a list of pairs (sample, target); `T.map Prod.fst` and `T.map Prod.snd` are the matrices given to `Fit`.
-/
set_option autoImplicit false

namespace Sk.KnnInv

open Sk.Neigh Sk.Knn

variable {K : Type} [Field K] [LinearOrder K] [IsStrictOrderedRing K]

/-- No conflicting ties: training samples at the same distance of the query have the same target. -/
def Clear {V : Type} (dist : V → V → K) (q : V) (T : List (V × K)) : Prop := ∀ s ∈ T, ∀ t ∈ T, dist q s.1 = dist q t.1 → s.2 = t.2

/-- What the neighbours contribute, from a sorted list of (distance, target). -/
theorem votes_ranked {V : Type} {sort : List (K × ℕ) → List (K × ℕ)} (hs : SortsAsc Prod.fst sort) (dist : V → V → K) (eps : K) (w : Weights) (T : List (V × K)) (k : ℕ) (q : V) :
    ∃ s : List (K × K), s.Perm (T.map (fun t => (dist q t.1, t.2))) ∧ s.Pairwise (fun a b => a.1 ≤ b.1) ∧
      neighbourVotes sort dist eps w (T.map Prod.fst) (T.map Prod.snd) k q = if T.length < k then none else some ((s.take k).map (fun e => (e.2, weightOf eps w e.1))) := by
  set L := (T.map Prod.fst).zipIdx.map (fun e => (dist q e.1, e.2)) with hL
  obtain ⟨hp, ho⟩ := hs L
  set look : K × ℕ → K × K := fun e => (e.1, (T.map Prod.snd).getD e.2 0) with hlook
  have hLl : L.map look = T.map (fun t => (dist q t.1, t.2)) := by
    apply List.ext_getElem
    · simp [hL]
    · intro i h1 h2
      simp only [hL, hlook, List.getElem_map, List.getElem_zipIdx, Nat.zero_add]
      have : i < T.length := by simpa using h2
      simp [List.getD_eq_getElem?_getD, this]
  have hlen : (sort L).length = T.length := by rw [hp.length_eq]; simp [hL]
  refine ⟨(sort L).map look, hLl ▸ hp.map look, ?_, ?_⟩
  · rw [List.pairwise_map]
    exact ho
  · rw [neighbourVotes, kNeighbors]
    simp only [← hL, hlen]
    by_cases hk : T.length < k
    · rw [if_pos hk, if_pos hk]; rfl
    · rw [if_neg hk, if_neg hk]
      simp only [Option.bind_eq_bind, Option.bind_some]
      have hidx : ∀ e ∈ (sort L).take k, e.2 < (T.map Prod.snd).length := by
        intro e he
        have := hp.mem_iff.1 (List.mem_of_mem_take he)
        rw [hL] at this
        obtain ⟨a, ha, rfl⟩ := List.mem_map.1 this
        have := (List.mem_zipIdx ha).2.1
        simpa using this
      rw [← List.map_take]
      generalize (sort L).take k = r at hidx
      induction r with
      | nil => rfl
      | cons a r ih =>
        rw [List.forall_mem_cons] at hidx
        have ea : (T.map Prod.snd)[a.2]? = some ((T.map Prod.snd).getD a.2 0) := by
          rw [List.getD_eq_getElem?_getD, List.getElem?_eq_getElem hidx.1]; rfl
        rw [List.mapM_cons, ea, ih hidx.2]
        rfl

theorem ranked_unique {l l' : List (K × K)} (hp : l.Perm l') (ho : l.Pairwise (fun a b => a.1 ≤ b.1)) (ho' : l'.Pairwise (fun a b => a.1 ≤ b.1)) (hc : ∀ a ∈ l, ∀ b ∈ l, a.1 = b.1 → a.2 = b.2) : l = l' :=
  List.Perm.eq_of_pairwise (le := fun a b : K × K => a.1 ≤ b.1) (fun a b ha hb h1 h2 => Prod.ext (le_antisymm h1 h2) (hc a ha b (hp.mem_iff.2 hb) (le_antisymm h1 h2))) ho ho' hp

/-- **C194, invariance.** Let the samples go through any map `f` (a permutation of the features, another origin, another unit), the training rows be put in any order, and let all distances to the query
go through a strictly increasing function. If no two training samples at the same distance of the query have different targets, then the predictions of the classifier (for the same order of iterating
the votes), the class probabilities and the predictions of the regressor are the same, whatever the two sorts do with ties; with distance weights the distances must be the same. -/
theorem C194_invariant {V V' : Type} {sort sort' : List (K × ℕ) → List (K × ℕ)} (hs : SortsAsc Prod.fst sort) (hs' : SortsAsc Prod.fst sort') (dist : V → V → K) (dist' : V' → V' → K) (f : V → V') (g : K → K) (hg : StrictMono g)
    (T : List (V × K)) (T' : List (V' × K)) (hT : T'.Perm (T.map (fun t => (f t.1, t.2)))) (q : V) (hd : ∀ t ∈ T, dist' (f q) (f t.1) = g (dist q t.1)) (hc : Clear dist q T) (eps : K) (w : Weights)
    (hw : w = .uniform ∨ ∀ t ∈ T, g (dist q t.1) = dist q t.1) (k : ℕ) :
    (∀ it, classify sort' it dist' eps w (T'.map Prod.fst) (T'.map Prod.snd) k (f q) = classify sort it dist eps w (T.map Prod.fst) (T.map Prod.snd) k q) ∧
    (∀ classes old, predictProba sort' dist' eps w (T'.map Prod.fst) (T'.map Prod.snd) classes k (f q) old = predictProba sort dist eps w (T.map Prod.fst) (T.map Prod.snd) classes k q old) ∧
    regress sort' dist' eps w (T'.map Prod.fst) (T'.map Prod.snd) k (f q) = regress sort dist eps w (T.map Prod.fst) (T.map Prod.snd) k q := by
  obtain ⟨s, hp, ho, hv⟩ := votes_ranked hs dist eps w T k q
  obtain ⟨s', hp', ho', hv'⟩ := votes_ranked hs' dist' eps w T' k (f q)
  have hss : s' = s.map (fun e => (g e.1, e.2)) := by
    have hperm : s'.Perm (s.map (fun e => (g e.1, e.2))) := by
      refine hp'.trans ((hT.map _).trans ?_)
      refine List.Perm.trans (List.Perm.of_eq ?_) (hp.map _).symm
      rw [List.map_map, List.map_map]
      exact List.map_congr_left (fun t ht => by simp [hd t ht])
    refine ranked_unique hperm ho' ?_ ?_
    · rw [List.pairwise_map]
      exact ho.imp (fun h => hg.monotone h)
    · intro a ha b hb hab
      obtain ⟨u, hu, rfl⟩ := List.mem_map.1 (hperm.mem_iff.1 ha)
      obtain ⟨v, hv, rfl⟩ := List.mem_map.1 (hperm.mem_iff.1 hb)
      have huv := hg.injective hab
      obtain ⟨x, hx, rfl⟩ := List.mem_map.1 (hp.mem_iff.1 hu)
      obtain ⟨y, hy, rfl⟩ := List.mem_map.1 (hp.mem_iff.1 hv)
      exact hc x hx y hy huv
  have hl : T'.length = T.length := by rw [hT.length_eq, List.length_map]
  have key : neighbourVotes sort' dist' eps w (T'.map Prod.fst) (T'.map Prod.snd) k (f q) = neighbourVotes sort dist eps w (T.map Prod.fst) (T.map Prod.snd) k q := by
    rw [hv, hv', hl, hss, ← List.map_take, List.map_map]
    congr 2
    apply List.map_congr_left
    intro e he
    simp only [Function.comp]
    rcases hw with rfl | hw
    · rfl
    · obtain ⟨t, ht, rfl⟩ := List.mem_map.1 (hp.mem_iff.1 (List.mem_of_mem_take he))
      simp only [hw t ht]
  refine ⟨fun it => ?_, fun classes old => ?_, ?_⟩
  · rw [classify, classify, key]
  · rw [predictProba, predictProba, key]
  · rw [regress, regress, key]

/-- Conflicting ties matter: with two training samples at the same distance of the query and different targets, exchanging the two rows changes the prediction of the nearest neighbour, whatever the sort
and the (nonzero) weights. -/
theorem C194_ties_violated {V : Type} {sort : List (K × ℕ) → List (K × ℕ)} (hs : SortsAsc Prod.fst sort) (dist : V → V → K) (eps : K) (w : Weights) (q a b : V) (hab : dist q a = dist q b) (hw : weightOf eps w (dist q a) ≠ 0)
    (u v : K) (huv : u ≠ v) :
    regress sort dist eps w [a, b] [u, v] 1 q ≠ regress sort dist eps w [b, a] [v, u] 1 q := by
  have h2 : ∀ (x y : V) (s t : K), dist q x = dist q a → dist q y = dist q a →
      regress sort dist eps w [x, y] [s, t] 1 q = some (if ((sort [(dist q a, 0), (dist q a, 1)]).map Prod.snd).head? = some 0 then s else t) := by
    intro x y s t hx hy
    have hp := (hs [(dist q a, 0), (dist q a, 1)]).1
    have hl := hp.length_eq
    rw [regress, neighbourVotes, kNeighbors]
    simp only [List.zipIdx_cons, List.zipIdx_nil, List.map_cons, List.map_nil, hx, hy, Nat.zero_add]
    rcases hc : sort [(dist q a, 0), (dist q a, 1)] with _ | ⟨e, r⟩
    · rw [hc] at hl; simp at hl
    · rw [hc] at hl hp
      have he : e ∈ [(dist q a, 0), (dist q a, 1)] := hp.mem_iff.1 List.mem_cons_self
      rw [if_neg (by rw [hl]; simp)]
      simp only [List.mem_cons, List.not_mem_nil, or_false] at he
      rcases he with rfl | rfl
      · simp [mul_comm, hw]
      · simp [mul_comm, hw]
  rw [h2 a b u v rfl hab.symm, h2 b a v u hab.symm rfl]
  intro h
  split at h
  · exact huv (Option.some.inj h)
  · exact huv (Option.some.inj h).symm

/-- **C194, own samples.** With one neighbour, a metric that vanishes only between equal samples, and equal training samples with equal targets, both estimators return the target of every training
sample, with either weighting. -/
theorem C194_self {V : Type} [Inhabited V] {sort : List (K × ℕ) → List (K × ℕ)} (hs : SortsAsc Prod.fst sort) (it : List (K × K) → List (K × K)) (hit : ∀ l, (it l).Perm l)
    (dist : V → V → K) (hd : ∀ a b, 0 ≤ dist a b) (T : List (V × K)) (hz : ∀ s ∈ T, ∀ t ∈ T, dist s.1 t.1 = 0 ↔ s.1 = t.1) (hT : ∀ s ∈ T, ∀ t ∈ T, s.1 = t.1 → s.2 = t.2)
    {eps : K} (heps : 0 < eps) (w : Weights) :
    (T.map Prod.fst).mapM (classify sort it dist eps w (T.map Prod.fst) (T.map Prod.snd) 1) = some (T.map Prod.snd) ∧
    (T.map Prod.fst).mapM (regress sort dist eps w (T.map Prod.fst) (T.map Prod.snd) 1) = some (T.map Prod.snd) := by
  have hone : ∀ s ∈ T, ∀ r, KNearest (fun i => dist s.1 ((T.map Prod.fst).getD i default)) (T.map Prod.fst).length 1 r → ∀ e ∈ r, (T.map Prod.snd).getD e.2 0 = s.2 := by
    intro s hs' r h e he
    have hei := (h.own e he)
    have hlt : e.2 < T.length := by simpa using hei.1
    have hget : (T.map Prod.fst).getD e.2 default = T[e.2].1 := by simp [List.getD_eq_getElem?_getD, hlt]
    have hget2 : (T.map Prod.snd).getD e.2 0 = T[e.2].2 := by simp [List.getD_eq_getElem?_getD, hlt]
    have h0 : dist s.1 T[e.2].1 = 0 := by
      obtain ⟨i, hi, rfl⟩ := List.mem_iff_getElem.1 hs'
      have hgi : (T.map Prod.fst).getD i default = T[i].1 := by simp [List.getD_eq_getElem?_getD, hi]
      have hzi : dist T[i].1 T[i].1 = 0 := (hz _ hs' _ hs').2 rfl
      by_cases hir : i ∈ r.map Prod.snd
      · have hl := h.len
        rcases r with _ | ⟨e', _ | ⟨_, _⟩⟩
        · simp at hl
        · simp only [List.map_cons, List.map_nil, List.mem_cons, List.not_mem_nil, or_false] at hir he
          subst he
          simp only [← hir, hzi]
        · simp at hl
      · have := h.best i (by simpa using hi) hir e he
        simp only [hei.2, hget, hgi, hzi] at this
        exact le_antisymm this (hd _ _)
    rw [hget2]
    exact (hT _ hs' _ (List.getElem_mem hlt) ((hz _ hs' _ (List.getElem_mem hlt)).1 h0)).symm
  have hY : (T.map Prod.snd).length = (T.map Prod.fst).length := by simp
  have go : ∀ (F : V → Option K), (∀ s ∈ T, F s.1 = some s.2) → (T.map Prod.fst).mapM F = some (T.map Prod.snd) := by
    intro F
    clear hone hz hT hY
    induction T with
    | nil => intro _; rfl
    | cons a T ih =>
      intro hF
      rw [List.forall_mem_cons] at hF
      rw [List.map_cons, List.mapM_cons, hF.1, ih hF.2]
      rfl
  constructor
  · apply go
    intro s hs'
    have hk : 1 ≤ (T.map Prod.fst).length := by
      rw [List.length_map]; exact List.length_pos_of_mem hs'
    obtain ⟨r, c, h, e, hc, -⟩ := C44_predict hs it hit dist hd heps w (T.map Prod.fst) (T.map Prod.snd) hY one_pos hk s.1
    rw [e]
    obtain ⟨x, hx, rfl⟩ := List.mem_map.1 hc
    rw [hone s hs' r h x hx]
  · apply go
    intro s hs'
    have hk : 1 ≤ (T.map Prod.fst).length := by
      rw [List.length_map]; exact List.length_pos_of_mem hs'
    obtain ⟨r, y, h, e, -, -, hb⟩ := C79_regress hs dist hd heps w (T.map Prod.fst) (T.map Prod.snd) hY one_pos hk s.1
    rw [e]
    have := hb s.2 s.2 (fun x hx => by rw [hone s hs' r h x hx]; exact ⟨le_rfl, le_rfl⟩)
    rw [le_antisymm this.2 this.1]

/-- **C194, all samples.** With as many neighbours as training samples and uniform weights, every query gets the same answer: the regressor returns the mean target, the classifier a class that
is most frequent among the targets. -/
theorem C194_all {V : Type} [Inhabited V] {sort : List (K × ℕ) → List (K × ℕ)} (hs : SortsAsc Prod.fst sort) (it : List (K × K) → List (K × K)) (hit : ∀ l, (it l).Perm l)
    (dist : V → V → K) (hd : ∀ a b, 0 ≤ dist a b) {eps : K} (heps : 0 < eps) (X : List V) (Y : List K) (hY : Y.length = X.length) (h0 : X ≠ []) (q : V) :
    regress sort dist eps .uniform X Y X.length q = some (Y.sum / (Y.length : K)) ∧
    ∃ c ∈ Y, classify sort it dist eps .uniform X Y X.length q = some c ∧ ∀ c', Y.count c' ≤ Y.count c := by
  have hpos := List.length_pos_iff.2 h0
  have hperm : ∀ r, KNearest (fun i => dist q (X.getD i default)) X.length X.length r → (r.map (fun e => Y.getD e.2 0)).Perm Y := by
    intro r h
    have h1 : (r.map Prod.snd).Perm (List.range X.length) := by
      apply (List.subperm_of_subset h.distinct ?_).perm_of_length_le
      · simp [h.len]
      · intro i hi
        obtain ⟨e, he, rfl⟩ := List.mem_map.1 hi
        exact List.mem_range.2 (h.own e he).1
    have h2 := h1.map (fun i => Y.getD i 0)
    rw [List.map_map] at h2
    refine h2.trans (List.Perm.of_eq ?_)
    apply List.ext_getElem
    · simp [hY]
    · intro i hi1 hi2
      simp [List.getD_eq_getElem?_getD, hi2]
  constructor
  · obtain ⟨r, y, h, e, hu, -⟩ := C79_regress hs dist hd heps .uniform X Y hY hpos le_rfl q
    rw [e, hu rfl, (hperm r h).sum_eq, hY]
  · obtain ⟨r, c, h, e, hc, hm⟩ := C44_predict hs it hit dist hd heps .uniform X Y hY hpos le_rfl q
    have hcount : ∀ c', (r.map (fun e => if Y.getD e.2 0 = c' then weightOf eps Weights.uniform e.1 else 0)).sum = (Y.count c' : K) := by
      intro c'
      rw [← (hperm r h).count_eq]
      clear hm hc h e
      induction r with
      | nil => simp
      | cons a r ih =>
        simp only [weightOf] at ih ⊢
        simp only [List.map_cons, List.sum_cons, List.count_cons, ih, beq_iff_eq]
        push_cast
        ring
    refine ⟨c, (hperm r h).mem_iff.1 hc, e, fun c' => ?_⟩
    have := hm c'
    rw [hcount, hcount] at this
    exact_mod_cast this

/-- Samples with the features permuted by `σ`, expressed in a unit `1 / c` of theirs, from the origin `-t`. -/
noncomputable def move {m : ℕ} (σ : Equiv.Perm (Fin m)) (c : ℝ) (t : Fin m → ℝ) (x : List ℝ) : List ℝ := List.ofFn (fun i => c * x.getD (σ i) 0 + t i)

theorem move_ofFn {m : ℕ} (σ : Equiv.Perm (Fin m)) (c : ℝ) (t a : Fin m → ℝ) : move σ c t (List.ofFn a) = List.ofFn (fun i => c * a (σ i) + t i) := by
  simp [move, List.getD_eq_getElem?_getD]

/-- The library's distances are multiplied by one positive number under such a change. -/
theorem mink_move {m : ℕ} (M : Mink ℝ) (hM : M = rinf ∨ ∃ p, 0 < p ∧ M = rp p) (σ : Equiv.Perm (Fin m)) {c : ℝ} (hc : 0 < c) (t : Fin m → ℝ) :
    ∃ c' : ℝ, 0 < c' ∧ (c = 1 → c' = 1) ∧ ∀ a b : List ℝ, a.length = m → b.length = m → mink M (move σ c t a) (move σ c t b) = c' * mink M a b := by
  have hof : ∀ a : List ℝ, a.length = m → ∃ a' : Fin m → ℝ, a = List.ofFn a' := by
    rintro a rfl
    exact ⟨_, (List.ofFn_getElem (xs := a)).symm⟩
  have habs : ∀ (a b : Fin m → ℝ) i, |c * a (σ i) + t i - (c * b (σ i) + t i)| = c * |a (σ i) - b (σ i)| := by
    intro a b i
    rw [show c * a (σ i) + t i - (c * b (σ i) + t i) = c * (a (σ i) - b (σ i)) by ring, abs_mul, abs_of_pos hc]
  rcases hM with rfl | ⟨p, hp, rfl⟩
  · refine ⟨c, hc, id, ?_⟩
    intro a b ha hb
    obtain ⟨a, rfl⟩ := hof a ha
    obtain ⟨b, rfl⟩ := hof b hb
    rw [move_ofFn, move_ofFn]
    obtain ⟨h1, h2, h3⟩ := C43_inf a b
    obtain ⟨g1, g2, g3⟩ := C43_inf (fun i => c * a (σ i) + t i) (fun i => c * b (σ i) + t i)
    by_cases hm : m = 0
    · rw [h3 hm, g3 hm, mul_zero]
    · obtain ⟨i, hi⟩ := h2 hm
      obtain ⟨j, hj⟩ := g2 hm
      apply le_antisymm
      · rw [hj, habs]
        exact mul_le_mul_of_nonneg_left (h1 _) hc.le
      · rw [hi]
        have := g1 (σ.symm i)
        rw [habs, Equiv.apply_symm_apply] at this
        exact this
  · by_cases hm : m = 1
    · subst hm
      have hσ : σ = 1 := Subsingleton.elim _ _
      subst hσ
      by_cases hp1 : p = 1
      · refine ⟨c, hc, id, ?_⟩
        intro a b ha hb
        obtain ⟨a, rfl⟩ := hof a ha
        obtain ⟨b, rfl⟩ := hof b hb
        rw [move_ofFn, move_ofFn]
        simp [mink, minkP, rp, hp1]
        rw [← mul_sub, abs_mul, abs_of_pos hc]
      · refine ⟨c ^ (1 / p), Real.rpow_pos_of_pos hc _, fun h => by rw [h, Real.one_rpow], ?_⟩
        intro a b ha hb
        obtain ⟨a, rfl⟩ := hof a ha
        obtain ⟨b, rfl⟩ := hof b hb
        rw [move_ofFn, move_ofFn]
        have := habs a b 0
        simp only [Equiv.Perm.coe_one, id] at this
        simp only [List.ofFn_succ, List.ofFn_zero, Equiv.Perm.coe_one, id]
        rw [mink_one p hp1, mink_one p hp1, this, Real.mul_rpow hc.le (abs_nonneg _)]
    · refine ⟨c, hc, id, ?_⟩
      intro a b ha hb
      obtain ⟨a, rfl⟩ := hof a ha
      obtain ⟨b, rfl⟩ := hof b hb
      rw [move_ofFn, move_ofFn, C43_formula_partial hm p hp, C43_formula_partial hm p hp]
      simp only [habs, Real.mul_rpow hc.le (abs_nonneg _)]
      rw [← Finset.mul_sum, Equiv.sum_comp σ (fun i => |a i - b i| ^ p), Real.mul_rpow (Real.rpow_nonneg hc.le _) (Finset.sum_nonneg (fun i _ => Real.rpow_nonneg (abs_nonneg _) _)), ← Real.rpow_mul hc.le,
        mul_one_div_cancel (ne_of_gt hp), Real.rpow_one]

/-- **C194, rows, features, origin and unit.** For every Minkowski distance of the library (also with one feature): training on the rows in another order, with the features of all samples and of the query
permuted, shifted and brought to another common unit, does not change any prediction, if no two training samples at the same distance of the query have different targets. With distance weights the unit
must be kept. -/
theorem C194_move {m : ℕ} {sort sort' : List (ℝ × ℕ) → List (ℝ × ℕ)} (hs : SortsAsc Prod.fst sort) (hs' : SortsAsc Prod.fst sort') (M : Mink ℝ) (hM : M = rinf ∨ ∃ p, 0 < p ∧ M = rp p)
    (σ : Equiv.Perm (Fin m)) {c : ℝ} (hc : 0 < c) (t : Fin m → ℝ) (T T' : List (List ℝ × ℝ)) (hm : ∀ s ∈ T, s.1.length = m) (hT : T'.Perm (T.map (fun s => (move σ c t s.1, s.2)))) (q : List ℝ) (hq : q.length = m)
    (hclear : Clear (mink M) q T) (eps : ℝ) (w : Weights) (hw : w = .uniform ∨ c = 1) (k : ℕ) :
    (∀ it, classify sort' it (mink M) eps w (T'.map Prod.fst) (T'.map Prod.snd) k (move σ c t q) = classify sort it (mink M) eps w (T.map Prod.fst) (T.map Prod.snd) k q) ∧
    (∀ classes old, predictProba sort' (mink M) eps w (T'.map Prod.fst) (T'.map Prod.snd) classes k (move σ c t q) old = predictProba sort (mink M) eps w (T.map Prod.fst) (T.map Prod.snd) classes k q old) ∧
    regress sort' (mink M) eps w (T'.map Prod.fst) (T'.map Prod.snd) k (move σ c t q) = regress sort (mink M) eps w (T.map Prod.fst) (T.map Prod.snd) k q := by
  obtain ⟨c', hc', h1, h⟩ := mink_move M hM σ hc t
  refine C194_invariant hs hs' (mink M) (mink M) (move σ c t) (fun d => c' * d) (fun a b hab => mul_lt_mul_of_pos_left hab hc') T T' hT q (fun s hs => h q s.1 hq (hm s hs)) hclear eps w ?_ k
  rcases hw with rfl | hw
  · exact Or.inl rfl
  · exact Or.inr (fun s _ => by simp only [h1 hw, one_mul])

/-- Distance weights do depend on the unit, because of the constant added to the distances: two training samples at the distances 0 and 1 of the query, with targets 0 and 1. -/
theorem C194_unit_violated {sort : List (K × ℕ) → List (K × ℕ)} (hs : SortsAsc Prod.fst sort) {eps : K} (heps : 0 < eps) {c : K} (hc : 0 < c) (hc1 : c ≠ 1) :
    ∃ y y', regress sort (fun a b : K => |a - b|) eps .distance [0, 1] [0, 1] 2 0 = some y ∧ regress sort (fun a b : K => |a - b|) eps .distance [0, c] [0, 1] 2 0 = some y' ∧ y ≠ y' := by
  have h : ∀ c : K, 0 < c → regress sort (fun a b : K => |a - b|) eps .distance [0, c] [0, 1] 2 0 = some (eps / (2 * eps + c)) := by
    intro c hc
    obtain ⟨s, hp, ho, hv⟩ := votes_ranked hs (fun a b : K => |a - b|) eps .distance [((0 : K), (0 : K)), (c, 1)] 2 0
    have hl : s.length = 2 := hp.length_eq
    have hs2 : s = [((0 : K), (0 : K)), (c, 1)] := by
      apply ranked_unique (hp.trans (List.Perm.of_eq (by simp [abs_of_pos hc]))) ho
      · simp [hc.le]
      · intro a ha b hb hab
        have ha := hp.mem_iff.1 ha
        have hb := hp.mem_iff.1 hb
        simp only [List.map_cons, List.map_nil, sub_self, abs_zero, zero_sub, abs_neg, abs_of_pos hc, List.mem_cons, List.not_mem_nil, or_false] at ha hb
        rcases ha with rfl | rfl <;> rcases hb with rfl | rfl
        · rfl
        · exact absurd hab (ne_of_lt hc)
        · exact absurd hab (ne_of_gt hc)
        · rfl
    simp only [List.map_cons, List.map_nil] at hv
    rw [regress, hv, hs2]
    have h2 : eps + c ≠ 0 := by positivity
    have h3 : 2 * eps + c ≠ 0 := by positivity
    have h4 : eps ≠ 0 := ne_of_gt heps
    have h5 : eps + c + eps ≠ 0 := by positivity
    simp [weightOf]
    field_simp
    ring
  refine ⟨_, _, h 1 one_pos, h c hc, ?_⟩
  intro he
  rw [div_eq_div_iff (by positivity) (by positivity)] at he
  have := mul_left_cancel₀ (ne_of_gt heps) he
  exact hc1 (by linarith)

/-! The hypotheses are met. -/

example : (([([0, 0], 1), ([3, 0], 2), ([0, 5], 1)] : List (List ℚ × ℚ)).map Prod.fst).mapM (classify (insAsc Prod.fst) id (fun a b => (List.zipWith (fun x y => |y - x|) a b).sum) (1 / 100) .distance
    [[0, 0], [3, 0], [0, 5]] [1, 2, 1] 1) = some [1, 2, 1] := by
  decide +kernel

example : Clear (fun a b : List ℚ => (List.zipWith (fun x y => |y - x|) a b).sum) [1, 1] [([0, 0], 1), ([3, 1], 1), ([0, 5], 2)] := by
  intro s hs t ht
  simp only [List.mem_cons, List.not_mem_nil, or_false] at hs ht
  rcases hs with rfl | rfl | rfl <;> rcases ht with rfl | rfl | rfl <;> norm_num

example : regress (K := ℚ) (insAsc Prod.fst) (fun a b : ℚ => |a - b|) (1 / 100) .uniform [0, 4, 5] [1, 2, 6] 2 3 = regress (K := ℚ) (insAsc Prod.fst) (fun a b : ℚ => |a - b|) (1 / 100) .uniform [17, 15, 7] [6, 2, 1] 2 13 ∧
    regress (K := ℚ) (insAsc Prod.fst) (fun a b : ℚ => |a - b|) (1 / 100) .uniform [0, 4, 5] [1, 2, 6] 2 3 = some 4 := by
  decide +kernel

end Sk.KnnInv
