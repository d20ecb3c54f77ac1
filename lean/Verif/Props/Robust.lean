import Verif.Props.KnnPredict
import Verif.Props.RidgeInv
import Verif.Props.Classification

/-! # C241: what changed targets and predictions do to ridge regressions, votes and the accuracy -/
set_option autoImplicit false

namespace Sk.Robust

/-! ### Ridge -/

section
open Sk.Lin

variable {n p q : ℕ}

private theorem shrink (A : Fin n → Fin p → ℝ) (b b' : Fin n → ℝ) (θ θ' : Fin p → ℝ) (h : ∀ j, ∑ i, A i j * ((∑ k, A i k * θ k) - b i) + 1 * θ j = 0) (h' : ∀ j, ∑ i, A i j * ((∑ k, A i k * θ' k) - b' i) + 1 * θ' j = 0) :
    ∑ i, (∑ k, A i k * (θ' k - θ k)) ^ 2 + 2 * ∑ j, (θ' j - θ j) ^ 2 ≤ ∑ i, (b' i - b i) ^ 2 := by
  have hd : ∀ j, ∑ i, A i j * ((∑ k, A i k * (θ' k - θ k)) - (b' i - b i)) + (θ' j - θ j) = 0 := by
    intro j
    have e : ∑ i, A i j * ((∑ k, A i k * (θ' k - θ k)) - (b' i - b i)) = ∑ i, A i j * ((∑ k, A i k * θ' k) - b' i) - ∑ i, A i j * ((∑ k, A i k * θ k) - b i) := by
      rw [← Finset.sum_sub_distrib]
      refine Finset.sum_congr rfl fun i _ => ?_
      have : ∑ k, A i k * (θ' k - θ k) = ∑ k, A i k * θ' k - ∑ k, A i k * θ k := by
        rw [← Finset.sum_sub_distrib]
        exact Finset.sum_congr rfl fun k _ => by ring
      rw [this]
      ring
    rw [e]
    linarith [h j, h' j]
  have s : ∑ j, (θ' j - θ j) * (∑ i, A i j * ((∑ k, A i k * (θ' k - θ k)) - (b' i - b i)) + (θ' j - θ j)) = 0 := Finset.sum_eq_zero fun j _ => by rw [hd j, mul_zero]
  have t : ∑ j, (θ' j - θ j) * (∑ i, A i j * ((∑ k, A i k * (θ' k - θ k)) - (b' i - b i)) + (θ' j - θ j)) =
      ∑ i, (∑ k, A i k * (θ' k - θ k)) * ((∑ k, A i k * (θ' k - θ k)) - (b' i - b i)) + ∑ j, (θ' j - θ j) ^ 2 := by
    simp only [mul_add, Finset.sum_add_distrib, Finset.mul_sum]
    rw [Finset.sum_comm]
    congr 1
    · refine Finset.sum_congr rfl fun i _ => ?_
      rw [Finset.sum_mul]
      exact Finset.sum_congr rfl fun j _ => by ring
    · exact Finset.sum_congr rfl fun j _ => by ring
  have u : 0 ≤ ∑ i, ((b' i - b i) - ∑ k, A i k * (θ' k - θ k)) ^ 2 := Finset.sum_nonneg fun _ _ => sq_nonneg _
  have v : ∑ i, ((b' i - b i) - ∑ k, A i k * (θ' k - θ k)) ^ 2 = ∑ i, (b' i - b i) ^ 2 + 2 * (∑ i, (∑ k, A i k * (θ' k - θ k)) * ((∑ k, A i k * (θ' k - θ k)) - (b' i - b i))) - ∑ i, (∑ k, A i k * (θ' k - θ k)) ^ 2 := by
    rw [Finset.mul_sum, ← Finset.sum_add_distrib, ← Finset.sum_sub_distrib]
    exact Finset.sum_congr rfl fun i _ => by ring
  linarith

private theorem split_mean (hn : n ≠ 0) (d : Fin n → ℝ) (c : ℝ) (hd : ∑ i, d i = 0) : ∑ i, (d i + c) ^ 2 = ∑ i, d i ^ 2 + n * c ^ 2 := by
  have e : ∑ i, (d i + c) ^ 2 = ∑ i, d i ^ 2 + 2 * c * ∑ i, d i + ∑ _i : Fin n, c ^ 2 := by
    rw [Finset.mul_sum, ← Finset.sum_add_distrib, ← Finset.sum_add_distrib]
    exact Finset.sum_congr rfl fun i _ => by ring
  rw [e, hd, Finset.sum_const, Finset.card_univ, Fintype.card_fin, nsmul_eq_mul]
  ring

private theorem centred (hn : n ≠ 0) (x : Fin n → ℝ) : ∑ i, (x i - colMean x) = 0 := by
  have hn' : (n : ℝ) ≠ 0 := Nat.cast_ne_zero.2 hn
  rw [Finset.sum_sub_distrib, Finset.sum_const, Finset.card_univ, Fintype.card_fin, nsmul_eq_mul, colMean]
  field_simp
  ring

/-- **C241, ridge.** Two ridge regressions with an intercept and `Alpha > 0` on the same rows and different targets: for every output the squared changes of the training predictions and twice the squared changes of the coefficients
(in the units of the features) sum to at most the squared changes of the targets. -/
theorem C241_ridge (hn : n ≠ 0) (normalize : Bool) {alpha : ℝ} (ha : 0 < alpha) (minimize minimize' : Fin q → Minimizer p) (start start' : Fin p → Fin q → ℝ) (arrival arrival' : List (Fin q)) (h : Arrivals arrival)
    (h' : Arrivals arrival') (old old' : Fin q → ℝ) (X : Fin n → Fin p → ℝ) (Y Y' : Fin n → Fin q → ℝ) (hv : normalize = true → ∀ j, Varies (fun i => X i j)) (hs : Solves normalize alpha minimize start X Y)
    (hs' : Solves normalize alpha minimize' start' X Y') :
    ∃ f f', ridgeFit true normalize alpha 0 minimize start arrival old X Y = some f ∧ ridgeFit true normalize alpha 0 minimize' start' arrival' old' X Y' = some f' ∧
      ∀ o, ∃ m m', f.coefs o = some m ∧ f'.coefs o = some m' ∧
        ∑ i, (decision m' (X i) - decision m (X i)) ^ 2 + 2 * ∑ j, ((if normalize then spread (fun i => X i j) else 1) * (m'.coef j - m.coef j)) ^ 2 ≤ ∑ i, (Y' i o - Y i o) ^ 2 := by
  obtain ⟨f, hf, cf⟩ := ridge_solution hn normalize alpha minimize start arrival h old X Y hv hs
  obtain ⟨f', hf', cf'⟩ := ridge_solution hn normalize alpha minimize' start' arrival' h' old' X Y' hv hs'
  refine ⟨f, f', hf, hf', fun o => ?_⟩
  obtain ⟨θ, m, e1, e2, e3, e4⟩ := cf o
  obtain ⟨θ', m', g1, g2, g3, g4⟩ := cf' o
  refine ⟨m, m', e1, g1, ?_⟩
  have hw : usedAlpha alpha = 1 := by rw [usedAlpha, if_pos ha]
  rw [hw] at e4 g4
  have key := shrink _ _ _ θ θ' e4 g4
  have hpen : ∀ j, (if normalize then spread (fun i => X i j) else 1) * (m'.coef j - m.coef j) = θ' j - θ j := by
    intro j
    rw [e2, g2, mul_sub]
    exact congrArg₂ (· - ·) (divisor_cancel normalize X hv θ' j) (divisor_cancel normalize X hv θ j)
  have hdec : ∀ i, decision m' (X i) - decision m (X i) = (∑ k, (X i k - colMean (fun i => X i k)) / divisor normalize X k * (θ' k - θ k)) + (colMean (fun i => Y' i o) - colMean (fun i => Y i o)) := by
    intro i
    have : ∑ k, (X i k - colMean (fun i => X i k)) / divisor normalize X k * (θ' k - θ k) = ∑ k, X i k * m'.coef k - ∑ k, X i k * m.coef k - (∑ k, colMean (fun i => X i k) * m'.coef k - ∑ k, colMean (fun i => X i k) * m.coef k) := by
      rw [e2, g2, ← Finset.sum_sub_distrib, ← Finset.sum_sub_distrib, ← Finset.sum_sub_distrib]
      exact Finset.sum_congr rfl fun k _ => by ring
    rw [this, decision, decision, e3, g3]
    ring
  have hzero : ∑ i, (∑ k, (X i k - colMean (fun i => X i k)) / divisor normalize X k * (θ' k - θ k)) = 0 := by
    rw [Finset.sum_comm]
    refine Finset.sum_eq_zero fun k _ => ?_
    rw [← Finset.sum_mul, ← Finset.sum_div, centred hn, zero_div, zero_mul]
  have hy : ∑ i, (Y' i o - Y i o) ^ 2 = ∑ i, ((Y' i o - colMean (fun i => Y' i o)) - (Y i o - colMean (fun i => Y i o))) ^ 2 + n * (colMean (fun i => Y' i o) - colMean (fun i => Y i o)) ^ 2 := by
    rw [← split_mean hn _ _ (by rw [Finset.sum_sub_distrib, centred hn, centred hn, sub_zero])]
    exact Finset.sum_congr rfl fun i _ => by ring
  simp only [hdec, hpen]
  rw [split_mean hn _ _ hzero, hy]
  linarith

end

/-! ### Votes -/

section
variable {K : Type} [Field K] [LinearOrder K] [IsStrictOrderedRing K]

open Sk.Knn Sk.Neigh

private theorem votes_of {V : Type} {sort : List (K × ℕ) → List (K × ℕ)} (dist : V → V → K) (eps : K) (w : Weights) (X : List V) (Y : List K) {k : ℕ} (q : V) (r : List (K × ℕ))
    (e : kNeighbors sort dist X k q = some r) (h : ∀ e ∈ r, e.2 < Y.length) :
    neighbourVotes sort dist eps w X Y k q = some (r.map (fun e => (Y.getD e.2 0, weightOf eps w e.1))) := by
  rw [neighbourVotes]
  simp only [e, Option.bind_eq_bind, Option.bind_some]
  clear e
  induction r with
  | nil => rfl
  | cons a r ih =>
    rw [List.forall_mem_cons] at h
    have ea : Y[a.2]? = some (Y.getD a.2 0) := by simp [h.1]
    rw [List.mapM_cons, ea, ih h.2]
    rfl

private theorem weight_count (r : List (K × ℕ)) (eps : K) (Y : List K) (c : K) :
    classWeight (r.map (fun e => (Y.getD e.2 0, weightOf eps .uniform e.1))) c = (r.countP (fun e => decide (Y.getD e.2 0 = c)) : K) := by
  induction r with
  | nil => simp [classWeight]
  | cons a r ih =>
    rw [classWeight] at ih ⊢
    simp only [weightOf] at ih
    simp only [List.map_cons, List.sum_cons, List.countP_cons, decide_eq_true_eq, weightOf, ih]
    split <;> push_cast <;> ring

private theorem two_classes (r : List (K × ℕ)) (Y : List K) {c d : K} (h : c ≠ d) :
    r.countP (fun e => decide (Y.getD e.2 0 = c)) + r.countP (fun e => decide (Y.getD e.2 0 = d)) ≤ r.length := by
  induction r with
  | nil => simp
  | cons a r ih =>
    simp only [List.countP_cons, List.length_cons, decide_eq_true_eq]
    split_ifs with h1 h2
    · exact absurd (h1.symm.trans h2) h
    all_goals omega

/-- More than half of the neighbours decide. -/
private theorem majority {V : Type} {sort : List (K × ℕ) → List (K × ℕ)} (it : List (K × K) → List (K × K)) (hit : ∀ l, (it l).Perm l) (dist : V → V → K) (eps : K) (X : List V) (Y : List K) {k : ℕ} (q : V) (r : List (K × ℕ))
    (e : kNeighbors sort dist X k q = some r) (h : ∀ e ∈ r, e.2 < Y.length) (c : K) (hc : r.length < 2 * r.countP (fun e => decide (Y.getD e.2 0 = c))) :
    classify sort it dist eps .uniform X Y k q = some c := by
  rw [classify, votes_of dist eps .uniform X Y q r e h, Option.map_some]
  have hne : r ≠ [] := by
    rintro rfl
    simp at hc
  obtain ⟨-, h2⟩ := C44_vote (r.map (fun e => (Y.getD e.2 0, weightOf eps .uniform e.1))) (by simpa using hne) (fun e he => by
    obtain ⟨_, _, rfl⟩ := List.mem_map.1 he
    exact one_pos) it hit
  refine congrArg some (not_imp_comm.1 (fun hp => ?_) (fun hlt : 2 * r.countP (fun e => decide (Y.getD e.2 0 = c)) ≤ r.length => by omega))
  have := h2 c
  rw [weight_count, weight_count, Nat.cast_le] at this
  have := two_classes r Y (Ne.symm hp)
  omega

/-- **C241, votes.** If the class `c` has more than `m` votes above half of the `k` nearest training rows, `KNeighborsClassifier` with uniform weights predicts `c`, and still does when up to `m` labels of the training set are replaced by any others;
for every order in which the sort leaves ties and the map is visited. -/
theorem C241_votes {V : Type} [Inhabited V] {sort : List (K × ℕ) → List (K × ℕ)} (hs : SortsAsc Prod.fst sort) (it : List (K × K) → List (K × K)) (hit : ∀ l, (it l).Perm l) (dist : V → V → K) (eps : K) (X : List V)
    (Y Y' : List K) (hY : Y.length = X.length) (hY' : Y'.length = X.length) {k : ℕ} (hk : k ≤ X.length) (q : V) (m : ℕ) (hm : (List.range X.length).countP (fun i => decide (Y.getD i 0 ≠ Y'.getD i 0)) ≤ m) (c : K)
    (hc : ∀ r, kNeighbors sort dist X k q = some r → k + 2 * m < 2 * r.countP (fun e => decide (Y.getD e.2 0 = c))) :
    classify sort it dist eps .uniform X Y k q = some c ∧ classify sort it dist eps .uniform X Y' k q = some c := by
  obtain ⟨r, e, hr⟩ := (C39_kneighbors dist X q sort hs k).1 hk
  have hin : ∀ e ∈ r, e.2 < X.length := fun e he => (hr.own e he).1
  have hc := hc r e
  have hlen := hr.len
  refine ⟨majority it hit dist eps X Y q r e (by rw [hY]; exact hin) c (by omega), majority it hit dist eps X Y' q r e (by rw [hY']; exact hin) c ?_⟩
  have h1 : r.countP (fun e => decide (Y.getD e.2 0 = c)) ≤ r.countP (fun e => decide (Y'.getD e.2 0 = c)) + r.countP (fun e => decide (Y.getD e.2 0 ≠ Y'.getD e.2 0)) := by
    clear hc hlen hin e hr
    induction r with
    | nil => simp
    | cons a r ih =>
      simp only [List.countP_cons, decide_eq_true_eq]
      split_ifs with g1 g2 g3 g3 g2 g3 g3
      all_goals first | omega | exact absurd (not_not.1 g3 ▸ g1) g2
  have h2 : r.countP (fun e => decide (Y.getD e.2 0 ≠ Y'.getD e.2 0)) ≤ m := by
    refine le_trans ?_ hm
    have : r.countP (fun e => decide (Y.getD e.2 0 ≠ Y'.getD e.2 0)) = (r.map Prod.snd).countP (fun i => decide (Y.getD i 0 ≠ Y'.getD i 0)) := by
      rw [List.countP_map]
      rfl
    rw [this]
    exact (List.subperm_of_subset hr.distinct (fun i hi => by
      obtain ⟨e, he, rfl⟩ := List.mem_map.1 hi
      exact List.mem_range.2 (hin e he))).countP_le _
  omega

end

/-! ### Accuracy -/

section
variable {K : Type} [Field K] [LinearOrder K] [IsStrictOrderedRing K]

/-- **C241, accuracy.** `S` lists true rows, two predicted rows and weights.  Two predictions that differ in some rows have accuracies that differ by at most the share of these rows in the total weight. -/
theorem C241_accuracy {L : Type} [DecidableEq L] (S : List (List L × List L × List L × K)) (hlen : ∀ s ∈ S, s.1.length = s.2.1.length ∧ s.1.length = s.2.2.1.length) (hw : ∀ s ∈ S, 0 ≤ s.2.2.2) (hpos : 0 < (S.map (fun s => s.2.2.2)).sum) :
    ∃ a a', Metrics.accuracy (S.map (fun s => s.1)) (S.map (fun s => s.2.1)) true (some (S.map (fun s => s.2.2.2))) = some a ∧
      Metrics.accuracy (S.map (fun s => s.1)) (S.map (fun s => s.2.2.1)) true (some (S.map (fun s => s.2.2.2))) = some a' ∧
      |a - a'| ≤ (S.map (fun s => if s.2.1 = s.2.2.1 then 0 else s.2.2.2)).sum / (S.map (fun s => s.2.2.2)).sum := by
  obtain ⟨-, a, h1, h2, -⟩ := Metrics.C26_accuracy (S.map (fun s => (s.1, s.2.1, s.2.2.2))) (by
    intro s hs
    obtain ⟨t, ht, rfl⟩ := List.mem_map.1 hs
    exact (hlen t ht).1) (by
    intro s hs
    obtain ⟨t, ht, rfl⟩ := List.mem_map.1 hs
    exact hw t ht) (by simpa only [List.map_map, Function.comp_def] using hpos)
  obtain ⟨-, a', h1', h2', -⟩ := Metrics.C26_accuracy (S.map (fun s => (s.1, s.2.2.1, s.2.2.2))) (by
    intro s hs
    obtain ⟨t, ht, rfl⟩ := List.mem_map.1 hs
    exact (hlen t ht).2) (by
    intro s hs
    obtain ⟨t, ht, rfl⟩ := List.mem_map.1 hs
    exact hw t ht) (by simpa only [List.map_map, Function.comp_def] using hpos)
  simp only [List.map_map, Function.comp_def] at h1 h2 h1' h2'
  refine ⟨a, a', h1, h1', ?_⟩
  rw [h2, h2', ← sub_div, abs_div, abs_of_pos hpos]
  refine div_le_div_of_nonneg_right ?_ hpos.le
  simp only [wsum, List.map_map, Function.comp_def]
  clear h1 h2 h1' h2' hpos hlen
  induction S with
  | nil => simp
  | cons s S ih =>
    rw [List.forall_mem_cons] at hw
    have i := abs_le.1 (ih hw.2)
    have w0 := hw.1
    simp only [List.map_cons, List.sum_cons]
    rw [abs_le]
    by_cases g : s.2.1 = s.2.2.1
    · rw [if_pos g, g]
      constructor <;> linarith [i.1, i.2]
    · rw [if_neg g]
      split_ifs <;> constructor <;> linarith [i.1, i.2]

end

/-! ### Cases -/

/-- Three of three neighbours have class 7; one changed label does not change the prediction. -/
example : Knn.classify (K := ℚ) (Neigh.insAsc Prod.fst) List.reverse (fun a b => |a - b|) (1 / 1000) .uniform [0, 1, 2, 10, 11] [7, 7, 7, 3, 3] 3 (1 / 2) = some 7 ∧
    Knn.classify (K := ℚ) (Neigh.insAsc Prod.fst) List.reverse (fun a b => |a - b|) (1 / 1000) .uniform [0, 1, 2, 10, 11] [7, 3, 7, 3, 3] 3 (1 / 2) = some 7 ∧
    (∀ r, Neigh.kNeighbors (Neigh.insAsc Prod.fst) (fun a b : ℚ => |a - b|) [0, 1, 2, 10, 11] 3 (1 / 2) = some r → 3 + 2 * 1 < 2 * r.countP (fun e => decide (([7, 7, 7, 3, 3] : List ℚ).getD e.2 0 = 7))) := by
  refine ⟨by decide +kernel, by decide +kernel, fun r hr => ?_⟩
  have : Neigh.kNeighbors (Neigh.insAsc Prod.fst) (fun a b : ℚ => |a - b|) [0, 1, 2, 10, 11] 3 (1 / 2) = some [(1 / 2, 0), (1 / 2, 1), (3 / 2, 2)] := by decide +kernel
  rw [this, Option.some_inj] at hr
  subst hr
  decide +kernel

/-- Two predictions that differ in the last row, of weight 5 of 8. -/
example : Metrics.accuracy (K := ℚ) [[1], [3], [5]] [[1], [0], [5]] true (some [1, 2, 5]) = some (3 / 4) ∧ Metrics.accuracy (K := ℚ) [[1], [3], [5]] [[1], [0], [6]] true (some [1, 2, 5]) = some (1 / 8) := by decide +kernel

/-- Minimisers for the targets (1, -1) and (2, -2), as `C241_ridge` needs them. -/
example (alpha : ℝ) (ha : 0 < alpha) : Lin.Solves (q := 1) false alpha (fun _ _ _ _ => some ⟨fun _ => 2 / 3, 0, 1, false, false⟩) (fun _ _ => 0) (fun (i : Fin 2) (_ : Fin 1) => if i = 0 then (1 : ℝ) else -1) (fun i _ => if i = 0 then 1 else -1) ∧
    Lin.Solves (q := 1) false alpha (fun _ _ _ _ => some ⟨fun _ => 4 / 3, 0, 1, false, false⟩) (fun _ _ => 0) (fun (i : Fin 2) (_ : Fin 1) => if i = 0 then (1 : ℝ) else -1) (fun i _ => if i = 0 then 2 else -2) := by
  constructor <;>
  · intro o
    refine ⟨_, rfl, fun j => ?_⟩
    rw [Lin.preprocess_true false _ _ (by simp)]
    simp [Lin.colG, Lin.squareGrad, Lin.mulT, Lin.colMean, Lin.divisor, ha, Lin.regGrad, Fin.sum_univ_two]
    norm_num

end Sk.Robust
