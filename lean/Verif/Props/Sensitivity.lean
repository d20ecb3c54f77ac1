import Verif.Props.KnnPredict
import Verif.Props.InterpError
import Verif.Props.Residuals
import Verif.Props.Regression
import Mathlib.Algebra.Order.Chebyshev

/-! # C240: how far changed targets reach -/
set_option autoImplicit false

namespace Sk.Sensitivity

/-! ### Nearest neighbours -/

section
variable {K : Type} [Field K] [LinearOrder K] [IsStrictOrderedRing K]

open Sk.Knn Sk.Neigh

private theorem votes_of {V : Type} [Inhabited V] {sort : List (K × ℕ) → List (K × ℕ)} (dist : V → V → K) (eps : K) (w : Weights) (X : List V) (Y : List K) (hY : Y.length = X.length) {k : ℕ} (q : V) (r : List (K × ℕ))
    (e : kNeighbors sort dist X k q = some r) (h : ∀ e ∈ r, e.2 < X.length) :
    regress sort dist eps w X Y k q = some ((r.map (fun e => weightOf eps w e.1 * Y.getD e.2 0)).sum / (r.map (fun e => weightOf eps w e.1)).sum) := by
  rw [regress, neighbourVotes]
  simp only [e, Option.bind_eq_bind, Option.bind_some]
  have : ∀ r' : List (K × ℕ), (∀ e ∈ r', e.2 < Y.length) →
      r'.mapM (fun e => (Y[e.2]?).map (fun c => (c, weightOf eps w e.1))) = some (r'.map (fun e => (Y.getD e.2 0, weightOf eps w e.1))) := by
    intro r'
    induction r' with
    | nil => intro _; rfl
    | cons a r' ih =>
      intro ha
      rw [List.forall_mem_cons] at ha
      have ea : Y[a.2]? = some (Y.getD a.2 0) := by simp [ha.1]
      rw [List.mapM_cons, ea, ih ha.2]
      rfl
  rw [this r (fun e he => by rw [hY]; exact h e he), Option.map_some, List.map_map, List.map_map]
  rfl

private theorem weighted_close (r : List (K × ℕ)) (f : K → K) (hf : ∀ e ∈ r, 0 ≤ f e.1) (g g' : ℕ → K) (δ : K) (h : ∀ e ∈ r, |g e.2 - g' e.2| ≤ δ) :
    |(r.map (fun e => f e.1 * g e.2)).sum - (r.map (fun e => f e.1 * g' e.2)).sum| ≤ δ * (r.map (fun e => f e.1)).sum := by
  induction r with
  | nil => simp
  | cons a r ih =>
    rw [List.forall_mem_cons] at hf h
    have i := abs_le.1 (ih hf.2 h.2)
    have b := abs_le.1 h.1
    have b1 := mul_le_mul_of_nonneg_left b.1 hf.1
    have b2 := mul_le_mul_of_nonneg_left b.2 hf.1
    simp only [List.map_cons, List.sum_cons]
    rw [abs_le]
    constructor <;> linarith [i.1, i.2]

/-- **C240, nearest neighbours, all targets.** If no target changes by more than `δ`, no prediction of `KNeighborsRegressor` does, for both kinds of weights. -/
theorem C240_knn {V : Type} [Inhabited V] {sort : List (K × ℕ) → List (K × ℕ)} (hs : SortsAsc Prod.fst sort) (dist : V → V → K) (hd : ∀ a b, 0 ≤ dist a b) {eps : K} (heps : 0 < eps) (w : Weights) (X : List V)
    (Y Y' : List K) (hY : Y.length = X.length) (hY' : Y'.length = X.length) {k : ℕ} (hk0 : 0 < k) (hk : k ≤ X.length) (q : V) (δ : K) (h : ∀ i < X.length, |Y.getD i 0 - Y'.getD i 0| ≤ δ) :
    ∃ y y', regress sort dist eps w X Y k q = some y ∧ regress sort dist eps w X Y' k q = some y' ∧ |y - y'| ≤ δ := by
  obtain ⟨r, e, hr⟩ := (C39_kneighbors dist X q sort hs k).1 hk
  have hin : ∀ e ∈ r, e.2 < X.length := fun e he => (hr.own e he).1
  have hpos : ∀ e ∈ r, 0 < weightOf eps w e.1 := fun e he => by
    apply weightOf_pos eps heps
    rw [(hr.own e he).2]
    exact hd _ _
  have hne : r ≠ [] := by
    intro h0
    have := hr.len
    rw [h0] at this
    simp at this
    omega
  have hW : 0 < (r.map (fun e => weightOf eps w e.1)).sum := List.sum_pos _ (fun x hx => by
    obtain ⟨e, he, rfl⟩ := List.mem_map.1 hx
    exact hpos e he) (by simpa using hne)
  refine ⟨_, _, votes_of dist eps w X Y hY q r e hin, votes_of dist eps w X Y' hY' q r e hin, ?_⟩
  rw [← sub_div, abs_div, abs_of_pos hW, div_le_iff₀ hW]
  exact weighted_close r (weightOf eps w) (fun e he => (hpos e he).le) (fun i => Y.getD i 0) (fun i => Y'.getD i 0) δ (fun e he => h _ (hin e he))

/-- **C240, nearest neighbours, one target.** With uniform weights a change of one target changes a prediction by at most the `k`-th part of it. -/
theorem C240_knn_one {V : Type} [Inhabited V] {sort : List (K × ℕ) → List (K × ℕ)} (hs : SortsAsc Prod.fst sort) (dist : V → V → K) (eps : K) (X : List V)
    (Y : List K) (hY : Y.length = X.length) {k : ℕ} (hk0 : 0 < k) (hk : k ≤ X.length) (q : V) (i : ℕ) (hi : i < X.length) (v : K) :
    ∃ y y', regress sort dist eps .uniform X Y k q = some y ∧ regress sort dist eps .uniform X (Y.set i v) k q = some y' ∧ |y' - y| ≤ |v - Y.getD i 0| / (k : K) := by
  obtain ⟨r, e, hr⟩ := (C39_kneighbors dist X q sort hs k).1 hk
  have hin : ∀ e ∈ r, e.2 < X.length := fun e he => (hr.own e he).1
  have hkK : (0 : K) < (k : K) := by exact_mod_cast hk0
  refine ⟨_, _, votes_of dist eps .uniform X Y hY q r e hin, votes_of dist eps .uniform X (Y.set i v) (by simpa using hY) q r e hin, ?_⟩
  have hW : (r.map (fun e => weightOf eps .uniform e.1)).sum = (k : K) := by
    simp [weightOf, hr.len]
  rw [hW, ← sub_div, abs_div, abs_of_pos hkK]
  refine div_le_div_of_nonneg_right ?_ hkK.le
  have key : ∀ l : List (K × ℕ), (∀ e ∈ l, e.2 < X.length) → (l.map Prod.snd).Nodup →
      (l.map (fun e => weightOf eps .uniform e.1 * (Y.set i v).getD e.2 0)).sum - (l.map (fun e => weightOf eps .uniform e.1 * Y.getD e.2 0)).sum = if i ∈ l.map Prod.snd then v - Y.getD i 0 else 0 := by
    intro l
    induction l with
    | nil => simp
    | cons a l ih =>
      intro hl hnd
      rw [List.forall_mem_cons] at hl
      rw [List.map_cons, List.nodup_cons] at hnd
      have := ih hl.2 hnd.2
      simp only [List.map_cons, List.sum_cons, weightOf, one_mul] at this ⊢
      by_cases ha : i = a.2
      · subst ha
        rw [if_neg hnd.1] at this
        rw [if_pos (by simp)]
        have hset : (Y.set a.2 v).getD a.2 0 = v := by
          simp [List.getD_eq_getElem?_getD, hY, hi]
        rw [hset]
        linear_combination this
      · have hset : (Y.set i v).getD a.2 0 = Y.getD a.2 0 := by
          simp [List.getD_eq_getElem?_getD, List.getElem?_set_ne ha]
        have hm : i ∈ a.2 :: l.map Prod.snd ↔ i ∈ l.map Prod.snd := by simp [ha]
        rw [hset]
        simp only [hm]
        linear_combination this
  rw [key r hin hr.distinct]
  split
  · exact le_refl _
  · simp

end

/-! ### Interpolation -/

section
variable {K : Type} [Field K] [LinearOrder K] [IsStrictOrderedRing K]

open Sk.Interp

/-- **C240, interpolation.** `l` lists abscissae with an old and a new ordinate.  If no ordinate changes by more than `δ`, no value of `Interp1d` between two abscissae does. -/
theorem C240_interp {srt : List (K × Option K) → List (K × Option K)} (hsrt : ValidSort srt) (l : List (K × K × K)) (hn : 2 ≤ l.length) (hd : Distinct l) (δ : K) (h : ∀ p ∈ l, |p.2.1 - p.2.2| ≤ δ) :
    ∃ f f', interp1d srt (l.map (fun p => p.1)) (l.map (fun p => some p.2.1)) = some f ∧ interp1d srt (l.map (fun p => p.1)) (l.map (fun p => some p.2.2)) = some f' ∧
      ∀ x, (∃ p ∈ l, p.1 ≤ x) → (∃ p ∈ l, x ≤ p.1) → ∃ v v', f x = some v ∧ f' x = some v' ∧ |v - v'| ≤ δ := by
  have ends : ∀ g : K × K × K → K, EndsKnown (l.map (fun p => (p.1, some (g p)))) := by
    intro g p hp
    obtain ⟨c, hc, rfl⟩ := List.mem_map.1 hp
    exact ⟨⟨c.1, g c, hp, le_refl _⟩, ⟨c.1, g c, hp, le_refl _⟩⟩
  have dist : ∀ g : K × K × K → K, Distinct (l.map (fun p => (p.1, some (g p)))) := by
    intro g
    unfold Distinct at hd ⊢
    rw [List.pairwise_map]
    exact hd
  obtain ⟨f, e, h1, -⟩ := interp_piece hsrt (l.map (fun p => (p.1, some p.2.1))) (by simpa using hn) (dist (fun p => p.2.1)) (ends (fun p => p.2.1))
  obtain ⟨f', e', -, h2⟩ := interp_piece hsrt (l.map (fun p => (p.1, some p.2.2))) (by simpa using hn) (dist (fun p => p.2.2)) (ends (fun p => p.2.2))
  simp only [List.map_map, Function.comp_def] at e e'
  refine ⟨f, f', e, e', ?_⟩
  rintro x ⟨p, hp, hpx⟩ ⟨q, hq, hqx⟩
  obtain ⟨a, ya, b, yb, ⟨ha, hb, hab, hno⟩, g1, g2, hf⟩ := h1 x
  obtain ⟨c, hc, hca⟩ := List.mem_map.1 ha
  obtain ⟨d, hdm, hdb⟩ := List.mem_map.1 hb
  simp only [Prod.mk.injEq, Option.some.injEq] at hca hdb
  obtain ⟨rfl, rfl⟩ := hca
  obtain ⟨rfl, rfl⟩ := hdb
  have hN : Neighbours (l.map (fun p => (p.1, some p.2.2))) c.1 c.2.2 d.1 d.2.2 := by
    refine ⟨List.mem_map.2 ⟨c, hc, rfl⟩, List.mem_map.2 ⟨d, hdm, rfl⟩, hab, ?_⟩
    intro s ys hs
    obtain ⟨u, hu, e⟩ := List.mem_map.1 hs
    simp only [Prod.mk.injEq, Option.some.injEq] at e
    exact hno s u.2.1 (List.mem_map.2 ⟨u, hu, by rw [e.1]⟩)
  have hlo : c.1 ≤ x := g1.elim id (fun g => (g _ (List.mem_map.2 ⟨p, hp, rfl⟩)).trans hpx)
  have hhi : x ≤ d.1 := g2.elim id (fun g => hqx.trans (g _ (List.mem_map.2 ⟨q, hq, rfl⟩)))
  refine ⟨_, _, hf, h2 x _ _ _ _ hN (Or.inl hlo) (Or.inl hhi), ?_⟩
  have hba : 0 < d.1 - c.1 := sub_pos.2 hab
  have m1 := onLine_mix c.1 c.2.1 d.1 d.2.1 x hab
  have m2 := onLine_mix c.1 c.2.2 d.1 d.2.2 x hab
  have bc := abs_le.1 (h c hc)
  have bd := abs_le.1 (h d hdm)
  have a1 := mul_le_mul_of_nonneg_left bc.1 (sub_nonneg.2 hhi)
  have a2 := mul_le_mul_of_nonneg_left bc.2 (sub_nonneg.2 hhi)
  have b1 := mul_le_mul_of_nonneg_left bd.1 (sub_nonneg.2 hlo)
  have b2 := mul_le_mul_of_nonneg_left bd.2 (sub_nonneg.2 hlo)
  rw [abs_le]
  constructor
  · refine le_of_mul_le_mul_left ?_ hba
    linear_combination a1 + b1 + m2 - m1
  · refine le_of_mul_le_mul_left ?_ hba
    linear_combination a2 + b2 + m1 - m2

/-! ### Mean absolute error -/

/-- **C240, mean absolute error.** `l` lists truths with two predictions.  If the predictions differ by at most `δ`, so do their mean absolute errors. -/
theorem C240_mae (l : List (K × K × K)) (hl : l ≠ []) (δ : K) (h : ∀ p ∈ l, |p.2.1 - p.2.2| ≤ δ) :
    ∃ e e', Metrics.meanError (fun x => |x|) [l.map (fun p => p.1)] [l.map (fun p => p.2.1)] none false = some [e] ∧ Metrics.meanError (fun x => |x|) [l.map (fun p => p.1)] [l.map (fun p => p.2.2)] none false = some [e'] ∧
      |e - e'| ≤ δ := by
  have hn : (0 : K) < (l.length : K) := by
    exact_mod_cast List.length_pos_iff.2 hl
  have he : ∀ g : K × K × K → K, Metrics.meanError (fun x => |x|) [l.map (fun p => p.1)] [l.map g] none false = some [(l.map (fun s => |g s - s.1|)).sum / (l.length : K)] := by
    intro g
    obtain ⟨e, h, d, -, -⟩ := Metrics.C31_mean_error_partial (fun x : K => |x|) Metrics.isLoss_abs (l.map (fun s => (g s, s.1))) (by simpa using hl)
    simp only [List.map_map, Function.comp_def, List.length_map] at h d
    rw [h, d]
  refine ⟨_, _, he _, he _, ?_⟩
  rw [← sub_div, abs_div, abs_of_pos hn, div_le_iff₀ hn]
  clear he hn hl
  induction l with
  | nil => simp
  | cons a l ih =>
    rw [List.forall_mem_cons] at h
    have i := abs_le.1 (ih h.2)
    have b := abs_le.1 h.1
    have c := abs_le.1 (abs_abs_sub_abs_le (a.2.1 - a.1) (a.2.2 - a.1))
    have e : a.2.1 - a.1 - (a.2.2 - a.1) = a.2.1 - a.2.2 := by ring
    rw [e] at c
    have h1 := h.1
    simp only [List.map_cons, List.sum_cons, List.length_cons, Nat.cast_add, Nat.cast_one]
    rw [abs_le]
    constructor <;> linarith [i.1, i.2, c.1, c.2]

end

/-! ### Least squares -/

section
open Sk.Lin

private theorem change {n p : ℕ} {X : Fin n → Fin p → ℝ} {y y' : Fin n → ℝ} {m m' : Coefs p} (h0 : ∑ i, (y i - decision m (X i)) = 0) (h1 : ∀ j, ∑ i, X i j * (y i - decision m (X i)) = 0)
    (k0 : ∑ i, (y' i - decision m' (X i)) = 0) (k1 : ∀ j, ∑ i, X i j * (y' i - decision m' (X i)) = 0) :
    ∑ i, (y' i - y i) * (decision m' (X i) - decision m (X i)) = ∑ i, (decision m' (X i) - decision m (X i)) ^ 2 := by
  have a := orthogonal_affine h0 h1 m
  have b := orthogonal_affine h0 h1 m'
  have c := orthogonal_affine k0 k1 m
  have d := orthogonal_affine k0 k1 m'
  have e : ∑ i, (y' i - y i) * (decision m' (X i) - decision m (X i)) - ∑ i, (decision m' (X i) - decision m (X i)) ^ 2 =
      ∑ i, (y' i - decision m' (X i)) * decision m' (X i) - ∑ i, (y' i - decision m' (X i)) * decision m (X i) - ∑ i, (y i - decision m (X i)) * decision m' (X i) +
        ∑ i, (y i - decision m (X i)) * decision m (X i) := by
    rw [← Finset.sum_sub_distrib, ← Finset.sum_sub_distrib, ← Finset.sum_sub_distrib, ← Finset.sum_add_distrib]
    exact Finset.sum_congr rfl fun i _ => by ring
  rw [a, b, c, d] at e
  linarith

/-- **C240, least squares, all targets.** The sum of the squared changes of the training predictions of `LinearRegression` is at most that of the targets. -/
theorem C240_least_squares {n p : ℕ} (hn : n ≠ 0) (normalize : Bool) {solve : (Fin n → Fin p → ℝ) → (Fin n → ℝ) → Fin p → ℝ} (hs : LeastSquares solve) (old old' : ℝ) {X : Fin n → Fin p → ℝ} (hX : Spans X) (y y' : Fin n → ℝ) :
    ∃ m m', fit true normalize solve old X y = some m ∧ fit true normalize solve old' X y' = some m' ∧
      ∑ i, (decision m' (X i) - decision m (X i)) ^ 2 ≤ ∑ i, (y' i - y i) ^ 2 := by
  obtain ⟨m, hm, h0, h1⟩ := fit_normal normalize hs old hX y hn
  obtain ⟨m', hm', k0, k1⟩ := fit_normal normalize hs old' hX y' hn
  refine ⟨m, m', hm, hm', ?_⟩
  have e := change h0 h1 k0 k1
  have s : 0 ≤ ∑ i, ((y' i - y i) - (decision m' (X i) - decision m (X i))) ^ 2 := Finset.sum_nonneg fun _ _ => sq_nonneg _
  have t : ∑ i, ((y' i - y i) - (decision m' (X i) - decision m (X i))) ^ 2 = ∑ i, (y' i - y i) ^ 2 - 2 * ∑ i, (y' i - y i) * (decision m' (X i) - decision m (X i)) + ∑ i, (decision m' (X i) - decision m (X i)) ^ 2 := by
    rw [Finset.mul_sum, ← Finset.sum_sub_distrib, ← Finset.sum_add_distrib]
    exact Finset.sum_congr rfl fun i _ => by ring
  linarith

/-- **C240, least squares, one target.** A change of the target of a row changes the prediction for this row in the same direction, by at least the `n`-th part of the change and at most the whole of it. -/
theorem C240_leverage {n p : ℕ} (hn : n ≠ 0) (normalize : Bool) {solve : (Fin n → Fin p → ℝ) → (Fin n → ℝ) → Fin p → ℝ} (hs : LeastSquares solve) (old old' : ℝ) {X : Fin n → Fin p → ℝ} (hX : Spans X) (y : Fin n → ℝ) (i : Fin n) (v : ℝ) :
    ∃ m m' h, fit true normalize solve old X y = some m ∧ fit true normalize solve old' X (Function.update y i v) = some m' ∧
      decision m' (X i) - decision m (X i) = h * (v - y i) ∧ 1 / (n : ℝ) ≤ h ∧ h ≤ 1 := by
  obtain ⟨m, hm, h0, h1⟩ := fit_normal normalize hs old hX y hn
  obtain ⟨m', hm', k0, k1⟩ := fit_normal normalize hs old' hX (Function.update y i v) hn
  have hn' : (0 : ℝ) < n := by exact_mod_cast Nat.pos_of_ne_zero hn
  by_cases hv : v = y i
  · subst hv
    rw [Function.update_eq_self] at hm' k0 k1
    have e := change h0 h1 k0 k1
    simp only [sub_self, zero_mul, Finset.sum_const_zero] at e
    have := (Finset.sum_eq_zero_iff_of_nonneg (fun i _ => sq_nonneg _)).1 e.symm i (Finset.mem_univ i)
    refine ⟨m, m', 1, hm, by rw [Function.update_eq_self]; exact hm', ?_, ?_, le_refl _⟩
    · rw [sub_self, mul_zero]
      exact pow_eq_zero_iff (two_ne_zero) |>.1 this
    · rw [div_le_one hn']
      exact_mod_cast Nat.one_le_iff_ne_zero.2 hn
  · have hd : v - y i ≠ 0 := sub_ne_zero.2 hv
    have e := change h0 h1 k0 k1
    set c : Fin n → ℝ := fun i => decision m' (X i) - decision m (X i) with hc
    have hs1 : ∑ j, (Function.update y i v j - y j) * c j = (v - y i) * c i := by
      rw [Finset.sum_eq_single i]
      · rw [Function.update_self]
      · intro j _ hj
        rw [Function.update_of_ne hj, sub_self, zero_mul]
      · simp
    have hs2 : ∑ j, c j = v - y i := by
      have : ∑ j, c j = ∑ j, (Function.update y i v j - y j) := by
        have a : ∑ j, (Function.update y i v j - decision m' (X j)) - ∑ j, (y j - decision m (X j)) = 0 := by rw [k0, h0, sub_zero]
        rw [← Finset.sum_sub_distrib] at a
        rw [← sub_eq_zero, ← Finset.sum_sub_distrib, ← neg_eq_zero, ← Finset.sum_neg_distrib, ← a]
        exact Finset.sum_congr rfl fun j _ => by rw [hc]; ring
      rw [this, Finset.sum_eq_single i]
      · rw [Function.update_self]
      · intro j _ hj
        rw [Function.update_of_ne hj, sub_self]
      · simp
    have e' : (v - y i) * c i = ∑ j, c j ^ 2 := by rw [← hs1]; exact e
    have q1 : c i ^ 2 ≤ ∑ j, c j ^ 2 := Finset.single_le_sum (f := fun j => c j ^ 2) (fun j _ => sq_nonneg _) (Finset.mem_univ i)
    have q2 : (v - y i) ^ 2 ≤ n * ∑ j, c j ^ 2 := by
      have := sq_sum_le_card_mul_sum_sq (s := Finset.univ) (f := c)
      rw [hs2, Finset.card_univ, Fintype.card_fin] at this
      exact this
    have hd2 : 0 < (v - y i) ^ 2 := lt_of_le_of_ne (sq_nonneg _) (Ne.symm (pow_ne_zero 2 hd))
    refine ⟨m, m', c i / (v - y i), hm, hm', by rw [div_mul_cancel₀ _ hd], ?_, ?_⟩
    · have : c i / (v - y i) = ((v - y i) * c i) / (v - y i) ^ 2 := by field_simp
      rw [this, e', div_le_div_iff₀ hn' hd2, one_mul]
      linarith
    · have k : (c i / (v - y i)) ^ 2 ≤ c i / (v - y i) := by
        have : c i / (v - y i) = ((v - y i) * c i) / (v - y i) ^ 2 := by field_simp
        rw [div_pow]
        rw [this, div_le_div_iff_of_pos_right hd2, e']
        exact q1
      nlinarith [sq_nonneg (c i / (v - y i) - 1)]

end

/-! ### Cases -/

/-- Three neighbours of five samples; the target 2 becomes 8, the prediction moves by 2 = 6/3. -/
example : Knn.regress (K := ℚ) (Neigh.insAsc Prod.fst) (fun a b : ℚ => |a - b|) (1 / 10) .uniform [0, 1, 2, 7, 9] [1, 2, 3, 4, 5] 3 1 = some 2 ∧
    Knn.regress (K := ℚ) (Neigh.insAsc Prod.fst) (fun a b : ℚ => |a - b|) (1 / 10) .uniform [0, 1, 2, 7, 9] ([1, 2, 3, 4, 5].set 1 8) 3 1 = some 4 := by decide +kernel

/-- Ordinates moved by at most 1; the values at 2 are 5 and 9/2. -/
example : (Interp.interp1d (K := ℚ) id [0, 1, 3] [some 0, some 1, some 9]).bind (fun f => f 2) = some 5 ∧ (Interp.interp1d (K := ℚ) id [0, 1, 3] [some 1, some 0, some 9]).bind (fun f => f 2) = some (9 / 2) ∧
    Interp.Distinct (K := ℚ) [(0, 0, 1), (1, 1, 0), (3, 9, 9)] ∧ ∀ p ∈ ([(0, 0, 1), (1, 1, 0), (3, 9, 9)] : List (ℚ × ℚ × ℚ)), |p.2.1 - p.2.2| ≤ 1 := by
  unfold Interp.Distinct
  decide +kernel

/-- Predictions moved by at most 2; the errors are 1 and 2. -/
example : Metrics.meanError (K := ℚ) (fun x => |x|) [[1, 5]] [[2, 4]] none false = some [1] ∧ Metrics.meanError (K := ℚ) (fun x => |x|) [[1, 5]] [[4, 4]] none false = some [2] := by decide +kernel

/-- Rows and a solver as `C240_least_squares` and `C240_leverage` need them: the example at the end of the file of C197, and these rows. -/
example : Lin.Spans (![![0], ![1], ![3]] : Fin 3 → Fin 1 → ℝ) := by
  intro c b h
  have h0 := h 0
  have h1 := h 1
  simp at h0 h1
  funext j
  rw [Subsingleton.elim j 0]
  simp only [Pi.zero_apply]
  linarith

end Sk.Sensitivity
