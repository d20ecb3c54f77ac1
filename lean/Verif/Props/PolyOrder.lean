import Verif.Props.Poly
import Mathlib.Data.Nat.Choose.Basic
import Mathlib.Data.Nat.Choose.Sum
import Mathlib.Tactic.Linarith

/-!
# C244: number and order of the columns of `PolynomialFeatures`
-/
set_option autoImplicit false

namespace Sk.PolyOrder

open Sk.Poly

/-- Column order: lower total degree first; for equal degrees, the larger exponent at the first feature where the exponents differ. -/
def Before (p q : List ℕ) : Prop :=
  p.sum < q.sum ∨ p.sum = q.sum ∧ ∃ k, (∀ j < k, p.getD j 0 = q.getD j 0) ∧ q.getD k 0 < p.getD k 0

/-- The exponent vectors asked for: one exponent for each of `n` features, total degree at most `degree`, without squares for interactions only,
without the constant unless the bias is included. -/
def Asked (n degree : ℕ) (interactionOnly includeBias : Bool) (p : List ℕ) : Prop :=
  p.length = n ∧ p.sum ≤ degree ∧ (interactionOnly = true → ∀ e ∈ p, e ≤ 1) ∧ (includeBias = false → p.sum ≠ 0)

private def gen (io : Bool) (n i : ℕ) : List (List ℕ) := if io then combL n i 0 else cwrL n i 0

private theorem gen_eq (io : Bool) (n i fuel : ℕ) (hf : (gen io n i).length ≤ fuel) : (if io then comb n i fuel else cwr n i fuel) = some (gen io n i) := by
  cases io with
  | true =>
    simp only [gen, if_true] at hf ⊢
    unfold comb
    by_cases h : n < i
    · rw [if_pos h]
      obtain ⟨r, rfl⟩ : ∃ r, i = r + 1 := ⟨i - 1, by omega⟩
      unfold combL
      rw [show n - r - 0 = 0 by omega]
      rfl
    · rw [if_neg h, List.range_eq_range']
      exact iter_of_enum _ _ _ (enum_combL n i 0 (by omega)) fuel hf
  | false =>
    simp only [gen, Bool.false_eq_true, if_false] at hf ⊢
    unfold cwr
    by_cases h : n = 0 ∧ 0 < i
    · rw [if_pos h]
      obtain ⟨r, rfl⟩ : ∃ r, i = r + 1 := ⟨i - 1, by omega⟩
      unfold cwrL
      rw [show n - 0 = 0 by omega]
      rfl
    · rw [if_neg h]
      rcases Nat.eq_zero_or_pos n with hn | hn
      · obtain rfl : i = 0 := by omega
        exact iter_of_enum _ _ _ (Enum.last _ rfl) fuel hf
      · exact iter_of_enum _ _ _ (enum_cwrL n i 0 hn) fuel hf

private def degs (degree : ℕ) (bias : Bool) : List ℕ := List.range' (if bias then 0 else 1) (degree + 1 - (if bias then 0 else 1))

private theorem powers_eq (n degree : ℕ) (io bias : Bool) (fuel : ℕ) (hf : ((degs degree bias).map (fun i => (gen io n i).length)).sum ≤ fuel) :
    powers n degree io bias fuel = some (((degs degree bias).map (gen io n)).flatten.map (fun c => bincount c n)) := by
  unfold powers
  have : (degs degree bias).mapM (fun i => if io then comb n i fuel else cwr n i fuel) = some ((degs degree bias).map (gen io n)) := by
    apply mapM_some_of
    intro i hi
    refine gen_eq io n i fuel (le_trans ?_ hf)
    exact List.single_le_sum (fun _ _ => Nat.zero_le _) _ (List.mem_map.2 ⟨i, hi, rfl⟩)
  unfold degs at this ⊢
  simp only [this]
  rfl

/-! ## Order -/

private def Lt (a b : List ℕ) : Prop := ∃ k, (∀ j < k, a.count j = b.count j) ∧ b.count k < a.count k

private theorem lt_cons (x : ℕ) (a b : List ℕ) (h : Lt a b) : Lt (x :: a) (x :: b) := by
  obtain ⟨k, h1, h2⟩ := h
  refine ⟨k, fun j hj => ?_, ?_⟩
  · rw [List.count_cons, List.count_cons, h1 j hj]
  · rw [List.count_cons, List.count_cons]
    omega

private theorem lt_head (x y : ℕ) (a b : List ℕ) (hxy : x < y) (ha : ∀ z ∈ a, x ≤ z) (hb : ∀ z ∈ b, y ≤ z) : Lt (x :: a) (y :: b) := by
  have hz : ∀ j ≤ x, (y :: b).count j = 0 := fun j hj => List.count_eq_zero.2 (fun hm => by
    rcases List.mem_cons.1 hm with h | h
    · omega
    · have := hb _ h
      omega)
  refine ⟨x, fun j hj => ?_, ?_⟩
  · rw [hz j hj.le, List.count_eq_zero.2]
    intro hm
    rcases List.mem_cons.1 hm with h | h
    · omega
    · have := ha _ h
      omega
  · rw [hz x le_rfl]
    exact List.count_pos_iff.2 (by simp)

private theorem ordered (f : ℕ → List (List ℕ)) (hf : ∀ x, (f x).Pairwise Lt) (hge : ∀ x, ∀ l ∈ f x, ∀ z ∈ l, x ≤ z) (lo k : ℕ) :
    ((List.range' lo k).flatMap (fun x => (f x).map (x :: ·))).Pairwise Lt := by
  rw [List.pairwise_flatMap]
  constructor
  · intro x _
    rw [List.pairwise_map]
    exact (hf x).imp (fun {a b} h => lt_cons x a b h)
  · refine List.Pairwise.imp ?_ (List.pairwise_lt_range' (s := lo) (n := k))
    intro x y hxy a ha b hb
    obtain ⟨a, ha', rfl⟩ := List.mem_map.1 ha
    obtain ⟨b, hb', rfl⟩ := List.mem_map.1 hb
    exact lt_head x y a b hxy (hge x a ha') (hge y b hb')

private theorem ordered_cwrL (n : ℕ) : ∀ r lo, (cwrL n r lo).Pairwise Lt
  | 0, _ => by simp [cwrL]
  | r + 1, lo => ordered (fun x => cwrL n r x) (fun x => ordered_cwrL n r x) (fun x l hl z hz => (((mem_cwrL n r x l).1 hl).2.2 z hz).1) lo (n - lo)

private theorem ordered_combL (n : ℕ) : ∀ r lo, (combL n r lo).Pairwise Lt
  | 0, _ => by simp [combL]
  | r + 1, lo => ordered (fun x => combL n r (x + 1)) (fun x => ordered_combL n r (x + 1)) (fun x l hl z hz => (Nat.le_succ x).trans (((mem_combL n r (x + 1) l).1 hl).2.2 z hz).1) lo (n - r - lo)

private theorem gen_ordered (io : Bool) (n i : ℕ) : (gen io n i).Pairwise Lt := by
  cases io
  · exact ordered_cwrL n i 0
  · exact ordered_combL n i 0

private theorem gen_mem (io : Bool) (n i : ℕ) (l : List ℕ) (hl : l ∈ gen io n i) : l.length = i ∧ ∀ x ∈ l, x < n := by
  cases io
  · have := (mem_cwrL n i 0 l).1 hl
    exact ⟨this.1, fun x hx => (this.2.2 x hx).2⟩
  · have := (mem_combL n i 0 l).1 hl
    exact ⟨this.1, fun x hx => (this.2.2 x hx).2⟩

private theorem bincount_getD (a : List ℕ) (n : ℕ) (h : ∀ x ∈ a, x < n) (k : ℕ) : (bincount a n).getD k 0 = a.count k := by
  by_cases hk : k < n
  · simp [bincount, hk]
  · rw [List.count_eq_zero.2 (fun hm => hk (h k hm)), List.getD_eq_getElem?_getD, List.getElem?_eq_none (by rw [bincount_length]; omega)]
    rfl

private theorem before_asymm (p q : List ℕ) (h : Before p q) : ¬ Before q p := by
  intro h'
  rcases h with h | ⟨e, k, h1, h2⟩
  · rcases h' with h' | ⟨e', -⟩ <;> omega
  · rcases h' with h' | ⟨e', k', h1', h2'⟩
    · omega
    · rcases lt_trichotomy k k' with hk | hk | hk
      · have := h1' k hk
        omega
      · subst hk
        omega
      · have := h1 k' hk
        omega

/-- **C244, order.** Whatever the number of features, the degree and the flags, `Fit` finds the exponent vectors of the monomials asked for in the order of total degree and, for equal degrees, of
the features (`x0^2, x0 x1, x1^2`); this leaves exactly one list of columns. -/
theorem C244_order (n degree : ℕ) (io bias : Bool) :
    ∃ P F, (∀ fuel, F ≤ fuel → powers n degree io bias fuel = some P) ∧ P.Pairwise Before ∧ (∀ p, p ∈ P ↔ Asked n degree io bias p) ∧
      ∀ Q : List (List ℕ), Q.Pairwise Before → (∀ p, p ∈ Q ↔ Asked n degree io bias p) → Q = P := by
  set P := ((degs degree bias).map (gen io n)).flatten.map (fun c => bincount c n) with hP
  obtain ⟨P', F', hF, -, hmem⟩ := C20_powers n degree io bias
  have hPP : P' = P := by
    have h1 := hF (max F' ((degs degree bias).map (fun i => (gen io n i).length)).sum) (le_max_left _ _)
    rw [powers_eq n degree io bias _ (le_max_right _ _)] at h1
    exact (Option.some.inj h1).symm
  rw [hPP] at hmem
  have hord : P.Pairwise Before := by
    rw [hP, List.pairwise_map, ← List.flatMap_def, List.pairwise_flatMap]
    constructor
    · intro i _
      refine (List.pairwise_iff_forall_sublist.2 fun {a b} hab => ?_)
      have ha := gen_mem io n i a (hab.subset (by simp))
      have hb := gen_mem io n i b (hab.subset (by simp))
      obtain ⟨k, h1, h2⟩ := List.pairwise_iff_forall_sublist.1 (gen_ordered io n i) hab
      right
      refine ⟨by rw [sum_range_count a n ha.2, sum_range_count b n hb.2, ha.1, hb.1], k, fun j hj => ?_, ?_⟩
      · rw [bincount_getD a n ha.2, bincount_getD b n hb.2, h1 j hj]
      · rw [bincount_getD a n ha.2, bincount_getD b n hb.2]
        exact h2
    · refine List.Pairwise.imp ?_ (List.pairwise_lt_range' (s := if bias then 0 else 1) (n := degree + 1 - (if bias then 0 else 1)))
      intro x y hxy a ha b hb
      have ha := gen_mem io n x a ha
      have hb := gen_mem io n y b hb
      left
      rw [sum_range_count a n ha.2, sum_range_count b n hb.2, ha.1, hb.1]
      exact hxy
  refine ⟨P, _, fun fuel hf => powers_eq n degree io bias fuel hf, hord, hmem, fun Q hQ hQm => ?_⟩
  have nd : ∀ {l : List (List ℕ)}, l.Pairwise Before → l.Nodup := fun h => h.imp (fun {a b} hab => by
    rintro rfl
    exact before_asymm a a hab hab)
  refine List.Perm.eq_of_pairwise (le := Before) (fun a b _ _ h1 h2 => absurd h2 (before_asymm a b h1)) hQ hord ?_
  exact (List.perm_ext_iff_of_nodup (nd hQ) (nd hord)).2 (fun p => by rw [hQm, hmem]; rfl)

/-! ## Number -/

private theorem length_cwrL (n : ℕ) : ∀ r lo, (cwrL n r lo).length = Nat.multichoose (n - lo) r
  | 0, lo => by simp [cwrL]
  | r + 1, lo => by
    unfold cwrL
    have key : ∀ (k x : ℕ), n - x = k → ((List.range' x k).flatMap (fun x => (cwrL n r x).map (x :: ·))).length = Nat.multichoose k (r + 1) := by
      intro k
      induction k with
      | zero => intro x _; simp
      | succ k ih =>
        intro x hx
        rw [List.range'_succ, List.flatMap_cons, List.length_append, ih (x + 1) (by omega), List.length_map, length_cwrL n r x, hx, Nat.multichoose_succ_succ, Nat.add_comm]
    exact key (n - lo) lo rfl

private theorem length_combL (n : ℕ) : ∀ r lo, (combL n r lo).length = Nat.choose (n - lo) r
  | 0, lo => by simp [combL]
  | r + 1, lo => by
    unfold combL
    have key : ∀ (k x : ℕ), n - r - x = k → ((List.range' x k).flatMap (fun x => (combL n r (x + 1)).map (x :: ·))).length = Nat.choose (n - x) (r + 1) := by
      intro k
      induction k with
      | zero =>
        intro x hx
        rw [Nat.choose_eq_zero_of_lt (by omega)]
        simp
      | succ k ih =>
        intro x hx
        rw [List.range'_succ, List.flatMap_cons, List.length_append, ih (x + 1) (by omega), List.length_map, length_combL n r (x + 1), show n - x = (n - (x + 1)) + 1 by omega, Nat.choose_succ_succ]
    exact key (n - r - lo) lo rfl

private theorem sum_degs (f : ℕ → ℕ) (degree : ℕ) (bias : Bool) (h0 : f 0 = 1) : ((degs degree bias).map f).sum + (if bias then 0 else 1) = ((List.range (degree + 1)).map f).sum := by
  unfold degs
  cases bias with
  | true => simp [List.range_eq_range']
  | false =>
    rw [List.range_eq_range', List.range'_succ, List.map_cons, List.sum_cons, h0]
    simp [Nat.add_comm]

private theorem sum_multichoose (n degree : ℕ) : ((List.range (degree + 1)).map (Nat.multichoose n)).sum = Nat.choose (n + degree) degree := by
  have h : ((List.range (degree + 1)).map (Nat.multichoose n)).sum = Nat.multichoose (n + 1) degree := by
    induction degree with
    | zero => simp
    | succ d ih => rw [List.range_succ, List.map_append, List.sum_append, ih, Nat.multichoose_succ_succ]; simp [Nat.add_comm]
  rw [h, Nat.multichoose_eq]
  congr 1
  omega

/-- **C244, number.** With `n` features and degree `d` there are `(n + d)! / (n! d!)` columns, with `InteractionOnly` as many as there are sets of at most `d` features; one less without the bias. -/
theorem C244_number (n degree : ℕ) (io bias : Bool) :
    ∃ P F, (∀ fuel, F ≤ fuel → powers n degree io bias fuel = some P) ∧
      P.length + (if bias then 0 else 1) = if io then ((List.range (degree + 1)).map (fun k => Nat.choose n k)).sum else Nat.choose (n + degree) degree := by
  refine ⟨_, _, fun fuel hf => powers_eq n degree io bias fuel hf, ?_⟩
  rw [List.length_map, List.length_flatten, List.map_map]
  cases io with
  | true =>
    rw [if_pos rfl, ← sum_degs (fun k => Nat.choose n k) degree bias (by simp)]
    congr 3
    funext i
    simp only [Function.comp, gen, if_true, length_combL, Nat.sub_zero]
  | false =>
    simp only [Bool.false_eq_true, if_false]
    rw [← sum_multichoose, ← sum_degs (Nat.multichoose n) degree bias (by simp)]
    congr 3
    funext i
    simp only [Function.comp, gen, Bool.false_eq_true, if_false, length_cwrL, Nat.sub_zero]

/-- **C244, all interactions.** With `InteractionOnly` and a degree that is at least the number `n` of features there are `2 ^ n` columns, bias included. -/
theorem C244_interactions (n degree : ℕ) (h : n ≤ degree) : ∃ P F, (∀ fuel, F ≤ fuel → powers n degree true true fuel = some P) ∧ P.length = 2 ^ n := by
  obtain ⟨P, F, h1, h2⟩ := C244_number n degree true true
  refine ⟨P, F, h1, ?_⟩
  simp only [if_true, Nat.add_zero] at h2
  rw [h2, ← Nat.sum_range_choose n]
  have e : ∀ m, ((List.range m).map (fun k => Nat.choose n k)).sum = ∑ k ∈ Finset.range m, Nat.choose n k := by
    intro m
    induction m with
    | zero => rfl
    | succ m ih => rw [List.range_succ, List.map_append, List.sum_append, ih, Finset.sum_range_succ]; simp
  rw [e]
  symm
  refine Finset.sum_subset (fun x hx => ?_) (fun x _ hx => ?_)
  · rw [Finset.mem_range] at hx ⊢
    omega
  · rw [Finset.mem_range] at hx
    exact Nat.choose_eq_zero_of_lt (by omega)

/-- Two features, degree 2: `1, x0, x1, x0^2, x0 x1, x1^2`. -/
example : powers 2 2 false true 10 = some [[0, 0], [1, 0], [0, 1], [2, 0], [1, 1], [0, 2]] ∧ Nat.choose (2 + 2) 2 = 6 := by decide +kernel

example : ∃ P F, (∀ fuel, F ≤ fuel → powers 3 2 true false fuel = some P) ∧ P.length + 1 = 7 := C244_number 3 2 true false

end Sk.PolyOrder
