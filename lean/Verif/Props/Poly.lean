import Verif.Lemmas.Poly
import Mathlib.Algebra.Order.Ring.Rat
import Mathlib.Algebra.Order.BigOperators.Group.List

/-!
# C20: `PolynomialFeatures`
-/
set_option autoImplicit false

namespace Sk.Poly

theorem mapM_some_of {α β : Type} (f : α → Option β) (g : α → β) : ∀ (l : List α), (∀ a ∈ l, f a = some (g a)) →
    l.mapM f = some (l.map g)
  | [], _ => rfl
  | a :: l, h => by
    rw [List.mapM_cons, h a (by simp), mapM_some_of f g l (fun b hb => h b (by simp [hb]))]
    rfl

/-- The index vectors of total degree `i`, both generators. -/
theorem gen_spec (io : Bool) (n i : ℕ) : ∃ L : List (List ℕ),
    (∀ fuel, L.length ≤ fuel → (if io then comb n i fuel else cwr n i fuel) = some L) ∧ L.Nodup ∧
    ∀ l, l ∈ L ↔ l.length = i ∧ l.Pairwise (· ≤ ·) ∧ (∀ x ∈ l, x < n) ∧ (io = true → l.Nodup) := by
  cases io with
  | false =>
    obtain ⟨L, h1, h2, h3⟩ := cwr_spec n i
    exact ⟨L, by simpa using h1, h2, by simpa using h3⟩
  | true =>
    obtain ⟨L, h1, h2, h3⟩ := comb_spec n i
    refine ⟨L, by simpa using h1, h2, ?_⟩
    intro l
    rw [h3]
    constructor
    · rintro ⟨a, b, c⟩
      exact ⟨a, b.imp (fun {a b} hab => le_of_lt hab), c, fun _ => b.imp (fun {a b} hab => ne_of_lt hab)⟩
    · rintro ⟨a, b, c, d⟩
      exact ⟨a, (b.and (d rfl)).imp (fun {a b} hab => lt_of_le_of_ne hab.1 hab.2), c⟩

/-- **C20, exponents.** For every number of features, degree and flags, `Fit` terminates and its `Powers` contain, each exactly once, precisely the exponent vectors (one entry per feature) of
total degree at most `Degree`, restricted to exponents ≤ 1 with `InteractionOnly`, and without the constant monomial when `IncludeBias` is false. -/
theorem C20_powers (n degree : ℕ) (io bias : Bool) :
    ∃ P F, (∀ fuel, F ≤ fuel → powers n degree io bias fuel = some P) ∧ P.Nodup ∧
      ∀ p, p ∈ P ↔ p.length = n ∧ p.sum ≤ degree ∧ (io = true → ∀ e ∈ p, e ≤ 1) ∧ (bias = false → p.sum ≠ 0) := by
  choose g hg1 hg2 hg3 using gen_spec io n
  set start := if bias then 0 else 1 with hstart
  refine ⟨((List.range' start (degree + 1 - start)).map g).flatten.map (fun c => bincount c n),
    ((List.range' start (degree + 1 - start)).map (fun i => (g i).length)).sum, ?_, ?_, ?_⟩
  · intro fuel hf
    unfold powers
    have : (List.range' start (degree + 1 - start)).mapM (fun i => if io then comb n i fuel else cwr n i fuel) =
        some ((List.range' start (degree + 1 - start)).map g) := by
      apply mapM_some_of
      intro i hi
      refine hg1 i fuel (le_trans ?_ hf)
      exact List.single_le_sum (fun _ _ => Nat.zero_le _) _ (List.mem_map.2 ⟨i, hi, rfl⟩)
    simp only [← hstart, this]
    rfl
  · have hnd : ((List.range' start (degree + 1 - start)).map g).flatten.Nodup := by
      rw [← List.flatMap_def, List.nodup_flatMap]
      refine ⟨fun i _ => hg2 i, ?_⟩
      refine List.Pairwise.imp ?_ (List.nodup_range' (n := degree + 1 - start) (s := start))
      intro x y hxy
      simp only [Function.onFun]
      rw [List.disjoint_left]
      intro l hl hl'
      exact hxy (((hg3 x l).1 hl).1.symm.trans ((hg3 y l).1 hl').1)
    refine List.Nodup.map_on ?_ hnd
    intro a ha b hb hab
    have hmem : ∀ l, l ∈ ((List.range' start (degree + 1 - start)).map g).flatten → l.Pairwise (· ≤ ·) ∧ ∀ x ∈ l, x < n := by
      intro l hl
      obtain ⟨L, hL, hl⟩ := List.mem_flatten.1 hl
      obtain ⟨i, _, rfl⟩ := List.mem_map.1 hL
      obtain ⟨_, h2, h3, _⟩ := (hg3 i l).1 hl
      exact ⟨h2, h3⟩
    exact (count_of_bincount a b n (hmem a ha).2 (hmem b hb).2 hab).eq_of_pairwise
      (fun _ _ _ _ h1 h2 => le_antisymm h1 h2) (hmem a ha).1 (hmem b hb).1
  · intro p
    simp only [List.mem_map, List.mem_flatten]
    constructor
    · rintro ⟨l, ⟨L, ⟨i, hi, rfl⟩, hl⟩, rfl⟩
      obtain ⟨h1, h2, h3, h4⟩ := (hg3 i l).1 hl
      rw [List.mem_range'_1] at hi
      rw [sum_range_count l n h3]
      refine ⟨bincount_length _ _, ?_, ?_, ?_⟩
      · omega
      · intro hio e he
        obtain ⟨k, _, rfl⟩ := List.mem_map.1 he
        exact List.nodup_iff_count_le_one.1 (h4 hio) k
      · intro hb
        rw [hb] at hstart
        simp at hstart
        omega
    · rintro ⟨h1, h2, h3, h4⟩
      subst h1
      have hsum : p.sum = (expand p).length := by
        rw [← sum_range_count (expand p) p.length (expand_lt p), bincount_expand]
      refine ⟨expand p, ⟨g p.sum, ⟨p.sum, ?_, rfl⟩, ?_⟩, bincount_expand p⟩
      · rw [List.mem_range'_1]
        cases bias with
        | true => simp at hstart; omega
        | false => simp at hstart h4; omega
      · rw [hg3]
        refine ⟨hsum.symm, expand_sorted p, expand_lt p, ?_⟩
        intro hio
        rw [List.nodup_iff_count_le_one]
        intro k
        by_cases hk : k < p.length
        · rw [expand_count p k hk]
          have : p.getD k 0 = p[k] := by simp [hk]
          rw [this]
          exact h3 hio _ (List.getElem_mem hk)
        · rw [List.count_eq_zero.2 (fun hm => hk (expand_lt p k hm))]; omega

example : powers 2 2 false true 10 = some [[0, 0], [1, 0], [0, 1], [2, 0], [1, 1], [0, 2]] := by decide +kernel
example : powers 3 2 true false 10 = some [[1, 0, 0], [0, 1, 0], [0, 0, 1], [1, 1, 0], [1, 0, 1], [0, 1, 1]] := by decide +kernel

section
variable {K : Type} [CommMonoidWithZero K]

/-- Evaluation of a monomial. -/
def monomial (p : List ℕ) (x : List K) : K := (List.zipWith (fun e v => v ^ e) p x).prod

/-- **C20, values.** Every column of the transformed row is the monomial with the corresponding exponents. -/
theorem C20_transform (P : List (List ℕ)) (row : List K) : transformRow P row = P.map (fun p => monomial p row) := by
  unfold transformRow monomial
  apply List.map_congr_left
  intro p _
  have : ∀ (p : List ℕ) (row : List K) (v : K), (p.zip row).foldl (fun v px => v * px.2 ^ px.1) v = v * (List.zipWith (fun e v => v ^ e) p row).prod := by
    intro p
    induction p with
    | nil => intro row v; simp
    | cons e p ih =>
      intro row v
      cases row with
      | nil => simp
      | cons x row => simp only [List.zip_cons_cons, List.foldl_cons, List.zipWith_cons_cons, List.prod_cons]; rw [ih, mul_assoc]
  rw [this, one_mul]

example : transformRow [[0, 0], [1, 0], [2, 1]] [(3 : ℚ), 5] = [1, 3, 45] := by decide +kernel

theorem monomial_zero : ∀ (p : List ℕ) (x : List K), p.sum = 0 → monomial p x = 1
  | [], x, _ => by simp [monomial]
  | e :: p, [], _ => by simp [monomial]
  | e :: p, v :: x, h => by
    simp only [List.sum_cons] at h
    have he : e = 0 := by omega
    have := monomial_zero p x (by omega)
    unfold monomial at this ⊢
    simp [he, this]

/-- A vector of total degree one is the exponent vector of one variable. -/
theorem unit_spec : ∀ (p : List ℕ) (x : List K), p.length = x.length → p.sum = 1 →
    ∃ j, ∃ hj : j < p.length, p[j] = 1 ∧ (∀ i, i ≠ j → p.getD i 0 = 0) ∧ monomial p x = x.getD j 0
  | [], x, _, h => by simp at h
  | e :: p, [], h, _ => by simp at h
  | e :: p, v :: x, hlen, h => by
    simp only [List.sum_cons] at h
    rcases Nat.eq_zero_or_pos e with he | he
    · subst he
      obtain ⟨j, hj, h1, h2, h3⟩ := unit_spec p x (by simpa using hlen) (by omega)
      refine ⟨j + 1, by simpa using hj, by simpa using h1, ?_, ?_⟩
      · intro i hi
        cases i with
        | zero => rfl
        | succ i => rw [List.getD_cons_succ]; exact h2 i (by omega)
      · unfold monomial at h3 ⊢
        simp only [List.zipWith_cons_cons, List.prod_cons, pow_zero, one_mul, List.getD_cons_succ]
        exact h3
    · have he1 : e = 1 := by omega
      have hs : p.sum = 0 := by omega
      subst he1
      refine ⟨0, by simp, rfl, ?_, ?_⟩
      · intro i hi
        cases i with
        | zero => exact absurd rfl hi
        | succ i =>
          rw [List.getD_cons_succ]
          by_cases hi : i < p.length
          · have : p[i] ≤ p.sum := List.single_le_sum (fun _ _ => Nat.zero_le _) _ (List.getElem_mem hi)
            simp [hi]; omega
          · simp [hi]
      · have := monomial_zero p x hs
        unfold monomial at this ⊢
        simp [this]

theorem intMaxIdx_unit (p : List ℕ) (j : ℕ) (hj : j < p.length) (h1 : p[j] = 1) (h2 : ∀ i, i ≠ j → p.getD i 0 = 0) :
    intMaxIdx p = j := by
  have hjd : p.getD j 0 = 1 := by simp [hj, h1]
  have key : ∀ k, (List.range k).foldl (fun i j => if p.getD i 0 < p.getD j 0 then j else i) 0 = if k ≤ j then 0 else j := by
    intro k
    induction k with
    | zero => simp
    | succ k ih =>
      rw [List.range_succ, List.foldl_append, ih]
      simp only [List.foldl_cons, List.foldl_nil]
      rcases Nat.lt_trichotomy k j with h | h | h
      · rw [if_pos (by omega : k ≤ j), if_pos (by omega : k + 1 ≤ j), h2 k (by omega)]
        simp
      · subst h
        rw [if_pos (le_refl _), if_neg (by omega : ¬ k + 1 ≤ k), hjd]
        by_cases h0 : k = 0
        · subst h0; simp
        · rw [h2 0 (Ne.symm h0)]; simp
      · rw [if_neg (by omega : ¬ k ≤ j), if_neg (by omega : ¬ k + 1 ≤ j), hjd, h2 k (by omega)]
        simp
  unfold intMaxIdx
  rw [key, if_neg (by omega)]

theorem foldl_set_length (val : ℕ → K) : ∀ (jts : List (ℕ × ℕ)) (out : List K),
    (jts.foldl (fun out jt => out.set jt.1 (val jt.2)) out).length = out.length
  | [], _ => rfl
  | jt :: jts, out => by rw [List.foldl_cons, foldl_set_length val jts]; simp

theorem foldl_set_get (val : ℕ → K) (x : List K) : ∀ (jts : List (ℕ × ℕ)) (out : List K) (j : ℕ), j < out.length →
    (∀ jt ∈ jts, val jt.2 = x.getD jt.1 0) → (out[j]? = x[j]? ∨ ∃ jt ∈ jts, jt.1 = j) → j < x.length →
    (jts.foldl (fun out jt => out.set jt.1 (val jt.2)) out)[j]? = x[j]?
  | [], out, j, _, _, h, _ => by
    rcases h with h | ⟨_, h, _⟩
    · exact h
    · simp at h
  | jt :: jts, out, j, hj, hv, h, hx => by
    rw [List.foldl_cons]
    apply foldl_set_get val x jts _ j (by simpa using hj) (fun a ha => hv a (by simp [ha])) _ hx
    by_cases he : jt.1 = j
    · left
      rw [he, List.getElem?_set_self hj, hv jt (by simp), he]
      simp [hx]
    · rcases h with h | ⟨a, ha, haj⟩
      · left; rw [List.getElem?_set_ne he]; exact h
      · rcases List.mem_cons.1 ha with rfl | ha
        · exact absurd haj he
        · right; exact ⟨a, ha, haj⟩

theorem foldl_cols (n : ℕ) : ∀ (jts : List (ℕ × ℕ)) (c : ℕ), c ≤ n → (∀ jt ∈ jts, jt.1 < n) → (c = n ∨ ∃ jt ∈ jts, jt.1 + 1 = n) →
    jts.foldl (fun c jt => if c ≤ jt.1 then jt.1 + 1 else c) c = n
  | [], c, _, _, h => by
    rcases h with h | ⟨_, h, _⟩
    · exact h
    · simp at h
  | jt :: jts, c, hc, hlt, h => by
    rw [List.foldl_cons]
    have hj := hlt jt (by simp)
    apply foldl_cols n jts _ (by split <;> omega) (fun a ha => hlt a (by simp [ha]))
    rcases h with h | ⟨a, ha, haj⟩
    · left; rw [if_neg (by omega)]; exact h
    · rcases List.mem_cons.1 ha with rfl | ha
      · left; split <;> omega
      · right; exact ⟨a, ha, haj⟩

/-- **C20, inverse.** For at least one feature and degree at least one, with any flags, `InverseTransform` recovers every row from its transformed row. -/
theorem C20_inverse (n degree : ℕ) (io bias : Bool) (hn : 0 < n) (hd : 0 < degree) :
    ∃ P F, (∀ fuel, F ≤ fuel → powers n degree io bias fuel = some P) ∧
      ∀ row : List K, row.length = n → inverseRow P (transformRow P row) = some row := by
  obtain ⟨P, F, h1, _, h3⟩ := C20_powers n degree io bias
  refine ⟨P, F, h1, ?_⟩
  intro row hrow
  set jts := (P.zipIdx.filter (fun pi => decide (pi.1.sum = 1))).map (fun pi => (intMaxIdx pi.1, pi.2)) with hjts
  have hmem : ∀ jt ∈ jts, jt.1 < n ∧ (transformRow P row).getD jt.2 0 = row.getD jt.1 0 := by
    intro jt hjt
    obtain ⟨⟨p, i⟩, hpi, rfl⟩ := List.mem_map.1 hjt
    rw [List.mem_filter] at hpi
    obtain ⟨hz, hs⟩ := hpi
    simp only [decide_eq_true_eq] at hs
    have hget : P[i]? = some p := List.mem_zipIdx_iff_getElem?.1 hz
    have hp := (h3 p).1 (List.mem_of_getElem? hget)
    obtain ⟨j, hj, hj1, hj2, hj3⟩ := unit_spec p row (by rw [hp.1, hrow]) hs
    simp only
    rw [intMaxIdx_unit p j hj hj1 hj2]
    refine ⟨by rw [← hp.1]; exact hj, ?_⟩
    rw [C20_transform, List.getD_eq_getElem?_getD, List.getElem?_map, hget]
    simpa using hj3
  have hall : ∀ j, j < n → ∃ jt ∈ jts, jt.1 = j := by
    intro j hj
    set p := (List.range n).map (fun i => if i = j then 1 else 0) with hp
    have hlen : p.length = n := by simp [hp]
    have hpj : ∀ i, p.getD i 0 = if i = j then 1 else 0 := by
      intro i
      by_cases hi : i < n
      · simp [hp, hi]
      · have : i ≠ j := by omega
        simp [hp, hi, this]
    have hsum : p.sum = 1 := by
      have h2 : ∀ l : List ℕ, (l.map (fun i => if i = j then 1 else 0)).sum = l.count j := by
        intro l
        induction l with
        | nil => simp
        | cons a l ih => simp only [List.map_cons, List.sum_cons, List.count_cons, ih]; by_cases hk : a = j <;> simp [hk]; omega
      rw [hp, h2, List.count_eq_one_of_mem List.nodup_range (List.mem_range.2 hj)]
    have hmemP : p ∈ P := by
      rw [h3]
      refine ⟨hlen, by omega, ?_, by omega⟩
      intro _ e he
      rw [hp] at he
      obtain ⟨i, _, rfl⟩ := List.mem_map.1 he
      split <;> omega
    obtain ⟨i, hi, hpi⟩ := List.getElem_of_mem hmemP
    have hidx : intMaxIdx p = j := by
      apply intMaxIdx_unit p j (by omega)
      · have := hpj j
        simpa [hlen, hj] using this
      · intro i hi; rw [hpj, if_neg hi]
    refine ⟨(intMaxIdx p, i), ?_, hidx⟩
    rw [hjts]
    refine List.mem_map.2 ⟨(p, i), ?_, rfl⟩
    rw [List.mem_filter]
    refine ⟨List.mem_zipIdx_iff_getElem?.2 ?_, by simpa using hsum⟩
    simp [hi, hpi]
  have hcols : jts.foldl (fun c jt => if c ≤ jt.1 then jt.1 + 1 else c) 0 = n := by
    apply foldl_cols n jts 0 (by omega) (fun jt hjt => (hmem jt hjt).1)
    right
    obtain ⟨jt, hjt, he⟩ := hall (n - 1) (by omega)
    exact ⟨jt, hjt, by omega⟩
  unfold inverseRow
  simp only [← hjts, hcols]
  rw [if_neg (by omega)]
  congr 1
  apply List.ext_getElem?
  intro j
  by_cases hj : j < n
  · apply foldl_set_get (fun i => (transformRow P row).getD i 0) row jts _ j (by simpa using hj) (fun jt hjt => (hmem jt hjt).2)
      (Or.inr (hall j hj)) (by omega)
  · rw [List.getElem?_eq_none, List.getElem?_eq_none (by omega)]
    rw [foldl_set_length (fun i => (transformRow P row).getD i 0)]
    simp; omega
end

example : inverseRow [[0, 0], [1, 0], [0, 1], [2, 0], [1, 1], [0, 2]] (transformRow [[0, 0], [1, 0], [0, 1], [2, 0], [1, 1], [0, 2]] [(3 : ℚ), 5]) =
    some [3, 5] := by decide +kernel

end Sk.Poly
