import Verif.Model.Poly
import Mathlib.Data.List.Nodup
import Mathlib.Data.List.Sort
import Mathlib.Data.List.Count
import Mathlib.Data.List.Perm.Basic
import Mathlib.Algebra.BigOperators.Group.List.Basic
import Mathlib.Tactic.Ring

set_option autoImplicit false

namespace Sk.Poly

/-- `Enum next a L`: starting from `a`, advancing visits exactly `L` and stops. -/
inductive Enum (next : List ℕ → Option (List ℕ)) : List ℕ → List (List ℕ) → Prop
  | last (a : List ℕ) : next a = none → Enum next a [a]
  | step (a b : List ℕ) (L : List (List ℕ)) : next a = some b → Enum next b L → Enum next a (a :: L)

theorem iter_of_enum (next : List ℕ → Option (List ℕ)) (a : List ℕ) (L : List (List ℕ)) (h : Enum next a L) :
    ∀ fuel, L.length ≤ fuel → iter next fuel a = some L := by
  induction h with
  | last a h =>
    intro fuel hf
    obtain ⟨f, rfl⟩ : ∃ f, fuel = f + 1 := ⟨fuel - 1, by simp at hf; omega⟩
    simp only [iter, h]
  | step a b L h _ ih =>
    intro fuel hf
    obtain ⟨f, rfl⟩ : ∃ f, fuel = f + 1 := ⟨fuel - 1, by simp at hf; omega⟩
    simp only [iter, h, ih f (by simp at hf; omega), Option.map_some]

theorem find_rev_succ (p : ℕ → Bool) (k : ℕ) :
    (List.range (k + 1)).reverse.find? p =
      match (List.range k).reverse.find? (fun i => p (i + 1)) with
      | some i => some (i + 1)
      | none => if p 0 then some 0 else none := by
  rw [List.range_succ_eq_map, List.reverse_cons, List.find?_append, ← List.map_reverse, List.find?_map]
  have : (p ∘ Nat.succ) = fun i => p (i + 1) := rfl
  rw [this]
  cases (List.range k).reverse.find? (fun i => p (i + 1)) with
  | some i => simp
  | none => cases h : p 0 <;> simp [h]

/-! ## combinations with replacement -/

theorem cwrNext_nil (n : ℕ) : cwrNext n [] = none := rfl

theorem cwrNext_cons (n x : ℕ) (xs : List ℕ) : cwrNext n (x :: xs) =
    match cwrNext n xs with
    | some ys => some (x :: ys)
    | none => if x ≠ n - 1 then some (List.replicate (xs.length + 1) (x + 1)) else none := by
  unfold cwrNext
  rw [List.length_cons, find_rev_succ]
  simp only [List.getD_cons_succ, List.getD_cons_zero]
  cases (List.range xs.length).reverse.find? (fun i => decide (xs.getD i 0 ≠ n - 1)) with
  | some i =>
    simp only [List.take_succ_cons, List.getD_cons_succ, List.cons_append, Nat.add_sub_add_right]
  | none =>
    by_cases hx : x = n - 1
    · simp [hx]
    · simp [hx]

theorem cwrNext_length (n : ℕ) : ∀ (a b : List ℕ), cwrNext n a = some b → b.length = a.length
  | [], b, h => by rw [cwrNext_nil] at h; cases h
  | x :: xs, b, h => by
    rw [cwrNext_cons] at h
    cases hxs : cwrNext n xs with
    | some ys =>
      rw [hxs] at h
      have := Option.some.inj h
      subst this
      simp [cwrNext_length n xs ys hxs]
    | none =>
      rw [hxs] at h
      simp only at h
      split at h
      · have := Option.some.inj h
        subst this; simp
      · cases h

/-- All nondecreasing sequences of length `r` with entries in `[lo, n)`, in lexicographic order. -/
def cwrL (n : ℕ) : ℕ → ℕ → List (List ℕ)
  | 0, _ => [[]]
  | r + 1, lo => (List.range' lo (n - lo)).flatMap (fun x => (cwrL n r x).map (x :: ·))

theorem enum_lift_cwr (n x r : ℕ) (rest : List (List ℕ)) (h1 : x ≠ n - 1 → Enum (cwrNext n) (List.replicate (r + 1) (x + 1)) rest)
    (h2 : x = n - 1 → rest = []) (a : List ℕ) (L : List (List ℕ)) (h : Enum (cwrNext n) a L) (ha : a.length = r) :
    Enum (cwrNext n) (x :: a) (L.map (x :: ·) ++ rest) := by
  induction h with
  | last a h =>
    by_cases hx : x = n - 1
    · rw [h2 hx]
      refine Enum.last _ ?_
      rw [cwrNext_cons, h]; simp [hx]
    · refine Enum.step _ (List.replicate (r + 1) (x + 1)) _ ?_ (h1 hx)
      rw [cwrNext_cons, h]; simp [hx, ha]
  | step a b L h _ ih =>
    refine Enum.step _ (x :: b) _ ?_ (ih (by rw [cwrNext_length n a b h, ha]))
    rw [cwrNext_cons, h]

theorem enum_cwrL (n : ℕ) : ∀ (r lo : ℕ), lo < n → Enum (cwrNext n) (List.replicate r lo) (cwrL n r lo)
  | 0, lo, _ => Enum.last _ rfl
  | r + 1, lo, h => by
    have key : ∀ (k x : ℕ), n - x = k → x < n →
        Enum (cwrNext n) (List.replicate (r + 1) x) ((List.range' x k).flatMap (fun x => (cwrL n r x).map (x :: ·))) := by
      intro k
      induction k with
      | zero => intro x h1 h2; omega
      | succ k ih =>
        intro x h1 h2
        rw [List.range'_succ, List.flatMap_cons, List.replicate_succ]
        refine enum_lift_cwr n x r _ ?_ ?_ _ _ (enum_cwrL n r x h2) (by simp)
        · intro hx; exact ih (x + 1) (by omega) (by omega)
        · intro hx
          have : k = 0 := by omega
          subst this; rfl
    exact key (n - lo) lo rfl h

theorem mem_cwrL (n : ℕ) : ∀ (r lo : ℕ) (l : List ℕ), l ∈ cwrL n r lo ↔
    l.length = r ∧ l.Pairwise (· ≤ ·) ∧ ∀ x ∈ l, lo ≤ x ∧ x < n
  | 0, lo, l => by
    simp only [cwrL, List.mem_singleton]
    constructor
    · rintro rfl; simp
    · rintro ⟨h, _⟩; exact List.length_eq_zero_iff.1 h
  | r + 1, lo, l => by
    simp only [cwrL, List.mem_flatMap, List.mem_map, List.mem_range'_1]
    constructor
    · rintro ⟨x, ⟨h1, h2⟩, a, ha, rfl⟩
      obtain ⟨ha1, ha2, ha3⟩ := (mem_cwrL n r x a).1 ha
      refine ⟨by simp [ha1], ?_, ?_⟩
      · rw [List.pairwise_cons]; exact ⟨fun y hy => (ha3 y hy).1, ha2⟩
      · intro y hy
        rcases List.mem_cons.1 hy with rfl | hy
        · omega
        · have := ha3 y hy; omega
    · rintro ⟨h1, h2, h3⟩
      cases l with
      | nil => simp at h1
      | cons x a =>
        rw [List.pairwise_cons] at h2
        have hx := h3 x (by simp)
        refine ⟨x, by omega, a, (mem_cwrL n r x a).2 ⟨by simpa using h1, h2.2, ?_⟩, rfl⟩
        intro y hy
        exact ⟨h2.1 y hy, (h3 y (by simp [hy])).2⟩

theorem nodup_cwrL (n : ℕ) : ∀ (r lo : ℕ), (cwrL n r lo).Nodup
  | 0, lo => by simp [cwrL]
  | r + 1, lo => by
    unfold cwrL
    rw [List.nodup_flatMap]
    refine ⟨?_, ?_⟩
    · intro x _
      exact (nodup_cwrL n r x).map (fun a b h => (List.cons.inj h).2)
    · refine List.Pairwise.imp ?_ (List.nodup_range' (n := n - lo) (s := lo))
      intro x y hxy
      simp only [Function.onFun]
      rw [List.disjoint_left]
      intro l hl hl'
      obtain ⟨a, _, rfl⟩ := List.mem_map.1 hl
      obtain ⟨b, _, hb⟩ := List.mem_map.1 hl'
      exact hxy (List.cons.inj hb).1.symm

/-- `combinationsWithReplacement` terminates and yields every nondecreasing index vector exactly once. -/
theorem cwr_spec (n r : ℕ) : ∃ L, (∀ fuel, L.length ≤ fuel → cwr n r fuel = some L) ∧ L.Nodup ∧
    ∀ l, l ∈ L ↔ l.length = r ∧ l.Pairwise (· ≤ ·) ∧ ∀ x ∈ l, x < n := by
  rcases Nat.eq_zero_or_pos n with hn | hn
  · subst hn
    rcases Nat.eq_zero_or_pos r with hr | hr
    · subst hr
      refine ⟨[[]], ?_, by simp, ?_⟩
      · intro fuel hf
        unfold cwr
        rw [if_neg (by omega)]
        exact iter_of_enum _ _ _ (Enum.last _ rfl) fuel hf
      · intro l
        rw [List.mem_singleton]
        constructor
        · rintro rfl; simp
        · rintro ⟨h, _⟩; exact List.length_eq_zero_iff.1 h
    · refine ⟨[], ?_, by simp, ?_⟩
      · intro fuel _
        unfold cwr
        rw [if_pos ⟨rfl, hr⟩]
      · intro l
        simp only [List.not_mem_nil, false_iff, not_and]
        intro h1 _ h3
        cases l with
        | nil => simp at h1; omega
        | cons x a => exact absurd (h3 x (by simp)) (by omega)
  · refine ⟨cwrL n r 0, ?_, nodup_cwrL n r 0, ?_⟩
    · intro fuel hf
      unfold cwr
      rw [if_neg (by omega)]
      exact iter_of_enum _ _ _ (enum_cwrL n r 0 hn) fuel hf
    · intro l; rw [mem_cwrL]; simp

/-! ## combinations -/

theorem combNext_nil (n : ℕ) : combNext n [] = none := rfl

theorem combNext_cons (n x : ℕ) (xs : List ℕ) : combNext n (x :: xs) =
    match combNext n xs with
    | some ys => some (x :: ys)
    | none => if x ≠ n - (xs.length + 1) then some (List.range' (x + 1) (xs.length + 1)) else none := by
  unfold combNext
  rw [List.length_cons, find_rev_succ]
  have hsub : ∀ i, i + 1 + n - (xs.length + 1) = i + n - xs.length := by intro i; omega
  simp only [List.getD_cons_succ, List.getD_cons_zero, hsub, Nat.zero_add]
  cases (List.range xs.length).reverse.find? (fun i => decide (xs.getD i 0 ≠ i + n - xs.length)) with
  | some i =>
    simp only [List.take_succ_cons, List.getD_cons_succ, List.cons_append, Nat.add_sub_add_right]
  | none =>
    by_cases hx : x = n - (xs.length + 1)
    · simp [hx]
    · simp [hx]

theorem combNext_length (n : ℕ) : ∀ (a b : List ℕ), combNext n a = some b → b.length = a.length
  | [], b, h => by rw [combNext_nil] at h; cases h
  | x :: xs, b, h => by
    rw [combNext_cons] at h
    cases hxs : combNext n xs with
    | some ys =>
      rw [hxs] at h
      have := Option.some.inj h
      subst this
      simp [combNext_length n xs ys hxs]
    | none =>
      rw [hxs] at h
      simp only at h
      split at h
      · have := Option.some.inj h
        subst this; simp
      · cases h

/-- All strictly increasing sequences of length `r` with entries in `[lo, n)`, in lexicographic order. -/
def combL (n : ℕ) : ℕ → ℕ → List (List ℕ)
  | 0, _ => [[]]
  | r + 1, lo => (List.range' lo (n - r - lo)).flatMap (fun x => (combL n r (x + 1)).map (x :: ·))

theorem enum_lift_comb (n x r : ℕ) (rest : List (List ℕ)) (h1 : x ≠ n - (r + 1) → Enum (combNext n) (List.range' (x + 1) (r + 1)) rest)
    (h2 : x = n - (r + 1) → rest = []) (a : List ℕ) (L : List (List ℕ)) (h : Enum (combNext n) a L) (ha : a.length = r) :
    Enum (combNext n) (x :: a) (L.map (x :: ·) ++ rest) := by
  induction h with
  | last a h =>
    by_cases hx : x = n - (r + 1)
    · rw [h2 hx]
      refine Enum.last _ ?_
      rw [combNext_cons, h]; simp [hx, ha]
    · refine Enum.step _ (List.range' (x + 1) (r + 1)) _ ?_ (h1 hx)
      rw [combNext_cons, h]; simp [hx, ha]
  | step a b L h _ ih =>
    refine Enum.step _ (x :: b) _ ?_ (ih (by rw [combNext_length n a b h, ha]))
    rw [combNext_cons, h]

theorem enum_combL (n : ℕ) : ∀ (r lo : ℕ), lo + r ≤ n → Enum (combNext n) (List.range' lo r) (combL n r lo)
  | 0, lo, _ => Enum.last _ rfl
  | r + 1, lo, h => by
    have key : ∀ (k x : ℕ), n - r - x = k → x + (r + 1) ≤ n →
        Enum (combNext n) (List.range' x (r + 1)) ((List.range' x k).flatMap (fun x => (combL n r (x + 1)).map (x :: ·))) := by
      intro k
      induction k with
      | zero => intro x h1 h2; omega
      | succ k ih =>
        intro x h1 h2
        rw [List.range'_succ, List.range'_succ, List.flatMap_cons]
        refine enum_lift_comb n x r _ ?_ ?_ _ _ (enum_combL n r (x + 1) (by omega)) (by simp)
        · intro hx; exact ih (x + 1) (by omega) (by omega)
        · intro hx
          have : k = 0 := by omega
          subst this; rfl
    exact key (n - r - lo) lo rfl h

theorem mem_combL (n : ℕ) : ∀ (r lo : ℕ) (l : List ℕ), l ∈ combL n r lo ↔
    l.length = r ∧ l.Pairwise (· < ·) ∧ ∀ x ∈ l, lo ≤ x ∧ x < n
  | 0, lo, l => by
    simp only [combL, List.mem_singleton]
    constructor
    · rintro rfl; simp
    · rintro ⟨h, _⟩; exact List.length_eq_zero_iff.1 h
  | r + 1, lo, l => by
    simp only [combL, List.mem_flatMap, List.mem_map, List.mem_range'_1]
    constructor
    · rintro ⟨x, ⟨h1, h2⟩, a, ha, rfl⟩
      obtain ⟨ha1, ha2, ha3⟩ := (mem_combL n r (x + 1) a).1 ha
      refine ⟨by simp [ha1], ?_, ?_⟩
      · rw [List.pairwise_cons]; exact ⟨fun y hy => (ha3 y hy).1, ha2⟩
      · intro y hy
        rcases List.mem_cons.1 hy with rfl | hy
        · omega
        · have := ha3 y hy; omega
    · rintro ⟨h1, h2, h3⟩
      cases l with
      | nil => simp at h1
      | cons x a =>
        rw [List.pairwise_cons] at h2
        have hx := h3 x (by simp)
        have hlen : a.length = r := by simpa using h1
        -- a has `r` distinct entries in `(x, n)`
        have hroom : x + a.length < n := by
          have hsub : a ⊆ List.range' (x + 1) (n - (x + 1)) := by
            intro y hy
            rw [List.mem_range'_1]
            have := h2.1 y hy
            have := h3 y (by simp [hy])
            omega
          have hnd : a.Nodup := h2.2.imp (fun {a b} hab => Nat.ne_of_lt hab)
          have := (List.subperm_of_subset hnd hsub).length_le
          rw [List.length_range'] at this
          omega
        refine ⟨x, by omega, a, (mem_combL n r (x + 1) a).2 ⟨hlen, h2.2, ?_⟩, rfl⟩
        intro y hy
        exact ⟨h2.1 y hy, (h3 y (by simp [hy])).2⟩

theorem nodup_combL (n : ℕ) : ∀ (r lo : ℕ), (combL n r lo).Nodup
  | 0, lo => by simp [combL]
  | r + 1, lo => by
    unfold combL
    rw [List.nodup_flatMap]
    refine ⟨?_, ?_⟩
    · intro x _
      exact (nodup_combL n r (x + 1)).map (fun a b h => (List.cons.inj h).2)
    · refine List.Pairwise.imp ?_ (List.nodup_range' (n := n - r - lo) (s := lo))
      intro x y hxy
      simp only [Function.onFun]
      rw [List.disjoint_left]
      intro l hl hl'
      obtain ⟨a, _, rfl⟩ := List.mem_map.1 hl
      obtain ⟨b, _, hb⟩ := List.mem_map.1 hl'
      exact hxy (List.cons.inj hb).1.symm

/-- `combinations` terminates and yields every strictly increasing index vector exactly once. -/
theorem comb_spec (n r : ℕ) : ∃ L, (∀ fuel, L.length ≤ fuel → comb n r fuel = some L) ∧ L.Nodup ∧
    ∀ l, l ∈ L ↔ l.length = r ∧ l.Pairwise (· < ·) ∧ ∀ x ∈ l, x < n := by
  by_cases h : n < r
  · refine ⟨[], ?_, by simp, ?_⟩
    · intro fuel _
      unfold comb
      rw [if_pos h]
    · intro l
      simp only [List.not_mem_nil, false_iff, not_and]
      intro h1 h2 h3
      have hsub : l ⊆ List.range n := fun y hy => List.mem_range.2 (h3 y hy)
      have hnd : l.Nodup := h2.imp (fun {a b} hab => Nat.ne_of_lt hab)
      have := (List.subperm_of_subset hnd hsub).length_le
      rw [List.length_range] at this
      omega
  · refine ⟨combL n r 0, ?_, nodup_combL n r 0, ?_⟩
    · intro fuel hf
      unfold comb
      rw [if_neg h, List.range_eq_range']
      exact iter_of_enum _ _ _ (enum_combL n r 0 (by omega)) fuel hf
    · intro l; rw [mem_combL]; simp

/-! ## bincount -/

theorem bincount_length (a : List ℕ) (n : ℕ) : (bincount a n).length = n := by simp [bincount]

theorem sum_range_count (a : List ℕ) (n : ℕ) (h : ∀ x ∈ a, x < n) : (bincount a n).sum = a.length := by
  unfold bincount
  induction a with
  | nil => simp
  | cons x a ih =>
    have ih := ih (fun y hy => h y (by simp [hy]))
    have hx := h x (by simp)
    simp only [List.count_cons, List.length_cons]
    rw [List.sum_map_add, ih]
    have : ((List.range n).map (fun k => if (x == k) = true then 1 else 0)).sum = 1 := by
      have h1 : (List.range n).map (fun k => if (x == k) = true then 1 else 0) = (List.range n).map (fun k => if k = x then 1 else 0) := by
        apply List.map_congr_left; intro k _; by_cases hk : k = x <;> simp [hk, Ne.symm]
      rw [h1]
      have hc : (List.range n).count x = 1 := List.count_eq_one_of_mem List.nodup_range (List.mem_range.2 hx)
      have h2 : ((List.range n).map (fun k => if k = x then 1 else 0)).sum = (List.range n).count x := by
        generalize List.range n = l
        induction l with
        | nil => simp
        | cons a l ih => simp only [List.map_cons, List.sum_cons, List.count_cons, ih]; by_cases hk : a = x <;> simp [hk]; omega
      rw [h2, hc]
    omega

theorem count_of_bincount (a b : List ℕ) (n : ℕ) (ha : ∀ x ∈ a, x < n) (hb : ∀ x ∈ b, x < n) (h : bincount a n = bincount b n) :
    a.Perm b := by
  rw [List.perm_iff_count]
  intro k
  by_cases hk : k < n
  · have := congrArg (fun l => l[k]?) h
    simpa [bincount, hk] using this
  · rw [List.count_eq_zero.2 (fun hm => hk (ha k hm)), List.count_eq_zero.2 (fun hm => hk (hb k hm))]

/-- the sorted list with given counts -/
def expand (p : List ℕ) : List ℕ := (List.range p.length).flatMap (fun k => List.replicate (p.getD k 0) k)

theorem expand_sorted (p : List ℕ) : (expand p).Pairwise (· ≤ ·) := by
  unfold expand
  rw [List.pairwise_flatMap]
  refine ⟨?_, ?_⟩
  · intro k _
    rw [List.pairwise_replicate]; right; exact le_refl _
  · refine List.Pairwise.imp ?_ (List.pairwise_lt_range (n := p.length))
    intro x y hxy a ha b hb
    rw [List.eq_of_mem_replicate ha, List.eq_of_mem_replicate hb]
    exact hxy.le

theorem expand_lt (p : List ℕ) : ∀ x ∈ expand p, x < p.length := by
  intro x hx
  unfold expand at hx
  obtain ⟨k, hk, hx⟩ := List.mem_flatMap.1 hx
  rw [List.eq_of_mem_replicate hx]
  exact List.mem_range.1 hk

theorem expand_count (p : List ℕ) (k : ℕ) (hk : k < p.length) : (expand p).count k = p.getD k 0 := by
  unfold expand
  rw [List.count_flatMap]
  have : (List.count k ∘ fun k => List.replicate (p.getD k 0) k) = fun j => if j = k then p.getD k 0 else 0 := by
    funext j
    simp only [Function.comp, List.count_replicate]
    by_cases h : j = k
    · subst h; simp
    · simp [h]
  rw [this]
  have h2 : ∀ (l : List ℕ) (v : ℕ), (l.map (fun j => if j = k then v else 0)).sum = l.count k * v := by
    intro l v
    induction l with
    | nil => simp
    | cons a l ih =>
      simp only [List.map_cons, List.sum_cons, List.count_cons, ih]
      by_cases h : a = k
      · simp [h]; ring
      · simp [h]
  rw [h2, List.count_eq_one_of_mem List.nodup_range (List.mem_range.2 hk), one_mul]

theorem bincount_expand (p : List ℕ) : bincount (expand p) p.length = p := by
  apply List.ext_getElem
  · simp [bincount]
  · intro i h1 h2
    simp only [bincount, List.getElem_map, List.getElem_range]
    rw [expand_count p i h2]
    simp [h2]

end Sk.Poly
