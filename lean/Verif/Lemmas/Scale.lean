import Verif.Model.Scale
import Verif.Spec.Stats
import Mathlib.Tactic.FieldSimp
import Mathlib.Tactic.Ring
import Mathlib.Tactic.Linarith
import Mathlib.Algebra.Order.BigOperators.Group.List

set_option autoImplicit false

namespace Sk.Scale

open Sk.Stats

variable {K : Type} [Field K] [LinearOrder K]

theorem foldl_add_eq (xs : List K) : ∀ (a : K), xs.foldl (· + ·) a = a + xs.sum := by
  induction xs with
  | nil => intro a; simp
  | cons x xs ih => intro a; simp only [List.foldl_cons, List.sum_cons]; rw [ih]; ring

/-- sum of squared deviations from any point -/
theorem sum_sq_dev (xs : List K) (c : K) :
    (xs.map (fun x => (x - c) ^ 2)).sum = (xs.map (fun x => x ^ 2)).sum - 2 * c * xs.sum + xs.length * c ^ 2 := by
  induction xs with
  | nil => simp
  | cons x xs ih =>
    simp only [List.map_cons, List.sum_cons, List.length_cons, Nat.cast_add, Nat.cast_one]
    rw [ih]; ring

section
variable [IsStrictOrderedRing K]

theorem foldl_min_le (xs : List K) : ∀ (a : K), xs.foldl min a ≤ a ∧ (∀ x ∈ xs, xs.foldl min a ≤ x) ∧
    (xs.foldl min a = a ∨ xs.foldl min a ∈ xs) := by
  induction xs with
  | nil => intro a; simp
  | cons x xs ih =>
    intro a
    obtain ⟨h1, h2, h3⟩ := ih (min a x)
    simp only [List.foldl_cons]
    refine ⟨le_trans h1 (min_le_left _ _), ?_, ?_⟩
    · intro y hy
      rcases List.mem_cons.1 hy with rfl | hy
      · exact le_trans h1 (min_le_right _ _)
      · exact h2 y hy
    · rcases h3 with h3 | h3
      · rcases min_choice a x with h | h
        · left; rw [h3, h]
        · right; rw [h3, h]; simp
      · right; simp [h3]

theorem foldl_max_ge (xs : List K) : ∀ (a : K), a ≤ xs.foldl max a ∧ (∀ x ∈ xs, x ≤ xs.foldl max a) ∧
    (xs.foldl max a = a ∨ xs.foldl max a ∈ xs) := by
  induction xs with
  | nil => intro a; simp
  | cons x xs ih =>
    intro a
    obtain ⟨h1, h2, h3⟩ := ih (max a x)
    simp only [List.foldl_cons]
    refine ⟨le_trans (le_max_left _ _) h1, ?_, ?_⟩
    · intro y hy
      rcases List.mem_cons.1 hy with rfl | hy
      · exact le_trans (le_max_right _ _) h1
      · exact h2 y hy
    · rcases h3 with h3 | h3
      · rcases max_choice a x with h | h
        · left; rw [h3, h]
        · right; rw [h3, h]; simp
      · right; simp [h3]

/-- What `Fit` computes on a non-empty column. -/
theorem minmax_fit_spec (lo hi : K) (s : MinMax K) (xs : List K) (hne : xs ≠ []) :
    ∃ m M : K, m ∈ xs ∧ M ∈ xs ∧ (∀ x ∈ xs, m ≤ x ∧ x ≤ M) ∧
      (MinMax.fit lo hi s xs).dmin = m ∧ (MinMax.fit lo hi s xs).dmax = M ∧
      (MinMax.fit lo hi s xs).scale = (hi - lo) / (if M - m = 0 then 1 else M - m) ∧
      (MinMax.fit lo hi s xs).shift = lo - m * (MinMax.fit lo hi s xs).scale := by
  cases xs with
  | nil => exact absurd rfl hne
  | cons x0 xs =>
    obtain ⟨h1, h2, h3⟩ := foldl_min_le (x0 :: xs) x0
    obtain ⟨g1, g2, g3⟩ := foldl_max_ge (x0 :: xs) x0
    refine ⟨(x0 :: xs).foldl min x0, (x0 :: xs).foldl max x0, ?_, ?_, fun x hx => ⟨h2 x hx, g2 x hx⟩, ?_, ?_, ?_, ?_⟩
    · rcases h3 with h3 | h3
      · rw [h3]; simp
      · exact h3
    · rcases g3 with g3 | g3
      · rw [g3]; simp
      · exact g3
    all_goals simp [MinMax.fit, MinMax.partialFit]

theorem minmax_partialFit_append (lo hi : K) (s : MinMax K) (xs ys : List K) (hne : xs ≠ []) :
    MinMax.partialFit lo hi (MinMax.partialFit lo hi s xs) ys = MinMax.partialFit lo hi s (xs ++ ys) := by
  cases xs with
  | nil => exact absurd rfl hne
  | cons x xs =>
    cases ys with
    | nil => rw [List.append_nil]; rfl
    | cons y ys =>
      have hsum : s.seen + (xs.length + 1) ≠ 0 := by omega
      simp only [MinMax.partialFit, List.cons_append, List.length_cons, hsum, if_false, List.foldl_cons, List.foldl_append,
        List.length_append]
      congr 1
      omega

theorem incCol_eq (xs : List K) (lm lv : K) (n : ℕ) :
    incCol xs lm lv n = ((lm * n + xs.sum) * (1 / ((n + xs.length : ℕ) : K)),
      (if n = 0 then (xs.map (fun x => (x - mean xs) ^ 2)).sum else
        lv * n + (xs.map (fun x => (x - mean xs) ^ 2)).sum + ((n / xs.length : K) / ((n + xs.length : ℕ) : K)) *
          ((1 / (n / xs.length : K)) * (lm * n) + xs.sum) ^ 2) * (1 / ((n + xs.length : ℕ) : K))) := by
  unfold incCol mean
  simp only [foldl_add_eq, zero_add]
  have : (fun x : K => (x - 1 / (xs.length : K) * xs.sum) * (x - 1 / (xs.length : K) * xs.sum)) =
      (fun x => (x - xs.sum / (xs.length : K)) ^ 2) := by
    funext x; rw [sq, one_div, div_eq_mul_inv, mul_comm xs.sum]
  rw [this]
  simp only [pow_two]

theorem pvar_eq (xs : List K) (hne : xs ≠ []) : pvar xs = (xs.map (fun x => x ^ 2)).sum / xs.length - mean xs ^ 2 := by
  have hn : (xs.length : K) ≠ 0 := by
    rw [Nat.cast_ne_zero]; exact fun h => hne (List.length_eq_zero_iff.1 h)
  unfold pvar
  rw [sum_sq_dev]
  unfold mean
  field_simp
  ring

theorem len_ne (xs : List K) (hne : xs ≠ []) : (xs.length : K) ≠ 0 := by
  rw [Nat.cast_ne_zero]; exact fun h => hne (List.length_eq_zero_iff.1 h)

theorem mean_map_affine (xs : List K) (hne : xs ≠ []) (m s : K) :
    mean (xs.map (fun x => (x - m) / s)) = (mean xs - m) / s := by
  have hn := len_ne xs hne
  unfold mean
  rw [List.length_map]
  have : (xs.map (fun x => (x - m) / s)).sum = (xs.sum - xs.length * m) / s := by
    clear hne hn
    induction xs with
    | nil => simp
    | cons x xs ih => simp only [List.map_cons, List.sum_cons, List.length_cons, Nat.cast_add, Nat.cast_one]; rw [ih]; ring
  rw [this]
  by_cases hs : s = 0
  · simp [hs]
  · field_simp

theorem pvar_map_affine (xs : List K) (hne : xs ≠ []) (m s : K) :
    pvar (xs.map (fun x => (x - m) / s)) = pvar xs / s ^ 2 := by
  unfold pvar
  rw [mean_map_affine xs hne, List.map_map, List.length_map]
  have : ∀ (l : List K) (c : K), (l.map ((fun x => (x - (c - m) / s) ^ 2) ∘ fun x => (x - m) / s)).sum = (l.map (fun x => (x - c) ^ 2)).sum / s ^ 2 := by
    intro l c
    induction l with
    | nil => simp
    | cons x l ih => rw [List.map_cons, List.sum_cons, ih, List.map_cons, List.sum_cons]; simp only [Function.comp]; ring
  rw [this]
  ring

theorem pvar_nonneg (xs : List K) : 0 ≤ pvar xs := by
  unfold pvar
  apply div_nonneg
  · apply List.sum_nonneg
    intro y hy
    obtain ⟨x, _, rfl⟩ := List.mem_map.1 hy
    positivity
  · exact Nat.cast_nonneg _

theorem pvar_eq_zero (xs : List K) (hne : xs ≠ []) (h : pvar xs = 0) : ∀ x ∈ xs, x = mean xs := by
  have hn := len_ne xs hne
  unfold pvar at h
  rw [div_eq_zero_iff] at h
  rcases h with h | h
  · intro x hx
    have hall : ∀ y ∈ xs.map (fun x => (x - mean xs) ^ 2), 0 ≤ y := by
      intro y hy
      obtain ⟨x, _, rfl⟩ := List.mem_map.1 hy
      positivity
    have := List.single_le_sum hall ((x - mean xs) ^ 2) (List.mem_map.2 ⟨x, hx, rfl⟩)
    rw [h] at this
    have h0 : (x - mean xs) ^ 2 = 0 := le_antisymm this (by positivity)
    have := pow_eq_zero_iff (two_ne_zero) |>.1 h0
    linarith
  · exact absurd h hn
end

end Sk.Scale
