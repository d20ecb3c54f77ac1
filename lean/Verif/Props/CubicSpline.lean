import Verif.Props.Interp1d
import Mathlib.Analysis.Calculus.Deriv.Pow
import Mathlib.Analysis.Calculus.Deriv.Mul
import Mathlib.Analysis.Calculus.Deriv.Add
import Mathlib.Analysis.Calculus.Deriv.Comp
import Mathlib.LinearAlgebra.Matrix.Gershgorin
import Mathlib.LinearAlgebra.Matrix.NonsingularInverse
import Mathlib.Analysis.Normed.Field.Lemmas
import Mathlib.Tactic.LinearCombination
import Mathlib.Tactic.Positivity

/-!
# Cubic splines: C58
-/
set_option autoImplicit false

namespace Sk.Interp

/-! ## One piece -/

theorem hasDeriv_of {f g : ℝ → ℝ} {a b x : ℝ} (h : HasDerivAt g b x) (hf : ∀ t, f t = g t) (ha : a = b) : HasDerivAt f a x := by
  subst ha
  rwa [show f = g from funext hf]

/-- First derivative of the cubic between two points. -/
noncomputable def cubic1 (x₀ x₁ y₀ y₁ k₀ k₁ x : ℝ) : ℝ :=
  let t := (x - x₀) / (x₁ - x₀)
  let a := k₀ * (x₁ - x₀) - (y₁ - y₀)
  let b := -k₁ * (x₁ - x₀) + (y₁ - y₀)
  ((y₁ - y₀) + (1 - 2 * t) * (a * (1 - t) + b * t) + t * (1 - t) * (b - a)) / (x₁ - x₀)

/-- Second derivative of the cubic between two points. -/
noncomputable def cubic2 (x₀ x₁ y₀ y₁ k₀ k₁ x : ℝ) : ℝ :=
  let t := (x - x₀) / (x₁ - x₀)
  let a := k₀ * (x₁ - x₀) - (y₁ - y₀)
  let b := -k₁ * (x₁ - x₀) + (y₁ - y₀)
  2 * (b - 2 * a + 3 * (a - b) * t) / ((x₁ - x₀) * (x₁ - x₀))

theorem lin_deriv (c h x : ℝ) : HasDerivAt (fun x : ℝ => (x - c) / h) (1 / h) x := ((hasDerivAt_id x).sub_const c).div_const h

theorem cubic_deriv (x₀ x₁ y₀ y₁ k₀ k₁ x : ℝ) : HasDerivAt (cubic x₀ x₁ y₀ y₁ k₀ k₁) (cubic1 x₀ x₁ y₀ y₁ k₀ k₁ x) x := by
  have ht := lin_deriv x₀ (x₁ - x₀) x
  set a := k₀ * (x₁ - x₀) - (y₁ - y₀)
  set b := -k₁ * (x₁ - x₀) + (y₁ - y₀)
  have h1t := ht.const_sub 1
  have h := ((h1t.mul_const y₀).add (ht.mul_const y₁)).add ((ht.mul h1t).mul ((h1t.const_mul a).add (ht.const_mul b)))
  refine hasDeriv_of h (fun t => rfl) ?_
  simp only [cubic1, Pi.mul_apply, Pi.add_apply]
  ring

theorem cubic1_deriv (x₀ x₁ y₀ y₁ k₀ k₁ x : ℝ) : HasDerivAt (cubic1 x₀ x₁ y₀ y₁ k₀ k₁) (cubic2 x₀ x₁ y₀ y₁ k₀ k₁ x) x := by
  have ht := lin_deriv x₀ (x₁ - x₀) x
  set a := k₀ * (x₁ - x₀) - (y₁ - y₀)
  set b := -k₁ * (x₁ - x₀) + (y₁ - y₀)
  have h1t := ht.const_sub 1
  have h := (((((ht.const_mul 2).const_sub 1).mul ((h1t.const_mul a).add (ht.const_mul b))).const_add (y₁ - y₀)).add ((ht.mul h1t).mul_const (b - a))).div_const (x₁ - x₀)
  refine hasDeriv_of h (fun t => rfl) ?_
  simp only [cubic2, Pi.mul_apply, Pi.add_apply]
  rw [div_mul_eq_div_div]
  ring

theorem cubic2_continuous (x₀ x₁ y₀ y₁ k₀ k₁ : ℝ) : Continuous (cubic2 x₀ x₁ y₀ y₁ k₀ k₁) := by
  unfold cubic2
  fun_prop

theorem cubic_left {K : Type} [Field K] (x₀ x₁ y₀ y₁ k₀ k₁ : K) : cubic x₀ x₁ y₀ y₁ k₀ k₁ x₀ = y₀ := by
  simp [cubic]

theorem cubic_right {K : Type} [Field K] (x₀ x₁ y₀ y₁ k₀ k₁ : K) (h : x₁ - x₀ ≠ 0) : cubic x₀ x₁ y₀ y₁ k₀ k₁ x₁ = y₁ := by
  simp [cubic, div_self h]

theorem cubic1_left (x₀ x₁ y₀ y₁ k₀ k₁ : ℝ) (h : x₁ - x₀ ≠ 0) : cubic1 x₀ x₁ y₀ y₁ k₀ k₁ x₀ = k₀ := by
  simp [cubic1]
  field_simp

theorem cubic1_right (x₀ x₁ y₀ y₁ k₀ k₁ : ℝ) (h : x₁ - x₀ ≠ 0) : cubic1 x₀ x₁ y₀ y₁ k₀ k₁ x₁ = k₁ := by
  simp [cubic1, div_self h]
  field_simp
  ring

/-! ## Pieces glued together -/

/-- A function given by one expression per segment. -/
noncomputable def glue (xs : List ℝ) (P : ℕ → ℝ → ℝ) (x : ℝ) : ℝ := P (segment xs x xs.length 1) x

theorem segment_spec {K : Type} [Field K] [LinearOrder K] (xs : List K) (x : K) (fuel m : ℕ) (hm : m ≤ xs.length - 1) (hf : xs.length - 1 - m ≤ fuel) :
    m ≤ segment xs x fuel m ∧ segment xs x fuel m ≤ xs.length - 1 ∧ (∀ e, m ≤ e → e < segment xs x fuel m → xs.getD e 0 < x) ∧ (segment xs x fuel m = xs.length - 1 ∨ x ≤ xs.getD (segment xs x fuel m) 0) := by
  induction fuel generalizing m with
  | zero =>
    unfold segment
    exact ⟨le_refl _, hm, fun e h1 h2 => by omega, Or.inl (by omega)⟩
  | succ fuel ih =>
    unfold segment
    split
    · rename_i h
      obtain ⟨h1, h2, h3, h4⟩ := ih (m + 1) (by omega) (by omega)
      refine ⟨by omega, h2, fun e he1 he2 => ?_, h4⟩
      rcases Nat.lt_or_ge m e with h5 | h5
      · exact h3 e h5 he2
      · have : e = m := by omega
        subst this
        exact h.2
    · rename_i h
      refine ⟨le_refl _, hm, fun e h1 h2 => by omega, ?_⟩
      rcases Nat.lt_or_ge m (xs.length - 1) with h5 | h5
      · right
        exact not_lt.mp (fun g => h ⟨h5, g⟩)
      · left
        omega

theorem getD_lt {K : Type} [Field K] [LinearOrder K] {xs : List K} (hs : xs.Pairwise (· < ·)) {i j : ℕ} (hij : i < j) (hj : j < xs.length) : xs.getD i 0 < xs.getD j 0 := by
  rw [List.getD_eq_getElem?_getD, List.getD_eq_getElem?_getD, List.getElem?_eq_getElem hj, List.getElem?_eq_getElem (by omega : i < xs.length)]
  exact List.pairwise_iff_getElem.mp hs i j (by omega) hj hij

theorem segment_eq {K : Type} [Field K] [LinearOrder K] {xs : List K} (hs : xs.Pairwise (· < ·)) {x : K} {j : ℕ} (h1 : 1 ≤ j) (h2 : j ≤ xs.length - 1) (hl : j = 1 ∨ xs.getD (j - 1) 0 < x)
    (hr : j = xs.length - 1 ∨ x ≤ xs.getD j 0) : segment xs x xs.length 1 = j := by
  obtain ⟨s1, s2, s3, s4⟩ := segment_spec xs x xs.length 1 (by omega) (by omega)
  rcases Nat.lt_trichotomy (segment xs x xs.length 1) j with h | h | h
  · have hx : xs.getD (j - 1) 0 < x := hl.resolve_left (by omega)
    have hle := s4.resolve_left (by omega)
    rcases Nat.lt_or_ge (segment xs x xs.length 1) (j - 1) with g | g
    · have := getD_lt hs g (by omega)
      exact absurd (lt_of_lt_of_le (lt_trans this hx) hle) (lt_irrefl _)
    · have : segment xs x xs.length 1 = j - 1 := by omega
      rw [this] at hle
      exact absurd hx (not_lt.mpr hle)
  · exact h
  · have hx := s3 j h1 h
    exact absurd hx (not_lt.mpr (hr.resolve_left (by omega)))

/-- Left of the end of segment `j`, and near it, the glued function is piece `j`. -/
theorem glue_cases (xs : List ℝ) (hs : xs.Pairwise (· < ·)) (hn : 2 ≤ xs.length) (x₀ : ℝ) :
    (∃ j, 1 ≤ j ∧ j ≤ xs.length - 1 ∧ segment xs x₀ xs.length 1 = j ∧ ∀ᶠ x in nhds x₀, segment xs x xs.length 1 = j) ∨
    (∃ j, 1 ≤ j ∧ j + 1 ≤ xs.length - 1 ∧ x₀ = xs.getD j 0 ∧ segment xs x₀ xs.length 1 = j ∧ (∀ᶠ x in nhds x₀, x ≤ x₀ → segment xs x xs.length 1 = j) ∧
      ∀ᶠ x in nhds x₀, x₀ < x → segment xs x xs.length 1 = j + 1) := by
  obtain ⟨s1, s2, s3, s4⟩ := segment_spec xs x₀ xs.length 1 (by omega) (by omega)
  generalize hj : segment xs x₀ xs.length 1 = j at *
  have hleft : ∀ᶠ x in nhds x₀, j = 1 ∨ xs.getD (j - 1) 0 < x := by
    rcases Nat.lt_or_ge 1 j with h | h
    · filter_upwards [lt_mem_nhds (s3 (j - 1) (by omega) (by omega))] with x hx
      exact Or.inr hx
    · exact Filter.Eventually.of_forall (fun x => Or.inl (by omega))
  rcases Nat.lt_or_ge j (xs.length - 1) with hlt | hge
  · have hle := s4.resolve_left (by omega)
    rcases hle.eq_or_lt with he | hl
    · right
      refine ⟨j, s1, by omega, he, rfl, ?_, ?_⟩
      · filter_upwards [hleft] with x hx hxx
        exact segment_eq hs s1 s2 hx (Or.inr (le_trans hxx he.le))
      · have : ∀ᶠ x in nhds x₀, x < xs.getD (j + 1) 0 := gt_mem_nhds (by rw [he]; exact getD_lt hs (by omega) (by omega))
        filter_upwards [this] with x hx hxx
        exact segment_eq hs (by omega) (by omega) (Or.inr (by rw [Nat.add_sub_cancel, ← he]; exact hxx)) (Or.inr hx.le)
    · left
      refine ⟨j, s1, s2, rfl, ?_⟩
      filter_upwards [hleft, gt_mem_nhds hl] with x h1 h2
      exact segment_eq hs s1 s2 h1 (Or.inr h2.le)
  · left
    refine ⟨j, s1, s2, rfl, ?_⟩
    filter_upwards [hleft] with x h1
    exact segment_eq hs s1 s2 h1 (Or.inl (by omega))

theorem glue_deriv (xs : List ℝ) (hs : xs.Pairwise (· < ·)) (hn : 2 ≤ xs.length) (P D : ℕ → ℝ → ℝ) (hd : ∀ j, 1 ≤ j → j ≤ xs.length - 1 → ∀ x, HasDerivAt (P j) (D j x) x)
    (hP : ∀ j, 1 ≤ j → j + 1 ≤ xs.length - 1 → P j (xs.getD j 0) = P (j + 1) (xs.getD j 0)) (hD : ∀ j, 1 ≤ j → j + 1 ≤ xs.length - 1 → D j (xs.getD j 0) = D (j + 1) (xs.getD j 0)) (x₀ : ℝ) :
    HasDerivAt (glue xs P) (glue xs D x₀) x₀ := by
  rcases glue_cases xs hs hn x₀ with ⟨j, h1, h2, hj, hev⟩ | ⟨j, h1, h2, hx, hj, hl, hr⟩
  · unfold glue
    rw [hj]
    refine (hd j h1 h2 x₀).congr_of_eventuallyEq ?_
    filter_upwards [hev] with x hx
    rw [hx]
  · have hval : glue xs D x₀ = D j x₀ := by
      unfold glue
      rw [hj]
    rw [hval]
    have hL : HasDerivWithinAt (glue xs P) (D j x₀) (Set.Iic x₀) x₀ := by
      refine (hd j h1 (by omega) x₀).hasDerivWithinAt.congr_of_eventuallyEq ?_ ?_
      · filter_upwards [mem_nhdsWithin_of_mem_nhds hl, self_mem_nhdsWithin] with x h3 h4
        unfold glue
        rw [h3 h4]
      · unfold glue
        rw [hj]
    have hR : HasDerivWithinAt (glue xs P) (D j x₀) (Set.Ici x₀) x₀ := by
      have : D j x₀ = D (j + 1) x₀ := by
        rw [hx]
        exact hD j h1 h2
      rw [this]
      refine (hd (j + 1) (by omega) h2 x₀).hasDerivWithinAt.congr_of_eventuallyEq ?_ ?_
      · filter_upwards [mem_nhdsWithin_of_mem_nhds hr, self_mem_nhdsWithin] with x h3 h4
        unfold glue
        rcases (show x₀ ≤ x from h4).eq_or_lt with h5 | h5
        · rw [← h5, hj, hx]
          exact hP j h1 h2
        · rw [h3 h5]
      · unfold glue
        rw [hj, hx]
        exact hP j h1 h2
    have := hL.union hR
    rw [Set.Iic_union_Ici] at this
    exact hasDerivWithinAt_univ.mp this

theorem glue_continuous (xs : List ℝ) (hs : xs.Pairwise (· < ·)) (hn : 2 ≤ xs.length) (P : ℕ → ℝ → ℝ) (hc : ∀ j, Continuous (P j))
    (hP : ∀ j, 1 ≤ j → j + 1 ≤ xs.length - 1 → P j (xs.getD j 0) = P (j + 1) (xs.getD j 0)) : Continuous (glue xs P) := by
  rw [continuous_iff_continuousAt]
  intro x₀
  rcases glue_cases xs hs hn x₀ with ⟨j, h1, h2, hj, hev⟩ | ⟨j, h1, h2, hx, hj, hl, hr⟩
  · refine ((hc j).continuousAt).congr ?_
    filter_upwards [hev] with x hx
    unfold glue
    rw [hx]
  · have hL : ContinuousWithinAt (glue xs P) (Set.Iic x₀) x₀ := by
      refine ((hc j).continuousWithinAt).congr_of_eventuallyEq ?_ ?_
      · filter_upwards [mem_nhdsWithin_of_mem_nhds hl, self_mem_nhdsWithin] with x h3 h4
        unfold glue
        rw [h3 h4]
      · unfold glue
        rw [hj]
    have hR : ContinuousWithinAt (glue xs P) (Set.Ici x₀) x₀ := by
      refine ((hc (j + 1)).continuousWithinAt).congr_of_eventuallyEq ?_ ?_
      · filter_upwards [mem_nhdsWithin_of_mem_nhds hr, self_mem_nhdsWithin] with x h3 h4
        unfold glue
        rcases (show x₀ ≤ x from h4).eq_or_lt with h5 | h5
        · rw [← h5, hj, hx]
          exact hP j h1 h2
        · rw [h3 h5]
      · unfold glue
        rw [hj, hx]
        exact hP j h1 h2
    have := hL.union hR
    rw [Set.Iic_union_Ici] at this
    exact (continuousWithinAt_univ _ _).mp this

/-! ## The linear system -/

theorem band_zero {K : Type} [Field K] (xs : List K) (n i j : ℕ) (h1 : j ≠ i) (h2 : j ≠ i + 1) (h3 : i ≠ j + 1) : bandA xs n i j = 0 := by
  unfold bandA
  simp only []
  rw [if_neg (Ne.symm h1), if_neg h2, if_neg h3]

theorem band_row_first {K : Type} [Field K] (xs : List K) (k : ℕ → K) (n : ℕ) (hn : 1 ≤ n) :
    ∑ j ∈ Finset.range (n + 1), bandA xs n 0 j * k j = (2 * k 0 + k 1) / (xs.getD 1 0 - xs.getD 0 0) := by
  rw [← Finset.sum_subset (s₁ := {0, 1}) (by intro a ha; simp at ha ⊢; omega)
    (by intro a _ ha; simp at ha; rw [band_zero xs n 0 a (by omega) (by omega) (by omega), zero_mul])]
  rw [Finset.sum_pair (by omega)]
  simp [bandA]
  ring

theorem band_row_last {K : Type} [Field K] (xs : List K) (k : ℕ → K) (n : ℕ) :
    ∑ j ∈ Finset.range (n + 2), bandA xs (n + 1) (n + 1) j * k j = (k n + 2 * k (n + 1)) / (xs.getD (n + 1) 0 - xs.getD n 0) := by
  rw [← Finset.sum_subset (s₁ := {n, n + 1}) (by intro a ha; simp at ha ⊢; omega)
    (by intro a ha' ha; simp at ha ha'; rw [band_zero xs (n + 1) (n + 1) a (by omega) (by omega) (by omega), zero_mul])]
  rw [Finset.sum_pair (by omega)]
  have e : n ≠ n + 1 + 1 := by omega
  simp [bandA, e]
  ring

theorem band_row_mid {K : Type} [Field K] (xs : List K) (k : ℕ → K) (n i : ℕ) (hi : i + 1 < n) :
    ∑ j ∈ Finset.range (n + 1), bandA xs n (i + 1) j * k j = (k i + 2 * k (i + 1)) / (xs.getD (i + 1) 0 - xs.getD i 0) + (2 * k (i + 1) + k (i + 2)) / (xs.getD (i + 2) 0 - xs.getD (i + 1) 0) := by
  rw [← Finset.sum_subset (s₁ := {i, i + 1, i + 2}) (by intro a ha; simp at ha ⊢; omega)
    (by intro a ha' ha; simp at ha ha'; rw [band_zero xs n (i + 1) a (by omega) (by omega) (by omega), zero_mul])]
  rw [Finset.sum_insert (by simp), Finset.sum_pair (by omega)]
  have : i + 1 ≠ n := by omega
  have e : i ≠ i + 1 + 1 := by omega
  simp [bandA, this, e]
  ring

/-! ## The spline -/

variable (xs ys ks : List ℝ)

noncomputable def pc0 (j : ℕ) : ℝ → ℝ := cubic (xs.getD (j - 1) 0) (xs.getD j 0) (ys.getD (j - 1) 0) (ys.getD j 0) (ks.getD (j - 1) 0) (ks.getD j 0)
noncomputable def pc1 (j : ℕ) : ℝ → ℝ := cubic1 (xs.getD (j - 1) 0) (xs.getD j 0) (ys.getD (j - 1) 0) (ys.getD j 0) (ks.getD (j - 1) 0) (ks.getD j 0)
noncomputable def pc2 (j : ℕ) : ℝ → ℝ := cubic2 (xs.getD (j - 1) 0) (xs.getD j 0) (ys.getD (j - 1) 0) (ys.getD j 0) (ks.getD (j - 1) 0) (ks.getD j 0)

variable {xs ys ks}

theorem gap_ne (hs : xs.Pairwise (· < ·)) {j : ℕ} (h1 : 1 ≤ j) (h2 : j ≤ xs.length - 1) : xs.getD j 0 - xs.getD (j - 1) 0 ≠ 0 :=
  sub_ne_zero.mpr (getD_lt hs (by omega) (by omega)).ne'

/-- The piece in force at a knot agrees there with a value shared by both neighbouring pieces. -/
theorem glue_knot (hs : xs.Pairwise (· < ·)) (hn : 2 ≤ xs.length) (P : ℕ → ℝ → ℝ) (v : ℕ → ℝ) (hl : ∀ j, 1 ≤ j → j ≤ xs.length - 1 → P j (xs.getD (j - 1) 0) = v (j - 1))
    (hr : ∀ j, 1 ≤ j → j ≤ xs.length - 1 → P j (xs.getD j 0) = v j) (i : ℕ) (hi : i < xs.length) : glue xs P (xs.getD i 0) = v i := by
  unfold glue
  rcases Nat.eq_zero_or_pos i with h | h
  · subst h
    rw [segment_eq hs (j := 1) (le_refl _) (by omega) (Or.inl rfl) (Or.inr (getD_lt hs (by omega) (by omega)).le)]
    exact hl 1 (le_refl _) (by omega)
  · rw [segment_eq hs (j := i) h (by omega) (Or.inr (getD_lt hs (by omega) hi)) (Or.inr (le_refl _))]
    exact hr i h (by omega)

theorem second_match (hs : xs.Pairwise (· < ·)) (hsol : Solves xs ys ks) (j : ℕ) (h1 : 1 ≤ j) (h2 : j + 1 ≤ xs.length - 1) :
    pc2 xs ys ks j (xs.getD j 0) = pc2 xs ys ks (j + 1) (xs.getD j 0) := by
  obtain ⟨i, rfl⟩ : ∃ i, j = i + 1 := ⟨j - 1, by omega⟩
  have he := hsol.2 (i + 1) (by omega)
  obtain ⟨n, hn⟩ : ∃ n, xs.length = n + 1 := ⟨xs.length - 1, by omega⟩
  rw [hn, Nat.add_sub_cancel, band_row_mid xs (fun j => ks.getD j 0) n i (by omega)] at he
  unfold rhsB at he
  simp only [] at he
  rw [if_neg (by omega), if_neg (by omega)] at he
  have hg := gap_ne hs (j := i + 1) (by omega) (by omega)
  have hg' := gap_ne hs (j := i + 2) (by omega) (by omega)
  simp only [Nat.add_sub_cancel, show i + 2 - 1 = i + 1 from rfl] at hg hg' he
  unfold pc2 cubic2
  simp only [Nat.add_sub_cancel, show i + 1 + 1 = i + 2 from rfl, show i + 2 - 1 = i + 1 from rfl, sub_self, zero_div, div_self hg] at he ⊢
  generalize xs.getD (i + 1) 0 - xs.getD i 0 = h at *
  generalize xs.getD (i + 2) 0 - xs.getD (i + 1) 0 = h' at *
  generalize ys.getD (i + 1) 0 - ys.getD i 0 = d at *
  generalize ys.getD (i + 2) 0 - ys.getD (i + 1) 0 = d' at *
  generalize ks.getD i 0 = a at *
  generalize ks.getD (i + 1) 0 = b at *
  generalize ks.getD (i + 2) 0 = c at *
  field_simp at he ⊢
  linear_combination he

theorem second_first (hs : xs.Pairwise (· < ·)) (hn : 2 ≤ xs.length) (hsol : Solves xs ys ks) : pc2 xs ys ks 1 (xs.getD 0 0) = 0 := by
  have he := hsol.2 0 (by omega)
  obtain ⟨n, hn'⟩ : ∃ n, xs.length = n + 1 := ⟨xs.length - 1, by omega⟩
  rw [hn', Nat.add_sub_cancel, band_row_first xs (fun j => ks.getD j 0) n (by omega)] at he
  unfold rhsB at he
  simp only [] at he
  rw [if_pos trivial] at he
  have hg := gap_ne hs (j := 1) (by omega) (by omega)
  simp only [Nat.sub_self, zero_add] at hg he
  unfold pc2 cubic2
  simp only [Nat.sub_self, sub_self, zero_div]
  generalize xs.getD 1 0 - xs.getD 0 0 = h at *
  generalize ys.getD 1 0 - ys.getD 0 0 = d at *
  generalize ks.getD 0 0 = a at *
  generalize ks.getD 1 0 = b at *
  field_simp at he ⊢
  linear_combination -2 * he

theorem second_last (hs : xs.Pairwise (· < ·)) (hn : 2 ≤ xs.length) (hsol : Solves xs ys ks) : pc2 xs ys ks (xs.length - 1) (xs.getD (xs.length - 1) 0) = 0 := by
  have he := hsol.2 (xs.length - 1) (by omega)
  obtain ⟨n, hn'⟩ : ∃ n, xs.length = n + 2 := ⟨xs.length - 2, by omega⟩
  have hg := gap_ne hs (j := n + 1) (by omega) (by omega)
  rw [hn', show n + 2 - 1 = n + 1 from rfl, band_row_last xs (fun j => ks.getD j 0) n] at he
  unfold rhsB at he
  simp only [] at he
  rw [if_neg (by omega), if_pos trivial] at he
  rw [hn', show n + 2 - 1 = n + 1 from rfl]
  simp only [Nat.add_sub_cancel] at hg he
  unfold pc2 cubic2
  simp only [Nat.add_sub_cancel, div_self hg]
  generalize xs.getD (n + 1) 0 - xs.getD n 0 = h at *
  generalize ys.getD (n + 1) 0 - ys.getD n 0 = d at *
  generalize ks.getD n 0 = a at *
  generalize ks.getD (n + 1) 0 = b at *
  field_simp at he ⊢
  linear_combination 2 * he

/-- A twice continuously differentiable function through the given points whose second derivative vanishes at the smallest and the greatest abscissa: an interpolating natural spline, as far as smoothness goes. -/
def NaturalThrough (pts : List (ℝ × ℝ)) (f : ℝ → ℝ) : Prop :=
  (∀ p ∈ pts, f p.1 = p.2) ∧
  ∃ f' f'' : ℝ → ℝ, (∀ x, HasDerivAt f (f' x) x) ∧ (∀ x, HasDerivAt f' (f'' x) x) ∧ Continuous f'' ∧
    ∀ p ∈ pts, (∀ q ∈ pts, p.1 ≤ q.1) ∨ (∀ q ∈ pts, q.1 ≤ p.1) → f'' p.1 = 0

/-- Between neighbouring abscissae the function is one polynomial of degree at most three. -/
def PiecewiseCubic (pts : List (ℝ × ℝ)) (f : ℝ → ℝ) : Prop :=
  ∀ p ∈ pts, ∀ q ∈ pts, p.1 < q.1 → (∀ r ∈ pts, ¬ (p.1 < r.1 ∧ r.1 < q.1)) → ∃ c₀ c₁ c₂ c₃ : ℝ, ∀ x, p.1 ≤ x → x ≤ q.1 → f x = c₀ + c₁ * x + c₂ * x ^ 2 + c₃ * x ^ 3

theorem spline_glue : spline xs ys ks = glue xs (pc0 xs ys ks) := rfl

theorem pc0_left (hs : xs.Pairwise (· < ·)) (j : ℕ) (_ : 1 ≤ j) (_ : j ≤ xs.length - 1) : pc0 xs ys ks j (xs.getD (j - 1) 0) = ys.getD (j - 1) 0 := cubic_left _ _ _ _ _ _
theorem pc0_right (hs : xs.Pairwise (· < ·)) (j : ℕ) (h1 : 1 ≤ j) (h2 : j ≤ xs.length - 1) : pc0 xs ys ks j (xs.getD j 0) = ys.getD j 0 := cubic_right _ _ _ _ _ _ (gap_ne hs h1 h2)
theorem pc1_left (hs : xs.Pairwise (· < ·)) (j : ℕ) (h1 : 1 ≤ j) (h2 : j ≤ xs.length - 1) : pc1 xs ys ks j (xs.getD (j - 1) 0) = ks.getD (j - 1) 0 := cubic1_left _ _ _ _ _ _ (gap_ne hs h1 h2)
theorem pc1_right (hs : xs.Pairwise (· < ·)) (j : ℕ) (h1 : 1 ≤ j) (h2 : j ≤ xs.length - 1) : pc1 xs ys ks j (xs.getD j 0) = ks.getD j 0 := cubic1_right _ _ _ _ _ _ (gap_ne hs h1 h2)

theorem spline_deriv (hs : xs.Pairwise (· < ·)) (hn : 2 ≤ xs.length) (x : ℝ) : HasDerivAt (spline xs ys ks) (glue xs (pc1 xs ys ks) x) x := by
  rw [spline_glue]
  refine glue_deriv xs hs hn _ _ (fun j _ _ x => cubic_deriv _ _ _ _ _ _ x) (fun j h1 h2 => ?_) (fun j h1 h2 => ?_) x
  · exact (pc0_right hs j h1 (by omega)).trans (pc0_left hs (j + 1) (by omega) h2).symm
  · exact (pc1_right hs j h1 (by omega)).trans (pc1_left hs (j + 1) (by omega) h2).symm

theorem mem_zip_getD (hl : xs.length = ys.length) {p : ℝ × ℝ} : p ∈ xs.zip ys ↔ ∃ i, i < xs.length ∧ p = (xs.getD i 0, ys.getD i 0) := by
  constructor
  · intro h
    obtain ⟨i, hi, e⟩ := List.getElem_of_mem h
    rw [List.length_zip] at hi
    refine ⟨i, by omega, ?_⟩
    rw [List.getElem_zip] at e
    rw [← e, List.getD_eq_getElem?_getD, List.getD_eq_getElem?_getD, List.getElem?_eq_getElem (by omega : i < xs.length), List.getElem?_eq_getElem (by omega : i < ys.length)]
    rfl
  · rintro ⟨i, hi, rfl⟩
    rw [List.getD_eq_getElem?_getD, List.getD_eq_getElem?_getD, List.getElem?_eq_getElem hi, List.getElem?_eq_getElem (by omega : i < ys.length)]
    have : i < (xs.zip ys).length := by rw [List.length_zip]; omega
    have e : (xs.zip ys)[i] = (xs[i], ys[i]) := List.getElem_zip
    exact e ▸ List.getElem_mem this

theorem spline_natural (hs : xs.Pairwise (· < ·)) (hn : 2 ≤ xs.length) (hl : xs.length = ys.length) (hsol : Solves xs ys ks) : NaturalThrough (xs.zip ys) (spline xs ys ks) := by
  constructor
  · intro p hp
    obtain ⟨i, hi, rfl⟩ := (mem_zip_getD hl).mp hp
    exact glue_knot hs hn (pc0 xs ys ks) (fun i => ys.getD i 0) (pc0_left hs) (pc0_right hs) i hi
  · refine ⟨glue xs (pc1 xs ys ks), glue xs (pc2 xs ys ks), spline_deriv hs hn, ?_, ?_, ?_⟩
    · intro x
      refine glue_deriv xs hs hn _ _ (fun j _ _ x => cubic1_deriv _ _ _ _ _ _ x) (fun j h1 h2 => ?_) (second_match hs hsol) x
      exact (pc1_right hs j h1 (by omega)).trans (pc1_left hs (j + 1) (by omega) h2).symm
    · exact glue_continuous xs hs hn _ (fun j => cubic2_continuous _ _ _ _ _ _) (second_match hs hsol)
    · intro p hp hend
      obtain ⟨i, hi, rfl⟩ := (mem_zip_getD hl).mp hp
      have hmem : ∀ j, j < xs.length → (xs.getD j 0, ys.getD j 0) ∈ xs.zip ys := fun j hj => (mem_zip_getD hl).mpr ⟨j, hj, rfl⟩
      unfold glue
      rcases hend with h | h
      · have : i = 0 := by
          by_contra hne
          exact absurd (h _ (hmem 0 (by omega))) (not_le.mpr (getD_lt hs (by omega) hi))
        subst this
        simp only []
        rw [segment_eq hs (j := 1) (le_refl _) (by omega) (Or.inl rfl) (Or.inr (getD_lt hs (by omega) (by omega)).le)]
        exact second_first hs hn hsol
      · have : i = xs.length - 1 := by
          by_contra hne
          exact absurd (h _ (hmem (xs.length - 1) (by omega))) (not_le.mpr (getD_lt hs (by omega) (by omega)))
        subst this
        simp only []
        rw [segment_eq hs (j := xs.length - 1) (by omega) (le_refl _) (Or.inr (getD_lt hs (by omega) hi)) (Or.inl rfl)]
        exact second_last hs hn hsol

theorem cubic_poly (x₀ x₁ y₀ y₁ k₀ k₁ : ℝ) : ∃ c₀ c₁ c₂ c₃ : ℝ, ∀ x, cubic x₀ x₁ y₀ y₁ k₀ k₁ x = c₀ + c₁ * x + c₂ * x ^ 2 + c₃ * x ^ 3 := by
  obtain ⟨r, hr⟩ : ∃ r, r = (x₁ - x₀)⁻¹ := ⟨_, rfl⟩
  obtain ⟨s, hs⟩ : ∃ s, s = -x₀ * r := ⟨_, rfl⟩
  obtain ⟨a, ha⟩ : ∃ a, a = k₀ * (x₁ - x₀) - (y₁ - y₀) := ⟨_, rfl⟩
  obtain ⟨b, hb⟩ : ∃ b, b = -k₁ * (x₁ - x₀) + (y₁ - y₀) := ⟨_, rfl⟩
  -- with t = r x + s the value is y₀ + (y₁ - y₀ + a) t + (b - 2 a) t² + (a - b) t³
  refine ⟨y₀ + (y₁ - y₀ + a) * s + (b - 2 * a) * s ^ 2 + (a - b) * s ^ 3, (y₁ - y₀ + a) * r + 2 * (b - 2 * a) * r * s + 3 * (a - b) * r * s ^ 2,
    (b - 2 * a) * r ^ 2 + 3 * (a - b) * r ^ 2 * s, (a - b) * r ^ 3, fun x => ?_⟩
  have ht : (x - x₀) / (x₁ - x₀) = r * x + s := by
    rw [hs, hr, div_eq_mul_inv]
    ring
  unfold cubic
  simp only [← ha, ← hb, ht]
  ring

theorem spline_piecewise (hs : xs.Pairwise (· < ·)) (hn : 2 ≤ xs.length) (hl : xs.length = ys.length) : PiecewiseCubic (xs.zip ys) (spline xs ys ks) := by
  intro p hp q hq hlt hno
  obtain ⟨i, hi, rfl⟩ := (mem_zip_getD hl).mp hp
  obtain ⟨j, hj, rfl⟩ := (mem_zip_getD hl).mp hq
  simp only [] at hlt hno ⊢
  have hij : j = i + 1 := by
    rcases Nat.lt_trichotomy j (i + 1) with h | h | h
    · rcases Nat.lt_or_ge j i with h' | h'
      · exact absurd (getD_lt hs h' hi) (not_lt.mpr hlt.le)
      · have : j = i := by omega
        rw [this] at hlt
        exact absurd hlt (lt_irrefl _)
    · exact h
    · exact absurd ⟨getD_lt hs (Nat.lt_succ_self i) (by omega), getD_lt hs h hj⟩ (hno _ ((mem_zip_getD hl).mpr ⟨i + 1, by omega, rfl⟩))
  subst hij
  obtain ⟨c₀, c₁, c₂, c₃, hc⟩ := cubic_poly (xs.getD i 0) (xs.getD (i + 1) 0) (ys.getD i 0) (ys.getD (i + 1) 0) (ks.getD i 0) (ks.getD (i + 1) 0)
  refine ⟨c₀, c₁, c₂, c₃, fun x h1 h2 => ?_⟩
  rw [← hc x]
  rcases h1.eq_or_lt with h | h
  · rw [← h, cubic_left]
    exact glue_knot hs hn (pc0 xs ys ks) (fun i => ys.getD i 0) (pc0_left hs) (pc0_right hs) i hi
  · unfold spline
    simp only []
    rw [segment_eq hs (j := i + 1) (by omega) (by omega) (Or.inr h) (Or.inr h2)]
    rfl

/-- What gonum's solver is trusted to do: on every system `CubicSpline` builds for strictly increasing abscissae it returns a solution. -/
def SolverOK (solve : List ℝ → List ℝ → List ℝ) : Prop := ∀ xs ys : List ℝ, 2 ≤ xs.length → xs.length = ys.length → xs.Pairwise (· < ·) → Solves xs ys (solve xs ys)

theorem sorted_lists {srt : List (ℝ × ℝ) → List (ℝ × ℝ)} (hsrt : ValidSort srt) (xs ys : List ℝ) (hl : xs.length = ys.length) (hd : Distinct (xs.zip ys)) :
    ∃ us vs : List ℝ, (if xs.Pairwise (· ≤ ·) then xs.zip ys else srt (xs.zip ys)).map Prod.fst = us ∧ (if xs.Pairwise (· ≤ ·) then xs.zip ys else srt (xs.zip ys)).map Prod.snd = vs ∧
      us.length = xs.length ∧ us.length = vs.length ∧ us.Pairwise (· < ·) ∧ (us.zip vs).Perm (xs.zip ys) := by
  obtain ⟨hp, hs⟩ := sorted_points hsrt xs ys hl hd
  generalize (if xs.Pairwise (· ≤ ·) then xs.zip ys else srt (xs.zip ys)) = pts at *
  refine ⟨_, _, rfl, rfl, ?_, by simp, ?_, ?_⟩
  · rw [List.length_map, hp.length_eq, List.length_zip]
    omega
  · rw [List.pairwise_map]
    exact hs
  · rw [show (pts.map Prod.fst).zip (pts.map Prod.snd) = pts from ?_]
    · exact hp
    · induction pts with
      | nil => rfl
      | cons a l ih => simp [List.zip_map']

theorem natural_perm {p q : List (ℝ × ℝ)} (h : p.Perm q) {f : ℝ → ℝ} (hf : NaturalThrough p f) : NaturalThrough q f := by
  obtain ⟨h1, f', f'', h2, h3, h4, h5⟩ := hf
  refine ⟨fun a ha => h1 a (h.mem_iff.mpr ha), f', f'', h2, h3, h4, fun a ha he => h5 a (h.mem_iff.mpr ha) ?_⟩
  exact he.imp (fun g b hb => g b (h.mem_iff.mp hb)) (fun g b hb => g b (h.mem_iff.mp hb))

theorem piecewise_perm {p q : List (ℝ × ℝ)} (h : p.Perm q) {f : ℝ → ℝ} (hf : PiecewiseCubic p f) : PiecewiseCubic q f :=
  fun a ha b hb hlt hno => hf a (h.mem_iff.mpr ha) b (h.mem_iff.mpr hb) hlt (fun r hr => hno r (h.mem_iff.mp hr))

/-- C58.  For at least two points with distinct abscissae, given in any order, `CubicSpline` returns a function that passes through every point, is twice continuously differentiable on the whole line,
has zero second derivative at the smallest and at the greatest abscissa, and is a cubic polynomial between neighbouring abscissae. -/
theorem C58_spline {srt : List (ℝ × ℝ) → List (ℝ × ℝ)} (hsrt : ValidSort srt) {solve : List ℝ → List ℝ → List ℝ} (hsol : SolverOK solve) (xs ys : List ℝ) (hl : xs.length = ys.length) (hn : 2 ≤ xs.length)
    (hd : Distinct (xs.zip ys)) : ∃ f, cubicSpline srt solve xs ys = some f ∧ NaturalThrough (xs.zip ys) f ∧ PiecewiseCubic (xs.zip ys) f := by
  obtain ⟨us, vs, e1, e2, h1, h2, h3, h4⟩ := sorted_lists hsrt xs ys hl hd
  refine ⟨spline us vs (solve us vs), ?_, ?_, ?_⟩
  · unfold cubicSpline
    rw [if_neg (by omega)]
    simp only [e1, e2]
  · exact natural_perm h4 (spline_natural h3 (by omega) h2 (hsol us vs (by omega) h2 h3))
  · exact piecewise_perm h4 (spline_piecewise h3 (by omega) h2)

/-- Whatever slopes the solver returns, accurate or not, the curve passes through every point, has a derivative everywhere, and that derivative is continuous and takes the returned slopes at the abscissae. -/
theorem C58_any_slopes {srt : List (ℝ × ℝ) → List (ℝ × ℝ)} (hsrt : ValidSort srt) (solve : List ℝ → List ℝ → List ℝ) (xs ys : List ℝ) (hl : xs.length = ys.length) (hn : 2 ≤ xs.length)
    (hd : Distinct (xs.zip ys)) : ∃ f f', cubicSpline srt solve xs ys = some f ∧ (∀ p ∈ xs.zip ys, f p.1 = p.2) ∧ (∀ x, HasDerivAt f (f' x) x) ∧ Continuous f' ∧ PiecewiseCubic (xs.zip ys) f := by
  obtain ⟨us, vs, e1, e2, h1, h2, h3, h4⟩ := sorted_lists hsrt xs ys hl hd
  refine ⟨spline us vs (solve us vs), glue us (pc1 us vs (solve us vs)), ?_, ?_, ?_, ?_, ?_⟩
  · unfold cubicSpline
    rw [if_neg (by omega)]
    simp only [e1, e2]
  · intro p hp
    obtain ⟨i, hi, rfl⟩ := (mem_zip_getD h2).mp (h4.mem_iff.mpr hp)
    exact glue_knot h3 (by omega) (pc0 us vs _) (fun i => vs.getD i 0) (pc0_left h3) (pc0_right h3) i hi
  · exact spline_deriv h3 (by omega)
  · refine glue_continuous us h3 (by omega) _ (fun j => ?_) (fun j g1 g2 => (pc1_right h3 j g1 (by omega)).trans (pc1_left h3 (j + 1) (by omega) g2).symm)
    exact continuous_iff_continuousAt.mpr (fun x => (cubic1_deriv _ _ _ _ _ _ x).continuousAt)
  · exact piecewise_perm h4 (spline_piecewise h3 (by omega) h2)

/-- The order in which the points are given is irrelevant. -/
theorem C58_order {srt srt' : List (ℝ × ℝ) → List (ℝ × ℝ)} (hsrt : ValidSort srt) (hsrt' : ValidSort srt') (solve : List ℝ → List ℝ → List ℝ) (xs ys xs' ys' : List ℝ) (hl : xs.length = ys.length)
    (hl' : xs'.length = ys'.length) (hd : Distinct (xs.zip ys)) (hp : (xs.zip ys).Perm (xs'.zip ys')) : cubicSpline srt solve xs ys = cubicSpline srt' solve xs' ys' := by
  have hd' : Distinct (xs'.zip ys') := hp.pairwise hd (fun h => h.symm)
  obtain ⟨p1, s1⟩ := sorted_points hsrt xs ys hl hd
  obtain ⟨p2, s2⟩ := sorted_points hsrt' xs' ys' hl' hd'
  have hlen : xs.length = xs'.length := by
    have := hp.length_eq
    rw [List.length_zip, List.length_zip] at this
    omega
  have he := ((p1.trans hp).trans p2.symm).eq_of_pairwise (le := fun a b => a.1 < b.1) (fun a b _ _ h1 h2 => absurd (lt_trans h1 h2) (lt_irrefl _)) s1 s2
  unfold cubicSpline
  have hc : (xs.length < 2 ∨ xs.length ≠ ys.length) ↔ (xs'.length < 2 ∨ xs'.length ≠ ys'.length) := by omega
  by_cases h : xs.length < 2 ∨ xs.length ≠ ys.length
  · rw [if_pos h, if_pos (hc.mp h)]
  · rw [if_neg h, if_neg (mt hc.mpr h)]
    simp only [he]

/-! ## The system has exactly one solution -/

theorem band_nonneg (hs : xs.Pairwise (· < ·)) (i j : ℕ) (hi : i < xs.length) (hj : j < xs.length) (hij : i ≠ j) : 0 ≤ bandA xs (xs.length - 1) i j := by
  unfold bandA
  simp only []
  rw [if_neg hij]
  split
  · exact one_div_nonneg.mpr (sub_nonneg.mpr (getD_lt hs (by omega) (by omega)).le)
  · split
    · exact one_div_nonneg.mpr (sub_nonneg.mpr (getD_lt hs (by omega) (by omega)).le)
    · exact le_refl _

theorem band_dominant (hs : xs.Pairwise (· < ·)) (hn : 2 ≤ xs.length) (i : ℕ) (hi : i < xs.length) :
    ∑ j ∈ Finset.range xs.length, bandA xs (xs.length - 1) i j < 2 * bandA xs (xs.length - 1) i i := by
  have hone : ∀ n, ∑ j ∈ Finset.range xs.length, bandA xs n i j = ∑ j ∈ Finset.range xs.length, bandA xs n i j * (fun _ => (1 : ℝ)) j := fun n => by simp
  rw [hone]
  have pos : ∀ e, e + 1 < xs.length → 0 < 1 / (xs.getD (e + 1) 0 - xs.getD e 0) := fun e he => one_div_pos.mpr (sub_pos.mpr (getD_lt hs (by omega) he))
  rcases Nat.eq_zero_or_pos i with h0 | h0
  · subst h0
    obtain ⟨n, hn'⟩ : ∃ n, xs.length = n + 1 := ⟨xs.length - 1, by omega⟩
    have p := pos 0 (by omega)
    rw [hn', Nat.add_sub_cancel, band_row_first xs _ n (by omega)]
    simp only [bandA, if_true, zero_add] at p ⊢
    rw [div_eq_mul_one_div, div_eq_mul_one_div 2]
    linarith
  · rcases Nat.lt_or_ge i (xs.length - 1) with h1 | h1
    · obtain ⟨n, hn'⟩ : ∃ n, xs.length = n + 1 := ⟨xs.length - 1, by omega⟩
      obtain ⟨e, rfl⟩ : ∃ e, i = e + 1 := ⟨i - 1, by omega⟩
      have p := pos e (by omega)
      have p' := pos (e + 1) (by omega)
      rw [hn', Nat.add_sub_cancel, band_row_mid xs _ n e (by omega)]
      simp only [bandA, if_true, Nat.add_sub_cancel, show e + 1 + 1 = e + 2 from rfl] at p p' ⊢
      rw [if_neg (by omega), if_neg (by omega), div_eq_mul_one_div, div_eq_mul_one_div (2 * (1 : ℝ) + 1)]
      linarith
    · obtain ⟨n, hn'⟩ : ∃ n, xs.length = n + 2 := ⟨xs.length - 2, by omega⟩
      have : i = n + 1 := by omega
      subst this
      have p := pos n (by omega)
      rw [hn', show n + 2 - 1 = n + 1 from rfl, band_row_last xs _ n]
      simp only [bandA, if_true, Nat.add_sub_cancel] at p ⊢
      rw [if_neg (by omega), div_eq_mul_one_div, div_eq_mul_one_div 2]
      linarith

/-- The system built by `CubicSpline` is strictly diagonally dominant, so it has exactly one solution: the assumption on the solver can be met, and determines the slopes. -/
theorem C58_system (xs ys : List ℝ) (hn : 2 ≤ xs.length) (hs : xs.Pairwise (· < ·)) : ∃! ks, Solves xs ys ks := by
  let A : Matrix (Fin xs.length) (Fin xs.length) ℝ := Matrix.of fun i j => bandA xs (xs.length - 1) i j
  have hdet : A.det ≠ 0 := by
    refine det_ne_zero_of_sum_row_lt_diag (fun i => ?_)
    have h1 : ∑ j ∈ Finset.univ.erase i, ‖A i j‖ = ∑ j ∈ Finset.univ.erase i, A i j := by
      refine Finset.sum_congr rfl (fun j hj => ?_)
      exact Real.norm_of_nonneg (band_nonneg hs i j i.2 j.2 (fun e => (Finset.mem_erase.mp hj).1 (Fin.ext e.symm)))
    have h2 := Finset.sum_erase_add Finset.univ (fun j => A i j) (Finset.mem_univ i)
    have h3 := band_dominant hs hn i i.2
    rw [← Fin.sum_univ_eq_sum_range (fun j => bandA xs (xs.length - 1) i j)] at h3
    have h4 : ∑ j, A i j < 2 * A i i := h3
    rw [h1]
    exact lt_of_lt_of_le (by linarith) (Real.le_norm_self _)
  have hu : IsUnit A.det := isUnit_iff_ne_zero.mpr hdet
  let b : Fin xs.length → ℝ := fun i => rhsB xs ys (xs.length - 1) i
  have key : ∀ ks : List ℝ, ks.length = xs.length → (Solves xs ys ks ↔ A.mulVec (fun i => ks.getD i 0) = b) := by
    intro ks hk
    constructor
    · intro h
      funext i
      have := h.2 i i.2
      rw [← Fin.sum_univ_eq_sum_range (fun j => bandA xs (xs.length - 1) i j * ks.getD j 0)] at this
      exact this
    · intro h
      refine ⟨hk, fun i hi => ?_⟩
      have := congrFun h ⟨i, hi⟩
      rw [← Fin.sum_univ_eq_sum_range (fun j => bandA xs (xs.length - 1) i j * ks.getD j 0)]
      exact this
  refine ⟨List.ofFn (A⁻¹.mulVec b), ?_, ?_⟩
  · beta_reduce
    rw [key _ (by simp)]
    have : (fun i : Fin xs.length => (List.ofFn (A⁻¹.mulVec b)).getD i 0) = A⁻¹.mulVec b := by
      funext i
      simp [List.getD_eq_getElem?_getD]
    rw [this, Matrix.mulVec_mulVec, Matrix.mul_nonsing_inv A hu, Matrix.one_mulVec]
  · intro ks hk
    have h := (key ks hk.1).mp hk
    have h' : (fun i : Fin xs.length => ks.getD i 0) = A⁻¹.mulVec b := by
      rw [← h, Matrix.mulVec_mulVec, Matrix.nonsing_inv_mul A hu, Matrix.one_mulVec]
    refine List.ext_getElem (by simp [hk.1]) (fun i h1 h2 => ?_)
    have := congrFun h' ⟨i, by rw [← hk.1]; exact h1⟩
    simp only [List.getD_eq_getElem?_getD, List.getElem?_eq_getElem h1, Option.getD_some] at this
    rw [this, List.getElem_ofFn]

/-- There is a solver meeting the assumption. -/
theorem solver_exists : ∃ solve, SolverOK solve := by
  classical
  refine ⟨fun xs ys => if h : ∃ ks, Solves xs ys ks then h.choose else [], fun xs ys hn _ hs => ?_⟩
  have h := (C58_system xs ys hn hs).exists
  simp only [dif_pos h]
  exact h.choose_spec

/-- Non-vacuity: four points out of order. -/
example : Distinct ([2, 0, 1, 5].zip [3, 1, 7, -2] : List (ℝ × ℝ)) ∧ (∃ solve, SolverOK solve) ∧ ValidSort (fun l : List (ℝ × ℝ) => l.insertionSort (fun a b => a.1 ≤ b.1)) := by
  refine ⟨by unfold Distinct; norm_num, solver_exists, fun l => ⟨List.perm_insertionSort _ l, ?_⟩⟩
  have : Std.Total (fun a b : ℝ × ℝ => a.1 ≤ b.1) := ⟨fun a b => le_total a.1 b.1⟩
  have : IsTrans (ℝ × ℝ) (fun a b => a.1 ≤ b.1) := ⟨fun a b c => le_trans⟩
  exact List.pairwise_insertionSort _ l

/-- Three points: the slopes 3/2, 0, -3/2 solve the system of the tent 0, 1, 0, and half-way up the spline is above the straight line. -/
example : Solves ([0, 1, 2] : List ℚ) [0, 1, 0] [3 / 2, 0, -3 / 2] ∧ spline ([0, 1, 2] : List ℚ) [0, 1, 0] [3 / 2, 0, -3 / 2] (1 / 2) = 11 / 16 := by
  unfold Solves
  decide +kernel

end Sk.Interp
