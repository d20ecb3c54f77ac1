import Verif.Props.InterpInv
import Mathlib.Analysis.Convex.Slope
import Mathlib.Analysis.Convex.Deriv

/-!
# C229: how far Interp1d is from the function that was sampled

The known points are values of a function `g`; abscissae with NaN ordinates may lie among them.
-/
set_option autoImplicit false

namespace Sk.Interp

section
variable {K : Type} [Field K] [LinearOrder K] [IsStrictOrderedRing K]

/-! ### Specification -/

/-- The known points are on the graph of `g`. -/
def SampledFrom (l : List (K × Option K)) (g : K → K) : Prop := ∀ a y, (a, some y) ∈ l → y = g a

/-- Neighbouring known points are at most `H` apart. -/
def GapsAtMost (l : List (K × Option K)) (H : K) : Prop := ∀ a ya b yb, Neighbours l a ya b yb → b - a ≤ H

/-- `x` lies between two abscissae. -/
def InRange (l : List (K × Option K)) (x : K) : Prop := (∃ p ∈ l, p.1 ≤ x) ∧ ∃ p ∈ l, x ≤ p.1

/-! ### Proofs -/

theorem piece_in {srt : List (K × Option K) → List (K × Option K)} (hsrt : ValidSort srt) (l : List (K × Option K)) (hn : 2 ≤ l.length) (hd : Distinct l) (he : EndsKnown l) (g : K → K) (hg : SampledFrom l g) :
    ∃ f, interp1d srt (l.map Prod.fst) (l.map Prod.snd) = some f ∧
      ∀ x, ∃ a b, Neighbours l a (g a) b (g b) ∧ f x = some (onLine a (g a) b (g b) x) ∧ (InRange l x → a ≤ x ∧ x ≤ b) ∧ (¬ InRange l x → x < a ∨ b < x) := by
  obtain ⟨f, hf, hx, _⟩ := interp_piece hsrt l hn hd he
  refine ⟨f, hf, fun x => ?_⟩
  obtain ⟨a, ya, b, yb, h, h1, h2, e⟩ := hx x
  have ea := hg _ _ h.1
  have eb := hg _ _ h.2.1
  subst ea eb
  refine ⟨a, b, h, e, ?_, ?_⟩
  · rintro ⟨⟨p, hp, hpx⟩, q, hq, hqx⟩
    exact ⟨h1.elim id (fun c => (c p hp).trans hpx), h2.elim id (fun c => hqx.trans (c q hq))⟩
  · intro hr
    by_contra hc
    push Not at hc
    exact hr ⟨⟨_, h.1, hc.1⟩, _, h.2.1, hc.2⟩

/-- Weights of the two ends. -/
theorem onLine_mix (a ya b yb x : K) (hab : a < b) : (b - a) * onLine a ya b yb x = (b - x) * ya + (x - a) * yb := by
  have : b - a ≠ 0 := (sub_pos.2 hab).ne'
  unfold onLine
  field_simp
  ring

theorem quarter (a b x : K) : 4 * ((x - a) * (b - x)) ≤ (b - a) ^ 2 := by
  have := sq_nonneg ((x - a) - (b - x))
  linear_combination this

/-- **C229, Lipschitz functions.** If the slopes of `g` are at most `L`, inside the range the result is within `L H / 2` of `g`, `H` the largest distance of neighbouring known points. -/
theorem C229_lipschitz {srt : List (K × Option K) → List (K × Option K)} (hsrt : ValidSort srt) (l : List (K × Option K)) (hn : 2 ≤ l.length) (hd : Distinct l) (he : EndsKnown l)
    (g : K → K) (hg : SampledFrom l g) (L H : K) (hL : ∀ s t, |g s - g t| ≤ L * |s - t|) (hH : GapsAtMost l H) :
    ∃ f, interp1d srt (l.map Prod.fst) (l.map Prod.snd) = some f ∧ ∀ x, InRange l x → ∃ v, f x = some v ∧ |v - g x| ≤ L * H / 2 := by
  obtain ⟨f, hf, h⟩ := piece_in hsrt l hn hd he g hg
  refine ⟨f, hf, fun x hx => ?_⟩
  obtain ⟨a, b, hnb, e, hin, _⟩ := h x
  obtain ⟨h1, h2⟩ := hin hx
  have hab := hnb.2.2.1
  have hb : 0 < b - a := sub_pos.2 hab
  have hL0 : 0 ≤ L := by
    have := (abs_nonneg _).trans (hL 1 0)
    simpa using this
  refine ⟨_, e, ?_⟩
  have hgap := hH _ _ _ _ hnb
  have k1 := hL a x
  have k2 := hL b x
  rw [abs_of_nonpos (sub_nonpos.2 h1)] at k1
  rw [abs_of_nonneg (sub_nonneg.2 h2)] at k2
  have hm : (b - a) * (onLine a (g a) b (g b) x - g x) = (b - x) * (g a - g x) + (x - a) * (g b - g x) := by
    rw [mul_sub, onLine_mix _ _ _ _ _ hab]; ring
  have hbound : (b - a) * |onLine a (g a) b (g b) x - g x| ≤ L * (2 * ((x - a) * (b - x))) := by
    rw [← abs_of_pos hb, ← abs_mul, hm]
    refine (abs_add_le _ _).trans ?_
    rw [abs_mul, abs_mul, abs_of_nonneg (sub_nonneg.2 h2), abs_of_nonneg (sub_nonneg.2 h1)]
    have m1 := mul_le_mul_of_nonneg_left k1 (sub_nonneg.2 h2)
    have m2 := mul_le_mul_of_nonneg_left k2 (sub_nonneg.2 h1)
    linarith
  have q := mul_le_mul_of_nonneg_left (quarter a b x) hL0
  have hfin : (b - a) * |onLine a (g a) b (g b) x - g x| ≤ (b - a) * (L * (b - a) / 2) := by linarith
  have := le_of_mul_le_mul_left hfin hb
  have m := mul_le_mul_of_nonneg_left hgap hL0
  linarith

/-- **C229, convex functions.** Samples of a convex function: the result is at least `g` inside the range and at most `g` outside. -/
theorem C229_convex {srt : List (K × Option K) → List (K × Option K)} (hsrt : ValidSort srt) (l : List (K × Option K)) (hn : 2 ≤ l.length) (hd : Distinct l) (he : EndsKnown l)
    (g : K → K) (hg : SampledFrom l g) (hc : ConvexOn K Set.univ g) :
    ∃ f, interp1d srt (l.map Prod.fst) (l.map Prod.snd) = some f ∧ ∀ x, ∃ v, f x = some v ∧ (InRange l x → g x ≤ v) ∧ (¬ InRange l x → v ≤ g x) := by
  obtain ⟨f, hf, h⟩ := piece_in hsrt l hn hd he g hg
  refine ⟨f, hf, fun x => ?_⟩
  obtain ⟨a, b, hnb, e, hin, hout⟩ := h x
  have hab := hnb.2.2.1
  have hb : 0 < b - a := sub_pos.2 hab
  have hm := onLine_mix a (g a) b (g b) x hab
  refine ⟨_, e, fun hx => ?_, fun hx => ?_⟩
  · obtain ⟨h1, h2⟩ := hin hx
    rcases h1.eq_or_lt with h1 | h1
    · rw [← h1, onLine_left]
    rcases h2.eq_or_lt with h2 | h2
    · rw [h2, onLine_right _ _ _ _ hab]
    refine le_of_mul_le_mul_left ?_ hb
    rw [hm]
    exact hc.secant_mono_aux1 (Set.mem_univ _) (Set.mem_univ _) h1 h2
  · refine le_of_mul_le_mul_left ?_ hb
    rw [hm]
    rcases hout hx with h1 | h1
    · have := hc.secant_mono_aux1 (Set.mem_univ _) (Set.mem_univ _) h1 hab
      linarith
    · have := hc.secant_mono_aux1 (Set.mem_univ _) (Set.mem_univ _) hab h1
      linarith

end

theorem convex_shift (g g' g'' : ℝ → ℝ) (h1 : ∀ x, HasDerivAt g (g' x) x) (h2 : ∀ x, HasDerivAt g' (g'' x) x) (M : ℝ) (hM : ∀ x, -M ≤ g'' x) : ConvexOn ℝ Set.univ (fun x => g x + M / 2 * x ^ 2) := by
  have d1 : ∀ x, HasDerivAt (fun x => g x + M / 2 * x ^ 2) (g' x + M * x) x := by
    intro x
    refine ((h1 x).add (((hasDerivAt_pow 2 x)).const_mul (M / 2))).congr_deriv ?_
    norm_num
    ring
  have d2 : ∀ x, HasDerivAt (fun x => g' x + M * x) (g'' x + M) x := by
    intro x
    refine ((h2 x).add ((hasDerivAt_id x).const_mul M)).congr_deriv ?_
    ring
  have e1 : deriv (fun x => g x + M / 2 * x ^ 2) = fun x => g' x + M * x := funext fun x => (d1 x).deriv
  have e2 : deriv (fun x => g' x + M * x) = fun x => g'' x + M := funext fun x => (d2 x).deriv
  refine convexOn_of_deriv2_nonneg' convex_univ (fun x _ => (d1 x).differentiableAt.differentiableWithinAt) ?_ ?_
  · rw [e1]
    exact fun x _ => (d2 x).differentiableAt.differentiableWithinAt
  · intro x _
    rw [Function.iterate_succ, Function.iterate_one, Function.comp, e1, e2]
    have := hM x
    linarith

theorem shifted_le (g : ℝ → ℝ) (M a b x : ℝ) (hc : ConvexOn ℝ Set.univ (fun x => g x + M / 2 * x ^ 2)) (hab : a < b) (h1 : a ≤ x) (h2 : x ≤ b) :
    (b - a) * g x ≤ (b - x) * g a + (x - a) * g b + (b - a) * (M / 2 * ((x - a) * (b - x))) := by
  rcases h1.eq_or_lt with h1 | h1
  · subst h1
    ring_nf
    rfl
  rcases h2.eq_or_lt with h2 | h2
  · subst h2
    ring_nf
    rfl
  have := hc.secant_mono_aux1 (Set.mem_univ _) (Set.mem_univ _) h1 h2
  linear_combination this

/-- **C229, smooth functions.** If the second derivative of `g` is at most `M` in absolute value, inside the range the result is within `M H² / 8` of `g`. -/
theorem C229_smooth {srt : List (ℝ × Option ℝ) → List (ℝ × Option ℝ)} (hsrt : ValidSort srt) (l : List (ℝ × Option ℝ)) (hn : 2 ≤ l.length) (hd : Distinct l) (he : EndsKnown l)
    (g g' g'' : ℝ → ℝ) (hg : SampledFrom l g) (h1 : ∀ x, HasDerivAt g (g' x) x) (h2 : ∀ x, HasDerivAt g' (g'' x) x) (M H : ℝ) (hM : ∀ x, |g'' x| ≤ M) (hH : GapsAtMost l H) :
    ∃ f, interp1d srt (l.map Prod.fst) (l.map Prod.snd) = some f ∧ ∀ x, InRange l x → ∃ v, f x = some v ∧ |v - g x| ≤ M * H ^ 2 / 8 := by
  obtain ⟨f, hf, h⟩ := piece_in hsrt l hn hd he g hg
  refine ⟨f, hf, fun x hx => ?_⟩
  obtain ⟨a, b, hnb, e, hin, _⟩ := h x
  obtain ⟨ha, hb⟩ := hin hx
  have hab := hnb.2.2.1
  have hba : 0 < b - a := sub_pos.2 hab
  have hM0 : 0 ≤ M := (abs_nonneg _).trans (hM 0)
  refine ⟨_, e, ?_⟩
  have hm := onLine_mix a (g a) b (g b) x hab
  have s1 := shifted_le g M a b x (convex_shift g g' g'' h1 h2 M (fun x => (abs_le.1 (hM x)).1)) hab ha hb
  have s2 := shifted_le (fun x => -g x) M a b x (convex_shift (fun x => -g x) (fun x => -g' x) (fun x => -g'' x) (fun x => (h1 x).neg) (fun x => (h2 x).neg) M (fun x => neg_le_neg (abs_le.1 (hM x)).2)) hab ha hb
  have hgap := hH _ _ _ _ hnb
  have q := mul_le_mul_of_nonneg_left (quarter a b x) hM0
  have hsq : M * (b - a) ^ 2 ≤ M * H ^ 2 := mul_le_mul_of_nonneg_left (pow_le_pow_left₀ hba.le hgap 2) hM0
  have key : M / 2 * ((x - a) * (b - x)) ≤ M * H ^ 2 / 8 := by linarith
  have key' := mul_le_mul_of_nonneg_left key hba.le
  rw [abs_le]
  constructor
  · refine le_of_mul_le_mul_left ?_ hba
    simp only [mul_sub, mul_neg] at *
    linarith
  · refine le_of_mul_le_mul_left ?_ hba
    simp only [mul_sub, mul_neg] at *
    linarith

/-- The square at 0, 1, 3 (the ordinate at 2 is NaN): at 2 the result is 5, the square 4, the bound 2·2²/8 = 1. -/
example : (interp1d (K := ℚ) id [0, 1, 2, 3] [some 0, some 1, none, some 9]).bind (fun f => f 2) = some 5 ∧ Distinct (K := ℚ) [(0, some 0), (1, some 1), (2, none), (3, some 9)] := by
  refine ⟨by decide +kernel, ?_⟩
  unfold Distinct
  decide +kernel

/-- The hypotheses of `C229_smooth` and `C229_convex` for the square, the second derivative 2 and the points 0, 1, 3. -/
example : SampledFrom (K := ℝ) [(0, some 0), (1, some 1), (2, none), (3, some 9)] (fun x => x ^ 2) ∧ GapsAtMost (K := ℝ) [(0, some 0), (1, some 1), (2, none), (3, some 9)] 2 ∧
    EndsKnown (K := ℝ) [(0, some 0), (1, some 1), (2, none), (3, some 9)] ∧ (∀ x : ℝ, HasDerivAt (fun x => x ^ 2) (2 * x) x) ∧ (∀ x : ℝ, HasDerivAt (fun x => 2 * x) 2 x) ∧ InRange (K := ℝ) [(0, some 0), (1, some 1), (2, none), (3, some 9)] 2 := by
  refine ⟨?_, ?_, ?_, ?_, ?_, ?_⟩
  · intro a y h
    simp only [List.mem_cons, Prod.mk.injEq, Option.some.injEq, List.not_mem_nil, or_false, reduceCtorEq, and_false, false_or] at h
    rcases h with ⟨rfl, rfl⟩ | ⟨rfl, rfl⟩ | ⟨rfl, rfl⟩ <;> norm_num
  · rintro a ya b yb ⟨h1, h2, h3, h4⟩
    have := h4 1 1 (by simp)
    simp only [List.mem_cons, Prod.mk.injEq, Option.some.injEq, List.not_mem_nil, or_false, reduceCtorEq, and_false, false_or] at h1 h2
    rcases h1 with ⟨rfl, rfl⟩ | ⟨rfl, rfl⟩ | ⟨rfl, rfl⟩ <;> rcases h2 with ⟨rfl, rfl⟩ | ⟨rfl, rfl⟩ | ⟨rfl, rfl⟩ <;> norm_num at * 
  · intro p hp
    simp only [List.mem_cons, List.not_mem_nil, or_false] at hp
    refine ⟨⟨0, 0, by simp, ?_⟩, 3, 9, by simp, ?_⟩ <;> rcases hp with rfl | rfl | rfl | rfl <;> norm_num
  · intro x
    exact (hasDerivAt_pow 2 x).congr_deriv (by norm_num)
  · intro x
    exact ((hasDerivAt_id x).const_mul 2).congr_deriv (by norm_num)
  · exact ⟨⟨(1, some 1), by simp, by norm_num⟩, (3, some 9), by simp, by norm_num⟩

end Sk.Interp
