import Verif.Props.CubicSpline
import Mathlib.MeasureTheory.Integral.IntervalIntegral.IntegrationByParts
import Mathlib.MeasureTheory.Integral.IntervalIntegral.Basic
import Mathlib.Analysis.Calculus.MeanValue
import Mathlib.Tactic.Linarith
import Mathlib.Tactic.Ring

/-! # C220: the cubic spline is the smoothest curve through its points -/
set_option autoImplicit false

namespace Sk.Interp

open Set MeasureTheory intervalIntegral

/-! ## Specification -/

/-- `g` passes through the points and is twice continuously differentiable, with second derivative `g''`. -/
def SmoothThrough (pts : List (ℝ × ℝ)) (g g'' : ℝ → ℝ) : Prop :=
  (∀ p ∈ pts, g p.1 = p.2) ∧ Continuous g'' ∧ ∃ g' : ℝ → ℝ, (∀ x, HasDerivAt g (g' x) x) ∧ ∀ x, HasDerivAt g' (g'' x) x

/-- Bending energy of a curve with second derivative `g''` between `a` and `b`. -/
noncomputable def energy (g'' : ℝ → ℝ) (a b : ℝ) : ℝ := ∫ x in a..b, g'' x ^ 2

/-! ## Proof -/

/-- The second derivative of a cubic piece is a line. -/
theorem piece_second {f f' f'' : ℝ → ℝ} (h1 : ∀ x, HasDerivAt f (f' x) x) (h2 : ∀ x, HasDerivAt f' (f'' x) x) (hc : Continuous f'') {p q c₀ c₁ c₂ c₃ : ℝ} (hpq : p < q)
    (hf : ∀ x, p ≤ x → x ≤ q → f x = c₀ + c₁ * x + c₂ * x ^ 2 + c₃ * x ^ 3) : ∀ x ∈ Icc p q, f'' x = 2 * c₂ + 6 * c₃ * x := by
  have e1 : ∀ x ∈ Ioo p q, f' x = c₁ + 2 * c₂ * x + 3 * c₃ * x ^ 2 := by
    intro x hx
    have hd : HasDerivAt (fun x => c₀ + c₁ * x + c₂ * x ^ 2 + c₃ * x ^ 3) (0 + c₁ * 1 + c₂ * (((2 : ℕ) : ℝ) * x ^ (2 - 1)) + c₃ * (((3 : ℕ) : ℝ) * x ^ (3 - 1))) x :=
      (((hasDerivAt_const x c₀).add ((hasDerivAt_id x).const_mul c₁)).add ((hasDerivAt_pow 2 x).const_mul c₂)).add ((hasDerivAt_pow 3 x).const_mul c₃)
    have he : f =ᶠ[nhds x] (fun x => c₀ + c₁ * x + c₂ * x ^ 2 + c₃ * x ^ 3) := by
      filter_upwards [Ioo_mem_nhds hx.1 hx.2] with y hy
      exact hf y hy.1.le hy.2.le
    have := (h1 x).unique (hd.congr_of_eventuallyEq he)
    rw [this]
    push_cast
    ring
  have e2 : ∀ x ∈ Ioo p q, f'' x = 2 * c₂ + 6 * c₃ * x := by
    intro x hx
    have hd : HasDerivAt (fun x => c₁ + 2 * c₂ * x + 3 * c₃ * x ^ 2) (0 + 2 * c₂ * 1 + 3 * c₃ * (((2 : ℕ) : ℝ) * x ^ (2 - 1))) x :=
      ((hasDerivAt_const x c₁).add ((hasDerivAt_id x).const_mul (2 * c₂))).add ((hasDerivAt_pow 2 x).const_mul (3 * c₃))
    have he : f' =ᶠ[nhds x] (fun x => c₁ + 2 * c₂ * x + 3 * c₃ * x ^ 2) := by
      filter_upwards [Ioo_mem_nhds hx.1 hx.2] with y hy
      exact e1 y hy
    have := (h2 x).unique (hd.congr_of_eventuallyEq he)
    rw [this]
    push_cast
    ring
  have hcl : EqOn f'' (fun x => 2 * c₂ + 6 * c₃ * x) (closure (Ioo p q)) := Set.EqOn.closure e2 hc (by fun_prop)
  rw [closure_Ioo hpq.ne] at hcl
  exact hcl

/-- Integration by parts on one piece. -/
theorem piece_parts {f'' h h' h'' : ℝ → ℝ} (d1 : ∀ x, HasDerivAt h (h' x) x) (d2 : ∀ x, HasDerivAt h' (h'' x) x) (hc : Continuous h'') {p q s t : ℝ} (hpq : p < q) (hf : ∀ x ∈ Icc p q, f'' x = s + t * x)
    (hp : h p = 0) (hq : h q = 0) : ∫ x in p..q, f'' x * h'' x = f'' q * h' q - f'' p * h' p := by
  have hcont' : Continuous h' := continuous_iff_continuousAt.2 fun x => (d2 x).continuousAt
  have e : ∫ x in p..q, f'' x * h'' x = ∫ x in p..q, (s + t * x) * h'' x := by
    refine integral_congr fun x hx => ?_
    rw [uIcc_of_le hpq.le] at hx
    simp only [hf x hx]
  rw [e, integral_mul_deriv_eq_deriv_mul (u := fun x => s + t * x) (u' := fun _ => t) (v := h') (v' := h'') (fun x _ => by simpa using (((hasDerivAt_id x).const_mul t).const_add s)) (fun x _ => d2 x)
    (continuous_const.intervalIntegrable _ _) (hc.intervalIntegrable _ _)]
  have e2 : ∫ x in p..q, t * h' x = t * (h q - h p) := by
    rw [intervalIntegral.integral_const_mul, integral_eq_sub_of_hasDerivAt (fun x _ => d1 x) (hcont'.intervalIntegrable _ _)]
  rw [e2, hp, hq, hf p ⟨le_rfl, hpq.le⟩, hf q ⟨hpq.le, le_rfl⟩]
  ring

/-- From the first knot to any knot. -/
theorem parts_upto {pts : List (ℝ × ℝ)} {f'' h h' h'' : ℝ → ℝ} (d1 : ∀ x, HasDerivAt h (h' x) x) (d2 : ∀ x, HasDerivAt h' (h'' x) x) (hc : Continuous h'') (hcf : Continuous f'') (h0 : ∀ p ∈ pts, h p.1 = 0)
    (hline : ∀ p ∈ pts, ∀ q ∈ pts, p.1 < q.1 → (∀ r ∈ pts, ¬ (p.1 < r.1 ∧ r.1 < q.1)) → ∃ s t : ℝ, ∀ x ∈ Icc p.1 q.1, f'' x = s + t * x)
    (a : ℝ × ℝ) (ha : a ∈ pts) (hmin : ∀ r ∈ pts, a.1 ≤ r.1) :
    ∀ n, ∀ q ∈ pts, (pts.filter (fun r => decide (r.1 < q.1))).length = n → ∫ x in a.1..q.1, f'' x * h'' x = f'' q.1 * h' q.1 - f'' a.1 * h' a.1 := by
  intro n
  induction n using Nat.strong_induction_on with
  | _ n ih =>
    intro q hq hn
    rcases (hmin q hq).eq_or_lt with e | hlt
    · rw [← e, integral_same, sub_self]
    · -- the greatest knot before `q`
      obtain ⟨p, hp, hmax⟩ : ∃ p ∈ pts.filter (fun r => decide (r.1 < q.1)), ∀ r ∈ pts.filter (fun r => decide (r.1 < q.1)), r.1 ≤ p.1 := by
        have hne : (pts.filter (fun r => decide (r.1 < q.1))).toFinset.Nonempty := ⟨a, by simp [ha, hlt]⟩
        obtain ⟨p, hp, hm⟩ := Finset.exists_max_image _ (fun r : ℝ × ℝ => r.1) hne
        exact ⟨p, List.mem_toFinset.1 hp, fun r hr => hm r (List.mem_toFinset.2 hr)⟩
      rw [List.mem_filter, decide_eq_true_eq] at hp
      have hbetween : ∀ r ∈ pts, ¬ (p.1 < r.1 ∧ r.1 < q.1) := by
        rintro r hr ⟨h1, h2⟩
        exact absurd (hmax r (List.mem_filter.2 ⟨hr, by simpa using h2⟩)) (not_le.2 h1)
      obtain ⟨s, t, hst⟩ := hline p hp.1 q hq hp.2 hbetween
      have hless : (pts.filter (fun r => decide (r.1 < p.1))).length < n := by
        rw [← hn]
        have hsub : (pts.filter (fun r => decide (r.1 < p.1))) = (pts.filter (fun r => decide (r.1 < q.1))).filter (fun r => decide (r.1 < p.1)) := by
          rw [List.filter_filter]
          refine List.filter_congr fun r _ => ?_
          by_cases h1 : r.1 < p.1
          · simp [h1, h1.trans hp.2]
          · simp [h1]
        rw [hsub]
        refine List.length_filter_lt_length_iff_exists.2 ⟨p, List.mem_filter.2 ⟨hp.1, by simpa using hp.2⟩, by simp⟩
      have i1 := ih _ hless p hp.1 rfl
      have i2 := piece_parts d1 d2 hc hp.2 hst (h0 p hp.1) (h0 q hq)
      have hi : ∀ x y, IntervalIntegrable (fun x => f'' x * h'' x) volume x y := fun x y => (hcf.mul hc).intervalIntegrable x y
      rw [← integral_add_adjacent_intervals (hi a.1 p.1) (hi p.1 q.1), i1, i2]
      ring

/-- Twice differentiable functions with the same second derivative between two common points agree between them. -/
theorem flat {h h' h'' : ℝ → ℝ} (d1 : ∀ x, HasDerivAt h (h' x) x) (d2 : ∀ x, HasDerivAt h' (h'' x) x) {a b : ℝ} (hab : a < b) (h0 : ∀ x ∈ Icc a b, h'' x = 0) (ha : h a = 0) (hb : h b = 0) : ∀ x ∈ Icc a b, h x = 0 := by
  have c1 : Continuous h := continuous_iff_continuousAt.2 fun x => (d1 x).continuousAt
  have c2 : Continuous h' := continuous_iff_continuousAt.2 fun x => (d2 x).continuousAt
  have e1 : ∀ x ∈ Icc a b, h' x = h' a := constant_of_has_deriv_right_zero c2.continuousOn fun x hx => by
    have := (d2 x).hasDerivWithinAt (s := Ici x)
    rwa [h0 x ⟨hx.1, hx.2.le⟩] at this
  have e2 : ∀ x ∈ Icc a b, h x - h' a * x = h a - h' a * a := constant_of_has_deriv_right_zero (f := fun x => h x - h' a * x) (by fun_prop) fun x hx => by
    have := ((d1 x).sub ((hasDerivAt_id x).const_mul (h' a))).hasDerivWithinAt (s := Ici x)
    rw [e1 x ⟨hx.1, hx.2.le⟩, mul_one, sub_self] at this
    exact this
  have e3 := e2 b ⟨hab.le, le_rfl⟩
  rw [ha, hb] at e3
  have e4 : h' a = 0 := by
    have : h' a * (b - a) = 0 := by linarith
    rcases mul_eq_zero.1 this with h | h
    · exact h
    · linarith
  intro x hx
  have := e2 x hx
  rw [e4, ha] at this
  linarith

/-- A natural, piecewise cubic function through the points against any other curve. -/
theorem natural_best {pts : List (ℝ × ℝ)} {f : ℝ → ℝ} (hnat : NaturalThrough pts f) (hpc : PiecewiseCubic pts f) (a b : ℝ × ℝ) (ha : a ∈ pts) (hb : b ∈ pts) (hmin : ∀ r ∈ pts, a.1 ≤ r.1) (hmax : ∀ r ∈ pts, r.1 ≤ b.1) (hab : a.1 < b.1) :
    ∃ f'', SmoothThrough pts f f'' ∧ ∀ g g'', SmoothThrough pts g g'' → energy g'' a.1 b.1 = energy f'' a.1 b.1 + energy (fun x => g'' x - f'' x) a.1 b.1 ∧
      energy f'' a.1 b.1 ≤ energy g'' a.1 b.1 ∧ (energy g'' a.1 b.1 = energy f'' a.1 b.1 → ∀ x ∈ Icc a.1 b.1, g x = f x) := by
  obtain ⟨hthru, f', f'', d1, d2, hcf, hends⟩ := hnat
  refine ⟨f'', ⟨hthru, hcf, f', d1, d2⟩, fun g g'' ⟨gthru, hcg, g', e1, e2⟩ => ?_⟩
  have k1 : ∀ x, HasDerivAt (fun x => g x - f x) (g' x - f' x) x := fun x => (e1 x).sub (d1 x)
  have k2 : ∀ x, HasDerivAt (fun x => g' x - f' x) (g'' x - f'' x) x := fun x => (e2 x).sub (d2 x)
  have hc : Continuous (fun x => g'' x - f'' x) := hcg.sub hcf
  have h0 : ∀ p ∈ pts, g p.1 - f p.1 = 0 := fun p hp => by rw [gthru p hp, hthru p hp, sub_self]
  have hline : ∀ p ∈ pts, ∀ q ∈ pts, p.1 < q.1 → (∀ r ∈ pts, ¬ (p.1 < r.1 ∧ r.1 < q.1)) → ∃ s t : ℝ, ∀ x ∈ Icc p.1 q.1, f'' x = s + t * x := by
    intro p hp q hq hpq hbt
    obtain ⟨c₀, c₁, c₂, c₃, hcub⟩ := hpc p hp q hq hpq hbt
    exact ⟨2 * c₂, 6 * c₃, piece_second d1 d2 hcf hpq hcub⟩
  have hcross := parts_upto k1 k2 hc hcf h0 hline a ha hmin _ b hb rfl
  rw [hends a ha (Or.inl hmin), hends b hb (Or.inr hmax), zero_mul, zero_mul, sub_self] at hcross
  have hsum : energy g'' a.1 b.1 = energy f'' a.1 b.1 + energy (fun x => g'' x - f'' x) a.1 b.1 := by
    unfold energy
    have i1 : IntervalIntegrable (fun x => f'' x ^ 2) volume a.1 b.1 := (hcf.pow 2).intervalIntegrable _ _
    have i2 : IntervalIntegrable (fun x => (g'' x - f'' x) ^ 2) volume a.1 b.1 := (hc.pow 2).intervalIntegrable _ _
    have i3 : IntervalIntegrable (fun x => 2 * (f'' x * (g'' x - f'' x))) volume a.1 b.1 := (continuous_const.mul (hcf.mul hc)).intervalIntegrable _ _
    have e : ∫ x in a.1..b.1, g'' x ^ 2 = ∫ x in a.1..b.1, (f'' x ^ 2 + (g'' x - f'' x) ^ 2) + 2 * (f'' x * (g'' x - f'' x)) := integral_congr fun x _ => by ring
    rw [e, integral_add (i1.add i2) i3, integral_add i1 i2, intervalIntegral.integral_const_mul, hcross, mul_zero, add_zero]
  have hnn : 0 ≤ energy (fun x => g'' x - f'' x) a.1 b.1 := integral_nonneg hab.le fun x _ => sq_nonneg _
  refine ⟨hsum, by linarith, fun heq => ?_⟩
  have hz : energy (fun x => g'' x - f'' x) a.1 b.1 = 0 := by linarith
  have hall : ∀ x ∈ Icc a.1 b.1, g'' x - f'' x = 0 := by
    intro x hx
    by_contra hne
    have : 0 < energy (fun x => g'' x - f'' x) a.1 b.1 := integral_pos hab (hc.pow 2).continuousOn (fun x _ => sq_nonneg _) ⟨x, hx, by positivity⟩
    linarith
  intro x hx
  have := flat k1 k2 hab hall (h0 a ha) (h0 b hb) x hx
  linarith

/-- **C220.** Among all twice continuously differentiable curves through the points, `CubicSpline` has the least bending energy between the first and the last abscissa: any other curve has, in addition, the energy of the
difference; a curve with the same energy is the spline there. -/
theorem C220_smoothest {srt : List (ℝ × ℝ) → List (ℝ × ℝ)} (hsrt : ValidSort srt) {solve : List ℝ → List ℝ → List ℝ} (hsol : SolverOK solve) (xs ys : List ℝ) (hl : xs.length = ys.length) (hn : 2 ≤ xs.length) (hd : Distinct (xs.zip ys))
    (a b : ℝ) (ha : a ∈ xs) (hb : b ∈ xs) (hmin : ∀ x ∈ xs, a ≤ x) (hmax : ∀ x ∈ xs, x ≤ b) :
    ∃ f f'', cubicSpline srt solve xs ys = some f ∧ SmoothThrough (xs.zip ys) f f'' ∧ ∀ g g'', SmoothThrough (xs.zip ys) g g'' →
      energy g'' a b = energy f'' a b + energy (fun x => g'' x - f'' x) a b ∧ energy f'' a b ≤ energy g'' a b ∧ (energy g'' a b = energy f'' a b → ∀ x, a ≤ x → x ≤ b → g x = f x) := by
  obtain ⟨f, hf, hnat, hpc⟩ := C58_spline hsrt hsol xs ys hl hn hd
  have hz : ∀ x ∈ xs, ∃ y, (x, y) ∈ xs.zip ys := by
    intro x hx
    obtain ⟨i, hi, rfl⟩ := List.getElem_of_mem hx
    exact ⟨ys[i]'(hl ▸ hi), by rw [List.mem_iff_getElem]; exact ⟨i, by simpa [hl] using (hl ▸ hi : i < ys.length), by simp⟩⟩
  obtain ⟨ya, hya⟩ := hz a ha
  obtain ⟨yb, hyb⟩ := hz b hb
  have hmem : ∀ r ∈ xs.zip ys, r.1 ∈ xs := fun r hr => (List.of_mem_zip (show (r.1, r.2) ∈ xs.zip ys from hr)).1
  have hab : a < b := by
    have hlen : 2 ≤ (xs.zip ys).length := by simp [hl] at hn ⊢; omega
    obtain ⟨p, q, rest, he⟩ : ∃ p q rest, xs.zip ys = p :: q :: rest := by
      match hh : xs.zip ys, hlen with
      | p :: q :: rest, _ => exact ⟨p, q, rest, rfl⟩
    have hpq : p.1 ≠ q.1 := by
      unfold Distinct at hd
      rw [he] at hd
      exact (List.pairwise_cons.1 hd).1 q List.mem_cons_self
    have m1 := hmem p (by rw [he]; exact List.mem_cons_self)
    have m2 := hmem q (by rw [he]; exact List.mem_cons_of_mem _ List.mem_cons_self)
    by_contra hle
    have hle' := not_lt.1 hle
    exact hpq (le_antisymm ((hmax _ m1).trans (hle'.trans (hmin _ m2))) ((hmax _ m2).trans (hle'.trans (hmin _ m1))))
  obtain ⟨f'', hs, hbest⟩ := natural_best hnat hpc (a, ya) (b, yb) hya hyb (fun r hr => hmin _ (hmem r hr)) (fun r hr => hmax _ (hmem r hr)) hab
  exact ⟨f, f'', hf, hs, fun g g'' hg => ⟨(hbest g g'' hg).1, (hbest g g'' hg).2.1, fun e x h1 h2 => (hbest g g'' hg).2.2 e x ⟨h1, h2⟩⟩⟩

/-- Hypotheses met: points in any order, first and last abscissa 0 and 5; a curve through two points other than the spline (a line): a parabola. -/
example : Distinct ([2, 0, 1, 5].zip [3, 1, 7, -2] : List (ℝ × ℝ)) ∧ (0 : ℝ) ∈ [2, 0, 1, (5 : ℝ)] ∧ (∀ x ∈ [2, 0, 1, (5 : ℝ)], (0 : ℝ) ≤ x ∧ x ≤ 5) ∧ SmoothThrough [(0, 0), (1, 1)] (fun x => x ^ 2) (fun _ => 2) := by
  refine ⟨by unfold Distinct; norm_num, by norm_num, by intro x hx; fin_cases hx <;> norm_num, by norm_num, continuous_const, fun x => 2 * x, fun x => ?_, fun x => ?_⟩
  · simpa using hasDerivAt_pow 2 x
  · simpa using (hasDerivAt_id x).const_mul 2

end Sk.Interp
