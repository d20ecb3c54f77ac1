import Verif.Props.CubicSpline
import Mathlib.Algebra.BigOperators.Intervals
import Mathlib.Algebra.BigOperators.Field

/-!
# Interpolation commutes with changes of coordinates and with sums: C204

The data are a list of points; `Interp1d` and `CubicSpline` receive the two columns of the list.
-/
set_option autoImplicit false

namespace Sk.Interp

section linear

variable {K : Type} [Field K] [LinearOrder K] [IsStrictOrderedRing K]

theorem zip_cols {α β γ : Type} (l : List α) (f : α → β) (g : α → γ) : (l.map f).zip (l.map g) = l.map (fun a => (f a, g a)) := by
  rw [List.zip_map']

theorem distinct_map {U V : Type} {l : List (K × U)} (hd : Distinct l) (g : K × U → K × V) (hg : ∀ a b : K × U, a.1 ≠ b.1 → (g a).1 ≠ (g b).1) : Distinct (l.map g) := by
  unfold Distinct
  rw [List.pairwise_map]
  exact hd.imp (fun h => hg _ _ h)

/-- The line in force at a point. -/
theorem interp_piece {srt : List (K × Option K) → List (K × Option K)} (hsrt : ValidSort srt) (l : List (K × Option K)) (hn : 2 ≤ l.length) (hd : Distinct l) (he : EndsKnown l) :
    ∃ f, interp1d srt (l.map Prod.fst) (l.map Prod.snd) = some f ∧
      (∀ x, ∃ a ya b yb, Neighbours l a ya b yb ∧ (a ≤ x ∨ ∀ p ∈ l, a ≤ p.1) ∧ (x ≤ b ∨ ∀ p ∈ l, p.1 ≤ b) ∧ f x = some (onLine a ya b yb x)) ∧
      ∀ x a ya b yb, Neighbours l a ya b yb → (a ≤ x ∨ ∀ p ∈ l, a ≤ p.1) → (x ≤ b ∨ ∀ p ∈ l, p.1 ≤ b) → f x = some (onLine a ya b yb x) := by
  have hz : (l.map Prod.fst).zip (l.map Prod.snd) = l := by
    rw [zip_cols]
    exact List.map_id l
  obtain ⟨f, h0, _, h2, _, h4, h5⟩ := C57_interpolates hsrt (l.map Prod.fst) (l.map Prod.snd) (by simp) (by simpa using hn) (by rw [hz]; exact hd) (by rw [hz]; exact he)
  rw [hz] at h2 h4 h5
  have hm : ∀ c ∈ l.map Prod.fst, ∃ p ∈ l, p.1 = c := fun c hc => List.mem_map.mp hc
  refine ⟨f, h0, fun x => ?_, fun x a ya b yb h g1 g2 => ?_⟩
  · obtain ⟨p1, s1⟩ := sorted_points hsrt (l.map Prod.fst) (l.map Prod.snd) (by simp) (by rw [hz]; exact hd)
    have e0 : f = evalAt (if (l.map Prod.fst).Pairwise (· ≤ ·) then (l.map Prod.fst).zip (l.map Prod.snd) else srt ((l.map Prod.fst).zip (l.map Prod.snd))) := by
      unfold interp1d at h0
      rw [if_neg (by simp; omega)] at h0
      exact (Option.some.inj h0).symm
    rw [hz] at p1 s1 e0
    generalize (if (l.map Prod.fst).Pairwise (· ≤ ·) then l else srt l) = pts at *
    have hmem : ∀ p, p ∈ pts ↔ p ∈ l := fun p => p1.mem_iff
    have hek : EndsKnown pts := by
      unfold EndsKnown at *
      simp only [hmem]
      exact he
    obtain ⟨a, ya, b, yb, h, hev, h3, h4⟩ := evalAt_spec pts s1 (by rw [p1.length_eq]; exact hn) hek x
    refine ⟨a, ya, b, yb, ?_, ?_, ?_, by rw [e0, hev]⟩
    · unfold Neighbours at *
      simp only [hmem] at h
      exact h
    · exact h3.imp id (fun g p hp => g p ((hmem p).mpr hp))
    · exact h4.imp id (fun g p hp => g p ((hmem p).mpr hp))
  · by_cases c1 : a ≤ x
    · by_cases c2 : x ≤ b
      · exact h2 a ya b yb x h c1 c2
      · refine h5 a ya b yb x h (fun c hc => ?_) (not_le.mp c2).le
        obtain ⟨p, hp, rfl⟩ := hm c hc
        exact g2.resolve_left c2 p hp
    · refine h4 a ya b yb x h (fun c hc => ?_) (not_le.mp c1).le
      obtain ⟨p, hp, rfl⟩ := hm c hc
      exact g1.resolve_left c1 p hp

theorem onLine_affine (u v c d a ya b yb x : K) (hu : u ≠ 0) (hab : a ≠ b) :
    onLine (u * a + v) (c * ya + d) (u * b + v) (c * yb + d) (u * x + v) = c * onLine a ya b yb x + d := by
  unfold onLine
  have h1 : b - a ≠ 0 := sub_ne_zero.mpr hab.symm
  have h2 : u * b + v - (u * a + v) ≠ 0 := by
    rw [show u * b + v - (u * a + v) = u * (b - a) by ring]
    exact mul_ne_zero hu h1
  rw [show u * b + v - (u * a + v) = u * (b - a) by ring] at h2 ⊢
  field_simp
  ring

theorem onLine_swap (a ya b yb x : K) (hab : a ≠ b) : onLine b yb a ya x = onLine a ya b yb x := by
  unfold onLine
  have h1 : b - a ≠ 0 := sub_ne_zero.mpr hab.symm
  have h2 : a - b ≠ 0 := sub_ne_zero.mpr hab
  rw [show a - b = -(b - a) by ring]
  field_simp
  ring

/-- A point in other units. -/
def moved (u v c d : K) (p : K × Option K) : K × Option K := (u * p.1 + v, p.2.map (fun y => c * y + d))

/-- **C204**.  Measuring abscissae and ordinates in other units, from other origins and in other directions changes the function returned by `Interp1d` in the same way, everywhere: inside the range, outside
it and across NaN ordinates. -/
theorem C204_interp1d_units {srt srt' : List (K × Option K) → List (K × Option K)} (hsrt : ValidSort srt) (hsrt' : ValidSort srt') (l : List (K × Option K)) (hn : 2 ≤ l.length) (hd : Distinct l)
    (he : EndsKnown l) (u v c d : K) (hu : u ≠ 0) :
    ∃ f g, interp1d srt (l.map Prod.fst) (l.map Prod.snd) = some f ∧
      interp1d srt' (l.map (fun p => u * p.1 + v)) (l.map (fun p => p.2.map (fun y => c * y + d))) = some g ∧
      ∀ x, g (u * x + v) = (f x).map (fun y => c * y + d) := by
  obtain ⟨f, hf, hfx, _⟩ := interp_piece hsrt l hn hd he
  have hd' : Distinct (l.map (moved u v c d)) := distinct_map hd _ (fun a b h e => h (mul_left_cancel₀ hu (add_right_cancel e)))
  have hmem : ∀ q ∈ l.map (moved u v c d), ∃ p ∈ l, moved u v c d p = q := fun q hq => List.mem_map.mp hq
  have hin : ∀ a y, (a, some y) ∈ l → (u * a + v, some (c * y + d)) ∈ l.map (moved u v c d) := fun a y h => List.mem_map.mpr ⟨_, h, rfl⟩
  have hout : ∀ a' y', (a', some y') ∈ l.map (moved u v c d) → ∃ a y, (a, some y) ∈ l ∧ a' = u * a + v ∧ y' = c * y + d := by
    intro a' y' h
    obtain ⟨⟨a, y⟩, hp, he⟩ := hmem _ h
    rcases y with _ | y
    · simp [moved] at he
    · simp only [moved, Option.map_some, Prod.mk.injEq, Option.some.injEq] at he
      exact ⟨a, y, hp, he.1.symm, he.2.symm⟩
  have he' : EndsKnown (l.map (moved u v c d)) := by
    intro q hq
    obtain ⟨p, hp, rfl⟩ := hmem q hq
    obtain ⟨⟨a, ya, ha, h1⟩, b, yb, hb, h2⟩ := he p hp
    rcases lt_or_gt_of_ne hu with hu' | hu'
    · refine ⟨⟨_, _, hin b yb hb, ?_⟩, _, _, hin a ya ha, ?_⟩
      · have := mul_le_mul_of_nonpos_left h2 hu'.le
        show u * b + v ≤ u * p.1 + v
        linarith
      · have := mul_le_mul_of_nonpos_left h1 hu'.le
        show u * p.1 + v ≤ u * a + v
        linarith
    · refine ⟨⟨_, _, hin a ya ha, ?_⟩, _, _, hin b yb hb, ?_⟩
      · have := mul_le_mul_of_nonneg_left h1 hu'.le
        show u * a + v ≤ u * p.1 + v
        linarith
      · have := mul_le_mul_of_nonneg_left h2 hu'.le
        show u * p.1 + v ≤ u * b + v
        linarith
  obtain ⟨g, hg, _, hgx⟩ := interp_piece hsrt' (l.map (moved u v c d)) (by simpa using hn) hd' he'
  rw [List.map_map, List.map_map] at hg
  refine ⟨f, g, hf, hg, fun x => ?_⟩
  obtain ⟨a, ya, b, yb, ⟨m1, m2, hab, hno⟩, g1, g2, e⟩ := hfx x
  rw [e, Option.map_some]
  rcases lt_or_gt_of_ne hu with hu' | hu'
  · have anti : ∀ s t : K, s ≤ t → u * t + v ≤ u * s + v := fun s t h => by
      have := mul_le_mul_of_nonpos_left h hu'.le
      linarith
    have anti' : ∀ s t : K, u * t + v < u * s + v → s < t := fun s t h => not_le.mp (fun g => absurd h (not_lt.mpr (anti _ _ g)))
    rw [hgx (u * x + v) (u * b + v) (c * yb + d) (u * a + v) (c * ya + d) ⟨hin _ _ m2, hin _ _ m1, ?_, ?_⟩ ?_ ?_]
    · rw [onLine_affine _ _ _ _ _ _ _ _ _ hu hab.ne', onLine_swap _ _ _ _ _ hab.ne]
    · have := mul_lt_mul_of_neg_left hab hu'
      linarith
    · intro c' y' hc
      obtain ⟨c0, y0, hc0, rfl, rfl⟩ := hout _ _ hc
      rintro ⟨k1, k2⟩
      exact hno c0 y0 hc0 ⟨anti' _ _ k2, anti' _ _ k1⟩
    · refine g2.imp (fun h => anti _ _ h) (fun h q hq => ?_)
      obtain ⟨p, hp, rfl⟩ := hmem q hq
      exact anti _ _ (h p hp)
    · refine g1.imp (fun h => anti _ _ h) (fun h q hq => ?_)
      obtain ⟨p, hp, rfl⟩ := hmem q hq
      exact anti _ _ (h p hp)
  · have mono : ∀ s t : K, s ≤ t → u * s + v ≤ u * t + v := fun s t h => by
      have := mul_le_mul_of_nonneg_left h hu'.le
      linarith
    have mono' : ∀ s t : K, u * s + v < u * t + v → s < t := fun s t h => not_le.mp (fun g => absurd h (not_lt.mpr (mono _ _ g)))
    rw [hgx (u * x + v) (u * a + v) (c * ya + d) (u * b + v) (c * yb + d) ⟨hin _ _ m1, hin _ _ m2, ?_, ?_⟩ ?_ ?_]
    · rw [onLine_affine _ _ _ _ _ _ _ _ _ hu hab.ne]
    · have := mul_lt_mul_of_pos_left hab hu'
      linarith
    · intro c' y' hc
      obtain ⟨c0, y0, hc0, rfl, rfl⟩ := hout _ _ hc
      rintro ⟨k1, k2⟩
      exact hno c0 y0 hc0 ⟨mono' _ _ k1, mono' _ _ k2⟩
    · refine g1.imp (fun h => mono _ _ h) (fun h q hq => ?_)
      obtain ⟨p, hp, rfl⟩ := hmem q hq
      exact mono _ _ (h p hp)
    · refine g2.imp (fun h => mono _ _ h) (fun h q hq => ?_)
      obtain ⟨p, hp, rfl⟩ := hmem q hq
      exact mono _ _ (h p hp)

/-- **C204**.  Two series known at the same abscissae: interpolating a combination of them is combining the interpolations. -/
theorem C204_interp1d_sum {srt₁ srt₂ srt₃ : List (K × Option K) → List (K × Option K)} (h₁ : ValidSort srt₁) (h₂ : ValidSort srt₂) (h₃ : ValidSort srt₃) (l : List (K × Option (K × K))) (hn : 2 ≤ l.length)
    (hd : Distinct l) (he : EndsKnown (l.map (fun p => (p.1, p.2.map Prod.fst)))) (α β : K) :
    ∃ f g h, interp1d srt₁ (l.map Prod.fst) (l.map (fun p => p.2.map Prod.fst)) = some f ∧ interp1d srt₂ (l.map Prod.fst) (l.map (fun p => p.2.map Prod.snd)) = some g ∧
      interp1d srt₃ (l.map Prod.fst) (l.map (fun p => p.2.map (fun w => α * w.1 + β * w.2))) = some h ∧ ∀ x, ∃ y z, f x = some y ∧ g x = some z ∧ h x = some (α * y + β * z) := by
  have hin : ∀ (φ : K × K → K) a w, (a, some w) ∈ l → (a, some (φ w)) ∈ l.map (fun p => (p.1, p.2.map φ)) := fun φ a w h => List.mem_map.mpr ⟨_, h, rfl⟩
  have hout : ∀ (φ : K × K → K) a y, (a, some y) ∈ l.map (fun p => (p.1, p.2.map φ)) → ∃ w, (a, some w) ∈ l ∧ y = φ w := by
    intro φ a y h
    obtain ⟨⟨a', w⟩, hp, e⟩ := List.mem_map.mp h
    rcases w with _ | w
    · simp at e
    · simp only [Option.map_some, Prod.mk.injEq, Option.some.injEq] at e
      exact ⟨w, by rw [← e.1]; exact hp, e.2.symm⟩
  have hd' : ∀ φ : K × K → K, Distinct (l.map (fun p => (p.1, p.2.map φ))) := fun φ => distinct_map hd _ (fun a b h => h)
  have he' : ∀ φ : K × K → K, EndsKnown (l.map (fun p => (p.1, p.2.map φ))) := by
    intro φ q hq
    obtain ⟨p, hp, rfl⟩ := List.mem_map.mp hq
    obtain ⟨⟨a, ya, ha, h1⟩, b, yb, hb, h2⟩ := he _ (List.mem_map.mpr ⟨p, hp, rfl⟩)
    obtain ⟨wa, ha, _⟩ := hout _ _ _ ha
    obtain ⟨wb, hb, _⟩ := hout _ _ _ hb
    exact ⟨⟨a, _, hin φ a wa ha, h1⟩, b, _, hin φ b wb hb, h2⟩
  have key : ∀ (srt : List (K × Option K) → List (K × Option K)) (φ : K × K → K), ValidSort srt → ∃ f, interp1d srt (l.map Prod.fst) (l.map (fun p => p.2.map φ)) = some f ∧
      (∀ x, ∃ a ya b yb, Neighbours (l.map (fun p => (p.1, p.2.map φ))) a ya b yb ∧ (a ≤ x ∨ ∀ p ∈ l, a ≤ p.1) ∧ (x ≤ b ∨ ∀ p ∈ l, p.1 ≤ b) ∧ f x = some (onLine a ya b yb x)) ∧
      ∀ x a wa b wb, (a, some wa) ∈ l → (b, some wb) ∈ l → a < b → (∀ c w, (c, some w) ∈ l → ¬ (a < c ∧ c < b)) → (a ≤ x ∨ ∀ p ∈ l, a ≤ p.1) → (x ≤ b ∨ ∀ p ∈ l, p.1 ≤ b) →
        f x = some (onLine a (φ wa) b (φ wb) x) := by
    intro srt φ hs
    obtain ⟨f, e, f1, f2⟩ := interp_piece hs (l.map (fun p => (p.1, p.2.map φ))) (by simpa using hn) (hd' φ) (he' φ)
    rw [List.map_map, List.map_map] at e
    refine ⟨f, e, fun x => ?_, fun x a wa b wb ma mb hab hno g1 g2 => ?_⟩
    · obtain ⟨a, ya, b, yb, h, g1, g2, e⟩ := f1 x
      exact ⟨a, ya, b, yb, h, g1.imp id (fun g p hp => g _ (List.mem_map.mpr ⟨p, hp, rfl⟩)), g2.imp id (fun g p hp => g _ (List.mem_map.mpr ⟨p, hp, rfl⟩)), e⟩
    · refine f2 x a _ b _ ⟨hin φ a wa ma, hin φ b wb mb, hab, fun c yc hc => ?_⟩ (g1.imp id (fun g q hq => ?_)) (g2.imp id (fun g q hq => ?_))
      · obtain ⟨w, hw, _⟩ := hout _ _ _ hc
        exact hno c w hw
      · obtain ⟨p, hp, rfl⟩ := List.mem_map.mp hq
        exact g p hp
      · obtain ⟨p, hp, rfl⟩ := List.mem_map.mp hq
        exact g p hp
  obtain ⟨f, ef, f1, f2⟩ := key srt₁ Prod.fst h₁
  obtain ⟨g, eg, _, k2⟩ := key srt₂ Prod.snd h₂
  obtain ⟨h, eh, _, q2⟩ := key srt₃ (fun w => α * w.1 + β * w.2) h₃
  refine ⟨f, g, h, ef, eg, eh, fun x => ?_⟩
  obtain ⟨a, ya, b, yb, ⟨m1, m2, hab, hno⟩, g1, g2, _⟩ := f1 x
  obtain ⟨wa, ma, _⟩ := hout _ _ _ m1
  obtain ⟨wb, mb, _⟩ := hout _ _ _ m2
  have hno' : ∀ c w, (c, some w) ∈ l → ¬ (a < c ∧ c < b) := fun c w hc => hno c _ (hin _ c w hc)
  refine ⟨_, _, f2 x a wa b wb ma mb hab hno' g1 g2, k2 x a wa b wb ma mb hab hno' g1 g2, ?_⟩
  rw [q2 x a wa b wb ma mb hab hno' g1 g2]
  congr 1
  unfold onLine
  ring

/-- **C204**.  Points on a straight line are interpolated, and extrapolated, by that line. -/
theorem C204_interp1d_line {srt : List (K × Option K) → List (K × Option K)} (hsrt : ValidSort srt) (l : List (K × Option K)) (hn : 2 ≤ l.length) (hd : Distinct l) (he : EndsKnown l) (p q : K)
    (hl : ∀ a y, (a, some y) ∈ l → y = p + q * a) : ∃ f, interp1d srt (l.map Prod.fst) (l.map Prod.snd) = some f ∧ ∀ x, f x = some (p + q * x) := by
  obtain ⟨f, hf, hfx, _⟩ := interp_piece hsrt l hn hd he
  refine ⟨f, hf, fun x => ?_⟩
  obtain ⟨a, ya, b, yb, ⟨m1, m2, hab, _⟩, _, _, e⟩ := hfx x
  rw [e, hl _ _ m1, hl _ _ m2]
  congr 1
  unfold onLine
  have : b - a ≠ 0 := sub_ne_zero.mpr hab.ne'
  field_simp
  ring

/-- **C204**.  If the known ordinates do not decrease, neither does the function returned by `Interp1d`. -/
theorem C204_interp1d_monotone {srt : List (K × Option K) → List (K × Option K)} (hsrt : ValidSort srt) (l : List (K × Option K)) (hn : 2 ≤ l.length) (hd : Distinct l) (he : EndsKnown l)
    (hm : ∀ a y b z, (a, some y) ∈ l → (b, some z) ∈ l → a ≤ b → y ≤ z) :
    ∃ f, interp1d srt (l.map Prod.fst) (l.map Prod.snd) = some f ∧ ∀ x x', x ≤ x' → ∃ y y', f x = some y ∧ f x' = some y' ∧ y ≤ y' := by
  obtain ⟨f, hf, hfx, _⟩ := interp_piece hsrt l hn hd he
  refine ⟨f, hf, fun x x' hx => ?_⟩
  have grow : ∀ {a ya b yb s t : K}, a < b → ya ≤ yb → s ≤ t → onLine a ya b yb s ≤ onLine a ya b yb t := by
    intro a ya b yb s t h1 h2 h3
    unfold onLine
    have := mul_le_mul_of_nonneg_right (sub_le_sub_right h3 a) (div_nonneg (sub_nonneg.mpr h2) (sub_pos.mpr h1).le)
    linarith
  obtain ⟨a, ya, b, yb, ⟨m1, m2, hab, hno⟩, g1, g2, e⟩ := hfx x
  obtain ⟨a', ya', b', yb', ⟨m1', m2', hab', hno'⟩, g1', g2', e'⟩ := hfx x'
  refine ⟨_, _, e, e', ?_⟩
  have hy := hm _ _ _ _ m1 m2 hab.le
  have hy' := hm _ _ _ _ m1' m2' hab'.le
  rcases le_or_gt b a' with hc | hc
  · have hxb : x ≤ b := g2.elim id (fun g => absurd (lt_of_le_of_lt hc hab') (not_lt.mpr (g _ m2')))
    have hxa : a' ≤ x' := g1'.elim id (fun g => absurd (lt_of_lt_of_le hab hc) (not_lt.mpr (g _ m1)))
    have s1 := grow hab hy hxb
    have s2 := grow hab' hy' hxa
    rw [onLine_right _ _ _ _ hab] at s1
    rw [onLine_left] at s2
    exact le_trans s1 (le_trans (hm _ _ _ _ m2 m1' hc) s2)
  · rcases le_or_gt b' a with hc' | hc'
    · have hxa : a ≤ x := g1.elim id (fun g => absurd (lt_of_lt_of_le hab' hc') (not_lt.mpr (g _ m1')))
      have hxb : x' ≤ b' := g2'.elim id (fun g => absurd (lt_of_le_of_lt hc' hab) (not_lt.mpr (g _ m2)))
      have e1 : x = a := le_antisymm (le_trans hx (le_trans hxb hc')) hxa
      have e2 : x' = b' := le_antisymm hxb (le_trans hc' (le_trans hxa hx))
      have e3 : a = b' := le_antisymm (by rw [← e1, ← e2]; exact hx) hc'
      rw [e1, e2, onLine_left, onLine_right _ _ _ _ hab']
      exact hm _ _ _ _ m1 m2' e3.le
    · have ha : a = a' := by
        rcases lt_trichotomy a a' with g | g | g
        · exact absurd ⟨g, hc⟩ (hno _ _ m1')
        · exact g
        · exact absurd ⟨g, hc'⟩ (hno' _ _ m1)
      have hb : b = b' := by
        subst ha
        rcases lt_trichotomy b b' with g | g | g
        · exact absurd ⟨hab, g⟩ (hno' _ _ m2)
        · exact g
        · exact absurd ⟨hab', g⟩ (hno _ _ m2')
      subst ha hb
      have u1 : ya = ya' := Option.some.inj (distinct_unique hd m1 m1')
      have u2 : yb = yb' := Option.some.inj (distinct_unique hd m2 m2')
      rw [← u1, ← u2]
      exact grow hab hy hx

/-- Non-vacuity: four points out of order, one ordinate NaN; abscissae mirrored, ordinates in other units. -/
example : (2 ≤ ([(4, some 8), (0, some 1), (1, some 2), (3, none)] : List (ℚ × Option ℚ)).length) ∧ Distinct ([(4, some 8), (0, some 1), (1, some 2), (3, none)] : List (ℚ × Option ℚ)) ∧
    EndsKnown ([(4, some 8), (0, some 1), (1, some 2), (3, none)] : List (ℚ × Option ℚ)) ∧
    (interp1d (fun l => l.insertionSort (fun a b => a.1 ≤ b.1)) [4, 0, 1, 3] [some 8, some 1, some 2, none]).map (fun f => f (2 : ℚ)) = some (some 4) ∧
    (interp1d (fun l => l.insertionSort (fun a b => a.1 ≤ b.1)) [-7, 1, -1, -5] [some 25, some 4, some 7, none]).map (fun f => f (-3 : ℚ)) = some (some 13) := by
  refine ⟨by decide, by unfold Distinct; decide +kernel, ?_, by decide +kernel, by decide +kernel⟩
  intro p hp
  simp at hp
  rcases hp with rfl | rfl | rfl | rfl
  · exact ⟨⟨0, 1, by simp, by norm_num⟩, 4, 8, by simp, by norm_num⟩
  · exact ⟨⟨0, 1, by simp, by norm_num⟩, 4, 8, by simp, by norm_num⟩
  · exact ⟨⟨0, 1, by simp, by norm_num⟩, 4, 8, by simp, by norm_num⟩
  · exact ⟨⟨0, 1, by simp, by norm_num⟩, 4, 8, by simp, by norm_num⟩

end linear

/-! ## Splines -/

section spline

theorem getD_map_of {α : Type} (l : List α) (f : α → ℝ) (i : ℕ) (hi : i < l.length) : (l.map f).getD i 0 = f (l[i]) := by
  rw [List.getD_eq_getElem?_getD, List.getElem?_map, List.getElem?_eq_getElem hi]
  rfl

theorem getD_ge (l : List ℝ) (i : ℕ) (hi : l.length ≤ i) : l.getD i 0 = 0 := by
  rw [List.getD_eq_getElem?_getD, List.getElem?_eq_none hi]
  rfl

/-- On sorted columns nothing is moved. -/
theorem cubicSpline_sorted (srt : List (ℝ × ℝ) → List (ℝ × ℝ)) (solve : List ℝ → List ℝ → List ℝ) (us vs : List ℝ) (hn : 2 ≤ us.length) (hl : us.length = vs.length) (hs : us.Pairwise (· < ·)) :
    cubicSpline srt solve us vs = some (spline us vs (solve us vs)) := by
  unfold cubicSpline
  rw [if_neg (by omega)]
  simp only [if_pos (hs.imp le_of_lt)]
  rw [List.map_fst_zip (by omega), List.map_snd_zip (by omega)]

/-- The list of points sorted by abscissa. -/
theorem exists_sorted {V : Type} (l : List (ℝ × V)) (hd : Distinct l) : ∃ m : List (ℝ × V), m.Perm l ∧ (m.map Prod.fst).Pairwise (· < ·) := by
  classical
  have : Std.Total (fun a b : ℝ × V => a.1 ≤ b.1) := ⟨fun a b => le_total a.1 b.1⟩
  have : IsTrans (ℝ × V) (fun a b => a.1 ≤ b.1) := ⟨fun a b c => le_trans⟩
  have hp := List.perm_insertionSort (fun a b : ℝ × V => a.1 ≤ b.1) l
  refine ⟨l.insertionSort (fun a b => a.1 ≤ b.1), hp, ?_⟩
  rw [List.pairwise_map]
  have hd' : (l.insertionSort (fun a b => a.1 ≤ b.1)).Pairwise (fun a b => a.1 ≠ b.1) := hp.symm.pairwise hd (fun h => h.symm)
  exact ((List.pairwise_insertionSort (fun a b : ℝ × V => a.1 ≤ b.1) l).and hd').imp (fun ⟨h1, h2⟩ => lt_of_le_of_ne h1 h2)

/-- The spline through a column of a list of points is computed on the sorted list. -/
theorem cubicSpline_cols {V : Type} {srt : List (ℝ × ℝ) → List (ℝ × ℝ)} (hsrt : ValidSort srt) (solve : List ℝ → List ℝ → List ℝ) (l m : List (ℝ × V)) (hn : 2 ≤ l.length) (hd : Distinct l) (hp : m.Perm l)
    (hs : (m.map Prod.fst).Pairwise (· < ·)) (φ : V → ℝ) :
    cubicSpline srt solve (l.map Prod.fst) (l.map (fun p => φ p.2)) = some (spline (m.map Prod.fst) (m.map (fun p => φ p.2)) (solve (m.map Prod.fst) (m.map (fun p => φ p.2)))) := by
  rw [← cubicSpline_sorted srt solve _ _ (by simpa [hp.length_eq] using hn) (by simp) hs]
  refine C58_order hsrt hsrt solve _ _ _ _ (by simp) (by simp) ?_ ?_
  · rw [zip_cols]
    exact distinct_map hd (fun a => (a.1, φ a.2)) (fun _ _ h => h)
  · rw [zip_cols, zip_cols]
    exact (hp.symm.map _)

theorem solver_unique {solve : List ℝ → List ℝ → List ℝ} (hsol : SolverOK solve) {us vs ks : List ℝ} (hn : 2 ≤ us.length) (hl : us.length = vs.length) (hs : us.Pairwise (· < ·)) (h : Solves us vs ks) :
    solve us vs = ks := (C58_system us vs hn hs).unique (hsol us vs hn hl hs) h

/-- A combination of two columns. -/
theorem spline_comb {us ys zs ws ks ms ns : List ℝ} (α β : ℝ) (hy : ∀ i, ws.getD i 0 = α * ys.getD i 0 + β * zs.getD i 0) (hk : ∀ i, ns.getD i 0 = α * ks.getD i 0 + β * ms.getD i 0) (x : ℝ) :
    spline us ws ns x = α * spline us ys ks x + β * spline us zs ms x := by
  unfold spline cubic
  simp only [hy, hk]
  ring

theorem solves_comb {us ys zs ws ks ms : List ℝ} (α β : ℝ) (hy : ∀ i, ws.getD i 0 = α * ys.getD i 0 + β * zs.getD i 0) (h1 : Solves us ys ks) (h2 : Solves us zs ms) :
    ∃ ns, Solves us ws ns ∧ ∀ i, ns.getD i 0 = α * ks.getD i 0 + β * ms.getD i 0 := by
  have hg : ∀ i, ((List.range us.length).map (fun i => α * ks.getD i 0 + β * ms.getD i 0)).getD i 0 = α * ks.getD i 0 + β * ms.getD i 0 := by
    intro i
    rcases Nat.lt_or_ge i us.length with h | h
    · rw [getD_map_of _ _ _ (by simpa using h)]
      simp
    · rw [getD_ge _ _ (by simpa using h), getD_ge ks i (by rw [h1.1]; exact h), getD_ge ms i (by rw [h2.1]; exact h)]
      ring
  refine ⟨(List.range us.length).map (fun i => α * ks.getD i 0 + β * ms.getD i 0), ⟨by simp, fun i hi => ?_⟩, hg⟩
  have e1 := h1.2 i hi
  have e2 := h2.2 i hi
  have e3 : rhsB us ws (us.length - 1) i = α * rhsB us ys (us.length - 1) i + β * rhsB us zs (us.length - 1) i := by
    unfold rhsB
    simp only [hy]
    split
    · ring
    · split <;> ring
  rw [e3, ← e1, ← e2, Finset.mul_sum, Finset.mul_sum, ← Finset.sum_add_distrib]
  refine Finset.sum_congr rfl (fun j _ => ?_)
  rw [hg]
  ring

/-- The slopes of a straight line are all equal. -/
theorem solves_line {us vs : List ℝ} (hn : 2 ≤ us.length) (hs : us.Pairwise (· < ·)) (p q : ℝ) (hv : ∀ i < us.length, vs.getD i 0 = p + q * us.getD i 0) :
    Solves us vs (List.replicate us.length q) := by
  have hg : ∀ i < us.length, (List.replicate us.length q).getD i 0 = q := by
    intro i hi
    simp [List.getD_eq_getElem?_getD, hi]
  refine ⟨by simp, fun i hi => ?_⟩
  rw [Finset.sum_congr rfl (fun j hj => by rw [hg j (Finset.mem_range.mp hj)])]
  have gap : ∀ e, e + 1 < us.length → us.getD (e + 1) 0 - us.getD e 0 ≠ 0 := fun e he => sub_ne_zero.mpr (getD_lt hs (by omega) he).ne'
  have dif : ∀ e, e + 1 < us.length → vs.getD (e + 1) 0 - vs.getD e 0 = q * (us.getD (e + 1) 0 - us.getD e 0) := fun e he => by
    rw [hv (e + 1) he, hv e (by omega)]
    ring
  rcases Nat.eq_zero_or_pos i with h0 | h0
  · subst h0
    obtain ⟨n, hn'⟩ : ∃ n, us.length = n + 1 := ⟨us.length - 1, by omega⟩
    have g := gap 0 (by omega)
    have d := dif 0 (by omega)
    rw [hn', Nat.add_sub_cancel, band_row_first us (fun _ => q) n (by omega)]
    unfold rhsB
    simp only [if_true]
    rw [d]
    simp only [zero_add] at g ⊢
    field_simp
    ring
  · rcases Nat.lt_or_ge i (us.length - 1) with h1 | h1
    · obtain ⟨n, hn'⟩ : ∃ n, us.length = n + 1 := ⟨us.length - 1, by omega⟩
      obtain ⟨e, rfl⟩ : ∃ e, i = e + 1 := ⟨i - 1, by omega⟩
      have g := gap e (by omega)
      have g' := gap (e + 1) (by omega)
      have d := dif e (by omega)
      have d' := dif (e + 1) (by omega)
      rw [hn', Nat.add_sub_cancel, band_row_mid us (fun _ => q) n e (by omega)]
      unfold rhsB
      simp only []
      rw [if_neg (by omega), if_neg (by omega), Nat.add_sub_cancel, d, d']
      simp only [show e + 1 + 1 = e + 2 from rfl] at g' ⊢
      field_simp
      ring
    · obtain ⟨n, hn'⟩ : ∃ n, us.length = n + 2 := ⟨us.length - 2, by omega⟩
      have : i = n + 1 := by omega
      subst this
      have g := gap n (by omega)
      have d := dif n (by omega)
      rw [hn', show n + 2 - 1 = n + 1 from rfl, band_row_last us (fun _ => q) n]
      unfold rhsB
      simp only [if_true]
      rw [if_neg (by omega), Nat.add_sub_cancel, d]
      field_simp
      ring

theorem spline_line {us vs : List ℝ} (hn : 2 ≤ us.length) (hs : us.Pairwise (· < ·)) (p q : ℝ) (hv : ∀ i < us.length, vs.getD i 0 = p + q * us.getD i 0) (x : ℝ) :
    spline us vs (List.replicate us.length q) x = p + q * x := by
  have hg : ∀ i < us.length, (List.replicate us.length q).getD i 0 = q := by
    intro i hi
    simp [List.getD_eq_getElem?_getD, hi]
  obtain ⟨s1, s2, _, _⟩ := segment_spec us x us.length 1 (by omega) (by omega)
  unfold spline
  simp only []
  generalize segment us x us.length 1 = j at *
  have g := gap_ne hs s1 s2
  rw [hv j (by omega), hv (j - 1) (by omega), hg j (by omega), hg (j - 1) (by omega)]
  unfold cubic
  simp only []
  field_simp
  ring

/-- **C204**.  Two series at the same abscissae: the spline through a combination of them is the combination of the splines. -/
theorem C204_spline_sum {srt₁ srt₂ srt₃ : List (ℝ × ℝ) → List (ℝ × ℝ)} (h₁ : ValidSort srt₁) (h₂ : ValidSort srt₂) (h₃ : ValidSort srt₃) {solve : List ℝ → List ℝ → List ℝ} (hsol : SolverOK solve)
    (l : List (ℝ × ℝ × ℝ)) (hn : 2 ≤ l.length) (hd : Distinct l) (α β : ℝ) :
    ∃ f g h, cubicSpline srt₁ solve (l.map Prod.fst) (l.map (fun p => p.2.1)) = some f ∧ cubicSpline srt₂ solve (l.map Prod.fst) (l.map (fun p => p.2.2)) = some g ∧
      cubicSpline srt₃ solve (l.map Prod.fst) (l.map (fun p => α * p.2.1 + β * p.2.2)) = some h ∧ ∀ x, h x = α * f x + β * g x := by
  obtain ⟨m, hp, hs⟩ := exists_sorted l hd
  have hnm : 2 ≤ (m.map Prod.fst).length := by simpa [hp.length_eq] using hn
  refine ⟨_, _, _, cubicSpline_cols h₁ solve l m hn hd hp hs Prod.fst, cubicSpline_cols h₂ solve l m hn hd hp hs Prod.snd,
    cubicSpline_cols h₃ solve l m hn hd hp hs (fun w => α * w.1 + β * w.2), fun x => ?_⟩
  have hy : ∀ i, (m.map (fun p => α * p.2.1 + β * p.2.2)).getD i 0 = α * (m.map (fun p => p.2.1)).getD i 0 + β * (m.map (fun p => p.2.2)).getD i 0 := by
    intro i
    rcases Nat.lt_or_ge i m.length with h | h
    · rw [getD_map_of _ _ _ h, getD_map_of _ _ _ h, getD_map_of _ _ _ h]
    · rw [getD_ge _ _ (by simpa using h), getD_ge _ _ (by simpa using h), getD_ge _ _ (by simpa using h)]
      ring
  obtain ⟨ns, hns, hk⟩ := solves_comb α β hy (hsol (m.map Prod.fst) (m.map (fun p => p.2.1)) hnm (by simp) hs) (hsol (m.map Prod.fst) (m.map (fun p => p.2.2)) hnm (by simp) hs)
  rw [solver_unique hsol hnm (by simp) hs hns]
  exact spline_comb α β hy hk x

/-- **C204**.  The spline through points of a straight line is that line, on the whole axis. -/
theorem C204_spline_line {srt : List (ℝ × ℝ) → List (ℝ × ℝ)} (hsrt : ValidSort srt) {solve : List ℝ → List ℝ → List ℝ} (hsol : SolverOK solve) (xs : List ℝ) (hn : 2 ≤ xs.length) (hd : xs.Nodup) (p q : ℝ) :
    ∃ f, cubicSpline srt solve xs (xs.map (fun a => p + q * a)) = some f ∧ ∀ x, f x = p + q * x := by
  have hd' : Distinct (xs.map (fun a => (a, p + q * a))) := by
    unfold Distinct
    rw [List.pairwise_map]
    exact hd
  obtain ⟨m, hp, hs⟩ := exists_sorted _ hd'
  have hnm : 2 ≤ (m.map Prod.fst).length := by simpa [hp.length_eq] using hn
  have e := cubicSpline_cols hsrt solve _ m (by simpa using hn) hd' hp hs id
  rw [List.map_map, List.map_map] at e
  have e1 : xs.map (Prod.fst ∘ fun a => (a, p + q * a)) = xs := List.map_id xs
  rw [e1] at e
  refine ⟨_, e, fun x => ?_⟩
  have hv : ∀ i < (m.map Prod.fst).length, (m.map (fun r => id r.2)).getD i 0 = p + q * (m.map Prod.fst).getD i 0 := by
    intro i hi
    have hi' : i < m.length := by simpa using hi
    rw [getD_map_of _ _ _ hi', getD_map_of _ _ _ hi']
    obtain ⟨a, _, ha⟩ := List.mem_map.mp (hp.mem_iff.mp (List.getElem_mem hi'))
    rw [← ha]
    rfl
  rw [solver_unique hsol hnm (by simp) hs (solves_line hnm hs p q hv)]
  exact spline_line hnm hs p q hv x

/-! ### Abscissae in other units -/

theorem getD_affine (us : List ℝ) (u v : ℝ) (i : ℕ) (hi : i < us.length) : (us.map (fun a => u * a + v)).getD i 0 = u * us.getD i 0 + v := by
  rw [getD_map_of _ _ _ hi, List.getD_eq_getElem?_getD, List.getElem?_eq_getElem hi]
  rfl

theorem cubic_units (x₀ x₁ y₀ y₁ k₀ k₁ x u v : ℝ) (hu : u ≠ 0) (h : x₁ - x₀ ≠ 0) : cubic (u * x₀ + v) (u * x₁ + v) y₀ y₁ (k₀ / u) (k₁ / u) (u * x + v) = cubic x₀ x₁ y₀ y₁ k₀ k₁ x := by
  unfold cubic
  simp only []
  rw [show u * x₁ + v - (u * x₀ + v) = u * (x₁ - x₀) by ring, show u * x + v - (u * x₀ + v) = u * (x - x₀) by ring, mul_div_mul_left _ _ hu]
  rw [show k₀ / u * (u * (x₁ - x₀)) = k₀ * (x₁ - x₀) by field_simp, show -(k₁ / u) * (u * (x₁ - x₀)) = -k₁ * (x₁ - x₀) by field_simp]

theorem cubic_swap (x₀ x₁ y₀ y₁ k₀ k₁ x : ℝ) (h : x₁ - x₀ ≠ 0) : cubic x₁ x₀ y₁ y₀ k₁ k₀ x = cubic x₀ x₁ y₀ y₁ k₀ k₁ x := by
  have e : (x - x₁) / (x₀ - x₁) = 1 - (x - x₀) / (x₁ - x₀) := by
    have h' : x₀ - x₁ ≠ 0 := by
      intro g
      apply h
      linarith
    field_simp
    rw [show x₀ - x₁ = -(x₁ - x₀) by ring]
    field_simp
    ring
  unfold cubic
  simp only [e]
  ring

theorem solves_units {us vs ks : List ℝ} (u v : ℝ) (hu : u ≠ 0) (hn : 2 ≤ us.length) (hs : us.Pairwise (· < ·)) (h : Solves us vs ks) :
    Solves (us.map (fun a => u * a + v)) vs (ks.map (fun k => k / u)) := by
  have gap : ∀ e, e + 1 < us.length → (us.map (fun a => u * a + v)).getD (e + 1) 0 - (us.map (fun a => u * a + v)).getD e 0 = u * (us.getD (e + 1) 0 - us.getD e 0) := by
    intro e he
    rw [getD_affine _ _ _ _ he, getD_affine _ _ _ _ (by omega)]
    ring
  have hk : ∀ j, (ks.map (fun k => k / u)).getD j 0 = ks.getD j 0 / u := by
    intro j
    rcases Nat.lt_or_ge j ks.length with h | h
    · rw [getD_map_of _ _ _ h, List.getD_eq_getElem?_getD, List.getElem?_eq_getElem h]
      rfl
    · rw [getD_ge _ _ (by simpa using h), getD_ge _ _ h, zero_div]
  refine ⟨by simp [h.1], fun i hi => ?_⟩
  rw [List.length_map] at hi ⊢
  have hr : rhsB (us.map (fun a => u * a + v)) vs (us.length - 1) i = rhsB us vs (us.length - 1) i / (u * u) := by
    unfold rhsB
    simp only []
    split
    · rw [gap 0 (by omega), show u * (us.getD (0 + 1) 0 - us.getD 0 0) * (u * (us.getD (0 + 1) 0 - us.getD 0 0)) = (us.getD (0 + 1) 0 - us.getD 0 0) * (us.getD (0 + 1) 0 - us.getD 0 0) * (u * u) by ring, div_mul_eq_div_div]
    · split
      · rw [gap (us.length - 1 - 1) (by omega)]
        generalize us.getD (us.length - 1 - 1 + 1) 0 - us.getD (us.length - 1 - 1) 0 = w
        rw [show u * w * (u * w) = w * w * (u * u) by ring, div_mul_eq_div_div]
      · rw [gap (i - 1) (by omega), gap i (by omega)]
        generalize us.getD (i - 1 + 1) 0 - us.getD (i - 1) 0 = w
        generalize us.getD (i + 1) 0 - us.getD i 0 = w'
        rw [show u * w * (u * w) = w * w * (u * u) by ring, div_mul_eq_div_div, show u * w' * (u * w') = w' * w' * (u * u) by ring, div_mul_eq_div_div]
        ring
  rw [hr, ← h.2 i hi, Finset.sum_div]
  refine Finset.sum_congr rfl (fun j hj => ?_)
  have hj' := Finset.mem_range.mp hj
  rw [hk]
  have hb : bandA (us.map (fun a => u * a + v)) (us.length - 1) i j = bandA us (us.length - 1) i j / u := by
    unfold bandA
    simp only []
    split
    · split
      · rw [gap 0 (by omega), mul_comm u, div_mul_eq_div_div]
      · split
        · rw [gap (us.length - 1 - 1) (by omega), mul_comm u, div_mul_eq_div_div]
        · rw [gap (i - 1) (by omega), gap i (by omega), mul_comm u, mul_comm u, div_mul_eq_div_div, div_mul_eq_div_div]
          ring
    · split
      · rw [gap i (by omega), mul_comm u, div_mul_eq_div_div]
      · split
        · rw [gap j (by omega), mul_comm u, div_mul_eq_div_div]
        · rw [zero_div]
  rw [hb, div_mul_div_comm]

theorem getD_reverse (l : List ℝ) (i : ℕ) (hi : i < l.length) : l.reverse.getD i 0 = l.getD (l.length - 1 - i) 0 := by
  rw [List.getD_eq_getElem?_getD, List.getElem?_reverse hi, List.getD_eq_getElem?_getD]

/-- Points listed backwards: the same system, listed backwards, with the gaps of the other sign. -/
theorem solves_reverse {us vs ks : List ℝ} (hl : us.length = vs.length) (h : Solves us vs ks) (hn : 2 ≤ us.length) : Solves us.reverse vs.reverse (ks.reverse) := by
  obtain ⟨n, hn'⟩ : ∃ n, us.length = n + 1 := ⟨us.length - 1, by omega⟩
  have hu : ∀ i < n + 1, us.reverse.getD i 0 = us.getD (n - i) 0 := fun i hi => by rw [getD_reverse _ _ (by omega), hn', Nat.add_sub_cancel]
  have hv : ∀ i < n + 1, vs.reverse.getD i 0 = vs.getD (n - i) 0 := fun i hi => by rw [getD_reverse _ _ (by omega), ← hl, hn', Nat.add_sub_cancel]
  have hk : ∀ i < n + 1, ks.reverse.getD i 0 = ks.getD (n - i) 0 := fun i hi => by rw [getD_reverse _ _ (by rw [h.1]; omega), h.1, hn', Nat.add_sub_cancel]
  have gap : ∀ e, e < n → us.reverse.getD (e + 1) 0 - us.reverse.getD e 0 = -(us.getD (n - 1 - e + 1) 0 - us.getD (n - 1 - e) 0) := by
    intro e he
    rw [hu (e + 1) (by omega), hu e (by omega), show n - (e + 1) = n - 1 - e by omega, show n - e = n - 1 - e + 1 by omega]
    ring
  have gapv : ∀ e, e < n → vs.reverse.getD (e + 1) 0 - vs.reverse.getD e 0 = -(vs.getD (n - 1 - e + 1) 0 - vs.getD (n - 1 - e) 0) := by
    intro e he
    rw [hv (e + 1) (by omega), hv e (by omega), show n - (e + 1) = n - 1 - e by omega, show n - e = n - 1 - e + 1 by omega]
    ring
  refine ⟨by simp [h.1], fun i hi => ?_⟩
  rw [List.length_reverse, hn'] at hi ⊢
  rw [Nat.add_sub_cancel]
  have hrow := h.2 (n - i) (by omega)
  rw [hn', Nat.add_sub_cancel] at hrow
  have hr : rhsB us.reverse vs.reverse n i = -rhsB us vs n (n - i) := by
    unfold rhsB
    simp only []
    rcases Nat.eq_zero_or_pos i with h0 | h0
    · subst h0
      rw [if_pos rfl, if_neg (by omega), if_pos (by omega), gap 0 (by omega), gapv 0 (by omega), Nat.sub_zero]
      generalize us.getD (n - 1 + 1) 0 - us.getD (n - 1) 0 = w
      rw [neg_mul_neg]
      ring
    · rcases Nat.lt_or_ge i n with h1 | h1
      · rw [if_neg (by omega), if_neg (by omega), if_neg (by omega), if_neg (by omega), gap i h1, gapv i h1, gap (i - 1) (by omega), gapv (i - 1) (by omega),
          show n - 1 - (i - 1) = n - i by omega, show n - 1 - i = n - i - 1 by omega]
        generalize us.getD (n - i + 1) 0 - us.getD (n - i) 0 = w
        generalize us.getD (n - i - 1 + 1) 0 - us.getD (n - i - 1) 0 = w'
        rw [neg_mul_neg, neg_mul_neg]
        ring
      · have : i = n := by omega
        subst this
        rw [if_neg (by omega), if_pos rfl, Nat.sub_self, if_pos rfl, gap (i - 1) (by omega), gapv (i - 1) (by omega), show i - 1 - (i - 1) = 0 by omega]
        generalize us.getD (0 + 1) 0 - us.getD 0 0 = w
        rw [neg_mul_neg]
        ring
  rw [hr, ← hrow, ← Finset.sum_range_reflect, ← Finset.sum_neg_distrib]
  refine Finset.sum_congr rfl (fun j hj => ?_)
  have hj' := Finset.mem_range.mp hj
  rw [Nat.add_sub_cancel, hk (n - j) (by omega), show n - (n - j) = j by omega]
  have hb : bandA us.reverse n i (n - j) = -bandA us n (n - i) j := by
    unfold bandA
    simp only []
    by_cases c1 : i = n - j
    · rw [if_pos c1, if_pos (show n - i = j by omega)]
      rcases Nat.eq_zero_or_pos i with h0 | h0
      · rw [if_pos h0, if_neg (show ¬ n - i = 0 by omega), if_pos (show n - i = n by omega), gap 0 (by omega), Nat.sub_zero, div_neg]
      · rcases Nat.lt_or_ge i n with h1 | h1
        · rw [if_neg (show ¬ i = 0 by omega), if_neg (show ¬ i = n by omega), if_neg (show ¬ n - i = 0 by omega), if_neg (show ¬ n - i = n by omega), gap i h1, gap (i - 1) (by omega),
            show n - 1 - (i - 1) = n - i by omega, show n - 1 - i = n - i - 1 by omega, div_neg, div_neg]
          ring
        · rw [if_neg (show ¬ i = 0 by omega), if_pos (show i = n by omega), if_pos (show n - i = 0 by omega), gap (n - 1) (by omega), show n - 1 - (n - 1) = 0 by omega, div_neg]
    · rw [if_neg c1, if_neg (show ¬ n - i = j by omega)]
      by_cases c2 : n - j = i + 1
      · rw [if_pos c2, if_neg (show ¬ j = n - i + 1 by omega), if_pos (show n - i = j + 1 by omega), gap i (by omega), show n - 1 - i = j by omega, div_neg]
      · rw [if_neg c2]
        by_cases c3 : i = n - j + 1
        · rw [if_pos c3, if_pos (show j = n - i + 1 by omega), gap (n - j) (by omega), show n - 1 - (n - j) = n - i by omega, div_neg]
        · rw [if_neg c3, if_neg (show ¬ j = n - i + 1 by omega), if_neg (show ¬ n - i = j + 1 by omega), neg_zero]
  rw [hb]
  ring

theorem affine_sorted {us : List ℝ} (hs : us.Pairwise (· < ·)) (u v : ℝ) (hu : 0 < u) : (us.map (fun a => u * a + v)).Pairwise (· < ·) := by
  rw [List.pairwise_map]
  refine hs.imp (fun {a b} h => ?_)
  have := mul_lt_mul_of_pos_left h hu
  linarith

theorem affine_reversed {us : List ℝ} (hs : us.Pairwise (· < ·)) (u v : ℝ) (hu : u < 0) : (us.map (fun a => u * a + v)).reverse.Pairwise (· < ·) := by
  rw [List.pairwise_reverse, List.pairwise_map]
  refine hs.imp (fun {a b} h => ?_)
  have := mul_lt_mul_of_neg_left h hu
  linarith

theorem spline_units_pos {us vs ks : List ℝ} (hn : 2 ≤ us.length) (hk : ks.length = us.length) (hs : us.Pairwise (· < ·)) (u v : ℝ) (hu : 0 < u) (x : ℝ) :
    spline (us.map (fun a => u * a + v)) vs (ks.map (fun k => k / u)) (u * x + v) = spline us vs ks x := by
  obtain ⟨s1, s2, s3, s4⟩ := segment_spec us x us.length 1 (by omega) (by omega)
  unfold spline
  simp only []
  generalize segment us x us.length 1 = j at *
  rw [segment_eq (affine_sorted hs u v hu) (j := j) s1 (by rw [List.length_map]; exact s2) ?_ ?_]
  · have e : ∀ i < us.length, (ks.map (fun k => k / u)).getD i 0 = ks.getD i 0 / u := fun i hi => by
      rw [getD_map_of _ _ _ (by omega), List.getD_eq_getElem?_getD, List.getElem?_eq_getElem (by omega : i < ks.length)]
      rfl
    rw [getD_affine _ _ _ _ (by omega), getD_affine _ _ _ _ (by omega), e _ (by omega), e _ (by omega)]
    exact cubic_units _ _ _ _ _ _ _ _ _ hu.ne' (gap_ne hs s1 s2)
  · rcases Nat.lt_or_ge 1 j with h | h
    · right
      rw [getD_affine _ _ _ _ (by omega)]
      have := mul_lt_mul_of_pos_left (s3 (j - 1) (by omega) (by omega)) hu
      linarith
    · left
      omega
  · rcases s4 with h | h
    · left
      rw [List.length_map]
      exact h
    · right
      rw [getD_affine _ _ _ _ (by omega)]
      have := mul_le_mul_of_nonneg_left h hu.le
      linarith

theorem spline_units_neg {us vs ks : List ℝ} (hn : 2 ≤ us.length) (hl : us.length = vs.length) (hk : ks.length = us.length) (hs : us.Pairwise (· < ·)) (u v : ℝ) (hu : u < 0) (x : ℝ) :
    spline (us.map (fun a => u * a + v)).reverse vs.reverse (ks.map (fun k => k / u)).reverse (u * x + v) = spline us vs ks x := by
  obtain ⟨n, hn'⟩ : ∃ n, us.length = n + 1 := ⟨us.length - 1, by omega⟩
  have eu : ∀ i < n + 1, (us.map (fun a => u * a + v)).reverse.getD i 0 = u * us.getD (n - i) 0 + v := fun i hi => by
    rw [getD_reverse _ _ (by rw [List.length_map]; omega), List.length_map, hn', Nat.add_sub_cancel, getD_affine _ _ _ _ (by omega)]
  have ev : ∀ i < n + 1, vs.reverse.getD i 0 = vs.getD (n - i) 0 := fun i hi => by rw [getD_reverse _ _ (by omega), ← hl, hn', Nat.add_sub_cancel]
  have ek : ∀ i < n + 1, (ks.map (fun k => k / u)).reverse.getD i 0 = ks.getD (n - i) 0 / u := fun i hi => by
    rw [getD_reverse _ _ (by rw [List.length_map]; omega), List.length_map, hk, hn', Nat.add_sub_cancel, getD_map_of _ _ _ (by omega), List.getD_eq_getElem?_getD,
      List.getElem?_eq_getElem (by omega : n - i < ks.length)]
    rfl
  have hs' := affine_reversed hs u v hu
  have hlen : (us.map (fun a => u * a + v)).reverse.length = n + 1 := by simp [hn']
  obtain ⟨s1, s2, s3, s4⟩ := segment_spec us x us.length 1 (by omega) (by omega)
  have hex : spline us vs ks x = pc0 us vs ks (segment us x us.length 1) x := rfl
  generalize segment us x us.length 1 = j at *
  have hleft : j = 1 ∨ us.getD (j - 1) 0 < x := by
    rcases Nat.lt_or_ge 1 j with h | h
    · exact Or.inr (s3 (j - 1) (by omega) (by omega))
    · exact Or.inl (by omega)
  by_cases hx : j < n ∧ x = us.getD j 0
  · have h1 := glue_knot hs hn (pc0 us vs ks) (fun i => vs.getD i 0) (pc0_left hs) (pc0_right hs) j (by omega)
    have h2 := glue_knot hs' (by omega) (pc0 _ vs.reverse (ks.map (fun k => k / u)).reverse) (fun i => vs.reverse.getD i 0) (pc0_left hs') (pc0_right hs') (n - j) (by omega)
    rw [eu (n - j) (by omega), show n - (n - j) = j by omega] at h2
    rw [ev (n - j) (by omega), show n - (n - j) = j by omega] at h2
    rw [spline_glue, spline_glue, hx.2, h1, h2]
  · rw [hex]
    have hseg : segment (us.map (fun a => u * a + v)).reverse (u * x + v) (us.map (fun a => u * a + v)).reverse.length 1 = n + 1 - j := by
      refine segment_eq hs' (by omega) (by omega) ?_ ?_
      · rcases s4 with h | h
        · left
          omega
        · rcases h.eq_or_lt with g | g
          · left
            rcases Nat.lt_or_ge j n with q | q
            · exact absurd ⟨q, g⟩ hx
            · omega
          · right
            rw [eu _ (by omega), show n - (n + 1 - j - 1) = j by omega]
            have := mul_lt_mul_of_neg_left g hu
            linarith
      · rcases hleft with h | h
        · left
          omega
        · right
          rw [eu _ (by omega), show n - (n + 1 - j) = j - 1 by omega]
          have := mul_le_mul_of_nonpos_left h.le hu.le
          linarith
    unfold spline
    simp only [hseg]
    rw [eu _ (by omega), eu _ (by omega), ev _ (by omega), ev _ (by omega), ek _ (by omega), ek _ (by omega), show n - (n + 1 - j - 1) = j by omega, show n - (n + 1 - j) = j - 1 by omega]
    have g := gap_ne hs s1 s2
    rw [cubic_units _ _ _ _ _ _ _ _ _ hu.ne (by intro h; apply g; linarith), cubic_swap _ _ _ _ _ _ _ g]
    rfl

/-- **C204**.  Measuring abscissae and ordinates in other units, from other origins and in other directions changes the function returned by `CubicSpline` in the same way, on the whole axis. -/
theorem C204_spline_units {srt srt' : List (ℝ × ℝ) → List (ℝ × ℝ)} (hsrt : ValidSort srt) (hsrt' : ValidSort srt') {solve : List ℝ → List ℝ → List ℝ} (hsol : SolverOK solve) (l : List (ℝ × ℝ))
    (hn : 2 ≤ l.length) (hd : Distinct l) (u v c d : ℝ) (hu : u ≠ 0) :
    ∃ f g, cubicSpline srt solve (l.map Prod.fst) (l.map Prod.snd) = some f ∧ cubicSpline srt' solve (l.map (fun p => u * p.1 + v)) (l.map (fun p => c * p.2 + d)) = some g ∧
      ∀ x, g (u * x + v) = c * f x + d := by
  obtain ⟨m, hp, hs⟩ := exists_sorted l hd
  have hnm : 2 ≤ (m.map Prod.fst).length := by simpa [hp.length_eq] using hn
  have ef := cubicSpline_cols hsrt solve l m hn hd hp hs id
  -- the ordinates
  have hy : ∀ i, (m.map (fun p => c * p.2 + d)).getD i 0 = c * (m.map Prod.snd).getD i 0 + 1 * (m.map (fun _ => d)).getD i 0 := by
    intro i
    rcases Nat.lt_or_ge i m.length with h | h
    · rw [getD_map_of _ _ _ h, getD_map_of _ _ _ h, getD_map_of _ _ _ h, one_mul]
    · rw [getD_ge _ _ (by simpa using h), getD_ge _ _ (by simpa using h), getD_ge _ _ (by simpa using h)]
      ring
  have hv : ∀ i < (m.map Prod.fst).length, (m.map (fun _ => d)).getD i 0 = d + 0 * (m.map Prod.fst).getD i 0 := by
    intro i hi
    rw [getD_map_of _ _ _ (by simpa using hi)]
    ring
  obtain ⟨ns, hns, hk⟩ := solves_comb c 1 hy (hsol (m.map Prod.fst) (m.map Prod.snd) hnm (by simp) hs) (solves_line hnm hs d 0 hv)
  have hyx : ∀ x, spline (m.map Prod.fst) (m.map (fun p => c * p.2 + d)) ns x = c * spline (m.map Prod.fst) (m.map Prod.snd) (solve (m.map Prod.fst) (m.map Prod.snd)) x + d := by
    intro x
    rw [spline_comb c 1 hy hk x, spline_line hnm hs d 0 hv x]
    ring
  have hcol : ∀ k : List (ℝ × ℝ), k.map (fun p => u * p.1 + v) = (k.map Prod.fst).map (fun a => u * a + v) := fun k => by
    rw [List.map_map]
    rfl
  have hd' : Distinct ((l.map (fun p => u * p.1 + v)).zip (l.map (fun p => c * p.2 + d))) := by
    rw [zip_cols]
    exact distinct_map hd (fun p => (u * p.1 + v, c * p.2 + d)) (fun a b h e => h (mul_left_cancel₀ hu (add_right_cancel e)))
  have hsu := solves_units u v hu hnm hs hns
  rcases lt_or_gt_of_ne hu with hu' | hu'
  · have hperm : ((l.map (fun p => u * p.1 + v)).zip (l.map (fun p => c * p.2 + d))).Perm ((m.map (fun p => u * p.1 + v)).reverse.zip (m.map (fun p => c * p.2 + d)).reverse) := by
      rw [← List.map_reverse, ← List.map_reverse, zip_cols, zip_cols, List.map_reverse]
      exact (hp.symm.map _).trans (List.reverse_perm _).symm
    have hrev := affine_reversed hs u v hu'
    have eg : cubicSpline srt' solve (l.map (fun p => u * p.1 + v)) (l.map (fun p => c * p.2 + d)) =
        some (spline (m.map (fun p => u * p.1 + v)).reverse (m.map (fun p => c * p.2 + d)).reverse (solve (m.map (fun p => u * p.1 + v)).reverse (m.map (fun p => c * p.2 + d)).reverse)) := by
      rw [← cubicSpline_sorted srt' solve _ _ (by simpa [hp.length_eq] using hn) (by simp) (by rw [hcol]; exact hrev)]
      exact C58_order hsrt' hsrt' solve _ _ _ _ (by simp) (by simp) hd' hperm
    refine ⟨_, _, ef, eg, fun x => ?_⟩
    rw [hcol, solver_unique hsol (by simpa using hnm) (by simp) hrev (solves_reverse (by simp) hsu (by simpa using hnm)), spline_units_neg hnm (by simp) hns.1 hs u v hu' x, hyx]
    rfl
  · have hperm : ((l.map (fun p => u * p.1 + v)).zip (l.map (fun p => c * p.2 + d))).Perm ((m.map (fun p => u * p.1 + v)).zip (m.map (fun p => c * p.2 + d))) := by
      rw [zip_cols, zip_cols]
      exact hp.symm.map _
    have hup := affine_sorted hs u v hu'
    have eg : cubicSpline srt' solve (l.map (fun p => u * p.1 + v)) (l.map (fun p => c * p.2 + d)) =
        some (spline (m.map (fun p => u * p.1 + v)) (m.map (fun p => c * p.2 + d)) (solve (m.map (fun p => u * p.1 + v)) (m.map (fun p => c * p.2 + d)))) := by
      rw [← cubicSpline_sorted srt' solve _ _ (by simpa [hp.length_eq] using hn) (by simp) (by rw [hcol]; exact hup)]
      exact C58_order hsrt' hsrt' solve _ _ _ _ (by simp) (by simp) hd' hperm
    refine ⟨_, _, ef, eg, fun x => ?_⟩
    rw [hcol, solver_unique hsol (by simpa using hnm) (by simp) hup hsu, spline_units_pos hnm hns.1 hs u v hu' x, hyx]
    rfl

/-! ### A spline does not keep order -/

/-- **C204**.  Unlike `Interp1d`, `CubicSpline` keeps neither order nor sign: through the non-decreasing, non-negative ordinates `0, 0, w` at `0, 1, 2` it falls below zero between the first two points. -/
theorem C204_spline_overshoot (srt : List (ℝ × ℝ) → List (ℝ × ℝ)) {solve : List ℝ → List ℝ → List ℝ} (hsol : SolverOK solve) (w : ℝ) (hw : 0 < w) :
    ∃ f, cubicSpline srt solve [0, 1, 2] [0, 0, w] = some f ∧ f 0 = 0 ∧ f 1 = 0 ∧ f (1 / 2) < 0 := by
  have hs : ([0, 1, 2] : List ℝ).Pairwise (· < ·) := by norm_num
  have hk : Solves [0, 1, 2] [0, 0, w] [-w / 4, w / 2, 5 * w / 4] := by
    refine ⟨rfl, fun i hi => ?_⟩
    have : i = 0 ∨ i = 1 ∨ i = 2 := by
      have : i < 3 := hi
      omega
    rcases this with rfl | rfl | rfl
    · simp [bandA, rhsB, Finset.sum_range_succ]
      ring
    · norm_num [bandA, rhsB, Finset.sum_range_succ]
      ring
    · norm_num [bandA, rhsB, Finset.sum_range_succ]
      ring
  refine ⟨_, cubicSpline_sorted srt solve _ _ (by simp) (by simp) hs, ?_⟩
  rw [solver_unique hsol (by simp) (by simp) hs hk]
  refine ⟨?_, ?_, ?_⟩
  · norm_num [spline, segment, cubic]
  · norm_num [spline, segment, cubic]
  · norm_num [spline, segment, cubic]
    linarith

/-- Non-vacuity: a solver, a sort and four points out of order, mirrored and in other units; the values at half-way agree up to the change of units. -/
example : (∃ solve, SolverOK solve) ∧ Distinct ([(2, 3), (0, 1), (1, 7), (5, -2)] : List (ℝ × ℝ)) ∧ ([4, 1, 3] : List ℝ).Nodup ∧ Distinct ([(2, 3, 1), (0, 1, 1)] : List (ℝ × ℝ × ℝ)) ∧
    (Solves ([0, 1, 2] : List ℚ) [0, 1, 0] [3 / 2, 0, -3 / 2] ∧ Solves ([1, 3, 5] : List ℚ) [5, 9, 5] [3, 0, -3]) ∧
    spline ([0, 1, 2] : List ℚ) [0, 1, 0] [3 / 2, 0, -3 / 2] (1 / 2) = 11 / 16 ∧ spline ([1, 3, 5] : List ℚ) [5, 9, 5] [3, 0, -3] 2 = 4 * (11 / 16) + 5 := by
  refine ⟨solver_exists, by unfold Distinct; norm_num, by norm_num, by unfold Distinct; norm_num, ?_, ?_, ?_⟩
  · unfold Solves
    decide +kernel
  · decide +kernel
  · decide +kernel

end spline

end Sk.Interp
