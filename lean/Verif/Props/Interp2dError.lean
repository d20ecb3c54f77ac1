import Verif.Props.Interp2d
import Verif.Props.InterpError

/-!
# C238: how far Interp2d is from the function that was sampled
-/
set_option autoImplicit false

namespace Sk.Interp

section
variable {K : Type} [Field K] [LinearOrder K] [IsStrictOrderedRing K]

/-! ### Specification -/

/-- The points are on the graph of `g`. -/
def Sampled2 (pts : List (P3 K)) (g : K → K → K) : Prop := ∀ p ∈ pts, p.2.2 = some (g p.1 p.2.1)

/-- Among the points with first abscissa `a` there is one with a second abscissa not above `y` and one not below. -/
def Spans (pts : List (P3 K)) (a y : K) : Prop := (∃ p ∈ pts, p.1 = a ∧ p.2.1 ≤ y) ∧ ∃ p ∈ pts, p.1 = a ∧ y ≤ p.2.1

/-- Neighbouring second abscissae of the points with first abscissa `a` are at most `H` apart. -/
def SliceGaps (pts : List (P3 K)) (a H : K) : Prop :=
  ∀ p ∈ pts, ∀ q ∈ pts, p.1 = a → q.1 = a → p.2.1 < q.2.1 → (∀ r ∈ pts, r.1 = a → ¬ (p.2.1 < r.2.1 ∧ r.2.1 < q.2.1)) → q.2.1 - p.2.1 ≤ H

/-! ### Proofs -/

private def col (pts : List (P3 K)) (a : K) : List (K × Option K) := (group pts a).map (fun p => p.2)

private theorem mem_col {pts : List (P3 K)} {a : K} {e : K × Option K} : e ∈ col pts a ↔ (a, e) ∈ pts := by
  unfold col group
  simp only [List.mem_map, List.mem_filter, decide_eq_true_eq]
  constructor
  · rintro ⟨p, ⟨hp, rfl⟩, rfl⟩
    exact hp
  · intro h
    exact ⟨(a, e), ⟨h, rfl⟩, rfl⟩

private theorem col_value {srt : List (K × Option K) → List (K × Option K)} {pts : List (P3 K)} {a y v : K} {f : K → Option K}
    (hf : interp1d srt ((col pts a).map Prod.fst) ((col pts a).map Prod.snd) = some f) (h : SliceValue srt pts a y v) : f y = some v := by
  obtain ⟨f', e, h⟩ := h
  simp only [col, List.map_map] at hf
  have : f = f' := Option.some.inj (hf.symm.trans e)
  rw [this, h]

private theorem col_len {pts : List (P3 K)} (hg : GoodGrid pts) {a : K} (ha : ∃ p ∈ pts, p.1 = a) : 2 ≤ (col pts a).length := by
  obtain ⟨p, hp, rfl⟩ := ha
  simpa [col] using hg.two p hp

private theorem col_ends {pts : List (P3 K)} (hg : GoodGrid pts) (a : K) : EndsKnown (col pts a) := by
  intro e he
  obtain ⟨z, hz⟩ := hg.known _ (mem_col.1 he)
  have he' : (e.1, some z) ∈ col pts a := by
    rw [← hz]
    exact he
  exact ⟨⟨_, _, he', le_refl _⟩, ⟨_, _, he', le_refl _⟩⟩

private theorem col_range {pts : List (P3 K)} {a y : K} (h : Spans pts a y) : InRange (col pts a) y := by
  obtain ⟨⟨p, hp, rfl, h1⟩, ⟨q, hq, e, h2⟩⟩ := h
  exact ⟨⟨p.2, mem_col.2 hp, h1⟩, ⟨q.2, mem_col.2 (by rw [← e]; exact hq), h2⟩⟩

private theorem col_gaps {pts : List (P3 K)} (hg : GoodGrid pts) {a H : K} (h : SliceGaps pts a H) : GapsAtMost (col pts a) H := by
  rintro b yb c yc ⟨h1, h2, h3, h4⟩
  refine h _ (mem_col.1 h1) _ (mem_col.1 h2) rfl rfl h3 (fun r hr e => ?_)
  obtain ⟨z, hz⟩ := hg.known r hr
  refine h4 r.2.1 z (mem_col.2 ?_)
  rw [← e, ← hz]
  exact hr

private theorem col_sampled {pts : List (P3 K)} {g : K → K → K} (h : Sampled2 pts g) (a : K) : SampledFrom (col pts a) (g a) := by
  intro b yb hb
  exact Option.some.inj (h _ (mem_col.1 hb))

private theorem mix_error (a b x u w p q g E1 E2 : K) (hab : a < b) (h1 : a ≤ x) (h2 : x ≤ b) (hu : |u - p| ≤ E2) (hw : |w - q| ≤ E2) (hl : |onLine a p b q x - g| ≤ E1) :
    |onLine a u b w x - g| ≤ E1 + E2 := by
  have hba : 0 < b - a := sub_pos.2 hab
  have m1 := onLine_mix a u b w x hab
  have m2 := onLine_mix a p b q x hab
  rw [abs_le] at *
  have a1 := mul_le_mul_of_nonneg_left hu.1 (sub_nonneg.2 h2)
  have a2 := mul_le_mul_of_nonneg_left hu.2 (sub_nonneg.2 h2)
  have b1 := mul_le_mul_of_nonneg_left hw.1 (sub_nonneg.2 h1)
  have b2 := mul_le_mul_of_nonneg_left hw.2 (sub_nonneg.2 h1)
  have c1 := mul_le_mul_of_nonneg_left hl.1 hba.le
  have c2 := mul_le_mul_of_nonneg_left hl.2 hba.le
  constructor
  · refine le_of_mul_le_mul_left ?_ hba
    linear_combination c1 + a1 + b1 + m2 - m1
  · refine le_of_mul_le_mul_left ?_ hba
    linear_combination c2 + a2 + b2 + m1 - m2

private theorem pair_line {srt : List (K × Option K) → List (K × Option K)} (hsrt : ValidSort srt) (a b : K) (hab : a < b) (h : K → K) :
    Distinct [(a, some (h a)), (b, some (h b))] ∧ EndsKnown [(a, some (h a)), (b, some (h b))] ∧ SampledFrom [(a, some (h a)), (b, some (h b))] h ∧
      GapsAtMost [(a, some (h a)), (b, some (h b))] (b - a) ∧
      ∀ f, interp1d srt ([(a, some (h a)), (b, some (h b))].map Prod.fst) ([(a, some (h a)), (b, some (h b))].map Prod.snd) = some f → ∀ x, a ≤ x → x ≤ b → f x = some (onLine a (h a) b (h b) x) := by
  have hd : Distinct [(a, some (h a)), (b, some (h b))] := by
    unfold Distinct
    simp [hab.ne]
  have he : EndsKnown [(a, some (h a)), (b, some (h b))] := by
    intro p hp
    simp only [List.mem_cons, List.not_mem_nil, or_false] at hp
    rcases hp with rfl | rfl
    · exact ⟨⟨a, h a, by simp, le_refl _⟩, ⟨a, h a, by simp, le_refl _⟩⟩
    · exact ⟨⟨b, h b, by simp, le_refl _⟩, ⟨b, h b, by simp, le_refl _⟩⟩
  refine ⟨hd, he, ?_, ?_, ?_⟩
  · intro c yc hc
    simp only [List.mem_cons, Prod.mk.injEq, Option.some.injEq, List.not_mem_nil, or_false] at hc
    rcases hc with ⟨rfl, rfl⟩ | ⟨rfl, rfl⟩ <;> rfl
  · rintro c yc d yd ⟨h1, h2, h3, -⟩
    simp only [List.mem_cons, Prod.mk.injEq, Option.some.injEq, List.not_mem_nil, or_false] at h1 h2
    rcases h1 with ⟨rfl, -⟩ | ⟨rfl, -⟩ <;> rcases h2 with ⟨rfl, -⟩ | ⟨rfl, -⟩ <;> linarith
  · intro f hf x h1 h2
    obtain ⟨f', hf', -, hx⟩ := interp_piece hsrt _ (by simp) hd he
    have : f = f' := Option.some.inj (hf.symm.trans hf')
    rw [this]
    refine hx x a _ b _ ⟨by simp, by simp, hab, ?_⟩ (Or.inl h1) (Or.inl h2)
    intro c yc hc ⟨c1, c2⟩
    simp only [List.mem_cons, Prod.mk.injEq, List.not_mem_nil, or_false] at hc
    rcases hc with ⟨rfl, -⟩ | ⟨rfl, -⟩
    · exact lt_irrefl _ c1
    · exact lt_irrefl _ c2

/-- **C238, Lipschitz functions.** Let the points be values of `g`, whose slopes in the first direction are at most `L₁` and in the second at most `L₂`.  Between neighbouring first abscissae `a` and `b`, where the points with these
abscissae span `y` with gaps of at most `H`, the result is within `L₁ (b - a) / 2 + L₂ H / 2` of `g`. -/
theorem C238_lipschitz {srt3 : List (P3 K) → List (P3 K)} (hsrt3 : ValidSort3 srt3) {srt : List (K × Option K) → List (K × Option K)} (hsrt : ValidSort srt) (pts : List (P3 K)) (hg : GoodGrid pts)
    (g : K → K → K) (hs : Sampled2 pts g) (L₁ L₂ H : K) (h₁ : ∀ s s' t, |g s t - g s' t| ≤ L₁ * |s - s'|) (h₂ : ∀ s t t', |g s t - g s t'| ≤ L₂ * |t - t'|)
    (a b x y : K) (hab : Adjacent pts a b) (hx : a ≤ x ∧ x ≤ b) (ha : Spans pts a y) (hb : Spans pts b y) (hga : SliceGaps pts a H) (hgb : SliceGaps pts b H) :
    ∃ v, interp2dOf srt3 srt pts x y = some (some v) ∧ |v - g x y| ≤ L₁ * (b - a) / 2 + L₂ * H / 2 := by
  obtain ⟨u, w, hu, hw, e⟩ := C107_bilinear_partial hsrt3 hsrt pts hg a b x y hab ⟨Or.inl hx.1, hx.2⟩
  refine ⟨_, e, ?_⟩
  have side : ∀ c v, (∃ p ∈ pts, p.1 = c) → Spans pts c y → SliceGaps pts c H → SliceValue srt pts c y v → |v - g c y| ≤ L₂ * H / 2 := by
    intro c v hc hsp hgap hv
    obtain ⟨f, hf, hh⟩ := C229_lipschitz hsrt (col pts c) (col_len hg hc) (group_distinct hg c) (col_ends hg c) (g c) (col_sampled hs c) L₂ H (h₂ c) (col_gaps hg hgap)
    obtain ⟨v', e', hv'⟩ := hh y (col_range hsp)
    rw [col_value hf hv, Option.some_inj] at e'
    rw [e']
    exact hv'
  obtain ⟨p1, p2, p3, p4, p5⟩ := pair_line hsrt a b hab.2.2.1 (fun s => g s y)
  obtain ⟨f, hf, hh⟩ := C229_lipschitz hsrt _ (by simp) p1 p2 (fun s => g s y) p3 L₁ (b - a) (fun s s' => h₁ s s' y) p4
  obtain ⟨v', e', hv'⟩ := hh x ⟨⟨_, List.mem_cons_self, hx.1⟩, ⟨_, List.mem_cons_of_mem _ List.mem_cons_self, hx.2⟩⟩
  rw [p5 f hf x hx.1 hx.2, Option.some_inj] at e'
  exact mix_error a b x u w (g a y) (g b y) (g x y) _ _ hab.2.2.1 hx.1 hx.2 (side a u hab.1 ha hga hu) (side b w hab.2.1 hb hgb hw) (by rw [e']; exact hv')

/-- **C238, bounds.** Between neighbouring first abscissae whose points span `y`, the result lies between any bounds of the values given. -/
theorem C238_bounds {srt3 : List (P3 K) → List (P3 K)} (hsrt3 : ValidSort3 srt3) {srt : List (K × Option K) → List (K × Option K)} (hsrt : ValidSort srt) (pts : List (P3 K)) (hg : GoodGrid pts)
    (lo hi : K) (hlh : ∀ p ∈ pts, ∀ z, p.2.2 = some z → lo ≤ z ∧ z ≤ hi) (a b x y : K) (hab : Adjacent pts a b) (hx : a ≤ x ∧ x ≤ b) (ha : Spans pts a y) (hb : Spans pts b y) :
    ∃ v, interp2dOf srt3 srt pts x y = some (some v) ∧ lo ≤ v ∧ v ≤ hi := by
  obtain ⟨u, w, hu, hw, e⟩ := C107_bilinear_partial hsrt3 hsrt pts hg a b x y hab ⟨Or.inl hx.1, hx.2⟩
  refine ⟨_, e, ?_⟩
  have line : ∀ c yc d yd t : K, c < d → c ≤ t → t ≤ d → lo ≤ yc ∧ yc ≤ hi → lo ≤ yd ∧ yd ≤ hi → lo ≤ onLine c yc d yd t ∧ onLine c yc d yd t ≤ hi := by
    intro c yc d yd t hcd h1 h2 hc hd
    have hdc : 0 < d - c := sub_pos.2 hcd
    have m := onLine_mix c yc d yd t hcd
    have a1 := mul_le_mul_of_nonneg_left hc.1 (sub_nonneg.2 h2)
    have a2 := mul_le_mul_of_nonneg_left hc.2 (sub_nonneg.2 h2)
    have b1 := mul_le_mul_of_nonneg_left hd.1 (sub_nonneg.2 h1)
    have b2 := mul_le_mul_of_nonneg_left hd.2 (sub_nonneg.2 h1)
    constructor
    · refine le_of_mul_le_mul_left ?_ hdc
      linear_combination a1 + b1 - m
    · refine le_of_mul_le_mul_left ?_ hdc
      linear_combination a2 + b2 + m
  have side : ∀ c v, (∃ p ∈ pts, p.1 = c) → Spans pts c y → SliceValue srt pts c y v → lo ≤ v ∧ v ≤ hi := by
    intro c v hc hsp hv
    obtain ⟨f, hf, hh, -⟩ := interp_piece hsrt (col pts c) (col_len hg hc) (group_distinct hg c) (col_ends hg c)
    obtain ⟨s, ys, t, yt, hn, g1, g2, e'⟩ := hh y
    rw [col_value hf hv, Option.some_inj] at e'
    obtain ⟨⟨p, hp, hp'⟩, ⟨q, hq, hq'⟩⟩ := col_range hsp
    rw [e']
    exact line s ys t yt y hn.2.2.1 (g1.elim id (fun h => (h p hp).trans hp')) (g2.elim id (fun h => hq'.trans (h q hq))) (hlh _ (mem_col.1 hn.1) _ rfl) (hlh _ (mem_col.1 hn.2.1) _ rfl)
  exact line a u b w x hab.2.2.1 hx.1 hx.2 (side a u hab.1 ha hu) (side b w hab.2.1 hb hw)

end

/-- **C238, smooth functions.** If the second derivatives of `g` in the two directions are at most `M₁` and `M₂` in absolute value, the result is within `M₁ (b - a)² / 8 + M₂ H² / 8` of `g`. -/
theorem C238_smooth {srt3 : List (P3 ℝ) → List (P3 ℝ)} (hsrt3 : ValidSort3 srt3) {srt : List (ℝ × Option ℝ) → List (ℝ × Option ℝ)} (hsrt : ValidSort srt) (pts : List (P3 ℝ)) (hg : GoodGrid pts)
    (g g₁ g₁₁ g₂ g₂₂ : ℝ → ℝ → ℝ) (hs : Sampled2 pts g) (d₁ : ∀ s t, HasDerivAt (fun s => g s t) (g₁ s t) s) (d₁₁ : ∀ s t, HasDerivAt (fun s => g₁ s t) (g₁₁ s t) s)
    (d₂ : ∀ s t, HasDerivAt (g s) (g₂ s t) t) (d₂₂ : ∀ s t, HasDerivAt (g₂ s) (g₂₂ s t) t) (M₁ M₂ H : ℝ) (h₁ : ∀ s t, |g₁₁ s t| ≤ M₁) (h₂ : ∀ s t, |g₂₂ s t| ≤ M₂)
    (a b x y : ℝ) (hab : Adjacent pts a b) (hx : a ≤ x ∧ x ≤ b) (ha : Spans pts a y) (hb : Spans pts b y) (hga : SliceGaps pts a H) (hgb : SliceGaps pts b H) :
    ∃ v, interp2dOf srt3 srt pts x y = some (some v) ∧ |v - g x y| ≤ M₁ * (b - a) ^ 2 / 8 + M₂ * H ^ 2 / 8 := by
  obtain ⟨u, w, hu, hw, e⟩ := C107_bilinear_partial hsrt3 hsrt pts hg a b x y hab ⟨Or.inl hx.1, hx.2⟩
  refine ⟨_, e, ?_⟩
  have side : ∀ c v, (∃ p ∈ pts, p.1 = c) → Spans pts c y → SliceGaps pts c H → SliceValue srt pts c y v → |v - g c y| ≤ M₂ * H ^ 2 / 8 := by
    intro c v hc hsp hgap hv
    obtain ⟨f, hf, hh⟩ := C229_smooth hsrt (col pts c) (col_len hg hc) (group_distinct hg c) (col_ends hg c) (g c) (g₂ c) (g₂₂ c) (col_sampled hs c) (d₂ c) (d₂₂ c) M₂ H (h₂ c) (col_gaps hg hgap)
    obtain ⟨v', e', hv'⟩ := hh y (col_range hsp)
    rw [col_value hf hv, Option.some_inj] at e'
    rw [e']
    exact hv'
  obtain ⟨p1, p2, p3, p4, p5⟩ := pair_line hsrt a b hab.2.2.1 (fun s => g s y)
  obtain ⟨f, hf, hh⟩ := C229_smooth hsrt _ (by simp) p1 p2 (fun s => g s y) (fun s => g₁ s y) (fun s => g₁₁ s y) p3 (fun s => d₁ s y) (fun s => d₁₁ s y) M₁ (b - a) (fun s => h₁ s y) p4
  obtain ⟨v', e', hv'⟩ := hh x ⟨⟨_, List.mem_cons_self, hx.1⟩, ⟨_, List.mem_cons_of_mem _ List.mem_cons_self, hx.2⟩⟩
  rw [p5 f hf x hx.1 hx.2, Option.some_inj] at e'
  exact mix_error a b x u w (g a y) (g b y) (g x y) _ _ hab.2.2.1 hx.1 hx.2 (side a u hab.1 ha hga hu) (side b w hab.2.1 hb hgb hw) (by rw [e']; exact hv')

/-- The square of the first plus the square of the second abscissa, at the corners of a square: in the middle the result is 4, the function 2, the bound of `C238_smooth` 2·2²/8 + 2·2²/8 = 2. -/
example : GoodGrid (K := ℚ) [(0, 0, some 0), (0, 2, some 4), (2, 0, some 4), (2, 2, some 8)] ∧ Sampled2 (K := ℚ) [(0, 0, some 0), (0, 2, some 4), (2, 0, some 4), (2, 2, some 8)] (fun s t => s ^ 2 + t ^ 2) ∧
    Adjacent (K := ℚ) [(0, 0, some 0), (0, 2, some 4), (2, 0, some 4), (2, 2, some 8)] 0 2 ∧ Spans (K := ℚ) [(0, 0, some 0), (0, 2, some 4), (2, 0, some 4), (2, 2, some 8)] 0 1 ∧
    SliceGaps (K := ℚ) [(0, 0, some 0), (0, 2, some 4), (2, 0, some 4), (2, 2, some 8)] 0 2 ∧ interp2dOf (K := ℚ) id id [(0, 0, some 0), (0, 2, some 4), (2, 0, some 4), (2, 2, some 8)] 1 1 = some (some 4) := by
  refine ⟨⟨?_, ?_, ?_⟩, ?_, ?_, ?_, ?_, ?_⟩
  · decide +kernel
  · intro p hp
    simp only [List.mem_cons, List.not_mem_nil, or_false] at hp
    rcases hp with rfl | rfl | rfl | rfl <;> exact ⟨_, rfl⟩
  · decide +kernel
  · unfold Sampled2; decide +kernel
  · unfold Adjacent; decide +kernel
  · unfold Spans; decide +kernel
  · unfold SliceGaps; decide +kernel
  · decide +kernel

end Sk.Interp
