import Verif.Props.EnetMT
import Mathlib.Tactic.Linarith
import Mathlib.Tactic.Ring
import Mathlib.Tactic.FieldSimp
import Mathlib.Tactic.Positivity

/-! # C224: elastic nets with several outputs, solved exactly; fits agree up to their gaps and do not depend on the axes of the output space -/
set_option autoImplicit false

namespace Sk.EnetMT

open Sk.Enet (normCol)

variable {n p q : ℕ}

/-! ### Specification -/

/-- `Q` is an orthogonal matrix. -/
structure Orthogonal (Q : Fin q → Fin q → ℝ) : Prop where
  cols : ∀ a b, ∑ o, Q o a * Q o b = if a = b then 1 else 0
  rows : ∀ o o', ∑ a, Q o a * Q o' a = if o = o' then 1 else 0

/-- Rows of `A` in the axes given by the columns of `Q`. -/
noncomputable def turn (Q : Fin q → Fin q → ℝ) {m : ℕ} (A : Fin m → Fin q → ℝ) : Fin m → Fin q → ℝ := fun i a => ∑ o, A i o * Q o a

/-- Group soft-thresholding: `t` shortened by `l1` (to zero if it is not longer), divided by `a`. -/
noncomputable def groupSoft (l1 a : ℝ) (t : Fin q → ℝ) (o : Fin q) : ℝ := if √(∑ o, t o ^ 2) ≤ l1 then 0 else (1 - l1 / √(∑ o, t o ^ 2)) * t o / a

/-! ### Optimality conditions -/

theorem slope_nonneg {D C : ℝ} (hC : 0 ≤ C) (h : ∀ s, 0 < s → s ≤ 1 → 0 ≤ s * D + s ^ 2 * C) : 0 ≤ D := by
  by_contra hD
  push Not at hD
  have hC1 : 0 < C + 1 := by linarith
  set s := min 1 (-D / (2 * (C + 1))) with hs
  have hs0 : 0 < s := lt_min one_pos (div_pos (by linarith) (by linarith))
  have hs1 : s ≤ -D / (2 * (C + 1)) := min_le_right _ _
  have h1 := h s hs0 (min_le_left _ _)
  rw [le_div_iff₀ (by linarith)] at hs1
  have h2 : 0 ≤ s * (D + s * C) := by nlinarith
  have h3 : 0 ≤ D + s * C := nonneg_of_mul_nonneg_right h2 hs0
  nlinarith

theorem nrm_add_le (u v : Fin q → ℝ) : nrm (fun o => u o + v o) ≤ nrm u + nrm v := by
  have h0 : 0 ≤ nrm u + nrm v := add_nonneg (nrm_nonneg u) (nrm_nonneg v)
  have h1 : nrm (fun o => u o + v o) ^ 2 ≤ (nrm u + nrm v) ^ 2 := by
    rw [nrm_sq]
    have : ∑ o, (u o + v o) ^ 2 = nrm u ^ 2 + 2 * (∑ o, u o * v o) + nrm v ^ 2 := by
      rw [nrm_sq, nrm_sq, Finset.mul_sum, ← Finset.sum_add_distrib, ← Finset.sum_add_distrib]
      exact Finset.sum_congr rfl (fun o _ => by ring)
    rw [this]
    have := dot_le u v
    nlinarith
  exact le_of_sq_le_sq h1 h0
where
  le_of_sq_le_sq {a b : ℝ} (h : a ^ 2 ≤ b ^ 2) (hb : 0 ≤ b) : a ≤ b := by
    by_contra hc
    push Not at hc
    nlinarith

/-- The conditions at the minimum of `a/2 ‖z‖² - t·z + l1 ‖z‖`. -/
theorem row_kkt {a l1 : ℝ} (ha : 0 ≤ a) (hl : 0 ≤ l1) (t w : Fin q → ℝ)
    (h : ∀ z : Fin q → ℝ, a / 2 * (∑ o, w o ^ 2) - (∑ o, t o * w o) + l1 * nrm w ≤ a / 2 * (∑ o, z o ^ 2) - (∑ o, t o * z o) + l1 * nrm z) :
    nrm (fun o => t o - a * w o) ≤ l1 ∧ ∑ o, (t o - a * w o) * w o = l1 * nrm w := by
  set A := ∑ o, w o ^ 2 with hA
  set T := ∑ o, t o * w o with hT
  have hA0 : 0 ≤ A := Finset.sum_nonneg (fun o _ => sq_nonneg _)
  have hdot : ∑ o, (t o - a * w o) * w o = T - a * A := by
    rw [hT, hA, Finset.mul_sum, ← Finset.sum_sub_distrib]
    exact Finset.sum_congr rfl (fun o _ => by ring)
  have scale : ∀ c : ℝ, 0 ≤ c → a / 2 * A - T + l1 * nrm w ≤ a / 2 * (c ^ 2 * A) - c * T + l1 * (c * nrm w) := by
    intro c hc
    have := h (fun o => c * w o)
    rw [nrm_smul, abs_of_nonneg hc] at this
    have e1 : ∑ o, (c * w o) ^ 2 = c ^ 2 * A := by
      rw [hA, Finset.mul_sum]
      exact Finset.sum_congr rfl (fun o _ => by ring)
    have e2 : ∑ o, t o * (c * w o) = c * T := by
      rw [hT, Finset.mul_sum]
      exact Finset.sum_congr rfl (fun o _ => by ring)
    rwa [e1, e2] at this
  have hC : 0 ≤ a / 2 * A := by positivity
  have up : 0 ≤ a * A - T + l1 * nrm w := slope_nonneg hC (fun s h0 h1 => by
    have := scale (1 + s) (by linarith)
    nlinarith)
  have down : 0 ≤ -(a * A - T + l1 * nrm w) := slope_nonneg hC (fun s h0 h1 => by
    have := scale (1 - s) (by linarith)
    nlinarith)
  refine ⟨?_, by rw [hdot]; linarith⟩
  set g : Fin q → ℝ := fun o => t o - a * w o with hg
  have hG := nrm_sq g
  have hmove : ∀ s, 0 < s → s ≤ 1 → 0 ≤ s * (l1 * nrm g - nrm g ^ 2) + s ^ 2 * (a / 2 * nrm g ^ 2) := by
    intro s h0 _
    have h1 := h (fun o => w o + s * g o)
    have h2 := nrm_add_le w (fun o => s * g o)
    rw [nrm_smul, abs_of_pos h0] at h2
    have e1 : ∑ o, (w o + s * g o) ^ 2 = A + 2 * s * (∑ o, w o * g o) + s ^ 2 * nrm g ^ 2 := by
      rw [hG, hA, Finset.mul_sum, Finset.mul_sum, ← Finset.sum_add_distrib, ← Finset.sum_add_distrib]
      exact Finset.sum_congr rfl (fun o _ => by ring)
    have e2 : ∑ o, t o * (w o + s * g o) = T + s * ∑ o, t o * g o := by
      rw [hT, Finset.mul_sum, ← Finset.sum_add_distrib]
      exact Finset.sum_congr rfl (fun o _ => by ring)
    have e3 : ∑ o, t o * g o = nrm g ^ 2 + a * ∑ o, w o * g o := by
      rw [hG, Finset.mul_sum, ← Finset.sum_add_distrib]
      exact Finset.sum_congr rfl (fun o _ => by simp only [hg]; ring)
    rw [e1, e2, e3] at h1
    have h3 := mul_le_mul_of_nonneg_left h2 hl
    have h4 : a / 2 * (A + 2 * s * (∑ o, w o * g o) + s ^ 2 * nrm g ^ 2) - (T + s * (nrm g ^ 2 + a * ∑ o, w o * g o)) = a / 2 * A - T - s * nrm g ^ 2 + s ^ 2 * (a / 2 * nrm g ^ 2) := by ring
    linarith
  have hfin := slope_nonneg (by positivity) hmove
  rcases eq_or_lt_of_le (nrm_nonneg g) with h0 | h0
  · rw [← h0]; exact hl
  · by_contra hc
    push Not at hc
    nlinarith

theorem corr_tracks (X : Fin n → Fin p → ℝ) (Y : Fin n → Fin q → ℝ) (s : St n p q) (ht : Tracks X Y s) (j : Fin p) (o : Fin q) :
    corr X Y s.W j o = (∑ i, X i j * s.R i o) + normCol X j * s.W j o := by
  rw [corr, normCol, Finset.sum_mul, ← Finset.sum_add_distrib]
  apply Finset.sum_congr rfl
  intro i _
  rw [ht i o]; ring

/-- The conditions for one row of coefficients that cannot be improved. -/
theorem block_kkt (X : Fin n → Fin p → ℝ) (Y : Fin n → Fin q → ℝ) {l1 l2 : ℝ} (hl1 : 0 ≤ l1) (hl2 : 0 ≤ l2) (s : St n p q) (ht : Tracks X Y s) (j : Fin p)
    (h : ∀ z, objective X Y l1 l2 s.W ≤ objective X Y l1 l2 (Function.update s.W j z)) :
    nrm (fun o => (∑ i, X i j * s.R i o) - l2 * s.W j o) ≤ l1 ∧ ∑ o, ((∑ i, X i j * s.R i o) - l2 * s.W j o) * s.W j o = l1 * nrm (s.W j) := by
  have hN := normCol_nonneg X j
  have e : ∀ o, (∑ i, X i j * s.R i o) - l2 * s.W j o = corr X Y s.W j o - (normCol X j + l2) * s.W j o := fun o => by
    rw [corr_tracks X Y s ht]; ring
  simp only [e]
  apply row_kkt (by linarith) hl1
  intro z
  have h1 := h z
  have h2 := objective_update X Y l1 l2 s.W j z
  have h3 := objective_update X Y l1 l2 s.W j (s.W j)
  rw [Function.update_eq_self] at h3
  linarith

theorem lmax_le (l : List ℝ) {a : ℝ} (ha : 0 ≤ a) (h : ∀ v ∈ l, v ≤ a) : lmax l ≤ a := by
  have key : ∀ (l : List ℝ) (b : ℝ), b ≤ a → (∀ v ∈ l, v ≤ a) → l.foldl (fun m v => if m < v then v else m) b ≤ a := by
    intro l
    induction l with
    | nil => intro b hb _; exact hb
    | cons v l ih =>
      intro b hb h
      rw [List.foldl_cons]
      refine ih _ ?_ (fun u hu => h u (List.mem_cons_of_mem _ hu))
      split
      · exact h v List.mem_cons_self
      · exact hb
  exact key l 0 ha h

theorem gap_of_kkt (X : Fin n → Fin p → ℝ) (Y : Fin n → Fin q → ℝ) {l1 l2 : ℝ} (hl1 : 0 ≤ l1) (s : St n p q) (ht : Tracks X Y s)
    (h : ∀ j, nrm (fun o => (∑ i, X i j * s.R i o) - l2 * s.W j o) ≤ l1 ∧ ∑ o, ((∑ i, X i j * s.R i o) - l2 * s.W j o) * s.W j o = l1 * nrm (s.W j)) : gapOf X Y l1 l2 s = 0 := by
  have hd : ¬ l1 < lmax (List.ofFn (fun j => nrm (fun o => (∑ i, X i j * s.R i o) - l2 * s.W j o))) := by
    rw [not_lt]
    apply lmax_le _ hl1
    intro v hv
    obtain ⟨j, rfl⟩ := List.mem_ofFn.1 hv
    exact (h j).1
  unfold gapOf
  simp only [if_neg hd]
  rw [fro_sq, fro_sq]
  have e1 : ∑ i, ∑ o, s.R i o * Y i o = ∑ i, ∑ o, s.R i o ^ 2 + ∑ j, ∑ o, (∑ i, X i j * s.R i o) * s.W j o := by
    have : ∑ j, ∑ o, (∑ i, X i j * s.R i o) * s.W j o = ∑ i, ∑ o, s.R i o * ∑ j, X i j * s.W j o := by
      simp only [Finset.sum_mul, Finset.mul_sum]
      rw [Finset.sum_congr rfl (fun j _ => Finset.sum_comm), Finset.sum_comm]
      apply Finset.sum_congr rfl
      intro i _
      rw [Finset.sum_comm]
      exact Finset.sum_congr rfl (fun o _ => Finset.sum_congr rfl (fun j _ => by ring))
    rw [this, ← Finset.sum_add_distrib]
    apply Finset.sum_congr rfl
    intro i _
    rw [← Finset.sum_add_distrib]
    apply Finset.sum_congr rfl
    intro o _
    have := ht i o
    linear_combination s.R i o * (-this)
  have e2 : ∑ j, ∑ o, (∑ i, X i j * s.R i o) * s.W j o = l1 * ∑ j, nrm (s.W j) + l2 * ∑ j, ∑ o, s.W j o ^ 2 := by
    rw [Finset.mul_sum, Finset.mul_sum, ← Finset.sum_add_distrib]
    apply Finset.sum_congr rfl
    intro j _
    rw [← (h j).2, Finset.mul_sum, ← Finset.sum_add_distrib]
    exact Finset.sum_congr rfl (fun o _ => by ring)
  rw [e1, e2]
  ring

/-! ### The loop -/

theorem loop_gap (X : Fin n → Fin p → ℝ) (Y : Fin n → Fin q → ℝ) (l1 l2 dwtol tol : ℝ) (draws : ℕ → List (Fin p)) (I : St n p q → Prop)
    (hI : ∀ it s, I s → I (sweep X l1 l2 (draws it) (s, 0, 0)).1) (k : ℕ) : ∀ (it : ℕ) (s : St n p q) (gap : ℝ), I s →
      let r := loop X Y l1 l2 dwtol tol draws k it s gap
      I r.st ∧ (k ≠ 0 → r.gap = gapOf X Y l1 l2 r.st) := by
  induction k with
  | zero => intro it s gap h; exact ⟨h, by simp⟩
  | succ k ih =>
    intro it s gap h
    have hg := hI it s h
    rw [loop]
    set r := sweep X l1 l2 (draws it) (s, 0, 0)
    simp only
    by_cases hc : r.2.1 = 0 ∨ r.2.2 / r.2.1 < dwtol ∨ k = 0
    · rw [if_pos hc]
      split
      · exact ⟨hg, fun _ => rfl⟩
      · obtain ⟨h1, h2⟩ := ih (it + 1) r.1 (gapOf X Y l1 l2 r.1) hg
        refine ⟨h1, fun _ => ?_⟩
        by_cases hk : k = 0
        · subst hk; rfl
        · exact h2 hk
    · rw [if_neg hc]
      obtain ⟨h1, h2⟩ := ih (it + 1) r.1 gap hg
      push Not at hc
      exact ⟨h1, fun _ => h2 hc.2.2⟩

theorem block_tracks (X : Fin n → Fin p → ℝ) (Y : Fin n → Fin q → ℝ) (l1 l2 : ℝ) (s : St n p q) (ii : Fin p) (h : Tracks X Y s) : Tracks X Y (block X l1 l2 s ii) := by
  by_cases hn : normCol X ii = 0
  · rw [block, if_pos hn]; exact h
  · exact (block_spec X Y l1 l2 s ii h hn).2

theorem sweep_inv (X : Fin n → Fin p → ℝ) (l1 l2 : ℝ) (I : St n p q → Prop) (hI : ∀ s ii, I s → I (block X l1 l2 s ii)) (is : List (Fin p)) :
    ∀ r : St n p q × ℝ × ℝ, I r.1 → I (sweep X l1 l2 is r).1 := by
  induction is with
  | nil => intro r h; exact h
  | cons ii is ih =>
    rintro ⟨s, a, b⟩ h
    rw [sweep]
    split
    · exact ih _ h
    · exact ih _ (hI s ii h)

/-- **C224, gap.** The gap reported for a fit with at least one iteration is 0 exactly if the coefficients have the least objective of all. -/
theorem C224_gap_zero (X : Fin n → Fin p → ℝ) (Y : Fin n → Fin q → ℝ) {l1 l2 : ℝ} (hl1 : 0 ≤ l1) (hl2 : 0 ≤ l2) (maxIter : ℕ) (hit : 1 ≤ maxIter) (tol : ℝ) (positive : Bool) (draws : ℕ → List (Fin p)) (W : Fin p → Fin q → ℝ) :
    let r := enetMT X Y l1 l2 maxIter tol positive draws W
    r.gap = 0 ↔ ∀ V, objective X Y l1 l2 r.W ≤ objective X Y l1 l2 V := by
  intro r
  constructor
  · intro h V
    have := (C119_fit_partial X Y l1 l2 maxIter tol positive draws W hl1 hl2 hit V).1
    have h' : (enetMT X Y l1 l2 maxIter tol positive draws W).gap = 0 := h
    rw [h'] at this
    show objective X Y l1 l2 (enetMT X Y l1 l2 maxIter tol positive draws W).W ≤ _
    linarith
  · intro h
    obtain ⟨h1, h2⟩ := loop_gap X Y l1 l2 tol (tol * ∑ i, ∑ o, Y i o * Y i o) draws (Tracks X Y) (fun it s hs => sweep_inv X l1 l2 (Tracks X Y) (fun s ii hs => block_tracks X Y l1 l2 s ii hs) (draws it) (s, 0, 0) hs) maxIter 0 ⟨W, fun i o => Y i o - ∑ j, X i j * W j o⟩ (tol + 1) (fun _ _ => rfl)
    exact (h2 (by omega)).trans (gap_of_kkt X Y hl1 _ h1 (fun j => block_kkt X Y hl1 hl2 _ h1 j (fun z => h _)))

/-- A block update when the other coefficients do not matter for this column. -/
theorem block_orthogonal (X : Fin n → Fin p → ℝ) (Y : Fin n → Fin q → ℝ) {l1 l2 : ℝ} (hl1 : 0 ≤ l1) (s : St n p q) (ii : Fin p) (ht : Tracks X Y s) (hn : normCol X ii ≠ 0) (horth : ∀ k, k ≠ ii → ∀ o, ∑ i, X i ii * X i k * s.W k o = 0) :
    (block X l1 l2 s ii).W = Function.update s.W ii (groupSoft l1 (normCol X ii + l2) (fun o => ∑ i, X i ii * Y i o)) := by
  rw [(block_spec X Y l1 l2 s ii ht hn).1]
  have hc : corr X Y s.W ii = fun o => ∑ i, X i ii * Y i o := by
    funext o
    rw [corr]
    have e : ∀ i, (Y i o - ∑ j, X i j * s.W j o + X i ii * s.W ii o) * X i ii = X i ii * Y i o - ∑ j ∈ Finset.univ.erase ii, X i ii * X i j * s.W j o := by
      intro i
      rw [← Finset.add_sum_erase Finset.univ (fun j => X i j * s.W j o) (Finset.mem_univ ii)]
      have : ∑ j ∈ Finset.univ.erase ii, X i ii * X i j * s.W j o = X i ii * ∑ j ∈ Finset.univ.erase ii, X i j * s.W j o := by
        rw [Finset.mul_sum]
        exact Finset.sum_congr rfl (fun j _ => by ring)
      rw [this]
      ring
    rw [Finset.sum_congr rfl (fun i _ => e i), Finset.sum_sub_distrib, Finset.sum_comm, Finset.sum_eq_zero (s := Finset.univ.erase ii) (fun k hk => horth k (Finset.ne_of_mem_erase hk) o), sub_zero]
  rw [hc]
  congr 1
  funext o
  show (if l1 < nrm (fun o => ∑ i, X i ii * Y i o) then _ else _) * _ = if nrm (fun o => ∑ i, X i ii * Y i o) ≤ l1 then _ else _
  set N := nrm (fun o => ∑ i, X i ii * Y i o) with hN
  by_cases h : N ≤ l1
  · rw [if_neg (not_lt.2 h), if_pos h, zero_mul]
  · have hlt := not_le.1 h
    have hpos : 0 < N := lt_of_le_of_lt hl1 hlt
    rw [if_pos hlt, if_neg h, max_eq_left (by rw [sub_nonneg, div_le_one hpos]; exact hlt.le), div_mul_eq_mul_div]
    rfl

/-- **C224, orthogonal columns.** If the columns are orthogonal and not zero and the first sweep visits all features (as with cyclic selection), the fit returns, from any start and for every tolerance and number of iterations, the group soft-thresholded
correlations, with gap 0: a feature has either a coefficient for some output or is left out for all outputs. -/
theorem C224_orthogonal (X : Fin n → Fin p → ℝ) (Y : Fin n → Fin q → ℝ) {l1 l2 : ℝ} (hl1 : 0 ≤ l1) (hl2 : 0 ≤ l2) (maxIter : ℕ) (hit : 1 ≤ maxIter) (tol : ℝ) (positive : Bool) (draws : ℕ → List (Fin p)) (W : Fin p → Fin q → ℝ)
    (hcol : ∀ j, ∃ i, X i j ≠ 0) (horth : ∀ j k, j ≠ k → ∑ i, X i j * X i k = 0) (hdraw : ∀ j, j ∈ draws 0) :
    let r := enetMT X Y l1 l2 maxIter tol positive draws W
    (∀ j o, r.W j o = groupSoft l1 ((∑ i, X i j ^ 2) + l2) (fun o => ∑ i, X i j * Y i o) o) ∧ r.gap = 0 := by
  intro r
  have hN : ∀ j, normCol X j ≠ 0 := fun j => (normCol_pos X j (hcol j)).ne'
  have hNq : ∀ j, ∑ i, X i j ^ 2 = normCol X j := fun j => Finset.sum_congr rfl (fun i _ => by ring)
  set target : Fin p → Fin q → ℝ := fun j => groupSoft l1 (normCol X j + l2) (fun o => ∑ i, X i j * Y i o) with htg
  have hc : ∀ s ii, Tracks X Y s → (block X l1 l2 s ii).W = Function.update s.W ii (target ii) := fun s ii ht =>
    block_orthogonal X Y hl1 s ii ht (hN ii) (fun k hk o => by rw [← Finset.sum_mul, horth ii k (Ne.symm hk), zero_mul])
  have hsw : ∀ (is : List (Fin p)) (r : St n p q × ℝ × ℝ) (done : Fin p → Prop), Tracks X Y r.1 → (∀ j, done j → r.1.W j = target j) →
      Tracks X Y (sweep X l1 l2 is r).1 ∧ ∀ j, done j ∨ j ∈ is → (sweep X l1 l2 is r).1.W j = target j := by
    intro is
    induction is with
    | nil => intro r done h1 h2; exact ⟨h1, fun j hj => h2 j (hj.resolve_right (by simp))⟩
    | cons ii is ih =>
      rintro ⟨s, a, b⟩ done h1 h2
      rw [sweep, if_neg (hN ii)]
      obtain ⟨g1, g2⟩ := ih (block X l1 l2 s ii, _, _) (fun j => done j ∨ j = ii) (block_tracks X Y l1 l2 s ii h1) (by
          intro j hj
          simp only
          rw [hc s ii h1]
          by_cases e : j = ii
          · subst e; rw [Function.update_self]
          · rw [Function.update_of_ne e]; exact h2 j (hj.resolve_right e))
      refine ⟨g1, fun j hj => g2 j ?_⟩
      rw [List.mem_cons] at hj
      tauto
  have key : ∀ r : Res n p q, r = loop X Y l1 l2 tol (tol * ∑ i, ∑ o, Y i o * Y i o) draws maxIter 0 ⟨W, fun i o => Y i o - ∑ j, X i j * W j o⟩ (tol + 1) →
      Tracks X Y r.st ∧ (∀ j, r.st.W j = target j) ∧ r.gap = gapOf X Y l1 l2 r.st := by
    rintro r rfl
    have hI : ∀ it s, (Tracks X Y s ∧ ∀ j, s.W j = target j) → (Tracks X Y (sweep X l1 l2 (draws it) (s, 0, 0)).1 ∧ ∀ j, (sweep X l1 l2 (draws it) (s, 0, 0)).1.W j = target j) := by
      rintro it s ⟨h1, h2⟩
      obtain ⟨g1, g2⟩ := hsw (draws it) (s, 0, 0) (fun _ => True) h1 (fun j _ => h2 j)
      exact ⟨g1, fun j => g2 j (Or.inl trivial)⟩
    obtain ⟨m, rfl⟩ : ∃ m, maxIter = m + 1 := ⟨maxIter - 1, by omega⟩
    obtain ⟨g1, g2⟩ := hsw (draws 0) (⟨W, fun i o => Y i o - ∑ j, X i j * W j o⟩, 0, 0) (fun _ => False) (fun _ _ => rfl) (fun j hj => hj.elim)
    have g := And.intro g1 (fun j => g2 j (Or.inr (hdraw j)))
    rw [loop]
    set r1 := sweep X l1 l2 (draws 0) (⟨W, fun i o => Y i o - ∑ j, X i j * W j o⟩, 0, 0)
    simp only
    by_cases hcond : r1.2.1 = 0 ∨ r1.2.2 / r1.2.1 < tol ∨ m = 0
    · rw [if_pos hcond]
      split
      · exact ⟨g.1, g.2, rfl⟩
      · obtain ⟨a1, a2⟩ := loop_gap X Y l1 l2 tol (tol * ∑ i, ∑ o, Y i o * Y i o) draws (fun s => Tracks X Y s ∧ ∀ j, s.W j = target j) hI m (0 + 1) r1.1 (gapOf X Y l1 l2 r1.1) g
        refine ⟨a1.1, a1.2, ?_⟩
        by_cases hm : m = 0
        · subst hm; rfl
        · exact a2 hm
    · rw [if_neg hcond]
      obtain ⟨a1, a2⟩ := loop_gap X Y l1 l2 tol (tol * ∑ i, ∑ o, Y i o * Y i o) draws (fun s => Tracks X Y s ∧ ∀ j, s.W j = target j) hI m (0 + 1) r1.1 (tol + 1) g
      push Not at hcond
      exact ⟨a1.1, a1.2, a2 hcond.2.2⟩
  obtain ⟨k1, k2, k3⟩ := key _ rfl
  refine ⟨fun j o => by rw [hNq]; exact congrFun (k2 j) o, ?_⟩
  refine k3.trans (gap_of_kkt X Y hl1 _ k1 (fun j => block_kkt X Y hl1 hl2 _ k1 j (fun z => ?_)))
  set st := (loop X Y l1 l2 tol (tol * ∑ i, ∑ o, Y i o * Y i o) draws maxIter 0 ⟨W, fun i o => Y i o - ∑ j, X i j * W j o⟩ (tol + 1)).st
  have hst := (C118_step X Y l1 l2 st j hl1 hl2 k1 (hcol j)).2.2 z
  have e : (block X l1 l2 st j).W = st.W := by
    rw [hc st j k1, ← k2 j, Function.update_eq_self]
  rwa [e] at hst

/-- **C224, large penalty.** If for every feature the vector of its correlations with the outputs is not longer than the penalty, the fit from zero coefficients has only zero coefficients, with gap 0, whatever features are visited. -/
theorem C224_large_penalty (X : Fin n → Fin p → ℝ) (Y : Fin n → Fin q → ℝ) {l1 l2 : ℝ} (hl1 : 0 ≤ l1) (maxIter : ℕ) (hit : 1 ≤ maxIter) (tol : ℝ) (positive : Bool) (draws : ℕ → List (Fin p))
    (h : ∀ j, √(∑ o, (∑ i, X i j * Y i o) ^ 2) ≤ l1) :
    let r := enetMT X Y l1 l2 maxIter tol positive draws (fun _ _ => 0)
    (∀ j o, r.W j o = 0) ∧ r.gap = 0 := by
  intro r
  have hI : ∀ s ii, (Tracks X Y s ∧ ∀ j o, s.W j o = 0) → (Tracks X Y (block X l1 l2 s ii) ∧ ∀ j o, (block X l1 l2 s ii).W j o = 0) := by
    rintro s ii ⟨ht, hz⟩
    refine ⟨block_tracks X Y l1 l2 s ii ht, fun j o => ?_⟩
    by_cases hn : normCol X ii = 0
    · rw [block, if_pos hn]; exact hz j o
    · rw [block_orthogonal X Y hl1 s ii ht hn (fun k _ o => by simp [hz k])]
      by_cases e : j = ii
      · subst e
        rw [Function.update_self, groupSoft, if_pos (h j)]
      · rw [Function.update_of_ne e]; exact hz j o
  obtain ⟨g1, g2⟩ := loop_gap X Y l1 l2 tol (tol * ∑ i, ∑ o, Y i o * Y i o) draws (fun s => Tracks X Y s ∧ ∀ j o, s.W j o = 0)
    (fun it s hs => sweep_inv X l1 l2 (fun s => Tracks X Y s ∧ ∀ j o, s.W j o = 0) hI (draws it) (s, 0, 0) hs) maxIter 0 ⟨fun _ _ => 0, fun i o => Y i o - ∑ j, X i j * 0⟩ (tol + 1) ⟨fun _ _ => rfl, fun _ _ => rfl⟩
  refine ⟨g1.2, ?_⟩
  refine (g2 (by omega)).trans (gap_of_kkt X Y hl1 _ g1.1 (fun j => ?_))
  set st := (loop X Y l1 l2 tol (tol * ∑ i, ∑ o, Y i o * Y i o) draws maxIter 0 ⟨fun _ _ => 0, fun i o => Y i o - ∑ j, X i j * 0⟩ (tol + 1)).st
  have hR : ∀ i o, st.R i o = Y i o := by
    intro i o
    rw [g1.1 i o, Finset.sum_eq_zero (fun k _ => by rw [g1.2 k, mul_zero]), sub_zero]
  have hW : st.W j = fun _ => 0 := funext (g1.2 j)
  constructor
  · have : (fun o => (∑ i, X i j * st.R i o) - l2 * st.W j o) = fun o => ∑ i, X i j * Y i o := by
      funext o
      rw [g1.2 j o, mul_zero, sub_zero, Finset.sum_congr rfl (fun i _ => by rw [hR i])]
    rw [this]
    exact h j
  · rw [hW, (nrm_zero_iff _).2 rfl]
    simp

/-! ### Agreement of fits -/

theorem turn_sum (Q : Fin q → Fin q → ℝ) (hQ : Orthogonal Q) (u v : Fin q → ℝ) : ∑ a, (∑ o, u o * Q o a) * (∑ o, v o * Q o a) = ∑ o, u o * v o := by
  simp only [Finset.sum_mul_sum]
  rw [Finset.sum_comm]
  apply Finset.sum_congr rfl
  intro o _
  rw [Finset.sum_comm]
  have : ∀ o', ∑ a, u o * Q o a * (v o' * Q o' a) = u o * v o' * if o = o' then 1 else 0 := by
    intro o'
    rw [← hQ.rows o o', Finset.mul_sum]
    exact Finset.sum_congr rfl (fun a _ => by ring)
  rw [Finset.sum_congr rfl (fun o' _ => this o')]
  simp

theorem turn_sq (Q : Fin q → Fin q → ℝ) (hQ : Orthogonal Q) (u : Fin q → ℝ) : ∑ a, (∑ o, u o * Q o a) ^ 2 = ∑ o, u o ^ 2 := by
  have := turn_sum Q hQ u u
  simpa only [sq] using this

theorem turn_objective (X : Fin n → Fin p → ℝ) (Y : Fin n → Fin q → ℝ) (l1 l2 : ℝ) (Q : Fin q → Fin q → ℝ) (hQ : Orthogonal Q) (W : Fin p → Fin q → ℝ) : objective X (turn Q Y) l1 l2 (turn Q W) = objective X Y l1 l2 W := by
  have e1 : ∀ i, ∑ a, (turn Q Y i a - ∑ j, X i j * turn Q W j a) ^ 2 = ∑ o, (Y i o - ∑ j, X i j * W j o) ^ 2 := by
    intro i
    rw [← turn_sq Q hQ (fun o => Y i o - ∑ j, X i j * W j o)]
    apply Finset.sum_congr rfl
    intro a _
    congr 1
    simp only [turn, sub_mul, Finset.sum_sub_distrib]
    congr 1
    simp only [Finset.mul_sum, Finset.sum_mul]
    rw [Finset.sum_comm]
    exact Finset.sum_congr rfl (fun o _ => Finset.sum_congr rfl (fun j _ => by ring))
  have e2 : ∀ j, ∑ a, turn Q W j a ^ 2 = ∑ o, W j o ^ 2 := fun j => turn_sq Q hQ (W j)
  unfold objective
  simp only [e1, e2]

theorem orth_back (Q : Fin q → Fin q → ℝ) (hQ : Orthogonal Q) {m : ℕ} (V : Fin m → Fin q → ℝ) : turn Q (turn (fun a o => Q o a) V) = V := by
  funext j a
  simp only [turn, Finset.sum_mul]
  rw [Finset.sum_comm]
  have : ∀ b, ∑ o, V j b * Q o b * Q o a = V j b * if b = a then 1 else 0 := by
    intro b
    rw [← hQ.cols b a, Finset.mul_sum]
    exact Finset.sum_congr rfl (fun o _ => by ring)
  rw [Finset.sum_congr rfl (fun b _ => this b)]
  simp

/-- The objective at the middle of two sets of coefficients. -/
theorem objective_mid (X : Fin n → Fin p → ℝ) (Y : Fin n → Fin q → ℝ) {l1 : ℝ} (h1 : 0 ≤ l1) (l2 : ℝ) (W V : Fin p → Fin q → ℝ) :
    (∑ i, ∑ o, (∑ j, X i j * (W j o - V j o)) ^ 2) / 4 + l2 / 4 * ∑ j, ∑ o, (W j o - V j o) ^ 2 ≤
      objective X Y l1 l2 W + objective X Y l1 l2 V - 2 * objective X Y l1 l2 (fun j o => (W j o + V j o) / 2) := by
  have e1 : ∑ i, ∑ o, (Y i o - ∑ j, X i j * ((W j o + V j o) / 2)) ^ 2 =
      (∑ i, ∑ o, (Y i o - ∑ j, X i j * W j o) ^ 2) / 2 + (∑ i, ∑ o, (Y i o - ∑ j, X i j * V j o) ^ 2) / 2 - (∑ i, ∑ o, (∑ j, X i j * (W j o - V j o)) ^ 2) / 4 := by
    rw [Finset.sum_div, Finset.sum_div, Finset.sum_div, ← Finset.sum_add_distrib, ← Finset.sum_sub_distrib]
    apply Finset.sum_congr rfl
    intro i _
    rw [Finset.sum_div, Finset.sum_div, Finset.sum_div, ← Finset.sum_add_distrib, ← Finset.sum_sub_distrib]
    apply Finset.sum_congr rfl
    intro o _
    have a1 : ∑ j, X i j * ((W j o + V j o) / 2) = (∑ j, X i j * W j o + ∑ j, X i j * V j o) / 2 := by
      rw [← Finset.sum_add_distrib, Finset.sum_div]
      exact Finset.sum_congr rfl (fun j _ => by ring)
    have a2 : ∑ j, X i j * (W j o - V j o) = ∑ j, X i j * W j o - ∑ j, X i j * V j o := by
      rw [← Finset.sum_sub_distrib]
      exact Finset.sum_congr rfl (fun j _ => by ring)
    rw [a1, a2]
    ring
  have e2 : ∑ j, ∑ o, ((W j o + V j o) / 2) ^ 2 = (∑ j, ∑ o, W j o ^ 2) / 2 + (∑ j, ∑ o, V j o ^ 2) / 2 - (∑ j, ∑ o, (W j o - V j o) ^ 2) / 4 := by
    rw [Finset.sum_div, Finset.sum_div, Finset.sum_div, ← Finset.sum_add_distrib, ← Finset.sum_sub_distrib]
    apply Finset.sum_congr rfl
    intro j _
    rw [Finset.sum_div, Finset.sum_div, Finset.sum_div, ← Finset.sum_add_distrib, ← Finset.sum_sub_distrib]
    exact Finset.sum_congr rfl (fun o _ => by ring)
  have e3 : ∑ j, √(∑ o, ((W j o + V j o) / 2) ^ 2) ≤ (∑ j, √(∑ o, W j o ^ 2) + ∑ j, √(∑ o, V j o ^ 2)) / 2 := by
    rw [← Finset.sum_add_distrib, Finset.sum_div]
    apply Finset.sum_le_sum
    intro j _
    have h2 := nrm_add_le (W j) (V j)
    have h3 := nrm_smul (1 / 2) (fun o => W j o + V j o)
    rw [abs_of_pos (by norm_num : (0 : ℝ) < 1 / 2)] at h3
    have h4 : (fun o => 1 / 2 * (W j o + V j o)) = fun o => (W j o + V j o) / 2 := by funext o; ring
    rw [h4] at h3
    show nrm (fun o => (W j o + V j o) / 2) ≤ (nrm (W j) + nrm (V j)) / 2
    rw [h3]
    linarith
  have e4 := mul_le_mul_of_nonneg_left e3 h1
  unfold objective
  rw [e1, e2]
  linarith

/-- **C224, agreement.** Two fits with the same penalties, one for the outputs `Y` and one for the same outputs in other orthonormal axes (`Q`), with any selections of features, starts, tolerances and numbers of iterations: seen in the same axes, the squared differences of
their predictions for the training rows, plus the quadratic penalty times the squared differences of their coefficients, sum to at most four times the sum of their reported gaps. -/
theorem C224_agree (X : Fin n → Fin p → ℝ) (Y : Fin n → Fin q → ℝ) {l1 l2 : ℝ} (hl1 : 0 ≤ l1) (hl2 : 0 ≤ l2) (Q : Fin q → Fin q → ℝ) (hQ : Orthogonal Q) (maxIter maxIter' : ℕ) (hit : 1 ≤ maxIter) (hit' : 1 ≤ maxIter') (tol tol' : ℝ) (positive positive' : Bool)
    (draws draws' : ℕ → List (Fin p)) (W W' : Fin p → Fin q → ℝ) :
    let r := enetMT X Y l1 l2 maxIter tol positive draws W
    let r' := enetMT X (turn Q Y) l1 l2 maxIter' tol' positive' draws' W'
    let V : Fin p → Fin q → ℝ := fun j o => ∑ a, r'.W j a * Q o a
    ∑ i, ∑ o, (∑ j, X i j * r.W j o - ∑ j, X i j * V j o) ^ 2 + l2 * ∑ j, ∑ o, (r.W j o - V j o) ^ 2 ≤ 4 * (r.gap + r'.gap) := by
  intro r r' V
  have hV : turn Q V = r'.W := orth_back Q hQ r'.W
  have k1 := (C119_fit_partial X Y l1 l2 maxIter tol positive draws W hl1 hl2 hit (fun j o => (r.W j o + V j o) / 2)).1
  have k2 := (C119_fit_partial X (turn Q Y) l1 l2 maxIter' tol' positive' draws' W' hl1 hl2 hit' (turn Q (fun j o => (r.W j o + V j o) / 2))).1
  rw [turn_objective X Y l1 l2 Q hQ] at k2
  have k3 : objective X (turn Q Y) l1 l2 r'.W = objective X Y l1 l2 V := by rw [← hV, turn_objective X Y l1 l2 Q hQ]
  have k4 := objective_mid X Y hl1 l2 r.W V
  have e : ∀ i o, ∑ j, X i j * r.W j o - ∑ j, X i j * V j o = ∑ j, X i j * (r.W j o - V j o) := by
    intro i o
    rw [← Finset.sum_sub_distrib]
    exact Finset.sum_congr rfl (fun j _ => by ring)
  simp only [e]
  change objective X Y l1 l2 r.W - _ ≤ r.gap at k1
  change objective X (turn Q Y) l1 l2 r'.W - _ ≤ r'.gap at k2
  linarith

/-- **C224, no gap.** Fits of the same data that report gap 0 have the same coefficients if the quadratic penalty is positive. -/
theorem C224_unique (X : Fin n → Fin p → ℝ) (Y : Fin n → Fin q → ℝ) {l1 l2 : ℝ} (hl1 : 0 ≤ l1) (hl2 : 0 < l2) (maxIter maxIter' : ℕ) (hit : 1 ≤ maxIter) (hit' : 1 ≤ maxIter') (tol tol' : ℝ) (positive positive' : Bool)
    (draws draws' : ℕ → List (Fin p)) (W W' : Fin p → Fin q → ℝ) (hg : (enetMT X Y l1 l2 maxIter tol positive draws W).gap = 0) (hg' : (enetMT X Y l1 l2 maxIter' tol' positive' draws' W').gap = 0) :
    (enetMT X Y l1 l2 maxIter tol positive draws W).W = (enetMT X Y l1 l2 maxIter' tol' positive' draws' W').W := by
  set r := enetMT X Y l1 l2 maxIter tol positive draws W with hr
  set r' := enetMT X Y l1 l2 maxIter' tol' positive' draws' W' with hr'
  have k1 := (C119_fit_partial X Y l1 l2 maxIter tol positive draws W hl1 hl2.le hit (fun j o => (r.W j o + r'.W j o) / 2)).1
  have k2 := (C119_fit_partial X Y l1 l2 maxIter' tol' positive' draws' W' hl1 hl2.le hit' (fun j o => (r.W j o + r'.W j o) / 2)).1
  have k4 := objective_mid X Y hl1 l2 r.W r'.W
  rw [← hr, hg] at k1
  rw [← hr', hg'] at k2
  have h1 : 0 ≤ ∑ i, ∑ o, (∑ j, X i j * (r.W j o - r'.W j o)) ^ 2 := Finset.sum_nonneg (fun i _ => Finset.sum_nonneg (fun o _ => sq_nonneg _))
  have h2 : ∑ j, ∑ o, (r.W j o - r'.W j o) ^ 2 ≤ 0 := by
    by_contra hc
    push Not at hc
    have := mul_pos hl2 hc
    linarith
  funext j o
  have h3 : (r.W j o - r'.W j o) ^ 2 ≤ 0 := by
    refine le_trans ?_ h2
    refine le_trans (Finset.single_le_sum (f := fun o => (r.W j o - r'.W j o) ^ 2) (fun o _ => sq_nonneg _) (Finset.mem_univ o)) ?_
    exact Finset.single_le_sum (f := fun j => ∑ o, (r.W j o - r'.W j o) ^ 2) (fun j _ => Finset.sum_nonneg (fun o _ => sq_nonneg _)) (Finset.mem_univ j)
  have h4 : r.W j o - r'.W j o = 0 := pow_eq_zero_iff (two_ne_zero) |>.1 (le_antisymm h3 (sq_nonneg _))
  linarith

/-- A quarter turn of two outputs. -/
example : Orthogonal (q := 2) (fun o a => if o = 0 then (if a = 0 then 0 else 1) else (if a = 0 then -1 else 0)) := by
  constructor <;> intro a b <;> fin_cases a <;> fin_cases b <;> norm_num [Fin.sum_univ_two]

/-- One feature, two outputs with correlations 3 and 4 (length 5), penalty 1: both coefficients are shortened by the factor 4/5; with penalty 5 both vanish. -/
example : (∀ o, groupSoft (q := 2) 1 1 (fun o => if o = 0 then 3 else 4) o = if o = 0 then 12 / 5 else 16 / 5) ∧ ∀ o, groupSoft (q := 2) 5 1 (fun o => if o = 0 then 3 else 4) o = 0 := by
  have h : √(∑ o : Fin 2, (if o = 0 then (3 : ℝ) else 4) ^ 2) = 5 := by
    rw [Fin.sum_univ_two, show ((if (0 : Fin 2) = 0 then (3 : ℝ) else 4) ^ 2 + (if (1 : Fin 2) = 0 then (3 : ℝ) else 4) ^ 2) = 5 ^ 2 by norm_num, Real.sqrt_sq (by norm_num)]
  constructor <;> intro o <;> unfold groupSoft <;> rw [h] <;> fin_cases o <;> norm_num

/-- Two orthogonal columns visited in turn, two outputs. -/
example (tol : ℝ) (k : ℕ) (W : Fin 2 → Fin 2 → ℝ) :
    (enetMT (fun i j => if i = 0 then (if j = 0 then 1 else 2) else (if j = 0 then 2 else -1)) (fun i o => if i = o then 3 else 1) 1 2 (k + 1) tol false (fun _ => [0, 1]) W).gap = 0 :=
  (C224_orthogonal _ _ (by norm_num) (by norm_num) (k + 1) (by omega) tol false (fun _ => [0, 1]) W
    (fun j => ⟨0, by fin_cases j <;> norm_num⟩)
    (fun j k h => by fin_cases j <;> fin_cases k <;> first | (exact absurd rfl h) | norm_num [Fin.sum_univ_two])
    (fun j => by fin_cases j <;> simp)).2

end Sk.EnetMT
