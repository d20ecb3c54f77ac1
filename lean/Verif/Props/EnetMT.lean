import Verif.Model.EnetMT
import Mathlib.Algebra.BigOperators.Field
import Mathlib.Algebra.Order.BigOperators.Ring.Finset
import Mathlib.Tactic.Ring
import Mathlib.Tactic.FieldSimp
import Mathlib.Tactic.Linarith
import Mathlib.Tactic.Positivity
import Mathlib.Tactic.LinearCombination
import Mathlib.Tactic.FinCases
import Mathlib.Data.Fin.VecNotation

/-! # C118, C119, C120: elastic-net coordinate descent with several outputs -/
set_option autoImplicit false

namespace Sk.EnetMT

open Sk.Enet (normCol)

variable {n p q : ℕ}

/-! ### Specification -/

/-- `1/2 ‖Y - XW‖² + l1 Σⱼ ‖Wⱼ‖ + l2/2 ‖W‖²`, with one row `Wⱼ` of coefficients per feature. -/
noncomputable def objective (X : Fin n → Fin p → ℝ) (Y : Fin n → Fin q → ℝ) (l1 l2 : ℝ) (W : Fin p → Fin q → ℝ) : ℝ :=
  (∑ i, ∑ o, (Y i o - ∑ j, X i j * W j o) ^ 2) / 2 + l1 * ∑ j, √(∑ o, W j o ^ 2) + l2 / 2 * ∑ j, ∑ o, W j o ^ 2

/-- The residual is that of the coefficients. -/
def Tracks (X : Fin n → Fin p → ℝ) (Y : Fin n → Fin q → ℝ) (s : St n p q) : Prop := ∀ i o, s.R i o = Y i o - ∑ j, X i j * s.W j o

/-! ### Norms -/

theorem nrm_nonneg (v : Fin q → ℝ) : 0 ≤ nrm v := Real.sqrt_nonneg _

theorem nrm_sq (v : Fin q → ℝ) : nrm v ^ 2 = ∑ o, v o ^ 2 := Real.sq_sqrt (Finset.sum_nonneg (fun o _ => sq_nonneg _))

theorem nrm_zero_iff (v : Fin q → ℝ) : nrm v = 0 ↔ v = fun _ => 0 := by
  constructor
  · intro h
    have h1 := nrm_sq v
    rw [h] at h1
    have h2 : ∑ o, v o ^ 2 = 0 := by rw [← h1]; ring
    rw [Finset.sum_eq_zero_iff_of_nonneg (fun o _ => sq_nonneg _)] at h2
    funext o
    exact pow_eq_zero_iff (two_ne_zero) |>.1 (h2 o (Finset.mem_univ o))
  · intro h
    rw [h, nrm]
    simp

theorem nrm_smul (c : ℝ) (v : Fin q → ℝ) : nrm (fun o => c * v o) = |c| * nrm v := by
  unfold nrm
  have : ∑ o, (c * v o) ^ 2 = c ^ 2 * ∑ o, v o ^ 2 := by
    rw [Finset.mul_sum]
    exact Finset.sum_congr rfl (fun o _ => by ring)
  rw [this, Real.sqrt_mul (sq_nonneg c), Real.sqrt_sq_eq_abs]

theorem dot_le (u v : Fin q → ℝ) : ∑ o, u o * v o ≤ nrm u * nrm v := by
  have h := Finset.sum_mul_sq_le_sq_mul_sq Finset.univ u v
  rw [← nrm_sq, ← nrm_sq, ← mul_pow] at h
  exact le_of_sq_le_sq h (mul_nonneg (nrm_nonneg u) (nrm_nonneg v)) |> fun h => h
where
  le_of_sq_le_sq {a b : ℝ} (h : a ^ 2 ≤ b ^ 2) (hb : 0 ≤ b) : a ≤ b := by
    by_contra hh
    push Not at hh
    nlinarith

theorem fro_sq (A : Fin n → Fin q → ℝ) : fro A * fro A = ∑ i, ∑ o, A i o ^ 2 :=
  Real.mul_self_sqrt (Finset.sum_nonneg (fun i _ => Finset.sum_nonneg (fun o _ => sq_nonneg _)))

/-! ### One block -/

theorem normCol_nonneg (X : Fin n → Fin p → ℝ) (j : Fin p) : 0 ≤ normCol X j :=
  Finset.sum_nonneg (fun i _ => mul_self_nonneg _)

/-- The block soft-thresholded vector minimises `a/2 ‖v‖² - t·v + l1 ‖v‖`. -/
theorem soft_min (a l1 : ℝ) (t v : Fin q → ℝ) (ha : 0 < a) (hl : 0 ≤ l1) :
    let c : ℝ := if l1 < nrm t then max (1 - l1 / nrm t) 0 / a else 0
    a / 2 * (∑ o, (c * t o) ^ 2) - (∑ o, t o * (c * t o)) + l1 * nrm (fun o => c * t o) ≤ a / 2 * (∑ o, v o ^ 2) - (∑ o, t o * v o) + l1 * nrm v := by
  intro c
  have hd := dot_le t v
  rw [nrm_smul]
  have e1 : ∑ o, (c * t o) ^ 2 = c ^ 2 * nrm t ^ 2 := by
    rw [nrm_sq, Finset.mul_sum]
    exact Finset.sum_congr rfl (fun o _ => by ring)
  have e2 : ∑ o, t o * (c * t o) = c * nrm t ^ 2 := by
    rw [nrm_sq, Finset.mul_sum]
    exact Finset.sum_congr rfl (fun o _ => by ring)
  rw [e1, e2, ← nrm_sq]
  have hv := nrm_nonneg v
  set r := nrm v
  set T := nrm t with hT
  by_cases h : l1 < T
  · have hT0 : 0 < T := lt_of_le_of_lt hl h
    have h1 : l1 / T ≤ 1 := by rw [div_le_one hT0]; exact h.le
    have hc : c = (1 - l1 / T) / a := by simp only [c]; rw [if_pos h, max_eq_left (by linarith)]
    have hc0 : 0 ≤ c := by rw [hc]; exact div_nonneg (by linarith) ha.le
    rw [abs_of_nonneg hc0]
    have e3 : a * (c * T) = T - l1 := by rw [hc]; field_simp
    have e4 : 0 ≤ a / 2 * (r - c * T) ^ 2 := by positivity
    have e5 : a / 2 * (c ^ 2 * T ^ 2) - c * T ^ 2 + l1 * (c * T) = a / 2 * r ^ 2 - T * r + l1 * r - a / 2 * (r - c * T) ^ 2 := by
      linear_combination (c * T - r) * e3
    linarith
  · have hc : c = 0 := if_neg h
    rw [hc]
    push Not at h
    have : 0 ≤ a / 2 * r ^ 2 := by positivity
    have h5 : T * r ≤ l1 * r := mul_le_mul_of_nonneg_right h hv
    simp
    nlinarith

theorem sum_update {β : Type} (W : Fin p → β) (ii : Fin p) (z : β) (g : Fin p → β → ℝ) :
    ∑ j, g j (Function.update W ii z j) = ∑ j, g j (W j) - g ii (W ii) + g ii z := by
  rw [← Finset.add_sum_erase Finset.univ _ (Finset.mem_univ ii), ← Finset.add_sum_erase Finset.univ (fun j => g j (W j)) (Finset.mem_univ ii)]
  have : ∑ x ∈ Finset.univ.erase ii, g x (Function.update W ii z x) = ∑ x ∈ Finset.univ.erase ii, g x (W x) := by
    apply Finset.sum_congr rfl
    intro j hj
    rw [Function.update_of_ne (Finset.ne_of_mem_erase hj)]
  rw [this, Function.update_self]
  ring

/-- The correlations of the column `ii` with the residual of the other columns. -/
noncomputable def corr (X : Fin n → Fin p → ℝ) (Y : Fin n → Fin q → ℝ) (W : Fin p → Fin q → ℝ) (ii : Fin p) (o : Fin q) : ℝ :=
  ∑ i, (Y i o - ∑ j, X i j * W j o + X i ii * W ii o) * X i ii

/-- The objective as a function of one row of coefficients. -/
theorem objective_update (X : Fin n → Fin p → ℝ) (Y : Fin n → Fin q → ℝ) (l1 l2 : ℝ) (W : Fin p → Fin q → ℝ) (ii : Fin p) (z : Fin q → ℝ) :
    objective X Y l1 l2 (Function.update W ii z) = objective X Y l1 l2 (Function.update W ii (fun _ => 0)) +
      ((normCol X ii + l2) / 2 * (∑ o, z o ^ 2) - (∑ o, corr X Y W ii o * z o) + l1 * nrm z) := by
  have h1 : ∀ i o (z : Fin q → ℝ), Y i o - ∑ j, X i j * Function.update W ii z j o = (Y i o - ∑ j, X i j * W j o + X i ii * W ii o) - X i ii * z o := by
    intro i o z
    rw [sum_update W ii z (fun j v => X i j * v o)]
    ring
  unfold objective
  simp only [h1]
  rw [sum_update W ii z (fun _ v => √(∑ o, v o ^ 2)), sum_update W ii (fun _ => 0) (fun _ v => √(∑ o, v o ^ 2)), sum_update W ii z (fun _ v => ∑ o, v o ^ 2),
    sum_update W ii (fun _ => 0) (fun _ v => ∑ o, v o ^ 2)]
  have h2 : ∑ i, ∑ o, (Y i o - ∑ j, X i j * W j o + X i ii * W ii o - X i ii * z o) ^ 2 =
      ∑ i, ∑ o, (Y i o - ∑ j, X i j * W j o + X i ii * W ii o - X i ii * 0) ^ 2 - 2 * (∑ o, corr X Y W ii o * z o) + (∑ o, z o ^ 2) * normCol X ii := by
    have e1 : (∑ o, corr X Y W ii o * z o) = ∑ i, ∑ o, (Y i o - ∑ j, X i j * W j o + X i ii * W ii o) * X i ii * z o := by
      rw [Finset.sum_comm]
      apply Finset.sum_congr rfl
      intro o _
      rw [corr, Finset.sum_mul]
    have e2 : (∑ o, z o ^ 2) * normCol X ii = ∑ i, ∑ o, z o ^ 2 * (X i ii * X i ii) := by
      rw [normCol, Finset.mul_sum]
      apply Finset.sum_congr rfl
      intro i _
      rw [Finset.sum_mul]
    rw [e1, e2, Finset.mul_sum, ← Finset.sum_sub_distrib, ← Finset.sum_add_distrib]
    apply Finset.sum_congr rfl
    intro i _
    rw [Finset.mul_sum, ← Finset.sum_sub_distrib, ← Finset.sum_add_distrib]
    apply Finset.sum_congr rfl
    intro o _
    ring
  rw [h2]
  have h3 : √(∑ _o : Fin q, (0 : ℝ) ^ 2) = 0 := by simp
  have h4 : (∑ _o : Fin q, (0 : ℝ) ^ 2) = 0 := by simp
  rw [h3, h4]
  unfold nrm
  ring

/-- Result of a block update on a tracked state. -/
theorem block_spec (X : Fin n → Fin p → ℝ) (Y : Fin n → Fin q → ℝ) (l1 l2 : ℝ) (s : St n p q) (ii : Fin p) (ht : Tracks X Y s) (hn : normCol X ii ≠ 0) :
    (block X l1 l2 s ii).W = Function.update s.W ii (fun o => (if l1 < nrm (corr X Y s.W ii) then max (1 - l1 / nrm (corr X Y s.W ii)) 0 / (normCol X ii + l2) else 0) * corr X Y s.W ii o) ∧
      Tracks X Y (block X l1 l2 s ii) := by
  have hR1 : (if nrm (s.W ii) ≠ 0 then fun i o => s.R i o + X i ii * s.W ii o else s.R) = fun i o => Y i o - ∑ j, X i j * s.W j o + X i ii * s.W ii o := by
    split
    · funext i o; rw [ht i o]
    · rename_i h
      push Not at h
      rw [nrm_zero_iff] at h
      funext i o; rw [ht i o, h]; ring
  have hc : (fun o => ∑ i, (Y i o - ∑ j, X i j * s.W j o + X i ii * s.W ii o) * X i ii) = corr X Y s.W ii := rfl
  unfold block
  rw [if_neg hn]
  simp only [hR1]
  rw [hc]
  refine ⟨rfl, ?_⟩
  have hz : ∀ z : Fin q → ℝ, Tracks X Y ⟨Function.update s.W ii z, if nrm z ≠ 0 then fun i o => Y i o - ∑ j, X i j * s.W j o + X i ii * s.W ii o - X i ii * z o
      else fun i o => Y i o - ∑ j, X i j * s.W j o + X i ii * s.W ii o⟩ := by
    intro z i o
    simp only
    rw [sum_update s.W ii z (fun j v => X i j * v o)]
    split
    · ring
    · rename_i h
      push Not at h
      rw [nrm_zero_iff] at h
      rw [h]; ring
  exact hz _

theorem normCol_pos (X : Fin n → Fin p → ℝ) (ii : Fin p) (hcol : ∃ i, X i ii ≠ 0) : 0 < normCol X ii := by
  obtain ⟨i, hi⟩ := hcol
  apply Finset.sum_pos'
  · intro i _; exact mul_self_nonneg _
  · exact ⟨i, Finset.mem_univ i, mul_self_pos.2 hi⟩

/-- C118: one block update keeps the residual exact, changes the row of that feature only, and leaves the objective at its minimum over all values of that row. -/
theorem C118_step (X : Fin n → Fin p → ℝ) (Y : Fin n → Fin q → ℝ) (l1 l2 : ℝ) (s : St n p q) (ii : Fin p) (hl1 : 0 ≤ l1) (hl2 : 0 ≤ l2) (ht : Tracks X Y s) (hcol : ∃ i, X i ii ≠ 0) :
    let s' := block X l1 l2 s ii
    Tracks X Y s' ∧ (∀ j, j ≠ ii → s'.W j = s.W j) ∧ ∀ z : Fin q → ℝ, objective X Y l1 l2 s'.W ≤ objective X Y l1 l2 (Function.update s.W ii z) := by
  have hn := normCol_pos X ii hcol
  intro s'
  obtain ⟨h1, h2⟩ := block_spec X Y l1 l2 s ii ht hn.ne'
  refine ⟨h2, ?_, ?_⟩
  · intro j hj
    simp only [s', h1, Function.update_of_ne hj]
  · intro z
    simp only [s', h1]
    rw [objective_update X Y l1 l2 s.W ii z, objective_update X Y l1 l2 s.W ii _]
    have := soft_min (normCol X ii + l2) l1 (corr X Y s.W ii) z (by linarith) hl1
    simp only at this
    linarith

/-- The invariant of a run started with objective at most `J`. -/
structure Good (X : Fin n → Fin p → ℝ) (Y : Fin n → Fin q → ℝ) (l1 l2 : ℝ) (J : ℝ) (s : St n p q) : Prop where
  tracks : Tracks X Y s
  le : objective X Y l1 l2 s.W ≤ J

theorem block_good (X : Fin n → Fin p → ℝ) (Y : Fin n → Fin q → ℝ) (l1 l2 J : ℝ) (s : St n p q) (ii : Fin p) (hl1 : 0 ≤ l1) (hl2 : 0 ≤ l2) (hs : Good X Y l1 l2 J s) :
    Good X Y l1 l2 J (block X l1 l2 s ii) := by
  by_cases hn : normCol X ii = 0
  · rw [block, if_pos hn]; exact hs
  · have hcol : ∃ i, X i ii ≠ 0 := by
      by_contra h
      push Not at h
      apply hn
      rw [normCol]
      apply Finset.sum_eq_zero
      intro i _; rw [h i]; ring
    obtain ⟨h1, _, h3⟩ := C118_step X Y l1 l2 s ii hl1 hl2 hs.tracks hcol
    refine ⟨h1, ?_⟩
    have := h3 (s.W ii)
    rw [Function.update_eq_self] at this
    exact this.trans hs.le

theorem sweep_good (X : Fin n → Fin p → ℝ) (Y : Fin n → Fin q → ℝ) (l1 l2 J : ℝ) (hl1 : 0 ≤ l1) (hl2 : 0 ≤ l2) (is : List (Fin p)) :
    ∀ r : St n p q × ℝ × ℝ, Good X Y l1 l2 J r.1 → Good X Y l1 l2 J (sweep X l1 l2 is r).1 := by
  induction is with
  | nil => intro r h; exact h
  | cons ii is ih =>
    rintro ⟨s, a, b⟩ h
    rw [sweep]
    split
    · exact ih _ h
    · exact ih _ (block_good X Y l1 l2 J s ii hl1 hl2 h)

theorem loop_good (X : Fin n → Fin p → ℝ) (Y : Fin n → Fin q → ℝ) (l1 l2 dwtol tol : ℝ) (draws : ℕ → List (Fin p)) (J : ℝ) (hl1 : 0 ≤ l1) (hl2 : 0 ≤ l2) (k : ℕ) :
    ∀ (it : ℕ) (s : St n p q) (gap : ℝ), Good X Y l1 l2 J s →
      let r := loop X Y l1 l2 dwtol tol draws k it s gap
      Good X Y l1 l2 J r.st ∧ (k ≠ 0 → r.gap = gapOf X Y l1 l2 r.st) ∧ it ≤ r.nIter ∧ r.nIter ≤ it + k ∧ (r.nIter < it + k → r.gap < tol) := by
  induction k with
  | zero => intro it s gap h; exact ⟨h, by simp, le_rfl, le_rfl, by simp [loop]⟩
  | succ k ih =>
    intro it s gap h
    have hg := sweep_good X Y l1 l2 J hl1 hl2 (draws it) (s, 0, 0) h
    rw [loop]
    set r := sweep X l1 l2 (draws it) (s, 0, 0)
    simp only
    by_cases hc : r.2.1 = 0 ∨ r.2.2 / r.2.1 < dwtol ∨ k = 0
    · rw [if_pos hc]
      by_cases hlt : gapOf X Y l1 l2 r.1 < tol
      · rw [if_pos hlt]
        exact ⟨hg, fun _ => rfl, le_rfl, by simp, fun _ => hlt⟩
      · rw [if_neg hlt]
        obtain ⟨h1, h2, h3, h4, h5⟩ := ih (it + 1) r.1 (gapOf X Y l1 l2 r.1) hg
        refine ⟨h1, ?_, by omega, by omega, fun h => h5 (by omega)⟩
        intro _
        by_cases hk : k = 0
        · subst hk; rfl
        · exact h2 hk
    · rw [if_neg hc]
      obtain ⟨h1, h2, h3, h4, h5⟩ := ih (it + 1) r.1 gap hg
      push Not at hc
      exact ⟨h1, fun _ => h2 hc.2.2, by omega, by omega, fun h => h5 (by omega)⟩

/-- C118: whatever the order of the coordinates and the number of iterations, the coefficients returned have an objective at most that of the starting coefficients, and the
maintained residual is exactly `Y - XW`. -/
theorem C118_fit (X : Fin n → Fin p → ℝ) (Y : Fin n → Fin q → ℝ) (l1 l2 : ℝ) (maxIter : ℕ) (tol : ℝ) (positive : Bool) (draws : ℕ → List (Fin p)) (W : Fin p → Fin q → ℝ)
    (hl1 : 0 ≤ l1) (hl2 : 0 ≤ l2) :
    let r := enetMT X Y l1 l2 maxIter tol positive draws W
    objective X Y l1 l2 r.W ≤ objective X Y l1 l2 W ∧ ∀ i o, r.R i o = Y i o - ∑ j, X i j * r.W j o := by
  intro r
  obtain ⟨h, _⟩ := loop_good X Y l1 l2 tol (tol * ∑ i, ∑ o, Y i o * Y i o) draws (objective X Y l1 l2 W) hl1 hl2 maxIter 0
    ⟨W, fun i o => Y i o - ∑ j, X i j * W j o⟩ (tol + 1) ⟨fun _ _ => rfl, le_rfl⟩
  exact ⟨h.le, h.tracks⟩

/-! ### The gap -/

theorem lmax_ge (l : List ℝ) : 0 ≤ lmax l ∧ ∀ v ∈ l, v ≤ lmax l := by
  have key : ∀ (l : List ℝ) (a : ℝ), a ≤ l.foldl (fun m v => if m < v then v else m) a ∧ ∀ v ∈ l, v ≤ l.foldl (fun m v => if m < v then v else m) a := by
    intro l
    induction l with
    | nil => intro a; simp
    | cons b l ih =>
      intro a
      obtain ⟨h1, h2⟩ := ih (if a < b then b else a)
      rw [List.foldl_cons]
      have ha : a ≤ if a < b then b else a := by split <;> linarith
      have hb : b ≤ if a < b then b else a := by split <;> linarith
      refine ⟨ha.trans h1, ?_⟩
      intro v hv
      rcases List.mem_cons.1 hv with rfl | hv
      · exact hb.trans h1
      · exact h2 v hv
  exact key l 0

/-- Weak duality: for any scaling `c` of the residual for which the scaled correlations are at most `l1` in the directions of `V`. -/
theorem weak_duality (X : Fin n → Fin p → ℝ) (Y : Fin n → Fin q → ℝ) (l1 l2 c : ℝ) (s : St n p q) (hl2 : 0 ≤ l2) (ht : Tracks X Y s) (V : Fin p → Fin q → ℝ)
    (hc : ∀ j, c * (∑ o, ((∑ i, X i j * s.R i o) - l2 * s.W j o) * V j o) ≤ l1 * nrm (V j)) :
    objective X Y l1 l2 s.W - objective X Y l1 l2 V ≤
      (1 / 2) * (∑ i, ∑ o, s.R i o ^ 2) * (1 + c * c) + (l1 * (∑ j, nrm (s.W j)) - c * (∑ i, ∑ o, s.R i o * Y i o) + (1 / 2) * l2 * (1 + c * c) * (∑ j, ∑ o, s.W j o ^ 2)) := by
  have e1 : ∑ i, ∑ o, (Y i o - ∑ j, X i j * s.W j o) ^ 2 = ∑ i, ∑ o, s.R i o ^ 2 := by
    apply Finset.sum_congr rfl
    intro i _
    apply Finset.sum_congr rfl
    intro o _; rw [ht i o]
  have h1 : ∑ j, c * (∑ o, ((∑ i, X i j * s.R i o) - l2 * s.W j o) * V j o) ≤ l1 * ∑ j, nrm (V j) := by
    rw [Finset.mul_sum]
    exact Finset.sum_le_sum (fun j _ => hc j)
  have e3 : ∑ j, c * (∑ o, ((∑ i, X i j * s.R i o) - l2 * s.W j o) * V j o) = c * (∑ i, ∑ o, s.R i o * ∑ j, X i j * V j o) - c * l2 * ∑ j, ∑ o, s.W j o * V j o := by
    have a1 : ∀ j, ∑ o, ((∑ i, X i j * s.R i o) - l2 * s.W j o) * V j o = (∑ o, ∑ i, s.R i o * (X i j * V j o)) - l2 * ∑ o, s.W j o * V j o := by
      intro j
      rw [Finset.mul_sum, ← Finset.sum_sub_distrib]
      apply Finset.sum_congr rfl
      intro o _
      have : ∑ i, s.R i o * (X i j * V j o) = (∑ i, X i j * s.R i o) * V j o := by
        rw [Finset.sum_mul]
        exact Finset.sum_congr rfl (fun i _ => by ring)
      rw [this]; ring
    rw [← Finset.mul_sum, Finset.sum_congr rfl (fun j _ => a1 j), Finset.sum_sub_distrib, ← Finset.mul_sum]
    have a2 : ∑ j, ∑ o, ∑ i, s.R i o * (X i j * V j o) = ∑ i, ∑ o, s.R i o * ∑ j, X i j * V j o := by
      rw [Finset.sum_comm]
      have : ∀ o, ∑ j, ∑ i, s.R i o * (X i j * V j o) = ∑ i, s.R i o * ∑ j, X i j * V j o := by
        intro o
        rw [Finset.sum_comm]
        apply Finset.sum_congr rfl
        intro i _
        rw [Finset.mul_sum]
      rw [Finset.sum_congr rfl (fun o _ => this o), Finset.sum_comm]
    rw [a2]; ring
  have h2 : c * (∑ i, ∑ o, s.R i o * Y i o) - c * (∑ i, ∑ o, s.R i o * ∑ j, X i j * V j o) - c ^ 2 / 2 * (∑ i, ∑ o, s.R i o ^ 2) ≤ (∑ i, ∑ o, (Y i o - ∑ j, X i j * V j o) ^ 2) / 2 := by
    rw [Finset.mul_sum, Finset.mul_sum, Finset.mul_sum, Finset.sum_div, ← Finset.sum_sub_distrib, ← Finset.sum_sub_distrib]
    apply Finset.sum_le_sum
    intro i _
    rw [Finset.mul_sum, Finset.mul_sum, Finset.mul_sum, Finset.sum_div, ← Finset.sum_sub_distrib, ← Finset.sum_sub_distrib]
    apply Finset.sum_le_sum
    intro o _
    nlinarith [sq_nonneg (Y i o - ∑ j, X i j * V j o - c * s.R i o)]
  have h3 : c * l2 * (∑ j, ∑ o, s.W j o * V j o) - c ^ 2 / 2 * l2 * (∑ j, ∑ o, s.W j o ^ 2) ≤ l2 / 2 * ∑ j, ∑ o, V j o ^ 2 := by
    rw [Finset.mul_sum, Finset.mul_sum, Finset.mul_sum, ← Finset.sum_sub_distrib]
    apply Finset.sum_le_sum
    intro j _
    rw [Finset.mul_sum, Finset.mul_sum, Finset.mul_sum, ← Finset.sum_sub_distrib]
    apply Finset.sum_le_sum
    intro o _
    nlinarith [mul_nonneg hl2 (sq_nonneg (V j o - c * s.W j o))]
  unfold objective
  rw [e1]
  unfold nrm at h1 ⊢
  nlinarith

/-- C119: the gap formula bounds the suboptimality of the coefficients. -/
theorem C119_gap (X : Fin n → Fin p → ℝ) (Y : Fin n → Fin q → ℝ) (l1 l2 : ℝ) (s : St n p q) (hl1 : 0 ≤ l1) (hl2 : 0 ≤ l2) (ht : Tracks X Y s) (V : Fin p → Fin q → ℝ) :
    objective X Y l1 l2 s.W - objective X Y l1 l2 V ≤ gapOf X Y l1 l2 s := by
  unfold gapOf
  simp only
  set d := lmax (List.ofFn (fun j => nrm (fun o => (∑ i, X i j * s.R i o) - l2 * s.W j o))) with hd
  have hbound : ∀ (c : ℝ) (j : Fin p), 0 ≤ c → c * d ≤ l1 → c * (∑ o, ((∑ i, X i j * s.R i o) - l2 * s.W j o) * V j o) ≤ l1 * nrm (V j) := by
    intro c j hc hcd
    have h1 := dot_le (fun o => (∑ i, X i j * s.R i o) - l2 * s.W j o) (V j)
    have h2 : nrm (fun o => (∑ i, X i j * s.R i o) - l2 * s.W j o) ≤ d := by
      rw [hd]
      apply (lmax_ge _).2
      rw [List.mem_ofFn]
      exact ⟨j, rfl⟩
    have h3 := nrm_nonneg (V j)
    have h4 := mul_le_mul_of_nonneg_right h2 h3
    have h5 := mul_le_mul_of_nonneg_left (h1.trans h4) hc
    have h6 := mul_le_mul_of_nonneg_right hcd h3
    linarith [mul_assoc c d (nrm (V j))]
  rw [fro_sq]
  by_cases hlt : l1 < d
  · have hd0 : 0 < d := lt_of_le_of_lt hl1 hlt
    have := weak_duality X Y l1 l2 (l1 / d) s hl2 ht V (fun j => hbound (l1 / d) j (by positivity) (by rw [div_mul_cancel₀ _ hd0.ne']))
    simp only [if_pos hlt]
    rw [← fro_sq, ← fro_sq] at this
    rw [← fro_sq]
    linarith
  · have := weak_duality X Y l1 l2 1 s hl2 ht V (fun j => hbound 1 j zero_le_one (by rw [one_mul]; exact not_lt.1 hlt))
    simp only [if_neg hlt]
    rw [fro_sq]
    linarith

/-- C119: with at least one iteration, the returned `Gap` bounds the distance of the returned coefficients' objective to that of any competitor, and the gap is below `Eps`
whenever the reported iteration count shows that the loop stopped early. -/
theorem C119_fit_partial (X : Fin n → Fin p → ℝ) (Y : Fin n → Fin q → ℝ) (l1 l2 : ℝ) (maxIter : ℕ) (tol : ℝ) (positive : Bool) (draws : ℕ → List (Fin p)) (W : Fin p → Fin q → ℝ)
    (hl1 : 0 ≤ l1) (hl2 : 0 ≤ l2) (hit : 1 ≤ maxIter) (V : Fin p → Fin q → ℝ) :
    let r := enetMT X Y l1 l2 maxIter tol positive draws W
    objective X Y l1 l2 r.W - objective X Y l1 l2 V ≤ r.gap ∧ r.eps = tol * ∑ i, ∑ o, Y i o ^ 2 ∧ 1 ≤ r.nIter ∧ r.nIter ≤ maxIter + 1 ∧ (r.nIter ≤ maxIter → r.gap < r.eps) := by
  intro r
  obtain ⟨h1, h2, h3, h4, h5⟩ := loop_good X Y l1 l2 tol (tol * ∑ i, ∑ o, Y i o * Y i o) draws (objective X Y l1 l2 W) hl1 hl2 maxIter 0
    ⟨W, fun i o => Y i o - ∑ j, X i j * W j o⟩ (tol + 1) ⟨fun _ _ => rfl, le_rfl⟩
  have h6 := C119_gap X Y l1 l2 _ hl1 hl2 h1.tracks V
  rw [← h2 (by omega)] at h6
  refine ⟨h6, ?_, by simp [r, enetMT], by simp only [r, enetMT]; omega, ?_⟩
  · simp only [r, enetMT, pow_two]
  · intro h
    apply h5
    simp only [r, enetMT] at h
    omega

/-- C119, violated: with a tolerance of 0 the loop never stops early, and the iteration count reported is one more than `MaxIter`, for all data. -/
theorem C119_count_violated (X : Fin n → Fin p → ℝ) (Y : Fin n → Fin q → ℝ) (l1 l2 : ℝ) (maxIter : ℕ) (positive : Bool) (draws : ℕ → List (Fin p)) (W : Fin p → Fin q → ℝ)
    (hl1 : 0 ≤ l1) (hl2 : 0 ≤ l2) (hit : 1 ≤ maxIter) : (enetMT X Y l1 l2 maxIter 0 positive draws W).nIter = maxIter + 1 := by
  obtain ⟨h1, h2, h3, h4, h5⟩ := C119_fit_partial X Y l1 l2 maxIter 0 positive draws W hl1 hl2 hit (enetMT X Y l1 l2 maxIter 0 positive draws W).W
  by_contra hne
  have h6 := h5 (by omega)
  rw [h2, zero_mul] at h6
  simp only [sub_self] at h1
  linarith

/-- C119, violated for `MaxIter = 0`: the reported gap is then the tolerance plus one, whatever the data; here the objective can be improved by more. -/
theorem C119_no_iteration_violated (tol a : ℝ) (draws : ℕ → List (Fin 1)) (ha : 2 * (tol + 1) < a ^ 2) : ∃ (X : Fin 1 → Fin 1 → ℝ) (Y : Fin 1 → Fin 2 → ℝ) (V : Fin 1 → Fin 2 → ℝ),
    let r := enetMT X Y 0 0 0 tol false draws (fun _ _ => 0)
    r.gap < objective X Y 0 0 r.W - objective X Y 0 0 V := by
  refine ⟨fun _ _ => 1, fun _ _ => a, fun _ _ => a, ?_⟩
  simp only [enetMT, loop, objective, Fin.sum_univ_one, Fin.sum_univ_two]
  nlinarith [sq_nonneg a]

/-! ### Fixed points -/

/-- C118: coefficients that no block update changes are a global minimiser (all columns non-zero). -/
theorem C118_fixpoint_optimal (X : Fin n → Fin p → ℝ) (Y : Fin n → Fin q → ℝ) (l1 l2 : ℝ) (s : St n p q) (hl1 : 0 ≤ l1) (hl2 : 0 ≤ l2) (ht : Tracks X Y s)
    (hcol : ∀ j, ∃ i, X i j ≠ 0) (hfix : ∀ j, (block X l1 l2 s j).W = s.W) (V : Fin p → Fin q → ℝ) :
    objective X Y l1 l2 s.W ≤ objective X Y l1 l2 V := by
  have kkt : ∀ j, nrm (fun o => (∑ i, X i j * s.R i o) - l2 * s.W j o) ≤ l1 ∧
      ∑ o, ((∑ i, X i j * s.R i o) - l2 * s.W j o) * s.W j o = l1 * nrm (s.W j) := by
    intro j
    have hn := normCol_pos X j (hcol j)
    obtain ⟨h1, _⟩ := block_spec X Y l1 l2 s j ht hn.ne'
    set t := corr X Y s.W j with hT
    set c : ℝ := if l1 < nrm t then max (1 - l1 / nrm t) 0 / (normCol X j + l2) else 0 with hc
    have ha : 0 < normCol X j + l2 := by linarith
    have hz : s.W j = fun o => c * t o := by
      have := congrFun ((hfix j).symm.trans h1) j
      rw [Function.update_self] at this
      exact this
    have ht2 : ∀ o, t o = (∑ i, X i j * s.R i o) + normCol X j * s.W j o := by
      intro o
      rw [hT, corr, normCol, Finset.sum_mul, ← Finset.sum_add_distrib]
      apply Finset.sum_congr rfl
      intro i _
      rw [ht i o]; ring
    have hA : ∀ o, (∑ i, X i j * s.R i o) - l2 * s.W j o = (1 - (normCol X j + l2) * c) * t o := by
      intro o
      have h3 := ht2 o
      have h4 : s.W j o = c * t o := by rw [hz]
      linear_combination h4 * (-(normCol X j + l2)) - h3
    have hg : nrm (fun o => (∑ i, X i j * s.R i o) - l2 * s.W j o) = |1 - (normCol X j + l2) * c| * nrm t := by
      rw [← nrm_smul]
      congr 1
      funext o
      exact hA o
    have hd : ∑ o, ((∑ i, X i j * s.R i o) - l2 * s.W j o) * s.W j o = (1 - (normCol X j + l2) * c) * c * nrm t ^ 2 := by
      rw [nrm_sq, Finset.mul_sum]
      apply Finset.sum_congr rfl
      intro o _
      rw [hA o, hz]; ring
    have hw : nrm (s.W j) = |c| * nrm t := by rw [hz, nrm_smul]
    rw [hg, hd, hw]
    by_cases h : l1 < nrm t
    · have hT0 : 0 < nrm t := lt_of_le_of_lt hl1 h
      have h3 : l1 / nrm t ≤ 1 := by rw [div_le_one hT0]; exact h.le
      have hc1 : c = (1 - l1 / nrm t) / (normCol X j + l2) := by rw [hc, if_pos h, max_eq_left (by linarith)]
      have hc0 : 0 ≤ c := by rw [hc1]; exact div_nonneg (by linarith) ha.le
      have e : 1 - (normCol X j + l2) * c = l1 / nrm t := by rw [hc1]; field_simp; ring
      rw [e, abs_of_nonneg hc0, abs_of_nonneg (by positivity)]
      constructor
      · rw [div_mul_cancel₀ _ hT0.ne']
      · field_simp
    · have hc1 : c = 0 := if_neg h
      rw [hc1]
      simp only [mul_zero, sub_zero, abs_one, one_mul, abs_zero, zero_mul]
      exact ⟨not_lt.1 h, trivial⟩
  have hwd := weak_duality X Y l1 l2 1 s hl2 ht V (by
    intro j
    rw [one_mul]
    exact (dot_le _ _).trans (mul_le_mul_of_nonneg_right (kkt j).1 (nrm_nonneg _)))
  have hsum : ∑ j, ∑ o, ((∑ i, X i j * s.R i o) - l2 * s.W j o) * s.W j o = l1 * ∑ j, nrm (s.W j) := by
    rw [Finset.mul_sum]
    exact Finset.sum_congr rfl (fun j _ => (kkt j).2)
  have hsum2 : ∑ j, ∑ o, ((∑ i, X i j * s.R i o) - l2 * s.W j o) * s.W j o = (∑ i, ∑ o, s.R i o * Y i o) - (∑ i, ∑ o, s.R i o ^ 2) - l2 * ∑ j, ∑ o, s.W j o ^ 2 := by
    have a1 : ∀ j, ∑ o, ((∑ i, X i j * s.R i o) - l2 * s.W j o) * s.W j o = (∑ o, ∑ i, s.R i o * (X i j * s.W j o)) - l2 * ∑ o, s.W j o ^ 2 := by
      intro j
      rw [Finset.mul_sum, ← Finset.sum_sub_distrib]
      apply Finset.sum_congr rfl
      intro o _
      have : ∑ i, s.R i o * (X i j * s.W j o) = (∑ i, X i j * s.R i o) * s.W j o := by
        rw [Finset.sum_mul]
        exact Finset.sum_congr rfl (fun i _ => by ring)
      rw [this]; ring
    rw [Finset.sum_congr rfl (fun j _ => a1 j), Finset.sum_sub_distrib, ← Finset.mul_sum]
    have a2 : ∑ j, ∑ o, ∑ i, s.R i o * (X i j * s.W j o) = ∑ i, ∑ o, s.R i o * ∑ j, X i j * s.W j o := by
      rw [Finset.sum_comm]
      have : ∀ o, ∑ j, ∑ i, s.R i o * (X i j * s.W j o) = ∑ i, s.R i o * ∑ j, X i j * s.W j o := by
        intro o
        rw [Finset.sum_comm]
        apply Finset.sum_congr rfl
        intro i _
        rw [Finset.mul_sum]
      rw [Finset.sum_congr rfl (fun o _ => this o), Finset.sum_comm]
    rw [a2, ← Finset.sum_sub_distrib]
    congr 1
    apply Finset.sum_congr rfl
    intro i _
    rw [← Finset.sum_sub_distrib]
    apply Finset.sum_congr rfl
    intro o _
    have := ht i o
    have e : ∑ j, X i j * s.W j o = Y i o - s.R i o := by linarith
    rw [e]; ring
  rw [hsum] at hsum2
  linarith

/-- The hypotheses of `C118_fixpoint_optimal` can be met with a positive `l1`: one sample, one feature, targets `(3, 4)` of norm 5 and `l1 = 1`; the coefficients are `4/5` of the targets. -/
example : ∃ s : St 1 1 2, Tracks (fun _ _ => 1) (fun _ => ![3, 4]) s ∧ (∀ j, (block (fun _ _ => 1) 1 0 s j).W = s.W) ∧ s.W 0 0 ≠ 0 := by
  set s : St 1 1 2 := ⟨fun _ => ![12 / 5, 16 / 5], fun _ => ![3 / 5, 4 / 5]⟩ with hs
  have ht : Tracks (fun _ _ => (1 : ℝ)) (fun _ => ![3, 4]) s := by
    intro i o
    fin_cases o <;> norm_num [hs]
  have hn : normCol (K := ℝ) (n := 1) (p := 1) (fun _ _ => 1) 0 = 1 := by simp [normCol]
  have hc : corr (n := 1) (fun _ _ => 1) (fun _ => ![3, 4]) s.W 0 = ![3, 4] := by
    funext o
    fin_cases o <;> norm_num [corr, hs]
  have h5 : nrm (![3, 4] : Fin 2 → ℝ) = 5 := by
    unfold nrm
    simp only [Fin.sum_univ_two, Matrix.cons_val_zero, Matrix.cons_val_one]
    rw [show (3 : ℝ) ^ 2 + 4 ^ 2 = 5 ^ 2 by norm_num]
    exact Real.sqrt_sq (by norm_num)
  refine ⟨s, ht, ?_, by norm_num [hs]⟩
  intro j
  have hj : j = 0 := Subsingleton.elim _ _
  rw [hj, (block_spec _ _ 1 0 s 0 ht (by rw [hn]; exact one_ne_zero)).1, hc, h5, hn]
  funext k o
  have hk : k = 0 := Subsingleton.elim _ _
  rw [hk, Function.update_self, if_pos (by norm_num)]
  fin_cases o <;> norm_num [hs]

/-! ### `Positive` -/

/-- C120, violated: with several outputs `Positive` has no effect at all. -/
theorem C120_ignored_violated (X : Fin n → Fin p → ℝ) (Y : Fin n → Fin q → ℝ) (l1 l2 : ℝ) (maxIter : ℕ) (tol : ℝ) (draws : ℕ → List (Fin p)) (W : Fin p → Fin q → ℝ) :
    enetMT X Y l1 l2 maxIter tol true draws W = enetMT X Y l1 l2 maxIter tol false draws W := rfl

/-- C120, violated: with one sample, one feature and no regularisation, the fit returns the targets whatever their sign, `Positive` set or not. -/
theorem C120_negative_violated (Y : Fin 1 → Fin q → ℝ) (tol : ℝ) (positive : Bool) :
    (enetMT (n := 1) (p := 1) (fun _ _ => 1) Y 0 0 1 tol positive (fun _ => List.finRange 1) (fun _ _ => 0)).W = Y := by
  have hn : normCol (K := ℝ) (n := 1) (p := 1) (fun _ _ => 1) 0 = 1 := by simp [normCol]
  set s0 : St 1 1 q := ⟨fun _ _ => 0, fun i o => Y i o - ∑ j : Fin 1, (1 : ℝ) * 0⟩ with hs0
  have ht : Tracks (fun _ _ => 1) Y s0 := fun _ _ => rfl
  obtain ⟨h1, _⟩ := block_spec (fun _ _ => 1) Y 0 0 s0 0 ht (by rw [hn]; exact one_ne_zero)
  have hcorr : corr (fun _ _ => 1) Y s0.W 0 = Y 0 := by
    funext o
    simp [corr, hs0]
  have hw : (block (fun _ _ => 1) 0 0 s0 0).W = Y := by
    rw [h1, hcorr, hn]
    funext j o
    have hj : j = 0 := Subsingleton.elim _ _
    rw [hj, Function.update_self]
    by_cases hz : 0 < nrm (Y 0)
    · rw [if_pos hz]; simp
    · rw [if_neg hz]
      have : nrm (Y 0) = 0 := le_antisymm (not_lt.1 hz) (nrm_nonneg _)
      rw [nrm_zero_iff] at this
      rw [this]; simp
  have hsw : (sweep (fun _ _ => (1 : ℝ)) 0 0 (List.finRange 1) (s0, 0, 0)).1.W = Y := by
    have e : List.finRange 1 = [0] := by decide
    rw [e]
    simp only [sweep]
    rw [if_neg (by rw [hn]; exact one_ne_zero)]
    exact hw
  simp only [enetMT, loop]
  split
  · split <;> exact hsw
  · exact hsw

end Sk.EnetMT
