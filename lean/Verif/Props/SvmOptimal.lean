import Verif.Props.SvmKkt
import Mathlib.Tactic.Linarith
import Mathlib.Tactic.Ring

/-! # C217: the fitted support vector machine minimises its cost up to the tolerance -/
set_option autoImplicit false

namespace Sk.Svm

variable {K : Type} [Field K] [LinearOrder K] [IsStrictOrderedRing K] {m : ℕ}

/-! ## Specification -/

/-- The bilinear form of a kernel matrix; `form kern u u` is the squared norm of the function with weights `u`. -/
def form (kern : Fin m → Fin m → K) (u v : Fin m → K) : K := ∑ i, ∑ j, u i * v j * kern i j

/-- Value at sample `i` of the function with weights `u` and offset `b`. -/
def valueAt (kern : Fin m → Fin m → K) (u : Fin m → K) (b : K) (i : Fin m) : K := ∑ k, u k * kern k i + b

/-- Cost of a support vector classifier: half the squared norm plus `C` times the hinge losses. -/
def svcCost (kern : Fin m → Fin m → K) (Y : Fin m → K) (C : K) (u : Fin m → K) (b : K) : K := form kern u u / 2 + C * ∑ i, max 0 (1 - Y i * valueAt kern u b i)

/-- Cost of a support vector regressor: half the squared norm plus `C` times how far the targets are outside of the tube of half width `e`. -/
def svrCost (kern : Fin m → Fin m → K) (Y : Fin m → K) (C e : K) (u : Fin m → K) (b : K) : K := form kern u u / 2 + C * ∑ i, max 0 (|Y i - valueAt kern u b i| - e)

/-! ## Proof -/

theorem form_values (kern : Fin m → Fin m → K) (u v : Fin m → K) (b : K) (hv : ∑ i, v i = 0) : form kern u v = ∑ i, v i * valueAt kern u b i := by
  unfold form valueAt
  simp only [mul_add, Finset.sum_add_distrib, Finset.mul_sum]
  rw [← Finset.sum_mul, hv, zero_mul, add_zero, Finset.sum_comm]
  exact Finset.sum_congr rfl fun i _ => Finset.sum_congr rfl fun k _ => by ring

theorem form_two (kern : Fin m → Fin m → K) (hsym : ∀ i j, kern i j = kern j i) (hpsd : ∀ u, 0 ≤ form kern u u) (u v : Fin m → K) : form kern u v ≤ form kern u u / 2 + form kern v v / 2 := by
  have h := hpsd (fun i => u i - v i)
  have e : form kern (fun i => u i - v i) (fun i => u i - v i) = form kern u u - form kern u v - form kern v u + form kern v v := by
    unfold form
    rw [← Finset.sum_sub_distrib, ← Finset.sum_sub_distrib, ← Finset.sum_add_distrib]
    refine Finset.sum_congr rfl fun i _ => ?_
    rw [← Finset.sum_sub_distrib, ← Finset.sum_sub_distrib, ← Finset.sum_add_distrib]
    exact Finset.sum_congr rfl fun j _ => by ring
  have s : form kern v u = form kern u v := by
    unfold form
    rw [Finset.sum_comm]
    exact Finset.sum_congr rfl fun i _ => Finset.sum_congr rfl fun j _ => by rw [hsym j i]; ring
  rw [e, s] at h
  linarith

/-- The dual value of feasible multipliers is a lower bound of all costs. -/
theorem svc_weak (kern : Fin m → Fin m → K) (hsym : ∀ i j, kern i j = kern j i) (hpsd : ∀ u, 0 ≤ form kern u u) (Y : Fin m → K) (C : K) (α : Fin m → K) (hbox : ∀ i, 0 ≤ α i ∧ α i ≤ C) (hbal : ∑ i, α i * Y i = 0)
    (u : Fin m → K) (b : K) : ∑ i, α i - form kern (fun i => α i * Y i) (fun i => α i * Y i) / 2 ≤ svcCost kern Y C u b := by
  have h1 := form_two kern hsym hpsd u (fun i => α i * Y i)
  rw [form_values kern u (fun i => α i * Y i) b hbal] at h1
  have h2 : ∑ i, α i - ∑ i, α i * Y i * valueAt kern u b i ≤ C * ∑ i, max 0 (1 - Y i * valueAt kern u b i) := by
    rw [Finset.mul_sum, ← Finset.sum_sub_distrib]
    refine Finset.sum_le_sum fun i _ => ?_
    have h3 : α i * (1 - Y i * valueAt kern u b i) ≤ α i * max 0 (1 - Y i * valueAt kern u b i) := mul_le_mul_of_nonneg_left (le_max_right _ _) (hbox i).1
    have h4 : α i * max 0 (1 - Y i * valueAt kern u b i) ≤ C * max 0 (1 - Y i * valueAt kern u b i) := mul_le_mul_of_nonneg_right (hbox i).2 (le_max_left _ _)
    calc α i - α i * Y i * valueAt kern u b i = α i * (1 - Y i * valueAt kern u b i) := by ring
      _ ≤ _ := h3.trans h4
  unfold svcCost
  linarith

/-- Multipliers that meet the optimality conditions up to `eps` close the gap up to `eps`. -/
theorem svc_gap (kern : Fin m → Fin m → K) (Y : Fin m → K) (C eps : K) (he : 0 ≤ eps) (α : Fin m → K) (b : K) (hbox : ∀ i, 0 ≤ α i ∧ α i ≤ C) (hbal : ∑ i, α i * Y i = 0) (hk : SvcKkt kern Y C eps α b) :
    svcCost kern Y C (fun i => α i * Y i) b ≤ ∑ i, α i - form kern (fun i => α i * Y i) (fun i => α i * Y i) / 2 + m * C * eps := by
  have h1 := form_values kern (fun i => α i * Y i) (fun i => α i * Y i) b hbal
  have h2 : C * ∑ i, max 0 (1 - Y i * valueAt kern (fun i => α i * Y i) b i) ≤ ∑ i, α i - ∑ i, α i * Y i * valueAt kern (fun i => α i * Y i) b i + m * C * eps := by
    have h3 : ((m : K) * C * eps) = ∑ _i : Fin m, C * eps := by rw [Finset.sum_const, Finset.card_univ, Fintype.card_fin, nsmul_eq_mul, mul_assoc]
    rw [h3, Finset.mul_sum, ← Finset.sum_sub_distrib, ← Finset.sum_add_distrib]
    refine Finset.sum_le_sum fun i _ => ?_
    obtain ⟨ka, kb⟩ := hk i
    have hval : valueAt kern (fun i => α i * Y i) b i = svcValue kern Y α b i := rfl
    rw [hval]
    obtain ⟨g, hg⟩ : ∃ g, g = Y i * svcValue kern Y α b i := ⟨_, rfl⟩
    rw [show α i * Y i * svcValue kern Y α b i = α i * g by rw [hg]; ring, ← hg]
    rw [← hg] at ka kb
    obtain ⟨a0, aC⟩ := hbox i
    have hC : 0 ≤ C := a0.trans aC
    by_cases c1 : g < 1 - eps
    · have : α i = C := le_antisymm aC (ka c1)
      rw [this, max_eq_right (by linarith)]
      nlinarith [mul_nonneg hC he]
    by_cases c2 : 1 + eps < g
    · have : α i = 0 := le_antisymm (kb c2) a0
      rw [this, max_eq_left (by linarith)]
      nlinarith [mul_nonneg hC he]
    push Not at c1 c2
    rcases le_total 0 (1 - g) with h | h
    · rw [max_eq_right h]
      have h5 : (C - α i) * (1 - g) ≤ (C - α i) * eps := mul_le_mul_of_nonneg_left (by linarith) (by linarith)
      have h6 : 0 ≤ α i * eps := mul_nonneg a0 he
      nlinarith
    · rw [max_eq_left h]
      have h5 : α i * (g - 1) ≤ α i * eps := mul_le_mul_of_nonneg_left (by linarith) a0
      have h6 : α i * eps ≤ C * eps := mul_le_mul_of_nonneg_right aC he
      nlinarith
  unfold svcCost
  rw [h1]
  linarith

/-- **C217 (classifier, partial).** When training of an SVC on labels ±1 ends with the optimality conditions met, no function of its kind (weights on the training samples, offset) has a cost lower by more than `m·C·Epsilon`.
Missing: training that ends by passes without change (`C217_svc_violated`). -/
theorem C217_svc_partial (kern : Fin m → Fin m → K) (hsym : ∀ i j, kern i j = kern j i) (hpsd : ∀ u, 0 ≤ form kern u u) (Y : Fin m → K) (hY : ∀ i, Y i = 1 ∨ Y i = -1) {C eps : K} (hC : 0 ≤ C) (he : 0 ≤ eps) (tol : K)
    (maxPasses : ℕ) (draws : ℕ → Fin m → ℕ) (fuel : ℕ) (st : St m K) (h : loop (svcStep kern Y C eps tol) maxPasses draws fuel 0 0 (start m K) = .done st) :
    (∀ u b, svcCost kern Y C (fun i => st.α i * Y i) st.b ≤ svcCost kern Y C u b + m * C * eps) ∨ Stalled (svcStep kern Y C eps tol) draws maxPasses st := by
  obtain ⟨hbox, hbal⟩ := C37_train kern Y hY hC eps tol maxPasses draws fuel st h
  rcases C172_svc_partial kern hsym Y hY C eps tol maxPasses draws fuel st h with hk | hk
  · left
    intro u b
    have h1 := svc_gap kern Y C eps he st.α st.b hbox hbal hk
    have h2 := svc_weak kern hsym hpsd Y C st.α hbox hbal u b
    linarith
  · exact Or.inr hk

/-- The dual value of feasible multipliers is a lower bound of all costs. -/
theorem svr_weak (kern : Fin m → Fin m → K) (hsym : ∀ i j, kern i j = kern j i) (hpsd : ∀ u, 0 ≤ form kern u u) (Y : Fin m → K) (C e : K) (he : 0 ≤ e) (α : Fin m → K) (hbox : ∀ i, -C ≤ α i ∧ α i ≤ C) (hbal : ∑ i, α i = 0)
    (u : Fin m → K) (b : K) : ∑ i, (α i * Y i - e * |α i|) - form kern α α / 2 ≤ svrCost kern Y C e u b := by
  have h1 := form_two kern hsym hpsd u α
  rw [form_values kern u α b hbal] at h1
  have h2 : ∑ i, (α i * Y i - e * |α i|) - ∑ i, α i * valueAt kern u b i ≤ C * ∑ i, max 0 (|Y i - valueAt kern u b i| - e) := by
    rw [Finset.mul_sum, ← Finset.sum_sub_distrib]
    refine Finset.sum_le_sum fun i _ => ?_
    have ha : |α i| ≤ C := abs_le.2 (hbox i)
    have h3 : α i * (Y i - valueAt kern u b i) ≤ |α i| * |Y i - valueAt kern u b i| := (le_abs_self _).trans (abs_mul _ _).le
    have h4 : |α i| * (|Y i - valueAt kern u b i| - e) ≤ |α i| * max 0 (|Y i - valueAt kern u b i| - e) := mul_le_mul_of_nonneg_left (le_max_right _ _) (abs_nonneg _)
    have h5 : |α i| * max 0 (|Y i - valueAt kern u b i| - e) ≤ C * max 0 (|Y i - valueAt kern u b i| - e) := mul_le_mul_of_nonneg_right ha (le_max_left _ _)
    have h6 : |α i| * (|Y i - valueAt kern u b i| - e) = |α i| * |Y i - valueAt kern u b i| - e * |α i| := by ring
    have h7 : α i * (Y i - valueAt kern u b i) = α i * Y i - α i * valueAt kern u b i := by ring
    linarith
  unfold svrCost
  linarith

theorem svr_gap (kern : Fin m → Fin m → K) (Y : Fin m → K) (C eps e : K) (he : 0 ≤ e) (hee : e ≤ eps) (α : Fin m → K) (b : K) (hbox : ∀ i, -C ≤ α i ∧ α i ≤ C) (hbal : ∑ i, α i = 0) (hk : SvrKkt kern Y C eps α b) :
    svrCost kern Y C e α b ≤ ∑ i, (α i * Y i - e * |α i|) - form kern α α / 2 + 2 * (m * C * eps) := by
  have h1 := form_values kern α α b hbal
  have h2 : C * ∑ i, max 0 (|Y i - valueAt kern α b i| - e) ≤ ∑ i, (α i * Y i - e * |α i|) - ∑ i, α i * valueAt kern α b i + 2 * (m * C * eps) := by
    have h3 : 2 * ((m : K) * C * eps) = ∑ _i : Fin m, 2 * (C * eps) := by rw [Finset.sum_const, Finset.card_univ, Fintype.card_fin, nsmul_eq_mul]; ring
    rw [h3, Finset.mul_sum, ← Finset.sum_sub_distrib, ← Finset.sum_add_distrib]
    refine Finset.sum_le_sum fun i _ => ?_
    obtain ⟨ka, kb⟩ := hk i
    have hval : valueAt kern α b i = svrValue kern α b i := rfl
    rw [hval]
    obtain ⟨r, hr⟩ : ∃ r, r = Y i - svrValue kern α b i := ⟨_, rfl⟩
    rw [← hr]
    have hC : 0 ≤ C := by linarith [(hbox i).1, (hbox i).2]
    have hCe : 0 ≤ C * eps := mul_nonneg hC (he.trans hee)
    suffices hs : C * max 0 (|r| - e) ≤ α i * r - e * |α i| + 2 * (C * eps) by
      rw [hr] at hs ⊢
      linarith [show α i * (Y i - svrValue kern α b i) = α i * Y i - α i * svrValue kern α b i by ring]
    by_cases c1 : eps < r
    · have ha : α i = C := le_antisymm (hbox i).2 (ka (by linarith))
      rw [ha, abs_of_nonneg hC, abs_of_nonneg (by linarith : (0 : K) ≤ r), max_eq_right (by linarith)]
      linarith [show C * (r - e) = C * r - e * C by ring]
    by_cases c2 : r < -eps
    · have ha : α i = -C := le_antisymm (kb (by linarith)) (hbox i).1
      rw [ha, abs_neg, abs_of_nonneg hC, abs_of_neg (by linarith : r < 0), max_eq_right (by linarith)]
      linarith [show C * (-r - e) = -C * r - e * C by ring]
    push Not at c1 c2
    have hra : |r| ≤ eps := abs_le.2 ⟨c2, c1⟩
    have ha : |α i| ≤ C := abs_le.2 (hbox i)
    have h5 : C * max 0 (|r| - e) ≤ C * (eps - e) := mul_le_mul_of_nonneg_left (max_le (by linarith) (by linarith)) hC
    have h6 : -(α i * r) ≤ |α i| * |r| := by rw [← abs_mul]; exact neg_le_abs _
    have h7 : |α i| * |r| ≤ C * eps := mul_le_mul ha hra (abs_nonneg _) hC
    have h8 : e * |α i| ≤ e * C := mul_le_mul_of_nonneg_left ha he
    linarith [show C * (eps - e) = C * eps - e * C by ring]
  unfold svrCost
  rw [h1]
  linarith

/-- **C217 (regressor, partial).** When training of an SVR ends with the optimality conditions met, no function of its kind has a cost lower by more than `2·m·C·Epsilon`, for the tube of half width `Epsilon` and for any narrower one
(half width 0: absolute errors).  Missing: training that ends by passes without change. -/
theorem C217_svr_partial (kern : Fin m → Fin m → K) (hsym : ∀ i j, kern i j = kern j i) (hpsd : ∀ u, 0 ≤ form kern u u) (Y : Fin m → K) {C eps e : K} (hC : 0 ≤ C) (he : 0 ≤ e) (hee : e ≤ eps) (tol : K)
    (maxPasses : ℕ) (draws : ℕ → Fin m → ℕ) (fuel : ℕ) (st : St m K) (h : loop (svrStep kern Y C eps tol) maxPasses draws fuel 0 0 (start m K) = .done st) :
    (∀ u b, svrCost kern Y C e st.α st.b ≤ svrCost kern Y C e u b + 2 * (m * C * eps)) ∨ Stalled (svrStep kern Y C eps tol) draws maxPasses st := by
  obtain ⟨hbox, hbal⟩ := C38_train kern Y hC eps tol maxPasses draws fuel st h
  rcases C172_svr_partial kern hsym Y C eps tol maxPasses draws fuel st h with hk | hk
  · left
    intro u b
    have h1 := svr_gap kern Y C eps e he hee st.α st.b hbox hbal hk
    have h2 := svr_weak kern hsym hpsd Y C e he st.α hbox hbal u b
    linarith
  · exact Or.inr hk

/-- **C217 violated.** Three samples, `C = 1`, linear kernel: whatever the random numbers and the tolerances below 1/6, training ends, and a constant function has a cost lower by more than `m·C·Epsilon`. -/
theorem C217_svc_violated [Archimedean K] (eps tol : K) (h0 : 0 ≤ eps) (h1 : eps < 1 / 6) (ht : 0 < tol) (maxPasses : ℕ) (draws : ℕ → Fin 3 → ℕ) :
    (∃ fuel st, loop (svcStep (fun i j => stuckX i * stuckX j) (stuckY (K := K)) 1 eps tol) maxPasses draws fuel 0 0 (start 3 K) = .done st) ∧
    ∀ fuel st, loop (svcStep (fun i j => stuckX i * stuckX j) (stuckY (K := K)) 1 eps tol) maxPasses draws fuel 0 0 (start 3 K) = .done st →
      svcCost (fun i j => stuckX i * stuckX j) stuckY 1 (fun _ => 0) (-1) + (3 : ℕ) * 1 * eps < svcCost (fun i j => stuckX i * stuckX j) stuckY 1 (fun i => st.α i * stuckY i) st.b := by
  refine ⟨(C172_stuck_violated eps tol h0 (by linarith) ht maxPasses draws).2.1, fun fuel st h => ?_⟩
  have hs := loop_inv (fun α b => (α = ![0, 0, 0] ∧ b = 0) ∨ (α = ![1 / 2, 1 / 2, 0] ∧ b = 0)) (fun s ir s' h2 h3 => stuck_step eps tol h0 (by linarith) ht s s' ir h2 h3) fuel 0 0 _ st
    (Or.inl ⟨by funext k; fin_cases k <;> rfl, rfl⟩) h
  have e0 : svcCost (fun i j => stuckX i * stuckX j) (stuckY (K := K)) 1 (fun _ => 0) (-1) = 2 := by
    simp [svcCost, form, valueAt, Fin.sum_univ_three, stuckX, stuckY]
    norm_num
  rw [e0]
  rcases hs with ⟨a, b⟩ | ⟨a, b⟩
  · rw [a, b]
    have : svcCost (fun i j => stuckX i * stuckX j) (stuckY (K := K)) 1 (fun i => (![0, 0, 0] : Fin 3 → K) i * stuckY i) 0 = 3 := by
      simp [svcCost, form, valueAt, Fin.sum_univ_three, stuckX, stuckY]
    rw [this]
    push_cast
    linarith
  · rw [a, b]
    have : svcCost (fun i j => stuckX i * stuckX j) (stuckY (K := K)) 1 (fun i => (![1 / 2, 1 / 2, 0] : Fin 3 → K) i * stuckY i) 0 = 5 / 2 := by
      simp [svcCost, form, valueAt, Fin.sum_univ_three, stuckX, stuckY]
      norm_num
    rw [this]
    push_cast
    linarith

/-- Hypotheses met: a training with the kernel below that ends with the conditions met; its multipliers are not all zero. -/
example : (match loop (svcStep (K := ℚ) (fun i j => if i = j then 2 else 0) ![1, -1] 1 (1 / 10) (1 / 1000)) 3 (fun _ _ => 0) 5 0 0 (start 2 ℚ) with
    | .done st => decide (st.viol = false ∧ st.α 0 = 1 / 2)
    | _ => false) = true := by decide +kernel

/-- That kernel is positive semidefinite. -/
example : (∀ u : Fin 2 → ℚ, 0 ≤ form (fun i j => if i = j then 2 else 0) u u) := by
  intro u
  simp [form, Fin.sum_univ_two]
  nlinarith [mul_self_nonneg (u 0), mul_self_nonneg (u 1)]

end Sk.Svm
