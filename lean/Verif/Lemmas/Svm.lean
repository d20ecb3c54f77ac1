import Verif.Model.Svm
import Verif.Spec.Svm
import Mathlib.Algebra.BigOperators.Ring.Finset
import Mathlib.Algebra.BigOperators.Group.Finset.Piecewise
import Mathlib.Algebra.Order.BigOperators.Group.Finset
import Mathlib.Tactic.Linarith
import Mathlib.Tactic.Ring
import Mathlib.Tactic.FieldSimp
import Mathlib.Tactic.LinearCombination

/-! # Lemmas about SVM training -/
set_option autoImplicit false

namespace Sk.Svm

variable {K : Type} [Field K] [LinearOrder K] [IsStrictOrderedRing K] {m : ℕ}

theorem ck_sym (kern : Fin m → Fin m → K) (i j : Fin m) : ck kern i j = ck kern j i := by
  rw [ck, ck]
  rcases lt_trichotomy i j with h | h | h
  · rw [if_neg (not_lt.2 h.le), if_pos h]
  · rw [h]
  · rw [if_pos h, if_neg (not_lt.2 h.le)]

theorem ck_eq {kern : Fin m → Fin m → K} (hs : ∀ i j, kern i j = kern j i) (i j : Fin m) : ck kern i j = kern i j := by
  rw [ck]
  split
  · exact hs _ _
  · rfl

theorem partner_spec (hm : 2 ≤ m) (i : Fin m) (r : ℕ) : ∃ j, partner i r = some j ∧ j ≠ i := by
  have h1 : r % (m - 1) < m - 1 := Nat.mod_lt _ (by omega)
  have hi := i.isLt
  rw [partner]
  by_cases h : i.val ≤ r % (m - 1)
  · have hlt : (if i.val ≤ r % (m - 1) then r % (m - 1) + 1 else r % (m - 1)) < m := by rw [if_pos h]; omega
    refine ⟨⟨_, hlt⟩, dif_pos ⟨by omega, hlt⟩, ?_⟩
    rw [Ne, Fin.ext_iff]
    simp only [if_pos h]
    omega
  · have hlt : (if i.val ≤ r % (m - 1) then r % (m - 1) + 1 else r % (m - 1)) < m := by rw [if_neg h]; omega
    refine ⟨⟨_, hlt⟩, dif_pos ⟨by omega, hlt⟩, ?_⟩
    rw [Ne, Fin.ext_iff]
    simp only [if_neg h]
    omega

theorem partner_ne {i j : Fin m} {r : ℕ} (h : partner i r = some j) : j ≠ i := by
  by_cases hm : 2 ≤ m
  · obtain ⟨j', e, hj⟩ := partner_spec hm i r
    rw [h] at e
    exact (Option.some.inj e) ▸ hj
  · rw [partner] at h
    rw [dif_neg (by rintro ⟨g, -⟩; omega)] at h
    cases h

theorem partner_one {i : Fin m} {r : ℕ} (hm : m ≤ 1) : partner i r = none := by
  rw [partner]
  rw [dif_neg (by rintro ⟨g, -⟩; omega)]

/-- A sum over a vector changed at two places. -/
theorem sum_update₂ (g : Fin m → K → K) (α : Fin m → K) {i j : Fin m} (hij : j ≠ i) (a a' : K) :
    ∑ k, g k (Function.update (Function.update α j a) i a' k) = ∑ k, g k (α k) + (g j a - g j (α j)) + (g i a' - g i (α i)) := by
  have hpt : ∀ k, g k (Function.update (Function.update α j a) i a' k) =
      g k (α k) + (if k = j then g j a - g j (α j) else 0) + (if k = i then g i a' - g i (α i) else 0) := by
    intro k
    by_cases h1 : k = i
    · subst h1
      rw [Function.update_self, if_neg (fun h => hij h.symm), if_pos rfl]
      ring
    · rw [Function.update_of_ne h1, if_neg h1]
      by_cases h2 : k = j
      · subst h2
        rw [Function.update_self, if_pos rfl]
        ring
      · rw [Function.update_of_ne h2, if_neg h2]
        ring
  simp only [hpt]
  rw [Finset.sum_add_distrib, Finset.sum_add_distrib, Finset.sum_ite_eq' Finset.univ j, Finset.sum_ite_eq' Finset.univ i, if_pos (Finset.mem_univ _),
    if_pos (Finset.mem_univ _)]

/-- The quadratic form along the direction that raises entry `j` and lowers entry `i`. -/
theorem quad_move (k : Fin m → Fin m → K) (hs : ∀ i j, k i j = k j i) (β β' : Fin m → K) {i j : Fin m} (hij : j ≠ i) (t : K)
    (hj : β' j = β j + t) (hi : β' i = β i - t) (ho : ∀ l, l ≠ i → l ≠ j → β' l = β l) :
    ∑ p, ∑ q, β' p * β' q * k p q =
      ∑ p, ∑ q, β p * β q * k p q + 2 * t * (∑ l, β l * k l j - ∑ l, β l * k l i) + t ^ 2 * (k j j + k i i - 2 * k i j) := by
  have hb : ∀ l, β' l = β l + (if l = j then t else 0) + (if l = i then -t else 0) := by
    intro l
    by_cases h1 : l = i
    · subst h1
      rw [hi, if_neg (fun h => hij h.symm), if_pos rfl]
      ring
    · by_cases h2 : l = j
      · subst h2
        rw [hj, if_pos rfl, if_neg h1]
        ring
      · rw [ho l h1 h2, if_neg h1, if_neg h2]
        ring
  have lin : ∀ c : Fin m → K, ∑ l, β' l * c l = ∑ l, β l * c l + t * (c j - c i) := by
    intro c
    simp only [hb, add_mul, ite_mul, zero_mul]
    rw [Finset.sum_add_distrib, Finset.sum_add_distrib, Finset.sum_ite_eq' Finset.univ j, Finset.sum_ite_eq' Finset.univ i, if_pos (Finset.mem_univ _),
      if_pos (Finset.mem_univ _)]
    ring
  have e1 : ∀ γ : Fin m → K, ∑ p, ∑ q, γ p * β' q * k p q = ∑ p, γ p * (∑ q, β' q * k q p) := by
    intro γ
    apply Finset.sum_congr rfl
    intro p _
    rw [Finset.mul_sum]
    apply Finset.sum_congr rfl
    intro q _
    rw [hs p q]
    ring
  have e2 : ∑ p, ∑ q, β p * β q * k p q = ∑ p, β p * (∑ q, β q * k q p) := by
    apply Finset.sum_congr rfl
    intro p _
    rw [Finset.mul_sum]
    apply Finset.sum_congr rfl
    intro q _
    rw [hs p q]
    ring
  have e3 : ∑ p, β p * (∑ q, β' q * k q p) = ∑ p, β p * (∑ q, β q * k q p) + t * (∑ p, β p * k p j - ∑ p, β p * k p i) := by
    have : ∀ p, β p * (∑ q, β' q * k q p) = β p * (∑ q, β q * k q p) + t * (β p * k p j - β p * k p i) := by
      intro p
      rw [lin (fun q => k q p), hs j p, hs i p]
      ring
    simp only [this]
    rw [Finset.sum_add_distrib, ← Finset.mul_sum, Finset.sum_sub_distrib]
  rw [e1 β', lin (fun p => ∑ q, β' q * k q p), e3, ← e2, lin (fun q => k q j), lin (fun q => k q i), hs j i]
  ring

/-- What an accepted joint update does. -/
structure SvcMove (kern : Fin m → Fin m → K) (Y : Fin m → K) (C tol : K) (st st' : St m K) (i j : Fin m) : Prop where
  eta : 2 * ck kern i j - ck kern i i - ck kern j j < 0
  α : st'.α = Function.update (Function.update st.α j (st'.α j)) i (st.α i + Y i * Y j * (st.α j - st'.α j))
  aj : st'.α j = max (if Y i = Y j then max 0 (st.α j + st.α i - C) else max 0 (st.α j - st.α i))
    (min (if Y i = Y j then min C (st.α j + st.α i) else min C (C + st.α j - st.α i))
      (st.α j - Y j * ((f kern Y st i - Y i) - (f kern Y st j - Y j)) / (2 * ck kern i j - ck kern i i - ck kern j j)))
  tol_le : tol ≤ st'.α j - st.α j
  b : st'.b = (let b1 := st.b - (f kern Y st i - Y i) - Y i * (st'.α i - st.α i) * ck kern i i - Y j * (st'.α j - st.α j) * ck kern i j
    let b2 := st.b - (f kern Y st j - Y j) - Y i * (st'.α i - st.α i) * ck kern i j - Y j * (st'.α j - st.α j) * ck kern j j
    if 0 < st'.α i ∧ st'.α i < C then b1 else if 0 < st'.α j ∧ st'.α j < C then b2 else (b1 + b2) / 2)
  changed : st'.changed = st.changed + 1

theorem svcUpdate_cases (kern : Fin m → Fin m → K) (Y : Fin m → K) (C tol : K) (st : St m K) {i j : Fin m} (hij : j ≠ i) :
    svcUpdate kern Y C tol st i j = st ∨ SvcMove kern Y C tol st (svcUpdate kern Y C tol st i j) i j := by
  rw [svcUpdate]
  simp only
  generalize hL : (if Y i = Y j then max 0 (st.α j + st.α i - C) else max 0 (st.α j - st.α i)) = L
  generalize hH : (if Y i = Y j then min C (st.α j + st.α i) else min C (C + st.α j - st.α i)) = H
  split
  · exact Or.inl rfl
  · split
    · exact Or.inl rfl
    · split
      · exact Or.inl rfl
      · rename_i h1 h2 h3
        right
        refine ⟨not_le.1 h2, ?_, ?_, ?_, ?_, rfl⟩
        · simp only [Function.update_of_ne hij, Function.update_self]
        · simp only [Function.update_of_ne hij, Function.update_self, hL, hH]
        · simp only [Function.update_of_ne hij, Function.update_self]
          exact not_lt.1 h3
        · simp only [Function.update_of_ne hij, Function.update_self]

/-- The flag `viol` plays no role in an update. -/
theorem svcStep_cases (kern : Fin m → Fin m → K) (Y : Fin m → K) (C eps tol : K) (st st' : St m K) (ir : Fin m × ℕ) (h : svcStep kern Y C eps tol st ir = some st') :
    (st'.α = st.α ∧ st'.b = st.b ∧ st'.changed = st.changed) ∨ ∃ j, j ≠ ir.1 ∧ SvcMove kern Y C tol st st' ir.1 j := by
  rw [svcStep] at h
  split at h
  · obtain ⟨j, hj, e⟩ := Option.map_eq_some_iff.1 h
    have hne := partner_ne hj
    rcases svcUpdate_cases kern Y C tol { st with viol := true } hne with g | g
    · left
      rw [g] at e
      rw [← e]
      exact ⟨rfl, rfl, rfl⟩
    · right
      rw [e] at g
      exact ⟨j, hne, g.eta, g.α, g.aj, g.tol_le, g.b, g.changed⟩
  · left
    rw [← Option.some.inj h]
    exact ⟨rfl, rfl, rfl⟩

theorem SvcMove.feasible {kern : Fin m → Fin m → K} {Y : Fin m → K} {C tol : K} {st st' : St m K} {i j : Fin m} (hij : j ≠ i) (h : SvcMove kern Y C tol st st' i j)
    (hY : ∀ i, Y i = 1 ∨ Y i = -1) (hf : SvcFeasible Y C st.α) : SvcFeasible Y C st'.α := by
  have hi := hf.box i
  have hj := hf.box j
  have hYi : Y i * Y i = 1 := by rcases hY i with g | g <;> rw [g] <;> ring
  have haj := h.aj
  have hL : (if Y i = Y j then max 0 (st.α j + st.α i - C) else max 0 (st.α j - st.α i)) ≤ st'.α j := by rw [haj]; exact le_max_left _ _
  have hLH : (if Y i = Y j then max 0 (st.α j + st.α i - C) else max 0 (st.α j - st.α i)) ≤
      (if Y i = Y j then min C (st.α j + st.α i) else min C (C + st.α j - st.α i)) := by
    split
    · exact max_le (le_min (by linarith) (by linarith)) (le_min (by linarith) (by linarith))
    · exact max_le (le_min (by linarith) (by linarith)) (le_min (by linarith) (by linarith))
  have hH : st'.α j ≤ (if Y i = Y j then min C (st.α j + st.α i) else min C (C + st.α j - st.α i)) := by
    rw [haj]
    exact max_le hLH (min_le_left _ _)
  have bj : 0 ≤ st'.α j ∧ st'.α j ≤ C ∧ 0 ≤ st.α i + Y i * Y j * (st.α j - st'.α j) ∧ st.α i + Y i * Y j * (st.α j - st'.α j) ≤ C := by
    by_cases he : Y i = Y j
    · rw [if_pos he] at hL hH
      have hp : Y i * Y j = 1 := by rw [← he]; exact hYi
      rw [hp]
      have l1 := (max_le_iff.1 hL)
      have l2 := (le_min_iff.1 hH)
      exact ⟨l1.1, l2.1, by linarith [l2.2], by linarith [l1.2]⟩
    · rw [if_neg he] at hL hH
      have hp : Y i * Y j = -1 := by
        rcases hY i with g | g <;> rcases hY j with g' | g' <;> rw [g, g'] at he ⊢ <;> simp at he ⊢
      rw [hp]
      have l1 := (max_le_iff.1 hL)
      have l2 := (le_min_iff.1 hH)
      exact ⟨l1.1, l2.1, by linarith [l1.2], by linarith [l2.2]⟩
  refine ⟨?_, ?_⟩
  · intro k
    rw [h.α]
    by_cases h1 : k = i
    · subst h1
      rw [Function.update_self]
      exact ⟨bj.2.2.1, bj.2.2.2⟩
    · rw [Function.update_of_ne h1]
      by_cases h2 : k = j
      · subst h2
        rw [Function.update_self]
        exact ⟨bj.1, bj.2.1⟩
      · rw [Function.update_of_ne h2]
        exact hf.box k
  · rw [h.α, sum_update₂ (fun k a => a * Y k) st.α hij, hf.balance]
    linear_combination (st.α j - st'.α j) * Y j * hYi

/-- Change of the decision values. -/
theorem SvcMove.f_eq {kern : Fin m → Fin m → K} {Y : Fin m → K} {C tol : K} {st st' : St m K} {i j : Fin m} (hij : j ≠ i) (h : SvcMove kern Y C tol st st' i j) (l : Fin m) :
    f kern Y st' l = f kern Y st l + (st'.b - st.b) + Y i * (st'.α i - st.α i) * ck kern i l + Y j * (st'.α j - st.α j) * ck kern j l := by
  have hai : st'.α i = st.α i + Y i * Y j * (st.α j - st'.α j) := by
    have := congrFun h.α i
    rw [Function.update_self] at this
    exact this
  have e : ∑ k, st'.α k * Y k * ck kern k l = ∑ k, st.α k * Y k * ck kern k l + (st'.α j * Y j * ck kern j l - st.α j * Y j * ck kern j l) +
      (st'.α i * Y i * ck kern i l - st.α i * Y i * ck kern i l) := by
    rw [hai]
    conv_lhs => rw [h.α]
    exact sum_update₂ (fun k a => a * Y k * ck kern k l) st.α hij _ _
  rw [f, f, e]
  ring

theorem SvcMove.margin {kern : Fin m → Fin m → K} {Y : Fin m → K} {C tol : K} {st st' : St m K} {i j : Fin m} (hij : j ≠ i) (h : SvcMove kern Y C tol st st' i j) :
    (0 < st'.α i ∧ st'.α i < C → f kern Y st' i = Y i) ∧
    (¬ (0 < st'.α i ∧ st'.α i < C) → 0 < st'.α j ∧ st'.α j < C → f kern Y st' j = Y j) := by
  have hb := h.b
  constructor
  · intro hi
    simp only [if_pos hi] at hb
    rw [h.f_eq hij, hb, ck_sym kern j i]
    ring
  · intro hi hj
    simp only [if_neg hi, if_pos hj] at hb
    rw [h.f_eq hij, hb]
    ring

theorem SvcMove.dual {kern : Fin m → Fin m → K} {Y : Fin m → K} {C tol : K} {st st' : St m K} {i j : Fin m} (hij : j ≠ i) (h : SvcMove kern Y C tol st st' i j)
    (hY : ∀ i, Y i = 1 ∨ Y i = -1) (htol : 0 < tol) (hf : SvcFeasible Y C st.α) :
    svcDual (ck kern) Y st.α + tol ^ 2 * (-(2 * ck kern i j - ck kern i i - ck kern j j)) / 2 ≤ svcDual (ck kern) Y st'.α := by
  have hYi : Y i * Y i = 1 := by rcases hY i with g | g <;> rw [g] <;> ring
  have hYj : Y j * Y j = 1 := by rcases hY j with g | g <;> rw [g] <;> ring
  have hai : st'.α i = st.α i + Y i * Y j * (st.α j - st'.α j) := by
    have := congrFun h.α i
    rw [Function.update_self] at this
    exact this
  set η := 2 * ck kern i j - ck kern i i - ck kern j j with hη
  set d := st'.α j - st.α j with hd
  set G := (f kern Y st i - Y i) - (f kern Y st j - Y j) with hG
  have hd0 : tol ≤ d := h.tol_le
  -- the change of the objective
  have hsum : ∑ k, st'.α k = ∑ k, st.α k + d - Y i * Y j * d := by
    rw [h.α, sum_update₂ (fun _ a => a) st.α hij]
    rw [hd]
    ring
  have hquad := quad_move (ck kern) (ck_sym kern) (fun k => st.α k * Y k) (fun k => st'.α k * Y k) hij (d * Y j) (by rw [hd]; ring)
    (by rw [hai, hd]; linear_combination (st.α j - st'.α j) * Y j * hYi) (by
      intro l h1 h2
      have := congrFun h.α l
      rw [Function.update_of_ne h1, Function.update_of_ne h2] at this
      simp only [this])
  have hGe : G = (∑ l, st.α l * Y l * ck kern l i) - (∑ l, st.α l * Y l * ck kern l j) - Y i + Y j := by
    rw [hG, f, f]
    ring
  have hW : svcDual (ck kern) Y st'.α = svcDual (ck kern) Y st.α + (d * (Y j * G) + η * d ^ 2 / 2) := by
    rw [svcDual, svcDual, hsum, hquad, hGe, hη]
    linear_combination (-(d ^ 2) * (ck kern j j + ck kern i i - 2 * ck kern i j) / 2 - d) * hYj
  -- the step does not overshoot
  have hstep : η * d ≥ - (Y j * G) := by
    have haj := h.aj
    have hle : st'.α j ≤ max (if Y i = Y j then max 0 (st.α j + st.α i - C) else max 0 (st.α j - st.α i)) (st.α j - Y j * G / η) := by
      rw [haj]
      exact max_le_max le_rfl (min_le_right _ _)
    have hLj : (if Y i = Y j then max 0 (st.α j + st.α i - C) else max 0 (st.α j - st.α i)) ≤ st.α j := by
      have := hf.box i
      have := hf.box j
      split
      · exact max_le (by linarith) (by linarith)
      · exact max_le (by linarith) (by linarith)
    have hgt : st.α j < st'.α j := by linarith
    have hle2 : st'.α j ≤ st.α j - Y j * G / η := by
      rcases le_max_iff.1 hle with g | g
      · linarith
      · exact g
    have hd' : d ≤ -(Y j * G / η) := by rw [hd]; linarith
    have hη0 : η < 0 := h.eta
    have := mul_le_mul_of_nonpos_left hd' hη0.le
    have e : η * -(Y j * G / η) = -(Y j * G) := by
      rw [mul_neg, ← mul_div_assoc, mul_div_cancel_left₀ _ hη0.ne]
    linarith
  rw [hW]
  have hη0 : η < 0 := h.eta
  have m1 : d * (-(Y j * G)) ≤ d * (η * d) := mul_le_mul_of_nonneg_left hstep (by linarith)
  have m2 : tol ^ 2 ≤ d ^ 2 := pow_le_pow_left₀ htol.le hd0 2
  have m3 : tol ^ 2 * (-η) ≤ d ^ 2 * (-η) := mul_le_mul_of_nonneg_right m2 (by linarith)
  linarith [m1, m3]

theorem start_svc (Y : Fin m → K) {C : K} (hC : 0 ≤ C) : SvcFeasible Y C (start m K).α := ⟨fun _ => ⟨le_rfl, hC⟩, by simp [start]⟩

theorem svcStep_feasible {kern : Fin m → Fin m → K} {Y : Fin m → K} {C eps tol : K} (hY : ∀ i, Y i = 1 ∨ Y i = -1) {st st' : St m K} {ir : Fin m × ℕ}
    (h : svcStep kern Y C eps tol st ir = some st') (hf : SvcFeasible Y C st.α) : SvcFeasible Y C st'.α := by
  rcases svcStep_cases kern Y C eps tol st st' ir h with ⟨e, -, -⟩ | ⟨j, hj, g⟩
  · rw [e]; exact hf
  · exact g.feasible hj hY hf

/-- An invariant of a step is an invariant of a monadic fold. -/
theorem foldlM_inv {A S : Type} (P : S → Prop) (step : S → A → Option S) (hstep : ∀ s a s', P s → step s a = some s' → P s') (l : List A) (s s' : S) (hs : P s)
    (h : l.foldlM step s = some s') : P s' := by
  induction l generalizing s with
  | nil => rw [← Option.some.inj h]; exact hs
  | cons a l ih =>
    rw [List.foldlM_cons] at h
    obtain ⟨t, e, h2⟩ := Option.bind_eq_some_iff.1 h
    exact ih t (hstep s a t hs e) h2

/-- An invariant of a step that does not depend on the flags holds at the end of the training loop. -/
theorem loop_inv {step : St m K → Fin m × ℕ → Option (St m K)} {maxPasses : ℕ} {draws : ℕ → Fin m → ℕ} (P : (Fin m → K) → K → Prop)
    (hstep : ∀ s ir s', P s.α s.b → step s ir = some s' → P s'.α s'.b) (fuel t passes : ℕ) (st st' : St m K) (hs : P st.α st.b)
    (h : loop step maxPasses draws fuel t passes st = .done st') : P st'.α st'.b := by
  induction fuel generalizing t passes st with
  | zero => cases h
  | succ fuel ih =>
    rw [loop] at h
    split at h
    · rw [← Outcome.done.inj h]; exact hs
    · split at h
      · cases h
      · rename_i s e
        have hp : P s.α s.b := foldlM_inv (fun s => P s.α s.b) _ (fun s i s' h1 h2 => hstep s _ s' h1 h2) _ { st with viol := false, changed := 0 } s hs e
        split at h
        · rw [← Outcome.done.inj h]; exact hp
        · exact ih _ _ s hp h

end Sk.Svm
