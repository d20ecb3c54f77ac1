import Verif.Model.BayesRidge
import Mathlib.LinearAlgebra.Matrix.NonsingularInverse
import Mathlib.Tactic.Ring
import Mathlib.Tactic.Linarith
import Mathlib.Tactic.LinearCombination
import Mathlib.Tactic.FieldSimp
import Mathlib.Tactic.Positivity
import Mathlib.Tactic.NormNum

/-! # C111–C113: BayesianRidge -/

set_option autoImplicit false

namespace Sk.Bayes

open Matrix

variable {n p q : ℕ}

/-! ## Specification -/

/-- The penalised sum of squares with noise precision `a` and weight precision `l`. -/
noncomputable def ridgeObjective (X : Matrix (Fin n) (Fin p) ℝ) (Y : Matrix (Fin n) (Fin q) ℝ) (a l : ℝ) (w : Matrix (Fin p) (Fin q) ℝ) : ℝ :=
  a * (∑ i, ∑ o, (Y i o - ∑ j, X i j * w j o) ^ 2) + l * ∑ j, ∑ o, w j o ^ 2

/-- `w` is the posterior mean (ridge solution) for the precisions `a` and `l`: the only minimiser of the penalised sum of squares. -/
def IsRidge (X : Matrix (Fin n) (Fin p) ℝ) (Y : Matrix (Fin n) (Fin q) ℝ) (a l : ℝ) (w : Matrix (Fin p) (Fin q) ℝ) : Prop :=
  ∀ w', w' ≠ w → ridgeObjective X Y a l w < ridgeObjective X Y a l w'

/-- Singular value decomposition of a matrix with at least as many rows as columns. -/
structure IsSVD (X U : Matrix (Fin n) (Fin p) ℝ) (S : Fin p → ℝ) (V : Matrix (Fin p) (Fin p) ℝ) : Prop where
  prod : X = U * diagonal S * Vᵀ
  left : Uᵀ * U = 1
  right : Vᵀ * V = 1

/-! ## Lemmas -/

private def ip {a b : ℕ} (A B : Matrix (Fin a) (Fin b) ℝ) : ℝ := ∑ i, ∑ o, A i o * B i o

private theorem ip_mul (R : Matrix (Fin n) (Fin q) ℝ) (X : Matrix (Fin n) (Fin p) ℝ) (D : Matrix (Fin p) (Fin q) ℝ) :
    ip R (X * D) = ip (Xᵀ * R) D := by
  unfold ip
  simp only [Matrix.mul_apply, Matrix.transpose_apply, Finset.mul_sum, Finset.sum_mul]
  rw [Finset.sum_comm]
  have : ∀ o : Fin q, (∑ i : Fin n, ∑ j : Fin p, R i o * (X i j * D j o)) = ∑ j : Fin p, ∑ i : Fin n, X i j * R i o * D j o := by
    intro o; rw [Finset.sum_comm]; exact Finset.sum_congr rfl fun j _ => Finset.sum_congr rfl fun i _ => by ring
  rw [Finset.sum_congr rfl fun o _ => this o, Finset.sum_comm]

private theorem ip_lin {a b : ℕ} (A B C : Matrix (Fin a) (Fin b) ℝ) (x y : ℝ) : ip (x • A + y • B) C = x * ip A C + y * ip B C := by
  unfold ip
  simp only [Matrix.add_apply, Matrix.smul_apply, smul_eq_mul, Finset.mul_sum, ← Finset.sum_add_distrib]
  exact Finset.sum_congr rfl fun i _ => Finset.sum_congr rfl fun o _ => by ring

private theorem ip_self_nonneg {a b : ℕ} (A : Matrix (Fin a) (Fin b) ℝ) : 0 ≤ ip A A :=
  Finset.sum_nonneg fun _ _ => Finset.sum_nonneg fun _ _ => mul_self_nonneg _

private theorem ip_self_pos {a b : ℕ} {A : Matrix (Fin a) (Fin b) ℝ} (h : A ≠ 0) : 0 < ip A A := by
  obtain ⟨i, hi⟩ := Function.ne_iff.mp h
  obtain ⟨o, ho⟩ := Function.ne_iff.mp hi
  have h1 : A i o * A i o ≤ ∑ o, A i o * A i o := Finset.single_le_sum (f := fun o => A i o * A i o) (fun _ _ => mul_self_nonneg _) (Finset.mem_univ o)
  have h2 : (∑ o, A i o * A i o) ≤ ip A A :=
    Finset.single_le_sum (f := fun i => ∑ o, A i o * A i o) (fun _ _ => Finset.sum_nonneg fun _ _ => mul_self_nonneg _) (Finset.mem_univ i)
  have h3 : 0 < A i o * A i o := mul_self_pos.mpr ho
  linarith

private theorem sumSq_ip {a b : ℕ} (A : Matrix (Fin a) (Fin b) ℝ) : sumSq A = ip A A := rfl

private theorem obj_eq (X : Matrix (Fin n) (Fin p) ℝ) (Y : Matrix (Fin n) (Fin q) ℝ) (a l : ℝ) (w : Matrix (Fin p) (Fin q) ℝ) :
    ridgeObjective X Y a l w = a * ip (Y - X * w) (Y - X * w) + l * ip w w := by
  simp only [ridgeObjective, ip, Matrix.sub_apply, Matrix.mul_apply, pow_two]

private theorem ip_add_sq {a b : ℕ} (A B : Matrix (Fin a) (Fin b) ℝ) : ip (A + B) (A + B) = ip A A + 2 * ip A B + ip B B := by
  unfold ip
  simp only [Matrix.add_apply, Finset.mul_sum, ← Finset.sum_add_distrib]
  exact Finset.sum_congr rfl fun i _ => Finset.sum_congr rfl fun o _ => by ring

private theorem ip_sub_sq {a b : ℕ} (A B : Matrix (Fin a) (Fin b) ℝ) : ip (A - B) (A - B) = ip A A - 2 * ip A B + ip B B := by
  unfold ip
  simp only [Matrix.sub_apply, Finset.mul_sum, ← Finset.sum_add_distrib, ← Finset.sum_sub_distrib]
  exact Finset.sum_congr rfl fun i _ => Finset.sum_congr rfl fun o _ => by ring

/-- Expansion of the objective around a point. -/
private theorem obj_expand (X : Matrix (Fin n) (Fin p) ℝ) (Y : Matrix (Fin n) (Fin q) ℝ) (a l : ℝ) (w d : Matrix (Fin p) (Fin q) ℝ) :
    ridgeObjective X Y a l (w + d) = ridgeObjective X Y a l w
      + 2 * ip ((-a) • (Xᵀ * (Y - X * w)) + l • w) d + (a * ip (X * d) (X * d) + l * ip d d) := by
  rw [obj_eq, obj_eq, Matrix.mul_add, ← sub_sub, ip_sub_sq, ip_add_sq, ip_mul, ip_lin]
  ring

private theorem isRidge_of_normal {X : Matrix (Fin n) (Fin p) ℝ} {Y : Matrix (Fin n) (Fin q) ℝ} {a l : ℝ} (ha : 0 < a) (hl : 0 < l) {w : Matrix (Fin p) (Fin q) ℝ}
    (h : (-a) • (Xᵀ * (Y - X * w)) + l • w = 0) : IsRidge X Y a l w := by
  intro w' hw
  have hd : w' - w ≠ 0 := sub_ne_zero.mpr hw
  have := obj_expand X Y a l w (w' - w)
  rw [h, add_sub_cancel] at this
  have h0 : ip (0 : Matrix (Fin p) (Fin q) ℝ) (w' - w) = 0 := by simp [ip]
  have h1 := mul_nonneg ha.le (ip_self_nonneg (X * (w' - w)))
  have h2 := mul_pos hl (ip_self_pos hd)
  rw [this, h0]; linarith

/-- A minimiser satisfies the normal equations. -/
private theorem normal_of_isRidge {X : Matrix (Fin n) (Fin p) ℝ} {Y : Matrix (Fin n) (Fin q) ℝ} {a l : ℝ} (ha : 0 < a) (hl : 0 < l) {w : Matrix (Fin p) (Fin q) ℝ}
    (h : IsRidge X Y a l w) : (-a) • (Xᵀ * (Y - X * w)) + l • w = 0 := by
  by_contra hg
  set g := (-a) • (Xᵀ * (Y - X * w)) + l • w with hgd
  have hgp := ip_self_pos hg
  set c := a * ip (X * g) (X * g) + l * ip g g with hc
  have hcp : 0 < c := by
    have h1 := mul_nonneg ha.le (ip_self_nonneg (X * g))
    have h2 := mul_pos hl hgp
    linarith
  set t := ip g g / c with ht
  have htp : 0 < t := div_pos hgp hcp
  have hne : w + (-t) • g ≠ w := by
    intro he
    have : (-t) • g = 0 := by simpa using he
    rcases smul_eq_zero.mp this with h1 | h1
    · linarith
    · exact hg h1
  have hlt := h _ hne
  rw [obj_expand, ← hgd] at hlt
  have e1 : ip g ((-t) • g) = -t * ip g g := by
    unfold ip; simp only [Matrix.smul_apply, smul_eq_mul, Finset.mul_sum]
    exact Finset.sum_congr rfl fun i _ => Finset.sum_congr rfl fun o _ => by ring
  have e2 : ip ((-t) • g) ((-t) • g) = t ^ 2 * ip g g := by
    unfold ip; simp only [Matrix.smul_apply, smul_eq_mul, Finset.mul_sum]
    exact Finset.sum_congr rfl fun i _ => Finset.sum_congr rfl fun o _ => by ring
  have e3 : ip (X * ((-t) • g)) (X * ((-t) • g)) = t ^ 2 * ip (X * g) (X * g) := by
    rw [Matrix.mul_smul]
    unfold ip; simp only [Matrix.smul_apply, smul_eq_mul, Finset.mul_sum]
    exact Finset.sum_congr rfl fun i _ => Finset.sum_congr rfl fun o _ => by ring
  rw [e1, e2, e3] at hlt
  have e4 : t * c = ip g g := by rw [ht]; field_simp
  have : t ^ 2 * c = t * ip g g := by rw [← e4]; ring
  have h5 := mul_pos htp hgp
  have h6 : a * (t ^ 2 * ip (X * g) (X * g)) + l * (t ^ 2 * ip g g) = t ^ 2 * c := by rw [hc]; ring
  linarith

private theorem calcSigma_eq (d : Data n p q) (l a : ℝ) :
    calcSigma d l a = d.V * diagonal (fun i => 1 / (d.S i * d.S i + l / a)) * d.Vᵀ := by
  unfold calcSigma
  rw [Matrix.mul_assoc]
  congr 1
  ext i j
  rw [Matrix.diagonal_mul]
  rfl

private theorem gram {X U : Matrix (Fin n) (Fin p) ℝ} {S : Fin p → ℝ} {V : Matrix (Fin p) (Fin p) ℝ} (h : IsSVD X U S V) :
    Xᵀ * X = V * diagonal (fun i => S i * S i) * Vᵀ := by
  rw [h.prod]
  simp only [Matrix.transpose_mul, Matrix.transpose_transpose, Matrix.diagonal_transpose]
  calc V * (diagonal S * Uᵀ) * (U * diagonal S * Vᵀ) = V * (diagonal S * (Uᵀ * U) * diagonal S) * Vᵀ := by simp only [Matrix.mul_assoc]
    _ = _ := by rw [h.left, Matrix.mul_one, Matrix.diagonal_mul_diagonal]

private theorem calcSigma_inv {d : Data n p q} {U : Matrix (Fin n) (Fin p) ℝ} (h : IsSVD d.X U d.S d.V) {l a : ℝ} (hl : 0 < l) (ha : 0 < a) :
    (d.Xᵀ * d.X + (l / a) • (1 : Matrix (Fin p) (Fin p) ℝ)) * calcSigma d l a = 1 := by
  have hVV : d.V * d.Vᵀ = 1 := mul_eq_one_comm.mp h.right
  have h1 : (l / a) • (1 : Matrix (Fin p) (Fin p) ℝ) = d.V * diagonal (fun _ => l / a) * d.Vᵀ := by
    have : diagonal (fun _ : Fin p => l / a) = (l / a) • (1 : Matrix (Fin p) (Fin p) ℝ) := by
      ext i j; by_cases hij : i = j <;> simp [hij]
    rw [this, Matrix.mul_smul, Matrix.smul_mul, Matrix.mul_one, hVV]
  rw [gram h, h1, calcSigma_eq, ← Matrix.add_mul, ← Matrix.mul_add, Matrix.diagonal_add]
  calc d.V * diagonal (fun i => d.S i * d.S i + l / a) * d.Vᵀ * (d.V * diagonal (fun i => 1 / (d.S i * d.S i + l / a)) * d.Vᵀ)
      = d.V * (diagonal (fun i => d.S i * d.S i + l / a) * (d.Vᵀ * d.V) * diagonal (fun i => 1 / (d.S i * d.S i + l / a))) * d.Vᵀ := by
        simp only [Matrix.mul_assoc]
    _ = 1 := by
        rw [h.right, Matrix.mul_one, Matrix.diagonal_mul_diagonal]
        have : (fun i => (d.S i * d.S i + l / a) * (1 / (d.S i * d.S i + l / a))) = fun _ => 1 := by
          funext i
          have : 0 < d.S i * d.S i + l / a := by have := mul_self_nonneg (d.S i); have := div_pos hl ha; linarith
          field_simp
        rw [this]
        change d.V * diagonal 1 * d.Vᵀ = 1
        rw [show (diagonal (1 : Fin p → ℝ)) = 1 from Matrix.diagonal_one, Matrix.mul_one, hVV]

/-- The coefficients of a round are the ridge solution. -/
private theorem round_normal {d : Data n p q} {U : Matrix (Fin n) (Fin p) ℝ} (h : IsSVD d.X U d.S d.V) (hy : Hyper) (s : State p q) (hl : 0 < s.lambda) (ha : 0 < s.alpha) :
    (-s.alpha) • (d.Xᵀ * (d.Y - d.X * (round hy d s).coef)) + s.lambda • (round hy d s).coef = 0 := by
  have hi := calcSigma_inv h hl ha
  set w := (round hy d s).coef with hw
  have hw' : w = calcSigma d s.lambda s.alpha * (d.Xᵀ * d.Y) := rfl
  have : (d.Xᵀ * d.X + (s.lambda / s.alpha) • (1 : Matrix (Fin p) (Fin p) ℝ)) * w = d.Xᵀ * d.Y := by
    rw [hw', ← Matrix.mul_assoc, hi, Matrix.one_mul]
  rw [Matrix.add_mul, Matrix.smul_mul, Matrix.one_mul] at this
  rw [Matrix.mul_sub, ← this, ← Matrix.mul_assoc]
  rw [add_sub_cancel_left, smul_smul]
  have : -s.alpha * (s.lambda / s.alpha) = -s.lambda := by field_simp
  rw [this, neg_smul, neg_add_cancel]

/-- The states before each round if the loop did not stop. -/
private noncomputable def states (h : Hyper) (d : Data n p q) (s0 : State p q) : ℕ → State p q
  | 0 => s0
  | k + 1 => { round h d (states h d s0 k) with coefOld := (round h d (states h d s0 k)).coef }

private theorem loop_states (h : Hyper) (d : Data n p q) (s0 : State p q) (k iter : ℕ) :
    ∃ K, iter ≤ K ∧ K < iter + (k + 1) ∧ (K + 1 = iter + (k + 1) ∨ (0 < K ∧ converged h (round h d (states h d s0 K)))) ∧
      (∀ j, iter ≤ j → j < K → ¬ (0 < j ∧ converged h (round h d (states h d s0 j)))) ∧
      (loop h d (k + 1) iter (states h d s0 iter)).coef = (round h d (states h d s0 K)).coef ∧
      (loop h d (k + 1) iter (states h d s0 iter)).alpha = (round h d (states h d s0 K)).alpha ∧
      (loop h d (k + 1) iter (states h d s0 iter)).lambda = (round h d (states h d s0 K)).lambda ∧
      (loop h d (k + 1) iter (states h d s0 iter)).repLambda = (states h d s0 K).lambda := by
  induction k generalizing iter with
  | zero =>
    refine ⟨iter, le_refl _, by omega, Or.inl (by omega), fun j h1 h2 => by omega, ?_⟩
    simp only [loop]
    split <;> exact ⟨rfl, rfl, rfl, rfl⟩
  | succ k ih =>
    by_cases hc : 0 < iter ∧ converged h (round h d (states h d s0 iter))
    · refine ⟨iter, le_refl _, by omega, Or.inr hc, fun j h1 h2 => by omega, ?_⟩
      rw [loop]
      simp only [if_pos hc]
      exact ⟨trivial, trivial, trivial, rfl⟩
    · obtain ⟨K, h1, h2, h3, h4, h5⟩ := ih (iter + 1)
      refine ⟨K, by omega, by omega, ?_, ?_, ?_⟩
      · rcases h3 with h3 | h3
        · exact Or.inl (by omega)
        · exact Or.inr h3
      · intro j hj1 hj2
        rcases Nat.eq_or_lt_of_le hj1 with e | e
        · subst e; exact hc
        · exact h4 j e hj2
      · rw [loop]
        simp only [if_neg hc]
        exact h5

private theorem states_pos (h : Hyper) (d : Data n p q) (s0 : State p q) (hn : 0 < n) (h1 : 0 < h.alpha1) (h2 : 0 < h.alpha2) (h3 : 0 < h.lambda1) (h4 : 0 < h.lambda2)
    (ha : 0 < s0.alpha) (hl : 0 < s0.lambda) (k : ℕ) : 0 < (states h d s0 k).alpha ∧ 0 < (states h d s0 k).lambda := by
  induction k with
  | zero => exact ⟨ha, hl⟩
  | succ k _ =>
    have hn' : (0 : ℝ) < n := by exact_mod_cast hn
    simp only [states, round, gamma, List.sum_nil]
    constructor
    · apply div_pos
      · linarith
      · have := Real.sqrt_nonneg (sumSq (d.X * (calcSigma d (states h d s0 k).lambda (states h d s0 k).alpha * (d.Xᵀ * d.Y)) - d.Y)); linarith
    · apply div_pos
      · linarith
      · have := ip_self_nonneg (calcSigma d (states h d s0 k).lambda (states h d s0 k).alpha * (d.Xᵀ * d.Y)); rw [← sumSq_ip] at this; linarith

/-! ## C111 -/

/-- C111: with more samples than features `Fit` succeeds, and this is what it stores.  There are sequences of precisions `α`, `l`, starting with `1/mean(Y²)` and 1, and of
coefficients `w`, where `w k` is the ridge solution (the only minimiser of `α‖Y-Xw‖² + l‖w‖²`) for the `k`-th precisions; it stops at the first round from the second on whose
coefficients differ from the previous ones by less than `Tol` in all, or after `NIter` rounds; the coefficients and `Lambda` are those of that round, `Sigma` is the inverse of
`α XᵀX + l` for the next precisions.
Missing from the full claim: the field `Alpha` is that of the next round, not the one that goes with the coefficients (`C111_reported_violated`), and few samples
(`C111_few_samples_violated`). -/
theorem C111_fit_partial (h : Hyper) (d : Data n p q) (lambda0 : ℝ) (U : Matrix (Fin n) (Fin p) ℝ) (hsvd : IsSVD d.X U d.S d.V) (hn : p < n) (hY : d.Y ≠ 0) (hN : 0 < h.nIter)
    (h1 : 0 < h.alpha1) (h2 : 0 < h.alpha2) (h3 : 0 < h.lambda1) (h4 : 0 < h.lambda2) :
    ∃ f, fit h d lambda0 = some f ∧ ∃ (α l : ℕ → ℝ) (w : ℕ → Matrix (Fin p) (Fin q) ℝ) (K : ℕ),
      α 0 = (n * q) / (∑ i, ∑ o, d.Y i o ^ 2) ∧ l 0 = 1 ∧
      (∀ k, 0 < α k ∧ 0 < l k ∧ IsRidge d.X d.Y (α k) (l k) (w k)) ∧
      (∀ k, l (k + 1) = 2 * h.lambda1 / ((∑ j, ∑ o, w k j o ^ 2) + 2 * h.lambda2)) ∧
      (∀ k, α (k + 1) = (n + 2 * h.alpha1) / (Real.sqrt (∑ i, ∑ o, (d.Y i o - ∑ j, d.X i j * w k j o) ^ 2) + 2 * h.alpha2)) ∧
      K < h.nIter ∧
      (K + 1 = h.nIter ∨ (0 < K ∧ (∑ j, ∑ o, |w (K - 1) j o - w K j o|) < h.tol)) ∧
      (∀ k, 0 < k → k < K → h.tol ≤ ∑ j, ∑ o, |w (k - 1) j o - w k j o|) ∧
      f.coef = w K ∧ f.lambda = l K ∧ f.alpha = α (K + 1) ∧
      (α (K + 1) • (d.Xᵀ * d.X) + l (K + 1) • (1 : Matrix (Fin p) (Fin p) ℝ)) * f.sigma = 1 := by
  classical
  set s0 : State p q := { alpha := ((n * q : ℕ) : ℝ) / sumSq d.Y, lambda := 1, coefOld := 0, coef := 0, repLambda := lambda0 } with hs0
  have hq : 0 < q := by
    rcases Nat.eq_zero_or_pos q with e | e
    · subst e; exact absurd (by ext i o; exact o.elim0) hY
    · exact e
  have hnp : 0 < n := by omega
  have ha0 : 0 < s0.alpha := by
    rw [hs0]; apply div_pos
    · exact_mod_cast Nat.mul_pos hnp hq
    · rw [sumSq_ip]; exact ip_self_pos hY
  have hpos := states_pos h d s0 hnp h1 h2 h3 h4 ha0 (by rw [hs0]; exact one_pos)
  obtain ⟨k, hk⟩ : ∃ k, h.nIter = k + 1 := ⟨h.nIter - 1, by omega⟩
  obtain ⟨K, -, hK2, hK3, hK4, e1, e2, e3, e4⟩ := loop_states h d s0 k 0
  have hs00 : states h d s0 0 = s0 := rfl
  rw [hs00] at e1 e2 e3 e4
  refine ⟨_, by rw [fit, if_neg (by omega)], ?_⟩
  refine ⟨fun k => (states h d s0 k).alpha, fun k => (states h d s0 k).lambda, fun k => (round h d (states h d s0 k)).coef, K, ?_, rfl, ?_, ?_, ?_, by omega, ?_, ?_, ?_⟩
  · show ((n * q : ℕ) : ℝ) / sumSq d.Y = _
    simp only [sumSq, pow_two]; push_cast; rfl
  · intro k
    exact ⟨(hpos k).1, (hpos k).2, isRidge_of_normal (hpos k).1 (hpos k).2 (round_normal hsvd h _ (hpos k).2 (hpos k).1)⟩
  · intro k
    show (gamma d _ _ + 2 * h.lambda1) / (sumSq _ + 2 * h.lambda2) = _
    simp only [gamma, List.sum_nil, zero_add, sumSq, pow_two]
    rfl
  · intro k
    show ((n : ℝ) - gamma d _ _ + 2 * h.alpha1) / (Real.sqrt (sumSq (d.X * _ - d.Y)) + 2 * h.alpha2) = _
    simp only [gamma, List.sum_nil, sub_zero]
    congr 3
    unfold sumSq
    refine Finset.sum_congr rfl fun i _ => Finset.sum_congr rfl fun o _ => ?_
    simp only [Matrix.sub_apply]
    rw [← Matrix.mul_apply]
    show _ = (d.Y i o - (d.X * (calcSigma d (states h d s0 k).lambda (states h d s0 k).alpha * (d.Xᵀ * d.Y))) i o) ^ 2
    ring
  · rcases hK3 with h5 | ⟨h5, h6⟩
    · exact Or.inl (by omega)
    · refine Or.inr ⟨h5, ?_⟩
      obtain ⟨m, rfl⟩ : ∃ m, K = m + 1 := ⟨K - 1, by omega⟩
      exact h6
  · intro j hj1 hj2
    have := hK4 j (Nat.zero_le _) hj2
    obtain ⟨m, rfl⟩ : ∃ m, j = m + 1 := ⟨j - 1, by omega⟩
    exact not_lt.mp fun hlt => this ⟨hj1, hlt⟩
  · simp only [hk]
    refine ⟨e1, e4, e2, ?_⟩
    rw [e2, e3]
    have hp' := hpos (K + 1)
    have hi := calcSigma_inv hsvd hp'.2 hp'.1
    have ea : (round h d (states h d s0 K)).alpha = (states h d s0 (K + 1)).alpha := rfl
    have el : (round h d (states h d s0 K)).lambda = (states h d s0 (K + 1)).lambda := rfl
    rw [ea, el]
    set A := (states h d s0 (K + 1)).alpha
    set L := (states h d s0 (K + 1)).lambda
    have e5 : (Matrix.of fun i j => 1 / A * calcSigma d L A i j) = (1 / A) • calcSigma d L A := by ext i j; rfl
    have e6 : A • (d.Xᵀ * d.X) + L • (1 : Matrix (Fin p) (Fin p) ℝ) = A • (d.Xᵀ * d.X + (L / A) • (1 : Matrix (Fin p) (Fin p) ℝ)) := by
      rw [smul_add, smul_smul]
      congr 2
      have := hp'.1.ne'; field_simp
    rw [e5, e6, Matrix.mul_smul, Matrix.smul_mul, hi, smul_smul]
    have : 1 / A * A = 1 := by have := hp'.1.ne'; field_simp
    rw [this, one_smul]

/-- C111 violated: with at most as many samples as features `Fit` panics, for all data. -/
theorem C111_few_samples_violated (h : Hyper) (d : Data n p q) (lambda0 : ℝ) (hn : n ≤ p) (hN : 0 < h.nIter) : fit h d lambda0 = none := by
  rw [fit, if_pos (Or.inl ⟨hN, hn⟩)]

/-- C111 violated: the reported precisions do not go with the coefficients.  Whenever the coefficients are not zero and the last update changed the noise precision, the coefficients are
not the ridge solution for the reported `Alpha` and `Lambda`. -/
theorem C111_reported_violated (h : Hyper) (d : Data n p q) (lambda0 : ℝ) (U : Matrix (Fin n) (Fin p) ℝ) (hsvd : IsSVD d.X U d.S d.V) (hn : p < n) (hY : d.Y ≠ 0) (hN : 0 < h.nIter)
    (h1 : 0 < h.alpha1) (h2 : 0 < h.alpha2) (h3 : 0 < h.lambda1) (h4 : 0 < h.lambda2) (f : Fitted p q) (hf : fit h d lambda0 = some f) (hc : f.coef ≠ 0)
    (used : ℝ) (hu : 0 < used) (hused : IsRidge d.X d.Y used f.lambda f.coef) (hne : used ≠ f.alpha) :
    ¬ IsRidge d.X d.Y f.alpha f.lambda f.coef := by
  obtain ⟨f', hf', α, l, w, K, -, -, hpos, -, -, -, -, -, -, e2, e3, -⟩ := C111_fit_partial h d lambda0 U hsvd hn hY hN h1 h2 h3 h4
  rw [hf] at hf'; cases hf'
  have hlp : 0 < f.lambda := by rw [e2]; exact (hpos K).2.1
  have hap : 0 < f.alpha := by rw [e3]; exact (hpos _).1
  intro hr
  have n1 := normal_of_isRidge hu hlp hused
  have n2 := normal_of_isRidge hap hlp hr
  have hsub : (f.alpha - used) • (d.Xᵀ * (d.Y - d.X * f.coef)) = 0 := by
    have := congrArg₂ (· - ·) n1 n2
    simp only [sub_zero] at this
    rw [← this, sub_smul, neg_smul, neg_smul]; abel
  rcases smul_eq_zero.mp hsub with h5 | h5
  · exact hne (by linarith)
  · rw [h5, smul_zero, zero_add] at n2
    rcases smul_eq_zero.mp n2 with h6 | h6
    · linarith
    · exact hc h6

/-- Data for the examples: `X = (1, 0)ᵀ`, `Y = (1, 1)ᵀ`, decomposition with `U = X`, `S = 1`, `V = 1`. -/
private noncomputable def exData : Data 2 1 1 := { X := !![1; 0], Y := !![1; 1], V := 1, S := fun _ => 1 }

private theorem exSvd : IsSVD exData.X !![1; 0] exData.S exData.V := by
  refine ⟨?_, ?_, ?_⟩
  · ext i j; fin_cases i <;> fin_cases j <;> simp [exData]
  · ext i j; fin_cases i; fin_cases j; simp [Matrix.mul_apply]
  · simp [exData]

private noncomputable def exHyper : Hyper := { nIter := 1, tol := 1 / 1000, alpha1 := 1 / 1000000, alpha2 := 1 / 1000000, lambda1 := 1 / 1000000, lambda2 := 1 / 1000000 }

/-- The hypotheses of `C111_fit_partial` and `C111_reported_violated` hold for these data with the default priors and one round: the coefficient is `1/2`, computed with
noise precision 1, while the reported `Alpha` is `2.000002 / (√5/2 + 0.000002)`. -/
example : ∃ f, fit exHyper exData 0 = some f ∧ ¬ IsRidge exData.X exData.Y f.alpha f.lambda f.coef := by
  have hY : exData.Y ≠ 0 := by intro h0; have := congrFun (congrFun h0 0) 0; simp [exData] at this
  have hp := C111_fit_partial exHyper exData 0 !![1; 0] exSvd (by norm_num) hY (by norm_num [exHyper]) (by norm_num [exHyper]) (by norm_num [exHyper])
    (by norm_num [exHyper]) (by norm_num [exHyper])
  obtain ⟨f, hf, α, l, w, K, a0, l0, hpos, -, ha, hK, -, -, c1, c2, c3, -⟩ := hp
  have hK0 : K = 0 := by have : exHyper.nIter = 1 := rfl; omega
  subst hK0
  refine ⟨f, hf, ?_⟩
  have hα0 : α 0 = 1 := by rw [a0]; simp [exData]; norm_num
  have hr0 := (hpos 0).2.2
  have nn := normal_of_isRidge (hpos 0).1 (hpos 0).2.1 hr0
  have n00 := congrFun (congrFun nn 0) 0
  rw [hα0, l0] at n00
  have w00 : w 0 0 0 = 1 / 2 := by
    simp only [exData, Matrix.add_apply, Matrix.smul_apply, Matrix.mul_apply, Matrix.sub_apply, Matrix.transpose_apply, Fin.sum_univ_two, Fin.sum_univ_one] at n00
    norm_num at n00
    linarith
  refine C111_reported_violated exHyper exData 0 !![1; 0] exSvd (by norm_num) hY (by norm_num [exHyper]) (by norm_num [exHyper]) (by norm_num [exHyper])
    (by norm_num [exHyper]) (by norm_num [exHyper]) f hf ?_ 1 one_pos ?_ ?_
  · rw [c1]; intro h0; rw [h0] at w00; norm_num at w00
  · rw [c1, c2, ← hα0]; exact hr0
  · rw [c3, ha 0]
    have hs : (∑ i, ∑ o, (exData.Y i o - ∑ j, exData.X i j * w 0 j o) ^ 2) = 5 / 4 := by
      simp [exData, Fin.sum_univ_two, w00]; norm_num
    rw [hs]
    intro he
    have hsq : Real.sqrt (5 / 4) < 3 / 2 := by rw [Real.sqrt_lt' (by norm_num)]; norm_num
    have hs0 := Real.sqrt_nonneg (5 / 4 : ℝ)
    rw [eq_div_iff (by norm_num [exHyper]; positivity)] at he
    simp only [exHyper] at he
    push_cast at he
    linarith

/-! ## C112 -/

/-- Effective number of parameters for precisions `a`, `l` and singular values `S`. -/
noncomputable def effective (S : Fin p → ℝ) (a l : ℝ) : ℝ := ∑ i, a * S i ^ 2 / (l + a * S i ^ 2)

/-- Evidence-maximising update of the weight precision. -/
noncomputable def textbookLambda (S : Fin p → ℝ) (a l l1 l2 : ℝ) (w : Matrix (Fin p) (Fin q) ℝ) : ℝ :=
  (effective S a l + 2 * l1) / ((∑ j, ∑ o, w j o ^ 2) + 2 * l2)

/-- Evidence-maximising update of the noise precision. -/
noncomputable def textbookAlpha (S : Fin p → ℝ) (a l a1 a2 : ℝ) (X : Matrix (Fin n) (Fin p) ℝ) (Y : Matrix (Fin n) (Fin q) ℝ) (w : Matrix (Fin p) (Fin q) ℝ) : ℝ :=
  ((n : ℝ) - effective S a l + 2 * a1) / ((∑ i, ∑ o, (Y i o - ∑ j, X i j * w j o) ^ 2) + 2 * a2)

private theorem effective_pos {S : Fin p → ℝ} {a l : ℝ} (ha : 0 < a) (hl : 0 < l) {i : Fin p} (hi : S i ≠ 0) : 0 < effective S a l := by
  unfold effective
  refine Finset.sum_pos' (fun j _ => ?_) ⟨i, Finset.mem_univ _, ?_⟩
  · positivity
  · positivity

private theorem round_resid (d : Data n p q) (w : Matrix (Fin p) (Fin q) ℝ) : sumSq (d.X * w - d.Y) = ∑ i, ∑ o, (d.Y i o - ∑ j, d.X i j * w j o) ^ 2 := by
  unfold sumSq
  refine Finset.sum_congr rfl fun i _ => Finset.sum_congr rfl fun o _ => ?_
  simp only [Matrix.sub_apply, Matrix.mul_apply]; ring

/-- C112, the part that holds: for `X = 0` (all singular values zero) the weight precision is updated by the textbook rule, and the noise precision too if the residual sum of
squares is 0 or 1. Missing: every other data set (`C112_update_violated`). -/
theorem C112_update_partial (h : Hyper) (d : Data n p q) (s : State p q) (hS : ∀ i, d.S i = 0) :
    (round h d s).lambda = textbookLambda d.S s.alpha s.lambda h.lambda1 h.lambda2 (round h d s).coef ∧
    ((∑ i, ∑ o, (d.Y i o - ∑ j, d.X i j * (round h d s).coef j o) ^ 2 = 0 ∨ ∑ i, ∑ o, (d.Y i o - ∑ j, d.X i j * (round h d s).coef j o) ^ 2 = 1) →
      (round h d s).alpha = textbookAlpha d.S s.alpha s.lambda h.alpha1 h.alpha2 d.X d.Y (round h d s).coef) := by
  have he : effective d.S s.alpha s.lambda = 0 := by simp [effective, hS]
  constructor
  · rw [textbookLambda, he]
    simp only [round, gamma, List.sum_nil, sumSq, pow_two]
  · intro hr
    rw [textbookAlpha, he]
    have : (round h d s).alpha = ((n : ℝ) - 0 + 2 * h.alpha1) / (Real.sqrt (sumSq (d.X * (round h d s).coef - d.Y)) + 2 * h.alpha2) := rfl
    rw [this, round_resid]
    rcases hr with hr | hr <;> rw [hr] <;> simp

/-- C112 violated: unless `X` is zero, the weight precision becomes too small in every round (the effective number of parameters is taken to be zero), and the noise precision too large
whenever the residual sum of squares is at least 1 (its root is used). -/
theorem C112_update_violated (h : Hyper) (d : Data n p q) (s : State p q) (ha : 0 < s.alpha) (hl : 0 < s.lambda) (h2 : 0 < h.lambda2)
    (h3 : 0 < h.alpha1) (h4 : 0 < h.alpha2) {i : Fin p} (hi : d.S i ≠ 0) :
    (round h d s).lambda < textbookLambda d.S s.alpha s.lambda h.lambda1 h.lambda2 (round h d s).coef ∧
    (1 ≤ (∑ i, ∑ o, (d.Y i o - ∑ j, d.X i j * (round h d s).coef j o) ^ 2) →
      textbookAlpha d.S s.alpha s.lambda h.alpha1 h.alpha2 d.X d.Y (round h d s).coef < (round h d s).alpha) := by
  have he := effective_pos ha hl hi
  constructor
  · have e : (round h d s).lambda = (0 + 2 * h.lambda1) / (sumSq (round h d s).coef + 2 * h.lambda2) := rfl
    have e2 : sumSq (round h d s).coef = ∑ j, ∑ o, (round h d s).coef j o ^ 2 := by simp only [sumSq, pow_two]
    rw [e, e2, textbookLambda]
    apply div_lt_div_of_pos_right
    · linarith
    · have : 0 ≤ ∑ j, ∑ o, (round h d s).coef j o ^ 2 := Finset.sum_nonneg fun _ _ => Finset.sum_nonneg fun _ _ => sq_nonneg _
      linarith
  · intro hr
    have e : (round h d s).alpha = ((n : ℝ) - 0 + 2 * h.alpha1) / (Real.sqrt (sumSq (d.X * (round h d s).coef - d.Y)) + 2 * h.alpha2) := rfl
    rw [e, round_resid, textbookAlpha]
    set R := ∑ i, ∑ o, (d.Y i o - ∑ j, d.X i j * (round h d s).coef j o) ^ 2
    have hs : Real.sqrt R ≤ R := by
      rw [Real.sqrt_le_left (by linarith)]; nlinarith
    have hs0 := Real.sqrt_nonneg R
    have hn : (0 : ℝ) ≤ n := Nat.cast_nonneg n
    calc ((n : ℝ) - effective d.S s.alpha s.lambda + 2 * h.alpha1) / (R + 2 * h.alpha2) < ((n : ℝ) - 0 + 2 * h.alpha1) / (R + 2 * h.alpha2) :=
          div_lt_div_of_pos_right (by linarith) (by linarith)
      _ ≤ _ := div_le_div_of_nonneg_left (by linarith) (by linarith) (by linarith)

example : (round exHyper exData { alpha := 1, lambda := 1, coefOld := 0, coef := 0, repLambda := 0 }).lambda
    < textbookLambda exData.S 1 1 exHyper.lambda1 exHyper.lambda2 (round exHyper exData { alpha := 1, lambda := 1, coefOld := 0, coef := 0, repLambda := 0 }).coef :=
  (C112_update_violated exHyper exData { alpha := 1, lambda := 1, coefOld := 0, coef := 0, repLambda := 0 } one_pos one_pos (by norm_num [exHyper]) (by norm_num [exHyper])
    (by norm_num [exHyper]) (i := 0) (by simp [exData])).1

example : (round exHyper { exData with X := 0, S := fun _ => 0 } { alpha := 1, lambda := 1, coefOld := 0, coef := 0, repLambda := 0 }).lambda = 1 := by
  rw [(C112_update_partial exHyper { exData with X := 0, S := fun _ => 0 } _ (fun _ => rfl)).1]
  simp [textbookLambda, effective, round, exHyper]

/-! ## C113 -/

/-- Standard deviation of the predictive distribution at the (standardised) row `z`. -/
noncomputable def predictiveStd {p : ℕ} (sigma : Matrix (Fin p) (Fin p) ℝ) (alpha : ℝ) (z : Fin p → ℝ) : ℝ :=
  Real.sqrt ((∑ j, ∑ k, z j * sigma j k * z k) + 1 / alpha)

/-- C113, the part that holds: with one feature, and data standardised by `Normalize` (or that need no standardisation), the second result of `Predict2` is the square of the
predictive standard deviation. Missing: that it is the standard deviation, several features (`C113_*_violated`). -/
theorem C113_variance_partial (normalize : Bool) (off scale x : Fin 1 → ℝ) (sigma : Matrix (Fin 1) (Fin 1) ℝ) (alpha : ℝ) (ha : 0 < alpha) (hs : 0 ≤ sigma 0 0)
    (h0 : normalize = false → off 0 = 0 ∧ scale 0 = 1) :
    predict2Std normalize off scale sigma alpha x = predictiveStd sigma alpha (fun j => (x j - off j) / scale j) ^ 2 := by
  unfold predict2Std predictiveStd
  rw [Real.sq_sqrt]
  · cases normalize with
    | true => simp
    | false => obtain ⟨h1, h2⟩ := h0 rfl; simp [h1, h2]
  · simp only [Fin.sum_univ_one]
    have := mul_nonneg hs (mul_self_nonneg ((x 0 - off 0) / scale 0))
    have := one_div_pos.mpr ha
    nlinarith

/-- C113 violated with one feature: the result is the standard deviation only where that is 1. -/
theorem C113_one_feature_violated (normalize : Bool) (off scale x : Fin 1 → ℝ) (sigma : Matrix (Fin 1) (Fin 1) ℝ) (alpha : ℝ) (ha : 0 < alpha) (hs : 0 ≤ sigma 0 0)
    (h0 : normalize = false → off 0 = 0 ∧ scale 0 = 1) (h1 : predictiveStd sigma alpha (fun j => (x j - off j) / scale j) ≠ 1) :
    predict2Std normalize off scale sigma alpha x ≠ predictiveStd sigma alpha (fun j => (x j - off j) / scale j) := by
  rw [C113_variance_partial normalize off scale x sigma alpha ha hs h0]
  have hpos : 0 < predictiveStd sigma alpha (fun j => (x j - off j) / scale j) := by
    unfold predictiveStd
    apply Real.sqrt_pos.mpr
    simp only [Fin.sum_univ_one]
    have := mul_nonneg hs (mul_self_nonneg ((x 0 - off 0) / scale 0))
    have := one_div_pos.mpr ha
    nlinarith
  intro he
  rw [pow_two] at he
  exact h1 (mul_left_cancel₀ hpos.ne' (by rw [he, mul_one]))

/-- C113 violated with several features: if the covariance of the first feature's coefficient with another one is negative, the "standard deviation" is negative for some row. -/
theorem C113_negative_violated {p : ℕ} (normalize : Bool) (off scale : Fin (p + 1) → ℝ) (hsc : ∀ j, scale j ≠ 0) (sigma : Matrix (Fin (p + 1)) (Fin (p + 1)) ℝ) (alpha : ℝ)
    (ha : 0 < alpha) (k : Fin (p + 1)) (hk : sigma 0 k < 0) : ∃ x, predict2Std normalize off scale sigma alpha x < 0 := by
  set c := 1 / alpha with hc
  have hcp : 0 < c := one_div_pos.mpr ha
  set t := (1 + c) / (-sigma 0 k) + 1 with ht
  have ht1 : 1 ≤ t := by have := div_pos (by linarith : 0 < 1 + c) (by linarith : 0 < -sigma 0 k); linarith
  have hkey : t * sigma 0 k * t + c < 0 := by
    have h1 : (1 + c) / (-sigma 0 k) ≤ t := by linarith
    rw [div_le_iff₀ (by linarith)] at h1
    nlinarith
  refine ⟨fun j => if normalize then (if j = k then t else 0) * scale j + off j else (if j = k then t else 0), ?_⟩
  have : predict2Std normalize off scale sigma alpha (fun j => if normalize then (if j = k then t else 0) * scale j + off j else (if j = k then t else 0))
      = t * sigma 0 k * t + c := by
    unfold predict2Std
    have hz : ∀ j, (if normalize = true then ((if normalize = true then (if j = k then t else 0) * scale j + off j else (if j = k then t else 0)) - off j) / scale j
        else (if normalize = true then (if j = k then t else 0) * scale j + off j else (if j = k then t else 0))) = if j = k then t else 0 := by
      intro j
      cases normalize with
      | true => simp only [if_true]; have := hsc j; field_simp; ring
      | false => simp
    simp only [hz]
    rw [Finset.sum_eq_single k (fun j _ hj => by simp [hj]) (fun h => absurd (Finset.mem_univ k) h)]
    simp [hc]
  rw [this]; exact hkey

example : ∃ x, predict2Std false (fun _ => 0) (fun _ => 1) !![1, -1 / 2; -1 / 2, 1] 1 x < 0 :=
  C113_negative_violated false (fun _ => 0) (fun _ => 1) (fun _ => one_ne_zero) !![1, -1 / 2; -1 / 2, 1] 1 one_pos 1 (by norm_num)

example : predict2Std false (fun _ => 0) (fun _ => 1) !![3] 1 (fun _ => 1) ≠ predictiveStd !![3] 1 (fun _ => ((1 : ℝ) - 0) / 1) := by
  refine C113_one_feature_violated false (fun _ => 0) (fun _ => 1) (fun _ => 1) !![3] 1 one_pos (by norm_num) (fun _ => ⟨rfl, rfl⟩) ?_
  simp [predictiveStd]

/-- C113 violated without `Normalize`: rows are not centred although the model was fitted to centred data, so the value at the mean row, where the predictive variance is smallest, is
larger than that variance `1/alpha` for every mean row that is not zero (one feature). -/
theorem C113_uncentred_violated (off scale : Fin 1 → ℝ) (sigma : Matrix (Fin 1) (Fin 1) ℝ) (alpha : ℝ) (hs : 0 < sigma 0 0) (h0 : off 0 ≠ 0) :
    predictiveStd sigma alpha (fun j => (off j - off j) / scale j) = Real.sqrt (1 / alpha) ∧ 1 / alpha < predict2Std false off scale sigma alpha off := by
  constructor
  · simp [predictiveStd]
  · have e : (∑ x : Fin (0 + 1), off x * sigma 0 x * off x) = off 0 * sigma 0 0 * off 0 := Fin.sum_univ_one _
    simp only [predict2Std, Bool.false_eq_true, if_false, e]
    have := mul_pos hs (mul_self_pos.mpr h0)
    nlinarith

example : (1 : ℝ) / 1 < predict2Std false (fun _ => 2) (fun _ => 1) !![3] 1 (fun _ => 2) :=
  (C113_uncentred_violated (fun _ => 2) (fun _ => 1) !![3] 1 (by norm_num) (by norm_num)).2

end Sk.Bayes
