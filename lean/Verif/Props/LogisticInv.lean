import Verif.Props.Logistic
import Verif.Model.MlpFit
import Mathlib.Algebra.BigOperators.Group.Finset.Sigma
import Mathlib.Tactic.FieldSimp
import Mathlib.Topology.Order.IntermediateValue
import Mathlib.Tactic.FinCases
import Mathlib.Analysis.SpecialFunctions.ExpDeriv
import Mathlib.Tactic.LinearCombination

/-! # C202: the optimum of a logistic regression and what it does not depend on -/
set_option autoImplicit false

namespace Sk.Logistic
open Sk.Mlp (Layer)

/-- The gradient which `Fit` gives to the minimiser is zero. -/
def Stationary (alpha : ℝ) {n p q : ℕ} (X : Fin n → Fin p → ℝ) (y : Fin n → Fin q → ℝ) (θ : Layer p q) : Prop := (∀ j o, (grad alpha X y θ).1 j o = 0) ∧ ∀ o, (grad alpha X y θ).2 o = 0

/-! ## One row -/

theorem sum_exp_pos {q : ℕ} (hq : 1 < q) (z : Fin q → ℝ) : 0 < ∑ k, Real.exp (z k) := Finset.sum_pos (fun k _ => Real.exp_pos _) ⟨⟨0, by omega⟩, Finset.mem_univ _⟩

theorem soft_sum {p q : ℕ} (hq : 1 < q) (θ : Layer p q) (x : Fin p → ℝ) : ∑ o, probas θ x o = 1 := by
  simp only [probas_soft hq]
  rw [← Finset.sum_div, div_self (sum_exp_pos hq _).ne']

theorem soft_log {p q : ℕ} (hq : 1 < q) (θ : Layer p q) (x : Fin p → ℝ) (o : Fin q) : 0 < probas θ x o ∧ lin θ x o = Real.log (probas θ x o) + Real.log (∑ k, Real.exp (lin θ x k)) := by
  have hS := sum_exp_pos hq (lin θ x)
  rw [probas_soft hq]
  refine ⟨div_pos (Real.exp_pos _) hS, ?_⟩
  rw [Real.log_div (Real.exp_pos _).ne' hS.ne', Real.log_exp]
  ring

theorem logi_mono (z z' : ℝ) : 0 ≤ (1 / (1 + Real.exp (-z')) - 1 / (1 + Real.exp (-z))) * (z' - z) ∧ ((1 / (1 + Real.exp (-z')) - 1 / (1 + Real.exp (-z))) * (z' - z) = 0 → z' = z) := by
  have key : ∀ a b : ℝ, a < b → 1 / (1 + Real.exp (-a)) < 1 / (1 + Real.exp (-b)) := by
    intro a b h
    refine one_div_lt_one_div_of_lt (by positivity) ?_
    have := Real.exp_lt_exp.2 (neg_lt_neg h)
    linarith
  rcases lt_trichotomy z z' with h | h | h
  · have := mul_pos (sub_pos.2 (key _ _ h)) (sub_pos.2 h)
    exact ⟨this.le, fun e => absurd e this.ne'⟩
  · subst h; simp
  · have := mul_pos_of_neg_of_neg (sub_neg.2 (key _ _ h)) (sub_neg.2 h)
    exact ⟨this.le, fun e => absurd e this.ne'⟩

theorem logi_inj {z z' : ℝ} (h : 1 / (1 + Real.exp (-z')) = 1 / (1 + Real.exp (-z))) : z' = z := by
  refine (logi_mono z z').2 ?_
  rw [h]; ring

/-- Probabilities grow with the values they are made of. -/
theorem row_mono {p q : ℕ} (θ θ' : Layer p q) (x : Fin p → ℝ) :
    0 ≤ ∑ o, (probas θ' x o - probas θ x o) * (lin θ' x o - lin θ x o) ∧ (∑ o, (probas θ' x o - probas θ x o) * (lin θ' x o - lin θ x o) = 0 → ∀ o, probas θ' x o = probas θ x o) := by
  by_cases hq : 1 < q
  · have e : ∑ o, (probas θ' x o - probas θ x o) * (lin θ' x o - lin θ x o) = ∑ o, (probas θ' x o - probas θ x o) * (Real.log (probas θ' x o) - Real.log (probas θ x o)) := by
      have h0 : ∑ o, (probas θ' x o - probas θ x o) * (Real.log (∑ k, Real.exp (lin θ' x k)) - Real.log (∑ k, Real.exp (lin θ x k))) = 0 := by
        rw [← Finset.sum_mul, Finset.sum_sub_distrib, soft_sum hq, soft_sum hq, sub_self, zero_mul]
      rw [← add_zero (∑ o, (probas θ' x o - probas θ x o) * (Real.log (probas θ' x o) - Real.log (probas θ x o))), ← h0, ← Finset.sum_add_distrib]
      refine Finset.sum_congr rfl (fun o _ => ?_)
      rw [(soft_log hq θ' x o).2, (soft_log hq θ x o).2]
      ring
    have hnn : ∀ o, 0 ≤ (probas θ' x o - probas θ x o) * (Real.log (probas θ' x o) - Real.log (probas θ x o)) ∧
        ((probas θ' x o - probas θ x o) * (Real.log (probas θ' x o) - Real.log (probas θ x o)) = 0 → probas θ' x o = probas θ x o) := by
      intro o
      have h1 := (soft_log hq θ' x o).1
      have h2 := (soft_log hq θ x o).1
      rcases lt_trichotomy (probas θ x o) (probas θ' x o) with h | h | h
      · have := mul_pos (sub_pos.2 h) (sub_pos.2 (Real.log_lt_log h2 h))
        exact ⟨this.le, fun e => absurd e this.ne'⟩
      · rw [h]; simp
      · have := mul_pos_of_neg_of_neg (sub_neg.2 h) (sub_neg.2 (Real.log_lt_log h1 h))
        exact ⟨this.le, fun e => absurd e this.ne'⟩
    rw [e]
    refine ⟨Finset.sum_nonneg (fun o _ => (hnn o).1), fun h o => (hnn o).2 ((Finset.sum_eq_zero_iff_of_nonneg (fun o _ => (hnn o).1)).1 h o (Finset.mem_univ _))⟩
  · simp only [probas_logi hq]
    have hnn := fun o => logi_mono (lin θ x o) (lin θ' x o)
    refine ⟨Finset.sum_nonneg (fun o _ => (hnn o).1), fun h o => ?_⟩
    rw [(hnn o).2 ((Finset.sum_eq_zero_iff_of_nonneg (fun o _ => (hnn o).1)).1 h o (Finset.mem_univ _))]

/-- **C202, one optimum.** Two sets of parameters with zero gradient give every training row the same probabilities; with `Alpha > 0` they have the same coefficients and give every row whatsoever the same
probabilities. -/
theorem C202_unique {alpha : ℝ} (ha : 0 ≤ alpha) {n p q : ℕ} (hn : n ≠ 0) (X : Fin n → Fin p → ℝ) (y : Fin n → Fin q → ℝ) (θ θ' : Layer p q) (h : Stationary alpha X y θ) (h' : Stationary alpha X y θ') :
    (∀ i o, probas θ' (X i) o = probas θ (X i) o) ∧ (0 < alpha → (∀ j o, θ'.1 j o = θ.1 j o) ∧ ∀ x o, probas θ' x o = probas θ x o) := by
  have hn' : (0 : ℝ) < n := by exact_mod_cast Nat.pos_of_ne_zero hn
  have z1 : inner (grad alpha X y θ) (diff θ' θ) = 0 := by simp [inner, h.1, h.2]
  have z2 : inner (grad alpha X y θ') (diff θ' θ) = 0 := by simp [inner, h'.1, h'.2]
  rw [inner_grad hn] at z1 z2
  simp only [lin_diff] at z1 z2
  have hA : ∑ i, ∑ o, (probas θ' (X i) o - probas θ (X i) o) * (lin θ' (X i) o - lin θ (X i) o) =
      ∑ i, ∑ o, (probas θ' (X i) o - y i o) * (lin θ' (X i) o - lin θ (X i) o) - ∑ i, ∑ o, (probas θ (X i) o - y i o) * (lin θ' (X i) o - lin θ (X i) o) := by
    rw [← Finset.sum_sub_distrib]
    refine Finset.sum_congr rfl (fun i _ => ?_)
    rw [← Finset.sum_sub_distrib]
    exact Finset.sum_congr rfl (fun o _ => by ring)
  have hB : ∑ j, ∑ o, (θ'.1 j o - θ.1 j o) ^ 2 = ∑ j, ∑ o, θ'.1 j o * (diff θ' θ).1 j o - ∑ j, ∑ o, θ.1 j o * (diff θ' θ).1 j o := by
    rw [← Finset.sum_sub_distrib]
    refine Finset.sum_congr rfl (fun i _ => ?_)
    rw [← Finset.sum_sub_distrib]
    exact Finset.sum_congr rfl (fun o _ => by simp only [diff]; ring)
  have hsum : (∑ i, ∑ o, (probas θ' (X i) o - probas θ (X i) o) * (lin θ' (X i) o - lin θ (X i) o)) / n + alpha / n * ∑ j, ∑ o, (θ'.1 j o - θ.1 j o) ^ 2 = 0 := by
    rw [hA, hB]
    linear_combination z2 - z1
  have hA0 : 0 ≤ ∑ i, ∑ o, (probas θ' (X i) o - probas θ (X i) o) * (lin θ' (X i) o - lin θ (X i) o) := Finset.sum_nonneg (fun i _ => (row_mono θ θ' (X i)).1)
  have hB0 : 0 ≤ ∑ j, ∑ o, (θ'.1 j o - θ.1 j o) ^ 2 := Finset.sum_nonneg (fun j _ => Finset.sum_nonneg (fun o _ => sq_nonneg _))
  have hB1 : 0 ≤ alpha / n * ∑ j, ∑ o, (θ'.1 j o - θ.1 j o) ^ 2 := mul_nonneg (div_nonneg ha hn'.le) hB0
  have hA1 := div_nonneg hA0 hn'.le
  have hAz : ∑ i, ∑ o, (probas θ' (X i) o - probas θ (X i) o) * (lin θ' (X i) o - lin θ (X i) o) = 0 := by
    have : (∑ i, ∑ o, (probas θ' (X i) o - probas θ (X i) o) * (lin θ' (X i) o - lin θ (X i) o)) / (n : ℝ) = 0 := by linarith
    rcases div_eq_zero_iff.1 this with g | g
    · exact g
    · exact absurd g hn'.ne'
  have htrain : ∀ i o, probas θ' (X i) o = probas θ (X i) o := fun i =>
    (row_mono θ θ' (X i)).2 ((Finset.sum_eq_zero_iff_of_nonneg (fun i _ => (row_mono θ θ' (X i)).1)).1 hAz i (Finset.mem_univ _))
  refine ⟨htrain, fun hpos => ?_⟩
  have hBz : ∑ j, ∑ o, (θ'.1 j o - θ.1 j o) ^ 2 = 0 := by
    have : alpha / n * ∑ j, ∑ o, (θ'.1 j o - θ.1 j o) ^ 2 = 0 := by linarith
    exact (mul_eq_zero.1 this).resolve_left (div_pos hpos hn').ne'
  have hcoef : ∀ j o, θ'.1 j o = θ.1 j o := by
    intro j o
    have hj := (Finset.sum_eq_zero_iff_of_nonneg (fun j _ => Finset.sum_nonneg (fun o _ => sq_nonneg _))).1 hBz j (Finset.mem_univ _)
    have ho := (Finset.sum_eq_zero_iff_of_nonneg (fun o _ => sq_nonneg _)).1 hj o (Finset.mem_univ _)
    have := pow_eq_zero_iff (two_ne_zero) |>.1 ho
    linarith
  refine ⟨hcoef, fun x o => ?_⟩
  have hlin : ∀ x o, lin θ' x o = lin θ x o + (θ'.2 o - θ.2 o) := by
    intro x o
    simp only [lin, hcoef]
    ring
  set i0 : Fin n := ⟨0, Nat.pos_of_ne_zero hn⟩
  by_cases hq : 1 < q
  · have hc : ∀ o, θ'.2 o - θ.2 o = Real.log (∑ k, Real.exp (lin θ' (X i0) k)) - Real.log (∑ k, Real.exp (lin θ (X i0) k)) := by
      intro o
      have e1 := (soft_log hq θ' (X i0) o).2
      have e2 := (soft_log hq θ (X i0) o).2
      rw [htrain i0 o, hlin] at e1
      linarith
    generalize Real.log (∑ k, Real.exp (lin θ' (X i0) k)) - Real.log (∑ k, Real.exp (lin θ (X i0) k)) = c at hc
    rw [probas_soft hq, probas_soft hq]
    simp only [hlin, hc, Real.exp_add, ← Finset.sum_mul]
    exact mul_div_mul_right _ _ (Real.exp_pos c).ne'
  · have hb : θ'.2 o = θ.2 o := by
      have e := htrain i0 o
      rw [probas_logi hq, probas_logi hq] at e
      have := logi_inj e
      rw [hlin] at this
      linarith
    rw [probas_logi hq, probas_logi hq, hlin, hb, sub_self, add_zero]

/-! ## Moving the data -/

/-- A change of the features: put in another order, some mirrored, and the whole shifted. -/
def moveRow {p : ℕ} (σ : Equiv.Perm (Fin p)) (ε t : Fin p → ℝ) (x : Fin p → ℝ) : Fin p → ℝ := fun j => ε j * x (σ j) + t j

/-- The parameters for moved data. -/
def moveParams {p q : ℕ} (σ : Equiv.Perm (Fin p)) (ε t : Fin p → ℝ) (τ : Equiv.Perm (Fin q)) (θ : Layer p q) : Layer p q :=
  (fun j o => ε j * θ.1 (σ j) (τ o), fun o => θ.2 (τ o) - ∑ j, t j * (ε j * θ.1 (σ j) (τ o)))

theorem lin_move {p q : ℕ} (σ : Equiv.Perm (Fin p)) (ε t : Fin p → ℝ) (hε : ∀ j, ε j * ε j = 1) (τ : Equiv.Perm (Fin q)) (θ : Layer p q) (x : Fin p → ℝ) (o : Fin q) :
    lin (moveParams σ ε t τ θ) (moveRow σ ε t x) o = lin θ x (τ o) := by
  simp only [lin, moveParams, moveRow]
  rw [← Equiv.sum_comp σ (fun j => x j * θ.1 j (τ o))]
  have : ∑ j, (ε j * x (σ j) + t j) * (ε j * θ.1 (σ j) (τ o)) = ∑ j, x (σ j) * θ.1 (σ j) (τ o) + ∑ j, t j * (ε j * θ.1 (σ j) (τ o)) := by
    rw [← Finset.sum_add_distrib]
    refine Finset.sum_congr rfl (fun j _ => ?_)
    linear_combination x (σ j) * θ.1 (σ j) (τ o) * hε j
  rw [this]
  ring

theorem probas_move {p q : ℕ} (σ : Equiv.Perm (Fin p)) (ε t : Fin p → ℝ) (hε : ∀ j, ε j * ε j = 1) (τ : Equiv.Perm (Fin q)) (θ : Layer p q) (x : Fin p → ℝ) (o : Fin q) :
    probas (moveParams σ ε t τ θ) (moveRow σ ε t x) o = probas θ x (τ o) := by
  by_cases hq : 1 < q
  · rw [probas_soft hq, probas_soft hq]
    simp only [lin_move σ ε t hε]
    rw [Equiv.sum_comp τ (fun k => Real.exp (lin θ x k))]
  · rw [probas_logi hq, probas_logi hq, lin_move σ ε t hε]

theorem stationary_move (alpha : ℝ) {n p q : ℕ} (σ : Equiv.Perm (Fin p)) (ε t : Fin p → ℝ) (hε : ∀ j, ε j * ε j = 1) (ρ : Equiv.Perm (Fin n)) (τ : Equiv.Perm (Fin q)) (X : Fin n → Fin p → ℝ) (y : Fin n → Fin q → ℝ)
    (θ : Layer p q) (h : Stationary alpha X y θ) : Stationary alpha (fun i => moveRow σ ε t (X (ρ i))) (fun i o => y (ρ i) (τ o)) (moveParams σ ε t τ θ) := by
  have h2 : ∀ o, ∑ i, (probas θ (X (ρ i)) (τ o) - y (ρ i) (τ o)) = ∑ i, (probas θ (X i) (τ o) - y i (τ o)) := fun o => Equiv.sum_comp ρ (fun i => probas θ (X i) (τ o) - y i (τ o))
  have hg2 : ∀ o, (∑ i, (probas θ (X i) o - y i o)) / (n : ℝ) = 0 := h.2
  have hg1 : ∀ j o, 1 / (n : ℝ) * (∑ i, X i j * (probas θ (X i) o - y i o)) + alpha / n * θ.1 j o = 0 := h.1
  constructor
  · intro j o
    simp only [grad, probas_move σ ε t hε]
    have e : ∑ i, moveRow σ ε t (X (ρ i)) j * (probas θ (X (ρ i)) (τ o) - y (ρ i) (τ o)) =
        ε j * ∑ i, X i (σ j) * (probas θ (X i) (τ o) - y i (τ o)) + t j * ∑ i, (probas θ (X i) (τ o) - y i (τ o)) := by
      rw [← h2 o, ← Equiv.sum_comp ρ (fun i => X i (σ j) * (probas θ (X i) (τ o) - y i (τ o))), Finset.mul_sum, Finset.mul_sum, ← Finset.sum_add_distrib]
      refine Finset.sum_congr rfl (fun i _ => ?_)
      simp only [moveRow]
      ring
    rw [e]
    simp only [moveParams]
    linear_combination ε j * hg1 (σ j) (τ o) + t j * hg2 (τ o)
  · intro o
    simp only [grad, probas_move σ ε t hε, h2]
    exact hg2 (τ o)

/-- **C202, moved data.** Rows in another order, features in another order, mirrored and with other origins, classes in another order: optimal parameters give every (moved) row the same probabilities as optimal
parameters for the data as they were. -/
theorem C202_moved {alpha : ℝ} (ha : 0 < alpha) {n p q : ℕ} (hn : n ≠ 0) (σ : Equiv.Perm (Fin p)) (ε t : Fin p → ℝ) (hε : ∀ j, ε j * ε j = 1) (ρ : Equiv.Perm (Fin n)) (τ : Equiv.Perm (Fin q))
    (X : Fin n → Fin p → ℝ) (y : Fin n → Fin q → ℝ) (θ θ' : Layer p q) (h : Stationary alpha X y θ) (h' : Stationary alpha (fun i => moveRow σ ε t (X (ρ i))) (fun i o => y (ρ i) (τ o)) θ') (x : Fin p → ℝ) (o : Fin q) :
    probas θ' (moveRow σ ε t x) o = probas θ x (τ o) := by
  rw [← probas_move σ ε t hε]
  exact ((C202_unique ha.le hn _ _ _ _ (stationary_move alpha σ ε t hε ρ τ X y θ h) h').2 ha).2 _ _

/-- **C202, copies.** Every row `k` times with `k` times the penalty: the same probabilities. (`f` tells of which row a row of the larger data set is a copy.) -/
theorem C202_copies {alpha : ℝ} (ha : 0 < alpha) {n N p q k : ℕ} (hn : n ≠ 0) (hk : k ≠ 0) (f : Fin N → Fin n) (hf : ∀ i, (Finset.univ.filter (fun i' => f i' = i)).card = k)
    (X : Fin n → Fin p → ℝ) (y : Fin n → Fin q → ℝ) (θ θ' : Layer p q) (h : Stationary alpha X y θ) (h' : Stationary (k * alpha) (fun i => X (f i)) (fun i => y (f i)) θ') (x : Fin p → ℝ) (o : Fin q) :
    probas θ' x o = probas θ x o := by
  have hsum : ∀ g : Fin n → ℝ, ∑ i', g (f i') = k * ∑ i, g i := by
    intro g
    rw [← Finset.sum_fiberwise (s := Finset.univ) (g := f) (f := fun i' => g (f i')), Finset.mul_sum]
    refine Finset.sum_congr rfl (fun i _ => ?_)
    rw [Finset.sum_congr rfl (g := fun _ => g i) (fun i' hi' => by rw [(Finset.mem_filter.1 hi').2]), Finset.sum_const, hf, nsmul_eq_mul]
  have hN : (N : ℝ) = k * n := by
    have := hsum (fun _ => 1)
    simpa using this
  have hk' : (0 : ℝ) < k := by exact_mod_cast Nat.pos_of_ne_zero hk
  have hn' : (0 : ℝ) < n := by exact_mod_cast Nat.pos_of_ne_zero hn
  have hN0 : N ≠ 0 := by
    rintro rfl
    have := mul_pos hk' hn'
    rw [← hN] at this
    simp at this
  refine ((C202_unique (mul_pos hk' ha).le hN0 _ _ θ θ' ⟨?_, ?_⟩ h').2 (mul_pos hk' ha)).2 x o
  · intro j o
    have hg : 1 / (n : ℝ) * (∑ i, X i j * (probas θ (X i) o - y i o)) + alpha / n * θ.1 j o = 0 := h.1 j o
    simp only [grad]
    rw [hsum (fun i => X i j * (probas θ (X i) o - y i o)), hN]
    have : 1 / ((k : ℝ) * n) * (k * ∑ i, X i j * (probas θ (X i) o - y i o)) + k * alpha / (k * n) * θ.1 j o = 1 / (n : ℝ) * (∑ i, X i j * (probas θ (X i) o - y i o)) + alpha / n * θ.1 j o := by
      field_simp
    rw [this, hg]
  · intro o
    have hg : (∑ i, (probas θ (X i) o - y i o)) / (n : ℝ) = 0 := h.2 o
    simp only [grad]
    rw [hsum (fun i => probas θ (X i) o - y i o), hN, mul_div_mul_left _ _ hk'.ne', hg]

/-- **C202, exchanged classes.** One output with targets 0 and 1: with 0 and 1 exchanged every row has the complementary probability. -/
theorem C202_exchange {alpha : ℝ} (ha : 0 < alpha) {n p : ℕ} (hn : n ≠ 0) (X : Fin n → Fin p → ℝ) (y : Fin n → Fin 1 → ℝ) (θ θ' : Layer p 1) (h : Stationary alpha X y θ) (h' : Stationary alpha X (fun i o => 1 - y i o) θ')
    (x : Fin p → ℝ) (o : Fin 1) : probas θ' x o = 1 - probas θ x o := by
  set θn : Layer p 1 := (fun j o => -θ.1 j o, fun o => -θ.2 o)
  have hp : ∀ x o, probas θn x o = 1 - probas θ x o := by
    intro x o
    have hl : lin θn x o = -lin θ x o := by
      simp only [lin, θn, mul_neg, Finset.sum_neg_distrib]
      ring
    rw [probas_logi (by norm_num), probas_logi (by norm_num), hl, neg_neg, Real.exp_neg]
    have := Real.exp_pos (lin θ x o)
    field_simp
    ring
  rw [← hp]
  refine ((C202_unique ha.le hn _ _ θn θ' ⟨?_, ?_⟩ h').2 ha).2 x o
  · intro j o
    have hg : 1 / (n : ℝ) * (∑ i, X i j * (probas θ (X i) o - y i o)) + alpha / n * θ.1 j o = 0 := h.1 j o
    simp only [grad, hp]
    have : ∑ i, X i j * (1 - probas θ (X i) o - (1 - y i o)) = -∑ i, X i j * (probas θ (X i) o - y i o) := by
      rw [← Finset.sum_neg_distrib]
      exact Finset.sum_congr rfl (fun i _ => by ring)
    rw [this]
    simp only [θn]
    linear_combination -hg
  · intro o
    have hg : (∑ i, (probas θ (X i) o - y i o)) / (n : ℝ) = 0 := h.2 o
    simp only [grad, hp]
    have : ∑ i, (1 - probas θ (X i) o - (1 - y i o)) = -∑ i, (probas θ (X i) o - y i o) := by
      rw [← Finset.sum_neg_distrib]
      exact Finset.sum_congr rfl (fun i _ => by ring)
    rw [this, neg_div, hg, neg_zero]

theorem lin_zero {p q : ℕ} (θ : Layer p q) (o : Fin q) : lin θ 0 o = θ.2 o := by simp [lin]

theorem lin_single {p q : ℕ} (θ : Layer p q) (j : Fin p) (o : Fin q) : lin θ (Pi.single j 1) o = θ.1 j o + θ.2 o := by
  simp only [lin]
  rw [Finset.sum_eq_single j]
  · simp
  · intro b _ hb; rw [Pi.single_eq_of_ne hb, zero_mul]
  · intro h; exact absurd (Finset.mem_univ j) h

/-- **C202 violated, names of two classes.** Two classes called 0 and 1 are fitted with one output, two classes with other names with two outputs, whose coefficients are both penalised: the optimum for the same data and
the same `Alpha` is another one. Unless all coefficients are zero, some row has other probabilities. -/
theorem C202_names_violated {alpha : ℝ} (ha : 0 < alpha) {n p : ℕ} (hn : n ≠ 0) (X : Fin n → Fin p → ℝ) (y : Fin n → ℝ) (θ : Layer p 1) (θ' : Layer p 2) (h : Stationary alpha X (fun i _ => y i) θ)
    (h' : Stationary alpha X (fun i o => if o = 1 then y i else 1 - y i) θ') (hne : ∃ j, θ.1 j 0 ≠ 0) : ∃ x, probas θ' x 1 ≠ probas θ x 0 := by
  by_contra hcon
  push Not at hcon
  obtain ⟨j, hj⟩ := hne
  have hn' : (0 : ℝ) < n := by exact_mod_cast Nat.pos_of_ne_zero hn
  have hsoft : ∀ x, probas θ' x 1 = 1 / (1 + Real.exp (-(lin θ' x 1 - lin θ' x 0))) := by
    intro x
    rw [probas_soft (by norm_num), Fin.sum_univ_two]
    have h0 := Real.exp_pos (lin θ' x 0)
    have h1 := Real.exp_pos (lin θ' x 1)
    rw [neg_sub, Real.exp_sub]
    field_simp
    ring
  have hlin : ∀ x, lin θ' x 1 - lin θ' x 0 = lin θ x 0 := by
    intro x
    have e := hcon x
    rw [hsoft, probas_logi (by norm_num)] at e
    exact logi_inj e
  have hw : θ'.1 j 1 - θ'.1 j 0 = θ.1 j 0 := by
    have e0 := hlin 0
    have e1 := hlin (Pi.single j 1)
    simp only [lin_zero] at e0
    simp only [lin_single] at e1
    linarith
  have hp0 : ∀ x, probas θ' x 0 = 1 - probas θ x 0 := by
    intro x
    have := soft_sum (by norm_num : 1 < 2) θ' x
    rw [Fin.sum_univ_two, hcon] at this
    linarith
  have g : 1 / (n : ℝ) * (∑ i, X i j * (probas θ (X i) 0 - y i)) + alpha / n * θ.1 j 0 = 0 := h.1 j 0
  have g1 : 1 / (n : ℝ) * (∑ i, X i j * (probas θ' (X i) 1 - y i)) + alpha / n * θ'.1 j 1 = 0 := by
    have := h'.1 j 1
    simpa only [grad, if_true] using this
  have g0 : 1 / (n : ℝ) * (∑ i, X i j * (probas θ' (X i) 0 - (1 - y i))) + alpha / n * θ'.1 j 0 = 0 := by
    have := h'.1 j 0
    simpa only [grad, if_neg (show (0 : Fin 2) ≠ 1 by decide)] using this
  simp only [hcon] at g1
  simp only [hp0] at g0
  have e0 : ∑ i, X i j * (1 - probas θ (X i) 0 - (1 - y i)) = -∑ i, X i j * (probas θ (X i) 0 - y i) := by
    rw [← Finset.sum_neg_distrib]
    exact Finset.sum_congr rfl (fun i _ => by ring)
  rw [e0] at g0
  have : alpha / n * θ.1 j 0 = 0 := by
    rw [← hw] at g ⊢
    linear_combination 2 * g - g1 + g0
  exact hj ((mul_eq_zero.1 this).resolve_left (div_pos ha hn').ne')

/-! ## C124 outside the clamp -/

/-- **C124 violated where probabilities are clamped.** One output, all rows of class 1, all probabilities below the bound `hmin` to which the loss raises them: the loss (without penalty) is the same for all such
parameters, while the gradient given to the minimiser is not zero; so it is not the gradient of the loss, and the loss does not tell these parameters from better ones. -/
theorem C124_clamp_violated {hmin hmax : ℝ} (h1 : hmin < 1) {n p : ℕ} (hn : n ≠ 0) (X : Fin n → Fin p → ℝ) (θ θ' : Layer p 1)
    (h : ∀ i, probas θ (X i) 0 < hmin) (h' : ∀ i, probas θ' (X i) 0 < hmin) :
    loss hmin hmax 0 X (fun _ _ => 1) θ' = loss hmin hmax 0 X (fun _ _ => 1) θ ∧ (grad 0 X (fun _ _ => 1) θ).2 0 < 0 := by
  have hn' : (0 : ℝ) < n := by exact_mod_cast Nat.pos_of_ne_zero hn
  constructor
  · have hc : ∀ θ : Layer p 1, (∀ i, probas θ (X i) 0 < hmin) → loss hmin hmax 0 X (fun _ _ => 1) θ = (∑ _i : Fin n, -Real.log hmin) / n := by
      intro θ h
      simp only [loss, dataLoss, outOf, if_neg (show ¬ (1 : ℕ) > 1 by norm_num), Fin.sum_univ_one, Mlp.clampP, if_pos (h _)]
      simp
    rw [hc θ h, hc θ' h']
  · simp only [grad]
    refine div_neg_of_neg_of_pos ?_ hn'
    refine Finset.sum_neg (fun i _ => ?_) ⟨⟨0, Nat.pos_of_ne_zero hn⟩, Finset.mem_univ _⟩
    linarith [h i]

/-- With the bound 1/4 (the code's is far smaller) the intercepts −log 9 and −log 99 are two such parameters. -/
example : ∀ v : ℝ, 3 < v → probas ((fun _ _ => 0, fun _ => -Real.log v) : Layer 1 1) (fun _ => 5) 0 < 1 / 4 := by
  intro v hv
  rw [probas_logi (by norm_num)]
  have : lin ((fun _ _ => 0, fun _ => -Real.log v) : Layer 1 1) (fun _ => 5) 0 = -Real.log v := by simp [lin]
  rw [this, neg_neg, Real.exp_log (by linarith)]
  exact one_div_lt_one_div_of_lt (by norm_num) (by linarith)

/-! ## C136 for logistic regression -/

/-- **C136, logistic regression.** `Fit` refuses exactly: `MaxIter` not positive, `Alpha` negative, `NIterNoChange` not positive.
Missing for the full claim: what `C136_nan_violated`, `C136_softmax_violated`, `C136_logistic_nan_violated` refute. -/
theorem C136_logistic_partial {K : Type} [Zero K] [LinearOrder K] (maxIter nIterNoChange : ℤ) (alpha : K) : validateLR maxIter (some alpha) nIterNoChange = true ↔ 0 < maxIter ∧ 0 ≤ alpha ∧ 0 < nIterNoChange := by
  simp [validateLR, and_assoc]

/-- **C136 violated, logistic regression.** `NaN` passes as `Alpha`. -/
theorem C136_logistic_nan_violated {K : Type} [Zero K] [LinearOrder K] (maxIter nIterNoChange : ℤ) (h1 : 0 < maxIter) (h2 : 0 < nIterNoChange) : validateLR (K := K) maxIter none nIterNoChange = true := by
  simp [validateLR, h1, h2]

/-- The defaults pass. -/
example : validateLR (K := ℤ) 200 (some 1) 10 = true ∧ validateLR (K := ℤ) 200 (some (-1)) 10 = false := by decide

/-! ## The hypotheses can be met: two samples 1 and −1 in the classes 1 and 0 -/

/-- The samples 1 and −1. -/
def exX : Fin 2 → Fin 1 → ℝ := fun i _ => if i = 0 then 1 else -1

/-- Their classes 1 and 0. -/
def exY : Fin 2 → ℝ := fun i => if i = 0 then 1 else 0

example : 0 < 1 / (2 * Real.log 3) ∧ Stationary (1 / (2 * Real.log 3)) exX (fun i _ => exY i) ((fun _ _ => Real.log 3, fun _ => 0) : Layer 1 1) ∧ Real.log 3 ≠ 0 := by
  have hl : 0 < Real.log 3 := Real.log_pos (by norm_num)
  have h1 : ∀ o, probas ((fun _ _ => Real.log 3, fun _ => 0) : Layer 1 1) (exX 0) o = 3 / 4 := by
    intro o
    rw [probas_logi (by norm_num)]
    simp [lin, exX, Real.exp_neg, Real.exp_log]
    norm_num
  have h2 : ∀ o, probas ((fun _ _ => Real.log 3, fun _ => 0) : Layer 1 1) (exX 1) o = 1 / 4 := by
    intro o
    rw [probas_logi (by norm_num)]
    simp [lin, exX, Real.exp_log]
    norm_num
  refine ⟨by positivity, ⟨fun j o => ?_, fun o => ?_⟩, hl.ne'⟩
  · simp only [grad, Fin.sum_univ_two, h1, h2]
    simp [exX, exY]
    field_simp
    norm_num
  · simp only [grad, Fin.sum_univ_two, h1, h2]
    simp [exY]
    norm_num

/-- Fitted with two outputs, these samples have an optimum too, whatever the penalty. -/
example (alpha : ℝ) (ha : 0 < alpha) : ∃ θ : Layer 1 2, Stationary alpha exX (fun i o => if o = 1 then exY i else 1 - exY i) θ := by
  obtain ⟨u, -, hu⟩ : ∃ u ∈ Set.Icc (0 : ℝ) (4 / alpha), 1 - 1 / (1 + Real.exp (-u)) - alpha * u / 4 = 0 := by
    have hc : ContinuousOn (fun u : ℝ => 1 - 1 / (1 + Real.exp (-u)) - alpha * u / 4) (Set.Icc 0 (4 / alpha)) := by
      refine Continuous.continuousOn ?_
      have : ∀ u : ℝ, 1 + Real.exp (-u) ≠ 0 := fun u => by positivity
      fun_prop (disch := assumption)
    have := intermediate_value_Icc' (by positivity) hc
    refine this ⟨?_, ?_⟩
    · have h1 : alpha * (4 / alpha) / 4 = 1 := by field_simp
      have h2 : 0 < 1 / (1 + Real.exp (-(4 / alpha))) := by positivity
      simp only [h1]
      linarith
    · simp
      norm_num
  have hlin : ∀ i o, lin ((fun _ o => if o = 1 then u / 2 else -(u / 2), fun _ => 0) : Layer 1 2) (exX i) o = (if i = 0 then 1 else -1) * (if o = 1 then u / 2 else -(u / 2)) := by
    intro i o
    simp [lin, exX]
  have hp : ∀ v : ℝ, Real.exp (v / 2) / (Real.exp (-(v / 2)) + Real.exp (v / 2)) = 1 / (1 + Real.exp (-v)) := by
    intro v
    have e : Real.exp (-v) = Real.exp (-(v / 2)) / Real.exp (v / 2) := by rw [← Real.exp_sub]; congr 1; ring
    rw [e]
    have := Real.exp_pos (v / 2)
    have := Real.exp_pos (-(v / 2))
    field_simp
    ring
  have hs : 1 / (1 + Real.exp u) = 1 - 1 / (1 + Real.exp (-u)) := by
    rw [Real.exp_neg]
    have := Real.exp_pos u
    field_simp
    ring
  refine ⟨(fun _ o => if o = 1 then u / 2 else -(u / 2), fun _ => 0), ?_⟩
  have q : ∀ i o, probas ((fun _ o => if o = 1 then u / 2 else -(u / 2), fun _ => 0) : Layer 1 2) (exX i) o = if (i = 0 ↔ o = 1) then 1 / (1 + Real.exp (-u)) else 1 / (1 + Real.exp u) := by
    intro i o
    rw [probas_soft (by norm_num), Fin.sum_univ_two, hlin, hlin, hlin]
    have h1 := hp u
    have h2 := hp (-u)
    rw [neg_div, neg_neg, neg_neg] at h2
    fin_cases i <;> fin_cases o <;> simp
    · rw [add_comm] at h2; simpa [add_comm] using h2
    · simpa [add_comm] using h1
    · simpa [add_comm] using h1
    · simpa [add_comm] using h2
  constructor
  · intro j o
    simp only [grad, Fin.sum_univ_two, q, hs]
    fin_cases o
    · simp [exX, exY]
      simp only [one_div] at hu
      linear_combination hu
    · simp [exX, exY]
      simp only [one_div] at hu
      linear_combination -hu
  · intro o
    simp only [grad, Fin.sum_univ_two, q, hs]
    fin_cases o <;> simp [exY]

end Sk.Logistic
