import Verif.Model.EnetFit
import Verif.Lemmas.Parallel
import Verif.Props.EnetCD
import Verif.Props.EnetMT
import Verif.Props.Linear

/-! # C121, C122, C123: the elastic-net estimator and the elastic-net path -/
set_option autoImplicit false

namespace Sk.EnetFit

variable {n p q : ℕ}

/-! ### C122: the estimator with an intercept -/

/-- `1/2 Σ (yᵢ - xᵢ·v - b)² + l1 Σ |sⱼ vⱼ| + l2/2 Σ (sⱼ vⱼ)²`: least squares with intercept, the penalty being on the coefficients in the units given by `s`. -/
noncomputable def cost (X : Fin n → Fin p → ℝ) (y : Fin n → ℝ) (l1 l2 : ℝ) (s : Fin p → ℝ) (v : Fin p → ℝ) (b : ℝ) : ℝ :=
  (∑ i, (y i - (∑ j, X i j * v j + b)) ^ 2) / 2 + l1 * ∑ j, |s j * v j| + l2 / 2 * ∑ j, (s j * v j) ^ 2

open Sk.Lin (colMean divisor Varies spread)

theorem divisor_pos (normalize : Bool) (X : Fin n → Fin p → ℝ) (h : normalize = true → ∀ j, Varies (fun i => X i j)) (j : Fin p) : 0 < divisor normalize X j := by
  unfold divisor
  split
  · exact Sk.Lin.spread_pos _ (h (by assumption) j)
  · exact one_pos

/-- The cost is the objective on the centred and scaled data, plus the cost of a wrong intercept. -/
theorem cost_split (X : Fin n → Fin p → ℝ) (y : Fin n → ℝ) (l1 l2 : ℝ) (s : Fin p → ℝ) (v : Fin p → ℝ) (b : ℝ) (hn : n ≠ 0) (hs : ∀ j, s j ≠ 0) :
    cost X y l1 l2 s v b = Sk.Enet.objective (fun i j => (X i j - colMean (fun i => X i j)) / s j) (fun i => y i - colMean y) l1 l2 (fun j => s j * v j) +
      n * (colMean y - (∑ j, colMean (fun i => X i j) * v j) - b) ^ 2 / 2 := by
  set d := colMean y - (∑ j, colMean (fun i => X i j) * v j) - b with hd
  set r : Fin n → ℝ := fun i => (y i - colMean y) - ∑ j, (X i j - colMean (fun i => X i j)) * v j with hr
  have e1 : ∀ i, y i - (∑ j, X i j * v j + b) = r i + d := by
    intro i
    have : ∑ j, (X i j - colMean (fun i => X i j)) * v j = ∑ j, X i j * v j - ∑ j, colMean (fun i => X i j) * v j := by
      rw [← Finset.sum_sub_distrib]
      exact Finset.sum_congr rfl (fun j _ => by ring)
    simp only [hr, hd, this]
    ring
  have e2 : ∀ i, (y i - colMean y) - ∑ j, (X i j - colMean (fun i => X i j)) / s j * (s j * v j) = r i := by
    intro i
    simp only [hr]
    congr 1
    apply Finset.sum_congr rfl
    intro j _
    have := hs j
    field_simp
  have e3 : ∑ i, r i = 0 := by
    simp only [hr]
    rw [Finset.sum_sub_distrib, Sk.Lin.sum_centred y hn, Finset.sum_comm]
    have : ∑ j, ∑ i, (X i j - colMean (fun i => X i j)) * v j = 0 := by
      apply Finset.sum_eq_zero
      intro j _
      rw [← Finset.sum_mul, Sk.Lin.sum_centred _ hn, zero_mul]
    rw [this, sub_zero]
  have e4 : ∑ i, (r i + d) ^ 2 = ∑ i, r i ^ 2 + n * d ^ 2 := by
    have : ∀ i, (r i + d) ^ 2 = r i ^ 2 + (2 * d * r i + d ^ 2) := fun i => by ring
    rw [Finset.sum_congr rfl (fun i _ => this i), Finset.sum_add_distrib, Finset.sum_add_distrib, ← Finset.mul_sum, e3, Finset.sum_const, Finset.card_univ, Fintype.card_fin, nsmul_eq_mul]
    ring
  unfold cost Sk.Enet.objective
  simp only [e1, e2, e4]
  ring

/-- What a fit with intercept returns. -/
theorem fitEN_eq (P : Params) (draws : ℕ → List (Fin p)) (before : Option (Fin p → ℝ)) (w : Fin p → ℝ) (old : ℝ) (X : Fin n → Fin p → ℝ) (y : Fin n → ℝ) (hi : P.fitIntercept = true)
    (hv : P.normalize = true → ∀ j, Varies (fun i => X i j)) (hw : (if P.warmStart then before else some (fun _ => 0)) = some w) :
    let r := Sk.Enet.enet (fun i j => (X i j - colMean (fun i => X i j)) / divisor P.normalize X j) (fun i => y i - colMean y) (P.alpha * P.l1Ratio * n) (P.alpha * (1 - P.l1Ratio) * n)
      P.maxIter P.tol P.positive draws w
    fitEN P draws before old X y = some ⟨⟨fun j => r.w j / divisor P.normalize X j, colMean y - ∑ j, colMean (fun i => X i j) * (r.w j / divisor P.normalize X j)⟩, r.gap, r.nIter⟩ := by
  intro r
  have hne : ¬ ∃ j, divisor P.normalize X j = 0 := by
    rintro ⟨j, hj⟩
    exact Sk.Lin.divisor_ne P.normalize X hv j hj
  unfold fitEN
  simp only [hw, Option.bind_some, hi, Sk.Lin.preprocess_true P.normalize X y hv, Sk.Lin.setIntercept, if_neg hne, if_true, Option.map_some]
  rfl

/-- The coefficients the descent starts from: zero, or with `WarmStart` those of the struct, which exist and meet the constraint of `Positive`. -/
def Start (P : Params) (before : Option (Fin p → ℝ)) (w : Fin p → ℝ) : Prop :=
  (if P.warmStart then before = some w else w = fun _ => 0) ∧ (P.positive = true → ∀ j, 0 ≤ w j)

theorem Start.eq {P : Params} {before : Option (Fin p → ℝ)} {w : Fin p → ℝ} (h : Start P before w) : (if P.warmStart then before else some (fun _ => 0)) = some w := by
  have h1 := h.1
  by_cases hw : P.warmStart = true
  · rw [if_pos hw] at h1 ⊢; exact h1
  · rw [if_neg hw] at h1 ⊢; rw [h1]

/-- C122: with `FitIntercept`, non-negative `Alpha`, `0 ≤ L1Ratio ≤ 1` and at least one iteration, the coefficients and intercept of the fitted model are within the reported `Gap` of
the best possible value of the penalised least-squares cost, over all coefficients (non-negative under `Positive`) and all intercepts; with `Normalize` the penalty is on the
coefficients of the normalised features. -/
theorem C122_fit (P : Params) (draws : ℕ → List (Fin p)) (before : Option (Fin p → ℝ)) (w : Fin p → ℝ) (old : ℝ) (X : Fin n → Fin p → ℝ) (y : Fin n → ℝ) (hn : n ≠ 0) (hi : P.fitIntercept = true)
    (hw : Start P before w) (hv : P.normalize = true → ∀ j, Varies (fun i => X i j)) (ha : 0 ≤ P.alpha) (hr0 : 0 ≤ P.l1Ratio) (hr1 : P.l1Ratio ≤ 1) (hit : 1 ≤ P.maxIter) :
    ∃ f, fitEN P draws before old X y = some f ∧ (P.positive = true → ∀ j, 0 ≤ f.coefs.coef j) ∧
      ∀ (v : Fin p → ℝ) (b : ℝ), (P.positive = true → ∀ j, 0 ≤ v j) →
        cost X y (P.alpha * P.l1Ratio * n) (P.alpha * (1 - P.l1Ratio) * n) (fun j => if P.normalize then spread (fun i => X i j) else 1) f.coefs.coef f.coefs.intercept ≤
          cost X y (P.alpha * P.l1Ratio * n) (P.alpha * (1 - P.l1Ratio) * n) (fun j => if P.normalize then spread (fun i => X i j) else 1) v b + f.gap := by
  have hl1 : 0 ≤ P.alpha * P.l1Ratio * n := by positivity
  have hl2 : 0 ≤ P.alpha * (1 - P.l1Ratio) * n := mul_nonneg (mul_nonneg ha (by linarith)) (Nat.cast_nonneg n)
  have hd := divisor_pos P.normalize X hv
  have heq := fitEN_eq P draws before w old X y hi hv hw.eq
  refine ⟨_, heq, ?_, ?_⟩
  · intro hp j
    obtain ⟨_, h2, _⟩ := Sk.Enet.C46_fit (fun i j => (X i j - colMean (fun i => X i j)) / divisor P.normalize X j) (fun i => y i - colMean y) (P.alpha * P.l1Ratio * n) (P.alpha * (1 - P.l1Ratio) * n)
      P.maxIter P.tol P.positive draws w hl1 hl2 hw.2
    exact div_nonneg (h2 hp j) (hd j).le
  · intro v b hvp
    have hg := Sk.Enet.C47_fit_partial (fun i j => (X i j - colMean (fun i => X i j)) / divisor P.normalize X j) (fun i => y i - colMean y) (P.alpha * P.l1Ratio * n) (P.alpha * (1 - P.l1Ratio) * n)
      P.maxIter P.tol P.positive draws w hl1 hl2 hit (fun j => divisor P.normalize X j * v j) (fun hp j => mul_nonneg (hd j).le (hvp hp j))
    have hc := cost_split X y (P.alpha * P.l1Ratio * n) (P.alpha * (1 - P.l1Ratio) * n) (divisor P.normalize X)
    have hc1 := hc v b hn (fun j => (hd j).ne')
    have hsq : 0 ≤ (n : ℝ) * (colMean y - (∑ j, colMean (fun i => X i j) * v j) - b) ^ 2 / 2 := by positivity
    set r := Sk.Enet.enet (fun i j => (X i j - colMean (fun i => X i j)) / divisor P.normalize X j) (fun i => y i - colMean y) (P.alpha * P.l1Ratio * n) (P.alpha * (1 - P.l1Ratio) * n)
      P.maxIter P.tol P.positive draws w with hr
    have hc2 := hc (fun j => r.w j / divisor P.normalize X j) (colMean y - ∑ j, colMean (fun i => X i j) * (r.w j / divisor P.normalize X j)) hn (fun j => (hd j).ne')
    have e : (fun j => divisor P.normalize X j * (r.w j / divisor P.normalize X j)) = r.w := by
      funext j
      have := (hd j).ne'
      field_simp
    rw [e] at hc2
    have e2 : colMean y - (∑ j, colMean (fun i => X i j) * (r.w j / divisor P.normalize X j)) - (colMean y - ∑ j, colMean (fun i => X i j) * (r.w j / divisor P.normalize X j)) = 0 := by ring
    rw [e2] at hc2
    have e3 : (fun j => if P.normalize then spread (fun i => X i j) else 1) = divisor P.normalize X := by
      funext j; rfl
    rw [e3]
    simp only at hg ⊢
    rw [hc1, hc2]
    linarith

/-- The hypotheses of `C122_fit` can be met with `Normalize`, without and with `WarmStart`. -/
example : ∃ (P : Params) (X : Fin 3 → Fin 1 → ℝ), P.fitIntercept = true ∧ P.normalize = true ∧ Start P none (fun _ : Fin 1 => 0) ∧ (∀ j, Varies (fun i => X i j)) ∧ 0 < P.alpha ∧ 0 < P.l1Ratio ∧ P.l1Ratio < 1 ∧ 1 ≤ P.maxIter :=
  ⟨⟨true, true, 1, 1 / 2, 1 / 1000, 100, false, true⟩, fun i _ => (i : ℕ), rfl, rfl, ⟨rfl, fun _ _ => le_rfl⟩, fun _ => ⟨0, 1, by simp⟩, by norm_num, by norm_num, by norm_num, by norm_num⟩
example : Start ⟨true, true, 1, 1 / 2, 1 / 1000, 100, true, true⟩ (some (fun _ : Fin 1 => 3)) (fun _ => 3) := ⟨rfl, fun _ _ => by norm_num⟩

/-- C122, without `FitIntercept`: the coefficients are within the reported `Gap` of the best value of the cost of models through the origin, whatever `Normalize` is; the intercept keeps the value it had
before the call. -/
theorem C122_no_intercept (P : Params) (draws : ℕ → List (Fin p)) (before : Option (Fin p → ℝ)) (w : Fin p → ℝ) (old : ℝ) (X : Fin n → Fin p → ℝ) (y : Fin n → ℝ) (hi : P.fitIntercept = false)
    (hw : Start P before w) (ha : 0 ≤ P.alpha) (hr0 : 0 ≤ P.l1Ratio) (hr1 : P.l1Ratio ≤ 1) (hit : 1 ≤ P.maxIter) :
    ∃ f, fitEN P draws before old X y = some f ∧ f.coefs.intercept = old ∧ (P.positive = true → ∀ j, 0 ≤ f.coefs.coef j) ∧
      ∀ v : Fin p → ℝ, (P.positive = true → ∀ j, 0 ≤ v j) →
        cost X y (P.alpha * P.l1Ratio * n) (P.alpha * (1 - P.l1Ratio) * n) (fun _ => 1) f.coefs.coef 0 ≤
          cost X y (P.alpha * P.l1Ratio * n) (P.alpha * (1 - P.l1Ratio) * n) (fun _ => 1) v 0 + f.gap := by
  have hl1 : 0 ≤ P.alpha * P.l1Ratio * n := by positivity
  have hl2 : 0 ≤ P.alpha * (1 - P.l1Ratio) * n := mul_nonneg (mul_nonneg ha (by linarith)) (Nat.cast_nonneg n)
  set r := Sk.Enet.enet X y (P.alpha * P.l1Ratio * n) (P.alpha * (1 - P.l1Ratio) * n) P.maxIter P.tol P.positive draws w with hr
  have heq : fitEN P draws before old X y = some ⟨⟨r.w, old⟩, r.gap, r.nIter⟩ := by
    unfold fitEN
    simp only [hw.eq, Option.bind_some, hi, Sk.Lin.preprocess, Sk.Lin.setIntercept, Bool.false_eq_true, if_false, one_ne_zero, exists_const_iff, and_false, div_one, Option.map_some]
    rfl
  have hc : ∀ v : Fin p → ℝ, cost X y (P.alpha * P.l1Ratio * n) (P.alpha * (1 - P.l1Ratio) * n) (fun _ => 1) v 0 =
      Sk.Enet.objective X y (P.alpha * P.l1Ratio * n) (P.alpha * (1 - P.l1Ratio) * n) v := by
    intro v
    simp only [cost, Sk.Enet.objective, add_zero, one_mul]
  refine ⟨_, heq, rfl, ?_, ?_⟩
  · intro hp j
    exact (Sk.Enet.C46_fit X y (P.alpha * P.l1Ratio * n) (P.alpha * (1 - P.l1Ratio) * n) P.maxIter P.tol P.positive draws w hl1 hl2 hw.2).2.1 hp j
  · intro v hvp
    have hg := Sk.Enet.C47_fit_partial X y (P.alpha * P.l1Ratio * n) (P.alpha * (1 - P.l1Ratio) * n) P.maxIter P.tol P.positive draws w hl1 hl2 hit v hvp
    rw [hc, hc]
    simp only at hg ⊢
    rw [← hr] at hg
    linarith

/-! ### C122 with several outputs -/

/-- `1/2 Σ (yᵢₒ - xᵢ·vₒ - bₒ)² + l1 Σⱼ ‖sⱼ Vⱼ‖ + l2/2 Σ (sⱼ Vⱼₒ)²`: least squares with one intercept per output, the penalty being on the rows of coefficients (one per feature) in the units given
by `s`. -/
noncomputable def costMT (X : Fin n → Fin p → ℝ) (Y : Fin n → Fin q → ℝ) (l1 l2 : ℝ) (s : Fin p → ℝ) (V : Fin p → Fin q → ℝ) (b : Fin q → ℝ) : ℝ :=
  (∑ i, ∑ o, (Y i o - (∑ j, X i j * V j o + b o)) ^ 2) / 2 + l1 * ∑ j, √(∑ o, (s j * V j o) ^ 2) + l2 / 2 * ∑ j, ∑ o, (s j * V j o) ^ 2

theorem costMT_split (X : Fin n → Fin p → ℝ) (Y : Fin n → Fin q → ℝ) (l1 l2 : ℝ) (s : Fin p → ℝ) (V : Fin p → Fin q → ℝ) (b : Fin q → ℝ) (hn : n ≠ 0) (hs : ∀ j, s j ≠ 0) :
    costMT X Y l1 l2 s V b =
      Sk.EnetMT.objective (fun i j => (X i j - colMean (fun i => X i j)) / s j) (fun i o => Y i o - colMean (fun i => Y i o)) l1 l2 (fun j o => s j * V j o) +
      ∑ o, n * (colMean (fun i => Y i o) - (∑ j, colMean (fun i => X i j) * V j o) - b o) ^ 2 / 2 := by
  have h : ∀ o, ∑ i, (Y i o - (∑ j, X i j * V j o + b o)) ^ 2 =
      ∑ i, (Y i o - colMean (fun i => Y i o) - ∑ j, (X i j - colMean (fun i => X i j)) / s j * (s j * V j o)) ^ 2 +
        2 * (n * (colMean (fun i => Y i o) - (∑ j, colMean (fun i => X i j) * V j o) - b o) ^ 2 / 2) := by
    intro o
    have := cost_split X (fun i => Y i o) 0 0 s (fun j => V j o) (b o) hn hs
    unfold cost Sk.Enet.objective at this
    linear_combination 2 * this
  unfold costMT Sk.EnetMT.objective
  rw [Finset.sum_comm, Finset.sum_congr rfl (fun o _ => h o), Finset.sum_add_distrib, ← Finset.mul_sum]
  rw [Finset.sum_comm (f := fun i o => (Y i o - colMean (fun i => Y i o) - ∑ j, (X i j - colMean (fun i => X i j)) / s j * (s j * V j o)) ^ 2)]
  ring

/-- C122, several outputs: with `FitIntercept` (and without `Positive`, which is not observed: `C120_ignored_violated`), the coefficients and intercepts of the fitted model are within the reported `Gap` of
the best possible value of the least-squares cost over all outputs, with the penalty on the rows of coefficients. -/
theorem C122_multi (P : Params) (draws : ℕ → List (Fin p)) (before : Option (Fin p → Fin q → ℝ)) (W : Fin p → Fin q → ℝ) (old : Fin q → ℝ) (X : Fin n → Fin p → ℝ) (Y : Fin n → Fin q → ℝ) (hn : n ≠ 0)
    (hi : P.fitIntercept = true) (hw : if P.warmStart then before = some W else W = fun _ _ => 0) (hv : P.normalize = true → ∀ j, Varies (fun i => X i j)) (ha : 0 ≤ P.alpha) (hr0 : 0 ≤ P.l1Ratio)
    (hr1 : P.l1Ratio ≤ 1) (hit : 1 ≤ P.maxIter) :
    ∃ f, fitMT P draws before old X Y = some f ∧ ∀ (V : Fin p → Fin q → ℝ) (b : Fin q → ℝ),
      costMT X Y (P.alpha * P.l1Ratio * n) (P.alpha * (1 - P.l1Ratio) * n) (fun j => if P.normalize then spread (fun i => X i j) else 1) (fun j o => (f.coefs o).coef j) (fun o => (f.coefs o).intercept) ≤
        costMT X Y (P.alpha * P.l1Ratio * n) (P.alpha * (1 - P.l1Ratio) * n) (fun j => if P.normalize then spread (fun i => X i j) else 1) V b + f.gap := by
  have hl1 : 0 ≤ P.alpha * P.l1Ratio * n := by positivity
  have hl2 : 0 ≤ P.alpha * (1 - P.l1Ratio) * n := mul_nonneg (mul_nonneg ha (by linarith)) (Nat.cast_nonneg n)
  have hd := divisor_pos P.normalize X hv
  have hst : (if P.warmStart then before else some (fun _ _ => 0)) = some W := by
    by_cases h : P.warmStart = true
    · rw [if_pos h] at hw ⊢; exact hw
    · rw [if_neg h] at hw ⊢; rw [hw]
  set r := Sk.EnetMT.enetMT (fun i j => (X i j - colMean (fun i => X i j)) / divisor P.normalize X j) (fun i o => Y i o - colMean (fun i => Y i o)) (P.alpha * P.l1Ratio * n) (P.alpha * (1 - P.l1Ratio) * n)
      P.maxIter P.tol P.positive draws W with hr
  have hne : ¬ ∃ j, divisor P.normalize X j = 0 := by
    rintro ⟨j, hj⟩
    exact Sk.Lin.divisor_ne P.normalize X hv j hj
  have heq : fitMT P draws before old X Y = some ⟨fun o => ⟨fun j => r.W j o / divisor P.normalize X j, colMean (fun i => Y i o) - ∑ j, colMean (fun i => X i j) * (r.W j o / divisor P.normalize X j)⟩,
      r.gap, r.nIter⟩ := by
    unfold fitMT
    simp only [hst, Option.bind_some, hi, Sk.Lin.preprocess_true P.normalize X _ hv, Sk.Lin.setIntercept, if_neg hne, if_true, Option.isSome_some, implies_true, dite_true, Option.get_some]
    rfl
  refine ⟨_, heq, ?_⟩
  intro V b
  have e3 : (fun j => if P.normalize then spread (fun i => X i j) else 1) = divisor P.normalize X := by
    funext j; rfl
  rw [e3, costMT_split X Y _ _ _ _ _ hn (fun j => (hd j).ne'), costMT_split X Y _ _ _ V b hn (fun j => (hd j).ne')]
  have hg := (Sk.EnetMT.C119_fit_partial (fun i j => (X i j - colMean (fun i => X i j)) / divisor P.normalize X j) (fun i o => Y i o - colMean (fun i => Y i o)) (P.alpha * P.l1Ratio * n)
    (P.alpha * (1 - P.l1Ratio) * n) P.maxIter P.tol P.positive draws W hl1 hl2 hit (fun j o => divisor P.normalize X j * V j o)).1
  rw [← hr] at hg
  have e : (fun j o => divisor P.normalize X j * (r.W j o / divisor P.normalize X j)) = r.W := by
    funext j o
    have := (hd j).ne'
    field_simp
  have hsq : 0 ≤ ∑ o, (n : ℝ) * (colMean (fun i => Y i o) - (∑ j, colMean (fun i => X i j) * V j o) - b o) ^ 2 / 2 := Finset.sum_nonneg (fun o _ => by positivity)
  simp only [e, sub_self]
  have hz : ∑ _o : Fin q, (n : ℝ) * 0 ^ 2 / 2 = 0 := by simp
  rw [hz]
  linarith

/-- C122, several outputs without `FitIntercept`: the same among models through the origin, whatever `Normalize` is; the intercepts keep the values they had before the call. -/
theorem C122_multi_no_intercept (P : Params) (draws : ℕ → List (Fin p)) (before : Option (Fin p → Fin q → ℝ)) (W : Fin p → Fin q → ℝ) (old : Fin q → ℝ) (X : Fin n → Fin p → ℝ) (Y : Fin n → Fin q → ℝ)
    (hi : P.fitIntercept = false) (hw : if P.warmStart then before = some W else W = fun _ _ => 0) (ha : 0 ≤ P.alpha) (hr0 : 0 ≤ P.l1Ratio) (hr1 : P.l1Ratio ≤ 1) (hit : 1 ≤ P.maxIter) :
    ∃ f, fitMT P draws before old X Y = some f ∧ (∀ o, (f.coefs o).intercept = old o) ∧ ∀ V : Fin p → Fin q → ℝ,
      costMT X Y (P.alpha * P.l1Ratio * n) (P.alpha * (1 - P.l1Ratio) * n) (fun _ => 1) (fun j o => (f.coefs o).coef j) (fun _ => 0) ≤
        costMT X Y (P.alpha * P.l1Ratio * n) (P.alpha * (1 - P.l1Ratio) * n) (fun _ => 1) V (fun _ => 0) + f.gap := by
  have hl1 : 0 ≤ P.alpha * P.l1Ratio * n := by positivity
  have hl2 : 0 ≤ P.alpha * (1 - P.l1Ratio) * n := mul_nonneg (mul_nonneg ha (by linarith)) (Nat.cast_nonneg n)
  have hst : (if P.warmStart then before else some (fun _ _ => 0)) = some W := by
    by_cases h : P.warmStart = true
    · rw [if_pos h] at hw ⊢; exact hw
    · rw [if_neg h] at hw ⊢; rw [hw]
  set r := Sk.EnetMT.enetMT X Y (P.alpha * P.l1Ratio * n) (P.alpha * (1 - P.l1Ratio) * n) P.maxIter P.tol P.positive draws W with hr
  have heq : fitMT P draws before old X Y = some ⟨fun o => ⟨fun j => r.W j o, old o⟩, r.gap, r.nIter⟩ := by
    unfold fitMT
    simp only [hst, Option.bind_some, hi, Sk.Lin.preprocess, Sk.Lin.setIntercept, Bool.false_eq_true, if_false, one_ne_zero, exists_const_iff, and_false, div_one, Option.isSome_some, implies_true, dite_true,
      Option.get_some]
    rfl
  refine ⟨_, heq, fun _ => rfl, ?_⟩
  intro V
  have hg := (Sk.EnetMT.C119_fit_partial X Y (P.alpha * P.l1Ratio * n) (P.alpha * (1 - P.l1Ratio) * n) P.maxIter P.tol P.positive draws W hl1 hl2 hit V).1
  rw [← hr] at hg
  have hc : ∀ V : Fin p → Fin q → ℝ, costMT X Y (P.alpha * P.l1Ratio * n) (P.alpha * (1 - P.l1Ratio) * n) (fun _ => 1) V (fun _ => 0) =
      Sk.EnetMT.objective X Y (P.alpha * P.l1Ratio * n) (P.alpha * (1 - P.l1Ratio) * n) V := by
    intro V
    simp only [costMT, Sk.EnetMT.objective, add_zero, one_mul]
  rw [hc, hc]
  simp only
  linarith

/-- The hypotheses of `C122_multi` can be met, with `Normalize`. -/
example : ∃ (P : Params) (X : Fin 3 → Fin 1 → ℝ), P.fitIntercept = true ∧ P.normalize = true ∧ (if P.warmStart then (none : Option (Fin 1 → Fin 2 → ℝ)) = some (fun _ _ => 0) else (fun (_ : Fin 1) (_ : Fin 2) => (0 : ℝ)) = fun _ _ => 0) ∧
    (∀ j, Varies (fun i => X i j)) ∧ 0 < P.alpha ∧ 0 < P.l1Ratio ∧ P.l1Ratio < 1 ∧ 1 ≤ P.maxIter :=
  ⟨⟨true, true, 1, 1 / 2, 1 / 1000, 100, false, true⟩, fun i _ => (i : ℕ), rfl, rfl, rfl, fun _ => ⟨0, 1, by simp⟩, by norm_num, by norm_num, by norm_num, by norm_num⟩

/-- C122, violated: with several outputs and `Positive`, the fitted coefficients are the targets whatever their sign (one sample, one feature, no intercept, no regularisation). -/
theorem C122_positive_violated (Y : Fin 1 → Fin q → ℝ) (tol : ℝ) : ∃ f, fitMT (n := 1) (p := 1) ⟨false, false, 0, 0, tol, 1, false, true⟩ (fun _ => List.finRange 1) none (fun _ => 0) (fun _ _ => 1) Y = some f ∧
    ∀ j o, (f.coefs o).coef j = Y j o := by
  have h := Sk.EnetMT.C120_negative_violated Y tol true
  set r := Sk.EnetMT.enetMT (n := 1) (p := 1) (fun _ _ => 1) Y 0 0 1 tol true (fun _ => List.finRange 1) (fun _ _ => 0) with hr
  refine ⟨⟨fun o => ⟨fun j => Y j o, 0⟩, r.gap, r.nIter⟩, ?_, fun _ _ => rfl⟩
  unfold fitMT
  simp only [Option.bind_some, Sk.Lin.preprocess, Sk.Lin.setIntercept, Bool.false_eq_true, if_false, one_ne_zero, exists_const_iff, and_false, div_one, zero_mul, Option.isSome_some, implies_true, dite_true,
    Option.get_some]
  rw [← hr, h]

/-! ### C123: warm start -/

/-- C123: without `Normalize`, a fit with `WarmStart` never ends with a larger cost than that of the coefficients it started from, with any intercept.
Missing for the full claim: what `C123_new_violated`, `C123_normalize_violated` refute. -/
theorem C123_warm_partial (P : Params) (draws : ℕ → List (Fin p)) (w : Fin p → ℝ) (old : ℝ) (X : Fin n → Fin p → ℝ) (y : Fin n → ℝ) (hn : n ≠ 0) (hi : P.fitIntercept = true)
    (hws : P.warmStart = true) (hno : P.normalize = false) (ha : 0 ≤ P.alpha) (hr0 : 0 ≤ P.l1Ratio) (hr1 : P.l1Ratio ≤ 1) (hw : P.positive = true → ∀ j, 0 ≤ w j) :
    ∃ f, fitEN P draws (some w) old X y = some f ∧ ∀ b : ℝ,
      cost X y (P.alpha * P.l1Ratio * n) (P.alpha * (1 - P.l1Ratio) * n) (fun _ => 1) f.coefs.coef f.coefs.intercept ≤
        cost X y (P.alpha * P.l1Ratio * n) (P.alpha * (1 - P.l1Ratio) * n) (fun _ => 1) w b := by
  have hl1 : 0 ≤ P.alpha * P.l1Ratio * n := by positivity
  have hl2 : 0 ≤ P.alpha * (1 - P.l1Ratio) * n := mul_nonneg (mul_nonneg ha (by linarith)) (Nat.cast_nonneg n)
  have hv : P.normalize = true → ∀ j, Varies (fun i => X i j) := by rw [hno]; intro h; cases h
  have heq := fitEN_eq P draws (some w) w old X y hi hv (by rw [hws]; rfl)
  have hd1 : ∀ j, divisor P.normalize X j = 1 := by intro j; simp [divisor, hno]
  simp only [hd1, div_one] at heq
  refine ⟨_, heq, ?_⟩
  intro b
  have hfit := (Sk.Enet.C46_fit (fun i j => X i j - colMean (fun i => X i j)) (fun i => y i - colMean y) (P.alpha * P.l1Ratio * n) (P.alpha * (1 - P.l1Ratio) * n)
      P.maxIter P.tol P.positive draws w hl1 hl2 hw).1
  have hc := cost_split X y (P.alpha * P.l1Ratio * n) (P.alpha * (1 - P.l1Ratio) * n) (fun _ => 1)
  simp only [div_one, one_mul] at hc
  have hsq : 0 ≤ (n : ℝ) * (colMean y - (∑ j, colMean (fun i => X i j) * w j) - b) ^ 2 / 2 := by positivity
  have hc1 := hc w b hn (fun _ => one_ne_zero)
  set r := Sk.Enet.enet (fun i j => X i j - colMean (fun i => X i j)) (fun i => y i - colMean y) (P.alpha * P.l1Ratio * n) (P.alpha * (1 - P.l1Ratio) * n)
      P.maxIter P.tol P.positive draws w with hr
  have hc2 := hc r.w (colMean y - ∑ j, colMean (fun i => X i j) * r.w j) hn (fun _ => one_ne_zero)
  simp only
  rw [hc1, hc2, sub_self]
  linarith

/-- C123, violated: on a new estimator (no coefficients yet) a fit with `WarmStart` panics, whatever the data. -/
theorem C123_new_violated (P : Params) (draws : ℕ → List (Fin p)) (old : ℝ) (X : Fin n → Fin p → ℝ) (y : Fin n → ℝ) (hws : P.warmStart = true) : fitEN P draws none old X y = none := by
  simp [fitEN, hws]

/-- C123, violated: with `Normalize`, a warm start does not start from the model found before: even a refit with no iteration divides every coefficient once more by the spread of its
feature. -/
theorem C123_normalize_violated (P : Params) (draws : ℕ → List (Fin p)) (w : Fin p → ℝ) (old : ℝ) (X : Fin n → Fin p → ℝ) (y : Fin n → ℝ) (hi : P.fitIntercept = true)
    (hws : P.warmStart = true) (hno : P.normalize = true) (hv : ∀ j, Varies (fun i => X i j)) (hit : P.maxIter = 0) :
    ∃ f, fitEN P draws (some w) old X y = some f ∧ ∀ j, f.coefs.coef j = w j / spread (fun i => X i j) := by
  have heq := fitEN_eq P draws (some w) w old X y hi (fun _ => hv) (by rw [hws]; rfl)
  refine ⟨_, heq, ?_⟩
  intro j
  simp only [Sk.Enet.enet, hit, Sk.Enet.loop, divisor, hno, if_true]

/-! ### C121: the path -/

/-- With one output the cost of `Sk.EnetMT` is that of `Sk.Enet`. -/
theorem objective_one (X : Fin n → Fin p → ℝ) (Y : Fin n → Fin 1 → ℝ) (l1 l2 : ℝ) (W : Fin p → Fin 1 → ℝ) :
    Sk.EnetMT.objective X Y l1 l2 W = Sk.Enet.objective X (fun i => Y i 0) l1 l2 (fun j => W j 0) := by
  simp [Sk.EnetMT.objective, Sk.Enet.objective, Real.sqrt_sq_eq_abs]

theorem mem_worker {X : Fin n → Fin p → ℝ} {Y : Fin n → Fin q → ℝ} {l1Ratio eps : ℝ} {positive : Bool} {i : ℕ} {alpha : ℝ} {a : Sk.Parallel.Act (Slot p q)}
    (h : a ∈ worker X Y l1Ratio eps positive i alpha) : a.idx = i := by
  simp only [worker, List.mem_cons, List.not_mem_nil, or_false] at h
  rcases h with h | h | h <;> rw [h]

theorem flatten_filter (X : Fin n → Fin p → ℝ) (Y : Fin n → Fin q → ℝ) (l1Ratio eps : ℝ) (positive : Bool) (l : List ℝ) : ∀ (k i : ℕ),
    ((l.mapIdx (fun j a => worker X Y l1Ratio eps positive (k + j) a)).flatten).filter (fun a => decide (a.idx = k + i)) = match l[i]? with
      | some a => worker X Y l1Ratio eps positive (k + i) a
      | none => [] := by
  induction l with
  | nil => intro k i; simp
  | cons a l ih =>
    intro k i
    rw [List.mapIdx_cons, List.flatten_cons, List.filter_append]
    have hshift : (l.mapIdx (fun j b => worker X Y l1Ratio eps positive (k + (j + 1)) b)) = l.mapIdx (fun j b => worker X Y l1Ratio eps positive (k + 1 + j) b) := by
      congr 1
      funext j b
      rw [show k + (j + 1) = k + 1 + j by omega]
    rw [hshift]
    cases i with
    | zero =>
      have h1 : (worker X Y l1Ratio eps positive (k + 0) a).filter (fun b => decide (b.idx = k + 0)) = worker X Y l1Ratio eps positive (k + 0) a := by
        rw [List.filter_eq_self]
        intro b hb
        simp [mem_worker hb]
      have h2 : ((l.mapIdx (fun j b => worker X Y l1Ratio eps positive (k + 1 + j) b)).flatten).filter (fun b => decide (b.idx = k + 0)) = [] := by
        rw [List.filter_eq_nil_iff]
        intro b hb
        rw [List.mem_flatten] at hb
        obtain ⟨w, hw, hb⟩ := hb
        rw [List.mem_mapIdx] at hw
        obtain ⟨j, _, hw⟩ := hw
        rw [← hw] at hb
        rw [mem_worker hb]
        simp
        omega
      rw [h1, h2]
      simp
    | succ i =>
      have h1 : (worker X Y l1Ratio eps positive (k + 0) a).filter (fun b => decide (b.idx = k + (i + 1))) = [] := by
        rw [List.filter_eq_nil_iff]
        intro b hb
        rw [mem_worker hb]
        simp
      rw [h1, List.nil_append]
      have := ih (k + 1) i
      rw [show k + 1 + i = k + (i + 1) by omega] at this
      rw [this]
      simp

/-- Under any schedule, entry `i` of the results is that of the fit for alpha number `i`. -/
theorem path_slot (X : Fin n → Fin p → ℝ) (Y : Fin n → Fin q → ℝ) (l1Ratio eps : ℝ) (nAlphas : ℕ) (given : Option (List ℝ)) (positive : Bool) (out : ℕ → Slot p q)
    (h : PathResult X Y l1Ratio eps nAlphas given positive out) (i : ℕ) (a : ℝ) (ha : (pathAlphas X Y l1Ratio eps nAlphas given)[i]? = some a) :
    out i = ⟨some (pathFit X Y l1Ratio eps positive a).1, (pathFit X Y l1Ratio eps positive a).2.1, (pathFit X Y l1Ratio eps positive a).2.2⟩ := by
  set l := pathAlphas X Y l1Ratio eps nAlphas given with hl
  have hown : Sk.Parallel.OwnCells (l.mapIdx (worker X Y l1Ratio eps positive)) := by
    unfold Sk.Parallel.OwnCells
    rw [List.pairwise_iff_getElem]
    intro i j hi hj hij x hx y hy
    rw [List.getElem_mapIdx] at hx hy
    rw [mem_worker hx, mem_worker hy]
    omega
  rw [Sk.Parallel.run_cell h hown i, Sk.Parallel.runSeq_cell]
  have hf := flatten_filter X Y l1Ratio eps positive l 0 i
  simp only [Nat.zero_add] at hf
  have e : (l.mapIdx (fun j a => worker X Y l1Ratio eps positive j a)) = l.mapIdx (worker X Y l1Ratio eps positive) := rfl
  rw [e] at hf
  rw [hf, ha]
  rfl

/-- C121 (partial): for non-negative alphas, whatever the schedule of the goroutines, the coefficients returned at position `i` belong to the alpha at position `i`: they are
within the gap returned at position `i` of the best cost for that alpha, over all coefficients (non-negative ones with `positive` and one output), and their number of iterations is
between 1 and 1001.
Missing for the full claim: what `C121_dropped_violated`, `C121_padded_violated`, `C121_null_violated` refute. -/
theorem C121_path_partial (X : Fin n → Fin p → ℝ) (Y : Fin n → Fin q → ℝ) (l1Ratio eps : ℝ) (nAlphas : ℕ) (given : Option (List ℝ)) (positive : Bool) (out : ℕ → Slot p q)
    (h : PathResult X Y l1Ratio eps nAlphas given positive out) (hr0 : 0 ≤ l1Ratio) (hr1 : l1Ratio ≤ 1) (i : ℕ) (a : ℝ) (ha : (pathAlphas X Y l1Ratio eps nAlphas given)[i]? = some a)
    (ha0 : 0 ≤ a) :
    ∃ W, (out i).coef = some W ∧ (positive = true → q = 1 → ∀ j o, 0 ≤ W j o) ∧ 1 ≤ (out i).nIter ∧ (out i).nIter ≤ 1001 ∧
      ∀ V : Fin p → Fin q → ℝ, (positive = true → q = 1 → ∀ j o, 0 ≤ V j o) →
        Sk.EnetMT.objective X Y (a * l1Ratio * n) (a * (1 - l1Ratio) * n) W ≤ Sk.EnetMT.objective X Y (a * l1Ratio * n) (a * (1 - l1Ratio) * n) V + (out i).gap := by
  have hl1 : 0 ≤ a * l1Ratio * n := by positivity
  have hl2 : 0 ≤ a * (1 - l1Ratio) * n := mul_nonneg (mul_nonneg ha0 (by linarith)) (Nat.cast_nonneg n)
  rw [path_slot X Y l1Ratio eps nAlphas given positive out h i a ha]
  by_cases hq : q = 1
  · subst hq
    simp only [pathFit, dif_pos]
    refine ⟨_, rfl, ?_, ?_, ?_, ?_⟩
    · intro hp _ j o
      exact (Sk.Enet.C46_fit X (fun i => Y i 0) (a * l1Ratio * n) (a * (1 - l1Ratio) * n) 1000 eps positive (fun _ => List.finRange p) (fun _ => 0) hl1 hl2 (fun _ _ => le_rfl)).2.1 hp j
    · exact (Sk.Enet.C88_partial X (fun i => Y i 0) (a * l1Ratio * n) (a * (1 - l1Ratio) * n) 1000 eps positive (fun _ => List.finRange p) (fun _ => 0) hl1 hl2 (fun _ _ => le_rfl)).1
    · exact (Sk.Enet.C88_partial X (fun i => Y i 0) (a * l1Ratio * n) (a * (1 - l1Ratio) * n) 1000 eps positive (fun _ => List.finRange p) (fun _ => 0) hl1 hl2 (fun _ _ => le_rfl)).2.1
    · intro V hV
      rw [objective_one, objective_one]
      have := Sk.Enet.C47_fit_partial X (fun i => Y i 0) (a * l1Ratio * n) (a * (1 - l1Ratio) * n) 1000 eps positive (fun _ => List.finRange p) (fun _ => 0) hl1 hl2 (by norm_num)
        (fun j => V j 0) (fun hp j => hV hp trivial j 0)
      simp only at this
      exact sub_le_iff_le_add'.1 this
  · simp only [pathFit, dif_neg hq]
    have hfit := fun V => Sk.EnetMT.C119_fit_partial X Y (a * l1Ratio * n) (a * (1 - l1Ratio) * n) 1000 eps positive (fun _ => List.finRange p) (fun _ _ => 0) hl1 hl2 (by norm_num) V
    refine ⟨_, rfl, ?_, ?_, ?_, ?_⟩
    · intro _ h1
      exact absurd h1 hq
    · exact (hfit (fun _ _ => 0)).2.2.1
    · exact (hfit (fun _ _ => 0)).2.2.2.1
    · intro V _
      exact sub_le_iff_le_add'.1 (hfit V).1

theorem gridLoop_get (incp : ℝ) (k : ℕ) : ∀ (p : ℝ) (i : ℕ), i < k → (gridLoop incp k p)[i]? = some ((10 : ℝ) ^ (p + i * incp)) := by
  induction k with
  | zero => intro p i h; omega
  | succ k ih =>
    intro p i h
    cases i with
    | zero => simp [gridLoop]
    | succ i =>
      simp only [gridLoop, List.getElem?_cons_succ]
      rw [ih (p + incp) i (by omega)]
      congr 2
      push_cast
      ring

theorem gridLoop_length (incp : ℝ) (k : ℕ) : ∀ p : ℝ, (gridLoop incp k p).length = k := by
  induction k with
  | zero => intro p; rfl
  | succ k ih => intro p; simp [gridLoop, ih]

theorem ten_pow_log10 (x : ℝ) (hx : 0 < x) : (10 : ℝ) ^ log10 x = x := by
  unfold log10
  rw [Real.rpow_def_of_pos (by norm_num)]
  have h10 : Real.log 10 ≠ 0 := by
    have : 0 < Real.log 10 := Real.log_pos (by norm_num)
    exact this.ne'
  rw [mul_div_cancel₀ _ h10, Real.exp_log hx]

/-- The largest norm of a row of data (inputs followed by targets). -/
def IsGreatestRowNorm (X : Fin n → Fin p → ℝ) (Y : Fin n → Fin q → ℝ) (m : ℝ) : Prop :=
  (∃ i, m = √((∑ j, X i j ^ 2) + ∑ o, Y i o ^ 2)) ∧ ∀ i, √((∑ j, X i j ^ 2) + ∑ o, Y i o ^ 2) ≤ m

theorem lmax_mem (l : List ℝ) : Sk.EnetMT.lmax l = 0 ∨ Sk.EnetMT.lmax l ∈ l := by
  have key : ∀ (l : List ℝ) (a : ℝ), l.foldl (fun m v => if m < v then v else m) a = a ∨ l.foldl (fun m v => if m < v then v else m) a ∈ l := by
    intro l
    induction l with
    | nil => intro a; left; rfl
    | cons b l ih =>
      intro a
      rw [List.foldl_cons]
      rcases ih (if a < b then b else a) with h | h
      · rw [h]
        by_cases hab : a < b
        · rw [if_pos hab]; right; exact List.mem_cons_self
        · rw [if_neg hab]; left; rfl
      · right; exact List.mem_cons_of_mem _ h
  exact key l 0

theorem alphaMax_eq (X : Fin n → Fin p → ℝ) (Y : Fin n → Fin q → ℝ) (l1Ratio m : ℝ) (hm : IsGreatestRowNorm X Y m) : alphaMax X Y l1Ratio = m * (n * l1Ratio) := by
  unfold alphaMax
  congr 1
  obtain ⟨h0, h1⟩ := Sk.EnetMT.lmax_ge (List.ofFn (fun i => √((∑ j, X i j ^ 2) + ∑ o, Y i o ^ 2)))
  obtain ⟨⟨i, hi⟩, h2⟩ := hm
  apply le_antisymm
  · rcases lmax_mem (List.ofFn (fun i => √((∑ j, X i j ^ 2) + ∑ o, Y i o ^ 2))) with h | h
    · rw [h, hi]; exact Real.sqrt_nonneg _
    · rw [List.mem_ofFn] at h
      obtain ⟨k, hk⟩ := h
      rw [← hk]; exact h2 k
  · apply h1
    rw [List.mem_ofFn]
    exact ⟨i, hi.symm⟩

/-- C121 (partial): with no alphas given, `EnetPath` uses `NAlphas` alphas in geometric progression from `eps` times the largest one to the largest one, which is the number of
samples times `L1Ratio` times the largest norm of a row of data.
Missing for the full claim: what `C121_dropped_violated`, `C121_padded_violated`, `C121_null_violated` refute. -/
theorem C121_grid_partial (X : Fin n → Fin p → ℝ) (Y : Fin n → Fin q → ℝ) (l1Ratio eps m : ℝ) (nAlphas : ℕ) (hm : IsGreatestRowNorm X Y m) (hm0 : 0 < m) (hr : 0 < l1Ratio) (he : 0 < eps)
    (hN : 2 ≤ nAlphas) :
    (pathAlphas X Y l1Ratio eps nAlphas none).length = nAlphas ∧
      (∀ i < nAlphas, (pathAlphas X Y l1Ratio eps nAlphas none)[i]? = some (n * l1Ratio * m * eps * (1 / eps) ^ ((i : ℝ) / ((nAlphas : ℝ) - 1)))) ∧
      (pathAlphas X Y l1Ratio eps nAlphas none)[0]? = some (n * l1Ratio * m * eps) ∧ (pathAlphas X Y l1Ratio eps nAlphas none)[nAlphas - 1]? = some (n * l1Ratio * m) := by
  have hn : 0 < n := by
    obtain ⟨⟨i, _⟩, _⟩ := hm
    exact i.pos
  have hnR : (0 : ℝ) < n := Nat.cast_pos.2 hn
  have hA : 0 < m * (n * l1Ratio) := by positivity
  have hget : ∀ i < nAlphas, (pathAlphas X Y l1Ratio eps nAlphas none)[i]? = some (n * l1Ratio * m * eps * (1 / eps) ^ ((i : ℝ) / ((nAlphas : ℝ) - 1))) := by
    intro i hi
    simp only [pathAlphas, alphaGrid, alphaMax_eq X Y l1Ratio m hm]
    rw [gridLoop_get _ _ _ _ hi]
    congr 1
    rw [Real.rpow_add (by norm_num), ten_pow_log10 _ (by positivity)]
    have e1 : log10 (m * (n * l1Ratio)) - log10 (m * (n * l1Ratio) * eps) = log10 (1 / eps) := by
      unfold log10
      rw [← sub_div, ← Real.log_div hA.ne' (by positivity)]
      congr 2
      field_simp
    rw [e1]
    have e2 : (i : ℝ) * (log10 (1 / eps) / ((nAlphas : ℝ) - 1)) = log10 (1 / eps) * ((i : ℝ) / ((nAlphas : ℝ) - 1)) := by ring
    rw [e2, Real.rpow_mul (by norm_num), ten_pow_log10 _ (by positivity)]
    ring
  refine ⟨by simp only [pathAlphas, alphaGrid]; exact gridLoop_length _ _ _, hget, ?_, ?_⟩
  · rw [hget 0 (by omega)]
    simp
  · rw [hget (nAlphas - 1) (by omega)]
    congr 1
    have e : ((nAlphas - 1 : ℕ) : ℝ) = (nAlphas : ℝ) - 1 := by
      rw [Nat.cast_sub (by omega)]; simp
    have hne : (nAlphas : ℝ) - 1 ≠ 0 := by
      have : (2 : ℝ) ≤ nAlphas := by exact_mod_cast hN
      linarith
    rw [e, div_self hne, Real.rpow_one]
    field_simp

/-- The hypotheses of `C121_grid_partial` can be met: one sample with input 3 and target 4. -/
example : IsGreatestRowNorm (n := 1) (p := 1) (q := 1) (fun _ _ => 3) (fun _ _ => 4) 5 := by
  have : √((3 : ℝ) ^ 2 + 4 ^ 2) = 5 := by
    rw [show (3 : ℝ) ^ 2 + 4 ^ 2 = 5 ^ 2 by norm_num]
    exact Real.sqrt_sq (by norm_num)
  refine ⟨⟨0, ?_⟩, ?_⟩
  · simp [this]
  · intro i; simp [this]

/-- C121: as many alphas as `NAlphas` are used as given, and the path has one entry for each.
Missing for the full claim: what `C121_dropped_violated`, `C121_padded_violated`, `C121_null_violated` refute. -/
theorem C121_given_partial (X : Fin n → Fin p → ℝ) (Y : Fin n → Fin q → ℝ) (l1Ratio eps : ℝ) (l : List ℝ) : pathAlphas X Y l1Ratio eps l.length (some l) = l := by
  simp [pathAlphas]

/-- C121, violated: alphas beyond `NAlphas` are dropped. -/
theorem C121_dropped_violated (X : Fin n → Fin p → ℝ) (Y : Fin n → Fin q → ℝ) (l1Ratio eps : ℝ) (l : List ℝ) (nAlphas : ℕ) (h : nAlphas < l.length) :
    pathAlphas X Y l1Ratio eps nAlphas (some l) = l.take nAlphas ∧ pathAlphas X Y l1Ratio eps nAlphas (some l) ≠ l := by
  have e : pathAlphas X Y l1Ratio eps nAlphas (some l) = l.take nAlphas := by
    simp only [pathAlphas]
    rw [show nAlphas - l.length = 0 by omega]
    simp
  refine ⟨e, ?_⟩
  rw [e]
  intro hh
  have := congrArg List.length hh
  rw [List.length_take] at this
  omega

/-- C121, violated: with fewer alphas than `NAlphas`, the missing ones are fitted with alpha 0, that is without any regularisation. -/
theorem C121_padded_violated (X : Fin n → Fin p → ℝ) (Y : Fin n → Fin q → ℝ) (l1Ratio eps : ℝ) (l : List ℝ) (nAlphas i : ℕ) (h : l.length ≤ i) (h2 : i < nAlphas) :
    (pathAlphas X Y l1Ratio eps nAlphas (some l))[i]? = some 0 := by
  simp only [pathAlphas]
  have e : l.take nAlphas = l := List.take_of_length_le (by omega)
  rw [e, List.getElem?_append_right h, List.getElem?_replicate]
  rw [if_pos (by omega)]

/-- C121, violated: the largest alpha of the automatic grid does not depend on the correlation of features and target, so it need not be one at which all coefficients vanish.  For
one sample whose input and target are both `t > 2`, the coefficient at the largest alpha is not zero, under any schedule. -/
theorem C121_null_violated (t eps : ℝ) (ht : 2 < t) (he : 0 < eps) (nAlphas : ℕ) (hN : 2 ≤ nAlphas) (positive : Bool) (out : ℕ → Slot 1 1)
    (h : LassoPathResult (n := 1) (fun _ _ => t) (fun _ _ => t) eps nAlphas none positive out) : ∃ W, (out (nAlphas - 1)).coef = some W ∧ W 0 0 ≠ 0 := by
  have ht0 : 0 < t := by linarith
  have hm : IsGreatestRowNorm (n := 1) (p := 1) (q := 1) (fun _ _ => t) (fun _ _ => t) (√2 * t) := by
    have e : √(t ^ 2 + t ^ 2) = √2 * t := by
      rw [← two_mul, Real.sqrt_mul (by norm_num), Real.sqrt_sq ht0.le]
    refine ⟨⟨0, ?_⟩, ?_⟩
    · simp [e]
    · intro i; simp [e]
  have hs2 : √2 < 2 := by
    rw [Real.sqrt_lt' (by norm_num)]; norm_num
  have hs0 : 0 < √2 := Real.sqrt_pos.2 (by norm_num)
  obtain ⟨_, _, _, hlast⟩ := C121_grid_partial (fun _ _ => t) (fun _ _ => t) 1 eps (√2 * t) nAlphas hm (by positivity) one_pos he hN
  have hslot := path_slot _ _ 1 eps nAlphas none positive out h (nAlphas - 1) _ hlast
  rw [hslot]
  refine ⟨_, rfl, ?_⟩
  simp only [pathFit, dif_pos, Nat.cast_one, one_mul, mul_one, sub_self, mul_zero]
  set X : Fin 1 → Fin 1 → ℝ := fun _ _ => t
  set y : Fin 1 → ℝ := fun _ => t
  set a : ℝ := √2 * t with ha
  have ha0 : 0 ≤ a := by positivity
  intro hw
  -- the objective after the first sweep is below that of zero
  set s0 : Sk.Enet.St 1 1 ℝ := ⟨fun _ => 0, fun i => y i - ∑ j, X i j * 0⟩ with hs
  have htr : Sk.Enet.Tracks X y s0 := fun _ => rfl
  have hlow : ∀ k it gap, k ≠ 0 → Sk.Enet.objective X y a 0 (Sk.Enet.loop X y a 0 eps (eps * ∑ i, y i * y i) positive (fun _ => List.finRange 1) k it s0 gap).st.w <
      Sk.Enet.objective X y a 0 (fun _ => 0) := by
    intro k it gap hk
    obtain ⟨k, rfl⟩ := Nat.exists_eq_succ_of_ne_zero hk
    have hnc : Sk.Enet.normCol X 0 ≠ 0 := by simp [Sk.Enet.normCol, X, ht0.ne']
    have hsw : (Sk.Enet.sweep X a 0 positive (List.finRange 1) (s0, 0, 0)).1 = Sk.Enet.coord X a 0 positive s0 0 := by
      have e : List.finRange 1 = [0] := by decide
      rw [e]
      simp only [Sk.Enet.sweep, if_neg hnc]
    obtain ⟨h1, _, h3, h4⟩ := Sk.Enet.C46_step X y a 0 positive s0 0 ha0 le_rfl htr ⟨0, ht0.ne'⟩
    have hJ : Sk.Enet.objective X y a 0 (Sk.Enet.coord X a 0 positive s0 0).w < Sk.Enet.objective X y a 0 (fun _ => 0) := by
      have hz := h4 (1 - √2 / t) (fun _ => by
        have : √2 / t ≤ 1 := by rw [div_le_one ht0]; linarith
        linarith)
      refine lt_of_le_of_lt hz ?_
      have hd : √2 / t < 1 := by rw [div_lt_one ht0]; linarith
      have he1 : t * (√2 / t) = √2 := by field_simp
      have hpos : 0 < 1 - √2 / t := by linarith
      simp only [Sk.Enet.objective, Fin.sum_univ_one, Finset.univ_unique, Finset.sum_singleton, Function.update_self, X, y, abs_of_pos hpos, abs_zero, Fin.default_eq_zero]
      have e1 : t - t * (1 - √2 / t) = √2 := by linear_combination he1
      have e2 : a * (1 - √2 / t) = √2 * t - √2 * √2 := by rw [ha]; linear_combination (-√2) * he1
      have e3 : √2 * √2 = 2 := Real.mul_self_sqrt (by norm_num)
      rw [e1, e2, e3, sq, e3]
      nlinarith [sq_nonneg (t - √2), mul_pos ht0 hs0, sq_pos_of_pos (sub_pos.2 (lt_trans hs2 ht))]
    have hgood : Sk.Enet.Good X y a 0 positive (Sk.Enet.objective X y a 0 (Sk.Enet.coord X a 0 positive s0 0).w) (Sk.Enet.coord X a 0 positive s0 0) := by
      refine ⟨h1, ?_, le_rfl⟩
      intro hp j
      have : j = 0 := Subsingleton.elim _ _
      rw [this]; exact h3 hp
    rw [Sk.Enet.loop]
    simp only [hsw]
    split
    · split
      · exact hJ
      · exact lt_of_le_of_lt (Sk.Enet.loop_good X y a 0 eps _ positive (fun _ => List.finRange 1) _ ha0 le_rfl k (it + 1) _ _ hgood).1.le hJ
    · exact lt_of_le_of_lt (Sk.Enet.loop_good X y a 0 eps _ positive (fun _ => List.finRange 1) _ ha0 le_rfl k (it + 1) _ _ hgood).1.le hJ
  have := hlow 1000 0 (eps + 1) (by norm_num)
  have hw' : (Sk.Enet.loop X y a 0 eps (eps * ∑ i, y i * y i) positive (fun _ => List.finRange 1) 1000 0 s0 (eps + 1)).st.w = fun _ => 0 := by
    funext j
    have : j = 0 := Subsingleton.elim _ _
    rw [this]
    exact hw
  rw [hw'] at this
  exact lt_irrefl _ this

end Sk.EnetFit
