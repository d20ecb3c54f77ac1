import Verif.Model.LinFitGom
import Verif.Props.Linear
import Verif.Props.EnetFit

/-! # C173: ridge regression through the gonum minimisers -/
set_option autoImplicit false

namespace Sk.Lin

variable {n p q : ℕ}

/-! ### Specification -/

/-- `Σ (yᵢ - xᵢ·v - b)² + a Σ (sⱼ vⱼ)²`: the ridge cost with intercept, the penalty being on the coefficients in the units given by `s`. -/
noncomputable def ridgeCost (X : Fin n → Fin p → ℝ) (y : Fin n → ℝ) (a : ℝ) (s : Fin p → ℝ) (v : Fin p → ℝ) (b : ℝ) : ℝ :=
  ∑ i, (y i - (∑ j, X i j * v j + b)) ^ 2 + a * ∑ j, (s j * v j) ^ 2

/-- Every output sends its result once. -/
def Arrivals (arrival : List (Fin q)) : Prop := arrival.Nodup ∧ ∀ o, o ∈ arrival

/-- The minimiser returns, for this objective, gradient and start, the result `r`, at which the gradient it was given vanishes. -/
def Stationary (minimize : Minimizer p) (J : (Fin p → ℝ) → ℝ) (G : (Fin p → ℝ) → Fin p → ℝ) (x0 : Fin p → ℝ) : Prop :=
  ∃ r, minimize J G x0 = some r ∧ ∀ j, G r.x j = 0

/-! ### Columns -/

theorem gom_fold (minimize : Fin q → Minimizer p) (J : Fin q → (Fin p → ℝ) → ℝ) (G : Fin q → (Fin p → ℝ) → Fin p → ℝ) (start : Fin p → Fin q → ℝ) (r : Fin q → MinRet p)
    (hr : ∀ o, minimize o (J o) (G o) (fun j => start j o) = some (r o)) (arrival : List (Fin q)) : ∀ st : GomState p q,
    ∃ st', arrival.foldlM (fun st o => (minimize o (J o) (G o) (fun j => start j o)).map (gomReceive st o)) st = some st' ∧
      (∀ j o, st'.theta j o = if o ∈ arrival then (r o).x j else st.theta j o) ∧ st'.F = st.F + (arrival.map (fun o => (r o).F)).sum ∧
      st'.epoch = st.epoch + (arrival.map (fun o => (r o).evals)).sum := by
  induction arrival with
  | nil => intro st; exact ⟨st, rfl, by simp, by simp, by simp⟩
  | cons a l ih =>
    intro st
    obtain ⟨st', h1, h2, h3, h4⟩ := ih (gomReceive st a (r a))
    refine ⟨st', ?_, ?_, ?_, ?_⟩
    · rw [List.foldlM_cons, hr a]
      exact h1
    · intro j o
      rw [h2 j o]
      by_cases ho : o ∈ l
      · rw [if_pos ho, if_pos (List.mem_cons_of_mem _ ho)]
      · rw [if_neg ho]
        by_cases hoa : o = a
        · subst hoa
          simp [gomReceive]
        · rw [if_neg (by simp [ho, hoa])]
          simp [gomReceive, hoa]
    · rw [h3, List.map_cons, List.sum_cons]
      simp only [gomReceive]
      ring
    · rw [h4, List.map_cons, List.sum_cons]
      simp only [gomReceive]
      ring

theorem arrivals_sum {M : Type} [AddCommMonoid M] (arrival : List (Fin q)) (h : Arrivals arrival) (f : Fin q → M) : (arrival.map f).sum = ∑ o, f o := by
  have : arrival.toFinset = Finset.univ := by
    ext o
    simp [h.2 o]
  rw [← this, List.sum_toFinset _ h.1]

/-- C173: in whatever order the results of the outputs arrive, column `o` of the coefficients is what the minimiser returned for output `o` started from column `o`; the number of
evaluations is the total over the outputs. -/
theorem C173_columns (minimize : Fin q → Minimizer p) (J : Fin q → (Fin p → ℝ) → ℝ) (G : Fin q → (Fin p → ℝ) → Fin p → ℝ) (start : Fin p → Fin q → ℝ) (arrival : List (Fin q)) (h : Arrivals arrival)
    (r : Fin q → MinRet p) (hr : ∀ o, minimize o (J o) (G o) (fun j => start j o) = some (r o)) :
    ∃ f, gomPerOutput minimize J G start arrival = some f ∧ (∀ o j, f.theta j o = (r o).x j) ∧ f.epoch = ∑ o, (r o).evals ∧ f.rmse = Real.sqrt (∑ o, (r o).F) / q := by
  obtain ⟨st', h1, h2, h3, h4⟩ := gom_fold minimize J G start r hr arrival ⟨start, 0, 0, true⟩
  unfold gomPerOutput
  rw [h1]
  refine ⟨_, rfl, ?_, ?_, ?_⟩
  · intro o j
    change st'.theta j o = _
    rw [h2 j o, if_pos (h.2 o)]
  · change st'.epoch = _
    rw [h4, arrivals_sum arrival h]
    simp
  · change Real.sqrt st'.F / q = _
    rw [h3, arrivals_sum arrival h]
    simp

/-- C173: the result does not depend on the order of arrival. -/
theorem C173_order (minimize : Fin q → Minimizer p) (J : Fin q → (Fin p → ℝ) → ℝ) (G : Fin q → (Fin p → ℝ) → Fin p → ℝ) (start : Fin p → Fin q → ℝ) (a b : List (Fin q)) (ha : Arrivals a) (hb : Arrivals b)
    (hr : ∀ o, minimize o (J o) (G o) (fun j => start j o) ≠ none) : gomPerOutput minimize J G start a = gomPerOutput minimize J G start b := by
  choose r hr using fun o => Option.ne_none_iff_exists'.1 (hr o)
  obtain ⟨f, hf, h1, h2, h3⟩ := C173_columns minimize J G start a ha r hr
  obtain ⟨g, hg, k1, k2, k3⟩ := C173_columns minimize J G start b hb r hr
  rw [hf, hg]
  have hc : ∀ (arrival : List (Fin q)) f, gomPerOutput minimize J G start arrival = some f → f.converged = true ∧ f.J = 0 := by
    intro arrival f h
    unfold gomPerOutput at h
    obtain ⟨st, _, rfl⟩ := Option.map_eq_some_iff.1 h
    exact ⟨rfl, rfl⟩
  obtain ⟨c1, j1⟩ := hc a f hf
  obtain ⟨c2, j2⟩ := hc b g hg
  have ht : f.theta = g.theta := by
    funext j o
    rw [h1, k1]
  cases f
  cases g
  simp only at *
  subst_vars
  rfl

/-! ### The optimum -/

/-- Weight of the penalty in the gradient given to the minimiser. -/
noncomputable def usedAlpha (alpha : ℝ) : ℝ := if alpha > 0 then 1 else 0

theorem usedAlpha_nonneg (alpha : ℝ) : 0 ≤ usedAlpha alpha := by
  unfold usedAlpha; split <;> norm_num

theorem colG_zero (hn : n ≠ 0) (A : Fin n → Fin p → ℝ) (alpha : ℝ) (b : Fin n → ℝ) (θ : Fin p → ℝ) (j : Fin p) (h : colG A alpha 0 b θ j = 0) :
    ∑ i, A i j * ((∑ k, A i k * θ k) - b i) + usedAlpha alpha * θ j = 0 := by
  have hn' : (n : ℝ) ≠ 0 := Nat.cast_ne_zero.2 hn
  unfold colG squareGrad at h
  rcases mul_eq_zero.1 h with h | h
  · exact absurd h (one_div_ne_zero hn')
  · rw [← h]
    congr 1
    unfold usedAlpha regGrad
    by_cases ha : alpha > 0
    · simp [ha]
    · simp [ha]

/-- Value of the ridge cost around a stationary point. -/
theorem ridge_expand (A : Fin n → Fin p → ℝ) (b : Fin n → ℝ) (w : ℝ) (θ : Fin p → ℝ) (h : ∀ j, ∑ i, A i j * ((∑ k, A i k * θ k) - b i) + w * θ j = 0) (d : Fin p → ℝ) :
    ∑ i, (b i - ∑ j, A i j * (θ j + d j)) ^ 2 + w * ∑ j, (θ j + d j) ^ 2 =
      (∑ i, (b i - ∑ j, A i j * θ j) ^ 2 + w * ∑ j, θ j ^ 2) + (∑ i, (∑ j, A i j * d j) ^ 2 + w * ∑ j, d j ^ 2) := by
  have e1 : ∀ i, (b i - ∑ j, A i j * (θ j + d j)) ^ 2 = (b i - ∑ j, A i j * θ j) ^ 2 + 2 * (((∑ k, A i k * θ k) - b i) * ∑ j, A i j * d j) + (∑ j, A i j * d j) ^ 2 := by
    intro i
    have : ∑ j, A i j * (θ j + d j) = ∑ j, A i j * θ j + ∑ j, A i j * d j := by
      rw [← Finset.sum_add_distrib]
      exact Finset.sum_congr rfl (fun j _ => by ring)
    rw [this]
    ring
  have e2 : ∑ j, (θ j + d j) ^ 2 = ∑ j, θ j ^ 2 + 2 * ∑ j, θ j * d j + ∑ j, d j ^ 2 := by
    rw [Finset.mul_sum, ← Finset.sum_add_distrib, ← Finset.sum_add_distrib]
    exact Finset.sum_congr rfl (fun j _ => by ring)
  have e3 : ∑ i, ((∑ k, A i k * θ k) - b i) * ∑ j, A i j * d j + w * ∑ j, θ j * d j = 0 := by
    have : ∑ i, ((∑ k, A i k * θ k) - b i) * ∑ j, A i j * d j = ∑ j, d j * ∑ i, A i j * ((∑ k, A i k * θ k) - b i) := by
      simp only [Finset.mul_sum]
      rw [Finset.sum_comm]
      exact Finset.sum_congr rfl (fun j _ => Finset.sum_congr rfl (fun i _ => by ring))
    rw [this, Finset.mul_sum, ← Finset.sum_add_distrib]
    apply Finset.sum_eq_zero
    intro j _
    have := h j
    linear_combination d j * this
  simp only [e1, e2, Finset.sum_add_distrib, ← Finset.mul_sum]
  linear_combination 2 * e3

/-- The ridge cost on the original data is the one on the centred and scaled data, plus the cost of a wrong intercept. -/
theorem ridge_split (X : Fin n → Fin p → ℝ) (y : Fin n → ℝ) (a : ℝ) (s : Fin p → ℝ) (v : Fin p → ℝ) (b : ℝ) (hn : n ≠ 0) (hs : ∀ j, s j ≠ 0) :
    ridgeCost X y a s v b = (∑ i, ((y i - colMean y) - ∑ j, (X i j - colMean (fun i => X i j)) / s j * (s j * v j)) ^ 2 + a * ∑ j, (s j * v j) ^ 2) +
      n * (colMean y - (∑ j, colMean (fun i => X i j) * v j) - b) ^ 2 := by
  have h := Sk.EnetFit.cost_split X y 0 a s v b hn hs
  unfold Sk.EnetFit.cost Sk.Enet.objective at h
  unfold ridgeCost
  linear_combination 2 * h

/-- What a ridge fit with intercept returns for output `o`, given the minimiser's result. -/
theorem ridge_fit_eq (normalize : Bool) (alpha : ℝ) (minimize : Fin q → Minimizer p) (start : Fin p → Fin q → ℝ) (arrival : List (Fin q)) (h : Arrivals arrival) (old : Fin q → ℝ)
    (X : Fin n → Fin p → ℝ) (Y : Fin n → Fin q → ℝ) (hv : normalize = true → ∀ j, Varies (fun i => X i j)) (r : Fin q → MinRet p)
    (hr : ∀ o, minimize o (colJ (preprocess true normalize X (fun i => Y i o)).X alpha 0 (preprocess true normalize X (fun i => Y i o)).y)
      (colG (preprocess true normalize X (fun i => Y i o)).X alpha 0 (preprocess true normalize X (fun i => Y i o)).y) (fun j => start j o) = some (r o)) :
    ∃ f, ridgeFit true normalize alpha 0 minimize start arrival old X Y = some f ∧ ∀ o, f.coefs o =
      some ⟨fun j => (r o).x j / divisor normalize X j, colMean (fun i => Y i o) - ∑ j, colMean (fun i => X i j) * ((r o).x j / divisor normalize X j)⟩ := by
  obtain ⟨g, hg, h1, _, _⟩ := C173_columns minimize _ _ start arrival h r hr
  unfold ridgeFit
  simp only []
  rw [hg]
  refine ⟨_, rfl, ?_⟩
  intro o
  have hne : ¬ ∃ j, divisor normalize X j = 0 := by
    rintro ⟨j, hj⟩
    exact divisor_ne normalize X hv j hj
  change setIntercept true (preprocess true normalize X (fun i => Y i o)) (old o) (fun j => g.theta j o) = _
  rw [preprocess_true normalize X _ hv]
  simp only [setIntercept, if_neg hne, if_true, h1]

/-- What is assumed of the minimiser: for every output, it ends at a point where the gradient it is given vanishes. -/
def Solves (normalize : Bool) (alpha : ℝ) (minimize : Fin q → Minimizer p) (start : Fin p → Fin q → ℝ) (X : Fin n → Fin p → ℝ) (Y : Fin n → Fin q → ℝ) : Prop :=
  ∀ o, Stationary (minimize o) (colJ (preprocess true normalize X (fun i => Y i o)).X alpha 0 (preprocess true normalize X (fun i => Y i o)).y)
    (colG (preprocess true normalize X (fun i => Y i o)).X alpha 0 (preprocess true normalize X (fun i => Y i o)).y) (fun j => start j o)

/-- The coefficients and intercept `m` of one output, as found from a stationary point: value of the ridge cost (any weight `a`) around them. -/
theorem ridge_solution (hn : n ≠ 0) (normalize : Bool) (alpha : ℝ) (minimize : Fin q → Minimizer p) (start : Fin p → Fin q → ℝ) (arrival : List (Fin q)) (h : Arrivals arrival) (old : Fin q → ℝ)
    (X : Fin n → Fin p → ℝ) (Y : Fin n → Fin q → ℝ) (hv : normalize = true → ∀ j, Varies (fun i => X i j)) (hs : Solves normalize alpha minimize start X Y) :
    ∃ f, ridgeFit true normalize alpha 0 minimize start arrival old X Y = some f ∧ ∀ o, ∃ (θ : Fin p → ℝ) (m : Coefs p), f.coefs o = some m ∧
      m.coef = (fun j => θ j / divisor normalize X j) ∧ m.intercept = colMean (fun i => Y i o) - ∑ j, colMean (fun i => X i j) * m.coef j ∧
      ∀ j, ∑ i, (X i j - colMean (fun i => X i j)) / divisor normalize X j * ((∑ k, (X i k - colMean (fun i => X i k)) / divisor normalize X k * θ k) - (Y i o - colMean (fun i => Y i o))) +
        usedAlpha alpha * θ j = 0 := by
  choose r hr hz using hs
  obtain ⟨f, hf, hc⟩ := ridge_fit_eq normalize alpha minimize start arrival h old X Y hv r hr
  refine ⟨f, hf, fun o => ⟨(r o).x, _, hc o, rfl, rfl, fun j => ?_⟩⟩
  have := hz o j
  rw [preprocess_true normalize X _ hv] at this
  exact colG_zero hn _ alpha _ _ j this

theorem divisor_cancel (normalize : Bool) (X : Fin n → Fin p → ℝ) (hv : normalize = true → ∀ j, Varies (fun i => X i j)) (θ : Fin p → ℝ) (j : Fin p) :
    divisor normalize X j * (θ j / divisor normalize X j) = θ j := by
  have := divisor_ne normalize X hv j
  field_simp

/-- C173: whatever `Alpha` is, if the minimiser ends where the gradient it is given vanishes, every output of the fitted model minimises the ridge cost with weight 1 (0 for
`Alpha ≤ 0`) over all coefficients and intercepts. -/
theorem C173_used_alpha (hn : n ≠ 0) (normalize : Bool) (alpha : ℝ) (minimize : Fin q → Minimizer p) (start : Fin p → Fin q → ℝ) (arrival : List (Fin q)) (h : Arrivals arrival) (old : Fin q → ℝ)
    (X : Fin n → Fin p → ℝ) (Y : Fin n → Fin q → ℝ) (hv : normalize = true → ∀ j, Varies (fun i => X i j)) (hs : Solves normalize alpha minimize start X Y) :
    ∃ f, ridgeFit true normalize alpha 0 minimize start arrival old X Y = some f ∧ ∀ o, ∃ m, f.coefs o = some m ∧ ∀ (v : Fin p → ℝ) (b : ℝ),
      ridgeCost X (fun i => Y i o) (if alpha > 0 then 1 else 0) (fun j => if normalize then spread (fun i => X i j) else 1) m.coef m.intercept ≤
        ridgeCost X (fun i => Y i o) (if alpha > 0 then 1 else 0) (fun j => if normalize then spread (fun i => X i j) else 1) v b := by
  obtain ⟨f, hf, hc⟩ := ridge_solution hn normalize alpha minimize start arrival h old X Y hv hs
  refine ⟨f, hf, fun o => ?_⟩
  obtain ⟨θ, m, hm, hco, hi, hz⟩ := hc o
  refine ⟨m, hm, fun v b => ?_⟩
  change ridgeCost X _ (usedAlpha alpha) (divisor normalize X) _ _ ≤ ridgeCost X _ (usedAlpha alpha) (divisor normalize X) _ _
  rw [ridge_split X _ _ _ _ _ hn (divisor_ne normalize X hv), ridge_split X _ _ _ _ _ hn (divisor_ne normalize X hv)]
  have e0 : colMean (fun i => Y i o) - (∑ j, colMean (fun i => X i j) * m.coef j) - m.intercept = 0 := by rw [hi]; ring
  rw [e0]
  simp only [hco, divisor_cancel normalize X hv]
  have hx := ridge_expand _ _ _ θ hz (fun j => divisor normalize X j * v j - θ j)
  simp only [add_sub_cancel] at hx
  rw [hx]
  have hw := usedAlpha_nonneg alpha
  have h1 : 0 ≤ ∑ i, (∑ j, (X i j - colMean (fun i => X i j)) / divisor normalize X j * (divisor normalize X j * v j - θ j)) ^ 2 := Finset.sum_nonneg (fun _ _ => sq_nonneg _)
  have h2 : 0 ≤ usedAlpha alpha * ∑ j, (divisor normalize X j * v j - θ j) ^ 2 := mul_nonneg hw (Finset.sum_nonneg (fun _ _ => sq_nonneg _))
  have h3 : 0 ≤ (n : ℝ) * (colMean (fun i => Y i o) - (∑ j, colMean (fun i => X i j) * v j) - b) ^ 2 := by positivity
  linarith

/-- C173, for `Alpha` 0 or 1: every output of a fitted ridge regression minimises `Σ (yᵢ - xᵢ·v - b)² + Alpha Σ vⱼ²` over all coefficients and intercepts.  Missing: other values of `Alpha`, for which
it is false (`C173_alpha_violated`). -/
theorem C173_ridge_partial (hn : n ≠ 0) (alpha : ℝ) (ha : alpha = 0 ∨ alpha = 1) (minimize : Fin q → Minimizer p) (start : Fin p → Fin q → ℝ) (arrival : List (Fin q)) (h : Arrivals arrival)
    (old : Fin q → ℝ) (X : Fin n → Fin p → ℝ) (Y : Fin n → Fin q → ℝ) (hs : Solves false alpha minimize start X Y) :
    ∃ f, ridgeFit true false alpha 0 minimize start arrival old X Y = some f ∧ ∀ o, ∃ m, f.coefs o = some m ∧ ∀ (v : Fin p → ℝ) (b : ℝ),
      ridgeCost X (fun i => Y i o) alpha (fun _ => 1) m.coef m.intercept ≤ ridgeCost X (fun i => Y i o) alpha (fun _ => 1) v b := by
  obtain ⟨f, hf, hc⟩ := C173_used_alpha hn false alpha minimize start arrival h old X Y (by simp) hs
  refine ⟨f, hf, fun o => ?_⟩
  obtain ⟨m, hm, hv⟩ := hc o
  refine ⟨m, hm, fun v b => ?_⟩
  have := hv v b
  rcases ha with rfl | rfl
  · simpa using this
  · simpa using this

/-- C173, violated: for every positive `Alpha` other than 1, if the minimiser ends where the gradient it is given vanishes, then for every output that is correlated with some feature the fitted
model is *not* a minimiser of the ridge cost with that `Alpha`. -/
theorem C173_alpha_violated (hn : n ≠ 0) (alpha : ℝ) (ha : 0 < alpha) (ha1 : alpha ≠ 1) (minimize : Fin q → Minimizer p) (start : Fin p → Fin q → ℝ) (arrival : List (Fin q)) (h : Arrivals arrival)
    (old : Fin q → ℝ) (X : Fin n → Fin p → ℝ) (Y : Fin n → Fin q → ℝ) (hs : Solves false alpha minimize start X Y) (o : Fin q)
    (hcor : ∃ j, ∑ i, (X i j - colMean (fun i => X i j)) * (Y i o - colMean (fun i => Y i o)) ≠ 0) :
    ∃ f m, ridgeFit true false alpha 0 minimize start arrival old X Y = some f ∧ f.coefs o = some m ∧ ∃ (v : Fin p → ℝ) (b : ℝ),
      ridgeCost X (fun i => Y i o) alpha (fun _ => 1) v b < ridgeCost X (fun i => Y i o) alpha (fun _ => 1) m.coef m.intercept := by
  obtain ⟨f, hf, hc⟩ := ridge_solution hn false alpha minimize start arrival h old X Y (by simp) hs
  obtain ⟨θ, m, hm, hco, hi, hz⟩ := hc o
  refine ⟨f, m, hf, hm, ?_⟩
  have hd : ∀ j, divisor false X j = 1 := fun j => rfl
  simp only [hd, div_one] at hco hz
  rw [show usedAlpha alpha = 1 from if_pos ha] at hz
  set A : Fin n → Fin p → ℝ := fun i j => X i j - colMean (fun i => X i j) with hA
  set y : Fin n → ℝ := fun i => Y i o - colMean (fun i => Y i o) with hy
  have hθ : 0 < ∑ j, θ j ^ 2 := by
    rcases (Finset.sum_nonneg (fun j _ => sq_nonneg (θ j)) : (0 : ℝ) ≤ ∑ j, θ j ^ 2).lt_or_eq with h' | h'
    · exact h'
    · exfalso
      have h0 : ∀ j, θ j = 0 := by
        intro j
        have := (Finset.sum_eq_zero_iff_of_nonneg (fun j _ => sq_nonneg (θ j))).1 h'.symm j (Finset.mem_univ _)
        exact pow_eq_zero_iff (two_ne_zero) |>.1 this
      obtain ⟨j, hj⟩ := hcor
      apply hj
      have := hz j
      simp only [h0, mul_zero, Finset.sum_const_zero, zero_sub, add_zero, mul_neg, Finset.sum_neg_distrib, neg_eq_zero] at this
      exact this
  set T := ∑ j, θ j ^ 2 with hT
  set S := ∑ i, (∑ j, A i j * θ j) ^ 2 with hS
  have hS0 : 0 ≤ S := Finset.sum_nonneg (fun _ _ => sq_nonneg _)
  set t : ℝ := -((alpha - 1) * T / (S + alpha * T)) with ht
  have hq : 0 < S + alpha * T := by positivity
  refine ⟨fun j => θ j + t * θ j, colMean (fun i => Y i o) - ∑ j, colMean (fun i => X i j) * (θ j + t * θ j), ?_⟩
  rw [ridge_split X _ _ _ _ _ hn (fun _ => one_ne_zero), ridge_split X _ _ _ _ _ hn (fun _ => one_ne_zero)]
  have e0 : colMean (fun i => Y i o) - (∑ j, colMean (fun i => X i j) * m.coef j) - m.intercept = 0 := by rw [hi]; ring
  rw [e0, sub_self]
  simp only [hco, div_one, one_mul]
  have hx := ridge_expand A y 1 θ (fun j => hz j) (fun j => t * θ j)
  have e1 : ∑ i, (∑ j, A i j * (t * θ j)) ^ 2 = t ^ 2 * S := by
    rw [hS, Finset.mul_sum]
    apply Finset.sum_congr rfl
    intro i _
    rw [← mul_pow, Finset.mul_sum]
    congr 1
    exact Finset.sum_congr rfl (fun j _ => by ring)
  have e2 : ∑ j, (t * θ j) ^ 2 = t ^ 2 * T := by
    rw [hT, Finset.mul_sum]
    exact Finset.sum_congr rfl (fun j _ => by ring)
  have e3 : ∑ j, (θ j + t * θ j) ^ 2 = (1 + t) ^ 2 * T := by
    rw [hT, Finset.mul_sum]
    exact Finset.sum_congr rfl (fun j _ => by ring)
  rw [e1, e2, e3] at hx
  rw [e3]
  have hneg : t ^ 2 * (S + alpha * T) + 2 * t * (alpha - 1) * T < 0 := by
    have : t * (S + alpha * T) = -((alpha - 1) * T) := by rw [ht]; field_simp
    have e : t ^ 2 * (S + alpha * T) + 2 * t * (alpha - 1) * T = t * ((alpha - 1) * T) := by linear_combination t * this
    rw [e, ht, neg_mul, neg_lt_zero, div_mul_eq_mul_div]
    have hne : (alpha - 1) * T ≠ 0 := mul_ne_zero (sub_ne_zero.2 ha1) hθ.ne'
    exact div_pos (mul_self_pos.2 hne) hq
  have hfin : ∑ i, (y i - ∑ j, A i j * (θ j + t * θ j)) ^ 2 + alpha * ((1 + t) ^ 2 * T) =
      (∑ i, (y i - ∑ j, A i j * θ j) ^ 2 + alpha * T) + (t ^ 2 * (S + alpha * T) + 2 * t * (alpha - 1) * T) := by
    linear_combination hx
  change ∑ i, (y i - ∑ j, A i j * (θ j + t * θ j)) ^ 2 + alpha * ((1 + t) ^ 2 * T) + n * 0 ^ 2 < ∑ i, (y i - ∑ j, A i j * θ j) ^ 2 + alpha * T + n * 0 ^ 2
  rw [hfin]
  linarith

/-- The value given to the minimiser is the ridge cost with weight `Alpha` (0 if negative), over twice the number of samples. -/
theorem colJ_eq (A : Fin n → Fin p → ℝ) (alpha : ℝ) (b : Fin n → ℝ) (θ : Fin p → ℝ) :
    colJ A alpha 0 b θ = (∑ i, (b i - ∑ j, A i j * θ j) ^ 2 + max alpha 0 * ∑ j, θ j ^ 2) / (2 * n) := by
  have e1 : ∀ i, (mulT A (fun j (_ : Fin 1) => θ j) i 0 - b i) * (mulT A (fun j (_ : Fin 1) => θ j) i 0 - b i) = (b i - ∑ j, A i j * θ j) ^ 2 := by
    intro i
    unfold mulT
    ring
  unfold colJ squareJ
  simp only [Fin.sum_univ_one, e1]
  congr 2
  by_cases ha : alpha > 0
  · rw [if_pos ha, max_eq_left ha.le]
    unfold regJ
    simp only [Bool.false_and, Bool.false_eq_true, if_false, lt_irrefl, gt_iff_lt, zero_lt_one, if_true, sub_zero, one_mul, zero_mul, add_zero, Fin.sum_univ_one]
    rw [mul_comm]
    congr 1
    exact Finset.sum_congr rfl (fun j _ => by ring)
  · rw [if_neg ha, max_eq_right (not_lt.1 ha), zero_mul]

/-- C173, for a minimiser that goes by the values and not by the gradient: if for every output it ends at a point where the value it is given is least, every output minimises the ridge cost with weight
`Alpha` (for every `Alpha ≥ 0`) over all coefficients and intercepts. -/
theorem C173_by_value (hn : n ≠ 0) (normalize : Bool) (alpha : ℝ) (minimize : Fin q → Minimizer p) (start : Fin p → Fin q → ℝ) (arrival : List (Fin q)) (h : Arrivals arrival) (old : Fin q → ℝ)
    (X : Fin n → Fin p → ℝ) (Y : Fin n → Fin q → ℝ) (hv : normalize = true → ∀ j, Varies (fun i => X i j))
    (hs : ∀ (o : Fin q) (J : (Fin p → ℝ) → ℝ) (G : (Fin p → ℝ) → Fin p → ℝ) (x0 : Fin p → ℝ), (∃ θ, ∀ θ', J θ ≤ J θ') → ∃ r, minimize o J G x0 = some r ∧ ∀ θ', J r.x ≤ J θ')
    (hex : ∀ o, ∃ (v : Fin p → ℝ) (b : ℝ), ∀ v' b', ridgeCost X (fun i => Y i o) (max alpha 0) (fun j => if normalize then spread (fun i => X i j) else 1) v b ≤
      ridgeCost X (fun i => Y i o) (max alpha 0) (fun j => if normalize then spread (fun i => X i j) else 1) v' b') :
    ∃ f, ridgeFit true normalize alpha 0 minimize start arrival old X Y = some f ∧ ∀ o, ∃ m, f.coefs o = some m ∧ ∀ (v : Fin p → ℝ) (b : ℝ),
      ridgeCost X (fun i => Y i o) (max alpha 0) (fun j => if normalize then spread (fun i => X i j) else 1) m.coef m.intercept ≤
        ridgeCost X (fun i => Y i o) (max alpha 0) (fun j => if normalize then spread (fun i => X i j) else 1) v b := by
  have hn' : (0 : ℝ) < 2 * n := by
    have : (0 : ℝ) < n := Nat.cast_pos.2 (Nat.pos_of_ne_zero hn)
    linarith
  have hd := divisor_ne normalize X hv
  have key : ∀ o, ∃ r, minimize o (colJ (preprocess true normalize X (fun i => Y i o)).X alpha 0 (preprocess true normalize X (fun i => Y i o)).y)
      (colG (preprocess true normalize X (fun i => Y i o)).X alpha 0 (preprocess true normalize X (fun i => Y i o)).y) (fun j => start j o) = some r ∧
      ∀ θ', colJ (preprocess true normalize X (fun i => Y i o)).X alpha 0 (preprocess true normalize X (fun i => Y i o)).y r.x ≤
        colJ (preprocess true normalize X (fun i => Y i o)).X alpha 0 (preprocess true normalize X (fun i => Y i o)).y θ' := by
    intro o
    refine hs o _ _ _ ?_
    obtain ⟨v, b, hvb⟩ := hex o
    refine ⟨fun j => divisor normalize X j * v j, fun θ' => ?_⟩
    rw [preprocess_true normalize X _ hv, colJ_eq, colJ_eq]
    refine div_le_div_of_nonneg_right ?_ hn'.le
    have h1 := hvb (fun j => θ' j / divisor normalize X j) (colMean (fun i => Y i o) - ∑ j, colMean (fun i => X i j) * (θ' j / divisor normalize X j))
    change ridgeCost X _ _ (divisor normalize X) _ _ ≤ ridgeCost X _ _ (divisor normalize X) _ _ at h1
    rw [ridge_split X _ _ _ _ _ hn hd, ridge_split X _ _ _ _ _ hn hd] at h1
    simp only [divisor_cancel normalize X hv] at h1
    have h2 : 0 ≤ (n : ℝ) * (colMean (fun i => Y i o) - (∑ j, colMean (fun i => X i j) * v j) - b) ^ 2 := by positivity
    have h3 : colMean (fun i => Y i o) - (∑ j, colMean (fun i => X i j) * (θ' j / divisor normalize X j)) -
        (colMean (fun i => Y i o) - ∑ j, colMean (fun i => X i j) * (θ' j / divisor normalize X j)) = 0 := by ring
    rw [h3] at h1
    simp only [ne_eq, OfNat.ofNat_ne_zero, not_false_eq_true, zero_pow, mul_zero, add_zero] at h1
    linarith
  choose r hr hmin using key
  obtain ⟨f, hf, hc⟩ := ridge_fit_eq normalize alpha minimize start arrival h old X Y hv r hr
  refine ⟨f, hf, fun o => ⟨_, hc o, fun v b => ?_⟩⟩
  change ridgeCost X _ _ (divisor normalize X) _ _ ≤ ridgeCost X _ _ (divisor normalize X) _ _
  rw [ridge_split X _ _ _ _ _ hn hd, ridge_split X _ _ _ _ _ hn hd]
  simp only [divisor_cancel normalize X hv]
  have h1 := hmin o (fun j => divisor normalize X j * v j)
  rw [preprocess_true normalize X _ hv, colJ_eq, colJ_eq, div_le_div_iff_of_pos_right hn'] at h1
  have h2 : 0 ≤ (n : ℝ) * (colMean (fun i => Y i o) - (∑ j, colMean (fun i => X i j) * v j) - b) ^ 2 := by positivity
  have h3 : colMean (fun i => Y i o) - (∑ j, colMean (fun i => X i j) * ((r o).x j / divisor normalize X j)) -
      (colMean (fun i => Y i o) - ∑ j, colMean (fun i => X i j) * ((r o).x j / divisor normalize X j)) = 0 := by ring
  rw [h3]
  simp only [ne_eq, OfNat.ofNat_ne_zero, not_false_eq_true, zero_pow, mul_zero, add_zero]
  linarith

/-- C173, without intercept: if the minimiser ends where the gradient of the loss on the original data vanishes, every output minimises the ridge cost (weight 1, or 0 for `Alpha ≤ 0`) of models through the
origin, whatever `Normalize` is; the intercept keeps the value it had before the call. -/
theorem C173_no_intercept (hn : n ≠ 0) (normalize : Bool) (alpha : ℝ) (minimize : Fin q → Minimizer p) (start : Fin p → Fin q → ℝ) (arrival : List (Fin q)) (h : Arrivals arrival) (old : Fin q → ℝ)
    (X : Fin n → Fin p → ℝ) (Y : Fin n → Fin q → ℝ) (hs : ∀ o, Stationary (minimize o) (colJ X alpha 0 (fun i => Y i o)) (colG X alpha 0 (fun i => Y i o)) (fun j => start j o)) :
    ∃ f, ridgeFit false normalize alpha 0 minimize start arrival old X Y = some f ∧ ∀ o, ∃ m, f.coefs o = some m ∧ m.intercept = old o ∧ ∀ v : Fin p → ℝ,
      ridgeCost X (fun i => Y i o) (if alpha > 0 then 1 else 0) (fun _ => 1) m.coef 0 ≤ ridgeCost X (fun i => Y i o) (if alpha > 0 then 1 else 0) (fun _ => 1) v 0 := by
  choose r hr hz using hs
  obtain ⟨g, hg, h1, _, _⟩ := C173_columns minimize _ _ start arrival h r hr
  have hf : ridgeFit false normalize alpha 0 minimize start arrival old X Y = some ⟨fun o => some ⟨(r o).x, old o⟩, g⟩ := by
    unfold ridgeFit
    simp only [preprocess, setIntercept, Bool.false_eq_true, if_false, one_ne_zero, exists_const_iff, and_false, div_one]
    rw [hg, Option.map_some]
    simp only [h1]
  refine ⟨_, hf, fun o => ⟨_, rfl, rfl, fun v => ?_⟩⟩
  have hx := ridge_expand X (fun i => Y i o) (usedAlpha alpha) (r o).x (fun j => colG_zero hn X alpha _ _ j (hz o j)) (fun j => v j - (r o).x j)
  simp only [add_sub_cancel] at hx
  unfold ridgeCost
  simp only [one_mul, add_zero]
  change _ + usedAlpha alpha * _ ≤ _ + usedAlpha alpha * _
  rw [hx]
  have h3 : 0 ≤ ∑ i, (∑ j, X i j * (v j - (r o).x j)) ^ 2 := Finset.sum_nonneg (fun _ _ => sq_nonneg _)
  have h4 : 0 ≤ usedAlpha alpha * ∑ j, (v j - (r o).x j) ^ 2 := mul_nonneg (usedAlpha_nonneg alpha) (Finset.sum_nonneg (fun _ _ => sq_nonneg _))
  linarith

/-! ### What is reported -/

/-- C173, violated: a fit is reported as converged, with cost 0, even if the minimisation of every output failed with an error at a point of positive cost. -/
theorem C173_report_violated (minimize : Fin q → Minimizer p) (J : Fin q → (Fin p → ℝ) → ℝ) (G : Fin q → (Fin p → ℝ) → Fin p → ℝ) (start : Fin p → Fin q → ℝ) (arrival : List (Fin q)) (h : Arrivals arrival)
    (hf : ∀ o, ∃ r, minimize o (J o) (G o) (fun j => start j o) = some r ∧ r.failed = true ∧ r.err = true ∧ 0 < J o r.x) :
    ∃ f, gomPerOutput minimize J G start arrival = some f ∧ f.converged = true ∧ f.J = 0 ∧ ∀ o, 0 < J o (fun j => f.theta j o) := by
  choose r hr _ _ hpos using hf
  obtain ⟨st', h1, h2, _, _⟩ := gom_fold minimize J G start r hr arrival ⟨start, 0, 0, true⟩
  refine ⟨_, by unfold gomPerOutput; rw [h1]; rfl, rfl, rfl, ?_⟩
  intro o
  have : (fun j => st'.theta j o) = (r o).x := by
    funext j
    rw [h2 j o, if_pos (h.2 o)]
  change 0 < J o (fun j => st'.theta j o)
  rw [this]
  exact hpos o

/-! ### Cases meeting the hypotheses -/

/-- Two outputs arriving in reverse order. -/
example : Arrivals ([1, 0] : List (Fin 2)) := ⟨by decide, by decide⟩

/-- Two samples `x = ±1`, `y = ±1`: the stationary point of the gradient is 2/3, for every positive `Alpha`. -/
example (alpha : ℝ) (ha : 0 < alpha) : Solves (q := 1) false alpha (fun _ _ _ _ => some ⟨fun _ => 2 / 3, 0, 1, false, false⟩) (fun _ _ => 0)
    (fun (i : Fin 2) (_ : Fin 1) => if i = 0 then (1 : ℝ) else -1) (fun i _ => if i = 0 then 1 else -1) := by
  intro o
  refine ⟨_, rfl, fun j => ?_⟩
  rw [preprocess_true false _ _ (by simp)]
  simp [colG, squareGrad, mulT, colMean, divisor, ha, regGrad]
  norm_num

/-- The same without intercept. -/
example (alpha : ℝ) (ha : 0 < alpha) : ∀ o : Fin 1, Stationary ((fun _ _ _ _ => some ⟨fun _ => 2 / 3, 0, 1, false, false⟩ : Fin 1 → Minimizer 1) o)
    (colJ (fun (i : Fin 2) (_ : Fin 1) => if i = 0 then (1 : ℝ) else -1) alpha 0 (fun i => if i = 0 then 1 else -1))
    (colG (fun (i : Fin 2) (_ : Fin 1) => if i = 0 then (1 : ℝ) else -1) alpha 0 (fun i => if i = 0 then 1 else -1)) (fun _ => 0) := by
  intro o
  refine ⟨_, rfl, fun j => ?_⟩
  simp [colG, squareGrad, mulT, ha, regGrad]
  norm_num

/-- Two samples `x = ±1`, `y = ±1`: the ridge cost with `Alpha = 2` has a minimum (at 1/2, intercept 0). -/
example : ∃ (v : Fin 1 → ℝ) (b : ℝ), ∀ v' b', ridgeCost (fun (i : Fin 2) (_ : Fin 1) => if i = 0 then (1 : ℝ) else -1) (fun i => if i = 0 then 1 else -1) (max 2 0) (fun _ => 1) v b ≤
    ridgeCost (fun (i : Fin 2) (_ : Fin 1) => if i = 0 then (1 : ℝ) else -1) (fun i => if i = 0 then 1 else -1) (max 2 0) (fun _ => 1) v' b' := by
  refine ⟨fun _ => 1 / 2, 0, fun v' b' => ?_⟩
  simp [ridgeCost, Fin.sum_univ_two]
  nlinarith [sq_nonneg (v' 0 - 1 / 2), sq_nonneg b']

/-- For these data the output is correlated with the feature. -/
example : ∃ j : Fin 1, ∑ i : Fin 2, ((fun (i : Fin 2) (_ : Fin 1) => if i = 0 then (1 : ℝ) else -1) i j - colMean (fun i : Fin 2 => (fun (i : Fin 2) (_ : Fin 1) => if i = 0 then (1 : ℝ) else -1) i j)) *
    ((if i = 0 then (1 : ℝ) else -1) - colMean (fun i : Fin 2 => if i = 0 then (1 : ℝ) else -1)) ≠ 0 :=
  ⟨0, by simp [colMean]⟩

/-- A minimiser that fails at its starting point. -/
example : ∀ o : Fin 1, ∃ r, (fun (_ : Fin 1) (_ : (Fin 1 → ℝ) → ℝ) (_ : (Fin 1 → ℝ) → Fin 1 → ℝ) (x0 : Fin 1 → ℝ) => some (⟨x0, 4, 1, true, true⟩ : MinRet 1)) o (fun x => (x 0 - 2) ^ 2) (fun x _ => x 0 - 2) (fun _ => 0) = some r ∧
    r.failed = true ∧ r.err = true ∧ 0 < (fun x : Fin 1 → ℝ => (x 0 - 2) ^ 2) r.x :=
  fun _ => ⟨_, rfl, rfl, rfl, by norm_num⟩

end Sk.Lin
