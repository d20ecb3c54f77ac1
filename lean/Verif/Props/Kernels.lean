import Verif.Model.Kernels
import Mathlib.Analysis.Matrix.Order
import Mathlib.Analysis.SpecialFunctions.Exponential
import Mathlib.Tactic.Linarith
import Mathlib.Tactic.Ring
import Mathlib.Tactic.FieldSimp
import Mathlib.Tactic.NormNum
import Mathlib.Tactic.Positivity
import Mathlib.Algebra.BigOperators.Field

/-!
# Properties of Gaussian process kernels: C55, C56, C100, C101, C102
-/
set_option autoImplicit false

namespace Sk.GP

/-! ## C55: symmetry and diagonal -/

theorem approxEq_comm (a b : ℝ) : approxEq a b ↔ approxEq b a := by
  unfold approxEq
  rw [abs_sub_comm, max_comm]

theorem val_comm {d : ℕ} (k : Kern) (x y : Fin d → ℝ) : k.val x y = k.val y x := by
  induction k with
  | const h => rfl
  | white h =>
    simp only [Kern.val]
    have : (∀ f, approxEq (x f) (y f)) ↔ ∀ f, approxEq (y f) (x f) := forall_congr' (fun f => approxEq_comm _ _)
    by_cases hc : ∀ f, approxEq (x f) (y f)
    · rw [if_pos hc, if_pos (this.mp hc)]
    · rw [if_neg hc, if_neg (fun h => hc (this.mpr h))]
  | rbf ls =>
    simp only [Kern.val]
    congr 2
    exact Finset.sum_congr rfl (fun f _ => by ring)
  | dot h =>
    simp only [Kern.val]
    congr 1
    exact Finset.sum_congr rfl (fun f _ => mul_comm _ _)
  | sum k₁ k₂ h₁ h₂ => simp only [Kern.val, h₁, h₂]
  | prod k₁ k₂ h₁ h₂ => simp only [Kern.val, h₁, h₂]
  | exp k p h => simp only [Kern.val, h]

theorem val_self {d : ℕ} (k : Kern) (x : Fin d → ℝ) : k.val x x = k.diag x := by
  induction k with
  | const h => rfl
  | white h =>
    simp only [Kern.val, Kern.diag]
    rw [if_pos]
    intro f
    left
    rw [sub_self, abs_zero]
    norm_num
  | rbf ls => simp [Kern.val, Kern.diag]
  | dot h => rfl
  | sum k₁ k₂ h₁ h₂ => simp only [Kern.val, Kern.diag, h₁, h₂]
  | prod k₁ k₂ h₁ h₂ => simp only [Kern.val, Kern.diag, h₁, h₂]
  | exp k p h => simp only [Kern.val, Kern.diag, h]

/-- **C55**.  For every kernel expression and every data set for which `Eval` does not panic, `Eval(X, X)` is a symmetric matrix whose diagonal is `Diag(X)`; more generally `Eval(Y, X)` is the transpose of
`Eval(X, Y)`. -/
theorem C55_symmetric_diag {n m d : ℕ} (k : Kern) (X : Fin n → Fin d → ℝ) (Y : Fin m → Fin d → ℝ) :
    (∀ M, k.evalM X X = some M → M.transpose = M ∧ ∀ i, M i i = k.diag (X i)) ∧ k.evalM Y X = (k.evalM X Y).map Matrix.transpose := by
  constructor
  · intro M hM
    unfold Kern.evalM at hM
    split at hM
    · cases hM
      refine ⟨?_, fun i => val_self k (X i)⟩
      ext i j
      exact val_comm k _ _
    · cases hM
  · unfold Kern.evalM
    split
    · refine congrArg some ?_
      ext i j
      exact val_comm k _ _
    · rfl

/-- Evaluation succeeds, e.g., for a constant times an `RBF` plus noise, on any rows with two features. -/
example {n : ℕ} (X : Fin n → Fin 2 → ℝ) : ∃ M, (Kern.sum (.prod (.const (2, false)) (.rbf [(1, false), (3, true)])) (.white (1, false))).evalM X X = some M := ⟨_, rfl⟩

/-! ## C100: positive semidefinite -/

/-- A square matrix with nonnegative quadratic form. -/
def PSD {n : ℕ} (M : Fin n → Fin n → ℝ) : Prop := ∀ v : Fin n → ℝ, 0 ≤ ∑ i, ∑ j, v i * v j * M i j

/-- Constants and noise levels of a kernel expression are nonnegative. -/
def NonnegParams : Kern → Prop
  | .const h => 0 ≤ h.1
  | .white h => 0 ≤ h.1
  | .rbf _ => True
  | .dot _ => True
  | .sum k₁ k₂ => NonnegParams k₁ ∧ NonnegParams k₂
  | .prod k₁ k₂ => NonnegParams k₁ ∧ NonnegParams k₂
  | .exp k _ => NonnegParams k

/-- The rows of `X` that are equal up to the tolerance are equal. -/
def Separated {n d : ℕ} (X : Fin n → Fin d → ℝ) : Prop := ∀ i j, (∀ f, approxEq (X i f) (X j f)) → X i = X j

theorem psd_iff {n : ℕ} (M : Fin n → Fin n → ℝ) (hs : ∀ i j, M i j = M j i) : PSD M ↔ (Matrix.of M).PosSemidef := by
  rw [Matrix.posSemidef_iff_dotProduct_mulVec]
  have hH : (Matrix.of M).IsHermitian := by
    ext i j
    simp [Matrix.conjTranspose_apply, hs i j]
  have hq : ∀ v : Fin n → ℝ, dotProduct (star v) (Matrix.mulVec (Matrix.of M) v) = ∑ i, ∑ j, v i * v j * M i j := by
    intro v
    simp only [dotProduct, Matrix.mulVec, Matrix.of_apply, star_trivial, Finset.mul_sum]
    exact Finset.sum_congr rfl (fun i _ => Finset.sum_congr rfl (fun j _ => by ring))
  constructor
  · intro h
    exact ⟨hH, fun v => by rw [hq]; exact h v⟩
  · intro h v
    rw [← hq]
    exact h.2 v

theorem psd_add {n : ℕ} {M N : Fin n → Fin n → ℝ} (hM : PSD M) (hN : PSD N) : PSD (fun i j => M i j + N i j) := by
  intro v
  have : ∑ i, ∑ j, v i * v j * (M i j + N i j) = (∑ i, ∑ j, v i * v j * M i j) + ∑ i, ∑ j, v i * v j * N i j := by
    rw [← Finset.sum_add_distrib]
    refine Finset.sum_congr rfl (fun i _ => ?_)
    rw [← Finset.sum_add_distrib]
    exact Finset.sum_congr rfl (fun j _ => by ring)
  rw [this]
  exact add_nonneg (hM v) (hN v)

theorem psd_smul {n : ℕ} {M : Fin n → Fin n → ℝ} (c : ℝ) (hc : 0 ≤ c) (hM : PSD M) : PSD (fun i j => c * M i j) := by
  intro v
  have : ∑ i, ∑ j, v i * v j * (c * M i j) = c * ∑ i, ∑ j, v i * v j * M i j := by
    rw [Finset.mul_sum]
    refine Finset.sum_congr rfl (fun i _ => ?_)
    rw [Finset.mul_sum]
    exact Finset.sum_congr rfl (fun j _ => by ring)
  rw [this]
  exact mul_nonneg hc (hM v)

/-- Products of one value per row. -/
theorem psd_rank_one {n : ℕ} (a : Fin n → ℝ) : PSD (fun i j => a i * a j) := by
  intro v
  have : ∑ i, ∑ j, v i * v j * (a i * a j) = (∑ i, v i * a i) * ∑ j, v j * a j := by
    rw [Finset.sum_mul]
    refine Finset.sum_congr rfl (fun i _ => ?_)
    rw [Finset.mul_sum]
    exact Finset.sum_congr rfl (fun j _ => by ring)
  rw [this]
  exact mul_self_nonneg _

theorem psd_sum {n : ℕ} {ι : Type} (s : Finset ι) (M : ι → Fin n → Fin n → ℝ) (h : ∀ t ∈ s, PSD (M t)) : PSD (fun i j => ∑ t ∈ s, M t i j) := by
  classical
  induction s using Finset.induction_on with
  | empty => intro v; simp
  | insert a s ha ih =>
    have := psd_add (h a (Finset.mem_insert_self _ _)) (ih (fun t ht => h t (Finset.mem_insert_of_mem ht)))
    simpa only [Finset.sum_insert ha] using this

theorem psd_mul {n : ℕ} {M N : Fin n → Fin n → ℝ} (hMs : ∀ i j, M i j = M j i) (hNs : ∀ i j, N i j = N j i) (hM : PSD M) (hN : PSD N) : PSD (fun i j => M i j * N i j) := by
  rw [psd_iff M hMs] at hM
  rw [psd_iff N hNs] at hN
  rw [psd_iff _ (fun i j => by rw [hMs, hNs])]
  exact hM.hadamard hN

theorem psd_pow {n : ℕ} {M : Fin n → Fin n → ℝ} (hMs : ∀ i j, M i j = M j i) (hM : PSD M) (p : ℕ) : PSD (fun i j => M i j ^ p) := by
  induction p with
  | zero => simpa using psd_rank_one (fun _ : Fin n => (1 : ℝ))
  | succ p ih =>
    simp only [pow_succ]
    exact psd_mul (fun i j => by rw [hMs]) hMs ih hM

/-- The entrywise exponential: a limit of sums of powers. -/
theorem psd_exp {n : ℕ} {M : Fin n → Fin n → ℝ} (hMs : ∀ i j, M i j = M j i) (hM : PSD M) : PSD (fun i j => Real.exp (M i j)) := by
  intro v
  have hlim : Filter.Tendsto (fun N : ℕ => ∑ i, ∑ j, v i * v j * ∑ t ∈ Finset.range N, M i j ^ t / (t.factorial : ℝ)) Filter.atTop (nhds (∑ i, ∑ j, v i * v j * Real.exp (M i j))) := by
    refine tendsto_finsetSum _ (fun i _ => tendsto_finsetSum _ (fun j _ => ?_))
    refine Filter.Tendsto.const_mul _ ?_
    have := NormedSpace.expSeries_div_hasSum_exp (M i j)
    rw [← Real.exp_eq_exp_ℝ] at this
    exact this.tendsto_sum_nat
  refine ge_of_tendsto' hlim (fun N => ?_)
  refine psd_sum (Finset.range N) (fun t i j => M i j ^ t / (t.factorial : ℝ)) (fun t _ => ?_) v
  have := psd_smul (1 / (t.factorial : ℝ)) (by positivity) (psd_pow hMs hM t)
  simpa only [mul_comm, div_eq_mul_inv, mul_one] using this

theorem psd_dot {n d : ℕ} (X : Fin n → Fin d → ℝ) : PSD (fun i j => ∑ f, X i f * X j f) :=
  psd_sum Finset.univ (fun f i j => X i f * X j f) (fun f _ => psd_rank_one (fun i => X i f))

theorem psd_eq {n d : ℕ} (X : Fin n → Fin d → ℝ) : PSD (fun i j => open Classical in if X i = X j then (1 : ℝ) else 0) := by
  classical
  have : (fun i j => if X i = X j then (1 : ℝ) else 0) = (fun i j => ∑ c ∈ Finset.univ.image X, (if X i = c then (1 : ℝ) else 0) * (if X j = c then (1 : ℝ) else 0)) := by
    funext i j
    rw [Finset.sum_eq_single (X i)]
    · simp [eq_comm]
    · intro c _ hc
      rw [if_neg (Ne.symm hc), zero_mul]
    · intro h
      exact absurd (Finset.mem_image_of_mem X (Finset.mem_univ i)) h
  rw [show (fun i j => open Classical in if X i = X j then (1 : ℝ) else 0) = (fun i j => if X i = X j then (1 : ℝ) else 0) by funext i j; congr, this]
  exact psd_sum _ _ (fun c _ => psd_rank_one (fun i => if X i = c then (1 : ℝ) else 0))

/-- **C100** (partial: rows that are equal up to the tolerance of the noise kernel are equal).  For every kernel expression with nonnegative constants and noise levels, the matrix `Eval(X, X)` has a
nonnegative quadratic form.  Missing: noise kernels on rows within the tolerance (`C100_white_violated`). -/
theorem C100_psd_partial {n d : ℕ} (k : Kern) (X : Fin n → Fin d → ℝ) (hk : NonnegParams k) (hX : Separated X) (M : Matrix (Fin n) (Fin n) ℝ) (hM : k.evalM X X = some M) : PSD M := by
  have key : PSD (fun i j => k.val (X i) (X j)) := by
    clear hM
    induction k with
    | const h =>
      have := psd_smul h.1 hk (psd_rank_one (fun _ : Fin n => (1 : ℝ)))
      simpa [Kern.val] using this
    | white h =>
      have := psd_smul h.1 hk (psd_eq X)
      have he : (fun i j => (Kern.white h).val (X i) (X j)) = (fun i j => h.1 * (open Classical in if X i = X j then (1 : ℝ) else 0)) := by
        funext i j
        simp only [Kern.val]
        by_cases hij : X i = X j
        · rw [if_pos hij, if_pos, mul_one]
          intro f
          left
          rw [hij, sub_self, abs_zero]
          norm_num
        · rw [if_neg hij, if_neg (fun h => hij (hX i j h)), mul_zero]
      rw [he]
      exact this
    | rbf ls =>
      have he : (fun i j => (Kern.rbf ls).val (X i) (X j)) = (fun i j =>
          (Real.exp (-0.5 * ∑ f : Fin d, (X i f / scaleOf ls f) * (X i f / scaleOf ls f)) * Real.exp (-0.5 * ∑ f : Fin d, (X j f / scaleOf ls f) * (X j f / scaleOf ls f))) *
          Real.exp (∑ f : Fin d, (X i f / scaleOf ls f) * (X j f / scaleOf ls f))) := by
        funext i j
        simp only [Kern.val]
        rw [← Real.exp_add, ← Real.exp_add]
        congr 1
        rw [Finset.mul_sum, Finset.mul_sum, Finset.mul_sum, ← Finset.sum_add_distrib, ← Finset.sum_add_distrib]
        exact Finset.sum_congr rfl (fun f _ => by ring)
      rw [he]
      refine psd_mul (fun i j => mul_comm _ _) (fun i j => ?_) (psd_rank_one _) (psd_exp (fun i j => ?_) (psd_dot (fun i (f : Fin d) => X i f / scaleOf ls f)))
      · congr 1
        exact Finset.sum_congr rfl (fun f _ => mul_comm _ _)
      · exact Finset.sum_congr rfl (fun f _ => mul_comm _ _)
    | dot h =>
      have := psd_add (psd_rank_one (fun _ : Fin n => h.1)) (psd_dot X)
      exact this
    | sum k₁ k₂ h₁ h₂ => exact psd_add (h₁ hk.1) (h₂ hk.2)
    | prod k₁ k₂ h₁ h₂ => exact psd_mul (fun i j => val_comm _ _ _) (fun i j => val_comm _ _ _) (h₁ hk.1) (h₂ hk.2)
    | exp k p h => exact psd_pow (fun i j => val_comm _ _ _) (h hk) p
  unfold Kern.evalM at hM
  split at hM
  · cases hM
    exact key
  · cases hM

/-- Two rows at distance 1 are separated; the hypotheses hold for a kernel with every constructor. -/
example : Separated (fun (i : Fin 2) (_ : Fin 1) => (i.val : ℝ)) ∧ NonnegParams (.exp (.sum (.prod (.const (2, false)) (.rbf [(1, false)])) (.sum (.white (1, true)) (.dot (-1, false)))) 3) := by
  constructor
  · intro i j h
    have h0 := h 0
    fin_cases i <;> fin_cases j <;> simp [approxEq] at h0 ⊢ <;> norm_num at h0
  · simp [NonnegParams]

/-- **C100** violated: equality up to a tolerance is not transitive, so the noise kernel with any positive level is not positive semidefinite on the three rows `0, 1e-8, 2e-8`. -/
theorem C100_white_violated (s : ℝ) (hs : 0 < s) (fixed : Bool) : ∃ (X : Fin 3 → Fin 1 → ℝ) (M : Matrix (Fin 3) (Fin 3) ℝ), (Kern.white (s, fixed)).evalM X X = some M ∧ ¬ PSD M := by
  refine ⟨fun i _ => i.val * 1e-8, _, rfl, ?_⟩
  intro h
  have h2 := h ![2, -3, 2]
  have e : ∀ i j : Fin 3, (Kern.white (s, fixed)).val (fun _ : Fin 1 => (i.val : ℝ) * 1e-8) (fun _ : Fin 1 => (j.val : ℝ) * 1e-8) = if (i = 0 ∧ j = 2) ∨ (i = 2 ∧ j = 0) then 0 else s := by
    intro i j
    simp only [Kern.val]
    by_cases hc : (i = 0 ∧ j = 2) ∨ (i = 2 ∧ j = 0)
    · rw [if_pos hc, if_neg]
      intro hf
      rcases hc with ⟨rfl, rfl⟩ | ⟨rfl, rfl⟩ <;> · have := hf 0; simp [approxEq] at this; norm_num [abs_of_pos, abs_of_neg] at this
    · rw [if_neg hc, if_pos]
      intro f
      left
      fin_cases i <;> fin_cases j <;> simp at hc ⊢ <;> norm_num [abs_of_pos, abs_of_neg]
  simp only [e] at h2
  simp [Fin.sum_univ_three] at h2
  linarith

/-! ## C101: stationarity -/

/-- A kernel expression without noise kernels. -/
def NoWhite : Kern → Prop
  | .const _ => True
  | .white _ => False
  | .rbf _ => True
  | .dot _ => True
  | .sum k₁ k₂ => NoWhite k₁ ∧ NoWhite k₂
  | .prod k₁ k₂ => NoWhite k₁ ∧ NoWhite k₂
  | .exp k _ => NoWhite k

/-- **C101** (partial: without noise kernels).  If `IsStationary()` is true the value of the kernel does not change when both rows are translated.  Missing: noise kernels (`C101_white_violated`). -/
theorem C101_stationary_partial {d : ℕ} (k : Kern) (hw : NoWhite k) (hk : k.isStationary = true) (x y t : Fin d → ℝ) : k.val (fun f => x f + t f) (fun f => y f + t f) = k.val x y := by
  induction k with
  | const h => rfl
  | white h => exact absurd hw id
  | rbf ls =>
    simp only [Kern.val]
    congr 2
    exact Finset.sum_congr rfl (fun f _ => by ring)
  | dot h => simp [Kern.isStationary] at hk
  | sum k₁ k₂ h₁ h₂ =>
    simp only [Kern.isStationary, Bool.and_eq_true] at hk
    simp only [Kern.val, h₁ hw.1 hk.1, h₂ hw.2 hk.2]
  | prod k₁ k₂ h₁ h₂ =>
    simp only [Kern.isStationary, Bool.and_eq_true] at hk
    simp only [Kern.val, h₁ hw.1 hk.1, h₂ hw.2 hk.2]
  | exp k p h =>
    simp only [Kern.isStationary] at hk
    simp only [Kern.val, h hw hk]

example : (Kern.exp (.sum (.const (2, false)) (.rbf [(1, false)])) 2).isStationary = true ∧ (Kern.dot (1, false)).isStationary = false := by decide

/-- A kernel for which `IsStationary()` is false is not stationary in general: the dot product. -/
theorem C101_dot (h : Hyper) : ∃ x y t : Fin 1 → ℝ, (Kern.dot h).val (fun f => x f + t f) (fun f => y f + t f) ≠ (Kern.dot h).val x y := by
  refine ⟨fun _ => 0, fun _ => 0, fun _ => 1, ?_⟩
  simp [Kern.val]

/-- **C101** violated by the noise kernel, which says it is stationary: the rows `0` and `2e-8` are different, but equal after a translation by 10. -/
theorem C101_white_violated (s : ℝ) (hs : s ≠ 0) (fixed : Bool) : (Kern.white (s, fixed)).isStationary = true ∧
    ∃ x y t : Fin 1 → ℝ, (Kern.white (s, fixed)).val (fun f => x f + t f) (fun f => y f + t f) ≠ (Kern.white (s, fixed)).val x y := by
  refine ⟨rfl, fun _ => 0, fun _ => 2e-8, fun _ => 10, ?_⟩
  simp only [Kern.val]
  rw [if_pos, if_neg]
  · exact hs
  · intro h
    have := h 0
    simp [approxEq] at this
    norm_num [abs_of_pos] at this
  · intro f
    right
    have : max |(0 : ℝ) + 10| |2e-8 + 10| ≥ 10 := le_trans (by norm_num) (le_max_left _ _)
    have h2 : |(0 : ℝ) + 10 - (2e-8 + 10)| = 2e-8 := by norm_num [abs_of_neg]
    rw [h2]
    norm_num at this ⊢

/-! ## C106: length scales -/

/-- C106.  The `f`-th length scale belongs to the `f`-th feature: multiplying every feature and its length scale by the same non-zero factor, a different one for each feature, does not change the value. -/
theorem C106_rescale {d : ℕ} (ls : Fin d → Hyper) (c : Fin d → ℝ) (hc : ∀ f, c f ≠ 0) (x y : Fin d → ℝ) :
    (Kern.rbf (List.ofFn fun f => (c f * (ls f).1, (ls f).2))).val (fun f => c f * x f) (fun f => c f * y f) = (Kern.rbf (List.ofFn ls)).val x y := by
  have h : ∀ (g : Fin d → Hyper) (f : Fin d), scaleOf (List.ofFn g) f = (g f).1 := by
    intro g f
    unfold scaleOf
    split
    · rename_i h1
      rw [List.length_ofFn] at h1
      subst h1
      rw [Subsingleton.elim f 0]
      simp
    · simp [List.getD_eq_getElem?_getD]
  simp only [Kern.val, h]
  congr 2
  refine Finset.sum_congr rfl (fun f _ => ?_)
  rw [mul_div_mul_left _ _ (hc f), mul_div_mul_left _ _ (hc f)]

/-- One length scale stands for the same length scale on every feature. -/
theorem C106_isotropic {d : ℕ} (h : Hyper) (x y : Fin d → ℝ) : (Kern.rbf [h]).val x y = (Kern.rbf (List.ofFn fun _ : Fin d => h)).val x y := by
  have e : ∀ f : Fin d, scaleOf [h] f = scaleOf (List.ofFn fun _ : Fin d => h) f := by
    intro f
    have hd : 0 < d := Fin.pos f
    unfold scaleOf
    simp [List.getD_eq_getElem?_getD, hd]
  simp only [Kern.val, e]

/-- With one positive length scale, nearer rows are more similar, and the value depends on the distance only. -/
theorem C106_distance {d : ℕ} (l : ℝ) (hl : 0 < l) (fixed : Bool) (x y u v : Fin d → ℝ) :
    (Kern.rbf [(l, fixed)]).val x y ≤ (Kern.rbf [(l, fixed)]).val u v ↔ ∑ f, (u f - v f) ^ 2 ≤ ∑ f, (x f - y f) ^ 2 := by
  have e : ∀ x y : Fin d → ℝ, (Kern.rbf [(l, fixed)]).val x y = Real.exp (-(1 / (2 * l ^ 2)) * ∑ f, (x f - y f) ^ 2) := by
    intro x y
    simp only [Kern.val, scaleOf, List.length_singleton, if_true, List.getD_cons_zero]
    congr 1
    rw [Finset.mul_sum, Finset.mul_sum]
    refine Finset.sum_congr rfl (fun f _ => ?_)
    field_simp
    ring
  rw [e, e, Real.exp_le_exp]
  have hp : 0 < 1 / (2 * l ^ 2) := by positivity
  constructor
  · intro h
    nlinarith
  · intro h
    nlinarith

/-- A kernel matrix is computed exactly when the number of length scales is one or the number of features; otherwise the call panics. -/
theorem C106_length {n m d : ℕ} (ls : List Hyper) (X : Fin n → Fin d → ℝ) (Y : Fin m → Fin d → ℝ) : ((Kern.rbf ls).evalM X Y).isSome = true ↔ ls.length = 1 ∨ ls.length = d := by
  unfold Kern.evalM
  split
  · rename_i h
    simpa [Kern.evalOK] using h
  · rename_i h
    simpa [Kern.evalOK] using h

/-- Every RBF kernel in the expression has one length scale, or one for each of the `d` features. -/
inductive LengthsFit (d : ℕ) : Kern → Prop where
  | const (h) : LengthsFit d (.const h)
  | white (h) : LengthsFit d (.white h)
  | dot (h) : LengthsFit d (.dot h)
  | rbf (ls) : ls.length = 1 ∨ ls.length = d → LengthsFit d (.rbf ls)
  | sum (k₁ k₂) : LengthsFit d k₁ → LengthsFit d k₂ → LengthsFit d (.sum k₁ k₂)
  | prod (k₁ k₂) : LengthsFit d k₁ → LengthsFit d k₂ → LengthsFit d (.prod k₁ k₂)
  | exp (k p) : LengthsFit d k → LengthsFit d (.exp k p)

/-- The same for every kernel expression: its matrix is computed exactly when the length scales of the RBF kernels in it fit; no other kernel panics. -/
theorem C106_lengths {n m d : ℕ} (k : Kern) (X : Fin n → Fin d → ℝ) (Y : Fin m → Fin d → ℝ) : (k.evalM X Y).isSome = true ↔ LengthsFit d k := by
  have key : ∀ k : Kern, k.evalOK d = true ↔ LengthsFit d k := by
    intro k
    induction k with
    | const h => exact ⟨fun _ => .const h, fun _ => rfl⟩
    | white h => exact ⟨fun _ => .white h, fun _ => rfl⟩
    | dot h => exact ⟨fun _ => .dot h, fun _ => rfl⟩
    | rbf ls => exact ⟨fun h => .rbf ls (by simpa [Kern.evalOK] using h), fun h => by cases h with | rbf _ h => simpa [Kern.evalOK] using h⟩
    | sum k₁ k₂ h₁ h₂ =>
      rw [Kern.evalOK, Bool.and_eq_true, h₁, h₂]
      exact ⟨fun h => .sum _ _ h.1 h.2, fun h => by cases h with | sum _ _ a b => exact ⟨a, b⟩⟩
    | prod k₁ k₂ h₁ h₂ =>
      rw [Kern.evalOK, Bool.and_eq_true, h₁, h₂]
      exact ⟨fun h => .prod _ _ h.1 h.2, fun h => by cases h with | prod _ _ a b => exact ⟨a, b⟩⟩
    | exp k p h =>
      rw [Kern.evalOK, h]
      exact ⟨fun h => .exp _ _ h, fun h => by cases h with | exp _ _ a => exact a⟩
  rw [← key]
  unfold Kern.evalM
  split <;> rename_i h <;> simp [h]

/-- A dot product times an RBF with two length scales, on two features but not on three. -/
example : LengthsFit 2 (.prod (.dot (1, false)) (.rbf [(1, false), (10, false)])) ∧ ¬ LengthsFit 3 (.prod (.dot (1, false)) (.rbf [(1, false), (10, false)])) :=
  ⟨.prod _ _ (.dot _) (.rbf _ (Or.inr rfl)), fun h => by cases h with | prod _ _ _ b => cases b with | rbf _ h => simp at h⟩

/-- Two features with length scales 1 and 10: a unit step in the second feature costs much less similarity than one in the first. -/
example : (Kern.rbf [(1, false), (10, false)]).val ![0, 0] ![1, 0] < (Kern.rbf [(1, false), (10, false)]).val ![0, 0] ![0, 1] := by
  simp only [Kern.val, scaleOf, Fin.sum_univ_two]
  rw [Real.exp_lt_exp]
  norm_num

end Sk.GP
