import Verif.Props.SvmOptimal
import Verif.Props.SvmCache
import Verif.Props.SvmSymmetry
import Verif.Props.SvmState
import Verif.Props.Kernels
import Mathlib.Analysis.SpecialFunctions.Exp
import Mathlib.Analysis.SpecialFunctions.Pow.Real
import Mathlib.Tactic.Linarith
import Mathlib.Tactic.Ring
import Mathlib.Tactic.Positivity
import Mathlib.Tactic.FieldSimp
import Mathlib.Tactic.NormNum
import Mathlib.Data.Fin.VecNotation
import Mathlib.Algebra.BigOperators.Fin

/-! # C218: the built-in kernels of the support vector machines -/
set_option autoImplicit false

namespace Sk.Svm

/-! ## Specification -/

/-- Quadratic form of the kernel values between the rows of `X`. -/
def quad {m d : ℕ} (k : List ℝ → List ℝ → ℝ) (X : Fin m → Fin d → ℝ) (v : Fin m → ℝ) : ℝ := ∑ i, ∑ j, v i * v j * k (List.ofFn (X i)) (List.ofFn (X j))

/-- A kernel is positive semidefinite: on all data its quadratic form is nonnegative. -/
def PosKernel (k : List ℝ → List ℝ → ℝ) : Prop := ∀ (m d : ℕ) (X : Fin m → Fin d → ℝ) (v : Fin m → ℝ), 0 ≤ quad k X v

/-- `pow` is the power function at the exponent `p`, a natural number (as is `math.Pow`). -/
def PowAt (pow : ℝ → ℝ → ℝ) (p : ℕ) : Prop := ∀ x, pow x p = x ^ p

/-! ## Positive semidefinite kernels -/

theorem linear_ofFn {d : ℕ} (x y : Fin d → ℝ) : linearKernel (List.ofFn x) (List.ofFn y) = ∑ f, x f * y f := by
  rw [linearKernel, zip_ofFn]

theorem rbf_ofFn {d : ℕ} (gamma : ℝ) (x y : Fin d → ℝ) : rbfKernel Real.exp gamma (List.ofFn x) (List.ofFn y) = Real.exp (-gamma * ∑ f, (x f - y f) * (x f - y f)) := by
  rw [rbfKernel, zip_ofFn]

/-- **C218.** The linear kernel, the polynomial kernel of a natural degree with `gamma, coef0 ≥ 0` and the RBF kernel with `gamma ≥ 0` are positive semidefinite.
Missing for the full claim: what `C218_sigmoid_violated`, `C218_fit_sigmoid_violated`, `C218_poly_violated` refute. -/
theorem C218_positive_partial (pow : ℝ → ℝ → ℝ) (p : ℕ) (hp : PowAt pow p) (gamma coef0 : ℝ) (hg : 0 ≤ gamma) (hc : 0 ≤ coef0) :
    PosKernel linearKernel ∧ PosKernel (polyKernel pow gamma coef0 p) ∧ PosKernel (rbfKernel Real.exp gamma) := by
  have hsym : ∀ {m d : ℕ} (X : Fin m → Fin d → ℝ) (i j : Fin m), ∑ f, X i f * X j f = ∑ f, X j f * X i f := fun X i j => Finset.sum_congr rfl fun f _ => mul_comm _ _
  refine ⟨fun m d X v => ?_, fun m d X v => ?_, fun m d X v => ?_⟩
  · simp only [quad, linear_ofFn]
    exact GP.psd_dot X v
  · simp only [quad, polyKernel, linear_ofFn, hp _]
    have h1 : GP.PSD (fun i j : Fin m => gamma * (∑ f, X i f * X j f) + coef0) :=
      GP.psd_add (GP.psd_smul gamma hg (GP.psd_dot X)) (by simpa using GP.psd_smul coef0 hc (GP.psd_rank_one (fun _ : Fin m => (1 : ℝ))))
    exact GP.psd_pow (fun i j => by rw [hsym X i j]) h1 p v
  · simp only [quad, rbf_ofFn]
    have he : (fun i j : Fin m => Real.exp (-gamma * ∑ f, (X i f - X j f) * (X i f - X j f))) = (fun i j =>
        (Real.exp (-gamma * ∑ f, X i f * X i f) * Real.exp (-gamma * ∑ f, X j f * X j f)) * Real.exp ((2 * gamma) * ∑ f, X i f * X j f)) := by
      funext i j
      rw [← Real.exp_add, ← Real.exp_add]
      congr 1
      rw [Finset.mul_sum, Finset.mul_sum, Finset.mul_sum, Finset.mul_sum, ← Finset.sum_add_distrib, ← Finset.sum_add_distrib]
      exact Finset.sum_congr rfl (fun f _ => by ring)
    have h2 := GP.psd_mul (fun i j => mul_comm _ _) (fun i j => by rw [hsym X i j]) (GP.psd_rank_one fun i : Fin m => Real.exp (-gamma * ∑ f, X i f * X i f))
      (GP.psd_exp (fun i j => by rw [hsym X i j]) (GP.psd_smul (2 * gamma) (by linarith) (GP.psd_dot X)))
    rw [← he] at h2
    exact h2 v

/-- The power function of the reals is one at every natural exponent. -/
example (p : ℕ) : PowAt (fun x y => x ^ y) p := fun x => Real.rpow_natCast x p

/-! ## Values -/

/-- **C218.** Values of the RBF kernel with `gamma > 0` are in (0, 1], and 1 exactly for equal rows. -/
theorem C218_rbf_values {d : ℕ} (gamma : ℝ) (hg : 0 < gamma) (x y : Fin d → ℝ) :
    0 < rbfKernel Real.exp gamma (List.ofFn x) (List.ofFn y) ∧ rbfKernel Real.exp gamma (List.ofFn x) (List.ofFn y) ≤ 1 ∧
    (rbfKernel Real.exp gamma (List.ofFn x) (List.ofFn y) = 1 ↔ x = y) := by
  have h0 : 0 ≤ ∑ f, (x f - y f) * (x f - y f) := Finset.sum_nonneg fun f _ => mul_self_nonneg _
  simp only [rbf_ofFn]
  refine ⟨Real.exp_pos _, ?_, ?_⟩
  · rw [Real.exp_le_one_iff]
    nlinarith [mul_nonneg hg.le h0]
  · rw [Real.exp_eq_one_iff]
    constructor
    · intro h
      have h1 : ∑ f, (x f - y f) * (x f - y f) = 0 := by
        rcases mul_eq_zero.1 h with h | h
        · linarith
        · exact h
      rw [Finset.sum_eq_zero_iff_of_nonneg (fun f _ => mul_self_nonneg _)] at h1
      funext f
      exact sub_eq_zero.1 (mul_self_eq_zero.1 (h1 f (Finset.mem_univ f)))
    · rintro rfl
      simp

/-- **C218.** Values of a positive semidefinite kernel between two rows are bounded by those of the rows with themselves. -/
theorem C218_cauchy_schwarz {d : ℕ} (k : List ℝ → List ℝ → ℝ) (hk : PosKernel k) (hs : ∀ a b, k a b = k b a) (x y : Fin d → ℝ) :
    0 ≤ k (List.ofFn x) (List.ofFn x) ∧ k (List.ofFn x) (List.ofFn y) ^ 2 ≤ k (List.ofFn x) (List.ofFn x) * k (List.ofFn y) (List.ofFn y) := by
  have hq : ∀ s t : ℝ, 0 ≤ s * s * k (List.ofFn x) (List.ofFn x) + 2 * (s * t) * k (List.ofFn x) (List.ofFn y) + t * t * k (List.ofFn y) (List.ofFn y) := by
    intro s t
    have h := hk 2 d ![x, y] ![s, t]
    simp only [quad, Fin.sum_univ_two, Matrix.cons_val_zero, Matrix.cons_val_one] at h
    rw [hs (List.ofFn y) (List.ofFn x)] at h
    linarith
  have ha := hq 1 0
  have hb := hq 0 1
  refine ⟨by linarith, ?_⟩
  generalize k (List.ofFn x) (List.ofFn x) = a at *
  generalize k (List.ofFn x) (List.ofFn y) = c at *
  generalize k (List.ofFn y) (List.ofFn y) = b at *
  have ha' : 0 ≤ a := by linarith
  rcases ha'.eq_or_lt with h0 | h0
  · -- `a = 0`: the form is linear in `s`
    subst h0
    by_contra hn
    have hc : c ≠ 0 := by rintro rfl; simp at hn
    have h1 := hq (-(b + 1) / (2 * c)) 1
    have h2 : 2 * (-(b + 1) / (2 * c) * 1) * c = -(b + 1) := by field_simp
    rw [h2] at h1
    linarith
  · have h1 := hq (-c) a
    have h2 : 0 ≤ a * (a * b - c ^ 2) := by nlinarith [h1]
    have h3 := nonneg_of_mul_nonneg_right h2 h0
    linarith

/-! ## Kernels that are not positive semidefinite -/

theorem tanh_beats (T : ℝ) (hT : T < 1) : ∃ s0 : ℝ, ∀ s, s0 ≤ s → T < Real.tanh s ^ 2 := by
  refine ⟨2 / (1 - T), fun s hs => ?_⟩
  have hd : 0 < 1 - T := by linarith
  have h1 : 1 / (1 - T) < Real.cosh s := by
    have h2 : s + 1 ≤ Real.exp s := Real.add_one_le_exp s
    have h3 : 0 < Real.exp (-s) := Real.exp_pos _
    have h4 : 2 / (1 - T) = 2 * (1 / (1 - T)) := by ring
    rw [Real.cosh_eq]
    linarith
  have h5 : 1 ≤ Real.cosh s := by nlinarith [Real.cosh_sq s, Real.cosh_pos s, sq_nonneg (Real.sinh s)]
  have h6 : 1 / (1 - T) < Real.cosh s ^ 2 := by nlinarith
  have h7 : 0 < Real.cosh s ^ 2 := by positivity
  have h8 : Real.tanh s ^ 2 = 1 - 1 / Real.cosh s ^ 2 := by
    rw [Real.tanh_eq_sinh_div_cosh, div_pow, Real.sinh_sq]
    field_simp
  have h9 : 1 / Real.cosh s ^ 2 < 1 - T := by
    rw [div_lt_iff₀ h7]
    rw [div_lt_iff₀ hd] at h6
    linarith
  rw [h8]
  linarith

/-- **C218 violated**: whatever its (positive) `gamma` and its `coef0`, the sigmoid kernel is not positive semidefinite. -/
theorem C218_sigmoid_violated (gamma coef0 : ℝ) (hg : 0 < gamma) : ¬ PosKernel (sigmoidKernel Real.tanh gamma coef0) := by
  intro hk
  obtain ⟨s0, h0⟩ := tanh_beats |Real.tanh (gamma + coef0)| (Real.abs_tanh_lt_one _)
  have h1 := (C218_cauchy_schwarz _ hk (fun a b => (C35_kernels (fun x _ => x) Real.exp Real.tanh gamma coef0 0 a b).2.2.2.1) ![1] ![(s0 - coef0) / gamma]).2
  simp only [sigmoidKernel, linear_ofFn, Fin.sum_univ_one, Matrix.cons_val_zero, mul_one, one_mul] at h1
  have h2 := h0 (gamma * ((s0 - coef0) / gamma) + coef0) (by rw [mul_div_cancel₀ _ hg.ne']; linarith)
  have h3 : Real.tanh (gamma + coef0) * Real.tanh (gamma * ((s0 - coef0) / gamma * ((s0 - coef0) / gamma)) + coef0) ≤ |Real.tanh (gamma + coef0)| := by
    refine (le_abs_self _).trans ?_
    rw [abs_mul]
    exact mul_le_of_le_one_right (abs_nonneg _) (Real.abs_tanh_lt_one _).le
  linarith

/-- **C218 violated**: neither is a polynomial kernel of odd degree with a negative `coef0`. -/
theorem C218_poly_violated (pow : ℝ → ℝ → ℝ) (p : ℕ) (hp : PowAt pow p) (hodd : Odd p) (gamma coef0 : ℝ) (hc : coef0 < 0) : ¬ PosKernel (polyKernel pow gamma coef0 p) := by
  intro hk
  have h1 := (C218_cauchy_schwarz _ hk (fun a b => (C35_kernels pow Real.exp Real.tanh gamma coef0 (p : ℝ) a b).2.1) ![0] ![0]).1
  simp only [polyKernel, linear_ofFn, Fin.sum_univ_one, Matrix.cons_val_zero, hp _, mul_zero, zero_add] at h1
  exact absurd h1 (not_le.2 (hodd.pow_neg hc))

/-! ## The kernels of fitted estimators -/

open SvmState in
theorem fit_kernel {D : Type} (F : Fns ℝ) (solve : Solve ℝ D) (st st' : SvmState.St ℝ) (i : ℕ) (X Y : List (List ℝ)) (d : ℕ → D) (o : Obj ℝ) (ho : st.objs[i]? = some o) (h : SvmState.fit F solve st i X Y d = some st') :
    ∃ k models, kernelOf F (if o.gamma ≤ 0 then 1 / (width X : ℝ) else o.gamma) o.rest = some k ∧ st'.heap = st.heap ++ [models] ∧ models.length = Y.length ∧ ∀ M ∈ models, M.kernel = k := by
  unfold SvmState.fit at h
  simp only [ho, Option.bind_eq_bind, Option.bind_some, Option.bind_eq_some_iff] at h
  obtain ⟨k, hk, ms, hm, e⟩ := h
  obtain rfl := Option.some.inj e
  refine ⟨k, ms, hk, rfl, ?_, ?_⟩
  · rw [mapM_length hm, List.length_range]
  · have h2 := (ListX.mapM_forall2 _ _ _).1 hm
    intro M hM
    obtain ⟨n, hn, rfl⟩ := List.getElem_of_mem hM
    have h3 := (List.forall₂_iff_get.1 h2).2 n (by rw [h2.length_eq]; exact hn) hn
    simp only [Option.bind_eq_some_iff] at h3
    obtain ⟨y, -, h4⟩ := h3
    unfold trainOutput at h4
    simp only [Option.bind_eq_bind, Option.bind_eq_some_iff] at h4
    obtain ⟨e1, -, e2, -, h5⟩ := h4
    have := Option.some.inj h5
    simp only [List.get_eq_getElem] at this
    rw [← this]

/-- The functions of package math, as far as the kernels need them. -/
structure RealFns (F : SvmState.Fns ℝ) : Prop where
  exp : F.exp = Real.exp
  tanh : F.tanh = Real.tanh
  pow : ∀ p : ℕ, PowAt F.pow p

open SvmState in
/-- **C218, estimators.** Fitting an SVC or SVR, whatever `Gamma`, with a named kernel other than "sigmoid" (for "poly": natural `Degree` and `Coef0 ≥ 0`), on rows with at least one feature, stores a model with a positive
semidefinite kernel for every output.
Missing for the full claim: what `C218_sigmoid_violated`, `C218_fit_sigmoid_violated`, `C218_poly_violated` refute. -/
theorem C218_fit_partial {D : Type} (F : Fns ℝ) (hF : RealFns F) (solve : Solve ℝ D) (st st' : SvmState.St ℝ) (i : ℕ) (X Y : List (List ℝ)) (d : ℕ → D) (o : Obj ℝ) (ho : st.objs[i]? = some o) (name : String) (hn : o.rest.kernel = .name name)
    (hs : name ≠ "sigmoid") (hp : name = "poly" ∨ name = "polynomial" → 0 ≤ o.rest.coef0 ∧ ∃ p : ℕ, o.rest.degree = p) (h : SvmState.fit F solve st i X Y d = some st') :
    ∃ models, st'.heap = st.heap ++ [models] ∧ models.length = Y.length ∧ ∀ M ∈ models, PosKernel M.kernel := by
  obtain ⟨k, ms, hk, h1, h2, h3⟩ := fit_kernel F solve st st' i X Y d o ho h
  refine ⟨ms, h1, h2, fun M hM => ?_⟩
  rw [h3 M hM]
  have hg : 0 ≤ (if o.gamma ≤ 0 then 1 / (width X : ℝ) else o.gamma) := by
    split
    · positivity
    · rename_i hng
      exact (not_le.1 hng).le
  simp only [kernelOf, hn, if_neg hs] at hk
  split at hk
  · obtain rfl := Option.some.inj hk
    exact (C218_positive_partial F.pow 0 (hF.pow 0) 0 0 le_rfl le_rfl).1
  · split at hk
    · rename_i hpoly
      obtain ⟨hc, p, hd⟩ := hp hpoly
      obtain rfl := Option.some.inj hk
      rw [hd]
      exact (C218_positive_partial F.pow p (hF.pow p) _ _ hg hc).2.1
    · obtain rfl := Option.some.inj hk
      rw [hF.exp]
      exact (C218_positive_partial F.pow 0 (hF.pow 0) _ 0 hg le_rfl).2.2

open SvmState in
/-- **C218, estimators, violated**: with the kernel "sigmoid" no output gets one, whatever the settings and the data. -/
theorem C218_fit_sigmoid_violated {D : Type} (F : Fns ℝ) (hF : RealFns F) (solve : Solve ℝ D) (st st' : SvmState.St ℝ) (i : ℕ) (X Y : List (List ℝ)) (hX : 0 < (X.headD []).length) (d : ℕ → D) (o : Obj ℝ) (ho : st.objs[i]? = some o)
    (hn : o.rest.kernel = .name "sigmoid") (h : SvmState.fit F solve st i X Y d = some st') :
    ∃ models, st'.heap = st.heap ++ [models] ∧ models.length = Y.length ∧ ∀ M ∈ models, ¬ PosKernel M.kernel := by
  obtain ⟨k, ms, hk, h1, h2, h3⟩ := fit_kernel F solve st st' i X Y d o ho h
  refine ⟨ms, h1, h2, fun M hM => ?_⟩
  rw [h3 M hM]
  have hg : 0 < (if o.gamma ≤ 0 then 1 / (width X : ℝ) else o.gamma) := by
    split
    · have : (0 : ℝ) < (width X : ℝ) := by exact_mod_cast hX
      positivity
    · rename_i hng
      exact not_le.1 hng
  simp only [kernelOf, hn] at hk
  rw [if_neg (by decide), if_neg (by decide), if_pos trivial] at hk
  obtain rfl := Option.some.inj hk
  rw [hF.tanh]
  exact C218_sigmoid_violated _ _ hg

/-- The functions exist. -/
example : RealFns ⟨Real.exp, Real.tanh, fun x y => x ^ y⟩ := ⟨rfl, rfl, fun p x => Real.rpow_natCast x p⟩

open SvmState in
/-- A fit with the default settings succeeds (with a training that takes the first sample as support). -/
noncomputable example : ∃ st', SvmState.fit (⟨Real.exp, Real.tanh, fun x y => x ^ y⟩ : Fns ℝ) (fun _ _ _ _ (_ : ℕ) => some ([(0, 1)], 0)) ⟨[SvmState.new], []⟩ 0 [[1], [3]] [[1, -1]] id = some st' := ⟨_, rfl⟩

/-! ## Training with these kernels -/

theorem posKernel_form {m d : ℕ} (k : List ℝ → List ℝ → ℝ) (hk : PosKernel k) (X : Fin m → Fin d → ℝ) (u : Fin m → ℝ) : 0 ≤ form (fun i j => k (List.ofFn (X i)) (List.ofFn (X j))) u u := hk m d X u

/-- **C218, training.** An SVC with the linear kernel, a polynomial one (natural degree, `gamma, coef0 ≥ 0`) or an RBF one (`gamma ≥ 0`) whose training ends with the optimality conditions met is within `m·C·Epsilon` of the best
cost, on all data labelled -1/+1; likewise an SVR, within `2·m·C·Epsilon`. -/
theorem C218_training {m d : ℕ} (pow : ℝ → ℝ → ℝ) (p : ℕ) (hp : PowAt pow p) (gamma coef0 : ℝ) (hg : 0 ≤ gamma) (hc : 0 ≤ coef0) (k : List ℝ → List ℝ → ℝ)
    (hk : k = linearKernel ∨ k = polyKernel pow gamma coef0 p ∨ k = rbfKernel Real.exp gamma) (X : Fin m → Fin d → ℝ) {C eps : ℝ} (hC : 0 ≤ C) (he : 0 ≤ eps) (tol : ℝ) (maxPasses : ℕ) (draws : ℕ → Fin m → ℕ) (fuel : ℕ) (st : St m ℝ) :
    (∀ Y : Fin m → ℝ, (∀ i, Y i = 1 ∨ Y i = -1) → loop (svcStep (fun i j => k (List.ofFn (X i)) (List.ofFn (X j))) Y C eps tol) maxPasses draws fuel 0 0 (start m ℝ) = .done st →
      (∀ u b, svcCost (fun i j => k (List.ofFn (X i)) (List.ofFn (X j))) Y C (fun i => st.α i * Y i) st.b ≤ svcCost (fun i j => k (List.ofFn (X i)) (List.ofFn (X j))) Y C u b + m * C * eps) ∨
      Stalled (svcStep (fun i j => k (List.ofFn (X i)) (List.ofFn (X j))) Y C eps tol) draws maxPasses st) ∧
    (∀ Y : Fin m → ℝ, loop (svrStep (fun i j => k (List.ofFn (X i)) (List.ofFn (X j))) Y C eps tol) maxPasses draws fuel 0 0 (start m ℝ) = .done st →
      (∀ u b, svrCost (fun i j => k (List.ofFn (X i)) (List.ofFn (X j))) Y C eps st.α st.b ≤ svrCost (fun i j => k (List.ofFn (X i)) (List.ofFn (X j))) Y C eps u b + 2 * (m * C * eps)) ∨
      Stalled (svrStep (fun i j => k (List.ofFn (X i)) (List.ofFn (X j))) Y C eps tol) draws maxPasses st) := by
  obtain ⟨p1, p2, p3⟩ := C218_positive_partial pow p hp gamma coef0 hg hc
  have hs : (∀ a b, k a b = k b a) ∧ PosKernel k := by
    have hsym := fun a b => C35_kernels pow Real.exp Real.tanh gamma coef0 (p : ℝ) a b
    rcases hk with rfl | rfl | rfl
    · exact ⟨fun a b => (hsym a b).1, p1⟩
    · exact ⟨fun a b => (hsym a b).2.1, p2⟩
    · exact ⟨fun a b => (hsym a b).2.2.1, p3⟩
  exact ⟨fun Y hY h => C217_svc_partial _ (fun i j => hs.1 _ _) (posKernel_form k hs.2 X) Y hY hC he tol maxPasses draws fuel st h,
    fun Y h => C217_svr_partial _ (fun i j => hs.1 _ _) (posKernel_form k hs.2 X) Y hC he le_rfl tol maxPasses draws fuel st h⟩

end Sk.Svm
