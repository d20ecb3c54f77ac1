import Mathlib.Analysis.SpecialFunctions.ExpDeriv
import Mathlib.Analysis.SpecialFunctions.Log.Basic
import Mathlib.Analysis.SpecialFunctions.Trigonometric.Basic
import Mathlib.Algebra.BigOperators.Fin
import Mathlib.LinearAlgebra.Matrix.NonsingularInverse

/-!
# `gaussian_process/kernels/kernels.go`, `gaussian_process/gpr.go`

Rows of the data are functions `Fin d → ℝ`.  Each kernel's `Eval` fills the matrix entry by entry from one row of `X` and one row of `Y`, so the model is a function of two rows; the gradient, which the code
fills by position, is modelled by position.  Rounding is not modelled.
-/
set_option autoImplicit false

namespace Sk.GP

/-- A hyperparameter: its value and whether it is fixed (`IsFixed`, /repo/gaussian_process/kernels/kernels.go:19-28: equal bounds). -/
abbrev Hyper := ℝ × Bool

/-- The kernels, /repo/gaussian_process/kernels/kernels.go: `ConstantKernel` (328-332), `WhiteKernel` (413-417), `RBF` (508-513), `DotProduct` (633-636), `Sum` (159-161), `Product` (213-215) and
`Exponentiation` (277-280; exponents that are natural numbers only). -/
inductive Kern where
  | const (h : Hyper)
  | white (h : Hyper)
  | rbf (ls : List Hyper)
  | dot (h : Hyper)
  | sum (k₁ k₂ : Kern)
  | prod (k₁ k₂ : Kern)
  | exp (k : Kern) (p : ℕ)

/-- `floats.EqualWithinAbsOrRel` with both tolerances `1e-8` (gonum), used by `floats.EqualApprox` in /repo/gaussian_process/kernels/kernels.go:458. -/
def approxEq (a b : ℝ) : Prop := |a - b| ≤ 1e-8 ∨ |a - b| ≤ 1e-8 * max |a| |b|

/-- `scale`, /repo/gaussian_process/kernels/kernels.go:553-563: the length scale of feature `f`. -/
noncomputable def scaleOf (ls : List Hyper) (f : ℕ) : ℝ := if ls.length = 1 then (ls.getD 0 (1, true)).1 else (ls.getD f (1, true)).1

/-- One entry of the matrix computed by `Eval`, /repo/gaussian_process/kernels/kernels.go: constant 370-374, white 453-463, RBF 569-584, dot product 670-681, sum 171-173, product 226-229,
exponentiation 295-298. -/
noncomputable def Kern.val {d : ℕ} : Kern → (Fin d → ℝ) → (Fin d → ℝ) → ℝ
  | .const h, _, _ => h.1
  | .white h, x, y => open Classical in if ∀ f, approxEq (x f) (y f) then h.1 else 0
  | .rbf ls, x, y => Real.exp (-0.5 * ∑ f : Fin d, (x f / scaleOf ls f - y f / scaleOf ls f) * (x f / scaleOf ls f - y f / scaleOf ls f))
  | .dot h, x, y => h.1 * h.1 + ∑ f, x f * y f
  | .sum k₁ k₂, x, y => k₁.val x y + k₂.val x y
  | .prod k₁ k₂, x, y => k₁.val x y * k₂.val x y
  | .exp k p, x, y => k.val x y ^ p

/-- Whether `Eval` on rows of `d` features gets past the length check of /repo/gaussian_process/kernels/kernels.go:558-561 in every `RBF`. -/
def Kern.evalOK (d : ℕ) : Kern → Bool
  | .const _ => true
  | .white _ => true
  | .rbf ls => ls.length = 1 || ls.length = d
  | .dot _ => true
  | .sum k₁ k₂ => k₁.evalOK d && k₂.evalOK d
  | .prod k₁ k₂ => k₁.evalOK d && k₂.evalOK d
  | .exp k _ => k.evalOK d

/-- The matrix returned by `Eval(X, Y, false)`; `none` is the panic for a length scale of the wrong dimension. -/
noncomputable def Kern.evalM {n m d : ℕ} (k : Kern) (X : Fin n → Fin d → ℝ) (Y : Fin m → Fin d → ℝ) : Option (Matrix (Fin n) (Fin m) ℝ) :=
  if k.evalOK d then some (Matrix.of fun i j => k.val (X i) (Y j)) else none

/-- One entry of `Diag`, /repo/gaussian_process/kernels/kernels.go: normalised kernels 93-102, sum 195-205, product 258-269, exponentiation 310-319, constant 392-401, white 483-492, dot product 698-711. -/
noncomputable def Kern.diag {d : ℕ} : Kern → (Fin d → ℝ) → ℝ
  | .const h, _ => h.1
  | .white h, _ => h.1
  | .rbf _, _ => 1
  | .dot h, x => h.1 * h.1 + ∑ f, x f * x f
  | .sum k₁ k₂, x => k₁.diag x + k₂.diag x
  | .prod k₁ k₂, x => k₁.diag x * k₂.diag x
  | .exp k p, x => k.diag x ^ p

/-- `IsStationary`, /repo/gaussian_process/kernels/kernels.go:87, 154-156, 714 (`Exponentiation` takes the method of the kernel it embeds). -/
def Kern.isStationary : Kern → Bool
  | .const _ => true
  | .white _ => true
  | .rbf _ => true
  | .dot _ => false
  | .sum k₁ k₂ => k₁.isStationary && k₂.isStationary
  | .prod k₁ k₂ => k₁.isStationary && k₂.isStationary
  | .exp k _ => k.isStationary

/-! ## Hyperparameters -/

/-- `hyperparameters()`, /repo/gaussian_process/kernels/kernels.go:110-112, 335-339, 420-424, 516-523, 639-643.  `none`: `Exponentiation.hyperparameters` (283-291) calls itself without end. -/
def Kern.hyper : Kern → Option (List Hyper)
  | .const h => some [h]
  | .white h => some [h]
  | .rbf ls => some ls
  | .dot h => some [h]
  | .sum k₁ k₂ => do
    let a ← k₁.hyper
    let b ← k₂.hyper
    some (a ++ b)
  | .prod k₁ k₂ => do
    let a ← k₁.hyper
    let b ← k₂.hyper
    some (a ++ b)
  | .exp _ _ => none

/-- The entries of `hyperparameters.Theta()`, /repo/gaussian_process/kernels/kernels.go:33-49: logarithms of the values that are not fixed. -/
noncomputable def thetaOf (hs : List Hyper) : List ℝ := (hs.filter (fun h => !h.2)).map (fun h => Real.log h.1)

/-- `Theta()`, /repo/gaussian_process/kernels/kernels.go:115-117, 342-344, 427-429, 526-528, 646-648; `Exponentiation` takes the method of the kernel it embeds. -/
noncomputable def Kern.theta : Kern → Option (List ℝ)
  | .exp k _ => k.theta
  | k => k.hyper.map thetaOf

/-- `matCopy` into `Theta()`, /repo/gaussian_process/kernels/matutil.go:48-55 and kernels.go:50-52: the first free value becomes the exponential of the first entry, and so on; `none`: more entries than free
values (index out of range). -/
noncomputable def setFree : List Hyper → List ℝ → Option (List Hyper)
  | hs, [] => some hs
  | [], _ :: _ => none
  | (v, true) :: hs, ts => do
    let r ← setFree hs ts
    some ((v, true) :: r)
  | (_, false) :: hs, t :: ts => do
    let r ← setFree hs ts
    some ((Real.exp t, false) :: r)

/-- The first value of a list of hyperparameters (for kernels with a single one). -/
def headH (h : Hyper) (l : List Hyper) : Hyper := l.headD h

/-- `CloneWithTheta`, /repo/gaussian_process/kernels/kernels.go: constant 352-356, white 437-441 (the copy goes into the receiver, not into the clone), RBF 536-544, dot product 656-660, sum and product 125-136,
164-166, 218-221, exponentiation: the method of the embedded kernel.  `none`: panic, or a call of `Exponentiation.hyperparameters`.  `td.Slice(n1, n1+n2, 0, 1)` panics when it starts at the end of `theta`. -/
noncomputable def Kern.clone : Kern → List ℝ → Option Kern
  | .const h, t => (setFree [h] t).map (fun l => .const (headH h l))
  | .white h, t => (setFree [h] t).map (fun _ => .white h)
  | .rbf ls, t => (setFree ls t).map .rbf
  | .dot h, t => (setFree [h] t).map (fun l => .dot (headH h l))
  | .sum k₁ k₂, t => do
    let t₁ ← k₁.theta
    let t₂ ← k₂.theta
    if t.length ≤ t₁.length ∨ t.length < t₁.length + t₂.length then none else do
      let c₁ ← k₁.clone (t.take t₁.length)
      let c₂ ← k₂.clone ((t.drop t₁.length).take t₂.length)
      some (.sum c₁ c₂)
  | .prod k₁ k₂, t => do
    let t₁ ← k₁.theta
    let t₂ ← k₂.theta
    if t.length ≤ t₁.length ∨ t.length < t₁.length + t₂.length then none else do
      let c₁ ← k₁.clone (t.take t₁.length)
      let c₂ ← k₂.clone ((t.drop t₁.length).take t₂.length)
      some (.prod c₁ c₂)
  | .exp k _, t => k.clone t

/-! ## Gradient -/

/-- The gradient tensor returned by `Eval(X, nil, true)`, as the list of its `n × n` slices: constant 375-387, white 464-479, RBF 585-609, dot product 682-694, sum 174-190, product 230-253, exponentiation
299-305 (which uses the entries already raised to the power).  `none`: index out of range in exponentiation, when the embedded kernel has several free hyperparameters. -/
noncomputable def Kern.grad {n d : ℕ} : Kern → (Fin n → Fin d → ℝ) → Option (List (Fin n → Fin n → ℝ))
  | .const h, _ => some (if h.2 then [] else [fun _ _ => h.1])
  | .white h, _ => some (if h.2 then [] else [fun i j => if i = j then h.1 else 0])
  | .rbf ls, X => match ls with
    | [] => none
    | (_, fixed) :: _ => some (if fixed then [] else [fun i j => (Kern.rbf ls).val (X i) (X j) *
        ∑ f : Fin d, ((X i f - X j f) / scaleOf ls f) * ((X i f - X j f) / scaleOf ls f)])
  | .dot h, _ => some (if h.2 then [] else [fun _ _ => 2 * h.1 * h.1])
  | .sum k₁ k₂, X => do
    let g₁ ← k₁.grad X
    let g₂ ← k₂.grad X
    some (g₁ ++ g₂)
  | .prod k₁ k₂, X => do
    let g₁ ← k₁.grad X
    let g₂ ← k₂.grad X
    some (g₁.map (fun G i j => G i j * k₂.val (X i) (X j)) ++ g₂.map (fun G i j => G i j * k₁.val (X i) (X j)))
  | .exp k p, X => do
    let g ← k.grad X
    if 1 < g.length ∧ 0 < n then none else
      some (g.map (fun G i j => G i j * (p * (k.val (X i) (X j) ^ p) ^ (p - 1))))

/-! ## Regressor -/

/-- Fields of `Regressor` that matter here, /repo/gaussian_process/gpr.go:17-31: `alpha`, the training data and `YtrainMean` (never assigned by the package). -/
structure Regressor (d q : ℕ) where
  kernel : Kern
  alpha : List ℝ
  train : Option (Σ n : ℕ, (Fin n → Fin d → ℝ) × (Fin n → Fin q → ℝ))
  ytrainMean : Option (List (List ℝ))

/-- `Fit`, /repo/gaussian_process/gpr.go:76-84: `_, ry := Y.Dims()` is the number of columns of `Y`. -/
def Regressor.fit {n d q : ℕ} (m : Regressor d q) (X : Fin n → Fin d → ℝ) (Y : Fin n → Fin q → ℝ) : Option (Regressor d q) :=
  if m.alpha.length ≠ 1 ∧ m.alpha.length ≠ q then none else some { m with train := some ⟨n, X, Y⟩ }

/-- `PredictEx(X, Y, false, false)`, /repo/gaussian_process/gpr.go:87-124, for `N` new rows.  `old` is the content of the matrix passed as `Y` if it is a `*mat.Dense`.  `none` is a panic:
`mat.NewDense(NSamples, 1, m.Alpha)` needs as many values as rows (115), `Mul` needs that many training rows and one output column, `Add` dereferences `YtrainMean` (116). -/
noncomputable def Regressor.predict {N d q : ℕ} (m : Regressor d q) (X : Fin N → Fin d → ℝ) (old : Option (Fin N → Fin q → ℝ)) : Option (Fin N → Fin q → ℝ) :=
  match m.train with
  | none => some (old.getD (fun _ _ => 0))
  | some ⟨n, Xt, _⟩ =>
    if m.alpha.length ≠ N ∨ n ≠ N ∨ q ≠ 1 then none
    else match m.kernel.evalM X Xt, m.ytrainMean with
      | some K, some mean => some (fun i _ => (∑ j, K i j * m.alpha.getD j 0) + (mean.getD i []).getD 0 0)
      | _, _ => none

/-- The matrix whose Cholesky factorisation is computed, /repo/gaussian_process/gpr.go:155-167: `alpha` is added to the diagonal (a single value to every entry); `none`: `m.Alpha[i]` out of range. -/
noncomputable def addAlpha {n : ℕ} (alpha : List ℝ) (K : Matrix (Fin n) (Fin n) ℝ) : Option (Matrix (Fin n) (Fin n) ℝ) :=
  if alpha.length = 1 then some (K + Matrix.diagonal (fun _ => alpha.getD 0 0))
  else if alpha.length < n then none else some (K + Matrix.diagonal (fun i : Fin n => alpha.getD i.val 0))

/-- The matrix factorised by `LogMarginalLikelihood(Theta, …)`, /repo/gaussian_process/gpr.go:148-167: the kernel is `KernelOpt.CloneWithTheta(Theta)`, evaluated on the training rows; `alpha` is added to the
diagonal.  `none`: panic in one of the three. -/
noncomputable def lmlMatrix {n d : ℕ} (alpha : List ℝ) (k : Kern) (X : Fin n → Fin d → ℝ) (theta : List ℝ) : Option (Matrix (Fin n) (Fin n) ℝ) :=
  (k.clone theta).bind fun c => (c.evalM X X).bind (addAlpha alpha)

/-- The slices of the kernel gradient used by `LogMarginalLikelihood(Theta, true)`, /repo/gaussian_process/gpr.go:148,153: those of the clone. -/
noncomputable def lmlSlices {n d : ℕ} (k : Kern) (X : Fin n → Fin d → ℝ) (theta : List ℝ) : Option (List (Fin n → Fin n → ℝ)) :=
  (k.clone theta).bind fun c => c.grad X

/-- The value of `LogMarginalLikelihood`, /repo/gaussian_process/gpr.go:182-210, from the Cholesky factor `L` and the solution `A` of `K A = Y` returned by gonum. -/
noncomputable def lml {n q : ℕ} (L : Matrix (Fin n) (Fin n) ℝ) (A Y : Matrix (Fin n) (Fin q) ℝ) : ℝ :=
  ∑ c, (-0.5 * (∑ i, Y i c * A i c) - (∑ i, Real.log (L i i)) - n / 2 * Real.log (2 * Real.pi))

/-- One entry of the gradient of `LogMarginalLikelihood`, /repo/gaussian_process/gpr.go:222-268, for the slice `G` of the kernel's gradient; `Kinv` is the solution of `K Kinv = 1` returned by gonum. -/
noncomputable def lmlGrad {n q : ℕ} (Kinv : Matrix (Fin n) (Fin n) ℝ) (A : Matrix (Fin n) (Fin q) ℝ) (G : Fin n → Fin n → ℝ) : ℝ :=
  ∑ c, 0.5 * ∑ i, ∑ j, (A i c * A j c - Kinv i j) * G i j

end Sk.GP
