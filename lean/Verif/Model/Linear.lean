import Mathlib.Analysis.SpecialFunctions.Sqrt
import Mathlib.Analysis.SpecialFunctions.ExpDeriv
import Mathlib.Analysis.SpecialFunctions.Log.Deriv
import Mathlib.Algebra.BigOperators.Fin

/-!
# `linear_model/Base.go` and `linear_model/loss.go`

Matrices are functions on `Fin` with real entries (`n` samples, `p` features, `q` outputs).
-/
set_option autoImplicit false

namespace Sk.Lin

/-! ## Centring, scaling and recombination -/

/-- Output of `PreprocessData` for the features and one output. -/
structure Pre (n p : ℕ) where
  X : Fin n → Fin p → ℝ
  y : Fin n → ℝ
  xoff : Fin p → ℝ
  yoff : ℝ
  xscale : Fin p → ℝ

/-- `PreprocessData`, /repo/linear_model/Base.go:592-660, one output column.  `SampleWeight` is not used by the code.  With `FitIntercept = false` the data are only copied and the
scale is 1 even if `Normalize` is set. -/
noncomputable def preprocess {n p : ℕ} (fitIntercept normalize : Bool) (X : Fin n → Fin p → ℝ) (y : Fin n → ℝ) : Pre n p :=
  if fitIntercept then
    let mean : Fin p → ℝ := fun j => (∑ i, X i j) / n
    let Xc : Fin n → Fin p → ℝ := fun i j => X i j - mean j
    let scale : Fin p → ℝ := fun j => if normalize then Real.sqrt (∑ i, Xc i j * Xc i j) else 1
    let Xs : Fin n → Fin p → ℝ := fun i j => if scale j ≠ 0 then Xc i j / scale j else Xc i j
    let ym := (∑ i, y i) / n
    ⟨Xs, fun i => y i - ym, mean, ym, scale⟩
  else ⟨X, y, fun _ => 0, 0, fun _ => 1⟩

/-- Trained coefficients and intercept of one output. -/
structure Coefs (p : ℕ) where
  coef : Fin p → ℝ
  intercept : ℝ

/-- `setIntercept`, /repo/linear_model/Base.go:559-570, with the intercept found in the struct before (`old`, zero if nil).  Division by a zero scale, where Go stores
`NaN` or `±Inf`, is `none`. -/
noncomputable def setIntercept {n p : ℕ} (fitIntercept : Bool) (pre : Pre n p) (old : ℝ) (c : Fin p → ℝ) : Option (Coefs p) :=
  open Classical in
  if ∃ j, pre.xscale j = 0 then none
  else
    let coef : Fin p → ℝ := fun j => c j / pre.xscale j
    some ⟨coef, if fitIntercept then pre.yoff - ∑ j, pre.xoff j * coef j else old⟩

/-- `DecisionFunction`, /repo/linear_model/Base.go:573-581, for one row and one output. -/
noncomputable def decision {p : ℕ} (m : Coefs p) (x : Fin p → ℝ) : ℝ := (∑ j, x j * m.coef j) + m.intercept

/-- `Fit` of the linear models, /repo/linear_model/Base.go:89-98, 107-123, 164-276 and /repo/linear_model/coordinatedescent.go:54-80: `solve` is the solver run on the preprocessed data (any
function). -/
noncomputable def fit {n p : ℕ} (fitIntercept normalize : Bool) (solve : (Fin n → Fin p → ℝ) → (Fin n → ℝ) → Fin p → ℝ) (old : ℝ) (X : Fin n → Fin p → ℝ) (y : Fin n → ℝ) : Option (Coefs p) :=
  let pre := preprocess fitIntercept normalize X y
  setIntercept fitIntercept pre old (solve pre.X pre.y)

/-! ## Losses -/

/-- The cost part of `regularization`, /repo/linear_model/loss.go:250-273, 291-293 (for `Alpha > 0`). -/
noncomputable def regJ {p q : ℕ} (alpha l1Ratio : ℝ) (skipFirst : Bool) (theta : Fin p → Fin q → ℝ) : ℝ :=
  (∑ j, if skipFirst && decide (j.val = 0) then 0 else
    let featureL1 : ℝ := if l1Ratio > 0 then (if q = 1 then ∑ o, |theta j o| else Real.sqrt (∑ o, theta j o ^ 2)) else 0
    (∑ o, if l1Ratio < 1 then (1 - l1Ratio) * theta j o * theta j o else 0) + l1Ratio * featureL1) * alpha

/-- The gradient part of `regularization`, /repo/linear_model/loss.go:274-290: what is added to `grad[j][o]`.  `t / featureL1` for a zero row, `NaN` in Go, is 0 here; the theorems
that use this part assume non-zero coefficients. -/
noncomputable def regGrad {p q : ℕ} (l1Ratio : ℝ) (skipFirst : Bool) (theta : Fin p → Fin q → ℝ) (j : Fin p) (o : Fin q) : ℝ :=
  if skipFirst && decide (j.val = 0) then 0 else
  (if l1Ratio > 0 then l1Ratio * theta j o / Real.sqrt (∑ o, theta j o ^ 2) else 0) + (if l1Ratio < 1 then (1 - l1Ratio) * theta j o else 0)

/-- `X·Theta`. -/
def mulT {n p q : ℕ} (X : Fin n → Fin p → ℝ) (theta : Fin p → Fin q → ℝ) (i : Fin n) (o : Fin q) : ℝ := ∑ j, X i j * theta j o

/-- Value returned by `SquareLoss`, /repo/linear_model/loss.go:33-66, with the identity activation. -/
noncomputable def squareJ {n p q : ℕ} (X : Fin n → Fin p → ℝ) (Y : Fin n → Fin q → ℝ) (alpha l1Ratio : ℝ) (skipFirst : Bool) (theta : Fin p → Fin q → ℝ) : ℝ :=
  ((∑ i, ∑ o, (mulT X theta i o - Y i o) * (mulT X theta i o - Y i o)) + if alpha > 0 then regJ alpha l1Ratio skipFirst theta else 0) / (2 * n)

/-- Gradient written by `SquareLoss`, /repo/linear_model/loss.go:43-64, identity activation. -/
noncomputable def squareGrad {n p q : ℕ} (X : Fin n → Fin p → ℝ) (Y : Fin n → Fin q → ℝ) (alpha l1Ratio : ℝ) (skipFirst : Bool) (theta : Fin p → Fin q → ℝ) (j : Fin p) (o : Fin q) : ℝ :=
  (1 / n) * ((∑ i, X i j * (mulT X theta i o - Y i o)) + if alpha > 0 then regGrad l1Ratio skipFirst theta j o else 0)

/-- `Logistic.F`, /repo/base/activation.go. -/
noncomputable def logistic (x : ℝ) : ℝ := 1 / (1 + Real.exp (-x))

/-- The cost of one cell in `CrossEntropyLoss`, /repo/linear_model/loss.go:128-137 (`eps` is 1e-10). -/
noncomputable def ceCell (eps y hpred : ℝ) : ℝ :=
  let h := if hpred ≤ 0 then eps else if hpred ≥ 1 then 1 - eps else hpred
  (-y) * Real.log h - (1 - y) * Real.log (1 + -h)

/-- `sgn`, /repo/linear_model/loss.go:232-240. -/
noncomputable def sgn (c : ℝ) : ℝ := if c < 0 then -1 else if c > 0 then 1 else 0

/-- Value returned by `CrossEntropyLoss`, /repo/linear_model/loss.go:122-208, with the logistic activation. -/
noncomputable def ceJ {n p q : ℕ} (eps : ℝ) (X : Fin n → Fin p → ℝ) (Y : Fin n → Fin q → ℝ) (alpha l1Ratio : ℝ) (skipFirst : Bool) (theta : Fin p → Fin q → ℝ) : ℝ :=
  ((∑ i, ∑ o, ceCell eps (Y i o) (logistic (mulT X theta i o))) + if alpha > 0 then
    alpha * (l1Ratio * (∑ j, if skipFirst && decide (j.val = 0) then 0 else ∑ o, |theta j o|) +
      (1 - l1Ratio) * (∑ j, if skipFirst && decide (j.val = 0) then 0 else ∑ o, theta j o * theta j o / 2)) else 0) / n

/-- Gradient written by `CrossEntropyLoss`, /repo/linear_model/loss.go:146-148, 189-197, 203-205, with the logistic activation. -/
noncomputable def ceGrad {n p q : ℕ} (X : Fin n → Fin p → ℝ) (Y : Fin n → Fin q → ℝ) (alpha l1Ratio : ℝ) (skipFirst : Bool) (theta : Fin p → Fin q → ℝ) (j : Fin p) (o : Fin q) : ℝ :=
  (1 / n) * ((∑ i, X i j * (logistic (mulT X theta i o) - Y i o)) +
    if alpha > 0 then (if skipFirst && decide (j.val = 0) then 0 else alpha * (l1Ratio * sgn (theta j o) + (1 - l1Ratio) * theta j o)) else 0)

/-- Value returned by `LogLoss`, /repo/linear_model/loss.go:69-116, with the logistic activation and no regularisation (the predictions are then strictly between 0 and 1, so `eps`
plays no role). -/
noncomputable def logJ {n p q : ℕ} (X : Fin n → Fin p → ℝ) (Y : Fin n → Fin q → ℝ) (theta : Fin p → Fin q → ℝ) : ℝ :=
  (∑ i, ∑ o, -Y i o * Real.log (logistic (mulT X theta i o))) / n

/-- Gradient written by `LogLoss`, /repo/linear_model/loss.go:93-102, 109-111; `Fprime` of the logistic function is `h*(1-h)`. -/
noncomputable def logGrad {n p q : ℕ} (X : Fin n → Fin p → ℝ) (Y : Fin n → Fin q → ℝ) (theta : Fin p → Fin q → ℝ) (_j : Fin p) (o : Fin q) : ℝ :=
  (1 / n) * ∑ i, -Y i o * (logistic (mulT X theta i o) * (1 - logistic (mulT X theta i o))) / logistic (mulT X theta i o)

/-- The loss of `SGDRegressor` for one output, /repo/linear_model/Base.go:172-199. -/
noncomputable def sgdLoss {n p : ℕ} (X : Fin n → Fin p → ℝ) (y : Fin n → ℝ) (alpha l1Ratio : ℝ) (c : Fin p → ℝ) : ℝ :=
  let e := (∑ i, ((∑ j, X i j * c j) - y i) * ((∑ j, X i j * c j) - y i)) / 2 / n
  e + (if alpha > 0 then ∑ j, alpha * l1Ratio / 2 / n * |c j| else 0) + (if alpha > 0 then ∑ j, alpha * (1 - l1Ratio) / 2 / n * c j * c j else 0)

/-- The gradient given to the optimiser by `SGDRegressor`, /repo/linear_model/Base.go:214-240. -/
noncomputable def sgdGrad {n p : ℕ} (X : Fin n → Fin p → ℝ) (y : Fin n → ℝ) (alpha l1Ratio : ℝ) (c : Fin p → ℝ) (j : Fin p) : ℝ :=
  let g := ∑ i, X i j * ((∑ j, X i j * c j) - y i)
  g + alpha * l1Ratio / n * sgn g + alpha * (1 - l1Ratio) / n * g

/-! ## Mini-batches and the best epoch -/

/-- The loop of /repo/linear_model/Base.go:402-408 with `k` rounds of fuel: `(start, end)` of each mini-batch from number `b` on. -/
def batches (n size : ℕ) : ℕ → ℕ → List (ℕ × ℕ)
  | 0, _ => []
  | k + 1, b => if b * size < n then (b * size, if b * size + size > n then n else b * size + size) :: batches n size k (b + 1) else []

/-- All mini-batches of an epoch of `LinFit` (`n` rounds of fuel are enough for `size ≥ 1`: proved). -/
def linFitBatches (n size : ℕ) : List (ℕ × ℕ) := batches n size (n + 1) 0

/-- Batch size of `LinFit` when `MiniBatchSize > 0`, /repo/linear_model/Base.go:359-364. -/
def linFitSize (n requested : ℕ) : ℕ := max 1 (min n requested)

/-- Epochs of `LinFit`, /repo/linear_model/Base.go:383-385, 399-445.  `step e θ` are the parameters after the updates of epoch `e`, `J θ` the loss (`none`: `NaN`), `conv θ` the
convergence test.  The result is the best loss and parameters (`none`/`zero` if no loss is below `+Inf`) and the final value of `epoch`.  `k` epochs are left. -/
def linFitLoop {T K : Type} [LinearOrder K] (step : ℕ → T → T) (J : T → Option K) (conv : T → Bool) : ℕ → ℕ → T → Option K × T → Option K × T × ℕ
  | 0, e, _, best => (best.1, best.2, e)
  | k + 1, e, θ, best =>
    let θ' := step e θ
    let better : Bool := match J θ', best.1 with
      | none, _ => false
      | some _, none => true
      | some j, some b => decide (j < b)
    let best := if better then (J θ', θ') else best
    if conv θ' then (best.1, best.2, e + 1) else linFitLoop step J conv k (e + 1) θ' best

end Sk.Lin
