import Verif.Model.Mlp
import Verif.Model.Label

/-!
# `linear_model/logistic.go`: `LogisticRegression`

Real arithmetic; matrices as functions on `Fin`, except in `deltaLoop`, where the flat buffers and strides are modelled.  `optimize.Minimize` (gonum) is represented by the sequence of points at
which it evaluates the problem.
-/
set_option autoImplicit false

namespace Sk.Logistic
open Sk.Mlp (Layer Out clampP)

/-- Activation chosen by `initialize` with `isMultiClass = y.Cols > 1`, /repo/linear_model/logistic.go:269-288, 366. -/
def outOf (q : ℕ) : Out := if q > 1 then .softmax else .logistic

/-- `forwardPass`, /repo/linear_model/logistic.go:181-196, with `addIntercepts64` (134-140) and the activations 64-94, one row. -/
noncomputable def probas {p q : ℕ} (θ : Layer p q) (x : Fin p → ℝ) : Fin q → ℝ :=
  let z := fun o => (∑ j, x j * θ.1 j o) + θ.2 o
  match outOf q with
  | .softmax => fun o => Real.exp (z o) / ∑ k, Real.exp (z k)
  | _ => fun o => 1 / (1 + Real.exp (-z o))

/-- `logregLossFunctions`, /repo/linear_model/logistic.go:97-131: the loss of the probabilities `h` for the targets `y`. -/
noncomputable def dataLoss (hmin hmax : ℝ) {n q : ℕ} (y h : Fin n → Fin q → ℝ) : ℝ :=
  match outOf q with
  | .softmax => (∑ i, ∑ o, if y i o ≠ 0 then -y i o * Real.log (clampP hmin hmax (h i o)) else 0) / n
  | _ => (∑ i, ∑ o, (-y i o * Real.log (clampP hmin hmax (h i o)) - (1 - y i o) * Real.log (1 + -clampP hmin hmax (h i o)))) / n

/-- Value returned by `backprop`, /repo/linear_model/logistic.go:227-240, 264-265, with `sumCoefSquares` (198-206). -/
noncomputable def loss (hmin hmax alpha : ℝ) {n p q : ℕ} (X : Fin n → Fin p → ℝ) (y : Fin n → Fin q → ℝ) (θ : Layer p q) : ℝ :=
  dataLoss hmin hmax y (fun i => probas θ (X i)) + (0.5 * alpha) * (∑ j, ∑ o, θ.1 j o * θ.1 j o) / n

/-- `computeLossGrad` and `matRowMean64`, /repo/linear_model/logistic.go:142-154, 210-218, with the deltas of `deltaLoop` for a contiguous `Y`: the gradients written by `backprop`. -/
noncomputable def grad (alpha : ℝ) {n p q : ℕ} (X : Fin n → Fin p → ℝ) (y : Fin n → Fin q → ℝ) (θ : Layer p q) : Layer p q :=
  (fun j o => 1 / n * (∑ i, X i j * (probas θ (X i) o - y i o)) + alpha / n * θ.1 j o, fun o => (∑ i, (probas θ (X i) o - y i o)) / n)

/-! ## Buffers -/

section
variable {K : Type} [Sub K]

/-- One assignment `D.Data[pos] = H.Data[pos] - y.Data[pos]`; `none`: index out of range. -/
def deltaCell (H y : List K) (D : List K) (pos : ℕ) : Option (List K) := do
  let h ← H[pos]?
  let v ← y[pos]?
  if pos < D.length then some (D.set pos (h - v)) else none

/-- The loop computing the deltas in `backprop`, /repo/linear_model/logistic.go:251-259: the position in all three buffers is that of `y`, whose stride is `stride`. -/
def deltaLoop (H y : List K) (rows cols stride : ℕ) (D : List K) : Option (List K) :=
  (List.range rows).foldlM (fun D r => (List.range cols).foldlM (fun D o => deltaCell H y D (r * stride + o)) D) D

end

/-- What `Fit` does with the dynamic types of its arguments, /repo/linear_model/logistic.go:339-349: `xb`, `yb` stay nil when only `X` is a `*mat.Dense`, and `isBinarized(yb)` (522) dereferences
`yb`.  `none`: panic. -/
def fitArgs {M : Type} (xDense yDense : Bool) (X Y : M) : Option (M × M) :=
  let b : Option M × Option M := if xDense then (if yDense then (some X, some Y) else (none, none)) else (some X, some Y)
  match b with
  | (some x, some y) => some (x, y)
  | _ => none

/-- `validateHyperparameters`, /repo/linear_model/logistic.go:389-399, called by `Fit` after the labels are encoded (354): false is a panic.  `alpha` is `none` for `NaN`, which compares as false. -/
def validateLR {K : Type} [Zero K] [LinearOrder K] (maxIter : ℤ) (alpha : Option K) (nIterNoChange : ℤ) : Bool :=
  !(decide (maxIter ≤ 0)) && !(match alpha with | none => false | some a => decide (a < 0)) && !(decide (nIterNoChange ≤ 0))

/-! ## Labels -/

/-- Fields of the estimator used for prediction: the classes of the label binarizer, `NOutputs`, and the fitted map from a row to the activated outputs. -/
structure LR where
  lb : Option (List (List ℝ))
  nOut : ℕ
  net : List ℝ → List ℝ

/-- `isBinarized`, /repo/linear_model/logistic.go:521-532. -/
noncomputable def isBinarized (Y : List (List ℝ)) : Bool := Y.all (fun row => row.all (fun v => decide (v = 0) || decide (v = 1)))

/-- Columns of a matrix with `q` columns. -/
def columns (q : ℕ) (Y : List (List ℝ)) : List (List ℝ) := (List.range q).map (fun j => Y.map (fun row => row.getD j 0))

/-- `Fit`, /repo/linear_model/logistic.go:338-379, as far as labels are concerned: `train` is the fitted map for the encoded targets.  `m.lb` is assigned only when the labels are not all 0 or 1.
`none`: panic of the binarizer. -/
noncomputable def fit (train : List (List ℝ) → List ℝ → List ℝ) (m : LR) (q : ℕ) (Y : List (List ℝ)) : Option LR :=
  if isBinarized Y then some { m with nOut := q, net := train Y }
  else do
    let classes := (columns q Y).map Label.distinctSorted
    let Yb ← Y.mapM (fun row => Label.binRow (0 : ℝ) 1 classes row)
    some { lb := some classes, nOut := (classes.map List.length).sum, net := train Yb }

/-- Number of columns allocated by `PredictProbas`, /repo/linear_model/logistic.go:456-466, with `GetNOutputs` (382-387). -/
def probaCols (m : LR) : ℕ :=
  match m.lb with
  | some classes => (classes.map List.length).sum
  | none => m.nOut

/-- `PredictProbas` into a new matrix, /repo/linear_model/logistic.go:454-473, one row: `forwardPass` panics when the number of columns is not that of the coefficients (in `Dgemm` when it is
smaller, in `addIntercepts64` when it is larger). -/
def predictProbas (m : LR) (x : List ℝ) : Option (List ℝ) := if probaCols m = m.nOut then some (m.net x) else none

/-- `Predict`, /repo/linear_model/logistic.go:476-487, one row, with `toLogits` (498-519). -/
noncomputable def predict (m : LR) (x : List ℝ) : Option (List ℝ) := do
  let h ← predictProbas m x
  match m.lb with
  | some classes => do
    let cols ← Label.binInverse 0 classes [h] h.length
    cols.mapM (fun c => c[0]?)
  | none => some (Mlp.toLogits h)

/-! ## Bookkeeping of the optimiser -/

/-- Fields written by the closure `Func` of `fitLbfgs`; `best = none` is `+Inf`. -/
structure Book (T K : Type) where
  params : T
  loss : K
  best : Option K
  curve : List K

section
variable {T K : Type} [LinearOrder K]

/-- `Func`, /repo/linear_model/logistic.go:414-425, at the point `w`; `f` is the value returned by `backprop`. -/
def evalFunc (f : T → K) (b : Book T K) (w : T) : Book T K :=
  { params := w, loss := f w, curve := b.curve ++ [f w], best := some (match b.best with | none => f w | some v => min v (f w)) }

/-- `fitLbfgs`, /repo/linear_model/logistic.go:401-450, for an optimiser evaluating the points `ws` in this order; `initialize` (329) has set `BestLoss` to infinity and kept `LossCurve`; the
result of `Minimize` is used for its status only. -/
def fitLbfgs (f : T → K) (b : Book T K) (w0 : T) (ws : List T) : Book T K := ws.foldl (evalFunc f) { b with params := w0, best := none }

end

end Sk.Logistic
