import Verif.Model.MlpFit
import Verif.Model.Kernels

/-!
# `Score` methods: multilayer perceptrons (`neural_network/basemlp64.go`, `neural_network/multilayer_perceptron.go`) on buffers, Gaussian process (`gaussian_process/gpr.go`)

`none` is a panic.
-/
set_option autoImplicit false

namespace Sk.Scores
open Sk.MlpFit

variable {K : Type} [Field K] [LinearOrder K]

/-- `blas64.General`: sizes, stride and the buffer. -/
structure Buf (K : Type) where
  rows : ℕ
  cols : ℕ
  stride : ℕ
  data : List K

/-- One column of `r2Score64`, /repo/neural_network/basemlp64.go:1100-1119: both buffers are read at `ypos+c`, where `ypos` advances by the stride of `yTrue`. -/
def r2Column (Y H : Buf K) (c : ℕ) : Option K := do
  let ys ← (List.range Y.rows).mapM (fun r => Y.data[r * Y.stride + c]?)
  let hs ← (List.range Y.rows).mapM (fun r => H.data[r * Y.stride + c]?)
  Mlp.r2Col ys hs

/-- `r2Score64`, /repo/neural_network/basemlp64.go:1097-1122. -/
def r2Score64 (Y H : Buf K) : Option K := do
  let s ← (List.range Y.cols).mapM (r2Column Y H)
  some (s.sum / (Y.cols : K))

/-- The comparison of a row in `accuracyScore64`, /repo/neural_network/basemlp64.go:1127-1130; the cells are read only while the row is equal. -/
def rowEq (Y H : Buf K) (i : ℕ) : Option Bool :=
  (List.range Y.cols).foldlM (fun eq c => if eq then do
    let h ← H.data[i * H.stride + c]?
    let y ← Y.data[i * Y.stride + c]?
    some (decide (h = y)) else some false) true

/-- `accuracyScore64`, /repo/neural_network/basemlp64.go:1124-1137. -/
def accuracyScore64 (Y H : Buf K) : Option K := do
  let es ← (List.range Y.rows).mapM (rowEq Y H)
  some ((es.map (fun e => if e then (1 : K) else 0)).sum / (Y.rows : K))

/-- A new matrix with the given rows. -/
def compact (q : ℕ) (rows : List (List K)) : Buf K := ⟨rows.length, q, q, rows.flatten⟩

/-- `MLPRegressor.Score`, /repo/neural_network/multilayer_perceptron.go:65-71. -/
def regressorScore (A : Acts K) (m : MLP K) (X : List (List K)) (Y : Buf K) : Option K := do
  let P ← X.mapM (predict A m m.nOut)
  r2Score64 Y (compact m.nOut P)

/-- `MLPClassifier.Score`, /repo/neural_network/multilayer_perceptron.go:128-134.  (With label columns, for `Y` with as many columns; with fewer the predictions are copied to another buffer, which is not modelled.) -/
def classifierScore (A : Acts K) (m : MLP K) (X : List (List K)) (Y : Buf K) : Option K := do
  let P ← X.mapM (predict A m Y.cols)
  accuracyScore64 Y (compact Y.cols P)

/-- `BaseMultilayerPerceptron64.Score`, /repo/neural_network/basemlp64.go:978-987. -/
def baseScore (A : Acts K) (m : MLP K) (X : List (List K)) (Y : Buf K) : Option K := do
  let P ← X.mapM (predict A m (getNOutputs m))
  if m.classifier then accuracyScore64 Y (compact (getNOutputs m) P) else r2Score64 Y (compact (getNOutputs m) P)

/-- `score`, the validation score of an epoch with early stopping, /repo/neural_network/basemlp64.go:935-944, called at 864 with the last rows of the encoded targets (here a compact matrix with `q` columns). -/
def validScore (A : Acts K) (m : MLP K) (q : ℕ) (X : List (List K)) (Y : List (List K)) : Option K := do
  let P ← X.mapM (predict A m q)
  if m.classifier then accuracyScore64 (compact q Y) (compact q P) else r2Score64 (compact q Y) (compact q P)

/-- `Regressor.Score` of the Gaussian process, /repo/gaussian_process/gpr.go:133-137: `Fit` on the data to be scored, then the score (`r2` of the targets and the predictions).  Result: the estimator after the call (`none` when `Fit` panics, before the assignment
to the caller's variable matters) and the score. -/
noncomputable def gpScore {n d q : ℕ} (r2 : (Fin n → Fin q → ℝ) → (Fin n → Fin q → ℝ) → ℝ) (m : GP.Regressor d q) (X : Fin n → Fin d → ℝ) (Y : Fin n → Fin q → ℝ) : Option (GP.Regressor d q × Option ℝ) :=
  (m.fit X Y).map (fun m' => (m', (m'.predict X none).map (r2 Y)))

end Sk.Scores
