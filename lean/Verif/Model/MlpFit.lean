import Verif.Model.Mlp
import Verif.Model.Label
import Verif.Model.General64

/-!
# `neural_network/basemlp64.go`, `multilayer_perceptron.go`, `unmarshal.go`: parameters, fit and predict as seen by the caller

Matrices are lists of rows.  The optimisation is a parameter (its model is in `Verif.Model.Mlp`).  `none`: panic.
-/
set_option autoImplicit false

namespace Sk.MlpFit
open Sk.Mlp (maxIdx toLogits lbInverse)

/-! ## Layout of the parameters -/

/-- Views of one layer into `packedParameters`: offset and length of the intercepts, offset, rows and columns of the coefficients (stride = columns). -/
structure View where
  iOff : ℕ
  iLen : ℕ
  cOff : ℕ
  rows : ℕ
  cols : ℕ
deriving DecidableEq, Repr

/-- The loop of `initialize` over the layers, /repo/neural_network/basemlp64.go:459-464 (and the same loop for the gradients in `fit`, 553-558), from the offset `off`. -/
def views : ℕ → List ℕ → List View
  | off, u :: v :: rest => ⟨off, v, off + v, u, v⟩ :: views (off + v + u * v) (v :: rest)
  | _, _ => []

/-- Length of `packedParameters`, /repo/neural_network/basemlp64.go:435-440. -/
def packedLen : List ℕ → ℕ
  | u :: v :: rest => (1 + u) * v + packedLen (v :: rest)
  | _ => 0

/-! ## Validation -/

/-- Hyperparameters checked by `validateHyperparameters`; a float is `none` when it is `NaN`. -/
structure Hyper (K : Type) where
  maxIter : ℤ
  alpha : Option K
  learningRateInit : Option K
  momentum : Option K
  validationFraction : Option K
  beta1 : Option K
  beta2 : Option K
  epsilon : Option K
  nIterNoChange : ℤ
  activation : String
  learningRate : String
  solver : String
  hidden : List ℤ

section
variable {K : Type} [Field K] [LinearOrder K]

/-- `a < b` of floats: false when `a` is `NaN`. -/
def flt (a : Option K) (b : K) : Bool := match a with | none => false | some a => decide (a < b)

/-- `a > b` of floats. -/
def fgt (a : Option K) (b : K) : Bool := match a with | none => false | some a => decide (a > b)

/-- Keys of `Activations64`, /repo/neural_network/basemlp64.go:78-117. -/
def activations : List String := ["identity", "logistic", "tanh", "relu", "softmax"]

/-- Keys of `Derivatives64`, /repo/neural_network/basemlp64.go:120-148. -/
def derivatives : List String := ["identity", "logistic", "tanh", "relu"]

/-- `validateHyperparameters` and the check of the layer sizes in `fit`, /repo/neural_network/basemlp64.go:626-674, 487-492: false is a panic. -/
def validate (h : Hyper K) : Bool :=
  !(decide (h.maxIter ≤ 0)) &&
  !(flt h.alpha 0) &&
  !(flt h.learningRateInit 0 || h.learningRateInit == some 0) &&
  !(fgt h.momentum 1 || flt h.momentum 0) &&
  !(flt h.validationFraction 0 || fgt h.validationFraction 1 || h.validationFraction == some 1) &&
  !(flt h.beta1 0 || fgt h.beta1 1 || h.beta1 == some 1) &&
  !(flt h.beta2 0 || fgt h.beta2 1 || h.beta2 == some 1) &&
  !(flt h.epsilon 0 || h.epsilon == some 0) &&
  !(decide (h.nIterNoChange ≤ 0)) &&
  activations.contains h.activation &&
  ["constant", "invscaling", "adaptive"].contains h.learningRate &&
  ["sgd", "adam", "lbfgs"].contains h.solver &&
  h.hidden.all (fun s => !(decide (s < 0)))

/-- The call of the derivative in `backprop` for the hidden layers, /repo/neural_network/basemlp64.go:389-395: a missing key of the map gives a nil function, whose call panics. -/
def backpropCalls (h : Hyper K) : Option Unit := if h.hidden = [] then some () else if derivatives.contains h.activation then some () else none

/-! ## Kind of output -/

/-- `LossFuncName` as far as it is observable: `classifier` is `LossFuncName ≠ "square_loss"` (/repo/neural_network/basemlp64.go:574-576), true for a new estimator (empty name).  From the whole
buffer of `y`, /repo/neural_network/basemlp64.go:505-513. -/
def isClassifierData (data : List K) : Bool := data.all (fun v => decide (v = 0) || decide (v = 1))

/-! ## Network -/

/-- Coefficients (rows) and intercepts of the layers. -/
abbrev Net (K : Type) : Type := List (List (List K) × List K)

/-- `gemm64` with one row `x` on the left, gonum `Dgemm`: `k = len x` rows of the coefficients are used; fewer rows than that is a panic, more are ignored.  With `addIntercepts64`,
/repo/neural_network/basemlp64.go:264-265. -/
def affineRow (W : List (List K)) (b x : List K) : Option (List K) :=
  if x.length ≤ W.length then some ((List.range b.length).map (fun o => (List.zipWith (fun v row => v * row.getD o 0) x W).sum + b.getD o 0)) else none

/-- `forwardPass`, /repo/neural_network/basemlp64.go:260-275, one row, with the hidden and output activations as functions of a row. -/
def forward (act out : List K → List K) : Net K → List K → Option (List K)
  | [], _ => none
  | [(W, b)], x => (affineRow W b x).map out
  | (W, b) :: rest, x => do
    let z ← affineRow W b x
    forward act out rest (act z)

/-- Activations of the package, as functions of a row. -/
structure Acts (K : Type) where
  hid : List K → List K
  logi : List K → List K
  soft : List K → List K

/-- Estimator fields used by `predict`. -/
structure MLP (K : Type) where
  lb : Option (List (List K))
  hidden : List ℕ
  nOut : ℕ
  classifier : Bool
  net : Net K

/-- Output activation set by `initialize`, /repo/neural_network/basemlp64.go:420-431. -/
def outAct (A : Acts K) (m : MLP K) : List K → List K := if !m.classifier then id else if m.nOut > 1 then A.soft else A.logi

/-- `predictProbas`, /repo/neural_network/basemlp64.go:897-915, one row: the activations are allocated with `HiddenLayerSizes` columns and the last is the matrix given, with `cols` columns; a number of columns
other than that of the layer panics (in `Dgemm` when smaller, in `addIntercepts64` when larger).  Simplification: also a panic when there are more sizes than layers. -/
def predictProbas (A : Acts K) (m : MLP K) (cols : ℕ) (x : List K) : Option (List K) :=
  if m.net.map (fun l => l.2.length) = m.hidden ++ [cols] then forward A.hid (outAct A m) m.net x else none

/-- `predict`, /repo/neural_network/basemlp64.go:917-933, one row, into a matrix with `cols` columns (`Transform` panics for more columns than label columns seen). -/
def predict (A : Acts K) (m : MLP K) (cols : ℕ) (x : List K) : Option (List K) :=
  match m.lb with
  | none => (predictProbas A m cols x).map (fun h => if m.classifier then toLogits h else h)
  | some classes => if cols > classes.length then none else do
    let h ← predictProbas A m (classes.map List.length).sum x
    lbInverse h 0 classes

/-- `GetNOutputs`, /repo/neural_network/basemlp64.go:603-608. -/
def getNOutputs (m : MLP K) : ℕ := match m.lb with | some classes => classes.length | none => m.nOut

/-- The memory of `Y` after the labels of a column are copied into it, /repo/neural_network/basemlp64.go:926-929: `Copy` (/repo/neural_network/general.go:279-302) takes the buffer of `Y` (which has room for
as many cells) and writes the labels one after the other, whatever the stride of `Y`. -/
def writeLabels (mem : ℕ → K) (Y : Matrix.General) (labels : List K) : ℕ → K := G64.copyTo mem Y.data.off labels.length (fun p => labels.getD p 0)

/-! ## Label binarizer -/

/-- Cells of one label in `LabelBinarizer64.Transform`, /repo/neural_network/basemlp64.go:1319-1327: the matrix starts with zeros, the cell of the class becomes `PosLabel`; for an unknown label the first
cell becomes `NegLabel`. -/
def lbCells (neg pos : K) (cs : List K) (v : K) : List K :=
  if v ∈ cs then (List.range cs.length).map (fun k => if k = cs.idxOf v then pos else 0) else (List.range cs.length).map (fun k => if k = 0 then neg else 0)

/-- `LabelBinarizer64.Transform`, /repo/neural_network/basemlp64.go:1305-1331, one row. -/
def lbRow (neg pos : K) : List (List K) → List K → Option (List K)
  | cs :: classes, v :: row => (lbRow neg pos classes row).map (fun rest => lbCells neg pos cs v ++ rest)
  | classes, [] => some (List.replicate (classes.map List.length).sum 0)
  | [], _ :: _ => none

/-- Columns of a matrix. -/
def columns (q : ℕ) (Y : List (List K)) : List (List K) := (List.range q).map (fun j => Y.map (fun row => row.getD j 0))

/-- `isBinarized64`, /repo/neural_network/basemlp64.go:1359-1369. -/
def isBinarized (Y : List (List K)) : Bool := Y.all (fun row => row.all (fun v => decide (v = 0) || decide (v = 1)))

/-! ## Fit -/

/-- `BaseMultilayerPerceptron64.Fit` after the copy of its arguments (so that buffers hold no other cells), /repo/neural_network/basemlp64.go:594-600 with `fit` (485-571): `train` gives the layers
for the encoded targets and their number of columns.  `mlp.lb` is assigned only for a classifier with labels other than 0 and 1.  Used by `MLPClassifier.Fit`, /repo/neural_network/multilayer_perceptron.go:101-105. -/
def fitClassifier (train : ℕ → List (List K) → Net K) (m : MLP K) (q : ℕ) (Y : List (List K)) : Option (MLP K) :=
  if m.classifier && !isBinarized Y then do
    let classes := (columns q Y).map Label.distinctSorted
    let Yb ← Y.mapM (lbRow 0 1 classes)
    let q' := (classes.map List.length).sum
    some { m with lb := some classes, nOut := q', classifier := isClassifierData Yb.flatten, net := train q' Yb }
  else some { m with nOut := q, classifier := isClassifierData Y.flatten, net := train q Y }

/-- `MLPRegressor.Fit`, /repo/neural_network/multilayer_perceptron.go:46-50: `fit` on the matrix itself, whose buffer is `data` (cells outside a view included). -/
def fitRegressor (train : ℕ → List (List K) → Net K) (m : MLP K) (q : ℕ) (Y : List (List K)) (data : List K) : MLP K :=
  { m with nOut := q, classifier := isClassifierData data, net := train q Y }

/-- `NLayers - 1` slices are made by `fit` (/repo/neural_network/basemlp64.go:549-552) after `initialize`, which is skipped with `WarmStart` (503); `nLayers` is 0 before the first fit.  `none`: `make`
panics for a negative length. -/
def fitLayers (warmStart : Bool) (nLayers : ℕ) (hidden : ℕ) : Option ℕ :=
  let n := if !warmStart then hidden + 2 else nLayers
  if n = 0 then none else some (n - 1)

/-- Arguments of `BaseMultilayerPerceptron64.Fit` by dynamic type, /repo/neural_network/basemlp64.go:580-593: with `Shuffle` off, an `X` giving access to its buffer and a `Y` not doing so leave both
matrices empty (no rows).  Result: the rows trained on. -/
def fitArgs {R : Type} (shuffle xRaw yRaw : Bool) (X Y : List R) : List R × List R := if xRaw && !shuffle then (if yRaw then (X, Y) else ([], [])) else (X, Y)

/-- `Loss` after an epoch, /repo/neural_network/basemlp64.go:790-810: `batches` are the loss and the number of rows of each mini-batch, `nSamples` all rows, validation rows included. -/
def epochLoss (nSamples : ℕ) (batches : List (K × ℕ)) : K := (batches.map (fun b => b.1 * (b.2 : K))).sum / (nSamples : K)

/-! ## Unmarshal -/

/-- `floats64FromInterface` and `blas64FromInterface`, /repo/neural_network/unmarshal.go:3-26, for a non-empty array: all rows are cut to the length of the first; a shorter row panics. -/
def readMatrix (rows : List (List K)) : Option (List (List K)) := do
  let first ← rows[0]?
  rows.mapM (fun r => if first.length ≤ r.length then some (r.take first.length) else none)

/-- One layer read by `Unmarshal`, /repo/neural_network/basemlp64.go:1200-1207: the intercepts needed are read, more are ignored. -/
def readLayer (W : List (List K)) (b : List K) : Option (List (List K) × List K) := do
  let W' ← readMatrix W
  let first ← W'[0]?
  if first.length ≤ b.length then some (W', b.take first.length) else none

/-- `Unmarshal`, /repo/neural_network/basemlp64.go:1153-1213, of the coefficients and intercepts (at least one layer), without parameters: `HiddenLayerSizes` is a new slice that is not filled (1188), the network
is initialised as a classifier (1198). -/
def unmarshal (m : MLP K) (coefs : List (List (List K))) (intercepts : List (List K)) : Option (MLP K) :=
  if coefs = [] ∨ intercepts.length < coefs.length then none
  else do
    let net ← (coefs.zip intercepts).mapM (fun l => readLayer l.1 l.2)
    let last ← net.getLast?
    some { m with hidden := List.replicate (coefs.length - 1) 0, nOut := last.2.length, classifier := true, net := net }

end

/-- Fields of `BaseMultilayerPerceptron64`, /repo/neural_network/basemlp64.go:25-76. -/
def fieldNames : List String :=
  ["Activation", "Solver", "Alpha", "WeightDecay", "BatchSize", "BatchNormalize", "LearningRate", "LearningRateInit", "PowerT", "MaxIter", "LossFuncName", "HiddenLayerSizes", "Shuffle", "RandomState", "Tol", "Verbose", "WarmStart", "Momentum", "NesterovsMomentum", "EarlyStopping", "ValidationFraction", "Beta1", "Beta2", "Epsilon", "NIterNoChange", "NLayers", "NIter", "NOutputs", "Intercepts", "Coefs", "OutActivation", "Loss", "t", "LossCurve", "ValidationScores", "BestValidationScore", "BestLoss", "NoImprovementCount", "optimizer", "packedParameters", "packedGrads", "bestParameters", "batchNorm", "lb", "beforeMinimize"]

/-- Letters of a name in lower case (`strings.EqualFold` compares these; ASCII names). -/
def fold (s : List Char) : List Char := s.map Char.toLower

/-- The field set by `SetParams` for the key `k`, /repo/neural_network/basemlp64.go:1140-1150: names of Go fields are compared, not the json tags; other keys are skipped. -/
def matchField (k : List Char) : Option String := fieldNames.find? (fun f => fold f.toList == fold k)

end Sk.MlpFit
