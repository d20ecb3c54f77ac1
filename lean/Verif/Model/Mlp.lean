import Verif.Model.Split
import Mathlib.Analysis.SpecialFunctions.Sqrt
import Mathlib.Analysis.SpecialFunctions.ExpDeriv
import Mathlib.Analysis.SpecialFunctions.Log.Deriv
import Mathlib.Analysis.SpecialFunctions.Trigonometric.DerivHyp
import Mathlib.Algebra.BigOperators.Fin

/-!
# `neural_network/basemlp64.go` (and its copy `basemlp32.go`): network, backpropagation, training loop

Matrices are functions on `Fin` with real entries, so strides are not modelled.  `BatchNormalize`, `WeightDecay` (off by default) and the LBFGS solver are in Model/MlpOpt.lean.
`LogisticRegression` (/repo/linear_model/logistic.go:64-131, 159-266) is the network without hidden layer.
-/
set_option autoImplicit false

namespace Sk.Mlp

/-! ## Activations and losses -/

/-- Names of the hidden activations (`softmax`, in the table too, has no derivative and panics in training). -/
inductive Act where
  | identity | logistic | tanh | relu
deriving DecidableEq

/-- `Activations64`, /repo/neural_network/basemlp64.go:79-104, one cell. -/
noncomputable def Act.f : Act → ℝ → ℝ
  | .identity, z => z
  | .logistic, z => 1 / (1 + Real.exp (-z))
  | .tanh, z => Real.tanh (-z)
  | .relu, z => if z < 0 then 0 else z

/-- `Derivatives64`, /repo/neural_network/basemlp64.go:120-148: the new `delta` from the activated value `z` and the old `delta`. -/
noncomputable def Act.back : Act → ℝ → ℝ → ℝ
  | .identity, _, d => d
  | .logistic, z, d => d * (z * (1 - z))
  | .tanh, z, d => d * (1 - z * z)
  | .relu, z, d => if z = 0 then 0 else d

/-- Names of the output activations chosen by `initialize`, /repo/neural_network/basemlp64.go:420-431. -/
inductive Out where
  | identity | logistic | softmax
deriving DecidableEq

/-- Output activation of one row, /repo/neural_network/basemlp64.go:80-87, 105-116 (and /repo/linear_model/logistic.go:65-93). -/
noncomputable def Out.f {q : ℕ} : Out → (Fin q → ℝ) → Fin q → ℝ
  | .identity, z => z
  | .logistic, z => fun o => 1 / (1 + Real.exp (-z o))
  | .softmax, z => fun o => Real.exp (z o) / ∑ k, Real.exp (z k)

/-- Clamping of a probability in the log losses, /repo/neural_network/basemlp64.go:169-173. -/
noncomputable def clampP (hmin hmax h : ℝ) : ℝ := if h < hmin then hmin else if h > hmax then hmax else h

/-- `LossFunctions64["square_loss"]`, /repo/neural_network/basemlp64.go:152-161, for matrices with as many rows. -/
noncomputable def squareLoss {n q : ℕ} (y h : Fin n → Fin q → ℝ) : ℝ := (∑ i, ∑ o, (h i o - y i o) * (h i o - y i o)) / 2 / n

/-- `LossFunctions64["log_loss"]`, /repo/neural_network/basemlp64.go:162-179. -/
noncomputable def logLoss {n q : ℕ} (hmin hmax : ℝ) (y h : Fin n → Fin q → ℝ) : ℝ := (∑ i, ∑ o, if y i o ≠ 0 then -y i o * Real.log (clampP hmin hmax (h i o)) else 0) / n

/-- `LossFunctions64["binary_log_loss"]`, /repo/neural_network/basemlp64.go:180-195. -/
noncomputable def binaryLogLoss {n q : ℕ} (hmin hmax : ℝ) (y h : Fin n → Fin q → ℝ) : ℝ :=
  (∑ i, ∑ o, (-y i o * Real.log (clampP hmin hmax (h i o)) - (1 - y i o) * Real.log (1 + -clampP hmin hmax (h i o)))) / n

/-- The loss that `initialize` and `backprop` (/repo/neural_network/basemlp64.go:355-360, 420-431) pair with the output activation. -/
noncomputable def lossOf {n q : ℕ} (hmin hmax : ℝ) : Out → (y h : Fin n → Fin q → ℝ) → ℝ
  | .identity => squareLoss
  | .logistic => binaryLogLoss hmin hmax
  | .softmax => logLoss hmin hmax

/-- Output activation chosen by `initialize` and `fit`, /repo/neural_network/basemlp64.go:505-513, 420-431: regression unless every target is 0 or 1. -/
noncomputable def chooseOut {n q : ℕ} (y : Fin n → Fin q → ℝ) : Out :=
  open Classical in
  if ∃ i o, y i o ≠ 0 ∧ y i o ≠ 1 then .identity else if q > 1 then .softmax else .logistic

/-! ## Network -/

/-- Coefficients and intercepts of one layer. -/
abbrev Layer (p q : ℕ) : Type := (Fin p → Fin q → ℝ) × (Fin q → ℝ)

/-- Parameters of a network with `p` inputs, the given hidden layer sizes and `q` outputs (the views into `packedParameters` of /repo/neural_network/basemlp64.go:433-479). -/
def Params : ℕ → List ℕ → ℕ → Type
  | p, [], q => Layer p q
  | p, h :: hs, q => Layer p h × Params h hs q

/-- `gemm64` followed by `addIntercepts64`, one row, /repo/neural_network/basemlp64.go:264-265, 205-211. -/
def affine {p q : ℕ} (L : Layer p q) (x : Fin p → ℝ) (o : Fin q) : ℝ := (∑ j, x j * L.1 j o) + L.2 o

/-- Values of the last layer before its activation: `forwardPass`, /repo/neural_network/basemlp64.go:260-270, one row. -/
noncomputable def logits (a : Act) : {p : ℕ} → (hs : List ℕ) → {q : ℕ} → Params p hs q → (Fin p → ℝ) → Fin q → ℝ
  | _, [], _, L, x => affine L x
  | _, _ :: hs, _, (L, θ), x => logits a hs θ (fun o => a.f (affine L x o))

/-- `forwardPass`, /repo/neural_network/basemlp64.go:260-275, one row. -/
noncomputable def forward (a : Act) (out : Out) {p q : ℕ} (hs : List ℕ) (θ : Params p hs q) (x : Fin p → ℝ) : Fin q → ℝ := out.f (logits a hs θ x)

/-- `sumCoefSquares`, /repo/neural_network/basemlp64.go:311-319: intercepts are left out. -/
def sumSq : {p : ℕ} → (hs : List ℕ) → {q : ℕ} → Params p hs q → ℝ
  | _, [], _, L => ∑ j, ∑ o, L.1 j o * L.1 j o
  | _, _ :: hs, _, (L, θ) => (∑ j, ∑ o, L.1 j o * L.1 j o) + sumSq hs θ

/-- `computeLossGrad`, /repo/neural_network/basemlp64.go:323-331, with `matRowMean64` (213-226): gradient of one layer. -/
noncomputable def layerGrad {n p q : ℕ} (alpha : ℝ) (L : Layer p q) (X : Fin n → Fin p → ℝ) (D : Fin n → Fin q → ℝ) : Layer p q :=
  (fun j o => 1 / n * (∑ i, X i j * D i o) + alpha / n * L.1 j o, fun o => (∑ i, D i o) / n)

/-- The backward part of `backprop`, /repo/neural_network/basemlp64.go:382-405, for full batches: gradients of all layers from the deltas of the last layer.  The second component is
`deltas · Coefsᵀ` of the first layer (which the code computes for the layers after the first only). -/
noncomputable def backward (a : Act) (alpha : ℝ) {n : ℕ} : {p : ℕ} → (hs : List ℕ) → {q : ℕ} → Params p hs q → (Fin n → Fin p → ℝ) → (Fin n → Fin q → ℝ) → Params p hs q × (Fin n → Fin p → ℝ)
  | _, [], _, L, X, D => (layerGrad alpha L X D, fun i j => ∑ o, D i o * L.1 j o)
  | _, _ :: hs, _, (L, θ), X, D =>
    let A := fun i o => a.f (affine L (X i) o)
    let r := backward a alpha hs θ A D
    let D' := fun i o => a.back (A i o) (r.2 i o)
    ((layerGrad alpha L X D', r.1), fun i j => ∑ o, D' i o * L.1 j o)

/-- Value returned by `backprop`, /repo/neural_network/basemlp64.go:341-362, 406. -/
noncomputable def lossVal (hmin hmax : ℝ) (a : Act) (out : Out) (alpha : ℝ) {n p q : ℕ} (hs : List ℕ) (X : Fin n → Fin p → ℝ) (y : Fin n → Fin q → ℝ) (θ : Params p hs q) : ℝ :=
  lossOf hmin hmax out y (fun i => forward a out hs θ (X i)) + (0.5 * alpha) * sumSq hs θ / n

/-- Gradients written by `backprop`, /repo/neural_network/basemlp64.go:341-407; the deltas of the last layer are `H - y` (372-380). -/
noncomputable def grads (a : Act) (out : Out) (alpha : ℝ) {n p q : ℕ} (hs : List ℕ) (X : Fin n → Fin p → ℝ) (y : Fin n → Fin q → ℝ) (θ : Params p hs q) : Params p hs q :=
  (backward a alpha hs θ X (fun i o => forward a out hs θ (X i) o - y i o)).1

/-! ## The last, smaller batch -/

/-- Rows of the `deltas` buffer after a batch of `r` rows: the other rows keep what the previous batch left there, /repo/neural_network/basemlp64.go:371-380, 798-802 (the assignment
`a.Rows = Xbatch.Rows` is to a copy). -/
def bufRows {B q : ℕ} (r : ℕ) (old : Fin B → Fin q → ℝ) (new : Fin B → Fin q → ℝ) : Fin B → Fin q → ℝ := fun i o => if i.val < r then new i o else old i o

/-- Intercept gradient for a batch of `r` rows without hidden layers: the mean over all `B` rows of the buffer, /repo/neural_network/basemlp64.go:330, 213-226. -/
noncomputable def bufInterceptGrad {B q : ℕ} (r : ℕ) (old new : Fin B → Fin q → ℝ) (o : Fin q) : ℝ := (∑ i, bufRows r old new i o) / B

/-- Square loss of a batch of `r` rows: the sum over the rows of the batch divided by the rows of the buffer, /repo/neural_network/basemlp64.go:152-161. -/
noncomputable def bufSquareLoss {B q : ℕ} (r : ℕ) (y h : Fin B → Fin q → ℝ) : ℝ := (∑ i, if i.val < r then ∑ o, (h i o - y i o) * (h i o - y i o) else 0) / 2 / B

/-! ## Optimisers -/

/-- State of `SGDOptimizer64`, /repo/neural_network/basemlp64.go:989-999: parameters with their velocities, and the learning rate. -/
structure Sgd where
  lr : ℝ
  pv : List (ℝ × ℝ)

/-- `SGDOptimizer64.updateParams`, /repo/neural_network/basemlp64.go:1024-1041 (velocities start at 0). -/
noncomputable def sgdUpdate (momentum : ℝ) (nesterov : Bool) (s : Sgd) (grads : List ℝ) : Sgd :=
  { s with pv := List.zipWith (fun pv g =>
      let update := momentum * pv.2 - s.lr * g
      (if nesterov then pv.1 + (momentum * update - s.lr * g) else pv.1 + update, update)) s.pv grads }

/-- `SGDOptimizer64.triggerStopping`, /repo/neural_network/basemlp64.go:1007-1023: `none` means stop. -/
noncomputable def sgdTrigger (adaptive : Bool) (s : Sgd) : Option Sgd := if !adaptive then none else if s.lr ≤ 1e-6 then none else some { s with lr := s.lr / 5 }

/-- State of `AdamOptimizer64`, /repo/neural_network/basemlp64.go:1044-1051: `(param, m, v)` per parameter and the running powers. -/
structure Adam where
  pmv : List (ℝ × ℝ × ℝ)
  b1t : ℝ
  b2t : ℝ

/-- The loop of `AdamOptimizer64.updateParams`, /repo/neural_network/basemlp64.go:1056-1072: the powers `beta1t`, `beta2t` are multiplied once per parameter. -/
noncomputable def adamLoop (lr0 beta1 beta2 eps : ℝ) : ℝ → ℝ → List (ℝ × ℝ × ℝ) → List ℝ → Adam
  | b1t, b2t, (p, m, v) :: pmv, g :: gs =>
    let m := beta1 * m + (1 - beta1) * g
    let v := beta2 * v + (1 - beta2) * g * g
    let b1t := b1t * beta1
    let b2t := b2t * beta2
    let lr := lr0 * Real.sqrt (1 - b2t) / (1 - b1t)
    let r := adamLoop lr0 beta1 beta2 eps b1t b2t pmv gs
    { r with pmv := (p + -lr * m / (Real.sqrt v + eps), m, v) :: r.pmv }
  | b1t, b2t, _, _ => ⟨[], b1t, b2t⟩

/-- `AdamOptimizer64.updateParams`. -/
noncomputable def adamUpdate (lr0 beta1 beta2 eps : ℝ) (s : Adam) (grads : List ℝ) : Adam := adamLoop lr0 beta1 beta2 eps s.b1t s.b2t s.pmv grads

/-! ## Training loop -/

/-- The mini-batch loop, /repo/neural_network/basemlp64.go:791-794, from `start`, with `k` rounds of fuel: `m` training rows. -/
def mlpBatches (m size : ℕ) : ℕ → ℕ × ℕ → List (ℕ × ℕ)
  | 0, _ => []
  | k + 1, (b, e) => if b < m then
      let e := if e > m then m else e
      (b, e) :: mlpBatches m size k (e, e + size)
    else []

/-- Batch size of `fit` for the stochastic solvers, /repo/neural_network/basemlp64.go:519-530. -/
def mlpBatchSize (n : ℕ) (requested : ℤ) : ℕ := if requested ≤ 0 then (if n > 200 then 200 else n) else if requested > n then n else requested.toNat

section
variable {T O K : Type} [Field K] [LinearOrder K]

/-- The fields of the network read or written by the stopping logic (`bestLoss = none` is `+Inf`). -/
structure Stop (T K : Type) where
  count : ℕ
  bestScore : K
  bestParams : T
  bestLoss : Option K

/-- `updateNoImprovementCount`, /repo/neural_network/basemlp64.go:859-895; the validation score is `none` for `NaN`. -/
def updateCount (early : Bool) (tol : K) (score : Option K) (loss : K) (params : T) (s : Stop T K) : Stop T K :=
  let s := if early then
      let s' := match score with
        | none => { s with count := 0 }
        | some v => { s with count := if v < s.bestScore + tol then s.count + 1 else 0 }
      match score with
      | none => s'
      | some v => if v > s'.bestScore then { s' with bestScore := v, bestParams := params } else s'
    else
      match s.bestLoss with
      | none => { s with count := 0 }
      | some b => { s with count := if loss > b - tol then s.count + 1 else 0 }
  match s.bestLoss with
  | none => { s with bestLoss := some loss }
  | some b => if loss < b then { s with bestLoss := some loss } else s

/-- The epochs of `fitStochastic`, /repo/neural_network/basemlp64.go:786-848.  `epoch e θ o` are the parameters, optimiser state (after `iterationEnds`) and loss after the shuffle and the updates of epoch `e`;
`score` is the validation score; `trigger` is the optimiser's `triggerStopping` (`none` means stop).  The result is the parameters, the stopping fields and the number of epochs run (`NIter`);
`k` epochs are left. -/
def trainLoop (early : Bool) (tol : K) (nIterNoChange : ℕ) (epoch : ℕ → T → O → T × O × K) (score : ℕ → T → Option K) (trigger : O → Option O) : ℕ → ℕ → T → O → Stop T K → T × Stop T K × ℕ
  | 0, e, θ, _, s => (θ, s, e)
  | k + 1, e, θ, o, s =>
    let r := epoch e θ o
    let s := updateCount early tol (score e r.1) r.2.2 r.1 s
    if s.count > nIterNoChange then
      match trigger r.2.1 with
      | none => (r.1, s, e + 1)
      | some o' => trainLoop early tol nIterNoChange epoch score trigger k (e + 1) r.1 o' { s with count := 0 }
    else trainLoop early tol nIterNoChange epoch score trigger k (e + 1) r.1 r.2.1 s

/-- `fitStochastic`, /repo/neural_network/basemlp64.go:730-857, without the shuffling: with early stopping `bestParameters` is a new zero vector (762) and is copied into the parameters at the
end (850-853).  `s` holds the fields left by earlier calls: `initialize` resets the best loss only (481). -/
def fitStochastic (early : Bool) (tol : K) (nIterNoChange maxIter : ℕ) (epoch : ℕ → T → O → T × O × K) (score : ℕ → T → Option K) (trigger : O → Option O) (zero θ : T) (o : O) (s : Stop T K) : T × Stop T K × ℕ :=
  let s := { s with bestLoss := none }
  let s := if early then { s with bestParams := zero } else s
  let r := trainLoop early tol nIterNoChange epoch score trigger maxIter 0 θ o s
  if early then (r.2.1.bestParams, r.2) else r

end

/-! ## Shuffling in place -/

section
variable {A B : Type}

/-- `indexedXY.Swap`, /repo/neural_network/indexedxy.go:12 with `sort.IntSlice.Swap` and `general64FastSwapT.Swap` (/repo/neural_network/general.go:213-223), applied for each pair in turn (by
`Shuffle` and by `sort.Sort`, /repo/neural_network/basemlp64.go:788, 855).  `none`: index out of range. -/
def swapAll (idx : List ℕ) (X : List A) (Y : List B) (sw : List (ℕ × ℕ)) : Option (List ℕ × List A × List B) :=
  sw.foldlM (fun (s : List ℕ × List A × List B) p => do
    let idx ← Split.swapAt s.1 p
    let X ← Split.swapAt s.2.1 p
    let Y ← Split.swapAt s.2.2 p
    some (idx, X, Y)) (idx, X, Y)

/-- The rows of the validation and training views in an epoch of `fitStochastic`, /repo/neural_network/basemlp64.go:757-761, 786-797: the views are of the last `testSize` rows and of the others,
after the rows of `X` have been exchanged. -/
def views (X : List A) (testSize : ℕ) : List A × List A := (X.take (X.length - testSize), X.drop (X.length - testSize))

end

/-! ## Decoding and scores -/

section
variable {K : Type} [Field K] [LinearOrder K]

/-- `MaxIdx64`, /repo/neural_network/mathCompat.go:93-101. -/
def maxIdx (a : List K) : ℕ := (List.range a.length).foldl (fun mi i => if a.getD i 0 > a.getD mi 0 then i else mi) 0

/-- `toLogits64`, /repo/neural_network/basemlp64.go:1074-1095 (and /repo/linear_model/logistic.go:498-519), one row. -/
def toLogits (row : List K) : List K :=
  match row with
  | [v] => [if v > 1 / 2 then 1 else 0]
  | row => (List.range row.length).map (fun c => if c = maxIdx row then 1 else 0)

/-- `accuracyScore64`, /repo/neural_network/basemlp64.go:1124-1137, for matrices of the same shape. -/
def accuracy (Y H : List (List K)) : K := ((List.zipWith (fun y h => if y = h then (1 : K) else 0) Y H).sum) / Y.length

/-- Accumulators of `r2Score64` for one column, /repo/neural_network/basemlp64.go:1097-1122; `none` is the panic for a constant column. -/
def r2Col (y h : List K) : Option K :=
  let avg := y.sum / y.length
  let num := (List.zipWith (fun y h => (h - y) * (h - y)) y h).sum
  let den := (y.map (fun y => (y - avg) * (y - avg))).sum
  if den = 0 then none else some (1 - num / den)

/-- `LabelBinarizer64.InverseTransform`, /repo/neural_network/basemlp64.go:1334-1355, one row: `classes` are the classes of outputs `j, j+1, …`; `baseCol` moves on by the number of classes
twice per output (in the body and in the loop header).  Outputs not reached keep 0.  `none`: slice out of range or fewer class lists than needed (panic).  (For rows before the last the out-of-range
read takes values from the next row; a single row is modelled.) -/
def lbInverse (row : List K) : ℕ → List (List K) → Option (List K)
  | baseCol, cs :: classes =>
    if baseCol < row.length then
      if baseCol + cs.length ≤ row.length then do
        let c ← cs[maxIdx ((row.drop baseCol).take cs.length)]?
        let rest ← lbInverse row (baseCol + cs.length + cs.length) classes
        some (c :: rest)
      else none
    else some (List.replicate (classes.length + 1) 0)
  | baseCol, [] => if baseCol < row.length then none else some []

end

end Sk.Mlp
