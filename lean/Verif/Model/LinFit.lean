import Verif.Model.Linear
import Verif.Model.Encode
import Mathlib.Analysis.SpecialFunctions.Exp
import Mathlib.Data.Nat.Sqrt
import Mathlib.Data.Int.Notation

/-!
# `linear_model/Base.go`: `LinFit` with a solver of package base

A data set is the list of its rows (features and targets); there are at least one row, one feature and one output, as gonum demands.  Floats are real numbers; divisions by zero and logarithms of
numbers that are not positive, where Go gets NaN or an infinity, are those of Lean (0).  The recorder is not modelled.
-/
set_option autoImplicit false

namespace Sk.LinFit

/-- Features and targets of one sample. -/
abbrev Row (p q : ℕ) : Type := (Fin p → ℝ) × (Fin q → ℝ)

/-- Parameters and gradients: features by outputs. -/
abbrev Mat (p q : ℕ) : Type := Fin p → Fin q → ℝ

/-- The losses, /repo/linear_model/loss.go:25. -/
inductive LossKind where
  | square
  | log
  | crossEntropy
  deriving DecidableEq

/-- A `base.Activation`: whether it is `base.Identity` or `base.Logistic`, which the losses ask for, and its two methods. -/
structure Activation where
  isIdentity : Bool
  isLogistic : Bool
  F : ℝ → ℝ
  Fprime : ℝ → ℝ

variable {p q : ℕ}

/-- A cell of `X·Theta`. -/
def lin (r : Row p q) (θ : Mat p q) (o : Fin q) : ℝ := ∑ j, r.1 j * θ j o

/-- Whether the gradient is `X.T()·Ydiff`, and not a loop over the numbers below `nSamples`: /repo/linear_model/loss.go:44, 94-97, 147. -/
def direct (L : LossKind) (a : Activation) : Bool :=
  match L with
  | .square => a.isIdentity
  | .log => false
  | .crossEntropy => a.isLogistic

/-- What one sample adds to a cell of the gradient: /repo/linear_model/loss.go:45, 49-53 (square), 97-99 (log), 148, 154-163 (cross entropy). -/
noncomputable def term (L : LossKind) (a : Activation) (r : Row p q) (θ : Mat p q) (j : Fin p) (o : Fin q) : ℝ :=
  let h := a.F (lin r θ o)
  let y := r.2 o
  match L with
  | .square => if a.isIdentity then r.1 j * (h - y) else (h - y) * r.1 j * a.Fprime h
  | .log => -y * a.Fprime h / h
  | .crossEntropy => if a.isLogistic then r.1 j * (h - y) else if y = 1 then -y * a.Fprime h / h else if y = 0 then (1 - y) * a.Fprime h / (1 - h) else -y * a.Fprime h / h + (1 - y) * a.Fprime h / (1 - h)

/-- What the penalty adds to a cell of the gradient: /repo/linear_model/loss.go:59, 104, 276-291 (square and log), 173-200 (cross entropy). -/
noncomputable def penalty (L : LossKind) (alpha l1Ratio : ℝ) (skipFirst : Bool) (θ : Mat p q) (j : Fin p) (o : Fin q) : ℝ :=
  if alpha > 0 then
    match L with
    | .crossEntropy => if skipFirst && decide (j.val = 0) then 0 else alpha * (l1Ratio * Sk.Lin.sgn (θ j o) + (1 - l1Ratio) * θ j o)
    | _ => Sk.Lin.regGrad l1Ratio skipFirst θ j o
  else 0

/-- The gradient written by a loss called with the rows `rows` and the number `nSamples`: /repo/linear_model/loss.go:33-66, 69-116, 121-208.  `none`: `Ypred.At(i, o)` beyond the rows panics. -/
noncomputable def lossGrad (L : LossKind) (a : Activation) (alpha l1Ratio : ℝ) (skipFirst : Bool) (nSamples : ℕ) (rows : List (Row p q)) (θ : Mat p q) : Option (Mat p q) :=
  if direct L a then some (fun j o => (1 / nSamples) * ((rows.map (fun r => term L a r θ j o)).sum + penalty L alpha l1Ratio skipFirst θ j o))
  else if rows.length < nSamples then none
  else some (fun j o => (1 / nSamples) * (((rows.take nSamples).map (fun r => term L a r θ j o)).sum + penalty L alpha l1Ratio skipFirst θ j o))

/-- The mini-batch size, /repo/linear_model/Base.go:355-364: `int(math.Max(1., math.Min(100., math.Sqrt(float64(nSamples)))))` without a request. -/
def batchSize (n : ℕ) (requested : ℤ) : ℕ := max 1 (min n (if requested > 0 then requested.toNat else max 1 (min 100 (Nat.sqrt n))))

/-- One epoch, /repo/linear_model/Base.go:400-421: the rows are shuffled (`perm` are the numbers drawn), and every mini-batch gives a gradient and an update.  `G` is the loss with `nSamples`, the number of all rows (419). -/
def epochStep {S : Type} (G : List (Row p q) → Mat p q → Option (Mat p q)) (upd : S → Mat p q → Mat p q → Mat p q × S) (size : ℕ) (rows : List (Row p q)) (perm : List ℕ) (st : Mat p q × S) : Option (Mat p q × S) :=
  (Sk.Encode.shTransform perm rows).bind (fun rs =>
    (Sk.Lin.linFitBatches rows.length size).foldlM (fun st b => (G ((rs.take b.2).drop b.1) st.1).map (fun g => upd st.2 st.1 g)) st)

/-- `LinFitResult`, /repo/linear_model/Base.go:311-316; `none` is `+Inf`. -/
structure Res (p q : ℕ) where
  converged : Bool
  rmse : Option ℝ
  J : Option ℝ
  epoch : ℕ
  theta : Mat p q

/-- The epochs, /repo/linear_model/Base.go:399-448, with `k` epochs left after epoch `e - 1`; `r` holds the variables `converged`, `rmse`, `JBest` and `thetaSliceBest`.  (Losses that are NaN: see `Sk.Lin.linFitLoop`.) -/
noncomputable def epochs {S : Type} (step : ℕ → Mat p q × S → Option (Mat p q × S)) (J rmse : Mat p q → ℝ) (tol : ℝ) : ℕ → ℕ → Mat p q × S → Res p q → Option (Res p q)
  | 0, e, _, r => some { r with epoch := e }
  | k + 1, e, st, r => (step e st).bind (fun st' =>
      let better : Bool := match r.J with
        | none => true
        | some b => decide (J st'.1 < b)
      let c : Bool := decide (Real.sqrt (rmse st'.1) < tol)
      let r' : Res p q := ⟨c, some (rmse st'.1), if better then some (J st'.1) else r.J, e, if better then st'.1 else r.theta⟩
      if c then some { r' with epoch := e + 1 } else epochs step J rmse tol k (e + 1) st' r')

/-- `LinFit` with a solver, /repo/linear_model/Base.go:340-448: `θ₀` are the starting parameters, `s₀` and `upd` the solver, `perms` the numbers drawn by the shuffler in each epoch. -/
noncomputable def linFit {S : Type} (L : LossKind) (a : Activation) (alpha l1Ratio : ℝ) (skipFirst : Bool) (J rmse : Mat p q → ℝ) (upd : S → Mat p q → Mat p q → Mat p q × S) (s₀ : S) (requested : ℤ) (nEpochs : ℕ) (tol : ℝ)
    (perms : ℕ → List ℕ) (θ₀ : Mat p q) (rows : List (Row p q)) : Option (Res p q) :=
  epochs (fun e => epochStep (lossGrad L a alpha l1Ratio skipFirst rows.length) upd (batchSize rows.length requested) rows (perms e)) J rmse tol nEpochs 1 (θ₀, s₀) ⟨false, none, none, 1, fun _ _ => 0⟩

/-- The value of `SquareLoss` without penalty for all rows, /repo/linear_model/loss.go:34-42, 61. -/
noncomputable def squareJ (a : Activation) (rows : List (Row p q)) (θ : Mat p q) : ℝ := (rows.map (fun r => ∑ o, (a.F (lin r θ o) - r.2 o) * (a.F (lin r θ o) - r.2 o))).sum / (2 * rows.length)

/-- The root mean squared error of the predictions for all rows, /repo/linear_model/Base.go:434 with /repo/metrics/regression.go:153-176. -/
noncomputable def rmseOf (a : Activation) (rows : List (Row p q)) (θ : Mat p q) : ℝ :=
  Real.sqrt ((∑ o, (rows.map (fun r => (a.F (lin r θ o) - r.2 o) * (a.F (lin r θ o) - r.2 o))).sum / rows.length) / q)

/-! ## Options -/

/-- A gonum method: the default of `LinFit`, or one of the caller's. -/
inductive Method where
  | lbfgs
  | user (k : ℕ)
  deriving DecidableEq

/-- The options that choose the algorithm, /repo/linear_model/Base.go:292-308. -/
structure Opts where
  epochs : ℤ
  solver : String
  method : Option Method
  perOutput : Bool

/-- What is run: a gonum method for at most so many evaluations (0: no limit), or a solver of package base for so many epochs. -/
inductive Route where
  | gonum (m : Method) (evaluations : ℤ) (perOutput : Bool)
  | solver (name : String) (epochs : ℤ)
  deriving DecidableEq

/-- The names of `base.Solvers`, /repo/base/optimizers.go:26-32. -/
def solvers : List String := ["sgd", "adagrad", "rmsprop", "adadelta", "adam"]

/-- `LinFitGOM` as far as options are concerned, /repo/linear_model/Base.go:464-466, 472: the route and the options as it leaves them; `4e6 / nSamples` is an integer division. -/
def gomOpts (n : ℕ) (m : Method) (o : Opts) : Route × Opts :=
  let o := { o with epochs := if o.epochs ≤ 0 then 4000000 / n else o.epochs }
  (.gonum m o.epochs o.perOutput, o)

/-- The choices of `LinFit`, /repo/linear_model/Base.go:332-338, 378 (with /repo/base/optimizers.go:35-41: a panic for unknown names), 389-391, and the options as it leaves them. -/
def linFitOpts (n : ℕ) (o : Opts) : Option (Route × Opts) :=
  let o := if o.method = none ∧ o.solver = "" then { o with method := some .lbfgs } else o
  match o.method with
  | some m => some (gomOpts n m { o with perOutput := true })
  | none =>
    if o.solver ∈ solvers then
      let o := { o with epochs := if o.epochs ≤ 0 then 1000000 / n else o.epochs }
      some (.solver o.solver o.epochs, o)
    else none

end Sk.LinFit
