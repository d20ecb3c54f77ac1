import Verif.Model.Metrics

/-!
# `Score` methods of the linear models, neighbour estimators, support vector machines, naive Bayes and logistic regression

`Predict` of one row is a parameter (its models are in the files of the estimators); here is what the `Score` methods make of the predictions.  Matrices are lists of
rows; `none` is a panic.
-/
set_option autoImplicit false

namespace Sk.Metrics

variable {K : Type} [Field K] [LinearOrder K] [IsStrictOrderedRing K]

/-- The columns of a matrix with `q` columns. -/
def colsOf (q : ℕ) (M : List (List K)) : List (List K) := (List.range q).map (fun j => M.map (fun row => row.getD j 0))

/-- `metrics.R2Score(Y, Ypred, nil, "").At(0, 0)`, /repo/metrics/regression.go:83-128, for `Y` with `q` columns: `diff.Sub(yPred, yTrue)` (l.92) panics on different shapes. -/
def r2Rows (eps : K) (q : ℕ) (Y P : List (List K)) : Option K :=
  if Y.length = P.length ∧ P.all (fun p => decide (p.length = q)) then
    (r2Score eps (colsOf q Y) (colsOf q P) none .uniform).bind (fun l => l[0]?)
  else none

/-- The matrix `mat.NewDense(NSamples, NOutputs, nil)` sized by the targets after the predictions have been written into it, /repo/neighbors/regression.go:113-115,
/repo/neighbors/classification.go:152-154, /repo/neighbors/nearest_centroid.go:105-107: `Set` outside it panics. -/
def intoZeros (r q : ℕ) (P : List (List K)) : Option (List (List K)) :=
  if P.length ≤ r ∧ P.all (fun p => decide (p.length ≤ q)) then
    some (P.map (fun p => p ++ List.replicate (q - p.length) 0) ++ List.replicate (r - P.length) (List.replicate q 0))
  else none

/-- `LinearModel.DecisionFunction` of one row, /repo/linear_model/Base.go:572-581: `coef` holds the columns of `Coef`, `b` the intercepts; `Mul` panics unless the row has as many cells
as `Coef` has rows.  (Simplification: `b` has as many entries as there are columns.) -/
def linearRow (p : ℕ) (coef : List (List K)) (b : List K) (x : List K) : Option (List K) :=
  if x.length = p then some (List.zipWith (fun c bo => (List.zipWith (· * ·) x c).sum + bo) coef b) else none

/-- `Score` of the linear models, /repo/linear_model/Base.go:584-589 (LinearRegression, Ridge, Lasso, ElasticNet, SGDRegressor, BayesianRidge), with `predict` = `linearRow`, and `SVR.Score`, /repo/svm/svr.go:236-239. -/
def regScore (eps : K) (q : ℕ) (predict : List K → Option (List K)) (X Y : List (List K)) : Option K :=
  (X.mapM predict).bind (r2Rows eps q Y)

/-- `KNeighborsRegressor.Score`, /repo/neighbors/regression.go:112-117. -/
def knnRegScore (eps : K) (q : ℕ) (predict : List K → Option (List K)) (X Y : List (List K)) : Option K :=
  (X.mapM predict).bind fun P => (intoZeros Y.length q P).bind (r2Rows eps q Y)

/-- `SVC.Score`, /repo/svm/svm.go:331-334; `BaseNB.Score`, /repo/naive_bayes/naivebayes.go:121-124; `LogisticRegression.Score`, /repo/linear_model/logistic.go:490-496 (its destination has the shape of the predictions). -/
def clfScore (predict : List K → Option (List K)) (X Y : List (List K)) : Option K :=
  (X.mapM predict).bind fun P => accuracy Y P true none

/-- `KNeighborsClassifier.Score`, /repo/neighbors/classification.go:151-156; `NearestCentroid.Score`, /repo/neighbors/nearest_centroid.go:104-109 (predictions with one cell). -/
def knnClfScore (q : ℕ) (predict : List K → Option (List K)) (X Y : List (List K)) : Option K :=
  (X.mapM predict).bind fun P => (intoZeros Y.length q P).bind fun P' => accuracy Y P' true none

end Sk.Metrics
