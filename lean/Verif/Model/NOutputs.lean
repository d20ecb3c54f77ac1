import Mathlib.Data.List.Basic
import Mathlib.Data.Int.Notation

/-!
# `GetNOutputs` of the estimators, and the destination that `CrossValidate` allocates from it

Only what determines the number of columns is kept of an estimator.  `none` is a panic.
-/
set_option autoImplicit false

namespace Sk.NOut

/-- Target matrix given to `Fit`: its columns, whether every cell is 0 or 1 (`isBinarized`), and the columns of its one-hot encoding. -/
structure Targets where
  cols : ℕ
  zeroOne : Bool
  classes : ℕ

/-- The state read by `GetNOutputs`.  `linear`: columns of `Coef` (LinearRegression, Ridge, Lasso, ElasticNet, SGDRegressor, BayesianRidge), nil before a fit.  `svm`: `nOutputs` of SVC and SVR.  `knnClf`, `knnReg`: the two neighbour
estimators.  `gpr`: length of `Alpha` and columns of `Ytrain`.  `nb`: `nOutputs` of GaussianNB.  `cluster`: KMeans, DBSCAN.  `centroid`: NearestCentroid.  `net`: multilayer perceptrons and LogisticRegression: whether it is a
classifier, number of class lists of the label binarizer (nil if none), `NOutputs`.  `search`: GridSearchCV. -/
inductive Est where
  | linear (coef : Option ℕ)
  | svm (n : ℕ)
  | knnClf (n : ℕ)
  | knnReg (y : Option ℕ)
  | gpr (alphas : ℕ) (y : Option ℕ)
  | nb (n : ℕ)
  | cluster
  | centroid
  | net (clf : Bool) (lb : Option ℕ) (n : ℕ)
  | search (n : ℕ)
deriving DecidableEq

/-- `GetNOutputs`: /repo/linear_model/Base.go:101-104, coordinatedescent.go:48-51, bayes.go:207-210; /repo/svm/svm.go:261, svr.go:202; /repo/neighbors/classification.go:53-55, regression.go:59, nearest_centroid.go:16 (promoted from
a nil interface value); /repo/gaussian_process/gpr.go:68-73; /repo/naive_bayes/naivebayes.go:25-27; /repo/cluster/kmeans.go:105, dbscan.go:127; /repo/neural_network/basemlp64.go:603-608; /repo/linear_model/logistic.go:382-387;
/repo/model_selection/search.go:174-176. -/
def Est.getNOutputs : Est → Option ℕ
  | .linear coef => coef
  | .svm n => some n
  | .knnClf n => some n
  | .knnReg y => y
  | .gpr _ y => some (y.getD 1)
  | .nb n => some n
  | .cluster => some 1
  | .centroid => none
  | .net _ lb n => some (lb.getD n)
  | .search n => some n

/-- The effect of `Fit` on that state: /repo/linear_model/Base.go:89-98, 202, 267, coordinatedescent.go:54-80, bayes.go:200; /repo/svm/svm.go:254, svr.go:195; /repo/neighbors/classification.go:37-50, regression.go:44-56, nearest_centroid.go:38-40;
/repo/gaussian_process/gpr.go:76-84; /repo/naive_bayes/naivebayes.go:134-146; /repo/neural_network/basemlp64.go:577-600; /repo/linear_model/logistic.go:338-379; /repo/model_selection/search.go:89.  (Other panics of `Fit` are left out.) -/
def Est.fit (T : Targets) : Est → Option Est
  | .linear _ => some (.linear (some T.cols))
  | .svm _ => some (.svm T.cols)
  | .knnClf _ => some (.knnClf T.cols)
  | .knnReg _ => some (.knnReg (some T.cols))
  | .gpr a _ => if a ≠ 1 ∧ a ≠ T.cols then none else some (.gpr a (some T.cols))
  | .nb n => if T.cols ≠ 1 then none else some (.nb n)
  | .cluster => some .cluster
  | .centroid => if T.cols ≠ 1 then none else some .centroid
  | .net clf lb n => if clf && !T.zeroOne then some (.net clf (some T.cols) T.classes) else some (.net clf lb T.cols)
  | .search _ => some (.search T.cols)

/-- `PredicterClone`: a copy of the struct, except where the method is promoted from a nil interface value (/repo/neighbors/classification.go:16-18, nearest_centroid.go:16-17: the call panics). -/
def Est.clone : Est → Option Est
  | .knnClf _ => none
  | .centroid => none
  | e => some e

/-- `mat.NewDense(r, c, nil)` of gonum: panics for a zero size; the result here is its number of columns. -/
def newDense (r c : ℕ) : Option ℕ := if r = 0 ∨ c = 0 then none else some c

/-- Columns of the predictions that `CrossValidate` gives to the scorer for one split with `rows` test rows, /repo/model_selection/validation.go:80-86. -/
def cvColumns (e : Est) (T : Targets) (rows : ℕ) : Option ℕ :=
  e.clone.bind (fun c => (c.fit T).bind (fun f => f.getNOutputs.bind (newDense rows)))

/-- The head of `CrossValidate`, /repo/model_selection/validation.go:39-48: number of jobs, number of splits and the splits of the splitter used.  `cv` is the number of splits of the splitter given, `none` if it is nil: then the call
of l.42 panics, before the default of l.46-48 (three folds) is put in place. -/
def cvHead (numCPU : ℕ) (NJobs : ℤ) (cv : Option ℤ) : Option (ℤ × ℤ × ℤ) :=
  let jobs := if NJobs ≤ 0 then (numCPU : ℤ) else NJobs
  cv.bind (fun n =>
    let jobs := if jobs > n then n else jobs
    some (jobs, n, cv.getD 3))

/-- A pipeline: for each transformer the number of target columns it makes of so many, and the last step. -/
structure Pipe where
  steps : List (ℕ → ℕ)
  last : Est

/-- `Pipeline.Fit`, /repo/pipeline/pipeline.go:85-97, as far as target columns are concerned: the last step is fitted on the targets transformed by the others; `zeroOne` and `classes` describe those. -/
def Pipe.fit (p : Pipe) (cols : ℕ) (zeroOne : Bool) (classes : ℕ) : Option Pipe :=
  (p.last.fit ⟨p.steps.foldl (fun c f => f c) cols, zeroOne, classes⟩).map (fun l => { p with last := l })

/-- `Pipeline.GetNOutputs`, /repo/pipeline/pipeline.go:115-120. -/
def Pipe.getNOutputs (p : Pipe) : Option ℕ := p.last.getNOutputs

end Sk.NOut
