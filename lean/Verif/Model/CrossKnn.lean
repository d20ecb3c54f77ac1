import Verif.Model.CrossVal
import Verif.Model.KnnPredict

/-!
# Cross-validation of neighbour estimators

What the estimators returned by `CrossValidate` (`model_selection/validation.go`) hold, for `KNeighborsRegressor` and `KNeighborsClassifier` with one output.  A row is a sample with its target.
-/
set_option autoImplicit false

namespace Sk.CrossKnn
open Sk.CrossVal

variable {V K : Type}

/-- What `Fit` of the neighbour estimators keeps in memory of its own: the copy of the samples and, for the regressor, the copy of the targets, /repo/neighbors/regression.go:44-57,
/repo/neighbors/classification.go:36-50, /repo/neighbors/unsupervised.go:38-54. -/
structure Held (V K : Type) where
  X : List V
  Y : List K

/-- `Fit`, /repo/neighbors/regression.go:44-57 and /repo/neighbors/classification.go:36-50.  For the classifier `Y` is what the view shows when `Fit` returns. -/
def held (rows : List (V × K)) : Held V K := ⟨rows.map Prod.fst, rows.map Prod.snd⟩

/-- `Predict` of the regressor returned in a slot once `CrossValidate` has returned, /repo/neighbors/regression.go:62-88: its copies. -/
def regressReturned [Field K] [LinearOrder K] (sort : List (K × ℕ) → List (K × ℕ)) (dist : V → V → K) (eps : K) (w : Knn.Weights) (k : ℕ) (h : Held V K) (q : V) : Option K :=
  Knn.regress sort dist eps w h.X h.Y k q

/-- `Predict` of the classifier returned in a slot once `CrossValidate` has returned, /repo/neighbors/classification.go:58-68, 90-150: its copy of the samples, and the targets through the view of the job's
buffer that `Fit` was given (`m.Y = Y`, classification.go:39; /repo/model_selection/validation.go:66-70). -/
def classifyReturned [Field K] [LinearOrder K] {S : Type} (sort : List (K × ℕ) → List (K × ℕ)) (it : List (K × K) → List (K × K)) (dist : V → V → K) (eps : K) (w : Knn.Weights) (k : ℕ)
    (m : ℕ → Cell (V × K) (Held V K) S) (n th : ℕ) (h : Held V K) (q : V) : Option K :=
  Knn.classify sort it dist eps w h.X ((retainedView m n th h.X.length).map Prod.snd) k q

end Sk.CrossKnn
