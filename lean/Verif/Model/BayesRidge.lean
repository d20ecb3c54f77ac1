import Mathlib.Data.Matrix.Mul
import Mathlib.Data.Matrix.Diagonal
import Mathlib.Analysis.Real.Sqrt
import Mathlib.Algebra.BigOperators.Fin

/-!
# `linear_model/bayes.go`: BayesianRidge

`float64` is ℝ.  The singular value decomposition (gonum) is a parameter: the theorems assume that its result is one.  `ComputeScore` and `Verbose` only record and print and are not modelled.
Divisions by zero (where Go continues with infinities) do not occur under the hypotheses of the theorems.
-/

set_option autoImplicit false

namespace Sk.Bayes

open Matrix

variable {n p q : ℕ}

/-- Sum of the squares of all cells; `mat.Norm(m, 2)` is its square root (gonum's norm 2 of a matrix is the Frobenius norm). -/
noncomputable def sumSq {a b : ℕ} (m : Matrix (Fin a) (Fin b) ℝ) : ℝ := ∑ i, ∑ o, m i o * m i o

/-- Hyperparameters of `BayesianRidge`, /repo/linear_model/bayes.go:13-21. -/
structure Hyper where
  nIter : ℕ
  tol : ℝ
  alpha1 : ℝ
  alpha2 : ℝ
  lambda1 : ℝ
  lambda2 : ℝ

/-- Data of the loop that do not change: preprocessed `X` and `Y` and the factors `V`, `S` of the decomposition of `X`. -/
structure Data (n p q : ℕ) where
  X : Matrix (Fin n) (Fin p) ℝ
  Y : Matrix (Fin n) (Fin q) ℝ
  V : Matrix (Fin p) (Fin p) ℝ
  S : Fin p → ℝ

/-- `calcsigma`, /repo/linear_model/bayes.go:91-103: row `i` of the right factor is column `i` of `VhT` divided by `eigenVals[i] + lambda/alpha`. -/
noncomputable def calcSigma (d : Data n p q) (lam alpha : ℝ) : Matrix (Fin p) (Fin p) ℝ :=
  d.V * Matrix.of fun i j => 1 / (d.S i * d.S i + lam / alpha) * d.V j i

/-- `gamma`, /repo/linear_model/bayes.go:143-153: `left` is a nil slice, `copy` copies nothing into it, so the sum is that of no terms. -/
noncomputable def gamma (_d : Data n p q) (_lam _alpha : ℝ) : ℝ := ([] : List ℝ).sum

/-- Variables of the loop /repo/linear_model/bayes.go:112-191; `coefOld` are the coefficients of the previous round. -/
structure State (p q : ℕ) where
  alpha : ℝ
  lambda : ℝ
  coefOld : Matrix (Fin p) (Fin q) ℝ
  coef : Matrix (Fin p) (Fin q) ℝ
  /-- the field `Lambda` of the estimator -/
  repLambda : ℝ

/-- The coefficients and new precisions of one round, /repo/linear_model/bayes.go:118-120, 133-134, 137-159. `coefOld` is left to the caller. -/
noncomputable def round (h : Hyper) (d : Data n p q) (s : State p q) : State p q :=
  let coef := calcSigma d s.lambda s.alpha * (d.Xᵀ * d.Y)
  let rmse := Real.sqrt (sumSq (d.X * coef - d.Y))
  let g := gamma d s.lambda s.alpha
  { alpha := ((n : ℝ) - g + 2 * h.alpha1) / (rmse + 2 * h.alpha2)
    lambda := (g + 2 * h.lambda1) / (sumSq coef + 2 * h.lambda2)
    coefOld := s.coefOld
    coef := coef
    repLambda := s.lambda }

/-- The convergence test, /repo/linear_model/bayes.go:174-186. -/
noncomputable def converged (h : Hyper) (s : State p q) : Prop :=
  (∑ j, ∑ o, |s.coefOld j o - s.coef j o|) < h.tol

open Classical in
/-- The loop from iteration number `iter` with `k` rounds left, /repo/linear_model/bayes.go:112-191. -/
noncomputable def loop (h : Hyper) (d : Data n p q) : (k iter : ℕ) → State p q → State p q
  | 0, _, s => s
  | k + 1, iter, s =>
    let s' := round h d s
    if 0 < iter ∧ converged h s' then s'
    else loop h d k (iter + 1) { s' with coefOld := s'.coef }

/-- Fitted values, /repo/linear_model/bayes.go:16-20 (before the intercept is recombined, which is the same function as for the other linear models). -/
structure Fitted (p q : ℕ) where
  coef : Matrix (Fin p) (Fin q) ℝ
  alpha : ℝ
  lambda : ℝ
  sigma : Matrix (Fin p) (Fin p) ℝ

/-- `Fit` after the preprocessing, /repo/linear_model/bayes.go:52-204. `none`: panics, when there is at least one round and not more samples than features
(line 129), or when there are fewer samples than features (index out of range in `calcsigma`, line 194: the decomposition then has fewer singular values than features).
`lambda0` is the value the field `Lambda` had before. -/
noncomputable def fit (h : Hyper) (d : Data n p q) (lambda0 : ℝ) : Option (Fitted p q) :=
  if (0 < h.nIter ∧ n ≤ p) ∨ n < p then none
  else
    let s := loop h d h.nIter 0 { alpha := ((n * q : ℕ) : ℝ) / sumSq d.Y, lambda := 1, coefOld := 0, coef := 0, repLambda := lambda0 }
    some { coef := s.coef, alpha := s.alpha, lambda := s.repLambda,
           sigma := Matrix.of fun i j => 1 / s.alpha * calcSigma d s.lambda s.alpha i j }

/-- The second result of `Predict2` for one row, /repo/linear_model/bayes.go:242-263: the row is centred and scaled only if `Normalize` is set, and only row 0 of `Sigma` is read
(with at least one feature). -/
noncomputable def predict2Std {p : ℕ} (normalize : Bool) (off scale : Fin (p + 1) → ℝ) (sigma : Matrix (Fin (p + 1)) (Fin (p + 1)) ℝ) (alpha : ℝ) (x : Fin (p + 1) → ℝ) : ℝ :=
  let xn : Fin (p + 1) → ℝ := fun j => if normalize then (x j - off j) / scale j else x j
  (∑ j, xn j * sigma 0 j * xn j) + 1 / alpha

end Sk.Bayes
