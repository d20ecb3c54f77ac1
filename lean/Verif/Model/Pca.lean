import Mathlib.Data.Matrix.Mul
import Mathlib.Data.Real.Basic
import Mathlib.Algebra.BigOperators.Fin

/-!
# `preprocessing/pca.go`

`float64` is ℝ.  The thin singular value decomposition (gonum's `mat.SVD`) is a parameter: singular values `S` and the matrix `V` of right singular vectors; the theorems assume
that it is one.  Matrices with zero rows cannot exist in gonum; the theorems do not need to exclude them.
-/

set_option autoImplicit false

namespace Sk.Pca

open Matrix

/-- The two fields the caller may set, /repo/preprocessing/pca.go:13-14.  `Fit` writes `nComponents` back. -/
structure Config where
  minVarianceRatio : ℝ
  nComponents : ℕ

/-- The loop of /repo/preprocessing/pca.go:38-44: number of ratios consumed while the accumulated ratio is below the threshold. -/
noncomputable def count (thres : ℝ) : List ℝ → ℝ → ℕ
  | [], _ => 0
  | r :: rs, acc => if acc < thres then count thres rs (acc + r) + 1 else 0

/-- State after `Fit`. -/
structure Fitted (c : ℕ) where
  V : Matrix (Fin c) (Fin c) ℝ
  singularValues : Fin c → ℝ
  ratio : Fin c → ℝ
  cfg : Config

/-- `Fit`, /repo/preprocessing/pca.go:28-53, on a matrix with `n` rows and `c` columns whose decomposition is `S`, `V`.  `none`: panics, because with `n < c` the decomposition has `n`
singular values and `SVD.Values` requires a slice of that length (line 34). -/
noncomputable def fit {c : ℕ} (n : ℕ) (cfg : Config) (S : Fin c → ℝ) (V : Matrix (Fin c) (Fin c) ℝ) : Option (Fitted c) :=
  if n < c then none
  else
    let sq : Fin c → ℝ := fun i => S i * S i
    let ratio : Fin c → ℝ := fun i => 1 / (∑ j, sq j) * sq i
    let k := if 0 < cfg.minVarianceRatio then count cfg.minVarianceRatio (List.ofFn ratio) 0
      else if cfg.nComponents = 0 then c else cfg.nComponents
    some { V := V, singularValues := S, ratio := ratio, cfg := { cfg with nComponents := k } }

/-- `Transform`, /repo/preprocessing/pca.go:56-66: product with the first `NComponents` columns of `V`.  `none`: panics (slice out of range, or a result without columns). -/
noncomputable def transform {c m : ℕ} (f : Fitted c) (X : Matrix (Fin m) (Fin c) ℝ) : Option (Matrix (Fin m) (Fin f.cfg.nComponents) ℝ) :=
  if h : 0 < f.cfg.nComponents ∧ f.cfg.nComponents ≤ c then
    some (X * f.V.submatrix id (Fin.castLE h.2))
  else none

/-- `InverseTransform`, /repo/preprocessing/pca.go:75-88: product with the transpose of the whole of `V`.  `none`: panics (`Mul` of matrices whose inner dimensions differ). -/
noncomputable def inverse {c m k : ℕ} (f : Fitted c) (Z : Matrix (Fin m) (Fin k) ℝ) : Option (Matrix (Fin m) (Fin c) ℝ) :=
  if h : k = c then some (Z * (f.V.submatrix id (Fin.cast h))ᵀ) else none

end Sk.Pca
