import Verif.Model.Scale
import Mathlib.Analysis.Real.Sqrt
import Mathlib.Analysis.SpecialFunctions.Exp
import Mathlib.Analysis.Complex.Trigonometric

/-!
# Helpers of `preprocessing/data.go`, and the activation functions of `base/activation.go`

Matrices are given by their columns; real arithmetic.
-/
set_option autoImplicit false

namespace Sk.PrepHelpers

variable {K : Type} [Field K]

/-- `DenseMean`, /repo/preprocessing/data.go:654-666, one column `xs` of `X`; `old` is the value in `Xmean` (a new matrix has zeros). -/
def denseMean (old : Option K) (xs : List K) : K := xs.foldl (fun v x => v + x) (old.getD 0) / (xs.length : K)

/-- `AddDummyFeature`, /repo/preprocessing/data.go:669-679: the new cells of row `i`; `row` are the cells of `X`.  `X1.Apply` calls the function for each column. -/
def addDummy (row : List K) : List K := (List.range (row.length + 1)).map (fun j => if j = 0 then 1 else row.getD (j - 1) 0)

/-- `stat.MeanStdDev` of gonum for one column (exact arithmetic; its compensation term is zero): mean and square root of the sum of squares over `len - 1`. -/
noncomputable def statMeanStd (xs : List ℝ) : ℝ × ℝ :=
  let mu := xs.sum / xs.length
  (mu, Real.sqrt ((xs.map (fun x => (x - mu) ^ 2)).sum / ((xs.length : ℝ) - 1)))

/-- `MeanStdDev`, /repo/preprocessing/data.go:242-256, one column of a matrix with `n` columns: `n` is the number of columns in the factor of l.251. -/
noncomputable def meanStdDev (n : ℕ) (xs : List ℝ) : ℝ × ℝ := ((statMeanStd xs).1, (statMeanStd xs).2 * ((n : ℝ) - 1) / n)

/-- `Mean`, /repo/preprocessing/data.go:259-271, one column. -/
noncomputable def mean (xs : List ℝ) : ℝ := xs.sum / xs.length

/-- `NumpyLike.Std`, /repo/preprocessing/data.go:294-301, one column of a matrix with `n` columns: the square roots of what `NumpyLike.Var` returns. -/
noncomputable def numpyStd (n : ℕ) (xs : List ℝ) : ℝ := Real.sqrt (Sk.Scale.numpyVar n xs)

/-- `Normalizer.InverseTransform`, /repo/preprocessing/data.go:1063-1083; `vecs` are the columns (`Axis = 0`) or the rows of `X` and `nrm` the norms kept by `Transform`.
`Xout` is the named result, a nil `*mat.Dense`: `SetCol` and `SetRow` of a nil matrix panic (nil pointer), as does the index of `nrmValues`.  Result for no column (row): nil. -/
def normalizerInverse (nrm : List K) (vecs : List (List K)) : Option Unit :=
  (vecs.zipIdx).foldlM (fun _ v => do
    let _ ← nrm[v.2]?
    none) ()

/-! ## Activation functions -/

/-- The four entries of `Activations`, /repo/base/activation.go:10-12. -/
inductive Act where
  | identity
  | logistic
  | tanh
  | relu

/-- `F`, /repo/base/activation.go:20, 29, 41, 50-55. -/
noncomputable def Act.F : Act → ℝ → ℝ
  | .identity, x => x
  | .logistic, x => 1 / (1 + Real.exp (-x))
  | .tanh, x => Real.tanh x
  | .relu, x => if x < 0 then 0 else x

/-- `Fprime`, /repo/base/activation.go:23, 32, 44, 58-63: the argument is the value `y = F(x)`. -/
noncomputable def Act.Fprime : Act → ℝ → ℝ
  | .identity, _ => 1
  | .logistic, y => y * (1 - y)
  | .tanh, y => 1 - y * y
  | .relu, y => if y ≤ 0 then 0 else 1

end Sk.PrepHelpers
