import Verif.Model.Power
import Verif.Model.TransClone2

/-!
# `preprocessing/data.go`: how `PowerTransformer` chooses its parameters, and its methods on matrices

Cells are real numbers or NaN (`none`).  The minimiser (`optimize.NewBrentMinimizer`, outside the repository) is a parameter.
-/
set_option autoImplicit false

namespace Sk.PowerFit
open Sk.Power

noncomputable section

/-! ## The functions that are minimised -/

/-- `negLogLikelihood` in `yeoJohnsonOptimize`, /repo/preprocessing/data.go:1374-1391: `none` when the value is NaN or infinite (a NaN among the transformed values, or a variance of 0).  `NumpyLike.Var` is called on a
matrix with one column. -/
def yjObjective (x : List ℝ) (lam : ℝ) : Option ℝ := do
  let sumlog1p := (x.map (fun xi => if xi > 0 then Real.log (1 + xi) else -Real.log (1 + -xi))).sum
  let t ← x.mapM (yj lam)
  let v := Sk.Scale.numpyVar 1 t
  if v = 0 then none else
    let loglike := -(x.length : ℝ) / 2 * Real.log v + (lam - 1) * sumlog1p
    some (-loglike)

/-- `negLogLikelihood` in `boxCoxOptimize`, /repo/preprocessing/data.go:1477-1489; the logarithm of a value that is not positive is not a finite number. -/
def bcObjective (x : List ℝ) (lam : ℝ) : Option ℝ := do
  let logs ← x.mapM (fun xi => if 0 < xi then some (Real.log xi) else none)
  let t ← x.mapM (bc lam)
  let v := Sk.Scale.numpyVar 1 t
  if v = 0 then none else
    let loglike := -(x.length : ℝ) / 2 * Real.log v + (lam - 1) * logs.sum
    some (-loglike)

/-! ## The methods -/

/-- `Method`, /repo/preprocessing/data.go:1224. -/
inductive Method where
  | yeoJohnson | boxCox | other
deriving DecidableEq

/-- A cell; `none` is NaN. -/
abbrev Cell : Type := Option ℝ

/-- `PowerTransformer`, /repo/preprocessing/data.go:1223-1229; `S` are the fitted parameters of a `StandardScaler`. -/
structure PT (S : Type) where
  method : Method
  standardize : Bool
  lambdas : List ℝ
  scaler : Option S

/-- `transformFunc(out, col, lambda)`, /repo/preprocessing/data.go:1404-1436, 1499-1511: the new contents of `out`.  For a NaN neither `x >= 0` nor `x < 0` holds, and `yeoJohnsonTransform` does not write the cell. -/
def stepCol : Method → ℝ → List Cell → List Cell → List Cell
  | .yeoJohnson, lam, out, col => List.zipWith (fun o x => match x with | none => o | some x => yj lam x) out col
  | _, lam, _, col => col.map (fun x => x.bind (bc lam))

/-- The loop over the columns in `fit` and `Transform`, /repo/preprocessing/data.go:1267-1278, 1304-1312, from column `c`.  Each worker makes one buffer `out` (of zeros) and uses it for all its columns; `first c` says that a worker
begins with column `c` (this depends on the number of processors; workers write only their own columns).  `buf` is the buffer left by the column before.  `none`: no lambda for a column (panic). -/
def runCols (m : Method) (first : ℕ → Bool) : ℕ → List Cell → List ℝ → List (List Cell) → Option (List (List Cell))
  | _, _, _, [] => some []
  | _, _, [], _ :: _ => none
  | c, buf, lam :: lams, col :: cols =>
    let out := stepCol m lam (if first c then List.replicate col.length (some 0) else buf) col
    (runCols m first (c + 1) out lams cols).map (fun rest => out :: rest)

section
variable {S : Type} (opt : Method → List Cell → ℝ) (scFit : List (List Cell) → S) (scApply : S → List (List Cell) → List (List Cell)) (first : ℕ → Bool)

/-- `fit`, /repo/preprocessing/data.go:1249-1288: the transformer after it and the matrix returned (`none` inside: nil).  `opt` chooses a lambda for a column; `scFit` and `scApply` are `Fit` and `Transform` of a new `StandardScaler`.
The loop stores the lambda of a column before the column is transformed, so all are chosen from the columns of `X`.  Outer `none`: panic for an unknown method. -/
def fit (force : Bool) (pt : PT S) (cols : List (List Cell)) : Option (PT S × Option (List (List Cell))) :=
  if pt.method = .other then none else
    let lams := cols.map (opt pt.method)
    if pt.standardize || force then do
      let out ← runCols pt.method first 0 [] lams cols
      if pt.standardize then
        let s := scFit out
        some ({ pt with lambdas := lams, scaler := some s }, if force then some (scApply s out) else some out)
      else some ({ pt with lambdas := lams }, some out)
    else some ({ pt with lambdas := lams }, none)

/-- `Fit`, /repo/preprocessing/data.go:1243-1246. -/
def fitOnly (pt : PT S) (cols : List (List Cell)) : Option (PT S) := (fit opt scFit scApply first false pt cols).map Prod.fst

/-- `FitTransform`, /repo/preprocessing/data.go:1320-1324: the transformer and the result; the matrix given is only read. -/
def fitTransform (pt : PT S) (cols : List (List Cell)) : Option (PT S × List (List Cell)) :=
  (fit opt scFit scApply first true pt cols).bind (fun r => r.2.map (fun out => (r.1, out)))

/-- `Transform`, /repo/preprocessing/data.go:1291-1317: the result and the contents of `X` afterwards.  `shares`: `ToDense(X)` has the memory of `X` (a `*mat.Dense` or another raw matrix, /repo/base/matrix.go:198-212), into which the
transformed columns are stored; `StandardScaler.Transform` makes a new matrix.  `none`: unknown method, missing lambda or nil `Scaler` (panics). -/
def transform (pt : PT S) (shares : Bool) (cols : List (List Cell)) : Option (List (List Cell) × List (List Cell)) :=
  if pt.method = .other then none else do
    let out ← runCols pt.method first 0 [] pt.lambdas cols
    let after := if shares then out else cols
    if pt.standardize then
      match pt.scaler with
      | none => none
      | some s => some (scApply s out, after)
    else some (out, after)

end

/-- `PowerTransformer` as an object that can be cloned (/repo/preprocessing/data.go:1237-1240): `Fit` makes new `Lambdas` (l.1251) and, with `Standardize`, a new scaler (l.1280), which it then does not change. -/
def powerTransformer {S : Type} (opt : Method → List Cell → ℝ) (scFit : List (List Cell) → S) (scApply : S → List (List Cell) → List (List Cell)) (first : ℕ → Bool) (method : Method) (standardize : Bool) :
    Sk.TransClone.Impl (List (List Cell)) (Option S) (List ℝ) :=
  Sk.TransClone.alloc none [] (fun s cols => (fitOnly opt scFit scApply first ⟨method, standardize, [], s⟩ cols).map (fun pt => (pt.scaler, pt.lambdas)))

end

end Sk.PowerFit
