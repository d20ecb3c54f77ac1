import Verif.Model.Scale
import Mathlib.Analysis.SpecialFunctions.Pow.Real
import Mathlib.Analysis.SpecialFunctions.Log.Basic
import Mathlib.Algebra.Order.Floor.Defs

/-!
# `preprocessing/data.go`: PowerTransformer (Yeo-Johnson, Box-Cox) and QuantileTransformer

Cells are real numbers; NaN is `none`. Lambda is arbitrary here; how it is chosen is in Model/PowerFit.lean.
-/
set_option autoImplicit false

namespace Sk.Power

noncomputable section

/-- `spacing := math.Nextafter(1, 1) - 1`, /repo/preprocessing/data.go:1405,1440: the next float after 1 towards 1 is 1, so `spacing` is 0. -/
def spacing : ℝ := 0

/-- `yeoJohnsonTransform` of one cell, /repo/preprocessing/data.go:1404-1436. With `spacing = 0` the test of l.1408 is never true; for lambda 0 l.1417 divides
`pow(x+1, 0) - 1 = 0` by 0: NaN. `math.Pow(b, e)` for `b > 0` is `b ^ e`, `math.Log1p x` is `log (x + 1)`. -/
def yj (lam x : ℝ) : Option ℝ :=
  if 0 ≤ x then
    if |lam| < spacing then some (Real.log (x + 1))
    else if lam = 0 then none
    else some (((x + 1) ^ lam - 1) / lam)
  else
    if |lam - 2| > spacing then some (-((-x + 1) ^ (2 - lam) - 1) / (2 - lam))
    else some (-Real.log (-x + 1))

/-- `yeoJohnsonInverseTransform` of one cell, /repo/preprocessing/data.go:1439-1475. For lambda 0, `power(1, +Inf) - 1 = 0` (Go: `Pow(1, y) = 1`). -/
def yjInv (lam x : ℝ) : ℝ :=
  if 0 ≤ x then
    if |lam| < spacing then Real.exp x - 1
    else if lam = 0 then 0
    else (x * lam + 1) ^ (1 / lam) - 1
  else
    if |lam - 2| > spacing then 1 - (-(2 - lam) * x + 1) ^ (1 / (2 - lam))
    else 1 - Real.exp (-x)

/-- `boxCoxTransform` of one cell, /repo/preprocessing/data.go:1499-1511. -/
def bc (lam x : ℝ) : Option ℝ :=
  if 0 < x ∨ (0 ≤ x ∧ 0 < lam) then some (if lam = 0 then Real.log x else (x ^ lam - 1) / lam) else none

/-- `boxCoxInverseTransform` of one cell, /repo/preprocessing/data.go:1512-1524: the domain test is the one of the forward transform. -/
def bcInv (lam x : ℝ) : Option ℝ :=
  if 0 < x ∨ (0 ≤ x ∧ 0 < lam) then some (if lam = 0 then Real.exp x else (x * lam + 1) ^ (1 / lam)) else none

/-- A cell of `PowerTransformer.Transform` with method yeo-johnson, /repo/preprocessing/data.go:1291-1317; `std` holds the fitted mean and variance of the
column when `Standardize` is set. -/
def ptTransform (std : Option (ℝ × ℝ)) (lam x : ℝ) : Option ℝ :=
  (yj lam x).map fun y => match std with
    | none => y
    | some mv => Sk.Scale.stdTransform Real.sqrt true true mv y

/-- A cell of `PowerTransformer.InverseTransform` with method yeo-johnson, /repo/preprocessing/data.go:1341-1369. -/
def ptInverse (std : Option (ℝ × ℝ)) (lam y : ℝ) : ℝ :=
  yjInv lam (match std with
    | none => y
    | some mv => Sk.Scale.stdInverse Real.sqrt true true mv y)

/-- Contents of the caller's matrix after `PowerTransformer.Transform`, /repo/preprocessing/data.go:1293,1311: `Xout = base.ToDense(X)` is `X` itself when `X` is
a `*mat.Dense`, and the power-transformed columns are stored into it. One column. -/
def ptInputAfter (lam : ℝ) (col : List ℝ) : List (Option ℝ) := col.map (yj lam)

end

section Quantile
variable {K : Type} [Field K] [LinearOrder K]

/-- `float64(i) / float64(NQuantiles-1)`, /repo/preprocessing/data.go:1169. -/
def qref (nq i : ℕ) : K := (i : K) / ((nq : K) - 1)

/-- The i-th quantile of a column, /repo/preprocessing/data.go:1174-1183. -/
def qfit [FloorRing K] (nq : ℕ) (values : List K) (i : ℕ) : K :=
  let n := values.length
  let t : K := qref nq i * ((n : K) - 1)
  let i0 := min ⌊t⌋.toNat (n - 1)
  if t = i0 ∨ n ≤ i0 + 1 then values.getD i0 0
  else values.getD i0 0 * (1 - (t - i0)) + values.getD (i0 + 1) 0 * (t - i0)

/-- A cell of `QuantileTransformer.Transform`, /repo/preprocessing/data.go:1196-1206, for column `c`; `Q` is the function giving the quantiles of the column; the cell starts at 0, every
interval containing `x` overwrites it, from the last to the first; 0/0 on an empty interval gives NaN (`none`). Columns numbered from `NQuantiles` on are skipped (l.1195). -/
def qtransform (eps : K) (nq : ℕ) (Q : ℕ → K) (c : ℕ) (x : K) : Option K :=
  if nq ≤ c then some 0 else
  (List.range (nq - 1)).reverse.foldl (fun acc q =>
    if Q q ≤ x ∧ x ≤ Q (q + 1) then
      if Q (q + 1) - Q q = 0 then none
      else some (min (qref nq (nq - 1) - eps) (max (qref nq 0 + eps)
        (qref nq q + (x - Q q) / (Q (q + 1) - Q q) * (qref nq (q + 1) - qref nq q))))
    else acc) (some 0)

end Quantile

end Sk.Power
