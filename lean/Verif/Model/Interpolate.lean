import Verif.Model.GoSort
import Mathlib.Algebra.Field.Defs
import Mathlib.Algebra.Order.Ring.Defs
import Mathlib.Data.List.Sort
import Mathlib.Algebra.BigOperators.Group.Finset.Basic

/-!
# `interpolate/interpolate.go`, `interpolate/cubic.go`

Points are pairs.  Ordinates that are NaN are `none`; abscissae are never NaN.  Rounding is not modelled.  `sort.Sort` is not stable: its result is a parameter (any sorted permutation).
The returned closures share the caller's slices when the abscissae are already sorted; later changes of these slices are the subject of `Verif.Model.InterpShare`.
-/
set_option autoImplicit false

namespace Sk.Interp

variable {K : Type} [Field K] [LinearOrder K] [IsStrictOrderedRing K]

open Sk.GoSort

/-- `interpolate2points`, /repo/interpolate/interpolate.go:19-26, with NaN ordinates. -/
def line (p₀ p₁ : K × Option K) (x : K) : Option K := do
  let y₀ ← p₀.2
  let y₁ ← p₁.2
  some (if p₁.1 = p₀.1 then (y₀ + y₁) / 2 else y₀ + (x - p₀.1) / (p₁.1 - p₀.1) * (y₁ - y₀))

/-- The `i`-th point (indices are always in range). -/
def pt (pts : List (K × Option K)) (i : ℕ) : K × Option K := pts.getD i (0, none)

/-- `for ix > 0 && math.IsNaN(both.y[ix]) { ix-- }`, /repo/interpolate/interpolate.go:53-55. -/
def skipDown (pts : List (K × Option K)) : ℕ → ℕ
  | 0 => 0
  | i + 1 => if (pt pts (i + 1)).2.isNone then skipDown pts i else i + 1

/-- `for ix1 < len(both.x)-1 && math.IsNaN(both.y[ix1]) { ix1++ }`, /repo/interpolate/interpolate.go:56-58; the first argument bounds the number of steps. -/
def skipUp (pts : List (K × Option K)) : ℕ → ℕ → ℕ
  | 0, i => i
  | fuel + 1, i => if i < pts.length - 1 ∧ (pt pts i).2.isNone then skipUp pts fuel (i + 1) else i

/-- The closure returned by `Interp1d`, /repo/interpolate/interpolate.go:44-61, on the sorted points. -/
def evalAt (pts : List (K × Option K)) (x : K) : Option K :=
  let s := searchFloat64s (pts.map Prod.fst) x - 1
  let ix := if s > pts.length - 2 then pts.length - 2 else s
  line (pt pts (skipDown pts ix)) (pt pts (skipUp pts pts.length (ix + 1))) x

/-- `Interp1d`, /repo/interpolate/interpolate.go:30-62; `none` is the panic of 31-33, `srt` the permutation made by `sort.Sort` (42). -/
def interp1d (srt : List (K × Option K) → List (K × Option K)) (xs : List K) (ys : List (Option K)) : Option (K → Option K) :=
  if xs.length < 2 ∨ xs.length ≠ ys.length then none
  else some (evalAt (if xs.Pairwise (· ≤ ·) then xs.zip ys else srt (xs.zip ys)))

/-! ## Two dimensions -/

/-- Points of `Interp2d`: abscissa, second abscissa, value. -/
abbrev P3 (K : Type) : Type := K × K × Option K

/-- The `i`-th first abscissa (`none`: index out of range). -/
def xAt (pts : List (P3 K)) (i : ℕ) : Option K := (pts[i]?).map (fun p => p.1)

/-- One step of the loop over `xsorted`, /repo/interpolate/interpolate.go:87-94. -/
def scanStep (pts : List (P3 K)) (x : K) (s : ℕ × ℕ) (i : ℕ) : Option (ℕ × ℕ) := do
  let a ← xAt pts i
  let x0 ← xAt pts s.1
  let x2 ← xAt pts s.2
  let ix0 := if a > x0 ∧ a ≤ x ∧ a ≤ x2 then i else s.1
  let b ← xAt pts (pts.length - 1 - i)
  let x0 ← xAt pts ix0
  some (ix0, if b ≤ x2 ∧ b ≥ x ∧ b > x0 then pts.length - 1 - i else s.2)

/-- `for ix1 < l && xsorted[ix1] == xsorted[ix0] { ix1++ }`, /repo/interpolate/interpolate.go:95-102: end of the run of equal abscissae starting at `i`. -/
def runEnd (pts : List (P3 K)) (v : K) : ℕ → ℕ → ℕ
  | 0, i => i
  | fuel + 1, i => if xAt pts i = some v then runEnd pts v fuel (i + 1) else i

/-- `for ix2 > 1 && xsorted[ix2-1] == x2 { ix2-- }`, /repo/interpolate/interpolate.go:103-106. -/
def runStart (pts : List (P3 K)) (v : K) : ℕ → ℕ
  | 0 => 0
  | i + 1 => if i + 1 > 1 ∧ xAt pts i = some v then runStart pts v i else i + 1

/-- The closure returned by `Interp2d`, /repo/interpolate/interpolate.go:83-111, on the points sorted by both abscissae; `none` is a panic.  `srt` is the permutation made by `sort.Sort` inside `Interp1d`. -/
def interp2d (srt : List (K × Option K) → List (K × Option K)) (pts : List (P3 K)) (x y : K) : Option (Option K) := do
  if pts = [] then none else
  let s ← (List.range pts.length).foldlM (scanStep pts x) (0, pts.length - 1)
  let x0 ← xAt pts s.1
  let x2 ← xAt pts s.2
  let ix1 := runEnd pts x0 pts.length s.1
  let ix3 := runEnd pts x2 pts.length s.2
  let ix2 := runStart pts x2 s.2
  let low := (pts.take ix1).drop s.1
  let hi := (pts.take ix3).drop ix2
  let f ← interp1d srt (low.map (fun p => p.2.1)) (low.map (fun p => p.2.2))
  let g ← interp1d srt (hi.map (fun p => p.2.1)) (hi.map (fun p => p.2.2))
  let h ← interp1d srt [x0, x2] [f y, g y]
  some (h x)

/-- `Interp2d`, /repo/interpolate/interpolate.go:75-111: the points are copied and sorted (76-81; `srt3` is the permutation made by `sort.Sort`).  The three slices are one list of points: slices of different
lengths are not modelled. -/
def interp2dOf (srt3 : List (P3 K) → List (P3 K)) (srt : List (K × Option K) → List (K × Option K)) (pts : List (P3 K)) (x y : K) : Option (Option K) := interp2d srt (srt3 pts) x y

/-! ## Cubic spline -/

/-- `for i < len(both.x)-1 && both.x[i] < x { i++ }`, /repo/interpolate/cubic.go:68-70, starting at `i`; the first argument bounds the number of steps. -/
def segment (xs : List K) (x : K) : ℕ → ℕ → ℕ
  | 0, i => i
  | fuel + 1, i => if i < xs.length - 1 ∧ xs.getD i 0 < x then segment xs x fuel (i + 1) else i

/-- The cubic of /repo/interpolate/cubic.go:71-74 between the points `(x₀, y₀)` and `(x₁, y₁)` with slopes `k₀` and `k₁`. -/
def cubic (x₀ x₁ y₀ y₁ k₀ k₁ x : K) : K :=
  let t := (x - x₀) / (x₁ - x₀)
  let a := k₀ * (x₁ - x₀) - (y₁ - y₀)
  let b := -k₁ * (x₁ - x₀) + (y₁ - y₀)
  (1 - t) * y₀ + t * y₁ + t * (1 - t) * (a * (1 - t) + b * t)

/-- The closure returned by `CubicSpline`, /repo/interpolate/cubic.go:66-76, on the sorted points; `ks` are the slopes returned by gonum's solver. -/
def spline (xs ys ks : List K) (x : K) : K :=
  let i := segment xs x xs.length 1
  cubic (xs.getD (i - 1) 0) (xs.getD i 0) (ys.getD (i - 1) 0) (ys.getD i 0) (ks.getD (i - 1) 0) (ks.getD i 0) x

/-- Entry `(i, j)` of the symmetric band matrix `A`, /repo/interpolate/cubic.go:18-32, for `n + 1` points. -/
def bandA (xs : List K) (n i j : ℕ) : K :=
  let h := fun e => xs.getD (e + 1) 0 - xs.getD e 0
  if i = j then (if i = 0 then 2 / h 0 else if i = n then 2 / h (n - 1) else 2 * (1 / h (i - 1) + 1 / h i))
  else if j = i + 1 then 1 / h i
  else if i = j + 1 then 1 / h j
  else 0

/-- Entry `i` of the right-hand side `Bd`, /repo/interpolate/cubic.go:21, 28, 34. -/
def rhsB (xs ys : List K) (n i : ℕ) : K :=
  let h := fun e => xs.getD (e + 1) 0 - xs.getD e 0
  let d := fun e => ys.getD (e + 1) 0 - ys.getD e 0
  if i = 0 then 3 * d 0 / (h 0 * h 0)
  else if i = n then 3 * d (n - 1) / (h (n - 1) * h (n - 1))
  else 3 * (d (i - 1) / (h (i - 1) * h (i - 1)) + d i / (h i * h i))

/-- What `chol.SolveVecTo` or `SolveVec` returns, /repo/interpolate/cubic.go:36-50: a solution of `A ks = Bd`. -/
def Solves (xs ys ks : List K) : Prop := ks.length = xs.length ∧ ∀ i < xs.length, ∑ j ∈ Finset.range xs.length, bandA xs (xs.length - 1) i j * ks.getD j 0 = rhsB xs ys (xs.length - 1) i

/-- `CubicSpline`, /repo/interpolate/cubic.go:11-77; `solve` is gonum's solver.  `none` is the panic for fewer than two points; slices of different lengths are not modelled (also `none`). -/
def cubicSpline (srt : List (K × K) → List (K × K)) (solve : List K → List K → List K) (xs ys : List K) : Option (K → K) :=
  if xs.length < 2 ∨ xs.length ≠ ys.length then none
  else
    let pts := if xs.Pairwise (· ≤ ·) then xs.zip ys else srt (xs.zip ys)
    some (spline (pts.map Prod.fst) (pts.map Prod.snd) (solve (pts.map Prod.fst) (pts.map Prod.snd)))

end Sk.Interp
