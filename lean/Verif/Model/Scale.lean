import Mathlib.Algebra.Order.Field.Basic
import Mathlib.Data.List.Basic
import Mathlib.Algebra.BigOperators.Group.List.Basic
import Mathlib.Data.Nat.Cast.Order.Basic
import Mathlib.Data.List.Sort

/-!
# `preprocessing/data.go`: scalers

Cells are elements of a linearly ordered field `K` (no rounding, no NaN).  Columns are independent in this code, so scaler states
and data are modelled for one column (a list of cells, one per row) unless the code couples columns.
-/
set_option autoImplicit false

namespace Sk.Scale

variable {K : Type} [Field K] [LinearOrder K]

/-! ## MinMaxScaler -/

/-- `MinMaxScaler` for one column: `NSamplesSeen`, `DataMin`, `DataMax`, `Scale`, `Min`. /repo/preprocessing/data.go:30-34
(`DataRange` is only an intermediate value). -/
structure MinMax (K : Type) where
  seen : ℕ
  dmin : K
  dmax : K
  scale : K
  shift : K
deriving DecidableEq

/-- `MinMaxScaler.PartialFit`, /repo/preprocessing/data.go:60-100. -/
def MinMax.partialFit (lo hi : K) (s : MinMax K) (xs : List K) : MinMax K :=
  match xs with
  | [] => s
  | x0 :: _ =>
    let m0 := if s.seen = 0 then x0 else s.dmin
    let M0 := if s.seen = 0 then x0 else s.dmax
    let dmin := xs.foldl min m0
    let dmax := xs.foldl max M0
    let range := if dmax - dmin = 0 then 1 else dmax - dmin
    let scale := (hi - lo) / range
    { seen := s.seen + xs.length, dmin, dmax, scale, shift := lo - dmin * scale }

/-- `MinMaxScaler.Fit`, /repo/preprocessing/data.go:54-57: `Reset` only clears `NSamplesSeen`. -/
def MinMax.fit (lo hi : K) (s : MinMax K) (xs : List K) : MinMax K := MinMax.partialFit lo hi { s with seen := 0 } xs

/-- `MinMaxScaler.Transform` of one cell, /repo/preprocessing/data.go:107. -/
def MinMax.transform (s : MinMax K) (x : K) : K := s.shift + x * s.scale

/-- `MinMaxScaler.InverseTransform` of one cell, /repo/preprocessing/data.go:126. -/
def MinMax.inverse (s : MinMax K) (x : K) : K := (x - s.shift) / s.scale

/-! ## IncrementalMeanAndVar and StandardScaler -/

/-- One column of `IncrementalMeanAndVar`, /repo/preprocessing/data.go:474-539: new values `xs`, last mean, variance and sample count.
Line 525 adds `newSum` (the comment above it subtracts). -/
def incCol (xs : List K) (lastMean lastVar : K) (n : ℕ) : K × K :=
  let m : K := xs.length
  let lastSum := lastMean * n
  let newSum := xs.foldl (· + ·) 0
  let tot : K := (n + xs.length : ℕ)
  let mean := (lastSum + newSum) * (1 / tot)
  let newMean := (1 / m) * newSum
  let newU := (xs.map (fun x => (x - newMean) * (x - newMean))).foldl (· + ·) 0
  let u := if n = 0 then newU else
    let r : K := n / m
    lastVar * n + newU + (r / tot) * (((1 / r) * lastSum + newSum) * ((1 / r) * lastSum + newSum))
  (mean, u * (1 / tot))

/-- `IncrementalMeanAndVar` on all columns. Line 526 `tmp.Mul(tmp, tmp)` is a matrix product of two `1×nFeatures` matrices: it panics unless
`nFeatures = 1`; it is reached when `lastSampleCount ≠ 0`. -/
def incr (cols : List (List K)) (last : List (K × K)) (n : ℕ) : Option (List (K × K)) :=
  if n ≠ 0 ∧ cols.length ≠ 1 then none
  else some (List.zipWith (fun xs mv => incCol xs mv.1 mv.2 n) cols last)

/-- `StandardScaler`: `NSamplesSeen` and per column `(Mean, Var)`. /repo/preprocessing/data.go:132-136. -/
structure Std (K : Type) where
  seen : ℕ
  mv : List (K × K)

/-- `StandardScaler.PartialFit`, /repo/preprocessing/data.go:163-182; `rows` is the number of rows of the matrix given by its columns.
`Scale` is a function of `Var` (below). -/
def Std.partialFit (s : Std K) (rows : ℕ) (cols : List (List K)) : Option (Std K) :=
  if rows = 0 then some s
  else
    let last := if s.seen = 0 then cols.map (fun _ => ((0 : K), (0 : K))) else s.mv
    (incr cols last s.seen).map fun mv => { seen := s.seen + rows, mv }

/-- `StandardScaler.Fit`, /repo/preprocessing/data.go:156-160. -/
def Std.fit (s : Std K) (rows : ℕ) (cols : List (List K)) : Option (Std K) := Std.partialFit { s with seen := 0 } rows cols

/-- `Scale` from `Var`, /repo/preprocessing/data.go:175-180; `sqrt` is a parameter. -/
def stdScale (sqrt : K → K) (v : K) : K := sqrt (if v = 0 then 1 else v)

/-- `StandardScaler.Transform` of one cell, /repo/preprocessing/data.go:189-200. -/
def stdTransform (sqrt : K → K) (withMean withStd : Bool) (mv : K × K) (x : K) : K :=
  (x - if withMean then mv.1 else 0) / (if withStd then stdScale sqrt mv.2 else 1)

/-- `StandardScaler.InverseTransform` of one cell, /repo/preprocessing/data.go:219-230. -/
def stdInverse (sqrt : K → K) (withMean withStd : Bool) (mv : K × K) (x : K) : K :=
  (if withMean then mv.1 else 0) + x * (if withStd then stdScale sqrt mv.2 else 1)

/-- `NumpyLike.Var` on a matrix with `nCols` columns, one column, /repo/preprocessing/data.go:277-291: the sum of squares is divided by
the number of columns `n`. -/
def numpyVar (nCols : ℕ) (xs : List K) : K :=
  let mean := xs.sum / xs.length
  (xs.map (fun x => (x + -mean) * (x + -mean))).sum / nCols

/-! ## MaxAbsScaler -/

/-- `MaxAbsScaler`: `none` = `MaxAbs`/`Scale` still nil. /repo/preprocessing/data.go:913-916. -/
structure MaxAbs (K : Type) where
  maxAbs : Option K
  scale : K
  seen : ℕ
deriving DecidableEq

/-- `MaxAbsScaler.PartialFit` on one column, /repo/preprocessing/data.go:937-958; indexing the nil slice panics (if there is a row). -/
def MaxAbs.partialFit (s : MaxAbs K) (xs : List K) : Option (MaxAbs K) :=
  match s.maxAbs with
  | none => match xs with
    | [] => some s
    | _ :: _ => none
  | some m0 =>
    let m := xs.foldl (fun m v => let v := if v < 0 then -v else v; if m < v then v else m) m0
    some { maxAbs := some m, scale := if 0 < m then m else 1, seen := s.seen + xs.length }

/-- `MaxAbsScaler.Fit`, /repo/preprocessing/data.go:928-934: `NSamplesSeen` is not reset. -/
def MaxAbs.fit (s : MaxAbs K) (xs : List K) : Option (MaxAbs K) := MaxAbs.partialFit { s with maxAbs := some 0 } xs

/-- Cells of `Transform` and `InverseTransform`, /repo/preprocessing/data.go:967, 987. -/
def MaxAbs.transform (s : MaxAbs K) (x : K) : K := x / s.scale
def MaxAbs.inverse (s : MaxAbs K) (x : K) : K := x * s.scale

/-! ## RobustScaler -/

/-- `stat.Quantile(p, stat.Empirical, x, nil)` of gonum on sorted `x`: the first element whose position (from 1) is at least `p·len(x)`;
`none`: panic (empty slice). -/
def quantileFrom (f : K) : List K → ℕ → Option K
  | [], _ => none
  | x :: xs, c => if f ≤ ((c + 1 : ℕ) : K) then some x else quantileFrom f xs (c + 1)

def quantile (p : K) (xs : List K) : Option K := quantileFrom (p * xs.length) xs 0

/-- `RobustScaler` for one column: the buffer `Tmp` (`none` = nil), `Median` and `QuantileDivider`. /repo/preprocessing/data.go:309-316.
The buffer is shared by all columns; each column overwrites its first `nSamples` cells, so one column shows the effect. -/
structure Robust (K : Type) where
  tmp : Option (List K)
  median : K
  divider : K
deriving DecidableEq

/-- `RobustScaler.Fit` = `PartialFit`, /repo/preprocessing/data.go:353-399 (`Reset` does nothing), with `Center` and `Scale` on. `Tmp.Set(0, r, ..)` panics
beyond the length of the buffer made by the first fit. `half` is 0.5; `left`, `right` the quantile pair. -/
def Robust.fit (half left right : K) (s : Robust K) (xs : List K) : Option (Robust K) :=
  if xs = [] then some s else
  let buf := s.tmp.getD (List.replicate xs.length 0)
  if buf.length < xs.length then none else do
    let sorted := (xs ++ buf.drop xs.length).insertionSort (· ≤ ·)
    let med ← quantile half sorted
    let q1 ← quantile left sorted
    let q2 ← quantile right sorted
    return { tmp := some sorted, median := med, divider := if q2 - q1 = 0 then 1 else q2 - q1 }

/-- Cells of `RobustScaler.Transform` and `InverseTransform`, /repo/preprocessing/data.go:402-440. -/
def Robust.transform (s : Robust K) (center scale : Bool) (x : K) : K :=
  let r := if center then x - s.median else x
  if scale then r / s.divider else r
def Robust.inverse (s : Robust K) (center scale : Bool) (x : K) : K :=
  let r := if scale then x * s.divider else x
  if center then r + s.median else r

/-! ## KernelCenterer -/

/-- `KernelCenterer.Fit` on a matrix of rows with `c` columns, /repo/preprocessing/data.go:1101-1117: column means, and their sum divided by the
number of rows. -/
def kcFit (X : List (List K)) (c : ℕ) : List K × K :=
  let rows := (List.range c).map (fun j => (X.map (fun r => r.getD j 0)).sum / (X.length : K))
  (rows, rows.sum / (X.length : K))

/-- `KernelCenterer.Transform`, /repo/preprocessing/data.go:1120-1139: the output has `Cols` rows, the loop runs over the rows of `X`; more rows than columns
writes beyond the output (panic). -/
def kcTransform (fit : List K × K) (X : List (List K)) (c : ℕ) : Option (List (List K)) :=
  if c < X.length then none
  else some (X.map (fun r => List.zipWith (fun v f => v - f - r.sum / (fit.1.length : K) + fit.2) r fit.1) ++
    List.replicate (c - X.length) (List.replicate c 0))

/-! ## Normalizer, Binarizer -/

/-- One column (`Axis = 0`) or one row (`Axis = 1`) of `Normalizer.Transform`, /repo/preprocessing/data.go:1031-1037, 1043-1049; `norm` is the selected norm. -/
def normVec (norm : List K → K) (v : List K) : List K :=
  if norm v ≠ 0 then v.map (fun x => 1 / norm v * x) else v

/-- `Normalizer.Transform` with `Axis = 1` (the default), /repo/preprocessing/data.go:1040-1050: `mat.NewVecDense(NSamples, tmp)` panics when `len(tmp) ≠ NSamples`,
i.e. unless the matrix is square. -/
def normalizeRows (norm : List K → K) (X : List (List K)) : Option (List (List K)) :=
  if X.all (fun r => decide (r.length = X.length)) then some (X.map (normVec norm)) else none

/-- `Binarizer.Transform`, /repo/preprocessing/data.go:888-904, on the raw data of a matrix with `rows`, `cols`, `stride`: the output is contiguous but is written at the
positions `r*stride+c` of the input; a position beyond the output panics. -/
def binarize (thr : K) (data : List K) (rows cols stride : ℕ) : Option (List K) :=
  (List.range rows).foldlM (fun out r =>
    (List.range cols).foldlM (fun out c =>
      match data[r * stride + c]? with
      | none => none
      | some x => if r * stride + c < out.length then some (out.set (r * stride + c) (if thr < x then 1 else 0)) else none) out)
    (List.replicate (rows * cols) 0)

end Sk.Scale
