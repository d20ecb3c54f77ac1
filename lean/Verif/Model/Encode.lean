import Verif.Model.GoSort
import Verif.Model.Split
import Verif.Model.Scale
import Mathlib.Data.List.Dedup
import Mathlib.Data.List.Sort
import Mathlib.Algebra.Order.Field.Basic
import Mathlib.Algebra.Order.Floor.Defs

/-!
# `preprocessing/data.go`: OneHotEncoder, Shuffler; `imputation.go`: Imputer; `discretization.go`: KBinsDiscretizer

Cells are elements of a linearly ordered field (NaN only in the Imputer, as `none`).
-/
set_option autoImplicit false

namespace Sk.Encode

open Sk.GoSort

/-! ## OneHotEncoder -/

section OneHot
variable {K : Type} [Field K] [LinearOrder K]

/-- `OneHotEncoder.Fit` for one feature, /repo/preprocessing/data.go:706-720: the distinct values (keys of a Go map, read in any order), sorted.
Simplification: sorting makes the map order irrelevant, so it is not a parameter. `NValues` is the length of this list and `FeatureIndices` the
running sum of the lengths. -/
def ohValues (col : List K) : List K := col.dedup.insertionSort (· ≤ ·)

/-- `OneHotEncoder.Fit` on a matrix given by its columns, /repo/preprocessing/data.go:699-723. -/
def ohFit (cols : List (List K)) : List (List K) := cols.map ohValues

/-- `cmap[v]`, /repo/preprocessing/data.go:750-753,757: a Go map lookup returns 0 for an absent key. -/
def ohPos (vals : List K) (v : K) : ℕ := (vals.findIdx? (fun w => decide (w = v))).getD 0

/-- Loop over the features of one row in `Transform`, /repo/preprocessing/data.go:740-760. `Xout.Set` outside the matrix panics. -/
def ohLoop : List (List K) → List K → ℕ → List K → Option (List K)
  | _, [], _, out => some out
  | [], _ :: _, _, _ => none
  | vals :: vss, v :: vs, base, out =>
    if base + ohPos vals v < out.length then ohLoop vss vs (base + vals.length) (out.set (base + ohPos vals v) 1) else none

/-- `OneHotEncoder.Transform` for one row, /repo/preprocessing/data.go:726-762; more features than fitted: index out of range (l.735). -/
def ohTransform (vss : List (List K)) (row : List K) : Option (List K) :=
  if vss.length < row.length then none
  else ohLoop vss row 0 (List.replicate ((vss.take row.length).map List.length).sum 0)

/-- `OneHotEncoder.InverseTransform` for one row, /repo/preprocessing/data.go:771-786: `start` is `FeatureIndices[feature]`; the cell is the position of
the largest flag of the block. Simplification: a row shorter than the blocks panics (in Go the slice expression may also run into the next row of the matrix). -/
def ohInverse : List (List K) → ℕ → List K → Option (List K)
  | [], _, _ => some []
  | vals :: vss, start, row =>
    if row.length < start + vals.length then none else do
      let c ← maxIdx ((row.drop start).take vals.length)
      let rest ← ohInverse vss (start + vals.length) row
      return (c : K) :: rest

end OneHot

/-! ## Shuffler -/

section Shuffler
variable {α : Type}

/-- The swaps made by `Transform`, in order: `(i, Perm[i])` for the `i` with `Perm[i] > i`, /repo/preprocessing/data.go:820-822.
`Perm` itself (l.810) is a parameter: any permutation. -/
def shSwaps (perm : List ℕ) : List (ℕ × ℕ) := perm.zipIdx.filterMap (fun pi => if pi.1 > pi.2 then some (pi.2, pi.1) else none)

/-- `Shuffler.Transform` on the rows of a copied matrix, /repo/preprocessing/data.go:815-836 (X and Y run through the same swaps). -/
def shTransform (perm : List ℕ) (rows : List α) : Option (List α) := (shSwaps perm).foldlM (fun a p => Sk.Split.swapAt a p) rows

/-- `xmat.Data[src+j], xmat.Data[dst+j]` exchanged for `j < width`, /repo/preprocessing/data.go:853-857. -/
def swapCells (src dst width : ℕ) (data : List α) : Option (List α) :=
  (List.range width).foldlM (fun d j => Sk.Split.swapAt d (src + j, dst + j)) data

/-- `Shuffler.InverseTransform` on the raw data of a matrix with the given stride, /repo/preprocessing/data.go:845-868: in place, `i` descending,
and the inner loops run over `Stride` cells, not `Cols`. -/
def shInverse (perm : List ℕ) (stride : ℕ) (data : List α) : Option (List α) :=
  (shSwaps perm).reverse.foldlM (fun d p => swapCells (p.2 * stride) (p.1 * stride) stride d) data

end Shuffler

/-! ## Imputer -/

section Imputer
variable {K : Type} [Field K] [LinearOrder K]

/-- `Strategy`, /repo/preprocessing/imputation.go:45-53 (any other string means mean). -/
inductive Strategy where
  | mean | median | mostFrequent
deriving DecidableEq

/-- Number of occurrences (the Go map built by `stat.Mode`). -/
def occ (v : K) (xs : List K) : ℕ := xs.count v

/-- `stat.Mode(x, nil)` of gonum: counts in a map, then keeps the key with a strictly larger count while ranging over the map in the order `keys`;
`(0, 0)` for an empty slice. -/
def mode (keys : List K) (xs : List K) : K := (keys.foldl (fun (b : K × ℕ) k => if b.2 < occ k xs then (k, occ k xs) else b) (0, 0)).1

/-- One column of `Imputer.Fit`, /repo/preprocessing/imputation.go:36-55. Cells are `none` for NaN. Result: `none` = panic (`stat.Quantile` of an empty slice),
`some none` = NaN (mean of an empty slice is 0/0). `keys` is the iteration order of the map in `stat.Mode`; `half` is 0.5. -/
def impFit (st : Strategy) (half : K) (keys : List K) (col : List (Option K)) : Option (Option K) :=
  let tmp := col.filterMap id
  match st with
  | .median => (Sk.Scale.quantile half (tmp.insertionSort (· ≤ ·))).map some
  | .mostFrequent => some (some (mode keys tmp))
  | .mean => some (if tmp.length = 0 then none else some (tmp.foldl (· + ·) 0 / tmp.length))

/-- One column of `Imputer.Transform`, /repo/preprocessing/imputation.go:70-80. -/
def impTransform (filler : Option K) (col : List (Option K)) : List (Option K) := col.map (fun v => if v = none then filler else v)

end Imputer

/-! ## KBinsDiscretizer -/

section KBins
variable {K : Type} [Field K] [LinearOrder K]

inductive BinStrategy where
  | quantile | uniform | other
deriving DecidableEq

/-- One column of `KBinsDiscretizer.Fit`, /repo/preprocessing/discretization.go:38-55. `stat.Quantile` panics when its argument is not sorted
(and nothing sorts `tmp`); `floats.Min`/`Max` panic on an empty slice; a strategy other than the two panics (NBins ≥ 0).  For `NBins = 0` the quotient 0/0 is NaN: `stat.Quantile` panics,
and the only edge of the uniform strategy is NaN; both are `none` here. -/
def kbFit (st : BinStrategy) (nbins : ℕ) (col : List K) : Option (List K) :=
  match col with
  | [] => none
  | x0 :: _ =>
    let mn := col.foldl min x0
    let mx := col.foldl max x0
    if nbins = 0 then none else (List.range (nbins + 1)).mapM (fun (b : ℕ) => match st with
      | .quantile => if col.Pairwise (· ≤ ·) then Sk.Scale.quantile ((b : K) / nbins) col else none
      | .uniform => some (mn + (b : K) / nbins * (mx - mn))
      | .other => none)

/-- The search loop of `Transform`, /repo/preprocessing/discretization.go:74-81; `fuel` bounds the iterations (`NBins - 1 - ith` are always enough). -/
def kbBin (edges : List K) (nbins : ℕ) (x : K) : ℕ → ℕ → Option ℕ
  | 0, ith => some ith
  | fuel + 1, ith =>
    if ith + 1 < nbins then
      match edges[ith + 1]? with
      | none => none
      | some e => if e ≤ x then kbBin edges nbins x fuel (ith + 1) else some ith
    else some ith

inductive BinEncode where
  | ordinal | onehot | onehotDense
deriving DecidableEq

/-- One cell of `Transform`, /repo/preprocessing/discretization.go:61-94, as the cells of its block of output columns. For "onehot" no output matrix is
made (`Xout` stays nil). -/
def kbTransform (enc : BinEncode) (edges : List K) (nbins : ℕ) (x : K) : Option (Option (List K)) :=
  (kbBin edges nbins x nbins 0).bind fun i => match enc with
    | .ordinal => some (some [(i : K)])
    | .onehot => some none
    | .onehotDense => if i < nbins then some (some ((List.replicate nbins 0).set i 1)) else none

/-- First largest flag of a block, /repo/preprocessing/discretization.go:115-121. -/
def kbArg (block : List K) (nbins : ℕ) : ℕ :=
  (List.range' 1 (nbins - 1)).foldl (fun ith c => if block.getD ith 0 < block.getD c 0 then c else ith) 0

/-- One cell of `InverseTransform`, /repo/preprocessing/discretization.go:110-128, from the cells of its block; `half` is .5. -/
def kbInverse [FloorRing K] (half : K) (enc : BinEncode) (edges : List K) (nbins : ℕ) (block : List K) : Option K := do
  let ith : ℤ ← match enc with
    | .ordinal => (block[0]?).map (fun x => ⌊x⌋)
    | _ => if block.length < nbins then none else some (kbArg block nbins : ℤ)
  let ith := if ith < 0 then 0 else if (nbins : ℤ) - 1 < ith then (nbins : ℤ) - 1 else ith
  if ith < 0 then none
  else
    let a ← edges[ith.toNat]?
    let b ← edges[ith.toNat + 1]?
    return half * (a + b)

end KBins

end Sk.Encode
