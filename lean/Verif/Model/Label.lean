import Verif.Model.GoSort
import Mathlib.Data.List.Dedup
import Mathlib.Data.List.Sort
import Mathlib.Data.Int.Notation

/-!
# `preprocessing/label.go`: LabelEncoder, LabelBinarizer, MultiLabelBinarizer

Labels are values of a linearly ordered type `K` (NaN labels are not modelled).  A matrix given to `Fit` is a list of
columns; a matrix given to `Transform` is handled one row at a time (rows are independent in the code).
-/
set_option autoImplicit false

namespace Sk.Label

open Sk.GoSort

section Encoder
variable {K : Type} [LinearOrder K]

/-- `LabelEncoder` state for one column: `Classes[i]` and `Support[i]`. /repo/preprocessing/label.go:273-276.
Simplification: the counts, whole floats in the code, are natural numbers. -/
structure Enc (K : Type) where
  classes : List K
  support : List ℕ
deriving DecidableEq

/-- The state before any label. -/
def Enc.empty : Enc K := ⟨[], []⟩

/-- Body of the inner loop of `PartialFit`, /repo/preprocessing/label.go:305-317.  `append` + `copy` shift the tail right by
one; `Classes[pos] = v` overwrites the gap while `Support[pos] += 1` adds to whatever the gap still holds: the old
`Support[pos]` if `pos < l`, the appended zero if `pos = l`. -/
def Enc.add (e : Enc K) (v : K) : Enc K :=
  let pos := searchFloat64s e.classes v
  if e.classes[pos]? = some v then
    { e with support := e.support.modify pos (· + 1) }
  else
    { classes := e.classes.take pos ++ v :: e.classes.drop pos
      support := e.support.take pos ++ (e.support.getD pos 0 + 1) :: e.support.drop pos }

/-- `LabelEncoder.PartialFit` on a matrix given by its columns, /repo/preprocessing/label.go:297-321.  `encs` are the
per-column states (empty list = nil `Classes`). -/
def partialFit (encs : List (Enc K)) (cols : List (List K)) : List (Enc K) :=
  let encs := if encs.length = cols.length then encs else cols.map (fun _ => Enc.empty)
  List.zipWith (fun e ys => ys.foldl Enc.add e) encs cols

/-- `LabelEncoder.Fit`, /repo/preprocessing/label.go:288-294. -/
def fit (cols : List (List K)) : List (Enc K) := partialFit (cols.map (fun _ => Enc.empty)) cols

/-- One cell of `Transform`, /repo/preprocessing/label.go:330-334. -/
def Enc.code (e : Enc K) (v : K) : ℤ :=
  let pos := searchFloat64s e.classes v
  if e.classes.length ≤ pos then -1 else (pos : ℤ)

/-- One row of `Transform`, /repo/preprocessing/label.go:328-336; a row with more cells than fitted columns panics
(`m.Classes[i]` out of range). -/
def transformRow : List (Enc K) → List K → Option (List ℤ)
  | _, [] => some []
  | [], _ :: _ => none
  | e :: es, v :: vs => (transformRow es vs).map (e.code v :: ·)

/-- A cell of the matrix returned by `InverseTransform`: a label, NaN, or never written (zero of the new matrix). -/
inductive Cell (K : Type) where
  | label (v : K)
  | nan
  | zero
deriving DecidableEq

/-- One row of `InverseTransform`, /repo/preprocessing/label.go:353-359: NaN and `break` (the remaining cells keep their
initial zero) when `int(v) < 0` or `int(v) > len(Classes[i])`; `int(v) = len(Classes[i])` passes the test and panics.
Simplification: codes are the truncated integers `int(v)`. -/
def inverseRow : List (Enc K) → List ℤ → Option (List (Cell K))
  | _, [] => some []
  | [], _ :: _ => none
  | e :: es, c :: cs =>
    if c < 0 ∨ (e.classes.length : ℤ) < c then some (Cell.nan :: cs.map (fun _ => Cell.zero))
    else match e.classes[c.toNat]? with
      | none => none
      | some v => (inverseRow es cs).map (Cell.label v :: ·)

end Encoder

section Binarizer
variable {K : Type} [LinearOrder K]

/-- `LabelBinarizer.Fit` for one column, /repo/preprocessing/label.go:37-48: the distinct values (a map records the ones
seen) in ascending order (`sort.Float64s`; any sorting algorithm gives this list, the values being distinct). -/
def distinctSorted (ys : List K) : List K := ys.dedup.insertionSort (· ≤ ·)

/-- `LabelBinarizer.Fit` changes `PosLabel` when it equals `NegLabel`, /repo/preprocessing/label.go:32-34. -/
def fitPos {F : Type} [DecidableEq F] [Add F] [One F] (neg pos : F) : F := if pos = neg then pos + 1 else pos

/-- One block of one output row of `Transform`, /repo/preprocessing/label.go:61-76: a zero row of the new matrix in which one
cell is written, `PosLabel` at the class number, or `NegLabel` at position 0 (`classNo` is 0 when the map lookup fails). -/
def block {F : Type} [Zero F] (neg pos : F) (classes : List K) (v : K) : List F :=
  match classes.findIdx? (fun c => decide (c = v)) with
  | some i => (List.replicate classes.length 0).set i pos
  | none => (List.replicate classes.length 0).set 0 neg

/-- One row of `LabelBinarizer.Transform`, /repo/preprocessing/label.go:53-80 (`classes`: `m.Classes`); panics when the
row has more cells than there are fitted columns. -/
def binRow {F : Type} [Zero F] (neg pos : F) : List (List K) → List K → Option (List F)
  | cs, [] => some (List.replicate (cs.map List.length).sum 0)
  | [], _ :: _ => none
  | c :: cs, v :: vs => (binRow neg pos cs vs).map (block neg pos c v ++ ·)

/-- Loop over output columns of `LabelBinarizer.InverseTransform`, /repo/preprocessing/label.go:96-103, over the flat `data` of a
contiguous `rows`×`cols` matrix.  The result lists the columns written so far; `baseCol` advances by
`len(Classes[j])` in the body and again in the post statement. `m.Classes[j]` out of range and slices beyond the data panic. -/
def binInverseLoop {F : Type} [LinearOrder F] (data : List F) (rows cols : ℕ) : List (List K) → ℕ → Option (List (List K))
  | [], base => if base < cols then none else some []
  | c :: cs, base =>
    if base < cols then do
      let col ← (List.range rows).mapM (fun i => do
        if data.length < i * cols + base + c.length then none
        else
          let k ← maxIdx ((data.drop (i * cols + base)).take c.length)
          c[k]?)
      let rest ← binInverseLoop data rows cols cs (base + c.length + c.length)
      return col :: rest
    else some []

/-- `LabelBinarizer.InverseTransform`, /repo/preprocessing/label.go:89-105: the output has one column per fitted column; columns not
reached by the loop keep their zeros (`zero`). Result by columns. -/
def binInverse {F : Type} [LinearOrder F] (zero : K) (classes : List (List K)) (rows : List (List F)) (cols : ℕ) :
    Option (List (List K)) :=
  (binInverseLoop rows.flatten rows.length cols classes 0).map fun out =>
    out ++ List.replicate (classes.length - out.length) (List.replicate rows.length zero)

/-- One row of `MultiLabelBinarizer.Transform2`, /repo/preprocessing/label.go:198-206 and 220-228: one block of `len(Classes)` cells per
column, 1 at the class number; an unknown label leaves its block at zero. -/
def multiRow {F : Type} [Zero F] [One F] (classes : List K) (row : List K) : List F :=
  row.flatMap (fun v => match classes.findIdx? (fun c => decide (c = v)) with
    | some i => (List.replicate classes.length 0).set i 1
    | none => List.replicate classes.length 0)

/-- `MultiLabelBinarizer.Fit2`, /repo/preprocessing/label.go:133-166: the distinct labels of the whole matrix, sorted. -/
def multiFit (rows : List (List K)) : List K := distinctSorted rows.flatten

/-- One row of `MultiLabelBinarizer.InverseTransform`, /repo/preprocessing/label.go:236-270; panics without classes. -/
def multiInverseRow {F : Type} [LinearOrder F] (classes : List K) (row : List F) : Option (List K) :=
  if classes = [] then none
  else (List.range (row.length / classes.length)).mapM (fun i => do
    let k ← maxIdx ((row.drop (i * classes.length)).take classes.length)
    classes[k]?)

/-- `Transform2` on `[][]string`, /repo/preprocessing/label.go:207-229: the width is taken from the first row; a shorter row panics
(`vY[jY][i]`), the tail of a longer row is never read. -/
def multiTransform {F : Type} [Zero F] [One F] (classes : List K) (rows : List (List K)) : Option (List (List F)) :=
  let w := match rows with | [] => 0 | r :: _ => r.length
  rows.mapM (fun r => if r.length < w then none else some (multiRow classes (r.take w)))

end Binarizer

end Sk.Label
