import Mathlib.Algebra.Order.Field.Basic
import Mathlib.Algebra.BigOperators.Group.List.Basic

/-!
# Loops over the raw data of a matrix

The transformers read a `*mat.Dense` through `RawMatrix()`: rows, columns, stride and the slice of the data.  The matrix may be a view of a wider one (stride larger than the number of columns).  `none` is a panic (index out of range).
The capacity of a slice beyond its length is not modelled: cutting `Data[a:b]` with `b` beyond the length counts as a panic.  The goroutines of `base.Parallelize` over the columns are run one after the other (see C01, C02).
-/
set_option autoImplicit false

namespace Sk.RawLoops

/-- `blas64.General`: what `RawMatrix()` returns. -/
structure Raw (α : Type) where
  rows : ℕ
  cols : ℕ
  stride : ℕ
  data : List α

variable {α β : Type}

/-- The values of `j` in `for j := 0; j < bound; j += stride`, for at most `fuel` rounds. -/
def jumps (stride bound : ℕ) : ℕ → ℕ → List ℕ
  | 0, _ => []
  | fuel + 1, j => if j < bound then j :: jumps stride bound fuel (j + stride) else []

/-- The row offsets visited by `for jX := 0; jX < Xmat.Rows*Xmat.Stride; jX += Xmat.Stride` (e.g. /repo/preprocessing/data.go:197). -/
def Raw.offsets (M : Raw α) : List ℕ := jumps M.stride (M.rows * M.stride) (M.rows * M.stride) 0

/-- `out[p] = w`. -/
def setAt (out : List β) (p : ℕ) (w : β) : Option (List β) := if p < out.length then some (out.set p w) else none

/-- Column by column: `for i < Cols { for jX, jXout … { out[jXout+i] = f(i, Data[jX+i]) } }` with the output stride `width` (/repo/preprocessing/data.go:189-201, 219-231; imputation.go:70-81). -/
def colLoop (M : Raw α) (width : ℕ) (f : ℕ → α → Option β) (out : List β) : Option (List β) :=
  (List.range M.cols).foldlM (fun out i => M.offsets.zipIdx.foldlM (fun out p => (M.data[p.1 + i]?).bind fun v => (f i v).bind fun w => setAt out (p.2 * width + i) w) out) out

/-- `Data[a:b]`. -/
def cut (l : List α) (a b : ℕ) : Option (List α) := if a ≤ b ∧ b ≤ l.length then some ((l.drop a).take (b - a)) else none

/-- The cells `vs` of a row, from column `i` on; the flag of `f` is a `break`. -/
def inRow (f : ℕ → α → Option (β × Bool)) (pos : ℕ) : List α → ℕ → List β → Option (List β)
  | [], _, out => some out
  | v :: vs, i, out => (f i v).bind fun w => (setAt out (pos + i) w.1).bind fun out => if w.2 then some out else inRow f pos vs (i + 1) out

/-- Row by row: `for jX, jXout … { for i, v := range Data[jX:jX+Cols] { out[jXout+i] = … } }` (/repo/preprocessing/data.go:965-969, 985-989; label.go:328-336, 352-360). -/
def rowLoop (M : Raw α) (width : ℕ) (f : ℕ → α → Option (β × Bool)) (out : List β) : Option (List β) :=
  M.offsets.zipIdx.foldlM (fun out p => (cut M.data p.1 (p.1 + M.cols)).bind fun vs => inRow f (p.2 * width) vs 0 out) out

/-- Reading a column: the values of `Data[jX+i]` (/repo/preprocessing/imputation.go:38-43; data.go:1107-1109; label.go:40-41, 305-306; /repo/metrics/base.go:94-95, 103-104). -/
def column (M : Raw α) (i : ℕ) : Option (List α) := M.offsets.mapM (fun jX => M.data[jX + i]?)

section Field
variable {K : Type} [Field K] [LinearOrder K]

/-- `StandardScaler.Transform`, /repo/preprocessing/data.go:185-203; `mean`, `scale`: rows of `Mean` and `Scale`, absent when switched off. -/
def stdTransform (mean scale : Option (List K)) (M : Raw K) : Option (List K) :=
  colLoop M M.cols (fun i v => ((mean.map (·[i]?)).getD (some 0)).bind fun m => ((scale.map (·[i]?)).getD (some 1)).map fun s => (v - m) / s) (List.replicate (M.rows * M.cols) 0)

/-- `StandardScaler.InverseTransform`, /repo/preprocessing/data.go:212-233. -/
def stdInverse (mean scale : Option (List K)) (M : Raw K) : Option (List K) :=
  colLoop M M.cols (fun i v => ((mean.map (·[i]?)).getD (some 0)).bind fun m => ((scale.map (·[i]?)).getD (some 1)).map fun s => m + v * s) (List.replicate (M.rows * M.cols) 0)

/-- `Imputer.Transform`, /repo/preprocessing/imputation.go:62-84; `none` among the data is NaN. -/
def impute (missing : List (Option K)) (M : Raw (Option K)) : Option (List (Option K)) :=
  colLoop M M.cols (fun i v => missing[i]?.map fun d => if v.isNone then d else v) (List.replicate (M.rows * M.cols) (some 0))

/-- The loop of `MaxAbsScaler.PartialFit` over the cells, /repo/preprocessing/data.go:939-949: the new `MaxAbs`. -/
def maxAbs (M : Raw K) (ma : List K) : Option (List K) :=
  M.offsets.foldlM (fun ma jX => (cut M.data jX (jX + M.cols)).bind fun vs => vs.zipIdx.foldlM (fun ma p =>
    ma[p.2]?.map fun a => if a < (if p.1 < 0 then -p.1 else p.1) then ma.set p.2 (if p.1 < 0 then -p.1 else p.1) else ma) ma) ma

/-- `MaxAbsScaler.Transform`, /repo/preprocessing/data.go:961-972. -/
def maxAbsTransform (scale : List K) (M : Raw K) : Option (List K) :=
  rowLoop M M.cols (fun i v => scale[i]?.map fun s => (v / s, false)) (List.replicate (M.rows * M.cols) 0)

/-- `MaxAbsScaler.InverseTransform`, /repo/preprocessing/data.go:981-992. -/
def maxAbsInverse (scale : List K) (M : Raw K) : Option (List K) :=
  rowLoop M M.cols (fun i v => scale[i]?.map fun s => (v * s, false)) (List.replicate (M.rows * M.cols) 0)

/-- `sort.SearchFloat64s`: the first position whose value is not below `v` (for the sorted `Classes`, see Lemmas/GoSort). -/
def search (l : List K) (v : K) : ℕ := l.findIdx (fun x => decide (v ≤ x))

/-- `LabelEncoder.Transform`, /repo/preprocessing/label.go:324-339. -/
def encode (classes : List (List K)) (M : Raw K) : Option (List K) :=
  rowLoop M M.cols (fun i v => classes[i]?.map fun cl => (if cl.length ≤ search cl v then -1 else (search cl v : K), false)) (List.replicate (M.rows * M.cols) 0)

/-- `LabelEncoder.InverseTransform`, /repo/preprocessing/label.go:348-363; `int` is the conversion of a number to an integer; after a code out of range the rest of the row is left at zero (`break`), `none` is NaN. -/
def decode (int : K → ℤ) (classes : List (List K)) (M : Raw K) : Option (List (Option K)) :=
  rowLoop M M.cols (fun i v => classes[i]?.bind fun cl => if int v < 0 ∨ (cl.length : ℤ) < int v then some (none, true) else cl[(int v).toNat]?.map fun x => (some x, false))
    (List.replicate (M.rows * M.cols) (some 0))

/-- `PolynomialFeatures.Transform`, /repo/preprocessing/data.go:583-597: row `r` starts at `r*Stride`. -/
def poly (powers : List (List ℕ)) (M : Raw K) : Option (List K) :=
  (List.range M.rows).foldlM (fun out r => powers.zipIdx.foldlM (fun out p =>
    (p.1.zipIdx.foldlM (fun v e => (M.data[r * M.stride + e.2]?).map fun x => v * x ^ e.1) 1).bind fun v => setAt out (r * powers.length + p.2) v) out) (List.replicate (M.rows * powers.length) 0)

/-- `LabelBinarizer.Transform`, /repo/preprocessing/label.go:53-80, for output column `j` whose flags start at `base`: an unknown label writes `neg` at the first flag. -/
def binarizeCol (pos neg : K) (M : Raw K) (width j base : ℕ) (classes : List K) (out : List K) : Option (List K) :=
  (List.range M.rows).foldlM (fun out r => (M.data[r * M.stride + j]?).bind fun v =>
    if v ∈ classes then setAt out (r * width + base + classes.idxOf v) pos else setAt out (r * width + base) neg) out

def binarizeFrom (pos neg : K) (M : Raw K) (width : ℕ) (classes : List (List K)) : ℕ → ℕ → ℕ → List K → Option (List K)
  | 0, _, _, out => some out
  | n + 1, j, base, out => classes[j]?.bind fun cl => (binarizeCol pos neg M width j base cl out).bind fun out => binarizeFrom pos neg M width classes n (j + 1) (base + cl.length) out

/-- `LabelBinarizer.Transform`, /repo/preprocessing/label.go:53-80. -/
def binarize (pos neg : K) (classes : List (List K)) (M : Raw K) : Option (List K) :=
  binarizeFrom pos neg M ((classes.map List.length).sum) classes M.cols 0 0 (List.replicate (M.rows * (classes.map List.length).sum) 0)

/-- `KernelCenterer.Transform`, /repo/preprocessing/data.go:1120-1139: the output has `Cols` rows. -/
def center (fitRows : List K) (fitAll : K) (M : Raw K) : Option (List K) :=
  (List.range M.rows).foldlM (fun out r => (cut M.data (r * M.stride) (r * M.stride + M.cols)).bind fun vs =>
    inRow (fun i v => fitRows[i]?.map fun f => (v - f - vs.sum / (fitRows.length : K) + fitAll, false)) (r * M.cols) vs 0 out) (List.replicate (M.cols * M.cols) 0)

end Field

end Sk.RawLoops
