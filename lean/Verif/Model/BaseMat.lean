import Verif.Model.Matrix

/-!
# `base/matrix.go`: `ToDense`, `FromDense`, `MatStr`, `MatDimsCheck`; the caller's side of the `Predict` methods

Headers and slices as in `Verif.Model.Matrix`.  A heap is a memory `ℕ → α` and the first address not yet allocated; `none` is a panic.
-/
set_option autoImplicit false

namespace Sk.BaseMat
open Sk.Matrix (General Slice)

variable {α : Type}

/-- Memory and the first free address. -/
structure Heap (α : Type) where
  mem : ℕ → α
  free : ℕ

/-- The destination of `Predict`, by dynamic type: a nil interface; a `*mat.Dense` (or another `RawMatrixer`) with its header;
another `mat.Mutable`, whose cell `(i, j)` is stored at the address `addr i j` (`none`: `At` and `Set` panic). -/
inductive Dst where
  | nil
  | dense (M : General)
  | other (rows cols : ℕ) (addr : ℕ → ℕ → Option ℕ)

/-- The indices of an `r × c` matrix, row by row. -/
def cells (r c : ℕ) : List (ℕ × ℕ) := (List.range r).flatMap (fun i => (List.range c).map (fun j => (i, j)))

/-- A double loop copying the cell at `sa` to the cell at `da`; `none` is a panic of an access. -/
def copyCells (ps : List (ℕ × ℕ)) (da sa : ℕ × ℕ → Option ℕ) (mem : ℕ → α) : Option (ℕ → α) :=
  ps.foldlM (fun m p => do
    let d ← da p
    let s ← sa p
    some (Function.update m d (m s))) mem

/-- A double loop setting the cell `p` to `f p`. -/
def fillCells (ps : List (ℕ × ℕ)) (da : ℕ × ℕ → Option ℕ) (f : ℕ × ℕ → α) (mem : ℕ → α) : Option (ℕ → α) :=
  ps.foldlM (fun m p => (da p).map (fun d => Function.update m d (f p))) mem

/-- `mat.NewDense(r, c, nil)` of gonum: panics for a zero size, else `r*c` fresh zeros. -/
def newDense (zero : α) (r c : ℕ) (h : Heap α) : Option (General × Heap α) :=
  if r = 0 ∨ c = 0 then none
  else some (⟨r, c, c, ⟨h.free, r * c, r * c⟩⟩, ⟨fun a => if h.free ≤ a ∧ a < h.free + r * c then zero else h.mem a, h.free + r * c⟩)

/-- Raw access `Data[i*Stride+j]` of a slice, checked against its length only. -/
def rawAddr (M : General) (p : ℕ × ℕ) : Option ℕ :=
  if p.1 * M.stride + p.2 < M.data.len then some (M.data.off + (p.1 * M.stride + p.2)) else none

/-- `ToDense`, /repo/base/matrix.go:198-215: a `*mat.Dense` is returned itself and a `RawMatrixer` as a matrix with the same header (simplification: one case; the nil interface gives the empty matrix, zero header);
any other matrix is copied into a fresh one (`mat.DenseCopyOf`). -/
def toDense (zero : α) (d : Dst) (h : Heap α) : Option (General × Heap α) :=
  match d with
  | .nil => some (⟨0, 0, 0, ⟨0, 0, 0⟩⟩, h)
  | .dense M => some (M, h)
  | .other r c addr => do
    let (D, h1) ← newDense zero r c h
    let mem ← copyCells (cells r c) (fun p => D.addr p.1 p.2) (fun p => addr p.1 p.2) h1.mem
    some (D, ⟨mem, h1.free⟩)

/-- `FromDense`, /repo/base/matrix.go:218-241: nothing for nil; for a matrix with raw data nothing when the first cells are the same cell, else a copy through the raw slices, without a comparison of the sizes;
`Set` of each cell for other matrices. -/
def fromDense (dst : Dst) (D : General) (mem : ℕ → α) : Option (ℕ → α) :=
  match dst with
  | .nil => some mem
  | .dense M =>
    if M.data.len = 0 ∨ D.data.len = 0 then none
    else if M.data.off = D.data.off then some mem
    else copyCells (cells D.rows D.cols) (rawAddr M) (rawAddr D) mem
  | .other _ _ addr => copyCells (cells D.rows D.cols) (fun p => addr p.1 p.2) (rawAddr D) mem

/-- The pattern of the `Predict` methods, e.g. /repo/cluster/kmeans.go:148-161, /repo/neighbors/nearest_centroid.go:73-82, /repo/svm/svr.go:218-233, /repo/svm/svm.go:311-328, /repo/linear_model/Base.go:126-134, 279-287,
/repo/linear_model/bayes.go:224-237: `Y := ToDense(Ymutable)`, a new `nSamples × nOutputs` matrix in place of an empty one, the cells of the predictions `f` are set, `FromDense(Ymutable, Y)`.
When `Ymutable` is an empty `*mat.Dense` the assignment `*Y = *mat.NewDense(…)` replaces the caller's header, so the destination given to `FromDense` has the new header.
Result: the matrix returned, the destination seen by the caller, the heap. -/
def predict (zero : α) (n o : ℕ) (f : ℕ × ℕ → α) (dst : Dst) (h : Heap α) : Option (General × Dst × Heap α) := do
  let (Y, h1) ← toDense zero dst h
  let (Y, dst, h1) ← (if Y.rows = 0 ∨ Y.cols = 0 then (newDense zero n o h1).map (fun r => (r.1, (match dst with | .dense _ => Dst.dense r.1 | d => d), r.2)) else some (Y, dst, h1))
  let m2 ← fillCells (cells n o) (fun p => Y.addr p.1 p.2) f h1.mem
  let m3 ← fromDense dst Y m2
  some (Y, dst, ⟨m3, h1.free⟩)

/-- `PredictLogProbas` and `PredictProbas` of the naive Bayes classifiers, /repo/naive_bayes/naivebayes.go:51-84: the same, but a new matrix is assigned to the local variable `Y`, so the caller's empty matrix stays empty. -/
def predictNB (zero : α) (n o : ℕ) (f : ℕ × ℕ → α) (dst : Dst) (h : Heap α) : Option (General × Dst × Heap α) := do
  let (Y, h1) ← toDense zero dst h
  let (Y, h1) ← (if Y.rows = 0 ∨ Y.cols = 0 then newDense zero n o h1 else some (Y, h1))
  let m2 ← fillCells (cells n o) (fun p => Y.addr p.1 p.2) f h1.mem
  let m3 ← fromDense dst Y m2
  some (Y, dst, ⟨m3, h1.free⟩)

/-! ## `MatDimsCheck`, `MatStr` -/

/-- `MatDimsCheck`, /repo/base/matrix.go:95-109; `false` is a panic. -/
def matDimsCheck (op : String) (r x y : ℕ × ℕ) : Bool :=
  if op = "+" ∨ op = "-" ∨ op = "*" ∨ op = "/" then !(decide (x.1 ≠ y.1 ∨ x.2 ≠ y.2 ∨ r.1 ≠ x.1 ∨ r.2 ≠ x.2))
  else if op = "." then !(decide (x.2 ≠ y.1 ∨ r.1 ≠ x.1 ∨ r.2 ≠ y.2))
  else true

/-- A matrix seen through `Dims` and `At`. -/
structure Mat (α : Type) where
  rows : ℕ
  cols : ℕ
  f : ℕ → ℕ → α

/-- `At`: panics outside of the matrix. -/
def Mat.at_ (X : Mat α) (i j : ℕ) : Option α := if i < X.rows ∧ j < X.cols then some (X.f i j) else none

/-- The loop over the columns of `MatStr`, /repo/base/matrix.go:122-129, for the matrix number `imat` of `nm`; `g` is `fmt.Sprintf("%g", …)`. -/
def strCols (g : α → List Char) (nm imat : ℕ) (X : Mat α) (i : ℕ) (b : List Char) : Option (List Char) :=
  (List.range X.cols).foldlM (fun b j => do
    let v ← X.at_ i j
    some (b ++ g v ++ [if j + 1 < X.cols ∨ imat + 1 < nm then '\t' else '\n'])) b

/-- The loop over the matrices, /repo/base/matrix.go:120-131. -/
def strMats (g : α → List Char) (nm : ℕ) : ℕ → List (Mat α) → ℕ → List Char → Option (List Char)
  | _, [], _, b => some b
  | imat, X :: Xs, i, b => do
    let b ← strCols g nm imat X i b
    strMats g nm (imat + 1) Xs i b

/-- `MatStr`, /repo/base/matrix.go:112-133: as many rows as the first matrix has. -/
def matStr (g : α → List Char) (Xs : List (Mat α)) : Option (List Char) :=
  match Xs with
  | [] => some []
  | X :: _ => (List.range X.rows).foldlM (fun b i => strMats g Xs.length 0 Xs i b) []

end Sk.BaseMat
