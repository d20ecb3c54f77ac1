import Mathlib.Algebra.Order.Ring.Int
import Mathlib.Data.List.Basic

/-!
# Matrix views of `base/matrix.go`: `MatConst`, `MatTranspose`, `MatOnesPrepended`, `MatRowSlice` and the slices of raw matrices

Indices are Go `int`s (here integers, overflow is not modelled).  `none` is a panic.
-/
set_option autoImplicit false

namespace Sk.Views

variable {K : Type}

/-! ## Overrides of `mat.Matrix` -/

/-- A matrix value.  `dense r c` is a `*mat.Dense` with `r` rows and `c` columns whose cells are the buffer, row by row (stride = columns; see the second part for strides); the others are the structs of
/repo/base/matrix.go:13-16, 28, 51, 54-57, each around another matrix. -/
inductive MatV (K : Type) where
  | dense (r c : ℕ)
  | const (r c : ℤ) (v : K)
  | transpose (m : MatV K)
  | ones (m : MatV K)
  | rowSlice (m : MatV K) (start stop : ℤ)

/-- `Dims`: /repo/base/matrix.go:19, 31, 60; `MatOnesPrepended` has no methods of its own and promotes those of the embedded matrix (51). -/
def MatV.dims : MatV K → ℤ × ℤ
  | .dense r c => (r, c)
  | .const r c _ => (r, c)
  | .transpose m => (m.dims.2, m.dims.1)
  | .ones m => m.dims
  | .rowSlice m s e => (e - s, m.dims.2)

/-- `At`: /repo/base/matrix.go:22, 34-36, 63-68; gonum's `Dense.At` panics outside of the matrix. -/
def MatV.get (buf : List K) : MatV K → ℤ → ℤ → Option K
  | .dense r c, i, j => if 0 ≤ i ∧ i < r ∧ 0 ≤ j ∧ j < c then buf[(i * c + j).toNat]? else none
  | .const _ _ v, _, _ => some v
  | .transpose m, i, j => m.get buf j i
  | .ones m, i, j => m.get buf i j
  | .rowSlice m s e, i, j => if i < 0 ∨ i > e - s then none else m.get buf (i + s) j

/-- Is the value a `mat.Mutable`?  `MatTranspose` and `MatRowSlice` have a `Set`; `MatOnesPrepended` embeds a `mat.Matrix`, an interface without `Set`, and has none. -/
def MatV.mutable : MatV K → Bool
  | .dense _ _ => true
  | .const _ _ _ => false
  | .transpose _ => true
  | .ones _ => false
  | .rowSlice _ _ _ => true

/-- `Set`: /repo/base/matrix.go:39-45, 71-77; the result is the new buffer. -/
def MatV.set (buf : List K) : MatV K → ℤ → ℤ → K → Option (List K)
  | .dense r c, i, j, v => if 0 ≤ i ∧ i < r ∧ 0 ≤ j ∧ j < c ∧ (i * c + j).toNat < buf.length then some (buf.set (i * c + j).toNat v) else none
  | .const _ _ _, _, _, _ => none
  | .transpose m, i, j, v => if m.mutable then m.set buf j i v else none
  | .ones _, _, _, _ => none
  | .rowSlice m s _, i, j, v => if m.mutable then m.set buf (i - s) j v else none

/-- `T`: /repo/base/matrix.go:25, 48, 80; of a dense matrix it is gonum's `mat.Transpose`, which reads like a `MatTranspose`. -/
def MatV.t : MatV K → MatV K
  | .dense r c => .transpose (.dense r c)
  | .const r c v => .transpose (.const r c v)
  | .transpose m => m
  | .ones m => m.t
  | .rowSlice m s e => .transpose (.rowSlice m s e)

/-! ## Slices of raw matrices -/

/-- `blas64.General`: its `Data` is a Go slice, `cap` cells from address `off`, of which `len` are visible. -/
structure Gen where
  rows : ℤ
  cols : ℤ
  stride : ℤ
  off : ℤ
  len : ℤ
  cap : ℤ
deriving DecidableEq

/-- The slice expression `Data[a:b]`: Go checks `0 ≤ a ≤ b ≤ cap`. -/
def goSlice (M : Gen) (rows cols a b : ℤ) : Option Gen :=
  if 0 ≤ a ∧ a ≤ b ∧ b ≤ M.cap then some ⟨rows, cols, M.stride, M.off + a, b - a, M.cap - a⟩ else none

/-- `MatGeneralSlice`, and `MatDenseSlice`, which wraps it, /repo/base/matrix.go:136-153. -/
def slice (M : Gen) (i k j l : ℤ) : Option Gen :=
  if k ≤ i then none else goSlice M (k - i) (l - j) (i * M.stride + j) ((k - 1) * M.stride + l)

/-- `MatGeneralRowSlice`, `MatDenseRowSlice`, /repo/base/matrix.go:156-161, 172-182. -/
def rowSlice (M : Gen) (i k : ℤ) : Option Gen :=
  if k ≤ i then none else goSlice M (k - i) M.cols (i * M.stride) (k * M.stride)

/-- `MatGeneralColSlice`, `MatDenseColSlice`, /repo/base/matrix.go:164-169, 185-195. -/
def colSlice (M : Gen) (j l : ℤ) : Option Gen :=
  if l ≤ j then none else goSlice M M.rows (l - j) j (l + (M.rows - 1) * M.stride)

/-- The address read or written by `At(r,c)`/`Set(r,c,·)` of the `*mat.Dense` (gonum checks the sizes, Go the slice index). -/
def addr (M : Gen) (r c : ℤ) : Option ℤ :=
  if 0 ≤ r ∧ r < M.rows ∧ 0 ≤ c ∧ c < M.cols then if 0 ≤ r * M.stride + c ∧ r * M.stride + c < M.len then some (M.off + (r * M.stride + c)) else none else none

end Sk.Views
