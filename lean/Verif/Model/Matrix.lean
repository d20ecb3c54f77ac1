import Mathlib.Data.Int.Order.Basic
import Mathlib.Logic.Function.Basic

/-!
# Model of `base/matrix.go`: matrix views

The backing array is a memory `ℕ → α`. A Go slice is (offset, length, capacity). `none` = panic.
-/
set_option autoImplicit false

namespace Sk.Matrix

/-- A Go slice header into the backing array. -/
structure Slice where
  off : ℕ
  len : ℕ
  cap : ℕ
deriving DecidableEq, Repr

/-- Go slicing `s[a:b]`: panics unless `a ≤ b ≤ cap(s)` (it may extend beyond `len(s)`). -/
def Slice.slice (s : Slice) (a b : ℕ) : Option Slice :=
  if a ≤ b ∧ b ≤ s.cap then some ⟨s.off + a, b - a, s.cap - a⟩ else none

/-- `blas64.General`. -/
structure General where
  rows : ℕ
  cols : ℕ
  stride : ℕ
  data : Slice
deriving DecidableEq, Repr

/-- Address of cell `(i,j)`, as computed by gonum's `Dense.At`/`Set` (`Data[i*Stride+j]`): panics when out of the matrix or
out of the slice. -/
def General.addr (M : General) (i j : ℕ) : Option ℕ :=
  if i < M.rows ∧ j < M.cols ∧ i * M.stride + j < M.data.len then some (M.data.off + (i * M.stride + j)) else none

/-- `At(i,j)`. -/
def General.get {α : Type} (M : General) (mem : ℕ → α) (i j : ℕ) : Option α := (M.addr i j).map mem

/-- `Set(i,j,v)`. -/
def General.set {α : Type} (M : General) (mem : ℕ → α) (i j : ℕ) (v : α) : Option (ℕ → α) :=
  (M.addr i j).map (fun a => Function.update mem a v)

/-- `MatGeneralSlice(M,i,k,j,l)`, base/matrix.go:143-153. Simplification: indices are natural numbers, and `l < j`
(negative number of columns) is a panic here. -/
def genSlice (M : General) (i k j l : ℕ) : Option General :=
  if k ≤ i then none                                                    -- l.144-146
  else if l < j then none
  else (M.data.slice (i * M.stride + j) ((k - 1) * M.stride + l)).map (fun d => ⟨k - i, l - j, M.stride, d⟩)

/-- `MatGeneralRowSlice(M,i,k)`, base/matrix.go:172-182. -/
def rowSlice (M : General) (i k : ℕ) : Option General :=
  if k ≤ i then none
  else (M.data.slice (i * M.stride) (k * M.stride)).map (fun d => ⟨k - i, M.cols, M.stride, d⟩)

/-- `MatGeneralColSlice(M,j,l)`, base/matrix.go:185-195. -/
def colSlice (M : General) (j l : ℕ) : Option General :=
  if l ≤ j then none
  else (M.data.slice j (l + (M.rows - 1) * M.stride)).map (fun d => ⟨M.rows, l - j, M.stride, d⟩)

/-! ## Interface wrappers: `MatTranspose`, `MatRowSlice` -/

/-- A mutable matrix as seen through the `mat.Mutable` interface; state `σ`; indices are Go `int`s. -/
structure Mutable (σ α : Type) where
  rows : ℤ
  cols : ℤ
  at_ : σ → ℤ → ℤ → Option α
  set_ : σ → ℤ → ℤ → α → Option σ

/-- A `*mat.Dense` with `r×c` cells, state = its cells. -/
def dense (α : Type) (r c : ℕ) : Mutable (ℤ → ℤ → α) α where
  rows := r
  cols := c
  at_ m i j := if 0 ≤ i ∧ i < r ∧ 0 ≤ j ∧ j < c then some (m i j) else none
  set_ m i j v := if 0 ≤ i ∧ i < r ∧ 0 ≤ j ∧ j < c then
      some (fun i' j' => if i' = i ∧ j' = j then v else m i' j') else none

/-- `MatTranspose`, base/matrix.go:28-48. -/
def transpose {σ α : Type} (M : Mutable σ α) : Mutable σ α where
  rows := M.cols
  cols := M.rows
  at_ s i j := M.at_ s j i
  set_ s i j v := M.set_ s j i v

/-- `MatRowSlice{M, start, end}`, base/matrix.go:54-80. -/
def matRowSlice {σ α : Type} (M : Mutable σ α) (start stop : ℤ) : Mutable σ α where
  rows := stop - start
  cols := M.cols
  at_ s i j := if i < 0 ∨ i > stop - start then none else M.at_ s (i + start) j   -- l.64-67
  set_ s i j v := M.set_ s (i - start) j v                                         -- l.73

end Sk.Matrix
