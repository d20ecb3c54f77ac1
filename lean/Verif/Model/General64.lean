import Verif.Model.Matrix
import Mathlib.Data.List.Basic

/-!
# `neural_network/general.go`: `General64` (and its copy `General32`)

Headers and memory as in `Verif.Model.Matrix`: a matrix is rows, columns, stride and a Go slice into a memory `ℕ → α`; `none` is a panic.
-/
set_option autoImplicit false

namespace Sk.G64
open Sk.Matrix (General Slice)

variable {α : Type}

/-- `At`, /repo/neural_network/general.go:117-119: only the index into the slice is checked. -/
def at_ (M : General) (mem : ℕ → α) (r c : ℕ) : Option α := if c + r * M.stride < M.data.len then some (mem (M.data.off + (c + r * M.stride))) else none

/-- `Set`, /repo/neural_network/general.go:122-124. -/
def set_ (M : General) (mem : ℕ → α) (r c : ℕ) (v : α) : Option (ℕ → α) :=
  if c + r * M.stride < M.data.len then some (Function.update mem (M.data.off + (c + r * M.stride)) v) else none

/-- One exchange `Data[p], Data[q] = Data[q], Data[p]`. -/
def swapCell (M : General) (mem : ℕ → α) (p q : ℕ) : Option (ℕ → α) :=
  if p < M.data.len ∧ q < M.data.len then
    some (Function.update (Function.update mem (M.data.off + p) (mem (M.data.off + q))) (M.data.off + q) (mem (M.data.off + p)))
  else none

/-- `Swap`, /repo/neural_network/general.go:186-190. -/
def swap (M : General) (mem : ℕ → α) (i j : ℕ) : Option (ℕ → α) := (List.range M.cols).foldlM (fun mem k => swapCell M mem (i * M.stride + k) (j * M.stride + k)) mem

/-- `copy(dst, src)` of `n` cells starting at the address `d`; `src` are values read before. -/
def copyTo (mem : ℕ → α) (d n : ℕ) (src : ℕ → α) : ℕ → α := fun x => if d ≤ x ∧ x < d + n then src (x - d) else mem x

/-- `general64FastSwapT.Swap`, /repo/neural_network/general.go:213-223; slice expressions are checked against the capacity, `tmp` has `Cols` cells (224-226). -/
def fastSwap (M : General) (mem : ℕ → α) (i j : ℕ) : Option (ℕ → α) :=
  let ipos := i * M.stride
  let jpos := j * M.stride
  if M.cols = 1 then swapCell M mem ipos jpos
  else do
    let si ← M.data.slice ipos (ipos + M.cols)
    let sj ← M.data.slice jpos (jpos + M.cols)
    let tmp := fun k => mem (si.off + k)
    let mem1 := copyTo mem si.off M.cols (fun k => mem (sj.off + k))
    some (copyTo mem1 sj.off M.cols tmp)

/-- `RowSlice`, /repo/neural_network/general.go:248-250. -/
def rowSlice (M : General) (i j : ℕ) : Option General :=
  if j < i then none else (M.data.slice (i * M.stride) (j * M.stride)).map (fun d => ⟨j - i, M.cols, M.stride, d⟩)

/-- The argument of `Copy`, by dynamic type: a `General64`; a matrix giving access to its `blas64.General` and to its rows (`*mat.Dense`); another matrix, with its `At`. -/
inductive Src (α : Type) where
  | general (M : General) (mem : ℕ → α)
  | dense (M : General) (mem : ℕ → α)
  | other (rows cols : ℕ) (f : ℕ → ℕ → α)

/-- `Dims`. -/
def Src.dims : Src α → ℕ × ℕ
  | .general M _ => (M.rows, M.cols)
  | .dense M _ => (M.rows, M.cols)
  | .other r c _ => (r, c)

/-- `At`. -/
def Src.at_ : Src α → ℕ → ℕ → Option α
  | .general M mem, r, c => G64.at_ M mem r c
  | .dense M mem, r, c => M.get mem r c
  | .other rows cols f, r, c => if r < rows ∧ c < cols then some (f r c) else none

/-- Contents of `mat.Data` after `Copy`, /repo/neural_network/general.go:279-302, for a receiver with at least one row and column; `old` are its previous cells (zeros when it is reallocated, l.283).
The result has stride `cols`.  Source and receiver do not share memory. -/
def copy (src : Src α) (old : ℕ → α) : ℕ → α :=
  match src with
  | .general M mem => fun p => if p < M.data.len then mem (M.data.off + p) else old p
  | .dense M mem =>
    if M.cols = M.stride then fun p => if p < M.data.len then mem (M.data.off + p) else old p
    else fun p => mem (M.data.off + (p / M.cols * M.stride + p % M.cols))
  | .other _ cols f => fun p => f (p / cols) (p % cols)

/-- The same for `General32.Copy`, /repo/neural_network/general.go:253-276, which differs: it asks for a `*General32` (l.261), so a `General32` is treated as any matrix with raw data and rows. -/
def copy32 (src : Src α) (old : ℕ → α) : ℕ → α :=
  match src with
  | .general M mem => copy (.dense M mem) old
  | src => copy src old

/-- `SumRows`, /repo/neural_network/general.go:314-320: cells of the first row of the receiver for the rows `a` of the argument, before `mat`. -/
def sumRows (mat : List α) (a : List (List α)) : List α := a.foldl (fun _ row => row) mat

end Sk.G64
