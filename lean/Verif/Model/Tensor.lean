import Verif.Model.Kernels
import Mathlib.Data.List.Basic
import Mathlib.Algebra.Order.Ring.Defs
import Mathlib.Algebra.Order.Group.Abs

/-!
# `gaussian_process/tensor/tensor.go`, `gaussian_process/kernels/matutil.go` and the gradient tensors of `kernels.go`

A tensor is its shape, its strides and its backing slice (a list).  `none` is a panic.
-/
set_option autoImplicit false

namespace Sk.Tensor

/-- `Dense`, /repo/gaussian_process/tensor/tensor.go:20-25 (element type always float64). -/
structure Dense (α : Type) where
  shape : List ℕ
  strides : List ℕ
  data : List α

/-- The loop of `NewDense`, /repo/gaussian_process/tensor/tensor.go:105-111, from the last dimension to the first: strides and size. -/
def strideLoop : List ℕ → List ℕ × ℕ := fun s => s.foldr (fun d acc => (acc.2 :: acc.1, acc.2 * d)) ([], 1)

/-- `NewDense`, /repo/gaussian_process/tensor/tensor.go:104-120, with or without `WithBacking` (123). -/
def newDense {α : Type} (zero : α) (shape : List ℕ) (backing : Option (List α)) : Dense α :=
  ⟨shape, (strideLoop shape).1, backing.getD (List.replicate (strideLoop shape).2 zero)⟩

/-- The loop of `At`, /repo/gaussian_process/tensor/tensor.go:82-88: `.error` is `ErrIndexOutOfBounds`. -/
def atPos : List ℕ → List ℕ → List ℤ → Option (Except Unit ℕ)
  | s :: sh, t :: st, i :: is => if i < 0 ∨ (s : ℤ) ≤ i then some (.error ()) else (atPos sh st is).map (fun r => r.map (fun p => i.toNat * t + p))
  | _, _, [] => some (.ok 0)
  | _, _, _ :: _ => none

/-- `At`, /repo/gaussian_process/tensor/tensor.go:81-92. -/
def Dense.at_ {α : Type} (t : Dense α) (args : List ℤ) : Option (Except Unit α) :=
  match atPos t.shape t.strides args with
  | none => none
  | some (.error _) => some (.error ())
  | some (.ok pos) => t.data[pos]?.map .ok

/-- `Start` and `Next` of the iterator (the same code), /repo/gaussian_process/tensor/tensor.go:55-72: the index returned, whether there was no error, and the new state. -/
def step (len index : ℕ) : ℕ × Bool × ℕ := (index, decide (index < len), index + 1)

/-- `for i, e := it.Start(); e == nil; i, e = it.Next()`, from the iterator state `index`: the indices visited and the state after the loop. -/
def loop (len : ℕ) (index : ℕ) : List ℕ × ℕ :=
  if h : (step len index).2.1 = true then
    let r := loop len (step len index).2.2
    ((step len index).1 :: r.1, r.2)
  else ([], (step len index).2.2)
termination_by len - index
decreasing_by
  simp only [step, decide_eq_true_eq] at h ⊢
  omega

/-! ## Gradients -/

section
variable {K : Type} [Field K] [LinearOrder K]

/-- The gradient of `Sum`, /repo/gaussian_process/kernels/kernels.go:175-189, for `n` rows: the loop over the positions of the result. -/
def sumGrad (n : ℕ) (A B : Dense K) : Dense K :=
  let p₁ := A.shape.getD 2 0
  let p₂ := B.shape.getD 2 0
  let s := p₁ + p₂
  newDense 0 [n, n, s] (some ((List.range (n * n * s)).map (fun i =>
    let i2 := i % s
    let i1 := ((i - i2) / s) % n
    let i0 := ((i - i2) / s) / n
    if i2 < p₁ then A.data.getD (i0 * n * p₁ + i1 * p₁ + i2) 0 else B.data.getD (i0 * n * p₂ + i1 * p₂ + (i2 - p₁)) 0)))

/-- Indices of a tensor in the order of nested loops. -/
def indices : List ℕ → List (List ℕ)
  | [] => [[]]
  | s :: sh => (List.range s).flatMap (fun i => (indices sh).map (i :: ·))

/-- Position from strides, `i0*Strides[0]+i1*Strides[1]+…`. -/
def dot (st is : List ℕ) : ℕ := (List.zipWith (· * ·) is st).sum

/-- The gradient of `Product`, /repo/gaussian_process/kernels/kernels.go:232-252: three nested loops writing the result by position; `K₁`, `K₂` are the values of the factors. -/
def prodGrad (n : ℕ) (K₁ K₂ : ℕ → ℕ → K) (A B : Dense K) : Dense K :=
  let p₁ := A.shape.getD 2 0
  let p₂ := B.shape.getD 2 0
  let T := newDense (0 : K) [n, n, p₁ + p₂] none
  { T with data := (indices [n, n, p₁ + p₂]).foldl (fun d is =>
      let i0 := is.getD 0 0
      let i1 := is.getD 1 0
      let i2 := is.getD 2 0
      if i2 < p₁ then d.set (dot T.strides is) (A.data.getD (dot A.strides [i0, i1, i2]) 0 * K₂ i0 i1)
      else d.set (dot T.strides is) (B.data.getD (dot B.strides [i0, i1, i2 - p₁]) 0 * K₁ i0 i1)) T.data }

/-- The gradient of a kernel with one free hyperparameter, filled by the iterator from the position: constant /repo/gaussian_process/kernels/kernels.go:380-385, RBF 588-608 (row `i/nx`, column `i%nx`),
dot product 687-692. -/
def leafGrad (n : ℕ) (f : ℕ → ℕ → K) : Dense K := newDense 0 [n, n, 1] (some ((loop (n * n) 0).1.map (fun i => f (i / n) (i % n))))

/-- The gradient of `WhiteKernel`, /repo/gaussian_process/kernels/kernels.go:469-476. -/
def whiteGrad (n : ℕ) (v : K) : Dense K := newDense 0 [n, n, 1] (some ((loop (n * n) 0).1.map (fun i => if i % (n + 1) = 0 then v else 0)))

/-! ## `Diff3D` -/

/-- `|a - b|` of floats; `none` is `NaN`. -/
def absDiff (a b : Option K) : Option K := do
  let a ← a
  let b ← b
  some (max (a - b) (b - a))

/-- One pass of the loop of `Diff3D`, /repo/gaussian_process/kernels/matutil.go:96-105: the greatest difference above `tol` so far (comparisons with `NaN` are false). -/
def diffStep (tol m : K) (ab : Option K × Option K) : K := match absDiff ab.1 ab.2 with | none => m | some d => if tol < d ∧ m < d then d else m

/-- `Diff3D`, /repo/gaussian_process/kernels/matutil.go:79-112, for the pairs of cells at the indices of `a` in order: the greatest difference reported, or `none` for no error. -/
def diff3D (tol : K) (cells : List (Option K × Option K)) : Option K :=
  let m := cells.foldl (diffStep tol) 0
  if tol < m then some m else none

/-- The cells `Diff3D` compares: the indices of `a`'s shape in both tensors; `none`: panic on an error of `At`. -/
def diffCells (a b : Dense (Option K)) : Option (List (Option K × Option K)) :=
  (indices a.shape).mapM (fun is => match a.at_ (is.map Int.ofNat), b.at_ (is.map Int.ofNat) with
    | some (.ok u), some (.ok v) => some (u, v)
    | _, _ => none)

end

/-! ## `CloneWithTheta(nil)` -/

/-- `CloneWithTheta(nil)`, /repo/gaussian_process/kernels/kernels.go:126-128 for sums and products; the other kernels pass `nil` to `matCopy`, which calls `Dims` of it
(/repo/gaussian_process/kernels/matutil.go:52-53): a panic. -/
def cloneNil : GP.Kern → Option GP.Kern
  | .sum k₁ k₂ => do
    let c₁ ← cloneNil k₁
    let c₂ ← cloneNil k₂
    some (.sum c₁ c₂)
  | .prod k₁ k₂ => do
    let c₁ ← cloneNil k₁
    let c₂ ← cloneNil k₂
    some (.prod c₁ c₂)
  | .exp k _ => cloneNil k
  | _ => none

/-- A hyperparameter with its bounds, /repo/gaussian_process/kernels/kernels.go:19-23. -/
structure Param where
  value : ℝ
  lo : ℝ
  hi : ℝ

open Classical in
/-- `notFixed`, /repo/gaussian_process/kernels/kernels.go:26-42. -/
noncomputable def notFixed (ps : List Param) : List Param := ps.filter (fun p => decide (p.hi ≠ p.lo))

/-- `Theta()`, /repo/gaussian_process/kernels/kernels.go:43-55. -/
noncomputable def theta (ps : List Param) : List ℝ := (notFixed ps).map (fun p => Real.log p.value)

/-- `Bounds()`, /repo/gaussian_process/kernels/kernels.go:56-68. -/
noncomputable def bounds (ps : List Param) : List (ℝ × ℝ) := (notFixed ps).map (fun p => (Real.log p.lo, Real.log p.hi))

end Sk.Tensor
