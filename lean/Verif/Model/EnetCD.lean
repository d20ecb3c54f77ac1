import Mathlib.Algebra.Order.Field.Basic
import Mathlib.Algebra.BigOperators.Fin
import Mathlib.Algebra.Order.BigOperators.Group.Finset
import Mathlib.Data.List.FinRange

/-!
# `linear_model/cdfast.go`: `enetCoordinateDescent`

`n` samples, `p` features; vectors are functions on `Fin`.  Sums are mathematical sums (rounding and summation order not modelled).  The coordinates visited in sweep `it` are
given by `draws it`: `0, 1, …, p-1` for cyclic selection, any list of `p` coordinates for random selection.
-/
set_option autoImplicit false

namespace Sk.Enet

variable {K : Type} [Field K] [LinearOrder K] [IsStrictOrderedRing K] {n p : ℕ}

/-- `normColsX`, /repo/linear_model/cdfast.go:29-35. -/
def normCol (X : Fin n → Fin p → K) (j : Fin p) : K := ∑ i, X i j * X i j

/-- `fsign`, /repo/linear_model/cdfast.go:56-63. -/
def fsign (x : K) : K := if 0 < x then 1 else if x = 0 then 0 else -1

/-- Coefficients and residual. -/
structure St (n p : ℕ) (K : Type) where
  w : Fin p → K
  R : Fin n → K

/-- One coordinate update, /repo/linear_model/cdfast.go:78-102.  (`normColsX[ii]+beta` is positive for `beta ≥ 0`, the only case considered in the theorems.) -/
def coord (X : Fin n → Fin p → K) (alpha beta : K) (positive : Bool) (s : St n p K) (ii : Fin p) : St n p K :=
  if normCol X ii = 0 then s else
  let wii := s.w ii
  let R1 : Fin n → K := if wii ≠ 0 then fun i => s.R i + wii * X i ii else s.R
  let tmp := ∑ i, X i ii * R1 i
  let w' : K := if positive && decide (tmp < 0) then 0 else fsign tmp * max (|tmp| - alpha) 0 / (normCol X ii + beta)
  let R2 : Fin n → K := if w' ≠ 0 then fun i => R1 i + -w' * X i ii else R1
  ⟨Function.update s.w ii w', R2⟩

/-- A sweep over the coordinates `is` with the greatest coefficient and the greatest change, /repo/linear_model/cdfast.go:66-113. -/
def sweep (X : Fin n → Fin p → K) (alpha beta : K) (positive : Bool) : List (Fin p) → St n p K × K × K → St n p K × K × K
  | [], r => r
  | ii :: is, (s, wmax, dwmax) =>
    if normCol X ii = 0 then sweep X alpha beta positive is (s, wmax, dwmax) else
    let s' := coord X alpha beta positive s ii
    let dw := |s'.w ii - s.w ii|
    sweep X alpha beta positive is (s', if wmax < |s'.w ii| then |s'.w ii| else wmax, if dwmax < dw then dw else dwmax)

/-- Greatest entry of a vector (`mat.Max`; 0 for the empty vector, which cannot occur in Go). -/
def vmax (v : Fin p → K) : K := match List.ofFn v with
  | [] => 0
  | a :: l => l.foldl max a

/-- The duality gap, /repo/linear_model/cdfast.go:119-145. -/
def gapOf (X : Fin n → Fin p → K) (y : Fin n → K) (alpha beta : K) (positive : Bool) (s : St n p K) : K :=
  let XtA : Fin p → K := fun j => (∑ i, X i j * s.R i) + -beta * s.w j
  let dualNorm := if positive then vmax XtA else vmax (fun j => |XtA j|)
  let R2 := ∑ i, s.R i * s.R i
  let w2 := ∑ j, s.w j * s.w j
  let cons := if alpha < dualNorm then alpha / dualNorm else 1
  let gap := if alpha < dualNorm then (1 / 2) * (R2 + R2 * cons * cons) else R2
  gap + ((alpha * (∑ j, |s.w j|) - cons * (∑ i, s.R i * y i)) + (1 / 2) * beta * (1 + cons * cons) * w2)

/-- Result: final state, `Gap`, and the value of `nIter` on leaving the loop. -/
structure Res (n p : ℕ) (K : Type) where
  st : St n p K
  gap : K
  nIter : ℕ

/-- The main loop, /repo/linear_model/cdfast.go:65-156, with `k` iterations left after iteration number `it`; `tol` is the scaled tolerance. -/
def loop (X : Fin n → Fin p → K) (y : Fin n → K) (alpha beta dwtol tol : K) (positive : Bool) (draws : ℕ → List (Fin p)) : ℕ → ℕ → St n p K → K → Res n p K
  | 0, it, s, gap => ⟨s, gap, it⟩
  | k + 1, it, s, gap =>
    let r := sweep X alpha beta positive (draws it) (s, 0, 0)
    if r.2.1 = 0 ∨ r.2.2 / r.2.1 < dwtol ∨ k = 0 then
      let g := gapOf X y alpha beta positive r.1
      if g < tol then ⟨r.1, g, it⟩ else loop X y alpha beta dwtol tol positive draws k (it + 1) r.1 g
    else loop X y alpha beta dwtol tol positive draws k (it + 1) r.1 gap

/-- `CDResult` together with the coefficients. -/
structure CDResult (n p : ℕ) (K : Type) where
  w : Fin p → K
  R : Fin n → K
  gap : K
  eps : K
  nIter : ℕ

/-- `enetCoordinateDescent`, /repo/linear_model/cdfast.go:15-158, from coefficients `w`. -/
def enet (X : Fin n → Fin p → K) (y : Fin n → K) (alpha beta : K) (maxIter : ℕ) (tol : K) (positive : Bool) (draws : ℕ → List (Fin p)) (w : Fin p → K) : CDResult n p K :=
  let tol' := tol * ∑ i, y i * y i
  let r := loop X y alpha beta tol tol' positive draws maxIter 0 ⟨w, fun i => y i - ∑ j, X i j * w j⟩ (tol + 1)
  ⟨r.st.w, r.st.R, r.gap, tol', r.nIter + 1⟩

end Sk.Enet
