import Verif.Model.EnetCD
import Mathlib.Analysis.Real.Sqrt

/-!
# `linear_model/cdfast.go`: `enetCoordinateDescentMultiTask`

`n` samples, `p` features, `q` outputs; matrices are functions on `Fin`.  Floats are real numbers (the code takes square roots), sums are mathematical sums (rounding and summation
order not modelled).  `mat.Norm(·, 2)` is the Frobenius norm.  The coordinates visited in sweep `it` are given by `draws it`: `0, …, p-1` for cyclic selection, any list of `p`
coordinates for random selection.
-/
set_option autoImplicit false

namespace Sk.EnetMT

open Sk.Enet (normCol)

variable {n p q : ℕ}

/-- `mat.Norm(v, 2)` of a vector, as used in /repo/linear_model/cdfast.go:220-317. -/
noncomputable def nrm (v : Fin q → ℝ) : ℝ := √(∑ o, v o ^ 2)

/-- `mat.Norm(A, 2)` of a matrix (Frobenius), as used in /repo/linear_model/cdfast.go:302-303. -/
noncomputable def fro (A : Fin n → Fin q → ℝ) : ℝ := √(∑ i, ∑ o, A i o ^ 2)

/-- Coefficients (one row per feature) and residual. -/
structure St (n p q : ℕ) where
  W : Fin p → Fin q → ℝ
  R : Fin n → Fin q → ℝ

/-- One block update, /repo/linear_model/cdfast.go:213-246. -/
noncomputable def block (X : Fin n → Fin p → ℝ) (l1 l2 : ℝ) (s : St n p q) (ii : Fin p) : St n p q :=
  if normCol X ii = 0 then s else
  let wii := s.W ii
  let R1 : Fin n → Fin q → ℝ := if nrm wii ≠ 0 then fun i o => s.R i o + X i ii * wii o else s.R
  let tmp : Fin q → ℝ := fun o => ∑ i, R1 i o * X i ii
  let nn := nrm tmp
  let factor : ℝ := if l1 < nn then max (1 - l1 / nn) 0 / (normCol X ii + l2) else 0
  let w' : Fin q → ℝ := fun o => factor * tmp o
  let R2 : Fin n → Fin q → ℝ := if nrm w' ≠ 0 then fun i o => R1 i o - X i ii * w' o else R1
  ⟨Function.update s.W ii w', R2⟩

/-- Greatest entry of a list, from 0: the loops of /repo/linear_model/cdfast.go:250-256, 261-269, 293-299. -/
noncomputable def lmax (l : List ℝ) : ℝ := l.foldl (fun m v => if m < v then v else m) 0

/-- A sweep over the coordinates `is` with the greatest coefficient (over all cells of the matrix) and the greatest change, /repo/linear_model/cdfast.go:201-274. -/
noncomputable def sweep (X : Fin n → Fin p → ℝ) (l1 l2 : ℝ) : List (Fin p) → St n p q × ℝ × ℝ → St n p q × ℝ × ℝ
  | [], r => r
  | ii :: is, (s, wmax, dwmax) =>
    if normCol X ii = 0 then sweep X l1 l2 is (s, wmax, dwmax) else
    let s' := block X l1 l2 s ii
    let dw := lmax (List.ofFn (fun o => |s'.W ii o - s.W ii o|))
    let wa := lmax ((List.ofFn (fun j => List.ofFn (fun o => |s'.W j o|))).flatten)
    sweep X l1 l2 is (s', if wmax < wa then wa else wmax, if dwmax < dw then dw else dwmax)

/-- The duality gap, /repo/linear_model/cdfast.go:281-319. -/
noncomputable def gapOf (X : Fin n → Fin p → ℝ) (Y : Fin n → Fin q → ℝ) (l1 l2 : ℝ) (s : St n p q) : ℝ :=
  let XtA : Fin p → Fin q → ℝ := fun j o => (∑ i, X i j * s.R i o) - l2 * s.W j o
  let dualNorm := lmax (List.ofFn (fun j => nrm (XtA j)))
  let cons := if l1 < dualNorm then l1 / dualNorm else 1
  let gap := if l1 < dualNorm then (1 / 2) * (fro s.R * fro s.R + (fro s.R * cons) * (fro s.R * cons)) else fro s.R * fro s.R
  gap + (l1 * (∑ j, nrm (s.W j)) - cons * (∑ i, ∑ o, s.R i o * Y i o) + (1 / 2) * l2 * (1 + cons * cons) * (fro s.W * fro s.W))

/-- Result: final state, `gap`, and the value of `nIter` on leaving the loop. -/
structure Res (n p q : ℕ) where
  st : St n p q
  gap : ℝ
  nIter : ℕ

open Classical in
/-- The main loop, /repo/linear_model/cdfast.go:200-331, with `k` iterations left after iteration number `it`; `tol` is the scaled tolerance. -/
noncomputable def loop (X : Fin n → Fin p → ℝ) (Y : Fin n → Fin q → ℝ) (l1 l2 dwtol tol : ℝ) (draws : ℕ → List (Fin p)) : ℕ → ℕ → St n p q → ℝ → Res n p q
  | 0, it, s, gap => ⟨s, gap, it⟩
  | k + 1, it, s, gap =>
    let r := sweep X l1 l2 (draws it) (s, 0, 0)
    if r.2.1 = 0 ∨ r.2.2 / r.2.1 < dwtol ∨ k = 0 then
      let g := gapOf X Y l1 l2 r.1
      if g < tol then ⟨r.1, g, it⟩ else loop X Y l1 l2 dwtol tol draws k (it + 1) r.1 g
    else loop X Y l1 l2 dwtol tol draws k (it + 1) r.1 gap

/-- `CDResult` together with the coefficients and the residual. -/
structure CDResult (n p q : ℕ) where
  W : Fin p → Fin q → ℝ
  R : Fin n → Fin q → ℝ
  gap : ℝ
  eps : ℝ
  nIter : ℕ

/-- `enetCoordinateDescentMultiTask`, /repo/linear_model/cdfast.go:159-333, from coefficients `W`.  The parameter `positive` is not used by the code. -/
noncomputable def enetMT (X : Fin n → Fin p → ℝ) (Y : Fin n → Fin q → ℝ) (l1 l2 : ℝ) (maxIter : ℕ) (tol : ℝ) (_positive : Bool) (draws : ℕ → List (Fin p))
    (W : Fin p → Fin q → ℝ) : CDResult n p q :=
  let tol' := tol * ∑ i, ∑ o, Y i o * Y i o
  let r := loop X Y l1 l2 tol tol' draws maxIter 0 ⟨W, fun i o => Y i o - ∑ j, X i j * W j o⟩ (tol + 1)
  ⟨r.st.W, r.st.R, r.gap, tol', r.nIter + 1⟩

end Sk.EnetMT
