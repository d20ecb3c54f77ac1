import Mathlib.Analysis.Real.Sqrt
import Mathlib.Algebra.BigOperators.Fin
import Mathlib.Data.Finset.Lattice.Fold

/-!
# `neighbors/kdtree.go`: `Rectangle`

Points and bounds are functions on `Fin d` (all slices of the same length `d`).
-/
set_option autoImplicit false

namespace Sk.Rect

/-- `Rectangle`, /repo/neighbors/kdtree.go:15. -/
structure Rectangle (d : ℕ) where
  maxes : Fin d → ℝ
  mins : Fin d → ℝ

/-- `NewRectangle(Maxes, Mins)`, /repo/neighbors/kdtree.go:18-20. -/
def newRectangle {d : ℕ} (maxes mins : Fin d → ℝ) : Rectangle d := ⟨maxes, mins⟩

/-- Order of a norm. -/
inductive Ord where
  | one | two | inf | other
deriving DecidableEq

/-- `mat.Norm` of a column vector (gonum): orders 1, 2 and +Inf; other orders and empty vectors panic (`mat.NewVecDense`). -/
noncomputable def norm {d : ℕ} (p : Ord) (v : Fin d → ℝ) : Option ℝ :=
  if h : 0 < d then
    match p with
    | .one => some (∑ i, |v i|)
    | .two => some (Real.sqrt (∑ i, v i * v i))
    | .inf => some (Finset.univ.sup' ⟨⟨0, h⟩, Finset.mem_univ _⟩ (fun i => |v i|))
    | .other => none
  else none

variable {d : ℕ}

/-- `Volume`, /repo/neighbors/kdtree.go:36-42. -/
def Rectangle.volume (r : Rectangle d) : ℝ := ∏ i, (r.maxes i - r.mins i)

/-- `Split`, /repo/neighbors/kdtree.go:54-63; `NewRectangle` takes the upper bounds first. -/
def Rectangle.split (r : Rectangle d) (k : Fin d) (s : ℝ) : Rectangle d × Rectangle d :=
  let mid := Function.update r.maxes k s
  let less := newRectangle r.mins mid
  let mid := Function.update r.mins k s
  let greater := newRectangle mid r.maxes
  (less, greater)

/-- `MinDistancePoint`, /repo/neighbors/kdtree.go:69-76. -/
noncomputable def Rectangle.minDistancePoint (r : Rectangle d) (x : Fin d → ℝ) (p : Ord) : Option ℝ := norm p (fun i => max 0 (max (r.mins i - x i) (x i - r.maxes i)))

/-- `MaxDistancePoint`, /repo/neighbors/kdtree.go:82-89. -/
noncomputable def Rectangle.maxDistancePoint (r : Rectangle d) (x : Fin d → ℝ) (p : Ord) : Option ℝ := norm p (fun i => max (r.maxes i - x i) (x i - r.mins i))

/-- `MinDistanceRectangle`, /repo/neighbors/kdtree.go:95-102. -/
noncomputable def Rectangle.minDistanceRectangle (r o : Rectangle d) (p : Ord) : Option ℝ := norm p (fun i => max 0 (max (r.mins i - o.maxes i) (o.mins i - r.maxes i)))

/-- `MaxDistanceRectangle`, /repo/neighbors/kdtree.go:108-115. -/
noncomputable def Rectangle.maxDistanceRectangle (r o : Rectangle d) (p : Ord) : Option ℝ := norm p (fun i => max (r.maxes i - o.mins i) (o.maxes i - r.mins i))

end Sk.Rect
