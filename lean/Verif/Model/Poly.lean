import Mathlib.Data.List.Basic
import Mathlib.Data.Nat.Notation
import Mathlib.Algebra.Group.Defs
import Mathlib.Algebra.GroupWithZero.Defs

/-!
# `preprocessing/itertools.go` and `PolynomialFeatures`

The generators run in a goroutine and send every combination on an unbuffered channel that is ranged over until it is closed: the
consumer sees the sequence of sent values, modelled as a list.  The generator loops `for { … }` have no bound; they are run with fuel and
`none` means the fuel is exhausted, so a result `some l` is a terminating run that sends `l`.
-/
set_option autoImplicit false

namespace Sk.Poly

/-- Repeat "advance the index vector, yield it" until no advance is possible, /repo/preprocessing/itertools.go:29-49, 63-80. -/
def iter (next : List ℕ → Option (List ℕ)) : ℕ → List ℕ → Option (List (List ℕ))
  | 0, _ => none
  | f + 1, idx => match next idx with
    | none => some [idx]
    | some j => (iter next f j).map (idx :: ·)

/-- Scan from the right for the first position that is not at its last value, then advance, /repo/preprocessing/itertools.go:66-78. -/
def cwrNext (n : ℕ) (idx : List ℕ) : Option (List ℕ) :=
  match (List.range idx.length).reverse.find? (fun i => decide (idx.getD i 0 ≠ n - 1)) with
  | none => none
  | some i => some (idx.take i ++ List.replicate (idx.length - i) (idx.getD i 0 + 1))

/-- `combinationsWithReplacement(intrange(n), r)`, /repo/preprocessing/itertools.go:54-83 (the pool is `intrange(n)`: `pool[i] = i`). -/
def cwr (n r fuel : ℕ) : Option (List (List ℕ)) :=
  if n = 0 ∧ 0 < r then some [] else iter (cwrNext n) fuel (List.replicate r 0)

/-- One advance of `combinations`, /repo/preprocessing/itertools.go:31-46. `indices[i] != i+n-r` is on integers; `r ≤ n` holds there. -/
def combNext (n : ℕ) (idx : List ℕ) : Option (List ℕ) :=
  match (List.range idx.length).reverse.find? (fun i => decide (idx.getD i 0 ≠ i + n - idx.length)) with
  | none => none
  | some i => some (idx.take i ++ List.range' (idx.getD i 0 + 1) (idx.length - i))

/-- `combinations(intrange(n), r)`, /repo/preprocessing/itertools.go:18-52. -/
def comb (n r fuel : ℕ) : Option (List (List ℕ)) :=
  if n < r then some [] else iter (combNext n) fuel (List.range r)

/-- `bincount`, /repo/preprocessing/itertools.go:85-93. -/
def bincount (a : List ℕ) (n : ℕ) : List ℕ := (List.range n).map (fun k => a.count k)

/-- `PolynomialFeatures.Fit`, /repo/preprocessing/data.go:562-580: the exponent vectors, for `i` from 0 (1 without bias) to `Degree`.
Simplification: `Degree ≥ 0`. -/
def powers (n degree : ℕ) (interactionOnly includeBias : Bool) (fuel : ℕ) : Option (List (List ℕ)) := do
  let start := if includeBias then 0 else 1
  let cs ← (List.range' start (degree + 1 - start)).mapM (fun i => if interactionOnly then comb n i fuel else cwr n i fuel)
  return cs.flatten.map (fun c => bincount c n)

section
variable {K : Type} [CommMonoidWithZero K]

/-- One row of `PolynomialFeatures.Transform`, /repo/preprocessing/data.go:588-594. `math.Pow(x, float(p))` with a natural exponent is the power (`0^0 = 1`). -/
def transformRow (pws : List (List ℕ)) (row : List K) : List K :=
  pws.map (fun p => (p.zip row).foldl (fun v px => v * px.2 ^ px.1) 1)

/-- `intmaxidx`, /repo/preprocessing/data.go:622-630: first index of the largest entry. -/
def intMaxIdx (a : List ℕ) : ℕ := (List.range a.length).foldl (fun i j => if a.getD i 0 < a.getD j 0 then j else i) 0

/-- One row of `PolynomialFeatures.InverseTransform`, /repo/preprocessing/data.go:606-651; `none`: `NewDense` with zero columns panics. -/
def inverseRow (pws : List (List ℕ)) (row : List K) : Option (List K) :=
  let jts := (pws.zipIdx.filter (fun pi => decide (pi.1.sum = 1))).map (fun pi => (intMaxIdx pi.1, pi.2))
  let cols := jts.foldl (fun c jt => if c ≤ jt.1 then jt.1 + 1 else c) 0
  if cols = 0 then none
  else some (jts.foldl (fun out jt => out.set jt.1 (row.getD jt.2 0)) (List.replicate cols 0))

end

end Sk.Poly
