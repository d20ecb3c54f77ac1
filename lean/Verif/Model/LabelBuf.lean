import Mathlib.Order.Basic
import Mathlib.Order.Lattice
import Mathlib.Algebra.Ring.Defs
import Mathlib.Algebra.BigOperators.Group.List.Basic

/-!
# `neural_network/basemlp64.go`: `LabelBinarizer64` on matrix buffers

A label is `none` for NaN.  A matrix is `Rows`, `Cols`, `Stride` and the backing slice.  `none` as a result: panic.
`sort.Sort` is a parameter.
-/
set_option autoImplicit false

namespace Sk.LabelBuf

variable {K : Type} [LinearOrder K]

/-- `blas64.General` of labels, as used at /repo/neural_network/basemlp64.go:1280-1286. -/
structure Buf (K : Type) where
  rows : ℕ
  cols : ℕ
  stride : ℕ
  data : List (Option K)

/-- `p[i] < p[j] || IsNaN(p[i]) && !IsNaN(p[j])`: `Float64Slice.Less`, /repo/neural_network/basemlp64.go:1301. -/
def less (a b : Option K) : Bool :=
  (match a, b with | some x, some y => decide (x < y) | _, _ => false) || (a.isNone && !b.isNone)

/-- Body of the loop over rows in `Fit`, /repo/neural_network/basemlp64.go:1286-1291: a NaN is never `present` as a key of a Go map. -/
def register (st : List (Option K)) (v : Option K) : List (Option K) := if v.isSome = true ∧ v ∈ st then st else st ++ [v]

/-- One column of `Fit`, /repo/neural_network/basemlp64.go:1283-1293. -/
def fitCol (sort : List (Option K) → List (Option K)) (y : Buf K) (j : ℕ) : Option (List (Option K)) :=
  ((List.range y.rows).foldlM (fun st i => (y.data[i * y.stride + j]?).map (register st)) []).map sort

/-- `Classes` after `LabelBinarizer64.Fit`, /repo/neural_network/basemlp64.go:1275-1295. -/
def fit (sort : List (Option K) → List (Option K)) (y : Buf K) : Option (List (List (Option K))) := (List.range y.cols).mapM (fitCol sort y)

/-- `PosLabel` after `Fit`, /repo/neural_network/basemlp64.go:1277-1279. -/
def fitPos {R : Type} [DecidableEq R] [Add R] [One R] (neg pos : R) : R := if pos = neg then pos + 1 else pos

/-- Body of the loop that fills `cmap`, /repo/neural_network/basemlp64.go:1319-1321: a later class with the same value replaces the entry; entries of NaN keys are never found. -/
def cmapStep (m : K → Option ℕ) (p : Option K × ℕ) : K → Option ℕ := match p.1 with | none => m | some w => fun u => if u = w then some p.2 else m u

/-- `cmap` in `Transform`, /repo/neural_network/basemlp64.go:1318-1321. -/
def cmap (cs : List (Option K)) : K → Option ℕ := cs.zipIdx.foldl cmapStep (fun _ => none)

/-- Column offset within the class columns and value written for one label, /repo/neural_network/basemlp64.go:1323-1328 (`classNo` is 0 when the key is not found). -/
def mark {R : Type} (neg pos : R) (cs : List (Option K)) (v : Option K) : ℕ × R :=
  match v.bind (cmap cs) with
  | some k => (k, pos)
  | none => (0, neg)

/-- Indexed assignment to a slice of length `len`; `none`: index out of range. -/
def write {R : Type} (len : ℕ) (mem : ℕ → R) (p : ℕ) (v : R) : Option (ℕ → R) := if p < len then some (fun q => if q = p then v else mem q) else none

/-- Rows of one column in `Transform`, /repo/neural_network/basemlp64.go:1322-1329. -/
def transCol {R : Type} (neg pos : R) (y : Buf K) (N base j : ℕ) (cs : List (Option K)) (mem : ℕ → R) : Option (ℕ → R) :=
  (List.range y.rows).foldlM (fun mem i => (y.data[i * y.stride + j]?).bind (fun v =>
    write (y.rows * N) mem (i * N + base + (mark neg pos cs v).1) (mark neg pos cs v).2)) mem

/-- The buffer written by `LabelBinarizer64.Transform`, /repo/neural_network/basemlp64.go:1305-1333, with `N` columns. -/
def transform {R : Type} [Zero R] (neg pos : R) (classes : List (List (Option K))) (y : Buf K) : Option (ℕ → R) :=
  (List.range y.cols).foldlM (fun mem j => (classes[j]?).bind (fun cs =>
    transCol neg pos y (classes.map List.length).sum ((classes.take j).map List.length).sum j cs mem)) (fun _ => 0)

/-- `FitTransform`, /repo/neural_network/basemlp64.go:1336-1339: the classes and the buffer. -/
def fitTransform {R : Type} [Zero R] [DecidableEq R] [Add R] [One R] (sort : List (Option K) → List (Option K)) (neg pos : R) (y : Buf K) : Option (List (List (Option K)) × (ℕ → R)) :=
  (fit sort y).bind (fun cs => (transform neg (fitPos neg pos) cs y).map (fun m => (cs, m)))

end Sk.LabelBuf
