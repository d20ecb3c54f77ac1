import Verif.Model.Encode
import Mathlib.Algebra.Order.Field.Basic
import Mathlib.Algebra.Order.Ring.Abs
import Mathlib.Data.List.Basic
import Mathlib.Algebra.BigOperators.Group.List.Basic

/-!
# `datasets/samples_generator.go`, `datasets/base.go`

Random sources are streams of draws.  Matrices are lists of rows.  `none`: panic (`mat.NewDense` panics for a zero or negative size).
-/
set_option autoImplicit false

namespace Sk.Datasets

section
variable {K : Type} [Field K] [LinearOrder K]

/-- A stream of draws with a read position. -/
structure Rnd (K : Type) where
  stream : ℕ → K
  pos : ℕ

/-- One draw. -/
def Rnd.next (r : Rnd K) : K × Rnd K := (r.stream r.pos, { r with pos := r.pos + 1 })

/-- The inner loops of /repo/datasets/samples_generator.go:65-67 and 71-73: one row of `c` draws. -/
def drawRow : ℕ → Rnd K → List K × Rnd K
  | 0, r => ([], r)
  | c + 1, r =>
    let d := r.next
    let t := drawRow c d.2
    (d.1 :: t.1, t.2)

/-- The loops of /repo/datasets/samples_generator.go:64-68 and 70-74: a matrix filled row after row. -/
def drawMat : ℕ → ℕ → Rnd K → List (List K) × Rnd K
  | 0, _, r => ([], r)
  | n + 1, c, r =>
    let d := drawRow c r
    let t := drawMat n c d.2
    (d.1 :: t.1, t.2)

/-- The `bias` entry of the options, by dynamic type; `other` is any type not listed in the switch (an `int`, …). -/
inductive Bias (K : Type) where
  | absent
  | scalar (v : K)
  | matrix (rows : List (List K))
  | slice (vs : List K)
  | other

/-- Bias added to target `t`, /repo/datasets/samples_generator.go:77-98. -/
def Bias.at : Bias K → ℕ → Option K
  | .absent, _ => some 0
  | .scalar v, _ => some v
  | .matrix rows, t => do
    let row ← rows[0]?
    row[t]?
  | .slice vs, t => vs[t]?
  | .other, _ => some 0

/-- `y.Mul` and the bias, /repo/datasets/samples_generator.go:75-98: row of `y` for the row `x` of `X`, with `k` informative features and `t` targets. -/
def targetRow (k t : ℕ) (coef : List (List K)) (bias : Bias K) (x : List K) : Option (List K) :=
  (List.range t).mapM (fun j => do
    let b ← bias.at j
    some ((List.zipWith (fun v row => v * row.getD j 0) (x.take k) coef).sum + b))

/-- `MakeRegression`, /repo/datasets/samples_generator.go:28-100; `Shuffle` is constantly true there, so lines 47-54 are not reached.  Result: `X`, `y`, `Coef`. -/
def makeRegression (nSamples nFeatures nInformative nTargets : ℕ) (bias : Bias K) (r : Rnd K) : Option (List (List K) × List (List K) × List (List K)) :=
  let k := if nInformative > nFeatures then nFeatures else nInformative
  if nSamples = 0 ∨ nFeatures = 0 ∨ nTargets = 0 ∨ k = 0 then none
  else do
    let X := drawMat nSamples nFeatures r
    let C := drawMat k nTargets X.2
    let y ← X.1.mapM (targetRow k nTargets C.1 bias)
    some (X.1, y, C.1)

/-! ## `MakeBlobs` -/

/-- Configuration of `MakeBlobs`, /repo/datasets/samples_generator.go:105-113; `centers` is `inl` for an integer, `inr` for a matrix, `none` for anything else.  Integers `≤ 0` are 0 here. -/
structure Blobs (K : Type) where
  nSamples : ℕ
  nFeatures : ℕ
  centers : Option (ℕ ⊕ List (List K))
  clusterStd : K
  centerBox : Option (K × K)

/-- The defaults written into the caller's configuration, /repo/datasets/samples_generator.go:123-128, 141-146. -/
def Blobs.defaults (c : Blobs K) : Blobs K :=
  { c with
    nSamples := if c.nSamples = 0 then 100 else c.nSamples
    nFeatures := if c.nFeatures = 0 then 2 else c.nFeatures
    clusterStd := if c.clusterStd ≤ 0 then 1 else c.clusterStd
    centerBox := match c.centerBox with | none => some (-10, 10) | b => b }

/-- The inner `for` of /repo/datasets/samples_generator.go:165-170, at most `fuel` rounds: draws until the value is in the box; `none`: still running. -/
def drawCenter (lo hi : K) : ℕ → Rnd K → Option (K × Rnd K)
  | 0, _ => none
  | fuel + 1, r =>
    let d := r.next
    let v := (lo + hi) / 2 + d.1 * (|hi - lo| / 2)
    if lo ≤ v ∧ v < hi then some (v, d.2) else drawCenter lo hi fuel d.2

/-- The loop over the cells of the centre matrix, /repo/datasets/samples_generator.go:164-171. -/
def drawCenters (lo hi : K) (fuel : ℕ) : ℕ → Rnd K → Option (List K × Rnd K)
  | 0, r => some ([], r)
  | n + 1, r => do
    let d ← drawCenter lo hi fuel r
    let t ← drawCenters lo hi fuel n d.2
    some (d.1 :: t.1, t.2)

/-- Result of the body of `Parallelize`, /repo/datasets/samples_generator.go:174-191: `order` is the order in which the goroutines come to `randIntn` (each sample once), `labels k` the `k`-th integer drawn,
`noise i` the row written by `normal.Rand` (its source is nil, the global generator).  For each sample: its row of `X` and its label.  `floats.Add` panics when the lengths differ. -/
def blobRows (nSamples : ℕ) (centers : List (List K)) (order : List ℕ) (labels : ℕ → ℕ) (noise : ℕ → List K) : Option (List (List K × ℕ)) :=
  (List.range nSamples).mapM (fun i => do
    let l := labels (order.idxOf i)
    let c ← centers[l]?
    if c.length = (noise i).length then some (List.zipWith (· + ·) (noise i) c, l) else none)

/-- The end of `MakeBlobs`, /repo/datasets/samples_generator.go:193-196: with `Shuffle`, both matrices pass through a new `Shuffler` (without `RandomState`: `perm` comes from the global generator). -/
def blobsOut (shuffle : Bool) (perm : List ℕ) (rows : List (List K × ℕ)) : Option (List (List K) × List ℕ) :=
  if shuffle then (Sk.Encode.shTransform perm (rows.map Prod.fst)).bind (fun X => (Sk.Encode.shTransform perm (rows.map Prod.snd)).map (fun Y => (X, Y)))
  else some (rows.map Prod.fst, rows.map Prod.snd)

end

/-! ## Loaders -/

section
variable {K : Type}

/-- `loadCsv` after `ReadAll`, /repo/datasets/base.go:138-149 (`csv.Reader` has checked that all records have as many fields): all outputs are read from column `nFeatures`. -/
def loadCsv (parse : String → Option K) (nOutputs : ℕ) (cells : List (List String)) : Option (List (List K) × List (List K)) := do
  let first ← cells[0]?
  if first.length ≤ nOutputs ∨ nOutputs = 0 then none
  else
    let nFeatures := first.length - nOutputs
    let X ← cells.mapM (fun row => (List.range nFeatures).mapM (fun j => row[j]? >>= parse))
    let Y ← cells.mapM (fun row => (List.range nOutputs).mapM (fun _ => row[nFeatures]? >>= parse))
    some (X, Y)

/-- `GetXY`, /repo/datasets/base.go:89-100. -/
def getXY (nFeatures : ℕ) (data : List (List K)) (target : List K) : Option (List (List K) × List (List K)) :=
  if data.length = 0 ∨ nFeatures = 0 then none
  else do
    let X ← data.mapM (fun row => (List.range nFeatures).mapM (fun j => row[j]?))
    let Y ← (List.range data.length).mapM (fun i => target[i]?.map (fun v => [v]))
    some (X, Y)

end

end Sk.Datasets
