import Verif.Model.Neighbors
import Mathlib.Order.WithBot
import Mathlib.Data.List.Dedup
import Mathlib.Data.List.Sort

/-!
# `neighbors/classification.go`, `neighbors/regression.go`, `neighbors/nearest_centroid.go`

Labels and weights are elements of a linearly ordered field.  A Go map is a list of (key, value) pairs in order of first insertion; iterating over it visits the
pairs in an arbitrary order, given by a function `it` that permutes the list.  One query row and one output column at a time (the parallel loops write disjoint cells).
-/
set_option autoImplicit false

namespace Sk.Knn

variable {K : Type} [Field K] [LinearOrder K] [IsStrictOrderedRing K]

/-- `classw[cl] += w`, /repo/neighbors/classification.go:121-125. -/
def addVote : List (K × K) → K × K → List (K × K)
  | [], v => [v]
  | e :: m, v => if e.1 = v.1 then (e.1, e.2 + v.2) :: m else e :: addVote m v

/-- The map `classw` of /repo/neighbors/classification.go:109-126 from the (class, weight) pairs of the neighbours. -/
def votes (ns : List (K × K)) : List (K × K) := ns.foldl addVote []

/-- The choice of /repo/neighbors/classification.go:127-133: the last improvement met while iterating. -/
def pick (m : List (K × K)) : K := (m.foldl (fun (b : K × K) e => if b.1 < e.2 then (e.2, e.1) else b) (0, 0)).2

/-- How neighbours are weighted. -/
inductive Weights
  | uniform
  | distance
  deriving DecidableEq

/-- The weights of /repo/neighbors/classification.go:99-104, 115-118 and /repo/neighbors/regression.go:89-102; `eps` is the constant 1e-15. -/
def weightOf (eps : K) : Weights → K → K
  | .uniform, _ => 1
  | .distance, d => 1 / (eps + d)

/-- The (class, weight) pairs of the `k` neighbours of a query: `KNeighbors`, then lookup in the targets.  `none`: panic (more neighbours than samples). -/
def neighbourVotes {V : Type} (sort : List (K × ℕ) → List (K × ℕ)) (dist : V → V → K) (eps : K) (w : Weights) (X : List V) (Y : List K) (k : ℕ) (q : V) :
    Option (List (K × K)) := do
  let r ← Neigh.kNeighbors sort dist X k q
  r.mapM (fun e => (Y[e.2]?).map (fun c => (c, weightOf eps w e.1)))

/-- `KNeighborsClassifier.Predict`, /repo/neighbors/classification.go:58-67, 105-145, for one query and one output. -/
def classify {V : Type} (sort : List (K × ℕ) → List (K × ℕ)) (it : List (K × K) → List (K × K)) (dist : V → V → K) (eps : K) (w : Weights) (X : List V) (Y : List K)
    (k : ℕ) (q : V) : Option K :=
  (neighbourVotes sort dist eps w X Y k q).map (fun ns => pick (it (votes ns)))

/-- Row written by `PredictProba`, /repo/neighbors/classification.go:134-139: `classes` are the sorted classes, `old` the former contents of the row, `sumw` the sum of
the weights. -/
def probaRow (classes : List K) (m : List (K × K)) (sumw : K) (old : List K) : List K :=
  List.zipWith (fun c o => match m.find? (fun e => e.1 == c) with
    | some e => e.2 / sumw
    | none => o) classes old

/-- `KNeighborsClassifier.PredictProba`, /repo/neighbors/classification.go:70-148, for one query, `old` being the row of the caller's matrix; `none`: panic (also when the row
does not have one cell per class). -/
def predictProba {V : Type} (sort : List (K × ℕ) → List (K × ℕ)) (dist : V → V → K) (eps : K) (w : Weights) (X : List V) (Y : List K)
    (classes : List K) (k : ℕ) (q : V) (old : List K) : Option (List K) :=
  if old.length ≠ classes.length then none
  else (neighbourVotes sort dist eps w X Y k q).map (fun ns => probaRow classes (votes ns) (ns.map Prod.snd).sum old)

/-- `getClasses`, /repo/neighbors/classification.go:158-183, for one output: classes and counts.  `it` is the order in which the map of classes is iterated. -/
def getClasses (it : List K → List K) (Y : List K) : List K × List ℕ :=
  let order := it Y.dedup
  (order.insertionSort (· ≤ ·), order.map (fun c => Y.count c))

/-- `KNeighborsRegressor.Predict`, /repo/neighbors/regression.go:62-109, for one query and one output (`stat.Mean(ys, weights)` is the weighted mean). -/
def regress {V : Type} (sort : List (K × ℕ) → List (K × ℕ)) (dist : V → V → K) (eps : K) (w : Weights) (X : List V) (Y : List K) (k : ℕ) (q : V) : Option K :=
  (neighbourVotes sort dist eps w X Y k q).map (fun ns => (ns.map (fun e => e.2 * e.1)).sum / (ns.map Prod.snd).sum)

/-- The distance used by `NearestCentroid`: its embedded `NearestNeighbors` is the zero value, so `Fit` (/repo/neighbors/unsupervised.go:47-48) sets
`MinkowskiDistance(0)`: in two or more features `math.Pow(·, 0)` is 1 for every coordinate, and `math.Pow(n, 1/0.)` with `n > 1` is `+Inf` (`⊤`); in one feature
`math.Pow(|b - a|, +Inf)`. -/
def centroidDist (a b : List K) : WithTop K :=
  if a.length = 1 then
    let d := |b.getD 0 0 - a.getD 0 0|
    if d < 1 then (0 : K) else if d = 1 then (1 : K) else ⊤
  else ⊤

/-- Mean of the rows of a class, /repo/neighbors/nearest_centroid.go:49-65 (metric other than "manhattan"), coordinate by coordinate. -/
def centroid (X : List (List K)) (Y : List K) (m : ℕ) (c : K) : List K :=
  let rows := ((X.zip Y).filter (fun e => e.2 == c)).map Prod.fst
  (List.range m).map (fun j => (rows.map (fun r => r.getD j 0)).sum / (rows.length : K))

/-- `NearestCentroid.Predict`, /repo/neighbors/nearest_centroid.go:89-101, for one query, after `Fit`; `m` is the number of features. -/
def centroidPredict (sort : List (WithTop K × ℕ) → List (WithTop K × ℕ)) (it : List K → List K) (X : List (List K)) (Y : List K) (m : ℕ) (q : List K) : Option K := do
  let classes := (getClasses it Y).1
  let r ← Neigh.kNeighbors sort centroidDist (classes.map (centroid X Y m)) 1 q
  let e ← r.head?
  classes[e.2]?

end Sk.Knn
