import Verif.Model.KnnPredict

/-!
# The state of the neighbour estimators between calls (`neighbors/unsupervised.go`, `neighbors/classification.go`, `neighbors/regression.go`)

A program is a list of operations of the caller on one estimator and on the matrices the caller owns: setting a field, fitting, overwriting a matrix.  The matrices of the
caller are numbered; `xs a` and `ys b` are their present contents.  The two searches (brute force and tree) are parameters: what they compute is the subject of
`Verif/Model/Neighbors.lean`; here it matters on which data and with which power they are run.  One query row and one output column.  `K ≥ 1` is assumed (otherwise `Fit` panics).
-/
set_option autoImplicit false

namespace Sk.NeighState

variable {K : Type} [Field K] [LinearOrder K] [IsStrictOrderedRing K]

/-- A brute force search: power, fitted rows, number of neighbours, query; distances and indices, or a panic. -/
abbrev Brute (K : Type) := K → List (List K) → ℕ → List K → Option (List (K × ℕ))

/-- A search in a tree built from the rows with a leaf size; otherwise as `Brute`. -/
abbrev TreeSearch (K : Type) := K → List (List K) → ℤ → ℕ → List K → Option (List (K × ℕ))

/-- What `m.Y` is: the classifier keeps the caller's matrix (/repo/neighbors/classification.go:37-39, `base.ToDense` returns a `*mat.Dense` as it is), the regressor a copy
(/repo/neighbors/regression.go:47). -/
inductive Targets (K : Type) where
  | caller (b : ℕ)
  | copy (y : List K)

/-- The fields of /repo/neighbors/unsupervised.go:20-31 that `KNeighbors` reads, the targets, and the interface value embedded by
/repo/neighbors/classification.go:17-28 and /repo/neighbors/nearest_centroid.go:16-25 (`none`: nil).  `distP` is the power captured by the closure `m.Distance`; `tree` holds the copy of
the rows the tree was built from and its leaf size. -/
structure Est (K : Type) where
  algorithm : String
  metric : String
  p : K
  leaf : ℤ
  distP : K
  x : List (List K)
  tree : Option (List (List K) × ℤ)
  y : Targets K
  embedded : Option Unit

/-- The estimator and the matrices of the caller. -/
structure World (K : Type) where
  est : Est K
  xs : ℕ → List (List K)
  ys : ℕ → List K

/-- `NewKNeighborsClassifier` and `NewKNeighborsRegressor`, /repo/neighbors/classification.go:31-33, /repo/neighbors/regression.go:30-32 with
`NewNearestNeighbors`, /repo/neighbors/unsupervised.go:33-35. -/
def new : Est K :=
  { algorithm := "auto", metric := "euclidean", p := 2, leaf := 0, distP := 0, x := [], tree := none, y := .copy [], embedded := none }

/-- One operation of the caller. -/
inductive Op (K : Type) where
  | setAlgorithm (s : String)
  | setMetric (s : String)
  | setP (p : K)
  | setLeaf (n : ℤ)
  | fit (a b : ℕ)
  | writeX (a : ℕ) (X : List (List K))
  | writeY (b : ℕ) (Y : List K)

/-- The power after the switch of /repo/neighbors/unsupervised.go:40-49. -/
def fitP (metric : String) (p : K) : K :=
  if metric = "manhattan" ∨ metric = "cityblock" then 1 else if metric = "euclidean" then 2 else p

/-- `strings.Contains(s, "tree")` on characters. -/
def hasTree : List Char → Bool
  | [] => false
  | c :: s => ['t', 'r', 'e', 'e'].isPrefixOf (c :: s) || hasTree s

/-- `useKDTree`, /repo/neighbors/unsupervised.go:54; the number of columns is the length of the first row. -/
def useKDTree (algorithm : String) (X : List (List K)) : Bool :=
  hasTree algorithm.toLower.toList || (algorithm == "auto" && decide (1000 < X.length * (X.headD []).length))

/-- `NearestNeighbors.Fit`, /repo/neighbors/unsupervised.go:38-61 (`NJobs` only decides how the work is divided). -/
def nnFit (e : Est K) (X : List (List K)) : Est K :=
  let p := fitP e.metric e.p
  let e1 := { e with p := p, distP := p, x := X }
  if useKDTree e.algorithm X then
    let leaf := if e.leaf ≤ 0 then 30 else e.leaf
    { e1 with leaf := leaf, tree := some (X, leaf) }
  else e1

/-- One step; `copies` tells the regressor (which copies the targets) from the classifier. -/
def step (copies : Bool) (w : World K) : Op K → World K
  | .setAlgorithm s => { w with est := { w.est with algorithm := s } }
  | .setMetric s => { w with est := { w.est with metric := s } }
  | .setP p => { w with est := { w.est with p := p } }
  | .setLeaf n => { w with est := { w.est with leaf := n } }
  | .fit a b => { w with est := { nnFit w.est (w.xs a) with y := if copies then .copy (w.ys b) else .caller b } }
  | .writeX a X => { w with xs := Function.update w.xs a X }
  | .writeY b Y => { w with ys := Function.update w.ys b Y }

/-- A program run from a new estimator. -/
def run (copies : Bool) (xs : ℕ → List (List K)) (ys : ℕ → List K) (ops : List (Op K)) : World K :=
  ops.foldl (step copies) ⟨new, xs, ys⟩

/-- `KNeighbors`, /repo/neighbors/unsupervised.go:64-68: the tree if there is one, with the present `m.P`; else brute force with the closure made by `Fit`. -/
def near (brute : Brute K) (treeS : TreeSearch K) (e : Est K) (k : ℕ) (q : List K) : Option (List (K × ℕ)) :=
  match e.tree with
  | some (X, leaf) => treeS e.p X leaf k q
  | none => brute e.distP e.x k q

/-- The targets read by `Predict`. -/
def targets (w : World K) : List K :=
  match w.est.y with
  | .caller b => w.ys b
  | .copy y => y

/-- The weighted targets of the neighbours, /repo/neighbors/classification.go:112-127, /repo/neighbors/regression.go:96-103. -/
def weighted (eps : K) (wt : Knn.Weights) (Y : List K) (r : List (K × ℕ)) : Option (List (K × K)) :=
  r.mapM (fun e => (Y[e.2]?).map (fun c => (c, Knn.weightOf eps wt e.1)))

/-- `KNeighborsClassifier.Predict`, /repo/neighbors/classification.go:58-67, 92-145. -/
def classify (brute : Brute K) (treeS : TreeSearch K) (it : List (K × K) → List (K × K)) (eps : K) (wt : Knn.Weights) (w : World K) (k : ℕ) (q : List K) : Option K := do
  let r ← near brute treeS w.est k q
  let ns ← weighted eps wt (targets w) r
  some (Knn.pick (it (Knn.votes ns)))

/-- `KNeighborsRegressor.Predict`, /repo/neighbors/regression.go:62-109. -/
def regress (brute : Brute K) (treeS : TreeSearch K) (eps : K) (wt : Knn.Weights) (w : World K) (k : ℕ) (q : List K) : Option K := do
  let r ← near brute treeS w.est k q
  let ns ← weighted eps wt (targets w) r
  some ((ns.map (fun e => e.2 * e.1)).sum / (ns.map Prod.snd).sum)

/-- `PredicterClone` and `IsClassifier` of `KNeighborsClassifier` and of `NearestCentroid` (and `GetNOutputs` of the latter): promoted from the embedded interface value
(/repo/neighbors/classification.go:18, /repo/neighbors/nearest_centroid.go:17), so a nil dereference when it is nil. -/
def promoted (e : Est K) : Option Unit := e.embedded

/-- `NearestCentroid.Predict`, /repo/neighbors/nearest_centroid.go:73-82: an absent or empty destination is allocated with `GetNOutputs()` columns, which is the promoted method.  `predict` is
the rest of the method. -/
def centroidInto {A : Type} (e : Est K) (destinationEmpty : Bool) (predict : Option A) : Option A :=
  if destinationEmpty then (promoted e).bind (fun _ => predict) else predict

end Sk.NeighState
