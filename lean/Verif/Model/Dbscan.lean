import Verif.Model.Neighbors

/-!
# `cluster/dbscan.go`

Distances take values in any linear order `D`, weights and `MinSamples` in a linearly ordered field.  The radius search is one of the two of
`Verif.Model.Neighbors`.
-/
set_option autoImplicit false

namespace Sk.Dbscan

/-- The loop of /repo/cluster/dbscan.go:164-182.  The list argument is the current sample `i` followed by the stack, top first (the code keeps the top at the end).
The code's loop is unbounded; `fuel` counts rounds, and running out of fuel is `none` (the theorems show that it never happens with the fuel given below).
An index outside the slices is `none` too (panic). -/
def dfs (isCore : List Bool) (nbh : List (List ℕ)) (num : ℕ) : ℕ → List ℤ → List ℕ → Option (List ℤ)
  | _, labels, [] => some labels
  | 0, _, _ :: _ => none
  | fuel + 1, labels, i :: stack => do
    let l ← labels[i]?
    if l = -1 then
      let labels := labels.set i num
      let c ← isCore[i]?
      if c then
        let nb ← nbh[i]?
        let ls ← nb.mapM (fun v => labels[v]?)
        dfs isCore nbh num fuel labels (((nb.zip ls).filterMap (fun e => if e.2 = -1 then some e.1 else none)).reverse ++ stack)
      else dfs isCore nbh num fuel labels stack
    else dfs isCore nbh num fuel labels stack

/-- The outer loop of `dbscanInner`, /repo/cluster/dbscan.go:155-184, over the remaining samples. -/
def outer (isCore : List Bool) (nbh : List (List ℕ)) (fuel : ℕ) : List ℕ → List ℤ × ℕ → Option (List ℤ × ℕ)
  | [], st => some st
  | i :: is, (labels, num) => do
    let l ← labels[i]?
    if l ≠ -1 then outer isCore nbh fuel is (labels, num)
    else
      let c ← isCore[i]?
      if !c then outer isCore nbh fuel is (labels, num)
      else
        let labels ← dfs isCore nbh num fuel labels [i]
        outer isCore nbh fuel is (labels, num + 1)

/-- `dbscanInner`, /repo/cluster/dbscan.go:151-185: the final labels. -/
def dbscanInner (isCore : List Bool) (nbh : List (List ℕ)) (labels : List ℤ) : Option (List ℤ) :=
  (outer isCore nbh (1 + (nbh.map List.length).sum) (List.range labels.length) (labels, 0)).map Prod.fst

variable {K : Type} [Field K] [LinearOrder K] [IsStrictOrderedRing K]

/-- What a `DBSCAN` remembers between calls, /repo/cluster/dbscan.go:24-31. -/
structure State where
  labels : List ℤ
  core : List ℕ

/-- `NNeighbors[i]`, /repo/cluster/dbscan.go:96-107: the number of neighbours, or the sum of their weights.  `none`: a weight is missing (panic). -/
def nNeighbors (weight : Option (List K)) (nb : List ℕ) : Option K :=
  match weight with
  | none => some (nb.length : K)
  | some w => nb.foldlM (fun s v => (w[v]?).map (fun x => s + x)) 0

/-- `DBSCAN.Fit` from the neighbourhoods on, /repo/cluster/dbscan.go:93-124, for `n` samples. -/
def fitOn (minSamples : K) (weight : Option (List K)) (n : ℕ) (st : State) (nbh : List (List ℕ)) : Option State := do
  let cnt ← nbh.mapM (nNeighbors weight)
  let isCore := cnt.map (fun c => decide (minSamples < c))
  let labels ← dbscanInner isCore nbh (List.replicate n (-1))
  return ⟨labels, st.core ++ (List.range n).filter (fun i => isCore.getD i false)⟩

/-- `DBSCAN.Fit`, /repo/cluster/dbscan.go:82-124, with the exhaustive search, `dist` being the distance set by `NearestNeighbors.Fit`. -/
def fit {V D : Type} [LinearOrder D] (sort : List (D × ℕ) → List (D × ℕ)) (dist : V → V → D) (eps : D) (minSamples : K) (weight : Option (List K))
    (X : List V) (st : State) : Option State :=
  (X.mapM (fun x => (Neigh.radiusNeighbors sort dist X eps x).map (fun r => r.map Prod.snd))).bind (fitOn minSamples weight X.length st)

/-- `DBSCAN.Fit`, /repo/cluster/dbscan.go:82-124, when `NearestNeighbors.Fit` builds a tree (/repo/neighbors/unsupervised.go:54-60: `Algorithm` contains "tree", or is "auto" and the data
have more than 1000 cells).  The construction of the tree need not end (C42): `fuel`. -/
def fitTree (fuel leafSize : ℕ) (S : Neigh.Sorts K) (fsort : List (K × ℕ) → List (K × ℕ)) (M : Neigh.Mink K) (eps minSamples : K) (weight : Option (List K)) (X : List (List K)) (st : State) :
    Option State :=
  (Neigh.newKDTree fuel X leafSize).bind (fun T =>
    (X.mapM (fun x => (Neigh.treeRadius S fsort M T eps x).map (fun r => r.map Prod.snd))).bind (fitOn minSamples weight X.length st))

/-- `DBSCAN.Predict`, /repo/cluster/dbscan.go:130-146, on a matrix with `n` rows, with an empty output matrix. -/
def predict (st : State) (n : ℕ) : Option (List K) :=
  if n ≠ st.labels.length then none else some (st.labels.map (fun l => (l : K)))

/-- The power used by `NearestNeighbors.Fit`, /repo/neighbors/unsupervised.go:40-49, given the metric name and the value of its field `P`. -/
def metricPower (metric : String) (p : K) : K :=
  if metric = "manhattan" ∨ metric = "cityblock" then 1 else if metric = "euclidean" then 2 else p

/-- The power used by `DBSCAN.Fit`, /repo/cluster/dbscan.go:84-90: the fresh neighbours model has `P = 2` (/repo/neighbors/unsupervised.go:34); the configured
power `_p` is only used for a distance function that `NearestNeighbors.Fit` replaces. -/
def dbscanPower (metric : String) (_p : K) : K := metricPower metric 2

end Sk.Dbscan
