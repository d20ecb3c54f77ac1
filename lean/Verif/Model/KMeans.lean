import Verif.Model.Neighbors

/-!
# `cluster/kmeans.go`

Rows are lists of field elements (exact arithmetic), distances lie in any linear order.  The parallel loops: `predict` writes disjoint cells; the recomputation of
the centroids adds one sample at a time under a lock, in an order that depends on the schedule, so the order is a parameter.
-/
set_option autoImplicit false

namespace Sk.KMeans

/-- `_nearest`, /repo/cluster/kmeans.go:34-45: index of a nearest centroid; `none` is the index -1 (no centroid). -/
def nearest {V D : Type} [LinearOrder D] (dist : V → V → D) (C : List V) (x : V) : Option ℕ :=
  (C.zipIdx.foldl (fun (b : Option (ℕ × D)) e =>
    match b with
    | none => some (e.2, dist x e.1)
    | some (i, d) => if dist x e.1 < d then some (e.2, dist x e.1) else some (i, d)) none).map Prod.fst

/-- `predict`, /repo/cluster/kmeans.go:107-145 (the labels); `none`: there is no centroid (panic in `CentroidCount[-1]`; `Predict` itself would return -1). -/
def labels {V D : Type} [LinearOrder D] (dist : V → V → D) (C : List V) (X : List V) : Option (List ℕ) := X.mapM (nearest dist C)

variable {K : Type} [Field K]

/-- One sample of the recomputation, /repo/cluster/kmeans.go:86-93: `Centroids[ic] += row / CentroidCount[ic]`. -/
def addSample (X : List (List K)) (y : List ℕ) (C : List (List K)) (i : ℕ) : List (List K) :=
  C.modify (y.getD i 0) (fun row => List.zipWith (fun a b => a + 1 / (y.count (y.getD i 0) : K) * b) row (X.getD i []))

/-- The recomputation of the centroids, /repo/cluster/kmeans.go:82-94: set to zero, then every sample is added, in some `order`. -/
def recompute (k m : ℕ) (X : List (List K)) (y : List ℕ) (order : List ℕ) : List (List K) :=
  order.foldl (addSample X y) (List.replicate k (List.replicate m 0))

/-- The loop of `Fit`, /repo/cluster/kmeans.go:76-100: centroids, labels of the previous round, number of unchanged rounds.  `order` gives for each round the
order in which samples are added.  The code's loop is unbounded; running out of `fuel` is `none`. -/
def fitLoop {D : Type} [LinearOrder D] (dist : List K → List K → D) (k m : ℕ) (X : List (List K)) (order : ℕ → List ℕ) :
    ℕ → List (List K) → List ℕ → ℕ → Option (List (List K))
  | 0, _, _, _ => none
  | fuel + 1, C, y, unchanged =>
    if 2 ≤ unchanged then some C
    else do
      let y' ← labels dist C X
      fitLoop dist k m X order fuel (recompute k m X y' (order fuel)) y' (if y' ≠ y then 0 else unchanged + 1)

/-- `KMeans.Fit`, /repo/cluster/kmeans.go:49-102: the centroids.  `none`: too few samples or no cluster (panic). -/
def fit {D : Type} [LinearOrder D] (dist : List K → List K → D) (k m : ℕ) (X : List (List K)) (order : ℕ → List ℕ) (fuel : ℕ) : Option (List (List K)) :=
  if X.length < k ∨ k = 0 then none else fitLoop dist k m X order fuel (X.take k) (List.replicate X.length 0) 0

end Sk.KMeans
