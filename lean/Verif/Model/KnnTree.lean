import Verif.Model.KDMatrix
import Verif.Model.KnnPredict

/-!
# Neighbour estimators whose search uses the kd-tree

`NearestNeighbors.Fit` builds a tree if `Algorithm` contains "tree" or is "auto" with more than 1000 cells; the estimators then take the rows of `KDTree.Query` as their neighbours.
-/
set_option autoImplicit false

namespace Sk.Knn

variable {K : Type} [Field K] [LinearOrder K] [IsStrictOrderedRing K]

/-- Is a tree built for `r`×`c` data, /repo/neighbors/unsupervised.go:55?  `hasTree`: the lower-cased algorithm name contains "tree"; `auto`: it is "auto". -/
def usesTree (hasTree auto : Bool) (r c : ℕ) : Bool := hasTree || (auto && decide (1000 < r * c))

/-- One row of `KNeighbors` with a tree, /repo/neighbors/unsupervised.go:67-69 with /repo/neighbors/kdtree.go:470-495: (distance, index) for each of the `k` columns.  `none`: panic. -/
def treeNeighbours (S : Neigh.Sorts K) (fsort : List (K × ℕ) → List (K × ℕ)) (M : Neigh.Mink K) (T : Neigh.KDTree K) (epsfac : K) (k : ℕ) (q : List K) : Option (List (K × ℕ)) :=
  (Neigh.treeQuery S fsort M T epsfac k none [q]).map (fun r => (r.1.getD 0 []).zip (r.2.getD 0 []))

/-- As `neighbourVotes`, with a tree: /repo/neighbors/classification.go:91, 112-120 and /repo/neighbors/regression.go:82, 96-102. -/
def treeVotes (S : Neigh.Sorts K) (fsort : List (K × ℕ) → List (K × ℕ)) (M : Neigh.Mink K) (T : Neigh.KDTree K) (epsfac eps : K) (w : Weights) (Y : List K) (k : ℕ) (q : List K) : Option (List (K × K)) :=
  (treeNeighbours S fsort M T epsfac k q).bind (fun r => r.mapM (fun e => (Y[e.2]?).map (fun c => (c, weightOf eps w e.1))))

/-- `KNeighborsClassifier.Predict` with a tree, /repo/neighbors/classification.go:58-67, 105-145, for one query and one output. -/
def treeClassify (S : Neigh.Sorts K) (fsort : List (K × ℕ) → List (K × ℕ)) (M : Neigh.Mink K) (it : List (K × K) → List (K × K)) (T : Neigh.KDTree K) (epsfac eps : K) (w : Weights) (Y : List K) (k : ℕ) (q : List K) : Option K :=
  (treeVotes S fsort M T epsfac eps w Y k q).map (fun ns => pick (it (votes ns)))

/-- `KNeighborsClassifier.PredictProba` with a tree, /repo/neighbors/classification.go:70-148, for one query. -/
def treeProba (S : Neigh.Sorts K) (fsort : List (K × ℕ) → List (K × ℕ)) (M : Neigh.Mink K) (T : Neigh.KDTree K) (epsfac eps : K) (w : Weights) (Y classes : List K) (k : ℕ) (q old : List K) : Option (List K) :=
  if old.length ≠ classes.length then none
  else (treeVotes S fsort M T epsfac eps w Y k q).map (fun ns => probaRow classes (votes ns) (ns.map Prod.snd).sum old)

/-- `KNeighborsRegressor.Predict` with a tree, /repo/neighbors/regression.go:62-109, for one query and one output. -/
def treeRegress (S : Neigh.Sorts K) (fsort : List (K × ℕ) → List (K × ℕ)) (M : Neigh.Mink K) (T : Neigh.KDTree K) (epsfac eps : K) (w : Weights) (Y : List K) (k : ℕ) (q : List K) : Option K :=
  (treeVotes S fsort M T epsfac eps w Y k q).map (fun ns => (ns.map (fun e => e.2 * e.1)).sum / (ns.map Prod.snd).sum)

/-- `Fit` and `Predict` of a `KNeighborsClassifier` for one query and one output: /repo/neighbors/unsupervised.go:54-61 chooses the search (`leafSize` 0 becomes 30), /repo/neighbors/unsupervised.go:66-69 uses the tree if there is one.  `fuel` bounds
the depth of the construction (`none` also if it is exceeded). -/
def classifyBy (S : Neigh.Sorts K) (fsort sort : List (K × ℕ) → List (K × ℕ)) (M : Neigh.Mink K) (it : List (K × K) → List (K × K)) (hasTree auto : Bool) (fuel leafSize : ℕ) (epsfac eps : K) (w : Weights) (X : List (List K)) (Y : List K) (k : ℕ) (q : List K) : Option K :=
  if usesTree hasTree auto X.length (X.headD []).length then (Neigh.newKDTree fuel X (if leafSize = 0 then 30 else leafSize)).bind (fun T => treeClassify S fsort M it T epsfac eps w Y k q)
  else classify sort it (Neigh.mink M) eps w X Y k q

end Sk.Knn
