import Verif.Model.Neighbors

/-!
# `neighbors/kdtree.go`: `KDTree.Query` on a matrix of queries
-/
set_option autoImplicit false

namespace Sk.Neigh

variable {K : Type} [Field K] [LinearOrder K] [IsStrictOrderedRing K]

/-- The bound used by the search, /repo/neighbors/kdtree.go:358-360, for a given `distanceUpperBound` (`none`: +Inf). -/
def scaledBound (M : Mink K) (b : Option K) : Option K := b.map (fun r => if !M.inf && !M.one then M.pw r else r)

/-- One row of a result matrix: zeros from `mat.NewDense` (/repo/neighbors/kdtree.go:472), then one `Set` for each call of the callback (/repo/neighbors/kdtree.go:428-430, 480-483). -/
def fillRow {α : Type} (zero : α) (k : ℕ) (vs : List α) : List α := (vs.zipIdx).foldl (fun row e => row.set e.2 e.1) (List.replicate k zero)

/-- `Query`, /repo/neighbors/kdtree.go:470-495: distances and indices for every row of `X`.  The rows are handled by `base.Parallelize`, each writing cells of its own row only (C01, C02), here one after the
other; a row is the same whether it is viewed (`RowView`) or copied.  Indices, floats in the code, are natural numbers.  `none`: panic (`mat.NewDense` with a dimension 0, or the search panics).
`epsfac` is the number computed from `eps` at 350-357 (1 for `eps = 0`). -/
def treeQuery (S : Sorts K) (fsort : List (K × ℕ) → List (K × ℕ)) (M : Mink K) (T : KDTree K) (epsfac : K) (k : ℕ) (bound : Option K) (X : List (List K)) : Option (List (List K) × List (List ℕ)) :=
  if k = 0 ∨ X = [] then none
  else (X.mapM (query S fsort M T epsfac k (scaledBound M bound))).map (fun rs => (rs.map (fun r => fillRow 0 k (r.map Prod.fst)), rs.map (fun r => fillRow 0 k (r.map Prod.snd))))

end Sk.Neigh
