import Mathlib.Algebra.Order.Field.Basic
import Mathlib.Algebra.Order.AbsoluteValue.Basic
import Mathlib.Algebra.BigOperators.Group.List.Basic

/-!
# `neighbors/distance.go`, `neighbors/unsupervised.go` (brute force), `neighbors/kdtree.go`

Floats are elements of a linearly ordered field `K` (no NaN, no rounding).  `math.Pow(·, p)` and `math.Pow(·, 1/p)` are the two functions carried by
`Mink`; the theorems instantiate them with the real powers or quantify over everything that is monotone.  `sort.Slice` is not stable: every
sort is a parameter, and the theorems quantify over all functions returning an ordered permutation of their argument.  A data matrix is the list of
its rows.  The parallel loops write disjoint cells (see `Verif.Props.Parallel`), they are modelled row by row.
-/
set_option autoImplicit false

namespace Sk.Neigh

variable {K : Type} [Field K] [LinearOrder K] [IsStrictOrderedRing K]

/-- The parameter `p` of a Minkowski distance: `inf` is `math.IsInf(p, 1)`, `one` is `p == 1`, `pw` is `math.Pow(·, p)` and `rt` is
`math.Pow(·, 1/p)` (both unused when `inf`). -/
structure Mink (K : Type) where
  inf : Bool
  one : Bool
  pw : K → K
  rt : K → K

/-- `MinkowskiDistanceP`, /repo/neighbors/distance.go:13-43 (the same text is in /repo/cluster/distance.go:13-43).  Vectors of equal length: the
panic for a shorter `b` is not modelled. -/
def minkP (M : Mink K) (a b : List K) : K :=
  if a.length = 1 then |b.getD 0 0 - a.getD 0 0|
  else if M.inf then (List.zipWith (fun x y => |y - x|) a b).foldl max 0
  else (List.zipWith (fun x y => M.pw |y - x|) a b).foldl (· + ·) 0

/-- `MinkowskiDistance`, /repo/neighbors/distance.go:46-56. -/
def mink (M : Mink K) (a b : List K) : K :=
  let d := minkP M a b
  if !M.inf && !M.one then M.rt d else d

/-- `EuclideanDistance` up to the final square root, /repo/neighbors/distance.go:59-81 and /repo/cluster/distance.go:59-69; `sqrt` is `math.Sqrt`. -/
def euclid (sqrt : K → K) (a b : List K) : K :=
  if a.length = 1 then |b.getD 0 0 - a.getD 0 0|
  else sqrt ((List.zipWith (fun x y => (y - x) * (y - x)) a b).foldl (· + ·) 0)

section Brute

variable {V D : Type} [LinearOrder D]

/-- One row of `NearestNeighbors.KNeighbors` without tree, /repo/neighbors/unsupervised.go:77-91: distances to all fitted samples, sorted, the first `k`
as (distance, index).  `none`: `idx[ik]` is out of range (panic). -/
def kNeighbors (sort : List (D × ℕ) → List (D × ℕ)) (dist : V → V → D) (X : List V) (k : ℕ) (q : V) : Option (List (D × ℕ)) :=
  let s := sort (X.zipIdx.map (fun e => (dist q e.1, e.2)))
  if s.length < k then none else some (s.take k)

/-- One row of `RadiusNeighbors` without tree, /repo/neighbors/unsupervised.go:150-161: all samples by distance, up to the first one beyond the radius. -/
def radiusNeighbors (sort : List (D × ℕ) → List (D × ℕ)) (dist : V → V → D) (X : List V) (radius : D) (q : V) : Option (List (D × ℕ)) :=
  (kNeighbors sort dist X X.length q).map (fun r => r.takeWhile (fun e => decide (e.1 ≤ radius)))

/-- One row of `KNeighborsGraph`, /repo/neighbors/unsupervised.go:116-124, `cols` fitted samples, `row` the row's own index and `source` the row of the matrix
selected by `mode` (the indices, or for any other mode the distances, both already converted with `int(·)`).  `none`: `graph.Set` outside (panic). -/
def graphRow (includeSelf : Bool) (row : ℕ) : List ℕ → List K → Option (List K)
  | [], g => some g
  | index :: src, g =>
    if row = index && !includeSelf then graphRow includeSelf row src g
    else if index < g.length then graphRow includeSelf row src (g.set index 1)
    else none

/-- `mode` of `KNeighborsGraph`. -/
inductive Mode where
  | connectivity | distance
deriving DecidableEq

/-- One row of `KNeighborsGraph`, /repo/neighbors/unsupervised.go:102-127; `trunc` is Go's conversion `int(float64)` of a non negative distance. -/
def kGraph (sort : List (D × ℕ) → List (D × ℕ)) (dist : V → V → D) (trunc : D → ℕ) (X : List V) (k : ℕ) (mode : Mode) (includeSelf : Bool)
    (row : ℕ) (q : V) : Option (List K) := do
  let nb ← kNeighbors sort dist X k q
  let source := match mode with
    | .connectivity => nb.map Prod.snd
    | .distance => nb.map (fun e => trunc e.1)
  graphRow includeSelf row source (List.replicate X.length 0)

end Brute

/-! ## The kd-tree -/

/-- `LeafNode`, `InnerNode`, /repo/neighbors/kdtree.go:199-214. -/
inductive Node (K : Type) where
  | leaf (idx : List ℕ)
  | inner (dim : ℕ) (split : K) (less greater : Node K)

/-- `tr.Data.At(i, d)`; inside the matrix wherever the code evaluates it (outside, where Go panics, the value here is 0). -/
def at' (X : List (List K)) (i d : ℕ) : K := (X.getD i []).getD d 0

/-- Widest dimension, /repo/neighbors/kdtree.go:229-237: first index of the largest `maxes[i]-mins[i]`, by a scan from index `i` with the best so far. -/
def widestFrom : List K → List K → ℕ → ℕ → Option K → ℕ
  | a :: as, b :: bs, i, d, M =>
    match M with
    | none => widestFrom as bs (i + 1) i (some (a - b))
    | some m => if m < a - b then widestFrom as bs (i + 1) i (some (a - b)) else widestFrom as bs (i + 1) d (some m)
  | _, _, _, d, _ => d

/-- /repo/neighbors/kdtree.go:229-237. -/
def widest (maxes mins : List K) : ℕ := widestFrom maxes mins 0 0 none

/-- `lgfill`, /repo/neighbors/kdtree.go:247-258. -/
def lgfill (X : List (List K)) (d : ℕ) (idx : List ℕ) (split : K) : List ℕ × List ℕ :=
  (idx.filter (fun i => decide (at' X i d ≤ split)), idx.filter (fun i => decide (split < at' X i d)))

/-- Minimum of `Data.At(·, d)` over `idx`, /repo/neighbors/kdtree.go:261-266 (`none` only for an empty `idx`, where Go has +Inf). -/
def minAt (X : List (List K)) (d : ℕ) (idx : List ℕ) : Option K :=
  idx.foldl (fun M i => match M with
    | none => some (at' X i d)
    | some m => if at' X i d < m then some (at' X i d) else some m) none

/-- Maximum of `Data.At(·, d)` over `idx`, /repo/neighbors/kdtree.go:271-276. -/
def maxAt (X : List (List K)) (d : ℕ) (idx : List ℕ) : Option K :=
  idx.foldl (fun M i => match M with
    | none => some (at' X i d)
    | some m => if m < at' X i d then some (at' X i d) else some m) none

/-- Split value and the two index lists, /repo/neighbors/kdtree.go:246-285, for a non empty `idx`. -/
def chooseSplit (X : List (List K)) (d : ℕ) (idx : List ℕ) (maxval minval : K) : K × List ℕ × List ℕ :=
  let s0 := (maxval + minval) / 2
  let lg0 := lgfill X d idx s0
  let s1 := if lg0.1.isEmpty then (minAt X d idx).getD 0 else s0
  let lg1 := if lg0.1.isEmpty then lgfill X d idx s1 else lg0
  let s2 := if lg1.2.isEmpty then (maxAt X d idx).getD 0 else s1
  let lg2 := if lg1.2.isEmpty then lgfill X d idx s2 else lg1
  if lg2.1.isEmpty then (at' X (idx.getD 0 0) d, List.range (idx.length - 1), [idx.length - 1])
  else (s2, lg2.1, lg2.2)

/-- `_build`, /repo/neighbors/kdtree.go:225-291.  The recursion need not end: `none` means that it did not return within `fuel` nested calls. -/
def build (X : List (List K)) (leafSize : ℕ) : ℕ → List ℕ → List K → List K → Option (Node K)
  | 0, _, _, _ => none
  | fuel + 1, idx, maxes, mins =>
    if idx.length ≤ leafSize then some (.leaf idx)
    else
      let d := widest maxes mins
      let maxval := maxes.getD d 0
      let minval := mins.getD d 0
      if maxval = minval then some (.leaf idx)
      else
        let c := chooseSplit X d idx maxval minval
        do
          let less ← build X leafSize fuel c.2.1 (maxes.set d c.1) mins
          let greater ← build X leafSize fuel c.2.2 maxes (mins.set d c.1)
          return .inner d c.1 less greater

/-- Column maxima (`gt = (· < ·)`) or minima of the data, /repo/neighbors/kdtree.go:162-179. -/
def extremes (gt : K → K → Bool) : List (List K) → List K
  | [] => []
  | r :: X => X.foldl (fun acc row => List.zipWith (fun a v => if gt a v then v else a) acc row) r

/-- `NewKDTree`, /repo/neighbors/kdtree.go:153-183: maxes, mins and the tree.  (An empty matrix panics in gonum.) -/
structure KDTree (K : Type) where
  data : List (List K)
  maxes : List K
  mins : List K
  tree : Node K

/-- /repo/neighbors/kdtree.go:153-183. -/
def newKDTree (fuel : ℕ) (X : List (List K)) (leafSize : ℕ) : Option (KDTree K) := do
  let maxes := extremes (fun a v => decide (a < v)) X
  let mins := extremes (fun a v => decide (v < a)) X
  let t ← build X (max leafSize 1) fuel (List.range X.length) maxes mins
  return ⟨X, maxes, mins, t⟩

/-- Entry of the queue of cells, /repo/neighbors/kdtree.go:316-320. -/
structure QEle (K : Type) where
  minD : K
  side : List K
  node : Node K

/-- Comparison with a bound that may be `+Inf` (`none`): `x ≤ b`. -/
def leBound (x : K) : Option K → Bool
  | none => true
  | some b => decide (x ≤ b)

/-- `x < b` with `b` possibly `+Inf`. -/
def ltBound (x : K) : Option K → Bool
  | none => true
  | some b => decide (x < b)

/-- The sorts of a query: cells by `minDistance`, candidates by their (negated) distance. -/
structure Sorts (K : Type) where
  q : List (QEle K) → List (QEle K)
  n : List (K × ℕ) → List (K × ℕ)

/-- `qHeappush`, /repo/neighbors/kdtree.go:325-330. -/
def qPush (S : Sorts K) (q : List (QEle K)) (e : QEle K) : List (QEle K) :=
  if 2 ≤ (q ++ [e]).length then S.q (q ++ [e]) else q ++ [e]

/-- `nHeappush`, /repo/neighbors/kdtree.go:342-347. -/
def nPush (S : Sorts K) (ns : List (K × ℕ)) (e : K × ℕ) : List (K × ℕ) :=
  if 2 ≤ (ns ++ [e]).length then S.n (ns ++ [e]) else ns ++ [e]

/-- One sample of the leaf loop, /repo/neighbors/kdtree.go:368-380: candidates and bound.  `none`: pop from an empty list (panic, only for `k = 0`). -/
def leafStep (S : Sorts K) (k : ℕ) (ds : ℕ → K) (st : List (K × ℕ) × Option K) (i : ℕ) : Option (List (K × ℕ) × Option K) := do
  let ns ← if ltBound (ds i) st.2 && st.1.length == k then (match st.1 with
      | [] => none
      | _ :: r => some r) else some st.1
  let ns := nPush S ns (-(ds i), i)
  if ns.length = k then return (ns, (ns.head?.map (fun e => -e.1)).or st.2)
  else return (ns, st.2)

/-- The main loop, /repo/neighbors/kdtree.go:361-420: the queue, the candidates and the bound; every round removes one node of the tree from the queue,
so `fuel` at least the number of nodes is enough (see the theorems).  `x` is the query, `ds` the distances `MinkowskiDistanceP(X, Data.RowView(i), p)`. -/
def queryLoop (S : Sorts K) (M : Mink K) (epsfac : K) (k : ℕ) (x : List K) (ds : ℕ → K) :
    ℕ → List (QEle K) → List (K × ℕ) → Option K → Option (List (K × ℕ))
  | _, [], ns, _ => some ns
  | 0, _ :: _, _, _ => none
  | fuel + 1, e :: q, ns, ub =>
    match e.node with
    | .leaf idx => do
      let st ← idx.foldlM (leafStep S k ds) (ns, ub)
      queryLoop S M epsfac k x ds fuel q st.1 st.2
    | .inner dim split less greater =>
      if !leBound e.minD (ub.map (· * epsfac)) then some ns
      else
        let xv := x.getD dim 0
        let near := if xv < split then less else greater
        let far := if xv < split then greater else less
        let q := qPush S q ⟨e.minD, e.side, near⟩
        let sdv := if M.inf then e.side.getD dim 0 else if M.one then |split - xv| else M.pw |split - xv|
        let minD := if M.inf then max e.minD |split - xv| else e.minD - e.side.getD dim 0 + sdv
        let q := if leBound minD (ub.map (· * epsfac)) then qPush S q ⟨minD, e.side.set dim sdv, far⟩ else q
        queryLoop S M epsfac k x ds fuel q ns ub

/-- Number of nodes. -/
def Node.size : Node K → ℕ
  | .leaf _ => 1
  | .inner _ _ l g => 1 + l.size + g.size

/-- `_query`, /repo/neighbors/kdtree.go:293-432: the (distance, index) pairs passed to the callback.  `epsfac` is computed from `eps` on l.350-357 (1 for
`eps = 0`), `ub` the bound after l.358-360 (`none`: +Inf), `fsort` the final sort of l.427. -/
def query (S : Sorts K) (fsort : List (K × ℕ) → List (K × ℕ)) (M : Mink K) (T : KDTree K) (epsfac : K) (k : ℕ) (ub : Option K) (x : List K) :
    Option (List (K × ℕ)) := do
  let side := List.zipWith (fun xj (mm : K × K) =>
    let d := max 0 (max (xj - mm.1) (mm.2 - xj))
    if M.inf then d else M.pw d) x (T.maxes.zip T.mins)
  let minD := if M.inf then side.foldl max 0 else side.foldl (· + ·) 0
  let ds := fun i => minkP M x (T.data.getD i [])
  let ns ← queryLoop S M epsfac k x ds T.tree.size [⟨minD, side, T.tree⟩] [] ub
  return (fsort (ns.map (fun e => (if M.inf then -e.1 else M.rt (-e.1), e.2)))).take k

/-- `RadiusNeighbors` with a tree, /repo/neighbors/unsupervised.go:164-175: a query for all samples with the radius as bound, filtered. -/
def treeRadius (S : Sorts K) (fsort : List (K × ℕ) → List (K × ℕ)) (M : Mink K) (T : KDTree K) (radius : K) (x : List K) : Option (List (K × ℕ)) :=
  let ub := if !M.inf && !M.one then M.pw radius else radius
  (query S fsort M T 1 T.data.length (some ub) x).map (fun r => r.filter (fun e => decide (e.1 ≤ radius)))

end Sk.Neigh
