import Verif.Model.TransClone
import Verif.Model.Label
import Verif.Model.Encode
import Verif.Model.Poly
import Verif.Model.Power
import Verif.Model.Pca

/-!
# `TransformerClone` of the other transformers of `preprocessing`

The objects, pointers and programs are those of `Verif.Model.TransClone`: `clone := *m` copies the fields of the struct, and slices are pointers to a cell of the heap.  Here are the instances for the transformers
that are not scalers.
-/
set_option autoImplicit false

namespace Sk.TransClone
open Sk.Label Sk.Encode

/-! ## `LabelEncoder` -/

section Encoder
variable {K : Type} [LinearOrder K]

/-- `LabelEncoder` on label matrices with `n` columns, /repo/preprocessing/label.go:282-321.  The cell holds the arrays of the outer slices `Classes` and `Support` (`[][]float64`); `PartialFit` stores the new inner slices
in it (l.311-316).  `Fit` makes a new one each time (l.291-292): the flag says that it has just done so.  A matrix with another number of columns, for which `PartialFit` makes new outer slices (l.299-302), is not modelled. -/
def encoder (n : ℕ) : Impl (Fin n → List K) Bool (Fin n → Enc K) where
  v0 := false
  h0 := fun _ => Enc.empty
  reset _ := true
  fresh b := b
  skip _ := false
  upd _ h d := some (false, fun i => (d i).foldl Enc.add (h i))

end Encoder

/-! ## Transformers whose `Fit` makes new slices -/

/-- A transformer without `PartialFit` whose `Fit` makes new slices each time and stores them in its fields; `set` is what it does to the other fields. -/
def alloc {D V H : Type} (v0 : V) (h0 : H) (fitTo : V → D → Option (V × H)) : Impl D V H where
  v0 := v0
  h0 := h0
  reset v := v
  fresh _ := true
  skip _ := false
  upd v _ d := fitTo v d

section Alloc
variable {K : Type} [Field K] [LinearOrder K]

/-- `OneHotEncoder`, /repo/preprocessing/data.go:693-725: `NValues`, `FeatureIndices` and `Values` are made at l.702-704 (the first two follow from the third). -/
def oneHot : Impl (List (List K)) Unit (List (List K)) := alloc () [] (fun _ cols => some ((), ohFit cols))

/-- `LabelBinarizer`, /repo/preprocessing/label.go:24-51: own `NegLabel` and `PosLabel`, which `Fit` may change; `Classes` is made at l.36. -/
def labelBinarizer (neg pos : K) : Impl (List (List K)) (K × K) (List (List K)) :=
  alloc (neg, pos) [] (fun v cols => some ((v.1, fitPos v.1 v.2), cols.map distinctSorted))

/-- `Imputer`, /repo/preprocessing/imputation.go:23-60: `MissingValues` is made at l.32.  The columns come with the order in which `stat.Mode` ranges over its map. -/
def imputer (st : Strategy) (half : K) : Impl (List (List K × List (Option K))) Unit (List (Option K)) :=
  alloc () [] (fun _ cols => (cols.mapM (fun c => impFit st half c.1 c.2)).map (fun h => ((), h)))

/-- `KBinsDiscretizer`, /repo/preprocessing/discretization.go:29-58: `BinEdges` and its slices are made at l.37 and l.43. -/
def kBins (st : BinStrategy) (nbins : ℕ) : Impl (List (List K)) Unit (List (List K)) :=
  alloc () [] (fun _ cols => (cols.mapM (kbFit st nbins)).map (fun h => ((), h)))

/-- `PolynomialFeatures`, /repo/preprocessing/data.go:555-582: `Powers` is made at l.565; of the data only the number of columns matters. -/
def polyFeatures (degree : ℕ) (interactionOnly includeBias : Bool) (fuel : ℕ) : Impl ℕ Unit (List (List ℕ)) :=
  alloc () [] (fun _ n => (Sk.Poly.powers n degree interactionOnly includeBias fuel).map (fun h => ((), h)))

/-- `QuantileTransformer`, /repo/preprocessing/data.go:1161-1188, 1216-1219: `references` and `Quantiles` are made at l.1164-1165. -/
def quantiles [FloorRing K] (nq : ℕ) : Impl (List (List K)) Unit (List K × List (List K)) :=
  alloc () ([], []) (fun _ cols => some ((), (List.range nq).map (Sk.Power.qref nq), cols.map (fun c => (List.range nq).map (Sk.Power.qfit nq c))))

/-- `KernelCenterer`, /repo/preprocessing/data.go:1095-1117: own `KFitAll` (a number); `KFitRows` is made at l.1104. -/
def kernelCenterer (c : ℕ) : Impl (List (List K)) K (List K) :=
  alloc 0 [] (fun _ rows => some ((Sk.Scale.kcFit rows c).2, (Sk.Scale.kcFit rows c).1))

end Alloc

/-! ## `PCA` -/

/-- `PCA` on matrices with `c` columns, /repo/preprocessing/pca.go:22-53; the data are given by the number of rows and the singular value decomposition.  Own fields: `MinVarianceRatio`, `NComponents`, `SingularValues`,
`ExplainedVarianceRatio` (new slices each time, l.32-33).  The embedded `mat.SVD` has the slice of the right singular vectors: `SVD.Factorize` (gonum v0.6.1, outside the repository) writes into the slice of the last factorization
when its capacity suffices, which is the case for data with the same number of columns; this is an assumption of the model. -/
noncomputable def pca (c : ℕ) (cfg : Sk.Pca.Config) : Impl (ℕ × (Fin c → ℝ) × Matrix (Fin c) (Fin c) ℝ) (Sk.Pca.Config × (Fin c → ℝ) × (Fin c → ℝ)) (Matrix (Fin c) (Fin c) ℝ) where
  v0 := (cfg, fun _ => 0, fun _ => 0)
  h0 := 0
  reset v := v
  fresh _ := false
  skip _ := false
  upd v _ d := (Sk.Pca.fit d.1 v.1 d.2.1 d.2.2).map (fun f => ((f.cfg, f.singularValues, f.ratio), f.V))

/-- The fitted `PCA` that a variable holds. -/
def pcaOf {c : ℕ} (o : (Sk.Pca.Config × (Fin c → ℝ) × (Fin c → ℝ)) × Option (Matrix (Fin c) (Fin c) ℝ)) : Option (Sk.Pca.Fitted c) :=
  o.2.map (fun V => ⟨V, o.1.2.1, o.1.2.2, o.1.1⟩)

end Sk.TransClone
