import Verif.Model.PipeObj
import Verif.Model.Label

/-!
# The transformers of `preprocessing` as inner steps of a pipeline

`Pipeline.Predict` calls `InverseTransform(nil, Y)` of every step but the last, /repo/pipeline/pipeline.go:129-132, after asserting that the step is a `preprocessing.InverseTransformer`.  Here: which types are, and what the call does when X is
the nil pointer.  `none` is a panic (`Dims`, `RawMatrix` of a nil `*mat.Dense` dereference nil).  Matrices are lists of rows.  Fitted parameters that the call does not reach are left out.
-/
set_option autoImplicit false

namespace Sk.PipeObj
open Sk.Label

/-- The transformers of /repo/preprocessing.  `shuffler` etc. carry no parameters because the call panics before it reads them; a `labelBinarizer` carries its classes per column, a `labelEncoder` the encoder of each column,
`function` its `InverseFunc` called with nil and Y (`none` if the field is nil). -/
inductive Tr (K : Type) where
  | minMax
  | standard
  | robust
  | poly
  | pca
  | imputer
  | oneHot
  | shuffler
  | maxAbs
  | normalizer
  | labelBinarizer (classes : List (List K))
  | labelEncoder (encs : List (Enc K))
  | function (inv : Option (List (List K) → Option (List (List K))))
  | kBins
  | power
  | binarizer
  | kernelCenterer
  | quantile
  | multiLabel

variable {K : Type} [LinearOrder K] [Zero K]

/-- Does the method set contain `InverseTransform(X, Y *mat.Dense) (Xout, Yout *mat.Dense)` (/repo/preprocessing/data.go:24-27)?  The methods of `KBinsDiscretizer` (/repo/preprocessing/discretization.go:103), `PowerTransformer`
(/repo/preprocessing/data.go:1341) and `MultiLabelBinarizer` (/repo/preprocessing/label.go:236) have other parameter or result types; `Binarizer`, `KernelCenterer`, `QuantileTransformer` (/repo/preprocessing/data.go:876-912, 1094-1146, 1163-1220) have none. -/
def Tr.implementsInverse : Tr K → Bool
  | .kBins => false
  | .power => false
  | .multiLabel => false
  | .binarizer => false
  | .kernelCenterer => false
  | .quantile => false
  | _ => true

/-- A cell of the result of `LabelEncoder.InverseTransform` as a float; NaN is given as a parameter. -/
def cellVal (nan : K) : Cell K → K
  | .label v => v
  | .nan => nan
  | .zero => 0

/-- `InverseTransform(nil, Y)`: the Y returned.  `MinMaxScaler` /repo/preprocessing/data.go:119-122, `StandardScaler` 212-215, `RobustScaler` 424-427, `PolynomialFeatures` 606-609, `PCA` /repo/preprocessing/pca.go:75-78: `if X == nil { return X, Y }`;
`Imputer` /repo/preprocessing/imputation.go:93-96; `OneHotEncoder` /repo/preprocessing/data.go:772, `Shuffler` 846, `MaxAbsScaler` 982, `Normalizer` 1064 read X first;
`LabelBinarizer` /repo/preprocessing/label.go:89-105, `LabelEncoder` 348-363 (`trunc` is the conversion `int(v)`), `FunctionTransformer` /repo/preprocessing/functiontransformer.go:45-48. -/
def Tr.inverseNil (nan : K) (trunc : K → ℤ) : Tr K → List (List K) → Option (List (List K))
  | .minMax, y => some y
  | .standard, y => some y
  | .robust, y => some y
  | .poly, y => some y
  | .pca, y => some y
  | .imputer, y => some y
  | .oneHot, _ => none
  | .shuffler, _ => none
  | .maxAbs, _ => none
  | .normalizer, _ => none
  | .labelBinarizer cs, y => (binInverse (0 : K) cs y ((y.head?.map List.length).getD 0)).map (fun out => (List.range y.length).map (fun i => out.map (fun c => c.getD i 0)))
  | .labelEncoder es, y => y.mapM (fun r => (inverseRow es (r.map trunc)).map (fun cs => cs.map (cellVal nan)))
  | .function f, y => f.bind (fun g => g y)
  | _, _ => none

/-- Pipelines whose steps are transformers of the library (`Sum.inl`, with any `Transform` and `Fit`, given as parameters) or predicters (`Sum.inr`). -/
def library {P S : Type} (nan : K) (trunc : K → ℤ) (fitT : Tr K → List (List K) → List (List K) → Option (Tr K)) (trans : Tr K → List (List K) → List (List K) → Option (List (List K) × List (List K)))
    (fitP : P → List (List K) → List (List K) → Option P) (predictP : P → List (List K) → List (List K) → Option (List (List K))) (scoreP : P → List (List K) → List (List K) → Option S) (isClf : P → Bool) (nOut : P → ℕ)
    (zeros : List (List K) → ℕ → Option (List (List K))) (cols : List (List K) → ℕ) : Kit (List (List K)) (Tr K ⊕ P) S where
  isT | .inl _ => true | .inr _ => false
  isP | .inl _ => false | .inr _ => true
  isI | .inl t => t.implementsInverse | .inr _ => false
  fit | .inl t, x, y => (fitT t x y).map .inl | .inr p, x, y => (fitP p x y).map .inr
  tclone := id
  pclone := id
  transform | .inl t, x, y => trans t x y | .inr _, _, _ => none
  inverse | .inl t, y => t.inverseNil nan trunc y | .inr _, _ => none
  predict | .inl _, _, _ => none | .inr p, x, y => predictP p x y
  score | .inl _, _, _ => none | .inr p, x, y => scoreP p x y
  isClf | .inl _ => false | .inr p => isClf p
  nOut | .inl _ => 0 | .inr p => nOut p
  zeros := zeros
  cols := cols

end Sk.PipeObj
