import Verif.Model.PipeHeap

/-!
# `InverseTransform` on matrices in memory

The other direction of `Verif.Model.PipeHeap`: which places the `InverseTransform` methods of /repo/preprocessing read, write and hand back.  X and Y are pointers to `mat.Dense` (`none`: nil); `none` as a result is a panic, or that there is no such method.
-/
set_option autoImplicit false

namespace Sk.PipeHeap

variable {M E S : Type}

/-- What an `InverseTransform` does with the places: a new X, or nothing for a nil X, and the given Y; the same with a nil Y unless X is nil; a new X, where a nil X panics, and the given Y; the same with a nil Y; both arguments; the given X and a new Y; both arguments, overwritten; a panic; the user's function; no such method. -/
inductive InvShape where
  | newX | newXdropY | newXstrict | newXnilY | same | newY | overXY | panics | user | missing

/-- The `InverseTransform` methods: `MinMaxScaler` /repo/preprocessing/data.go:119-129, `StandardScaler` 212-233, `RobustScaler` 424-440, `PCA` /repo/preprocessing/pca.go:75-88; `PolynomialFeatures` /repo/preprocessing/data.go:606-651 (never assigns `Yout`, except for a nil X);
`OneHotEncoder` 771-786, `MaxAbsScaler` 981-992, `PowerTransformer` 1341-1369 (the matrix unscaled in between is not counted); `KBinsDiscretizer` /repo/preprocessing/discretization.go:103-134 (never assigns `Yout`); `Imputer` /repo/preprocessing/imputation.go:93-96;
`LabelBinarizer` /repo/preprocessing/label.go:89-105, `LabelEncoder` 348-363, `MultiLabelBinarizer` 236-270 (for labels of type float64); `Shuffler` /repo/preprocessing/data.go:845-868; `Normalizer` 1063-1083 (writes through its nil result; for X of the shape 0x0 it would not, which is left out);
`FunctionTransformer` /repo/preprocessing/functiontransformer.go:45-48.  `Binarizer`, `KernelCenterer` and `QuantileTransformer` have none. -/
def Name.invShape : Name → InvShape
  | .minMax | .standard | .robust | .pca => .newX
  | .poly => .newXdropY
  | .oneHot | .maxAbs | .power => .newXstrict
  | .kBins => .newXnilY
  | .imputer => .same
  | .labelBinarizer | .labelEncoder | .multiLabel => .newY
  | .shuffler => .overXY
  | .normalizer => .panics
  | .function => .user
  | .binarizer | .kernelCenterer | .quantile => .missing

/-- A fitted transformer seen from the other side: `val` computes the contents of the new (or overwritten) matrix; `fn` is `InverseFunc` of a `FunctionTransformer`. -/
structure Inv (M : Type) where
  name : Name
  val : M → Option M
  fn : Mem M → Option ℕ → Option ℕ → Option (Mem M × Option ℕ × Option ℕ)

/-- `InverseTransform(X, Y)` (the methods cited at `Name.invShape`).  `Shuffler` swaps rows of X and then the same rows of Y: if they are one matrix every swap is undone at once. -/
def invert (f : Inv M) (h : Mem M) (x y : Option ℕ) : Option (Mem M × Option ℕ × Option ℕ) :=
  match f.name.invShape with
  | .newX => if x = none then some (h, none, y) else (read h x).bind fun X => (f.val X).map fun Z => (h ++ [Z], some h.length, y)
  | .newXdropY => if x = none then some (h, none, y) else (read h x).bind fun X => (f.val X).map fun Z => (h ++ [Z], some h.length, none)
  | .newXstrict => (read h x).bind fun X => (f.val X).map fun Z => (h ++ [Z], some h.length, y)
  | .newXnilY => (read h x).bind fun X => (f.val X).map fun Z => (h ++ [Z], some h.length, none)
  | .same => some (h, x, y)
  | .newY => (read h y).bind fun Y => (f.val Y).map fun Z => (h ++ [Z], x, some h.length)
  | .overXY => x.bind fun a => y.bind fun b => h[a]?.bind fun X => h[b]?.bind fun Y => (f.val X).bind fun Z => (f.val Y).map fun W => (if a = b then h else (h.set a Z).set b W, x, y)
  | .panics => none
  | .user => f.fn h x y
  | .missing => none

/-- The assertion `step.Fiter.(preprocessing.InverseTransformer)` of /repo/pipeline/pipeline.go:131 (the interface: /repo/preprocessing/data.go:24-27): `InverseTransform` must take and give pointers to `mat.Dense`, which those of `PowerTransformer`, `KBinsDiscretizer` and `MultiLabelBinarizer` do not. -/
def Name.isInverse : Name → Bool
  | .minMax | .standard | .robust | .pca | .poly | .oneHot | .maxAbs | .imputer | .labelBinarizer | .labelEncoder | .shuffler | .normalizer | .function => true
  | .power | .kBins | .multiLabel | .binarizer | .kernelCenterer | .quantile => false

/-- One round of the second loop of `Pipeline.Predict`, /repo/pipeline/pipeline.go:129-132: `_, Ytmp = step.Fiter.(InverseTransformer).InverseTransform(nil, Ytmp)`. -/
def goBack (f : Inv M) (s : Mem M × Option ℕ) : Option (Mem M × Option ℕ) :=
  if f.name.isInverse then (invert f s.1 none s.2).map fun r => (r.1, r.2.2) else none

end Sk.PipeHeap
