import Mathlib.Data.List.Basic

/-!
# Transformers and pipelines on matrices in memory

In `Verif.Model.PipeObj` matrices are values.  Here they are places in a memory: which places are read, written and handed back by the `Transform` methods of /repo/preprocessing and by `Pipeline`.  A matrix is the contents `M` of one place (a header and the
data it points to; two headers over the same data are one place).  `none` is a panic.  What the methods compute from the contents is opaque here (it is modelled elsewhere); a pointer is `none` when it is nil.
-/
set_option autoImplicit false

namespace Sk.PipeHeap

/-- The memory: the contents of the matrices made so far. -/
abbrev Mem (M : Type) := List M

/-- A `mat.Matrix` given by the caller: the nil interface, a nil `*mat.Dense`, a `*mat.Dense`, another type with a `RawMatrix` method, another type without one. -/
inductive Arg where
  | nil
  | nilDense
  | dense (a : ℕ)
  | raw (a : ℕ)
  | other (a : ℕ)

variable {M E S : Type}

/-- `base.ToDense`, /repo/base/matrix.go:198-215: the same matrix, a new header over the same data, or a copy; a new empty matrix for the nil interface. -/
def toDense (empty : M) (h : Mem M) : Arg → Option (Mem M × Option ℕ)
  | .nil => some (h ++ [empty], some h.length)
  | .nilDense => some (h, none)
  | .dense a => some (h, some a)
  | .raw a => some (h, some a)
  | .other a => h[a]?.map fun m => (h ++ [m], some h.length)

/-- The contents behind a pointer. -/
def read (h : Mem M) (p : Option ℕ) : Option M := p.bind (h[·]?)

/-- The transformers of /repo/preprocessing. -/
inductive Name where
  | minMax | standard | robust | poly | oneHot | binarizer | maxAbs | normalizer | kernelCenterer | quantile | imputer | pca
  | labelBinarizer | multiLabel | labelEncoder
  | shuffler
  | kBins
  | power
  | function

/-- What a `Transform` does with the places: a new matrix computed from X, and the given Y; a new matrix computed from X, and nil; the given X, and a new matrix computed from Y; two new matrices; X overwritten; whatever the user's function does. -/
inductive Shape where
  | newX | newXnilY | newY | newXY | overX | user

/-- The `Transform` methods: `MinMaxScaler` /repo/preprocessing/data.go:103-110, `StandardScaler` 185-203, `RobustScaler` 402-415, `PolynomialFeatures` 583-597, `OneHotEncoder` 726-762, `Binarizer` 888-904, `MaxAbsScaler` 961-972, `Normalizer` 1015-1054,
`KernelCenterer` 1120-1139, `QuantileTransformer` 1190-1207, `Imputer` /repo/preprocessing/imputation.go:62-84, `PCA` /repo/preprocessing/pca.go:56-66; `LabelBinarizer` /repo/preprocessing/label.go:53-80, `MultiLabelBinarizer` 170-172, 187-232, `LabelEncoder` 324-339;
`Shuffler` /repo/preprocessing/data.go:815-836; `KBinsDiscretizer` /repo/preprocessing/discretization.go:61-94 (never assigns `Yout`); `PowerTransformer` /repo/preprocessing/data.go:1291-1317; `FunctionTransformer` /repo/preprocessing/functiontransformer.go:33-36. -/
def Name.shape : Name → Shape
  | .minMax | .standard | .robust | .poly | .oneHot | .binarizer | .maxAbs | .normalizer | .kernelCenterer | .quantile | .imputer | .pca => .newX
  | .labelBinarizer | .multiLabel | .labelEncoder => .newY
  | .shuffler => .newXY
  | .kBins => .newXnilY
  | .power => .overX
  | .function => .user

/-- A fitted transformer: `val` computes the new contents from those of the matrix it reads, `val2` both for `Shuffler`; `std` is `Standardize` of `PowerTransformer` and `scale` its scaler; `fn` is the function of a `FunctionTransformer`. -/
structure Fitted (M : Type) where
  name : Name
  val : M → Option M
  val2 : M → M → Option (M × M)
  std : Bool
  scale : M → Option M
  fn : Mem M → Option ℕ → Option ℕ → Option (Mem M × Option ℕ × Option ℕ)

/-- `Transform(X, Y)` with pointers to `mat.Dense` (the methods cited at `Name.shape`). -/
def transform (f : Fitted M) (h : Mem M) (x y : Option ℕ) : Option (Mem M × Option ℕ × Option ℕ) :=
  match f.name.shape with
  | .newX => (read h x).bind fun X => (f.val X).map fun Z => (h ++ [Z], some h.length, y)
  | .newXnilY => (read h x).bind fun X => (f.val X).map fun Z => (h ++ [Z], some h.length, none)
  | .newY => (read h y).bind fun Y => (f.val Y).map fun Z => (h ++ [Z], x, some h.length)
  | .newXY => (read h x).bind fun X => (read h y).bind fun Y => (f.val2 X Y).map fun Z => (h ++ [Z.1, Z.2], some h.length, some (h.length + 1))
  | .overX => x.bind fun a => h[a]?.bind fun X => (f.val X).bind fun Z => if f.std then (f.scale Z).map fun W => (h.set a Z ++ [W], some h.length, y) else some (h.set a Z, x, y)
  | .user => f.fn h x y

/-- `Transform(X, Y)` as the caller writes it: `ToDense` first.  (`Shuffler` copies instead; for the nil interface as Y, where `mat.DenseCopyOf` panics, this is not modelled.) -/
def call (empty : M) (f : Fitted M) (h : Mem M) (X Y : Arg) : Option (Mem M × Option ℕ × Option ℕ) :=
  (toDense empty h X).bind fun r => (toDense empty r.1 Y).bind fun s => transform f s.1 r.2 s.2

/-! ## Pipelines -/

/-- What `InverseTransform(nil, Y)` hands back: the same Y or a new matrix. -/
inductive Back (M : Type) where
  | same
  | fresh (m : M)

/-- The steps, as structs `E`: `kind` gives the transformer if the step is one; `fit` reads X and Y (`none` among the arguments: nil pointer); `predict` computes the predictions written to a new matrix (/repo/pipeline/pipeline.go:70-72), `inverse` is `InverseTransform(nil, Y)`
(`none` also when the step has no such method). -/
structure Kit (M E S : Type) where
  kind : E → Option (Fitted M)
  isP : E → Bool
  fit : E → M → Option M → Option E
  predict : E → M → Option M
  nOut : E → ℕ
  inverse : E → Option M → Option (Back M)
  score : E → M → M → Option S

/-- `transformStep`, /repo/pipeline/pipeline.go:62-82. -/
def transformStep (I : Kit M E S) (s : Mem M × Option ℕ × Option ℕ) (e : E) : Option (Mem M × Option ℕ × Option ℕ) :=
  match I.kind e with
  | some f => transform f s.1 s.2.1 s.2.2
  | none => if I.isP e then (if I.nOut e = 0 then none else (read s.1 s.2.1).bind fun X => (I.predict e X).map fun P => (s.1 ++ [P], s.2.1, some s.1.length)) else none

/-- The loop of `Fit`, /repo/pipeline/pipeline.go:90-95: memory and fitted steps. -/
def fitLoop (I : Kit M E S) : List E → Mem M × Option ℕ × Option ℕ → Option (Mem M × List E)
  | [], s => some (s.1, [])
  | [e], s => (read s.1 s.2.1).bind fun X => (I.fit e X (read s.1 s.2.2)).map fun e' => (s.1, [e'])
  | e :: d :: es, s => (read s.1 s.2.1).bind fun X => (I.fit e X (read s.1 s.2.2)).bind fun e' => (transformStep I s e').bind fun s' => (fitLoop I (d :: es) s').map fun r => (r.1, e' :: r.2)

/-- `Pipeline.Fit`, /repo/pipeline/pipeline.go:85-97. -/
def fit (I : Kit M E S) (empty : M) (es : List E) (h : Mem M) (X Y : Arg) : Option (Mem M × List E) :=
  (toDense empty h X).bind fun r => (toDense empty r.1 Y).bind fun s => fitLoop I es (s.1, r.2, s.2)

/-- One round of the second loop of `Predict`, /repo/pipeline/pipeline.go:129-132. -/
def backStep (I : Kit M E S) (s : Mem M × Option ℕ) (e : E) : Option (Mem M × Option ℕ) :=
  (I.inverse e (read s.1 s.2)).map fun b => match b with
    | .same => s
    | .fresh Z => (s.1 ++ [Z], some s.1.length)

/-- `base.FromDense`, /repo/base/matrix.go:218-241, for a destination of the shape of the result. -/
def fromDense (h : Mem M) (p : Option ℕ) : Arg → Option (Mem M)
  | .nil => some h
  | .nilDense => none
  | .dense d => (read h p).map fun R => if p = some d then h else h.set d R
  | .raw d => (read h p).map fun R => if p = some d then h else h.set d R
  | .other d => (read h p).map fun R => h.set d R

/-- `Pipeline.Predict`, /repo/pipeline/pipeline.go:123-134: the memory and the matrix returned. -/
def predict (I : Kit M E S) (empty : M) (es : List E) (h : Mem M) (X Y : Arg) : Option (Mem M × Option ℕ) :=
  (toDense empty h X).bind fun r => (toDense empty r.1 Y).bind fun s => (es.foldlM (transformStep I) (s.1, r.2, s.2)).bind fun t =>
    (es.dropLast.reverse.foldlM (backStep I) (t.1, t.2.2)).bind fun u => (fromDense u.1 u.2 Y).map fun h' => (h', u.2)

/-- `Pipeline.Score`, /repo/pipeline/pipeline.go:100-112: the steps before the last see X and Y, the last one the caller's Y; the memory is returned too.  (`Score` of the last step is assumed to leave its arguments alone.) -/
def score (I : Kit M E S) (empty : M) (es : List E) (h : Mem M) (X : Arg) (y : ℕ) : Option (Mem M × S) :=
  (toDense empty h X).bind fun r => (es.dropLast.foldlM (transformStep I) (r.1, r.2, some y)).bind fun t => es.getLast?.bind fun e =>
    if I.isP e then (read t.1 t.2.1).bind fun X' => t.1[y]?.bind fun Y => (I.score e X' Y).map fun v => (t.1, v) else none

end Sk.PipeHeap
