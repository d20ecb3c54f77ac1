/-!
# Model of `pipeline/pipeline.go`

Matrices are opaque (`M`). A step is what its `Fit` method turns the data into. `none` = panic.
-/
set_option autoImplicit false

namespace Sk.Pipeline

/-- A fitted step. A transformer may or may not implement `InverseTransformer`; `inv` is its action on Y
(`InverseTransform(nil, Y)`, pipeline/pipeline.go:131). A predicter predicts from X and scores (X,Y). -/
inductive Fitted (M S : Type) where
  | transformer (tr : M → M → M × M) (inv : Option (M → M))
  | predicter (predict : M → M) (score : M → M → S)

/-- `transformStep`, pipeline/pipeline.go:62-82. (The panic on a predicter without outputs, l.68-70, is left out.) -/
def transformStep {M S : Type} (f : Fitted M S) (xy : M × M) : M × M :=
  match f with
  | .transformer tr _ => tr xy.1 xy.2        -- l.65
  | .predicter p _ => (xy.1, p xy.1)         -- l.72-73

/-- `Pipeline.Fit`, pipeline/pipeline.go:85-97: the list of fitted steps. The last step is fitted but not applied (l.92). -/
def fit {M S : Type} : List (M → M → Fitted M S) → M × M → List (Fitted M S)
  | [], _ => []
  | [s], xy => [s xy.1 xy.2]
  | s :: s' :: rest, xy => s xy.1 xy.2 :: fit (s' :: rest) (transformStep (s xy.1 xy.2) xy)

/-- `step.Fiter.(preprocessing.InverseTransformer).InverseTransform(nil, Ytmp)`, pipeline/pipeline.go:131: the type assertion panics if
the step has no inverse. -/
def inverseStep {M S : Type} (f : Fitted M S) (y : M) : Option M :=
  match f with
  | .transformer _ (some inv) => some (inv y)
  | _ => none

/-- `Pipeline.Predict(X,Y)`, pipeline/pipeline.go:123-134; `ydst` is the content of the matrix passed as destination. All steps are
applied in order (l.125-128), then the inverse transforms of the steps `n-2, …, 0` (l.129-132). -/
def predict {M S : Type} (steps : List (Fitted M S)) (x ydst : M) : Option M :=
  let xy := steps.foldl (fun xy f => transformStep f xy) (x, ydst)
  steps.dropLast.reverse.foldlM (fun y f => inverseStep f y) xy.2

/-- `Pipeline.Score(X,Y)`, pipeline/pipeline.go:100-112. An empty pipeline panics (l.102). -/
def score {M S : Type} (steps : List (Fitted M S)) (x y : M) : Option S :=
  match steps.getLast? with
  | some (.predicter _ sc) =>
    let xy := steps.dropLast.foldl (fun xy f => transformStep f xy) (x, y)
    some (sc xy.1 y)                         -- l.111: the original Y
  | _ => none

end Sk.Pipeline
