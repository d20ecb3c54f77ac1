import Mathlib.Logic.Function.Basic
import Mathlib.Algebra.Order.Ring.Nat

/-!
# `pipeline/pipeline.go` with pointers: steps, slices of steps, pipelines and their clones

A step is a pointer to a struct; a slice of `NamedStep`s is an array of names and such pointers; a `Pipeline` holds a slice.  Matrices (`M`), step structs (`E`) and scores (`S`) are opaque.  `none` is a panic.
The length of a slice is that of its array (the slices here are never resliced).  What clones of single steps share is treated in the models of clones of the estimators; here the clone of a step is a new struct.
-/
set_option autoImplicit false

namespace Sk.PipeObj

/-- What is outside: the methods of the steps.  `isT`, `isP`, `isI`: the dynamic type implements `base.Transformer`, `base.Predicter` (/repo/base/interfaces.go:13-28), `preprocessing.InverseTransformer` (/repo/preprocessing/data.go:24-27).
`fit` is `Fit`, which changes the struct; `tclone`, `pclone` are `TransformerClone`, `PredicterClone`; `inverse` is `InverseTransform(nil, Y)`; `predict x y` is `Predict` with destination `y`; `zeros x k` is `mat.NewDense(rows of x, k, nil)`. -/
structure Kit (M E S : Type) where
  isT : E → Bool
  isP : E → Bool
  isI : E → Bool
  fit : E → M → M → Option E
  tclone : E → E
  pclone : E → E
  transform : E → M → M → Option (M × M)
  inverse : E → M → Option M
  predict : E → M → M → Option M
  score : E → M → M → Option S
  isClf : E → Bool
  nOut : E → ℕ
  zeros : M → ℕ → Option M
  cols : M → ℕ

/-- `Pipeline`, /repo/pipeline/pipeline.go:23-27; the first field is the address of the array of `NamedSteps`. -/
structure Obj where
  steps : ℕ
  nOut : ℕ

/-- `vars`: the step variables of the program; `slices`: its variables of type `[]NamedStep`; `pipes`: its pipelines. -/
structure St (E : Type) where
  heap : ℕ → Option E
  hfree : ℕ
  arrs : ℕ → Option (List (String × ℕ))
  afree : ℕ
  vars : ℕ → Option ℕ
  slices : ℕ → Option ℕ
  pipes : ℕ → Option Obj

variable {M E S : Type}

/-- `transformStep`, /repo/pipeline/pipeline.go:62-82. -/
def transformStep (I : Kit M E S) (e : E) (x y : M) : Option (M × M) :=
  if I.isT e then I.transform e x y
  else if I.isP e then
    if I.nOut e = 0 then none
    else (I.zeros x (I.nOut e)).bind (fun z => (I.predict e x z).map (fun p => (x, p)))
  else none

/-- The loop of `Fit`, /repo/pipeline/pipeline.go:90-95, over the pointers of the steps.  (A fit does not change `NamedSteps`.) -/
def fitLoop (I : Kit M E S) : List ℕ → M → M → (ℕ → Option E) → Option (ℕ → Option E)
  | [], _, _, h => some h
  | [a], x, y, h => (h a).bind (fun e => (I.fit e x y).map (fun e' => Function.update h a (some e')))
  | a :: b :: as, x, y, h => (h a).bind (fun e => (I.fit e x y).bind (fun e' => (transformStep I e' x y).bind (fun t => fitLoop I (b :: as) t.1 t.2 (Function.update h a (some e')))))

/-- The steps of a pipeline. -/
def stepsOf (st : St E) (o : Obj) : Option (List (String × E)) :=
  (st.arrs o.steps).bind (fun l => l.mapM (fun p => (st.heap p.2).map (fun e => (p.1, e))))

/-- `Pipeline.Fit`, /repo/pipeline/pipeline.go:85-97. -/
def fit (I : Kit M E S) (st : St E) (i : ℕ) (x y : M) : Option (St E) :=
  (st.pipes i).bind (fun o => (st.arrs o.steps).bind (fun l =>
    (fitLoop I (l.map Prod.snd) x y st.heap).map (fun h => { st with heap := h, pipes := Function.update st.pipes i (some { o with nOut := I.cols y }) })))

/-- One step of a clone, /repo/pipeline/pipeline.go:40-46. -/
def cloneStep (I : Kit M E S) (e : E) : Option E := if I.isT e then some (I.tclone e) else if I.isP e then some (I.pclone e) else none

/-- New structs for the clones, in the order of the steps. -/
def cloneLoop (I : Kit M E S) : List (String × ℕ) → (ℕ → Option E) → ℕ → Option (List (String × ℕ) × (ℕ → Option E) × ℕ)
  | [], h, f => some ([], h, f)
  | (n, a) :: l, h, f => (h a).bind (fun e => (cloneStep I e).bind (fun c => (cloneLoop I l (Function.update h f (some c)) (f + 1)).map (fun r => ((n, f) :: r.1, r.2))))

/-- `Pipeline.PredicterClone`, /repo/pipeline/pipeline.go:36-49. -/
def clone (I : Kit M E S) (st : St E) (i j : ℕ) : Option (St E) :=
  (st.pipes i).bind (fun o => (st.arrs o.steps).bind (fun l => (cloneLoop I l st.heap st.hfree).map (fun r =>
    { st with heap := r.2.1, hfree := r.2.2, arrs := Function.update st.arrs st.afree (some r.1), afree := st.afree + 1, pipes := Function.update st.pipes j (some { o with steps := st.afree }) })))

/-- `Pipeline.IsClassifier`, /repo/pipeline/pipeline.go:52-60. -/
def isClassifier (I : Kit M E S) (steps : List (String × E)) : Bool :=
  match steps.getLast? with
  | some (_, e) => if I.isP e then I.isClf e else false
  | none => false

/-- `Pipeline.GetNOutputs`, /repo/pipeline/pipeline.go:115-120: the type assertion panics if the last step is not a predicter. -/
def getNOutputs (I : Kit M E S) (steps : List (String × E)) : Option ℕ :=
  match steps.getLast? with
  | some (_, e) => if I.isP e then some (I.nOut e) else none
  | none => some 0

/-- `Pipeline.Predict`, /repo/pipeline/pipeline.go:123-134 (the copy into the destination, l.133, is left out: result of the last line). -/
def predict (I : Kit M E S) (steps : List (String × E)) (x y : M) : Option M :=
  (steps.foldlM (fun (xy : M × M) p => transformStep I p.2 xy.1 xy.2) (x, y)).bind (fun xy =>
    steps.dropLast.reverse.foldlM (fun y p => if I.isI p.2 then I.inverse p.2 y else none) xy.2)

/-- `Pipeline.Transform`, /repo/pipeline/pipeline.go:137-143. -/
def transform (I : Kit M E S) (steps : List (String × E)) (nOut : ℕ) (x : M) : Option (M × M) :=
  (I.zeros x nOut).bind (fun z => (predict I steps x z).map (fun y => (x, y)))

/-- `Pipeline.Score`, /repo/pipeline/pipeline.go:100-112. -/
def score (I : Kit M E S) (steps : List (String × E)) (x y : M) : Option S :=
  match steps.getLast? with
  | none => none
  | some (_, e) => (steps.dropLast.foldlM (fun (xy : M × M) p => transformStep I p.2 xy.1 xy.2) (x, y)).bind (fun xy => if I.isP e then I.score e xy.1 y else none)

/-- A program: `s := &Step{…}`; `a := []NamedStep{{n, s}, …}`; `a[k] = NamedStep{n, s}`; `i := NewPipeline(a...)` (/repo/pipeline/pipeline.go:30-33, keeps the slice); `i := MakePipeline(s, …)` (152-158, a new slice; the names come from the types and
are given here); `j := i.PredicterClone()`; `i.Fit(x, y)`; `s.Fit(x, y)`. -/
inductive Op (M E : Type) where
  | step (s : ℕ) (e : E)
  | slice (a : ℕ) (l : List (String × ℕ))
  | setElem (a k : ℕ) (n : String) (s : ℕ)
  | newPipe (i a : ℕ)
  | makePipe (i : ℕ) (l : List (String × ℕ))
  | clone (i j : ℕ)
  | fit (i : ℕ) (x y : M)
  | fitStep (s : ℕ) (x y : M)

/-- Names with the pointers held by step variables. -/
def resolve (vars : ℕ → Option ℕ) (l : List (String × ℕ)) : Option (List (String × ℕ)) := l.mapM (fun p => (vars p.2).map (fun a => (p.1, a)))

def step (I : Kit M E S) (st : St E) : Op M E → Option (St E)
  | .step s e => some { st with heap := Function.update st.heap st.hfree (some e), hfree := st.hfree + 1, vars := Function.update st.vars s (some st.hfree) }
  | .slice a l => (resolve st.vars l).map (fun l' => { st with arrs := Function.update st.arrs st.afree (some l'), afree := st.afree + 1, slices := Function.update st.slices a (some st.afree) })
  | .setElem a k n s => (st.slices a).bind (fun b => (st.arrs b).bind (fun l => (st.vars s).bind (fun p =>
      if k < l.length then some { st with arrs := Function.update st.arrs b (some (l.set k (n, p))) } else none)))
  | .newPipe i a => (st.slices a).map (fun b => { st with pipes := Function.update st.pipes i (some ⟨b, 0⟩) })
  | .makePipe i l => (resolve st.vars l).map (fun l' => { st with arrs := Function.update st.arrs st.afree (some l'), afree := st.afree + 1, pipes := Function.update st.pipes i (some ⟨st.afree, 0⟩) })
  | .clone i j => clone I st i j
  | .fit i x y => fit I st i x y
  | .fitStep s x y => (st.vars s).bind (fun a => (st.heap a).bind (fun e => (I.fit e x y).map (fun e' => { st with heap := Function.update st.heap a (some e') })))

def init : St E := ⟨fun _ => none, 0, fun _ => none, 0, fun _ => none, fun _ => none, fun _ => none⟩

def run (I : Kit M E S) (ops : List (Op M E)) : Option (St E) := ops.foldlM (step I) init

end Sk.PipeObj
