import Mathlib.Logic.Function.Basic
import Mathlib.Data.Nat.Notation

/-!
# Model of object identity in `linear_model/Base.go`: clones of a linear regression

`Fit` replaces the pointers `Coef`, `XOffset`, `XScale` by freshly allocated matrices (linear_model/Base.go:92-95), so these are
values here. `Intercept` is allocated only when nil and otherwise written in place (l.561-569), so it lives in a heap.
-/
set_option autoImplicit false

namespace Sk.LinClone

/-- A `*LinearRegression` object: `FitIntercept`, `Coef` (nil before the first fit), address of `Intercept` (nil before). -/
structure Obj (C : Type) where
  fitIntercept : Bool
  coef : Option C
  intercept : Option ℕ
deriving DecidableEq, Repr

/-- All objects and the heap of intercept matrices. -/
structure State (C B : Type) where
  objs : List (Obj C)
  heap : List B
deriving DecidableEq, Repr

/-- What the numerical part of `Fit` computes from the data (given `FitIntercept`): the coefficients (l.94-95, 565) and the
intercept `YOffset − XOffset·Coef` (l.567-568). `zero` is the content of a fresh matrix (l.562). -/
structure Solver (D C B : Type) where
  coef : Bool → D → C
  intercept : D → B
  zero : B

inductive Op (D : Type) where
  | create (fitIntercept : Bool)        -- NewLinearRegression, then setting FitIntercept
  | clone (i : ℕ)                       -- PredicterClone, linear_model/Base.go:83-86
  | setFitIntercept (i : ℕ) (b : Bool)  -- field assignment
  | fit (i : ℕ) (d : D)                 -- Fit, linear_model/Base.go:89-98

/-- One operation; operations on objects that do not exist do nothing. Simplification: the number of outputs does not change between
fits (gonum would panic at l.567 otherwise). -/
def step {D C B : Type} (sv : Solver D C B) (s : State C B) : Op D → State C B
  | .create b => { s with objs := s.objs ++ [⟨b, none, none⟩] }
  | .clone i => match s.objs[i]? with
    | none => s
    | some o => { s with objs := s.objs ++ [o] }           -- clone := *regr
  | .setFitIntercept i b => match s.objs[i]? with
    | none => s
    | some o => { s with objs := s.objs.set i { o with fitIntercept := b } }
  | .fit i d => match s.objs[i]? with
    | none => s
    | some o =>
      let (addr, heap) := match o.intercept with
        | none => (s.heap.length, s.heap ++ [sv.zero])     -- l.561-563
        | some a => (a, s.heap)
      let heap := if o.fitIntercept then heap.set addr (sv.intercept d) else heap   -- l.566-569
      { objs := s.objs.set i { o with coef := some (sv.coef o.fitIntercept d), intercept := some addr }, heap := heap }

/-- A history of operations. -/
def run {D C B : Type} (sv : Solver D C B) (ops : List (Op D)) (s : State C B) : State C B :=
  ops.foldl (step sv) s

def init {C B : Type} : State C B := ⟨[], []⟩

/-- What `Predict` of object `i` depends on: `X·Coef + Intercept` (linear_model/Base.go:573-581). `none`: not fitted (nil matrices). -/
def model {C B : Type} (s : State C B) (i : ℕ) : Option (C × B) := do
  let o ← s.objs[i]?
  let c ← o.coef
  let a ← o.intercept
  let b ← s.heap[a]?
  return (c, b)

end Sk.LinClone
