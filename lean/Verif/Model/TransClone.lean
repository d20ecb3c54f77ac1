import Verif.Model.Scale
import Mathlib.Logic.Function.Basic

/-!
# `TransformerClone` of the scalers (`preprocessing/data.go`): a clone shares the parameter matrices of the original

Objects have fields of their own (`V`: counters, and matrices that each fit replaces) and a pointer to the parameter matrices that a fit writes in place (`H`, one heap cell).
`var clone = *scaler` copies the fields and the pointer.  Columns are independent in this code: one column is modelled, with `Center` and `Scale` of the `RobustScaler` on.
`none` is a panic.
-/
set_option autoImplicit false

namespace Sk.TransClone
open Sk.Scale

/-- What distinguishes the scalers: the fields of a new object and of a new cell, what `Fit` does to the fields before it calls `PartialFit`, when `PartialFit` allocates a new cell although there is one,
the data on which it returns at once, and its arithmetic. -/
structure Impl (D V H : Type) where
  v0 : V
  h0 : H
  reset : V → V
  fresh : V → Bool
  skip : D → Bool
  upd : V → H → D → Option (V × H)

structure Obj (V : Type) where
  priv : V
  ptr : Option ℕ

/-- The objects by the name of a variable, the heap and the first free address. -/
structure St (V H : Type) where
  objs : ℕ → Option (Obj V)
  heap : ℕ → H
  free : ℕ

/-- A program: `i := NewScaler()`, `j := i.TransformerClone()`, `i.Fit(d)`, `i.PartialFit(d)`. -/
inductive Op (D : Type) where
  | create (i : ℕ)
  | clone (i j : ℕ)
  | fit (i : ℕ) (d : D)
  | partialFit (i : ℕ) (d : D)

variable {D V H : Type}

/-- `PartialFit` of the object `i` whose fields are `o`: the allocation when the pointer is nil or `fresh` (/repo/preprocessing/data.go:66-75, 168-173, 365-373, 931-932), then the update in place. -/
def partialFit (I : Impl D V H) (st : St V H) (i : ℕ) (o : Obj V) (d : D) : Option (St V H) :=
  if I.skip d then some { st with objs := Function.update st.objs i (some o) }
  else
    let a := match o.ptr with
      | some p => if I.fresh o.priv then st.free else p
      | none => st.free
    let h := if a = st.free then I.h0 else st.heap a
    let free := if a = st.free then st.free + 1 else st.free
    (I.upd o.priv h d).map (fun r => ⟨Function.update st.objs i (some ⟨r.1, some a⟩), Function.update st.heap a r.2, free⟩)

/-- One statement.  `TransformerClone` is /repo/preprocessing/data.go:42-45, 144-147, 330-333, 922-925. A nil object panics. -/
def step (I : Impl D V H) (st : St V H) : Op D → Option (St V H)
  | .create i => some { st with objs := Function.update st.objs i (some ⟨I.v0, none⟩) }
  | .clone i j => (st.objs i).map (fun o => { st with objs := Function.update st.objs j (some o) })
  | .fit i d => (st.objs i).bind (fun o => partialFit I st i { o with priv := I.reset o.priv } d)
  | .partialFit i d => (st.objs i).bind (fun o => partialFit I st i o d)

def init (I : Impl D V H) : St V H := ⟨fun _ => none, fun _ => I.h0, 0⟩

def run (I : Impl D V H) (ops : List (Op D)) : Option (St V H) := ops.foldlM (step I) (init I)

/-- What an object shows: its fields and the matrices it points to. -/
def view (st : St V H) (i : ℕ) : Option (V × Option H) := (st.objs i).map (fun o => (o.priv, o.ptr.map st.heap))

/-! ## The scalers -/

variable {K : Type} [Field K] [LinearOrder K]

/-- `MinMaxScaler`, /repo/preprocessing/data.go:42-100: own `NSamplesSeen`; shared `DataMin`, `DataMax`, `Scale`, `Min`. -/
def minMax (lo hi : K) : Impl (List K) ℕ (K × K × K × K) where
  v0 := 0
  h0 := (0, 0, 0, 0)
  reset _ := 0
  fresh n := n == 0
  skip xs := xs.isEmpty
  upd n h xs :=
    let s := MinMax.partialFit lo hi ⟨n, h.1, h.2.1, h.2.2.1, h.2.2.2⟩ xs
    some (s.seen, s.dmin, s.dmax, s.scale, s.shift)

/-- `StandardScaler` on one column, /repo/preprocessing/data.go:144-183: own `NSamplesSeen`, `Mean`, `Var` (`IncrementalMeanAndVar` returns new matrices); shared `Scale`. -/
def std (sqrt : K → K) : Impl (List K) (ℕ × K × K) K where
  v0 := (0, 0, 0)
  h0 := 0
  reset v := (0, v.2)
  fresh v := v.1 == 0
  skip xs := xs.isEmpty
  upd v _ xs :=
    let mv := incCol xs (if v.1 = 0 then 0 else v.2.1) (if v.1 = 0 then 0 else v.2.2) v.1
    some ((v.1 + xs.length, mv), stdScale sqrt mv.2)

/-- `RobustScaler`, /repo/preprocessing/data.go:330-399: everything is shared and allocated only when nil, by `Fit` as well (`Reset` does nothing). -/
def robust (half left right : K) : Impl (List K) Unit (Robust K) where
  v0 := ()
  h0 := ⟨none, 0, 0⟩
  reset v := v
  fresh _ := false
  skip xs := xs.isEmpty
  upd _ h xs := (Robust.fit half left right h xs).map (fun r => ((), r))

/-- `MaxAbsScaler`, /repo/preprocessing/data.go:922-958: own `NSamplesSeen`; shared `MaxAbs`, `Scale`, made by each `Fit` (the flag says that `Fit` has just made them). -/
def maxAbs : Impl (List K) (ℕ × Bool) (Option K × K) where
  v0 := (0, false)
  h0 := (none, 0)
  reset v := (v.1, true)
  fresh v := v.2
  skip _ := false
  upd v h xs := (MaxAbs.partialFit ⟨if v.2 then some 0 else h.1, h.2, v.1⟩ xs).map (fun s => ((s.seen, false), s.maxAbs, s.scale))

end Sk.TransClone
