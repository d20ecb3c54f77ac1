import Verif.Model.Dbscan
import Verif.Model.KMeans
import Verif.Model.TransClone2
import Mathlib.Logic.Function.Basic

/-!
# Clones of estimators that append to a slice: `DBSCAN` and the multilayer perceptrons

`clone := *m` copies the fields of the struct: numbers are copied, but slices, pointers and random sources are shared.  This file models the Go `append` (which writes into the spare capacity of a shared array),
parameters that are trained in place and random sources, and programs that create, clone, configure and fit estimators one after the other.  `none` is a panic.
-/
set_option autoImplicit false

namespace Sk.LogClone

/-! ## Slices -/

/-- The arrays behind slices: contents by address (the length of the list is the capacity) and the first free address.  Address 0 is the empty array of nil slices. -/
structure Arrays (E : Type) where
  arr : ℕ → List E
  free : ℕ

structure Slice where
  addr : ℕ
  len : ℕ
deriving DecidableEq

/-- The nil slice of a new object. -/
def Slice.nil : Slice := ⟨0, 0⟩

variable {D V P R E : Type}

/-- The elements of a slice. -/
def read (h : Arrays E) (s : Slice) : List E := (h.arr s.addr).take s.len

/-- `append(s, x)` of Go: in place if there is spare capacity, otherwise into a new array with `grow len` further elements, which hold `zero`. -/
def append (grow : ℕ → ℕ) (zero : E) (h : Arrays E) (s : Slice) (x : E) : Arrays E × Slice :=
  if s.len < (h.arr s.addr).length then
    (⟨Function.update h.arr s.addr ((h.arr s.addr).set s.len x), h.free⟩, ⟨s.addr, s.len + 1⟩)
  else
    (⟨Function.update h.arr h.free (read h s ++ x :: List.replicate (grow s.len) zero), h.free + 1⟩, ⟨h.free, s.len + 1⟩)

/-- Appending one element after the other: the loops of /repo/cluster/dbscan.go:115-120 and /repo/neural_network/basemlp64.go:783-813. -/
def appendAll (grow : ℕ → ℕ) (zero : E) (h : Arrays E) (s : Slice) (xs : List E) : Arrays E × Slice :=
  xs.foldl (fun hs x => append grow zero hs.1 hs.2 x) (h, s)

/-! ## Estimators -/

/-- What distinguishes the estimators.  `fit` sees the fields `V`, the data, the parameters and the random source; it gives new fields and parameters, the elements appended to the slice, and the source afterwards.
`warm`: the fit continues with the parameters that are there and writes them in place; otherwise `fresh` makes new ones.  `cloneSource`: `PredicterClone` makes a clone of the source, if the source can be cloned; `newClonable`: the source that `Fit` makes
if there is none can be cloned. -/
structure Impl (D V P R E : Type) where
  v0 : V
  zero : E
  warm : V → Bool
  fresh : V → D → R → Option (P × R)
  train : V → D → P → R → Option (V × P × List E × R)
  cloneSource : Bool
  newClonable : Bool

/-- An estimator: own fields, the address of the parameters (nil before the first fit), the slice, and the address of the random source (nil at first) with a flag saying whether it implements `SourceCloner`. -/
structure Obj (V : Type) where
  priv : V
  ptr : Option ℕ
  log : Slice
  src : Option (ℕ × Bool)

structure St (V P R E : Type) where
  objs : ℕ → Option (Obj V)
  params : ℕ → Option P
  pfree : ℕ
  arrays : Arrays E
  sources : ℕ → Option R
  sfree : ℕ

/-- A program: `i := New…()`, `j := i.PredicterClone()`, an assignment to the fields of `i`, `i.RandomState = …` (a new source, clonable or not), and `i.Fit(d)`, where `seed` is the source made from the clock if `i` has none. -/
inductive Op (D V R : Type) where
  | create (i : ℕ)
  | clone (i j : ℕ)
  | set (i : ℕ) (f : V → V)
  | source (i : ℕ) (r : R) (clonable : Bool)
  | fit (i : ℕ) (d : D) (seed : R)

/-- `PredicterClone`: /repo/cluster/dbscan.go:65-68, /repo/neural_network/multilayer_perceptron.go:34-43, 93-96. -/
def clone (I : Impl D V P R E) (st : St V P R E) (i j : ℕ) : Option (St V P R E) :=
  (st.objs i).bind (fun o =>
    match o.src with
    | some (a, true) =>
      if I.cloneSource then
        (st.sources a).map (fun r => { st with objs := Function.update st.objs j (some { o with src := some (st.sfree, true) }), sources := Function.update st.sources st.sfree (some r), sfree := st.sfree + 1 })
      else some { st with objs := Function.update st.objs j (some o) }
    | _ => some { st with objs := Function.update st.objs j (some o) })

/-- `Fit`: /repo/cluster/dbscan.go:82-124; /repo/neural_network/basemlp64.go:485-571 with 409-483 (`initialize`) and 730-857.  Without a source the object gets a new one
(l.499-501). -/
def fit (I : Impl D V P R E) (grow : ℕ → ℕ) (st : St V P R E) (i : ℕ) (d : D) (seed : R) : Option (St V P R E) :=
  (st.objs i).bind (fun o =>
    let sa := o.src.getD (st.sfree, I.newClonable)
    (if o.src.isNone then some seed else st.sources sa.1).bind (fun r =>
      (if I.warm o.priv then o.ptr else some st.pfree).bind (fun a =>
        (if I.warm o.priv then (st.params a).map (fun p => (p, r)) else I.fresh o.priv d r).bind (fun pr =>
          (I.train o.priv d pr.1 pr.2).map (fun t =>
            let al := appendAll grow I.zero st.arrays o.log t.2.2.1
            { objs := Function.update st.objs i (some ⟨t.1, some a, al.2, some sa⟩),
              params := Function.update st.params a (some t.2.1), pfree := if I.warm o.priv then st.pfree else st.pfree + 1,
              arrays := al.1,
              sources := Function.update st.sources sa.1 (some t.2.2.2), sfree := if o.src.isNone then st.sfree + 1 else st.sfree })))))

def step (I : Impl D V P R E) (grow : ℕ → ℕ) (st : St V P R E) : Op D V R → Option (St V P R E)
  | .create i => some { st with objs := Function.update st.objs i (some ⟨I.v0, none, Slice.nil, none⟩) }
  | .clone i j => clone I st i j
  | .set i f => (st.objs i).map (fun o => { st with objs := Function.update st.objs i (some { o with priv := f o.priv }) })
  | .source i r c => (st.objs i).map (fun o => { st with objs := Function.update st.objs i (some { o with src := some (st.sfree, c) }), sources := Function.update st.sources st.sfree (some r), sfree := st.sfree + 1 })
  | .fit i d seed => fit I grow st i d seed

def init : St V P R E := ⟨fun _ => none, fun _ => none, 0, ⟨fun _ => [], 1⟩, fun _ => none, 0⟩

def run (I : Impl D V P R E) (grow : ℕ → ℕ) (ops : List (Op D V R)) : Option (St V P R E) := ops.foldlM (step I grow) init

/-- What an estimator shows: its fields, its parameters, the elements of its slice, and the state of its source. -/
structure View (V P R E : Type) where
  priv : V
  params : Option P
  log : List E
  src : Option (R × Bool)

def view (st : St V P R E) (i : ℕ) : Option (View V P R E) :=
  (st.objs i).map (fun o => ⟨o.priv, o.ptr.bind st.params, read st.arrays o.log, o.src.bind (fun s => (st.sources s.1).map (fun r => (r, s.2)))⟩)

/-! ## The estimators -/

/-- A multilayer perceptron, /repo/neural_network/multilayer_perceptron.go:34-50, 93-106: the slice is `LossCurve` (`ValidationScores` is treated in the same way by the code and left out); the first field is `WarmStart`
(/repo/neural_network/basemlp64.go:502), the others (counters, best loss, label binarizer, which are replaced by `Fit` or are numbers) are in `W`.  `initialize` and the training loop are parameters: what they compute is modelled in
`Verif.Model.Mlp`, `Verif.Model.MlpFit` and `Verif.Model.MlpOpt`.  `regressor` chooses between the two methods `PredicterClone`.
The source made by `Fit` is a `*rand.Rand`, which has no method `SourceClone`. -/
def mlp {W : Type} (regressor : Bool) (w0 : W) (zero : E) (fresh : W → D → R → Option (P × R)) (train : W → D → P → R → Option (W × P × List E × R)) : Impl D (Bool × W) P R E where
  v0 := (false, w0)
  zero := zero
  warm v := v.1
  fresh v := fresh v.2
  train v d p r := (train v.2 d p r).map (fun t => ((v.1, t.1), t.2))
  cloneSource := regressor
  newClonable := false

variable {K X Dist : Type} [Field K] [LinearOrder K] [IsStrictOrderedRing K] [LinearOrder Dist]

/-- `DBSCAN`, /repo/cluster/dbscan.go:24-146: own settings (`Eps`, `MinSamples`, `SampleWeight`) and `Labels`, which `Fit` makes anew (l.110); the slice is `CoreSampleIndices` (l.119).  There are no parameters and no
source: both are `Unit`, all of whose copies are equal. -/
def dbscan (sort : List (Dist × ℕ) → List (Dist × ℕ)) (dist : X → X → Dist) (eps : Dist) (minSamples : K) : Impl (List X) ((Dist × K × Option (List K)) × List ℤ) Unit Unit ℕ where
  v0 := ((eps, minSamples, none), [])
  zero := 0
  warm _ := false
  fresh _ _ _ := some ((), ())
  train v xs _ _ := (Dbscan.fit sort dist v.1.1 v.1.2.1 v.1.2.2 xs ⟨[], []⟩).map (fun r => ((v.1, r.labels), (), r.core, ()))
  cloneSource := true
  newClonable := true

/-- `KMeans`, /repo/cluster/kmeans.go:25-28, 49-102: `Fit` makes new `Centroids` (l.61).  The data come with the order in which the samples are added under the lock, and a bound on the number of rounds. -/
def kmeans (dist : List K → List K → Dist) (k m : ℕ) : TransClone.Impl (List (List K) × (ℕ → List ℕ) × ℕ) Unit (List (List K)) :=
  TransClone.alloc () [] (fun _ d => (KMeans.fit dist k m d.1 d.2.1 d.2.2).map (fun c => ((), c)))

end Sk.LogClone
