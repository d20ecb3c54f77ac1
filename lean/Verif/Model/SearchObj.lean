import Verif.Model.Search
import Verif.Model.Split

/-!
# `GridSearchCV` and `KFold` as objects: random sources, clones and repeated fits

Candidates, means and the choice of the best are those of `Verif.Model.Search`, the splits those of `Verif.Model.Split`.  Estimators are values: cloning one gives an equal value (what clones share is treated in the
models of clones).  A source is an address with a flag that says whether it implements `SourceCloner`; address 0 is the global source of `golang.org/x/exp/rand`.  `none` is a panic.
The candidates are run in their order (`NJobs = 1`); with sources that can be cloned the candidates use nothing in common, so that the order does not matter.
-/
set_option autoImplicit false

namespace Sk.SearchObj
open Sk.Search Sk.Split

/-- What is outside: one use of a source by `Split` for `N` samples (`Shuffle` or `Intn`, /repo/model_selection/split.go:89, 91), the state of `NewSource(0)`, the number of rows of the data, the setting of the parameters
of one combination (`setParam`, modelled in `Verif.Model.Params`), and `CrossValidate` for an estimator, data, announced number of splits and splits (modelled in `Verif.Model.CrossVal`): scores and fitted estimators by split. -/
structure Kit (D E P R K : Type) where
  next : Bool → ℕ → R → Draw × R
  seed0 : R
  rows : D → ℕ
  setParams : E → P → Option E
  cross : E → D → ℤ → List Fold → Option (List (Score K) × List E)

/-- `KFold`, /repo/model_selection/split.go:15-19. -/
structure CV where
  nSplits : ℤ
  shuffle : Bool
  src : Option (ℕ × Bool)

/-- `GridSearchCV`, /repo/model_selection/search.go:47-64 (`Verbose`, `NJobs`, `UseChannels` and the number of outputs left out; `Scorer` is in `Kit.cross`).  `grid` is what `ParameterGrid` makes of `ParamGrid`.  `index` is `BestIndex`, `none` for -1;
`best` holds `BestEstimator`, `BestParams`, `BestScore`; `results` is the column "score" of `CVResults`. -/
structure Obj (E P K : Type) where
  est : E
  grid : List P
  low : Bool
  cv : Option CV
  rs : Option (ℕ × Bool)
  results : List (Score K)
  index : Option ℕ
  best : Option (Best P E K)

structure St (E P R K : Type) where
  objs : ℕ → Option (Obj E P K)
  sources : ℕ → Option R
  sfree : ℕ

variable {D E P R K : Type} [Field K] [LinearOrder K]

/-- State of the source before the `k`-th split of one call of `Split`. -/
def stateAt (I : Kit D E P R K) (shuffle : Bool) (N : ℕ) (r : R) : ℕ → R
  | 0 => r
  | k + 1 => (I.next shuffle N (stateAt I shuffle N r k)).2

/-- The splits received from `KFold.Split`, /repo/model_selection/split.go:48-106, with a source in state `r`, and the state afterwards. -/
def splits (I : Kit D E P R K) (cv : CV) (N : ℕ) (r : R) : Option (List Fold × R) :=
  (kfold cv.nSplits N cv.shuffle (fun i => (I.next cv.shuffle N (stateAt I cv.shuffle N r i)).1)).map
    (fun fs => (fs, stateAt I cv.shuffle N r (if cv.nSplits ≤ 0 then 3 else cv.nSplits.toNat)))

/-- One candidate, /repo/model_selection/search.go:130-145: a clone of the estimator gets the parameters, a clone of the splitter (`SplitterClone`, /repo/model_selection/split.go:36-45) splits.  A source that can be cloned is left as it is;
one that cannot, or the global one if there is none, is used itself.  Result: mean score and estimator of the best fold. -/
def candidate (I : Kit D E P R K) (low : Bool) (est : E) (cv : CV) (d : D) (sources : ℕ → Option R) (p : P) : Option ((P × Score K × E) × (ℕ → Option R)) :=
  let a := cv.src.getD (0, false)
  (I.setParams est p).bind (fun e =>
    (sources a.1).bind (fun r =>
      (splits I cv (I.rows d) r).bind (fun fr =>
        (I.cross e d cv.nSplits fr.1).bind (fun c =>
          (dowork low ⟨p, c.1, c.2⟩).map (fun w =>
            ((p, w.1, w.2), if a.2 then sources else Function.update sources a.1 (some fr.2)))))))

/-- All candidates in order. -/
def candidates (I : Kit D E P R K) (low : Bool) (est : E) (cv : CV) (d : D) : List P → (ℕ → Option R) → Option (List (P × Score K × E) × (ℕ → Option R))
  | [], s => some ([], s)
  | p :: ps, s => (candidate I low est cv d s p).bind (fun c => (candidates I low est cv d ps c.2).map (fun cs => (c.1 :: cs.1, cs.2)))

/-- `GridSearchCV.Fit`, /repo/model_selection/search.go:87-166.  A missing `RandomState` and a missing `CV` are stored in the receiver (l.111-116).  `BestEstimator`, `BestParams` and `BestScore` are written only when a candidate is taken (l.155-162). -/
def fit (I : Kit D E P R K) (st : St E P R K) (i : ℕ) (d : D) : Option (St E P R K) :=
  (st.objs i).bind (fun o =>
    let rs := o.rs.getD (st.sfree, true)
    let sources := if o.rs.isNone then Function.update st.sources st.sfree (some I.seed0) else st.sources
    let cv := o.cv.getD ⟨3, true, some rs⟩
    (candidates I o.low o.est cv d o.grid sources).map (fun cs =>
      let b := fitScan o.low cs.1 0 none
      { objs := Function.update st.objs i (some { o with rs := some rs, cv := some cv, results := cs.1.map (fun c => c.2.1), index := b.map Best.index, best := b.or o.best }),
        sources := cs.2, sfree := if o.rs.isNone then st.sfree + 1 else st.sfree }))

/-- `PredicterClone`, /repo/model_selection/search.go:67-76: a copy of the struct, with a clone of `RandomState` if that can be cloned; `CV` and its source are shared. -/
def clone (st : St E P R K) (i j : ℕ) : Option (St E P R K) :=
  (st.objs i).bind (fun o =>
    match o.rs with
    | some (a, true) => (st.sources a).map (fun r =>
        { objs := Function.update st.objs j (some { o with rs := some (st.sfree, true) }), sources := Function.update st.sources st.sfree (some r), sfree := st.sfree + 1 })
    | _ => some { st with objs := Function.update st.objs j (some o) })

/-- `Predict`, /repo/model_selection/search.go:179-181, and `Score`, 169-171: the estimator that answers; without one a nil pointer panics. -/
def answering (st : St E P R K) (i : ℕ) : Option E := (st.objs i).bind (fun o => o.best.map Best.estimator)

/-- A program: `i := &GridSearchCV{Estimator, ParamGrid, LowerScoreIsBetter, CV: &KFold{…}, RandomState}`, where sources are new (clonable or not) or nil; `j := i.PredicterClone()`; `i.ParamGrid = …`; `i.Fit(d)`. -/
inductive Op (D E P R : Type) where
  | create (i : ℕ) (est : E) (grid : List P) (low : Bool) (cv : Option (ℤ × Bool × Option (R × Bool))) (rs : Option (R × Bool))
  | clone (i j : ℕ)
  | setGrid (i : ℕ) (grid : List P)
  | fit (i : ℕ) (d : D)

/-- A new source, if one is given. -/
def newSource (sources : ℕ → Option R) (sfree : ℕ) (s : Option (R × Bool)) : Option (ℕ × Bool) × (ℕ → Option R) × ℕ :=
  match s with
  | none => (none, sources, sfree)
  | some (r, c) => (some (sfree, c), Function.update sources sfree (some r), sfree + 1)

def step (I : Kit D E P R K) (st : St E P R K) : Op D E P R → Option (St E P R K)
  | .create i est grid low cv rs =>
    let a := newSource st.sources st.sfree (cv.bind (fun c => c.2.2))
    let b := newSource a.2.1 a.2.2 rs
    some { objs := Function.update st.objs i (some ⟨est, grid, low, cv.map (fun c => ⟨c.1, c.2.1, a.1⟩), b.1, [], some 0, none⟩), sources := b.2.1, sfree := b.2.2 }
  | .clone i j => clone st i j
  | .setGrid i grid => (st.objs i).map (fun o => { st with objs := Function.update st.objs i (some { o with grid := grid }) })
  | .fit i d => fit I st i d

/-- Before the program: only the global source, in some state. -/
def init (global : R) : St E P R K := ⟨fun _ => none, Function.update (fun _ => none) 0 (some global), 1⟩

def run (I : Kit D E P R K) (global : R) (ops : List (Op D E P R)) : Option (St E P R K) := ops.foldlM (step I) (init global)

end Sk.SearchObj
