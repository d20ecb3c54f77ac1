import Mathlib.Algebra.Field.Basic
import Mathlib.Order.Defs.LinearOrder
import Mathlib.Logic.Function.Basic

/-!
# Model of `model_selection/search.go`
-/
set_option autoImplicit false

namespace Sk.Search

/-- A Go map `map[string]interface{}`: absent keys are `none`. -/
abbrev Params (Key V : Type) := Key → Option V

variable {Key V : Type} [DecidableEq Key]

/-- `makeArr`, model_selection/search.go:16-36. -/
def makeArr (name : Key) (values : List V) (prev : List (Params Key V)) : List (Params Key V) :=
  if prev.isEmpty then
    values.map (fun v => Function.update (fun _ => none) name (some v))             -- l.18-21
  else
    prev.flatMap (fun m => values.map (fun v => Function.update m name (some v)))    -- l.23-32

/-- `ParameterGrid`, model_selection/search.go:15-41. The list holds the entries of the map in the order in which
`range` visits them (l.37), which the Go runtime chooses. -/
def parameterGrid (entries : List (Key × List V)) : List (Params Key V) :=
  entries.foldl (fun out e => makeArr e.1 e.2 out) []

/-! ## GridSearchCV.Fit -/

/-- A `float64` score; only the order matters here. `none` is NaN: every comparison with it is false. -/
abbrev Score (K : Type) := Option K

/-- `score < refscore` on floats. -/
def fltLt {K : Type} [LinearOrder K] : Score K → Score K → Bool
  | some a, some b => decide (a < b)
  | _, _ => false

/-- `isBetter`, model_selection/search.go:90-95. -/
def isBetter {K : Type} [LinearOrder K] (lowerIsBetter : Bool) (score ref : Score K) : Bool :=
  if lowerIsBetter then fltLt score ref else fltLt ref score

/-- `bestIdx`, model_selection/search.go:96-104; also the scan l.155-162. `best` is the current best index (−1 = `none`)
with its score; `i` is the index of the head of the list. -/
def bestScan {K : Type} [LinearOrder K] (low : Bool) : List (Score K) → ℕ → Option (ℕ × Score K) → Option (ℕ × Score K)
  | [], _, best => best
  | s :: ss, i, best =>
    match best with
    | none => bestScan low ss (i + 1) (some (i, s))
    | some (j, r) => if isBetter low s r then bestScan low ss (i + 1) (some (i, s))
                     else bestScan low ss (i + 1) (some (j, r))

/-- `bestIdx(scores)`; `none` is −1. -/
def bestIdx {K : Type} [LinearOrder K] (low : Bool) (scores : List (Score K)) : Option ℕ :=
  (bestScan low scores 0 none).map Prod.fst

/-- One candidate as seen by `dowork` (l.130-135): its parameters, and what `CrossValidate` returned for it. -/
structure Candidate (P E K : Type) where
  params : P
  foldScores : List (Score K)
  foldEsts : List E

/-- `floats.Sum(s)/float64(len(s))`, l.132. NaN is absorbing; `0/0` is NaN. -/
def mean {K : Type} [Field K] (s : List (Score K)) : Score K :=
  if s.isEmpty then none else (s.mapM id).map (fun l => l.sum / (l.length : K))

/-- `dowork`, l.130-135: mean score and the estimator of the best fold; indexing with −1 (no folds) panics. -/
def dowork {P E K : Type} [Field K] [LinearOrder K] (low : Bool) (c : Candidate P E K) : Option (Score K × E) := do
  let b ← bestIdx low c.foldScores
  let e ← c.foldEsts[b]?
  return (mean c.foldScores, e)

/-- What `Fit` leaves in the receiver: `BestIndex`, `BestEstimator`, `BestParams`, `BestScore`. -/
structure Best (P E K : Type) where
  index : ℕ
  estimator : E
  params : P
  score : Score K

/-- The final scan of `Fit`, model_selection/search.go:155-162, over (params, (score, estimator)). The comparison uses
`CVResults["score"][BestIndex]`, which l.152 has set to the same score (it is written after the parameters of l.149-151,
so a parameter called "score" does not matter). -/
def fitScan {P E K : Type} [LinearOrder K] (low : Bool) :
    List (P × Score K × E) → ℕ → Option (Best P E K) → Option (Best P E K)
  | [], _, best => best
  | (p, s, e) :: rest, i, best =>
    match best with
    | none => fitScan low rest (i + 1) (some ⟨i, e, p, s⟩)
    | some b => if isBetter low s b.score then fitScan low rest (i + 1) (some ⟨i, e, p, s⟩)
                else fitScan low rest (i + 1) (some b)

/-- `GridSearchCV.Fit`, model_selection/search.go:87-166, given the cross-validation outcome of every candidate
(the parallel loop l.146-154 writes index-disjoint slots, see C02). Outer `none`: panic. Inner `none`: no candidate,
`BestIndex` stays −1. -/
def gridFit {P E K : Type} [Field K] [LinearOrder K] (low : Bool) (cands : List (Candidate P E K)) :
    Option (Option (Best P E K)) := do
  let outs ← cands.mapM (dowork low)
  return fitScan low ((cands.map Candidate.params).zip outs) 0 none

end Sk.Search
