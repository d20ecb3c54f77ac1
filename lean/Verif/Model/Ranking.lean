import Verif.Model.Metrics

/-!
# `metrics/ranking.go`, `metrics/base.go`

A sample is a score, whether the label equals `posLabel`, and a weight.  `sort.Slice` is not stable: the sorting function is a parameter
(the theorems quantify over all functions that return a permutation of their input with scores in descending order).
-/
set_option autoImplicit false

namespace Sk.Rank

open Sk.Metrics

variable {K : Type} [Field K] [LinearOrder K] [IsStrictOrderedRing K]

/-- One row read by `binaryClfCurve`: score, `Ytrue.At(i, 0) == posLabel`, weight. -/
structure Obs (K : Type) where
  score : K
  pos : Bool
  w : K

/-- Rows as read by `binaryClfCurve`, /repo/metrics/ranking.go:41-44; `none`: too few scores or weights (panic). -/
def obs (posLabel : K) (w : Option (List K)) (scores : List K) : List K → ℕ → Option (List (Obs K))
  | [], _ => some []
  | y :: ys, i => do
    let s ← scores[i]?
    let wi ← weightAt w i
    let rest ← obs posLabel w scores ys (i + 1)
    return ⟨s, decide (y = posLabel), wi⟩ :: rest

/-- One step of the grouping loop, /repo/metrics/ranking.go:27-35: a new group for the first row and for a score strictly below the previous row's,
otherwise append to the last group. -/
def groupStep (gs : List (List (Obs K))) (x : Obs K) : List (List (Obs K)) :=
  match gs.getLast? with
  | none => [[x]]
  | some g =>
    match g.getLast? with
    | none => gs.dropLast ++ [g ++ [x]]
    | some y => if x.score < y.score then gs ++ [[x]] else gs.dropLast ++ [g ++ [x]]

/-- The groups of equal scores (`distinctValueIndices`), /repo/metrics/ranking.go:25-35. -/
def groups (sorted : List (Obs K)) : List (List (Obs K)) := sorted.foldl groupStep []

/-- Inner loop, /repo/metrics/ranking.go:40-51: accumulators `(fpw, tpw)`. -/
def addGroup (a : K × K) (g : List (Obs K)) : K × K :=
  g.foldl (fun a x => if x.pos then (a.1, a.2 + x.w) else (a.1 + x.w, a.2)) a

/-- A point of the curve: false positive weight, true positive weight, threshold. -/
structure Pt (K : Type) where
  fp : K
  tp : K
  thr : K
deriving DecidableEq

/-- Outer loop, /repo/metrics/ranking.go:37-55.  `distinctValueIndices[ii][0]` exists for every group; the impossible empty group is dropped. -/
def curveLoop : K × K → List (List (Obs K)) → List (Pt K)
  | _, [] => []
  | a, g :: gs =>
    let a' := addGroup a g
    match g with
    | [] => curveLoop a' gs
    | x :: _ => ⟨a'.1, a'.2, x.score⟩ :: curveLoop a' gs

/-- `binaryClfCurve`, /repo/metrics/ranking.go:13-57, on the rows; `sort` is the sort of l.23. -/
def clfCurve (sort : List (Obs K) → List (Obs K)) (rows : List (Obs K)) : List (Pt K) := curveLoop (0, 0) (groups (sort rows))

/-- The curve with the extra first point, /repo/metrics/ranking.go:74-79; `none`: no row (`thresholds[0]` panics). -/
def withStart (c : List (Pt K)) : Option (List (Pt K)) :=
  match c with
  | [] => none
  | p :: _ => if p.fp ≠ 0 then some (⟨0, 0, p.thr + 1⟩ :: c) else some c

/-- `ROCCurve`, /repo/metrics/ranking.go:71-103: `(fpr, tpr, thresholds)`; a `none` component: filled with NaN (no negative, no positive). -/
def rocCurve (sort : List (Obs K) → List (Obs K)) (rows : List (Obs K)) : Option (Option (List K) × Option (List K) × List K) := do
  let c ← withStart (clfCurve sort rows)
  let last ← c.getLast?
  let fpr := if last.fp ≤ 0 then none else some (c.map (fun p => 1 / last.fp * p.fp))
  let tpr := if last.tp ≤ 0 then none else some (c.map (fun p => 1 / last.tp * p.tp))
  return (fpr, tpr, c.map Pt.thr)

/-- `AUC`, /repo/metrics/ranking.go:106-118 (the sortedness test only prints). -/
def auc (fpr tpr : List K) : K :=
  ((fpr.zip tpr).foldl (fun (s : K × K × K) q => (s.1 + (q.1 - s.2.1) * (q.2 + s.2.2) / 2, q.1, q.2)) (0, 0, 0)).1

/-- `binaryROCAUCScore`, /repo/metrics/ranking.go:145-148.  Outer `none`: panic; inner `none`: NaN. -/
def rocAuc (sort : List (Obs K) → List (Obs K)) (rows : List (Obs K)) : Option (Option K) :=
  (rocCurve sort rows).map fun r =>
    match r.1, r.2.1 with
    | some fpr, some tpr => some (auc fpr tpr)
    | _, _ => none

/-- `PrecisionRecallCurve`, /repo/metrics/ranking.go:183-209: precision, recall, thresholds, in reversed order with the final (1, 0).  Division by zero is
`none` for the cell.  `none`: no row (panic).  `sort.SearchFloat64s(tps, tps[last])` is modelled by `searchFloat64s`. -/
def prCurve (sort : List (Obs K) → List (Obs K)) (rows : List (Obs K)) : Option (List (Option K) × List (Option K) × List K) := do
  let c := clfCurve sort rows
  let last ← c.getLast?
  let precision := c.map (fun p => fdiv p.tp (p.tp + p.fp))
  let recall := c.map (fun p => fdiv p.tp last.tp)
  let lastInd := Sk.GoSort.searchFloat64s (c.map Pt.tp) last.tp
  return ((precision.take (lastInd + 1)).reverse ++ [some 1], (recall.take (lastInd + 1)).reverse ++ [some 0],
    ((c.map Pt.thr).take (lastInd + 1)).reverse)

/-- `binaryUninterpolatedAveragePrecision`, /repo/metrics/ranking.go:213-220; inner `none`: NaN. -/
def avgPrecision (sort : List (Obs K) → List (Obs K)) (rows : List (Obs K)) : Option (Option K) :=
  (prCurve sort rows).map fun r => do
    let p ← r.1.mapM id
    let q ← r.2.1.mapM id
    return (List.zipWith (· * ·) (List.zipWith (· - ·) q q.tail) p).sum

/-! ## `averageBinaryScore` -/

/-- Result of `typeOfTarget`. -/
inductive Target where
  | binary | multilabel | unknown
deriving DecidableEq

/-- One column of `typeOfTarget`, /repo/metrics/base.go:93-110: does it only hold its minimum and its maximum? -/
def twoValued : List K → Bool
  | [] => true
  | x :: c =>
    let lo := (x :: c).foldl (fun lo v => if v < lo then v else lo) x
    let hi := (x :: c).foldl (fun hi v => if hi < v then v else hi) x
    (x :: c).all (fun v => decide (v = lo ∨ v = hi))

/-- `typeOfTarget`, /repo/metrics/base.go:89-120, for a contiguous matrix given by its columns: every column may only hold its minimum and its maximum. -/
def typeOfTarget (cols : List (List K)) : Target :=
  if cols.all twoValued then (if cols.length = 1 then .binary else .multilabel) else .unknown

/-- `average` argument. -/
inductive Avg where
  | micro | weighted | samples | macro
deriving DecidableEq

/-- `stat.Mean(x, w)` of gonum: sum of `w x` over the sum of `w`. -/
def wmean (x : List K) (w : Option (List K)) : Option K :=
  match w with
  | none => fdiv x.sum (x.length : K)
  | some w => fdiv (List.zipWith (· * ·) w x).sum w.sum

/-- Column `c` of a matrix given by its rows; `none`: outside (panic of `Slice`). -/
def column (M : List (List K)) (c : ℕ) : Option (List K) := M.mapM (·[c]?)

/-- `averageBinaryScore`, /repo/metrics/base.go:12-87; `m`×`n` matrices given by their rows, weights of `m` samples.  Outer `none`: panic; inner `none`: NaN.
The metric is a parameter.  The type test is applied to the columns of `Ytrue`. -/
def averageBinary (metric : List K → List K → Option (List K) → Option (Option K)) (n : ℕ) (Yt Ys : List (List K)) (avg : Avg)
    (w : Option (List K)) : Option (Option K) := do
  let m := Yt.length
  let cols ← (List.range n).mapM (column Yt)
  match typeOfTarget cols with
  | .unknown => some (some 0)
  | .binary => do
    let ys ← column Ys 0
    metric Yt.flatten ys w
  | .multilabel =>
    match avg with
    | .micro =>
      -- l.31-45: the labels are laid out row by row, the weights block by block
      metric Yt.flatten Ys.flatten (w.map (fun ws => (List.replicate n ws).flatten))
    | .macro => do
      let scores ← (List.range n).mapM (fun c => do metric (← column Yt c) (← column Ys c) w)
      return (scores.mapM id).bind (fun s => wmean s none)
    | .weighted => do
      let aw := cols.map (fun c => (List.zipWith (fun (v : K) (u : K) => if v = 1 then u else 0) c (w.getD (List.replicate m 1))).sum)
      if aw.sum = 0 then some (some 0)
      else
        let scores ← (List.range n).mapM (fun c => do metric (← column Yt c) (← column Ys c) w)
        return (scores.mapM id).bind (fun s => wmean s (some aw))
    | .samples => do
      -- l.63-67: as many "classes" as rows, but still columns are sliced
      let scores ← (List.range m).mapM (fun c => do metric (← column Yt c) (← column Ys c) none)
      return (scores.mapM id).bind (fun s => wmean s w)

/-- `ROCAUCScore`, /repo/metrics/ranking.go:144-150. -/
def rocAUCScore (sort : List (Obs K) → List (Obs K)) (n : ℕ) (Yt Ys : List (List K)) (avg : Avg) (w : Option (List K)) : Option (Option K) :=
  averageBinary (fun yt ys w => do rocAuc sort (← obs 1 w ys yt 0)) n Yt Ys avg w

/-- `AveragePrecisionScore`, /repo/metrics/ranking.go:212-222. -/
def averagePrecisionScore (sort : List (Obs K) → List (Obs K)) (n : ℕ) (Yt Ys : List (List K)) (avg : Avg) (w : Option (List K)) :
    Option (Option K) :=
  averageBinary (fun yt ys w => do avgPrecision sort (← obs 1 w ys yt 0)) n Yt Ys avg w

end Sk.Rank
