import Verif.Model.Label
import Mathlib.Algebra.Order.Field.Basic
import Mathlib.Algebra.BigOperators.Group.List.Basic
import Mathlib.Algebra.Order.AbsoluteValue.Basic

/-!
# `metrics/classification.go` and `metrics/regression.go`

Floats are elements of a linearly ordered field `K`.  `none` as the result of a division stands for the NaN / infinity produced
by a zero denominator; the docstrings say where `none` is a panic instead.
-/
set_option autoImplicit false

namespace Sk.Metrics

open Sk.Label

variable {K : Type} [Field K] [LinearOrder K] [IsStrictOrderedRing K]

/-- Division of floats: a zero denominator gives NaN or an infinity, `none` here. -/
def fdiv (a b : K) : Option K := if b = 0 then none else some (a / b)

/-- Weight of sample `i` when it is read in the usual way (`1` if no weights are given, else entry `i`); `none`: the read panics.
/repo/metrics/classification.go:15-19 and 169-172. -/
def weightAt (w : Option (List K)) (i : ℕ) : Option K :=
  match w with
  | none => some 1
  | some ws => ws[i]?

/-- Are two rows equal on the columns of the first?  /repo/metrics/classification.go:20-24.  `none`: `Ypred` has too few columns (panic). -/
def rowEq {L : Type} [DecidableEq L] : List L → List L → Bool → Option Bool
  | [], _, eq => some eq
  | _ :: _, [], _ => none
  | a :: as, b :: bs, eq => rowEq as bs (eq && decide (a = b))

/-- The sample loop of `AccuracyScore`, /repo/metrics/classification.go:16-29, from sample `i` on with accumulators `(N, D)`; `none`: a
matrix is read outside its dimensions (panic). -/
def accLoop {L : Type} [DecidableEq L] (w : Option (List K)) (Yp : List (List L)) : List (List L) → ℕ → K × K → Option (K × K)
  | [], _, nd => some nd
  | yt :: Yt, i, (n, d) => do
    let wi ← weightAt w i
    let yp ← Yp[i]?
    let eq ← rowEq yt yp true
    accLoop w Yp Yt (i + 1) (if eq then n + wi else n, d + wi)

/-- `AccuracyScore`, /repo/metrics/classification.go:12-35; matrices are lists of rows. `none`: panic, or NaN when `normalize` and the
weights sum to zero. -/
def accuracy {L : Type} [DecidableEq L] (Yt Yp : List (List L)) (normalize : Bool) (w : Option (List K)) : Option K := do
  let (n, d) ← accLoop w Yp Yt 0 (0, 0)
  if normalize then fdiv n d else some n

/-- Loop of `internalConfusionMatrix`, /repo/metrics/classification.go:166-176, for label vectors (one column); `cm` is the flat data of the
`n`×`n` matrix, `yt`, `yp` the encoded labels.  The flat index `r*Stride+c` outside the data panics (`none`). -/
def cmLoop (n : ℕ) (w : Option (List K)) : List ℤ → List ℤ → ℕ → List K → Option (List K)
  | [], _, _, cm => some cm
  | _ :: _, [], _, _ => none
  | r :: yt, c :: yp, i, cm => do
    let wi ← weightAt w i
    let k := r * (n : ℤ) + c
    if k < 0 then none
    else
      let old ← cm[k.toNat]?
      cmLoop n w yt yp (i + 1) (cm.set k.toNat (old + wi))

/-- `internalConfusionMatrix`, /repo/metrics/classification.go:154-178, for label vectors: the encoder is fitted on the true labels only.
Result: the number of classes, the flat matrix and the encoder. -/
def confusion {L : Type} [LinearOrder L] (yt yp : List L) (w : Option (List K)) : Option (ℕ × List K × Enc L) := do
  let le := yt.foldl Enc.add Enc.empty
  let n := le.classes.length
  let cm ← cmLoop n w (yt.map le.code) (yp.map le.code) 0 (List.replicate (n * n) 0)
  return (n, cm, le)

/-- Per class sums, /repo/metrics/classification.go:75,103-105. -/
structure Sums (K : Type) where
  tp : K
  truesum : K
  predsum : K

/-- Precision, recall, F-score, support, /repo/metrics/classification.go:76. -/
structure PRFS (K : Type) where
  p : K
  r : K
  f : K
  s : K

/-- Sums for class `c` of the flat `n`×`n` matrix, /repo/metrics/classification.go:103-105. -/
def sumsOf (n : ℕ) (cm : List K) (c : ℕ) : Sums K where
  tp := cm.getD (c * n + c) 0
  truesum := ((List.range n).map (fun j => cm.getD (c * n + j) 0)).sum
  predsum := ((List.range n).map (fun i => cm.getD (i * n + c) 0)).sum

/-- The closure `prfs`, /repo/metrics/classification.go:83-101. -/
def prfs (beta : K) (support : K) (g : Sums K) : PRFS K :=
  let p := if 0 < g.predsum then g.tp / g.predsum else 0
  let r := if 0 < g.truesum then g.tp / g.truesum else 0
  let beta2 := beta * beta
  let f := if 0 < beta2 * p + r then (1 + beta2) * p * r / (beta2 * p + r) else 0
  ⟨p, r, f, support⟩

/-- `average` argument. -/
inductive Average where
  | macro | weighted | micro | other
deriving DecidableEq

/-- `stat.Mean(x, nil)` of gonum for a non empty `x`. -/
def statMean (xs : List K) : K := xs.sum / (xs.length : K)

/-- `PrecisionRecallFScoreSupport`, /repo/metrics/classification.go:74-145 (`posLabel = none` is `-1`).  `none`: panic.  `support` is the
encoder's support of the class (as recorded by `LabelEncoder`). -/
def prfScore {L : Type} [LinearOrder L] (yt yp : List L) (beta : K) (posLabel : Option ℕ) (avg : Average) (w : Option (List K)) :
    Option (PRFS K) := do
  let (n, cm, le) ← confusion yt yp w
  let per := (List.range n).map (fun c => prfs beta ((le.support.getD c 0 : ℕ) : K) (sumsOf n cm c))
  match posLabel with
  | some c => per[c]?
  | none =>
    match avg with
    | .macro | .weighted =>
      some ⟨statMean (per.map PRFS.p), statMean (per.map PRFS.r), statMean (per.map PRFS.f), 0⟩
    | .micro =>
      let gs := (List.range n).map (sumsOf n cm)
      let g : Sums K := ⟨(gs.map Sums.tp).sum, (gs.map Sums.truesum).sum, (gs.map Sums.predsum).sum⟩
      some { prfs beta 0 g with s := 0 }
    | .other => some ⟨0, 0, 0, 0⟩

section Regression

/-- One output of `R2Score` after the matrix products, /repo/metrics/regression.go:90-114: `(denominator, score)`; `w` the weights (all ones when
nil), `eps` the literal `1e-20`.  `none`: zero weight sum (NaN). -/
def r2Output (eps : K) (yt yp w : List K) : Option (K × K) := do
  let num := (List.zipWith (· * ·) w (List.zipWith (fun p t => (p - t) * (p - t)) yp yt)).sum
  let avg ← fdiv (List.zipWith (· * ·) w yt).sum w.sum
  let den := (List.zipWith (· * ·) w (yt.map (fun t => (t - avg) * (t - avg)))).sum
  return (den, 1 - num / max den eps)

/-- `multioutput` argument. -/
inductive Multi where
  | raw | variance | uniform
deriving DecidableEq

/-- `R2Score`, /repo/metrics/regression.go:83-128; matrices are lists of columns, `none` weights are all ones.  Gonum's shape panics are not
modelled: the theorems assume equal shapes. -/
def r2Score (eps : K) (Yt Yp : List (List K)) (w : Option (List K)) (m : Multi) : Option (List K) := do
  let ds ← (Yt.zip Yp).mapM (fun c => r2Output eps c.1 c.2 (w.getD (c.1.map (fun _ => 1))))
  match m with
  | .raw => some (ds.map Prod.snd)
  | .variance => (fdiv (ds.map (fun d => d.1 * d.2)).sum (ds.map Prod.fst).sum).map fun r => [r]
  | .uniform => some [(ds.map Prod.snd).sum / (Yt.length : K)]

/-- One output of `MeanSquaredError`/`MeanAbsoluteError`, /repo/metrics/regression.go:157-169 and 224-236, with `loss` the square or the absolute
value: `w` is the single cell `sampleWeight.At(0, j)` read for every sample (1 without weights). -/
def errOutput (loss : K → K) (w : K) (yt yp : List K) : Option K :=
  let nd := (yp.zip yt).foldl (fun (a : K × K) c => (a.1 + w * loss (c.1 - c.2), a.2 + w)) (0, 0)
  fdiv nd.1 nd.2

/-- The errors of all outputs; `weights` is the weight matrix as a list of rows, of which only cell `(0, j)` is read; outside the matrix: panic
(`none`). -/
def errOutputs (loss : K → K) (weights : Option (List (List K))) : List (List K) → List (List K) → ℕ → Option (List K)
  | yt :: Yt, yp :: Yp, j => do
    let w ← match weights with
      | none => some 1
      | some W => W[0]?.bind (·[j]?)
    let e ← errOutput loss w yt yp
    let es ← errOutputs loss weights Yt Yp (j + 1)
    return e :: es
  | _, _, _ => some []

/-- `MeanSquaredError` (`loss = x*x`) and `MeanAbsoluteError` (`loss = |x|`), /repo/metrics/regression.go:153-176, 220-244. -/
def meanError (loss : K → K) (Yt Yp : List (List K)) (weights : Option (List (List K))) (raw : Bool) : Option (List K) := do
  let es ← errOutputs loss weights Yt Yp 0
  if raw then some es else some [es.sum / (Yt.length : K)]

end Regression

end Sk.Metrics
