import Mathlib.Algebra.Order.Field.Basic
import Mathlib.Algebra.BigOperators.Group.List.Basic
import Mathlib.Data.List.Dedup
import Mathlib.Data.List.Sort
import Mathlib.Analysis.SpecialFunctions.Log.Basic
import Mathlib.Analysis.Real.Pi.Bounds

/-!
# `naive_bayes/naivebayes.go`

A training sample is a row, a label and a weight (weight 1 when `sampleWeight` is nil; a slice of weights shorter than the data, which panics, is not modelled).
`none` is a panic or a division by zero (`NaN` in Go).  The parallel loops over columns and classes write disjoint cells and are modelled sequentially.
-/
set_option autoImplicit false

namespace Sk.NB

/-- One training sample. -/
structure Sample (K : Type) where
  x : List K
  y : K
  w : K

/-- Row `i` of `Theta` and `Sigma` and entry `i` of `ClassCount`, /repo/naive_bayes/naivebayes.go:102-104. -/
structure Stat (K : Type) where
  count : K
  mu : List K
  va : List K

/-- What fitting stores in the estimator, /repo/naive_bayes/naivebayes.go:97-108 and 21. -/
structure Fitted (K : Type) where
  classes : List K
  stats : List (Stat K)
  prior : List K
  eps : K

section
variable {K : Type} [Field K] [LinearOrder K] [IsStrictOrderedRing K]

/-- Column `c` of the samples with the weights: the values read by `meanvar`. -/
def column (S : List (Sample K)) (c : ℕ) : List (K × K) := S.map (fun s => (s.x.getD c 0, s.w))

/-- `meanvar` on one column of (value, weight) pairs, /repo/naive_bayes/naivebayes.go:278-306: mean, variance and sum of weights. -/
def meanvar (l : List (K × K)) : Option (K × K × K) :=
  let sw := (l.map Prod.snd).sum
  if sw = 0 then none else
  let m := (l.map (fun e => e.1 * e.2)).sum / sw
  let v := (l.map (fun e => (e.1 - m) * (e.1 - m) * e.2)).sum / sw
  some (m, v, sw)

/-- `npUnique`, /repo/naive_bayes/naivebayes.go:325-337. -/
def npUnique (ys : List K) : List K := ys.dedup.insertionSort (· ≤ ·)

/-- One column of `updateMeanVariance`, /repo/naive_bayes/naivebayes.go:358-364.  `mu` is a view of the row of `Theta`, so `mu[c]` on line 362 is already the new mean. -/
def updateCol (n mu va : K) (l : List (K × K)) : Option (K × K) := do
  let (newMu, newVa, nNew) ← meanvar l
  let nTotal := n + nNew
  if nTotal = 0 then none else
  let mu' := (n * mu + nNew * newMu) / nTotal
  let dmu := mu' - newMu
  some (mu', (n * va + nNew * newVa + nNew * n / nTotal * dmu * dmu) / nTotal)

/-- `updateMeanVariance`, /repo/naive_bayes/naivebayes.go:345-367, on the samples of one class with `p` features (`nNew` is computed by `meanvar` from the weights). -/
def updateStat (p : ℕ) (s : Stat K) (S : List (Sample K)) : Option (Stat K) :=
  if S.isEmpty then some s else do
  let cols ← (List.range p).mapM (fun c => updateCol s.count (s.mu.getD c 0) (s.va.getD c 0) (column S c))
  some ⟨s.count + (S.map Sample.w).sum, cols.map Prod.fst, cols.map Prod.snd⟩

/-- The samples used to update entry `i`: `classmap` keeps the last index of a class, /repo/naive_bayes/naivebayes.go:203-206, 217-219. -/
def samplesOf (classes : List K) (i : ℕ) (S : List (Sample K)) : List (Sample K) :=
  match classes[i]? with
  | none => []
  | some c => if c ∈ classes.drop (i + 1) then [] else S.filter (fun s => s.y = c)

/-- `floats.Max` of the variances of all the columns, /repo/naive_bayes/naivebayes.go:152-153. -/
def maxVar (p : ℕ) (S : List (Sample K)) : Option K := do
  let vs ← (List.range p).mapM (fun c => (meanvar (column S c)).map (fun r => r.2.1))
  match vs with
  | [] => none
  | v :: vs => some (vs.foldl max v)

/-- The estimator as left by lines 153-199 of /repo/naive_bayes/naivebayes.go: initialised on the first call, otherwise with the *new* epsilon subtracted from every
variance.  `tol` is the constant 1e-6. -/
def prepare (tol : K) (priors : Option (List K)) (eps : K) (st : Option (Fitted K)) (p : ℕ) (classes : List K) (refit : Bool) : Option (Fitted K) :=
  match st with
  | none =>
    let zero : List K := List.replicate p 0
    let prior : Option (List K) := match priors with
      | none => some (List.replicate classes.length 0)
      | some pr => if pr.length ≠ classes.length then none else if tol < |pr.sum - 1| then none else if pr.any (fun q => q < 0) then none else some pr
    if classes = [] then none
    else prior.map (fun pr => ⟨classes, List.replicate classes.length ⟨0, zero, zero⟩, pr, eps⟩)
  | some f =>
    if f.stats.any (fun s => s.mu.length ≠ p) then none
    else some ⟨if refit then [] else f.classes, f.stats.map (fun s => { s with va := s.va.map (fun v => v - eps) }), f.prior, eps⟩

/-- `GaussianNB.PartialFit`, /repo/naive_bayes/naivebayes.go:140-236, on data with `p` features. -/
def partialFit (tol varSmoothing : K) (priors : Option (List K)) (st : Option (Fitted K)) (p : ℕ) (S : List (Sample K)) (classes : List K) (refit : Bool) :
    Option (Fitted K) := do
  let mv ← maxVar p S
  let eps := varSmoothing * mv
  let f ← prepare tol priors eps st p classes refit
  if S.any (fun s => s.y ∉ f.classes) then none else do
  let stats ← (List.range f.stats.length).mapM (fun i => (f.stats[i]?).bind (fun s => updateStat p s (samplesOf f.classes i S)))
  let stats := stats.map (fun s => { s with va := s.va.map (fun v => v + eps) })
  let prior ← match priors with
    | some _ => some f.prior
    | none =>
      let tot := (stats.map Stat.count).sum
      if tot = 0 then none else some (stats.map (fun s => s.count / tot))
  some ⟨f.classes, stats, prior, eps⟩

/-- `GaussianNB.Fit`, /repo/naive_bayes/naivebayes.go:133-137. -/
def fit (tol varSmoothing : K) (priors : Option (List K)) (st : Option (Fitted K)) (p : ℕ) (S : List (Sample K)) : Option (Fitted K) :=
  partialFit tol varSmoothing priors st p S (npUnique (S.map Sample.y)) true

/-- A history of `PartialFit` calls on one estimator with the same `classes` argument. -/
def partialFits (tol varSmoothing : K) (priors : Option (List K)) (p : ℕ) (classes : List K) (st : Option (Fitted K)) : List (List (Sample K)) → Option (Option (Fitted K))
  | [] => some st
  | S :: Bs => do
    let f ← partialFit tol varSmoothing priors st p S classes false
    partialFits tol varSmoothing priors p classes (some f) Bs

end

/-! ## Prediction (over ℝ) -/

/-- Entry `i` of the joint log likelihood, /repo/naive_bayes/naivebayes.go:249-260: `nij` is accumulated over the features.  Zero or negative variances and zero priors (where Go
gets infinities or `NaN`) are excluded by the theorems. -/
noncomputable def jll1 (prior : ℝ) (s : Stat ℝ) (x : List ℝ) : ℝ :=
  Real.log prior + (List.range x.length).foldl (fun nij j =>
    let v := s.va.getD j 0
    let nij := nij - 0.5 * Real.log (2 * Real.pi * v)
    let xd := x.getD j 0 - s.mu.getD j 0
    nij - 0.5 * xd * xd / v) 0

/-- The joint log likelihood of all classes. -/
noncomputable def jll (f : Fitted ℝ) (x : List ℝ) : List ℝ := List.zipWith (fun p s => jll1 p s x) f.prior f.stats

/-- `floats.MaxIdx`: index of the first maximal element (the scan of gonum); used by /repo/naive_bayes/naivebayes.go:44. -/
noncomputable def maxIdx : List ℝ → ℕ × ℝ
  | [] => (0, 0)
  | a :: l => (l.foldl (fun (b : (ℕ × ℝ) × ℕ) v => (if b.1.2 < v then (b.2, v) else b.1, b.2 + 1)) ((0, a), 1)).1

/-- `Predict` for one row, /repo/naive_bayes/naivebayes.go:41-46; `none`: panic. -/
noncomputable def predict (f : Fitted ℝ) (x : List ℝ) : Option ℝ :=
  if jll f x = [] then none else f.classes[(maxIdx (jll f x)).1]?

/-- `floats.LogSumExp` (max + log of the sum of shifted exponentials), as documented by gonum; used by /repo/naive_bayes/naivebayes.go:64. -/
noncomputable def logSumExp (l : List ℝ) : ℝ :=
  let m := (maxIdx l).2
  Real.log ((l.map (fun v => Real.exp (v - m))).sum) + m

/-- `PredictLogProbas` for one row, /repo/naive_bayes/naivebayes.go:60-67. -/
noncomputable def predictLogProba (f : Fitted ℝ) (x : List ℝ) : List ℝ := (jll f x).map (fun v => v + -logSumExp (jll f x))

/-- `PredictProbas` for one row, /repo/naive_bayes/naivebayes.go:75-84. -/
noncomputable def predictProba (f : Fitted ℝ) (x : List ℝ) : List ℝ := (predictLogProba f x).map Real.exp

end Sk.NB
