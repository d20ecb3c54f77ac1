import Verif.Model.Parallel
import Verif.Model.Split

/-!
# Model of `model_selection/validation.go`
-/
set_option autoImplicit false

namespace Sk.CrossVal
open Sk.Parallel Sk.Split

/-- Memory cells touched by the workers of `CrossValidate`: cell `i < NSplits` is the result slot of split `i`
(`res.Estimator[i]`, `res.TestScore[i]`; the two durations are left out), cell `NSplits + th` is the scratch pair
`Xjob, Yjob` of job `th` (model_selection/validation.go:99,106), a list of (x,y) rows. -/
inductive Cell (Row E S : Type) where
  | unset
  | buf (rows : List Row)
  | slot (est : E) (score : S)

/-- Estimator code used by `CrossValidate`: `fit rows` is a fresh clone fitted on `rows` (validation.go:80-82),
`score e rows` predicts the test rows and calls the scorer (l.85-87). -/
structure Estimator (Row E S : Type) where
  fit : List Row → E
  score : E → List Row → S

/-- `processSplit(th, Xjob, Yjob, {i, split})` followed by the store of the score, validation.go:63-92 and 101-102: the
train rows then the test rows are copied to the job's scratch buffer (l.67-78), the clone is fitted on the first part
and scored on the second. `data` gives row `j` of (X,Y); split indices are row numbers (C04), so `RawRowView` does not
panic. -/
def jobActs {Row E S : Type} (es : Estimator Row E S) (data : ℕ → Row) (n th : ℕ) (p : ℕ × Fold) :
    List (Act (Cell Row E S)) :=
  [⟨n + th, fun _ => .buf (p.2.train.map data ++ p.2.test.map data)⟩,
   ⟨p.1, fun _ => .slot (es.fit (p.2.train.map data)) (es.score (es.fit (p.2.train.map data)) (p.2.test.map data))⟩]

/-- Which split is processed by which job, validation.go:39-48 and 93-113. `n` is `cv.GetNSplits`, which for `KFold` is the
raw `NSplits` field; `splits` are the splits received from `cv.Split`. `none` = panic: negative slice length (l.49), an
empty train or test part (`MatGeneralRowSlice` l.67-70), fewer splits than announced in the parallel branch (`sin[i]`
l.101), more splits than announced in the sequential branch (`res.Estimator[isplit]` l.80). -/
def plan (numCPU : ℕ) (NJobs : ℤ) (n : ℤ) (splits : List Fold) : Option (List (ℕ × List (ℕ × Fold))) :=
  let jobs := if NJobs ≤ 0 then (numCPU : ℤ) else NJobs      -- l.39-41
  let jobs := if jobs > n then n else jobs                    -- l.43-45
  if n < 0 then none
  else if splits.any (fun f => f.train.isEmpty || f.test.isEmpty) then none
  else if jobs > 1 then
    if splits.length < n.toNat then none
    else some ((calls numCPU jobs n.toNat).map (fun c =>
      (c.th, (List.range' c.start (c.stop - c.start)).filterMap (fun i => (splits[i]?).map (fun f => (i, f))))))
  else
    if n.toNat < splits.length then none
    else some [(0, (List.range splits.length).filterMap (fun i => (splits[i]?).map (fun f => (i, f))))]

/-- The goroutines of `CrossValidate` (a single one in the sequential branch). -/
def workers {Row E S : Type} (es : Estimator Row E S) (data : ℕ → Row) (n : ℕ) (pl : List (ℕ × List (ℕ × Fold))) :
    List (List (Act (Cell Row E S))) :=
  pl.map (fun j => j.2.flatMap (jobActs es data n j.1))

/-- What an estimator that kept a reference to the matrices given to `Fit` (instead of copying them) sees of its training
rows once `CrossValidate` has returned: the first `trainLen` rows of its job's scratch buffer (validation.go:67-68). -/
def retainedView {Row E S : Type} (m : ℕ → Cell Row E S) (n th trainLen : ℕ) : List Row :=
  match m (n + th) with
  | .buf rows => rows.take trainLen
  | _ => []

/-! ## Sorting the result -/

/-- `CrossValidateResult`, validation.go:13-17. -/
structure Result (S T E : Type) where
  testScore : List S
  fitTime : List T
  scoreTime : List T
  estimator : List E

/-- `Swap(i,j)`, validation.go:26-31. -/
def Result.swap {S T E : Type} (r : Result S T E) (p : ℕ × ℕ) : Option (Result S T E) := do
  let a ← swapAt r.testScore p
  let b ← swapAt r.fitTime p
  let c ← swapAt r.scoreTime p
  let d ← swapAt r.estimator p
  return ⟨a, b, c, d⟩

/-- the record at each position -/
def Result.rows {S T E : Type} (r : Result S T E) : List (S × T × T × E) :=
  r.testScore.zip (r.fitTime.zip (r.scoreTime.zip r.estimator))

end Sk.CrossVal
