import Mathlib.Algebra.Order.Floor.Ring
import Mathlib.Algebra.Order.Field.Basic

/-!
# Model of `model_selection/split.go`

Rows are opaque values. All randomness (`rand.Shuffle`, `rand.Intn`, `Perm`) is a parameter. `none` = the Go
code panics.
-/
set_option autoImplicit false

namespace Sk.Split

/-- `a[i], a[j] = a[j], a[i]` (model_selection/split.go:87); index out of range panics. -/
def swapAt {α : Type*} (a : List α) (p : ℕ × ℕ) : Option (List α) :=
  match a[p.1]?, a[p.2]? with
  | some x, some y => some ((a.set p.1 y).set p.2 x)
  | _, _ => none

/-- The random draws consumed by one iteration: the pairs that `rndShuffle` passes to `aSwap`
(model_selection/split.go:89) and the value of `rndIntn(NSamples)` (l.91). -/
structure Draw where
  swaps : List (ℕ × ℕ)
  start : ℕ

/-- A draw the random generator can produce for `N` samples: `Shuffle(n, swap)` only calls `swap` below `n`,
`Intn(n)` returns a number below `n`. -/
def Draw.Valid (N : ℕ) (d : Draw) : Prop := (∀ p ∈ d.swaps, p.1 < N ∧ p.2 < N) ∧ (0 < N → d.start < N)

/-- `Split{TrainIndex, TestIndex}` (model_selection/split.go). -/
structure Fold where
  train : List ℕ
  test : List ℕ
deriving DecidableEq, Repr

/-- Size of the test set of split number `isplit`, model_selection/split.go:77-81. -/
def nTest (N n isplit : ℕ) : ℕ := if isplit < N % n then N / n + 1 else N / n

/-- The swaps of model_selection/split.go:92-94. -/
def windowSwaps (N nt start : ℕ) : List (ℕ × ℕ) :=
  (List.range nt).map (fun i => ((start + i) % N, N - nt + i))

/-- One iteration of the loop model_selection/split.go:76-102. -/
def splitOne (N n : ℕ) (shuffle : Bool) (isplit : ℕ) (d : Draw) : Option Fold :=
  let nt := nTest N n isplit
  let a := List.range N
  let a' :=
    if shuffle then a |> d.swaps.foldlM (fun a p => swapAt a p)      -- l.89
    else if N = 0 then none                                            -- l.91 Intn(0) panics
    else a |> (windowSwaps N nt d.start).foldlM (fun a p => swapAt a p)  -- l.92-94
  a'.map (fun a' => ⟨a'.take (N - nt), a'.drop (N - nt)⟩)              -- l.96-99

/-- `KFold.Split`, model_selection/split.go:48-106: the sequence of values sent on the channel.
(The channel has a single producer, so the receiver sees exactly this sequence.) -/
def kfold (NSplits : ℤ) (N : ℕ) (shuffle : Bool) (draws : ℕ → Draw) : Option (List Fold) :=
  let n := if NSplits ≤ 0 then 3 else NSplits.toNat                    -- l.49-51
  (List.range n).mapM (fun i => splitOne N n shuffle i (draws i))

/-- Number of test rows, model_selection/split.go:119-124. -/
def testLen {K : Type*} [Field K] [LinearOrder K] [FloorRing K] (N : ℕ) (testsize : K) : ℤ :=
  if testsize > 1 then ⌈min (N : K) testsize⌉ else ⌈(N : K) * testsize⌉

/-- Result of `TrainTestSplit`. -/
structure TTS (ρ σ : Type) where
  xtrain : List ρ
  xtest : List ρ
  ytrain : List σ
  ytest : List σ
deriving DecidableEq, Repr

/-- `TrainTestSplit`, model_selection/split.go:116-153. `mat.NewDense` panics on a non-positive number of rows
(l.125-128); `ind` is the permutation returned by `Perm` (l.138); the loop l.142-151 copies row `ind[i]` to the
test block for `i < testlen` and to the train block otherwise; `mat.Row` panics if the row does not exist. -/
def trainTestSplit {K : Type*} [Field K] [LinearOrder K] [FloorRing K] {ρ σ : Type}
    (X : List ρ) (Y : List σ) (testsize : K) (ind : List ℕ) : Option (TTS ρ σ) :=
  let N := X.length
  let tl := testLen N testsize
  if tl ≤ 0 ∨ (N : ℤ) - tl ≤ 0 then none
  else do
    let t := tl.toNat
    let xtest ← (ind.take t).mapM (fun j => X[j]?)
    let ytest ← (ind.take t).mapM (fun j => Y[j]?)
    let xtrain ← (ind.drop t).mapM (fun j => X[j]?)
    let ytrain ← (ind.drop t).mapM (fun j => Y[j]?)
    return ⟨xtrain, xtest, ytrain, ytest⟩

end Sk.Split
