/-!
# Model of `base/parallel.go`

`Parallelize(threads, NSamples, f)` (base/parallel.go:9-32). `NSamples` is a length, so it is a natural
number here; `int` overflow is not modelled.
-/
set_option autoImplicit false

namespace Sk.Parallel

/-- One call `f(th, start, end)` issued by `Parallelize`. -/
structure Call where
  th : Nat
  start : Nat
  stop : Nat
deriving DecidableEq, Repr

/-- The dispatch loop, base/parallel.go:19-29, from thread number `th` with `rem` iterations left;
`s` is `sampPerTh`. The calls are listed in the order in which the goroutines are started. -/
def dispatch (N s : Nat) : (rem th : Nat) → List Call
  | 0, _ => []
  | rem + 1, th =>
    if (th + 1) * s > N then
      if N ≤ th * s then []                                        -- l.23-25 break
      else ⟨th, th * s, N⟩ :: dispatch N s rem (th + 1)            -- l.22 end = NSamples
    else ⟨th, th * s, (th + 1) * s⟩ :: dispatch N s rem (th + 1)

/-- The effective number of threads, base/parallel.go:10-12. `numCPU` is `runtime.NumCPU()`. -/
def effThreads (numCPU : Nat) (threads : Int) : Nat :=
  if threads ≤ 0 then numCPU else threads.toNat

/-- All the calls made by `Parallelize(threads, N, f)`, base/parallel.go:9-32. -/
def calls (numCPU : Nat) (threads : Int) (N : Nat) : List Call :=
  let t := effThreads numCPU threads
  if t = 1 then [⟨0, 0, N⟩]                                         -- l.13-14
  else dispatch N ((N + t - 1) / t) t 0                             -- l.16-29

/-! ## Goroutine interleavings

A goroutine is the list of its remaining atomic actions. An action reads and rewrites one cell
(`cell := upd cell`); what it computes may depend on any data nobody writes while the workers run.
A run repeatedly picks any goroutine that is not finished and performs its next action; it ends when all
are finished (`wg.Wait()`, base/parallel.go:30). Simplification: memory is sequentially consistent and cells are
numbered from 0 (a slice/matrix cell = one number). -/

/-- Atomic action `cell idx := upd (cell idx)`. -/
structure Act (α : Type) where
  idx : Nat
  upd : α → α

/-- Memory after one action. -/
def Act.apply {α : Type} (a : Act α) (m : Nat → α) : Nat → α :=
  fun i => if i = a.idx then a.upd (m i) else m i

/-- Memory after a sequence of actions. -/
def runSeq {α : Type} : List (Act α) → (Nat → α) → (Nat → α)
  | [], m => m
  | a :: as, m => runSeq as (a.apply m)

/-- `Run ws m m'`: starting the goroutines `ws` on memory `m`, some schedule ends with memory `m'`. -/
inductive Run {α : Type} : List (List (Act α)) → (Nat → α) → (Nat → α) → Prop
  | done {ws m} : (∀ w ∈ ws, w = []) → Run ws m m
  | step {pre a w post m m'} :
      Run (pre ++ w :: post) (a.apply m) m' → Run (pre ++ (a :: w) :: post) m m'

end Sk.Parallel
