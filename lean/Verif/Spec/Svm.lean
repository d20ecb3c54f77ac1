import Mathlib.Algebra.BigOperators.Group.Finset.Basic
import Mathlib.Algebra.Order.Field.Basic
import Mathlib.Data.Fintype.Basic

/-! # Dual problems of support vector machines -/
set_option autoImplicit false

namespace Sk.Svm

variable {K : Type} [Field K] [LinearOrder K] {m : ℕ}

/-- Feasible for the dual of C-SVC with labels `Y`. -/
structure SvcFeasible (Y : Fin m → K) (C : K) (α : Fin m → K) : Prop where
  box : ∀ i, 0 ≤ α i ∧ α i ≤ C
  balance : ∑ i, α i * Y i = 0

/-- Feasible for the dual of epsilon-SVR (differences of the paired multipliers). -/
structure SvrFeasible (C : K) (α : Fin m → K) : Prop where
  box : ∀ i, -C ≤ α i ∧ α i ≤ C
  balance : ∑ i, α i = 0

/-- Dual objective of C-SVC, to be maximised. -/
def svcDual (kern : Fin m → Fin m → K) (Y α : Fin m → K) : K :=
  ∑ i, α i - (∑ i, ∑ j, α i * Y i * (α j * Y j) * kern i j) / 2

/-- Decision value of sample `i`. -/
def svcValue (kern : Fin m → Fin m → K) (Y α : Fin m → K) (b : K) (i : Fin m) : K := ∑ k, α k * Y k * kern k i + b

end Sk.Svm
