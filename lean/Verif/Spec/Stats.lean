import Mathlib.Algebra.Order.Field.Basic
import Mathlib.Algebra.BigOperators.Group.List.Basic
import Mathlib.Data.Nat.Cast.Order.Basic

/-! # Textbook statistics used in the statements of the properties (independent of the models) -/
set_option autoImplicit false

namespace Sk.Stats
variable {K : Type} [Field K]

/-- Arithmetic mean. -/
def mean (xs : List K) : K := xs.sum / xs.length

/-- Population variance: mean of the squared deviations from the mean. -/
def pvar (xs : List K) : K := (xs.map (fun x => (x - mean xs) ^ 2)).sum / xs.length

end Sk.Stats
