import Verif.Model.LinFit
import Mathlib.Analysis.SpecialFunctions.Log.Basic

/-!
# `linear_model/loss.go`: values of the losses with any activation

Without penalty.  `eps` is 1e-10.
-/
set_option autoImplicit false

namespace Sk.LinFit

variable {p q : ℕ}

/-- The value of `CrossEntropyLoss` without penalty, /repo/linear_model/loss.go:122-145, 202. -/
noncomputable def ceValue (eps : ℝ) (a : Activation) (rows : List (Row p q)) (θ : Mat p q) : ℝ :=
  (rows.map (fun r => ∑ o, Sk.Lin.ceCell eps (r.2 o) (a.F (lin r θ o)))).sum / rows.length

/-- The cost of a cell in `LogLoss`, /repo/linear_model/loss.go:75-83. -/
noncomputable def logCell (eps y hpred : ℝ) : ℝ := -y * Real.log (if hpred = 0 then hpred + eps else if hpred = 1 then hpred - eps else hpred)

/-- The value of `LogLoss` without penalty, /repo/linear_model/loss.go:70-92, 108. -/
noncomputable def logValue (eps : ℝ) (a : Activation) (rows : List (Row p q)) (θ : Mat p q) : ℝ :=
  (rows.map (fun r => ∑ o, logCell eps (r.2 o) (a.F (lin r θ o)))).sum / rows.length

end Sk.LinFit
