import Verif.Model.MlpFit
import Mathlib.Analysis.Real.Sqrt

/-!
# Initial parameters of the networks and of `LogisticRegression`: `initialize`

Memory is a list of reals; the numbers drawn by `rndFloat64` are a parameter (the `k`-th call gives `draws k`).
-/
set_option autoImplicit false

namespace Sk.Init
open Sk.MlpFit (views packedLen View)

noncomputable section

/-- `initBound`, /repo/neural_network/basemlp64.go:471; /repo/linear_model/logistic.go:319. -/
def initBound (factor : ℝ) (fanIn fanOut : ℕ) : ℝ := Real.sqrt (factor / (fanIn + fanOut : ℕ))

/-- `for pos := prevOff; pos < off; pos++ { mem[pos] = rndFloat64() * initBound }`, /repo/neural_network/basemlp64.go:472-474; /repo/linear_model/logistic.go:320-322.  The state is the memory and the number of calls of `rndFloat64` so far. -/
def fill (draws : ℕ → ℝ) (bound : ℝ) (prevOff off : ℕ) (st : List ℝ × ℕ) : List ℝ × ℕ :=
  (List.range' prevOff (off - prevOff)).foldl (fun st pos => (st.1.set pos (draws st.2 * bound), st.2 + 1)) st

/-- The loop of `initialize` over the layers, /repo/neural_network/basemlp64.go:458-478, from the offset `off`, for the layer sizes `units` (the views are those of `Sk.MlpFit.views`). -/
def layers (draws : ℕ → ℝ) (factor : ℝ) : List ℕ → ℕ → List ℝ × ℕ → List ℝ × ℕ
  | u :: v :: rest, off, st => layers draws factor (v :: rest) (off + v + u * v) (fill draws (initBound factor u v) off (off + v + u * v) st)
  | _, _, st => st

/-- The parameters after `initialize`, /repo/neural_network/basemlp64.go:433-479; `logistic`: `strings.EqualFold(mlp.Activation, "logistic")` (467).  `make` fills the memory with zeros. -/
def netInit (logistic : Bool) (units : List ℕ) (draws : ℕ → ℝ) : List ℝ × ℕ :=
  layers draws (if logistic then 2 else 6) units 0 (List.replicate (packedLen units) 0, 0)

/-- What `initialize` of `LogisticRegression` leaves: the memory and, as offset and length in it, the slices made by /repo/linear_model/logistic.go:291-293, 308-312, 324-327. -/
structure LogMem where
  mem : List ℝ
  packedParameters : ℕ × ℕ
  packedGrads : ℕ × ℕ
  intercept : ℕ × ℕ
  coef : ℕ × ℕ
  interceptGrads : ℕ × ℕ
  coefGrads : ℕ × ℕ

/-- `initialize` of `LogisticRegression`, /repo/linear_model/logistic.go:268-330, for `p` features and `q` columns of targets. -/
def logInitialize (p q : ℕ) (draws : ℕ → ℝ) : LogMem :=
  let size := (1 + p) * q
  let off := q + p * q
  { mem := (fill draws (initBound 2 p q) 0 off (List.replicate (2 * size) 0, 0)).1
    packedParameters := (0, size)
    packedGrads := (size, size)
    intercept := (0, q)
    coef := (q, p * q)
    interceptGrads := (off, q)
    coefGrads := (off + q, p * q) }

end

end Sk.Init
