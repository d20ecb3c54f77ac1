import Mathlib.Analysis.SpecialFunctions.Pow.Real
import Mathlib.Algebra.BigOperators.Fin

/-!
# `base/optimizers.go`: `SGDOptimizer`

Gradients, parameters and running averages are functions `Fin n → Fin q → ℝ` (features by outputs).  Rounding is not modelled.  The time step, a `float64` in the code, is a natural number.
-/
set_option autoImplicit false

namespace Sk.Opt

/-- The variant chosen by the flags, in the order they are tested: /repo/base/optimizers.go:223, 237, 252, 271, 292. -/
inductive Kind where
  | rmsprop | adagrad | adadelta | adam | sgd
  deriving DecidableEq

/-- The settings of `SGDOptimizer`, /repo/base/optimizers.go:62-69, 77. -/
structure Cfg where
  kind : Kind
  stepSize : ℝ
  momentum : ℝ
  clip : ℝ
  gamma : ℝ
  eps : ℝ
  beta₁ : ℝ
  beta₂ : ℝ

/-- A matrix of features by outputs. -/
abbrev Mat (n q : ℕ) := Fin n → Fin q → ℝ

/-- The running parameters, /repo/base/optimizers.go:74-78.  `Update` and `GtNorm` are overwritten by each call before they are read and are left out. -/
structure St (n q : ℕ) where
  t : ℕ
  prev : Mat n q
  g : Mat n q
  u : Mat n q
  m : Mat n q
  v : Mat n q

variable {n q : ℕ}

/-- `colNorm`, /repo/base/optimizers.go:308-316. -/
noncomputable def colNorm (G : Mat n q) (o : Fin q) : ℝ := Real.sqrt (∑ j, G j o * G j o)

/-- `gradientClipped`, /repo/base/optimizers.go:213-219. -/
noncomputable def clipped (c : Cfg) (G : Mat n q) : Mat n q := fun j o =>
  if 0 < c.clip ∧ colNorm G o > c.clip then G j o * (c.clip / colNorm G o) else G j o

/-- The allocations of the first call, /repo/base/optimizers.go:184-203 (only the fields of the chosen variant are allocated; the others are never read). -/
def init (c : Cfg) (s : St n q) : St n q :=
  if s.t = 0 then { s with prev := fun _ _ => 0, g := fun _ _ => c.eps, u := fun _ _ => 1, m := fun _ _ => 0, v := fun _ _ => 0 } else s

/-- `GetUpdate` before momentum, /repo/base/optimizers.go:204-297: the update and the new state (time step advanced). -/
noncomputable def raw (c : Cfg) (s : St n q) (G : Mat n q) : Mat n q × St n q :=
  let t := s.t + 1
  let cg := clipped c G
  let eta := c.stepSize * 100 / (100 + (t : ℝ))
  match c.kind with
  | .rmsprop =>
    (fun j o => -(if 1 < t ∧ 1 < |s.g j o| then c.stepSize / Real.sqrt (s.g j o + c.eps) else c.stepSize) * cg j o,
      { s with t := t, g := fun j o => s.g j o * c.gamma + (1 - c.gamma) * cg j o * cg j o })
  | .adagrad =>
    (fun j o => -(if 1 < t then c.stepSize / (Real.sqrt (s.g j o) + c.eps) else c.stepSize) * cg j o,
      { s with t := t, g := fun j o => s.g j o + cg j o * cg j o })
  | .adadelta =>
    let g' : Mat n q := fun j o => c.gamma * s.g j o + (1 - c.gamma) * cg j o * cg j o
    let upd : Mat n q := fun j o => -(if 1 < t then Real.sqrt (s.u j o) / Real.sqrt (g' j o + c.eps) else eta) * cg j o
    (upd, { s with t := t, g := g', u := fun j o => c.gamma * s.u j o + (1 - c.gamma) * upd j o * upd j o })
  | .adam =>
    let m' : Mat n q := fun j o => c.beta₁ * s.m j o + (1 - c.beta₁) * cg j o
    let v' : Mat n q := fun j o => c.beta₂ * s.v j o + (1 - c.beta₂) * cg j o * cg j o
    (fun j o => -c.stepSize * m' j o / (1 - c.beta₁ ^ t) / (Real.sqrt (v' j o / (1 - c.beta₂ ^ t)) + c.eps), { s with t := t, m := m', v := v' })
  | .sgd => (fun j o => -eta * cg j o / Real.sqrt (t : ℝ), { s with t := t })

/-- `GetUpdate`, /repo/base/optimizers.go:182-305: allocation, update, momentum (299-303) and `PrevUpdate` (304). -/
noncomputable def getUpdate (c : Cfg) (s : St n q) (G : Mat n q) : Mat n q × St n q :=
  let s := init c s
  let r := raw c s G
  let upd : Mat n q := if 0 < c.momentum then fun j o => c.momentum * s.prev j o + r.1 j o else r.1
  (upd, { r.2 with prev := upd })

/-- `UpdateParams`, /repo/base/optimizers.go:172-179: the update is added to the parameters. -/
noncomputable def updateParams (c : Cfg) (s : St n q) (θ G : Mat n q) : Mat n q × St n q :=
  let r := getUpdate c s G
  (fun j o => θ j o + r.1 j o, r.2)

/-- A new optimiser (nothing allocated, time step 0), /repo/base/optimizers.go:84-123. -/
def fresh : St n q := ⟨0, fun _ _ => 0, fun _ _ => 0, fun _ _ => 0, fun _ _ => 0, fun _ _ => 0⟩

/-- The state after a sequence of calls of `GetUpdate`. -/
noncomputable def after (c : Cfg) (s : St n q) (gs : List (Mat n q)) : St n q := gs.foldl (fun s G => (getUpdate c s G).2) s

/-- The parameters after a sequence of calls of `UpdateParams`. -/
noncomputable def train (c : Cfg) (s : St n q) (θ : Mat n q) : List (Mat n q) → Mat n q × St n q
  | [] => (θ, s)
  | G :: gs => train c (updateParams c s θ G).2 (updateParams c s θ G).1 gs

end Sk.Opt
