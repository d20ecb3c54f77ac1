import Verif.Model.Optimizer

/-!
# `base/optimizers.go`: optimisers by name, optimisers as gonum methods, `SetTheta`
-/
set_option autoImplicit false

namespace Sk.OptNames

open Sk.Opt (Cfg Kind St Mat)

/-- The settings of a new optimiser with the part of the batch, /repo/base/optimizers.go:68. -/
structure Settings where
  cfg : Cfg
  batchPart : ℝ

/-- `NewSGDOptimizer`, /repo/base/optimizers.go:85-89. -/
noncomputable def newSGD : Settings := ⟨⟨.sgd, 1 / 10000, 9 / 10, 0, 9 / 10, 1 / 100000000, 0, 0⟩, 1⟩

/-- `NewAdagradOptimizer`, /repo/base/optimizers.go:92-99. -/
noncomputable def newAdagrad : Settings := { newSGD with cfg := { newSGD.cfg with stepSize := 1 / 2, momentum := 0, kind := .adagrad, clip := 10 } }

/-- `NewAdadeltaOptimizer`, /repo/base/optimizers.go:102-107. -/
noncomputable def newAdadelta : Settings := { newSGD with cfg := { newSGD.cfg with momentum := 0, kind := .adadelta } }

/-- `NewRMSPropOptimizer`, /repo/base/optimizers.go:110-117. -/
noncomputable def newRMSProp : Settings := { newSGD with cfg := { newSGD.cfg with stepSize := 1 / 20, momentum := 0, kind := .rmsprop, gamma := 9 / 10 } }

/-- `NewAdamOptimizer`, /repo/base/optimizers.go:120-123. -/
noncomputable def newAdam : Settings := ⟨⟨.adam, 1 / 2, 0, 0, 0, 1 / 100000000, 9 / 10, 999 / 1000⟩, 1⟩

/-- `Solvers`, /repo/base/optimizers.go:26-32. -/
noncomputable def solvers : List (String × Settings) := [("sgd", newSGD), ("adagrad", newAdagrad), ("rmsprop", newRMSProp), ("adadelta", newAdadelta), ("adam", newAdam)]

/-- `NewSolver`, /repo/base/optimizers.go:35-41, with a call of the creator; `none`: panic. -/
noncomputable def newSolver (name : String) : Option Settings := solvers.lookup name

/-- `NewOptimizer`, /repo/base/optimizers.go:142-157. -/
noncomputable def newOptimizer (name : String) : Option Settings :=
  if name = "sgd" then some newSGD
  else if name = "adagrad" then some newAdagrad
  else if name = "adadelta" then some newAdadelta
  else if name = "rmsprop" then some newRMSProp
  else if name = "adam" then some newAdam
  else none

/-- The methods of gonum. -/
inductive Native where
  | bfgs | cg | gradientDescent | lbfgs | nelderMead
  deriving DecidableEq

/-- A value of type `optimize.Method`. -/
inductive Method where
  | native (m : Native)
  | optimizer (s : Settings)

/-- `GOMethodCreators`, /repo/base/optimizers.go:47-58. -/
noncomputable def methods : List (String × Method) :=
  [("sgd", .optimizer newSGD), ("adagrad", .optimizer newAdagrad), ("rmsprop", .optimizer newRMSProp), ("adadelta", .optimizer newAdadelta), ("adam", .optimizer newAdam),
   ("bfgs", .native .bfgs), ("cg", .native .cg), ("gradientdescent", .native .gradientDescent), ("lbfgs", .native .lbfgs), ("neldermead", .native .nelderMead)]

/-- The `Run` method: gonum's own (the parameter `run`), or `SGDOptimizer.Run`, /repo/base/optimizers.go:345-347, which runs a new `GradientDescent`. -/
def runMethod {P R : Type} (run : Native → P → R) : Method → P → R
  | .native m, p => run m p
  | .optimizer _, p => run .gradientDescent p

/-- `SetTheta`, /repo/base/optimizers.go:160-163, as far as updates are concerned: the parameters are replaced, the running averages and the time step stay. -/
def setTheta {n q : ℕ} (s : Mat n q × St n q) (θ : Mat n q) : Mat n q × St n q := (θ, s.2)

end Sk.OptNames
