import Verif.Model.Linear

/-!
# `LinFitGOM` and the regression objects that use it (`Ridge`)

`optimize.Minimize` of gonum is a parameter: a function of the objective, the gradient and the starting point, possibly different for every output (it evaluates concurrently).  The
work matrices `Ypred`, `Ydiff` that concurrent evaluations for one output share are not modelled: an evaluation is taken to return the value of the loss.
-/
set_option autoImplicit false

namespace Sk.Lin

/-- What the code reads of an `optimize.Result` and of the error returned with it. -/
structure MinRet (p : ℕ) where
  x : Fin p → ℝ
  F : ℝ
  evals : ℕ
  /-- `Status == optimize.Failure`. -/
  failed : Bool
  /-- `err != nil`. -/
  err : Bool

/-- `optimize.Minimize` for one vector; `none`: a nil result (the code then panics when reading it). -/
abbrev Minimizer (p : ℕ) := ((Fin p → ℝ) → ℝ) → ((Fin p → ℝ) → Fin p → ℝ) → (Fin p → ℝ) → Option (MinRet p)

/-- `LinFitResult`, /repo/linear_model/Base.go:311-317. -/
structure GomResult (p q : ℕ) where
  converged : Bool
  rmse : ℝ
  J : ℝ
  epoch : ℕ
  theta : Fin p → Fin q → ℝ

/-- Local variables of the receiving loop, /repo/linear_model/Base.go:521-528. -/
structure GomState (p q : ℕ) where
  theta : Fin p → Fin q → ℝ
  F : ℝ
  epoch : ℕ
  converged : Bool

/-- One round of the receiving loop, /repo/linear_model/Base.go:521-528: the result for output `o` arrives. -/
noncomputable def gomReceive {p q : ℕ} (st : GomState p q) (o : Fin q) (r : MinRet p) : GomState p q :=
  ⟨fun j o' => if o' = o then r.x j else st.theta j o', st.F + r.F, st.epoch + r.evals, st.converged && !r.failed⟩

/-- `LinFitGOM` with `PerOutputFit` (which `LinFit` always sets), /repo/linear_model/Base.go:329-338, 449-529, 554-556.  `J o`, `G o`: loss and gradient for column `o`; `start`: the random
starting matrix; `arrival`: order in which the goroutines finish.  `fitOutput` declares its own `ret, err`, so the variable `err` tested at the end is still nil, whatever happened; the field `J` of the result is never
set. -/
noncomputable def gomPerOutput {p q : ℕ} (minimize : Fin q → Minimizer p) (J : Fin q → (Fin p → ℝ) → ℝ) (G : Fin q → (Fin p → ℝ) → Fin p → ℝ) (start : Fin p → Fin q → ℝ)
    (arrival : List (Fin q)) : Option (GomResult p q) :=
  (arrival.foldlM (fun st o => (minimize o (J o) (G o) (fun j => start j o)).map (gomReceive st o)) (⟨start, 0, 0, true⟩ : GomState p q)).map
    (fun st => ⟨true, Real.sqrt st.F / q, 0, st.epoch, st.theta⟩)

/-- Loss of one output column as a function of its coefficients, /repo/linear_model/Base.go:497-500, with `SquareLoss` and the identity activation (the defaults, 453-458). -/
noncomputable def colJ {n p : ℕ} (X : Fin n → Fin p → ℝ) (alpha l1Ratio : ℝ) (y : Fin n → ℝ) (θ : Fin p → ℝ) : ℝ :=
  squareJ X (fun i (_ : Fin 1) => y i) alpha l1Ratio false (fun j _ => θ j)

/-- Gradient of one output column given to the minimiser, /repo/linear_model/Base.go:501-510. -/
noncomputable def colG {n p : ℕ} (X : Fin n → Fin p → ℝ) (alpha l1Ratio : ℝ) (y : Fin n → ℝ) (θ : Fin p → ℝ) (j : Fin p) : ℝ :=
  squareGrad X (fun i (_ : Fin 1) => y i) alpha l1Ratio false (fun j _ => θ j) j 0

/-- A fitted `RegularizedRegression`: per output the coefficients and intercept (`none`: division by a zero scale), and the result of the solver. -/
structure RidgeFit (p q : ℕ) where
  coefs : Fin q → Option (Coefs p)
  res : GomResult p q

/-- `RegularizedRegression.Fit`, /repo/linear_model/Base.go:107-123, with an empty `Solver`, as in `NewRidge`, /repo/linear_model/ridge.go:9-17.  `old`: the intercepts before the call. -/
noncomputable def ridgeFit {n p q : ℕ} (fitIntercept normalize : Bool) (alpha l1Ratio : ℝ) (minimize : Fin q → Minimizer p) (start : Fin p → Fin q → ℝ) (arrival : List (Fin q)) (old : Fin q → ℝ)
    (X : Fin n → Fin p → ℝ) (Y : Fin n → Fin q → ℝ) : Option (RidgeFit p q) :=
  let pre : Fin q → Pre n p := fun o => preprocess fitIntercept normalize X (fun i => Y i o)
  (gomPerOutput minimize (fun o => colJ (pre o).X alpha l1Ratio (pre o).y) (fun o => colG (pre o).X alpha l1Ratio (pre o).y) start arrival).map
    (fun res => ⟨fun o => setIntercept fitIntercept (pre o) (old o) (fun j => res.theta j o), res⟩)

/-- What the joint branch reads of the result of `optimize.Minimize` and of the error; `last`: the point of the last evaluation of the loss, whose residuals are left in `Ydiff`. -/
structure JointRet (p q : ℕ) where
  x : Fin p → Fin q → ℝ
  last : Fin p → Fin q → ℝ
  evals : ℕ
  err : Bool

/-- `optimize.Minimize` for all outputs together. -/
abbrev JointMinimizer (p q : ℕ) := ((Fin p → Fin q → ℝ) → ℝ) → ((Fin p → Fin q → ℝ) → Fin p → Fin q → ℝ) → (Fin p → Fin q → ℝ) → Option (JointRet p q)

/-- `LinFitGOM` without `PerOutputFit`, /repo/linear_model/Base.go:531-556, with `SquareLoss` and the identity activation (453-458).  `mat.Norm(·, 2)` is the root of the sum of squares.  The
status read at 552 is overwritten at 555. -/
noncomputable def gomJoint {n p q : ℕ} (X : Fin n → Fin p → ℝ) (Y : Fin n → Fin q → ℝ) (alpha l1Ratio : ℝ) (skipFirst : Bool) (minimize : JointMinimizer p q) (start : Fin p → Fin q → ℝ) : Option (GomResult p q) :=
  (minimize (squareJ X Y alpha l1Ratio skipFirst) (squareGrad X Y alpha l1Ratio skipFirst) start).map
    (fun r => ⟨!r.err, Real.sqrt (∑ i, ∑ o, (mulT X r.last i o - Y i o) ^ 2) / q, 0, r.evals, r.x⟩)

end Sk.Lin
