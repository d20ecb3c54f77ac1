import Verif.Model.LinFitGom

/-!
# `SGDRegressor.Fit`

`optimize.Minimize` of gonum is a parameter as in `Model/LinFitGom.lean`.  Every evaluation writes its argument into column `o` of `regr.Coef` and reads that column back; with `NJobs` other than 1 gonum may
evaluate concurrently, so that an evaluation could read what another one wrote: this is not modelled, an evaluation is taken to return the value at its argument.
-/
set_option autoImplicit false

namespace Sk.Lin

/-- The loop over the outputs of `SGDRegressor.Fit`, /repo/linear_model/Base.go:199-267, on the preprocessed data: column `o` becomes what the minimiser returns for output `o`, started from zeros; the error is
ignored.  `none`: a nil result (the code then panics when reading it). -/
noncomputable def sgdColumns {n p q : ℕ} (alpha l1Ratio : ℝ) (minimize : Fin q → Minimizer p) (X : Fin n → Fin p → ℝ) (Y : Fin n → Fin q → ℝ) : Option (Fin p → Fin q → ℝ) :=
  (List.finRange q).foldlM (fun coef o => (minimize o (sgdLoss X (fun i => Y i o) alpha l1Ratio) (sgdGrad X (fun i => Y i o) alpha l1Ratio) (fun _ => 0)).map
    (fun r j o' => if o' = o then r.x j else coef j o')) (fun _ _ => 0)

/-- `SGDRegressor.Fit`, /repo/linear_model/Base.go:164-273: per output the coefficients and intercept (`none`: division by a zero scale).  `old`: the intercepts before the call.  (The preprocessed features are the
same for every output.) -/
noncomputable def sgdFit {n p q : ℕ} (fitIntercept normalize : Bool) (alpha l1Ratio : ℝ) (minimize : Fin q → Minimizer p) (old : Fin q → ℝ) (X : Fin n → Fin p → ℝ) (Y : Fin n → Fin q → ℝ) :
    Option (Fin q → Option (Coefs p)) :=
  let pre : Fin q → Pre n p := fun o => preprocess fitIntercept normalize X (fun i => Y i o)
  (sgdColumns alpha l1Ratio minimize (preprocess fitIntercept normalize X (fun _ => 0)).X (fun i o => (pre o).y i)).map
    (fun theta o => setIntercept fitIntercept (pre o) (old o) (fun j => theta j o))

end Sk.Lin
