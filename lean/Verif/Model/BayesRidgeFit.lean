import Verif.Model.BayesRidge
import Verif.Model.Linear

/-!
# `linear_model/bayes.go`: the whole of `BayesianRidge.Fit`

The loop is `Sk.Bayes.fit`; here it is put between `PreprocessData` and `setIntercept`.
-/
set_option autoImplicit false

namespace Sk.Bayes

variable {n p q : ℕ}

/-- Fields of a fitted `BayesianRidge`, /repo/linear_model/bayes.go:13-21 and `LinearModel`, /repo/linear_model/Base.go:28-35. -/
structure Full (p q : ℕ) where
  coefs : Fin q → Sk.Lin.Coefs p
  alpha : ℝ
  lambda : ℝ
  sigma : Matrix (Fin p) (Fin p) ℝ

/-- `Fit`, /repo/linear_model/bayes.go:48-204: `PreprocessData` (50), the decomposition of the preprocessed features (`svd`: singular values and right factor, any function), the loop, and
`setIntercept` (203) with an intercept that has just been set to zero (202).  The features after `PreprocessData` do not depend on the targets. `lambda0` as in `fit`. -/
noncomputable def fitFull (fitIntercept normalize : Bool) (h : Hyper) (svd : Matrix (Fin n) (Fin p) ℝ → (Fin p → ℝ) × Matrix (Fin p) (Fin p) ℝ) (lambda0 : ℝ) (X : Fin n → Fin p → ℝ) (Y : Fin n → Fin q → ℝ) :
    Option (Full p q) :=
  let pre : Fin q → Sk.Lin.Pre n p := fun o => Sk.Lin.preprocess fitIntercept normalize X (fun i => Y i o)
  let Xs : Matrix (Fin n) (Fin p) ℝ := Matrix.of (Sk.Lin.preprocess fitIntercept normalize X (fun _ => 0)).X
  (fit h ⟨Xs, Matrix.of fun i o => (pre o).y i, (svd Xs).2, (svd Xs).1⟩ lambda0).bind fun f =>
    let c : Fin q → Option (Sk.Lin.Coefs p) := fun o => Sk.Lin.setIntercept fitIntercept (pre o) 0 (fun j => f.coef j o)
    open Classical in
    if hc : ∀ o, (c o).isSome then some ⟨fun o => (c o).get (hc o), f.alpha, f.lambda, f.sigma⟩ else none

end Sk.Bayes
