import Verif.Model.EnetMT
import Verif.Model.Linear
import Verif.Model.Parallel
import Mathlib.Analysis.SpecialFunctions.Pow.Real

/-!
# `linear_model/coordinatedescent.go`: `ElasticNet.Fit`, `EnetPath`

Floats are real numbers.  `n` samples, `p` features, `q` outputs.
-/
set_option autoImplicit false

namespace Sk.EnetFit

variable {n p q : ℕ}

/-- The fields of `ElasticNet` set by the caller, /repo/linear_model/coordinatedescent.go:20-27. -/
structure Params where
  fitIntercept : Bool
  normalize : Bool
  alpha : ℝ
  l1Ratio : ℝ
  tol : ℝ
  maxIter : ℕ
  warmStart : Bool
  positive : Bool

/-- Result of a fit with one output. -/
structure Fitted (p : ℕ) where
  coefs : Sk.Lin.Coefs p
  gap : ℝ
  nIter : ℕ

/-- `ElasticNet.Fit` with one output, /repo/linear_model/coordinatedescent.go:54-80.  `before` are the coefficients found in the struct (`none`: nil), `old` the intercept.  `draws` as in
`Sk.Enet`.  `none`: panic, or `NaN` coefficients (zero scale).  Simplification: coefficients left from data with another number of features are not considered. -/
noncomputable def fitEN (P : Params) (draws : ℕ → List (Fin p)) (before : Option (Fin p → ℝ)) (old : ℝ) (X : Fin n → Fin p → ℝ) (y : Fin n → ℝ) : Option (Fitted p) :=
  let pre := Sk.Lin.preprocess P.fitIntercept P.normalize X y
  let l1reg := P.alpha * P.l1Ratio * n
  let l2reg := P.alpha * (1 - P.l1Ratio) * n
  (if P.warmStart then before else some (fun _ => 0)).bind fun w =>
    let r := Sk.Enet.enet pre.X pre.y l1reg l2reg P.maxIter P.tol P.positive draws w
    (Sk.Lin.setIntercept P.fitIntercept pre old r.w).map fun c => ⟨c, r.gap, r.nIter⟩

/-- Result of a fit with several outputs: per output the coefficients and intercept. -/
structure FittedMT (p q : ℕ) where
  coefs : Fin q → Sk.Lin.Coefs p
  gap : ℝ
  nIter : ℕ

/-- `ElasticNet.Fit` with several outputs, /repo/linear_model/coordinatedescent.go:54-80.  Parameters as in `fitEN`; `before` has one row per feature.  The features after `PreprocessData` do not
depend on the targets. -/
noncomputable def fitMT (P : Params) (draws : ℕ → List (Fin p)) (before : Option (Fin p → Fin q → ℝ)) (old : Fin q → ℝ) (X : Fin n → Fin p → ℝ) (Y : Fin n → Fin q → ℝ) : Option (FittedMT p q) :=
  let pre : Fin q → Sk.Lin.Pre n p := fun o => Sk.Lin.preprocess P.fitIntercept P.normalize X (fun i => Y i o)
  let l1reg := P.alpha * P.l1Ratio * n
  let l2reg := P.alpha * (1 - P.l1Ratio) * n
  (if P.warmStart then before else some (fun _ _ => 0)).bind fun W =>
    let r := Sk.EnetMT.enetMT (Sk.Lin.preprocess P.fitIntercept P.normalize X (fun _ => 0)).X (fun i o => (pre o).y i) l1reg l2reg P.maxIter P.tol P.positive draws W
    let c : Fin q → Option (Sk.Lin.Coefs p) := fun o => Sk.Lin.setIntercept P.fitIntercept (pre o) (old o) (fun j => r.W j o)
    open Classical in
    if h : ∀ o, (c o).isSome then some ⟨fun o => (c o).get (h o), r.gap, r.nIter⟩ else none

/-! ## The path -/

/-- `alphaMax` in `alphaGrid`, /repo/linear_model/coordinatedescent.go:115-128. -/
noncomputable def alphaMax (X : Fin n → Fin p → ℝ) (Y : Fin n → Fin q → ℝ) (l1Ratio : ℝ) : ℝ :=
  Sk.EnetMT.lmax (List.ofFn (fun i => √((∑ j, X i j ^ 2) + ∑ o, Y i o ^ 2))) * (n * l1Ratio)

/-- `math.Log10`. -/
noncomputable def log10 (x : ℝ) : ℝ := Real.log x / Real.log 10

/-- The loop of `alphaGrid`, /repo/linear_model/coordinatedescent.go:131-133. -/
noncomputable def gridLoop (incp : ℝ) : ℕ → ℝ → List ℝ
  | 0, _ => []
  | k + 1, p => (10 : ℝ) ^ p :: gridLoop incp k (p + incp)

/-- `alphaGrid`, /repo/linear_model/coordinatedescent.go:113-135, for a positive `alphaMax`·`eps` and at least two alphas (otherwise the code computes with infinities). -/
noncomputable def alphaGrid (X : Fin n → Fin p → ℝ) (Y : Fin n → Fin q → ℝ) (l1Ratio eps : ℝ) (nAlphas : ℕ) : List ℝ :=
  let aMax := alphaMax X Y l1Ratio
  let minp := log10 (aMax * eps)
  let maxp := log10 aMax
  let incp := (maxp - minp) / ((nAlphas : ℝ) - 1)
  gridLoop incp nAlphas minp

/-- The alphas of `EnetPath`, /repo/linear_model/coordinatedescent.go:140-145: `copy` into a slice of `NAlphas` zeros. -/
noncomputable def pathAlphas (X : Fin n → Fin p → ℝ) (Y : Fin n → Fin q → ℝ) (l1Ratio eps : ℝ) (nAlphas : ℕ) (given : Option (List ℝ)) : List ℝ :=
  match given with
  | none => alphaGrid X Y l1Ratio eps nAlphas
  | some l => l.take nAlphas ++ List.replicate (nAlphas - l.length) 0

/-- Entries number `i` of `coefs`, `dualGaps` and `nIters`. -/
structure Slot (p q : ℕ) where
  coef : Option (Fin p → Fin q → ℝ)
  gap : ℝ
  nIter : ℕ

/-- The fit made for one alpha, /repo/linear_model/coordinatedescent.go:153-160 with 54-80: no preprocessing (scale 1, nothing centred), 1000 iterations, cyclic selection, from zero. -/
noncomputable def pathFit (X : Fin n → Fin p → ℝ) (Y : Fin n → Fin q → ℝ) (l1Ratio eps : ℝ) (positive : Bool) (alpha : ℝ) : (Fin p → Fin q → ℝ) × ℝ × ℕ :=
  let l1reg := alpha * l1Ratio * n
  let l2reg := alpha * (1 - l1Ratio) * n
  if h : q = 1 then
    let r := Sk.Enet.enet X (fun i => Y i ⟨0, by omega⟩) l1reg l2reg 1000 eps positive (fun _ => List.finRange p) (fun _ => 0)
    (fun j _ => r.w j, r.gap, r.nIter)
  else
    let r := Sk.EnetMT.enetMT X Y l1reg l2reg 1000 eps positive (fun _ => List.finRange p) (fun _ _ => 0)
    (r.W, r.gap, r.nIter)

/-- The goroutine started for alpha number `i`, /repo/linear_model/coordinatedescent.go:152-165: three writes into its own entries. -/
noncomputable def worker (X : Fin n → Fin p → ℝ) (Y : Fin n → Fin q → ℝ) (l1Ratio eps : ℝ) (positive : Bool) (i : ℕ) (alpha : ℝ) : List (Sk.Parallel.Act (Slot p q)) :=
  let f := pathFit X Y l1Ratio eps positive alpha
  [⟨i, fun s => { s with coef := some f.1 }⟩, ⟨i, fun s => { s with gap := f.2.1 }⟩, ⟨i, fun s => { s with nIter := f.2.2 }⟩]

/-- `EnetPath`, /repo/linear_model/coordinatedescent.go:139-170: `out` is a possible content of the result slices after `wg.Wait()`, under some schedule of the goroutines. -/
def PathResult (X : Fin n → Fin p → ℝ) (Y : Fin n → Fin q → ℝ) (l1Ratio eps : ℝ) (nAlphas : ℕ) (given : Option (List ℝ)) (positive : Bool) (out : ℕ → Slot p q) : Prop :=
  Sk.Parallel.Run ((pathAlphas X Y l1Ratio eps nAlphas given).mapIdx (worker X Y l1Ratio eps positive)) (fun _ => ⟨none, 0, 0⟩) out

/-- `LassoPath`, /repo/linear_model/coordinatedescent.go:173-176. -/
def LassoPathResult (X : Fin n → Fin p → ℝ) (Y : Fin n → Fin q → ℝ) (eps : ℝ) (nAlphas : ℕ) (given : Option (List ℝ)) (positive : Bool) (out : ℕ → Slot p q) : Prop :=
  PathResult X Y 1 eps nAlphas given positive out

end Sk.EnetFit
