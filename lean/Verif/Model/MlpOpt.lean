import Verif.Model.Mlp

/-!
# `neural_network/basemlp64.go`: the LBFGS solver, weight decay and batch normalisation

`float64` is ℝ.  The minimiser of gonum (`optimize.Minimize`) is not modelled: it is any sequence of calls of the two closures it is given.  `basemlp32.go` is the same text with `32`.
-/
set_option autoImplicit false

namespace Sk.MlpOpt
open Sk.Mlp

/-! ## `fitLbfgs` -/

/-- The fields that the closures write, /repo/neural_network/basemlp64.go:57-75: the parameters, the gradient (`packedGrads`), `Loss`, `LossCurve`, `BestLoss` (`none` is +Inf). -/
structure State (P : Type) where
  packed : P
  grads : P
  loss : ℝ
  curve : List ℝ
  best : Option ℝ

/-- A call by the minimiser: the value at `w`, or the gradient at `w` (`Grad(g, w)`). -/
inductive Call (P : Type) where
  | func (w : P)
  | grad (w : P)

inductive Answer (P : Type) where
  | val (v : ℝ)
  | vec (g : P)

section
variable {P : Type}

/-- `Func`, /repo/neural_network/basemlp64.go:690-703: the parameters are overwritten by `w`; `backprop` first shrinks them (`decay`, l.343-347), then computes the loss and writes the gradients. -/
noncomputable def evalFunc (decay : P → P) (lossAt : P → ℝ) (gradAt : P → P) (s : State P) (w : P) : State P × ℝ :=
  let p := decay w
  let l := lossAt p
  let best := match s.best with
    | none => some l
    | some b => if b > l then some l else some b
  (⟨p, gradAt p, l, s.curve ++ [l], best⟩, l)

/-- One call; `Grad`, /repo/neural_network/basemlp64.go:704-712, copies `packedGrads` and does not look at `w`. -/
noncomputable def call (decay : P → P) (lossAt : P → ℝ) (gradAt : P → P) (s : State P) : Call P → State P × Answer P
  | .func w => let r := evalFunc decay lossAt gradAt s w; (r.1, .val r.2)
  | .grad _ => (s, .vec s.grads)

/-- The calls of one minimisation, with the answers. -/
noncomputable def calls (decay : P → P) (lossAt : P → ℝ) (gradAt : P → P) : State P → List (Call P) → State P × List (Answer P)
  | s, [] => (s, [])
  | s, c :: cs =>
    let r := call decay lossAt gradAt s c
    let rs := calls decay lossAt gradAt r.1 cs
    (rs.1, r.2 :: rs.2)

/-- `fitLbfgs`, /repo/neural_network/basemlp64.go:676-728, after `initialize` (409-483: new parameters, `BestLoss` infinite, `LossCurve` untouched; `zero` is the new `packedGrads` of l.540): the calls of the minimiser; its result
is only looked at for its status. -/
noncomputable def fitLbfgs (decay : P → P) (lossAt : P → ℝ) (gradAt : P → P) (zero init : P) (s : State P) (cs : List (Call P)) : State P × List (Answer P) :=
  calls decay lossAt gradAt { s with packed := init, grads := zero, best := none } cs

end

/-- The decay at the beginning of `backprop`, /repo/neural_network/basemlp64.go:343-347: all parameters, intercepts included. -/
noncomputable def decayVec {N : ℕ} (wd : ℝ) (w : Fin N → ℝ) : Fin N → ℝ := if 0 < wd then fun i => w i * (1 - wd) else w

/-! ## Batch normalisation -/

/-- The largest absolute value of a column, /repo/neural_network/basemlp64.go:283-290. -/
noncomputable def colMax {n h : ℕ} (A : Fin n → Fin h → ℝ) (o : Fin h) : ℝ := (List.ofFn (fun i => A i o)).foldl (fun M v => if M < |v| then |v| else M) 0

/-- The new activations of one layer, /repo/neural_network/basemlp64.go:291-297. -/
noncomputable def normalize {n h : ℕ} (A : Fin n → Fin h → ℝ) : Fin n → Fin h → ℝ := fun i o => if 0 < colMax A o then A i o / colMax A o else A i o

/-- A matrix with `n` rows. -/
abbrev Mat (n : ℕ) : Type := Σ h : ℕ, Fin n → Fin h → ℝ

/-- The slice `activations` after `forwardPass`, /repo/neural_network/basemlp64.go:260-275: the input, the hidden layers, the output. -/
noncomputable def acts (a : Act) (out : Out) {n : ℕ} : {p : ℕ} → (hs : List ℕ) → {q : ℕ} → Params p hs q → (Fin n → Fin p → ℝ) → List (Mat n)
  | p, [], q, L, X => [⟨p, X⟩, ⟨q, fun i => out.f (affine L (X i))⟩]
  | p, _ :: hs, _, (L, θ), X => ⟨p, X⟩ :: acts a out hs θ (fun i o => a.f (affine L (X i) o))

/-- `batchNormalize`, /repo/neural_network/basemlp64.go:278-300: all matrices but the first and the last. -/
noncomputable def batchNormalize {n : ℕ} : List (Mat n) → List (Mat n)
  | [] => []
  | x :: rest => x :: (rest.dropLast.map (fun A => ⟨A.1, normalize A.2⟩) ++ rest.getLast?.toList)

/-- A sum in which `none` stands for a value that is NaN or infinite. -/
noncomputable def sumO {n : ℕ} (f : Fin n → Option ℝ) : Option ℝ := if ∀ i, (f i).isSome then some (∑ i, (f i).getD 0) else none

/-- Gradients of one layer; `none`: NaN or infinite. -/
abbrev OLayer (p q : ℕ) : Type := (Fin p → Fin q → Option ℝ) × (Fin q → Option ℝ)

def OParams : ℕ → List ℕ → ℕ → Type
  | p, [], q => OLayer p q
  | p, h :: hs, q => OLayer p h × OParams h hs q

/-- `computeLossGrad`, /repo/neural_network/basemlp64.go:323-331.  `dgemm` of gonum (outside the repository) leaves out the terms whose activation is zero; this is an assumption. -/
noncomputable def layerGradO {n p q : ℕ} (alpha : ℝ) (L : Layer p q) (X : Fin n → Fin p → ℝ) (D : Fin n → Fin q → Option ℝ) : OLayer p q :=
  (fun j o => (sumO (fun i => if X i j = 0 then some 0 else (D i o).map (fun d => X i j * d))).map (fun s => 1 / n * s + alpha / n * L.1 j o),
   fun o => (sumO (fun i => D i o)).map (fun s => s / n))

/-- `inplaceDerivative`, /repo/neural_network/basemlp64.go:120-148: `relu` stores a zero, the others multiply. -/
noncomputable def backO (a : Act) (z : ℝ) (d : Option ℝ) : Option ℝ := if a = .relu ∧ z = 0 then some 0 else d.map (a.back z)

/-- `batchNormalizeDeltas`, /repo/neural_network/basemlp64.go:303-309, one cell: no test for zero. -/
noncomputable def divO (d : Option ℝ) (M : ℝ) : Option ℝ := if M = 0 then none else d.map (fun v => v / M)

/-- The backward part of `backprop` with `BatchNormalize`, /repo/neural_network/basemlp64.go:382-405.  `X` are the activations before the normalisation (from which the next layers were computed, l.348), `N` those after it
(l.349-352), which the gradients use. -/
noncomputable def bnBackward (a : Act) (alpha : ℝ) {n : ℕ} : {p : ℕ} → (hs : List ℕ) → {q : ℕ} → Params p hs q → (X N : Fin n → Fin p → ℝ) → (Fin n → Fin q → Option ℝ) → OParams p hs q × (Fin n → Fin p → Option ℝ)
  | _, [], _, L, _, N, D => (layerGradO alpha L N D, fun i j => sumO (fun o => (D i o).map (fun d => d * L.1 j o)))
  | _, _ :: hs, _, (L, θ), X, N, D =>
    let A := fun i o => a.f (affine L (X i) o)
    let r := bnBackward a alpha hs θ A (normalize A) D
    let D' := fun i o => divO (backO a (normalize A i o) (r.2 i o)) (colMax A o)
    ((layerGradO alpha L N D', r.1), fun i j => sumO (fun o => (D' i o).map (fun d => d * L.1 j o)))

/-- Gradients written by `backprop` with `BatchNormalize`, /repo/neural_network/basemlp64.go:341-407. -/
noncomputable def bnGrads (a : Act) (out : Out) (alpha : ℝ) {n p q : ℕ} (hs : List ℕ) (X : Fin n → Fin p → ℝ) (y : Fin n → Fin q → ℝ) (θ : Params p hs q) : OParams p hs q :=
  (bnBackward a alpha hs θ X X (fun i o => some (forward a out hs θ (X i) o - y i o))).1

end Sk.MlpOpt
