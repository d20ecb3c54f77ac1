import Verif.Model.Kernels

/-!
# Gaussian process regressors as objects, /repo/gaussian_process/gpr.go

`Alpha` is a slice: several regressors can hold the same one, so regressors hold an address of a cell and the cells are in a heap.  Kernels are values: the regressor
reaches its kernels through pointers, but the only writes through them are the caller's (`Theta()` of a kernel is mutable), which are not modelled; in particular
`NewRegressor` makes `Kernel` and `KernelOpt` the same pointer.  `NormalizeY`, `NRestartsOptimizer` and `RandomState` are not read by any method and left out, as is `L`, never set by the package.
-/
set_option autoImplicit false

namespace Sk.GP

/-- `Regressor`, /repo/gaussian_process/gpr.go:17-31. -/
structure GObj (d q : ℕ) where
  kernel : Kern
  kernelOpt : Kern
  alpha : ℕ
  train : Option (Σ n : ℕ, (Fin n → Fin d → ℝ) × (Fin n → Fin q → ℝ))

/-- The regressors and the contents of the `Alpha` slices. -/
structure GState (d q : ℕ) where
  objs : List (GObj d q)
  heap : List (List ℝ)

/-- What the caller can do: `new`: `NewRegressor(k)`; `clone i`: `PredicterClone`; `fit i X Y`; `setAlpha i l`: assign the field `Alpha`; `writeAlpha i p v`: `m.Alpha[p] = v`; `setKernel i k`: assign the
field `Kernel`. -/
inductive GOp (d q : ℕ) where
  | new (k : Kern)
  | clone (i : ℕ)
  | fit (i : ℕ) {n : ℕ} (X : Fin n → Fin d → ℝ) (Y : Fin n → Fin q → ℝ)
  | setAlpha (i : ℕ) (l : List ℝ)
  | writeAlpha (i p : ℕ) (v : ℝ)
  | setKernel (i : ℕ) (k : Kern)

/-- `CloneWithTheta(k.Theta())`, /repo/gaussian_process/gpr.go:57-60. -/
noncomputable def Kern.selfClone (k : Kern) : Option Kern := k.theta.bind k.clone

/-- `PredicterClone`, /repo/gaussian_process/gpr.go:47-65: a copy of the struct (`clone := *m`, so `Alpha` is the same slice) with copied training data and kernels made by `CloneWithTheta(Theta())`. -/
noncomputable def GObj.clone {d q : ℕ} (o : GObj d q) : Option (GObj d q) :=
  o.kernel.selfClone.bind fun k => o.kernelOpt.selfClone.map fun k' => { o with kernel := k, kernelOpt := k' }

/-- One call; `none`: panic (or a regressor that does not exist).  `NewRegressor` 34-41, `Fit` 76-84 (the assignments come before the panic on a wrong `Alpha`; a panic ends the run here). -/
noncomputable def gstep {d q : ℕ} (st : GState d q) : GOp d q → Option (GState d q)
  | .new k => some ⟨st.objs ++ [⟨k, k, st.heap.length, none⟩], st.heap ++ [[1e-10]]⟩
  | .clone i => (st.objs[i]?).bind fun o => o.clone.map fun c => { st with objs := st.objs ++ [c] }
  | .fit i (n := n) X Y => (st.objs[i]?).bind fun o => (st.heap[o.alpha]?).bind fun a =>
      if a.length ≠ 1 ∧ a.length ≠ q then none else some { st with objs := st.objs.set i { o with train := some ⟨n, X, Y⟩ } }
  | .setAlpha i l => (st.objs[i]?).map fun o => ⟨st.objs.set i { o with alpha := st.heap.length }, st.heap ++ [l]⟩
  | .writeAlpha i p v => (st.objs[i]?).bind fun o => (st.heap[o.alpha]?).bind fun a =>
      if p < a.length then some { st with heap := st.heap.set o.alpha (a.set p v) } else none
  | .setKernel i k => (st.objs[i]?).map fun o => { st with objs := st.objs.set i { o with kernel := k } }

/-- A sequence of calls. -/
noncomputable def grun {d q : ℕ} (st : GState d q) (ops : List (GOp d q)) : Option (GState d q) := ops.foldlM gstep st

end Sk.GP
