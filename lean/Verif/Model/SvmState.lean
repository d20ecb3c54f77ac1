import Verif.Model.Svm

/-!
# `SVC` and `SVR` as objects (`svm/svm.go`, `svm/svr.go`): settings, fitting, cloning, predicting

The training of one output is a parameter `solve`: given the kernel, the settings, the rows, the targets of the output and the random draws it returns the support indices with their coefficients and the offset, or
`none` (panic, or no end); `Verif/Model/Svm.lean` models it.  The draws of every fit and output are given by the program, so nothing is assumed about the random source (nor about the order in which concurrent outputs
draw from it).  Objects and slices of models are numbered in order of allocation.  `exp`, `tanh` and `pow` are parameters.
-/
set_option autoImplicit false

namespace Sk.SvmState

variable {K : Type} [Field K] [LinearOrder K] [IsStrictOrderedRing K]

/-- The dynamic type of the field `Kernel`, /repo/svm/svm.go:203: a name, a function (or a value with method `Func`), anything else. -/
inductive KernelSpec (K : Type) where
  | name (s : String)
  | func (k : List K → List K → K)
  | other

/-- The settings other than `Gamma`, /repo/svm/svm.go:201-212 (`Shrinking` is never read; `CacheSize` does not change values, C35). -/
structure Rest (K : Type) where
  c : K
  epsilon : K
  kernel : KernelSpec K
  degree : K
  coef0 : K
  tol : K
  maxIter : ℤ

/-- The transcendental functions used by the kernels. -/
structure Fns (K : Type) where
  exp : K → K
  tanh : K → K
  pow : K → K → K

/-- A trained output, /repo/svm/svm.go:23-31: support rows with their coefficients (`alpha * y` for `SVC`, `alpha` for `SVR`), offset, kernel, indices. -/
structure Model (K : Type) where
  rows : List (List K)
  coefs : List K
  b : K
  kernel : List K → List K → K
  support : List ℕ

/-- The training of one output. -/
abbrev Solve (K D : Type) := (List K → List K → K) → Rest K → List (List K) → List K → D → Option (List (ℕ × K) × K)

/-- One estimator: the settings, the number of outputs and the slice of models. -/
structure Obj (K : Type) where
  gamma : K
  rest : Rest K
  nOut : ℕ
  ptr : Option ℕ

structure St (K : Type) where
  objs : List (Obj K)
  heap : List (List (Model K))

/-- A program: construct, clone, assign to `Gamma`, assign to the other settings, fit on rows and target columns with given draws per output. -/
inductive Op (K D : Type) where
  | create
  | clone (i : ℕ)
  | setGamma (i : ℕ) (g : K)
  | setRest (i : ℕ) (r : Rest K)
  | fit (i : ℕ) (X : List (List K)) (Y : List (List K)) (d : ℕ → D)

/-- `NewSVC` and `NewSVR`, /repo/svm/svm.go:230-235, /repo/svm/svr.go:25-30. -/
def new : Obj K := ⟨0, ⟨1, 1 / 10, .name "rbf", 3, 0, 1 / 1000, 0⟩, 0, none⟩

/-- The kernel chosen by /repo/svm/svm.go:270-289. -/
def kernelOf (F : Fns K) (gamma : K) (r : Rest K) : Option (List K → List K → K) :=
  match r.kernel with
  | .func k => some k
  | .name s =>
    if s = "linear" then some Svm.linearKernel
    else if s = "poly" ∨ s = "polynomial" then some (Svm.polyKernel F.pow gamma r.coef0 r.degree)
    else if s = "sigmoid" then some (Svm.sigmoidKernel F.tanh gamma r.coef0)
    else some (Svm.rbfKernel F.exp gamma)
  | .other => none

/-- The number of features of the rows. -/
def width (X : List (List K)) : ℕ := (X.headD []).length

/-- One pass of the loop of /repo/svm/svm.go:297-306 with the end of `svmTrain` (/repo/svm/svm.go:156-168) or `svrTrain` (/repo/svm/svr.go:179-189): the rows of the support indices are copied. -/
def trainOutput {D : Type} (solve : Solve K D) (k : List K → List K → K) (r : Rest K) (X : List (List K)) (y : List K) (d : D) : Option (Model K) := do
  let (sup, b) ← solve k r X y d
  let rows ← sup.mapM (fun e => X[e.1]?)
  some ⟨rows, sup.map Prod.snd, b, k, sup.map Prod.fst⟩

/-- `fit`, /repo/svm/svm.go:263-308 with `SVC.Fit` (253-258) and `SVR.Fit` (/repo/svm/svr.go:194-199): `Gamma` and `MaxIter` are stored back, a new slice of models is made, one output at a time. -/
def fit {D : Type} (F : Fns K) (solve : Solve K D) (st : St K) (i : ℕ) (X Y : List (List K)) (d : ℕ → D) : Option (St K) := do
  let o ← st.objs[i]?
  let gamma := if o.gamma ≤ 0 then 1 / (width X : K) else o.gamma
  let k ← kernelOf F gamma o.rest
  let rest := if o.rest.maxIter ≤ 0 then { o.rest with maxIter := 2147483647 } else o.rest
  let models ← (List.range Y.length).mapM (fun j => (Y[j]?).bind (fun y => trainOutput solve k rest X y (d j)))
  some ⟨st.objs.set i ⟨gamma, rest, Y.length, some st.heap.length⟩, st.heap ++ [models]⟩

/-- One statement; `PredicterClone` is /repo/svm/svm.go:238-247, /repo/svm/svr.go:36-45. -/
def step {D : Type} (F : Fns K) (solve : Solve K D) (st : St K) : Op K D → Option (St K)
  | .create => some { st with objs := st.objs ++ [new] }
  | .clone i => (st.objs[i]?).map (fun o => { st with objs := st.objs ++ [o] })
  | .setGamma i g => (st.objs[i]?).map (fun o => { st with objs := st.objs.set i { o with gamma := g } })
  | .setRest i r => (st.objs[i]?).map (fun o => { st with objs := st.objs.set i { o with rest := r } })
  | .fit i X Y d => fit F solve st i X Y d

def run {D : Type} (F : Fns K) (solve : Solve K D) (ops : List (Op K D)) : Option (St K) := ops.foldlM (step F solve) ⟨[], []⟩

/-- The decision value of one output, /repo/svm/svm.go:183-187, /repo/svm/svr.go:209-212. -/
def decision (M : Model K) (x : List K) : K := (List.zipWith (fun c r => c * M.kernel x r) M.coefs M.rows).sum + M.b

/-- `Predict` of object `i` for one row: one value for each output; `SVC` (`binary`) gives 1 or 0, /repo/svm/svm.go:311-328, 188-196; `SVR` the decision value, /repo/svm/svr.go:218-233. -/
def predict (binary : Bool) (st : St K) (i : ℕ) (x : List K) : Option (List K) := do
  let o ← st.objs[i]?
  let a ← o.ptr
  let ms ← st.heap[a]?
  (List.range o.nOut).mapM (fun j => (ms[j]?).map (fun M => if binary then (if 0 ≤ decision M x then 1 else 0) else decision M x))

end Sk.SvmState
