import Verif.Model.NaiveBayes

/-!
# `GaussianNB.PredicterClone` (`naive_bayes/naivebayes.go`): what a clone shares with its original

Objects are numbered in the order of their creation.  `Theta`, `Sigma`, `ClassCount` and `ClassPrior` are allocated together by the first `PartialFit` and afterwards written in place: one heap cell,
reached through the pointer `ptr`.  `Classes` and `Epsilon` are replaced as a whole.  The closure `jointLogLikelihood` captures the receiver of the `PartialFit` that made it, so it reads the fields that *that*
object has at the time of the prediction.  `none` is a panic (what a caller that recovers from one would see is not modelled).
-/
set_option autoImplicit false

namespace Sk.NBClone
open Sk.NB

/-- The slices and matrices written in place, /repo/naive_bayes/naivebayes.go:100-103. -/
structure Cell (K : Type) where
  stats : List (Stat K)
  prior : List K

/-- One estimator; `closure` is the object captured by `jointLogLikelihood`. -/
structure Obj (K : Type) where
  ptr : Option ℕ
  classes : List K
  eps : K
  closure : Option ℕ

/-- All estimators and all cells, in order of allocation. -/
structure St (K : Type) where
  objs : List (Obj K)
  heap : List (Cell K)

/-- A program.  `clear i` is the assignment `i.Theta = nil` by which a caller makes a fitted estimator accept `Fit` again. -/
inductive Op (K : Type) where
  | create
  | clone (i : ℕ)
  | clear (i : ℕ)
  | fit (i p : ℕ) (S : List (Sample K))
  | partialFit (i p : ℕ) (S : List (Sample K)) (classes : List K)

section
variable {K : Type} [Field K] [LinearOrder K] [IsStrictOrderedRing K]

/-- The fitted state that the fields of an object denote (`none`: `Theta` is nil). -/
def denote (st : St K) (o : Obj K) : Option (Fitted K) :=
  o.ptr.bind (fun a => (st.heap[a]?).map (fun c => ⟨o.classes, c.stats, c.prior, o.eps⟩))

/-- `PartialFit` on object `i`, /repo/naive_bayes/naivebayes.go:140-261: the arithmetic is that of `Sk.NB.partialFit`; the results go to the cell the object points to, or to a new one on the first call; the closure captures `i`. -/
def partialFit (tol vs : K) (priors : Option (List K)) (st : St K) (i p : ℕ) (S : List (Sample K)) (classes : List K) (refit : Bool) : Option (St K) := do
  let o ← st.objs[i]?
  let f ← NB.partialFit tol vs priors (denote st o) p S classes refit
  match o.ptr with
  | some a => some ⟨st.objs.set i ⟨some a, f.classes, f.eps, some i⟩, st.heap.set a ⟨f.stats, f.prior⟩⟩
  | none => some ⟨st.objs.set i ⟨some st.heap.length, f.classes, f.eps, some i⟩, st.heap ++ [⟨f.stats, f.prior⟩]⟩

/-- One statement: `NewGaussianNB` (/repo/naive_bayes/naivebayes.go:110-117), `PredicterClone` (127-130: the struct is copied, with its pointers and its closure), `Fit` (133-137), `PartialFit`. -/
def step (tol vs : K) (priors : Option (List K)) (st : St K) : Op K → Option (St K)
  | .create => some { st with objs := st.objs ++ [⟨none, [], 0, none⟩] }
  | .clone i => (st.objs[i]?).map (fun o => { st with objs := st.objs ++ [o] })
  | .clear i => (st.objs[i]?).map (fun o => { st with objs := st.objs.set i { o with ptr := none } })
  | .fit i p S => partialFit tol vs priors st i p S (npUnique (S.map Sample.y)) true
  | .partialFit i p S classes => partialFit tol vs priors st i p S classes false

def run (tol vs : K) (priors : Option (List K)) (ops : List (Op K)) : Option (St K) := ops.foldlM (step tol vs priors) ⟨[], []⟩

/-- What `Predict` of object `i` reads, /repo/naive_bayes/naivebayes.go:41-46, 237-260: its own `Classes`, and through the closure the fields of the captured object. -/
def reads (st : St K) (i : ℕ) : Option (List K × Fitted K) := do
  let o ← st.objs[i]?
  let c ← o.closure
  let oc ← st.objs[c]?
  let f ← denote st oc
  some (o.classes, f)

end

/-- `Predict` for one row, /repo/naive_bayes/naivebayes.go:41-46: `jll` has one entry per class of the object (zero at first), the closure writes one entry per class of the captured object. -/
noncomputable def predict (st : St ℝ) (i : ℕ) (x : List ℝ) : Option ℝ :=
  match reads st i with
  | none => none
  | some (own, f) =>
    let l := jll f x
    if own.length < l.length ∨ own = [] then none
    else own[(maxIdx (l ++ List.replicate (own.length - l.length) 0)).1]?

end Sk.NBClone
