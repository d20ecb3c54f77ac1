import Mathlib.Algebra.BigOperators.Group.Finset.Basic
import Mathlib.Algebra.BigOperators.Fin
import Mathlib.Algebra.Order.Field.Basic
import Mathlib.Data.Fintype.Basic
import Mathlib.Data.List.FinRange

/-!
# `svm/cache.go`, `svm/svm.go`, `svm/svr.go`

Exact arithmetic in a linearly ordered field.  A vector with one entry per sample is a function on `Fin m`.  The random generator is a parameter: `rand.Intn(n)` is
`r % n` for an arbitrary raw number `r`, a panic for `n = 0`.
-/
set_option autoImplicit false

namespace Sk.Svm

/-! ### The kernel cache -/

/-- State of the closure returned by `cachedKernel`, /repo/svm/cache.go:19-22.  The map of off-diagonal entries is the list of its (key, (time, value)) pairs, the
counter of uses does not wrap around. -/
structure Cache (D : Type) where
  diag : List (Option D)
  nd : List ((ℕ × ℕ) × (ℕ × D))
  time : ℕ

/-- `KcacheCap`, /repo/svm/cache.go:19: 64-bit shift, entries of 16 bytes. -/
def capOf (cacheSize : ℕ) : ℕ := cacheSize * 2 ^ 20 % 2 ^ 64 / 16

/-- Fresh cache for `m` samples, /repo/svm/cache.go:20-22. -/
def newCache (D : Type) (m : ℕ) : Cache D := ⟨List.replicate m none, [], 0⟩

/-- The key chosen for eviction, /repo/svm/cache.go:43-51: the first strictly older one met while iterating; `(0, 0)` when there is none. -/
def oldest {D : Type} (time : ℕ) (l : List ((ℕ × ℕ) × (ℕ × D))) : ℕ × ℕ :=
  (l.foldl (fun (b : ℕ × (ℕ × ℕ)) e => if e.2.1 < b.1 then (e.2.1, e.1) else b) (time, (0, 0))).2

/-- One call `K(i, j)`, /repo/svm/cache.go:24-57: value and new state.  `kern i j` is the kernel function on rows `i` and `j`; `it` is the iteration order of the map,
which may differ from call to call.  `none`: row index out of range (panic). -/
def request {D : Type} (cap : ℕ) (it : ℕ → List ((ℕ × ℕ) × (ℕ × D)) → List ((ℕ × ℕ) × (ℕ × D))) (kern : ℕ → ℕ → D) (c : Cache D) (ij : ℕ × ℕ) : Option (D × Cache D) :=
  if ij.1 = ij.2 then
    match c.diag[ij.1]? with
    | none => none
    | some (some v) => some (v, c)
    | some none => some (kern ij.1 ij.1, { c with diag := c.diag.set ij.1 (some (kern ij.1 ij.1)) })
  else
    let key := if ij.2 < ij.1 then (ij.2, ij.1) else ij
    match c.nd.find? (fun e => e.1 == key) with
    | some e => some (e.2.2, { c with nd := c.nd.map (fun e => if e.1 = key then (e.1, (c.time + 1, e.2.2)) else e), time := c.time + 1 })
    | none =>
      if c.diag.length ≤ key.2 then none
      else
        let nd := if c.nd.length = cap then c.nd.filter (fun e => e.1 != oldest c.time (it c.time c.nd)) else c.nd
        some (kern key.1 key.2, { c with nd := nd ++ [(key, (c.time + 1, kern key.1 key.2))], time := c.time + 1 })

/-- A sequence of calls: the values returned and the final state. -/
def requests {D : Type} (cap : ℕ) (it : ℕ → List ((ℕ × ℕ) × (ℕ × D)) → List ((ℕ × ℕ) × (ℕ × D))) (kern : ℕ → ℕ → D) : Cache D → List (ℕ × ℕ) → Option (List D × Cache D)
  | c, [] => some ([], c)
  | c, ij :: l => do
    let (v, c') ← request cap it kern c ij
    let (vs, c'') ← requests cap it kern c' l
    return (v :: vs, c'')

/-! ### Built-in kernels -/

section Kernels
variable {R : Type} [Ring R]

/-- `LinearKernel.Func`, /repo/svm/kernels.go:18-24 (`floats.Dot`, for rows of one length). -/
def linearKernel (a b : List R) : R := (List.zipWith (· * ·) a b).sum

/-- `PolynomialKernel.Func`, /repo/svm/kernels.go:30-32; `pow` is `math.Pow`. -/
def polyKernel (pow : R → R → R) (gamma coef0 degree : R) (a b : List R) : R := pow (gamma * linearKernel a b + coef0) degree

/-- `RBFKernel.Func`, /repo/svm/kernels.go:38-45; `exp` is `math.Exp`. -/
def rbfKernel (exp : R → R) (gamma : R) (a b : List R) : R := exp (-gamma * (List.zipWith (fun x y => (x - y) * (x - y)) a b).sum)

/-- `SigmoidKernel.Func`, /repo/svm/kernels.go:51-53; `tanh` is `math.Tanh`. -/
def sigmoidKernel (tanh : R → R) (gamma coef0 : R) (a b : List R) : R := tanh (gamma * linearKernel a b + coef0)

end Kernels

/-! ### Training -/

variable {K : Type} [Field K] [LinearOrder K] {m : ℕ}

/-- Value of the cached kernel (/repo/svm/cache.go:33-35 orders the two indices; theorem `C35_values` shows the cache adds nothing else). -/
def ck (kern : Fin m → Fin m → K) (i j : Fin m) : K := if j < i then kern j i else kern i j

/-- The variables of `svmTrain` and `svrTrain` that survive a round: multipliers, offset, and the flags `KKTviolated`, `numChangedAlphas` of the current pass. -/
structure St (m : ℕ) (K : Type) where
  α : Fin m → K
  b : K
  viol : Bool
  changed : ℕ

/-- `f`, /repo/svm/svm.go:59-65. -/
def f (kern : Fin m → Fin m → K) (Y : Fin m → K) (st : St m K) (i : Fin m) : K := st.b + ∑ k, st.α k * Y k * ck kern k i

/-- The random partner, /repo/svm/svm.go:87-90; `none`: `Intn(0)` (panic). -/
def partner (i : Fin m) (r : ℕ) : Option (Fin m) :=
  let v := r % (m - 1)
  let j := if i.val ≤ v then v + 1 else v
  if h : m - 1 ≠ 0 ∧ j < m then some ⟨j, h.2⟩ else none

/-- Joint optimisation of the multipliers `i` and `j`, /repo/svm/svm.go:91-137. -/
def svcUpdate (kern : Fin m → Fin m → K) (Y : Fin m → K) (C tol : K) (st : St m K) (i j : Fin m) : St m K :=
  let Ei := f kern Y st i - Y i
  let Ej := f kern Y st j - Y j
  let ai := st.α i
  let aj := st.α j
  let L := if Y i = Y j then max 0 (aj + ai - C) else max 0 (aj - ai)
  let H := if Y i = Y j then min C (aj + ai) else min C (C + aj - ai)
  if L = H then st
  else
    let Kii := ck kern i i
    let Kij := ck kern i j
    let Kjj := ck kern j j
    let eta := 2 * Kij - Kii - Kjj
    if 0 ≤ eta then st
    else
      let a := max L (min H (aj - Y j * (Ei - Ej) / eta))
      if a - aj < tol then st
      else
        let ai' := ai + Y i * Y j * (aj - a)
        let b1 := st.b - Ei - Y i * (ai' - ai) * Kii - Y j * (a - aj) * Kij
        let b2 := st.b - Ej - Y i * (ai' - ai) * Kij - Y j * (a - aj) * Kjj
        let b := if 0 < ai' ∧ ai' < C then b1 else if 0 < a ∧ a < C then b2 else (b1 + b2) / 2
        { st with α := Function.update (Function.update st.α j a) i ai', b := b, changed := st.changed + 1 }

/-- Sample `i` of a pass of `svmTrain`, /repo/svm/svm.go:79-138, with raw random number `r`. -/
def svcStep (kern : Fin m → Fin m → K) (Y : Fin m → K) (C eps tol : K) (st : St m K) (ir : Fin m × ℕ) : Option (St m K) :=
  let yE := Y ir.1 * (f kern Y st ir.1 - Y ir.1)
  if (yE < -eps ∧ st.α ir.1 < C) ∨ (eps < yE ∧ 0 < st.α ir.1) then
    (partner ir.1 ir.2).map (fun j => svcUpdate kern Y C tol { st with viol := true } ir.1 j)
  else some st

/-- How a run stands: stopped by a panic, not finished, or finished. -/
inductive Outcome (A : Type) where
  | panic
  | running
  | done (a : A)

/-- The training loop common to `svmTrain` (/repo/svm/svm.go:75-149) and `svrTrain` (/repo/svm/svr.go:88-171): `passes` rounds without change so far, `t` rounds in all;
`draws t i` is the raw random number used for sample `i` in round `t`.  The code has no bound on the number of rounds: `running` when `fuel` runs out. -/
def loop (step : St m K → Fin m × ℕ → Option (St m K)) (maxPasses : ℕ) (draws : ℕ → Fin m → ℕ) : ℕ → ℕ → ℕ → St m K → Outcome (St m K)
  | 0, _, _, _ => .running
  | fuel + 1, t, passes, st =>
    if maxPasses ≤ passes then .done st
    else match (List.finRange m).foldlM (fun st i => step st (i, draws t i)) { st with viol := false, changed := 0 } with
      | none => .panic
      | some st => if !st.viol then .done st else loop step maxPasses draws fuel (t + 1) (if st.changed = 0 then passes + 1 else 0) st

/-- Initial state, /repo/svm/svm.go:52-53. -/
def start (m : ℕ) (K : Type) [Field K] : St m K := ⟨fun _ => 0, 0, false, 0⟩

/-- A trained model, /repo/svm/svm.go:23-31: for each support sample its index, label (1 for regression, where the code leaves it out) and multiplier. -/
structure Model (m : ℕ) (K : Type) where
  b : K
  support : List (Fin m × K × K)

/-- The end of `svmTrain`, /repo/svm/svm.go:150-169; `none`: no support sample, `mat.NewDense(0, n, nil)` panics. -/
def svcModel (Y : Fin m → K) (tol : K) (st : St m K) : Option (Model m K) :=
  let idx := (List.finRange m).filter (fun i => decide (tol < st.α i))
  if idx.isEmpty then none else some ⟨st.b, idx.map (fun i => (i, Y i, st.α i))⟩

/-- `svmPredict` with `binary` true, /repo/svm/svm.go:178-198, for one row: `k i` is the kernel of the row and training sample `i`. -/
def svcPredict (M : Model m K) (k : Fin m → K) : K :=
  if 0 ≤ (M.support.map (fun e => e.2.2 * e.2.1 * k e.1)).sum + M.b then 1 else 0

/-- `f` of /repo/svm/svr.go:56-62. -/
def fr (kern : Fin m → Fin m → K) (st : St m K) (i : Fin m) : K := st.b + ∑ k, st.α k * ck kern k i

/-- Choice of the second multiplier, /repo/svm/svr.go:100-114: from the random one on, the first other sample with error below `-eps`, or the random one itself when its
error exceeds `eps` or when there is no such sample (`E[j]` in the test is the error of the random one, computed in the first round of that loop). -/
def svrPartner (E : Fin m → K) (eps : K) (i j : Fin m) : Fin m :=
  (((List.finRange m).map (fun k => j + k)).find? (fun j3 => decide (j3 ≠ i ∧ (E j3 < -eps ∨ eps < E j)))).getD j

/-- The new value of multiplier `j` before clipping to `[L, H]`, /repo/svm/svr.go:119-140; `s` is the sum of both.  When `eta = 0` floating point gives
NaN if the errors are equal (`none`: the change is undone), else an infinity which is clipped, except for `eps ≤ 0` where the value is `s`. -/
def svrRaw (eps eta ei ej aj s L H : K) : Option K :=
  if eta = 0 then
    if ei = ej then none else some (if 0 < eps then (if ej < ei then L else H) else s)
  else
    let a := aj - (ei - ej) / eta
    let i := s - a
    let delta := -2 * eps / eta
    some (if i * a < 0 then
      (if delta < |i| ∨ delta < |a| then a - (if 0 ≤ a then 1 else -1) * delta else (if |a| - |i| < 0 then 0 else 1) * s) else a)

/-- Joint optimisation in `svrTrain`, /repo/svm/svr.go:116-159. -/
def svrUpdate (kern : Fin m → Fin m → K) (Y : Fin m → K) (C eps tol : K) (st : St m K) (i j : Fin m) : St m K :=
  let Ei := fr kern st i - Y i
  let Ej := fr kern st j - Y j
  let Kii := ck kern i i
  let Kij := ck kern i j
  let Kjj := ck kern j j
  let ai := st.α i
  let aj := st.α j
  let s := ai + aj
  let L := max (s - C) (-C)
  let H := min C (C + s)
  match svrRaw eps (2 * Kij - Kii - Kjj) Ei Ej aj s L H with
  | none => st
  | some raw =>
    let a := min H (max L raw)
    let ai' := s - a
    let Ein := Ei + (ai' - ai) * Kii + (a - aj) * Kij
    let Ejn := Ej + (ai' - ai) * Kij + (a - aj) * Kjj
    let db := -(Ein + Ejn) / 2
    if |a - aj| < tol ∨ ¬ (|Ein + db| + |Ejn + db| < |Ei| + |Ej|) then st
    else { st with α := Function.update (Function.update st.α j a) i ai', b := st.b + db, changed := st.changed + 1 }

/-- Sample `i` of a pass of `svrTrain`, /repo/svm/svr.go:92-160. -/
def svrStep (kern : Fin m → Fin m → K) (Y : Fin m → K) (C eps tol : K) (st : St m K) (ir : Fin m × ℕ) : Option (St m K) :=
  let E := fun i => fr kern st i - Y i
  if (E ir.1 < -eps ∧ st.α ir.1 < C) ∨ (eps < E ir.1 ∧ -C < st.α ir.1) then
    (partner ir.1 ir.2).map (fun j => svrUpdate kern Y C eps tol { st with viol := true } ir.1 (svrPartner E eps ir.1 j))
  else some st

/-- The end of `svrTrain`, /repo/svm/svr.go:172-190. -/
def svrModel (tol : K) (st : St m K) : Option (Model m K) :=
  let idx := (List.finRange m).filter (fun i => decide (tol < |st.α i|))
  if idx.isEmpty then none else some ⟨st.b, idx.map (fun i => (i, 1, st.α i))⟩

/-- `svrPredict`, /repo/svm/svr.go:204-215, for one row. -/
def svrPredict (M : Model m K) (k : Fin m → K) : K := M.b + (M.support.map (fun e => e.2.2 * k e.1)).sum

end Sk.Svm
