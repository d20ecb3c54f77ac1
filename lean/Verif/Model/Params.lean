import Mathlib.Data.Rat.Defs
import Mathlib.Data.List.Basic

/-!
# `getParam` and `setParam` (`model_selection/search.go`): hyperparameters by name

The fields of an estimator that can be reached through embedded structs are a list (depth, name, exported, kind); its values are a list in the same order.  The result of `strings.EqualFold(a, b)` is `fold a = fold b` for
a function `fold`, a parameter.  `none` is a panic.  The estimator is a pointer to a struct (another kind panics at once).  Conversion of an `int` to `float64` is exact here.
-/
set_option autoImplicit false

namespace Sk.Params

/-- A value in an `interface{}`: Go's dynamic type and the value; `other t p` is any other type `t`. -/
inductive Val where
  | str (s : String)
  | int (z : ℤ)
  | f32 (q : ℚ)
  | f64 (q : ℚ)
  | other (t p : ℕ)
  | nil
deriving DecidableEq

/-- Kind of a field, /repo/model_selection/search.go:204-230: string, float64, int, an interface (with the dynamic types that implement it) or another type. -/
inductive Kind where
  | str
  | flt
  | int
  | iface (ok : Val → Bool)
  | other (t : ℕ)

structure Field (N : Type) where
  depth : ℕ
  name : N
  exported : Bool
  kind : Kind

variable {N F : Type} [DecidableEq F]

/-- The fields at depth `d` with a matching name. -/
def matchesAt (fold : N → F) (fs : List (Field N)) (k : N) (d : ℕ) : List ℕ :=
  (List.range fs.length).filter (fun i => (fs[i]?.map (fun f => decide (f.depth = d ∧ fold f.name = fold k))).getD false)

/-- The search by depth of `FieldByNameFunc`, called at /repo/model_selection/search.go:189, 203: the first depth with a match decides, and two matches there annihilate each other. -/
def search (fold : N → F) (fs : List (Field N)) (k : N) : ℕ → ℕ → Option ℕ
  | _, 0 => none
  | d, n + 1 => match matchesAt fold fs k d with
    | [] => search fold fs k (d + 1) n
    | [i] => some i
    | _ => none

/-- `FieldByNameFunc`, for structs nested to a depth below `levels`. -/
def find (fold : N → F) (levels : ℕ) (fs : List (Field N)) (k : N) : Option ℕ := search fold fs k 0 levels

/-- The value stored by the `switch` of `setParam`, /repo/model_selection/search.go:204-230. `reflect.ValueOf(nil)` is the zero `Value`, which `Set` rejects. -/
def convert : Kind → Val → Option Val
  | .str, .str s => some (.str s)
  | .flt, .int z => some (.f64 z)
  | .flt, .f32 q => some (.f64 q)
  | .flt, .f64 q => some (.f64 q)
  | .int, .int z => some (.int z)
  | .iface ok, v => if v ≠ .nil ∧ ok v = true then some v else none
  | .other t, .other t' p => if t' = t then some (.other t' p) else none
  | _, _ => none

/-- `setParam`, /repo/model_selection/search.go:197-231; setting an unexported field panics. -/
def setParam (fold : N → F) (levels : ℕ) (fs : List (Field N)) (vals : List Val) (k : N) (v : Val) : Option (List Val) := do
  let i ← find fold levels fs k
  let f ← fs[i]?
  let v' ← convert f.kind v
  if f.exported then some (vals.set i v') else none

/-- `getParam`, /repo/model_selection/search.go:183-195: `some none` is `ok = false`; reading an unexported field by `Interface` panics. -/
def getParam (fold : N → F) (levels : ℕ) (fs : List (Field N)) (vals : List Val) (k : N) : Option (Option Val) :=
  match find fold levels fs k with
  | none => some none
  | some i => match fs[i]? with
    | none => none
    | some f => if f.exported then some vals[i]? else none

/-- The loop of `GridSearchCV.Fit` over the parameters of a point of the grid, /repo/model_selection/search.go:140-142: a range over a map, so the order of the list is any. -/
def setAll (fold : N → F) (levels : ℕ) (fs : List (Field N)) (vals : List Val) (ps : List (N × Val)) : Option (List Val) := ps.foldlM (fun vs p => setParam fold levels fs vs p.1 p.2) vals

end Sk.Params
