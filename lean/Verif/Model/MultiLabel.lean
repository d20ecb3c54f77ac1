import Verif.Model.Label

/-!
# `MultiLabelBinarizer` (`preprocessing/label.go`): the methods, by the dynamic type of their argument

Rows and cells as in `Verif.Model.Label`.  Numbers are `K`, strings `S`.  `none` is a panic.
-/
set_option autoImplicit false

namespace Sk.Label

variable {K S F : Type} [LinearOrder K] [LinearOrder S]

/-- A class, of type `interface{}` in the code. -/
inductive Lab (K S : Type) where
  | num (v : K)
  | str (s : S)

/-- `v.(float64)`. -/
def Lab.toNum : Lab K S → Option K
  | .num v => some v
  | .str _ => none

/-- `v.(string)`. -/
def Lab.toStr : Lab K S → Option S
  | .num _ => none
  | .str s => some s

/-- The argument `Y`, by dynamic type: a `*mat.Dense` with `cols` columns; another matrix; a `[][]string`; anything else. -/
inductive Table (K S : Type) where
  | dense (cols : ℕ) (rows : List (List K))
  | matrix (cols : ℕ) (rows : List (List K))
  | strings (rows : List (List S))
  | other

/-- `Fit2`, /repo/preprocessing/label.go:133-166: the classes. -/
def mlFit2 : Table K S → Option (List (Lab K S))
  | .dense _ rows => some ((multiFit rows).map .num)
  | .strings rows => some ((multiFit rows).map .str)
  | _ => none

/-- `Fit`, /repo/preprocessing/label.go:125-129, for a matrix of any type: `ToDense` makes a `*mat.Dense` of it. -/
def mlFit (cols : ℕ) (rows : List (List K)) : Option (List (Lab K S)) := mlFit2 (.dense cols rows)

/-- `Transform2`, /repo/preprocessing/label.go:187-233; the result is `some none` when `Yout` is nil.  `mat.NewDense` panics for a size of 0. -/
def mlTransform2 [Zero F] [One F] (classes : List (Lab K S)) : Table K S → Option (Option (List (List F)))
  | .dense cols rows => if rows = [] ∨ cols * classes.length = 0 then none else (classes.mapM Lab.toNum).map (fun cs => some (rows.map (multiRow cs)))
  | .strings rows =>
    if rows = [] ∨ (rows.head?.getD []).length * classes.length = 0 then none else (classes.mapM Lab.toStr).bind (fun cs => (multiTransform cs rows).map some)
  | _ => some none

/-- `Transform`, /repo/preprocessing/label.go:170-172: the matrix is passed on with its dynamic type (`isDense`: a `*mat.Dense`). -/
def mlTransform [Zero F] [One F] (classes : List (Lab K S)) (isDense : Bool) (cols : ℕ) (rows : List (List K)) : Option (Option (List (List F))) :=
  mlTransform2 classes (if isDense then .dense cols rows else .matrix cols rows)

/-- `FitTransform`, /repo/preprocessing/label.go:174-178. -/
def mlFitTransform [Zero F] [One F] (isDense : Bool) (cols : ℕ) (rows : List (List K)) : Option (Option (List (List F))) :=
  (mlFit (S := S) cols rows).bind (fun cs => mlTransform cs isDense cols rows)

/-- `FitTransform2`, /repo/preprocessing/label.go:180-184. -/
def mlFitTransform2 [Zero F] [One F] (Y : Table K S) : Option (Option (List (List F))) := (mlFit2 Y).bind (fun cs => mlTransform2 cs Y)

/-- `InverseTransform`, /repo/preprocessing/label.go:236-275, for a matrix with `cols` columns: a table of the type of the first class; panics without classes, without rows, and for less columns than classes when the classes are numbers. -/
def mlInverse [LinearOrder F] (classes : List (Lab K S)) (cols : ℕ) (rows : List (List F)) : Option (Table K S) :=
  match classes with
  | [] => none
  | .num _ :: _ =>
    if rows = [] ∨ cols / classes.length = 0 then none
    else (classes.mapM Lab.toNum).bind (fun cs => (rows.mapM (multiInverseRow cs)).map (fun out => .dense (cols / classes.length) out))
  | .str _ :: _ =>
    if rows = [] then none else (classes.mapM Lab.toStr).bind (fun cs => (rows.mapM (multiInverseRow cs)).map .strings)

end Sk.Label
