import Verif.Model.BaseMat
import Verif.Model.General64

/-!
# Where the `Predict` methods of the perceptrons put the predictions

Headers, heap and destinations as in `Verif.Model.BaseMat`.  The predictions are given (`f`, `n` rows and `o` columns; their values are modelled in `Verif.Model.MlpFit`); here it is about the cells they are written to.  `none` is a panic.
-/
set_option autoImplicit false

namespace Sk.MlpDeliver
open Sk.Matrix (General Slice)
open Sk.BaseMat

variable {α : Type}

/-- Memory after the private `predict`, /repo/neural_network/basemlp64.go:917-933, into a matrix with `n` rows.  Without a label binarizer the last layer is computed in the cells of `Y` (l.920, 924).  With one (`labels`) the classes are
copied by `General64.Copy` (l.927-929, /repo/neural_network/general.go:279-302): into the buffer of `Y`, one row after the other without gaps, when its capacity suffices, else into a new buffer that is lost. -/
def writeTo (labels : Bool) (n o : ℕ) (f : ℕ × ℕ → α) (Y : General) (mem : ℕ → α) : Option (ℕ → α) :=
  if labels then (if Y.data.cap < n * o then some mem else some (Sk.G64.copyTo mem Y.data.off (n * o) (fun p => f (p / o, p % o))))
  else fillCells (cells n o) (fun p => Y.addr p.1 p.2) f mem

/-- `BaseMultilayerPerceptron64.Predict`, /repo/neural_network/basemlp64.go:611-624, with `FromDense64` (1232-1255, the text of `base.FromDense`).  `xRaw`: `X` gives access to its buffer.  If so, and if `Y` does too, the buffer of `Y` is
written.  If so, but `Y` does not, both matrices stay empty and the matrix product panics on a zero stride.  Else `Y` is copied into a fresh matrix (`Copy` of /repo/neural_network/general.go:279-302, modelled by its size: all its cells are
overwritten). -/
def basePredict (zero : α) (labels xRaw : Bool) (n o : ℕ) (f : ℕ × ℕ → α) (dst : Dst) (h : Heap α) : Option (Heap α) :=
  if xRaw then
    match dst with
    | .dense M => (writeTo labels n o f M h.mem).bind (fun m => (fromDense dst M m).map (fun m' => ⟨m', h.free⟩))
    | _ => none
  else
    match dst with
    | .nil => none
    | .dense M => (newDense zero M.rows M.cols h).bind (fun r => (writeTo labels n o f r.1 r.2.mem).bind (fun m => (fromDense dst r.1 m).map (fun m' => ⟨m', r.2.free⟩)))
    | .other rows cols _ => (newDense zero rows cols h).bind (fun r => (writeTo labels n o f r.1 r.2.mem).bind (fun m => (fromDense dst r.1 m).map (fun m' => ⟨m', r.2.free⟩)))

/-- `MLPClassifier.Predict`, /repo/neural_network/multilayer_perceptron.go:109-125: `ToDense`, a new matrix in place of an empty one (in the caller's variable when that is a `*mat.Dense`), the method above, `FromDense`. -/
def classifierPredict (zero : α) (labels xRaw : Bool) (n o : ℕ) (f : ℕ × ℕ → α) (dst : Dst) (h : Heap α) : Option (General × Dst × Heap α) :=
  (toDense zero dst h).bind (fun t =>
    (if t.1.rows = 0 ∨ t.1.cols = 0 then (newDense zero n o t.2).map (fun r => (r.1, (match dst with | .dense _ => Dst.dense r.1 | d => d), r.2)) else some (t.1, dst, t.2)).bind (fun y =>
      (basePredict zero labels xRaw n o f (.dense y.1) y.2.2).bind (fun h2 => (fromDense y.2.1 y.1 h2.mem).map (fun m => (y.1, y.2.1, ⟨m, h2.free⟩)))))

/-- `MLPRegressor.Predict`, /repo/neural_network/multilayer_perceptron.go:53-62: as above with the private `predict` on `ToDense(X)`; a regressor has no label binarizer. -/
def regressorPredict (zero : α) (n o : ℕ) (f : ℕ × ℕ → α) (dst : Dst) (h : Heap α) : Option (General × Dst × Heap α) :=
  (toDense zero dst h).bind (fun t =>
    (if t.1.rows = 0 ∨ t.1.cols = 0 then (newDense zero n o t.2).map (fun r => (r.1, (match dst with | .dense _ => Dst.dense r.1 | d => d), r.2)) else some (t.1, dst, t.2)).bind (fun y =>
      (writeTo false n o f y.1 y.2.2.mem).bind (fun m => (fromDense y.2.1 y.1 m).map (fun m => (y.1, y.2.1, ⟨m, y.2.2.free⟩)))))

end Sk.MlpDeliver
