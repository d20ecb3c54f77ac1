import Verif.Model.Metrics

/-!
# `internalConfusionMatrix` for label matrices with several columns, /repo/metrics/classification.go:154-178

`Verif/Model/Metrics.lean` models it for one column.  Here the matrices are lists of rows and the loop over the columns is kept.
-/
set_option autoImplicit false

namespace Sk.Metrics

open Sk.Label

variable {K : Type} [Field K] [LinearOrder K] [IsStrictOrderedRing K]

/-- The body of the inner loop for row code `r` and column code `c`, /repo/metrics/classification.go:168-174: `cmmat.Data[r*Stride+c] += w`;
a flat index outside the data panics (`none`). -/
def cmAt (n : ℕ) (wi : K) (r c : ℤ) (cm : List K) : Option (List K) :=
  if r * (n : ℤ) + c < 0 then none
  else (cm[(r * (n : ℤ) + c).toNat]?).map (fun old => cm.set (r * (n : ℤ) + c).toNat (old + wi))

/-- The loop over the columns of one sample, /repo/metrics/classification.go:167-175.  Simplification: a row of predictions shorter than the row
of true labels panics here (in Go the flat index may run into the next row). -/
def cmRow (n : ℕ) (wi : K) : List ℤ → List ℤ → List K → Option (List K)
  | [], _, cm => some cm
  | _ :: _, [], _ => none
  | r :: rs, c :: cs, cm => (cmAt n wi r c cm).bind (cmRow n wi rs cs)

/-- The loop over the samples, /repo/metrics/classification.go:166-176.  The weight is read in the inner loop; a matrix has at least one column, so
reading it once per sample is the same. -/
def cmRows (n : ℕ) (w : Option (List K)) : List (List ℤ) → List (List ℤ) → ℕ → List K → Option (List K)
  | [], _, _, cm => some cm
  | _ :: _, [], _, _ => none
  | rs :: yt, cs :: yp, i, cm => (weightAt w i).bind fun wi => (cmRow n wi rs cs cm).bind fun cm => cmRows n w yt yp (i + 1) cm

/-- `internalConfusionMatrix`, /repo/metrics/classification.go:154-178, for true labels with `d` columns (rows are lists of `d` labels): one
encoder per column, but the size of the matrix is the number of classes of the first column (`le.Classes[0]`, l.161). -/
def confusionM {L : Type} [LinearOrder L] (d : ℕ) (Yt Yp : List (List L)) (w : Option (List K)) : Option (ℕ × List K × List (Enc L)) :=
  let les := (List.range d).map (fun j => (Yt.filterMap (fun row => row[j]?)).foldl Enc.add Enc.empty)
  (Yt.mapM (transformRow les)).bind fun yt => (Yp.mapM (transformRow les)).bind fun yp =>
    (les[0]?).bind fun le => (cmRows le.classes.length w yt yp 0 (List.replicate (le.classes.length * le.classes.length) 0)).map
      (fun cm => (le.classes.length, cm, les))

end Sk.Metrics
