import Verif.Model.Interpolate

/-!
# `interpolate`: what the returned functions keep of the caller's slices

A returned function is called when the caller's slices hold `cur`, which may differ from what they held when the function was made.
-/
set_option autoImplicit false

namespace Sk.Interp

variable {K : Type} [Field K] [LinearOrder K] [IsStrictOrderedRing K]

/-- The variable `both` of `Interp1d` and `CubicSpline`, /repo/interpolate/interpolate.go:35-43, /repo/interpolate/cubic.go:54-62: the caller's slices themselves, or sorted copies. -/
inductive Both (V : Type) (K : Type) where
  | shared
  | own (pts : List (K × V))

/-- The choice of `both`; `srt` as in `interp1d`. -/
def both {V : Type} (srt : List (K × V) → List (K × V)) (xs : List K) (ys : List V) : Both V K := if xs.Pairwise (· ≤ ·) then .shared else .own (srt (xs.zip ys))

/-- The points seen through `both` when the caller's slices hold `cur`. -/
def Both.now {V : Type} (b : Both V K) (cur : List K × List V) : List (K × V) :=
  match b with
  | .shared => cur.1.zip cur.2
  | .own pts => pts

/-- `Interp1d`, /repo/interpolate/interpolate.go:30-62: a function of the slices' present contents and of `x`. -/
def interp1dLive (srt : List (K × Option K) → List (K × Option K)) (xs : List K) (ys : List (Option K)) : Option (List K × List (Option K) → K → Option K) :=
  if xs.length < 2 ∨ xs.length ≠ ys.length then none else some (fun cur => evalAt ((both srt xs ys).now cur))

/-- `CubicSpline`, /repo/interpolate/cubic.go:11-77: the slopes `ks` are computed once (64-65), the points are read at every call. -/
def cubicSplineLive (srt : List (K × K) → List (K × K)) (solve : List K → List K → List K) (xs ys : List K) : Option (List K × List K → K → K) :=
  if xs.length < 2 ∨ xs.length ≠ ys.length then none
  else
    let b := both srt xs ys
    let p := b.now (xs, ys)
    let ks := solve (p.map Prod.fst) (p.map Prod.snd)
    some (fun cur => spline ((b.now cur).map Prod.fst) ((b.now cur).map Prod.snd) ks)

/-- `Interp2d`, /repo/interpolate/interpolate.go:75-111: the slices are copied (76-79); the present contents are not looked at. -/
def interp2dLive (srt3 : List (P3 K) → List (P3 K)) (srt : List (K × Option K) → List (K × Option K)) (pts : List (P3 K)) : List (P3 K) → K → K → Option (Option K) :=
  let sorted := srt3 pts
  fun _ => interp2d srt sorted

end Sk.Interp
