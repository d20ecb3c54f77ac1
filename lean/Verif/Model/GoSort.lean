import Mathlib.Order.Defs.LinearOrder
import Mathlib.Data.Nat.Notation

/-!
# Go standard library pieces used by several models

`sort.Search(n, f)`: the binary search loop of the Go standard library,
`i, j := 0, n; for i < j { h := (i+j)/2; if !f(h) { i = h+1 } else { j = h } }; return i`.
-/
set_option autoImplicit false

namespace Sk.GoSort

/-- The loop of `sort.Search`. -/
def searchLoop (f : ℕ → Bool) (i j : ℕ) : ℕ :=
  if h : i < j then
    let m := (i + j) / 2
    if f m then searchLoop f i m else searchLoop f (m + 1) j
  else i
termination_by j - i
decreasing_by
  all_goals omega

/-- `sort.Search(n, f)`. -/
def search (n : ℕ) (f : ℕ → Bool) : ℕ := searchLoop f 0 n

/-- `sort.SearchFloat64s(a, x)`: `sort.Search(len(a), func(i) bool { return a[i] >= x })`. -/
def searchFloat64s {K : Type} [LinearOrder K] (a : List K) (x : K) : ℕ :=
  search a.length (fun i => match a[i]? with
    | some y => decide (x ≤ y)
    | none => false)

/-- `floats.MaxIdx(s)`: index of the first largest element; panics on an empty slice. `best` is the current index and value. -/
def maxIdxLoop {K : Type} [LinearOrder K] : List K → ℕ → ℕ × K → ℕ
  | [], _, best => best.1
  | x :: xs, i, best => if best.2 < x then maxIdxLoop xs (i + 1) (i, x) else maxIdxLoop xs (i + 1) best

def maxIdx {K : Type} [LinearOrder K] : List K → Option ℕ
  | [] => none
  | x :: xs => some (maxIdxLoop xs 1 (0, x))

end Sk.GoSort
