import Mathlib.Logic.Relation
import Mathlib.Order.Basic
import Mathlib.Data.Int.Cast.Basic
import Mathlib.Data.Int.Notation

/-! # Density-based clusters, independently of any algorithm -/
set_option autoImplicit false

namespace Sk.Dbscan

/-- `a` and `b` are joined by a chain of core samples, each in the neighbourhood of the previous one. -/
def Chain (core : ℕ → Prop) (nb : ℕ → ℕ → Prop) : ℕ → ℕ → Prop := Relation.ReflTransGen (fun a b => core a ∧ core b ∧ nb a b)

/-- `label` is a density clustering of samples `0..n-1` with `k` clusters numbered `0..k-1` and noise `-1`. -/
structure Clustering (n : ℕ) (core : ℕ → Prop) (nb : ℕ → ℕ → Prop) (label : ℕ → ℤ) (k : ℕ) : Prop where
  /-- labels are `-1` or a cluster number -/
  range : ∀ i, i < n → label i = -1 ∨ (0 ≤ label i ∧ label i < k)
  /-- every cluster number is the label of some core sample -/
  used : ∀ c : ℕ, c < k → ∃ i, i < n ∧ core i ∧ label i = c
  /-- core samples are not noise -/
  core_clustered : ∀ i, i < n → core i → label i ≠ -1
  /-- two core samples share their label iff a chain joins them -/
  same_iff : ∀ i j, i < n → j < n → core i → core j → (label i = label j ↔ Chain core nb i j)
  /-- a non-core sample is noise iff it is in no core sample's neighbourhood -/
  noise_iff : ∀ i, i < n → ¬ core i → (label i = -1 ↔ ∀ j, j < n → core j → ¬ nb j i)
  /-- a non-core sample that is not noise has the label of a core sample having it in its neighbourhood -/
  border : ∀ i, i < n → ¬ core i → label i ≠ -1 → ∃ j, j < n ∧ core j ∧ nb j i ∧ label j = label i
  /-- clusters are numbered in the order of their first core samples -/
  first : ∀ c : ℕ, c < k → ∃ r, r < n ∧ core r ∧ label r = c ∧ ∀ i, i < r → core i → label i < c
  /-- a non-core sample near core samples of several clusters belongs to the one with the smallest number -/
  least : ∀ i, i < n → ¬ core i → ∀ j, j < n → core j → nb j i → label i ≤ label j

end Sk.Dbscan
