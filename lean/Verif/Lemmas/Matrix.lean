import Verif.Model.Matrix
import Mathlib.Tactic.Ring
import Mathlib.Tactic.Linarith

set_option autoImplicit false

namespace Sk.Matrix

/-- Well-formed matrix header: what gonum guarantees for every non-empty `Dense`. -/
structure General.WF (M : General) : Prop where
  rows : 0 < M.rows
  cols : M.cols ≤ M.stride
  cpos : 0 < M.cols
  len : (M.rows - 1) * M.stride + M.cols ≤ M.data.len
  cap : M.data.len ≤ M.data.cap

theorem WF.cell {M : General} (h : M.WF) {i j : ℕ} (hi : i < M.rows) (hj : j < M.cols) :
    M.addr i j = some (M.data.off + (i * M.stride + j)) := by
  have h1 : i * M.stride ≤ (M.rows - 1) * M.stride := Nat.mul_le_mul_right _ (by omega)
  have := h.len
  unfold General.addr
  rw [if_pos ⟨hi, hj, by omega⟩]

theorem addr_inj {S i j i' j' : ℕ} (hj : j < S) (hj' : j' < S) (h : i * S + j = i' * S + j') : i = i' ∧ j = j' := by
  have hS : 0 < S := by omega
  have h1 : (i * S + j) / S = i := by
    rw [Nat.mul_comm, Nat.mul_add_div hS, Nat.div_eq_of_lt hj]; rfl
  have h2 : (i' * S + j') / S = i' := by
    rw [Nat.mul_comm, Nat.mul_add_div hS, Nat.div_eq_of_lt hj']; rfl
  have : i = i' := by rw [← h1, ← h2, h]
  subst this
  exact ⟨rfl, by omega⟩

end Sk.Matrix
