import Verif.Spec.Weights
import Mathlib.Data.List.Perm.Basic

/-! Specification vocabulary: samples with multiplicities. -/
set_option autoImplicit false

namespace Sk

/-- Each sample of `T` written out as often as its multiplicity. -/
def copies {A : Type} (T : List (A × ℕ)) : List A := T.flatMap (fun t => List.replicate t.2 t.1)

section
variable {A K : Type} [Field K]

theorem copies_cons (t : A × ℕ) (T : List (A × ℕ)) : copies (t :: T) = List.replicate t.2 t.1 ++ copies T := by simp [copies]

/-- A sum over the copies is the sum over the samples, each counted with its multiplicity. -/
theorem copies_sum (f : A → K) (T : List (A × ℕ)) {D : List A} (h : D.Perm (copies T)) : (D.map f).sum = (T.map (fun t => (t.2 : K) * f t.1)).sum := by
  rw [(h.map f).sum_eq]
  clear h
  induction T with
  | nil => rfl
  | cons t T ih => rw [copies_cons, List.map_append, List.sum_append, ih]; simp

theorem copies_mem (T : List (A × ℕ)) {D : List A} (h : D.Perm (copies T)) (hpos : ∀ t ∈ T, 0 < t.2) (a : A) : a ∈ D ↔ ∃ t ∈ T, t.1 = a := by
  rw [h.mem_iff]
  simp only [copies, List.mem_flatMap, List.mem_replicate]
  constructor
  · rintro ⟨t, ht, _, rfl⟩; exact ⟨t, ht, rfl⟩
  · rintro ⟨t, ht, rfl⟩; exact ⟨t, ht, by have := hpos t ht; omega, rfl⟩

theorem copies_sub (T : List (A × ℕ)) {D : List A} (h : D.Perm (copies T)) (a : A) (ha : a ∈ D) : ∃ t ∈ T, t.1 = a := by
  rw [h.mem_iff] at ha
  simp only [copies, List.mem_flatMap, List.mem_replicate] at ha
  obtain ⟨t, ht, _, rfl⟩ := ha
  exact ⟨t, ht, rfl⟩

theorem copies_ones (D : List A) : copies (D.map (fun a => (a, 1))) = D := by
  induction D with
  | nil => rfl
  | cons a D ih => rw [List.map_cons, copies_cons, ih]; rfl
end

end Sk
