import Mathlib.Data.List.Forall2
import Mathlib.Algebra.BigOperators.Group.List.Basic
import Mathlib.Algebra.Order.BigOperators.Group.List
import Mathlib.Algebra.Order.Field.Basic
import Mathlib.Data.List.Induction

/-! General facts about lists. -/
set_option autoImplicit false

namespace Sk.ListX

theorem mapM_forall2 {A B : Type} (f : A → Option B) : ∀ (l : List A) (r : List B),
    l.mapM f = some r ↔ List.Forall₂ (fun a b => f a = some b) l r := by
  intro l
  induction l with
  | nil => intro r; cases r <;> simp
  | cons a l ih =>
    intro r
    rw [List.mapM_cons]
    cases ha : f a with
    | none =>
      constructor
      · intro h; simp at h
      · intro h; cases h with | cons h1 _ => rw [ha] at h1; simp at h1
    | some b =>
      cases hl : l.mapM f with
      | none =>
        constructor
        · intro h; simp at h
        · intro h
          cases h with
          | cons _ h2 => rw [(ih _).2 h2] at hl; simp at hl
      | some bs =>
        constructor
        · intro h
          simp at h
          subst h
          exact List.Forall₂.cons ha ((ih _).1 hl)
        · intro h
          cases h with
          | cons h1 h2 =>
            rw [ha] at h1
            rw [(ih _).2 h2] at hl
            simp only [Option.some.injEq] at h1 hl
            subst h1; subst hl; rfl

theorem zip_map_fst_snd {A B : Type} (l : List (A × B)) : (l.map Prod.fst).zip (l.map Prod.snd) = l := by
  induction l with
  | nil => rfl
  | cons a l ih => simp [ih]

theorem sum_eq_zero_nonneg {K : Type} [Field K] [LinearOrder K] [IsStrictOrderedRing K] (l : List K) (h : ∀ x ∈ l, 0 ≤ x) :
    l.sum = 0 ↔ ∀ x ∈ l, x = 0 := by
  induction l with
  | nil => simp
  | cons a l ih =>
    have hl : ∀ x ∈ l, 0 ≤ x := fun x hx => h x (by simp [hx])
    rw [List.sum_cons, add_eq_zero_iff_of_nonneg (h a (by simp)) (List.sum_nonneg hl), ih hl]
    simp

end Sk.ListX
