import Mathlib.Algebra.BigOperators.Group.List.Basic
import Mathlib.Algebra.BigOperators.Ring.List
import Mathlib.Algebra.Order.BigOperators.Group.List
import Mathlib.Algebra.Order.Field.Basic
import Mathlib.Tactic.Linarith
import Mathlib.Tactic.Ring

/-! Specification vocabulary: total weight of the samples having a property. -/
set_option autoImplicit false

namespace Sk

/-- Total weight of the samples of `l` having property `p`. -/
def wsum {S K : Type} [Field K] (w : S → K) (p : S → Prop) [DecidablePred p] (l : List S) : K :=
  (l.map (fun s => if p s then w s else 0)).sum

section
variable {S K : Type} [Field K] (w : S → K) (p q : S → Prop) [DecidablePred p] [DecidablePred q]

@[simp] theorem wsum_nil : wsum w p [] = 0 := rfl
theorem wsum_cons (s : S) (l : List S) : wsum w p (s :: l) = (if p s then w s else 0) + wsum w p l := by simp [wsum]
theorem wsum_append (l m : List S) : wsum w p (l ++ m) = wsum w p l + wsum w p m := by simp [wsum]

theorem wsum_perm {l m : List S} (h : l.Perm m) : wsum w p l = wsum w p m := (h.map _).sum_eq

theorem wsum_congr (l : List S) (h : ∀ s ∈ l, p s ↔ q s) : wsum w p l = wsum w q l := by
  unfold wsum
  congr 1
  apply List.map_congr_left
  intro s hs
  by_cases hp : p s
  · simp [hp, (h s hs).1 hp]
  · simp [hp, mt (h s hs).2 hp]

theorem wsum_true (l : List S) (h : ∀ s ∈ l, p s) : wsum w p l = (l.map w).sum := by
  unfold wsum
  congr 1
  apply List.map_congr_left
  intro s hs; simp [h s hs]

theorem wsum_false (l : List S) (h : ∀ s ∈ l, ¬ p s) : wsum w p l = 0 := by
  induction l with
  | nil => rfl
  | cons a l ih =>
    rw [wsum_cons, if_neg (h a (by simp)), ih (fun s hs => h s (by simp [hs])), add_zero]

theorem sum_ite_nodup {I : Type} [DecidableEq I] (v : K) (x : I) (is : List I) (hn : is.Nodup) (hm : x ∈ is) :
    (is.map (fun i => if x = i then v else 0)).sum = v := by
  induction is with
  | nil => simp at hm
  | cons i is ih =>
    rw [List.nodup_cons] at hn
    rw [List.map_cons, List.sum_cons]
    by_cases hi : x = i
    · rw [if_pos hi]
      have : (is.map (fun i => if x = i then v else 0)).sum = 0 := by
        apply List.sum_eq_zero
        intro y hy
        rw [List.mem_map] at hy
        obtain ⟨j, hj, rfl⟩ := hy
        rw [if_neg]
        rintro rfl
        exact hn.1 (hi ▸ hj)
      rw [this, add_zero]
    · rw [if_neg hi, zero_add]
      exact ih hn.2 ((List.mem_cons.1 hm).resolve_left hi)

/-- Splitting by the value of a function taking its values in a list without repetition. -/
theorem wsum_split {I : Type} [DecidableEq I] (f : S → I) (is : List I) (hn : is.Nodup) (l : List S)
    (h : ∀ s ∈ l, p s → f s ∈ is) :
    (is.map (fun i => wsum w (fun s => p s ∧ f s = i) l)).sum = wsum w p l := by
  induction l with
  | nil => simp
  | cons a l ih =>
    have ih := ih (fun s hs => h s (by simp [hs]))
    simp only [wsum_cons, List.sum_map_add, ih]
    congr 1
    by_cases hp : p a
    · simp only [hp, true_and, if_true]
      exact sum_ite_nodup _ _ is hn (h a (by simp) hp)
    · simp [hp]

theorem wsum_const (c : K) (l : List S) : wsum (fun _ => c) p l = (l.countP (fun s => decide (p s)) : K) * c := by
  induction l with
  | nil => simp
  | cons a l ih =>
    rw [wsum_cons, ih, List.countP_cons]
    by_cases hp : p a <;> simp [hp] <;> ring
end

section
variable {S K : Type} [Field K] [LinearOrder K] [IsStrictOrderedRing K] (w : S → K) (p q : S → Prop) [DecidablePred p] [DecidablePred q]

theorem wsum_nonneg (l : List S) (h : ∀ s ∈ l, 0 ≤ w s) : 0 ≤ wsum w p l := by
  induction l with
  | nil => exact le_refl _
  | cons a l ih =>
    rw [wsum_cons]
    have := ih (fun s hs => h s (by simp [hs]))
    have := h a (by simp)
    split <;> linarith

theorem wsum_mono (l : List S) (h : ∀ s ∈ l, 0 ≤ w s) (hpq : ∀ s ∈ l, p s → q s) : wsum w p l ≤ wsum w q l := by
  induction l with
  | nil => exact le_refl _
  | cons a l ih =>
    rw [wsum_cons, wsum_cons]
    have := ih (fun s hs => h s (by simp [hs])) (fun s hs => hpq s (by simp [hs]))
    have h0 := h a (by simp)
    by_cases hp : p a
    · rw [if_pos hp, if_pos (hpq a (by simp) hp)]; linarith
    · rw [if_neg hp]; split <;> linarith

/-- All the weight satisfies `p` iff every sample of positive weight does. -/
theorem wsum_eq_total (l : List S) (h : ∀ s ∈ l, 0 ≤ w s) : wsum w p l = (l.map w).sum ↔ ∀ s ∈ l, 0 < w s → p s := by
  induction l with
  | nil => simp
  | cons a l ih =>
    have hl : ∀ s ∈ l, 0 ≤ w s := fun s hs => h s (by simp [hs])
    have ih := ih hl
    rw [wsum_cons, List.map_cons, List.sum_cons]
    have hle : wsum w p l ≤ (l.map w).sum := by
      rw [← wsum_true w (fun _ => True) l (fun _ _ => trivial)]
      exact wsum_mono w p _ l hl (fun _ _ _ => trivial)
    have h0 := h a (by simp)
    constructor
    · intro e s hs hpos
      rcases List.mem_cons.1 hs with rfl | hs
      · by_contra hp
        rw [if_neg hp] at e; linarith
      · refine ih.1 ?_ s hs hpos
        split at e <;> linarith
    · intro hall
      rw [ih.2 (fun s hs => hall s (by simp [hs]))]
      by_cases hp : p a
      · rw [if_pos hp]
      · rw [if_neg hp]
        have : ¬ 0 < w a := fun hh => hp (hall a (by simp) hh)
        have : w a = 0 := le_antisymm (not_lt.1 this) h0
        rw [this]
end

end Sk
