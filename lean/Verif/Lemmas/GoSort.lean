import Verif.Model.GoSort
import Mathlib.Data.List.Basic
import Mathlib.Data.List.Sort
import Mathlib.Tactic.Linarith

set_option autoImplicit false

namespace Sk.GoSort

theorem searchLoop_spec (f : ℕ → Bool) : ∀ (n i j : ℕ), j - i = n → i ≤ j →
    (∀ a b, a ≤ b → f a = true → b < j → f b = true) → 
    i ≤ searchLoop f i j ∧ searchLoop f i j ≤ j ∧
    (∀ a, i ≤ a → a < searchLoop f i j → f a = false) ∧
    (∀ a, searchLoop f i j ≤ a → a < j → f a = true) := by
  intro n
  induction n using Nat.strong_induction_on with
  | _ n ih =>
    intro i j hn hij hmono
    unfold searchLoop
    by_cases h : i < j
    · simp only [h, dite_true]
      by_cases hf : f ((i + j) / 2) = true
      · simp only [hf, if_true]
        obtain ⟨h1, h2, h3, h4⟩ := ih ((i + j) / 2 - i) (by omega) i ((i + j) / 2) rfl (by omega)
          (fun a b hab ha hb => hmono a b hab ha (by omega))
        refine ⟨h1, by omega, h3, ?_⟩
        intro a ha haj
        by_cases hlt : a < (i + j) / 2
        · exact h4 a ha hlt
        · exact hmono _ a (by omega) hf haj
      · simp only [hf]
        have hf' : f ((i + j) / 2) = false := by simpa using hf
        obtain ⟨h1, h2, h3, h4⟩ := ih (j - ((i + j) / 2 + 1)) (by omega) ((i + j) / 2 + 1) j rfl (by omega) hmono
        refine ⟨by simp; omega, by simpa using h2, ?_, by simpa using h4⟩
        intro a ha hlt
        simp only [Bool.false_eq_true, if_false] at hlt
        by_cases hle : a ≤ (i + j) / 2
        · by_contra hc
          have : f ((i + j) / 2) = true := hmono a _ hle (by simpa using hc) (by omega)
          rw [this] at hf'; cases hf'
        · exact h3 a (by omega) hlt
    · simp only [h, dite_false]
      refine ⟨le_refl _, hij, ?_, ?_⟩ <;> intros <;> omega

section
variable {K : Type} [LinearOrder K]

/-- On an ascending slice, `SearchFloat64s` returns the number of elements smaller than `x`. -/
theorem searchFloat64s_spec (a : List K) (ha : a.Pairwise (· ≤ ·)) (x : K) :
    searchFloat64s a x ≤ a.length ∧
    (∀ (i : ℕ) (hi : i < a.length), i < searchFloat64s a x → a[i] < x) ∧
    (∀ (i : ℕ) (hi : i < a.length), searchFloat64s a x ≤ i → x ≤ a[i]) := by
  unfold searchFloat64s search
  obtain ⟨_, h2, h3, h4⟩ := searchLoop_spec (fun i => match a[i]? with
    | some y => decide (x ≤ y)
    | none => false) a.length 0 a.length rfl (by omega) (by
      intro i j hij hi hj
      have hi' : i < a.length := by omega
      simp only [List.getElem?_eq_getElem hi', List.getElem?_eq_getElem hj, decide_eq_true_eq] at hi ⊢
      rcases Nat.lt_or_eq_of_le hij with h | rfl
      · exact le_trans hi (List.pairwise_iff_getElem.1 ha i j hi' hj h)
      · exact hi)
  refine ⟨h2, ?_, ?_⟩
  · intro i hi hlt
    have := h3 i (by omega) hlt
    simp only [List.getElem?_eq_getElem hi, decide_eq_false_iff_not, not_le] at this
    exact this
  · intro i hi hle
    have := h4 i hle hi
    simp only [List.getElem?_eq_getElem hi, decide_eq_true_eq] at this
    exact this

theorem searchFloat64s_take_lt (a : List K) (ha : a.Pairwise (· ≤ ·)) (x y : K) (hy : y ∈ a.take (searchFloat64s a x)) :
    y < x := by
  obtain ⟨h1, h2, _⟩ := searchFloat64s_spec a ha x
  obtain ⟨i, hi, rfl⟩ := List.getElem_of_mem hy
  simp only [List.length_take] at hi
  rw [List.getElem_take]
  exact h2 i (by omega) (by omega)

theorem searchFloat64s_drop_ge (a : List K) (ha : a.Pairwise (· ≤ ·)) (x y : K) (hy : y ∈ a.drop (searchFloat64s a x)) :
    x ≤ y := by
  obtain ⟨h1, _, h3⟩ := searchFloat64s_spec a ha x
  obtain ⟨i, hi, rfl⟩ := List.getElem_of_mem hy
  simp only [List.length_drop] at hi
  rw [List.getElem_drop]
  exact h3 _ (by omega) (by omega)

/-- searching an element of a strictly ascending slice finds its position -/
theorem searchFloat64s_getElem (a : List K) (ha : a.Pairwise (· < ·)) (i : ℕ) (hi : i < a.length) :
    searchFloat64s a a[i] = i := by
  obtain ⟨h1, h2, h3⟩ := searchFloat64s_spec a (ha.imp le_of_lt) a[i]
  rcases Nat.lt_trichotomy (searchFloat64s a a[i]) i with h | h | h
  · have := h3 (searchFloat64s a a[i]) (by omega) (le_refl _)
    exact absurd this (not_le.2 (List.pairwise_iff_getElem.1 ha _ i (by omega) hi h))
  · exact h
  · exact absurd (h2 i hi h) (lt_irrefl _)

theorem maxIdxLoop_spec : ∀ (xs pre : List K) (b : ℕ) (v : K) (hb : b < pre.length), pre[b] = v →
    (∀ (i : ℕ) (hi : i < pre.length), pre[i] ≤ v) → (∀ (i : ℕ) (hi : i < b), pre[i]'(by omega) < v) →
    ∃ h : maxIdxLoop xs pre.length (b, v) < (pre ++ xs).length,
      (∀ (i : ℕ) (hi : i < (pre ++ xs).length), (pre ++ xs)[i] ≤ (pre ++ xs)[maxIdxLoop xs pre.length (b, v)]) ∧
      (∀ (i : ℕ) (hi : i < maxIdxLoop xs pre.length (b, v)), (pre ++ xs)[i]'(by omega) < (pre ++ xs)[maxIdxLoop xs pre.length (b, v)])
  | [], pre, b, v, hb, hv, h1, h2 => by
      simp only [maxIdxLoop, List.append_nil]
      refine ⟨hb, ?_, ?_⟩
      · intro i hi; rw [hv]; exact h1 i hi
      · intro i hi; rw [hv]; exact h2 i hi
  | x :: xs, pre, b, v, hb, hv, h1, h2 => by
      unfold maxIdxLoop
      by_cases h : v < x
      · simp only [h, if_true]
        have ih := maxIdxLoop_spec xs (pre ++ [x]) pre.length x (by simp) (by simp) (by
          intro i hi
          rw [List.getElem_append]
          split
          · exact le_trans (h1 i _) h.le
          · simp) (by
          intro i hi
          rw [List.getElem_append_left hi]
          exact lt_of_le_of_lt (h1 i hi) h)
        simpa using ih
      · simp only [h, if_false]
        have ih := maxIdxLoop_spec xs (pre ++ [x]) b v (by simp; omega) (by rw [List.getElem_append_left hb]; exact hv) (by
          intro i hi
          rw [List.getElem_append]
          split
          · exact h1 i _
          · simp; exact not_lt.1 h) (by
          intro i hi
          rw [List.getElem_append_left (by omega)]
          exact h2 i hi)
        simpa using ih

/-- `MaxIdx` returns the first index of the maximum. -/
theorem maxIdx_spec (l : List K) (hl : l ≠ []) : ∃ m, maxIdx l = some m ∧ ∃ h : m < l.length,
    (∀ (i : ℕ) (hi : i < l.length), l[i] ≤ l[m]) ∧ (∀ (i : ℕ) (hi : i < m), l[i]'(by omega) < l[m]) := by
  cases l with
  | nil => exact absurd rfl hl
  | cons x xs =>
    obtain ⟨h, h1, h2⟩ := maxIdxLoop_spec xs [x] 0 x (by simp) rfl (by simp) (by simp)
    exact ⟨_, rfl, h, h1, h2⟩

theorem maxIdx_unique (l : List K) (m : ℕ) (h : m < l.length) (h1 : ∀ (i : ℕ) (hi : i < l.length), i ≠ m → l[i] < l[m]) :
    maxIdx l = some m := by
  obtain ⟨m', hm', hlt, h2, h3⟩ := maxIdx_spec l (by intro e; rw [e] at h; simp at h)
  by_cases he : m' = m
  · rw [hm', he]
  · exact absurd (h2 m h) (not_le.2 (h1 m' hlt he))
end

end Sk.GoSort
