import Verif.Props.Shuffler
import Mathlib.Data.List.Nodup
import Mathlib.Data.List.Range
import Mathlib.Tactic.IntervalCases

/-!
# C177: which arrangements of the rows `Shuffler` can produce
-/
set_option autoImplicit false

namespace Sk.Encode

open Sk.Split

section
variable {α : Type}

/-- A row that no later exchange fetches never moves up. -/
theorem never_up : ∀ (ps : List (ℕ × ℕ)) (a b : List α) (q : ℕ) (v : α), (ps.map Prod.snd).Nodup → q ∉ ps.map Prod.snd → (∀ p ∈ ps, p.1 < p.2) →
    ps.foldlM (fun a p => swapAt a p) a = some b → a[q]? = some v → ∃ q', q ≤ q' ∧ b[q']? = some v
  | [], a, b, q, v, _, _, _, h, hv => by
    obtain rfl := Option.some.inj h
    exact ⟨q, le_refl _, hv⟩
  | p :: ps, a, b, q, v, hn, hq, hlt, h, hv => by
    rw [List.foldlM_cons] at h
    rw [List.map_cons, List.nodup_cons] at hn
    rw [List.map_cons, List.mem_cons, not_or] at hq
    have hp := hlt p List.mem_cons_self
    cases hs : swapAt a p with
    | none => rw [hs] at h; simp at h
    | some c =>
      rw [hs] at h
      by_cases e : q = p.1
      · obtain ⟨q', h1, h2⟩ := never_up ps c b p.2 v hn.2 hn.1 (fun x hx => hlt x (List.mem_cons_of_mem _ hx)) h (by
          rw [(swapAt_get hs p.2).2.2.2, if_pos rfl, ← e, hv])
        exact ⟨q', by omega, h2⟩
      · exact never_up ps c b q v hn.2 hq.2 (fun x hx => hlt x (List.mem_cons_of_mem _ hx)) h (by
          rw [(swapAt_get hs q).2.2.2, if_neg hq.1, if_neg e, hv])

/-- Position 0 is not touched by exchanges of later positions. -/
theorem zero_stays : ∀ (ps : List (ℕ × ℕ)) (a b : List α), (∀ p ∈ ps, 0 < p.1 ∧ 0 < p.2) → ps.foldlM (fun a p => swapAt a p) a = some b → b[0]? = a[0]?
  | [], a, b, _, h => by obtain rfl := Option.some.inj h; rfl
  | p :: ps, a, b, hp, h => by
    rw [List.foldlM_cons] at h
    have h0 := hp p List.mem_cons_self
    cases hs : swapAt a p with
    | none => rw [hs] at h; simp at h
    | some c =>
      rw [hs] at h
      rw [zero_stays ps c b (fun x hx => hp x (List.mem_cons_of_mem _ hx)) h, (swapAt_get hs 0).2.2.2, if_neg (by omega), if_neg (by omega)]

/-- The exchanges after the first position. -/
def laterSwaps (perm : List ℕ) : List (ℕ × ℕ) := (perm.zipIdx 1).filterMap (fun pi => if pi.1 > pi.2 then some (pi.2, pi.1) else none)

theorem shSwaps_cons (k : ℕ) (perm : List ℕ) : shSwaps (k :: perm) = (if 0 < k then [(0, k)] else []) ++ laterSwaps perm := by
  unfold shSwaps laterSwaps
  rw [List.zipIdx_cons, List.filterMap_cons]
  by_cases h : 0 < k <;> simp [h]

theorem laterSwaps_snd (perm : List ℕ) : ((laterSwaps perm).map Prod.snd).Sublist perm := by
  unfold laterSwaps
  generalize 1 = s
  induction perm generalizing s with
  | nil => simp
  | cons k t ih =>
    rw [List.zipIdx_cons, List.filterMap_cons]
    by_cases h : k > s
    · simp only [h, if_true]
      exact (ih (s + 1)).cons_cons k
    · simp only [h, if_false]
      exact (ih (s + 1)).cons k

theorem laterSwaps_lt (perm : List ℕ) (p : ℕ × ℕ) (h : p ∈ laterSwaps perm) : 0 < p.1 ∧ p.1 < p.2 := by
  unfold laterSwaps at h
  rw [List.mem_filterMap] at h
  obtain ⟨⟨v, i⟩, hm, h⟩ := h
  have := List.le_snd_of_mem_zipIdx hm
  simp only [gt_iff_lt] at h this
  split at h
  · obtain rfl := Option.some.inj h
    exact ⟨by omega, by assumption⟩
  · simp at h

/-- C177: whatever permutation is drawn, if the shuffled data begin with the row that was at place `k`, then the row that was first is now at place `k` or below it. -/
theorem C177_first_row (perm : List ℕ) (rows out : List α) (hp : perm.Perm (List.range rows.length)) (h : shTransform perm rows = some out) (v0 : α) (h0 : rows[0]? = some v0) :
    ∃ k q : ℕ, out[0]? = rows[k]? ∧ k < rows.length ∧ k ≤ q ∧ out[q]? = some v0 := by
  have hnd : perm.Nodup := (hp.nodup_iff).2 List.nodup_range
  cases perm with
  | nil =>
    have := hp.length_eq
    simp only [List.length_nil, List.length_range] at this
    rw [List.getElem?_eq_none (by omega)] at h0
    simp at h0
  | cons k t =>
    have hk : k < rows.length := by simpa using (hp.mem_iff (a := k)).1 List.mem_cons_self
    rw [List.nodup_cons] at hnd
    have hsub := laterSwaps_snd t
    have hn : ((laterSwaps t).map Prod.snd).Nodup := hsub.nodup hnd.2
    have hkm : k ∉ (laterSwaps t).map Prod.snd := fun hm => hnd.1 (hsub.subset hm)
    unfold shTransform at h
    rw [shSwaps_cons] at h
    by_cases hk0 : 0 < k
    · rw [if_pos hk0, List.singleton_append, List.foldlM_cons] at h
      cases hs : swapAt rows (0, k) with
      | none => rw [hs] at h; simp at h
      | some c =>
        rw [hs] at h
        have hz := zero_stays _ c out (fun p hm => ⟨(laterSwaps_lt t p hm).1, by have := laterSwaps_lt t p hm; omega⟩) h
        obtain ⟨q, hq1, hq2⟩ := never_up _ c out k v0 hn hkm (fun p hm => (laterSwaps_lt t p hm).2) h (by
          rw [(swapAt_get hs k).2.2.2, if_pos rfl, h0])
        refine ⟨k, q, ?_, hk, hq1, hq2⟩
        rw [hz, (swapAt_get hs 0).2.2.2]
        simp only
        rw [if_neg (by omega), if_pos trivial]
    · obtain rfl : k = 0 := by omega
      rw [if_neg hk0, List.nil_append] at h
      have hz := zero_stays _ rows out (fun p hm => ⟨(laterSwaps_lt t p hm).1, by have := laterSwaps_lt t p hm; omega⟩) h
      exact ⟨0, 0, hz, hk, le_refl _, by rw [hz, h0]⟩

example : shTransform [2, 3, 1, 0] [10, 11, 12, 13] = some [12, 13, 10, 11] := by decide

/-- C177 fails: with three rows or more (all different), the arrangement in which the third row comes first and the first row second never comes out, whatever permutation is drawn. -/
theorem C177_missing_violated (a b c : α) (rest : List α) (hnd : (a :: b :: c :: rest).Nodup) (perm : List ℕ) (hp : perm.Perm (List.range (rest.length + 3))) :
    shTransform perm (a :: b :: c :: rest) ≠ some (c :: a :: b :: rest) := by
  intro h
  obtain ⟨k, q, h1, hk, h2, h3⟩ := C177_first_row perm (a :: b :: c :: rest) (c :: a :: b :: rest) (by simpa using hp) h a rfl
  have hk2 : k = 2 := by
    have e : (a :: b :: c :: rest)[k]? = (a :: b :: c :: rest)[2]? := by rw [← h1]; rfl
    exact (List.getElem?_inj hk hnd).1 e
  subst hk2
  have hp' : (c :: a :: b :: rest).Nodup := by
    refine ((?_ : (c :: a :: b :: rest).Perm (a :: b :: c :: rest)).nodup_iff).2 hnd
    exact (List.Perm.swap a c _).trans ((List.Perm.swap b c _).cons a)
  have hq : q < (c :: a :: b :: rest).length := by
    obtain ⟨h, _⟩ := List.getElem?_eq_some_iff.1 h3
    exact h
  have : q = 1 := (List.getElem?_inj hq hp').1 (by rw [h3]; rfl)
  omega

example : [1, 2, 3, 4].Nodup ∧ ([3, 1, 2, 4] : List ℕ).Perm [1, 2, 3, 4] := by decide

/-- C177, what holds: any two rows can be exchanged by a suitable draw, so every row can come to every place.
Missing: not every arrangement can come out (`C177_missing_violated`). -/
theorem C177_exchange_partial (rows : List α) (i j : ℕ) (hij : i < j) (hj : j < rows.length) :
    ∃ perm : List ℕ, perm.Perm (List.range rows.length) ∧ ∃ out, shTransform perm rows = some out ∧ out[i]? = rows[j]? ∧ out[j]? = rows[i]? ∧ ∀ x, x ≠ i → x ≠ j → out[x]? = rows[x]? := by
  obtain ⟨perm, hperm⟩ := swapAt_isSome (List.range rows.length) (i, j) (by simp; omega) (by simpa using hj)
  have hg := swapAt_get hperm
  have hmem : ∀ p : ℕ × ℕ, p ∈ shSwaps perm ↔ p = (i, j) := by
    intro p
    rw [mem_shSwaps, (hg p.1).2.2.2]
    simp only
    constructor
    · rintro ⟨h1, h2⟩
      by_cases e2 : p.1 = j
      · rw [if_pos e2, List.getElem?_range (by omega), Option.some.injEq] at h1
        omega
      · rw [if_neg e2] at h1
        by_cases e1 : p.1 = i
        · rw [if_pos e1, List.getElem?_range hj, Option.some.injEq] at h1
          exact Prod.ext e1 h1.symm
        · rw [if_neg e1] at h1
          obtain ⟨h, h1⟩ := List.getElem?_eq_some_iff.1 h1
          simp at h1
          omega
    · rintro rfl
      simp only
      rw [if_neg (by omega), if_pos trivial, List.getElem?_range hj]
      exact ⟨rfl, hij⟩
  have hpp := swapAt_some hperm
  have hnd : (shSwaps perm).Nodup := by
    have hn : perm.Nodup := hpp.nodup_iff.2 List.nodup_range
    have hs : ((shSwaps perm).map Prod.snd).Sublist perm := by
      cases perm with
      | nil => simp [shSwaps]
      | cons k t =>
        rw [shSwaps_cons]
        by_cases h : 0 < k
        · rw [if_pos h]; exact (laterSwaps_snd t).cons_cons k
        · rw [if_neg h]; exact (laterSwaps_snd t).cons k
    exact List.Nodup.of_map _ (hs.nodup hn)
  have heq : shSwaps perm = [(i, j)] := by
    have : (shSwaps perm).Perm [(i, j)] := (List.perm_ext_iff_of_nodup hnd (by simp)).2 (fun p => by rw [hmem]; simp)
    exact List.perm_singleton.1 this
  obtain ⟨out, hout⟩ := swapAt_isSome rows (i, j) (by simp; omega) hj
  have ho := swapAt_get hout
  refine ⟨perm, hpp, out, by simp [shTransform, heq, hout], ?_, ?_, ?_⟩
  · rw [(ho i).2.2.2]; simp only; rw [if_neg (by omega), if_pos trivial]
  · rw [(ho j).2.2.2]; simp
  · intro x h1 h2
    rw [(ho x).2.2.2]; simp only; rw [if_neg h2, if_neg h1]

example : (1 : ℕ) < 3 ∧ 3 < [10, 11, 12, 13].length := by decide

end

end Sk.Encode
