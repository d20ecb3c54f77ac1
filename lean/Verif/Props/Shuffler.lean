import Verif.Model.Encode
import Verif.Lemmas.Split
import Verif.Lemmas.CrossVal
import Mathlib.Algebra.Order.Ring.Rat

/-!
# C22: `Shuffler`
-/
set_option autoImplicit false

namespace Sk.Encode

open Sk.Split

section
variable {α : Type}

theorem mem_shSwaps {perm : List ℕ} {p : ℕ × ℕ} : p ∈ shSwaps perm ↔ perm[p.1]? = some p.2 ∧ p.1 < p.2 := by
  unfold shSwaps
  rw [List.mem_filterMap]
  constructor
  · rintro ⟨⟨v, i⟩, hm, h⟩
    rw [List.mem_zipIdx_iff_getElem?] at hm
    simp only [gt_iff_lt] at h hm
    split at h
    · rename_i hlt
      obtain rfl := Option.some.inj h
      exact ⟨hm, hlt⟩
    · simp at h
  · rintro ⟨h1, h2⟩
    refine ⟨(p.2, p.1), List.mem_zipIdx_iff_getElem?.2 h1, ?_⟩
    simp [h2]

theorem swapAt_get {a b : List α} {p : ℕ × ℕ} (h : swapAt a p = some b) (x : ℕ) :
    p.1 < a.length ∧ p.2 < a.length ∧ b.length = a.length ∧ b[x]? = if x = p.2 then a[p.1]? else if x = p.1 then a[p.2]? else a[x]? := by
  unfold swapAt at h
  split at h
  · rename_i u v hu hv
    obtain rfl := Option.some.inj h
    obtain ⟨h1, rfl⟩ := List.getElem?_eq_some_iff.1 hu
    obtain ⟨h2, rfl⟩ := List.getElem?_eq_some_iff.1 hv
    refine ⟨h1, h2, by simp, ?_⟩
    by_cases hx2 : x = p.2
    · subst hx2
      rw [if_pos rfl, List.getElem?_set_self (by simpa using h2), List.getElem?_eq_getElem h1]
    · rw [if_neg hx2, List.getElem?_set_ne (Ne.symm hx2)]
      by_cases hx1 : x = p.1
      · subst hx1
        rw [if_pos rfl, List.getElem?_set_self h1, List.getElem?_eq_getElem h2]
      · rw [if_neg hx1, List.getElem?_set_ne (Ne.symm hx1)]
  · simp at h

theorem swapAt_swap {a b : List α} {p : ℕ × ℕ} (h : swapAt a p = some b) : swapAt b p = some a := by
  have h0 := swapAt_get h
  obtain ⟨h1, h2, h3, _⟩ := h0 0
  obtain ⟨c, hc⟩ := swapAt_isSome b p (by omega) (by omega)
  rw [hc]
  congr 1
  apply List.ext_getElem?
  intro x
  rw [(swapAt_get hc x).2.2.2]
  by_cases hx2 : x = p.2
  · subst hx2
    rw [if_pos rfl, (h0 p.1).2.2.2]
    by_cases e : p.1 = p.2
    · rw [if_pos e, e]
    · rw [if_neg e, if_pos rfl]
  · rw [if_neg hx2]
    by_cases hx1 : x = p.1
    · subst hx1
      rw [if_pos rfl, (h0 p.2).2.2.2, if_pos rfl]
    · rw [if_neg hx1, (h0 x).2.2.2, if_neg hx2, if_neg hx1]

theorem swaps_undo : ∀ (ps : List (ℕ × ℕ)) (a b : List α), ps.foldlM (fun a p => swapAt a p) a = some b →
    ps.reverse.foldlM (fun a p => swapAt a p) b = some a
  | [], a, b, h => by
    simp only [List.foldlM_nil] at h
    obtain rfl := Option.some.inj h
    rfl
  | p :: ps, a, b, h => by
    rw [List.foldlM_cons] at h
    cases hs : swapAt a p with
    | none => rw [hs] at h; simp at h
    | some c =>
      rw [hs] at h
      have := swaps_undo ps c b h
      rw [List.reverse_cons, List.foldlM_append, this]
      simp [swapAt_swap hs]

/-- Cell-wise exchange of two disjoint ranges. -/
theorem swapCells_get (src dst : ℕ) (data : List α) : ∀ (w : ℕ), src + w ≤ data.length → dst + w ≤ data.length → (src + w ≤ dst ∨ dst + w ≤ src) →
    ∃ d, swapCells src dst w data = some d ∧ d.length = data.length ∧
      ∀ x, d[x]? = if src ≤ x ∧ x < src + w then data[dst + (x - src)]? else if dst ≤ x ∧ x < dst + w then data[src + (x - dst)]? else data[x]?
  | 0, _, _, _ => ⟨data, rfl, rfl, fun x => by rw [if_neg (by omega), if_neg (by omega)]⟩
  | w + 1, h1, h2, h3 => by
    obtain ⟨d, hd, hl, hg⟩ := swapCells_get src dst data w (by omega) (by omega) (by omega)
    obtain ⟨e, he⟩ := swapAt_isSome d (src + w, dst + w) (by simp; omega) (by simp; omega)
    have hge := swapAt_get he
    refine ⟨e, ?_, (hge 0).2.2.1.trans hl, ?_⟩
    · unfold swapCells at hd ⊢
      rw [List.range_succ, List.foldlM_append, hd]
      simp [he]
    · intro x
      rw [(hge x).2.2.2]
      simp only
      by_cases hx1 : x = dst + w
      · subst hx1
        rw [if_pos rfl, hg, if_neg (by omega), if_neg (by omega), if_neg (by omega), if_pos (by omega)]
        congr 1; omega
      · rw [if_neg hx1]
        by_cases hx2 : x = src + w
        · subst hx2
          rw [if_pos rfl, hg, if_neg (by omega), if_neg (by omega), if_pos (by omega)]
          congr 1; omega
        · rw [if_neg hx2, hg]
          by_cases c1 : src ≤ x ∧ x < src + w
          · rw [if_pos c1, if_pos (by omega)]
          · rw [if_neg c1, if_neg (by omega : ¬ (src ≤ x ∧ x < src + (w + 1)))]
            by_cases c2 : dst ≤ x ∧ x < dst + w
            · rw [if_pos c2, if_pos (by omega)]
            · rw [if_neg c2, if_neg (by omega)]

theorem flatten_get (c : ℕ) (hc : 0 < c) : ∀ (rows : List (List α)), (∀ r ∈ rows, r.length = c) → ∀ x,
    rows.flatten[x]? = (rows[x / c]?).bind (fun r => r[x % c]?)
  | [], _, x => by simp
  | r :: rs, h, x => by
    have hr : r.length = c := h r (by simp)
    rw [List.flatten_cons]
    by_cases hx : x < c
    · rw [List.getElem?_append_left (by omega), Nat.div_eq_of_lt hx, Nat.mod_eq_of_lt hx]
      rfl
    · rw [List.getElem?_append_right (by omega), flatten_get c hc rs (fun r' h' => h r' (by simp [h'])), hr]
      obtain ⟨y, rfl⟩ := Nat.exists_eq_add_of_le (not_lt.1 hx)
      rw [Nat.add_sub_cancel_left, Nat.add_div_left y hc, Nat.add_mod_left]
      rfl

theorem flatten_length (c : ℕ) : ∀ (rows : List (List α)), (∀ r ∈ rows, r.length = c) → rows.flatten.length = rows.length * c
  | [], _ => by simp
  | r :: rs, h => by
    rw [List.flatten_cons, List.length_append, flatten_length c rs (fun r' h' => h r' (by simp [h'])), h r (by simp), List.length_cons]
    ring

/-- On a contiguous matrix the cell loop exchanges two whole rows. -/
theorem swapCells_rows (c : ℕ) (hc : 0 < c) (rows rows' : List (List α)) (hr : ∀ r ∈ rows, r.length = c) (p : ℕ × ℕ) (hp : p.1 < p.2)
    (h : swapAt rows p = some rows') : swapCells (p.2 * c) (p.1 * c) c rows.flatten = some rows'.flatten := by
  have hg := swapAt_get h
  obtain ⟨h1, h2, h3, _⟩ := hg 0
  have hlen := flatten_length c rows hr
  have hm1 : (p.1 + 1) * c ≤ p.2 * c := Nat.mul_le_mul_right _ hp
  have hm2 : (p.2 + 1) * c ≤ rows.length * c := Nat.mul_le_mul_right _ h2
  rw [Nat.add_mul, one_mul] at hm1 hm2
  obtain ⟨d, hd, hl, hdg⟩ := swapCells_get (p.2 * c) (p.1 * c) rows.flatten c (by omega) (by omega) (by omega)
  rw [hd]
  congr 1
  have hr' : ∀ r ∈ rows', r.length = c := fun r hm => hr r ((swapAt_some h).mem_iff.1 hm)
  apply List.ext_getElem?
  intro x
  rw [hdg, flatten_get c hc rows' hr', (hg (x / c)).2.2.2]
  have hdm := Nat.div_add_mod x c
  have hlt := Nat.mod_lt x hc
  set q := x / c with hq
  set r := x % c with hrr
  have hcm : c * q = q * c := Nat.mul_comm _ _
  have hcase : ∀ i : ℕ, (i * c ≤ x ∧ x < i * c + c) ↔ q = i := by
    intro i
    constructor
    · rintro ⟨ha, hb⟩
      by_contra hne
      rcases Nat.lt_or_gt_of_ne hne with hlt' | hgt
      · have := Nat.mul_le_mul_right c hlt'
        rw [Nat.succ_mul] at this; omega
      · have := Nat.mul_le_mul_right c hgt
        rw [Nat.succ_mul] at this; omega
    · rintro rfl; omega
  have hfl : ∀ i, rows.flatten[i * c + r]? = (rows[i]?).bind (fun l => l[r]?) := by
    intro i
    rw [flatten_get c hc rows hr, show (i * c + r) / c = i by
      rw [Nat.mul_comm, Nat.mul_add_div hc, Nat.div_eq_of_lt hlt, Nat.add_zero], show (i * c + r) % c = r by
      rw [Nat.mul_comm, Nat.mul_add_mod, Nat.mod_eq_of_lt hlt]]
  by_cases c1 : q = p.2
  · rw [if_pos ((hcase _).2 c1), if_pos c1, show x - p.2 * c = r by rw [← c1]; omega]
    exact hfl _
  · rw [if_neg (fun hh => c1 ((hcase _).1 hh)), if_neg c1]
    by_cases c2 : q = p.1
    · rw [if_pos ((hcase _).2 c2), if_pos c2, show x - p.1 * c = r by rw [← c2]; omega]
      exact hfl _
    · rw [if_neg (fun hh => c2 ((hcase _).1 hh)), if_neg c2]
      rw [← hfl]
      congr 1; omega

theorem shInverse_rows (c : ℕ) (hc : 0 < c) : ∀ (ps : List (ℕ × ℕ)) (rows rows' : List (List α)), (∀ p ∈ ps, p.1 < p.2) →
    (∀ r ∈ rows, r.length = c) → ps.foldlM (fun a p => swapAt a p) rows = some rows' →
    ps.foldlM (fun d p => swapCells (p.2 * c) (p.1 * c) c d) rows.flatten = some rows'.flatten
  | [], rows, rows', _, _, h => by
    simp only [List.foldlM_nil] at h
    obtain rfl := Option.some.inj h
    rfl
  | p :: ps, rows, rows', hp, hr, h => by
    rw [List.foldlM_cons] at h ⊢
    cases hs : swapAt rows p with
    | none => rw [hs] at h; simp at h
    | some c' =>
      rw [hs] at h
      rw [swapCells_rows c hc rows c' hr p (hp p (by simp)) hs]
      exact shInverse_rows c hc ps c' rows' (fun q hq => hp q (by simp [hq])) (fun r hm => hr r ((swapAt_some hs).mem_iff.1 hm)) h

theorem swaps_lt {perm : List ℕ} {n : ℕ} (hp : perm.Perm (List.range n)) : ∀ p ∈ shSwaps perm, p.1 < n ∧ p.2 < n := by
  intro p hm
  obtain ⟨h1, h2⟩ := mem_shSwaps.1 hm
  have := List.mem_of_getElem? h1
  rw [hp.mem_iff, List.mem_range] at this
  omega

theorem zip_swaps {β : Type} : ∀ (ps : List (ℕ × ℕ)) (a a' : List α) (b b' : List β),
    ps.foldlM (fun a p => swapAt a p) a = some a' → ps.foldlM (fun a p => swapAt a p) b = some b' →
    ps.foldlM (fun a p => swapAt a p) (a.zip b) = some (a'.zip b')
  | [], a, a', b, b', h1, h2 => by
    obtain rfl := Option.some.inj h1
    obtain rfl := Option.some.inj h2
    rfl
  | p :: ps, a, a', b, b', h1, h2 => by
    rw [List.foldlM_cons] at h1 h2 ⊢
    cases hs : swapAt a p with
    | none => rw [hs] at h1; simp at h1
    | some c =>
      cases ht : swapAt b p with
      | none => rw [ht] at h2; simp at h2
      | some d =>
        rw [hs] at h1; rw [ht] at h2
        rw [Sk.CrossVal.zip_swapAt p hs ht]
        exact zip_swaps ps c a' d b' h1 h2

/-- **C22, rows stay together.** For every permutation the generator may draw and all X, Y with that many rows, `Transform` does not panic and its result pairs
are a rearrangement of the pairs (row of X, row of Y): no row is lost or duplicated and every target stays with its row. -/
theorem C22_pairs {β : Type} (perm : List ℕ) (X : List α) (Y : List β) (hp : perm.Perm (List.range X.length)) (hY : Y.length = X.length) :
    ∃ X' Y', shTransform perm X = some X' ∧ shTransform perm Y = some Y' ∧ X'.length = X.length ∧ Y'.length = X.length ∧
      (X'.zip Y').Perm (X.zip Y) := by
  obtain ⟨X', hX', hXp⟩ := swaps_ok (shSwaps perm) X (swaps_lt hp)
  obtain ⟨Y', hY', hYp⟩ := swaps_ok (shSwaps perm) Y (fun p hm => by rw [hY]; exact swaps_lt hp p hm)
  refine ⟨X', Y', hX', hY', hXp.length_eq, hYp.length_eq.trans hY, ?_⟩
  have hz := zip_swaps (shSwaps perm) X X' Y Y' hX' hY'
  obtain ⟨Z, hZ, hZp⟩ := swaps_ok (shSwaps perm) (X.zip Y) (fun p hm => by
    have := swaps_lt hp p hm
    simp only [List.length_zip]; omega)
  rw [hZ] at hz
  obtain rfl := Option.some.inj hz
  exact hZp

example : shTransform [2, 0, 1] ["a", "b", "c"] = some ["c", "b", "a"] ∧ [2, 0, 1].Perm (List.range 3) := by decide

/-- The drawn permutation need not be the one applied: `Perm = [1, 2, 0]` reorders the rows as 1, 2, 0 and `[2, 0, 1]` as 2, 1, 0. -/
example : shTransform [1, 2, 0] [0, 1, 2] = some [1, 2, 0] ∧ shTransform [2, 0, 1] [0, 1, 2] = some [2, 1, 0] := by decide

/-- **C22, inverse (contiguous matrices).** For every permutation and every matrix whose rows are stored contiguously (stride = number of columns; `Transform`
always returns such a matrix), `InverseTransform` of the result of `Transform` restores the data.
Missing for the full claim: matrices that are views with padding between rows, see `C22_inverse_strided_violated`. -/
theorem C22_inverse_partial (perm : List ℕ) (c : ℕ) (hc : 0 < c) (X : List (List α)) (hr : ∀ r ∈ X, r.length = c) (hp : perm.Perm (List.range X.length)) :
    ∃ X', shTransform perm X = some X' ∧ shInverse perm c X'.flatten = some X.flatten := by
  obtain ⟨X', hX', hXp⟩ := swaps_ok (shSwaps perm) X (swaps_lt hp)
  refine ⟨X', hX', ?_⟩
  have := swaps_undo _ _ _ hX'
  exact shInverse_rows c hc _ X' X (fun p hm => (mem_shSwaps.1 (List.mem_reverse.1 hm)).2) (fun r hm => hr r (hXp.mem_iff.1 hm)) this

example : shInverse [2, 0, 1] 2 [5, 6, 3, 4, 1, 2] = some [1, 2, 3, 4, 5, 6] := by decide

theorem swapCells_length {src dst : ℕ} : ∀ {w : ℕ} {a b : List α}, swapCells src dst w a = some b → b.length = a.length
  | 0, a, b, h => by
    obtain rfl := Option.some.inj h
    rfl
  | w + 1, a, b, h => by
    unfold swapCells at h
    rw [List.range_succ, List.foldlM_append] at h
    cases hs : (List.range w).foldlM (fun d j => swapAt d (src + j, dst + j)) a with
    | none => rw [hs] at h; simp at h
    | some d =>
      rw [hs] at h
      have h' : swapAt d (src + w, dst + w) = some b := by simpa using h
      rw [(swapAt_some h').length_eq]
      exact swapCells_length (w := w) hs

theorem swapCells_none {src dst w : ℕ} (a : List α) (h : a.length < src + w) (hw : 0 < w) : swapCells src dst w a = none := by
  cases hs : swapCells src dst w a with
  | none => rfl
  | some b =>
    exfalso
    obtain ⟨w, rfl⟩ := Nat.exists_eq_succ_of_ne_zero (Nat.pos_iff_ne_zero.1 hw)
    unfold swapCells at hs
    rw [List.range_succ, List.foldlM_append] at hs
    cases hd : (List.range w).foldlM (fun d j => swapAt d (src + j, dst + j)) a with
    | none => rw [hd] at hs; simp at hs
    | some d =>
      rw [hd] at hs
      have h' : swapAt d (src + w, dst + w) = some b := by simpa using hs
      have hl : d.length = a.length := swapCells_length (w := w) hd
      have := (swapAt_get h' 0).1
      simp only at this
      omega

theorem foldlM_none {γ : Type} (f : List α → γ → Option (List α)) (n : ℕ) (hf : ∀ d e q, d.length = n → f d q = some e → e.length = n) :
    ∀ (ps : List γ) (a : List α), a.length = n → (∃ p ∈ ps, ∀ d : List α, d.length = n → f d p = none) → ps.foldlM f a = none
  | [], a, _, h => by obtain ⟨p, hp, _⟩ := h; simp at hp
  | p :: ps, a, ha, ⟨q, hq, hnone⟩ => by
    rw [List.foldlM_cons]
    rcases List.mem_cons.1 hq with rfl | hq
    · rw [hnone a ha]; rfl
    · cases hs : f a p with
      | none => rfl
      | some b => exact foldlM_none f n hf ps b (hf _ _ _ ha hs) ⟨q, hq, hnone⟩

/-- **C22 violated on views.** On every view whose stride exceeds its number of columns (its data ends with the last cell of the last row), `InverseTransform` panics
for every permutation that does not leave the last row in place: the loops run over the stride. -/
theorem C22_inverse_strided_violated (perm : List ℕ) (n c stride : ℕ) (data : List α) (hp : perm.Perm (List.range (n + 1)))
    (hlast : perm[n]? ≠ some n) (hs : c < stride) (hd : data.length = n * stride + c) : shInverse perm stride data = none := by
  unfold shInverse
  apply foldlM_none _ data.length
  · intro d e q hdl h
    rw [swapCells_length h, hdl]
  · rfl
  · have hm : n ∈ perm := by rw [hp.mem_iff, List.mem_range]; omega
    obtain ⟨i, hi, he⟩ := List.getElem_of_mem hm
    have hlen : perm.length = n + 1 := by rw [hp.length_eq, List.length_range]
    refine ⟨(i, n), ?_, ?_⟩
    · rw [List.mem_reverse, mem_shSwaps]
      refine ⟨by simp [hi, he], ?_⟩
      have : i ≠ n := by
        rintro rfl
        apply hlast
        simp [hi, he]
      simp only
      omega
    · intro d hdl
      exact swapCells_none d (by simp only; omega) (by omega)

example : shInverse [1, 0] 3 [1, 2, 9, 3, 4] = none := by decide
end

end Sk.Encode
