import Verif.Model.Label
import Verif.Lemmas.GoSort
import Mathlib.Data.List.Count
import Mathlib.Order.Lattice
import Mathlib.Data.Int.Basic
import Mathlib.Data.List.Induction

set_option autoImplicit false

namespace Sk.Label

open Sk.GoSort

variable {K : Type} [LinearOrder K]

theorem search_hit (cs : List K) (h : cs.Pairwise (· < ·)) (v : K) :
    cs[searchFloat64s cs v]? = some v ↔ v ∈ cs := by
  constructor
  · intro e; exact List.mem_of_getElem? e
  · intro hv
    obtain ⟨i, hi, rfl⟩ := List.getElem_of_mem hv
    rw [searchFloat64s_getElem cs h i hi]
    exact List.getElem?_eq_getElem hi

theorem add_sorted (e : Enc K) (h : e.classes.Pairwise (· < ·)) (v : K) :
    (e.add v).classes.Pairwise (· < ·) := by
  unfold Enc.add
  simp only
  split
  · exact h
  · rename_i hne
    rw [search_hit _ h] at hne
    simp only
    have hle := h.imp (fun {a b} (hab : a < b) => le_of_lt hab)
    rw [List.pairwise_append]
    refine ⟨h.sublist (List.take_sublist _ _), ?_, ?_⟩
    · rw [List.pairwise_cons]
      refine ⟨?_, h.sublist (List.drop_sublist _ _)⟩
      intro a ha
      refine lt_of_le_of_ne (searchFloat64s_drop_ge _ hle v a ha) ?_
      rintro rfl
      exact hne (List.mem_of_mem_drop ha)
    · intro a ha b hb
      rcases List.mem_cons.1 hb with rfl | hb
      · exact searchFloat64s_take_lt _ hle _ _ ha
      · exact lt_of_lt_of_le (searchFloat64s_take_lt _ hle v _ ha) (searchFloat64s_drop_ge _ hle v b hb)

theorem add_mem (e : Enc K) (h : e.classes.Pairwise (· < ·)) (v w : K) :
    w ∈ (e.add v).classes ↔ w = v ∨ w ∈ e.classes := by
  unfold Enc.add
  simp only
  split
  · rename_i hh
    rw [search_hit _ h] at hh
    simp only
    constructor
    · exact Or.inr
    · rintro (rfl | h')
      · exact hh
      · exact h'
  · simp only [List.mem_append, List.mem_cons]
    have : w ∈ e.classes ↔ w ∈ e.classes.take (searchFloat64s e.classes v) ∨ w ∈ e.classes.drop (searchFloat64s e.classes v) := by
      rw [← List.mem_append, List.take_append_drop]
    rw [this]; tauto

theorem add_len (e : Enc K) (h : e.support.length = e.classes.length) (v : K) :
    (e.add v).support.length = (e.add v).classes.length := by
  unfold Enc.add
  simp only
  split
  · simpa using h
  · simp [h]

theorem foldl_add_inv (ys : List K) : ∀ (e : Enc K), e.classes.Pairwise (· < ·) → e.support.length = e.classes.length →
    (ys.foldl Enc.add e).classes.Pairwise (· < ·) ∧ (ys.foldl Enc.add e).support.length = (ys.foldl Enc.add e).classes.length ∧
    ∀ w, w ∈ (ys.foldl Enc.add e).classes ↔ w ∈ e.classes ∨ w ∈ ys := by
  induction ys with
  | nil => intro e h1 h2; exact ⟨h1, h2, by simp⟩
  | cons y ys ih =>
    intro e h1 h2
    obtain ⟨a, b, c⟩ := ih (e.add y) (add_sorted e h1 y) (add_len e h2 y)
    refine ⟨a, b, ?_⟩
    intro w
    rw [List.foldl_cons, c w, add_mem e h1]
    simp only [List.mem_cons]
    tauto

theorem fit_eq (cols : List (List K)) : fit cols = cols.map (fun ys => ys.foldl Enc.add Enc.empty) := by
  unfold fit partialFit
  simp only [List.length_map, if_true]
  induction cols with
  | nil => rfl
  | cons c cs ih => simp only [List.map_cons, List.zipWith_cons_cons]; rw [ih]

theorem code_mem (e : Enc K) (h : e.classes.Pairwise (· < ·)) (i : ℕ) (hi : i < e.classes.length) :
    e.code e.classes[i] = i := by
  unfold Enc.code
  simp only [searchFloat64s_getElem _ h i hi]
  rw [if_neg (by omega)]

/-- A new largest label is appended with count one. -/
theorem add_new_max (e : Enc K) (h : e.classes.Pairwise (· < ·)) (h2 : e.support.length = e.classes.length) (v : K)
    (hv : ∀ w ∈ e.classes, w < v) :
    e.add v = ⟨e.classes ++ [v], e.support ++ [1]⟩ := by
  have hpos : searchFloat64s e.classes v = e.classes.length := by
    obtain ⟨h1, _, h3⟩ := searchFloat64s_spec e.classes (h.imp (fun {a b} hab => le_of_lt hab)) v
    by_contra hne
    have hlt : searchFloat64s e.classes v < e.classes.length := by omega
    exact absurd (h3 _ hlt (le_refl _)) (not_le.2 (hv _ (List.getElem_mem hlt)))
  unfold Enc.add
  simp only [hpos]
  rw [if_neg (by simp)]
  rw [List.take_length, List.drop_length, ← h2, List.take_length, List.drop_length]
  simp

theorem foldl_add_count (ys : List K) : (∀ pre v post, ys = pre ++ v :: post → v ∈ pre ∨ ∀ w ∈ pre, w < v) →
    ∀ (i : ℕ) (v : K), (ys.foldl Enc.add Enc.empty).classes[i]? = some v →
      (ys.foldl Enc.add Enc.empty).support[i]? = some (ys.count v) := by
  induction ys using List.reverseRecOn with
  | nil => intro _ i v h; simp [Enc.empty] at h
  | append_singleton ys y ih =>
    intro hasc i v
    have ih := ih (fun pre v post e => hasc pre v (post ++ [y]) (by simp [e]))
    obtain ⟨hs, hl, hm⟩ := foldl_add_inv ys Enc.empty (by simp [Enc.empty]) rfl
    rw [List.foldl_append, List.foldl_cons, List.foldl_nil]
    generalize he : List.foldl Enc.add Enc.empty ys = e at *
    have hmem : ∀ w, w ∈ e.classes ↔ w ∈ ys := fun w => by simpa [Enc.empty] using hm w
    rcases hasc ys y [] (by simp) with hy | hy
    · have hhit := (search_hit e.classes hs y).2 ((hmem y).2 hy)
      unfold Enc.add
      simp only [hhit, if_true]
      intro hi
      rw [List.getElem?_modify, ih i v hi, List.count_append]
      by_cases hp : searchFloat64s e.classes y = i
      · rw [hp] at hhit
        have : y = v := by rw [hi] at hhit; exact (Option.some.inj hhit).symm
        subst this; simp [hp]
      · have : y ≠ v := by
          rintro rfl
          have hi' := (List.getElem?_eq_some_iff.1 hi)
          obtain ⟨hlt, hget⟩ := hi'
          have := searchFloat64s_getElem e.classes hs i hlt
          rw [hget] at this
          exact hp this
        simp [hp, this]
    · rw [add_new_max e hs hl y (fun w hw => hy w ((hmem w).1 hw))]
      simp only
      intro hi
      by_cases hlt : i < e.classes.length
      · rw [List.getElem?_append_left hlt] at hi
        rw [List.getElem?_append_left (by omega), ih i v hi, List.count_append]
        have : y ≠ v := by
          rintro rfl
          exact lt_irrefl _ (hy y ((hmem y).1 (List.mem_of_getElem? hi)))
        simp [this]
      · rw [List.getElem?_append_right (by omega)] at hi
        have hi0 : i - e.classes.length = 0 := by
          by_contra hne
          rw [List.getElem?_eq_none (by simp; omega)] at hi
          cases hi
        rw [hi0] at hi
        have : y = v := by simpa using hi
        subst this
        rw [List.getElem?_append_right (by omega), hl, hi0, List.count_append]
        have h0 : ys.count y = 0 := List.count_eq_zero.2 (fun hmem => lt_irrefl _ (hy y hmem))
        simp [h0]

/-! ## LabelBinarizer -/

theorem distinctSorted_spec (ys : List K) : (distinctSorted ys).Pairwise (· < ·) ∧ ∀ w, w ∈ distinctSorted ys ↔ w ∈ ys := by
  unfold distinctSorted
  constructor
  · have h1 := List.pairwise_insertionSort (· ≤ · : K → K → Prop) ys.dedup
    have h2 : (ys.dedup.insertionSort (· ≤ ·)).Nodup :=
      (List.perm_insertionSort _ _).nodup_iff.2 (List.nodup_dedup ys)
    exact (h1.and h2).imp (fun {a b} hab => lt_of_le_of_ne hab.1 hab.2)
  · intro w
    rw [List.mem_insertionSort, List.mem_dedup]

theorem sorted_le_getElem (cs : List K) (h : cs.Pairwise (· ≤ ·)) (i j : ℕ) (hij : i ≤ j) (hj : j < cs.length) :
    cs[i]'(by omega) ≤ cs[j] := by
  rcases Nat.lt_or_eq_of_le hij with h' | rfl
  · exact List.pairwise_iff_getElem.1 h i j (by omega) hj h'
  · exact le_refl _

/-- The elements of a strictly ascending list below one of them are those before it. -/
theorem filter_lt_sorted (cs : List K) (hs : cs.Pairwise (· < ·)) (i : ℕ) (x : K) (hx : cs[i]? = some x) :
    cs.filter (fun w => decide (w < x)) = cs.take i := by
  obtain ⟨hi, rfl⟩ := List.getElem?_eq_some_iff.1 hx
  generalize hx : cs[i] = x
  conv_lhs => rw [← List.take_append_drop i cs]
  rw [List.filter_append]
  have h1 : (cs.take i).filter (fun w => decide (w < x)) = cs.take i := by
    rw [List.filter_eq_self]
    intro a ha
    obtain ⟨k, hk, rfl⟩ := List.getElem_of_mem ha
    simp at hk
    rw [List.getElem_take, ← hx]
    simpa using List.pairwise_iff_getElem.1 hs k i (by omega) hi (by omega)
  have h2 : (cs.drop i).filter (fun w => decide (w < x)) = [] := by
    rw [List.filter_eq_nil_iff]
    intro a ha
    obtain ⟨k, hk, rfl⟩ := List.getElem_of_mem ha
    simp at hk
    rw [List.getElem_drop, ← hx]
    simp only [decide_eq_true_eq, not_lt]
    exact sorted_le_getElem cs (hs.imp (fun {a b} hab => le_of_lt hab)) _ _ (by omega) (by omega)
  rw [h1, h2, List.append_nil]

theorem findIdx_getElem (cs : List K) (h : cs.Pairwise (· < ·)) (i : ℕ) (hi : i < cs.length) :
    cs.findIdx? (fun c => decide (c = cs[i])) = some i := by
  rw [List.findIdx?_eq_some_iff_getElem]
  refine ⟨hi, by simp, ?_⟩
  intro j hj
  simp only [decide_eq_true_eq]
  exact ne_of_lt (List.pairwise_iff_getElem.1 h j i (by omega) hi hj)

theorem maxIdx_onehot {F : Type} [LinearOrder F] [Zero F] (n i : ℕ) (hi : i < n) (p : F) (hp : 0 < p) :
    maxIdx ((List.replicate n (0 : F)).set i p) = some i := by
  apply maxIdx_unique _ i (by simpa using hi)
  intro j hj hne
  simp at hj
  rw [List.getElem_set_self, List.getElem_set_ne (Ne.symm hne)]
  simpa using hp

theorem block_getElem {F : Type} [Zero F] (neg pos : F) (cs : List K) (h : cs.Pairwise (· < ·)) (i : ℕ) (hi : i < cs.length) :
    block neg pos cs cs[i] = (List.replicate cs.length 0).set i pos := by
  unfold block
  rw [findIdx_getElem cs h i hi]

theorem mapM_some_of {α β : Type} (f : α → Option β) (g : α → β) : ∀ (l : List α), (∀ a ∈ l, f a = some (g a)) →
    l.mapM f = some (l.map g)
  | [], _ => rfl
  | a :: l, h => by
    rw [List.mapM_cons, h a (by simp), mapM_some_of f g l (fun b hb => h b (by simp [hb]))]
    rfl

theorem flatten_drop_take {F : Type} (rows : List (List F)) (cols : ℕ) (h : ∀ r ∈ rows, r.length = cols) (i : ℕ)
    (hi : i < rows.length) : ((rows.flatten).drop (i * cols)).take cols = rows[i] := by
  induction rows generalizing i with
  | nil => simp at hi
  | cons r rs ih =>
    have hr : r.length = cols := h r (by simp)
    cases i with
    | zero => simp [← hr]
    | succ i =>
      rw [List.flatten_cons, List.getElem_cons_succ, Nat.succ_mul, Nat.add_comm, ← hr, ← List.drop_drop, List.drop_left, hr]
      exact ih (fun r' hr' => h r' (by simp [hr'])) i (by simpa using hi)

theorem flatten_len {F : Type} (rows : List (List F)) (cols : ℕ) (h : ∀ r ∈ rows, r.length = cols) :
    rows.flatten.length = rows.length * cols := by
  induction rows with
  | nil => simp
  | cons r rs ih =>
    rw [List.flatten_cons, List.length_append, ih (fun r' hr' => h r' (by simp [hr'])), h r (by simp), List.length_cons]
    rw [Nat.succ_mul, Nat.add_comm]

end Sk.Label
