import Verif.Lemmas.Label
import Mathlib.Data.Rat.Defs
import Mathlib.Algebra.Order.Ring.Rat
import Mathlib.Tactic.NormNum

/-!
# C12–C15, C63: label encoders
-/
set_option autoImplicit false

namespace Sk.Label

open Sk.GoSort

variable {K : Type} [LinearOrder K]

/-- **C12, Classes.** For every label matrix, the `Classes` of each column are the distinct labels of this column in strictly
increasing order. -/
theorem C12_classes (cols : List (List K)) :
    (fit cols).length = cols.length ∧
    ∀ (j : ℕ) (h : j < (fit cols).length) (h' : j < cols.length),
      (fit cols)[j].classes.Pairwise (· < ·) ∧ ∀ v, v ∈ (fit cols)[j].classes ↔ v ∈ cols[j] := by
  simp only [fit_eq, List.length_map, List.getElem_map, true_and]
  intro j h h'
  obtain ⟨a, _, c⟩ := foldl_add_inv cols[j] Enc.empty (by simp [Enc.empty]) rfl
  exact ⟨a, fun v => by simpa [Enc.empty] using c v⟩

example : (fit [[(3 : ℕ), 1, 3, 2]]).map Enc.classes = [[1, 2, 3]] := by decide +kernel

/-- **C12, Transform.** The code of a fitted label is its rank: the number of distinct fitted labels below it, and it is the
position of the label in `Classes`. -/
theorem C12_transform (cols : List (List K)) (j : ℕ) (h : j < (fit cols).length) (h' : j < cols.length) (v : K)
    (hv : v ∈ cols[j]) :
    (fit cols)[j].code v = ((cols[j].dedup.filter (fun w => decide (w < v))).length : ℤ) ∧
    (fit cols)[j].classes[((fit cols)[j].code v).toNat]? = some v := by
  obtain ⟨hs, hm⟩ := (C12_classes cols).2 j h h'
  obtain ⟨i, hi, rfl⟩ := List.getElem_of_mem ((hm v).2 hv)
  rw [code_mem _ hs i hi]
  refine ⟨?_, by simp⟩
  have hperm : (fit cols)[j].classes.Perm cols[j].dedup :=
    (List.perm_ext_iff_of_nodup (hs.imp (fun {a b} hab => ne_of_lt hab)) (List.nodup_dedup _)).2 (fun a => by
      rw [hm, List.mem_dedup])
  rw [← (hperm.filter _).length_eq]
  generalize (fit cols)[j].classes = cs at *
  have hsplit := filter_lt_sorted cs hs i _ (List.getElem?_eq_getElem hi)
  rw [hsplit, List.length_take, Nat.min_eq_left hi.le]

example : (fit [[(30 : ℕ), 10, 30, 20]]).map (fun e => e.code 30) = [2] := by decide +kernel

/-- **C12, round trip.** `InverseTransform (Transform Y) = Y` for every row made of fitted labels. -/
theorem C12_roundtrip (cols : List (List K)) (row : List K) (hrow : List.Forall₂ (fun v ys => v ∈ ys) row cols) :
    ∃ codes, transformRow (fit cols) row = some codes ∧
      inverseRow (fit cols) codes = some (row.map Cell.label) := by
  rw [fit_eq]
  induction hrow with
  | nil => exact ⟨[], rfl, rfl⟩
  | @cons v ys vs cs hv _ ih =>
    obtain ⟨codes, h1, h2⟩ := ih
    obtain ⟨hs, _, hm⟩ := foldl_add_inv ys Enc.empty (by simp [Enc.empty]) rfl
    have hv' : v ∈ (ys.foldl Enc.add Enc.empty).classes := (hm v).2 (Or.inr hv)
    obtain ⟨i, hi, rfl⟩ := List.getElem_of_mem hv'
    refine ⟨(i : ℤ) :: codes, ?_, ?_⟩
    · simp only [List.map_cons, transformRow, h1, code_mem _ hs i hi, Option.map_some]
    · simp only [List.map_cons, inverseRow, Int.toNat_natCast]
      rw [if_neg (by omega), List.getElem?_eq_getElem hi]
      simp only [h2, Option.map_some]

example : transformRow (fit [[(30 : ℕ), 10, 20], [5, 5, 4]]) [20, 5] = some [1, 1] := by decide +kernel

/-- **C12, Support (partial).** When every label is either already seen or larger than all the labels before it (in particular for
sorted labels), `Support` counts the occurrences of each class.  Missing: the other orders, for which the claim is false
(`C12_support_violated`). -/
theorem C12_support_partial (ys : List K)
    (hasc : ∀ pre v post, ys = pre ++ v :: post → v ∈ pre ∨ ∀ w ∈ pre, w < v)
    (e : Enc K) (he : fit [ys] = [e]) (i : ℕ) (v : K) (h : e.classes[i]? = some v) :
    e.support[i]? = some (ys.count v) := by
  rw [fit_eq] at he
  simp only [List.map_cons, List.map_nil, List.cons.injEq, and_true] at he
  subst he
  exact foldl_add_count ys hasc i v h

example : fit [[(1 : ℕ), 2, 1, 3, 3]] = [⟨[1, 2, 3], [2, 1, 2]⟩] := by decide +kernel

/-- **C12, Support is wrong otherwise.** Two labels seen once each, the larger first: `Support` reports 2 for the smaller one, because
the slot freed for it still holds the count of the larger one. -/
theorem C12_support_violated (v w : K) (h : v < w) :
    fit [[w, v]] = [⟨[v, w], [2, 1]⟩] ∧ ([w, v].count v = 1 ∧ [w, v].count w = 1) := by
  constructor
  · rw [fit_eq]
    have h1 : (Enc.empty : Enc K).add w = ⟨[w], [1]⟩ :=
      add_new_max (Enc.empty : Enc K) (by simp [Enc.empty]) rfl w (by simp [Enc.empty])
    have hpos : searchFloat64s [w] v = 0 := by
      obtain ⟨a, b, _⟩ := searchFloat64s_spec [w] (by simp) v
      by_contra hne
      exact absurd (b 0 (by simp) (by omega)) (not_lt.2 h.le)
    simp only [List.map_cons, List.map_nil, List.foldl_cons, List.foldl_nil, h1]
    unfold Enc.add
    simp [hpos, h.ne']
  · constructor
    · simp [List.count_cons, h.ne']
    · simp [List.count_cons, h.ne]

/-- **C13.** For every sequence of batches (each a matrix given by `n` columns), successive `PartialFit` calls give the same `Classes` and
`Support` as one `Fit` on the matrix of all the rows. -/
theorem C13_partialFit_concat (n : ℕ) (b : List (List K)) (hb : b.length = n) (batches : List (List (List K)))
    (hbs : ∀ c ∈ batches, c.length = n) :
    batches.foldl partialFit (partialFit [] b) =
      fit (batches.foldl (fun acc c => List.zipWith (· ++ ·) acc c) b) := by
  have key : ∀ (acc c : List (List K)), acc.length = c.length →
      partialFit (fit acc) c = fit (List.zipWith (· ++ ·) acc c) := by
    intro acc c hlen
    rw [fit_eq, fit_eq]
    unfold partialFit
    simp only [List.length_map, hlen, if_true]
    clear hb hbs
    induction acc generalizing c with
    | nil => simp
    | cons a acc ih =>
      cases c with
      | nil => simp at hlen
      | cons c cs =>
        simp only [List.map_cons, List.zipWith_cons_cons, List.foldl_append]
        rw [ih cs (by simpa using hlen)]
  have h0 : partialFit ([] : List (Enc K)) b = fit b := by
    unfold fit partialFit
    simp only [List.length_nil, List.length_map, if_true]
    split
    · have : b = [] := List.length_eq_zero_iff.1 (by omega)
      subst this; rfl
    · rfl
  rw [h0]
  clear h0
  induction batches generalizing b with
  | nil => rfl
  | cons c cs ih =>
    have hc : c.length = n := hbs c (by simp)
    rw [List.foldl_cons, List.foldl_cons, key b c (by omega)]
    exact ih _ (by simp [hb, hc]) (fun c' hc' => hbs c' (by simp [hc']))

example : [[[(2 : ℕ), 5]], [[1]]].foldl partialFit (partialFit [] [[3, 2]]) = fit [[3, 2, 2, 5, 1]] := by decide +kernel

/-- **C14, partial.** A label larger than every fitted label is mapped to -1. Missing: unknown labels below the largest one, for which the
claim is false (`C14_unknown_violated`). -/
theorem C14_unknown_partial (ys : List K) (v : K) (hv : ∀ w ∈ ys, w < v) (e : Enc K) (he : fit [ys] = [e]) :
    e.code v = -1 := by
  rw [fit_eq] at he
  simp only [List.map_cons, List.map_nil, List.cons.injEq, and_true] at he
  subst he
  obtain ⟨hs, _, hm⟩ := foldl_add_inv ys Enc.empty (by simp [Enc.empty]) rfl
  obtain ⟨h1, _, h3⟩ := searchFloat64s_spec _ (hs.imp (fun {a b} hab => le_of_lt hab)) v
  unfold Enc.code
  simp only
  rw [if_pos]
  by_contra hlt
  rw [not_le] at hlt
  have hmem := (hm _).1 (List.getElem_mem hlt)
  simp only [Enc.empty, List.not_mem_nil, false_or] at hmem
  exact absurd (h3 _ hlt (le_refl _)) (not_le.2 (hv _ hmem))

example : (fit [[(1 : ℕ), 3]]).map (fun e => e.code 4) = [-1] := by decide +kernel

/-- **C14 is violated** for every unknown label below the largest fitted one: it receives exactly the code of a fitted label, the smallest one
above it, and `InverseTransform` then returns this other label. -/
theorem C14_unknown_violated (ys : List K) (v m : K) (hv : v ∉ ys) (hm : m ∈ ys) (hlt : v < m) (e : Enc K) (he : fit [ys] = [e]) :
    ∃ w ∈ ys, v < w ∧ (∀ u ∈ ys, v < u → w ≤ u) ∧ e.code v = e.code w ∧ e.code v ≠ -1 ∧
      inverseRow [e] [e.code v] = some [Cell.label w] := by
  rw [fit_eq] at he
  simp only [List.map_cons, List.map_nil, List.cons.injEq, and_true] at he
  obtain ⟨hs, _, hmem⟩ := foldl_add_inv ys Enc.empty (by simp [Enc.empty]) rfl
  rw [he] at hs hmem
  simp only [Enc.empty, List.not_mem_nil, false_or] at hmem
  have hle := hs.imp (fun {a b} (hab : a < b) => le_of_lt hab)
  obtain ⟨h1, h2, h3⟩ := searchFloat64s_spec e.classes hle v
  have hp : searchFloat64s e.classes v < e.classes.length := by
    by_contra hge
    obtain ⟨i, hi, rfl⟩ := List.getElem_of_mem ((hmem m).2 hm)
    exact absurd (h2 i hi (by omega)) (not_lt.2 hlt.le)
  have hcode : e.code v = (searchFloat64s e.classes v : ℤ) := by
    unfold Enc.code
    simp only
    rw [if_neg (by omega)]
  refine ⟨e.classes[searchFloat64s e.classes v], (hmem _).1 (List.getElem_mem hp), ?_, ?_, ?_, ?_, ?_⟩
  · refine lt_of_le_of_ne (h3 _ hp (le_refl _)) ?_
    intro heq
    exact hv ((hmem v).1 (heq ▸ List.getElem_mem hp))
  · intro u hu hvu
    obtain ⟨i, hi, rfl⟩ := List.getElem_of_mem ((hmem u).2 hu)
    have : searchFloat64s e.classes v ≤ i := by
      by_contra hc
      exact absurd (h2 i hi (by omega)) (not_lt.2 hvu.le)
    exact sorted_le_getElem _ hle _ _ this hi
  · rw [code_mem e hs _ hp, hcode]
  · rw [hcode]; omega
  · rw [hcode]
    simp only [inverseRow, Int.toNat_natCast]
    rw [if_neg (by omega), List.getElem?_eq_getElem hp]
    rfl

/-- C14 violated: an invalid code in one column also erases the following columns of its row, whatever their codes: they stay at the initial zero; and the code equal to the number of classes panics instead of
giving NaN. -/
theorem C14_inverse_break_violated (ys : List K) (cols : List (List K)) (c : ℤ) (cs : List ℤ) :
    (c < 0 ∨ ((distinctSorted ys).length : ℤ) < c → inverseRow (fit (ys :: cols)) (c :: cs) = some (Cell.nan :: cs.map (fun _ => Cell.zero))) ∧
    (c = (distinctSorted ys).length → inverseRow (fit (ys :: cols)) (c :: cs) = none) := by
  rw [fit_eq, List.map_cons]
  obtain ⟨hs, _, hm⟩ := foldl_add_inv ys Enc.empty (by simp [Enc.empty]) rfl
  generalize ys.foldl Enc.add Enc.empty = e at *
  obtain ⟨hd, hdm⟩ := distinctSorted_spec ys
  have hlen : e.classes.length = (distinctSorted ys).length := by
    have hp : e.classes.Perm (distinctSorted ys) := (List.perm_ext_iff_of_nodup (hs.imp (fun h => ne_of_lt h)) (hd.imp (fun h => ne_of_lt h))).2 (fun w => by
      rw [hm w, hdm w]; simp [Enc.empty])
    exact hp.length_eq
  constructor
  · intro h
    rw [inverseRow, if_pos (by rw [hlen]; exact h)]
  · rintro rfl
    rw [inverseRow, if_neg (by omega), Int.toNat_natCast, List.getElem?_eq_none (by omega)]

example : inverseRow (fit [[(1 : ℕ), 3], [7, 8]]) [-1, 1] = some [Cell.nan, Cell.zero] ∧
    inverseRow (fit [[(1 : ℕ), 3]]) [2] = none ∧ inverseRow (fit [[(1 : ℕ), 3]]) [3] = some [Cell.nan] := by decide +kernel

/-! ## LabelBinarizer -/

/-- **C15, encoding (partial).** For fitted labels, `Transform` writes, in the block of each output column, `PosLabel` at the position of the label
in the sorted distinct labels and zero elsewhere. Missing: the other cells hold 0, not `NegLabel` (`C15_neglabel_violated`). -/
theorem C15_onehot_partial {F : Type} [Zero F] (neg pos : F) (cols : List (List K)) (row : List K)
    (hrow : List.Forall₂ (fun v ys => v ∈ ys) row cols) :
    ∃ blocks : List (List F), binRow neg pos (cols.map distinctSorted) row = some blocks.flatten ∧
      List.Forall₂ (fun (b : List F) (p : K × List K) => ∃ i, (distinctSorted p.2)[i]? = some p.1 ∧
        b.length = (distinctSorted p.2).length ∧
        ∀ k, k < b.length → b[k]? = some (if k = i then pos else 0)) blocks (row.zip cols) := by
  induction hrow with
  | nil => exact ⟨[], by simp [binRow], by simp⟩
  | @cons v ys vs cs hv _ ih =>
    obtain ⟨bs, h1, h2⟩ := ih
    obtain ⟨hs, hm⟩ := distinctSorted_spec ys
    obtain ⟨i, hi, rfl⟩ := List.getElem_of_mem ((hm v).2 hv)
    refine ⟨block neg pos (distinctSorted ys) (distinctSorted ys)[i] :: bs, ?_, ?_⟩
    · simp only [List.map_cons, binRow, h1, Option.map_some, List.flatten_cons]
    · rw [List.zip_cons_cons]
      refine List.Forall₂.cons ⟨i, by simp, ?_, ?_⟩ h2
      · rw [block_getElem _ _ _ hs i hi]; simp
      · intro k hk
        rw [block_getElem _ _ _ hs i hi] at hk ⊢
        simp at hk
        rw [List.getElem?_set]
        by_cases hki : k = i
        · subst hki; simp [hk]
        · simp [hki, Ne.symm hki, hk]

example : binRow (0 : ℤ) 1 ([[(3 : ℕ), 1, 2], [7, 8, 7]].map distinctSorted) [2, 8] = some [0, 1, 0, 0, 1] := by decide +kernel

/-- **C15, `NegLabel` is not used.** The cells of the classes other than the label hold 0: for labels of which there are at least two, a row contains 0, and contains `NegLabel` only where that is 0 or `PosLabel`. -/
theorem C15_neglabel_violated {F : Type} [Zero F] (neg pos : F) (fitted : List K) (v w : K) (hv : v ∈ fitted) (hw : w ∈ fitted) (hvw : v ≠ w) :
    ∃ row : List F, binRow neg pos [distinctSorted fitted] [v] = some row ∧ (0 : F) ∈ row ∧ ∀ x ∈ row, x = 0 ∨ x = pos := by
  obtain ⟨hs, hm⟩ := distinctSorted_spec fitted
  generalize distinctSorted fitted = cs at *
  obtain ⟨i, hi, rfl⟩ := List.getElem_of_mem ((hm v).2 hv)
  obtain ⟨j, hj, rfl⟩ := List.getElem_of_mem ((hm w).2 hw)
  have hij : i ≠ j := fun e => hvw (by subst e; rfl)
  refine ⟨(List.replicate cs.length 0).set i pos, by simp [binRow, block_getElem _ _ _ hs i hi], ?_, ?_⟩
  · refine List.mem_iff_getElem.2 ⟨j, by simpa using hj, ?_⟩
    rw [List.getElem_set_ne hij, List.getElem_replicate]
  · intro x hx
    rcases List.mem_or_eq_of_mem_set hx with h | h
    · exact Or.inl (List.mem_replicate.1 h).2
    · exact Or.inr h

/-- With `NegLabel = -1`, `PosLabel = 1`. -/
example : binRow (-1 : ℤ) 1 ([[(3 : ℕ), 1, 2]].map distinctSorted) [2] = some [0, 1, 0] := by decide +kernel

/-- **C15, round trip (partial).** With one output column and a positive `PosLabel` (the default is 1, `NegLabel = 0`), `InverseTransform` of
the transformed fitted labels gives the labels back. Missing: several output columns and non-positive `PosLabel`, for which the
claim is false (`C15_two_columns_violated`, `C15_poslabel_violated`). -/
theorem C15_roundtrip_partial {F : Type} [LinearOrder F] [Zero F] (neg pos : F) (hpos : 0 < pos) (zero : K) (fitted ys : List K)
    (hys : ∀ v ∈ ys, v ∈ fitted) (hne : fitted ≠ []) :
    ∃ rows : List (List F), ys.mapM (fun v => binRow neg pos [distinctSorted fitted] [v]) = some rows ∧
      binInverse zero [distinctSorted fitted] rows (distinctSorted fitted).length = some [ys] := by
  obtain ⟨hs, hm⟩ := distinctSorted_spec fitted
  generalize distinctSorted fitted = cs at *
  have hcs : 0 < cs.length := by
    obtain ⟨a, ha⟩ := List.exists_mem_of_ne_nil _ hne
    exact List.length_pos_of_mem ((hm a).2 ha)
  refine ⟨ys.map (fun v => block neg pos cs v), ?_, ?_⟩
  · apply mapM_some_of
    intro v _
    simp [binRow]
  · have hlen : ∀ r ∈ ys.map (fun v => block neg pos cs v), r.length = cs.length := by
      intro r hr
      obtain ⟨v, _, rfl⟩ := List.mem_map.1 hr
      unfold block
      split <;> simp
    have hmapM : (List.range ys.length).mapM (fun i => do
        if (ys.map (fun v => block neg pos cs v)).flatten.length < i * cs.length + 0 + cs.length then none
        else
          let k ← maxIdx (((ys.map (fun v => block neg pos cs v)).flatten.drop (i * cs.length + 0)).take cs.length)
          cs[k]?) = some ys := by
      have hys' : ys = (List.range ys.length).map (fun i => ys.getD i zero) := by
        apply List.ext_getElem
        · simp
        · intro i h1 h2
          simp [h1]
      conv_rhs => rw [hys']
      apply mapM_some_of
      intro i hi
      rw [List.mem_range] at hi
      have hge : ¬ (ys.map (fun v => block neg pos cs v)).flatten.length < i * cs.length + 0 + cs.length := by
        rw [flatten_len _ _ hlen, List.length_map]
        have : (i + 1) * cs.length ≤ ys.length * cs.length := Nat.mul_le_mul_right _ hi
        rw [Nat.succ_mul] at this
        omega
      rw [if_neg hge, Nat.add_zero, flatten_drop_take _ _ hlen i (by simpa using hi)]
      rw [List.getElem_map]
      obtain ⟨k, hk, hkv⟩ := List.getElem_of_mem ((hm ys[i]).2 (hys _ (List.getElem_mem hi)))
      rw [← hkv, block_getElem _ _ _ hs k hk, maxIdx_onehot _ k hk pos hpos]
      simp [hk, hkv, hi]
    unfold binInverse
    simp only [binInverseLoop, List.length_map, hcs, if_true]
    rw [hmapM]
    simp [show ¬ (cs.length + cs.length < cs.length) by omega]

example : ∃ rows : List (List ℚ), [(3 : ℕ), 1, 3, 2].mapM (fun v => binRow 0 1 [distinctSorted [1, 2, 3]] [v]) = some rows ∧
    binInverse 0 [distinctSorted [1, 2, 3]] rows 3 = some [[3, 1, 3, 2]] := by
  refine ⟨[[0, 0, 1], [1, 0, 0], [0, 0, 1], [0, 1, 0]], ?_, ?_⟩ <;> decide +kernel

/-- **C15 is violated** with two output columns, for all data: the column offset is advanced twice per column.  If the first column has at least as many classes as the second, the first is decoded and the second
gets zeros; otherwise the call panics (slice beyond the data). -/
theorem C15_two_columns_violated {F : Type} [LinearOrder F] (zero : K) (c₁ c₂ : List K) (h1 : c₁ ≠ []) (h2 : c₂ ≠ []) (rows : List (List F)) (hr : rows ≠ [])
    (hl : ∀ r ∈ rows, r.length = c₁.length + c₂.length) :
    (c₂.length ≤ c₁.length → ∃ col, binInverse zero [c₁, c₂] rows (c₁.length + c₂.length) = some [col, List.replicate rows.length zero] ∧ col.length = rows.length ∧
      ∀ (i : ℕ) (r : List F), rows[i]? = some r → ∃ k c, maxIdx (r.take c₁.length) = some k ∧ c₁[k]? = some c ∧ col[i]? = some c) ∧
    (c₁.length < c₂.length → binInverse zero [c₁, c₂] rows (c₁.length + c₂.length) = none) := by
  have hp1 : 0 < c₁.length := List.length_pos_iff.2 h1
  have hp2 : 0 < c₂.length := List.length_pos_iff.2 h2
  have hrl : 0 < rows.length := List.length_pos_iff.2 hr
  set w := c₁.length + c₂.length with hw
  have hflat : rows.flatten.length = rows.length * w := by
    rw [flatten_len _ w hl]
  have hdec : ∀ i (hi : i < rows.length), ∃ k c, maxIdx ((rows[i]).take c₁.length) = some k ∧ c₁[k]? = some c := by
    intro i hi
    have hri := hl _ (List.getElem_mem hi)
    have hlen : ((rows[i]).take c₁.length).length = c₁.length := by rw [List.length_take, hri]; omega
    obtain ⟨k, hk, hlt, _⟩ := maxIdx_spec ((rows[i]).take c₁.length) (by intro e; rw [e] at hlen; simp at hlen; omega)
    exact ⟨k, c₁[k]'(by omega), hk, List.getElem?_eq_getElem (by omega)⟩
  have : Inhabited K := ⟨zero⟩
  choose! kk cc hk hc using hdec
  have hfirst : (List.range rows.length).mapM (fun i => do
      if rows.flatten.length < i * w + 0 + c₁.length then none
      else
        let k ← maxIdx ((rows.flatten.drop (i * w + 0)).take c₁.length)
        c₁[k]?) = some ((List.range rows.length).map (fun i => cc i)) := by
    apply mapM_some_of
    intro i hi
    rw [List.mem_range] at hi
    have hm : (i + 1) * w ≤ rows.length * w := Nat.mul_le_mul_right _ hi
    rw [Nat.succ_mul] at hm
    rw [if_neg (by rw [hflat]; omega), Nat.add_zero]
    have ht : (rows.flatten.drop (i * w)).take c₁.length = (rows[i]).take c₁.length := by
      have := flatten_drop_take _ w hl i hi
      rw [← this, List.take_take, min_eq_left (by omega)]
    rw [ht, hk i hi]
    exact hc i hi
  refine ⟨fun hle => ?_, fun hlt => ?_⟩
  · refine ⟨(List.range rows.length).map (fun i => cc i), ?_, by simp, ?_⟩
    · unfold binInverse
      simp only [binInverseLoop]
      rw [if_pos (by omega), hfirst, if_neg (by omega)]
      simp
    · intro i r hir
      obtain ⟨hi, rfl⟩ := List.getElem?_eq_some_iff.1 hir
      exact ⟨kk i, cc i, hk i hi, hc i hi, by simp [hi]⟩
  · have hsecond : (List.range rows.length).mapM (fun i => do
        if rows.flatten.length < i * w + (0 + c₁.length + c₁.length) + c₂.length then none
        else
          let k ← maxIdx ((rows.flatten.drop (i * w + (0 + c₁.length + c₁.length))).take c₂.length)
          c₂[k]?) = none := by
      obtain ⟨m, hm⟩ : ∃ m, rows.length = m + 1 := ⟨rows.length - 1, by omega⟩
      rw [hm, List.range_succ, List.mapM_append]
      have hlast : ([m].mapM (fun i => do
          if rows.flatten.length < i * w + (0 + c₁.length + c₁.length) + c₂.length then none
          else
            let k ← maxIdx ((rows.flatten.drop (i * w + (0 + c₁.length + c₁.length))).take c₂.length)
            c₂[k]?) : Option (List K)) = none := by
        rw [List.mapM_cons, if_pos (by rw [hflat, hm, Nat.succ_mul]; omega)]
        rfl
      rw [hlast]
      generalize List.mapM (m := Option) _ (List.range m) = u
      cases u <;> rfl
    unfold binInverse
    simp only [binInverseLoop]
    rw [if_pos (by omega), hfirst, if_pos (by omega), hsecond]
    rfl

example : (∃ rows : List (List ℤ), [[(1 : ℕ), 7], [2, 8]].mapM (binRow 0 1 ([[1, 2], [7, 8]].map distinctSorted)) = some rows ∧
      binInverse 0 ([[1, 2], [7, 8]].map distinctSorted) rows 4 = some [[1, 2], [0, 0]]) ∧
    (∃ rows : List (List ℤ), [[(1 : ℕ), 7], [1, 8]].mapM (binRow 0 1 ([[1, 1], [7, 8]].map distinctSorted)) = some rows ∧
      binInverse 0 ([[1, 1], [7, 8]].map distinctSorted) rows 3 = none) := by
  constructor
  · exact ⟨[[1, 0, 1, 0], [0, 1, 0, 1]], by decide +kernel, by decide +kernel⟩
  · exact ⟨[[1, 1, 0], [1, 0, 1]], by decide +kernel, by decide +kernel⟩

/-- **C15 is violated** for a negative `PosLabel` and at least two labels: the zeros left in the other cells are larger, and every label is decoded as another one. -/
theorem C15_poslabel_violated {F : Type} [LinearOrder F] [Zero F] (neg pos : F) (hpos : pos < 0) (zero : K) (fitted ys : List K) (hys : ∀ v ∈ ys, v ∈ fitted) (h2 : ∀ v ∈ ys, ∃ w ∈ fitted, v ≠ w) (hne : ys ≠ []) :
    ∃ (rows : List (List F)) (zs : List K), ys.mapM (fun v => binRow neg pos [distinctSorted fitted] [v]) = some rows ∧
      binInverse zero [distinctSorted fitted] rows (distinctSorted fitted).length = some [zs] ∧ List.Forall₂ (fun v z => z ∈ fitted ∧ z ≠ v) ys zs := by
  obtain ⟨hs, hm⟩ := distinctSorted_spec fitted
  generalize distinctSorted fitted = cs at *
  have hcs : 0 < cs.length := by
    obtain ⟨a, ha⟩ := List.exists_mem_of_ne_nil _ hne
    exact List.length_pos_of_mem ((hm a).2 (hys a ha))
  have hdec : ∀ v ∈ ys, ∃ z ∈ fitted, z ≠ v ∧ (maxIdx (block neg pos cs v)).bind (fun k => cs[k]?) = some z := by
    intro v hv
    obtain ⟨w, hw, hvw⟩ := h2 v hv
    obtain ⟨i, hi, rfl⟩ := List.getElem_of_mem ((hm v).2 (hys v hv))
    obtain ⟨j, hj, rfl⟩ := List.getElem_of_mem ((hm w).2 hw)
    have hij : i ≠ j := fun e => hvw (by subst e; rfl)
    rw [block_getElem _ _ _ hs i hi]
    obtain ⟨k, hk, hlt, hmax, _⟩ := maxIdx_spec ((List.replicate cs.length (0 : F)).set i pos) (by
      intro e
      have := congrArg List.length e
      simp at this
      exact absurd this (by intro e'; rw [e'] at hcs; simp at hcs))
    have hkl : k < cs.length := by simpa using hlt
    have hki : k ≠ i := by
      rintro rfl
      have := hmax j (by simpa using hj)
      rw [List.getElem_set_ne hij, List.getElem_replicate, List.getElem_set_self] at this
      exact absurd this (not_le.2 hpos)
    refine ⟨cs[k], (hm _).1 (List.getElem_mem hkl), ?_, ?_⟩
    · intro e
      rcases lt_or_gt_of_ne hki with h | h
      · exact absurd e (ne_of_lt (List.pairwise_iff_getElem.1 hs k i hkl hi h))
      · exact absurd e.symm (ne_of_lt (List.pairwise_iff_getElem.1 hs i k hi hkl h))
    · rw [hk, Option.bind_some, List.getElem?_eq_getElem hkl]
  have : Inhabited K := ⟨zero⟩
  choose! z hz1 hz2 hz3 using hdec
  refine ⟨ys.map (fun v => block neg pos cs v), ys.map z, ?_, ?_, ?_⟩
  · apply mapM_some_of
    intro v _
    simp [binRow]
  · have hlen : ∀ r ∈ ys.map (fun v => block neg pos cs v), r.length = cs.length := by
      intro r hr
      obtain ⟨v, _, rfl⟩ := List.mem_map.1 hr
      unfold block
      split <;> simp
    have hmapM : (List.range ys.length).mapM (fun i => do
        if (ys.map (fun v => block neg pos cs v)).flatten.length < i * cs.length + 0 + cs.length then none
        else
          let k ← maxIdx (((ys.map (fun v => block neg pos cs v)).flatten.drop (i * cs.length + 0)).take cs.length)
          cs[k]?) = some (ys.map z) := by
      have hys' : ys.map z = (List.range ys.length).map (fun i => z (ys.getD i zero)) := by
        apply List.ext_getElem
        · simp
        · intro i h1 h2
          simp only [List.length_map] at h1
          simp [h1]
      rw [hys']
      apply mapM_some_of
      intro i hi
      rw [List.mem_range] at hi
      have hge : ¬ (ys.map (fun v => block neg pos cs v)).flatten.length < i * cs.length + 0 + cs.length := by
        rw [flatten_len _ _ hlen, List.length_map]
        have : (i + 1) * cs.length ≤ ys.length * cs.length := Nat.mul_le_mul_right _ hi
        rw [Nat.succ_mul] at this
        omega
      rw [if_neg hge, Nat.add_zero, flatten_drop_take _ _ hlen i (by simpa using hi), List.getElem_map]
      have := hz3 _ (List.getElem_mem hi)
      rw [show ys.getD i zero = ys[i] by simp [hi]]
      exact this
    unfold binInverse
    simp only [binInverseLoop, List.length_map, hcs, if_true]
    rw [hmapM]
    simp [show ¬ (cs.length + cs.length < cs.length) by omega]
  · rw [List.forall₂_map_right_iff, List.forall₂_same]
    exact fun v hv => ⟨hz1 v hv, hz2 v hv⟩

example : ∃ rows : List (List ℤ), [(1 : ℕ), 2].mapM (fun v => binRow (-2) (-1) [distinctSorted [1, 2]] [v]) = some rows ∧
    binInverse 0 [distinctSorted [1, 2]] rows 2 = some [[2, 1]] := ⟨[[-1, 0], [0, -1]], by decide +kernel, by decide +kernel⟩

/-! ## MultiLabelBinarizer -/

/-- **C15.** `Fit` keeps a `PosLabel` different from `NegLabel` and otherwise makes it the next number, so that the two always differ. -/
theorem C15_labels_differ {F : Type} [Field F] [DecidableEq F] (neg pos : F) :
    fitPos neg pos ≠ neg ∧ (pos ≠ neg → fitPos neg pos = pos) := by
  unfold fitPos
  constructor
  · split
    · rename_i h
      rw [h]
      intro h'
      exact one_ne_zero (left_eq_add.1 h'.symm)
    · assumption
  · intro h
    rw [if_neg h]

example : fitPos (0 : ℚ) 0 = 1 ∧ fitPos (-1 : ℚ) 1 = 1 := by decide +kernel

/-- **C63.** For every rectangular table of fitted labels (any width), `MultiLabelBinarizer` encodes each row in `width * classes` cells and
`InverseTransform` recovers it. -/
theorem C63_multi_roundtrip {F : Type} [LinearOrder F] [Zero F] [One F] (h01 : (0 : F) < 1) (fitted : List (List K)) (row : List K)
    (hrow : ∀ v ∈ row, ∃ r ∈ fitted, v ∈ r) (hne : row ≠ []) :
    (multiRow (F := F) (multiFit fitted) row).length = row.length * (multiFit fitted).length ∧
    multiInverseRow (multiFit fitted) (multiRow (F := F) (multiFit fitted) row) = some row := by
  obtain ⟨hs, hm⟩ := distinctSorted_spec fitted.flatten
  have hmem : ∀ v ∈ row, v ∈ multiFit fitted := fun v hv => (hm v).2 (List.mem_flatten.2 (hrow v hv))
  unfold multiFit at *
  generalize distinctSorted fitted.flatten = cs at *
  have hcs : cs ≠ [] := by
    obtain ⟨a, ha⟩ := List.exists_mem_of_ne_nil _ hne
    exact List.ne_nil_of_mem (hmem a ha)
  have hpos : 0 < cs.length := List.length_pos_iff.2 hcs
  set B : K → List F := fun v => match cs.findIdx? (fun c => decide (c = v)) with
    | some i => (List.replicate cs.length 0).set i 1
    | none => List.replicate cs.length 0 with hB
  have hBlen : ∀ r ∈ row.map B, r.length = cs.length := by
    intro r hr
    obtain ⟨v, _, rfl⟩ := List.mem_map.1 hr
    simp only [hB]
    split <;> simp
  have hmr : multiRow (F := F) cs row = (row.map B).flatten := by
    unfold multiRow; rw [List.flatMap_def]; rfl
  have hl : (multiRow (F := F) cs row).length = row.length * cs.length := by
    rw [hmr, flatten_len _ _ hBlen, List.length_map]
  refine ⟨hl, ?_⟩
  unfold multiInverseRow
  rw [if_neg hcs, hl, Nat.mul_div_cancel _ hpos]
  obtain ⟨d, _⟩ := List.exists_mem_of_ne_nil _ hne
  have hrow' : row = (List.range row.length).map (fun i => row.getD i d) := by
    apply List.ext_getElem
    · simp
    · intro i h1 h2; simp [h1]
  conv_rhs => rw [hrow']
  apply mapM_some_of
  intro i hi
  rw [List.mem_range] at hi
  rw [hmr, flatten_drop_take _ _ hBlen i (by simpa using hi), List.getElem_map]
  obtain ⟨k, hk, hkv⟩ := List.getElem_of_mem (hmem _ (List.getElem_mem hi))
  have : B row[i] = (List.replicate cs.length 0).set k 1 := by
    simp only [hB]
    rw [← hkv, findIdx_getElem cs hs k hk]
  rw [this, maxIdx_onehot _ k hk 1 h01]
  simp [hk, hkv, hi]

example : multiInverseRow (multiFit [[(3 : ℕ), 1], [2, 2]]) (multiRow (F := ℤ) (multiFit [[3, 1], [2, 2]]) [1, 3]) = some [1, 3] := by
  decide +kernel

/-- **C63, ragged tables.** For tables whose rows have different lengths (the declared use, an iterable of iterables) the width of the first row decides: a shorter row panics, the labels of a longer one beyond that width
make no difference. -/
theorem C63_ragged_violated {F : Type} [Zero F] [One F] (classes r : List K) (rows : List (List K)) :
    ((∃ s ∈ rows, s.length < r.length) → multiTransform (F := F) classes (r :: rows) = none) ∧
    ((∀ s ∈ rows, r.length ≤ s.length) → multiTransform (F := F) classes (r :: rows) = multiTransform classes (r :: rows.map (List.take r.length)) ∧
      ∃ out, multiTransform (F := F) classes (r :: rows) = some out) := by
  constructor
  · rintro ⟨s, hs, hlt⟩
    have key : ∀ (l : List (List K)), s ∈ l → l.mapM (fun t => if t.length < r.length then none else some (multiRow (F := F) classes (t.take r.length))) = none := by
      intro l
      induction l with
      | nil => simp
      | cons t l ih =>
        intro hsl
        rw [List.mapM_cons]
        rcases List.mem_cons.1 hsl with rfl | h
        · rw [if_pos hlt]; rfl
        · rw [ih h]
          by_cases ht : t.length < r.length
          · rw [if_pos ht]; rfl
          · rw [if_neg ht]; rfl
    exact key _ (List.mem_cons_of_mem _ hs)
  · intro h
    have h1 : multiTransform (F := F) classes (r :: rows) = some ((r :: rows).map (fun t => multiRow classes (t.take r.length))) := by
      apply mapM_some_of
      intro t ht
      rw [if_neg]
      rcases List.mem_cons.1 ht with rfl | ht
      · exact lt_irrefl _
      · exact not_lt.2 (h t ht)
    refine ⟨?_, _, h1⟩
    rw [h1]
    symm
    have h2 : multiTransform (F := F) classes (r :: rows.map (List.take r.length)) = some ((r :: rows.map (List.take r.length)).map (fun t => multiRow classes (t.take r.length))) := by
      apply mapM_some_of
      intro t ht
      rw [if_neg]
      rcases List.mem_cons.1 ht with rfl | ht
      · exact lt_irrefl _
      · obtain ⟨u, hu, rfl⟩ := List.mem_map.1 ht
        rw [List.length_take, min_eq_left (h u hu)]
        exact lt_irrefl _
    rw [h2]
    simp [List.take_take]

example : multiTransform (F := ℤ) (multiFit [[(1 : ℕ)], [1, 2]]) [[1], [1, 2]] = some [[1, 0], [1, 0]] ∧
    multiTransform (F := ℤ) (multiFit [[(1 : ℕ), 2], [1]]) [[1, 2], [1]] = none := by decide +kernel

end Sk.Label
