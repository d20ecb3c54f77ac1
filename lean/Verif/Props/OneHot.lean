import Verif.Model.Encode
import Verif.Lemmas.Label
import Mathlib.Algebra.Order.Ring.Rat

/-!
# C21: `OneHotEncoder`
-/
set_option autoImplicit false

namespace Sk.Encode

open Sk.GoSort Sk.Label

variable {K : Type} [Field K] [LinearOrder K] [IsStrictOrderedRing K]

/-- Spec: the flags of one cell (`1` at the positions holding the value). -/
def flags (vals : List K) (v : K) : List K := vals.map (fun w => if w = v then 1 else 0)

theorem ohPos_spec (vals : List K) (v : K) (hv : v ∈ vals) : ∃ h : ohPos vals v < vals.length, vals[ohPos vals v] = v := by
  unfold ohPos
  cases h : vals.findIdx? (fun w => decide (w = v)) with
  | none =>
    rw [List.findIdx?_eq_none_iff] at h
    have := h v hv
    simp at this
  | some i =>
    rw [List.findIdx?_eq_some_iff_getElem] at h
    obtain ⟨h1, h2, _⟩ := h
    exact ⟨h1, by simpa using h2⟩

theorem block_eq (vals : List K) (hnd : vals.Nodup) (v : K) (hv : v ∈ vals) :
    (List.replicate vals.length (0 : K)).set (ohPos vals v) 1 = flags vals v := by
  obtain ⟨h, he⟩ := ohPos_spec vals v hv
  apply List.ext_getElem
  · simp [flags]
  intro i h1 h2
  simp only [flags, List.getElem_map, List.getElem_set, List.getElem_replicate]
  have hi : i < vals.length := by simpa [flags] using h2
  by_cases hp : ohPos vals v = i
  · subst hp; simp [he]
  · rw [if_neg hp, if_neg]
    intro e
    exact hp ((List.Nodup.getElem_inj_iff hnd).1 (he.trans e.symm))

theorem ohLoop_spec : ∀ (vss : List (List K)) (row pre : List K), row.length = vss.length → (∀ vs ∈ vss, vs.Nodup) →
    (∀ p ∈ vss.zip row, p.2 ∈ p.1) →
    ohLoop vss row pre.length (pre ++ List.replicate (vss.map List.length).sum 0) = some (pre ++ (List.zipWith flags vss row).flatten)
  | [], [], pre, _, _, _ => by simp [ohLoop]
  | vals :: vss, v :: row, pre, hl, hnd, hm => by
    have hv : v ∈ vals := hm (vals, v) (by simp)
    obtain ⟨h, he⟩ := ohPos_spec vals v hv
    unfold ohLoop
    rw [if_pos (by simp; omega)]
    have e : (pre ++ List.replicate ((vals :: vss).map List.length).sum (0 : K)).set (pre.length + ohPos vals v) 1 =
        (pre ++ flags vals v) ++ List.replicate (vss.map List.length).sum 0 := by
      rw [List.set_append_right _ _ (by omega), Nat.add_sub_cancel_left, List.map_cons, List.sum_cons, List.replicate_add,
        List.set_append_left _ _ (by simpa using h), block_eq vals (hnd vals (by simp)) v hv, List.append_assoc]
    rw [e]
    have := ohLoop_spec vss row (pre ++ flags vals v) (by simpa using hl) (fun vs h => hnd vs (by simp [h]))
      (fun p hp => hm p (by simp [hp]))
    rw [List.length_append, show (flags vals v).length = vals.length by simp [flags]] at this
    rw [this]
    simp
  | [], _ :: _, _, hl, _, _ => by simp at hl
  | _ :: _, [], _, hl, _, _ => by simp at hl

/-- **C21, fit.** For every matrix the fitted values of a feature are its distinct values in increasing order. -/
theorem C21_fit (cols : List (List K)) : (ohFit cols).length = cols.length ∧
    ∀ (j : ℕ) (h : j < cols.length) (h' : j < (ohFit cols).length),
      (ohFit cols)[j].Pairwise (· < ·) ∧ ∀ w, w ∈ (ohFit cols)[j] ↔ w ∈ cols[j] := by
  refine ⟨by simp [ohFit], ?_⟩
  intro j h h'
  have := distinctSorted_spec cols[j]
  unfold distinctSorted at this
  simpa [ohFit, ohValues] using this

example : ohFit [[(3 : ℚ), 1, 3], [0, 0, 5]] = [[1, 3], [0, 5]] := by decide +kernel

theorem fit_nodup (cols : List (List K)) : ∀ vs ∈ ohFit cols, vs.Nodup := by
  intro vs hvs
  obtain ⟨c, _, rfl⟩ := List.mem_map.1 hvs
  exact (List.perm_insertionSort _ _).nodup_iff.2 (List.nodup_dedup c)

theorem fit_mem (cols : List (List K)) (row : List K) (hr : ∀ p ∈ cols.zip row, p.2 ∈ p.1) : ∀ p ∈ (ohFit cols).zip row, p.2 ∈ p.1 := by
  intro p hp
  obtain ⟨i, hi, rfl⟩ := List.getElem_of_mem hp
  simp only [List.length_zip, ohFit, List.length_map] at hi
  have : (cols[i]'(by omega), row[i]'(by omega)) ∈ cols.zip row := by
    rw [List.mem_iff_getElem]
    exact ⟨i, by simp; omega, by simp⟩
  have := hr _ this
  simpa [ohFit, ohValues] using this

/-- **C21, transform.** Every row whose cells occur in the fitted columns (in particular every training row) is transformed, without panic, into the
concatenation over the features of one block of flags: 1 at the position of the value among the fitted values of that feature, 0 elsewhere; so every block
contains exactly one 1. -/
theorem C21_transform (cols : List (List K)) (row : List K) (hl : row.length = cols.length) (hr : ∀ p ∈ cols.zip row, p.2 ∈ p.1) :
    ohTransform (ohFit cols) row = some (List.zipWith flags (ohFit cols) row).flatten ∧
    ∀ b ∈ List.zipWith flags (ohFit cols) row, b.count 1 = 1 ∧ ∀ x ∈ b, x = 1 ∨ x = 0 := by
  have hlf : (ohFit cols).length = cols.length := by simp [ohFit]
  constructor
  · unfold ohTransform
    rw [if_neg (by omega), List.take_of_length_le (by omega)]
    exact ohLoop_spec (ohFit cols) row [] (by omega) (fit_nodup cols) (fit_mem cols row hr)
  · intro b hb
    obtain ⟨i, hi, rfl⟩ := List.getElem_of_mem hb
    simp only [List.length_zipWith] at hi
    rw [List.getElem_zipWith]
    have hm : row[i] ∈ (ohFit cols)[i] := by
      have := fit_mem cols row hr ((ohFit cols)[i], row[i]) (by
        rw [List.mem_iff_getElem]; exact ⟨i, by simp; omega, by simp⟩)
      exact this
    have hnd := fit_nodup cols (ohFit cols)[i] (List.getElem_mem _)
    constructor
    · unfold flags
      rw [List.count, List.countP_map]
      have : ((fun x : K => x == 1) ∘ fun w => if w = row[i] then (1 : K) else 0) = fun w => w == row[i] := by
        funext w
        by_cases h : w = row[i] <;> simp [h]
      rw [this]
      exact List.count_eq_one_of_mem hnd hm
    · intro x hx
      unfold flags at hx
      obtain ⟨w, _, rfl⟩ := List.mem_map.1 hx
      split <;> simp

/-- **C21, other numbers of features.** A row with more features than fitted panics; a row with fewer features is encoded as by an encoder fitted on as many columns. -/
theorem C21_features (cols : List (List K)) (row : List K) :
    (cols.length < row.length → ohTransform (ohFit cols) row = none) ∧
    (row.length ≤ cols.length → (∀ p ∈ cols.zip row, p.2 ∈ p.1) → ohTransform (ohFit cols) row = some (List.zipWith flags (ohFit (cols.take row.length)) row).flatten) := by
  have hlf : (ohFit cols).length = cols.length := by simp [ohFit]
  constructor
  · intro h
    rw [ohTransform, if_pos (by omega)]
  · intro h hr
    have hz : (cols.take row.length).zip row = cols.zip row := by
      rw [List.zip_eq_zip_take_min (l₁ := cols) (l₂ := row), Nat.min_eq_right h, List.take_length]
    have h1 := (C21_transform (cols.take row.length) row (by rw [List.length_take]; omega) (by rw [hz]; exact hr)).1
    have hlt : (ohFit (cols.take row.length)).length = row.length := by simp [ohFit, h]
    have ht : ohFit (cols.take row.length) = (ohFit cols).take row.length := by simp [ohFit, List.map_take]
    rw [← h1, ohTransform, ohTransform, if_neg (by omega), if_neg (by omega), ht, List.take_take, Nat.min_self]
    have loop : ∀ (vs : List K) (vss : List (List K)) (b : ℕ) (out : List K), ohLoop vss vs b out = ohLoop (vss.take vs.length) vs b out := by
      intro vs
      induction vs with
      | nil => intro vss b out; cases vss <;> simp [ohLoop]
      | cons v vs ih =>
        intro vss b out
        cases vss with
        | nil => rfl
        | cons w vss =>
          rw [List.length_cons, List.take_succ_cons, ohLoop, ohLoop]
          split
          · exact ih _ _ _
          · rfl
    exact loop _ _ _ _

example : ohTransform (ohFit [[(3 : ℚ), 1, 3], [0, 0, 5]]) [3] = some [0, 1] ∧ ohTransform (ohFit [[(3 : ℚ), 1, 3], [0, 0, 5]]) [3, 0, 1] = none := by decide +kernel

example : ohTransform (ohFit [[(3 : ℚ), 1, 3], [0, 0, 5]]) [3, 0] = some [0, 1, 1, 0] := by decide +kernel

theorem flags_maxIdx (vals : List K) (hnd : vals.Nodup) (v : K) (hv : v ∈ vals) : maxIdx (flags vals v) = some (ohPos vals v) := by
  obtain ⟨h, _⟩ := ohPos_spec vals v hv
  rw [← block_eq vals hnd v hv]
  exact maxIdx_onehot _ _ h 1 one_pos

theorem ohInverse_spec : ∀ (vss : List (List K)) (row pre : List K), row.length = vss.length → (∀ vs ∈ vss, vs.Nodup) →
    (∀ p ∈ vss.zip row, p.2 ∈ p.1) →
    ohInverse vss pre.length (pre ++ (List.zipWith flags vss row).flatten) = some (List.zipWith (fun vs v => (ohPos vs v : K)) vss row)
  | [], [], pre, _, _, _ => by simp [ohInverse]
  | vals :: vss, v :: row, pre, hl, hnd, hm => by
    have hv : v ∈ vals := hm (vals, v) (by simp)
    have hlf : (flags vals v).length = vals.length := by simp [flags]
    unfold ohInverse
    rw [if_neg (by simp; omega)]
    have e : ((pre ++ (List.zipWith flags (vals :: vss) (v :: row)).flatten).drop pre.length).take vals.length = flags vals v := by
      rw [List.drop_left, List.zipWith_cons_cons, List.flatten_cons, ← hlf, List.take_left]
    rw [e, flags_maxIdx vals (hnd vals (by simp)) v hv]
    have := ohInverse_spec vss row (pre ++ flags vals v) (by simpa using hl) (fun vs h => hnd vs (by simp [h]))
      (fun p hp => hm p (by simp [hp]))
    rw [List.length_append, hlf] at this
    simp only [List.zipWith_cons_cons, List.flatten_cons, ← List.append_assoc, this]
    rfl
  | [], _ :: _, _, hl, _, _ => by simp at hl
  | _ :: _, [], _, hl, _, _ => by simp at hl

/-- Rank of a value among the distinct values of a column: how many of them are smaller. -/
def rank (col : List K) (v : K) : ℕ := (col.dedup.filter (fun w => decide (w < v))).length

theorem ohPos_rank (col : List K) (v : K) (hv : v ∈ col) : ohPos (ohValues col) v = rank col v := by
  have hs := distinctSorted_spec col
  have hv' : v ∈ ohValues col := (hs.2 v).2 hv
  obtain ⟨h, he⟩ := ohPos_spec (ohValues col) v hv'
  have hp : (ohValues col).Perm col.dedup := List.perm_insertionSort _ _
  unfold rank
  rw [← (hp.filter _).length_eq, ← List.countP_eq_length_filter]
  have hsp : (ohValues col).Pairwise (· < ·) := hs.1
  conv_rhs => rw [← List.take_append_drop (ohPos (ohValues col) v) (ohValues col)]
  rw [List.countP_append]
  have h1 : List.countP (fun w => decide (w < v)) ((ohValues col).take (ohPos (ohValues col) v)) = ohPos (ohValues col) v := by
    rw [List.countP_eq_length.2]
    · simp; omega
    · intro w hw
      obtain ⟨i, hi, rfl⟩ := List.getElem_of_mem hw
      simp only [List.length_take] at hi
      rw [List.getElem_take, decide_eq_true_eq]
      conv_rhs => rw [← he]
      exact List.pairwise_iff_getElem.1 hsp i _ (by omega) h (by omega)
  have h2 : List.countP (fun w => decide (w < v)) ((ohValues col).drop (ohPos (ohValues col) v)) = 0 := by
    rw [List.countP_eq_zero]
    intro w hw
    obtain ⟨i, hi, rfl⟩ := List.getElem_of_mem hw
    simp only [List.length_drop] at hi
    rw [List.getElem_drop, decide_eq_true_eq, not_lt]
    conv_lhs => rw [← he]
    rcases Nat.eq_zero_or_pos i with h0 | h0
    · subst h0; simp
    · exact le_of_lt (List.pairwise_iff_getElem.1 hsp _ _ h (by omega) (by omega))
  omega

/-- **C21, inverse (what the code does).** `InverseTransform` of a transformed row returns, for each feature, the rank of the value among the distinct fitted
values, not the value.
Missing for the full claim "`InverseTransform` recovers the values": see `C21_inverse_iff`, it holds only for values that equal their own rank. -/
theorem C21_inverse_partial (cols : List (List K)) (row : List K) (hl : row.length = cols.length) (hr : ∀ p ∈ cols.zip row, p.2 ∈ p.1) :
    (ohTransform (ohFit cols) row).bind (ohInverse (ohFit cols) 0) = some (List.zipWith (fun c v => (rank c v : K)) cols row) := by
  rw [(C21_transform cols row hl hr).1]
  have := ohInverse_spec (ohFit cols) row [] (by simp [ohFit, hl]) (fit_nodup cols) (fit_mem cols row hr)
  simp only [List.nil_append, List.length_nil] at this
  rw [Option.bind_some, this]
  congr 1
  apply List.ext_getElem
  · simp [ohFit]
  intro i h1 h2
  simp only [List.length_zipWith] at h2
  rw [List.getElem_zipWith, List.getElem_zipWith]
  congr 1
  have hm := hr (cols[i], row[i]) (by rw [List.mem_iff_getElem]; exact ⟨i, by simp; omega, by simp⟩)
  simpa [ohFit] using ohPos_rank cols[i] row[i] hm

/-- **C21, inverse.** The row is recovered exactly when every value equals its own rank (columns holding 0, 1, 2, …); the full claim fails otherwise. -/
theorem C21_inverse_iff (cols : List (List K)) (row : List K) (hl : row.length = cols.length) (hr : ∀ p ∈ cols.zip row, p.2 ∈ p.1) :
    (ohTransform (ohFit cols) row).bind (ohInverse (ohFit cols) 0) = some row ↔ ∀ p ∈ cols.zip row, (rank p.1 p.2 : K) = p.2 := by
  rw [C21_inverse_partial cols row hl hr, Option.some.injEq]
  constructor
  · intro h p hp
    obtain ⟨i, hi, rfl⟩ := List.getElem_of_mem hp
    simp only [List.length_zip] at hi
    have : (List.zipWith (fun c v => (rank c v : K)) cols row)[i]? = row[i]? := by rw [h]
    rw [List.getElem?_eq_getElem (by simp; omega), List.getElem?_eq_getElem (by omega), List.getElem_zipWith] at this
    simpa using this
  · intro h
    apply List.ext_getElem
    · simp; omega
    intro i h1 h2
    rw [List.getElem_zipWith]
    simp only [List.length_zipWith] at h1
    exact h (cols[i], row[i]) (by rw [List.mem_iff_getElem]; exact ⟨i, by simp; omega, by simp⟩)

example : (ohTransform (ohFit [[(1 : ℚ), 0, 1], [2, 1, 0]]) [1, 2]).bind (ohInverse (ohFit [[(1 : ℚ), 0, 1], [2, 1, 0]]) 0) = some [1, 2] := by decide +kernel

/-- The recovery claim is violated: values 3 and 5 decode to 0 and 1. -/
theorem C21_inverse_violated : ¬ ∀ (cols : List (List ℚ)) (row : List ℚ), row.length = cols.length → (∀ p ∈ cols.zip row, p.2 ∈ p.1) →
    (ohTransform (ohFit cols) row).bind (ohInverse (ohFit cols) 0) = some row := by
  intro h
  have := h [[3, 5]] [5] rfl (by decide +kernel)
  revert this
  decide +kernel

/-- A value never seen in training is not rejected: it is encoded exactly as the smallest fitted value (Go map lookup of an absent key). -/
theorem C21_unknown_as_first (vals : List K) (v : K) (hv : v ∉ vals) : ohPos vals v = 0 := by
  unfold ohPos
  rw [List.findIdx?_eq_none_iff.2]
  · rfl
  · intro w hw
    simp only [decide_eq_false_iff_not]
    rintro rfl
    exact hv hw

example : ohTransform (ohFit [[(3 : ℚ), 1, 3], [0, 0, 5]]) [77, 0] = some [1, 0, 1, 0] := by decide +kernel

end Sk.Encode
