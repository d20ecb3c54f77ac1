import Verif.Props.Label
import Verif.Props.MlpFit

/-! # C198: the label transformers on rows and labels that were not fitted -/
set_option autoImplicit false

namespace Sk.Label

open Sk.GoSort

variable {K : Type} [LinearOrder K]

/-- **C198, LabelEncoder, width.** `Transform` answers exactly for rows with at most as many cells as there were columns in `Fit`, with one code for each cell, and panics on wider rows. -/
theorem C198_encoder_width (cols : List (List K)) (row : List K) :
    (row.length ≤ cols.length → ∃ codes, transformRow (fit cols) row = some codes ∧ codes.length = row.length) ∧ (cols.length < row.length → transformRow (fit cols) row = none) := by
  have key : ∀ (es : List (Enc K)) (row : List K), (row.length ≤ es.length → ∃ codes, transformRow es row = some codes ∧ codes.length = row.length) ∧ (es.length < row.length → transformRow es row = none) := by
    intro es
    induction es with
    | nil =>
      intro row
      cases row with
      | nil => exact ⟨fun _ => ⟨[], rfl, rfl⟩, fun h => absurd h (by simp)⟩
      | cons v vs => exact ⟨fun h => absurd h (by simp), fun _ => rfl⟩
    | cons e es ih =>
      intro row
      cases row with
      | nil => exact ⟨fun _ => ⟨[], rfl, rfl⟩, fun h => absurd h (by simp)⟩
      | cons v vs =>
        obtain ⟨a, b⟩ := ih vs
        refine ⟨fun h => ?_, fun h => ?_⟩
        · obtain ⟨codes, e1, e2⟩ := a (by simpa using h)
          exact ⟨e.code v :: codes, by rw [transformRow, e1]; rfl, by simp [e2]⟩
        · rw [transformRow, b (by simpa using h)]
          rfl
  have := key (fit cols) row
  rwa [(C12_classes cols).1] at this

/-- **C198, LabelBinarizer, width.** `Transform` answers exactly for rows with at most as many cells as there were columns in `Fit`; the result has one cell for each class of each fitted column, whatever the
width of the row. -/
theorem C198_binarizer_width {F : Type} [Zero F] (neg pos : F) (cols : List (List K)) (row : List K) :
    (row.length ≤ cols.length → ∃ out, binRow neg pos (cols.map distinctSorted) row = some out ∧ out.length = (cols.map (fun ys => ys.toFinset.card)).sum) ∧
    (cols.length < row.length → binRow neg pos (cols.map distinctSorted) row = none) := by
  have hcard : ∀ ys : List K, (distinctSorted ys).length = ys.toFinset.card := by
    intro ys
    obtain ⟨h1, h2⟩ := distinctSorted_spec ys
    have : ys.toFinset = (distinctSorted ys).toFinset := by ext w; simp [h2]
    rw [this, List.toFinset_card_of_nodup (h1.imp (fun h => ne_of_lt h))]
  have hblock : ∀ (cs : List K) v, (block neg pos cs v).length = cs.length := by
    intro cs v
    unfold block
    split <;> simp
  induction cols generalizing row with
  | nil =>
    cases row with
    | nil => exact ⟨fun _ => ⟨[], rfl, rfl⟩, fun h => absurd h (by simp)⟩
    | cons v vs => exact ⟨fun h => absurd h (by simp), fun _ => rfl⟩
  | cons ys cols ih =>
    cases row with
    | nil => exact ⟨fun _ => ⟨_, rfl, by simp [hcard, Function.comp_def]⟩, fun h => absurd h (by simp)⟩
    | cons v vs =>
      obtain ⟨a, b⟩ := ih vs
      refine ⟨fun h => ?_, fun h => ?_⟩
      · obtain ⟨out, e1, e2⟩ := a (by simpa using h)
        exact ⟨block neg pos (distinctSorted ys) v ++ out, by rw [List.map_cons, binRow, e1]; rfl, by simp [hblock, hcard, e2]⟩
      · rw [List.map_cons, binRow, b (by simpa using h)]
        rfl

example : transformRow (fit [[(30 : ℕ), 10], [5, 4]]) [20, 5, 6] = none ∧ binRow (0 : ℤ) 1 ([[(3 : ℕ), 1], [7, 8, 9]].map distinctSorted) [3] = some [0, 1, 0, 0, 0] := by decide +kernel

/-- **C198, LabelBinarizer, unknown labels.** A label that was not fitted gets `NegLabel` in the cell of the least fitted label and zeros in the others. -/
theorem C198_binarizer_unknown {F : Type} [Zero F] (neg pos : F) (fitted : List K) (v : K) (hv : v ∉ fitted) :
    ∃ out, binRow neg pos [distinctSorted fitted] [v] = some out ∧ out.length = (distinctSorted fitted).length ∧ ∀ k, k < out.length → out[k]? = some (if k = 0 then neg else 0) := by
  obtain ⟨hs, hm⟩ := distinctSorted_spec fitted
  have hf : (distinctSorted fitted).findIdx? (fun c => decide (c = v)) = none := by
    rw [List.findIdx?_eq_none_iff]
    intro x hx
    have : x ≠ v := fun e => hv ((hm v).1 (e ▸ hx))
    simpa using this
  refine ⟨(List.replicate (distinctSorted fitted).length 0).set 0 neg, ?_, by simp, ?_⟩
  · simp [binRow, block, hf]
  · intro k hk
    have hk' : k < (distinctSorted fitted).length := by simpa using hk
    rw [List.getElem?_set]
    by_cases h0 : k = 0
    · subst h0
      simp [hk']
    · rw [if_neg (by omega), if_neg h0]
      simp [hk']

/-- **C198** is false: an unknown label is not told from the least fitted one by `InverseTransform` (if `NegLabel` is not negative; the default is 0): all unknown labels come back as the least fitted label. -/
theorem C198_unknown_violated {F : Type} [LinearOrder F] [Zero F] (neg pos : F) (hneg : 0 ≤ neg) (zero : K) (fitted : List K) (m : K) (hm : m ∈ fitted) (hmin : ∀ w ∈ fitted, m ≤ w) (v : K) (hv : v ∉ fitted) :
    ∃ out, binRow neg pos [distinctSorted fitted] [v] = some out ∧ binInverse zero [distinctSorted fitted] [out] (distinctSorted fitted).length = some [[m]] := by
  obtain ⟨out, h1, h2, h3⟩ := C198_binarizer_unknown neg pos fitted v hv
  obtain ⟨hs, hmem⟩ := distinctSorted_spec fitted
  have hpos : 0 < (distinctSorted fitted).length := List.length_pos_of_mem ((hmem m).2 hm)
  have h0 : (distinctSorted fitted)[0] = m := by
    obtain ⟨i, hi, e⟩ := List.getElem_of_mem ((hmem m).2 hm)
    refine le_antisymm ?_ (hmin _ ((hmem _).1 (List.getElem_mem _)))
    rw [← e]
    rcases Nat.eq_zero_or_pos i with rfl | hi0
    · exact le_refl _
    · exact le_of_lt (List.pairwise_iff_getElem.1 hs 0 i hpos hi hi0)
  have hne : out ≠ [] := by
    intro e
    rw [e] at h2
    simp at h2
    omega
  have hidx : maxIdx out = some 0 := by
    obtain ⟨k, e, hk, -, hlow⟩ := maxIdx_spec out hne
    rw [e]
    congr 1
    by_contra hk0
    have := hlow 0 (by omega)
    have e0 : out[0] = neg := by
      have := h3 0 (by omega)
      rw [List.getElem?_eq_getElem (by omega)] at this
      simpa using this
    have ek : out[k] = 0 := by
      have := h3 k hk
      rw [List.getElem?_eq_getElem hk, if_neg hk0] at this
      simpa using this
    rw [e0, ek] at this
    exact absurd hneg (not_le.2 this)
  refine ⟨out, h1, ?_⟩
  have ht : out.take (distinctSorted fitted).length = out := by rw [← h2, List.take_length]
  simp only [binInverse, binInverseLoop, List.flatten_cons, List.flatten_nil, List.append_nil, if_pos hpos, List.length_singleton, List.range_one, List.mapM_cons, List.mapM_nil, zero_mul, zero_add, h2, lt_irrefl,
    if_false, List.drop_zero, ht, hidx]
  have hlt : ¬ (distinctSorted fitted).length + (distinctSorted fitted).length < (distinctSorted fitted).length := by omega
  simp [hlt, h0, List.getElem?_eq_getElem hpos]

example : binRow (0 : ℤ) 1 [distinctSorted [(3 : ℕ), 1, 2]] [9] = some [0, 0, 0] ∧ binInverse 0 [distinctSorted [(3 : ℕ), 1, 2]] [[(0 : ℤ), 0, 0]] 3 = some [[1]] := by decide +kernel

/-- **C198, MultiLabelBinarizer.** `InverseTransform` answers exactly if some label was fitted, with one label, a fitted one, for each block of the row. -/
theorem C198_multi_inverse {F : Type} [LinearOrder F] (rows : List (List K)) (row : List F) :
    ((∃ r ∈ rows, r ≠ []) → ∃ out, multiInverseRow (multiFit rows) row = some out ∧ out.length = row.length / rows.flatten.toFinset.card ∧ ∀ v ∈ out, ∃ r ∈ rows, v ∈ r) ∧
    ((∀ r ∈ rows, r = []) → multiInverseRow (multiFit rows) row = none) := by
  obtain ⟨hs, hm⟩ := distinctSorted_spec rows.flatten
  have hcard : (multiFit rows).length = rows.flatten.toFinset.card := by
    have : rows.flatten.toFinset = (multiFit rows).toFinset := by ext w; simp [multiFit, hm]
    rw [this]
    exact (List.toFinset_card_of_nodup (hs.imp (fun h => ne_of_lt h))).symm
  constructor
  · rintro ⟨r, hr, hne⟩
    obtain ⟨v, hv⟩ := List.exists_mem_of_ne_nil r hne
    have hmem : v ∈ multiFit rows := (hm v).2 (List.mem_flatten.2 ⟨r, hr, hv⟩)
    have hc : multiFit rows ≠ [] := List.ne_nil_of_mem hmem
    have hpos : 0 < (multiFit rows).length := List.length_pos_of_mem hmem
    rw [multiInverseRow, if_neg hc]
    have cell : ∀ i ∈ List.range (row.length / (multiFit rows).length), ∃ w ∈ multiFit rows, (maxIdx ((row.drop (i * (multiFit rows).length)).take (multiFit rows).length)).bind (fun k => (multiFit rows)[k]?) = some w := by
      intro i hi
      rw [List.mem_range, Nat.lt_div_iff_mul_lt hpos] at hi
      have hlen : ((row.drop (i * (multiFit rows).length)).take (multiFit rows).length).length = (multiFit rows).length := by
        rw [List.length_take, List.length_drop]
        have : (i + 1) * (multiFit rows).length ≤ row.length := by
          rw [Nat.add_mul, Nat.one_mul]
          omega
        rw [Nat.add_mul, Nat.one_mul] at this
        omega
      obtain ⟨k, e, hk, -⟩ := maxIdx_spec ((row.drop (i * (multiFit rows).length)).take (multiFit rows).length) (by
        intro h
        rw [h] at hlen
        simp at hlen
        omega)
      rw [hlen] at hk
      exact ⟨(multiFit rows)[k], List.getElem_mem _, by rw [e, Option.bind_some, List.getElem?_eq_getElem hk]⟩
    have go : ∀ l : List ℕ, (∀ i ∈ l, ∃ w ∈ multiFit rows, (maxIdx ((row.drop (i * (multiFit rows).length)).take (multiFit rows).length)).bind (fun k => (multiFit rows)[k]?) = some w) →
        ∃ out, l.mapM (fun i => (maxIdx ((row.drop (i * (multiFit rows).length)).take (multiFit rows).length)).bind (fun k => (multiFit rows)[k]?)) = some out ∧ out.length = l.length ∧ ∀ v ∈ out, v ∈ multiFit rows := by
      intro l
      induction l with
      | nil => intro _; exact ⟨[], rfl, rfl, by simp⟩
      | cons i l ih =>
        intro h
        rw [List.forall_mem_cons] at h
        obtain ⟨⟨w, hw, e⟩, h2⟩ := h
        obtain ⟨out, e1, e2, e3⟩ := ih h2
        refine ⟨w :: out, by rw [List.mapM_cons, e, e1]; rfl, by simp [e2], ?_⟩
        rw [List.forall_mem_cons]
        exact ⟨hw, e3⟩
    obtain ⟨out, e1, e2, e3⟩ := go _ cell
    refine ⟨out, e1, by rw [e2, List.length_range, hcard], fun w hw => ?_⟩
    obtain ⟨r, h1, h2⟩ := List.mem_flatten.1 ((hm w).1 (e3 w hw))
    exact ⟨r, h1, h2⟩
  · intro h
    have : multiFit rows = [] := by
      rw [List.eq_nil_iff_forall_not_mem]
      intro v hv
      obtain ⟨r, h1, h2⟩ := List.mem_flatten.1 ((hm v).1 hv)
      rw [h r h1] at h2
      simp at h2
    rw [multiInverseRow, if_pos this]

end Sk.Label

namespace Sk.MlpFit

variable {K : Type} [Field K] [LinearOrder K]

/-- **C198, the binarizer of the networks.** A label that was not fitted gets `NegLabel` in the cell of the least fitted label and zeros in the others; rows with more cells than there were columns panic. -/
theorem C198_network_unknown (neg pos : K) (fitted : List K) (v : K) (hv : v ∉ fitted) (hne : fitted ≠ []) (rest : List K) :
    lbRow neg pos [Label.distinctSorted fitted] [v] = some (neg :: List.replicate ((Label.distinctSorted fitted).length - 1) 0) ∧
    (rest ≠ [] → lbRow neg pos [Label.distinctSorted fitted] (v :: rest) = none) := by
  obtain ⟨hs, hm⟩ := Label.distinctSorted_spec fitted
  obtain ⟨w, hw⟩ := List.exists_mem_of_ne_nil fitted hne
  have hpos : 0 < (Label.distinctSorted fitted).length := List.length_pos_of_mem ((hm w).2 hw)
  have hv' : v ∉ Label.distinctSorted fitted := fun h => hv ((hm v).1 h)
  refine ⟨?_, ?_⟩
  · have : lbCells neg pos (Label.distinctSorted fitted) v = neg :: List.replicate ((Label.distinctSorted fitted).length - 1) 0 := by
      rw [lbCells, if_neg hv']
      obtain ⟨n, hn⟩ : ∃ n, (Label.distinctSorted fitted).length = n + 1 := ⟨_, (Nat.succ_pred_eq_of_pos hpos).symm⟩
      rw [hn, List.range_succ_eq_map]
      simp [Function.comp_def]
    simp [lbRow, this]
  · intro hr
    cases rest with
    | nil => exact absurd rfl hr
    | cons a l => simp [lbRow]

example : lbRow (0 : ℚ) 1 [[1, 2, 3]] [9] = some [0, 0, 0] ∧ lbRow (-1 : ℚ) 1 [[1, 2, 3]] [9] = some [-1, 0, 0] := by decide +kernel

end Sk.MlpFit
