import Verif.Model.MultiLabel
import Verif.Props.Label
import Verif.Lemmas.ListX

/-! # C181: `MultiLabelBinarizer` on whole tables, by the type of the argument -/
set_option autoImplicit false

namespace Sk.Label

variable {K S F : Type} [LinearOrder K] [LinearOrder S]

/-- A table with `w` cells in each row, all of them labels of `fitted`. -/
def Known {A : Type} (w : ℕ) (fitted rows : List (List A)) : Prop := ∀ row ∈ rows, row.length = w ∧ ∀ v ∈ row, ∃ r ∈ fitted, v ∈ r

theorem nums (cs : List K) : (cs.map (Lab.num : K → Lab K S)).mapM Lab.toNum = some cs := by
  rw [ListX.mapM_forall2]
  induction cs with
  | nil => exact .nil
  | cons c cs ih => exact .cons rfl ih

theorem strs (cs : List S) : (cs.map (Lab.str : S → Lab K S)).mapM Lab.toStr = some cs := by
  rw [ListX.mapM_forall2]
  induction cs with
  | nil => exact .nil
  | cons c cs ih => exact .cons rfl ih

theorem fit_ne {A : Type} [LinearOrder A] {w : ℕ} (hw : 0 < w) {fitted rows : List (List A)} (hne : rows ≠ []) (hk : Known w fitted rows) : multiFit fitted ≠ [] := by
  obtain ⟨row, rows', rfl⟩ := List.exists_cons_of_ne_nil hne
  obtain ⟨hl, hm⟩ := hk row List.mem_cons_self
  obtain ⟨v, row', rfl⟩ := List.exists_cons_of_ne_nil (show row ≠ [] by rintro rfl; simp at hl; omega)
  obtain ⟨r, hr, hv⟩ := hm v List.mem_cons_self
  have := ((distinctSorted_spec fitted.flatten).2 v).2 (List.mem_flatten.2 ⟨r, hr, hv⟩)
  intro h
  rw [multiFit] at h
  rw [h] at this
  cases this

theorem inverse_rows {A : Type} [LinearOrder A] [LinearOrder F] [Zero F] [One F] (h01 : (0 : F) < 1) {w : ℕ} (hw : 0 < w) (fitted rows : List (List A)) (hk : Known w fitted rows) :
    (rows.map (multiRow (F := F) (multiFit fitted))).mapM (multiInverseRow (multiFit fitted)) = some rows ∧ ∀ row ∈ rows.map (multiRow (F := F) (multiFit fitted)), row.length = w * (multiFit fitted).length := by
  constructor
  · rw [ListX.mapM_forall2, List.forall₂_map_left_iff, List.forall₂_same]
    intro row hrow
    obtain ⟨hl, hm⟩ := hk row hrow
    exact (C63_multi_roundtrip h01 fitted row hm (by rintro rfl; simp at hl; omega)).2
  · intro row hrow
    obtain ⟨row, hrow', rfl⟩ := List.mem_map.1 hrow
    replace hrow := hrow'
    obtain ⟨hl, hm⟩ := hk row hrow
    rw [(C63_multi_roundtrip h01 fitted row hm (by rintro rfl; simp at hl; omega)).1, hl]

/-- C181 (partial): on tables of numbers held as a `*mat.Dense` and on tables of strings, encoding labels seen in the fit gives one row per row, of `w` blocks of as many cells as there are classes, and decoding gives the table back, with
its type.  Missing: other matrices (`C181_interface_violated`), labels not seen (`C181_unknown_violated`). -/
theorem C181_roundtrip_partial [LinearOrder F] [Zero F] [One F] (h01 : (0 : F) < 1) (w : ℕ) (hw : 0 < w) :
    (∀ (fitted rows : List (List K)), rows ≠ [] → Known w fitted rows → ∃ (cs : List (Lab K S)) (enc : List (List F)), mlFit w fitted = some cs ∧ mlTransform cs true w rows = some (some enc) ∧
      enc.length = rows.length ∧ (∀ row ∈ enc, row.length = w * cs.length) ∧ mlInverse cs (w * cs.length) enc = some (.dense w rows)) ∧
    (∀ (fitted rows : List (List S)), rows ≠ [] → Known w fitted rows → ∃ (cs : List (Lab K S)) (enc : List (List F)), mlFit2 (.strings fitted) = some cs ∧ mlTransform2 cs (.strings rows) = some (some enc) ∧
      enc.length = rows.length ∧ (∀ row ∈ enc, row.length = w * cs.length) ∧ mlInverse cs (w * cs.length) enc = some (.strings rows)) := by
  constructor
  · intro fitted rows hne hk
    have hf := fit_ne hw hne hk
    have hpos := List.length_pos_of_ne_nil hf
    obtain ⟨h1, h2⟩ := inverse_rows h01 hw fitted rows hk (F := F)
    refine ⟨(multiFit fitted).map .num, rows.map (multiRow (multiFit fitted)), rfl, ?_, by simp, by simpa using h2, ?_⟩
    · have : w * (multiFit fitted).length ≠ 0 := by have := Nat.mul_pos hw hpos; omega
      rw [mlTransform, if_pos rfl, mlTransform2, if_neg (by simp only [List.length_map]; tauto), nums]; rfl
    · obtain ⟨c, cs, hc⟩ := List.exists_cons_of_ne_nil hf
      have hl : w * ((multiFit fitted).map (Lab.num : K → Lab K S)).length / ((multiFit fitted).map (Lab.num : K → Lab K S)).length = w := by
        rw [List.length_map]; exact Nat.mul_div_cancel _ hpos
      rw [hc] at hl h1 ⊢
      rw [List.map_cons, mlInverse, ← List.map_cons, hl, if_neg (by simp only [List.map_eq_nil_iff]; push Not; exact ⟨hne, by omega⟩), nums, Option.bind_some, h1]
      rfl
  · intro fitted rows hne hk
    have hf := fit_ne hw hne hk
    have hpos := List.length_pos_of_ne_nil hf
    obtain ⟨h1, h2⟩ := inverse_rows h01 hw fitted rows hk (F := F)
    refine ⟨(multiFit fitted).map .str, rows.map (multiRow (multiFit fitted)), rfl, ?_, by simp, by simpa using h2, ?_⟩
    · obtain ⟨r, rows', rfl⟩ := List.exists_cons_of_ne_nil hne
      have hr := (hk r List.mem_cons_self).1
      have : w * (multiFit fitted).length ≠ 0 := by have := Nat.mul_pos hw hpos; omega
      rw [mlTransform2, if_neg (by simp only [List.head?_cons, Option.getD_some, List.length_map, hr]; tauto), strs, Option.bind_some]
      have hm : multiTransform (F := F) (multiFit fitted) (r :: rows') = some ((r :: rows').map (multiRow (multiFit fitted))) := by
        simp only [multiTransform]
        rw [ListX.mapM_forall2, List.forall₂_map_right_iff, List.forall₂_same]
        intro row hrow
        have hl := (hk row hrow).1
        rw [if_neg (by omega), List.take_of_length_le (by omega)]
      rw [hm]; rfl
    · obtain ⟨c, cs, hc⟩ := List.exists_cons_of_ne_nil hf
      rw [hc] at h1 ⊢
      rw [List.map_cons, mlInverse, ← List.map_cons, if_neg (by simpa using hne), strs, Option.bind_some, h1]
      rfl

example : Known 2 [["a", "b"], ["c", "a"]] [["c", "b"]] := by
  intro row hrow
  simp only [List.mem_singleton] at hrow
  subst hrow
  exact ⟨rfl, by simp⟩

/-- C181, violated: a matrix other than a `*mat.Dense` (a vector, a transposed or sliced matrix) can be fitted, but `Transform` of the same matrix returns no targets (nil), without an error. -/
theorem C181_interface_violated [Zero F] [One F] (w : ℕ) (rows : List (List K)) : ∃ cs : List (Lab K S), mlFit w rows = some cs ∧ mlTransform (F := F) cs false w rows = some none :=
  ⟨_, rfl, rfl⟩

/-- C181, violated: a label that was not seen is encoded without an error and decoded as the smallest label seen. -/
theorem C181_unknown_violated [LinearOrder F] [Zero F] [One F] (fitted : List (List K)) (v : K) (hv : ∀ r ∈ fitted, v ∉ r) (hne : ∃ r ∈ fitted, r ≠ []) :
    ∃ (cs : List (Lab K S)) (enc : List (List F)) (c : K), mlFit 1 fitted = some cs ∧ mlTransform cs true 1 [[v]] = some (some enc) ∧ mlInverse cs cs.length enc = some (.dense 1 [[c]]) ∧
      (∃ r ∈ fitted, c ∈ r) ∧ (∀ r ∈ fitted, ∀ u ∈ r, c ≤ u) ∧ c ≠ v := by
  obtain ⟨hs, hm⟩ := distinctSorted_spec fitted.flatten
  have hmem : ∀ u, u ∈ multiFit fitted ↔ ∃ r ∈ fitted, u ∈ r := fun u => (hm u).trans List.mem_flatten
  obtain ⟨r, hr, hrn⟩ := hne
  obtain ⟨u, r', rfl⟩ := List.exists_cons_of_ne_nil hrn
  have hf : multiFit fitted ≠ [] := List.ne_nil_of_mem ((hmem u).2 ⟨_, hr, List.mem_cons_self⟩)
  obtain ⟨c, cs, hc⟩ := List.exists_cons_of_ne_nil hf
  have hnot : v ∉ c :: cs := by
    rw [← hc, hmem]
    rintro ⟨r, hr, h⟩
    exact hv r hr h
  have hrow : multiRow (F := F) (c :: cs) [v] = List.replicate (c :: cs).length 0 := by
    have : (c :: cs).findIdx? (fun a => decide (a = v)) = none := by
      rw [List.findIdx?_eq_none_iff]
      intro a ha
      have : a ≠ v := by rintro rfl; exact hnot ha
      simpa using this
    simp only [multiRow, List.flatMap_cons, List.flatMap_nil, List.append_nil, this]
  refine ⟨(multiFit fitted).map .num, [multiRow (multiFit fitted) [v]], c, rfl, ?_, ?_, ?_, ?_, ?_⟩
  · rw [hc, mlTransform, if_pos rfl, mlTransform2, if_neg (by simp), nums]; rfl
  · rw [hc, List.map_cons, mlInverse, ← List.map_cons, Nat.div_self (by simp), if_neg (by simp), nums, Option.bind_some, hrow]
    have : multiInverseRow (c :: cs) (List.replicate (c :: cs).length (0 : F)) = some [c] := by
      rw [multiInverseRow, if_neg (by simp), List.length_replicate, Nat.div_self (by simp)]
      have hmx : GoSort.maxIdx (List.replicate (c :: cs).length (0 : F)) = some 0 := by
        obtain ⟨m, e, hm1, -, hm2⟩ := GoSort.maxIdx_spec (List.replicate (c :: cs).length (0 : F)) (by simp)
        rcases Nat.eq_zero_or_pos m with rfl | hpos
        · exact e
        · have := hm2 0 hpos
          simp at this
      simp only [List.length_cons] at hmx
      simp [hmx]
    simp only [List.mapM_cons, List.mapM_nil, this, Option.bind_eq_bind, Option.bind_some, Option.pure_def, Option.map_some]
  · exact (hmem c).1 (by rw [hc]; exact List.mem_cons_self)
  · intro r hr u hu
    have : u ∈ c :: cs := by rw [← hc]; exact (hmem u).2 ⟨r, hr, hu⟩
    rcases List.mem_cons.1 this with rfl | h
    · exact le_refl _
    · have hs' : (c :: cs).Pairwise (· < ·) := by rw [← hc]; exact hs
      exact le_of_lt ((List.pairwise_cons.1 hs').1 u h)
  · rintro rfl
    exact hnot List.mem_cons_self

/-- C181, other arguments: `Fit2` panics for an argument that is neither a `*mat.Dense` nor a `[][]string`, while `Transform2` returns nil for it; `InverseTransform` before a fit (or after a fit on tables without labels) panics. -/
theorem C181_other [LinearOrder F] [Zero F] [One F] (cs : List (Lab K S)) (t : Table K S) (h1 : ∀ w rows, t ≠ .dense w rows) (h2 : ∀ rows, t ≠ .strings rows) (cols : ℕ) (rows : List (List F)) :
    mlFit2 t = none ∧ mlTransform2 (F := F) cs t = some none ∧ mlInverse ([] : List (Lab K S)) cols rows = none := by
  cases t with
  | dense w rows => exact absurd rfl (h1 w rows)
  | strings rows => exact absurd rfl (h2 rows)
  | _ => exact ⟨rfl, rfl, rfl⟩

/-- C181, nothing to encode: a binarizer without classes, and a table without rows or whose first row has no label, make every transformation panic (gonum has no empty matrices). -/
theorem C181_empty [Zero F] [One F] (cs : List (Lab K S)) (w : ℕ) (nums : List (List K)) (strs : List (List S)) :
    mlTransform2 (F := F) ([] : List (Lab K S)) (.dense w nums) = none ∧ mlTransform2 (F := F) ([] : List (Lab K S)) (.strings strs) = none ∧
    mlTransform2 (F := F) cs (.dense w []) = none ∧ mlTransform2 (F := F) cs (.dense 0 nums) = none ∧
    mlTransform2 (F := F) cs (.strings []) = none ∧ mlTransform2 (F := F) cs (.strings ([] :: strs)) = none := by
  simp [mlTransform2]

/-- C181, violated: a binarizer fitted on strings panics on numbers, and one fitted on numbers panics on strings. -/
theorem C181_mixed_violated [Zero F] [One F] (w : ℕ) (nums' : List (List K)) (strs' : List (List S)) (fn : List (List K)) (fs : List (List S)) (hn : multiFit fn ≠ []) (hs : multiFit fs ≠ []) :
    (mlFit2 (.strings fs)).bind (fun cs : List (Lab K S) => mlTransform (F := F) cs true w nums') = none ∧ (mlFit w fn).bind (fun cs : List (Lab K S) => mlTransform2 (F := F) cs (.strings strs')) = none := by
  obtain ⟨c, cs, hc⟩ := List.exists_cons_of_ne_nil hn
  obtain ⟨d, ds, hd⟩ := List.exists_cons_of_ne_nil hs
  constructor
  · simp only [mlFit2, hd, Option.bind_some, mlTransform, if_true, mlTransform2]
    split
    · rfl
    · simp [Lab.toNum]
  · simp only [mlFit, mlFit2, hc, Option.bind_some, mlTransform2]
    split
    · rfl
    · simp [Lab.toStr]

/-- C181 (partial): `FitTransform` of a matrix and `FitTransform2` of a table of either type encode with the classes that `Fit` and `Fit2` find, so that `InverseTransform` gives the table back; anything else than
the two types makes `FitTransform2` panic.  Missing: other matrices, for which `FitTransform` returns no targets either. -/
theorem C181_fit_transform_partial [LinearOrder F] [Zero F] [One F] (h01 : (0 : F) < 1) (w : ℕ) (hw : 0 < w) :
    (∀ rows : List (List K), rows ≠ [] → (∀ row ∈ rows, row.length = w) → ∃ (cs : List (Lab K S)) (enc : List (List F)), mlFit w rows = some cs ∧
      mlFitTransform (S := S) true w rows = some (some enc) ∧ mlFitTransform2 (S := S) (.dense w rows) = some (some enc) ∧ mlInverse cs (w * cs.length) enc = some (.dense w rows) ∧
      mlFitTransform (S := S) (F := F) false w rows = some none) ∧
    (∀ rows : List (List S), rows ≠ [] → (∀ row ∈ rows, row.length = w) → ∃ (cs : List (Lab K S)) (enc : List (List F)), mlFit2 (.strings rows) = some cs ∧
      mlFitTransform2 (.strings rows : Table K S) = some (some enc) ∧ mlInverse cs (w * cs.length) enc = some (.strings rows)) ∧
    (∀ t : Table K S, (∀ w rows, t ≠ .dense w rows) → (∀ rows, t ≠ .strings rows) → mlFitTransform2 (F := F) t = none) := by
  obtain ⟨h1, h2⟩ := C181_roundtrip_partial (K := K) (S := S) h01 w hw
  refine ⟨fun rows hne hl => ?_, fun rows hne hl => ?_, fun t e1 e2 => ?_⟩
  · obtain ⟨cs, enc, a, b, -, -, e⟩ := h1 rows rows hne (fun row hr => ⟨hl row hr, fun v hv => ⟨row, hr, hv⟩⟩)
    refine ⟨cs, enc, a, ?_, ?_, e, ?_⟩
    · rw [mlFitTransform, a, Option.bind_some, b]
    · rw [mlFitTransform2, show mlFit2 (.dense w rows) = some cs from a, Option.bind_some]
      exact b
    · rw [mlFitTransform, a, Option.bind_some]
      rfl
  · obtain ⟨cs, enc, a, b, -, -, e⟩ := h2 rows rows hne (fun row hr => ⟨hl row hr, fun v hv => ⟨row, hr, hv⟩⟩)
    exact ⟨cs, enc, a, by rw [mlFitTransform2, a, Option.bind_some, b], e⟩
  · rw [mlFitTransform2, (C181_other [] t e1 e2 0 ([] : List (List F))).1, Option.bind_none]

/-- A table of two rows of two strings. -/
example : ∃ (cs : List (Lab ℕ ℕ)) (enc : List (List ℚ)), mlFit2 (.strings [[3, 1], [1, 2]]) = some cs ∧ mlFitTransform2 (.strings [[3, 1], [1, 2]] : Table ℕ ℕ) = some (some enc) ∧
    mlInverse cs (2 * cs.length) enc = some (.strings [[3, 1], [1, 2]]) :=
  (C181_fit_transform_partial (K := ℕ) (S := ℕ) (F := ℚ) one_pos 2 (by norm_num)).2.1 _ (by simp) (by simp)

example : multiFit [[3, 1], [2, (1 : ℕ)]] ≠ [] := by
  have := ((distinctSorted_spec [3, 1, 2, (1 : ℕ)]).2 3).2 (by simp)
  intro h
  rw [show multiFit [[3, 1], [2, (1 : ℕ)]] = distinctSorted [3, 1, 2, 1] from rfl] at h
  rw [h] at this
  cases this

end Sk.Label
