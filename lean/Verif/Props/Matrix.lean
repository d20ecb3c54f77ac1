import Verif.Lemmas.Matrix

/-!
# C03: matrix views
-/
set_option autoImplicit false

namespace Sk.Matrix

/-- `V` is the view of `M` whose cell `(r,c)` is the cell `(i+r, j+c)` of `M`, of size `nr × nc`: reads agree, and a write
through `V` changes exactly that cell of `M`, for every memory content. -/
def IsView (M V : General) (i j nr nc : ℕ) : Prop :=
  V.rows = nr ∧ V.cols = nc ∧
  ∀ (α : Type) (mem : ℕ → α) (r c : ℕ), r < nr → c < nc →
    (∃ x, V.get mem r c = some x) ∧
    V.get mem r c = M.get mem (i + r) (j + c) ∧
    ∀ v, ∃ mem', V.set mem r c v = some mem' ∧ V.get mem' r c = some v ∧
      ∀ r' c', r' < M.rows → c' < M.cols →
        M.get mem' r' c' = if r' = i + r ∧ c' = j + c then some v else M.get mem r' c'

theorem isView_of {M V : General} (hM : M.WF) (hV : V.WF) {i j nr nc : ℕ} (h1 : V.rows = nr) (h2 : V.cols = nc)
    (h3 : V.stride = M.stride) (h4 : V.data.off = M.data.off + (i * M.stride + j))
    (h5 : i + nr ≤ M.rows) (h6 : j + nc ≤ M.cols) : IsView M V i j nr nc := by
  refine ⟨h1, h2, ?_⟩
  intro α mem r c hr hc
  have hv := WF.cell hV (i := r) (j := c) (by omega) (by omega)
  have hm := WF.cell hM (i := i + r) (j := j + c) (by omega) (by omega)
  have hadr : V.data.off + (r * V.stride + c) = M.data.off + ((i + r) * M.stride + (j + c)) := by
    rw [h3, h4]; ring
  refine ⟨⟨_, by simp [General.get, hv]; rfl⟩, by simp [General.get, hv, hm, hadr], ?_⟩
  intro v
  refine ⟨_, by simp [General.set, hv]; rfl, by simp [General.get, hv], ?_⟩
  intro r' c' hr' hc'
  have hm' := WF.cell hM hr' hc'
  have hs := hM.cols
  simp only [General.get, hm', Option.map_some]
  by_cases he : r' = i + r ∧ c' = j + c
  · obtain ⟨rfl, rfl⟩ := he
    simp [hadr]
  · rw [if_neg he, Function.update_of_ne]
    rw [hadr]
    intro hc2
    have := addr_inj (S := M.stride) (by omega) (by omega) (Nat.add_left_cancel hc2)
    exact he this

theorem mul_pred_add (n S : ℕ) (h : 0 < n) : (n - 1) * S + S = n * S := by
  obtain ⟨m, rfl⟩ : ∃ m, n = m + 1 := ⟨n - 1, by omega⟩
  simp; ring

/-- **C03.** No access escapes: reading or writing outside the rows and columns of a view panics, and an access that succeeds touches memory of the view's own slice only. -/
theorem C03_no_escape {α : Type} (M : General) (mem : ℕ → α) (i j : ℕ) (v : α) :
    (M.rows ≤ i ∨ M.cols ≤ j → M.get mem i j = none ∧ M.set mem i j v = none) ∧
    (∀ mem', M.set mem i j v = some mem' → ∀ a, a < M.data.off ∨ M.data.off + M.data.len ≤ a → mem' a = mem a) ∧
    (∀ mem2 : ℕ → α, (∀ a, M.data.off ≤ a → a < M.data.off + M.data.len → mem2 a = mem a) → M.get mem2 i j = M.get mem i j) := by
  unfold General.get General.set General.addr
  refine ⟨?_, ?_, ?_⟩
  · intro h
    rw [if_neg (by omega)]
    exact ⟨rfl, rfl⟩
  · intro mem' h a ha
    split at h
    · rename_i hc
      simp only [Option.map_some, Option.some.injEq] at h
      subst h
      rw [Function.update_of_ne]
      omega
    · simp at h
  · intro mem2 h
    split
    · rename_i hc
      simp only [Option.map_some, Option.some.injEq]
      exact h _ (by omega) (by omega)
    · rfl

/-- **C03.** `MatGeneralSlice` of rows `[i,k)` and columns `[j,l)` inside a matrix always succeeds and is the view it denotes;
the result is again well formed, so slices can be sliced. -/
theorem C03_general_slice (M : General) (hM : M.WF) (i k j l : ℕ) (hik : i < k) (hk : k ≤ M.rows) (hjl : j < l)
    (hl : l ≤ M.cols) : ∃ V, genSlice M i k j l = some V ∧ V.WF ∧ IsView M V i j (k - i) (l - j) := by
  have h1 : i * M.stride ≤ (k - 1) * M.stride := Nat.mul_le_mul_right _ (by omega)
  have h2 : (k - 1) * M.stride ≤ (M.rows - 1) * M.stride := Nat.mul_le_mul_right _ (by omega)
  have hlen := hM.len
  have hcap := hM.cap
  have hV : (⟨k - i, l - j, M.stride, ⟨M.data.off + (i * M.stride + j), (k - 1) * M.stride + l - (i * M.stride + j),
      M.data.cap - (i * M.stride + j)⟩⟩ : General).WF := by
    refine ⟨by simp; omega, by have := hM.cols; simp; omega, by simp; omega, ?_, by simp; omega⟩
    have : (k - 1) * M.stride = (k - i - 1) * M.stride + i * M.stride := by
      rw [← Nat.add_mul]; congr 1; omega
    simp only; omega
  refine ⟨_, ?_, hV, isView_of hM hV rfl rfl rfl rfl (by omega) (by omega)⟩
  unfold genSlice
  rw [if_neg (by omega), if_neg (by omega)]
  unfold Slice.slice
  rw [if_pos (by omega)]
  rfl

/-- **C03.** `MatGeneralColSlice`. -/
theorem C03_col_slice (M : General) (hM : M.WF) (j l : ℕ) (hjl : j < l) (hl : l ≤ M.cols) :
    ∃ V, colSlice M j l = some V ∧ V.WF ∧ IsView M V 0 j M.rows (l - j) := by
  have hlen := hM.len
  have hcap := hM.cap
  have hV : (⟨M.rows, l - j, M.stride, ⟨M.data.off + j, l + (M.rows - 1) * M.stride - j, M.data.cap - j⟩⟩ : General).WF := by
    refine ⟨hM.rows, by have := hM.cols; simp; omega, by simp; omega, ?_, by simp; omega⟩
    simp only; omega
  refine ⟨_, ?_, hV, isView_of hM hV rfl rfl rfl (by simp) (by omega) (by omega)⟩
  unfold colSlice
  rw [if_neg (by omega)]
  unfold Slice.slice
  rw [if_pos (by omega)]
  rfl

/-- **C03.** `MatGeneralRowSlice` is the view it denotes whenever the underlying slice has room for `k` full strides (always the
case for a freshly allocated matrix), and panics otherwise. -/
theorem C03_row_slice (M : General) (hM : M.WF) (i k : ℕ) (hik : i < k) (hk : k ≤ M.rows) :
    (k * M.stride ≤ M.data.cap → ∃ V, rowSlice M i k = some V ∧ V.WF ∧ IsView M V i 0 (k - i) M.cols) ∧
    (M.data.cap < k * M.stride → rowSlice M i k = none) := by
  have hik' : i * M.stride ≤ k * M.stride := Nat.mul_le_mul_right _ (by omega)
  constructor
  · intro hc
    have hV : (⟨k - i, M.cols, M.stride, ⟨M.data.off + i * M.stride, k * M.stride - i * M.stride,
        M.data.cap - i * M.stride⟩⟩ : General).WF := by
      refine ⟨by simp; omega, hM.cols, hM.cpos, ?_, by simp; omega⟩
      have h1 := mul_pred_add (k - i) M.stride (by omega)
      have h2 : (k - i) * M.stride = k * M.stride - i * M.stride := Nat.sub_mul _ _ _
      have := hM.cols
      simp only; omega
    refine ⟨_, ?_, hV, isView_of hM hV rfl rfl rfl (by simp) (by omega) (by omega)⟩
    unfold rowSlice
    rw [if_neg (by omega)]
    unfold Slice.slice
    rw [if_pos ⟨hik', hc⟩]
    rfl
  · intro hc
    unfold rowSlice
    rw [if_neg (by omega)]
    unfold Slice.slice
    rw [if_neg (by omega)]
    rfl

/-- **C03 is violated by the row slice of a column slice**: taking all the rows of a view on columns of a fresh matrix that leaves out the first column panics. -/
theorem C03_row_slice_of_col_slice_violated (r c j l off : ℕ) (hr : 0 < r) (hj : 0 < j) (hl : j < l) (hc : l ≤ c) :
    ∃ V, colSlice ⟨r, c, c, ⟨off, r * c, r * c⟩⟩ j l = some V ∧ V.rows = r ∧ V.cols = l - j ∧ rowSlice V 0 V.rows = none := by
  obtain ⟨m, rfl⟩ : ∃ m, r = m + 1 := ⟨r - 1, by omega⟩
  have hm : (m + 1) * c = m * c + c := Nat.succ_mul m c
  refine ⟨⟨m + 1, l - j, c, ⟨off + j, l + m * c - j, (m + 1) * c - j⟩⟩, ?_, rfl, rfl, ?_⟩
  · unfold colSlice Slice.slice
    simp only [Nat.add_sub_cancel]
    rw [if_neg (by omega), if_pos (by constructor <;> omega)]
    rfl
  · unfold rowSlice Slice.slice
    simp only
    rw [if_neg (by omega), if_neg (by rw [hm]; omega)]
    rfl

/-- The last column of a 2×2 matrix. -/
example : ∃ M V : General, M.WF ∧ M.rows = 2 ∧ M.cols = 2 ∧ colSlice M 1 2 = some V ∧ V.rows = 2 ∧ rowSlice V 0 2 = none :=
  ⟨⟨2, 2, 2, ⟨0, 4, 4⟩⟩, ⟨2, 1, 2, ⟨1, 3, 3⟩⟩, ⟨by decide, by decide, by decide, by decide, by decide⟩, by decide⟩

example : ∃ M : General, M.WF ∧ M.rows = 3 ∧ M.cols = 2 ∧ M.stride = 4 :=   -- a strided matrix
  ⟨⟨3, 2, 4, ⟨5, 10, 12⟩⟩, ⟨by decide, by decide, by decide, by decide, by decide⟩, by decide⟩

/-! ## wrappers -/

/-- **C03.** A transposed matrix reads and writes cell `(j,i)` of its parent; it is its own inverse. -/
theorem C03_transpose (α : Type) (r c : ℕ) (m : ℤ → ℤ → α) (i j : ℤ) (hi : 0 ≤ i ∧ i < c) (hj : 0 ≤ j ∧ j < r) (v : α) :
    ((transpose (dense α r c)).rows = c ∧ (transpose (dense α r c)).cols = r) ∧
    transpose (transpose (dense α r c)) = dense α r c ∧
    (transpose (dense α r c)).at_ m i j = (dense α r c).at_ m j i ∧
    ∃ m', (transpose (dense α r c)).set_ m i j v = some m' ∧ (transpose (dense α r c)).at_ m' i j = some v ∧
      ∀ i' j', m' i' j' = if i' = j ∧ j' = i then v else m i' j' := by
  have hc : 0 ≤ j ∧ j < (r : ℤ) ∧ 0 ≤ i ∧ i < (c : ℤ) := ⟨hj.1, hj.2, hi.1, hi.2⟩
  refine ⟨⟨rfl, rfl⟩, rfl, rfl, _, ?_, ?_, fun i' j' => rfl⟩
  · simp only [transpose, dense]
    rw [if_pos hc]
  · simp only [transpose, dense]
    rw [if_pos hc]
    simp

/-- **C03.** Reading a `MatRowSlice` inside its bounds reads the row `start+i` of the parent. -/
theorem C03_matRowSlice_read (α : Type) (r c : ℕ) (m : ℤ → ℤ → α) (start stop i j : ℤ) (hs : 0 ≤ start)
    (hst : stop ≤ r) (hi : 0 ≤ i ∧ i < stop - start) (hj : 0 ≤ j ∧ j < c) :
    (matRowSlice (dense α r c) start stop).at_ m i j = some (m (start + i) j) := by
  have h : ¬ (i < 0 ∨ i > stop - start) := by omega
  have h2 : 0 ≤ i + start ∧ i + start < (r : ℤ) ∧ 0 ≤ j ∧ j < (c : ℤ) := by omega
  simp only [matRowSlice, dense, h, if_false, h2]
  rw [Int.add_comm]
  simp

/-- **C03 is violated by `MatRowSlice.Set`**: for every slice that does not start at row 0 and every cell of the view, the write
either panics or leaves the cell of the view unchanged (it goes to row `i-start`). -/
theorem C03_matRowSlice_write_violated (α : Type) (r c : ℕ) (m : ℤ → ℤ → α) (start stop i j : ℤ) (hs : 0 < start)
    (hst : stop ≤ r) (hi : 0 ≤ i ∧ i < stop - start) (hj : 0 ≤ j ∧ j < c) (v : α) :
    ∀ m', (matRowSlice (dense α r c) start stop).set_ m i j v = some m' →
      (matRowSlice (dense α r c) start stop).at_ m' i j = (matRowSlice (dense α r c) start stop).at_ m i j := by
  intro m' h
  simp only [matRowSlice, dense] at h
  split at h
  · obtain rfl := Option.some.inj h
    rw [C03_matRowSlice_read α r c _ start stop i j (by omega) hst hi hj,
      C03_matRowSlice_read α r c _ start stop i j (by omega) hst hi hj]
    rw [if_neg (by omega)]
  · cases h

/-- **C03 is violated by the bounds check of `MatRowSlice.At`**: reading one row past the end of the view succeeds whenever the parent
has that row. -/
theorem C03_matRowSlice_bound_violated (α : Type) (r c : ℕ) (m : ℤ → ℤ → α) (start stop j : ℤ) (hs : 0 ≤ start)
    (hss : start ≤ stop) (hst : stop < r) (hj : 0 ≤ j ∧ j < c) :
    (matRowSlice (dense α r c) start stop).rows = stop - start ∧
    (matRowSlice (dense α r c) start stop).at_ m (stop - start) j = some (m stop j) := by
  refine ⟨rfl, ?_⟩
  have h : ¬ (stop - start < 0 ∨ stop - start > stop - start) := by omega
  have h2 : 0 ≤ stop - start + start ∧ stop - start + start < (r : ℤ) ∧ 0 ≤ j ∧ j < (c : ℤ) := by omega
  simp only [matRowSlice, dense, h, if_false, h2]
  simp

example : ∃ m', (matRowSlice (dense ℕ 5 2) 2 5).set_ (fun _ _ => 0) 2 1 7 = some m' ∧ m' 0 1 = 7 ∧ m' 4 1 = 0 := by
  simp [matRowSlice, dense]

end Sk.Matrix
