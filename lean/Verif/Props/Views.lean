import Verif.Model.Views
import Mathlib.Tactic.Ring
import Mathlib.Tactic.Linarith
import Mathlib.Tactic.Push

/-!
# C153, C154: matrix views of `base/matrix.go`
-/
set_option autoImplicit false

namespace Sk.Views

variable {K : Type}

/-! ## Specification -/

/-- A matrix value on a buffer behaves as a matrix: inside of `Dims` it can be read, outside it panics. -/
def Bounded (buf : List K) (m : MatV K) : Prop := ∀ i j, (m.get buf i j).isSome = true ↔ 0 ≤ i ∧ i < m.dims.1 ∧ 0 ≤ j ∧ j < m.dims.2

/-- `Set` succeeds exactly inside, and then changes this cell only. -/
def Settable (m : MatV K) (buf : List K) : Prop :=
  ∀ i j v, ((0 ≤ i ∧ i < m.dims.1 ∧ 0 ≤ j ∧ j < m.dims.2) → ∃ buf', m.set buf i j v = some buf' ∧ buf'.length = buf.length ∧
      ∀ i' j', m.get buf' i' j' = if i' = i ∧ j' = j then some v else m.get buf i' j') ∧
    (¬(0 ≤ i ∧ i < m.dims.1 ∧ 0 ≤ j ∧ j < m.dims.2) → m.set buf i j v = none)

/-- Dense matrices and their transposes of any depth. -/
inductive Plain : MatV K → Prop
  | dense (r c : ℕ) : Plain (.dense r c)
  | transpose (m : MatV K) (h : Plain m) : Plain (.transpose m)

/-- The buffer has all the cells of the dense matrix at the bottom. -/
def Fits (buf : List K) : MatV K → Prop
  | .dense r c => buf.length = r * c
  | .const _ _ _ => True
  | .transpose m => Fits buf m
  | .ones m => Fits buf m
  | .rowSlice m _ _ => Fits buf m

theorem index_lt (r c : ℕ) (i j : ℤ) (h : 0 ≤ i ∧ i < r ∧ 0 ≤ j ∧ j < c) : (i * c + j).toNat < r * c ∧ 0 ≤ i * c + j := by
  obtain ⟨h1, h2, h3, h4⟩ := h
  have h5 : 0 ≤ i * c + j := by positivity
  refine ⟨?_, h5⟩
  zify
  rw [Int.toNat_of_nonneg h5]
  nlinarith

theorem index_inj (c : ℕ) (i j i' j' : ℤ) (hj : 0 ≤ j ∧ j < c) (hj' : 0 ≤ j' ∧ j' < c) (h : i * c + j = i' * c + j') : i = i' ∧ j = j' := by
  have hi : i = i' := by
    rcases lt_trichotomy i i' with h1 | h1 | h1
    · have : (i + 1) * (c : ℤ) ≤ i' * c := mul_le_mul_of_nonneg_right (by omega) (by omega)
      nlinarith
    · exact h1
    · have : (i' + 1) * (c : ℤ) ≤ i * c := mul_le_mul_of_nonneg_right (by omega) (by omega)
      nlinarith
  subst hi
  exact ⟨rfl, by linarith⟩

/-- **C153**: dense matrices and `MatTranspose`s of any depth can be read exactly inside of `Dims`. -/
theorem C153_bounded (buf : List K) (m : MatV K) (hm : Plain m) (hb : Fits buf m) : Bounded buf m := by
  induction hm with
  | dense r c =>
    intro i j
    simp only [MatV.get, MatV.dims]
    by_cases h : 0 ≤ i ∧ i < r ∧ 0 ≤ j ∧ j < c
    · rw [if_pos h, List.getElem?_eq_getElem (by rw [show buf.length = r * c from hb]; exact (index_lt r c i j h).1)]
      simpa using h
    · rw [if_neg h]
      simpa using h
  | transpose m _ ih =>
    intro i j
    have := ih hb j i
    simp only [MatV.get, MatV.dims]
    rw [this]
    tauto

/-- **C153**: `Set` through any number of transposes changes exactly the cell it names, and panics outside of the matrix. -/
theorem C153_set (buf : List K) (m : MatV K) (hm : Plain m) (hb : Fits buf m) : Settable m buf := by
  induction hm with
  | dense r c =>
    have hb : buf.length = r * c := hb
    intro i j v
    simp only [MatV.set, MatV.dims]
    constructor
    · intro h
      have hl := index_lt r c i j h
      refine ⟨buf.set (i * c + j).toNat v, ?_, by simp, ?_⟩
      · rw [if_pos ⟨h.1, h.2.1, h.2.2.1, h.2.2.2, by rw [hb]; exact hl.1⟩]
      · intro i' j'
        simp only [MatV.get]
        by_cases h' : 0 ≤ i' ∧ i' < r ∧ 0 ≤ j' ∧ j' < c
        · rw [if_pos h']
          have hl' := index_lt r c i' j' h'
          by_cases he : i' = i ∧ j' = j
          · rw [if_pos he, he.1, he.2, List.getElem?_set_self (by rw [hb]; exact hl.1)]
          · rw [if_neg he, if_pos h', List.getElem?_set_ne]
            intro e
            apply he
            have e2 : i' * (c : ℤ) + j' = i * c + j := by
              have := congrArg Int.ofNat e
              simp only [Int.ofNat_eq_natCast] at this
              rw [Int.toNat_of_nonneg hl.2, Int.toNat_of_nonneg hl'.2] at this
              exact this.symm
            exact index_inj c _ _ _ _ h'.2.2 h.2.2 e2
        · rw [if_neg h', if_neg h', if_neg]
          rintro ⟨rfl, rfl⟩
          exact h' h
    · intro h
      rw [if_neg]
      rintro ⟨h1, h2, h3, h4, _⟩
      exact h ⟨h1, h2, h3, h4⟩
  | transpose m hp ih =>
    have hmut : m.mutable = true := by cases hp <;> rfl
    intro i j v
    simp only [MatV.set, MatV.dims, hmut, if_true]
    obtain ⟨h1, h2⟩ := ih hb j i v
    constructor
    · rintro ⟨a, b, c, d⟩
      obtain ⟨buf', e1, e2, e3⟩ := h1 ⟨c, d, a, b⟩
      refine ⟨buf', e1, e2, fun i' j' => ?_⟩
      simp only [MatV.get]
      rw [e3 j' i']
      simp only [and_comm]
    · intro h
      exact h2 (fun ⟨a, b, c, d⟩ => h ⟨c, d, a, b⟩)

/-- **C153**: `T` exchanges rows and columns, for constant matrices, transposes, row slices and dense matrices. -/
theorem C153_transpose (buf : List K) (m : MatV K) : m.t.dims = (m.dims.2, m.dims.1) ∧ ∀ i j, m.t.get buf i j = m.get buf j i := by
  induction m with
  | dense r c => exact ⟨rfl, fun _ _ => rfl⟩
  | const r c v => exact ⟨rfl, fun _ _ => rfl⟩
  | transpose m _ => exact ⟨rfl, fun _ _ => rfl⟩
  | ones m ih => exact ih
  | rowSlice m s e _ => exact ⟨rfl, fun _ _ => rfl⟩

example : (MatV.transpose (.dense 2 3)).get [(1 : ℕ), 2, 3, 4, 5, 6] 2 0 = some 3 ∧ (MatV.transpose (.dense 2 3)).set [(1 : ℕ), 2, 3, 4, 5, 6] 2 1 9 = some [1, 2, 3, 4, 5, 9] := by decide

/-- C153, row slices inside of a matrix: reads are those of the rows from `Start`.  Missing: the row after the last (`C153_rowslice_end_violated`), `Set` (`C153_rowslice_set_violated`). -/
theorem C153_rowslice_partial (buf : List K) (m : MatV K) (s e i j : ℤ) (hi : 0 ≤ i) (he : i < e - s) : (MatV.rowSlice m s e).dims = (e - s, m.dims.2) ∧ (MatV.rowSlice m s e).get buf i j = m.get buf (s + i) j := by
  refine ⟨rfl, ?_⟩
  simp only [MatV.get]
  rw [if_neg (by omega), add_comm]

example : (MatV.rowSlice (.dense 3 2) 1 2).get [(1 : ℕ), 2, 3, 4, 5, 6] 0 1 = some 4 := by decide

/-- **C153 is violated**: a row slice that ends before the matrix can be read one row after its end. -/
theorem C153_rowslice_end_violated (buf : List K) (m : MatV K) (hm : Plain m) (hb : Fits buf m) (s e j : ℤ) (h0 : 0 ≤ s) (h1 : s ≤ e) (h2 : e < m.dims.1) (hj : 0 ≤ j ∧ j < m.dims.2) :
    ((MatV.rowSlice m s e).get buf (MatV.rowSlice m s e).dims.1 j).isSome = true ∧ (MatV.rowSlice m s e).get buf (e - s) j = m.get buf e j := by
  have h : (MatV.rowSlice m s e).get buf (e - s) j = m.get buf e j := by
    simp only [MatV.get]
    rw [if_neg (by omega), sub_add_cancel]
  refine ⟨?_, h⟩
  change ((MatV.rowSlice m s e).get buf (e - s) j).isSome = true
  rw [h, C153_bounded buf m hm hb]
  exact ⟨by omega, h2, hj⟩

example : (MatV.rowSlice (.dense 3 2 : MatV ℕ) 1 2).dims.1 = 1 ∧ (MatV.rowSlice (.dense 3 2) 1 2).get [(1 : ℕ), 2, 3, 4, 5, 6] 1 1 = some 6 := by decide

/-- **C153 is violated** by `Set` of a row slice that does not begin with the first row: for the first `Start` rows it panics, for the others it writes another row of the matrix (the cell named keeps its value). -/
theorem C153_rowslice_set_violated (buf : List K) (m : MatV K) (hm : Plain m) (hb : Fits buf m) (s e i j : ℤ) (v : K) (h0 : 0 < s) (h2 : e ≤ m.dims.1) (hi : 0 ≤ i ∧ i < e - s) (hj : 0 ≤ j ∧ j < m.dims.2) :
    (i < s → (MatV.rowSlice m s e).set buf i j v = none) ∧
    (s ≤ i → ∃ buf', (MatV.rowSlice m s e).set buf i j v = some buf' ∧ (MatV.rowSlice m s e).get buf' i j = (MatV.rowSlice m s e).get buf i j ∧ m.get buf' (i - s) j = some v) := by
  have hmut : m.mutable = true := by cases hm <;> rfl
  have hs := C153_set buf m hm hb
  simp only [MatV.set, hmut, if_true]
  constructor
  · intro h
    exact (hs (i - s) j v).2 (by omega)
  · intro h
    obtain ⟨buf', h1, -, h3⟩ := (hs (i - s) j v).1 ⟨by omega, by omega, hj⟩
    refine ⟨buf', h1, ?_, ?_⟩
    · simp only [MatV.get]
      rw [if_neg (by omega), if_neg (by omega), h3, if_neg (by omega)]
    · rw [h3, if_pos ⟨rfl, rfl⟩]

example : (MatV.rowSlice (.dense 3 1) 1 3).set [(1 : ℕ), 2, 3] 0 0 9 = none ∧ (MatV.rowSlice (.dense 3 1) 1 3).set [(1 : ℕ), 2, 3] 1 0 9 = some [9, 2, 3] := by decide

/-- C153: a row slice that begins with the first row can be written.  Missing: other slices, and writes after its end (they are not rejected). -/
theorem C153_rowslice_set_partial (buf : List K) (m : MatV K) (hm : Plain m) (hb : Fits buf m) (e i j : ℤ) (v : K) (h2 : e ≤ m.dims.1) (hi : 0 ≤ i ∧ i < e) (hj : 0 ≤ j ∧ j < m.dims.2) :
    ∃ buf', (MatV.rowSlice m 0 e).set buf i j v = some buf' ∧ ∀ i' j', 0 ≤ i' → i' < e → (MatV.rowSlice m 0 e).get buf' i' j' = if i' = i ∧ j' = j then some v else (MatV.rowSlice m 0 e).get buf i' j' := by
  have hmut : m.mutable = true := by cases hm <;> rfl
  obtain ⟨buf', h1, -, h3⟩ := (C153_set buf m hm hb i j v).1 ⟨hi.1, by omega, hj⟩
  refine ⟨buf', ?_, fun i' j' ha hb => ?_⟩
  · simp only [MatV.set, hmut, if_true, sub_zero]
    exact h1
  · simp only [MatV.get, add_zero]
    rw [if_neg (by omega), h3 i' j', if_neg (c := i' < 0 ∨ i' > e - 0) (by omega)]

example : (MatV.rowSlice (.dense 3 1) 0 2).set [(1 : ℕ), 2, 3] 1 0 9 = some [1, 9, 3] := by decide

/-- **C153 is violated** by `MatOnesPrepended`: there is no column of ones; it is the matrix it was made from. -/
theorem C153_ones_violated (buf : List K) (m : MatV K) : (MatV.ones m).dims.2 ≠ m.dims.2 + 1 ∧ ∀ i j, (MatV.ones m).get buf i j = m.get buf i j := by
  refine ⟨?_, fun _ _ => rfl⟩
  change m.dims.2 ≠ m.dims.2 + 1
  omega

example : (MatV.ones (.dense 2 1 : MatV ℕ)).dims.2 = (1 : ℤ) ∧ (MatV.ones (.dense 2 1)).get [(5 : ℕ), 6] 0 0 = some 5 := by decide

/-- **C153 is violated** by constant matrices: they can be read outside of `Dims`. -/
theorem C153_const_violated (buf : List K) (r c : ℤ) (v : K) : ¬ Bounded buf (.const r c v) := by
  intro h
  have := (h (-1) 0).1 rfl
  omega

example : (MatV.const 2 2 (7 : ℕ)).get [] 5 5 = some 7 := rfl

/-! ## Slices -/

/-- A matrix with its cells in the buffer. -/
structure WF (M : Gen) : Prop where
  rows : 0 < M.rows
  cols : 0 < M.cols
  stride : M.cols ≤ M.stride
  len : (M.rows - 1) * M.stride + M.cols ≤ M.len
  cap : M.len ≤ M.cap

/-- `S` is the part of `M` with rows from `i` up to `k` and columns from `j` up to `l`: its cells are these cells of `M` (the same addresses: what is written to one is read from the other), and outside it panics. -/
def IsPart (M S : Gen) (i k j l : ℤ) : Prop :=
  S.rows = k - i ∧ S.cols = l - j ∧ ∀ r c, addr S r c = if 0 ≤ r ∧ r < k - i ∧ 0 ≤ c ∧ c < l - j then addr M (i + r) (j + c) else none

theorem addr_some (M : Gen) (h : WF M) (r c : ℤ) (hr : 0 ≤ r ∧ r < M.rows) (hc : 0 ≤ c ∧ c < M.cols) : addr M r c = some (M.off + (r * M.stride + c)) := by
  have h1 := h.len
  have h2 := h.cols
  have h3 := h.stride
  have h4 : r * M.stride ≤ (M.rows - 1) * M.stride := mul_le_mul_of_nonneg_right (by omega) (by omega)
  have h5 : 0 ≤ r * M.stride := mul_nonneg hr.1 (by omega)
  unfold addr
  rw [if_pos ⟨hr.1, hr.2, hc.1, hc.2⟩, if_pos ⟨by omega, by omega⟩]

/-- The cells of a well-formed matrix are at different addresses. -/
theorem addr_inj (M : Gen) (h : WF M) (r c r' c' a : ℤ) (h1 : addr M r c = some a) (h2 : addr M r' c' = some a) : r = r' ∧ c = c' := by
  unfold addr at h1 h2
  split at h1
  · rename_i hr
    split at h1
    · split at h2
      · rename_i hr'
        split at h2
        · simp only [Option.some.injEq] at h1 h2
          have h3 := h.stride
          have h4 := h.cols
          have e : r * M.stride + c = r' * M.stride + c' := by omega
          have key : r = r' := by
            rcases lt_trichotomy r r' with g | g | g
            · have : (r + 1) * M.stride ≤ r' * M.stride := mul_le_mul_of_nonneg_right (by omega) (by omega)
              nlinarith
            · exact g
            · have : (r' + 1) * M.stride ≤ r * M.stride := mul_le_mul_of_nonneg_right (by omega) (by omega)
              nlinarith
          subst key
          exact ⟨rfl, by omega⟩
        · cases h2
      · cases h2
    · cases h1
  · cases h1

theorem goSlice_part (M : Gen) (hM : WF M) (i k j l a b : ℤ) (hi : 0 ≤ i) (hik : i < k) (hk : k ≤ M.rows) (hj : 0 ≤ j) (hjl : j < l) (hl : l ≤ M.cols) (ha : a = i * M.stride + j) (hb : (k - 1) * M.stride + l ≤ b) (hbc : b ≤ M.cap) :
    ∃ S, goSlice M (k - i) (l - j) a b = some S ∧ IsPart M S i k j l ∧ WF S := by
  have h1 := hM.len
  have h2 := hM.cols
  have h3 := hM.stride
  have h5 : 0 ≤ i * M.stride := mul_nonneg hi (by omega)
  have h6 : (k - 1) * M.stride = i * M.stride + (k - i - 1) * M.stride := by ring
  have h7 : 0 ≤ (k - i - 1) * M.stride := mul_nonneg (by omega) (by omega)
  have hab : a ≤ b := by omega
  refine ⟨⟨k - i, l - j, M.stride, M.off + a, b - a, M.cap - a⟩, ?_, ⟨rfl, rfl, ?_⟩, ?_⟩
  · unfold goSlice
    rw [if_pos ⟨by omega, hab, hbc⟩]
  · intro r c
    by_cases h : 0 ≤ r ∧ r < k - i ∧ 0 ≤ c ∧ c < l - j
    · rw [if_pos h, addr_some M hM (i + r) (j + c) ⟨by omega, by omega⟩ ⟨by omega, by omega⟩]
      have h8 : r * M.stride ≤ (k - i - 1) * M.stride := mul_le_mul_of_nonneg_right (by omega) (by omega)
      have h9 : 0 ≤ r * M.stride := mul_nonneg h.1 (by omega)
      have h10 : (i + r) * M.stride = i * M.stride + r * M.stride := by ring
      unfold addr
      rw [if_pos h, if_pos ⟨by show 0 ≤ r * M.stride + c; omega, by show r * M.stride + c < b - a; omega⟩]
      simp only [Option.some.injEq]
      omega
    · rw [if_neg h]
      unfold addr
      rw [if_neg h]
  · exact ⟨by show 0 < k - i; omega, by show 0 < l - j; omega, by show l - j ≤ M.stride; omega, by show (k - i - 1) * M.stride + (l - j) ≤ b - a; omega, by show b - a ≤ M.cap - a; omega⟩

/-- **C154**: slicing inside of a matrix, which may be a view itself, gives a view of that part. -/
theorem C154_slice (M : Gen) (hM : WF M) (i k j l : ℤ) (hi : 0 ≤ i) (hik : i < k) (hk : k ≤ M.rows) (hj : 0 ≤ j) (hjl : j < l) (hl : l ≤ M.cols) : ∃ S, slice M i k j l = some S ∧ IsPart M S i k j l ∧ WF S := by
  unfold slice
  rw [if_neg (by omega)]
  refine goSlice_part M hM i k j l _ _ hi hik hk hj hjl hl rfl le_rfl ?_
  have h1 := hM.len
  have h2 := hM.cap
  have h3 : (k - 1) * M.stride ≤ (M.rows - 1) * M.stride := mul_le_mul_of_nonneg_right (by omega) (by have := hM.cols; have := hM.stride; omega)
  omega

/-- **C154**: so does slicing columns. -/
theorem C154_cols (M : Gen) (hM : WF M) (j l : ℤ) (hj : 0 ≤ j) (hjl : j < l) (hl : l ≤ M.cols) : ∃ S, colSlice M j l = some S ∧ IsPart M S 0 M.rows j l ∧ WF S := by
  unfold colSlice
  rw [if_neg (by omega)]
  have := goSlice_part M hM 0 M.rows j l j (l + (M.rows - 1) * M.stride) le_rfl hM.rows le_rfl hj hjl hl (by ring) (by omega) (by have := hM.len; have := hM.cap; omega)
  rwa [sub_zero] at this

/-- C154, rows: slicing rows gives a view of these rows as long as the buffer has room for whole rows.  Missing: the last rows of a view (`C154_rows_violated`). -/
theorem C154_rows_partial (M : Gen) (hM : WF M) (i k : ℤ) (hi : 0 ≤ i) (hik : i < k) (hk : k ≤ M.rows) (hc : k * M.stride ≤ M.cap) : ∃ S, rowSlice M i k = some S ∧ IsPart M S i k 0 M.cols ∧ WF S := by
  unfold rowSlice
  rw [if_neg (by omega)]
  have := goSlice_part M hM i k 0 M.cols (i * M.stride) (k * M.stride) hi hik hk le_rfl hM.cols le_rfl (by ring) (by have := hM.stride; nlinarith) hc
  rwa [sub_zero] at this

/-- All rows but the last can be sliced from any view. -/
theorem C154_rows_but_last (M : Gen) (hM : WF M) (i k : ℤ) (hi : 0 ≤ i) (hik : i < k) (hk : k < M.rows) : ∃ S, rowSlice M i k = some S ∧ IsPart M S i k 0 M.cols ∧ WF S := by
  refine C154_rows_partial M hM i k hi hik hk.le ?_
  have h1 : k * M.stride ≤ (M.rows - 1) * M.stride := mul_le_mul_of_nonneg_right (by omega) (by have := hM.cols; have := hM.stride; omega)
  have := hM.len; have := hM.cap; have := hM.cols
  omega

/-- A freshly allocated matrix, `mat.NewDense(r, c, nil)`. -/
def fresh (r c : ℤ) : Gen := ⟨r, c, c, 0, r * c, r * c⟩

theorem fresh_wf (r c : ℤ) (hr : 0 < r) (hc : 0 < c) : WF (fresh r c) := by
  refine ⟨hr, hc, le_rfl, ?_, le_rfl⟩
  change (r - 1) * c + c ≤ r * c
  nlinarith

example : slice (fresh 3 2) 1 3 1 2 = some ⟨2, 1, 2, 3, 3, 3⟩ ∧ rowSlice (fresh 3 2) 1 3 = some ⟨2, 2, 2, 2, 4, 4⟩ ∧ colSlice (fresh 3 2) 1 2 = some ⟨3, 1, 2, 1, 5, 5⟩ := by decide

/-- **C154 is violated** for rows of a view: of columns from the second on of a new matrix, no rows up to the last can be sliced (while `MatDenseSlice` of the same rows works, `C154_slice`). -/
theorem C154_rows_violated (r c j l i : ℤ) (hr : 0 < r) (hj : 0 < j) (hjl : j < l) (hl : l ≤ c) :
    ∃ V, colSlice (fresh r c) j l = some V ∧ WF V ∧ V.rows = r ∧ rowSlice V i r = none := by
  obtain ⟨V, h1, h2, h3⟩ := C154_cols (fresh r c) (fresh_wf r c hr (by omega)) j l (by omega) hjl hl
  refine ⟨V, h1, h3, by rw [h2.1, sub_zero]; rfl, ?_⟩
  have hV : V.stride = c ∧ V.cap = r * c - j := by
    unfold colSlice goSlice at h1
    rw [if_neg (by omega)] at h1
    split at h1
    · cases h1
      exact ⟨rfl, rfl⟩
    · cases h1
  unfold rowSlice goSlice
  rw [hV.1, hV.2]
  split
  · rfl
  · rw [if_neg (by omega)]

example : (colSlice (fresh 3 2) 1 2).bind (fun V => rowSlice V 0 3) = none := by decide

/-- **C154 is violated** outside of the matrix: a slice of the first row of a view that is one column wider than the view is accepted, and shows a cell that is not in the view. -/
theorem C154_bounds_violated (M : Gen) (hM : WF M) (hs : M.cols < M.stride) (hr : 1 < M.rows) :
    ∃ S, slice M 0 1 0 (M.cols + 1) = some S ∧ ∃ a, addr S 0 M.cols = some a ∧ ∀ r c, addr M r c ≠ some a := by
  have h1 := hM.len; have h2 := hM.cap; have h3 := hM.cols
  have h4 : M.stride ≤ (M.rows - 1) * M.stride := by nlinarith
  refine ⟨⟨1, M.cols + 1, M.stride, M.off, M.cols + 1, M.cap⟩, ?_, M.off + M.cols, ?_, ?_⟩
  · unfold slice goSlice
    rw [if_neg (by omega), if_pos ⟨by simp, by simp; omega, by simp; omega⟩]
    simp
  · unfold addr
    rw [if_pos ⟨le_rfl, by norm_num, by omega, by simp⟩, if_pos ⟨by simp; omega, by simp⟩]
    simp
  · intro r c h
    unfold addr at h
    split at h
    · rename_i hrc
      split at h
      · simp only [Option.some.injEq] at h
        rcases eq_or_lt_of_le hrc.1 with h0 | h0
        · rw [← h0] at h; omega
        · have : 1 * M.stride ≤ r * M.stride := mul_le_mul_of_nonneg_right (by omega) (by omega)
          omega
      · cases h
    · cases h

/-- Hypotheses met: the first column of a matrix with two rows and two columns. -/
example : WF ⟨2, 1, 2, 0, 3, 4⟩ ∧ slice ⟨2, 1, 2, 0, 3, 4⟩ 0 1 0 2 = some ⟨1, 2, 2, 0, 2, 4⟩ := ⟨⟨by decide, by decide, by decide, by decide, by decide⟩, by decide⟩

/-- **C154 is violated** for columns in the wrong order: with two or more rows the slice is made, and has a negative number of columns. -/
theorem C154_order_violated (M : Gen) (hM : WF M) (hr : 1 < M.rows) (j l : ℤ) (hl : 0 ≤ l) (hlj : l < j) (hj : j ≤ M.cols) : ∃ S, slice M 0 M.rows j l = some S ∧ S.cols < 0 := by
  have h1 := hM.len; have h2 := hM.cap; have h3 := hM.cols; have h5 := hM.stride
  have h4 : M.stride ≤ (M.rows - 1) * M.stride := by nlinarith
  refine ⟨⟨M.rows - 0, l - j, M.stride, M.off + (0 * M.stride + j), (M.rows - 1) * M.stride + l - (0 * M.stride + j), M.cap - (0 * M.stride + j)⟩, ?_, by show l - j < 0; omega⟩
  unfold slice goSlice
  rw [if_neg (by omega), if_pos ⟨by omega, by omega, by omega⟩]

example : slice (fresh 2 3) 0 2 2 1 = some ⟨2, -1, 3, 2, 2, 4⟩ ∧ WF (fresh 2 3) := ⟨by decide, fresh_wf 2 3 (by norm_num) (by norm_num)⟩

end Sk.Views
