import Verif.Model.LabelBuf
import Verif.Lemmas.ListX
import Mathlib.Algebra.Order.Ring.Defs
import Mathlib.Data.List.Count
import Mathlib.Data.List.Sort
import Mathlib.Data.Rat.Init
import Mathlib.Algebra.Order.Ring.Rat
import Mathlib.Tactic.Ring
import Mathlib.Tactic.Linarith
import Mathlib.Tactic.IntervalCases

/-!
# C232: classes and encoding of `LabelBinarizer64` on matrix buffers
-/
set_option autoImplicit false

namespace Sk.LabelBuf

variable {K : Type} [LinearOrder K]

/-- A result of `sort.Sort` with `Float64Slice`: a rearrangement in which no later element is less than an earlier one. -/
def Sorts (sort : List (Option K) → List (Option K)) : Prop := ∀ l, (sort l).Perm l ∧ (sort l).Pairwise (fun a b => less b a = false)

/-- The labels `L i j` of the matrix in the buffer; the cells after the columns of a row are arbitrary. -/
def Holds (y : Buf K) (L : ℕ → ℕ → Option K) : Prop := ∀ i < y.rows, ∀ j < y.cols, y.data[i * y.stride + j]? = some (L i j)

/-- Labels of column `j`. -/
def column (y : Buf K) (L : ℕ → ℕ → Option K) (j : ℕ) : List (Option K) := (List.range y.rows).map (fun i => L i j)

private theorem foldlM_register (y : Buf K) (L : ℕ → ℕ → Option K) (h : Holds y L) (j : ℕ) (hj : j < y.cols) (n : ℕ) (hn : n ≤ y.rows) :
    (List.range n).foldlM (fun st i => (y.data[i * y.stride + j]?).map (register st)) [] = some (((List.range n).map (fun i => L i j)).foldl register []) := by
  induction n with
  | zero => rfl
  | succ n ih =>
    rw [List.range_succ, List.foldlM_append, ih (by omega), List.map_append, List.foldl_append]
    simp [h n (by omega) j hj]

private theorem register_count (l : List (Option K)) (st : List (Option K)) (hs : ∀ w, st.count (some w) ≤ 1) :
    (∀ w, (l.foldl register st).count (some w) ≤ 1) ∧ (∀ w, some w ∈ l.foldl register st ↔ some w ∈ st ∨ some w ∈ l) ∧ (l.foldl register st).count none = st.count none + l.count none := by
  induction l generalizing st with
  | nil => simpa using hs
  | cons v l ih =>
    have hs' : ∀ w, (register st v).count (some w) ≤ 1 := by
      intro w
      unfold register
      by_cases hv : v.isSome = true ∧ v ∈ st
      · rw [if_pos hv]; exact hs w
      · rw [if_neg hv, List.count_append]
        by_cases e : v = some w
        · subst e
          have : st.count (some w) = 0 := List.count_eq_zero.2 (fun hm => hv ⟨rfl, hm⟩)
          simp [this]
        · have := hs w
          simp [List.count_singleton, e, this]
    obtain ⟨a, b, c⟩ := ih (register st v) hs'
    refine ⟨a, fun w => ?_, ?_⟩
    · rw [List.foldl_cons, b w]
      unfold register
      by_cases hv : v.isSome = true ∧ v ∈ st
      · rw [if_pos hv]
        constructor
        · rintro (h | h)
          · exact Or.inl h
          · exact Or.inr (List.mem_cons_of_mem _ h)
        · rintro (h | h)
          · exact Or.inl h
          · rcases List.mem_cons.1 h with h | h
            · exact Or.inl (h ▸ hv.2)
            · exact Or.inr h
      · rw [if_neg hv]
        simp only [List.mem_append, List.mem_singleton, List.mem_cons]
        tauto
    · rw [List.foldl_cons, c]
      cases v with
      | none => simp [register]; omega
      | some w =>
        unfold register
        split
        · simp
        · simp

private theorem sorted_shape (l : List (Option K)) (hs : l.Pairwise (fun a b => less b a = false)) (hc : ∀ w, l.count (some w) ≤ 1) :
    ∃ ds : List K, ds.Pairwise (· < ·) ∧ l = List.replicate (l.count none) none ++ ds.map some := by
  induction l with
  | nil => exact ⟨[], List.Pairwise.nil, rfl⟩
  | cons a l ih =>
    rw [List.pairwise_cons] at hs
    obtain ⟨ds, hd, hl⟩ := ih hs.2 (fun w => le_trans (List.count_le_count_cons) (hc w))
    cases a with
    | none =>
      refine ⟨ds, hd, ?_⟩
      rw [List.count_cons_self, List.replicate_succ, List.cons_append, ← hl]
    | some w =>
      have h0 : l.count none = 0 := List.count_eq_zero.2 (fun hm => by simpa [less] using hs.1 none hm)
      rw [h0] at hl
      refine ⟨w :: ds, List.pairwise_cons.2 ⟨fun d hdm => ?_, hd⟩, ?_⟩
      · have hm : some d ∈ l := by rw [hl]; simpa using hdm
        have hle := hs.1 _ hm
        simp only [less, Option.isNone_some, Bool.false_and, Bool.or_false, decide_eq_false_iff_not, not_lt] at hle
        refine lt_of_le_of_ne hle ?_
        rintro rfl
        have h1 := hc w
        rw [List.count_cons_self] at h1
        have h2 := List.count_pos_iff.2 hm
        omega
      · simp [h0]
        simpa using hl

private theorem fitCol_spec (sort : List (Option K) → List (Option K)) (hsort : Sorts sort) (y : Buf K) (L : ℕ → ℕ → Option K) (h : Holds y L) (j : ℕ) (hj : j < y.cols) :
    ∃ ds : List K, ds.Pairwise (· < ·) ∧ (∀ w, w ∈ ds ↔ ∃ i < y.rows, L i j = some w) ∧ fitCol sort y j = some (List.replicate ((column y L j).count none) none ++ ds.map some) := by
  obtain ⟨a, b, c⟩ := register_count (column y L j) [] (by simp)
  obtain ⟨p, q⟩ := hsort ((column y L j).foldl register [])
  obtain ⟨ds, h1, h2⟩ := sorted_shape _ q (fun w => by rw [p.count_eq]; exact a w)
  rw [p.count_eq, c, List.count_nil, Nat.zero_add] at h2
  refine ⟨ds, h1, fun w => ?_, ?_⟩
  · have e : w ∈ ds ↔ some w ∈ sort ((column y L j).foldl register []) := by rw [h2]; simp [List.mem_replicate]
    rw [e, p.mem_iff, b w]
    simp [column]
  · unfold fitCol
    rw [foldlM_register y L h j hj y.rows le_rfl]
    exact congrArg some h2

private theorem mapM_range {β : Type} (f : ℕ → Option β) (n : ℕ) (g : ℕ → β) (h : ∀ j < n, f j = some (g j)) : (List.range n).mapM f = some ((List.range n).map g) := by
  rw [Sk.ListX.mapM_forall2, List.forall₂_map_right_iff, List.forall₂_same]
  exact fun j hj => h j (List.mem_range.1 hj)

/-- **C232** (partial: a NaN label is a class as often as it occurs, `C232_nan_violated`).  Whatever the sort does with ties and whatever the buffer holds beside the matrix, `Fit` finds for each column the
labels that occur in it, each once and in increasing order, after one class for each NaN. -/
theorem C232_classes_partial (sort : List (Option K) → List (Option K)) (hsort : Sorts sort) (y : Buf K) (L : ℕ → ℕ → Option K) (h : Holds y L) :
    ∃ classes, fit sort y = some classes ∧ classes.length = y.cols ∧ ∀ j < y.cols, ∃ ds : List K, ds.Pairwise (· < ·) ∧ (∀ w, w ∈ ds ↔ ∃ i < y.rows, L i j = some w) ∧
      classes[j]? = some (List.replicate ((column y L j).count none) none ++ ds.map some) := by
  classical
  have H := fun j (hj : j < y.cols) => fitCol_spec sort hsort y L h j hj
  let g : ℕ → List (Option K) := fun j => if hj : j < y.cols then List.replicate ((column y L j).count none) none ++ (H j hj).choose.map some else []
  refine ⟨(List.range y.cols).map g, ?_, by simp, fun j hj => ?_⟩
  · refine mapM_range _ _ g (fun j hj => ?_)
    have := (H j hj).choose_spec.2.2
    simp only [g, dif_pos hj]
    exact this
  · obtain ⟨a, b, _⟩ := (H j hj).choose_spec
    refine ⟨(H j hj).choose, a, b, ?_⟩
    simp [hj, g]

/-- An order of the labels with NaN first; used in the concrete cases. -/
def insSort (l : List (Option ℚ)) : List (Option ℚ) := l.insertionSort (fun a b => less b a = false)

private theorem insSort_sorts : Sorts insSort := by
  intro l
  have ht : Std.Total (fun a b : Option ℚ => less b a = false) := ⟨fun a b => by
    cases a <;> cases b <;> simp [less]
    exact le_total _ _⟩
  have htr : IsTrans (Option ℚ) (fun a b : Option ℚ => less b a = false) := ⟨fun a b c => by
    cases a <;> cases b <;> cases c <;> simp [less]
    exact le_trans⟩
  exact ⟨List.perm_insertionSort _ _, List.pairwise_insertionSort _ _⟩

/-- A 3×2 matrix in a buffer with stride 3. -/
def exBuf : Buf ℚ := ⟨3, 2, 3, [some 5, some 1, some 99, none, some 1, some 98, some 2, some 0]⟩

/-- Labels of `exBuf`. -/
def exL : ℕ → ℕ → Option ℚ := fun i j => ((([[some 5, some 1], [none, some 1], [some 2, some 0]] : List (List (Option ℚ))).getD i []).getD j none)

private theorem exHolds : Holds exBuf exL := by
  intro i hi j hj
  have hi' : i < 3 := hi
  have hj' : j < 2 := hj
  interval_cases i <;> interval_cases j <;> rfl

example : fit insSort exBuf = some [[none, some 2, some 5], [some 0, some 1]] := by decide +kernel

/-- **C232**: the classes depend neither on the order of the rows, nor on the sort, nor on the stride and the cells beside the matrix. -/
theorem C232_rows (sort sort' : List (Option K) → List (Option K)) (hsort : Sorts sort) (hsort' : Sorts sort') (y y' : Buf K) (L L' : ℕ → ℕ → Option K) (h : Holds y L) (h' : Holds y' L')
    (hc : y'.cols = y.cols) (hp : ∀ j < y.cols, (column y' L' j).Perm (column y L j)) : fit sort' y' = fit sort y ∧ fit sort y ≠ none := by
  obtain ⟨cs, e, hl, H⟩ := C232_classes_partial sort hsort y L h
  obtain ⟨cs', e', hl', H'⟩ := C232_classes_partial sort' hsort' y' L' h'
  have : cs' = cs := by
    refine List.ext_getElem? (fun j => ?_)
    by_cases hj : j < y.cols
    · obtain ⟨ds, a, b, c⟩ := H j hj
      obtain ⟨ds', a', b', c'⟩ := H' j (hc ▸ hj)
      have hm : ∀ w, w ∈ ds' ↔ w ∈ ds := by
        intro w
        rw [b, b']
        have := (hp j hj).mem_iff (a := some w)
        simpa [column] using this
      have : ds' = ds := List.Perm.eq_of_pairwise (fun _ _ _ _ h1 h2 => absurd h1 (lt_asymm h2)) a' a
        ((List.perm_ext_iff_of_nodup (a'.imp (fun h => ne_of_lt h)) (a.imp (fun h => ne_of_lt h))).2 hm)
      rw [c, c', this, (hp j hj).count_eq]
    · rw [List.getElem?_eq_none (by omega), List.getElem?_eq_none (by omega)]
  rw [e, e', this]
  exact ⟨rfl, by simp⟩

example : fit insSort ⟨3, 2, 2, [some 2, some 0, some 5, some 1, none, some 1]⟩ = fit insSort exBuf := by decide +kernel

/-- **C232** violated: a NaN label that occurs twice or more in a column is listed as that many equal classes. -/
theorem C232_nan_violated (sort : List (Option K) → List (Option K)) (hsort : Sorts sort) (y : Buf K) (L : ℕ → ℕ → Option K) (h : Holds y L) (j : ℕ) (hj : j < y.cols)
    (i i' : ℕ) (hi : i < i') (hi' : i' < y.rows) (hn : L i j = none) (hn' : L i' j = none) : ∃ classes cs, fit sort y = some classes ∧ classes[j]? = some cs ∧ ¬ cs.Nodup := by
  obtain ⟨classes, e, _, H⟩ := C232_classes_partial sort hsort y L h
  obtain ⟨ds, _, _, c⟩ := H j hj
  refine ⟨classes, _, e, c, fun hnd => ?_⟩
  have hcount : 2 ≤ (column y L j).count none := by
    have hs : [none, none].Sublist (column y L j) := by
      have h2 : [i, i'].Sublist (List.range y.rows) := by
        refine List.sublist_of_subperm_of_pairwise (r := (· < ·)) ?_ (by simpa using hi) List.pairwise_lt_range
        exact List.subperm_of_subset (by simp; omega) (by intro x hx; simp at hx; rcases hx with rfl | rfl <;> simp <;> omega)
      have := h2.map (fun i => L i j)
      simpa [hn, hn', column] using this
    simpa using hs.count_le none
  have h1 := List.nodup_iff_count_le_one.1 hnd none
  rw [List.count_append, List.count_replicate_self] at h1
  omega

example : fit insSort ⟨3, 1, 1, [none, some 4, none]⟩ = some [[none, none, some 4]] := by decide +kernel

/-! ## Transform -/

private theorem cmap_aux (cs : List (Option K)) (n : ℕ) (m : K → Option ℕ) (w : K) :
    ((cs.zipIdx n).foldl cmapStep m) w =
      m w ∧ some w ∉ cs ∨ ∃ k, cs[k]? = some (some w) ∧
        ((cs.zipIdx n).foldl cmapStep m) w = some (n + k) := by
  induction cs generalizing n m with
  | nil => left; simp
  | cons c cs ih =>
    rw [List.zipIdx_cons, List.foldl_cons]
    rcases ih (n + 1) (cmapStep m (c, n)) with ⟨h1, h2⟩ | ⟨k, h1, h2⟩
    · cases c with
      | none => left; exact ⟨h1, by simpa using h2⟩
      | some v =>
        by_cases e : w = v
        · right
          refine ⟨0, by simp [e], ?_⟩
          refine h1.trans ?_
          simp [e, cmapStep]
        · left
          refine ⟨h1.trans ?_, ?_⟩
          · simp [e, cmapStep]
          · simp [e, h2]
    · right
      refine ⟨k + 1, by simpa using h1, ?_⟩
      refine h2.trans ?_
      congr 1; omega

private theorem cmap_spec (cs : List (Option K)) (w : K) : cmap cs w = none ∧ some w ∉ cs ∨ ∃ k, cs[k]? = some (some w) ∧ cmap cs w = some k := by
  have := cmap_aux cs 0 (fun _ => none) w
  simpa [cmap] using this

private theorem off_succ (classes : List (List (Option K))) (j : ℕ) (cs : List (Option K)) (h : classes[j]? = some cs) :
    ((classes.take (j + 1)).map List.length).sum = ((classes.take j).map List.length).sum + cs.length := by
  rw [List.take_add_one, h]
  simp

private theorem off_mono (classes : List (List (Option K))) (j j' : ℕ) (h : j ≤ j') : ((classes.take j).map List.length).sum ≤ ((classes.take j').map List.length).sum := by
  have : (classes.take j).Sublist (classes.take j') := by
    rw [show classes.take j = (classes.take j').take j by rw [List.take_take, Nat.min_eq_left h]]
    exact List.take_sublist _ _
  exact (this.map _).sum_le_sum (fun _ _ => Nat.zero_le _)

private theorem off_le (classes : List (List (Option K))) (j : ℕ) : ((classes.take j).map List.length).sum ≤ (classes.map List.length).sum :=
  ((List.take_sublist j classes).map _).sum_le_sum (fun _ _ => Nat.zero_le _)

private theorem off_inj (classes : List (List (Option K))) (j j' k k' : ℕ) (cs cs' : List (Option K)) (h : classes[j]? = some cs) (h' : classes[j']? = some cs') (hk : k < cs.length) (hk' : k' < cs'.length)
    (e : ((classes.take j).map List.length).sum + k = ((classes.take j').map List.length).sum + k') : j = j' ∧ k = k' := by
  have a := off_succ classes j cs h
  have a' := off_succ classes j' cs' h'
  rcases lt_trichotomy j j' with hl | hl | hl
  · have := off_mono classes (j + 1) j' hl; omega
  · subst hl; exact ⟨rfl, by omega⟩
  · have := off_mono classes (j' + 1) j hl; omega

private theorem pos_inj (N i i' c c' : ℕ) (hc : c < N) (hc' : c' < N) (e : i * N + c = i' * N + c') : i = i' ∧ c = c' := by
  have h1 : (i * N + c) / N = i := by rw [Nat.mul_comm, Nat.mul_add_div (by omega), Nat.div_eq_of_lt hc, Nat.add_zero]
  have h2 : (i' * N + c') / N = i' := by rw [Nat.mul_comm, Nat.mul_add_div (by omega), Nat.div_eq_of_lt hc', Nat.add_zero]
  have : i = i' := by rw [← h1, ← h2, e]
  subst this
  exact ⟨rfl, by omega⟩

section
variable {R : Type} [Zero R]

/-- Cells after `J` columns and `I` rows of the next column. -/
private def Inv (neg pos : R) (classes : List (List (Option K))) (y : Buf K) (L : ℕ → ℕ → Option K) (J I : ℕ) (mem : ℕ → R) : Prop :=
  ∀ i < y.rows, ∀ (j : ℕ) (cs : List (Option K)), classes[j]? = some cs → ∀ k < cs.length,
    mem (i * (classes.map List.length).sum + ((classes.take j).map List.length).sum + k) =
      if (j < J ∨ j = J ∧ i < I) ∧ k = (mark neg pos cs (L i j)).1 then (mark neg pos cs (L i j)).2 else 0

private theorem mark_lt (neg pos : R) (cs : List (Option K)) (v : Option K) (h : cs ≠ []) : (mark neg pos cs v).1 < cs.length := by
  unfold mark
  cases v with
  | none => simpa using List.length_pos_of_ne_nil h
  | some w =>
    rcases cmap_spec cs w with ⟨e, _⟩ | ⟨k, hk, e⟩
    · simp [e]; exact List.length_pos_of_ne_nil h
    · simp [e]; exact (List.getElem?_eq_some_iff.1 hk).1

private theorem transCol_inv (neg pos : R) (classes : List (List (Option K))) (y : Buf K) (L : ℕ → ℕ → Option K) (h : Holds y L) (J : ℕ) (hJ : J < y.cols) (cs : List (Option K))
    (hcs : classes[J]? = some cs) (hne : y.rows ≠ 0 → cs ≠ []) (mem : ℕ → R) (hm : Inv neg pos classes y L J 0 mem) (I : ℕ) (hI : I ≤ y.rows) :
    ∃ mem', (List.range I).foldlM (fun mem i => (y.data[i * y.stride + J]?).bind (fun v =>
      write (y.rows * (classes.map List.length).sum) mem (i * (classes.map List.length).sum + ((classes.take J).map List.length).sum + (mark neg pos cs v).1) (mark neg pos cs v).2)) mem = some mem' ∧
      Inv neg pos classes y L J I mem' := by
  induction I with
  | zero => exact ⟨mem, rfl, hm⟩
  | succ I ih =>
    obtain ⟨m', e, inv⟩ := ih (by omega)
    have hlt := mark_lt neg pos cs (L I J) (hne (by omega))
    have hoff := off_succ classes J cs hcs
    have hle := off_le classes (J + 1)
    have hin : I * (classes.map List.length).sum + ((classes.take J).map List.length).sum + (mark neg pos cs (L I J)).1 < y.rows * (classes.map List.length).sum := by
      have : (I + 1) * (classes.map List.length).sum ≤ y.rows * (classes.map List.length).sum := Nat.mul_le_mul_right _ hI
      rw [Nat.add_mul, Nat.one_mul] at this
      omega
    refine ⟨fun q => if q = I * (classes.map List.length).sum + ((classes.take J).map List.length).sum + (mark neg pos cs (L I J)).1 then (mark neg pos cs (L I J)).2 else m' q, ?_, ?_⟩
    · rw [List.range_succ, List.foldlM_append, e]
      simp only [Option.bind_eq_bind, Option.bind_some, List.foldlM_cons, List.foldlM_nil, h I (by omega) J hJ, write]
      rw [if_pos hin]
      rfl
    · intro i hi j ds hj k hk
      have hoff' := off_succ classes j ds hj
      have hle' := off_le classes (j + 1)
      show (if _ then _ else _) = _
      by_cases ep : i * (classes.map List.length).sum + ((classes.take j).map List.length).sum + k = I * (classes.map List.length).sum + ((classes.take J).map List.length).sum + (mark neg pos cs (L I J)).1
      · rw [if_pos ep]
        obtain ⟨e1, e2⟩ := pos_inj (classes.map List.length).sum i I (((classes.take j).map List.length).sum + k) (((classes.take J).map List.length).sum + (mark neg pos cs (L I J)).1) (by omega) (by omega) (by rw [← Nat.add_assoc, ← Nat.add_assoc]; exact ep)
        obtain ⟨e3, e4⟩ := off_inj classes j J _ _ ds cs hj hcs hk hlt e2
        subst e1; subst e3
        rw [hcs] at hj
        cases hj
        rw [if_pos ⟨Or.inr ⟨rfl, by omega⟩, e4⟩]
      · rw [if_neg ep, inv i hi j ds hj k hk]
        by_cases hij : j = J ∧ i = I
        · obtain ⟨rfl, rfl⟩ := hij
          rw [hcs] at hj
          cases hj
          rw [if_neg (by rintro ⟨a | a, _⟩ <;> omega), if_neg]
          rintro ⟨_, rfl⟩
          exact ep rfl
        · refine if_congr ?_ rfl rfl
          constructor
          · rintro ⟨a | a, b⟩
            · exact ⟨Or.inl a, b⟩
            · exact ⟨Or.inr ⟨a.1, by omega⟩, b⟩
          · rintro ⟨a | a, b⟩
            · exact ⟨Or.inl a, b⟩
            · exact ⟨Or.inr ⟨a.1, by omega⟩, b⟩

private theorem transform_inv (neg pos : R) (classes : List (List (Option K))) (y : Buf K) (L : ℕ → ℕ → Option K) (h : Holds y L)
    (hcl : ∀ j < y.cols, ∃ cs, classes[j]? = some cs ∧ (y.rows ≠ 0 → cs ≠ [])) : ∃ mem, transform neg pos classes y = some mem ∧ Inv neg pos classes y L y.cols 0 mem := by
  have H : ∀ J ≤ y.cols, ∃ mem, (List.range J).foldlM (fun mem j => (classes[j]?).bind (fun cs =>
      transCol neg pos y (classes.map List.length).sum ((classes.take j).map List.length).sum j cs mem)) (fun _ => (0 : R)) = some mem ∧ Inv neg pos classes y L J 0 mem := by
    intro J hJ
    induction J with
    | zero =>
      refine ⟨fun _ => 0, rfl, ?_⟩
      intro i _ j cs _ k _
      rw [if_neg]
      rintro ⟨a | a, _⟩ <;> omega
    | succ J ih =>
      obtain ⟨m, e, inv⟩ := ih (by omega)
      obtain ⟨cs, hcs, hne⟩ := hcl J (by omega)
      obtain ⟨m', e', inv'⟩ := transCol_inv neg pos classes y L h J (by omega) cs hcs hne m inv y.rows le_rfl
      refine ⟨m', ?_, ?_⟩
      · rw [List.range_succ, List.foldlM_append, e]
        simp only [Option.bind_eq_bind, Option.bind_some, List.foldlM_cons, List.foldlM_nil, hcs, transCol, e']
        rfl
      · intro i hi j ds hj k hk
        rw [inv' i hi j ds hj k hk]
        refine if_congr ?_ rfl rfl
        constructor
        · rintro ⟨a | a, b⟩ <;> exact ⟨Or.inl (by omega), b⟩
        · rintro ⟨a | a, b⟩
          · by_cases hjj : j = J
            · exact ⟨Or.inr ⟨hjj, hi⟩, b⟩
            · exact ⟨Or.inl (by omega), b⟩
          · omega
  exact H y.cols le_rfl
end

private theorem mark_known {R : Type} (neg pos : R) (n : ℕ) (ds : List K) (hd : ds.Pairwise (· < ·)) (w : K) (k : ℕ) (hk : (List.replicate n none ++ ds.map some)[k]? = some (some w)) :
    mark neg pos (List.replicate n none ++ ds.map some) (some w) = (k, pos) := by
  have huniq : ∀ k' : ℕ, (List.replicate n none ++ ds.map some)[k']? = some (some w) → n ≤ k' ∧ ds[k' - n]? = some w := by
    intro k' h
    by_cases hl : k' < n
    · rw [List.getElem?_append_left (by simpa using hl), List.getElem?_replicate, if_pos hl] at h
      cases h
    · rw [List.getElem?_append_right (by simpa using hl)] at h
      exact ⟨by omega, by simpa using h⟩
  rcases cmap_spec (List.replicate n none ++ ds.map some) w with ⟨_, hn⟩ | ⟨k', h', e⟩
  · exact absurd (List.mem_of_getElem? hk) hn
  · obtain ⟨a, b⟩ := huniq k hk
    obtain ⟨a', b'⟩ := huniq k' h'
    have hnd : ds.Nodup := hd.imp (fun h => ne_of_lt h)
    have hlt := (List.getElem?_eq_some_iff.1 b).1
    have := (List.getElem?_inj hlt hnd).1 (b.trans b'.symm)
    have : k' = k := by omega
    simp [mark, e, this]

/-- **C232**: `FitTransform` gives for each row and output the column of the class of the label `PosLabel` and the others 0 (even with another `NegLabel`); for a NaN label the first column of the output
holds `NegLabel` and none holds `PosLabel`.  The cells are at their places of the row-major result. -/
theorem C232_encode {R : Type} [Zero R] [DecidableEq R] [Add R] [One R] (sort : List (Option K) → List (Option K)) (hsort : Sorts sort) (neg pos : R) (y : Buf K) (L : ℕ → ℕ → Option K) (h : Holds y L) :
    ∃ classes mem, fitTransform sort neg pos y = some (classes, mem) ∧ fit sort y = some classes ∧ ∀ i < y.rows, ∀ (j : ℕ) (cs : List (Option K)), classes[j]? = some cs → ∀ k < cs.length,
      mem (i * (classes.map List.length).sum + ((classes.take j).map List.length).sum + k) =
        if L i j = none then (if k = 0 then neg else 0) else if cs[k]? = some (L i j) then (if pos = neg then pos + 1 else pos) else 0 := by
  obtain ⟨classes, e, hl, H⟩ := C232_classes_partial sort hsort y L h
  have hmem : ∀ i < y.rows, ∀ j < y.cols, ∀ cs, classes[j]? = some cs → L i j ∈ cs := by
    intro i hi j hj cs hcs
    obtain ⟨ds, _, b, c⟩ := H j hj
    rw [hcs] at c
    cases c
    cases e : L i j with
    | none =>
      refine List.mem_append_left _ (List.mem_replicate.2 ⟨?_, rfl⟩)
      have : none ∈ column y L j := List.mem_map.2 ⟨i, List.mem_range.2 hi, e⟩
      have := List.count_pos_iff.2 this
      omega
    | some w => exact List.mem_append_right _ (List.mem_map.2 ⟨w, (b w).2 ⟨i, hi, e⟩, rfl⟩)
  obtain ⟨mem, e', inv⟩ := transform_inv neg (fitPos neg pos) classes y L h (fun j hj => by
    obtain ⟨ds, _, _, c⟩ := H j hj
    refine ⟨_, c, fun hr hnil => ?_⟩
    have := hmem 0 (by omega) j hj _ c
    rw [hnil] at this
    cases this)
  refine ⟨classes, mem, by rw [fitTransform, e, Option.bind_some, e']; rfl, e, fun i hi j cs hcs k hk => ?_⟩
  have hj : j < y.cols := by rw [← hl]; exact (List.getElem?_eq_some_iff.1 hcs).1
  rw [inv i hi j cs hcs k hk]
  have hm := hmem i hi j hj cs hcs
  obtain ⟨ds, a, b, c⟩ := H j hj
  rw [hcs] at c
  cases c
  cases ev : L i j with
  | none => simp [mark, hj]
  | some w =>
    rw [ev] at hm
    obtain ⟨k0, hk0, hk1⟩ := List.getElem_of_mem hm
    have hk2 : (List.replicate ((column y L j).count none) none ++ ds.map some)[k0]? = some (some w) := by rw [List.getElem?_eq_getElem hk0, hk1]
    rw [mark_known neg (fitPos neg pos) _ ds a w k0 hk2, if_neg (show ¬ (some w = none) by simp)]
    refine if_congr ⟨?_, fun hh => ⟨Or.inl hj, ?_⟩⟩ rfl rfl
    · rintro ⟨_, rfl⟩; exact hk2
    · have := (mark_known neg (fitPos neg pos) _ ds a w k hh).symm.trans (mark_known neg (fitPos neg pos) _ ds a w k0 hk2)
      exact congrArg Prod.fst this

example : ((fitTransform insSort (-1 : ℚ) 1 exBuf).map (fun r => (r.1, (List.range 15).map r.2))) =
    some ([[none, some 2, some 5], [some 0, some 1]], [0, 0, 1, 0, 1, -1, 0, 0, 0, 1, 0, 1, 0, 1, 0]) := by decide +kernel

/-- **C232**: `Fit` changes `PosLabel` only when it equals `NegLabel`; then the two differ. -/
theorem C232_labels {R : Type} [Ring R] [LinearOrder R] [IsStrictOrderedRing R] (neg pos : R) : fitPos neg pos ≠ neg ∧ (pos ≠ neg → fitPos neg pos = pos) ∧ fitPos neg (fitPos neg pos) = fitPos neg pos := by
  have h1 : fitPos neg pos ≠ neg := by
    unfold fitPos
    split
    · next e => rw [e]; intro hh; have := lt_add_one neg; rw [hh] at this; exact lt_irrefl _ this
    · next e => exact e
  refine ⟨h1, fun h => if_neg h, if_neg h1⟩

example : fitPos (3 : ℚ) 3 = 4 ∧ fitPos (0 : ℚ) 5 = 5 := by decide +kernel

/-- **C232** violated: with a `NegLabel` other than 0 the cells of the other classes of a known label do not hold it. -/
theorem C232_neg_violated {R : Type} [Zero R] [DecidableEq R] [Add R] [One R] (sort : List (Option K) → List (Option K)) (hsort : Sorts sort) (neg pos : R) (hneg : neg ≠ 0) (y : Buf K) (L : ℕ → ℕ → Option K)
    (h : Holds y L) (hc : 0 < y.cols) (i i' : ℕ) (hi : i < y.rows) (hi' : i' < y.rows) (v w : K) (hv : L i 0 = some v) (hw : L i' 0 = some w) (hne : v ≠ w) :
    ∃ classes mem k cs, fitTransform sort neg pos y = some (classes, mem) ∧ classes[0]? = some cs ∧ cs[k]? = some (some w) ∧ mem (i * (classes.map List.length).sum + k) ≠ neg := by
  obtain ⟨classes, mem, e, ef, H⟩ := C232_encode sort hsort neg pos y L h
  obtain ⟨cl', e2, _, G⟩ := C232_classes_partial sort hsort y L h
  rw [ef] at e2
  cases e2
  obtain ⟨ds, _, b, c⟩ := G 0 hc
  have hm : some w ∈ (List.replicate ((column y L 0).count none) none ++ ds.map some) := List.mem_append_right _ (List.mem_map.2 ⟨w, (b w).2 ⟨i', hi', hw⟩, rfl⟩)
  obtain ⟨k, hk, hk1⟩ := List.getElem_of_mem hm
  refine ⟨classes, mem, k, _, e, c, by rw [List.getElem?_eq_getElem hk, hk1], ?_⟩
  have := H i hi 0 _ c k hk
  rw [List.getElem?_eq_getElem hk, hk1, hv, if_neg (by simp), if_neg (by simpa using hne.symm)] at this
  simp only [List.take_zero, List.map_nil, List.sum_nil, Nat.add_zero] at this
  rw [this]
  exact hneg.symm

example : exL 0 0 = some 5 ∧ exL 2 0 = some 2 := by decide +kernel
example : Holds exBuf exL ∧ Sorts insSort := ⟨exHolds, insSort_sorts⟩

end Sk.LabelBuf
