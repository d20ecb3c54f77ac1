import Verif.Model.Scores
import Verif.Props.MlpFit
import Verif.Props.Mlp
import Verif.Lemmas.ListX

/-!
# C152: the `Score` methods of the perceptrons and of the Gaussian process
-/
set_option autoImplicit false

namespace Sk.Scores
open Sk.MlpFit

variable {K : Type} [Field K] [LinearOrder K] [IsStrictOrderedRing K]

/-! ## Specification -/

/-- The cell in row `i` and column `c`. -/
def Buf.cell (B : Buf K) (i c : ℕ) : K := B.data.getD (i * B.stride + c) 0

/-- The buffer has `r` rows of `q` cells. -/
def Buf.Has (B : Buf K) (r q : ℕ) : Prop := ∀ i < r, ∀ c < q, i * B.stride + c < B.data.length

/-- The fraction of the `n` rows in which the first `q` cells are equal. -/
def fraction (n q : ℕ) (y h : ℕ → ℕ → K) : K := (((List.range n).filter (fun i => decide (∀ c < q, y i c = h i c))).length : K) / (n : K)

/-- The coefficient of determination of a column, 1 − Σ(h−y)²/Σ(y−ȳ)², where the targets are not constant. -/
def IsR2 (n : ℕ) (y h : ℕ → K) (v : K) : Prop :=
  let ys := (List.range n).map y
  let avg := ys.sum / (n : K)
  (ys.map (fun a => (a - avg) ^ 2)).sum ≠ 0 ∧ v = 1 - ((List.range n).map (fun i => (h i - y i) ^ 2)).sum / (ys.map (fun a => (a - avg) ^ 2)).sum

/-! ## Accuracy -/

theorem read_cell (B : Buf K) (i c : ℕ) (h : i * B.stride + c < B.data.length) : B.data[i * B.stride + c]? = some (B.cell i c) := by
  unfold Buf.cell
  rw [List.getD_eq_getElem?_getD, List.getElem?_eq_getElem h, Option.getD_some]

theorem rowEq_spec (Y H : Buf K) (i : ℕ) (hY : ∀ c < Y.cols, i * Y.stride + c < Y.data.length) (hH : ∀ c < Y.cols, i * H.stride + c < H.data.length) :
    rowEq Y H i = some (decide (∀ c < Y.cols, Y.cell i c = H.cell i c)) := by
  unfold rowEq
  have key : ∀ (l : List ℕ) (e : Bool), (∀ c ∈ l, c < Y.cols) →
      l.foldlM (fun eq c => if eq then do
        let h ← H.data[i * H.stride + c]?
        let y ← Y.data[i * Y.stride + c]?
        some (decide (h = y)) else some false) e = some (e && decide (∀ c ∈ l, Y.cell i c = H.cell i c)) := by
    intro l
    induction l with
    | nil => intro e _; simp
    | cons c l ih =>
      intro e hl
      rw [List.foldlM_cons]
      have hc := hl c (List.mem_cons_self ..)
      cases e with
      | false =>
        rw [if_neg (by simp)]
        simp only [Option.bind_eq_bind, Option.bind_some]
        have := ih false (fun x hx => hl x (List.mem_cons_of_mem _ hx))
        simpa using this
      | true =>
        rw [if_pos rfl, read_cell H i c (hH c hc), read_cell Y i c (hY c hc)]
        simp only [Option.bind_eq_bind, Option.bind_some]
        have := ih (decide (H.cell i c = Y.cell i c)) (fun x hx => hl x (List.mem_cons_of_mem _ hx))
        simp only [Option.bind_eq_bind] at this
        rw [this]
        simp only [Bool.true_and, List.forall_mem_cons, Option.some.injEq, Bool.decide_and, eq_comm]
  rw [key _ true (fun c hc => List.mem_range.1 hc)]
  simp [List.mem_range]

theorem sum_ind {α : Type} (p : α → Bool) (l : List α) : (l.map (fun i => if p i then (1 : K) else 0)).sum = ((l.filter p).length : K) := by
  induction l with
  | nil => simp
  | cons a l ih =>
    rw [List.map_cons, List.sum_cons, ih, List.filter_cons]
    cases p a <;> simp [add_comm]

/-- **C152**, accuracy: whatever the strides, the result is the fraction of the rows predicted exactly. -/
theorem C152_accuracy (Y H : Buf K) (hY : Y.Has Y.rows Y.cols) (hH : H.Has Y.rows Y.cols) : accuracyScore64 Y H = some (fraction Y.rows Y.cols Y.cell H.cell) := by
  unfold accuracyScore64
  rw [Datasets.mapM_map _ (fun i => decide (∀ c < Y.cols, Y.cell i c = H.cell i c)) _ (fun i hi => rowEq_spec Y H i (hY i (List.mem_range.1 hi)) (hH i (List.mem_range.1 hi)))]
  simp only [Option.bind_eq_bind, Option.bind_some, List.map_map, Option.some.injEq, fraction]
  congr 1
  exact sum_ind (fun i => decide (∀ c < Y.cols, Y.cell i c = H.cell i c)) (List.range Y.rows)

example : accuracyScore64 (⟨2, 1, 3, [1, 9, 9, 0]⟩ : Buf ℚ) ⟨2, 1, 1, [1, 1]⟩ = some (1 / 2) := by decide +kernel

/-! ## Coefficient of determination -/

theorem r2Col_spec (n : ℕ) (y h : ℕ → K) (v : K) : Mlp.r2Col ((List.range n).map y) ((List.range n).map h) = some v ↔ IsR2 n y h v := by
  unfold Mlp.r2Col IsR2
  have e1 : List.zipWith (fun y h => (h - y) * (h - y)) ((List.range n).map y) ((List.range n).map h) = (List.range n).map (fun i => (h i - y i) ^ 2) := by
    rw [List.zipWith_map, List.zipWith_self]
    simp only [sq]
  simp only [e1, List.length_map, List.length_range, sq]
  split
  · rename_i hd
    simp only [reduceCtorEq, hd, ne_eq, not_true_eq_false, false_and]
  · rename_i hd
    simp only [ne_eq, hd, not_false_eq_true, true_and, Option.some.injEq]
    exact eq_comm

theorem r2Column_spec (Y H : Buf K) (hs : H.stride = Y.stride) (c : ℕ) (hY : ∀ i < Y.rows, i * Y.stride + c < Y.data.length) (hH : ∀ i < Y.rows, i * H.stride + c < H.data.length) (v : K) :
    r2Column Y H c = some v ↔ IsR2 Y.rows (fun i => Y.cell i c) (fun i => H.cell i c) v := by
  unfold r2Column
  have e : (fun r => H.data[r * Y.stride + c]?) = fun r => H.data[r * H.stride + c]? := by rw [hs]
  rw [e, Datasets.mapM_map _ (fun i => Y.cell i c) _ (fun i hi => read_cell Y i c (hY i (List.mem_range.1 hi))),
    Datasets.mapM_map _ (fun i => H.cell i c) _ (fun i hi => read_cell H i c (hH i (List.mem_range.1 hi)))]
  simp only [Option.bind_eq_bind, Option.bind_some]
  exact r2Col_spec _ _ _ _

/-- The mean over the `q` columns of the coefficient of determination. -/
def IsMeanR2 (n q : ℕ) (y h : ℕ → ℕ → K) (s : K) : Prop :=
  ∃ vs : List K, vs.length = q ∧ (∀ c < q, IsR2 n (fun i => y i c) (fun i => h i c) (vs.getD c 0)) ∧ s = vs.sum / (q : K)

theorem forall2_range {B : Type} (d : B) (R : ℕ → B → Prop) (q : ℕ) (vs : List B) : List.Forall₂ R (List.range q) vs ↔ vs.length = q ∧ ∀ c < q, R c (vs.getD c d) := by
  rw [List.forall₂_iff_get]
  simp only [List.length_range, List.get_eq_getElem, List.getElem_range]
  constructor
  · rintro ⟨h1, h2⟩
    refine ⟨h1.symm, fun c hc => ?_⟩
    have hc' : c < vs.length := by omega
    have := h2 c hc hc'
    rwa [List.getD_eq_getElem?_getD, List.getElem?_eq_getElem hc', Option.getD_some]
  · rintro ⟨h1, h2⟩
    refine ⟨h1.symm, fun c hc hc' => ?_⟩
    have := h2 c hc
    rwa [List.getD_eq_getElem?_getD, List.getElem?_eq_getElem hc', Option.getD_some] at this

/-- C152, coefficient of determination: for equal strides the result is the mean of the coefficients of the columns (and a panic exactly when one is undefined).  Missing: other strides, `C152_view_violated`. -/
theorem C152_r2_partial (Y H : Buf K) (hs : H.stride = Y.stride) (hY : Y.Has Y.rows Y.cols) (hH : H.Has Y.rows Y.cols) (s : K) : r2Score64 Y H = some s ↔ IsMeanR2 Y.rows Y.cols Y.cell H.cell s := by
  unfold r2Score64 IsMeanR2
  simp only [Option.bind_eq_bind, Option.bind_eq_some_iff, ListX.mapM_forall2, Option.some.injEq]
  refine exists_congr (fun vs => ?_)
  rw [forall2_range 0, and_assoc]
  refine and_congr_right (fun _ => and_congr ?_ eq_comm)
  refine forall_congr' (fun c => forall_congr' (fun hc => ?_))
  exact r2Column_spec Y H hs c (fun i hi => hY i hi c hc) (fun i hi => hH i hi c hc) _

example : r2Score64 (⟨3, 1, 1, [1, 2, 3]⟩ : Buf ℚ) ⟨3, 1, 1, [1, 2, 4]⟩ = some (1 / 2) := by decide +kernel

theorem mapM_none {A B : Type} (f : A → Option B) (l : List A) (a : A) (ha : a ∈ l) (hf : f a = none) : l.mapM f = none := by
  induction l with
  | nil => cases ha
  | cons b l ih =>
    rw [List.mapM_cons]
    rcases List.mem_cons.1 ha with rfl | hm
    · rw [hf]; rfl
    · rw [ih hm]
      cases f b <;> rfl

theorem r2_short (Y H : Buf K) (hr : 2 ≤ Y.rows) (hc : 1 ≤ Y.cols) (hs : Y.cols < Y.stride) (hH : H.data.length = Y.rows * Y.cols) : r2Score64 Y H = none := by
  have hout : H.data[(Y.rows - 1) * Y.stride + (Y.cols - 1)]? = none := by
    rw [List.getElem?_eq_none_iff, hH]
    obtain ⟨r, hr'⟩ : ∃ r, Y.rows = r + 2 := ⟨Y.rows - 2, by omega⟩
    obtain ⟨c, hc'⟩ : ∃ c, Y.cols = c + 1 := ⟨Y.cols - 1, by omega⟩
    obtain ⟨d, hd⟩ : ∃ d, Y.stride = c + 2 + d := ⟨Y.stride - (c + 2), by omega⟩
    rw [hr', hc', hd]
    simp only [Nat.add_sub_cancel, show r + 2 - 1 = r + 1 by omega]
    nlinarith [Nat.zero_le (r * d)]
  have hcol : r2Column Y H (Y.cols - 1) = none := by
    unfold r2Column
    rw [mapM_none (fun r => H.data[r * Y.stride + (Y.cols - 1)]?) _ (Y.rows - 1) (List.mem_range.2 (by omega)) hout]
    cases (List.range Y.rows).mapM (fun r => Y.data[r * Y.stride + (Y.cols - 1)]?) <;> rfl
  unfold r2Score64
  rw [mapM_none (r2Column Y H) _ (Y.cols - 1) (List.mem_range.2 (by omega)) hcol]
  rfl

theorem r2_constant (Y H : Buf K) (hr : 1 ≤ Y.rows) (c : ℕ) (hc : c < Y.cols) (v : K) (hv : ∀ i < Y.rows, Y.cell i c = v) : r2Score64 Y H = none := by
  have hcol : r2Column Y H c = none := by
    unfold r2Column
    rcases h1 : (List.range Y.rows).mapM (fun r => Y.data[r * Y.stride + c]?) with _ | ys
    · rfl
    rcases h2 : (List.range Y.rows).mapM (fun r => H.data[r * Y.stride + c]?) with _ | hs
    · rfl
    simp only [Option.bind_eq_bind, Option.bind_some]
    rw [ListX.mapM_forall2, forall2_range 0] at h1
    have hys : ys = List.replicate Y.rows v := by
      refine List.eq_replicate_iff.2 ⟨h1.1, fun b hb => ?_⟩
      obtain ⟨i, hi, rfl⟩ := List.mem_iff_getElem.1 hb
      have h3 := h1.2 i (by omega)
      have h4 := hv i (by omega)
      unfold Buf.cell at h4
      rw [List.getD_eq_getElem?_getD, h3, Option.getD_some, List.getD_eq_getElem?_getD, List.getElem?_eq_getElem hi] at h4
      exact h4
    have hpos : (Y.rows : K) ≠ 0 := Nat.cast_ne_zero.2 (by omega)
    subst hys
    unfold Mlp.r2Col
    simp [List.sum_replicate, hpos]
  unfold r2Score64
  rw [mapM_none (r2Column Y H) _ c (List.mem_range.2 hc) hcol]
  rfl

/-! ## The estimators -/

theorem lbInverse_length (row : List K) : ∀ (classes : List (List K)) (b : ℕ) (p : List K), Mlp.lbInverse row b classes = some p → p.length = classes.length
  | [], b, p, h => by
    unfold Mlp.lbInverse at h
    split at h
    · cases h
    · cases h; rfl
  | cs :: classes, b, p, h => by
    unfold Mlp.lbInverse at h
    split at h
    · split at h
      · simp only [Option.bind_eq_bind, Option.bind_eq_some_iff, Option.some.injEq] at h
        obtain ⟨c, _, rest, hrest, rfl⟩ := h
        simp [lbInverse_length row classes _ rest hrest]
      · cases h
    · cases h
      simp

theorem toLogits_length (row : List K) : (Mlp.toLogits row).length = row.length := by
  match row with
  | [] => rfl
  | [v] => rfl
  | a :: b :: l => simp [Mlp.toLogits]

/-- The label columns of a network, if it has some, are `q`. -/
def Labels (m : MLP K) (q : ℕ) : Prop := ∀ classes, m.lb = some classes → classes.length = q

theorem predict_length (A : Acts K) (hA : A.Keeps) (m : MLP K) (q : ℕ) (hq : Labels m q) (x p : List K) (h : predict A m q x = some p) : p.length = q := by
  have hout : ∀ l, (outAct A m l).length = l.length := by
    intro l
    rw [outAct]
    split
    · rfl
    · split
      · exact hA.2.2 l
      · exact hA.2.1 l
  unfold predict at h
  rcases hl : m.lb with _ | classes
  · rw [hl] at h
    simp only [Option.map_eq_some_iff] at h
    obtain ⟨r, hr, rfl⟩ := h
    unfold predictProbas at hr
    split at hr
    · rename_i he
      have := forward_length A.hid _ hout m.net m.hidden q x r he hr
      split
      · rw [toLogits_length, this]
      · exact this
    · cases hr
  · rw [hl] at h
    simp only at h
    split at h
    · cases h
    · simp only [Option.bind_eq_bind, Option.bind_eq_some_iff] at h
      obtain ⟨r, _, hr⟩ := h
      rw [lbInverse_length r classes 0 p hr, hq classes hl]

theorem flatten_getD (q : ℕ) : ∀ (P : List (List K)), (∀ r ∈ P, r.length = q) → P.flatten.length = P.length * q ∧ ∀ i < P.length, ∀ c < q, P.flatten.getD (i * q + c) 0 = (P.getD i []).getD c 0
  | [], _ => by simp
  | r :: P, h => by
    obtain ⟨h1, h2⟩ := flatten_getD q P (fun x hx => h x (List.mem_cons_of_mem _ hx))
    have hr := h r (List.mem_cons_self ..)
    refine ⟨by rw [List.flatten_cons, List.length_append, h1, hr, List.length_cons]; ring, ?_⟩
    intro i hi c hc
    cases i with
    | zero =>
      simp only [Nat.zero_mul, Nat.zero_add, List.flatten_cons, List.getD_eq_getElem?_getD]
      rw [List.getElem?_append_left (by omega)]
      rfl
    | succ i =>
      have h3 := h2 i (by simpa using hi) c hc
      simp only [List.flatten_cons, List.getD_eq_getElem?_getD] at h3 ⊢
      rw [List.getElem?_append_right (by rw [hr]; nlinarith)]
      have : (i + 1) * q + c - r.length = i * q + c := by rw [hr, Nat.succ_mul]; omega
      rw [this, h3]
      rfl

/-- The cells of the predictions. -/
def cells (P : List (List K)) (i c : ℕ) : K := (P.getD i []).getD c 0

theorem compact_spec (q : ℕ) (P : List (List K)) (h : ∀ r ∈ P, r.length = q) : (compact q P).Has P.length q ∧ ∀ i < P.length, ∀ c < q, (compact q P).cell i c = cells P i c := by
  obtain ⟨h1, h2⟩ := flatten_getD q P h
  refine ⟨fun i hi c hc => ?_, h2⟩
  change i * q + c < P.flatten.length
  rw [h1]
  nlinarith

theorem predictions (A : Acts K) (hA : A.Keeps) (m : MLP K) (q : ℕ) (hq : Labels m q) (X P : List (List K)) (h : X.mapM (predict A m q) = some P) : P.length = X.length ∧ ∀ r ∈ P, r.length = q := by
  rw [ListX.mapM_forall2] at h
  refine ⟨h.length_eq.symm, ?_⟩
  induction h with
  | nil => intro r hr; cases hr
  | cons h1 _ ih =>
    intro r hr
    rcases List.mem_cons.1 hr with rfl | hr
    · exact predict_length A hA m q hq _ _ h1
    · exact ih r hr

theorem fraction_congr (n q : ℕ) (y h h' : ℕ → ℕ → K) (e : ∀ i < n, ∀ c < q, h i c = h' i c) : fraction n q y h = fraction n q y h' := by
  unfold fraction
  congr 3
  refine List.filter_congr (fun i hi => ?_)
  have hi := List.mem_range.1 hi
  rw [decide_eq_decide]
  exact forall_congr' (fun c => forall_congr' (fun hc => by rw [e i hi c hc]))

theorem isR2_congr (n : ℕ) (y h h' : ℕ → K) (v : K) (e : ∀ i < n, h i = h' i) : IsR2 n y h v ↔ IsR2 n y h' v := by
  unfold IsR2
  have : (List.range n).map (fun i => (h i - y i) ^ 2) = (List.range n).map (fun i => (h' i - y i) ^ 2) := List.map_congr_left (fun i hi => by rw [e i (List.mem_range.1 hi)])
  simp only [this]

theorem meanR2_congr (n q : ℕ) (y h h' : ℕ → ℕ → K) (s : K) (e : ∀ i < n, ∀ c < q, h i c = h' i c) : IsMeanR2 n q y h s ↔ IsMeanR2 n q y h' s := by
  unfold IsMeanR2
  refine exists_congr (fun vs => and_congr_right (fun _ => and_congr_left (fun _ => ?_)))
  exact forall_congr' (fun c => forall_congr' (fun hc => isR2_congr n _ _ _ _ (fun i hi => e i hi c hc)))

theorem fraction_congr_left (n q : ℕ) (y y' h : ℕ → ℕ → K) (e : ∀ i < n, ∀ c < q, y i c = y' i c) : fraction n q y h = fraction n q y' h := by
  unfold fraction
  congr 3
  refine List.filter_congr (fun i hi => ?_)
  have hi := List.mem_range.1 hi
  rw [decide_eq_decide]
  exact forall_congr' (fun c => forall_congr' (fun hc => by rw [e i hi c hc]))

theorem meanR2_congr_left (n q : ℕ) (y y' h : ℕ → ℕ → K) (s : K) (e : ∀ i < n, ∀ c < q, y i c = y' i c) : IsMeanR2 n q y h s ↔ IsMeanR2 n q y' h s := by
  unfold IsMeanR2
  refine exists_congr (fun vs => and_congr_right (fun _ => and_congr_left (fun _ => ?_)))
  refine forall_congr' (fun c => forall_congr' (fun hc => ?_))
  have hi : ∀ i ∈ List.range n, y i c = y' i c := fun i hi => e i (List.mem_range.1 hi) c hc
  unfold IsR2
  have e1 : (List.range n).map (fun i => y i c) = (List.range n).map (fun i => y' i c) := List.map_congr_left hi
  have e2 : (List.range n).map (fun i => (h i c - y i c) ^ 2) = (List.range n).map (fun i => (h i c - y' i c) ^ 2) := List.map_congr_left (fun i h => by rw [hi i h])
  have e3 : ∀ m, (List.range n).map (fun i => (y i c - m) ^ 2) = (List.range n).map (fun i => (y' i c - m) ^ 2) := fun m => List.map_congr_left (fun i h => by rw [hi i h])
  simp only [e1, e2, e3]

/-- **C152**, `MLPClassifier.Score`: the fraction of the rows of `Y` (whatever its stride) that are predicted exactly. -/
theorem C152_classifier (A : Acts K) (hA : A.Keeps) (m : MLP K) (X P : List (List K)) (Y : Buf K) (hl : X.length = Y.rows) (hY : Y.Has Y.rows Y.cols) (hq : Labels m Y.cols) (hP : X.mapM (predict A m Y.cols) = some P) :
    classifierScore A m X Y = some (fraction Y.rows Y.cols Y.cell (cells P)) := by
  obtain ⟨h1, h2⟩ := predictions A hA m Y.cols hq X P hP
  obtain ⟨h3, h4⟩ := compact_spec Y.cols P h2
  unfold classifierScore
  rw [hP]
  simp only [Option.bind_eq_bind, Option.bind_some]
  rw [h1, hl] at h3 h4
  rw [C152_accuracy Y _ hY h3, fraction_congr _ _ _ _ _ h4]

/-- Hypotheses met: two of three rows are predicted; the targets are the first column of a matrix with two. -/
example : Acts.Keeps (⟨id, id, id⟩ : Acts ℚ) ∧ classifierScore (⟨id, id, id⟩ : Acts ℚ) ⟨some [[3, 5]], [], 2, true, [([[0, 1]], [1, 0])]⟩ [[2], [0], [3]] ⟨3, 1, 2, [5, 9, 5, 9, 5, 9]⟩ = some (2 / 3) :=
  ⟨⟨fun _ => rfl, fun _ => rfl, fun _ => rfl⟩, by decide +kernel⟩

/-- C152, `MLPRegressor.Score`: for targets stored without gaps between the rows it is the mean over the columns of the coefficient of determination, a panic exactly when one is undefined.
Missing: targets in a view (`C152_view_violated`), constant columns (`C152_constant_violated`). -/
theorem C152_regressor_partial (A : Acts K) (hA : A.Keeps) (m : MLP K) (X P : List (List K)) (Y : Buf K) (hl : X.length = Y.rows) (hY : Y.Has Y.rows Y.cols) (hs : Y.stride = Y.cols) (hn : m.nOut = Y.cols) (hq : Labels m Y.cols)
    (hP : X.mapM (predict A m m.nOut) = some P) (s : K) : regressorScore A m X Y = some s ↔ IsMeanR2 Y.rows Y.cols Y.cell (cells P) s := by
  rw [hn] at hP
  obtain ⟨h1, h2⟩ := predictions A hA m Y.cols hq X P hP
  obtain ⟨h3, h4⟩ := compact_spec Y.cols P h2
  unfold regressorScore
  rw [hn, hP]
  simp only [Option.bind_eq_bind, Option.bind_some]
  rw [h1, hl] at h3 h4
  rw [C152_r2_partial Y _ hs.symm hY h3, meanR2_congr _ _ _ _ _ _ h4]

/-- Hypotheses met. -/
example : [[(0 : ℚ)], [1], [2]].mapM (predict (⟨id, id, id⟩ : Acts ℚ) ⟨none, [], 1, false, [([[2]], [1])]⟩ 1) = some [[1], [3], [5]] ∧ regressorScore (⟨id, id, id⟩ : Acts ℚ) ⟨none, [], 1, false, [([[2]], [1])]⟩ [[0], [1], [2]] ⟨3, 1, 1, [1, 3, 4]⟩ = some (11 / 14) := by decide +kernel

/-- C152, `BaseMultilayerPerceptron64.Score`: the same, by the kind of the network.  Missing: `C152_view_violated`, `C152_constant_violated`. -/
theorem C152_base_partial (A : Acts K) (hA : A.Keeps) (m : MLP K) (X P : List (List K)) (Y : Buf K) (hl : X.length = Y.rows) (hY : Y.Has Y.rows Y.cols) (hn : getNOutputs m = Y.cols) (hP : X.mapM (predict A m Y.cols) = some P) :
    (m.classifier = true → baseScore A m X Y = some (fraction Y.rows Y.cols Y.cell (cells P))) ∧
    (m.classifier = false → Y.stride = Y.cols → ∀ s, baseScore A m X Y = some s ↔ IsMeanR2 Y.rows Y.cols Y.cell (cells P) s) := by
  have hq : Labels m Y.cols := fun classes h => by simp only [getNOutputs, h] at hn; exact hn
  obtain ⟨h1, h2⟩ := predictions A hA m Y.cols hq X P hP
  obtain ⟨h3, h4⟩ := compact_spec Y.cols P h2
  rw [h1, hl] at h3 h4
  unfold baseScore
  rw [hn, hP]
  constructor
  · intro hc
    simp only [Option.bind_eq_bind, Option.bind_some, hc, if_true]
    rw [C152_accuracy Y _ hY h3, fraction_congr _ _ _ _ _ h4]
  · intro hc hs s
    simp only [Option.bind_eq_bind, Option.bind_some, hc, Bool.false_eq_true, if_false]
    rw [C152_r2_partial Y (compact Y.cols P) hs.symm hY h3, meanR2_congr _ _ _ _ _ _ h4]

/-- Hypotheses met: labels 3 and 5, and a regressor. -/
example : baseScore (⟨id, id, id⟩ : Acts ℚ) ⟨some [[3, 5]], [], 2, true, [([[0, 1]], [1, 0])]⟩ [[2], [0], [3]] ⟨3, 1, 2, [5, 9, 5, 9, 5, 9]⟩ = some (2 / 3) ∧
    baseScore (⟨id, id, id⟩ : Acts ℚ) ⟨none, [], 1, false, [([[2]], [1])]⟩ [[0], [1], [2]] ⟨3, 1, 1, [1, 3, 4]⟩ = some (11 / 14) := by decide +kernel

/-- **C152 is violated** for targets that are a view of a larger matrix: `MLPRegressor.Score` and `BaseMultilayerPerceptron64.Score` panic, since the predictions are read with the stride of the targets. -/
theorem C152_view_violated (A : Acts K) (hA : A.Keeps) (m : MLP K) (X : List (List K)) (Y : Buf K) (hl : X.length = Y.rows) (hr : 2 ≤ Y.rows) (hc : 1 ≤ Y.cols) (hs : Y.cols < Y.stride) (hn : m.nOut = Y.cols) (hlb : m.lb = none) :
    regressorScore A m X Y = none ∧ (m.classifier = false → baseScore A m X Y = none) := by
  have hq : Labels m Y.cols := fun classes h => by rw [hlb] at h; cases h
  have hg : getNOutputs m = Y.cols := by simp only [getNOutputs, hlb, hn]
  unfold regressorScore baseScore
  rw [hg, hn]
  rcases hP : X.mapM (predict A m Y.cols) with _ | P
  · exact ⟨rfl, fun _ => rfl⟩
  · obtain ⟨h1, h2⟩ := predictions A hA m Y.cols hq X P hP
    have hlen : (compact Y.cols P).data.length = Y.rows * Y.cols := by
      change P.flatten.length = _
      rw [(flatten_getD Y.cols P h2).1, h1, hl]
    have := r2_short Y (compact Y.cols P) hr hc hs hlen
    refine ⟨this, fun hcl => ?_⟩
    simp only [Option.bind_eq_bind, Option.bind_some, hcl, Bool.false_eq_true, if_false]
    exact this

/-- Hypotheses met: the same targets in the first column of a matrix with two. -/
example : regressorScore (⟨id, id, id⟩ : Acts ℚ) ⟨none, [], 1, false, [([[2]], [1])]⟩ [[0], [1], [2]] ⟨3, 1, 2, [1, 0, 3, 0, 4, 0]⟩ = none := by decide +kernel

/-- **C152 is violated** for a constant column of targets: the score panics, also for perfect predictions and for a single row. -/
theorem C152_constant_violated (A : Acts K) (m : MLP K) (X : List (List K)) (Y : Buf K) (hr : 1 ≤ Y.rows) (c : ℕ) (hc : c < Y.cols) (v : K) (hv : ∀ i < Y.rows, Y.cell i c = v) : regressorScore A m X Y = none := by
  unfold regressorScore
  rcases X.mapM (predict A m m.nOut) with _ | P
  · rfl
  · exact r2_constant Y _ hr c hc v hv

/-- Hypotheses met: one row, predicted exactly. -/
example : [[(0 : ℚ)]].mapM (predict (⟨id, id, id⟩ : Acts ℚ) ⟨none, [], 1, false, [([[2]], [1])]⟩ 1) = some [[1]] ∧ regressorScore (⟨id, id, id⟩ : Acts ℚ) ⟨none, [], 1, false, [([[2]], [1])]⟩ [[0]] ⟨1, 1, 1, [1]⟩ = none := by decide +kernel

/-! ## Validation score -/

/-- C152, the score of an epoch for early stopping, for a network without label columns: the fraction of the validation rows predicted exactly, or the mean coefficient of determination.
Missing: a classifier trained on labels (`C152_early_violated`). -/
theorem C152_validation_partial (A : Acts K) (hA : A.Keeps) (m : MLP K) (hlb : m.lb = none) (q : ℕ) (X P Y : List (List K)) (hl : X.length = Y.length) (hY : ∀ r ∈ Y, r.length = q) (hP : X.mapM (predict A m q) = some P) :
    (m.classifier = true → validScore A m q X Y = some (fraction Y.length q (cells Y) (cells P))) ∧
    (m.classifier = false → ∀ s, validScore A m q X Y = some s ↔ IsMeanR2 Y.length q (cells Y) (cells P) s) := by
  have hq : Labels m q := fun classes h => by rw [hlb] at h; cases h
  obtain ⟨h1, h2⟩ := predictions A hA m q hq X P hP
  obtain ⟨h3, h4⟩ := compact_spec q P h2
  obtain ⟨h5, h6⟩ := compact_spec q Y hY
  rw [h1, hl] at h3 h4
  unfold validScore
  rw [hP]
  constructor
  · intro hc
    simp only [Option.bind_eq_bind, Option.bind_some, hc, if_true]
    rw [C152_accuracy (compact q Y) _ h5 h3]
    exact congrArg some ((fraction_congr _ _ _ _ _ h4).trans (fraction_congr_left _ _ _ _ _ h6))
  · intro hc s
    simp only [Option.bind_eq_bind, Option.bind_some, hc, Bool.false_eq_true, if_false]
    rw [C152_r2_partial (compact q Y) (compact q P) rfl h5 h3]
    exact (meanR2_congr _ _ _ _ _ _ h4).trans (meanR2_congr_left _ _ _ _ _ _ h6)

/-- Hypotheses met, for a classifier of 0/1 columns and for a regressor. -/
example : validScore (⟨id, id, id⟩ : Acts ℚ) ⟨none, [], 1, true, [([[2]], [0])]⟩ 1 [[0], [1]] [[0], [0]] = some (1 / 2) ∧ validScore (⟨id, id, id⟩ : Acts ℚ) ⟨none, [], 1, false, [([[2]], [1])]⟩ 1 [[0], [1], [2]] [[1], [3], [4]] = some (11 / 14) := by decide +kernel

/-- **C152 is violated** with early stopping for a classifier trained on a column of labels (two or more, not only 0 and 1): the validation score of the first epoch panics, whatever the network and the validation rows. -/
theorem C152_early_violated (A : Acts K) (train : ℕ → List (List K) → Net K) (m : MLP K) (hc : m.classifier = true) (ys : List K) (h : ∃ v ∈ ys, v ≠ 0 ∧ v ≠ 1) (h2 : ∃ v ∈ ys, ∃ w ∈ ys, v ≠ w) :
    ∃ m', fitClassifier train m 1 (ys.map (fun v => [v])) = some m' ∧ ∀ X Y, X ≠ [] → validScore A m' m'.nOut X Y = none := by
  obtain ⟨Yb, hf⟩ := fit_labels train m hc ys h
  refine ⟨_, hf, fun X Y hX => ?_⟩
  obtain ⟨x, X, rfl⟩ := List.exists_cons_of_ne_nil hX
  have hlen : 1 < (Label.distinctSorted ys).length := by
    obtain ⟨v, hv, w, hw, hne⟩ := h2
    have hv' := ((Label.distinctSorted_spec ys).2 v).2 hv
    have hw' := ((Label.distinctSorted_spec ys).2 w).2 hw
    by_contra hle
    rcases hd : Label.distinctSorted ys with _ | ⟨a, l⟩
    · rw [hd] at hv'; simp at hv'
    · rw [hd] at hv' hw' hle
      have : l = [] := by cases l with | nil => rfl | cons b l => simp at hle
      subst this
      simp only [List.mem_singleton] at hv' hw'
      exact hne (hv'.trans hw'.symm)
  unfold validScore
  rw [List.mapM_cons]
  simp only [predict, List.length_cons, List.length_nil, Nat.zero_add, gt_iff_lt, hlen, if_true]
  rfl

/-- Hypotheses met: labels 3 and 5. -/
example : (∃ v ∈ [(3 : ℚ), 5], v ≠ 0 ∧ v ≠ 1) ∧ ∃ v ∈ [(3 : ℚ), 5], ∃ w ∈ [(3 : ℚ), 5], v ≠ w := by decide +kernel

/-! ## Gaussian process -/

/-- **C152 is violated** by the Gaussian process: `Score` fits the estimator to the data it is asked to score (the training data are lost), and, since the package never sets `YtrainMean`, panics then. -/
theorem C152_gp_violated {n n' d q : ℕ} (r2 : (Fin n → Fin q → ℝ) → (Fin n → Fin q → ℝ) → ℝ) (m : GP.Regressor d q) (Xt : Fin n' → Fin d → ℝ) (Yt : Fin n' → Fin q → ℝ) (X : Fin n → Fin d → ℝ) (Y : Fin n → Fin q → ℝ) (hm : m.ytrainMean = none)
    (ha : m.alpha.length = 1) : ∃ m₁ m₂, m.fit Xt Yt = some m₁ ∧ gpScore r2 m₁ X Y = some (m₂, none) ∧ m₁.train = some ⟨n', Xt, Yt⟩ ∧ m₂.train = some ⟨n, X, Y⟩ := by
  refine ⟨{ m with train := some ⟨n', Xt, Yt⟩ }, { m with train := some ⟨n, X, Y⟩ }, ?_, ?_, rfl, rfl⟩
  · simp [GP.Regressor.fit, ha]
  · simp only [gpScore, GP.Regressor.fit, ha, ne_eq, not_true_eq_false, false_and, if_false, Option.map_some, Option.some.injEq, Prod.mk.injEq, true_and]
    unfold GP.Regressor.predict
    simp only [hm]
    split
    · rfl
    · split <;> simp_all

/-- Hypotheses met: a new regressor with a constant kernel. -/
example : (GP.Regressor.mk (.const (3, false)) [2] none none : GP.Regressor 1 1).ytrainMean = none ∧ (GP.Regressor.mk (.const (3, false)) [2] none none : GP.Regressor 1 1).alpha.length = 1 := ⟨rfl, rfl⟩

end Sk.Scores
