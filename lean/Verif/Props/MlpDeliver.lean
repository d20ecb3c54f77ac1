import Verif.Model.MlpDeliver
import Verif.Props.BaseMat
import Verif.Props.General64

/-! # C180: where the `Predict` methods of the perceptrons put the predictions -/
set_option autoImplicit false

namespace Sk.MlpDeliver
open Sk.Matrix (General Slice)
open Sk.BaseMat

variable {α : Type}

/-! ### Specification -/

/-- The cells of an `n × o` destination hold the predictions; what was allocated before and is not one of these cells is as before. -/
def Filled (n o : ℕ) (f : ℕ × ℕ → α) (dst : Dst) (before after : Heap α) : Prop :=
  (∀ i < n, ∀ j < o, dst.read after.mem i j = some (f (i, j))) ∧ ∀ a < before.free, (∀ i < n, ∀ j < o, dst.cell i j ≠ some a) → after.mem a = before.mem a

/-- A destination of exactly `n × o` cells, which are allocated and different. -/
def Exact (n o free : ℕ) (dst : Dst) : Prop :=
  dst.Ok n o free ∧ match dst with | .nil => False | .dense M => M.rows = n ∧ M.cols = o | .other r c _ => r = n ∧ c = o

/-! ### Lemmas -/

theorem write_spec (labels : Bool) (n o : ℕ) (ho : 0 < o) (f : ℕ × ℕ → α) (Y : General) (hY : Y.WF) (hr : Y.rows = n) (hc : Y.cols = o) (hs : labels = true → Y.stride = o) (mem : ℕ → α) :
    ∃ m, writeTo labels n o f Y mem = some m ∧ (∀ p ∈ cells n o, m (pos Y p) = f p) ∧ ∀ a, (∀ p ∈ cells n o, a ≠ pos Y p) → m a = mem a := by
  cases labels with
  | false => exact fill_dense n o f Y hY (by omega) (by omega) mem
  | true =>
    have hst := hs rfl
    have hlen := hY.len
    have hcap := hY.cap
    have hrows := hY.rows
    have hno : n * o ≤ Y.data.len := by
      obtain ⟨k, rfl⟩ : ∃ k, n = k + 1 := ⟨n - 1, by omega⟩
      rw [hr, hst, hc] at hlen
      simp only [Nat.add_sub_cancel] at hlen
      rw [Nat.succ_mul]; omega
    refine ⟨_, by rw [writeTo, if_pos rfl, if_neg (by omega)], fun p hp => ?_, fun a ha => ?_⟩
    · rw [mem_cells] at hp
      have hlt : p.1 * o + p.2 < n * o := by
        calc p.1 * o + p.2 < p.1 * o + o := by omega
          _ = (p.1 + 1) * o := by rw [Nat.succ_mul]
          _ ≤ n * o := Nat.mul_le_mul_right _ hp.1
      obtain ⟨h1, h2⟩ := Sk.G64.split_index p.1 p.2 o hp.2
      simp only [Sk.G64.copyTo, pos, hst]
      rw [if_pos (by omega), show Y.data.off + (p.1 * o + p.2) - Y.data.off = p.1 * o + p.2 by omega, h1, h2]
    · simp only [Sk.G64.copyTo]
      rw [if_neg]
      intro h
      refine ha ((a - Y.data.off) / o, (a - Y.data.off) % o) ((mem_cells _ _ _).2 ⟨Nat.div_lt_of_lt_mul (by rw [Nat.mul_comm]; omega), Nat.mod_lt _ ho⟩) ?_
      simp only [pos, hst]
      have := Nat.div_add_mod' (a - Y.data.off) o
      omega

theorem read_dense {n o : ℕ} {M : General} (hM : M.WF) (hr : M.rows = n) (hc : M.cols = o) {m : ℕ → α} {f : ℕ × ℕ → α} (h : ∀ p ∈ cells n o, m (pos M p) = f p) : ∀ i < n, ∀ j < o, M.get m i j = some (f (i, j)) := by
  intro i hi j hj
  simp only [General.get]
  rw [addr_pos hM (p := (i, j)) (by simp only; omega) (by simp only; omega), Option.map_some, h (i, j) ((mem_cells _ _ _).2 ⟨hi, hj⟩)]

/-! ### Properties -/

/-- C180 (partial): into a destination of the right size `Predict` of the base perceptron puts exactly the predictions, and changes no other cell.  Missing: a destination that does not give access to its buffer for data that do
(`C180_mutable_violated`), labels for a destination with gaps between its rows, for such data (`C180_labels_violated`). -/
theorem C180_base_partial (zero : α) (labels xRaw : Bool) (n o : ℕ) (hn : 0 < n) (ho : 0 < o) (f : ℕ × ℕ → α) (dst : Dst) (h : Heap α) (hd : Exact n o h.free dst)
    (hx : xRaw = true → ∃ M, dst = .dense M ∧ (labels = true → M.stride = o)) : ∃ h', basePredict zero labels xRaw n o f dst h = some h' ∧ h.free ≤ h'.free ∧ Filled n o f dst h h' := by
  have hnew : newDense zero n o h = some (⟨n, o, o, ⟨h.free, n * o, n * o⟩⟩, ⟨fun a => if h.free ≤ a ∧ a < h.free + n * o then zero else h.mem a, h.free + n * o⟩) := by
    unfold newDense; rw [if_neg (by omega)]
  have hF : (⟨n, o, o, ⟨h.free, n * o, n * o⟩⟩ : General).WF := WF.fresh n o h.free hn ho
  have hge : ∀ (p : ℕ × ℕ), h.free ≤ pos (⟨n, o, o, ⟨h.free, n * o, n * o⟩⟩ : General) p := fun p => by unfold pos; simp
  cases dst with
  | nil => exact absurd hd.2 id
  | dense M =>
    obtain ⟨hok, hr, hc⟩ := hd
    rcases hok with ⟨h1, -⟩ | ⟨hM, -, -, hfr⟩
    · omega
    have hlen := pos_lt hM (p := (0, 0)) hM.rows hM.cpos
    cases xRaw with
    | true =>
      obtain ⟨M', he, hs⟩ := hx rfl
      cases he
      obtain ⟨m, e, h1, h2⟩ := write_spec labels n o ho f M hM hr hc hs h.mem
      refine ⟨⟨m, h.free⟩, ?_, le_refl _, read_dense hM hr hc h1, fun a ha hna => ?_⟩
      · rw [basePredict, if_pos rfl]
        simp only [e, Option.bind_some, fromDense]
        rw [if_neg (by omega), if_pos trivial]; rfl
      · refine h2 a (fun p hp hc' => ?_)
        rw [mem_cells] at hp
        exact hna p.1 hp.1 p.2 hp.2 (by rw [hc']; exact addr_pos hM (by omega) (by omega))
    | false =>
      obtain ⟨m, e, h1, h2⟩ := write_spec labels n o ho f _ hF rfl rfl (fun _ => rfl) (fun a => if h.free ≤ a ∧ a < h.free + n * o then zero else h.mem a)
      obtain ⟨m', e', h3, h4⟩ := C146_copy_partial M _ hM hF hr hc (Or.inl hfr) m
      refine ⟨⟨m', h.free + n * o⟩, ?_, by simp, fun i hi j hj => ?_, fun a ha hna => ?_⟩
      · rw [basePredict, if_neg (by simp)]
        simp only [hr, hc, hnew, Option.bind_some, e, e', Option.map_some]
      · show M.get m' i j = _
        rw [(h3 i hi j hj).1]
        exact read_dense hF rfl rfl h1 i hi j hj
      · show m' a = _
        rw [h4 a hna, h2 a (fun p _ hc' => by have := hge p; omega), if_neg (by omega)]
  | other r c addr =>
    cases xRaw with
    | true => obtain ⟨M, he, -⟩ := hx rfl; cases he
    | false =>
      obtain ⟨⟨-, -, -, -, hex, hinj⟩, hr, hc⟩ := hd
      obtain ⟨m, e, h1, h2⟩ := write_spec labels n o ho f _ hF rfl rfl (fun _ => rfl) (fun a => if h.free ≤ a ∧ a < h.free + n * o then zero else h.mem a)
      obtain ⟨m', e', h3, h4⟩ := C146_set_partial r c addr _ hF (by show n ≤ r; omega) (by show o ≤ c; omega) (fun i hi j hj => by obtain ⟨a, ha, hlt⟩ := hex i hi j hj; exact ⟨a, ha, Or.inl hlt⟩) hinj m
      refine ⟨⟨m', h.free + n * o⟩, ?_, by simp, fun i hi j hj => ?_, fun a ha hna => ?_⟩
      · rw [basePredict, if_neg (by simp)]
        simp only [hr, hc, hnew, Option.bind_some, e]
        rw [hr, hc] at e'
        rw [e']; rfl
      · show (addr i j).map m' = _
        rw [(h3 i hi j hj).1]
        exact read_dense hF rfl rfl h1 i hi j hj
      · show m' a = _
        rw [h4 a hna, h2 a (fun p _ hc' => by have := hge p; omega), if_neg (by omega)]

/-- A destination with gaps. -/
example : Exact 2 1 5 (.dense ⟨2, 1, 3, ⟨0, 5, 5⟩⟩) ∧ (basePredict 0 true false 2 1 (fun p => p.1 + 7) (.dense ⟨2, 1, 3, ⟨0, 5, 5⟩⟩) ⟨fun _ => 0, 5⟩).map (fun h => (List.range 5).map h.mem) = some [7, 0, 0, 8, 0] :=
  ⟨⟨Or.inr ⟨⟨by decide, by decide, by decide, by decide, by decide⟩, by decide, by decide, by decide⟩, rfl, rfl⟩, by decide +kernel⟩

/-- C180: `Predict` of the base type with a nil destination panics, whatever the matrix of samples. -/
theorem C180_base_nil (zero : α) (labels xRaw : Bool) (n o : ℕ) (f : ℕ × ℕ → α) (h : Heap α) : basePredict zero labels xRaw n o f .nil h = none := by
  cases xRaw <;> rfl

/-- C180, violated: data that give access to their buffer and a destination that does not (a transposed or sliced matrix of this library): `Predict` of the base perceptron panics. -/
theorem C180_mutable_violated (zero : α) (labels : Bool) (n o r c : ℕ) (addr : ℕ → ℕ → Option ℕ) (f : ℕ × ℕ → α) (h : Heap α) :
    basePredict zero labels true n o f (.other r c addr) h = none := rfl

/-- C180, violated: with labels, such data and a destination with gaps between its rows, row 1 gets the prediction for row `stride / o` (when there is one) and a cell that is not in the destination is overwritten. -/
theorem C180_labels_violated (zero : α) (n o : ℕ) (hn : 2 ≤ n) (ho : 0 < o) (f : ℕ × ℕ → α) (M : General) (hM : M.WF) (hr : M.rows = n) (hc : M.cols = o) (hs : o < M.stride) (h : Heap α) (hfr : M.data.off + M.data.len ≤ h.free) :
    ∃ h', basePredict zero true true n o f (.dense M) h = some h' ∧ (Dst.dense M).read h'.mem 1 0 = (if M.stride < n * o then some (f (M.stride / o, M.stride % o)) else (Dst.dense M).read h.mem 1 0) ∧
      (∀ i j, (Dst.dense M).cell i j ≠ some (M.data.off + o)) ∧ h'.mem (M.data.off + o) = f (1, 0) := by
  have hlen := hM.len
  have hcap := hM.cap
  have hrow := hM.rows
  have h1 : n * o ≤ M.data.cap := by
    have : (n - 1) * o ≤ (M.rows - 1) * M.stride := by rw [hr]; exact Nat.mul_le_mul_left _ (by omega)
    obtain ⟨k, rfl⟩ : ∃ k, n = k + 1 := ⟨n - 1, by omega⟩
    rw [Nat.succ_mul]
    simp only [Nat.add_sub_cancel] at this
    omega
  have h2 : 2 * o ≤ n * o := Nat.mul_le_mul_right _ hn
  have hl : M.data.len ≠ 0 := by
    have := hM.cpos
    omega
  refine ⟨⟨Sk.G64.copyTo h.mem M.data.off (n * o) (fun p => f (p / o, p % o)), h.free⟩, ?_, ?_, ?_, ?_⟩
  · rw [basePredict, if_pos rfl]
    simp only [writeTo, if_true]
    rw [if_neg (by omega)]
    simp only [Option.bind_some, fromDense]
    rw [if_neg (by omega), if_pos trivial]; rfl
  · have ha := addr_pos hM (p := (1, 0)) (by simp only; omega) (by simp only; omega)
    simp only [Dst.read, Dst.cell, ha, Option.map_some, Sk.G64.copyTo, pos, Nat.one_mul, Nat.add_zero]
    by_cases hlt : M.stride < n * o
    · rw [if_pos hlt, if_pos (by omega), show M.data.off + M.stride - M.data.off = M.stride by omega]
    · rw [if_neg hlt, if_neg (by omega)]
  · intro i j
    simp only [Dst.cell, General.addr]
    split
    · rename_i hij
      intro he
      simp only [Option.some.injEq] at he
      have h3 : i * M.stride + j = o := by omega
      rcases Nat.eq_zero_or_pos i with rfl | hi
      · omega
      · have := Nat.mul_le_mul_right M.stride hi
        omega
    · simp
  · simp only [Sk.G64.copyTo]
    rw [if_pos (by omega), show M.data.off + o - M.data.off = o by omega, Nat.div_self ho, Nat.mod_self]

/-- The left column of a 3×2 matrix at the addresses 0 to 5: the labels 7, 8, 9 end at the addresses 0, 1, 2 instead of 0, 2, 4. -/
example : (basePredict 0 true true 3 1 (fun p => p.1 + 7) (.dense ⟨3, 1, 2, ⟨0, 5, 6⟩⟩) ⟨fun _ => 0, 6⟩).map (fun h => (List.range 6).map h.mem) = some [7, 8, 9, 0, 0, 0] := by decide +kernel

/-- C180: `MLPRegressor.Predict` delivers its predictions to every destination: nil, an empty matrix, a matrix or view that is large enough, another mutable matrix. -/
theorem C180_regressor (zero : α) (n o : ℕ) (hn : 0 < n) (ho : 0 < o) (f : ℕ × ℕ → α) (dst : Dst) (h : Heap α) (hd : dst.Ok n o h.free) :
    ∃ res, regressorPredict zero n o f dst h = some res ∧ Delivered n o f dst h res := by
  obtain ⟨res, he, hres⟩ := C145_predict zero n o hn ho f dst h hd
  refine ⟨res, ?_, hres⟩
  rw [← he]
  unfold regressorPredict predict writeTo
  simp only [Bool.false_eq_true, if_false, Option.bind_eq_bind]
  cases toDense zero dst h with
  | none => rfl
  | some t =>
    simp only [Option.bind_some]
    congr 1
    funext y
    congr 1
    funext m
    cases fromDense y.2.1 y.1 m <;> rfl

/-- C180 (partial): `MLPClassifier.Predict` delivers its predictions to nil, an empty matrix, a matrix of the right size and every other mutable matrix of the right size.  Missing: labels for a matrix with gaps between its rows, for data
that give access to their buffer (`C180_classifier_violated`). -/
theorem C180_classifier_partial (zero : α) (labels xRaw : Bool) (n o : ℕ) (hn : 0 < n) (ho : 0 < o) (f : ℕ × ℕ → α) (dst : Dst) (h : Heap α)
    (hd : dst = .nil ∨ (∃ M, dst = .dense M ∧ M.rows = 0 ∧ M.cols = 0) ∨ (Exact n o h.free dst ∧ ∀ M, dst = .dense M → labels = true → xRaw = true → M.stride = o)) :
    ∃ res, classifierPredict zero labels xRaw n o f dst h = some res ∧ Delivered n o f dst h res := by
  have hnew : newDense zero n o h = some (⟨n, o, o, ⟨h.free, n * o, n * o⟩⟩, ⟨fun a => if h.free ≤ a ∧ a < h.free + n * o then zero else h.mem a, h.free + n * o⟩) := by
    unfold newDense; rw [if_neg (by omega)]
  have hF : (⟨n, o, o, ⟨h.free, n * o, n * o⟩⟩ : General).WF := WF.fresh n o h.free hn ho
  have hno := Nat.mul_pos hn ho
  -- the method of the base on a fresh matrix
  have hfresh : ∀ mem : ℕ → α, ∃ h', basePredict zero labels xRaw n o f (.dense ⟨n, o, o, ⟨h.free, n * o, n * o⟩⟩) ⟨mem, h.free + n * o⟩ = some h' ∧ h.free + n * o ≤ h'.free ∧
      (∀ i < n, ∀ j < o, General.get ⟨n, o, o, ⟨h.free, n * o, n * o⟩⟩ h'.mem i j = some (f (i, j))) ∧ ∀ a < h.free, h'.mem a = mem a := by
    intro mem
    obtain ⟨h', e, hle, h1, h2⟩ := C180_base_partial zero labels xRaw n o hn ho f (.dense ⟨n, o, o, ⟨h.free, n * o, n * o⟩⟩) ⟨mem, h.free + n * o⟩ ⟨Or.inr ⟨hF, le_refl _, le_refl _, le_refl _⟩, rfl, rfl⟩ (fun _ => ⟨_, rfl, fun _ => rfl⟩)
    refine ⟨h', e, hle, h1, fun a ha => h2 a (by show a < h.free + n * o; omega) (fun i hi j hj he => ?_)⟩
    have := addr_pos hF (p := (i, j)) hi hj
    rw [show (Dst.dense (⟨n, o, o, ⟨h.free, n * o, n * o⟩⟩ : General)).cell i j = some (pos ⟨n, o, o, ⟨h.free, n * o, n * o⟩⟩ (i, j)) from this] at he
    simp only [Option.some.injEq, pos] at he
    omega
  rcases hd with rfl | ⟨M, rfl, hr, hc⟩ | ⟨hE, hs⟩
  · obtain ⟨h', e, -, h1, h2⟩ := hfresh (fun a => if h.free ≤ a ∧ a < h.free + n * o then zero else h.mem a)
    refine ⟨(⟨n, o, o, ⟨h.free, n * o, n * o⟩⟩, .nil, h'), ?_, h1, fun hne => absurd rfl hne, ?_, fun a ha _ => ?_⟩
    · simp [classifierPredict, toDense, hnew, e, fromDense]
    · rintro i j ⟨a, ha⟩; simp [Dst.cell] at ha
    · show h'.mem a = _
      rw [h2 a ha, if_neg (by omega)]
  · obtain ⟨h', e, -, h1, h2⟩ := hfresh (fun a => if h.free ≤ a ∧ a < h.free + n * o then zero else h.mem a)
    refine ⟨(⟨n, o, o, ⟨h.free, n * o, n * o⟩⟩, .dense ⟨n, o, o, ⟨h.free, n * o, n * o⟩⟩, h'), ?_, h1, fun _ => h1, ?_, fun a ha _ => ?_⟩
    · have : n * o ≠ 0 := by omega
      simp [classifierPredict, toDense, hr, hnew, e, fromDense, this]
    · rintro i j ⟨a, ha⟩; simp [Dst.cell, General.addr, hr] at ha
    · show h'.mem a = _
      rw [h2 a ha, if_neg (by omega)]
  · cases dst with
    | nil => exact absurd hE.2 id
    | dense M =>
      have hE' := hE
      obtain ⟨hok, hr, hc⟩ := hE
      rcases hok with ⟨h1, -⟩ | ⟨hM, -, -, hfr⟩
      · omega
      have hlen := pos_lt hM (p := (0, 0)) hM.rows hM.cpos
      obtain ⟨h', e, -, h1, h2⟩ := C180_base_partial zero labels xRaw n o hn ho f (.dense M) h hE' (fun hx => ⟨M, rfl, fun hl => hs M rfl hl hx⟩)
      refine ⟨(M, .dense M, h'), ?_, h1, fun _ => h1, fun _ _ _ => rfl, h2⟩
      have : M.data.len ≠ 0 := by omega
      rw [classifierPredict]
      simp only [toDense, Option.bind_some]
      rw [if_neg (by omega)]
      simp [e, fromDense, this]
    | other r c addr =>
      obtain ⟨⟨-, -, -, -, hex, hinj⟩, hr, hc⟩ := hE
      subst hr hc
      have hex' := hex
      choose! ad had using hex'
      obtain ⟨m1, e1, -, h12⟩ := copyCells_spec (fun p => General.addr ⟨r, c, c, ⟨h.free, r * c, r * c⟩⟩ p.1 p.2) (fun p => addr p.1 p.2) (cells r c)
        (fun a => if h.free ≤ a ∧ a < h.free + r * c then zero else h.mem a) (pos ⟨r, c, c, ⟨h.free, r * c, r * c⟩⟩) (fun p => ad p.1 p.2)
        (fun p hp => by rw [mem_cells] at hp; exact addr_pos hF hp.1 hp.2)
        (fun p hp => by rw [mem_cells] at hp; exact (had p.1 hp.1 p.2 hp.2).1)
        (fun p hp q hq he => pos_inj hF (le_refl _) p q hp hq he)
        (fun p hp q hq he => by rw [mem_cells] at hq; simp only [pos] at he; have := (had q.1 hq.1 q.2 hq.2).2; omega)
      obtain ⟨h', e, -, h1, h2⟩ := hfresh m1
      obtain ⟨m', e', h3, h4⟩ := C146_set_partial r c addr _ hF (le_refl _) (le_refl _) (fun i hi j hj => by obtain ⟨a, ha, hlt⟩ := hex i hi j hj; exact ⟨a, ha, Or.inl hlt⟩) hinj h'.mem
      refine ⟨(⟨r, c, c, ⟨h.free, r * c, r * c⟩⟩, .other r c addr, ⟨m', h'.free⟩), ?_, fun i hi j hj => ?_, fun _ i hi j hj => ?_, fun _ _ _ => rfl, fun a ha hna => ?_⟩
      · rw [classifierPredict]
        simp only [toDense, hnew, Option.bind_eq_bind, Option.bind_some]
        rw [e1]
        simp only [Option.bind_some]
        rw [if_neg (by omega)]
        simp [e, e']
      · rw [← h1 i hi j hj]
        simp only [General.get]
        rw [addr_pos hF (p := (i, j)) hi hj]
        simp only [Option.map_some, Option.some.injEq]
        refine h4 _ (fun i' hi' j' hj' he => ?_)
        have := had i' hi' j' hj'
        rw [this.1] at he
        simp only [Option.some.injEq, pos] at he
        omega
      · show (addr i j).map m' = _
        rw [(h3 i hi j hj).1]
        exact h1 i hi j hj
      · show m' a = _
        rw [h4 a hna, h2 a ha, h12 a (fun p _ he => by simp only [pos] at he; omega), if_neg (by omega)]

example : Exact 2 1 5 (.other 2 1 (fun i j => if i < 2 ∧ j < 1 then some (3 + i) else none)) := by
  refine ⟨⟨by omega, by omega, by omega, by omega, ?_, ?_⟩, rfl, rfl⟩
  · intro i hi j hj; exact ⟨3 + i, if_pos ⟨hi, hj⟩, by omega⟩
  · intro i hi j hj i' hi' j' hj' he
    beta_reduce at he
    rw [if_pos ⟨hi, hj⟩, if_pos ⟨hi', hj'⟩] at he
    simp only [Option.some.injEq] at he
    omega

/-- C180, violated: the same misplacement through `MLPClassifier.Predict`: with labels, a destination with gaps between its rows and data that give access to their buffer, the prediction for row 1 lands outside of the destination. -/
theorem C180_classifier_violated (zero : α) (n o : ℕ) (hn : 2 ≤ n) (ho : 0 < o) (f : ℕ × ℕ → α) (M : General) (hM : M.WF) (hr : M.rows = n) (hc : M.cols = o) (hs : o < M.stride) (h : Heap α) (hfr : M.data.off + M.data.len ≤ h.free) :
    ∃ h', classifierPredict zero true true n o f (.dense M) h = some (M, .dense M, h') ∧
      (Dst.dense M).read h'.mem 1 0 = (if M.stride < n * o then some (f (M.stride / o, M.stride % o)) else (Dst.dense M).read h.mem 1 0) ∧
      (∀ i j, (Dst.dense M).cell i j ≠ some (M.data.off + o)) ∧ h'.mem (M.data.off + o) = f (1, 0) := by
  obtain ⟨h', e, h1, h2, h3⟩ := C180_labels_violated zero n o hn ho f M hM hr hc hs h hfr
  refine ⟨h', ?_, h1, h2, h3⟩
  have hlen := pos_lt hM (p := (0, 0)) hM.rows hM.cpos
  have : M.data.len ≠ 0 := by omega
  rw [classifierPredict]
  simp only [toDense, Option.bind_some]
  rw [if_neg (by omega)]
  simp [e, fromDense, this]

end Sk.MlpDeliver
