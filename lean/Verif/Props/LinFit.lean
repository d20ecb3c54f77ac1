import Verif.Model.LinFit
import Verif.Props.Linear
import Verif.Props.Shuffler
import Mathlib.Tactic.Linarith
import Mathlib.Tactic.Ring
import Mathlib.Tactic.FieldSimp
import Mathlib.Tactic.NormNum
import Mathlib.Analysis.Real.Sqrt
import Mathlib.Data.Fin.VecNotation
import Mathlib.Algebra.BigOperators.Field

/-!
# C182, C183: `LinFit` with a solver; the options of `LinFit`
-/
set_option autoImplicit false

namespace Sk.LinFit

variable {p q : ℕ}

/-- The two pairs of a loss and an activation whose gradient is computed as one matrix product. -/
def ByProduct (L : LossKind) (a : Activation) : Prop := (L = .square ∧ a.isIdentity = true) ∨ (L = .crossEntropy ∧ a.isLogistic = true)

theorem direct_iff {L : LossKind} {a : Activation} : direct L a = true ↔ ByProduct L a := by
  cases L <;> simp [direct, ByProduct]

/-- The rows of a mini-batch. -/
def block {α : Type} (rs : List α) (b : ℕ × ℕ) : List α := (rs.take b.2).drop b.1

theorem blocks_from {α : Type} (rs : List α) (size : ℕ) (hs : 1 ≤ size) (k : ℕ) : ∀ b, rs.length ≤ (b + k) * size →
    ((Sk.Lin.batches rs.length size k b).map (block rs)).flatten = rs.drop (b * size) := by
  induction k with
  | zero =>
    intro b h
    rw [Nat.add_zero] at h
    rw [Sk.Lin.batches, List.drop_eq_nil_of_le h]
    rfl
  | succ k ih =>
    intro b h
    have h1 : (b + 1 + k) * size = (b + (k + 1)) * size := by ring
    have e := ih (b + 1) (by rw [h1]; exact h)
    rw [Sk.Lin.batches]
    split
    · rename_i hlt
      have h2 : (b + 1) * size = b * size + size := by ring
      rw [h2] at e
      rw [List.map_cons, List.flatten_cons, e]
      by_cases hgt : b * size + size > rs.length
      · rw [if_pos hgt, List.drop_eq_nil_of_le (by omega : rs.length ≤ b * size + size), List.append_nil, block, List.take_length]
      · rw [if_neg hgt, block, ← List.drop_drop, List.drop_take, show b * size + size - b * size = size by omega, List.take_append_drop]
    · rename_i hge
      rw [List.drop_eq_nil_of_le (by omega)]
      rfl

theorem blocks {α : Type} (rs : List α) (size : ℕ) (hs : 1 ≤ size) : ((Sk.Lin.linFitBatches rs.length size).map (block rs)).flatten = rs := by
  have := blocks_from rs size hs (rs.length + 1) 0 (by nlinarith)
  rw [Sk.Lin.linFitBatches, this]
  simp

theorem sum_flatten_map {α : Type} (f : α → ℝ) (ls : List (List α)) : (ls.map (fun l => (l.map f).sum)).sum = (ls.flatten.map f).sum := by
  induction ls with
  | nil => rfl
  | cons l ls ih => rw [List.map_cons, List.sum_cons, ih, List.flatten_cons, List.map_append, List.sum_append]

theorem sum_affine {α : Type} (c R : ℝ) (f : α → ℝ) (l : List α) : (l.map (fun b => c * (f b + R))).sum = c * ((l.map f).sum + l.length * R) := by
  induction l with
  | nil => simp
  | cons a l ih => rw [List.map_cons, List.sum_cons, ih, List.map_cons, List.sum_cons, List.length_cons]; push_cast; ring

theorem shuffle_ok {α : Type} {perm : List ℕ} {rows : List α} (hp : perm.Perm (List.range rows.length)) : ∃ rs, Sk.Encode.shTransform perm rows = some rs ∧ rs.Perm rows :=
  Sk.Split.swaps_ok (Sk.Encode.shSwaps perm) rows (Sk.Encode.swaps_lt hp)

/-- **C182, the gradients of one epoch.** For the two pairs of loss and activation whose gradient is a matrix product, every data set, parameters, mini-batch size and numbers drawn: no mini-batch
panics, and the gradients of the mini-batches, taken at the same parameters, add up to the gradient of the whole data set plus `(k − 1)/n` times the penalty's part, where `k` is the number of
mini-batches. -/
theorem C182_sum (L : LossKind) (a : Activation) (alpha l1Ratio : ℝ) (skipFirst : Bool) (hd : ByProduct L a) (size : ℕ) (hs : 1 ≤ size) (rows : List (Row p q)) (perm : List ℕ) (hp : perm.Perm (List.range rows.length)) (θ : Mat p q) :
    ∃ rs full, Sk.Encode.shTransform perm rows = some rs ∧ rs.Perm rows ∧ lossGrad L a alpha l1Ratio skipFirst rows.length rows θ = some full ∧
      ∃ gs : List (Mat p q), (Sk.Lin.linFitBatches rows.length size).mapM (fun b => lossGrad L a alpha l1Ratio skipFirst rows.length (block rs b) θ) = some gs ∧ gs.length = (Sk.Lin.linFitBatches rows.length size).length ∧
        ∀ j o, (gs.map (fun g => g j o)).sum = full j o + ((gs.length : ℝ) - 1) / rows.length * penalty L alpha l1Ratio skipFirst θ j o := by
  obtain ⟨rs, hrs, hperm⟩ := shuffle_ok (α := Row p q) hp
  set f : List (Row p q) → Mat p q := fun rows' j o => (1 / (rows.length : ℝ)) * ((rows'.map (fun r => term L a r θ j o)).sum + penalty L alpha l1Ratio skipFirst θ j o) with hf
  have hg : ∀ rows' : List (Row p q), lossGrad L a alpha l1Ratio skipFirst rows.length rows' θ = some (f rows') := fun rows' => by
    rw [lossGrad, if_pos (direct_iff.2 hd)]
  have hm : ∀ l : List (ℕ × ℕ), l.mapM (fun b => lossGrad L a alpha l1Ratio skipFirst rows.length (block rs b) θ) = some (l.map (fun b => f (block rs b))) := by
    intro l
    induction l with
    | nil => rfl
    | cons b l ih => rw [List.mapM_cons, ih, hg]; rfl
  refine ⟨rs, f rows, hrs, hperm, hg rows, _, hm _, by rw [List.length_map], ?_⟩
  intro j o
  rw [List.map_map, List.length_map]
  set bs := Sk.Lin.linFitBatches rows.length size with hbs
  show (bs.map (fun b => (1 / (rows.length : ℝ)) * (((block rs b).map (fun r => term L a r θ j o)).sum + penalty L alpha l1Ratio skipFirst θ j o))).sum = _
  rw [sum_affine (1 / (rows.length : ℝ)) (penalty L alpha l1Ratio skipFirst θ j o) (fun b => ((block rs b).map (fun r => term L a r θ j o)).sum) bs]
  have e1 : (bs.map (fun b => ((block rs b).map (fun r => term L a r θ j o)).sum)).sum = (rows.map (fun r => term L a r θ j o)).sum := by
    have := sum_flatten_map (fun r => term L a r θ j o) (bs.map (block rs))
    rw [List.map_map] at this
    rw [show (bs.map (fun b => ((block rs b).map (fun r => term L a r θ j o)).sum)) = bs.map ((fun l => (List.map (fun r => term L a r θ j o) l).sum) ∘ block rs) from rfl, this, hbs, ← hperm.length_eq, blocks rs size hs]
    exact (hperm.map _).sum_eq
  rw [e1, hf]
  ring

/-- For all rows, `SquareLoss` with the identity and `CrossEntropyLoss` with the logistic function give the gradients `squareGrad` and `ceGrad` of the other properties about losses. -/
theorem C182_gradient {n : ℕ} (a : Activation) (alpha l1Ratio : ℝ) (skipFirst : Bool) (X : Fin n → Fin p → ℝ) (Y : Fin n → Fin q → ℝ) (θ : Mat p q) :
    (a.isIdentity = true → a.F = (fun z => z) → lossGrad .square a alpha l1Ratio skipFirst n (List.ofFn (fun i => (X i, Y i))) θ = some (Sk.Lin.squareGrad X Y alpha l1Ratio skipFirst θ)) ∧
    (a.isLogistic = true → a.F = Sk.Lin.logistic → lossGrad .crossEntropy a alpha l1Ratio skipFirst n (List.ofFn (fun i => (X i, Y i))) θ = some (Sk.Lin.ceGrad X Y alpha l1Ratio skipFirst θ)) := by
  constructor
  · intro h1 h2
    rw [lossGrad, if_pos (show direct .square a = true from h1)]
    congr 1
    funext j o
    rw [Sk.Lin.squareGrad, List.map_ofFn, List.sum_ofFn]
    simp only [Function.comp, term, h1, if_true, h2, penalty, lin, Sk.Lin.mulT]
  · intro h1 h2
    rw [lossGrad, if_pos (show direct .crossEntropy a = true from h1)]
    congr 1
    funext j o
    rw [Sk.Lin.ceGrad, List.map_ofFn, List.sum_ofFn]
    simp only [Function.comp, term, h1, if_true, h2, penalty, lin, Sk.Lin.mulT]

/-- **C182, without a penalty** the gradients of the mini-batches add up to the gradient of the whole data set, with nothing left out or counted twice.
Missing for the full claim: penalties, see `C182_penalty_violated`; the other losses and activations, see `C182_panics_violated`; the size of each gradient, see `C182_scale_violated`. -/
theorem C182_sum_partial (L : LossKind) (a : Activation) (alpha l1Ratio : ℝ) (skipFirst : Bool) (hd : ByProduct L a) (ha : alpha ≤ 0) (size : ℕ) (hs : 1 ≤ size) (rows : List (Row p q)) (perm : List ℕ) (hp : perm.Perm (List.range rows.length)) (θ : Mat p q) :
    ∃ rs full gs, Sk.Encode.shTransform perm rows = some rs ∧ lossGrad L a alpha l1Ratio skipFirst rows.length rows θ = some full ∧
      (Sk.Lin.linFitBatches rows.length size).mapM (fun b => lossGrad L a alpha l1Ratio skipFirst rows.length (block rs b) θ) = some gs ∧ ∀ j o, (gs.map (fun g => g j o)).sum = full j o := by
  obtain ⟨rs, full, h1, -, h2, gs, h3, -, h4⟩ := C182_sum L a alpha l1Ratio skipFirst hd size hs rows perm hp θ
  refine ⟨rs, full, gs, h1, h2, h3, fun j o => ?_⟩
  have h0 : penalty L alpha l1Ratio skipFirst θ j o = 0 := by
    unfold penalty
    exact if_neg (not_lt.2 ha)
  rw [h4, h0, mul_zero, add_zero]

/-- **C182 violated, penalties.** With two mini-batches or more, wherever the penalty has a part in the gradient at all, the gradients of an epoch do not add up to the gradient of the data set:
the penalty is counted once per mini-batch. -/
theorem C182_penalty_violated (L : LossKind) (a : Activation) (alpha l1Ratio : ℝ) (skipFirst : Bool) (hd : ByProduct L a) (size : ℕ) (hs : 1 ≤ size) (rows : List (Row p q)) (perm : List ℕ) (hp : perm.Perm (List.range rows.length)) (θ : Mat p q)
    (hk : 2 ≤ (Sk.Lin.linFitBatches rows.length size).length) (j : Fin p) (o : Fin q) (hR : penalty L alpha l1Ratio skipFirst θ j o ≠ 0) :
    ∃ rs full gs, Sk.Encode.shTransform perm rows = some rs ∧ lossGrad L a alpha l1Ratio skipFirst rows.length rows θ = some full ∧
      (Sk.Lin.linFitBatches rows.length size).mapM (fun b => lossGrad L a alpha l1Ratio skipFirst rows.length (block rs b) θ) = some gs ∧ (gs.map (fun g => g j o)).sum ≠ full j o := by
  obtain ⟨rs, full, h1, -, h2, gs, h3, h5, h4⟩ := C182_sum L a alpha l1Ratio skipFirst hd size hs rows perm hp θ
  refine ⟨rs, full, gs, h1, h2, h3, ?_⟩
  rw [h4]
  have hn : rows.length ≠ 0 := by
    intro h0
    rw [h0] at hk
    simp [Sk.Lin.linFitBatches, Sk.Lin.batches] at hk
  have hn' : (rows.length : ℝ) ≠ 0 := by exact_mod_cast hn
  have hg : (2 : ℝ) ≤ gs.length := by rw [h5]; exact_mod_cast hk
  intro h
  have : ((gs.length : ℝ) - 1) / rows.length * penalty L alpha l1Ratio skipFirst θ j o = 0 := by linarith
  rcases mul_eq_zero.1 this with h | h
  · rw [div_eq_zero_iff] at h
    rcases h with h | h
    · linarith
    · exact hn' h
  · exact hR h

/-- The identity, as `base.Identity`. -/
noncomputable def identity : Activation := ⟨true, false, fun z => z, fun _ => 1⟩

example : ∃ (rows : List (Row 1 1)) (θ : Mat 1 1), [2, 0, 1].Perm (List.range rows.length) ∧ 2 ≤ (Sk.Lin.linFitBatches rows.length 2).length ∧ penalty .square 1 0 false θ 0 0 ≠ 0 ∧ ByProduct .square identity := by
  refine ⟨[(![1], ![2]), (![2], ![3]), (![3], ![4])], ![![1]], by decide, by decide, ?_, Or.inl ⟨rfl, rfl⟩⟩
  simp [penalty, Sk.Lin.regGrad]

/-- **C182 violated, the scale of a mini-batch's gradient.** The gradient that a mini-batch gives is the gradient of the mini-batch's own mean loss times (rows in the mini-batch)/(rows of the data
set), without a penalty: smaller steps for the same learning rate, and different from the mean gradient wherever that is not 0. -/
theorem C182_scale_violated (L : LossKind) (a : Activation) (alpha l1Ratio : ℝ) (skipFirst : Bool) (hd : ByProduct L a) (ha : alpha ≤ 0) (n : ℕ) (batch : List (Row p q)) (hb : batch ≠ []) (hlt : batch.length < n) (θ : Mat p q) :
    ∃ g own, lossGrad L a alpha l1Ratio skipFirst n batch θ = some g ∧ lossGrad L a alpha l1Ratio skipFirst batch.length batch θ = some own ∧ ∀ j o, g j o = batch.length / n * own j o ∧ (own j o ≠ 0 → |g j o| < |own j o|) := by
  have hl : 0 < batch.length := List.length_pos_of_ne_nil hb
  have hl' : (0 : ℝ) < batch.length := by exact_mod_cast hl
  have hn' : (batch.length : ℝ) < n := by exact_mod_cast hlt
  have hn0 : (0 : ℝ) < n := by linarith
  rw [lossGrad, lossGrad, if_pos (direct_iff.2 hd), if_pos (direct_iff.2 hd)]
  refine ⟨_, _, rfl, rfl, fun j o => ?_⟩
  have e : (1 / (n : ℝ)) * ((batch.map (fun r => term L a r θ j o)).sum + penalty L alpha l1Ratio skipFirst θ j o) =
      batch.length / n * ((1 / (batch.length : ℝ)) * ((batch.map (fun r => term L a r θ j o)).sum + penalty L alpha l1Ratio skipFirst θ j o)) := by
    field_simp
  refine ⟨e, fun h => ?_⟩
  have h : 0 < |(1 / (batch.length : ℝ)) * ((batch.map (fun r => term L a r θ j o)).sum + penalty L alpha l1Ratio skipFirst θ j o)| := abs_pos.2 h
  show |(1 / (n : ℝ)) * ((batch.map (fun r => term L a r θ j o)).sum + penalty L alpha l1Ratio skipFirst θ j o)| < _
  rw [e, abs_mul, abs_of_pos (div_pos hl' hn0)]
  have : (batch.length : ℝ) / n < 1 := (div_lt_one hn0).2 hn'
  nlinarith

example : lossGrad .square identity 0 0 false 4 [((![1] : Fin 1 → ℝ), (![0] : Fin 1 → ℝ))] ![![8]] = some (fun _ _ => 2) := by
  simp only [lossGrad, direct, identity, if_true]
  congr 1
  funext j o
  fin_cases j; fin_cases o
  simp [term, penalty, lin, identity]
  norm_num

/-- The first mini-batch. -/
theorem batches_cons (n size : ℕ) (hn : 0 < n) : Sk.Lin.linFitBatches n size = (0, if size > n then n else size) :: Sk.Lin.batches n size n 1 := by
  rw [Sk.Lin.linFitBatches, Sk.Lin.batches, if_pos (by omega)]
  simp

/-- **C182 violated, other losses and activations.** With `LogLoss`, with `SquareLoss` and an activation that is not the identity, and with `CrossEntropyLoss` and an activation that is not logistic,
a call with mini-batches smaller than the data set always panics in its first epoch, whatever the data, the solver and the numbers drawn. -/
theorem C182_panics_violated {S : Type} (L : LossKind) (a : Activation) (alpha l1Ratio : ℝ) (skipFirst : Bool) (J rmse : Mat p q → ℝ) (upd : S → Mat p q → Mat p q → Mat p q × S) (s₀ : S) (requested : ℤ) (nEpochs : ℕ) (tol : ℝ)
    (perms : ℕ → List ℕ) (θ₀ : Mat p q) (rows : List (Row p q)) (hd : ¬ ByProduct L a) (hsz : batchSize rows.length requested < rows.length) (hE : 1 ≤ nEpochs) (hp : (perms 1).Perm (List.range rows.length)) :
    linFit L a alpha l1Ratio skipFirst J rmse upd s₀ requested nEpochs tol perms θ₀ rows = none := by
  obtain ⟨k, rfl⟩ : ∃ k, nEpochs = k + 1 := ⟨nEpochs - 1, by omega⟩
  obtain ⟨rs, hrs, hperm⟩ := shuffle_ok (α := Row p q) hp
  have hstep : epochStep (lossGrad L a alpha l1Ratio skipFirst rows.length) upd (batchSize rows.length requested) rows (perms 1) (θ₀, s₀) = none := by
    rw [epochStep, hrs, Option.bind_some, batches_cons _ _ (by omega), List.foldlM_cons, if_neg (by omega)]
    have : lossGrad L a alpha l1Ratio skipFirst rows.length ((rs.take (batchSize rows.length requested)).drop 0) θ₀ = none := by
      rw [lossGrad, if_neg (fun h => hd (direct_iff.1 h)), if_pos]
      rw [List.drop_zero, List.length_take, hperm.length_eq]
      omega
    simp only [this]
    rfl
  rw [linFit, epochs, hstep]
  rfl

/-- The default size of the mini-batches is smaller than the data set, as soon as this has two rows: `LinFit` with a solver, the default size and one of those losses always panics. -/
theorem C182_default_size (n : ℕ) (requested : ℤ) (hr : requested ≤ 0) (hn : 2 ≤ n) : batchSize n requested < n ∧ 1 ≤ batchSize n requested ∧ batchSize n requested ≤ 100 ∧ batchSize n requested ^ 2 ≤ n := by
  have h1 : 1 ≤ Nat.sqrt n := Nat.le_sqrt.2 (by omega)
  have h2 : Nat.sqrt n * Nat.sqrt n ≤ n := Nat.sqrt_le n
  have h3 : Nat.sqrt n < n := Nat.sqrt_lt_self (by omega)
  have e : batchSize n requested = min 100 (Nat.sqrt n) := by
    rw [batchSize, if_neg (by omega)]
    omega
  rw [e]
  refine ⟨by omega, by omega, by omega, ?_⟩
  have : min 100 (Nat.sqrt n) ≤ Nat.sqrt n := Nat.min_le_right _ _
  nlinarith

/-- **C182, one mini-batch.** With a mini-batch size of at least the number of rows, every loss and activation: an epoch is one update with the gradient of the whole data set, whatever the numbers
drawn (the order of the rows does not matter).
Missing for the full claim: what `C182_penalty_violated`, `C182_scale_violated`, `C182_panics_violated`, `C182_rmse_violated` and others refute. -/
theorem C182_full_batch_partial {S : Type} (L : LossKind) (a : Activation) (alpha l1Ratio : ℝ) (skipFirst : Bool) (upd : S → Mat p q → Mat p q → Mat p q × S) (requested : ℤ) (rows : List (Row p q)) (hn : rows ≠ []) (hr : (rows.length : ℤ) ≤ requested)
    (perm : List ℕ) (hp : perm.Perm (List.range rows.length)) (st : Mat p q × S) :
    ∃ full, lossGrad L a alpha l1Ratio skipFirst rows.length rows st.1 = some full ∧ epochStep (lossGrad L a alpha l1Ratio skipFirst rows.length) upd (batchSize rows.length requested) rows perm st = some (upd st.2 st.1 full) := by
  have hl : 0 < rows.length := List.length_pos_of_ne_nil hn
  obtain ⟨rs, hrs, hperm⟩ := shuffle_ok (α := Row p q) hp
  have hsz : batchSize rows.length requested = rows.length := by
    rw [batchSize, if_pos (by omega)]
    omega
  have hb : Sk.Lin.linFitBatches rows.length rows.length = [(0, rows.length)] := by
    rw [batches_cons _ _ hl, if_neg (by omega)]
    obtain ⟨m, hm⟩ : ∃ m, rows.length = m + 1 := ⟨rows.length - 1, by omega⟩
    rw [hm, Sk.Lin.batches, if_neg (by omega)]
  set full : Mat p q := fun j o => (1 / (rows.length : ℝ)) * ((rows.map (fun r => term L a r st.1 j o)).sum + penalty L alpha l1Ratio skipFirst st.1 j o) with hfull
  have hg : ∀ rs' : List (Row p q), rs'.Perm rows → lossGrad L a alpha l1Ratio skipFirst rows.length rs' st.1 = some full := by
    intro rs' h
    have es : ∀ j o, (rs'.map (fun r => term L a r st.1 j o)).sum = (rows.map (fun r => term L a r st.1 j o)).sum := fun j o => (h.map _).sum_eq
    rw [lossGrad]
    by_cases hd : direct L a = true
    · rw [if_pos hd, hfull]
      simp only [es]
    · rw [if_neg hd, if_neg (by rw [h.length_eq]; omega), List.take_of_length_le (by rw [h.length_eq]), hfull]
      simp only [es]
  refine ⟨full, hg rows (List.Perm.refl _), ?_⟩
  rw [epochStep, hrs, Option.bind_some, hsz, hb, List.foldlM_cons]
  rw [show ((rs.take (0, rows.length).2).drop (0, rows.length).1) = rs from by simp [← hperm.length_eq], hg rs hperm]
  rfl

example : batchSize 3 5 = 3 ∧ batchSize 3 0 = 1 ∧ batchSize 50 (-1) = 7 ∧ batchSize 1000000 0 = 100 ∧ batchSize 1 0 = 1 := by decide +kernel

/-! ### What is reported -/

/-- The states after the epochs `e, …, e + k − 1` that are run. -/
inductive Ran {S : Type} (step : ℕ → Mat p q × S → Option (Mat p q × S)) : ℕ → Mat p q × S → List (Mat p q × S) → Prop where
  | nil (e : ℕ) (st : Mat p q × S) : Ran step e st []
  | cons (e : ℕ) (st st' : Mat p q × S) (l : List (Mat p q × S)) : step e st = some st' → Ran step (e + 1) st' l → Ran step e st (st' :: l)

/-- What the result says about the parameters `best` (`none`: none yet). -/
def Reports (J : Mat p q → ℝ) (r : Res p q) (best : Option (Mat p q)) : Prop :=
  match best with
  | none => r.J = none
  | some t => r.J = some (J t) ∧ r.theta = t

theorem epochs_spec {S : Type} (step : ℕ → Mat p q × S → Option (Mat p q × S)) (J rmse : Mat p q → ℝ) (tol : ℝ) (k : ℕ) : ∀ (e : ℕ) (st : Mat p q × S) (r res : Res p q) (seen : List (Mat p q)) (best : Option (Mat p q)),
    Reports J r best → (best = none → seen = []) → (∀ t, best = some t → t ∈ seen ∧ ∀ u ∈ seen, J t ≤ J u) → epochs step J rmse tol k e st r = some res →
    ∃ l, Ran step e st l ∧ l.length ≤ k ∧ res.epoch = e + l.length ∧
      (l = [] → k = 0 ∧ res.rmse = r.rmse ∧ res.converged = r.converged ∧ res.J = r.J ∧ res.theta = r.theta) ∧
      (∀ st', l.getLast? = some st' → res.rmse = some (rmse st'.1) ∧ res.converged = decide (Real.sqrt (rmse st'.1) < tol) ∧ (l.length < k → res.converged = true) ∧
        ∃ t ∈ seen ++ l.map Prod.fst, res.J = some (J t) ∧ res.theta = t ∧ ∀ u ∈ seen ++ l.map Prod.fst, J t ≤ J u) := by
  induction k with
  | zero =>
    intro e st r res seen best hR hb hb' h
    rw [epochs] at h
    obtain rfl := Option.some.inj h
    exact ⟨[], Ran.nil e st, le_refl _, rfl, fun _ => ⟨rfl, rfl, rfl, rfl, rfl⟩, fun st' h => by simp at h⟩
  | succ k ih =>
    intro e st r res seen best hR hb hb' h
    rw [epochs] at h
    cases hst : step e st with
    | none => rw [hst] at h; simp at h
    | some st' =>
      rw [hst, Option.bind_some] at h
      set better : Bool := match r.J with
        | none => true
        | some b => decide (J st'.1 < b) with hbet
      set best' : Mat p q := if better then st'.1 else r.theta with hbest'
      set r' : Res p q := ⟨decide (Real.sqrt (rmse st'.1) < tol), some (rmse st'.1), if better then some (J st'.1) else r.J, e, if better then st'.1 else r.theta⟩ with hr'
      have key : r'.J = some (J best') ∧ r'.theta = best' ∧ best' ∈ seen ++ [st'.1] ∧ ∀ u ∈ seen ++ [st'.1], J best' ≤ J u := by
        cases best with
        | none =>
          have hJ : r.J = none := hR
          have hs : seen = [] := hb rfl
          have : better = true := by rw [hbet, hJ]
          simp only [hr', hbest', this, if_true, hs]
          exact ⟨trivial, trivial, by simp, by simp⟩
        | some t =>
          obtain ⟨hJ, ht⟩ : r.J = some (J t) ∧ r.theta = t := hR
          obtain ⟨hm, hle⟩ := hb' t rfl
          have hbe : better = decide (J st'.1 < J t) := by rw [hbet, hJ]
          by_cases hlt : J st'.1 < J t
          · have : better = true := by rw [hbe]; exact decide_eq_true hlt
            simp only [hr', hbest', this, if_true]
            refine ⟨trivial, trivial, by simp, fun u hu => ?_⟩
            rcases List.mem_append.1 hu with hu | hu
            · exact le_trans (le_of_lt hlt) (hle u hu)
            · rw [List.mem_singleton.1 hu]
          · have : better = false := by rw [hbe]; exact decide_eq_false hlt
            simp only [hr', hbest', this, Bool.false_eq_true, if_false, hJ, ht]
            refine ⟨trivial, trivial, List.mem_append_left _ hm, fun u hu => ?_⟩
            rcases List.mem_append.1 hu with hu | hu
            · exact hle u hu
            · rw [List.mem_singleton.1 hu]; exact not_lt.1 hlt
      obtain ⟨k1, k2, k3, k4⟩ := key
      by_cases hc : Real.sqrt (rmse st'.1) < tol
      · have h' : some { r' with epoch := e + 1 } = some res := by
          rw [← h]
          simp only [decide_eq_true hc, if_true, hr']
          rfl
        obtain rfl := Option.some.inj h'
        refine ⟨[st'], Ran.cons e st st' [] hst (Ran.nil _ _), by simp, rfl, fun h => by simp at h, ?_⟩
        intro st'' hl
        obtain rfl : st' = st'' := by simpa using hl
        exact ⟨rfl, rfl, fun _ => decide_eq_true hc, best', k3, k1, k2, k4⟩
      · have h' : epochs step J rmse tol k (e + 1) st' r' = some res := by
          rw [← h]
          simp only [decide_eq_false hc, Bool.false_eq_true, if_false, hr']
          rfl
        obtain ⟨l, l1, l2, l3, l4, l5⟩ := ih (e + 1) st' r' res (seen ++ [st'.1]) (some best') ⟨k1, k2⟩ (fun h => by simp at h)
          (fun t ht => by obtain rfl := Option.some.inj ht; exact ⟨k3, k4⟩) h'
        refine ⟨st' :: l, Ran.cons e st st' l hst l1, by simp only [List.length_cons]; omega, by rw [l3, List.length_cons]; omega, fun h => by simp at h, ?_⟩
        intro st'' hl
        cases l with
        | nil =>
          obtain rfl : st' = st'' := by simpa using hl
          obtain ⟨m0, m1, m2, m3, m4⟩ := l4 rfl
          exact ⟨m1, m2, fun hh => by simp [m0] at hh, best', by simpa using k3, m3.trans k1, m4.trans k2, by simpa using k4⟩
        | cons s l =>
          obtain ⟨m1, m2, m3, t, m4, m5, m6, m7⟩ := l5 st'' (by simpa using hl)
          refine ⟨m1, m2, fun hh => m3 (by simp only [List.length_cons] at hh ⊢; omega), t, ?_, m5, m6, ?_⟩
          · simpa using m4
          · simpa using m7

/-- **C182, the result.** Whenever `LinFit` with a solver returns after running epochs, the epochs run are those up to the first that passes the convergence test, at most `Epochs`; the loss and the
parameters returned are those of an epoch with the smallest loss; `RMSE` and `Converged` are those of the last epoch; and `Epoch` is one more than the number of epochs run.
Missing for the full claim: `RMSE` and `Converged` of the returned parameters, see `C182_rmse_violated`; the tolerance, see `C182_tolerance_violated`. -/
theorem C182_result_partial {S : Type} (L : LossKind) (a : Activation) (alpha l1Ratio : ℝ) (skipFirst : Bool) (J rmse : Mat p q → ℝ) (upd : S → Mat p q → Mat p q → Mat p q × S) (s₀ : S) (requested : ℤ) (nEpochs : ℕ) (tol : ℝ)
    (perms : ℕ → List ℕ) (θ₀ : Mat p q) (rows : List (Row p q)) (hE : 1 ≤ nEpochs) (res : Res p q) (h : linFit L a alpha l1Ratio skipFirst J rmse upd s₀ requested nEpochs tol perms θ₀ rows = some res) :
    ∃ (l : List (Mat p q × S)) (last : Mat p q × S), Ran (fun e => epochStep (lossGrad L a alpha l1Ratio skipFirst rows.length) upd (batchSize rows.length requested) rows (perms e)) 1 (θ₀, s₀) l ∧ l.getLast? = some last ∧ l.length ≤ nEpochs ∧
      (l.length < nEpochs → res.converged = true) ∧ res.epoch = l.length + 1 ∧ res.rmse = some (rmse last.1) ∧ res.converged = decide (Real.sqrt (rmse last.1) < tol) ∧
      res.J = some (J res.theta) ∧ res.theta ∈ l.map Prod.fst ∧ ∀ st ∈ l, J res.theta ≤ J st.1 := by
  rw [linFit] at h
  obtain ⟨l, h1, h2, h3, h4, h5⟩ := epochs_spec _ J rmse tol nEpochs 1 (θ₀, s₀) ⟨false, none, none, 1, fun _ _ => 0⟩ res [] none (show (none : Option ℝ) = none from rfl) (fun _ => rfl) (fun t ht => by simp at ht) h
  cases hl : l.getLast? with
  | none =>
    have := h4 (List.getLast?_eq_none_iff.1 hl)
    omega
  | some last =>
    obtain ⟨m1, m2, m3, t, m4, m5, m6, m7⟩ := h5 last hl
    refine ⟨l, last, h1, hl, h2, m3, by omega, m1, m2, ?_, ?_, ?_⟩
    · rw [m6]; exact m5
    · rw [m6]; simpa using m4
    · intro st hst
      rw [m6]
      exact m7 st.1 (by simpa using ⟨st.2, hst⟩)

/-- The mean squared error behind `RMSE` and the loss of `SquareLoss` without penalty differ by a factor only. -/
theorem rmse_of_J (a : Activation) (rows : List (Row p q)) (θ : Mat p q) : rmseOf a rows θ = Real.sqrt (2 * squareJ a rows θ / q) := by
  have e : (∑ o, (rows.map (fun r => (a.F (lin r θ o) - r.2 o) * (a.F (lin r θ o) - r.2 o))).sum / (rows.length : ℝ)) = 2 * squareJ a rows θ := by
    rw [← Finset.sum_div, squareJ]
    have : ∀ l : List (Row p q), (∑ o, (l.map (fun r => (a.F (lin r θ o) - r.2 o) * (a.F (lin r θ o) - r.2 o))).sum) = (l.map (fun r => ∑ o, (a.F (lin r θ o) - r.2 o) * (a.F (lin r θ o) - r.2 o))).sum := by
      intro l
      induction l with
      | nil => simp
      | cons r l ih => simp only [List.map_cons, List.sum_cons, Finset.sum_add_distrib, ih]
    rw [this]
    by_cases hn : (rows.length : ℝ) = 0
    · rw [hn]; simp
    · field_simp
  rw [rmseOf, e]

theorem squareJ_nonneg (a : Activation) (rows : List (Row p q)) (θ : Mat p q) : 0 ≤ squareJ a rows θ := by
  unfold squareJ
  apply div_nonneg
  · apply List.sum_nonneg
    intro x hx
    obtain ⟨r, -, rfl⟩ := List.mem_map.1 hx
    exact Finset.sum_nonneg (fun o _ => mul_self_nonneg _)
  · positivity

/-- **C182 violated, `RMSE`.** With `SquareLoss` without penalty, whenever the last epoch run is not one of the best, the `RMSE` in the result is strictly larger than the root mean squared error of
the predictions of the parameters in the same result. -/
theorem C182_rmse_violated {S : Type} (a : Activation) (l1Ratio : ℝ) (skipFirst : Bool) (upd : S → Mat p q → Mat p q → Mat p q × S) (s₀ : S) (requested : ℤ) (nEpochs : ℕ) (tol : ℝ) (perms : ℕ → List ℕ) (θ₀ : Mat p q) (rows : List (Row p q))
    (hE : 1 ≤ nEpochs) (hq : 0 < q) (res : Res p q) (h : linFit .square a 0 l1Ratio skipFirst (squareJ a rows) (rmseOf a rows) upd s₀ requested nEpochs tol perms θ₀ rows = some res) :
    ∃ l last x, Ran (fun e => epochStep (lossGrad .square a 0 l1Ratio skipFirst rows.length) upd (batchSize rows.length requested) rows (perms e)) 1 (θ₀, s₀) l ∧ l.length + 1 = res.epoch ∧ l.getLast? = some last ∧ res.rmse = some x ∧
      ((∃ st ∈ l, squareJ a rows st.1 < squareJ a rows last.1) → rmseOf a rows res.theta < x) := by
  obtain ⟨l, last, h1, h2, -, -, h5, h6, -, -, -, h9⟩ := C182_result_partial .square a 0 l1Ratio skipFirst (squareJ a rows) (rmseOf a rows) upd s₀ requested nEpochs tol perms θ₀ rows hE res h
  refine ⟨l, last, _, h1, h5.symm, h2, h6, ?_⟩
  rintro ⟨st, hst, hlt⟩
  have := h9 st hst
  have hq' : (0 : ℝ) < q := by exact_mod_cast hq
  rw [rmse_of_J, rmse_of_J]
  apply Real.sqrt_lt_sqrt
  · exact div_nonneg (mul_nonneg (by norm_num) (squareJ_nonneg _ _ _)) hq'.le
  · apply div_lt_div_of_pos_right _ hq'
    linarith

/-- Gradient descent with rate 3 on the sample (1, 0) starting at 1 goes to -2 and then to 4: two epochs return -2, whose error is 2, with `RMSE` 4. -/
example : ∃ res : Res 1 1, linFit .square identity 0 0 false (squareJ identity [(![1], ![0])]) (rmseOf identity [(![1], ![0])]) (fun (_ : Unit) θ g => (fun j o => θ j o - 3 * g j o, ())) () 0 2 0 (fun _ => [0]) ![![1]] [(![1], ![0])] = some res ∧
    res.rmse = some 4 ∧ res.theta = (fun _ _ => -2) ∧ rmseOf identity [(![1], ![0])] res.theta = 2 := by
  have hg : ∀ θ : Mat 1 1, lossGrad .square identity 0 0 false 1 [((![1] : Fin 1 → ℝ), (![0] : Fin 1 → ℝ))] θ = some (fun _ _ => θ 0 0) := by
    intro θ
    simp only [lossGrad, direct, identity, if_true]
    congr 1
    funext j o
    fin_cases j; fin_cases o
    simp [term, penalty, lin, identity]
  have hstep : ∀ st : Mat 1 1 × Unit, epochStep (lossGrad .square identity 0 0 false 1) (fun (_ : Unit) θ g => (fun j o => θ j o - 3 * g j o, ())) (batchSize 1 0) [((![1] : Fin 1 → ℝ), (![0] : Fin 1 → ℝ))] [0] st = some (fun _ _ => -2 * st.1 0 0, ()) := by
    intro st
    have hb : batchSize 1 0 = 1 := by decide +kernel
    rw [hb, epochStep, show Sk.Encode.shTransform [0] [((![1] : Fin 1 → ℝ), (![0] : Fin 1 → ℝ))] = some [((![1] : Fin 1 → ℝ), (![0] : Fin 1 → ℝ))] from rfl, Option.bind_some,
      show Sk.Lin.linFitBatches [((![1] : Fin 1 → ℝ), (![0] : Fin 1 → ℝ))].length 1 = [(0, 1)] from rfl, List.foldlM_cons]
    simp only [List.take_succ_cons, List.take_nil, List.take_zero, List.drop_zero, hg, Option.map_some]
    refine congrArg some (Prod.ext ?_ rfl)
    funext j o
    fin_cases j; fin_cases o
    show st.1 0 0 - 3 * st.1 0 0 = -2 * st.1 0 0
    ring
  have hr : ∀ θ : Mat 1 1, rmseOf identity [((![1] : Fin 1 → ℝ), (![0] : Fin 1 → ℝ))] θ = |θ 0 0| := by
    intro θ
    rw [← Real.sqrt_sq_eq_abs]
    simp [rmseOf, lin, identity, sq]
  have hJ : ∀ θ : Mat 1 1, squareJ identity [((![1] : Fin 1 → ℝ), (![0] : Fin 1 → ℝ))] θ = θ 0 0 ^ 2 / 2 := by
    intro θ
    simp [squareJ, lin, identity, sq]
  have hc : ∀ x : ℝ, ¬ Real.sqrt x < 0 := fun x => not_lt.2 (Real.sqrt_nonneg x)
  refine ⟨⟨false, some 4, some 2, 3, fun _ _ => -2⟩, ?_, rfl, rfl, ?_⟩
  · simp only [linFit, List.length_singleton, epochs, hstep, Option.bind_some, hr, hJ, hc, decide_false, Bool.false_eq_true, if_false, if_true]
    norm_num
  · rw [hr]
    norm_num

/-- **C182 violated, `Tol`.** A call has converged when the square root of the root mean squared error is below `Tol`: for every `Tol` between 0 and 1 and every error between `Tol²` and `Tol`, an
epoch whose error is below `Tol` does not end the fit and is not reported as converged. -/
theorem C182_tolerance_violated {S : Type} (step : ℕ → Mat p q × S → Option (Mat p q × S)) (J rmse : Mat p q → ℝ) (tol : ℝ) (e : ℕ) (st st' : Mat p q × S) (r res : Res p q) (hst : step e st = some st')
    (h0 : 0 < tol) (h1 : rmse st'.1 < tol) (h2 : tol ^ 2 ≤ rmse st'.1) (h : epochs step J rmse tol 1 e st r = some res) : res.rmse = some (rmse st'.1) ∧ rmse st'.1 < tol ∧ res.converged = false := by
  have hc : ¬ Real.sqrt (rmse st'.1) < tol := by
    rw [not_lt]
    exact Real.le_sqrt_of_sq_le h2
  rw [epochs, hst, Option.bind_some] at h
  simp only [decide_eq_false hc, Bool.false_eq_true, if_false, epochs] at h
  obtain rfl := Option.some.inj h
  exact ⟨rfl, h1, rfl⟩

example : (0 : ℝ) < 1 / 2 ∧ (3 / 10 : ℝ) < 1 / 2 ∧ (1 / 2 : ℝ) ^ 2 ≤ 3 / 10 := by norm_num

/-- **C182 violated, no epoch.** With `Epochs` not set, a data set of more than a million rows gets no epoch at all: the result has infinite loss and error, zero parameters, and `Epoch` 1. -/
theorem C182_no_epoch_violated {S : Type} (L : LossKind) (a : Activation) (alpha l1Ratio : ℝ) (skipFirst : Bool) (J rmse : Mat p q → ℝ) (upd : S → Mat p q → Mat p q → Mat p q × S) (s₀ : S) (requested : ℤ) (tol : ℝ)
    (perms : ℕ → List ℕ) (θ₀ : Mat p q) (rows : List (Row p q)) (hn : 1000000 < rows.length) (o : Opts) (ho : o.epochs ≤ 0) (hm : o.method = none) (hs : o.solver ∈ solvers) :
    (linFitOpts rows.length o).map Prod.fst = some (.solver o.solver 0) ∧ linFit L a alpha l1Ratio skipFirst J rmse upd s₀ requested 0 tol perms θ₀ rows = some ⟨false, none, none, 1, fun _ _ => 0⟩ := by
  have hne : o.solver ≠ "" := by
    intro h
    rw [h] at hs
    revert hs
    decide
  have hz : (1000000 : ℤ) / (rows.length : ℤ) = 0 := Int.ediv_eq_zero_of_lt (by norm_num) (by exact_mod_cast hn)
  refine ⟨?_, rfl⟩
  rw [linFitOpts, if_neg (fun h => hne h.2)]
  simp only [hm, if_pos hs, if_pos ho, Option.map_some, hz]

/-! ### C183 -/

/-- **C183, which algorithm is run.** A gonum method given by the caller is used whatever `Solver` says; without one the solver named is used, with 10⁶/n epochs if none are asked for, and an unknown
name panics; without either, LBFGS is used. -/
theorem C183_route (n : ℕ) (o : Opts) :
    (∀ m, o.method = some m → (linFitOpts n o).map Prod.fst = some (.gonum m (if o.epochs ≤ 0 then 4000000 / n else o.epochs) true)) ∧
    (o.method = none → o.solver = "" → (linFitOpts n o).map Prod.fst = some (.gonum .lbfgs (if o.epochs ≤ 0 then 4000000 / n else o.epochs) true)) ∧
    (o.method = none → o.solver ∈ ["sgd", "adagrad", "rmsprop", "adadelta", "adam"] → (linFitOpts n o).map Prod.fst = some (.solver o.solver (if o.epochs ≤ 0 then 1000000 / n else o.epochs))) ∧
    (o.method = none → o.solver ∉ ["", "sgd", "adagrad", "rmsprop", "adadelta", "adam"] → linFitOpts n o = none) := by
  refine ⟨?_, ?_, ?_, ?_⟩
  · intro m hm
    rw [linFitOpts, if_neg (by simp [hm])]
    simp only [hm]
    rfl
  · intro hm hs
    rw [linFitOpts, if_pos ⟨hm, hs⟩]
    rfl
  · intro hm hs
    have hne : o.solver ≠ "" := by
      intro h
      rw [h] at hs
      revert hs
      decide
    rw [linFitOpts, if_neg (fun h => hne h.2)]
    simp only [hm]
    rw [if_pos (show o.solver ∈ solvers from hs)]
    rfl
  · intro hm hs
    rw [List.mem_cons, not_or] at hs
    rw [linFitOpts, if_neg (fun h => hs.1 h.2)]
    simp only [hm]
    rw [if_neg (show o.solver ∉ solvers from hs.2)]

/-- **C183, repeated calls.** Options with a method or a known solver and with positive `Epochs` choose the same for every later call, however the data differ in size.
Missing for the full claim: options left at their defaults, see `C183_sticky_method_violated` and `C183_sticky_epochs_violated`. -/
theorem C183_again_partial (n m : ℕ) (o o' : Opts) (r : Route) (he : 0 < o.epochs) (h : linFitOpts n o = some (r, o')) : linFitOpts m o' = some (r, o') ∧ o'.epochs = o.epochs ∧ o'.solver = o.solver := by
  have hne : ¬ o.epochs ≤ 0 := by omega
  rw [linFitOpts] at h
  by_cases hc : o.method = none ∧ o.solver = ""
  · rw [if_pos hc] at h
    simp only [gomOpts, if_neg hne] at h
    obtain ⟨rfl, rfl⟩ := Prod.mk.inj (Option.some.inj h)
    refine ⟨?_, rfl, rfl⟩
    rw [linFitOpts, if_neg (by simp)]
    simp only [gomOpts, if_neg hne]
  · rw [if_neg hc] at h
    cases hm : o.method with
    | some mm =>
      simp only [hm, gomOpts, if_neg hne] at h
      obtain ⟨rfl, rfl⟩ := Prod.mk.inj (Option.some.inj h)
      refine ⟨?_, rfl, rfl⟩
      rw [linFitOpts, if_neg (by simp [hm])]
      simp only [hm, gomOpts, if_neg hne]
    | none =>
      simp only [hm] at h
      by_cases hs : o.solver ∈ solvers
      · rw [if_pos hs] at h
        simp only [if_neg hne] at h
        obtain ⟨rfl, rfl⟩ := Prod.mk.inj (Option.some.inj h)
        refine ⟨?_, rfl, rfl⟩
        rw [linFitOpts, if_neg (by simpa using fun h => hc ⟨hm, h⟩)]
        simp only [hm, if_pos hs, if_neg hne]
      · rw [if_neg hs] at h
        simp at h

/-- **C183 violated, the solver of a later call.** After a call with options that name neither a method nor a solver, the same options with `Solver` set to any name still run LBFGS, even when the
name is unknown and would otherwise panic. -/
theorem C183_sticky_method_violated (n m : ℕ) (o : Opts) (hm : o.method = none) (hs : o.solver = "") (name : String) (hname : name ≠ "") :
    ∃ r o', linFitOpts n o = some (r, o') ∧ (∃ e, (linFitOpts m { o' with solver := name }).map Prod.fst = some (.gonum .lbfgs e true)) ∧ ∀ e b, (linFitOpts m { o with solver := name }).map Prod.fst ≠ some (.gonum .lbfgs e b) := by
  refine ⟨_, _, by rw [linFitOpts, if_pos ⟨hm, hs⟩], ⟨_, by rw [linFitOpts, if_neg (by simp [gomOpts])]; exact rfl⟩, ?_⟩
  intro e b
  rw [linFitOpts, if_neg (by simp [hname])]
  simp only [hm]
  split
  · simp
  · simp

/-- **C183 violated, the epochs of a later call.** After a call with a solver and `Epochs` not set, the same options run, on data of another size, the number of epochs chosen for the first data. -/
theorem C183_sticky_epochs_violated (n m : ℕ) (o : Opts) (hm : o.method = none) (hs : o.solver ∈ solvers) (he : o.epochs ≤ 0) (hn : 0 < n) (hn' : n ≤ 1000000) (hd : (1000000 : ℤ) / n ≠ 1000000 / m) :
    ∃ r o', linFitOpts n o = some (r, o') ∧ (linFitOpts m o').map Prod.fst = some (.solver o.solver (1000000 / n)) ∧ (linFitOpts m o).map Prod.fst = some (.solver o.solver (1000000 / m)) ∧
      (linFitOpts m o').map Prod.fst ≠ (linFitOpts m o).map Prod.fst := by
  have hne : o.solver ≠ "" := by
    intro h
    rw [h] at hs
    revert hs
    decide
  have hpos : ¬ (1000000 : ℤ) / n ≤ 0 := by
    have h1 : (0 : ℤ) < n := by exact_mod_cast hn
    have h2 : (1 : ℤ) ≤ 1000000 / n := by
      rw [Int.le_ediv_iff_mul_le h1]
      have : (n : ℤ) ≤ 1000000 := by exact_mod_cast hn'
      omega
    omega
  have e1 : ∀ k : ℕ, linFitOpts k o = some (.solver o.solver (1000000 / k), { o with epochs := 1000000 / k }) := by
    intro k
    rw [linFitOpts, if_neg (fun h => hne h.2)]
    simp only [hm, if_pos hs, if_pos he]
  have e2 : (linFitOpts m { o with epochs := 1000000 / (n : ℤ) }).map Prod.fst = some (.solver o.solver (1000000 / n)) := by
    rw [linFitOpts, if_neg (fun h => hne h.2)]
    simp only [hm, if_pos hs, if_neg hpos, Option.map_some]
  refine ⟨_, _, e1 n, e2, by rw [e1 m]; rfl, ?_⟩
  rw [e2, e1 m]
  simpa using hd

example : (1000000 : ℤ) / (100 : ℕ) ≠ 1000000 / (10 : ℕ) ∧ linFitOpts 100 ⟨0, "adam", none, false⟩ = some (.solver "adam" 10000, ⟨10000, "adam", none, false⟩) := ⟨by decide, rfl⟩

example : linFitOpts 10 ⟨5, "adam", none, false⟩ = some (.solver "adam" 5, ⟨5, "adam", none, false⟩) ∧ linFitOpts 10 ⟨5, "", none, false⟩ = some (.gonum .lbfgs 5 true, ⟨5, "", some .lbfgs, true⟩) ∧ linFitOpts 10 ⟨5, "x", none, false⟩ = none :=
  ⟨rfl, rfl, rfl⟩

end Sk.LinFit
