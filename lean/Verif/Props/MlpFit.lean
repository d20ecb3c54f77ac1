import Verif.Model.MlpFit
import Verif.Lemmas.Label
import Verif.Lemmas.Matrix
import Verif.Lemmas.ListX
import Verif.Props.Mlp
import Verif.Props.Datasets
import Mathlib.Data.List.Range
import Mathlib.Algebra.BigOperators.Fin
import Mathlib.Tactic.Tauto
import Mathlib.Algebra.Order.Ring.Rat
import Mathlib.Tactic.Linarith
import Mathlib.Tactic.Ring
import Mathlib.Tactic.FieldSimp

/-! # C135-C141: the multilayer perceptron as seen by the caller -/
set_option autoImplicit false

namespace Sk.MlpFit
open Sk.Mlp (maxIdx toLogits lbInverse)

/-! ### C135: layout of the parameters -/

/-- Positions in the packed vector of the parameters of a layer. -/
def View.positions (v : View) : List ℕ := List.range' v.iOff v.iLen ++ List.range' v.cOff (v.rows * v.cols)

theorem views_cover (us : List ℕ) : ∀ off, (views off us).flatMap View.positions = List.range' off (packedLen us) := by
  induction us with
  | nil => intro off; rfl
  | cons u us ih =>
    intro off
    cases us with
    | nil => rfl
    | cons v rest =>
      rw [views, packedLen, List.flatMap_cons, ih, View.positions]
      simp only [List.range'_append_1, Nat.add_assoc]
      congr 1
      ring

/-- C135: layer `l` has `units l` × `units (l+1)` coefficients and `units (l+1)` intercepts, and the parameters of all layers fill the packed vector, each position being used once.  The gradients are
laid out by the same loop, so the optimisers, which work on the packed vectors, pair each parameter with its own gradient. -/
theorem C135_layout (us : List ℕ) : (views 0 us).flatMap View.positions = List.range (packedLen us) ∧ (views 0 us).map (fun v => (v.rows, v.cols, v.iLen)) = (us.zip us.tail).map (fun p => (p.1, p.2, p.2)) := by
  constructor
  · rw [views_cover, List.range_eq_range']
  · generalize 0 = off
    induction us generalizing off with
    | nil => rfl
    | cons u us ih =>
      cases us with
      | nil => rfl
      | cons v rest =>
        rw [views, List.map_cons, ih]
        rfl

example : views 0 [3, 2, 1] = [⟨0, 2, 2, 3, 2⟩, ⟨8, 1, 9, 2, 1⟩] ∧ packedLen [3, 2, 1] = 11 := by decide

/-! ### C136: hyperparameters -/

section
variable {K : Type} [Field K] [LinearOrder K] [IsStrictOrderedRing K]

/-- C136: hyperparameters that are numbers are accepted exactly when they are in the documented ranges (layer sizes: not negative) and the names are known.
Missing for the full claim: what `C136_nan_violated`, `C136_softmax_violated` refute. -/
theorem C136_validate_partial (mi ni : ℤ) (a lr mo vf b1 b2 ep : K) (act sched sol : String) (hid : List ℤ) :
    validate ⟨mi, some a, some lr, some mo, some vf, some b1, some b2, some ep, ni, act, sched, sol, hid⟩ = true ↔
      0 < mi ∧ 0 ≤ a ∧ 0 < lr ∧ (0 ≤ mo ∧ mo ≤ 1) ∧ (0 ≤ vf ∧ vf < 1) ∧ (0 ≤ b1 ∧ b1 < 1) ∧ (0 ≤ b2 ∧ b2 < 1) ∧ 0 < ep ∧ 0 < ni ∧
        act ∈ ["identity", "logistic", "tanh", "relu", "softmax"] ∧ sched ∈ ["constant", "invscaling", "adaptive"] ∧ sol ∈ ["sgd", "adam", "lbfgs"] ∧ ∀ s ∈ hid, 0 ≤ s := by
  have pos : ∀ v : K, (!(decide (v < 0) || (some v == some (0 : K)))) = true ↔ 0 < v := by
    intro v
    simp only [Bool.not_eq_true', Bool.or_eq_false_iff, decide_eq_false_iff_not, not_lt, beq_eq_false_iff_ne, ne_eq, Option.some.injEq]
    exact ⟨fun h => lt_of_le_of_ne h.1 (fun e => h.2 e.symm), fun h => ⟨h.le, h.ne'⟩⟩
  have unit : ∀ v : K, (!(decide (v < 0) || decide (v > 1) || (some v == some (1 : K)))) = true ↔ 0 ≤ v ∧ v < 1 := by
    intro v
    simp only [Bool.not_eq_true', Bool.or_eq_false_iff, decide_eq_false_iff_not, not_lt, beq_eq_false_iff_ne, ne_eq, Option.some.injEq, gt_iff_lt]
    exact ⟨fun h => ⟨h.1.1, lt_of_le_of_ne h.1.2 h.2⟩, fun h => ⟨⟨h.1, h.2.le⟩, h.2.ne⟩⟩
  have mom : ∀ v : K, (!(decide (v > 1) || decide (v < 0))) = true ↔ 0 ≤ v ∧ v ≤ 1 := by
    intro v
    simp only [Bool.not_eq_true', Bool.or_eq_false_iff, decide_eq_false_iff_not, not_lt, gt_iff_lt]
    exact and_comm
  have nn : ∀ v : K, (!decide (v < 0)) = true ↔ 0 ≤ v := by
    intro v; simp
  have ip : ∀ v : ℤ, (!decide (v ≤ 0)) = true ↔ 0 < v := by
    intro v; simp
  have hd : (hid.all (fun s => !(decide (s < 0)))) = true ↔ ∀ s ∈ hid, 0 ≤ s := by
    simp [List.all_eq_true]
  simp only [validate, flt, fgt, Bool.and_eq_true, pos, unit, mom, nn, ip, hd, activations, List.contains_iff_mem]
  simp only [and_assoc]

/-- The default hyperparameters of the package. -/
example : validate (K := ℚ) ⟨200, some (1 / 10000), some (1 / 1000), some (9 / 10), some (1 / 10), some (9 / 10), some (999 / 1000), some (1 / 100000000), 10, "relu", "constant", "adam", [100]⟩ = true := by
  decide +kernel

/-- C136, violated: `NaN` passes all range checks. -/
theorem C136_nan_violated (h : Hyper K) (hv : validate h = true) :
    validate (K := K) { h with alpha := none, learningRateInit := none, momentum := none, validationFraction := none, beta1 := none, beta2 := none, epsilon := none } = true := by
  simp only [validate, Bool.and_eq_true] at hv ⊢
  simp only [flt, fgt]
  obtain ⟨⟨⟨⟨⟨⟨⟨⟨⟨⟨⟨⟨h1, -⟩, -⟩, -⟩, -⟩, -⟩, -⟩, -⟩, h2⟩, h3⟩, h4⟩, h5⟩, h6⟩ := hv
  simp only [h1, h2, h3, h4, h5, h6]
  simp

/-- C136, violated: "softmax" is accepted as the activation of hidden layers, although it has no derivative: the first gradient panics. -/
theorem C136_softmax_violated (h : Hyper K) (hv : validate h = true) (hh : h.hidden ≠ []) : validate (K := K) { h with activation := "softmax" } = true ∧ backpropCalls (K := K) { h with activation := "softmax" } = none := by
  constructor
  · simp only [validate, Bool.and_eq_true] at hv ⊢
    obtain ⟨⟨⟨⟨a, -⟩, b⟩, c⟩, d⟩ := hv
    exact ⟨⟨⟨⟨a, by decide⟩, b⟩, c⟩, d⟩
  · rw [backpropCalls, if_neg hh, if_neg]
    simp only [derivatives]
    decide

/-- C136: any other accepted activation has a derivative: the first gradient does not panic on it.
Missing for the full claim: what `C136_nan_violated`, `C136_softmax_violated` refute. -/
theorem C136_derivative_partial (h : Hyper K) (hv : validate h = true) (hs : h.activation ≠ "softmax") : backpropCalls h = some () := by
  simp only [validate, Bool.and_eq_true] at hv
  obtain ⟨⟨⟨⟨-, ha⟩, -⟩, -⟩, -⟩ := hv
  simp only [activations, List.contains_iff_mem, List.mem_cons, List.not_mem_nil, or_false] at ha
  rw [backpropCalls]
  split
  · rfl
  · rw [if_pos]
    simp only [derivatives, List.contains_iff_mem, List.mem_cons, List.not_mem_nil, or_false]
    tauto

end

/-! ### C137: regressors -/

section
variable {K : Type} [Field K] [LinearOrder K] [IsStrictOrderedRing K]

theorem classifier_iff (data : List K) : isClassifierData data = true ↔ ∀ v ∈ data, v = 0 ∨ v = 1 := by
  simp [isClassifierData, List.all_eq_true]

/-- Outputs of one layer for the features `x`: for each column the weighted sum of the features plus the intercept. -/
def layerSpec (W : List (List K)) (b x : List K) : List K := (List.range b.length).map (fun o => (∑ j ∈ Finset.range x.length, x.getD j 0 * (W.getD j []).getD o 0) + b.getD o 0)

/-- Outputs of the network: hidden layers pass through `act`, the last through `out`. -/
def netSpec (act out : List K → List K) : Net K → List K → List K
  | [], x => x
  | [(W, b)], x => out (layerSpec W b x)
  | (W, b) :: rest, x => netSpec act out rest (act (layerSpec W b x))

/-- The layers fit to each other and to `d` features. -/
def Fits : ℕ → Net K → Prop
  | _, [] => False
  | d, [(W, _)] => W.length = d
  | d, (W, b) :: rest => W.length = d ∧ Fits b.length rest

theorem zip_sum (o : ℕ) (x : List K) : ∀ W : List (List K), x.length = W.length → (List.zipWith (fun v row => v * row.getD o 0) x W).sum = ∑ j ∈ Finset.range x.length, x.getD j 0 * (W.getD j []).getD o 0 := by
  induction x with
  | nil => intro W _; simp
  | cons a x ih =>
    intro W h
    cases W with
    | nil => simp at h
    | cons w W =>
      rw [List.zipWith_cons_cons, List.sum_cons, ih W (by simpa using h), List.length_cons, Finset.sum_range_succ']
      simp only [List.getD_cons_succ, List.getD_cons_zero]
      rw [add_comm]

theorem affine_spec (W : List (List K)) (b x : List K) (h : x.length = W.length) : affineRow W b x = some (layerSpec W b x) := by
  rw [affineRow, if_pos h.le, layerSpec]
  congr 1
  refine List.map_congr_left (fun o _ => ?_)
  rw [zip_sum o x W h]

/-- C137: the forward pass computes the outputs of the network. -/
theorem C137_network (act out : List K → List K) (hact : ∀ l, (act l).length = l.length) : ∀ (net : Net K) (x : List K), Fits x.length net → forward act out net x = some (netSpec act out net x) := by
  intro net
  induction net with
  | nil => intro x h; exact h.elim
  | cons l net ih =>
    intro x h
    obtain ⟨W, b⟩ := l
    cases net with
    | nil =>
      rw [forward, affine_spec W b x (show W.length = x.length from h).symm]
      rfl
    | cons l' net =>
      rw [forward, affine_spec W b x h.1.symm]
      · simp only [Option.bind_eq_bind, Option.bind_some]
        rw [ih (act (layerSpec W b x)) (by rw [hact]; simpa [layerSpec] using h.2)]
        rfl
      · simp

/-- Hypotheses met: two layers. -/
example : Fits 1 [([[(2 : ℚ), 3]], [0, 1]), ([[1], [1]], [5])] ∧ forward id id [([[(2 : ℚ), 3]], [0, 1]), ([[1], [1]], [5])] [10] = some [56] := ⟨⟨rfl, rfl⟩, by decide +kernel⟩

/-- Training gives layers of the sizes asked for. -/
def Sized (hidden : List ℕ) (train : ℕ → List (List K) → Net K) : Prop := ∀ q Y, (train q Y).map (fun l => l.2.length) = hidden ++ [q]

/-- C137: an `MLPRegressor` fitted on targets (stored without other cells) of which some are neither 0 nor 1 predicts the outputs of its network.  Missing: `C137_binary_violated`,
`C137_padding_violated`. -/
theorem C137_regressor_partial (A : Acts K) (hA : ∀ l, (A.hid l).length = l.length) (train : ℕ → List (List K) → Net K) (m : MLP K) (hlb : m.lb = none) (hs : Sized m.hidden train) (q : ℕ) (Y : List (List K)) (h : ∃ v ∈ Y.flatten, v ≠ 0 ∧ v ≠ 1)
    (x : List K) (hx : Fits x.length (train q Y)) : predict A (fitRegressor train m q Y Y.flatten) q x = some (netSpec A.hid id (train q Y) x) := by
  have hc : isClassifierData Y.flatten = false := by
    rw [Bool.eq_false_iff]
    intro hc
    obtain ⟨v, hv, h0, h1⟩ := h
    exact ((classifier_iff _).1 hc v hv).elim h0 h1
  rw [fitRegressor, predict]
  simp only [hlb, hc, predictProbas, outAct, hs q Y, if_true]
  simp only [Bool.not_false, if_true, Bool.false_eq_true, if_false]
  rw [C137_network A.hid id hA _ x hx]
  rfl

/-- Hypotheses met: a network without hidden layers, with slope 2 and intercept 1. -/
example : Sized (K := ℚ) [] (fun q _ => [([List.replicate q 2], List.replicate q 1)]) ∧
    predict (⟨id, id, id⟩ : Acts ℚ) (fitRegressor (fun q _ => [([List.replicate q 2], List.replicate q 1)]) ⟨none, [], 0, true, []⟩ 1 [[5], [7]] [5, 7]) 1 [3] = some [7] := by
  constructor
  · intro q Y; simp
  · decide +kernel

theorem toLogits_binary (row : List K) : ∀ v ∈ toLogits row, v = 0 ∨ v = 1 := by
  intro v hv
  match row, hv with
  | [], hv => simp [toLogits] at hv
  | [w], hv =>
    simp only [toLogits, List.mem_singleton] at hv
    rw [hv]
    split <;> simp
  | a :: b :: row, hv =>
    simp only [toLogits, List.mem_map] at hv
    obtain ⟨c, _, rfl⟩ := hv
    split <;> simp

/-- C137, violated: an `MLPRegressor` fitted on targets that are all 0 or 1 turns into a classifier: all its predictions, at every point, are 0 or 1. -/
theorem C137_binary_violated (A : Acts K) (train : ℕ → List (List K) → Net K) (m : MLP K) (hlb : m.lb = none) (q : ℕ) (Y : List (List K)) (h : ∀ v ∈ Y.flatten, v = 0 ∨ v = 1) (cols : ℕ) (x p : List K)
    (hp : predict A (fitRegressor train m q Y Y.flatten) cols x = some p) : ∀ v ∈ p, v = 0 ∨ v = 1 := by
  have hc : isClassifierData Y.flatten = true := (classifier_iff _).2 h
  rw [fitRegressor, predict] at hp
  simp only [hlb, hc, if_true] at hp
  rw [Option.map_eq_some_iff] at hp
  obtain ⟨h', _, rfl⟩ := hp
  exact toLogits_binary h'

example : predict (⟨id, id, id⟩ : Acts ℚ) (fitRegressor (fun q _ => [([List.replicate q 2], List.replicate q 1)]) ⟨none, [], 0, true, []⟩ 1 [[0], [1]] [0, 1]) 1 [3] = some [1] := by decide +kernel

/-- C137, violated: the kind of network depends on memory that is not part of the targets: for 0/1 targets given as a view, a cell outside the view holding another value makes the difference. -/
theorem C137_padding_violated (train : ℕ → List (List K) → Net K) (m : MLP K) (q : ℕ) (Y : List (List K)) (h : ∀ v ∈ Y.flatten, v = 0 ∨ v = 1) (data : List K) (v : K) (hv : v ∈ data) (h0 : v ≠ 0) (h1 : v ≠ 1) :
    (fitRegressor train m q Y Y.flatten).classifier = true ∧ (fitRegressor train m q Y data).classifier = false := by
  refine ⟨(classifier_iff _).2 h, ?_⟩
  rw [fitRegressor]
  simp only [Bool.eq_false_iff]
  intro hc
  exact ((classifier_iff _).1 hc v hv).elim h0 h1

example : (5 : ℚ) ∈ [0, 5, 1] ∧ ∀ v ∈ [[(0 : ℚ)], [1]].flatten, v = 0 ∨ v = 1 := by simp

/-! ### C138: classifiers -/

/-- Activations keep the number of columns. -/
def Acts.Keeps (A : Acts K) : Prop := (∀ l, (A.hid l).length = l.length) ∧ (∀ l, (A.logi l).length = l.length) ∧ ∀ l, (A.soft l).length = l.length

theorem forward_length (act out : List K → List K) (hout : ∀ l, (out l).length = l.length) : ∀ (net : Net K) (ws : List ℕ) (q : ℕ) (x h : List K), net.map (fun l => l.2.length) = ws ++ [q] → forward act out net x = some h → h.length = q := by
  intro net
  induction net with
  | nil => intro ws q x h hw; simp at hw
  | cons l net ih =>
    intro ws q x h hw hf
    obtain ⟨W, b⟩ := l
    cases net with
    | nil =>
      have hq : b.length = q := by
        cases ws with
        | nil => simpa using hw
        | cons w ws => simp at hw
      simp only [forward, affineRow] at hf
      split at hf
      · simp only [Option.map_some, Option.some.injEq] at hf
        rw [← hf, hout]
        simp [hq]
      · cases hf
    | cons l' net =>
      cases ws with
      | nil => simp at hw
      | cons w ws =>
        simp only [List.map_cons, List.cons_append, List.cons.injEq] at hw
        simp only [forward, Option.bind_eq_bind] at hf
        cases hz : affineRow W b x with
        | none => rw [hz] at hf; cases hf
        | some z =>
          rw [hz] at hf
          simp only [Option.bind_some] at hf
          exact ih ws q (act z) h (by simpa using hw.2) hf

theorem columns_one (ys : List K) : columns 1 (ys.map (fun v => [v])) = [ys] := by
  simp only [columns, List.range_one, List.map_cons, List.map_nil, List.map_map]
  rw [show ((fun row : List K => row.getD 0 0) ∘ fun v => [v]) = id from rfl, List.map_id]

theorem isBinarized_one (ys : List K) : isBinarized (ys.map (fun v => [v])) = true ↔ ∀ v ∈ ys, v = 0 ∨ v = 1 := by
  simp [isBinarized, List.all_eq_true]

theorem flatten_one (ys : List K) : (ys.map (fun v => [v])).flatten = ys := by
  induction ys with
  | nil => rfl
  | cons a l ih => simp [ih]

theorem lbCells_binary (cs : List K) (v : K) : ∀ w ∈ lbCells 0 1 cs v, w = 0 ∨ w = 1 := by
  intro w hw
  rw [lbCells] at hw
  split at hw
  · obtain ⟨k, _, rfl⟩ := List.mem_map.1 hw
    split <;> simp
  · obtain ⟨k, _, rfl⟩ := List.mem_map.1 hw
    split <;> simp

/-- State after fitting a classifier on one column of labels, not all 0 or 1. -/
theorem fit_labels (train : ℕ → List (List K) → Net K) (m : MLP K) (hc : m.classifier = true) (ys : List K) (h : ∃ v ∈ ys, v ≠ 0 ∧ v ≠ 1) :
    ∃ Yb, fitClassifier train m 1 (ys.map (fun v => [v])) = some { m with lb := some [Label.distinctSorted ys], nOut := (Label.distinctSorted ys).length, classifier := true, net := train (Label.distinctSorted ys).length Yb } := by
  have hb : isBinarized (ys.map (fun v => [v])) = false := by
    rw [Bool.eq_false_iff]
    intro hb
    obtain ⟨v, hv, h0, h1⟩ := h
    exact ((isBinarized_one ys).1 hb v hv).elim h0 h1
  rw [fitClassifier, hc, hb, columns_one]
  simp only [Bool.not_false, Bool.and_true, if_true, List.map_cons, List.map_nil, List.sum_cons, List.sum_nil, Nat.add_zero]
  have hm : (ys.map (fun v => [v])).mapM (lbRow 0 1 [Label.distinctSorted ys]) = some ((ys.map (fun v => [v])).map (fun row => lbCells 0 1 (Label.distinctSorted ys) (row.getD 0 0))) := by
    refine Datasets.mapM_map _ _ _ (fun row hrow => ?_)
    obtain ⟨v, _, rfl⟩ := List.mem_map.1 hrow
    simp [lbRow]
  rw [hm]
  simp only [Option.bind_eq_bind, Option.bind_some]
  refine ⟨(ys.map (fun v => [v])).map (fun row => lbCells 0 1 (Label.distinctSorted ys) (row.getD 0 0)), ?_⟩
  congr 2
  rw [classifier_iff]
  intro w hw
  obtain ⟨row, hrow, hw⟩ := List.mem_flatten.1 hw
  obtain ⟨r, _, rfl⟩ := List.mem_map.1 hrow
  exact lbCells_binary _ _ w hw

/-- State after fitting a classifier on one column of labels 0 and 1: the binarizer is left as it was. -/
theorem fit_binary (train : ℕ → List (List K) → Net K) (m : MLP K) (ys : List K) (h : ∀ v ∈ ys, v = 0 ∨ v = 1) :
    fitClassifier train m 1 (ys.map (fun v => [v])) = some { m with nOut := 1, classifier := true, net := train 1 (ys.map (fun v => [v])) } := by
  rw [fitClassifier, (isBinarized_one ys).2 h, flatten_one, (classifier_iff ys).2 h]
  simp

/-- C138: a new `MLPClassifier` fitted on one column of labels predicts, for labels other than 0 and 1, the label of the first largest of the network's outputs (one of the labels it was fitted on), and
for labels 0 and 1 whether the output is above one half.  Missing: estimators fitted before (`C138_refit_violated`). -/
theorem C138_predict_partial (A : Acts K) (hA : A.Keeps) (train : ℕ → List (List K) → Net K) (m : MLP K) (hlb : m.lb = none) (hc : m.classifier = true) (hs : Sized m.hidden train) (ys : List K) (hne : ys ≠ []) (x : List K) :
    ∃ m', fitClassifier train m 1 (ys.map (fun v => [v])) = some m' ∧ getNOutputs m' = 1 ∧
      ((∃ v ∈ ys, v ≠ 0 ∧ v ≠ 1) → ∀ h, forward A.hid (outAct A m') m'.net x = some h → ∃ (k : ℕ) (c : K), Mlp.FirstMax h k ∧ (Label.distinctSorted ys)[k]? = some c ∧ c ∈ ys ∧ predict A m' 1 x = some [c]) ∧
      ((∀ v ∈ ys, v = 0 ∨ v = 1) → ∀ h, forward A.hid (outAct A m') m'.net x = some h → ∃ v, h = [v] ∧ predict A m' 1 x = some [if 1 / 2 < v then 1 else 0]) := by
  have hout : ∀ m' : MLP K, ∀ l, (outAct A m' l).length = l.length := by
    intro m' l
    rw [outAct]
    split
    · rfl
    · split
      · exact hA.2.2 l
      · exact hA.2.1 l
  by_cases h : ∃ v ∈ ys, v ≠ 0 ∧ v ≠ 1
  · obtain ⟨Yb, hf⟩ := fit_labels train m hc ys h
    refine ⟨_, hf, rfl, fun _ hh hfw => ?_, fun hb => ?_⟩
    · have hlen := forward_length A.hid _ (hout _) _ m.hidden _ x hh (hs _ Yb) hfw
      have hcs : Label.distinctSorted ys ≠ [] := by
        intro he
        obtain ⟨v, hv, _⟩ := h
        have := ((Label.distinctSorted_spec ys).2 v).2 hv
        rw [he] at this
        simp at this
      obtain ⟨k, c, hk, hck, hinv⟩ := Mlp.C98_one_output_partial hh (Label.distinctSorted ys) hlen hcs
      refine ⟨k, c, hk, hck, ((Label.distinctSorted_spec ys).2 c).1 (List.mem_of_getElem? hck), ?_⟩
      rw [predict]
      simp only [List.length_cons, List.length_nil, List.map_cons, List.map_nil, List.sum_cons, List.sum_nil, Nat.add_zero]
      rw [if_neg (by omega), predictProbas]
      simp only [hs _ Yb, if_true]
      rw [hfw]
      exact hinv
    · obtain ⟨v, hv, h0, h1⟩ := h
      exact absurd (hb v hv) (by rintro (e | e); exacts [h0 e, h1 e])
  · have hb : ∀ v ∈ ys, v = 0 ∨ v = 1 := by
      intro v hv
      by_contra hcon
      exact h ⟨v, hv, fun e => hcon (Or.inl e), fun e => hcon (Or.inr e)⟩
    refine ⟨_, fit_binary train m ys hb, ?_, fun h' => absurd h' h, fun _ hh hfw => ?_⟩
    · simp only [getNOutputs, hlb]
    · have hlen := forward_length A.hid _ (hout _) _ m.hidden _ x hh (hs 1 _) hfw
      obtain ⟨v, rfl⟩ := List.length_eq_one_iff.1 hlen
      refine ⟨v, rfl, ?_⟩
      rw [predict]
      simp only [hlb, predictProbas, hs 1, if_true] at hfw ⊢
      rw [hfw]
      simp only [Option.map_some, toLogits, gt_iff_lt]

/-- Hypotheses met: labels 3 and 5. -/
example : (fitClassifier (fun q _ => [([(List.range q).map (fun o => (o : ℚ))], List.replicate q 1)]) ⟨none, [], 0, true, []⟩ 1 [[3], [5]]).bind (fun m => predict (⟨id, id, id⟩ : Acts ℚ) m 1 [2]) = some [5] := by
  decide +kernel

theorem columns_two (ys zs : List K) (hl : ys.length = zs.length) : columns 2 (List.zipWith (fun y z => [y, z]) ys zs) = [ys, zs] := by
  have h1 : (List.zipWith (fun y z => [y, z]) ys zs).map (fun row => row.getD 0 0) = ys := by
    induction ys generalizing zs with
    | nil => simp
    | cons a t ih =>
      cases zs with
      | nil => simp at hl
      | cons b u => simpa using ih u (by simpa using hl)
  have h2 : (List.zipWith (fun y z => [y, z]) ys zs).map (fun row => row.getD 1 0) = zs := by
    clear h1
    induction ys generalizing zs with
    | nil => cases zs with | nil => simp | cons b u => simp at hl
    | cons a t ih =>
      cases zs with
      | nil => simp at hl
      | cons b u => simpa using ih u (by simpa using hl)
  simp only [columns, List.range_succ, List.range_zero, List.nil_append, List.map_append, List.map_cons, List.map_nil, h1, h2]
  rfl

/-- C138, violated for two label columns, whatever the training does: the estimator reports two outputs, but the prediction of the second is always 0 (first column with at least as many classes as the second)
or predicting one sample panics. -/
theorem C138_two_columns_violated (A : Acts K) (hA : A.Keeps) (train : ℕ → List (List K) → Net K) (m : MLP K) (hc : m.classifier = true) (hs : Sized m.hidden train) (ys zs : List K) (hl : ys.length = zs.length)
    (hv : ∃ v, (v ∈ ys ∨ v ∈ zs) ∧ v ≠ 0 ∧ v ≠ 1) :
    ∃ m', fitClassifier train m 2 (List.zipWith (fun y z => [y, z]) ys zs) = some m' ∧ getNOutputs m' = 2 ∧
      ((Label.distinctSorted zs).length ≤ (Label.distinctSorted ys).length → ∀ x h, forward A.hid (outAct A m') m'.net x = some h → ∃ c ∈ ys, predict A m' 2 x = some [c, 0]) ∧
      ((Label.distinctSorted ys).length < (Label.distinctSorted zs).length → ∀ x, predict A m' 2 x = none) := by
  have hout : ∀ m' : MLP K, ∀ l, (outAct A m' l).length = l.length := by
    intro m' l
    rw [outAct]
    split
    · rfl
    · split
      · exact hA.2.2 l
      · exact hA.2.1 l
  have hne : ys ≠ [] := by
    rintro rfl
    have : zs = [] := List.length_eq_zero_iff.1 (by simpa using hl.symm)
    subst this
    obtain ⟨v, hv, _⟩ := hv
    simp at hv
  have hd : Label.distinctSorted ys ≠ [] := by
    intro e
    obtain ⟨v, hvm⟩ := List.exists_mem_of_ne_nil _ hne
    have := ((Label.distinctSorted_spec ys).2 v).2 hvm
    rw [e] at this; simp at this
  have hrow : ∀ row ∈ List.zipWith (fun y z => [y, z]) ys zs, ∃ y z : K, row = [y, z] := by
    intro row hr
    rw [List.mem_iff_getElem] at hr
    obtain ⟨k, hk, rfl⟩ := hr
    exact ⟨_, _, List.getElem_zipWith ..⟩
  have hb : isBinarized (List.zipWith (fun y z => [y, z]) ys zs) = false := by
    rw [Bool.eq_false_iff]
    intro h
    obtain ⟨v, hm, h0, h1⟩ := hv
    have hmem : ∃ row ∈ List.zipWith (fun y z => [y, z]) ys zs, v ∈ row := by
      rcases hm with hm | hm
      · obtain ⟨k, hk, rfl⟩ := List.getElem_of_mem hm
        exact ⟨[ys[k], zs[k]'(by omega)], List.mem_iff_getElem.2 ⟨k, by simp; omega, by simp⟩, by simp⟩
      · obtain ⟨k, hk, rfl⟩ := List.getElem_of_mem hm
        exact ⟨[ys[k]'(by omega), zs[k]], List.mem_iff_getElem.2 ⟨k, by simp; omega, by simp⟩, by simp⟩
    obtain ⟨row, hr, hvr⟩ := hmem
    unfold isBinarized at h
    have := List.all_eq_true.1 (List.all_eq_true.1 h row hr) v hvr
    simp [h0, h1] at this
  obtain ⟨Yb, hYb⟩ : ∃ Yb, (List.zipWith (fun y z => [y, z]) ys zs).mapM (lbRow (0 : K) 1 [Label.distinctSorted ys, Label.distinctSorted zs]) = some Yb := by
    refine ⟨(List.zipWith (fun y z => [y, z]) ys zs).map (fun row => lbCells 0 1 (Label.distinctSorted ys) (row.getD 0 0) ++ (lbCells 0 1 (Label.distinctSorted zs) (row.getD 1 0) ++ [])), ?_⟩
    apply Label.mapM_some_of
    intro row hr
    obtain ⟨y, z, rfl⟩ := hrow row hr
    simp [lbRow]
  have hf : fitClassifier train m 2 (List.zipWith (fun y z => [y, z]) ys zs) = some { m with lb := some [Label.distinctSorted ys, Label.distinctSorted zs], nOut := (Label.distinctSorted ys).length + (Label.distinctSorted zs).length, classifier := isClassifierData Yb.flatten, net := train ((Label.distinctSorted ys).length + (Label.distinctSorted zs).length) Yb } := by
    rw [fitClassifier, hc, hb, columns_two ys zs hl]
    simp [hYb]
  refine ⟨_, hf, rfl, fun hle x h hfw => ?_, fun hlt x => ?_⟩
  · have hlen := forward_length A.hid _ (hout _) _ m.hidden _ x h (hs _ Yb) hfw
    obtain ⟨c, hcm, hinv⟩ := Mlp.C98_two_outputs_violated h (Label.distinctSorted ys) (Label.distinctSorted zs) hd hle hlen
    refine ⟨c, ((Label.distinctSorted_spec ys).2 c).1 hcm, ?_⟩
    rw [predict]
    simp only [List.length_cons, List.length_nil, List.map_cons, List.map_nil, List.sum_cons, List.sum_nil, Nat.add_zero]
    rw [if_neg (by omega), predictProbas]
    simp only [hs _ Yb, if_true]
    rw [hfw]
    exact hinv
  · rw [predict]
    simp only [List.length_cons, List.length_nil, List.map_cons, List.map_nil, List.sum_cons, List.sum_nil, Nat.add_zero]
    rw [if_neg (by omega), predictProbas]
    simp only [hs _ Yb, if_true]
    generalize hm' : ({ m with lb := some [Label.distinctSorted ys, Label.distinctSorted zs], nOut := (Label.distinctSorted ys).length + (Label.distinctSorted zs).length, classifier := isClassifierData Yb.flatten, net := train ((Label.distinctSorted ys).length + (Label.distinctSorted zs).length) Yb } : MLP K) = m'
    generalize hfw : forward A.hid (outAct A m') (train ((Label.distinctSorted ys).length + (Label.distinctSorted zs).length) Yb) x = o
    cases o with
    | none => rfl
    | some h =>
      have hlen := forward_length A.hid _ (hout _) _ m.hidden _ x h (hs _ Yb) hfw
      exact Mlp.C98_panics_violated h (Label.distinctSorted ys) (Label.distinctSorted zs) hd hlt hlen

/-- Labels 3, 5 and 7, 8 for two samples. -/
example : [(3 : ℚ), 5].length = [(7 : ℚ), 8].length ∧ ∃ v, (v ∈ [(3 : ℚ), 5] ∨ v ∈ [(7 : ℚ), 8]) ∧ v ≠ 0 ∧ v ≠ 1 := ⟨rfl, 3, by simp, by norm_num, by norm_num⟩

/-- C138, violated: after a fit on other labels, a fit on labels 0 and 1 keeps the old label binarizer: predictions panic, or return the single old label. -/
theorem C138_refit_violated (A : Acts K) (hA : A.Keeps) (train : ℕ → List (List K) → Net K) (m : MLP K) (hc : m.classifier = true) (hs : Sized m.hidden train) (ys zs : List K) (hy : ∃ v ∈ ys, v ≠ 0 ∧ v ≠ 1)
    (hz : ∀ v ∈ zs, v = 0 ∨ v = 1) : ∃ m', (fitClassifier train m 1 (ys.map (fun v => [v]))).bind (fun m1 => fitClassifier train m1 1 (zs.map (fun v => [v]))) = some m' ∧
      ∀ x, predict A m' 1 x = none ∨ ∃ v ∈ ys, predict A m' 1 x = some [v] := by
  obtain ⟨Yb, hf⟩ := fit_labels train m hc ys hy
  rw [hf]
  simp only [Option.bind_some]
  refine ⟨_, fit_binary train _ zs hz, fun x => ?_⟩
  rw [predict]
  simp only [List.length_cons, List.length_nil, List.map_cons, List.map_nil, List.sum_cons, List.sum_nil, Nat.add_zero]
  rw [if_neg (by omega), predictProbas]
  simp only [hs 1]
  by_cases h1 : (Label.distinctSorted ys).length = 1
  · obtain ⟨c, hcs⟩ := List.length_eq_one_iff.1 h1
    rw [hcs]
    simp only [List.length_cons, List.length_nil, Nat.zero_add, if_true]
    cases hfw : forward A.hid (outAct A _) (train 1 (zs.map (fun v => [v]))) x with
    | none => left; rfl
    | some h =>
      right
      have hlen := forward_length A.hid _ (by
        intro l
        rw [outAct]
        split
        · rfl
        · split
          · exact hA.2.2 l
          · exact hA.2.1 l) _ m.hidden _ x h (hs 1 _) hfw
      obtain ⟨k, c', _, hck, hinv⟩ := Mlp.C98_one_output_partial h [c] hlen (by simp)
      refine ⟨c', ?_, hinv⟩
      have : c' ∈ Label.distinctSorted ys := by rw [hcs]; exact List.mem_of_getElem? hck
      exact ((Label.distinctSorted_spec ys).2 c').1 this
  · left
    rw [if_neg]
    · rfl
    · intro he
      have := List.append_cancel_left he
      simp only [List.cons.injEq, and_true] at this
      exact h1 this.symm

/-- Labels 3 and 5, then 0 and 1. -/
example : (∃ v ∈ [(3 : ℚ), 5], v ≠ 0 ∧ v ≠ 1) ∧ ∀ v ∈ [(0 : ℚ), 1], v = 0 ∨ v = 1 := by
  refine ⟨⟨3, by simp, by norm_num, by norm_num⟩, by simp⟩

/-- C138: the encoding of a label of the fit (with `NegLabel` 0, as the estimators use it) has `PosLabel` in the column of its class and 0 elsewhere, and the decoding gives the label back.
Missing for the full claim: what `C138_refit_violated`, `C138_neg_violated`, `C138_two_columns_violated` refute. -/
theorem C138_onehot_partial (pos : K) (hpos : 0 < pos) (cs : List K) (hnd : cs.Nodup) (k : ℕ) (v : K) (hk : cs[k]? = some v) :
    lbCells 0 pos cs v = (List.range cs.length).map (fun c => if c = k then pos else 0) ∧ lbInverse (lbCells 0 pos cs v) 0 [cs] = some [v] := by
  obtain ⟨hlt, hv⟩ := List.getElem?_eq_some_iff.1 hk
  have hidx : cs.idxOf v = k := by rw [← hv]; exact List.Nodup.idxOf_getElem hnd k hlt
  have e : lbCells 0 pos cs v = (List.range cs.length).map (fun c => if c = k then pos else 0) := by
    rw [lbCells, if_pos (List.mem_of_getElem? hk), hidx]
  refine ⟨e, ?_⟩
  have hne : cs ≠ [] := by rintro rfl; simp at hlt
  obtain ⟨m, c, ⟨w, hw, hmax, _⟩, hc, hinv⟩ := Mlp.C98_one_output_partial (lbCells 0 pos cs v) cs (by rw [e]; simp) hne
  have hwk : pos ≤ w := by
    refine hmax pos ?_
    rw [e, List.mem_map]
    exact ⟨k, List.mem_range.2 hlt, if_pos rfl⟩
  rw [e, List.getElem?_map] at hw
  have hm : m = k := by
    by_contra hmk
    cases hr : (List.range cs.length)[m]? with
    | none => rw [hr] at hw; cases hw
    | some r =>
      have hrm : r = m := by
        obtain ⟨h1, h2⟩ := List.getElem?_eq_some_iff.1 hr
        simpa using h2.symm
      rw [hr, hrm] at hw
      simp only [Option.map_some, if_neg hmk, Option.some.injEq] at hw
      rw [← hw] at hwk
      exact absurd hpos (not_lt.2 hwk)
  rw [hm, hk] at hc
  rw [hinv, Option.some.inj hc]

example : lbCells (0 : ℚ) 1 [3, 5, 9] 5 = [0, 1, 0] := by decide +kernel

/-- C138, violated: with a `NegLabel` other than 0 the encoding of a known label does not contain `NegLabel` at all, but zeros. -/
theorem C138_neg_violated (neg pos : K) (h0 : neg ≠ 0) (hp : neg ≠ pos) (cs : List K) (v : K) (hv : v ∈ cs) : neg ∉ lbCells neg pos cs v := by
  rw [lbCells, if_pos hv]
  intro h
  obtain ⟨k, _, he⟩ := List.mem_map.1 h
  split at he
  · exact hp he.symm
  · exact h0 he.symm

example : lbCells (-1 : ℚ) 1 [3, 5, 9] 5 = [0, 1, 0] := by decide +kernel

/-! ### C139: shapes -/

theorem zipWith_append_zero (o : ℕ) (x : List K) (z : ℕ) : ∀ W : List (List K), x.length ≤ W.length → (List.zipWith (fun v row => v * row.getD o 0) (x ++ List.replicate z 0) W).sum = (List.zipWith (fun v row => v * row.getD o 0) x W).sum := by
  induction x with
  | nil =>
    intro W _
    simp only [List.nil_append, List.zipWith_nil_left, List.sum_nil]
    induction z generalizing W with
    | zero => simp
    | succ z ih =>
      cases W with
      | nil => simp
      | cons w W => simp only [List.replicate_succ, List.zipWith_cons_cons, List.sum_cons, zero_mul, zero_add, ih W (by simp)]
  | cons a x ih =>
    intro W h
    cases W with
    | nil => simp at h
    | cons w W =>
      simp only [List.cons_append, List.zipWith_cons_cons, List.sum_cons]
      rw [ih W (by simpa using h)]

/-- C139: rows with more features than the network was trained on are refused.  Missing: rows with fewer (`C139_missing_violated`). -/
theorem C139_extra_partial (act out : List K → List K) (W : List (List K)) (b : List K) (rest : Net K) (x : List K) (h : W.length < x.length) : forward act out ((W, b) :: rest) x = none := by
  have : affineRow W b x = none := by rw [affineRow, if_neg (by omega)]
  cases rest with
  | nil => rw [forward, this]; rfl
  | cons l rest => rw [forward, this]; rfl; simp

/-- C139, violated: rows with fewer features than the network was trained on are accepted and treated as if the missing ones were zero. -/
theorem C139_missing_violated (act out : List K → List K) (W : List (List K)) (b : List K) (rest : Net K) (x : List K) (h : x.length < W.length) :
    forward act out ((W, b) :: rest) x = forward act out ((W, b) :: rest) (x ++ List.replicate (W.length - x.length) 0) ∧ (rest = [] → forward act out ((W, b) :: rest) x ≠ none) := by
  have e : affineRow W b (x ++ List.replicate (W.length - x.length) 0) = affineRow W b x := by
    rw [affineRow, affineRow, if_pos (by simp; omega), if_pos (by omega)]
    congr 1
    refine List.map_congr_left (fun o _ => ?_)
    rw [zipWith_append_zero o x _ W (by omega)]
  constructor
  · cases rest with
    | nil => rw [forward, forward, e]
    | cons l rest => rw [forward, forward, e]; all_goals simp
  · rintro rfl
    rw [forward, affineRow, if_pos (by omega)]
    simp

example : forward id id [([[(1 : ℚ)], [2]], [0])] [3] = some [3] := by decide +kernel

open Sk.Matrix (General) in
/-- C139: labels predicted into a column stored without gaps end in its cells, and no other memory changes.  Missing: `C139_view_violated`. -/
theorem C139_labels_partial (mem : ℕ → K) (Y : General) (hY : Y.WF) (hc : Y.cols = 1) (hs : Y.stride = 1) (labels : List K) (hl : labels.length = Y.rows) :
    (∀ i < Y.rows, Y.get (writeLabels mem Y labels) i 0 = labels[i]?) ∧ ∀ a, (∀ i < Y.rows, a ≠ Y.data.off + i) → writeLabels mem Y labels a = mem a := by
  constructor
  · intro i hi
    rw [General.get, Sk.Matrix.WF.cell hY hi (by omega), hs]
    simp only [Option.map_some, writeLabels, G64.copyTo, Nat.mul_one, Nat.add_zero]
    rw [if_pos (by omega)]
    simp [hl, hi]
  · intro a h
    rw [writeLabels, G64.copyTo, if_neg]
    intro h1
    exact h (a - Y.data.off) (by omega) (by omega)

open Sk.Matrix (General) in
/-- C139, violated: for a column of a wider matrix (stride at least 2) the labels are written one after the other: row 1 of the column gets the label of sample `stride` or keeps its old value, and the
cell next to row 0, in another column of the matrix, is overwritten with the label of sample 1. -/
theorem C139_view_violated (mem : ℕ → K) (Y : General) (hY : Y.WF) (hc : Y.cols = 1) (hs : 2 ≤ Y.stride) (hr : 2 ≤ Y.rows) (labels : List K) (hl : labels.length = Y.rows) :
    Y.get (writeLabels mem Y labels) 1 0 = (if Y.stride < Y.rows then labels[Y.stride]? else Y.get mem 1 0) ∧ some (writeLabels mem Y labels (Y.data.off + 1)) = labels[1]? := by
  constructor
  · rw [General.get, General.get, Sk.Matrix.WF.cell hY (by omega) (by omega)]
    simp only [Option.map_some, writeLabels, G64.copyTo, Nat.one_mul, Nat.add_zero]
    by_cases h : Y.stride < Y.rows
    · rw [if_pos (by omega), if_pos h]
      simp [hl, h]
    · rw [if_neg (by omega), if_neg h]
  · rw [writeLabels, G64.copyTo, if_pos (by omega)]
    have : 1 < labels.length := by omega
    simp [this]

open Sk.Matrix (General) in
/-- Hypotheses met: the first column of a 2×2 matrix. -/
example : (⟨2, 1, 2, ⟨0, 3, 4⟩⟩ : General).WF := ⟨by decide, by decide, by decide, by decide, by decide⟩

/-! ### C140: `Unmarshal` -/

/-- All rows have `q` entries. -/
def Rect (W : List (List K)) (q : ℕ) : Prop := W ≠ [] ∧ ∀ r ∈ W, r.length = q

theorem readLayer_rect (W : List (List K)) (b : List K) (h : Rect W b.length) : readLayer W b = some (W, b) := by
  obtain ⟨hne, hr⟩ := h
  cases W with
  | nil => exact absurd rfl hne
  | cons w W =>
    have hw := hr w (List.mem_cons_self ..)
    have h1 : readMatrix (w :: W) = some (w :: W) := by
      rw [readMatrix]
      simp only [List.getElem?_cons_zero, Option.bind_eq_bind, Option.bind_some]
      rw [Datasets.mapM_map _ id, List.map_id]
      intro r hrm
      have := hr r hrm
      rw [if_pos (by omega), hw, ← this, List.take_length]
      rfl
    rw [readLayer, h1]
    simp only [Option.bind_eq_bind, Option.bind_some, List.getElem?_cons_zero]
    rw [if_pos (by omega), hw, List.take_length]

/-- The file describes a network: every layer is rectangular with as many columns as intercepts (at least one). -/
def Describes (coefs : List (List (List K))) (intercepts : List (List K)) : Prop := coefs ≠ [] ∧ List.Forall₂ (fun W b => Rect W b.length ∧ 0 < b.length) coefs intercepts

theorem unmarshal_net (m : MLP K) (coefs : List (List (List K))) (intercepts : List (List K)) (h : Describes coefs intercepts) :
    ∃ q, unmarshal m coefs intercepts = some { m with hidden := List.replicate (coefs.length - 1) 0, nOut := q, classifier := true, net := coefs.zip intercepts } ∧ (intercepts.getLast?.map List.length) = some q := by
  obtain ⟨hne, hf⟩ := h
  have hlen := hf.length_eq
  have hmap : (coefs.zip intercepts).mapM (fun l => readLayer l.1 l.2) = some ((coefs.zip intercepts).map id) := by
    refine Datasets.mapM_map _ _ _ (fun l hl => ?_)
    have := List.forall₂_zip hf hl
    exact readLayer_rect l.1 l.2 this.1
  rw [List.map_id] at hmap
  have hlast : ∃ l, (coefs.zip intercepts).getLast? = some l ∧ intercepts.getLast? = some l.2 := by
    have hni : intercepts ≠ [] := by rintro rfl; cases coefs <;> simp_all
    have hnz : coefs.zip intercepts ≠ [] := by
      intro hz
      have := congrArg List.length hz
      rw [List.length_zip, hlen, Nat.min_self] at this
      exact hni (List.length_eq_zero_iff.1 this)
    refine ⟨_, List.getLast?_eq_some_getLast hnz, ?_⟩
    rw [List.getLast?_eq_some_getLast hni]
    congr 1
    have : intercepts = (coefs.zip intercepts).map Prod.snd := by rw [List.map_snd_zip (by omega)]
    conv_lhs => rw [List.getLast_congr _ (by simpa using hnz) this]
    rw [List.getLast_map]
  obtain ⟨l, h1, h2⟩ := hlast
  refine ⟨l.2.length, ?_, by rw [h2]; rfl⟩
  rw [unmarshal, if_neg (by simp only [not_or, not_lt]; exact ⟨hne, by omega⟩)]
  rw [hmap]
  simp only [Option.bind_eq_bind, Option.bind_some]
  rw [h1]
  rfl

/-- C140: a classifier without hidden layers read from a file gives the outputs of the network described.  Missing: hidden layers, regressors (below). -/
theorem C140_single_layer_partial (A : Acts K) (m : MLP K) (W : List (List K)) (b : List K) (h : Describes [W] [b]) :
    ∃ m', unmarshal m [W] [b] = some m' ∧ ∀ x, x.length = W.length → predictProbas A m' b.length x = some ((if 1 < b.length then A.soft else A.logi) (layerSpec W b x)) := by
  obtain ⟨q, hu, hq⟩ := unmarshal_net m [W] [b] h
  have hq' : b.length = q := by simpa using hq
  refine ⟨_, hu, fun x hx => ?_⟩
  rw [predictProbas]
  simp only [List.zip_cons_cons, List.zip_nil_right, List.map_cons, List.map_nil, List.length_cons, List.length_nil, Nat.zero_add, Nat.sub_self, List.replicate_zero, List.nil_append, if_true]
  rw [forward, outAct, affine_spec W b x hx]
  simp only [Bool.not_true, Bool.false_eq_true, if_false, hq', gt_iff_lt, Option.map_some]

example : Describes [[[(1 : ℚ)], [2]]] [[3]] := ⟨by simp, .cons ⟨⟨by simp, by simp⟩, by simp⟩ .nil⟩

/-- C140, violated: a network with hidden layers is read without error, but every prediction with it panics (the sizes of the hidden layers are left at 0). -/
theorem C140_hidden_violated (A : Acts K) (m : MLP K) (coefs : List (List (List K))) (intercepts : List (List K)) (h : Describes coefs intercepts) (h2 : 2 ≤ coefs.length) :
    ∃ m', unmarshal m coefs intercepts = some m' ∧ ∀ cols x, predictProbas A m' cols x = none := by
  obtain ⟨q, hu, _⟩ := unmarshal_net m coefs intercepts h
  refine ⟨_, hu, fun cols x => ?_⟩
  rw [predictProbas, if_neg]
  simp only
  intro he
  match coefs, intercepts, h, h2, he with
  | W :: W' :: coefs, b :: b' :: intercepts, h, _, he =>
    have hb : 0 < b.length := by
      obtain ⟨_, hf⟩ := h
      cases hf with
      | cons h1 _ => exact h1.2
    simp [List.replicate_succ] at he
    rw [he.1] at hb
    simp at hb
  | W :: W' :: coefs, [], h, _, _ => obtain ⟨_, hf⟩ := h; cases hf
  | W :: W' :: coefs, [b], h, _, _ => obtain ⟨_, hf⟩ := h; cases hf with | cons _ t => cases t

example : Describes [[[(1 : ℚ)]], [[2]]] [[0], [1]] ∧ 2 ≤ [[[(1 : ℚ)]], [[2]]].length := ⟨⟨by simp, .cons ⟨⟨by simp, by simp⟩, by simp⟩ (.cons ⟨⟨by simp, by simp⟩, by simp⟩ .nil)⟩, by simp⟩

/-- C140, violated: a regression network read from a file predicts only zeros and ones. -/
theorem C140_regressor_violated (A : Acts K) (m m' : MLP K) (hlb : m.lb = none) (coefs : List (List (List K))) (intercepts : List (List K)) (h : Describes coefs intercepts) (hu : unmarshal m coefs intercepts = some m') (cols : ℕ) (x p : List K)
    (hp : predict A m' cols x = some p) : ∀ v ∈ p, v = 0 ∨ v = 1 := by
  obtain ⟨q, hu', _⟩ := unmarshal_net m coefs intercepts h
  rw [hu'] at hu
  cases hu
  rw [predict] at hp
  simp only [hlb, if_true] at hp
  rw [Option.map_eq_some_iff] at hp
  obtain ⟨h', _, rfl⟩ := hp
  exact toLogits_binary h'

end

theorem toLower_underscore (c : Char) (h : c.toLower = '_') : c = '_' := by
  unfold Char.toLower at h
  split at h
  · rename_i hc
    have h1 := congrArg (fun c : Char => c.val.toNat) h
    simp at h1
    have h2 := hc.1
    have h3 := hc.2
    simp only [UInt32.le_iff_toNat_le] at h2 h3
    simp at h2 h3
    omega
  · exact h

/-- C140, violated: parameters whose json name contains an underscore (`max_iter`, `learning_rate_init`, `hidden_layer_sizes`, …; the names declared by the json tags of the structure itself and used by
scikit-learn) are skipped without notice. -/
theorem C140_params_violated (k : List Char) (h : '_' ∈ k) : matchField k = none := by
  rw [matchField, List.find?_eq_none]
  intro f hf he
  have he' : fold f.toList = fold k := by simpa using he
  have h1 : '_' ∈ fold k := List.mem_map.2 ⟨'_', h, rfl⟩
  rw [← he'] at h1
  obtain ⟨c, hc, hcl⟩ := List.mem_map.1 h1
  rw [toLower_underscore c hcl] at hc
  have : ∀ f ∈ fieldNames, '_' ∉ f.toList := by decide +kernel
  exact this f hf hc

example : '_' ∈ "max_iter".toList ∧ matchField "alpha".toList = some "Alpha" := by decide +kernel

/-! ### C141: training bookkeeping -/

section
variable {K : Type} [Field K] [LinearOrder K] [IsStrictOrderedRing K]

/-- C141, violated: with `WarmStart` set, the first `Fit` of an estimator panics. -/
theorem C141_warm_violated (hidden : ℕ) : fitLayers true 0 hidden = none := rfl

/-- C141: without `WarmStart` there is one more layer than hidden layers; with it, after an earlier fit, the number of layers stays.
Missing for the full claim: what `C141_warm_violated`, `C141_types_violated`, `C141_loss_violated` refute. -/
theorem C141_warm_partial (n hidden : ℕ) : fitLayers false n hidden = some (hidden + 1) ∧ (0 < n → fitLayers true n hidden = some (n - 1)) := by
  refine ⟨rfl, fun h => ?_⟩
  simp only [fitLayers, Bool.not_true, Bool.false_eq_true, if_false]
  rw [if_neg (by omega)]

example : fitLayers true 3 1 = some 2 := rfl

/-- C141, violated: without shuffling, an `X` that is a dense matrix with a `Y` of another type is trained on no rows, without an error. -/
theorem C141_types_violated {R : Type} (X Y : List R) : fitArgs false true false X Y = ([], []) := rfl

/-- C141: in the other cases training uses all rows.
Missing for the full claim: what `C141_warm_violated`, `C141_types_violated`, `C141_loss_violated` refute. -/
theorem C141_types_partial {R : Type} (shuffle xRaw yRaw : Bool) (h : shuffle = true ∨ xRaw = false ∨ yRaw = true) (X Y : List R) : fitArgs shuffle xRaw yRaw X Y = (X, Y) := by
  cases shuffle <;> cases xRaw <;> cases yRaw <;> simp_all [fitArgs]

example : fitArgs true true false [1] [2] = ([1], [2]) := rfl

theorem epoch_sum (n : ℕ) (rows : List (List K)) (hr : ∀ l ∈ rows, l ≠ []) : epochLoss n (rows.map (fun l => (l.sum / (l.length : K), l.length))) = rows.flatten.sum / n := by
  rw [epochLoss]
  congr 1
  induction rows with
  | nil => rfl
  | cons l rows ih =>
    have hl : (l.length : K) ≠ 0 := by
      have := List.length_pos_iff.2 (hr l (List.mem_cons_self ..))
      exact_mod_cast this.ne'
    simp only [List.map_cons, List.sum_cons, List.flatten_cons, List.sum_append]
    rw [ih (fun l' h' => hr l' (List.mem_cons_of_mem _ h')), div_mul_cancel₀ _ hl]

/-- C141: the loss reported for an epoch is the mean of the losses of the samples, when the batches (each with its mean loss) cover all samples.  Missing: early stopping (`C141_loss_violated`); batches with
fewer rows than the batch size do not report their mean loss (`C96_loss_violated`). -/
theorem C141_loss_partial (rows : List (List K)) (hr : ∀ l ∈ rows, l ≠ []) : epochLoss rows.flatten.length (rows.map (fun l => (l.sum / (l.length : K), l.length))) = rows.flatten.sum / rows.flatten.length := epoch_sum _ rows hr

/-- C141, violated: with early stopping the validation rows count in the denominator: the loss reported is strictly smaller than the mean loss of the samples trained on (when this is positive). -/
theorem C141_loss_violated (t : ℕ) (ht : 0 < t) (rows : List (List K)) (hne : rows ≠ []) (hr : ∀ l ∈ rows, l ≠ []) (hpos : 0 < rows.flatten.sum) :
    epochLoss (rows.flatten.length + t) (rows.map (fun l => (l.sum / (l.length : K), l.length))) < rows.flatten.sum / rows.flatten.length := by
  rw [epoch_sum _ rows hr]
  have hl : 0 < rows.flatten.length := by
    cases rows with
    | nil => exact absurd rfl hne
    | cons l rows =>
      have := List.length_pos_iff.2 (hr l (List.mem_cons_self ..))
      simp only [List.flatten_cons, List.length_append]
      omega
  refine div_lt_div_of_pos_left hpos (by exact_mod_cast hl) ?_
  exact_mod_cast Nat.lt_add_of_pos_right ht

example : epochLoss 4 [((2 : ℚ), 2)] = 1 := by norm_num [epochLoss]

end

/-- C140: files that do not describe a network are refused by a panic, not read in part: no layer, fewer vectors of intercepts than matrices, an empty matrix, a row shorter than the first, or fewer intercepts
than columns, in any layer. -/
theorem C140_refuses {K : Type} (m : MLP K) (coefs : List (List (List K))) (intercepts : List (List K))
    (h : coefs = [] ∨ intercepts.length < coefs.length ∨ ∃ l ∈ coefs.zip intercepts, l.1 = [] ∨ ∃ first rest, l.1 = first :: rest ∧ ((∃ r ∈ rest, r.length < first.length) ∨ l.2.length < first.length)) :
    unmarshal m coefs intercepts = none := by
  rw [unmarshal]
  by_cases h0 : coefs = [] ∨ intercepts.length < coefs.length
  · rw [if_pos h0]
  · rw [if_neg h0]
    obtain ⟨l, hl, hbad⟩ : ∃ l ∈ coefs.zip intercepts, l.1 = [] ∨ ∃ first rest, l.1 = first :: rest ∧ ((∃ r ∈ rest, r.length < first.length) ∨ l.2.length < first.length) := by
      rcases h with h | h | h
      · exact absurd (Or.inl h) h0
      · exact absurd (Or.inr h) h0
      · exact h
    have hnone : readLayer l.1 l.2 = none := by
      rcases hbad with h1 | ⟨first, rest, h1, h2⟩
      · rw [h1]; rfl
      · rw [h1, readLayer]
        cases hm : readMatrix (first :: rest) with
        | none => rfl
        | some W =>
          rw [readMatrix] at hm
          simp only [List.getElem?_cons_zero, Option.bind_eq_bind, Option.bind_some] at hm
          have hf := (ListX.mapM_forall2 _ _ _).mp hm
          cases hf with
          | cons ha hb =>
            rename_i w W
            rcases h2 with ⟨r, hr, hlt⟩ | h2
            · exfalso
              obtain ⟨i, hi, rfl⟩ := List.getElem_of_mem hr
              have := (List.forall₂_iff_get.1 hb).2 i hi (by rw [← hb.length_eq]; exact hi)
              simp only [List.get_eq_getElem] at this
              rw [if_neg (by omega)] at this
              cases this
            · rw [if_pos (le_refl _), List.take_length] at ha
              obtain rfl := Option.some.inj ha
              simp only [Option.bind_eq_bind, Option.bind_some, List.getElem?_cons_zero]
              rw [if_neg (by omega)]
    cases hm : (coefs.zip intercepts).mapM (fun l => readLayer l.1 l.2) with
    | none => rfl
    | some net =>
      exfalso
      have hf := (ListX.mapM_forall2 _ _ _).mp hm
      obtain ⟨i, hi, rfl⟩ := List.getElem_of_mem hl
      have := (List.forall₂_iff_get.1 hf).2 i hi (by rw [← hf.length_eq]; exact hi)
      simp only [List.get_eq_getElem] at this
      rw [hnone] at this
      cases this

example : ∃ l ∈ [[[(1 : ℚ), 2], [3, 4]]].zip [[(5 : ℚ)]], l.1 = [] ∨ ∃ first rest, l.1 = first :: rest ∧ ((∃ r ∈ rest, r.length < first.length) ∨ l.2.length < first.length) :=
  ⟨_, List.mem_cons_self, Or.inr ⟨[1, 2], [[3, 4]], rfl, Or.inr (by decide)⟩⟩

end Sk.MlpFit
