import Verif.Model.Metrics
import Verif.Lemmas.Label
import Verif.Spec.Weights
import Mathlib.Data.List.Sort
import Mathlib.Tactic.FieldSimp
import Mathlib.Tactic.NormNum
import Mathlib.Algebra.Order.Ring.Rat

/-!
# C26-C28: accuracy, confusion matrix, precision / recall / F-score

Samples are triples (true label, predicted label, weight).  `wsum w p S` (Verif/Spec/Weights.lean) is the total weight of the samples
having property `p`.
-/
set_option autoImplicit false

namespace Sk.Metrics

open Sk.Label Sk.GoSort

variable {K : Type} [Field K] [LinearOrder K] [IsStrictOrderedRing K]

/-! ## C26 -/

section Accuracy
variable {L : Type} [DecidableEq L]

theorem rowEq_spec : ∀ (a b : List L), a.length = b.length → ∀ e, rowEq a b e = some (e && decide (a = b))
  | [], [], _, e => by simp [rowEq]
  | [], _ :: _, h, _ => by simp at h
  | _ :: _, [], h, _ => by simp at h
  | x :: a, y :: b, h, e => by
    rw [rowEq, rowEq_spec a b (by simpa using h)]
    by_cases hx : x = y <;> by_cases ha : a = b <;> cases e <;> simp [hx, ha]

theorem accLoop_spec (rest : List (List L × List L × K)) : ∀ (pre : List (List L × List L × K)) (n d : K),
    (∀ s ∈ rest, s.1.length = s.2.1.length) →
    accLoop (some ((pre ++ rest).map (fun s => s.2.2))) ((pre ++ rest).map (fun s => s.2.1)) (rest.map (fun s => s.1)) pre.length (n, d) =
      some (n + wsum (fun s => s.2.2) (fun s => s.1 = s.2.1) rest, d + (rest.map (fun s => s.2.2)).sum) := by
  induction rest with
  | nil => intro pre n d _; simp [accLoop]
  | cons a rest ih =>
    intro pre n d h
    have ih := ih (pre ++ [a]) (if decide (a.1 = a.2.1) then n + a.2.2 else n) (d + a.2.2) (fun s hs => h s (by simp [hs]))
    rw [List.map_cons, accLoop]
    simp only [weightAt, List.map_append, List.map_cons]
    rw [List.getElem?_append_right (by simp), List.getElem?_append_right (by simp)]
    simp only [List.length_map, Nat.sub_self, List.getElem?_cons_zero]
    simp only [Option.bind_eq_bind, Option.bind_some]
    rw [show rowEq a.1 a.2.1 true = some (decide (a.1 = a.2.1)) by rw [rowEq_spec _ _ (h a (by simp))]; simp]
    simp only [Option.bind_some]
    have e : pre.length + 1 = (pre ++ [a]).length := by simp
    rw [e]
    have e1 : (pre.map (fun s => s.2.2) ++ a.2.2 :: rest.map (fun s => s.2.2)) = ((pre ++ [a]) ++ rest).map (fun s => s.2.2) := by simp
    have e2 : (pre.map (fun s => s.2.1) ++ a.2.1 :: rest.map (fun s => s.2.1)) = ((pre ++ [a]) ++ rest).map (fun s => s.2.1) := by simp
    rw [e1, e2, ih, wsum_cons, List.sum_cons]
    congr 2
    · by_cases ha : a.1 = a.2.1 <;> simp [ha]; ring
    · ring

theorem accLoop_ones (Yp : List (List L)) (n : ℕ) : ∀ (Yt : List (List L)) (i : ℕ) (nd : K × K), i + Yt.length ≤ n →
    accLoop none Yp Yt i nd = accLoop (some (List.replicate n 1)) Yp Yt i nd := by
  intro Yt
  induction Yt with
  | nil => intro i nd _; simp [accLoop]
  | cons y Yt ih =>
    intro i nd h
    obtain ⟨a, d⟩ := nd
    simp only [List.length_cons] at h
    rw [accLoop, accLoop]
    simp only [weightAt]
    have hlt : i < (List.replicate n (1 : K)).length := by rw [List.length_replicate]; omega
    rw [List.getElem?_eq_getElem hlt]
    simp only [List.getElem_replicate, Option.bind_eq_bind, Option.bind_some]
    cases hy : Yp[i]? with
    | none => rfl
    | some yp =>
      simp only [Option.bind_some]
      cases hr : rowEq y yp true with
      | none => rfl
      | some e => simp only [Option.bind_some]; exact ih _ _ (by omega)

/-- **C26.** For samples (true row, predicted row, weight) with rows of equal width, nonnegative weights of positive sum, `AccuracyScore`
is the weight of the exactly matching rows over the total weight; it lies in [0,1] and is 1 iff every row of positive weight
matches.  Without normalisation the matching weight itself is returned. -/
theorem C26_accuracy (S : List (List L × List L × K)) (hlen : ∀ s ∈ S, s.1.length = s.2.1.length)
    (hw : ∀ s ∈ S, 0 ≤ s.2.2) (hpos : 0 < (S.map (fun s => s.2.2)).sum) :
    accuracy (S.map (fun s => s.1)) (S.map (fun s => s.2.1)) false (some (S.map (fun s => s.2.2))) =
      some (wsum (fun s => s.2.2) (fun s => s.1 = s.2.1) S) ∧
    ∃ a, accuracy (S.map (fun s => s.1)) (S.map (fun s => s.2.1)) true (some (S.map (fun s => s.2.2))) = some a ∧
      a = wsum (fun s => s.2.2) (fun s => s.1 = s.2.1) S / (S.map (fun s => s.2.2)).sum ∧
      0 ≤ a ∧ a ≤ 1 ∧ (a = 1 ↔ ∀ s ∈ S, 0 < s.2.2 → s.1 = s.2.1) := by
  have h := accLoop_spec S [] 0 0 hlen
  simp only [List.nil_append, List.length_nil, zero_add] at h
  have h0 := wsum_nonneg (fun s : List L × List L × K => s.2.2) (fun s => s.1 = s.2.1) S hw
  have h1 : wsum (fun s : List L × List L × K => s.2.2) (fun s => s.1 = s.2.1) S ≤ (S.map (fun s => s.2.2)).sum := by
    rw [← wsum_true (fun s : List L × List L × K => s.2.2) (fun _ => True) S (fun _ _ => trivial)]
    exact wsum_mono _ _ _ S hw (fun _ _ _ => trivial)
  refine ⟨by simp [accuracy, h], _, ?_, rfl, div_nonneg h0 (le_of_lt hpos), (div_le_one hpos).2 h1, ?_⟩
  · simp [accuracy, h, fdiv, ne_of_gt hpos]
  · rw [div_eq_one_iff_eq (ne_of_gt hpos)]
    exact wsum_eq_total _ _ S hw

/-- **C26.** The score does not depend on the order of the samples, and giving no weights is giving weight one to every sample. -/
theorem C26_accuracy_order (S S' : List (List L × List L × K)) (hlen : ∀ s ∈ S, s.1.length = s.2.1.length) (hp : S.Perm S') (b : Bool) :
    accuracy (S.map (fun s => s.1)) (S.map (fun s => s.2.1)) b (some (S.map (fun s => s.2.2))) =
      accuracy (S'.map (fun s => s.1)) (S'.map (fun s => s.2.1)) b (some (S'.map (fun s => s.2.2))) ∧
    (∀ Yt Yp : List (List L), accuracy (K := K) Yt Yp b none = accuracy Yt Yp b (some (List.replicate Yt.length 1))) := by
  constructor
  · have h := accLoop_spec S [] 0 0 hlen
    have h' := accLoop_spec S' [] 0 0 (fun s hs => hlen s (hp.mem_iff.2 hs))
    simp only [List.nil_append, List.length_nil, zero_add] at h h'
    have e1 := wsum_perm (fun s : List L × List L × K => s.2.2) (fun s => s.1 = s.2.1) hp
    have e2 : (S.map (fun s => s.2.2)).sum = (S'.map (fun s => s.2.2)).sum := (hp.map _).sum_eq
    simp only [accuracy, h, h', e1, e2]
  · intro Yt Yp
    simp only [accuracy]
    rw [accLoop_ones Yp Yt.length Yt 0 (0, 0) (by omega)]

example : accuracy (K := ℚ) [[1, 2], [3, 4], [5, 6]] [[1, 2], [3, 0], [5, 6]] true (some [1, 2, 5]) = some (3 / 4) := by decide +kernel

end Accuracy

/-! ## C28 -/

section Confusion
variable {L : Type} [LinearOrder L]

/-- The encoder fitted on the true labels. -/
private def enc (yt : List L) : Enc L := yt.foldl Enc.add Enc.empty

theorem enc_spec (yt : List L) : (yt.foldl Enc.add Enc.empty).classes.Pairwise (· < ·) ∧
    ∀ v, v ∈ (yt.foldl Enc.add Enc.empty).classes ↔ v ∈ yt := by
  obtain ⟨a, _, c⟩ := foldl_add_inv yt Enc.empty (by simp [Enc.empty]) rfl
  exact ⟨a, fun v => by simpa [Enc.empty] using c v⟩

/-- `cmLoop` on indices: when every flat index is inside the data, each cell receives the weight of the samples pointing to it. -/
theorem cmLoop_spec (n : ℕ) {S : Type} (r c : S → ℤ) (w : S → K) (rest : List S) : ∀ (pre : List S) (cm : List K),
    (∀ s ∈ rest, 0 ≤ r s * n + c s ∧ (r s * n + c s).toNat < cm.length) →
    ∃ cm', cmLoop n (some ((pre ++ rest).map w)) (rest.map r) (rest.map c) pre.length cm = some cm' ∧
      cm'.length = cm.length ∧ ∀ k < cm.length, cm'.getD k 0 = cm.getD k 0 + wsum w (fun s => (r s * n + c s).toNat = k) rest := by
  induction rest with
  | nil => intro pre cm _; exact ⟨cm, by simp [cmLoop], rfl, by simp⟩
  | cons a rest ih =>
    intro pre cm h
    obtain ⟨h0, h1⟩ := h a (by simp)
    obtain ⟨cm', e, hl, hk⟩ := ih (pre ++ [a]) (cm.set (r a * n + c a).toNat (cm[(r a * n + c a).toNat] + w a))
      (fun s hs => by simpa using h s (by simp [hs]))
    refine ⟨cm', ?_, by simpa using hl, ?_⟩
    · rw [List.map_cons, List.map_cons, cmLoop]
      simp only [weightAt, List.map_append, List.map_cons]
      rw [List.getElem?_append_right (by simp)]
      simp only [List.length_map, Nat.sub_self, List.getElem?_cons_zero, Option.bind_eq_bind, Option.bind_some]
      rw [if_neg (not_lt.2 h0), List.getElem?_eq_getElem h1, Option.bind_some, ← e]
      simp
    · intro k hkl
      rw [hk k (by simpa using hkl), wsum_cons, List.getD_eq_getElem?_getD, List.getElem?_set, List.getD_eq_getElem?_getD]
      by_cases hh : (r a * n + c a).toNat = k
      · subst hh; simp [h1]; ring
      · simp [hh]

/-- If `cmLoop` does not panic, every flat index was inside the data. -/
theorem cmLoop_some (n : ℕ) {S : Type} (r c : S → ℤ) (w : S → K) (rest : List S) : ∀ (pre : List S) (cm cm' : List K),
    cmLoop n (some ((pre ++ rest).map w)) (rest.map r) (rest.map c) pre.length cm = some cm' →
    ∀ s ∈ rest, 0 ≤ r s * n + c s ∧ (r s * n + c s).toNat < cm.length := by
  induction rest with
  | nil => intro pre cm cm' _ s hs; simp at hs
  | cons a rest ih =>
    intro pre cm cm' h
    rw [List.map_cons, List.map_cons, cmLoop] at h
    simp only [weightAt, List.map_append, List.map_cons] at h
    rw [List.getElem?_append_right (by simp)] at h
    simp only [List.length_map, Nat.sub_self, List.getElem?_cons_zero, Option.bind_eq_bind, Option.bind_some] at h
    split at h
    · simp at h
    · rename_i h0
      cases ho : cm[(r a * n + c a).toNat]? with
      | none => rw [ho] at h; simp at h
      | some old =>
        rw [ho, Option.bind_some] at h
        have h1 := (List.getElem?_eq_some_iff.1 ho).1
        have := ih (pre ++ [a]) (cm.set (r a * n + c a).toNat (old + w a)) cm' (by rw [← h]; simp)
        intro s hs
        rcases List.mem_cons.1 hs with rfl | hs
        · exact ⟨not_lt.1 h0, h1⟩
        · simpa using this s hs

theorem sum_getD (xs : List K) : ((List.range xs.length).map (fun k => xs.getD k 0)).sum = xs.sum := by
  congr 1
  apply List.ext_getElem
  · simp
  · intro i h1 h2
    simp [List.getElem?_eq_getElem h2]

/-- Total weight is kept by `cmLoop` whenever it returns. -/
theorem cmLoop_total (n : ℕ) {S : Type} (r c : S → ℤ) (w : S → K) (S0 : List S) (cm cm' : List K)
    (h : cmLoop n (some (S0.map w)) (S0.map r) (S0.map c) 0 cm = some cm') : cm'.sum = cm.sum + (S0.map w).sum := by
  have hin := cmLoop_some n r c w S0 [] cm cm' (by simpa using h)
  obtain ⟨cm2, e, hl, hk⟩ := cmLoop_spec n r c w S0 [] cm hin
  simp only [List.nil_append, List.length_nil] at e
  rw [h] at e
  obtain rfl := Option.some.inj e
  rw [← sum_getD cm', ← sum_getD cm, hl]
  have : (List.range cm.length).map (fun k => cm'.getD k 0) =
      (List.range cm.length).map (fun k => cm.getD k 0 + wsum w (fun s => (r s * n + c s).toNat = k) S0) := by
    apply List.map_congr_left
    intro k hk'
    exact hk k (List.mem_range.1 hk')
  rw [this, List.sum_map_add]
  congr 1
  have := wsum_split w (fun _ => True) (fun s => (r s * n + c s).toNat) (List.range cm.length) List.nodup_range S0
    (fun s hs _ => List.mem_range.2 (hin s hs).2)
  simp only [true_and] at this
  rw [this]
  exact wsum_true _ _ _ (fun _ _ => trivial)

theorem cell_inj {n r c r' c' : ℕ} (hc : c < n) (hc' : c' < n) : r * n + c = r' * n + c' ↔ r = r' ∧ c = c' := by
  constructor
  · intro h
    have h1 : (r * n + c) / n = r := by
      rw [Nat.add_comm, Nat.add_mul_div_right _ _ (by omega), Nat.div_eq_of_lt hc, Nat.zero_add]
    have h2 : (r' * n + c') / n = r' := by
      rw [Nat.add_comm, Nat.add_mul_div_right _ _ (by omega), Nat.div_eq_of_lt hc', Nat.zero_add]
    have : r = r' := by rw [← h1, ← h2, h]
    subst this
    exact ⟨rfl, by omega⟩
  · rintro ⟨rfl, rfl⟩; rfl

theorem cell_lt {n r c : ℕ} (hr : r < n) (hc : c < n) : r * n + c < n * n := by
  calc r * n + c < r * n + n := by omega
    _ = (r + 1) * n := by ring
    _ ≤ n * n := Nat.mul_le_mul_right _ hr

/-- What `ConfusionMatrix` returns when every predicted label is one of the true labels. -/
theorem confusion_known (S : List (L × L × K)) (hknown : ∀ s ∈ S, s.2.1 ∈ S.map (fun s => s.1)) :
    ∃ cm le, confusion (S.map (fun s => s.1)) (S.map (fun s => s.2.1)) (some (S.map (fun s => s.2.2))) = some (le.classes.length, cm, le) ∧
      le.classes.Pairwise (· < ·) ∧ (∀ v, v ∈ le.classes ↔ v ∈ S.map (fun s => s.1)) ∧
      cm.length = le.classes.length * le.classes.length ∧
      ∀ (i j : ℕ) (hi : i < le.classes.length) (hj : j < le.classes.length),
        cm.getD (i * le.classes.length + j) 0 = wsum (fun s => s.2.2) (fun s => s.1 = le.classes[i] ∧ s.2.1 = le.classes[j]) S := by
  obtain ⟨hs, hm⟩ := enc_spec (S.map (fun s => s.1))
  set le := (S.map (fun s => s.1)).foldl Enc.add Enc.empty with hle
  have hcode : ∀ v ∈ S.map (fun s => s.1), ∃ i, ∃ hi : i < le.classes.length, le.code v = (i : ℤ) ∧ le.classes[i] = v := by
    intro v hv
    obtain ⟨i, hi, e⟩ := List.getElem_of_mem ((hm v).2 hv)
    exact ⟨i, hi, by rw [← e]; exact code_mem le hs i hi, e⟩
  have hin : ∀ s ∈ S, 0 ≤ le.code s.1 * (le.classes.length : ℤ) + le.code s.2.1 ∧
      (le.code s.1 * (le.classes.length : ℤ) + le.code s.2.1).toNat < (List.replicate (le.classes.length * le.classes.length) (0 : K)).length := by
    intro s hs'
    obtain ⟨i, hi, ei, _⟩ := hcode s.1 (List.mem_map.2 ⟨s, hs', rfl⟩)
    obtain ⟨j, hj, ej, _⟩ := hcode s.2.1 (hknown s hs')
    rw [ei, ej]
    constructor
    · positivity
    · have := cell_lt hi hj
      rw [List.length_replicate]
      have e : ((i : ℤ) * (le.classes.length : ℤ) + (j : ℤ)) = ((i * le.classes.length + j : ℕ) : ℤ) := by push_cast; ring
      rw [e, Int.toNat_natCast]
      exact this
  obtain ⟨cm, e, hl, hk⟩ := cmLoop_spec le.classes.length (fun s : L × L × K => le.code s.1) (fun s => le.code s.2.1) (fun s => s.2.2) S []
    _ hin
  refine ⟨cm, le, ?_, hs, hm, by simpa using hl, ?_⟩
  · simp only [confusion, List.map_map]
    rw [← hle]
    simp only [List.nil_append, List.length_nil] at e
    have e' : cmLoop le.classes.length (some (S.map (fun s => s.2.2))) (S.map (le.code ∘ fun s => s.1)) (S.map (le.code ∘ fun s => s.2.1)) 0
      (List.replicate (le.classes.length * le.classes.length) 0) = some cm := e
    rw [e']
    rfl
  · intro i j hi hj
    rw [hk _ (by rw [List.length_replicate]; exact cell_lt hi hj)]
    have : (List.replicate (le.classes.length * le.classes.length) (0 : K)).getD (i * le.classes.length + j) 0 = 0 := by
      rw [List.getD_eq_getElem?_getD, List.getElem?_replicate]
      split <;> rfl
    rw [this, zero_add]
    apply wsum_congr
    intro s hs'
    obtain ⟨i', hi', ei, vi⟩ := hcode s.1 (List.mem_map.2 ⟨s, hs', rfl⟩)
    obtain ⟨j', hj', ej, vj⟩ := hcode s.2.1 (hknown s hs')
    rw [ei, ej]
    have hn : ((i' : ℤ) * (le.classes.length : ℤ) + (j' : ℤ)).toNat = i' * le.classes.length + j' := by
      have : ((i' : ℤ) * (le.classes.length : ℤ) + (j' : ℤ)) = ((i' * le.classes.length + j' : ℕ) : ℤ) := by push_cast; ring
      rw [this]; exact Int.toNat_natCast _
    rw [hn, cell_inj hj' hj]
    have hnod : le.classes.Nodup := hs.imp (fun {a b} h => ne_of_lt h)
    constructor
    · rintro ⟨rfl, rfl⟩; exact ⟨vi.symm, vj.symm⟩
    · rintro ⟨a, b⟩
      exact ⟨(hnod.getElem_inj_iff).1 (vi.trans a), (hnod.getElem_inj_iff).1 (vj.trans b)⟩

/-- **C28 (partial).** When every predicted label occurs among the true labels, the classes are the true labels in ascending order and
cell (r, c) holds the total weight of the samples of true class r and predicted class c.  Missing: predicted labels absent
from the truth, see `C28_unknown_violated`. -/
theorem C28_confusion_partial (S : List (L × L × K)) (hknown : ∀ s ∈ S, s.2.1 ∈ S.map (fun s => s.1)) :
    ∃ cm le, confusion (S.map (fun s => s.1)) (S.map (fun s => s.2.1)) (some (S.map (fun s => s.2.2))) = some (le.classes.length, cm, le) ∧
      le.classes.Pairwise (· < ·) ∧ (∀ v, v ∈ le.classes ↔ ∃ s ∈ S, s.1 = v) ∧ cm.length = le.classes.length * le.classes.length ∧
      ∀ (r c : ℕ) (hr : r < le.classes.length) (hc : c < le.classes.length),
        cm.getD (r * le.classes.length + c) 0 = wsum (fun s => s.2.2) (fun s => s.1 = le.classes[r] ∧ s.2.1 = le.classes[c]) S := by
  obtain ⟨cm, le, a, b, c, d, e⟩ := confusion_known S hknown
  exact ⟨cm, le, a, b, fun v => by rw [c v, List.mem_map], d, e⟩

/-- **C28.** Whatever the predictions, if a matrix is returned its entries sum to the total weight. -/
theorem C28_total (S : List (L × L × K)) (n : ℕ) (cm : List K) (le : Enc L)
    (h : confusion (S.map (fun s => s.1)) (S.map (fun s => s.2.1)) (some (S.map (fun s => s.2.2))) = some (n, cm, le)) :
    cm.sum = (S.map (fun s => s.2.2)).sum := by
  simp only [confusion, List.map_map, Option.bind_eq_bind] at h
  generalize hm : (cmLoop _ _ _ _ _ _ : Option (List K)) = o at h
  cases o with
  | none => simp at h
  | some cm' =>
    simp only [Option.bind_some, Option.pure_def, Option.some.injEq, Prod.mk.injEq] at h
    obtain ⟨_, rfl, _⟩ := h
    have := cmLoop_total _ _ _ (fun s : L × L × K => s.2.2) S _ cm' hm
    rw [this]
    simp

theorem foldl_add_two (a b : L) (hab : a < b) : [a, b].foldl Enc.add Enc.empty = (⟨[a, b], [1, 1]⟩ : Enc L) := by
  have h1 : Enc.add (Enc.empty : Enc L) a = ⟨[a], [1]⟩ := by
    rw [add_new_max (Enc.empty : Enc L) (by simp [Enc.empty]) rfl a (by simp [Enc.empty])]; rfl
  rw [List.foldl_cons, List.foldl_cons, List.foldl_nil, h1, add_new_max _ (by simp) rfl b (by simpa using hab)]
  rfl

/-- **C28 is violated for predicted labels absent from the truth.** With true labels `a < b`: a prediction `v` strictly between them is counted as a
prediction of `b`; a prediction above both moves the sample of true class `b` to the last cell of row `a`, and makes the
function panic for the sample of true class `a`. -/
theorem C28_unknown_violated (a b v : L) (hab : a < b) :
    (a < v → v < b → (confusion (K := K) [a, b] [v, b] none).map (fun r => r.2.1) = some [0, 1, 0, 1]) ∧
    (b < v → (confusion (K := K) [a, b] [a, v] none).map (fun r => r.2.1) = some [1, 1, 0, 0]) ∧
    (b < v → confusion (K := K) [a, b] [v, b] none = none) := by
  have hs : ([a, b] : List L).Pairwise (· < ·) := by simp [hab]
  have hle := hs.imp (fun {a b} (h : a < b) => le_of_lt h)
  have e := foldl_add_two a b hab
  have ca : (⟨[a, b], [1, 1]⟩ : Enc L).code a = 0 := code_mem ⟨[a, b], [1, 1]⟩ hs 0 (by simp)
  have cb : (⟨[a, b], [1, 1]⟩ : Enc L).code b = 1 := code_mem ⟨[a, b], [1, 1]⟩ hs 1 (by simp)
  have sp := searchFloat64s_spec [a, b] hle v
  refine ⟨fun h1 h2 => ?_, fun h => ?_, fun h => ?_⟩
  · have cv : (⟨[a, b], [1, 1]⟩ : Enc L).code v = 1 := by
      obtain ⟨p1, p2, p3⟩ := sp
      have hp : searchFloat64s [a, b] v = 1 := by
        have q0 : searchFloat64s [a, b] v ≠ 0 := by
          intro h0
          have := p3 0 (by simp) (by omega)
          simp at this
          exact absurd this (not_le.2 h1)
        have q2 : ¬ 1 < searchFloat64s [a, b] v := by
          intro h3
          have := p2 1 (by simp) h3
          simp at this
          exact absurd this (not_lt.2 (le_of_lt h2))
        omega
      simp [Enc.code, hp]
    simp only [confusion, List.map_cons, List.map_nil, e, ca, cb, cv]
    simp [cmLoop, weightAt, List.replicate_succ]
  · have cv : (⟨[a, b], [1, 1]⟩ : Enc L).code v = -1 := by
      obtain ⟨p1, p2, p3⟩ := sp
      have hp : searchFloat64s [a, b] v = 2 := by
        by_contra hne
        simp only [List.length_cons, List.length_nil] at p1
        have := p3 1 (by simp) (by omega)
        simp at this
        exact absurd this (not_le.2 h)
      simp [Enc.code, hp]
    simp only [confusion, List.map_cons, List.map_nil, e, ca, cb, cv]
    simp [cmLoop, weightAt, List.replicate_succ]
  · have cv : (⟨[a, b], [1, 1]⟩ : Enc L).code v = -1 := by
      obtain ⟨p1, p2, p3⟩ := sp
      have hp : searchFloat64s [a, b] v = 2 := by
        by_contra hne
        simp only [List.length_cons, List.length_nil] at p1
        have := p3 1 (by simp) (by omega)
        simp at this
        exact absurd this (not_le.2 h)
      simp [Enc.code, hp]
    simp only [confusion, List.map_cons, List.map_nil, e, ca, cb, cv]
    simp [cmLoop, weightAt]

example : (confusion (K := ℚ) [1, 2, 2, 3] [2, 2, 1, 3] (some [5, 1, 1, 4])).map (fun r => r.2.1) = some [0, 5, 0, 1, 1, 0, 0, 0, 4] := by
  decide +kernel

end Confusion

end Sk.Metrics
