import Verif.Props.Classification
import Mathlib.Data.Rat.Cast.Order
import Mathlib.Tactic.Linarith

/-!
# C243: the margins and the diagonal of the confusion matrix
-/
set_option autoImplicit false

namespace Sk.ConfFacts

open Sk.Metrics Sk.Label

variable {L K : Type} [LinearOrder L] [Field K] [LinearOrder K] [IsStrictOrderedRing K]

/-- Sum of row `r` of the row-major `n × n` matrix `cm`. -/
def rowSum (n : ℕ) (cm : List K) (r : ℕ) : K := ((List.range n).map (fun c => cm.getD (r * n + c) 0)).sum

/-- Sum of column `c`. -/
def colSum (n : ℕ) (cm : List K) (c : ℕ) : K := ((List.range n).map (fun r => cm.getD (r * n + c) 0)).sum

/-- Sum of the diagonal. -/
def trace (n : ℕ) (cm : List K) : K := ((List.range n).map (fun r => cm.getD (r * n + r) 0)).sum

omit [LinearOrder L] [LinearOrder K] [IsStrictOrderedRing K] in
private theorem sum_range (cs : List L) (f : ℕ → K) (g : L → K) (h : ∀ (i : ℕ) (hi : i < cs.length), f i = g cs[i]) :
    ((List.range cs.length).map f).sum = (cs.map g).sum := by
  congr 1
  apply List.ext_getElem
  · simp
  · intro i h1 h2
    simp only [List.getElem_map, List.getElem_range]
    exact h i (by simpa using h1)

/-- **C243.** When every predicted label is also a true label, row `r` of the matrix sums to the weight of the samples of class `r`, column `c`
to the weight of the samples predicted as `c`, and the diagonal to the weight of the samples predicted correctly. -/
theorem C243_margins (S : List (L × L × K)) (hknown : ∀ s ∈ S, ∃ t ∈ S, t.1 = s.2.1) :
    ∃ n cm le, confusion (S.map (fun s => s.1)) (S.map (fun s => s.2.1)) (some (S.map (fun s => s.2.2))) = some (n, cm, le) ∧ le.classes.length = n ∧
      (∀ (r : ℕ) (hr : r < le.classes.length), rowSum n cm r = wsum (fun s => s.2.2) (fun s => s.1 = le.classes[r]) S) ∧
      (∀ (c : ℕ) (hc : c < le.classes.length), colSum n cm c = wsum (fun s => s.2.2) (fun s => s.2.1 = le.classes[c]) S) ∧
      trace n cm = wsum (fun s => s.2.2) (fun s => s.1 = s.2.1) S := by
  obtain ⟨cm, le, e, hs, hm, -, hc⟩ := confusion_known S (fun s hs => by
    obtain ⟨t, ht, e⟩ := hknown s hs
    exact List.mem_map.2 ⟨t, ht, e⟩)
  have hnd : le.classes.Nodup := hs.imp (fun {a b} h => ne_of_lt h)
  have m1 : ∀ s ∈ S, s.1 ∈ le.classes := fun s h => (hm _).2 (List.mem_map.2 ⟨s, h, rfl⟩)
  have m2 : ∀ s ∈ S, s.2.1 ∈ le.classes := fun s h => by
    obtain ⟨t, ht, e⟩ := hknown s h
    exact (hm _).2 (List.mem_map.2 ⟨t, ht, e⟩)
  refine ⟨_, cm, le, e, rfl, fun r hr => ?_, fun c hc' => ?_, ?_⟩
  · unfold rowSum
    rw [sum_range le.classes _ (fun v => wsum (fun s => s.2.2) (fun s => s.1 = le.classes[r] ∧ s.2.1 = v) S) (fun i hi => hc r i hr hi)]
    exact wsum_split _ (fun s : L × L × K => s.1 = le.classes[r]) (fun s => s.2.1) le.classes hnd S (fun s h _ => m2 s h)
  · unfold colSum
    rw [sum_range le.classes _ (fun v => wsum (fun s => s.2.2) (fun s => s.2.1 = le.classes[c] ∧ s.1 = v) S) (fun i hi => by
      rw [hc i c hi hc']
      simp only [and_comm])]
    exact wsum_split _ (fun s : L × L × K => s.2.1 = le.classes[c]) (fun s => s.1) le.classes hnd S (fun s h _ => m1 s h)
  · unfold trace
    rw [sum_range le.classes _ (fun v => wsum (fun s => s.2.2) (fun s => s.1 = s.2.1 ∧ s.1 = v) S) (fun i hi => by
      rw [hc i i hi hi]
      congr 1
      funext s
      exact propext ⟨fun h => ⟨h.1.trans h.2.symm, h.1⟩, fun h => ⟨h.2, h.1.symm.trans h.2⟩⟩)]
    exact wsum_split _ (fun s : L × L × K => s.1 = s.2.1) (fun s => s.1) le.classes hnd S (fun s h _ => m1 s h)

/-- **C243.** For weights that are not negative and not all 0, `AccuracyScore` of the same labels is the diagonal of the matrix divided by the sum of
all its cells, and it is 1 exactly when every cell off the diagonal is 0. -/
theorem C243_accuracy (S : List (L × L × K)) (hknown : ∀ s ∈ S, ∃ t ∈ S, t.1 = s.2.1) (hw : ∀ s ∈ S, 0 ≤ s.2.2) (hpos : 0 < (S.map (fun s => s.2.2)).sum) :
    ∃ n cm le a, confusion (S.map (fun s => s.1)) (S.map (fun s => s.2.1)) (some (S.map (fun s => s.2.2))) = some (n, cm, le) ∧
      accuracy (S.map (fun s => [s.1])) (S.map (fun s => [s.2.1])) true (some (S.map (fun s => s.2.2))) = some a ∧
      accuracy (S.map (fun s => [s.1])) (S.map (fun s => [s.2.1])) false (some (S.map (fun s => s.2.2))) = some (trace n cm) ∧
      a = trace n cm / cm.sum ∧ (a = 1 ↔ ∀ r c, r < n → c < n → r ≠ c → cm.getD (r * n + c) 0 = 0) := by
  obtain ⟨n, cm, le, e, hn, -, -, ht⟩ := C243_margins S hknown
  have htot := C28_total S n cm le e
  have hacc := C26_accuracy (S.map (fun s => ([s.1], [s.2.1], s.2.2))) (by
    intro s hs
    obtain ⟨t, ht, rfl⟩ := List.mem_map.1 hs
    rfl) (by
    intro s hs
    obtain ⟨t, ht, rfl⟩ := List.mem_map.1 hs
    exact hw t ht) (by simpa [List.map_map, Function.comp_def] using hpos)
  have hws : wsum (fun s : List L × List L × K => s.2.2) (fun s => s.1 = s.2.1) (S.map (fun s => ([s.1], [s.2.1], s.2.2))) = trace n cm := by
    rw [ht]
    simp only [wsum, List.map_map, Function.comp_def, List.cons.injEq, and_true]
  rw [hws] at hacc
  simp only [List.map_map, Function.comp_def] at hacc
  obtain ⟨h0, a, ha, hae, -, -, h1⟩ := hacc
  refine ⟨n, cm, le, a, e, ha, h0, by rw [hae, htot], h1.trans ?_⟩
  obtain ⟨cm', le', e', hs, hm, -, hc⟩ := confusion_known S (fun s hs => by
    obtain ⟨t, ht, e⟩ := hknown s hs
    exact List.mem_map.2 ⟨t, ht, e⟩)
  rw [e] at e'
  simp only [Option.some.injEq, Prod.mk.injEq] at e'
  obtain ⟨hn', rfl, rfl⟩ := e'
  subst hn'
  have hnd : le.classes.Nodup := hs.imp (fun {a b} h => ne_of_lt h)
  constructor
  · intro h r c hr hc' hrc
    rw [hc r c hr hc']
    apply List.sum_eq_zero
    intro x hx
    obtain ⟨s, hsS, rfl⟩ := List.mem_map.1 hx
    split_ifs with hrs
    · rcases (hw s hsS).lt_or_eq with hp | hz
      · have := h ([s.1], [s.2.1], s.2.2) (List.mem_map.2 ⟨s, hsS, rfl⟩) hp
        simp only [List.cons.injEq, and_true] at this
        exact absurd ((List.Nodup.getElem_inj_iff hnd).1 (hrs.1.symm.trans (this.trans hrs.2))) hrc
      · exact hz.symm
    · rfl
  · intro h s hs' hp
    obtain ⟨t, htS, rfl⟩ := List.mem_map.1 hs'
    obtain ⟨u, hu, eu⟩ := hknown t htS
    obtain ⟨r, hr, er⟩ := List.getElem_of_mem ((hm _).2 (List.mem_map.2 ⟨t, htS, rfl⟩))
    obtain ⟨c, hc', ec⟩ := List.getElem_of_mem ((hm _).2 (List.mem_map.2 ⟨u, hu, eu⟩))
    by_cases hrc : r = c
    · subst hrc
      simp only [List.cons.injEq, and_true]
      exact er.symm.trans ec
    · have hz := h r c hr hc' hrc
      rw [hc r c hr hc'] at hz
      have hle : t.2.2 ≤ wsum (fun s => s.2.2) (fun s => s.1 = le.classes[r] ∧ s.2.1 = le.classes[c]) S := by
        have hmem : t.2.2 ∈ S.map (fun s => if s.1 = le.classes[r] ∧ s.2.1 = le.classes[c] then s.2.2 else 0) :=
          List.mem_map.2 ⟨t, htS, by rw [if_pos ⟨er.symm, ec.symm⟩]⟩
        exact List.single_le_sum (fun x hx => by
          obtain ⟨s, hsS, rfl⟩ := List.mem_map.1 hx
          split_ifs
          · exact hw s hsS
          · exact le_rfl) _ hmem
      exact absurd hp (not_lt.2 (hle.trans hz.le))

/-- Three samples of two classes with weights 1, 2 and 3, the last one predicted wrongly. -/
example : ∃ n cm le a, confusion [0, 1, 1] [0, 1, 0] (some [(1 : ℚ), 2, 3]) = some (n, cm, le) ∧ accuracy [[0], [1], [1]] [[0], [1], [0]] true (some [(1 : ℚ), 2, 3]) = some a ∧
    accuracy [[0], [1], [1]] [[0], [1], [0]] false (some [(1 : ℚ), 2, 3]) = some (trace n cm) ∧ a = trace n cm / cm.sum ∧ (a = 1 ↔ ∀ r c, r < n → c < n → r ≠ c → cm.getD (r * n + c) 0 = 0) :=
  C243_accuracy [((0 : ℕ), 0, (1 : ℚ)), (1, 1, 2), (1, 0, 3)] (by simp) (by simp) (by norm_num)

end Sk.ConfFacts
