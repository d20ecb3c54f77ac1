import Verif.Props.Classification

/-! # C27: precision, recall, F-score -/
set_option autoImplicit false

namespace Sk.Metrics

open Sk.Label Sk.GoSort

variable {K : Type} [Field K] [LinearOrder K] [IsStrictOrderedRing K] {L : Type} [LinearOrder L]

/-! Specification: `TP`, `PP`, `TT` are the weights of the true positives, of the predicted and of the true members of class `v`. -/

/-- Weight of the samples of class `v` predicted as `v`. -/
def TP (S : List (L × L × K)) (v : L) : K := wsum (fun s => s.2.2) (fun s => s.1 = v ∧ s.2.1 = v) S
/-- Weight of the samples predicted as `v` (TP + FP). -/
def PP (S : List (L × L × K)) (v : L) : K := wsum (fun s => s.2.2) (fun s => s.2.1 = v) S
/-- Weight of the samples of class `v` (TP + FN). -/
def TT (S : List (L × L × K)) (v : L) : K := wsum (fun s => s.2.2) (fun s => s.1 = v) S

theorem map_range_get {A B : Type} (xs : List A) (f : A → B) (g : ℕ → B) (h : ∀ (i : ℕ) (hi : i < xs.length), g i = f xs[i]) :
    (List.range xs.length).map g = xs.map f := by
  apply List.ext_getElem
  · simp
  · intro i h1 h2
    simp only [List.getElem_map, List.getElem_range]
    exact h i (by simpa using h1)

/-- The sums read from the matrix are the specification sums. -/
theorem sumsOf_spec (S : List (L × L × K)) (hknown : ∀ s ∈ S, s.2.1 ∈ S.map (fun s => s.1)) (cs : List L) (cm : List K)
    (hs : cs.Pairwise (· < ·)) (hm : ∀ v, v ∈ cs ↔ v ∈ S.map (fun s => s.1))
    (hc : ∀ (i j : ℕ) (hi : i < cs.length) (hj : j < cs.length), cm.getD (i * cs.length + j) 0 =
      wsum (fun s => s.2.2) (fun s => s.1 = cs[i] ∧ s.2.1 = cs[j]) S) (c : ℕ) (h : c < cs.length) :
    sumsOf cs.length cm c = ⟨TP S cs[c], TT S cs[c], PP S cs[c]⟩ := by
  have hn : cs.Nodup := hs.imp (fun {a b} h => ne_of_lt h)
  unfold sumsOf
  congr 1
  · exact hc c c h h
  · rw [map_range_get cs (fun v => wsum (fun s => s.2.2) (fun s => s.1 = cs[c] ∧ s.2.1 = v) S) _ (fun j hj => hc c j h hj)]
    exact wsum_split (fun s : L × L × K => s.2.2) (fun s => s.1 = cs[c]) (fun s => s.2.1) cs hn S (fun s hs' _ => (hm _).2 (hknown s hs'))
  · rw [map_range_get cs (fun v => wsum (fun s => s.2.2) (fun s => s.2.1 = cs[c] ∧ s.1 = v) S) _ (fun i hi => by
      rw [hc i c hi h]
      exact wsum_congr _ _ _ _ (fun s _ => and_comm))]
    exact wsum_split (fun s : L × L × K => s.2.2) (fun s => s.2.1 = cs[c]) (fun s => s.1) cs hn S
      (fun s hs' _ => (hm _).2 (List.mem_map.2 ⟨s, hs', rfl⟩))

/-- What the four numbers of one class must be. -/
structure ClassScores (tp tt pp beta : K) (q : PRFS K) : Prop where
  precision : q.p = if 0 < pp then tp / pp else 0
  recall : q.r = if 0 < tt then tp / tt else 0
  /-- F-beta is the weighted harmonic mean of precision and recall, 0 when both are 0 -/
  fscore : q.f * (beta ^ 2 * q.p + q.r) = (1 + beta ^ 2) * q.p * q.r
  fzero : q.p = 0 → q.f = 0
  bounds : (0 ≤ q.p ∧ q.p ≤ 1) ∧ (0 ≤ q.r ∧ q.r ≤ 1) ∧ (0 ≤ q.f ∧ q.f ≤ 1)

theorem prfs_spec (beta s tp tt pp : K) (hb : 0 < beta) (h0 : 0 ≤ tp) (h1 : tp ≤ tt) (h2 : tp ≤ pp) :
    ClassScores tp tt pp beta (prfs beta s ⟨tp, tt, pp⟩) := by
  have hp : 0 ≤ (if 0 < pp then tp / pp else 0) ∧ (if 0 < pp then tp / pp else 0) ≤ 1 := by
    split
    · rename_i h; exact ⟨div_nonneg h0 h.le, (div_le_one h).2 h2⟩
    · exact ⟨le_refl _, zero_le_one⟩
  have hr : 0 ≤ (if 0 < tt then tp / tt else 0) ∧ (if 0 < tt then tp / tt else 0) ≤ 1 := by
    split
    · rename_i h; exact ⟨div_nonneg h0 h.le, (div_le_one h).2 h1⟩
    · exact ⟨le_refl _, zero_le_one⟩
  unfold prfs
  simp only
  generalize hpe : (if 0 < pp then tp / pp else 0) = p at *
  generalize hre : (if 0 < tt then tp / tt else 0) = r at *
  have hb2 : 0 < beta * beta := mul_pos hb hb
  by_cases hd : 0 < beta * beta * p + r
  · rw [if_pos hd]
    have hnum : 0 ≤ (1 + beta * beta) * p * r := mul_nonneg (mul_nonneg (by linarith) hp.1) hr.1
    refine ⟨hpe.symm, hre.symm, ?_, ?_, hp, hr, div_nonneg hnum hd.le, ?_⟩
    · simp only
      have : beta ^ 2 * p + r = beta * beta * p + r := by ring
      rw [this, div_mul_cancel₀ _ (ne_of_gt hd)]
      ring
    · simp only; rintro rfl; simp
    · simp only
      rw [div_le_one hd]
      nlinarith [mul_nonneg hp.1 (sub_nonneg.2 hr.2), mul_nonneg hr.1 (sub_nonneg.2 hp.2), mul_nonneg hb2.le (mul_nonneg hp.1 (sub_nonneg.2 hr.2))]
  · rw [if_neg hd]
    have hp0 : p = 0 := by
      by_contra hne
      exact hd (add_pos_of_pos_of_nonneg (mul_pos hb2 (lt_of_le_of_ne hp.1 (Ne.symm hne))) hr.1)
    subst hp0
    refine ⟨hpe.symm, hre.symm, ?_, ?_, hp, hr, le_refl _, zero_le_one⟩
    · simp
    · intro _; rfl

section
variable (S : List (L × L × K)) (hw : ∀ s ∈ S, 0 ≤ s.2.2)
include hw
theorem TP_nonneg (v : L) : 0 ≤ TP S v := wsum_nonneg _ _ S hw
theorem TP_le_TT (v : L) : TP S v ≤ TT S v := wsum_mono _ _ _ S hw (fun _ _ h => h.1)
theorem TP_le_PP (v : L) : TP S v ≤ PP S v := wsum_mono _ _ _ S hw (fun _ _ h => h.2)
end

/-- **C27 (partial).** When every predicted label occurs among the true labels and weights are nonnegative: for the c-th class in
ascending order, the precision is TP/(TP+FP), the recall TP/(TP+FN) (0 for an empty class), the F-score their weighted harmonic mean,
all within [0,1].  Missing: predictions absent from the truth (see `C28_unknown_violated`). -/
theorem C27_class_scores_partial (S : List (L × L × K)) (hw : ∀ s ∈ S, 0 ≤ s.2.2) (hknown : ∀ s ∈ S, s.2.1 ∈ S.map (fun s => s.1))
    (beta : K) (hb : 0 < beta) (cs : List L) (hs : cs.Pairwise (· < ·)) (hm : ∀ v, v ∈ cs ↔ v ∈ S.map (fun s => s.1)) (avg : Average) :
    (∀ (c : ℕ) (h : c < cs.length), ∃ q, prfScore (S.map (fun s => s.1)) (S.map (fun s => s.2.1)) beta (some c) avg
        (some (S.map (fun s => s.2.2))) = some q ∧ ClassScores (TP S cs[c]) (TT S cs[c]) (PP S cs[c]) beta q) ∧
    (∀ c, cs.length ≤ c → prfScore (S.map (fun s => s.1)) (S.map (fun s => s.2.1)) beta (some c) avg (some (S.map (fun s => s.2.2))) = none) := by
  obtain ⟨cm, le, e, hs', hm', _, hc⟩ := confusion_known S hknown
  have hcs : le.classes = cs :=
    List.Perm.eq_of_pairwise (le := (· < ·)) (fun a b _ _ h1 h2 => absurd h1 (lt_asymm h2)) hs' hs
      ((List.perm_ext_iff_of_nodup (hs'.imp (fun {a b} h => ne_of_lt h)) (hs.imp (fun {a b} h => ne_of_lt h))).2
        (fun v => (hm' v).trans (hm v).symm))
  have hsum := sumsOf_spec S hknown le.classes cm hs' hm' hc
  subst hcs
  constructor
  · intro c h
    refine ⟨prfs beta ((le.support.getD c 0 : ℕ) : K) (sumsOf le.classes.length cm c), ?_, ?_⟩
    · simp [prfScore, e, h]
    · rw [hsum c h]
      exact prfs_spec _ _ _ _ _ hb (TP_nonneg S hw _) (TP_le_TT S hw _) (TP_le_PP S hw _)
  · intro c h
    simp [prfScore, e, h]

/-- **C27 (partial).** Micro averaging: precision, recall and F-score all coincide with the accuracy, for every beta.
Missing for the full claim: what `C27_weighted_violated` refutes. -/
theorem C27_micro_partial (S : List (L × L × K)) (hw : ∀ s ∈ S, 0 ≤ s.2.2) (hpos : 0 < (S.map (fun s => s.2.2)).sum)
    (hknown : ∀ s ∈ S, s.2.1 ∈ S.map (fun s => s.1)) (beta : K) (hb : 0 < beta) :
    ∃ a, accuracy (S.map (fun s => [s.1])) (S.map (fun s => [s.2.1])) true (some (S.map (fun s => s.2.2))) = some a ∧
      prfScore (S.map (fun s => s.1)) (S.map (fun s => s.2.1)) beta none .micro (some (S.map (fun s => s.2.2))) = some ⟨a, a, a, 0⟩ := by
  obtain ⟨cm, le, e, hs', hm', _, hc⟩ := confusion_known S hknown
  have hsum := sumsOf_spec S hknown le.classes cm hs' hm' hc
  have hn : le.classes.Nodup := hs'.imp (fun {a b} h => ne_of_lt h)
  have hgs : (List.range le.classes.length).map (sumsOf le.classes.length cm) = le.classes.map (fun v => ⟨TP S v, TT S v, PP S v⟩) :=
    map_range_get _ _ _ hsum
  have htp : (le.classes.map (fun v => TP S v)).sum = wsum (fun s => s.2.2) (fun s => s.1 = s.2.1) S := by
    rw [← wsum_split (fun s : L × L × K => s.2.2) (fun s => s.1 = s.2.1) (fun s => s.1) le.classes hn S
      (fun s hs _ => (hm' _).2 (List.mem_map.2 ⟨s, hs, rfl⟩))]
    congr 1
    apply List.map_congr_left
    intro v _
    apply wsum_congr
    intro s _
    constructor
    · rintro ⟨a, b⟩; exact ⟨a.trans b.symm, a⟩
    · rintro ⟨a, b⟩; exact ⟨b, a ▸ b⟩
  have htt : (le.classes.map (fun v => TT S v)).sum = (S.map (fun s => s.2.2)).sum := by
    have := wsum_split (fun s : L × L × K => s.2.2) (fun _ => True) (fun s => s.1) le.classes hn S
      (fun s hs _ => (hm' _).2 (List.mem_map.2 ⟨s, hs, rfl⟩))
    simp only [true_and] at this
    rw [wsum_true _ _ _ (fun _ _ => trivial)] at this
    exact this
  have hpp : (le.classes.map (fun v => PP S v)).sum = (S.map (fun s => s.2.2)).sum := by
    have := wsum_split (fun s : L × L × K => s.2.2) (fun _ => True) (fun s => s.2.1) le.classes hn S
      (fun s hs _ => (hm' _).2 (hknown s hs))
    simp only [true_and] at this
    rw [wsum_true _ _ _ (fun _ _ => trivial)] at this
    exact this
  obtain ⟨_, a, ha, hae, h0, h1, _⟩ := C26_accuracy (L := L) (S.map (fun s => ([s.1], [s.2.1], s.2.2))) (by
    intro s hs
    obtain ⟨t, _, rfl⟩ := List.mem_map.1 hs
    rfl) (by
    intro s hs
    obtain ⟨t, ht, rfl⟩ := List.mem_map.1 hs
    exact hw t ht) (by simpa [List.map_map, Function.comp_def] using hpos)
  simp only [List.map_map, Function.comp_def] at ha hae
  refine ⟨a, ha, ?_⟩
  have hwe : wsum (fun s : List L × List L × K => s.2.2) (fun s => s.1 = s.2.1) (S.map (fun s => ([s.1], [s.2.1], s.2.2))) =
      wsum (fun s : L × L × K => s.2.2) (fun s => s.1 = s.2.1) S := by
    unfold wsum
    rw [List.map_map]
    congr 1
    apply List.map_congr_left
    intro s _
    simp
  rw [hwe] at hae
  have hg : prfScore (S.map (fun s => s.1)) (S.map (fun s => s.2.1)) beta none .micro (some (S.map (fun s => s.2.2))) =
      some { prfs beta 0 ⟨wsum (fun s => s.2.2) (fun s => s.1 = s.2.1) S, (S.map (fun s => s.2.2)).sum, (S.map (fun s => s.2.2)).sum⟩ with s := 0 } := by
    simp only [prfScore, e, Option.bind_eq_bind, Option.bind_some]
    rw [hgs]
    simp only [List.map_map, Function.comp_def]
    rw [htp, htt, hpp]
  rw [hg]
  simp only [prfs, if_pos hpos, ← hae]
  congr 2
  have hb2 : 0 < beta * beta := mul_pos hb hb
  by_cases hz : a = 0
  · subst hz; simp
  · have hap : 0 < a := lt_of_le_of_ne h0 (Ne.symm hz)
    rw [if_pos (by nlinarith [mul_pos hb2 hap])]
    have : beta * beta * a + a ≠ 0 := ne_of_gt (by nlinarith [mul_pos hb2 hap])
    rw [div_eq_iff this]; ring

/-- **C27 (partial).** Macro averaging returns the plain means over the classes of the class scores.
Missing for the full claim: what `C27_weighted_violated` refutes. -/
theorem C27_macro_partial (S : List (L × L × K)) (hknown : ∀ s ∈ S, s.2.1 ∈ S.map (fun s => s.1)) (beta : K) (cs : List L)
    (hs : cs.Pairwise (· < ·)) (hm : ∀ v, v ∈ cs ↔ v ∈ S.map (fun s => s.1)) :
    ∃ per : List (PRFS K), per.length = cs.length ∧
      (∀ c < cs.length, prfScore (S.map (fun s => s.1)) (S.map (fun s => s.2.1)) beta (some c) .macro (some (S.map (fun s => s.2.2))) = per[c]?) ∧
      prfScore (S.map (fun s => s.1)) (S.map (fun s => s.2.1)) beta none .macro (some (S.map (fun s => s.2.2))) =
        some ⟨(per.map PRFS.p).sum / cs.length, (per.map PRFS.r).sum / cs.length, (per.map PRFS.f).sum / cs.length, 0⟩ := by
  obtain ⟨cm, le, e, hs', hm', _, hc⟩ := confusion_known S hknown
  have hcs : le.classes = cs :=
    List.Perm.eq_of_pairwise (le := (· < ·)) (fun a b _ _ h1 h2 => absurd h1 (lt_asymm h2)) hs' hs
      ((List.perm_ext_iff_of_nodup (hs'.imp (fun {a b} h => ne_of_lt h)) (hs.imp (fun {a b} h => ne_of_lt h))).2
        (fun v => (hm' v).trans (hm v).symm))
  subst hcs
  refine ⟨(List.range le.classes.length).map (fun c => prfs beta ((le.support.getD c 0 : ℕ) : K) (sumsOf le.classes.length cm c)), by simp, ?_, ?_⟩
  · intro c h
    simp [prfScore, e]
  · simp [prfScore, e, statMean]

/-- **C27: "weighted" is violated.** The average "weighted" ignores the supports: for all data it returns what "macro" returns; on the
witness the support-weighted mean of the recalls (which is the accuracy, 3/4) differs from the returned 1/2. -/
theorem C27_weighted_violated :
    (∀ (yt yp : List L) (beta : K) (w : Option (List K)), prfScore yt yp beta none .weighted w = prfScore yt yp beta none .macro w) ∧
    (prfScore (K := ℚ) [1, 1, 1, 2] [1, 1, 1, 1] 1 none .weighted none).map PRFS.r = some (1 / 2) ∧
    accuracy (K := ℚ) [[1], [1], [1], [2]] [[1], [1], [1], [1]] true none = some (3 / 4) :=
  ⟨fun _ _ _ _ => rfl, by decide +kernel, by decide +kernel⟩

example : (prfScore (K := ℚ) [1, 2, 2, 3] [2, 2, 1, 3] 1 (some 1) .macro (some [5, 1, 1, 4])).map (fun q => (q.p, q.r, q.f)) =
    some (1 / 6, 1 / 2, 1 / 4) := by decide +kernel

end Sk.Metrics
