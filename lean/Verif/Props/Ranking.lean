import Verif.Lemmas.Ranking
import Mathlib.Data.List.Sort
import Mathlib.Tactic.NormNum
import Mathlib.Algebra.Order.Ring.Rat
import Mathlib.Order.Monotone.Defs

/-!
# C29, C30: ROC curve and ROC AUC

Rows are observations (score, is it positive?, weight).  `SortsDesc sort`: the sort returns some permutation with descending scores, ties in any order.
`posAbove t S` / `negAbove t S`: weight of the positives / negatives of `S` scored at least `t`; `posW`, `negW`: total weights.
-/
set_option autoImplicit false

namespace Sk.Rank

open Sk.Metrics

variable {K : Type} [Field K] [LinearOrder K] [IsStrictOrderedRing K]

theorem clfCurve_spec (sort : List (Obs K) → List (Obs K)) (hsort : SortsDesc sort) (S : List (Obs K)) :
    (∀ p ∈ clfCurve sort S, Describes S p) ∧ ((clfCurve sort S).map Pt.thr).Pairwise (· > ·) ∧
    (∀ t, t ∈ (clfCurve sort S).map Pt.thr ↔ ∃ x ∈ S, x.score = t) ∧
    (∀ p, (clfCurve sort S).getLast? = some p → p.fp = negW S ∧ p.tp = posW S) ∧
    trapS 0 0 (clfCurve sort S) = wins S S := by
  obtain ⟨hperm, hs⟩ := hsort S
  obtain ⟨hf, hg⟩ := groups_spec (sort S) hs
  obtain ⟨h1, h2, h3, h4⟩ := curve_spec (groups (sort S)) [] hg (by simp)
  have h5 := trap_curve (groups (sort S)) [] hg (by simp)
  have e0 : (negW ([] : List (Obs K)), posW ([] : List (Obs K))) = ((0 : K), (0 : K)) := rfl
  have e1 : negW ([] : List (Obs K)) = 0 := rfl
  have e2 : posW ([] : List (Obs K)) = 0 := rfl
  simp only [e1, e2, List.nil_append, hf] at h1 h2 h3 h4 h5
  refine ⟨?_, h2, ?_, ?_, ?_⟩
  · intro p hp
    obtain ⟨a, b⟩ := h1 p hp
    exact ⟨a.trans (wsum_perm _ _ hperm), b.trans (wsum_perm _ _ hperm)⟩
  · intro t
    refine (h3 t).trans ?_
    simp only [hperm.mem_iff]
  · intro p hp
    obtain ⟨a, b⟩ := h4 p hp
    exact ⟨a.trans (wsum_perm _ _ hperm), b.trans (wsum_perm _ _ hperm)⟩
  · exact h5.trans (wins_perm hperm hperm)

/-- Everything about the points of the ROC curve before scaling. -/
theorem withStart_spec (sort : List (Obs K) → List (Obs K)) (hsort : SortsDesc sort) (S : List (Obs K)) (hS : S ≠ []) :
    ∃ c, withStart (clfCurve sort S) = some c ∧ c ≠ [] ∧ (∀ p ∈ c, Describes S p) ∧ (c.map Pt.thr).Pairwise (· > ·) ∧
      (∀ x ∈ S, x.score ∈ c.map Pt.thr) ∧ (∀ p, c.head? = some p → p.fp = 0) ∧
      (∀ p, c.getLast? = some p → p.fp = negW S ∧ p.tp = posW S) ∧ trapS 0 0 c = wins S S := by
  obtain ⟨h1, h2, h3, h4, h5⟩ := clfCurve_spec sort hsort S
  cases hc : clfCurve sort S with
  | nil =>
    exfalso
    obtain ⟨x, hx⟩ := List.exists_mem_of_ne_nil S hS
    have := (h3 x.score).2 ⟨x, hx, rfl⟩
    rw [hc] at this
    simp at this
  | cons p c =>
    rw [hc] at h1 h2 h3 h4 h5
    unfold withStart
    by_cases hp : p.fp = 0
    · refine ⟨p :: c, by simp [hp], by simp, h1, h2, ?_, ?_, h4, h5⟩
      · intro x hx
        exact (h3 _).2 ⟨x, hx, rfl⟩
      · intro q hq; simp at hq; rw [← hq]; exact hp
    · refine ⟨⟨0, 0, p.thr + 1⟩ :: p :: c, by simp [hp], by simp, ?_, ?_, ?_, ?_, ?_, ?_⟩
      · intro q hq
        rcases List.mem_cons.1 hq with rfl | hq
        · have hlow : ∀ x ∈ S, x.score < p.thr + 1 := by
            intro x hx
            have := (h3 x.score).2 ⟨x, hx, rfl⟩
            rw [List.map_cons, List.mem_cons] at this
            rcases this with h | h
            · rw [h]; linarith
            · have := (List.pairwise_cons.1 h2).1 _ h
              linarith
          exact ⟨(wsum_false _ _ S (fun x hx h => absurd h.2 (not_le.2 (hlow x hx)))).symm,
            (wsum_false _ _ S (fun x hx h => absurd h.2 (not_le.2 (hlow x hx)))).symm⟩
        · exact h1 q hq
      · rw [List.map_cons, List.pairwise_cons]
        refine ⟨?_, h2⟩
        intro t ht
        rw [List.map_cons, List.mem_cons] at ht
        rcases ht with rfl | ht
        · simp
        · have := (List.pairwise_cons.1 h2).1 _ ht
          simp only
          linarith
      · intro x hx
        rw [List.map_cons]
        exact List.mem_cons_of_mem _ ((h3 _).2 ⟨x, hx, rfl⟩)
      · intro q hq; simp at hq; rw [← hq]
      · intro q hq
        rw [List.getLast?_cons_cons] at hq
        exact h4 q hq
      · rw [trapS, h5]; simp

/-- **C30.** With nonnegative weights, both classes present (positive weight), `ROCCurve` returns thresholds in strictly descending order, among them every
score, and at each threshold `t` the false (true) positive rate of the rows scored at least `t`; both rates never decrease along the curve, the first
false positive rate is 0, and the last point is (1, 1). -/
theorem C30_roc_curve (sort : List (Obs K) → List (Obs K)) (hsort : SortsDesc sort) (S : List (Obs K)) (hw : ∀ x ∈ S, 0 ≤ x.w)
    (hp : 0 < posW S) (hn : 0 < negW S) :
    ∃ thr fpr tpr, rocCurve sort S = some (some fpr, some tpr, thr) ∧
      fpr = thr.map (fun t => negAbove t S / negW S) ∧ tpr = thr.map (fun t => posAbove t S / posW S) ∧
      thr.Pairwise (· > ·) ∧ (∀ x ∈ S, x.score ∈ thr) ∧ fpr.Pairwise (· ≤ ·) ∧ tpr.Pairwise (· ≤ ·) ∧
      fpr.head? = some 0 ∧ fpr.getLast? = some 1 ∧ tpr.getLast? = some 1 := by
  have hS : S ≠ [] := by rintro rfl; simp [posW] at hp
  obtain ⟨c, hc, hne, h1, h2, h3, h4, h5, _⟩ := withStart_spec sort hsort S hS
  obtain ⟨last, hl⟩ : ∃ last, c.getLast? = some last := ⟨c.getLast hne, List.getLast?_eq_some_getLast hne⟩
  obtain ⟨hlf, hlt⟩ := h5 last hl
  have ef : c.map (fun p => 1 / last.fp * p.fp) = (c.map Pt.thr).map (fun t => negAbove t S / negW S) := by
    rw [List.map_map]
    apply List.map_congr_left
    intro p hpc
    simp only [Function.comp, ← (h1 p hpc).1, hlf]
    ring
  have et : c.map (fun p => 1 / last.tp * p.tp) = (c.map Pt.thr).map (fun t => posAbove t S / posW S) := by
    rw [List.map_map]
    apply List.map_congr_left
    intro p hpc
    simp only [Function.comp, ← (h1 p hpc).2, hlt]
    ring
  refine ⟨c.map Pt.thr, _, _, ?_, ef, et, h2, h3, ?_, ?_, ?_, ?_, ?_⟩
  · unfold rocCurve
    simp [hc, hl, hlf, hlt, not_le.2 hp, not_le.2 hn]
  · rw [ef, List.pairwise_map]
    refine h2.imp ?_
    intro a b hab
    exact div_le_div_of_nonneg_right (wsum_mono _ _ _ S hw (fun x _ h => ⟨h.1, le_trans (le_of_lt hab) h.2⟩)) hn.le
  · rw [et, List.pairwise_map]
    refine h2.imp ?_
    intro a b hab
    exact div_le_div_of_nonneg_right (wsum_mono _ _ _ S hw (fun x _ h => ⟨h.1, le_trans (le_of_lt hab) h.2⟩)) hp.le
  · obtain ⟨p, c', rfl⟩ := List.exists_cons_of_ne_nil hne
    have := h4 p rfl
    simp [this]
  · rw [List.getLast?_map, hl]
    simp [ne_of_gt (hlf ▸ hn)]
  · rw [List.getLast?_map, hl]
    simp [ne_of_gt (hlt ▸ hp)]

/-- **C30.** Where the curve starts: at (0,0) unless the rows of the highest score contain no negative weight. The curve starts at (0,0) exactly when
negatives share the highest score, otherwise the first point is (0, rate of the top positives). -/
theorem C30_start (sort : List (Obs K) → List (Obs K)) (hsort : SortsDesc sort) (S : List (Obs K))
    (hp : 0 < posW S) (hn : 0 < negW S) (x : Obs K) (hx : x ∈ S) (hmax : ∀ y ∈ S, y.score ≤ x.score) :
    ∃ thr fpr tpr, rocCurve sort S = some (some fpr, some tpr, thr) ∧
      tpr.head? = some (if negAbove x.score S = 0 then posAbove x.score S / posW S else 0) := by
  have hS : S ≠ [] := List.ne_nil_of_mem hx
  obtain ⟨h1, h2, h3, h4, _⟩ := clfCurve_spec sort hsort S
  cases hc : clfCurve sort S with
  | nil =>
    exfalso
    have := (h3 x.score).2 ⟨x, hx, rfl⟩
    rw [hc] at this
    simp at this
  | cons p c =>
    rw [hc] at h1 h2 h3 h4
    have hthr : p.thr = x.score := by
      apply le_antisymm
      · obtain ⟨y, hy, e⟩ := (h3 p.thr).1 (by simp)
        rw [← e]; exact hmax y hy
      · have := (h3 x.score).2 ⟨x, hx, rfl⟩
        rw [List.map_cons, List.mem_cons] at this
        rcases this with h | h
        · exact le_of_eq h
        · exact le_of_lt ((List.pairwise_cons.1 h2).1 _ h)
    obtain ⟨d1, d2⟩ := h1 p (by simp)
    rw [hthr] at d1 d2
    obtain ⟨last, hl⟩ : ∃ last, (p :: c).getLast? = some last := ⟨_, List.getLast?_eq_some_getLast (by simp)⟩
    obtain ⟨hlf, hlt⟩ := h4 last hl
    have hl' : ∀ q : Pt K, (q :: p :: c).getLast? = some last := fun q => by rw [List.getLast?_cons_cons]; exact hl
    by_cases h0 : negAbove x.score S = 0
    · have hp0 : p.fp = 0 := d1.trans h0
      refine ⟨_, _, _, by simp [rocCurve, hc, withStart, hp0, hl, hlf, hlt, not_le.2 hp, not_le.2 hn]; exact ⟨rfl, rfl, rfl⟩, ?_⟩
      simp [h0, d2]
      ring
    · have hp0 : p.fp ≠ 0 := by rw [d1]; exact h0
      refine ⟨_, _, _, by simp [rocCurve, hc, withStart, hp0, hl', hlf, hlt, not_le.2 hp, not_le.2 hn]; exact ⟨rfl, rfl, rfl⟩, ?_⟩
      simp [h0]

/-- **C30.** With one class missing the corresponding rates are NaN. -/
theorem C30_one_class (sort : List (Obs K) → List (Obs K)) (hsort : SortsDesc sort) (S : List (Obs K)) (hS : S ≠ []) :
    ∃ fpr tpr thr, rocCurve sort S = some (fpr, tpr, thr) ∧ (negW S = 0 → fpr = none) ∧ (posW S = 0 → tpr = none) := by
  obtain ⟨c, hc, hne, _, _, _, _, h5, _⟩ := withStart_spec sort hsort S hS
  obtain ⟨last, hl⟩ : ∃ last, c.getLast? = some last := ⟨c.getLast hne, List.getLast?_eq_some_getLast hne⟩
  obtain ⟨hlf, hlt⟩ := h5 last hl
  refine ⟨_, _, _, by unfold rocCurve; simp only [hc, hl, Option.bind_eq_bind, Option.bind_some]; rfl, ?_, ?_⟩
  · intro h; rw [if_pos (by rw [hlf, h])]
  · intro h; rw [if_pos (by rw [hlt, h])]

/-- The Mann-Whitney statistic: the weighted proportion of (positive, negative) pairs in which the positive is scored higher, ties counting one half. -/
def mannWhitney (S : List (Obs K)) : K := wins S S / (posW S * negW S)

/-- **C29.** The ROC AUC is the Mann-Whitney statistic, whatever order the sort leaves ties in. -/
theorem C29_auc_mann_whitney (sort : List (Obs K) → List (Obs K)) (hsort : SortsDesc sort) (S : List (Obs K))
    (hp : 0 < posW S) (hn : 0 < negW S) : rocAuc sort S = some (some (mannWhitney S)) := by
  have hS : S ≠ [] := by rintro rfl; simp [posW] at hp
  obtain ⟨c, hc, hne, _, _, _, _, h5, h6⟩ := withStart_spec sort hsort S hS
  obtain ⟨last, hl⟩ : ∃ last, c.getLast? = some last := ⟨c.getLast hne, List.getLast?_eq_some_getLast hne⟩
  obtain ⟨hlf, hlt⟩ := h5 last hl
  have := auc_trap (1 / negW S) (1 / posW S) c 0 0 0
  simp only [mul_zero, zero_add, h6] at this
  simp only [rocAuc, rocCurve, hc, hl, Option.bind_eq_bind, Option.bind_some, hlf, hlt, if_neg (not_le.2 hp), if_neg (not_le.2 hn)]
  simp only [Option.pure_def, Option.map_some, Option.some.injEq]
  unfold auc mannWhitney
  rw [this]
  field_simp

theorem wins_bounds (S : List (Obs K)) (hw : ∀ x ∈ S, 0 ≤ x.w) (A B : List (Obs K)) (hA : ∀ x ∈ A, x ∈ S) (hB : ∀ x ∈ B, x ∈ S) :
    0 ≤ wins A B ∧ wins A B ≤ posW A * negW B := by
  have hwin : ∀ a b : Obs K, 0 ≤ win a b ∧ win a b ≤ 1 := by
    intro a b
    unfold win
    split
    · exact ⟨zero_le_one, le_refl _⟩
    · split
      · constructor <;> norm_num
      · exact ⟨le_refl _, zero_le_one⟩
  have hrow : ∀ b ∈ B, 0 ≤ (A.map (fun a => if a.pos = true ∧ b.pos = false then a.w * b.w * win a b else 0)).sum ∧
      (A.map (fun a => if a.pos = true ∧ b.pos = false then a.w * b.w * win a b else 0)).sum ≤ posW A * (if b.pos = false then b.w else 0) := by
    intro b hb
    have hbw := hw b (hB b hb)
    clear hB hb
    induction A with
    | nil => simp [posW]
    | cons a A ih =>
      have ih := ih (fun x hx => hA x (by simp [hx]))
      have haw := hw a (hA a (by simp))
      obtain ⟨w0, w1⟩ := hwin a b
      rw [List.map_cons, List.sum_cons]
      unfold posW at ih ⊢
      rw [wsum_cons]
      cases ha : a.pos <;> cases hb' : b.pos <;> simp only [ha, hb'] at ih ⊢ <;> simp at ih ⊢
      · exact ih
      · have := mul_nonneg haw hbw
        constructor
        · have := mul_nonneg this w0
          linarith [ih.1]
        · nlinarith [ih.2, mul_nonneg this (sub_nonneg.2 w1)]
  unfold wins negW
  clear hB
  induction B with
  | nil => simp
  | cons b B ih =>
    have ih := ih (fun b' hb' => hrow b' (by simp [hb']))
    have := hrow b (by simp)
    rw [List.map_cons, List.sum_cons, wsum_cons]
    constructor
    · linarith [this.1, ih.1]
    · rw [mul_add]; linarith [this.2, ih.2]

/-- **C29.** The statistic lies in [0,1], does not depend on the order of the rows, and does not change when the scores go through a strictly increasing
function. -/
theorem C29_auc_properties (sort : List (Obs K) → List (Obs K)) (hsort : SortsDesc sort) (S : List (Obs K)) (hw : ∀ x ∈ S, 0 ≤ x.w)
    (hp : 0 < posW S) (hn : 0 < negW S) :
    (∃ a, rocAuc sort S = some (some a) ∧ 0 ≤ a ∧ a ≤ 1) ∧
    (∀ sort' S', SortsDesc sort' → S'.Perm S → rocAuc sort' S' = rocAuc sort S) ∧
    (∀ f : K → K, StrictMono f → rocAuc sort (S.map (fun x => { x with score := f x.score })) = rocAuc sort S) := by
  have hb := wins_bounds S hw S S (fun _ h => h) (fun _ h => h)
  have hpn : 0 < posW S * negW S := mul_pos hp hn
  refine ⟨⟨_, C29_auc_mann_whitney sort hsort S hp hn, div_nonneg hb.1 hpn.le, (div_le_one hpn).2 hb.2⟩, ?_, ?_⟩
  · intro sort' S' hs' hperm
    have e1 : posW S' = posW S := wsum_perm _ _ hperm
    have e2 : negW S' = negW S := wsum_perm _ _ hperm
    rw [C29_auc_mann_whitney sort' hs' S' (e1 ▸ hp) (e2 ▸ hn), C29_auc_mann_whitney sort hsort S hp hn]
    unfold mannWhitney
    rw [e1, e2, wins_perm hperm hperm]
  · intro f hf
    have e1 : posW (S.map (fun x => { x with score := f x.score })) = posW S := by
      simp [posW, wsum, List.map_map, Function.comp_def]
    have e2 : negW (S.map (fun x => { x with score := f x.score })) = negW S := by
      simp [negW, wsum, List.map_map, Function.comp_def]
    rw [C29_auc_mann_whitney sort hsort _ (e1 ▸ hp) (e2 ▸ hn), C29_auc_mann_whitney sort hsort S hp hn]
    unfold mannWhitney
    rw [e1, e2]
    congr 3
    unfold wins
    simp only [List.map_map, Function.comp_def, win, hf.lt_iff_lt, hf.injective.eq_iff]

/-- A stable insertion sort by descending score. -/
def insSort (l : List (Obs K)) : List (Obs K) := l.insertionSort (fun a b => b.score ≤ a.score)

theorem insSort_ok : SortsDesc (insSort : List (Obs K) → List (Obs K)) := by
  intro l
  haveI : Std.Total (fun a b : Obs K => b.score ≤ a.score) := ⟨fun a b => le_total b.score a.score⟩
  haveI : IsTrans (Obs K) (fun a b => b.score ≤ a.score) := ⟨fun a b c h1 h2 => le_trans h2 h1⟩
  exact ⟨List.perm_insertionSort _ l, List.pairwise_insertionSort _ l⟩

/-! Non-trivial cases: sorts exist, and a curve with ties. -/
example : rocCurve (K := ℚ) insSort [⟨1, false, 1⟩, ⟨4, false, 1⟩, ⟨4, true, 1⟩, ⟨8, true, 2⟩] =
    some (some [0, 1 / 2, 1], some [2 / 3, 1, 1], [8, 4, 1]) := by decide +kernel
example : rocAuc (K := ℚ) insSort [⟨1, false, 1⟩, ⟨4, false, 1⟩, ⟨4, true, 1⟩, ⟨8, true, 2⟩] = some (some (11 / 12)) := by decide +kernel

end Sk.Rank
