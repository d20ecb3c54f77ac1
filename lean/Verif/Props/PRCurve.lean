import Verif.Props.Ranking
import Verif.Lemmas.GoSort

/-! # C74: precision-recall curve and average precision -/
set_option autoImplicit false

namespace Sk.Rank

open Sk.Metrics Sk.GoSort

variable {K : Type} [Field K] [LinearOrder K] [IsStrictOrderedRing K]

/-- Precision of the rows scored at least `t`. -/
def precisionAt (S : List (Obs K)) (t : K) : K := posAbove t S / (posAbove t S + negAbove t S)
/-- Recall of the rows scored at least `t`. -/
def recallAt (S : List (Obs K)) (t : K) : K := posAbove t S / posW S

theorem pairwise_getElem_iff {A : Type} (R : A → A → Prop) (l : List A) (h : l.Pairwise R) (i j : ℕ) (hi : i < l.length) (hj : j < l.length) (hij : i < j) :
    R l[i] l[j] := List.pairwise_iff_getElem.1 h i j hi hj hij

/-- The PR curve before averaging. -/
theorem prCurve_spec (sort : List (Obs K) → List (Obs K)) (hsort : SortsDesc sort) (S : List (Obs K)) (hw : ∀ x ∈ S, 0 < x.w) (hp : 0 < posW S) :
    ∃ thr, prCurve sort S = some (thr.map (fun t => some (precisionAt S t)) ++ [some 1], thr.map (fun t => some (recallAt S t)) ++ [some 0], thr) ∧
      thr.Pairwise (· < ·) ∧ (∃ t, thr.head? = some t ∧ recallAt S t = 1) ∧
      ∀ t, t ∈ thr ↔ (∃ x ∈ S, x.score = t) ∧ ∀ x ∈ S, t < x.score → posAbove x.score S < posW S := by
  have hw' : ∀ x ∈ S, 0 ≤ x.w := fun x hx => (hw x hx).le
  have hS : S ≠ [] := by rintro rfl; simp [posW] at hp
  obtain ⟨h1, h2, h3, h4, _⟩ := clfCurve_spec sort hsort S
  have hcne : clfCurve sort S ≠ [] := by
    obtain ⟨x, hx⟩ := List.exists_mem_of_ne_nil S hS
    intro h
    have := (h3 x.score).2 ⟨x, hx, rfl⟩
    rw [h] at this
    simp at this
  unfold prCurve
  generalize clfCurve sort S = c at *
  obtain ⟨last, hl⟩ : ∃ last, c.getLast? = some last := ⟨_, List.getLast?_eq_some_getLast hcne⟩
  obtain ⟨hlf, hlt⟩ := h4 last hl
  simp only [hl, Option.bind_eq_bind, Option.bind_some, hlt]
  have htps : (c.map Pt.tp).Pairwise (· ≤ ·) := by
    have e : c.map Pt.tp = (c.map Pt.thr).map (fun t => posAbove t S) := by
      rw [List.map_map]
      apply List.map_congr_left
      intro p hpc
      exact (h1 p hpc).2
    rw [e, List.pairwise_map]
    exact h2.imp (fun {a b} hab => wsum_mono _ _ _ S hw' (fun x _ h => ⟨h.1, le_trans (le_of_lt hab) h.2⟩))
  obtain ⟨s1, s2, s3⟩ := searchFloat64s_spec (c.map Pt.tp) htps (posW S)
  rw [List.length_map] at s1
  set k := searchFloat64s (c.map Pt.tp) (posW S) with hk
  have hlast : last ∈ c := List.mem_of_getLast? hl
  have hkl : k < c.length := by
    by_contra hge
    obtain ⟨i, hi, e⟩ := List.getElem_of_mem hlast
    have := s2 i (by simpa using hi) (by omega)
    simp only [List.getElem_map, e, hlt, lt_self_iff_false] at this
  have hle : ∀ t, posAbove t S ≤ posW S := fun t => wsum_mono _ _ _ S hw' (fun x _ h => h.1)
  refine ⟨((c.map Pt.thr).take (k + 1)).reverse, ?_, ?_, ?_, ?_⟩
  · have hposs : ∀ p ∈ c, 0 < posAbove p.thr S + negAbove p.thr S := by
      intro p hpc
      obtain ⟨x, hx, hxs⟩ := (h3 p.thr).1 (List.mem_map.2 ⟨p, hpc, rfl⟩)
      have : wsum Obs.w (fun y => p.thr ≤ y.score) S = posAbove p.thr S + negAbove p.thr S := by
        have := wsum_split Obs.w (fun y => p.thr ≤ y.score) Obs.pos [true, false] (by decide) S (fun s _ _ => by cases s.pos <;> simp)
        rw [← this]
        simp only [List.map_cons, List.map_nil, List.sum_cons, List.sum_nil, add_zero]
        unfold posAbove negAbove
        congr 1 <;> exact wsum_congr _ _ _ _ (fun _ _ => and_comm)
      rw [← this]
      obtain ⟨A, B, rfl⟩ := List.append_of_mem hx
      rw [wsum_append, wsum_cons, if_pos (le_of_eq hxs.symm)]
      have a1 := wsum_nonneg Obs.w (fun y => p.thr ≤ y.score) A (fun s hs => hw' s (by simp [hs]))
      have a2 := wsum_nonneg Obs.w (fun y => p.thr ≤ y.score) B (fun s hs => hw' s (by simp [hs]))
      have a3 := hw x (by simp)
      linarith
    have ep : c.map (fun p => fdiv p.tp (p.tp + p.fp)) = (c.map Pt.thr).map (fun t => some (precisionAt S t)) := by
      rw [List.map_map]
      apply List.map_congr_left
      intro p hpc
      have := hposs p hpc
      simp only [(h1 p hpc).1, (h1 p hpc).2, fdiv, if_neg (ne_of_gt this), Function.comp]
      rfl
    have er : c.map (fun p => fdiv p.tp (posW S)) = (c.map Pt.thr).map (fun t => some (recallAt S t)) := by
      rw [List.map_map]
      apply List.map_congr_left
      intro p hpc
      simp only [(h1 p hpc).2, fdiv, if_neg (ne_of_gt hp), Function.comp]
      rfl
    rw [ep, er]
    simp only [List.map_take, List.map_reverse]
    rfl
  · rw [List.pairwise_reverse]
    exact h2.sublist (List.take_sublist _ _)
  · refine ⟨c[k].thr, ?_, ?_⟩
    · rw [List.head?_reverse]
      rw [List.take_succ_eq_append_getElem (by simpa using hkl)]
      simp
    · have := s3 k (by simpa using hkl) (le_refl _)
      rw [List.getElem_map, (h1 _ (List.getElem_mem hkl)).2] at this
      have heq := le_antisymm (hle _) this
      unfold recallAt
      rw [heq, div_self (ne_of_gt hp)]
  · intro t
    rw [List.mem_reverse, List.mem_take_iff_getElem]
    constructor
    · rintro ⟨i, hi, rfl⟩
      rw [List.length_map] at hi
      have hic : i < c.length := by omega
      refine ⟨(h3 _).1 (List.getElem_mem _), ?_⟩
      intro x hx hlt'
      obtain ⟨j, hj, e⟩ := List.getElem_of_mem ((h3 x.score).2 ⟨x, hx, rfl⟩)
      have hjc : j < c.length := by simpa using hj
      have hji : j < i := by
        by_contra hge
        rcases Nat.lt_or_ge i j with h | h
        · have := List.pairwise_iff_getElem.1 h2 i j (by simpa using hic) hj h
          rw [e] at this
          exact absurd hlt' (not_lt.2 (le_of_lt this))
        · have : i = j := by omega
          subst this
          rw [e] at hlt'
          exact lt_irrefl _ hlt'
      have := s2 j (by simpa using hjc) (by omega)
      rw [List.getElem_map, (h1 _ (List.getElem_mem hjc)).2] at this
      rw [List.getElem_map] at e
      rw [← e]; exact this
    · rintro ⟨hex, hall⟩
      obtain ⟨i, hi, e⟩ := List.getElem_of_mem ((h3 t).2 hex)
      have hic : i < c.length := by simpa using hi
      refine ⟨i, ?_, e⟩
      rw [List.length_map]
      have : i ≤ k := by
        by_contra hgt
        have hki : k < i := by omega
        obtain ⟨x, hx, hxs⟩ := (h3 c[k].thr).1 (List.mem_map.2 ⟨_, List.getElem_mem hkl, rfl⟩)
        have hgt' := List.pairwise_iff_getElem.1 h2 k i (by simpa using hkl) hi hki
        rw [e, List.getElem_map] at hgt'
        have := hall x hx (by rw [hxs]; exact hgt')
        rw [hxs] at this
        have h' := s3 k (by simpa using hkl) (le_refl _)
        rw [List.getElem_map, (h1 _ (List.getElem_mem hkl)).2] at h'
        exact absurd this (not_lt.2 h')
      omega

/-- **C74.** With positive weights and at least one positive row, `PrecisionRecallCurve` returns increasing thresholds: exactly the scores above which recall is not yet
full; precision and recall at each threshold `t` are those of the rows scored at least `t`; the first recall is 1; the final pair is (1, 0). -/
theorem C74_pr_curve (sort : List (Obs K) → List (Obs K)) (hsort : SortsDesc sort) (S : List (Obs K)) (hw : ∀ x ∈ S, 0 < x.w) (hp : 0 < posW S) :
    ∃ thr, prCurve sort S = some (thr.map (fun t => some (posAbove t S / (posAbove t S + negAbove t S))) ++ [some 1],
        thr.map (fun t => some (posAbove t S / posW S)) ++ [some 0], thr) ∧
      thr.Pairwise (· < ·) ∧ (∃ t, thr.head? = some t ∧ posAbove t S / posW S = 1) ∧
      ∀ t, t ∈ thr ↔ (∃ x ∈ S, x.score = t) ∧ ∀ x ∈ S, t < x.score → posAbove x.score S < posW S :=
  prCurve_spec sort hsort S hw hp

/-- Step-wise area: sum over consecutive recalls `r₀ ≥ r₁ ≥ … ≥ 0` of the drop times the precision. -/
def stepArea (f g : K → K) : List K → K
  | [] => 0
  | [t] => f t * g t
  | t :: u :: l => (f t - f u) * g t + stepArea f g (u :: l)

theorem stepArea_eq (f g : K → K) (thr : List K) :
    (List.zipWith (· * ·) (List.zipWith (· - ·) (thr.map f ++ [0]) (thr.map f ++ [0]).tail) (thr.map g ++ [1])).sum = stepArea f g thr := by
  induction thr with
  | nil => simp [stepArea]
  | cons t l ih =>
    cases l with
    | nil => simp [stepArea]
    | cons u l =>
      rw [stepArea, ← ih]
      simp

theorem stepArea_bounds (f g : K → K) (thr : List K) (hs : thr.Pairwise (· < ·)) (hf : ∀ a b, a ≤ b → f b ≤ f a) (hf0 : ∀ a, 0 ≤ f a)
    (hg : ∀ a, 0 ≤ g a ∧ g a ≤ 1) : 0 ≤ stepArea f g thr ∧ ∀ t, thr.head? = some t → stepArea f g thr ≤ f t := by
  induction thr with
  | nil => simp [stepArea]
  | cons t l ih =>
    obtain ⟨h1, h2⟩ := List.pairwise_cons.1 hs
    obtain ⟨i1, i2⟩ := ih h2
    cases l with
    | nil =>
      simp only [stepArea, List.head?_cons, Option.some.injEq, forall_eq']
      exact ⟨mul_nonneg (hf0 _) (hg _).1, by nlinarith [hf0 t, (hg t).2]⟩
    | cons u l =>
      have hu := i2 u rfl
      have hd : 0 ≤ f t - f u := sub_nonneg.2 (hf t u (le_of_lt (h1 u (by simp))))
      simp only [stepArea, List.head?_cons, Option.some.injEq, forall_eq']
      exact ⟨add_nonneg (mul_nonneg hd (hg t).1) i1, by nlinarith [(hg t).2]⟩

/-- **C74.** The average precision is the sum over the thresholds of precision times the recall gained, and lies in [0, 1]. -/
theorem C74_average_precision (sort : List (Obs K) → List (Obs K)) (hsort : SortsDesc sort) (S : List (Obs K)) (hw : ∀ x ∈ S, 0 < x.w) (hp : 0 < posW S) :
    ∃ thr a, (prCurve sort S).map (fun r => r.2.2) = some thr ∧ avgPrecision sort S = some (some a) ∧
      a = stepArea (recallAt S) (precisionAt S) thr ∧ 0 ≤ a ∧ a ≤ 1 := by
  obtain ⟨thr, h, hs, ⟨t, ht, ht1⟩, _⟩ := prCurve_spec sort hsort S hw hp
  have hw' : ∀ x ∈ S, 0 ≤ x.w := fun x hx => (hw x hx).le
  have hmap : ∀ (f : K → K) (l : List K) (v : K), (l.map (fun t => some (f t)) ++ [some v]).mapM id = some (l.map f ++ [v]) := by
    intro f l v
    rw [ListX.mapM_forall2]
    exact List.rel_append (R := fun a b => id a = some b) (by
      rw [List.forall₂_map_left_iff, List.forall₂_map_right_iff, List.forall₂_same]; intro _ _; rfl)
      (List.Forall₂.cons rfl List.Forall₂.nil)
  refine ⟨thr, _, by rw [h]; rfl, ?_, rfl, ?_⟩
  · unfold avgPrecision
    rw [h]
    simp only [Option.map_some, hmap, Option.bind_eq_bind, Option.bind_some]
    rw [stepArea_eq]
    rfl
  · have b := stepArea_bounds (recallAt S) (precisionAt S) thr hs
      (fun a b hab => div_le_div_of_nonneg_right (wsum_mono _ _ _ S hw' (fun x _ hx => ⟨hx.1, le_trans hab hx.2⟩)) hp.le)
      (fun a => div_nonneg (wsum_nonneg _ _ S hw') hp.le)
      (fun a => by
        have h1 : 0 ≤ posAbove a S := wsum_nonneg _ _ S hw'
        have h2 : 0 ≤ negAbove a S := wsum_nonneg _ _ S hw'
        exact ⟨div_nonneg h1 (add_nonneg h1 h2), div_le_one_of_le₀ (by linarith) (add_nonneg h1 h2)⟩)
    exact ⟨b.1, ht1 ▸ b.2 t ht⟩

example : prCurve (K := ℚ) insSort [⟨1, false, 1⟩, ⟨4, false, 1⟩, ⟨35, true, 1⟩, ⟨8, true, 2⟩] =
    some ([some 1, some 1, some 1], [some 1, some (1 / 3), some 0], [8, 35]) := by decide +kernel
example : avgPrecision (K := ℚ) insSort [⟨1, true, 1⟩, ⟨4, false, 1⟩, ⟨35, true, 1⟩] = some (some (5 / 6)) := by decide +kernel

end Sk.Rank
