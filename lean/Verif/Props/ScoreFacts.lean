import Verif.Props.PRCurve
import Verif.Props.PRF
import Verif.Props.Regression
import Mathlib.Tactic.LinearCombination
import Mathlib.Algebra.Order.Chebyshev
import Mathlib.Algebra.BigOperators.Fin

/-! # C239: best and worst values of the scores, and how the scores are related -/
set_option autoImplicit false

namespace Sk.ScoreFacts

variable {K : Type} [Field K] [LinearOrder K] [IsStrictOrderedRing K]

open Sk.Rank

/-! ### Specification -/

/-- Every positive is scored above every negative. -/
def Separated (S : List (Obs K)) : Prop := ∀ x ∈ S, ∀ y ∈ S, x.pos = true → y.pos = false → y.score < x.score

/-- Every positive is scored below every negative. -/
def Inverted (S : List (Obs K)) : Prop := ∀ x ∈ S, ∀ y ∈ S, x.pos = true → y.pos = false → x.score < y.score

/-! ### Area under the ROC curve -/

private def dsum (g : Obs K → Obs K → K) (A B : List (Obs K)) : K :=
  (B.map (fun b => (A.map (fun a => if a.pos = true ∧ b.pos = false then a.w * b.w * g a b else 0)).sum)).sum

private theorem dsum_one (A B : List (Obs K)) : dsum (fun _ _ => 1) A B = posW A * negW B := by
  have inner : ∀ b : Obs K, (A.map (fun a => if a.pos = true ∧ b.pos = false then a.w * b.w * 1 else 0)).sum = posW A * (if b.pos = false then b.w else 0) := by
    intro b
    induction A with
    | nil => simp [posW]
    | cons a A ih =>
      rw [List.map_cons, List.sum_cons, ih]
      unfold posW
      rw [wsum_cons]
      cases a.pos <;> cases b.pos <;> simp <;> ring
  unfold dsum
  simp only [inner]
  induction B with
  | nil => simp [negW]
  | cons b B ih =>
    rw [List.map_cons, List.sum_cons, ih]
    unfold negW
    rw [wsum_cons]
    ring

private theorem dsum_sub (g h : Obs K → Obs K → K) (A B : List (Obs K)) : dsum g A B - dsum h A B = dsum (fun a b => g a b - h a b) A B := by
  have inner : ∀ b : Obs K, (A.map (fun a => if a.pos = true ∧ b.pos = false then a.w * b.w * g a b else 0)).sum - (A.map (fun a => if a.pos = true ∧ b.pos = false then a.w * b.w * h a b else 0)).sum =
      (A.map (fun a => if a.pos = true ∧ b.pos = false then a.w * b.w * (g a b - h a b) else 0)).sum := by
    intro b
    induction A with
    | nil => simp
    | cons a A ih =>
      simp only [List.map_cons, List.sum_cons]
      rw [← ih]
      split <;> ring
  unfold dsum
  induction B with
  | nil => simp
  | cons b B ih =>
    simp only [List.map_cons, List.sum_cons]
    rw [← ih, ← inner b]
    ring

private theorem dsum_zero (g : Obs K → Obs K → K) (S : List (Obs K)) (hw : ∀ x ∈ S, 0 < x.w) (hg : ∀ a b, 0 ≤ g a b) :
    dsum g S S = 0 ↔ ∀ x ∈ S, ∀ y ∈ S, x.pos = true → y.pos = false → g x y = 0 := by
  have cell : ∀ a ∈ S, ∀ b ∈ S, 0 ≤ (if a.pos = true ∧ b.pos = false then a.w * b.w * g a b else 0) := by
    intro a ha b hb
    split
    · exact mul_nonneg (mul_nonneg (hw a ha).le (hw b hb).le) (hg a b)
    · exact le_refl _
  unfold dsum
  rw [ListX.sum_eq_zero_nonneg]
  · constructor
    · intro h x hx y hy hpx hpy
      have := h _ (List.mem_map.2 ⟨y, hy, rfl⟩)
      rw [ListX.sum_eq_zero_nonneg] at this
      · have := this _ (List.mem_map.2 ⟨x, hx, rfl⟩)
        rw [if_pos ⟨hpx, hpy⟩] at this
        exact (mul_eq_zero.1 this).resolve_left (mul_pos (hw x hx) (hw y hy)).ne'
      · intro v hv
        obtain ⟨a, ha, rfl⟩ := List.mem_map.1 hv
        exact cell a ha y hy
    · intro h v hv
      obtain ⟨b, hb, rfl⟩ := List.mem_map.1 hv
      apply List.sum_eq_zero
      intro v hv
      obtain ⟨a, ha, rfl⟩ := List.mem_map.1 hv
      split
      · rename_i hab
        rw [h a ha b hb hab.1 hab.2, mul_zero]
      · rfl
  · intro v hv
    obtain ⟨b, hb, rfl⟩ := List.mem_map.1 hv
    apply List.sum_nonneg
    intro v hv
    obtain ⟨a, ha, rfl⟩ := List.mem_map.1 hv
    exact cell a ha b hb

/-- **C239, area under the ROC curve.** With positive weights and both classes present the area is 1 exactly when every positive is scored above every negative, 0 exactly when every positive is scored below, and
1/2 when all scores are equal; whatever the order in which the sort leaves ties. -/
theorem C239_auc (sort : List (Obs K) → List (Obs K)) (hsort : SortsDesc sort) (S : List (Obs K)) (hw : ∀ x ∈ S, 0 < x.w) (hp : 0 < posW S) (hn : 0 < negW S) :
    ∃ a, rocAuc sort S = some (some a) ∧ (a = 1 ↔ Separated S) ∧ (a = 0 ↔ Inverted S) ∧ ((∀ x ∈ S, ∀ y ∈ S, x.score = y.score) → a = 1 / 2) := by
  have hpn : posW S * negW S ≠ 0 := (mul_pos hp hn).ne'
  have hwin : ∀ a b : Obs K, 0 ≤ win a b ∧ win a b ≤ 1 := by
    intro a b
    unfold win
    split
    · exact ⟨zero_le_one, le_refl _⟩
    · split
      · constructor <;> norm_num
      · exact ⟨le_refl _, zero_le_one⟩
  have hd : wins S S = dsum win S S := rfl
  refine ⟨_, C29_auc_mann_whitney sort hsort S hp hn, ?_, ?_, ?_⟩
  · unfold mannWhitney
    rw [div_eq_one_iff_eq hpn, hd, ← dsum_one S S, eq_comm, ← sub_eq_zero, dsum_sub, dsum_zero _ S hw (fun a b => sub_nonneg.2 (hwin a b).2)]
    refine forall_congr' fun x => forall_congr' fun _ => forall_congr' fun y => forall_congr' fun _ => forall_congr' fun _ => forall_congr' fun _ => ?_
    unfold win
    split
    · rename_i h
      simp [h]
    · rename_i h
      split <;> simp [h]
      norm_num
  · unfold mannWhitney
    rw [div_eq_zero_iff, or_iff_left hpn, hd, dsum_zero _ S hw (fun a b => (hwin a b).1)]
    refine forall_congr' fun x => forall_congr' fun _ => forall_congr' fun y => forall_congr' fun _ => forall_congr' fun _ => forall_congr' fun _ => ?_
    unfold win
    split
    · rename_i h
      simp [h.le]
    · rename_i h
      split
      · rename_i h'
        simp [h']
      · rename_i h'
        simp only [true_iff]
        exact lt_of_le_of_ne (not_lt.1 h) h'
  · intro he
    have h2 : dsum (fun _ _ => 1) S S - dsum win S S = dsum win S S := by
      rw [dsum_sub]
      unfold dsum
      congr 1
      apply List.map_congr_left
      intro b hb
      congr 1
      apply List.map_congr_left
      intro a ha
      have : win a b = 1 / 2 := by
        unfold win
        rw [if_neg (by rw [he a ha b hb]; exact lt_irrefl _), if_pos (he a ha b hb)]
      simp only [this]
      split <;> ring
    rw [dsum_one] at h2
    unfold mannWhitney
    rw [hd, div_eq_div_iff hpn two_ne_zero]
    linear_combination -h2

/-! ### Average precision -/

private theorem wsum_zero_none {A : Type} (w : A → K) (p : A → Prop) [DecidablePred p] (l : List A) (hw : ∀ x ∈ l, 0 < w x) (h : wsum w p l = 0) : ∀ x ∈ l, ¬ p x := by
  induction l with
  | nil => simp
  | cons a l ih =>
    rw [wsum_cons] at h
    have h2 : 0 ≤ wsum w p l := wsum_nonneg _ _ l (fun x hx => (hw x (by simp [hx])).le)
    have ha := hw a (by simp)
    by_cases hpa : p a
    · rw [if_pos hpa] at h
      linarith
    · rw [if_neg hpa, zero_add] at h
      intro x hx
      rcases List.mem_cons.1 hx with rfl | hx
      · exact hpa
      · exact ih (fun x hx => hw x (by simp [hx])) h x hx

private theorem wsum_and_all {A : Type} (w : A → K) (p q : A → Prop) [DecidablePred p] [DecidablePred q] (l : List A) (hw : ∀ x ∈ l, 0 < w x) (h : wsum w (fun x => p x ∧ q x) l = wsum w p l) : ∀ x ∈ l, p x → q x := by
  induction l with
  | nil => simp
  | cons a l ih =>
    rw [wsum_cons, wsum_cons] at h
    have h2 : wsum w (fun x => p x ∧ q x) l ≤ wsum w p l := wsum_mono _ _ _ l (fun x hx => (hw x (by simp [hx])).le) (fun _ _ h => h.1)
    have ha := hw a (by simp)
    by_cases hpa : p a
    · by_cases hqa : q a
      · rw [if_pos ⟨hpa, hqa⟩, if_pos hpa] at h
        intro x hx hpx
        rcases List.mem_cons.1 hx with rfl | hx
        · exact hqa
        · exact ih (fun x hx => hw x (by simp [hx])) (by linarith) x hx hpx
      · rw [if_neg (fun h => hqa h.2), if_pos hpa] at h
        linarith
    · rw [if_neg (fun h => hpa h.1), if_neg hpa] at h
      intro x hx hpx
      rcases List.mem_cons.1 hx with rfl | hx
      · exact absurd hpx hpa
      · exact ih (fun x hx => hw x (by simp [hx])) (by linarith) x hx hpx

private theorem stepArea_one (f g : K → K) (t : K) (l : List K) (hg : ∀ u ∈ t :: l, g u = 1) : stepArea f g (t :: l) = f t := by
  induction l generalizing t with
  | nil => simp [stepArea, hg t]
  | cons u l ih =>
    rw [stepArea, hg t (by simp), ih u (fun v hv => hg v (by simp only [List.mem_cons] at hv ⊢; tauto))]
    ring

private theorem above_pos (S : List (Obs K)) (hw : ∀ x ∈ S, 0 < x.w) (t : K) (h : ∃ x ∈ S, x.score = t) : 0 < posAbove t S + negAbove t S := by
  obtain ⟨x, hx, rfl⟩ := h
  have h1 : 0 ≤ posAbove x.score S := wsum_nonneg _ _ S (fun x hx => (hw x hx).le)
  have h2 : 0 ≤ negAbove x.score S := wsum_nonneg _ _ S (fun x hx => (hw x hx).le)
  by_contra hc
  have e1 : posAbove x.score S = 0 := by linarith
  have e2 : negAbove x.score S = 0 := by linarith
  cases hpx : x.pos
  · exact wsum_zero_none _ _ S hw e2 x hx ⟨hpx, le_refl _⟩
  · exact wsum_zero_none _ _ S hw e1 x hx ⟨hpx, le_refl _⟩

/-- **C239, average precision.** With positive weights and some positive sample the average precision is 1 exactly when every positive is scored above every negative, and the share of the positives when all scores
are equal. -/
theorem C239_average_precision (sort : List (Obs K) → List (Obs K)) (hsort : SortsDesc sort) (S : List (Obs K)) (hw : ∀ x ∈ S, 0 < x.w) (hp : 0 < posW S) :
    ∃ a, avgPrecision sort S = some (some a) ∧ (a = 1 ↔ Separated S) ∧ ((∀ x ∈ S, ∀ y ∈ S, x.score = y.score) → a = posW S / (posW S + negW S)) := by
  have hw' : ∀ x ∈ S, 0 ≤ x.w := fun x hx => (hw x hx).le
  obtain ⟨thr, a, hthr, ha, rfl, -, -⟩ := C74_average_precision sort hsort S hw hp
  obtain ⟨thr', hc, hs, ⟨t, ht, hr⟩, hm⟩ := prCurve_spec sort hsort S hw hp
  have : thr' = thr := by
    rw [hc] at hthr
    exact Option.some.inj hthr
  subst this
  obtain ⟨l, rfl⟩ : ∃ l, thr' = t :: l := by
    cases thr' with
    | nil => cases ht
    | cons b l =>
      cases ht
      exact ⟨l, rfl⟩
  have htm := (hm t).1 (by simp)
  have hmono : ∀ u v, u ≤ v → negAbove v S ≤ negAbove u S := fun u v h => wsum_mono _ _ _ S hw' (fun x _ hx => ⟨hx.1, le_trans h hx.2⟩)
  have hn0 : ∀ u, 0 ≤ negAbove u S := fun u => wsum_nonneg _ _ S hw'
  have hp0 : ∀ u, 0 ≤ posAbove u S := fun u => wsum_nonneg _ _ S hw'
  have hall : posAbove t S = posW S := by
    unfold recallAt at hr
    rwa [div_eq_one_iff_eq hp.ne'] at hr
  have hg : ∀ u, 0 ≤ precisionAt S u ∧ precisionAt S u ≤ 1 := fun u =>
    ⟨div_nonneg (hp0 u) (add_nonneg (hp0 u) (hn0 u)), div_le_one_of_le₀ (by linarith [hn0 u]) (add_nonneg (hp0 u) (hn0 u))⟩
  refine ⟨_, ha, ⟨?_, ?_⟩, ?_⟩
  · intro h1
    have hpt : precisionAt S t = 1 := by
      by_contra hne
      have hlt : precisionAt S t < 1 := lt_of_le_of_ne (hg t).2 hne
      cases l with
      | nil =>
        simp only [stepArea, hr, one_mul] at h1
        exact hne h1
      | cons u l =>
        rw [stepArea, hr] at h1
        obtain ⟨htu, hs'⟩ := List.pairwise_cons.1 hs
        have hu := (hm u).1 (by simp)
        obtain ⟨x, hx, e⟩ := hu.1
        have h2 : recallAt S u < 1 := by
          unfold recallAt
          rw [div_lt_one hp, ← e]
          exact htm.2 x hx (by rw [e]; exact htu u (by simp))
        have b := (stepArea_bounds (recallAt S) (precisionAt S) (u :: l) hs'
          (fun a b hab => div_le_div_of_nonneg_right (wsum_mono _ _ _ S hw' (fun x _ hx => ⟨hx.1, le_trans hab hx.2⟩)) hp.le)
          (fun a => div_nonneg (hp0 a) hp.le) hg).2 u rfl
        have := mul_lt_mul_of_pos_left hlt (sub_pos.2 h2)
        linarith
    have hneg : negAbove t S = 0 := by
      have hd := above_pos S hw t htm.1
      unfold precisionAt at hpt
      rw [div_eq_one_iff_eq hd.ne'] at hpt
      linarith
    have k1 := wsum_zero_none _ _ S hw hneg
    have k2 := wsum_and_all _ _ _ S hw hall
    intro x hx y hy hpx hpy
    exact lt_of_lt_of_le (lt_of_not_ge (fun h => k1 y hy ⟨hpy, h⟩)) (k2 x hx hpx)
  · intro hsep
    have hneg : negAbove t S = 0 := by
      apply wsum_false
      rintro y hy ⟨hpy, hty⟩
      obtain ⟨x0, hx0, hmin⟩ : ∃ x0, (x0 ∈ S ∧ x0.pos = true) ∧ ∀ x ∈ S, x.pos = true → x0.score ≤ x.score := by
        have hne : S.filter (fun x => x.pos) ≠ [] := by
          intro h
          rw [List.filter_eq_nil_iff] at h
          have : posW S = 0 := wsum_false _ _ S (fun x hx => by simpa using h x hx)
          exact hp.ne' this
        classical
        obtain ⟨x0, hx0, hmin⟩ := Finset.exists_min_image (S.filter (fun x => x.pos)).toFinset Obs.score (by
          obtain ⟨z, hz⟩ := List.exists_mem_of_ne_nil _ hne
          exact ⟨z, by simpa using hz⟩)
        simp only [List.mem_toFinset, List.mem_filter] at hx0 hmin
        exact ⟨x0, hx0, fun x hx hpx => hmin x ⟨hx, hpx⟩⟩
      have h1 := htm.2 x0 hx0.1 (lt_of_le_of_lt hty (hsep x0 hx0.1 y hy hx0.2 hpy))
      have h2 : posAbove x0.score S = posW S := wsum_congr _ _ _ S (fun x hx => ⟨fun h => h.1, fun h => ⟨h, hmin x hx h⟩⟩)
      exact h1.ne h2
    rw [stepArea_one, hr]
    intro u hu
    have hd := above_pos S hw u ((hm u).1 hu).1
    have htu : t ≤ u := by
      rcases List.mem_cons.1 hu with rfl | h
      · exact le_refl _
      · exact ((List.pairwise_cons.1 hs).1 u h).le
    have : negAbove u S = 0 := le_antisymm (hneg ▸ hmono t u htu) (hn0 u)
    unfold precisionAt
    rw [this, add_zero] at hd ⊢
    exact div_self hd.ne'
  · intro he
    obtain ⟨x, hx, hxt⟩ := htm.1
    have hl : l = [] := by
      cases l with
      | nil => rfl
      | cons u l =>
        obtain ⟨y, hy, e⟩ := ((hm u).1 (by simp)).1
        have := (List.pairwise_cons.1 hs).1 u (by simp)
        rw [← hxt, ← e, he x hx y hy] at this
        exact absurd this (lt_irrefl _)
    have hneg : negAbove t S = negW S := wsum_congr _ _ _ S (fun y hy => ⟨fun h => h.1, fun h => ⟨h, by rw [← hxt, he x hx y hy]⟩⟩)
    rw [hl]
    simp only [stepArea]
    rw [hr, one_mul]
    unfold precisionAt
    rw [hall, hneg]

/-! ### F-score -/

/-- **C239, F-score.** Of each class, the F-score lies between precision and recall, for every `beta > 0`. -/
theorem C239_fscore {L : Type} [LinearOrder L] (S : List (L × L × K)) (hw : ∀ s ∈ S, 0 ≤ s.2.2) (hknown : ∀ s ∈ S, s.2.1 ∈ S.map (fun s => s.1))
    (beta : K) (hb : 0 < beta) (avg : Metrics.Average) (c : ℕ) (q : Metrics.PRFS K)
    (hq : Metrics.prfScore (S.map (fun s => s.1)) (S.map (fun s => s.2.1)) beta (some c) avg (some (S.map (fun s => s.2.2))) = some q) :
    min q.p q.r ≤ q.f ∧ q.f ≤ max q.p q.r := by
  have hk := Metrics.C27_class_scores_partial S hw hknown beta hb ((S.map (fun s => s.1)).toFinset.sort (· ≤ ·)) (Finset.sortedLT_sort _).pairwise (fun v => by simp) avg
  have hc : c < ((S.map (fun s => s.1)).toFinset.sort (· ≤ ·)).length := by
    by_contra h
    rw [hk.2 c (not_lt.1 h)] at hq
    cases hq
  obtain ⟨q', e, hs⟩ := hk.1 c hc
  rw [hq, Option.some_inj] at e
  subst e
  obtain ⟨⟨p0, -⟩, ⟨r0, -⟩, ⟨f0, -⟩⟩ := hs.bounds
  have hf := hs.fscore
  have hb2 : 0 < beta ^ 2 := pow_pos hb 2
  by_cases hz : q.p = 0
  · rw [hs.fzero hz, hz]
    exact ⟨min_le_left _ _, le_max_left _ _⟩
  have hp : 0 < q.p := lt_of_le_of_ne p0 (Ne.symm hz)
  have hd : 0 < beta ^ 2 * q.p + q.r := add_pos_of_pos_of_nonneg (mul_pos hb2 hp) r0
  have h1 := mul_nonneg p0 r0
  rcases le_total q.p q.r with h | h
  · rw [min_eq_left h, max_eq_right h]
    have k := sub_nonneg.2 h
    constructor
    · refine le_of_mul_le_mul_right ?_ hd
      rw [hf]
      linarith [mul_nonneg (mul_nonneg hb2.le p0) k]
    · refine le_of_mul_le_mul_right ?_ hd
      rw [hf]
      linarith [mul_nonneg r0 k]
  · rw [min_eq_right h, max_eq_left h]
    have k := sub_nonneg.2 h
    constructor
    · refine le_of_mul_le_mul_right ?_ hd
      rw [hf]
      linarith [mul_nonneg r0 k]
    · refine le_of_mul_le_mul_right ?_ hd
      rw [hf]
      linarith [mul_nonneg (mul_nonneg hb2.le p0) k]

/-! ### Regression scores -/

private theorem sq_sum_le (l : List K) : l.sum ^ 2 ≤ (l.length : K) * (l.map (fun x => x ^ 2)).sum := by
  have h := sq_sum_le_card_mul_sum_sq (s := Finset.univ) (f := fun i : Fin l.length => l[i])
  have e1 := Fin.sum_univ_fun_getElem l (fun x => x)
  have e2 := Fin.sum_univ_fun_getElem l (fun x => x ^ 2)
  rw [List.map_id'] at e1
  rw [← e1, ← e2]
  simpa using h

/-- **C239, mean errors.** The square of the mean absolute error is at most the mean squared error, which is at most `M` times the mean absolute error when no error is greater than `M`; and then the mean absolute
error is at most `M`. -/
theorem C239_errors (l : List (K × K)) (hl : l ≠ []) :
    ∃ mae mse, Metrics.meanError (fun x => |x|) [l.map Prod.snd] [l.map Prod.fst] none false = some [mae] ∧ Metrics.meanError (fun x => x * x) [l.map Prod.snd] [l.map Prod.fst] none false = some [mse] ∧
      mae ^ 2 ≤ mse ∧ ∀ M, (∀ c ∈ l, |c.1 - c.2| ≤ M) → mae ≤ M ∧ mse ≤ M * mae := by
  obtain ⟨e1, h1, d1, p1, -⟩ := Metrics.C31_mean_error_partial (fun x : K => |x|) Metrics.isLoss_abs l hl
  obtain ⟨e2, h2, d2, p2, -⟩ := Metrics.C31_mean_error_partial (fun x : K => x * x) Metrics.isLoss_sq l hl
  have hn : (0 : K) < (l.length : K) := by
    exact_mod_cast List.length_pos_iff.2 hl
  refine ⟨e1, e2, h1, h2, ?_, ?_⟩
  · have h := sq_sum_le (l.map (fun c => |c.1 - c.2|))
    rw [List.length_map, List.map_map] at h
    have e : (l.map ((fun x => x ^ 2) ∘ fun c => |c.1 - c.2|)).sum = (l.map (fun c => (c.1 - c.2) * (c.1 - c.2))).sum := by
      congr 1
      apply List.map_congr_left
      intro c _
      show |c.1 - c.2| ^ 2 = _
      rw [sq_abs, sq]
    rw [e] at h
    rw [d1, d2, div_pow, div_le_div_iff₀ (pow_pos hn 2) hn]
    nlinarith [mul_le_mul_of_nonneg_right h hn.le]
  · intro M hM
    have s1 : (l.map (fun c => |c.1 - c.2|)).sum ≤ (l.length : K) * M := by
      have := List.sum_le_card_nsmul (l.map (fun c => |c.1 - c.2|)) M (fun x hx => by
        obtain ⟨c, hc, rfl⟩ := List.mem_map.1 hx
        exact hM c hc)
      simpa using this
    have s2 : (l.map (fun c => (c.1 - c.2) * (c.1 - c.2))).sum ≤ M * (l.map (fun c => |c.1 - c.2|)).sum := by
      rw [← List.sum_map_mul_left]
      apply List.sum_le_sum
      intro c hc
      rw [← abs_mul_abs_self]
      exact mul_le_mul_of_nonneg_right (hM c hc) (abs_nonneg _)
    constructor
    · rw [d1, div_le_iff₀ hn]
      linarith
    · rw [d1, d2, ← mul_div_assoc]
      exact div_le_div_of_nonneg_right s2 hn.le

/-- **C239, R2 and mean squared error** order any two predictions of the same targets alike: the one with the smaller error has the greater score.  `l` lists (true, first prediction, second prediction). -/
theorem C239_r2_mse (eps : K) (heps : 0 < eps) (l : List (K × K × K)) (hl : l ≠ []) :
    ∃ r r' e e', Metrics.r2Score eps [l.map (fun s => s.1)] [l.map (fun s => s.2.1)] none .uniform = some [r] ∧ Metrics.r2Score eps [l.map (fun s => s.1)] [l.map (fun s => s.2.2)] none .uniform = some [r'] ∧
      Metrics.meanError (fun x => x * x) [l.map (fun s => s.1)] [l.map (fun s => s.2.1)] none false = some [e] ∧ Metrics.meanError (fun x => x * x) [l.map (fun s => s.1)] [l.map (fun s => s.2.2)] none false = some [e'] ∧
      (r ≤ r' ↔ e' ≤ e) := by
  have hn : (0 : K) < (l.length : K) := by
    exact_mod_cast List.length_pos_iff.2 hl
  obtain ⟨D, hD, hr⟩ : ∃ D : K, 0 < D ∧ ∀ f : K × K × K → K, Metrics.r2Score eps [l.map (fun s => s.1)] [l.map f] none .uniform = some [1 - (l.map (fun s => (f s - s.1) * (f s - s.1))).sum / D] := by
    have key : ∀ f : K × K × K → K, Metrics.r2Score eps [l.map (fun s => s.1)] [l.map f] none .uniform =
        some [1 - (l.map (fun s => (f s - s.1) * (f s - s.1))).sum / max (l.map (fun s => (s.1 - (l.map (fun s => s.1)).sum / (l.length : K)) ^ 2)).sum eps] := by
      intro f
      have h := Metrics.r2Output_eq eps (l.map (fun s => (s.1, f s, (1 : K)))) (by
        simp only [List.map_map, Function.comp_def, List.map_const', List.sum_replicate, nsmul_eq_mul, mul_one]
        exact hn)
      simp only [List.map_map, Function.comp_def, Metrics.wtot, one_mul, List.map_const', List.sum_replicate, nsmul_eq_mul, mul_one] at h
      simp [Metrics.r2Score, Function.comp_def, h, sq]
    exact ⟨_, lt_of_lt_of_le heps (le_max_right _ _), key⟩
  have he : ∀ f : K × K × K → K, Metrics.meanError (fun x => x * x) [l.map (fun s => s.1)] [l.map f] none false = some [(l.map (fun s => (f s - s.1) * (f s - s.1))).sum / (l.length : K)] := by
    intro f
    obtain ⟨e, h, d, -, -⟩ := Metrics.C31_mean_error_partial (fun x : K => x * x) Metrics.isLoss_sq (l.map (fun s => (f s, s.1))) (by simpa using hl)
    simp only [List.map_map, Function.comp_def, List.length_map] at h d
    rw [h, d]
  refine ⟨_, _, _, _, hr _, hr _, he _, he _, ?_⟩
  rw [sub_le_sub_iff_left, div_le_div_iff_of_pos_right hD, div_le_div_iff_of_pos_right hn]

/-! ### Cases -/

example : rocAuc (K := ℚ) insSort [⟨1, false, 1⟩, ⟨4, false, 1⟩, ⟨8, true, 2⟩] = some (some 1) ∧ avgPrecision (K := ℚ) insSort [⟨1, false, 1⟩, ⟨4, false, 1⟩, ⟨8, true, 2⟩] = some (some 1) ∧
    rocAuc (K := ℚ) insSort [⟨1, true, 1⟩, ⟨4, false, 1⟩] = some (some 0) ∧ avgPrecision (K := ℚ) insSort [⟨1, true, 1⟩, ⟨1, false, 3⟩] = some (some (1 / 4)) ∧
    rocAuc (K := ℚ) insSort [⟨1, true, 1⟩, ⟨1, false, 3⟩] = some (some (1 / 2)) := by decide +kernel

/-- Errors 1 and 3: the mean absolute error is 2, the mean squared error 5, between 2² and 3·2. -/
example : Metrics.meanError (K := ℚ) (fun x => |x|) [[0, 0]] [[1, -3]] none false = some [2] ∧ Metrics.meanError (K := ℚ) (fun x => x * x) [[0, 0]] [[1, -3]] none false = some [5] := by decide +kernel

end Sk.ScoreFacts
