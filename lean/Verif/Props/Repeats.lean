import Verif.Spec.Copies
import Verif.Props.PRF
import Verif.Props.Regression
import Verif.Props.RankAverage
import Verif.Props.NaiveBayes

/-!
# C188: a whole number as sample weight counts as so many copies of the sample, in any order

`T` lists samples with multiplicities, `D` is any arrangement of the copies (`copies T`).  The functions are called on `T` with the multiplicities as sample weights and on `D`
without weights.  With all multiplicities 1 this says that the order of the samples does not matter.
-/
set_option autoImplicit false

namespace Sk.Repeat

open Sk.Metrics Sk.Label Sk.Rank

variable {K : Type} [Field K] [LinearOrder K] [IsStrictOrderedRing K]

theorem wsum_copies {A : Type} (p : A → Prop) [DecidablePred p] (T : List (A × ℕ)) {D : List A} (h : D.Perm (copies T)) :
    wsum (fun _ => (1 : K)) p D = wsum (fun t : A × ℕ => (t.2 : K)) (fun t => p t.1) T := by
  unfold wsum
  rw [copies_sum _ T h]
  congr 1
  apply List.map_congr_left
  intro t _
  split <;> simp

/-! ### Accuracy -/

/-- **C188, `AccuracyScore`.** Also for multiplicity 0. -/
theorem C188_accuracy {L : Type} [DecidableEq L] (T : List ((List L × List L) × ℕ)) (D : List (List L × List L)) (h : D.Perm (copies T))
    (hlen : ∀ t ∈ T, t.1.1.length = t.1.2.length) (normalize : Bool) :
    accuracy (K := K) (T.map (fun t => t.1.1)) (T.map (fun t => t.1.2)) normalize (some (T.map (fun t => (t.2 : K)))) =
      accuracy (K := K) (D.map (fun s => s.1)) (D.map (fun s => s.2)) normalize none := by
  have h1 := accLoop_spec (K := K) (T.map (fun t => (t.1.1, t.1.2, (t.2 : K)))) [] 0 0 (by
    intro s hs
    obtain ⟨t, ht, rfl⟩ := List.mem_map.1 hs
    exact hlen t ht)
  have h2 := accLoop_spec (K := K) (D.map (fun s => (s.1, s.2, (1 : K)))) [] 0 0 (by
    intro s hs
    obtain ⟨d, hd, rfl⟩ := List.mem_map.1 hs
    obtain ⟨t, ht, rfl⟩ := copies_sub T h d hd
    exact hlen t ht)
  simp only [List.nil_append, List.length_nil, List.map_map, Function.comp_def, zero_add] at h1 h2
  have e1 : wsum (fun s : List L × List L × K => s.2.2) (fun s => s.1 = s.2.1) (T.map (fun t => (t.1.1, t.1.2, (t.2 : K)))) =
      wsum (fun s : List L × List L × K => s.2.2) (fun s => s.1 = s.2.1) (D.map (fun s => (s.1, s.2, (1 : K)))) := by
    have := wsum_copies (K := K) (fun s : List L × List L => s.1 = s.2) T h
    unfold wsum at this ⊢
    simp only [List.map_map, Function.comp_def]
    exact this.symm
  have e2 : (T.map (fun t => (t.2 : K))).sum = (D.map (fun _ => (1 : K))).sum := by
    rw [copies_sum _ T h]; simp
  have e3 := (C26_accuracy_order (K := K) [] [] (by simp) (List.Perm.refl _) normalize).2 (D.map (fun s => s.1)) (D.map (fun s => s.2))
  rw [e3]
  have e4 : List.replicate (D.map (fun s => s.1)).length (1 : K) = D.map (fun _ => (1 : K)) := by simp
  rw [e4]
  simp only [accuracy, h1, h2, e1, e2]

/-! ### Confusion matrix, precision, recall, F-score -/

theorem cmLoop_ones (n m : ℕ) : ∀ (yt yp : List ℤ) (i : ℕ) (cm : List K), i + yt.length ≤ m →
    cmLoop n none yt yp i cm = cmLoop n (some (List.replicate m 1)) yt yp i cm := by
  intro yt
  induction yt with
  | nil => intro yp i cm _; simp [cmLoop]
  | cons r yt ih =>
    intro yp i cm h
    cases yp with
    | nil => simp [cmLoop]
    | cons c yp =>
      simp only [List.length_cons] at h
      rw [cmLoop, cmLoop]
      have hlt : i < (List.replicate m (1 : K)).length := by rw [List.length_replicate]; omega
      simp only [weightAt, List.getElem?_eq_getElem hlt, List.getElem_replicate, Option.bind_eq_bind, Option.bind_some]
      split
      · rfl
      · cases cm[(r * (n : ℤ) + c).toNat]? with
        | none => rfl
        | some old => simp only [Option.bind_some]; exact ih _ _ _ (by omega)

theorem list_getD_ext (a b : List K) (hl : a.length = b.length) (h : ∀ k < a.length, a.getD k 0 = b.getD k 0) : a = b := by
  apply List.ext_getElem hl
  intro i h1 h2
  have := h i h1
  rwa [List.getD_eq_getElem?_getD, List.getD_eq_getElem?_getD, List.getElem?_eq_getElem h1, List.getElem?_eq_getElem h2] at this

theorem cmLoop_copies (n : ℕ) {A : Type} (r c : A → ℤ) (T : List (A × ℕ)) (D : List A) (h : D.Perm (copies T)) (hpos : ∀ t ∈ T, 0 < t.2) (cm : List K) :
    cmLoop n (some (T.map (fun t => (t.2 : K)))) (T.map (fun t => r t.1)) (T.map (fun t => c t.1)) 0 cm = cmLoop n none (D.map r) (D.map c) 0 cm := by
  rw [cmLoop_ones n D.length _ _ 0 cm (by simp)]
  have e4 : List.replicate D.length (1 : K) = D.map (fun _ => (1 : K)) := by simp
  rw [e4]
  by_cases hin : ∀ t ∈ T, 0 ≤ r t.1 * n + c t.1 ∧ (r t.1 * n + c t.1).toNat < cm.length
  · obtain ⟨x, ex, lx, kx⟩ := cmLoop_spec n (fun t : A × ℕ => r t.1) (fun t => c t.1) (fun t => (t.2 : K)) T [] cm hin
    obtain ⟨y, ey, ly, ky⟩ := cmLoop_spec n r c (fun _ => (1 : K)) D [] cm (by
      intro d hd
      obtain ⟨t, ht, rfl⟩ := copies_sub T h d hd
      exact hin t ht)
    simp only [List.nil_append, List.length_nil] at ex ey
    rw [ex, ey]
    congr 1
    apply list_getD_ext
    · rw [lx, ly]
    · intro k hk
      rw [lx] at hk
      rw [kx k hk, ky k hk, wsum_copies _ T h]
  · have n1 : cmLoop n (some (T.map (fun t => (t.2 : K)))) (T.map (fun t => r t.1)) (T.map (fun t => c t.1)) 0 cm = none := by
      rw [Option.eq_none_iff_forall_ne_some]
      intro x hx
      exact hin (cmLoop_some n (fun t : A × ℕ => r t.1) (fun t => c t.1) (fun t => (t.2 : K)) T [] cm x (by simpa using hx))
    have n2 : cmLoop n (some (D.map (fun _ => (1 : K)))) (D.map r) (D.map c) 0 cm = none := by
      rw [Option.eq_none_iff_forall_ne_some]
      intro x hx
      apply hin
      intro t ht
      exact cmLoop_some n r c (fun _ => (1 : K)) D [] cm x (by simpa using hx) t.1 ((copies_mem T h hpos t.1).2 ⟨t, ht, rfl⟩)
    rw [n1, n2]

section
variable {L : Type} [LinearOrder L]

theorem classes_copies (T : List ((L × L) × ℕ)) (D : List (L × L)) (h : D.Perm (copies T)) (hpos : ∀ t ∈ T, 0 < t.2) :
    ((T.map (fun t => t.1.1)).foldl Enc.add Enc.empty).classes = ((D.map (fun s => s.1)).foldl Enc.add Enc.empty).classes := by
  obtain ⟨s1, m1⟩ := enc_spec (T.map (fun t => t.1.1))
  obtain ⟨s2, m2⟩ := enc_spec (D.map (fun s => s.1))
  refine List.Perm.eq_of_pairwise (le := (· < ·)) (fun a b _ _ h1 h2 => absurd h1 (lt_asymm h2)) s1 s2
    ((List.perm_ext_iff_of_nodup (s1.imp (fun {a b} h => ne_of_lt h)) (s2.imp (fun {a b} h => ne_of_lt h))).2 (fun v => ?_))
  rw [m1, m2, List.mem_map, List.mem_map]
  constructor
  · rintro ⟨t, ht, rfl⟩; exact ⟨t.1, (copies_mem T h hpos _).2 ⟨t, ht, rfl⟩, rfl⟩
  · rintro ⟨d, hd, rfl⟩
    obtain ⟨t, ht, rfl⟩ := copies_sub T h d hd
    exact ⟨t, ht, rfl⟩

/-- **C188, `ConfusionMatrix`.** The classes and the matrix are the same, and it panics on the same data, whatever the predicted labels. -/
theorem C188_confusion (T : List ((L × L) × ℕ)) (D : List (L × L)) (h : D.Perm (copies T)) (hpos : ∀ t ∈ T, 0 < t.2) :
    (confusion (K := K) (T.map (fun t => t.1.1)) (T.map (fun t => t.1.2)) (some (T.map (fun t => (t.2 : K))))).map (fun r => (r.1, r.2.1, r.2.2.classes)) =
      (confusion (K := K) (D.map (fun s => s.1)) (D.map (fun s => s.2)) none).map (fun r => (r.1, r.2.1, r.2.2.classes)) := by
  have hc := classes_copies T D h hpos
  set e1 := (T.map (fun t => t.1.1)).foldl Enc.add Enc.empty with he1
  set e2 := (D.map (fun s => s.1)).foldl Enc.add Enc.empty with he2
  have hcode : e1.code = e2.code := by
    funext v
    unfold Enc.code
    rw [hc]
  have hl := cmLoop_copies (K := K) e1.classes.length (fun s : L × L => e1.code s.1) (fun s => e1.code s.2) T D h hpos
    (List.replicate (e1.classes.length * e1.classes.length) 0)
  unfold confusion
  simp only [← he1, ← he2, List.map_map, Function.comp_def, ← hc, ← hcode, Option.bind_eq_bind]
  rw [hl]
  cases cmLoop (K := K) e1.classes.length none (D.map (fun s => e1.code s.1)) (D.map (fun s => e1.code s.2)) 0
    (List.replicate (e1.classes.length * e1.classes.length) 0) with
  | none => rfl
  | some cm => simp [hc]

/-- Precision, recall and F-score only depend on the number of classes and the matrix. -/
theorem prf_of_confusion (yt yp yt' yp' : List L) (w w' : Option (List K))
    (h : (confusion yt yp w).map (fun r => (r.1, r.2.1, r.2.2.classes)) = (confusion yt' yp' w').map (fun r => (r.1, r.2.1, r.2.2.classes)))
    (beta : K) (pos : Option ℕ) (avg : Average) :
    (prfScore yt yp beta pos avg w).map (fun q => (q.p, q.r, q.f)) = (prfScore yt' yp' beta pos avg w').map (fun q => (q.p, q.r, q.f)) := by
  unfold prfScore
  cases hx : confusion yt yp w with
  | none =>
    cases hy : confusion yt' yp' w' with
    | none => rfl
    | some y => rw [hx, hy] at h; simp at h
  | some x =>
    cases hy : confusion yt' yp' w' with
    | none => rw [hx, hy] at h; simp at h
    | some y =>
      obtain ⟨n, cm, le⟩ := x
      obtain ⟨n', cm', le'⟩ := y
      rw [hx, hy] at h
      simp only [Option.map_some, Option.some.injEq, Prod.mk.injEq] at h
      obtain ⟨rfl, rfl, _⟩ := h
      simp only [Option.bind_eq_bind, Option.bind_some]
      cases pos with
      | some c =>
        simp only [List.getElem?_map]
        by_cases hcn : c < n
        · simp [List.getElem?_range hcn, prfs]
        · simp [List.getElem?_eq_none (l := List.range n) (i := c) (by simpa using hcn)]
      | none =>
        cases avg <;> simp [prfs, Function.comp_def]

/-- **C188, `PrecisionRecallFScoreSupport`** (hence `PrecisionScore`, `RecallScore`, `F1Score`, `FBetaScore`): precision, recall and F-score, for one class or averaged in any
way.  (The support is excluded: it counts samples, see C12.) -/
theorem C188_prf (T : List ((L × L) × ℕ)) (D : List (L × L)) (h : D.Perm (copies T)) (hpos : ∀ t ∈ T, 0 < t.2) (beta : K) (pos : Option ℕ) (avg : Average) :
    (prfScore (K := K) (T.map (fun t => t.1.1)) (T.map (fun t => t.1.2)) beta pos avg (some (T.map (fun t => (t.2 : K))))).map (fun q => (q.p, q.r, q.f)) =
      (prfScore (K := K) (D.map (fun s => s.1)) (D.map (fun s => s.2)) beta pos avg none).map (fun q => (q.p, q.r, q.f)) :=
  prf_of_confusion _ _ _ _ _ _ (C188_confusion T D h hpos) beta pos avg

end

/-! ### Ranking metrics -/

/-- The curve is determined by the scores that occur and the weights above every score. -/
theorem clfCurve_congr (sort sort' : List (Obs K) → List (Obs K)) (hs : SortsDesc sort) (hs' : SortsDesc sort') (S S' : List (Obs K))
    (hm : ∀ t, (∃ x ∈ S, x.score = t) ↔ ∃ x ∈ S', x.score = t) (hp : ∀ t, posAbove t S = posAbove t S') (hn : ∀ t, negAbove t S = negAbove t S') :
    clfCurve sort S = clfCurve sort' S' := by
  obtain ⟨d1, p1, t1, _⟩ := clfCurve_spec sort hs S
  obtain ⟨d2, p2, t2, _⟩ := clfCurve_spec sort' hs' S'
  have hthr : (clfCurve sort S).map Pt.thr = (clfCurve sort' S').map Pt.thr := by
    refine List.Perm.eq_of_pairwise (le := (· > ·)) (fun a b _ _ h1 h2 => absurd h1 (lt_asymm h2)) p1 p2
      ((List.perm_ext_iff_of_nodup (p1.imp (fun {a b} h => ne_of_gt h)) (p2.imp (fun {a b} h => ne_of_gt h))).2 (fun v => ?_))
    rw [t1, t2, hm]
  have g1 : clfCurve sort S = ((clfCurve sort S).map Pt.thr).map (fun t => ⟨negAbove t S, posAbove t S, t⟩) := by
    rw [List.map_map]
    conv_lhs => rw [← List.map_id (clfCurve sort S)]
    apply List.map_congr_left
    intro p hp
    obtain ⟨a, b⟩ := d1 p hp
    simp only [id, Function.comp_def, ← a, ← b]
  have g2 : clfCurve sort' S' = ((clfCurve sort' S').map Pt.thr).map (fun t => ⟨negAbove t S', posAbove t S', t⟩) := by
    rw [List.map_map]
    conv_lhs => rw [← List.map_id (clfCurve sort' S')]
    apply List.map_congr_left
    intro p hp
    obtain ⟨a, b⟩ := d2 p hp
    simp only [id, Function.comp_def, ← a, ← b]
  rw [g1, g2, hthr]
  simp only [hp, hn]

/-- The rows of a classifier: (label is positive, score) with a weight. -/
def row (s : Bool × K) (w : K) : Obs K := ⟨s.2, s.1, w⟩

theorem above_copies (b : Bool) (t : K) (T : List ((Bool × K) × ℕ)) (D : List (Bool × K)) (h : D.Perm (copies T)) :
    wsum Obs.w (fun x => x.pos = b ∧ t ≤ x.score) (T.map (fun s => row s.1 (s.2 : K))) =
      wsum Obs.w (fun x => x.pos = b ∧ t ≤ x.score) (D.map (fun s => row s 1)) := by
  have := wsum_copies (K := K) (fun s : Bool × K => s.1 = b ∧ t ≤ s.2) T h
  unfold wsum at this ⊢
  simp only [List.map_map, Function.comp_def, row]
  exact this.symm

theorem curve_copies (sort sort' : List (Obs K) → List (Obs K)) (hs : SortsDesc sort) (hs' : SortsDesc sort') (T : List ((Bool × K) × ℕ)) (D : List (Bool × K))
    (h : D.Perm (copies T)) (hpos : ∀ t ∈ T, 0 < t.2) :
    clfCurve sort (T.map (fun s => row s.1 (s.2 : K))) = clfCurve sort' (D.map (fun s => row s 1)) := by
  refine clfCurve_congr sort sort' hs hs' _ _ ?_ (fun t => above_copies true t T D h) (fun t => above_copies false t T D h)
  intro t
  simp only [List.mem_map, exists_exists_and_eq_and, row]
  constructor
  · rintro ⟨s, hs, rfl⟩; exact ⟨s.1, (copies_mem T h hpos _).2 ⟨s, hs, rfl⟩, rfl⟩
  · rintro ⟨d, hd, rfl⟩
    obtain ⟨s, hs, rfl⟩ := copies_sub T h d hd
    exact ⟨s, hs, rfl⟩

/-- **C188, `ROCCurve`, `PrecisionRecallCurve`, the ROC AUC and the average precision**, even when the two sorts leave ties in different orders. -/
theorem C188_curves (sort sort' : List (Obs K) → List (Obs K)) (hs : SortsDesc sort) (hs' : SortsDesc sort') (T : List ((Bool × K) × ℕ)) (D : List (Bool × K))
    (h : D.Perm (copies T)) (hpos : ∀ t ∈ T, 0 < t.2) :
    rocCurve sort (T.map (fun s => row s.1 (s.2 : K))) = rocCurve sort' (D.map (fun s => row s 1)) ∧
    rocAuc sort (T.map (fun s => row s.1 (s.2 : K))) = rocAuc sort' (D.map (fun s => row s 1)) ∧
    prCurve sort (T.map (fun s => row s.1 (s.2 : K))) = prCurve sort' (D.map (fun s => row s 1)) ∧
    avgPrecision sort (T.map (fun s => row s.1 (s.2 : K))) = avgPrecision sort' (D.map (fun s => row s 1)) := by
  have e := curve_copies sort sort' hs hs' T D h hpos
  have e1 : rocCurve sort (T.map (fun s => row s.1 (s.2 : K))) = rocCurve sort' (D.map (fun s => row s 1)) := by unfold rocCurve; rw [e]
  have e2 : prCurve sort (T.map (fun s => row s.1 (s.2 : K))) = prCurve sort' (D.map (fun s => row s 1)) := by unfold prCurve; simp only [e]
  exact ⟨e1, by unfold rocAuc; rw [e1], e2, by unfold avgPrecision; rw [e2]⟩

/-- **C188, `ROCAUCScore` and `AveragePrecisionScore`** on one column of labels 0 and 1: `T` lists ((label, score), multiplicity). -/
theorem C188_rank_scores (sort sort' : List (Obs K) → List (Obs K)) (hs : SortsDesc sort) (hs' : SortsDesc sort') (T : List ((K × K) × ℕ)) (D : List (K × K))
    (h : D.Perm (copies T)) (hpos : ∀ t ∈ T, 0 < t.2) (h01 : ∀ t ∈ T, t.1.1 = 0 ∨ t.1.1 = 1) (avg avg' : Avg) :
    rocAUCScore sort 1 (T.map (fun t => [t.1.1])) (T.map (fun t => [t.1.2])) avg (some (T.map (fun t => (t.2 : K)))) =
      rocAUCScore sort' 1 (D.map (fun d => [d.1])) (D.map (fun d => [d.2])) avg' none ∧
    averagePrecisionScore sort 1 (T.map (fun t => [t.1.1])) (T.map (fun t => [t.1.2])) avg (some (T.map (fun t => (t.2 : K)))) =
      averagePrecisionScore sort' 1 (D.map (fun d => [d.1])) (D.map (fun d => [d.2])) avg' none := by
  have hT : ∀ t ∈ T.map (fun t => (t.1.1, t.1.2, (t.2 : K))), t.1 = 0 ∨ t.1 = 1 := by
    intro t ht
    obtain ⟨u, hu, rfl⟩ := List.mem_map.1 ht
    exact h01 u hu
  have hD : ∀ t ∈ D.map (fun d => (d.1, d.2, (1 : K))), t.1 = 0 ∨ t.1 = 1 := by
    intro t ht
    obtain ⟨d, hd, rfl⟩ := List.mem_map.1 ht
    obtain ⟨u, hu, rfl⟩ := copies_sub T h d hd
    exact h01 u hu
  have c := C188_curves sort sort' hs hs' (T.map (fun t => ((decide (t.1.1 = 1), t.1.2), t.2))) (D.map (fun d => (decide (d.1 = 1), d.2))) (by
    have : copies (T.map (fun t => ((decide (t.1.1 = 1), t.1.2), t.2))) = (copies T).map (fun d => (decide (d.1 = 1), d.2)) := by
      simp [copies, List.flatMap_map, List.map_flatMap]
    rw [this]
    exact h.map _) (by
    intro t ht
    obtain ⟨u, hu, rfl⟩ := List.mem_map.1 ht
    exact hpos u hu)
  have oT := obs_spec 1 (T.map (fun t => (t.1.1, t.1.2, (t.2 : K)))) []
  have oD := obs_unweighted 1 D []
  simp only [List.nil_append, List.length_nil, List.map_map, Function.comp_def, row] at oT oD c
  have aT := fun (m : List K → List K → Option (List K) → Option (Option K)) => average_one m (T.map (fun t => (t.1.1, t.1.2, (t.2 : K)))) hT avg (some (T.map (fun t => (t.2 : K))))
  have aD := fun (m : List K → List K → Option (List K) → Option (Option K)) => average_one m (D.map (fun d => (d.1, d.2, (1 : K)))) hD avg' none
  simp only [List.map_map, Function.comp_def] at aT aD
  constructor
  · rw [rocAUCScore, rocAUCScore, aT, aD]
    simp only [oT, oD, Option.bind_eq_bind, Option.bind_some]
    exact c.2.1
  · rw [averagePrecisionScore, averagePrecisionScore, aT, aD]
    simp only [oT, oD, Option.bind_eq_bind, Option.bind_some]
    exact c.2.2.2

/-! ### Regression metrics -/

theorem r2Output_copies (eps : K) {A : Type} (yt yp : A → K) (T : List (A × ℕ)) (D : List A) (h : D.Perm (copies T)) :
    r2Output eps (T.map (fun t => yt t.1)) (T.map (fun t => yp t.1)) (T.map (fun t => (t.2 : K))) = r2Output eps (D.map yt) (D.map yp) (D.map (fun _ => (1 : K))) := by
  have e : ∀ f : A → K, (T.map (fun t => (t.2 : K) * f t.1)).sum = (D.map (fun d => 1 * f d)).sum := by
    intro f
    simp only [one_mul]
    exact (copies_sum f T h).symm
  have e0 : (T.map (fun t => (t.2 : K))).sum = (D.map (fun _ => (1 : K))).sum := by
    rw [copies_sum _ T h]; simp
  unfold r2Output
  simp only [List.zipWith_map, List.zipWith_self, List.map_map, Function.comp_def, List.zipWith_map_left, List.zipWith_map_right]
  rw [e (fun a => (yp a - yt a) * (yp a - yt a)), e yt, e0]
  cases fdiv (D.map (fun d => 1 * yt d)).sum (D.map (fun _ => (1 : K))).sum with
  | none => rfl
  | some avg =>
    simp only [Option.bind_eq_bind, Option.bind_some]
    rw [e (fun a => (yt a - avg) * (yt a - avg))]

/-- **C188, `R2Score`** with `d` outputs and any `multioutput` argument, also for multiplicity 0. -/
theorem C188_r2 (eps : K) {d : ℕ} (T : List (((Fin d → K) × (Fin d → K)) × ℕ)) (D : List ((Fin d → K) × (Fin d → K))) (h : D.Perm (copies T)) (m : Multi) :
    r2Score eps (List.ofFn (fun j => T.map (fun t => t.1.1 j))) (List.ofFn (fun j => T.map (fun t => t.1.2 j))) (some (T.map (fun t => (t.2 : K)))) m =
      r2Score eps (List.ofFn (fun j => D.map (fun s => s.1 j))) (List.ofFn (fun j => D.map (fun s => s.2 j))) none m := by
  have e : ((List.ofFn (fun j => T.map (fun t => t.1.1 j))).zip (List.ofFn (fun j => T.map (fun t => t.1.2 j)))).mapM
        (fun c => r2Output eps c.1 c.2 ((some (T.map (fun t => (t.2 : K)))).getD (c.1.map (fun _ => 1)))) =
      ((List.ofFn (fun j => D.map (fun s => s.1 j))).zip (List.ofFn (fun j => D.map (fun s => s.2 j)))).mapM
        (fun c => r2Output eps c.1 c.2 ((none : Option (List K)).getD (c.1.map (fun _ => 1)))) := by
    simp only [List.ofFn_eq_map, List.zip_map', List.mapM_map]
    congr 1
    funext j
    simp only [Option.getD_some, Option.getD_none, List.map_map, Function.comp_def]
    exact r2Output_copies eps (fun s : (Fin d → K) × (Fin d → K) => s.1 j) (fun s => s.2 j) T D h
  unfold r2Score
  rw [e]
  simp only [List.length_ofFn]

/-- **C188 is violated by `MeanSquaredError` and `MeanAbsoluteError`** (`loss` the square or the absolute value): giving the second of two samples the weight `k ≥ 2` does not
count it `k` times, unless both samples have the same loss. -/
theorem C188_mean_error_violated (loss : K → K) (t1 p1 t2 p2 : K) (hne : loss (p1 - t1) ≠ loss (p2 - t2)) (k : ℕ) (hk : 2 ≤ k) :
    meanError loss [[t1, t2]] [[p1, p2]] (some [[1], [(k : K)]]) false ≠
      meanError loss [t1 :: List.replicate k t2] [p1 :: List.replicate k p2] none false := by
  have a := (C31_weights_violated loss [(p1, t1), (p2, t2)] (by simp) 1 [[(k : K)]]).1 one_ne_zero
  have b := (C31_mean_error_outputs loss [[(p1, t1), (p2, t2)]] (by simp)).2
  have c := (C31_mean_error_outputs loss [(p1, t1) :: List.replicate k (p2, t2)] (by simp)).2
  simp only [List.map_cons, List.map_nil, List.map_replicate, List.sum_cons, List.sum_nil, List.length_cons, List.length_nil, List.sum_replicate, List.length_replicate,
    nsmul_eq_mul] at a b c
  rw [a, b, c]
  intro h
  simp only [Option.some.injEq, List.cons.injEq, and_true] at h
  have hk' : (2 : K) ≤ (k : K) := by exact_mod_cast hk
  have h3 : ((k : K) + 1) ≠ 0 := by linarith
  push_cast at h
  norm_num at h
  rw [div_eq_div_iff (by norm_num) h3] at h
  have : ((k : K) - 1) * (loss (p1 - t1) - loss (p2 - t2)) = 0 := by linear_combination h
  rcases mul_eq_zero.1 this with h' | h'
  · linarith
  · exact hne (sub_eq_zero.1 h')

/-! ### Gaussian naive Bayes -/

section NB
open Sk.NB

/-- Two weighted data sets that give the same weighted sums and have the same rows. -/
def Same (S S' : List (Sample K)) : Prop :=
  (∀ f : List K → K → K, (S.map (fun s => s.w * f s.x s.y)).sum = (S'.map (fun s => s.w * f s.x s.y)).sum) ∧
  (∀ x y, (∃ s ∈ S, s.x = x ∧ s.y = y) ↔ ∃ s ∈ S', s.x = x ∧ s.y = y)

theorem Same.weights {S S' : List (Sample K)} (h : Same S S') : (S.map Sample.w).sum = (S'.map Sample.w).sum := by
  have := h.1 (fun _ _ => 1)
  simpa using this

theorem sum_filter (S : List (Sample K)) (c : K) (f : List K → K → K) :
    ((S.filter (fun s => s.y = c)).map (fun s => s.w * f s.x s.y)).sum = (S.map (fun s => s.w * (if s.y = c then f s.x s.y else 0))).sum := by
  induction S with
  | nil => rfl
  | cons s S ih =>
    by_cases hs : s.y = c
    · rw [List.filter_cons_of_pos (by simpa using hs), List.map_cons, List.sum_cons, ih, List.map_cons, List.sum_cons, if_pos hs]
    · rw [List.filter_cons_of_neg (by simpa using hs), ih, List.map_cons, List.sum_cons, if_neg hs]; simp

theorem Same.filter {S S' : List (Sample K)} (h : Same S S') (c : K) : Same (S.filter (fun s => s.y = c)) (S'.filter (fun s => s.y = c)) := by
  constructor
  · intro f
    rw [sum_filter, sum_filter]
    exact h.1 (fun x y => if y = c then f x y else 0)
  · intro x y
    have := h.2 x y
    simp only [List.mem_filter, decide_eq_true_eq]
    constructor
    · rintro ⟨s, ⟨hs, hc⟩, rfl, rfl⟩
      obtain ⟨s', hs', e1, e2⟩ := this.1 ⟨s, hs, rfl, rfl⟩
      exact ⟨s', ⟨hs', e2 ▸ hc⟩, e1, e2⟩
    · rintro ⟨s, ⟨hs, hc⟩, rfl, rfl⟩
      obtain ⟨s', hs', e1, e2⟩ := this.2 ⟨s, hs, rfl, rfl⟩
      exact ⟨s', ⟨hs', e2 ▸ hc⟩, e1, e2⟩

theorem Same.isEmpty {S S' : List (Sample K)} (h : Same S S') : S.isEmpty = S'.isEmpty := by
  rw [Bool.eq_iff_iff, List.isEmpty_iff, List.isEmpty_iff]
  constructor
  · rintro rfl
    rw [List.eq_nil_iff_forall_not_mem]
    intro s hs
    obtain ⟨s', hs', _⟩ := (h.2 s.x s.y).2 ⟨s, hs, rfl, rfl⟩
    simp at hs'
  · rintro rfl
    rw [List.eq_nil_iff_forall_not_mem]
    intro s hs
    obtain ⟨s', hs', _⟩ := (h.2 s.x s.y).1 ⟨s, hs, rfl, rfl⟩
    simp at hs'

theorem Same.meanvar {S S' : List (Sample K)} (h : Same S S') (c : ℕ) : meanvar (NB.column S c) = meanvar (NB.column S' c) := by
  have e : ∀ g : K → K, (S.map (fun s => g (s.x.getD c 0) * s.w)).sum = (S'.map (fun s => g (s.x.getD c 0) * s.w)).sum := by
    intro g
    have := h.1 (fun x _ => g (x.getD c 0))
    simpa only [mul_comm] using this
  unfold NB.meanvar NB.column
  simp only [List.map_map, Function.comp_def]
  have e0 := h.weights
  rw [show (S.map (fun s => s.w)).sum = (S'.map (fun s => s.w)).sum from e0]
  rw [e (fun v => v)]
  simp only [e (fun v => (v - (S'.map (fun s => s.x.getD c 0 * s.w)).sum / (S'.map (fun s => s.w)).sum) * (v - (S'.map (fun s => s.x.getD c 0 * s.w)).sum / (S'.map (fun s => s.w)).sum))]

theorem Same.updateStat {S S' : List (Sample K)} (h : Same S S') (p : ℕ) (s : Stat K) : updateStat p s S = updateStat p s S' := by
  unfold NB.updateStat updateCol
  simp only [h.isEmpty, h.meanvar, h.weights]

theorem Same.samplesOf {S S' : List (Sample K)} (h : Same S S') (classes : List K) (i : ℕ) : Same (samplesOf classes i S) (samplesOf classes i S') := by
  unfold NB.samplesOf
  split
  · exact ⟨fun _ => rfl, fun _ _ => Iff.rfl⟩
  · split
    · exact ⟨fun _ => rfl, fun _ _ => Iff.rfl⟩
    · exact h.filter _

theorem Same.any {S S' : List (Sample K)} (h : Same S S') (cl : List K) : S.any (fun s => s.y ∉ cl) = S'.any (fun s => s.y ∉ cl) := by
  rw [Bool.eq_iff_iff, List.any_eq_true, List.any_eq_true]
  constructor
  · rintro ⟨s, hs, hc⟩
    obtain ⟨s', hs', _, e2⟩ := (h.2 s.x s.y).1 ⟨s, hs, rfl, rfl⟩
    exact ⟨s', hs', by rw [e2]; exact hc⟩
  · rintro ⟨s, hs, hc⟩
    obtain ⟨s', hs', _, e2⟩ := (h.2 s.x s.y).2 ⟨s, hs, rfl, rfl⟩
    exact ⟨s', hs', by rw [e2]; exact hc⟩

theorem Same.partialFit {S S' : List (Sample K)} (h : Same S S') (tol vs : K) (priors : Option (List K)) (st : Option (Fitted K)) (p : ℕ) (classes : List K) (refit : Bool) :
    partialFit tol vs priors st p S classes refit = partialFit tol vs priors st p S' classes refit := by
  have e1 : maxVar p S = maxVar p S' := by unfold maxVar; simp only [h.meanvar]
  unfold NB.partialFit
  simp only [e1, h.any, fun cl i s => (h.samplesOf cl i).updateStat p s]

theorem Same.classes {S S' : List (Sample K)} (h : Same S S') : npUnique (S.map Sample.y) = npUnique (S'.map Sample.y) := by
  obtain ⟨n1, s1, m1⟩ := npUnique_spec (S.map Sample.y)
  obtain ⟨n2, s2, m2⟩ := npUnique_spec (S'.map Sample.y)
  refine List.Perm.eq_of_pairwise (le := (· ≤ ·)) (fun a b _ _ h1 h2 => le_antisymm h1 h2) s1 s2 ((List.perm_ext_iff_of_nodup n1 n2).2 (fun v => ?_))
  rw [m1, m2, List.mem_map, List.mem_map]
  constructor
  · rintro ⟨s, hs, rfl⟩
    obtain ⟨s', hs', _, e2⟩ := (h.2 s.x s.y).1 ⟨s, hs, rfl, rfl⟩
    exact ⟨s', hs', e2⟩
  · rintro ⟨s, hs, rfl⟩
    obtain ⟨s', hs', _, e2⟩ := (h.2 s.x s.y).2 ⟨s, hs, rfl, rfl⟩
    exact ⟨s', hs', e2⟩

theorem same_copies (T : List ((List K × K) × ℕ)) (D : List (List K × K)) (h : D.Perm (copies T)) (hpos : ∀ t ∈ T, 0 < t.2) :
    Same (T.map (fun t => (⟨t.1.1, t.1.2, (t.2 : K)⟩ : Sample K))) (D.map (fun d => ⟨d.1, d.2, 1⟩)) := by
  constructor
  · intro f
    simp only [List.map_map, Function.comp_def, one_mul]
    exact (copies_sum (fun d => f d.1 d.2) T h).symm
  · intro x y
    simp only [List.mem_map, exists_exists_and_eq_and]
    constructor
    · rintro ⟨t, ht, rfl, rfl⟩; exact ⟨t.1, (copies_mem T h hpos _).2 ⟨t, ht, rfl⟩, rfl, rfl⟩
    · rintro ⟨d, hd, rfl, rfl⟩
      obtain ⟨t, ht, rfl⟩ := copies_sub T h d hd
      exact ⟨t, ht, rfl, rfl⟩

/-- **C188, `GaussianNB`.** `PartialFit`, with whatever was learned before, and `Fit` store the same classes, means, variances, class counts and priors, and fail on the same data. -/
theorem C188_naive_bayes (T : List ((List K × K) × ℕ)) (D : List (List K × K)) (h : D.Perm (copies T)) (hpos : ∀ t ∈ T, 0 < t.2) (tol vs : K)
    (priors : Option (List K)) (st : Option (Fitted K)) (p : ℕ) :
    (∀ (classes : List K) (refit : Bool), partialFit tol vs priors st p (T.map (fun t => ⟨t.1.1, t.1.2, (t.2 : K)⟩)) classes refit =
      partialFit tol vs priors st p (D.map (fun d => ⟨d.1, d.2, 1⟩)) classes refit) ∧
    fit tol vs priors st p (T.map (fun t => ⟨t.1.1, t.1.2, (t.2 : K)⟩)) = fit tol vs priors st p (D.map (fun d => ⟨d.1, d.2, 1⟩)) := by
  have hs := same_copies T D h hpos
  refine ⟨fun classes refit => hs.partialFit tol vs priors st p classes refit, ?_⟩
  unfold NB.fit
  rw [hs.classes]
  exact hs.partialFit tol vs priors st p _ true

end NB

/-- Weights 2 and 1 against three rows, in another order. -/
example : [(5, 7), (3, 4), (3, 4)].Perm (copies [((3, 4), 2), ((5, 7), 1)]) := by decide
example : accuracy (K := ℚ) [[3], [5]] [[3], [7]] true (some [2, 1]) = some (2 / 3) ∧ accuracy (K := ℚ) [[5], [3], [3]] [[7], [3], [3]] true none = some (2 / 3) := by
  decide +kernel
example : (confusion (K := ℚ) [3, 5, 5] [3, 3, 5] (some [2, 1, 3])).map (fun r => r.2.1) = some [2, 0, 1, 3] := by decide +kernel
example : r2Score (K := ℚ) (1 / 10 ^ 20) [[1, 2]] [[1, 3]] (some [1, 2]) .raw = r2Score (K := ℚ) (1 / 10 ^ 20) [[2, 1, 2]] [[3, 1, 3]] none .raw := by decide +kernel

end Sk.Repeat
