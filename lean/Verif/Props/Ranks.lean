import Verif.Props.Repeats

/-!
# C190: only the ranking of scores and the order of labels matter

Scores, or labels, are replaced through a strictly increasing function.
-/
set_option autoImplicit false

namespace Sk.Ranks

open Sk.Metrics Sk.Label Sk.Rank Sk.GoSort

section Scores
variable {K : Type} [Field K] [LinearOrder K] [IsStrictOrderedRing K]

/-- `g` keeps the order of the scores of `S`. -/
def Keeps (g : K → K) (S : List (Obs K)) : Prop := ∀ x ∈ S, ∀ y ∈ S, x.score < y.score → g x.score < g y.score

theorem Keeps.le_iff {g : K → K} {S : List (Obs K)} (h : Keeps g S) {x y : Obs K} (hx : x ∈ S) (hy : y ∈ S) : g x.score ≤ g y.score ↔ x.score ≤ y.score := by
  constructor
  · intro h'
    by_contra hn
    exact absurd h' (not_le.2 (h y hy x hx (not_le.1 hn)))
  · intro h'
    rcases lt_or_eq_of_le h' with h1 | h1
    · exact (h x hx y hy h1).le
    · rw [h1]

/-- The rows with their scores replaced. -/
def rescore (g : K → K) (S : List (Obs K)) : List (Obs K) := S.map (fun x => ⟨g x.score, x.pos, x.w⟩)

theorem above_rescore (g : K → K) (S : List (Obs K)) (h : Keeps g S) (b : Bool) (z : Obs K) (hz : z ∈ S) :
    wsum Obs.w (fun x => x.pos = b ∧ g z.score ≤ x.score) (rescore g S) = wsum Obs.w (fun x => x.pos = b ∧ z.score ≤ x.score) S := by
  unfold wsum rescore
  rw [List.map_map]
  congr 1
  apply List.map_congr_left
  intro x hx
  simp only [Function.comp_def, h.le_iff hz hx]

/-- The curve of the replaced scores is the curve, with replaced thresholds. -/
theorem curve_rescore (g : K → K) (sort sort' : List (Obs K) → List (Obs K)) (hs : SortsDesc sort) (hs' : SortsDesc sort') (S : List (Obs K)) (h : Keeps g S) :
    clfCurve sort' (rescore g S) = (clfCurve sort S).map (fun p => ⟨p.fp, p.tp, g p.thr⟩) := by
  obtain ⟨d1, p1, t1, _⟩ := clfCurve_spec sort hs S
  obtain ⟨d2, p2, t2, _⟩ := clfCurve_spec sort' hs' (rescore g S)
  have hthr : (clfCurve sort' (rescore g S)).map Pt.thr = (clfCurve sort S).map (fun p => g p.thr) := by
    have p3 : ((clfCurve sort S).map (fun p => g p.thr)).Pairwise (· > ·) := by
      rw [List.pairwise_map] at p1 ⊢
      refine p1.imp_of_mem ?_
      intro a b ha hb hab
      obtain ⟨x, hx, ex⟩ := (t1 a.thr).1 (List.mem_map.2 ⟨a, ha, rfl⟩)
      obtain ⟨y, hy, ey⟩ := (t1 b.thr).1 (List.mem_map.2 ⟨b, hb, rfl⟩)
      rw [← ex, ← ey] at hab ⊢
      exact h y hy x hx hab
    refine List.Perm.eq_of_pairwise (le := (· > ·)) (fun a b _ _ h1 h2 => absurd h1 (lt_asymm h2)) p2 p3
      ((List.perm_ext_iff_of_nodup (p2.imp (fun {a b} h => ne_of_gt h)) (p3.imp (fun {a b} h => ne_of_gt h))).2 (fun v => ?_))
    rw [t2]
    simp only [rescore, List.mem_map, exists_exists_and_eq_and]
    constructor
    · rintro ⟨x, hx, rfl⟩
      obtain ⟨p, hp, e⟩ := List.mem_map.1 ((t1 x.score).2 ⟨x, hx, rfl⟩)
      exact ⟨p, hp, by rw [e]⟩
    · rintro ⟨p, hp, rfl⟩
      obtain ⟨x, hx, e⟩ := (t1 p.thr).1 (List.mem_map.2 ⟨p, hp, rfl⟩)
      exact ⟨x, hx, by rw [e]⟩
  have g2 : clfCurve sort' (rescore g S) = ((clfCurve sort' (rescore g S)).map Pt.thr).map (fun t => ⟨negAbove t (rescore g S), posAbove t (rescore g S), t⟩) := by
    rw [List.map_map]
    conv_lhs => rw [← List.map_id (clfCurve sort' (rescore g S))]
    apply List.map_congr_left
    intro p hp
    obtain ⟨a, b⟩ := d2 p hp
    simp only [id, Function.comp_def, ← a, ← b]
  rw [g2, hthr, List.map_map]
  apply List.map_congr_left
  intro p hp
  obtain ⟨a, b⟩ := d1 p hp
  obtain ⟨x, hx, e⟩ := (t1 p.thr).1 (List.mem_map.2 ⟨p, hp, rfl⟩)
  simp only [Function.comp_def, Pt.mk.injEq, and_true]
  rw [a, b, ← e]
  exact ⟨above_rescore g S h false x hx, above_rescore g S h true x hx⟩

/-- **C190, scores.** `ROCCurve` has the same rates, `PrecisionRecallCurve` the same precisions and recalls and the replaced thresholds; the ROC AUC and the average precision are the same.
The sorts may leave ties in different orders, and one class may be missing. -/
theorem C190_scores (g : K → K) (sort sort' : List (Obs K) → List (Obs K)) (hs : SortsDesc sort) (hs' : SortsDesc sort') (S : List (Obs K)) (h : Keeps g S) :
    (rocCurve sort' (rescore g S)).map (fun r => (r.1, r.2.1)) = (rocCurve sort S).map (fun r => (r.1, r.2.1)) ∧
    rocAuc sort' (rescore g S) = rocAuc sort S ∧
    prCurve sort' (rescore g S) = (prCurve sort S).map (fun r => (r.1, r.2.1, r.2.2.map g)) ∧
    avgPrecision sort' (rescore g S) = avgPrecision sort S := by
  have e := curve_rescore g sort sort' hs hs' S h
  have e1 : (rocCurve sort' (rescore g S)).map (fun r => (r.1, r.2.1)) = (rocCurve sort S).map (fun r => (r.1, r.2.1)) := by
    unfold rocCurve
    rw [e]
    cases hc : clfCurve sort S with
    | nil => rfl
    | cons p c =>
      unfold withStart
      simp only [List.map_cons]
      by_cases h0 : p.fp ≠ 0
      · simp only [h0, ne_eq, not_false_eq_true, if_true, Option.bind_eq_bind, Option.bind_some]
        have : (⟨0, 0, g p.thr + 1⟩ :: ⟨p.fp, p.tp, g p.thr⟩ :: c.map (fun p => (⟨p.fp, p.tp, g p.thr⟩ : Pt K))).getLast? =
            (((⟨0, 0, p.thr + 1⟩ : Pt K) :: p :: c).getLast?).map (fun p => ⟨p.fp, p.tp, g p.thr⟩) := by
          rw [List.getLast?_cons_cons, List.getLast?_cons_cons, ← List.getLast?_map, List.map_cons]
        rw [this]
        cases ((⟨0, 0, p.thr + 1⟩ : Pt K) :: p :: c).getLast? with
        | none => rfl
        | some l => simp [Function.comp_def]
      · simp only [h0, ne_eq, if_false, Option.bind_eq_bind, Option.bind_some]
        have : ((⟨p.fp, p.tp, g p.thr⟩ : Pt K) :: c.map (fun p => (⟨p.fp, p.tp, g p.thr⟩ : Pt K))).getLast? =
            ((p :: c).getLast?).map (fun p => ⟨p.fp, p.tp, g p.thr⟩) := by
          rw [← List.getLast?_map, List.map_cons]
        rw [this]
        cases (p :: c).getLast? with
        | none => rfl
        | some l => simp [Function.comp_def]
  have e2 : prCurve sort' (rescore g S) = (prCurve sort S).map (fun r => (r.1, r.2.1, r.2.2.map g)) := by
    unfold prCurve
    simp only [e, List.getLast?_map]
    cases (clfCurve sort S).getLast? with
    | none => rfl
    | some l => simp [Function.comp_def, List.map_take, List.map_reverse]
  refine ⟨e1, ?_, e2, ?_⟩
  · have f : ∀ (s : List (Obs K) → List (Obs K)) (T : List (Obs K)), rocAuc s T = ((rocCurve s T).map (fun r => (r.1, r.2.1))).map (fun r =>
        match r.1, r.2 with
        | some fpr, some tpr => some (auc fpr tpr)
        | _, _ => none) := by
      intro s T
      unfold rocAuc
      rw [Option.map_map]
      rfl
    rw [f, f, e1]
  · unfold avgPrecision
    rw [e2, Option.map_map]
    rfl

end Scores

/-! ### Labels -/

section Labels
variable {L M : Type} [LinearOrder L] [LinearOrder M]

theorem search_map (g : L → M) (hg : StrictMono g) (a : List L) (x : L) : searchFloat64s (a.map g) (g x) = searchFloat64s a x := by
  unfold searchFloat64s
  rw [List.length_map]
  congr 1
  funext i
  rw [List.getElem?_map]
  cases a[i]? with
  | none => rfl
  | some y => simp [hg.le_iff_le]

/-- The encoder with its classes replaced. -/
def relabel (g : L → M) (e : Enc L) : Enc M := ⟨e.classes.map g, e.support⟩

theorem add_relabel (g : L → M) (hg : StrictMono g) (e : Enc L) (v : L) : (relabel g e).add (g v) = relabel g (e.add v) := by
  unfold Enc.add relabel
  simp only [search_map g hg, List.getElem?_map]
  have : (e.classes[searchFloat64s e.classes v]?.map g = some (g v)) ↔ e.classes[searchFloat64s e.classes v]? = some v := by
    cases e.classes[searchFloat64s e.classes v]? with
    | none => simp
    | some u => simp [hg.injective.eq_iff]
  simp only [this]
  split
  · rfl
  · simp [List.map_take, List.map_drop]

theorem foldl_relabel (g : L → M) (hg : StrictMono g) (ys : List L) : ∀ e : Enc L, (ys.map g).foldl Enc.add (relabel g e) = relabel g (ys.foldl Enc.add e) := by
  induction ys with
  | nil => intro e; rfl
  | cons y ys ih => intro e; rw [List.map_cons, List.foldl_cons, add_relabel g hg, ih, List.foldl_cons]

theorem code_relabel (g : L → M) (hg : StrictMono g) (e : Enc L) (v : L) : (relabel g e).code (g v) = e.code v := by
  unfold Enc.code relabel
  simp only [search_map g hg, List.length_map]

/-- **C190, `LabelEncoder`.** The classes are the replaced classes, in the same order with the same support, and every label, known or not, gets the same code. -/
theorem C190_label_encoder (g : L → M) (hg : StrictMono g) (cols : List (List L)) (row : List L) :
    fit (cols.map (List.map g)) = (fit cols).map (fun e => ⟨e.classes.map g, e.support⟩) ∧
    transformRow (fit (cols.map (List.map g))) (row.map g) = transformRow (fit cols) row := by
  have h1 : fit (cols.map (List.map g)) = (fit cols).map (relabel g) := by
    rw [fit_eq, fit_eq, List.map_map, List.map_map]
    apply List.map_congr_left
    intro ys _
    exact foldl_relabel g hg ys Enc.empty
  refine ⟨h1, ?_⟩
  rw [h1]
  generalize fit cols = es
  induction row generalizing es with
  | nil => cases es <;> rfl
  | cons v row ih =>
    cases es with
    | nil => rfl
    | cons e es => simp only [List.map_cons, transformRow, code_relabel g hg, ih]

/-- **C190, `ConfusionMatrix` and `PrecisionRecallFScoreSupport`.** The matrix and all scores are the same. -/
theorem C190_confusion {K : Type} [Field K] [LinearOrder K] [IsStrictOrderedRing K] (g : L → M) (hg : StrictMono g) (yt yp : List L) (w : Option (List K))
    (beta : K) (pos : Option ℕ) (avg : Average) :
    confusion (yt.map g) (yp.map g) w = (confusion yt yp w).map (fun r => (r.1, r.2.1, ⟨r.2.2.classes.map g, r.2.2.support⟩)) ∧
    prfScore (yt.map g) (yp.map g) beta pos avg w = prfScore yt yp beta pos avg w := by
  have h1 : confusion (yt.map g) (yp.map g) w = (confusion yt yp w).map (fun r => (r.1, r.2.1, ⟨r.2.2.classes.map g, r.2.2.support⟩)) := by
    unfold confusion
    have e : (yt.map g).foldl Enc.add Enc.empty = relabel g (yt.foldl Enc.add Enc.empty) := foldl_relabel g hg yt Enc.empty
    have hl : (relabel g (yt.foldl Enc.add Enc.empty)).classes.length = (yt.foldl Enc.add Enc.empty).classes.length := by simp [relabel]
    simp only [e, hl, List.map_map, Function.comp_def, code_relabel g hg, Option.bind_eq_bind]
    cases cmLoop (K := K) _ w _ _ 0 _ with
    | none => rfl
    | some cm => rfl
  refine ⟨h1, ?_⟩
  unfold prfScore
  rw [h1]
  cases confusion yt yp w with
  | none => rfl
  | some r => rfl

/-- **C190, accuracy.** Any one-to-one replacement of the labels keeps the accuracy. -/
theorem C190_accuracy {K L M : Type} [Field K] [LinearOrder K] [IsStrictOrderedRing K] [DecidableEq L] [DecidableEq M] (g : L → M) (hg : Function.Injective g)
    (Yt Yp : List (List L)) (normalize : Bool) (w : Option (List K)) :
    accuracy (Yt.map (List.map g)) (Yp.map (List.map g)) normalize w = accuracy Yt Yp normalize w := by
  have hr : ∀ (a b : List L) (e : Bool), rowEq (a.map g) (b.map g) e = rowEq a b e := by
    intro a
    induction a with
    | nil => intro b e; simp [rowEq]
    | cons x a ih =>
      intro b e
      cases b with
      | nil => rfl
      | cons y b => simp only [List.map_cons, rowEq, hg.eq_iff, ih]
  have hl : ∀ (Yt : List (List L)) (i : ℕ) (nd : K × K), accLoop w (Yp.map (List.map g)) (Yt.map (List.map g)) i nd = accLoop w Yp Yt i nd := by
    intro Yt
    induction Yt with
    | nil => intro i nd; simp [accLoop]
    | cons y Yt ih =>
      intro i nd
      obtain ⟨n, d⟩ := nd
      simp only [List.map_cons, accLoop, List.getElem?_map, ih]
      cases weightAt w i with
      | none => rfl
      | some wi =>
        cases Yp[i]? with
        | none => rfl
        | some yp => simp only [Option.map_some, Option.bind_eq_bind, Option.bind_some, hr]
  unfold accuracy
  rw [hl]

end Labels

/-- Scores 1, 4, 35 replaced by 1/2, 4/5, 35/36. -/
example : Keeps (K := ℚ) (fun t => t / (t + 1)) [⟨1, true, 1⟩, ⟨4, false, 1⟩, ⟨35, true, 1⟩] := by
  unfold Keeps
  simp only [List.forall_mem_cons, List.not_mem_nil, false_implies, implies_true, and_true]
  norm_num
example : rocAuc (K := ℚ) (fun l => l.reverse) [⟨1, true, 1⟩, ⟨4, false, 1⟩, ⟨35, true, 1⟩] = some (some (1 / 2)) ∧
    rocAuc (K := ℚ) (fun l => l.reverse) (rescore (fun t => t / (t + 1)) [⟨1, true, 1⟩, ⟨4, false, 1⟩, ⟨35, true, 1⟩]) = some (some (1 / 2)) := by decide +kernel
example : StrictMono (fun n : ℕ => 2 * n + 5) ∧ transformRow (fit [[(30 : ℕ), 10, 20]]) [20] = some [1] ∧ transformRow (fit [[(65 : ℕ), 25, 45]]) [45] = some [1] :=
  ⟨fun a b h => by show 2 * a + 5 < 2 * b + 5; omega, by decide +kernel, by decide +kernel⟩

end Sk.Ranks
