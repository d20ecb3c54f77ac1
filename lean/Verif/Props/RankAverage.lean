import Verif.Props.Ranking
import Mathlib.Data.List.FinRange

/-! # C29 (ROCAUCScore), C73: averaging a binary score over several labels -/
set_option autoImplicit false

namespace Sk.Rank

open Sk.Metrics

variable {K : Type} [Field K] [LinearOrder K] [IsStrictOrderedRing K]

theorem obs_spec (posLabel : K) (rest : List (K × K × K)) : ∀ pre : List (K × K × K),
    obs posLabel (some ((pre ++ rest).map (fun t => t.2.2))) ((pre ++ rest).map (fun t => t.2.1)) (rest.map (fun t => t.1)) pre.length =
      some (rest.map (fun t => ⟨t.2.1, decide (t.1 = posLabel), t.2.2⟩)) := by
  induction rest with
  | nil => intro pre; simp [obs]
  | cons a rest ih =>
    intro pre
    have ih := ih (pre ++ [a])
    rw [List.map_cons, obs]
    simp only [weightAt, List.map_append, List.map_cons]
    rw [List.getElem?_append_right (by simp), List.getElem?_append_right (by simp)]
    simp only [List.length_map, Nat.sub_self, List.getElem?_cons_zero, Option.bind_eq_bind, Option.bind_some]
    simp only [List.length_append, List.length_singleton, List.append_assoc, List.cons_append, List.nil_append, List.map_append, List.map_cons] at ih
    rw [ih]
    rfl

theorem fold_lo (l : List K) : ∀ x : K, (l.foldl (fun lo v => if v < lo then v else lo) x = x ∨ l.foldl (fun lo v => if v < lo then v else lo) x ∈ l) ∧
    l.foldl (fun lo v => if v < lo then v else lo) x ≤ x ∧ ∀ v ∈ l, l.foldl (fun lo v => if v < lo then v else lo) x ≤ v := by
  induction l with
  | nil => intro x; simp
  | cons a l ih =>
    intro x
    rw [List.foldl_cons]
    obtain ⟨h1, h2, h3⟩ := ih (if a < x then a else x)
    by_cases h : a < x
    · rw [if_pos h] at h1 h2 h3 ⊢
      refine ⟨Or.inr (by rcases h1 with h1 | h1 <;> simp [h1]), le_trans h2 h.le, ?_⟩
      intro v hv
      rcases List.mem_cons.1 hv with rfl | hv
      · exact h2
      · exact h3 v hv
    · rw [if_neg h] at h1 h2 h3 ⊢
      refine ⟨by rcases h1 with h1 | h1 <;> simp [h1], h2, ?_⟩
      intro v hv
      rcases List.mem_cons.1 hv with rfl | hv
      · exact le_trans h2 (not_lt.1 h)
      · exact h3 v hv

theorem fold_hi (l : List K) : ∀ x : K, (l.foldl (fun hi v => if hi < v then v else hi) x = x ∨ l.foldl (fun hi v => if hi < v then v else hi) x ∈ l) ∧
    x ≤ l.foldl (fun hi v => if hi < v then v else hi) x ∧ ∀ v ∈ l, v ≤ l.foldl (fun hi v => if hi < v then v else hi) x := by
  induction l with
  | nil => intro x; simp
  | cons a l ih =>
    intro x
    rw [List.foldl_cons]
    obtain ⟨h1, h2, h3⟩ := ih (if x < a then a else x)
    by_cases h : x < a
    · rw [if_pos h] at h1 h2 h3 ⊢
      refine ⟨Or.inr (by rcases h1 with h1 | h1 <;> simp [h1]), le_trans h.le h2, ?_⟩
      intro v hv
      rcases List.mem_cons.1 hv with rfl | hv
      · exact h2
      · exact h3 v hv
    · rw [if_neg h] at h1 h2 h3 ⊢
      refine ⟨by rcases h1 with h1 | h1 <;> simp [h1], h2, ?_⟩
      intro v hv
      rcases List.mem_cons.1 hv with rfl | hv
      · exact le_trans (not_lt.1 h) h2
      · exact h3 v hv

/-- 0/1 labels are recognised: one column is "binary", several are "multilabel-indicator". -/
theorem typeOfTarget_01 (cols : List (List K)) (h : ∀ c ∈ cols, ∀ v ∈ c, v = 0 ∨ v = 1) :
    typeOfTarget cols = if cols.length = 1 then Target.binary else Target.multilabel := by
  have hall : cols.all twoValued = true := by
    rw [List.all_eq_true]
    intro c hc
    cases c with
    | nil => rfl
    | cons x c' =>
      have hx := h _ hc
      simp only [twoValued]
      rw [List.all_eq_true]
      intro v hv
      rw [decide_eq_true_iff]
      obtain ⟨l1, _, l3⟩ := fold_lo (x :: c') x
      obtain ⟨u1, _, u3⟩ := fold_hi (x :: c') x
      generalize (x :: c').foldl (fun lo v => if v < lo then v else lo) x = lo at *
      generalize (x :: c').foldl (fun hi v => if hi < v then v else hi) x = hi at *
      have hlo : lo = 0 ∨ lo = 1 := by
        rcases l1 with rfl | l1
        · exact hx lo (by simp)
        · exact hx lo l1
      have hhi : hi = 0 ∨ hi = 1 := by
        rcases u1 with rfl | u1
        · exact hx hi (by simp)
        · exact hx hi u1
      rcases hx v hv with rfl | rfl
      · left
        rcases hlo with e | e
        · exact e.symm
        · have := l3 0 hv
          rw [e] at this
          exact absurd this (not_le.2 zero_lt_one)
      · right
        rcases hhi with e | e
        · have := u3 1 hv
          rw [e] at this
          exact absurd this (not_le.2 zero_lt_one)
        · exact e.symm
  unfold typeOfTarget
  rw [if_pos hall]

theorem column_singletons (l : List K) : column (l.map (fun x => [x])) 0 = some l := by
  unfold column
  induction l with
  | nil => rfl
  | cons a l ih => rw [List.map_cons, List.mapM_cons, ih]; rfl

/-- Score of one column of 0/1 labels: the binary score of the column, for every `average` argument. -/
theorem average_one (metric : List K → List K → Option (List K) → Option (Option K)) (T : List (K × K × K)) (h01 : ∀ t ∈ T, t.1 = 0 ∨ t.1 = 1) (avg : Avg) (w : Option (List K)) :
    averageBinary metric 1 (T.map (fun t => [t.1])) (T.map (fun t => [t.2.1])) avg w = metric (T.map (fun t => t.1)) (T.map (fun t => t.2.1)) w := by
  have e1 : column (T.map (fun t => [t.1])) 0 = some (T.map (fun t => t.1)) := by
    have := column_singletons (T.map (fun t => t.1))
    rwa [List.map_map] at this
  have e2 : column (T.map (fun t => [t.2.1])) 0 = some (T.map (fun t => t.2.1)) := by
    have := column_singletons (T.map (fun t => t.2.1))
    rwa [List.map_map] at this
  have e3 : (T.map (fun t => [t.1])).flatten = T.map (fun t => t.1) := by
    clear e1 e2 h01
    induction T with
    | nil => rfl
    | cons a T ih => rw [List.map_cons, List.map_cons, List.flatten_cons, ih]; rfl
  have e5 : typeOfTarget [T.map (fun t => t.1)] = Target.binary := by
    rw [typeOfTarget_01]
    · rfl
    · intro c hc v hv
      rw [List.mem_singleton] at hc
      subst hc
      obtain ⟨t, ht, rfl⟩ := List.mem_map.1 hv
      exact h01 t ht
  have e6 : (List.range 1).mapM (column (T.map (fun t => [t.1]))) = some [T.map (fun t => t.1)] := by
    show [0].mapM _ = _
    rw [List.mapM_cons, e1]; rfl
  simp only [averageBinary, e6, e5, Option.bind_eq_bind, Option.bind_some, e2, e3]

/-- Rows read without weights: every row has weight 1. -/
theorem obs_unweighted (posLabel : K) (rest : List (K × K)) : ∀ pre : List (K × K),
    obs posLabel none ((pre ++ rest).map (fun t => t.2)) (rest.map (fun t => t.1)) pre.length = some (rest.map (fun t => ⟨t.2, decide (t.1 = posLabel), 1⟩)) := by
  induction rest with
  | nil => intro pre; simp [obs]
  | cons a rest ih =>
    intro pre
    have ih := ih (pre ++ [a])
    rw [List.map_cons, obs]
    simp only [weightAt, List.map_append, List.map_cons]
    rw [List.getElem?_append_right (by simp)]
    simp only [List.length_map, Nat.sub_self, List.getElem?_cons_zero, Option.bind_eq_bind, Option.bind_some]
    simp only [List.length_append, List.length_singleton, List.append_assoc, List.cons_append, List.nil_append, List.map_append, List.map_cons] at ih
    rw [ih]
    rfl

/-- **C29 for `ROCAUCScore`.** For triples (label, score, weight) with labels 0 and 1 given as one-column matrices, `ROCAUCScore` is the Mann-Whitney statistic
of the rows, label 1 being the positive class, for every `average` argument. -/
theorem C29_roc_auc_score (sort : List (Obs K) → List (Obs K)) (hsort : SortsDesc sort) (T : List (K × K × K)) (h01 : ∀ t ∈ T, t.1 = 0 ∨ t.1 = 1)
    (S : List (Obs K)) (hS : S = T.map (fun t => ⟨t.2.1, decide (t.1 = 1), t.2.2⟩)) (hp : 0 < posW S) (hn : 0 < negW S) (avg : Avg) :
    rocAUCScore sort 1 (T.map (fun t => [t.1])) (T.map (fun t => [t.2.1])) avg (some (T.map (fun t => t.2.2))) = some (some (mannWhitney S)) := by
  have e4 := obs_spec 1 T []
  simp only [List.nil_append, List.length_nil] at e4
  rw [rocAUCScore, average_one _ T h01]
  simp only [e4, Option.bind_eq_bind, Option.bind_some]
  rw [← hS]
  exact C29_auc_mann_whitney sort hsort S hp hn

/-- **C29 for `ROCAUCScore` without weights**: the same with weight 1 for every row. -/
theorem C29_roc_auc_unweighted (sort : List (Obs K) → List (Obs K)) (hsort : SortsDesc sort) (T : List (K × K)) (h01 : ∀ t ∈ T, t.1 = 0 ∨ t.1 = 1)
    (S : List (Obs K)) (hS : S = T.map (fun t => ⟨t.2, decide (t.1 = 1), 1⟩)) (hp : 0 < posW S) (hn : 0 < negW S) (avg : Avg) :
    rocAUCScore sort 1 (T.map (fun t => [t.1])) (T.map (fun t => [t.2])) avg none = some (some (mannWhitney S)) := by
  have e4 := obs_unweighted 1 T []
  simp only [List.nil_append, List.length_nil] at e4
  have e := average_one (fun yt ys w => do rocAuc sort (← obs 1 w ys yt 0)) (T.map (fun t => (t.1, t.2, (1 : K)))) (by
    intro t ht
    obtain ⟨u, hu, rfl⟩ := List.mem_map.1 ht
    exact h01 u hu) avg none
  simp only [List.map_map, Function.comp_def] at e
  rw [rocAUCScore, e]
  simp only [e4, Option.bind_eq_bind, Option.bind_some]
  rw [← hS]
  exact C29_auc_mann_whitney sort hsort S hp hn

/-- **C74 for `AveragePrecisionScore`.** For one column of labels 0 and 1 it is the average precision (`C74_average_precision`) of the rows with label 1 positive, weighted (triples) or not (weight 1). -/
theorem C74_score (sort : List (Obs K) → List (Obs K)) (T : List (K × K × K)) (h01 : ∀ t ∈ T, t.1 = 0 ∨ t.1 = 1) (avg : Avg) :
    averagePrecisionScore sort 1 (T.map (fun t => [t.1])) (T.map (fun t => [t.2.1])) avg (some (T.map (fun t => t.2.2))) = avgPrecision sort (T.map (fun t => ⟨t.2.1, decide (t.1 = 1), t.2.2⟩)) ∧
    averagePrecisionScore sort 1 (T.map (fun t => [t.1])) (T.map (fun t => [t.2.1])) avg none = avgPrecision sort (T.map (fun t => ⟨t.2.1, decide (t.1 = 1), 1⟩)) := by
  have e4 := obs_spec 1 T []
  have e5 := obs_unweighted 1 (T.map (fun t => (t.1, t.2.1))) []
  simp only [List.nil_append, List.length_nil, List.map_map, Function.comp_def] at e4 e5
  constructor
  · rw [averagePrecisionScore, average_one _ T h01]
    simp only [e4, Option.bind_eq_bind, Option.bind_some]
  · rw [averagePrecisionScore, average_one _ T h01]
    simp only [e5, Option.bind_eq_bind, Option.bind_some]

/-- Three rows with labels 1, 0, 1. -/
example : averagePrecisionScore (K := ℚ) (fun l => l.reverse) 1 [[1], [0], [1]] [[1], [4], [35]] .macro none = some (some (5 / 6)) := by decide +kernel

theorem mapM_range_some {B : Type} (f : ℕ → Option B) (g : ℕ → B) (n : ℕ) (h : ∀ c < n, f c = some (g c)) :
    (List.range n).mapM f = some ((List.range n).map g) := by
  rw [ListX.mapM_forall2, List.forall₂_map_right_iff, List.forall₂_same]
  intro c hc
  exact h c (List.mem_range.1 hc)

/-- **C73 (partial).** Several 0/1 labels, scores of the labels (columns) being finite numbers `s c`: "macro" is their mean, "weighted" their mean with weights the number
(the weight) of positives of each label, "micro" without weights is the score of all cells together.  Missing: "micro" with weights and "samples", see
`C73_micro_weights_violated` and `C73_samples_violated`. -/
theorem C73_average_partial (metric : List K → List K → Option (List K) → Option (Option K)) (n : ℕ) (hn : 1 < n) (Yt Ys : List (List K))
    (yt ys : ℕ → List K) (hyt : ∀ c < n, column Yt c = some (yt c)) (hys : ∀ c < n, column Ys c = some (ys c))
    (h01 : ∀ c < n, ∀ v ∈ yt c, v = 0 ∨ v = 1) (w : Option (List K)) (s : ℕ → K) (hs : ∀ c < n, metric (yt c) (ys c) w = some (some (s c))) :
    averageBinary metric n Yt Ys .macro w = some (some (((List.range n).map s).sum / n)) ∧
    (∀ sup : ℕ → K, (∀ c < n, sup c = wsum Prod.snd (fun p => p.1 = 1) ((yt c).zip (w.getD (List.replicate Yt.length 1)))) →
      0 < ((List.range n).map sup).sum →
      averageBinary metric n Yt Ys .weighted w =
        some (some (((List.range n).map (fun c => sup c * s c)).sum / ((List.range n).map sup).sum))) ∧
    averageBinary metric n Yt Ys .micro none = metric Yt.flatten Ys.flatten none := by
  have e1 := mapM_range_some (column Yt) yt n hyt
  have e2 : typeOfTarget ((List.range n).map yt) = .multilabel := by
    rw [typeOfTarget_01]
    · rw [if_neg]; simp; omega
    · intro c hc v hv
      obtain ⟨i, hi, rfl⟩ := List.mem_map.1 hc
      exact h01 i (List.mem_range.1 hi) v hv
  have e3 : (List.range n).mapM (fun c => do metric (← column Yt c) (← column Ys c) w) = some ((List.range n).map (fun c => some (s c))) := by
    apply mapM_range_some
    intro c hc
    simp only [hyt c hc, hys c hc, Option.bind_eq_bind, Option.bind_some, hs c hc]
  have e4 : ((List.range n).map (fun c => some (s c))).mapM id = some ((List.range n).map s) := by
    rw [ListX.mapM_forall2, List.forall₂_map_left_iff, List.forall₂_map_right_iff, List.forall₂_same]
    intro c _; rfl
  refine ⟨?_, ?_, ?_⟩
  · simp only [Option.bind_eq_bind] at e3
    simp only [averageBinary, e1, e2, Option.bind_eq_bind, Option.bind_some, e3, e4]
    have : (n : K) ≠ 0 := by exact_mod_cast (by omega : n ≠ 0)
    simp [wmean, fdiv, this]
  · intro sup hsup hpos
    have e5 : ((List.range n).map yt).map (fun c => (List.zipWith (fun (v : K) (u : K) => if v = 1 then u else 0) c (w.getD (List.replicate Yt.length 1))).sum) =
        (List.range n).map sup := by
      rw [List.map_map]
      apply List.map_congr_left
      intro c hc
      rw [hsup c (List.mem_range.1 hc)]
      unfold wsum
      rw [List.map_zip_eq_zipWith]
      rfl
    simp only [Option.bind_eq_bind] at e3
    simp only [averageBinary, e1, e2, Option.bind_eq_bind, Option.bind_some, e3, e4, e5, if_neg (ne_of_gt hpos)]
    simp only [wmean, fdiv, if_neg (ne_of_gt hpos), List.zipWith_map, List.zipWith_self]
    rfl
  · simp only [averageBinary, e1, e2, Option.bind_eq_bind, Option.bind_some]
    rfl

/-- **C73, no positives.** If no label has a positive sample of weight other than 0 (or the weights of the positive samples cancel), the weighted average is 0, whatever the metric. -/
theorem C73_no_positive (metric : List K → List K → Option (List K) → Option (Option K)) (n : ℕ) (hn : 1 < n) (Yt Ys : List (List K)) (yt : ℕ → List K) (hyt : ∀ c < n, column Yt c = some (yt c))
    (h01 : ∀ c < n, ∀ v ∈ yt c, v = 0 ∨ v = 1) (w : Option (List K))
    (h0 : ((List.range n).map (fun c => wsum Prod.snd (fun p => p.1 = 1) ((yt c).zip (w.getD (List.replicate Yt.length 1))))).sum = 0) : averageBinary metric n Yt Ys .weighted w = some (some 0) := by
  have e1 := mapM_range_some (column Yt) yt n hyt
  have e2 : typeOfTarget ((List.range n).map yt) = .multilabel := by
    rw [typeOfTarget_01]
    · rw [if_neg]; simp; omega
    · intro c hc v hv
      obtain ⟨i, hi, rfl⟩ := List.mem_map.1 hc
      exact h01 i (List.mem_range.1 hi) v hv
  have e5 : ((List.range n).map yt).map (fun c => (List.zipWith (fun (v : K) (u : K) => if v = 1 then u else 0) c (w.getD (List.replicate Yt.length 1))).sum) =
      (List.range n).map (fun c => wsum Prod.snd (fun p => p.1 = 1) ((yt c).zip (w.getD (List.replicate Yt.length 1)))) := by
    rw [List.map_map]
    apply List.map_congr_left
    intro c hc
    unfold wsum
    rw [List.map_zip_eq_zipWith]
    rfl
  simp only [averageBinary, e1, e2, Option.bind_eq_bind, Option.bind_some, e5, if_pos h0]

/-- Two labels without positive samples. -/
example : averageBinary (K := ℚ) (fun _ _ _ => some (some 7)) 2 [[0, 0], [0, 0]] [[1, 2], [3, 4]] .weighted none = some (some 0) := by decide +kernel

/-- **C73: "samples" is violated.** It slices columns, not rows: with more samples than labels (at least two labels of 0/1) it panics whatever the metric. -/
theorem C73_samples_violated (metric : List K → List K → Option (List K) → Option (Option K)) (n : ℕ) (hn : 1 < n) (Yt Ys : List (List K))
    (hm : n < Yt.length) (hrow : ∀ r ∈ Yt, r.length = n) (h01 : ∀ r ∈ Yt, ∀ v ∈ r, v = 0 ∨ v = 1) (w : Option (List K)) :
    averageBinary metric n Yt Ys .samples w = none := by
  have hcol : ∀ c < n, ∃ y, column Yt c = some y ∧ ∀ v ∈ y, v = 0 ∨ v = 1 := by
    intro c hc
    refine ⟨Yt.map (fun r => r.getD c 0), ?_, ?_⟩
    · unfold column
      rw [ListX.mapM_forall2, List.forall₂_map_right_iff, List.forall₂_same]
      intro r hr
      have : c < r.length := by rw [hrow r hr]; exact hc
      simp [this]
    · intro v hv
      obtain ⟨r, hr, rfl⟩ := List.mem_map.1 hv
      have : c < r.length := by rw [hrow r hr]; exact hc
      apply h01 r hr
      simp [this]
  choose! y hy hy01 using hcol
  have e1 := mapM_range_some (column Yt) y n hy
  have e2 : typeOfTarget ((List.range n).map y) = .multilabel := by
    rw [typeOfTarget_01]
    · rw [if_neg]; simp; omega
    · intro c hc v hv
      obtain ⟨i, hi, rfl⟩ := List.mem_map.1 hc
      exact hy01 i (List.mem_range.1 hi) v hv
  have e3 : column Yt n = none := by
    cases h : column Yt n with
    | none => rfl
    | some z =>
      unfold column at h
      rw [ListX.mapM_forall2] at h
      have hne : Yt ≠ [] := by rintro rfl; simp at hm
      obtain ⟨r, Y', rfl⟩ := List.exists_cons_of_ne_nil hne
      cases h with
      | cons h1 _ =>
        have := (List.getElem?_eq_some_iff.1 h1).1
        rw [hrow r (by simp)] at this
        omega
  have e4 : (List.range Yt.length).mapM (fun c => do metric (← column Yt c) (← column Ys c) none) = none := by
    cases h : (List.range Yt.length).mapM (fun c => do metric (← column Yt c) (← column Ys c) none) with
    | none => rfl
    | some z =>
      rw [ListX.mapM_forall2] at h
      have hb := (List.forall₂_iff_get.1 h).2 n (by simpa using hm) (by rw [← (List.forall₂_iff_get.1 h).1]; simpa using hm)
      simp [e3] at hb
  simp only [Option.bind_eq_bind] at e4
  simp only [averageBinary, e1, e2, Option.bind_eq_bind, Option.bind_some, e4]
  rfl

/-- A list of weights that is the same laid out block by block and sample by sample is constant. -/
theorem blocks_const (n : ℕ) (hn : 1 < n) (w : List K) (h : (List.replicate n w).flatten = w.flatMap (List.replicate n)) : ∀ a ∈ w, ∀ b ∈ w, a = b := by
  have hl : ∀ (k : ℕ) (l : List K), k < l.length → ((List.replicate n l).flatten)[k]? = l[k]? := by
    intro k l hk
    obtain ⟨n', rfl⟩ : ∃ n', n = n' + 1 := ⟨n - 1, by omega⟩
    rw [List.replicate_succ, List.flatten_cons, List.getElem?_append_left hk]
  have hr : ∀ (l : List K) (k : ℕ), (l.flatMap (List.replicate n))[k]? = l[k / n]? := by
    intro l
    induction l with
    | nil => intro k; simp
    | cons a l ih =>
      intro k
      rw [List.flatMap_cons]
      by_cases hk : k < n
      · rw [List.getElem?_append_left (by simpa using hk), Nat.div_eq_of_lt hk]
        simp [hk]
      · rw [List.getElem?_append_right (by simpa using hk), ih, List.length_replicate, show k / n = (k - n) / n + 1 from Nat.div_eq_sub_div (by omega) (by omega)]
        rfl
  have key : ∀ k, k < w.length → w[k]? = w[0]? := by
    intro k
    induction k using Nat.strong_induction_on with
    | _ k ih =>
      intro hk
      by_cases h0 : k = 0
      · rw [h0]
      · have hlt : k / n < k := Nat.div_lt_self (by omega) hn
        rw [← hl k w hk, h, hr, ih (k / n) hlt (by omega)]
  intro a ha b hb
  obtain ⟨i, hi, rfl⟩ := List.getElem_of_mem ha
  obtain ⟨j, hj, rfl⟩ := List.getElem_of_mem hb
  have e := (key i hi).trans (key j hj).symm
  rw [List.getElem?_eq_getElem hi, List.getElem?_eq_getElem hj] at e
  exact Option.some.inj e

/-- **C73: "micro" with weights is violated.** Cells are laid out row by row but weights block by block: unless all weights are equal, the weights given to the metric are not those of the samples of the cells, for all
labels, scores and metrics. -/
theorem C73_micro_weights_violated (n : ℕ) (hn : 1 < n) (Yt Ys : List (List K)) (yt : ℕ → List K) (hyt : ∀ c < n, column Yt c = some (yt c)) (h01 : ∀ c < n, ∀ v ∈ yt c, v = 0 ∨ v = 1) (w : List K)
    (hw : ∃ a ∈ w, ∃ b ∈ w, a ≠ b) :
    ∃ u, (∀ metric : List K → List K → Option (List K) → Option (Option K), averageBinary metric n Yt Ys .micro (some w) = metric Yt.flatten Ys.flatten (some u)) ∧ u ≠ w.flatMap (List.replicate n) := by
  refine ⟨(List.replicate n w).flatten, fun metric => ?_, fun h => ?_⟩
  · have e1 := mapM_range_some (column Yt) yt n hyt
    have e2 : typeOfTarget ((List.range n).map yt) = .multilabel := by
      rw [typeOfTarget_01]
      · rw [if_neg]; simp; omega
      · intro c hc v hv
        obtain ⟨i, hi, rfl⟩ := List.mem_map.1 hc
        exact h01 i (List.mem_range.1 hi) v hv
    simp only [averageBinary, e1, e2, Option.bind_eq_bind, Option.bind_some]
    rfl
  · obtain ⟨a, ha, b, hb, hab⟩ := hw
    exact hab (blocks_const n hn w h a ha b hb)

/-- With two samples of weights 1 and 0, the second sample, of weight zero, changes the result. (`metric` here: the weight of the cells where label and score agree.) -/
example :
    let metric : List ℚ → List ℚ → Option (List ℚ) → Option (Option ℚ) :=
      fun yt ys w => some (some ((List.zipWith (fun (p : Bool) (u : ℚ) => if p then u else 0) (List.zipWith (fun a b => decide (a = b)) yt ys) (w.getD []))).sum)
    averageBinary metric 2 [[1, 0], [0, 1]] [[1, 0], [0, 1]] .micro (some [1, 0]) = some (some 2) ∧
    averageBinary metric 2 [[1, 0], [0, 1]] [[1, 0], [1, 1]] .micro (some [1, 0]) = some (some 1) := by
  decide +kernel

example : averageBinary (K := ℚ) (fun yt ys _ => some (some (List.zipWith (· * ·) yt ys).sum)) 2 [[1, 0], [0, 1], [1, 1]] [[2, 0], [0, 3], [5, 5]] .macro none =
    some (some (15 / 2)) := by decide +kernel

end Sk.Rank
