import Verif.Lemmas.CrossVal
import Mathlib.Data.List.Perm.Basic

/-!
# C09: `CrossValidate` and sorting of its result
-/
set_option autoImplicit false

namespace Sk.CrossVal
open Sk.Parallel Sk.Split

/-- **C09.** When as many splits are received as announced, whatever `NJobs`, the number of CPUs and the interleaving of the
goroutines, slot `i` of the result holds the estimator fitted on the training rows of split `i` and the score of that
estimator on the test rows of split `i`. -/
theorem C09_crossvalidate_slots {Row E S : Type} (es : Estimator Row E S) (data : ℕ → Row)
    (numCPU : ℕ) (hcpu : 0 < numCPU) (NJobs : ℤ) (splits : List Fold) (pl : List (ℕ × List (ℕ × Fold)))
    (hpl : plan numCPU NJobs splits.length splits = some pl)
    (m m' : ℕ → Cell Row E S) (hrun : Run (workers es data splits.length pl) m m')
    (i : ℕ) (hi : i < splits.length) :
    m' i = .slot (es.fit (splits[i].train.map data))
      (es.score (es.fit (splits[i].train.map data)) (splits[i].test.map data)) := by
  have g := plan_good hcpu rfl hpl
  rw [run_cell hrun (good_disjoint es data g) i, runSeq_cell, filter_workers_slot es data _ i hi, g.all,
    filter_idx_eq splits _ rfl i hi]
  simp [jobActs]

/-- **C09.** The call goes through (does not panic) exactly when no split has an empty train or test part, provided the
number of splits received is the announced one. -/
theorem C09_crossvalidate_no_panic (numCPU : ℕ) (NJobs : ℤ) (splits : List Fold) :
    (plan numCPU NJobs splits.length splits).isSome ↔ ∀ f ∈ splits, f.train ≠ [] ∧ f.test ≠ [] := by
  unfold plan
  have h0 : ¬ ((splits.length : ℤ) < 0) := by omega
  have h1 : ¬ splits.length < ((splits.length : ℤ)).toNat := by simp
  have h2 : ¬ ((splits.length : ℤ)).toNat < splits.length := by simp
  simp only [h0, h1, h2, if_false]
  constructor
  · intro h f hf
    by_contra hc
    have : splits.any (fun f => f.train.isEmpty || f.test.isEmpty) = true := by
      rw [List.any_eq_true]
      refine ⟨f, hf, ?_⟩
      simp only [Bool.or_eq_true, List.isEmpty_iff]
      by_contra hc'
      exact hc ⟨fun e => hc' (Or.inl e), fun e => hc' (Or.inr e)⟩
    simp [this] at h
  · intro h
    have : splits.any (fun f => f.train.isEmpty || f.test.isEmpty) = false := by
      rw [List.any_eq_false]
      intro f hf
      have := h f hf
      simp [this.1, this.2]
    simp only [this]
    simp only [Bool.false_eq_true, if_false]
    generalize (if (if NJobs ≤ 0 then (numCPU : ℤ) else NJobs) > (splits.length : ℤ) then (splits.length : ℤ)
      else (if NJobs ≤ 0 then (numCPU : ℤ) else NJobs)) = jobs
    split <;> rfl

/-- **C09, violated for the default splitter.** `KFold` with `NSplits = 0` documents a default of 3 splits and produces 3,
but announces 0 to `CrossValidate`, which then panics, whatever the data. -/
theorem C09_default_kfold_panics_violated (numCPU : ℕ) (NJobs : ℤ) (N : ℕ) (hN : 0 < N) (shuffle : Bool)
    (draws : ℕ → Draw) (hd : ∀ i, (draws i).Valid N) :
    ∃ splits, kfold 0 N shuffle draws = some splits ∧ splits.length = 3 ∧ plan numCPU NJobs 0 splits = none := by
  obtain ⟨r, hr, hF⟩ := mapM_ok (fun i => splitOne N 3 shuffle i (draws i)) (fun _ _ => True) (List.range 3)
    (fun i _ => by
      obtain ⟨f, hf, _⟩ := splitOne_ok N 3 (by decide) shuffle i (draws i) (hd i) (Or.inr hN)
      exact ⟨f, hf, trivial⟩)
  have hlen : r.length = 3 := by simpa using hF.length_eq.symm
  refine ⟨r, hr, hlen, ?_⟩
  unfold plan
  simp only [hlen]
  have : ¬ ((if (if NJobs ≤ 0 then (numCPU : ℤ) else NJobs) > 0 then 0 else
      (if NJobs ≤ 0 then (numCPU : ℤ) else NJobs)) > 1) := by
    split <;> omega
  simp [this]

/-- **C09, violated for estimators that keep a reference to their training matrices** (the `Predicter` interface allows it
and `Fit` receives views of a scratch buffer that the job reuses): with one job and two splits, after `CrossValidate` has
returned, the estimator of split 0 sees the training rows of split 1. -/
theorem C09_retained_training_data_violated :
    ∃ (splits : List Fold) (pl : List (ℕ × List (ℕ × Fold))),
      kfold 2 4 false (fun i => ⟨[], 2 * i⟩) = some splits ∧ plan 4 1 2 splits = some pl ∧
      ∀ (es : Estimator ℕ Unit Unit) (m m' : ℕ → Cell ℕ Unit Unit), Run (workers es (fun j => 10 + j) 2 pl) m m' →
        ∀ f0 f1 : Fold, splits = [f0, f1] →
          retainedView m' 2 0 f0.train.length = f1.train.map (fun j => 10 + j) ∧
          retainedView m' 2 0 f0.train.length ≠ f0.train.map (fun j => 10 + j) := by
  refine ⟨[⟨[2, 3], [0, 1]⟩, ⟨[0, 1], [2, 3]⟩], [(0, [(0, ⟨[2, 3], [0, 1]⟩), (1, ⟨[0, 1], [2, 3]⟩)])],
    by decide, by decide, ?_⟩
  intro es m m' hrun f0 f1 hf
  obtain ⟨rfl, rfl⟩ : f0 = ⟨[2, 3], [0, 1]⟩ ∧ f1 = ⟨[0, 1], [2, 3]⟩ := by
    simp only [List.cons.injEq, and_true] at hf
    exact ⟨hf.1.symm, hf.2.symm⟩
  have hd : OwnCells (workers es (fun j => 10 + j) 2
      [(0, [(0, (⟨[2, 3], [0, 1]⟩ : Fold)), (1, ⟨[0, 1], [2, 3]⟩)])]) := by
    simp [OwnCells, workers]
  have h := run_cell hrun hd 2
  have e : m' (2 + 0) = .buf [10, 11, 12, 13] := by
    show m' 2 = _
    rw [h, runSeq_cell]
    simp [workers, jobActs]
  unfold retainedView
  rw [e]
  decide

example : ∃ pl, plan 4 2 2 [⟨[2, 3], [0, 1]⟩, ⟨[0, 1], [2, 3]⟩] = some pl ∧ pl.length = 2 := by decide

/-- **C09.** Sorting the result (any sequence of `Swap`s) keeps score, times and estimator of each split together: the records
after are a permutation of the records before. -/
theorem C09_sort_keeps_records {S T E : Type} (swaps : List (ℕ × ℕ)) (r r' : Result S T E)
    (h : swaps.foldlM (fun r p => r.swap p) r = some r') : r'.rows.Perm r.rows := by
  induction swaps generalizing r with
  | nil =>
    simp only [List.foldlM_nil] at h
    obtain rfl := Option.some.inj h
    exact List.Perm.refl _
  | cons p ps ih =>
    rw [List.foldlM_cons] at h
    cases hs : r.swap p with
    | none => rw [hs] at h; cases h
    | some r1 =>
      rw [hs] at h
      refine (ih r1 h).trans ?_
      unfold Result.swap at hs
      cases h1 : swapAt r.testScore p with
      | none => simp [h1] at hs
      | some a =>
        cases h2 : swapAt r.fitTime p with
        | none => simp [h1, h2] at hs
        | some b =>
          cases h3 : swapAt r.scoreTime p with
          | none => simp [h1, h2, h3] at hs
          | some c =>
            cases h4 : swapAt r.estimator p with
            | none => simp [h1, h2, h3, h4] at hs
            | some d =>
              simp [h1, h2, h3, h4] at hs
              subst hs
              exact swapAt_some (zip_swapAt p h1 (zip_swapAt p h2 (zip_swapAt p h3 h4)))

/-- Swaps inside the result never fail. -/
theorem C09_swap_in_range {S T E : Type} (r : Result S T E) (n : ℕ) (h1 : r.testScore.length = n)
    (h2 : r.fitTime.length = n) (h3 : r.scoreTime.length = n) (h4 : r.estimator.length = n) (p : ℕ × ℕ)
    (hp : p.1 < n ∧ p.2 < n) : (r.swap p).isSome := by
  obtain ⟨a, ha⟩ := swapAt_isSome r.testScore p (by omega) (by omega)
  obtain ⟨b, hb⟩ := swapAt_isSome r.fitTime p (by omega) (by omega)
  obtain ⟨c, hc⟩ := swapAt_isSome r.scoreTime p (by omega) (by omega)
  obtain ⟨d, hd⟩ := swapAt_isSome r.estimator p (by omega) (by omega)
  simp [Result.swap, ha, hb, hc, hd]

example : ([(0, 2), (1, 2)].foldlM (fun r p => Result.swap r p)
    (⟨[1, 2, 3], [4, 5, 6], [7, 8, 9], ['a', 'b', 'c']⟩ : Result ℕ ℕ Char)).map Result.rows =
    some [(3, 6, 9, 'c'), (1, 4, 7, 'a'), (2, 5, 8, 'b')] := by decide

end Sk.CrossVal
