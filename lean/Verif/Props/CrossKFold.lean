import Verif.Props.CrossVal
import Verif.Props.Split

/-!
# C186: `CrossValidate` with `KFold`
-/
set_option autoImplicit false

namespace Sk.CrossVal

open Sk.Parallel Sk.Split

/-- **C186.** Every score of a cross-validation with `KFold` is that of an estimator fitted on some rows and scored on all the others: no row is used for both, whatever the shuffling, the number of jobs and
the schedule; every row is used, and the numbers of test rows differ by at most one. -/
theorem C186_no_leak {Row E S : Type} (es : Estimator Row E S) (data : ℕ → Row) (numCPU : ℕ) (hcpu : 0 < numCPU) (NJobs : ℤ) (NSplits : ℤ) (hn : 0 < NSplits) (N : ℕ) (shuffle : Bool) (draws : ℕ → Draw)
    (hd : ∀ i, (draws i).Valid N) (hN : 0 < N) (splits : List Fold) (hf : kfold NSplits N shuffle draws = some splits) (pl : List (ℕ × List (ℕ × Fold))) (hpl : plan numCPU NJobs NSplits splits = some pl)
    (m m' : ℕ → Cell Row E S) (hrun : Run (workers es data NSplits.toNat pl) m m') (i : ℕ) (hi : i < NSplits.toNat) :
    ∃ train test : List ℕ, m' i = .slot (es.fit (train.map data)) (es.score (es.fit (train.map data)) (test.map data)) ∧ (∀ r ∈ test, r ∉ train) ∧ (∀ r, r < N ↔ r ∈ train ∨ r ∈ test) ∧ (train ++ test).Nodup ∧
      N / NSplits.toNat ≤ test.length ∧ test.length ≤ N / NSplits.toNat + 1 := by
  obtain ⟨folds, h1, h2, h3, h4, -⟩ := C04_kfold_partition NSplits N shuffle draws hd (Or.inr hN)
  rw [hf] at h1
  obtain rfl := Option.some.inj h1
  rw [if_neg (not_le.2 hn)] at h2
  have hz : ((splits.length : ℕ) : ℤ) = NSplits := by rw [h2]; omega
  rw [← hz] at hpl
  rw [← h2] at hrun hi
  have hp := h3 _ (List.getElem_mem hi)
  have hnd : (splits[i].train ++ splits[i].test).Nodup := hp.nodup_iff.2 List.nodup_range
  refine ⟨splits[i].train, splits[i].test, C09_crossvalidate_slots es data numCPU hcpu NJobs splits pl hpl m m' hrun i hi, ?_, ?_, hnd, ?_, ?_⟩
  · intro r hr hr'
    exact (List.nodup_append.1 hnd).2.2 r hr' r hr rfl
  · intro r
    rw [← List.mem_append, hp.mem_iff, List.mem_range]
  · rw [h4 i hi, h2]
    omega
  · rw [h4 i hi, h2]
    split <;> omega

/-- **C186.** Cross-validation with `KFold` works exactly for a number of splits from 2 to the number of rows; otherwise it panics, for every number of jobs. -/
theorem C186_when (numCPU : ℕ) (NJobs NSplits : ℤ) (N : ℕ) (hN : 0 < N) (shuffle : Bool) (draws : ℕ → Draw) (hd : ∀ i, (draws i).Valid N) :
    ((kfold NSplits N shuffle draws).bind (plan numCPU NJobs NSplits)).isSome ↔ 2 ≤ NSplits ∧ NSplits ≤ N := by
  obtain ⟨folds, h1, h2, h3, h4, -⟩ := C04_kfold_partition NSplits N shuffle draws hd (Or.inr hN)
  rw [h1, Option.bind_some]
  by_cases hn : NSplits ≤ 0
  · rw [if_pos hn] at h2
    have : plan numCPU NJobs NSplits folds = none := by
      unfold plan
      by_cases hneg : NSplits < 0
      · exact if_pos hneg
      · have h0 : NSplits = 0 := by omega
        subst h0
        have hj : ¬ ((if (if NJobs ≤ 0 then (numCPU : ℤ) else NJobs) > 0 then 0 else (if NJobs ≤ 0 then (numCPU : ℤ) else NJobs)) > 1) := by
          split <;> omega
        simp only [lt_irrefl, if_false, if_neg hj]
        split
        · rfl
        · simp [h2]
    rw [this]
    simp
    omega
  · rw [if_neg hn] at h2
    have hz : ((folds.length : ℕ) : ℤ) = NSplits := by rw [h2]; omega
    rw [← hz, C09_crossvalidate_no_panic]
    have hl : ∀ i (h : i < folds.length), folds[i].train.length + folds[i].test.length = N := by
      intro i h
      have := (h3 _ (List.getElem_mem h)).length_eq
      rwa [List.length_append, List.length_range] at this
    have hpos : 0 < folds.length := by omega
    have hdm := Nat.div_add_mod N folds.length
    have hml := Nat.mod_lt N hpos
    constructor
    · intro h
      constructor
      · by_contra hlt
        have h1 : folds.length = 1 := by omega
        have := hl 0 hpos
        rw [h4 0 hpos, h1, Nat.div_one, Nat.mod_one, if_neg (by omega)] at this
        exact (h _ (List.getElem_mem hpos)).1 (List.length_eq_zero_iff.1 (by omega))
      · by_contra hlt
        have hlast : folds.length - 1 < folds.length := by omega
        have hq : N / folds.length = 0 := Nat.div_eq_of_lt (by omega)
        have hmod : N % folds.length = N := Nat.mod_eq_of_lt (by omega)
        have := h4 _ hlast
        rw [hq, hmod, if_neg (by omega)] at this
        exact (h _ (List.getElem_mem hlast)).2 (List.length_eq_zero_iff.1 (by omega))
    · rintro ⟨ha, hb⟩ f hf
      obtain ⟨i, hi, rfl⟩ := List.getElem_of_mem hf
      have e1 := h4 i hi
      have e2 := hl i hi
      have hq1 : 1 ≤ N / folds.length := (Nat.le_div_iff_mul_le hpos).2 (by omega)
      constructor
      · intro h0
        rw [h0, List.length_nil] at e2
        have h2q : 2 * (N / folds.length) ≤ folds.length * (N / folds.length) := Nat.mul_le_mul_right _ (by omega)
        split at e1
        · omega
        · omega
      · intro h0
        rw [h0, List.length_nil] at e1
        omega

/-- Hypotheses met: three splits of seven rows. -/
example : ((kfold 3 7 false (fun i => ⟨[], 2 * i⟩)).bind (plan 4 2 3)).isSome = true ∧ ∀ i, i < 3 → (⟨[], 2 * i⟩ : Draw).Valid 7 := by
  refine ⟨by decide, fun i hi => ⟨by simp, fun _ => by show 2 * i < 7; omega⟩⟩

/-- **C186 violated, estimators that keep a reference to their training matrices**, general form of `C09_retained_training_data_violated`: with one job, after `CrossValidate` has returned, the estimator of
*every* split sees the rows of the last split in place of its training rows. -/
theorem C186_retained_violated {Row E S : Type} (es : Estimator Row E S) (data : ℕ → Row) (numCPU : ℕ) (splits : List Fold) (last : Fold) (pl : List (ℕ × List (ℕ × Fold)))
    (hpl : plan numCPU 1 (splits.length + 1 : ℕ) (splits ++ [last]) = some pl) (m m' : ℕ → Cell Row E S) (hrun : Run (workers es data (splits.length + 1) pl) m m') (f : Fold) :
    retainedView m' (splits.length + 1) 0 f.train.length = ((last.train ++ last.test).map data).take f.train.length ∧
    (f.train.length = last.train.length → ∀ r ∈ f.train, r ∈ last.test → data.Injective → (∀ r ∈ last.train, r ∉ last.test) → retainedView m' (splits.length + 1) 0 f.train.length ≠ f.train.map data) := by
  have hp : pl = [(0, (List.range (splits.length + 1)).filterMap (fun i => ((splits ++ [last])[i]?).map (fun f => (i, f))))] := by
    unfold plan at hpl
    simp only at hpl
    split at hpl
    · cases hpl
    split at hpl
    · cases hpl
    have hj : ¬ ((if (if (1 : ℤ) ≤ 0 then (numCPU : ℤ) else 1) > ((splits.length + 1 : ℕ) : ℤ) then ((splits.length + 1 : ℕ) : ℤ) else (if (1 : ℤ) ≤ 0 then (numCPU : ℤ) else 1)) > 1) := by
      rw [if_neg (by decide : ¬ (1 : ℤ) ≤ 0)]
      split <;> omega
    rw [if_neg hj] at hpl
    split at hpl
    · cases hpl
    · rw [← Option.some.inj hpl, List.length_append, List.length_singleton]
  have hw : workers es data (splits.length + 1) pl = [((List.range splits.length).filterMap (fun i => ((splits ++ [last])[i]?).map (fun f => (i, f)))).flatMap (jobActs es data (splits.length + 1) 0) ++ jobActs es data (splits.length + 1) 0 (splits.length, last)] := by
    rw [hp, workers, List.range_succ]
    simp
  rw [hw] at hrun
  have hcell := run_cell hrun (by simp [OwnCells]) (splits.length + 1)
  have e : m' (splits.length + 1 + 0) = .buf ((last.train ++ last.test).map data) := by
    rw [Nat.add_zero, hcell, List.flatten_singleton, runSeq_append]
    simp [jobActs, runSeq, Act.apply]
  have hv : retainedView m' (splits.length + 1) 0 f.train.length = ((last.train ++ last.test).map data).take f.train.length := by
    unfold retainedView
    rw [e]
  refine ⟨hv, ?_⟩
  intro hlen r hr hr' hinj hdis h
  rw [hv, hlen, List.map_append, List.take_left' (by simp)] at h
  have : data r ∈ last.train.map data := by rw [h]; exact List.mem_map_of_mem hr
  obtain ⟨r', h1, h2⟩ := List.mem_map.1 this
  rw [hinj h2] at h1
  exact hdis r h1 hr'

/-- Hypotheses met: two splits of four rows, tested the other way round. -/
example : ∃ pl, plan 4 1 ([(⟨[2, 3], [0, 1]⟩ : Fold)].length + 1 : ℕ) ([⟨[2, 3], [0, 1]⟩] ++ [⟨[0, 1], [2, 3]⟩]) = some pl := ⟨_, rfl⟩

end Sk.CrossVal
