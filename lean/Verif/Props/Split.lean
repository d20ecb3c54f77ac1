import Verif.Lemmas.Split
import Mathlib.Algebra.Order.Archimedean.Basic
import Mathlib.Data.Rat.Floor
import Mathlib.Tactic.NormNum

/-!
# C04, C05, C06: `KFold.Split` and `TrainTestSplit`
-/
set_option autoImplicit false

namespace Sk.Split

/-- **C04.** For every random draw, `KFold.Split` produces exactly `NSplits` (3 if not positive) splits; in each one
train followed by test is a permutation of the row numbers; the test sizes are the announced ones and sum to `N`.
(Without shuffling there must be at least one row: `C04_kfold_empty_panics`.) -/
theorem C04_kfold_partition (NSplits : ℤ) (N : ℕ) (shuffle : Bool) (draws : ℕ → Draw)
    (hd : ∀ i, (draws i).Valid N) (hN : shuffle = true ∨ 0 < N) :
    ∃ folds, kfold NSplits N shuffle draws = some folds ∧
      folds.length = (if NSplits ≤ 0 then 3 else NSplits.toNat) ∧
      (∀ f ∈ folds, (f.train ++ f.test).Perm (List.range N)) ∧
      (∀ i (h : i < folds.length), folds[i].test.length = N / folds.length + if i < N % folds.length then 1 else 0) ∧
      (folds.map (fun f => f.test.length)).sum = N := by
  unfold kfold
  simp only
  generalize hn : (if NSplits ≤ 0 then 3 else NSplits.toNat) = n
  have hn0 : 0 < n := by subst hn; split <;> omega
  obtain ⟨r, hr, hF⟩ := mapM_ok (fun i => splitOne N n shuffle i (draws i))
    (fun i f => (f.train ++ f.test).Perm (List.range N) ∧ f.test.length = nTest N n i) (List.range n)
    (fun i _ => splitOne_ok N n hn0 shuffle i (draws i) (hd i) hN)
  have hlen : r.length = n := by simpa using hF.length_eq.symm
  have hget : ∀ i (h : i < r.length), (r[i].train ++ r[i].test).Perm (List.range N) ∧
      r[i].test.length = nTest N n i := by
    intro i h
    have := hF.get (i := i) (by simpa using (by omega)) h
    simpa using this
  refine ⟨r, hr, hlen, ?_, ?_, ?_⟩
  · intro f hf
    obtain ⟨i, hi, rfl⟩ := List.getElem_of_mem hf
    exact (hget i hi).1
  · intro i h
    rw [(hget i h).2, hlen]
    unfold nTest
    split <;> rfl
  · rw [← sum_nTest N n hn0]
    congr 1
    apply List.ext_getElem
    · simp [hlen]
    · intro i h1 h2
      simp at h1 h2
      simpa using (hget i h1).2

/-- Without shuffling and without rows the call panics (`Intn(0)`). -/
theorem C04_kfold_empty_panics (NSplits : ℤ) (draws : ℕ → Draw) : kfold NSplits 0 false draws = none := by
  unfold kfold
  simp only
  generalize hn : (if NSplits ≤ 0 then 3 else NSplits.toNat) = n
  have hn0 : 0 < n := by subst hn; split <;> omega
  obtain ⟨m, rfl⟩ : ∃ m, n = m + 1 := ⟨n - 1, by omega⟩
  rw [List.range_succ_eq_map, List.mapM_cons]
  simp [splitOne]

/-- hypotheses are satisfiable, with a non trivial draw -/
example : (∀ i : ℕ, Draw.Valid 4 ((fun i => ⟨[(0, 3)], i % 4⟩ : ℕ → Draw) i)) ∧
    kfold 2 4 false (fun i => ⟨[(0, 3)], i % 4⟩) =
      some [⟨[2, 3], [0, 1]⟩, ⟨[0, 2], [3, 1]⟩] := by
  refine ⟨?_, by decide⟩
  intro i
  refine ⟨by simp, fun _ => Nat.mod_lt _ (by decide)⟩

/-- **C05 is violated**, in the strongest way: whatever the number of rows `N ≥ 2`, whatever the number of splits
`2 ≤ n ≤ N`, shuffling or not, there are draws of the random generator for which some row is in the test set of two
different splits (so, the sizes summing to `N`, another row is never tested). -/
theorem C05_folds_overlap_violated (N n : ℕ) (h2 : 2 ≤ n) (hnN : n ≤ N) (shuffle : Bool) :
    ∃ draws : ℕ → Draw, (∀ i, (draws i).Valid N) ∧
      ∃ folds, kfold n N shuffle draws = some folds ∧
        ∃ (h0 : 0 < folds.length) (h1 : 1 < folds.length), ∃ row, row ∈ folds[0].test ∧ row ∈ folds[1].test := by
  have hn0 : 0 < n := by omega
  have hN0 : 0 < N := by omega
  have hpos : ∀ i, 0 < nTest N n i := by
    intro i
    have : 0 < N / n := Nat.div_pos hnN hn0
    unfold nTest; split <;> omega
  refine ⟨fun i => idDraw N n i, ?_, ?_⟩
  · intro i
    refine ⟨by simp [idDraw], fun _ => ?_⟩
    have := hpos i
    simp only [idDraw]; omega
  · obtain ⟨r, hr, hF⟩ := mapM_ok (fun i => splitOne N n shuffle i (idDraw N n i))
      (fun i f => f = ⟨(List.range N).take (N - nTest N n i), (List.range N).drop (N - nTest N n i)⟩) (List.range n)
      (fun i _ => ⟨_, splitOne_id N n hn0 hN0 shuffle i, rfl⟩)
    have hlen : r.length = n := by simpa using hF.length_eq.symm
    refine ⟨r, ?_, by omega, by omega, N - 1, ?_, ?_⟩
    · unfold kfold
      have : ¬ ((n : ℤ) ≤ 0) := by omega
      simp only [this, if_false, Int.toNat_natCast]
      exact hr
    · have := hF.get (i := 0) (by simpa using (by omega)) (by omega)
      simp at this
      rw [this]
      have h := hpos 0
      rw [List.mem_drop_iff_getElem]
      exact ⟨nTest N n 0 - 1, by have := nTest_le N n 0 hn0; simp; omega,
        by have := nTest_le N n 0 hn0; simp; omega⟩
    · have := hF.get (i := 1) (by simpa using (by omega)) (by omega)
      simp at this
      rw [this]
      have h := hpos 1
      rw [List.mem_drop_iff_getElem]
      exact ⟨nTest N n 1 - 1, by have := nTest_le N n 1 hn0; simp; omega,
        by have := nTest_le N n 1 hn0; simp; omega⟩

/-- **C05, what remains true.** If the test sets happen to be pairwise disjoint (no row in two test sets), then they
cover all rows. Full statement (false, see `C05_folds_overlap_violated`): the test sets always partition the rows. -/
theorem C05_folds_partition_partial (NSplits : ℤ) (N : ℕ) (shuffle : Bool) (draws : ℕ → Draw)
    (hd : ∀ i, (draws i).Valid N) (hN : shuffle = true ∨ 0 < N)
    (folds : List Fold) (hf : kfold NSplits N shuffle draws = some folds)
    (hdisj : (folds.flatMap Fold.test).Nodup) :
    (folds.flatMap Fold.test).Perm (List.range N) := by
  obtain ⟨r, hr, _, hperm, _, hsum⟩ := C04_kfold_partition NSplits N shuffle draws hd hN
  rw [hr] at hf
  obtain rfl := Option.some.inj hf
  have hsub : r.flatMap Fold.test ⊆ List.range N := by
    intro x hx
    rw [List.mem_flatMap] at hx
    obtain ⟨f, hf, hx⟩ := hx
    exact (hperm f hf).subset (List.mem_append_right _ hx)
  have := List.subperm_of_subset hdisj hsub
  refine this.perm_of_length_le ?_
  rw [List.length_range, List.length_flatMap]
  exact hsum.symm.le

example : ∃ folds, kfold 2 4 false (fun i => ⟨[], if i = 0 then 0 else 2⟩) = some folds ∧
    (folds.flatMap Fold.test).Nodup := ⟨[⟨[2, 3], [0, 1]⟩, ⟨[0, 1], [2, 3]⟩], by decide, by decide⟩

/-! ## TrainTestSplit -/

section
variable {K : Type*} [Field K] [LinearOrder K] [IsStrictOrderedRing K] [FloorRing K] {ρ σ : Type}

omit [IsStrictOrderedRing K] in
/-- **C06.** Let `t` be `ceil(N*testsize)`, or `ceil(min(N,testsize))` if `testsize>1`. If `0 < t < N` the call
succeeds, the test block has `t` rows and the train block `N-t`, and the (X row, Y row) pairs of test and train together
are a rearrangement of the input pairs. Otherwise the call panics. -/
theorem C06_train_test_split (X : List ρ) (Y : List σ) (hXY : X.length = Y.length) (testsize : K)
    (ind : List ℕ) (hind : ind.Perm (List.range X.length))
    (t : ℤ) (ht : t = if testsize > 1 then ⌈min (X.length : K) testsize⌉ else ⌈(X.length : K) * testsize⌉) :
    (0 < t ∧ t < X.length →
      ∃ r, trainTestSplit X Y testsize ind = some r ∧
        (r.xtest.zip r.ytest ++ r.xtrain.zip r.ytrain).Perm (X.zip Y) ∧
        (r.xtest.length : ℤ) = t ∧ (r.ytest.length : ℤ) = t ∧
        (r.xtrain.length : ℤ) = X.length - t ∧ (r.ytrain.length : ℤ) = X.length - t) ∧
    (¬ (0 < t ∧ t < X.length) → trainTestSplit X Y testsize ind = none) := by
  have hte : testLen X.length testsize = t := by rw [ht]; rfl
  constructor
  · rintro ⟨h0, h1⟩
    unfold trainTestSplit
    simp only [hte]
    have hc : ¬ (t ≤ 0 ∨ (X.length : ℤ) - t ≤ 0) := by omega
    rw [if_neg hc]
    have hm : ∀ j ∈ ind, j < X.length := fun j hj => by simpa using hind.subset hj
    have hmt : ∀ j ∈ ind.take t.toNat, j < X.length := fun j hj => hm j (List.mem_of_mem_take hj)
    have hmd : ∀ j ∈ ind.drop t.toNat, j < X.length := fun j hj => hm j (List.mem_of_mem_drop hj)
    have hl := hind.length_eq
    rw [List.length_range] at hl
    rw [mapM_getElem?_map X _ hmt, mapM_getElem?_map X _ hmd, mapM_getElem?_map Y _ (by rw [← hXY]; exact hmt),
      mapM_getElem?_map Y _ (by rw [← hXY]; exact hmd)]
    refine ⟨_, rfl, ?_, ?_, ?_, ?_, ?_⟩
    · have hz : (X.zip Y).length = X.length := by simp [hXY]
      dsimp only
      rw [zip_pmap X Y _ _ _ (by rw [hz]; exact hmt), zip_pmap X Y _ _ _ (by rw [hz]; exact hmd),
        ← List.pmap_append']
      have hmz : ∀ j ∈ ind.take t.toNat ++ ind.drop t.toNat, j < (X.zip Y).length := by
        rw [List.take_append_drop, hz]; exact hm
      have hrange : ∀ j ∈ List.range (X.zip Y).length, j < (X.zip Y).length := by simp
      have := List.Perm.pmap (fun j (hj : j < (X.zip Y).length) => (X.zip Y)[j]'hj)
        (by rw [List.take_append_drop, hz]; exact hind :
          (ind.take t.toNat ++ ind.drop t.toNat).Perm (List.range (X.zip Y).length)) (H₁ := hmz) (H₂ := hrange)
      rw [pmap_range_getElem (X.zip Y)] at this
      exact this
    all_goals simp; omega
  · intro h
    unfold trainTestSplit
    simp only [hte]
    rw [if_pos (by omega)]

/-- **C06.** For a fraction `0 < testsize ≤ 1` the number of test rows is the least integer not below `N*testsize`,
and the call succeeds exactly when at least one row is left: `N*testsize ≤ N-1`. In particular a single row always
panics. -/
theorem C06_train_test_split_fraction (X : List ρ) (Y : List σ) (hXY : X.length = Y.length) (hX : X ≠ [])
    (testsize : K) (h0 : 0 < testsize) (h1 : testsize ≤ 1)
    (ind : List ℕ) (hind : ind.Perm (List.range X.length)) :
    (trainTestSplit X Y testsize ind).isSome ↔ (X.length : K) * testsize ≤ (X.length : K) - 1 := by
  have hl : 0 < X.length := List.length_pos_of_ne_nil hX
  have h := C06_train_test_split X Y hXY testsize ind hind _ rfl
  have hn : ¬ testsize > 1 := not_lt.2 h1
  rw [if_neg hn] at h
  have hp : (0 : ℤ) < ⌈(X.length : K) * testsize⌉ := by
    rw [Int.ceil_pos]
    exact mul_pos (by exact_mod_cast hl) h0
  have hiff : ⌈(X.length : K) * testsize⌉ < (X.length : ℤ) ↔ (X.length : K) * testsize ≤ (X.length : K) - 1 := by
    rw [← Int.le_sub_one_iff, Int.ceil_le]
    push_cast
    rfl
  rw [← hiff]
  constructor
  · intro hs
    by_contra hc
    rw [h.2 (fun hh => hc hh.2)] at hs
    simp at hs
  · intro hs
    obtain ⟨r, hr, _⟩ := h.1 ⟨hp, hs⟩
    rw [hr]; rfl
end

example : trainTestSplit ['a', 'b', 'c'] [1, 2, 3] (1/2 : ℚ) [2, 0, 1] =
    some ⟨['b'], ['c', 'a'], [2], [3, 1]⟩ := by
  have : testLen 3 (1/2 : ℚ) = 2 := by
    unfold testLen
    norm_num
  simp only [trainTestSplit, List.length_cons, List.length_nil, Nat.zero_add, Nat.reduceAdd, this]
  rfl

end Sk.Split
