import Verif.Lemmas.Parallel
import Mathlib.Data.List.Nodup

/-!
# C01, C02: `base.Parallelize`
-/
set_option autoImplicit false

namespace Sk.Parallel

/-- **C01.** The ranges handed to the body, taken in order, enumerate `0,1,…,N-1` exactly once. -/
theorem C01_parallelize_exact_cover (numCPU : Nat) (hcpu : 0 < numCPU) (threads : Int) (N : Nat) :
    (calls numCPU threads N).flatMap (fun c => List.range' c.start (c.stop - c.start)) = List.range N := by
  have ht : 0 < effThreads numCPU threads := by unfold effThreads; split <;> omega
  unfold calls
  simp only
  split
  · simp [List.range_eq_range']
  · have h := dispatch_indices N ((N + effThreads numCPU threads - 1) / effThreads numCPU threads)
      (effThreads numCPU threads) 0 (by simpa using ceil_mul_ge N _ ht) (by simp)
    have e : Call.indices = fun c => List.range' c.start (c.stop - c.start) := rfl
    rw [e] at h
    simpa [List.range_eq_range'] using h

/-- **C01.** Every call has a well formed range inside `[0,N]`; worker numbers are below the effective thread
count and no worker number is used twice. -/
theorem C01_parallelize_workers (numCPU : Nat) (hcpu : 0 < numCPU) (threads : Int) (N : Nat) :
    (∀ c ∈ calls numCPU threads N, c.start ≤ c.stop ∧ c.stop ≤ N ∧
        c.th < (if threads ≤ 0 then numCPU else threads.toNat)) ∧
    ((calls numCPU threads N).map Call.th).Nodup := by
  have ht : 0 < effThreads numCPU threads := by unfold effThreads; split <;> omega
  have he : (if threads ≤ 0 then numCPU else threads.toNat) = effThreads numCPU threads := rfl
  rw [he]
  unfold calls
  simp only
  split
  · simp; omega
  · constructor
    · intro c hc
      have := dispatch_ok _ _ _ _ c hc
      omega
    · rw [List.Nodup, List.pairwise_map]
      exact (dispatch_sorted _ _ _ _).imp (fun h => Nat.ne_of_lt h)

example : calls 8 3 10 = [⟨0, 0, 4⟩, ⟨1, 4, 8⟩, ⟨2, 8, 10⟩] := by decide
example : calls 4 0 5 = [⟨0, 0, 2⟩, ⟨1, 2, 4⟩, ⟨2, 4, 5⟩] := by decide  -- fewer calls than CPUs

/-- **C02.** Let `body c` be the actions that the body performs for the call `c`, touching only the cells of its
range. Then whatever the interleaving of the goroutines, the memory after `Parallelize` is the one obtained by
running the bodies one after the other. -/
theorem C02_parallelize_schedule_independent {α : Type} (numCPU : Nat) (hcpu : 0 < numCPU) (threads : Int) (N : Nat)
    (body : Call → List (Act α))
    (hbody : ∀ c ∈ calls numCPU threads N, ∀ a ∈ body c, c.start ≤ a.idx ∧ a.idx < c.stop)
    (m m' : Nat → α) (hrun : Run ((calls numCPU threads N).map body) m m') :
    m' = runSeq ((calls numCPU threads N).flatMap body) m := by
  have hnd : ((calls numCPU threads N).flatMap Call.indices).Nodup := by
    have := C01_parallelize_exact_cover numCPU hcpu threads N
    show ((calls numCPU threads N).flatMap (fun c => List.range' c.start (c.stop - c.start))).Nodup
    rw [this]; exact List.nodup_range
  have hd : OwnCells ((calls numCPU threads N).map body) := by
    unfold OwnCells
    rw [List.pairwise_map]
    rw [List.nodup_flatMap] at hnd
    refine (List.Pairwise.and_mem.1 hnd.2).imp ?_
    rintro c c' ⟨hc, hc', hdis⟩ a ha b hb hab
    have h1 := hbody c hc a ha
    have h2 := hbody c' hc' b hb
    refine hdis (a := a.idx) ?_ ?_
    · simp [Call.indices]; omega
    · simp [Call.indices]; omega
  funext i
  rw [run_cell hrun hd i, List.flatMap]

/-- **C02.** In particular, when the body for `[start,end)` is the loop `for i := start; i < end; i++ { a[i] = g(i) }`,
every schedule leaves `a[i] = g(i)` for `i < N` and the other cells untouched, whatever `threads` is. -/
theorem C02_parallel_for (α : Type) (numCPU : Nat) (hcpu : 0 < numCPU) (threads : Int) (N : Nat)
    (g : Nat → α) (m m' : Nat → α)
    (hrun : Run ((calls numCPU threads N).map
      (fun c => (List.range' c.start (c.stop - c.start)).map (fun i => ⟨i, fun _ => g i⟩))) m m') :
    ∀ i, m' i = if i < N then g i else m i := by
  have h := C02_parallelize_schedule_independent numCPU hcpu threads N _ (by
    intro c hc a ha
    simp at ha
    obtain ⟨i, hi, rfl⟩ := ha
    simp; omega) m m' hrun
  have h2 : (calls numCPU threads N).flatMap
      (fun c => (List.range' c.start (c.stop - c.start)).map (fun i => (⟨i, fun _ => g i⟩ : Act α)))
      = (List.range N).map (fun i => (⟨i, fun _ => g i⟩ : Act α)) := by
    rw [← C01_parallelize_exact_cover numCPU hcpu threads N, List.map_flatMap]
  rw [h2] at h
  intro i
  rw [h, runSeq_cell, List.filter_map]
  by_cases hi : i < N
  · have : (List.range N).filter ((fun a : Act α => decide (a.idx = i)) ∘ fun i => (⟨i, fun _ => g i⟩ : Act α)) = [i] := by
      have : ((fun a : Act α => decide (a.idx = i)) ∘ fun i => (⟨i, fun _ => g i⟩ : Act α)) = fun j => j == i := by
        funext j; simp
        by_cases h : j = i <;> simp [h]
      rw [this, List.filter_beq, List.count_range]
      simp [hi]
    rw [this]; simp [hi]
  · have : (List.range N).filter ((fun a : Act α => decide (a.idx = i)) ∘ fun i => (⟨i, fun _ => g i⟩ : Act α)) = [] := by
      rw [List.filter_eq_nil_iff]
      intro j hj
      simp at hj ⊢
      omega
    rw [this]; simp [hi]

/-- The hypotheses are met, with a schedule that is not the sequential one. -/
example : Run ((calls 2 2 2).map (fun c => (List.range' c.start (c.stop - c.start)).map
    (fun i => (⟨i, fun _ => 10 * i⟩ : Act Nat)))) (fun _ => 7) (fun i => if i < 2 then 10 * i else 7) := by
  have hc : (calls 2 2 2).map (fun c => (List.range' c.start (c.stop - c.start)).map
    (fun i => (⟨i, fun _ => 10 * i⟩ : Act Nat))) = [[⟨0, fun _ => 0⟩], [⟨1, fun _ => 10⟩]] := by
    simp [calls, effThreads, dispatch]
  rw [hc]
  -- second worker first
  refine Run.step (pre := [[⟨0, fun _ => 0⟩]]) (a := ⟨1, fun _ => 10⟩) (w := []) (post := []) ?_
  refine Run.step (pre := []) (a := ⟨0, fun _ => 0⟩) (w := []) (post := [[]]) ?_
  have : (Act.apply (⟨0, fun _ => 0⟩ : Act Nat) (Act.apply ⟨1, fun _ => 10⟩ fun _ => 7))
      = (fun i => if i < 2 then 10 * i else 7) := by
    funext i
    match i with
    | 0 => rfl
    | 1 => rfl
    | n + 2 => simp [Act.apply]
  rw [this]
  exact Run.done (by simp)

end Sk.Parallel
