import Verif.Model.CrossVal
import Verif.Lemmas.Parallel
import Verif.Lemmas.Split
import Verif.Props.Parallel

set_option autoImplicit false

namespace Sk.CrossVal
open Sk.Parallel Sk.Split

variable {Row E S : Type}

theorem filterMap_idx_fst (splits : List Fold) (a len : ℕ) (h : a + len ≤ splits.length) :
    ((List.range' a len).filterMap (fun i => (splits[i]?).map (fun f => (i, f)))).map Prod.fst = List.range' a len := by
  induction len generalizing a with
  | zero => simp
  | succ len ih =>
    rw [List.range'_succ, List.filterMap_cons, List.getElem?_eq_getElem (by omega)]
    simp only [Option.map_some, List.map_cons]
    rw [ih (a + 1) (by omega)]

theorem zip_swapAt {α β : Type} {a a' : List α} {b b' : List β} (p : ℕ × ℕ) 
    (ha : swapAt a p = some a') (hb : swapAt b p = some b') : swapAt (a.zip b) p = some (a'.zip b') := by
  unfold swapAt at *
  split at ha
  · rename_i x y hx hy
    split at hb
    · rename_i u v hu hv
      obtain rfl := Option.some.inj ha
      obtain rfl := Option.some.inj hb
      have h1 : (a.zip b)[p.1]? = some (x, u) := by
        rw [List.getElem?_zip_eq_some]; exact ⟨hx, hu⟩
      have h2 : (a.zip b)[p.2]? = some (y, v) := by
        rw [List.getElem?_zip_eq_some]; exact ⟨hy, hv⟩
      rw [h1, h2]
      simp only [Option.some.injEq]
      apply List.ext_getElem
      · simp
      · intro i h3 h4
        simp only [List.getElem_set, List.getElem_zip]
        split
        · rfl
        · split <;> rfl
    · cases hb
  · cases ha

/-- the last write to the slot of split `i` is the right one -/
theorem filter_jobActs_slot (es : Estimator Row E S) (data : ℕ → Row) (n th : ℕ) (i : ℕ) (hin : i < n)
    (l : List (ℕ × Fold)) :
    (l.flatMap (jobActs es data n th)).filter (fun a => decide (a.idx = i)) =
      (l.filter (fun p => decide (p.1 = i))).flatMap (fun p => (jobActs es data n th p).drop 1) := by
  induction l with
  | nil => rfl
  | cons p l ih =>
    rw [List.flatMap_cons, List.filter_append, ih, List.filter_cons]
    have hne : ¬ (n + th = i) := by omega
    by_cases hp : p.1 = i
    · simp [jobActs, hp, hne]
    · simp [jobActs, hp, hne]

theorem mem_jobActs_idx (es : Estimator Row E S) (data : ℕ → Row) (n th : ℕ) (l : List (ℕ × Fold))
    (a : Act (Cell Row E S)) (ha : a ∈ l.flatMap (jobActs es data n th)) :
    a.idx = n + th ∨ ∃ p ∈ l, a.idx = p.1 := by
  rw [List.mem_flatMap] at ha
  obtain ⟨p, hp, ha⟩ := ha
  simp only [jobActs, List.mem_cons, List.not_mem_nil, or_false] at ha
  rcases ha with rfl | rfl
  · exact Or.inl rfl
  · exact Or.inr ⟨p, hp, rfl⟩

/-- A plan is good when its job numbers are distinct and its splits are `0..n-1` in order. -/
structure Good (n : ℕ) (splits : List Fold) (pl : List (ℕ × List (ℕ × Fold))) : Prop where
  len : splits.length = n
  ths : (pl.map Prod.fst).Nodup
  all : pl.flatMap Prod.snd = (List.range' 0 n).filterMap (fun i => (splits[i]?).map (fun f => (i, f)))

theorem Good.fst {n : ℕ} {splits : List Fold} {pl : List (ℕ × List (ℕ × Fold))} (g : Good n splits pl) :
    (pl.flatMap Prod.snd).map Prod.fst = List.range' 0 n := by
  rw [g.all, filterMap_idx_fst splits 0 n (by have := g.len; omega)]

theorem plan_good {numCPU : ℕ} (hcpu : 0 < numCPU) {NJobs : ℤ} {n : ℕ} {splits : List Fold}
    (hlen : splits.length = n) {pl : List (ℕ × List (ℕ × Fold))} (h : plan numCPU NJobs n splits = some pl) :
    Good n splits pl := by
  unfold plan at h
  simp only at h
  generalize hjobs : (if (if NJobs ≤ 0 then (numCPU : ℤ) else NJobs) > n then (n : ℤ)
          else (if NJobs ≤ 0 then (numCPU : ℤ) else NJobs)) = jobs at h
  split at h
  · cases h
  split at h
  · cases h
  split at h
  · rename_i hj
    split at h
    · cases h
    obtain rfl := Option.some.inj h
    rw [Int.toNat_natCast]
    refine ⟨hlen, ?_, ?_⟩
    · rw [List.map_map]
      exact (C01_parallelize_workers numCPU hcpu _ n).2
    · have := C01_parallelize_exact_cover numCPU hcpu jobs n
      rw [List.range_eq_range'] at this
      rw [← this, List.flatMap_map, List.filterMap_flatMap]
  · split at h
    · cases h
    obtain rfl := Option.some.inj h
    refine ⟨hlen, by simp, ?_⟩
    simp [hlen, List.range_eq_range']

theorem good_disjoint (es : Estimator Row E S) (data : ℕ → Row) {n : ℕ} {splits : List Fold}
    {pl : List (ℕ × List (ℕ × Fold))} (g : Good n splits pl) : OwnCells (workers es data n pl) := by
  unfold OwnCells workers
  rw [List.pairwise_map]
  have h1 : pl.Pairwise (fun j j' => j.1 ≠ j'.1) := List.pairwise_map.1 g.ths
  have h2 : (pl.flatMap (fun j => j.2.map Prod.fst)).Nodup := by
    have := g.fst
    rw [List.map_flatMap] at this
    rw [this]; exact List.nodup_range'
  rw [List.nodup_flatMap] at h2
  have hlt : ∀ j ∈ pl, ∀ p ∈ j.2, p.1 < n := by
    intro j hj p hp
    have : p.1 ∈ (pl.flatMap Prod.snd).map Prod.fst := List.mem_map.2 ⟨p, List.mem_flatMap.2 ⟨j, hj, hp⟩, rfl⟩
    rw [g.fst] at this
    simpa using this
  refine (List.Pairwise.and_mem.1 (h1.and h2.2)).imp ?_
  rintro j j' ⟨hj, hj', hth, hdis⟩ a ha b hb
  rcases mem_jobActs_idx es data n j.1 j.2 a ha with h | ⟨p, hp, h⟩
  · rcases mem_jobActs_idx es data n j'.1 j'.2 b hb with h' | ⟨p', hp', h'⟩
    · omega
    · have := hlt j' hj' p' hp'; omega
  · rcases mem_jobActs_idx es data n j'.1 j'.2 b hb with h' | ⟨p', hp', h'⟩
    · have := hlt j hj p hp; omega
    · intro he
      have : p.1 = p'.1 := by omega
      exact hdis (a := p.1) (List.mem_map.2 ⟨p, hp, rfl⟩) (List.mem_map.2 ⟨p', hp', this.symm⟩)

theorem filter_workers_slot (es : Estimator Row E S) (data : ℕ → Row) (n : ℕ) (i : ℕ) (hin : i < n) :
    ∀ (pl : List (ℕ × List (ℕ × Fold))),
    ((workers es data n pl).flatten.filter (fun a => decide (a.idx = i))) =
      ((pl.flatMap Prod.snd).filter (fun p => decide (p.1 = i))).flatMap (fun p => (jobActs es data n 0 p).drop 1)
  | [] => rfl
  | j :: pl => by
      have ih := filter_workers_slot es data n i hin pl
      unfold workers at *
      rw [List.map_cons, List.flatten_cons, List.filter_append, ih, List.flatMap_cons, List.filter_append,
        List.flatMap_append, filter_jobActs_slot es data n j.1 i hin]
      rfl

theorem filter_idx_eq (splits : List Fold) (n : ℕ) (hlen : splits.length = n) (i : ℕ) (hi : i < splits.length) :
    ((List.range' 0 n).filterMap (fun i => (splits[i]?).map (fun f => (i, f)))).filter (fun p => decide (p.1 = i))
      = [(i, splits[i])] := by
  have hs : List.range' 0 n = List.range' 0 i ++ i :: List.range' (i + 1) (n - i - 1) := by
    have e : n = i + (1 + (n - i - 1)) := by omega
    conv_lhs => rw [e, ← List.range'_append_1, ← List.range'_append_1]
    simp
  rw [hs, List.filterMap_append, List.filterMap_cons, List.getElem?_eq_getElem hi]
  simp only [Option.map_some]
  rw [List.filter_append, List.filter_cons]
  simp only [decide_true, if_true]
  have h1 : ∀ l : List ℕ, i ∉ l →
      (l.filterMap (fun i => (splits[i]?).map (fun f => (i, f)))).filter (fun p => decide (p.1 = i)) = [] := by
    intro l hl
    rw [List.filter_eq_nil_iff]
    rintro ⟨k, f⟩ hp
    rw [List.mem_filterMap] at hp
    obtain ⟨j, hj, hf⟩ := hp
    rw [Option.map_eq_some_iff] at hf
    obtain ⟨f', _, hf⟩ := hf
    have : j = k := congrArg Prod.fst hf
    subst this
    simp only [decide_eq_true_eq]
    rintro rfl
    exact hl hj
  rw [h1 _ (by simp), h1 _ (by simp)]
  rfl

end Sk.CrossVal
