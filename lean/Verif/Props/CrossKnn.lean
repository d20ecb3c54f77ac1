import Verif.Model.CrossKnn
import Verif.Props.CrossKFold
import Verif.Props.KnnInvariance

/-! # C216: neighbour estimators returned by cross-validation -/
set_option autoImplicit false

namespace Sk.CrossKnn
open Sk.CrossVal Sk.Parallel Sk.Split Sk.Neigh

variable {V K : Type} [Field K] [LinearOrder K] [IsStrictOrderedRing K]

/-- After all jobs are done the buffer of a job shows the rows of the last split it processed. -/
theorem buffer_after {Row E S : Type} (es : Estimator Row E S) (data : ℕ → Row) {n : ℕ} {splits : List Fold} {pl : List (ℕ × List (ℕ × Fold))} (g : Good n splits pl)
    {m m' : ℕ → Cell Row E S} (hrun : Run (workers es data n pl) m m') {th i : ℕ} {js : List (ℕ × Fold)} {f : Fold} (hj : (th, js ++ [(i, f)]) ∈ pl) :
    m' (n + th) = .buf ((f.train ++ f.test).map data) := by
  have hi : i < n := by
    have : i ∈ (pl.flatMap Prod.snd).map Prod.fst := List.mem_map.2 ⟨(i, f), List.mem_flatMap.2 ⟨_, hj, by simp⟩, rfl⟩
    rw [g.fst] at this
    simpa using this
  have hown := good_disjoint es data g
  rw [run_cell hrun hown]
  obtain ⟨A, B, rfl⟩ := List.append_of_mem hj
  have hw : workers es data n (A ++ (th, js ++ [(i, f)]) :: B) = workers es data n A ++ ((js.flatMap (jobActs es data n th) ++ jobActs es data n th (i, f)) :: workers es data n B) := by
    simp [workers]
  rw [hw] at hown ⊢
  rw [List.flatten_append, List.flatten_cons, runSeq_append, runSeq_append, runSeq_append]
  rw [runSeq_cell (workers es data n B).flatten]
  have hnone : (workers es data n B).flatten.filter (fun a => decide (a.idx = n + th)) = [] := by
    rw [List.filter_eq_nil_iff]
    intro b hb
    obtain ⟨w, hwB, hbw⟩ := List.mem_flatten.1 hb
    have h2 := (List.pairwise_append.1 hown).2.1
    have h3 := (List.pairwise_cons.1 h2).1 w hwB ⟨n + th, fun _ => .buf (f.train.map data ++ f.test.map data)⟩ (by simp [jobActs]) b hbw
    simpa using fun e => h3 e.symm
  rw [hnone]
  have hne : n + th ≠ i := by omega
  simp [jobActs, runSeq, Act.apply, hne]

/-- **C216 (regressor).** For every number of jobs and every schedule, the regressor returned for a split predicts from the rows of that split, once `CrossValidate` has returned. -/
theorem C216_regressor {S : Type} (score : Held V K → List (V × K) → S) (data : ℕ → V × K) (numCPU : ℕ) (hcpu : 0 < numCPU) (NJobs : ℤ) (splits : List Fold) (pl : List (ℕ × List (ℕ × Fold)))
    (hpl : plan numCPU NJobs splits.length splits = some pl) (m m' : ℕ → Cell (V × K) (Held V K) S) (hrun : Run (workers ⟨held, score⟩ data splits.length pl) m m') (i : ℕ) (hi : i < splits.length)
    (sort : List (K × ℕ) → List (K × ℕ)) (dist : V → V → K) (eps : K) (w : Knn.Weights) (k : ℕ) :
    ∃ h s, m' i = .slot h s ∧ ∀ q, regressReturned sort dist eps w k h q = Knn.regress sort dist eps w (splits[i].train.map fun r => (data r).1) (splits[i].train.map fun r => (data r).2) k q := by
  refine ⟨_, _, C09_crossvalidate_slots ⟨held, score⟩ data numCPU hcpu NJobs splits pl hpl m m' hrun i hi, fun q => ?_⟩
  simp [regressReturned, held, Function.comp_def]

/-- **C216 (classifier), what it predicts.** The classifier returned for a split votes with the samples of that split and the targets of the first rows of the last split that its job processed. -/
theorem C216_classifier {S : Type} (score : Held V K → List (V × K) → S) (data : ℕ → V × K) (numCPU : ℕ) (hcpu : 0 < numCPU) (NJobs : ℤ) (splits : List Fold) (pl : List (ℕ × List (ℕ × Fold)))
    (hpl : plan numCPU NJobs splits.length splits = some pl) (m m' : ℕ → Cell (V × K) (Held V K) S) (hrun : Run (workers ⟨held, score⟩ data splits.length pl) m m') (i : ℕ) (hi : i < splits.length)
    (th j : ℕ) (js : List (ℕ × Fold)) (last : Fold) (hj : (th, js ++ [(j, last)]) ∈ pl)
    (sort : List (K × ℕ) → List (K × ℕ)) (it : List (K × K) → List (K × K)) (dist : V → V → K) (eps : K) (w : Knn.Weights) (k : ℕ) :
    ∃ h s, m' i = .slot h s ∧ ∀ q, classifyReturned sort it dist eps w k m' splits.length th h q =
      Knn.classify sort it dist eps w (splits[i].train.map fun r => (data r).1) (((last.train ++ last.test).take splits[i].train.length).map fun r => (data r).2) k q := by
  refine ⟨_, _, C09_crossvalidate_slots ⟨held, score⟩ data numCPU hcpu NJobs splits pl hpl m m' hrun i hi, fun q => ?_⟩
  have hb := buffer_after ⟨held, score⟩ data (plan_good hcpu rfl hpl) hrun hj
  have hv : ∀ t, retainedView m' splits.length th t = ((last.train ++ last.test).map data).take t := by
    intro t
    unfold retainedView
    rw [hb]
  unfold classifyReturned
  rw [hv]
  simp only [held, List.map_map, List.length_map, List.map_take, Function.comp_def]

/-- **C216 (classifier, partial).** The classifier of the last split of a job (of every split, if every job has one) predicts from the rows of its split.  Missing: the other splits (`C216_classifier_violated`). -/
theorem C216_classifier_partial {S : Type} (score : Held V K → List (V × K) → S) (data : ℕ → V × K) (numCPU : ℕ) (hcpu : 0 < numCPU) (NJobs : ℤ) (splits : List Fold) (pl : List (ℕ × List (ℕ × Fold)))
    (hpl : plan numCPU NJobs splits.length splits = some pl) (m m' : ℕ → Cell (V × K) (Held V K) S) (hrun : Run (workers ⟨held, score⟩ data splits.length pl) m m') (i : ℕ) (hi : i < splits.length)
    (th : ℕ) (js : List (ℕ × Fold)) (hj : (th, js ++ [(i, splits[i])]) ∈ pl)
    (sort : List (K × ℕ) → List (K × ℕ)) (it : List (K × K) → List (K × K)) (dist : V → V → K) (eps : K) (w : Knn.Weights) (k : ℕ) :
    ∃ h s, m' i = .slot h s ∧ ∀ q, classifyReturned sort it dist eps w k m' splits.length th h q =
      Knn.classify sort it dist eps w (splits[i].train.map fun r => (data r).1) (splits[i].train.map fun r => (data r).2) k q := by
  obtain ⟨h, s, h1, h2⟩ := C216_classifier score data numCPU hcpu NJobs splits pl hpl m m' hrun i hi th i js splits[i] hj sort it dist eps w k
  refine ⟨h, s, h1, fun q => ?_⟩
  rw [h2 q, List.take_left' rfl]

/-- **C216 (classifier) violated.** Nearest-neighbour classifiers with one neighbour, cross-validated with `KFold` by one job on distinct samples: while it is scored the classifier of a split gives every sample of its training
rows its own target, but once `CrossValidate` has returned it gives them, one after the other, the targets of the rows of the last split. -/
theorem C216_classifier_violated {S : Type} [Inhabited V] (score : Held V K → List (V × K) → S) (data : ℕ → V × K) (hinj : ∀ r r', (data r).1 = (data r').1 → r = r') (numCPU : ℕ) (hcpu : 0 < numCPU)
    (NSplits : ℤ) (N : ℕ) (hN : 0 < N) (shuffle : Bool) (draws : ℕ → Draw) (hd : ∀ i, (draws i).Valid N) (pre : List Fold) (last : Fold) (hk : kfold NSplits N shuffle draws = some (pre ++ [last]))
    (pl : List (ℕ × List (ℕ × Fold))) (hpl : plan numCPU 1 (pre ++ [last]).length (pre ++ [last]) = some pl)
    (m m' : ℕ → Cell (V × K) (Held V K) S) (hrun : Run (workers ⟨held, score⟩ data (pre ++ [last]).length pl) m m') (i : ℕ) (hi : i < pre.length)
    (sort : List (K × ℕ) → List (K × ℕ)) (hs : SortsAsc Prod.fst sort) (it : List (K × K) → List (K × K)) (hit : ∀ l, (it l).Perm l) (dist : V → V → K) (hd0 : ∀ a b, 0 ≤ dist a b) (hdz : ∀ a b, dist a b = 0 ↔ a = b)
    (eps : K) (heps : 0 < eps) (w : Knn.Weights) :
    ∃ h s, m' i = .slot h s ∧
      (pre[i].train.map fun r => (data r).1).mapM (Knn.classify sort it dist eps w h.X h.Y 1) = some (pre[i].train.map fun r => (data r).2) ∧
      (pre[i].train.map fun r => (data r).1).mapM (classifyReturned sort it dist eps w 1 m' (pre ++ [last]).length 0 h) = some (((last.train ++ last.test).take pre[i].train.length).map fun r => (data r).2) := by
  have hi' : i < (pre ++ [last]).length := by simp; omega
  have hget : (pre ++ [last])[i] = pre[i] := List.getElem_append_left hi
  obtain ⟨folds, hf, _, hperm, _⟩ := C04_kfold_partition NSplits N shuffle draws hd (Or.inr hN)
  rw [hk] at hf
  obtain rfl := Option.some.inj hf
  have hp1 := hperm pre[i] (by simp)
  have hp2 := hperm last (by simp)
  have hle : pre[i].train.length ≤ (last.train ++ last.test).length := by
    have h1 := hp1.length_eq
    have h2 := hp2.length_eq
    rw [List.length_append, List.length_range] at h1
    rw [h2, List.length_range]
    omega
  have hj : ∃ js, (0, js ++ [(pre.length, last)]) ∈ pl := by
    unfold plan at hpl
    simp only at hpl
    split at hpl
    · cases hpl
    split at hpl
    · cases hpl
    have hj : ¬ ((if (if (1 : ℤ) ≤ 0 then (numCPU : ℤ) else 1) > ((pre ++ [last]).length : ℤ) then ((pre ++ [last]).length : ℤ) else (if (1 : ℤ) ≤ 0 then (numCPU : ℤ) else 1)) > 1) := by
      rw [if_neg (by decide : ¬ (1 : ℤ) ≤ 0)]
      split <;> omega
    rw [if_neg hj] at hpl
    split at hpl
    · cases hpl
    · rw [← Option.some.inj hpl, List.length_append, List.length_singleton, List.range_succ]
      exact ⟨(List.range pre.length).filterMap (fun i => ((pre ++ [last])[i]?).map (fun f => (i, f))), by simp⟩
  obtain ⟨js, hj⟩ := hj
  obtain ⟨h, s, h1, h2⟩ := C216_classifier score data numCPU hcpu 1 (pre ++ [last]) pl hpl m m' hrun i hi' 0 pre.length js last hj sort it dist eps w 1
  have hslot := C09_crossvalidate_slots ⟨held, score⟩ data numCPU hcpu 1 (pre ++ [last]) pl hpl m m' hrun i hi'
  rw [h1] at hslot
  have hh : h = held ((pre ++ [last])[i].train.map data) := by injection hslot
  rw [hget] at hh
  have nd : pre[i].train.Nodup := (List.nodup_append.1 ((hp1.nodup_iff).2 List.nodup_range)).1
  have hself : ∀ Y : List K, Y.length = pre[i].train.length → (pre[i].train.map fun r => (data r).1).mapM (Knn.classify sort it dist eps w (pre[i].train.map fun r => (data r).1) Y 1) = some Y := by
    intro Y hY
    have hl : (pre[i].train.map fun r => (data r).1).length = Y.length := by rw [List.length_map, hY]
    have ndX : (pre[i].train.map fun r => (data r).1).Nodup := nd.map (fun r r' e => hinj r r' e)
    have hm := (KnnInv.C194_self hs it hit dist hd0 ((pre[i].train.map fun r => (data r).1).zip Y) (fun a _ b _ => hdz a.1 b.1) (fun a ha b hb e => by
      obtain ⟨u, hu, hua⟩ := List.getElem_of_mem ha
      obtain ⟨v, hv, hvb⟩ := List.getElem_of_mem hb
      rw [List.getElem_zip] at hua hvb
      have huv : u = v := by
        refine (ndX.getElem_inj_iff (hi := ?_) (hj := ?_)).1 ?_
        · rw [List.length_zip] at hu; omega
        · rw [List.length_zip] at hv; omega
        · rw [← hua, ← hvb] at e
          exact e
      subst huv
      rw [← hua, ← hvb]) heps w).1
    rw [List.map_fst_zip hl.le, List.map_snd_zip hl.ge] at hm
    exact hm
  refine ⟨h, s, h1, ?_, ?_⟩
  · rw [hh]
    have := hself (pre[i].train.map fun r => (data r).2) (by simp)
    simpa [held, Function.comp_def] using this
  · rw [show classifyReturned sort it dist eps w 1 m' (pre ++ [last]).length 0 h = Knn.classify sort it dist eps w (pre[i].train.map fun r => (data r).1) (((last.train ++ last.test).take pre[i].train.length).map fun r => (data r).2) 1 from funext fun q => by rw [h2 q, hget]]
    exact hself _ (by rw [List.length_map, List.length_take]; omega)

/-- Hypotheses met, and what they lead to: four samples on a line, the first two in class 0 and the last two in class 1, two splits.  The classifier of the first split, fitted on the last two samples, puts both into class 0. -/
example {S : Type} (score : Held ℚ ℚ → List (ℚ × ℚ) → S) (pl : List (ℕ × List (ℕ × Fold))) (hpl : plan 4 1 2 [⟨[2, 3], [0, 1]⟩, ⟨[0, 1], [2, 3]⟩] = some pl)
    (m m' : ℕ → Cell (ℚ × ℚ) (Held ℚ ℚ) S) (hrun : Run (workers ⟨held, score⟩ (fun r => ((r : ℚ), if r < 2 then 0 else 1)) 2 pl) m m')
    (sort : List (ℚ × ℕ) → List (ℚ × ℕ)) (hs : SortsAsc Prod.fst sort) :
    ∃ h s, m' 0 = .slot h s ∧ [(2 : ℚ), 3].mapM (classifyReturned sort id (fun a b => |a - b|) 1 .uniform 1 m' 2 0 h) = some [0, 0] := by
  obtain ⟨h, s, h1, _, h2⟩ := C216_classifier_violated score (fun r => ((r : ℚ), if r < 2 then 0 else 1)) (fun r r' e => Nat.cast_injective (R := ℚ) e) 4 (by decide) 2 4 (by decide) false (fun i => ⟨[], if i = 0 then 0 else 2⟩)
    (fun i => ⟨by simp, fun _ => by show (if i = 0 then 0 else 2) < 4; split <;> decide⟩) [⟨[2, 3], [0, 1]⟩] ⟨[0, 1], [2, 3]⟩ (by decide) pl hpl m m' hrun 0 (by decide) sort hs id (fun l => List.Perm.refl l) (fun a b => |a - b|) (fun a b => abs_nonneg _)
    (fun a b => by rw [abs_eq_zero, sub_eq_zero]) 1 one_pos .uniform
  refine ⟨h, s, h1, ?_⟩
  simpa using h2

example : ∃ pl, plan 4 1 2 [⟨[2, 3], [0, 1]⟩, ⟨[0, 1], [2, 3]⟩] = some pl := ⟨_, rfl⟩

/-- One split per job: two jobs. -/
example : ∃ pl, plan 4 2 2 [⟨[2, 3], [0, 1]⟩, ⟨[0, 1], [2, 3]⟩] = some pl ∧ (0, [] ++ [(0, (⟨[2, 3], [0, 1]⟩ : Fold))]) ∈ pl := by decide

end Sk.CrossKnn
