import Verif.Props.NaiveBayes
import Verif.Props.RowOrder

/-!
# C247 (continued): `GaussianNB` on several copies of every sample
-/
set_option autoImplicit false

namespace Sk.Copies

open Sk.NB

section
variable {K : Type} [Field K] [LinearOrder K] [IsStrictOrderedRing K]

/-- The samples of `S'` are those of `S`, each `k` times, in any order. -/
def CopiesOf (k : ℕ) (S S' : List (Sample K)) : Prop := S'.Perm (List.replicate k S).flatten

theorem CopiesOf.sum {k : ℕ} {S S' : List (Sample K)} (h : CopiesOf k S S') (f : Sample K → K) : (S'.map f).sum = k * (S.map f).sum := by
  rw [(h.map f).sum_eq, List.map_flatten, List.sum_flatten, List.map_replicate, List.map_replicate, List.sum_replicate, nsmul_eq_mul]

theorem CopiesOf.mem {k : ℕ} (hk : k ≠ 0) {S S' : List (Sample K)} (h : CopiesOf k S S') (s : Sample K) : s ∈ S' ↔ s ∈ S := by
  rw [h.mem_iff]
  simp [hk]

theorem CopiesOf.filter {k : ℕ} {S S' : List (Sample K)} (h : CopiesOf k S S') (f : Sample K → Bool) : CopiesOf k (S.filter f) (S'.filter f) := by
  unfold CopiesOf
  refine (List.Perm.filter f h).trans ?_
  rw [List.filter_flatten, List.map_replicate]

private theorem mapM_map {A B C : Type} (h : B → C) (g : A → Option B) (g' : A → Option C) : ∀ l : List A, (∀ a ∈ l, g' a = (g a).map h) → l.mapM g' = (l.mapM g).map (List.map h)
  | [], _ => rfl
  | a :: l, hl => by
    rw [List.mapM_cons, List.mapM_cons, hl a (by simp), mapM_map h g g' l (fun b hb => hl b (by simp [hb]))]
    cases g a with
    | none => rfl
    | some b => cases l.mapM g <;> rfl

private theorem meanvar_copies {k : ℕ} (hk : k ≠ 0) {S S' : List (Sample K)} (h : CopiesOf k S S') (c : ℕ) :
    meanvar (column S' c) = (meanvar (column S c)).map (fun r => (r.1, r.2.1, (k : K) * r.2.2)) := by
  have hk' : (k : K) ≠ 0 := Nat.cast_ne_zero.2 hk
  have hs : ∀ f : K × K → K, ((column S' c).map f).sum = k * ((column S c).map f).sum := by
    intro f
    unfold column
    rw [List.map_map, List.map_map, h.sum]
  unfold meanvar
  simp only [hs, mul_eq_zero, hk', false_or, mul_div_mul_left _ _ hk']
  split <;> rfl

private theorem updateCol_copies {k : ℕ} (hk : k ≠ 0) {S S' : List (Sample K)} (h : CopiesOf k S S') (c : ℕ) (mu va : K) :
    updateCol 0 mu va (column S' c) = updateCol 0 mu va (column S c) := by
  have hk' : (k : K) ≠ 0 := Nat.cast_ne_zero.2 hk
  unfold updateCol
  rw [meanvar_copies hk h]
  cases meanvar (column S c) with
  | none => rfl
  | some r =>
    obtain ⟨m, v, w⟩ := r
    simp only [Option.map_some, Option.bind_eq_bind, Option.bind_some, zero_add, zero_mul, mul_zero, zero_div, add_zero, mul_eq_zero, hk', false_or, mul_assoc, mul_div_mul_left _ _ hk']

private def scaleStat (k : K) (s : Stat K) : Stat K := { s with count := k * s.count }

private theorem updateStat_copies {k : ℕ} (hk : k ≠ 0) {S S' : List (Sample K)} (h : CopiesOf k S S') (p : ℕ) (mu va : List K) :
    updateStat p ⟨0, mu, va⟩ S' = (updateStat p ⟨0, mu, va⟩ S).map (scaleStat (k : K)) := by
  have he : S'.isEmpty = S.isEmpty := by
    cases S with
    | nil => 
      cases S' with
      | nil => rfl
      | cons a l => exact absurd ((h.mem hk a).1 (by simp)) (by simp)
    | cons a l =>
      cases S' with
      | nil => exact absurd ((h.mem hk a).2 (by simp)) (by simp)
      | cons b l' => rfl
  unfold updateStat
  rw [he]
  cases S.isEmpty with
  | true => simp [scaleStat]
  | false =>
    simp only [Bool.false_eq_true, if_false, updateCol_copies hk h, h.sum]
    cases (List.range p).mapM (fun c => updateCol 0 (mu.getD c 0) (va.getD c 0) (column S c)) with
    | none => rfl
    | some cols => simp [scaleStat]

private theorem maxVar_copies {k : ℕ} (hk : k ≠ 0) {S S' : List (Sample K)} (h : CopiesOf k S S') (p : ℕ) : maxVar p S' = maxVar p S := by
  unfold maxVar
  have : (fun c => (meanvar (column S' c)).map (fun r => r.2.1)) = fun c => (meanvar (column S c)).map (fun r => r.2.1) := by
    funext c
    rw [meanvar_copies hk h, Option.map_map]
    rfl
  rw [this]

private theorem samplesOf_copies {k : ℕ} {S S' : List (Sample K)} (h : CopiesOf k S S') (cs : List K) (i : ℕ) : CopiesOf k (samplesOf cs i S) (samplesOf cs i S') := by
  unfold samplesOf
  have hn : CopiesOf k ([] : List (Sample K)) [] := by
    unfold CopiesOf
    rw [List.flatten_replicate_nil]
  cases cs[i]? with
  | none => exact hn
  | some c =>
    simp only
    split
    · exact hn
    · exact h.filter _

private theorem unique_copies {k : ℕ} (hk : k ≠ 0) {S S' : List (Sample K)} (h : CopiesOf k S S') : npUnique (S'.map Sample.y) = npUnique (S.map Sample.y) := by
  have hm : ∀ v, v ∈ S'.map Sample.y ↔ v ∈ S.map Sample.y := fun v => by simp only [List.mem_map, h.mem hk]
  unfold npUnique
  refine List.Perm.eq_of_pairwise (le := (· ≤ ·)) (fun _ _ _ _ h1 h2 => le_antisymm h1 h2) (List.pairwise_insertionSort _ _) (List.pairwise_insertionSort _ _)
    ((List.perm_insertionSort _ _).trans (List.Perm.trans ?_ (List.perm_insertionSort _ _).symm))
  exact (List.perm_ext_iff_of_nodup (List.nodup_dedup _) (List.nodup_dedup _)).2 (fun v => by rw [List.mem_dedup, List.mem_dedup, hm])

/-- **C247, `GaussianNB.Fit`** of a new estimator: with every sample repeated `k` times only the class counts change, `k`-fold; it panics on the same data. -/
theorem C247_bayes_fit {k : ℕ} (hk : k ≠ 0) (tol vs : K) (priors : Option (List K)) (p : ℕ) {S S' : List (Sample K)} (h : CopiesOf k S S') :
    fit tol vs priors none p S' = (fit tol vs priors none p S).map (fun f => { f with stats := f.stats.map (fun s => ⟨(k : K) * s.count, s.mu, s.va⟩) }) := by
  have hk' : (k : K) ≠ 0 := Nat.cast_ne_zero.2 hk
  unfold fit partialFit
  rw [unique_copies hk h, maxVar_copies hk h]
  cases maxVar p S with
  | none => rfl
  | some mv =>
    simp only [Option.bind_eq_bind, Option.bind_some]
    generalize hcs : npUnique (S.map Sample.y) = cs
    cases hp : prepare tol priors (vs * mv) none p cs true with
    | none => rfl
    | some f =>
      simp only [Option.bind_some]
      have hz : ∀ s ∈ f.stats, s.count = 0 := by
        unfold prepare at hp
        simp only at hp
        split at hp
        · exact absurd hp (by simp)
        · obtain ⟨pr, -, rfl⟩ := Option.map_eq_some_iff.1 hp
          intro s hs
          rw [(List.mem_replicate.1 hs).2]
      have ha : (S'.any fun s => decide (s.y ∉ f.classes)) = S.any fun s => decide (s.y ∉ f.classes) := by
        rw [Bool.eq_iff_iff, List.any_eq_true, List.any_eq_true]
        simp only [h.mem hk]
      rw [ha]
      split
      · rfl
      · rw [mapM_map (scaleStat (k : K)) (fun i => (f.stats[i]?).bind (fun s => updateStat p s (samplesOf f.classes i S))) _ _ (fun i _ => by
          cases hi : f.stats[i]? with
          | none => rfl
          | some s =>
            have h0 := hz s (List.mem_of_getElem? hi)
            obtain ⟨c, mu, va⟩ := s
            simp only at h0
            subst h0
            simp only [Option.bind_some]
            exact updateStat_copies hk (samplesOf_copies h f.classes i) p mu va)]
        cases (List.range f.stats.length).mapM (fun i => (f.stats[i]?).bind (fun s => updateStat p s (samplesOf f.classes i S))) with
        | none => rfl
        | some stats =>
          simp only [Option.map_some, Option.bind_some]
          cases priors with
          | some pr => simp [scaleStat, Function.comp_def]
          | none =>
            have ht : ((((stats.map (scaleStat (k : K))).map (fun s => { s with va := s.va.map (fun v => v + vs * mv) })).map Stat.count).sum : K) =
                k * ((stats.map (fun s => { s with va := s.va.map (fun v => v + vs * mv) })).map Stat.count).sum := by
              simp only [List.map_map, Function.comp_def, scaleStat, List.sum_map_mul_left]
            simp only [ht, mul_eq_zero, hk', false_or]
            split
            · rfl
            · simp [scaleStat, Function.comp_def, mul_div_mul_left _ _ hk']

end

/-- **C247, `GaussianNB`**: predictions and probabilities after `Fit` are the same when every sample is repeated `k` times. -/
theorem C247_bayes {k : ℕ} (hk : k ≠ 0) (tol vs : ℝ) (priors : Option (List ℝ)) (p : ℕ) {S S' : List (Sample ℝ)} (h : CopiesOf k S S') (f : Fitted ℝ) (hf : fit tol vs priors none p S = some f) :
    ∃ f', fit tol vs priors none p S' = some f' ∧ ∀ x, predict f' x = predict f x ∧ predictProba f' x = predictProba f x ∧ predictLogProba f' x = predictLogProba f x := by
  refine ⟨_, by rw [C247_bayes_fit hk tol vs priors p h, hf]; rfl, fun x => ?_⟩
  have hj : jll { f with stats := f.stats.map (fun s => ⟨(k : ℝ) * s.count, s.mu, s.va⟩) } x = jll f x := by
    unfold jll
    rw [List.zipWith_map_right]
    rfl
  unfold predict predictProba predictLogProba
  simp only [hj]
  trivial

/-- Two classes with two samples each, and three copies of each sample. -/
example : ((fit (1 / 1000000) (1 / 1000) none none 1 [⟨[1], 0, 1⟩, ⟨[3], 0, 1⟩, ⟨[7], 1, 1⟩, ⟨[8], 1, 1⟩] : Option (Fitted ℚ)).map (fun f => (f.classes, f.prior, f.stats.map (fun s => (s.count, s.mu))))) = some ([0, 1], [1 / 2, 1 / 2], [(2, [2]), (2, [15 / 2])]) ∧
    ((fit (1 / 1000000) (1 / 1000) none none 1 (List.replicate 3 [⟨[1], 0, 1⟩, ⟨[3], 0, 1⟩, ⟨[7], 1, 1⟩, ⟨[8], 1, 1⟩]).flatten : Option (Fitted ℚ)).map (fun f => (f.classes, f.prior, f.stats.map (fun s => (s.count, s.mu))))) = some ([0, 1], [1 / 2, 1 / 2], [(6, [2]), (6, [15 / 2])]) ∧
    CopiesOf 3 ([⟨[1], 0, 1⟩, ⟨[3], 0, 1⟩] : List (Sample ℚ)) (List.replicate 3 [⟨[1], 0, 1⟩, ⟨[3], 0, 1⟩]).flatten := by
  refine ⟨by decide +kernel, by decide +kernel, List.Perm.refl _⟩

end Sk.Copies
