import Verif.Props.Mlp
import Mathlib.Tactic.IntervalCases

/-! # C94 with an adaptive learning rate -/
set_option autoImplicit false

namespace Sk.Mlp

section
variable {T O K : Type} [Field K] [LinearOrder K] [IsStrictOrderedRing K]

/-! ### Specification -/

/-- The `N+1` epochs up to and including epoch `k`, none of them before epoch `p`, did not improve. -/
def StalledSince (tol : K) (N : ℕ) (ls : List K) (p k : ℕ) : Prop := p + N ≤ k ∧ k < ls.length ∧ ∀ j, k - N ≤ j → j ≤ k → NoGain tol ls j

/-- `ends` lists the epochs at which the run with losses `ls` stalled, each time counting from the epoch after the stall before it (from epoch `p` at first). -/
def Stalls (tol : K) (N : ℕ) (ls : List K) : ℕ → List ℕ → Prop
  | p, [] => ∀ k, ¬ StalledSince tol N ls p k
  | p, k :: ks => StalledSince tol N ls p k ∧ (∀ k', k' < k → ¬ StalledSince tol N ls p k') ∧ Stalls tol N ls (k + 1) ks

/-! ### Invariant -/

structure LossInvP (tol : K) (p : ℕ) (ls : List K) (s : Stop T K) : Prop where
  best : (ls = [] ∧ s.bestLoss = none) ∨ ∃ b, s.bestLoss = some b ∧ b ∈ ls ∧ ∀ l ∈ ls, b ≤ l
  start : ls = [] → p = 0
  le : ls ≠ [] → p + s.count ≤ ls.length
  bad : ls ≠ [] → ∀ j, ls.length - s.count ≤ j → j < ls.length → NoGain tol ls j
  good : ls ≠ [] → p + s.count < ls.length → ¬ NoGain tol ls (ls.length - s.count - 1)

theorem lossInvP_step (tol : K) (p : ℕ) (ls : List K) (s : Stop T K) (sc : Option K) (loss : K) (params : T) (h : LossInvP tol p ls s) : LossInvP tol p (ls ++ [loss]) (updateCount false tol sc loss params s) := by
  have hlen : (ls ++ [loss]).length = ls.length + 1 := by simp
  have hlast : (ls ++ [loss])[ls.length]? = some loss := by simp
  rcases h.best with ⟨rfl, hb⟩ | ⟨b, hb, hmem, hmin⟩
  · have hu : updateCount false tol sc loss params s = { s with count := 0, bestLoss := some loss } := by
      simp [updateCount, hb]
    rw [hu]
    have hp := h.start rfl
    subst hp
    refine ⟨Or.inr ⟨loss, rfl, by simp, by simp⟩, fun _ => rfl, fun _ => by simp, fun _ j h1 h2 => ?_, fun _ _ => ?_⟩
    · simp at h1 h2; omega
    · rintro ⟨i, li, lj, h1, _⟩
      simp at h1
  · have hlsne : ls ≠ [] := by rintro rfl; cases hmem
    have hcount : (updateCount false tol sc loss params s).count = if loss > b - tol then s.count + 1 else 0 := by
      simp only [updateCount, hb, Bool.false_eq_true, if_false]
      split <;> rfl
    have hbest : (updateCount false tol sc loss params s).bestLoss = some (if loss < b then loss else b) := by
      simp only [updateCount, hb, Bool.false_eq_true, if_false]
      split <;> simp_all
    have hgain : NoGain tol (ls ++ [loss]) ls.length ↔ loss > b - tol := by
      constructor
      · rintro ⟨i, li, lj, h1, h2, h3, h4⟩
        rw [hlast] at h3
        cases h3
        rw [List.getElem?_append_left h1] at h2
        have := hmin li (List.mem_of_getElem? h2)
        linarith
      · intro hg
        obtain ⟨i, hi, hbi⟩ := List.getElem_of_mem hmem
        exact ⟨i, b, loss, hi, by rw [List.getElem?_append_left hi, List.getElem?_eq_getElem hi, hbi], hlast, hg⟩
    have hle := h.le hlsne
    refine ⟨Or.inr ⟨_, hbest, ?_, ?_⟩, fun h0 => absurd h0 (by simp), fun _ => ?_, fun _ => ?_, fun _ => ?_⟩
    · split
      · simp
      · simp [hmem]
    · intro l hl
      rcases List.mem_append.1 hl with hl | hl
      · have := hmin l hl
        split
        · linarith
        · exact this
      · rw [List.mem_singleton.1 hl]
        split
        · exact le_rfl
        · exact not_lt.1 (by assumption)
    · rw [hcount, hlen]
      split <;> omega
    · intro j h1 h2
      rw [hcount, hlen] at h1
      rw [hlen] at h2
      by_cases hg : loss > b - tol
      · rw [if_pos hg] at h1
        rcases Nat.lt_succ_iff_lt_or_eq.1 h2 with h3 | rfl
        · rw [noGain_append tol ls [loss] j h3]
          exact h.bad hlsne j (by omega) h3
        · exact hgain.2 hg
      · rw [if_neg hg] at h1
        omega
    · rw [hcount, hlen]
      by_cases hg : loss > b - tol
      · rw [if_pos hg]
        intro h3
        rw [show ls.length + 1 - (s.count + 1) - 1 = ls.length - s.count - 1 by omega, noGain_append tol ls [loss] _ (by omega)]
        exact h.good hlsne (by omega)
      · rw [if_neg hg, show ls.length + 1 - 0 - 1 = ls.length by omega]
        exact fun _ h2 => hg (hgain.1 h2)

omit [IsStrictOrderedRing K] in
theorem lossInvP_stalled (tol : K) (N p : ℕ) (ls : List K) (s : Stop T K) (h : LossInvP tol p ls s) (hne : ls ≠ []) : s.count > N ↔ StalledSince tol N ls p (ls.length - 1) := by
  have hle := h.le hne
  have hpos := List.length_pos_iff.2 hne
  constructor
  · intro hc
    exact ⟨by omega, by omega, fun j h1 h2 => h.bad hne j (by omega) (by omega)⟩
  · rintro ⟨h1, _, h2⟩
    by_contra hc
    exact h.good hne (by omega) (h2 _ (by omega) (by omega))

omit [IsStrictOrderedRing K] in
theorem stalledSince_append (tol : K) (N : ℕ) (ls ms : List K) (p k : ℕ) (hk : k < ls.length) : StalledSince tol N (ls ++ ms) p k ↔ StalledSince tol N ls p k := by
  unfold StalledSince
  constructor
  · rintro ⟨h1, _, h2⟩
    exact ⟨h1, hk, fun j a b => (noGain_append tol ls ms j (by omega)).1 (h2 j a b)⟩
  · rintro ⟨h1, _, h2⟩
    exact ⟨h1, by simp; omega, fun j a b => (noGain_append tol ls ms j (by omega)).2 (h2 j a b)⟩

/-! ### The run -/

theorem trainLoop_adaptive (tol : K) (N : ℕ) (epoch : ℕ → T → O → T × O × K) (score : ℕ → T → Option K) (trigger : O → Option O) (lr : O → ℝ) (hnone : ∀ o, trigger o = none ↔ lr o ≤ 1e-6)
    (hsome : ∀ o o', trigger o = some o' → lr o' = lr o / 5) (hep : ∀ e θ o, lr (epoch e θ o).2.1 = lr o) : ∀ (k e : ℕ) (θ : T) (o : O) (s : Stop T K) (p : ℕ) (ls : List K), LossInvP tol p ls s →
    (∀ j, ¬ StalledSince tol N ls p j) →
    ∃ (tr : List (T × K)) (ends : List ℕ), Trace epoch e θ tr ∧ (trainLoop false tol N epoch score trigger k e θ o s).2.2 = e + tr.length ∧ tr.length ≤ k ∧
      (trainLoop false tol N epoch score trigger k e θ o s).1 = (tr.map Prod.fst).getLastD θ ∧ Stalls tol N (ls ++ tr.map Prod.snd) p ends ∧
      (∀ i x, ends[i]? = some x → x + 1 < (ls ++ tr.map Prod.snd).length → 1e-6 < lr o / 5 ^ i) ∧
      (tr.length < k → ∃ m, ends.length = m + 1 ∧ ends[m]? = some ((ls ++ tr.map Prod.snd).length - 1) ∧ lr o / 5 ^ m ≤ 1e-6)
  | 0, e, θ, o, s, p, ls, h, hn => ⟨[], [], trivial, rfl, le_rfl, rfl, by simpa [Stalls] using hn, by simp, fun h => absurd h (by simp)⟩
  | k + 1, e, θ, o, s, p, ls, h, hn => by
    have h2 := lossInvP_step tol p ls s (score e (epoch e θ o).1) (epoch e θ o).2.2 (epoch e θ o).1 h
    have hst := lossInvP_stalled tol N p _ _ h2 (by simp)
    have hlen : (ls ++ [(epoch e θ o).2.2]).length = ls.length + 1 := by simp
    rw [hlen, Nat.add_sub_cancel] at hst
    have hold : ∀ (ms : List K) (j : ℕ), j < ls.length → ¬ StalledSince tol N (ls ++ ms) p j := by
      intro ms j hj h3
      exact hn j ((stalledSince_append tol N ls ms p j hj).1 h3)
    have hassoc : ∀ tr : List (T × K), ls ++ (((epoch e θ o).1, (epoch e θ o).2.2) :: tr).map Prod.snd = (ls ++ [(epoch e θ o).2.2]) ++ tr.map Prod.snd := by
      intro tr
      rw [List.map_cons, ← List.singleton_append, ← List.append_assoc]
    unfold trainLoop
    by_cases hc : (updateCount false tol (score e (epoch e θ o).1) (epoch e θ o).2.2 (epoch e θ o).1 s).count > N
    · simp only [if_pos hc]
      rcases ht : trigger (epoch e θ o).2.1 with _ | o'
      · have hl : lr o ≤ 1e-6 := by
          rw [← hep e θ o]
          exact (hnone _).1 ht
        refine ⟨[((epoch e θ o).1, (epoch e θ o).2.2)], [ls.length], ⟨⟨o, rfl, rfl⟩, trivial⟩, rfl, by simp, rfl, ⟨hst.1 hc, fun k' hk' => hold _ k' hk', ?_⟩, ?_, fun _ => ⟨0, rfl, by simp, by simpa using hl⟩⟩
        · rintro j ⟨h3, h4, _⟩
          simp at h4
          omega
        · intro i x hx hlt
          have : i = 0 := by
            by_contra hi
            rw [List.getElem?_eq_none (by simp; omega)] at hx
            cases hx
          subst this
          simp at hx hlt
          omega
      · have hl : 1e-6 < lr o := by
          rw [← hep e θ o]
          by_contra hcon
          rw [(hnone _).2 (not_lt.1 hcon)] at ht
          cases ht
        have hl' : lr o' = lr o / 5 := by rw [hsome _ _ ht, hep]
        have h3 : LossInvP tol (ls.length + 1) (ls ++ [(epoch e θ o).2.2]) { updateCount false tol (score e (epoch e θ o).1) (epoch e θ o).2.2 (epoch e θ o).1 s with count := 0 } := by
          refine ⟨h2.best, fun h0 => absurd h0 (by simp), fun _ => by simp, fun _ j h4 h5 => ?_, fun _ h4 => ?_⟩
          · rw [hlen] at h4 h5
            simp only at h4
            omega
          · rw [hlen] at h4
            simp only at h4
            omega
        obtain ⟨tr, ends, t1, t2, t3, t4, t5, t6, t7⟩ := trainLoop_adaptive tol N epoch score trigger lr hnone hsome hep k (e + 1) (epoch e θ o).1 o' _ (ls.length + 1) _ h3 (by
          rintro j ⟨h4, h5, _⟩
          rw [hlen] at h5
          omega)
        refine ⟨((epoch e θ o).1, (epoch e θ o).2.2) :: tr, ls.length :: ends, ⟨⟨o, rfl, rfl⟩, t1⟩, by rw [t2, List.length_cons]; omega, by rw [List.length_cons]; omega, ?_, ?_, ?_, ?_⟩
        · rw [t4, List.map_cons, List.getLastD_cons]
        · rw [hassoc]
          refine ⟨(stalledSince_append tol N _ _ p _ (by simp)).2 (hst.1 hc), fun k' hk' => ?_, t5⟩
          rw [List.append_assoc]
          exact hold _ k' hk'
        · rw [hassoc]
          intro i x hx hlt
          match i with
          | 0 => simpa using hl
          | i + 1 =>
            have := t6 i x (by simpa using hx) hlt
            rw [hl', div_div] at this
            rwa [pow_succ']
        · rw [hassoc]
          intro hlt
          rw [List.length_cons] at hlt
          obtain ⟨m, m1, m2, m3⟩ := t7 (by omega)
          refine ⟨m + 1, by rw [List.length_cons, m1], by simpa using m2, ?_⟩
          rw [hl', div_div] at m3
          rwa [pow_succ']
    · simp only [if_neg hc]
      obtain ⟨tr, ends, t1, t2, t3, t4, t5, t6, t7⟩ := trainLoop_adaptive tol N epoch score trigger lr hnone hsome hep k (e + 1) (epoch e θ o).1 (epoch e θ o).2.1 _ p _ h2 (by
        intro j hj
        have hj2 := hj.2.1
        rw [hlen] at hj2
        rcases Nat.lt_or_ge j ls.length with h3 | h3
        · exact hold _ j h3 hj
        · rw [show j = ls.length by omega] at hj
          exact hc (hst.2 hj))
      rw [hep] at t6 t7
      refine ⟨((epoch e θ o).1, (epoch e θ o).2.2) :: tr, ends, ⟨⟨o, rfl, rfl⟩, t1⟩, by rw [t2, List.length_cons]; omega, by rw [List.length_cons]; omega, ?_, ?_, ?_, ?_⟩
      · rw [t4, List.map_cons, List.getLastD_cons]
      · rw [hassoc]; exact t5
      · rw [hassoc]; exact t6
      · rw [hassoc]
        intro hlt
        rw [List.length_cons] at hlt
        exact t7 (by omega)

/-- **C94** with the adaptive learning rate and without early stopping.  Let the epochs at which the loss has stalled (for `NIterNoChange+1` epochs since the stall before) be `ends`.  The `i`-th stall before the last epoch
found a learning rate, the initial one divided by `5^i`, above 1e-6; and if the run ends before the maximum number of epochs it ends with a stall, the first one at which the initial rate divided by 5 once for every
stall before it is at most 1e-6.  The number of epochs reported is the number run and the parameters are those of the last epoch, whatever counters an earlier fit left behind. -/
theorem C94_adaptive (tol : K) (N maxIter : ℕ) (epoch : ℕ → T → Sgd → T × Sgd × K) (hep : ∀ e θ o, (epoch e θ o).2.1.lr = o.lr) (score : ℕ → T → Option K) (zero θ : T) (o : Sgd) (s : Stop T K) :
    let r := fitStochastic false tol N maxIter epoch score (sgdTrigger true) zero θ o s
    ∃ (tr : List (T × K)) (ends : List ℕ), Trace epoch 0 θ tr ∧ r.2.2 = tr.length ∧ tr.length ≤ maxIter ∧ r.1 = (tr.map Prod.fst).getLastD θ ∧ Stalls tol N (tr.map Prod.snd) 0 ends ∧
      (∀ i x, ends[i]? = some x → x + 1 < tr.length → 1e-6 < o.lr / 5 ^ i) ∧
      (tr.length < maxIter → ∃ m, ends.length = m + 1 ∧ ends[m]? = some (tr.length - 1) ∧ o.lr / 5 ^ m ≤ 1e-6) := by
  intro r
  have hnone : ∀ o : Sgd, sgdTrigger true o = none ↔ o.lr ≤ 1e-6 := by
    intro o
    simp only [sgdTrigger, Bool.not_true, Bool.false_eq_true, if_false]
    by_cases h : o.lr ≤ 1e-6
    · simp [h]
    · simp [h]
  have hsome : ∀ o o' : Sgd, sgdTrigger true o = some o' → o'.lr = o.lr / 5 := by
    intro o o' h
    simp only [sgdTrigger, Bool.not_true, Bool.false_eq_true, if_false] at h
    split at h
    · cases h
    · cases h
      rfl
  obtain ⟨tr, ends, t1, t2, t3, t4, t5, t6, t7⟩ := trainLoop_adaptive tol N epoch score (sgdTrigger true) Sgd.lr hnone hsome hep maxIter 0 θ o { s with bestLoss := none } 0 []
    ⟨Or.inl ⟨rfl, rfl⟩, fun _ => rfl, fun h => absurd rfl h, fun h => absurd rfl h, fun h => absurd rfl h⟩ (by rintro j ⟨_, h, _⟩; simp at h)
  refine ⟨tr, ends, t1, ?_, t3, t4, by simpa using t5, by simpa using t6, by simpa using t7⟩
  rw [← Nat.zero_add tr.length, ← t2]
  rfl

/-- The updates of an epoch leave the learning rate alone. -/
example (momentum : ℝ) (nesterov : Bool) (s : Sgd) (gs : List (List ℝ)) : (gs.foldl (sgdUpdate momentum nesterov) s).lr = s.lr := by
  induction gs generalizing s with
  | nil => rfl
  | cons g gs ih => rw [List.foldl_cons, ih]; rfl

/-- Losses 5, 4, 5, 5, 4, 6, 6, tolerance 0 and a patience of 1: the loss stalls at epochs 3 and 6. -/
example : Stalls (0 : ℚ) 1 [5, 4, 5, 5, 4, 6, 6] 0 [3, 6] := by
  have h2 : NoGain (0 : ℚ) [5, 4, 5, 5, 4, 6, 6] 2 := ⟨1, 4, 5, by decide, rfl, rfl, by norm_num⟩
  have h3 : NoGain (0 : ℚ) [5, 4, 5, 5, 4, 6, 6] 3 := ⟨1, 4, 5, by decide, rfl, rfl, by norm_num⟩
  have h5 : NoGain (0 : ℚ) [5, 4, 5, 5, 4, 6, 6] 5 := ⟨1, 4, 6, by decide, rfl, rfl, by norm_num⟩
  have h6 : NoGain (0 : ℚ) [5, 4, 5, 5, 4, 6, 6] 6 := ⟨1, 4, 6, by decide, rfl, rfl, by norm_num⟩
  have n1 : ¬ NoGain (0 : ℚ) [5, 4, 5, 5, 4, 6, 6] 1 := by
    rintro ⟨i, li, lj, h1, h2, h3, h4⟩
    obtain rfl : i = 0 := by omega
    simp at h2 h3
    subst h2 h3
    norm_num at h4
  have n4 : ¬ NoGain (0 : ℚ) [5, 4, 5, 5, 4, 6, 6] 4 := by
    rintro ⟨i, li, lj, h1, h2, h3, h4⟩
    simp at h3
    subst h3
    interval_cases i <;> simp at h2 <;> subst h2 <;> norm_num at h4
  refine ⟨⟨by decide, by decide, ?_⟩, ?_, ⟨by decide, by decide, ?_⟩, ?_, ?_⟩
  · intro j a b
    interval_cases j <;> assumption
  · rintro k hk ⟨a, _, b⟩
    interval_cases k
    · exact n1 (b 1 (by omega) (by omega))
    · exact n1 (b 1 (by omega) (by omega))
  · intro j a b
    interval_cases j <;> assumption
  · rintro k hk ⟨a, _, b⟩
    interval_cases k
    all_goals first | omega | exact n4 (b 4 (by omega) (by omega))
  · rintro k ⟨a, b, _⟩
    simp at b
    omega

end

end Sk.Mlp
