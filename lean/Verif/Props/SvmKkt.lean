import Verif.Props.Svc
import Verif.Props.Svr
import Mathlib.Algebra.BigOperators.Fin
import Mathlib.Algebra.Order.BigOperators.Ring.Finset
import Mathlib.Data.Fin.VecNotation
import Mathlib.Tactic.FinCases
import Mathlib.Tactic.NormNum

/-! # C172: what holds for the training samples when training of a support vector machine ends -/
set_option autoImplicit false

namespace Sk.Svm

variable {K : Type} [Field K] [LinearOrder K] [IsStrictOrderedRing K] {m : ℕ}

/-! ## Specification -/

/-- Karush-Kuhn-Tucker conditions of the classifier, up to `eps`: a sample whose margin is below `1 - eps` has a multiplier at the upper bound, one whose margin exceeds `1 + eps` at zero. -/
def SvcKkt (kern : Fin m → Fin m → K) (Y : Fin m → K) (C eps : K) (α : Fin m → K) (b : K) : Prop :=
  ∀ i, (Y i * svcValue kern Y α b i < 1 - eps → C ≤ α i) ∧ (1 + eps < Y i * svcValue kern Y α b i → α i ≤ 0)

/-- Value of the regression function at sample `i`. -/
def svrValue (kern : Fin m → Fin m → K) (α : Fin m → K) (b : K) (i : Fin m) : K := ∑ k, α k * kern k i + b

/-- Optimality conditions of the regressor outside the tube: a sample more than `eps` above the curve has its multiplier at `C`, one more than `eps` below at `-C`. -/
def SvrKkt (kern : Fin m → Fin m → K) (Y : Fin m → K) (C eps : K) (α : Fin m → K) (b : K) : Prop :=
  ∀ i, (svrValue kern α b i < Y i - eps → C ≤ α i) ∧ (Y i + eps < svrValue kern α b i → α i ≤ -C)

/-- The last `n` rounds started from `st` and changed no multiplier and not the offset. -/
def Stalled (step : St m K → Fin m × ℕ → Option (St m K)) (draws : ℕ → Fin m → ℕ) (n : ℕ) (st : St m K) : Prop :=
  ∃ t, ∀ k < n, ∃ s', (List.finRange m).foldlM (fun s i => step s (i, draws (t + k) i)) { st with viol := false, changed := 0 } = some s' ∧ s'.α = st.α ∧ s'.b = st.b

/-! ## The loop -/

section Loop
variable {step : St m K → Fin m × ℕ → Option (St m K)} {ok : (Fin m → K) → K → Fin m → Prop}

theorem pass_ok (hs : ∀ s ir s', step s ir = some s' → s'.viol = true ∨ (s' = s ∧ ok s.α s.b ir.1)) (hv : ∀ s ir s', step s ir = some s' → s.viol = true → s'.viol = true)
    (d : Fin m → ℕ) (l : List (Fin m)) : ∀ s s', l.foldlM (fun s i => step s (i, d i)) s = some s' → s'.viol = false → s' = s ∧ ∀ i ∈ l, ok s.α s.b i := by
  have mono : ∀ (l : List (Fin m)) s s', l.foldlM (fun s i => step s (i, d i)) s = some s' → s.viol = true → s'.viol = true := by
    intro l
    induction l with
    | nil => intro s s' h h1; cases h; exact h1
    | cons i l ih =>
      intro s s' h h1
      rw [List.foldlM_cons, Option.bind_eq_bind] at h
      obtain ⟨t, e, h⟩ := Option.bind_eq_some_iff.1 h
      exact ih t s' h (hv _ _ _ e h1)
  induction l with
  | nil => intro s s' h _; cases h; exact ⟨rfl, by simp⟩
  | cons i l ih =>
    intro s s' h h1
    rw [List.foldlM_cons, Option.bind_eq_bind] at h
    obtain ⟨t, e, h⟩ := Option.bind_eq_some_iff.1 h
    rcases hs _ _ _ e with h2 | ⟨h5, h2⟩
    · rw [mono l t s' h h2] at h1; cases h1
    · rw [h5] at h
      obtain ⟨h3, h4⟩ := ih _ _ h h1
      refine ⟨h3, ?_⟩
      intro j hj
      rcases List.mem_cons.1 hj with rfl | hj
      · exact h2
      · exact h4 j hj

theorem pass_same (hc : ∀ s ir s', step s ir = some s' → (s'.changed = s.changed ∧ s'.α = s.α ∧ s'.b = s.b) ∨ s.changed < s'.changed)
    (d : Fin m → ℕ) (l : List (Fin m)) : ∀ s s', l.foldlM (fun s i => step s (i, d i)) s = some s' → (s'.changed = s.changed ∧ s'.α = s.α ∧ s'.b = s.b) ∨ s.changed < s'.changed := by
  induction l with
  | nil => intro s s' h; cases h; exact Or.inl ⟨rfl, rfl, rfl⟩
  | cons i l ih =>
    intro s s' h
    rw [List.foldlM_cons, Option.bind_eq_bind] at h
    obtain ⟨t, e, h⟩ := Option.bind_eq_some_iff.1 h
    rcases hc _ _ _ e with ⟨a1, a2, a3⟩ | a
    · rcases ih _ _ h with ⟨b1, b2, b3⟩ | b
      · exact Or.inl ⟨b1.trans a1, b2.trans a2, b3.trans a3⟩
      · right; omega
    · rcases ih _ _ h with ⟨b1, -, -⟩ | b <;> right <;> omega

theorem loop_end (hs : ∀ s ir s', step s ir = some s' → s'.viol = true ∨ (s' = s ∧ ok s.α s.b ir.1)) (hv : ∀ s ir s', step s ir = some s' → s.viol = true → s'.viol = true)
    (hc : ∀ s ir s', step s ir = some s' → (s'.changed = s.changed ∧ s'.α = s.α ∧ s'.b = s.b) ∨ s.changed < s'.changed)
    (maxPasses : ℕ) (draws : ℕ → Fin m → ℕ) (fuel : ℕ) : ∀ (t passes : ℕ) (s st : St m K), passes ≤ t →
      (∀ k < passes, ∃ s', (List.finRange m).foldlM (fun s i => step s (i, draws (t - passes + k) i)) { s with viol := false, changed := 0 } = some s' ∧ s'.α = s.α ∧ s'.b = s.b) →
      loop step maxPasses draws fuel t passes s = .done st → (∀ i, ok st.α st.b i) ∨ Stalled step draws maxPasses st := by
  induction fuel with
  | zero => intro t passes s st _ _ h; rw [loop] at h; cases h
  | succ fuel ih =>
    intro t passes s st hp hq h
    rw [loop] at h
    by_cases hm : maxPasses ≤ passes
    · rw [if_pos hm] at h
      cases h
      right
      refine ⟨t - passes, fun k hk => hq k (by omega)⟩
    · rw [if_neg hm] at h
      generalize hf : (List.finRange m).foldlM (fun st i => step st (i, draws t i)) { s with viol := false, changed := 0 } = o at h
      cases o with
      | none => cases h
      | some s' =>
        simp only at h
        by_cases hvi : s'.viol = true
        · simp only [hvi, Bool.not_true, Bool.false_eq_true, if_false] at h
          rcases pass_same hc (draws t) _ _ _ hf with ⟨a1, a2, a3⟩ | a
          · simp only at a1 a2 a3
            rw [if_pos a1] at h
            refine ih (t + 1) (passes + 1) s' st (by omega) ?_ h
            have es : ({ s' with viol := false, changed := 0 } : St m K) = { s with viol := false, changed := 0 } := by rw [a2, a3]
            intro k hk
            rw [es, a2, a3, show t + 1 - (passes + 1) + k = t - passes + k by omega]
            rcases Nat.lt_or_ge k passes with h1 | h1
            · exact hq k h1
            · rw [show t - passes + k = t by omega]
              exact ⟨s', hf, a2, a3⟩
          · simp only at a
            rw [if_neg (by omega)] at h
            exact ih (t + 1) 0 s' st (by omega) (by intro k hk; omega) h
        · have hvf : s'.viol = false := by simpa using hvi
          simp only [hvf, Bool.not_false, if_true] at h
          cases h
          left
          obtain ⟨e, h2⟩ := pass_ok hs hv (draws t) _ _ _ hf hvf
          intro i
          rw [e]
          exact h2 i (List.mem_finRange i)

end Loop

/-! ## Classifier -/

theorem svcUpdate_flags (kern : Fin m → Fin m → K) (Y : Fin m → K) (C tol : K) (s : St m K) (i j : Fin m) :
    (svcUpdate kern Y C tol s i j).viol = s.viol ∧ (svcUpdate kern Y C tol s i j = s ∨ (svcUpdate kern Y C tol s i j).changed = s.changed + 1) := by
  rw [svcUpdate]
  simp only
  generalize (if Y i = Y j then max 0 (s.α j + s.α i - C) else max 0 (s.α j - s.α i)) = L
  generalize (if Y i = Y j then min C (s.α j + s.α i) else min C (C + s.α j - s.α i)) = H
  split
  · exact ⟨rfl, Or.inl rfl⟩
  split
  · exact ⟨rfl, Or.inl rfl⟩
  split
  · exact ⟨rfl, Or.inl rfl⟩
  · exact ⟨rfl, Or.inr rfl⟩

theorem svrUpdate_flags (kern : Fin m → Fin m → K) (Y : Fin m → K) (C eps tol : K) (s : St m K) (i j : Fin m) :
    (svrUpdate kern Y C eps tol s i j).viol = s.viol ∧ (svrUpdate kern Y C eps tol s i j = s ∨ (svrUpdate kern Y C eps tol s i j).changed = s.changed + 1) := by
  rw [svrUpdate]
  simp only
  split
  · exact ⟨rfl, Or.inl rfl⟩
  split
  · exact ⟨rfl, Or.inl rfl⟩
  · exact ⟨rfl, Or.inr rfl⟩

/-- **C172** (partial: training may also end by `MaxIter` rounds without change, see `C172_stuck_violated`). When training of a classifier ends, either all training samples meet the Karush-Kuhn-Tucker conditions up to `eps`,
or the last `MaxIter` rounds changed nothing. -/
theorem C172_svc_partial (kern : Fin m → Fin m → K) (hsym : ∀ i j, kern i j = kern j i) (Y : Fin m → K) (hY : ∀ i, Y i = 1 ∨ Y i = -1) (C eps tol : K) (maxPasses : ℕ) (draws : ℕ → Fin m → ℕ)
    (fuel : ℕ) (st : St m K) (h : loop (svcStep kern Y C eps tol) maxPasses draws fuel 0 0 (start m K) = .done st) :
    SvcKkt kern Y C eps st.α st.b ∨ Stalled (svcStep kern Y C eps tol) draws maxPasses st := by
  have hck : ck kern = kern := by funext a b; exact ck_eq hsym a b
  refine loop_end (ok := fun α b i => (Y i * svcValue kern Y α b i < 1 - eps → C ≤ α i) ∧ (1 + eps < Y i * svcValue kern Y α b i → α i ≤ 0)) ?_ ?_ ?_ maxPasses draws fuel 0 0 _ st (le_refl _)
    (by intro k hk; omega) h
  · intro s ir s' e
    rw [svcStep] at e
    split at e
    · obtain ⟨j, -, e⟩ := Option.map_eq_some_iff.1 e
      left
      rw [← e, (svcUpdate_flags kern Y C tol _ ir.1 j).1]
    · rename_i hn
      right
      cases e
      refine ⟨rfl, ?_⟩
      push Not at hn
      have hv : Y ir.1 * (f kern Y s ir.1 - Y ir.1) = Y ir.1 * svcValue kern Y s.α s.b ir.1 - 1 := by
        have h1 : Y ir.1 * Y ir.1 = 1 := by rcases hY ir.1 with g | g <;> rw [g] <;> ring
        rw [f, svcValue, hck]
        linear_combination -h1
      rw [hv] at hn
      exact ⟨fun h => hn.1 (by linarith), fun h => hn.2 (by linarith)⟩
  · intro s ir s' e h1
    rw [svcStep] at e
    split at e
    · obtain ⟨j, -, e⟩ := Option.map_eq_some_iff.1 e
      rw [← e, (svcUpdate_flags kern Y C tol _ ir.1 j).1]
    · cases e; exact h1
  · intro s ir s' e
    rw [svcStep] at e
    split at e
    · obtain ⟨j, -, e⟩ := Option.map_eq_some_iff.1 e
      rcases (svcUpdate_flags kern Y C tol { s with viol := true } ir.1 j).2 with g | g
      · rw [g] at e; rw [← e]; exact Or.inl ⟨rfl, rfl, rfl⟩
      · rw [e] at g; right; simp only at g; omega
    · cases e; exact Or.inl ⟨rfl, rfl, rfl⟩

/-- Terms with multipliers up to `tol` contribute little. -/
theorem dropped (w k : Fin m → K) (tol : K) (p : Fin m → Prop) [DecidablePred p] (hw : ∀ i, ¬ p i → |w i| ≤ tol) (h0 : 0 ≤ tol) :
    |∑ i, (if p i then w i * k i else 0) - ∑ i, w i * k i| ≤ tol * ∑ i, |k i| := by
  rw [← Finset.sum_sub_distrib, Finset.mul_sum]
  refine (Finset.abs_sum_le_sum_abs _ _).trans (Finset.sum_le_sum ?_)
  intro i _
  by_cases h : p i
  · rw [if_pos h, sub_self, abs_zero]; exact mul_nonneg h0 (abs_nonneg _)
  · rw [if_neg h, zero_sub, abs_neg, abs_mul]
    exact mul_le_mul_of_nonneg_right (hw i h) (abs_nonneg _)

/-- **C172.** Training samples are classified right: when training of a classifier has ended with the Karush-Kuhn-Tucker conditions met, the fitted model predicts the label (1 for +1, 0 for -1) of every sample whose multiplier is below
`C`, provided the multipliers that are dropped from the model (up to `tol`) matter less than the margin. -/
theorem C172_svc_training (kern : Fin m → Fin m → K) (hsym : ∀ i j, kern i j = kern j i) (Y : Fin m → K) (hY : ∀ i, Y i = 1 ∨ Y i = -1) {C : K} (hC : 0 ≤ C) (eps : K) {tol : K} (htol : 0 ≤ tol) (maxPasses : ℕ)
    (draws : ℕ → Fin m → ℕ) (fuel : ℕ) (st : St m K) (h : loop (svcStep kern Y C eps tol) maxPasses draws fuel 0 0 (start m K) = .done st) (hk : SvcKkt kern Y C eps st.α st.b)
    (M : Model m K) (hM : svcModel Y tol st = some M) (i : Fin m) (hi : st.α i < C) (ht : tol * ∑ k, |kern i k| < 1 - eps) :
    svcPredict M (kern i) = if Y i = 1 then 1 else 0 := by
  obtain ⟨hbox, -⟩ := C37_train kern Y hY hC eps tol maxPasses draws fuel st h
  have hex : ∃ i, tol < st.α i := by
    by_contra hn
    push Not at hn
    rw [svcModel] at hM
    rw [if_pos] at hM
    · cases hM
    · rw [List.isEmpty_iff, List.filter_eq_nil_iff]
      intro a _
      simpa using hn a
  obtain ⟨M', e1, e2⟩ := C83_model_partial Y tol st hex
  rw [hM] at e1
  cases e1
  rw [e2]
  have hd := dropped (fun i => st.α i * Y i) (kern i) tol (fun i => tol < st.α i) (by
    intro k hk'
    rw [abs_mul, abs_of_nonneg (hbox k).1]
    have : |Y k| = 1 := by rcases hY k with g | g <;> rw [g] <;> simp
    rw [this, mul_one]
    exact not_lt.1 hk') htol
  rw [abs_le] at hd
  have hm := (hk i).1.mt (not_le.2 hi)
  have hsv : svcValue kern Y st.α st.b i = ∑ k, st.α k * Y k * kern i k + st.b := by
    rw [svcValue]
    congr 1
    exact Finset.sum_congr rfl (fun k _ => by rw [hsym k i])
  rw [hsv] at hm
  push Not at hm
  rcases hY i with g | g
  · rw [if_pos g, if_pos]
    rw [g] at hm
    linarith [hd.1]
  · have hg : ¬ Y i = 1 := by rw [g]; intro h; linarith
    rw [if_neg hg, if_neg]
    rw [g] at hm
    push Not
    linarith [hd.2]

/-! ## Regressor -/

/-- **C172** (partial as for the classifier). When training of a regressor ends, either all training samples more than `eps` off the curve have their multipliers at the bound, or the last `MaxIter` rounds changed nothing.
Missing for the full claim: what `C172_stuck_violated` refutes. -/
theorem C172_svr_partial (kern : Fin m → Fin m → K) (hsym : ∀ i j, kern i j = kern j i) (Y : Fin m → K) (C eps tol : K) (maxPasses : ℕ) (draws : ℕ → Fin m → ℕ)
    (fuel : ℕ) (st : St m K) (h : loop (svrStep kern Y C eps tol) maxPasses draws fuel 0 0 (start m K) = .done st) :
    SvrKkt kern Y C eps st.α st.b ∨ Stalled (svrStep kern Y C eps tol) draws maxPasses st := by
  have hck : ck kern = kern := by funext a b; exact ck_eq hsym a b
  refine loop_end (ok := fun α b i => (svrValue kern α b i < Y i - eps → C ≤ α i) ∧ (Y i + eps < svrValue kern α b i → α i ≤ -C)) ?_ ?_ ?_ maxPasses draws fuel 0 0 _ st (le_refl _)
    (by intro k hk; omega) h
  · intro s ir s' e
    rw [svrStep] at e
    simp only at e
    split at e
    · obtain ⟨j, -, e⟩ := Option.map_eq_some_iff.1 e
      left
      rw [← e, (svrUpdate_flags kern Y C eps tol _ ir.1 _).1]
    · rename_i hn
      right
      cases e
      refine ⟨rfl, ?_⟩
      push Not at hn
      have hv : fr kern s ir.1 = svrValue kern s.α s.b ir.1 := by
        rw [fr, svrValue, hck, add_comm]
      rw [hv] at hn
      exact ⟨fun h => hn.1 (by linarith), fun h => hn.2 (by linarith)⟩
  · intro s ir s' e h1
    rw [svrStep] at e
    simp only at e
    split at e
    · obtain ⟨j, -, e⟩ := Option.map_eq_some_iff.1 e
      rw [← e, (svrUpdate_flags kern Y C eps tol _ ir.1 _).1]
    · cases e; exact h1
  · intro s ir s' e
    rw [svrStep] at e
    simp only at e
    split at e
    · obtain ⟨j, -, e⟩ := Option.map_eq_some_iff.1 e
      rcases (svrUpdate_flags kern Y C eps tol { s with viol := true } ir.1 (svrPartner (fun i => fr kern s i - Y i) eps ir.1 j)).2 with g | g
      · rw [g] at e; rw [← e]; exact Or.inl ⟨rfl, rfl, rfl⟩
      · rw [e] at g; right; simp only at g; omega
    · cases e; exact Or.inl ⟨rfl, rfl, rfl⟩

/-- **C172.** Training samples are fitted: when training of a regressor has ended with the conditions met, the fitted model predicts every sample whose multiplier is strictly between `-C` and `C` up to `eps` and the
contribution of the multipliers dropped from the model. -/
theorem C172_svr_training (kern : Fin m → Fin m → K) (hsym : ∀ i j, kern i j = kern j i) (Y : Fin m → K) (C eps : K) {tol : K} (htol : 0 ≤ tol) (st : St m K) (hk : SvrKkt kern Y C eps st.α st.b)
    (M : Model m K) (hM : svrModel tol st = some M) (i : Fin m) (hi : -C < st.α i ∧ st.α i < C) : |svrPredict M (kern i) - Y i| ≤ eps + tol * ∑ k, |kern i k| := by
  have hex : ∃ i, tol < |st.α i| := by
    by_contra hn
    push Not at hn
    rw [(C85_model tol st).1 hn] at hM
    cases hM
  obtain ⟨M', e1, e2⟩ := (C85_model tol st).2 hex
  rw [hM] at e1
  cases e1
  rw [e2]
  have hd := dropped st.α (kern i) tol (fun i => tol < |st.α i|) (fun k hk' => not_lt.1 hk') htol
  have h1 := (hk i).1.mt (not_le.2 hi.2)
  have h2 := (hk i).2.mt (not_le.2 hi.1)
  have hsv : svrValue kern st.α st.b i = ∑ k, st.α k * kern i k + st.b := by
    rw [svrValue]
    congr 1
    exact Finset.sum_congr rfl (fun k _ => by rw [hsym k i])
  rw [hsv] at h1 h2
  push Not at h1 h2
  rw [abs_le] at hd ⊢
  exact ⟨by linarith [hd.1], by linarith [hd.2]⟩

/-! ## Training that does not reach the optimum -/

/-- Three points on a line, the first and the last equal with different labels. -/
def stuckX : Fin 3 → K := ![1, -1, 1]
/-- Their labels. -/
def stuckY : Fin 3 → K := ![1, -1, -1]

theorem stuck_step (eps tol : K) (h0 : 0 ≤ eps) (h1 : eps < 1) (ht : 0 < tol) (s s' : St 3 K) (ir : Fin 3 × ℕ) (h : (s.α = ![0, 0, 0] ∧ s.b = 0) ∨ (s.α = ![1 / 2, 1 / 2, 0] ∧ s.b = 0))
    (e : svcStep (fun i j => stuckX i * stuckX j) (stuckY (K := K)) 1 eps tol s ir = some s') : (s'.α = ![0, 0, 0] ∧ s'.b = 0) ∨ (s'.α = ![1 / 2, 1 / 2, 0] ∧ s'.b = 0) := by
  have hck : ck (fun i j => stuckX (K := K) i * stuckX j) = (fun i j => stuckX i * stuckX j) := by funext a b; exact ck_eq (fun i j => mul_comm _ _) a b
  obtain ⟨α, b, v, c⟩ := s
  simp only at h
  rw [svcStep] at e
  split at e
  · rename_i hv
    obtain ⟨j, hj, e⟩ := Option.map_eq_some_iff.1 e
    have hne := partner_ne hj
    obtain ⟨i, r⟩ := ir
    simp only at e hne hv
    clear hj
    rcases svcUpdate_cases (fun i j => stuckX i * stuckX j) (stuckY (K := K)) 1 tol ⟨α, b, true, c⟩ hne with g | g
    · rw [g] at e; rw [← e]; exact h
    · rw [e] at g
      obtain ⟨g1, g2, g3, g4, g5, -⟩ := g
      rw [hck] at g1 g3 g5
      simp only at g2 g3 g4 g5
      have hn : (1 : K) ≠ -1 := by intro h; linarith
      have hn' : (-1 : K) ≠ 1 := by intro h; linarith
      rcases h with ⟨rfl, rfl⟩ | ⟨rfl, rfl⟩
      · right
        fin_cases i <;> fin_cases j <;> first | exact absurd rfl hne | skip
        all_goals simp [f, stuckX, stuckY, Fin.sum_univ_three, hn, hn'] at g1 g2 g3 g4 g5
        all_goals try norm_num at g1
        all_goals try norm_num at g3
        · rw [g3] at g2 g5
          have h2 : s'.α = ![1 / 2, 1 / 2, 0] := by
            rw [g2]; funext k; fin_cases k <;> simp
          refine ⟨h2, ?_⟩
          rw [g5, h2]
          norm_num
        · rw [g3] at g2 g5
          have h2 : s'.α = ![1 / 2, 1 / 2, 0] := by
            rw [g2]; funext k; fin_cases k <;> simp
          refine ⟨h2, ?_⟩
          rw [g5, h2]
          norm_num
        · rw [g3] at g4; linarith
        · rw [g3] at g4; linarith
      · exfalso
        simp only [f, hck] at g3 hv
        fin_cases i <;> fin_cases j <;> first | exact absurd rfl hne | skip
        all_goals simp [stuckX, stuckY, Fin.sum_univ_three, hn, hn'] at g1 g3 g4 hv
        all_goals try norm_num at g1
        all_goals try norm_num at hv
        all_goals try norm_num at g3
        all_goals first
          | (rcases hv with hv | hv <;> linarith)
          | (rw [g3] at g4; linarith)
          | trace_state
  · cases e; exact h

/-- **C172 violated**: a step is accepted only if it raises the multiplier of the second sample (`alphas[j]-alphajold < Tol` without absolute value), so training can be stuck.  For these three samples, with `C = 1` and the linear kernel,
the conditions can be met exactly, but training ends without meeting them, whatever the random numbers, the tolerance and the number of passes. -/
theorem C172_stuck_violated [Archimedean K] (eps tol : K) (h0 : 0 ≤ eps) (h1 : eps < 1) (ht : 0 < tol) (maxPasses : ℕ) (draws : ℕ → Fin 3 → ℕ) :
    (∃ (α : Fin 3 → K) (b : K), (∀ i, 0 ≤ α i ∧ α i ≤ 1) ∧ ∑ i, α i * stuckY i = 0 ∧ SvcKkt (fun i j => stuckX i * stuckX j) stuckY 1 0 α b) ∧
    (∃ fuel st, loop (svcStep (fun i j => stuckX i * stuckX j) (stuckY (K := K)) 1 eps tol) maxPasses draws fuel 0 0 (start 3 K) = .done st) ∧
    ∀ fuel st, loop (svcStep (fun i j => stuckX i * stuckX j) (stuckY (K := K)) 1 eps tol) maxPasses draws fuel 0 0 (start 3 K) = .done st →
      ¬ SvcKkt (fun i j => stuckX i * stuckX j) stuckY 1 eps st.α st.b := by
  refine ⟨⟨![1, 0, 1], -1, ?_, ?_, ?_⟩, ?_, ?_⟩
  · intro i; fin_cases i <;> simp
  · simp [Fin.sum_univ_three, stuckY]
  · intro i
    fin_cases i <;> simp [svcValue, Fin.sum_univ_three, stuckX, stuckY]
  · refine C82_terminates (by norm_num) _ _ ?_ zero_le_one eps ht maxPasses draws
    intro i; fin_cases i <;> simp [stuckY]
  · intro fuel st h
    have := loop_inv (fun α b => (α = ![0, 0, 0] ∧ b = 0) ∨ (α = ![1 / 2, 1 / 2, 0] ∧ b = 0)) (fun s ir s' h2 h3 => stuck_step eps tol h0 h1 ht s s' ir h2 h3) fuel 0 0 _ st
      (Or.inl ⟨by funext k; fin_cases k <;> rfl, rfl⟩) h
    intro hk
    have h2 := (hk 2).1
    rcases this with ⟨a, b⟩ | ⟨a, b⟩
    · rw [a, b] at h2
      have := h2 (by simp [svcValue, Fin.sum_univ_three, stuckX, stuckY]; linarith)
      simp at this
      linarith
    · rw [a, b] at h2
      have := h2 (by simp [svcValue, Fin.sum_univ_three, stuckX, stuckY]; norm_num; linarith)
      simp at this
      linarith

/-- Training that ends with the conditions met, and the model. -/
example : (match loop (svcStep (K := ℚ) (fun i j => if i = j then 2 else 0) ![1, -1] 1 (1 / 10) (1 / 1000)) 3 (fun _ _ => 0) 5 0 0 (start 2 ℚ) with
    | .done st => decide (st.viol = false ∧ (svcModel ![1, -1] (1 / 1000) st).map (fun M => (svcPredict M ![2, 0], svcPredict M ![0, 2])) = some (1, 0))
    | _ => false) = true := by decide +kernel

/-! ## Rest: a state meeting the conditions is not changed -/

/-- **C172.** The conditions are also sufficient for rest: from multipliers and offset that meet them, a training run of the regressor ends after one round with the same multipliers and offset, whatever the draws. -/
theorem C172_svr_rest (kern : Fin m → Fin m → K) (hsym : ∀ i j, kern i j = kern j i) (Y : Fin m → K) (C eps tol : K) (maxPasses : ℕ) (draws : ℕ → Fin m → ℕ) (fuel t passes : ℕ) (st : St m K)
    (hk : SvrKkt kern Y C eps st.α st.b) : ∃ st', loop (svrStep kern Y C eps tol) maxPasses draws (fuel + 1) t passes st = .done st' ∧ st'.α = st.α ∧ st'.b = st.b := by
  have hck : ck kern = kern := by funext a b; exact ck_eq hsym a b
  have hstep : ∀ ir, svrStep kern Y C eps tol { st with viol := false, changed := 0 } ir = some { st with viol := false, changed := 0 } := by
    intro ir
    unfold svrStep
    refine if_neg ?_
    have hv : fr kern { st with viol := false, changed := 0 } ir.1 = svrValue kern st.α st.b ir.1 := by
      rw [fr, svrValue, hck, add_comm]
    simp only [hv]
    rintro (⟨h1, h2⟩ | ⟨h1, h2⟩)
    · exact absurd ((hk ir.1).1 (by linarith)) (not_le.2 h2)
    · exact absurd ((hk ir.1).2 (by linarith)) (not_le.2 h2)
  have hp : ∀ l : List (Fin m), l.foldlM (fun s i => svrStep kern Y C eps tol s (i, draws t i)) { st with viol := false, changed := 0 } = some { st with viol := false, changed := 0 } := by
    intro l
    induction l with
    | nil => rfl
    | cons i l ih => rw [List.foldlM_cons, hstep]; exact ih
  rw [loop]
  split
  · exact ⟨st, rfl, rfl, rfl⟩
  · rw [hp]
    exact ⟨_, rfl, rfl, rfl⟩

/-- **C172.** The same for the classifier. -/
theorem C172_svc_rest (kern : Fin m → Fin m → K) (hsym : ∀ i j, kern i j = kern j i) (Y : Fin m → K) (hY : ∀ i, Y i = 1 ∨ Y i = -1) (C eps tol : K) (maxPasses : ℕ) (draws : ℕ → Fin m → ℕ)
    (fuel t passes : ℕ) (st : St m K) (hk : SvcKkt kern Y C eps st.α st.b) :
    ∃ st', loop (svcStep kern Y C eps tol) maxPasses draws (fuel + 1) t passes st = .done st' ∧ st'.α = st.α ∧ st'.b = st.b := by
  have hck : ck kern = kern := by funext a b; exact ck_eq hsym a b
  have hstep : ∀ ir, svcStep kern Y C eps tol { st with viol := false, changed := 0 } ir = some { st with viol := false, changed := 0 } := by
    intro ir
    unfold svcStep
    refine if_neg ?_
    have hv : Y ir.1 * (f kern Y { st with viol := false, changed := 0 } ir.1 - Y ir.1) = Y ir.1 * svcValue kern Y st.α st.b ir.1 - 1 := by
      have h1 : Y ir.1 * Y ir.1 = 1 := by rcases hY ir.1 with g | g <;> rw [g] <;> ring
      rw [f, svcValue, hck]
      linear_combination -h1
    rw [hv]
    rintro (⟨h1, h2⟩ | ⟨h1, h2⟩)
    · exact absurd ((hk ir.1).1 (by linarith)) (not_le.2 h2)
    · exact absurd ((hk ir.1).2 (by linarith)) (not_le.2 h2)
  have hp : ∀ l : List (Fin m), l.foldlM (fun s i => svcStep kern Y C eps tol s (i, draws t i)) { st with viol := false, changed := 0 } = some { st with viol := false, changed := 0 } := by
    intro l
    induction l with
    | nil => rfl
    | cons i l ih => rw [List.foldlM_cons, hstep]; exact ih
  rw [loop]
  split
  · exact ⟨st, rfl, rfl, rfl⟩
  · rw [hp]
    exact ⟨_, rfl, rfl, rfl⟩

/-- **C172, a consequence that fails.** A regressor for targets none of which is further than `eps` from zero, for instance a constant small target, should predict zero; training ends at once without a support sample, and `Fit`
panics. -/
theorem C172_small_targets_violated (kern : Fin m → Fin m → K) (hsym : ∀ i j, kern i j = kern j i) (Y : Fin m → K) (C eps : K) {tol : K} (htol : 0 ≤ tol) (hY : ∀ i, |Y i| ≤ eps) (maxPasses : ℕ)
    (draws : ℕ → Fin m → ℕ) (fuel : ℕ) :
    ∃ st, loop (svrStep kern Y C eps tol) maxPasses draws (fuel + 1) 0 0 (start m K) = .done st ∧ (∀ i, svrValue kern st.α st.b i = 0) ∧ svrModel tol st = none := by
  have h0 : ∀ i, svrValue kern (start m K).α (start m K).b i = 0 := by
    intro i
    simp [svrValue, start]
  obtain ⟨st, e, ea, eb⟩ := C172_svr_rest kern hsym Y C eps tol maxPasses draws fuel 0 0 (start m K) (by
    intro i
    have := abs_le.1 (hY i)
    rw [h0]
    exact ⟨fun h => by linarith, fun h => by linarith⟩)
  refine ⟨st, e, ?_, (C85_model tol st).1 ?_⟩
  · rw [ea, eb]; exact h0
  · intro i
    rw [ea]
    simpa [start] using htol

/-- Targets at the edge of the tube. -/
example : (match loop (svrStep (K := ℚ) (fun i j => if i = j then 1 else 0) ![1 / 10, -(1 / 10)] 10 (1 / 10) (1 / 1000)) 3 (fun _ _ => 0) 5 0 0 (start 2 ℚ) with
    | .done st => decide (st.α 0 = 0 ∧ (svrModel (1 / 1000) st).isNone = true)
    | _ => false) = true := by decide +kernel

end Sk.Svm
