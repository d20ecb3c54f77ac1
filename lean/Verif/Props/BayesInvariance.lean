import Verif.Props.NaiveBayes
import Verif.Props.NaiveBayesPredict
import Mathlib.Algebra.BigOperators.Fin
import Mathlib.Tactic.Ring

/-! # C195: Gaussian naive Bayes does not depend on the order of rows and features, the origin and unit of the features, the unit of the weights and the names of the classes -/
set_option autoImplicit false

namespace Sk.NB

/-- Rows with the features permuted by `σ`, new feature `i` being `c i` times the old one plus `t i`. -/
noncomputable def moveRow {m : ℕ} (σ : Equiv.Perm (Fin m)) (c t : Fin m → ℝ) (x : List ℝ) : List ℝ := List.ofFn (fun i => c i * x.getD (σ i) 0 + t i)

/-- A sample with such features, a renamed class and the weight in another unit. -/
noncomputable def moveSample {m : ℕ} (σ : Equiv.Perm (Fin m)) (c t : Fin m → ℝ) (h : ℝ → ℝ) (r : ℝ) (s : Sample ℝ) : Sample ℝ := ⟨moveRow σ c t s.x, h s.y, r * s.w⟩

theorem wmean_perm {l l' : List (ℝ × ℝ)} (h : l.Perm l') : wmean l = wmean l' := by
  rw [wmean, wmean, (h.map _).sum_eq, (h.map Prod.snd).sum_eq]

theorem wvar_perm {l l' : List (ℝ × ℝ)} (h : l.Perm l') : wvar l = wvar l' := by
  rw [wvar, wvar, wmean_perm h, (h.map _).sum_eq, (h.map Prod.snd).sum_eq]

theorem wmean_move (l : List (ℝ × ℝ)) (hl : (l.map Prod.snd).sum ≠ 0) (c t : ℝ) {r : ℝ} (hr : 0 < r) :
    wmean (l.map (fun e => (c * e.1 + t, r * e.2))) = c * wmean l + t := by
  have h1 : ∀ l : List (ℝ × ℝ), (l.map (fun e => (r * e.2) * (c * e.1 + t))).sum = r * (c * (l.map (fun e => e.2 * e.1)).sum + t * (l.map Prod.snd).sum) := by
    intro l
    induction l with
    | nil => simp
    | cons a l ih => simp only [List.map_cons, List.sum_cons, ih]; ring
  have h2 : (l.map (fun e => r * e.2)).sum = r * (l.map Prod.snd).sum := List.sum_map_mul_left ..
  simp only [wmean, List.map_map, Function.comp_def]
  rw [h1, h2]
  have := hr.ne'
  field_simp

theorem wvar_move (l : List (ℝ × ℝ)) (hl : (l.map Prod.snd).sum ≠ 0) (c t : ℝ) {r : ℝ} (hr : 0 < r) :
    wvar (l.map (fun e => (c * e.1 + t, r * e.2))) = c ^ 2 * wvar l := by
  have h1 : ∀ (m : ℝ) (l : List (ℝ × ℝ)), (l.map (fun e => (r * e.2) * (c * e.1 + t - (c * m + t)) ^ 2)).sum = r * (c ^ 2 * (l.map (fun e => e.2 * (e.1 - m) ^ 2)).sum) := by
    intro m l
    induction l with
    | nil => simp
    | cons a l ih => simp only [List.map_cons, List.sum_cons, ih]; ring
  have h2 : (l.map (fun e => r * e.2)).sum = r * (l.map Prod.snd).sum := List.sum_map_mul_left ..
  rw [wvar, wmean_move l hl c t hr]
  simp only [wvar, List.map_map, Function.comp_def]
  rw [h1, h2]
  have := hr.ne'
  field_simp

theorem wvar_nonneg (l : List (ℝ × ℝ)) (h : ∀ e ∈ l, 0 ≤ e.2) : 0 ≤ wvar l := by
  apply div_nonneg <;> apply List.sum_nonneg
  · intro y hy
    obtain ⟨e, he, rfl⟩ := List.mem_map.1 hy
    exact mul_nonneg (h e he) (sq_nonneg _)
  · intro y hy
    obtain ⟨e, he, rfl⟩ := List.mem_map.1 hy
    exact h e he

theorem range_prod (n : ℕ) (f : ℕ → ℝ) : ((List.range n).map f).prod = ∏ i : Fin n, f i := by
  rw [← List.prod_ofFn]
  congr 1
  apply List.ext_getElem <;> simp

theorem moveRow_getD {m : ℕ} (σ : Equiv.Perm (Fin m)) (c t : Fin m → ℝ) (x : List ℝ) (i : Fin m) : (moveRow σ c t x).getD i 0 = c i * x.getD (σ i) 0 + t i := by
  simp [moveRow, List.getD_eq_getElem?_getD]

theorem feature_move {m : ℕ} (σ : Equiv.Perm (Fin m)) (c t : Fin m → ℝ) (h : ℝ → ℝ) (r : ℝ) (S : List (Sample ℝ)) (i : Fin m) :
    feature i (S.map (moveSample σ c t h r)) = (feature (σ i) S).map (fun e => (c i * e.1 + t i, r * e.2)) := by
  simp only [feature, List.map_map]
  apply List.map_congr_left
  intro s _
  simp only [Function.comp, moveSample, moveRow_getD]

theorem normalDensity_move (m v x : ℝ) {c : ℝ} (hc : 0 < c) (t : ℝ) (hv : 0 < v) : normalDensity (c * m + t) (c ^ 2 * v) (c * x + t) = c⁻¹ * normalDensity m v x := by
  have h1 : -((c * x + t - (c * m + t)) ^ 2) / (2 * (c ^ 2 * v)) = -((x - m) ^ 2) / (2 * v) := by
    field_simp
    ring
  have h2 : Real.sqrt (2 * Real.pi * (c ^ 2 * v)) = c * Real.sqrt (2 * Real.pi * v) := by
    rw [show 2 * Real.pi * (c ^ 2 * v) = c ^ 2 * (2 * Real.pi * v) by ring, Real.sqrt_mul (sq_nonneg c), Real.sqrt_sq hc.le]
  rw [normalDensity, normalDensity, h1, h2]
  have : Real.sqrt (2 * Real.pi * v) ≠ 0 := (Real.sqrt_pos.2 (by positivity)).ne'
  field_simp

/-- The first maximum of two lists of scores that differ by a positive factor. -/
theorem first_max_unique {l l' : List ℝ} {κ : ℝ} (hκ : 0 < κ) (h : l' = l.map (fun v => κ * v)) {i j : ℕ} (hi : i < l.length) (hj : j < l'.length)
    (h1 : ∀ v ∈ l, v ≤ l[i]) (h2 : ∀ (k : ℕ) (hk : k < l.length), k < i → l[k] < l[i]) (h3 : ∀ v ∈ l', v ≤ l'[j]) (h4 : ∀ (k : ℕ) (hk : k < l'.length), k < j → l'[k] < l'[j]) : i = j := by
  subst h
  have hj' : j < l.length := by simpa using hj
  simp only [List.getElem_map] at h3 h4
  rcases lt_trichotomy i j with hij | hij | hij
  · have a := h4 i (by simpa using hi) hij
    have b := h1 _ (List.getElem_mem hj')
    exact absurd (lt_of_mul_lt_mul_left a hκ.le) (not_lt.2 b)
  · exact hij
  · have a := h2 j hj' hij
    have b := h3 _ (List.mem_map.2 ⟨l[i], List.getElem_mem hi, rfl⟩)
    exact absurd (le_of_mul_le_mul_left b hκ) (not_le.2 a)

/-- **C195.** Let the training rows be put in any order, the features of all rows be permuted and shifted, the classes be renamed keeping their order, the weights be multiplied by a positive number, and
the features be brought to another common unit (to units of their own if `VarSmoothing` is 0). If the training rows have positive weights and the variances stored are positive (some feature not constant
and `VarSmoothing > 0`, or no feature constant within a class), then on every row the new model predicts the renamed class, and the same probabilities. -/
theorem C195_invariant {m : ℕ} (tol tol' vs : ℝ) (hvs : 0 ≤ vs) (S S' : List (Sample ℝ)) (hne : S ≠ []) (hm : 0 < m) (hw : ∀ s ∈ S, 0 < s.w)
    (hvar : (0 < vs ∧ ∃ j < m, 0 < wvar (feature j S)) ∨ ∀ s ∈ S, ∀ j < m, 0 < wvar (feature j (ofClass s.y S)))
    (σ : Equiv.Perm (Fin m)) (c t : Fin m → ℝ) (hc : ∀ i, 0 < c i) (hunit : vs = 0 ∨ ∀ i j, c i = c j) (h : ℝ → ℝ) (hh : StrictMono h) {r : ℝ} (hr : 0 < r)
    (hS : S'.Perm (S.map (moveSample σ c t h r))) :
    ∃ f f', fit tol vs none none m S = some f ∧ fit tol' vs none none m S' = some f' ∧ f'.classes = f.classes.map h ∧
      ∀ x : List ℝ, x.length = m →
        (∃ y, predict f x = some y ∧ predict f' (moveRow σ c t x) = some (h y)) ∧ predictProba f' (moveRow σ c t x) = predictProba f x ∧ predictLogProba f' (moveRow σ c t x) = predictLogProba f x := by
  have hne' : S' ≠ [] := by
    intro e
    rw [e] at hS
    have := hS.length_eq
    exact hne (List.length_eq_zero_iff.1 (by simpa using this.symm))
  have hw' : ∀ s ∈ S', 0 < s.w := by
    intro s hs
    obtain ⟨s0, hs0, rfl⟩ := List.mem_map.1 (hS.mem_iff.1 hs)
    exact mul_pos hr (hw s0 hs0)
  obtain ⟨f, mv, hf, hord, hcl, hpr, hle, ⟨jm, hjm, hmv⟩, hst⟩ := C45_fit tol vs m hm S hne hw
  obtain ⟨f', mv', hf', hord', hcl', hpr', hle', ⟨jm', hjm', hmv'⟩, hst'⟩ := C45_fit tol' vs m hm S' hne' hw'
  -- classes
  have hclasses : f'.classes = f.classes.map h := by
    have s2 : (f.classes.map h).Pairwise (· < ·) := by
      rw [List.pairwise_map]
      exact hord.imp (fun e => hh e)
    refine List.Perm.eq_of_pairwise (le := (· < ·)) (fun a b _ _ h1 h2 => absurd h1 (lt_asymm h2)) hord' s2 ((List.perm_ext_iff_of_nodup (hord'.imp ne_of_lt) (s2.imp ne_of_lt)).2 ?_)
    intro y
    rw [hcl', List.mem_map]
    constructor
    · rintro ⟨s, hs, rfl⟩
      obtain ⟨s0, hs0, rfl⟩ := List.mem_map.1 (hS.mem_iff.1 hs)
      exact ⟨s0.y, (hcl _).2 ⟨s0, hs0, rfl⟩, rfl⟩
    · rintro ⟨y0, hy0, rfl⟩
      obtain ⟨s0, hs0, rfl⟩ := (hcl _).1 hy0
      exact ⟨_, hS.mem_iff.2 (List.mem_map.2 ⟨s0, hs0, rfl⟩), rfl⟩
  have hof : ∀ y, (ofClass (h y) S').Perm ((ofClass y S).map (moveSample σ c t h r)) := by
    intro y
    refine (hS.filter _).trans (List.Perm.of_eq ?_)
    rw [List.filter_map, ofClass]
    congr 1
    apply List.filter_congr
    intro s _
    simp [moveSample, hh.injective.eq_iff]
  have hweight : ∀ A : List (Sample ℝ), weight (A.map (moveSample σ c t h r)) = r * weight A := by
    intro A
    simp only [weight, List.map_map]
    exact List.sum_map_mul_left ..
  have hweight' : ∀ A B : List (Sample ℝ), A.Perm B → weight A = weight B := fun A B e => (e.map _).sum_eq
  have hfeat : ∀ A B : List (Sample ℝ), A.Perm B → ∀ j, (feature j A).Perm (feature j B) := fun A B e j => e.map _
  have hcne : ∀ y ∈ f.classes, ofClass y S ≠ [] := by
    intro y hy
    obtain ⟨s, hs, rfl⟩ := (hcl y).1 hy
    exact List.ne_nil_of_mem (a := s) (List.mem_filter.2 ⟨hs, by simp⟩)
  have hcw : ∀ y ∈ f.classes, 0 < weight (ofClass y S) := fun y hy => weight_pos _ (hcne y hy) (fun s hs => hw s (List.mem_filter.1 hs).1)
  have hSw : 0 < weight S := weight_pos S hne hw
  have hprior : f'.prior = f.prior := by
    rw [hpr', hpr, hclasses, List.map_map]
    apply List.map_congr_left
    intro y hy
    simp only [Function.comp]
    rw [hweight' _ _ (hof y), hweight' _ _ hS, hweight, hweight, mul_div_mul_left _ _ hr.ne']
  have hmean : ∀ y ∈ f.classes, ∀ i : Fin m, wmean (feature i (ofClass (h y) S')) = c i * wmean (feature (σ i) (ofClass y S)) + t i := by
    intro y hy i
    rw [wmean_perm (hfeat _ _ (hof y) i), feature_move, wmean_move _ (by rw [feature_weight]; exact (hcw y hy).ne') _ _ hr]
  have hvarc : ∀ y ∈ f.classes, ∀ i : Fin m, wvar (feature i (ofClass (h y) S')) = c i ^ 2 * wvar (feature (σ i) (ofClass y S)) := by
    intro y hy i
    rw [wvar_perm (hfeat _ _ (hof y) i), feature_move, wvar_move _ (by rw [feature_weight]; exact (hcw y hy).ne') _ _ hr]
  have hvarS : ∀ i : Fin m, wvar (feature i S') = c i ^ 2 * wvar (feature (σ i) S) := by
    intro i
    rw [wvar_perm (hfeat _ _ hS i), feature_move, wvar_move _ (by rw [feature_weight]; exact hSw.ne') _ _ hr]
  have heps : ∀ i : Fin m, vs * mv' = c i ^ 2 * (vs * mv) := by
    intro i
    rcases hunit with h0 | h0
    · simp [h0]
    · have : mv' = c i ^ 2 * mv := by
        apply le_antisymm
        · have e := hvarS ⟨jm', hjm'⟩
          rw [hmv', e, h0 ⟨jm', hjm'⟩ i]
          exact mul_le_mul_of_nonneg_left (hle _ (σ ⟨jm', hjm'⟩).2) (sq_nonneg _)
        · have e := hvarS (σ.symm ⟨jm, hjm⟩)
          rw [Equiv.apply_symm_apply, h0 _ i] at e
          rw [hmv]
          simp only at e
          rw [← e]
          exact hle' _ (σ.symm ⟨jm, hjm⟩).2
      rw [this]; ring
  have hnn : ∀ j (A : List (Sample ℝ)), (∀ s ∈ A, 0 < s.w) → 0 ≤ wvar (feature j A) := by
    intro j A hA
    apply wvar_nonneg
    intro e he
    obtain ⟨s, hs, rfl⟩ := List.mem_map.1 he
    exact (hA s hs).le
  have hvpos : ∀ y ∈ f.classes, ∀ j < m, 0 < wvar (feature j (ofClass y S)) + vs * mv := by
    intro y hy j hj
    have h1 := hnn j (ofClass y S) (fun s hs => hw s (List.mem_filter.1 hs).1)
    have hmv0 : 0 ≤ mv := hmv ▸ hnn jm S hw
    rcases hvar with ⟨hv, j0, hj0, h0⟩ | hv
    · have := mul_pos hv (lt_of_lt_of_le h0 (hle j0 hj0))
      linarith
    · obtain ⟨s, hs, rfl⟩ := (hcl y).1 hy
      have := hv s hs j hj
      have := mul_nonneg hvs hmv0
      linarith
  -- both models are usable
  have hfne : f.classes ≠ [] := by
    obtain ⟨s, hs⟩ := List.exists_mem_of_ne_nil S hne
    exact List.ne_nil_of_mem ((hcl s.y).2 ⟨s, hs, rfl⟩)
  have hu : Usable f m := by
    refine ⟨hfne, by rw [hst]; simp, by rw [hpr]; simp, ?_, ?_, ?_⟩
    · intro q hq
      rw [hpr] at hq
      obtain ⟨y, hy, rfl⟩ := List.mem_map.1 hq
      exact div_pos (hcw y hy) hSw
    · intro s hs
      rw [hst] at hs
      obtain ⟨y, hy, rfl⟩ := List.mem_map.1 hs
      simp
    · intro s hs v hv
      rw [hst] at hs
      obtain ⟨y, hy, rfl⟩ := List.mem_map.1 hs
      obtain ⟨j, hj, rfl⟩ := List.mem_map.1 hv
      exact hvpos y hy j (List.mem_range.1 hj)
  have hu' : Usable f' m := by
    refine ⟨by rw [hclasses]; simpa using hfne, by rw [hst']; simp, by rw [hpr']; simp, by rw [hprior]; exact hu.prior_pos, ?_, ?_⟩
    · intro s hs
      rw [hst'] at hs
      obtain ⟨y, hy, rfl⟩ := List.mem_map.1 hs
      simp
    · intro s hs v hv
      rw [hst', hclasses] at hs
      obtain ⟨y', hy', rfl⟩ := List.mem_map.1 hs
      obtain ⟨y, hy, rfl⟩ := List.mem_map.1 hy'
      obtain ⟨j, hj, rfl⟩ := List.mem_map.1 hv
      have hj := List.mem_range.1 hj
      rw [heps ⟨j, hj⟩, hvarc y hy ⟨j, hj⟩, ← mul_add]
      exact mul_pos (pow_pos (hc _) 2) (hvpos y hy _ (σ ⟨j, hj⟩).2)
  refine ⟨f, f', hf, hf', hclasses, ?_⟩
  intro x hx
  have hx' : (moveRow σ c t x).length = m := by simp [moveRow]
  set κ : ℝ := ∏ i, (c i)⁻¹ with hκ
  have hκ0 : 0 < κ := Finset.prod_pos (fun i _ => inv_pos.2 (hc i))
  have hjoints : joints f' (moveRow σ c t x) = (joints f x).map (fun v => κ * v) := by
    rw [joints, joints, hst', hst, hprior, hpr, hclasses, List.map_map, List.zipWith_map, List.zipWith_map, List.map_zipWith]
    have : ∀ l : List ℝ, (∀ y ∈ l, y ∈ f.classes) → List.zipWith (fun a b => joint (weight (ofClass a S) / weight S) (((fun c => (⟨weight (ofClass c S'), (List.range m).map (fun j => wmean (feature j (ofClass c S'))),
          (List.range m).map (fun j => wvar (feature j (ofClass c S')) + vs * mv')⟩ : Stat ℝ)) ∘ h) b).mu (((fun c => (⟨weight (ofClass c S'), (List.range m).map (fun j => wmean (feature j (ofClass c S'))),
          (List.range m).map (fun j => wvar (feature j (ofClass c S')) + vs * mv')⟩ : Stat ℝ)) ∘ h) b).va (moveRow σ c t x)) l l =
        List.zipWith (fun a b => κ * joint (weight (ofClass a S) / weight S) ((List.range m).map (fun j => wmean (feature j (ofClass b S))))
          ((List.range m).map (fun j => wvar (feature j (ofClass b S)) + vs * mv)) x) l l := by
      intro l hl
      induction l with
      | nil => rfl
      | cons y l ih =>
        rw [List.forall_mem_cons] at hl
        rw [List.zipWith_cons_cons, List.zipWith_cons_cons, ih hl.2]
        congr 1
        have hy := hl.1
        simp only [joint, hx, hx', Function.comp]
        rw [range_prod, range_prod]
        have hg : ∀ (F : ℕ → ℝ) (i : Fin m), ((List.range m).map F).getD i 0 = F i := by
          intro F i
          simp [List.getD_eq_getElem?_getD]
        have : ∀ i : Fin m, normalDensity (((List.range m).map (fun j => wmean (feature j (ofClass (h y) S')))).getD i 0) (((List.range m).map (fun j => wvar (feature j (ofClass (h y) S')) + vs * mv')).getD i 0)
            ((moveRow σ c t x).getD i 0) = (c i)⁻¹ * normalDensity (((List.range m).map (fun j => wmean (feature j (ofClass y S)))).getD (σ i) 0)
              (((List.range m).map (fun j => wvar (feature j (ofClass y S)) + vs * mv)).getD (σ i) 0) (x.getD (σ i) 0) := by
          intro i
          rw [hg, hg, hg, hg, moveRow_getD, hmean y hy, hvarc y hy, heps i, ← mul_add, normalDensity_move _ _ _ (hc i) _ (hvpos y hy _ (σ i).2)]
        simp only [this]
        rw [Finset.prod_mul_distrib, ← hκ, Equiv.prod_comp σ (fun i : Fin m => normalDensity (((List.range m).map (fun j => wmean (feature j (ofClass y S)))).getD i 0)
              (((List.range m).map (fun j => wvar (feature j (ofClass y S)) + vs * mv)).getD i 0) (x.getD i 0))]
        ring
    exact this f.classes (fun y hy => hy)
  rw [← hx] at hu
  rw [← hx'] at hu'
  obtain ⟨i, hi, hil, e1, hlen, m1, m2⟩ := C87_predict f x hu
  obtain ⟨j, hj, hjl, e2, hlen', m3, m4⟩ := C87_predict f' (moveRow σ c t x) hu'
  have hij := first_max_unique hκ0 hjoints hil hjl m1 m2 m3 m4
  subst hij
  have hsum : (joints f' (moveRow σ c t x)).sum = κ * (joints f x).sum := by
    rw [hjoints, List.sum_map_mul_left, List.map_id']
  refine ⟨⟨_, e1, ?_⟩, ?_, ?_⟩
  · rw [e2]
    simp only [hclasses, List.getElem_map]
  · rw [(C87_proba f' _ hu').1, (C87_proba f _ hu).1, hsum, hjoints, List.map_map]
    apply List.map_congr_left
    intro v _
    exact mul_div_mul_left _ _ hκ0.ne'
  · rw [(C87_proba f' _ hu').2, (C87_proba f _ hu).2, hsum, hjoints, List.map_map]
    apply List.map_congr_left
    intro v _
    simp only [Function.comp, mul_div_mul_left _ _ hκ0.ne']

/-- Four weighted samples of two classes with two features; exchanged features, other origins, another unit, renamed classes, doubled weights, reversed rows. -/
example : ∃ (S S' : List (Sample ℝ)) (σ : Equiv.Perm (Fin 2)) (c t : Fin 2 → ℝ) (h : ℝ → ℝ), S ≠ [] ∧ (∀ s ∈ S, 0 < s.w) ∧ (∃ j < 2, 0 < wvar (feature j S)) ∧ (∀ i, 0 < c i) ∧ (∀ i j, c i = c j) ∧ StrictMono h ∧
    S'.Perm (S.map (moveSample σ c t h 2)) ∧ σ ≠ 1 ∧ S' ≠ S := by
  refine ⟨[⟨[1, 7], 1, 1⟩, ⟨[9, 7], 5, 1⟩, ⟨[1, 3], 1, 2⟩, ⟨[8, 2], 5, 1⟩], _, Equiv.swap 0 1, fun _ => 3, fun i => i.1, fun y => y + 1, by simp, ?_, ⟨0, by norm_num, ?_⟩, by simp, by simp, fun a b hab => by simpa using hab,
    List.reverse_perm _, ?_, ?_⟩
  · intro s hs
    simp only [List.mem_cons, List.not_mem_nil, or_false] at hs
    rcases hs with rfl | rfl | rfl | rfl <;> norm_num
  · norm_num [wvar, wmean, feature]
  · intro e
    have := congrArg (fun τ : Equiv.Perm (Fin 2) => τ 0) e
    simp at this
  · intro e
    have := congrArg (fun l => (l.map Sample.w)) e
    simp [moveSample] at this

end Sk.NB
