import Verif.Model.GprClone
import Verif.Props.GprTheta
import Mathlib.Tactic.Tauto

/-!
# C170: clones of Gaussian process regressors

What a regressor is, for its methods: the two kernels, the values of `Alpha` and the training data (`GView`).
-/
set_option autoImplicit false

namespace Sk.GP

/-- What the methods of a regressor read. -/
structure GView (d q : ℕ) where
  kernel : Kern
  kernelOpt : Kern
  alpha : List ℝ
  train : Option (Σ n : ℕ, (Fin n → Fin d → ℝ) × (Fin n → Fin q → ℝ))

/-- The view of regressor `j`, if it exists. -/
def gview {d q : ℕ} (st : GState d q) (j : ℕ) : Option (GView d q) :=
  (st.objs[j]?).bind fun o => (st.heap[o.alpha]?).map fun a => ⟨o.kernel, o.kernelOpt, a, o.train⟩

/-- The regressor an operation is called on. -/
def GOp.target {d q : ℕ} : GOp d q → Option ℕ
  | .new _ => none
  | .clone _ => none
  | .fit i _ _ => some i
  | .setAlpha i _ => some i
  | .writeAlpha i _ _ => some i
  | .setKernel i _ => some i

/-- Writes to an element of an existing `Alpha`. -/
def GOp.writes {d q : ℕ} : GOp d q → Bool
  | .writeAlpha _ _ _ => true
  | _ => false

/-- No exponentiation, and the second operand of every sum and product has a free hyperparameter. -/
def Copies : Kern → Prop
  | .sum k₁ k₂ => Copies k₁ ∧ Copies k₂ ∧ 0 < nfree k₂
  | .prod k₁ k₂ => Copies k₁ ∧ Copies k₂ ∧ 0 < nfree k₂
  | .exp _ _ => False
  | _ => True

/-- Every slice a regressor holds exists. -/
def GInv {d q : ℕ} (st : GState d q) : Prop := ∀ (j : ℕ) o, st.objs[j]? = some o → o.alpha < st.heap.length

theorem copies_noExp {k : Kern} (h : Copies k) : NoExp k := by
  induction k with
  | sum k₁ k₂ h₁ h₂ => exact ⟨h₁ h.1, h₂ h.2.1⟩
  | prod k₁ k₂ h₁ h₂ => exact ⟨h₁ h.1, h₂ h.2.1⟩
  | exp k p _ => exact absurd h id
  | _ => trivial

theorem setFree_self (hs : List Hyper) (hp : ∀ h ∈ hs, h.2 = false → 0 < h.1) : setFree hs (thetaOf hs) = some hs := by
  induction hs with
  | nil => rfl
  | cons a hs ih =>
    obtain ⟨v, f⟩ := a
    have ih' := ih (fun h hm => hp h (List.mem_cons_of_mem _ hm))
    cases f with
    | true =>
      have : thetaOf ((v, true) :: hs) = thetaOf hs := rfl
      rw [this]
      cases ht : thetaOf hs with
      | nil => rfl
      | cons t ts =>
        rw [ht] at ih'
        simp only [setFree, ih', Option.bind_eq_bind, Option.bind_some]
    | false =>
      have : thetaOf ((v, false) :: hs) = Real.log v :: thetaOf hs := rfl
      rw [this]
      simp only [setFree, ih', Option.bind_eq_bind, Option.bind_some, Real.exp_log (hp (v, false) List.mem_cons_self rfl)]

/-- Cloning a kernel with its own `Theta()`. -/
theorem selfClone_eq (k : Kern) (hk : Copies k) (hp : FreePos k) : k.clone (thetaOf (params k)) = some k := by
  induction k with
  | const h => simp only [Kern.clone, params, setFree_self [h] hp]; rfl
  | white h => simp only [Kern.clone, params, setFree_self [h] hp]; rfl
  | rbf ls => simp only [Kern.clone, params, setFree_self ls hp]; rfl
  | dot h => simp only [Kern.clone, params, setFree_self [h] hp]; rfl
  | sum k₁ k₂ i₁ i₂ =>
    have h1 := theta_eq (copies_noExp hk.1)
    have h2 := theta_eq (copies_noExp hk.2.1)
    have e1 := i₁ hk.1 (fun h hm => hp h (List.mem_append_left _ hm))
    have e2 := i₂ hk.2.1 (fun h hm => hp h (List.mem_append_right _ hm))
    have h0 : 0 < (thetaOf (params k₂)).length := by rw [thetaOf_length]; exact hk.2.2
    simp only [Kern.clone, params, thetaOf_append, h1, h2, Option.bind_eq_bind, Option.bind_some, List.length_append]
    rw [if_neg (by omega), List.take_left, List.drop_left, List.take_length, e1, e2]
    rfl
  | prod k₁ k₂ i₁ i₂ =>
    have h1 := theta_eq (copies_noExp hk.1)
    have h2 := theta_eq (copies_noExp hk.2.1)
    have e1 := i₁ hk.1 (fun h hm => hp h (List.mem_append_left _ hm))
    have e2 := i₂ hk.2.1 (fun h hm => hp h (List.mem_append_right _ hm))
    have h0 : 0 < (thetaOf (params k₂)).length := by rw [thetaOf_length]; exact hk.2.2
    simp only [Kern.clone, params, thetaOf_append, h1, h2, Option.bind_eq_bind, Option.bind_some, List.length_append]
    rw [if_neg (by omega), List.take_left, List.drop_left, List.take_length, e1, e2]
    rfl
  | exp k p _ => exact absurd hk id

theorem getElem?_set_ne' {α : Type} (l : List α) (i j : ℕ) (x : α) (h : i ≠ j) : (l.set i x)[j]? = l[j]? := by
  rw [List.getElem?_set]; simp [h]

theorem ginv_step {d q : ℕ} {st st' : GState d q} {op : GOp d q} (hi : GInv st) (h : gstep st op = some st') : GInv st' := by
  have key : ∀ (objs : List (GObj d q)) (i : ℕ) (o : GObj d q) (n : ℕ), (∀ (j : ℕ) o, objs[j]? = some o → o.alpha < n) → o.alpha < n →
      ∀ (j : ℕ) o', (objs.set i o)[j]? = some o' → o'.alpha < n := by
    intro objs i o n h1 h2 j o' h3
    rw [List.getElem?_set] at h3
    split at h3
    · split at h3
      · cases h3; exact h2
      · cases h3
    · exact h1 j o' h3
  cases op with
  | new k =>
    cases h
    intro j o hj
    rw [List.getElem?_append] at hj
    simp only [List.length_append, List.length_singleton]
    split at hj
    · have := hi j o hj; omega
    · rename_i hlt
      rcases Nat.eq_zero_or_pos (j - st.objs.length) with h0 | h0
      · rw [h0] at hj; cases hj; simp
      · rw [List.getElem?_eq_none (by rw [List.length_singleton]; exact h0)] at hj; cases hj
  | clone i =>
    obtain ⟨o, ho, h⟩ := Option.bind_eq_some_iff.1 h
    obtain ⟨c, hc, e⟩ := Option.map_eq_some_iff.1 h
    obtain ⟨k, _, hc⟩ := Option.bind_eq_some_iff.1 hc
    obtain ⟨k', _, hc⟩ := Option.map_eq_some_iff.1 hc
    subst e
    intro j o' hj
    change (st.objs ++ [c])[j]? = some o' at hj
    change o'.alpha < st.heap.length
    rw [List.getElem?_append] at hj
    split at hj
    · exact hi j o' hj
    · rcases Nat.eq_zero_or_pos (j - st.objs.length) with h0 | h0
      · rw [h0] at hj; cases hj; rw [← hc]; exact hi i o ho
      · rw [List.getElem?_eq_none (by rw [List.length_singleton]; exact h0)] at hj; cases hj
  | fit i X Y =>
    obtain ⟨o, ho, h⟩ := Option.bind_eq_some_iff.1 h
    obtain ⟨a, ha, h⟩ := Option.bind_eq_some_iff.1 h
    split at h
    · cases h
    · cases h
      exact key _ _ _ _ hi (hi i o ho)
  | setAlpha i l =>
    obtain ⟨o, ho, e⟩ := Option.map_eq_some_iff.1 h
    subst e
    refine key _ _ _ _ (fun j o' hj => ?_) ?_
    · have := hi j o' hj
      simp only [List.length_append, List.length_singleton]; omega
    · simp
  | writeAlpha i p v =>
    obtain ⟨o, ho, h⟩ := Option.bind_eq_some_iff.1 h
    obtain ⟨a, ha, h⟩ := Option.bind_eq_some_iff.1 h
    split at h
    · cases h
      intro j o' hj
      simpa using hi j o' hj
    · cases h
  | setKernel i k =>
    obtain ⟨o, ho, e⟩ := Option.map_eq_some_iff.1 h
    subst e
    exact key _ _ _ _ hi (hi i o ho)

theorem ginv_run {d q : ℕ} (ops : List (GOp d q)) : ∀ {st st' : GState d q}, GInv st → grun st ops = some st' → GInv st' := by
  induction ops with
  | nil => intro st st' hi h; cases h; exact hi
  | cons op ops ih =>
    intro st st' hi h
    unfold grun at h
    rw [List.foldlM_cons, Option.bind_eq_bind] at h
    obtain ⟨st1, h1, h2⟩ := Option.bind_eq_some_iff.1 h
    exact ih (ginv_step hi h1) h2

/-- **C170** (partial: kernels without exponentiation, in whose sums and products the second operand has a free hyperparameter, with positive free values).  After any
calls, `PredicterClone` succeeds and the clone has the kernels, the values of `Alpha` and the training data of its original; every regressor stays as it was.  Missing: other
kernels, `C170_exponent_violated` and `C170_fixed_operand_violated`. -/
theorem C170_clone_partial {d q : ℕ} (ops : List (GOp d q)) (st : GState d q) (h : grun ⟨[], []⟩ ops = some st) (i : ℕ) (v : GView d q) (hv : gview st i = some v)
    (h1 : Copies v.kernel) (h2 : Copies v.kernelOpt) (h3 : FreePos v.kernel) (h4 : FreePos v.kernelOpt) :
    ∃ st', gstep st (.clone i) = some st' ∧ st'.objs.length = st.objs.length + 1 ∧ gview st' st.objs.length = some v ∧ ∀ j w, gview st j = some w → gview st' j = some w := by
  unfold gview at hv
  obtain ⟨o, ho, hv⟩ := Option.bind_eq_some_iff.1 hv
  obtain ⟨a, ha, hv⟩ := Option.map_eq_some_iff.1 hv
  subst hv
  have e1 : o.kernel.selfClone = some o.kernel := by
    unfold Kern.selfClone
    rw [theta_eq (copies_noExp h1)]
    exact selfClone_eq _ h1 h3
  have e2 : o.kernelOpt.selfClone = some o.kernelOpt := by
    unfold Kern.selfClone
    rw [theta_eq (copies_noExp h2)]
    exact selfClone_eq _ h2 h4
  have hc : o.clone = some o := by
    unfold GObj.clone
    rw [e1, e2]
    rfl
  refine ⟨{ st with objs := st.objs ++ [o] }, ?_, by simp, ?_, ?_⟩
  · change (st.objs[i]?).bind _ = _
    rw [ho, Option.bind_some, hc]
    rfl
  · unfold gview
    simp [ha]
  · intro j w hw
    unfold gview at hw ⊢
    obtain ⟨o', ho', hw⟩ := Option.bind_eq_some_iff.1 hw
    change ((st.objs ++ [o])[j]?).bind _ = _
    rw [List.getElem?_append_left (List.getElem?_eq_some_iff.1 ho').1, ho']
    exact hw

/-- **C170**. No call on other regressors changes a regressor, clone or original, except writing an element of an `Alpha` slice. -/
theorem C170_isolated {d q : ℕ} (ops : List (GOp d q)) (st : GState d q) (h : grun ⟨[], []⟩ ops = some st) (later : List (GOp d q)) (st' : GState d q) (h' : grun st later = some st')
    (j : ℕ) (v : GView d q) (hv : gview st j = some v) (ht : ∀ op ∈ later, op.target ≠ some j) (hw : ∀ op ∈ later, op.writes = false) : gview st' j = some v := by
  have hi : GInv st := ginv_run ops (by intro j o hj; simp at hj) h
  clear h
  induction later generalizing st with
  | nil => cases h'; exact hv
  | cons op later ih =>
    unfold grun at h'
    rw [List.foldlM_cons, Option.bind_eq_bind] at h'
    obtain ⟨st1, h1, h2⟩ := Option.bind_eq_some_iff.1 h'
    refine ih st1 h2 ?_ (fun op' hm => ht op' (List.mem_cons_of_mem _ hm)) (fun op' hm => hw op' (List.mem_cons_of_mem _ hm)) (ginv_step hi h1)
    have htj := ht op List.mem_cons_self
    have hwj := hw op List.mem_cons_self
    unfold gview at hv
    obtain ⟨oj, hoj, hv⟩ := Option.bind_eq_some_iff.1 hv
    obtain ⟨aj, haj, hv⟩ := Option.map_eq_some_iff.1 hv
    have hjlt := (List.getElem?_eq_some_iff.1 hoj).1
    have halt := (List.getElem?_eq_some_iff.1 haj).1
    cases op with
    | new k =>
      cases h1
      unfold gview
      change ((st.objs ++ _)[j]?).bind _ = _
      rw [List.getElem?_append_left hjlt, hoj, Option.bind_some]
      change ((st.heap ++ _)[oj.alpha]?).map _ = _
      rw [List.getElem?_append_left halt, haj]
      exact congrArg some hv
    | clone i =>
      obtain ⟨o, ho, h1⟩ := Option.bind_eq_some_iff.1 h1
      obtain ⟨c, hc, e⟩ := Option.map_eq_some_iff.1 h1
      subst e
      unfold gview
      change ((st.objs ++ _)[j]?).bind _ = _
      rw [List.getElem?_append_left hjlt, hoj, Option.bind_some]
      change (st.heap[oj.alpha]?).map _ = _
      rw [haj]
      exact congrArg some hv
    | fit i X Y =>
      have hij : i ≠ j := fun e => htj (by rw [e]; rfl)
      obtain ⟨o, ho, h1⟩ := Option.bind_eq_some_iff.1 h1
      obtain ⟨a, ha, h1⟩ := Option.bind_eq_some_iff.1 h1
      split at h1
      · cases h1
      · cases h1
        unfold gview
        change ((st.objs.set i _)[j]?).bind _ = _
        rw [getElem?_set_ne' _ _ _ _ hij, hoj, Option.bind_some]
        change (st.heap[oj.alpha]?).map _ = _
        rw [haj]
        exact congrArg some hv
    | setAlpha i l =>
      have hij : i ≠ j := fun e => htj (by rw [e]; rfl)
      obtain ⟨o, ho, e⟩ := Option.map_eq_some_iff.1 h1
      subst e
      unfold gview
      change ((st.objs.set i _)[j]?).bind _ = _
      rw [getElem?_set_ne' _ _ _ _ hij, hoj, Option.bind_some]
      change ((st.heap ++ _)[oj.alpha]?).map _ = _
      rw [List.getElem?_append_left halt, haj]
      exact congrArg some hv
    | writeAlpha i p x => cases hwj
    | setKernel i k =>
      have hij : i ≠ j := fun e => htj (by rw [e]; rfl)
      obtain ⟨o, ho, e⟩ := Option.map_eq_some_iff.1 h1
      subst e
      unfold gview
      change ((st.objs.set i _)[j]?).bind _ = _
      rw [getElem?_set_ne' _ _ _ _ hij, hoj, Option.bind_some]
      change (st.heap[oj.alpha]?).map _ = _
      rw [haj]
      exact congrArg some hv

/-- **C170**. What the calls do to the regressor they are called on, after any calls: a new regressor has the kernel twice and an `Alpha` of its own, `[1e-10]`; a fit is accepted exactly for one
alpha or one per output and replaces the training data and nothing else; assigning `Alpha` gives a slice of its own; writing to an element of it changes that element; assigning the kernel leaves the optimised
kernel. -/
theorem C170_calls {d q : ℕ} (ops : List (GOp d q)) (st : GState d q) (h : grun ⟨[], []⟩ ops = some st) :
    (∀ k, ∃ st', gstep st (.new k) = some st' ∧ gview st' st.objs.length = some ⟨k, k, [1e-10], none⟩ ∧
      ∀ p x st'', gstep st' (.writeAlpha st.objs.length p x) = some st'' → ∀ j v, gview st j = some v → gview st'' j = some v) ∧
    ∀ i v, gview st i = some v →
      (∀ (n : ℕ) (X : Fin n → Fin d → ℝ) (Y : Fin n → Fin q → ℝ), if v.alpha.length = 1 ∨ v.alpha.length = q then
        ∃ st', gstep st (.fit i X Y) = some st' ∧ gview st' i = some { v with train := some ⟨n, X, Y⟩ } else gstep st (.fit i X Y) = none) ∧
      (∀ l, ∃ st', gstep st (.setAlpha i l) = some st' ∧ gview st' i = some { v with alpha := l } ∧
        ∀ p x st'', gstep st' (.writeAlpha i p x) = some st'' → ∀ j w, j ≠ i → gview st j = some w → gview st'' j = some w) ∧
      (∀ p x, if p < v.alpha.length then ∃ st' a, gstep st (.writeAlpha i p x) = some st' ∧ gview st' i = some { v with alpha := a } ∧ a.length = v.alpha.length ∧ a[p]? = some x ∧
        (∀ r, r ≠ p → a[r]? = v.alpha[r]?) else gstep st (.writeAlpha i p x) = none) ∧
      ∀ k, ∃ st', gstep st (.setKernel i k) = some st' ∧ gview st' i = some { v with kernel := k } := by
  have hi : GInv st := ginv_run ops (by intro j o hj; simp at hj) h
  refine ⟨fun k => ⟨_, rfl, ?_, ?_⟩, ?_⟩
  · simp [gview]
  · intro p x st'' hw j v hv
    unfold gview at hv
    obtain ⟨oj, hoj, hv⟩ := Option.bind_eq_some_iff.1 hv
    obtain ⟨aj, haj, hv⟩ := Option.map_eq_some_iff.1 hv
    have hjlt := (List.getElem?_eq_some_iff.1 hoj).1
    have halt := (List.getElem?_eq_some_iff.1 haj).1
    obtain ⟨o, ho, hw⟩ := Option.bind_eq_some_iff.1 hw
    obtain ⟨a, ha, hw⟩ := Option.bind_eq_some_iff.1 hw
    have hoe : o.alpha = st.heap.length := by
      simp at ho; rw [← ho]
    split at hw
    · cases hw
      unfold gview
      change ((st.objs ++ _)[j]?).bind _ = _
      rw [List.getElem?_append_left hjlt, hoj, Option.bind_some]
      change (((st.heap ++ _).set o.alpha _)[oj.alpha]?).map _ = _
      rw [getElem?_set_ne' _ _ _ _ (by omega), List.getElem?_append_left halt, haj]
      exact congrArg some hv
    · cases hw
  · intro i v hv
    unfold gview at hv
    obtain ⟨o, ho, hv⟩ := Option.bind_eq_some_iff.1 hv
    obtain ⟨a, ha, hv⟩ := Option.map_eq_some_iff.1 hv
    subst hv
    have hlt := (List.getElem?_eq_some_iff.1 ho).1
    have halt := (List.getElem?_eq_some_iff.1 ha).1
    refine ⟨fun n X Y => ?_, fun l => ?_, fun p x => ?_, fun k => ?_⟩
    · have e : gstep st (.fit i X Y) = if a.length ≠ 1 ∧ a.length ≠ q then none else some { st with objs := st.objs.set i { o with train := some ⟨n, X, Y⟩ } } := by
        simp only [gstep, ho, ha, Option.bind_some]
      rw [e]
      by_cases hc : a.length = 1 ∨ a.length = q
      · rw [if_pos hc, if_neg (by tauto)]
        refine ⟨_, rfl, ?_⟩
        simp [gview, hlt, ha]
      · rw [if_neg hc, if_pos (by tauto)]
    · have e : gstep st (.setAlpha i l) = some ⟨st.objs.set i { o with alpha := st.heap.length }, st.heap ++ [l]⟩ := by
        simp only [gstep, ho, Option.map_some]
      refine ⟨_, e, by simp [gview, hlt], ?_⟩
      intro p x st'' hw j w hj hv
      unfold gview at hv
      obtain ⟨oj, hoj, hv⟩ := Option.bind_eq_some_iff.1 hv
      obtain ⟨aj, haj, hv⟩ := Option.map_eq_some_iff.1 hv
      have hjlt := (List.getElem?_eq_some_iff.1 hoj).1
      have hal' := (List.getElem?_eq_some_iff.1 haj).1
      obtain ⟨o', ho', hw⟩ := Option.bind_eq_some_iff.1 hw
      obtain ⟨a', ha', hw⟩ := Option.bind_eq_some_iff.1 hw
      have hoe : o'.alpha = st.heap.length := by
        simp [hlt] at ho'; rw [← ho']
      split at hw
      · cases hw
        unfold gview
        change ((st.objs.set i _)[j]?).bind _ = _
        rw [getElem?_set_ne' _ _ _ _ (Ne.symm hj), hoj, Option.bind_some]
        change (((st.heap ++ _).set o'.alpha _)[oj.alpha]?).map _ = _
        rw [getElem?_set_ne' _ _ _ _ (by omega), List.getElem?_append_left hal', haj]
        exact congrArg some hv
      · cases hw
    · have e : gstep st (.writeAlpha i p x) = if p < a.length then some { st with heap := st.heap.set o.alpha (a.set p x) } else none := by
        simp only [gstep, ho, ha, Option.bind_some]
      rw [e]
      by_cases hc : p < a.length
      · rw [if_pos hc, if_pos hc]
        refine ⟨_, a.set p x, rfl, ?_, by simp, by simp [hc], fun r hr => getElem?_set_ne' _ _ _ _ (Ne.symm hr)⟩
        simp [gview, ho, halt]
      · rw [if_neg hc, if_neg hc]
    · have e : gstep st (.setKernel i k) = some { st with objs := st.objs.set i { o with kernel := k } } := by
        simp only [gstep, ho, Option.map_some]
      exact ⟨_, e, by simp [gview, hlt, ha]⟩

/-- **C170** violated by `Alpha`: original and clone hold one slice, so writing an element of it through the one changes the other. -/
theorem C170_alpha_violated {d q : ℕ} (k : Kern) (h1 : Copies k) (h2 : FreePos k) (x : ℝ) :
    ∃ st, grun (d := d) (q := q) ⟨[], []⟩ [.new k, .clone 0, .writeAlpha 0 0 x] = some st ∧ gview st 1 = some ⟨k, k, [x], none⟩ := by
  have e1 : k.selfClone = some k := by
    unfold Kern.selfClone
    rw [theta_eq (copies_noExp h1)]
    exact selfClone_eq _ h1 h2
  refine ⟨⟨[⟨k, k, 0, none⟩, ⟨k, k, 0, none⟩], [[x]]⟩, ?_, rfl⟩
  simp [grun, List.foldlM_cons, gstep, GObj.clone, e1]

/-- **C170** violated for an exponentiation: the clone has the base kernel, without the exponent, for every base kernel that copies. -/
theorem C170_exponent_violated {d q : ℕ} (k : Kern) (p : ℕ) (h1 : Copies k) (h2 : FreePos k) :
    ∃ st, grun (d := d) (q := q) ⟨[], []⟩ [.new (.exp k p), .clone 0] = some st ∧ gview st 0 = some ⟨.exp k p, .exp k p, [1e-10], none⟩ ∧ gview st 1 = some ⟨k, k, [1e-10], none⟩ := by
  have e1 : (Kern.exp k p).selfClone = some k := by
    unfold Kern.selfClone
    change k.theta.bind k.clone = some k
    rw [theta_eq (copies_noExp h1)]
    exact selfClone_eq _ h1 h2
  refine ⟨⟨[⟨.exp k p, .exp k p, 0, none⟩, ⟨k, k, 0, none⟩], [[1e-10]]⟩, ?_, rfl, rfl⟩
  simp [grun, List.foldlM_cons, gstep, GObj.clone, e1]

/-- **C170** violated for a sum or product whose second operand has no free hyperparameter: `PredicterClone` panics. -/
theorem C170_fixed_operand_violated {d q : ℕ} (k₁ k₂ : Kern) (h₁ : NoExp k₁) (h₂ : NoExp k₂) (h0 : nfree k₂ = 0) :
    grun (d := d) (q := q) ⟨[], []⟩ [.new (.sum k₁ k₂), .clone 0] = none ∧ grun (d := d) (q := q) ⟨[], []⟩ [.new (.prod k₁ k₂), .clone 0] = none := by
  have hs : ∀ k : Kern, k.selfClone = none → grun (d := d) (q := q) ⟨[], []⟩ [.new k, .clone 0] = none := by
    intro k hk
    simp [grun, List.foldlM_cons, gstep, GObj.clone, hk]
  obtain ⟨a, b⟩ := C56_fixed_operand_violated k₁ k₂ h₁ h₂ h0 (thetaOf (params (.sum k₁ k₂))) (thetaOf_length _)
  have hn : NoExp (.sum k₁ k₂) := ⟨h₁, h₂⟩
  have hn' : NoExp (.prod k₁ k₂) := ⟨h₁, h₂⟩
  constructor
  · apply hs; unfold Kern.selfClone; rw [theta_eq hn]; exact a
  · apply hs; unfold Kern.selfClone; rw [theta_eq hn']; exact b

/-- A kernel meeting the hypotheses, with a free noise level, and one that does not copy. -/
example : Copies (.sum (.prod (.const (2, false)) (.rbf [(1, false), (3, true)])) (.white (3, false))) ∧ FreePos (.sum (.prod (.const (2, false)) (.rbf [(1, false), (3, true)])) (.white (3, false))) ∧
    nfree (.rbf [(1, true)]) = 0 := by
  simp [Copies, FreePos, nfree, freeH, params]

end Sk.GP
