import Verif.Props.Svc
import Verif.Props.SvmCache
import Verif.Props.Svr

/-! # C201: support vector machines when the classes are exchanged, the targets reflected or the samples moved -/
set_option autoImplicit false

namespace Sk.Svm

variable {K : Type} [Field K] [LinearOrder K] [IsStrictOrderedRing K] {m : ℕ}

/-! ## Exchanging the classes -/

/-- The training variables with the offset reflected. -/
def flip (st : St m K) : St m K := { st with b := -st.b }

theorem f_flip (kern : Fin m → Fin m → K) (Y : Fin m → K) (st : St m K) (i : Fin m) : f kern (fun i => -Y i) (flip st) i = -f kern Y st i := by
  simp only [f, flip]
  rw [neg_add, ← Finset.sum_neg_distrib]
  congr 1
  exact Finset.sum_congr rfl (fun k _ => by ring)

theorem svcUpdate_flip (kern : Fin m → Fin m → K) (Y : Fin m → K) (C tol : K) (st : St m K) (i j : Fin m) : svcUpdate kern (fun i => -Y i) C tol (flip st) i j = flip (svcUpdate kern Y C tol st i j) := by
  have hα : (flip st).α = st.α := rfl
  have hb : (flip st).b = -st.b := rfl
  have hc : (flip st).changed = st.changed := rfl
  unfold svcUpdate
  simp only [f_flip, hα, hb, neg_inj]
  have e1 : -Y j * (-f kern Y st i - -Y i - (-f kern Y st j - -Y j)) = Y j * (f kern Y st i - Y i - (f kern Y st j - Y j)) := by ring
  have e2 : -Y i * -Y j = Y i * Y j := by ring
  simp only [e1, e2]
  generalize (if Y i = Y j then max 0 (st.α j + st.α i - C) else max 0 (st.α j - st.α i)) = L
  generalize (if Y i = Y j then min C (st.α j + st.α i) else min C (C + st.α j - st.α i)) = H
  by_cases h1 : L = H
  · rw [if_pos h1, if_pos h1]
  rw [if_neg h1, if_neg h1]
  by_cases h2 : 0 ≤ 2 * ck kern i j - ck kern i i - ck kern j j
  · rw [if_pos h2, if_pos h2]
  rw [if_neg h2, if_neg h2]
  generalize max L (min H (st.α j - Y j * (f kern Y st i - Y i - (f kern Y st j - Y j)) / (2 * ck kern i j - ck kern i i - ck kern j j))) = a
  by_cases h3 : a - st.α j < tol
  · rw [if_pos h3, if_pos h3]
  rw [if_neg h3, if_neg h3]
  simp only [flip, St.mk.injEq, true_and, and_true]
  split_ifs <;> ring

theorem svcStep_flip (kern : Fin m → Fin m → K) (Y : Fin m → K) (C eps tol : K) (st : St m K) (ir : Fin m × ℕ) :
    svcStep kern (fun i => -Y i) C eps tol (flip st) ir = (svcStep kern Y C eps tol st ir).map flip := by
  have e : -Y ir.1 * (f kern (fun i => -Y i) (flip st) ir.1 - -Y ir.1) = Y ir.1 * (f kern Y st ir.1 - Y ir.1) := by rw [f_flip]; ring
  unfold svcStep
  simp only [e]
  have hα : (flip st).α = st.α := rfl
  rw [hα]
  split
  · cases partner ir.1 ir.2 with
    | none => rfl
    | some j =>
      simp only [Option.map_some]
      exact congrArg some (svcUpdate_flip kern Y C tol { st with viol := true } ir.1 j)
  · rfl

/-- Apply a map to a finished run. -/
def Outcome.map {A B : Type} (g : A → B) : Outcome A → Outcome B
  | .panic => .panic
  | .running => .running
  | .done a => .done (g a)

theorem foldlM_conj (g : St m K → St m K) (step step' : St m K → Fin m × ℕ → Option (St m K)) (h : ∀ st ir, step' (g st) ir = (step st ir).map g) (r : Fin m → ℕ) (l : List (Fin m)) (st : St m K) :
    l.foldlM (fun st i => step' st (i, r i)) (g st) = (l.foldlM (fun st i => step st (i, r i)) st).map g := by
  induction l generalizing st with
  | nil => rfl
  | cons i l ih =>
    rw [List.foldlM_cons, List.foldlM_cons, h]
    cases step st (i, r i) with
    | none => rfl
    | some s => exact ih s

theorem loop_conj (g : St m K → St m K) (hv : ∀ s, (g s).viol = s.viol) (hc : ∀ s, (g s).changed = s.changed) (h0 : ∀ s : St m K, ({ g s with viol := false, changed := 0 } : St m K) = g { s with viol := false, changed := 0 })
    (step step' : St m K → Fin m × ℕ → Option (St m K)) (h : ∀ st ir, step' (g st) ir = (step st ir).map g) (maxPasses : ℕ) (draws : ℕ → Fin m → ℕ) (fuel t passes : ℕ) (st : St m K) :
    loop step' maxPasses draws fuel t passes (g st) = (loop step maxPasses draws fuel t passes st).map g := by
  induction fuel generalizing t passes st with
  | zero => rfl
  | succ fuel ih =>
    rw [loop, loop]
    split
    · rfl
    · rw [h0, foldlM_conj g step step' h]
      cases (List.finRange m).foldlM (fun st i => step st (i, draws t i)) { st with viol := false, changed := 0 } with
      | none => rfl
      | some s =>
        simp only [Option.map_some, hv, hc]
        split
        · rfl
        · exact ih _ _ s

/-- The value whose sign is the prediction, of a trained model for a row with kernel values `k`. -/
def value (M : Model m K) (k : Fin m → K) : K := (M.support.map (fun e => e.2.2 * e.2.1 * k e.1)).sum + M.b

/-- **C201, exchanged classes.** With the labels of the two classes exchanged and the same random numbers, training takes the same course: it panics, goes on or ends with the same multipliers, and with the offset
reflected; the models have the same support samples and opposite decision values everywhere, so that every row off the boundary is predicted to be in the other class. -/
theorem C201_exchange (kern : Fin m → Fin m → K) (Y : Fin m → K) (C eps tol : K) (maxPasses : ℕ) (draws : ℕ → Fin m → ℕ) (fuel : ℕ) (st : St m K)
    (h : loop (svcStep kern Y C eps tol) maxPasses draws fuel 0 0 (start m K) = .done st) :
    ∃ st', loop (svcStep kern (fun i => -Y i) C eps tol) maxPasses draws fuel 0 0 (start m K) = .done st' ∧ st'.α = st.α ∧ st'.b = -st.b ∧ (svcModel Y tol st = none → svcModel (fun i => -Y i) tol st' = none) ∧
      ∀ M, svcModel Y tol st = some M → ∃ M', svcModel (fun i => -Y i) tol st' = some M' ∧ M'.support.map (fun e => e.1) = M.support.map (fun e => e.1) ∧
        ∀ k, value M' k = -value M k ∧ (value M k ≠ 0 → svcPredict M' k = 1 - svcPredict M k) := by
  have hs : flip (start m K) = start m K := by simp [flip, start]
  have hl := loop_conj flip (fun _ => rfl) (fun _ => rfl) (fun _ => rfl) (svcStep kern Y C eps tol) (svcStep kern (fun i => -Y i) C eps tol) (svcStep_flip kern Y C eps tol) maxPasses draws fuel 0 0 (start m K)
  rw [hs, h] at hl
  refine ⟨flip st, hl, rfl, rfl, ?_, ?_⟩
  · intro h0
    unfold svcModel at h0 ⊢
    have : (flip st).α = st.α := rfl
    simp only [this] at h0 ⊢
    split at h0
    · rename_i he
      exact if_pos he
    · cases h0
  · intro M hM
    unfold svcModel at hM ⊢
    have hα : (flip st).α = st.α := rfl
    simp only [hα] at hM ⊢
    split at hM
    · cases hM
    · rename_i he
      rw [if_neg he]
      cases hM
      refine ⟨_, rfl, by simp [List.map_map, Function.comp_def], fun k => ?_⟩
      have hv : ((List.map (fun i => (i, -Y i, st.α i)) (List.filter (fun i => decide (tol < st.α i)) (List.finRange m))).map (fun e => e.2.2 * e.2.1 * k e.1)).sum + (flip st).b =
          -(((List.map (fun i => (i, Y i, st.α i)) (List.filter (fun i => decide (tol < st.α i)) (List.finRange m))).map (fun e => e.2.2 * e.2.1 * k e.1)).sum + st.b) := by
        generalize (List.filter (fun i => decide (tol < st.α i)) (List.finRange m)) = l
        simp only [flip, List.map_map, Function.comp_def]
        rw [neg_add]
        congr 1
        induction l with
        | nil => simp
        | cons a l ih =>
          simp only [List.map_cons, List.sum_cons, ih]
          ring
      refine ⟨hv, fun hne => ?_⟩
      unfold svcPredict
      simp only
      rw [hv]
      simp only [value] at hne
      by_cases hp : 0 ≤ ((List.map (fun i => (i, Y i, st.α i)) (List.filter (fun i => decide (tol < st.α i)) (List.finRange m))).map (fun e => e.2.2 * e.2.1 * k e.1)).sum + st.b
      · have := lt_of_le_of_ne hp (Ne.symm hne)
        rw [if_neg (by rw [not_le]; linarith), if_pos hp, sub_self]
      · rw [if_pos (by rw [not_le] at hp; linarith), if_neg hp, sub_zero]

/-- **C201 violated on the boundary**: a row with decision value 0 is predicted to be in class 1 by both models, whatever the class is called. -/
theorem C201_boundary_violated (M M' : Model m K) (k : Fin m → K) (hv : value M' k = -value M k) (h0 : value M k = 0) : svcPredict M k = 1 ∧ svcPredict M' k = 1 := by
  unfold value at hv h0
  rw [h0, neg_zero] at hv
  exact ⟨by rw [svcPredict, if_pos h0.ge], by rw [svcPredict, if_pos hv.ge]⟩

/-- **C201 violated for labels 0 and 1**: the labels which `Predict` returns cannot be used in `Fit`.  All multipliers stay zero, and when training ends, building the model panics; with the default `MaxIter` it takes
2147483647 passes to get there as soon as some label is 1. -/
theorem C201_zero_one_violated (kern : Fin m → Fin m → K) (Y : Fin m → K) (hY : ∀ i, Y i = 0 ∨ Y i = 1) {C eps tol : K} (hC : 0 ≤ C) (he : 0 ≤ eps) (htol : 0 < tol) (maxPasses : ℕ) (draws : ℕ → Fin m → ℕ) :
    (∀ fuel st, loop (svcStep kern Y C eps tol) maxPasses draws fuel 0 0 (start m K) = .done st → (∀ i, st.α i = 0) ∧ svcModel Y tol st = none) ∧
    (2 ≤ m → (∃ i, Y i = 1) → eps < 1 → 0 < C → (∀ fuel ≤ maxPasses, loop (svcStep kern Y C eps tol) maxPasses draws fuel 0 0 (start m K) = .running) ∧
      ∃ st, loop (svcStep kern Y C eps tol) maxPasses draws (maxPasses + 1) 0 0 (start m K) = .done st) := by
  have key : ∀ (st : St m K) (i j : Fin m), (∀ i, st.α i = 0) → Y i = 1 → svcUpdate kern Y C tol st i j = st := by
    intro st i j h0 hi
    rw [svcUpdate]
    simp only [h0, hi, add_zero, zero_sub, sub_zero, zero_add]
    rcases hY j with hj | hj
    · rw [hj, if_neg one_ne_zero, if_neg one_ne_zero, max_self, min_self]
      split
      · rfl
      · split
        · rfl
        · rw [if_pos]
          simp only [zero_mul, zero_div, neg_zero]
          rw [min_eq_right hC, max_self]
          exact htol
    · rw [hj, if_pos rfl, if_pos rfl, max_eq_left (by linarith), min_eq_right hC, if_pos rfl]
  have hstep : ∀ (s : St m K) ir s', (∀ i, s.α i = 0) → svcStep kern Y C eps tol s ir = some s' → (∀ i, s'.α i = 0) ∧ s'.b = s.b ∧ s'.changed = s.changed ∧ (s.viol = true → s'.viol = true) := by
    intro s ir s' hs e
    rw [svcStep] at e
    split at e
    · rename_i hk
      obtain ⟨j, hj, e2⟩ := Option.map_eq_some_iff.1 e
      rcases hY ir.1 with h0 | h1
      · exfalso
        rw [h0, zero_mul, hs] at hk
        rcases hk with hk | hk
        · linarith [hk.1]
        · exact lt_irrefl _ hk.2
      · rw [key { s with viol := true } ir.1 j hs h1] at e2
        rw [← e2]
        exact ⟨hs, rfl, rfl, fun _ => rfl⟩
    · rw [← Option.some.inj e]
      exact ⟨hs, rfl, rfl, id⟩
  refine ⟨?_, ?_⟩
  · intro fuel st h
    have hz : ∀ i, st.α i = 0 := by
      refine loop_inv (fun α _ => ∀ i, α i = 0) ?_ fuel 0 0 _ st (fun _ => rfl) h
      intro s ir s' hs e
      exact (hstep s ir s' hs e).1
    refine ⟨hz, ?_⟩
    rw [svcModel]
    rw [if_pos]
    rw [List.isEmpty_iff, List.filter_eq_nil_iff]
    intro i _
    rw [hz i]
    simpa using htol.le
  · rintro hm ⟨i1, hi1⟩ he1 hC0
    have hsome : ∀ (s : St m K) ir, ∃ s', svcStep kern Y C eps tol s ir = some s' := by
      intro s ir
      rw [svcStep]
      split
      · have : ∃ j, partner ir.1 ir.2 = some j := by
          rw [partner]
          have hlt : ir.2 % (m - 1) < m - 1 := Nat.mod_lt _ (by omega)
          refine ⟨_, dif_pos ⟨by omega, ?_⟩⟩
          split <;> omega
        obtain ⟨j, hj⟩ := this
        rw [hj]
        exact ⟨_, rfl⟩
      · exact ⟨_, rfl⟩
    -- one pass: nothing changes and a violation is seen
    have pass : ∀ (l : List (Fin m)) (r : Fin m → ℕ) (s : St m K), (∀ i, s.α i = 0) → s.b = 0 → ∃ s', l.foldlM (fun st i => svcStep kern Y C eps tol st (i, r i)) s = some s' ∧ (∀ i, s'.α i = 0) ∧ s'.b = 0 ∧
        s'.changed = s.changed ∧ (s.viol = true ∨ i1 ∈ l → s'.viol = true) := by
      intro l r
      induction l with
      | nil => intro s h1 h2; exact ⟨s, rfl, h1, h2, rfl, fun h => h.elim id (fun h => by simp at h)⟩
      | cons i l ih =>
        intro s h1 h2
        obtain ⟨s1, e1⟩ := hsome s (i, r i)
        obtain ⟨a1, a2, a3, a4⟩ := hstep s _ s1 h1 e1
        obtain ⟨s2, e2, b1, b2, b3, b4⟩ := ih s1 a1 (a2.trans h2)
        refine ⟨s2, by rw [List.foldlM_cons, e1]; exact e2, b1, b2, b3.trans a3, ?_⟩
        rintro (h | h)
        · exact b4 (Or.inl (a4 h))
        · rcases List.mem_cons.1 h with h | h
          · refine b4 (Or.inl ?_)
            subst h
            rw [svcStep] at e1
            simp only at e1
            have hf : f kern Y s i1 = 0 := by
              simp [f, h1, h2]
            rw [if_pos (Or.inl ⟨by rw [hf, hi1]; linarith, by rw [h1]; exact hC0⟩)] at e1
            obtain ⟨j, hj, e3⟩ := Option.map_eq_some_iff.1 e1
            rw [key { s with viol := true } i1 j h1 hi1] at e3
            rw [← e3]
          · exact b4 (Or.inr h)
    have run : ∀ (fuel t passes : ℕ) (s : St m K), (∀ i, s.α i = 0) → s.b = 0 → passes ≤ maxPasses →
        (fuel + passes ≤ maxPasses → loop (svcStep kern Y C eps tol) maxPasses draws fuel t passes s = .running) ∧
        (fuel + passes = maxPasses + 1 → ∃ st, loop (svcStep kern Y C eps tol) maxPasses draws fuel t passes s = .done st) := by
      intro fuel
      induction fuel with
      | zero => intro t passes s _ _ h; exact ⟨fun _ => rfl, fun h' => by omega⟩
      | succ fuel ih =>
        intro t passes s h1 h2 h3
        obtain ⟨s', e, c1, c2, c3, c4⟩ := pass (List.finRange m) (draws t) { s with viol := false, changed := 0 } h1 h2
        have hv : s'.viol = true := c4 (Or.inr (List.mem_finRange _))
        have hch : s'.changed = 0 := c3
        have hstep1 : ¬ maxPasses ≤ passes → loop (svcStep kern Y C eps tol) maxPasses draws (fuel + 1) t passes s = loop (svcStep kern Y C eps tol) maxPasses draws fuel (t + 1) (passes + 1) s' := by
          intro hlt
          rw [loop, if_neg hlt, e]
          simp only [hv, Bool.not_true, Bool.false_eq_true, if_false, hch, if_true]
        constructor
        · intro h4
          have hlt : ¬ maxPasses ≤ passes := by omega
          rw [hstep1 hlt]
          exact (ih (t + 1) (passes + 1) s' c1 c2 (by omega)).1 (by omega)
        · intro h4
          by_cases hle : maxPasses ≤ passes
          · exact ⟨s, by rw [loop, if_pos hle]⟩
          · rw [hstep1 hle]
            exact (ih (t + 1) (passes + 1) s' c1 c2 (by omega)).2 (by omega)
    exact ⟨fun fuel hf => (run fuel 0 0 (start m K) (fun _ => rfl) rfl (Nat.zero_le _)).1 (by omega), (run (maxPasses + 1) 0 0 (start m K) (fun _ => rfl) rfl (Nat.zero_le _)).2 (by omega)⟩

/-- Samples 0, 1, 2 with the linear kernel: the first two against the third, with the classes exchanged, and with labels 0 and 1. -/
def classRun (Y : Fin 3 → ℚ) : Option (ℚ × List ℚ) :=
  match loop (svcStep (K := ℚ) (fun i j => (i.val : ℚ) * j.val) Y 1 (1 / 10) (1 / 1000)) 2 (fun _ _ => 0) 9 0 0 (start 3 ℚ) with
  | .done s => some (s.b, List.ofFn s.α)
  | _ => none

example : classRun ![-1, -1, 1] = some (-1, [1 / 2, 0, 1 / 2]) ∧ classRun ![1, 1, -1] = some (1, [1 / 2, 0, 1 / 2]) ∧ classRun ![0, 0, 1] = some (0, [0, 0, 0]) := by decide +kernel

/-- The row 1 is on the boundary of the first of these models. -/
example : value (K := ℚ) (m := 3) ⟨-1, [(0, -1, 1 / 2), (2, 1, 1 / 2)]⟩ (fun i => (i.val : ℚ) * 1) = 0 := by decide +kernel

/-! ## Reflecting the targets of a regression -/

/-- The training variables with multipliers and offset reflected. -/
def negSt (st : St m K) : St m K := { st with α := fun i => -st.α i, b := -st.b }

omit [IsStrictOrderedRing K] in
theorem foldlM_conj_inv (P : St m K → Prop) (g : St m K → St m K) (step step' : St m K → Fin m × ℕ → Option (St m K)) (h : ∀ st ir, P st → step' (g st) ir = (step st ir).map g)
    (hP : ∀ st ir st', P st → step st ir = some st' → P st') (r : Fin m → ℕ) (l : List (Fin m)) (st : St m K) (hst : P st) :
    l.foldlM (fun st i => step' st (i, r i)) (g st) = (l.foldlM (fun st i => step st (i, r i)) st).map g ∧ ∀ s, l.foldlM (fun st i => step st (i, r i)) st = some s → P s := by
  induction l generalizing st with
  | nil => exact ⟨rfl, fun s e => by rw [← Option.some.inj e]; exact hst⟩
  | cons i l ih =>
    rw [List.foldlM_cons, List.foldlM_cons, h _ _ hst]
    cases e : step st (i, r i) with
    | none => exact ⟨rfl, fun s e => by cases e⟩
    | some s => exact ih s (hP _ _ _ hst e)

omit [IsStrictOrderedRing K] in
theorem loop_conj_inv (P : St m K → Prop) (g : St m K → St m K) (hv : ∀ s, (g s).viol = s.viol) (hc : ∀ s, (g s).changed = s.changed)
    (h0 : ∀ s : St m K, ({ g s with viol := false, changed := 0 } : St m K) = g { s with viol := false, changed := 0 }) (hP0 : ∀ s : St m K, P s → P { s with viol := false, changed := 0 })
    (step step' : St m K → Fin m × ℕ → Option (St m K)) (h : ∀ st ir, P st → step' (g st) ir = (step st ir).map g) (hP : ∀ st ir st', P st → step st ir = some st' → P st')
    (maxPasses : ℕ) (draws : ℕ → Fin m → ℕ) (fuel t passes : ℕ) (st : St m K) (hst : P st) :
    loop step' maxPasses draws fuel t passes (g st) = (loop step maxPasses draws fuel t passes st).map g := by
  induction fuel generalizing t passes st with
  | zero => rfl
  | succ fuel ih =>
    rw [loop, loop]
    split
    · rfl
    · obtain ⟨e1, e2⟩ := foldlM_conj_inv P g step step' h hP (draws t) (List.finRange m) { st with viol := false, changed := 0 } (hP0 _ hst)
      rw [h0, e1]
      cases e : (List.finRange m).foldlM (fun st i => step st (i, draws t i)) { st with viol := false, changed := 0 } with
      | none => rfl
      | some s =>
        simp only [Option.map_some, hv, hc]
        split
        · rfl
        · exact ih _ _ s (e2 s e)

theorem fr_neg (kern : Fin m → Fin m → K) (st : St m K) (i : Fin m) : fr kern (negSt st) i = -fr kern st i := by
  simp only [fr, negSt]
  rw [neg_add, ← Finset.sum_neg_distrib]
  congr 1
  exact Finset.sum_congr rfl (fun k _ => by ring)

theorem svrRaw_neg (eps eta ei ej aj s L H : K) : svrRaw eps eta (-ei) (-ej) (-aj) (-s) (-H) (-L) = (svrRaw eps eta ei ej aj s L H).map (fun a => -a) := by
  unfold svrRaw
  simp only [neg_inj, neg_lt_neg_iff]
  by_cases h : eta = 0
  · rw [if_pos h, if_pos h]
    by_cases h1 : ei = ej
    · rw [if_pos h1, if_pos h1]; rfl
    · rw [if_neg h1, if_neg h1, Option.map_some]
      congr 1
      by_cases h2 : 0 < eps
      · rw [if_pos h2, if_pos h2]
        rcases lt_or_gt_of_ne h1 with h3 | h3
        · rw [if_pos h3, if_neg (not_lt.2 h3.le)]
        · rw [if_neg (not_lt.2 h3.le), if_pos h3]
      · rw [if_neg h2, if_neg h2]
  · rw [if_neg h, if_neg h, Option.map_some]
    congr 1
    have ea : -aj - (-ei - -ej) / eta = -(aj - (ei - ej) / eta) := by ring
    rw [ea]
    generalize aj - (ei - ej) / eta = a
    have ei : -s - -a = -(s - a) := by ring
    rw [ei]
    generalize s - a = i
    rw [neg_mul_neg, abs_neg, abs_neg]
    by_cases h1 : i * a < 0
    · rw [if_pos h1, if_pos h1]
      have ha : a ≠ 0 := by rintro rfl; simp at h1
      by_cases h2 : -2 * eps / eta < |i| ∨ -2 * eps / eta < |a|
      · rw [if_pos h2, if_pos h2]
        rcases lt_or_gt_of_ne ha with h3 | h3
        · rw [if_pos (by linarith), if_neg (not_le.2 h3)]; ring
        · rw [if_neg (by linarith), if_pos h3.le]; ring
      · rw [if_neg h2, if_neg h2]; ring
    · rw [if_neg h1, if_neg h1]

theorem max_negs (a b : K) : max (-a) (-b) = -min a b := by
  rcases le_total a b with h | h
  · rw [min_eq_left h, max_eq_left (neg_le_neg h)]
  · rw [min_eq_right h, max_eq_right (neg_le_neg h)]

theorem min_negs (a b : K) : min (-a) (-b) = -max a b := by
  rcases le_total a b with h | h
  · rw [max_eq_right h, min_eq_right (neg_le_neg h)]
  · rw [max_eq_left h, min_eq_left (neg_le_neg h)]

theorem svrUpdate_neg (kern : Fin m → Fin m → K) (Y : Fin m → K) {C : K} (eps tol : K) (st : St m K) (hf : SvrFeasible C st.α) (i j : Fin m) :
    svrUpdate kern (fun i => -Y i) C eps tol (negSt st) i j = negSt (svrUpdate kern Y C eps tol st i j) := by
  have hi := hf.box i
  have hj := hf.box j
  have hα : ∀ k, (negSt st).α k = -st.α k := fun _ => rfl
  have hLH : max (st.α i + st.α j - C) (-C) ≤ min C (C + (st.α i + st.α j)) :=
    max_le (le_min (by linarith) (by linarith)) (le_min (by linarith) (by linarith))
  unfold svrUpdate
  simp only [fr_neg, hα]
  have e1 : ∀ k, -fr kern st k - -Y k = -(fr kern st k - Y k) := fun k => by ring
  have e2 : -st.α i + -st.α j = -(st.α i + st.α j) := by ring
  simp only [e1, e2]
  have eL : max (-(st.α i + st.α j) - C) (-C) = -min C (C + (st.α i + st.α j)) := by
    rw [← max_negs, max_comm]; congr 1; ring
  have eH : min C (C + -(st.α i + st.α j)) = -max (st.α i + st.α j - C) (-C) := by
    rw [← min_negs, neg_neg, min_comm]; congr 1; ring
  rw [eL, eH, svrRaw_neg]
  generalize max (st.α i + st.α j - C) (-C) = L at *
  generalize min C (C + (st.α i + st.α j)) = H at *
  cases svrRaw eps (2 * ck kern i j - ck kern i i - ck kern j j) (fr kern st i - Y i) (fr kern st j - Y j) (st.α j) (st.α i + st.α j) L H with
  | none => rfl
  | some raw =>
    simp only [Option.map_some]
    have ec : min (-L) (max (-H) (-raw)) = -min H (max L raw) := by
      rw [max_negs, min_negs, max_min_distrib_left, max_eq_right hLH]
    rw [ec]
    generalize min H (max L raw) = a
    generalize hEi : fr kern st i - Y i = Ei
    generalize hEj : fr kern st j - Y j = Ej
    have g1 : -Ei + (-(st.α i + st.α j) - -a - -st.α i) * ck kern i i + (-a - -st.α j) * ck kern i j = -(Ei + (st.α i + st.α j - a - st.α i) * ck kern i i + (a - st.α j) * ck kern i j) := by ring
    have g2 : -Ej + (-(st.α i + st.α j) - -a - -st.α i) * ck kern i j + (-a - -st.α j) * ck kern j j = -(Ej + (st.α i + st.α j - a - st.α i) * ck kern i j + (a - st.α j) * ck kern j j) := by ring
    rw [g1, g2]
    generalize Ei + (st.α i + st.α j - a - st.α i) * ck kern i i + (a - st.α j) * ck kern i j = P
    generalize Ej + (st.α i + st.α j - a - st.α i) * ck kern i j + (a - st.α j) * ck kern j j = Q
    have g3 : -(-P + -Q) / 2 = -(-(P + Q) / 2) := by ring
    have g4 : -a - -st.α j = -(a - st.α j) := by ring
    have g5 : -P + -(-(P + Q) / 2) = -(P + -(P + Q) / 2) := by ring
    have g6 : -Q + -(-(P + Q) / 2) = -(Q + -(P + Q) / 2) := by ring
    rw [g3, g4, g5, g6]
    simp only [abs_neg]
    split
    · rfl
    · simp only [negSt, St.mk.injEq, true_and, and_true]
      refine ⟨?_, by ring⟩
      funext k
      by_cases h1 : k = i
      · subst h1; simp only [Function.update_self]; ring
      · rw [Function.update_of_ne h1, Function.update_of_ne h1]
        by_cases h2 : k = j
        · subst h2; simp only [Function.update_self]
        · rw [Function.update_of_ne h2, Function.update_of_ne h2]

theorem svrPartner_two (E : Fin 2 → K) (eps : K) {i j : Fin 2} (hj : j ≠ i) : svrPartner E eps i j = j := by
  unfold svrPartner
  have hne := svrPartner_ne E eps hj
  unfold svrPartner at hne
  omega

theorem svrStep_neg_two (kern : Fin 2 → Fin 2 → K) (Y : Fin 2 → K) {C : K} (eps tol : K) (st : St 2 K) (hf : SvrFeasible C st.α) (ir : Fin 2 × ℕ) :
    svrStep kern (fun i => -Y i) C eps tol (negSt st) ir = (svrStep kern Y C eps tol st ir).map negSt := by
  unfold svrStep
  simp only [fr_neg]
  have hα : ∀ k, (negSt st).α k = -st.α k := fun _ => rfl
  have hc : ((-fr kern st ir.1 - -Y ir.1 < -eps ∧ (negSt st).α ir.1 < C) ∨ (eps < -fr kern st ir.1 - -Y ir.1 ∧ -C < (negSt st).α ir.1)) ↔
      ((fr kern st ir.1 - Y ir.1 < -eps ∧ st.α ir.1 < C) ∨ (eps < fr kern st ir.1 - Y ir.1 ∧ -C < st.α ir.1)) := by
    rw [hα]
    constructor
    · rintro (⟨h1, h2⟩ | ⟨h1, h2⟩)
      · exact Or.inr ⟨by linarith, by linarith⟩
      · exact Or.inl ⟨by linarith, by linarith⟩
    · rintro (⟨h1, h2⟩ | ⟨h1, h2⟩)
      · exact Or.inr ⟨by linarith, by linarith⟩
      · exact Or.inl ⟨by linarith, by linarith⟩
  by_cases h : (fr kern st ir.1 - Y ir.1 < -eps ∧ st.α ir.1 < C) ∨ (eps < fr kern st ir.1 - Y ir.1 ∧ -C < st.α ir.1)
  · rw [if_pos (hc.2 h), if_pos h]
    cases e : partner ir.1 ir.2 with
    | none => rfl
    | some j =>
      simp only [Option.map_some]
      rw [svrPartner_two _ _ (partner_ne e), svrPartner_two _ _ (partner_ne e)]
      exact congrArg some (svrUpdate_neg kern Y eps tol { st with viol := true } hf ir.1 j)
  · rw [if_neg (fun h' => h (hc.1 h')), if_neg h, Option.map_some]

/-- **C201, reflected targets, two samples.** With all targets negated and the same random numbers, a regression on two samples ends after the same rounds with all multipliers and the offset negated, keeps the same
support samples, and predicts the negative everywhere. (For three samples and more this fails, see `C201_reflect_violated`: the second multiplier of a step is preferably one with a large negative error.) -/
theorem C201_reflect_partial (kern : Fin 2 → Fin 2 → K) (Y : Fin 2 → K) {C : K} (hC : 0 ≤ C) (eps tol : K) (maxPasses : ℕ) (draws : ℕ → Fin 2 → ℕ) (fuel : ℕ) (st : St 2 K)
    (h : loop (svrStep kern Y C eps tol) maxPasses draws fuel 0 0 (start 2 K) = .done st) :
    ∃ st', loop (svrStep kern (fun i => -Y i) C eps tol) maxPasses draws fuel 0 0 (start 2 K) = .done st' ∧ (∀ i, st'.α i = -st.α i) ∧ st'.b = -st.b ∧
      (svrModel tol st = none → svrModel tol st' = none) ∧
      ∀ M, svrModel tol st = some M → ∃ M', svrModel tol st' = some M' ∧ M'.support.map (fun e => e.1) = M.support.map (fun e => e.1) ∧ ∀ k, svrPredict M' k = -svrPredict M k := by
  have hs : negSt (start 2 K) = start 2 K := by simp [negSt, start]
  have hl := loop_conj_inv (fun s => SvrFeasible C s.α) negSt (fun _ => rfl) (fun _ => rfl) (fun _ => rfl) (fun _ h => h) (svrStep kern Y C eps tol) (svrStep kern (fun i => -Y i) C eps tol)
    (fun st ir hf => svrStep_neg_two kern Y eps tol st hf ir) (fun st ir st' h1 h2 => svrStep_feasible h2 h1) maxPasses draws fuel 0 0 (start 2 K) (start_svr hC)
  rw [hs, h] at hl
  refine ⟨negSt st, hl, fun _ => rfl, rfl, ?_, ?_⟩
  · intro h0
    unfold svrModel at h0 ⊢
    simp only [negSt, abs_neg]
    simp only at h0
    split at h0
    · rename_i h1; rw [if_pos h1]
    · cases h0
  · intro M hM
    unfold svrModel at hM ⊢
    simp only [negSt, abs_neg]
    simp only at hM
    split at hM
    · cases hM
    · rename_i h1
      rw [if_neg h1]
      refine ⟨_, rfl, ?_, ?_⟩
      · rw [← Option.some.inj hM]; simp [List.map_map, Function.comp_def]
      · intro k
        rw [← Option.some.inj hM]
        simp only [svrPredict, List.map_map, Function.comp_def]
        rw [neg_add]
        congr 1
        generalize (List.finRange 2).filter (fun i => decide (tol < |st.α i|)) = l
        induction l with
        | nil => simp
        | cons x l ih => simp only [List.map_cons, List.sum_cons]; rw [ih]; ring

/-- Two samples with targets 3 and −1 and their reflection. -/
example : (match loop (svrStep (K := ℚ) (fun i j => if i = j then 1 else 0) ![3, -1] 10 (1 / 10) (1 / 1000)) 2 (fun _ _ => 0) 5 0 0 (start 2 ℚ),
      loop (svrStep (K := ℚ) (fun i j => if i = j then 1 else 0) ![-3, 1] 10 (1 / 10) (1 / 1000)) 2 (fun _ _ => 0) 5 0 0 (start 2 ℚ) with
    | .done s, .done s' => decide (s.α 0 = 19 / 10 ∧ s.b = 1 ∧ s'.α 0 = -19 / 10 ∧ s'.b = -1)
    | _, _ => false) = true := by decide +kernel

/-- A run on the samples 0, 1, 2 with the kernel `x·x' + 1`: offset, and prediction at a position `x`. -/
def lineRun (Y : Fin 3 → ℚ) (x : ℚ) : Option (ℚ × ℚ) :=
  match loop (svrStep (K := ℚ) (fun i j => (i.val : ℚ) * j.val + 1) Y 1 (1 / 10) (1 / 1000)) 2 (fun _ _ => 0) 5 0 0 (start 3 ℚ) with
  | .done s => (svrModel (1 / 1000) s).map (fun M => (M.b, svrPredict M (fun i => (i.val : ℚ) * x + 1)))
  | _ => none

/-- **C201, reflected targets, violated.** Three samples 0, 1, 2 with targets 0, 1, 2: the regression finds the line `x`. With targets 0, −1, −2 and the same random numbers it does not find `-x` but
`-9/10·x − 1/10`. -/
theorem C201_reflect_violated : lineRun ![0, 1, 2] 0 = some (0, 0) ∧ lineRun ![0, 1, 2] 1 = some (0, 1) ∧ lineRun ![0, -1, -2] 0 = some (-1 / 10, -1 / 10) ∧ lineRun ![0, -1, -2] 1 = some (-1 / 10, -1) ∧
    lineRun ![0, -1, -2] 10 = some (-1 / 10, -91 / 10) ∧ lineRun ![0, 1, 2] 10 = some (0, 10) := by
  decide +kernel

/-! ## Moving the samples -/

/-- A change of the features: put in another order, some mirrored, and the whole shifted. -/
def moveRow {n : ℕ} (σ : Equiv.Perm (Fin n)) (ε t : Fin n → K) (x : Fin n → K) : Fin n → K := fun i => ε i * x (σ i) + t i

omit [LinearOrder K] [IsStrictOrderedRing K] in
theorem zip_ofFn {n : ℕ} (g : K → K → K) (x y : Fin n → K) : (List.zipWith g (List.ofFn x) (List.ofFn y)).sum = ∑ i, g (x i) (y i) := by
  have : List.zipWith g (List.ofFn x) (List.ofFn y) = List.ofFn (fun i => g (x i) (y i)) := by
    apply List.ext_getElem
    · simp
    · intro i h1 h2; simp
  rw [this, List.sum_ofFn]

/-- **C201, moved samples.** Features put in another order and mirrored leave every value of the linear, polynomial and sigmoid kernel as it is; those of the radial kernel are not affected by a shift of all samples
either. So training and predictions on rows moved together are the same. -/
theorem C201_move {n : ℕ} (σ : Equiv.Perm (Fin n)) (ε t : Fin n → K) (hε : ∀ i, ε i * ε i = 1) (pow : K → K → K) (exp tanh : K → K) (gamma coef0 degree : K) (x y : Fin n → K) :
    linearKernel (List.ofFn (moveRow σ ε 0 x)) (List.ofFn (moveRow σ ε 0 y)) = linearKernel (List.ofFn x) (List.ofFn y) ∧
    polyKernel pow gamma coef0 degree (List.ofFn (moveRow σ ε 0 x)) (List.ofFn (moveRow σ ε 0 y)) = polyKernel pow gamma coef0 degree (List.ofFn x) (List.ofFn y) ∧
    sigmoidKernel tanh gamma coef0 (List.ofFn (moveRow σ ε 0 x)) (List.ofFn (moveRow σ ε 0 y)) = sigmoidKernel tanh gamma coef0 (List.ofFn x) (List.ofFn y) ∧
    rbfKernel exp gamma (List.ofFn (moveRow σ ε t x)) (List.ofFn (moveRow σ ε t y)) = rbfKernel exp gamma (List.ofFn x) (List.ofFn y) := by
  have hl : linearKernel (List.ofFn (moveRow σ ε 0 x)) (List.ofFn (moveRow σ ε 0 y)) = linearKernel (List.ofFn x) (List.ofFn y) := by
    simp only [linearKernel, zip_ofFn]
    rw [← Equiv.sum_comp σ (fun i => x i * y i)]
    refine Finset.sum_congr rfl (fun i _ => ?_)
    simp only [moveRow, Pi.zero_apply, add_zero]
    linear_combination x (σ i) * y (σ i) * hε i
  refine ⟨hl, ?_, ?_, ?_⟩
  · rw [polyKernel, hl, polyKernel]
  · rw [sigmoidKernel, hl, sigmoidKernel]
  · simp only [rbfKernel, zip_ofFn]
    rw [← Equiv.sum_comp σ (fun i => (x i - y i) * (x i - y i))]
    congr 2
    refine Finset.sum_congr rfl (fun i _ => ?_)
    simp only [moveRow]
    linear_combination (x (σ i) - y (σ i)) * (x (σ i) - y (σ i)) * hε i

/-- Two features exchanged, the first mirrored, the second shifted. -/
example : moveRow (K := ℚ) (Equiv.swap 0 1) ![-1, 1] ![0, 5] ![2, 3] = ![-3, 7] ∧
    linearKernel (List.ofFn (moveRow (K := ℚ) (Equiv.swap 0 1) ![-1, 1] 0 ![2, 3])) (List.ofFn (moveRow (K := ℚ) (Equiv.swap 0 1) ![-1, 1] 0 ![1, 4])) = 14 := by
  decide +kernel

end Sk.Svm
