import Verif.Model.LinClone
import Mathlib.Data.List.Basic
import Mathlib.Tactic.Tauto

/-!
# C10, C61: clones and refits of linear regressions
-/
set_option autoImplicit false

namespace Sk.LinClone

variable {D C B : Type} (sv : Solver D C B)

/-- Invariant: intercept addresses are allocated and no two objects share one. -/
def Inv (s : State C B) : Prop :=
  (∀ (i : ℕ) (o : Obj C) (a : ℕ), s.objs[i]? = some o → o.intercept = some a → a < s.heap.length) ∧
  (∀ (i j : ℕ) (o p : Obj C) (a : ℕ), s.objs[i]? = some o → s.objs[j]? = some p → o.intercept = some a → p.intercept = some a → i = j)

theorem inv_init : Inv (init : State C B) := by simp [Inv, init]

/-- `clone i` is applied to an object that has not been fitted -/
def UnfittedClone (s : State C B) : Op D → Prop
  | .clone i => ∀ o, s.objs[i]? = some o → o.intercept = none
  | _ => True

theorem getElem?_snoc {α : Type} {l : List α} {x y : α} {i : ℕ} (h : (l ++ [x])[i]? = some y) :
    l[i]? = some y ∨ (i = l.length ∧ y = x) := by
  rw [List.getElem?_append] at h
  split at h
  · exact Or.inl h
  · rename_i hlt
    right
    have : i - l.length = 0 := by
      by_contra hc
      rw [List.getElem?_eq_none] at h
      · cases h
      · simp; omega
    rw [this] at h
    simp at h
    exact ⟨by omega, h.symm⟩

theorem set_getElem? {α : Type} {l : List α} {x y : α} {i j : ℕ} (h : (l.set i x)[j]? = some y) :
    (i = j ∧ y = x) ∨ (i ≠ j ∧ l[j]? = some y) := by
  rw [List.getElem?_set] at h
  split at h
  · split at h
    · left; exact ⟨‹_›, (Option.some.inj h).symm⟩
    · cases h
  · right; exact ⟨‹_›, h⟩

theorem inv_snoc {s : State C B} (h : Inv s) (o : Obj C) (ho : o.intercept = none) :
    Inv { s with objs := s.objs ++ [o] } := by
  refine ⟨?_, ?_⟩
  · intro i p a hp ha
    rcases getElem?_snoc hp with hp | ⟨_, rfl⟩
    · exact h.1 i p a hp ha
    · rw [ho] at ha; cases ha
  · intro i j p q a hp hq ha hb
    rcases getElem?_snoc hp with hp | ⟨_, rfl⟩
    · rcases getElem?_snoc hq with hq | ⟨_, rfl⟩
      · exact h.2 i j p q a hp hq ha hb
      · rw [ho] at hb; cases hb
    · rw [ho] at ha; cases ha

theorem inv_step {s : State C B} (h : Inv s) (op : Op D) (hop : UnfittedClone s op) : Inv (step sv s op) := by
  cases op with
  | create b => exact inv_snoc h _ rfl
  | clone i =>
    cases ho : s.objs[i]? with
    | none => simp only [step, ho]; exact h
    | some o => simp only [step, ho]; exact inv_snoc h o (hop o ho)
  | setFitIntercept i b =>
    cases ho : s.objs[i]? with
    | none => simp only [step, ho]; exact h
    | some o =>
      simp only [step, ho]
      have key : ∀ (j : ℕ) (p : Obj C), (s.objs.set i { o with fitIntercept := b })[j]? = some p →
          ∃ p' : Obj C, s.objs[j]? = some p' ∧ p.intercept = p'.intercept := by
        intro j p hp
        rcases set_getElem? hp with ⟨rfl, rfl⟩ | ⟨_, hp⟩
        · exact ⟨o, ho, rfl⟩
        · exact ⟨p, hp, rfl⟩
      refine ⟨?_, ?_⟩
      · intro j p a hp ha
        obtain ⟨p', hp', e⟩ := key j p hp
        exact h.1 j p' a hp' (e ▸ ha)
      · intro j k p q a hp hq ha hb
        obtain ⟨p', hp', e⟩ := key j p hp
        obtain ⟨q', hq', e'⟩ := key k q hq
        exact h.2 j k p' q' a hp' hq' (e ▸ ha) (e' ▸ hb)
  | fit i d =>
    cases ho : s.objs[i]? with
    | none => simp only [step, ho]; exact h
    | some o =>
      cases hi : o.intercept with
      | none =>
        simp only [step, ho, hi]
        refine ⟨?_, ?_⟩
        · intro j p a hp ha
          have hlen : (if o.fitIntercept = true then (s.heap ++ [sv.zero]).set s.heap.length (sv.intercept d)
            else s.heap ++ [sv.zero]).length = s.heap.length + 1 := by split <;> simp
          simp only [hlen]
          rcases set_getElem? hp with ⟨rfl, rfl⟩ | ⟨_, hp⟩
          · simp at ha; omega
          · have := h.1 j p a hp ha; omega
        · intro j k p q a hp hq ha hb
          rcases set_getElem? hp with ⟨rfl, rfl⟩ | ⟨_, hp⟩
          · rcases set_getElem? hq with ⟨rfl, rfl⟩ | ⟨_, hq⟩
            · rfl
            · have := h.1 k q a hq hb; simp at ha; omega
          · rcases set_getElem? hq with ⟨rfl, rfl⟩ | ⟨_, hq⟩
            · have := h.1 j p a hp ha; simp at hb; omega
            · exact h.2 j k p q a hp hq ha hb
      | some a0 =>
        simp only [step, ho, hi]
        have key : ∀ (j : ℕ) (p : Obj C), (s.objs.set i { o with coef := some (sv.coef o.fitIntercept d), intercept := some a0 })[j]? = some p →
            ∃ p' : Obj C, s.objs[j]? = some p' ∧ p.intercept = p'.intercept := by
          intro j p hp
          rcases set_getElem? hp with ⟨rfl, rfl⟩ | ⟨_, hp⟩
          · exact ⟨o, ho, hi.symm⟩
          · exact ⟨p, hp, rfl⟩
        refine ⟨?_, ?_⟩
        · intro j p a hp ha
          have hlen : (if o.fitIntercept = true then s.heap.set a0 (sv.intercept d) else s.heap).length = s.heap.length := by
            split <;> simp
          simp only [hlen]
          obtain ⟨p', hp', e⟩ := key j p hp
          exact h.1 j p' a hp' (e ▸ ha)
        · intro j k p q a hp hq ha hb
          obtain ⟨p', hp', e⟩ := key j p hp
          obtain ⟨q', hq', e'⟩ := key k q hq
          exact h.2 j k p' q' a hp' hq' (e ▸ ha) (e' ▸ hb)

/-- every clone of the history is taken from an object that was not fitted at that time -/
def UnfittedClones : List (Op D) → State C B → Prop
  | [], _ => True
  | op :: ops, s => UnfittedClone s op ∧ UnfittedClones ops (step sv s op)

theorem inv_run : ∀ (ops : List (Op D)) (s : State C B), Inv s → UnfittedClones sv ops s → Inv (run sv ops s)
  | [], _, h, _ => h
  | op :: ops, s, h, hu => inv_run ops _ (inv_step sv h op hu.1) hu.2

/-- **C10, what holds.** In any history in which only unfitted models are cloned, fitting a model never changes what another model
predicts. Full statement (false, `C10_clone_isolation_violated`): the same without the restriction on the history. -/
theorem C10_clone_isolation_partial (ops : List (Op D)) (hu : UnfittedClones sv ops init)
    (i j : ℕ) (hij : i ≠ j) (d : D) :
    model (step sv (run sv ops init) (.fit i d)) j = model (run sv ops init) j := by
  have hinv := inv_run sv ops init inv_init hu
  generalize run sv ops init = s at hinv
  cases ho : s.objs[i]? with
  | none => simp only [step, ho]
  | some o =>
    simp only [step, ho, model]
    rw [List.getElem?_set_ne hij]
    cases hp : s.objs[j]? with
    | none => rfl
    | some p =>
      simp only [Option.bind_eq_bind, Option.bind_some]
      cases hc : p.coef with
      | none => rfl
      | some c =>
        cases ha : p.intercept with
        | none => rfl
        | some a =>
          have hlt := hinv.1 j p a hp ha
          simp only [Option.bind_some]
          cases hi : o.intercept with
          | none =>
            simp only
            congr 1
            split
            · rw [List.getElem?_set_ne (by omega), List.getElem?_append_left hlt]
            · rw [List.getElem?_append_left hlt]
          | some a0 =>
            have hne : a0 ≠ a := by
              rintro rfl
              exact hij (hinv.2 i j o p a0 ho hp hi ha)
            simp only
            congr 1
            split
            · rw [List.getElem?_set_ne hne]
            · rfl

/-- **C10 is violated**: fit a model on `d1`, clone it, fit the clone on `d2`: the original now predicts with the coefficients of `d1`
and the intercept of `d2`. -/
theorem C10_clone_isolation_violated (d1 d2 : D) :
    model (run sv [.create true, .fit 0 d1] init) 0 = some (sv.coef true d1, sv.intercept d1) ∧
    model (run sv [.create true, .fit 0 d1, .clone 0, .fit 1 d2] init) 0 = some (sv.coef true d1, sv.intercept d2) := by
  simp [run, step, init, model]

/-- Cross-validating an already fitted regression: the estimator of the first fold ends up with the intercept of the second. -/
theorem C10_crossvalidate_fitted_violated (d0 d1 d2 : D) :
    model (run sv [.create true, .fit 0 d0, .clone 0, .fit 1 d1, .clone 0, .fit 2 d2] init) 1 =
      some (sv.coef true d1, sv.intercept d2) := by
  simp [run, step, init, model]

example : UnfittedClones (⟨fun _ d => d, fun d => d, 0⟩ : Solver ℕ ℕ ℕ)
    [.create true, .clone 0, .fit 0 5, .fit 1 6] init := by
  simp [UnfittedClones, UnfittedClone, step, init]

/-! ## C61: refitting -/

/-- **C61, what holds.** After a fit with `FitIntercept`, the model only depends on the last data, whatever happened before.
Missing for the full claim: what `C61_refit_violated` refutes. -/
theorem C61_refit_partial (ops : List (Op D)) (s : State C B) (hs : s = run sv ops init) (hu : UnfittedClones sv ops init)
    (i : ℕ) (o : Obj C) (ho : s.objs[i]? = some o) (hfi : o.fitIntercept = true) (d : D) :
    model (step sv s (.fit i d)) i = some (sv.coef true d, sv.intercept d) := by
  have hinv := inv_run sv ops init inv_init hu
  rw [← hs] at hinv
  have hlt : i < s.objs.length := by
    by_contra hc
    rw [List.getElem?_eq_none (by omega)] at ho
    cases ho
  simp only [step, ho]
  cases hi : o.intercept with
  | none => simp [model, hlt, hfi]
  | some a =>
    have := hinv.1 i o a ho hi
    simp [model, hlt, hfi, this]

/-- **C61 is violated without intercept**: after a fit with intercept, switching `FitIntercept` off and refitting keeps the old
intercept, whereas a fresh model has intercept zero. -/
theorem C61_refit_violated (d1 d2 : D) :
    model (run sv [.create true, .fit 0 d1, .setFitIntercept 0 false, .fit 0 d2] init) 0 =
      some (sv.coef false d2, sv.intercept d1) ∧
    model (run sv [.create false, .fit 0 d2] init) 0 = some (sv.coef false d2, sv.zero) := by
  simp [run, step, init, model]

end Sk.LinClone
