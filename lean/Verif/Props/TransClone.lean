import Verif.Model.TransClone
import Verif.Props.Scale

/-!
# C151: a clone of a scaler and its original
-/
set_option autoImplicit false

namespace Sk.TransClone
open Sk.Scale

variable {D V H : Type}

/-! ## Specification: objects that own their parameters -/

/-- `PartialFit` when each object owns its parameters. -/
def ownPartialFit (I : Impl D V H) (s : ℕ → Option (V × Option H)) (i : ℕ) (o : V × Option H) (d : D) : Option (ℕ → Option (V × Option H)) :=
  if I.skip d then some (Function.update s i (some o))
  else (I.upd o.1 (if I.fresh o.1 then I.h0 else o.2.getD I.h0) d).map (fun r => Function.update s i (some (r.1, some r.2)))

/-- A statement; the clone is a copy. -/
def ownStep (I : Impl D V H) (s : ℕ → Option (V × Option H)) : Op D → Option (ℕ → Option (V × Option H))
  | .create i => some (Function.update s i (some (I.v0, none)))
  | .clone i j => (s i).map (fun o => Function.update s j (some o))
  | .fit i d => (s i).bind (fun o => ownPartialFit I s i (I.reset o.1, o.2) d)
  | .partialFit i d => (s i).bind (fun o => ownPartialFit I s i o d)

def ownRun (I : Impl D V H) (ops : List (Op D)) : Option (ℕ → Option (V × Option H)) := ops.foldlM (ownStep I) (fun _ => none)

/-- No `PartialFit` in the program. -/
def FitOnly (ops : List (Op D)) : Prop := ∀ i d, Op.partialFit i d ∉ ops

/-- Only objects without parameters are cloned. -/
def ClonesUnfitted (I : Impl D V H) (ops : List (Op D)) : Prop :=
  ∀ pre i j post, ops = pre ++ .clone i j :: post → ∀ s, ownRun I pre = some s → ∀ o, s i = some o → o.2 = none

/-! ## The two theorems -/

structure Valid (st : St V H) : Prop where
  lt : ∀ i o p, st.objs i = some o → o.ptr = some p → p < st.free

def Unshared (st : St V H) : Prop := ∀ i j o o' p, i ≠ j → st.objs i = some o → st.objs j = some o' → o.ptr = some p → o'.ptr ≠ some p

theorem view_write (st : St V H) (i a fr : ℕ) (v : V) (r : H) (h : ∀ j, j ≠ i → ∀ o', st.objs j = some o' → o'.ptr ≠ some a) :
    view (⟨Function.update st.objs i (some ⟨v, some a⟩), Function.update st.heap a r, fr⟩ : St V H) = Function.update (view st) i (some (v, some r)) := by
  funext j
  by_cases hj : j = i
  · subst hj; simp [view]
  · simp only [view, Function.update_of_ne hj]
    rcases ho : st.objs j with _ | o'
    · rfl
    · simp only [Option.map_some, Option.some.injEq, Prod.mk.injEq, true_and]
      rcases hp : o'.ptr with _ | q
      · rfl
      · have := h j hj o' ho
        rw [hp] at this
        have hq : q ≠ a := fun e => this (by rw [e])
        simp [Function.update_of_ne hq]

theorem view_obj (st : St V H) (i : ℕ) (o : Obj V) : view { st with objs := Function.update st.objs i (some o) } = Function.update (view st) i (some (o.priv, o.ptr.map st.heap)) := by
  funext j
  by_cases hj : j = i
  · subst hj; simp [view]
  · simp [view, Function.update_of_ne hj]

/-- The address and the content used by `PartialFit`. -/
theorem partialFit_cases (I : Impl D V H) (st : St V H) (i : ℕ) (o : Obj V) (d : D) (ho : ∀ p, o.ptr = some p → p < st.free) :
    (I.skip d = true ∧ partialFit I st i o d = some { st with objs := Function.update st.objs i (some o) }) ∨
    ∃ a fr, I.skip d = false ∧ ((a = st.free ∧ fr = st.free + 1) ∨ (o.ptr = some a ∧ a < st.free ∧ I.fresh o.priv = false ∧ fr = st.free)) ∧
      partialFit I st i o d = (I.upd o.priv (if I.fresh o.priv then I.h0 else (o.ptr.map st.heap).getD I.h0) d).map
        (fun r => ⟨Function.update st.objs i (some ⟨r.1, some a⟩), Function.update st.heap a r.2, fr⟩) := by
  unfold partialFit
  cases hs : I.skip d with
  | true => left; simp
  | false =>
    right
    rcases hp : o.ptr with _ | p
    · exact ⟨st.free, st.free + 1, rfl, Or.inl ⟨rfl, rfl⟩, by simp⟩
    · cases hf : I.fresh o.priv with
      | true => exact ⟨st.free, st.free + 1, rfl, Or.inl ⟨rfl, rfl⟩, by simp⟩
      | false =>
        have := ho p hp
        have hne : p ≠ st.free := by omega
        exact ⟨p, st.free, rfl, Or.inr ⟨rfl, this, rfl, rfl⟩, by simp [hne]⟩

theorem partialFit_view (I : Impl D V H) (st : St V H) (hv : Valid st) (i : ℕ) (o : Obj V) (d : D) (ho : ∀ p, o.ptr = some p → p < st.free)
    (hu : I.fresh o.priv = false → ∀ p, o.ptr = some p → ∀ j, j ≠ i → ∀ o', st.objs j = some o' → o'.ptr ≠ some p) :
    (partialFit I st i o d).map view = ownPartialFit I (view st) i (o.priv, o.ptr.map st.heap) d ∧
    ∀ st', partialFit I st i o d = some st' → Valid st' ∧
      (∀ o', st'.objs i = some o' → o'.ptr = o.ptr ∨ o'.ptr = some st.free) ∧ (∀ j, j ≠ i → st'.objs j = st.objs j) := by
  rcases partialFit_cases I st i o d ho with ⟨hs, he⟩ | ⟨a, fr, hs, ha, he⟩
  · rw [he]
    refine ⟨?_, ?_⟩
    · rw [Option.map_some, view_obj]
      simp [ownPartialFit, hs]
    · intro st' h
      cases h
      refine ⟨⟨?_⟩, ?_, ?_⟩
      · intro j o' p hj hp
        by_cases hji : j = i
        · subst hji
          simp only [Function.update_self] at hj
          cases hj
          exact ho p hp
        · simp only [Function.update_of_ne hji] at hj
          exact hv.lt j o' p hj hp
      · intro o' h
        simp only [Function.update_self] at h
        cases h
        exact Or.inl rfl
      · intro j hj
        exact Function.update_of_ne hj _ _
  · have hfree : ∀ j, j ≠ i → ∀ o', st.objs j = some o' → o'.ptr ≠ some a := by
      rcases ha with ⟨ha, _⟩ | ⟨ha, _, hf, _⟩
      · intro j _ o' hj hc
        have := hv.lt j o' a hj hc
        omega
      · exact hu hf a ha
    rw [he]
    refine ⟨?_, ?_⟩
    · rw [Option.map_map]
      have hfun : (view ∘ fun r : V × H => (⟨Function.update st.objs i (some ⟨r.1, some a⟩), Function.update st.heap a r.2, fr⟩ : St V H)) =
          fun r => Function.update (view st) i (some (r.1, some r.2)) := by
        funext r
        exact view_write st i a fr r.1 r.2 hfree
      rw [hfun]
      simp [ownPartialFit, hs]
    · intro st' h
      rw [Option.map_eq_some_iff] at h
      obtain ⟨r, _, rfl⟩ := h
      refine ⟨⟨?_⟩, ?_, ?_⟩
      · intro j o' p hj hp
        change p < fr
        by_cases hji : j = i
        · subst hji
          simp only [Function.update_self] at hj
          cases hj
          cases hp
          rcases ha with ⟨h1, h2⟩ | ⟨_, h1, _, h2⟩ <;> omega
        · simp only [Function.update_of_ne hji] at hj
          have := hv.lt j o' p hj hp
          rcases ha with ⟨h1, h2⟩ | ⟨_, h1, _, h2⟩ <;> omega
      · intro o' h
        simp only [Function.update_self] at h
        cases h
        rcases ha with ⟨h1, h2⟩ | ⟨h1, _⟩
        · exact Or.inr (by rw [h1])
        · exact Or.inl h1.symm
      · intro j hj
        exact Function.update_of_ne hj _ _

theorem step_create (I : Impl D V H) (st : St V H) (hv : Valid st) (i : ℕ) :
    (step I st (.create i)).map view = ownStep I (view st) (.create i) ∧ ∀ st', step I st (.create i) = some st' → Valid st' := by
  refine ⟨?_, ?_⟩
  · simp only [step, ownStep, Option.map_some, view_obj]; rfl
  · intro st' h
    cases h
    refine ⟨?_⟩
    intro j o p hj hp
    by_cases hji : j = i
    · subst hji
      simp only [Function.update_self] at hj
      cases hj
      cases hp
    · simp only [Function.update_of_ne hji] at hj
      exact hv.lt j o p hj hp

theorem step_clone (I : Impl D V H) (st : St V H) (hv : Valid st) (i j : ℕ) :
    (step I st (.clone i j)).map view = ownStep I (view st) (.clone i j) ∧ ∀ st', step I st (.clone i j) = some st' → Valid st' := by
  simp only [step, ownStep]
  rcases ho : st.objs i with _ | o
  · simp [view, ho]
  · have hvi : view st i = some (o.priv, o.ptr.map st.heap) := by simp [view, ho]
    rw [hvi]
    refine ⟨?_, ?_⟩
    · simp only [Option.map_some, view_obj]
    · intro st' h
      cases h
      refine ⟨?_⟩
      intro k o' p hk hp
      by_cases hkj : k = j
      · subst hkj
        simp only [Function.update_self] at hk
        cases hk
        exact hv.lt i o p ho hp
      · simp only [Function.update_of_ne hkj] at hk
        exact hv.lt k o' p hk hp

theorem step_fit (I : Impl D V H) (hI : ∀ v, I.fresh (I.reset v) = true) (st : St V H) (hv : Valid st) (i : ℕ) (d : D) :
    (step I st (.fit i d)).map view = ownStep I (view st) (.fit i d) ∧ ∀ st', step I st (.fit i d) = some st' → Valid st' := by
  simp only [step, ownStep]
  rcases ho : st.objs i with _ | o
  · simp [view, ho]
  · have hvi : view st i = some (o.priv, o.ptr.map st.heap) := by simp [view, ho]
    rw [hvi]
    simp only [Option.bind_some]
    obtain ⟨h1, h2⟩ := partialFit_view I st hv i { o with priv := I.reset o.priv } d (fun p hp => hv.lt i o p ho hp)
      (fun hf => by simp only [hI] at hf; cases hf)
    exact ⟨h1, fun st' h => (h2 st' h).1⟩

theorem foldlM_snoc {σ α : Type} (f : σ → α → Option σ) (s : σ) (l : List α) (x : α) : (l ++ [x]).foldlM f s = (l.foldlM f s).bind (fun t => f t x) := by
  rw [List.foldlM_append]
  simp only [List.foldlM_cons, List.foldlM_nil, Option.bind_eq_bind]
  congr 1
  funext t
  cases f t x <;> rfl

theorem run_snoc (I : Impl D V H) (ops : List (Op D)) (op : Op D) : run I (ops ++ [op]) = (run I ops).bind (fun st => step I st op) := foldlM_snoc _ _ _ _

theorem ownRun_snoc (I : Impl D V H) (ops : List (Op D)) (op : Op D) : ownRun I (ops ++ [op]) = (ownRun I ops).bind (fun s => ownStep I s op) := foldlM_snoc _ _ _ _

theorem valid_init (I : Impl D V H) : Valid (init I) := ⟨fun i o p h _ => by simp [init] at h⟩

theorem lift (I : Impl D V H) (ops : List (Op D)) (op : Op D) (P : St V H → Prop) (ih : (run I ops).map view = ownRun I ops ∧ ∀ st, run I ops = some st → P st)
    (hstep : ∀ st, run I ops = some st → P st → (step I st op).map view = ownStep I (view st) op ∧ ∀ st', step I st op = some st' → P st') :
    (run I (ops ++ [op])).map view = ownRun I (ops ++ [op]) ∧ ∀ st, run I (ops ++ [op]) = some st → P st := by
  rw [run_snoc, ownRun_snoc, ← ih.1]
  rcases hr : run I ops with _ | st
  · simp
  · obtain ⟨h1, h2⟩ := hstep st hr (ih.2 st hr)
    simp only [Option.bind_some, Option.map_some]
    exact ⟨h1, h2⟩

/-- A scaler whose `Fit` starts with new matrices: in every program of constructions, clones and `Fit`s each object shows what it would show if it owned its parameters, and a panic happens exactly when it would happen there.
Missing for the full claim: what `C151_minmax_violated`, `C151_maxabs_violated`, `C151_std_violated`, `C151_robust_violated` refute. -/
theorem C151_fit_partial (I : Impl D V H) (hI : ∀ v, I.fresh (I.reset v) = true) (ops : List (Op D)) (hops : FitOnly ops) : (run I ops).map view = ownRun I ops := by
  suffices h : (run I ops).map view = ownRun I ops ∧ ∀ st, run I ops = some st → Valid st from h.1
  induction ops using List.reverseRecOn with
  | nil => exact ⟨rfl, fun st h => by cases h; exact valid_init I⟩
  | append_singleton ops op ih =>
    refine lift I ops op Valid (ih (fun i d h => hops i d (List.mem_append_left _ h))) ?_
    intro st _ hv
    cases op with
    | create i => exact step_create I st hv i
    | clone i j => exact step_clone I st hv i j
    | fit i d => exact step_fit I hI st hv i d
    | partialFit i d => exact absurd (List.mem_append_right _ (List.mem_singleton.2 rfl)) (hops i d)

theorem partialFit_unshared (I : Impl D V H) (st : St V H) (hv : Valid st) (hu : Unshared st) (i : ℕ) (o o₀ : Obj V) (h₀ : st.objs i = some o₀) (hoo : o.ptr = o₀.ptr) (d : D) :
    (partialFit I st i o d).map view = ownPartialFit I (view st) i (o.priv, o.ptr.map st.heap) d ∧ ∀ st', partialFit I st i o d = some st' → Valid st' ∧ Unshared st' := by
  have hlt : ∀ p, o.ptr = some p → p < st.free := fun p hp => hv.lt i o₀ p h₀ (by rw [← hoo, hp])
  have hne : ∀ p, o.ptr = some p → ∀ j, j ≠ i → ∀ o', st.objs j = some o' → o'.ptr ≠ some p :=
    fun p hp j hj o' ho' => hu i j o₀ o' p (Ne.symm hj) h₀ ho' (by rw [← hoo, hp])
  obtain ⟨h1, h2⟩ := partialFit_view I st hv i o d hlt (fun _ => hne)
  refine ⟨h1, fun st' h => ?_⟩
  obtain ⟨h3, h4, h5⟩ := h2 st' h
  refine ⟨h3, ?_⟩
  have key : ∀ j, j ≠ i → ∀ o₁ o₂ p, st'.objs i = some o₁ → st'.objs j = some o₂ → o₁.ptr = some p → o₂.ptr ≠ some p := by
    intro j hj o₁ o₂ p hi hj' hp
    rw [h5 j hj] at hj'
    rcases h4 o₁ hi with h | h
    · exact hne p (by rw [← h, hp]) j hj o₂ hj'
    · intro hc
      have := hv.lt j o₂ p hj' hc
      rw [hp] at h
      cases h
      omega
  intro j k o₁ o₂ p hjk hj hk hp hc
  by_cases hji : j = i
  · subst hji
    exact key k (Ne.symm hjk) o₁ o₂ p hj hk hp hc
  · by_cases hki : k = i
    · subst hki
      exact key j hjk o₂ o₁ p hk hj hc hp
    · rw [h5 j hji] at hj
      rw [h5 k hki] at hk
      exact hu j k o₁ o₂ p hjk hj hk hp hc

theorem unshared_update (st : St V H) (hu : Unshared st) (i : ℕ) (o : Obj V) (ho : o.ptr = none) : Unshared { st with objs := Function.update st.objs i (some o) } := by
  intro j k o₁ o₂ p hjk hj hk hp hc
  by_cases hji : j = i
  · subst hji
    simp only [Function.update_self] at hj
    cases hj
    rw [ho] at hp
    cases hp
  · simp only [Function.update_of_ne hji] at hj
    by_cases hki : k = i
    · subst hki
      simp only [Function.update_self] at hk
      cases hk
      rw [ho] at hc
      cases hc
    · simp only [Function.update_of_ne hki] at hk
      exact hu j k o₁ o₂ p hjk hj hk hp hc

/-- Any scaler, with `Fit` and `PartialFit`: the same as long as only objects without parameters are cloned.
Missing for the full claim: what `C151_minmax_violated`, `C151_maxabs_violated`, `C151_std_violated`, `C151_robust_violated` refute. -/
theorem C151_unfitted_partial (I : Impl D V H) (ops : List (Op D)) (hops : ClonesUnfitted I ops) : (run I ops).map view = ownRun I ops := by
  suffices h : (run I ops).map view = ownRun I ops ∧ ∀ st, run I ops = some st → Valid st ∧ Unshared st from h.1
  induction ops using List.reverseRecOn with
  | nil => exact ⟨rfl, fun st h => by cases h; exact ⟨valid_init I, fun i j o o' p _ h => by simp [init] at h⟩⟩
  | append_singleton ops op ih =>
    have ih' := ih (fun pre i j post h => hops pre i j (post ++ [op]) (by rw [h]; simp))
    refine lift I ops op (fun st => Valid st ∧ Unshared st) ih' ?_
    rintro st hr ⟨hv, hu⟩
    cases op with
    | create i =>
      obtain ⟨h1, h2⟩ := step_create I st hv i
      refine ⟨h1, fun st' h => ⟨h2 st' h, ?_⟩⟩
      cases h
      exact unshared_update st hu i _ rfl
    | clone i j =>
      obtain ⟨h1, h2⟩ := step_clone I st hv i j
      refine ⟨h1, fun st' h => ⟨h2 st' h, ?_⟩⟩
      simp only [step] at h
      rcases ho : st.objs i with _ | o
      · rw [ho] at h; cases h
      · rw [ho] at h
        cases h
        have hrun : ownRun I ops = some (view st) := by rw [← ih'.1, hr]; rfl
        have := hops ops i j [] rfl (view st) hrun (o.priv, o.ptr.map st.heap) (by simp [view, ho])
        exact unshared_update st hu j o (by simpa using this)
    | fit i d =>
      simp only [step, ownStep]
      rcases ho : st.objs i with _ | o
      · simp [view, ho]
      · have hvi : view st i = some (o.priv, o.ptr.map st.heap) := by simp [view, ho]
        rw [hvi]
        exact partialFit_unshared I st hv hu i { o with priv := I.reset o.priv } o ho rfl d
    | partialFit i d =>
      simp only [step, ownStep]
      rcases ho : st.objs i with _ | o
      · simp [view, ho]
      · have hvi : view st i = some (o.priv, o.ptr.map st.heap) := by simp [view, ho]
        rw [hvi]
        exact partialFit_unshared I st hv hu i o o ho rfl d

/-! ## The scalers of the library -/

variable {K : Type} [Field K] [LinearOrder K] [IsStrictOrderedRing K]

/-- `Fit` of the min-max, standard and max-abs scalers starts with new matrices.
Missing for the full claim: what `C151_minmax_violated`, `C151_maxabs_violated`, `C151_std_violated`, `C151_robust_violated` refute. -/
theorem C151_scalers_partial (lo hi : K) (sqrt : K → K) :
    (∀ ops, FitOnly ops → (run (minMax lo hi) ops).map view = ownRun (minMax lo hi) ops) ∧
    (∀ ops, FitOnly ops → (run (std sqrt) ops).map view = ownRun (std sqrt) ops) ∧
    (∀ ops, FitOnly ops → (run (maxAbs (K := K)) ops).map view = ownRun maxAbs ops) :=
  ⟨fun ops h => C151_fit_partial _ (fun _ => rfl) ops h, fun ops h => C151_fit_partial _ (fun _ => rfl) ops h, fun ops h => C151_fit_partial _ (fun _ => rfl) ops h⟩

example : FitOnly ([.create 0, .fit 0 [1, 2], .clone 0 1, .fit 1 [5, 9]] : List (Op (List ℚ))) := by
  intro i d h
  simp at h

/-- The original keeps its own parameters, the clone has others. -/
example : (run (minMax (0 : ℚ) 1) [.create 0, .fit 0 [1, 2], .clone 0 1, .fit 1 [5, 9]]).bind (fun st => view st 0) = some (2, some (1, 2, 1, -1)) ∧
    (run (minMax (0 : ℚ) 1) [.create 0, .fit 0 [1, 2], .clone 0 1, .fit 1 [5, 9]]).bind (fun st => view st 1) = some (2, some (5, 9, 1/4, -5/4)) := by
  constructor <;> decide +kernel

example : ClonesUnfitted (robust (1/2 : ℚ) (1/4) (3/4)) [.create 0, .clone 0 1, .fit 0 [1, 2, 3], .partialFit 1 [7, 8]] := by
  intro pre i j post h s hs o ho
  rcases pre with _ | ⟨a, pre⟩
  · simp at h
  · rcases pre with _ | ⟨b, pre⟩
    · simp only [List.cons_append, List.nil_append, List.cons.injEq, Op.clone.injEq] at h
      obtain ⟨rfl, ⟨rfl, rfl⟩, _⟩ := h
      simp only [ownRun, List.foldlM_cons, List.foldlM_nil, ownStep] at hs
      cases hs
      simp at ho
      rw [← ho]
    · exfalso
      simp only [List.cons_append, List.cons.injEq] at h
      obtain ⟨_, _, h⟩ := h
      rcases pre with _ | ⟨c, pre⟩
      · simp at h
      · simp only [List.cons_append, List.cons.injEq] at h
        rcases pre with _ | ⟨c, pre⟩ <;> simp at h

/-- After `s := New(); s.Fit(d₁); c := s.TransformerClone(); c.PartialFit(d₂)` the original shows the shared matrices of the clone with its own fields. -/
theorem shared (I : Impl D V H) (d₁ d₂ : D) (v₁ v₂ : V) (h₁ h₂ : H) (hs₁ : I.skip d₁ = false) (hs₂ : I.skip d₂ = false)
    (hu₁ : I.upd (I.reset I.v0) I.h0 d₁ = some (v₁, h₁)) (hf : I.fresh v₁ = false) (hu₂ : I.upd v₁ h₁ d₂ = some (v₂, h₂)) :
    ∃ before after, run I [.create 0, .fit 0 d₁, .clone 0 1] = some before ∧ run I [.create 0, .fit 0 d₁, .clone 0 1, .partialFit 1 d₂] = some after ∧
      view before 0 = some (v₁, some h₁) ∧ view after 0 = some (v₁, some h₂) ∧ view after 1 = some (v₂, some h₂) := by
  have e1 : run I [.create 0, .fit 0 d₁, .clone 0 1] = some ⟨Function.update (Function.update (Function.update (Function.update (fun _ => none) 0 (some ⟨I.v0, none⟩)) 0 (some ⟨v₁, some 0⟩)) 0 (some ⟨v₁, some 0⟩)) 1 (some ⟨v₁, some 0⟩),
      Function.update (fun _ => I.h0) 0 h₁, 1⟩ := by
    simp [run, init, step, partialFit, hs₁, hu₁]
  refine ⟨_, ⟨Function.update (Function.update (Function.update (fun _ => none) 0 (some ⟨v₁, some 0⟩)) 1 (some ⟨v₁, some 0⟩)) 1 (some ⟨v₂, some 0⟩), Function.update (Function.update (fun _ => I.h0) 0 h₁) 0 h₂, 1⟩, e1, ?_, ?_, ?_, ?_⟩
  · have : ([.create 0, .fit 0 d₁, .clone 0 1, .partialFit 1 d₂] : List (Op D)) = [.create 0, .fit 0 d₁, .clone 0 1] ++ [.partialFit 1 d₂] := rfl
    rw [this, run_snoc, e1]
    simp [step, partialFit, hs₂, hf, hu₂]
  · simp [view]
  · simp [view]
  · simp [view]

/-- The matrices of a `MinMaxScaler`. -/
def quad (s : MinMax K) : K × K × K × K := (s.dmin, s.dmax, s.scale, s.shift)

/-- **C151 is violated** by `PartialFit` on a clone of a fitted `MinMaxScaler`: the original then transforms as a scaler fitted to the rows of both, which are other values as soon as the new rows have a smaller cell; its `NSamplesSeen` is unchanged. -/
theorem C151_minmax_violated (lo hi : K) (xs ys : List K) (hx : xs ≠ []) (hy : ys ≠ []) :
    ∃ before after, run (minMax lo hi) [.create 0, .fit 0 xs, .clone 0 1] = some before ∧ run (minMax lo hi) [.create 0, .fit 0 xs, .clone 0 1, .partialFit 1 ys] = some after ∧
      view before 0 = some (xs.length, some (quad (MinMax.fit lo hi ⟨0, 0, 0, 0, 0⟩ xs))) ∧
      view after 0 = some (xs.length, some (quad (MinMax.fit lo hi ⟨0, 0, 0, 0, 0⟩ (xs ++ ys)))) ∧
      ((∃ y ∈ ys, ∀ x ∈ xs, y < x) → view after 0 ≠ view before 0) := by
  have hseen : (MinMax.fit lo hi ⟨0, 0, 0, 0, 0⟩ xs).seen = xs.length := by
    cases xs with
    | nil => exact absurd rfl hx
    | cons x xs => simp [MinMax.fit, MinMax.partialFit]
  have happ : MinMax.partialFit lo hi (MinMax.fit lo hi ⟨0, 0, 0, 0, 0⟩ xs) ys = MinMax.fit lo hi ⟨0, 0, 0, 0, 0⟩ (xs ++ ys) := by
    have := C17_minmax_incremental lo hi ⟨0, 0, 0, 0, 0⟩ xs hx [ys]
    simpa using this
  obtain ⟨b, a, h1, h2, h3, h4, _⟩ := shared (minMax lo hi) xs ys xs.length (MinMax.fit lo hi ⟨0, 0, 0, 0, 0⟩ (xs ++ ys)).seen
    (quad (MinMax.fit lo hi ⟨0, 0, 0, 0, 0⟩ xs)) (quad (MinMax.fit lo hi ⟨0, 0, 0, 0, 0⟩ (xs ++ ys)))
    (by cases xs <;> simp_all [minMax]) (by cases ys <;> simp_all [minMax]) (by rw [← hseen]; rfl)
    (by cases xs <;> simp_all [minMax]) (by rw [← happ, ← hseen]; rfl)
  refine ⟨b, a, h1, h2, h3, h4, ?_⟩
  rintro ⟨y, hyy, hlt⟩ he
  rw [h3, h4] at he
  simp only [Option.some.injEq, Prod.mk.injEq, true_and, quad] at he
  obtain ⟨m, M, hm, _, hall, hdm, _⟩ := minmax_fit_spec lo hi ⟨0, 0, 0, 0, 0⟩ xs hx
  obtain ⟨m', M', hm', _, hall', hdm', _⟩ := minmax_fit_spec lo hi ⟨0, 0, 0, 0, 0⟩ (xs ++ ys) (by simp [hx])
  have h5 := (hall' y (List.mem_append_right _ hyy)).1
  have h6 := hlt m hm
  have h7 := he.1
  rw [hdm, hdm'] at h7
  rw [h7] at h5
  exact absurd h5 (not_le.2 h6)

/-- **C151 is violated** in the same way by `MaxAbsScaler`. -/
theorem C151_maxabs_violated (xs ys : List K) (hlt : ∃ y ∈ ys, y ≠ 0 ∧ ∀ x ∈ xs, |x| < |y|) :
    ∃ before after m m', run (maxAbs (K := K)) [.create 0, .fit 0 xs, .clone 0 1] = some before ∧ run (maxAbs (K := K)) [.create 0, .fit 0 xs, .clone 0 1, .partialFit 1 ys] = some after ∧
      view before 0 = some ((xs.length, false), some (some m, if 0 < m then m else 1)) ∧ view after 0 = some ((xs.length, false), some (some m', if 0 < m' then m' else 1)) ∧
      m = (xs.map (fun x => |x|)).foldl max 0 ∧ m' = ((xs ++ ys).map (fun x => |x|)).foldl max 0 ∧ m < m' := by
  obtain ⟨b, a, h1, h2, h3, h4, _⟩ := shared (maxAbs (K := K)) xs ys (xs.length, false) (xs.length + ys.length, false)
    (some ((xs.map (fun x => |x|)).foldl max 0), if 0 < (xs.map (fun x => |x|)).foldl max 0 then (xs.map (fun x => |x|)).foldl max 0 else 1)
    (some (((xs ++ ys).map (fun x => |x|)).foldl max 0), if 0 < ((xs ++ ys).map (fun x => |x|)).foldl max 0 then ((xs ++ ys).map (fun x => |x|)).foldl max 0 else 1)
    rfl rfl (by simp [maxAbs, MaxAbs.partialFit, maxabs_fold]) rfl (by simp [maxAbs, MaxAbs.partialFit, maxabs_fold, List.map_append, List.foldl_append])
  refine ⟨b, a, _, _, h1, h2, h3, h4, rfl, rfl, ?_⟩
  obtain ⟨y, hy, hy0, hlt⟩ := hlt
  obtain ⟨_, _, e3⟩ := foldl_max_ge (xs.map (fun x => |x|)) 0
  obtain ⟨_, g2, _⟩ := foldl_max_ge ((xs ++ ys).map (fun x => |x|)) 0
  have hg := g2 |y| (List.mem_map.2 ⟨y, List.mem_append_right _ hy, rfl⟩)
  refine lt_of_lt_of_le ?_ hg
  rcases e3 with e | e
  · rw [e]; exact abs_pos.2 hy0
  · obtain ⟨x, hx, he⟩ := List.mem_map.1 e
    rw [← he]; exact hlt x hx

example : ∃ y ∈ ([3, -7] : List ℚ), y ≠ 0 ∧ ∀ x ∈ ([1, -2] : List ℚ), |x| < |y| := ⟨-7, by simp, by norm_num, by norm_num [abs]⟩

/-- **C151 is violated** by `PartialFit` on a clone of a fitted `StandardScaler`: the original keeps its `Mean` and `Var` and gets the `Scale` of the clone. -/
theorem C151_std_violated (sqrt : K → K) (xs ys : List K) (hx : xs ≠ []) (hy : ys ≠ []) :
    ∃ before after, run (std sqrt) [.create 0, .fit 0 xs, .clone 0 1] = some before ∧ run (std sqrt) [.create 0, .fit 0 xs, .clone 0 1, .partialFit 1 ys] = some after ∧
      view before 0 = some ((xs.length, Stats.mean xs, Stats.pvar xs), some (stdScale sqrt (Stats.pvar xs))) ∧
      ∃ v, view after 0 = some ((xs.length, Stats.mean xs, Stats.pvar xs), some (stdScale sqrt v)) ∧
        view after 1 = some ((xs.length + ys.length, Stats.mean (xs ++ ys), v), some (stdScale sqrt v)) := by
  have hi : incCol xs 0 0 0 = (Stats.mean xs, Stats.pvar xs) := by
    rw [incCol_eq]
    simp only [Nat.cast_zero, mul_zero, zero_add, if_true]
    unfold Stats.mean Stats.pvar Stats.mean
    congr 1 <;> rw [mul_one_div]
  have hm := C19_mean_partial xs ys hy (Stats.pvar xs)
  have hl : xs.length ≠ 0 := by cases xs <;> simp_all
  obtain ⟨b, a, h1, h2, h3, h4, h5⟩ := shared (std sqrt) xs ys (xs.length, Stats.mean xs, Stats.pvar xs)
    (xs.length + ys.length, Stats.mean (xs ++ ys), (incCol ys (Stats.mean xs) (Stats.pvar xs) xs.length).2) (stdScale sqrt (Stats.pvar xs))
    (stdScale sqrt (incCol ys (Stats.mean xs) (Stats.pvar xs) xs.length).2)
    (by cases xs <;> simp_all [std]) (by cases ys <;> simp_all [std]) (by simp [std, hi]) (by cases xs <;> simp_all [std])
    (by simp only [std, hl, if_false]; rw [← hm])
  exact ⟨b, a, h1, h2, h3, _, h4, h5⟩

/-- An original whose scale is changed: `xs = [0, 0]`, `ys = [4, 4]`. -/
example (sqrt : ℚ → ℚ) (h1 : sqrt 1 = 1) (h4 : sqrt 4 = 2) :
    (run (std sqrt) [.create 0, .fit 0 [0, 0], .clone 0 1]).bind (fun st => view st 0) = some ((2, 0, 0), some 1) ∧
    (run (std sqrt) [.create 0, .fit 0 [0, 0], .clone 0 1, .partialFit 1 [4, 4]]).bind (fun st => view st 0) = some ((2, 0, 0), some 2) := by
  constructor <;> simp [run, init, step, partialFit, std, incCol, view, stdScale] <;> norm_num [h1, h4]

/-- **C151 is violated** by `Fit` itself on clones of a fitted `RobustScaler`: two clones fitted to data of the same number of rows, and the original, all show the statistics of the data fitted last. -/
theorem C151_robust_violated (half left right : K) (hh : half ≤ 1) (hl : left ≤ 1) (hr : right ≤ 1) (xs ys zs : List K) (hx : xs ≠ []) (hy : ys.length = xs.length) (hz : zs.length = xs.length) :
    ∃ st r, run (robust half left right) [.create 0, .fit 0 xs, .clone 0 1, .clone 0 2, .fit 1 ys, .fit 2 zs] = some st ∧
      Robust.fit half left right ⟨none, 0, 0⟩ zs = some r ∧ view st 0 = some ((), some r) ∧ view st 1 = some ((), some r) ∧ view st 2 = some ((), some r) := by
  have hfit : ∀ (t : Option (List K)) (a b : K) (ws : List K), ws ≠ [] → (∀ buf, t = some buf → buf.length = ws.length) →
      ∃ r, Robust.fit half left right ⟨t, a, b⟩ ws = some r ∧ Robust.fit half left right ⟨none, 0, 0⟩ ws = some r ∧ ∃ buf, r.tmp = some buf ∧ buf.length = ws.length := by
    intro t a b ws hw ht
    obtain ⟨r, h1, _⟩ := C66_robust_partial half left right hh hl hr ⟨t, a, b⟩ ws hw ht
    have hbuf : (t.getD (List.replicate ws.length 0)).length = ws.length := by
      cases t with
      | none => simp
      | some b => simpa using ht b rfl
    have hdrop : (t.getD (List.replicate ws.length 0)).drop ws.length = [] := by
      rw [List.drop_eq_nil_iff]; omega
    have he : Robust.fit half left right ⟨t, a, b⟩ ws = Robust.fit half left right ⟨none, 0, 0⟩ ws := by
      simp [Robust.fit, hw, hbuf, hdrop]
    refine ⟨r, h1, he ▸ h1, ws.insertionSort (· ≤ ·), ?_, by simp⟩
    unfold Robust.fit at h1
    simp only [hw, if_false, hbuf, lt_irrefl, hdrop, List.append_nil] at h1
    simp only [Option.bind_eq_bind, Option.bind_eq_some_iff] at h1
    obtain ⟨_, _, _, _, _, _, h⟩ := h1
    cases h
    rfl
  have hy0 : ys ≠ [] := by rintro rfl; simp at hy; exact hx (List.length_eq_zero_iff.1 hy.symm)
  have hz0 : zs ≠ [] := by rintro rfl; simp at hz; exact hx (List.length_eq_zero_iff.1 hz.symm)
  obtain ⟨⟨t1, a1, b1⟩, e1, _, buf1, hb1, hl1⟩ := hfit none 0 0 xs hx (by simp)
  obtain ⟨⟨t2, a2, b2⟩, e2, _, buf2, hb2, hl2⟩ := hfit t1 a1 b1 ys hy0 (fun buf h => by simp only at hb1; rw [hb1] at h; cases h; omega)
  obtain ⟨r, e3, e3', _⟩ := hfit t2 a2 b2 zs hz0 (fun buf h => by simp only at hb2; rw [hb2] at h; cases h; omega)
  have sx : xs.isEmpty = false := by cases xs <;> simp_all
  have sy : ys.isEmpty = false := by cases ys <;> simp_all
  have sz : zs.isEmpty = false := by cases zs <;> simp_all
  refine ⟨⟨fun i => if i = 0 ∨ i = 1 ∨ i = 2 then some ⟨(), some 0⟩ else none, fun a => if a = 0 then r else ⟨none, 0, 0⟩, 1⟩, r, ?_, e3', by simp [view], by simp [view], by simp [view]⟩
  simp [run, init, step, partialFit, robust, sx, sy, sz, e1, e2, e3]
  constructor
  · funext i
    by_cases h0 : i = 0
    · subst h0; simp [Function.update]
    · by_cases h1 : i = 1
      · subst h1; simp [Function.update]
      · by_cases h2 : i = 2
        · subst h2; simp [Function.update]
        · simp [Function.update, h0, h1, h2]
  · funext a
    by_cases h0 : a = 0
    · subst h0; simp
    · simp [Function.update, h0]

example : (run (robust (1/2 : ℚ) (1/4) (3/4)) [.create 0, .fit 0 [1, 2, 3], .clone 0 1, .fit 1 [10, 20, 30]]).bind (fun st => (view st 0).bind (fun o => o.2.map Robust.median)) = some 20 := by decide +kernel

end Sk.TransClone
