import Verif.Model.NBClone
import Verif.Props.NaiveBayes
import Verif.Lemmas.ListX
import Mathlib.Tactic.Linarith
import Mathlib.Tactic.NormNum

/-!
# C157: estimators cloned from a Gaussian naive Bayes classifier

The specification gives every estimator a value of its own: cloning copies the value, training replaces it.
-/
set_option autoImplicit false

namespace Sk.NBClone
open Sk.NB

variable {K : Type} [Field K] [LinearOrder K] [IsStrictOrderedRing K]

/-- The value of every estimator, if they did not share anything. -/
def ownStep (tol vs : K) (priors : Option (List K)) (vals : List (Option (Fitted K))) : Op K → Option (List (Option (Fitted K)))
  | .create => some (vals ++ [none])
  | .clone i => (vals[i]?).map (fun v => vals ++ [v])
  | .clear i => (vals[i]?).map (fun _ => vals.set i none)
  | .fit i p S => (vals[i]?).bind (fun v => (NB.fit tol vs priors v p S).map (fun f => vals.set i (some f)))
  | .partialFit i p S classes => (vals[i]?).bind (fun v => (NB.partialFit tol vs priors v p S classes false).map (fun f => vals.set i (some f)))

def ownRun (tol vs : K) (priors : Option (List K)) (ops : List (Op K)) : Option (List (Option (Fitted K))) := ops.foldlM (ownStep tol vs priors) []

/-- The operation trains estimator `i`. -/
def Trains (i : ℕ) (o : Op K) : Prop := (∃ p S, o = .fit i p S) ∨ ∃ p S c, o = .partialFit i p S c

/-- Estimators are cloned before they are trained. -/
def ClonesUntrained (ops : List (Op K)) : Prop := ∀ u i v, ops = u ++ Op.clone i :: v → ∀ o ∈ u, ¬ Trains i o

/-- The state agrees with the values: every object denotes its own value through a cell of its own, and its closure, if any, is its own. -/
structure Rel (ops : List (Op K)) (st : St K) (vals : List (Option (Fitted K))) : Prop where
  len : st.objs.length = vals.length
  val : ∀ (i : ℕ) (o : Obj K), st.objs[i]? = some o → vals[i]? = some (denote st o)
  lt : ∀ (i a : ℕ) (o : Obj K), st.objs[i]? = some o → o.ptr = some a → a < st.heap.length
  sep : ∀ (i j a : ℕ) (o o' : Obj K), st.objs[i]? = some o → st.objs[j]? = some o' → o.ptr = some a → o'.ptr = some a → i = j
  clo : ∀ (i : ℕ) (o : Obj K), st.objs[i]? = some o → o.closure = none ∨ o.closure = some i
  tr : ∀ (i : ℕ) (o : Obj K), st.objs[i]? = some o → o.closure = none → o.ptr = none
  un : ∀ (i : ℕ) (o : Obj K), st.objs[i]? = some o → (∀ op ∈ ops, ¬ Trains i op) → o.closure = none

theorem append_get {A : Type} {l : List A} {x y : A} {i : ℕ} (h : (l ++ [x])[i]? = some y) : l[i]? = some y ∨ (i = l.length ∧ x = y) := by
  rw [List.getElem?_append] at h
  split at h
  · exact Or.inl h
  · rename_i hi
    obtain ⟨hi', e⟩ := List.getElem?_eq_some_iff.mp h
    have : i - l.length = 0 := by simp at hi'; omega
    refine Or.inr ⟨by omega, ?_⟩
    simpa [this] using h

theorem set_get {A : Type} {l : List A} {x y : A} {i j : ℕ} (h : (l.set i x)[j]? = some y) : (j = i ∧ x = y) ∨ (j ≠ i ∧ l[j]? = some y) := by
  rw [List.getElem?_set] at h
  by_cases hij : i = j
  · rw [if_pos hij] at h
    split at h
    · exact Or.inl ⟨hij.symm, by simpa using h⟩
    · simp at h
  · rw [if_neg hij] at h
    exact Or.inr ⟨Ne.symm hij, h⟩

theorem rel_create {ops : List (Op K)} {st : St K} {vals : List (Option (Fitted K))} (h : Rel ops st vals) (o : Obj K) (ho : o.ptr = none) (hc : o.closure = none) (op : Op K) :
    Rel (ops ++ [op]) { st with objs := st.objs ++ [o] } (vals ++ [none]) where
  len := by simp [h.len]
  val i o' hi := by
    rcases append_get hi with hi | ⟨rfl, rfl⟩
    · have := h.val i o' hi
      rw [List.getElem?_append_left (List.getElem?_eq_some_iff.mp this).1]
      exact this
    · rw [h.len]
      simp [denote, ho]
  lt i a o' hi ha := by
    rcases append_get hi with hi | ⟨rfl, rfl⟩
    · exact h.lt i a o' hi ha
    · rw [ho] at ha; simp at ha
  sep i j a o₁ o₂ hi hj h₁ h₂ := by
    rcases append_get hi with hi | ⟨rfl, rfl⟩
    · rcases append_get hj with hj | ⟨rfl, rfl⟩
      · exact h.sep i j a o₁ o₂ hi hj h₁ h₂
      · rw [ho] at h₂; simp at h₂
    · rw [ho] at h₁; simp at h₁
  clo i o' hi := by
    rcases append_get hi with hi | ⟨rfl, rfl⟩
    · exact h.clo i o' hi
    · exact Or.inl hc
  tr i o' hi hn := by
    rcases append_get hi with hi | ⟨rfl, rfl⟩
    · exact h.tr i o' hi hn
    · exact ho
  un i o' hi hn := by
    rcases append_get hi with hi | ⟨rfl, rfl⟩
    · exact h.un i o' hi (fun op' hop => hn op' (List.mem_append_left _ hop))
    · exact hc

theorem rel_clear {ops : List (Op K)} {st : St K} {vals : List (Option (Fitted K))} (h : Rel ops st vals) (i : ℕ) (o : Obj K) (hio : st.objs[i]? = some o) (op : Op K) :
    Rel (ops ++ [op]) { st with objs := st.objs.set i { o with ptr := none } } (vals.set i none) where
  len := by simp [h.len]
  val j o' hj := by
    rcases set_get hj with ⟨rfl, rfl⟩ | ⟨hne, hj⟩
    · have := (List.getElem?_eq_some_iff.mp (h.val j o hio)).1
      simp [denote, this]
    · rw [List.getElem?_set_ne (Ne.symm hne)]
      exact h.val j o' hj
  lt j a o' hj ha := by
    rcases set_get hj with ⟨rfl, rfl⟩ | ⟨hne, hj⟩
    · simp at ha
    · exact h.lt j a o' hj ha
  sep j l a o₁ o₂ hj hl h₁ h₂ := by
    rcases set_get hj with ⟨rfl, rfl⟩ | ⟨hne, hj⟩
    · simp at h₁
    · rcases set_get hl with ⟨rfl, rfl⟩ | ⟨hne', hl⟩
      · simp at h₂
      · exact h.sep j l a o₁ o₂ hj hl h₁ h₂
  clo j o' hj := by
    rcases set_get hj with ⟨rfl, rfl⟩ | ⟨hne, hj⟩
    · exact h.clo j o hio
    · exact h.clo j o' hj
  tr j o' hj hn := by
    rcases set_get hj with ⟨rfl, rfl⟩ | ⟨hne, hj⟩
    · rfl
    · exact h.tr j o' hj hn
  un j o' hj hn := by
    rcases set_get hj with ⟨rfl, rfl⟩ | ⟨hne, hj⟩
    · exact h.un j o hio (fun op' hop => hn op' (List.mem_append_left _ hop))
    · exact h.un j o' hj (fun op' hop => hn op' (List.mem_append_left _ hop))

theorem rel_train {ops : List (Op K)} {st : St K} {vals : List (Option (Fitted K))} (h : Rel ops st vals) (i : ℕ) (o : Obj K) (hio : st.objs[i]? = some o) (f : Fitted K) (op : Op K)
    (hop : Trains i op) (a : ℕ) (heap : List (Cell K)) (ha : heap[a]? = some ⟨f.stats, f.prior⟩) (hlen : st.heap.length ≤ heap.length)
    (hsame : ∀ (j b : ℕ) (o' : Obj K), j ≠ i → st.objs[j]? = some o' → o'.ptr = some b → b ≠ a ∧ heap[b]? = st.heap[b]?) :
    Rel (ops ++ [op]) ⟨st.objs.set i ⟨some a, f.classes, f.eps, some i⟩, heap⟩ (vals.set i (some f)) where
  len := by simp [h.len]
  val j o' hj := by
    rcases set_get hj with ⟨rfl, rfl⟩ | ⟨hne, hj⟩
    · have := (List.getElem?_eq_some_iff.mp (h.val j o hio)).1
      simp [denote, this, ha]
    · rw [List.getElem?_set_ne (Ne.symm hne), h.val j o' hj]
      unfold denote
      cases hp : o'.ptr with
      | none => rfl
      | some b => simp only [Option.bind_some, (hsame j b o' hne hj hp).2]
  lt j b o' hj hb := by
    rcases set_get hj with ⟨rfl, rfl⟩ | ⟨hne, hj⟩
    · simp only [Option.some.injEq] at hb
      subst hb
      exact (List.getElem?_eq_some_iff.mp ha).1
    · exact lt_of_lt_of_le (h.lt j b o' hj hb) hlen
  sep j l b o₁ o₂ hj hl h₁ h₂ := by
    rcases set_get hj with ⟨rfl, rfl⟩ | ⟨hne, hj⟩
    · rcases set_get hl with ⟨rfl, rfl⟩ | ⟨hne', hl⟩
      · rfl
      · simp only [Option.some.injEq] at h₁
        exact absurd h₁.symm (hsame l b o₂ hne' hl h₂).1
    · rcases set_get hl with ⟨e, e'⟩ | ⟨hne', hl⟩
      · rw [← e'] at h₂
        simp only [Option.some.injEq] at h₂
        exact absurd h₂.symm (hsame j b o₁ hne hj h₁).1
      · exact h.sep j l b o₁ o₂ hj hl h₁ h₂
  clo j o' hj := by
    rcases set_get hj with ⟨rfl, rfl⟩ | ⟨hne, hj⟩
    · exact Or.inr rfl
    · exact h.clo j o' hj
  tr j o' hj hn := by
    rcases set_get hj with ⟨rfl, rfl⟩ | ⟨hne, hj⟩
    · simp at hn
    · exact h.tr j o' hj hn
  un j o' hj hn := by
    rcases set_get hj with ⟨rfl, rfl⟩ | ⟨hne, hj⟩
    · exact absurd hop (hn op (by simp))
    · exact h.un j o' hj (fun op' hop => hn op' (List.mem_append_left _ hop))

/-- Either both runs panicked or the states agree. -/
def Agree (ops : List (Op K)) (r : Option (St K)) (v : Option (List (Option (Fitted K)))) : Prop :=
  (r = none ∧ v = none) ∨ ∃ st vals, r = some st ∧ v = some vals ∧ Rel ops st vals

theorem agree_train {ops : List (Op K)} {st : St K} {vals : List (Option (Fitted K))} (h : Rel ops st vals) (tol vs : K) (priors : Option (List K)) (i p : ℕ) (S : List (Sample K)) (classes : List K)
    (refit : Bool) (op : Op K) (hop : Trains i op) :
    Agree (ops ++ [op]) (partialFit tol vs priors st i p S classes refit)
      ((vals[i]?).bind (fun v => (NB.partialFit tol vs priors v p S classes refit).map (fun f => vals.set i (some f)))) := by
  unfold partialFit
  cases hio : st.objs[i]? with
  | none =>
    left
    have : vals[i]? = none := by
      rw [List.getElem?_eq_none_iff] at hio ⊢
      rw [← h.len]; exact hio
    rw [this]
    exact ⟨rfl, rfl⟩
  | some o =>
    rw [h.val i o hio]
    simp only [Option.bind_eq_bind, Option.bind_some]
    cases hf : NB.partialFit tol vs priors (denote st o) p S classes refit with
    | none => exact Or.inl ⟨rfl, rfl⟩
    | some f =>
      right
      cases hp : o.ptr with
      | some a =>
        refine ⟨_, _, rfl, rfl, ?_⟩
        have halt := h.lt i a o hio hp
        refine rel_train h i o hio f op hop a _ (by rw [List.getElem?_set_self halt]) (by simp) ?_
        intro j b o' hne hj hb
        have hba : b ≠ a := by rintro rfl; exact hne (h.sep j i b o' o hj hio hb hp)
        exact ⟨hba, List.getElem?_set_ne (Ne.symm hba)⟩
      | none =>
        refine ⟨_, _, rfl, rfl, ?_⟩
        refine rel_train h i o hio f op hop st.heap.length _ (by simp) (by simp) ?_
        intro j b o' hne hj hb
        have := h.lt j b o' hj hb
        exact ⟨by omega, List.getElem?_append_left this⟩

theorem foldlM_snoc {σ α : Type} (f : σ → α → Option σ) (s : σ) (l : List α) (x : α) : (l ++ [x]).foldlM f s = (l.foldlM f s).bind (fun t => f t x) := by
  rw [List.foldlM_append]
  cases l.foldlM f s <;> simp

theorem agree (tol vs : K) (priors : Option (List K)) (ops : List (Op K)) (hops : ClonesUntrained ops) : Agree ops (run tol vs priors ops) (ownRun tol vs priors ops) := by
  induction ops using List.reverseRecOn with
  | nil =>
    right
    exact ⟨⟨[], []⟩, [], rfl, rfl, ⟨rfl, by simp, by simp, by simp, by simp, by simp, by simp⟩⟩
  | append_singleton ops op ih =>
    have hl : ClonesUntrained ops := fun u i v he => hops u i (v ++ [op]) (by rw [he]; simp)
    unfold run ownRun
    rw [foldlM_snoc, foldlM_snoc]
    rcases ih hl with ⟨h1, h2⟩ | ⟨st, vals, h1, h2, h⟩
    · left
      unfold run at h1
      unfold ownRun at h2
      rw [h1, h2]
      exact ⟨rfl, rfl⟩
    · unfold run at h1
      unfold ownRun at h2
      rw [h1, h2]
      simp only [Option.bind_some]
      have hnone : ∀ i : ℕ, st.objs[i]? = none → vals[i]? = none := by
        intro i hi
        rw [List.getElem?_eq_none_iff] at hi ⊢
        rw [← h.len]; exact hi
      cases op with
      | create => exact Or.inr ⟨_, _, rfl, rfl, rel_create h _ rfl rfl _⟩
      | clone i =>
        show Agree _ ((st.objs[i]?).map _) ((vals[i]?).map _)
        cases hio : st.objs[i]? with
        | none => rw [hnone i hio]; exact Or.inl ⟨rfl, rfl⟩
        | some o =>
          have hc := h.un i o hio (hops ops i [] rfl)
          have hp := h.tr i o hio hc
          rw [h.val i o hio]
          have hd : denote st o = none := by unfold denote; rw [hp]; rfl
          rw [hd]
          exact Or.inr ⟨_, _, rfl, rfl, rel_create h o hp hc _⟩
      | clear i =>
        show Agree _ ((st.objs[i]?).map _) ((vals[i]?).map _)
        cases hio : st.objs[i]? with
        | none => rw [hnone i hio]; exact Or.inl ⟨rfl, rfl⟩
        | some o =>
          rw [h.val i o hio]
          exact Or.inr ⟨_, _, rfl, rfl, rel_clear h i o hio _⟩
      | fit i p S => exact agree_train h tol vs priors i p S _ true _ (Or.inl ⟨p, S, rfl⟩)
      | partialFit i p S classes => exact agree_train h tol vs priors i p S classes false _ (Or.inr ⟨p, S, classes, rfl⟩)

/-- What the predictions of estimator `i` depend on, if it shared nothing. -/
def shows (vals : List (Option (Fitted K))) (i : ℕ) : Option (List K × Fitted K) := (vals[i]?).join.map (fun f => (f.classes, f))

/-- C157: as long as estimators are cloned before they are trained, every program runs as if estimators shared nothing: it panics exactly when the separate ones would, and every prediction reads
the values that its own estimator was trained to.
Missing for the full claim: what `C157_fit_violated`, `C157_partial_fit_violated`, `C157_follows_violated`, `C157_follows_panic_violated` refute. -/
theorem C157_untrained_partial (tol vs : K) (priors : Option (List K)) (ops : List (Op K)) (hops : ClonesUntrained ops) :
    (run tol vs priors ops).map reads = (ownRun tol vs priors ops).map shows := by
  rcases agree tol vs priors ops hops with ⟨h1, h2⟩ | ⟨st, vals, h1, h2, h⟩
  · rw [h1, h2]; rfl
  · rw [h1, h2]
    simp only [Option.map_some, Option.some.injEq]
    funext i
    unfold reads shows
    cases hio : st.objs[i]? with
    | none =>
      have : vals[i]? = none := by
        rw [List.getElem?_eq_none_iff] at hio ⊢
        rw [← h.len]; exact hio
      rw [this]; rfl
    | some o =>
      rw [h.val i o hio]
      simp only [Option.bind_eq_bind, Option.bind_some, Option.join_some]
      rcases h.clo i o hio with hc | hc
      · have hp := h.tr i o hio hc
        have hd : denote st o = none := by unfold denote; rw [hp]; rfl
        rw [hc, hd]; rfl
      · rw [hc]
        simp only [Option.bind_some, hio]
        cases hd : denote st o with
        | none => rfl
        | some f =>
          have : f.classes = o.classes := by
            unfold denote at hd
            cases hp : o.ptr with
            | none => rw [hp] at hd; simp at hd
            | some a =>
              rw [hp] at hd
              simp only [Option.bind_some, Option.map_eq_some_iff] at hd
              obtain ⟨c, -, rfl⟩ := hd
              rfl
          simp [this]

/-! ## Predictions -/

/-- One class, one prior and one row of statistics for each other, and at least one. -/
structure Wf (f : Fitted K) : Prop where
  stats : f.stats.length = f.classes.length
  prior : f.prior.length = f.classes.length
  ne : f.classes ≠ []

theorem partialFit_wf (tol vs : K) (priors : Option (List K)) (st : Option (Fitted K)) (hst : ∀ g, st = some g → Wf g) (p : ℕ) (S : List (Sample K)) (classes : List K) (refit : Bool) (f : Fitted K)
    (hf : NB.partialFit tol vs priors st p S classes refit = some f) : Wf f := by
  have hS : S ≠ [] := by
    rintro rfl
    unfold NB.partialFit maxVar at hf
    cases p with
    | zero => simp at hf
    | succ p =>
      have : (List.range (p + 1)).mapM (fun c => (meanvar (column ([] : List (Sample K)) c)).map (fun r => r.2.1)) = none := by
        rw [List.range_succ_eq_map, List.mapM_cons]
        simp [meanvar, column]
      rw [this] at hf
      simp at hf
  unfold NB.partialFit at hf
  cases hm : maxVar p S with
  | none => rw [hm] at hf; simp at hf
  | some mv =>
    rw [hm] at hf
    simp only [Option.bind_eq_bind, Option.bind_some] at hf
    cases hq : prepare tol priors (vs * mv) st p classes refit with
    | none => rw [hq] at hf; simp at hf
    | some q =>
      rw [hq] at hf
      simp only [Option.bind_some] at hf
      by_cases hany : S.any (fun s => s.y ∉ q.classes) = true
      · rw [if_pos hany] at hf; simp at hf
      · rw [if_neg hany] at hf
        have hne : q.classes ≠ [] := by
          intro h0
          apply hany
          obtain ⟨s, S', rfl⟩ := List.exists_cons_of_ne_nil hS
          simp [h0]
        have hqw : q.stats.length = q.classes.length ∧ q.prior.length = q.classes.length := by
          cases st with
          | none =>
            simp only [prepare] at hq
            split at hq
            · simp at hq
            · rw [Option.map_eq_some_iff] at hq
              obtain ⟨pr, hpr, rfl⟩ := hq
              refine ⟨by simp, ?_⟩
              cases priors with
              | none => simp only [Option.some.injEq] at hpr; simp [← hpr]
              | some pr' =>
                simp only at hpr
                split at hpr
                · simp at hpr
                · rename_i hlen
                  split at hpr
                  · simp at hpr
                  · split at hpr
                    · simp at hpr
                    · simp only [Option.some.injEq] at hpr
                      rw [← hpr]
                      exact not_not.mp hlen
          | some g =>
            have hg := hst g rfl
            simp only [prepare] at hq
            split at hq
            · simp at hq
            · simp only [Option.some.injEq] at hq
              subst hq
              cases refit with
              | true => simp at hne
              | false => simpa using ⟨hg.stats, hg.prior⟩
        rw [Option.bind_eq_some_iff] at hf
        obtain ⟨ss, hss, hf⟩ := hf
        have hlen : ss.length = q.stats.length := by
          have := (ListX.mapM_forall2 _ _ _).mp hss
          have := this.length_eq
          simpa using this.symm
        cases priors with
        | some _ =>
          simp only [Option.bind_some, Option.some.injEq] at hf
          subst hf
          exact ⟨by simp [hlen, hqw.1], hqw.2, hne⟩
        | none =>
          simp only at hf
          split at hf
          · simp at hf
          · simp only [Option.bind_some, Option.some.injEq] at hf
            subst hf
            exact ⟨by simp [hlen, hqw.1], by simp [hlen, hqw.1], hne⟩

theorem ownRun_wf (tol vs : K) (priors : Option (List K)) (ops : List (Op K)) : ∀ vals, ownRun tol vs priors ops = some vals → ∀ (i : ℕ) (f : Fitted K), vals[i]? = some (some f) → Wf f := by
  induction ops using List.reverseRecOn with
  | nil =>
    intro vals h i f hi
    simp only [ownRun, List.foldlM_nil, Option.pure_def, Option.some.injEq] at h
    subst h; simp at hi
  | append_singleton ops op ih =>
    intro vals h i f hi
    unfold ownRun at h ih
    rw [foldlM_snoc, Option.bind_eq_some_iff] at h
    obtain ⟨v0, h0, hs⟩ := h
    have ih := ih v0 h0
    have train : ∀ (j : ℕ) (g : Fitted K), Wf g → vals = v0.set j (some g) → Wf f := by
      intro j g hg e
      subst e
      rcases set_get hi with ⟨rfl, e⟩ | ⟨hne, hi⟩
      · simp only [Option.some.injEq] at e; exact e ▸ hg
      · exact ih i f hi
    have hst : ∀ (j : ℕ) (v : Option (Fitted K)), v0[j]? = some v → ∀ g, v = some g → Wf g := by
      rintro j v hj g rfl
      exact ih j g hj
    cases op with
    | create =>
      simp only [ownStep, Option.some.injEq] at hs
      subst hs
      rcases append_get hi with hi | ⟨-, e⟩
      · exact ih i f hi
      · simp at e
    | clone j =>
      simp only [ownStep, Option.map_eq_some_iff] at hs
      obtain ⟨v, hv, rfl⟩ := hs
      rcases append_get hi with hi | ⟨-, rfl⟩
      · exact ih i f hi
      · exact ih j f hv
    | clear j =>
      simp only [ownStep, Option.map_eq_some_iff] at hs
      obtain ⟨v, hv, rfl⟩ := hs
      rcases set_get hi with ⟨rfl, e⟩ | ⟨hne, hi⟩
      · simp at e
      · exact ih i f hi
    | fit j p S =>
      simp only [ownStep, Option.bind_eq_some_iff, Option.map_eq_some_iff] at hs
      obtain ⟨v, hv, g, hg, rfl⟩ := hs
      exact train j g (partialFit_wf tol vs priors v (hst j v hv) p S _ true g hg) rfl
    | partialFit j p S classes =>
      simp only [ownStep, Option.bind_eq_some_iff, Option.map_eq_some_iff] at hs
      obtain ⟨v, hv, g, hg, rfl⟩ := hs
      exact train j g (partialFit_wf tol vs priors v (hst j v hv) p S _ false g hg) rfl

/-- C157, predictions: as long as estimators are cloned before they are trained, `Predict` of every estimator is that of C45 on its own values, and panics if it was not trained.
Missing for the full claim: what `C157_fit_violated`, `C157_partial_fit_violated`, `C157_follows_violated`, `C157_follows_panic_violated` refute. -/
theorem C157_predict_partial (tol vs : ℝ) (priors : Option (List ℝ)) (ops : List (Op ℝ)) (hops : ClonesUntrained ops) (st : St ℝ) (vals : List (Option (Fitted ℝ)))
    (hr : run tol vs priors ops = some st) (ho : ownRun tol vs priors ops = some vals) (i : ℕ) (x : List ℝ) :
    predict st i x = ((vals[i]?).join).bind (fun f => NB.predict f x) := by
  have h := C157_untrained_partial tol vs priors ops hops
  rw [hr, ho] at h
  simp only [Option.map_some, Option.some.injEq] at h
  have hi := congrFun h i
  unfold predict
  rw [hi]
  unfold shows
  cases hv : vals[i]? with
  | none => rfl
  | some v =>
    cases v with
    | none => rfl
    | some f =>
      have hw := ownRun_wf tol vs priors ops vals ho i f hv
      have hl : (jll f x).length = f.classes.length := by
        unfold jll
        rw [List.length_zipWith, hw.stats, hw.prior, min_self]
      simp only [Option.join_some, Option.map_some, Option.bind_some]
      rw [if_neg (by rw [hl]; simp [hw.ne]), hl]
      unfold NB.predict
      rw [if_neg (by intro h0; rw [h0] at hl; exact hw.ne (List.length_eq_zero_iff.mp hl.symm))]
      simp

/-! ## Clones of trained estimators -/

/-- Training a clone of a trained estimator with `Fit` panics, whatever the data. -/
theorem C157_fit_violated (tol vs : K) (priors : Option (List K)) (p p' : ℕ) (S S' : List (Sample K)) (hS' : S' ≠ []) :
    run tol vs priors [.create, .fit 0 p S, .clone 0, .fit 1 p' S'] = none := by
  simp only [run, List.foldlM_cons, List.foldlM_nil, step, Option.bind_eq_bind, Option.bind_some, partialFit, List.nil_append, List.getElem?_cons_zero]
  cases hf : NB.partialFit tol vs priors (denote (⟨[⟨none, [], 0, none⟩], []⟩ : St K) ⟨none, [], 0, none⟩) p S (npUnique (S.map Sample.y)) true with
  | none => rfl
  | some f =>
    have h := C86_refit_violated tol vs priors ⟨f.classes, f.stats, f.prior, f.eps⟩ p' S' hS'
    unfold NB.fit at h
    simp [denote, h]

/-- Training a clone with `PartialFit` changes its original: the original now predicts from the statistics of the clone. -/
theorem C157_partial_fit_violated (tol vs : K) (priors : Option (List K)) (p p' : ℕ) (S S' : List (Sample K)) (classes : List K) (f f' : Fitted K)
    (hf : NB.fit tol vs priors none p S = some f) (hf' : NB.partialFit tol vs priors (some f) p' S' classes false = some f') :
    ((run tol vs priors [.create, .fit 0 p S, .clone 0, .partialFit 1 p' S' classes]).bind (fun st => reads st 0)) =
      some (f.classes, { f with stats := f'.stats, prior := f'.prior }) := by
  unfold NB.fit at hf
  have hd : denote (⟨[⟨none, [], 0, none⟩], []⟩ : St K) ⟨none, [], 0, none⟩ = none := rfl
  simp only [run, List.foldlM_cons, List.foldlM_nil, step, Option.bind_eq_bind, Option.bind_some, partialFit, List.nil_append, List.getElem?_cons_zero, hd, hf]
  have e : (⟨f.classes, f.stats, f.prior, f.eps⟩ : Fitted K) = f := rfl
  simp [denote, hf', reads]

/-- A clone does not keep what it was cloned with: when its original is trained anew (after `Theta = nil`), the clone predicts from the new statistics of the original, with its own old class labels. -/
theorem C157_follows_violated (tol vs : K) (priors : Option (List K)) (p p' : ℕ) (S S' : List (Sample K)) (f f' : Fitted K)
    (hf : NB.fit tol vs priors none p S = some f) (hf' : NB.fit tol vs priors none p' S' = some f') :
    ((run tol vs priors [.create, .fit 0 p S, .clone 0, .clear 0, .fit 0 p' S']).bind (fun st => reads st 1)) = some (f.classes, f') := by
  unfold NB.fit at hf hf'
  have hd : denote (⟨[⟨none, [], 0, none⟩], []⟩ : St K) ⟨none, [], 0, none⟩ = none := rfl
  simp only [run, List.foldlM_cons, List.foldlM_nil, step, Option.bind_eq_bind, Option.bind_some, partialFit, List.nil_append, List.getElem?_cons_zero, hd, hf]
  simp [denote, hf', reads]

/-- So if the original now has more classes than before, `Predict` of the clone panics. -/
theorem C157_follows_panic_violated (tol vs : ℝ) (priors : Option (List ℝ)) (p p' : ℕ) (S S' : List (Sample ℝ)) (f f' : Fitted ℝ)
    (hf : NB.fit tol vs priors none p S = some f) (hf' : NB.fit tol vs priors none p' S' = some f') (hlt : f.classes.length < f'.classes.length) (x : List ℝ) (st : St ℝ)
    (hst : run tol vs priors [.create, .fit 0 p S, .clone 0, .clear 0, .fit 0 p' S'] = some st) : predict st 1 x = none := by
  have h := C157_follows_violated tol vs priors p p' S S' f f' hf hf'
  rw [hst, Option.bind_some] at h
  unfold predict
  rw [h]
  have hw : Wf f' := partialFit_wf tol vs priors none (by simp) p' S' _ true f' hf'
  have hl : (jll f' x).length = f'.classes.length := by
    unfold jll
    rw [List.length_zipWith, hw.stats, hw.prior, min_self]
  simp only
  rw [if_pos (Or.inl (by rw [hl]; exact hlt))]

section Examples

private def S1 : List (Sample ℚ) := [⟨[0], 0, 1⟩, ⟨[2], 0, 1⟩, ⟨[10], 1, 1⟩, ⟨[12], 1, 1⟩]
private def S2 : List (Sample ℚ) := [⟨[100], 0, 1⟩, ⟨[102], 0, 1⟩]

example : ClonesUntrained ([.create, .clone 0, .fit 0 1 S1, .partialFit 1 1 S1 [0, 1, 2]] : List (Op ℚ)) := by
  intro u i v h o ho
  match u, h with
  | [], h => simp at h
  | [o'], h =>
    simp at h
    simp only [List.mem_singleton] at ho
    rw [ho, ← h.1]
    rintro (⟨p, S, e⟩ | ⟨p, S, c, e⟩) <;> simp at e
  | [o', o''], h => simp at h
  | [o', o'', o'''], h => simp at h
  | o' :: o'' :: o''' :: o4 :: u, h => simp at h

/-- The mean of class 0 of the original goes from 1 to 51 when the clone is trained further. -/
example : ((run (1/1000000) 0 none [.create, .fit 0 1 S1, .clone 0]).bind (fun st => reads st 0)).map (fun r => r.2.stats.map Stat.mu) = some [[1], [11]] ∧
    ((run (1/1000000) 0 none [.create, .fit 0 1 S1, .clone 0, .partialFit 1 1 S2 []]).bind (fun st => reads st 0)).map (fun r => r.2.stats.map Stat.mu) = some [[51], [11]] := by
  constructor <;> decide +kernel

example : ((run (1/1000000) 0 none [.create, .fit 0 1 S1, .clone 0, .clear 0, .fit 0 1 S2]).bind (fun st => reads st 1)).map (fun r => (r.1, r.2.stats.map Stat.mu)) = some ([0, 1], [[101]]) := by
  decide +kernel

end Examples

end Sk.NBClone
