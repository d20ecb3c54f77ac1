import Verif.Model.SvmState
import Verif.Props.NBClone
import Verif.Lemmas.ListX
import Mathlib.Tactic.Linarith
import Mathlib.Tactic.NormNum
import Mathlib.Tactic.FieldSimp

/-!
# C158: support vector estimators as objects

The specification gives every estimator the settings its caller gave it, and the trained outputs; cloning copies, training one output does not look at the others.
-/
set_option autoImplicit false

namespace Sk.SvmState
open Sk.NBClone (append_get set_get foldlM_snoc)

variable {K : Type} [Field K] [LinearOrder K] [IsStrictOrderedRing K] {D : Type}

/-- The value of an estimator: settings as assigned by the caller, the width of the data by which a nonpositive gamma was first replaced since it was assigned, and what it was trained to. -/
structure Val (K : Type) where
  gamma : K
  rest : Rest K
  usedWidth : Option ℕ
  trained : Option (List (Model K))

/-- The gamma asked for: the one assigned, or one over the number of features when that is not positive. -/
def askedGamma (v : Val K) (n : ℕ) : K := if 0 < v.gamma then v.gamma else 1 / (n : K)

/-- The settings with an iteration bound. -/
def bounded (r : Rest K) : Rest K := if 0 < r.maxIter then r else { r with maxIter := 2147483647 }

/-- Training on all columns of targets, each by itself. -/
def trained (F : Fns K) (solve : Solve K D) (gamma : K) (r : Rest K) (X Y : List (List K)) (d : ℕ → D) : Option (List (Model K)) :=
  (kernelOf F gamma r).bind (fun k => (List.range Y.length).mapM (fun j => (Y[j]?).bind (fun y => trainOutput solve k (bounded r) X y (d j))))

def ownStep (F : Fns K) (solve : Solve K D) (vals : List (Val K)) : Op K D → Option (List (Val K))
  | .create => some (vals ++ [⟨0, ⟨1, 1 / 10, .name "rbf", 3, 0, 1 / 1000, 0⟩, none, none⟩])
  | .clone i => (vals[i]?).map (fun v => vals ++ [v])
  | .setGamma i g => (vals[i]?).map (fun v => vals.set i { v with gamma := g, usedWidth := none })
  | .setRest i r => (vals[i]?).map (fun v => vals.set i { v with rest := r })
  | .fit i X Y d => (vals[i]?).bind (fun v => (trained F solve (askedGamma v (width X)) v.rest X Y d).map (fun ms =>
      vals.set i { v with usedWidth := if v.usedWidth = none then some (width X) else v.usedWidth, trained := some ms }))

def ownRun (F : Fns K) (solve : Solve K D) (ops : List (Op K D)) : Option (List (Val K)) := ops.foldlM (ownStep F solve) []

/-- What `Predict` of an estimator with this value gives. -/
def ownPredict (binary : Bool) (vals : List (Val K)) (i : ℕ) (x : List K) : Option (List K) :=
  ((vals[i]?).bind (fun v => v.trained)).map (fun ms => ms.map (fun M => if binary then (if 0 ≤ decision M x then 1 else 0) else decision M x))

/-- Whenever an estimator with a nonpositive gamma is fitted, the data have as many features (at least one) as those of the first fit since gamma was assigned. -/
def SameWidth (F : Fns K) (solve : Solve K D) (ops : List (Op K D)) : Prop :=
  ∀ u i X Y d v, ops = u ++ Op.fit i X Y d :: v → ∀ vals val, ownRun F solve u = some vals → vals[i]? = some val → val.gamma ≤ 0 →
    0 < width X ∧ (val.usedWidth = none ∨ val.usedWidth = some (width X))

/-- An object and its value. -/
structure Match (heap : List (List (Model K))) (o : Obj K) (v : Val K) : Prop where
  gammaPos : 0 < v.gamma → o.gamma = v.gamma
  gamma0 : ¬ 0 < v.gamma → v.usedWidth = none → o.gamma = v.gamma
  gammaN : ∀ n : ℕ, ¬ 0 < v.gamma → v.usedWidth = some n → 0 < n ∧ o.gamma = 1 / (n : K)
  rest : bounded o.rest = bounded v.rest
  kern : o.rest.kernel = v.rest.kernel ∧ o.rest.coef0 = v.rest.coef0 ∧ o.rest.degree = v.rest.degree
  cell : o.ptr.bind (fun a => heap[a]?) = v.trained
  lt : ∀ a, o.ptr = some a → a < heap.length
  nOut : ∀ ms, v.trained = some ms → o.nOut = ms.length

structure Rel (st : St K) (vals : List (Val K)) : Prop where
  len : st.objs.length = vals.length
  val : ∀ (i : ℕ) (o : Obj K), st.objs[i]? = some o → ∃ v, vals[i]? = some v ∧ Match st.heap o v

theorem Match.grow {heap : List (List (Model K))} {o : Obj K} {v : Val K} (h : Match heap o v) (m : List (Model K)) : Match (heap ++ [m]) o v :=
  { h with
    cell := by
      rw [← h.cell]
      cases hp : o.ptr with
      | none => rfl
      | some a => exact List.getElem?_append_left (h.lt a hp)
    lt := fun a ha => by
      have := h.lt a ha
      simp
      omega }

theorem rel_append {st : St K} {vals : List (Val K)} (h : Rel st vals) (o : Obj K) (v : Val K) (hm : Match st.heap o v) : Rel { st with objs := st.objs ++ [o] } (vals ++ [v]) where
  len := by simp [h.len]
  val i o' hi := by
    rcases append_get hi with hi | ⟨rfl, rfl⟩
    · obtain ⟨v', hv, hm'⟩ := h.val i o' hi
      exact ⟨v', by rw [List.getElem?_append_left (List.getElem?_eq_some_iff.mp hv).1]; exact hv, hm'⟩
    · exact ⟨v, by rw [h.len]; simp, hm⟩

theorem rel_set {st : St K} {vals : List (Val K)} (h : Rel st vals) (i : ℕ) (o₀ o : Obj K) (v : Val K) (hio : st.objs[i]? = some o₀) (hm : Match st.heap o v) :
    Rel { st with objs := st.objs.set i o } (vals.set i v) where
  len := by simp [h.len]
  val j o' hj := by
    rcases set_get hj with ⟨e, e'⟩ | ⟨hne, hj⟩
    · subst e; subst e'
      obtain ⟨v', hv, -⟩ := h.val j o₀ hio
      exact ⟨v, by rw [List.getElem?_set_self (List.getElem?_eq_some_iff.mp hv).1], hm⟩
    · obtain ⟨v', hv, hm'⟩ := h.val j o' hj
      exact ⟨v', by rw [List.getElem?_set_ne (Ne.symm hne)]; exact hv, hm'⟩

theorem rel_grow {st : St K} {vals : List (Val K)} (h : Rel st vals) (m : List (Model K)) : Rel { st with heap := st.heap ++ [m] } vals where
  len := h.len
  val i o hi := by
    obtain ⟨v, hv, hm⟩ := h.val i o hi
    exact ⟨v, hv, hm.grow m⟩

/-- Either both runs panicked or the states agree. -/
def Agree (r : Option (St K)) (v : Option (List (Val K))) : Prop := (r = none ∧ v = none) ∨ ∃ st vals, r = some st ∧ v = some vals ∧ Rel st vals

theorem mapM_length {A B : Type} {f : A → Option B} {l : List A} {r : List B} (h : l.mapM f = some r) : r.length = l.length :=
  ((ListX.mapM_forall2 _ _ _).mp h).length_eq.symm

theorem agree_fit (F : Fns K) (solve : Solve K D) {st : St K} {vals : List (Val K)} (h : Rel st vals) (i : ℕ) (X Y : List (List K)) (d : ℕ → D)
    (hw : ∀ val, vals[i]? = some val → val.gamma ≤ 0 → 0 < width X ∧ (val.usedWidth = none ∨ val.usedWidth = some (width X))) :
    Agree (fit F solve st i X Y d) ((vals[i]?).bind (fun v => (trained F solve (askedGamma v (width X)) v.rest X Y d).map (fun ms =>
      vals.set i { v with usedWidth := if v.usedWidth = none then some (width X) else v.usedWidth, trained := some ms }))) := by
  unfold fit
  cases hio : st.objs[i]? with
  | none =>
    left
    have : vals[i]? = none := by
      rw [List.getElem?_eq_none_iff] at hio ⊢
      rw [← h.len]; exact hio
    rw [this]
    exact ⟨rfl, rfl⟩
  | some o =>
    obtain ⟨v, hv, hm⟩ := h.val i o hio
    rw [hv]
    have hw := hw v hv
    have hg : (if o.gamma ≤ 0 then 1 / (width X : K) else o.gamma) = askedGamma v (width X) := by
      unfold askedGamma
      by_cases hp : 0 < v.gamma
      · rw [if_pos hp, hm.gammaPos hp, if_neg (not_le.mpr hp)]
      · rw [if_neg hp]
        obtain ⟨h0, hu | hu⟩ := hw (not_lt.mp hp)
        · rw [hm.gamma0 hp hu, if_pos (not_lt.mp hp)]
        · obtain ⟨-, e⟩ := hm.gammaN _ hp hu
          have : (0 : K) < 1 / (width X : K) := by positivity
          rw [e, if_neg (not_le.mpr this)]
    have hr : (if o.rest.maxIter ≤ 0 then { o.rest with maxIter := 2147483647 } else o.rest) = bounded v.rest := by
      rw [← hm.rest]
      unfold bounded
      by_cases hp : 0 < o.rest.maxIter
      · rw [if_neg (by omega), if_pos hp]
      · rw [if_pos (by omega), if_neg hp]
    have hk : kernelOf F (askedGamma v (width X)) o.rest = kernelOf F (askedGamma v (width X)) v.rest := by
      unfold kernelOf
      rw [hm.kern.1, hm.kern.2.1, hm.kern.2.2]
    simp only [Option.bind_eq_bind, Option.bind_some]
    rw [hg, hr, hk]
    unfold trained
    cases kernelOf F (askedGamma v (width X)) v.rest with
    | none => exact Or.inl ⟨rfl, rfl⟩
    | some k =>
      simp only [Option.bind_some]
      cases hms : (List.range Y.length).mapM (fun j => (Y[j]?).bind (fun y => trainOutput solve k (bounded v.rest) X y (d j))) with
      | none => exact Or.inl ⟨rfl, rfl⟩
      | some ms =>
        right
        refine ⟨_, _, rfl, rfl, ?_⟩
        have hlen : ms.length = Y.length := by rw [mapM_length hms]; simp
        refine rel_set (rel_grow h ms) i o _ _ hio ?_
        have hbb : bounded (bounded v.rest) = bounded v.rest := by
          unfold bounded
          by_cases hp : 0 < v.rest.maxIter
          · rw [if_pos hp, if_pos hp]
          · rw [if_neg hp]; rfl
        refine ⟨?_, ?_, ?_, hbb, ?_, ?_, ?_, ?_⟩
        · intro hp
          show askedGamma v (width X) = v.gamma
          unfold askedGamma
          rw [if_pos hp]
        · intro hp hu
          exfalso
          simp only at hu
          split at hu
          · simp at hu
          · rename_i hne; exact hne hu
        · intro n hp hu
          obtain ⟨h0, hu'⟩ := hw (not_lt.mp hp)
          simp only at hu
          have hn : n = width X := by
            rcases hu' with hu' | hu'
            · rw [if_pos hu'] at hu; simpa using hu.symm
            · rw [if_neg (by rw [hu']; simp), hu'] at hu; simpa using hu.symm
          subst hn
          refine ⟨h0, ?_⟩
          show askedGamma v (width X) = _
          unfold askedGamma
          rw [if_neg hp]
        · show (bounded v.rest).kernel = _ ∧ (bounded v.rest).coef0 = _ ∧ (bounded v.rest).degree = _
          unfold bounded
          split <;> exact ⟨rfl, rfl, rfl⟩
        · simp
        · intro a ha
          simp only [Option.some.injEq] at ha
          subst ha
          simp
        · intro ms' e
          simp only [Option.some.injEq] at e
          subst e
          exact hlen.symm

theorem agree (F : Fns K) (solve : Solve K D) (ops : List (Op K D)) (hops : SameWidth F solve ops) : Agree (run F solve ops) (ownRun F solve ops) := by
  induction ops using List.reverseRecOn with
  | nil => exact Or.inr ⟨⟨[], []⟩, [], rfl, rfl, ⟨rfl, by simp⟩⟩
  | append_singleton ops op ih =>
    have hl : SameWidth F solve ops := fun u i X Y d v he => hops u i X Y d (v ++ [op]) (by rw [he]; simp)
    have ih := ih hl
    have hfit : ∀ i X Y d, op = Op.fit i X Y d → ∀ vals val, ownRun F solve ops = some vals → vals[i]? = some val → val.gamma ≤ 0 →
        0 < width X ∧ (val.usedWidth = none ∨ val.usedWidth = some (width X)) := fun i X Y d he => hops ops i X Y d [] (by rw [he])
    unfold run ownRun at *
    rw [foldlM_snoc, foldlM_snoc]
    rcases ih with ⟨h1, h2⟩ | ⟨st, vals, h1, h2, h⟩
    · left
      rw [h1, h2]
      exact ⟨rfl, rfl⟩
    · rw [h1, h2]
      simp only [Option.bind_some]
      have hnone : ∀ i : ℕ, st.objs[i]? = none → vals[i]? = none := by
        intro i hi
        rw [List.getElem?_eq_none_iff] at hi ⊢
        rw [← h.len]; exact hi
      cases op with
      | create =>
        refine Or.inr ⟨_, _, rfl, rfl, rel_append h _ _ ?_⟩
        exact ⟨fun _ => rfl, fun _ _ => rfl, fun n _ hu => by simp at hu, rfl, ⟨rfl, rfl, rfl⟩, rfl, fun a ha => by simp [new] at ha, fun ms hms => by simp at hms⟩
      | clone i =>
        show Agree ((st.objs[i]?).map _) ((vals[i]?).map _)
        cases hio : st.objs[i]? with
        | none => rw [hnone i hio]; exact Or.inl ⟨rfl, rfl⟩
        | some o =>
          obtain ⟨v, hv, hm⟩ := h.val i o hio
          rw [hv]
          exact Or.inr ⟨_, _, rfl, rfl, rel_append h o v hm⟩
      | setGamma i g =>
        show Agree ((st.objs[i]?).map _) ((vals[i]?).map _)
        cases hio : st.objs[i]? with
        | none => rw [hnone i hio]; exact Or.inl ⟨rfl, rfl⟩
        | some o =>
          obtain ⟨v, hv, hm⟩ := h.val i o hio
          rw [hv]
          refine Or.inr ⟨_, _, rfl, rfl, rel_set h i o _ _ hio ?_⟩
          exact ⟨fun _ => rfl, fun _ _ => rfl, fun n _ hu => by simp at hu, hm.rest, hm.kern, hm.cell, hm.lt, hm.nOut⟩
      | setRest i r =>
        show Agree ((st.objs[i]?).map _) ((vals[i]?).map _)
        cases hio : st.objs[i]? with
        | none => rw [hnone i hio]; exact Or.inl ⟨rfl, rfl⟩
        | some o =>
          obtain ⟨v, hv, hm⟩ := h.val i o hio
          rw [hv]
          refine Or.inr ⟨_, _, rfl, rfl, rel_set h i o _ _ hio ?_⟩
          exact ⟨hm.gammaPos, hm.gamma0, hm.gammaN, rfl, ⟨rfl, rfl, rfl⟩, hm.cell, hm.lt, hm.nOut⟩
      | fit i X Y d => exact agree_fit F solve h i X Y d (fun val hv hg => hfit i X Y d rfl vals val h2 hv hg)

/-- C158: every program over estimators runs as if each had its own settings and its own trained outputs, provided that an estimator without a positive gamma is refitted only on data with the
same number of features: it panics exactly when these would, and `Predict` gives for every output the value of the model trained on that column of targets alone.
Missing for the full claim: what `C158_gamma_violated` refutes. -/
theorem C158_objects_partial (F : Fns K) (solve : Solve K D) (binary : Bool) (ops : List (Op K D)) (hops : SameWidth F solve ops) :
    (run F solve ops).map (predict binary) = (ownRun F solve ops).map (ownPredict binary) := by
  rcases agree F solve ops hops with ⟨h1, h2⟩ | ⟨st, vals, h1, h2, h⟩
  · rw [h1, h2]; rfl
  · rw [h1, h2]
    simp only [Option.map_some, Option.some.injEq]
    funext i x
    unfold predict ownPredict
    cases hio : st.objs[i]? with
    | none =>
      have : vals[i]? = none := by
        rw [List.getElem?_eq_none_iff] at hio ⊢
        rw [← h.len]; exact hio
      rw [this]; rfl
    | some o =>
      obtain ⟨v, hv, hm⟩ := h.val i o hio
      rw [hv]
      simp only [Option.bind_eq_bind, Option.bind_some]
      have hh := hm.cell
      cases hp : o.ptr with
      | none =>
        rw [hp] at hh
        rw [← hh]; rfl
      | some a =>
        rw [hp] at hh
        simp only [Option.bind_some] at hh ⊢
        rw [hh]
        cases ht : v.trained with
        | none => rfl
        | some ms =>
          rw [hm.nOut ms ht]
          simp only [Option.bind_some, Option.map_some]
          rw [ListX.mapM_forall2]
          rw [List.forall₂_iff_get]
          refine ⟨by simp, ?_⟩
          intro j h1 h2
          simp only [List.length_range] at h1
          simp [h1]

/-- The trained models as they are seen by the caller: the support vectors are the rows of the support indices, in order, and the decision value is the kernel expansion that the solver returned, with its offset. -/
theorem C158_support (solve : Solve K D) (k : List K → List K → K) (r : Rest K) (X : List (List K)) (y : List K) (d : D) (M : Model K)
    (h : trainOutput solve k r X y d = some M) : M.rows.map some = M.support.map (fun i => X[i]?) ∧ M.coefs.length = M.support.length ∧ M.kernel = k ∧
    ∃ sup b, solve k r X y d = some (sup, b) ∧ M.support = sup.map Prod.fst ∧ ∀ x, decision M x = (sup.map (fun e => e.2 * k x (X.getD e.1 []))).sum + b := by
  unfold trainOutput at h
  cases hs : solve k r X y d with
  | none => rw [hs] at h; simp at h
  | some sb =>
    rw [hs] at h
    simp only [Option.bind_eq_bind, Option.bind_some, Option.bind_eq_some_iff] at h
    obtain ⟨rows, hr, e⟩ := h
    simp only [Option.some.injEq] at e
    subst e
    have := (ListX.mapM_forall2 _ _ _).mp hr
    refine ⟨?_, by simp, rfl, sb.1, sb.2, rfl, rfl, ?_⟩
    · rw [List.map_map]
      symm
      clear hr hs
      generalize sb.1 = sup at this
      induction this with
      | nil => rfl
      | cons h _ ih => simp only [List.map_cons, Function.comp_apply, h, ih]
    · intro x
      unfold decision
      congr 2
      clear hr hs
      generalize sb.1 = sup at this
      induction this with
      | nil => rfl
      | cons h _ ih => simp only [List.map_cons, List.zipWith_cons_cons, ih, List.getD_eq_getElem?_getD, h, Option.getD_some]

/-- The kernels by name; a name that is none of these means the RBF kernel; a value that is neither a name nor a kernel panics, whatever the data. -/
theorem C158_kernels (F : Fns K) (g : K) (r : Rest K) :
    (r.kernel = .name "linear" → kernelOf F g r = some (fun a b => (List.zipWith (· * ·) a b).sum)) ∧
    (r.kernel = .name "poly" ∨ r.kernel = .name "polynomial" → kernelOf F g r = some (fun a b => F.pow (g * (List.zipWith (· * ·) a b).sum + r.coef0) r.degree)) ∧
    (r.kernel = .name "sigmoid" → kernelOf F g r = some (fun a b => F.tanh (g * (List.zipWith (· * ·) a b).sum + r.coef0))) ∧
    (∀ s, r.kernel = .name s → s ∉ ["linear", "poly", "polynomial", "sigmoid"] →
      kernelOf F g r = some (fun a b => F.exp (-g * (List.zipWith (fun x y => (x - y) * (x - y)) a b).sum))) ∧
    (r.kernel = .other → kernelOf F g r = none) := by
  refine ⟨?_, ?_, ?_, ?_, ?_⟩
  · intro h; unfold kernelOf; rw [h]; rfl
  · rintro (h | h) <;> (unfold kernelOf; rw [h]; rfl)
  · intro h; unfold kernelOf; rw [h]; rfl
  · intro s h hs
    unfold kernelOf
    rw [h]
    simp only [List.mem_cons, List.not_mem_nil, or_false, not_or] at hs
    simp only
    rw [if_neg hs.1, if_neg (by tauto), if_neg hs.2.2.2]
    rfl
  · intro h; unfold kernelOf; rw [h]

/-- Refitting a default estimator on data with another number of features keeps the gamma of the first fit: the kernel used for the second fit is that for `1 / n`, where a new estimator uses `1 / m`. -/
theorem C158_gamma_violated (F : Fns K) (solve : Solve K D) (X X' Y Y' : List (List K)) (d d' : ℕ → D) (hn : 0 < width X) (ms : List (Model K))
    (hfit : trained F solve (1 / (width X : K)) (new : Obj K).rest X Y d = some ms) :
    ((run F solve [.create, .fit 0 X Y d, .fit 0 X' Y' d']).bind (fun st => (st.objs[0]?).bind (fun o => o.ptr.bind (fun a => st.heap[a]?)))) =
      trained F solve (1 / (width X : K)) (new : Obj K).rest X' Y' d' ∧
    ((run F solve [.create, .fit 0 X' Y' d']).bind (fun st => (st.objs[0]?).bind (fun o => o.ptr.bind (fun a => st.heap[a]?)))) =
      trained F solve (1 / (width X' : K)) (new : Obj K).rest X' Y' d' := by
  have hpos : (0 : K) < 1 / (width X : K) := by positivity
  have hle : ¬ 1 / (width X : K) ≤ 0 := not_le.mpr hpos
  have key : ∀ (st : St K) (o : Obj K) (X Y : List (List K)) (d : ℕ → D) (g : K), st.objs = [o] → (if o.gamma ≤ 0 then 1 / (width X : K) else o.gamma) = g →
      (bounded o.rest = bounded (new : Obj K).rest) → (o.rest.kernel = .name "rbf") →
      fit F solve st 0 X Y d = (trained F solve g (new : Obj K).rest X Y d).map (fun ms => ⟨[⟨g, bounded (new : Obj K).rest, Y.length, some st.heap.length⟩], st.heap ++ [ms]⟩) := by
    intro st o X Y d g ho hg hb hk
    unfold fit trained
    rw [ho]
    simp only [List.getElem?_cons_zero, Option.bind_eq_bind, Option.bind_some]
    rw [hg]
    have hr : (if o.rest.maxIter ≤ 0 then { o.rest with maxIter := 2147483647 } else o.rest) = bounded (new : Obj K).rest := by
      rw [← hb]
      unfold bounded
      by_cases hp : 0 < o.rest.maxIter
      · rw [if_neg (by omega), if_pos hp]
      · rw [if_pos (by omega), if_neg hp]
    have hk1 : kernelOf F g o.rest = some (Svm.rbfKernel F.exp g) := by unfold kernelOf; rw [hk]; rfl
    have hk2 : kernelOf F g (new : Obj K).rest = some (Svm.rbfKernel F.exp g) := rfl
    rw [hr, hk1, hk2]
    simp only [Option.bind_some]
    cases (List.range Y.length).mapM (fun j => (Y[j]?).bind (fun y => trainOutput solve (Svm.rbfKernel F.exp g) (bounded (new : Obj K).rest) X y (d j))) <;> rfl
  have hget : ∀ (t : Option (List (Model K))) (g : K) (r : Rest K) (n : ℕ) (heap : List (List (Model K))),
      ((t.map (fun ms => (⟨[⟨g, r, n, some heap.length⟩], heap ++ [ms]⟩ : St K))).bind (fun st => (st.objs[0]?).bind (fun o => o.ptr.bind (fun a => st.heap[a]?)))) = t := by
    intro t g r n heap
    cases t <;> simp
  constructor
  · have h1 : step F solve ⟨[], []⟩ (.create : Op K D) = some ⟨[new], []⟩ := rfl
    have h2 : step F solve ⟨[new], []⟩ (.fit 0 X Y d) = some ⟨[⟨1 / (width X : K), bounded (new : Obj K).rest, Y.length, some 0⟩], [ms]⟩ := by
      show fit F solve _ 0 X Y d = _
      rw [key ⟨[new], []⟩ new X Y d (1 / (width X : K)) rfl (by simp [new]) rfl rfl, hfit]
      rfl
    unfold run
    simp only [List.foldlM_cons, List.foldlM_nil, Option.bind_eq_bind, h1, h2, Option.bind_some]
    show ((fit F solve _ 0 X' Y' d').bind some).bind _ = _
    rw [Option.bind_fun_some, key ⟨[⟨1 / (width X : K), bounded (new : Obj K).rest, Y.length, some 0⟩], [ms]⟩ _ X' Y' d' (1 / (width X : K)) rfl (by simp only; rw [if_neg hle]) rfl rfl]
    exact hget _ _ _ _ _
  · have h1 : step F solve ⟨[], []⟩ (.create : Op K D) = some ⟨[new], []⟩ := rfl
    unfold run
    simp only [List.foldlM_cons, List.foldlM_nil, Option.bind_eq_bind, h1, Option.bind_some]
    show ((fit F solve _ 0 X' Y' d').bind some).bind _ = _
    rw [Option.bind_fun_some, key ⟨[new], []⟩ new X' Y' d' (1 / (width X' : K)) rfl (by simp [new]) rfl rfl]
    exact hget _ _ _ _ _

section Examples

private def F : Fns ℚ := ⟨fun x => 1 + x, fun x => x, fun x _ => x⟩
/-- A training that keeps every sample with its target as coefficient. -/
private def sv : Solve ℚ ℕ := fun _ _ X y d => some ((List.range X.length).zip y, d)

/-- The clone of an estimator fitted on one feature is fitted on other targets; the original keeps predicting as before. -/
private def prog : List (Op ℚ ℕ) := [.create, .setGamma 0 2, .fit 0 [[1], [3]] [[1, -1], [0, 1]] id, .clone 0, .fit 1 [[1, 1], [3, 0]] [[5, 5]] id]

example : SameWidth F sv prog := by
  intro u i X Y d v h vals val hr hv hg
  exfalso
  match u, h with
  | [], h => simp [prog] at h
  | [o1], h => simp [prog] at h
  | [o1, o2], h =>
    simp [prog] at h
    obtain ⟨rfl, rfl, ⟨rfl, -⟩, -⟩ := h
    have e : ownRun F sv [.create, .setGamma 0 2] = some [⟨2, ⟨1, 1 / 10, .name "rbf", 3, 0, 1 / 1000, 0⟩, none, none⟩] := rfl
    rw [e] at hr
    simp only [Option.some.injEq] at hr
    subst hr
    simp only [List.getElem?_cons_zero, Option.some.injEq] at hv
    subst hv
    norm_num at hg
  | [o1, o2, o3], h => simp [prog] at h
  | [o1, o2, o3, o4], h =>
    simp [prog] at h
    obtain ⟨rfl, rfl, rfl, rfl, ⟨rfl, -⟩, -⟩ := h
    have e : ((ownRun F sv [.create, .setGamma 0 2, .fit 0 [[1], [3]] [[1, -1], [0, 1]] id, .clone 0]).bind (fun vals => vals[1]?)).map Val.gamma = some 2 := by decide +kernel
    rw [hr, Option.bind_some, hv] at e
    simp only [Option.map_some, Option.some.injEq] at e
    rw [e] at hg
    norm_num at hg
  | o1 :: o2 :: o3 :: o4 :: o5 :: u, h => simp [prog] at h

example : (run F sv prog).bind (fun st => predict false st 0 [1]) = some [8, -6] ∧ (run F sv prog).bind (fun st => predict true st 0 [1]) = some [1, 0] := by
  constructor <;> decide +kernel

example : ∃ ms, trained F sv (1 / (width [[1], [3]] : ℚ)) (new : Obj ℚ).rest [[1], [3]] [[1, -1]] id = some ms := ⟨_, rfl⟩

example : trainOutput sv (fun _ _ => 1) (new : Obj ℚ).rest [[1], [3]] [1, -1] 0 = some ⟨[[1], [3]], [1, -1], 0, fun _ _ => 1, [0, 1]⟩ := rfl

end Examples

/-- The default gamma: fitting an estimator whose gamma is not positive stores one over the number of features of the data, whatever the number of samples; a positive gamma is kept. -/
theorem C158_gamma (F : Fns K) (solve : Solve K D) (st st' : St K) (i p : ℕ) (X Y : List (List K)) (d : ℕ → D) (o : Obj K) (ho : st.objs[i]? = some o) (hX : X ≠ []) (hp : ∀ r ∈ X, r.length = p) (h : fit F solve st i X Y d = some st') :
    (st'.objs[i]?).map Obj.gamma = some (if o.gamma ≤ 0 then 1 / (p : K) else o.gamma) := by
  have hw : width X = p := by
    cases X with
    | nil => exact absurd rfl hX
    | cons r X => exact hp r List.mem_cons_self
  have hi : i < st.objs.length := (List.getElem?_eq_some_iff.1 ho).1
  unfold fit at h
  simp only [ho, hw, Option.bind_eq_bind, Option.bind_some, Option.bind_eq_some_iff] at h
  obtain ⟨k, -, ms, -, e⟩ := h
  obtain rfl := Option.some.inj e
  rw [List.getElem?_set_self hi]
  rfl

end Sk.SvmState
