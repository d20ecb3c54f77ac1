import Verif.Props.Chains
import Verif.Props.OlsInvariance
import Verif.Props.BayesInvariance
import Verif.Model.Pipeline

/-!
# C208: estimators behind a scaler

A pipeline that starts with a scaler does not depend on the units of the features, whatever follows; least squares and Gaussian naive Bayes predict the same with and without scalers in front.
-/
set_option autoImplicit false

namespace Sk.ScaledPipe

open Sk.Scale Sk.Units Sk.Chain

/-! ## Specification -/

/-- Settings of a scaler that has an inverse for nil X (those a pipeline can predict through, C168). -/
inductive Kind where
  | minmax (lo hi : ℝ)
  | standard
  | robust (left right : ℝ)

/-- `f` is what a scaler with these settings, new when fitted on the column `xs`, does to a cell. -/
inductive FittedOn : Kind → List ℝ → (ℝ → ℝ) → Prop where
  | minmax (lo hi : ℝ) (s : MinMax ℝ) (xs : List ℝ) : FittedOn (.minmax lo hi) xs (MinMax.fit lo hi s xs).transform
  | standard (s st : Std ℝ) (mv : ℝ × ℝ) (xs : List ℝ) (h : Std.fit s xs.length [xs] = some st) (hm : st.mv = [mv]) : FittedOn .standard xs (stdTransform Real.sqrt true true mv)
  | robust (left right m d : ℝ) (st : Robust ℝ) (xs : List ℝ) (h : Robust.fit (1 / 2) left right ⟨none, m, d⟩ xs = some st) : FittedOn (.robust left right) xs (st.transform true true)

/-- The column is not constant (for `RobustScaler`: its two quantiles differ). -/
def Varied : Kind → List ℝ → Prop
  | .robust left right, xs => ∃ q1 q2, quantile left (xs.insertionSort (· ≤ ·)) = some q1 ∧ quantile right (xs.insertionSort (· ≤ ·)) = some q2 ∧ q1 ≠ q2
  | _, xs => ∃ u ∈ xs, ∃ v ∈ xs, u ≠ v

/-- A matrix, row by row. -/
abbrev Table := List (List ℝ)

/-- Column `j` of a table with at least `j + 1` columns. -/
def col (j : ℕ) (X : Table) : List ℝ := X.filterMap (·[j]?)

/-- The features in other units: feature `j` becomes `a j * x + b j`. -/
def units (a b : ℕ → ℝ) (X : Table) : Table := X.map (fun row => row.mapIdx (fun j x => a j * x + b j))

/-- `F X` are the functions of a scaler fitted on `X`, one per column. -/
def Fits (k : Kind) (p : ℕ) (F : Table → List (ℝ → ℝ)) (X : Table) : Prop := (F X).length = p ∧ ∀ j f, (F X)[j]? = some f → FittedOn k (col j X) f

/-- A scaler as a step of a pipeline: `Transform` scales the columns and hands Y on, `InverseTransform(nil, Y)` is Y (/repo/preprocessing/data.go:103-129, 185-233, 402-440). -/
def scalerStep {S : Type} (F : Table → List (ℝ → ℝ)) (X _Y : Table) : Pipeline.Fitted Table S :=
  .transformer (fun x y => (x.map (fun row => List.zipWith (fun f v => f v) (F X) row), y)) (some id)

/-! ## Units -/

theorem fitted_units {k : Kind} {xs : List ℝ} (hne : xs ≠ []) {f f' : ℝ → ℝ} {a b : ℝ} (ha : 0 < a) (hf : FittedOn k xs f) (hf' : FittedOn k (conv a b xs) f') (hv : Varied k xs) (x : ℝ) : f' (a * x + b) = f x := by
  cases hf with
  | minmax lo hi s =>
    cases hf' with
    | minmax _ _ s' => exact C191_minmax lo hi a b ha s s' xs hne x (Or.inr hv)
  | standard s st mv _ h hm =>
    cases hf' with
    | standard s' st' mv' _ h' hm' =>
      have hr : 0 < xs.length := List.length_pos_iff.2 hne
      obtain ⟨t, t', e, e', l, l', hk⟩ := C191_standard s s' xs.length hr [xs] (by simp) (fun _ => a) (fun _ => b) (fun _ => ha)
      rw [h, Option.some.injEq] at e
      have hl : (conv a b xs).length = xs.length := by simp [conv]
      rw [hl] at h'
      rw [show ([xs].mapIdx (fun _ c => conv a b c)) = [conv a b xs] from rfl, h', Option.some.injEq] at e'
      subst e
      subst e'
      have := hk 0 (by simp) (by rw [hm]; simp) (by rw [hm']; simp) x (Or.inr hv)
      simpa [hm, hm'] using this
  | robust left right m d st _ h =>
    cases hf' with
    | robust _ _ m' d' st' _ h' =>
      obtain ⟨t, e, -, hk⟩ := C191_robust (1 / 2) left right a b ha m d m' d' xs st h hne
      rw [h', Option.some.injEq] at e
      subst e
      exact hk hv x

theorem col_units (a b : ℕ → ℝ) (j : ℕ) (X : Table) : col j (units a b X) = conv (a j) (b j) (col j X) := by
  unfold col units conv
  rw [List.filterMap_map, List.map_filterMap]
  congr 1
  funext row
  simp

theorem scaled_row {k : Kind} {p : ℕ} {F : Table → List (ℝ → ℝ)} {X : Table} {a b : ℕ → ℝ} (ha : ∀ j, 0 < a j) (hc : ∀ j < p, col j X ≠ []) (hF : Fits k p F X) (hF' : Fits k p F (units a b X)) (hv : ∀ j < p, Varied k (col j X))
    (row : List ℝ) : List.zipWith (fun f v => f v) (F (units a b X)) (row.mapIdx (fun j x => a j * x + b j)) = List.zipWith (fun f v => f v) (F X) row := by
  apply List.ext_getElem
  · simp [hF.1, hF'.1]
  · intro j h1 h2
    simp only [List.length_zipWith, lt_min_iff, List.length_mapIdx] at h1 h2
    simp only [List.getElem_zipWith, List.getElem_mapIdx]
    have hj : j < p := by rw [← hF.1]; exact h2.1
    refine fitted_units (hc j hj) (ha j) (hF.2 j _ (List.getElem?_eq_getElem h2.1)) ?_ (hv j hj) _
    rw [← col_units]
    exact hF'.2 j _ (List.getElem?_eq_getElem h1.1)

/-- **C208 (units).** A pipeline that starts with `MinMaxScaler`, `StandardScaler` or `RobustScaler`, whatever the steps after it, predicts the same when every feature is measured in another unit (and from another origin), for fitting and for predicting. -/
theorem C208_units {S : Type} {k : Kind} {p : ℕ} {F : Table → List (ℝ → ℝ)} {X : Table} {a b : ℕ → ℝ} (ha : ∀ j, 0 < a j) (hc : ∀ j < p, col j X ≠ []) (hF : Fits k p F X) (hF' : Fits k p F (units a b X)) (hv : ∀ j < p, Varied k (col j X))
    (rest : List (Table → Table → Pipeline.Fitted Table S)) (hrest : rest ≠ []) (Y x y : Table) :
    Pipeline.predict (Pipeline.fit (scalerStep F :: rest) (units a b X, Y)) (units a b x) y = Pipeline.predict (Pipeline.fit (scalerStep F :: rest) (X, Y)) x y ∧
      Pipeline.score (Pipeline.fit (scalerStep F :: rest) (units a b X, Y)) (units a b x) y = Pipeline.score (Pipeline.fit (scalerStep F :: rest) (X, Y)) x y := by
  have hx : ∀ x : Table, (units a b x).map (fun row => List.zipWith (fun f v => f v) (F (units a b X)) row) = x.map (fun row => List.zipWith (fun f v => f v) (F X) row) := by
    intro x
    rw [show units a b x = x.map (fun row => row.mapIdx (fun j x => a j * x + b j)) from rfl, List.map_map]
    exact List.map_congr_left (fun row _ => scaled_row ha hc hF hF' hv row)
  obtain ⟨s, rest, rfl⟩ := List.exists_cons_of_ne_nil hrest
  simp only [Pipeline.fit, scalerStep, Pipeline.transformStep, hx]
  have hl : Pipeline.fit (s :: rest) (X.map (fun row => List.zipWith (fun f v => f v) (F X) row), Y) ≠ [] := by
    cases rest <;> simp [Pipeline.fit]
  obtain ⟨f, fs, hfs⟩ := List.exists_cons_of_ne_nil hl
  rw [hfs]
  constructor
  · simp only [Pipeline.predict, List.foldl_cons, Pipeline.transformStep, hx, List.dropLast_cons_cons, List.reverse_cons, List.foldlM_append]
    rfl
  · simp only [Pipeline.score, List.getLast?_cons_cons, List.dropLast_cons_cons, List.foldl_cons, Pipeline.transformStep, hx]

/-- The functions of `MinMaxScaler` with range [0, 1] fit every table; feature 0 in another unit. -/
example : ∃ (F : Table → List (ℝ → ℝ)) (X : Table) (a b : ℕ → ℝ), (∀ j, 0 < a j) ∧ (∀ j < 1, col j X ≠ []) ∧ Fits (.minmax 0 1) 1 F X ∧ Fits (.minmax 0 1) 1 F (units a b X) ∧ (∀ j < 1, Varied (.minmax 0 1) (col j X)) ∧ units a b X ≠ X := by
  refine ⟨fun X => [(MinMax.fit 0 1 ⟨0, 0, 0, 0, 0⟩ (col 0 X)).transform], [[1], [3]], fun _ => 2, fun _ => 5, fun _ => two_pos, ?_, ?_, ?_, ?_, ?_⟩
  · intro j hj
    obtain rfl : j = 0 := by omega
    simp [col]
  · refine ⟨rfl, fun j f hf => ?_⟩
    cases j with
    | zero => simp at hf; subst hf; exact .minmax _ _ _ _
    | succ j => simp at hf
  · refine ⟨rfl, fun j f hf => ?_⟩
    cases j with
    | zero => simp at hf; subst hf; exact .minmax _ _ _ _
    | succ j => simp at hf
  · intro j hj
    obtain rfl : j = 0 := by omega
    exact ⟨1, by simp [col], 3, by simp [col], by norm_num⟩
  · intro h
    simp [units] at h
    norm_num at h

/-! ## Estimators that do not need a scaler -/

/-- **C208 (least squares).** With scalers in front (any of the four, even a different one for each feature), fitted on the same data, `LinearRegression` with intercept predicts what it predicts without, on every row. -/
theorem C208_linear {n p : ℕ} (hn : n ≠ 0) (normalize normalize' : Bool) {solve solve' : (Fin n → Fin p → ℝ) → (Fin n → ℝ) → Fin p → ℝ} (hs : Lin.LeastSquares solve) (hs' : Lin.LeastSquares solve') (old old' : ℝ)
    {X : Fin n → Fin p → ℝ} (hX : Lin.Spans X) (y : Fin n → ℝ) (f : Fin p → ℝ → ℝ) (hf : ∀ j, Scaler (List.ofFn (fun i => X i j)) (f j)) :
    ∃ m m', Lin.fit true normalize solve old X y = some m ∧ Lin.fit true normalize' solve' old' (fun i j => f j (X i j)) y = some m' ∧ ∀ x, Lin.decision m' (fun j => f j (x j)) = Lin.decision m x := by
  have haff : ∀ j, ∃ a b, 0 < a ∧ ∀ x, f j x = a * x + b := fun j => C193_affine _ (by
    intro h
    have := congrArg List.length h
    simp at this
    omega) _ (hf j)
  choose a b ha hab using haff
  let L : (Fin p → ℝ) ≃ₗ[ℝ] (Fin p → ℝ) := LinearEquiv.piCongrRight (fun j => LinearEquiv.smulOfNeZero ℝ ℝ (a j) (ha j).ne')
  have hL : ∀ x : Fin p → ℝ, L x + b = fun j => f j (x j) := by
    intro x
    funext j
    rw [hab]
    rfl
  obtain ⟨m, m', h1, h2, h3⟩ := Lin.C197_equivariant hn normalize normalize' hs hs' old old' hX y (Equiv.refl _) L b 1 0
  simp only [hL, one_mul, add_zero, Equiv.refl_apply] at h2 h3
  exact ⟨m, m', h1, h2, h3⟩

/-- A scaler for each feature of the three samples 1, 2, 4 (which lie in no hyperplane; a solver is given beside C197). -/
example : ∃ f : Fin 1 → ℝ → ℝ, ∀ j, Scaler (List.ofFn (fun i => (![![1], ![2], ![4]] : Fin 3 → Fin 1 → ℝ) i j)) (f j) :=
  ⟨fun j => (MinMax.fit 0 1 ⟨0, 0, 0, 0, 0⟩ (List.ofFn (fun i => (![![1], ![2], ![4]] : Fin 3 → Fin 1 → ℝ) i j))).transform, fun _ => .minmax 0 1 one_pos _⟩

/-- **C208 (naive Bayes).** The same for a new `GaussianNB` with `VarSmoothing = 0`: classes and probabilities are those without scalers. -/
theorem C208_bayes {m : ℕ} (tol tol' : ℝ) (S : List (NB.Sample ℝ)) (hne : S ≠ []) (hm : 0 < m) (hw : ∀ s ∈ S, 0 < s.w) (hvar : ∀ s ∈ S, ∀ j < m, 0 < NB.wvar (NB.feature j (NB.ofClass s.y S)))
    (f : Fin m → ℝ → ℝ) (hf : ∀ j : Fin m, Scaler (S.map (fun s => s.x.getD j 0)) (f j)) :
    ∃ g g', NB.fit tol 0 none none m S = some g ∧ NB.fit tol' 0 none none m (S.map (fun s => ⟨List.ofFn (fun j : Fin m => f j (s.x.getD j 0)), s.y, s.w⟩)) = some g' ∧ g'.classes = g.classes ∧
      ∀ x : List ℝ, x.length = m → (∃ c, NB.predict g x = some c ∧ NB.predict g' (List.ofFn (fun j : Fin m => f j (x.getD j 0))) = some c) ∧
        NB.predictProba g' (List.ofFn (fun j : Fin m => f j (x.getD j 0))) = NB.predictProba g x := by
  have haff : ∀ j, ∃ a b, 0 < a ∧ ∀ x, f j x = a * x + b := fun j => C193_affine _ (by simpa using hne) _ (hf j)
  choose a b ha hab using haff
  have hrow : ∀ x : List ℝ, NB.moveRow (Equiv.refl (Fin m)) a b x = List.ofFn (fun j : Fin m => f j (x.getD j 0)) := by
    intro x
    unfold NB.moveRow
    congr 1
    funext j
    rw [hab]
    rfl
  obtain ⟨g, g', h1, h2, h3, h4⟩ := NB.C195_invariant tol tol' 0 le_rfl S (S.map (fun s => ⟨List.ofFn (fun j : Fin m => f j (s.x.getD j 0)), s.y, s.w⟩)) hne hm hw (Or.inr hvar) (Equiv.refl _) a b ha (Or.inl rfl) id strictMono_id
    (r := 1) one_pos (by
      refine List.Perm.of_eq (List.map_congr_left (fun s _ => ?_))
      simp [NB.moveSample, hrow])
  refine ⟨g, g', h1, h2, by simpa using h3, fun x hx => ?_⟩
  obtain ⟨⟨c, hc, hc'⟩, hp, -⟩ := h4 x hx
  rw [hrow] at hc' hp
  exact ⟨⟨c, hc, hc'⟩, hp⟩

/-- Two classes whose feature varies within each class, positive weights, and a scaler. -/
example : ∃ (S : List (NB.Sample ℝ)) (f : Fin 1 → ℝ → ℝ), S ≠ [] ∧ (∀ s ∈ S, 0 < s.w) ∧ (∀ s ∈ S, ∀ j < 1, 0 < NB.wvar (NB.feature j (NB.ofClass s.y S))) ∧ ∀ j : Fin 1, Scaler (S.map (fun s => s.x.getD j 0)) (f j) := by
  suffices h : ∃ S : List (NB.Sample ℝ), S ≠ [] ∧ (∀ s ∈ S, 0 < s.w) ∧ ∀ s ∈ S, ∀ j < 1, 0 < NB.wvar (NB.feature j (NB.ofClass s.y S)) by
    obtain ⟨S, h1, h2, h3⟩ := h
    exact ⟨S, fun j => (MinMax.fit 0 1 ⟨0, 0, 0, 0, 0⟩ (S.map (fun s => s.x.getD j 0))).transform, h1, h2, h3, fun _ => .minmax 0 1 one_pos _⟩
  refine ⟨[⟨[1], 0, 1⟩, ⟨[3], 0, 1⟩, ⟨[8], 1, 1⟩, ⟨[6], 1, 1⟩], by simp, ?_, ?_⟩
  · intro s hs
    simp only [List.mem_cons, List.not_mem_nil, or_false] at hs
    rcases hs with rfl | rfl | rfl | rfl <;> norm_num
  · intro s hs j hj
    obtain rfl : j = 0 := by omega
    simp only [List.mem_cons, List.not_mem_nil, or_false] at hs
    rcases hs with rfl | rfl | rfl | rfl <;> norm_num [NB.ofClass, NB.feature, NB.wvar, NB.wmean]

end Sk.ScaledPipe
