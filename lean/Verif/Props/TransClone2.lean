import Verif.Model.TransClone2
import Verif.Props.TransClone
import Verif.Props.Label
import Mathlib.Data.List.OfFn

/-!
# C159: clones of the transformers that are not scalers

Programs, `ownRun` (each object owns its parameters), `FitOnly` and `ClonesUnfitted` are those of C151.
-/
set_option autoImplicit false

namespace Sk.TransClone
open Sk.Label Sk.Encode

/-- **C159 (transformers that make new slices).** For any program of creations, clones and fits of one-hot encoders, label binarizers, imputers, discretizers, polynomial features, quantile transformers or kernel centerers,
every object shows what it would show if it owned its parameters. -/
theorem C159_alloc {K : Type} [Field K] [LinearOrder K] [FloorRing K] :
    (∀ ops, FitOnly ops → (run (oneHot (K := K)) ops).map view = ownRun oneHot ops) ∧
    (∀ neg pos ops, FitOnly ops → (run (labelBinarizer (K := K) neg pos) ops).map view = ownRun (labelBinarizer neg pos) ops) ∧
    (∀ st half ops, FitOnly ops → (run (imputer (K := K) st half) ops).map view = ownRun (imputer st half) ops) ∧
    (∀ st nbins ops, FitOnly ops → (run (kBins (K := K) st nbins) ops).map view = ownRun (kBins st nbins) ops) ∧
    (∀ degree io ib fuel ops, FitOnly ops → (run (polyFeatures degree io ib fuel) ops).map view = ownRun (polyFeatures degree io ib fuel) ops) ∧
    (∀ nq ops, FitOnly ops → (run (quantiles (K := K) nq) ops).map view = ownRun (quantiles nq) ops) ∧
    (∀ c ops, FitOnly ops → (run (kernelCenterer (K := K) c) ops).map view = ownRun (kernelCenterer c) ops) := by
  refine ⟨?_, ?_, ?_, ?_, ?_, ?_, ?_⟩ <;> intros <;> exact C151_fit_partial _ (fun _ => rfl) _ (by assumption)

/-- A transformer whose `Fit` makes new slices shows after a fit what the fit computes from its own fields and the data. -/
theorem alloc_fit {D V H : Type} (v0 : V) (h0 : H) (fitTo : V → D → Option (V × H)) (ops : List (Op D)) (st st' : St V H) (hrun : run (alloc v0 h0 fitTo) ops = some st) (i : ℕ) (d : D)
    (h : run (alloc v0 h0 fitTo) (ops ++ [.fit i d]) = some st') : ∃ v r, view st i = some v ∧ fitTo v.1 d = some r ∧ view st' i = some (r.1, some r.2) := by
  rw [run_snoc, hrun, Option.bind_some] at h
  simp only [step, Option.bind_eq_some_iff] at h
  obtain ⟨o, ho, h⟩ := h
  simp only [partialFit, alloc, Bool.false_eq_true, if_false, Option.map_eq_some_iff] at h
  obtain ⟨r, hr, rfl⟩ := h
  refine ⟨_, r, by rw [view, ho, Option.map_some], hr, ?_⟩
  simp [view]

/-- **C159 (what a fit leaves).** In any program, after a fit the transformer shows the parameters computed from the data of that fit alone. -/
theorem C159_fit {K : Type} [Field K] [LinearOrder K] [FloorRing K] (i : ℕ) :
    (∀ ops st cols st', run (oneHot (K := K)) ops = some st → run oneHot (ops ++ [.fit i cols]) = some st' → view st' i = some ((), some (ohFit cols))) ∧
    (∀ sg half ops st (cols : List (List K × List (Option K))) st', run (imputer sg half) ops = some st → run (imputer sg half) (ops ++ [.fit i cols]) = some st' →
      ∃ h, cols.mapM (fun c => impFit sg half c.1 c.2) = some h ∧ view st' i = some ((), some h)) ∧
    (∀ sg nbins ops st (cols : List (List K)) st', run (kBins sg nbins) ops = some st → run (kBins sg nbins) (ops ++ [.fit i cols]) = some st' →
      ∃ h, cols.mapM (kbFit sg nbins) = some h ∧ view st' i = some ((), some h)) ∧
    (∀ degree io ib fuel ops st n st', run (polyFeatures degree io ib fuel) ops = some st → run (polyFeatures degree io ib fuel) (ops ++ [.fit i n]) = some st' →
      ∃ h, Sk.Poly.powers n degree io ib fuel = some h ∧ view st' i = some ((), some h)) ∧
    (∀ nq ops st (cols : List (List K)) st', run (quantiles nq) ops = some st → run (quantiles nq) (ops ++ [.fit i cols]) = some st' →
      view st' i = some ((), some ((List.range nq).map (Sk.Power.qref nq), cols.map (fun c => (List.range nq).map (Sk.Power.qfit nq c))))) ∧
    (∀ c ops st (rows : List (List K)) st', run (kernelCenterer c) ops = some st → run (kernelCenterer c) (ops ++ [.fit i rows]) = some st' →
      view st' i = some ((Sk.Scale.kcFit rows c).2, some (Sk.Scale.kcFit rows c).1)) := by
  refine ⟨?_, ?_, ?_, ?_, ?_, ?_⟩
  · intro ops st cols st' h1 h2
    obtain ⟨v, r, -, hr, h⟩ := alloc_fit _ _ _ ops st st' h1 i cols h2
    cases hr; exact h
  · intro sg half ops st cols st' h1 h2
    obtain ⟨v, r, -, hr, h⟩ := alloc_fit _ _ _ ops st st' h1 i cols h2
    obtain ⟨x, hx, rfl⟩ := Option.map_eq_some_iff.1 hr
    exact ⟨x, hx, h⟩
  · intro sg nbins ops st cols st' h1 h2
    obtain ⟨v, r, -, hr, h⟩ := alloc_fit _ _ _ ops st st' h1 i cols h2
    obtain ⟨x, hx, rfl⟩ := Option.map_eq_some_iff.1 hr
    exact ⟨x, hx, h⟩
  · intro degree io ib fuel ops st n st' h1 h2
    obtain ⟨v, r, -, hr, h⟩ := alloc_fit _ _ _ ops st st' h1 i n h2
    obtain ⟨x, hx, rfl⟩ := Option.map_eq_some_iff.1 hr
    exact ⟨x, hx, h⟩
  · intro nq ops st cols st' h1 h2
    obtain ⟨v, r, -, hr, h⟩ := alloc_fit _ _ _ ops st st' h1 i cols h2
    cases hr; exact h
  · intro c ops st rows st' h1 h2
    obtain ⟨v, r, -, hr, h⟩ := alloc_fit _ _ _ ops st st' h1 i rows h2
    cases hr; exact h

example : FitOnly ([.create 0, .fit 0 [[3, 1]], .clone 0 1, .fit 1 [[7]]] : List (Op (List (List ℚ)))) := by
  intro i d h
  simp at h

/-- The original keeps its classes and its positive label; the clone has others. -/
example : (run (labelBinarizer (0 : ℚ) 0) [.create 0, .fit 0 [[3, 1]], .clone 0 1, .fit 1 [[7]]]).bind (fun st => view st 0) = some ((0, 1), some [[1, 3]]) ∧
    (run (labelBinarizer (0 : ℚ) 0) [.create 0, .fit 0 [[3, 1]], .clone 0 1, .fit 1 [[7]]]).bind (fun st => view st 1) = some ((0, 1), some [[7]]) := by
  constructor <;> decide +kernel

/-- A label binarizer after `Fit`: the negative label is kept, the positive one is kept if it was different and is different in any case; the classes are those of the data. -/
theorem C159_binarizer_fit {K : Type} [Field K] [LinearOrder K] (neg pos : K) (cols : List (List K)) :
    ∃ pos', (run (labelBinarizer neg pos) [.create 0, .fit 0 cols]).bind (fun st => view st 0) = some ((neg, pos'), some (cols.map distinctSorted)) ∧ pos' ≠ neg ∧ (pos ≠ neg → pos' = pos) := by
  refine ⟨fitPos neg pos, ?_, ?_⟩
  · simp [run, step, TransClone.partialFit, labelBinarizer, alloc, view, init]
  · unfold fitPos
    by_cases h : pos = neg
    · rw [if_pos h, h]
      exact ⟨by simp, fun h' => absurd rfl h'⟩
    · rw [if_neg h]
      exact ⟨h, fun _ => rfl⟩

/-! ## `LabelEncoder` -/

section Encoder
variable {K : Type} [LinearOrder K]

/-- The parameters of the instance are those of `LabelEncoder.PartialFit` and `Fit` of C12 and C13. -/
theorem encoder_upd (n : ℕ) (b : Bool) (h : Fin n → Enc K) (d : Fin n → List K) :
    ∃ h', (encoder n).upd b h d = some (false, h') ∧ List.ofFn h' = Label.partialFit (List.ofFn h) (List.ofFn d) := by
  refine ⟨_, rfl, ?_⟩
  unfold Label.partialFit
  simp only [List.length_ofFn, if_true]
  apply List.ext_getElem
  · simp
  · intro i h1 h2
    simp

/-- **C159 for `LabelEncoder` (partial):** objects are independent in programs without `PartialFit`, and in programs where only encoders without labels are cloned.  Missing: `PartialFit` on a clone of a fitted encoder
(`C159_encoder_violated`). -/
theorem C159_encoder_partial (n : ℕ) (ops : List (Op (Fin n → List K))) (h : FitOnly ops ∨ ClonesUnfitted (encoder n) ops) :
    (run (encoder n) ops).map view = ownRun (encoder n) ops := by
  rcases h with h | h
  · exact C151_fit_partial _ (fun _ => rfl) ops h
  · exact C151_unfitted_partial _ ops h

example : FitOnly ([.create 0, .fit 0 (fun _ => [3, 1]), .clone 0 1, .fit 1 (fun _ => [7])] : List (Op (Fin 2 → List ℕ))) := by
  intro i d h
  simp at h

/-- **C159 is violated** by `PartialFit` on a clone of a fitted `LabelEncoder`: the original is then the encoder fitted to the labels of both; a label of its own gets a larger code as soon as the clone saw a new smaller one. -/
theorem C159_encoder_violated (n : ℕ) (d₁ d₂ : Fin n → List K) :
    ∃ before after e₁ e₂, run (encoder n) [.create 0, .fit 0 d₁, .clone 0 1] = some before ∧ run (encoder n) [.create 0, .fit 0 d₁, .clone 0 1, .partialFit 1 d₂] = some after ∧
      view before 0 = some (false, some e₁) ∧ view after 0 = some (false, some e₂) ∧
      List.ofFn e₁ = Label.fit (List.ofFn d₁) ∧ List.ofFn e₂ = Label.fit (List.ofFn (fun i => d₁ i ++ d₂ i)) ∧
      ∀ i v w, v ∈ d₁ i → w ∈ d₂ i → w ∉ d₁ i → w < v → (e₁ i).code v < (e₂ i).code v := by
  obtain ⟨b, a, h1, h2, h3, h4, _⟩ := shared (encoder n) d₁ d₂ false false (fun i => (d₁ i).foldl Enc.add Enc.empty) (fun i => (d₂ i).foldl Enc.add ((d₁ i).foldl Enc.add Enc.empty))
    rfl rfl rfl rfl rfl
  refine ⟨b, a, _, _, h1, h2, h3, h4, ?_, ?_, ?_⟩
  · rw [fit_eq, List.map_ofFn]; rfl
  · rw [fit_eq, List.map_ofFn]
    congr 1
    funext i
    simp [List.foldl_append]
  · intro i v w hv hw hw' hlt
    have code : ∀ ys : List K, v ∈ ys → (ys.foldl Enc.add Enc.empty).code v = ((ys.dedup.filter (fun x => decide (x < v))).length : ℤ) := by
      intro ys hys
      have := (C12_transform [ys] 0 (by rw [fit_eq]; simp) (by simp) v (by simpa using hys)).1
      simpa [fit_eq] using this
    rw [← List.foldl_append, code _ hv, code _ (List.mem_append_left _ hv)]
    have : ((w :: (d₁ i).dedup.filter (fun x => decide (x < v))).length : ℤ) ≤ (((d₁ i ++ d₂ i).dedup.filter (fun x => decide (x < v))).length : ℤ) := by
      norm_cast
      apply List.Subperm.length_le
      refine List.subperm_of_subset ?_ ?_
      · rw [List.nodup_cons]
        refine ⟨?_, (List.nodup_dedup _).filter _⟩
        simp [hw']
      · intro x hx
        rcases List.mem_cons.1 hx with rfl | hx
        · simp [hw, hlt]
        · simp only [List.mem_filter, List.mem_dedup, decide_eq_true_eq] at hx ⊢
          exact ⟨List.mem_append_left _ hx.1, hx.2⟩
    simp only [List.length_cons, Nat.cast_add, Nat.cast_one] at this
    omega

/-- Labels 10 and 30, then the clone sees 20: the original now codes 30 as 2. -/
example : ((run (encoder 1) [.create 0, .fit 0 (fun _ => [10, 30]), .clone 0 1, .partialFit 1 (fun _ => [20])]).bind (fun st => view st 0)).bind (fun o => o.2.map (fun e => (e 0).code 30)) = some 2 := by
  decide +kernel

end Encoder

/-! ## `PCA` -/

section Pca
variable {c : ℕ}

/-- **C159 for `PCA` (partial):** objects are independent when only transformers without a factorization are cloned.  Missing: fitting a clone of a fitted one (`C159_pca_violated`). -/
theorem C159_pca_partial (cfg : Sk.Pca.Config) (ops : List (Op (ℕ × (Fin c → ℝ) × Matrix (Fin c) (Fin c) ℝ))) (h : ClonesUnfitted (pca c cfg) ops) :
    (run (pca c cfg) ops).map view = ownRun (pca c cfg) ops := C151_unfitted_partial _ ops h

example : ClonesUnfitted (pca 2 ⟨0, 1⟩) [.create 0, .clone 0 1, .fit 0 (3, fun _ => 1, 1)] := by
  intro pre i j post h s hs o ho
  rcases pre with _ | ⟨a, pre⟩
  · simp at h
  · rcases pre with _ | ⟨b, pre⟩
    · simp only [List.cons_append, List.nil_append, List.cons.injEq, Op.clone.injEq] at h
      obtain ⟨rfl, ⟨rfl, rfl⟩, _⟩ := h
      simp only [ownRun, List.foldlM_cons, List.foldlM_nil, ownStep] at hs
      cases hs
      simp at ho
      rw [← ho]
    · exfalso
      simp only [List.cons_append, List.cons.injEq] at h
      obtain ⟨_, _, h⟩ := h
      rcases pre with _ | ⟨c, pre⟩ <;> simp at h

/-- **C159 is violated** by `Fit` of a clone of a fitted `PCA`: the original keeps its singular values, ratios and `NComponents`, and transforms with the singular vectors of the data of the clone. -/
theorem C159_pca_violated (cfg : Sk.Pca.Config) (n₁ n₂ : ℕ) (S₁ S₂ : Fin c → ℝ) (V₁ V₂ : Matrix (Fin c) (Fin c) ℝ) (h₁ : c ≤ n₁) (h₂ : c ≤ n₂) :
    ∃ before after f, run (pca c cfg) [.create 0, .fit 0 (n₁, S₁, V₁), .clone 0 1] = some before ∧
      run (pca c cfg) [.create 0, .fit 0 (n₁, S₁, V₁), .clone 0 1, .fit 1 (n₂, S₂, V₂)] = some after ∧
      Sk.Pca.fit n₁ cfg S₁ V₁ = some f ∧ (view before 0).bind pcaOf = some f ∧ (view after 0).bind pcaOf = some { f with V := V₂ } ∧
      (0 < f.cfg.nComponents → f.cfg.nComponents ≤ c → (∃ i j, j.val < f.cfg.nComponents ∧ V₁ i j ≠ V₂ i j) →
        ∃ X : Matrix (Fin c) (Fin c) ℝ, Sk.Pca.transform { f with V := V₂ } X ≠ Sk.Pca.transform f X) := by
  obtain ⟨f, hf⟩ : ∃ f, Sk.Pca.fit n₁ cfg S₁ V₁ = some f := by
    unfold Sk.Pca.fit; rw [if_neg (by omega)]; exact ⟨_, rfl⟩
  obtain ⟨g, hg, hgV⟩ : ∃ g, Sk.Pca.fit n₂ f.cfg S₂ V₂ = some g ∧ g.V = V₂ := by
    unfold Sk.Pca.fit; rw [if_neg (by omega)]; exact ⟨_, rfl, rfl⟩
  have hfV : f.V = V₁ := by
    unfold Sk.Pca.fit at hf; rw [if_neg (by omega)] at hf; cases hf; rfl
  have e1 : run (pca c cfg) [.create 0, .fit 0 (n₁, S₁, V₁), .clone 0 1] = some ⟨Function.update (Function.update (Function.update (fun _ => none) 0 (some ⟨(pca c cfg).v0, none⟩)) 0 (some ⟨(f.cfg, f.singularValues, f.ratio), some 0⟩)) 1 (some ⟨(f.cfg, f.singularValues, f.ratio), some 0⟩),
      Function.update (fun _ => 0) 0 f.V, 1⟩ := by
    simp [run, init, step, partialFit, pca, hf]
  refine ⟨_, ⟨Function.update (Function.update (Function.update (Function.update (fun _ => none) 0 (some ⟨(pca c cfg).v0, none⟩)) 0 (some ⟨(f.cfg, f.singularValues, f.ratio), some 0⟩)) 1 (some ⟨(f.cfg, f.singularValues, f.ratio), some 0⟩)) 1 (some ⟨(g.cfg, g.singularValues, g.ratio), some 0⟩),
      Function.update (Function.update (fun _ => 0) 0 f.V) 0 g.V, 1⟩, f, e1, ?_, hf, ?_, ?_, ?_⟩
  · have : ([.create 0, .fit 0 (n₁, S₁, V₁), .clone 0 1, .fit 1 (n₂, S₂, V₂)] : List (Op _)) = [.create 0, .fit 0 (n₁, S₁, V₁), .clone 0 1] ++ [.fit 1 (n₂, S₂, V₂)] := rfl
    rw [this, run_snoc, e1]
    simp [step, partialFit, pca, hg]
  · simp [view, pcaOf]
  · simp [view, pcaOf, hgV]
  · rintro h0 hc ⟨i, j, hj, hne⟩
    refine ⟨1, fun he => hne ?_⟩
    unfold Sk.Pca.transform at he
    rw [dif_pos ⟨h0, hc⟩, dif_pos ⟨h0, hc⟩] at he
    have := congrFun (congrFun (Option.some.inj he) i) ⟨j, hj⟩
    simp only [Matrix.one_mul, Matrix.submatrix_apply, id, Fin.castLE] at this
    rw [← hfV]
    exact this.symm

/-- The first right singular vector changes from e₁ to e₂. -/
example : ∃ (i j : Fin 2), j.val < (Sk.Pca.Config.mk 0 1).nComponents ∧ (1 : Matrix (Fin 2) (Fin 2) ℝ) i j ≠ (Matrix.of fun i j => if i = j then 0 else 1) i j :=
  ⟨0, 0, by simp⟩

end Pca

end Sk.TransClone
