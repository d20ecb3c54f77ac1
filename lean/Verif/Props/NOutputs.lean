import Verif.Model.NOutputs
import Mathlib.Tactic.Ring

/-! # C176: the number of outputs an estimator reports, and cross-validation -/
set_option autoImplicit false

namespace Sk.NOut

/-! ### Specification -/

/-- What the constructors of the library return (supervised estimators; `nOutputs` of a GaussianNB is set to 1 by `NewGaussianNB`). -/
inductive Fresh : Est → Prop
  | linear : Fresh (.linear none)
  | svm : Fresh (.svm 0)
  | knnClf : Fresh (.knnClf 0)
  | knnReg : Fresh (.knnReg none)
  | gpr (a : ℕ) : Fresh (.gpr a none)
  | nb : Fresh (.nb 1)
  | net (clf : Bool) : Fresh (.net clf none 0)
  | search : Fresh (.search 0)

/-- Successive fits. -/
def fits (e : Est) (Ts : List Targets) : Option Est := Ts.foldlM (fun e T => e.fit T) e

/-- The fits so far; `hadLabels`: some fit of a classifier had labels other than 0 and 1. -/
structure Good (e : Est) (hadLabels : Prop) : Prop where
  nb : ∀ n, e = .nb n → n = 1
  net : ∀ clf lb n, e = .net clf lb n → lb ≠ none → clf = true ∧ hadLabels
  kind : e ≠ .cluster ∧ e ≠ .centroid

theorem good_fit {e f : Est} {H : Prop} {T : Targets} (h : Good e H) (hf : e.fit T = some f) : Good f (H ∨ T.zeroOne = false) := by
  obtain ⟨h1, h2, h3⟩ := h
  cases e with
  | linear c => simp only [Est.fit, Option.some.injEq] at hf; subst hf; exact ⟨by simp, by simp, by simp⟩
  | svm c => simp only [Est.fit, Option.some.injEq] at hf; subst hf; exact ⟨by simp, by simp, by simp⟩
  | knnClf c => simp only [Est.fit, Option.some.injEq] at hf; subst hf; exact ⟨by simp, by simp, by simp⟩
  | knnReg c => simp only [Est.fit, Option.some.injEq] at hf; subst hf; exact ⟨by simp, by simp, by simp⟩
  | search c => simp only [Est.fit, Option.some.injEq] at hf; subst hf; exact ⟨by simp, by simp, by simp⟩
  | gpr a y =>
    simp only [Est.fit] at hf
    split at hf
    · cases hf
    · simp only [Option.some.injEq] at hf; subst hf; exact ⟨by simp, by simp, by simp⟩
  | nb n =>
    simp only [Est.fit] at hf
    split at hf
    · cases hf
    · simp only [Option.some.injEq] at hf
      subst hf
      exact ⟨h1, by simp, by simp⟩
  | cluster => exact absurd rfl h3.1
  | centroid => exact absurd rfl h3.2
  | net clf lb n =>
    simp only [Est.fit] at hf
    split at hf
    · rename_i hc
      simp only [Option.some.injEq] at hf
      subst hf
      simp only [Bool.and_eq_true, Bool.not_eq_true'] at hc
      refine ⟨by simp, fun _ _ _ he _ => ?_, by simp⟩
      cases he
      exact ⟨hc.1, Or.inr hc.2⟩
    · simp only [Option.some.injEq] at hf
      subst hf
      refine ⟨by simp, fun c l m he hl => ?_, by simp⟩
      cases he
      exact ⟨(h2 _ _ _ rfl hl).1, Or.inl (h2 _ _ _ rfl hl).2⟩

theorem good_reported {e f : Est} {H : Prop} {T : Targets} (h : Good e H) (hf : e.fit T = some f) (hz : T.zeroOne = true → ¬ H) : f.getNOutputs = some T.cols := by
  obtain ⟨h1, h2, h3⟩ := h
  cases e with
  | linear c => simp only [Est.fit, Option.some.injEq] at hf; subst hf; rfl
  | svm c => simp only [Est.fit, Option.some.injEq] at hf; subst hf; rfl
  | knnClf c => simp only [Est.fit, Option.some.injEq] at hf; subst hf; rfl
  | knnReg c => simp only [Est.fit, Option.some.injEq] at hf; subst hf; rfl
  | search c => simp only [Est.fit, Option.some.injEq] at hf; subst hf; rfl
  | gpr a y =>
    simp only [Est.fit] at hf
    split at hf
    · cases hf
    · simp only [Option.some.injEq] at hf; subst hf; rfl
  | nb n =>
    simp only [Est.fit] at hf
    split at hf
    · cases hf
    · rename_i hc
      simp only [Option.some.injEq] at hf
      subst hf
      rw [not_not] at hc
      rw [hc, h1 n rfl]
      rfl
  | cluster => exact absurd rfl h3.1
  | centroid => exact absurd rfl h3.2
  | net clf lb n =>
    simp only [Est.fit] at hf
    split at hf
    · simp only [Option.some.injEq] at hf
      subst hf
      rfl
    · rename_i hc
      simp only [Option.some.injEq] at hf
      subst hf
      cases lb with
      | none => rfl
      | some c =>
        obtain ⟨hclf, hH⟩ := h2 _ _ _ rfl (by simp)
        cases hzo : T.zeroOne with
        | true => exact absurd hH (hz hzo)
        | false =>
          rw [hzo, hclf] at hc
          simp at hc

theorem fresh_good {e : Est} (h : Fresh e) : Good e False := by
  cases h <;> exact ⟨by simp, by simp, by simp⟩

theorem fits_good : ∀ (Ts : List Targets) {e f : Est} {H : Prop}, Good e H → fits e Ts = some f → Good f (H ∨ ∃ T ∈ Ts, T.zeroOne = false)
  | [], e, f, H, h, hf => by
    obtain rfl := Option.some.inj hf
    exact ⟨h.nb, fun c l n a b => ⟨(h.net c l n a b).1, Or.inl (h.net c l n a b).2⟩, h.kind⟩
  | T :: Ts, e, f, H, h, hf => by
    rw [fits, List.foldlM_cons] at hf
    cases he : e.fit T with
    | none => rw [he] at hf; cases hf
    | some e' =>
      rw [he] at hf
      have := fits_good Ts (good_fit h he) hf
      refine ⟨this.nb, fun c l n a b => ⟨(this.net c l n a b).1, ?_⟩, this.kind⟩
      rcases (this.net c l n a b).2 with (h1 | h1) | ⟨T', h1, h2⟩
      · exact Or.inl h1
      · exact Or.inr ⟨T, by simp, h1⟩
      · exact Or.inr ⟨T', by simp [h1], h2⟩

/-- C176: after any number of fits of a supervised estimator made by its constructor, the number of outputs reported is the number of target columns of the last fit, unless a network or logistic regression fitted on labels
before is given 0/1 targets last.  Missing: that case (`C176_stale_violated`), and estimators that report nothing of the kind (`C176_crossval_violated`). -/
theorem C176_reported_partial {e : Est} (h : Fresh e) (Ts : List Targets) (T : Targets) (hT : T.zeroOne = true → ∀ T' ∈ Ts, T'.zeroOne = true) (f : Est) (hf : fits e (Ts ++ [T]) = some f) : f.getNOutputs = some T.cols := by
  rw [fits, List.foldlM_append] at hf
  cases he : fits e Ts with
  | none => rw [fits] at he; rw [he] at hf; cases hf
  | some e' =>
    have hg := fits_good Ts (fresh_good h) he
    rw [fits] at he
    rw [he] at hf
    have hf' : e'.fit T = some f := by simpa using hf
    refine good_reported hg hf' (fun hz => ?_)
    rintro (h1 | ⟨T', h1, h2⟩)
    · exact h1
    · rw [hT hz T' h1] at h2
      cases h2

/-- C176, before any fit: a new estimator reports 0 outputs if it counts outputs, 1 if it is a Gaussian process (whatever the number of its alphas) or a GaussianNB; regressions, linear or by neighbours, panic. -/
theorem C176_unfitted {e : Est} (h : Fresh e) : e.getNOutputs = none ∨ e.getNOutputs = some 0 ∨ e.getNOutputs = some 1 ∧ ((∃ a, e = .gpr a none) ∨ e = .nb 1) := by
  cases h with
  | linear => exact Or.inl rfl
  | svm => exact Or.inr (Or.inl rfl)
  | knnClf => exact Or.inr (Or.inl rfl)
  | knnReg => exact Or.inl rfl
  | gpr a => exact Or.inr (Or.inr ⟨rfl, Or.inl ⟨a, rfl⟩⟩)
  | nb => exact Or.inr (Or.inr ⟨rfl, Or.inr rfl⟩)
  | net => exact Or.inr (Or.inl rfl)
  | search => exact Or.inr (Or.inl rfl)

/-- The cases one by one. -/
theorem C176_unfitted_cases (a : ℕ) (clf : Bool) : (Est.linear none).getNOutputs = none ∧ (Est.knnReg none).getNOutputs = none ∧ (Est.gpr a none).getNOutputs = some 1 ∧ (Est.nb 1).getNOutputs = some 1 ∧
    (Est.svm 0).getNOutputs = some 0 ∧ (Est.knnClf 0).getNOutputs = some 0 ∧ (Est.net clf none 0).getNOutputs = some 0 ∧ (Est.search 0).getNOutputs = some 0 ∧ Est.cluster.getNOutputs = some 1 := ⟨rfl, rfl, rfl, rfl, rfl, rfl, rfl, rfl, rfl⟩

/-- C176, violated: a network or logistic regression fitted on labels and then on 0/1 targets with another number of columns reports the number of the earlier fit. -/
theorem C176_stale_violated (T T' : Targets) (h1 : T'.zeroOne = false) (h2 : T.zeroOne = true) (h3 : T'.cols ≠ T.cols) : ∃ e f, Fresh e ∧ fits e [T', T] = some f ∧ f.getNOutputs = some T'.cols ∧ f.getNOutputs ≠ some T.cols := by
  refine ⟨.net true none 0, .net true (some T'.cols) T.cols, Fresh.net true, by simp [fits, Est.fit, h1, h2], rfl, ?_⟩
  intro h
  exact h3 (Option.some.inj h)

/-- C176, violated for a `GaussianNB` written as a struct literal: it reports 0 outputs after every fit, so that cross-validation panics. -/
theorem C176_literal_violated (T : Targets) (rows : ℕ) : (∀ f, fits (.nb 0) [T] = some f → f.getNOutputs = some 0) ∧ cvColumns (.nb 0) T rows = none := by
  by_cases hT : T.cols = 1
  · refine ⟨fun f hf => ?_, ?_⟩
    · simp only [fits, List.foldlM_cons, List.foldlM_nil, Est.fit, hT, ne_eq, not_true_eq_false, if_false] at hf
      cases hf
      rfl
    · simp [cvColumns, Est.clone, Est.fit, hT, Est.getNOutputs, newDense]
  · refine ⟨fun f hf => ?_, ?_⟩
    · simp only [fits, List.foldlM_cons, List.foldlM_nil, Est.fit, hT, ne_eq, not_false_eq_true, if_true] at hf
      cases hf
    · simp [cvColumns, Est.clone, Est.fit, hT]

/-- C176: cross-validation of a new supervised estimator whose fit succeeds gives the scorer predictions with as many columns as the targets have.  Missing: classifiers by neighbours, which cannot be cloned
(`C176_crossval_violated`). -/
theorem C176_crossval_partial {e : Est} (h : Fresh e) (hk : ∀ n, e ≠ .knnClf n) (T : Targets) (hc : 0 < T.cols) (rows : ℕ) (hr : 0 < rows) (f : Est) (hf : e.fit T = some f) : cvColumns e T rows = some T.cols := by
  have hcl : e.clone = some e := by
    cases h <;> first | rfl | exact absurd rfl (hk 0)
  have hg : f.getNOutputs = some T.cols := C176_reported_partial h [] T (by simp) f (by simpa [fits] using hf)
  rw [cvColumns, hcl, Option.bind_some, hf, Option.bind_some, hg, Option.bind_some, newDense, if_neg (by omega)]

/-- C176, violated: cross-validation panics for every `KNeighborsClassifier` and `NearestCentroid`, whatever the data; the latter panics too when asked for its number of outputs. -/
theorem C176_crossval_violated (n : ℕ) (T : Targets) (rows : ℕ) : cvColumns (.knnClf n) T rows = none ∧ cvColumns .centroid T rows = none ∧ Est.centroid.getNOutputs = none := ⟨rfl, rfl, rfl⟩

/-- C176, violated: `CrossValidate` has a default for a nil splitter but panics before it is used; with a splitter the jobs are at most the splits and at most what was asked for, and the splitter is the one given. -/
theorem C176_default_violated (numCPU : ℕ) (NJobs : ℤ) : cvHead numCPU NJobs none = none ∧ ∀ n, ∃ jobs, cvHead numCPU NJobs (some n) = some (jobs, n, n) ∧ jobs ≤ n ∧ (0 < NJobs → jobs ≤ NJobs) := by
  refine ⟨rfl, fun n => ⟨_, rfl, ?_, ?_⟩⟩
  · generalize (if NJobs ≤ 0 then (numCPU : ℤ) else NJobs) = j
    by_cases h : j > n
    · simp [h]
    · simp only [if_neg h]
      omega
  · intro h
    simp only [if_neg (by omega : ¬ NJobs ≤ 0)]
    by_cases h2 : NJobs > n
    · simp only [if_pos h2]
      omega
    · simp only [if_neg h2]
      omega

/-- C176, pipelines: a pipeline with a new supervised estimator as last step reports, after a fit, the number of columns that its transformers make of the targets. -/
theorem C176_pipeline (p q : Pipe) (h : Fresh p.last) (cols : ℕ) (z : Bool) (k : ℕ) (hf : p.fit cols z k = some q) : q.getNOutputs = some (p.steps.foldl (fun c f => f c) cols) := by
  unfold Pipe.fit at hf
  cases he : p.last.fit ⟨p.steps.foldl (fun c f => f c) cols, z, k⟩ with
  | none => rw [he] at hf; cases hf
  | some f =>
    rw [he, Option.map_some] at hf
    cases hf
    exact C176_reported_partial h [] ⟨_, z, k⟩ (by simp) f (by simpa [fits] using he)

/-- C176, violated: with a transformer that changes the number of target columns (a label binarizer, for instance) the number reported is not that of the targets, which is what predictions are converted back to. -/
theorem C176_pipeline_violated (p q : Pipe) (h : Fresh p.last) (cols : ℕ) (z : Bool) (k : ℕ) (hf : p.fit cols z k = some q) (hs : p.steps.foldl (fun c f => f c) cols ≠ cols) : q.getNOutputs ≠ some cols := by
  rw [C176_pipeline p q h cols z k hf]
  intro h2
  exact hs (Option.some.inj h2)

/-! ### Cases meeting the hypotheses -/

/-- A logistic regression fitted on two columns of 0/1 targets and then on one column of three labels. -/
example : (fits (.net true none 0) ([⟨2, true, 4⟩] ++ [⟨1, false, 3⟩])).bind Est.getNOutputs = some 1 := by decide

/-- The other way round: two label columns, then one column of 0/1 targets. -/
example : (fits (.net true none 0) [⟨2, false, 5⟩, ⟨1, true, 2⟩]).bind Est.getNOutputs = some 2 := by decide

example : cvColumns (.gpr 1 none) ⟨3, false, 9⟩ 10 = some 3 ∧ cvColumns (.nb 1) ⟨1, false, 3⟩ 10 = some 1 ∧ cvColumns (.nb 1) ⟨2, false, 3⟩ 10 = none := by decide

/-- A one-hot encoding of three labels before a ridge regression. -/
example : ((⟨[fun _ => 3], .linear none⟩ : Pipe).fit 1 true 6).bind Pipe.getNOutputs = some 3 := by decide

example : cvHead 8 (-1) (some 3) = some (3, 3, 3) := by decide

end Sk.NOut
