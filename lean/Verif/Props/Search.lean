import Verif.Lemmas.Search
import Verif.Lemmas.Split
import Mathlib.Algebra.Field.Rat
import Mathlib.Algebra.Order.Ring.Rat
import Mathlib.Tactic.NormNum

/-!
# C07, C08: `ParameterGrid` and `GridSearchCV.Fit`
-/
set_option autoImplicit false

namespace Sk.Search

section grid
variable {Key V : Type} [DecidableEq Key]

/-- **C07.** For a grid with at least one parameter and no empty value list, whatever the order in which the map is
iterated: the assignments returned are exactly those that bind every parameter to one of its values and nothing else;
their number is the product of the numbers of values; none occurs twice if no value list has repetitions. -/
theorem C07_grid_is_product (entries : List (Key × List V)) (hkeys : (entries.map Prod.fst).Nodup)
    (hne : entries ≠ []) (hvals : ∀ e ∈ entries, e.2 ≠ []) :
    (∀ f : Key → Option V, f ∈ parameterGrid entries ↔
        (∀ k, k ∉ entries.map Prod.fst → f k = none) ∧ ∀ e ∈ entries, ∃ v ∈ e.2, f e.1 = some v) ∧
    (parameterGrid entries).length = (entries.map (fun e => e.2.length)).prod ∧
    ((∀ e ∈ entries, e.2.Nodup) → (parameterGrid entries).Nodup) := by
  rw [grid_eq entries hne hvals]
  refine ⟨?_, ?_, ?_⟩
  · intro f
    rw [mem_foldl_ext entries _ f hkeys]
    simp [emptyP]
  · rw [length_foldl_ext]; simp
  · intro hv
    exact nodup_foldl_ext entries _ hkeys hv (by simp [emptyP]) (by simp)

/-- **C07.** Iterating the map in another order returns the same assignments with the same multiplicities. -/
theorem C07_grid_order_irrelevant (entries entries' : List (Key × List V)) (hp : entries.Perm entries')
    (hkeys : (entries.map Prod.fst).Nodup) (hvals : ∀ e ∈ entries, e.2 ≠ []) :
    (parameterGrid entries).Perm (parameterGrid entries') := by
  by_cases hne : entries = []
  · subst hne
    rw [List.nil_perm.1 hp]
  · have hne' : entries' ≠ [] := by
      rintro rfl
      exact hne (List.perm_nil.1 hp)
    rw [grid_eq entries hne hvals, grid_eq entries' hne' (fun e he => hvals e (hp.symm.subset he))]
    exact foldl_ext_perm hp hkeys _

/-- **C07 is violated for empty value lists**: the parameters visited before an empty list are forgotten, so the result
depends on the iteration order of the map. -/
theorem C07_empty_values_violated (pre post : List (Key × List V)) (k : Key) :
    parameterGrid (pre ++ (k, []) :: post) = parameterGrid post := by
  unfold parameterGrid
  rw [List.foldl_append, List.foldl_cons]
  congr 1
  unfold makeArr
  split <;> simp

/-- **C07 is violated for the empty grid**: the product of no list is one (empty) assignment; none is returned. -/
theorem C07_empty_grid_violated : parameterGrid ([] : List (Key × List V)) = [] := rfl

/-- **C07 is violated for empty value lists**: for every grid with values for all its parameters, adding a parameter without values leaves the assignments as they were when the map is iterated with that
parameter first, and removes them all when it comes last. -/
theorem C07_order_dependent_violated (entries : List (Key × List V)) (hne : entries ≠ []) (hvals : ∀ e ∈ entries, e.2 ≠ []) (k : Key) :
    (parameterGrid ((k, []) :: entries)).length = (entries.map (fun e => e.2.length)).prod ∧ 0 < (entries.map (fun e => e.2.length)).prod ∧
      parameterGrid (entries ++ [(k, [])]) = [] := by
  refine ⟨?_, ?_, C07_empty_values_violated entries [] k⟩
  · have h := C07_empty_values_violated [] entries k
    rw [List.nil_append] at h
    rw [h, grid_eq entries hne hvals, length_foldl_ext]
    simp
  · clear hne
    induction entries with
    | nil => simp
    | cons e l ih =>
      rw [List.map_cons, List.prod_cons]
      exact Nat.mul_pos (List.length_pos_iff.2 (hvals e (by simp))) (ih (fun e' h => hvals e' (by simp [h])))

end grid

/-- The two iteration orders of `{"a": [], "b": [1]}`. -/
example : (parameterGrid [("a", []), ("b", [1])]).length = 1 ∧ (parameterGrid [("b", [1]), ("a", [])]).length = 0 := by
  decide

example : (parameterGrid [("a", [1, 2]), ("b", [3, 4, 5])]).map (fun f => (f "a", f "b")) =
    [(some 1, some 3), (some 1, some 4), (some 1, some 5), (some 2, some 3), (some 2, some 4), (some 2, some 5)] := by
  decide

/-! ## GridSearchCV.Fit -/

section fit
variable {K P E : Type} [Field K] [LinearOrder K]

/-- mean of a list of numbers -/
def avg (l : List K) : K := l.sum / l.length

/-- a candidate whose fold scores are proper numbers -/
def cand (c : P × List K × List E) : Candidate P E K := ⟨c.1, c.2.1.map some, c.2.2⟩

theorem mean_cand (l : List K) (h : l ≠ []) : mean (l.map some) = some (avg l) := by
  unfold mean avg
  have : (l.map some).isEmpty = false := by simpa using h
  rw [this]
  have h2 : (l.map some).mapM id = some l := by
    rw [List.mapM_map]
    have : (id ∘ (some : K → Option K)) = fun x => some x := rfl
    rw [this]
    clear this
    induction l with
    | nil => rfl
    | cons a l ih =>
      by_cases hl : l = []
      · subst hl; rfl
      · rw [List.mapM_cons, ih hl (by simpa using hl)]; rfl
  rw [h2]; rfl

/-- **C08.** Let every candidate have at least one fold, one estimator per fold, and numeric (non NaN) scores. Then `Fit`
succeeds; the reported score is the mean fold score of candidate `BestIndex`; no candidate has a better mean, and all
earlier ones are strictly worse; `BestParams` are that candidate's parameters; `BestEstimator` is the estimator that
candidate's cross-validation trained on its best fold. -/
theorem C08_gridsearch_best (low : Bool) (cs : List (P × List K × List E)) (hne : cs ≠ [])
    (hf : ∀ c ∈ cs, c.2.1 ≠ [] ∧ c.2.2.length = c.2.1.length) :
    ∃ b, gridFit low (cs.map cand) = some (some b) ∧ ∃ hb : b.index < cs.length,
      b.params = cs[b.index].1 ∧
      b.score = some (avg cs[b.index].2.1) ∧
      (∀ (i : ℕ) (hi : i < cs.length),
        if low then avg cs[b.index].2.1 ≤ avg cs[i].2.1 else avg cs[i].2.1 ≤ avg cs[b.index].2.1) ∧
      (∀ (i : ℕ) (hi : i < b.index), have _ : i < cs.length := Nat.lt_trans hi hb
        if low then avg cs[b.index].2.1 < avg cs[i].2.1 else avg cs[i].2.1 < avg cs[b.index].2.1) ∧
      ∃ (f : ℕ) (hf1 : f < cs[b.index].2.1.length) (hf2 : f < cs[b.index].2.2.length),
        b.estimator = cs[b.index].2.2[f] ∧
        ∀ (i : ℕ) (hi : i < cs[b.index].2.1.length),
          if low then cs[b.index].2.1[f] ≤ cs[b.index].2.1[i] else cs[b.index].2.1[i] ≤ cs[b.index].2.1[f] := by
  obtain ⟨outs, ho, hF⟩ := Sk.Split.mapM_ok (fun c => dowork low (cand c))
    (fun c o => o.1 = some (avg c.2.1) ∧ ∃ (f : ℕ) (h2 : f < c.2.2.length), o.2 = c.2.2[f] ∧ FirstBest low c.2.1 f) cs
    (by
      intro c hc
      obtain ⟨h1, h2⟩ := hf c hc
      obtain ⟨b, hb, hfb⟩ := bestIdx_spec low c.2.1 h1
      have hlt : b < c.2.2.length := by rw [h2]; exact hfb.1
      refine ⟨(mean (c.2.1.map some), c.2.2[b]), ?_, mean_cand _ h1, b, hlt, rfl, hfb⟩
      simp [dowork, cand, hb, List.getElem?_eq_getElem hlt])
  have hlen : outs.length = cs.length := hF.length_eq.symm
  have hmap : (cs.map cand).mapM (dowork low) = some outs := by
    rw [List.mapM_map]; exact ho
  -- the list the final scan goes through
  let all : List (P × Score K × E) := ((cs.map cand).map Candidate.params).zip outs
  have hall : all.map (fun x => x.2.1) = (cs.map (fun c => avg c.2.1)).map some := by
    apply List.ext_getElem
    · simp [all, hlen]
    · intro i h1 h2
      simp [all] at h1 h2 ⊢
      exact (hF.get (i := i) (by omega) (by omega)).1
  have hs := fitScan_spec low all 0 all rfl none (by simp)
  obtain ⟨bi, hbi, hfb⟩ := bestIdx_spec low (cs.map (fun c => avg c.2.1)) (by simpa using hne)
  have hfit : ∃ b, fitScan low all 0 none = some b ∧ b.index = bi := by
    have h1 := hs.1
    rw [hall] at h1
    unfold bestIdx at hbi
    rw [Option.map_none] at h1
    rw [← h1, Option.map_map] at hbi
    rw [Option.map_eq_some_iff] at hbi
    obtain ⟨b, hb, hbi⟩ := hbi
    exact ⟨b, hb, hbi⟩
  obtain ⟨b, hb, rfl⟩ := hfit
  have hget := hs.2 b hb
  have hlt : b.index < cs.length := by simpa using hfb.1
  have hget' : all[b.index]'(by simp [all]; omega) = (b.params, b.score, b.estimator) := by
    rw [List.getElem?_eq_getElem (by simp [all]; omega)] at hget
    exact Option.some.inj hget
  simp only [all, List.getElem_zip, List.getElem_map, Prod.mk.injEq] at hget'
  obtain ⟨hp, ho'⟩ := hget'
  have hFi := hF.get (i := b.index) hlt (by omega)
  simp only [List.get_eq_getElem] at hFi
  rw [ho'] at hFi
  obtain ⟨hsc, f, hf2, hest, hffb⟩ := hFi
  refine ⟨b, by unfold gridFit; rw [hmap]; exact congrArg some hb, hlt, hp.symm, hsc, ?_, ?_, f, hffb.1, hf2, hest, ?_⟩
  · intro i hi
    have := hfb.2.1 i (by simpa using hi)
    simpa [good] using this
  · intro i hi
    have := hfb.2.2 i hi
    cases low <;> simpa [good] using this
  · intro i hi
    have := hffb.2.1 i hi
    simpa [good] using this

/-- **C08 is violated by NaN**: if the first candidate's score is NaN, it is reported as best whatever the other scores. -/
theorem C08_nan_first_violated (low : Bool) (rest : List (Score K)) : bestIdx low (none :: rest) = some 0 := by
  unfold bestIdx
  simp only [bestScan]
  suffices ∀ (l : List (Score K)) i, bestScan low l i (some (0, none)) = some (0, none) by rw [this]; rfl
  intro l
  induction l with
  | nil => intro i; rfl
  | cons s l ih =>
    intro i
    have : isBetter low s none = false := by cases low <;> cases s <;> rfl
    simp only [bestScan, this]
    exact ih _
end fit

example : ∃ cs : List (String × List ℚ × List ℕ), cs ≠ [] ∧ (∀ c ∈ cs, c.2.1 ≠ [] ∧ c.2.2.length = c.2.1.length) ∧
    (gridFit false (cs.map cand)).map (Option.map Best.index) = some (some 1) :=
  ⟨[("a", [1, 2], [10, 11]), ("b", [3, 1], [20, 21]), ("c", [2, 2], [30, 31])], by simp, by simp, by decide +kernel⟩

end Sk.Search
