import Verif.Props.Poly
import Verif.Props.OlsInvariance
import Mathlib.Algebra.MvPolynomial.Degrees
import Mathlib.Combinatorics.Nullstellensatz
import Mathlib.Algebra.BigOperators.Fin

/-! # C226: polynomial features with a linear regression recover polynomials -/
set_option autoImplicit false

namespace Sk.PolyFit

open Sk.Poly Sk.Lin

/-! ### Specification -/

/-- The value of a polynomial at a row. -/
noncomputable def value {d : ℕ} (f : MvPolynomial (Fin d) ℝ) (x : List ℝ) : ℝ := MvPolynomial.eval (fun j : Fin d => x.getD j 0) f

/-- The rows determine polynomials up to the degree: only the zero polynomial vanishes at all of them. -/
def Determine {n : ℕ} (d degree : ℕ) (X : Fin n → List ℝ) : Prop := ∀ f : MvPolynomial (Fin d) ℝ, f.totalDegree ≤ degree → (∀ i, value f (X i) = 0) → f = 0

/-- The transformed rows as a matrix. -/
def design {n : ℕ} (P : List (List ℕ)) (X : Fin n → List ℝ) : Fin n → Fin P.length → ℝ := fun i k => (transformRow P (X i)).getD k 0

/-! ### Exponents -/

/-- An exponent vector as a multi-index. -/
noncomputable def expo (d : ℕ) (p : List ℕ) : Fin d →₀ ℕ := Finsupp.equivFunOnFinite.symm (fun j => p.getD j 0)

theorem expo_apply (d : ℕ) (p : List ℕ) (j : Fin d) : expo d p j = p.getD j 0 := rfl

theorem list_ofFn {d : ℕ} {α : Type} (z : α) (p : List α) (h : p.length = d) : p = List.ofFn (fun j : Fin d => p.getD j z) := by
  apply List.ext_getElem
  · simp [h]
  · intro i h1 h2
    rw [List.getElem_ofFn]
    simp [List.getD_eq_getElem?_getD, List.getElem?_eq_getElem h1]

theorem expo_inj {d : ℕ} {p p' : List ℕ} (h : p.length = d) (h' : p'.length = d) (e : expo d p = expo d p') : p = p' := by
  rw [list_ofFn 0 p h, list_ofFn 0 p' h']
  congr 1
  funext j
  rw [← expo_apply, e, expo_apply]

theorem sum_expo {d : ℕ} {p : List ℕ} (h : p.length = d) : (expo d p).sum (fun _ e => e) = p.sum := by
  rw [Finsupp.sum_fintype _ _ (fun _ => rfl)]
  conv_rhs => rw [list_ofFn 0 p h, List.sum_ofFn]
  rfl

theorem monomial_expo {d : ℕ} {p : List ℕ} {x : List ℝ} (h : p.length = d) (hx : x.length = d) : Poly.monomial p x = ∏ j : Fin d, x.getD j 0 ^ expo d p j := by
  rw [Poly.monomial, ← List.prod_ofFn]
  congr 1
  apply List.ext_getElem
  · simp [h, hx]
  · intro i h1 h2
    have hi : i < d := by simpa using h2
    rw [List.getElem_ofFn, List.getElem_zipWith, expo_apply]
    simp [List.getD_eq_getElem?_getD, List.getElem?_eq_getElem (show i < p.length by omega), List.getElem?_eq_getElem (show i < x.length by omega)]

/-- What `Fit` of PolynomialFeatures without the constant produces. -/
structure Complete (d degree : ℕ) (P : List (List ℕ)) : Prop where
  nodup : P.Nodup
  mem : ∀ p, p ∈ P ↔ p.length = d ∧ p.sum ≤ degree ∧ p.sum ≠ 0

theorem design_cell {n d degree : ℕ} {P : List (List ℕ)} (hP : Complete d degree P) {x : List ℝ} (hx : x.length = d) (k : Fin P.length) : (transformRow P x).getD k 0 = ∏ j : Fin d, x.getD j 0 ^ expo d P[k] j := by
  rw [C20_transform, List.getD_eq_getElem?_getD, List.getElem?_map, List.getElem?_eq_getElem k.2]
  exact monomial_expo ((hP.mem _).1 (List.getElem_mem k.2)).1 hx

theorem expo_fin_inj {d degree : ℕ} {P : List (List ℕ)} (hP : Complete d degree P) {k k' : Fin P.length} (e : expo d P[k] = expo d P[k']) : k = k' := by
  have h := expo_inj ((hP.mem _).1 (List.getElem_mem k.2)).1 ((hP.mem _).1 (List.getElem_mem k'.2)).1 e
  exact Fin.ext ((List.Nodup.getElem_inj_iff hP.nodup).1 h)

theorem expo_ne_zero {d degree : ℕ} {P : List (List ℕ)} (hP : Complete d degree P) (k : Fin P.length) : expo d P[k] ≠ 0 := by
  intro e
  have h := (hP.mem _).1 (List.getElem_mem k.2)
  have h2 := sum_expo h.1
  have e' : expo d P[k.1] = 0 := e
  rw [e'] at h2
  simp at h2
  exact h.2.2 (by simpa using h2.symm)

/-- A polynomial in terms of the transformed row. -/
theorem value_eq {d degree : ℕ} {P : List (List ℕ)} (hP : Complete d degree P) (f : MvPolynomial (Fin d) ℝ) (hf : f.totalDegree ≤ degree) {x : List ℝ} (hx : x.length = d) :
    value f x = ∑ k : Fin P.length, (transformRow P x).getD k 0 * f.coeff (expo d P[k]) + f.coeff 0 := by
  classical
  rw [value, MvPolynomial.eval_eq']
  set T : Finset (Fin d →₀ ℕ) := insert 0 (Finset.univ.image (fun k : Fin P.length => expo d P[k])) with hT
  have hsub : f.support ⊆ T := by
    intro s hs
    rw [hT, Finset.mem_insert]
    by_cases h0 : s = 0
    · exact Or.inl h0
    · right
      have hlen : (List.ofFn (fun j => s j)).length = d := by simp
      have he : expo d (List.ofFn (fun j => s j)) = s := by
        ext j
        rw [expo_apply]
        simp [List.getD_eq_getElem?_getD]
      have hsum := sum_expo hlen
      rw [he] at hsum
      have hdeg := (MvPolynomial.le_totalDegree hs).trans hf
      have hmem : List.ofFn (fun j => s j) ∈ P := by
        rw [hP.mem]
        refine ⟨hlen, by rw [← hsum]; exact hdeg, ?_⟩
        intro hz
        rw [← hsum, Finsupp.sum_fintype _ _ (fun _ => rfl)] at hz
        apply h0
        ext j
        exact (Finset.sum_eq_zero_iff.1 hz) j (Finset.mem_univ j)
      obtain ⟨k, hk, e⟩ := List.getElem_of_mem hmem
      rw [Finset.mem_image]
      refine ⟨⟨k, hk⟩, Finset.mem_univ _, ?_⟩
      show expo d P[k] = s
      rw [e, he]
  rw [Finset.sum_subset hsub (fun s _ hs => by rw [MvPolynomial.notMem_support_iff.1 hs, zero_mul]), hT, Finset.sum_insert, Finset.sum_image]
  · rw [add_comm]
    congr 1
    · apply Finset.sum_congr rfl
      intro k _
      rw [design_cell (n := 0) hP hx, mul_comm]
    · simp
  · intro k _ k' _ e
    exact expo_fin_inj hP e
  · intro h
    obtain ⟨k, _, e⟩ := Finset.mem_image.1 h
    exact expo_ne_zero hP k e

/-- Rows that determine polynomials give a design matrix with full rank. -/
theorem spans {n d degree : ℕ} {P : List (List ℕ)} (hP : Complete d degree P) {X : Fin n → List ℝ} (hX : ∀ i, (X i).length = d) (hu : Determine d degree X) : Spans (design P X) := by
  classical
  intro c b hc
  set f : MvPolynomial (Fin d) ℝ := (∑ k : Fin P.length, MvPolynomial.monomial (expo d P[k]) (c k)) + MvPolynomial.C b with hf
  have hco : ∀ k : Fin P.length, f.coeff (expo d P[k]) = c k := by
    intro k
    rw [hf, MvPolynomial.coeff_add, MvPolynomial.coeff_sum, Finset.sum_eq_single k]
    · rw [MvPolynomial.coeff_monomial, if_pos rfl, MvPolynomial.coeff_C, if_neg (Ne.symm (expo_ne_zero hP k)), add_zero]
    · intro k' _ hne
      rw [MvPolynomial.coeff_monomial, if_neg (fun e => hne (expo_fin_inj hP e))]
    · intro h; exact absurd (Finset.mem_univ k) h
  have hc0 : f.coeff 0 = b := by
    rw [hf, MvPolynomial.coeff_add, MvPolynomial.coeff_sum, Finset.sum_eq_zero, MvPolynomial.coeff_C, if_pos rfl, zero_add]
    intro k _
    rw [MvPolynomial.coeff_monomial, if_neg (expo_ne_zero hP k)]
  have hdeg : f.totalDegree ≤ degree := by
    refine (MvPolynomial.totalDegree_add _ _).trans (max_le ?_ (by simp))
    apply MvPolynomial.totalDegree_finsetSum_le
    intro k _
    refine (MvPolynomial.totalDegree_monomial_le _ _).trans ?_
    have h := (hP.mem _).1 (List.getElem_mem k.2)
    exact (sum_expo h.1).le.trans h.2.1
  have hz := hu f hdeg (fun i => by
    rw [value_eq hP f hdeg (hX i), hc0]
    refine Eq.trans ?_ (hc i)
    congr 1
    exact Finset.sum_congr rfl (fun k _ => by rw [hco k]; rfl))
  funext k
  rw [← hco k, hz]
  simp

/-- **C226.** PolynomialFeatures without the constant column, followed by a LinearRegression with intercept: if the training rows determine polynomials up to the degree, and the targets are the values of such a polynomial, then the fitted model predicts the value of the
polynomial for every row. -/
theorem C226_recovers {n : ℕ} (d degree : ℕ) (hn : n ≠ 0) (normalize : Bool) (X : Fin n → List ℝ) (hX : ∀ i, (X i).length = d) (hu : Determine d degree X) (f : MvPolynomial (Fin d) ℝ) (hf : f.totalDegree ≤ degree) :
    ∃ P F, (∀ fuel, F ≤ fuel → powers d degree false false fuel = some P) ∧
      ∀ (solve : (Fin n → Fin P.length → ℝ) → (Fin n → ℝ) → Fin P.length → ℝ), LeastSquares solve → ∀ old, ∃ m, fit true normalize solve old (design P X) (fun i => value f (X i)) = some m ∧
        ∀ x : List ℝ, x.length = d → decision m (fun k => (transformRow P x).getD k 0) = value f x := by
  obtain ⟨P, F, h1, h2, h3⟩ := C20_powers d degree false false
  have hP : Complete d degree P := ⟨h2, fun p => by rw [h3]; simp⟩
  refine ⟨P, F, h1, fun solve hs old => ⟨⟨fun k => f.coeff (expo d P[k]), f.coeff 0⟩, ?_, ?_⟩⟩
  · rw [← C197_exact hn normalize hs old (spans hP hX hu) (fun k => f.coeff (expo d P[k])) (f.coeff 0)]
    congr 1
    funext i
    exact value_eq hP f hf (hX i)
  · intro x hx
    rw [value_eq hP f hf hx]
    rfl

/-- **C226, grids.** Rows that contain a full grid with more values in each direction than the degree determine polynomials up to the degree; for one feature this is one more different value than the degree. -/
theorem C226_grid {n : ℕ} (d degree : ℕ) (X : Fin n → List ℝ) (S : Fin d → Finset ℝ) (hS : ∀ j, degree < (S j).card) (hX : ∀ x : List ℝ, x.length = d → (∀ j : Fin d, x.getD j 0 ∈ S j) → ∃ i, X i = x) : Determine d degree X := by
  intro f hf h0
  refine MvPolynomial.eq_zero_of_eval_zero_at_prod_finset f S (fun j => ((MvPolynomial.degreeOf_le_totalDegree f j).trans hf).trans_lt (hS j)) ?_
  intro x hx
  have e : (fun j : Fin d => (List.ofFn x).getD j 0) = x := by
    funext j
    simp [List.getD_eq_getElem?_getD]
  obtain ⟨i, hi⟩ := hX (List.ofFn x) (by simp) (fun j => by rw [congrFun e j]; exact hx j)
  have := h0 i
  rwa [hi, value, e] at this

/-- **C226, constant column.** With the constant column the design matrix never has full rank beside an intercept: the guarantee of the solver says nothing. -/
theorem C226_bias {n : ℕ} (d degree : ℕ) (X : Fin n → List ℝ) (hX : ∀ i, (X i).length = d) : ∃ P F, (∀ fuel, F ≤ fuel → powers d degree false true fuel = some P) ∧ ¬ Spans (design P X) := by
  obtain ⟨P, F, h1, h2, h3⟩ := C20_powers d degree false true
  refine ⟨P, F, h1, fun hs => ?_⟩
  have hmem : List.replicate d 0 ∈ P := by rw [h3]; simp
  obtain ⟨k, hk, e⟩ := List.getElem_of_mem hmem
  have hone : ∀ i, design P X i ⟨k, hk⟩ = 1 := by
    intro i
    rw [design, C20_transform, List.getD_eq_getElem?_getD, List.getElem?_map, List.getElem?_eq_getElem hk, e]
    show Poly.monomial (List.replicate d 0) (X i) = 1
    rw [monomial_expo (by simp) (hX i)]
    apply Finset.prod_eq_one
    intro j _
    rw [expo_apply]
    simp [List.getD_eq_getElem?_getD, List.getElem?_replicate]
  have := hs (Pi.single ⟨k, hk⟩ 1) (-1) (fun i => by simp [Pi.single_apply, hone i])
  have := congrFun this ⟨k, hk⟩
  simp at this

/-- One feature, three different values, degree 2. -/
example : Determine 1 2 (fun i : Fin 3 => [(i.1 : ℝ)]) := by
  refine C226_grid 1 2 _ (fun _ => {0, 1, 2}) (fun _ => by norm_num) ?_
  intro x hx h
  have h0 := h 0
  obtain ⟨v, rfl⟩ := List.length_eq_one_iff.1 hx
  simp at h0
  rcases h0 with rfl | rfl | rfl
  · exact ⟨0, by simp⟩
  · exact ⟨1, by simp⟩
  · exact ⟨2, by simp⟩

end Sk.PolyFit
