import Verif.Model.InterpShare
import Verif.Props.Interp1d
import Verif.Props.CubicSpline
import Mathlib.Algebra.Order.Ring.Rat

/-!
# C185: interpolating functions and later changes of the slices they were made from
-/
set_option autoImplicit false

namespace Sk.Interp

section
variable {K : Type} [Field K] [LinearOrder K] [IsStrictOrderedRing K]

/-- **C185, as long as the slices keep their contents** the functions of `Interp1d` and `CubicSpline` are the ones of C57 and C58. -/
theorem C185_unchanged (srt : List (K × Option K) → List (K × Option K)) (srt' : List (K × K) → List (K × K)) (solve : List K → List K → List K) (xs : List K) (ys : List (Option K)) (zs : List K) :
    (interp1dLive srt xs ys).map (fun f => f (xs, ys)) = interp1d srt xs ys ∧ (cubicSplineLive srt' solve xs zs).map (fun f => f (xs, zs)) = cubicSpline srt' solve xs zs := by
  constructor
  · unfold interp1dLive interp1d both
    split
    · rfl
    · split <;> rfl
  · unfold cubicSplineLive cubicSpline both
    split
    · rfl
    · split <;> rfl

/-- **C185, abscissae that are not sorted.** The functions of `Interp1d` and `CubicSpline` do not depend on what the caller later writes into the slices; that of `Interp2d` never does.
Missing for the full claim: sorted abscissae, see `C185_interp1d_violated` and `C185_spline_violated`. -/
theorem C185_unsorted_partial (srt : List (K × Option K) → List (K × Option K)) (srt' : List (K × K) → List (K × K)) (srt3 : List (P3 K) → List (P3 K)) (solve : List K → List K → List K) (xs : List K) (ys : List (Option K)) (zs : List K) (hx : ¬ xs.Pairwise (· ≤ ·)) :
    (∀ f, interp1dLive srt xs ys = some f → ∀ cur x, interp1d srt xs ys = some (f cur) ∧ f cur x = f (xs, ys) x) ∧
    (∀ f, cubicSplineLive srt' solve xs zs = some f → ∀ cur x, cubicSpline srt' solve xs zs = some (f cur) ∧ f cur x = f (xs, zs) x) ∧
    ∀ pts cur x y, interp2dLive srt3 srt pts cur x y = interp2dOf srt3 srt pts x y := by
  refine ⟨?_, ?_, fun _ _ _ _ => rfl⟩
  · intro f hf cur x
    unfold interp1dLive at hf
    split at hf
    · simp at hf
    · rename_i h
      obtain rfl := Option.some.inj hf
      unfold interp1d both
      rw [if_neg h, if_neg hx, if_neg hx]
      exact ⟨rfl, rfl⟩
  · intro f hf cur x
    unfold cubicSplineLive at hf
    split at hf
    · simp at hf
    · rename_i h
      obtain rfl := Option.some.inj hf
      unfold cubicSpline both
      rw [if_neg h, if_neg hx, if_neg hx]
      exact ⟨rfl, rfl⟩

/-- Hypothesis met, and the function made from points in descending order does not change. -/
example : ¬ [(2 : ℚ), 1].Pairwise (· ≤ ·) := by decide

/-- **C185 violated, `Interp1d`.** For increasing abscissae: whatever ordinate the caller writes later at index `i` of the slice passed as `y`, the function made before returns it at `x[i]`. -/
theorem C185_interp1d_violated {srt : List (K × Option K) → List (K × Option K)} (hsrt : ValidSort srt) (xs ys : List K) (hs : xs.Pairwise (· < ·)) (hl : xs.length = ys.length) (hn : 2 ≤ xs.length) (i : ℕ) (hi : i < xs.length) (v : K) :
    ∃ f, interp1dLive srt xs (ys.map some) = some f ∧ f (xs, ys.map some) xs[i] = some (ys[i]'(hl ▸ hi)) ∧ f (xs, (ys.set i v).map some) xs[i] = some v := by
  have hle : xs.Pairwise (· ≤ ·) := hs.imp le_of_lt
  have key : ∀ zs : List K, xs.length = zs.length → ∀ (w : K), zs[i]? = some w → evalAt (xs.zip (zs.map some)) xs[i] = some w := by
    intro zs hz w hw
    have hd : Distinct (xs.zip (zs.map some)) := by
      unfold Distinct
      rw [List.pairwise_iff_getElem]
      intro a b ha hb hab
      rw [List.getElem_zip, List.getElem_zip]
      rw [List.length_zip] at ha hb
      exact (List.pairwise_iff_getElem.1 hs a b (by omega) (by omega) hab).ne
    have he : EndsKnown (xs.zip (zs.map some)) := by
      intro p hp
      obtain ⟨k, hk, rfl⟩ := List.getElem_of_mem hp
      have hk' : k < zs.length := by rw [List.length_zip, List.length_map] at hk; omega
      have hk'' : k < xs.length := by omega
      have hm : (xs[k], some zs[k]) ∈ xs.zip (zs.map some) := by
        rw [List.mem_iff_getElem]
        exact ⟨k, hk, by simp⟩
      exact ⟨⟨_, _, hm, by simp⟩, ⟨_, _, hm, by simp⟩⟩
    obtain ⟨f, h1, h2, -⟩ := C57_interpolates hsrt xs (zs.map some) (by simp [hz]) hn hd he
    rw [interp1d, if_neg (by simp [hz]; omega), if_pos hle] at h1
    obtain rfl := Option.some.inj h1
    apply h2
    rw [List.mem_iff_getElem]
    have hi' : i < zs.length := by omega
    rw [List.getElem?_eq_getElem hi'] at hw
    refine ⟨i, by simp; omega, ?_⟩
    simp [Option.some.inj hw]
  refine ⟨_, by rw [interp1dLive, if_neg (by simp [hl]; omega)], ?_, ?_⟩
  · rw [both, if_pos hle]
    exact key ys hl _ (List.getElem?_eq_getElem (hl ▸ hi))
  · rw [both, if_pos hle]
    exact key (ys.set i v) (by simp [hl]) v (by rw [List.getElem?_set_self (hl ▸ hi)])

end

/-- **C185 violated, `CubicSpline`.** For increasing abscissae: whatever ordinate the caller writes later at index `i`, the function made before takes it at `x[i]`, with slopes at the knots that
are still those of the old ordinates. -/
theorem C185_spline_violated (srt : List (ℝ × ℝ) → List (ℝ × ℝ)) (solve : List ℝ → List ℝ → List ℝ) (xs ys : List ℝ) (hs : xs.Pairwise (· < ·)) (hl : xs.length = ys.length) (hn : 2 ≤ xs.length) (i : ℕ) (hi : i < xs.length) (v : ℝ) :
    ∃ f, cubicSplineLive srt solve xs ys = some f ∧ f (xs, ys) (xs.getD i 0) = ys.getD i 0 ∧ f (xs, ys.set i v) (xs.getD i 0) = v ∧ ∀ j < xs.length, deriv (f (xs, ys.set i v)) (xs.getD j 0) = (solve xs ys).getD j 0 := by
  have hle : xs.Pairwise (· ≤ ·) := hs.imp le_of_lt
  have e : ∀ zs : List ℝ, xs.length = zs.length → ((both srt xs ys).now (xs, zs)).map Prod.fst = xs ∧ ((both srt xs ys).now (xs, zs)).map Prod.snd = zs := by
    intro zs hz
    rw [both, if_pos hle]
    exact ⟨List.map_fst_zip (le_of_eq hz), List.map_snd_zip (le_of_eq hz.symm)⟩
  have knot : ∀ zs ks : List ℝ, spline xs zs ks (xs.getD i 0) = zs.getD i 0 := fun zs ks =>
    glue_knot hs hn (pc0 xs zs ks) (fun j => zs.getD j 0) (pc0_left hs) (pc0_right hs) i hi
  have hset : xs.length = (ys.set i v).length := by simp [hl]
  refine ⟨_, by rw [cubicSplineLive, if_neg (by omega)], ?_, ?_, ?_⟩
  · simp only [(e ys hl).1, (e ys hl).2]
    exact knot _ _
  · simp only [(e ys hl).1, (e ys hl).2, (e _ hset).1, (e _ hset).2]
    rw [knot, List.getD_eq_getElem?_getD, List.getElem?_set_self (hl ▸ hi), Option.getD_some]
  · intro j hj
    simp only [(e ys hl).1, (e ys hl).2, (e _ hset).1, (e _ hset).2]
    rw [(spline_deriv hs hn (xs.getD j 0)).deriv]
    exact glue_knot hs hn (pc1 xs (ys.set i v) (solve xs ys)) (fun j => (solve xs ys).getD j 0) (pc1_left hs) (pc1_right hs) j hj

/-- Hypotheses met by three points. -/
example : [(0 : ℝ), 1, 3].Pairwise (· < ·) ∧ 2 ≤ [(0 : ℝ), 1, 3].length := by
  refine ⟨?_, by simp⟩
  simp

/-- With two points the spline is the line through them, and the function made from the points no longer is when an ordinate has been changed: the mixture is off the line through the new points
everywhere except at the ends and in the middle. -/
theorem C185_two_points_violated (srt : List (ℝ × ℝ) → List (ℝ × ℝ)) (solve : List ℝ → List ℝ → List ℝ) (hsolve : ∀ xs ys, Solves xs ys (solve xs ys)) (x₀ x₁ y₀ y₁ v x : ℝ) (h : x₀ < x₁) (h0 : x ≠ x₀) (h1 : x ≠ x₁) (hm : x ≠ (x₀ + x₁) / 2) (hv : v ≠ y₁) :
    ∃ f g, cubicSplineLive srt solve [x₀, x₁] [y₀, y₁] = some f ∧ cubicSplineLive srt solve [x₀, x₁] [y₀, v] = some g ∧ g ([x₀, x₁], [y₀, v]) x = y₀ + (x - x₀) / (x₁ - x₀) * (v - y₀) ∧ f ([x₀, x₁], [y₀, v]) x ≠ g ([x₀, x₁], [y₀, v]) x := by
  have hle : [x₀, x₁].Pairwise (· ≤ ·) := by simp [h.le]
  have hg : x₁ - x₀ ≠ 0 := by linarith
  have ks : ∀ b : ℝ, (solve [x₀, x₁] [y₀, b]).getD 0 0 = (b - y₀) / (x₁ - x₀) ∧ (solve [x₀, x₁] [y₀, b]).getD 1 0 = (b - y₀) / (x₁ - x₀) := by
    intro b
    obtain ⟨-, h2⟩ := hsolve [x₀, x₁] [y₀, b]
    have e0 := h2 0 (by simp)
    have e1 := h2 1 (by simp)
    simp only [List.length_cons, List.length_nil, Nat.zero_add, Nat.reduceAdd, Nat.add_one_sub_one, Finset.sum_range_succ, Finset.sum_range_zero, zero_add] at e0 e1
    simp only [bandA, rhsB] at e0 e1
    simp at e0 e1
    field_simp at e0 e1
    constructor
    · field_simp
      simp only [List.getD_eq_getElem?_getD]
      linarith
    · field_simp
      simp only [List.getD_eq_getElem?_getD]
      linarith
  have seg : segment [x₀, x₁] x 2 1 = 1 := by
    rw [segment, if_neg (by simp)]
  have val : ∀ b c : ℝ, spline [x₀, x₁] [y₀, c] (solve [x₀, x₁] [y₀, b]) x = y₀ + (x - x₀) / (x₁ - x₀) * (c - y₀) + (x - x₀) / (x₁ - x₀) * (1 - (x - x₀) / (x₁ - x₀)) * ((b - c) * (1 - 2 * ((x - x₀) / (x₁ - x₀)))) := by
    intro b c
    rw [spline]
    simp only [List.length_cons, List.length_nil, Nat.zero_add, Nat.reduceAdd, seg, Nat.sub_self, (ks b).1, (ks b).2, cubic]
    simp only [List.getD_cons_zero, List.getD_cons_succ]
    rw [neg_mul, div_mul_cancel₀ _ hg]
    ring
  refine ⟨_, _, by rw [cubicSplineLive, if_neg (by simp)], by rw [cubicSplineLive, if_neg (by simp)], ?_, ?_⟩
  · simp only [both, if_pos hle, Both.now, List.zip_cons_cons, List.zip_nil_left, List.map_cons, List.map_nil]
    rw [val]
    ring
  · simp only [both, if_pos hle, Both.now, List.zip_cons_cons, List.zip_nil_left, List.map_cons, List.map_nil]
    rw [val, val]
    intro e
    have e' : (x - x₀) / (x₁ - x₀) * (1 - (x - x₀) / (x₁ - x₀)) * ((y₁ - v) * (1 - 2 * ((x - x₀) / (x₁ - x₀)))) = 0 := by
      have : (v - v) = 0 := sub_self v
      rw [this, zero_mul, mul_zero, add_zero] at e
      linarith
    rcases mul_eq_zero.1 e' with e1 | e1
    · rcases mul_eq_zero.1 e1 with e2 | e2
      · rcases div_eq_zero_iff.1 e2 with e3 | e3
        · exact h0 (by linarith)
        · exact hg e3
      · have := (div_eq_one_iff_eq hg).1 (by linarith : (x - x₀) / (x₁ - x₀) = 1)
        exact h1 (by linarith)
    · rcases mul_eq_zero.1 e1 with e2 | e2
      · exact hv (by linarith)
      · have h3 : (x - x₀) / (x₁ - x₀) = 1 / 2 := by linarith
        rw [div_eq_div_iff hg (by norm_num)] at h3
        exact hm (by linarith)

end Sk.Interp
