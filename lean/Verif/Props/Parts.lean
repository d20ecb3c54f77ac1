import Verif.Props.Classification
import Verif.Props.Regression
import Mathlib.Tactic.Linarith

/-! # C250: scores of parts and of the whole -/
set_option autoImplicit false

namespace Sk.Parts

open Sk.Metrics

variable {K : Type} [Field K] [LinearOrder K] [IsStrictOrderedRing K]

/-- Total weight of a part. -/
def weight {A : Type} (P : List (A × A × K)) : K := (P.map (fun s => s.2.2)).sum

private theorem sum_parts {A : Type} (f : A → K) (Ps : List (List A)) : (Ps.flatten.map f).sum = (Ps.map (fun P => (P.map f).sum)).sum := by
  rw [List.map_flatten, List.sum_flatten, List.map_map]
  rfl

private theorem weight_pos {A : Type} {Ps : List (List (A × A × K))} (hne : Ps ≠ []) (h : ∀ P ∈ Ps, 0 < weight P) : 0 < (Ps.map weight).sum :=
  List.sum_pos _ (fun x hx => by
    obtain ⟨P, hP, rfl⟩ := List.mem_map.1 hx
    exact h P hP) (by simpa using hne)

/-- **C250, accuracy**: the accuracy of several parts taken together is the mean of their accuracies, weighted with the weights of the parts; the unnormalised accuracies add up. -/
theorem C250_accuracy {L : Type} [DecidableEq L] (Ps : List (List (List L × List L × K))) (hne : Ps ≠ []) (hlen : ∀ P ∈ Ps, ∀ s ∈ P, s.1.length = s.2.1.length) (hw : ∀ P ∈ Ps, ∀ s ∈ P, 0 ≤ s.2.2) (hpos : ∀ P ∈ Ps, 0 < weight P)
    (a u : List (List L × List L × K) → K) (ha : ∀ P ∈ Ps, accuracy (P.map (fun s => s.1)) (P.map (fun s => s.2.1)) true (some (P.map (fun s => s.2.2))) = some (a P))
    (hu : ∀ P ∈ Ps, accuracy (P.map (fun s => s.1)) (P.map (fun s => s.2.1)) false (some (P.map (fun s => s.2.2))) = some (u P)) :
    accuracy (Ps.flatten.map (fun s => s.1)) (Ps.flatten.map (fun s => s.2.1)) true (some (Ps.flatten.map (fun s => s.2.2))) = some ((Ps.map (fun P => weight P * a P)).sum / (Ps.map weight).sum) ∧
    accuracy (Ps.flatten.map (fun s => s.1)) (Ps.flatten.map (fun s => s.2.1)) false (some (Ps.flatten.map (fun s => s.2.2))) = some (Ps.map u).sum := by
  have hW := weight_pos hne hpos
  have eW : (Ps.flatten.map (fun s => s.2.2)).sum = (Ps.map weight).sum := sum_parts _ _
  obtain ⟨h1, A, h2, h3, -⟩ := C26_accuracy Ps.flatten (fun s hs => by
    obtain ⟨P, hP, hs⟩ := List.mem_flatten.1 hs
    exact hlen P hP s hs) (fun s hs => by
    obtain ⟨P, hP, hs⟩ := List.mem_flatten.1 hs
    exact hw P hP s hs) (by rw [eW]; exact hW)
  have hpart : ∀ P ∈ Ps, u P = wsum (fun s => s.2.2) (fun s => s.1 = s.2.1) P ∧ weight P * a P = wsum (fun s => s.2.2) (fun s => s.1 = s.2.1) P := by
    intro P hP
    obtain ⟨p1, A', p2, p3, -⟩ := C26_accuracy P (hlen P hP) (hw P hP) (hpos P hP)
    rw [hu P hP, Option.some_inj] at p1
    rw [ha P hP, Option.some_inj] at p2
    refine ⟨p1, ?_⟩
    rw [p2, p3]
    exact mul_div_cancel₀ _ (hpos P hP).ne'
  have es : wsum (fun s => s.2.2) (fun s => s.1 = s.2.1) Ps.flatten = (Ps.map (fun P => wsum (fun s => s.2.2) (fun s => s.1 = s.2.1) P)).sum := sum_parts _ _
  constructor
  · rw [h2, h3, es, eW, List.map_congr_left (fun P hP => (hpart P hP).2)]
  · rw [h1, es, List.map_congr_left (fun P hP => (hpart P hP).1)]

/-- **C250, errors**: the mean squared (absolute) error of several parts taken together is the mean of their errors, weighted with their numbers of samples (predicted, true). -/
theorem C250_errors (loss : K → K) (hloss : IsLoss loss) (Ps : List (List (K × K))) (hne : Ps ≠ []) (hP : ∀ P ∈ Ps, P ≠ []) (e : List (K × K) → K)
    (he : ∀ P ∈ Ps, meanError loss [P.map Prod.snd] [P.map Prod.fst] none false = some [e P]) :
    meanError loss [Ps.flatten.map Prod.snd] [Ps.flatten.map Prod.fst] none false = some [(Ps.map (fun P => (P.length : K) * e P)).sum / (Ps.map (fun P => (P.length : K))).sum] := by
  have hfl : Ps.flatten ≠ [] := by
    obtain ⟨P, hmem⟩ := List.exists_mem_of_ne_nil _ hne
    obtain ⟨s, hs⟩ := List.exists_mem_of_ne_nil _ (hP P hmem)
    exact List.ne_nil_of_mem (List.mem_flatten.2 ⟨P, hmem, hs⟩)
  obtain ⟨E, h1, h2, -⟩ := C31_mean_error_partial loss hloss Ps.flatten hfl
  have hpart : ∀ P ∈ Ps, (P.length : K) * e P = (P.map (fun c => loss (c.1 - c.2))).sum := by
    intro P hmem
    obtain ⟨E', p1, p2, -⟩ := C31_mean_error_partial loss hloss P (hP P hmem)
    rw [he P hmem, Option.some_inj, List.cons.injEq] at p1
    rw [p1.1, p2]
    exact mul_div_cancel₀ _ (by simpa using hP P hmem)
  have hn : (Ps.flatten.length : K) = (Ps.map (fun P => (P.length : K))).sum := by
    clear * -
    induction Ps with
    | nil => simp
    | cons P Ps ih => rw [List.flatten_cons, List.length_append, Nat.cast_add, ih, List.map_cons, List.sum_cons]
  rw [h1, h2, sum_parts, hn, List.map_congr_left hpart]

private theorem about (S : List (K × K × K)) (hpos : 0 < weight S) (m : K) :
    wtot S (fun s => (s.1 - m) ^ 2) = totalSS S + weight S * (wtot S (fun t => t.1) / weight S - m) ^ 2 := by
  have key : ∀ c : K, wtot S (fun s => (s.1 - c) ^ 2) = wtot S (fun s => s.1 ^ 2) - 2 * c * wtot S (fun s => s.1) + c ^ 2 * weight S := by
    intro c
    unfold wtot weight
    clear hpos
    induction S with
    | nil => simp
    | cons a S ih =>
      simp only [List.map_cons, List.sum_cons]
      rw [ih]
      ring
  unfold totalSS
  rw [key, key]
  change _ = wtot S (fun s => s.1 ^ 2) - 2 * (wtot S (fun t => t.1) / weight S) * wtot S (fun s => s.1) + (wtot S (fun t => t.1) / weight S) ^ 2 * weight S + _
  have := hpos.ne'
  field_simp
  ring

/-- **C250, `R2Score`**: the score of several parts taken together is at least the mean of their scores, weighted with their sums of squares about their means. -/
theorem C250_r2 (eps : K) (heps : 0 < eps) (Ps : List (List (K × K × K))) (hne : Ps ≠ []) (hw : ∀ P ∈ Ps, ∀ s ∈ P, 0 ≤ s.2.2) (hpos : ∀ P ∈ Ps, 0 < weight P) (hss : ∀ P ∈ Ps, eps ≤ totalSS P) (r : List (K × K × K) → K)
    (hr : ∀ P ∈ Ps, r2Score eps [P.map (fun s => s.1)] [P.map (fun s => s.2.1)] (some (P.map (fun s => s.2.2))) .uniform = some [r P]) :
    ∃ R, r2Score eps [Ps.flatten.map (fun s => s.1)] [Ps.flatten.map (fun s => s.2.1)] (some (Ps.flatten.map (fun s => s.2.2))) .uniform = some [R] ∧
      (Ps.map (fun P => totalSS P * r P)).sum / (Ps.map totalSS).sum ≤ R := by
  have hW : 0 < weight Ps.flatten := by
    have : weight Ps.flatten = (Ps.map weight).sum := sum_parts _ _
    rw [this]
    exact weight_pos hne hpos
  have hw' : ∀ s ∈ Ps.flatten, 0 ≤ s.2.2 := fun s hs => by
    obtain ⟨P, hP, hs⟩ := List.mem_flatten.1 hs
    exact hw P hP s hs
  have hpart : ∀ P ∈ Ps, totalSS P * r P = totalSS P - wtot P (fun s => (s.2.1 - s.1) ^ 2) := by
    intro P hP
    obtain ⟨r', p1, -, -, p2⟩ := C31_r2_partial eps heps P (hw P hP) (hpos P hP)
    rw [hr P hP, Option.some_inj, List.cons.injEq] at p1
    have := (p2 _ _ rfl rfl (hss P hP)).1
    rw [p1.1, this]
    change totalSS P * (1 - _ / totalSS P) = _
    have h0 : totalSS P ≠ 0 := (heps.trans_le (hss P hP)).ne'
    field_simp
  have hT : (Ps.map totalSS).sum ≤ totalSS Ps.flatten := by
    have e : totalSS Ps.flatten = (Ps.map (fun P => wtot P (fun s => (s.1 - wtot Ps.flatten (fun t => t.1) / weight Ps.flatten) ^ 2))).sum := sum_parts _ _
    rw [e]
    refine List.sum_le_sum fun P hP => ?_
    rw [about P (hpos P hP)]
    have := mul_nonneg (hpos P hP).le (sq_nonneg (wtot P (fun t => t.1) / weight P - wtot Ps.flatten (fun t => t.1) / weight Ps.flatten))
    linarith
  have hTpos : 0 < (Ps.map totalSS).sum := List.sum_pos _ (fun x hx => by
    obtain ⟨P, hP, rfl⟩ := List.mem_map.1 hx
    exact heps.trans_le (hss P hP)) (by simpa using hne)
  have hTe : eps ≤ totalSS Ps.flatten := by
    obtain ⟨P, hmem⟩ := List.exists_mem_of_ne_nil _ hne
    have h1 : totalSS P ≤ (Ps.map totalSS).sum := List.single_le_sum (fun x hx => by
      obtain ⟨Q, hQ, rfl⟩ := List.mem_map.1 hx
      exact (heps.trans_le (hss Q hQ)).le) _ (List.mem_map_of_mem hmem)
    exact (hss P hmem).trans (h1.trans hT)
  obtain ⟨R, h1, -, -, h2⟩ := C31_r2_partial eps heps Ps.flatten hw' hW
  have hR : R = 1 - wtot Ps.flatten (fun s => (s.2.1 - s.1) ^ 2) / totalSS Ps.flatten := (h2 _ _ rfl rfl hTe).1
  refine ⟨R, h1, ?_⟩
  have hE : wtot Ps.flatten (fun s => (s.2.1 - s.1) ^ 2) = (Ps.map (fun P => wtot P (fun s => (s.2.1 - s.1) ^ 2))).sum := sum_parts _ _
  have hE0 := wtot_nonneg Ps.flatten (fun s => (s.2.1 - s.1) ^ 2) hw' (fun _ _ => sq_nonneg _)
  have hsum : (Ps.map (fun P => totalSS P * r P)).sum = (Ps.map totalSS).sum - wtot Ps.flatten (fun s => (s.2.1 - s.1) ^ 2) := by
    rw [List.map_congr_left hpart, hE]
    clear * -
    induction Ps with
    | nil => simp
    | cons P Ps ih => simp only [List.map_cons, List.sum_cons, ih]; ring
  rw [hsum, hR, sub_div, div_self hTpos.ne']
  have := div_le_div_of_nonneg_left hE0 hTpos hT
  linarith

/-- **C250, confusion matrix**: when the same true labels occur in all parts, and in each part only such labels are predicted, the confusion matrices of the parts have the classes of that of the whole, which is their sum. -/
theorem C250_confusion {L : Type} [LinearOrder L] (Ps : List (List (L × L × K))) (hne : Ps ≠ []) (hknown : ∀ P ∈ Ps, ∀ s ∈ P, ∃ t ∈ P, t.1 = s.2.1) (hsame : ∀ P ∈ Ps, ∀ Q ∈ Ps, ∀ s ∈ P, ∃ t ∈ Q, t.1 = s.1) :
    ∃ n cm le, confusion (Ps.flatten.map (fun s => s.1)) (Ps.flatten.map (fun s => s.2.1)) (some (Ps.flatten.map (fun s => s.2.2))) = some (n, cm, le) ∧
      ∃ part : List (L × L × K) → List K,
        (∀ P ∈ Ps, ∃ leP, confusion (P.map (fun s => s.1)) (P.map (fun s => s.2.1)) (some (P.map (fun s => s.2.2))) = some (n, part P, leP) ∧ leP.classes = le.classes) ∧
        ∀ r c, r < n → c < n → cm.getD (r * n + c) 0 = (Ps.map (fun P => (part P).getD (r * n + c) 0)).sum := by
  classical
  obtain ⟨cm, le, h1, h2, h3, -, h5⟩ := C28_confusion_partial Ps.flatten (fun s hs => by
    obtain ⟨P, hP, hs⟩ := List.mem_flatten.1 hs
    obtain ⟨t, ht, e⟩ := hknown P hP s hs
    exact List.mem_map.2 ⟨t, List.mem_flatten.2 ⟨P, hP, ht⟩, e⟩)
  have hpart : ∀ P ∈ Ps, ∃ cmP leP, confusion (P.map (fun s => s.1)) (P.map (fun s => s.2.1)) (some (P.map (fun s => s.2.2))) = some (le.classes.length, cmP, leP) ∧ leP.classes = le.classes ∧
      ∀ (r c : ℕ) (hr : r < le.classes.length) (hc : c < le.classes.length), cmP.getD (r * le.classes.length + c) 0 = wsum (fun s => s.2.2) (fun s => s.1 = le.classes[r] ∧ s.2.1 = le.classes[c]) P := by
    intro P hP
    obtain ⟨cmP, leP, p1, p2, p3, -, p5⟩ := C28_confusion_partial P (fun s hs => by
      obtain ⟨t, ht, e⟩ := hknown P hP s hs
      exact List.mem_map.2 ⟨t, ht, e⟩)
    have e : leP.classes = le.classes := by
      refine List.Perm.eq_of_pairwise (le := (· < ·)) (fun a b _ _ h1 h2 => absurd h1 (lt_asymm h2)) p2 h2 ((List.perm_ext_iff_of_nodup (p2.imp ne_of_lt) (h2.imp ne_of_lt)).2 fun v => ?_)
      rw [p3 v, h3 v]
      constructor
      · rintro ⟨s, hs, e⟩
        exact ⟨s, List.mem_flatten.2 ⟨P, hP, hs⟩, e⟩
      · rintro ⟨s, hs, e⟩
        obtain ⟨Q, hQ, hs⟩ := List.mem_flatten.1 hs
        obtain ⟨t, ht, e'⟩ := hsame Q hQ P hP s hs
        exact ⟨t, ht, e'.trans e⟩
    refine ⟨cmP, leP, by rw [← e]; exact p1, e, ?_⟩
    rw [← e]
    exact p5
  haveI : Nonempty (Sk.Label.Enc L) := ⟨le⟩
  choose! part leP q1 q2 q3 using hpart
  refine ⟨_, cm, le, h1, part, fun P hP => ⟨leP P, q1 P hP, q2 P hP⟩, fun r c hr hc => ?_⟩
  rw [h5 r c hr hc, List.map_congr_left (fun P hP => q3 P hP r c hr hc)]
  exact sum_parts _ _

/-- Two parts with three and two samples of weight 1: two of three and one of two labels right, three of five together. -/
example : accuracy (K := ℚ) [[1], [2], [1]] [[1], [2], [2]] true (some [1, 1, 1]) = some (2 / 3) ∧ accuracy (K := ℚ) [[1], [2]] [[1], [1]] true (some [1, 1]) = some (1 / 2) ∧
    accuracy (K := ℚ) [[1], [2], [1], [1], [2]] [[1], [2], [2], [1], [1]] true (some [1, 1, 1, 1, 1]) = some (3 / 5) ∧
    (confusion (K := ℚ) [1, 2, 1] [1, 2, 2] (some [1, 1, 1])).map (·.2.1) = some [1, 1, 0, 1] ∧ (confusion (K := ℚ) [1, 2] [1, 1] (some [1, 1])).map (·.2.1) = some [1, 0, 1, 0] ∧
    (confusion (K := ℚ) [1, 2, 1, 1, 2] [1, 2, 2, 1, 1] (some [1, 1, 1, 1, 1])).map (·.2.1) = some [2, 1, 1, 1] := by decide +kernel

/-- Two parts about different means, each predicted by its own mean: score 0 on each part, 16/17 on the whole. -/
example : r2Score (1 / 100 : ℚ) [[0, 2]] [[1, 1]] (some [1, 1]) .uniform = some [0] ∧ r2Score (1 / 100 : ℚ) [[8, 10]] [[9, 9]] (some [1, 1]) .uniform = some [0] ∧
    r2Score (1 / 100 : ℚ) [[0, 2, 8, 10]] [[1, 1, 9, 9]] (some [1, 1, 1, 1]) .uniform = some [16 / 17] ∧
    meanError (fun x : ℚ => x * x) [[0, 2]] [[1, 1]] none false = some [1] ∧ meanError (fun x : ℚ => x * x) [[8]] [[10]] none false = some [4] ∧ meanError (fun x : ℚ => x * x) [[0, 2, 8]] [[1, 1, 10]] none false = some [2] := by decide +kernel

end Sk.Parts
