import Verif.Model.Encode
import Verif.Props.Scale
import Verif.Lemmas.Label

/-!
# C24: `KBinsDiscretizer`
-/
set_option autoImplicit false

namespace Sk.Encode

open Sk.Scale

variable {K : Type} [Field K] [LinearOrder K] [IsStrictOrderedRing K]

theorem kbBin_spec (edges : List K) (nbins : ℕ) (x : K) (hl : edges.length = nbins + 1) : ∀ (fuel i : ℕ), nbins ≤ fuel + i → i < nbins →
    (∀ (j : ℕ) (hj : j < edges.length), 0 < j → j ≤ i → edges[j] ≤ x) →
    ∃ b, kbBin edges nbins x fuel i = some b ∧ b < nbins ∧ (∀ (j : ℕ) (hj : j < edges.length), 0 < j → j ≤ b → edges[j] ≤ x) ∧
      (∀ (hj : b + 1 < edges.length), b + 1 < nbins → x < edges[b + 1])
  | 0, i, h, hi, hall => by omega
  | fuel + 1, i, h, hi, hall => by
    unfold kbBin
    by_cases h1 : i + 1 < nbins
    · rw [if_pos h1, List.getElem?_eq_getElem (by omega)]
      simp only
      by_cases h2 : edges[i + 1] ≤ x
      · rw [if_pos h2]
        apply kbBin_spec edges nbins x hl fuel (i + 1) (by omega) h1
        intro j hj h0 hji
        rcases Nat.lt_or_eq_of_le hji with h3 | h3
        · exact hall j hj h0 (by omega)
        · subst h3; exact h2
      · rw [if_neg h2]
        exact ⟨i, rfl, hi, hall, fun _ _ => not_le.1 h2⟩
    · rw [if_neg h1]
      exact ⟨i, rfl, hi, hall, fun _ h => absurd h h1⟩

/-- **C24, bin.** For any edges of `nbins` bins (`nbins ≥ 1`, edges in increasing order) and any value, `Transform` gives a bin number below `nbins`; if the value lies between
the first and the last edge it lies between the edges of its bin, and strictly below the upper edge unless the bin is the last. -/
theorem C24_bin (edges : List K) (nbins : ℕ) (hn : 0 < nbins) (hl : edges.length = nbins + 1) (hs : edges.Pairwise (· ≤ ·)) (x : K) :
    ∃ b : ℕ, kbTransform .ordinal edges nbins x = some (some [(b : K)]) ∧ ∃ hb : b < nbins,
      (edges[0] ≤ x → edges[b] ≤ x) ∧ (x ≤ edges[nbins] → x ≤ edges[b + 1]) ∧ (b + 1 < nbins → x < edges[b + 1]) := by
  obtain ⟨b, h1, h2, h3, h4⟩ := kbBin_spec edges nbins x hl nbins 0 (by omega) hn (by intro j _ h0 h; omega)
  refine ⟨b, ?_, h2, ?_, ?_, ?_⟩
  · unfold kbTransform; rw [h1]; rfl
  · intro h
    rcases Nat.eq_zero_or_pos b with h0 | h0
    · subst h0; exact h
    · exact h3 b (by omega) h0 (le_refl _)
  · intro h
    by_cases hb : b + 1 < nbins
    · exact (h4 (by omega) hb).le
    · have : b + 1 = nbins := by omega
      simpa [this] using h
  · exact fun h => h4 (by omega) h

example : kbTransform .ordinal [(0 : ℚ), 1, 2, 3] 3 1 = some (some [1]) ∧ kbTransform .ordinal [(0 : ℚ), 1, 2, 3] 3 3 = some (some [2]) := by decide +kernel

/-- **C24, uniqueness.** A value that lies in the half-open bin `[edges[b], edges[b+1])` gets the number `b`. -/
theorem C24_unique (edges : List K) (nbins : ℕ) (hl : edges.length = nbins + 1) (hs : edges.Pairwise (· ≤ ·)) (x : K) (b : ℕ)
    (hb : b < nbins) (h1 : edges[b] ≤ x) (h2 : x < edges[b + 1]) : kbTransform .ordinal edges nbins x = some (some [(b : K)]) := by
  obtain ⟨c, g1, g2, g3, g4⟩ := kbBin_spec edges nbins x hl nbins 0 (by omega) (by omega) (by intro j _ h0 h; omega)
  have : c = b := by
    rcases Nat.lt_trichotomy c b with h | h | h
    · exfalso
      have := g4 (by omega) (by omega)
      have h5 : edges[c + 1] ≤ edges[b] := by
        rcases Nat.lt_or_eq_of_le (show c + 1 ≤ b by omega) with h' | h'
        · exact List.pairwise_iff_getElem.1 hs _ _ (by omega) (by omega) h'
        · simp [h']
      exact absurd (lt_of_lt_of_le this h5) (not_lt.2 h1)
    · exact h
    · exfalso
      have := g3 (b + 1) (by omega) (by omega) (by omega)
      exact absurd h2 (not_lt.2 this)
  subst this
  unfold kbTransform; rw [g1]; rfl

example : kbTransform .ordinal [(0 : ℚ), 1, 2, 3] 3 (3/2) = some (some [1]) := by decide +kernel

/-- **C24, monotone.** A larger value never gets a smaller bin number. -/
theorem C24_monotone (edges : List K) (nbins : ℕ) (hn : 0 < nbins) (hl : edges.length = nbins + 1) (x y : K) (hxy : x ≤ y)
    (hs : edges.Pairwise (· ≤ ·)) :
    ∃ a b : ℕ, kbTransform .ordinal edges nbins x = some (some [(a : K)]) ∧ kbTransform .ordinal edges nbins y = some (some [(b : K)]) ∧ a ≤ b := by
  obtain ⟨a, g1, g2, g3, g4⟩ := kbBin_spec edges nbins x hl nbins 0 (by omega) (by omega) (by intro j _ h0 h; omega)
  obtain ⟨b, k1, k2, k3, k4⟩ := kbBin_spec edges nbins y hl nbins 0 (by omega) (by omega) (by intro j _ h0 h; omega)
  refine ⟨a, b, ?_, ?_, ?_⟩
  · unfold kbTransform; rw [g1]; rfl
  · unfold kbTransform; rw [k1]; rfl
  · by_contra h
    have h1 := k4 (by omega) (by omega)
    have h2 := g3 (b + 1) (by omega) (by omega) (by omega)
    exact absurd (lt_of_le_of_lt (le_trans h2 hxy) h1) (lt_irrefl _)

theorem kbArg_onehot (nbins b : ℕ) (hb : b < nbins) : kbArg ((List.replicate nbins (0 : K)).set b 1) nbins = b := by
  have hget : ∀ i, i < nbins → ((List.replicate nbins (0 : K)).set b 1).getD i 0 = if i = b then 1 else 0 := by
    intro i hi
    rw [List.getD_eq_getElem?_getD, List.getElem?_set, List.length_replicate]
    by_cases h : b = i
    · subst h; rw [if_pos rfl, if_pos hb, if_pos rfl]; rfl
    · rw [if_neg h, if_neg (Ne.symm h), List.getElem?_replicate, if_pos hi]; rfl
  have key : ∀ k, k + 1 ≤ nbins → (List.range' 1 k).foldl (fun ith c => if ((List.replicate nbins (0 : K)).set b 1).getD ith 0 <
      ((List.replicate nbins (0 : K)).set b 1).getD c 0 then c else ith) 0 = if b ≤ k then b else 0 := by
    intro k
    induction k with
    | zero => intro _; simp; omega
    | succ k ih =>
      intro hk
      rw [List.range'_concat, List.foldl_append, ih (by omega)]
      simp only [List.foldl_cons, List.foldl_nil, one_mul]
      by_cases h1 : b ≤ k
      · have h1' : b ≤ k + 1 := by omega
        simp only [h1, h1', if_true]
        rw [hget b hb, hget (1 + k) (by omega), if_pos rfl, if_neg (by omega : ¬ 1 + k = b)]
        rw [if_neg (not_lt.2 zero_le_one)]
      · simp only [h1, if_false]
        rw [hget 0 (by omega), hget (1 + k) (by omega), if_neg (by omega : ¬ 0 = b)]
        by_cases h2 : 1 + k = b
        · rw [if_pos h2, if_pos zero_lt_one, if_pos (by omega)]; exact h2
        · rw [if_neg h2, if_neg (lt_irrefl _), if_neg (by omega)]
  unfold kbArg
  rw [key (nbins - 1) (by omega), if_pos (by omega)]

/-- **C24, inverse.** With ordinal or dense one-hot encoding, `InverseTransform` of a transformed value is the midpoint of the bin of that value (`C24_bin`); hence for a value
between the first and last edge it is off by at most half the width of the bin. -/
theorem C24_inverse [FloorRing K] (edges : List K) (nbins : ℕ) (hn : 0 < nbins) (hl : edges.length = nbins + 1) (hs : edges.Pairwise (· ≤ ·)) (x : K)
    (enc : BinEncode) (he : enc ≠ .onehot) :
    ∃ b : ℕ, kbTransform .ordinal edges nbins x = some (some [(b : K)]) ∧ ∃ hb : b < nbins,
      ∃ out, kbTransform enc edges nbins x = some (some out) ∧
      kbInverse (1 / 2) enc edges nbins out = some ((edges[b] + edges[b + 1]) / 2) ∧
      (edges[0] ≤ x → x ≤ edges[nbins] → |x - (edges[b] + edges[b + 1]) / 2| ≤ (edges[b + 1] - edges[b]) / 2) := by
  obtain ⟨b, h1, h2, h3, h4⟩ := kbBin_spec edges nbins x hl nbins 0 (by omega) hn (by intro j _ h0 h; omega)
  obtain ⟨b', hb', hlt', q1, q2, _⟩ := C24_bin edges nbins hn hl hs x
  have hbb : b' = b := by
    unfold kbTransform at hb'
    rw [h1] at hb'
    simp only [Option.bind_some, Option.some.injEq, List.cons.injEq, and_true, Nat.cast_inj] at hb'
    exact hb'.symm
  subst hbb
  have hfin : ∀ (i : ℤ), i = (b' : ℤ) → (let ith := if i < 0 then 0 else if (nbins : ℤ) - 1 < i then (nbins : ℤ) - 1 else i
      (if ith < 0 then (none : Option K) else do
        let a ← edges[ith.toNat]?
        let c ← edges[ith.toNat + 1]?
        return (1 / 2) * (a + c))) = some ((edges[b'] + edges[b' + 1]) / 2) := by
    rintro i rfl
    simp only
    rw [if_neg (by omega), if_neg (by omega), if_neg (by omega)]
    simp only [Int.toNat_natCast]
    rw [List.getElem?_eq_getElem (by omega), List.getElem?_eq_getElem (by omega)]
    simp only [Option.bind_eq_bind, Option.bind_some]
    change some _ = some _
    congr 1
    ring
  refine ⟨b', hb', hlt', ?_⟩
  have habs : edges[0] ≤ x → x ≤ edges[nbins] → |x - (edges[b'] + edges[b' + 1]) / 2| ≤ (edges[b' + 1] - edges[b']) / 2 := by
    intro ha hb
    have := q1 ha
    have := q2 hb
    rw [abs_le]
    constructor <;> linarith
  cases enc with
  | ordinal =>
    refine ⟨[(b' : K)], hb', ?_, habs⟩
    unfold kbInverse
    simp only [List.getElem?_cons_zero, Option.map_some, Int.floor_natCast, Option.bind_eq_bind, Option.bind_some]
    exact hfin _ rfl
  | onehot => exact absurd rfl he
  | onehotDense =>
    refine ⟨(List.replicate nbins 0).set b' 1, ?_, ?_, habs⟩
    · unfold kbTransform
      rw [h1]
      simp [hlt']
    · unfold kbInverse
      simp only [List.length_set, List.length_replicate, lt_irrefl, if_false, Option.bind_eq_bind, Option.bind_some, kbArg_onehot nbins b' hlt']
      exact hfin _ rfl

example : kbInverse (1/2) .onehotDense [(0 : ℚ), 1, 2, 3] 3 [0, 1, 0] = some (3/2) := by decide +kernel

/-- **C24, uniform edges.** For every non-empty column and at least one bin: the edges start at the smallest and end at the largest value, are evenly spaced and increasing
(so the theorems above apply to every fitted column). -/
theorem C24_fit_uniform (nbins : ℕ) (hn : 0 < nbins) (col : List K) (hne : col ≠ []) :
    ∃ edges m M, kbFit .uniform nbins col = some edges ∧ ∃ hl : edges.length = nbins + 1, edges.Pairwise (· ≤ ·) ∧
      m ∈ col ∧ M ∈ col ∧ (∀ x ∈ col, m ≤ x ∧ x ≤ M) ∧ edges[0] = m ∧ edges[nbins] = M ∧
      ∀ (b : ℕ) (hb : b < nbins), edges[b + 1] - edges[b] = (M - m) / nbins := by
  cases col with
  | nil => exact absurd rfl hne
  | cons x0 xs =>
    obtain ⟨h1, h2, h3⟩ := foldl_min_le (x0 :: xs) x0
    obtain ⟨g1, g2, g3⟩ := foldl_max_ge (x0 :: xs) x0
    set m := (x0 :: xs).foldl min x0 with hm
    set M := (x0 :: xs).foldl max x0 with hM
    have hn' : (nbins : K) ≠ 0 := by exact_mod_cast (by omega : nbins ≠ 0)
    have hpos : (0 : K) < nbins := by exact_mod_cast hn
    refine ⟨(List.range (nbins + 1)).map (fun (b : ℕ) => m + (b : K) / nbins * (M - m)), m, M, ?_, by simp, ?_, ?_, ?_, fun x hx => ⟨h2 x hx, g2 x hx⟩, ?_, ?_, ?_⟩
    · unfold kbFit
      simp only [← hm, ← hM]
      rw [if_neg (by omega)]
      exact Sk.Label.mapM_some_of _ (fun b : ℕ => m + (b : K) / nbins * (M - m)) _ (fun _ _ => rfl)
    · rw [List.pairwise_map]
      refine List.Pairwise.imp ?_ List.pairwise_lt_range
      intro a b hab
      have : (a : K) ≤ b := by exact_mod_cast hab.le
      have hMm : 0 ≤ M - m := by linarith
      have : (a : K) / nbins * (M - m) ≤ (b : K) / nbins * (M - m) :=
        mul_le_mul_of_nonneg_right (div_le_div_of_nonneg_right this hpos.le) hMm
      linarith
    · rcases h3 with h3 | h3
      · rw [h3]; simp
      · exact h3
    · rcases g3 with g3 | g3
      · rw [g3]; simp
      · exact g3
    · simp
    · simp [hn']
    · intro b hb
      simp only [List.getElem_map, List.getElem_range]
      push_cast
      field_simp
      ring

example : kbFit .uniform 4 [(3 : ℚ), 1, 5] = some [1, 2, 3, 4, 5] := by decide +kernel

theorem quantile_mono (p q : K) (hpq : p ≤ q) (hq : q ≤ 1) (xs : List K) (hne : xs ≠ []) (hs : xs.Pairwise (· ≤ ·)) :
    ∃ a b, quantile p xs = some a ∧ quantile q xs = some b ∧ a ≤ b ∧ a ∈ xs ∧ b ∈ xs := by
  have hlen : (0 : K) ≤ xs.length := Nat.cast_nonneg _
  obtain ⟨i, hi, h1, h2, h3⟩ := quantileFrom_spec (p * xs.length) xs [] (fun _ => rfl) (by simp only [List.nil_append]; nlinarith) hne
  obtain ⟨j, hj, k1, k2, k3⟩ := quantileFrom_spec (q * xs.length) xs [] (fun _ => rfl) (by simp only [List.nil_append]; nlinarith) hne
  simp only [List.nil_append] at hi h1 hj k1
  refine ⟨xs[i], xs[j], h1, k1, ?_, List.getElem_mem _, List.getElem_mem _⟩
  have hij : i ≤ j := by
    rcases h3 with h3 | h3
    · omega
    · have : (i : K) < ((j + 1 : ℕ) : K) := lt_of_lt_of_le h3 (le_trans (mul_le_mul_of_nonneg_right hpq hlen) k2)
      rw [Nat.cast_lt] at this
      omega
  rcases Nat.lt_or_eq_of_le hij with h | h
  · exact List.pairwise_iff_getElem.1 hs _ _ hi hj h
  · subst h; exact le_refl _

/-- **C24, quantile edges.** If the column happens to be sorted, the quantile strategy gives increasing edges taken from the column, from its first to its last value.
Missing for the full claim: unsorted columns, see `C24_quantile_violated`. -/
theorem C24_fit_quantile_partial (nbins : ℕ) (hn : 0 < nbins) (col : List K) (hne : col ≠ []) (hs : col.Pairwise (· ≤ ·)) :
    ∃ edges, kbFit .quantile nbins col = some edges ∧ edges.length = nbins + 1 ∧ edges.Pairwise (· ≤ ·) ∧ (∀ e ∈ edges, e ∈ col) ∧ edges.head? = col.head? ∧ edges.getLast? = col.getLast? := by
  have hpos : (0 : K) < nbins := by exact_mod_cast hn
  have hle : ∀ b, b ∈ List.range (nbins + 1) → (b : K) / nbins ≤ 1 := by
    intro b hb
    rw [List.mem_range] at hb
    rw [div_le_one hpos]
    exact_mod_cast (by omega : b ≤ nbins)
  have hq : ∀ b ∈ List.range (nbins + 1), quantile ((b : K) / nbins) col = some ((quantile ((b : K) / nbins) col).getD 0) := by
    intro b hb
    obtain ⟨a, _, ha, _⟩ := quantile_mono _ _ (le_refl ((b : K) / nbins)) (hle b hb) col hne hs
    rw [ha]; rfl
  refine ⟨(List.range (nbins + 1)).map (fun (b : ℕ) => (quantile ((b : K) / nbins) col).getD 0), ?_, by simp, ?_, ?_, ?_, ?_⟩
  · cases col with
    | nil => exact absurd rfl hne
    | cons x0 xs =>
      unfold kbFit
      simp only
      rw [if_neg (by omega)]
      apply Sk.Label.mapM_some_of
      intro b hb
      rw [if_pos hs]
      exact hq b hb
  · rw [List.pairwise_map]
    refine List.Pairwise.imp_of_mem ?_ List.pairwise_lt_range
    intro a b ha hb hab
    have h1 : (a : K) / nbins ≤ (b : K) / nbins := div_le_div_of_nonneg_right (by exact_mod_cast hab.le) hpos.le
    obtain ⟨u, v, hu, hv, huv, _⟩ := quantile_mono _ _ h1 (hle b hb) col hne hs
    rw [hu, hv]; exact huv
  · intro e he
    obtain ⟨b, hb, rfl⟩ := List.mem_map.1 he
    obtain ⟨u, _, hu, _, _, hmem, _⟩ := quantile_mono _ _ (le_refl ((b : K) / nbins)) (hle b hb) col hne hs
    rw [hu]; exact hmem
  · cases col with
    | nil => exact absurd rfl hne
    | cons x0 xs =>
      rw [List.range_succ_eq_map, List.map_cons, List.head?_cons, List.head?_cons, Nat.cast_zero, zero_div]
      obtain ⟨i, hi, h1, h2, h3⟩ := quantileFrom_spec ((0 : K) * (x0 :: xs).length) (x0 :: xs) [] (fun _ => rfl) (by simp only [zero_mul]; exact Nat.cast_nonneg _) hne
      have hi0 : i = 0 := by
        rcases h3 with h3 | h3
        · exact h3
        · rw [zero_mul] at h3; exact absurd h3 (not_lt.2 (Nat.cast_nonneg i))
      subst hi0
      have h1' : quantile (0 : K) (x0 :: xs) = some x0 := h1
      rw [h1']; rfl
  · rw [List.range_succ, List.map_append, List.map_singleton, List.getLast?_concat, div_self (ne_of_gt hpos)]
    obtain ⟨i, hi, h1, h2, h3⟩ := quantileFrom_spec ((1 : K) * col.length) col [] (fun _ => rfl) (by simp only [one_mul, List.nil_append]; exact le_refl _) hne
    simp only [List.nil_append] at hi h1
    have hi' : i = col.length - 1 := by
      rw [one_mul] at h2
      have : col.length ≤ i + 1 := by exact_mod_cast h2
      omega
    have h1' : quantile (1 : K) col = some (col[i]'hi) := h1
    rw [h1', List.getLast?_eq_getElem?, Option.getD_some, ← hi', List.getElem?_eq_getElem hi]

example : kbFit .quantile 2 [(1 : ℚ), 2, 7, 9] = some [1, 2, 9] := by decide +kernel

/-- **C24 violated by the default strategy.** `Fit` with the quantile strategy panics on every column that is not already sorted. -/
theorem C24_quantile_violated (nbins : ℕ) (col : List K) (hs : ¬ col.Pairwise (· ≤ ·)) : kbFit .quantile nbins col = none := by
  cases col with
  | nil => rfl
  | cons x0 xs =>
    unfold kbFit
    simp only [hs, if_false]
    rw [List.range_succ_eq_map]
    split <;> rfl

example : kbFit .quantile 2 [(2 : ℚ), 1, 3] = none := C24_quantile_violated 2 _ (by decide +kernel)

/-- **C24 violated by the encoding "onehot"**: `Transform` returns no matrix at all. -/
theorem C24_onehot_violated (edges : List K) (nbins : ℕ) (hn : 0 < nbins) (hl : edges.length = nbins + 1) (x : K) :
    kbTransform .onehot edges nbins x = some none := by
  obtain ⟨b, h1, _⟩ := kbBin_spec edges nbins x hl nbins 0 (by omega) hn (by intro j _ h0 h; omega)
  unfold kbTransform; rw [h1]; rfl

example : kbTransform .onehot [(0 : ℚ), 1, 2] 2 1 = some none := C24_onehot_violated _ 2 (by omega) rfl _

/-- **C24 (no bins)**: without bins there is nothing to fit and the dense one-hot encoding has no column to mark. -/
theorem C24_no_bins (st : BinStrategy) (edges : List K) (x : K) : (∀ col, kbFit st 0 (x :: col) = none) ∧ kbTransform .onehotDense edges 0 x = none :=
  ⟨fun _ => rfl, rfl⟩

example : kbFit .uniform 0 [(1 : ℚ), 2] = none := (C24_no_bins .uniform [] 1).1 [2]

end Sk.Encode
