import Verif.Props.Scale
import Verif.Props.Label
import Verif.Props.QuantileT
import Verif.Model.Encode
import Mathlib.Data.List.Perm.Basic

/-!
# C189: what a transformer learns does not depend on the order of the training rows

Permuting the rows of a matrix permutes every column; `xs.Perm ys` are the cells of one column before and after.
-/
set_option autoImplicit false

namespace Sk.RowOrder

open Sk.Scale Sk.Encode Sk.Label Sk.Stats

variable {K : Type} [Field K] [LinearOrder K] [IsStrictOrderedRing K]

theorem foldl_min_perm {xs ys : List K} (h : xs.Perm ys) (a : K) : xs.foldl min a = ys.foldl min a := h.foldl_eq a
theorem foldl_max_perm {xs ys : List K} (h : xs.Perm ys) (a : K) : xs.foldl max a = ys.foldl max a := h.foldl_eq a

theorem foldl_min_head {l : List K} : ∀ a b : K, a ∈ l → b ∈ l → l.foldl min a = l.foldl min b := by
  intro a b ha hb
  obtain ⟨p1, p2, p3⟩ := foldl_min_le l a
  obtain ⟨q1, q2, q3⟩ := foldl_min_le l b
  have m1 : l.foldl min a ∈ l := by rcases p3 with e | e <;> [rw [e]; skip] <;> assumption
  have m2 : l.foldl min b ∈ l := by rcases q3 with e | e <;> [rw [e]; skip] <;> assumption
  exact le_antisymm (p2 _ m2) (q2 _ m1)

theorem foldl_max_head {l : List K} : ∀ a b : K, a ∈ l → b ∈ l → l.foldl max a = l.foldl max b := by
  intro a b ha hb
  obtain ⟨p1, p2, p3⟩ := foldl_max_ge l a
  obtain ⟨q1, q2, q3⟩ := foldl_max_ge l b
  have m1 : l.foldl max a ∈ l := by rcases p3 with e | e <;> [rw [e]; skip] <;> assumption
  have m2 : l.foldl max b ∈ l := by rcases q3 with e | e <;> [rw [e]; skip] <;> assumption
  exact le_antisymm (q2 _ m1) (p2 _ m2)

/-- **C189, `MinMaxScaler`**, from any previous state. -/
theorem C189_minmax (lo hi : K) (s : MinMax K) (xs ys : List K) (h : xs.Perm ys) :
    MinMax.partialFit lo hi s xs = MinMax.partialFit lo hi s ys ∧ MinMax.fit lo hi s xs = MinMax.fit lo hi s ys := by
  have key : ∀ s : MinMax K, MinMax.partialFit lo hi s xs = MinMax.partialFit lo hi s ys := by
    intro s
    cases xs with
    | nil => rw [List.nil_perm.1 h]
    | cons x xs =>
      cases ys with
      | nil => exact absurd h.length_eq (by simp)
      | cons y ys =>
        have hx : x ∈ y :: ys := h.mem_iff.1 (by simp)
        have e1 : (x :: xs).foldl min x = (y :: ys).foldl min y := (foldl_min_perm h x).trans (foldl_min_head x y hx (by simp))
        have e2 : (x :: xs).foldl max x = (y :: ys).foldl max y := (foldl_max_perm h x).trans (foldl_max_head x y hx (by simp))
        unfold MinMax.partialFit
        simp only
        by_cases hs : s.seen = 0
        · simp only [hs, if_true, e1, e2, h.length_eq]
        · simp only [hs, if_false, foldl_min_perm h, foldl_max_perm h, h.length_eq]
  exact ⟨key s, key _⟩

theorem incCol_perm {xs ys : List K} (h : xs.Perm ys) (lm lv : K) (n : ℕ) : incCol xs lm lv n = incCol ys lm lv n := by
  have hm : mean xs = mean ys := by unfold mean; rw [h.sum_eq, h.length_eq]
  rw [incCol_eq, incCol_eq, h.sum_eq, h.length_eq, hm, (h.map (fun x => (x - mean ys) ^ 2)).sum_eq]

/-- **C189, `StandardScaler`**, from any previous state, all columns together. -/
theorem C189_standard (s : Std K) (rows : ℕ) (cols cols' : List (List K)) (h : List.Forall₂ List.Perm cols cols') :
    Std.partialFit s rows cols = Std.partialFit s rows cols' ∧ Std.fit s rows cols = Std.fit s rows cols' := by
  have hz : ∀ (n : ℕ) (last : List (K × K)), List.zipWith (fun xs mv => incCol xs mv.1 mv.2 n) cols last =
      List.zipWith (fun xs mv => incCol xs mv.1 mv.2 n) cols' last := by
    intro n
    induction h with
    | nil => intro last; rfl
    | cons hp _ ih =>
      intro last
      cases last with
      | nil => rfl
      | cons l last => rw [List.zipWith_cons_cons, List.zipWith_cons_cons, incCol_perm hp, ih]
  have hl : cols.length = cols'.length := h.length_eq
  have hc : cols.map (fun _ => ((0 : K), (0 : K))) = cols'.map (fun _ => ((0 : K), (0 : K))) := by
    simp [hl]
  have key : ∀ s : Std K, Std.partialFit s rows cols = Std.partialFit s rows cols' := by
    intro s
    unfold Std.partialFit incr
    simp only [hc, hz, hl]
  exact ⟨key s, key _⟩

/-- **C189, `MaxAbsScaler`**, from any previous state. -/
theorem C189_maxabs (s : MaxAbs K) (xs ys : List K) (h : xs.Perm ys) :
    MaxAbs.partialFit s xs = MaxAbs.partialFit s ys ∧ MaxAbs.fit s xs = MaxAbs.fit s ys := by
  have hf : ∀ m : K, xs.foldl (fun m v => let v := if v < 0 then -v else v; if m < v then v else m) m =
      ys.foldl (fun m v => let v := if v < 0 then -v else v; if m < v then v else m) m := by
    intro m
    rw [maxabs_fold, maxabs_fold]
    exact foldl_max_perm (h.map _) m
  have key : ∀ s : MaxAbs K, MaxAbs.partialFit s xs = MaxAbs.partialFit s ys := by
    intro s
    unfold MaxAbs.partialFit
    cases s.maxAbs with
    | none =>
      cases xs with
      | nil => rw [List.nil_perm.1 h]
      | cons x xs =>
        cases ys with
        | nil => exact absurd h.length_eq (by simp)
        | cons y ys => rfl
    | some m => simp only [hf, h.length_eq]
  exact ⟨key s, key _⟩

theorem sort_perm {xs ys : List K} (h : xs.Perm ys) : xs.insertionSort (· ≤ ·) = ys.insertionSort (· ≤ ·) :=
  List.Perm.eq_of_pairwise (le := (· ≤ ·)) (fun _ _ _ _ h1 h2 => le_antisymm h1 h2) (List.pairwise_insertionSort _ _) (List.pairwise_insertionSort _ _)
    ((List.perm_insertionSort _ xs).trans (h.trans (List.perm_insertionSort _ ys).symm))

/-- **C189, `RobustScaler`**, from any previous state (also when it panics). -/
theorem C189_robust (half left right : K) (s : Robust K) (xs ys : List K) (h : xs.Perm ys) : Robust.fit half left right s xs = Robust.fit half left right s ys := by
  unfold Robust.fit
  by_cases hx : xs = []
  · subst hx; rw [List.nil_perm.1 h]
  · have hy : ys ≠ [] := by rintro rfl; exact hx (List.perm_nil.1 h)
    simp only [hx, hy, if_false, h.length_eq]
    rw [sort_perm (h.append_right _)]

theorem distinct_perm {L : Type} [LinearOrder L] {xs ys : List L} (h : ∀ v, v ∈ xs ↔ v ∈ ys) : distinctSorted xs = distinctSorted ys := by
  unfold distinctSorted
  refine List.Perm.eq_of_pairwise (le := (· ≤ ·)) (fun _ _ _ _ h1 h2 => le_antisymm h1 h2) (List.pairwise_insertionSort _ _) (List.pairwise_insertionSort _ _)
    ((List.perm_insertionSort _ _).trans (List.Perm.trans ?_ (List.perm_insertionSort _ _).symm))
  exact (List.perm_ext_iff_of_nodup (List.nodup_dedup _) (List.nodup_dedup _)).2 (fun v => by rw [List.mem_dedup, List.mem_dedup, h])

/-- **C189, `OneHotEncoder`, `LabelBinarizer`, `MultiLabelBinarizer` and the classes of `LabelEncoder`**: not even the number of repetitions matters, only which values occur. -/
theorem C189_encoders {L : Type} [LinearOrder L] :
    (∀ cols cols' : List (List K), List.Forall₂ (fun xs ys => ∀ v, v ∈ xs ↔ v ∈ ys) cols cols' → ohFit cols = ohFit cols') ∧
    (∀ xs ys : List L, (∀ v, v ∈ xs ↔ v ∈ ys) → distinctSorted xs = distinctSorted ys) ∧
    (∀ X Y : List (List L), X.Perm Y → multiFit X = multiFit Y) ∧
    (∀ cols cols' : List (List L), List.Forall₂ (fun xs ys => ∀ v, v ∈ xs ↔ v ∈ ys) cols cols' → (fit cols).map Enc.classes = (fit cols').map Enc.classes) := by
  refine ⟨fun cols cols' h => ?_, fun xs ys h => distinct_perm h, fun X Y h => distinct_perm (fun v => h.flatten.mem_iff), fun cols cols' h => ?_⟩
  · induction h with
    | nil => rfl
    | cons hv _ ih =>
      unfold ohFit at ih ⊢
      rw [List.map_cons, List.map_cons, ih]
      congr 1
      exact distinct_perm hv
  · rw [fit_eq, fit_eq]
    induction h with
    | nil => rfl
    | @cons xs ys _ _ hv _ ih =>
      rw [List.map_cons, List.map_cons, List.map_cons, List.map_cons, ih]
      congr 1
      obtain ⟨s1, _, m1⟩ := foldl_add_inv xs Enc.empty (by simp [Enc.empty]) rfl
      obtain ⟨s2, _, m2⟩ := foldl_add_inv ys Enc.empty (by simp [Enc.empty]) rfl
      refine List.Perm.eq_of_pairwise (le := (· < ·)) (fun a b _ _ h1 h2 => absurd h1 (lt_asymm h2)) s1 s2
        ((List.perm_ext_iff_of_nodup (s1.imp (fun {a b} h => ne_of_lt h)) (s2.imp (fun {a b} h => ne_of_lt h))).2 (fun v => ?_))
      rw [m1, m2, hv]

/-- **C189, `Imputer`**, for every strategy and order of the map. -/
theorem C189_imputer (st : Strategy) (half : K) (keys : List K) (xs ys : List (Option K)) (h : xs.Perm ys) : impFit st half keys xs = impFit st half keys ys := by
  have hf : (xs.filterMap id).Perm (ys.filterMap id) := h.filterMap id
  unfold impFit
  cases st with
  | mean =>
    simp only [hf.length_eq]
    have : (xs.filterMap id).foldl (· + ·) 0 = (ys.filterMap id).foldl (· + ·) 0 := hf.foldl_eq 0
    rw [this]
  | median => simp only [sort_perm hf]
  | mostFrequent =>
    simp only
    have : ∀ k, occ k (xs.filterMap id) = occ k (ys.filterMap id) := fun k => hf.count_eq k
    unfold mode
    simp only [this]

/-- **C189, `KBinsDiscretizer` with the uniform strategy.** -/
theorem C189_kbins_uniform (nbins : ℕ) (xs ys : List K) (h : xs.Perm ys) : kbFit .uniform nbins xs = kbFit .uniform nbins ys := by
  cases xs with
  | nil => rw [List.nil_perm.1 h]
  | cons x xs =>
    cases ys with
    | nil => exact absurd h.length_eq (by simp)
    | cons y ys =>
      have hx : x ∈ y :: ys := h.mem_iff.1 (by simp)
      have e1 : (x :: xs).foldl min x = (y :: ys).foldl min y := (foldl_min_perm h x).trans (foldl_min_head x y hx (by simp))
      have e2 : (x :: xs).foldl max x = (y :: ys).foldl max y := (foldl_max_perm h x).trans (foldl_max_head x y hx (by simp))
      unfold kbFit
      simp only [e1, e2]

/-- **C189 is violated by `KBinsDiscretizer` with the quantile strategy**: every column with two different values can be arranged so that fitting succeeds (ascending) and so that it panics
(descending). -/
theorem C189_kbins_quantile_violated (nbins : ℕ) (hn : 0 < nbins) (xs : List K) (h : ∃ a ∈ xs, ∃ b ∈ xs, a ≠ b) :
    ∃ up down : List K, up.Perm xs ∧ down.Perm xs ∧ (kbFit .quantile nbins up).isSome ∧ kbFit .quantile nbins down = none := by
  have hperm := List.perm_insertionSort (· ≤ · : K → K → Prop) xs
  have hsort : (xs.insertionSort (· ≤ ·)).Pairwise (· ≤ ·) := List.pairwise_insertionSort _ _
  obtain ⟨a, ha, b, hb, hab⟩ := h
  have hne : xs.insertionSort (· ≤ ·) ≠ [] := by
    intro e
    have := hperm.mem_iff.2 ha
    rw [e] at this
    simp at this
  refine ⟨xs.insertionSort (· ≤ ·), (xs.insertionSort (· ≤ ·)).reverse, hperm, (List.reverse_perm _).trans hperm, ?_, ?_⟩
  · cases hs : xs.insertionSort (· ≤ ·) with
    | nil => exact absurd hs hne
    | cons x l =>
      rw [hs] at hsort hne
      unfold kbFit
      simp only [if_neg (show nbins ≠ 0 by omega), if_pos hsort]
      rw [Option.isSome_iff_exists]
      have hq : ∀ b ∈ List.range (nbins + 1), ∃ q, Scale.quantile ((b : K) / nbins) (x :: l) = some q := by
        intro b hb
        have hb' : b ≤ nbins := by rw [List.mem_range] at hb; omega
        obtain ⟨q, _, e, _⟩ := quantile_spec ((b : K) / nbins) (div_le_one_of_le₀ (by exact_mod_cast hb') (by positivity)) _ hne hsort
        exact ⟨q, e⟩
      clear hn
      generalize List.range (nbins + 1) = r at hq
      induction r with
      | nil => exact ⟨[], rfl⟩
      | cons b r ih =>
        obtain ⟨q, e⟩ := hq b (by simp)
        obtain ⟨qs, es⟩ := ih (fun b hb => hq b (by simp [hb]))
        exact ⟨q :: qs, by rw [List.mapM_cons, e, es]; rfl⟩
  · have hnot : ¬ (xs.insertionSort (· ≤ ·)).reverse.Pairwise (· ≤ ·) := by
      intro hp
      rw [List.pairwise_reverse] at hp
      have hall : ∀ u ∈ xs.insertionSort (· ≤ ·), ∀ v ∈ xs.insertionSort (· ≤ ·), u = v := by
        have hboth := hsort.and hp
        have heq : (xs.insertionSort (· ≤ ·)).Pairwise (fun u v => u = v) := hboth.imp (fun ⟨h1, h2⟩ => le_antisymm h1 h2)
        exact fun u hu v hv => List.Pairwise.forall_of_forall (fun _ _ => rfl) heq hu hv
      exact hab (hall a (hperm.mem_iff.2 ha) b (hperm.mem_iff.2 hb))
    cases hs : (xs.insertionSort (· ≤ ·)).reverse with
    | nil => exact absurd (List.reverse_eq_nil_iff.1 hs) hne
    | cons x l =>
      rw [hs] at hnot
      unfold kbFit
      simp only [if_neg (show nbins ≠ 0 by omega), if_neg hnot, List.range_succ_eq_map, List.mapM_cons]
      rfl

/-- **C189 is violated by `QuantileTransformer`**: the smallest quantile it learns is the cell of the first row. -/
theorem C189_quantile_violated [FloorRing K] (nq : ℕ) (a b : K) (hab : a ≠ b) (l : List K) :
    (b :: a :: l).Perm (a :: b :: l) ∧ Power.qfit nq (b :: a :: l) 0 ≠ Power.qfit nq (a :: b :: l) 0 := by
  refine ⟨List.Perm.swap a b l, ?_⟩
  have e : ∀ u v : K, Power.qfit nq (u :: v :: l) 0 = u := by
    intro u v
    unfold Power.qfit Power.qref
    simp
  rw [e, e]
  exact hab.symm

/-- **C189 is violated by the support of `LabelEncoder`**: two labels once each, in either order. -/
theorem C189_support_violated {L : Type} [LinearOrder L] (v w : L) (h : v < w) :
    fit [[v, w]] = [⟨[v, w], [1, 1]⟩] ∧ fit [[w, v]] = [⟨[v, w], [2, 1]⟩] := by
  refine ⟨?_, (C12_support_violated v w h).1⟩
  rw [fit_eq, List.map_cons, List.map_nil, List.foldl_cons, List.foldl_cons, List.foldl_nil]
  rw [add_new_max (Enc.empty : Enc L) (by simp [Enc.empty]) rfl v (by simp [Enc.empty])]
  rw [add_new_max _ (by simp [Enc.empty]) (by simp [Enc.empty]) w (by simpa [Enc.empty] using h)]
  rfl

/-- Two arrangements of one column. -/
example : [(3 : ℚ), 1, 2].Perm [1, 2, 3] ∧ MinMax.fit 0 1 ⟨7, 5, 5, 0, 0⟩ [(3 : ℚ), 1, 2] = MinMax.fit 0 1 ⟨7, 5, 5, 0, 0⟩ [1, 2, 3] := by decide +kernel
example : impFit .median (1 / 2 : ℚ) [] [some 3, none, some 1, some 2] = some (some 2) := by decide +kernel
example : kbFit .uniform 2 [(3 : ℚ), 1, 2] = some [1, 2, 3] := by decide +kernel

end Sk.RowOrder
