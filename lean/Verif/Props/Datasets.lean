import Verif.Model.Datasets
import Verif.Props.Shuffler
import Mathlib.Data.List.Perm.Basic
import Mathlib.Data.List.Nodup
import Mathlib.Data.List.Range
import Mathlib.Data.Rat.Defs
import Mathlib.Algebra.Order.Ring.Rat
import Mathlib.Tactic.Linarith
import Mathlib.Tactic.Ring
import Mathlib.Tactic.IntervalCases

/-! # C128-C130: generated and loaded data sets -/
set_option autoImplicit false

namespace Sk.Datasets

theorem mapM_map {A B : Type} (f : A → Option B) (g : A → B) (l : List A) (h : ∀ a ∈ l, f a = some (g a)) : l.mapM f = some (l.map g) := by
  induction l with
  | nil => rfl
  | cons a l ih =>
    rw [List.mapM_cons, h a (List.mem_cons_self ..), ih (fun x hx => h x (List.mem_cons_of_mem _ hx))]
    rfl

theorem mapM_none {A B : Type} (f : A → Option B) (l : List A) (a : A) (ha : a ∈ l) (h : f a = none) : l.mapM f = none := by
  induction l with
  | nil => simp at ha
  | cons b l ih =>
    rw [List.mapM_cons]
    rcases List.mem_cons.1 ha with rfl | ha
    · rw [h]; rfl
    · cases f b with
      | none => rfl
      | some v => simp only [Option.bind_eq_bind, Option.bind_some]; rw [ih ha]; rfl

/-! ### C128: `MakeRegression` -/

section
variable {K : Type} [Field K] [LinearOrder K]

theorem drawRow_eq (c : ℕ) : ∀ r : Rnd K, drawRow c r = ((List.range c).map (fun j => r.stream (r.pos + j)), { r with pos := r.pos + c }) := by
  induction c with
  | zero => intro r; rfl
  | succ c ih =>
    intro r
    simp only [drawRow, Rnd.next, ih, List.range_succ_eq_map, List.map_cons, List.map_map, Nat.add_zero]
    refine Prod.ext ?_ ?_
    · simp only [List.cons.injEq, true_and]
      refine List.map_congr_left (fun j _ => ?_)
      simp only [Function.comp]
      congr 1; omega
    · simp only [Rnd.mk.injEq, true_and]; omega

theorem drawMat_eq (c n : ℕ) : ∀ r : Rnd K, drawMat n c r = ((List.range n).map (fun i => (List.range c).map (fun j => r.stream (r.pos + i * c + j))), { r with pos := r.pos + n * c }) := by
  induction n with
  | zero => intro r; simp [drawMat]
  | succ n ih =>
    intro r
    simp only [drawMat, ih, drawRow_eq, List.range_succ_eq_map, List.map_cons, List.map_map, Nat.zero_mul, Nat.add_zero]
    refine Prod.ext ?_ ?_
    · simp only [List.cons.injEq, true_and]
      refine List.map_congr_left (fun i _ => List.map_congr_left (fun j _ => ?_))
      congr 1
      rw [Nat.succ_mul]; omega
    · simp only [Rnd.mk.injEq, true_and]; rw [Nat.succ_mul]; omega

/-- The bias that a value of a documented type stands for. -/
def Adds : Bias K → ℕ → (ℕ → K) → Prop
  | .absent, t, b => ∀ j < t, b j = 0
  | .scalar v, t, b => ∀ j < t, b j = v
  | .slice vs, t, b => ∀ j < t, vs[j]? = some (b j)
  | .matrix rows, t, b => ∃ row, rows.head? = some row ∧ ∀ j < t, row[j]? = some (b j)
  | .other, _, _ => False

theorem bias_at (bias : Bias K) (t : ℕ) (b : ℕ → K) (h : Adds bias t b) : ∀ j < t, bias.at j = some (b j) := by
  intro j hj
  cases bias with
  | absent => simp only [Bias.at, h j hj]
  | scalar v => simp only [Bias.at, h j hj]
  | slice vs => exact h j hj
  | matrix rows =>
    obtain ⟨row, h1, h2⟩ := h
    cases rows with
    | nil => simp at h1
    | cons a l =>
      simp only [List.head?_cons, Option.some.injEq] at h1
      subst h1
      exact h2 j hj
  | other => exact h.elim

theorem targetRow_eq (k f t : ℕ) (hk : k ≤ f) (g : ℕ → K) (C : ℕ → ℕ → K) (bias : Bias K) (b : ℕ → K) (hb : Adds bias t b) :
    targetRow k t ((List.range k).map (fun l => (List.range t).map (C l))) bias ((List.range f).map g) =
      some ((List.range t).map (fun j => ((List.range k).map (fun l => g l * C l j)).sum + b j)) := by
  refine mapM_map _ _ _ (fun j hj => ?_)
  have hj' := List.mem_range.1 hj
  rw [bias_at bias t b hb j hj']
  simp only [Option.bind_eq_bind, Option.bind_some, Option.some.injEq, add_left_inj]
  rw [← List.map_take, List.take_range, min_eq_left hk, List.zipWith_map, List.zipWith_self]
  congr 1
  refine List.map_congr_left (fun l _ => ?_)
  congr 1
  simp [hj']

/-- C128: for positive sizes and a bias of a documented type the problem returned is linear: every target is the combination of the first `min(n_informative, n_features)` features with the returned
coefficients, plus the bias.  `X` is made of the first draws and `Coef` of the following ones, each draw used once.  Missing: biases of other types (`C128_bias_violated`). -/
theorem C128_linear_partial (n f k t : ℕ) (hn : 0 < n) (hf : 0 < f) (hk : 0 < k) (ht : 0 < t) (bias : Bias K) (b : ℕ → K) (hb : Adds bias t b) (s : ℕ → K) :
    ∃ x c : ℕ → ℕ → K, (∀ i j, x i j = s (i * f + j)) ∧ (∀ l j, c l j = s (n * f + (l * t + j))) ∧
      makeRegression n f k t bias ⟨s, 0⟩ = some
        ((List.range n).map (fun i => (List.range f).map (x i)),
         (List.range n).map (fun i => (List.range t).map (fun j => ((List.range (min k f)).map (fun l => x i l * c l j)).sum + b j)),
         (List.range (min k f)).map (fun l => (List.range t).map (c l))) := by
  refine ⟨fun i j => s (i * f + j), fun l j => s (n * f + (l * t + j)), fun _ _ => rfl, fun _ _ => rfl, ?_⟩
  have hmin : (if k > f then f else k) = min k f := by
    rcases le_or_gt k f with h | h
    · rw [if_neg (not_lt.2 h), min_eq_left h]
    · rw [if_pos h, min_eq_right h.le]
  have hm0 : 0 < min k f := lt_min hk hf
  rw [makeRegression, hmin]
  rw [if_neg (by omega)]
  simp only [drawMat_eq, Nat.zero_add]
  rw [mapM_map _ (fun row => (List.range t).map (fun j => ((List.range (min k f)).map (fun l => row.getD l 0 * s (n * f + (l * t + j)))).sum + b j))]
  · simp only [Option.bind_eq_bind, Option.bind_some, Option.some.injEq, Prod.mk.injEq, true_and, List.map_map]
    refine ⟨List.map_congr_left (fun i _ => List.map_congr_left (fun j _ => ?_)), ?_⟩
    · congr 2
      refine List.map_congr_left (fun l hl => ?_)
      have : l < f := lt_of_lt_of_le (List.mem_range.1 hl) (min_le_right _ _)
      simp [this]
    · exact List.map_congr_left (fun l _ => List.map_congr_left (fun j _ => by congr 1; omega))
  · intro row hrow
    obtain ⟨i, _, rfl⟩ := List.mem_map.1 hrow
    have := targetRow_eq (min k f) f t (min_le_right _ _) (fun j => s (i * f + j)) (fun l j => s (n * f + l * t + j)) bias b hb
    rw [this]
    congr 1
    refine List.map_congr_left (fun j _ => ?_)
    congr 2
    refine List.map_congr_left (fun l hl => ?_)
    have : l < f := lt_of_lt_of_le (List.mem_range.1 hl) (min_le_right _ _)
    simp [this, Nat.add_assoc]

/-- Hypotheses met: one sample, two features of which one informative, and the draws 3, 5, 2 with bias 10. -/
example : Adds (Bias.slice [(10 : ℚ)]) 1 (fun _ => 10) ∧ makeRegression 1 2 1 1 (Bias.slice [(10 : ℚ)]) ⟨fun i => [3, 5, 2].getD i 0, 0⟩ = some ([[3, 5]], [[16]], [[2]]) := by
  constructor
  · intro j hj
    interval_cases j
    rfl
  · decide +kernel

/-- C128: a problem without samples, features, informative features or targets panics. -/
theorem C128_empty (n f k t : ℕ) (h : n = 0 ∨ f = 0 ∨ k = 0 ∨ t = 0) (bias : Bias K) (r : Rnd K) : makeRegression n f k t bias r = none := by
  unfold makeRegression
  refine if_pos ?_
  rcases h with h | h | h | h
  · exact Or.inl h
  · exact Or.inr (Or.inl h)
  · exact Or.inr (Or.inr (Or.inr (by split <;> omega)))
  · exact Or.inr (Or.inr (Or.inl h))

/-- C128, violated: a bias of another type, for instance the `int` that the literal 5 is in a Go map of options, is ignored without notice. -/
theorem C128_bias_violated (n f k t : ℕ) (r : Rnd K) : makeRegression n f k t .other r = makeRegression n f k t .absent r := rfl

end

/-! ### C129: `MakeBlobs` -/

section
variable {K : Type} [Field K] [LinearOrder K] [IsStrictOrderedRing K]

theorem drawCenter_mem (lo hi : K) (fuel : ℕ) : ∀ (r : Rnd K) (v : K) (r' : Rnd K), drawCenter lo hi fuel r = some (v, r') → lo ≤ v ∧ v < hi := by
  induction fuel with
  | zero => intro r v r' h; cases h
  | succ fuel ih =>
    intro r v r' h
    simp only [drawCenter] at h
    split at h
    · rename_i hv
      simp only [Option.some.injEq, Prod.mk.injEq] at h
      rw [← h.1]; exact hv
    · exact ih _ v r' h

/-- C129: the centres drawn lie in the box (lower bound included, upper bound excluded). -/
theorem C129_centers (lo hi : K) (fuel n : ℕ) (r : Rnd K) (cs : List K) (r' : Rnd K) (h : drawCenters lo hi fuel n r = some (cs, r')) : cs.length = n ∧ ∀ v ∈ cs, lo ≤ v ∧ v < hi := by
  induction n generalizing r cs with
  | zero =>
    simp only [drawCenters, Option.some.injEq, Prod.mk.injEq] at h
    rw [← h.1]
    exact ⟨rfl, by simp⟩
  | succ n ih =>
    simp only [drawCenters, Option.bind_eq_bind] at h
    cases hd : drawCenter lo hi fuel r with
    | none => rw [hd] at h; cases h
    | some d =>
      rw [hd] at h
      simp only [Option.bind_some] at h
      cases ht : drawCenters lo hi fuel n d.2 with
      | none => rw [ht] at h; cases h
      | some t =>
        rw [ht] at h
        simp only [Option.bind_some, Option.some.injEq, Prod.mk.injEq] at h
        obtain ⟨h1, h2⟩ := h
        obtain ⟨a1, a2⟩ := ih d.2 t.1 (by rw [ht, ← h2])
        rw [← h1]
        refine ⟨by rw [List.length_cons, a1], fun v hv => ?_⟩
        rcases List.mem_cons.1 hv with rfl | hv
        · exact drawCenter_mem lo hi fuel r d.1 d.2 hd
        · exact a2 v hv

/-- Hypotheses met: the second draw is the first inside the box. -/
example : (drawCenters (-10 : ℚ) 10 5 1 ⟨fun i => [2, (1 : ℚ) / 2].getD i 0, 0⟩ |>.map Prod.fst) = some [5] := by decide +kernel

/-- C129: a coordinate of a centre is the middle of the box plus half its width times the first draw in [-1, 1); the draws before it are thrown away and the later ones are left for the other coordinates. -/
theorem C129_drawn (lo hi : K) (hb : lo < hi) (fuel : ℕ) : ∀ (r : Rnd K) (v : K) (r' : Rnd K), drawCenter lo hi fuel r = some (v, r') →
    ∃ k < fuel, (∀ j < k, ¬ (-1 ≤ r.stream (r.pos + j) ∧ r.stream (r.pos + j) < 1)) ∧ (-1 ≤ r.stream (r.pos + k) ∧ r.stream (r.pos + k) < 1) ∧ v = (lo + hi) / 2 + (hi - lo) / 2 * r.stream (r.pos + k) ∧ r' = ⟨r.stream, r.pos + k + 1⟩ := by
  have hw : 0 < (hi - lo) / 2 := by linarith
  have hin : ∀ z : K, (lo ≤ (lo + hi) / 2 + z * (|hi - lo| / 2) ∧ (lo + hi) / 2 + z * (|hi - lo| / 2) < hi) ↔ (-1 ≤ z ∧ z < 1) := by
    intro z
    rw [abs_of_pos (by linarith : 0 < hi - lo)]
    constructor
    · rintro ⟨h1, h2⟩
      constructor
      · by_contra hz
        have := mul_lt_mul_of_pos_right (not_le.1 hz) hw
        linarith
      · by_contra hz
        have := mul_le_mul_of_nonneg_right (not_lt.1 hz) hw.le
        linarith
    · rintro ⟨h1, h2⟩
      have e1 := mul_le_mul_of_nonneg_right h1 hw.le
      have e2 := mul_lt_mul_of_pos_right h2 hw
      constructor <;> linarith
  induction fuel with
  | zero => intro r v r' h; cases h
  | succ fuel ih =>
    intro r v r' h
    rw [drawCenter] at h
    by_cases hv : lo ≤ (lo + hi) / 2 + r.stream r.pos * (|hi - lo| / 2) ∧ (lo + hi) / 2 + r.stream r.pos * (|hi - lo| / 2) < hi
    · replace h := (if_pos hv).symm.trans h
      simp only [Option.some.injEq, Prod.mk.injEq] at h
      refine ⟨0, by omega, by omega, (hin _).1 hv, ?_, h.2.symm⟩
      rw [← h.1, abs_of_pos (by linarith : 0 < hi - lo), Nat.add_zero, Rnd.next]
      ring
    · replace h := (if_neg hv).symm.trans h
      obtain ⟨k, h1, h2, h3, h4, h5⟩ := ih ⟨r.stream, r.pos + 1⟩ v r' h
      refine ⟨k + 1, by omega, ?_, ?_, ?_, ?_⟩
      · intro j hj
        cases j with
        | zero => exact fun hz => hv ((hin _).2 hz)
        | succ j =>
          have := h2 j (by omega)
          rwa [show r.pos + 1 + j = r.pos + (j + 1) by omega] at this
      · rwa [show r.pos + 1 + k = r.pos + (k + 1) by omega] at h3
      · rwa [show r.pos + 1 + k = r.pos + (k + 1) by omega] at h4
      · rw [h5]
        simp only [show r.pos + 1 + k + 1 = r.pos + (k + 1) + 1 by omega]

/-- C129, violated: with a box whose bounds are equal or in the other order (which the absolute value in the radius seems to allow for) no draw is ever accepted: the call does not return. -/
theorem C129_box_violated (lo hi : K) (h : hi ≤ lo) (n fuel : ℕ) (r : Rnd K) : drawCenters lo hi fuel (n + 1) r = none := by
  have hc : ∀ fuel (r : Rnd K), drawCenter lo hi fuel r = none := by
    intro fuel
    induction fuel with
    | zero => intro r; rfl
    | succ fuel ih =>
      intro r
      simp only [drawCenter]
      rw [if_neg (fun hv => absurd (lt_of_le_of_lt hv.1 hv.2) (not_lt.2 h))]
      exact ih _
  simp only [drawCenters, hc]
  rfl

/-- C129: whatever the order in which the goroutines draw, every sample is its noise plus the centre named by its label, and the labels are the drawn integers, each used once.
Missing: which sample gets which label depends on the schedule (`C129_schedule_violated`). -/
theorem C129_rows_partial (n f : ℕ) (centers : List (List K)) (order : List ℕ) (horder : order.Perm (List.range n)) (labels : ℕ → ℕ) (hl : ∀ k < n, labels k < centers.length) (noise : ℕ → List K)
    (hnoise : ∀ i < n, (noise i).length = f) (hc : ∀ c ∈ centers, c.length = f) :
    ∃ rows, blobRows n centers order labels noise = some rows ∧ rows.length = n ∧
      (∀ (i : ℕ) (x : List K) (l : ℕ), rows[i]? = some (x, l) → ∃ c, centers[l]? = some c ∧ x = List.zipWith (· + ·) (noise i) c) ∧
      (rows.map Prod.snd).Perm ((List.range n).map labels) := by
  have hlt : ∀ i < n, order.idxOf i < n := by
    intro i hi
    have := List.idxOf_lt_length_iff.2 (horder.mem_iff.2 (List.mem_range.2 hi))
    rwa [horder.length_eq, List.length_range] at this
  set g : ℕ → List K × ℕ := fun i => (List.zipWith (· + ·) (noise i) (centers.getD (labels (order.idxOf i)) []), labels (order.idxOf i)) with hg
  have hget : ∀ i < n, centers[labels (order.idxOf i)]? = some (centers.getD (labels (order.idxOf i)) []) := by
    intro i hi
    have h1 := hl _ (hlt i hi)
    simp [h1]
  refine ⟨(List.range n).map g, ?_, by simp, ?_, ?_⟩
  · refine mapM_map _ _ _ (fun i hi => ?_)
    have hi' := List.mem_range.1 hi
    have h1 := hget i hi'
    have h2 := hc _ (List.mem_of_getElem? h1)
    simp only [h1, Option.bind_eq_bind, Option.bind_some, h2, hnoise i hi', if_true, hg]
  · intro i x l h
    have hi : i < n := by
      have := (List.getElem?_eq_some_iff.1 h).1
      simpa using this
    simp only [List.getElem?_map, List.getElem?_range hi, Option.map_some, Option.some.injEq, hg, Prod.mk.injEq] at h
    exact ⟨_, by rw [← h.2]; exact hget i hi, h.1.symm⟩
  · rw [List.map_map]
    have h1 : ((List.range n).map (fun i => order.idxOf i)).Perm (List.range n) := by
      have hnd : order.Nodup := horder.nodup_iff.2 List.nodup_range
      have h2 : (order.map (fun i => order.idxOf i)) = List.range n := by
        refine List.ext_getElem (by rw [List.length_map, horder.length_eq]) (fun k hk1 hk2 => ?_)
        simp only [List.getElem_map, List.getElem_range]
        exact List.Nodup.idxOf_getElem hnd k (by simpa using hk1)
      calc ((List.range n).map (fun i => order.idxOf i)).Perm (order.map (fun i => order.idxOf i)) := (horder.symm.map _)
        _ = List.range n := h2
    have := h1.map labels
    rw [List.map_map] at this
    exact this

/-- Hypotheses met: two samples drawn in the order 1, 0. -/
example : blobRows 2 [[(0 : ℚ)], [10]] [1, 0] (fun k => k % 2) (fun _ => [1]) = some [([11], 1), ([1], 0)] := by decide +kernel

/-- C129, shuffling: with or without `Shuffle`, whatever the permutation, the result has all the samples, each still noise plus the centre named by its label. -/
theorem C129_shuffle (n f : ℕ) (centers : List (List K)) (order : List ℕ) (horder : order.Perm (List.range n)) (labels : ℕ → ℕ) (hl : ∀ k < n, labels k < centers.length) (noise : ℕ → List K)
    (hnoise : ∀ i < n, (noise i).length = f) (hc : ∀ c ∈ centers, c.length = f) (shuffle : Bool) (perm : List ℕ) (hp : perm.Perm (List.range n)) :
    ∃ rows X Y, blobRows n centers order labels noise = some rows ∧ blobsOut shuffle perm rows = some (X, Y) ∧ X.length = n ∧ Y.length = n ∧ (shuffle = false → X = rows.map Prod.fst ∧ Y = rows.map Prod.snd) ∧
      Y.Perm ((List.range n).map labels) ∧ ∃ who : List ℕ, who.Perm (List.range n) ∧
        ∀ (k : ℕ) (x : List K) (l i : ℕ), X[k]? = some x → Y[k]? = some l → who[k]? = some i → ∃ c, centers[l]? = some c ∧ x = List.zipWith (· + ·) (noise i) c := by
  obtain ⟨rows, h1, h2, h3, h4⟩ := C129_rows_partial n f centers order horder labels hl noise hnoise hc
  have hcell : ∀ (k : ℕ) (x : List K) (l i : ℕ), (rows.map Prod.fst)[k]? = some x → (rows.map Prod.snd)[k]? = some l → (List.range n)[k]? = some i →
      ∃ c, centers[l]? = some c ∧ x = List.zipWith (· + ·) (noise i) c := by
    intro k x l i hx hy hi
    rw [List.getElem?_map] at hx hy
    obtain ⟨hk, hi⟩ := List.getElem?_eq_some_iff.1 hi
    cases hr : rows[k]? with
    | none => rw [hr] at hx; simp at hx
    | some p =>
      rw [hr] at hx hy
      simp only [Option.map_some, Option.some.injEq] at hx hy
      obtain ⟨c, h5, h6⟩ := h3 k p.1 p.2 hr
      rw [hy] at h5
      rw [hx] at h6
      rw [List.getElem_range] at hi
      exact ⟨c, h5, hi ▸ h6⟩
  cases shuffle with
  | false => exact ⟨rows, _, _, h1, rfl, by simpa using h2, by simpa using h2, fun _ => ⟨rfl, rfl⟩, h4, List.range n, List.Perm.refl _, hcell⟩
  | true =>
    have hXl : (rows.map Prod.fst).length = n := by simpa using h2
    have hYl : (rows.map Prod.snd).length = n := by simpa using h2
    have hWl : (List.range n).length = n := by simp
    obtain ⟨Z, YW, hZ, hYW, _, _, hZp⟩ := Sk.Encode.C22_pairs perm (rows.map Prod.fst) ((rows.map Prod.snd).zip (List.range n)) (by rw [hXl]; exact hp) (by simp [h2])
    obtain ⟨Y, W, hY, hW, hY2, hW2, hYp⟩ := Sk.Encode.C22_pairs perm (rows.map Prod.snd) (List.range n) (by rw [hYl]; exact hp) (by simp [h2])
    have hYWe : YW = Y.zip W := by
      have := Sk.Encode.zip_swaps (Sk.Encode.shSwaps perm) _ _ _ _ hY hW
      exact Option.some.inj (hYW.symm.trans this)
    subst hYWe
    have hZlen : Z.length = n := by
      obtain ⟨_, _, e1, _, e2, _, _⟩ := Sk.Encode.C22_pairs perm (rows.map Prod.fst) (rows.map Prod.snd) (by rw [hXl]; exact hp) (by rw [hYl, hXl])
      rw [hZ] at e1
      obtain rfl := Option.some.inj e1
      rw [e2, hXl]
    refine ⟨rows, Z, Y, h1, ?_, hZlen, by rw [hY2, hYl], by simp, ?_, W, ?_, ?_⟩
    · simp only [blobsOut, if_true, hZ, hY, Option.bind_some, Option.map_some]
    · have : Y.Perm (rows.map Prod.snd) := by
        have h := hYp.map Prod.fst
        rwa [List.map_fst_zip (by rw [hY2, hW2]), List.map_fst_zip (by simp [h2])] at h
      exact this.trans h4
    · have h := hYp.map Prod.snd
      rwa [List.map_snd_zip (by rw [hY2, hW2]), List.map_snd_zip (by simp [h2])] at h
    · intro k x l i hx hy hw
      have hm : (x, l, i) ∈ Z.zip (Y.zip W) := by
        refine List.mem_of_getElem? (i := k) ?_
        rw [List.getElem?_zip_eq_some]
        refine ⟨hx, ?_⟩
        rw [List.getElem?_zip_eq_some]
        exact ⟨hy, hw⟩
      obtain ⟨k', hk'⟩ := List.getElem?_of_mem (hZp.mem_iff.1 hm)
      rw [List.getElem?_zip_eq_some] at hk'
      have h5 := hk'.2
      rw [List.getElem?_zip_eq_some] at h5
      exact hcell k' x l i hk'.1 h5.1 h5.2

example : blobsOut (K := ℚ) true [2, 0, 1] [([1], 0), ([2], 1), ([3], 0)] = some ([[3], [2], [1]], [0, 1, 0]) := by decide +kernel

/-- C129, violated: the labels are not reproducible with a given `RandomState`.  For any division of the samples between two goroutines and any two schedules running one before the other there
are draws (0, then 1 from the point where the second goroutine starts) for which the label of sample 0 differs. -/
theorem C129_schedule_violated (n m : ℕ) (hm : 0 < m) (hmn : m < n) (centers : List (List K)) (hc : 2 ≤ centers.length) (f : ℕ) (hf : ∀ c ∈ centers, c.length = f) (noise : ℕ → List K)
    (hnoise : ∀ i < n, (noise i).length = f) :
    ∃ (labels : ℕ → ℕ) (rows rows' : List (List K × ℕ)), (∀ k, labels k < centers.length) ∧
      blobRows n centers (List.range m ++ (List.range (n - m)).map (m + ·)) labels noise = some rows ∧
      blobRows n centers ((List.range (n - m)).map (m + ·) ++ List.range m) labels noise = some rows' ∧ rows.map Prod.snd ≠ rows'.map Prod.snd := by
  have hr : List.range n = List.range m ++ (List.range (n - m)).map (m + ·) := by
    rw [← List.range_add]; congr 1; omega
  set labels : ℕ → ℕ := fun k => if k = 0 then 0 else 1 with hlab
  have hl : ∀ k, labels k < centers.length := by
    intro k; simp only [hlab]; split <;> omega
  obtain ⟨rows, h1, h2, _, _⟩ := C129_rows_partial n f centers (List.range m ++ (List.range (n - m)).map (m + ·)) (by rw [hr]) labels (fun k _ => hl k) noise hnoise hf
  obtain ⟨rows', h1', h2', _, _⟩ := C129_rows_partial n f centers ((List.range (n - m)).map (m + ·) ++ List.range m) (by rw [hr]; exact List.perm_append_comm) labels (fun k _ => hl k) noise hnoise hf
  refine ⟨labels, rows, rows', hl, h1, h1', fun he => ?_⟩
  have key : ∀ (order : List ℕ) (rows : List (List K × ℕ)), blobRows n centers order labels noise = some rows → (rows.map Prod.snd)[0]? = some (labels (order.idxOf 0)) := by
    intro order rows h
    rw [blobRows] at h
    obtain ⟨k, rfl⟩ : ∃ k, n = k + 1 := ⟨n - 1, by omega⟩
    rw [List.range_succ_eq_map, List.mapM_cons] at h
    set tl := (List.map Nat.succ (List.range k)).mapM (fun i => do
      let l := labels (order.idxOf i)
      let c ← centers[l]?
      if c.length = (noise i).length then some (List.zipWith (· + ·) (noise i) c, l) else none) with htl
    cases hc0 : centers[labels (order.idxOf 0)]? with
    | none => simp [hc0] at h
    | some c =>
      simp only [hc0, Option.bind_eq_bind, Option.bind_some] at h
      by_cases hlen : c.length = (noise 0).length
      · rw [if_pos hlen] at h
        simp only [Option.bind_some] at h
        cases htl' : tl with
        | none => rw [htl'] at h; cases h
        | some v =>
          rw [htl'] at h
          simp only [Option.bind_some] at h
          cases h
          simp
      · rw [if_neg hlen] at h; cases h
  have k1 := key _ rows h1
  have k2 := key _ rows' h1'
  rw [he, k2] at k1
  simp only [Option.some.injEq] at k1
  have i1 : (List.range m ++ (List.range (n - m)).map (m + ·)).idxOf 0 = 0 := by
    obtain ⟨k, rfl⟩ : ∃ k, m = k + 1 := ⟨m - 1, by omega⟩
    rw [List.range_succ_eq_map]; simp
  have i2 : ((List.range (n - m)).map (m + ·) ++ List.range m).idxOf 0 ≠ 0 := by
    obtain ⟨k, hk⟩ : ∃ k, n - m = k + 1 := ⟨n - m - 1, by omega⟩
    rw [hk, List.range_succ_eq_map]
    simp only [List.map_cons, List.cons_append]
    rw [List.idxOf_cons_ne _ (by omega)]
    exact Nat.succ_ne_zero _
  rw [i1] at k1
  simp only [hlab, if_neg i2, if_true] at k1
  exact one_ne_zero k1

/-- Hypotheses met. -/
example : 0 < 1 ∧ 1 < 2 ∧ 2 ≤ [[(0 : ℚ)], [10]].length ∧ ∀ c ∈ [[(0 : ℚ)], [10]], c.length = 1 := by simp

/-- C129, violated: when the centres are given as a matrix whose number of columns is not `NFeatures` (2 if left out) the call panics, in a goroutine. -/
theorem C129_columns_violated (n f : ℕ) (hn : 0 < n) (centers : List (List K)) (order : List ℕ) (labels : ℕ → ℕ) (noise : ℕ → List K) (hnoise : ∀ i < n, (noise i).length = f)
    (hc : ∀ c ∈ centers, c.length ≠ f) : blobRows n centers order labels noise = none := by
  refine mapM_none _ _ 0 (List.mem_range.2 hn) ?_
  cases h : centers[labels (order.idxOf 0)]? with
  | none => simp [h]
  | some c =>
    simp only [h, Option.bind_eq_bind, Option.bind_some]
    rw [if_neg]
    rw [hnoise 0 hn]
    exact hc c (List.mem_of_getElem? h)

/-- Hypotheses met by a matrix of centres with three columns and the default number of features. -/
example : ∀ c ∈ [[(0 : ℚ), 1, 2]], c.length ≠ (Blobs.defaults (K := ℚ) ⟨0, 0, none, 0, none⟩).nFeatures := by simp [Blobs.defaults]

/-- C129: the caller's configuration is left as it was exactly when no default applies. -/
theorem C129_config (c : Blobs K) : c.defaults = c ↔ (0 < c.nSamples ∧ 0 < c.nFeatures ∧ 0 < c.clusterStd ∧ c.centerBox ≠ none) := by
  obtain ⟨a, b, d, e, g⟩ := c
  simp only [Blobs.defaults, Blobs.mk.injEq, true_and]
  constructor
  · rintro ⟨h1, h2, h3, h4⟩
    refine ⟨?_, ?_, ?_, ?_⟩
    · by_contra h
      have : a = 0 := by omega
      subst this; simp at h1
    · by_contra h
      have : b = 0 := by omega
      subst this; simp at h2
    · by_contra h
      rw [if_pos (not_lt.1 h)] at h3
      rw [← h3] at h
      exact h one_pos
    · rintro rfl; simp at h4
  · rintro ⟨h1, h2, h3, h4⟩
    refine ⟨if_neg h1.ne', if_neg h2.ne', if_neg (not_le.2 h3), ?_⟩
    cases g with
    | none => exact absurd rfl h4
    | some g => rfl

/-- C129, violated: an empty configuration is written to, so that a second call with it does not get the documented defaults from scratch but the values left by the first. -/
theorem C129_config_violated (c : Blobs K) (h : c.clusterStd ≤ 0) : c.defaults ≠ c := fun e => absurd ((C129_config c).1 e).2.2.1 (not_lt.2 h)

end

/-! ### C130: loaders -/

section
variable {K : Type}

/-- The number read from every cell of a row. -/
def ParsesTo (parse : String → Option K) (cells : List (List String)) (vals : List (List K)) : Prop := List.Forall₂ (List.Forall₂ (fun s v => parse s = some v)) cells vals

theorem mapM_forall₂ {A B C : Type} (R : A → B → Prop) (f : A → Option C) (g : B → C) : ∀ (l : List A) (l' : List B), List.Forall₂ R l l' → (∀ a ∈ l, ∀ b, R a b → f a = some (g b)) → l.mapM f = some (l'.map g) := by
  intro l l' h
  induction h with
  | nil => intro _; rfl
  | cons hab _ ih =>
    intro hf
    rw [List.mapM_cons, hf _ (List.mem_cons_self ..) _ hab, ih (fun a ha => hf a (List.mem_cons_of_mem _ ha))]
    rfl

theorem range_take {A B : Type} [Inhabited B] (f : A → Option B) (row : List A) (vals : List B) (h : List.Forall₂ (fun s v => f s = some v) row vals) (m : ℕ) (hm : m ≤ row.length) :
    (List.range m).mapM (fun j => row[j]? >>= f) = some (vals.take m) := by
  have hlen := h.length_eq
  rw [mapM_map _ (fun j => vals.getD j default)]
  · congr 1
    refine List.ext_getElem? (fun i => ?_)
    by_cases hi : i < m
    · rw [List.getElem?_map, List.getElem?_range hi, List.getElem?_take_of_lt hi]
      have : i < vals.length := by omega
      simp [this]
    · rw [List.getElem?_eq_none (by simp; omega), List.getElem?_eq_none (by rw [List.length_take]; omega)]
  · intro j hj
    have hj' := List.mem_range.1 hj
    have hg := (List.forall₂_iff_get.1 h).2 j (by omega) (by omega)
    simp only [List.get_eq_getElem] at hg
    have h1 : j < vals.length := by omega
    have h2 : j < row.length := by omega
    simp [h2, h1, hg]

/-- C130: for a rectangular file of at least two columns whose cells are all numbers, `X` is all columns but the last and `Y` the last, row by row. -/
theorem C130_csv [Inhabited K] (parse : String → Option K) (cells : List (List String)) (vals : List (List K)) (h : ParsesTo parse cells vals) (m : ℕ) (hm : 0 < m) (hne : cells ≠ []) (hrect : ∀ row ∈ cells, row.length = m + 1) :
    loadCsv parse 1 cells = some (vals.map (fun row => row.take m), vals.map (fun row => row.drop m)) := by
  cases cells with
  | nil => exact absurd rfl hne
  | cons c cs =>
    have hc : c.length = m + 1 := hrect c (List.mem_cons_self ..)
    rw [loadCsv]
    simp only [List.getElem?_cons_zero, Option.bind_eq_bind, Option.bind_some]
    rw [if_neg (by omega)]
    simp only [hc, Nat.add_sub_cancel]
    have hX := mapM_forall₂ _ _ (fun row : List K => row.take m) _ _ h (fun a ha b hab => range_take parse a b hab m (by rw [hrect a ha]; omega))
    simp only [Option.bind_eq_bind] at hX
    rw [hX, mapM_forall₂ _ _ (fun row : List K => row.drop m) _ _ h]
    · rfl
    · intro a ha b hab
      have hla := hrect a ha
      have hlb := hab.length_eq
      have hg := (List.forall₂_iff_get.1 hab).2 m (by omega) (by omega)
      simp only [List.get_eq_getElem] at hg
      have hd : b.drop m = [b[m]'(by omega)] := by
        rw [List.drop_eq_getElem_cons (by omega), List.drop_eq_nil_of_le (by omega)]
      rw [hd, List.range_one, List.mapM_cons, List.getElem?_eq_getElem (by omega)]
      simp only [Option.bind_eq_bind, Option.bind_some, hg, List.mapM_nil]
      rfl

/-- Hypotheses met: two rows of three cells. -/
example : ParsesTo (fun s => some s.length) [["a", "bb", "ccc"], ["d", "", "ff"]] [[1, 2, 3], [1, 0, 2]] := by
  unfold ParsesTo
  refine .cons (.cons ?_ (.cons ?_ (.cons ?_ .nil))) (.cons (.cons ?_ (.cons ?_ (.cons ?_ .nil))) .nil) <;> rfl

/-- C130: a cell that is not a number makes the loader panic (no partial data are returned). -/
theorem C130_bad_cell (parse : String → Option K) (cells : List (List String)) (row : List String) (hrow : row ∈ cells) (s : String) (hs : s ∈ row) (hp : parse s = none) (m : ℕ) (hrect : ∀ row ∈ cells, row.length = m + 1) :
    loadCsv parse 1 cells = none := by
  cases cells with
  | nil => simp at hrow
  | cons c cs =>
    have hc : c.length = m + 1 := hrect c (List.mem_cons_self ..)
    rw [loadCsv]
    simp only [List.getElem?_cons_zero, Option.bind_eq_bind, Option.bind_some]
    by_cases hm : m = 0
    · rw [if_pos (by omega)]
    · rw [if_neg (by omega)]
      simp only [hc, Nat.add_sub_cancel]
      obtain ⟨j, hj, hjs⟩ := List.getElem_of_mem hs
      have hl := hrect row hrow
      by_cases hjm : j < m
      · rw [mapM_none _ _ row hrow]
        · rfl
        · refine mapM_none _ _ j (List.mem_range.2 hjm) ?_
          rw [List.getElem?_eq_getElem hj, hjs]
          exact hp
      · have hjm' : j = m := by omega
        have : (c :: cs).mapM (fun row => (List.range 1).mapM (fun _ => row[m]? >>= parse)) = none := by
          refine mapM_none _ _ row hrow (mapM_none _ _ 0 (by simp) ?_)
          rw [← hjm', List.getElem?_eq_getElem hj, hjs]
          exact hp
        simp only [Option.bind_eq_bind] at this
        rw [this]
        cases (c :: cs).mapM (fun row => (List.range m).mapM (fun j => (row[j]?).bind parse)) <;> rfl

/-- Hypotheses met. -/
example : "x" ∈ ["1", "x"] ∧ (fun s : String => if s = "x" then none else some s.length) "x" = none := by simp

/-- C130, violated for several output columns (not reached by the exported loaders, which ask for one): every output is a copy of the first. -/
theorem C130_outputs_violated (parse : String → Option K) (q : ℕ) (cells : List (List String)) (X Y : List (List K)) (h : loadCsv parse q cells = some (X, Y)) : ∀ row ∈ Y, ∀ v ∈ row, ∀ w ∈ row, v = w := by
  have hrep : ∀ (o : Option K) (q : ℕ) (l : List K), (List.range q).mapM (fun _ => o) = some l → ∀ v ∈ l, o = some v := by
    intro o q
    generalize List.range q = r
    induction r with
    | nil => intro l h; cases h; simp
    | cons a r ih =>
      intro l h
      rw [List.mapM_cons] at h
      cases o with
      | none => cases h
      | some x =>
        simp only [Option.bind_eq_bind, Option.bind_some] at h
        cases hr : r.mapM (fun _ => some x) with
        | none => rw [hr] at h; cases h
        | some t =>
          rw [hr] at h
          cases h
          intro v hv
          rcases List.mem_cons.1 hv with rfl | hv
          · rfl
          · exact ih t hr v hv
  cases cells with
  | nil => cases h
  | cons c cs =>
    rw [loadCsv] at h
    simp only [List.getElem?_cons_zero, Option.bind_eq_bind, Option.bind_some] at h
    split at h
    · cases h
    · generalize hX : (c :: cs).mapM (fun row => (List.range (c.length - q)).mapM (fun j => (row[j]?).bind parse)) = oX at h
      cases oX with
      | none => cases h
      | some X' =>
        simp only [Option.bind_some] at h
        generalize hY : (c :: cs).mapM (fun row => (List.range q).mapM (fun _ => (row[c.length - q]?).bind parse)) = oY at h
        cases oY with
        | none => cases h
        | some Y' =>
          cases h
          intro row hrow v hv w hw
          have : ∃ r ∈ (c :: cs), (List.range q).mapM (fun _ => (r[c.length - q]?).bind parse) = some row := by
            clear hX
            generalize (c :: cs) = l at hY
            induction l generalizing Y with
            | nil => cases hY; simp at hrow
            | cons a l ih =>
              rw [List.mapM_cons] at hY
              cases ha : (List.range q).mapM (fun _ => (a[c.length - q]?).bind parse) with
              | none => rw [ha] at hY; cases hY
              | some b =>
                rw [ha] at hY
                simp only [Option.bind_eq_bind, Option.bind_some] at hY
                cases ht : l.mapM (fun r => (List.range q).mapM (fun _ => (r[c.length - q]?).bind parse)) with
                | none => rw [ht] at hY; cases hY
                | some t =>
                  rw [ht] at hY
                  cases hY
                  rcases List.mem_cons.1 hrow with rfl | hrow
                  · exact ⟨a, List.mem_cons_self .., ha⟩
                  · obtain ⟨r, hr, he⟩ := ih t hrow ht
                    exact ⟨r, List.mem_cons_of_mem _ hr, he⟩
          obtain ⟨r, _, he⟩ := this
          have h1 := hrep _ q row he v hv
          have h2 := hrep _ q row he w hw
          rw [h1] at h2
          exact Option.some.inj h2

/-- A file with two outputs. -/
example : loadCsv (fun s => some s.length) 2 [["a", "bb", "ccc"]] = some ([[1]], [[2, 2]]) := by decide +kernel

/-- C130: `GetXY` returns the named features of every sample (the first `nFeatures` columns) and the targets as a column. -/
theorem C130_xy [Inhabited K] (nFeatures : ℕ) (hf : 0 < nFeatures) (data : List (List K)) (target : List K) (hne : data ≠ []) (hrect : ∀ row ∈ data, nFeatures ≤ row.length) (ht : target.length = data.length) :
    getXY nFeatures data target = some (data.map (fun row => row.take nFeatures), target.map (fun v => [v])) := by
  rw [getXY, if_neg (by have := List.length_pos_iff.2 hne; omega)]
  have h1 : data.mapM (fun row => (List.range nFeatures).mapM (fun j => row[j]?)) = some (data.map (fun row => row.take nFeatures)) := by
    refine mapM_map _ _ _ (fun row hrow => ?_)
    have := range_take (fun v : K => some v) row row (List.forall₂_same.2 (fun _ _ => rfl)) nFeatures (hrect row hrow)
    simpa using this
  have h2 : (List.range data.length).mapM (fun i => target[i]?.map (fun v => [v])) = some (target.map (fun v => [v])) := by
    rw [mapM_map _ (fun i => [target.getD i default])]
    · congr 1
      refine List.ext_getElem (by simp [ht]) (fun i h1 h2 => ?_)
      have : i < target.length := by simpa using h2
      simp [this]
    · intro i hi
      have : i < target.length := by rw [ht]; exact List.mem_range.1 hi
      simp [this]
  rw [h1, h2]
  rfl

/-- Hypotheses met. -/
example : getXY 2 [[1, 2], [3, 4]] [7, 8] = some ([[1, 2], [3, 4]], [[7], [8]]) := by decide +kernel

end

end Sk.Datasets
