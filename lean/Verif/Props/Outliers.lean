import Verif.Props.Scale
import Mathlib.Tactic.Linarith
import Mathlib.Tactic.Positivity

/-! # C242: outliers and scalers -/
set_option autoImplicit false

namespace Sk.Outliers

open Sk.Scale Sk.Stats

/-! ### StandardScaler -/

private theorem list_cs (l : List ℝ) : l.sum ^ 2 ≤ l.length * (l.map (fun z => z ^ 2)).sum := by
  induction l with
  | nil => simp
  | cons a l ih =>
    simp only [List.sum_cons, List.length_cons, List.map_cons, Nat.cast_add, Nat.cast_one]
    rcases Nat.eq_zero_or_pos l.length with h | h
    · rw [List.length_eq_zero_iff.1 h]
      simp
    · have hn : (0 : ℝ) < l.length := by exact_mod_cast h
      have : 0 ≤ (l.length : ℝ) * (l.length * a ^ 2 + (l.map (fun z => z ^ 2)).sum - 2 * a * l.sum) := by nlinarith [sq_nonneg (l.length * a - l.sum)]
      have := nonneg_of_mul_nonneg_right this hn
      nlinarith

private theorem samuelson (zs : List ℝ) (h0 : zs.sum = 0) (h2 : (zs.map (fun z => z ^ 2)).sum ≤ (zs.length : ℝ)) (z : ℝ) (hz : z ∈ zs) : z ^ 2 ≤ zs.length - 1 := by
  have hp := List.perm_cons_erase hz
  have hl := hp.length_eq
  rw [List.length_cons] at hl
  have e0 := hp.sum_eq
  have e2 := (hp.map (fun z => z ^ 2)).sum_eq
  rw [List.sum_cons] at e0
  rw [List.map_cons, List.sum_cons] at e2
  have cs := list_cs (zs.erase z)
  have hs : (zs.erase z).sum = -z := by linarith
  rw [hs] at cs
  have hn : (zs.length : ℝ) = (zs.erase z).length + 1 := by exact_mod_cast hl
  have hm : (0 : ℝ) ≤ (zs.erase z).length := Nat.cast_nonneg _
  have hq : ((zs.erase z).map (fun z => z ^ 2)).sum ≤ (zs.erase z).length + 1 - z ^ 2 := by linarith
  have := mul_le_mul_of_nonneg_left hq hm
  rw [hn]
  nlinarith

private theorem tails (zs : List ℝ) (t : ℝ) : (zs.countP (fun z => decide (t ≤ |z|)) : ℝ) * t ^ 2 ≤ (zs.map (fun z => z ^ 2)).sum ∨ t < 0 := by
  by_cases ht : t < 0
  · exact Or.inr ht
  · left
    rw [not_lt] at ht
    induction zs with
    | nil => simp
    | cons a l ih =>
      simp only [List.countP_cons, List.map_cons, List.sum_cons, decide_eq_true_eq]
      split_ifs with h
      · have : t ^ 2 ≤ a ^ 2 := by rw [← sq_abs a]; exact pow_le_pow_left₀ ht h 2
        push_cast
        linarith
      · push_cast
        nlinarith [sq_nonneg a]

private theorem scaled (rows : ℕ) (hr : 0 < rows) (s : Std ℝ) (cols : List (List ℝ)) (hc : ∀ c ∈ cols, c.length = rows) :
    ∃ st, Std.fit s rows cols = some st ∧ st.mv.length = cols.length ∧ ∀ (j : ℕ) (h : j < cols.length) (h' : j < st.mv.length),
      (cols[j].map (stdTransform Real.sqrt true true st.mv[j])).sum = 0 ∧ ((cols[j].map (stdTransform Real.sqrt true true st.mv[j])).map (fun z => z ^ 2)).sum ≤ (rows : ℝ) := by
  obtain ⟨st, h1, h2, h3⟩ := C18_standard_moments s rows hr cols hc true true
  refine ⟨st, h1, h2, fun j h h' => ?_⟩
  obtain ⟨hm, hv⟩ := h3 j h h'
  have hlen := hc cols[j] (List.getElem_mem h)
  have hn : (0 : ℝ) < rows := by exact_mod_cast hr
  have hsum : (cols[j].map (stdTransform Real.sqrt true true st.mv[j])).sum = 0 := by
    rw [mean, List.length_map, hlen, div_eq_zero_iff] at hm
    exact hm.resolve_right hn.ne'
  refine ⟨hsum, ?_⟩
  by_cases hconst : ∃ a ∈ cols[j], ∃ b ∈ cols[j], a ≠ b
  · have := hv hconst
    rw [pvar, hm, List.length_map, hlen, div_eq_one_iff_eq hn.ne'] at this
    simp only [sub_zero] at this
    exact this.le
  · push Not at hconst
    have hz : ∀ z ∈ cols[j].map (stdTransform Real.sqrt true true st.mv[j]), z = 0 := by
      intro z hz
      have hall : ∀ y ∈ cols[j].map (stdTransform Real.sqrt true true st.mv[j]), y = z := by
        intro y hy
        obtain ⟨a, ha, rfl⟩ := List.mem_map.1 hy
        obtain ⟨b, hb, rfl⟩ := List.mem_map.1 hz
        rw [hconst a ha b hb]
      have := List.eq_replicate_of_mem hall
      rw [this, List.sum_replicate, List.length_map, hlen, nsmul_eq_mul] at hsum
      exact (mul_eq_zero.1 hsum).resolve_left hn.ne'
    rw [List.sum_eq_zero]
    · exact hn.le
    · intro x hx
      obtain ⟨z, hz', rfl⟩ := List.mem_map.1 hx
      rw [hz z hz']
      norm_num

/-- **C242, StandardScaler.** After a fit on `n` rows no scaled training value exceeds `√(n - 1)` in absolute value, and for every `t ≥ 0` at most `n / t²` of the values of a feature reach `t`. -/
theorem C242_standard (s : Std ℝ) (rows : ℕ) (hr : 0 < rows) (cols : List (List ℝ)) (hc : ∀ c ∈ cols, c.length = rows) :
    ∃ st, Std.fit s rows cols = some st ∧ st.mv.length = cols.length ∧ ∀ (j : ℕ) (h : j < cols.length) (h' : j < st.mv.length),
      (∀ x ∈ cols[j], |stdTransform Real.sqrt true true st.mv[j] x| ≤ Real.sqrt ((rows : ℝ) - 1)) ∧
      ∀ t, 0 ≤ t → (cols[j].countP (fun x => decide (t ≤ |stdTransform Real.sqrt true true st.mv[j] x|)) : ℝ) * t ^ 2 ≤ rows := by
  obtain ⟨st, h1, h2, h3⟩ := scaled rows hr s cols hc
  refine ⟨st, h1, h2, fun j h h' => ?_⟩
  obtain ⟨k1, k2⟩ := h3 j h h'
  have hlen := hc cols[j] (List.getElem_mem h)
  constructor
  · intro x hx
    refine Real.abs_le_sqrt ?_
    have := samuelson _ k1 (by rw [List.length_map, hlen]; exact k2) _ (List.mem_map_of_mem hx)
    rwa [List.length_map, hlen] at this
  · intro t ht
    have := (tails (cols[j].map (stdTransform Real.sqrt true true st.mv[j])) t).resolve_right (not_lt.2 ht)
    rw [List.countP_map] at this
    exact this.trans k2

/-! ### RobustScaler -/

section
variable {K : Type} [Field K] [LinearOrder K] [IsStrictOrderedRing K]

/-- `q` is the empirical `p`-quantile of the values: one of them, such that at least the share `p` of them is at most `q`, and a smaller share (or none) below `q`. -/
def IsQuantile (p : K) (xs : List K) (q : K) : Prop :=
  q ∈ xs ∧ p * xs.length ≤ (xs.countP (fun x => decide (x ≤ q)) : K) ∧ (xs.countP (fun x => decide (x < q)) = 0 ∨ (xs.countP (fun x => decide (x < q)) : K) < p * xs.length)

theorem quantile_le {p p' : K} (hp : p ≤ p') {xs : List K} {q q' : K} (h : IsQuantile p xs q) (h' : IsQuantile p' xs q') : q ≤ q' := by
  by_contra hlt
  rw [not_le] at hlt
  have hm : xs.countP (fun x => decide (x ≤ q')) ≤ xs.countP (fun x => decide (x < q)) := List.countP_mono_left (fun x _ hx => by
    simp only [decide_eq_true_eq] at hx ⊢
    exact hx.trans_lt hlt)
  have hpos : 0 < xs.countP (fun x => decide (x ≤ q')) := List.countP_pos_iff.2 ⟨q', h'.1, by simp⟩
  rcases h.2.2 with h0 | h0
  · omega
  · have h1 := h'.2.1
    have h2 : (xs.countP (fun x => decide (x ≤ q')) : K) ≤ (xs.countP (fun x => decide (x < q)) : K) := by exact_mod_cast hm
    have h3 := mul_le_mul_of_nonneg_right hp (Nat.cast_nonneg (α := K) xs.length)
    linarith

theorem quantile_of {p : K} (hp : p ≤ 1) {xs ys : List K} (hne : xs ≠ []) (hperm : ys.Perm xs) (hs : ys.Pairwise (· ≤ ·)) {q : K} (h : quantile p ys = some q) : IsQuantile p xs q := by
  obtain ⟨q', hq, e, h1, h2⟩ := quantile_spec p hp ys (fun h0 => by subst h0; exact hne (List.nil_perm.1 hperm)) hs
  rw [h, Option.some_inj] at e
  subst e
  rw [← List.countP_eq_length_filter, hperm.countP_eq, hperm.length_eq] at h1
  rw [← List.countP_eq_length_filter, hperm.countP_eq, hperm.length_eq] at h2
  exact ⟨hperm.mem_iff.1 hq, h1, h2⟩

private theorem quantile_moved {p q1 q2 q : K} (l : List (K × K)) (h1 : q1 ≤ q) (h2 : q ≤ q2) (hl : ∀ e ∈ l, e.1 = e.2 ∨ (q2 < e.1 ∧ q2 < e.2) ∨ (e.1 < q1 ∧ e.2 < q1)) (h : IsQuantile p (l.map Prod.fst) q) :
    IsQuantile p (l.map Prod.snd) q := by
  have same : ∀ e ∈ l, (e.1 ≤ q ↔ e.2 ≤ q) ∧ (e.1 < q ↔ e.2 < q) := by
    intro e he
    rcases hl e he with h | ⟨a, b⟩ | ⟨a, b⟩
    · rw [h]; exact ⟨Iff.rfl, Iff.rfl⟩
    · have a' := h2.trans_lt a
      have b' := h2.trans_lt b
      exact ⟨⟨fun h => absurd h (not_le.2 a'), fun h => absurd h (not_le.2 b')⟩, ⟨fun h => absurd h (not_lt.2 a'.le), fun h => absurd h (not_lt.2 b'.le)⟩⟩
    · have a' := a.trans_le h1
      have b' := b.trans_le h1
      exact ⟨⟨fun _ => b'.le, fun _ => a'.le⟩, ⟨fun _ => b', fun _ => a'⟩⟩
  have c1 : (l.map Prod.snd).countP (fun x => decide (x ≤ q)) = (l.map Prod.fst).countP (fun x => decide (x ≤ q)) := by
    rw [List.countP_map, List.countP_map]
    exact List.countP_congr (fun e he => by simp only [Function.comp_apply, decide_eq_true_eq]; exact (same e he).1.symm)
  have c2 : (l.map Prod.snd).countP (fun x => decide (x < q)) = (l.map Prod.fst).countP (fun x => decide (x < q)) := by
    rw [List.countP_map, List.countP_map]
    exact List.countP_congr (fun e he => by simp only [Function.comp_apply, decide_eq_true_eq]; exact (same e he).2.symm)
  obtain ⟨k1, k2, k3⟩ := h
  refine ⟨?_, ?_, ?_⟩
  · obtain ⟨e, he, rfl⟩ := List.mem_map.1 k1
    rcases hl e he with h | ⟨a, _⟩ | ⟨a, _⟩
    · rw [h]; exact List.mem_map_of_mem he
    · exact absurd a (not_lt.2 h2)
    · exact absurd a (not_lt.2 h1)
  · rw [c1, List.length_map]
    rwa [List.length_map] at k2
  · rw [c2, List.length_map]
    rwa [List.length_map] at k3

/-- **C242, RobustScaler.** `l` lists the values of a feature before and after some of them were changed.  If every changed value lies, before and after, above the upper quantile, or before and after below the lower one, the scaler learns the same
median and divider, so it transforms every value alike, however far the changed values lie. -/
theorem C242_robust (half left right : K) (h1 : left ≤ half) (h2 : half ≤ right) (h3 : right ≤ 1) (s : Robust K) (l : List (K × K)) (hne : l ≠ []) (htmp : ∀ buf, s.tmp = some buf → buf.length = l.length) (q1 q2 : K)
    (hq1 : IsQuantile left (l.map Prod.fst) q1) (hq2 : IsQuantile right (l.map Prod.fst) q2) (hl : ∀ e ∈ l, e.1 = e.2 ∨ (q2 < e.1 ∧ q2 < e.2) ∨ (e.1 < q1 ∧ e.2 < q1)) :
    ∃ st st', Robust.fit half left right s (l.map Prod.fst) = some st ∧ Robust.fit half left right s (l.map Prod.snd) = some st' ∧ st'.median = st.median ∧ st'.divider = st.divider ∧
      ∀ center scale x, st'.transform center scale x = st.transform center scale x := by
  have hne1 : l.map Prod.fst ≠ [] := by simpa using hne
  have hne2 : l.map Prod.snd ≠ [] := by simpa using hne
  have a1 : half ≤ 1 := h2.trans h3
  have a2 : left ≤ 1 := h1.trans a1
  obtain ⟨st, e, ⟨ys, p, so, m, u1, u2, r1, r2, d⟩, -⟩ := C66_robust_partial half left right a1 a2 h3 s (l.map Prod.fst) hne1 (by simpa using htmp)
  obtain ⟨st', e', ⟨ys', p', so', m', u1', u2', r1', r2', d'⟩, -⟩ := C66_robust_partial half left right a1 a2 h3 s (l.map Prod.snd) hne2 (by simpa using htmp)
  have Q1 := quantile_of a2 hne1 p so r1
  have Q2 := quantile_of h3 hne1 p so r2
  have Qm := quantile_of a1 hne1 p so m
  have Q1' := quantile_of a2 hne2 p' so' r1'
  have Q2' := quantile_of h3 hne2 p' so' r2'
  have Qm' := quantile_of a1 hne2 p' so' m'
  have uniq : ∀ {p : K} {xs : List K} {q q' : K}, IsQuantile p xs q → IsQuantile p xs q' → q = q' := fun h h' => le_antisymm (quantile_le le_rfl h h') (quantile_le le_rfl h' h)
  have v1 := uniq hq1 Q1
  have v2 := uniq hq2 Q2
  subst v1 v2
  have b1 := quantile_le h1 Q1 Qm
  have b2 := quantile_le h2 Qm Q2
  have t1 := uniq (quantile_moved l le_rfl (b1.trans b2) hl Q1) Q1'
  have t2 := uniq (quantile_moved l (b1.trans b2) le_rfl hl Q2) Q2'
  have tm := uniq (quantile_moved l b1 b2 hl Qm) Qm'
  have hm : st'.median = st.median := tm.symm
  have hd : st'.divider = st.divider := by rw [d, d', t1, t2]
  refine ⟨st, st', e, e', hm, hd, fun center scale x => ?_⟩
  unfold Robust.transform
  rw [hm, hd]

/-- The quantiles 2 and 6 of the values 1, ..., 8; the values 7, 8 become 7000, 8000 and 1 becomes -50. -/
example : IsQuantile (1 / 4 : ℚ) [8, 1, 7, 2, 6, 3, 5, 4] 2 ∧ IsQuantile (3 / 4 : ℚ) [8, 1, 7, 2, 6, 3, 5, 4] 6 ∧
    (Robust.fit (1 / 2 : ℚ) (1 / 4) (3 / 4) ⟨none, 0, 0⟩ [8, 1, 7, 2, 6, 3, 5, 4]).map (fun s => (s.median, s.divider)) = some (4, 4) ∧
    (Robust.fit (1 / 2 : ℚ) (1 / 4) (3 / 4) ⟨none, 0, 0⟩ [8000, -50, 7000, 2, 6, 3, 5, 4]).map (fun s => (s.median, s.divider)) = some (4, 4) := by
  unfold IsQuantile
  decide +kernel

end

/-- Hypotheses of `C242_standard`: two features of three rows. -/
example : ∀ c ∈ ([[1, 2, 6], [5, 5, 5]] : List (List ℝ)), c.length = 3 := by simp

end Sk.Outliers
