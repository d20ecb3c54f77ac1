import Verif.Props.RawLoops
import Mathlib.Tactic.Linarith
import Mathlib.Tactic.Ring

/-! # C206: decoding, polynomial features, kernel centring and label flags on views -/
set_option autoImplicit false

namespace Sk.RawLoops

variable {α β : Type}

/-- A loop over rows whose body changes the cells of its own row of the output only. -/
theorem segs (step : List β → ℕ → Option (List β)) (W rows N : ℕ) (hN : rows * W ≤ N) (z : β) (spec : ℕ → ℕ → Option β)
    (hstep : ∀ r < rows, ∀ out : List β, out.length = N → (∀ k < W, out[r * W + k]? = some z) →
      ∃ out', step out r = some out' ∧ out'.length = N ∧ (∀ k < W, out'[r * W + k]? = spec r k) ∧ ∀ q, (∀ k < W, q ≠ r * W + k) → out'[q]? = out[q]?) :
    ∀ n ≤ rows, ∃ out, (List.range n).foldlM step (List.replicate N z) = some out ∧ out.length = N ∧ (∀ r < n, ∀ k < W, out[r * W + k]? = spec r k) ∧
      ∀ r, n ≤ r → r < rows → ∀ k < W, out[r * W + k]? = some z := by
  intro n
  induction n with
  | zero =>
    intro _
    refine ⟨List.replicate N z, rfl, by simp, fun r hr => by omega, fun r _ hr k hk => ?_⟩
    rw [List.getElem?_replicate, if_pos]
    calc r * W + k < r * W + W := by omega
      _ = (r + 1) * W := by ring
      _ ≤ rows * W := Nat.mul_le_mul_right _ (by omega)
      _ ≤ N := hN
  | succ n ih =>
    intro hn
    obtain ⟨out, e, hl, h1, h2⟩ := ih (by omega)
    obtain ⟨out', e', hl', h1', h2'⟩ := hstep n (by omega) out hl (h2 n (le_refl _) (by omega))
    have hother : ∀ r, r ≠ n → ∀ k < W, out'[r * W + k]? = out[r * W + k]? := by
      intro r hr k hk
      exact h2' _ (fun k' hk' e => hr (flat_inj hk hk' e).1)
    refine ⟨out', ?_, hl', ?_, ?_⟩
    · rw [List.range_succ, List.foldlM_append, e]
      simp only [Option.bind_eq_bind, Option.bind_some, List.foldlM_cons, List.foldlM_nil]
      rw [e']
      rfl
    · intro r hr k hk
      rcases Nat.lt_or_ge r n with hlt | hge
      · rw [hother r (by omega) k hk]; exact h1 r hlt k hk
      · obtain rfl : r = n := by omega
        exact h1' k hk
    · intro r hr hr' k hk
      rw [hother r (by omega) k hk]
      exact h2 r (by omega) hr' k hk

/-- The cells of one row with a possible `break`: every cell up to the first stop is written, the rest stays. -/
theorem inRow_spec (f : ℕ → α → Option (β × Bool)) (w : ℕ → α → β) (s : ℕ → α → Bool) (pos : ℕ) : ∀ (vs : List α) (i : ℕ) (out : List β), (∀ k v, vs[k]? = some v → f (i + k) v = some (w (i + k) v, s (i + k) v)) →
    pos + i + vs.length ≤ out.length →
    ∃ out', inRow f pos vs i out = some out' ∧ out'.length = out.length ∧
      (∀ k v, vs[k]? = some v → out'[pos + i + k]? = if ∀ k' < k, ∀ v', vs[k']? = some v' → s (i + k') v' = false then some (w (i + k) v) else out[pos + i + k]?) ∧
      ∀ q, (∀ k < vs.length, q ≠ pos + i + k) → out'[q]? = out[q]? := by
  intro vs
  induction vs with
  | nil => intro i out _ _; exact ⟨out, rfl, rfl, by simp, fun _ _ => rfl⟩
  | cons v vs ih =>
    intro i out hf hlen
    have h0 := hf 0 v (by simp)
    rw [Nat.add_zero] at h0
    have hp : pos + i < out.length := by simp at hlen; omega
    rw [inRow, h0]
    simp only [Option.bind_some, setAt, if_pos hp]
    by_cases hs : s i v = true
    · rw [if_pos hs]
      refine ⟨_, rfl, by simp, ?_, ?_⟩
      · intro k v' hk
        cases k with
        | zero =>
          simp only [List.getElem?_cons_zero, Option.some.injEq] at hk
          subst hk
          rw [if_pos (by intro k' hk'; omega), Nat.add_zero, List.getElem?_set_self hp]
          rfl
        | succ k =>
          rw [if_neg, List.getElem?_set_ne (by omega)]
          intro hall
          have := hall 0 (by omega) v (by simp)
          rw [Nat.add_zero, hs] at this
          cases this
      · intro q hq
        have := hq 0 (by simp)
        rw [List.getElem?_set_ne (by omega)]
    · have hs' : s i v = false := by simpa using hs
      rw [if_neg hs]
      obtain ⟨out', e, hl, h1, h2⟩ := ih (i + 1) (out.set (pos + i) (w i v)) (by
        intro k v' hk
        have := hf (k + 1) v' (by simpa using hk)
        rw [show i + 1 + k = i + (k + 1) by omega]
        exact this) (by simp at hlen ⊢; omega)
      refine ⟨out', e, by rw [hl, List.length_set], ?_, ?_⟩
      · intro k v' hk
        cases k with
        | zero =>
          simp only [List.getElem?_cons_zero, Option.some.injEq] at hk
          subst hk
          rw [if_pos (by intro k' hk'; omega), h2 (pos + i + 0) (by intro k _; omega), Nat.add_zero, List.getElem?_set_self hp]
          rfl
        | succ k =>
          have hk' : vs[k]? = some v' := by simpa using hk
          have := h1 k v' hk'
          rw [show pos + (i + 1) + k = pos + i + (k + 1) by omega, show i + 1 + k = i + (k + 1) by omega, List.getElem?_set_ne (by omega)] at this
          rw [this]
          congr 1
          apply propext
          constructor
          · intro h j hj x hx
            cases j with
            | zero =>
              simp only [List.getElem?_cons_zero, Option.some.injEq] at hx
              subst hx
              exact hs'
            | succ j =>
              have := h j (by omega) x (by simpa using hx)
              rw [show i + (j + 1) = i + 1 + j by omega]
              exact this
          · intro h j hj x hx
            have := h (j + 1) (by omega) x (by simpa using hx)
            rw [show i + 1 + j = i + (j + 1) by omega]
            exact this
      · intro q hq
        rw [h2 q (by intro k hk; have := hq (k + 1) (by simp; omega); omega), List.getElem?_set_ne (by have := hq 0 (by simp); omega)]

theorem row_get {M : Raw α} (h : Valid M) {r : ℕ} (hr : r < M.rows) : (M.row r).length = M.cols ∧ ∀ c, (M.row r)[c]? = M.cell r c := by
  have hl := h.there r hr
  have hp := h.cols_pos
  have hrow : ∀ c ∈ List.range M.cols, M.cell r c = some (M.data[r * M.stride + c]?.getD (M.data[r * M.stride]'(by omega))) := by
    intro c hc
    have hc' := List.mem_range.1 hc
    rw [Raw.cell, if_pos ⟨hr, hc'⟩, List.getElem?_eq_getElem (by omega)]
    rfl
  unfold Raw.row
  rw [List.filterMap_congr hrow, List.filterMap_eq_map']
  refine ⟨by simp, fun c => ?_⟩
  rcases Nat.lt_or_ge c M.cols with hc | hc
  · rw [List.getElem?_map, List.getElem?_range hc, hrow c (List.mem_range.2 hc)]
    rfl
  · rw [List.getElem?_eq_none (by simpa using hc), Raw.cell, if_neg (by omega)]

section Field
variable {K : Type} [Field K] [LinearOrder K]

/-- A code that `InverseTransform` refuses. -/
def Refused (int : K → ℤ) (cl : List K) (x : K) : Prop := int x < 0 ∨ (cl.length : ℤ) < int x

/-- **C206 (label decoder).** Codes are decoded cell by cell, in any layout; from the first refused code of a row on, that cell is NaN and the cells right of it are zero.
(A code equal to the number of classes panics and is excluded here.) -/
theorem C206_label_decoder {M : Raw K} (h : Valid M) (int : K → ℤ) (classes : List (List K)) (hs : M.cols ≤ classes.length)
    (hne : ∀ r c x, M.cell r c = some x → int x ≠ ((classes.getD c []).length : ℤ)) :
    ∃ out, decode int classes M = some out ∧ out.length = M.rows * M.cols ∧ ∀ r c x, M.cell r c = some x →
      ((∃ c' < c, ∃ x', M.cell r c' = some x' ∧ Refused int (classes.getD c' []) x') → out[r * M.cols + c]? = some (some 0)) ∧
      ((∀ c' < c, ∀ x', M.cell r c' = some x' → ¬ Refused int (classes.getD c' []) x') →
        (Refused int (classes.getD c []) x → out[r * M.cols + c]? = some none) ∧ (¬ Refused int (classes.getD c []) x → out[r * M.cols + c]? = some ((classes.getD c [])[(int x).toNat]?))) := by
  classical
  have key := segs (β := Option K) (fun out r => inRow (fun i v => classes[i]?.bind fun cl => if int v < 0 ∨ (cl.length : ℤ) < int v then some (none, true) else cl[(int v).toNat]?.map fun x => (some x, false))
      (r * M.cols) (M.row r) 0 out) M.cols M.rows (M.rows * M.cols) (le_refl _) (some 0)
    (fun r c => (M.cell r c).map fun x => if ∀ c' < c, ∀ x', M.cell r c' = some x' → ¬ Refused int (classes.getD c' []) x' then (if Refused int (classes.getD c []) x then none else (classes.getD c [])[(int x).toNat]?) else some 0) (by
    intro r hr out hlen hz
    obtain ⟨hrl, hrg⟩ := row_get h hr
    obtain ⟨out', e, hl, h1, h2⟩ := inRow_spec (fun i v => classes[i]?.bind fun cl => if int v < 0 ∨ (cl.length : ℤ) < int v then some (none, true) else cl[(int v).toNat]?.map fun x => (some x, false))
      (fun c x => if Refused int (classes.getD c []) x then none else (classes.getD c [])[(int x).toNat]?) (fun c x => decide (Refused int (classes.getD c []) x)) (r * M.cols) (M.row r) 0 out (by
      intro k v hk
      rw [hrg] at hk
      have hkc := (cell_lt hk).2
      have hne' := hne r k v hk
      rw [Nat.zero_add, List.getElem?_eq_getElem (by omega), Option.bind_some, List.getD_eq_getElem _ _ (by omega)]
      rw [List.getD_eq_getElem _ _ (by omega)] at hne'
      by_cases hR : Refused int classes[k] v
      · rw [if_pos hR, decide_eq_true hR]
        exact if_pos hR
      · rw [if_neg hR, decide_eq_false hR]
        refine (if_neg hR).trans ?_
        unfold Refused at hR
        rw [List.getElem?_eq_getElem (by omega)]
        rfl) (by
      rw [hrl, hlen]
      calc r * M.cols + 0 + M.cols = (r + 1) * M.cols := by ring
        _ ≤ M.rows * M.cols := Nat.mul_le_mul_right _ (by omega))
    refine ⟨out', e, by rw [hl, hlen], ?_, ?_⟩
    · intro k hk
      obtain ⟨x, hx⟩ := cell_some h hr hk
      have := h1 k x (by rw [hrg, hx])
      simp only [Nat.add_zero, Nat.zero_add, hrg, decide_eq_false_iff_not] at this
      rw [this, hx, hz k hk, Option.map_some]
      split <;> rfl
    · intro q hq
      exact h2 q (by intro k hk; rw [hrl] at hk; rw [Nat.add_zero]; exact hq k hk)) M.rows (le_refl _)
  obtain ⟨out, e, hl, h1, -⟩ := key
  refine ⟨out, ?_, hl, ?_⟩
  · unfold decode
    rw [rowLoop_eq h]
    exact e
  · intro r c x hx
    obtain ⟨hr, hc⟩ := cell_lt hx
    have := h1 r hr c hc
    rw [hx, Option.map_some] at this
    refine ⟨?_, ?_⟩
    · rintro ⟨c', hc', x', hx', hR⟩
      rw [this, if_neg]
      intro hall
      exact hall c' hc' x' hx' hR
    · intro hall
      rw [if_pos hall] at this
      exact ⟨fun hR => by rw [this, if_pos hR], fun hR => by rw [this, if_neg hR]⟩

/-- **C206 (polynomial features).** The output has one column per monomial, and holds in row `r` the value of the monomial at row `r` of the argument, in any layout. -/
theorem C206_polynomial {M : Raw K} (h : Valid M) (powers : List (List ℕ)) (hp : ∀ p ∈ powers, p.length ≤ M.cols) :
    ∃ out, poly powers M = some out ∧ out.length = M.rows * powers.length ∧
      ∀ r < M.rows, ∀ k p, powers[k]? = some p → out[r * powers.length + k]? = some ((List.zipWith (fun x e => x ^ e) (M.row r) p).prod) := by
  have hmono : ∀ r < M.rows, ∀ p : List ℕ, ∀ i (v : K), i + p.length ≤ M.cols →
      (p.zipIdx i).foldlM (fun v e => (M.data[r * M.stride + e.2]?).map fun x => v * x ^ e.1) v = some (v * (List.zipWith (fun x e => x ^ e) ((M.row r).drop i) p).prod) := by
    intro r hr p
    obtain ⟨hrl, hrg⟩ := row_get h hr
    induction p with
    | nil => intro i v _; simp
    | cons e p ih =>
      intro i v hi
      rw [List.length_cons] at hi
      obtain ⟨x, hx⟩ := cell_some h hr (show i < M.cols by omega)
      have hd : (M.row r).drop i = x :: (M.row r).drop (i + 1) := by
        rw [List.drop_eq_getElem_cons (by omega)]
        congr 1
        have := hrg i
        rw [hx, List.getElem?_eq_getElem (by omega)] at this
        exact Option.some.inj this
      rw [List.zipIdx_cons, List.foldlM_cons]
      simp only
      rw [cell_read r i hr (by omega), hx, Option.map_some, hd, List.zipWith_cons_cons, List.prod_cons, ← mul_assoc]
      exact ih (i + 1) (v * x ^ e) (by omega)
  obtain ⟨out, e, hl, h1, -⟩ := segs (fun out r => powers.zipIdx.foldlM (fun out p =>
      (p.1.zipIdx.foldlM (fun v e => (M.data[r * M.stride + e.2]?).map fun x => v * x ^ e.1) 1).bind fun v => setAt out (r * powers.length + p.2) v) out) powers.length M.rows (M.rows * powers.length) (le_refl _) 0
    (fun r k => powers[k]?.map fun p => (List.zipWith (fun x e => x ^ e) (M.row r) p).prod) (by
    intro r hr out hlen _
    have hpos : ∀ p ∈ powers.zipIdx, p.2 < powers.length ∧ powers[p.2]? = some p.1 := by
      intro p hpm
      have := List.mem_zipIdx_iff_getElem?.1 hpm
      exact ⟨(List.getElem?_eq_some_iff.1 this).1, this⟩
    have hval : ∀ p ∈ powers.zipIdx, p.1.zipIdx.foldlM (fun v e => (M.data[r * M.stride + e.2]?).map fun x => v * x ^ e.1) 1 = some ((List.zipWith (fun x e => x ^ e) (M.row r) p.1).prod) := by
      intro p hpm
      have := hmono r hr p.1 0 1 (by rw [Nat.zero_add]; exact hp _ (List.mem_of_getElem? (hpos p hpm).2))
      rw [List.drop_zero, one_mul] at this
      exact this
    obtain ⟨out', e, h0, h2, h3⟩ := writes (fun p : List ℕ × ℕ => r * powers.length + p.2)
      (fun p => p.1.zipIdx.foldlM (fun v e => (M.data[r * M.stride + e.2]?).map fun x => v * x ^ e.1) 1) powers.zipIdx out (by
        have : powers.zipIdx.map (fun p => r * powers.length + p.2) = (List.range powers.length).map (fun k => r * powers.length + k) := by
          apply List.ext_getElem
          · simp
          · intro i h1 h2
            simp
        rw [this]
        exact List.Nodup.map (fun a b e => by simpa using e) List.nodup_range) (by
        intro p hpm
        rw [hlen]
        calc r * powers.length + p.2 < r * powers.length + powers.length := by have := (hpos p hpm).1; omega
          _ = (r + 1) * powers.length := by ring
          _ ≤ M.rows * powers.length := Nat.mul_le_mul_right _ (by omega)) (by
        intro p hpm
        rw [hval p hpm]
        rfl)
    refine ⟨out', e, by rw [h0, hlen], ?_, ?_⟩
    · intro k hk
      have hmem : (powers[k], k) ∈ powers.zipIdx := List.mem_zipIdx_iff_getElem?.2 (List.getElem?_eq_getElem hk)
      have := h2 _ hmem
      rw [hval _ hmem] at this
      rw [List.getElem?_eq_getElem hk]
      exact this
    · intro q hq
      refine h3 q ?_
      intro hmem
      obtain ⟨p, hpm, rfl⟩ := List.mem_map.1 hmem
      exact hq p.2 (hpos p hpm).1 rfl) M.rows (le_refl _)
  refine ⟨out, e, hl, ?_⟩
  intro r hr k p hk
  rw [h1 r hr k (List.getElem?_eq_some_iff.1 hk).1, hk]
  rfl

/-- **C206 (kernel centerer).** For at most as many new samples as training samples, cell `(r, c)` is reduced by the mean of training column `c` and by the mean of its row, plus the overall mean. -/
theorem C206_kernel_centerer {M : Raw K} (h : Valid M) (fitRows : List K) (fitAll : K) (hf : M.cols ≤ fitRows.length) (hsq : M.rows ≤ M.cols) :
    ∃ out, center fitRows fitAll M = some out ∧ out.length = M.cols * M.cols ∧
      ∀ r c x, M.cell r c = some x → out[r * M.cols + c]? = some (x - fitRows.getD c 0 - (M.row r).sum / (fitRows.length : K) + fitAll) := by
  obtain ⟨out, e, hl, h1, -⟩ := segs (fun out r => inRow (fun i v => fitRows[i]?.map fun f => (v - f - (M.row r).sum / (fitRows.length : K) + fitAll, false)) (r * M.cols) (M.row r) 0 out)
    M.cols M.rows (M.cols * M.cols) (Nat.mul_le_mul_right _ hsq) 0 (fun r c => (M.cell r c).map fun x => x - fitRows.getD c 0 - (M.row r).sum / (fitRows.length : K) + fitAll) (by
    intro r hr out hlen _
    obtain ⟨hrl, hrg⟩ := row_get h hr
    obtain ⟨out', e, hl, h1, h2⟩ := inRow_spec (fun i v => fitRows[i]?.map fun f => (v - f - (M.row r).sum / (fitRows.length : K) + fitAll, false))
      (fun c x => x - fitRows.getD c 0 - (M.row r).sum / (fitRows.length : K) + fitAll) (fun _ _ => false) (r * M.cols) (M.row r) 0 out (by
      intro k v hk
      rw [hrg] at hk
      have hkc := (cell_lt hk).2
      rw [Nat.zero_add, List.getElem?_eq_getElem (by omega), List.getD_eq_getElem _ _ (by omega)]
      rfl) (by
      rw [hrl, hlen]
      calc r * M.cols + 0 + M.cols = (r + 1) * M.cols := by ring
        _ ≤ M.cols * M.cols := Nat.mul_le_mul_right _ (by omega))
    refine ⟨out', e, by rw [hl, hlen], ?_, ?_⟩
    · intro k hk
      obtain ⟨x, hx⟩ := cell_some h hr hk
      have := h1 k x (by rw [hrg, hx])
      rw [if_pos (fun _ _ _ _ => rfl)] at this
      simp only [Nat.add_zero, Nat.zero_add] at this
      rw [this, hx, Option.map_some]
    · intro q hq
      exact h2 q (by intro k hk; rw [hrl] at hk; rw [Nat.add_zero]; exact hq k hk)) M.rows (le_refl _)
  refine ⟨out, ?_, hl, ?_⟩
  · unfold center
    rw [← e]
    refine foldlM_congr _ _ (fun r hr s => ?_)
    rw [cut_row h (List.mem_range.1 hr)]
    rfl
  · intro r c x hx
    obtain ⟨hr, hc⟩ := cell_lt hx
    rw [h1 r hr c hc, hx, Option.map_some]

/-! ### The largest absolute values -/

theorem maxAbs_row [IsStrictOrderedRing K] : ∀ (vs : List K) (i : ℕ) (ma : List K), i + vs.length ≤ ma.length →
    ∃ ma', (vs.zipIdx i).foldlM (fun ma p => ma[p.2]?.map fun a => if a < (if p.1 < 0 then -p.1 else p.1) then ma.set p.2 (if p.1 < 0 then -p.1 else p.1) else ma) ma = some ma' ∧
      ma'.length = ma.length ∧ (∀ k v, vs[k]? = some v → ma'[i + k]? = ma[i + k]?.map fun a => max a |v|) ∧ ∀ q, (q < i ∨ i + vs.length ≤ q) → ma'[q]? = ma[q]? := by
  intro vs
  induction vs with
  | nil => intro i ma _; exact ⟨ma, rfl, rfl, by simp, fun _ _ => rfl⟩
  | cons v vs ih =>
    intro i ma hlen
    rw [List.length_cons] at hlen
    have hab : (if v < 0 then -v else v) = |v| := by
      split
      · next h => rw [abs_of_neg h]
      · next h => rw [abs_of_nonneg (not_lt.1 h)]
    have hstep : (if ma[i] < |v| then ma.set i |v| else ma) = ma.set i (max ma[i] |v|) := by
      split
      · next h => rw [max_eq_right h.le]
      · next h => rw [max_eq_left (not_lt.1 h), List.set_getElem_self]
    obtain ⟨ma', e, hl, h1, h2⟩ := ih (i + 1) (ma.set i (max ma[i] |v|)) (by rw [List.length_set]; omega)
    refine ⟨ma', ?_, by rw [hl, List.length_set], ?_, ?_⟩
    · rw [List.zipIdx_cons, List.foldlM_cons]
      simp only
      rw [List.getElem?_eq_getElem (by omega), Option.map_some, hab, hstep]
      exact e
    · intro k x hk
      cases k with
      | zero =>
        simp only [List.getElem?_cons_zero, Option.some.injEq] at hk
        subst hk
        rw [Nat.add_zero, h2 i (by omega), List.getElem?_set_self (by omega), List.getElem?_eq_getElem (by omega)]
        rfl
      | succ k =>
        have := h1 k x (by simpa using hk)
        rw [show i + 1 + k = i + (k + 1) by omega, List.getElem?_set_ne (by omega)] at this
        exact this
    · intro q hq
      rw [List.length_cons] at hq
      rw [h2 q (by omega), List.getElem?_set_ne (by omega)]

/-- **C206 (max-abs fit).** One call of `PartialFit` raises the entry of each column to the largest absolute value of the column, whatever the layout; the entry is the old one or the absolute value of a cell. -/
theorem C206_max_abs_fit [IsStrictOrderedRing K] {M : Raw K} (h : Valid M) (ma : List K) (hlen : ma.length = M.cols) :
    ∃ ma', maxAbs M ma = some ma' ∧ ma'.length = M.cols ∧ ∀ c a, ma[c]? = some a → ∃ b, ma'[c]? = some b ∧ a ≤ b ∧ (∀ r x, M.cell r c = some x → |x| ≤ b) ∧ (b = a ∨ ∃ r x, M.cell r c = some x ∧ b = |x|) := by
  have key : ∀ n ≤ M.rows, ∃ ma', (List.range n).foldlM (fun ma r => (M.row r).zipIdx.foldlM (fun ma p =>
      ma[p.2]?.map fun a => if a < (if p.1 < 0 then -p.1 else p.1) then ma.set p.2 (if p.1 < 0 then -p.1 else p.1) else ma) ma) ma = some ma' ∧ ma'.length = M.cols ∧
      ∀ c a, ma[c]? = some a → ∃ b, ma'[c]? = some b ∧ a ≤ b ∧ (∀ r < n, ∀ x, M.cell r c = some x → |x| ≤ b) ∧ (b = a ∨ ∃ r x, M.cell r c = some x ∧ b = |x|) := by
    intro n
    induction n with
    | zero => intro _; exact ⟨ma, rfl, hlen, fun c a hc => ⟨a, hc, le_refl _, fun r hr => by omega, Or.inl rfl⟩⟩
    | succ n ih =>
      intro hn
      obtain ⟨m1, e1, hl1, h1⟩ := ih (by omega)
      obtain ⟨hrl, hrg⟩ := row_get h (show n < M.rows by omega)
      obtain ⟨m2, e2, hl2, h2, -⟩ := maxAbs_row (M.row n) 0 m1 (by omega)
      refine ⟨m2, ?_, by omega, ?_⟩
      · rw [List.range_succ, List.foldlM_append, e1]
        simp only [Option.bind_eq_bind, Option.bind_some, List.foldlM_cons, List.foldlM_nil]
        rw [e2]
        rfl
      · intro c a hc
        have hcl : c < M.cols := by rw [← hlen]; exact (List.getElem?_eq_some_iff.1 hc).1
        obtain ⟨b, hb, hab, hle, hor⟩ := h1 c a hc
        obtain ⟨x, hx⟩ := cell_some h (show n < M.rows by omega) hcl
        have := h2 c x (by rw [hrg, hx])
        rw [Nat.zero_add, hb, Option.map_some] at this
        refine ⟨_, this, le_trans hab (le_max_left _ _), ?_, ?_⟩
        · intro r hr y hy
          rcases Nat.lt_or_ge r n with hrn | hrn
          · exact le_trans (hle r hrn y hy) (le_max_left _ _)
          · obtain rfl : r = n := by omega
            rw [hx] at hy
            obtain rfl := Option.some.inj hy
            exact le_max_right _ _
        · rcases max_choice b |x| with hm | hm
          · rw [hm]; exact hor
          · exact Or.inr ⟨n, x, hx, hm⟩
  obtain ⟨ma', e, hl, h1⟩ := key M.rows (le_refl _)
  refine ⟨ma', ?_, hl, ?_⟩
  · unfold maxAbs
    rw [offsets_eq h, foldlM_map, ← e]
    refine foldlM_congr _ _ (fun r hr s => ?_)
    rw [cut_row h (List.mem_range.1 hr)]
    rfl
  · intro c a hc
    obtain ⟨b, hb, hab, hle, hor⟩ := h1 c a hc
    exact ⟨b, hb, hab, fun r x hx => hle r (cell_lt hx).1 x hx, hor⟩

/-! ### Label flags -/

/-- Which flag of a label's column group is written. -/
def flagOf (cl : List K) (x : K) : ℕ := if x ∈ cl then cl.idxOf x else 0

theorem flagOf_lt {cl : List K} (hc : cl ≠ []) (x : K) : flagOf cl x < cl.length := by
  unfold flagOf
  split
  · next h => exact List.idxOf_lt_length_iff.2 h
  · exact List.length_pos_iff.2 hc

theorem binarizeCol_spec {M : Raw K} (h : Valid M) (pos neg : K) (W j base : ℕ) (hj : j < M.cols) (cl : List K) (hc : cl ≠ []) (hb : base + cl.length ≤ W) (out : List K) (hlen : out.length = M.rows * W) :
    ∃ out', binarizeCol pos neg M W j base cl out = some out' ∧ out'.length = M.rows * W ∧
      ∀ r x, M.cell r j = some x → ∀ k < W, out'[r * W + k]? = if k = base + flagOf cl x then some (if x ∈ cl then pos else neg) else out[r * W + k]? := by
  classical
  have hcell : ∀ r < M.rows, M.cell r j = some ((M.cell r j).getD 0) := by
    intro r hr
    obtain ⟨x, hx⟩ := cell_some h hr hj
    rw [hx]
    rfl
  have hk : ∀ r, base + flagOf cl ((M.cell r j).getD 0) < W := fun r => by have := flagOf_lt hc ((M.cell r j).getD 0); omega
  obtain ⟨out', e, h0, h2, h3⟩ := writes (fun r => r * W + (base + flagOf cl ((M.cell r j).getD 0))) (fun r => some (if (M.cell r j).getD 0 ∈ cl then pos else neg)) (List.range M.rows) out (by
      refine List.Nodup.map_on (fun a _ b _ e => (flat_inj (hk a) (hk b) e).1) List.nodup_range) (by
      intro r hr
      rw [hlen]
      have := hk r
      calc r * W + (base + flagOf cl ((M.cell r j).getD 0)) < r * W + W := by omega
        _ = (r + 1) * W := by ring
        _ ≤ M.rows * W := Nat.mul_le_mul_right _ (List.mem_range.1 hr)) (by intro r _; rfl)
  refine ⟨out', ?_, by rw [h0, hlen], ?_⟩
  · rw [← e]
    unfold binarizeCol
    refine foldlM_congr _ _ (fun r hr s => ?_)
    have hr' := List.mem_range.1 hr
    rw [cell_read r j hr' hj, hcell r hr']
    simp only [Option.bind_some, Option.getD_some, flagOf]
    split <;> simp [Nat.add_assoc]
  · intro r x hx k hkW
    obtain ⟨hr, -⟩ := cell_lt hx
    split
    · next hk' =>
      have := h2 r (List.mem_range.2 hr)
      rw [hx, Option.getD_some] at this
      rw [hk']
      exact this
    · next hk' =>
      refine h3 _ ?_
      intro hmem
      obtain ⟨r', -, e'⟩ := List.mem_map.1 hmem
      obtain ⟨rfl, e2⟩ := flat_inj (hk r') hkW e'
      rw [hx, Option.getD_some] at e2
      exact hk' e2.symm

theorem take_sum_succ (classes : List (List K)) (j : ℕ) (hj : j < classes.length) : ((classes.take (j + 1)).map List.length).sum = ((classes.take j).map List.length).sum + (classes.getD j []).length := by
  rw [List.take_succ_eq_append_getElem hj, List.map_append, List.sum_append, List.getD_eq_getElem _ _ hj]
  simp

theorem take_sum_le (classes : List (List K)) : ∀ n m, n ≤ m → ((classes.take n).map List.length).sum ≤ ((classes.take m).map List.length).sum := by
  intro n m hnm
  have : classes.take m = classes.take n ++ (classes.take m).drop n := by
    conv_lhs => rw [← List.take_append_drop n (classes.take m)]
    rw [List.take_take, Nat.min_eq_left hnm]
  rw [this, List.map_append, List.sum_append]
  omega

theorem binarizeFrom_spec {M : Raw K} (h : Valid M) (pos neg : K) (classes : List (List K)) (hl : M.cols ≤ classes.length) (hne : ∀ cl ∈ classes, cl ≠ []) :
    ∀ n j (out : List K), j + n ≤ M.cols → out.length = M.rows * (classes.map List.length).sum →
      (∀ r < M.rows, ∀ k, ((classes.take j).map List.length).sum ≤ k → k < (classes.map List.length).sum → out[r * (classes.map List.length).sum + k]? = some 0) →
      ∃ out', binarizeFrom pos neg M ((classes.map List.length).sum) classes n j ((classes.take j).map List.length).sum out = some out' ∧ out'.length = M.rows * (classes.map List.length).sum ∧
        (∀ r < M.rows, ∀ k, k < ((classes.take j).map List.length).sum → out'[r * (classes.map List.length).sum + k]? = out[r * (classes.map List.length).sum + k]?) ∧
        ∀ r j' x, j ≤ j' → j' < j + n → M.cell r j' = some x → ∀ k < (classes.getD j' []).length, out'[r * (classes.map List.length).sum + (((classes.take j').map List.length).sum + k)]? =
          some (if k = flagOf (classes.getD j' []) x then (if x ∈ classes.getD j' [] then pos else neg) else 0) := by
  intro n
  have hW : ∀ j < M.cols, ((classes.take j).map List.length).sum + (classes.getD j []).length ≤ (classes.map List.length).sum := by
    intro j hj
    rw [← take_sum_succ classes j (by omega)]
    have := take_sum_le classes (j + 1) classes.length (by omega)
    rwa [List.take_length] at this
  induction n with
  | zero => intro j out _ hlen _; exact ⟨out, rfl, hlen, fun _ _ _ _ => rfl, fun r j' x h1 h2 => by omega⟩
  | succ n ih =>
    intro j out hj hlen hz
    have hjc : j < classes.length := by omega
    have hcl : classes.getD j [] ≠ [] := by rw [List.getD_eq_getElem _ _ hjc]; exact hne _ (List.getElem_mem hjc)
    have hWj := hW j (by omega)
    obtain ⟨o1, e1, hl1, h1⟩ := binarizeCol_spec h pos neg ((classes.map List.length).sum) j (((classes.take j).map List.length).sum) (by omega) (classes.getD j []) hcl hWj out hlen
    have hlow : ∀ r < M.rows, ∀ k, k < (classes.map List.length).sum → (k < ((classes.take j).map List.length).sum ∨ ((classes.take (j + 1)).map List.length).sum ≤ k) →
        o1[r * (classes.map List.length).sum + k]? = out[r * (classes.map List.length).sum + k]? := by
      intro r hr k hk hor
      obtain ⟨x, hx⟩ := cell_some h hr (show j < M.cols by omega)
      have hf := flagOf_lt hcl x
      rw [take_sum_succ classes j hjc] at hor
      rw [h1 r x hx k hk, if_neg (by omega)]
    obtain ⟨o2, e2, hl2, h2, h3⟩ := ih (j + 1) o1 (by omega) hl1 (by
      intro r hr k hk hkW
      rw [hlow r hr k hkW (Or.inr hk)]
      refine hz r hr k ?_ hkW
      rw [take_sum_succ classes j hjc] at hk
      omega)
    refine ⟨o2, ?_, hl2, ?_, ?_⟩
    · rw [binarizeFrom, List.getElem?_eq_getElem hjc, Option.bind_some]
      rw [take_sum_succ classes j hjc] at e2
      rw [List.getD_eq_getElem _ _ hjc] at e1 e2
      rw [e1]
      exact e2
    · intro r hr k hk
      rw [h2 r hr k (by rw [take_sum_succ classes j hjc]; omega), hlow r hr k (by omega) (Or.inl hk)]
    · intro r j' x hj1 hj2 hx k hk
      rcases Nat.lt_or_ge j j' with hlt | hge
      · exact h3 r j' x (by omega) (by omega) hx k hk
      · obtain rfl : j' = j := by omega
        obtain ⟨hr, -⟩ := cell_lt hx
        rw [h2 r hr _ (by rw [take_sum_succ classes j' hjc]; omega), h1 r x hx _ (by omega)]
        by_cases hkf : k = flagOf (classes.getD j' []) x
        · rw [if_pos (by omega), if_pos hkf]
        · rw [if_neg (by omega), if_neg hkf]
          exact hz r hr _ (by omega) (by omega)

/-- **C206 (label binarizer).** Column `j` of the argument owns the flags after those of the columns before it. A known label sets its flag to `pos`, an unknown one sets the first flag to `neg`; every other flag is zero. This holds in any layout. -/
theorem C206_label_binarizer {M : Raw K} (h : Valid M) (pos neg : K) (classes : List (List K)) (hl : M.cols ≤ classes.length) (hne : ∀ cl ∈ classes, cl ≠ []) :
    ∃ out, binarize pos neg classes M = some out ∧ out.length = M.rows * (classes.map List.length).sum ∧
      ∀ r j x, M.cell r j = some x → ∀ k < (classes.getD j []).length,
        (x ∈ classes.getD j [] → out[r * (classes.map List.length).sum + (((classes.take j).map List.length).sum + k)]? = some (if k = (classes.getD j []).idxOf x then pos else 0)) ∧
        (x ∉ classes.getD j [] → out[r * (classes.map List.length).sum + (((classes.take j).map List.length).sum + k)]? = some (if k = 0 then neg else 0)) := by
  obtain ⟨out, e, hlen, -, h1⟩ := binarizeFrom_spec h pos neg classes hl hne M.cols 0 (List.replicate (M.rows * (classes.map List.length).sum) 0) (by omega) (by simp) (by
    intro r hr k _ hk
    rw [List.getElem?_replicate, if_pos]
    calc r * (classes.map List.length).sum + k < r * (classes.map List.length).sum + (classes.map List.length).sum := by omega
      _ = (r + 1) * (classes.map List.length).sum := by ring
      _ ≤ M.rows * (classes.map List.length).sum := Nat.mul_le_mul_right _ hr)
  refine ⟨out, e, hlen, ?_⟩
  intro r j x hx k hk
  have := h1 r j x (by omega) (by have := (cell_lt hx).2; omega) hx k hk
  refine ⟨fun hm => ?_, fun hm => ?_⟩
  · rw [this, if_pos hm, flagOf, if_pos hm]
  · rw [this, if_neg hm, flagOf, if_neg hm]

end Field

/-- Powers 1, x₀, x₀·x₁ on the first two columns of a matrix of three. -/
example : poly (K := ℚ) [[0, 0], [1, 0], [1, 1]] ⟨2, 2, 3, [2, 3, 100, 4, 5]⟩ = some [1, 2, 6, 1, 4, 20] := by decide +kernel

/-- A row with a refused code: NaN there, zero to its right. -/
example : decode (K := ℚ) (fun x => x.floor) [[10, 20], [30, 40], [50]] ⟨2, 3, 4, [1, 0, 0, 9, 0, 7, 0]⟩ = some [some 20, some 30, some 50, some 10, none, some 0] := by decide +kernel

/-- Two label columns of a matrix of three; 9 is unknown. -/
example : binarize (K := ℚ) 1 (-1) [[5, 6], [7, 8]] ⟨2, 2, 3, [6, 7, 100, 5, 9]⟩ = some [0, 1, 1, 0, 1, 0, -1, 0] := by decide +kernel

/-- The gap between the rows does not count. -/
example : maxAbs (K := ℚ) ⟨2, 2, 3, [2, -3, 100, -4, 1]⟩ [0, 5] = some [4, 5] := by decide +kernel

theorem foldlM_none {σ ι : Type} (f : σ → ι → Option σ) : ∀ (l : List ι) (s : σ), (∃ i ∈ l, ∀ s, f s i = none) → l.foldlM f s = none := by
  intro l
  induction l with
  | nil => rintro s ⟨i, hi, -⟩; cases hi
  | cons a l ih =>
    rintro s ⟨i, hi, h⟩
    rw [List.foldlM_cons]
    rcases List.mem_cons.1 hi with rfl | hi
    · rw [h]; rfl
    · cases e : f s a with
      | none => rfl
      | some t => exact ih t ⟨i, hi, h⟩

theorem inRow_none (f : ℕ → α → Option (β × Bool)) (pos : ℕ) (hf : ∀ i v w, f i v = some w → w.2 = false) : ∀ (vs : List α) (i c : ℕ) (out : List β), i ≤ c → c < i + vs.length → (∀ v, f c v = none) → inRow f pos vs i out = none := by
  intro vs
  induction vs with
  | nil => intro i c out h1 h2 _; simp at h2; omega
  | cons v vs ih =>
    intro i c out h1 h2 hc
    rw [List.length_cons] at h2
    rw [inRow]
    cases e : f i v with
    | none => rfl
    | some w =>
      have hic : i ≠ c := by rintro rfl; rw [hc v] at e; cases e
      rw [Option.bind_some]
      cases setAt out (pos + i) w.1 with
      | none => rfl
      | some out' =>
        rw [Option.bind_some, hf i v w e]
        exact ih (i + 1) c out' (by omega) (by omega) hc

variable {K : Type} [Field K] [LinearOrder K]

/-- **C206 (more columns than fitted).** An argument with more columns than were fitted makes `Imputer`, `LabelEncoder`, `LabelBinarizer` and `KernelCenterer` panic (for the scalers see `C206_unfitted`), and a later `MaxAbsScaler.PartialFit` too. -/
theorem C206_wider :
    (∀ {M : Raw (Option K)}, Valid M → ∀ missing : List (Option K), missing.length < M.cols → impute missing M = none) ∧
    ∀ {M : Raw K}, Valid M → (∀ classes : List (List K), classes.length < M.cols → encode classes M = none ∧ ∀ pos neg, binarize pos neg classes M = none) ∧
      (∀ (fitRows : List K) (fitAll : K), fitRows.length < M.cols → center fitRows fitAll M = none) ∧ ∀ ma : List K, ma.length < M.cols → maxAbs M ma = none := by
  refine ⟨fun {M} h missing hl => ?_, fun {M} h => ⟨fun classes hl => ⟨?_, fun pos neg => ?_⟩, fun fitRows fitAll hl => ?_, fun ma hl => ?_⟩⟩
  · refine none_of h (colLoop_wrote h _ _) hl (fun x => ?_)
    simp
  · have hw := rowLoop_wrote (β := K) h (fun i v => classes[i]?.map fun cl => (if cl.length ≤ search cl v then -1 else (search cl v : K))) 0
    simp only [Option.map_map] at hw
    exact none_of h hw hl (fun x => by simp)
  · have key : ∀ W n j base out, j ≤ classes.length → classes.length < j + n → binarizeFrom pos neg M W classes n j base out = none := by
      intro W n
      induction n with
      | zero => intro j base out h1 h2; omega
      | succ n ih =>
        intro j base out h1 h2
        rw [binarizeFrom]
        cases e : classes[j]? with
        | none => rfl
        | some cl =>
          have hj : j < classes.length := (List.getElem?_eq_some_iff.1 e).1
          rw [Option.bind_some]
          cases binarizeCol pos neg M W j base cl out with
          | none => rfl
          | some out' => exact ih (j + 1) _ out' (by omega) (by omega)
    exact key _ _ _ _ _ (Nat.zero_le _) (by omega)
  · refine foldlM_none _ _ _ ⟨0, List.mem_range.2 h.rows_pos, fun out => ?_⟩
    rw [cut_row h h.rows_pos, Option.bind_some]
    refine inRow_none _ _ ?_ _ 0 fitRows.length out (Nat.zero_le _) ?_ (fun v => by simp)
    · intro i v w e
      obtain ⟨f, _, rfl⟩ := Option.map_eq_some_iff.1 e
      rfl
    · rw [(row_get h h.rows_pos).1]; omega
  · rw [maxAbs, offsets_eq h, foldlM_map]
    have key : ∀ (vs : List K) (i : ℕ) (m : List K), i ≤ m.length → m.length < i + vs.length → (vs.zipIdx i).foldlM (fun ma p =>
        ma[p.2]?.map fun a => if a < (if p.1 < 0 then -p.1 else p.1) then ma.set p.2 (if p.1 < 0 then -p.1 else p.1) else ma) m = none := by
      intro vs
      induction vs with
      | nil => intro i m h1 h2; simp at h2; omega
      | cons v vs ih =>
        intro i m h1 h2
        rw [List.length_cons] at h2
        rw [List.zipIdx_cons, List.foldlM_cons]
        cases e : m[i]? with
        | none => simp
        | some a =>
          have hj : i < m.length := (List.getElem?_eq_some_iff.1 e).1
          simp only [Option.map_some]
          refine ih (i + 1) _ ?_ ?_
          · simp only [apply_ite List.length, List.length_set, ite_self]; omega
          · simp only [apply_ite List.length, List.length_set, ite_self]; omega
    have key2 : ∀ (l : List ℕ) (m : List K), l ≠ [] → m.length < M.cols → (∀ r ∈ l, r < M.rows) →
        l.foldlM (fun ma r => (cut M.data (r * M.stride) (r * M.stride + M.cols)).bind fun vs => vs.zipIdx.foldlM (fun ma p =>
          ma[p.2]?.map fun a => if a < (if p.1 < 0 then -p.1 else p.1) then ma.set p.2 (if p.1 < 0 then -p.1 else p.1) else ma) ma) m = none := by
      intro l m hne hm hr
      cases l with
      | nil => exact absurd rfl hne
      | cons r l =>
        rw [List.foldlM_cons, cut_row h (hr r List.mem_cons_self), Option.bind_some, key _ 0 m (Nat.zero_le _) (by rw [(row_get h (hr r List.mem_cons_self)).1]; omega)]
        rfl
    exact key2 _ _ (by intro e; have := congrArg List.length e; simp at this; have := h.rows_pos; omega) hl (fun r hr => List.mem_range.1 hr)

example : Valid (⟨2, 2, 3, [1, 2, 9, 3, 4]⟩ : Raw ℚ) ∧ ([[1]] : List (List ℚ)).length < 2 :=
  ⟨⟨by decide, by decide, by decide, by decide⟩, by decide⟩

/-- **C206 (fewer columns than fitted).** `PolynomialFeatures` on an argument with fewer columns than were fitted panics, since its last row ends with the data (as in every matrix made by gonum) — in the rows before it has read the cells beyond the view. -/
theorem C206_narrower {M : Raw K} (h : Valid M) (hend : M.data.length = (M.rows - 1) * M.stride + M.cols) (powers : List (List ℕ)) (hp : ∃ p ∈ powers, M.cols < p.length) : poly powers M = none := by
  obtain ⟨p, hp, hlong⟩ := hp
  refine foldlM_none _ _ _ ⟨M.rows - 1, List.mem_range.2 (by have := h.rows_pos; omega), fun out => ?_⟩
  obtain ⟨k, hk, hpk⟩ := List.getElem_of_mem hp
  refine foldlM_none _ _ _ ⟨(p, k), ?_, fun out => ?_⟩
  · rw [List.mem_zipIdx_iff_getElem?, List.getElem?_eq_getElem hk, hpk]
  · have : p.zipIdx.foldlM (fun v e => (M.data[(M.rows - 1) * M.stride + e.2]?).map fun x => v * x ^ e.1) (1 : K) = none := by
      refine foldlM_none _ _ _ ⟨(p[M.cols], M.cols), ?_, fun v => ?_⟩
      · rw [List.mem_zipIdx_iff_getElem?, List.getElem?_eq_getElem hlong]
      · rw [List.getElem?_eq_none (by simp only; omega)]
        rfl
    simp only [this, Option.bind_none]

example : ∃ p ∈ ([[1, 0, 2]] : List (List ℕ)), (⟨2, 2, 3, [1, 2, 9, 3, 4]⟩ : Raw ℚ).cols < p.length ∧ (⟨2, 2, 3, [1, 2, 9, 3, 4]⟩ : Raw ℚ).data.length = (2 - 1) * 3 + 2 := ⟨_, List.mem_cons_self, by decide, by decide⟩

end Sk.RawLoops
