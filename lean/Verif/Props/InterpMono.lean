import Verif.Props.InterpInv

/-!
# C245: Interp1d keeps the order and the slopes of its points, and exchanging the coordinates gives the inverse function
-/
set_option autoImplicit false

namespace Sk.Interp

section
variable {K : Type} [Field K] [LinearOrder K] [IsStrictOrderedRing K]

/-! ### Specification -/

/-- All slopes between known points are between `m` and `M`. -/
def SlopesIn (l : List (K × Option K)) (m M : K) : Prop :=
  ∀ a ya b yb, (a, some ya) ∈ l → (b, some yb) ∈ l → a < b → m * (b - a) ≤ yb - ya ∧ yb - ya ≤ M * (b - a)

/-- Known points further right are higher. -/
def Rising (l : List (K × Option K)) : Prop := ∀ a ya b yb, (a, some ya) ∈ l → (b, some yb) ∈ l → a < b → ya < yb

/-! ### Proofs -/

private theorem two_pieces {l : List (K × Option K)} (hd : Distinct l) {x x' a ya b yb a' ya' b' yb' : K} (hx : x < x') (h : Neighbours l a ya b yb) (h' : Neighbours l a' ya' b' yb')
    (h1 : a ≤ x ∨ ∀ p ∈ l, a ≤ p.1) (h2 : x ≤ b ∨ ∀ p ∈ l, p.1 ≤ b) (h1' : a' ≤ x' ∨ ∀ p ∈ l, a' ≤ p.1) (h2' : x' ≤ b' ∨ ∀ p ∈ l, p.1 ≤ b') :
    (a = a' ∧ ya = ya' ∧ b = b' ∧ yb = yb') ∨ (b ≤ a' ∧ x ≤ b ∧ a' ≤ x') := by
  obtain ⟨ma, mb, hab, hn⟩ := h
  obtain ⟨ma', mb', hab', hn'⟩ := h'
  by_cases c1 : b ≤ a'
  · refine Or.inr ⟨c1, h2.elim id (fun c => absurd (c _ mb') (not_le.2 (lt_of_le_of_lt c1 hab'))), h1'.elim id (fun c => absurd (c _ ma) (not_le.2 (lt_of_lt_of_le hab c1)))⟩
  · push Not at c1
    by_cases c2 : b' ≤ a
    · have e1 : x' ≤ b' := h2'.elim id (fun c => absurd (c _ mb) (not_le.2 (lt_of_le_of_lt c2 hab)))
      have e2 : a ≤ x := h1.elim id (fun c => absurd (c _ ma') (not_le.2 (lt_of_lt_of_le hab' c2)))
      exact absurd hx (not_lt.2 (e1.trans (c2.trans e2)))
    · push Not at c2
      have ea : a = a' := by
        rcases lt_trichotomy a a' with c | c | c
        · exact absurd ⟨c, c1⟩ (hn _ _ ma')
        · exact c
        · exact absurd ⟨c, c2⟩ (hn' _ _ ma)
      have eb : b = b' := by
        rcases lt_trichotomy b b' with c | c | c
        · exact absurd ⟨by rw [← ea]; exact hab, c⟩ (hn' _ _ mb)
        · exact c
        · exact absurd ⟨by rw [ea]; exact hab', c⟩ (hn _ _ mb')
      subst ea eb
      exact Or.inl ⟨rfl, Option.some.inj (distinct_unique hd ma ma'), rfl, Option.some.inj (distinct_unique hd mb mb')⟩

private theorem onLine_diff (a ya b yb x x' : K) : onLine a ya b yb x' - onLine a ya b yb x = (x' - x) * ((yb - ya) / (b - a)) := by
  unfold onLine
  ring

private theorem slope_bounds {a ya b yb m M : K} (hab : a < b) (h : m * (b - a) ≤ yb - ya ∧ yb - ya ≤ M * (b - a)) {x x' : K} (hx : x ≤ x') :
    m * (x' - x) ≤ onLine a ya b yb x' - onLine a ya b yb x ∧ onLine a ya b yb x' - onLine a ya b yb x ≤ M * (x' - x) := by
  have hb : 0 < b - a := sub_pos.2 hab
  rw [onLine_diff]
  have h1 : m ≤ (yb - ya) / (b - a) := (le_div_iff₀ hb).2 h.1
  have h2 : (yb - ya) / (b - a) ≤ M := (div_le_iff₀ hb).2 h.2
  constructor
  · rw [mul_comm m]
    exact mul_le_mul_of_nonneg_left h1 (sub_nonneg.2 hx)
  · rw [mul_comm M]
    exact mul_le_mul_of_nonneg_left h2 (sub_nonneg.2 hx)

/-- **C245, slopes.** If all slopes between known points are between `m` and `M`, so are all slopes of the function returned, extrapolation included: it does not fall when the
points do not (`m = 0`), and it moves by at most `L` times as much as its argument when the points do (`m = -L`, `M = L`). -/
theorem C245_slopes {srt : List (K × Option K) → List (K × Option K)} (hsrt : ValidSort srt) (l : List (K × Option K)) (hn : 2 ≤ l.length) (hd : Distinct l) (he : EndsKnown l)
    (m M : K) (hs : SlopesIn l m M) :
    ∃ f, interp1d srt (l.map Prod.fst) (l.map Prod.snd) = some f ∧
      ∀ x x', x < x' → ∃ v v', f x = some v ∧ f x' = some v' ∧ m * (x' - x) ≤ v' - v ∧ v' - v ≤ M * (x' - x) := by
  obtain ⟨f, hf, hp, -⟩ := interp_piece hsrt l hn hd he
  refine ⟨f, hf, fun x x' hx => ?_⟩
  obtain ⟨a, ya, b, yb, hnb, h1, h2, e⟩ := hp x
  obtain ⟨a', ya', b', yb', hnb', h1', h2', e'⟩ := hp x'
  refine ⟨_, _, e, e', ?_⟩
  have s := hs _ _ _ _ hnb.1 hnb.2.1 hnb.2.2.1
  have s' := hs _ _ _ _ hnb'.1 hnb'.2.1 hnb'.2.2.1
  rcases two_pieces hd hx hnb hnb' h1 h2 h1' h2' with ⟨rfl, rfl, rfl, rfl⟩ | ⟨c, c1, c2⟩
  · exact slope_bounds hnb.2.2.1 s hx.le
  · have p1 := slope_bounds hnb.2.2.1 s c1
    have p2 := slope_bounds hnb'.2.2.1 s' c2
    rw [onLine_right _ _ _ _ hnb.2.2.1] at p1
    rw [onLine_left] at p2
    have p3 : m * (a' - b) ≤ ya' - yb ∧ ya' - yb ≤ M * (a' - b) := by
      rcases c.eq_or_lt with c | c
      · subst c
        rw [Option.some.inj (distinct_unique hd hnb.2.1 hnb'.1)]
        simp
      · exact hs _ _ _ _ hnb.2.1 hnb'.1 c
    constructor
    · linear_combination p1.1 + p2.1 + p3.1
    · linear_combination p1.2 + p2.2 + p3.2

/-- **C245, order.** If the known points rise, so does the function returned, extrapolation included. -/
theorem C245_rising {srt : List (K × Option K) → List (K × Option K)} (hsrt : ValidSort srt) (l : List (K × Option K)) (hn : 2 ≤ l.length) (hd : Distinct l) (he : EndsKnown l) (hr : Rising l) :
    ∃ f, interp1d srt (l.map Prod.fst) (l.map Prod.snd) = some f ∧ ∀ x x', x < x' → ∃ v v', f x = some v ∧ f x' = some v' ∧ v < v' := by
  obtain ⟨f, hf, hp, -⟩ := interp_piece hsrt l hn hd he
  refine ⟨f, hf, fun x x' hx => ?_⟩
  obtain ⟨a, ya, b, yb, hnb, h1, h2, e⟩ := hp x
  obtain ⟨a', ya', b', yb', hnb', h1', h2', e'⟩ := hp x'
  refine ⟨_, _, e, e', ?_⟩
  have sl : ∀ {a ya b yb : K}, Neighbours l a ya b yb → 0 < (yb - ya) / (b - a) := fun h => div_pos (sub_pos.2 (hr _ _ _ _ h.1 h.2.1 h.2.2.1)) (sub_pos.2 h.2.2.1)
  rcases two_pieces hd hx hnb hnb' h1 h2 h1' h2' with ⟨rfl, rfl, rfl, rfl⟩ | ⟨c, c1, c2⟩
  · have := mul_pos (sub_pos.2 hx) (sl hnb)
    rw [← onLine_diff] at this
    exact sub_pos.1 this
  · have p1 := mul_nonneg (sub_nonneg.2 c1) (sl hnb).le
    have p2 := mul_nonneg (sub_nonneg.2 c2) (sl hnb').le
    rw [← onLine_diff, onLine_right _ _ _ _ hnb.2.2.1] at p1
    rw [← onLine_diff, onLine_left] at p2
    rcases c.eq_or_lt with c | c
    · subst c
      have ey := Option.some.inj (distinct_unique hd hnb.2.1 hnb'.1)
      rcases c1.eq_or_lt with d | d
      · have hx2 : b < x' := by rw [← d]; exact hx
        have p2' := mul_pos (sub_pos.2 hx2) (sl hnb')
        rw [← onLine_diff, onLine_left] at p2'
        linarith
      · have p1' := mul_pos (sub_pos.2 d) (sl hnb)
        rw [← onLine_diff, onLine_right _ _ _ _ hnb.2.2.1] at p1'
        linarith
    · have := hr _ _ _ _ hnb.2.1 hnb'.1 c
      linarith

private theorem onLine_back (a ya b yb x : K) (hab : a < b) (hy : ya < yb) : onLine ya a yb b (onLine a ya b yb x) = x := by
  have h1 : b - a ≠ 0 := (sub_pos.2 hab).ne'
  have h2 : yb - ya ≠ 0 := (sub_pos.2 hy).ne'
  unfold onLine
  field_simp
  ring

/-- **C245, inverse.** For points that rise, interpolating with the coordinates exchanged gives the inverse function, on the whole line. -/
theorem C245_inverse {srt srt' : List (K × Option K) → List (K × Option K)} (hsrt : ValidSort srt) (hsrt' : ValidSort srt') (l : List (K × K)) (hn : 2 ≤ l.length)
    (hd : l.Pairwise (fun p q => p.1 ≠ q.1)) (hr : ∀ p ∈ l, ∀ q ∈ l, p.1 < q.1 → p.2 < q.2) :
    ∃ f g, interp1d srt (l.map Prod.fst) (l.map (fun p => some p.2)) = some f ∧ interp1d srt' (l.map Prod.snd) (l.map (fun p => some p.1)) = some g ∧
      (∀ x, ∃ v, f x = some v ∧ g v = some x) ∧ ∀ y, ∃ u, g y = some u ∧ f u = some y := by
  have hr' : ∀ p ∈ l, ∀ q ∈ l, p.2 < q.2 → p.1 < q.1 := by
    intro p hp q hq h
    rcases lt_trichotomy p.1 q.1 with c | c | c
    · exact c
    · obtain ⟨i, hi, e1⟩ := List.getElem_of_mem hp
      obtain ⟨j, hj, e2⟩ := List.getElem_of_mem hq
      rcases Nat.lt_trichotomy i j with k | k | k
      · exact absurd c (by rw [← e1, ← e2]; exact List.pairwise_iff_getElem.1 hd i j hi hj k)
      · subst k
        rw [← e1, ← e2] at h
        exact absurd h (lt_irrefl _)
      · exact absurd c.symm (by rw [← e1, ← e2]; exact List.pairwise_iff_getElem.1 hd j i hj hi k)
    · exact absurd (hr q hq p hp c) (not_lt.2 h.le)
  have key : ∀ (s s' : List (K × Option K) → List (K × Option K)), ValidSort s → ValidSort s' → ∀ k : List (K × K), 2 ≤ k.length → k.Pairwise (fun p q => p.1 ≠ q.1) → k.Pairwise (fun p q => p.2 ≠ q.2) →
      (∀ p ∈ k, ∀ q ∈ k, p.1 < q.1 → p.2 < q.2) → (∀ p ∈ k, ∀ q ∈ k, p.2 < q.2 → p.1 < q.1) →
      ∃ f g, interp1d s (k.map Prod.fst) (k.map (fun p => some p.2)) = some f ∧ interp1d s' (k.map Prod.snd) (k.map (fun p => some p.1)) = some g ∧ ∀ x, ∃ v, f x = some v ∧ g v = some x := by
    intro s s' hs hs' k hk hd1 hd2 m1 m2
    obtain ⟨f, hf, hp, -⟩ := interp_piece hs (k.map (fun p => (p.1, some p.2))) (by simpa using hk) (by unfold Distinct; rw [List.pairwise_map]; exact hd1) (by
      intro p hp
      obtain ⟨q, hq, rfl⟩ := List.mem_map.1 hp
      exact ⟨⟨q.1, q.2, hp, le_rfl⟩, q.1, q.2, hp, le_rfl⟩)
    obtain ⟨g, hg, -, hq⟩ := interp_piece hs' (k.map (fun p => (p.2, some p.1))) (by simpa using hk) (by unfold Distinct; rw [List.pairwise_map]; exact hd2) (by
      intro p hp
      obtain ⟨q, hq, rfl⟩ := List.mem_map.1 hp
      exact ⟨⟨q.2, q.1, hp, le_rfl⟩, q.2, q.1, hp, le_rfl⟩)
    rw [List.map_map, List.map_map] at hf hg
    refine ⟨f, g, hf, hg, fun x => ?_⟩
    obtain ⟨a, ya, b, yb, ⟨ma, mb, hab, hnb⟩, h1, h2, e⟩ := hp x
    refine ⟨_, e, ?_⟩
    have mem : ∀ {a ya : K}, (a, some ya) ∈ k.map (fun p => (p.1, some p.2)) → (a, ya) ∈ k := by
      intro a ya h
      obtain ⟨q, hq, e⟩ := List.mem_map.1 h
      obtain ⟨rfl, e2⟩ := Prod.mk.inj e
      obtain rfl := Option.some.inj e2
      exact hq
    have mem' : ∀ {y c : K}, (y, some c) ∈ k.map (fun p => (p.2, some p.1)) → (c, y) ∈ k := by
      intro y c h
      obtain ⟨q, hq, e⟩ := List.mem_map.1 h
      obtain ⟨rfl, e2⟩ := Prod.mk.inj e
      obtain rfl := Option.some.inj e2
      exact hq
    have hy : ya < yb := m1 _ (mem ma) _ (mem mb) hab
    have mle : ∀ p ∈ k, ∀ q ∈ k, p.1 ≤ q.1 → p.2 ≤ q.2 := fun p hp q hq h => not_lt.1 (fun c => absurd (m2 q hq p hp c) (not_lt.2 h))
    have sl : 0 < (yb - ya) / (b - a) := div_pos (sub_pos.2 hy) (sub_pos.2 hab)
    have res := hq (onLine a ya b yb x) ya a yb b ⟨List.mem_map.2 ⟨_, mem ma, rfl⟩, List.mem_map.2 ⟨_, mem mb, rfl⟩, hy, fun y c hc hcy =>
        hnb c y (List.mem_map.2 ⟨_, mem' hc, rfl⟩) ⟨m2 _ (mem ma) _ (mem' hc) hcy.1, m2 _ (mem' hc) _ (mem mb) hcy.2⟩⟩
      (h1.elim (fun h => Or.inl (by
        have := mul_nonneg (sub_nonneg.2 h) sl.le
        rw [← onLine_diff, onLine_left] at this
        exact sub_nonneg.1 this)) (fun h => Or.inr (fun p hp => by
        obtain ⟨q, hqk, rfl⟩ := List.mem_map.1 hp
        exact mle _ (mem ma) q hqk (h _ (List.mem_map.2 ⟨q, hqk, rfl⟩)))))
      (h2.elim (fun h => Or.inl (by
        have := mul_nonneg (sub_nonneg.2 h) sl.le
        rw [← onLine_diff, onLine_right _ _ _ _ hab] at this
        exact sub_nonneg.1 this)) (fun h => Or.inr (fun p hp => by
        obtain ⟨q, hqk, rfl⟩ := List.mem_map.1 hp
        exact mle q hqk _ (mem mb) (h _ (List.mem_map.2 ⟨q, hqk, rfl⟩)))))
    rw [res, onLine_back a ya b yb x hab hy]
  have hd2 : l.Pairwise (fun p q => p.2 ≠ q.2) := by
    rw [List.pairwise_iff_getElem] at hd ⊢
    intro i j hi hj hij e
    rcases lt_or_gt_of_ne (hd i j hi hj hij) with c | c
    · exact absurd e (hr _ (List.getElem_mem hi) _ (List.getElem_mem hj) c).ne
    · exact absurd e (hr _ (List.getElem_mem hj) _ (List.getElem_mem hi) c).ne'
  obtain ⟨f, g, hf, hg, h1⟩ := key srt srt' hsrt hsrt' l hn hd hd2 hr hr'
  obtain ⟨g', f', hg', hf', h2⟩ := key srt' srt hsrt' hsrt (l.map Prod.swap) (by simpa using hn) (by rw [List.pairwise_map]; exact hd2) (by rw [List.pairwise_map]; exact hd)
    (by
      intro p hp q hq
      obtain ⟨p, hp', rfl⟩ := List.mem_map.1 hp
      obtain ⟨q, hq', rfl⟩ := List.mem_map.1 hq
      exact hr' p hp' q hq')
    (by
      intro p hp q hq
      obtain ⟨p, hp', rfl⟩ := List.mem_map.1 hp
      obtain ⟨q, hq', rfl⟩ := List.mem_map.1 hq
      exact hr p hp' q hq')
  rw [List.map_map, List.map_map] at hg' hf'
  have eg : g' = g := Option.some.inj (hg'.symm.trans hg)
  have ef : f' = f := Option.some.inj (hf'.symm.trans hf)
  subst eg ef
  exact ⟨f', g', hf, hg, h1, h2⟩
end

/-- Rising points in another order: at 3/2 the function is 7/2, the exchanged one takes 7/2 back to 3/2. -/
example : (interp1d (K := ℚ) (fun _ => [(0, some 0), (1, some 1), (2, some 6)]) [0, 2, 1] [some 0, some 6, some 1]).bind (fun f => f (3 / 2)) = some (7 / 2) ∧
    (interp1d (K := ℚ) (fun _ => [(0, some 0), (1, some 1), (6, some 2)]) [0, 6, 1] [some 0, some 2, some 1]).bind (fun f => f (7 / 2)) = some (3 / 2) := by decide +kernel

/-- The hypotheses of the theorems for these points. -/
example : Rising (K := ℚ) [(0, some 0), (2, some 6), (1, some 1)] ∧ SlopesIn (K := ℚ) [(0, some 0), (2, some 6), (1, some 1)] 1 5 ∧ ([(0, 0), (2, 6), (1, 1)] : List (ℚ × ℚ)).Pairwise (fun p q => p.1 ≠ q.1) ∧
    ∀ p ∈ ([(0, 0), (2, 6), (1, 1)] : List (ℚ × ℚ)), ∀ q ∈ ([(0, 0), (2, 6), (1, 1)] : List (ℚ × ℚ)), p.1 < q.1 → p.2 < q.2 := by
  refine ⟨?_, ?_, by decide +kernel, by decide +kernel⟩
  · intro a ya b yb h1 h2 h
    simp only [List.mem_cons, Prod.mk.injEq, Option.some.injEq, List.not_mem_nil, or_false] at h1 h2
    rcases h1 with ⟨rfl, rfl⟩ | ⟨rfl, rfl⟩ | ⟨rfl, rfl⟩ <;> rcases h2 with ⟨rfl, rfl⟩ | ⟨rfl, rfl⟩ | ⟨rfl, rfl⟩ <;> norm_num at *
  · intro a ya b yb h1 h2 h
    simp only [List.mem_cons, Prod.mk.injEq, Option.some.injEq, List.not_mem_nil, or_false] at h1 h2
    rcases h1 with ⟨rfl, rfl⟩ | ⟨rfl, rfl⟩ | ⟨rfl, rfl⟩ <;> rcases h2 with ⟨rfl, rfl⟩ | ⟨rfl, rfl⟩ | ⟨rfl, rfl⟩ <;> norm_num at *

end Sk.Interp
