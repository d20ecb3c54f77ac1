import Verif.Props.Interp1d
import Mathlib.Tactic.LinearCombination

/-!
# Bilinear interpolation: C107
-/
set_option autoImplicit false

namespace Sk.Interp

variable {K : Type} [Field K] [LinearOrder K] [IsStrictOrderedRing K]

/-! ## Statements -/

/-- Any result `sort.Sort` may leave: the same points, in lexicographic order of the two abscissae. -/
def ValidSort3 (srt3 : List (P3 K) → List (P3 K)) : Prop := ∀ l, (srt3 l).Perm l ∧ (srt3 l).Pairwise (fun a b => a.1 < b.1 ∨ (a.1 = b.1 ∧ a.2.1 ≤ b.2.1))

/-- The points with first abscissa `a`. -/
def group (pts : List (P3 K)) (a : K) : List (P3 K) := pts.filter (fun p => decide (p.1 = a))

/-- `v` is the value at `y` of the one-dimensional interpolation of the points with first abscissa `a`, as computed by `Interp1d`. -/
def SliceValue (srt : List (K × Option K) → List (K × Option K)) (pts : List (P3 K)) (a y v : K) : Prop :=
  ∃ f, interp1d srt ((group pts a).map (fun p => p.2.1)) ((group pts a).map (fun p => p.2.2)) = some f ∧ f y = some v

/-- No two points coincide, all values are known, and every first abscissa carries at least two points. -/
structure GoodGrid (pts : List (P3 K)) : Prop where
  distinct : pts.Pairwise (fun p q => ¬ (p.1 = q.1 ∧ p.2.1 = q.2.1))
  known : ∀ p ∈ pts, ∃ z, p.2.2 = some z
  two : ∀ p ∈ pts, 2 ≤ (group pts p.1).length

/-- Neighbouring first abscissae. -/
def Adjacent (pts : List (P3 K)) (a b : K) : Prop := (∃ p ∈ pts, p.1 = a) ∧ (∃ p ∈ pts, p.1 = b) ∧ a < b ∧ ∀ p ∈ pts, ¬ (a < p.1 ∧ p.1 < b)

/-! ## The scan -/

def xv (pts : List (P3 K)) (i : ℕ) : K := (xAt pts i).getD 0

theorem xAt_some {pts : List (P3 K)} {i : ℕ} (h : i < pts.length) : xAt pts i = some (xv pts i) := by
  unfold xv xAt
  rw [List.getElem?_eq_getElem h]
  rfl

theorem xv_eq {pts : List (P3 K)} {i : ℕ} (h : i < pts.length) : xv pts i = pts[i].1 := by
  unfold xv xAt
  rw [List.getElem?_eq_getElem h]
  rfl

def Mono (pts : List (P3 K)) : Prop := ∀ i j, i ≤ j → j < pts.length → xv pts i ≤ xv pts j

structure Inv (pts : List (P3 K)) (x : K) (k : ℕ) (s : ℕ × ℕ) : Prop where
  h0 : s.1 < pts.length
  h2 : s.2 < pts.length
  first : ∀ j < s.1, xv pts j < xv pts s.1
  below : s.1 = 0 ∨ xv pts s.1 ≤ x
  best : ∀ j < k, xv pts j ≤ x → xv pts j ≤ xv pts s.1
  above : s.2 = pts.length - 1 ∨ x ≤ xv pts s.2
  notmin : xv pts 0 < xv pts s.2
  least : ∀ j, pts.length - k ≤ j → j < pts.length → x ≤ xv pts j → xv pts s.1 < xv pts j → xv pts s.2 ≤ xv pts j

theorem inv_init {pts : List (P3 K)} (x : K) (hlt : xv pts 0 < xv pts (pts.length - 1)) (hne : 0 < pts.length) : Inv pts x 0 (0, pts.length - 1) where
  h0 := hne
  h2 := by simp only []; omega
  first := fun j hj => by simp at hj
  below := Or.inl rfl
  best := fun j hj => by omega
  above := Or.inl rfl
  notmin := hlt
  least := fun j h1 h2 => by omega

theorem inv_step {pts : List (P3 K)} (hm : Mono pts) (x : K) (k : ℕ) (hk : k < pts.length) (s : ℕ × ℕ) (hs : Inv pts x k s) : ∃ s', scanStep pts x s k = some s' ∧ Inv pts x (k + 1) s' := by
  obtain ⟨i0, i2⟩ := s
  obtain ⟨h0, h2, first, below, best, above, notmin, least⟩ := hs
  simp only [] at *
  have hr : pts.length - 1 - k < pts.length := by omega
  unfold scanStep
  simp only [xAt_some hk, xAt_some h0, xAt_some h2, xAt_some hr, Option.bind_eq_bind, Option.bind_some]
  -- the value just read is never above the current upper bound when it is at most `x`
  have hle2 : xv pts k ≤ x → xv pts k ≤ xv pts i2 := by
    intro h
    rcases above with h' | h'
    · rw [h']
      exact hm _ _ (by omega) (by omega)
    · exact le_trans h h'
  obtain ⟨n0, hn0⟩ : ∃ n0, n0 = if xv pts k > xv pts i0 ∧ xv pts k ≤ x ∧ xv pts k ≤ xv pts i2 then k else i0 := ⟨_, rfl⟩
  rw [← hn0]
  have g0 : n0 < pts.length := by rw [hn0]; split <;> omega
  have gmono : xv pts i0 ≤ xv pts n0 := by
    rw [hn0]
    split
    · rename_i h
      exact h.1.le
    · exact le_refl _
  have gfirst : ∀ j < n0, xv pts j < xv pts n0 := by
    rw [hn0]
    split
    · rename_i h
      intro j hj
      rcases le_or_gt (xv pts j) (xv pts i0) with h' | h'
      · exact lt_of_le_of_lt h' h.1
      · have hjx : xv pts j ≤ x := le_trans (hm j k (by omega) hk) h.2.1
        exact absurd (best j hj hjx) (not_le.mpr h')
    · exact first
  have gbelow : n0 = 0 ∨ xv pts n0 ≤ x := by
    rw [hn0]
    split
    · rename_i h
      exact Or.inr h.2.1
    · exact below
  have gbest : ∀ j < k + 1, xv pts j ≤ x → xv pts j ≤ xv pts n0 := by
    intro j hj hjx
    rcases Nat.lt_or_ge j k with h' | h'
    · exact le_trans (best j h' hjx) gmono
    · have : j = k := by omega
      subst this
      rw [hn0]
      split
      · exact le_refl _
      · rename_i h
        by_contra hc
        exact h ⟨not_le.mp hc, hjx, hle2 hjx⟩
  rw [xAt_some g0]
  refine ⟨_, rfl, ?_⟩
  refine ⟨g0, ?_, gfirst, gbelow, gbest, ?_, ?_, ?_⟩ <;> simp only []
  · split <;> omega
  · split
    · rename_i h
      exact Or.inr h.2.1
    · exact above
  · split
    · rename_i h
      exact lt_of_le_of_lt (hm 0 n0 (Nat.zero_le _) g0) h.2.2
    · exact notmin
  · intro j h1 h3 hx hgt
    have hgt' := lt_of_le_of_lt gmono hgt
    split
    · rename_i h
      rcases Nat.lt_or_ge j (pts.length - k) with h' | h'
      · have : j = pts.length - 1 - k := by omega
        rw [this]
      · exact le_trans h.1 (least j h' h3 hx hgt')
    · rename_i h
      rcases Nat.lt_or_ge j (pts.length - k) with h' | h'
      · have : j = pts.length - 1 - k := by omega
        rw [this] at hx hgt ⊢
        by_contra hc
        exact h ⟨(not_le.mp hc).le, hx, hgt⟩
      · exact least j h' h3 hx hgt'

theorem scan_spec {pts : List (P3 K)} (hm : Mono pts) (x : K) (hlt : xv pts 0 < xv pts (pts.length - 1)) (hne : 0 < pts.length) :
    ∃ s, (List.range pts.length).foldlM (scanStep pts x) (0, pts.length - 1) = some s ∧ Inv pts x pts.length s := by
  have key : ∀ k ≤ pts.length, ∃ s, (List.range k).foldlM (scanStep pts x) (0, pts.length - 1) = some s ∧ Inv pts x k s := by
    intro k
    induction k with
    | zero => exact fun _ => ⟨_, rfl, inv_init x hlt hne⟩
    | succ k ih =>
      intro hk
      obtain ⟨s, e, hs⟩ := ih (by omega)
      obtain ⟨s', e', hs'⟩ := inv_step hm x k (by omega) s hs
      refine ⟨s', ?_, hs'⟩
      rw [List.range_succ, List.foldlM_append, e]
      simp only [Option.bind_eq_bind, Option.bind_some, List.foldlM_cons, List.foldlM_nil, e']
      rfl
  exact key pts.length (le_refl _)

/-! ## The groups -/

theorem runEnd_spec (pts : List (P3 K)) (v : K) (fuel i : ℕ) (hi : i ≤ pts.length) (hf : pts.length - i ≤ fuel) :
    i ≤ runEnd pts v fuel i ∧ runEnd pts v fuel i ≤ pts.length ∧ (∀ j, i ≤ j → j < runEnd pts v fuel i → xv pts j = v) ∧ (runEnd pts v fuel i < pts.length → xv pts (runEnd pts v fuel i) ≠ v) := by
  induction fuel generalizing i with
  | zero =>
    unfold runEnd
    exact ⟨le_refl _, hi, fun j h1 h2 => by omega, fun h => by omega⟩
  | succ fuel ih =>
    unfold runEnd
    split
    · rename_i h
      have hlt : i < pts.length := by
        by_contra hc
        unfold xAt at h
        rw [List.getElem?_eq_none (by omega)] at h
        cases h
      obtain ⟨h1, h2, h3, h4⟩ := ih (i + 1) (by omega) (by omega)
      refine ⟨by omega, h2, fun j g1 g2 => ?_, h4⟩
      rcases Nat.lt_or_ge i j with h' | h'
      · exact h3 j h' g2
      · have : j = i := by omega
        subst this
        rw [xAt_some hlt] at h
        exact Option.some.inj h
    · rename_i h
      refine ⟨le_refl _, hi, fun j h1 h2 => by omega, fun hlt e => h ?_⟩
      rw [xAt_some hlt, e]

theorem runStart_spec (pts : List (P3 K)) (v : K) (i : ℕ) (hi : i < pts.length) (hv : xv pts i = v) :
    runStart pts v i ≤ i ∧ (∀ j, runStart pts v i ≤ j → j ≤ i → xv pts j = v) ∧ (1 < runStart pts v i → xv pts (runStart pts v i - 1) ≠ v) := by
  induction i with
  | zero =>
    unfold runStart
    exact ⟨le_refl _, fun j _ h => by rw [Nat.le_zero.mp h, hv], fun h => by omega⟩
  | succ i ih =>
    unfold runStart
    split
    · rename_i h
      have hv' : xv pts i = v := by
        rw [xAt_some (by omega)] at h
        exact Option.some.inj h.2
      obtain ⟨h1, h2, h3⟩ := ih (by omega) hv'
      refine ⟨by omega, fun j g1 g2 => ?_, h3⟩
      rcases Nat.lt_or_ge i j with h' | h'
      · have : j = i + 1 := by omega
        rw [this, hv]
      · exact h2 j g1 h'
    · rename_i h
      refine ⟨le_refl _, fun j g1 g2 => ?_, fun h1 e => h ⟨h1, ?_⟩⟩
      · have : j = i + 1 := by omega
        rw [this, hv]
      · rw [Nat.add_sub_cancel] at e
        rw [xAt_some (by omega), e]

theorem slice_filter {pts : List (P3 K)} {s e : ℕ} {v : K} (hse : s ≤ e) (he : e ≤ pts.length) (h1 : ∀ j < s, xv pts j ≠ v) (h2 : ∀ j, s ≤ j → j < e → xv pts j = v)
    (h3 : ∀ j, e ≤ j → j < pts.length → xv pts j ≠ v) : (pts.take e).drop s = group pts v := by
  have hsplit : pts = pts.take s ++ ((pts.take e).drop s ++ pts.drop e) := by
    have : pts.take s = (pts.take e).take s := by rw [List.take_take, Nat.min_eq_left hse]
    rw [this, ← List.append_assoc, List.take_append_drop, List.take_append_drop]
  unfold group
  conv_rhs => rw [hsplit]
  rw [List.filter_append, List.filter_append]
  have e1 : (pts.take s).filter (fun p => decide (p.1 = v)) = [] := by
    rw [List.filter_eq_nil_iff]
    intro p hp
    obtain ⟨i, hi, rfl⟩ := List.getElem_of_mem hp
    rw [List.length_take] at hi
    rw [List.getElem_take, decide_eq_true_eq, ← xv_eq (by omega)]
    exact h1 i (by omega)
  have e2 : ((pts.take e).drop s).filter (fun p => decide (p.1 = v)) = (pts.take e).drop s := by
    rw [List.filter_eq_self]
    intro p hp
    obtain ⟨i, hi, rfl⟩ := List.getElem_of_mem hp
    rw [List.length_drop, List.length_take] at hi
    rw [List.getElem_drop, List.getElem_take, decide_eq_true_eq, ← xv_eq (by omega)]
    exact h2 _ (by omega) (by omega)
  have e3 : (pts.drop e).filter (fun p => decide (p.1 = v)) = [] := by
    rw [List.filter_eq_nil_iff]
    intro p hp
    obtain ⟨i, hi, rfl⟩ := List.getElem_of_mem hp
    rw [List.length_drop] at hi
    rw [List.getElem_drop, decide_eq_true_eq, ← xv_eq (by omega)]
    exact h3 _ (by omega) (by omega)
  rw [e1, e2, e3]
  simp

theorem low_group {pts : List (P3 K)} (hm : Mono pts) {i : ℕ} (hi : i < pts.length) (hf : ∀ j < i, xv pts j < xv pts i) :
    (pts.take (runEnd pts (xv pts i) pts.length i)).drop i = group pts (xv pts i) := by
  obtain ⟨h1, h2, h3, h4⟩ := runEnd_spec pts (xv pts i) pts.length i (by omega) (by omega)
  refine slice_filter h1 h2 (fun j hj => (hf j hj).ne) h3 (fun j g1 g2 => ?_)
  have hlt : runEnd pts (xv pts i) pts.length i < pts.length := by omega
  have := lt_of_le_of_ne (hm _ _ h1 hlt) (Ne.symm (h4 hlt))
  exact (lt_of_lt_of_le this (hm _ _ g1 g2)).ne'

theorem high_group {pts : List (P3 K)} (hm : Mono pts) {i : ℕ} (hi : i < pts.length) (hn : xv pts 0 < xv pts i) :
    (pts.take (runEnd pts (xv pts i) pts.length i)).drop (runStart pts (xv pts i) i) = group pts (xv pts i) := by
  obtain ⟨h1, h2, h3, h4⟩ := runEnd_spec pts (xv pts i) pts.length i (by omega) (by omega)
  obtain ⟨s1, s2, s3⟩ := runStart_spec pts (xv pts i) i hi rfl
  refine slice_filter (by omega) h2 (fun j hj => ?_) (fun j g1 g2 => ?_) (fun j g1 g2 => ?_)
  · rcases Nat.lt_or_ge 1 (runStart pts (xv pts i) i) with h | h
    · have hlt : xv pts (runStart pts (xv pts i) i - 1) < xv pts i := lt_of_le_of_ne (hm _ _ (by omega) hi) (s3 h)
      exact (lt_of_le_of_lt (hm j _ (by omega) (by omega)) hlt).ne
    · have : j = 0 := by omega
      rw [this]
      exact hn.ne
  · rcases Nat.lt_or_ge i j with h | h
    · exact h3 j h.le g2
    · exact s2 j g1 h
  · have hlt : runEnd pts (xv pts i) pts.length i < pts.length := by omega
    have := lt_of_le_of_ne (hm _ _ h1 hlt) (Ne.symm (h4 hlt))
    exact (lt_of_lt_of_le this (hm _ _ g1 g2)).ne'

/-! ## Values of the slices -/

theorem two_points (srt : List (K × Option K) → List (K × Option K)) (a b u w x : K) (h : a ≤ b) : ∃ f, interp1d srt [a, b] [some u, some w] = some f ∧ f x = line (a, some u) (b, some w) x := by
  unfold interp1d
  rw [if_neg (by simp), if_pos (by simpa using h)]
  refine ⟨_, rfl, ?_⟩
  unfold evalAt
  have e : ∀ s : ℕ, (if s > 0 then 0 else s) = 0 := by
    intro s
    split <;> omega
  simp only [List.zip_cons_cons, List.zip_nil_right, List.length_cons, List.length_nil, Nat.zero_add, Nat.sub_self, Nat.reduceAdd, e]
  rfl

/-- C57, two points with the same abscissa: the mean of the two ordinates, everywhere. -/
theorem C57_duplicate (srt : List (K × Option K) → List (K × Option K)) (a u w x : K) : ∃ f, interp1d srt [a, a] [some u, some w] = some f ∧ f x = some ((u + w) / 2) := by
  obtain ⟨f, e, h⟩ := two_points srt a a u w x (le_refl _)
  refine ⟨f, e, ?_⟩
  rw [h]
  simp [line]

theorem group_mem {pts : List (P3 K)} {a : K} {p : P3 K} : p ∈ group pts a ↔ p ∈ pts ∧ p.1 = a := by
  unfold group
  rw [List.mem_filter, decide_eq_true_eq]

theorem group_zip (pts : List (P3 K)) (a : K) : ((group pts a).map (fun p => p.2.1)).zip ((group pts a).map (fun p => p.2.2)) = (group pts a).map (fun p => p.2) := by
  rw [List.zip_map']

theorem group_distinct {pts : List (P3 K)} (hg : GoodGrid pts) (a : K) : Distinct ((group pts a).map (fun p => p.2)) := by
  unfold Distinct
  rw [List.pairwise_map]
  have h := hg.distinct.filter (fun p => decide (p.1 = a))
  refine List.Pairwise.imp_of_mem (fun {p q} hp hq hpq => ?_) h
  have h1 := (List.mem_filter.mp hp).2
  have h2 := (List.mem_filter.mp hq).2
  rw [decide_eq_true_eq] at h1 h2
  exact fun e => hpq ⟨h1.trans h2.symm, e⟩

theorem ends_known {l : List (K × Option K)} (h : ∀ p ∈ l, ∃ z, p.2 = some z) : EndsKnown l := by
  intro p hp
  obtain ⟨z, hz⟩ := h p hp
  have : (p.1, some z) ∈ l := by
    rw [← hz]
    exact hp
  exact ⟨⟨p.1, z, this, le_refl _⟩, p.1, z, this, le_refl _⟩

/-- The one-dimensional interpolation of a slice has a value everywhere, on the line through two of its points. -/
theorem slice_eval {srt : List (K × Option K) → List (K × Option K)} (hsrt : ValidSort srt) {pts : List (P3 K)} (hg : GoodGrid pts) {a : K} (ha : ∃ p ∈ pts, p.1 = a) :
    ∃ f, interp1d srt ((group pts a).map (fun p => p.2.1)) ((group pts a).map (fun p => p.2.2)) = some f ∧
      ∀ y, ∃ b yb c yc, (a, b, some yb) ∈ pts ∧ (a, c, some yc) ∈ pts ∧ b < c ∧ f y = some (onLine b yb c yc y) := by
  have hd : Distinct (((group pts a).map (fun p => p.2.1)).zip ((group pts a).map (fun p => p.2.2))) := by
    rw [group_zip]
    exact group_distinct hg a
  obtain ⟨hperm, hsort⟩ := sorted_points hsrt _ _ (by simp) hd
  rw [group_zip] at hperm hsort
  have hlen : 2 ≤ (group pts a).length := by
    obtain ⟨p, hp, rfl⟩ := ha
    exact hg.two p hp
  unfold interp1d
  rw [if_neg (by simp; omega), group_zip]
  refine ⟨_, rfl, fun y => ?_⟩
  generalize (if ((group pts a).map (fun p => p.2.1)).Pairwise (· ≤ ·) then (group pts a).map (fun p => p.2) else srt ((group pts a).map (fun p => p.2))) = L at *
  have hk : ∀ p ∈ L, ∃ z, p.2 = some z := by
    intro p hp
    obtain ⟨q, hq, rfl⟩ := List.mem_map.mp (hperm.mem_iff.mp hp)
    exact hg.known q (group_mem.mp hq).1
  have hback : ∀ b z, (b, some z) ∈ L → (a, b, some z) ∈ pts := by
    intro b z h
    obtain ⟨q, hq, e⟩ := List.mem_map.mp (hperm.mem_iff.mp h)
    obtain ⟨h1, h2⟩ := group_mem.mp hq
    have : q = (a, b, some z) := Prod.ext h2 e
    rw [← this]
    exact h1
  obtain ⟨b, yb, c, yc, hnb, hv, _⟩ := evalAt_spec L hsort (by rw [hperm.length_eq, List.length_map]; exact hlen) (ends_known hk) y
  exact ⟨b, yb, c, yc, hback _ _ hnb.1, hback _ _ hnb.2.1, hnb.2.2.1, hv⟩

theorem slice_total {srt : List (K × Option K) → List (K × Option K)} (hsrt : ValidSort srt) {pts : List (P3 K)} (hg : GoodGrid pts) {a : K} (ha : ∃ p ∈ pts, p.1 = a) (y : K) : ∃ v, SliceValue srt pts a y v := by
  obtain ⟨f, e, h⟩ := slice_eval hsrt hg ha
  obtain ⟨b, yb, c, yc, _, _, _, h⟩ := h y
  exact ⟨_, f, e, h⟩

theorem slice_unique {srt : List (K × Option K) → List (K × Option K)} {pts : List (P3 K)} {a y u v : K} (hu : SliceValue srt pts a y u) (hv : SliceValue srt pts a y v) : u = v := by
  obtain ⟨f, e1, h1⟩ := hu
  obtain ⟨g, e2, h2⟩ := hv
  rw [e1] at e2
  cases e2
  rw [h1] at h2
  exact Option.some.inj h2

theorem slice_perm {srt : List (K × Option K) → List (K × Option K)} (hsrt : ValidSort srt) {pts pts' : List (P3 K)} (hg : GoodGrid pts) (hp : pts.Perm pts') {a y v : K} (h : SliceValue srt pts a y v) :
    SliceValue srt pts' a y v := by
  obtain ⟨f, e, h⟩ := h
  refine ⟨f, ?_, h⟩
  rw [← e]
  refine (C57_order hsrt hsrt _ _ _ _ (by simp) (by simp) ?_ ?_).symm
  · rw [group_zip]
    exact group_distinct hg a
  · rw [group_zip, group_zip]
    exact (hp.filter _).map _

theorem good_perm {pts pts' : List (P3 K)} (hg : GoodGrid pts) (hp : pts.Perm pts') : GoodGrid pts' where
  distinct := hp.pairwise hg.distinct (fun h e => h ⟨e.1.symm, e.2.symm⟩)
  known := fun p h => hg.known p (hp.mem_iff.mpr h)
  two := fun p h => by
    have := hg.two p (hp.mem_iff.mpr h)
    unfold group at this ⊢
    rwa [(hp.filter (fun q => decide (q.1 = p.1))).length_eq] at this

/-! ## The value -/

theorem xv_mem {pts : List (P3 K)} {i : ℕ} (h : i < pts.length) : ∃ p ∈ pts, p.1 = xv pts i := ⟨pts[i], List.getElem_mem h, (xv_eq h).symm⟩

theorem mem_xv {pts : List (P3 K)} {a : K} (h : ∃ p ∈ pts, p.1 = a) : ∃ i < pts.length, xv pts i = a := by
  obtain ⟨p, hp, rfl⟩ := h
  obtain ⟨i, hi, rfl⟩ := List.getElem_of_mem hp
  exact ⟨i, hi, xv_eq hi⟩

theorem mono_of_sorted {pts : List (P3 K)} (h : pts.Pairwise (fun a b => a.1 < b.1 ∨ (a.1 = b.1 ∧ a.2.1 ≤ b.2.1))) : Mono pts := by
  intro i j hij hj
  rcases hij.eq_or_lt with e | hlt
  · rw [e]
  · rw [xv_eq (by omega), xv_eq hj]
    rcases List.pairwise_iff_getElem.mp h i j (by omega) hj hlt with h' | h'
    · exact h'.le
    · exact h'.1.le

/-- The value on sorted points: the line between the slices at the two abscissae the scan stops at. -/
theorem value_spec {srt : List (K × Option K) → List (K × Option K)} (hsrt : ValidSort srt) {P : List (P3 K)} (hm : Mono P) (hg : GoodGrid P) (hne : 0 < P.length)
    (hlt : xv P 0 < xv P (P.length - 1)) (x y : K) :
    ∃ s u w, Inv P x P.length s ∧ xv P s.1 ≤ xv P s.2 ∧ SliceValue srt P (xv P s.1) y u ∧ SliceValue srt P (xv P s.2) y w ∧ interp2d srt P x y = some (line (xv P s.1, some u) (xv P s.2, some w) x) := by
  obtain ⟨s, e, hs⟩ := scan_spec hm x hlt hne
  have hle : xv P s.1 ≤ xv P s.2 := by
    rcases hs.above with h | h
    · rw [h]
      exact hm _ _ (by have := hs.h0; omega) (by omega)
    · rcases hs.below with h' | h'
      · rw [h']
        exact hs.notmin.le
      · exact le_trans h' h
  obtain ⟨f, ef, hf⟩ := slice_eval hsrt hg (xv_mem hs.h0)
  obtain ⟨g, eg, hgv⟩ := slice_eval hsrt hg (xv_mem hs.h2)
  obtain ⟨_, _, _, _, _, _, _, hu⟩ := hf y
  obtain ⟨_, _, _, _, _, _, _, hw⟩ := hgv y
  obtain ⟨h, eh, hh⟩ := two_points srt (xv P s.1) (xv P s.2) _ _ x hle
  refine ⟨s, _, _, hs, hle, ⟨f, ef, hu⟩, ⟨g, eg, hw⟩, ?_⟩
  unfold interp2d
  rw [if_neg (by intro h; rw [h] at hne; simp at hne), e]
  simp only [Option.bind_eq_bind, Option.bind_some, xAt_some hs.h0, xAt_some hs.h2, low_group hm hs.h0 hs.first, high_group hm hs.h2 hs.notmin, ef, eg, hu, hw]
  rw [eh, Option.bind_some, hh]

theorem line_same (a u x : K) : line (a, some u) (a, some u) x = some u := by
  unfold line
  simp

/-- At an abscissa of the data the value is that of its slice. -/
theorem value_at {srt : List (K × Option K) → List (K × Option K)} (hsrt : ValidSort srt) {P : List (P3 K)} (hm : Mono P) (hg : GoodGrid P) (hne : 0 < P.length)
    (hlt : xv P 0 < xv P (P.length - 1)) (a y v : K) (ha : ∃ p ∈ P, p.1 = a) (hv : SliceValue srt P a y v) : interp2d srt P a y = some (some v) := by
  obtain ⟨s, u, w, hs, hle, hu, hw, e⟩ := value_spec hsrt hm hg hne hlt a y
  obtain ⟨i, hi, hia⟩ := mem_xv ha
  have h0 : xv P s.1 = a := by
    refine le_antisymm ?_ ?_
    · rcases hs.below with h | h
      · rw [h, ← hia]
        exact hm _ _ (Nat.zero_le _) hi
      · exact h
    · rw [← hia]
      exact hs.best i hi hia.le
  rw [h0] at e hu hle
  have huv := slice_unique hu hv
  subst huv
  rw [e]
  rcases hle.eq_or_lt with h | h
  · rw [← h] at hw ⊢
    rw [slice_unique hw hu, line_same]
  · rw [line_eq _ _ _ _ _ h, onLine_left]

theorem minmax_lt {P : List (P3 K)} (hm : Mono P) {a b : K} (ha : ∃ p ∈ P, p.1 = a) (hb : ∃ p ∈ P, p.1 = b) (hab : a < b) : 0 < P.length ∧ xv P 0 < xv P (P.length - 1) := by
  obtain ⟨i, hi, rfl⟩ := mem_xv ha
  obtain ⟨j, hj, rfl⟩ := mem_xv hb
  exact ⟨by omega, lt_of_le_of_lt (hm 0 i (Nat.zero_le _) hi) (lt_of_lt_of_le hab (hm j _ (by omega) (by omega)))⟩

theorem value_between {srt : List (K × Option K) → List (K × Option K)} (hsrt : ValidSort srt) {P : List (P3 K)} (hm : Mono P) (hg : GoodGrid P) {a b x y u w : K} (hab : Adjacent P a b)
    (hx : (a ≤ x ∨ ∀ p ∈ P, a ≤ p.1) ∧ x ≤ b) (hu : SliceValue srt P a y u) (hw : SliceValue srt P b y w) : interp2d srt P x y = some (some (onLine a u b w x)) := by
  obtain ⟨ha, hb, hlt, hno⟩ := hab
  obtain ⟨hne, hmm⟩ := minmax_lt hm ha hb hlt
  have hno' : ∀ i < P.length, ¬ (a < xv P i ∧ xv P i < b) := fun i hi => by
    rw [xv_eq hi]
    exact hno _ (List.getElem_mem hi)
  rcases hx.2.eq_or_lt with h | hxb
  · subst h
    rw [value_at hsrt hm hg hne hmm x y w hb hw, onLine_right _ _ _ _ hlt]
  by_cases hxa : x = a
  · subst hxa
    rw [value_at hsrt hm hg hne hmm x y u ha hu, onLine_left]
  obtain ⟨s, u', w', hs, hle, hu', hw', e⟩ := value_spec hsrt hm hg hne hmm x y
  obtain ⟨i, hi, hia⟩ := mem_xv ha
  obtain ⟨j, hj, hjb⟩ := mem_xv hb
  have hmin : ¬ a ≤ x → xv P 0 = a := by
    intro h
    have := hx.1.resolve_left h
    refine le_antisymm ?_ ?_
    · rw [← hia]
      exact hm _ _ (Nat.zero_le _) hi
    · rw [xv_eq hne]
      exact this _ (List.getElem_mem hne)
  have h0 : xv P s.1 = a := by
    by_cases hax : a ≤ x
    · have h1 : a ≤ xv P s.1 := by
        rw [← hia]
        exact hs.best i hi (by rw [hia]; exact hax)
      refine le_antisymm ?_ h1
      rcases hs.below with h | h
      · rw [h, ← hia]
        exact hm _ _ (Nat.zero_le _) hi
      · by_contra hc
        exact hno' s.1 hs.h0 ⟨not_le.mp hc, lt_of_le_of_lt h hxb⟩
    · rcases hs.below with h | h
      · rw [h, hmin hax]
      · have := hm 0 s.1 (Nat.zero_le _) hs.h0
        rw [hmin hax] at this
        exact absurd (le_trans this h) hax
  have h2 : xv P s.2 = b := by
    have hle2 : xv P s.2 ≤ b := by
      rw [← hjb]
      exact hs.least j (by omega) hj (by rw [hjb]; exact hxb.le) (by rw [h0, hjb]; exact hlt)
    refine le_antisymm hle2 ?_
    by_contra hc
    have hc := not_le.mp hc
    have hle3 : xv P s.2 ≤ a := by
      by_contra h
      exact hno' s.2 hs.h2 ⟨not_le.mp h, hc⟩
    rcases hs.above with h | h
    · have := hm j s.2 (by rw [h]; omega) hs.h2
      rw [hjb] at this
      exact absurd this (not_le.mpr hc)
    · have hxa' : x < a := lt_of_le_of_ne (le_trans h hle3) hxa
      have := hs.notmin
      rw [hmin (not_le.mpr hxa')] at this
      exact absurd this (not_lt.mpr hle3)
  rw [h0] at hu' e
  rw [h2] at hw' e
  rw [e, slice_unique hu' hu, slice_unique hw' hw, line_eq _ _ _ _ _ hlt]

theorem value_above {srt : List (K × Option K) → List (K × Option K)} (hsrt : ValidSort srt) {P : List (P3 K)} (hm : Mono P) (hg : GoodGrid P) {a b x y w : K} (ha : ∃ p ∈ P, p.1 = a)
    (hb : ∃ p ∈ P, p.1 = b) (hab : a < b) (hmax : ∀ p ∈ P, p.1 ≤ b) (hx : b < x) (hw : SliceValue srt P b y w) : interp2d srt P x y = some (some w) := by
  obtain ⟨hne, hmm⟩ := minmax_lt hm ha hb hab
  obtain ⟨s, u', w', hs, hle, hu', hw', e⟩ := value_spec hsrt hm hg hne hmm x y
  obtain ⟨j, hj, hjb⟩ := mem_xv hb
  have h0 : xv P s.1 = b := by
    refine le_antisymm ?_ ?_
    · rw [xv_eq hs.h0]
      exact hmax _ (List.getElem_mem hs.h0)
    · rw [← hjb]
      exact hs.best j hj (by rw [hjb]; exact hx.le)
  have h2 : xv P s.2 = b := by
    refine le_antisymm ?_ (by rw [← h0]; exact hle)
    rw [xv_eq hs.h2]
    exact hmax _ (List.getElem_mem hs.h2)
  rw [h0] at hu' e
  rw [h2] at hw' e
  rw [e, slice_unique hu' hw, slice_unique hw' hw, line_same]

/-! ## C107 -/

/-- C107.  Between neighbouring first abscissae, and below the smallest, `Interp2d` returns the line between the one-dimensional interpolations of the two slices, whatever the order of the points. -/
theorem C107_bilinear_partial {srt3 : List (P3 K) → List (P3 K)} (hsrt3 : ValidSort3 srt3) {srt : List (K × Option K) → List (K × Option K)} (hsrt : ValidSort srt) (pts : List (P3 K)) (hg : GoodGrid pts) (a b x y : K)
    (hab : Adjacent pts a b) (hx : (a ≤ x ∨ ∀ p ∈ pts, a ≤ p.1) ∧ x ≤ b) :
    ∃ u w, SliceValue srt pts a y u ∧ SliceValue srt pts b y w ∧ interp2dOf srt3 srt pts x y = some (some (onLine a u b w x)) := by
  obtain ⟨hp, hs⟩ := hsrt3 pts
  obtain ⟨u, hu⟩ := slice_total hsrt hg hab.1 y
  obtain ⟨w, hw⟩ := slice_total hsrt hg hab.2.1 y
  refine ⟨u, w, hu, hw, ?_⟩
  obtain ⟨⟨p, hpp, ep⟩, ⟨q, hq, eq⟩, hlt, hno⟩ := hab
  refine value_between hsrt (mono_of_sorted hs) (good_perm hg hp.symm) ⟨⟨p, hp.mem_iff.mpr hpp, ep⟩, ⟨q, hp.mem_iff.mpr hq, eq⟩, hlt, fun r hr => hno r (hp.mem_iff.mp hr)⟩ ?_ (slice_perm hsrt hg hp.symm hu)
    (slice_perm hsrt hg hp.symm hw)
  exact ⟨hx.1.imp id (fun h r hr => h r (hp.mem_iff.mp hr)), hx.2⟩

/-- Every point is on the surface. -/
theorem C107_points {srt3 : List (P3 K) → List (P3 K)} (hsrt3 : ValidSort3 srt3) {srt : List (K × Option K) → List (K × Option K)} (hsrt : ValidSort srt) (pts : List (P3 K)) (hg : GoodGrid pts)
    (h2 : ∃ p ∈ pts, ∃ q ∈ pts, p.1 ≠ q.1) (a b z : K) (hm : (a, b, some z) ∈ pts) : interp2dOf srt3 srt pts a b = some (some z) := by
  obtain ⟨hp, hs⟩ := hsrt3 pts
  obtain ⟨p, hpp, q, hq, hpq⟩ := h2
  have hmo := mono_of_sorted hs
  have hmm : 0 < (srt3 pts).length ∧ xv (srt3 pts) 0 < xv (srt3 pts) ((srt3 pts).length - 1) := by
    rcases lt_or_gt_of_ne hpq with h | h
    · exact minmax_lt hmo ⟨p, hp.mem_iff.mpr hpp, rfl⟩ ⟨q, hp.mem_iff.mpr hq, rfl⟩ h
    · exact minmax_lt hmo ⟨q, hp.mem_iff.mpr hq, rfl⟩ ⟨p, hp.mem_iff.mpr hpp, rfl⟩ h
  refine value_at hsrt hmo (good_perm hg hp.symm) hmm.1 hmm.2 a b z ⟨_, hp.mem_iff.mpr hm, rfl⟩ (slice_perm hsrt hg hp.symm ?_)
  have hd : Distinct (((group pts a).map (fun p => p.2.1)).zip ((group pts a).map (fun p => p.2.2))) := by
    rw [group_zip]
    exact group_distinct hg a
  obtain ⟨f, e, h1, _⟩ := C57_interpolates hsrt ((group pts a).map (fun p => p.2.1)) ((group pts a).map (fun p => p.2.2)) (by simp) (by rw [List.length_map]; exact hg.two _ hm) hd (by
    rw [group_zip]
    refine ends_known (fun p hp => ?_)
    obtain ⟨q, hq, rfl⟩ := List.mem_map.mp hp
    exact hg.known q (group_mem.mp hq).1)
  refine ⟨f, e, h1 b z ?_⟩
  rw [group_zip]
  exact List.mem_map.mpr ⟨_, group_mem.mpr ⟨hm, rfl⟩, rfl⟩

/-- Data lying on a bilinear surface is reproduced exactly, for every `y` and every `x` up to the greatest abscissa.
Missing for the full claim: what `C107_above_violated`, `C107_one_abscissa_violated` refute. -/
theorem C107_reproduces_partial {srt3 : List (P3 K) → List (P3 K)} (hsrt3 : ValidSort3 srt3) {srt : List (K × Option K) → List (K × Option K)} (hsrt : ValidSort srt) (pts : List (P3 K)) (hg : GoodGrid pts)
    (c₀ c₁ c₂ c₃ : K) (hz : ∀ p ∈ pts, p.2.2 = some (c₀ + c₁ * p.1 + c₂ * p.2.1 + c₃ * p.1 * p.2.1)) (a b x y : K) (hab : Adjacent pts a b) (hx : (a ≤ x ∨ ∀ p ∈ pts, a ≤ p.1) ∧ x ≤ b) :
    interp2dOf srt3 srt pts x y = some (some (c₀ + c₁ * x + c₂ * y + c₃ * x * y)) := by
  have hslice : ∀ a v, (∃ p ∈ pts, p.1 = a) → SliceValue srt pts a y v → v = c₀ + c₁ * a + c₂ * y + c₃ * a * y := by
    intro a v ha hv
    obtain ⟨f, e, h⟩ := slice_eval hsrt hg ha
    obtain ⟨p, zp, q, zq, m1, m2, hlt, hf⟩ := h y
    have hv' := slice_unique hv ⟨f, e, hf⟩
    have e1 := Option.some.inj (hz _ m1)
    have e2 := Option.some.inj (hz _ m2)
    simp only [] at e1 e2
    rw [hv', e1, e2]
    unfold onLine
    have : q - p ≠ 0 := sub_ne_zero.mpr hlt.ne'
    field_simp
    ring
  obtain ⟨u, w, hu, hw, e⟩ := C107_bilinear_partial hsrt3 hsrt pts hg a b x y hab hx
  rw [e, hslice a u hab.1 hu, hslice b w hab.2.1 hw]
  unfold onLine
  have : b - a ≠ 0 := sub_ne_zero.mpr hab.2.2.1.ne'
  congr 2
  field_simp
  ring

/-- Above the greatest abscissa the last patch is not continued (as it is below the smallest): the value no longer depends on `x`. -/
theorem C107_above_violated {srt3 : List (P3 K) → List (P3 K)} (hsrt3 : ValidSort3 srt3) {srt : List (K × Option K) → List (K × Option K)} (hsrt : ValidSort srt) (pts : List (P3 K)) (hg : GoodGrid pts) (a b x y u w : K)
    (hab : Adjacent pts a b) (hmax : ∀ p ∈ pts, p.1 ≤ b) (hx : b < x) (hu : SliceValue srt pts a y u) (hw : SliceValue srt pts b y w) :
    interp2dOf srt3 srt pts x y = some (some w) ∧ (u ≠ w → w ≠ onLine a u b w x) := by
  obtain ⟨hp, hs⟩ := hsrt3 pts
  obtain ⟨⟨p, hpp, ep⟩, ⟨q, hq, eq⟩, hlt, hno⟩ := hab
  constructor
  · exact value_above hsrt (mono_of_sorted hs) (good_perm hg hp.symm) ⟨p, hp.mem_iff.mpr hpp, ep⟩ ⟨q, hp.mem_iff.mpr hq, eq⟩ hlt (fun r hr => hmax r (hp.mem_iff.mp hr)) hx (slice_perm hsrt hg hp.symm hw)
  · intro huw e
    unfold onLine at e
    have hba : b - a ≠ 0 := sub_ne_zero.mpr hlt.ne'
    have h1 : (x - b) * (w - u) = 0 := by
      field_simp at e
      linear_combination -e
    rcases mul_eq_zero.mp h1 with h | h
    · exact absurd (sub_eq_zero.mp h) hx.ne'
    · exact huw (sub_eq_zero.mp h).symm

/-- With all points at one abscissa the first point is left out of the second slice: two points, enough for `Interp1d`, panic. -/
theorem C107_one_abscissa_violated {srt3 : List (P3 K) → List (P3 K)} (hsrt3 : ValidSort3 srt3) (srt : List (K × Option K) → List (K × Option K)) (a y₁ y₂ : K) (z₁ z₂ : Option K) (x y : K) :
    interp2dOf srt3 srt [(a, y₁, z₁), (a, y₂, z₂)] x y = none := by
  obtain ⟨hp, _⟩ := hsrt3 [(a, y₁, z₁), (a, y₂, z₂)]
  unfold interp2dOf
  generalize srt3 [(a, y₁, z₁), (a, y₂, z₂)] = P at *
  have hl := hp.length_eq
  match P, hl with
  | [p, q], _ =>
    have h1 : p.1 = a := by
      have : p ∈ [(a, y₁, z₁), (a, y₂, z₂)] := hp.mem_iff.mp (by simp)
      rcases List.mem_pair.mp this with rfl | rfl <;> rfl
    have h2 : q.1 = a := by
      have : q ∈ [(a, y₁, z₁), (a, y₂, z₂)] := hp.mem_iff.mp (by simp)
      rcases List.mem_pair.mp this with rfl | rfl <;> rfl
    simp [interp2d, List.range_succ, scanStep, xAt, h1, h2, runEnd, runStart, interp1d]

/-- A concrete grid, unsorted: three abscissae with two points each. -/
def demo : List (P3 ℚ) := [(1, 5, some 7), (0, 0, some 1), (3, 1, some 2), (0, 2, some 3), (1, 1, some 4), (3, 0, some 8)]

example : GoodGrid demo ∧ Adjacent demo 1 3 ∧ (∀ p ∈ demo, p.1 ≤ 3) ∧ (∃ p ∈ demo, ∃ q ∈ demo, p.1 ≠ q.1) :=
  ⟨⟨by unfold demo; decide +kernel, by
    intro p hp
    simp only [demo, List.mem_cons, List.not_mem_nil, or_false] at hp
    rcases hp with rfl | rfl | rfl | rfl | rfl | rfl <;> exact ⟨_, rfl⟩, by unfold demo; decide +kernel⟩, by unfold Adjacent demo; decide +kernel, by unfold demo; decide +kernel, by unfold demo; decide +kernel⟩

example : interp2dOf (fun l => l.insertionSort (fun p q => p.1 < q.1 ∨ (p.1 = q.1 ∧ p.2.1 ≤ q.2.1))) (fun l => l.insertionSort (fun p q => p.1 ≤ q.1)) demo 2 3 = some (some (-9 / 4)) := by
  unfold demo
  decide +kernel

/-- Data on a bilinear surface. -/
example : ∀ p ∈ ([(0, 0, some 1), (0, 1, some 3), (2, 0, some 2), (2, 1, some 6)] : List (P3 ℚ)), p.2.2 = some (1 + 1 / 2 * p.1 + 2 * p.2.1 + 1 * p.1 * p.2.1) := by decide +kernel

end Sk.Interp
