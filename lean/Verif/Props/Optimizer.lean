import Verif.Model.Optimizer
import Mathlib.Tactic.Linarith
import Mathlib.Tactic.Ring
import Mathlib.Tactic.FieldSimp
import Mathlib.Tactic.NormNum
import Mathlib.Tactic.Positivity
import Mathlib.Algebra.BigOperators.Field
import Mathlib.Algebra.Order.BigOperators.Group.Finset

/-!
# Properties of `SGDOptimizer`: C60, C108, C109, C110
-/
set_option autoImplicit false

namespace Sk.Opt

variable {n q : ℕ}

/-! ## C60: clipping -/

/-- Euclidean length of a column. -/
noncomputable def len (G : Mat n q) (o : Fin q) : ℝ := Real.sqrt (∑ j, G j o ^ 2)

theorem colNorm_len (G : Mat n q) (o : Fin q) : colNorm G o = len G o := by
  unfold colNorm len
  congr 1
  exact Finset.sum_congr rfl (fun j _ => (sq (G j o)).symm)

theorem len_nonneg (G : Mat n q) (o : Fin q) : 0 ≤ len G o := Real.sqrt_nonneg _

theorem len_scale (G : Mat n q) (o : Fin q) (k : ℝ) (hk : 0 ≤ k) (H : Mat n q) (h : ∀ j, H j o = k * G j o) : len H o = k * len G o := by
  unfold len
  have : ∑ j, H j o ^ 2 = k ^ 2 * ∑ j, G j o ^ 2 := by
    rw [Finset.mul_sum]
    exact Finset.sum_congr rfl (fun j _ => by rw [h j]; ring)
  rw [this, Real.sqrt_mul (sq_nonneg k), Real.sqrt_sq hk]

theorem clipped_off (c : Cfg) (hc : c.clip ≤ 0) (G : Mat n q) : clipped c G = G := by
  funext j o
  unfold clipped
  rw [if_neg (fun h => absurd h.1 (not_lt.mpr hc))]

theorem init_clip (c : Cfg) (k : ℝ) (s : St n q) : init { c with clip := k } s = init c s := rfl

theorem raw_clip (c : Cfg) (s : St n q) (G : Mat n q) : raw c s G = raw { c with clip := 0 } s (clipped c G) := by
  have h : clipped { c with clip := 0 } (clipped c G) = clipped c G := clipped_off _ (le_refl _) _
  unfold raw
  simp only [h]

/-- C60.  With `GradientClipping = c > 0`, every variant does with `G` what it does without clipping with `H`, where each column of `H` is a non-negative multiple of that of `G`, has length the smaller of
`c` and the length of `G`'s column, and is `G`'s column itself when that is at most `c` long. -/
theorem C60_clipping (c : Cfg) (hc : 0 < c.clip) (s : St n q) (G : Mat n q) :
    ∃ H : Mat n q, getUpdate c s G = getUpdate { c with clip := 0 } s H ∧ ∀ o, (∃ k, 0 ≤ k ∧ k ≤ 1 ∧ ∀ j, H j o = k * G j o) ∧ len H o = min c.clip (len G o) ∧ len H o ≤ c.clip ∧ (len G o ≤ c.clip → ∀ j, H j o = G j o) := by
  refine ⟨clipped c G, ?_, fun o => ?_⟩
  · unfold getUpdate
    simp only [init_clip c 0 s]
    rw [raw_clip c]
  · rcases lt_or_ge c.clip (len G o) with h | h
    · have hpos : 0 < len G o := lt_trans hc h
      have e : ∀ j, clipped c G j o = c.clip / len G o * G j o := by
        intro j
        unfold clipped
        rw [colNorm_len, if_pos ⟨hc, h⟩, mul_comm]
      have hl := len_scale G o (c.clip / len G o) (div_nonneg hc.le hpos.le) (clipped c G) e
      rw [div_mul_cancel₀ _ hpos.ne'] at hl
      exact ⟨⟨_, div_nonneg hc.le hpos.le, (div_le_one hpos).mpr h.le, e⟩, by rw [hl, min_eq_left h.le], hl.le, fun h' => absurd h (not_lt.mpr h')⟩
    · have e : ∀ j, clipped c G j o = G j o := by
        intro j
        unfold clipped
        rw [colNorm_len, if_neg (fun h' => absurd h'.2 (not_lt.mpr h))]
      have hl : len (clipped c G) o = len G o := by
        have := len_scale G o 1 zero_le_one (clipped c G) (fun j => by rw [e j, one_mul])
        rw [this, one_mul]
      exact ⟨⟨1, zero_le_one, le_refl _, fun j => by rw [e j, one_mul]⟩, by rw [hl, min_eq_right h], by rw [hl]; exact h, fun _ => e⟩

/-- A column of length 5 clipped to 1. -/
example : len (fun (j : Fin 2) (_ : Fin 1) => if j = 0 then (3 : ℝ) else 4) 0 = 5 := by
  unfold len
  rw [Fin.sum_univ_two, show ((if (0 : Fin 2) = 0 then (3 : ℝ) else 4) ^ 2 + (if (1 : Fin 2) = 0 then (3 : ℝ) else 4) ^ 2) = 5 ^ 2 by norm_num]
  exact Real.sqrt_sq (by norm_num)

/-! ## C108: sequences of updates -/

theorem after_snoc (c : Cfg) (s : St n q) (gs : List (Mat n q)) (G : Mat n q) : after c s (gs ++ [G]) = (getUpdate c (after c s gs) G).2 := by
  unfold after
  rw [List.foldl_append]
  rfl

theorem raw_t (c : Cfg) (s : St n q) (G : Mat n q) : (raw c s G).2.t = s.t + 1 := by
  unfold raw
  cases c.kind <;> rfl

theorem init_t (c : Cfg) (s : St n q) : (init c s).t = s.t := by
  unfold init
  split <;> rfl

theorem getUpdate_t (c : Cfg) (s : St n q) (G : Mat n q) : (getUpdate c s G).2.t = s.t + 1 := by
  unfold getUpdate
  simp only [raw_t, init_t]

theorem after_t (c : Cfg) (gs : List (Mat n q)) : (after c (fresh : St n q) gs).t = gs.length := by
  induction gs using List.reverseRecOn with
  | nil => rfl
  | append_singleton gs G ih => rw [after_snoc, getUpdate_t, ih, List.length_append, List.length_singleton]

theorem init_after (c : Cfg) (gs : List (Mat n q)) (h : gs ≠ []) : init c (after c (fresh : St n q) gs) = after c fresh gs := by
  unfold init
  rw [if_neg]
  rw [after_t]
  exact fun e => h (List.length_eq_zero_iff.mp e)

/-- `GetUpdate` without momentum. -/
theorem getUpdate_plain (c : Cfg) (hm : c.momentum ≤ 0) (s : St n q) (G : Mat n q) : (getUpdate c s G).1 = (raw c (init c s) G).1 := by
  unfold getUpdate
  simp only []
  rw [if_neg (not_lt.mpr hm)]

/-- Two states that agree except for the last update. -/
def SameBut (s s' : St n q) : Prop := s.t = s'.t ∧ s.g = s'.g ∧ s.u = s'.u ∧ s.m = s'.m ∧ s.v = s'.v

theorem raw_same (c : Cfg) (μ : ℝ) {s s' : St n q} (h : SameBut s s') (G : Mat n q) : (raw c s G).1 = (raw { c with momentum := μ } s' G).1 ∧ SameBut (raw c s G).2 (raw { c with momentum := μ } s' G).2 := by
  obtain ⟨h1, h2, h3, h4, h5⟩ := h
  obtain ⟨t, p, g, u, m, v⟩ := s
  obtain ⟨t', p', g', u', m', v'⟩ := s'
  simp only [] at h1 h2 h3 h4 h5
  subst h1 h2 h3 h4 h5
  unfold raw
  have hc : clipped { c with momentum := μ } G = clipped c G := rfl
  simp only [hc]
  cases c.kind <;> exact ⟨rfl, rfl, rfl, rfl, rfl, rfl⟩

theorem init_same (c : Cfg) (μ : ℝ) {s s' : St n q} (h : SameBut s s') : SameBut (init c s) (init { c with momentum := μ } s') := by
  obtain ⟨h1, h2, h3, h4, h5⟩ := h
  unfold init
  rw [← h1]
  split
  · exact ⟨rfl, rfl, rfl, rfl, rfl⟩
  · exact ⟨h1, h2, h3, h4, h5⟩

theorem after_same (c : Cfg) (μ : ℝ) (gs : List (Mat n q)) : SameBut (after c (fresh : St n q) gs) (after { c with momentum := μ } fresh gs) := by
  induction gs using List.reverseRecOn with
  | nil => exact ⟨rfl, rfl, rfl, rfl, rfl⟩
  | append_singleton gs G ih =>
    rw [after_snoc, after_snoc]
    obtain ⟨_, h1, h2, h3, h4, h5⟩ := raw_same c μ (init_same c μ ih) G
    exact ⟨h1, h2, h3, h4, h5⟩

/-- The update a new optimiser returns for gradient `G` after it has been given the gradients `gs`. -/
noncomputable def step (c : Cfg) (gs : List (Mat n q)) (G : Mat n q) : Mat n q := (getUpdate c (after c fresh gs) G).1

theorem after_prev (c : Cfg) (gs : List (Mat n q)) (G : Mat n q) : (after c (fresh : St n q) (gs ++ [G])).prev = step c gs G := by
  rw [after_snoc]
  rfl

/-- C108.  Momentum: in every variant the update is the sum of the updates the variant would have made without momentum, each discounted by the momentum once for every later step. -/
theorem C108_momentum (c : Cfg) (hm : 0 < c.momentum) (gs : List (Mat n q)) (G : Mat n q) (j : Fin n) (o : Fin q) :
    step c gs G j o = ∑ i ∈ Finset.range (gs.length + 1), c.momentum ^ (gs.length - i) * step { c with momentum := 0 } (gs.take i) ((gs ++ [G]).getD i G) j o := by
  have hraw : ∀ (gs : List (Mat n q)) (G : Mat n q), step { c with momentum := 0 } gs G = (raw c (init c (after c fresh gs)) G).1 := by
    intro gs G
    unfold step
    rw [getUpdate_plain _ (le_refl _)]
    exact (raw_same c 0 (init_same c 0 (after_same c 0 gs)) G).1.symm
  induction gs using List.reverseRecOn generalizing G with
  | nil =>
    simp only [List.length_nil, Nat.zero_add, Finset.sum_range_one, Nat.sub_self, pow_zero, one_mul, List.take_nil, List.nil_append, List.getD_cons_zero]
    rw [hraw]
    unfold step getUpdate
    simp only [if_pos hm]
    have : (init c (fresh : St n q)).prev j o = 0 := rfl
    change c.momentum * (init c (fresh : St n q)).prev j o + _ = _
    rw [this]
    simp only [mul_zero, zero_add]
  | append_singleton gs A ih =>
    rw [Finset.sum_range_succ]
    have hlen : (gs ++ [A]).length = gs.length + 1 := by rw [List.length_append, List.length_singleton]
    have e1 : step c (gs ++ [A]) G j o = c.momentum * step c gs A j o + step { c with momentum := 0 } (gs ++ [A]) G j o := by
      rw [hraw]
      have hne : gs ++ [A] ≠ [] := by simp
      conv_lhs => unfold step getUpdate
      simp only [if_pos hm, init_after c _ hne]
      rw [after_prev]
    rw [e1, ih A, hlen, Finset.mul_sum]
    congr 1
    · refine Finset.sum_congr rfl (fun i hi => ?_)
      have hi' : i < gs.length + 1 := Finset.mem_range.mp hi
      have h1 : (gs ++ [A]).take i = gs.take i := by rw [List.take_append_of_le_length (by omega)]
      have h2 : (gs ++ [A] ++ [G]).getD i G = (gs ++ [A]).getD i A := by
        rw [List.getD_eq_getElem?_getD, List.getD_eq_getElem?_getD, List.getElem?_append_left (by rw [hlen]; exact hi'), List.getElem?_eq_getElem (by rw [hlen]; exact hi')]
        rfl
      rw [h1, h2, ← mul_assoc, ← pow_succ']
      congr 2
      omega
    · have h1 : (gs ++ [A]).take (gs.length + 1) = gs ++ [A] := by rw [List.take_of_length_le (by omega)]
      have h2 : (gs ++ [A] ++ [G]).getD (gs.length + 1) G = G := by
        rw [List.getD_eq_getElem?_getD, List.getElem?_append_right (by omega), hlen, Nat.sub_self]
        rfl
      rw [h1, h2, Nat.sub_self, pow_zero, one_mul]

/-- Plain gradient descent: without momentum and clipping the `t`-th update is the gradient times `-StepSize·100/((100+t)√t)`. -/
theorem C108_sgd (c : Cfg) (hk : c.kind = .sgd) (hm : c.momentum ≤ 0) (hc : c.clip ≤ 0) (gs : List (Mat n q)) (G : Mat n q) (j : Fin n) (o : Fin q) :
    step c gs G j o = -(c.stepSize * 100 / (100 + ((gs.length : ℝ) + 1)) / Real.sqrt ((gs.length : ℝ) + 1)) * G j o := by
  unfold step
  rw [getUpdate_plain c hm]
  unfold raw
  rw [hk]
  simp only [clipped_off c hc, init_t, after_t, Nat.cast_add, Nat.cast_one]
  ring

/-- The parameters are moved by the sum of the updates. -/
theorem C108_parameters (c : Cfg) (θ : Mat n q) (gs : List (Mat n q)) (j : Fin n) (o : Fin q) :
    (train c fresh θ gs).1 j o = θ j o + ∑ i ∈ Finset.range gs.length, step c (gs.take i) (gs.getD i (fun _ _ => 0)) j o := by
  have key : ∀ (l pre : List (Mat n q)) (θ : Mat n q), (train c (after c fresh pre) θ l).1 j o = θ j o + ∑ i ∈ Finset.range l.length, step c (pre ++ l.take i) (l.getD i (fun _ _ => 0)) j o := by
    intro l
    induction l with
    | nil =>
      intro pre θ
      simp [train]
    | cons G l ih =>
      intro pre θ
      have e : (updateParams c (after c fresh pre) θ G).2 = after c fresh (pre ++ [G]) := by
        rw [after_snoc]
        rfl
      unfold train
      rw [e, ih (pre ++ [G])]
      rw [List.length_cons, Finset.sum_range_succ']
      simp only [List.take_zero, List.append_nil, List.getD_cons_zero, List.take_succ_cons, List.getD_cons_succ, List.append_assoc, List.singleton_append]
      have : (updateParams c (after c fresh pre) θ G).1 j o = θ j o + step c pre G j o := rfl
      rw [this]
      ring
  have := key gs [] θ
  simp only [List.nil_append] at this
  exact this

/-- Columns (outputs) do not influence each other, and without clipping entries do not: two histories that agree there give the same update there. -/
theorem C108_independent (c : Cfg) (gs hs : List (Mat n q)) (G H : Mat n q) (o : Fin q) (j : Fin n)
    (h : List.Forall₂ (fun A B => A j o = B j o ∧ (0 < c.clip → ∀ i, A i o = B i o)) gs hs) (hG : G j o = H j o ∧ (0 < c.clip → ∀ i, G i o = H i o)) : step c gs G j o = step c hs H j o := by
  let Rel : Mat n q → Mat n q → Prop := fun A B => A j o = B j o ∧ (0 < c.clip → ∀ i, A i o = B i o)
  let Same : St n q → St n q → Prop := fun s s' => s.t = s'.t ∧ s.prev j o = s'.prev j o ∧ s.g j o = s'.g j o ∧ s.u j o = s'.u j o ∧ s.m j o = s'.m j o ∧ s.v j o = s'.v j o
  have hclip : ∀ A B, Rel A B → clipped c A j o = clipped c B j o := by
    rintro A B ⟨h1, h2⟩
    unfold clipped
    by_cases hp : 0 < c.clip
    · have : colNorm A o = colNorm B o := by
        unfold colNorm
        congr 1
        exact Finset.sum_congr rfl (fun i _ => by rw [h2 hp i])
      rw [this, h1]
    · rw [if_neg (fun h => hp h.1), if_neg (fun h => hp h.1), h1]
  have hstep : ∀ s s' A B, Same s s' → Rel A B → (getUpdate c s A).1 j o = (getUpdate c s' B).1 j o ∧ Same (getUpdate c s A).2 (getUpdate c s' B).2 := by
    intro s s' A B hs hr
    have hi : Same (init c s) (init c s') := by
      obtain ⟨a1, a2⟩ := hs
      unfold init
      rw [← a1]
      split
      · exact ⟨rfl, rfl, rfl, rfl, rfl, rfl⟩
      · exact ⟨a1, a2⟩
    have hcl := hclip A B hr
    obtain ⟨b1, b2, b3, b4, b5, b6⟩ := hi
    have hraw : (raw c (init c s) A).1 j o = (raw c (init c s') B).1 j o ∧ (raw c (init c s) A).2.t = (raw c (init c s') B).2.t ∧ (raw c (init c s) A).2.g j o = (raw c (init c s') B).2.g j o ∧ (raw c (init c s) A).2.u j o = (raw c (init c s') B).2.u j o ∧
        (raw c (init c s) A).2.m j o = (raw c (init c s') B).2.m j o ∧ (raw c (init c s) A).2.v j o = (raw c (init c s') B).2.v j o := by
      unfold raw
      cases c.kind <;> simp only [hcl, b1, b3, b4, b5, b6, and_self]
    obtain ⟨r1, r2, r3, r4, r5, r6⟩ := hraw
    have hu : (getUpdate c s A).1 j o = (getUpdate c s' B).1 j o := by
      unfold getUpdate
      by_cases hm : 0 < c.momentum
      · simp only [if_pos hm, b2, r1]
      · simp only [if_neg hm, r1]
    exact ⟨hu, r2, hu, r3, r4, r5, r6⟩
  have hafter : ∀ (gs hs : List (Mat n q)), List.Forall₂ Rel gs hs → Same (after c fresh gs) (after c fresh hs) := by
    have gen : ∀ (gs hs : List (Mat n q)), List.Forall₂ Rel gs hs → ∀ s s', Same s s' → Same (after c s gs) (after c s' hs) := by
      intro gs hs hf
      induction hf with
      | nil => exact fun s s' h => h
      | cons hr _ ih => exact fun s s' h => ih _ _ (hstep s s' _ _ h hr).2
    exact fun gs hs hf => gen gs hs hf _ _ ⟨rfl, rfl, rfl, rfl, rfl, rfl⟩
  exact (hstep _ _ G H (hafter gs hs h) hG).1

/-! ## C109: Adam -/

/-- Bias-corrected exponentially weighted mean of a list, oldest value first. -/
noncomputable def ewma (β : ℝ) (l : List ℝ) : ℝ := (∑ i ∈ Finset.range l.length, (1 - β) * β ^ (l.length - 1 - i) * l.getD i 0) / (1 - β ^ l.length)

/-- The accumulator `x ← β x + (1 - β) g` started at 0. -/
noncomputable def acc (β : ℝ) (l : List ℝ) : ℝ := l.foldl (fun x g => β * x + (1 - β) * g) 0

theorem acc_snoc (β : ℝ) (l : List ℝ) (g : ℝ) : acc β (l ++ [g]) = β * acc β l + (1 - β) * g := by
  unfold acc
  rw [List.foldl_append]
  rfl

theorem acc_sum (β : ℝ) (l : List ℝ) : acc β l = ∑ i ∈ Finset.range l.length, (1 - β) * β ^ (l.length - 1 - i) * l.getD i 0 := by
  induction l using List.reverseRecOn with
  | nil => simp [acc]
  | append_singleton l g ih =>
    rw [acc_snoc, ih, List.length_append, List.length_singleton, Finset.sum_range_succ, Finset.mul_sum]
    congr 1
    · refine Finset.sum_congr rfl (fun i hi => ?_)
      have hi' := Finset.mem_range.mp hi
      have e : (l ++ [g]).getD i 0 = l.getD i 0 := by rw [List.getD_eq_getElem?_getD, List.getD_eq_getElem?_getD, List.getElem?_append_left hi']
      rw [e, show l.length + 1 - 1 - i = (l.length - 1 - i) + 1 by omega, pow_succ]
      ring
    · have e : (l ++ [g]).getD l.length 0 = g := by rw [List.getD_eq_getElem?_getD, List.getElem?_append_right (le_refl _), Nat.sub_self]; rfl
      rw [e, Nat.add_sub_cancel, Nat.sub_self, pow_zero, mul_one]

theorem adam_state (c : Cfg) (hk : c.kind = .adam) (hc : c.clip ≤ 0) (gs : List (Mat n q)) (j : Fin n) (o : Fin q) :
    (init c (after c (fresh : St n q) gs)).m j o = acc c.beta₁ (gs.map (fun G => G j o)) ∧ (init c (after c (fresh : St n q) gs)).v j o = acc c.beta₂ (gs.map (fun G => G j o ^ 2)) := by
  induction gs using List.reverseRecOn with
  | nil => exact ⟨rfl, rfl⟩
  | append_singleton gs G ih =>
    rw [init_after c _ (by simp), after_snoc, List.map_append, List.map_append, List.map_singleton, List.map_singleton, acc_snoc, acc_snoc, ← ih.1, ← ih.2]
    unfold getUpdate raw
    simp only [hk, clipped_off c hc]
    exact ⟨trivial, by ring⟩

/-- C109.  Adam (without momentum and clipping): each entry moves by `-StepSize · m̂ / (√v̂ + Epsilon)` with the bias-corrected weighted means of its gradients and of their squares. -/
theorem C109_adam (c : Cfg) (hk : c.kind = .adam) (hm : c.momentum ≤ 0) (hc : c.clip ≤ 0) (gs : List (Mat n q)) (G : Mat n q) (j : Fin n) (o : Fin q) :
    step c gs G j o = -c.stepSize * ewma c.beta₁ ((gs ++ [G]).map (fun A => A j o)) / (Real.sqrt (ewma c.beta₂ ((gs ++ [G]).map (fun A => A j o ^ 2))) + c.eps) := by
  obtain ⟨h1, h2⟩ := adam_state c hk hc gs j o
  unfold step
  rw [getUpdate_plain c hm]
  unfold ewma
  rw [← acc_sum, ← acc_sum, List.map_append, List.map_append, List.map_singleton, List.map_singleton, acc_snoc, acc_snoc, ← h1, ← h2]
  unfold raw
  simp only [hk, clipped_off c hc, init_t, after_t, List.length_append, List.length_map, List.length_singleton]
  rw [mul_div_assoc]
  congr 5
  ring

/-- With a constant gradient every step of Adam is `-StepSize · g / (|g| + Epsilon)`, from the first one on. -/
theorem C109_constant (c : Cfg) (hk : c.kind = .adam) (hm : c.momentum ≤ 0) (hc : c.clip ≤ 0) (h1 : 0 ≤ c.beta₁) (h1' : c.beta₁ < 1) (h2 : 0 ≤ c.beta₂) (h2' : c.beta₂ < 1) (k : ℕ) (G : Mat n q) (j : Fin n) (o : Fin q) :
    step c (List.replicate k G) G j o = -c.stepSize * G j o / (|G j o| + c.eps) := by
  have hconst : ∀ (β g : ℝ), 0 ≤ β → β < 1 → ewma β (List.replicate (k + 1) g) = g := by
    intro β g hb hb'
    unfold ewma
    rw [← acc_sum]
    have : ∀ m, acc β (List.replicate m g) = (1 - β ^ m) * g := by
      intro m
      induction m with
      | zero => simp [acc]
      | succ m ih =>
        rw [List.replicate_succ', acc_snoc, ih, pow_succ]
        ring
    rw [this, List.length_replicate]
    have hne : 1 - β ^ (k + 1) ≠ 0 := (sub_pos.mpr (pow_lt_one₀ hb hb' (by omega))).ne'
    rw [mul_div_assoc, mul_comm, div_mul_cancel₀ _ hne]
  rw [C109_adam c hk hm hc, ← List.replicate_succ', List.map_replicate, List.map_replicate, hconst _ _ h1 h1', hconst _ _ h2 h2', Real.sqrt_sq_eq_abs]

/-! ## C110: Adagrad, RMSProp and Adadelta -/

/-- Adagrad from the second step on: the gradient divided by the root of the sum of the earlier squares.
Missing for the full claim: what `C110_first_step_violated`, `C110_rmsprop_violated` refute. -/
theorem C110_adagrad_partial (c : Cfg) (hk : c.kind = .adagrad) (hm : c.momentum ≤ 0) (hc : c.clip ≤ 0) (gs : List (Mat n q)) (hne : gs ≠ []) (G : Mat n q) (j : Fin n) (o : Fin q) :
    step c gs G j o = -(c.stepSize / (Real.sqrt (c.eps + (gs.map (fun A => A j o ^ 2)).sum) + c.eps)) * G j o := by
  have hg : ∀ gs : List (Mat n q), (init c (after c (fresh : St n q) gs)).g j o = c.eps + (gs.map (fun A => A j o ^ 2)).sum := by
    intro gs
    induction gs using List.reverseRecOn with
    | nil => simp [after, init, fresh]
    | append_singleton gs A ih =>
      rw [init_after c _ (by simp), after_snoc, List.map_append, List.sum_append, List.map_singleton, List.sum_singleton, ← add_assoc, ← ih]
      unfold getUpdate raw
      simp only [hk, clipped_off c hc]
      ring
  unfold step
  rw [getUpdate_plain c hm]
  unfold raw
  simp only [hk, clipped_off c hc, init_t, after_t, hg gs]
  rw [if_pos (by have := List.length_pos_of_ne_nil hne; omega)]

/-- Exponentially weighted mean of a list started from a value, oldest element first. -/
noncomputable def ewmaFrom (β x : ℝ) (l : List ℝ) : ℝ := β ^ l.length * x + ∑ i ∈ Finset.range l.length, (1 - β) * β ^ (l.length - 1 - i) * l.getD i 0

theorem ewmaFrom_snoc (β x : ℝ) (l : List ℝ) (g : ℝ) : ewmaFrom β x (l ++ [g]) = β * ewmaFrom β x l + (1 - β) * g := by
  unfold ewmaFrom
  rw [← acc_sum, ← acc_sum, acc_snoc, List.length_append, List.length_singleton, pow_succ]
  ring

/-- RMSProp: from the second step on, where the running mean of the squared gradients seen before (started at Epsilon) exceeds 1 the gradient is divided by its root; elsewhere it is not.
Missing for the full claim: what `C110_first_step_violated`, `C110_rmsprop_violated` refute. -/
theorem C110_rmsprop_partial (c : Cfg) (hk : c.kind = .rmsprop) (hm : c.momentum ≤ 0) (hc : c.clip ≤ 0) (gs : List (Mat n q)) (hne : gs ≠ []) (G : Mat n q) (j : Fin n) (o : Fin q) :
    let r := ewmaFrom c.gamma c.eps (gs.map (fun A => A j o ^ 2))
    step c gs G j o = if 1 < |r| then -c.stepSize / Real.sqrt (r + c.eps) * G j o else -c.stepSize * G j o := by
  have hg : ∀ gs : List (Mat n q), (init c (after c (fresh : St n q) gs)).g j o = ewmaFrom c.gamma c.eps (gs.map (fun A => A j o ^ 2)) := by
    intro gs
    induction gs using List.reverseRecOn with
    | nil => simp [after, init, fresh, ewmaFrom]
    | append_singleton gs A ih =>
      rw [init_after c _ (by simp), after_snoc, List.map_append, List.map_singleton, ewmaFrom_snoc, ← ih]
      unfold getUpdate raw
      simp only [hk, clipped_off c hc]
      ring
  intro r
  unfold step
  rw [getUpdate_plain c hm]
  unfold raw
  have hlen : 1 < gs.length + 1 := by have := List.length_pos_of_ne_nil hne; omega
  simp only [hk, clipped_off c hc, init_t, after_t, hg gs, hlen, true_and]
  change -(if 1 < |r| then _ else _) * _ = _
  split
  · rw [neg_div]
  · rfl

/-- The updates made for a sequence of gradients. -/
noncomputable def updates (c : Cfg) (gs : List (Mat n q)) (j : Fin n) (o : Fin q) : List ℝ := (List.range gs.length).map (fun i => step c (gs.take i) (gs.getD i (fun _ _ => 0)) j o)

theorem updates_snoc (c : Cfg) (gs : List (Mat n q)) (G : Mat n q) (j : Fin n) (o : Fin q) : updates c (gs ++ [G]) j o = updates c gs j o ++ [step c gs G j o] := by
  unfold updates
  rw [List.length_append, List.length_singleton, List.range_succ, List.map_append, List.map_singleton]
  congr 1
  · refine List.map_congr_left (fun i hi => ?_)
    have hi' := List.mem_range.mp hi
    rw [List.take_append_of_le_length (by omega), List.getD_eq_getElem?_getD, List.getElem?_append_left hi', ← List.getD_eq_getElem?_getD]
  · rw [List.take_left, List.getD_eq_getElem?_getD, List.getElem?_append_right (le_refl _), Nat.sub_self]
    rfl

/-- Adadelta, from the second step on: the gradient times the root of the running mean of the squared updates (started at 1) over the root of the running mean of the squared gradients (started at Epsilon, this gradient included). -/
theorem C110_adadelta (c : Cfg) (hk : c.kind = .adadelta) (hm : c.momentum ≤ 0) (hc : c.clip ≤ 0) (gs : List (Mat n q)) (hne : gs ≠ []) (G : Mat n q) (j : Fin n) (o : Fin q) :
    step c gs G j o = -(Real.sqrt (ewmaFrom c.gamma 1 ((updates c gs j o).map (fun x => x ^ 2))) / Real.sqrt (ewmaFrom c.gamma c.eps ((gs ++ [G]).map (fun A => A j o ^ 2)) + c.eps)) * G j o := by
  have hg : ∀ gs : List (Mat n q), (init c (after c (fresh : St n q) gs)).g j o = ewmaFrom c.gamma c.eps (gs.map (fun A => A j o ^ 2)) ∧ (init c (after c (fresh : St n q) gs)).u j o = ewmaFrom c.gamma 1 ((updates c gs j o).map (fun x => x ^ 2)) := by
    intro gs
    induction gs using List.reverseRecOn with
    | nil => simp [after, init, fresh, ewmaFrom, updates]
    | append_singleton gs A ih =>
      rw [init_after c _ (by simp), after_snoc, List.map_append, List.map_singleton, ewmaFrom_snoc, ← ih.1, updates_snoc, List.map_append, List.map_singleton, ewmaFrom_snoc, ← ih.2]
      have hs : step c gs A = (raw c (init c (after c fresh gs)) A).1 := by
        unfold step
        rw [getUpdate_plain c hm]
      rw [hs]
      unfold getUpdate raw
      simp only [hk, clipped_off c hc]
      constructor <;> ring
  have hs : step c gs G = (raw c (init c (after c fresh gs)) G).1 := by
    unfold step
    rw [getUpdate_plain c hm]
  rw [hs, List.map_append, List.map_singleton, ewmaFrom_snoc, ← (hg gs).1, ← (hg gs).2]
  unfold raw
  have hlen : 1 < gs.length + 1 := by have := List.length_pos_of_ne_nil hne; omega
  simp only [hk, clipped_off c hc, init_t, after_t, if_pos hlen]
  rw [show ∀ a : ℝ, (1 - c.gamma) * a * a = (1 - c.gamma) * a ^ 2 from fun a => by ring]

/-- Descent: in every variant but Adam, without momentum, every entry moves against its gradient. -/
theorem C110_descent (c : Cfg) (hk : c.kind ≠ .adam) (hm : c.momentum ≤ 0) (ha : 0 < c.stepSize) (he : 0 < c.eps) (h0 : 0 < c.gamma) (h1 : c.gamma ≤ 1) (gs : List (Mat n q)) (G : Mat n q) (j : Fin n) (o : Fin q) (hG : G j o ≠ 0) :
    step c gs G j o * G j o < 0 := by
  have hinv : ∀ gs : List (Mat n q), 0 ≤ (init c (after c (fresh : St n q) gs)).g j o ∧ 0 < (init c (after c (fresh : St n q) gs)).u j o := by
    intro gs
    induction gs using List.reverseRecOn with
    | nil => exact ⟨he.le, one_pos⟩
    | append_singleton gs A ih =>
      obtain ⟨i1, i2⟩ := ih
      rw [init_after c _ (by simp), after_snoc]
      have h1' : 0 ≤ 1 - c.gamma := sub_nonneg.mpr h1
      generalize after c fresh gs = s at i1 i2
      have p1 : ∀ x : ℝ, 0 ≤ (1 - c.gamma) * x * x := fun x => by rw [mul_assoc]; exact mul_nonneg h1' (mul_self_nonneg x)
      unfold getUpdate raw
      cases hkk : c.kind with
      | rmsprop => exact ⟨add_nonneg (mul_nonneg i1 h0.le) (p1 _), i2⟩
      | adagrad => exact ⟨add_nonneg i1 (mul_self_nonneg _), i2⟩
      | adadelta => exact ⟨add_nonneg (mul_nonneg h0.le i1) (p1 _), add_pos_of_pos_of_nonneg (mul_pos h0 i2) (p1 _)⟩
      | adam => exact ⟨i1, i2⟩
      | sgd => exact ⟨i1, i2⟩
  have hcl : 0 < clipped c G j o * G j o := by
    have hsq : 0 < G j o * G j o := mul_self_pos.mpr hG
    unfold clipped
    split
    · rename_i h
      have : 0 < c.clip / colNorm G o := div_pos h.1 (lt_trans h.1 h.2)
      nlinarith [mul_pos hsq this]
    · exact hsq
  obtain ⟨i1, i2⟩ := hinv gs
  have key : ∀ r : ℝ, 0 < r → -r * clipped c G j o * G j o < 0 := fun r hr => by
    rw [mul_assoc, neg_mul]
    exact neg_neg_of_pos (mul_pos hr hcl)
  unfold step
  rw [getUpdate_plain c hm]
  generalize init c (after c fresh gs) = s at i1 i2
  have heta : 0 < c.stepSize * 100 / (100 + ((s.t + 1 : ℕ) : ℝ)) := by positivity
  unfold raw
  cases hkk : c.kind with
  | rmsprop =>
    refine key _ ?_
    split
    · exact div_pos ha (Real.sqrt_pos.mpr (by linarith))
    · exact ha
  | adagrad =>
    refine key _ ?_
    split
    · exact div_pos ha (add_pos_of_nonneg_of_pos (Real.sqrt_nonneg _) he)
    · exact ha
  | adadelta =>
    refine key _ ?_
    split
    · refine div_pos (Real.sqrt_pos.mpr i2) (Real.sqrt_pos.mpr ?_)
      have : 0 ≤ (1 - c.gamma) * clipped c G j o * clipped c G j o := by
        rw [mul_assoc]
        exact mul_nonneg (sub_nonneg.mpr h1) (mul_self_nonneg _)
      have h2 := mul_nonneg h0.le i1
      linarith
    · exact heta
  | adam => exact absurd hkk hk
  | sgd =>
    have hs : 0 < Real.sqrt ((s.t + 1 : ℕ) : ℝ) := Real.sqrt_pos.mpr (by positivity)
    have := key _ (div_pos heta hs)
    simp only
    refine lt_of_eq_of_lt ?_ this
    ring

/-- Adam can move against the descent direction: after one large gradient a small one of the other sign is overridden. -/
theorem C110_adam_not_descent : ∃ c : Cfg, c.kind = .adam ∧ c.momentum ≤ 0 ∧ 0 < c.stepSize ∧ 0 < c.eps ∧ ∃ G₁ G₂ : Mat 1 1, 0 < step c [G₁] G₂ 0 0 * G₂ 0 0 := by
  refine ⟨⟨.adam, 1, 0, 0, 1, 1, 1 / 2, 1 / 2⟩, rfl, le_refl _, one_pos, one_pos, fun _ _ => 4, fun _ _ => -1, ?_⟩
  rw [C109_adam _ rfl (le_refl _) (le_refl _)]
  have hm : ewma (1 / 2) (([fun _ _ => 4] ++ [fun _ _ => -1] : List (Mat 1 1)).map (fun A => A 0 0)) = 2 / 3 := by
    simp [ewma, Finset.sum_range_succ]
    norm_num
  rw [hm]
  have hp : 0 < Real.sqrt (ewma (1 / 2) (([fun _ _ => 4] ++ [fun _ _ => -1] : List (Mat 1 1)).map (fun A => A 0 0 ^ 2))) + 1 := by positivity
  rw [show ∀ y : ℝ, (-1 : ℝ) * (2 / 3) / y * -1 = 2 / 3 / y from fun y => by ring]
  exact div_pos (by norm_num) hp

/-- C110 violated: the first step of Adagrad and of RMSProp is not normalised: it is `-StepSize` times the gradient, however large that is. -/
theorem C110_first_step_violated (c : Cfg) (hk : c.kind = .adagrad ∨ c.kind = .rmsprop) (hm : c.momentum ≤ 0) (hc : c.clip ≤ 0) (G : Mat n q) (j : Fin n) (o : Fin q) : step c [] G j o = -c.stepSize * G j o := by
  unfold step
  rw [getUpdate_plain c hm]
  unfold raw
  rcases hk with hk | hk <;> simp only [hk, clipped_off c hc, init_t, after_t, List.length_nil, Nat.zero_add, lt_irrefl, false_and, if_false]

/-- C110 violated: while gradients stay within `[-1, 1]` RMSProp never normalises: it is gradient descent with a constant step. -/
theorem C110_rmsprop_violated (c : Cfg) (hk : c.kind = .rmsprop) (hm : c.momentum ≤ 0) (hc : c.clip ≤ 0) (h0 : 0 ≤ c.gamma) (h1 : c.gamma ≤ 1) (he : 0 ≤ c.eps) (he' : c.eps ≤ 1) (gs : List (Mat n q))
    (hg : ∀ A ∈ gs, ∀ j o, |A j o| ≤ 1) (G : Mat n q) (j : Fin n) (o : Fin q) : step c gs G j o = -c.stepSize * G j o := by
  have hb : ∀ gs : List (Mat n q), (∀ A ∈ gs, ∀ j o, |A j o| ≤ 1) → 0 ≤ (init c (after c (fresh : St n q) gs)).g j o ∧ (init c (after c (fresh : St n q) gs)).g j o ≤ 1 := by
    intro gs
    induction gs using List.reverseRecOn with
    | nil => exact fun _ => ⟨he, he'⟩
    | append_singleton gs A ih =>
      intro hA
      obtain ⟨b1, b2⟩ := ih (fun B hB => hA B (List.mem_append_left _ hB))
      have ha := abs_le.mp (hA A (by simp) j o)
      have hsq : A j o * A j o ≤ 1 := by nlinarith
      have hsq0 : 0 ≤ A j o * A j o := mul_self_nonneg _
      rw [init_after c _ (by simp), after_snoc]
      unfold getUpdate raw
      simp only [hk, clipped_off c hc]
      constructor
      · nlinarith [mul_nonneg b1 h0, mul_nonneg (sub_nonneg.mpr h1) hsq0]
      · nlinarith [mul_nonneg b1 h0, mul_nonneg (sub_nonneg.mpr h1) (sub_nonneg.mpr hsq), mul_nonneg (sub_nonneg.mpr b2) h0]
  obtain ⟨b1, b2⟩ := hb gs hg
  unfold step
  rw [getUpdate_plain c hm]
  unfold raw
  simp only [hk, clipped_off c hc]
  rw [if_neg]
  rintro ⟨_, h⟩
  rw [abs_of_nonneg b1] at h
  exact absurd b2 (not_le.mpr h)

/-! Concrete cases -/

example : step (n := 1) (q := 1) ⟨.sgd, 1, 0, 0, 0, 0, 0, 0⟩ [] (fun _ _ => 101) 0 0 = -100 := by
  rw [C108_sgd _ rfl (le_refl _) (le_refl _)]
  norm_num

example : step (n := 1) (q := 1) ⟨.sgd, 1, 1 / 2, 0, 0, 0, 0, 0⟩ [fun _ _ => 101] (fun _ _ => 0) 0 0 = -50 := by
  rw [C108_momentum _ (by norm_num), List.length_singleton, Finset.sum_range_succ, Finset.sum_range_one, C108_sgd _ rfl (le_refl _) (le_refl _), C108_sgd _ rfl (le_refl _) (le_refl _)]
  norm_num

example : step (n := 1) (q := 1) ⟨.adam, 1, 0, 0, 0, 1, 9 / 10, 99 / 100⟩ (List.replicate 7 (fun _ _ => -3)) (fun _ _ => -3) 0 0 = 3 / 4 := by
  rw [C109_constant _ rfl (le_refl _) (le_refl _) (by norm_num) (by norm_num) (by norm_num) (by norm_num)]
  norm_num

example : step (n := 1) (q := 1) ⟨.adagrad, 2, 0, 0, 0, 1, 0, 0⟩ [fun _ _ => 2, fun _ _ => 2] (fun _ _ => 8) 0 0 = -4 := by
  rw [C110_adagrad_partial _ rfl (le_refl _) (le_refl _) _ (by simp)]
  have : Real.sqrt ((1 : ℝ) + (List.map (fun A : Mat 1 1 => A 0 0 ^ 2) [fun _ _ => 2, fun _ _ => 2]).sum) = 3 := by
    rw [show (1 : ℝ) + (List.map (fun A : Mat 1 1 => A 0 0 ^ 2) [fun _ _ => 2, fun _ _ => 2]).sum = 3 ^ 2 by norm_num]
    exact Real.sqrt_sq (by norm_num)
  rw [this]
  norm_num

example : step (n := 1) (q := 1) ⟨.rmsprop, 1, 0, 0, 9 / 10, 1 / 100, 0, 0⟩ [fun _ _ => 1 / 2] (fun _ _ => 1 / 10) 0 0 = -(1 / 10) := by
  rw [C110_rmsprop_violated _ rfl (le_refl _) (le_refl _) (by norm_num) (by norm_num) (by norm_num) (by norm_num)]
  · norm_num
  · intro A hA j o
    rw [List.mem_singleton.mp hA]
    norm_num [abs_le]

end Sk.Opt
