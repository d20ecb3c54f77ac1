import Verif.Props.Kernels
import Mathlib.Analysis.Calculus.Deriv.Mul
import Mathlib.Analysis.Calculus.Deriv.Add
import Mathlib.Analysis.Calculus.Deriv.Comp
import Mathlib.Analysis.SpecialFunctions.ExpDeriv
import Mathlib.Analysis.SpecialFunctions.Log.Basic
import Mathlib.Tactic.LinearCombination

/-!
# Hyperparameters and gradients of Gaussian process kernels: C56, C102
-/
set_option autoImplicit false

namespace Sk.GP

/-! ## C56: clones with other hyperparameters -/

/-- `h'` is `h` with, if it is free, another positive value. -/
def RescaledH (h h' : Hyper) : Prop := h'.2 = h.2 ∧ (if h.2 then h'.1 = h.1 else 0 < h'.1)

/-- `c` is `k` with other, positive, values of the free hyperparameters. -/
def Rescaled : Kern → Kern → Prop
  | .const h, .const h' => RescaledH h h'
  | .white h, .white h' => RescaledH h h'
  | .rbf ls, .rbf ls' => List.Forall₂ RescaledH ls ls'
  | .dot h, .dot h' => RescaledH h h'
  | .sum k₁ k₂, .sum c₁ c₂ => Rescaled k₁ c₁ ∧ Rescaled k₂ c₂
  | .prod k₁ k₂, .prod c₁ c₂ => Rescaled k₁ c₁ ∧ Rescaled k₂ c₂
  | .exp k p, .exp c p' => p' = p ∧ Rescaled k c
  | _, _ => False

/-- Number of free values. -/
def freeH (hs : List Hyper) : ℕ := (hs.filter (fun h => !h.2)).length

/-- The hyperparameters of a kernel expression from left to right. -/
def params : Kern → List Hyper
  | .const h => [h]
  | .white h => [h]
  | .rbf ls => ls
  | .dot h => [h]
  | .sum k₁ k₂ => params k₁ ++ params k₂
  | .prod k₁ k₂ => params k₁ ++ params k₂
  | .exp k _ => params k

/-- Number of free hyperparameters of a kernel expression. -/
def nfree (k : Kern) : ℕ := freeH (params k)

/-- No exponentiation, no free noise level, and the second operand of every sum and product has a free hyperparameter. -/
def Cloneable : Kern → Prop
  | .const _ => True
  | .white h => h.2 = true
  | .rbf _ => True
  | .dot _ => True
  | .sum k₁ k₂ => Cloneable k₁ ∧ Cloneable k₂ ∧ 0 < nfree k₂
  | .prod k₁ k₂ => Cloneable k₁ ∧ Cloneable k₂ ∧ 0 < nfree k₂
  | .exp _ _ => False

theorem thetaOf_length (hs : List Hyper) : (thetaOf hs).length = freeH hs := by simp [thetaOf, freeH]

theorem thetaOf_append (a b : List Hyper) : thetaOf (a ++ b) = thetaOf a ++ thetaOf b := by simp [thetaOf]

theorem rescaledH_fixed (h : Hyper) (hf : h.2 = true) : RescaledH h h := by simp [RescaledH, hf]

theorem setFree_spec (hs : List Hyper) (t : List ℝ) (ht : t.length = freeH hs) : ∃ hs', setFree hs t = some hs' ∧ thetaOf hs' = t ∧ List.Forall₂ RescaledH hs hs' := by
  induction hs generalizing t with
  | nil =>
    have : t = [] := by simpa [freeH] using ht
    subst this
    exact ⟨[], rfl, rfl, .nil⟩
  | cons h hs ih =>
    obtain ⟨v, f⟩ := h
    cases f with
    | true =>
      have ht' : t.length = freeH hs := by simpa [freeH] using ht
      obtain ⟨hs', e, h1, h2⟩ := ih t ht'
      cases t with
      | nil =>
        have e' : hs' = hs := by cases hs <;> simpa [setFree, eq_comm] using e
        subst e'
        exact ⟨(v, true) :: hs', rfl, by simpa [thetaOf] using h1, .cons (rescaledH_fixed _ rfl) h2⟩
      | cons a t =>
        refine ⟨(v, true) :: hs', ?_, by simpa [thetaOf] using h1, .cons (rescaledH_fixed _ rfl) h2⟩
        simp [setFree, e]
    | false =>
      cases t with
      | nil => simp [freeH] at ht
      | cons a t =>
        have ht' : t.length = freeH hs := by simpa [freeH] using ht
        obtain ⟨hs', e, h1, h2⟩ := ih t ht'
        refine ⟨(Real.exp a, false) :: hs', ?_, ?_, .cons ⟨rfl, by simpa using Real.exp_pos a⟩ h2⟩
        · simp [setFree, e]
        · simp only [thetaOf, Bool.not_false, List.filter_cons_of_pos, List.map_cons, Real.log_exp]
          congr 1

theorem setFree_single (h : Hyper) (t : List ℝ) (ht : t.length = freeH [h]) : ∃ h', setFree [h] t = some [h'] ∧ thetaOf [h'] = t ∧ RescaledH h h' := by
  obtain ⟨hs', e, h1, h2⟩ := setFree_spec [h] t ht
  cases h2 with
  | cons hab hnil =>
    cases hnil
    exact ⟨_, e, h1, hab⟩

theorem freeH_append (a b : List Hyper) : freeH (a ++ b) = freeH a + freeH b := by simp [freeH]

/-- A kernel expression without exponentiation. -/
def NoExp : Kern → Prop
  | .sum k₁ k₂ => NoExp k₁ ∧ NoExp k₂
  | .prod k₁ k₂ => NoExp k₁ ∧ NoExp k₂
  | .exp _ _ => False
  | _ => True

theorem hyper_eq {k : Kern} (h : NoExp k) : k.hyper = some (params k) := by
  induction k with
  | sum k₁ k₂ h₁ h₂ => simp [Kern.hyper, params, h₁ h.1, h₂ h.2]
  | prod k₁ k₂ h₁ h₂ => simp [Kern.hyper, params, h₁ h.1, h₂ h.2]
  | exp k p _ => exact absurd h id
  | _ => rfl

theorem theta_eq {k : Kern} (h : NoExp k) : k.theta = some (thetaOf (params k)) := by
  cases k with
  | exp k p => exact absurd h id
  | _ => simp only [Kern.theta, hyper_eq h, Option.map_some]

theorem cloneable_noExp {k : Kern} (h : Cloneable k) : NoExp k := by
  induction k with
  | sum k₁ k₂ h₁ h₂ => exact ⟨h₁ h.1, h₂ h.2.1⟩
  | prod k₁ k₂ h₁ h₂ => exact ⟨h₁ h.1, h₂ h.2.1⟩
  | exp k p _ => exact absurd h id
  | _ => trivial

theorem rescaled_noExp {k c : Kern} (h : Rescaled k c) (hk : NoExp k) : NoExp c := by
  induction k generalizing c with
  | sum k₁ k₂ h₁ h₂ => cases c <;> simp only [Rescaled] at h; exact ⟨h₁ h.1 hk.1, h₂ h.2 hk.2⟩
  | prod k₁ k₂ h₁ h₂ => cases c <;> simp only [Rescaled] at h; exact ⟨h₁ h.1 hk.1, h₂ h.2 hk.2⟩
  | exp k p _ => exact absurd hk id
  | _ => cases c <;> simp only [Rescaled] at h; trivial

theorem rescaled_params {k c : Kern} (h : Rescaled k c) : List.Forall₂ RescaledH (params k) (params c) := by
  induction k generalizing c with
  | sum k₁ k₂ h₁ h₂ => cases c <;> simp only [Rescaled] at h; exact List.rel_append (h₁ h.1) (h₂ h.2)
  | prod k₁ k₂ h₁ h₂ => cases c <;> simp only [Rescaled] at h; exact List.rel_append (h₁ h.1) (h₂ h.2)
  | exp k p ih => cases c <;> simp only [Rescaled] at h; have h2 := ih h.2; exact h2
  | rbf ls => cases c <;> simp only [Rescaled] at h; exact h
  | _ => cases c <;> simp only [Rescaled] at h; exact .cons h .nil

theorem append_split (t : List ℝ) (a b : ℕ) (ht : t.length = a + b) : t.take a ++ (t.drop a).take b = t := by
  rw [List.take_of_length_le (l := t.drop a) (by rw [List.length_drop]; omega), List.take_append_drop]

theorem clone_spec (k : Kern) (hk : Cloneable k) (t : List ℝ) (ht : t.length = nfree k) : ∃ c, k.clone t = some c ∧ thetaOf (params c) = t ∧ Rescaled k c := by
  induction k generalizing t with
  | const h =>
    obtain ⟨h', e, h1, h2⟩ := setFree_single h t ht
    exact ⟨.const h', by simp [Kern.clone, e, headH], h1, h2⟩
  | white h =>
    obtain ⟨v, f⟩ := h
    cases (show f = true from hk)
    have : t = [] := by simpa [nfree, freeH, params] using ht
    subst this
    exact ⟨.white (v, true), rfl, rfl, rescaledH_fixed _ rfl⟩
  | rbf ls =>
    obtain ⟨hs', e, h1, h2⟩ := setFree_spec ls t ht
    exact ⟨.rbf hs', by simp [Kern.clone, e], h1, h2⟩
  | dot h =>
    obtain ⟨h', e, h1, h2⟩ := setFree_single h t ht
    exact ⟨.dot h', by simp [Kern.clone, e, headH], h1, h2⟩
  | sum k₁ k₂ ih₁ ih₂ =>
    obtain ⟨hk1, hk2, hpos⟩ := hk
    have ht' : t.length = nfree k₁ + nfree k₂ := ht.trans (freeH_append _ _)
    obtain ⟨c, hc, hta, hra⟩ := ih₁ hk1 (t.take (nfree k₁)) (by rw [List.length_take]; omega)
    obtain ⟨e, he, htb, hrb⟩ := ih₂ hk2 ((t.drop (nfree k₁)).take (nfree k₂)) (by rw [List.length_take, List.length_drop]; omega)
    refine ⟨.sum c e, ?_, ?_, hra, hrb⟩
    · simp only [Kern.clone, theta_eq (cloneable_noExp hk1), theta_eq (cloneable_noExp hk2), Option.bind_eq_bind, Option.bind_some, thetaOf_length]
      unfold nfree at *
      rw [if_neg (by omega), hc, he]
      rfl
    · simp only [params]
      rw [thetaOf_append, hta, htb, append_split t _ _ ht']
  | prod k₁ k₂ ih₁ ih₂ =>
    obtain ⟨hk1, hk2, hpos⟩ := hk
    have ht' : t.length = nfree k₁ + nfree k₂ := ht.trans (freeH_append _ _)
    obtain ⟨c, hc, hta, hra⟩ := ih₁ hk1 (t.take (nfree k₁)) (by rw [List.length_take]; omega)
    obtain ⟨e, he, htb, hrb⟩ := ih₂ hk2 ((t.drop (nfree k₁)).take (nfree k₂)) (by rw [List.length_take, List.length_drop]; omega)
    refine ⟨.prod c e, ?_, ?_, hra, hrb⟩
    · simp only [Kern.clone, theta_eq (cloneable_noExp hk1), theta_eq (cloneable_noExp hk2), Option.bind_eq_bind, Option.bind_some, thetaOf_length]
      unfold nfree at *
      rw [if_neg (by omega), hc, he]
      rfl
    · simp only [params]
      rw [thetaOf_append, hta, htb, append_split t _ _ ht']
  | exp k p _ => exact absurd hk id

theorem rescaledH_unique {h a b : Hyper} (ha : RescaledH h a) (hb : RescaledH h b) (ht : thetaOf [a] = thetaOf [b]) : a = b := by
  obtain ⟨v, f⟩ := h
  obtain ⟨a1, a2⟩ := a
  obtain ⟨b1, b2⟩ := b
  obtain ⟨rfl, ha⟩ := ha
  obtain ⟨hb2, hb⟩ := hb
  simp only at hb2
  subst hb2
  cases b2 with
  | true => simp_all
  | false =>
    simp only [thetaOf, Bool.not_false, List.filter_cons_of_pos, List.filter_nil, List.map_cons, List.map_nil, List.cons.injEq, and_true] at ht
    simp only [Bool.false_eq_true, if_false] at ha hb
    rw [Real.log_injOn_pos (Set.mem_Ioi.mpr ha) (Set.mem_Ioi.mpr hb) ht]

theorem thetaOf_cons (a : Hyper) (l : List Hyper) : thetaOf (a :: l) = thetaOf [a] ++ thetaOf l := by
  rw [← thetaOf_append, List.singleton_append]

theorem freeH_eq_of_rescaled {hs l : List Hyper} (h : List.Forall₂ RescaledH hs l) : freeH l = freeH hs := by
  induction h with
  | nil => rfl
  | @cons x y xs ys hab _ ih =>
    have h1 := hab.1
    simp only [freeH, List.filter_cons, h1]
    split <;> simp [freeH] at ih ⊢ <;> exact ih

theorem rescaledL_unique {hs a b : List Hyper} (ha : List.Forall₂ RescaledH hs a) (hb : List.Forall₂ RescaledH hs b) (ht : thetaOf a = thetaOf b) : a = b := by
  induction hs generalizing a b with
  | nil => cases ha; cases hb; rfl
  | cons h hs ih =>
    cases ha with
    | @cons _ x _ xs hx hxs =>
      cases hb with
      | @cons _ y _ ys hy hys =>
        rw [thetaOf_cons x, thetaOf_cons y] at ht
        have hl : (thetaOf [x]).length = (thetaOf [y]).length := by
          rw [thetaOf_length, thetaOf_length, freeH_eq_of_rescaled (.cons hx .nil), freeH_eq_of_rescaled (.cons hy .nil)]
        obtain ⟨h1, h2⟩ := List.append_inj ht hl
        rw [rescaledH_unique hx hy h1, ih hxs hys h2]

theorem theta_append_inj {k c e : Kern} (hc : Rescaled k c) (he : Rescaled k e) {a b : List Hyper} (ht : thetaOf (params c ++ a) = thetaOf (params e ++ b)) :
    thetaOf (params c) = thetaOf (params e) ∧ thetaOf a = thetaOf b := by
  rw [thetaOf_append, thetaOf_append] at ht
  exact List.append_inj ht (by rw [thetaOf_length, thetaOf_length, freeH_eq_of_rescaled (rescaled_params hc), freeH_eq_of_rescaled (rescaled_params he)])

/-- Two rescaled copies of a kernel with the same hyperparameters are equal. -/
theorem rescaled_unique {k a b : Kern} (ha : Rescaled k a) (hb : Rescaled k b) (ht : thetaOf (params a) = thetaOf (params b)) : a = b := by
  induction k generalizing a b with
  | const _ =>
    cases a <;> simp only [Rescaled] at ha; cases b <;> simp only [Rescaled] at hb
    rw [rescaledH_unique ha hb ht]
  | white _ =>
    cases a <;> simp only [Rescaled] at ha; cases b <;> simp only [Rescaled] at hb
    rw [rescaledH_unique ha hb ht]
  | rbf _ =>
    cases a <;> simp only [Rescaled] at ha; cases b <;> simp only [Rescaled] at hb
    rw [rescaledL_unique ha hb ht]
  | dot _ =>
    cases a <;> simp only [Rescaled] at ha; cases b <;> simp only [Rescaled] at hb
    rw [rescaledH_unique ha hb ht]
  | sum k₁ k₂ ih₁ ih₂ =>
    cases a <;> simp only [Rescaled] at ha; cases b <;> simp only [Rescaled] at hb
    obtain ⟨h1, h2⟩ := theta_append_inj ha.1 hb.1 ht
    rw [ih₁ ha.1 hb.1 h1, ih₂ ha.2 hb.2 h2]
  | prod k₁ k₂ ih₁ ih₂ =>
    cases a <;> simp only [Rescaled] at ha; cases b <;> simp only [Rescaled] at hb
    obtain ⟨h1, h2⟩ := theta_append_inj ha.1 hb.1 ht
    rw [ih₁ ha.1 hb.1 h1, ih₂ ha.2 hb.2 h2]
  | exp k p ih =>
    cases a <;> simp only [Rescaled] at ha; cases b <;> simp only [Rescaled] at hb
    rw [ih ha.2 hb.2 ht, ha.1, hb.1]

/-- All free values are positive. -/
def FreePos (k : Kern) : Prop := ∀ h ∈ params k, h.2 = false → 0 < h.1

theorem rescaledL_refl (l : List Hyper) (h : ∀ x ∈ l, x.2 = false → 0 < x.1) : List.Forall₂ RescaledH l l := by
  induction l with
  | nil => exact .nil
  | cons a l ih =>
    refine .cons ⟨rfl, ?_⟩ (ih (fun x hx => h x (List.mem_cons_of_mem _ hx)))
    rcases ha : a.2 with _ | _
    · simpa using h a List.mem_cons_self ha
    · simp

theorem rescaled_refl (k : Kern) (h : FreePos k) : Rescaled k k := by
  induction k with
  | sum k₁ k₂ h₁ h₂ => exact ⟨h₁ (fun x hx => h x (List.mem_append_left _ hx)), h₂ (fun x hx => h x (List.mem_append_right _ hx))⟩
  | prod k₁ k₂ h₁ h₂ => exact ⟨h₁ (fun x hx => h x (List.mem_append_left _ hx)), h₂ (fun x hx => h x (List.mem_append_right _ hx))⟩
  | exp k p ih => exact ⟨rfl, ih h⟩
  | rbf ls => exact rescaledL_refl ls h
  | _ =>
    have := rescaledL_refl _ h
    simp only [params] at this
    cases this
    assumption

/-- **C56** (partial: no exponentiation, no free noise level, and the second operand of every sum and product has a free hyperparameter).  For every such kernel and every `theta` of the right length,
`CloneWithTheta(theta)` returns a kernel whose `Theta()` is `theta` and which otherwise is the original: the same expression, with the same fixed values, and positive free values.  There is only one such
kernel; in particular cloning with the kernel's own `Theta()` returns an equal kernel.  Missing: the kernels excluded (`C56_white_violated`, `C56_exponent_violated`, `C56_exponent_sum_violated`,
`C56_fixed_operand_violated`). -/
theorem C56_clone_partial (k : Kern) (hk : Cloneable k) : (∃ t, k.theta = some t ∧ t.length = nfree k) ∧
    (∀ t : List ℝ, t.length = nfree k → ∃ c, k.clone t = some c ∧ c.theta = some t ∧ Rescaled k c ∧ ∀ c', Rescaled k c' → c'.theta = some t → c' = c) ∧
    (FreePos k → ∃ t, k.theta = some t ∧ k.clone t = some k) := by
  have hth := theta_eq (cloneable_noExp hk)
  have hmain : ∀ t : List ℝ, t.length = nfree k → ∃ c, k.clone t = some c ∧ c.theta = some t ∧ Rescaled k c ∧ ∀ c', Rescaled k c' → c'.theta = some t → c' = c := by
    intro t ht
    obtain ⟨c, h1, h2, h3⟩ := clone_spec k hk t ht
    refine ⟨c, h1, by rw [theta_eq (rescaled_noExp h3 (cloneable_noExp hk)), h2], h3, fun c' hc' ht' => ?_⟩
    rw [theta_eq (rescaled_noExp hc' (cloneable_noExp hk)), Option.some.injEq] at ht'
    exact rescaled_unique hc' h3 (ht'.trans h2.symm)
  refine ⟨⟨_, hth, thetaOf_length _⟩, hmain, fun hp => ⟨_, hth, ?_⟩⟩
  obtain ⟨c, h1, h2, h3, h4⟩ := hmain _ (thetaOf_length _)
  rw [h1, h4 k (rescaled_refl k hp) hth]

/-- The hypotheses hold for a scaled anisotropic `RBF` with fixed noise added to a dot product; it has three free hyperparameters. -/
example : Cloneable (.sum (.prod (.const (2, false)) (.rbf [(1, false), (3, true)])) (.sum (.white (1, true)) (.dot (4, false)))) ∧
    nfree (.sum (.prod (.const (2, false)) (.rbf [(1, false), (3, true)])) (.sum (.white (1, true)) (.dot (4, false)))) = 3 ∧
    FreePos (.sum (.prod (.const (2, false)) (.rbf [(1, false), (3, true)])) (.sum (.white (1, true)) (.dot (4, false)))) := by
  refine ⟨by simp [Cloneable, nfree, freeH, params], by simp [nfree, freeH, params], ?_⟩
  simp [FreePos, params]

/-- **C56** violated by the noise kernel: its clone keeps the noise level whatever `theta` is. -/
theorem C56_white_violated (s t : ℝ) (h : t ≠ Real.log s) : ∃ c, (Kern.white (s, false)).clone [t] = some c ∧ c = .white (s, false) ∧ c.theta ≠ some [t] := by
  refine ⟨_, rfl, rfl, ?_⟩
  simp [Kern.theta, Kern.hyper, thetaOf, Ne.symm h]

/-- **C56** violated by exponentiation: the clone is the clone of the base kernel, without the exponent. -/
theorem C56_exponent_violated (k : Kern) (p : ℕ) (t : List ℝ) : (Kern.exp k p).clone t = k.clone t ∧
    ∃ c, (Kern.exp (.const (2, false)) 2).clone [Real.log 2] = some c ∧ ∀ (x y : Fin 1 → ℝ), c.val x y = 2 ∧ (Kern.exp (.const (2, false)) 2).val x y = 4 := by
  refine ⟨rfl, .const (Real.exp (Real.log 2), false), rfl, fun x y => ?_⟩
  simp only [Kern.val, Real.exp_log (by norm_num : (0 : ℝ) < 2)]
  norm_num

/-- **C56** violated by sums and products with an exponentiation: `Theta()` and `CloneWithTheta` call `Exponentiation.hyperparameters`, which does not return. -/
theorem C56_exponent_sum_violated (k k' : Kern) (p : ℕ) : (Kern.sum (.exp k p) k').theta = none ∧ (Kern.prod (.exp k p) k').theta = none ∧ (Kern.sum k' (.exp k p)).theta = none ∧
    (Kern.prod k' (.exp k p)).theta = none := by
  refine ⟨rfl, rfl, ?_, ?_⟩ <;> rcases h : k'.hyper with _ | a <;> simp [Kern.theta, Kern.hyper, h]

/-- **C56** violated by sums and products whose second operand is fixed: cloning panics for every `theta` of the right length. -/
theorem C56_fixed_operand_violated (k₁ k₂ : Kern) (h₁ : NoExp k₁) (h₂ : NoExp k₂) (h0 : nfree k₂ = 0) (t : List ℝ) (ht : t.length = nfree (.sum k₁ k₂)) :
    (Kern.sum k₁ k₂).clone t = none ∧ (Kern.prod k₁ k₂).clone t = none := by
  have ht' : t.length = nfree k₁ + nfree k₂ := ht.trans (freeH_append _ _)
  constructor <;>
  · simp only [Kern.clone, theta_eq h₁, theta_eq h₂, Option.bind_eq_bind, Option.bind_some, thetaOf_length]
    rw [if_pos]
    left
    unfold nfree at *
    omega

/-- Such a kernel: an `RBF` with fixed noise. -/
example : NoExp (.rbf [(1, false)]) ∧ NoExp (.white (1, true)) ∧ nfree (.white (1, true)) = 0 := by simp [NoExp, nfree, params, freeH]

/-! ## C102: gradients -/

/-- Kernel expressions for which the gradient is right on the rows `X`: no exponentiation, isotropic `RBF`s, and free noise levels only if no two different rows are equal up to the tolerance. -/
def GradOK {n d : ℕ} (X : Fin n → Fin d → ℝ) : Kern → Prop
  | .const _ => True
  | .white h => h.2 = true ∨ ∀ i j, i ≠ j → ∃ f, ¬ approxEq (X i f) (X j f)
  | .rbf ls => ls.length = 1
  | .dot _ => True
  | .sum k₁ k₂ => GradOK X k₁ ∧ GradOK X k₂
  | .prod k₁ k₂ => GradOK X k₁ ∧ GradOK X k₂
  | .exp _ _ => False

theorem gradOK_noExp {n d : ℕ} {X : Fin n → Fin d → ℝ} {k : Kern} (h : GradOK X k) : NoExp k := by
  induction k with
  | sum k₁ k₂ h₁ h₂ => exact ⟨h₁ h.1, h₂ h.2⟩
  | prod k₁ k₂ h₁ h₂ => exact ⟨h₁ h.1, h₂ h.2⟩
  | exp k p _ => exact absurd h id
  | _ => trivial

/-- `c u` is the kernel `k` with `u` for the `i`-th entry of `Theta()`. -/
def Along (k : Kern) (i : ℕ) (c : ℝ → Kern) : Prop := ∀ u, Rescaled k (c u) ∧ thetaOf (params (c u)) = (thetaOf (params k)).set i u

theorem grad_length {n d : ℕ} {X : Fin n → Fin d → ℝ} {k : Kern} (hk : GradOK X k) : ∃ g, k.grad X = some g ∧ g.length = nfree k := by
  induction k with
  | const h => obtain ⟨v, f⟩ := h; cases f <;> exact ⟨_, rfl, rfl⟩
  | white h => obtain ⟨v, f⟩ := h; cases f <;> exact ⟨_, rfl, rfl⟩
  | rbf ls =>
    obtain ⟨⟨v, f⟩, rfl⟩ := List.length_eq_one_iff.mp hk
    cases f <;> exact ⟨_, rfl, rfl⟩
  | dot h => obtain ⟨v, f⟩ := h; cases f <;> exact ⟨_, rfl, rfl⟩
  | sum k₁ k₂ h₁ h₂ =>
    obtain ⟨g₁, e₁, l₁⟩ := h₁ hk.1
    obtain ⟨g₂, e₂, l₂⟩ := h₂ hk.2
    exact ⟨g₁ ++ g₂, by simp [Kern.grad, e₁, e₂], by rw [List.length_append, l₁, l₂]; exact (freeH_append _ _).symm⟩
  | prod k₁ k₂ h₁ h₂ =>
    obtain ⟨g₁, e₁, l₁⟩ := h₁ hk.1
    obtain ⟨g₂, e₂, l₂⟩ := h₂ hk.2
    exact ⟨g₁.map (fun G i j => G i j * k₂.val (X i) (X j)) ++ g₂.map (fun G i j => G i j * k₁.val (X i) (X j)),
      by simp only [Kern.grad, e₁, e₂, Option.bind_eq_bind, Option.bind_some], by rw [List.length_append, List.length_map, List.length_map, l₁, l₂]; exact (freeH_append _ _).symm⟩
  | exp k p _ => exact absurd hk id

theorem hasDeriv_of {f g : ℝ → ℝ} {a b x : ℝ} (h : HasDerivAt g b x) (hf : ∀ t, f t = g t) (ha : a = b) : HasDerivAt f a x := by
  subst ha
  rwa [show f = g from funext hf]

/-- A single free value followed along its logarithm. -/
theorem along_single {v v' u : ℝ} {f : Bool} {i : ℕ} {h' : Hyper} (hi : i < freeH [(v, f)]) (hr : RescaledH (v, f) h') (ht : thetaOf [h'] = (thetaOf [(v, f)]).set i u) : f = false ∧ i = 0 ∧ h' = (Real.exp u, false) := by
  obtain ⟨a, b⟩ := h'
  cases f with
  | true => simp [freeH] at hi
  | false =>
    have hi0 : i = 0 := by simpa [freeH] using hi
    subst hi0
    obtain ⟨h1, h2⟩ := hr
    simp only at h1
    subst h1
    simp only [Bool.false_eq_true, if_false] at h2
    simp only [thetaOf, Bool.not_false, List.filter_cons_of_pos, List.filter_nil, List.map_cons, List.map_nil, List.set_cons_zero, List.cons.injEq, and_true] at ht
    rw [← ht, Real.exp_log h2]
    exact ⟨rfl, rfl, rfl⟩

/-- In a sum or product, the operand that holds the hyperparameter varies and the other one stays. -/
theorem along_split {k₁ k₂ c₁ c₂ : Kern} {i : ℕ} {u : ℝ} (hp₁ : FreePos k₁) (hp₂ : FreePos k₂) (h₁ : Rescaled k₁ c₁) (h₂ : Rescaled k₂ c₂)
    (ht : thetaOf (params c₁ ++ params c₂) = (thetaOf (params k₁ ++ params k₂)).set i u) :
    (i < nfree k₁ → thetaOf (params c₁) = (thetaOf (params k₁)).set i u ∧ c₂ = k₂) ∧
    (nfree k₁ ≤ i → c₁ = k₁ ∧ thetaOf (params c₂) = (thetaOf (params k₂)).set (i - nfree k₁) u) := by
  have hl : (thetaOf (params c₁)).length = (thetaOf (params k₁)).length := by
    rw [thetaOf_length, thetaOf_length, freeH_eq_of_rescaled (rescaled_params h₁)]
  rw [thetaOf_append, thetaOf_append] at ht
  constructor
  · intro hi
    rw [List.set_append_left _ _ (by rw [thetaOf_length]; exact hi)] at ht
    obtain ⟨e1, e2⟩ := List.append_inj ht (by rw [List.length_set, hl])
    exact ⟨e1, rescaled_unique h₂ (rescaled_refl k₂ hp₂) e2⟩
  · intro hi
    rw [List.set_append_right _ _ (by rw [thetaOf_length]; exact hi), thetaOf_length] at ht
    obtain ⟨e1, e2⟩ := List.append_inj ht hl
    exact ⟨rescaled_unique h₁ (rescaled_refl k₁ hp₁) e1, e2⟩

/-- The `i`-th entry of `Theta()`. -/
noncomputable def thetaAt (k : Kern) (i : ℕ) : ℝ := (thetaOf (params k)).getD i 0

theorem thetaAt_left {k₁ k₂ : Kern} {i : ℕ} (h : i < nfree k₁) : (thetaOf (params k₁ ++ params k₂)).getD i 0 = thetaAt k₁ i := by
  rw [thetaOf_append, thetaAt, List.getD_eq_getElem?_getD, List.getElem?_append_left (by rw [thetaOf_length]; exact h), List.getD_eq_getElem?_getD]

theorem thetaAt_right {k₁ k₂ : Kern} {i : ℕ} (h : nfree k₁ ≤ i) : (thetaOf (params k₁ ++ params k₂)).getD i 0 = thetaAt k₂ (i - nfree k₁) := by
  rw [thetaOf_append, thetaAt, List.getD_eq_getElem?_getD, List.getElem?_append_right (by rw [thetaOf_length]; exact h), thetaOf_length, List.getD_eq_getElem?_getD]
  rfl

theorem exp_deriv (x : ℝ) : HasDerivAt Real.exp (Real.exp x) x := Real.hasDerivAt_exp x

theorem grad_deriv {n d : ℕ} (X : Fin n → Fin d → ℝ) (k : Kern) (hk : GradOK X k) (hp : FreePos k) (i : ℕ) (hi : i < nfree k) (c : ℝ → Kern) (hc : Along k i c)
    (g : List (Fin n → Fin n → ℝ)) (hg : k.grad X = some g) (G : Fin n → Fin n → ℝ) (hG : g[i]? = some G) (a b : Fin n) :
    HasDerivAt (fun u => (c u).val (X a) (X b)) (G a b) (thetaAt k i) := by
  induction k generalizing i c g G with
  | const h =>
    obtain ⟨v, f⟩ := h
    have hcu : ∀ u, f = false ∧ i = 0 ∧ c u = .const (Real.exp u, false) := by
      intro u
      obtain ⟨hr, ht⟩ := hc u
      cases hcu : c u <;> rw [hcu] at hr ht <;> simp only [Rescaled] at hr
      obtain ⟨h1, h2, h3⟩ := along_single (v' := 0) hi hr ht
      exact ⟨h1, h2, by rw [h3]⟩
    obtain ⟨rfl, rfl, -⟩ := hcu 0
    have hv : 0 < v := hp (v, false) (by simp [params]) rfl
    simp only [Kern.grad, Bool.false_eq_true, if_false, Option.some.injEq] at hg
    subst hg
    simp only [List.getElem?_cons_zero, Option.some.injEq] at hG
    subst hG
    have hth : thetaAt (.const (v, false)) 0 = Real.log v := rfl
    rw [hth]
    refine hasDeriv_of (exp_deriv (Real.log v)) (fun u => ?_) (Real.exp_log hv).symm
    rw [(hcu u).2.2]
    rfl
  | white h =>
    obtain ⟨v, f⟩ := h
    have hcu : ∀ u, f = false ∧ i = 0 ∧ c u = .white (Real.exp u, false) := by
      intro u
      obtain ⟨hr, ht⟩ := hc u
      cases hcu : c u <;> rw [hcu] at hr ht <;> simp only [Rescaled] at hr
      obtain ⟨h1, h2, h3⟩ := along_single (v' := 0) hi hr ht
      exact ⟨h1, h2, by rw [h3]⟩
    obtain ⟨rfl, rfl, -⟩ := hcu 0
    have hv : 0 < v := hp (v, false) (by simp [params]) rfl
    have hd : ∀ i j, i ≠ j → ∃ f, ¬ approxEq (X i f) (X j f) := hk.resolve_left (by simp)
    simp only [Kern.grad, Bool.false_eq_true, if_false, Option.some.injEq] at hg
    subst hg
    simp only [List.getElem?_cons_zero, Option.some.injEq] at hG
    subst hG
    have hth : thetaAt (.white (v, false)) 0 = Real.log v := rfl
    rw [hth]
    by_cases hab : a = b
    · subst hab
      refine hasDeriv_of (exp_deriv (Real.log v)) (fun u => ?_) ((if_pos rfl).trans (Real.exp_log hv).symm)
      rw [(hcu u).2.2, val_self]
      rfl
    · refine hasDeriv_of (hasDerivAt_const _ (0 : ℝ)) (fun u => ?_) (if_neg hab)
      rw [(hcu u).2.2]
      simp only [Kern.val]
      rw [if_neg]
      intro h
      obtain ⟨f, hf⟩ := hd a b hab
      exact hf (h f)
  | dot h =>
    obtain ⟨v, f⟩ := h
    have hcu : ∀ u, f = false ∧ i = 0 ∧ c u = .dot (Real.exp u, false) := by
      intro u
      obtain ⟨hr, ht⟩ := hc u
      cases hcu : c u <;> rw [hcu] at hr ht <;> simp only [Rescaled] at hr
      obtain ⟨h1, h2, h3⟩ := along_single (v' := 0) hi hr ht
      exact ⟨h1, h2, by rw [h3]⟩
    obtain ⟨rfl, rfl, -⟩ := hcu 0
    have hv : 0 < v := hp (v, false) (by simp [params]) rfl
    simp only [Kern.grad, Bool.false_eq_true, if_false, Option.some.injEq] at hg
    subst hg
    simp only [List.getElem?_cons_zero, Option.some.injEq] at hG
    subst hG
    have hth : thetaAt (.dot (v, false)) 0 = Real.log v := rfl
    rw [hth]
    refine hasDeriv_of (((exp_deriv (Real.log v)).mul (exp_deriv (Real.log v))).add_const (∑ f, X a f * X b f)) (fun u => ?_) ?_
    · rw [(hcu u).2.2]
      rfl
    · rw [Real.exp_log hv]
      ring
  | rbf ls =>
    obtain ⟨⟨v, f⟩, rfl⟩ := List.length_eq_one_iff.mp hk
    have hcu : ∀ u, f = false ∧ i = 0 ∧ c u = .rbf [(Real.exp u, false)] := by
      intro u
      obtain ⟨hr, ht⟩ := hc u
      cases hcu : c u <;> rw [hcu] at hr ht <;> simp only [Rescaled] at hr
      cases hr with
      | cons hr hn =>
        cases hn
        obtain ⟨h1, h2, h3⟩ := along_single (v' := 0) hi hr ht
        exact ⟨h1, h2, by rw [h3]⟩
    obtain ⟨rfl, rfl, -⟩ := hcu 0
    have hv : 0 < v := hp (v, false) (by simp [params]) rfl
    simp only [Kern.grad, Bool.false_eq_true, if_false, Option.some.injEq] at hg
    subst hg
    simp only [List.getElem?_cons_zero, Option.some.injEq] at hG
    subst hG
    have hth : thetaAt (.rbf [(v, false)]) 0 = Real.log v := rfl
    rw [hth]
    have hsc : ∀ (w : ℝ) (e : ℕ), scaleOf [(w, false)] e = w := fun w e => by simp [scaleOf]
    have hval : ∀ w : ℝ, (Kern.rbf [(w, false)]).val (X a) (X b) = Real.exp (-0.5 * ∑ f : Fin d, (X a f / w - X b f / w) * (X a f / w - X b f / w)) := by
      intro w
      simp only [Kern.val, hsc]
    have hin : HasDerivAt (fun u => -0.5 * ((∑ f : Fin d, (X a f - X b f) * (X a f - X b f)) * Real.exp (-2 * u)))
        (-0.5 * ((∑ f : Fin d, (X a f - X b f) * (X a f - X b f)) * (Real.exp (-2 * Real.log v) * (-2 * 1)))) (Real.log v) :=
      ((((hasDerivAt_id (Real.log v)).const_mul (-2)).exp).const_mul _).const_mul _
    have he : ∀ u, (∑ f : Fin d, (X a f / Real.exp u - X b f / Real.exp u) * (X a f / Real.exp u - X b f / Real.exp u)) = (∑ f : Fin d, (X a f - X b f) * (X a f - X b f)) * Real.exp (-2 * u) := by
      intro u
      rw [Finset.sum_mul]
      refine Finset.sum_congr rfl (fun f _ => ?_)
      have h2 : Real.exp (-2 * u) = (Real.exp u)⁻¹ * (Real.exp u)⁻¹ := by rw [← Real.exp_neg, ← Real.exp_add]; ring_nf
      rw [h2]
      ring
    refine hasDeriv_of hin.exp (fun u => ?_) ?_
    · rw [(hcu u).2.2, hval, he]
    · have hx := he (Real.log v)
      rw [Real.exp_log hv] at hx
      beta_reduce
      rw [hval, hx]
      have hy : (∑ f : Fin d, ((X a f - X b f) / scaleOf [(v, false)] f) * ((X a f - X b f) / scaleOf [(v, false)] f)) = (∑ f : Fin d, (X a f - X b f) * (X a f - X b f)) * Real.exp (-2 * Real.log v) := by
        rw [← hx]
        refine Finset.sum_congr rfl (fun f _ => ?_)
        rw [hsc]
        ring
      rw [hy]
      ring
  | sum k₁ k₂ ih₁ ih₂ =>
    obtain ⟨g₁, e₁, l₁⟩ := grad_length hk.1
    obtain ⟨g₂, e₂, l₂⟩ := grad_length hk.2
    have hp₁ : FreePos k₁ := fun x hx => hp x (List.mem_append_left _ hx)
    have hp₂ : FreePos k₂ := fun x hx => hp x (List.mem_append_right _ hx)
    have hcc : ∀ u, ∃ c₁ c₂, c u = .sum c₁ c₂ ∧ Rescaled k₁ c₁ ∧ Rescaled k₂ c₂ ∧ thetaOf (params c₁ ++ params c₂) = (thetaOf (params k₁ ++ params k₂)).set i u := by
      intro u
      obtain ⟨hr, ht⟩ := hc u
      cases hcu : c u <;> rw [hcu] at hr ht <;> simp only [Rescaled] at hr
      exact ⟨_, _, rfl, hr.1, hr.2, ht⟩
    choose c₁ c₂ hcs h1 h2 ht using hcc
    simp only [Kern.grad, e₁, e₂, Option.bind_eq_bind, Option.bind_some, Option.some.injEq] at hg
    subst hg
    by_cases hlt : i < nfree k₁
    · have hs := fun u => (along_split hp₁ hp₂ (h1 u) (h2 u) (ht u)).1 hlt
      rw [List.getElem?_append_left (by rw [l₁]; exact hlt)] at hG
      have := ih₁ hk.1 hp₁ i hlt c₁ (fun u => ⟨h1 u, (hs u).1⟩) g₁ e₁ G hG
      have hth : thetaAt (.sum k₁ k₂) i = thetaAt k₁ i := thetaAt_left hlt
      rw [hth]
      refine hasDeriv_of (this.add_const (k₂.val (X a) (X b))) (fun u => ?_) rfl
      rw [hcs u, (hs u).2]
      rfl
    · have hge : nfree k₁ ≤ i := by omega
      have hs := fun u => (along_split hp₁ hp₂ (h1 u) (h2 u) (ht u)).2 hge
      rw [List.getElem?_append_right (by rw [l₁]; exact hge), l₁] at hG
      have hi2 : i - nfree k₁ < nfree k₂ := by
        have : nfree (.sum k₁ k₂) = nfree k₁ + nfree k₂ := freeH_append _ _
        omega
      have := ih₂ hk.2 hp₂ (i - nfree k₁) hi2 c₂ (fun u => ⟨h2 u, (hs u).2⟩) g₂ e₂ G hG
      have hth : thetaAt (.sum k₁ k₂) i = thetaAt k₂ (i - nfree k₁) := thetaAt_right hge
      rw [hth]
      refine hasDeriv_of (this.const_add (k₁.val (X a) (X b))) (fun u => ?_) rfl
      rw [hcs u, (hs u).1]
      rfl
  | prod k₁ k₂ ih₁ ih₂ =>
    obtain ⟨g₁, e₁, l₁⟩ := grad_length hk.1
    obtain ⟨g₂, e₂, l₂⟩ := grad_length hk.2
    have hp₁ : FreePos k₁ := fun x hx => hp x (List.mem_append_left _ hx)
    have hp₂ : FreePos k₂ := fun x hx => hp x (List.mem_append_right _ hx)
    have hcc : ∀ u, ∃ c₁ c₂, c u = .prod c₁ c₂ ∧ Rescaled k₁ c₁ ∧ Rescaled k₂ c₂ ∧ thetaOf (params c₁ ++ params c₂) = (thetaOf (params k₁ ++ params k₂)).set i u := by
      intro u
      obtain ⟨hr, ht⟩ := hc u
      cases hcu : c u <;> rw [hcu] at hr ht <;> simp only [Rescaled] at hr
      exact ⟨_, _, rfl, hr.1, hr.2, ht⟩
    choose c₁ c₂ hcs h1 h2 ht using hcc
    simp only [Kern.grad, e₁, e₂, Option.bind_eq_bind, Option.bind_some, Option.some.injEq] at hg
    subst hg
    by_cases hlt : i < nfree k₁
    · have hs := fun u => (along_split hp₁ hp₂ (h1 u) (h2 u) (ht u)).1 hlt
      rw [List.getElem?_append_left (by rw [List.length_map, l₁]; exact hlt), List.getElem?_map, Option.map_eq_some_iff] at hG
      obtain ⟨G', hG', rfl⟩ := hG
      have := ih₁ hk.1 hp₁ i hlt c₁ (fun u => ⟨h1 u, (hs u).1⟩) g₁ e₁ G' hG'
      have hth : thetaAt (.prod k₁ k₂) i = thetaAt k₁ i := thetaAt_left hlt
      rw [hth]
      refine hasDeriv_of (this.mul_const (k₂.val (X a) (X b))) (fun u => ?_) rfl
      rw [hcs u, (hs u).2]
      rfl
    · have hge : nfree k₁ ≤ i := by omega
      have hs := fun u => (along_split hp₁ hp₂ (h1 u) (h2 u) (ht u)).2 hge
      rw [List.getElem?_append_right (by rw [List.length_map, l₁]; exact hge), List.length_map, l₁, List.getElem?_map, Option.map_eq_some_iff] at hG
      obtain ⟨G', hG', rfl⟩ := hG
      have hi2 : i - nfree k₁ < nfree k₂ := by
        have : nfree (.prod k₁ k₂) = nfree k₁ + nfree k₂ := freeH_append _ _
        omega
      have := ih₂ hk.2 hp₂ (i - nfree k₁) hi2 c₂ (fun u => ⟨h2 u, (hs u).2⟩) g₂ e₂ G' hG'
      have hth : thetaAt (.prod k₁ k₂) i = thetaAt k₂ (i - nfree k₁) := thetaAt_right hge
      rw [hth]
      refine hasDeriv_of (this.const_mul (k₁.val (X a) (X b))) (fun u => ?_) (mul_comm _ _)
      rw [hcs u, (hs u).1]
      rfl
  | exp k p _ => exact absurd hk id

/-- **C102** (partial: no exponentiation, isotropic `RBF`s, free noise levels only on different rows).  The gradient returned by `Eval(X, nil, true)` has one `n × n` slice per entry of `Theta()`, and each
entry of the `i`-th slice is the derivative of the same entry of `Eval(X, X)` with respect to the `i`-th entry of `Theta()`.  Missing: the kernels excluded (`C102_white_violated`,
`C102_anisotropic_violated`, `C102_exponent_violated`). -/
theorem C102_gradient_partial {n d : ℕ} (X : Fin n → Fin d → ℝ) (k : Kern) (hk : GradOK X k) (hp : FreePos k) :
    ∃ g t, k.grad X = some g ∧ k.theta = some t ∧ g.length = t.length ∧ ∀ (i : ℕ) (hi : i < g.length) (hi' : i < t.length) (c : ℝ → Kern),
      (∀ u, Rescaled k (c u) ∧ (c u).theta = some (t.set i u)) → ∀ a b, HasDerivAt (fun u => (c u).val (X a) (X b)) (g[i] a b) t[i] := by
  obtain ⟨g, hg, hl⟩ := grad_length hk
  have hne := gradOK_noExp hk
  refine ⟨g, _, hg, theta_eq hne, by rw [hl, thetaOf_length]; rfl, fun i hi hi' c hc a b => ?_⟩
  have := grad_deriv X k hk hp i (by rw [← hl]; exact hi) c (fun u => ⟨(hc u).1, ?_⟩) g hg g[i] (List.getElem?_eq_getElem hi) a b
  · have hth : thetaAt k i = (thetaOf (params k))[i] := by
      unfold thetaAt
      rw [List.getD_eq_getElem?_getD, List.getElem?_eq_getElem hi', Option.getD_some]
    rwa [hth] at this
  · have h2 := (hc u).2
    rw [theta_eq (rescaled_noExp (hc u).1 hne), Option.some.injEq] at h2
    exact h2

/-- The hypotheses hold for a scaled `RBF` plus noise on the rows `0, 1`; along each hyperparameter the kernels exist (`C56_clone_partial` gives them where it applies; here the noise level varies). -/
example : GradOK (fun (i : Fin 2) (_ : Fin 1) => (i.val : ℝ)) (.sum (.prod (.const (2, false)) (.rbf [(3, false)])) (.white (1, false))) ∧
    FreePos (.sum (.prod (.const (2, false)) (.rbf [(3, false)])) (.white (1, false))) ∧
    ∀ u, Rescaled (.sum (.prod (.const (2, false)) (.rbf [(3, false)])) (.white (1, false))) (.sum (.prod (.const (2, false)) (.rbf [(3, false)])) (.white (Real.exp u, false))) ∧
      (Kern.sum (.prod (.const (2, false)) (.rbf [(3, false)])) (.white (Real.exp u, false))).theta = some ([Real.log 2, Real.log 3, Real.log 1].set 2 u) := by
  refine ⟨⟨⟨trivial, rfl⟩, Or.inr (fun i j hij => ⟨0, ?_⟩)⟩, by simp [FreePos, params], fun u => ⟨?_, ?_⟩⟩
  · intro h
    fin_cases i <;> fin_cases j <;> simp [approxEq] at h hij <;> norm_num at h
  · simp [Rescaled, RescaledH, Real.exp_pos]
  · simp [Kern.theta, Kern.hyper, thetaOf]

/-- **C102** violated by a noise kernel on equal rows: the entry of the gradient is zero, the derivative is the noise level. -/
theorem C102_white_violated {n d : ℕ} (X : Fin n → Fin d → ℝ) (s : ℝ) (hs : 0 < s) (a b : Fin n) (hab : a ≠ b) (he : X a = X b) :
    ∃ g, (Kern.white (s, false)).grad X = some g ∧ ∃ h : 0 < g.length, g[0] a b = 0 ∧ HasDerivAt (fun u => (Kern.white (Real.exp u, false)).val (X a) (X b)) s (Real.log s) := by
  refine ⟨_, rfl, Nat.zero_lt_one, if_neg hab, ?_⟩
  refine hasDeriv_of (exp_deriv (Real.log s)) (fun u => ?_) (Real.exp_log hs).symm
  rw [he, val_self]
  rfl

/-- **C102** violated by an anisotropic `RBF`: one slice whatever the number of length scales. -/
theorem C102_anisotropic_violated {n d : ℕ} (X : Fin n → Fin d → ℝ) (ls : List Hyper) (h2 : 2 ≤ ls.length) (hf : ∀ h ∈ ls, h.2 = false) :
    ∃ g t, (Kern.rbf ls).grad X = some g ∧ (Kern.rbf ls).theta = some t ∧ g.length = 1 ∧ t.length = ls.length := by
  obtain _ | ⟨⟨v, f⟩, ls⟩ := ls
  · simp at h2
  · have : f = false := hf (v, f) List.mem_cons_self
    subst this
    refine ⟨_, _, rfl, rfl, rfl, ?_⟩
    rw [thetaOf_length, freeH, List.filter_eq_self.mpr (fun h hh => by simp [hf h hh])]

/-- **C102** violated by exponentiation: for the square of a constant `v` the derivative with respect to `log v` is `2 v²`, the code returns `2 v³`. -/
theorem C102_exponent_violated {n d : ℕ} (X : Fin n → Fin d → ℝ) (v : ℝ) (hv : 0 < v) (h1 : v ≠ 1) (a b : Fin n) :
    ∃ g, (Kern.exp (.const (v, false)) 2).grad X = some g ∧ ∃ h : 0 < g.length, ¬ HasDerivAt (fun u => (Kern.exp (.const (Real.exp u, false)) 2).val (X a) (X b)) (g[0] a b) (Real.log v) := by
  refine ⟨[fun i j => v * ((2 : ℕ) * (v ^ 2) ^ (2 - 1))], ?_, Nat.zero_lt_one, ?_⟩
  · simp [Kern.grad, Kern.val]
  · intro h
    have h2 : HasDerivAt (fun u => (Kern.exp (.const (Real.exp u, false)) 2).val (X a) (X b)) (2 * v ^ 2) (Real.log v) := by
      refine hasDeriv_of ((exp_deriv (Real.log v)).mul (exp_deriv (Real.log v))) (fun u => ?_) ?_
      · simp only [Kern.val, Pi.mul_apply]
        ring
      · rw [Real.exp_log hv]
        ring
    have := h.unique h2
    simp only [List.getElem_cons_zero] at this
    have h3 : 2 * v ^ 2 * (v - 1) = 0 := by
      push_cast at this
      linear_combination this
    rcases mul_eq_zero.mp h3 with h4 | h4
    · have : 0 < 2 * v ^ 2 := by positivity
      exact absurd h4 this.ne'
    · exact h1 (by linarith)

end Sk.GP
