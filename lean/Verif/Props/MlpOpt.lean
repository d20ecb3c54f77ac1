import Verif.Model.MlpOpt
import Verif.Props.MlpGrad

/-! # C160, C161: the LBFGS solver, weight decay and batch normalisation of the multilayer perceptron -/
set_option autoImplicit false

namespace Sk.MlpOpt
open Sk.Mlp

/-! ### C160: what the minimiser is told, and what is left in the network -/

section
variable {P : Type}

/-- The argument of the last evaluation in a list of calls. -/
def lastFunc : List (Call P) → Option P
  | [] => none
  | .grad _ :: cs => lastFunc cs
  | .func w :: cs => some ((lastFunc cs).getD w)

/-- The arguments of the evaluations. -/
def funcs : List (Call P) → List P
  | [] => []
  | .grad _ :: cs => funcs cs
  | .func w :: cs => w :: funcs cs

variable (decay : P → P) (lossAt : P → ℝ) (gradAt : P → P)

theorem calls_grads (cs : List (Call P)) : ∀ s : State P, (calls decay lossAt gradAt s cs).1.grads = ((lastFunc cs).map (fun w => gradAt (decay w))).getD s.grads := by
  induction cs with
  | nil => intro s; rfl
  | cons c cs ih =>
    intro s
    cases c with
    | grad w => exact ih s
    | func w =>
      simp only [calls, ih, call, evalFunc, lastFunc]
      cases lastFunc cs <;> rfl

theorem calls_packed (cs : List (Call P)) : ∀ s : State P, (calls decay lossAt gradAt s cs).1.packed = ((lastFunc cs).map decay).getD s.packed := by
  induction cs with
  | nil => intro s; rfl
  | cons c cs ih =>
    intro s
    cases c with
    | grad w => exact ih s
    | func w =>
      simp only [calls, ih, call, evalFunc, lastFunc]
      cases lastFunc cs <;> rfl

theorem calls_loss (cs : List (Call P)) : ∀ s : State P, (calls decay lossAt gradAt s cs).1.loss = ((lastFunc cs).map (fun w => lossAt (decay w))).getD s.loss := by
  induction cs with
  | nil => intro s; rfl
  | cons c cs ih =>
    intro s
    cases c with
    | grad w => exact ih s
    | func w =>
      simp only [calls, ih, call, evalFunc, lastFunc]
      cases lastFunc cs <;> rfl

theorem calls_curve (cs : List (Call P)) : ∀ s : State P, (calls decay lossAt gradAt s cs).1.curve = s.curve ++ (funcs cs).map (fun w => lossAt (decay w)) := by
  induction cs with
  | nil => intro s; simp [calls, funcs]
  | cons c cs ih =>
    intro s
    cases c with
    | grad w => exact ih s
    | func w => simp [calls, ih, call, evalFunc, funcs]

theorem calls_best_some (cs : List (Call P)) : ∀ (s : State P) (b : ℝ), s.best = some b →
    ∃ m, (calls decay lossAt gradAt s cs).1.best = some m ∧ m ∈ b :: (funcs cs).map (fun w => lossAt (decay w)) ∧ ∀ x ∈ b :: (funcs cs).map (fun w => lossAt (decay w)), m ≤ x := by
  induction cs with
  | nil => intro s b hb; exact ⟨b, hb, by simp [funcs], by simp [funcs]⟩
  | cons c cs ih =>
    intro s b hb
    cases c with
    | grad w => exact ih s b hb
    | func w =>
      by_cases h : b > lossAt (decay w)
      · obtain ⟨m, h1, h2, h3⟩ := ih (call decay lossAt gradAt s (.func w)).1 (lossAt (decay w)) (by simp [call, evalFunc, hb, h])
        refine ⟨m, h1, ?_, ?_⟩
        · simp only [funcs, List.map_cons, List.mem_cons] at h2 ⊢
          exact Or.inr h2
        · intro x hx
          simp only [funcs, List.map_cons, List.mem_cons] at hx h3 ⊢
          rcases hx with hx | hx
          · rw [hx]; exact (h3 _ (Or.inl rfl)).trans h.le
          · exact h3 x hx
      · obtain ⟨m, h1, h2, h3⟩ := ih (call decay lossAt gradAt s (.func w)).1 b (by simp [call, evalFunc, hb, h])
        refine ⟨m, h1, ?_, ?_⟩
        · simp only [funcs, List.map_cons, List.mem_cons] at h2 ⊢
          rcases h2 with h2 | h2
          · exact Or.inl h2
          · exact Or.inr (Or.inr h2)
        · intro x hx
          simp only [funcs, List.map_cons, List.mem_cons] at hx h3 ⊢
          rcases hx with hx | hx | hx
          · exact h3 x (Or.inl hx)
          · rw [hx]; exact (h3 _ (Or.inl rfl)).trans (not_lt.1 h)
          · exact h3 x (Or.inr hx)

theorem calls_best_none (cs : List (Call P)) : ∀ (s : State P), s.best = none → funcs cs ≠ [] →
    ∃ m, (calls decay lossAt gradAt s cs).1.best = some m ∧ m ∈ (funcs cs).map (fun w => lossAt (decay w)) ∧ ∀ x ∈ (funcs cs).map (fun w => lossAt (decay w)), m ≤ x := by
  induction cs with
  | nil => intro s _ h; exact absurd rfl h
  | cons c cs ih =>
    intro s hb h
    cases c with
    | grad w => exact ih s hb h
    | func w => exact calls_best_some decay lossAt gradAt cs (call decay lossAt gradAt s (.func w)).1 (lossAt (decay w)) (by simp [call, evalFunc, hb])

theorem calls_append (cs ds : List (Call P)) : ∀ s : State P, (calls decay lossAt gradAt s (cs ++ ds)).2 =
    (calls decay lossAt gradAt s cs).2 ++ (calls decay lossAt gradAt (calls decay lossAt gradAt s cs).1 ds).2 := by
  induction cs with
  | nil => intro s; rfl
  | cons c cs ih => intro s; simp [calls, ih]

theorem calls_length (cs : List (Call P)) : ∀ s : State P, (calls decay lossAt gradAt s cs).2.length = cs.length := by
  induction cs with
  | nil => intro s; rfl
  | cons c cs ih => intro s; simp [calls, ih]

/-- C160: whatever the minimiser asks, in whatever order, an evaluation at `w` is answered with the loss at the decayed `w`, and a gradient with the gradient at the (decayed) point of the last evaluation. -/
theorem C160_answers (zero init : P) (s : State P) (pre post : List (Call P)) (w v : P) :
    (fitLbfgs decay lossAt gradAt zero init s (pre ++ .func w :: post)).2[pre.length]? = some (.val (lossAt (decay w))) ∧
    (lastFunc pre = some v → (fitLbfgs decay lossAt gradAt zero init s (pre ++ .grad w :: post)).2[pre.length]? = some (.vec (gradAt (decay v)))) := by
  constructor
  · rw [fitLbfgs, calls_append, List.getElem?_append_right (by rw [calls_length]), calls_length]
    simp [calls, call, evalFunc]
  · intro h
    rw [fitLbfgs, calls_append, List.getElem?_append_right (by rw [calls_length]), calls_length]
    simp [calls, call, calls_grads, h]

/-- C160: after the minimisation the network has the (decayed) parameters of the last evaluation and its loss; the loss curve has grown by the losses of all evaluations in order, and the best loss is their minimum. -/
theorem C160_final (zero init : P) (s : State P) (cs : List (Call P)) (w : P) (hw : lastFunc cs = some w) :
    (fitLbfgs decay lossAt gradAt zero init s cs).1.packed = decay w ∧
    (fitLbfgs decay lossAt gradAt zero init s cs).1.loss = lossAt (decay w) ∧
    (fitLbfgs decay lossAt gradAt zero init s cs).1.curve = s.curve ++ (funcs cs).map (fun w => lossAt (decay w)) ∧
    ∃ m, (fitLbfgs decay lossAt gradAt zero init s cs).1.best = some m ∧ m ∈ (funcs cs).map (fun w => lossAt (decay w)) ∧ ∀ v ∈ funcs cs, m ≤ lossAt (decay v) := by
  have hne : funcs cs ≠ [] := by
    intro h
    have : ∀ cs : List (Call P), funcs cs = [] → lastFunc cs = none := by
      intro cs
      induction cs with
      | nil => intro _; rfl
      | cons c cs ih =>
        intro h
        cases c with
        | grad w => exact ih h
        | func w => simp [funcs] at h
    rw [this cs h] at hw
    cases hw
  refine ⟨?_, ?_, ?_, ?_⟩
  · rw [fitLbfgs, calls_packed, hw]; rfl
  · rw [fitLbfgs, calls_loss, hw]; rfl
  · rw [fitLbfgs, calls_curve]
  · obtain ⟨m, h1, h2, h3⟩ := calls_best_none decay lossAt gradAt cs { s with packed := init, grads := zero, best := none } rfl hne
    exact ⟨m, h1, h2, fun v hv => h3 _ (List.mem_map_of_mem hv)⟩

/-- Hypothesis met. -/
example : lastFunc [.func 1, .grad 1, .func 2, .grad 2, .func (3 : ℝ), .grad 7] = some 3 := rfl

/-- C160, violated: the parameters are not those of the best evaluation.  Whenever the last point tried is worse than one tried before, the network keeps the last point, and its loss is above `BestLoss`. -/
theorem C160_result_violated (zero init : P) (s : State P) (cs : List (Call P)) (w₁ w₂ : P) (h₁ : w₁ ∈ funcs cs) (h₂ : lastFunc cs = some w₂) (hlt : lossAt w₁ < lossAt w₂) :
    (fitLbfgs id lossAt gradAt zero init s cs).1.packed = w₂ ∧ ∃ m, (fitLbfgs id lossAt gradAt zero init s cs).1.best = some m ∧ m ≤ lossAt w₁ ∧ m < lossAt (fitLbfgs id lossAt gradAt zero init s cs).1.packed := by
  obtain ⟨hp, -, -, m, h1, -, h3⟩ := C160_final id lossAt gradAt zero init s cs w₂ h₂
  rw [hp]
  exact ⟨rfl, m, h1, h3 w₁ h₁, (h3 w₁ h₁).trans_lt hlt⟩

/-- Hypotheses met: a line search for `w²` that ends on a point tried and rejected. -/
example : (1 : ℝ) ∈ funcs [.func 2, .grad 2, .func 1, .grad 1, .func (-3 : ℝ)] ∧ lastFunc [.func 2, .grad 2, .func 1, .grad 1, .func (-3 : ℝ)] = some (-3) ∧ (fun w : ℝ => w * w) 1 < (fun w : ℝ => w * w) (-3) := by
  refine ⟨by simp [funcs], rfl, by norm_num⟩

/-- C160, violated: a gradient asked for at another point than the last evaluation is the gradient at that last point. -/
theorem C160_stale_violated (zero init : P) (s : State P) (pre post : List (Call P)) (w v : P) (hv : lastFunc pre = some v) (hne : gradAt v ≠ gradAt w) :
    ∃ g, (fitLbfgs id lossAt gradAt zero init s (pre ++ .grad w :: post)).2[pre.length]? = some (.vec g) ∧ g ≠ gradAt w :=
  ⟨gradAt v, (C160_answers id lossAt gradAt zero init s pre post w v).2 hv, hne⟩

/-- Hypotheses met. -/
example : lastFunc [.func (1 : ℝ)] = some 1 ∧ (fun w : ℝ => 2 * w) 1 ≠ (fun w : ℝ => 2 * w) 3 := ⟨rfl, by norm_num⟩

/-- C160, violated: after a second `Fit` the loss curve is not that of the second fit. -/
theorem C160_curve_violated (zero init : P) (s : State P) (cs : List (Call P)) (hs : s.curve ≠ []) :
    (fitLbfgs decay lossAt gradAt zero init s cs).1.curve ≠ (funcs cs).map (fun w => lossAt (decay w)) := by
  rw [fitLbfgs, calls_curve]
  intro h
  have := congrArg List.length h
  simp only [List.length_append] at this
  exact hs (List.length_eq_zero_iff.1 (by omega))

/-- Hypothesis met: a first fit with one evaluation. -/
example : (fitLbfgs id (fun w : ℝ => w * w) (fun w => 2 * w) 0 2 ⟨0, 0, 0, [], none⟩ [.func 2]).1.curve ≠ [] := by simp [fitLbfgs, calls, call, evalFunc]

end

/-- C160: without weight decay, a gradient asked for at the point of the last evaluation is the gradient of the function that the evaluations answer with (activations `identity`, `logistic`, `relu`; where the loss is differentiable).
Missing for the full claim: what `C160_result_violated`, `C160_stale_violated`, `C160_decay_violated`, `C160_curve_violated` refute. -/
theorem C160_gradient_partial (hmin hmax : ℝ) (a : Act) (ha : a ≠ .tanh) (out : Out) (alpha : ℝ) {n p q : ℕ} (hn : n ≠ 0) (hs : List ℕ) (X : Fin n → Fin p → ℝ) (y : Fin n → Fin q → ℝ) (zero init w : Params p hs q)
    (hk : a = .relu → ∀ i, NoKink a hs w (X i)) (hg : GoodTargets hmin hmax out y (fun i => forward a out hs w (X i))) (s : State (Params p hs q)) (pre post : List (Call (Params p hs q))) (hpre : lastFunc pre = some w) :
    ∃ (J : Params p hs q → ℝ) (g : Params p hs q),
      (∀ v pre' post', (fitLbfgs id (lossVal hmin hmax a out alpha hs X y) (grads a out alpha hs X y) zero init s (pre' ++ .func v :: post')).2[pre'.length]? = some (.val (J v))) ∧
      (fitLbfgs id (lossVal hmin hmax a out alpha hs X y) (grads a out alpha hs X y) zero init s (pre ++ .grad w :: post)).2[pre.length]? = some (.vec g) ∧ IsGradient hs J w g :=
  ⟨lossVal hmin hmax a out alpha hs X y, grads a out alpha hs X y w, fun v pre' post' => (C160_answers _ _ _ zero init s pre' post' v v).1, (C160_answers _ _ _ zero init s pre post w w).2 hpre,
    C93_backprop_partial hmin hmax a ha out alpha hn hs X y w hk hg⟩

/-- Hypotheses met: see C93; a call sequence. -/
example (w : Params 1 [1] 1) : lastFunc [.func w] = some w := rfl

/-- C160, violated: with weight decay the gradient answered is not the derivative of the loss answered; each component is the derivative divided by `1 - WeightDecay`. -/
theorem C160_decay_violated {N : ℕ} (f : (Fin N → ℝ) → ℝ) (gradAt : (Fin N → ℝ) → Fin N → ℝ) (hgrad : ∀ v d : Fin N → ℝ, HasDerivAt (fun t => f (fun i => v i + t * d i)) (∑ i, gradAt v i * d i) 0)
    (wd : ℝ) (hwd : 0 < wd) (zero init : Fin N → ℝ) (s : State (Fin N → ℝ)) (w : Fin N → ℝ) (i : Fin N) (hi : gradAt (decayVec wd w) i ≠ 0) :
    ∃ (J : (Fin N → ℝ) → ℝ) (g : Fin N → ℝ),
      (∀ v pre post, (fitLbfgs (decayVec wd) f gradAt zero init s (pre ++ .func v :: post)).2[pre.length]? = some (.val (J v))) ∧
      (fitLbfgs (decayVec wd) f gradAt zero init s [.func w, .grad w]).2 = [.val (J w), .vec g] ∧
      HasDerivAt (fun t => J (fun k => w k + t * if k = i then 1 else 0)) ((1 - wd) * g i) 0 ∧
      ¬ HasDerivAt (fun t => J (fun k => w k + t * if k = i then 1 else 0)) (g i) 0 := by
  have hd : HasDerivAt (fun t => f (decayVec wd (fun k => w k + t * if k = i then 1 else 0))) ((1 - wd) * gradAt (decayVec wd w) i) 0 := by
    have h := hgrad (decayVec wd w) (fun k => if k = i then 1 - wd else 0)
    have e : (fun t => f (fun k => decayVec wd w k + t * if k = i then 1 - wd else 0)) = fun t => f (decayVec wd (fun k => w k + t * if k = i then 1 else 0)) := by
      funext t
      congr 1
      funext k
      simp only [decayVec, if_pos hwd]
      split_ifs <;> ring
    rw [e] at h
    have e2 : ∑ k, gradAt (decayVec wd w) k * (if k = i then 1 - wd else 0) = (1 - wd) * gradAt (decayVec wd w) i := by
      simp [mul_comm]
    rwa [e2] at h
  refine ⟨fun v => f (decayVec wd v), gradAt (decayVec wd w), fun v pre post => (C160_answers _ _ _ zero init s pre post v v).1, rfl, hd, fun h => ?_⟩
  have := h.unique hd
  have h2 : wd * gradAt (decayVec wd w) i = 0 := by linarith
  rcases mul_eq_zero.1 h2 with h3 | h3
  · exact hwd.ne' h3
  · exact hi h3

/-- Hypotheses met: `f w = w₀`, at any `w`. -/
example : (∀ v d : Fin 1 → ℝ, HasDerivAt (fun t => (fun w : Fin 1 → ℝ => w 0) (fun i => v i + t * d i)) (∑ i, (fun (_ : Fin 1 → ℝ) (_ : Fin 1) => (1 : ℝ)) v i * d i) 0) ∧
    (fun (_ : Fin 1 → ℝ) (_ : Fin 1) => (1 : ℝ)) (decayVec 0.5 (fun _ => 3)) 0 ≠ 0 := by
  refine ⟨fun v d => ?_, by norm_num⟩
  have := ((hasDerivAt_id (0 : ℝ)).mul_const (d 0)).const_add (v 0)
  simpa using this

/-! ### C161: batch normalisation -/

theorem foldl_max (l : List ℝ) : ∀ M : ℝ, M ≤ l.foldl (fun M v => if M < |v| then |v| else M) M ∧ (∀ v ∈ l, |v| ≤ l.foldl (fun M v => if M < |v| then |v| else M) M) ∧
    (l.foldl (fun M v => if M < |v| then |v| else M) M = M ∨ ∃ v ∈ l, |v| = l.foldl (fun M v => if M < |v| then |v| else M) M) := by
  induction l with
  | nil => intro M; simp
  | cons x l ih =>
    intro M
    obtain ⟨h1, h2, h3⟩ := ih (if M < |x| then |x| else M)
    simp only [List.foldl_cons]
    have hM : M ≤ if M < |x| then |x| else M := by split_ifs with h <;> linarith
    have hx : |x| ≤ if M < |x| then |x| else M := by split_ifs with h <;> linarith
    refine ⟨hM.trans h1, ?_, ?_⟩
    · intro v hv
      rcases List.mem_cons.1 hv with rfl | hv
      · exact hx.trans h1
      · exact h2 v hv
    · rcases h3 with h3 | ⟨v, hv, h3⟩
      · by_cases h : M < |x|
        · right; refine ⟨x, List.mem_cons_self, ?_⟩; rw [h3, if_pos h]
        · left; rw [h3, if_neg h]
      · right; exact ⟨v, List.mem_cons_of_mem _ hv, h3⟩

/-- The column maximum is what its name says. -/
theorem colMax_spec {n h : ℕ} (A : Fin n → Fin h → ℝ) (o : Fin h) : 0 ≤ colMax A o ∧ (∀ i, |A i o| ≤ colMax A o) ∧ (colMax A o = 0 ∨ ∃ i, |A i o| = colMax A o) := by
  obtain ⟨h1, h2, h3⟩ := foldl_max (List.ofFn (fun i => A i o)) 0
  refine ⟨h1, fun i => h2 _ (List.mem_ofFn.2 ⟨i, rfl⟩), ?_⟩
  rcases h3 with h3 | ⟨v, hv, h3⟩
  · exact Or.inl h3
  · obtain ⟨i, rfl⟩ := List.mem_ofFn.1 hv
    exact Or.inr ⟨i, h3⟩

theorem colMax_unique {n h : ℕ} (A : Fin n → Fin h → ℝ) (o : Fin h) (M : ℝ) (h2 : ∀ i, |A i o| ≤ M) (h3 : ∃ i, |A i o| = M) : colMax A o = M := by
  obtain ⟨g1, g2, g3⟩ := colMax_spec A o
  obtain ⟨i, hi⟩ := h3
  apply le_antisymm
  · rcases g3 with g3 | ⟨k, g3⟩
    · rw [g3, ← hi]; exact abs_nonneg _
    · rw [← g3]; exact h2 k
  · rw [← hi]; exact g2 i

/-- C161: normalised activations lie in [-1, 1]; in a column that is not zero some row has absolute value 1; signs and ratios within a column are kept; a zero column stays. -/
theorem C161_normalize {n h : ℕ} (A : Fin n → Fin h → ℝ) (o : Fin h) :
    (∀ i, |normalize A i o| ≤ 1) ∧ ((∃ i, A i o ≠ 0) → ∃ i, |normalize A i o| = 1) ∧ (∀ i k, normalize A i o * A k o = normalize A k o * A i o) ∧ (∀ i, 0 < normalize A i o ↔ 0 < A i o) ∧
    ((∀ i, A i o = 0) → ∀ i, normalize A i o = 0) := by
  obtain ⟨h1, h2, h3⟩ := colMax_spec A o
  by_cases hp : 0 < colMax A o
  · simp only [normalize, if_pos hp]
    refine ⟨fun i => ?_, fun _ => ?_, fun i k => by ring, fun i => ?_, fun hz i => by rw [hz i, zero_div]⟩
    · rw [abs_div, abs_of_pos hp]
      exact (div_le_one hp).2 (h2 i)
    · rcases h3 with h3 | ⟨i, h3⟩
      · exact absurd h3 hp.ne'
      · refine ⟨i, ?_⟩
        rw [abs_div, h3, abs_of_pos hp, div_self hp.ne']
    · exact ⟨fun h => by have := mul_pos h hp; rwa [div_mul_cancel₀ _ hp.ne'] at this, fun h => div_pos h hp⟩
  · have h0 : ∀ i, A i o = 0 := fun i => abs_eq_zero.1 (le_antisymm ((h2 i).trans (not_lt.1 hp)) (abs_nonneg _))
    simp only [normalize, if_neg hp, h0]
    simp

theorem acts_ne (a : Act) (out : Out) {n : ℕ} (hs : List ℕ) : ∀ {p q : ℕ} (θ : Params p hs q) (X : Fin n → Fin p → ℝ), ∃ r rs, acts a out hs θ X = ⟨p, X⟩ :: r :: rs := by
  cases hs with
  | nil => intro p q θ X; exact ⟨_, _, rfl⟩
  | cons h hs =>
    intro p q θ X
    obtain ⟨L, θ⟩ := θ
    cases hs with
    | nil => exact ⟨_, _, rfl⟩
    | cons h' hs => obtain ⟨L', θ⟩ := θ; exact ⟨_, _, rfl⟩

theorem acts_last (a : Act) (out : Out) {n : ℕ} (hs : List ℕ) : ∀ {p q : ℕ} (θ : Params p hs q) (X : Fin n → Fin p → ℝ), (acts a out hs θ X).getLast? = some ⟨q, fun i => forward a out hs θ (X i)⟩ := by
  induction hs with
  | nil => intro p q θ X; rfl
  | cons h hs ih =>
    intro p q θ X
    obtain ⟨L, θ⟩ := θ
    obtain ⟨r, rs, e⟩ := acts_ne a out hs θ (fun i o => a.f (affine L (X i) o))
    have := ih θ (fun i o => a.f (affine L (X i) o))
    simp only [acts]
    rw [e] at this ⊢
    rw [List.getLast?_cons_cons]
    exact this

/-- C161: the output from which the loss and the last deltas are computed is not affected by the normalisation: it is the output of the plain network. -/
theorem C161_output (a : Act) (out : Out) {n p q : ℕ} (hs : List ℕ) (θ : Params p hs q) (X : Fin n → Fin p → ℝ) :
    (batchNormalize (acts a out hs θ X)).getLast? = some ⟨q, fun i => forward a out hs θ (X i)⟩ ∧ (batchNormalize (acts a out hs θ X)).head? = some ⟨p, X⟩ ∧
    (batchNormalize (acts a out hs θ X)).length = hs.length + 2 ∧
    ∀ (k : ℕ) (A : Mat n), 0 < k → k < hs.length + 1 → (acts a out hs θ X)[k]? = some A → (batchNormalize (acts a out hs θ X))[k]? = some ⟨A.1, normalize A.2⟩ := by
  have hl : ∀ (hs : List ℕ) {p q : ℕ} (θ : Params p hs q) (X : Fin n → Fin p → ℝ), (acts a out hs θ X).length = hs.length + 2 := by
    intro hs
    induction hs with
    | nil => intro p q θ X; rfl
    | cons h hs ih => intro p q θ X; obtain ⟨L, θ⟩ := θ; simp [acts, ih]
  have h1 := acts_last a out hs θ X
  have h2 := hl hs θ X
  obtain ⟨r, rs, e⟩ := acts_ne a out hs θ X
  rw [e] at h1 h2 ⊢
  rw [List.getLast?_cons_cons] at h1
  refine ⟨?_, rfl, ?_, ?_⟩
  · simp only [batchNormalize]
    rw [h1]
    rw [← List.cons_append, Option.toList_some, List.getLast?_concat]
  · simp only [batchNormalize]
    rw [h1]
    simp at h2 ⊢
    omega
  · intro k A hk hk' hA
    obtain ⟨k, rfl⟩ : ∃ k', k = k' + 1 := ⟨k - 1, by omega⟩
    simp only [List.length_cons] at h2
    have hlt : k < (r :: rs).dropLast.length := by simp; omega
    rw [List.getElem?_cons_succ] at hA
    simp only [batchNormalize, List.getElem?_cons_succ]
    rw [List.getElem?_append_left (by simpa using hlt), List.getElem?_map, List.getElem?_dropLast, if_pos (by simp; omega), hA]
    rfl

theorem sumO_some {n : ℕ} (f : Fin n → ℝ) : sumO (fun i => some (f i)) = some (∑ i, f i) := by simp [sumO]

/-- Every hidden column of the batch has largest absolute value 1. -/
def UnitMax (a : Act) {n : ℕ} : {p : ℕ} → (hs : List ℕ) → {q : ℕ} → Params p hs q → (Fin n → Fin p → ℝ) → Prop
  | _, [], _, _, _ => True
  | _, h :: hs, _, (L, θ), X => (∀ o : Fin h, (∀ i, |a.f (affine L (X i) o)| ≤ 1) ∧ ∃ i, |a.f (affine L (X i) o)| = 1) ∧ UnitMax a hs θ (fun i o => a.f (affine L (X i) o))

/-- Gradients that are all numbers. -/
def toO : {p : ℕ} → (hs : List ℕ) → {q : ℕ} → Params p hs q → OParams p hs q
  | _, [], _, L => (fun j o => some (L.1 j o), fun o => some (L.2 o))
  | _, _ :: hs, _, (L, θ) => ((fun j o => some (L.1 j o), fun o => some (L.2 o)), toO hs θ)

theorem layerGradO_some {n p q : ℕ} (alpha : ℝ) (L : Layer p q) (X : Fin n → Fin p → ℝ) (D : Fin n → Fin q → ℝ) :
    layerGradO alpha L X (fun i o => some (D i o)) = (fun j o => some ((layerGrad alpha L X D).1 j o), fun o => some ((layerGrad alpha L X D).2 o)) := by
  have e : ∀ j o, (fun i => if X i j = 0 then some 0 else some (X i j * D i o)) = fun i => some (X i j * D i o) := by
    intro j o
    funext i
    by_cases h : X i j = 0
    · simp [h]
    · simp [h]
  simp only [layerGradO, layerGrad, Option.map_some, e, sumO_some]

theorem bnBackward_unit (a : Act) (alpha : ℝ) {n : ℕ} (hs : List ℕ) : ∀ {p q : ℕ} (θ : Params p hs q) (X : Fin n → Fin p → ℝ) (D : Fin n → Fin q → ℝ), UnitMax a hs θ X →
    bnBackward a alpha hs θ X X (fun i o => some (D i o)) = (toO hs (backward a alpha hs θ X D).1, fun i j => some ((backward a alpha hs θ X D).2 i j)) := by
  induction hs with
  | nil =>
    intro p q θ X D _
    simp only [bnBackward, backward, toO, Option.map_some, sumO_some]
    exact congrArg (fun z => (z, _)) (layerGradO_some alpha θ X D)
  | cons h hs ih =>
    intro p q θ X D hu
    obtain ⟨L, θ⟩ := θ
    obtain ⟨hu1, hu2⟩ := hu
    have hM : ∀ o, colMax (fun i o => a.f (affine L (X i) o)) o = 1 := fun o => colMax_unique _ o 1 (hu1 o).1 (hu1 o).2
    have hN : normalize (fun i o => a.f (affine L (X i) o)) = fun i o => a.f (affine L (X i) o) := by
      funext i o
      simp [normalize, hM]
    have hb : ∀ z d : ℝ, backO a z (some d) = some (a.back z d) := by
      intro z d
      by_cases h : a = .relu ∧ z = 0
      · obtain ⟨rfl, rfl⟩ := h; simp [backO, Act.back]
      · simp [backO, h]
    simp only [bnBackward, hN, hM, ih θ _ D hu2, backward, toO, hb, divO, one_ne_zero, if_false, Option.map_some, div_one, layerGradO_some, sumO_some]

/-- C161: if in every hidden layer every unit reaches absolute value 1, and no more, on the batch, the gradients written are those of plain backpropagation, for every depth.
Missing for the full claim: what `C161_gradient_violated`, `C161_dead_violated`, `C161_dead_second_violated` refute. -/
theorem C161_unit_partial (a : Act) (out : Out) (alpha : ℝ) {n p q : ℕ} (hs : List ℕ) (X : Fin n → Fin p → ℝ) (y : Fin n → Fin q → ℝ) (θ : Params p hs q) (hu : UnitMax a hs θ X) :
    bnGrads a out alpha hs X y θ = toO hs (grads a out alpha hs X y θ) := by
  rw [bnGrads, grads, bnBackward_unit a alpha hs θ X _ hu]

/-- Hypothesis met: a 1-1-1 network whose hidden unit copies the input, on the inputs 1 and -1/2. -/
example : UnitMax .identity [1] ((((fun _ _ => 1), fun _ => 0), ((fun _ _ => 2), fun _ => 0)) : Params 1 [1] 1) (fun (i : Fin 2) (_ : Fin 1) => if i = 0 then 1 else -1 / 2) := by
  refine ⟨fun o => ⟨fun i => ?_, 0, ?_⟩, trivial⟩
  · fin_cases i
    · norm_num [affine, Act.f]
    · norm_num [affine, Act.f, abs_le]
  · norm_num [affine, Act.f]

/-- Coefficient gradients of the last layer of a network with one hidden layer. -/
theorem bn_last {n p q h : ℕ} (a : Act) (out : Out) (alpha : ℝ) (X : Fin n → Fin p → ℝ) (y : Fin n → Fin q → ℝ) (θ : Params p [h] q) (j : Fin h) (o : Fin q)
    (hj : 0 < colMax (fun i o => a.f (affine θ.1 (X i) o)) j) :
    (bnGrads a out alpha [h] X y θ).2.1 j o = some (alpha / n * θ.2.1 j o + ((grads a out alpha [h] X y θ).2.1 j o - alpha / n * θ.2.1 j o) / colMax (fun i o => a.f (affine θ.1 (X i) o)) j) := by
  obtain ⟨L, θ⟩ := θ
  have h0 := congrFun (congrFun (congrArg Prod.fst (layerGradO_some alpha (θ : Layer h q) (normalize (fun i o => a.f (affine L (X i) o))) (fun i o => forward a out [h] (L, θ) (X i) o - y i o))) j) o
  refine h0.trans ?_
  simp only [grads, backward, layerGrad, normalize, if_pos hj]
  congr 1
  have e : ∑ i, a.f (affine L (X i) j) / colMax (fun i o => a.f (affine L (X i) o)) j * (forward a out [h] (L, θ) (X i) o - y i o) =
      (∑ i, a.f (affine L (X i) j) * (forward a out [h] (L, θ) (X i) o - y i o)) / colMax (fun i o => a.f (affine L (X i) o)) j := by
    rw [Finset.sum_div]
    exact Finset.sum_congr rfl (fun i _ => by ring)
  rw [e]
  ring

/-- C161, violated: with batch normalisation the gradient written is not that of the loss returned.  For a network with one hidden layer the data part of the gradient for the outgoing coefficient of a hidden unit
is divided by the largest activation of that unit, so it is wrong unless that is 1 or the data part is 0. -/
theorem C161_gradient_violated (hmin hmax : ℝ) (a : Act) (ha : a ≠ .tanh) (out : Out) (alpha : ℝ) {n p q h : ℕ} (hn : n ≠ 0) (X : Fin n → Fin p → ℝ) (y : Fin n → Fin q → ℝ) (θ : Params p [h] q)
    (hk : a = .relu → ∀ i, NoKink a [h] θ (X i)) (hg : GoodTargets hmin hmax out y (fun i => forward a out [h] θ (X i))) (j : Fin h) (o : Fin q)
    (M : ℝ) (hM : (∀ i, |a.f (affine θ.1 (X i) j)| ≤ M) ∧ ∃ i, |a.f (affine θ.1 (X i) j)| = M) (hM0 : 0 < M) (hM1 : M ≠ 1)
    (hne : ∑ i, a.f (affine θ.1 (X i) j) * (forward a out [h] θ (X i) o - y i o) ≠ 0) :
    ∃ v, (bnGrads a out alpha [h] X y θ).2.1 j o = some v ∧
      ¬ HasDerivAt (fun t => lossVal hmin hmax a out alpha [h] X y (line [h] θ (((fun _ _ => 0), fun _ => 0), ((fun j' o' => if j' = j ∧ o' = o then 1 else 0), fun _ => 0)) t)) v 0 := by
  have hMe : colMax (fun i o => a.f (affine θ.1 (X i) o)) j = M := colMax_unique _ j M hM.1 hM.2
  refine ⟨_, bn_last a out alpha X y θ j o (by rw [hMe]; exact hM0), fun hd => ?_⟩
  have hG := C93_backprop_partial hmin hmax a ha out alpha hn [h] X y θ hk hg (((fun _ _ => 0), fun _ => 0), ((fun j' o' => if j' = j ∧ o' = o then 1 else 0), fun _ => 0))
  have hu := hd.unique hG
  obtain ⟨L, θ⟩ := θ
  have hn' : (n : ℝ) ≠ 0 := Nat.cast_ne_zero.2 hn
  have hdot : dot [h] (grads a out alpha [h] X y (L, θ)) (((fun _ _ => 0), fun _ => 0), ((fun j' o' => if j' = j ∧ o' = o then 1 else 0), fun _ => 0)) = (grads a out alpha [h] X y (L, θ)).2.1 j o := by
    rcases grads a out alpha [h] X y (L, θ) with ⟨G1, G2⟩
    simp only [dot, mul_zero, Finset.sum_const_zero, add_zero, zero_add]
    rw [Finset.sum_eq_single j (fun b _ hb => Finset.sum_eq_zero (fun o' _ => by simp [hb])) (by simp), Finset.sum_eq_single o (fun b _ hb => by simp [hb]) (by simp)]
    simp
  rw [hdot, hMe] at hu
  have hgr : (grads a out alpha [h] X y (L, θ)).2.1 j o - alpha / n * θ.1 j o = 1 / n * ∑ i, a.f (affine L (X i) j) * (forward a out [h] (L, θ) (X i) o - y i o) := by
    simp only [grads, backward, layerGrad]
    ring
  have hne' : (grads a out alpha [h] X y (L, θ)).2.1 j o - alpha / n * θ.1 j o ≠ 0 := by
    rw [hgr]
    exact mul_ne_zero (one_div_ne_zero hn') hne
  have h4 : ((grads a out alpha [h] X y (L, θ)).2.1 j o - alpha / n * θ.1 j o) / M = (grads a out alpha [h] X y (L, θ)).2.1 j o - alpha / n * θ.1 j o := by linarith
  rw [div_eq_iff hM0.ne'] at h4
  apply hM1
  exact mul_left_cancel₀ hne' (by linarith)

/-- Hypotheses met: the 1-1-1 `relu` network with all parameters 1 on `x = 1`, `y = 0`: the hidden unit is 2. -/
example : ((∀ i : Fin 1, |Act.f .relu (affine ((fun _ _ => 1, fun _ => 1) : Layer 1 1) ((fun (_ : Fin 1) (_ : Fin 1) => (1 : ℝ)) i) 0)| ≤ 2) ∧ ∃ i : Fin 1, |Act.f .relu (affine ((fun _ _ => 1, fun _ => 1) : Layer 1 1) ((fun (_ : Fin 1) (_ : Fin 1) => (1 : ℝ)) i) 0)| = 2) ∧
    ∑ i : Fin 1, Act.f .relu (affine ((fun _ _ => 1, fun _ => 1) : Layer 1 1) ((fun (_ : Fin 1) (_ : Fin 1) => (1 : ℝ)) i) 0) *
      (forward .relu .identity [1] ((((fun _ _ => 1), fun _ => 1), ((fun _ _ => 1), fun _ => 1)) : Params 1 [1] 1) ((fun (_ : Fin 1) (_ : Fin 1) => (1 : ℝ)) i) 0 - 0) ≠ 0 := by
  norm_num [affine, Act.f, forward, logits, Out.f]

theorem sumO_none {n : ℕ} (f : Fin n → Option ℝ) (i : Fin n) (h : f i = none) : sumO f = none := by
  rw [sumO, if_neg]
  intro h'
  have := h' i
  rw [h] at this
  cases this

/-- C161, violated: if a hidden unit of the first layer is inactive (0) on the whole batch, the gradient written for its intercept is not a number, for every depth and any of the activations; so is that of its
coefficient for any feature that is not zero on the whole batch. -/
theorem C161_dead_violated (a : Act) (out : Out) (alpha : ℝ) {n p q h : ℕ} (hn : n ≠ 0) (hs : List ℕ) (X : Fin n → Fin p → ℝ) (y : Fin n → Fin q → ℝ) (θ : Params p (h :: hs) q) (o : Fin h)
    (hz : ∀ i, a.f (affine θ.1 (X i) o) = 0) :
    (bnGrads a out alpha (h :: hs) X y θ).1.2 o = none ∧ (∀ j, (∃ i, X i j ≠ 0) → (bnGrads a out alpha (h :: hs) X y θ).1.1 j o = none) ∧
    ∀ j, (∀ i, X i j = 0) → (bnGrads a out alpha (h :: hs) X y θ).1.1 j o = some (alpha / n * θ.1.1 j o) := by
  obtain ⟨L, θ⟩ := θ
  have hM : colMax (fun i o => a.f (affine L (X i) o)) o = 0 := by
    apply colMax_unique
    · intro i; rw [hz i, abs_zero]
    · exact ⟨⟨0, Nat.pos_of_ne_zero hn⟩, by rw [hz, abs_zero]⟩
  simp only [bnGrads, bnBackward, layerGradO, hM, divO, if_true]
  refine ⟨?_, ?_, ?_⟩
  · rw [Option.map_eq_none_iff]
    exact sumO_none _ ⟨0, Nat.pos_of_ne_zero hn⟩ rfl
  · rintro j ⟨i, hi⟩
    rw [Option.map_eq_none_iff]
    exact sumO_none _ i (by simp [hi])
  · intro j hj
    simp [hj, sumO_some]

/-- Hypotheses met: a `relu` unit with intercept -5 on the inputs 1 and 2. -/
example : ∀ i : Fin 2, Act.f .relu (affine ((fun _ _ => 1, fun _ => -5) : Layer 1 1) (fun _ => (i.val : ℝ) + 1) 0) = 0 := by
  intro i
  fin_cases i <;> norm_num [affine, Act.f]

/-- C161: the gradients written for two hidden layers when no hidden unit is 0 on the whole batch.  The network is evaluated without normalisation (`A₁`, `A₂`, the output); the gradients multiply activations divided
by their maxima `M₁`, `M₂` with deltas in which the derivative of the activation is taken at the divided activations and which are divided by the maxima once more.
Missing for the full claim: what `C161_gradient_violated`, `C161_dead_violated`, `C161_dead_second_violated` refute. -/
theorem C161_two_layers_partial (a : Act) (out : Out) (alpha : ℝ) {n p q h₁ h₂ : ℕ} (X : Fin n → Fin p → ℝ) (y : Fin n → Fin q → ℝ) (L₁ : Layer p h₁) (L₂ : Layer h₁ h₂) (L₃ : Layer h₂ q)
    (A₁ : Fin n → Fin h₁ → ℝ) (A₂ : Fin n → Fin h₂ → ℝ) (M₁ : Fin h₁ → ℝ) (M₂ : Fin h₂ → ℝ) (hA₁ : ∀ i o, A₁ i o = a.f (affine L₁ (X i) o)) (hA₂ : ∀ i o, A₂ i o = a.f (affine L₂ (A₁ i) o))
    (hM₁ : ∀ o, 0 < M₁ o ∧ (∀ i, |A₁ i o| ≤ M₁ o) ∧ ∃ i, |A₁ i o| = M₁ o) (hM₂ : ∀ o, 0 < M₂ o ∧ (∀ i, |A₂ i o| ≤ M₂ o) ∧ ∃ i, |A₂ i o| = M₂ o)
    (δ₃ : Fin n → Fin q → ℝ) (δ₂ : Fin n → Fin h₂ → ℝ) (δ₁ : Fin n → Fin h₁ → ℝ) (h₃ : ∀ i o, δ₃ i o = out.f (affine L₃ (A₂ i)) o - y i o)
    (hδ₂ : ∀ i o, δ₂ i o = a.back (A₂ i o / M₂ o) (∑ k, δ₃ i k * L₃.1 o k) / M₂ o) (hδ₁ : ∀ i o, δ₁ i o = a.back (A₁ i o / M₁ o) (∑ k, δ₂ i k * L₂.1 o k) / M₁ o) :
    bnGrads a out alpha [h₁, h₂] X y (L₁, L₂, L₃) =
      ((fun j o => some (1 / n * (∑ i, X i j * δ₁ i o) + alpha / n * L₁.1 j o), fun o => some ((∑ i, δ₁ i o) / n)),
       (fun j o => some (1 / n * (∑ i, A₁ i j / M₁ j * δ₂ i o) + alpha / n * L₂.1 j o), fun o => some ((∑ i, δ₂ i o) / n)),
       (fun j o => some (1 / n * (∑ i, A₂ i j / M₂ j * δ₃ i o) + alpha / n * L₃.1 j o), fun o => some ((∑ i, δ₃ i o) / n))) := by
  have e₁ : A₁ = fun i o => a.f (affine L₁ (X i) o) := by funext i o; exact hA₁ i o
  have e₂ : A₂ = fun i o => a.f (affine L₂ (A₁ i) o) := by funext i o; exact hA₂ i o
  have e₃ : (fun i o => a.f (affine L₂ (fun o => a.f (affine L₁ (X i) o)) o)) = A₂ := by rw [e₂, e₁]
  have c₁ : ∀ o, colMax A₁ o = M₁ o := fun o => colMax_unique A₁ o _ (hM₁ o).2.1 (hM₁ o).2.2
  have c₂ : ∀ o, colMax A₂ o = M₂ o := fun o => colMax_unique A₂ o _ (hM₂ o).2.1 (hM₂ o).2.2
  have n₁ : normalize A₁ = fun i o => A₁ i o / M₁ o := by funext i o; simp [normalize, c₁, (hM₁ o).1]
  have n₂ : normalize A₂ = fun i o => A₂ i o / M₂ o := by funext i o; simp [normalize, c₂, (hM₂ o).1]
  have hb : ∀ z d : ℝ, backO a z (some d) = some (a.back z d) := by
    intro z d
    by_cases h : a = .relu ∧ z = 0
    · obtain ⟨rfl, rfl⟩ := h; simp [backO, Act.back]
    · simp [backO, h]
  have z₁ : ∀ o, M₁ o ≠ 0 := fun o => (hM₁ o).1.ne'
  have z₂ : ∀ o, M₂ o ≠ 0 := fun o => (hM₂ o).1.ne'
  have f₃ : (fun i o => some (forward a out [h₁, h₂] (L₁, L₂, L₃) (X i) o - y i o)) = fun i o => some (δ₃ i o) := by
    funext i o
    rw [h₃, e₂, e₁]
    rfl
  show (bnBackward a alpha [h₁, h₂] ((L₁, L₂, L₃) : Params p [h₁, h₂] q) X X (fun i o => some (forward a out [h₁, h₂] (L₁, L₂, L₃) (X i) o - y i o))).1 = _
  rw [f₃]
  simp only [bnBackward, ← e₁, e₃, n₁, n₂, c₁, c₂, hb, divO, if_neg (z₁ _), if_neg (z₂ _), Option.map_some, sumO_some, layerGradO_some, ← hδ₂, ← hδ₁]
  rfl

/-- Hypotheses met: a `relu` network 1-1-1-1 with all coefficients 2 and no intercepts on `x = 1`: the hidden units are 2 and 4. -/
example : (∀ (i : Fin 1) (o : Fin 1), (2 : ℝ) = Act.f .relu (affine ((fun _ _ => 2, fun _ => 0) : Layer 1 1) ((fun (_ : Fin 1) (_ : Fin 1) => (1 : ℝ)) i) o)) ∧
    (∀ (i : Fin 1) (o : Fin 1), (4 : ℝ) = Act.f .relu (affine ((fun _ _ => 2, fun _ => 0) : Layer 1 1) ((fun (_ : Fin 1) (_ : Fin 1) => (2 : ℝ)) i) o)) ∧ (0 : ℝ) < 2 ∧ |(2 : ℝ)| = 2 ∧ |(4 : ℝ)| = 4 := by
  norm_num [affine, Act.f]

/-- C161, violated: a `relu` unit of the second hidden layer that is inactive on the whole batch spoils the first layer too: the gradient for a coefficient of a first layer unit is a number only if the feature is zero
on all rows where that unit is active. -/
theorem C161_dead_second_violated (out : Out) (alpha : ℝ) {n p q h₁ h₂ : ℕ} (hn : n ≠ 0) (X : Fin n → Fin p → ℝ) (y : Fin n → Fin q → ℝ) (L₁ : Layer p h₁) (L₂ : Layer h₁ h₂) (L₃ : Layer h₂ q) (k : Fin h₂)
    (hz : ∀ i, Act.f .relu (affine L₂ (fun o => Act.f .relu (affine L₁ (X i) o)) k) = 0) (o : Fin h₁) (ho : ∃ i, Act.f .relu (affine L₁ (X i) o) ≠ 0) :
    (bnGrads .relu out alpha [h₁, h₂] X y (L₁, L₂, L₃)).1.2 o = none ∧
    ∀ j, ((bnGrads .relu out alpha [h₁, h₂] X y (L₁, L₂, L₃)).1.1 j o).isSome ↔ ∀ i, Act.f .relu (affine L₁ (X i) o) ≠ 0 → X i j = 0 := by
  have hM : colMax (fun i o' => Act.f .relu (affine L₂ (fun o => Act.f .relu (affine L₁ (X i) o)) o')) k = 0 := by
    apply colMax_unique
    · intro i; rw [hz i, abs_zero]
    · exact ⟨⟨0, Nat.pos_of_ne_zero hn⟩, by rw [hz, abs_zero]⟩
  obtain ⟨m1, m2, m3⟩ := colMax_spec (fun i o => Act.f .relu (affine L₁ (X i) o)) o
  obtain ⟨i₀, hi₀⟩ := ho
  have hpos : 0 < colMax (fun i o => Act.f .relu (affine L₁ (X i) o)) o := (abs_pos.2 hi₀).trans_le (m2 i₀)
  set M := colMax (fun i o => Act.f .relu (affine L₁ (X i) o)) o with hMdef
  have hnorm : ∀ i, normalize (fun i o => Act.f .relu (affine L₁ (X i) o)) i o = Act.f .relu (affine L₁ (X i) o) / M := by
    intro i
    simp only [normalize, ← hMdef, if_pos hpos]
  -- the deltas of the first layer: zero on inactive rows, not a number elsewhere
  have hD : ∀ (d : Option ℝ) i, d = none → divO (backO .relu (normalize (fun i o => Act.f .relu (affine L₁ (X i) o)) i o) d) M = if Act.f .relu (affine L₁ (X i) o) = 0 then some 0 else none := by
    rintro d i rfl
    rw [hnorm]
    by_cases h : Act.f .relu (affine L₁ (X i) o) = 0
    · simp [backO, divO, h, hpos.ne']
    · simp [backO, divO, h, hpos.ne']
  have hnone : ∀ (g : Fin h₂ → Option ℝ) (c : Fin h₂ → ℝ), g k = none → sumO (fun k' => (g k').map (fun d => d * c k')) = none := fun g c hg => sumO_none _ k (by rw [hg]; rfl)
  have hk0 : ∀ d : Option ℝ, divO d (colMax (fun i o' => Act.f .relu (affine L₂ (fun o => Act.f .relu (affine L₁ (X i) o)) o')) k) = none := fun d => by rw [hM]; simp [divO]
  have key : ∀ i, divO (backO .relu (normalize (fun i o => Act.f .relu (affine L₁ (X i) o)) i o)
      ((bnBackward .relu alpha [h₂] ((L₂, L₃) : Params h₁ [h₂] q) (fun i o => Act.f .relu (affine L₁ (X i) o)) (normalize (fun i o => Act.f .relu (affine L₁ (X i) o)))
        (fun i o => some (forward .relu out [h₁, h₂] (L₁, L₂, L₃) (X i) o - y i o))).2 i o)) M = if Act.f .relu (affine L₁ (X i) o) = 0 then some 0 else none := by
    intro i
    apply hD
    simp only [bnBackward]
    exact hnone _ _ (hk0 _)
  constructor
  · have : (bnGrads .relu out alpha [h₁, h₂] X y (L₁, L₂, L₃)).1.2 o = (sumO (fun i => if Act.f .relu (affine L₁ (X i) o) = 0 then some (0 : ℝ) else none)).map (fun s => s / (n : ℝ)) := by
      rw [show (fun i => if Act.f .relu (affine L₁ (X i) o) = 0 then some (0 : ℝ) else none) = _ from (funext key).symm]
      rfl
    rw [this, Option.map_eq_none_iff]
    exact sumO_none _ i₀ (by simp [hi₀])
  · intro j
    have : (bnGrads .relu out alpha [h₁, h₂] X y (L₁, L₂, L₃)).1.1 j o = (sumO (fun i => if X i j = 0 then some 0 else
        (if Act.f .relu (affine L₁ (X i) o) = 0 then some 0 else none : Option ℝ).map (fun d => X i j * d))).map (fun s => 1 / n * s + alpha / n * L₁.1 j o) := by
      have e : (fun i => if X i j = 0 then some 0 else (if Act.f .relu (affine L₁ (X i) o) = 0 then some 0 else none : Option ℝ).map (fun d => X i j * d)) =
        fun i => if X i j = 0 then some 0 else (divO (backO .relu (normalize (fun i o => Act.f .relu (affine L₁ (X i) o)) i o)
      ((bnBackward .relu alpha [h₂] ((L₂, L₃) : Params h₁ [h₂] q) (fun i o => Act.f .relu (affine L₁ (X i) o)) (normalize (fun i o => Act.f .relu (affine L₁ (X i) o)))
        (fun i o => some (forward .relu out [h₁, h₂] (L₁, L₂, L₃) (X i) o - y i o))).2 i o)) M).map (fun d => X i j * d) := by
        funext i
        rw [key i]
      rw [e]
      rfl
    rw [this, Option.isSome_map]
    constructor
    · intro h i hi
      by_contra hx
      rw [sumO_none _ i (by simp [hx, hi])] at h
      cases h
    · intro h
      rw [sumO, if_pos]
      · rfl
      · intro i
        by_cases hx : X i j = 0
        · simp [hx]
        · by_cases hi : Act.f .relu (affine L₁ (X i) o) = 0
          · simp [hx, hi]
          · exact absurd (h i hi) hx

/-- Hypotheses met: first unit `relu(x)`, second `relu(unit - 5)`, inputs 1 and 2. -/
example : (∀ i : Fin 2, Act.f .relu (affine ((fun _ _ => 1, fun _ => -5) : Layer 1 1) (fun o => Act.f .relu (affine ((fun _ _ => 1, fun _ => 0) : Layer 1 1) (fun _ => (i.val : ℝ) + 1) o)) 0) = 0) ∧
    ∃ i : Fin 2, Act.f .relu (affine ((fun _ _ => 1, fun _ => 0) : Layer 1 1) (fun _ => (i.val : ℝ) + 1) 0) ≠ 0 := by
  refine ⟨fun i => ?_, 0, ?_⟩
  · fin_cases i <;> norm_num [affine, Act.f]
  · norm_num [affine, Act.f]

end Sk.MlpOpt
