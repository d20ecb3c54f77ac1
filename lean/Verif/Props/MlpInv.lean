import Verif.Props.MlpGrad
import Verif.Props.Mlp
import Mathlib.Algebra.BigOperators.Field
import Mathlib.Tactic.FinCases

/-! # C215: what a network and its training do not depend on -/
set_option autoImplicit false

namespace Sk.Mlp

/-! ## Specification -/

/-- New names for the inputs, the units of every hidden layer and the outputs. -/
def Names : ℕ → List ℕ → ℕ → Type
  | p, [], q => Equiv.Perm (Fin p) × Equiv.Perm (Fin q)
  | p, h :: hs, q => Equiv.Perm (Fin p) × Names h hs q

/-- The new names of the inputs. -/
def Names.inputs : {p : ℕ} → (hs : List ℕ) → {q : ℕ} → Names p hs q → Equiv.Perm (Fin p)
  | _, [], _, r => r.1
  | _, _ :: _, _, r => r.1

/-- The new names of the outputs. -/
def Names.outputs : {p : ℕ} → (hs : List ℕ) → {q : ℕ} → Names p hs q → Equiv.Perm (Fin q)
  | _, [], _, r => r.2
  | _, _ :: hs, _, r => Names.outputs hs r.2

/-- The network with the new names. -/
def rename : {p : ℕ} → (hs : List ℕ) → {q : ℕ} → Names p hs q → Params p hs q → Params p hs q
  | _, [], _, r, L => (fun j o => L.1 (r.1 j) (r.2 o), fun o => L.2 (r.2 o))
  | _, _ :: hs, _, r, (L, θ) => ((fun j o => L.1 (r.1 j) (Names.inputs hs r.2 o), fun o => L.2 (Names.inputs hs r.2 o)), rename hs r.2 θ)

/-- `f` lists the rows `0 … n-1`, each `k` times, in any order. -/
def Repeats {m n : ℕ} (k : ℕ) (f : Fin m → Fin n) : Prop := ∀ i, (Finset.univ.filter (fun i' => f i' = i)).card = k

/-- The weights that leave the units of a layer divided by `c`. -/
noncomputable def divideOut : {h : ℕ} → (hs : List ℕ) → {q : ℕ} → (Fin h → ℝ) → Params h hs q → Params h hs q
  | _, [], _, c, L => (fun j o => L.1 j o / c j, L.2)
  | _, _ :: _, _, c, (L, θ) => ((fun j o => L.1 j o / c j, L.2), θ)

/-! ## New names -/

theorem affine_rename {p q : ℕ} (L : Layer p q) (π : Equiv.Perm (Fin p)) (τ : Equiv.Perm (Fin q)) (x : Fin p → ℝ) (o : Fin q) :
    affine (fun j o => L.1 (π j) (τ o), fun o => L.2 (τ o)) (fun j => x (π j)) o = affine L x (τ o) := by
  unfold affine
  rw [Equiv.sum_comp π (fun j => x j * L.1 j (τ o))]

theorem logits_rename (a : Act) (hs : List ℕ) : ∀ {p q : ℕ} (r : Names p hs q) (θ : Params p hs q) (x : Fin p → ℝ) (o : Fin q),
    logits a hs (rename hs r θ) (fun j => x (Names.inputs hs r j)) o = logits a hs θ x (Names.outputs hs r o) := by
  induction hs with
  | nil =>
    intro p q r θ x o
    exact affine_rename θ r.1 r.2 x o
  | cons h hs ih =>
    intro p q r θ x o
    obtain ⟨L, θ⟩ := θ
    show logits a hs (rename hs r.2 θ) (fun o => a.f (affine (fun j o => L.1 (r.1 j) (Names.inputs hs r.2 o), fun o => L.2 (Names.inputs hs r.2 o)) (fun j => x (r.1 j)) o)) o = _
    simp only [affine_rename]
    exact ih r.2 θ (fun o => a.f (affine L x o)) o

theorem out_rename (out : Out) {q : ℕ} (τ : Equiv.Perm (Fin q)) (z : Fin q → ℝ) (o : Fin q) : out.f (fun o => z (τ o)) o = out.f z (τ o) := by
  cases out with
  | identity => rfl
  | logistic => rfl
  | softmax =>
    show Real.exp (z (τ o)) / ∑ k, Real.exp (z (τ k)) = Real.exp (z (τ o)) / ∑ k, Real.exp (z k)
    rw [Equiv.sum_comp τ (fun k => Real.exp (z k))]

theorem forward_rename (a : Act) (out : Out) (hs : List ℕ) {p q : ℕ} (r : Names p hs q) (θ : Params p hs q) (x : Fin p → ℝ) (o : Fin q) :
    forward a out hs (rename hs r θ) (fun j => x (Names.inputs hs r j)) o = forward a out hs θ x (Names.outputs hs r o) := by
  unfold forward
  rw [show logits a hs (rename hs r θ) (fun j => x (Names.inputs hs r j)) = fun o => logits a hs θ x (Names.outputs hs r o) from funext fun o => logits_rename a hs r θ x o]
  exact out_rename out _ _ o

theorem sumSq_rename (hs : List ℕ) : ∀ {p q : ℕ} (r : Names p hs q) (θ : Params p hs q), sumSq hs (rename hs r θ) = sumSq hs θ := by
  have key : ∀ {p q : ℕ} (A : Fin p → Fin q → ℝ) (π : Equiv.Perm (Fin p)) (τ : Equiv.Perm (Fin q)), ∑ j, ∑ o, A (π j) (τ o) * A (π j) (τ o) = ∑ j, ∑ o, A j o * A j o := by
    intro p q A π τ
    rw [Equiv.sum_comp π (fun j => ∑ o, A j (τ o) * A j (τ o))]
    exact Finset.sum_congr rfl fun j _ => Equiv.sum_comp τ (fun o => A j o * A j o)
  induction hs with
  | nil =>
    intro p q r θ
    exact key θ.1 r.1 r.2
  | cons h hs ih =>
    intro p q r θ
    obtain ⟨L, θ⟩ := θ
    show (∑ j, ∑ o, L.1 (r.1 j) (Names.inputs hs r.2 o) * L.1 (r.1 j) (Names.inputs hs r.2 o)) + sumSq hs (rename hs r.2 θ) = (∑ j, ∑ o, L.1 j o * L.1 j o) + sumSq hs θ
    rw [key, ih]

theorem loss_rename (hmin hmax : ℝ) (out : Out) {n q : ℕ} (τ : Equiv.Perm (Fin q)) (y h : Fin n → Fin q → ℝ) : lossOf hmin hmax out (fun i o => y i (τ o)) (fun i o => h i (τ o)) = lossOf hmin hmax out y h := by
  cases out with
  | identity =>
    show (∑ i, ∑ o, (h i (τ o) - y i (τ o)) * (h i (τ o) - y i (τ o))) / 2 / (n : ℝ) = (∑ i, ∑ o, (h i o - y i o) * (h i o - y i o)) / 2 / (n : ℝ)
    rw [Finset.sum_congr rfl fun i _ => Equiv.sum_comp τ (fun o => (h i o - y i o) * (h i o - y i o))]
  | logistic =>
    show (∑ i, ∑ o, (-y i (τ o) * Real.log (clampP hmin hmax (h i (τ o))) - (1 - y i (τ o)) * Real.log (1 + -clampP hmin hmax (h i (τ o))))) / (n : ℝ) = _
    rw [Finset.sum_congr rfl fun i _ => Equiv.sum_comp τ (fun o => -y i o * Real.log (clampP hmin hmax (h i o)) - (1 - y i o) * Real.log (1 + -clampP hmin hmax (h i o)))]
    rfl
  | softmax =>
    show (∑ i, ∑ o, if y i (τ o) ≠ 0 then -y i (τ o) * Real.log (clampP hmin hmax (h i (τ o))) else 0) / (n : ℝ) = _
    rw [Finset.sum_congr rfl fun i _ => Equiv.sum_comp τ (fun o => if y i o ≠ 0 then -y i o * Real.log (clampP hmin hmax (h i o)) else 0)]
    rfl

theorem layerGrad_rename {n p q : ℕ} (alpha : ℝ) (L : Layer p q) (π : Equiv.Perm (Fin p)) (τ : Equiv.Perm (Fin q)) (X : Fin n → Fin p → ℝ) (D : Fin n → Fin q → ℝ) :
    layerGrad alpha (fun j o => L.1 (π j) (τ o), fun o => L.2 (τ o)) (fun i j => X i (π j)) (fun i o => D i (τ o)) = (fun j o => (layerGrad alpha L X D).1 (π j) (τ o), fun o => (layerGrad alpha L X D).2 (τ o)) := rfl

theorem backward_cons (a : Act) (alpha : ℝ) {n p h q : ℕ} (hs : List ℕ) (L : Layer p h) (θ : Params h hs q) (X : Fin n → Fin p → ℝ) (D : Fin n → Fin q → ℝ) (A : Fin n → Fin h → ℝ) (hA : ∀ i o, a.f (affine L (X i) o) = A i o) (B : Params h hs q × (Fin n → Fin h → ℝ)) (hB : backward a alpha hs θ A D = B) :
    backward a alpha (h :: hs) ((L, θ) : Params p (h :: hs) q) X D =
      (((layerGrad alpha L X (fun i o => a.back (A i o) (B.2 i o)), B.1) : Params p (h :: hs) q), fun i j => ∑ o, a.back (A i o) (B.2 i o) * L.1 j o) := by
  obtain rfl : (fun i o => a.f (affine L (X i) o)) = A := funext fun i => funext fun o => hA i o
  subst hB
  rfl

theorem backward_rename (a : Act) (alpha : ℝ) {n : ℕ} (hs : List ℕ) : ∀ {p q : ℕ} (r : Names p hs q) (θ : Params p hs q) (X : Fin n → Fin p → ℝ) (D : Fin n → Fin q → ℝ),
    backward a alpha hs (rename hs r θ) (fun i j => X i (Names.inputs hs r j)) (fun i o => D i (Names.outputs hs r o)) =
      (rename hs r (backward a alpha hs θ X D).1, fun i j => (backward a alpha hs θ X D).2 i (Names.inputs hs r j)) := by
  induction hs with
  | nil =>
    intro p q r θ X D
    refine Prod.ext rfl ?_
    funext i j
    exact Equiv.sum_comp r.2 (fun o => D i o * θ.1 (r.1 j) o)
  | cons h hs ih =>
    intro p q r θ X D
    obtain ⟨L, θ⟩ := θ
    have h1 := backward_cons a alpha hs (fun j o => L.1 (r.1 j) (Names.inputs hs r.2 o), fun o => L.2 (Names.inputs hs r.2 o)) (rename hs r.2 θ) (fun i j => X i (r.1 j)) (fun i o => D i (Names.outputs hs r.2 o)) (fun i o => a.f (affine L (X i) (Names.inputs hs r.2 o)))
      (fun i o => by rw [affine_rename]) _ (ih r.2 θ (fun i o => a.f (affine L (X i) o)) D)
    have h2 := backward_cons a alpha hs L θ X D _ (fun i o => rfl) _ rfl
    rw [h2]
    refine h1.trans (Prod.ext rfl ?_)
    funext i j
    exact Equiv.sum_comp (Names.inputs hs r.2) (fun o => a.back (a.f (affine L (X i) o)) ((backward a alpha hs θ (fun i o => a.f (affine L (X i) o)) D).2 i o) * L.1 (r.1 j) o)

/-- **C215 (names).** Renaming features, hidden units and outputs renames the outputs of the network, does not change the loss, and renames the gradients in the same way. -/
theorem C215_names (hmin hmax : ℝ) (a : Act) (out : Out) (alpha : ℝ) {n p q : ℕ} (hs : List ℕ) (r : Names p hs q) (θ : Params p hs q) (X : Fin n → Fin p → ℝ) (y : Fin n → Fin q → ℝ) :
    (∀ x o, forward a out hs (rename hs r θ) (fun j => x (Names.inputs hs r j)) o = forward a out hs θ x (Names.outputs hs r o)) ∧
    lossVal hmin hmax a out alpha hs (fun i j => X i (Names.inputs hs r j)) (fun i o => y i (Names.outputs hs r o)) (rename hs r θ) = lossVal hmin hmax a out alpha hs X y θ ∧
    grads a out alpha hs (fun i j => X i (Names.inputs hs r j)) (fun i o => y i (Names.outputs hs r o)) (rename hs r θ) = rename hs r (grads a out alpha hs X y θ) := by
  have hf : ∀ i : Fin n, forward a out hs (rename hs r θ) (fun j => X i (Names.inputs hs r j)) = fun o => forward a out hs θ (X i) (Names.outputs hs r o) := fun i => funext fun o => forward_rename a out hs r θ (X i) o
  refine ⟨fun x o => forward_rename a out hs r θ x o, ?_, ?_⟩
  · unfold lossVal
    rw [sumSq_rename, show (fun i => forward a out hs (rename hs r θ) (fun j => X i (Names.inputs hs r j))) = fun i o => forward a out hs θ (X i) (Names.outputs hs r o) from funext hf, loss_rename hmin hmax out (Names.outputs hs r) y (fun i => forward a out hs θ (X i))]
  · unfold grads
    rw [show (fun (i : Fin n) o => forward a out hs (rename hs r θ) (fun j => X i (Names.inputs hs r j)) o - y i (Names.outputs hs r o)) = fun i o => (fun i o => forward a out hs θ (X i) o - y i o) i (Names.outputs hs r o) from funext fun i => funext fun o => by rw [hf i]]
    exact congrArg Prod.fst (backward_rename a alpha hs r θ X (fun i o => forward a out hs θ (X i) o - y i o))

/-- Exchanging the two features of a network without hidden layer: the names are not trivial. -/
example : (rename (p := 2) [] (q := 1) (Equiv.swap 0 1, 1) (fun j _ => if j = 0 then 3 else 5, fun _ => 7)).1 0 0 = 5 := by
  show (if (Equiv.swap (0 : Fin 2) 1) 0 = 0 then (3 : ℝ) else 5) = 5
  rw [Equiv.swap_apply_left]
  norm_num

/-! ## Rows -/

theorem sum_repeats {m n k : ℕ} {f : Fin m → Fin n} (hf : Repeats k f) (g : Fin n → ℝ) : ∑ i', g (f i') = k * ∑ i, g i := by
  rw [← Finset.sum_fiberwise Finset.univ f (fun i' => g (f i')), Finset.mul_sum]
  refine Finset.sum_congr rfl fun i _ => ?_
  rw [Finset.sum_congr rfl (g := fun _ => g i) (fun i' h => by rw [(Finset.mem_filter.1 h).2]), Finset.sum_const, hf i, nsmul_eq_mul]

theorem rows_repeats {m n k : ℕ} {f : Fin m → Fin n} (hf : Repeats k f) : (m : ℝ) = k * n := by
  have h := sum_repeats hf (fun _ => 1)
  simpa using h

theorem mean_repeats {m n k : ℕ} (hk : k ≠ 0) {f : Fin m → Fin n} (hf : Repeats k f) (g : Fin n → ℝ) : (∑ i', g (f i')) / m = (∑ i, g i) / n := by
  rw [sum_repeats hf, rows_repeats hf, mul_div_mul_left _ _ (by exact_mod_cast hk)]

theorem loss_repeats (hmin hmax : ℝ) (out : Out) {m n q k : ℕ} (hk : k ≠ 0) {f : Fin m → Fin n} (hf : Repeats k f) (y h : Fin n → Fin q → ℝ) : lossOf hmin hmax out (fun i => y (f i)) (fun i => h (f i)) = lossOf hmin hmax out y h := by
  cases out with
  | identity =>
    show (∑ i, ∑ o, (h (f i) o - y (f i) o) * (h (f i) o - y (f i) o)) / 2 / (m : ℝ) = (∑ i, ∑ o, (h i o - y i o) * (h i o - y i o)) / 2 / (n : ℝ)
    rw [div_right_comm, mean_repeats hk hf (fun i => ∑ o, (h i o - y i o) * (h i o - y i o)), div_right_comm]
  | logistic => exact mean_repeats hk hf (fun i => ∑ o, (-y i o * Real.log (clampP hmin hmax (h i o)) - (1 - y i o) * Real.log (1 + -clampP hmin hmax (h i o))))
  | softmax => exact mean_repeats hk hf (fun i => ∑ o, if y i o ≠ 0 then -y i o * Real.log (clampP hmin hmax (h i o)) else 0)

theorem layerGrad_repeats {m n p q k : ℕ} (hk : k ≠ 0) {f : Fin m → Fin n} (hf : Repeats k f) (alpha : ℝ) (L : Layer p q) (X : Fin n → Fin p → ℝ) (D : Fin n → Fin q → ℝ) :
    layerGrad (k * alpha) L (fun i => X (f i)) (fun i => D (f i)) = layerGrad alpha L X D := by
  unfold layerGrad
  refine Prod.ext ?_ ?_
  · funext j o
    show 1 / (m : ℝ) * (∑ i, X (f i) j * D (f i) o) + k * alpha / m * L.1 j o = 1 / (n : ℝ) * (∑ i, X i j * D i o) + alpha / n * L.1 j o
    rw [one_div_mul_eq_div, mean_repeats hk hf (fun i => X i j * D i o), one_div_mul_eq_div, rows_repeats hf, mul_div_mul_left _ _ (by exact_mod_cast hk)]
  · funext o
    exact mean_repeats hk hf (fun i => D i o)

theorem backward_repeats (a : Act) (alpha : ℝ) {m n k : ℕ} (hk : k ≠ 0) {f : Fin m → Fin n} (hf : Repeats k f) (hs : List ℕ) : ∀ {p q : ℕ} (θ : Params p hs q) (X : Fin n → Fin p → ℝ) (D : Fin n → Fin q → ℝ),
    backward a (k * alpha) hs θ (fun i => X (f i)) (fun i => D (f i)) = ((backward a alpha hs θ X D).1, fun i => (backward a alpha hs θ X D).2 (f i)) := by
  induction hs with
  | nil =>
    intro p q θ X D
    exact Prod.ext (layerGrad_repeats hk hf alpha θ X D) rfl
  | cons h hs ih =>
    intro p q θ X D
    obtain ⟨L, θ⟩ := θ
    have h1 := backward_cons a (k * alpha) hs L θ (fun i => X (f i)) (fun i => D (f i)) (fun i o => a.f (affine L (X (f i)) o)) (fun i o => rfl) _ (ih θ (fun i o => a.f (affine L (X i) o)) D)
    have h2 := backward_cons a alpha hs L θ X D _ (fun i o => rfl) _ rfl
    rw [h2]
    refine h1.trans (Prod.ext (Prod.ext ?_ rfl) rfl)
    exact layerGrad_repeats hk hf alpha L X (fun i o => a.back (a.f (affine L (X i) o)) ((backward a alpha hs θ (fun i o => a.f (affine L (X i) o)) D).2 i o))

/-- **C215 (rows).** The order of the rows of a batch does not matter to the loss and the gradients, and a batch with `k` copies of every row and the penalty `k·alpha` has the loss and the gradients of the batch itself with the penalty `alpha`. -/
theorem C215_rows (hmin hmax : ℝ) (a : Act) (out : Out) (alpha : ℝ) {m n p q k : ℕ} (hk : k ≠ 0) (f : Fin m → Fin n) (hf : Repeats k f) (hs : List ℕ) (θ : Params p hs q) (X : Fin n → Fin p → ℝ) (y : Fin n → Fin q → ℝ) :
    lossVal hmin hmax a out (k * alpha) hs (fun i => X (f i)) (fun i => y (f i)) θ = lossVal hmin hmax a out alpha hs X y θ ∧
    grads a out (k * alpha) hs (fun i => X (f i)) (fun i => y (f i)) θ = grads a out alpha hs X y θ := by
  constructor
  · unfold lossVal
    rw [loss_repeats hmin hmax out hk hf y (fun i => forward a out hs θ (X i)), rows_repeats hf, show 0.5 * (k * alpha) * sumSq hs θ = k * (0.5 * alpha * sumSq hs θ) by ring, mul_div_mul_left _ _ (by exact_mod_cast hk)]
  · unfold grads
    exact congrArg Prod.fst (backward_repeats a alpha hk hf hs θ X (fun i o => forward a out hs θ (X i) o - y i o))

/-- Every row once, in another order; every row twice. -/
example : Repeats 1 (![1, 2, 0] : Fin 3 → Fin 3) ∧ Repeats 2 (![0, 1, 1, 0] : Fin 4 → Fin 2) := by
  constructor <;> intro i <;> fin_cases i <;> decide

/-! ## Equivalent networks -/

theorem logits_divide (a : Act) {h : ℕ} (hs : List ℕ) {q : ℕ} (c : Fin h → ℝ) (hc : ∀ j, c j ≠ 0) (θ : Params h hs q) (x : Fin h → ℝ) : logits a hs (divideOut hs c θ) (fun j => c j * x j) = logits a hs θ x := by
  have key : ∀ {q : ℕ} (L : Layer h q), affine (fun j o => L.1 j o / c j, L.2) (fun j => c j * x j) = affine L x := by
    intro q L
    funext o
    show (∑ j, c j * x j * (L.1 j o / c j)) + L.2 o = (∑ j, x j * L.1 j o) + L.2 o
    rw [Finset.sum_congr rfl fun j _ => show c j * x j * (L.1 j o / c j) = x j * L.1 j o by rw [mul_div_assoc', mul_comm (c j) (x j), mul_assoc, mul_comm (c j), ← mul_assoc, mul_div_assoc, div_self (hc j), mul_one]]
  cases hs with
  | nil => exact key θ
  | cons h' hs =>
    obtain ⟨L, θ⟩ := θ
    show logits a hs θ (fun o => a.f (affine (fun j o => L.1 j o / c j, L.2) (fun j => c j * x j) o)) = logits a hs θ (fun o => a.f (affine L x o))
    rw [key]

/-- **C215 (relu).** Multiplying what enters a relu unit by a positive number and dividing what leaves it by the same number does not change the network. -/
theorem C215_relu (out : Out) {p h q : ℕ} (hs : List ℕ) (L : Layer p h) (θ : Params h hs q) (c : Fin h → ℝ) (hc : ∀ j, 0 < c j) (x : Fin p → ℝ) :
    forward .relu out (h :: hs) ((fun j o => c o * L.1 j o, fun o => c o * L.2 o), divideOut hs c θ) x = forward .relu out (h :: hs) (L, θ) x := by
  unfold forward
  congr 1
  show logits .relu hs (divideOut hs c θ) (fun o => Act.f .relu (affine (fun j o => c o * L.1 j o, fun o => c o * L.2 o) x o)) = logits .relu hs θ (fun o => Act.f .relu (affine L x o))
  rw [← logits_divide .relu hs c (fun j => (hc j).ne') θ]
  congr 1
  funext o
  have ha : affine (fun j o => c o * L.1 j o, fun o => c o * L.2 o) x o = c o * affine L x o := by
    unfold affine
    rw [mul_add, Finset.mul_sum]
    congr 1
    exact Finset.sum_congr rfl fun j _ => by ring
  rw [ha]
  unfold Act.f
  by_cases hz : affine L x o < 0
  · simp only [hz, if_true]
    rw [if_pos (mul_neg_of_pos_of_neg (hc o) hz), mul_zero]
  · simp only [hz, if_false]
    rw [if_neg (not_lt.2 (mul_nonneg (hc o).le (not_lt.1 hz)))]

example : forward .relu .identity [1] (((fun _ _ => 3, fun _ => -3), ((fun _ _ => 2 / 3, fun _ => 1))) : Params 1 [1] 1) (fun _ => 5) = forward .relu .identity [1] (((fun _ _ => 1, fun _ => -1), ((fun _ _ => 2, fun _ => 1))) : Params 1 [1] 1) (fun _ => 5) := by
  have h := C215_relu .identity [] ((fun _ _ => 1, fun _ => -1) : Layer 1 1) ((fun _ _ => 2, fun _ => 1) : Params 1 [] 1) (fun _ => 3) (fun _ => by norm_num) (fun _ => 5)
  have e : divideOut [] (fun _ => 3) ((fun _ _ => 2, fun _ => 1) : Params 1 [] 1) = ((fun _ _ => 2 / 3, fun _ => 1) : Params 1 [] 1) := rfl
  rw [e] at h
  simpa using h

/-- **C215 (identity).** With identity activations hidden layers add nothing: the network computes an affine function of its inputs, the product of its layers. -/
theorem C215_identity (out : Out) (hs : List ℕ) : ∀ {p q : ℕ} (θ : Params p hs q), ∃ L : Layer p q, ∀ x, forward .identity out hs θ x = out.f (affine L x) := by
  suffices hh : ∀ {p q : ℕ} (θ : Params p hs q), ∃ L : Layer p q, ∀ x, logits .identity hs θ x = affine L x by
    intro p q θ
    obtain ⟨L, hL⟩ := hh θ
    exact ⟨L, fun x => by unfold forward; rw [hL]⟩
  induction hs with
  | nil => exact fun {p q} θ => ⟨θ, fun x => rfl⟩
  | cons h hs ih =>
    intro p q θ
    obtain ⟨L, θ⟩ := θ
    obtain ⟨N, hN⟩ := ih θ
    refine ⟨(fun j o => ∑ k, L.1 j k * N.1 k o, fun o => (∑ k, L.2 k * N.1 k o) + N.2 o), fun x => ?_⟩
    show logits .identity hs θ (fun o => affine L x o) = _
    rw [hN]
    funext o
    show (∑ k, ((∑ j, x j * L.1 j k) + L.2 k) * N.1 k o) + N.2 o = (∑ j, x j * ∑ k, L.1 j k * N.1 k o) + ((∑ k, L.2 k * N.1 k o) + N.2 o)
    simp only [add_mul, Finset.sum_add_distrib, Finset.sum_mul, Finset.mul_sum]
    rw [Finset.sum_comm, add_assoc]
    simp only [mul_assoc]

/-- A network of two identity layers: three times, plus one, then twice. -/
example : forward .identity .identity [1] (((fun _ _ => 3, fun _ => 1), ((fun _ _ => 2, fun _ => 0))) : Params 1 [1] 1) (fun _ => 5) 0 = 32 := by
  simp [forward, logits, affine, Act.f, Out.f]
  norm_num

/-! ## Training -/

/-- `k` updates of stochastic gradient descent from the parameters `x`, with `G` the gradients at given parameters. -/
noncomputable def sgdPath {N : ℕ} (momentum : ℝ) (nesterov : Bool) (lr : ℝ) (G : (Fin N → ℝ) → Fin N → ℝ) (x : Fin N → ℝ) : ℕ → Sgd
  | 0 => ⟨lr, List.ofFn fun i => (x i, 0)⟩
  | k + 1 =>
    let s := sgdPath momentum nesterov lr G x k
    sgdUpdate momentum nesterov s (List.ofFn (G fun i => (s.pv.getD i (0, 0)).1))

/-- `k` updates of Adam from the parameters `x`. -/
noncomputable def adamPath {N : ℕ} (lr beta1 beta2 eps : ℝ) (G : (Fin N → ℝ) → Fin N → ℝ) (x : Fin N → ℝ) : ℕ → Adam
  | 0 => ⟨List.ofFn fun i => (x i, 0, 0), 1, 1⟩
  | k + 1 =>
    let s := adamPath lr beta1 beta2 eps G x k
    adamUpdate lr beta1 beta2 eps s (List.ofFn (G fun i => (s.pmv.getD i (0, 0, 0)).1))

theorem zipWith_ofFn {A B C : Type} {N : ℕ} (f : A → B → C) (a : Fin N → A) (b : Fin N → B) : List.zipWith f (List.ofFn a) (List.ofFn b) = List.ofFn fun i => f (a i) (b i) := by
  refine List.ext_getElem (by simp) fun i h1 h2 => ?_
  simp

/-- **C215 (sgd).** When the gradients of a renamed problem are the renamed gradients (`C215_names`), stochastic gradient descent from the renamed parameters is the renamed descent, after any number of updates. -/
theorem C215_sgd {N : ℕ} (momentum : ℝ) (nesterov : Bool) (lr : ℝ) (e : Equiv.Perm (Fin N)) (G G' : (Fin N → ℝ) → Fin N → ℝ) (hG : ∀ x, G' (fun i => x (e i)) = fun i => G x (e i)) (x : Fin N → ℝ) (k : ℕ) :
    ∃ z : Fin N → ℝ × ℝ, (sgdPath momentum nesterov lr G x k).pv = List.ofFn z ∧ (sgdPath momentum nesterov lr G' (fun i => x (e i)) k).pv = List.ofFn fun i => z (e i) := by
  suffices h : ∃ z : Fin N → ℝ × ℝ, sgdPath momentum nesterov lr G x k = ⟨lr, List.ofFn z⟩ ∧ sgdPath momentum nesterov lr G' (fun i => x (e i)) k = ⟨lr, List.ofFn fun i => z (e i)⟩ by
    obtain ⟨z, h1, h2⟩ := h
    exact ⟨z, by rw [h1], by rw [h2]⟩
  induction k with
  | zero => exact ⟨fun i => (x i, 0), rfl, rfl⟩
  | succ k ih =>
    obtain ⟨z, h1, h2⟩ := ih
    have hd : ∀ w : Fin N → ℝ × ℝ, (fun i : Fin N => ((List.ofFn w).getD i (0, 0)).1) = fun i => (w i).1 := by
      intro w
      funext i
      simp
    refine ⟨fun i =>
      let update := momentum * (z i).2 - lr * G (fun i => (z i).1) i
      (if nesterov then (z i).1 + (momentum * update - lr * G (fun i => (z i).1) i) else (z i).1 + update, update), ?_, ?_⟩
    · unfold sgdPath
      rw [h1]
      simp only [hd, sgdUpdate, zipWith_ofFn]
    · unfold sgdPath
      rw [h2]
      simp only [hd, sgdUpdate, zipWith_ofFn]
      rw [hG (fun i => (z i).1)]

/-- Gradients of `x₀² + 3·x₁²` and of the same function with its variables exchanged. -/
example : ∀ x : Fin 2 → ℝ, (fun (x : Fin 2 → ℝ) (i : Fin 2) => if i = 0 then 6 * x 0 else 2 * x 1) (fun i => x (Equiv.swap 0 1 i)) = fun i => (fun (x : Fin 2 → ℝ) (i : Fin 2) => if i = 0 then 2 * x 0 else 6 * x 1) x (Equiv.swap 0 1 i) := by
  intro x
  funext i
  fin_cases i <;> simp

/-- **C215 (Adam) violated.** Of two parameters with the same start and the same gradient, exchanging them is exchanging nothing, but one update of Adam does not commute with it: the first is moved differently from the second
(for every `β1, β2` in (0,1) with `1+β2 ≠ (1+β1)²`, as the default 0.9 and 0.999). -/
theorem C215_adam_violated (lr beta1 beta2 eps p g : ℝ) (hlr : lr ≠ 0) (h1 : 0 < beta1) (h1' : beta1 < 1) (h2 : 0 < beta2) (h2' : beta2 < 1) (hne : 1 + beta2 ≠ (1 + beta1) ^ 2) (heps : 0 ≤ eps) (hg : g ≠ 0) :
    ∃ z : Fin 2 → ℝ × ℝ × ℝ, (adamPath lr beta1 beta2 eps (fun _ _ => g) (fun _ : Fin 2 => p) 1).pmv = List.ofFn z ∧
      (adamPath lr beta1 beta2 eps (fun _ _ => g) (fun i => (fun _ : Fin 2 => p) (Equiv.swap 0 1 i)) 1).pmv ≠ List.ofFn fun i => z (Equiv.swap 0 1 i) := by
  obtain ⟨x, y, hxy, hn⟩ := C95_adam_violated lr beta1 beta2 eps p g hlr h1 h1' h2 h2' hne heps hg
  have hp : (adamPath lr beta1 beta2 eps (fun _ _ => g) (fun _ : Fin 2 => p) 1).pmv = [x, y] := hxy
  refine ⟨![x, y], by rw [hp]; simp, fun h => hn ?_⟩
  have h3 : [x, y] = List.ofFn fun i => (![x, y] : Fin 2 → ℝ × ℝ × ℝ) (Equiv.swap 0 1 i) := hp.symm.trans h
  have h4 : x = y := by
    have := congrArg (fun l => l[0]?) h3
    simpa using this
  rw [h4]

example : (1 : ℝ) + 0.999 ≠ (1 + 0.9) ^ 2 := by norm_num

end Sk.Mlp
