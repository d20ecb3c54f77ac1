import Verif.Model.Tensor
import Verif.Props.Datasets
import Mathlib.Data.List.Range
import Mathlib.Data.List.Forall2
import Mathlib.Algebra.Order.Ring.Rat
import Mathlib.Analysis.SpecialFunctions.Log.Basic
import Mathlib.Tactic.Linarith
import Mathlib.Tactic.Ring
import Mathlib.Tactic.NormNum

/-! # C142-C144: tensors, kernel gradients by position, comparison of tensors, bounds and nil clones -/
set_option autoImplicit false

namespace Sk.Tensor

/-! ### C142: tensors -/

theorem strideLoop_size (s : List ℕ) : (strideLoop s).2 = s.prod := by
  induction s with
  | nil => rfl
  | cons d s ih =>
    change (strideLoop s).2 * d = _
    rw [ih, List.prod_cons, Nat.mul_comm]

theorem strideLoop_cons (d : ℕ) (s : List ℕ) : (strideLoop (d :: s)).1 = s.prod :: (strideLoop s).1 := by
  rw [← strideLoop_size]
  rfl

theorem mem_indices (sh is : List ℕ) : is ∈ indices sh ↔ List.Forall₂ (· < ·) is sh := by
  induction sh generalizing is with
  | nil => simp [indices]
  | cons s sh ih =>
    simp only [indices, List.mem_flatMap, List.mem_range, List.mem_map]
    constructor
    · rintro ⟨i, hi, js, hjs, rfl⟩
      exact .cons hi ((ih js).1 hjs)
    · intro h
      cases h with
      | cons h1 h2 => exact ⟨_, h1, _, (ih _).2 h2, rfl⟩

theorem range_mul (s P : ℕ) : (List.range s).flatMap (fun i => (List.range P).map (fun p => i * P + p)) = List.range (s * P) := by
  induction s with
  | zero => simp
  | succ s ih => rw [List.range_succ, List.flatMap_append, ih, Nat.succ_mul, List.range_add]; simp

theorem indices_pos (sh : List ℕ) : (indices sh).map (dot (strideLoop sh).1) = List.range sh.prod := by
  induction sh with
  | nil => rfl
  | cons s sh ih =>
    rw [indices, List.map_flatMap, List.prod_cons, ← range_mul, strideLoop_cons]
    congr 1
    funext i
    rw [List.map_map, ← ih, List.map_map]
    refine List.map_congr_left (fun js _ => ?_)
    simp [dot]

theorem atPos_ok (sh is : List ℕ) (h : List.Forall₂ (· < ·) is sh) : atPos sh (strideLoop sh).1 (is.map Int.ofNat) = some (.ok (dot (strideLoop sh).1 is)) := by
  induction h with
  | nil => rfl
  | @cons i s js sh h1 _ ih =>
    rw [strideLoop_cons, List.map_cons, atPos, if_neg (by simp; omega), ih]
    simp [dot, Except.map]

theorem atPos_error (sh : List ℕ) : ∀ (args : List ℤ), args.length = sh.length → (∀ is, List.Forall₂ (· < ·) is sh → args ≠ is.map Int.ofNat) → atPos sh (strideLoop sh).1 args = some (.error ()) := by
  induction sh with
  | nil =>
    intro args hl h
    rw [List.length_eq_zero_iff.1 hl] at h
    exact absurd rfl (h [] .nil)
  | cons s sh ih =>
    intro args hl h
    cases args with
    | nil => simp at hl
    | cons i args =>
      rw [strideLoop_cons, atPos]
      by_cases hi : i < 0 ∨ (s : ℤ) ≤ i
      · rw [if_pos hi]
      · rw [if_neg hi, ih args (by simpa using hl)]
        · rfl
        · intro is his he
          refine h (i.toNat :: is) (.cons (by omega) his) ?_
          rw [he, List.map_cons]
          congr 1
          simp
          omega

/-- C142: `At` reads the backing slice in row-major order: going through all indices in the order of nested loops gives the data one after the other, each once; with as many indices as dimensions, an
index outside the shape gives the error.
Missing for the full claim: what `C142_few_violated`, `C142_backing_violated`, `C142_restart_violated` refute. -/
theorem C142_at_partial {α : Type} (zero : α) (sh : List ℕ) (data : List α) (hd : data.length = sh.prod) :
    (indices sh).map (fun is => (newDense zero sh (some data)).at_ (is.map Int.ofNat)) = data.map (fun v => some (.ok v)) ∧
      (∀ is, is ∈ indices sh ↔ List.Forall₂ (· < ·) is sh) ∧
      ∀ args : List ℤ, args.length = sh.length → (∃ is ∈ indices sh, args = is.map Int.ofNat) ∨ (newDense zero sh (some data)).at_ args = some (.error ()) := by
  refine ⟨?_, mem_indices sh, ?_⟩
  · have h1 : (indices sh).map (fun is => (newDense zero sh (some data)).at_ (is.map Int.ofNat)) = ((indices sh).map (dot (strideLoop sh).1)).map (fun p => data[p]?.map Except.ok) := by
      rw [List.map_map]
      refine List.map_congr_left (fun is his => ?_)
      rw [Dense.at_, newDense, atPos_ok sh is ((mem_indices sh is).1 his)]
      rfl
    rw [h1, indices_pos, ← hd]
    apply List.ext_getElem
    · simp
    · intro i h2 h3
      simp at h2 h3 ⊢
  · intro args hl
    by_cases h : ∃ is ∈ indices sh, args = is.map Int.ofNat
    · exact Or.inl h
    · right
      rw [Dense.at_, newDense, atPos_error sh args hl]
      intro is his he
      exact h ⟨is, (mem_indices sh is).2 his, he⟩

example : (newDense 0 [2, 3] (some [1, 2, 3, 4, 5, 6])).at_ [1, 0] = some (.ok 4) ∧ [1, 2, 3, 4, 5, 6].length = [2, 3].prod := ⟨rfl, rfl⟩

/-- C142: with more indices than dimensions `At` panics, or gives the error of an index outside the shape before it; it never gives an element. -/
theorem C142_many {α : Type} (zero : α) (sh : List ℕ) (backing : Option (List α)) (args : List ℤ) (hl : sh.length < args.length) :
    (newDense zero sh backing).at_ args = none ∨ (newDense zero sh backing).at_ args = some (.error ()) := by
  have key : ∀ (sh : List ℕ) (args : List ℤ), sh.length < args.length → atPos sh (strideLoop sh).1 args = none ∨ atPos sh (strideLoop sh).1 args = some (.error ()) := by
    intro sh
    induction sh with
    | nil =>
      intro args hl
      cases args with
      | nil => simp at hl
      | cons i args => exact Or.inl rfl
    | cons s sh ih =>
      intro args hl
      cases args with
      | nil => simp at hl
      | cons i args =>
        rw [strideLoop_cons, atPos]
        by_cases hi : i < 0 ∨ (s : ℤ) ≤ i
        · rw [if_pos hi]; exact Or.inr rfl
        · rw [if_neg hi]
          rcases ih args (by simpa using hl) with h | h
          · rw [h]; exact Or.inl rfl
          · rw [h]; exact Or.inr rfl
  rcases key sh args hl with h | h
  · left
    unfold Dense.at_ newDense
    simp only [h]
  · right
    unfold Dense.at_ newDense
    simp only [h]

example : (newDense 0 [2, 3] (some [1, 2, 3, 4, 5, 6])).at_ [1, 0, 0] = none ∧ (newDense 0 [2, 3] (some [1, 2, 3, 4, 5, 6])).at_ [1, 5, 0] = some (.error ()) := ⟨rfl, rfl⟩

/-- C142, violated: with too few indices `At` gives no error, but the element with the missing indices 0. -/
theorem C142_few_violated {α : Type} (zero : α) (sh : List ℕ) (hpos : ∀ s ∈ sh, 0 < s) (backing : Option (List α)) (args : List ℤ) (hl : args.length ≤ sh.length) :
    (newDense zero sh backing).at_ args = (newDense zero sh backing).at_ (args ++ List.replicate (sh.length - args.length) 0) := by
  have key : atPos sh (strideLoop sh).1 args = atPos sh (strideLoop sh).1 (args ++ List.replicate (sh.length - args.length) 0) := by
    induction sh generalizing args with
    | nil => simp
    | cons s sh ih =>
      cases args with
      | nil =>
        have := ih (fun t ht => hpos t (List.mem_cons_of_mem _ ht)) [] (by simp)
        have hs := hpos s (List.mem_cons_self ..)
        rw [strideLoop_cons]
        simp only [List.nil_append, List.length_nil, Nat.sub_zero, List.length_cons, List.replicate_succ] at this ⊢
        rw [atPos, if_neg (by omega), ← this]
        cases sh <;> simp [atPos, Except.map]
      | cons i args =>
        have := ih (fun t ht => hpos t (List.mem_cons_of_mem _ ht)) args (by simpa using hl)
        rw [strideLoop_cons, List.cons_append, atPos, atPos, this]
        simp
  simp only [Dense.at_, newDense] at key ⊢
  rw [key]

example : (newDense 0 [2, 3] (some [1, 2, 3, 4, 5, 6])).at_ [1] = some (.ok 4) := rfl

/-- C142, violated: the length of a given backing slice is not checked; with fewer elements than the shape has, `At` panics for some index inside the shape. -/
theorem C142_backing_violated {α : Type} (zero : α) (sh : List ℕ) (data : List α) (hd : data.length < sh.prod) : ∃ is, List.Forall₂ (· < ·) is sh ∧ (newDense zero sh (some data)).at_ (is.map Int.ofNat) = none := by
  have : data.length ∈ (indices sh).map (dot (strideLoop sh).1) := by rw [indices_pos]; exact List.mem_range.2 hd
  obtain ⟨is, his, he⟩ := List.mem_map.1 this
  refine ⟨is, (mem_indices sh is).1 his, ?_⟩
  rw [Dense.at_, newDense, atPos_ok sh is ((mem_indices sh is).1 his)]
  simp [he]

example : [1, 2, 3].length < [2, 3].prod := by decide

theorem loop_fst (len : ℕ) : ∀ (k index : ℕ), len - index = k → (loop len index).1 = List.range' index k := by
  intro k
  induction k with
  | zero =>
    intro index h
    rw [loop, dif_neg (by simp [step]; omega)]
    rfl
  | succ k ih =>
    intro index h
    rw [loop, dif_pos (by simp [step]; omega)]
    simp only [step]
    rw [ih (index + 1) (by omega), List.range'_succ]

theorem loop_snd (len : ℕ) : ∀ (k index : ℕ), len - index = k → len < (loop len index).2 := by
  intro k
  induction k with
  | zero =>
    intro index h
    rw [loop, dif_neg (by simp [step]; omega)]
    simp only [step]
    omega
  | succ k ih =>
    intro index h
    rw [loop, dif_pos (by simp [step]; omega)]
    simp only [step]
    exact ih (index + 1) (by omega)

/-- C142: a loop with a new iterator visits every position once, in order.
Missing for the full claim: what `C142_few_violated`, `C142_backing_violated`, `C142_restart_violated` refute. -/
theorem C142_iterator_partial (len : ℕ) : (loop len 0).1 = List.range len := by
  rw [loop_fst len len 0 (by omega), List.range_eq_range']

/-- C142, violated: `Start` does not start again: a second loop with the same iterator visits nothing. -/
theorem C142_restart_violated (len : ℕ) : (loop len (loop len 0).2).1 = [] := by
  have := loop_snd len len 0 (by omega)
  rw [loop_fst len 0 _ (by omega)]
  rfl

/-! ### C143: gradients by position -/

section
variable {K : Type} [Field K] [LinearOrder K]

/-- `T` is a tensor of shape `n × n × p` whose `k`-th slice is the `k`-th function of the list. -/
def Represents (n : ℕ) (T : Dense K) (gs : List (ℕ → ℕ → K)) : Prop :=
  T.shape = [n, n, gs.length] ∧ T.strides = (strideLoop T.shape).1 ∧ T.data.length = n * n * gs.length ∧ ∀ i < n, ∀ j < n, ∀ (k : ℕ) (g : ℕ → ℕ → K), gs[k]? = some g → T.at_ [(i : ℤ), (j : ℤ), (k : ℤ)] = some (.ok (g i j))

theorem strides3 (n p : ℕ) : (strideLoop [n, n, p]).1 = [n * p, p, 1] := by simp [strideLoop, Nat.mul_comm]

theorem at3 (n p : ℕ) (T : Dense K) (h1 : T.shape = [n, n, p]) (h2 : T.strides = [n * p, p, 1]) (i j k : ℕ) (hi : i < n) (hj : j < n) (hk : k < p) : T.at_ [(i : ℤ), (j : ℤ), (k : ℤ)] = T.data[i * (n * p) + (j * p + k)]?.map .ok := by
  rw [Dense.at_, h1, h2, atPos, if_neg (by omega), atPos, if_neg (by omega), atPos, if_neg (by omega), atPos]
  · simp [Except.map]

theorem represents_getD (n : ℕ) (T : Dense K) (gs : List (ℕ → ℕ → K)) (h : Represents n T gs) (i j k : ℕ) (g : ℕ → ℕ → K) (hi : i < n) (hj : j < n) (hk : gs[k]? = some g) :
    T.data.getD (i * (n * gs.length) + (j * gs.length + k)) 0 = g i j := by
  obtain ⟨h1, h2, _, h4⟩ := h
  have hlt : k < gs.length := (List.getElem?_eq_some_iff.1 hk).1
  have h5 := h4 i hi j hj k g hk
  rw [at3 n gs.length T h1 (by rw [h2, h1, strides3]) i j k hi hj hlt] at h5
  rw [List.getD_eq_getElem?_getD]
  cases hd : T.data[i * (n * gs.length) + (j * gs.length + k)]? with
  | none => rw [hd] at h5; cases h5
  | some v => rw [hd] at h5; simp only [Option.map_some, Option.some.injEq, Except.ok.injEq] at h5; simp [h5]

theorem pos_lt (n p i j k : ℕ) (hi : i < n) (hj : j < n) (hk : k < p) : i * (n * p) + (j * p + k) < n * n * p := by
  have h1 : j * p + k < n * p := by nlinarith
  have h2 : (i + 1) * (n * p) ≤ n * (n * p) := Nat.mul_le_mul_right _ hi
  have h3 : n * (n * p) = n * n * p := by ring
  rw [Nat.succ_mul] at h2
  omega

theorem pos_split (n p i j k : ℕ) (hj : j < n) (hk : k < p) :
    (i * (n * p) + (j * p + k)) % p = k ∧ ((i * (n * p) + (j * p + k) - k) / p) % n = j ∧ ((i * (n * p) + (j * p + k) - k) / p) / n = i := by
  have e : i * (n * p) + (j * p + k) = k + p * (i * n + j) := by ring
  have h1 : (k + p * (i * n + j)) % p = k := by rw [Nat.add_mul_mod_self_left, Nat.mod_eq_of_lt hk]
  have h2 : (k + p * (i * n + j) - k) / p = i * n + j := by rw [Nat.add_sub_cancel_left, Nat.mul_div_cancel_left _ (by omega)]
  rw [e, h1, h2]
  refine ⟨rfl, ?_, ?_⟩
  · rw [Nat.add_comm, Nat.add_mul_mod_self_right, Nat.mod_eq_of_lt hj]
  · rw [Nat.add_comm, Nat.add_mul_div_right _ _ (by omega), Nat.div_eq_of_lt hj, Nat.zero_add]

/-- C143: the gradient tensor of a sum of kernels consists of the slices of the first followed by the slices of the second. -/
theorem C143_sum (n : ℕ) (A B : Dense K) (g₁ g₂ : List (ℕ → ℕ → K)) (hA : Represents n A g₁) (hB : Represents n B g₂) : Represents n (sumGrad n A B) (g₁ ++ g₂) := by
  have hA2 : A.shape.getD 2 0 = g₁.length := by rw [hA.1]; rfl
  have hB2 : B.shape.getD 2 0 = g₂.length := by rw [hB.1]; rfl
  refine ⟨?_, rfl, ?_, ?_⟩
  · simp only [sumGrad, newDense, hA2, hB2, List.length_append]
  · simp only [sumGrad, newDense, hA2, hB2, List.length_append, Option.getD_some, List.length_map, List.length_range]
  · intro i hi j hj k g hk
    have hlt : k < g₁.length + g₂.length := by
      have := (List.getElem?_eq_some_iff.1 hk).1
      simpa using this
    rw [at3 n (g₁.length + g₂.length) _ (by simp only [sumGrad, newDense, hA2, hB2]) (by simp only [sumGrad, newDense, hA2, hB2]; exact strides3 ..) i j k hi hj hlt]
    obtain ⟨e1, e2, e3⟩ := pos_split n (g₁.length + g₂.length) i j k hj hlt
    have hr := pos_lt n _ i j k hi hj hlt
    simp only [sumGrad, newDense, hA2, hB2, Option.getD_some, List.getElem?_map]
    rw [List.getElem?_range hr]
    simp only [Option.map_some, e1, e2, e3]
    congr 2
    by_cases h1 : k < g₁.length
    · rw [if_pos h1]
      rw [List.getElem?_append_left h1] at hk
      rw [← represents_getD n A g₁ hA i j k g hi hj hk]
      congr 1
      ring
    · rw [if_neg h1]
      rw [List.getElem?_append_right (by omega)] at hk
      rw [← represents_getD n B g₂ hB i j _ g hi hj hk]
      congr 1
      ring

theorem foldl_set_other {ι α : Type} (pos : ι → ℕ) (val : ι → α) (q : ℕ) : ∀ (l : List ι) (d : List α), q ∉ l.map pos → (l.foldl (fun d x => d.set (pos x) (val x)) d)[q]? = d[q]? := by
  intro l
  induction l with
  | nil => intro d _; rfl
  | cons a l ih =>
    intro d h
    rw [List.map_cons, List.mem_cons, not_or] at h
    rw [List.foldl_cons, ih _ h.2, List.getElem?_set_ne (fun e => h.1 e.symm)]

theorem foldl_set_length {ι α : Type} (pos : ι → ℕ) (val : ι → α) : ∀ (l : List ι) (d : List α), (l.foldl (fun d x => d.set (pos x) (val x)) d).length = d.length := by
  intro l
  induction l with
  | nil => intro d; rfl
  | cons a l ih => intro d; rw [List.foldl_cons, ih, List.length_set]

theorem foldl_set {ι α : Type} (pos : ι → ℕ) (val : ι → α) : ∀ (l : List ι) (d : List α), (l.map pos).Nodup → (∀ x ∈ l, pos x < d.length) → ∀ x ∈ l, (l.foldl (fun d x => d.set (pos x) (val x)) d)[pos x]? = some (val x) := by
  intro l
  induction l with
  | nil => intro d _ _ x hx; cases hx
  | cons a l ih =>
    intro d hn hb x hx
    rw [List.map_cons, List.nodup_cons] at hn
    rw [List.foldl_cons]
    rcases List.mem_cons.1 hx with rfl | hx
    · rw [foldl_set_other pos val _ l _ hn.1, List.getElem?_set_self (hb x (List.mem_cons_self ..))]
    · exact ih _ hn.2 (fun y hy => by rw [List.length_set]; exact hb y (List.mem_cons_of_mem _ hy)) x hx

/-- C143: the gradient tensor of a product of kernels consists of the slices of the first times the second kernel, followed by the slices of the second times the first kernel. -/
theorem C143_prod (n : ℕ) (K₁ K₂ : ℕ → ℕ → K) (A B : Dense K) (g₁ g₂ : List (ℕ → ℕ → K)) (hA : Represents n A g₁) (hB : Represents n B g₂) :
    Represents n (prodGrad n K₁ K₂ A B) (g₁.map (fun g i j => g i j * K₂ i j) ++ g₂.map (fun g i j => g i j * K₁ i j)) := by
  have hA2 : A.shape.getD 2 0 = g₁.length := by rw [hA.1]; rfl
  have hB2 : B.shape.getD 2 0 = g₂.length := by rw [hB.1]; rfl
  have hAs : A.strides = [n * g₁.length, g₁.length, 1] := by rw [hA.2.1, hA.1, strides3]
  have hBs : B.strides = [n * g₂.length, g₂.length, 1] := by rw [hB.2.1, hB.1, strides3]
  set p := g₁.length + g₂.length with hp
  set val : List ℕ → K := fun is => if is.getD 2 0 < g₁.length then A.data.getD (dot A.strides [is.getD 0 0, is.getD 1 0, is.getD 2 0]) 0 * K₂ (is.getD 0 0) (is.getD 1 0)
    else B.data.getD (dot B.strides [is.getD 0 0, is.getD 1 0, is.getD 2 0 - g₁.length]) 0 * K₁ (is.getD 0 0) (is.getD 1 0) with hval
  have hdata : (prodGrad n K₁ K₂ A B).data = (indices [n, n, p]).foldl (fun d is => d.set (dot (strideLoop [n, n, p]).1 is) (val is)) (List.replicate (n * n * p) 0) := by
    simp only [prodGrad, newDense, hA2, hB2, Option.getD_none]
    rw [← hp, strideLoop_size]
    have : (fun (d : List K) (is : List ℕ) => if is.getD 2 0 < g₁.length then d.set (dot (strideLoop [n, n, p]).1 is) (A.data.getD (dot A.strides [is.getD 0 0, is.getD 1 0, is.getD 2 0]) 0 * K₂ (is.getD 0 0) (is.getD 1 0))
        else d.set (dot (strideLoop [n, n, p]).1 is) (B.data.getD (dot B.strides [is.getD 0 0, is.getD 1 0, is.getD 2 0 - g₁.length]) 0 * K₁ (is.getD 0 0) (is.getD 1 0))) = fun d is => d.set (dot (strideLoop [n, n, p]).1 is) (val is) := by
      funext d is
      simp only [hval]
      split <;> rfl
    rw [this]
    congr 2
    simp [Nat.mul_assoc]
  refine ⟨?_, ?_, ?_, ?_⟩
  · simp only [prodGrad, newDense, hA2, hB2, List.length_append, List.length_map]
  · simp only [prodGrad, newDense, hA2, hB2]
  · rw [hdata, foldl_set_length]
    simp [hp]
  · intro i hi j hj k g hk
    have hlt : k < p := by
      have := (List.getElem?_eq_some_iff.1 hk).1
      simpa [hp] using this
    rw [at3 n p _ (by simp only [prodGrad, newDense, hA2, hB2, hp]) (by simp only [prodGrad, newDense, hA2, hB2]; exact strides3 ..) i j k hi hj hlt, hdata]
    have hmem : [i, j, k] ∈ indices [n, n, p] := (mem_indices _ _).2 (.cons hi (.cons hj (.cons hlt .nil)))
    have hpos : dot (strideLoop [n, n, p]).1 [i, j, k] = i * (n * p) + (j * p + k) := by rw [strides3]; simp [dot]
    have := foldl_set (dot (strideLoop [n, n, p]).1) val (indices [n, n, p]) (List.replicate (n * n * p) 0) (by rw [indices_pos]; exact List.nodup_range)
      (by
        intro x hx
        have : dot (strideLoop [n, n, p]).1 x ∈ List.range [n, n, p].prod := by rw [← indices_pos]; exact List.mem_map.2 ⟨x, hx, rfl⟩
        have := List.mem_range.1 this
        simpa [Nat.mul_assoc] using this) _ hmem
    rw [hpos] at this
    rw [this]
    simp only [Option.map_some, hval]
    congr 2
    change (if k < g₁.length then A.data.getD (dot A.strides [i, j, k]) 0 * K₂ i j else B.data.getD (dot B.strides [i, j, k - g₁.length]) 0 * K₁ i j) = g i j
    by_cases h1 : k < g₁.length
    · rw [if_pos h1]
      rw [List.getElem?_append_left (by simpa using h1), List.getElem?_map, Option.map_eq_some_iff] at hk
      obtain ⟨g', hg', rfl⟩ := hk
      have := represents_getD n A g₁ hA i j k g' hi hj hg'
      rw [hAs, show dot [n * g₁.length, g₁.length, 1] [i, j, k] = i * (n * g₁.length) + (j * g₁.length + k) by simp [dot], this]
    · rw [if_neg h1]
      rw [List.getElem?_append_right (by simpa using h1), List.getElem?_map, Option.map_eq_some_iff, List.length_map] at hk
      obtain ⟨g', hg', rfl⟩ := hk
      have := represents_getD n B g₂ hB i j _ g' hi hj hg'
      rw [hBs, show dot [n * g₂.length, g₂.length, 1] [i, j, k - g₁.length] = i * (n * g₂.length) + (j * g₂.length + (k - g₁.length)) by simp [dot], this]

/-- C143: the gradient tensors of the kernels with one free hyperparameter hold the function of row and column. -/
theorem C143_leaf (n : ℕ) (f : ℕ → ℕ → K) : Represents n (leafGrad n f) [f] := by
  refine ⟨rfl, rfl, ?_, ?_⟩
  · simp [leafGrad, newDense, C142_iterator_partial]
  · intro i hi j hj k g hk
    obtain ⟨hlt, hg⟩ := List.getElem?_eq_some_iff.1 hk
    have hk0 : k = 0 := by simpa using hlt
    subst hk0
    simp only [List.getElem_cons_zero] at hg
    subst hg
    rw [at3 n 1 _ rfl (strides3 ..) i j 0 hi hj (by omega)]
    have hr := pos_lt n 1 i j 0 hi hj (by omega)
    obtain ⟨_, e2, e3⟩ := pos_split n 1 i j 0 hj (by omega)
    simp only [leafGrad, newDense, C142_iterator_partial, Option.getD_some, List.getElem?_map]
    rw [List.getElem?_range (by simpa using hr)]
    simp only [Nat.sub_zero, Nat.div_one] at e2 e3
    simp only [Option.map_some, e2, e3]

theorem diag_iff (n i : ℕ) (h : i < n * n) : i % (n + 1) = 0 ↔ i / n = i % n := by
  have hn : 0 < n := by
    rcases Nat.eq_zero_or_pos n with rfl | h'
    · simp at h
    · exact h'
  constructor
  · intro h0
    obtain ⟨t, rfl⟩ := Nat.dvd_of_mod_eq_zero h0
    have ht : t < n := by nlinarith
    rw [show (n + 1) * t = t + n * t by ring, Nat.add_mul_div_left _ _ hn, Nat.add_mul_mod_self_left, Nat.mod_eq_of_lt ht, Nat.div_eq_of_lt ht, Nat.zero_add]
  · intro h0
    have h1 := Nat.div_add_mod i n
    rw [← h0] at h1
    rw [← h1, show n * (i / n) + i / n = (n + 1) * (i / n) by ring, Nat.mul_mod_right]

/-- C143: the gradient tensor of `WhiteKernel` is the noise level on the diagonal. -/
theorem C143_white (n : ℕ) (v : K) : Represents n (whiteGrad n v) [fun i j => if i = j then v else 0] := by
  have : whiteGrad n v = leafGrad n (fun i j => if i = j then v else 0) := by
    rw [whiteGrad, leafGrad]
    congr 2
    refine List.map_congr_left (fun i hi => ?_)
    rw [C142_iterator_partial, List.mem_range] at hi
    simp only [diag_iff n i hi]
  rw [this]
  exact C143_leaf n _

/-- Constant kernel plus white kernel on two rows. -/
example : (sumGrad 2 (leafGrad 2 (fun _ _ => (3 : ℚ))) (whiteGrad 2 5)).data = [3, 5, 3, 0, 3, 0, 3, 5] := by decide +kernel

/-! ### `Diff3D` -/

variable [IsStrictOrderedRing K]

theorem diff_fold (tol : K) : ∀ (cells : List (K × K)) (m : K), 
    m ≤ (cells.map (fun c => (some c.1, some c.2))).foldl (diffStep tol) m ∧ (∀ c ∈ cells, |c.1 - c.2| ≤ max tol ((cells.map (fun c => (some c.1, some c.2))).foldl (diffStep tol) m)) ∧
      ((cells.map (fun c => (some c.1, some c.2))).foldl (diffStep tol) m = m ∨ ∃ c ∈ cells, |c.1 - c.2| = (cells.map (fun c => (some c.1, some c.2))).foldl (diffStep tol) m) := by
  intro cells
  induction cells with
  | nil => intro m; exact ⟨le_refl _, by simp, Or.inl rfl⟩
  | cons c cells ih =>
    intro m
    have habs : max (c.1 - c.2) (c.2 - c.1) = |c.1 - c.2| := by rw [abs, neg_sub]
    have hstep : diffStep tol m (some c.1, some c.2) = if tol < |c.1 - c.2| ∧ m < |c.1 - c.2| then |c.1 - c.2| else m := by
      rw [diffStep, absDiff]
      simp only [Option.bind_eq_bind, Option.bind_some, habs]
    rw [List.map_cons, List.foldl_cons, hstep]
    by_cases h : tol < |c.1 - c.2| ∧ m < |c.1 - c.2|
    · rw [if_pos h]
      obtain ⟨i1, i2, i3⟩ := ih |c.1 - c.2|
      refine ⟨h.2.le.trans i1, ?_, ?_⟩
      · intro c' hc'
        rcases List.mem_cons.1 hc' with rfl | hc'
        · exact i1.trans (le_max_right _ _)
        · exact i2 c' hc'
      · right
        rcases i3 with i3 | ⟨c', hc', i3⟩
        · exact ⟨c, List.mem_cons_self .., i3.symm⟩
        · exact ⟨c', List.mem_cons_of_mem _ hc', i3⟩
    · rw [if_neg h]
      obtain ⟨i1, i2, i3⟩ := ih m
      refine ⟨i1, ?_, ?_⟩
      · intro c' hc'
        rcases List.mem_cons.1 hc' with rfl | hc'
        · rw [not_and_or, not_lt, not_lt] at h
          rcases h with h | h
          · exact h.trans (le_max_left _ _)
          · exact (h.trans i1).trans (le_max_right _ _)
        · exact i2 c' hc'
      · rcases i3 with i3 | ⟨c', hc', i3⟩
        · exact Or.inl i3
        · exact Or.inr ⟨c', List.mem_cons_of_mem _ hc', i3⟩

/-- C144: for numbers `Diff3D` reports no error exactly when all cells differ by at most the tolerance, and otherwise the greatest difference.  Missing: `NaN` (`C144_nan_violated`) and other shapes
(`C144_shape_violated`). -/
theorem C144_diff_partial (tol : K) (ht : 0 ≤ tol) (cells : List (K × K)) :
    (diff3D tol (cells.map (fun c => (some c.1, some c.2))) = none ↔ ∀ c ∈ cells, |c.1 - c.2| ≤ tol) ∧
      ∀ d, diff3D tol (cells.map (fun c => (some c.1, some c.2))) = some d → (∃ c ∈ cells, |c.1 - c.2| = d) ∧ ∀ c ∈ cells, |c.1 - c.2| ≤ d := by
  obtain ⟨h1, h2, h3⟩ := diff_fold tol cells 0
  rw [diff3D]
  generalize (cells.map (fun c => (some c.1, some c.2))).foldl (diffStep tol) 0 = m at *
  constructor
  · constructor
    · intro h c hc
      by_cases hm : tol < m
      · rw [if_pos hm] at h; cases h
      · have := h2 c hc
        rwa [max_eq_left (not_lt.1 hm)] at this
    · intro h
      rw [if_neg]
      rcases h3 with h3 | ⟨c, hc, h3⟩
      · rw [h3]; exact not_lt.2 ht
      · rw [← h3]; exact not_lt.2 (h c hc)
  · intro d hd
    by_cases hm : tol < m
    · rw [if_pos hm] at hd
      cases hd
      constructor
      · rcases h3 with h3 | h3
        · rw [h3] at hm; exact absurd hm (not_lt.2 ht)
        · exact h3
      · intro c hc
        have := h2 c hc
        rwa [max_eq_right hm.le] at this
    · rw [if_neg hm] at hd; cases hd

example : diff3D (1 : ℚ) [(some 1, some 2), (some 4, some 1)] = some 3 := by decide +kernel

/-- C144, violated: cells that are `NaN` in one of the tensors never count as different. -/
theorem C144_nan_violated (tol : K) (ht : 0 ≤ tol) (cells : List (Option K × Option K)) (h : ∀ c ∈ cells, c.1 = none ∨ c.2 = none) : diff3D tol cells = none := by
  have : ∀ (m : K), cells.foldl (diffStep tol) m = m := by
    intro m
    induction cells with
    | nil => rfl
    | cons c cells ih =>
      rw [List.foldl_cons]
      have hs : diffStep tol m c = m := by
        obtain ⟨a, b⟩ := c
        rcases h _ (List.mem_cons_self ..) with h1 | h1
        · simp only at h1; subst h1; rfl
        · simp only at h1; subst h1; cases a <;> rfl
      rw [hs]
      exact ih (fun c hc => h c (List.mem_cons_of_mem _ hc))
  rw [diff3D, this]
  simp [not_lt.2 ht]

/-- C144, tensors of the same shape: `Diff3D` reports no error exactly when every entry of the data of the one is within the tolerance of the entry of the other, and otherwise the greatest difference.
Missing: `NaN` (`C144_nan_violated`) and other shapes (`C144_shape_violated`). -/
theorem C144_tensors_partial (tol : K) (ht : 0 ≤ tol) (a b c : ℕ) (xs ys : List K) (hx : xs.length = a * (b * c)) (hy : ys.length = a * (b * c)) :
    ∃ r, (diffCells (newDense (some 0) [a, b, c] (some (xs.map some))) (newDense (some 0) [a, b, c] (some (ys.map some)))).map (diff3D tol) = some r ∧ (r = none ↔ ∀ p ∈ xs.zip ys, |p.1 - p.2| ≤ tol) ∧
      ∀ d, r = some d → (∃ p ∈ xs.zip ys, |p.1 - p.2| = d) ∧ ∀ p ∈ xs.zip ys, |p.1 - p.2| ≤ d := by
  have hcells : diffCells (newDense (some 0) [a, b, c] (some (xs.map some))) (newDense (some 0) [a, b, c] (some (ys.map some))) = some ((xs.zip ys).map (fun p => (some p.1, some p.2))) := by
    have hz : (xs.zip ys).length = a * (b * c) := by rw [List.length_zip, hx, hy, min_self]
    have key : ∀ is ∈ indices [a, b, c], ∃ h : dot (strideLoop [a, b, c]).1 is < (xs.zip ys).length, (match (newDense (some (0 : K)) [a, b, c] (some (xs.map some))).at_ (is.map Int.ofNat), (newDense (some (0 : K)) [a, b, c] (some (ys.map some))).at_ (is.map Int.ofNat) with
        | some (.ok u), some (.ok v) => some (u, v)
        | _, _ => none) = some (some ((xs.zip ys)[dot (strideLoop [a, b, c]).1 is]).1, some ((xs.zip ys)[dot (strideLoop [a, b, c]).1 is]).2) := by
      intro is his
      have hf := (mem_indices _ _).1 his
      have hp : dot (strideLoop [a, b, c]).1 is < a * (b * c) := by
        have : dot (strideLoop [a, b, c]).1 is ∈ List.range [a, b, c].prod := by rw [← indices_pos]; exact List.mem_map.2 ⟨is, his, rfl⟩
        simpa using List.mem_range.1 this
      refine ⟨by rw [hz]; exact hp, ?_⟩
      rw [Dense.at_, newDense, atPos_ok _ _ hf, Dense.at_, newDense, atPos_ok _ _ hf]
      simp [hx, hy, hp]
    have hpos : (indices [a, b, c]).map (fun is => dot (strideLoop [a, b, c]).1 is) = List.range (xs.zip ys).length := by
      rw [hz, indices_pos]
      simp
    rw [diffCells]
    simp only [show (newDense (some (0 : K)) [a, b, c] (some (xs.map some))).shape = [a, b, c] from rfl]
    have : ∀ l : List (List ℕ), (∀ is ∈ l, is ∈ indices [a, b, c]) → l.mapM (fun is => match (newDense (some (0 : K)) [a, b, c] (some (xs.map some))).at_ (is.map Int.ofNat), (newDense (some (0 : K)) [a, b, c] (some (ys.map some))).at_ (is.map Int.ofNat) with
        | some (.ok u), some (.ok v) => some (u, v)
        | _, _ => none) = some ((l.map (fun is => dot (strideLoop [a, b, c]).1 is)).map (fun k => ((((xs.zip ys)[k]?).map Prod.fst), ((xs.zip ys)[k]?).map Prod.snd))) := by
      intro l
      induction l with
      | nil => intro _; rfl
      | cons is l ih =>
        intro h
        obtain ⟨h1, h2⟩ := key is (h is (List.mem_cons_self ..))
        rw [List.mapM_cons, ih (fun js hj => h js (List.mem_cons_of_mem _ hj)), h2, List.map_cons, List.map_cons, List.getElem?_eq_getElem h1]
        rfl
    refine (this _ (fun _ h => h)).trans ?_
    rw [hpos]
    congr 1
    apply List.ext_getElem
    · simp
    · intro k h1 h2
      have hk : k < (xs.zip ys).length := by simpa using h1
      rw [List.getElem_map, List.getElem_map, List.getElem_range, List.getElem?_eq_getElem hk]
      rfl
  obtain ⟨h1, h2⟩ := C144_diff_partial tol ht (xs.zip ys)
  exact ⟨_, by rw [hcells, Option.map_some], h1, h2⟩

example : (diffCells (newDense (some (0 : ℚ)) [1, 2, 2] (some ([1, 2, 3, 4].map some))) (newDense (some 0) [1, 2, 2] (some ([1, 2, 5, 4].map some)))).map (diff3D 1) = some (some 2) := by decide +kernel

/-- C144, violated: only the cells of the first tensor are compared: a tensor has no difference with one that continues it with further rows of any values. -/
theorem C144_shape_violated (tol : K) (ht : 0 ≤ tol) (a b c : ℕ) (xs ys : List K) (hx : xs.length = a * (b * c)) (hy : ys.length = b * c) :
    (diffCells (newDense (some 0) [a, b, c] (some (xs.map some))) (newDense (some 0) [a + 1, b, c] (some ((xs ++ ys).map some)))).map (diff3D tol) = some none := by
  have hst : (strideLoop [a, b, c]).1 = [b * c, c, 1] ∧ (strideLoop [a + 1, b, c]).1 = [b * c, c, 1] := by simp [strideLoop, Nat.mul_comm]
  have hall : ∀ is ∈ indices [a, b, c], ∃ v : K, (newDense (some (0 : K)) [a, b, c] (some (xs.map some))).at_ (is.map Int.ofNat) = some (.ok (some v)) ∧
      (newDense (some 0) [a + 1, b, c] (some ((xs ++ ys).map some))).at_ (is.map Int.ofNat) = some (.ok (some v)) := by
    intro is his
    have hf := (mem_indices _ _).1 his
    have hf' : List.Forall₂ (· < ·) is [a + 1, b, c] := by
      cases hf with
      | cons h1 h2 => exact .cons (by omega) h2
    have hp : dot (strideLoop [a, b, c]).1 is < xs.length := by
      have : dot (strideLoop [a, b, c]).1 is ∈ List.range [a, b, c].prod := by rw [← indices_pos]; exact List.mem_map.2 ⟨is, his, rfl⟩
      rw [hx]
      simpa using List.mem_range.1 this
    refine ⟨xs[dot (strideLoop [a, b, c]).1 is], ?_, ?_⟩
    · rw [Dense.at_, newDense, atPos_ok _ _ hf]
      simp [hp]
    · rw [Dense.at_, newDense, atPos_ok _ _ hf']
      rw [hst.1] at hp
      simp only [hst]
      simp only [Option.getD_some, List.map_append]
      rw [List.getElem?_append_left (by simpa using hp)]
      simp [hp]
  have hm : ∃ cells : List (Option K × Option K), diffCells (newDense (some 0) [a, b, c] (some (xs.map some))) (newDense (some 0) [a + 1, b, c] (some ((xs ++ ys).map some))) = some cells ∧ ∀ p ∈ cells, ∃ v : K, p = (some v, some v) := by
    rw [diffCells]
    simp only [show (newDense (some (0 : K)) [a, b, c] (some (xs.map some))).shape = [a, b, c] from rfl]
    generalize indices [a, b, c] = l at hall
    induction l with
    | nil => exact ⟨[], rfl, by simp⟩
    | cons is l ih =>
      obtain ⟨cells, h1, h2⟩ := ih (fun js hjs => hall js (List.mem_cons_of_mem _ hjs))
      obtain ⟨v, e1, e2⟩ := hall is (List.mem_cons_self ..)
      refine ⟨(some v, some v) :: cells, ?_, ?_⟩
      · rw [List.mapM_cons, h1, e1, e2]
        rfl
      · intro p hp
        rcases List.mem_cons.1 hp with rfl | hp
        · exact ⟨v, rfl⟩
        · exact h2 p hp
  obtain ⟨cells, h1, h2⟩ := hm
  rw [h1, Option.map_some]
  congr 1
  obtain ⟨vs, rfl, hv⟩ : ∃ vs : List (K × K), cells = vs.map (fun c => (some c.1, some c.2)) ∧ ∀ c ∈ vs, c.1 = c.2 := by
    clear h1
    induction cells with
    | nil => exact ⟨[], by simp⟩
    | cons p cells ih =>
      obtain ⟨vs, e, h⟩ := ih (fun p hp => h2 p (List.mem_cons_of_mem _ hp))
      obtain ⟨v, rfl⟩ := h2 p (List.mem_cons_self ..)
      exact ⟨(v, v) :: vs, by simp [e], by simpa using h⟩
  rw [(C144_diff_partial tol ht vs).1]
  intro c hc
  rw [hv c hc, sub_self, abs_zero]
  exact ht

end

/-! ### Hyperparameters -/

/-- C144, violated: cloning a kernel with a nil theta, for which sums and products have a special case, panics for every kernel. -/
theorem C144_nil_violated (k : GP.Kern) : cloneNil k = none := by
  induction k with
  | sum k₁ k₂ ih₁ _ => rw [cloneNil, ih₁]; rfl
  | prod k₁ k₂ ih₁ _ => rw [cloneNil, ih₁]; rfl
  | exp k p ih => rw [cloneNil, ih]
  | _ => rfl

/-- C144: `Theta()` and `Bounds()` describe the same hyperparameters in the same order: row `i` of the bounds belongs to entry `i` of theta, and values within positive bounds have their theta within
the bounds. -/
theorem C144_bounds (ps : List Param) (h : ∀ p ∈ ps, 0 < p.lo ∧ p.lo ≤ p.value ∧ p.value ≤ p.hi) : List.Forall₂ (fun t b => b.1 ≤ t ∧ t ≤ b.2) (theta ps) (bounds ps) := by
  rw [theta, bounds]
  have h' : ∀ p ∈ notFixed ps, 0 < p.lo ∧ p.lo ≤ p.value ∧ p.value ≤ p.hi := fun p hp => h p (List.mem_filter.1 hp).1
  generalize notFixed ps = l at h'
  induction l with
  | nil => exact .nil
  | cons p l ih =>
    obtain ⟨h1, h2, h3⟩ := h' p (List.mem_cons_self ..)
    refine .cons ⟨Real.log_le_log h1 h2, Real.log_le_log (h1.trans_le h2) h3⟩ (ih (fun q hq => h' q (List.mem_cons_of_mem _ hq)))

example : ∀ p ∈ [(⟨1, 1 / 2, 2⟩ : Param), ⟨3, 3, 3⟩], 0 < p.lo ∧ p.lo ≤ p.value ∧ p.value ≤ p.hi := by
  intro p hp
  simp only [List.mem_cons, List.not_mem_nil, or_false] at hp
  rcases hp with rfl | rfl <;> norm_num

/-- C144: a hyperparameter with equal bounds has no entry in theta or in the bounds, one with different bounds has one in each, before those of the later hyperparameters. -/
theorem C144_free (p : Param) (ps : List Param) : (theta ([] : List Param) = [] ∧ bounds ([] : List Param) = []) ∧
    (p.lo = p.hi → theta (p :: ps) = theta ps ∧ bounds (p :: ps) = bounds ps) ∧
    (p.lo ≠ p.hi → theta (p :: ps) = Real.log p.value :: theta ps ∧ bounds (p :: ps) = (Real.log p.lo, Real.log p.hi) :: bounds ps) := by
  refine ⟨⟨rfl, rfl⟩, fun h => ?_, fun h => ?_⟩
  · simp [theta, bounds, notFixed, h]
  · simp [theta, bounds, notFixed, Ne.symm h]

/-- One fixed and one free hyperparameter. -/
example : theta [⟨3, 3, 3⟩, ⟨1, 1 / 2, 2⟩] = [Real.log 1] := by
  rw [((C144_free _ _).2.1 rfl).1, ((C144_free _ _).2.2 (by norm_num)).1, (C144_free ⟨0, 0, 0⟩ []).1.1]

end Sk.Tensor
