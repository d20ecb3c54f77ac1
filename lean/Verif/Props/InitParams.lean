import Verif.Model.InitParams
import Verif.Props.MlpFit

/-! # C187: initial parameters -/
set_option autoImplicit false

namespace Sk.Init
open Sk.MlpFit (views packedLen View)
open Sk.Mlp (Params Act logits affine)

/-! ## The loops -/

theorem fill_spec (draws : ℕ → ℝ) (bound : ℝ) (n : ℕ) : ∀ (a k : ℕ) (mem : List ℝ), a + n ≤ mem.length →
    let r := (List.range' a n).foldl (fun (st : List ℝ × ℕ) pos => (st.1.set pos (draws st.2 * bound), st.2 + 1)) (mem, k)
    r.2 = k + n ∧ r.1.length = mem.length ∧ ∀ pos, r.1[pos]? = if a ≤ pos ∧ pos < a + n then some (draws (k + (pos - a)) * bound) else mem[pos]? := by
  induction n with
  | zero => intro a k mem _; refine ⟨rfl, rfl, fun pos => ?_⟩; rw [if_neg (by omega)]; rfl
  | succ n ih =>
    intro a k mem h
    rw [List.range'_succ, List.foldl_cons]
    obtain ⟨h1, h2, h3⟩ := ih (a + 1) (k + 1) (mem.set a (draws k * bound)) (by simp; omega)
    refine ⟨by rw [h1]; omega, by rw [h2]; simp, fun pos => ?_⟩
    rw [h3 pos]
    by_cases hp : pos = a
    · subst hp
      rw [if_neg (by omega), if_pos (by omega), List.getElem?_set_self (by omega)]
      simp
    · by_cases hq : a + 1 ≤ pos ∧ pos < a + 1 + n
      · rw [if_pos hq, if_pos (by omega), show k + 1 + (pos - (a + 1)) = k + (pos - a) by omega]
      · rw [if_neg hq, if_neg (by omega), List.getElem?_set_ne (by omega)]

theorem layers_spec (draws : ℕ → ℝ) (factor : ℝ) (us : List ℕ) : ∀ (off : ℕ) (mem : List ℝ), off + packedLen us ≤ mem.length →
    let r := layers draws factor us off (mem, off)
    r.2 = off + packedLen us ∧ r.1.length = mem.length ∧ (∀ pos, pos < off → r.1[pos]? = mem[pos]?) ∧
      ∀ V ∈ views off us, ∀ pos ∈ V.positions, r.1[pos]? = some (draws pos * Real.sqrt (factor / (V.rows + V.cols : ℕ))) := by
  induction us with
  | nil => intro off mem _; exact ⟨rfl, rfl, fun _ _ => rfl, fun V h => by cases h⟩
  | cons u us ih =>
    intro off mem h
    cases us with
    | nil => exact ⟨rfl, rfl, fun _ _ => rfl, fun V h => by cases h⟩
    | cons v rest =>
      have hl : packedLen (u :: v :: rest) = v + u * v + packedLen (v :: rest) := by rw [packedLen]; ring
      rw [hl] at h ⊢
      obtain ⟨f1, f2, f3⟩ := fill_spec draws (initBound factor u v) (v + u * v) off off mem (by omega)
      have hf : fill draws (initBound factor u v) off (off + v + u * v) (mem, off) =
          (List.range' off (v + u * v)).foldl (fun (st : List ℝ × ℕ) pos => (st.1.set pos (draws st.2 * initBound factor u v), st.2 + 1)) (mem, off) := by
        rw [fill, show off + v + u * v - off = v + u * v by omega]
      rw [← hf] at f1 f2 f3
      rw [layers]
      obtain ⟨mem', k, hm⟩ : ∃ mem' k, fill draws (initBound factor u v) off (off + v + u * v) (mem, off) = (mem', k) := ⟨_, _, rfl⟩
      rw [hm] at f1 f2 f3 ⊢
      simp only at f1 f2 f3
      rw [f1, ← Nat.add_assoc]
      obtain ⟨g1, g2, g3, g4⟩ := ih (off + v + u * v) mem' (by omega)
      refine ⟨by rw [g1]; omega, by rw [g2, f2], fun pos hp => ?_, fun V hV pos hpos => ?_⟩
      · rw [g3 pos (by omega), f3 pos, if_neg (by omega)]
      · rw [views] at hV
        rcases List.mem_cons.1 hV with rfl | hV
        · simp only [View.positions, List.mem_append, List.mem_range'_1] at hpos
          have hr : off ≤ pos ∧ pos < off + (v + u * v) := by omega
          rw [g3 pos (by omega), f3 pos, if_pos hr, show off + (pos - off) = pos by omega]
          rfl
        · exact g4 V hV pos hpos

/-! ## C187 -/

/-- C187: after `initialize` the packed parameters have one number for each position, each from a draw of its own: in a layer with `u` inputs and `v` outputs it is the draw times `√(factor/(u+v))`, `factor` being 2 for the logistic
activation and 6 otherwise. -/
theorem C187_values (logistic : Bool) (us : List ℕ) (draws : ℕ → ℝ) :
    (netInit logistic us draws).1.length = packedLen us ∧ (netInit logistic us draws).2 = packedLen us ∧
      ∀ V ∈ views 0 us, ∀ pos ∈ V.positions, (netInit logistic us draws).1[pos]? = some (draws pos * Real.sqrt ((if logistic then 2 else 6) / (V.rows + V.cols : ℕ))) := by
  obtain ⟨h1, h2, -, h4⟩ := layers_spec draws (if logistic then 2 else 6) us 0 (List.replicate (packedLen us) 0) (by simp)
  exact ⟨by rw [netInit, h2, List.length_replicate], by rw [netInit, h1, Nat.zero_add], h4⟩

/-- A network with three inputs, two hidden units and one output: 11 parameters, the last layer begins at position 8. -/
example : packedLen [3, 2, 1] = 11 ∧ (⟨8, 1, 9, 2, 1⟩ : View) ∈ views 0 [3, 2, 1] ∧ 10 ∈ (⟨8, 1, 9, 2, 1⟩ : View).positions := by
  refine ⟨rfl, by decide, by decide⟩

/-- C187: for draws in [0, 1) every initial parameter of a layer lies in `[-b, b]`, `b = √(factor/(u+v))`, and two parameters of a layer are equal just if their draws are.
Missing for the full claim: that both signs occur, which `C187_sign_violated` refutes. -/
theorem C187_range_partial (logistic : Bool) (us : List ℕ) (draws : ℕ → ℝ) (hd : ∀ k, 0 ≤ draws k ∧ draws k < 1) (V : View) (hV : V ∈ views 0 us) (hpos : 0 < V.cols) (pos pos' : ℕ) (h : pos ∈ V.positions) (h' : pos' ∈ V.positions) :
    ∃ w w', (netInit logistic us draws).1[pos]? = some w ∧ (netInit logistic us draws).1[pos']? = some w' ∧
      |w| < Real.sqrt ((if logistic then 2 else 6) / (V.rows + V.cols : ℕ)) ∧ (w = w' ↔ draws pos = draws pos') := by
  obtain ⟨-, -, hv⟩ := C187_values logistic us draws
  have hb : 0 < Real.sqrt ((if logistic then 2 else 6) / (V.rows + V.cols : ℕ)) := by
    apply Real.sqrt_pos.2
    apply div_pos
    · split <;> norm_num
    · exact_mod_cast (by omega : 0 < V.rows + V.cols)
  refine ⟨_, _, hv V hV pos h, hv V hV pos' h', ?_, ?_⟩
  · rw [abs_of_nonneg (mul_nonneg (hd pos).1 hb.le)]
    exact mul_lt_of_lt_one_left hb (hd pos).2
  · exact mul_left_inj' hb.ne'

/-- Draws that are all 1/2. -/
example : (∀ k : ℕ, 0 ≤ (fun _ => (1 / 2 : ℝ)) k ∧ (fun _ => (1 / 2 : ℝ)) k < 1) ∧ (⟨0, 2, 2, 3, 2⟩ : View) ∈ views 0 [3, 2, 1] ∧ 0 < (⟨0, 2, 2, 3, 2⟩ : View).cols ∧ 5 ∈ (⟨0, 2, 2, 3, 2⟩ : View).positions := by
  refine ⟨fun _ => by norm_num, by decide, by decide, by decide⟩

theorem init_nonneg (logistic : Bool) (us : List ℕ) (draws : ℕ → ℝ) (hd : ∀ k, 0 ≤ draws k) : ∀ w ∈ (netInit logistic us draws).1, 0 ≤ w := by
  intro w hw
  obtain ⟨hl, -, hv⟩ := C187_values logistic us draws
  obtain ⟨pos, hp, rfl⟩ := List.getElem_of_mem hw
  have hmem : pos ∈ (views 0 us).flatMap View.positions := by
    rw [(Sk.MlpFit.C135_layout us).1, List.mem_range]
    omega
  obtain ⟨V, hV, hpos⟩ := List.mem_flatMap.1 hmem
  have := hv V hV pos hpos
  rw [List.getElem?_eq_getElem hp] at this
  rw [Option.some.inj this]
  exact mul_nonneg (hd pos) (Real.sqrt_nonneg _)

/-- C187, violated: the initialisation "recommended by Glorot et al." draws from both sides of 0; here no initial parameter is ever negative, for no layer sizes, activation or draws. -/
theorem C187_sign_violated (logistic : Bool) (us : List ℕ) (draws : ℕ → ℝ) (hd : ∀ k, 0 ≤ draws k ∧ draws k < 1) : ∀ w ∈ (netInit logistic us draws).1, 0 ≤ w :=
  init_nonneg logistic us draws (fun k => (hd k).1)

/-- The parameters read through the views of the layers (see `Sk.MlpFit.views`): coefficient `(j, o)` of a layer with `q` outputs at `cOff + j*q + o`. -/
noncomputable def unpack (mem : List ℝ) : ℕ → (p : ℕ) → (hs : List ℕ) → (q : ℕ) → Params p hs q
  | off, _, [], q => (fun j o => mem.getD (off + q + j.val * q + o.val) 0, fun o => mem.getD (off + o.val) 0)
  | off, p, h :: hs, q => ((fun j o => mem.getD (off + h + j.val * h + o.val) 0, fun o => mem.getD (off + o.val) 0), unpack mem (off + h + p * h) h hs q)

theorem getD_nonneg {mem : List ℝ} (h : ∀ w ∈ mem, 0 ≤ w) (i : ℕ) : 0 ≤ mem.getD i 0 := by
  rw [List.getD_eq_getElem?_getD]
  cases hi : mem[i]? with
  | none => exact le_refl _
  | some w => exact h w (List.mem_of_getElem? hi)

/-- C187, violated: therefore a new network with relu units computes, on every sample without negative features, what it would compute without any activation function in its hidden layers: an affine function. -/
theorem C187_linear_violated (us : List ℕ) (draws : ℕ → ℝ) (hd : ∀ k, 0 ≤ draws k ∧ draws k < 1) (p q : ℕ) (hs : List ℕ) (_ : us = p :: hs ++ [q]) (x : Fin p → ℝ) (hx : ∀ j, 0 ≤ x j) :
    logits .relu hs (unpack (netInit false us draws).1 0 p hs q) x = logits .identity hs (unpack (netInit false us draws).1 0 p hs q) x := by
  have hm := C187_sign_violated false us draws hd
  generalize (netInit false us draws).1 = mem at hm
  clear * - hm hx
  generalize 0 = off
  induction hs generalizing off p with
  | nil => rfl
  | cons h hs ih =>
    have hz : ∀ o, 0 ≤ affine ((fun j o => mem.getD (off + h + j.val * h + o.val) 0, fun o => mem.getD (off + o.val) 0) : Sk.Mlp.Layer p h) x o := by
      intro o
      refine add_nonneg (Finset.sum_nonneg (fun j _ => mul_nonneg (hx j) (getD_nonneg hm _))) (getD_nonneg hm _)
    rw [unpack, logits, logits]
    have e : (fun o => Act.relu.f (affine ((fun j o => mem.getD (off + h + j.val * h + o.val) 0, fun o => mem.getD (off + o.val) 0) : Sk.Mlp.Layer p h) x o)) =
        fun o => Act.identity.f (affine ((fun j o => mem.getD (off + h + j.val * h + o.val) 0, fun o => mem.getD (off + o.val) 0) : Sk.Mlp.Layer p h) x o) := by
      funext o
      have := hz o
      simp only [Act.f]
      exact if_neg (not_lt.2 this)
    rw [e]
    exact ih h _ (fun o => hz o) _

/-- Two features, three hidden units, one output. -/
example : [2, 3, 1] = 2 :: [3] ++ [1] ∧ ∀ j : Fin 2, 0 ≤ (fun _ => (1 : ℝ)) j := ⟨rfl, fun _ => by norm_num⟩

/-- Positions of a slice. -/
def slice (s : ℕ × ℕ) : List ℕ := List.range' s.1 s.2

/-- C187, `LogisticRegression`: intercepts and coefficients fill `packedParameters` without overlap, their gradients fill `packedGrads` in the same order (position `i` of one is the gradient of position `i` of the other), and parameters
and gradients do not overlap; every parameter starts with a draw of its own times `√(2/(p+q))`, the gradients with 0. -/
theorem C187_logistic (p q : ℕ) (draws : ℕ → ℝ) :
    let m := logInitialize p q draws
    slice m.intercept ++ slice m.coef = slice m.packedParameters ∧ slice m.interceptGrads ++ slice m.coefGrads = slice m.packedGrads ∧
      slice m.interceptGrads = (slice m.intercept).map (m.packedGrads.1 + ·) ∧ slice m.coefGrads = (slice m.coef).map (m.packedGrads.1 + ·) ∧
      slice m.packedParameters ++ slice m.packedGrads = List.range m.mem.length ∧
      (∀ pos ∈ slice m.packedParameters, m.mem[pos]? = some (draws pos * Real.sqrt (2 / (p + q : ℕ)))) ∧ ∀ pos ∈ slice m.packedGrads, m.mem[pos]? = some 0 := by
  intro m
  have hs : (1 + p) * q = q + p * q := by ring
  obtain ⟨-, f2, f3⟩ := fill_spec draws (initBound 2 p q) (q + p * q) 0 0 (List.replicate (2 * ((1 + p) * q)) 0) (by simp; omega)
  have hm : m.mem = ((List.range' 0 (q + p * q)).foldl (fun (st : List ℝ × ℕ) pos => (st.1.set pos (draws st.2 * initBound 2 p q), st.2 + 1)) (List.replicate (2 * ((1 + p) * q)) 0, 0)).1 := rfl
  rw [← hm] at f2 f3
  simp only [List.length_replicate] at f2
  refine ⟨?_, ?_, ?_, ?_, ?_, ?_, ?_⟩
  · simp only [slice, m, logInitialize, hs]
    rw [← List.range'_append_1, Nat.zero_add]
  · simp only [slice, m, logInitialize, hs]
    rw [← List.range'_append_1]
  · simp only [slice, m, logInitialize, hs]
    rw [List.map_add_range', Nat.add_zero]
  · simp only [slice, m, logInitialize, hs]
    rw [List.map_add_range']
  · rw [f2]
    simp only [slice, m, logInitialize, hs]
    generalize q + p * q = s
    rw [List.range_eq_range', two_mul, ← List.range'_append_1, Nat.zero_add]
  · intro pos hpos
    simp only [slice, m, logInitialize, List.mem_range'_1] at hpos
    rw [f3 pos, if_pos (by omega)]
    simp [initBound]
  · intro pos hpos
    simp only [slice, m, logInitialize, List.mem_range'_1] at hpos
    rw [f3 pos, if_neg (by omega), List.getElem?_replicate, if_pos (by omega)]

/-- Two features, three classes: 9 parameters. -/
example : (logInitialize 2 3 (fun _ => 1 / 2)).packedGrads = (9, 9) ∧ (logInitialize 2 3 (fun _ => 1 / 2)).coefGrads = (12, 6) := ⟨rfl, rfl⟩

end Sk.Init
