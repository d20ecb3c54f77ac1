import Verif.Model.Pipeline
import Mathlib.Data.List.Basic

/-!
# C11, C62: `Pipeline`
-/
set_option autoImplicit false

namespace Sk.Pipeline

variable {M S : Type}

/-- What the steps `fs` (already fitted) turn the pair (X,Y) into. -/
def through (fs : List (Fitted M S)) (xy : M × M) : M × M := fs.foldl (fun xy f => transformStep f xy) xy

theorem fit_length : ∀ (ss : List (M → M → Fitted M S)) (xy : M × M), (fit ss xy).length = ss.length
  | [], _ => rfl
  | [_], _ => rfl
  | s :: s' :: rest, xy => by
      rw [fit, List.length_cons, fit_length (s' :: rest)]; rfl

/-- **C11.** `Fit` fits step `k` on the data as transformed by the fitted steps `0..k-1`. -/
theorem C11_fit_chain : ∀ (ss : List (M → M → Fitted M S)) (xy : M × M) (k : ℕ) (hk : k < ss.length),
    (fit ss xy)[k]'(by rw [fit_length]; exact hk) =
      ss[k] (through ((fit ss xy).take k) xy).1 (through ((fit ss xy).take k) xy).2
  | [s], xy, k, hk => by
      have : k = 0 := by simpa using hk
      subst this
      rfl
  | s :: s' :: rest, xy, k, hk => by
      cases k with
      | zero => rfl
      | succ k =>
        have ih := C11_fit_chain (s' :: rest) (transformStep (s xy.1 xy.2) xy) k (by simpa using hk)
        simp only [fit, List.getElem_cons_succ, List.take_succ_cons]
        rw [ih]
        rfl

/-- **C11.** For a pipeline made of transformers with inverses (`tr i`, `inv i`) and a final predicter, where the transformed X does
not depend on Y, `Predict` applies the transforms of X in order, predicts, and applies the inverse target transforms in reverse
order; the previous content of the destination does not matter. -/
theorem C11_predict_composition (trs : List ((M → M → M × M) × (M → M)))
    (hX : ∀ t ∈ trs, ∀ x y y', (t.1 x y).1 = (t.1 x y').1) (p : M → M) (sc : M → M → S) (x y0 y1 : M) :
    predict (trs.map (fun t => Fitted.transformer t.1 (some t.2)) ++ [.predicter p sc]) x y0 =
      some (trs.foldr (fun t y => t.2 y) (p (trs.foldl (fun x t => (t.1 x y1).1) x))) := by
  unfold predict
  simp only [List.dropLast_concat, List.foldl_append, List.foldl_cons, List.foldl_nil, transformStep]
  have h1 : ∀ (trs : List ((M → M → M × M) × (M → M))), (∀ t ∈ trs, ∀ x y y', (t.1 x y).1 = (t.1 x y').1) → ∀ (xy : M × M),
      ((trs.map (fun t => (Fitted.transformer t.1 (some t.2) : Fitted M S))).foldl (fun xy f => transformStep f xy) xy).1 =
        trs.foldl (fun x t => (t.1 x y1).1) xy.1 := by
    intro trs
    induction trs with
    | nil => intro _ xy; rfl
    | cons t trs ih =>
      intro hX xy
      simp only [List.map_cons, List.foldl_cons]
      rw [ih (fun t ht => hX t (List.mem_cons_of_mem _ ht))]
      simp only [transformStep]
      rw [hX t List.mem_cons_self xy.1 xy.2 y1]
  have h2 : ∀ (trs : List ((M → M → M × M) × (M → M))) (y : M),
      (trs.map (fun t => (Fitted.transformer t.1 (some t.2) : Fitted M S))).reverse.foldlM (fun y f => inverseStep f y) y =
        some (trs.foldr (fun t y => t.2 y) y) := by
    intro trs
    induction trs with
    | nil => intro y; rfl
    | cons t trs ih =>
      intro y
      rw [List.map_cons, List.reverse_cons, List.foldlM_append, ih]
      simp [inverseStep]
  have h3 := h1 trs hX (x, y0)
  simp only [transformStep] at h3
  rw [h3, h2]

/-- **C11.** Consequence: if each target transform is undone by the inverse and the final step reproduces its training targets on its
training data, then after `Fit(X,Y)`, `Predict(X)` returns `Y`. (Checks that the inverses are applied to the right thing in the right
order.) -/
theorem C11_fit_predict_roundtrip (ts : List (M → M → (M → M → M × M) × (M → M))) (last : M → M → (M → M) × (M → M → S))
    (hX : ∀ t ∈ ts, ∀ a b x y y', ((t a b).1 x y).1 = ((t a b).1 x y').1)
    (hinv : ∀ t ∈ ts, ∀ a b x y, (t a b).2 ((t a b).1 x y).2 = y)
    (hlast : ∀ x y, (last x y).1 x = y) (x y y0 : M) :
    predict (fit (ts.map (fun t a b => Fitted.transformer (t a b).1 (some (t a b).2)) ++
      [fun a b => .predicter (last a b).1 (last a b).2]) (x, y)) x y0 = some y := by
  -- fitted transformers and the predicter
  have key : ∀ (ts : List (M → M → (M → M → M × M) × (M → M))),
      (∀ t ∈ ts, ∀ a b x y y', ((t a b).1 x y).1 = ((t a b).1 x y').1) →
      (∀ t ∈ ts, ∀ a b x y, (t a b).2 ((t a b).1 x y).2 = y) → ∀ x y : M,
      ∃ (trs : List ((M → M → M × M) × (M → M))) (p : M → M) (sc : M → M → S),
        fit (ts.map (fun t a b => Fitted.transformer (t a b).1 (some (t a b).2)) ++
          [fun a b => (.predicter (last a b).1 (last a b).2 : Fitted M S)]) (x, y) =
          trs.map (fun t => Fitted.transformer t.1 (some t.2)) ++ [.predicter p sc] ∧
        (∀ t ∈ trs, ∀ x y y', (t.1 x y).1 = (t.1 x y').1) ∧
        trs.foldr (fun t y => t.2 y) (p (trs.foldl (fun x t => (t.1 x y0).1) x)) = y := by
    intro ts
    induction ts with
    | nil =>
      intro _ _ x y
      exact ⟨[], (last x y).1, (last x y).2, rfl, by simp, by simp [hlast]⟩
    | cons t ts ih =>
      intro hX hinv x y
      obtain ⟨trs, p, sc, h1, h2, h3⟩ := ih (fun t ht => hX t (List.mem_cons_of_mem _ ht))
        (fun t ht => hinv t (List.mem_cons_of_mem _ ht)) ((t x y).1 x y).1 ((t x y).1 x y).2
      refine ⟨t x y :: trs, p, sc, ?_, ?_, ?_⟩
      · rw [List.map_cons, List.cons_append]
        have hfit : ∀ (s : M → M → Fitted M S) (rest : List (M → M → Fitted M S)) (xy : M × M), rest ≠ [] →
            fit (s :: rest) xy = s xy.1 xy.2 :: fit rest (transformStep (s xy.1 xy.2) xy) := by
          intro s rest xy hne
          cases rest with
          | nil => exact absurd rfl hne
          | cons a l => rfl
        rw [hfit _ _ _ (by simp)]
        simp only [transformStep]
        rw [h1]
        rfl
      · intro t' ht'
        rcases List.mem_cons.1 ht' with rfl | ht'
        · exact hX t List.mem_cons_self x y
        · exact h2 t' ht'
      · simp only [List.foldr_cons, List.foldl_cons]
        rw [hX t List.mem_cons_self x y x y0 y, h3]
        exact hinv t List.mem_cons_self x y x y
  obtain ⟨trs, p, sc, h1, h2, h3⟩ := key ts hX hinv x y
  rw [h1, C11_predict_composition trs h2 p sc x y0 y0, h3]

/-- **C11.** A step (other than the last) that has no inverse transform, be it a transformer or a predicter, makes `Predict` panic. -/
theorem C11_predict_panics (pre post : List (Fitted M S)) (f last : Fitted M S)
    (hf0 : (∃ t, f = .transformer t none) ∨ ∃ p sc, f = .predicter p sc) (x y0 : M) :
    predict (pre ++ f :: post ++ [last]) x y0 = none := by
  have hf : ∀ y, inverseStep f y = none := by
    rcases hf0 with ⟨t, rfl⟩ | ⟨p, sc, rfl⟩ <;> intro y <;> rfl
  unfold predict
  simp only [List.dropLast_concat, List.reverse_append, List.reverse_cons]
  generalize (List.foldl (fun xy f => transformStep f xy) (x, y0) (pre ++ f :: post ++ [last])).2 = y
  rw [List.foldlM_append, List.foldlM_append]
  cases h : post.reverse.foldlM (fun y f => inverseStep f y) y with
  | none => rfl
  | some y' =>
    show (List.foldlM (fun y f => inverseStep f y) y' [f]).bind _ = none
    rw [List.foldlM_cons, hf]
    rfl

/-- numbers as matrices: a step that scales X and Y by data-dependent factors, and a predicter that memorises its data -/
example :
    predict (fit ([fun (a b : Int) => Fitted.transformer (fun x y => (x + a, y + b)) (some (fun y => y - b)),
      fun a b => Fitted.transformer (fun x y => (x - a, y + 3 * b)) (some (fun y => y - 3 * b)),
      fun _ b => .predicter (fun _ => b) (fun _ _ => ())]) (5, 7)) 5 0 = some 7 := by
  decide

/-! ## C62: Score -/

/-- **C62, what holds.** When the inverse target transforms are the identity, `Score(X,Y)` is the final step's score function applied to
`Y` and to what `Predict(X)` returns. Full statement (false, `C62_score_violated`): the same for every pipeline. -/
theorem C62_score_partial (trs : List (M → M → M × M)) (hX : ∀ t ∈ trs, ∀ x y y', (t x y).1 = (t x y').1)
    (p : M → M) (metric : M → M → S) (x y y0 : M) :
    (predict (trs.map (fun t => Fitted.transformer t (some id)) ++ [.predicter p (fun x y => metric y (p x))]) x y0).map (metric y) =
      score (trs.map (fun t => Fitted.transformer t (some id)) ++ [.predicter p (fun x y => metric y (p x))]) x y := by
  have h := C11_predict_composition (S := S) (trs.map (fun t => (t, id))) (by
    intro t ht
    rw [List.mem_map] at ht
    obtain ⟨t, ht, rfl⟩ := ht
    exact hX t ht) p (fun x y => metric y (p x)) x y0 y
  rw [List.map_map] at h
  have e : ((fun t : (M → M → M × M) × (M → M) => (Fitted.transformer t.1 (some t.2) : Fitted M S)) ∘ fun t => (t, id)) =
      fun t => Fitted.transformer t (some id) := rfl
  rw [e] at h
  rw [h]
  unfold score
  simp only [List.getLast?_concat, List.dropLast_concat, Option.map_some]
  have h1 : ∀ (l : List (M → M → M × M)) (y : M), (l.map (fun t => (t, (id : M → M)))).foldr (fun t y => t.2 y) y = y := by
    intro l; induction l with
    | nil => intro y; rfl
    | cons a l ih => intro y; simp only [List.map_cons, List.foldr_cons, ih]; rfl
  rw [h1]
  have h2 : ∀ (l : List (M → M → M × M)), (∀ t ∈ l, ∀ x y y', (t x y).1 = (t x y').1) → ∀ xy : M × M,
      (l.map (fun t => (t, (id : M → M)))).foldl (fun x t => (t.1 x y).1) xy.1 =
        ((l.map (fun t => (Fitted.transformer t (some id) : Fitted M S))).foldl (fun xy f => transformStep f xy) xy).1 := by
    intro l; induction l with
    | nil => intro _ xy; rfl
    | cons a l ih =>
      intro hl xy
      simp only [List.map_cons, List.foldl_cons]
      rw [← ih (fun t ht => hl t (List.mem_cons_of_mem _ ht))]
      simp only [transformStep]
      rw [hl a List.mem_cons_self xy.1 y xy.2]
  rw [h2 trs hX (x, y)]

/-- **C62 is violated by target transforms**: whatever the transforms of the targets and their inverses, the score is that of the value `z` of the last step, before the inverse transforms that lead from it to
the prediction. -/
theorem C62_score_violated (trs : List ((M → M → M × M) × (M → M))) (hX : ∀ t ∈ trs, ∀ x y y', (t.1 x y).1 = (t.1 x y').1) (p : M → M) (metric : M → M → S) (x y y0 : M) :
    ∃ z, predict (trs.map (fun t => Fitted.transformer t.1 (some t.2)) ++ [.predicter p (fun x y => metric y (p x))]) x y0 = some (trs.foldr (fun t y => t.2 y) z) ∧
      score (trs.map (fun t => Fitted.transformer t.1 (some t.2)) ++ [.predicter p (fun x y => metric y (p x))]) x y = some (metric y z) := by
  refine ⟨_, C11_predict_composition trs hX p (fun x y => metric y (p x)) x y0 y, ?_⟩
  unfold score
  simp only [List.getLast?_concat, List.dropLast_concat]
  have h2 : ∀ (l : List ((M → M → M × M) × (M → M))), (∀ t ∈ l, ∀ x y y', (t.1 x y).1 = (t.1 x y').1) → ∀ xy : M × M,
      l.foldl (fun x t => (t.1 x y).1) xy.1 = ((l.map (fun t => (Fitted.transformer t.1 (some t.2) : Fitted M S))).foldl (fun xy f => transformStep f xy) xy).1 := by
    intro l
    induction l with
    | nil => intro _ xy; rfl
    | cons a l ih =>
      intro hl xy
      simp only [List.map_cons, List.foldl_cons]
      rw [← ih (fun t ht => hl t (List.mem_cons_of_mem _ ht))]
      simp only [transformStep]
      rw [hl a List.mem_cons_self xy.1 y xy.2]
  rw [h2 trs hX (x, y)]

/-- A pipeline whose first step doubles Y and whose predicter is exact predicts `Y` exactly, but its score compares the un-inverted prediction with `Y`. (Metric: `true` iff equal.) -/
example :
    ∃ steps : List (Fitted ℕ Bool),
      steps = fit [fun _ _ => .transformer (fun x y => (x, 2 * y)) (some (fun y => y / 2)),
        fun _ b => .predicter (fun _ => b) (fun _ y => y == b)] (1, 5) ∧
      predict steps 1 0 = some 5 ∧ score steps 1 5 = some false :=
  ⟨_, rfl, by decide, by decide⟩

end Sk.Pipeline
