import Verif.Props.Chains
import Verif.Props.Ranks
import Verif.Props.Power

/-! # C237: scalers and power transforms keep the ranking of a feature -/
set_option autoImplicit false

namespace Sk.PrepRank

open Sk.Rank Sk.GoSort

/-- What a fitted preprocessing of one column does to a cell (`none`: NaN): a scaler fitted on the column (see `Chain.Scaler`), the Yeo-Johnson transform with a parameter other than 0, the Box-Cox transform of
positive values, or one preprocessing after another, the second being fitted on the column that the first returns. -/
inductive Prep : List ℝ → (ℝ → Option ℝ) → Prop where
  | scaler (xs : List ℝ) (f : ℝ → ℝ) (h : Chain.Scaler xs f) : Prep xs (fun x => some (f x))
  | yeoJohnson (xs : List ℝ) (lam : ℝ) (h : lam ≠ 0) : Prep xs (Power.yj lam)
  | boxCox (xs : List ℝ) (lam : ℝ) (h : ∀ x ∈ xs, 0 < x) : Prep xs (Power.bc lam)
  | next (xs ys : List ℝ) (f g : ℝ → Option ℝ) (hf : Prep xs f) (hy : xs.mapM f = some ys) (hg : Prep ys g) : Prep xs (fun x => (f x).bind g)

/-- **C237**, Box-Cox: the transform is strictly increasing on the positive numbers, for every parameter. -/
theorem C237_box_cox (lam x x' : ℝ) (hx : 0 < x) (h : x < x') : ∃ y y', Power.bc lam x = some y ∧ Power.bc lam x' = some y' ∧ y < y' := by
  refine ⟨_, _, if_pos (Or.inl hx), if_pos (Or.inl (hx.trans h)), ?_⟩
  by_cases hl : lam = 0
  · rw [if_pos hl, if_pos hl]
    exact Real.log_lt_log hx h
  · rw [if_neg hl, if_neg hl]
    rcases lt_or_gt_of_ne hl with hneg | hpos
    · have := Real.rpow_lt_rpow_of_neg hx h hneg
      exact div_lt_div_of_neg_of_lt hneg (by linarith)
    · have := Real.rpow_lt_rpow hx.le h hpos
      exact div_lt_div_of_pos_right (by linarith) hpos

private theorem defined {xs ys : List ℝ} {f : ℝ → Option ℝ} (h : xs.mapM f = some ys) : ∀ x ∈ xs, ∃ y ∈ ys, f x = some y := by
  induction xs generalizing ys with
  | nil => simp
  | cons a xs ih =>
    rw [List.mapM_cons] at h
    cases ha : f a with
    | none => simp [ha] at h
    | some b =>
      cases hr : xs.mapM f with
      | none => simp [ha, hr] at h
      | some bs =>
        simp [ha, hr] at h
        subst h
        intro x hx
        rcases List.mem_cons.1 hx with rfl | hx
        · exact ⟨b, by simp, ha⟩
        · obtain ⟨y, hy, e⟩ := ih hr x hx
          exact ⟨y, by simp [hy], e⟩

/-- **C237.** Every chain of scalers and power transforms, each fitted on what the one before returns, gives every value of the column a number and keeps the strict order of the values. -/
theorem C237_order (xs : List ℝ) (f : ℝ → Option ℝ) (hf : Prep xs f) :
    (∀ x ∈ xs, (f x).isSome) ∧ ∀ x ∈ xs, ∀ x' ∈ xs, x < x' → ∃ y y', f x = some y ∧ f x' = some y' ∧ y < y' := by
  induction hf with
  | scaler xs f h =>
    refine ⟨fun _ _ => rfl, fun x hx x' _ hlt => ⟨_, _, rfl, rfl, ?_⟩⟩
    obtain ⟨a, b, ha, e⟩ := Chain.C193_affine xs (List.ne_nil_of_mem hx) f h
    rw [e, e]
    have := mul_lt_mul_of_pos_left hlt ha
    linarith
  | yeoJohnson xs lam h =>
    refine ⟨fun x _ => ?_, fun x _ x' _ hlt => Power.C25_strictMono lam x x' h hlt⟩
    obtain ⟨y, hy, _⟩ := Power.C25_roundtrip_partial lam x (Or.inl h)
    rw [hy]
    rfl
  | boxCox xs lam h =>
    refine ⟨fun x hx => (Power.C70_domain lam x).2 (Or.inl (h x hx)), fun x hx x' _ hlt => C237_box_cox lam x x' (h x hx) hlt⟩
  | next xs ys f g _ hy _ ihf ihg =>
    refine ⟨fun x hx => ?_, fun x hx x' hx' hlt => ?_⟩
    · obtain ⟨y, hy', e⟩ := defined hy x hx
      show ((f x).bind g).isSome
      rw [e, Option.bind_some]
      exact ihg.1 y hy'
    · obtain ⟨y, hym, e⟩ := defined hy x hx
      obtain ⟨y', hym', e'⟩ := defined hy x' hx'
      obtain ⟨u, u', g1, g2, g3⟩ := ihf.2 x hx x' hx' hlt
      rw [e, Option.some_inj] at g1
      rw [e', Option.some_inj] at g2
      subst g1 g2
      obtain ⟨v, v', k1, k2, k3⟩ := ihg.2 y hym y' hym' g3
      exact ⟨v, v', by show (f x).bind g = _; rw [e, Option.bind_some, k1], by show (f x').bind g = _; rw [e', Option.bind_some, k2], k3⟩

/-- **C237**, scores: a feature used as a score has the same points of the ROC curve, area under it, precisions and recalls, and average precision before and after the preprocessing, whatever the weights and the orders in which the sorts leave ties. -/
theorem C237_scores (S : List (Obs ℝ)) (f : ℝ → Option ℝ) (hf : Prep (S.map Obs.score) f) (sort sort' : List (Obs ℝ) → List (Obs ℝ)) (hs : SortsDesc sort) (hs' : SortsDesc sort')
    (S' : List (Obs ℝ)) (hS' : S.mapM (fun o => (f o.score).map (fun y => (⟨y, o.pos, o.w⟩ : Obs ℝ))) = some S') :
    (rocCurve sort' S').map (fun r => (r.1, r.2.1)) = (rocCurve sort S).map (fun r => (r.1, r.2.1)) ∧ rocAuc sort' S' = rocAuc sort S ∧
      (prCurve sort' S').map (fun r => (r.1, r.2.1)) = (prCurve sort S).map (fun r => (r.1, r.2.1)) ∧ avgPrecision sort' S' = avgPrecision sort S := by
  obtain ⟨h1, h2⟩ := C237_order _ f hf
  have e : S' = Ranks.rescore (fun x => (f x).getD 0) S := by
    have : ∀ (T : List (Obs ℝ)), (∀ o ∈ T, (f o.score).isSome) → T.mapM (fun o => (f o.score).map (fun y => (⟨y, o.pos, o.w⟩ : Obs ℝ))) = some (Ranks.rescore (fun x => (f x).getD 0) T) := by
      intro T hT
      induction T with
      | nil => rfl
      | cons o T ih =>
        obtain ⟨y, hy⟩ := Option.isSome_iff_exists.1 (hT o (by simp))
        rw [List.mapM_cons, ih (fun o' ho' => hT o' (by simp [ho']))]
        simp [hy, Ranks.rescore]
    have hh := this S (fun o ho => h1 _ (List.mem_map_of_mem ho))
    rw [hS'] at hh
    exact Option.some.inj hh
  have keeps : Ranks.Keeps (fun x => (f x).getD 0) S := by
    intro x hx y hy hlt
    obtain ⟨u, v, e1, e2, e3⟩ := h2 _ (List.mem_map_of_mem hx) _ (List.mem_map_of_mem hy) hlt
    simp only [e1, e2, Option.getD_some]
    exact e3
  obtain ⟨k1, k2, k3, k4⟩ := Ranks.C190_scores (fun x => (f x).getD 0) sort sort' hs hs' S keeps
  rw [e]
  refine ⟨k1, k2, ?_, k4⟩
  rw [k3, Option.map_map]
  rfl

example : ∃ f, Prep [1, 3, 2] f ∧ ∃ y, f 3 = some y := by
  have h1 : Prep [1, 3, 2] (Power.bc 2) := Prep.boxCox _ 2 (by intro x hx; simp at hx; rcases hx with rfl | rfl | rfl <;> norm_num)
  have hd := (C237_order _ _ h1).1
  have h : ∃ ys, ([1, 3, 2] : List ℝ).mapM (Power.bc 2) = some ys := by
    obtain ⟨a, ha⟩ := Option.isSome_iff_exists.1 (hd 1 (by simp))
    obtain ⟨b, hb⟩ := Option.isSome_iff_exists.1 (hd 3 (by simp))
    obtain ⟨c, hc⟩ := Option.isSome_iff_exists.1 (hd 2 (by simp))
    exact ⟨[a, b, c], by simp [List.mapM_cons, ha, hb, hc]⟩
  obtain ⟨ys, hys⟩ := h
  have h2 := Prep.next _ ys _ _ h1 hys (Prep.scaler ys _ (Chain.Scaler.minmax 0 1 one_pos ⟨0, 0, 0, 1, 0⟩))
  exact ⟨_, h2, Option.isSome_iff_exists.1 ((C237_order _ _ h2).1 3 (by simp))⟩

end Sk.PrepRank
