import Verif.Model.Ranking
import Verif.Spec.Weights
import Verif.Lemmas.ListX
import Mathlib.Tactic.FieldSimp

/-! # Lemmas for the ranking metrics -/
set_option autoImplicit false

namespace Sk.Rank

variable {K : Type} [Field K] [LinearOrder K] [IsStrictOrderedRing K]

/-! ### Specification vocabulary -/

/-- Weight of the positives. -/
def posW (S : List (Obs K)) : K := wsum Obs.w (fun x => x.pos = true) S
/-- Weight of the negatives. -/
def negW (S : List (Obs K)) : K := wsum Obs.w (fun x => x.pos = false) S
/-- Weight of the positives scored at least `t`. -/
def posAbove (t : K) (S : List (Obs K)) : K := wsum Obs.w (fun x => x.pos = true ∧ t ≤ x.score) S
/-- Weight of the negatives scored at least `t`. -/
def negAbove (t : K) (S : List (Obs K)) : K := wsum Obs.w (fun x => x.pos = false ∧ t ≤ x.score) S

/-- A positive `a` beats a negative `b`: 1 if scored higher, one half on a tie, else 0. -/
def win (a b : Obs K) : K := if b.score < a.score then 1 else if a.score = b.score then 1 / 2 else 0

/-- Weighted number of wins of the positives of `A` over the negatives of `B`. -/
def wins (A B : List (Obs K)) : K :=
  (B.map (fun b => (A.map (fun a => if a.pos = true ∧ b.pos = false then a.w * b.w * win a b else 0)).sum)).sum

/-- The sort of `binaryClfCurve`: some permutation with descending scores (ties in any order). -/
def SortsDesc (sort : List (Obs K) → List (Obs K)) : Prop :=
  ∀ l, (sort l).Perm l ∧ (sort l).Pairwise (fun a b => b.score ≤ a.score)

/-! ### Groups -/

structure Good (gs : List (List (Obs K))) : Prop where
  ne : ∀ g ∈ gs, g ≠ []
  same : ∀ g ∈ gs, ∀ x ∈ g, ∀ y ∈ g, x.score = y.score
  desc : gs.Pairwise (fun g h => ∀ x ∈ g, ∀ y ∈ h, y.score < x.score)

theorem groups_spec (S : List (Obs K)) : S.Pairwise (fun a b => b.score ≤ a.score) → (groups S).flatten = S ∧ Good (groups S) := by
  induction S using List.reverseRecOn with
  | nil => intro _; exact ⟨rfl, by constructor <;> simp [groups]⟩
  | append_singleton S x ih =>
    intro hs
    rw [List.pairwise_append] at hs
    obtain ⟨h1, _, h2⟩ := hs
    obtain ⟨hf, hg⟩ := ih h1
    have hstep : groups (S ++ [x]) = groupStep (groups S) x := by simp [groups]
    rw [hstep]
    generalize groups S = gs at *
    unfold groupStep
    cases hl : gs.getLast? with
    | none =>
      rw [List.getLast?_eq_none_iff] at hl
      subst hl
      simp only [List.flatten_nil] at hf
      subst hf
      refine ⟨by simp, ?_⟩
      constructor <;> simp
    | some g =>
      obtain ⟨gs', rfl⟩ := List.getLast?_eq_some_iff.1 hl
      have hgm : g ∈ gs' ++ [g] := by simp
      have hgne := hg.ne g hgm
      obtain ⟨g', y, hgy⟩ : ∃ g' y, g = g' ++ [y] := ⟨g.dropLast, g.getLast hgne, (List.dropLast_append_getLast hgne).symm⟩
      have hy : g.getLast? = some y := by rw [hgy]; simp
      have hym : y ∈ g := by rw [hgy]; simp
      have hpw := List.pairwise_append.1 hg.desc
      simp only [hy, List.dropLast_concat]
      split
      · rename_i hlt
        refine ⟨by rw [List.flatten_append, hf]; simp, ?_, ?_, ?_⟩
        · intro h hh
          rw [List.mem_append, List.mem_singleton] at hh
          rcases hh with hh | rfl
          · exact hg.ne h hh
          · simp
        · intro h hh
          rw [List.mem_append, List.mem_singleton] at hh
          rcases hh with hh | rfl
          · exact hg.same h hh
          · simp
        · rw [List.pairwise_append]
          refine ⟨hg.desc, by simp, ?_⟩
          intro h hh k hk
          rw [List.mem_singleton] at hk
          subst hk
          intro z hz u hu
          rw [List.mem_singleton] at hu
          subst hu
          rw [List.mem_append, List.mem_singleton] at hh
          rcases hh with hh | rfl
          · exact lt_trans hlt (hpw.2.2 h hh g (by simp) z hz y hym)
          · rw [hg.same h hgm z hz y hym]; exact hlt
      · rename_i hlt
        have hle : x.score ≤ y.score := by
          refine h2 y ?_ x (by simp)
          rw [← hf, List.mem_flatten]
          exact ⟨g, hgm, hym⟩
        have heq : x.score = y.score := le_antisymm hle (not_lt.1 hlt)
        refine ⟨?_, ?_, ?_, ?_⟩
        · rw [← hf]; simp
        · intro h hh
          rw [List.mem_append, List.mem_singleton] at hh
          rcases hh with hh | rfl
          · exact hg.ne h (by simp [hh])
          · simp
        · have key : ∀ z ∈ g ++ [x], z.score = y.score := by
            intro z hz
            rw [List.mem_append, List.mem_singleton] at hz
            rcases hz with hz | rfl
            · exact hg.same g hgm z hz y hym
            · exact heq
          intro h hh
          rw [List.mem_append, List.mem_singleton] at hh
          rcases hh with hh | rfl
          · exact hg.same h (by simp [hh])
          · intro a ha b hb; rw [key a ha, key b hb]
        · rw [List.pairwise_append]
          refine ⟨hpw.1, by simp, ?_⟩
          intro h hh k hk
          rw [List.mem_singleton] at hk
          subst hk
          intro z hz u hu
          rw [List.mem_append, List.mem_singleton] at hu
          rcases hu with hu | rfl
          · exact hpw.2.2 h hh g (by simp) z hz u hu
          · rw [heq]; exact hpw.2.2 h hh g (by simp) z hz y hym

theorem addGroup_eq (g : List (Obs K)) : ∀ a : K × K, addGroup a g = (a.1 + negW g, a.2 + posW g) := by
  induction g with
  | nil => intro a; simp [addGroup, negW, posW]
  | cons x g ih =>
    intro a
    have : addGroup a (x :: g) = addGroup (if x.pos then (a.1, a.2 + x.w) else (a.1 + x.w, a.2)) g := rfl
    rw [this, ih]
    unfold negW posW
    rw [wsum_cons, wsum_cons]
    cases hx : x.pos <;> simp <;> ring

theorem negW_append (A B : List (Obs K)) : negW (A ++ B) = negW A + negW B := wsum_append _ _ _ _
theorem posW_append (A B : List (Obs K)) : posW (A ++ B) = posW A + posW B := wsum_append _ _ _ _

theorem Good.tail {g : List (Obs K)} {gs : List (List (Obs K))} (h : Good (g :: gs)) : Good gs :=
  ⟨fun k hk => h.ne k (by simp [hk]), fun k hk => h.same k (by simp [hk]), (List.pairwise_cons.1 h.desc).2⟩

theorem Good.head_gt {g : List (Obs K)} {gs : List (List (Obs K))} (h : Good (g :: gs)) :
    ∀ x ∈ g, ∀ y ∈ gs.flatten, y.score < x.score := by
  intro x hx y hy
  obtain ⟨k, hk, hyk⟩ := List.mem_flatten.1 hy
  exact (List.pairwise_cons.1 h.desc).1 k hk x hx y hyk

/-- A point describes the samples scored at least its threshold. -/
def Describes (S : List (Obs K)) (p : Pt K) : Prop := p.fp = negAbove p.thr S ∧ p.tp = posAbove p.thr S

theorem above_split (t : K) (b : Bool) (A B : List (Obs K)) (hA : ∀ x ∈ A, t ≤ x.score) (hB : ∀ y ∈ B, y.score < t) :
    wsum Obs.w (fun x => x.pos = b ∧ t ≤ x.score) (A ++ B) = wsum Obs.w (fun x => x.pos = b) A := by
  rw [wsum_append, wsum_false _ _ B (fun y hy h => absurd h.2 (not_le.2 (hB y hy))), add_zero]
  exact wsum_congr _ _ _ _ (fun x hx => ⟨fun h => h.1, fun h => ⟨h, hA x hx⟩⟩)

theorem curve_spec (gs : List (List (Obs K))) : ∀ (P : List (Obs K)), Good gs → (∀ x ∈ P, ∀ y ∈ gs.flatten, y.score < x.score) →
    (∀ p ∈ curveLoop (negW P, posW P) gs, Describes (P ++ gs.flatten) p) ∧
    ((curveLoop (negW P, posW P) gs).map Pt.thr).Pairwise (· > ·) ∧
    (∀ t, t ∈ (curveLoop (negW P, posW P) gs).map Pt.thr ↔ ∃ x ∈ gs.flatten, x.score = t) ∧
    (∀ p, (curveLoop (negW P, posW P) gs).getLast? = some p → p.fp = negW (P ++ gs.flatten) ∧ p.tp = posW (P ++ gs.flatten)) := by
  induction gs with
  | nil => intro P _ _; simp [curveLoop]
  | cons g gs ih =>
    intro P hg hP
    have hlt := hg.head_gt
    have hne := hg.ne g (by simp)
    obtain ⟨x, g', rfl⟩ := List.exists_cons_of_ne_nil hne
    have hsame := hg.same (x :: g') (by simp)
    obtain ⟨i1, i2, i3, i4⟩ := ih (P ++ x :: g') hg.tail (by
      intro z hz y hy
      rcases List.mem_append.1 hz with hz | hz
      · exact hP z hz y (by rw [List.flatten_cons]; exact List.mem_append_right _ hy)
      · exact hlt z hz y hy)
    have hcur : curveLoop (negW P, posW P) ((x :: g') :: gs) =
        ⟨negW (P ++ x :: g'), posW (P ++ x :: g'), x.score⟩ :: curveLoop (negW (P ++ x :: g'), posW (P ++ x :: g')) gs := by
      rw [curveLoop]
      simp only [addGroup_eq, negW_append, posW_append]
    have hfl : P ++ ((x :: g') :: gs).flatten = (P ++ x :: g') ++ gs.flatten := by simp
    rw [hcur, hfl]
    refine ⟨?_, ?_, ?_, ?_⟩
    · intro p hp
      rcases List.mem_cons.1 hp with rfl | hp
      · have hA : ∀ z ∈ P ++ x :: g', x.score ≤ z.score := by
          intro z hz
          rcases List.mem_append.1 hz with hz | hz
          · exact le_of_lt (hP z hz x (by simp))
          · exact le_of_eq (hsame x (by simp) z hz)
        have hB : ∀ y ∈ gs.flatten, y.score < x.score := fun y hy => hlt x (by simp) y hy
        exact ⟨(above_split x.score false _ _ hA hB).symm, (above_split x.score true _ _ hA hB).symm⟩
      · exact i1 p hp
    · rw [List.map_cons, List.pairwise_cons]
      refine ⟨?_, i2⟩
      intro t ht
      obtain ⟨y, hy, rfl⟩ := (i3 t).1 ht
      exact hlt x (by simp) y hy
    · intro t
      rw [List.map_cons, List.mem_cons, i3 t]
      constructor
      · rintro (rfl | ⟨y, hy, rfl⟩)
        · exact ⟨x, by simp, rfl⟩
        · exact ⟨y, by rw [List.flatten_cons]; exact List.mem_append_right _ hy, rfl⟩
      · rintro ⟨y, hy, rfl⟩
        rw [List.flatten_cons, List.mem_append] at hy
        rcases hy with hy | hy
        · exact Or.inl (hsame y hy x (by simp))
        · exact Or.inr ⟨y, hy, rfl⟩
    · intro p hp
      cases hc : curveLoop (negW (P ++ x :: g'), posW (P ++ x :: g')) gs with
      | nil =>
        rw [hc] at hp
        simp only [List.getLast?_singleton, Option.some.injEq] at hp
        subst hp
        have : gs = [] := by
          rcases gs with _ | ⟨k, gs⟩
          · rfl
          · exfalso
            have hk := hg.ne k (by simp)
            obtain ⟨u, k', rfl⟩ := List.exists_cons_of_ne_nil hk
            rw [curveLoop] at hc
            simp at hc
        subst this
        simp
      | cons q c =>
        rw [hc] at hp
        rw [List.getLast?_cons_cons] at hp
        exact i4 p (by rw [hc]; exact hp)

/-! ### Area -/

/-- Unscaled trapezoid sum. -/
def trapS : K → K → List (Pt K) → K
  | _, _, [] => 0
  | x, y, p :: c => (p.fp - x) * (p.tp + y) / 2 + trapS p.fp p.tp c

theorem auc_trap (a b : K) (c : List (Pt K)) : ∀ s x y : K,
    (((c.map (fun p => a * p.fp)).zip (c.map (fun p => b * p.tp))).foldl
      (fun (s : K × K × K) q => (s.1 + (q.1 - s.2.1) * (q.2 + s.2.2) / 2, q.1, q.2)) (s, a * x, b * y)).1 = s + a * b * trapS x y c := by
  induction c with
  | nil => intro s x y; simp [trapS]
  | cons p c ih =>
    intro s x y
    simp only [List.map_cons, List.zip_cons_cons, List.foldl_cons]
    rw [ih]
    simp only [trapS]
    ring

theorem wins_append_right (A B C : List (Obs K)) : wins A (B ++ C) = wins A B + wins A C := by simp [wins]

theorem wins_append_left (A B C : List (Obs K)) : wins (A ++ B) C = wins A C + wins B C := by
  simp [wins, List.sum_map_add]

theorem wins_row (v : K) (b : Obs K) (A : List (Obs K)) (hA : ∀ a ∈ A, win a b = v) :
    ((A.map (fun a => if a.pos = true ∧ b.pos = false then a.w * b.w * win a b else 0)).sum) =
      v * posW A * (if b.pos = false then b.w else 0) := by
  induction A with
  | nil => simp [posW]
  | cons a A ih =>
    rw [List.map_cons, List.sum_cons, ih (fun a' ha' => hA a' (by simp [ha'])), hA a (by simp)]
    unfold posW
    rw [wsum_cons]
    cases a.pos <;> cases b.pos <;> simp
    ring

theorem wins_const (v : K) (A B : List (Obs K)) (h : ∀ a ∈ A, ∀ b ∈ B, win a b = v) : wins A B = v * posW A * negW B := by
  induction B with
  | nil => simp [wins, negW]
  | cons b B ih =>
    have ih := ih (fun a ha b' hb' => h a ha b' (by simp [hb']))
    have hb := wins_row v b A (fun a ha => h a ha b (by simp))
    unfold wins at ih ⊢
    rw [List.map_cons, List.sum_cons, ih, hb]
    unfold negW
    rw [wsum_cons]
    ring

theorem trap_curve (gs : List (List (Obs K))) : ∀ (P : List (Obs K)), Good gs → (∀ x ∈ P, ∀ y ∈ gs.flatten, y.score < x.score) →
    trapS (negW P) (posW P) (curveLoop (negW P, posW P) gs) = wins (P ++ gs.flatten) gs.flatten := by
  induction gs with
  | nil => intro P _ _; simp [curveLoop, trapS, wins]
  | cons g gs ih =>
    intro P hg hP
    have hlt := hg.head_gt
    have hne := hg.ne g (by simp)
    have hsame := hg.same g (by simp)
    have hih := ih (P ++ g) hg.tail (by
      intro z hz y hy
      rcases List.mem_append.1 hz with hz | hz
      · exact hP z hz y (by rw [List.flatten_cons]; exact List.mem_append_right _ hy)
      · exact hlt z hz y hy)
    have hcur : curveLoop (negW P, posW P) (g :: gs) =
        ⟨negW (P ++ g), posW (P ++ g), (g.head hne).score⟩ :: curveLoop (negW (P ++ g), posW (P ++ g)) gs := by
      obtain ⟨x, g', rfl⟩ := List.exists_cons_of_ne_nil hne
      rw [curveLoop]
      simp only [addGroup_eq, negW_append, posW_append, List.head_cons]
    rw [hcur, trapS, hih, List.flatten_cons, wins_append_right]
    simp only
    have e1 : wins P g = 1 * posW P * negW g := wins_const 1 P g (by
      intro a ha b hb
      have := hP a ha b (by simp [hb])
      simp [win, this])
    have e2 : wins g g = 1 / 2 * posW g * negW g := wins_const (1 / 2) g g (by
      intro a ha b hb
      simp [win, hsame a ha b hb])
    have e3 : wins gs.flatten g = 0 * posW gs.flatten * negW g := wins_const 0 _ g (by
      intro a ha b hb
      have := hlt b hb a ha
      simp [win, not_lt.2 this.le, this.ne])
    rw [show P ++ (g ++ gs.flatten) = (P ++ g) ++ gs.flatten by simp]
    rw [wins_append_left (P ++ g) gs.flatten g, wins_append_left P g g, e1, e2, e3, negW_append, posW_append]
    ring

theorem wins_perm {A A' B B' : List (Obs K)} (h : A.Perm A') (h' : B.Perm B') : wins A B = wins A' B' := by
  unfold wins
  rw [(h'.map _).sum_eq]
  congr 1
  apply List.map_congr_left
  intro b _
  exact (h.map _).sum_eq

end Sk.Rank
