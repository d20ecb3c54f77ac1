import Verif.Model.Dbscan
import Verif.Spec.Density
import Verif.Lemmas.ListX
import Mathlib.Algebra.BigOperators.Group.Finset.Basic
import Mathlib.Algebra.BigOperators.Group.Finset.Piecewise
import Mathlib.Algebra.BigOperators.Group.List.Basic
import Mathlib.Tactic.Linarith
import Mathlib.Data.List.GetD
import Mathlib.Algebra.Order.BigOperators.Group.Finset

/-! # `dbscanInner`: invariants -/
set_option autoImplicit false

namespace Sk.Dbscan

def lb (l : List ℤ) (i : ℕ) : ℤ := l.getD i (-1)

theorem lb_set {l : List ℤ} {i : ℕ} (h : i < l.length) (c : ℤ) (j : ℕ) : lb (l.set i c) j = if j = i then c else lb l j := by
  simp only [lb, List.getD_eq_getElem?_getD, List.getElem?_set]
  by_cases hj : i = j
  · subst hj
    simp [h]
  · rw [if_neg hj, if_neg (fun h => hj h.symm)]

theorem lb_get {l : List ℤ} {i : ℕ} (h : i < l.length) : l[i]? = some (lb l i) := by
  simp [lb, h]

/-- What holds during a depth-first search from `r` that gives label `num`, `S` being the samples still to look at. -/
structure J (n : ℕ) (core : ℕ → Prop) (nb : ℕ → ℕ → Prop) (num r : ℕ) (l0 l : List ℤ) (S : List ℕ) : Prop where
  len : l.length = n
  range : ∀ i, i < n → lb l i = -1 ∨ (0 ≤ lb l i ∧ lb l i ≤ num)
  sin : ∀ v ∈ S, v < n
  old : ∀ i, i < n → core i → 0 ≤ lb l i → lb l i < num → ∀ j, nb i j → lb l j ≠ -1
  cur : ∀ i, i < n → core i → lb l i = num → ∀ j, nb i j → lb l j ≠ -1 ∨ j ∈ S
  same : ∀ i j, i < n → j < n → core i → core j → nb i j → lb l i ≠ -1 → lb l j ≠ -1 → lb l i = lb l j
  src : ∀ v ∈ S, v = r ∨ ∃ j, j < n ∧ core j ∧ lb l j = num ∧ nb j v
  link : ∀ i, i < n → core i → lb l i = num → Chain core nb r i
  border : ∀ i, i < n → ¬ core i → lb l i ≠ -1 → ∃ j, j < n ∧ core j ∧ nb j i ∧ lb l j = lb l i
  least : ∀ i, i < n → ¬ core i → lb l i ≠ -1 → ∀ j, j < n → core j → nb j i → lb l j ≠ -1 → lb l i ≤ lb l j
  keep : ∀ i, i < n → lb l0 i ≠ -1 → lb l i = lb l0 i
  new : ∀ i, i < n → lb l0 i = -1 → lb l i = -1 ∨ lb l i = num
  root : lb l r = num ∨ r ∈ S

/-- Neighbours of samples that are still unlabelled. -/
def pending (nbh : List (List ℕ)) (n : ℕ) (l : List ℤ) : ℕ := ∑ i ∈ Finset.range n, if lb l i = -1 then (nbh.getD i []).length else 0

theorem pending_set (nbh : List (List ℕ)) {n : ℕ} {l : List ℤ} (hl : l.length = n) {i : ℕ} (hi : i < n) (h : lb l i = -1) (c : ℕ) :
    pending nbh n (l.set i c) + (nbh.getD i []).length = pending nbh n l := by
  have hc : (c : ℤ) ≠ -1 := by omega
  have e : pending nbh n l = ∑ j ∈ Finset.range n, ((if lb (l.set i c) j = -1 then (nbh.getD j []).length else 0) +
      if j = i then (nbh.getD i []).length else 0) := by
    apply Finset.sum_congr rfl
    intro j _
    rw [lb_set (by omega)]
    by_cases hj : j = i
    · subst hj
      simp [h, hc]
    · simp [hj]
  rw [e, Finset.sum_add_distrib, Finset.sum_ite_eq' (Finset.range n) i, if_pos (Finset.mem_range.2 hi)]
  rfl

theorem mapM_get (labels : List ℤ) (nb : List ℕ) (h : ∀ v ∈ nb, v < labels.length) : nb.mapM (fun v => labels[v]?) = some (nb.map (lb labels)) := by
  induction nb with
  | nil => rfl
  | cons a nb ih =>
    rw [List.forall_mem_cons] at h
    rw [List.mapM_cons, lb_get h.1, ih h.2]
    rfl

theorem filterMap_zip (labels : List ℤ) (nb : List ℕ) :
    (nb.zip (nb.map (lb labels))).filterMap (fun e => if e.2 = -1 then some e.1 else none) = nb.filter (fun v => decide (lb labels v = -1)) := by
  induction nb with
  | nil => rfl
  | cons a nb ih =>
    rw [List.map_cons, List.zip_cons_cons, List.filterMap_cons, List.filter_cons, ih]
    by_cases h : lb labels a = -1 <;> simp [h]

section

variable {isCore : List Bool} {nbh : List (List ℕ)} {n : ℕ}

theorem dfs_ok (hc : isCore.length = n) (hn : nbh.length = n) (hin : ∀ i, i < n → ∀ j ∈ nbh.getD i [], j < n)
    (hsym : ∀ i j, i < n → j < n → isCore.getD i false = true → isCore.getD j false = true → j ∈ nbh.getD i [] → i ∈ nbh.getD j [])
    (num r : ℕ) (hr : r < n) (hrc : isCore.getD r false = true) (l0 : List ℤ) (hr0 : lb l0 r = -1) :
    ∀ (fuel : ℕ) (l : List ℤ) (S : List ℕ), J n (fun i => isCore.getD i false = true) (fun i j => j ∈ nbh.getD i []) num r l0 l S →
      pending nbh n l + S.length ≤ fuel →
      ∃ l', dfs isCore nbh num fuel l S = some l' ∧ J n (fun i => isCore.getD i false = true) (fun i j => j ∈ nbh.getD i []) num r l0 l' [] := by
  intro fuel
  induction fuel with
  | zero =>
    intro l S hJ hf
    have : S = [] := List.eq_nil_of_length_eq_zero (by omega)
    subst this
    exact ⟨l, by rw [dfs], hJ⟩
  | succ fuel ih =>
    intro l S hJ hf
    cases S with
    | nil => exact ⟨l, by rw [dfs], hJ⟩
    | cons i S =>
      have hi : i < n := hJ.sin i List.mem_cons_self
      have hlen := hJ.len
      have hS : ∀ v ∈ S, v < n := fun v hv => hJ.sin v (List.mem_cons_of_mem _ hv)
      rw [List.length_cons] at hf
      rw [dfs]
      simp only [Option.bind_eq_bind, lb_get (show i < l.length by omega), Option.bind_some]
      by_cases hu : lb l i = -1
      · rw [if_pos hu]
        have hci : isCore[i]? = some (isCore.getD i false) := by
          simp [hc, hi]
        have hni : nbh[i]? = some (nbh.getD i []) := by
          simp [hn, hi]
        simp only [hci, Option.bind_some, hni]
        have hset : ∀ j, lb (l.set i (num : ℤ)) j = if j = i then (num : ℤ) else lb l j := lb_set (by omega) _
        have hnum : (num : ℤ) ≠ -1 := by omega
        have hpend := pending_set nbh hlen hi hu num
        -- the parts common to core and non-core samples
        have hlab : ∀ j, lb l j ≠ -1 → lb (l.set i (num : ℤ)) j = lb l j := by
          intro j hj
          rw [hset, if_neg]
          rintro rfl
          exact hj hu
        have hlab' : ∀ j, lb l j ≠ -1 → lb (l.set i (num : ℤ)) j ≠ -1 := by
          intro j hj
          rw [hlab j hj]
          exact hj
        have hrange : ∀ j, j < n → lb (l.set i (num : ℤ)) j = -1 ∨ (0 ≤ lb (l.set i (num : ℤ)) j ∧ lb (l.set i (num : ℤ)) j ≤ num) := by
          intro j hj
          rw [hset]
          split
          · right; omega
          · exact hJ.range j hj
        have hold : ∀ j, j < n → isCore.getD j false = true → 0 ≤ lb (l.set i (num : ℤ)) j → lb (l.set i (num : ℤ)) j < num →
            ∀ v, v ∈ nbh.getD j [] → lb (l.set i (num : ℤ)) v ≠ -1 := by
          intro j hj hcj h1 h2 v hv
          rw [hset] at h1 h2
          split at h1
          · rename_i hji
            rw [if_pos hji] at h2
            omega
          · rename_i hji
            rw [if_neg hji] at h2
            exact hlab' v (hJ.old j hj hcj h1 h2 v hv)
        have hkeep : ∀ j, j < n → lb l0 j ≠ -1 → lb (l.set i (num : ℤ)) j = lb l0 j := by
          intro j hj h0
          have := hJ.keep j hj h0
          rw [hlab j (by rw [this]; exact h0), this]
        have hnew : ∀ j, j < n → lb l0 j = -1 → lb (l.set i (num : ℤ)) j = -1 ∨ lb (l.set i (num : ℤ)) j = num := by
          intro j hj h0
          rw [hset]
          split
          · exact Or.inr rfl
          · exact hJ.new j hj h0
        have hlen' : (l.set i (num : ℤ)).length = n := by rw [List.length_set, hlen]
        have hborder : isCore.getD i false = true ∨ (∃ j, j < n ∧ isCore.getD j false = true ∧ lb l j = num ∧ i ∈ nbh.getD j []) →
            ∀ j, j < n → ¬ isCore.getD j false = true → lb (l.set i (num : ℤ)) j ≠ -1 →
            ∃ v, v < n ∧ isCore.getD v false = true ∧ j ∈ nbh.getD v [] ∧ lb (l.set i (num : ℤ)) v = lb (l.set i (num : ℤ)) j := by
          intro hor j hj hcj h1
          by_cases hji : j = i
          · subst hji
            obtain ⟨v, h1, h2, h3, h4⟩ := hor.resolve_left hcj
            exact ⟨v, h1, h2, h4, by rw [hlab v (by rw [h3]; exact hnum), h3, hset, if_pos rfl]⟩
          · have e : lb (l.set i (num : ℤ)) j = lb l j := by rw [hset, if_neg hji]
            rw [e] at h1
            obtain ⟨v, g1, g2, g3, g4⟩ := hJ.border j hj hcj h1
            refine ⟨v, g1, g2, g3, ?_⟩
            rw [e, hlab v (by rw [g4]; exact h1), g4]
        have hleast : ∀ j, j < n → ¬ isCore.getD j false = true → lb (l.set i (num : ℤ)) j ≠ -1 → ∀ v, v < n → isCore.getD v false = true → j ∈ nbh.getD v [] → lb (l.set i (num : ℤ)) v ≠ -1 →
            lb (l.set i (num : ℤ)) j ≤ lb (l.set i (num : ℤ)) v := by
          intro j hj hcj h1 v hv hcv hvj h2
          by_cases hvi : v = i
          · rw [hset v, if_pos hvi]
            rcases hrange j hj with h | h
            · exact absurd h h1
            · exact h.2
          · rw [hset v, if_neg hvi] at h2 ⊢
            by_cases hji : j = i
            · rw [hset, if_pos hji]
              rcases hJ.range v hv with h | h
              · exact absurd h h2
              · by_contra hlt
                exact hJ.old v hv hcv h.1 (by omega) j hvj (by rw [hji]; exact hu)
            · rw [hset, if_neg hji] at h1 ⊢
              exact hJ.least j hj hcj h1 v hv hcv hvj h2
        have hsrc : ∀ v ∈ S, v = r ∨ ∃ j, j < n ∧ isCore.getD j false = true ∧ lb (l.set i (num : ℤ)) j = num ∧ v ∈ nbh.getD j [] := by
          intro v hv
          refine (hJ.src v (List.mem_cons_of_mem _ hv)).imp id ?_
          rintro ⟨j, g1, g2, g3, g4⟩
          exact ⟨j, g1, g2, by rw [hlab j (by rw [g3]; exact hnum), g3], g4⟩
        have hroot : lb (l.set i (num : ℤ)) r = num ∨ r ∈ S := by
          rcases hJ.root with h | h
          · left
            rw [hlab r (by rw [h]; exact hnum), h]
          · rcases List.mem_cons.1 h with h | h
            · left
              rw [hset, if_pos h]
            · exact Or.inr h
        cases hcore : isCore.getD i false with
        | true =>
          simp only [if_true]
          have hmm : (nbh.getD i []).mapM (fun v => (l.set i (num : ℤ))[v]?) = some ((nbh.getD i []).map (lb (l.set i (num : ℤ)))) :=
            mapM_get _ _ (fun v hv => by rw [hlen']; exact hin i hi v hv)
          simp only [hmm, Option.bind_some, filterMap_zip]
          apply ih
          · refine ⟨hlen', hrange, ?_, hold, ?_, ?_, ?_, ?_, hborder (Or.inl hcore), hleast, hkeep, hnew, ?_⟩
            · intro v hv
              rcases List.mem_append.1 hv with h | h
              · exact hin i hi v (List.mem_filter.1 (List.mem_reverse.1 h)).1
              · exact hS v h
            · intro j hj hcj h1 v hv
              by_cases hv1 : lb (l.set i (num : ℤ)) v = -1
              · right
                apply List.mem_append.2
                by_cases hji : j = i
                · subst hji
                  left
                  rw [List.mem_reverse, List.mem_filter]
                  exact ⟨hv, by simpa using hv1⟩
                · rw [hset, if_neg hji] at h1
                  rcases hJ.cur j hj hcj h1 v hv with h | h
                  · exact absurd hv1 (hlab' v h)
                  · rcases List.mem_cons.1 h with h | h
                    · subst h
                      rw [hset, if_pos rfl] at hv1
                      exact absurd hv1 hnum
                    · exact Or.inr h
              · exact Or.inl hv1
            · intro a b ha hb hca hcb hab h1 h2
              have aux : ∀ a b, a < n → b < n → isCore.getD a false = true → isCore.getD b false = true → b ∈ nbh.getD a [] →
                  a = i → b ≠ i → lb l b ≠ -1 → lb l b = num := by
                clear h1 h2
                intro a b ha hb hca hcb hab hai hbi h2
                subst hai
                rcases hJ.range b hb with h | h
                · exact absurd h h2
                · by_contra hne
                  exact hJ.old b hb hcb h.1 (by omega) a (hsym a b ha hb hca hcb hab) hu
              rw [hset] at h1 h2 ⊢
              rw [hset]
              by_cases hai : a = i
              · by_cases hbi : b = i
                · rw [if_pos hai, if_pos hbi]
                · rw [if_neg hbi] at h2
                  rw [if_pos hai, if_neg hbi, aux a b ha hb hca hcb hab hai hbi h2]
              · rw [if_neg hai] at h1
                by_cases hbi : b = i
                · rw [if_pos hbi, if_neg hai, aux b a hb ha hcb hca (hsym a b ha hb hca hcb hab) hbi hai h1]
                · rw [if_neg hbi] at h2
                  rw [if_neg hai, if_neg hbi]
                  exact hJ.same a b ha hb hca hcb hab h1 h2
            · intro v hv
              rcases List.mem_append.1 hv with h | h
              · right
                refine ⟨i, hi, hcore, by rw [hset, if_pos rfl], (List.mem_filter.1 (List.mem_reverse.1 h)).1⟩
              · exact hsrc v h
            · intro j hj hcj h1
              by_cases hji : j = i
              · subst hji
                rcases hJ.src j List.mem_cons_self with h | ⟨v, g1, g2, g3, g4⟩
                · rw [h]
                  exact Relation.ReflTransGen.refl
                · exact (hJ.link v g1 g2 g3).tail ⟨g2, hcj, g4⟩
              · rw [hset, if_neg hji] at h1
                exact hJ.link j hj hcj h1
            · rcases hroot with h | h
              · exact Or.inl h
              · exact Or.inr (List.mem_append_right _ h)
          · rw [List.length_append, List.length_reverse]
            have := List.length_filter_le (fun v => decide (lb (l.set i (num : ℤ)) v = -1)) (nbh.getD i [])
            omega
        | false =>
          simp only [Bool.false_eq_true, if_false]
          have hnc : ¬ isCore.getD i false = true := by rw [hcore]; simp
          have hir : i ≠ r := by
            rintro rfl
            exact hnc hrc
          apply ih
          · refine ⟨hlen', hrange, hS, hold, ?_, ?_, hsrc, ?_, hborder (Or.inr ((hJ.src i List.mem_cons_self).resolve_left hir)), hleast, hkeep, hnew, hroot⟩
            · intro j hj hcj h1 v hv
              have hji : j ≠ i := by
                rintro rfl
                exact hnc hcj
              rw [hset, if_neg hji] at h1
              rcases hJ.cur j hj hcj h1 v hv with h | h
              · exact Or.inl (hlab' v h)
              · rcases List.mem_cons.1 h with h | h
                · left
                  rw [hset, if_pos h]
                  exact hnum
                · exact Or.inr h
            · intro a b ha hb hca hcb hab h1 h2
              have hai : a ≠ i := by
                rintro rfl
                exact hnc hca
              have hbi : b ≠ i := by
                rintro rfl
                exact hnc hcb
              rw [hset, if_neg hai] at h1 ⊢
              rw [hset, if_neg hbi] at h2 ⊢
              exact hJ.same a b ha hb hca hcb hab h1 h2
            · intro j hj hcj h1
              have hji : j ≠ i := by
                rintro rfl
                exact hnc hcj
              rw [hset, if_neg hji] at h1
              exact hJ.link j hj hcj h1
          · omega
      · rw [if_neg hu]
        apply ih
        · refine ⟨hlen, hJ.range, hS, hJ.old, ?_, hJ.same, fun v hv => hJ.src v (List.mem_cons_of_mem _ hv), hJ.link, hJ.border, hJ.least, hJ.keep, hJ.new, ?_⟩
          · intro j hj hcj h1 v hv
            rcases hJ.cur j hj hcj h1 v hv with h | h
            · exact Or.inl h
            · rcases List.mem_cons.1 h with h | h
              · left
                rw [h]
                exact hu
              · exact Or.inr h
          · rcases hJ.root with h | h
            · exact Or.inl h
            · rcases List.mem_cons.1 h with h | h
              · subst h
                left
                exact (hJ.new r hr hr0).resolve_left hu
              · exact Or.inr h
        · omega

/-- What holds between two rounds of the outer loop: `num` clusters found. -/
structure Outer (n : ℕ) (core : ℕ → Prop) (nb : ℕ → ℕ → Prop) (num : ℕ) (l : List ℤ) : Prop where
  len : l.length = n
  range : ∀ i, i < n → lb l i = -1 ∨ (0 ≤ lb l i ∧ lb l i < num)
  closed : ∀ i, i < n → core i → lb l i ≠ -1 → ∀ j, nb i j → lb l j ≠ -1
  same : ∀ i j, i < n → j < n → core i → core j → nb i j → lb l i ≠ -1 → lb l j ≠ -1 → lb l i = lb l j
  reps : ∀ c : ℕ, c < num → ∃ r, r < n ∧ core r ∧ lb l r = c ∧ (∀ i, i < n → core i → lb l i = c → Chain core nb r i) ∧ ∀ i, i < r → core i → lb l i ≠ -1 ∧ lb l i < c
  border : ∀ i, i < n → ¬ core i → lb l i ≠ -1 → ∃ j, j < n ∧ core j ∧ nb j i ∧ lb l j = lb l i
  least : ∀ i, i < n → ¬ core i → lb l i ≠ -1 → ∀ j, j < n → core j → nb j i → lb l j ≠ -1 → lb l i ≤ lb l j

theorem outer_ok (hc : isCore.length = n) (hn : nbh.length = n) (hin : ∀ i, i < n → ∀ j ∈ nbh.getD i [], j < n)
    (hsym : ∀ i j, i < n → j < n → isCore.getD i false = true → isCore.getD j false = true → j ∈ nbh.getD i [] → i ∈ nbh.getD j [])
    (fuel : ℕ) (hfuel : ∀ l, pending nbh n l + 1 ≤ fuel) :
    ∀ (is : List ℕ) (l : List ℤ) (num : ℕ), (∀ i ∈ is, i < n) → is.Pairwise (· < ·) → (∀ j, j < n → isCore.getD j false = true → j ∉ is → lb l j ≠ -1) → Outer n (fun i => isCore.getD i false = true) (fun i j => j ∈ nbh.getD i []) num l →
      ∃ l' num', outer isCore nbh fuel is (l, num) = some (l', num') ∧
        Outer n (fun i => isCore.getD i false = true) (fun i j => j ∈ nbh.getD i []) num' l' ∧
        (∀ i, i < n → lb l i ≠ -1 → lb l' i = lb l i) ∧ ∀ i ∈ is, isCore.getD i false = true → lb l' i ≠ -1 := by
  intro is
  induction is with
  | nil =>
    intro l num _ _ _ h
    exact ⟨l, num, by rw [outer], h, fun _ _ _ => rfl, by simp⟩
  | cons i is ih =>
    intro l num his hpw hdone h
    rw [List.forall_mem_cons] at his
    obtain ⟨hi, his⟩ := his
    rw [List.pairwise_cons] at hpw
    obtain ⟨hpi, hpw⟩ := hpw
    rw [outer]
    have hlen := h.len
    have hci : isCore[i]? = some (isCore.getD i false) := by
      simp [hc, hi]
    simp only [Option.bind_eq_bind, lb_get (show i < l.length by omega), Option.bind_some, hci]
    by_cases hu : lb l i = -1
    · rw [if_neg (by simpa using hu)]
      cases hcore : isCore.getD i false with
      | false =>
        simp only [Bool.not_false, if_true]
        obtain ⟨l', num', e, h1, h2, h3⟩ := ih l num his hpw (by
          intro j hj hcj hjs
          refine hdone j hj hcj (fun hm => ?_)
          rcases List.mem_cons.1 hm with rfl | hm
          · rw [hcore] at hcj; cases hcj
          · exact hjs hm) h
        refine ⟨l', num', e, h1, h2, ?_⟩
        intro j hj hcj
        rcases List.mem_cons.1 hj with rfl | hj
        · rw [hcore] at hcj
          cases hcj
        · exact h3 j hj hcj
      | true =>
        simp only [Bool.not_true, Bool.false_eq_true, if_false]
        have hnum : (num : ℤ) ≠ -1 := by omega
        obtain ⟨l1, e1, hJ⟩ := dfs_ok hc hn hin hsym num i hi hcore l hu fuel l [i] ⟨hlen, fun j hj => (h.range j hj).imp id (fun g => ⟨g.1, g.2.le⟩),
          by simpa using hi, fun j hj hcj h1 h2 => h.closed j hj hcj (by omega), fun j hj hcj h1 v hv => Or.inl (h.closed j hj hcj (by rw [h1]; exact hnum) v hv),
          h.same, by simp, fun j hj hcj h1 => by
            rcases h.range j hj with g | g <;> omega, h.border, h.least, fun _ _ _ => rfl, fun j _ h0 => Or.inl h0, Or.inr (by simp)⟩ (by simpa using hfuel l)
        have hOuter : Outer n (fun i => isCore.getD i false = true) (fun i j => j ∈ nbh.getD i []) (num + 1) l1 := by
          refine ⟨hJ.len, ?_, ?_, hJ.same, ?_, hJ.border, hJ.least⟩
          · intro j hj
            refine (hJ.range j hj).imp id (fun g => ⟨g.1, ?_⟩)
            push_cast
            omega
          · intro j hj hcj h1 v hv
            rcases hJ.range j hj with g | g
            · exact absurd g h1
            · by_cases hl : lb l1 j = num
              · exact (hJ.cur j hj hcj hl v hv).resolve_right (by simp)
              · exact hJ.old j hj hcj g.1 (by omega) v hv
          · intro c hcn
            rcases Nat.lt_succ_iff_lt_or_eq.1 hcn with hlt | rfl
            · obtain ⟨r, g1, g2, g3, g4, g5⟩ := h.reps c hlt
              have hcz : (c : ℤ) ≠ -1 := by omega
              refine ⟨r, g1, g2, by rw [hJ.keep r g1 (by rw [g3]; exact hcz), g3], ?_, ?_⟩
              swap
              · intro j hj hcj
                have := g5 j hj hcj
                rw [hJ.keep j (by omega) this.1]
                exact this
              intro j hj hcj hlj
              apply g4 j hj hcj
              by_cases h0 : lb l j = -1
              · rcases hJ.new j hj h0 with g | g <;> omega
              · rw [← hJ.keep j hj h0, hlj]
            · refine ⟨i, hi, hcore, hJ.root.resolve_right (by simp), hJ.link, ?_⟩
              intro j hj hcj
              have hj1 : lb l j ≠ -1 := by
                refine hdone j (by omega) hcj (fun hm => ?_)
                rcases List.mem_cons.1 hm with rfl | hm
                · exact lt_irrefl _ hj
                · exact lt_asymm hj (hpi j hm)
              rw [hJ.keep j (by omega) hj1]
              exact ⟨hj1, ((h.range j (by omega)).resolve_left hj1).2⟩
        obtain ⟨l', num', e, h1, h2, h3⟩ := ih l1 (num + 1) his hpw (by
          intro j hj hcj hjs
          by_cases hji : j = i
          · rw [hji, hJ.root.resolve_right (by simp)]
            exact hnum
          · have hj1 := hdone j hj hcj (fun hm => (List.mem_cons.1 hm).elim hji hjs)
            rw [hJ.keep j hj hj1]
            exact hj1) hOuter
        refine ⟨l', num', by rw [e1, Option.bind_some, e], h1, ?_, ?_⟩
        · intro j hj h0
          have := hJ.keep j hj h0
          rw [h2 j hj (by rw [this]; exact h0), this]
        · intro j hj hcj
          rcases List.mem_cons.1 hj with rfl | hj
          · have := hJ.root.resolve_right (by simp)
            rw [h2 j hi (by rw [this]; exact hnum), this]
            exact hnum
          · exact h3 j hj hcj
    · rw [if_pos hu]
      obtain ⟨l', num', e, h1, h2, h3⟩ := ih l num his hpw (by
        intro j hj hcj hjs
        by_cases hji : j = i
        · rw [hji]; exact hu
        · exact hdone j hj hcj (fun hm => (List.mem_cons.1 hm).elim hji hjs)) h
      refine ⟨l', num', e, h1, h2, ?_⟩
      intro j hj hcj
      rcases List.mem_cons.1 hj with rfl | hj
      · rw [h2 j hi hu]
        exact hu
      · exact h3 j hj hcj

theorem pending_le (nbh : List (List ℕ)) (l : List ℤ) : pending nbh nbh.length l ≤ (nbh.map List.length).sum := by
  have e : (nbh.map List.length).sum = ∑ i ∈ Finset.range nbh.length, (nbh.getD i []).length := by
    clear l
    induction nbh using List.reverseRecOn with
    | nil => simp
    | append_singleton l a ih =>
      rw [List.map_append, List.sum_append, ih, List.length_append, List.length_singleton, Finset.sum_range_succ]
      congr 1
      · apply Finset.sum_congr rfl
        intro i hi
        rw [List.getD_append _ _ _ _ (Finset.mem_range.1 hi)]
      · simp
  rw [e]
  apply Finset.sum_le_sum
  intro i _
  split
  · exact le_refl _
  · exact Nat.zero_le _

theorem Chain.symm {core : ℕ → Prop} {nb : ℕ → ℕ → Prop} (hs : ∀ i j, core i → core j → nb i j → nb j i) {a b : ℕ} (h : Chain core nb a b) :
    Chain core nb b a := by
  induction h with
  | refl => exact Relation.ReflTransGen.refl
  | tail _ hbc ih => exact Relation.ReflTransGen.head ⟨hbc.2.1, hbc.1, hs _ _ hbc.1 hbc.2.1 hbc.2.2⟩ ih

theorem inner_ok (hc : isCore.length = n) (hn : nbh.length = n) (hin : ∀ i, i < n → ∀ j ∈ nbh.getD i [], j < n)
    (hsym : ∀ i j, i < n → j < n → isCore.getD i false = true → isCore.getD j false = true → j ∈ nbh.getD i [] → i ∈ nbh.getD j []) :
    ∃ l k, dbscanInner isCore nbh (List.replicate n (-1)) = some l ∧ l.length = n ∧
      Clustering n (fun i => isCore.getD i false = true) (fun i j => j ∈ nbh.getD i []) (fun i => l.getD i (-1)) k := by
  have hrep : ∀ i, lb (List.replicate n (-1)) i = -1 := by
    intro i
    simp only [lb, List.getD_eq_getElem?_getD, List.getElem?_replicate]
    split <;> rfl
  obtain ⟨l, k, e, h, _, hall⟩ := outer_ok hc hn hin hsym (1 + (nbh.map List.length).sum) (by
    intro l
    have := pending_le nbh l
    rw [hn] at this
    omega) (List.range n) (List.replicate n (-1)) 0 (by simp) List.pairwise_lt_range (fun j hj _ hm => absurd (List.mem_range.2 hj) hm) ⟨by simp, fun i _ => Or.inl (hrep i), fun i _ _ h => absurd (hrep i) h,
      fun i _ _ _ _ _ _ h => absurd (hrep i) h, by simp, fun i _ _ h => absurd (hrep i) h, fun i _ _ h => absurd (hrep i) h⟩
  have hcoreIn : ∀ i, isCore.getD i false = true → i < n := by
    intro i hi
    by_contra hlt
    rw [List.getD_eq_getElem?_getD, List.getElem?_eq_none (by omega)] at hi
    cases hi
  have hcl : ∀ i, i < n → isCore.getD i false = true → lb l i ≠ -1 := fun i hi hci => hall i (List.mem_range.2 hi) hci
  have hchain : ∀ i j, i < n → isCore.getD i false = true → Chain (fun i => isCore.getD i false = true) (fun i j => j ∈ nbh.getD i []) i j →
      lb l i = lb l j := by
    intro i j hi hci h1
    induction h1 with
    | refl => rfl
    | tail _ hbc ih =>
      rw [ih]
      exact h.same _ _ (hcoreIn _ hbc.1) (hcoreIn _ hbc.2.1) hbc.1 hbc.2.1 hbc.2.2 (hcl _ (hcoreIn _ hbc.1) hbc.1) (hcl _ (hcoreIn _ hbc.2.1) hbc.2.1)
  have hs2 : ∀ i j, isCore.getD i false = true → isCore.getD j false = true → j ∈ nbh.getD i [] → i ∈ nbh.getD j [] :=
    fun i j h1 h2 h3 => hsym i j (hcoreIn i h1) (hcoreIn j h2) h1 h2 h3
  refine ⟨l, k, ?_, h.len, ⟨h.range, ?_, hcl, ?_, ?_, h.border, ?_, ?_⟩⟩
  · rw [dbscanInner, List.length_replicate, e]
    rfl
  · intro c hck
    obtain ⟨r, g1, g2, g3, _⟩ := h.reps c hck
    exact ⟨r, g1, g2, g3⟩
  · intro i j hi hj hci hcj
    constructor
    · intro heq
      have heq' : lb l i = lb l j := heq
      obtain ⟨g0, gk⟩ := (h.range i hi).resolve_left (hcl i hi hci)
      obtain ⟨r, g1, g2, g3, g4, -⟩ := h.reps (lb l i).toNat (by omega)
      have e1 : ((lb l i).toNat : ℤ) = lb l i := Int.toNat_of_nonneg g0
      rw [e1] at g3 g4
      exact (Chain.symm hs2 (g4 i hi hci rfl)).trans (g4 j hj hcj heq'.symm)
    · exact hchain i j hi hci
  · intro i hi hci
    constructor
    · intro h1 j hj hcj hji
      exact h.closed j hj hcj (hcl j hj hcj) i hji h1
    · intro h1
      by_contra hne
      obtain ⟨j, g1, g2, g3, _⟩ := h.border i hi hci hne
      exact h1 j g1 g2 g3
  · intro c hck
    obtain ⟨r, g1, g2, g3, _, g5⟩ := h.reps c hck
    exact ⟨r, g1, g2, g3, fun i hi hci => (g5 i hi hci).2⟩
  · intro i hi hci j hj hcj hji
    exact h.least i hi hci (h.closed j hj hcj (hcl j hj hcj) i hji) j hj hcj hji (hcl j hj hcj)

end

end Sk.Dbscan
