import Verif.Lemmas.KDQuery
import Mathlib.Data.List.Count
import Mathlib.Data.Finset.Card
import Mathlib.Data.Finset.Range
import Mathlib.Order.Interval.Finset.Nat
import Mathlib.Tactic.Tauto

/-! # Construction of a kd-tree -/
set_option autoImplicit false

namespace Sk.Neigh

variable {K : Type} [Field K] [LinearOrder K] [IsStrictOrderedRing K]

theorem widestFrom_lt : ∀ (as bs : List K) (i d : ℕ) (M : Option K) (n : ℕ), i + as.length ≤ n → d < n → widestFrom as bs i d M < n := by
  intro as
  induction as with
  | nil => intro bs i d M n _ hd; rw [widestFrom] <;> simp [hd]
  | cons a as ih =>
    intro bs i d M n hn hd
    simp only [List.length_cons] at hn
    cases bs with
    | nil => rw [widestFrom] <;> simp [hd]
    | cons b bs =>
      cases M with
      | none =>
        rw [widestFrom]
        exact ih bs (i + 1) i _ n (by omega) (by omega)
      | some m =>
        rw [widestFrom]
        split
        · exact ih bs (i + 1) i _ n (by omega) (by omega)
        · exact ih bs (i + 1) d _ n (by omega) hd

theorem widest_lt (maxes mins : List K) (h : 0 < maxes.length) : widest maxes mins < maxes.length :=
  widestFrom_lt maxes mins 0 0 none _ (by omega) h

theorem minAt_fold (X : List (List K)) (d : ℕ) (idx : List ℕ) : ∀ m : K, ∃ m', idx.foldl (fun M i => match M with
    | none => some (at' X i d)
    | some m => if at' X i d < m then some (at' X i d) else some m) (some m) = some m' ∧ m' ≤ m ∧ (∀ i ∈ idx, m' ≤ at' X i d) ∧
      (m' = m ∨ ∃ i ∈ idx, at' X i d = m') := by
  induction idx with
  | nil => intro m; exact ⟨m, rfl, le_refl _, by simp, Or.inl rfl⟩
  | cons a idx ih =>
    intro m
    rw [List.foldl_cons]
    simp only
    by_cases h : at' X a d < m
    · rw [if_pos h]
      obtain ⟨m', e, h1, h2, h3⟩ := ih (at' X a d)
      refine ⟨m', e, le_trans h1 (le_of_lt h), ?_, ?_⟩
      · intro i hi
        rcases List.mem_cons.1 hi with rfl | hi
        · exact h1
        · exact h2 i hi
      · right
        rcases h3 with h3 | ⟨i, hi, h3⟩
        · exact ⟨a, List.mem_cons_self, h3.symm⟩
        · exact ⟨i, List.mem_cons_of_mem _ hi, h3⟩
    · rw [if_neg h]
      obtain ⟨m', e, h1, h2, h3⟩ := ih m
      refine ⟨m', e, h1, ?_, ?_⟩
      · intro i hi
        rcases List.mem_cons.1 hi with rfl | hi
        · exact le_trans h1 (not_lt.1 h)
        · exact h2 i hi
      · rcases h3 with h3 | ⟨i, hi, h3⟩
        · exact Or.inl h3
        · exact Or.inr ⟨i, List.mem_cons_of_mem _ hi, h3⟩

theorem minAt_spec (X : List (List K)) (d : ℕ) (idx : List ℕ) (h : idx ≠ []) :
    (∃ i ∈ idx, at' X i d = (minAt X d idx).getD 0) ∧ ∀ i ∈ idx, (minAt X d idx).getD 0 ≤ at' X i d := by
  cases idx with
  | nil => exact absurd rfl h
  | cons a idx =>
    obtain ⟨m', e, h1, h2, h3⟩ := minAt_fold X d idx (at' X a d)
    have : minAt X d (a :: idx) = some m' := by
      rw [minAt, List.foldl_cons]
      exact e
    rw [this, Option.getD_some]
    constructor
    · rcases h3 with h3 | ⟨i, hi, h3⟩
      · exact ⟨a, List.mem_cons_self, h3.symm⟩
      · exact ⟨i, List.mem_cons_of_mem _ hi, h3⟩
    · intro i hi
      rcases List.mem_cons.1 hi with rfl | hi
      · exact h1
      · exact h2 i hi

theorem maxAt_fold (X : List (List K)) (d : ℕ) (idx : List ℕ) : ∀ m : K, ∃ m', idx.foldl (fun M i => match M with
    | none => some (at' X i d)
    | some m => if m < at' X i d then some (at' X i d) else some m) (some m) = some m' ∧ m ≤ m' ∧ (∀ i ∈ idx, at' X i d ≤ m') ∧
      (m' = m ∨ ∃ i ∈ idx, at' X i d = m') := by
  induction idx with
  | nil => intro m; exact ⟨m, rfl, le_refl _, by simp, Or.inl rfl⟩
  | cons a idx ih =>
    intro m
    rw [List.foldl_cons]
    simp only
    by_cases h : m < at' X a d
    · rw [if_pos h]
      obtain ⟨m', e, h1, h2, h3⟩ := ih (at' X a d)
      refine ⟨m', e, le_trans (le_of_lt h) h1, ?_, ?_⟩
      · intro i hi
        rcases List.mem_cons.1 hi with rfl | hi
        · exact h1
        · exact h2 i hi
      · right
        rcases h3 with h3 | ⟨i, hi, h3⟩
        · exact ⟨a, List.mem_cons_self, h3.symm⟩
        · exact ⟨i, List.mem_cons_of_mem _ hi, h3⟩
    · rw [if_neg h]
      obtain ⟨m', e, h1, h2, h3⟩ := ih m
      refine ⟨m', e, h1, ?_, ?_⟩
      · intro i hi
        rcases List.mem_cons.1 hi with rfl | hi
        · exact le_trans (not_lt.1 h) h1
        · exact h2 i hi
      · rcases h3 with h3 | ⟨i, hi, h3⟩
        · exact Or.inl h3
        · exact Or.inr ⟨i, List.mem_cons_of_mem _ hi, h3⟩

theorem maxAt_spec (X : List (List K)) (d : ℕ) (idx : List ℕ) (h : idx ≠ []) :
    (∃ i ∈ idx, at' X i d = (maxAt X d idx).getD 0) ∧ ∀ i ∈ idx, at' X i d ≤ (maxAt X d idx).getD 0 := by
  cases idx with
  | nil => exact absurd rfl h
  | cons a idx =>
    obtain ⟨m', e, h1, h2, h3⟩ := maxAt_fold X d idx (at' X a d)
    have : maxAt X d (a :: idx) = some m' := by
      rw [maxAt, List.foldl_cons]
      exact e
    rw [this, Option.getD_some]
    constructor
    · rcases h3 with h3 | ⟨i, hi, h3⟩
      · exact ⟨a, List.mem_cons_self, h3.symm⟩
      · exact ⟨i, List.mem_cons_of_mem _ hi, h3⟩
    · intro i hi
      rcases List.mem_cons.1 hi with rfl | hi
      · exact h1
      · exact h2 i hi

/-- The three ways a split is chosen: the midpoint with samples on both sides; the smallest value when nothing is at or below the midpoint but values differ;
the largest value, everything to the left, otherwise. -/
theorem chooseSplit_spec (X : List (List K)) (d : ℕ) (idx : List ℕ) (hne : idx ≠ []) (hi lo : K) :
    ∃ s, chooseSplit X d idx hi lo = (s, lgfill X d idx s) ∧
      (((lgfill X d idx s).1 ≠ [] ∧ (lgfill X d idx s).2 ≠ []) ∨
       ((∃ i ∈ idx, at' X i d = s) ∧ (∀ i ∈ idx, at' X i d ≤ s) ∧
          ((∀ i ∈ idx, at' X i d ≤ (hi + lo) / 2) ∨ (∀ i ∈ idx, (hi + lo) / 2 < at' X i d ∧ at' X i d = s)))) := by
  obtain ⟨⟨im, him, emin⟩, hmin⟩ := minAt_spec X d idx hne
  obtain ⟨⟨ix, hix, emax⟩, hmax⟩ := maxAt_spec X d idx hne
  have hfull : (lgfill X d idx ((maxAt X d idx).getD 0)).1 ≠ [] := by
    intro hc
    have : ix ∈ (lgfill X d idx ((maxAt X d idx).getD 0)).1 := by
      simp only [lgfill, List.mem_filter, decide_eq_true_eq]
      exact ⟨hix, hmax ix hix⟩
    rw [hc] at this
    cases this
  rw [chooseSplit]
  by_cases h0 : (lgfill X d idx ((hi + lo) / 2)).1 = []
  · have hgt : ∀ i ∈ idx, (hi + lo) / 2 < at' X i d := by
      intro i hii
      by_contra hc
      have : i ∈ (lgfill X d idx ((hi + lo) / 2)).1 := by
        simp only [lgfill, List.mem_filter, decide_eq_true_eq]
        exact ⟨hii, not_lt.1 hc⟩
      rw [h0] at this
      cases this
    have hm1 : (lgfill X d idx ((minAt X d idx).getD 0)).1 ≠ [] := by
      intro hc
      have : im ∈ (lgfill X d idx ((minAt X d idx).getD 0)).1 := by
        simp only [lgfill, List.mem_filter, decide_eq_true_eq]
        exact ⟨him, le_of_eq emin⟩
      rw [hc] at this
      cases this
    simp only [h0, List.isEmpty_nil, if_true]
    by_cases h1 : (lgfill X d idx ((minAt X d idx).getD 0)).2 = []
    · simp only [h1, List.isEmpty_nil, if_true]
      rw [if_neg (by simpa using hfull)]
      refine ⟨_, rfl, Or.inr ⟨⟨ix, hix, emax⟩, hmax, Or.inr ?_⟩⟩
      intro i hii
      refine ⟨hgt i hii, ?_⟩
      have h2 : ∀ j ∈ idx, at' X j d ≤ (minAt X d idx).getD 0 := by
        intro j hj
        by_contra hc
        have : j ∈ (lgfill X d idx ((minAt X d idx).getD 0)).2 := by
          simp only [lgfill, List.mem_filter, decide_eq_true_eq]
          exact ⟨hj, not_le.1 hc⟩
        rw [h1] at this
        cases this
      apply le_antisymm (hmax i hii)
      rw [← emax]
      exact le_trans (h2 ix hix) (hmin i hii)
    · have b1 : (lgfill X d idx ((minAt X d idx).getD 0)).2.isEmpty = false := by simpa using h1
      have b2 : (lgfill X d idx ((minAt X d idx).getD 0)).1.isEmpty = false := by simpa using hm1
      simp only [b1, b2, Bool.false_eq_true, if_false]
      exact ⟨_, rfl, Or.inl ⟨hm1, h1⟩⟩
  · have b0 : (lgfill X d idx ((hi + lo) / 2)).1.isEmpty = false := by simpa using h0
    simp only [b0, Bool.false_eq_true, if_false]
    by_cases h1 : (lgfill X d idx ((hi + lo) / 2)).2 = []
    · simp only [h1, List.isEmpty_nil, if_true]
      rw [if_neg (by simpa using hfull)]
      refine ⟨_, rfl, Or.inr ⟨⟨ix, hix, emax⟩, hmax, Or.inl ?_⟩⟩
      intro i hii
      by_contra hc
      have : i ∈ (lgfill X d idx ((hi + lo) / 2)).2 := by
        simp only [lgfill, List.mem_filter, decide_eq_true_eq]
        exact ⟨hii, not_le.1 hc⟩
      rw [h1] at this
      cases this
    · have b1 : (lgfill X d idx ((hi + lo) / 2)).2.isEmpty = false := by simpa using h1
      simp only [b1, b0, Bool.false_eq_true, if_false]
      exact ⟨_, rfl, Or.inl ⟨h0, h1⟩⟩

theorem lgfill_perm (X : List (List K)) (d : ℕ) (idx : List ℕ) (s : K) : ((lgfill X d idx s).1 ++ (lgfill X d idx s).2).Perm idx := by
  have h := List.filter_append_perm (fun i => decide (at' X i d ≤ s)) idx
  have e : (lgfill X d idx s).2 = idx.filter (fun x => !decide (at' X x d ≤ s)) := by
    simp only [lgfill]
    apply List.filter_congr
    intro i _
    by_cases h1 : at' X i d ≤ s
    · simp [h1]
    · simp [h1, not_le.1 h1]
  rw [e]
  exact h

/-- Whatever tree `_build` returns, its leaves hold exactly the given samples and its split values separate them. -/
theorem build_ok (X : List (List K)) (leafSize m : ℕ) (hm0 : 0 < m) : ∀ (fuel : ℕ) (idx : List ℕ) (maxes mins : List K) (t : Node K), maxes.length = m →
    build X leafSize fuel idx maxes mins = some t → t.idx.Perm idx ∧ Cells X m t := by
  intro fuel
  induction fuel with
  | zero => intro idx maxes mins t _ h; rw [build] at h; cases h
  | succ fuel ih =>
    intro idx maxes mins t hm h
    rw [build] at h
    split at h
    · cases h
      exact ⟨List.Perm.refl _, trivial⟩
    · rename_i hlen
      simp only at h
      split at h
      · cases h
        exact ⟨List.Perm.refl _, trivial⟩
      · rename_i hne
        have hidx : idx ≠ [] := by
          rintro rfl
          simp at hlen
        simp only [Option.bind_eq_bind] at h
        obtain ⟨l, hl, h⟩ := Option.bind_eq_some_iff.1 h
        obtain ⟨g, hg, h⟩ := Option.bind_eq_some_iff.1 h
        cases h
        obtain ⟨s, es, _⟩ := chooseSplit_spec X (widest maxes mins) idx hidx (maxes.getD (widest maxes mins) 0) (mins.getD (widest maxes mins) 0)
        rw [es] at hl hg ⊢
        obtain ⟨pl, cl⟩ := ih _ _ _ l (by simpa using hm) hl
        obtain ⟨pg, cg⟩ := ih _ _ _ g hm hg
        refine ⟨(pl.append pg).trans (lgfill_perm X _ idx s), ?_, ?_, ?_, cl, cg⟩
        · rw [← hm]
          exact widest_lt maxes mins (by omega)
        · intro i hi
          have := pl.mem_iff.1 hi
          simp only [lgfill, List.mem_filter, decide_eq_true_eq] at this
          exact this.2
        · intro i hi
          have := pg.mem_iff.1 hi
          simp only [lgfill, List.mem_filter, decide_eq_true_eq] at this
          exact this.2

/-- The data of the samples `idx` lies in the box. -/
def Box (X : List (List K)) (m : ℕ) (idx : List ℕ) (maxes mins : List K) : Prop :=
  ∀ i ∈ idx, ∀ d, d < m → mins.getD d 0 ≤ at' X i d ∧ at' X i d ≤ maxes.getD d 0

/-- Dimensions in which the box is larger than the data on the upper side. -/
def loose (X : List (List K)) (m : ℕ) (idx : List ℕ) (maxes : List K) : Finset ℕ :=
  (Finset.range m).filter (fun d => maxes.getD d 0 ≠ (maxAt X d idx).getD 0)

theorem getD_set_self (l : List K) (d : ℕ) (v : K) (h : d < l.length) : (l.set d v).getD d 0 = v := by
  rw [List.getD_eq_getElem?_getD, List.getElem?_set_self h, Option.getD_some]

theorem getD_set_ne (l : List K) (d j : ℕ) (v : K) (h : j ≠ d) : (l.set d v).getD j 0 = l.getD j 0 := by
  rw [List.getD_eq_getElem?_getD, List.getElem?_set_ne (Ne.symm h), ← List.getD_eq_getElem?_getD]

/-- Every value of a column is shared by at most `leafSize` of the samples. -/
def FewTies (X : List (List K)) (m leafSize : ℕ) (idx : List ℕ) : Prop :=
  ∀ d, d < m → ∀ v, (idx.filter (fun i => decide (at' X i d = v))).length ≤ leafSize

theorem FewTies.sublist {X : List (List K)} {m leafSize : ℕ} {idx idx' : List ℕ} (h : FewTies X m leafSize idx) (hs : idx'.Sublist idx) :
    FewTies X m leafSize idx' := fun d hd v => le_trans (hs.filter _).length_le (h d hd v)

theorem build_terminates (X : List (List K)) (leafSize m : ℕ) (hm0 : 0 < m) : ∀ (fuel : ℕ) (idx : List ℕ) (maxes mins : List K),
    maxes.length = m → mins.length = m → Box X m idx maxes mins → FewTies X m leafSize idx →
    idx.length * (m + 1) + (loose X m idx maxes).card < fuel → ∃ t, build X leafSize fuel idx maxes mins = some t := by
  intro fuel
  induction fuel with
  | zero => intro idx maxes mins _ _ _ _ h; omega
  | succ fuel ih =>
    intro idx maxes mins hM hm hbox hties hfuel
    rw [build]
    by_cases hlen : idx.length ≤ leafSize
    · rw [if_pos hlen]
      exact ⟨_, rfl⟩
    · rw [if_neg hlen]
      simp only
      set d := widest maxes mins with hd
      have hdm : d < m := by
        rw [hd, ← hM]
        exact widest_lt maxes mins (by omega)
      by_cases hne : maxes.getD d 0 = mins.getD d 0
      · rw [if_pos hne]
        exact ⟨_, rfl⟩
      · rw [if_neg hne]
        have hidx : idx ≠ [] := by
          rintro rfl
          simp at hlen
        have hlt : mins.getD d 0 < maxes.getD d 0 := by
          obtain ⟨i, hi⟩ := List.exists_mem_of_ne_nil idx hidx
          exact lt_of_le_of_ne (le_trans (hbox i hi d hdm).1 (hbox i hi d hdm).2) (Ne.symm hne)
        obtain ⟨s, es, hcase⟩ := chooseSplit_spec X d idx hidx (maxes.getD d 0) (mins.getD d 0)
        rw [es]
        simp only [Option.bind_eq_bind]
        have hsub1 : (lgfill X d idx s).1.Sublist idx := List.filter_sublist
        have hsub2 : (lgfill X d idx s).2.Sublist idx := List.filter_sublist
        have hplen := (lgfill_perm X d idx s).length_eq
        rw [List.length_append] at hplen
        have hbox1 : Box X m (lgfill X d idx s).1 (maxes.set d s) mins := by
          intro i hi j hj
          refine ⟨(hbox i (hsub1.subset hi) j hj).1, ?_⟩
          by_cases hjd : j = d
          · subst hjd
            rw [getD_set_self _ _ _ (by omega)]
            simp only [lgfill, List.mem_filter, decide_eq_true_eq] at hi
            exact hi.2
          · rw [getD_set_ne _ _ _ _ hjd]
            exact (hbox i (hsub1.subset hi) j hj).2
        have hbox2 : Box X m (lgfill X d idx s).2 maxes (mins.set d s) := by
          intro i hi j hj
          refine ⟨?_, (hbox i (hsub2.subset hi) j hj).2⟩
          by_cases hjd : j = d
          · subst hjd
            rw [getD_set_self _ _ _ (by omega)]
            simp only [lgfill, List.mem_filter, decide_eq_true_eq] at hi
            exact le_of_lt hi.2
          · rw [getD_set_ne _ _ _ _ hjd]
            exact (hbox i (hsub2.subset hi) j hj).1
        have hcard : ∀ (idx : List ℕ) (maxes : List K), (loose X m idx maxes).card ≤ m := fun idx maxes =>
          le_trans (Finset.card_filter_le _ _) (by simp)
        have hmul : ∀ n, n < idx.length → n * (m + 1) + m < idx.length * (m + 1) + (loose X m idx maxes).card := by
          intro n hn
          have : (n + 1) * (m + 1) ≤ idx.length * (m + 1) := Nat.mul_le_mul_right _ hn
          rw [Nat.add_mul, Nat.one_mul] at this
          omega
        rcases hcase with ⟨h1, h2⟩ | ⟨⟨i0, hi0, ei0⟩, hle, hmid⟩
        · have l1 := List.length_pos_iff.2 h1
          have l2 := List.length_pos_iff.2 h2
          have m1 := hmul (lgfill X d idx s).1.length (by omega)
          have m2 := hmul (lgfill X d idx s).2.length (by omega)
          have c1 := hcard (lgfill X d idx s).1 (maxes.set d s)
          have c2 := hcard (lgfill X d idx s).2 maxes
          obtain ⟨l, el⟩ := ih (lgfill X d idx s).1 (maxes.set d s) mins (by simpa using hM) hm hbox1 (hties.sublist hsub1) (by omega)
          obtain ⟨g, eg⟩ := ih (lgfill X d idx s).2 maxes (mins.set d s) hM (by simpa using hm) hbox2 (hties.sublist hsub2) (by omega)
          rw [el, Option.bind_some, eg, Option.bind_some]
          exact ⟨_, rfl⟩
        · have hall : (lgfill X d idx s).1 = idx := by
            simp only [lgfill]
            rw [List.filter_eq_self]
            intro i hi
            simpa using hle i hi
          have hnil : (lgfill X d idx s).2 = [] := by
            rw [hall] at hplen
            exact List.length_eq_zero_iff.1 (by omega)
          have hmax : (maxAt X d idx).getD 0 = s := by
            obtain ⟨⟨j, hj, ej⟩, hj2⟩ := maxAt_spec X d idx hidx
            apply le_antisymm
            · rw [← ej]
              exact hle j hj
            · rw [← ei0]
              exact hj2 i0 hi0
          have hmid' : ∀ i ∈ idx, at' X i d ≤ (maxes.getD d 0 + mins.getD d 0) / 2 := by
            rcases hmid with hmid | hmid
            · exact hmid
            · exfalso
              have := hties d hdm s
              rw [List.filter_eq_self.2 (by intro i hi; simpa using (hmid i hi).2)] at this
              exact hlen this
          have hslt : s < maxes.getD d 0 := by
            have h3 := hmid' i0 hi0
            rw [ei0] at h3
            linarith
          have hloose : (loose X m idx (maxes.set d s)).card < (loose X m idx maxes).card := by
            apply Finset.card_lt_card
            refine ⟨?_, ?_⟩
            · intro j hj
              simp only [loose, Finset.mem_filter, Finset.mem_range] at hj ⊢
              refine ⟨hj.1, ?_⟩
              by_cases hjd : j = d
              · subst hjd
                rw [hmax]
                exact ne_of_gt hslt
              · rw [getD_set_ne _ _ _ _ hjd] at hj
                exact hj.2
            · intro hc
              have h4 : d ∈ loose X m idx maxes := by
                simp only [loose, Finset.mem_filter, Finset.mem_range]
                refine ⟨hdm, ?_⟩
                rw [hmax]
                exact ne_of_gt hslt
              have h5 := hc h4
              simp only [loose, Finset.mem_filter, Finset.mem_range] at h5
              rw [getD_set_self _ _ _ (by omega), hmax] at h5
              exact h5.2 rfl
          obtain ⟨l, el⟩ := ih (lgfill X d idx s).1 (maxes.set d s) mins (by simpa using hM) hm hbox1 (hties.sublist hsub1) (by rw [hall]; omega)
          have hf : ∃ f, fuel = f + 1 := ⟨fuel - 1, by
            have := List.length_pos_iff.2 hidx
            have : 1 * (m + 1) ≤ idx.length * (m + 1) := Nat.mul_le_mul_right _ this
            omega⟩
          obtain ⟨f, rfl⟩ := hf
          rw [el, Option.bind_some, hnil]
          have eg : build X leafSize (f + 1) [] maxes (mins.set d s) = some (.leaf []) := by
            rw [build, if_pos (by simp)]
          rw [eg, Option.bind_some]
          exact ⟨_, rfl⟩

/-- When all the samples, more than `leafSize` of them, share the value of the only column and the box is larger, `_build` calls itself with the same arguments:
it never returns. -/
theorem build_loops (X : List (List K)) (leafSize : ℕ) (a b : K) (hab : a < b) (idx : List ℕ) (hlen : leafSize < idx.length)
    (hall : ∀ i ∈ idx, at' X i 0 = b) : ∀ fuel, build X leafSize fuel idx [b] [a] = none := by
  intro fuel
  induction fuel with
  | zero => rfl
  | succ fuel ih =>
    have hidx : idx ≠ [] := by
      rintro rfl
      simp at hlen
    rw [build, if_neg (by omega)]
    have hw : widest [b] [a] = 0 := by simp [widest, widestFrom]
    simp only [hw, List.getD_cons_zero]
    rw [if_neg (ne_of_gt hab)]
    obtain ⟨s, es, hcase⟩ := chooseSplit_spec X 0 idx hidx b a
    have hs : s = b := by
      rcases hcase with ⟨h1, h2⟩ | ⟨⟨i, hi, e⟩, _⟩
      · exfalso
        obtain ⟨i, hi⟩ := List.exists_mem_of_ne_nil _ h1
        obtain ⟨j, hj⟩ := List.exists_mem_of_ne_nil _ h2
        simp only [lgfill, List.mem_filter, decide_eq_true_eq] at hi hj
        rw [hall i hi.1] at hi
        rw [hall j hj.1] at hj
        exact absurd hi.2 (not_le.2 hj.2)
      · rw [← e, hall i hi]
    subst hs
    rw [es]
    have h1 : (lgfill X 0 idx s).1 = idx := by
      simp only [lgfill]
      rw [List.filter_eq_self]
      intro i hi
      simp [hall i hi]
    simp only [h1, List.set_cons_zero, ih, Option.bind_eq_bind, Option.bind_none]

/-- The column-wise maxima or minima are attained bounds. -/
theorem extremes_fold (gt : K → K → Bool) (m : ℕ) (le : K → K → Prop) (hrefl : ∀ a, le a a) (htrans : ∀ a b c, le a b → le b c → le a c)
    (hgt : ∀ a v, le a (if gt a v then v else a) ∧ le v (if gt a v then v else a)) (X : List (List K)) :
    ∀ r : List K, r.length = m → (∀ row ∈ X, row.length = m) →
      let e := X.foldl (fun acc row => List.zipWith (fun a v => if gt a v then v else a) acc row) r
      e.length = m ∧ (∀ j, j < m → le (r.getD j 0) (e.getD j 0)) ∧ ∀ row ∈ X, ∀ j, j < m → le (row.getD j 0) (e.getD j 0) := by
  induction X with
  | nil => intro r hr _; exact ⟨hr, fun j _ => hrefl _, by simp⟩
  | cons row X ih =>
    intro r hr hX
    rw [List.forall_mem_cons] at hX
    obtain ⟨h1, h2, h3⟩ := ih (List.zipWith (fun a v => if gt a v then v else a) r row) (by simp [hr, hX.1]) hX.2
    simp only [List.foldl_cons]
    have hz : ∀ j, j < m → (List.zipWith (fun a v => if gt a v then v else a) r row).getD j 0 =
        if gt (r.getD j 0) (row.getD j 0) then row.getD j 0 else r.getD j 0 := by
      intro j hj
      simp only [List.getD_eq_getElem?_getD]
      rw [List.getElem?_eq_getElem (by simp [hr, hX.1, hj]), List.getElem?_eq_getElem (by omega), List.getElem?_eq_getElem (by omega)]
      simp
    refine ⟨h1, fun j hj => htrans _ _ _ (by rw [hz j hj]; exact (hgt _ _).1) (h2 j hj), ?_⟩
    intro row' hrow' j hj
    rcases List.mem_cons.1 hrow' with rfl | hrow'
    · exact htrans _ _ _ (by rw [hz j hj]; exact (hgt _ _).2) (h2 j hj)
    · exact h3 row' hrow' j hj

theorem extremes_box (X : List (List K)) (m : ℕ) (hne : X ≠ []) (hX : ∀ row ∈ X, row.length = m) :
    (extremes (fun a v => decide (a < v)) X).length = m ∧ (extremes (fun a v => decide (v < a)) X).length = m ∧
    Box X m (List.range X.length) (extremes (fun a v => decide (a < v)) X) (extremes (fun a v => decide (v < a)) X) := by
  cases X with
  | nil => exact absurd rfl hne
  | cons r X =>
    rw [List.forall_mem_cons] at hX
    obtain ⟨a1, a2, a3⟩ := extremes_fold (fun a v => decide (a < v)) m (· ≤ ·) le_refl (fun _ _ _ => le_trans) (by
      intro a v
      by_cases h : a < v
      · simp [h, h.le]
      · simp [h, not_lt.1 h]) X r hX.1 hX.2
    obtain ⟨b1, b2, b3⟩ := extremes_fold (fun a v => decide (v < a)) m (fun a b => b ≤ a) le_refl (fun _ _ _ h1 h2 => le_trans h2 h1) (by
      intro a v
      by_cases h : v < a
      · simp [h, h.le]
      · simp [h, not_lt.1 h]) X r hX.1 hX.2
    refine ⟨a1, b1, ?_⟩
    intro i hi d hd
    rw [List.mem_range] at hi
    cases i with
    | zero => exact ⟨b2 d hd, a2 d hd⟩
    | succ i =>
      simp only [List.length_cons, Nat.add_lt_add_iff_right] at hi
      have e : at' (r :: X) (i + 1) d = (X[i]).getD d 0 := by
        simp [at', hi]
      rw [e]
      exact ⟨b3 _ (List.getElem_mem hi) d hd, a3 _ (List.getElem_mem hi) d hd⟩

/-- The scan keeps a feature whose extent no other exceeds. -/
theorem widestFrom_max : ∀ (as bs : List K) (i d : ℕ) (m : K), as.length = bs.length →
    (widestFrom as bs i d (some m) = d ∧ ∀ j, j < as.length → as.getD j 0 - bs.getD j 0 ≤ m) ∨
    ∃ r, r < as.length ∧ widestFrom as bs i d (some m) = i + r ∧ m ≤ as.getD r 0 - bs.getD r 0 ∧
      ∀ j, j < as.length → as.getD j 0 - bs.getD j 0 ≤ as.getD r 0 - bs.getD r 0
  | [], _, i, d, m, _ => Or.inl ⟨by simp [widestFrom], fun j hj => absurd hj (by simp)⟩
  | a :: as, [], i, d, m, h => absurd h (by simp)
  | a :: as, b :: bs, i, d, m, h => by
    have hl : as.length = bs.length := by simpa using h
    rw [widestFrom]
    by_cases hm : m < a - b
    · rw [if_pos hm]
      right
      rcases widestFrom_max as bs (i + 1) i (a - b) hl with ⟨e, hall⟩ | ⟨r, hr, e, h1, hall⟩
      · refine ⟨0, by simp, e, by simpa using hm.le, ?_⟩
        intro j hj
        cases j with
        | zero => exact le_refl _
        | succ j => simpa using hall j (by simpa using hj)
      · refine ⟨r + 1, by simpa using hr, by rw [e]; omega, by simpa using le_trans hm.le h1, ?_⟩
        intro j hj
        cases j with
        | zero => simpa using h1
        | succ j => simpa using hall j (by simpa using hj)
    · rw [if_neg hm]
      rcases widestFrom_max as bs (i + 1) d m hl with ⟨e, hall⟩ | ⟨r, hr, e, h1, hall⟩
      · refine Or.inl ⟨e, ?_⟩
        intro j hj
        cases j with
        | zero => simpa using hm
        | succ j => simpa using hall j (by simpa using hj)
      · refine Or.inr ⟨r + 1, by simpa using hr, by rw [e]; omega, by simpa using h1, ?_⟩
        intro j hj
        cases j with
        | zero => simpa using le_trans (not_lt.1 hm) h1
        | succ j => simpa using hall j (by simpa using hj)

/-- No feature of the box is wider than the widest. -/
theorem widest_max (maxes mins : List K) (h : maxes.length = mins.length) (j : ℕ) (hj : j < maxes.length) :
    maxes.getD j 0 - mins.getD j 0 ≤ maxes.getD (widest maxes mins) 0 - mins.getD (widest maxes mins) 0 := by
  cases maxes with
  | nil => simp at hj
  | cons a as =>
    cases mins with
    | nil => simp at h
    | cons b bs =>
      have hl : as.length = bs.length := by simpa using h
      have hw : widest (a :: as) (b :: bs) = widestFrom as bs 1 0 (some (a - b)) := by simp [widest, widestFrom]
      rcases widestFrom_max as bs 1 0 (a - b) hl with ⟨e, hall⟩ | ⟨r, hr, e, h1, hall⟩
      · rw [hw, e]
        cases j with
        | zero => exact le_refl _
        | succ j => simpa using hall j (by simpa using hj)
      · rw [hw, e, Nat.add_comm 1 r]
        cases j with
        | zero => simpa using h1
        | succ j => simpa using hall j (by simpa using hj)

/-- The sample numbers of the leaves, one list per leaf. -/
def leaves : Node K → List (List ℕ)
  | .leaf idx => [idx]
  | .inner _ _ l g => leaves l ++ leaves g

/-- A leaf of the tree that `_build` returns holds at most `leafSize` samples or samples with the same coordinates. -/
theorem build_leaves (X : List (List K)) (leafSize m : ℕ) (hm0 : 0 < m) : ∀ (fuel : ℕ) (idx : List ℕ) (maxes mins : List K) (t : Node K),
    maxes.length = m → mins.length = m → Box X m idx maxes mins → build X leafSize fuel idx maxes mins = some t →
    ∀ l ∈ leaves t, (∀ i ∈ l, i ∈ idx) ∧ (l.length ≤ leafSize ∨ ∀ i ∈ l, ∀ j ∈ l, ∀ d, d < m → at' X i d = at' X j d) := by
  intro fuel
  induction fuel with
  | zero => intro idx maxes mins t _ _ _ h; rw [build] at h; cases h
  | succ fuel ih =>
    intro idx maxes mins t hM hm hbox h
    rw [build] at h
    by_cases hlen : idx.length ≤ leafSize
    · rw [if_pos hlen] at h
      cases h
      intro l hl
      simp only [leaves, List.mem_singleton] at hl
      subst hl
      exact ⟨fun _ h => h, Or.inl hlen⟩
    · rw [if_neg hlen] at h
      simp only at h
      set d := widest maxes mins with hd
      have hdm : d < m := by
        rw [hd, ← hM]
        exact widest_lt maxes mins (by omega)
      by_cases hne : maxes.getD d 0 = mins.getD d 0
      · rw [if_pos hne] at h
        cases h
        intro l hl
        simp only [leaves, List.mem_singleton] at hl
        subst hl
        refine ⟨fun _ h => h, Or.inr ?_⟩
        intro i hi j hj k hk
        have hw := widest_max maxes mins (by omega) k (by omega)
        rw [← hd, hne, sub_self] at hw
        obtain ⟨a1, a2⟩ := hbox i hi k hk
        obtain ⟨b1, b2⟩ := hbox j hj k hk
        apply le_antisymm <;> linarith
      · rw [if_neg hne] at h
        have hidx : idx ≠ [] := by
          rintro rfl
          simp at hlen
        obtain ⟨s, es, -⟩ := chooseSplit_spec X d idx hidx (maxes.getD d 0) (mins.getD d 0)
        rw [es] at h
        simp only [Option.bind_eq_bind] at h
        obtain ⟨l, hl, h⟩ := Option.bind_eq_some_iff.1 h
        obtain ⟨g, hg, h⟩ := Option.bind_eq_some_iff.1 h
        cases h
        have hsub1 : (lgfill X d idx s).1.Sublist idx := List.filter_sublist
        have hsub2 : (lgfill X d idx s).2.Sublist idx := List.filter_sublist
        have hbox1 : Box X m (lgfill X d idx s).1 (maxes.set d s) mins := by
          intro i hi j hj
          refine ⟨(hbox i (hsub1.subset hi) j hj).1, ?_⟩
          by_cases hjd : j = d
          · subst hjd
            rw [getD_set_self _ _ _ (by omega)]
            simp only [lgfill, List.mem_filter, decide_eq_true_eq] at hi
            exact hi.2
          · rw [getD_set_ne _ _ _ _ hjd]
            exact (hbox i (hsub1.subset hi) j hj).2
        have hbox2 : Box X m (lgfill X d idx s).2 maxes (mins.set d s) := by
          intro i hi j hj
          refine ⟨?_, (hbox i (hsub2.subset hi) j hj).2⟩
          by_cases hjd : j = d
          · subst hjd
            rw [getD_set_self _ _ _ (by omega)]
            simp only [lgfill, List.mem_filter, decide_eq_true_eq] at hi
            exact le_of_lt hi.2
          · rw [getD_set_ne _ _ _ _ hjd]
            exact (hbox i (hsub2.subset hi) j hj).1
        intro q hq
        rw [leaves, List.mem_append] at hq
        rcases hq with hq | hq
        · obtain ⟨h1, h2⟩ := ih _ _ _ l (by simpa using hM) hm hbox1 hl q hq
          exact ⟨fun i hi => hsub1.subset (h1 i hi), h2⟩
        · obtain ⟨h1, h2⟩ := ih _ _ _ g hM (by simpa using hm) hbox2 hg q hq
          exact ⟨fun i hi => hsub2.subset (h1 i hi), h2⟩

end Sk.Neigh
