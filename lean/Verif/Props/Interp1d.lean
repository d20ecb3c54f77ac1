import Verif.Model.Interpolate
import Verif.Lemmas.GoSort
import Mathlib.Tactic.Linarith
import Mathlib.Tactic.Ring
import Mathlib.Tactic.FieldSimp
import Mathlib.Tactic.NormNum
import Mathlib.Data.List.Perm.Basic
import Mathlib.Data.List.Nodup
import Mathlib.Algebra.Order.Field.Basic

/-!
# Linear interpolation: C57
-/
set_option autoImplicit false

namespace Sk.Interp

variable {K : Type} [Field K] [LinearOrder K] [IsStrictOrderedRing K]

open Sk.GoSort

/-- `sort.Sort` by abscissa: a sorted permutation. -/
def ValidSort {V : Type} (srt : List (K × V) → List (K × V)) : Prop := ∀ l, (srt l).Perm l ∧ (srt l).Pairwise (fun a b => a.1 ≤ b.1)

/-- Two known points with no known point strictly between them. -/
def Neighbours (pts : List (K × Option K)) (a ya b yb : K) : Prop :=
  (a, some ya) ∈ pts ∧ (b, some yb) ∈ pts ∧ a < b ∧ ∀ c yc, (c, some yc) ∈ pts → ¬ (a < c ∧ c < b)

/-- The value at `x` of the line through two points. -/
def onLine (a ya b yb x : K) : K := ya + (x - a) * ((yb - ya) / (b - a))

/-- The ordinates of the smallest and of the greatest abscissa are not NaN. -/
def EndsKnown (pts : List (K × Option K)) : Prop := ∀ p ∈ pts, (∃ a ya, (a, some ya) ∈ pts ∧ a ≤ p.1) ∧ ∃ b yb, (b, some yb) ∈ pts ∧ p.1 ≤ b

/-! ## The sorted points -/

theorem pt_eq (pts : List (K × Option K)) (i : ℕ) (hi : i < pts.length) : pt pts i = pts[i] := by
  unfold pt
  rw [List.getD_eq_getElem?_getD, List.getElem?_eq_getElem hi, Option.getD_some]

theorem skipDown_le (pts : List (K × Option K)) (m : ℕ) : skipDown pts m ≤ m := by
  induction m with
  | zero => exact le_refl _
  | succ m ih =>
    unfold skipDown
    split
    · omega
    · exact le_refl _

theorem skipDown_none (pts : List (K × Option K)) (m e : ℕ) (h1 : skipDown pts m < e) (h2 : e ≤ m) : (pt pts e).2 = none := by
  induction m with
  | zero => omega
  | succ m ih =>
    unfold skipDown at h1
    split at h1
    · rename_i hn
      rcases Nat.lt_or_ge e (m + 1) with h | h
      · exact ih h1 (by omega)
      · have : e = m + 1 := by omega
        subst this
        simpa using hn
    · omega

theorem skipDown_some (pts : List (K × Option K)) (m : ℕ) (h0 : (pt pts 0).2 ≠ none) : (pt pts (skipDown pts m)).2 ≠ none := by
  induction m with
  | zero => exact h0
  | succ m ih =>
    unfold skipDown
    split
    · exact ih
    · rename_i h
      simpa using h

theorem skipUp_spec (pts : List (K × Option K)) (fuel m : ℕ) (hm : m ≤ pts.length - 1) (hf : pts.length - 1 - m ≤ fuel) (hl : (pt pts (pts.length - 1)).2 ≠ none) :
    m ≤ skipUp pts fuel m ∧ skipUp pts fuel m ≤ pts.length - 1 ∧ (pt pts (skipUp pts fuel m)).2 ≠ none ∧ ∀ e, m ≤ e → e < skipUp pts fuel m → (pt pts e).2 = none := by
  induction fuel generalizing m with
  | zero =>
    have : m = pts.length - 1 := by omega
    unfold skipUp
    exact ⟨le_refl _, hm, by rw [this]; exact hl, fun e h1 h2 => by omega⟩
  | succ fuel ih =>
    unfold skipUp
    split
    · rename_i h
      obtain ⟨h1, h2, h3, h4⟩ := ih (m + 1) (by omega) (by omega)
      refine ⟨by omega, h2, h3, fun e he1 he2 => ?_⟩
      rcases Nat.lt_or_ge m e with h5 | h5
      · exact h4 e h5 he2
      · have : e = m := by omega
        subst this
        simpa using h.2
    · rename_i h
      refine ⟨le_refl _, hm, ?_, fun e h1 h2 => by omega⟩
      intro hn
      rcases Nat.lt_or_ge m (pts.length - 1) with h5 | h5
      · exact h ⟨h5, by simp [hn]⟩
      · have : m = pts.length - 1 := by omega
        rw [this] at hn
        exact hl hn

theorem line_eq (a ya b yb x : K) (h : a < b) : line (a, some ya) (b, some yb) x = some (onLine a ya b yb x) := by
  unfold line onLine
  simp only [Option.bind_eq_bind, Option.bind_some]
  rw [if_neg h.ne']
  congr 1
  ring

/-- The points used, by position: the greatest known position up to `m` and the least known one after it. -/
theorem pair_neighbours (pts : List (K × Option K)) (hs : pts.Pairwise (fun a b => a.1 < b.1)) (m : ℕ) (hm : m + 1 < pts.length) (h0 : (pt pts 0).2 ≠ none) (hl : (pt pts (pts.length - 1)).2 ≠ none) :
    ∃ (i j : ℕ) (hi : i < pts.length) (hj : j < pts.length) (ya yb : K), i ≤ m ∧ m < j ∧ i = skipDown pts m ∧ j = skipUp pts pts.length (m + 1) ∧ pts[i] = ((pts[i]).1, some ya) ∧ pts[j] = ((pts[j]).1, some yb) ∧
      Neighbours pts (pts[i]).1 ya (pts[j]).1 yb ∧ ∀ x, line (pt pts (skipDown pts m)) (pt pts (skipUp pts pts.length (m + 1))) x = some (onLine (pts[i]).1 ya (pts[j]).1 yb x) := by
  have hi1 := skipDown_le pts m
  have hi2 := skipDown_none pts m
  have hi3 := skipDown_some pts m h0
  obtain ⟨hj1, hj2, hj3, hj4⟩ := skipUp_spec pts pts.length (m + 1) (by omega) (by omega) hl
  generalize skipDown pts m = i at *
  generalize skipUp pts pts.length (m + 1) = j at *
  have hi : i < pts.length := by omega
  have hj : j < pts.length := by omega
  rw [pt_eq pts i hi] at hi3 ⊢
  rw [pt_eq pts j hj] at hj3 ⊢
  obtain ⟨ya, hya⟩ := Option.ne_none_iff_exists'.mp hi3
  obtain ⟨yb, hyb⟩ := Option.ne_none_iff_exists'.mp hj3
  have e1 : pts[i] = ((pts[i]).1, some ya) := Prod.ext rfl hya
  have e2 : pts[j] = ((pts[j]).1, some yb) := Prod.ext rfl hyb
  have hlt : (pts[i]).1 < (pts[j]).1 := List.pairwise_iff_getElem.mp hs i j hi hj (by omega)
  refine ⟨i, j, hi, hj, ya, yb, hi1, by omega, rfl, rfl, e1, e2, ⟨?_, ?_, hlt, ?_⟩, fun x => ?_⟩
  · rw [← e1]
    exact List.getElem_mem hi
  · rw [← e2]
    exact List.getElem_mem hj
  · rintro c yc hc ⟨h1, h2⟩
    obtain ⟨e, he, hce⟩ := List.getElem_of_mem hc
    have g1 : i < e := by
      by_contra hcon
      rcases Nat.lt_or_ge e i with h | h
      · have := List.pairwise_iff_getElem.mp hs e i he hi h
        rw [hce] at this
        exact absurd h1 (not_lt.mpr this.le)
      · have : e = i := by omega
        subst this
        rw [hce] at h1
        exact lt_irrefl _ h1
    have g2 : e < j := by
      by_contra hcon
      rcases Nat.lt_or_ge j e with h | h
      · have := List.pairwise_iff_getElem.mp hs j e hj he h
        rw [hce] at this
        exact absurd h2 (not_lt.mpr this.le)
      · have : e = j := by omega
        subst this
        rw [hce] at h2
        exact lt_irrefl _ h2
    have hnone : (pt pts e).2 = none := by
      rcases Nat.lt_or_ge m e with h | h
      · exact hj4 e (by omega) g2
      · exact hi2 e g1 h
    rw [pt_eq pts e he, hce] at hnone
    cases hnone
  · rw [e1, e2]
    exact line_eq _ _ _ _ _ hlt

theorem ends_known_pos (pts : List (K × Option K)) (hs : pts.Pairwise (fun a b => a.1 < b.1)) (hn : 2 ≤ pts.length) (he : EndsKnown pts) : (pt pts 0).2 ≠ none ∧ (pt pts (pts.length - 1)).2 ≠ none := by
  constructor
  · rw [pt_eq pts 0 (by omega)]
    obtain ⟨⟨a, ya, ha, hle⟩, -⟩ := he pts[0] (List.getElem_mem _)
    obtain ⟨e, hel, hae⟩ := List.getElem_of_mem ha
    rcases Nat.eq_zero_or_pos e with h | h
    · subst h
      rw [hae]
      simp
    · have := List.pairwise_iff_getElem.mp hs 0 e (by omega) hel h
      rw [hae] at this
      exact absurd hle (not_le.mpr this)
  · rw [pt_eq pts (pts.length - 1) (by omega)]
    obtain ⟨-, a, ya, ha, hle⟩ := he (pts[pts.length - 1]) (List.getElem_mem _)
    obtain ⟨e, hel, hae⟩ := List.getElem_of_mem ha
    rcases Nat.lt_or_ge e (pts.length - 1) with h | h
    · have := List.pairwise_iff_getElem.mp hs e (pts.length - 1) hel (by omega) h
      rw [hae] at this
      exact absurd hle (not_le.mpr this)
    · have : e = pts.length - 1 := by omega
      subst this
      rw [hae]
      simp

/-- Inside the range the closure evaluates the line between two neighbours around `x`; below (above) the range, that between the first (last) two. -/
theorem evalAt_spec (pts : List (K × Option K)) (hs : pts.Pairwise (fun a b => a.1 < b.1)) (hn : 2 ≤ pts.length) (he : EndsKnown pts) (x : K) :
    ∃ a ya b yb, Neighbours pts a ya b yb ∧ evalAt pts x = some (onLine a ya b yb x) ∧ (a ≤ x ∨ ∀ p ∈ pts, a ≤ p.1) ∧ (x ≤ b ∨ ∀ p ∈ pts, p.1 ≤ b) := by
  obtain ⟨h0, hl⟩ := ends_known_pos pts hs hn he
  have hsx : (pts.map Prod.fst).Pairwise (· ≤ ·) := List.pairwise_map.mpr (hs.imp le_of_lt)
  obtain ⟨hs1, hs2, hs3⟩ := searchFloat64s_spec (pts.map Prod.fst) hsx x
  rw [List.length_map] at hs1
  unfold evalAt
  simp only
  set s := searchFloat64s (pts.map Prod.fst) x with hsdef
  set m := (if s - 1 > pts.length - 2 then pts.length - 2 else s - 1) with hm
  have hm1 : m + 1 < pts.length := by
    rw [hm]
    split <;> omega
  obtain ⟨i, j, hi, hj, ya, yb, him, hmj, -, -, -, -, hnb, hline⟩ := pair_neighbours pts hs m hm1 h0 hl
  refine ⟨_, ya, _, yb, hnb, hline x, ?_, ?_⟩
  · rcases Nat.eq_zero_or_pos s with h | h
    · right
      have : i = 0 := by
        have : m = 0 := by
          rw [hm]
          split <;> omega
        omega
      subst this
      intro p hp
      obtain ⟨e, hel, rfl⟩ := List.getElem_of_mem hp
      rcases Nat.eq_zero_or_pos e with h' | h'
      · subst h'
        exact le_refl _
      · exact (List.pairwise_iff_getElem.mp hs 0 e (by omega) hel h').le
    · left
      have hms : m < s := by
        rw [hm]
        split <;> omega
      have := hs2 i (by rw [List.length_map]; exact hi) (by omega)
      rw [List.getElem_map] at this
      exact this.le
  · rcases Nat.lt_or_ge s pts.length with h | h
    · left
      have hms : s ≤ m + 1 := by
        rw [hm]
        split <;> omega
      have := hs3 j (by rw [List.length_map]; exact hj) (by omega)
      rw [List.getElem_map] at this
      exact this
    · right
      have : j = pts.length - 1 := by
        have : m = pts.length - 2 := by
          rw [hm]
          split <;> omega
        omega
      subst this
      intro p hp
      obtain ⟨e, hel, rfl⟩ := List.getElem_of_mem hp
      rcases Nat.lt_or_ge e (pts.length - 1) with h' | h'
      · exact (List.pairwise_iff_getElem.mp hs e (pts.length - 1) hel (by omega) h').le
      · have : e = pts.length - 1 := by omega
        subst this
        exact le_refl _

theorem onLine_left (a ya b yb : K) : onLine a ya b yb a = ya := by
  unfold onLine
  ring

theorem onLine_right (a ya b yb : K) (h : a < b) : onLine a ya b yb b = yb := by
  unfold onLine
  have : b - a ≠ 0 := (sub_pos.mpr h).ne'
  field_simp
  ring

/-- Points with the same abscissa are equal. -/
def Distinct {V : Type} (pts : List (K × V)) : Prop := pts.Pairwise (fun a b => a.1 ≠ b.1)

theorem distinct_unique {V : Type} {pts : List (K × V)} (h : Distinct pts) {a : K} {u v : V} (hu : (a, u) ∈ pts) (hv : (a, v) ∈ pts) : u = v := by
  obtain ⟨i, hi, e1⟩ := List.getElem_of_mem hu
  obtain ⟨j, hj, e2⟩ := List.getElem_of_mem hv
  rcases Nat.lt_trichotomy i j with h' | h' | h'
  · have := List.pairwise_iff_getElem.mp h i j hi hj h'
    rw [e1, e2] at this
    exact absurd rfl this
  · subst h'
    rw [e1] at e2
    exact (Prod.mk.inj e2).2
  · have := List.pairwise_iff_getElem.mp h j i hj hi h'
    rw [e1, e2] at this
    exact absurd rfl this

/-- Two pairs of neighbours around `x` give the same value. -/
theorem neighbours_agree {pts : List (K × Option K)} (hd : Distinct pts) {a ya b yb a' ya' b' yb' x : K} (h : Neighbours pts a ya b yb) (h' : Neighbours pts a' ya' b' yb')
    (h1 : a ≤ x) (h2 : x ≤ b) (h1' : a' ≤ x) (h2' : x ≤ b') : onLine a ya b yb x = onLine a' ya' b' yb' x := by
  obtain ⟨ma, mb, hab, hn⟩ := h
  obtain ⟨ma', mb', hab', hn'⟩ := h'
  have uniq : ∀ {c u v : K}, (c, some u) ∈ pts → (c, some v) ∈ pts → u = v := fun hu hv => Option.some.inj (distinct_unique hd hu hv)
  rcases h1.eq_or_lt with e | l1
  · subst e
    rw [onLine_left]
    rcases h1'.eq_or_lt with e' | l1'
    · subst e'
      rw [onLine_left]
      exact uniq ma ma'
    · have hb : a = b' := by
        rcases h2'.eq_or_lt with e' | l2'
        · exact e'
        · exact absurd ⟨l1', l2'⟩ (hn' _ _ ma)
      subst hb
      rw [onLine_right _ _ _ _ hab']
      exact uniq ma mb'
  · rcases h2.eq_or_lt with e | l2
    · subst e
      rw [onLine_right _ _ _ _ hab]
      rcases h1'.eq_or_lt with e' | l1'
      · subst e'
        rw [onLine_left]
        exact uniq mb ma'
      · have hb : x = b' := by
          rcases h2'.eq_or_lt with e' | l2'
          · exact e'
          · exact absurd ⟨l1', l2'⟩ (hn' _ _ mb)
        subst hb
        rw [onLine_right _ _ _ _ hab']
        exact uniq mb mb'
    · have ha : a = a' := by
        rcases lt_trichotomy a a' with g | g | g
        · exact absurd ⟨g, lt_of_le_of_lt h1' l2⟩ (hn _ _ ma')
        · exact g
        · exact absurd ⟨g, lt_of_lt_of_le l1 h2'⟩ (hn' _ _ ma)
      have hb : b = b' := by
        rcases lt_trichotomy b b' with g | g | g
        · exact absurd ⟨lt_of_le_of_lt h1' l2, g⟩ (hn' _ _ mb)
        · exact g
        · exact absurd ⟨lt_of_lt_of_le l1 h2', g⟩ (hn _ _ mb')
      subst ha hb
      rw [uniq ma ma', uniq mb mb']

/-- The points given, sorted. -/
theorem sorted_points {V : Type} {srt : List (K × V) → List (K × V)} (hsrt : ValidSort srt) (xs : List K) (ys : List V) (hl : xs.length = ys.length) (hd : Distinct (xs.zip ys)) :
    (if xs.Pairwise (· ≤ ·) then xs.zip ys else srt (xs.zip ys)).Perm (xs.zip ys) ∧ (if xs.Pairwise (· ≤ ·) then xs.zip ys else srt (xs.zip ys)).Pairwise (fun a b => a.1 < b.1) := by
  split
  · rename_i h
    refine ⟨List.Perm.refl _, ?_⟩
    have : (xs.zip ys).Pairwise (fun a b => a.1 ≤ b.1) := by
      rw [← List.pairwise_map (f := Prod.fst) (R := (· ≤ ·)), List.map_fst_zip (by omega)]
      exact h
    exact (this.and hd).imp (fun ⟨h1, h2⟩ => lt_of_le_of_ne h1 h2)
  · obtain ⟨h1, h2⟩ := hsrt (xs.zip ys)
    refine ⟨h1, ?_⟩
    have hd' : (srt (xs.zip ys)).Pairwise (fun a b => a.1 ≠ b.1) := h1.symm.pairwise hd (fun h => h.symm)
    exact (h2.and hd').imp (fun ⟨h1, h2⟩ => lt_of_le_of_ne h1 h2)

/-- **C57**.  For every list of at least two points with different abscissae, the first and last of which are not NaN, `Interp1d` returns a function that
passes through every known point; is the line between two neighbouring known points wherever it is evaluated between them; inside the range, always has such neighbours around it, so it lies between their
ordinates; and outside the range continues the first or the last line. -/
theorem C57_interpolates {srt : List (K × Option K) → List (K × Option K)} (hsrt : ValidSort srt) (xs : List K) (ys : List (Option K)) (hl : xs.length = ys.length) (hn : 2 ≤ xs.length)
    (hd : Distinct (xs.zip ys)) (he : EndsKnown (xs.zip ys)) :
    ∃ f, interp1d srt xs ys = some f ∧
      (∀ a ya, (a, some ya) ∈ xs.zip ys → f a = some ya) ∧
      (∀ a ya b yb x, Neighbours (xs.zip ys) a ya b yb → a ≤ x → x ≤ b → f x = some (onLine a ya b yb x)) ∧
      (∀ x lo hi, lo ∈ xs → hi ∈ xs → lo ≤ x → x ≤ hi → ∃ a ya b yb v, Neighbours (xs.zip ys) a ya b yb ∧ a ≤ x ∧ x ≤ b ∧ f x = some v ∧ min ya yb ≤ v ∧ v ≤ max ya yb) ∧
      (∀ a ya b yb x, Neighbours (xs.zip ys) a ya b yb → (∀ c ∈ xs, a ≤ c) → x ≤ a → f x = some (onLine a ya b yb x)) ∧
      (∀ a ya b yb x, Neighbours (xs.zip ys) a ya b yb → (∀ c ∈ xs, c ≤ b) → b ≤ x → f x = some (onLine a ya b yb x)) := by
  obtain ⟨hperm, hsort⟩ := sorted_points hsrt xs ys hl hd
  refine ⟨evalAt (if xs.Pairwise (· ≤ ·) then xs.zip ys else srt (xs.zip ys)), ?_, ?_⟩
  · unfold interp1d
    rw [if_neg (by omega)]
  generalize (if xs.Pairwise (· ≤ ·) then xs.zip ys else srt (xs.zip ys)) = pts at *
  have hmem : ∀ p, p ∈ pts ↔ p ∈ xs.zip ys := fun p => hperm.mem_iff
  have hnb : ∀ a ya b yb, Neighbours pts a ya b yb ↔ Neighbours (xs.zip ys) a ya b yb := by
    intro a ya b yb
    unfold Neighbours
    simp only [hmem]
  have hlen : 2 ≤ pts.length := by rw [hperm.length_eq, List.length_zip]; omega
  have hek : EndsKnown pts := by
    unfold EndsKnown at *
    simp only [hmem]
    exact he
  have hx : ∀ c ∈ xs, ∃ y, (c, y) ∈ pts := by
    intro c hc
    obtain ⟨i, hi, rfl⟩ := List.getElem_of_mem hc
    refine ⟨ys[i]'(by omega), ?_⟩
    rw [hmem, ← List.getElem_zip (h := by rw [List.length_zip]; omega)]
    exact List.getElem_mem _
  have hx' : ∀ p ∈ pts, p.1 ∈ xs := by
    intro p hp
    exact (List.of_mem_zip ((hmem p).mp hp)).1
  have uniq : ∀ {c u v : K}, (c, some u) ∈ pts → (c, some v) ∈ pts → u = v := fun hu hv => Option.some.inj (distinct_unique (hsort.imp ne_of_lt) hu hv)
  refine ⟨?_, ?_, ?_, ?_, ?_⟩
  · intro a ya ha
    rw [← hmem] at ha
    obtain ⟨a', ya', b', yb', h', hev, h3, h4⟩ := evalAt_spec pts hsort hlen hek a
    rw [hev]
    congr 1
    have ha' : a' ≤ a := h3.elim id (fun h => h _ ha)
    have hb' : a ≤ b' := h4.elim id (fun h => h _ ha)
    rcases ha'.eq_or_lt with e | l
    · subst e
      rw [onLine_left]
      exact uniq h'.1 ha
    · rcases hb'.eq_or_lt with e | l2
      · subst e
        rw [onLine_right _ _ _ _ h'.2.2.1]
        exact uniq h'.2.1 ha
      · exact absurd ⟨l, l2⟩ (h'.2.2.2 _ _ ha)
  · intro a ya b yb x h h1 h2
    rw [← hnb] at h
    obtain ⟨a', ya', b', yb', h', hev, h3, h4⟩ := evalAt_spec pts hsort hlen hek x
    rw [hev]
    congr 1
    have ha' : a' ≤ x := h3.elim id (fun g => le_trans (g _ h.1) h1)
    have hb' : x ≤ b' := h4.elim id (fun g => le_trans h2 (g _ h.2.1))
    exact neighbours_agree (hsort.imp ne_of_lt) h' h ha' hb' h1 h2
  · intro x lo hi hlo hhi h1 h2
    obtain ⟨yl, hyl⟩ := hx lo hlo
    obtain ⟨yh, hyh⟩ := hx hi hhi
    obtain ⟨a, ya, b, yb, h, hev, h3, h4⟩ := evalAt_spec pts hsort hlen hek x
    have ha : a ≤ x := h3.elim id (fun g => le_trans (g _ hyl) h1)
    have hb : x ≤ b := h4.elim id (fun g => le_trans h2 (g _ hyh))
    refine ⟨a, ya, b, yb, _, (hnb _ _ _ _).mp h, ha, hb, hev, ?_⟩
    have hpos : 0 < b - a := sub_pos.mpr h.2.2.1
    have t0 : 0 ≤ (x - a) / (b - a) := div_nonneg (sub_nonneg.mpr ha) hpos.le
    have t1 : (x - a) / (b - a) ≤ 1 := (div_le_one hpos).mpr (by linarith)
    have e : onLine a ya b yb x = ya * (1 - (x - a) / (b - a)) + yb * ((x - a) / (b - a)) := by
      unfold onLine
      ring
    rw [e]
    have m1 := min_le_left ya yb
    have m2 := min_le_right ya yb
    have M1 := le_max_left ya yb
    have M2 := le_max_right ya yb
    constructor
    · nlinarith [mul_le_mul_of_nonneg_right m1 (sub_nonneg.mpr t1), mul_le_mul_of_nonneg_right m2 t0]
    · nlinarith [mul_le_mul_of_nonneg_right M1 (sub_nonneg.mpr t1), mul_le_mul_of_nonneg_right M2 t0]
  · intro a ya b yb x h hmin hxa
    rw [← hnb] at h
    obtain ⟨a', ya', b', yb', h', hev, h3, h4⟩ := evalAt_spec pts hsort hlen hek x
    rw [hev]
    congr 1
    have ha : a' = a := le_antisymm (h3.elim (fun g => le_trans g hxa) (fun g => g _ h.1)) (hmin _ (hx' _ h'.1))
    subst ha
    have hb : b' = b := by
      rcases lt_trichotomy b' b with g | g | g
      · exact absurd ⟨h'.2.2.1, g⟩ (h.2.2.2 _ _ h'.2.1)
      · exact g
      · exact absurd ⟨h.2.2.1, g⟩ (h'.2.2.2 _ _ h.2.1)
    subst hb
    rw [uniq h'.1 h.1, uniq h'.2.1 h.2.1]
  · intro a ya b yb x h hmax hxb
    rw [← hnb] at h
    obtain ⟨a', ya', b', yb', h', hev, h3, h4⟩ := evalAt_spec pts hsort hlen hek x
    rw [hev]
    congr 1
    have hb : b' = b := le_antisymm (hmax _ (hx' _ h'.2.1)) (h4.elim (fun g => le_trans hxb g) (fun g => g _ h.2.1))
    subst hb
    have ha : a' = a := by
      rcases lt_trichotomy a' a with g | g | g
      · exact absurd ⟨g, h.2.2.1⟩ (h'.2.2.2 _ _ h.1)
      · exact g
      · exact absurd ⟨g, h'.2.2.1⟩ (h.2.2.2 _ _ h'.1)
    subst ha
    rw [uniq h'.1 h.1, uniq h'.2.1 h.2.1]

/-- Four points, not sorted, the third abscissa with a NaN ordinate: between `1` and `4` the function is the line through `(1, 2)` and `(4, 8)`. -/
example : Distinct ([4, 0, 1, 3].zip [some 8, some 5, some 2, none] : List (ℚ × Option ℚ)) ∧ EndsKnown ([4, 0, 1, 3].zip [some 8, some 5, some 2, none] : List (ℚ × Option ℚ)) ∧
    Neighbours ([4, 0, 1, 3].zip [some 8, some 5, some 2, none] : List (ℚ × Option ℚ)) 1 2 4 8 ∧
    (interp1d (fun l => l.insertionSort (fun a b => a.1 ≤ b.1)) [4, 0, 1, 3] [some 8, some 5, some 2, none]).map (fun f => f (3 : ℚ)) = some (some 6) := by
  refine ⟨by unfold Distinct; decide +kernel, ?_, ?_, by decide +kernel⟩
  · intro p hp
    simp at hp
    rcases hp with rfl | rfl | rfl | rfl
    · exact ⟨⟨0, 5, by simp, by norm_num⟩, 4, 8, by simp, by norm_num⟩
    · exact ⟨⟨0, 5, by simp, by norm_num⟩, 4, 8, by simp, by norm_num⟩
    · exact ⟨⟨0, 5, by simp, by norm_num⟩, 4, 8, by simp, by norm_num⟩
    · exact ⟨⟨0, 5, by simp, by norm_num⟩, 4, 8, by simp, by norm_num⟩
  · refine ⟨by simp, by simp, by norm_num, fun c yc hc => ?_⟩
    simp at hc
    rcases hc with ⟨rfl, _⟩ | ⟨rfl, _⟩ | ⟨rfl, _⟩ <;> norm_num

/-- **C57**: the order of the points is irrelevant. -/
theorem C57_order {srt srt' : List (K × Option K) → List (K × Option K)} (hsrt : ValidSort srt) (hsrt' : ValidSort srt') (xs xs' : List K) (ys ys' : List (Option K)) (hl : xs.length = ys.length)
    (hl' : xs'.length = ys'.length) (hd : Distinct (xs.zip ys)) (hp : (xs.zip ys).Perm (xs'.zip ys')) : interp1d srt xs ys = interp1d srt' xs' ys' := by
  have hd' : Distinct (xs'.zip ys') := hp.pairwise hd (fun h => h.symm)
  obtain ⟨p1, s1⟩ := sorted_points hsrt xs ys hl hd
  obtain ⟨p2, s2⟩ := sorted_points hsrt' xs' ys' hl' hd'
  have hlen : xs.length = xs'.length := by
    have := hp.length_eq
    rw [List.length_zip, List.length_zip] at this
    omega
  unfold interp1d
  have hc : (xs.length < 2 ∨ xs.length ≠ ys.length) ↔ (xs'.length < 2 ∨ xs'.length ≠ ys'.length) := by omega
  by_cases h : xs.length < 2 ∨ xs.length ≠ ys.length
  · rw [if_pos h, if_pos (hc.mp h)]
  · rw [if_neg h, if_neg (fun g => h (hc.mpr g))]
    congr 2
    exact List.Perm.eq_of_pairwise (fun a b _ _ h1 h2 => absurd h1 (not_lt.mpr h2.le)) s1 s2 (p1.trans (hp.trans p2.symm))

example : Distinct ([2, 1].zip [some 3, some 4] : List (ℚ × Option ℚ)) ∧ ([2, 1].zip [some 3, some 4] : List (ℚ × Option ℚ)).Perm ([1, 2].zip [some 4, some 3]) := by unfold Distinct; decide +kernel

/-- Outside these hypotheses: if the ordinate of the smallest abscissa is NaN, `Interp1d` does not even pass through the next point. -/
theorem C57_nan_end_violated (srt : List (K × Option K) → List (K × Option K)) (y z : K) : ∃ f, interp1d srt [0, 1, 2] [none, some y, some z] = some f ∧ f 1 = none := by
  have hs : [(0 : K), 1, 2].Pairwise (· ≤ ·) := by
    refine List.Pairwise.cons ?_ (List.Pairwise.cons ?_ (List.pairwise_singleton _ _))
    · intro a ha
      simp at ha
      rcases ha with rfl | rfl <;> norm_num
    · intro a ha
      simp at ha
      subst ha
      norm_num
  have hstrict : [(0 : K), 1, 2].Pairwise (· < ·) := by
    refine List.Pairwise.cons ?_ (List.Pairwise.cons ?_ (List.pairwise_singleton _ _))
    · intro a ha
      simp at ha
      rcases ha with rfl | rfl <;> norm_num
    · intro a ha
      simp at ha
      subst ha
      norm_num
  refine ⟨_, by unfold interp1d; rw [if_neg (by simp), if_pos hs], ?_⟩
  have hsearch : searchFloat64s [(0 : K), 1, 2] 1 = 1 := searchFloat64s_getElem [(0 : K), 1, 2] hstrict 1 (by simp)
  unfold evalAt
  simp [hsearch, skipDown, pt, line]

end Sk.Interp
