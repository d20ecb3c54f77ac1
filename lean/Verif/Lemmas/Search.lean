import Verif.Model.Search
import Mathlib.Data.List.Basic
import Mathlib.Data.List.Nodup
import Mathlib.Data.List.Perm.Basic
import Mathlib.Data.List.Flatten
import Mathlib.Algebra.BigOperators.Group.List.Basic

set_option autoImplicit false

namespace Sk.Search

variable {Key V : Type} [DecidableEq Key]

/-- one extension step, without the special case of an empty accumulator -/
def ext (prev : List (Params Key V)) (e : Key × List V) : List (Params Key V) :=
  prev.flatMap (fun m => e.2.map (fun v => Function.update m e.1 (some v)))

def emptyP : Params Key V := fun _ => none

theorem makeArr_ne (name : Key) (vs : List V) (prev : List (Params Key V)) (h : prev ≠ []) :
    makeArr name vs prev = ext prev (name, vs) := by
  unfold makeArr ext
  have : prev.isEmpty = false := by simpa using h
  simp [this]

theorem makeArr_nil (name : Key) (vs : List V) : makeArr name vs [] = ext [emptyP] (name, vs) := by
  simp only [makeArr, ext, List.isEmpty_nil, if_true, List.flatMap_cons, List.flatMap_nil, List.append_nil]
  rfl

theorem ext_ne (prev : List (Params Key V)) (e : Key × List V) (h : prev ≠ []) (he : e.2 ≠ []) : ext prev e ≠ [] := by
  unfold ext
  cases prev with
  | nil => exact absurd rfl h
  | cons a l =>
    obtain ⟨n, vs⟩ := e
    cases vs with
    | nil => exact absurd rfl he
    | cons v vs => simp

theorem foldl_makeArr_eq : ∀ (es : List (Key × List V)) (prev : List (Params Key V)), prev ≠ [] →
    (∀ e ∈ es, e.2 ≠ []) → es.foldl (fun out e => makeArr e.1 e.2 out) prev = es.foldl ext prev
  | [], _, _, _ => rfl
  | e :: es, prev, h, he => by
      simp only [List.foldl_cons]
      rw [makeArr_ne _ _ _ h]
      exact foldl_makeArr_eq es _ (ext_ne _ _ h (he e List.mem_cons_self))
        (fun e' h' => he e' (List.mem_cons_of_mem _ h'))

theorem grid_eq (es : List (Key × List V)) (hne : es ≠ []) (he : ∀ e ∈ es, e.2 ≠ []) :
    parameterGrid es = es.foldl ext [emptyP] := by
  cases es with
  | nil => exact absurd rfl hne
  | cons e es =>
    unfold parameterGrid
    simp only [List.foldl_cons]
    rw [makeArr_nil]
    exact foldl_makeArr_eq es _ (ext_ne _ _ (by simp) (he e List.mem_cons_self))
        (fun e' h' => he e' (List.mem_cons_of_mem _ h'))

theorem mem_foldl_ext : ∀ (es : List (Key × List V)) (prev : List (Params Key V)) (f : Params Key V),
    (es.map Prod.fst).Nodup →
    (f ∈ es.foldl ext prev ↔ ∃ m ∈ prev, (∀ k, k ∉ es.map Prod.fst → f k = m k) ∧
      ∀ e ∈ es, ∃ v ∈ e.2, f e.1 = some v)
  | [], prev, f, _ => by
      simp only [List.foldl_nil, List.map_nil, List.not_mem_nil, not_false_eq_true, false_imp_iff,
        forall_const, and_true, implies_true]
      constructor
      · intro h; exact ⟨f, h, fun _ => rfl⟩
      · rintro ⟨m, hm, h⟩
        have : f = m := funext h
        rwa [this]
  | e :: es, prev, f, hnd => by
      simp only [List.map_cons, List.nodup_cons] at hnd
      rw [List.foldl_cons, mem_foldl_ext es _ f hnd.2]
      constructor
      · rintro ⟨m', hm', h1, h2⟩
        unfold ext at hm'
        rw [List.mem_flatMap] at hm'
        obtain ⟨m, hm, hm'⟩ := hm'
        rw [List.mem_map] at hm'
        obtain ⟨v, hv, rfl⟩ := hm'
        refine ⟨m, hm, ?_, ?_⟩
        · intro k hk
          simp only [List.map_cons, List.mem_cons, not_or] at hk
          rw [h1 k hk.2, Function.update_of_ne hk.1]
        · intro e' he'
          rcases List.mem_cons.1 he' with rfl | he'
          · exact ⟨v, hv, by rw [h1 _ hnd.1]; simp⟩
          · exact h2 e' he'
      · rintro ⟨m, hm, h1, h2⟩
        obtain ⟨v, hv, hfv⟩ := h2 e List.mem_cons_self
        refine ⟨Function.update m e.1 (some v), ?_, ?_, fun e' he' => h2 e' (List.mem_cons_of_mem _ he')⟩
        · unfold ext
          rw [List.mem_flatMap]
          exact ⟨m, hm, List.mem_map.2 ⟨v, hv, rfl⟩⟩
        · intro k hk
          by_cases hke : k = e.1
          · subst hke; simp [hfv]
          · rw [Function.update_of_ne hke]
            exact h1 k (by simp only [List.map_cons, List.mem_cons, not_or]; exact ⟨hke, hk⟩)

theorem length_foldl_ext : ∀ (es : List (Key × List V)) (prev : List (Params Key V)),
    (es.foldl ext prev).length = prev.length * (es.map (fun e => e.2.length)).prod
  | [], prev => by simp
  | e :: es, prev => by
      rw [List.foldl_cons, length_foldl_ext es]
      have : (ext prev e).length = prev.length * e.2.length := by
        unfold ext
        simp [List.length_flatMap, List.map_const']
      rw [this]
      simp [Nat.mul_assoc]

/-- `m` does not bind any key of `es` -/
theorem nodup_foldl_ext : ∀ (es : List (Key × List V)) (prev : List (Params Key V)),
    (es.map Prod.fst).Nodup → (∀ e ∈ es, e.2.Nodup) →
    (∀ m ∈ prev, ∀ k ∈ es.map Prod.fst, m k = none) → prev.Nodup → (es.foldl ext prev).Nodup
  | [], prev, _, _, _, h => h
  | e :: es, prev, hnd, hv, hp, h => by
      simp only [List.map_cons, List.nodup_cons] at hnd
      rw [List.foldl_cons]
      apply nodup_foldl_ext es _ hnd.2 (fun e' he' => hv e' (List.mem_cons_of_mem _ he'))
      · intro m' hm' k hk
        unfold ext at hm'
        rw [List.mem_flatMap] at hm'
        obtain ⟨m, hm, hm'⟩ := hm'
        rw [List.mem_map] at hm'
        obtain ⟨v, _, rfl⟩ := hm'
        have hke : k ≠ e.1 := fun h => hnd.1 (h ▸ hk)
        rw [Function.update_of_ne hke]
        exact hp m hm k (by simp only [List.map_cons, List.mem_cons]; exact Or.inr hk)
      · unfold ext
        rw [List.nodup_flatMap]
        constructor
        · intro m _
          refine (List.nodup_map_iff_inj_on (hv e List.mem_cons_self)).2 ?_
          intro v _ w _ hvw
          have := congrFun hvw e.1
          simpa using this
        · refine (List.Pairwise.and_mem.1 h).imp ?_
          rintro m m' ⟨hm, hm', hne⟩ f hf hf'
          rw [List.mem_map] at hf hf'
          obtain ⟨v, _, rfl⟩ := hf
          obtain ⟨w, _, hw⟩ := hf'
          apply hne
          funext k
          by_cases hk : k = e.1
          · subst hk
            rw [hp m hm e.1 (by simp), hp m' hm' e.1 (by simp)]
          · have := congrFun hw k
            rw [Function.update_of_ne hk, Function.update_of_ne hk] at this
            exact this.symm

theorem ext_perm {p p' : List (Params Key V)} (h : p.Perm p') (e : Key × List V) : (ext p e).Perm (ext p' e) :=
  h.flatMap_right _

theorem ext_comm (p : List (Params Key V)) (e e' : Key × List V) (hne : e.1 ≠ e'.1) :
    (ext (ext p e) e').Perm (ext (ext p e') e) := by
  unfold ext
  rw [List.flatMap_assoc, List.flatMap_assoc]
  apply List.Perm.flatMap_left
  intro m _
  simp only [List.flatMap_map]
  have h1 : ∀ v w, Function.update (Function.update m e.1 (some v)) e'.1 (some w)
      = Function.update (Function.update m e'.1 (some w)) e.1 (some v) :=
    fun v w => Function.update_comm hne _ _ _
  simp only [h1]
  generalize e.2 = A
  generalize e'.2 = B
  induction A with
  | nil => simp
  | cons a A ih =>
    simp only [List.flatMap_cons, List.map_cons]
    refine (List.Perm.append_left _ ih).trans ?_
    have : ∀ B : List V, (B.map (fun w => Function.update (Function.update m e'.1 (some w)) e.1 (some a)) ++
        B.flatMap (fun w => A.map (fun v => Function.update (Function.update m e'.1 (some w)) e.1 (some v)))).Perm
        (B.flatMap (fun w => Function.update (Function.update m e'.1 (some w)) e.1 (some a) ::
          A.map (fun v => Function.update (Function.update m e'.1 (some w)) e.1 (some v)))) := by
      intro B
      induction B with
      | nil => simp
      | cons b B ihB =>
        simp only [List.map_cons, List.flatMap_cons, List.cons_append]
        refine List.Perm.cons _ ?_
        refine List.Perm.trans ?_ (List.Perm.append_left _ ihB)
        rw [← List.append_assoc, ← List.append_assoc]
        exact List.Perm.append_right _ List.perm_append_comm
    exact this B

theorem foldl_ext_perm_acc : ∀ (es : List (Key × List V)) {p p' : List (Params Key V)}, p.Perm p' →
    (es.foldl ext p).Perm (es.foldl ext p')
  | [], _, _, h => h
  | e :: es, _, _, h => by
      rw [List.foldl_cons, List.foldl_cons]
      exact foldl_ext_perm_acc es (ext_perm h e)

theorem foldl_ext_perm {es es' : List (Key × List V)} (h : es.Perm es') : (es.map Prod.fst).Nodup →
    ∀ p : List (Params Key V), (es.foldl ext p).Perm (es'.foldl ext p) := by
  induction h with
  | nil => intro _ p; exact List.Perm.refl _
  | cons x _ ih =>
    intro hnd p
    simp only [List.map_cons, List.nodup_cons] at hnd
    exact ih hnd.2 _
  | swap x y l =>
    intro hnd p
    simp only [List.map_cons, List.nodup_cons, List.mem_cons, not_or] at hnd
    simp only [List.foldl_cons]
    exact foldl_ext_perm_acc l (ext_comm p y x hnd.1.1)
  | trans h1 _ ih1 ih2 =>
    intro hnd p
    exact (ih1 hnd p).trans (ih2 ((h1.map Prod.fst).nodup_iff.1 hnd) p)

/-! ### scans -/

variable {K : Type} [LinearOrder K]

/-- `a` is at least as good as `b` -/
def good (low : Bool) (a b : K) : Prop := if low then a ≤ b else b ≤ a

instance (low : Bool) (a b : K) : Decidable (good low a b) := by unfold good; infer_instance

theorem good_refl (low : Bool) (a : K) : good low a a := by cases low <;> simp [good]
theorem good_trans {low : Bool} {a b c : K} (h1 : good low a b) (h2 : good low b c) : good low a c := by
  cases low <;> simp [good] at * <;> exact le_trans ‹_› ‹_›

theorem isBetter_some (low : Bool) (a b : K) : isBetter low (some a) (some b) = true ↔ ¬ good low b a := by
  cases low <;> simp [isBetter, fltLt, good]

/-- first index of the best value of `l` -/
def FirstBest (low : Bool) (l : List K) (b : ℕ) : Prop :=
  ∃ h : b < l.length, (∀ (i : ℕ) (hi : i < l.length), good low l[b] l[i]) ∧
    ∀ (i : ℕ) (hi : i < b), ¬ good low (l[i]'(by omega)) l[b]

theorem firstBest_snoc {low : Bool} {l : List K} {b : ℕ} (h : FirstBest low l b) (s : K) :
    FirstBest low (l ++ [s]) (if good low (l[b]'h.1) s then b else l.length) := by
  obtain ⟨hb, h1, h2⟩ := h
  by_cases hc : good low l[b] s
  · rw [if_pos hc]
    refine ⟨by simp; omega, ?_, ?_⟩
    · intro i hi
      rw [List.getElem_append_left hb]
      by_cases hil : i < l.length
      · rw [List.getElem_append_left hil]; exact h1 i hil
      · rw [List.getElem_append_right (by omega)]; simpa using hc
    · intro i hi
      rw [List.getElem_append_left hb, List.getElem_append_left (by omega)]
      exact h2 i hi
  · rw [if_neg hc]
    have hg : good low s l[b] := by
      cases low <;> simp only [good, not_le, if_true, if_false, Bool.false_eq_true] at hc ⊢ <;> exact hc.le
    refine ⟨by simp, ?_, ?_⟩
    · intro i hi
      rw [List.getElem_append_right (le_refl _)]
      by_cases hil : i < l.length
      · rw [List.getElem_append_left hil]
        simpa using good_trans hg (h1 i hil)
      · rw [List.getElem_append_right (by omega)]; simpa using good_refl low s
    · intro i hi hgi
      rw [List.getElem_append_right (le_refl _), List.getElem_append_left hi] at hgi
      simp only [Nat.sub_self, List.getElem_cons_zero] at hgi
      exact hc (good_trans (h1 i hi) hgi)

theorem bestScan_spec (low : Bool) : ∀ (rest pre : List K) (b : ℕ) (hb : FirstBest low pre b),
    ∃ b' r, bestScan low (rest.map some) pre.length (some (b, some (pre[b]'hb.1))) = some (b', r) ∧
      FirstBest low (pre ++ rest) b'
  | [], pre, b, hb => ⟨b, _, rfl, by simpa using hb⟩
  | s :: rest, pre, b, hb => by
      have hs := firstBest_snoc hb s
      simp only [List.map_cons, bestScan]
      by_cases hc : good low (pre[b]'hb.1) s
      · have : ¬ isBetter low (some s) (some (pre[b]'hb.1)) = true := by rw [isBetter_some]; simpa using hc
        rw [if_neg this]
        rw [if_pos hc] at hs
        have ih := bestScan_spec low rest (pre ++ [s]) b hs
        simpa [List.getElem_append_left hb.1] using ih
      · have : isBetter low (some s) (some (pre[b]'hb.1)) = true := by rw [isBetter_some]; exact hc
        rw [if_pos this]
        rw [if_neg hc] at hs
        have ih := bestScan_spec low rest (pre ++ [s]) pre.length hs
        simpa using ih

theorem bestIdx_spec (low : Bool) (l : List K) (h : l ≠ []) :
    ∃ b, bestIdx low (l.map some) = some b ∧ FirstBest low l b := by
  cases l with
  | nil => exact absurd rfl h
  | cons a l =>
    have h0 : FirstBest low [a] 0 := ⟨by simp, by intro i hi; simp at hi; subst hi; exact good_refl _ _, by simp⟩
    obtain ⟨b, r, h1, h2⟩ := bestScan_spec low l [a] 0 h0
    refine ⟨b, ?_, by simpa using h2⟩
    unfold bestIdx
    simp only [List.map_cons, bestScan]
    simp only [List.length_singleton, List.getElem_cons_zero] at h1
    rw [h1]; rfl

/-- `fitScan` performs the same scan as `bestScan` and carries params and estimator along. -/
theorem fitScan_spec {P E : Type} (low : Bool) : ∀ (rest : List (P × Score K × E)) (i : ℕ)
    (all : List (P × Score K × E)) (hall : all.drop i = rest)
    (best : Option (Best P E K)) (hbest : ∀ b, best = some b → all[b.index]? = some (b.params, b.score, b.estimator)),
    ((fitScan low rest i best).map (fun b => (b.index, b.score)) =
      bestScan low (rest.map (fun x => x.2.1)) i (best.map (fun b => (b.index, b.score)))) ∧
    ∀ b, fitScan low rest i best = some b → all[b.index]? = some (b.params, b.score, b.estimator)
  | [], i, all, hall, best, hbest => by
      simp only [fitScan, List.map_nil, bestScan]
      exact ⟨trivial, hbest⟩
  | (p, s, e) :: rest, i, all, hall, best, hbest => by
      have hi : all[i]? = some (p, s, e) := by
        have := congrArg List.head? hall
        simpa using this
      have hall' : all.drop (i + 1) = rest := by
        have := congrArg List.tail hall
        simpa using this
      have hnew : ∀ b, some (⟨i, e, p, s⟩ : Best P E K) = some b → all[b.index]? = some (b.params, b.score, b.estimator) := by
        rintro b h
        obtain rfl := Option.some.inj h
        exact hi
      cases best with
      | none =>
        simp only [fitScan, List.map_cons, bestScan, Option.map_none]
        exact fitScan_spec low rest (i + 1) all hall' _ hnew
      | some b =>
        simp only [fitScan, List.map_cons, bestScan, Option.map_some]
        by_cases hb : isBetter low s b.score = true
        · rw [if_pos hb, if_pos hb]
          exact fitScan_spec low rest (i + 1) all hall' _ hnew
        · rw [if_neg hb, if_neg hb]
          exact fitScan_spec low rest (i + 1) all hall' _ hbest

end Sk.Search
