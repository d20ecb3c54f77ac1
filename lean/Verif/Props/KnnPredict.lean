import Verif.Model.KnnPredict
import Verif.Props.Neighbors
import Verif.Spec.Weights

/-! # C44, C78, C79, C80: predictions from neighbours -/
set_option autoImplicit false

namespace Sk.Knn

open Sk.Neigh

variable {K : Type} [Field K] [LinearOrder K] [IsStrictOrderedRing K]

/-- Total weight of class `c` among (class, weight) pairs. -/
def classWeight (ns : List (K × K)) (c : K) : K := (ns.map (fun e => if e.1 = c then e.2 else 0)).sum

/-- A map of total weights: one pair per class met. -/
structure Tally (ns m : List (K × K)) : Prop where
  nodup : (m.map Prod.fst).Nodup
  keys : ∀ c, c ∈ m.map Prod.fst ↔ c ∈ ns.map Prod.fst
  total : ∀ e ∈ m, e.2 = classWeight ns e.1

theorem addVote_spec (m : List (K × K)) (v : K × K) (h : (m.map Prod.fst).Nodup) :
    ((addVote m v).map Prod.fst).Nodup ∧ (∀ c, c ∈ (addVote m v).map Prod.fst ↔ c ∈ m.map Prod.fst ∨ c = v.1) ∧
      ∀ e ∈ addVote m v, (e ∈ m ∧ e.1 ≠ v.1) ∨ (e.1 = v.1 ∧ ∃ w, (v.1, w) ∈ m ∧ e.2 = w + v.2) ∨ (e = v ∧ v.1 ∉ m.map Prod.fst) := by
  induction m with
  | nil => exact ⟨by simp [addVote], by simp [addVote], by simp [addVote]⟩
  | cons a m ih =>
    rw [List.map_cons, List.nodup_cons] at h
    rw [addVote]
    by_cases ha : a.1 = v.1
    · rw [if_pos ha]
      refine ⟨by rw [List.map_cons, List.nodup_cons]; exact h, ?_, ?_⟩
      · intro c
        simp only [List.map_cons, List.mem_cons, ha]
        tauto
      · intro e he
        rcases List.mem_cons.1 he with rfl | he
        · right; left
          exact ⟨ha, a.2, by rw [← ha]; exact List.mem_cons_self, rfl⟩
        · left
          refine ⟨List.mem_cons_of_mem _ he, ?_⟩
          intro h2
          rw [← ha] at h2
          exact h.1 (h2 ▸ List.mem_map_of_mem he)
    · rw [if_neg ha]
      obtain ⟨h1, h2, h3⟩ := ih h.2
      refine ⟨?_, ?_, ?_⟩
      · rw [List.map_cons, List.nodup_cons]
        refine ⟨?_, h1⟩
        rw [h2]
        rintro (g | g)
        · exact h.1 g
        · exact ha g
      · intro c
        rw [List.map_cons, List.mem_cons, h2, List.map_cons, List.mem_cons]
        tauto
      · intro e he
        rcases List.mem_cons.1 he with rfl | he
        · exact Or.inl ⟨List.mem_cons_self, ha⟩
        · rcases h3 e he with g | ⟨g, w, g2, g3⟩ | ⟨g, g2⟩
          · exact Or.inl ⟨List.mem_cons_of_mem _ g.1, g.2⟩
          · exact Or.inr (Or.inl ⟨g, w, List.mem_cons_of_mem _ g2, g3⟩)
          · refine Or.inr (Or.inr ⟨g, ?_⟩)
            rw [List.map_cons, List.mem_cons]
            rintro (g3 | g3)
            · exact ha g3.symm
            · exact g2 g3

theorem classWeight_snoc (ns : List (K × K)) (v : K × K) (c : K) : classWeight (ns ++ [v]) c = classWeight ns c + if v.1 = c then v.2 else 0 := by
  simp [classWeight]

theorem classWeight_absent (ns : List (K × K)) (c : K) (h : c ∉ ns.map Prod.fst) : classWeight ns c = 0 := by
  rw [classWeight]
  apply List.sum_eq_zero
  intro x hx
  obtain ⟨e, he, rfl⟩ := List.mem_map.1 hx
  rw [if_neg]
  intro h2
  exact h (h2 ▸ List.mem_map_of_mem he)

theorem votes_tally (ns : List (K × K)) : Tally ns (votes ns) := by
  induction ns using List.reverseRecOn with
  | nil => exact ⟨by simp [votes], by simp [votes], by simp [votes]⟩
  | append_singleton ns v ih =>
    have e : votes (ns ++ [v]) = addVote (votes ns) v := by simp [votes, List.foldl_append]
    rw [e]
    obtain ⟨h1, h2, h3⟩ := addVote_spec (votes ns) v ih.nodup
    refine ⟨h1, ?_, ?_⟩
    · intro c
      rw [h2, ih.keys]
      simp
    · intro a ha
      rw [classWeight_snoc]
      rcases h3 a ha with ⟨g1, g2⟩ | ⟨g1, w, g2, g3⟩ | ⟨g1, g2⟩
      · rw [if_neg (fun h => g2 h.symm), add_zero]
        exact ih.total a g1
      · rw [if_pos g1.symm, g3, g1]
        congr 1
        exact ih.total _ g2
      · subst g1
        rw [if_pos rfl, classWeight_absent ns a.1 (fun h => g2 ((ih.keys _).2 h)), zero_add]

theorem pick_spec (m : List (K × K)) (hpos : ∀ e ∈ m, 0 < e.2) (hne : m ≠ []) : ∃ e ∈ m, pick m = e.1 ∧ ∀ e' ∈ m, e'.2 ≤ e.2 := by
  have key : ∀ (m : List (K × K)), (∀ e ∈ m, 0 < e.2) →
      (m = [] ∧ m.foldl (fun (b : K × K) e => if b.1 < e.2 then (e.2, e.1) else b) (0, 0) = (0, 0)) ∨
      ∃ e ∈ m, m.foldl (fun (b : K × K) e => if b.1 < e.2 then (e.2, e.1) else b) (0, 0) = (e.2, e.1) ∧ ∀ e' ∈ m, e'.2 ≤ e.2 := by
    intro m
    induction m using List.reverseRecOn with
    | nil => intro _; exact Or.inl ⟨rfl, rfl⟩
    | append_singleton m a ih =>
      intro hp
      right
      have hpa : 0 < a.2 := hp a (by simp)
      rw [List.foldl_append, List.foldl_cons, List.foldl_nil]
      rcases ih (fun e he => hp e (List.mem_append_left _ he)) with ⟨rfl, h⟩ | ⟨e, he, h, hmax⟩
      · refine ⟨a, by simp, ?_, ?_⟩
        · rw [h, if_pos hpa]
        · intro e' he'
          have : e' = a := by simpa using he'
          rw [this]
      · rw [h]
        simp only
        by_cases hlt : e.2 < a.2
        · rw [if_pos hlt]
          refine ⟨a, by simp, rfl, ?_⟩
          intro e' he'
          rcases List.mem_append.1 he' with g | g
          · exact (hmax e' g).trans hlt.le
          · rw [List.mem_singleton.1 g]
        · rw [if_neg hlt]
          refine ⟨e, List.mem_append_left _ he, rfl, ?_⟩
          intro e' he'
          rcases List.mem_append.1 he' with g | g
          · exact hmax e' g
          · rw [List.mem_singleton.1 g]
            exact not_lt.1 hlt
  rcases key m hpos with ⟨h, _⟩ | ⟨e, he, h, hmax⟩
  · exact absurd h hne
  · exact ⟨e, he, by rw [pick, h], hmax⟩

theorem classWeight_pos (ns : List (K × K)) (hpos : ∀ e ∈ ns, 0 < e.2) (c : K) (hc : c ∈ ns.map Prod.fst) : 0 < classWeight ns c := by
  induction ns with
  | nil => simp at hc
  | cons a ns ih =>
    rw [List.forall_mem_cons] at hpos
    rw [classWeight, List.map_cons, List.sum_cons]
    have hnn : 0 ≤ classWeight ns c := by
      apply List.sum_nonneg
      intro x hx
      obtain ⟨e, he, rfl⟩ := List.mem_map.1 hx
      split
      · exact (hpos.2 e he).le
      · exact le_refl _
    by_cases ha : a.1 = c
    · rw [if_pos ha]
      exact add_pos_of_pos_of_nonneg hpos.1 hnn
    · rw [if_neg ha, zero_add]
      rw [List.map_cons, List.mem_cons] at hc
      exact ih hpos.2 (hc.resolve_left (fun h => ha h.symm))

/-- **C44**, the vote: for every non-empty list of neighbours with positive weights and every iteration order of the map, the chosen class is one of the neighbours' classes
and no class has a larger total weight. -/
theorem C44_vote (ns : List (K × K)) (hne : ns ≠ []) (hpos : ∀ e ∈ ns, 0 < e.2) (it : List (K × K) → List (K × K)) (hit : ∀ l, (it l).Perm l) :
    pick (it (votes ns)) ∈ ns.map Prod.fst ∧ ∀ c, classWeight ns c ≤ classWeight ns (pick (it (votes ns))) := by
  have ht := votes_tally ns
  have hp := hit (votes ns)
  have hmem : ∀ e ∈ it (votes ns), e.1 ∈ ns.map Prod.fst ∧ e.2 = classWeight ns e.1 := by
    intro e he
    have := hp.mem_iff.1 he
    exact ⟨(ht.keys _).1 (List.mem_map_of_mem this), ht.total e this⟩
  have hne' : it (votes ns) ≠ [] := by
    intro h
    obtain ⟨a, r, rfl⟩ := List.exists_cons_of_ne_nil hne
    have h1 : a.1 ∈ (votes (a :: r)).map Prod.fst := (ht.keys _).2 (by simp)
    rw [h] at hp
    rw [hp.symm.eq_nil] at h1
    simp at h1
  obtain ⟨e, he, h1, h2⟩ := pick_spec (it (votes ns)) (fun e he => by
    rw [(hmem e he).2]
    exact classWeight_pos ns hpos _ (hmem e he).1) hne'
  rw [h1]
  refine ⟨(hmem e he).1, fun c => ?_⟩
  rw [← (hmem e he).2]
  by_cases hc : c ∈ ns.map Prod.fst
  · have hcm : c ∈ (it (votes ns)).map Prod.fst := by
      rw [(hp.map _).mem_iff]
      exact (ht.keys _).2 hc
    obtain ⟨e', he', rfl⟩ := List.mem_map.1 hcm
    rw [← (hmem e' he').2]
    exact h2 e' he'
  · rw [classWeight_absent ns c hc, (hmem e he).2]
    exact (classWeight_pos ns hpos _ (hmem e he).1).le

theorem weightOf_pos (eps : K) (heps : 0 < eps) (w : Weights) (d : K) (hd : 0 ≤ d) : 0 < weightOf eps w d := by
  cases w with
  | uniform => exact one_pos
  | distance =>
    rw [weightOf]
    positivity

theorem neighbourVotes_spec {V : Type} [Inhabited V] {sort : List (K × ℕ) → List (K × ℕ)} (hs : SortsAsc Prod.fst sort) (dist : V → V → K) (hd : ∀ a b, 0 ≤ dist a b)
    {eps : K} (heps : 0 < eps) (w : Weights) (X : List V) (Y : List K) (hY : Y.length = X.length) {k : ℕ} (hk : k ≤ X.length) (q : V) :
    ∃ r, KNearest (fun i => dist q (X.getD i default)) X.length k r ∧
      neighbourVotes sort dist eps w X Y k q = some (r.map (fun e => (Y.getD e.2 0, weightOf eps w e.1))) ∧
      ∀ e ∈ r.map (fun e => (Y.getD e.2 0, weightOf eps w e.1)), 0 < e.2 := by
  obtain ⟨r, e, h⟩ := (C39_kneighbors dist X q sort hs k).1 hk
  refine ⟨r, h, ?_, ?_⟩
  · rw [neighbourVotes]
    simp only [e, Option.bind_eq_bind, Option.bind_some]
    have : ∀ r' : List (K × ℕ), (∀ e ∈ r', e.2 < Y.length) →
        r'.mapM (fun e => (Y[e.2]?).map (fun c => (c, weightOf eps w e.1))) = some (r'.map (fun e => (Y.getD e.2 0, weightOf eps w e.1))) := by
      intro r'
      induction r' with
      | nil => intro _; rfl
      | cons a r' ih =>
        intro ha
        rw [List.forall_mem_cons] at ha
        have ea : Y[a.2]? = some (Y.getD a.2 0) := by simp [ha.1]
        rw [List.mapM_cons, ea, ih ha.2]
        rfl
    exact this r (fun e he => by rw [hY]; exact (h.own e he).1)
  · intro v hv
    obtain ⟨e, he, rfl⟩ := List.mem_map.1 hv
    apply weightOf_pos eps heps
    rw [(h.own e he).2]
    exact hd _ _

/-- **C44**, `Predict`: for every data set, `1 ≤ k ≤ n`, nonnegative distance, both weightings, every sort and map order, the predicted class is the class of one of `k` nearest
training samples and no class has a larger total weight among them. -/
theorem C44_predict {V : Type} [Inhabited V] {sort : List (K × ℕ) → List (K × ℕ)} (hs : SortsAsc Prod.fst sort) (it : List (K × K) → List (K × K)) (hit : ∀ l, (it l).Perm l)
    (dist : V → V → K) (hd : ∀ a b, 0 ≤ dist a b) {eps : K} (heps : 0 < eps) (w : Weights) (X : List V) (Y : List K) (hY : Y.length = X.length) {k : ℕ} (hk0 : 0 < k)
    (hk : k ≤ X.length) (q : V) :
    ∃ r c, KNearest (fun i => dist q (X.getD i default)) X.length k r ∧ classify sort it dist eps w X Y k q = some c ∧
      c ∈ r.map (fun e => Y.getD e.2 0) ∧
      ∀ c', (r.map (fun e => if Y.getD e.2 0 = c' then weightOf eps w e.1 else 0)).sum ≤ (r.map (fun e => if Y.getD e.2 0 = c then weightOf eps w e.1 else 0)).sum := by
  obtain ⟨r, h, e, hpos⟩ := neighbourVotes_spec hs dist hd heps w X Y hY hk q
  have hne : r.map (fun e => (Y.getD e.2 0, weightOf eps w e.1)) ≠ [] := by
    intro h0
    have := h.len
    rw [List.map_eq_nil_iff.1 h0] at this
    simp at this
    omega
  obtain ⟨h1, h2⟩ := C44_vote _ hne hpos it hit
  refine ⟨r, _, h, by rw [classify, e, Option.map_some], ?_, ?_⟩
  · simpa [List.map_map, Function.comp_def] using h1
  · intro c'
    have := h2 c'
    rw [classWeight, classWeight, List.map_map, List.map_map] at this
    exact this

example : classify (K := ℚ) (insAsc Prod.fst) List.reverse (fun a b => |a - b|) (1 / 1000) .uniform [0, 1, 2, 10, 11] [7, 7, 3, 3, 3] 3 (1 / 2) = some 7 := by decide +kernel

/-! ### Probabilities -/

theorem sum_single (l : List K) (hn : l.Nodup) (a w : K) : (l.map (fun c => if a = c then w else 0)).sum = if a ∈ l then w else 0 := by
  induction l with
  | nil => simp
  | cons b l ih =>
    rw [List.nodup_cons] at hn
    rw [List.map_cons, List.sum_cons, ih hn.2]
    by_cases h : a = b
    · subst h
      simp [hn.1]
    · simp [h]

theorem sum_classWeight (ns : List (K × K)) (classes : List K) (hn : classes.Nodup) (hall : ∀ e ∈ ns, e.1 ∈ classes) :
    (classes.map (classWeight ns)).sum = (ns.map Prod.snd).sum := by
  induction ns with
  | nil =>
    have : classWeight ([] : List (K × K)) = fun _ => 0 := by
      funext c
      rfl
    rw [this]
    simp
  | cons a ns ih =>
    rw [List.forall_mem_cons] at hall
    have e : classWeight (a :: ns) = fun c => (if a.1 = c then a.2 else 0) + classWeight ns c := by
      funext c
      rw [classWeight, List.map_cons, List.sum_cons]
      rfl
    rw [e, List.sum_map_add, ih hall.2, List.map_cons, List.sum_cons]
    congr 1
    rw [sum_single classes hn, if_pos hall.1]

theorem find_tally {ns m : List (K × K)} (h : Tally ns m) (c : K) :
    m.find? (fun e => e.1 == c) = if c ∈ ns.map Prod.fst then some (c, classWeight ns c) else none := by
  split
  · rename_i hc
    obtain ⟨e, he, rfl⟩ := List.mem_map.1 ((h.keys c).2 hc)
    have hs : (m.find? (fun a => a.1 == e.1)).isSome := by
      rw [List.find?_isSome]
      exact ⟨e, he, by simp⟩
    obtain ⟨b, hb⟩ := Option.isSome_iff_exists.1 hs
    have h1 : b.1 = e.1 := by simpa using List.find?_some hb
    have h2 := h.total b (List.mem_of_find?_eq_some hb)
    rw [hb, ← h1, ← h2]
  · rename_i hc
    rw [List.find?_eq_none]
    intro e he h2
    have : e.1 = c := by simpa using h2
    exact hc ((h.keys c).1 (this ▸ List.mem_map_of_mem he))

theorem probaRow_getElem (classes : List K) (ns : List (K × K)) (sumw : K) (old : List K) (i : ℕ) (hi : i < classes.length) (hl : old.length = classes.length) :
    (probaRow classes (votes ns) sumw old)[i]? =
      some (if classes[i] ∈ ns.map Prod.fst then classWeight ns classes[i] / sumw else old[i]) := by
  rw [probaRow, List.getElem?_zipWith, List.getElem?_eq_getElem hi, List.getElem?_eq_getElem (by omega)]
  simp only [find_tally (votes_tally ns)]
  by_cases hc : classes[i] ∈ ns.map Prod.fst
  · simp only [if_pos hc]
  · simp only [if_neg hc]

theorem probaRow_zero (classes : List K) (ns : List (K × K)) (sumw : K) :
    probaRow classes (votes ns) sumw (List.replicate classes.length 0) = classes.map (fun c => classWeight ns c / sumw) := by
  apply List.ext_getElem?
  intro i
  by_cases hi : i < classes.length
  · rw [probaRow_getElem classes ns sumw _ i hi (by simp), List.getElem?_map, List.getElem?_eq_getElem hi, Option.map_some]
    split
    · rfl
    · rename_i h
      rw [classWeight_absent ns _ h]
      simp
  · rw [List.getElem?_eq_none (by simp [probaRow]; omega), List.getElem?_eq_none (by simp; omega)]

/-- **C44**, `PredictProba`, for a row of zeros: each cell is the share of its class in the weight of `k` nearest samples, hence nonnegative, and the row sums to 1.

Partial: the English claim has no condition on the former contents of the caller's row; see `C44_stale_violated`. -/
theorem C44_proba_partial {V : Type} [Inhabited V] {sort : List (K × ℕ) → List (K × ℕ)} (hs : SortsAsc Prod.fst sort)
    (dist : V → V → K) (hd : ∀ a b, 0 ≤ dist a b) {eps : K} (heps : 0 < eps) (w : Weights) (X : List V) (Y : List K) (hY : Y.length = X.length) {k : ℕ} (hk0 : 0 < k)
    (hk : k ≤ X.length) (q : V) (classes : List K) (hn : classes.Nodup) (hc : ∀ y ∈ Y, y ∈ classes) :
    ∃ r p, KNearest (fun i => dist q (X.getD i default)) X.length k r ∧
      predictProba sort dist eps w X Y classes k q (List.replicate classes.length 0) = some p ∧
      p = classes.map (fun c => (r.map (fun e => if Y.getD e.2 0 = c then weightOf eps w e.1 else 0)).sum / (r.map (fun e => weightOf eps w e.1)).sum) ∧
      (∀ v ∈ p, 0 ≤ v) ∧ p.sum = 1 := by
  obtain ⟨r, h, e, hpos⟩ := neighbourVotes_spec hs dist hd heps w X Y hY hk q
  set ns := r.map (fun e => (Y.getD e.2 0, weightOf eps w e.1)) with hns
  have hne : r ≠ [] := by
    intro h0
    have := h.len
    rw [h0] at this
    simp at this
    omega
  have hcw : ∀ c, (r.map (fun e => if Y.getD e.2 0 = c then weightOf eps w e.1 else 0)).sum = classWeight ns c := by
    intro c
    rw [classWeight, hns, List.map_map]
    rfl
  have htw : (r.map (fun e => weightOf eps w e.1)).sum = (ns.map Prod.snd).sum := by
    rw [hns, List.map_map]
    rfl
  have hall : ∀ e ∈ ns, e.1 ∈ classes := by
    intro v hv
    obtain ⟨e, he, rfl⟩ := List.mem_map.1 hv
    have hlt : e.2 < Y.length := by rw [hY]; exact (h.own e he).1
    have : Y.getD e.2 0 = Y[e.2] := by simp [hlt]
    rw [this]
    exact hc _ (List.getElem_mem hlt)
  have htpos : 0 < (ns.map Prod.snd).sum := by
    obtain ⟨a, r', rfl⟩ := List.exists_cons_of_ne_nil hne
    rw [hns] at hpos ⊢
    rw [List.map_cons] at hpos ⊢
    rw [List.forall_mem_cons] at hpos
    rw [List.map_cons, List.sum_cons]
    refine add_pos_of_pos_of_nonneg hpos.1 (List.sum_nonneg ?_)
    intro x hx
    obtain ⟨b, hb, rfl⟩ := List.mem_map.1 hx
    exact (hpos.2 b hb).le
  refine ⟨r, _, h, ?_, rfl, ?_, ?_⟩
  · rw [predictProba, if_neg (by simp), e, Option.map_some, probaRow_zero]
    congr 1
    apply List.map_congr_left
    intro c _
    rw [hcw, htw]
  · intro v hv
    obtain ⟨c, _, rfl⟩ := List.mem_map.1 hv
    rw [hcw, htw]
    refine div_nonneg ?_ htpos.le
    apply List.sum_nonneg
    intro x hx
    obtain ⟨b, hb, rfl⟩ := List.mem_map.1 hx
    split
    · exact (hpos b hb).le
    · exact le_refl _
  · simp only [hcw, htw, div_eq_mul_inv]
    rw [List.sum_map_mul_right, sum_classWeight ns classes hn hall]
    exact mul_inv_cancel₀ htpos.ne'

example : predictProba (K := ℚ) (insAsc Prod.fst) (fun a b => |a - b|) (1 / 1000) .uniform [0, 1, 2, 10, 11] [7, 7, 3, 3, 5] [3, 5, 7] 3 (1 / 2) [0, 0, 0] =
    some [1 / 3, 0, 2 / 3] := by decide +kernel

/-- **C44** violated: `PredictProba` leaves in place the former contents of the caller's row for every class that none of the neighbours has. -/
theorem C44_stale_violated {V : Type} [Inhabited V] {sort : List (K × ℕ) → List (K × ℕ)} (hs : SortsAsc Prod.fst sort)
    (dist : V → V → K) (hd : ∀ a b, 0 ≤ dist a b) {eps : K} (heps : 0 < eps) (w : Weights) (X : List V) (Y : List K) (hY : Y.length = X.length) {k : ℕ}
    (hk : k ≤ X.length) (q : V) (classes old : List K) (hl : old.length = classes.length) :
    ∃ r p, KNearest (fun i => dist q (X.getD i default)) X.length k r ∧ predictProba sort dist eps w X Y classes k q old = some p ∧
      ∀ (i : ℕ) (hi : i < classes.length), classes[i] ∉ r.map (fun e => Y.getD e.2 0) → p[i]? = old[i]? := by
  obtain ⟨r, h, e, -⟩ := neighbourVotes_spec hs dist hd heps w X Y hY hk q
  refine ⟨r, _, h, by rw [predictProba, if_neg (by simpa using hl), e, Option.map_some], ?_⟩
  intro i hi hc
  rw [probaRow_getElem classes _ _ old i hi hl, if_neg, List.getElem?_eq_getElem (by omega)]
  rw [List.map_map]
  exact hc

example : predictProba (K := ℚ) (insAsc Prod.fst) (fun a b => |a - b|) (1 / 1000) .uniform [0, 1, 2, 10, 11] [7, 7, 3, 3, 5] [3, 5, 7] 3 (1 / 2) [9, -4, 9] =
    some [1 / 3, -4, 2 / 3] := by decide +kernel

/-- **C44, shape.** `PredictProba` refuses a destination exactly if it does not have one column per class. -/
theorem C44_columns {V : Type} [Inhabited V] {sort : List (K × ℕ) → List (K × ℕ)} (hs : SortsAsc Prod.fst sort) (dist : V → V → K) (hd : ∀ a b, 0 ≤ dist a b) {eps : K} (heps : 0 < eps) (w : Weights)
    (X : List V) (Y : List K) (hY : Y.length = X.length) {k : ℕ} (hk : k ≤ X.length) (q : V) (classes old : List K) :
    predictProba sort dist eps w X Y classes k q old = none ↔ old.length ≠ classes.length := by
  constructor
  · intro h hl
    obtain ⟨_, p, _, hp, _⟩ := C44_stale_violated hs dist hd heps w X Y hY hk q classes old hl
    rw [h] at hp
    cases hp
  · intro h
    rw [predictProba, if_pos h]

example : predictProba (K := ℚ) (insAsc Prod.fst) (fun a b => |a - b|) (1 / 1000) .uniform [0, 1, 2, 10, 11] [7, 7, 3, 3, 5] [3, 5, 7] 3 (1 / 2) [0, 0] = none := by decide +kernel

/-! ### Regression -/

theorem wmean_bounds (ns : List (K × K)) (hne : ns ≠ []) (hpos : ∀ e ∈ ns, 0 < e.2) (lo hi : K) (hb : ∀ e ∈ ns, lo ≤ e.1 ∧ e.1 ≤ hi) :
    lo ≤ (ns.map (fun e => e.2 * e.1)).sum / (ns.map Prod.snd).sum ∧ (ns.map (fun e => e.2 * e.1)).sum / (ns.map Prod.snd).sum ≤ hi := by
  have key : ∀ ns : List (K × K), (∀ e ∈ ns, 0 < e.2) → (∀ e ∈ ns, lo ≤ e.1 ∧ e.1 ≤ hi) →
      lo * (ns.map Prod.snd).sum ≤ (ns.map (fun e => e.2 * e.1)).sum ∧ (ns.map (fun e => e.2 * e.1)).sum ≤ hi * (ns.map Prod.snd).sum ∧
      0 ≤ (ns.map Prod.snd).sum ∧ (ns ≠ [] → 0 < (ns.map Prod.snd).sum) := by
    intro ns
    induction ns with
    | nil => intro _ _; simp
    | cons a ns ih =>
      intro h1 h2
      rw [List.forall_mem_cons] at h1 h2
      obtain ⟨i1, i2, i3, -⟩ := ih h1.2 h2.2
      simp only [List.map_cons, List.sum_cons]
      have m1 := mul_le_mul_of_nonneg_left h2.1.1 h1.1.le
      have m2 := mul_le_mul_of_nonneg_left h2.1.2 h1.1.le
      refine ⟨by linarith, by linarith, by linarith [h1.1], fun _ => by linarith [h1.1]⟩
  obtain ⟨h1, h2, -, h4⟩ := key ns hpos hb
  exact ⟨(le_div_iff₀ (h4 hne)).2 h1, (div_le_iff₀ (h4 hne)).2 h2⟩

/-- **C79**: `KNeighborsRegressor.Predict` is the weighted mean of the targets of `k` nearest samples (weights 1, or inverse distances); it lies between any bounds of these
targets. -/
theorem C79_regress {V : Type} [Inhabited V] {sort : List (K × ℕ) → List (K × ℕ)} (hs : SortsAsc Prod.fst sort)
    (dist : V → V → K) (hd : ∀ a b, 0 ≤ dist a b) {eps : K} (heps : 0 < eps) (w : Weights) (X : List V) (Y : List K) (hY : Y.length = X.length) {k : ℕ} (hk0 : 0 < k)
    (hk : k ≤ X.length) (q : V) :
    ∃ r y, KNearest (fun i => dist q (X.getD i default)) X.length k r ∧ regress sort dist eps w X Y k q = some y ∧
      (w = .uniform → y = (r.map (fun e => Y.getD e.2 0)).sum / (k : K)) ∧
      (w = .distance → y = (r.map (fun e => Y.getD e.2 0 / (eps + e.1))).sum / (r.map (fun e => 1 / (eps + e.1))).sum) ∧
      ∀ lo hi, (∀ e ∈ r, lo ≤ Y.getD e.2 0 ∧ Y.getD e.2 0 ≤ hi) → lo ≤ y ∧ y ≤ hi := by
  obtain ⟨r, h, e, hpos⟩ := neighbourVotes_spec hs dist hd heps w X Y hY hk q
  have hne : r ≠ [] := by
    intro h0
    have := h.len
    rw [h0] at this
    simp at this
    omega
  refine ⟨r, _, h, by rw [regress, e, Option.map_some], ?_, ?_, ?_⟩
  · rintro rfl
    rw [List.map_map, List.map_map]
    congr 1
    · simp [Function.comp_def, weightOf]
    · rw [← h.len]
      simp [Function.comp_def, weightOf]
  · rintro rfl
    rw [List.map_map, List.map_map]
    congr 2
    apply List.map_congr_left
    intro a _
    simp only [Function.comp, weightOf]
    rw [one_div, div_eq_mul_inv, mul_comm]
  · intro lo hi hb
    apply wmean_bounds _ (by simpa using hne) hpos
    intro v hv
    obtain ⟨a, ha, rfl⟩ := List.mem_map.1 hv
    exact hb a ha

example : regress (K := ℚ) (insAsc Prod.fst) (fun a b => |a - b|) (1 / 1000) .uniform [0, 1, 2, 10, 11] [7, 8, 3, 3, 5] 3 (1 / 2) = some 6 := by decide +kernel

/-! ### Classes and their counts -/

/-- **C80**: the classes are the distinct labels in increasing order whatever the map order, and the counts are the classes' counts in some order.

Partial: the English claim puts the counts in the order of the classes; see `C80_violated`. -/
theorem C80_partial (it : List K → List K) (hit : ∀ l, (it l).Perm l) (Y : List K) :
    (getClasses it Y).1.Pairwise (· < ·) ∧ (∀ c, c ∈ (getClasses it Y).1 ↔ c ∈ Y) ∧
      (getClasses it Y).2.Perm ((getClasses it Y).1.map (fun c => Y.count c)) := by
  have hp : (getClasses it Y).1.Perm Y.dedup := (List.perm_insertionSort _ _).trans (hit _)
  refine ⟨?_, ?_, ?_⟩
  · have h1 : (getClasses it Y).1.Pairwise (· ≤ ·) := List.pairwise_insertionSort _ _
    have h2 : (getClasses it Y).1.Nodup := hp.nodup_iff.2 (List.nodup_dedup _)
    exact (h1.and h2).imp (fun h => lt_of_le_of_ne h.1 h.2)
  · intro c
    rw [hp.mem_iff, List.mem_dedup]
  · exact ((List.perm_insertionSort (· ≤ ·) (it Y.dedup)).symm).map _

/-- **C80** violated: as soon as two classes have different counts, for some iteration order of the map the counts are not those of the classes at the same positions. -/
theorem C80_violated (Y : List K) (c d : K) (hc : c ∈ Y) (hd : d ∈ Y) (hcd : Y.count c ≠ Y.count d) :
    ∃ it : List K → List K, (∀ l, (it l).Perm l) ∧ (getClasses it Y).2 ≠ (getClasses it Y).1.map (fun c => Y.count c) := by
  by_contra hcon
  push Not at hcon
  have front : ∀ x : K, ∃ it : List K → List K, (∀ l, (it l).Perm l) ∧ ∀ l, x ∈ l → it l = x :: l.erase x := by
    intro x
    refine ⟨fun l => if x ∈ l then x :: l.erase x else l, fun l => ?_, fun l h => if_pos h⟩
    by_cases h : x ∈ l
    · simp only [if_pos h]
      exact (List.perm_cons_erase h).symm
    · simp only [if_neg h]
      exact List.Perm.refl _
  obtain ⟨i1, p1, f1⟩ := front c
  obtain ⟨i2, p2, f2⟩ := front d
  have e1 := hcon i1 p1
  have e2 := hcon i2 p2
  have hs : (getClasses i1 Y).1 = (getClasses i2 Y).1 :=
    List.Perm.eq_of_pairwise (le := (· ≤ ·)) (fun a b _ _ h1 h2 => le_antisymm h1 h2) (List.pairwise_insertionSort _ _) (List.pairwise_insertionSort _ _)
      (((List.perm_insertionSort _ _).trans (p1 _)).trans (((List.perm_insertionSort _ _).trans (p2 _)).symm))
  have e3 : (getClasses i1 Y).2 = (getClasses i2 Y).2 := by rw [e1, e2, hs]
  rw [getClasses, getClasses] at e3
  simp only at e3
  rw [f1 _ (List.mem_dedup.2 hc), f2 _ (List.mem_dedup.2 hd), List.map_cons, List.map_cons] at e3
  exact hcd (List.cons.inj e3).1

example : getClasses (K := ℚ) List.reverse [5, 7, 5, 3] = ([3, 5, 7], [1, 2, 1]) := by decide +kernel
example : getClasses (K := ℚ) id [5, 5, 7, 3] = ([3, 5, 7], [2, 1, 1]) := by decide +kernel

/-! ### Nearest centroid -/

/-- Mean of feature `j` over the samples of class `c`. -/
def classMean (X : List (List K)) (Y : List K) (c : K) (j : ℕ) : K :=
  ((X.zip Y).map (fun e => if e.2 = c then e.1.getD j 0 else 0)).sum / (Y.count c : K)

/-- The fitted centroid of a class is the list of its feature means. -/
theorem C78_centroid (X : List (List K)) (Y : List K) (hY : Y.length = X.length) (m : ℕ) (c : K) : centroid X Y m c = (List.range m).map (classMean X Y c) := by
  rw [centroid]
  apply List.map_congr_left
  intro j _
  rw [classMean]
  congr 1
  · rw [List.map_map]
    generalize X.zip Y = l
    induction l with
    | nil => rfl
    | cons a l ih =>
      by_cases ha : a.2 = c
      · simp_all
      · simp_all
  · congr 1
    rw [List.length_map, ← List.countP_eq_length_filter, List.count]
    have : Y = (X.zip Y).map Prod.snd := by rw [List.map_snd_zip]; omega
    conv_rhs => rw [this, List.countP_map]
    rfl

/-- **C78** violated: with two or more features the class predicted does not depend on the query; hence, when there are two classes, the centroid of some class is
itself assigned another class. -/
theorem C78_violated (sort : List (WithTop K × ℕ) → List (WithTop K × ℕ)) (it : List K → List K) (X : List (List K)) (Y : List K) {m : ℕ} (hm : 2 ≤ m) :
    (∀ q q' : List K, q.length = m → q'.length = m → centroidPredict sort it X Y m q = centroidPredict sort it X Y m q') ∧
    ∀ c d : K, c ≠ d → centroidPredict sort it X Y m ((List.range m).map (classMean X Y c)) ≠ some c ∨
      centroidPredict sort it X Y m ((List.range m).map (classMean X Y d)) ≠ some d := by
  have h1 : ∀ q q' : List K, q.length = m → q'.length = m → centroidPredict sort it X Y m q = centroidPredict sort it X Y m q' := by
    intro q q' hq hq'
    have e1 : centroidDist q = fun _ => (⊤ : WithTop K) := by
      funext b
      rw [centroidDist, if_neg (by omega)]
    have e2 : centroidDist q' = fun _ => (⊤ : WithTop K) := by
      funext b
      rw [centroidDist, if_neg (by omega)]
    simp only [centroidPredict, Neigh.kNeighbors, e1, e2]
  refine ⟨h1, fun c d hcd => ?_⟩
  by_contra hcon
  push Not at hcon
  have := h1 ((List.range m).map (classMean X Y c)) ((List.range m).map (classMean X Y d)) (by simp) (by simp)
  rw [hcon.1, hcon.2] at this
  exact hcd (Option.some.inj this)

/-- **C78**, one feature: when the centroid of one class is closer than 1 to the query and all others are not, that class, the nearest one, is predicted.

Partial: the English claim is for all features and queries; see `C78_violated` and `C78_one_violated`. -/
theorem C78_one_partial {sort : List (WithTop K × ℕ) → List (WithTop K × ℕ)} (hs : SortsAsc Prod.fst sort) {it : List K → List K} (hit : ∀ l, (it l).Perm l)
    (X : List (List K)) (Y : List K) (hY : Y.length = X.length) (q c : K) (hc : c ∈ Y) (hnear : |classMean X Y c 0 - q| < 1)
    (hfar : ∀ d ∈ Y, d ≠ c → 1 ≤ |classMean X Y d 0 - q|) : centroidPredict sort it X Y 1 [q] = some c := by
  have hg : ∀ d, classMean X Y d 0 = (centroid X Y 1 d).getD 0 0 := by
    intro d
    rw [C78_centroid X Y hY]
    simp
  rw [hg] at hnear
  simp only [hg] at hfar
  obtain ⟨-, hmem, -⟩ := C80_partial it hit Y
  set cl := (getClasses it Y).1 with hcl
  have hcm : c ∈ cl := (hmem c).2 hc
  have hlen : 1 ≤ (cl.map (centroid X Y 1)).length := by
    rw [List.length_map]
    exact List.length_pos_of_mem hcm
  obtain ⟨r, e, h⟩ := (C39_kneighbors centroidDist (cl.map (centroid X Y 1)) [q] sort hs 1).1 hlen
  obtain ⟨i, hi, hic⟩ := List.getElem_of_mem hcm
  have hd : ∀ j (hj : j < cl.length), centroidDist [q] ((cl.map (centroid X Y 1)).getD j default) = centroidDist [q] (centroid X Y 1 cl[j]) := by
    intro j hj
    congr 1
    simp [hj]
  have d0 : centroidDist [q] (centroid X Y 1 c) = ((0 : K) : WithTop K) := by
    simp only [centroidDist, List.length_singleton, if_true]
    rw [if_pos (by simpa using hnear)]
  match r, h.len with
  | [a], _ =>
    obtain ⟨ha1, ha2⟩ := h.own a (by simp)
    rw [List.length_map] at ha1
    have hac : cl[a.2] = c := by
      by_contra hne
      have hfa := hfar cl[a.2] ((hmem _).1 (List.getElem_mem ha1)) hne
      have hgt : ((0 : K) : WithTop K) < centroidDist [q] (centroid X Y 1 cl[a.2]) := by
        simp only [centroidDist, List.length_singleton, if_true]
        have hfa' : ¬ |(centroid X Y 1 cl[a.2]).getD 0 0 - [q].getD 0 0| < 1 := not_lt.2 (by simpa using hfa)
        rw [if_neg hfa']
        split
        · exact WithTop.coe_lt_coe.2 one_pos
        · exact WithTop.coe_lt_top _
      have hb := h.best i (by rw [List.length_map]; exact hi) (by
        simp only [List.map_cons, List.map_nil, List.mem_singleton]
        rintro rfl
        exact hne hic) a (by simp)
      rw [ha2, hd _ ha1, hd _ hi, hic, d0] at hb
      exact absurd hb (not_le.2 hgt)
    rw [centroidPredict]
    simp only [← hcl, e, Option.bind_eq_bind, Option.bind_some, List.head?_cons]
    rw [List.getElem?_eq_getElem ha1, hac]

/-- **C78** violated with one feature too: whenever two classes have different means, there is a query for which a class is predicted though the mean of another class is nearer. -/
theorem C78_one_violated (sort : List (WithTop K × ℕ) → List (WithTop K × ℕ)) {it : List K → List K} (hit : ∀ l, (it l).Perm l) (X : List (List K)) (Y : List K) (hY : Y.length = X.length) (c d : K) (hc : c ∈ Y)
    (hd : d ∈ Y) (hcd : classMean X Y c 0 ≠ classMean X Y d 0) :
    ∃ q, ∀ p ∈ Y, centroidPredict sort it X Y 1 [q] = some p → ∃ e ∈ Y, |classMean X Y e 0 - q| < |classMean X Y p 0 - q| := by
  have hg : ∀ d, (centroid X Y 1 d).getD 0 0 = classMean X Y d 0 := by
    intro d
    rw [C78_centroid X Y hY]
    simp
  obtain ⟨-, hmem, -⟩ := C80_partial it hit Y
  obtain ⟨lo, hlo, hlo'⟩ := Y.toFinset.exists_min_image (fun e => classMean X Y e 0) ⟨c, by simpa using hc⟩
  obtain ⟨hi, hhi, hhi'⟩ := Y.toFinset.exists_max_image (fun e => classMean X Y e 0) ⟨c, by simpa using hc⟩
  simp only [List.mem_toFinset] at hlo hlo' hhi hhi'
  have hlt : classMean X Y lo 0 < classMean X Y hi 0 := by
    rcases lt_or_gt_of_ne hcd with h | h
    · exact lt_of_le_of_lt (hlo' c hc) (lt_of_lt_of_le h (hhi' d hd))
    · exact lt_of_le_of_lt (hlo' d hd) (lt_of_lt_of_le h (hhi' c hc))
  -- both queries are infinitely far from every centroid
  have far : ∀ q, (∀ e ∈ Y, 1 < |classMean X Y e 0 - q|) → ∀ v ∈ ((getClasses it Y).1).map (centroid X Y 1), centroidDist [q] v = ⊤ := by
    intro q hq v hv
    obtain ⟨e, he, rfl⟩ := List.mem_map.1 hv
    have h1 := hq e ((hmem e).1 he)
    rw [← hg] at h1
    have h2 : 1 < |(centroid X Y 1 e).getD 0 0 - [q].getD 0 0| := by simpa using h1
    simp only [centroidDist, List.length_singleton, if_true]
    rw [if_neg (not_lt.2 h2.le), if_neg h2.ne']
  have same : ∀ q q', (∀ e ∈ Y, 1 < |classMean X Y e 0 - q|) → (∀ e ∈ Y, 1 < |classMean X Y e 0 - q'|) → centroidPredict sort it X Y 1 [q] = centroidPredict sort it X Y 1 [q'] := by
    intro q q' hq hq'
    have hz : (((getClasses it Y).1).map (centroid X Y 1)).zipIdx.map (fun e => (centroidDist [q] e.1, e.2)) = (((getClasses it Y).1).map (centroid X Y 1)).zipIdx.map (fun e => (centroidDist [q'] e.1, e.2)) := by
      apply List.map_congr_left
      intro e he
      have hm := List.fst_mem_of_mem_zipIdx he
      rw [far q hq _ hm, far q' hq' _ hm]
    simp only [centroidPredict, Neigh.kNeighbors, hz]
  have h1 : ∀ e ∈ Y, 1 < |classMean X Y e 0 - (classMean X Y lo 0 - 2)| := by
    intro e he
    have := hlo' e he
    rw [abs_of_nonneg (by linarith)]
    linarith
  have h2 : ∀ e ∈ Y, 1 < |classMean X Y e 0 - (classMean X Y hi 0 + 2)| := by
    intro e he
    have := hhi' e he
    rw [abs_of_nonpos (by linarith)]
    linarith
  by_contra hcon
  push Not at hcon
  obtain ⟨p, hp, hpe, hpn⟩ := hcon (classMean X Y lo 0 - 2)
  obtain ⟨p', hp', hpe', hpn'⟩ := hcon (classMean X Y hi 0 + 2)
  rw [same _ _ h1 h2, hpe'] at hpe
  obtain rfl := Option.some.inj hpe
  have a1 := hpn lo hlo
  have a2 := hpn' hi hhi
  have b1 := hlo' p' hp'
  have b2 := hhi' p' hp'
  rw [abs_of_nonneg (by linarith), abs_of_nonneg (by linarith)] at a1
  rw [abs_of_nonpos (by linarith), abs_of_nonpos (by linarith)] at a2
  linarith

/-- Samples 0 and 10 of two classes: the hypotheses hold, and the query 12 (as well as the query -2) is given class 5, whose mean is 0. -/
example : classMean (K := ℚ) [[0], [10]] [5, 7] 5 0 ≠ classMean [[0], [10]] [5, 7] 7 0 ∧ centroidPredict (K := ℚ) (insAsc Prod.fst) id [[0], [10]] [5, 7] 1 [12] = some 5 := by decide +kernel

example : centroidPredict (K := ℚ) (insAsc Prod.fst) id [[0], [1], [10], [11]] [5, 5, 7, 7] 1 [11] = some 7 := by decide +kernel
example : centroidPredict (K := ℚ) (insAsc Prod.fst) id [[0, 0], [1, 1], [10, 10], [11, 11]] [5, 5, 7, 7] 2 [11, 11] = some 5 := by decide +kernel

end Sk.Knn
