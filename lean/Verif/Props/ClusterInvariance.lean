import Verif.Props.Dbscan
import Verif.Props.KMeans
import Verif.Props.KnnInvariance

/-! # C196: what clusterings do not depend on -/
set_option autoImplicit false

namespace Sk.Dbscan

open Sk.Neigh

/-- Density clusterings of the same samples are equal. -/
theorem Clustering.unique {n : ℕ} {core : ℕ → Prop} {nb : ℕ → ℕ → Prop} {l l' : ℕ → ℤ} {k k' : ℕ} (h : Clustering n core nb l k) (h' : Clustering n core nb l' k') :
    ∀ i, i < n → l i = l' i := by
  have key : ∀ (l l' : ℕ → ℤ) (k k' : ℕ), Clustering n core nb l k → Clustering n core nb l' k' → ∀ i, i < n → core i → (∀ j, j < i → core j → l j = l' j) → ¬ l i < l' i := by
    intro l l' k k' h h' i hi hci ih hlt
    have h0 := (h.range i hi).resolve_left (h.core_clustered i hi hci)
    have h1 := (h'.range i hi).resolve_left (h'.core_clustered i hi hci)
    obtain ⟨r, g1, g2, g3, g4⟩ := h'.first (l i).toNat (by omega)
    have e : ((l i).toNat : ℤ) = l i := Int.toNat_of_nonneg h0.1
    rw [e] at g3 g4
    have hri : r < i := by
      rcases lt_trichotomy r i with h | h | h
      · exact h
      · subst h; omega
      · have := g4 i h hci; omega
    have hr := ih r hri g2
    have hc := (h.same_iff r i g1 hi g2 hci).1 (by rw [hr, g3])
    have := (h'.same_iff r i g1 hi g2 hci).2 hc
    omega
  have hcore : ∀ i, i < n → core i → l i = l' i := by
    intro i
    induction i using Nat.strong_induction_on with
    | _ i ih =>
      intro hi hci
      have a := key l l' k k' h h' i hi hci (fun j hj hcj => ih j hj (by omega) hcj)
      have b := key l' l k' k h' h i hi hci (fun j hj hcj => (ih j hj (by omega) hcj).symm)
      omega
  intro i hi
  by_cases hci : core i
  · exact hcore i hi hci
  · by_cases hn : ∀ j, j < n → core j → ¬ nb j i
    · rw [(h.noise_iff i hi hci).2 hn, (h'.noise_iff i hi hci).2 hn]
    · obtain ⟨j, hj, hcj, hl, e⟩ := h.border i hi hci (fun e => hn ((h.noise_iff i hi hci).1 e))
      obtain ⟨j', hj', hcj', hl', e'⟩ := h'.border i hi hci (fun e => hn ((h'.noise_iff i hi hci).1 e))
      have a := h.least i hi hci j' hj' hcj' hl'
      have b := h'.least i hi hci j hj hcj hl
      have c := hcore j hj hcj
      have d := hcore j' hj' hcj'
      omega

variable {K : Type} [Field K] [LinearOrder K] [IsStrictOrderedRing K] {V D V' D' : Type} [LinearOrder D] [LinearOrder D'] [Inhabited V] [Inhabited V']

theorem fit_spec_on (sort : List (D × ℕ) → List (D × ℕ)) (hs : SortsAsc Prod.fst sort) (dist : V → V → D) (eps : D)
    (minSamples : K) (weight : Option (List K)) (X : List V) (hsym : ∀ a ∈ X, ∀ b ∈ X, dist a b = dist b a) (hw : ∀ w, weight = some w → w.length = X.length) (st : State) :
    ∃ st', fit sort dist eps minSamples weight X st = some st' ∧ st'.labels.length = X.length ∧
      (∃ k, Clustering X.length (fun i => i < X.length ∧ minSamples < density dist eps weight X i) (Near dist eps X) (fun i => st'.labels.getD i (-1)) k) ∧
      ∃ cores, st'.core = st.core ++ cores ∧ cores.Pairwise (· < ·) ∧ ∀ i, i ∈ cores ↔ i < X.length ∧ minSamples < density dist eps weight X i :=
  fitOn_spec _ dist eps minSamples weight X hsym
    (fun x _ => by obtain ⟨r, e, hr, _⟩ := C40_radius dist X x eps sort hs; exact ⟨r, e, hr⟩) hw st

/-- **C196, DBSCAN.** The labels and the core samples found by `Fit` depend on nothing but which samples are within the radius of each other: two data sets (of any kinds, with any symmetric distances,
sorts and earlier states) with the same pairs within the radius get the same labels, the same cluster numbers included, and the same core samples. -/
theorem C196_dbscan_determined {sort : List (D × ℕ) → List (D × ℕ)} (hs : SortsAsc Prod.fst sort) {sort' : List (D' × ℕ) → List (D' × ℕ)} (hs' : SortsAsc Prod.fst sort') (dist : V → V → D) (dist' : V' → V' → D')
    (eps : D) (eps' : D') (minSamples : K) (weight : Option (List K)) (X : List V) (X' : List V') (hl : X'.length = X.length) (hsym : ∀ a ∈ X, ∀ b ∈ X, dist a b = dist b a)
    (hsym' : ∀ a ∈ X', ∀ b ∈ X', dist' a b = dist' b a)
    (hnear : ∀ (i j : ℕ) (hi : i < X.length) (hj : j < X.length), dist' X'[i] X'[j] ≤ eps' ↔ dist X[i] X[j] ≤ eps) (hw : ∀ w, weight = some w → w.length = X.length) (st st' : State) :
    ∃ labels cores, fit sort dist eps minSamples weight X st = some ⟨labels, st.core ++ cores⟩ ∧ fit sort' dist' eps' minSamples weight X' st' = some ⟨labels, st'.core ++ cores⟩ := by
  obtain ⟨s, h1, h2, ⟨k, h3⟩, c, h4, h5, h6⟩ := fit_spec_on sort hs dist eps minSamples weight X hsym hw st
  obtain ⟨s', h1', h2', ⟨k', h3'⟩, c', h4', h5', h6'⟩ := fit_spec_on sort' hs' dist' eps' minSamples weight X' hsym' (fun w e => by rw [hl]; exact hw w e) st'
  have hg : ∀ i (hi : i < X.length), X.getD i default = X[i] := fun i hi => by simp [hi]
  have hg' : ∀ i (hi : i < X.length), X'.getD i default = X'[i] := fun i hi => by simp [hl, hi]
  have hden : ∀ i, i < X.length → density dist' eps' weight X' i = density dist eps weight X i := by
    intro i hi
    rw [density, density, hl]
    congr 2
    apply List.filter_congr
    intro j hj
    have hj := List.mem_range.1 hj
    rw [hg i hi, hg j hj, hg' i hi, hg' j hj]
    simp only [hnear i j hi hj]
  have hcore : (fun i => i < X'.length ∧ minSamples < density dist' eps' weight X' i) = (fun i => i < X.length ∧ minSamples < density dist eps weight X i) := by
    funext i
    apply propext
    rw [hl]
    exact and_congr_right (fun hi => by rw [hden i hi])
  have hN : ∀ i j, i < X.length → (Near dist' eps' X' i j ↔ Near dist eps X i j) := by
    intro i j hi
    rw [Near, Near, hl]
    refine and_congr_right (fun hj => ?_)
    rw [hg i hi, hg j hj, hg' i hi, hg' j hj]
    exact hnear i j hi hj
  rw [hcore, hl] at h3'
  have hchain : ∀ i j, Chain (fun i => i < X.length ∧ minSamples < density dist eps weight X i) (Near dist' eps' X') i j ↔ Chain (fun i => i < X.length ∧ minSamples < density dist eps weight X i) (Near dist eps X) i j := by
    intro i j
    rw [Chain, Chain]
    have : (fun a b => (a < X.length ∧ minSamples < density dist eps weight X a) ∧ (b < X.length ∧ minSamples < density dist eps weight X b) ∧ Near dist' eps' X' a b) =
        (fun a b => (a < X.length ∧ minSamples < density dist eps weight X a) ∧ (b < X.length ∧ minSamples < density dist eps weight X b) ∧ Near dist eps X a b) := by
      funext a b
      apply propext
      exact and_congr_right (fun ha => and_congr_right (fun _ => hN a b ha.1))
    rw [this]
  have h3'' : Clustering X.length (fun i => i < X.length ∧ minSamples < density dist eps weight X i) (Near dist eps X) (fun i => s'.labels.getD i (-1)) k' := by
    refine ⟨h3'.range, h3'.used, h3'.core_clustered, fun i j hi hj a b => (h3'.same_iff i j hi hj a b).trans (hchain i j), ?_, ?_, h3'.first, ?_⟩
    · intro i hi hci
      rw [h3'.noise_iff i hi hci]
      exact forall_congr' (fun j => forall_congr' (fun hj => forall_congr' (fun _ => not_congr (hN j i hj))))
    · intro i hi hci e
      obtain ⟨j, g1, g2, g3, g4⟩ := h3'.border i hi hci e
      exact ⟨j, g1, g2, (hN j i g1).1 g3, g4⟩
    · intro i hi hci j hj hcj hji
      exact h3'.least i hi hci j hj hcj ((hN j i hj).2 hji)
  have hlab : s.labels = s'.labels := by
    apply List.ext_getElem (by rw [h2, h2', hl])
    intro i hi hi'
    have := h3.unique h3'' i (by omega)
    simpa [hi, hi'] using this
  have hc : c = c' := by
    refine List.Perm.eq_of_pairwise (le := (· < ·)) (fun a b _ _ h1 h2 => absurd h1 (lt_asymm h2)) h5 h5' ((List.perm_ext_iff_of_nodup (h5.imp ne_of_lt) (h5'.imp ne_of_lt)).2 ?_)
    intro i
    rw [h6, h6']
    exact (iff_of_eq (congrFun hcore i)).symm
  refine ⟨s.labels, c, ?_, ?_⟩
  · rw [h1, ← h4]
  · rw [h1', hc, ← h4', hlab]

/-- **C196, DBSCAN: origin, features and unit.** Permuting and shifting the features of all samples changes neither labels nor core samples; nor does another common unit, if the radius is converted too
(by the factor of the distances, which is that of the unit except with one feature, C43). -/
theorem C196_dbscan_move {sort sort' : List (ℝ × ℕ) → List (ℝ × ℕ)} (hs : SortsAsc Prod.fst sort) (hs' : SortsAsc Prod.fst sort') {m : ℕ} (M : Mink ℝ) (hM : M = rinf ∨ ∃ p, 0 < p ∧ M = rp p)
    (σ : Equiv.Perm (Fin m)) {c : ℝ} (hc : 0 < c) (t : Fin m → ℝ) :
    ∃ c' : ℝ, 0 < c' ∧ (c = 1 → c' = 1) ∧ ∀ (eps : ℝ) (minSamples : K) (weight : Option (List K)) (X : List (List ℝ)), (∀ x ∈ X, x.length = m) → (∀ w, weight = some w → w.length = X.length) → ∀ st : State,
      ∃ r, fit sort (mink M) eps minSamples weight X st = some r ∧ fit sort' (mink M) (c' * eps) minSamples weight (X.map (KnnInv.move σ c t)) st = some r := by
  obtain ⟨c', hc', h1, h⟩ := KnnInv.mink_move M hM σ hc t
  refine ⟨c', hc', h1, ?_⟩
  intro eps minSamples weight X hX hw st
  obtain ⟨l, cs, a, b⟩ := C196_dbscan_determined hs hs' (mink M) (mink M) eps (c' * eps) minSamples weight X (X.map (KnnInv.move σ c t)) (by simp)
    (fun a ha b hb => mink_comm M a b (by rw [hX a ha, hX b hb]))
    (fun a ha b hb => by
      obtain ⟨a, _, rfl⟩ := List.mem_map.1 ha
      obtain ⟨b, _, rfl⟩ := List.mem_map.1 hb
      exact mink_comm M _ _ (by simp [KnnInv.move]))
    (fun i j hi hj => by
      simp only [List.getElem_map]
      rw [h _ _ (hX _ (List.getElem_mem hi)) (hX _ (List.getElem_mem hj))]
      exact mul_le_mul_iff_of_pos_left hc') hw st st
  exact ⟨_, a, b⟩

/-! ### Order of the rows -/

theorem density_ofFn {n : ℕ} (dist : V → V → D) (eps : D) (w : Option (Fin n → K)) (X : Fin n → V) (i : Fin n) :
    density dist eps (w.map List.ofFn) (List.ofFn X) i = ∑ j, if dist (X i) (X j) ≤ eps then (w.elim 1 (fun w => w j)) else 0 := by
  have hsum : ∀ (f : ℕ → K) (p : ℕ → Bool), (((List.range n).filter p).map f).sum = ∑ j : Fin n, if p j then f j else 0 := by
    intro f p
    have h1 : ∀ l : List ℕ, ((l.filter p).map f).sum = (l.map (fun j => if p j then f j else 0)).sum := by
      intro l
      induction l with
      | nil => rfl
      | cons a l ih => by_cases h : p a <;> simp [h, ih]
    rw [h1, ← List.sum_ofFn]
    congr 1
    apply List.ext_getElem <;> simp
  rw [density, List.length_ofFn, hsum]
  apply Finset.sum_congr rfl
  intro j _
  have hX : ∀ k : Fin n, (List.ofFn X).getD k default = X k := fun k => by simp
  have hW : weightOf (w.map List.ofFn) j = w.elim 1 (fun w => w j) := by
    cases w with
    | none => rfl
    | some w => simp [weightOf]
  rw [hX, hX, hW]
  simp only [decide_eq_true_eq]

/-- **C196, DBSCAN: order of the rows** (partial). On the rows in another order the same samples are core samples, the same samples are noise, and the same core samples are together in a cluster.
Missing for the full claim (the same partition of all samples): what `C196_dbscan_border_violated` refutes. -/
theorem C196_dbscan_rows_partial {sort sort' : List (D × ℕ) → List (D × ℕ)} (hs : SortsAsc Prod.fst sort) (hs' : SortsAsc Prod.fst sort') (dist : V → V → D) (eps : D) (minSamples : K) {n : ℕ} (w : Option (Fin n → K))
    (X : Fin n → V) (hsym : ∀ i j, dist (X i) (X j) = dist (X j) (X i)) (π : Equiv.Perm (Fin n)) (l l' : List ℤ) :
    ∃ r r', fit sort dist eps minSamples (w.map List.ofFn) (List.ofFn X) ⟨l, []⟩ = some r ∧
      fit sort' dist eps minSamples (w.map (fun w => List.ofFn (fun i => w (π i)))) (List.ofFn (fun i => X (π i))) ⟨l', []⟩ = some r' ∧
      (∀ i : Fin n, i.1 ∈ r'.core ↔ (π i).1 ∈ r.core) ∧
      (∀ i : Fin n, r'.labels[i.1]? = some (-1) ↔ r.labels[(π i).1]? = some (-1)) ∧
      ∀ i j : Fin n, i.1 ∈ r'.core → j.1 ∈ r'.core → (r'.labels[i.1]? = r'.labels[j.1]? ↔ r.labels[(π i).1]? = r.labels[(π j).1]?) := by
  have hw' : w.map (fun w => List.ofFn (fun i => w (π i))) = (w.map (fun w i => w (π i))).map List.ofFn := by
    cases w <;> rfl
  rw [hw']
  obtain ⟨r, h1, h2, ⟨k, h3⟩, c, h4, -, h6⟩ := fit_spec_on sort hs dist eps minSamples (w.map List.ofFn) (List.ofFn X)
    (by simp only [List.mem_ofFn]; rintro _ ⟨i, rfl⟩ _ ⟨j, rfl⟩; exact hsym i j) (by cases w <;> simp) ⟨l, []⟩
  obtain ⟨r', h1', h2', ⟨k', h3'⟩, c', h4', -, h6'⟩ := fit_spec_on sort' hs' dist eps minSamples ((w.map (fun w i => w (π i))).map List.ofFn) (List.ofFn (fun i => X (π i)))
    (by simp only [List.mem_ofFn]; rintro _ ⟨i, rfl⟩ _ ⟨j, rfl⟩; exact hsym _ _) (by cases w <;> simp) ⟨l', []⟩
  simp only [List.nil_append] at h4 h4'
  subst h4 h4'
  simp only [List.length_ofFn] at h2 h2' h3 h3' h6 h6'
  refine ⟨r, r', h1, h1', ?_⟩
  have hden : ∀ i : Fin n, density dist eps ((w.map (fun w i => w (π i))).map List.ofFn) (List.ofFn (fun i => X (π i))) i = density dist eps (w.map List.ofFn) (List.ofFn X) (π i) := by
    intro i
    rw [density_ofFn, density_ofFn, ← Equiv.sum_comp π (fun j => if dist (X (π i)) (X j) ≤ eps then (w.elim 1 (fun w => w j)) else 0)]
    apply Finset.sum_congr rfl
    intro j _
    cases w <;> rfl
  set core := fun i => i < n ∧ minSamples < density dist eps (w.map List.ofFn) (List.ofFn X) i with hcore
  set core' := fun i => i < n ∧ minSamples < density dist eps ((w.map (fun w i => w (π i))).map List.ofFn) (List.ofFn (fun i => X (π i))) i with hcore'
  have hcc : ∀ i : Fin n, core' i ↔ core (π i) := by
    intro i
    simp only [hcore, hcore', hden i, i.2, (π i).2]
  have hnn : ∀ i j : Fin n, Near dist eps (List.ofFn (fun i => X (π i))) i j ↔ Near dist eps (List.ofFn X) (π i) (π j) := by
    intro i j
    simp [Near]
  have hchain : ∀ i j : Fin n, Chain core' (Near dist eps (List.ofFn (fun i => X (π i)))) i j ↔ Chain core (Near dist eps (List.ofFn X)) (π i) (π j) := by
    intro i j
    set F : ℕ → ℕ := fun a => if h : a < n then (π ⟨a, h⟩).1 else a with hF
    set G : ℕ → ℕ := fun a => if h : a < n then (π.symm ⟨a, h⟩).1 else a with hG
    have hFf : ∀ a : Fin n, F a = π a := fun a => by simp [hF]
    have hGf : ∀ a : Fin n, G a = π.symm a := fun a => by simp [hG]
    constructor
    · intro h
      have := Relation.ReflTransGen.lift (p := fun a b => core a ∧ core b ∧ Near dist eps (List.ofFn X) a b) F (fun a b hab => by
        obtain ⟨ha, hb, hab⟩ := hab
        have e1 := hFf ⟨a, ha.1⟩
        have e2 := hFf ⟨b, hb.1⟩
        simp only at e1 e2
        simp only [Function.onFun]
        rw [e1, e2]
        exact ⟨(hcc ⟨a, ha.1⟩).1 ha, (hcc ⟨b, hb.1⟩).1 hb, (hnn ⟨a, ha.1⟩ ⟨b, hb.1⟩).1 hab⟩) _ _ h
      simp only [Function.onFun] at this
      rwa [hFf, hFf] at this
    · intro h
      have := Relation.ReflTransGen.lift (p := fun a b => core' a ∧ core' b ∧ Near dist eps (List.ofFn (fun i => X (π i))) a b) G (fun a b hab => by
        obtain ⟨ha, hb, hab⟩ := hab
        have e1 := hGf ⟨a, ha.1⟩
        have e2 := hGf ⟨b, hb.1⟩
        simp only at e1 e2
        simp only [Function.onFun]
        rw [e1, e2]
        refine ⟨(hcc _).2 ?_, (hcc _).2 ?_, (hnn _ _).2 ?_⟩
        · rw [Equiv.apply_symm_apply]; exact ha
        · rw [Equiv.apply_symm_apply]; exact hb
        · rw [Equiv.apply_symm_apply, Equiv.apply_symm_apply]; exact hab) _ _ h
      simp only [Function.onFun] at this
      rwa [hGf, hGf, Equiv.symm_apply_apply, Equiv.symm_apply_apply] at this
  have hlab : ∀ i : Fin n, r.labels[i.1]? = some (r.labels.getD i (-1)) := fun i => by simp [h2]
  have hlab' : ∀ i : Fin n, r'.labels[i.1]? = some (r'.labels.getD i (-1)) := fun i => by simp [h2']
  have hcmem : ∀ i : Fin n, i.1 ∈ r'.core ↔ core' i := fun i => h6' i
  refine ⟨fun i => ?_, fun i => ?_, fun i j hi hj => ?_⟩
  · rw [hcmem, hcc, h6]
  · rw [hlab, hlab', Option.some_inj, Option.some_inj]
    by_cases hci : core' i
    · exact iff_of_false (h3'.core_clustered i i.2 hci) (h3.core_clustered _ (π i).2 ((hcc i).1 hci))
    · have e1 := h3'.noise_iff i i.2 hci
      have e2 := h3.noise_iff (π i) (π i).2 (fun h => hci ((hcc i).2 h))
      rw [e1, e2]
      constructor
      · intro h j hj hcj hN
        have hji := h (π.symm ⟨j, hj⟩) (π.symm ⟨j, hj⟩).2
        rw [hcc, hnn, Equiv.apply_symm_apply] at hji
        exact hji hcj hN
      · intro h j hj hcj hN
        exact h (π ⟨j, hj⟩) (π ⟨j, hj⟩).2 ((hcc ⟨j, hj⟩).1 hcj) ((hnn ⟨j, hj⟩ i).1 hN)
  · rw [hcmem] at hi hj
    have e1 := h3'.same_iff i j i.2 j.2 hi hj
    have e2 := h3.same_iff (π i) (π j) (π i).2 (π j).2 ((hcc i).1 hi) ((hcc j).1 hj)
    rw [hlab, hlab, hlab', hlab', Option.some_inj, Option.some_inj, e1, e2, hchain]

/-- Weighted samples of the line, listed in another order: two groups and noise. -/
example : (fit (K := ℚ) (insAsc Prod.fst) (fun a b : ℤ => |a - b|) 2 2 (some [1, 1, 1, 2, 1, 1]) [0, 1, 2, 20, 21, 50] ⟨[], []⟩).map (fun s => (s.labels, s.core)) = some ([0, 0, 0, 1, 1, -1], [0, 1, 2, 3, 4]) ∧
    (fit (K := ℚ) (insAsc Prod.fst) (fun a b : ℤ => |a - b|) 2 2 (some [1, 1, 1, 2, 1, 1]) [50, 21, 0, 20, 2, 1] ⟨[], []⟩).map (fun s => (s.labels, s.core)) = some ([-1, 0, 1, 0, 1, 1], [1, 2, 3, 4, 5]) := by
  constructor <;> decide +kernel

/-- Seven samples on a line, at the positions -2, -2, -1, 0, 1, 2, 2 (in units of the radius `e`, from the origin `a`), `MinSamples` 3: the middle sample is near the core samples of both clusters. -/
def seven {F : Type} [Field F] (a e : F) : List F := [a - 2 * e, a - 2 * e, a - e, a, a + e, a + 2 * e, a + 2 * e]

/-- The middle sample goes to the cluster whose core sample comes first in the data: reversing the rows moves it to the other cluster, for every origin and radius. -/
theorem C196_dbscan_border_violated {F : Type} [Field F] [LinearOrder F] [IsStrictOrderedRing F] {sort : List (F × ℕ) → List (F × ℕ)} (hs : SortsAsc Prod.fst sort) (a e : F) (he : 0 < e) (st : State) :
    ∃ r r', fit (K := ℚ) sort (fun x y => |x - y|) e 3 none (seven a e) st = some r ∧ fit (K := ℚ) sort (fun x y => |x - y|) e 3 none (seven a e).reverse st = some r' ∧
      r.labels = [0, 0, 0, 0, 1, 1, 1] ∧ r'.labels = [0, 0, 0, 0, 1, 1, 1] := by
  haveI : Inhabited F := ⟨0⟩
  have key : ∀ X : List F, ∀ Z : List ℤ, X = Z.map (fun z : ℤ => a + e * (z : F)) → ∃ cores, fit (K := ℚ) sort (fun x y => |x - y|) e 3 none X st = some ⟨((fit (K := ℚ) (insAsc Prod.fst) (fun x y : ℤ => |x - y|) 1 3 none Z ⟨[], []⟩).map State.labels).getD [], cores⟩ := by
    intro X Z hXZ
    obtain ⟨l, c, h1, h2⟩ := C196_dbscan_determined (K := ℚ) (insAsc_ok Prod.fst) hs (fun x y : ℤ => |x - y|) (fun x y : F => |x - y|) 1 e 3 none Z X (by rw [hXZ]; simp)
      (fun a _ b _ => abs_sub_comm a b) (fun a _ b _ => abs_sub_comm a b) (fun i j hi hj => by
        subst hXZ
        simp only [List.getElem_map]
        rw [show a + e * ((Z[i] : ℤ) : F) - (a + e * ((Z[j] : ℤ) : F)) = e * ((Z[i] - Z[j] : ℤ) : F) by push_cast; ring, abs_mul, abs_of_pos he]
        rw [mul_le_iff_le_one_right he]
        exact_mod_cast Iff.rfl) (by simp) ⟨[], []⟩ st
    rw [h2, h1]
    exact ⟨_, rfl⟩
  obtain ⟨c, h⟩ := key (seven a e) [-2, -2, -1, 0, 1, 2, 2] (by simp [seven]; ring_nf; simp)
  obtain ⟨c', h'⟩ := key (seven a e).reverse [2, 2, 1, 0, -1, -2, -2] (by simp [seven]; ring_nf; simp)
  have e1 : ((fit (K := ℚ) (insAsc Prod.fst) (fun x y : ℤ => |x - y|) 1 3 none [-2, -2, -1, 0, 1, 2, 2] ⟨[], []⟩).map State.labels).getD [] = [0, 0, 0, 0, 1, 1, 1] := by decide +kernel
  have e2 : ((fit (K := ℚ) (insAsc Prod.fst) (fun x y : ℤ => |x - y|) 1 3 none [2, 2, 1, 0, -1, -2, -2] ⟨[], []⟩).map State.labels).getD [] = [0, 0, 0, 0, 1, 1, 1] := by decide +kernel
  exact ⟨_, _, h, h', e1, e2⟩

end Sk.Dbscan

namespace Sk.KMeans

variable {K : Type} [Field K] [LinearOrder K] [IsStrictOrderedRing K] {D : Type} [LinearOrder D]

/-- Samples with the features permuted by `σ`, multiplied by `c` and shifted by `t`. -/
def conv {m : ℕ} (σ : Equiv.Perm (Fin m)) (c : K) (t : Fin m → K) (x : List K) : List K := List.ofFn (fun i => c * x.getD (σ i) 0 + t i)

/-- `y` gives every sample the number of a centroid nearest to it. -/
def Nearest (m : ℕ) (X C : List (List K)) (y : List ℕ) : Prop :=
  y.length = X.length ∧ ∀ i, i < X.length → y.getD i 0 < C.length ∧ ∀ j, j < C.length → sqd m (X.getD i []) (C.getD (y.getD i 0) []) ≤ sqd m (X.getD i []) (C.getD j [])

/-- The centroids that rounds of "nearest centroid, then means" can lead to, starting from the first `k` samples. -/
inductive Reached (k m : ℕ) (X : List (List K)) : List (List K) → Prop
  | start : Reached k m X (X.take k)
  | round (C M : List (List K)) (y : List ℕ) : Reached k m X C → Nearest m X C y → Shape k m M →
      (∀ c j, c < k → j < m → cell M c j = (∑ i ∈ (Finset.range X.length).filter (fun i => y.getD i 0 = c), cell X i j) / (((Finset.range X.length).filter (fun i => y.getD i 0 = c)).card : K)) → Reached k m X M

theorem conv_getD {m : ℕ} (σ : Equiv.Perm (Fin m)) (c : K) (t : Fin m → K) (x : List K) (i : Fin m) : (conv σ c t x).getD i 0 = c * x.getD (σ i) 0 + t i := by
  simp [conv]

theorem conv_length {m : ℕ} (σ : Equiv.Perm (Fin m)) (c : K) (t : Fin m → K) (x : List K) : (conv σ c t x).length = m := by simp [conv]

theorem sqd_conv {m : ℕ} (σ : Equiv.Perm (Fin m)) (c : K) (t : Fin m → K) (a b : List K) : sqd m (conv σ c t a) (conv σ c t b) = c ^ 2 * sqd m a b := by
  rw [sqd, sqd, Finset.sum_range, Finset.sum_range, Finset.mul_sum, ← Equiv.sum_comp σ (fun i : Fin m => c ^ 2 * (a.getD i 0 - b.getD i 0) ^ 2)]
  apply Finset.sum_congr rfl
  intro i _
  rw [conv_getD, conv_getD]
  ring

theorem nearest_conv {V V' : Type} (dist : V → V → D) (dist' : V' → V' → D) (f : V → V') (x : V) (C : List V) (h : ∀ a ∈ C, ∀ b ∈ C, dist' (f x) (f a) < dist' (f x) (f b) ↔ dist x a < dist x b) :
    nearest dist' (C.map f) (f x) = nearest dist C x := by
  by_cases h0 : C = []
  · subst h0; rfl
  · obtain ⟨i, hi, e, h1, h2⟩ := nearest_spec dist C h0 x
    obtain ⟨j, hj, e', h1', h2'⟩ := nearest_spec dist' (C.map f) (by simpa using h0) (f x)
    have hj' : j < C.length := by simpa using hj
    rw [e, e']
    congr 1
    rcases lt_trichotomy i j with hij | hij | hij
    · have := h2' i (by simpa using hi) hij
      simp only [List.getElem_map] at this
      rw [h _ (List.getElem_mem _) _ (List.getElem_mem _)] at this
      exact absurd this (not_lt.2 (h1 j hj'))
    · exact hij.symm
    · have a := h2 j hj' hij
      have b := h1' i (by simpa using hi)
      simp only [List.getElem_map] at b
      rw [← h _ (List.getElem_mem _) _ (List.getElem_mem _)] at a
      exact absurd a (not_lt.2 b)

theorem shape_conv {k m : ℕ} (σ : Equiv.Perm (Fin m)) (c : K) (t : Fin m → K) {C : List (List K)} (h : C.length = k) : Shape k m (C.map (conv σ c t)) :=
  ⟨by simpa using h, fun row hr => by obtain ⟨r, _, rfl⟩ := List.mem_map.1 hr; exact conv_length ..⟩

theorem cell_conv {m : ℕ} (σ : Equiv.Perm (Fin m)) (c : K) (t : Fin m → K) (C : List (List K)) (i : ℕ) (hi : i < C.length) (j : Fin m) : cell (C.map (conv σ c t)) i j = c * cell C i (σ j) + t j := by
  have : (C.map (conv σ c t)).getD i [] = conv σ c t (C.getD i []) := by simp [hi]
  rw [cell, this, conv_getD, cell]

theorem eq_of_cells {k m : ℕ} {A B : List (List K)} (hA : Shape k m A) (hB : Shape k m B) (h : ∀ c j, c < k → j < m → cell A c j = cell B c j) : A = B := by
  apply List.ext_getElem (by rw [hA.1, hB.1])
  intro c h1 h2
  have l1 := hA.2 _ (List.getElem_mem h1)
  have l2 := hB.2 _ (List.getElem_mem h2)
  apply List.ext_getElem (by rw [l1, l2])
  intro j g1 g2
  have := h c j (by rw [← hA.1]; exact h1) (by omega)
  simpa [cell, h1, h2, g1, g2] using this

/-- **C196, KMeans** (partial). Permuting the features, multiplying all of them by one number other than 0 and shifting them moves the centroids found in the same way, for every schedule, and every sample to
predict is given the same cluster; shifts, if no round leaves a cluster without samples.
Missing for the full claim: what `C196_kmeans_origin_violated` and `C196_kmeans_rows_violated` refute. -/
theorem C196_kmeans_partial {dist : List K → List K → D} {n m k : ℕ} (hk : 0 < k) (hkn : k ≤ n)
    (hd : ∀ a b c : List K, a.length = m → b.length = m → c.length = m → (dist a b ≤ dist a c ↔ sqd m a b ≤ sqd m a c))
    {X : List (List K)} (hX : Shape n m X) {order order' : ℕ → List ℕ} (ho : ∀ e, (order e).Perm (List.range n)) (ho' : ∀ e, (order' e).Perm (List.range n))
    (σ : Equiv.Perm (Fin m)) {c : K} (hc : c ≠ 0) (t : Fin m → K)
    (ht : (∀ i, t i = 0) ∨ ∀ C y, Reached k m X C → Nearest m X C y → ∀ q, q < k → ∃ i, i < n ∧ y.getD i 0 = q) :
    (∀ fuel, fit dist k m (X.map (conv σ c t)) order' fuel = (fit dist k m X order fuel).map (List.map (conv σ c t))) ∧
    ∀ C x, Shape k m C → x.length = m → nearest dist (C.map (conv σ c t)) (conv σ c t x) = nearest dist C x := by
  have hc2 : 0 < c ^ 2 := by positivity
  have hnear : ∀ C x, Shape k m C → x.length = m → nearest dist (C.map (conv σ c t)) (conv σ c t x) = nearest dist C x := by
    intro C x hC hx
    apply nearest_conv
    intro a ha b hb
    rw [← not_le, ← not_le, hd _ _ _ (conv_length ..) (conv_length ..) (conv_length ..), hd x b a hx (hC.2 b hb) (hC.2 a ha), sqd_conv, sqd_conv, mul_le_mul_iff_of_pos_left hc2]
  refine ⟨?_, hnear⟩
  have hlabels : ∀ C, Shape k m C → labels dist (C.map (conv σ c t)) (X.map (conv σ c t)) = labels dist C X := by
    intro C hC
    have : ∀ Z : List (List K), (∀ z ∈ Z, z.length = m) → labels dist (C.map (conv σ c t)) (Z.map (conv σ c t)) = labels dist C Z := by
      intro Z
      induction Z with
      | nil => intro _; rfl
      | cons z Z ih =>
        intro hz
        rw [List.forall_mem_cons] at hz
        have ih := ih hz.2
        rw [labels] at ih ⊢
        rw [labels, List.map_cons, List.mapM_cons, List.mapM_cons, ih, hnear C z hC hz.1]
        rfl
    exact this X hX.2
  have hloop : ∀ fuel C y u, Shape k m C → Reached k m X C → fitLoop dist k m (X.map (conv σ c t)) order' fuel (C.map (conv σ c t)) y u = (fitLoop dist k m X order fuel C y u).map (List.map (conv σ c t)) := by
    intro fuel
    induction fuel with
    | zero => intro C y u _ _; rfl
    | succ fuel ih =>
      intro C y u hC hR
      rw [fitLoop, fitLoop]
      by_cases hu : 2 ≤ u
      · rw [if_pos hu, if_pos hu]; rfl
      · rw [if_neg hu, if_neg hu, hlabels C hC]
        have hC0 : C ≠ [] := by
          intro h
          have := hC.1
          rw [h] at this
          simp at this
          omega
        obtain ⟨y', e, hl, hy⟩ := labels_spec dist C hC0 X
        rw [hX.1] at hl hy
        have hN : Nearest m X C y' := by
          refine ⟨by rw [hl, hX.1], fun i hi => ?_⟩
          rw [hX.1] at hi
          obtain ⟨g1, g2, -⟩ := hy i hi
          refine ⟨g1, fun j hj => ?_⟩
          have := g2 j hj
          have hlen : ∀ {r : ℕ} {A : List (List K)}, Shape r m A → ∀ i, i < r → (A.getD i []).length = m := by
            intro r A hA i hi
            have hi' : i < A.length := by rw [hA.1]; exact hi
            have : A.getD i [] = A[i] := by simp [hi']
            rw [this]
            exact hA.2 _ (List.getElem_mem _)
          exact (hd _ _ _ (hlen hX i hi) (hlen hC _ (by rw [← hC.1]; exact g1)) (hlen hC j (by rw [← hC.1]; exact hj))).1 this
        simp only [Option.bind_eq_bind, e, Option.bind_some]
        obtain ⟨s1, m1⟩ := recompute_spec (k := k) hX hl (ho fuel)
        obtain ⟨s2, m2⟩ := recompute_spec (k := k) (shape_conv σ c t hX.1) hl (ho' fuel)
        have hR' : Reached k m X (recompute k m X y' (order fuel)) := by
          refine Reached.round C _ y' hR hN s1 ?_
          rw [hX.1]
          exact m1
        have hrec : recompute k m (X.map (conv σ c t)) y' (order' fuel) = (recompute k m X y' (order fuel)).map (conv σ c t) := by
          apply eq_of_cells s2 (shape_conv σ c t s1.1)
          intro q j hq hj
          have e1 := cell_conv σ c t (recompute k m X y' (order fuel)) q (by rw [s1.1]; exact hq) ⟨j, hj⟩
          simp only at e1
          rw [m2 q j hq hj, e1, m1 q _ hq (σ ⟨j, hj⟩).2, mean, mean]
          have e2 : ∀ i ∈ (Finset.range n).filter (fun i => y'.getD i 0 = q), cell (X.map (conv σ c t)) i j = c * cell X i (σ ⟨j, hj⟩) + t ⟨j, hj⟩ := by
            intro i hi
            have := cell_conv σ c t X i (by rw [hX.1]; exact Finset.mem_range.1 (Finset.mem_filter.1 hi).1) ⟨j, hj⟩
            exact this
          rw [Finset.sum_congr rfl e2, Finset.sum_add_distrib, ← Finset.mul_sum, Finset.sum_const, nsmul_eq_mul]
          rcases ht with ht | ht
          · rw [ht]; ring
          · obtain ⟨i, hi, hiq⟩ := ht C y' hR hN q hq
            have : (((Finset.range n).filter (fun i => y'.getD i 0 = q)).card : K) ≠ 0 := by
              rw [Nat.cast_ne_zero, Finset.card_ne_zero]
              exact ⟨i, Finset.mem_filter.2 ⟨Finset.mem_range.2 hi, hiq⟩⟩
            field_simp
        rw [hrec]
        exact ih _ _ _ s1 hR'
  intro fuel
  rw [fit, fit, List.length_map]
  have : ¬ (X.length < k ∨ k = 0) := by rw [hX.1]; omega
  rw [if_neg this, if_neg this, ← List.map_take]
  exact hloop fuel _ _ _ ⟨by rw [List.length_take, hX.1]; omega, fun row hr => hX.2 row (List.mem_of_mem_take hr)⟩ Reached.start

theorem near_first {V : Type} (dist : V → V → D) (p q x : V) (h : dist x p ≤ dist x q) : nearest dist [p, q] x = some 0 := by
  simp [nearest, not_lt.2 h]

theorem near_second {V : Type} (dist : V → V → D) (p q x : V) (h : dist x q < dist x p) : nearest dist [p, q] x = some 1 := by
  simp [nearest, h]

/-- **C196** is false of KMeans under shifts when a cluster loses all its samples: its centroid becomes the origin, wherever the data lie. Two equal samples and two clusters: the centroids found do not move with
the data. -/
theorem C196_kmeans_origin_violated {dist : List K → List K → D}
    (hd : ∀ a b c : List K, a.length = 1 → b.length = 1 → c.length = 1 → (dist a b ≤ dist a c ↔ sqd 1 a b ≤ sqd 1 a c))
    {order order' : ℕ → List ℕ} (ho : ∀ e, (order e).Perm (List.range 2)) (ho' : ∀ e, (order' e).Perm (List.range 2)) (a : K) {s : K} (hs : s ≠ 0) {fuel : ℕ} (hf : 3 ≤ fuel) :
    fit dist 2 1 [[a], [a]] order fuel = some [[a], [0]] ∧ fit dist 2 1 [[a + s], [a + s]] order' fuel ≠ some [[a + s], [0 + s]] := by
  have key : ∀ (a : K) (order : ℕ → List ℕ), (∀ e, (order e).Perm (List.range 2)) → fit dist 2 1 [[a], [a]] order fuel = some [[a], [0]] := by
    intro a order ho
    obtain ⟨f, rfl⟩ := Nat.exists_eq_add_of_le hf
    have hX : Shape 2 1 [[a], [a]] := ⟨rfl, by simp⟩
    have hl : ∀ b, labels dist [[a], [b]] [[a], [a]] = some [0, 0] := by
      intro b
      have : nearest dist [[a], [b]] [a] = some 0 := near_first _ _ _ _ ((hd _ _ _ rfl rfl rfl).2 (by simp [sqd]; positivity))
      simp [labels, this]
    have hr : ∀ e, recompute 2 1 [[a], [a]] [0, 0] (order e) = [[a], [0]] := by
      intro e
      obtain ⟨s1, m1⟩ := recompute_spec (k := 2) (y := [0, 0]) hX rfl (ho e)
      refine eq_of_cells s1 ⟨rfl, by simp⟩ ?_
      intro c j hc hj
      rw [m1 c j hc hj]
      obtain rfl : j = 0 := by omega
      have : c = 0 ∨ c = 1 := by omega
      rcases this with rfl | rfl
      · have e1 : (Finset.range 2).filter (fun i => ([0, 0] : List ℕ).getD i 0 = 0) = {0, 1} := by decide
        rw [mean, e1]
        simp [cell]
      · have e1 : (Finset.range 2).filter (fun i => ([0, 0] : List ℕ).getD i 0 = 1) = ∅ := by decide
        rw [mean, e1]
        simp [cell]
    rw [show 3 + f = f + 1 + 1 + 1 by omega]
    simp [fit, fitLoop, hl, hr]
  refine ⟨key a order ho, ?_⟩
  rw [key _ _ ho']
  simp [hs.symm]

/-- **C196** is false of KMeans under reordering the samples: the search starts from the first samples. At the corners of a rectangle it finds the left and the right pair, or the lower and the upper pair, by the
order in which they are listed. -/
theorem C196_kmeans_rows_violated {dist : List K → List K → D}
    (hd : ∀ a b c : List K, a.length = 2 → b.length = 2 → c.length = 2 → (dist a b ≤ dist a c ↔ sqd 2 a b ≤ sqd 2 a c))
    {order order' : ℕ → List ℕ} (ho : ∀ e, (order e).Perm (List.range 4)) (ho' : ∀ e, (order' e).Perm (List.range 4)) {w h : K} (hw : w ≠ 0) (hh : h ≠ 0) {fuel : ℕ} (hf : 4 ≤ fuel) :
    ∃ C C', fit dist 2 2 [[0, 0], [w, 0], [0, h], [w, h]] order fuel = some C ∧ fit dist 2 2 [[0, 0], [0, h], [w, 0], [w, h]] order' fuel = some C' ∧
      nearest dist C [0, 0] = nearest dist C [0, h] ∧ nearest dist C' [0, 0] ≠ nearest dist C' [0, h] := by
  have lt : ∀ a b c : List K, a.length = 2 → b.length = 2 → c.length = 2 → sqd 2 a b < sqd 2 a c → dist a b < dist a c := by
    intro a b c ha hb hc h
    rw [← not_le] at h ⊢
    rwa [hd a c b ha hc hb]
  have w2 : 0 < w ^ 2 := by positivity
  have h2 : 0 < h ^ 2 := by positivity
  have near : ∀ u v : List K, u.length = 2 → v.length = 2 → ∀ x : List K, x.length = 2 → (sqd 2 x u ≤ sqd 2 x v → nearest dist [u, v] x = some 0) ∧ (sqd 2 x v < sqd 2 x u → nearest dist [u, v] x = some 1) :=
    fun u v hu hv x hx => ⟨fun g => near_first _ _ _ _ ((hd _ _ _ hx hu hv).2 g), fun g => near_second _ _ _ _ (lt _ _ _ hx hv hu g)⟩
  have hrc : ∀ (p q r s : List K) (o : List ℕ), o.Perm (List.range 4) → p.length = 2 → q.length = 2 → r.length = 2 → s.length = 2 →
      recompute 2 2 [p, q, r, s] [0, 1, 0, 1] o = [[(p.getD 0 0 + r.getD 0 0) / 2, (p.getD 1 0 + r.getD 1 0) / 2], [(q.getD 0 0 + s.getD 0 0) / 2, (q.getD 1 0 + s.getD 1 0) / 2]] := by
    intro p q r s o ho hp hq hr hs
    obtain ⟨s1, m1⟩ := recompute_spec (k := 2) (X := [p, q, r, s]) (y := [0, 1, 0, 1]) (n := 4) (m := 2) ⟨rfl, by simp [hp, hq, hr, hs]⟩ rfl ho
    refine eq_of_cells s1 ⟨rfl, by simp⟩ ?_
    intro c j hc hj
    rw [m1 c j hc hj]
    have e0 : (Finset.range 4).filter (fun i => ([0, 1, 0, 1] : List ℕ).getD i 0 = 0) = {0, 2} := by decide
    have e1 : (Finset.range 4).filter (fun i => ([0, 1, 0, 1] : List ℕ).getD i 0 = 1) = {1, 3} := by decide
    have hc' : c = 0 ∨ c = 1 := by omega
    have hj' : j = 0 ∨ j = 1 := by omega
    rcases hc' with rfl | rfl <;> rcases hj' with rfl | rfl <;> rw [mean] <;> first | rw [e0] | rw [e1]
    all_goals simp [cell]
  have sq2 : ∀ a b c d : K, sqd 2 [a, b] [c, d] = (a - c) ^ 2 + (b - d) ^ 2 := fun a b c d => by simp [sqd, Finset.sum_range_succ]
  obtain ⟨f, rfl⟩ := Nat.exists_eq_add_of_le hf
  have run : ∀ (p q r s u v : List K) (order : ℕ → List ℕ), (∀ e, (order e).Perm (List.range 4)) → p.length = 2 → q.length = 2 → r.length = 2 → s.length = 2 →
      labels dist [p, q] [p, q, r, s] = some [0, 1, 0, 1] →
      u = [(p.getD 0 0 + r.getD 0 0) / 2, (p.getD 1 0 + r.getD 1 0) / 2] → v = [(q.getD 0 0 + s.getD 0 0) / 2, (q.getD 1 0 + s.getD 1 0) / 2] →
      labels dist [u, v] [p, q, r, s] = some [0, 1, 0, 1] → fit dist 2 2 [p, q, r, s] order (4 + f) = some [u, v] := by
    intro p q r s u v order ho hp hq hr hs h1 hu hv h2
    have hrec : ∀ e, recompute 2 2 [p, q, r, s] [0, 1, 0, 1] (order e) = [u, v] := fun e => by rw [hrc p q r s _ (ho e) hp hq hr hs, hu, hv]
    rw [show 4 + f = f + 1 + 1 + 1 + 1 by omega]
    simp [fit, fitLoop, h1, hrec, h2]
  have lab : ∀ (C : List (List K)) (p q r s : List K), nearest dist C p = some 0 → nearest dist C q = some 1 → nearest dist C r = some 0 → nearest dist C s = some 1 → labels dist C [p, q, r, s] = some [0, 1, 0, 1] := by
    intro C p q r s a b c d
    simp [labels, a, b, c, d]
  have A1 : ∀ z : K, ∀ y : K, nearest dist [[0, z], [w, z]] [0, y] = some 0 := fun z y => (near _ _ rfl rfl _ rfl).1 (by rw [sq2, sq2]; nlinarith)
  have A2 : ∀ z : K, ∀ y : K, nearest dist [[0, z], [w, z]] [w, y] = some 1 := fun z y => (near _ _ rfl rfl _ rfl).2 (by rw [sq2, sq2]; nlinarith)
  have B1 : ∀ z : K, ∀ y : K, nearest dist [[z, 0], [z, h]] [y, 0] = some 0 := fun z y => (near _ _ rfl rfl _ rfl).1 (by rw [sq2, sq2]; nlinarith)
  have B2 : ∀ z : K, ∀ y : K, nearest dist [[z, 0], [z, h]] [y, h] = some 1 := fun z y => (near _ _ rfl rfl _ rfl).2 (by rw [sq2, sq2]; nlinarith)
  refine ⟨[[0, h / 2], [w, h / 2]], [[w / 2, 0], [w / 2, h]], ?_, ?_, ?_, ?_⟩
  · exact run _ _ _ _ _ _ order ho rfl rfl rfl rfl (lab _ _ _ _ _ (A1 _ _) (A2 _ _) (A1 _ _) (A2 _ _)) (by simp) (by simp) (lab _ _ _ _ _ (A1 _ _) (A2 _ _) (A1 _ _) (A2 _ _))
  · exact run _ _ _ _ _ _ order' ho' rfl rfl rfl rfl (lab _ _ _ _ _ (B1 _ _) (B2 _ _) (B1 _ _) (B2 _ _)) (by simp) (by simp) (lab _ _ _ _ _ (B1 _ _) (B2 _ _) (B1 _ _) (B2 _ _))
  · rw [A1, A1]
  · rw [B1, B2]; simp

/-- The hypotheses are met: four samples of two features in metres and centimetres. -/
example (order : ℕ → List ℕ) (ho : ∀ e, (order e).Perm (List.range 4)) (fuel : ℕ) :
    fit (Neigh.euclid Real.sqrt) 2 2 ([[0, 0], [4, 0], [0, 1], [4, 1]].map (conv (m := 2) (Equiv.swap 0 1) 100 (fun _ => 0))) order fuel =
      (fit (Neigh.euclid Real.sqrt) 2 2 [[0, 0], [4, 0], [0, 1], [4, 1]] order fuel).map (List.map (conv (m := 2) (Equiv.swap 0 1) 100 (fun _ => 0))) :=
  (C196_kmeans_partial (n := 4) (by norm_num) (by norm_num) (fun a b c ha hb hc => euclid_orders 2 a b c ha hb hc) ⟨rfl, by simp⟩ ho ho (Equiv.swap 0 1) (by norm_num) _ (Or.inl (fun _ => rfl))).1 fuel

/-- No round leaves a cluster empty: two different samples and two clusters, shifted. -/
example (order : ℕ → List ℕ) (ho : ∀ e, (order e).Perm (List.range 2)) (fuel : ℕ) :
    fit (Neigh.euclid Real.sqrt) 2 1 ([[0], [4]].map (conv (m := 1) (Equiv.refl _) 3 (fun _ => 7))) order fuel =
      (fit (Neigh.euclid Real.sqrt) 2 1 [[0], [4]] order fuel).map (List.map (conv (m := 1) (Equiv.refl _) 3 (fun _ => 7))) := by
  have hy : ∀ y, Nearest 1 ([[0], [4]] : List (List ℝ)) [[0], [4]] y → y = [0, 1] := by
    rintro y ⟨hl, h⟩
    match y, hl with
    | [a, b], _ =>
      obtain ⟨a1, a2⟩ := h 0 (by simp)
      obtain ⟨b1, b2⟩ := h 1 (by simp)
      have a3 := a2 0 (by simp)
      have b3 := b2 1 (by simp)
      simp at a1 b1
      have ha : a = 0 ∨ a = 1 := by omega
      have hb : b = 0 ∨ b = 1 := by omega
      rcases ha with rfl | rfl
      · rcases hb with rfl | rfl
        · norm_num [sqd] at b3
        · rfl
      · norm_num [sqd] at a3
  have hR : ∀ C, Reached 2 1 ([[0], [4]] : List (List ℝ)) C → C = [[0], [4]] := by
    intro C hC
    induction hC with
    | start => rfl
    | round C M y _ hN hS hM ih =>
      subst ih
      have := hy y hN
      subst this
      refine eq_of_cells hS ⟨rfl, by simp⟩ ?_
      intro c j hc hj
      rw [hM c j hc hj]
      obtain rfl : j = 0 := by omega
      have e0 : (Finset.range 2).filter (fun i => ([0, 1] : List ℕ).getD i 0 = 0) = {0} := by decide
      have e1 : (Finset.range 2).filter (fun i => ([0, 1] : List ℕ).getD i 0 = 1) = {1} := by decide
      simp only [List.length_cons, List.length_nil, Nat.reduceAdd]
      have hc' : c = 0 ∨ c = 1 := by omega
      rcases hc' with rfl | rfl
      · rw [e0]; simp [cell]
      · rw [e1]; simp [cell]
  refine (C196_kmeans_partial (n := 2) (by norm_num) (by norm_num) (fun a b c ha hb hc => euclid_orders 1 a b c ha hb hc) ⟨rfl, by simp⟩ ho ho (Equiv.refl _) (by norm_num) _ (Or.inr ?_)).1 fuel
  intro C y hC hN q hq
  rw [hR C hC] at hN
  rw [hy y hN]
  have hq' : q = 0 ∨ q = 1 := by omega
  rcases hq' with rfl | rfl
  · exact ⟨0, by norm_num, rfl⟩
  · exact ⟨1, by norm_num, rfl⟩

end Sk.KMeans
