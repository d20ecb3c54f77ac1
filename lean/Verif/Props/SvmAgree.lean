import Verif.Props.SvmOptimal
import Mathlib.Tactic.FinCases
import Mathlib.Algebra.Order.BigOperators.Ring.Finset

/-!
# C231: two trainings of a support vector machine agree, and only support vectors matter

For training runs that end with the optimality conditions met (C172).
-/
set_option autoImplicit false

namespace Sk.Svm

variable {K : Type} [Field K] [LinearOrder K] [IsStrictOrderedRing K] {m : ℕ}

omit [LinearOrder K] [IsStrictOrderedRing K] in
theorem value_sub (kern : Fin m → Fin m → K) (u v : Fin m → K) (b b' : K) (i : Fin m) : valueAt kern u b i - valueAt kern v b' i = valueAt kern (fun k => u k - v k) (b - b') i := by
  unfold valueAt
  simp only [sub_mul, Finset.sum_sub_distrib]
  ring

/-- Values of a function are bounded by its norm; `kq` are the kernel values of a row with the samples and `kqq` that of the row with itself. -/
theorem value_bound (kern : Fin m → Fin m → K) (kq : Fin m → K) (kqq : K) (hpsd : ∀ (u : Fin m → K) (t : K), 0 ≤ form kern u u + 2 * t * (∑ k, u k * kq k) + t ^ 2 * kqq) (u : Fin m → K) :
    (∑ k, u k * kq k) ^ 2 ≤ form kern u u * kqq := by
  set s := ∑ k, u k * kq k with hs
  have h0 : 0 ≤ kqq := by
    have := hpsd (fun _ => 0) 1
    simpa [form] using this
  have scale : ∀ c : K, form kern (fun k => c * u k) (fun k => c * u k) = c ^ 2 * form kern u u := by
    intro c
    unfold form
    rw [Finset.mul_sum]
    refine Finset.sum_congr rfl fun i _ => ?_
    rw [Finset.mul_sum]
    exact Finset.sum_congr rfl fun j _ => by ring
  have sscale : ∀ c : K, ∑ k, c * u k * kq k = c * s := by
    intro c
    rw [hs, Finset.mul_sum]
    exact Finset.sum_congr rfl fun j _ => by ring
  rcases h0.eq_or_lt with h | h
  · -- the row has no norm: the value vanishes
    have h1 : ∀ t : K, 0 ≤ form kern u u + 2 * t * s := by
      intro t
      have := hpsd u t
      rw [← h] at this
      linarith
    have hz : s = 0 := by
      by_contra hne
      have := h1 (-(form kern u u + 1) / (2 * s))
      have e : 2 * (-(form kern u u + 1) / (2 * s)) * s = -(form kern u u + 1) := by
        field_simp
      rw [e] at this
      linarith
    rw [hz, ← h]
    simp
  · have h1 := hpsd (fun k => kqq * u k) (-s)
    rw [scale, sscale] at h1
    have e : kqq ^ 2 * form kern u u + 2 * -s * (kqq * s) + (-s) ^ 2 * kqq = kqq * (form kern u u * kqq - s ^ 2) := by ring
    rw [e] at h1
    have := nonneg_of_mul_nonneg_right h1 h
    linarith

theorem svc_close (kern : Fin m → Fin m → K) (Y : Fin m → K) (hY : ∀ i, Y i = 1 ∨ Y i = -1) {C eps : K} (he : 0 ≤ eps) (α α' : Fin m → K) (b b' : K) (hbox : ∀ i, 0 ≤ α i ∧ α i ≤ C) (hbox' : ∀ i, 0 ≤ α' i ∧ α' i ≤ C)
    (hbal : ∑ i, α i * Y i = 0) (hbal' : ∑ i, α' i * Y i = 0) (hk : SvcKkt kern Y C eps α b) (hk' : SvcKkt kern Y C eps α' b') :
    form kern (fun i => α i * Y i - α' i * Y i) (fun i => α i * Y i - α' i * Y i) ≤ 2 * m * C * eps := by
  have hz : ∑ i, (α i * Y i - α' i * Y i) = 0 := by rw [Finset.sum_sub_distrib, hbal, hbal', sub_zero]
  rw [form_values kern _ _ (b - b') hz]
  have hc : (2 * (m : K) * C * eps) = ∑ _i : Fin m, 2 * C * eps := by rw [Finset.sum_const, Finset.card_univ, Fintype.card_fin, nsmul_eq_mul]; ring
  rw [hc]
  refine Finset.sum_le_sum fun i _ => ?_
  rw [← value_sub]
  have key : ∀ {a a' g g' : K}, 0 ≤ a → a' ≤ C → a ≤ a' → (g < 1 - eps → C ≤ a) → (1 + eps < g' → a' ≤ 0) → (a' - a) * (g' - g) ≤ 2 * C * eps := by
    intro a a' g g' h0 hC' hle k1 k2
    rcases hle.eq_or_lt with h | h
    · rw [h, sub_self, zero_mul]
      have : 0 ≤ C * eps := mul_nonneg (h0.trans (hle.trans hC')) he
      linarith
    · have g1 : 1 - eps ≤ g := by
        by_contra hg
        exact absurd (k1 (not_le.1 hg)) (not_le.2 (lt_of_lt_of_le h hC'))
      have g2 : g' ≤ 1 + eps := by
        by_contra hg
        exact absurd (k2 (not_le.1 hg)) (not_le.2 (lt_of_le_of_lt h0 h))
      have s1 : (a' - a) * (g' - g) ≤ (a' - a) * (2 * eps) := mul_le_mul_of_nonneg_left (by linarith) (sub_nonneg.2 hle)
      have s2 : (a' - a) * (2 * eps) ≤ C * (2 * eps) := mul_le_mul_of_nonneg_right (by linarith) (by linarith)
      linarith
  have ev : valueAt kern (fun i => α i * Y i) b i = svcValue kern Y α b i := rfl
  have ev' : valueAt kern (fun i => α' i * Y i) b' i = svcValue kern Y α' b' i := rfl
  rw [ev, ev']
  have e : (α i * Y i - α' i * Y i) * (svcValue kern Y α b i - svcValue kern Y α' b' i) = (α i - α' i) * (Y i * svcValue kern Y α b i - Y i * svcValue kern Y α' b' i) := by ring
  rw [e]
  rcases le_total (α i) (α' i) with h | h
  · have := key (hbox i).1 (hbox' i).2 h (hk i).1 (hk' i).2
    linarith
  · exact key (hbox' i).1 (hbox i).2 h (hk' i).1 (hk i).2

/-- **C231, classifiers agree.** Two trainings of an SVC on the same data (other random numbers, other `Tol` and `MaxIter`) that end with the optimality conditions met: the squared kernel norm of the difference of the two functions is at most `2·m·C·Epsilon`; so their values without offset differ at a row by at most the square root of that times the kernel value of the row with itself. -/
theorem C231_svc_agree (kern : Fin m → Fin m → K) (Y : Fin m → K) (hY : ∀ i, Y i = 1 ∨ Y i = -1) {C eps : K} (hC : 0 ≤ C) (he : 0 ≤ eps) (tol tol' : K) (maxPasses maxPasses' : ℕ)
    (draws draws' : ℕ → Fin m → ℕ) (fuel fuel' : ℕ) (st st' : St m K) (h : loop (svcStep kern Y C eps tol) maxPasses draws fuel 0 0 (start m K) = .done st) (h' : loop (svcStep kern Y C eps tol') maxPasses' draws' fuel' 0 0 (start m K) = .done st')
    (hk : SvcKkt kern Y C eps st.α st.b) (hk' : SvcKkt kern Y C eps st'.α st'.b) (kq : Fin m → K) (kqq : K) (hpsd : ∀ (u : Fin m → K) (t : K), 0 ≤ form kern u u + 2 * t * (∑ k, u k * kq k) + t ^ 2 * kqq) :
    form kern (fun i => st.α i * Y i - st'.α i * Y i) (fun i => st.α i * Y i - st'.α i * Y i) ≤ 2 * m * C * eps ∧
      (∑ k, st.α k * Y k * kq k - ∑ k, st'.α k * Y k * kq k) ^ 2 ≤ 2 * m * C * eps * kqq := by
  obtain ⟨hb, hs⟩ := C37_train kern Y hY hC eps tol maxPasses draws fuel st h
  obtain ⟨hb', hs'⟩ := C37_train kern Y hY hC eps tol' maxPasses' draws' fuel' st' h'
  have h1 := svc_close kern Y hY he st.α st'.α st.b st'.b hb hb' hs hs' hk hk'
  refine ⟨h1, ?_⟩
  have h2 := value_bound kern kq kqq hpsd (fun i => st.α i * Y i - st'.α i * Y i)
  have h0 : 0 ≤ kqq := by
    have := hpsd (fun _ => 0) 1
    simpa [form] using this
  simp only [sub_mul, Finset.sum_sub_distrib] at h2
  exact h2.trans (mul_le_mul_of_nonneg_right h1 h0)

theorem svr_close (kern : Fin m → Fin m → K) (Y : Fin m → K) {C eps : K} (he : 0 ≤ eps) (α α' : Fin m → K) (b b' : K) (hbox : ∀ i, -C ≤ α i ∧ α i ≤ C) (hbox' : ∀ i, -C ≤ α' i ∧ α' i ≤ C)
    (hbal : ∑ i, α i = 0) (hbal' : ∑ i, α' i = 0) (hk : SvrKkt kern Y C eps α b) (hk' : SvrKkt kern Y C eps α' b') :
    form kern (fun i => α i - α' i) (fun i => α i - α' i) ≤ 4 * m * C * eps := by
  have hz : ∑ i, (α i - α' i) = 0 := by rw [Finset.sum_sub_distrib, hbal, hbal', sub_zero]
  rw [form_values kern _ _ (b - b') hz]
  have hc : (4 * (m : K) * C * eps) = ∑ _i : Fin m, 4 * C * eps := by rw [Finset.sum_const, Finset.card_univ, Fintype.card_fin, nsmul_eq_mul]; ring
  rw [hc]
  refine Finset.sum_le_sum fun i _ => ?_
  rw [← value_sub]
  have key : ∀ {a a' g g' : K}, -C ≤ a → a' ≤ C → a ≤ a' → (g < Y i - eps → C ≤ a) → (Y i + eps < g' → a' ≤ -C) → (a' - a) * (g' - g) ≤ 4 * C * eps := by
    intro a a' g g' h0 hC' hle k1 k2
    have hCC : 0 ≤ C := by linarith
    rcases hle.eq_or_lt with h | h
    · rw [h, sub_self, zero_mul]
      have : 0 ≤ C * eps := mul_nonneg hCC he
      linarith
    · have g1 : Y i - eps ≤ g := by
        by_contra hg
        exact absurd (k1 (not_le.1 hg)) (not_le.2 (lt_of_lt_of_le h hC'))
      have g2 : g' ≤ Y i + eps := by
        by_contra hg
        exact absurd (k2 (not_le.1 hg)) (not_le.2 (lt_of_le_of_lt h0 h))
      have s1 : (a' - a) * (g' - g) ≤ (a' - a) * (2 * eps) := mul_le_mul_of_nonneg_left (by linarith) (sub_nonneg.2 hle)
      have s2 : (a' - a) * (2 * eps) ≤ (2 * C) * (2 * eps) := mul_le_mul_of_nonneg_right (by linarith) (by linarith)
      linarith
  have ev : valueAt kern α b i = svrValue kern α b i := rfl
  have ev' : valueAt kern α' b' i = svrValue kern α' b' i := rfl
  have eta : (fun i => α i) = α := rfl
  rw [ev, ev']
  rcases le_total (α i) (α' i) with h | h
  · have := key (hbox i).1 (hbox' i).2 h (hk i).1 (hk' i).2
    linarith
  · exact key (hbox' i).1 (hbox i).2 h (hk' i).1 (hk i).2

/-- **C231, regressors agree.** The same for an SVR, with the bound `4·m·C·Epsilon`. -/
theorem C231_svr_agree (kern : Fin m → Fin m → K) (Y : Fin m → K) {C eps : K} (hC : 0 ≤ C) (he : 0 ≤ eps) (tol tol' : K) (maxPasses maxPasses' : ℕ)
    (draws draws' : ℕ → Fin m → ℕ) (fuel fuel' : ℕ) (st st' : St m K) (h : loop (svrStep kern Y C eps tol) maxPasses draws fuel 0 0 (start m K) = .done st) (h' : loop (svrStep kern Y C eps tol') maxPasses' draws' fuel' 0 0 (start m K) = .done st')
    (hk : SvrKkt kern Y C eps st.α st.b) (hk' : SvrKkt kern Y C eps st'.α st'.b) (kq : Fin m → K) (kqq : K) (hpsd : ∀ (u : Fin m → K) (t : K), 0 ≤ form kern u u + 2 * t * (∑ k, u k * kq k) + t ^ 2 * kqq) :
    form kern (fun i => st.α i - st'.α i) (fun i => st.α i - st'.α i) ≤ 4 * m * C * eps ∧ (∑ k, st.α k * kq k - ∑ k, st'.α k * kq k) ^ 2 ≤ 4 * m * C * eps * kqq := by
  obtain ⟨hb, hs⟩ := C38_train kern Y hC eps tol maxPasses draws fuel st h
  obtain ⟨hb', hs'⟩ := C38_train kern Y hC eps tol' maxPasses' draws' fuel' st' h'
  have h1 := svr_close kern Y he st.α st'.α st.b st'.b hb hb' hs hs' hk hk'
  refine ⟨h1, ?_⟩
  have h2 := value_bound kern kq kqq hpsd (fun i => st.α i - st'.α i)
  have h0 : 0 ≤ kqq := by
    have := hpsd (fun _ => 0) 1
    simpa [form] using this
  simp only [sub_mul, Finset.sum_sub_distrib] at h2
  exact h2.trans (mul_le_mul_of_nonneg_right h1 h0)

omit [IsStrictOrderedRing K] [LinearOrder K] in
/-- Sums of a function that vanishes outside the range of an injection. -/
theorem sum_kept {m' : ℕ} (e : Fin m' → Fin m) (hinj : Function.Injective e) (g : Fin m → K) (h : ∀ i, (∀ k, e k ≠ i) → g i = 0) : ∑ k, g (e k) = ∑ i, g i := by
  rw [← Finset.sum_image (s := Finset.univ) (f := g) (g := e) (fun a _ b _ hab => hinj hab)]
  refine Finset.sum_subset (Finset.subset_univ _) fun i _ hi => h i fun k hk => hi (Finset.mem_image.2 ⟨k, Finset.mem_univ _, hk⟩)

/-- **C231, only support vectors matter.** Training of an SVC has ended with the optimality conditions met. On the training samples that remain when any samples with multiplier 0 are removed (`e` lists the remaining ones), the same function still minimises the cost up to `m'·C·Epsilon`. -/
theorem C231_support_only (kern : Fin m → Fin m → K) (hsym : ∀ i j, kern i j = kern j i) (hpsd : ∀ u, 0 ≤ form kern u u) (Y : Fin m → K) (hY : ∀ i, Y i = 1 ∨ Y i = -1) {C eps : K} (hC : 0 ≤ C) (he : 0 ≤ eps) (tol : K)
    (maxPasses : ℕ) (draws : ℕ → Fin m → ℕ) (fuel : ℕ) (st : St m K) (h : loop (svcStep kern Y C eps tol) maxPasses draws fuel 0 0 (start m K) = .done st) (hk : SvcKkt kern Y C eps st.α st.b)
    {m' : ℕ} (e : Fin m' → Fin m) (hinj : Function.Injective e) (hzero : ∀ i, (∀ k, e k ≠ i) → st.α i = 0) :
    (∀ i, ∑ k, st.α (e k) * Y (e k) * kern (e k) i + st.b = svcValue kern Y st.α st.b i) ∧
      ∀ u b, svcCost (fun k l => kern (e k) (e l)) (fun k => Y (e k)) C (fun k => st.α (e k) * Y (e k)) st.b ≤ svcCost (fun k l => kern (e k) (e l)) (fun k => Y (e k)) C u b + m' * C * eps := by
  obtain ⟨hbox, hbal⟩ := C37_train kern Y hY hC eps tol maxPasses draws fuel st h
  have hval : ∀ i, ∑ k, st.α (e k) * Y (e k) * kern (e k) i + st.b = svcValue kern Y st.α st.b i := by
    intro i
    unfold svcValue
    rw [sum_kept e hinj (fun k => st.α k * Y k * kern k i) (fun k hk => by simp [hzero k hk])]
  refine ⟨hval, fun u b => ?_⟩
  have hb' : ∀ k, 0 ≤ st.α (e k) ∧ st.α (e k) ≤ C := fun k => hbox (e k)
  have hs' : ∑ k, st.α (e k) * Y (e k) = 0 := by
    rw [sum_kept e hinj (fun k => st.α k * Y k) (fun k hk => by simp [hzero k hk]), hbal]
  have hk' : SvcKkt (fun k l => kern (e k) (e l)) (fun k => Y (e k)) C eps (fun k => st.α (e k)) st.b := by
    intro k
    have hv : svcValue (fun k l => kern (e k) (e l)) (fun k => Y (e k)) (fun k => st.α (e k)) st.b k = svcValue kern Y st.α st.b (e k) := hval (e k)
    rw [hv]
    exact hk (e k)
  have hpsd' : ∀ u, 0 ≤ form (fun k l => kern (e k) (e l)) u u := by
    intro u
    classical
    have hz := hpsd (fun i => ∑ k, if e k = i then u k else 0)
    have e1 : form kern (fun i => ∑ k, if e k = i then u k else 0) (fun i => ∑ k, if e k = i then u k else 0) = form (fun k l => kern (e k) (e l)) u u := by
      unfold form
      have out : ∀ i, (∀ k, e k ≠ i) → (∑ k, if e k = i then u k else 0) = 0 := fun i hi => Finset.sum_eq_zero fun k _ => if_neg (hi k)
      have at_ : ∀ k, (∑ l, if e l = e k then u l else 0) = u k := by
        intro k
        rw [Finset.sum_eq_single k]
        · simp
        · intro l _ hl
          exact if_neg fun hc => hl (hinj hc)
        · simp
      rw [← sum_kept e hinj (fun i => ∑ j, (∑ k, if e k = i then u k else 0) * (∑ k, if e k = j then u k else 0) * kern i j) (fun i hi => Finset.sum_eq_zero fun j _ => by rw [out i hi]; ring)]
      refine Finset.sum_congr rfl fun k _ => ?_
      rw [← sum_kept e hinj (fun j => (∑ l, if e l = e k then u l else 0) * (∑ l, if e l = j then u l else 0) * kern (e k) j) (fun i hi => by rw [out i hi]; ring)]
      refine Finset.sum_congr rfl fun l _ => ?_
      rw [at_, at_]
    rwa [e1] at hz
  have h1 := svc_gap (fun k l => kern (e k) (e l)) (fun k => Y (e k)) C eps he (fun k => st.α (e k)) st.b hb' hs' hk'
  have h2 := svc_weak (fun k l => kern (e k) (e l)) (fun k l => hsym _ _) hpsd' (fun k => Y (e k)) C (fun k => st.α (e k)) hb' hs' u b
  linarith

/-- **C231, errors and support vectors.** Training of an SVC has ended with the optimality conditions met: the samples of one class that are misclassified, or correct by less than `1 - Epsilon`, are at most as many as the support vectors of the other class. -/
theorem C231_errors (kern : Fin m → Fin m → K) (Y : Fin m → K) (hY : ∀ i, Y i = 1 ∨ Y i = -1) {C eps : K} (hC : 0 < C) (tol : K) (maxPasses : ℕ) (draws : ℕ → Fin m → ℕ) (fuel : ℕ) (st : St m K)
    (h : loop (svcStep kern Y C eps tol) maxPasses draws fuel 0 0 (start m K) = .done st) (hk : SvcKkt kern Y C eps st.α st.b) (c : K) (hc : c = 1 ∨ c = -1) :
    (Finset.univ.filter (fun i => Y i = c ∧ Y i * svcValue kern Y st.α st.b i < 1 - eps)).card ≤ (Finset.univ.filter (fun i => Y i = -c ∧ 0 < st.α i)).card := by
  obtain ⟨hbox, hbal⟩ := C37_train kern Y hY hC.le eps tol maxPasses draws fuel st h
  have hcc : c * c = 1 := by rcases hc with rfl | rfl <;> ring
  have hne : c ≠ -c := by
    intro hcon
    have h0 : c = 0 := by linarith
    rw [h0] at hcc
    simp at hcc
  have hsplit : ∑ i ∈ Finset.univ.filter (fun i => Y i = c), st.α i = ∑ i ∈ Finset.univ.filter (fun i => Y i = -c), st.α i := by
    have e : ∀ i, st.α i * Y i = c * ((if Y i = c then st.α i else 0) - (if Y i = -c then st.α i else 0)) := by
      intro i
      have hi : Y i = c ∨ Y i = -c := by
        rcases hY i with h1 | h1 <;> rcases hc with h2 | h2 <;> simp [h1, h2]
      rcases hi with h1 | h1
      · rw [h1, if_pos rfl, if_neg hne]; ring
      · rw [h1, if_pos rfl, if_neg (Ne.symm hne)]; ring
    rw [Finset.sum_congr rfl (fun i _ => e i), ← Finset.mul_sum, Finset.sum_sub_distrib, ← Finset.sum_filter, ← Finset.sum_filter] at hbal
    have hc0 : c ≠ 0 := by rintro rfl; simp at hcc
    exact sub_eq_zero.1 ((mul_eq_zero.1 hbal).resolve_left hc0)
  have h1 : ((Finset.univ.filter (fun i => Y i = c ∧ Y i * svcValue kern Y st.α st.b i < 1 - eps)).card : K) * C ≤ ∑ i ∈ Finset.univ.filter (fun i => Y i = c), st.α i := by
    have : ((Finset.univ.filter (fun i => Y i = c ∧ Y i * svcValue kern Y st.α st.b i < 1 - eps)).card : K) * C = ∑ _i ∈ Finset.univ.filter (fun i => Y i = c ∧ Y i * svcValue kern Y st.α st.b i < 1 - eps), C := by
      rw [Finset.sum_const, nsmul_eq_mul]
    rw [this]
    refine (Finset.sum_le_sum (g := st.α) fun i hi => (hk i).1 (Finset.mem_filter.1 hi).2.2).trans ?_
    refine Finset.sum_le_sum_of_subset_of_nonneg ?_ fun i _ _ => (hbox i).1
    intro i hi
    exact Finset.mem_filter.2 ⟨Finset.mem_univ _, (Finset.mem_filter.1 hi).2.1⟩
  have h2 : ∑ i ∈ Finset.univ.filter (fun i => Y i = -c), st.α i ≤ ((Finset.univ.filter (fun i => Y i = -c ∧ 0 < st.α i)).card : K) * C := by
    have : ((Finset.univ.filter (fun i => Y i = -c ∧ 0 < st.α i)).card : K) * C = ∑ _i ∈ Finset.univ.filter (fun i => Y i = -c ∧ 0 < st.α i), C := by
      rw [Finset.sum_const, nsmul_eq_mul]
    rw [this]
    refine le_trans (le_of_eq ?_) (Finset.sum_le_sum (f := st.α) fun i _ => (hbox i).2)
    refine (Finset.sum_subset ?_ ?_).symm
    · intro i hi
      exact Finset.mem_filter.2 ⟨Finset.mem_univ _, (Finset.mem_filter.1 hi).2.1⟩
    · intro i hi hn
      by_contra hpos
      exact hn (Finset.mem_filter.2 ⟨Finset.mem_univ _, (Finset.mem_filter.1 hi).2, lt_of_le_of_ne (hbox i).1 (Ne.symm hpos)⟩)
  rw [hsplit] at h1
  have := le_of_mul_le_mul_right (h1.trans h2) hC
  exact_mod_cast this

/-- Two samples, kernel twice the identity, labels 1 and -1: training ends with the conditions met, both samples are support vectors. -/
example : (match loop (svcStep (K := ℚ) (fun i j => if i = j then 2 else 0) ![1, -1] 1 (1 / 10) (1 / 1000)) 3 (fun _ _ => 0) 5 0 0 (start 2 ℚ) with
    | .done st => decide (∀ i, (![1, -1] i * svcValue (K := ℚ) (fun i j => if i = j then 2 else 0) ![1, -1] st.α st.b i < 1 - 1 / 10 → 1 ≤ st.α i) ∧ (1 + 1 / 10 < ![1, -1] i * svcValue (K := ℚ) (fun i j => if i = j then 2 else 0) ![1, -1] st.α st.b i → st.α i ≤ 0))
    | _ => false) = true := by decide +kernel

end Sk.Svm
