import Verif.Props.KMeans
import Verif.Props.NaiveBayesPredict
import Verif.Props.Logistic
import Verif.Model.SvmState
import Verif.Lemmas.GoSort
import Verif.Lemmas.ListX
import Mathlib.Tactic.Linarith
import Mathlib.Tactic.Ring
import Mathlib.Tactic.FieldSimp
import Mathlib.Tactic.Positivity

/-! # C225: what estimators predict between two rows, and far from the training rows -/
set_option autoImplicit false

namespace Sk.Regions

/-! ### Specification -/

/-- The point that divides the segment from `a` to `b` at the fraction `t`. -/
def between {K : Type} [Ring K] (t : K) (a b : List K) : List K := List.zipWith (fun u v => u + t * (v - u)) a b

section General

variable {K : Type} [Field K] [LinearOrder K] [IsStrictOrderedRing K]

theorem between_length (t : K) {a b : List K} (h : a.length = b.length) : (between t a b).length = a.length := by
  simp [between, h]

theorem between_getD (t : K) {a b : List K} (h : a.length = b.length) (j : ℕ) : (between t a b).getD j 0 = a.getD j 0 + t * (b.getD j 0 - a.getD j 0) := by
  simp only [between, List.getD_eq_getElem?_getD, List.getElem?_zipWith]
  by_cases hj : j < a.length
  · rw [List.getElem?_eq_getElem hj, List.getElem?_eq_getElem (by omega : j < b.length)]
    simp
  · rw [List.getElem?_eq_none (by omega), List.getElem?_eq_none (by omega : b.length ≤ j)]
    simp

theorem mix_le {t u v u' v' e : K} (h0 : 0 ≤ t) (h1 : t ≤ 1) (h : u ≤ v) (h' : u' ≤ v') : (1 - t) * u + t * u' + e ≤ (1 - t) * v + t * v' + e := by
  have a := mul_le_mul_of_nonneg_left h (sub_nonneg.2 h1)
  have b := mul_le_mul_of_nonneg_left h' h0
  linarith

theorem mix_lt {t u v u' v' e : K} (h0 : 0 ≤ t) (h1 : t ≤ 1) (h : u < v) (h' : u' < v') : (1 - t) * u + t * u' + e < (1 - t) * v + t * v' + e := by
  rcases eq_or_lt_of_le h0 with h2 | h2
  · subst h2; linarith
  · have a := mul_le_mul_of_nonneg_left h.le (sub_nonneg.2 h1)
    have b := mul_lt_mul_of_pos_left h' h2
    linarith

end General

/-! ### KMeans -/

section KMeans

open Sk.KMeans

variable {K : Type} [Field K] [LinearOrder K] [IsStrictOrderedRing K] {D : Type} [LinearOrder D]

theorem sqd_between (m : ℕ) (t : K) {a b : List K} (h : a.length = b.length) (c : List K) :
    sqd m (between t a b) c = (1 - t) * sqd m a c + t * sqd m b c + -(∑ j ∈ Finset.range m, t * (1 - t) * (b.getD j 0 - a.getD j 0) ^ 2) := by
  rw [sqd, sqd, sqd, Finset.mul_sum, Finset.mul_sum, ← Finset.sum_add_distrib, ← Finset.sum_neg_distrib, ← Finset.sum_add_distrib]
  apply Finset.sum_congr rfl
  intro j _
  rw [between_getD t h]
  ring

/-- **C225, KMeans.** If two rows are assigned to the same cluster, so is every row between them. -/
theorem C225_kmeans {dist : List K → List K → D} {m : ℕ} (hd : ∀ a b c : List K, a.length = m → b.length = m → c.length = m → (dist a b ≤ dist a c ↔ sqd m a b ≤ sqd m a c))
    {C : List (List K)} (hC : ∀ c ∈ C, c.length = m) (a b : List K) (ha : a.length = m) (hb : b.length = m) {t : K} (h0 : 0 ≤ t) (h1 : t ≤ 1) (k : ℕ) (h : labels dist C [a, b] = some [k, k]) :
    labels dist C [between t a b] = some [k] := by
  have hab : a.length = b.length := by omega
  have hne : C ≠ [] := by
    rintro rfl
    simp [labels, nearest] at h
  obtain ⟨ka, hka, ea, la, sa⟩ := nearest_spec dist C hne a
  obtain ⟨kb, hkb, eb, lb, sb⟩ := nearest_spec dist C hne b
  obtain ⟨kc, hkc, ec, lc, sc⟩ := nearest_spec dist C hne (between t a b)
  have hk : ka = k ∧ kb = k := by
    simp only [labels, List.mapM_cons, List.mapM_nil, ea, eb] at h
    simpa using h
  obtain ⟨rfl, rfl⟩ := hk
  have hm := (between_length t hab).trans ha
  have hlen : ∀ (j : ℕ) (hj : j < C.length), C[j].length = m := fun j hj => hC _ (List.getElem_mem hj)
  have hlt : ∀ x y z : List K, x.length = m → y.length = m → z.length = m → (dist x y < dist x z ↔ sqd m x y < sqd m x z) := fun x y z hx hy hz => by
    rw [← not_le, ← not_le, hd x z y hx hz hy]
  have e : kc = kb := by
    rcases lt_trichotomy kc kb with g | g | g
    · have u := (hlt _ _ _ ha (hlen _ hkb) (hlen _ hkc)).1 (sa kc hkc g)
      have v := (hlt _ _ _ hb (hlen _ hkb) (hlen _ hkc)).1 (sb kc hkc g)
      have w := (hd _ _ _ hm (hlen _ hkc) (hlen _ hkb)).1 (lc kb hkb)
      rw [sqd_between m t hab, sqd_between m t hab] at w
      exact absurd w (not_le.2 (mix_lt h0 h1 u v))
    · exact g
    · have u := (hd _ _ _ ha (hlen _ hkb) (hlen _ hkc)).1 (la kc hkc)
      have v := (hd _ _ _ hb (hlen _ hkb) (hlen _ hkc)).1 (lb kc hkc)
      have w := (hlt _ _ _ hm (hlen _ hkc) (hlen _ hkb)).1 (sc kb hkb g)
      rw [sqd_between m t hab, sqd_between m t hab] at w
      exact absurd w (not_lt.2 (mix_le h0 h1 u v))
  rw [labels, List.mapM_cons, List.mapM_nil, ec, e]
  rfl

example : labels (D := ℚ) (fun a b => sqd 2 a b) [[0, 0], [4, 0]] [[0, 1], [1, 5]] = some [0, 0] ∧ labels (D := ℚ) (fun a b => sqd 2 a b) [[0, 0], [4, 0]] [between (1 / 4) [0, 1] [1, 5]] = some [0] := by decide +kernel

end KMeans

/-! ### Support vector machines -/

section Svm

open Sk.SvmState

variable {K : Type} [Field K] [LinearOrder K] [IsStrictOrderedRing K]

theorem linear_between (t : K) : ∀ (a b r : List K), a.length = b.length → Svm.linearKernel (between t a b) r = (1 - t) * Svm.linearKernel a r + t * Svm.linearKernel b r
  | [], [], r, _ => by simp [Svm.linearKernel, between]
  | u :: a, v :: b, [], _ => by simp [Svm.linearKernel]
  | u :: a, v :: b, w :: r, h => by
    have ih := linear_between t a b r (by simpa using h)
    simp only [Svm.linearKernel, between, List.zipWith_cons_cons, List.sum_cons] at ih ⊢
    rw [ih]
    ring

theorem decision_between (t : K) (M : SvmState.Model K) (hM : M.kernel = Svm.linearKernel) {a b : List K} (h : a.length = b.length) : decision M (between t a b) = (1 - t) * decision M a + t * decision M b := by
  have key : ∀ cs rs : List _, (List.zipWith (fun c r => c * Svm.linearKernel (between t a b) r) cs rs).sum =
      (1 - t) * (List.zipWith (fun c r => c * Svm.linearKernel a r) cs rs).sum + t * (List.zipWith (fun c r => c * Svm.linearKernel b r) cs rs).sum := by
    intro cs
    induction cs with
    | nil => intro rs; simp
    | cons c cs ih =>
      intro rs
      cases rs with
      | nil => simp
      | cons r rs =>
        simp only [List.zipWith_cons_cons, List.sum_cons]
        rw [ih rs, linear_between t a b r h]
        ring
  rw [decision, decision, decision, hM, key]
  ring

/-- The state after a successful fit: the models of the fitted estimator, with the kernel of its settings and rows of the training data. -/
theorem fit_models {D : Type} (F : Fns K) (solve : Solve K D) (st st' : St K) (i : ℕ) (X Y : List (List K)) (d : ℕ → D) (hf : fit F solve st i X Y d = some st') (o : Obj K) (ho : st.objs[i]? = some o) :
    ∃ (k : List K → List K → K) (ms : List (SvmState.Model K)), kernelOf F (if o.gamma ≤ 0 then 1 / (width X : K) else o.gamma) o.rest = some k ∧ ms.length = Y.length ∧ (∀ M ∈ ms, M.kernel = k ∧ ∀ r ∈ M.rows, r ∈ X) ∧
      ∀ binary x, predict binary st' i x = some (ms.map (fun M => if binary then (if 0 ≤ decision M x then 1 else 0) else decision M x)) := by
  rw [fit, ho] at hf
  simp only [Option.bind_eq_bind, Option.bind_some] at hf
  rw [Option.bind_eq_some_iff] at hf
  obtain ⟨k, hk, hf⟩ := hf
  rw [Option.bind_eq_some_iff] at hf
  obtain ⟨ms, hms, hf⟩ := hf
  cases hf
  have hall := (Sk.ListX.mapM_forall2 _ _ _).1 hms
  have hlen : ms.length = Y.length := by simpa using hall.length_eq.symm
  refine ⟨k, ms, hk, hlen, ?_, ?_⟩
  · intro M hM
    obtain ⟨j, hj, rfl⟩ := List.getElem_of_mem hM
    have hj' := List.forall₂_iff_get.1 hall |>.2 j (by simpa [hlen] using hj) hj
    simp only [List.get_eq_getElem, List.getElem_range] at hj'
    rw [Option.bind_eq_some_iff] at hj'
    obtain ⟨y, hy, hj'⟩ := hj'
    rw [trainOutput] at hj'
    simp only [Option.bind_eq_bind] at hj'
    rw [Option.bind_eq_some_iff] at hj'
    obtain ⟨⟨sup, b⟩, hs, hj'⟩ := hj'
    rw [Option.bind_eq_some_iff] at hj'
    obtain ⟨rows, hr, hj'⟩ := hj'
    have hj'' := Option.some.inj hj'
    rw [← hj'']
    refine ⟨rfl, fun r hr' => ?_⟩
    obtain ⟨q, hq, rfl⟩ := List.getElem_of_mem hr'
    have h2 := (Sk.ListX.mapM_forall2 _ _ _).1 hr
    have h3 := List.forall₂_iff_get.1 h2 |>.2 q (by rw [h2.length_eq]; exact hq) hq
    exact List.mem_of_getElem? h3
  · intro binary x
    have hi : i < st.objs.length := (List.getElem?_eq_some_iff.1 ho).1
    rw [predict]
    simp only [List.getElem?_set_self hi, Option.bind_eq_bind, Option.bind_some, List.getElem?_concat_length]
    rw [← hlen]
    apply (Sk.ListX.mapM_forall2 _ _ _).2
    rw [List.forall₂_iff_get]
    refine ⟨by simp, fun j h1 h2 => ?_⟩
    simp only [List.get_eq_getElem, List.getElem_range, List.getElem_map]
    rw [List.getElem?_eq_getElem (by simpa using h1)]
    rfl

/-- **C225, linear kernel.** After a fit with the linear kernel, the value which `SVR` predicts between two rows is the value between its predictions for the two rows; every label which `SVC` predicts for both rows it predicts for all rows between them. -/
theorem C225_linear {D : Type} (F : Fns K) (solve : Solve K D) (st st' : St K) (i : ℕ) (X Y : List (List K)) (d : ℕ → D) (hf : fit F solve st i X Y d = some st') (o : Obj K) (ho : st.objs[i]? = some o) (hk : o.rest.kernel = .name "linear")
    (a b : List K) (hab : a.length = b.length) {t : K} (h0 : 0 ≤ t) (h1 : t ≤ 1) :
    (∃ ya yb, predict false st' i a = some ya ∧ predict false st' i b = some yb ∧ ya.length = Y.length ∧ yb.length = Y.length ∧ predict false st' i (between t a b) = some (between t ya yb)) ∧
    (∃ ya yb yc, predict true st' i a = some ya ∧ predict true st' i b = some yb ∧ predict true st' i (between t a b) = some yc ∧ yc.length = Y.length ∧ ∀ j < Y.length, ya[j]? = yb[j]? → yc[j]? = ya[j]?) := by
  obtain ⟨k, ms, hk', hlen, hM, hp⟩ := fit_models F solve st st' i X Y d hf o ho
  have hkl : k = Svm.linearKernel := by
    rw [kernelOf, hk] at hk'
    simpa using hk'.symm
  subst hkl
  have hb : ∀ M ∈ ms, decision M (between t a b) = (1 - t) * decision M a + t * decision M b := fun M h => decision_between t M (hM M h).1 hab
  constructor
  · refine ⟨_, _, hp false a, hp false b, by simpa using hlen, by simpa using hlen, ?_⟩
    rw [hp false]
    congr 1
    simp only [Bool.false_eq_true, if_false]
    have e : between t (ms.map (fun M => decision M a)) (ms.map (fun M => decision M b)) = ms.map (fun M => decision M a + t * (decision M b - decision M a)) := by
      rw [between, List.zipWith_map, List.zipWith_self]
    rw [e]
    apply List.map_congr_left
    intro M h
    rw [hb M h]
    ring
  · refine ⟨_, _, _, hp true a, hp true b, hp true (between t a b), by simpa using hlen, ?_⟩
    intro j hj e
    have hj' : j < ms.length := by omega
    simp only [if_true, List.getElem?_map, List.getElem?_eq_getElem hj', Option.map_some, Option.some.injEq] at e ⊢
    rw [hb _ (List.getElem_mem hj')]
    by_cases ca : 0 ≤ decision ms[j] a
    · rw [if_pos ca] at e
      have cb : 0 ≤ decision ms[j] b := by
        by_contra hc
        rw [if_neg hc] at e
        exact one_ne_zero e
      rw [if_pos ca, if_pos (add_nonneg (mul_nonneg (sub_nonneg.2 h1) ca) (mul_nonneg h0 cb))]
    · rw [if_neg ca] at e
      have cb : ¬ 0 ≤ decision ms[j] b := by
        intro hc
        rw [if_pos hc] at e
        exact one_ne_zero e.symm
      push Not at ca cb
      have := mix_lt (e := 0) h0 h1 ca cb
      simp only [mul_zero, add_zero] at this
      rw [if_neg (not_le.2 ca), if_neg (not_le.2 this)]

/-- Squared distance of two rows. -/
def sqDist (a b : List ℝ) : ℝ := (List.zipWith (fun x y => (x - y) * (x - y)) a b).sum

theorem rbf_far (M : SvmState.Model ℝ) {gamma : ℝ} (hg : 0 < gamma) (hM : M.kernel = Svm.rbfKernel Real.exp gamma) {ε : ℝ} (hε : 0 < ε) :
    ∃ R : ℝ, ∀ x, (∀ r ∈ M.rows, R ≤ sqDist x r) → |decision M x - M.b| ≤ ε := by
  set S := (M.coefs.map abs).sum with hS
  have hS0 : 0 ≤ S := List.sum_nonneg (by
    intro v hv
    obtain ⟨c, _, rfl⟩ := List.mem_map.1 hv
    exact abs_nonneg c)
  refine ⟨Real.log ((S + 1) / ε) / gamma, fun x hx => ?_⟩
  have hS1 : 0 < S + 1 := by linarith
  have hker : ∀ r ∈ M.rows, M.kernel x r ≤ ε / (S + 1) ∧ 0 ≤ M.kernel x r := by
    intro r hr
    rw [hM, Svm.rbfKernel]
    refine ⟨?_, (Real.exp_pos _).le⟩
    have h1 := hx r hr
    rw [div_le_iff₀ hg] at h1
    have h2 : -gamma * sqDist x r ≤ -Real.log ((S + 1) / ε) := by nlinarith
    calc Real.exp (-gamma * sqDist x r) ≤ Real.exp (-Real.log ((S + 1) / ε)) := Real.exp_le_exp.2 h2
      _ = ε / (S + 1) := by rw [Real.exp_neg, Real.exp_log (by positivity), inv_div]
  have key : ∀ (cs : List ℝ) (rs : List (List ℝ)), (∀ r ∈ rs, M.kernel x r ≤ ε / (S + 1) ∧ 0 ≤ M.kernel x r) → |(List.zipWith (fun c r => c * M.kernel x r) cs rs).sum| ≤ (cs.map abs).sum * (ε / (S + 1)) := by
    intro cs
    have he : 0 ≤ ε / (S + 1) := by positivity
    induction cs with
    | nil => intro rs _; simp
    | cons c cs ih =>
      intro rs hrs
      cases rs with
      | nil =>
        simp only [List.zipWith_nil_right, List.sum_nil, abs_zero]
        refine mul_nonneg (List.sum_nonneg ?_) he
        intro v hv
        obtain ⟨c, _, rfl⟩ := List.mem_map.1 hv
        exact abs_nonneg c
      | cons r rs =>
        simp only [List.zipWith_cons_cons, List.sum_cons, List.map_cons]
        have h1 := ih rs (fun r hr => hrs r (List.mem_cons_of_mem _ hr))
        obtain ⟨h2, h3⟩ := hrs r List.mem_cons_self
        have h4 : |c * M.kernel x r| ≤ |c| * (ε / (S + 1)) := by
          rw [abs_mul, abs_of_nonneg h3]
          exact mul_le_mul_of_nonneg_left h2 (abs_nonneg c)
        calc _ ≤ |c * M.kernel x r| + |(List.zipWith (fun c r => c * M.kernel x r) cs rs).sum| := abs_add_le _ _
          _ ≤ _ := by rw [add_mul]; exact add_le_add h4 h1
  rw [decision, add_sub_cancel_right]
  refine (key _ _ hker).trans ?_
  rw [← hS, mul_div_assoc', div_le_iff₀ hS1]
  nlinarith

/-- **C225, far away.** After a fit with the radial basis kernel, predictions for queries far from all training rows do not depend on the query: those of `SVR` come as close to each other as wanted, and those of `SVC` are equal as soon as no offset is 0 (`bs`: the offsets of the outputs). -/
theorem C225_far {D : Type} (F : Fns ℝ) (hF : F.exp = Real.exp) (solve : Solve ℝ D) (st st' : St ℝ) (i : ℕ) (X Y : List (List ℝ)) (d : ℕ → D) (hf : fit F solve st i X Y d = some st') (o : Obj ℝ) (ho : st.objs[i]? = some o) (hk : o.rest.kernel = .name "rbf")
    (hw : 0 < o.gamma ∨ 0 < width X) :
    ∃ bs : List ℝ, bs.length = Y.length ∧
      (∀ ε, 0 < ε → ∃ R, ∀ x, (∀ r ∈ X, R ≤ sqDist x r) → ∃ y, predict false st' i x = some y ∧ List.Forall₂ (fun v b => |v - b| ≤ ε) y bs) ∧
      ((∀ b ∈ bs, b ≠ 0) → ∃ R, ∀ x, (∀ r ∈ X, R ≤ sqDist x r) → predict true st' i x = some (bs.map (fun b => if 0 ≤ b then 1 else 0))) := by
  obtain ⟨k, ms, hk', hlen, hM, hp⟩ := fit_models F solve st st' i X Y d hf o ho
  set g : ℝ := if o.gamma ≤ 0 then 1 / (width X : ℝ) else o.gamma with hgd
  have hg : 0 < g := by
    rw [hgd]
    split
    · rename_i h
      have : 0 < width X := hw.resolve_left (not_lt.2 h)
      positivity
    · rename_i h
      exact not_le.1 h
  have hkl : k = Svm.rbfKernel Real.exp g := by
    rw [kernelOf, hk, hF] at hk'
    simp at hk'
    exact hk'.symm
  subst hkl
  have hall : ∀ (l : List (SvmState.Model ℝ)), (∀ M ∈ l, M ∈ ms) → ∀ ε : SvmState.Model ℝ → ℝ, (∀ M ∈ l, 0 < ε M) → ∃ R : ℝ, ∀ x, (∀ r ∈ X, R ≤ sqDist x r) → ∀ M ∈ l, |decision M x - M.b| ≤ ε M := by
    intro l
    induction l with
    | nil => intro _ ε _; exact ⟨0, fun x _ M h => by simp at h⟩
    | cons M l ih =>
      intro hl ε hε
      obtain ⟨R1, h1⟩ := ih (fun N hN => hl N (List.mem_cons_of_mem _ hN)) ε (fun N hN => hε N (List.mem_cons_of_mem _ hN))
      obtain ⟨R2, h2⟩ := rbf_far M hg (hM M (hl M List.mem_cons_self)).1 (hε M List.mem_cons_self)
      refine ⟨max R1 R2, fun x hx N hN => ?_⟩
      rcases List.mem_cons.1 hN with e | e
      · subst e
        exact h2 x (fun r hr => (le_max_right _ _).trans (hx r ((hM N (hl N List.mem_cons_self)).2 r hr)))
      · exact h1 x (fun r hr => (le_max_left _ _).trans (hx r hr)) N e
  refine ⟨ms.map (fun M => M.b), by simpa using hlen, ?_, ?_⟩
  · intro ε hε
    obtain ⟨R, hR⟩ := hall ms (fun _ h => h) (fun _ => ε) (fun _ _ => hε)
    refine ⟨R, fun x hx => ⟨_, hp false x, ?_⟩⟩
    simp only [Bool.false_eq_true, if_false]
    rw [List.forall₂_map_left_iff, List.forall₂_map_right_iff]
    exact List.forall₂_same.2 (hR x hx)
  · intro hne
    have hne' : ∀ M ∈ ms, M.b ≠ 0 := fun M h => hne _ (List.mem_map.2 ⟨M, h, rfl⟩)
    obtain ⟨R, hR⟩ := hall ms (fun _ h => h) (fun M => |M.b| / 2) (fun M h => by have := abs_pos.2 (hne' M h); linarith)
    refine ⟨R, fun x hx => ?_⟩
    rw [hp true x, List.map_map]
    congr 1
    simp only [if_true]
    apply List.map_congr_left
    intro M h
    have h1 := abs_le.1 (hR x hx M h)
    simp only [Function.comp]
    rcases lt_or_gt_of_ne (hne' M h) with hb | hb
    · rw [abs_of_neg hb] at h1
      rw [if_neg (by linarith [h1.2]), if_neg (not_le.2 hb)]
    · rw [abs_of_pos hb] at h1
      rw [if_pos (by linarith [h1.1]), if_pos hb.le]

/-- Two rows become support vectors of the only output: the difference of the features decides. -/
example : ((fit (⟨id, id, fun a _ => a⟩ : Fns ℚ) (fun _ _ _ _ (_ : Unit) => some ([(0, 1), (1, -1)], 0)) ⟨[⟨0, ⟨1, 1 / 10, .name "linear", 3, 0, 1 / 1000, 0⟩, 0, none⟩], []⟩ 0 [[1, 2], [2, 1]] [[1, -1]] (fun _ => ())).bind (fun st => predict true st 0 [0, 5]) = some [1]) ∧
    ((fit (⟨id, id, fun a _ => a⟩ : Fns ℚ) (fun _ _ _ _ (_ : Unit) => some ([(0, 1), (1, -1)], 0)) ⟨[⟨0, ⟨1, 1 / 10, .name "linear", 3, 0, 1 / 1000, 0⟩, 0, none⟩], []⟩ 0 [[1, 2], [2, 1]] [[1, -1]] (fun _ => ())).bind (fun st => predict true st 0 [5, 0]) = some [0]) := by decide +kernel

end Svm

/-! ### GaussianNB -/

section NB

open Sk.NB

theorem jll1_sum (prior : ℝ) (s : Stat ℝ) (x : List ℝ) : jll1 prior s x = Real.log prior + -(∑ j ∈ Finset.range x.length, (0.5 * Real.log (2 * Real.pi * s.va.getD j 0) + 0.5 * (x.getD j 0 - s.mu.getD j 0) * (x.getD j 0 - s.mu.getD j 0) / s.va.getD j 0)) := by
  have key : ∀ n (c : ℝ), (List.range n).foldl (fun nij j =>
    let v := s.va.getD j 0
    let nij := nij - 0.5 * Real.log (2 * Real.pi * v)
    let xd := x.getD j 0 - s.mu.getD j 0
    nij - 0.5 * xd * xd / v) c = c + -(∑ j ∈ Finset.range n, (0.5 * Real.log (2 * Real.pi * s.va.getD j 0) + 0.5 * (x.getD j 0 - s.mu.getD j 0) * (x.getD j 0 - s.mu.getD j 0) / s.va.getD j 0)) := by
    intro n
    induction n with
    | zero => intro c; simp
    | succ n ih =>
      intro c
      rw [List.range_succ, List.foldl_append, ih, Finset.sum_range_succ]
      simp only [List.foldl_cons, List.foldl_nil]
      ring
  rw [jll1, key, zero_add]

/-- With the same variances in all classes, the joint log likelihood between two rows is the one between those of the rows, plus a term that is the same for all classes. -/
theorem jll1_between (t : ℝ) {a b : List ℝ} (h : a.length = b.length) (v : List ℝ) (prior : ℝ) (s : Stat ℝ) (hs : s.va = v) :
    jll1 prior s (between t a b) = (1 - t) * jll1 prior s a + t * jll1 prior s b + ∑ j ∈ Finset.range a.length, 0.5 * (t * (1 - t)) * (b.getD j 0 - a.getD j 0) ^ 2 / v.getD j 0 := by
  rw [jll1_sum, jll1_sum, jll1_sum, between_length t h, ← h, hs]
  have e : ∑ j ∈ Finset.range a.length, (0.5 * Real.log (2 * Real.pi * v.getD j 0) + 0.5 * ((between t a b).getD j 0 - s.mu.getD j 0) * ((between t a b).getD j 0 - s.mu.getD j 0) / v.getD j 0) =
      (1 - t) * (∑ j ∈ Finset.range a.length, (0.5 * Real.log (2 * Real.pi * v.getD j 0) + 0.5 * (a.getD j 0 - s.mu.getD j 0) * (a.getD j 0 - s.mu.getD j 0) / v.getD j 0)) +
      t * (∑ j ∈ Finset.range a.length, (0.5 * Real.log (2 * Real.pi * v.getD j 0) + 0.5 * (b.getD j 0 - s.mu.getD j 0) * (b.getD j 0 - s.mu.getD j 0) / v.getD j 0)) -
      ∑ j ∈ Finset.range a.length, 0.5 * (t * (1 - t)) * (b.getD j 0 - a.getD j 0) ^ 2 / v.getD j 0 := by
    rw [Finset.mul_sum, Finset.mul_sum, ← Finset.sum_add_distrib, ← Finset.sum_sub_distrib]
    apply Finset.sum_congr rfl
    intro j _
    rw [between_getD t h]
    ring
  rw [e]
  ring

/-- The first largest entry. -/
theorem maxIdx_first (l : List ℝ) (i : ℕ) (hi : i < l.length) (h1 : ∀ (k : ℕ) (hk : k < l.length), l[k] ≤ l[i]) (h2 : ∀ (k : ℕ) (hk : k < l.length), k < i → l[k] < l[i]) : (NB.maxIdx l).1 = i := by
  obtain ⟨hm, e, m1, m2⟩ := maxIdx_spec l (by rintro rfl; simp at hi)
  rcases lt_trichotomy (NB.maxIdx l).1 i with g | g | g
  · have := h2 _ hm g
    rw [← e] at this
    exact absurd (m1 _ (List.getElem_mem hi)) (not_le.2 this)
  · exact g
  · have := m2 i hi g
    rw [e] at this
    exact absurd (h1 _ hm) (not_le.2 this)

/-- **C225, GaussianNB.** If all classes have the same variances (and different names), every row between two rows of the same predicted class is predicted to be of that class. -/
theorem C225_bayes (f : Fitted ℝ) (a b : List ℝ) (hab : a.length = b.length) (hf : Usable f a.length) (hnd : f.classes.Nodup) (v : List ℝ) (hv : ∀ s ∈ f.stats, s.va = v) {t : ℝ} (h0 : 0 ≤ t) (h1 : t ≤ 1) (k : ℝ)
    (ha : predict f a = some k) (hb : predict f b = some k) : predict f (between t a b) = some k := by
  have hla : (jll f a).length = f.classes.length := jll_length f a hf
  have hlb : (jll f b).length = f.classes.length := jll_length f b (hab ▸ hf)
  have hlc : (jll f (between t a b)).length = f.classes.length := jll_length f _ (by rw [between_length t hab]; exact hf)
  have hne : ∀ x, (jll f x).length = f.classes.length → jll f x ≠ [] := by
    intro x hx e
    rw [e] at hx
    exact hf.some_class (List.length_eq_zero_iff.1 hx.symm)
  rw [predict, if_neg (hne a hla)] at ha
  rw [predict, if_neg (hne b hlb)] at hb
  obtain ⟨ia, ea, ma, sa⟩ := maxIdx_spec (jll f a) (hne a hla)
  obtain ⟨ib, eb, mb, sb⟩ := maxIdx_spec (jll f b) (hne b hlb)
  set i := (NB.maxIdx (jll f a)).1
  have hi : (NB.maxIdx (jll f b)).1 = i := by
    have h2 := (List.getElem?_eq_some_iff.1 ha).2
    have h3 := (List.getElem?_eq_some_iff.1 hb).2
    exact (List.Nodup.getElem_inj_iff hnd).1 (h3.trans h2.symm)
  simp only [hi] at eb sb
  have hmix : ∀ (j : ℕ) (hj : j < f.classes.length), (jll f (between t a b))[j]'(by omega) = (1 - t) * (jll f a)[j]'(by omega) + t * (jll f b)[j]'(by omega) + ∑ j ∈ Finset.range a.length, 0.5 * (t * (1 - t)) * (b.getD j 0 - a.getD j 0) ^ 2 / v.getD j 0 := by
    intro j hj
    simp only [jll, List.getElem_zipWith]
    exact jll1_between t hab v _ _ (hv _ (List.getElem_mem _))
  have hic : i < f.classes.length := by omega
  have key : (NB.maxIdx (jll f (between t a b))).1 = i := by
    refine maxIdx_first _ i (by omega) (fun j hj => ?_) (fun j hj g => ?_)
    · rw [hmix j (by omega), hmix i hic]
      have u := ma _ (List.getElem_mem (by omega : j < (jll f a).length))
      have w := mb _ (List.getElem_mem (by omega : j < (jll f b).length))
      rw [ea] at u
      rw [eb] at w
      exact mix_le h0 h1 u w
    · rw [hmix j (by omega), hmix i hic]
      have u := sa j (by omega) g
      have w := sb j (by omega) g
      rw [ea] at u
      rw [eb] at w
      exact mix_lt h0 h1 u w
  rw [predict, if_neg (hne _ hlc), key]
  exact ha

example : Usable ⟨[3, 5], [⟨2, [0, 1], [1, 2]⟩, ⟨4, [2, 2], [1, 2]⟩], [1 / 3, 2 / 3], 0⟩ [7, 8].length ∧ ∀ s ∈ ([⟨2, [0, 1], [1, 2]⟩, ⟨4, [2, 2], [1, 2]⟩] : List (Stat ℝ)), s.va = [1, 2] := by
  constructor
  · constructor <;> simp <;> norm_num
  · simp

/-- **C225, GaussianNB with different variances.** One feature, two classes with the same prior and mean: the class with the smaller variance is predicted at the mean, the other one on both sides, so equal variances cannot be left out of `C225_bayes`. -/
theorem C225_bayes_unequal (c1 c2 q mu n1 n2 eps : ℝ) {v1 v2 : ℝ} (h1 : 0 < v1) (h2 : v1 < v2) : let f : Fitted ℝ := ⟨[c1, c2], [⟨n1, [mu], [v1]⟩, ⟨n2, [mu], [v2]⟩], [q, q], eps⟩
    ∃ r, predict f [mu] = some c1 ∧ predict f [mu - r] = some c2 ∧ predict f [mu + r] = some c2 := by
  intro f
  have hp : ∀ x, predict f [x] = if Real.log q + -(0.5 * Real.log (2 * Real.pi * v1) + 0.5 * (x - mu) * (x - mu) / v1) < Real.log q + -(0.5 * Real.log (2 * Real.pi * v2) + 0.5 * (x - mu) * (x - mu) / v2) then some c2 else some c1 := by
    intro x
    have hj : jll f [x] = [Real.log q + -(0.5 * Real.log (2 * Real.pi * v1) + 0.5 * (x - mu) * (x - mu) / v1), Real.log q + -(0.5 * Real.log (2 * Real.pi * v2) + 0.5 * (x - mu) * (x - mu) / v2)] := by
      simp only [jll, f, List.zipWith_cons_cons, List.zipWith_nil_left, jll1_sum]
      simp
    rw [predict, hj, if_neg (by simp)]
    simp only [NB.maxIdx, List.foldl_cons, List.foldl_nil]
    split <;> rfl
  have hv2 : 0 < v2 := h1.trans h2
  have hlog : Real.log (2 * Real.pi * v1) < Real.log (2 * Real.pi * v2) := Real.log_lt_log (by positivity) (by have := Real.pi_pos; nlinarith)
  set L := Real.log (2 * Real.pi * v2) - Real.log (2 * Real.pi * v1) with hL
  have hL0 : 0 < L := by linarith
  have hd : 0 < 1 / v1 - 1 / v2 := sub_pos.2 (one_div_lt_one_div_of_lt h1 h2)
  set r := √((L + 1) / (1 / v1 - 1 / v2)) with hr
  have hr2 : r * r * (1 / v1 - 1 / v2) = L + 1 := by
    rw [hr, Real.mul_self_sqrt (by positivity), div_mul_cancel₀ _ hd.ne']
  have hfar : 0.5 * Real.log (2 * Real.pi * v2) + 0.5 * (r * r / v2) < 0.5 * Real.log (2 * Real.pi * v1) + 0.5 * (r * r / v1) := by
    have e : r * r * (1 / v1 - 1 / v2) = r * r / v1 - r * r / v2 := by ring
    rw [e] at hr2
    have : L = Real.log (2 * Real.pi * v2) - Real.log (2 * Real.pi * v1) := hL
    norm_num
    linarith
  refine ⟨r, ?_, ?_, ?_⟩
  · rw [hp, if_neg]
    rw [not_lt, sub_self]
    norm_num
    linarith
  · rw [hp, if_pos]
    have e1 : ∀ v, 0.5 * (mu - r - mu) * (mu - r - mu) / v = 0.5 * (r * r / v) := fun v => by ring
    rw [e1, e1]
    linarith
  · rw [hp, if_pos]
    have e1 : ∀ v, 0.5 * (mu + r - mu) * (mu + r - mu) / v = 0.5 * (r * r / v) := fun v => by ring
    rw [e1, e1]
    linarith

end NB

/-! ### Logistic regression -/

section Logit

open Sk.Logistic

open Sk.Mlp (Layer)

/-- A row as a vector. -/
def vec (p : ℕ) (x : List ℝ) : Fin p → ℝ := fun j => x.getD j 0

theorem lin_between {p q : ℕ} (θ : Layer p q) (t : ℝ) {a b : List ℝ} (h : a.length = b.length) (o : Fin q) :
    lin θ (vec p (between t a b)) o = (1 - t) * lin θ (vec p a) o + t * lin θ (vec p b) o + 0 := by
  simp only [lin, vec]
  have : ∑ j : Fin p, (between t a b).getD j 0 * θ.1 j o = (1 - t) * (∑ j : Fin p, a.getD j 0 * θ.1 j o) + t * ∑ j : Fin p, b.getD j 0 * θ.1 j o := by
    rw [Finset.mul_sum, Finset.mul_sum, ← Finset.sum_add_distrib]
    apply Finset.sum_congr rfl
    intro j _
    rw [between_getD t h]
    ring
  rw [this]
  ring

theorem probas_le {p q : ℕ} (hq : 1 < q) (θ : Layer p q) (x : Fin p → ℝ) (o o' : Fin q) : probas θ x o ≤ probas θ x o' ↔ lin θ x o ≤ lin θ x o' := by
  have hS : 0 < ∑ k, Real.exp (lin θ x k) := Finset.sum_pos (fun k _ => Real.exp_pos _) ⟨o, Finset.mem_univ _⟩
  rw [probas_soft hq, probas_soft hq, div_le_div_iff_of_pos_right hS, Real.exp_le_exp]

theorem first_logit {p q : ℕ} (θ : Layer p q) (x : Fin p → ℝ) (k : ℕ) (h : GoSort.maxIdx (List.ofFn (probas θ x)) = some k) :
    ∃ hk : k < q, (∀ o, lin θ x o ≤ lin θ x ⟨k, hk⟩) ∧ ∀ o : Fin q, o.1 < k → lin θ x o < lin θ x ⟨k, hk⟩ := by
  have hne : List.ofFn (probas θ x) ≠ [] := by
    intro e
    rw [e] at h
    simp [GoSort.maxIdx] at h
  obtain ⟨m, hm, hlt, h1, h2⟩ := GoSort.maxIdx_spec _ hne
  rw [h] at hm
  cases hm
  have hk : k < q := by simpa using hlt
  refine ⟨hk, ?_⟩
  by_cases hq : 1 < q
  · refine ⟨fun o => ?_, fun o ho => ?_⟩
    · have := h1 o.1 (by simp)
      rw [List.getElem_ofFn, List.getElem_ofFn] at this
      exact (probas_le hq θ x _ _).1 this
    · have := h2 o.1 ho
      rw [List.getElem_ofFn, List.getElem_ofFn] at this
      exact not_le.1 (fun hc => absurd ((probas_le hq θ x _ _).2 hc) (not_le.2 this))
  · refine ⟨fun o => ?_, fun o ho => by omega⟩
    have : o = ⟨k, hk⟩ := Fin.ext (by have := o.2; simp only; omega)
    rw [this]

/-- **C225, logistic regression.** After a fit on one column of labels (`θ`: the parameters found for the encoded targets), every row between two rows with the same predicted label gets that label: for any number of classes, and for the labels 0 and 1 of a first fit. -/
theorem C225_logistic {p q : ℕ} (θ : List (List ℝ) → Layer p q) (m m' : LR) (ys : List ℝ) (a b : List ℝ) (hab : a.length = b.length) {t : ℝ} (h0 : 0 ≤ t) (h1 : t ≤ 1) (c : ℝ)
    (hys : ((∃ v ∈ ys, v ≠ 0 ∧ v ≠ 1) ∧ q = (Label.distinctSorted ys).length) ∨ ((∀ v ∈ ys, v = 0 ∨ v = 1) ∧ m.lb = none ∧ q = 1))
    (hf : fit (fun Y x => List.ofFn (probas (θ Y) (vec p x))) m 1 (ys.map (fun v => [v])) = some m') (ha : predict m' a = some [c]) (hb : predict m' b = some [c]) : predict m' (between t a b) = some [c] := by
  set train : List (List ℝ) → List ℝ → List ℝ := fun Y x => List.ofFn (probas (θ Y) (vec p x)) with htr
  have hsome : ∃ Y, m'.net = train Y := by
    rw [fit] at hf
    split at hf
    · cases hf; exact ⟨_, rfl⟩
    · simp only [Option.bind_eq_bind] at hf
      rw [Option.bind_eq_some_iff] at hf
      obtain ⟨Yb, _, hf⟩ := hf
      cases hf
      exact ⟨_, rfl⟩
  obtain ⟨Y, hY⟩ := hsome
  have hnet : ∀ x h, predictProbas m' x = some h → h = List.ofFn (probas (θ Y) (vec p x)) := by
    intro x h e
    rw [predictProbas] at e
    split at e
    · rw [hY] at e; exact (Option.some.inj e).symm
    · cases e
  rcases hys with ⟨hv, hq⟩ | ⟨hv, hlb, hq⟩
  · have key : ∀ x, ∃ k d, GoSort.maxIdx (List.ofFn (probas (θ Y) (vec p x))) = some k ∧ (Label.distinctSorted ys)[k]? = some d ∧ predict m' x = some [d] := by
      intro x
      obtain ⟨m₁, h, k, d, e1, e2, e3, e4, _, e5⟩ := (C126_predict_partial train m ys x).1 hv (by intro Y x; simp [htr, hq])
      rw [hf] at e1
      cases e1
      rw [hnet x h e2] at e3
      exact ⟨k, d, e3, e4, e5⟩
    obtain ⟨ka, ca, a1, a2, a3⟩ := key a
    obtain ⟨kb, cb, b1, b2, b3⟩ := key b
    obtain ⟨kc, cc, c1, c2, c3⟩ := key (between t a b)
    have eca : ca = c := by rw [ha] at a3; simpa using a3.symm
    have ecb : cb = c := by rw [hb] at b3; simpa using b3.symm
    subst eca
    subst ecb
    have hnd : (Label.distinctSorted ys).Nodup := (Label.distinctSorted_spec ys).1.imp (fun h => ne_of_lt h)
    have hkk : ka = kb := by
      have x1 := (List.getElem?_eq_some_iff.1 a2).2
      have x2 := (List.getElem?_eq_some_iff.1 b2).2
      exact (List.Nodup.getElem_inj_iff hnd).1 (x1.trans x2.symm)
    subst hkk
    obtain ⟨hka, la, sa⟩ := first_logit _ _ _ a1
    obtain ⟨_, lb, sb⟩ := first_logit _ _ _ b1
    obtain ⟨hkc, lc, sc⟩ := first_logit _ _ _ c1
    have : kc = ka := by
      rcases lt_trichotomy kc ka with g | g | g
      · have w := lc ⟨ka, hka⟩
        rw [lin_between _ t hab, lin_between _ t hab] at w
        exact absurd w (not_le.2 (mix_lt h0 h1 (sa ⟨kc, hkc⟩ g) (sb ⟨kc, hkc⟩ g)))
      · exact g
      · have w := sc ⟨ka, hka⟩ g
        rw [lin_between _ t hab, lin_between _ t hab] at w
        exact absurd w (not_lt.2 (mix_le h0 h1 (la ⟨kc, hkc⟩) (lb ⟨kc, hkc⟩)))
    subst this
    rw [c3]
    rw [a2] at c2
    cases c2
    rfl
  · subst hq
    have key : ∀ x, predict m' x = some [if 0 < lin (θ Y) (vec p x) 0 then 1 else 0] := by
      intro x
      obtain ⟨m₁, v, e1, e2, e3⟩ := (C126_predict_partial train m ys x).2 hv hlb (by intro Y x; simp [htr])
      rw [hf] at e1
      cases e1
      have hx := hnet x _ e2
      have hv' : v = probas (θ Y) (vec p x) 0 := by simpa using hx
      rw [e3, hv', probas_logi (by norm_num)]
      congr 3
      have hpos := Real.exp_pos (-lin (θ Y) (vec p x) 0)
      rw [gt_iff_lt, eq_iff_iff, one_div_lt_one_div (by norm_num) (by linarith)]
      constructor
      · intro h
        have : Real.exp (-lin (θ Y) (vec p x) 0) < 1 := by linarith
        rw [Real.exp_lt_one_iff] at this
        linarith
      · intro h
        have : Real.exp (-lin (θ Y) (vec p x) 0) < 1 := by rw [Real.exp_lt_one_iff]; linarith
        linarith
    rw [key] at ha hb ⊢
    have ha' : (if 0 < lin (θ Y) (vec p a) 0 then (1 : ℝ) else 0) = c := by simpa using ha
    have hb' : (if 0 < lin (θ Y) (vec p b) 0 then (1 : ℝ) else 0) = c := by simpa using hb
    congr 2
    rw [lin_between _ t hab]
    by_cases ca : 0 < lin (θ Y) (vec p a) 0
    · rw [if_pos ca] at ha'
      have cb : 0 < lin (θ Y) (vec p b) 0 := by
        by_contra hc
        rw [if_neg hc, ← ha'] at hb'
        exact zero_ne_one hb'
      have := mix_lt (e := 0) h0 h1 ca cb
      simp only [mul_zero, zero_add] at this
      rw [if_pos (by linarith), ha']
    · rw [if_neg ca] at ha'
      have cb : ¬ 0 < lin (θ Y) (vec p b) 0 := by
        intro hc
        rw [if_pos hc, ← ha'] at hb'
        exact one_ne_zero hb'
      have := mix_le (e := 0) h0 h1 (not_lt.1 ca) (not_lt.1 cb)
      simp only [mul_zero, zero_add] at this
      rw [if_neg (by linarith), ha']

/-- A first fit on labels 0 and 1, and one on three other labels. -/
example (m : LR) (hm : m.lb = none) : (∃ m', fit (fun _ x => List.ofFn (probas (p := 2) (q := 1) (fun _ _ => 1, fun _ => 0) (vec 2 x))) m 1 ([0, 1, 1].map (fun v => [v])) = some m') ∧ (∃ v ∈ [(3 : ℝ), 5, 4], v ≠ 0 ∧ v ≠ 1) := by
  constructor
  · obtain ⟨m', _, h, _⟩ := (C126_predict_partial (fun _ x => List.ofFn (probas (p := 2) (q := 1) (fun _ _ => 1, fun _ => 0) (vec 2 x))) m [0, 1, 1] []).2 (by simp) hm (by simp)
    exact ⟨m', h⟩
  · exact ⟨3, by simp, by norm_num, by norm_num⟩

end Logit

end Sk.Regions
