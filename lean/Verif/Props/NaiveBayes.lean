import Verif.Model.NaiveBayes
import Verif.Lemmas.ListX
import Mathlib.Tactic.FieldSimp
import Mathlib.Tactic.Linarith
import Mathlib.Tactic.Positivity
import Mathlib.Tactic.LinearCombination

/-! # C45, C86: Gaussian naive Bayes training -/
set_option autoImplicit false

namespace Sk.NB

variable {K : Type} [Field K] [LinearOrder K] [IsStrictOrderedRing K]

/-! ### Specification -/

/-- Weighted mean of (value, weight) pairs. -/
def wmean (l : List (K × K)) : K := (l.map (fun e => e.2 * e.1)).sum / (l.map Prod.snd).sum

/-- Weighted population variance of (value, weight) pairs. -/
def wvar (l : List (K × K)) : K := (l.map (fun e => e.2 * (e.1 - wmean l) ^ 2)).sum / (l.map Prod.snd).sum

/-- The samples of a class. -/
def ofClass (c : K) (S : List (Sample K)) : List (Sample K) := S.filter (fun s => s.y = c)

/-- Feature `j` of the samples, with the weights. -/
def feature (j : ℕ) (S : List (Sample K)) : List (K × K) := S.map (fun s => (s.x.getD j 0, s.w))

/-- Total weight. -/
def weight (S : List (Sample K)) : K := (S.map Sample.w).sum

/-! ### Lemmas -/

theorem weight_append (S T : List (Sample K)) : weight (S ++ T) = weight S + weight T := by simp [weight]

theorem weight_pos (S : List (Sample K)) (h : S ≠ []) (hw : ∀ s ∈ S, 0 < s.w) : 0 < weight S := by
  cases S with
  | nil => exact absurd rfl h
  | cons a S =>
    have h0 : 0 ≤ (S.map Sample.w).sum := by
      apply List.sum_nonneg
      intro y hy
      rw [List.mem_map] at hy
      obtain ⟨s, hs, rfl⟩ := hy
      exact (hw s (by simp [hs])).le
    have := hw a (by simp)
    simp only [weight, List.map_cons, List.sum_cons]
    linarith

theorem feature_weight (j : ℕ) (S : List (Sample K)) : ((feature j S).map Prod.snd).sum = weight S := by
  simp [feature, weight, Function.comp_def]

theorem column_eq (S : List (Sample K)) (j : ℕ) : column S j = feature j S := rfl

theorem ofClass_append (c : K) (S T : List (Sample K)) : ofClass c (S ++ T) = ofClass c S ++ ofClass c T := by simp [ofClass]

theorem feature_append (j : ℕ) (S T : List (Sample K)) : feature j (S ++ T) = feature j S ++ feature j T := by simp [feature]

/-- `meanvar` gives the weighted mean, variance and total weight. -/
theorem meanvar_spec (l : List (K × K)) (h : (l.map Prod.snd).sum ≠ 0) : meanvar l = some (wmean l, wvar l, (l.map Prod.snd).sum) := by
  have hm : (l.map (fun e => e.1 * e.2)).sum / (l.map Prod.snd).sum = wmean l := by
    unfold wmean
    congr 3
    funext e
    ring
  simp only [meanvar, if_neg h, hm]
  have : (l.map (fun e => (e.1 - wmean l) * (e.1 - wmean l) * e.2)).sum / (l.map Prod.snd).sum = wvar l := by
    unfold wvar
    congr 3
    funext e
    ring
  rw [this]

/-- Sum of weighted squared values in terms of mean and variance. -/
theorem wvar_sq (l : List (K × K)) (h : (l.map Prod.snd).sum ≠ 0) :
    (l.map (fun e => e.2 * e.1 ^ 2)).sum = (l.map Prod.snd).sum * (wvar l + wmean l ^ 2) := by
  have key : ∀ (m : K) (l : List (K × K)), (l.map (fun e => e.2 * (e.1 - m) ^ 2)).sum =
      (l.map (fun e => e.2 * e.1 ^ 2)).sum - 2 * m * (l.map (fun e => e.2 * e.1)).sum + m ^ 2 * (l.map Prod.snd).sum := by
    intro m l
    induction l with
    | nil => simp
    | cons a l ih => simp only [List.map_cons, List.sum_cons, ih]; ring
  have h1 := key (wmean l) l
  have h2 : (l.map (fun e => e.2 * e.1)).sum = (l.map Prod.snd).sum * wmean l := by unfold wmean; field_simp
  have h3 : (l.map (fun e => e.2 * (e.1 - wmean l) ^ 2)).sum = (l.map Prod.snd).sum * wvar l := by
    conv_rhs => unfold wvar
    field_simp
  rw [h2, h3] at h1
  linear_combination -h1

theorem wmean_sum (l : List (K × K)) (h : (l.map Prod.snd).sum ≠ 0) : (l.map (fun e => e.2 * e.1)).sum = (l.map Prod.snd).sum * wmean l := by
  unfold wmean; field_simp

/-- Pooled variance of two groups (Chan, Golub, LeVeque). -/
theorem wvar_append (l m : List (K × K)) (hl : 0 < (l.map Prod.snd).sum) (hm : 0 < (m.map Prod.snd).sum) :
    let a := (l.map Prod.snd).sum
    let b := (m.map Prod.snd).sum
    wvar (l ++ m) = (a * wvar l + b * wvar m + a * b / (a + b) * (wmean l - wmean m) ^ 2) / (a + b) := by
  intro a b
  have ha : a ≠ 0 := hl.ne'
  have hb : b ≠ 0 := hm.ne'
  have hs : ((l ++ m).map Prod.snd).sum = a + b := by simp [a, b]
  have hab : a + b ≠ 0 := (add_pos hl hm).ne'
  have h1 := wvar_sq (l ++ m) (by rw [hs]; exact hab)
  rw [hs, List.map_append, List.sum_append, wvar_sq l ha, wvar_sq m hb] at h1
  have h2 := wmean_sum (l ++ m) (by rw [hs]; exact hab)
  rw [hs, List.map_append, List.sum_append, wmean_sum l ha, wmean_sum m hb] at h2
  change a * (wvar l + wmean l ^ 2) + b * (wvar m + wmean m ^ 2) = (a + b) * (wvar (l ++ m) + wmean (l ++ m) ^ 2) at h1
  change a * wmean l + b * wmean m = (a + b) * wmean (l ++ m) at h2
  have h3 : wmean (l ++ m) = (a * wmean l + b * wmean m) / (a + b) := by field_simp; linear_combination -h2
  rw [h3] at h1
  have h4 : wvar (l ++ m) = (a * (wvar l + wmean l ^ 2) + b * (wvar m + wmean m ^ 2)) / (a + b) - ((a * wmean l + b * wmean m) / (a + b)) ^ 2 := by
    field_simp
    field_simp at h1
    linear_combination -h1
  rw [h4]
  field_simp
  ring

theorem mapM_range_some {B : Type} (g : ℕ → Option B) (f : ℕ → B) (n : ℕ) (h : ∀ i < n, g i = some (f i)) : (List.range n).mapM g = some ((List.range n).map f) := by
  have : ∀ l : List ℕ, (∀ i ∈ l, g i = some (f i)) → l.mapM g = some (l.map f) := by
    intro l
    induction l with
    | nil => intro _; rfl
    | cons a l ih =>
      intro hl
      rw [List.mapM_cons, hl a (by simp), ih (fun i hi => hl i (by simp [hi]))]
      rfl
  exact this _ (fun i hi => h i (List.mem_range.1 hi))

theorem samplesOf_eq (classes : List K) (hn : classes.Nodup) (i : ℕ) (c : K) (hc : classes[i]? = some c) (S : List (Sample K)) :
    samplesOf classes i S = ofClass c S := by
  unfold samplesOf
  rw [hc]
  have : c ∉ classes.drop (i + 1) := by
    intro hm
    rw [List.getElem?_eq_some_iff] at hc
    obtain ⟨hi, rfl⟩ := hc
    rw [List.mem_iff_getElem] at hm
    obtain ⟨k, hk, hk2⟩ := hm
    rw [List.getElem_drop] at hk2
    have := (hn.getElem_inj_iff).1 hk2
    omega
  simp only [if_neg this]
  rfl

/-- What `updateStat` does to one class. -/
theorem updateStat_spec (p : ℕ) (s : Stat K) (S : List (Sample K)) (hn : 0 ≤ s.count) (hne : S ≠ []) (hw : ∀ t ∈ S, 0 < t.w) :
    updateStat p s S = some ⟨s.count + weight S,
      (List.range p).map (fun j => (s.count * s.mu.getD j 0 + weight S * wmean (feature j S)) / (s.count + weight S)),
      (List.range p).map (fun j =>
        let d := (s.count * s.mu.getD j 0 + weight S * wmean (feature j S)) / (s.count + weight S) - wmean (feature j S)
        (s.count * s.va.getD j 0 + weight S * wvar (feature j S) + weight S * s.count / (s.count + weight S) * d * d) / (s.count + weight S))⟩ := by
  have hS : S.isEmpty = false := by cases S with
    | nil => exact absurd rfl hne
    | cons a l => rfl
  have hpos := weight_pos S hne hw
  have htot : s.count + weight S ≠ 0 := (add_pos_of_nonneg_of_pos hn hpos).ne'
  unfold updateStat
  rw [hS]
  simp only [Bool.false_eq_true, if_false]
  rw [mapM_range_some _ (fun j => ((s.count * s.mu.getD j 0 + weight S * wmean (feature j S)) / (s.count + weight S),
      (s.count * s.va.getD j 0 + weight S * wvar (feature j S) + weight S * s.count / (s.count + weight S) *
        ((s.count * s.mu.getD j 0 + weight S * wmean (feature j S)) / (s.count + weight S) - wmean (feature j S)) *
        ((s.count * s.mu.getD j 0 + weight S * wmean (feature j S)) / (s.count + weight S) - wmean (feature j S))) / (s.count + weight S)))]
  · simp only [Option.bind_eq_bind, Option.bind_some, List.map_map, Function.comp_def]
    rfl
  · intro j _
    unfold updateCol
    rw [column_eq, meanvar_spec _ (by rw [feature_weight]; exact hpos.ne'), feature_weight]
    simp only [Option.bind_eq_bind, Option.bind_some, if_neg htot]

/-- `maxVar` is the greatest of the variances of the features. -/
theorem maxVar_spec (p : ℕ) (hp : 0 < p) (S : List (Sample K)) (hne : S ≠ []) (hw : ∀ t ∈ S, 0 < t.w) :
    ∃ mv, maxVar p S = some mv ∧ (∀ j < p, wvar (feature j S) ≤ mv) ∧ ∃ j < p, mv = wvar (feature j S) := by
  have hpos := weight_pos S hne hw
  unfold maxVar
  rw [mapM_range_some _ (fun j => wvar (feature j S))]
  · simp only [Option.bind_eq_bind, Option.bind_some]
    obtain ⟨q, rfl⟩ : ∃ q, p = q + 1 := ⟨p - 1, by omega⟩
    have hfold : ∀ (l : List K) (a : K), (∀ v ∈ a :: l, v ≤ l.foldl max a) ∧ l.foldl max a ∈ a :: l := by
      intro l
      induction l with
      | nil => intro a; simp
      | cons b l ih =>
        intro a
        obtain ⟨h1, h2⟩ := ih (max a b)
        rw [List.foldl_cons]
        constructor
        · intro v hv
          rcases List.mem_cons.1 hv with rfl | hv
          · exact (le_max_left v b).trans (h1 (max v b) (by simp))
          · rcases List.mem_cons.1 hv with rfl | hv
            · exact (le_max_right a v).trans (h1 (max a v) (by simp))
            · exact h1 v (by simp [hv])
        · rcases List.mem_cons.1 h2 with h2 | h2
          · rw [h2]
            rcases max_cases a b with ⟨h, _⟩ | ⟨h, _⟩ <;> rw [h] <;> simp
          · simp [h2]
    cases hv : (List.range (q + 1)).map (fun j => wvar (feature j S)) with
    | nil => simp at hv
    | cons v vs =>
      obtain ⟨h1, h2⟩ := hfold vs v
      rw [← hv] at h1 h2
      refine ⟨_, rfl, ?_, ?_⟩
      · intro j hj
        exact h1 _ (List.mem_map.2 ⟨j, List.mem_range.2 hj, rfl⟩)
      · obtain ⟨j, hj, e⟩ := List.mem_map.1 h2
        exact ⟨j, List.mem_range.1 hj, e.symm⟩
  · intro j _
    rw [column_eq, meanvar_spec _ (by rw [feature_weight]; exact hpos.ne')]
    rfl

/-- State reached after training on `D`: everything but the variances. -/
structure Inv (p : ℕ) (classes : List K) (D : List (Sample K)) (f : Fitted K) : Prop where
  cls : f.classes = classes
  len : f.stats.length = classes.length
  count : ∀ (i : ℕ) (s : Stat K) (c : K), f.stats[i]? = some s → classes[i]? = some c → s.count = weight (ofClass c D)
  shape : ∀ s ∈ f.stats, s.mu.length = p ∧ s.va.length = p
  mean : ∀ (i : ℕ) (s : Stat K) (c : K), f.stats[i]? = some s → classes[i]? = some c → ∀ j < p, s.count * s.mu.getD j 0 = ((feature j (ofClass c D)).map (fun e => e.2 * e.1)).sum

/-- The class after update: the same fields with epsilon added to the variances. -/
def addEps (e : K) (s : Stat K) : Stat K := { s with va := s.va.map (fun v => v + e) }

/-- What `updateStat` followed by adding epsilon gives, as a total function (samples of positive weight). -/
def upd (p : ℕ) (eps : K) (s : Stat K) (S : List (Sample K)) : Stat K := addEps eps ((updateStat p s S).getD s)

theorem updateStat_total (p : ℕ) (s : Stat K) (S : List (Sample K)) (hn : 0 ≤ s.count) (hw : ∀ t ∈ S, 0 < t.w) :
    updateStat p s S = some ((updateStat p s S).getD s) := by
  by_cases h : S = []
  · subst h; rfl
  · rw [updateStat_spec p s S hn h hw]; rfl

theorem core (p : ℕ) (classes : List K) (hn : classes.Nodup) (D S : List (Sample K)) (f : Fitted K) (hf : Inv p classes D f)
    (hD : ∀ t ∈ D, 0 < t.w) (hS : ∀ t ∈ S, 0 < t.w) :
    (List.range f.stats.length).mapM (fun i => (f.stats[i]?).bind (fun s => updateStat p s (samplesOf f.classes i S))) =
      some ((List.range f.stats.length).map (fun i => ((updateStat p (f.stats.getD i ⟨0, [], []⟩) (ofClass (classes.getD i 0) S)).getD (f.stats.getD i ⟨0, [], []⟩)))) := by
  apply mapM_range_some
  intro i hi
  have hic : i < classes.length := hf.len ▸ hi
  have e1 : f.stats.getD i ⟨0, [], []⟩ = f.stats[i] := by rw [List.getD_eq_getElem?_getD, List.getElem?_eq_getElem hi]; rfl
  have e2 : classes.getD i 0 = classes[i] := by rw [List.getD_eq_getElem?_getD, List.getElem?_eq_getElem hic]; rfl
  rw [e1, e2, List.getElem?_eq_getElem hi, Option.bind_some, hf.cls, samplesOf_eq classes hn i classes[i] (List.getElem?_eq_getElem hic)]
  apply updateStat_total
  · rw [hf.count i f.stats[i] classes[i] (List.getElem?_eq_getElem hi) (List.getElem?_eq_getElem hic)]
    by_cases he : ofClass classes[i] D = []
    · rw [he]; simp [weight]
    · exact (weight_pos _ he (fun t ht => hD t (List.mem_filter.1 ht).1)).le
  · intro t ht
    exact hS t (List.mem_filter.1 ht).1

theorem sum_weights (classes : List K) (hn : classes.Nodup) (D : List (Sample K)) (h : ∀ t ∈ D, t.y ∈ classes) :
    (classes.map (fun c => weight (ofClass c D))).sum = weight D := by
  induction D with
  | nil => simp [weight, ofClass]
  | cons a D ih =>
    have ih := ih (fun t ht => h t (by simp [ht]))
    have key : ∀ c, weight (ofClass c (a :: D)) = (if a.y = c then a.w else 0) + weight (ofClass c D) := by
      intro c
      by_cases hc : a.y = c <;> simp [ofClass, weight, hc]
    simp only [key, List.sum_map_add, ih]
    have : ∀ (cs : List K), cs.Nodup → (cs.map (fun c => if a.y = c then a.w else 0)).sum = if a.y ∈ cs then a.w else 0 := by
      intro cs
      induction cs with
      | nil => simp
      | cons b cs ih =>
        intro hn
        rw [List.nodup_cons] at hn
        rw [List.map_cons, List.sum_cons, ih hn.2]
        by_cases hb : a.y = b
        · subst hb; simp [hn.1]
        · simp [hb]
    rw [this classes hn, if_pos (h a (by simp))]
    simp [weight]

/-- One training step after `prepare`. -/
theorem step (p : ℕ) (classes : List K) (hn : classes.Nodup) (D S : List (Sample K)) (f : Fitted K) (hf : Inv p classes D f) (eps : K)
    (hD : ∀ t ∈ D, 0 < t.w) (hS : ∀ t ∈ S, 0 < t.w) (prior : List K)
    (stats : List (Stat K))
    (hst : stats = ((List.range f.stats.length).map (fun i => ((updateStat p (f.stats.getD i ⟨0, [], []⟩) (ofClass (classes.getD i 0) S)).getD (f.stats.getD i ⟨0, [], []⟩)))).map
      (fun s => { s with va := s.va.map (fun v => v + eps) })) :
    Inv p classes (D ++ S) ⟨f.classes, stats, prior, eps⟩ := by
  have hlen : stats.length = f.stats.length := by rw [hst]; simp
  have hget : ∀ i (hi : i < f.stats.length), stats[i]? = some (upd p eps f.stats[i] (ofClass (classes.getD i 0) S)) := by
    intro i hi
    rw [hst, List.getElem?_map, List.getElem?_map, List.getElem?_range hi]
    have e1 : f.stats.getD i ⟨0, [], []⟩ = f.stats[i] := by rw [List.getD_eq_getElem?_getD, List.getElem?_eq_getElem hi]; rfl
    simp only [Option.map_some, e1]
    rfl
  have hupd : ∀ i (hi : i < f.stats.length) (c : K), classes[i]? = some c → ∃ s, stats[i]? = some s ∧ s.count = weight (ofClass c (D ++ S)) ∧
      (s.mu.length = p ∧ s.va.length = p) ∧ ∀ j < p, s.count * s.mu.getD j 0 = ((feature j (ofClass c (D ++ S))).map (fun e => e.2 * e.1)).sum := by
    intro i hi c hc
    have e2 : classes.getD i 0 = c := by rw [List.getD_eq_getElem?_getD, hc]; rfl
    have hcnt := hf.count i _ c (List.getElem?_eq_getElem hi) hc
    have hmean := hf.mean i _ c (List.getElem?_eq_getElem hi) hc
    have hsh := hf.shape _ (List.getElem_mem hi)
    have hge : 0 ≤ f.stats[i].count := by
      rw [hcnt]
      by_cases he : ofClass c D = []
      · rw [he]; simp [weight]
      · exact (weight_pos _ he (fun t ht => hD t (List.mem_filter.1 ht).1)).le
    refine ⟨_, hget i hi, ?_⟩
    rw [e2]
    by_cases he : ofClass c S = []
    · have : updateStat p f.stats[i] (ofClass c S) = some f.stats[i] := by rw [he]; rfl
      simp only [upd, this, Option.getD_some, addEps, ofClass_append, he, List.append_nil, List.length_map]
      exact ⟨hcnt, hsh, hmean⟩
    · have hwS : ∀ t ∈ ofClass c S, 0 < t.w := fun t ht => hS t (List.mem_filter.1 ht).1
      have hpos := weight_pos _ he hwS
      rw [upd, updateStat_spec p _ _ hge he hwS]
      simp only [Option.getD_some, addEps, ofClass_append, weight_append, List.length_map, List.length_range, and_self, true_and, hcnt]
      intro j hj
      have htot : weight (ofClass c D) + weight (ofClass c S) ≠ 0 := by rw [← hcnt]; exact (add_pos_of_nonneg_of_pos hge hpos).ne'
      have hm := hmean j hj
      rw [hcnt] at hm
      rw [List.getD_eq_getElem?_getD, List.getElem?_map, List.getElem?_range hj]
      simp only [Option.map_some, Option.getD_some]
      rw [mul_div_cancel₀ _ htot, feature_append, List.map_append, List.sum_append, hm, wmean_sum (feature j (ofClass c S)) (by rw [feature_weight]; exact hpos.ne'), feature_weight]
  refine ⟨hf.cls, by rw [hlen]; exact hf.len, ?_, ?_, ?_⟩
  · intro i s c hs hc
    have hi : i < f.stats.length := by rw [← hlen]; exact (List.getElem?_eq_some_iff.1 hs).1
    obtain ⟨s', h1, h2, _⟩ := hupd i hi c hc
    simp only at hs
    rw [hs] at h1
    cases h1; exact h2
  · intro s hs
    obtain ⟨i, hi, rfl⟩ := List.mem_iff_getElem.1 hs
    simp only at hi
    have hi' : i < f.stats.length := by rw [← hlen]; exact hi
    obtain ⟨s', h1, _, h3, _⟩ := hupd i hi' _ (List.getElem?_eq_getElem (hf.len ▸ hi'))
    rw [List.getElem?_eq_getElem hi] at h1
    cases h1; exact h3
  · intro i s c hs hc
    have hi : i < f.stats.length := by rw [← hlen]; exact (List.getElem?_eq_some_iff.1 hs).1
    obtain ⟨s', h1, _, _, h4⟩ := hupd i hi c hc
    simp only at hs
    rw [hs] at h1
    cases h1; exact h4

/-- The prior weights of line 235. -/
def PriorOk (classes : List K) (D : List (Sample K)) (prior : List K) : Prop := prior = classes.map (fun c => weight (ofClass c D) / weight D)

theorem counts_eq (p : ℕ) (classes : List K) (D : List (Sample K)) (f : Fitted K) (hf : Inv p classes D f) :
    f.stats.map Stat.count = classes.map (fun c => weight (ofClass c D)) := by
  apply List.ext_getElem
  · simp [hf.len]
  · intro i h1 h2
    simp only [List.length_map] at h1 h2
    rw [List.getElem_map, List.getElem_map]
    exact hf.count i _ _ (List.getElem?_eq_getElem h1) (List.getElem?_eq_getElem h2)

/-- The estimator before its first fit, after `prepare`. -/
theorem prepare_none (tol eps : K) (p : ℕ) (classes : List K) (hne : classes ≠ []) (refit : Bool) :
    ∃ f, prepare tol none eps none p classes refit = some f ∧ Inv p classes [] f ∧ f.stats = List.replicate classes.length ⟨0, List.replicate p 0, List.replicate p 0⟩ := by
  refine ⟨_, by simp only [prepare, if_neg hne]; rfl, ⟨rfl, by simp, ?_, ?_, ?_⟩, rfl⟩
  · intro i s c hs _
    rw [List.getElem?_replicate] at hs
    split at hs
    · cases hs; simp [weight, ofClass]
    · cases hs
  · intro s hs
    rw [List.mem_replicate] at hs
    rw [hs.2]; simp
  · intro i s c hs _ j _
    rw [List.getElem?_replicate] at hs
    split at hs
    · cases hs; simp [feature, ofClass]
    · cases hs

theorem prepare_some (tol eps : K) (pr : Option (List K)) (p : ℕ) (classes cl : List K) (D : List (Sample K)) (f : Fitted K) (hf : Inv p classes D f) :
    ∃ g, prepare tol pr eps (some f) p cl false = some g ∧ Inv p classes D g ∧ g.stats = f.stats.map (addEps (-eps)) := by
  have hany : f.stats.any (fun s => decide (s.mu.length ≠ p)) = false := by
    rw [List.any_eq_false]
    intro s hs
    simp [(hf.shape s hs).1]
  refine ⟨⟨f.classes, f.stats.map (fun s => { s with va := s.va.map (fun v => v - eps) }), f.prior, eps⟩,
    by simp only [prepare, hany, Bool.false_eq_true, if_false], ⟨hf.cls, by simp [hf.len], ?_, ?_, ?_⟩, ?_⟩
  · intro i s c hs hc
    simp only [List.getElem?_map] at hs
    obtain ⟨s', h1, rfl⟩ := Option.map_eq_some_iff.1 hs
    exact hf.count i s' c h1 hc
  · intro s hs
    simp only [List.mem_map] at hs
    obtain ⟨s', h1, rfl⟩ := hs
    simp [hf.shape s' h1]
  · intro i s c hs hc
    simp only [List.getElem?_map] at hs
    obtain ⟨s', h1, rfl⟩ := Option.map_eq_some_iff.1 hs
    exact hf.mean i s' c h1 hc
  · simp only [sub_eq_add_neg]
    rfl

/-- One call of `PartialFit` after its `prepare` phase. -/
theorem partialFit_step (tol vs : K) (p : ℕ) (hp : 0 < p) (classes cl : List K) (hn : classes.Nodup) (D S : List (Sample K)) (st : Option (Fitted K)) (refit : Bool)
    (hD : ∀ t ∈ D, 0 < t.w ∧ t.y ∈ classes) (hS : ∀ t ∈ S, 0 < t.w ∧ t.y ∈ classes) (hne : S ≠ [])
    (hprep : ∀ eps, ∃ f, prepare tol none eps st p cl refit = some f ∧ Inv p classes D f) :
    ∃ g, partialFit tol vs none st p S cl refit = some g ∧ Inv p classes (D ++ S) g ∧ PriorOk classes (D ++ S) g.prior ∧
      ∃ mv f, maxVar p S = some mv ∧ g.eps = vs * mv ∧ prepare tol none (vs * mv) st p cl refit = some f ∧
        ∀ (i : ℕ) (s : Stat K) (c : K), f.stats[i]? = some s → classes[i]? = some c → g.stats[i]? = some (upd p (vs * mv) s (ofClass c S)) := by
  obtain ⟨mv, hmv, _, _⟩ := maxVar_spec p hp S hne (fun t ht => (hS t ht).1)
  obtain ⟨f, hf, hinv⟩ := hprep (vs * mv)
  have hin : S.any (fun s => decide (s.y ∉ f.classes)) = false := by
    rw [List.any_eq_false]
    intro s hs
    rw [hinv.cls]
    simp [(hS s hs).2]
  have hinv2 := fun prior => step p classes hn D S f hinv (vs * mv) (fun t ht => (hD t ht).1) (fun t ht => (hS t ht).1) prior _ rfl
  have hall : ∀ t ∈ D ++ S, t.y ∈ classes := by
    intro t ht
    rcases List.mem_append.1 ht with h | h
    · exact (hD t h).2
    · exact (hS t h).2
  have htot : weight (D ++ S) ≠ 0 := (weight_pos (D ++ S) (by simp [hne]) (by
    intro t ht
    rcases List.mem_append.1 ht with h | h
    · exact (hD t h).1
    · exact (hS t h).1)).ne'
  have hc := counts_eq p classes (D ++ S) _ (hinv2 [])
  simp only at hc
  refine ⟨_, ?_, hinv2 (classes.map (fun c => weight (ofClass c (D ++ S)) / weight (D ++ S))), rfl, mv, f, hmv, rfl, hf, ?_⟩
  · unfold partialFit
    rw [hmv]
    simp only [Option.bind_eq_bind, Option.bind_some, hf, hin, Bool.false_eq_true, if_false, core p classes hn D S f hinv (fun t ht => (hD t ht).1) (fun t ht => (hS t ht).1)]
    rw [hc, sum_weights classes hn _ hall, if_neg htot]
    congr 2
    have := congrArg (List.map (fun v => v / weight (D ++ S))) hc
    rw [List.map_map, List.map_map (l := classes)] at this
    exact this
  · intro i s c hs hc
    have hi := (List.getElem?_eq_some_iff.1 hs).1
    have e1 : f.stats.getD i ⟨0, [], []⟩ = s := by rw [List.getD_eq_getElem?_getD, hs]; rfl
    have e2 : classes.getD i 0 = c := by rw [List.getD_eq_getElem?_getD, hc]; rfl
    simp only
    rw [List.getElem?_map, List.getElem?_map, List.getElem?_range hi]
    simp only [Option.map_some, e1, e2]
    rfl

theorem history (tol vs : K) (p : ℕ) (hp : 0 < p) (classes : List K) (hn : classes.Nodup) (Bs : List (List (Sample K))) :
    ∀ (D : List (Sample K)) (f : Fitted K), Inv p classes D f → PriorOk classes D f.prior → (∀ t ∈ D, 0 < t.w ∧ t.y ∈ classes) →
      (∀ S ∈ Bs, S ≠ [] ∧ ∀ t ∈ S, 0 < t.w ∧ t.y ∈ classes) →
      ∃ g, partialFits tol vs none p classes (some f) Bs = some (some g) ∧ Inv p classes (D ++ Bs.flatten) g ∧ PriorOk classes (D ++ Bs.flatten) g.prior := by
  induction Bs with
  | nil => intro D f h1 h2 _ _; exact ⟨f, rfl, by simpa using h1, by simpa using h2⟩
  | cons S Bs ih =>
    intro D f h1 h2 hD hB
    obtain ⟨hne, hS⟩ := hB S (by simp)
    obtain ⟨g, hg, hi, hpr, _⟩ := partialFit_step tol vs p hp classes classes hn D S (some f) false hD hS hne
      (fun eps => by
        obtain ⟨f', a, b, _⟩ := prepare_some tol eps none p classes classes D f h1
        exact ⟨f', a, b⟩)
    obtain ⟨k, hk, hi2, hp2⟩ := ih (D ++ S) g hi hpr (by
      intro t ht
      rcases List.mem_append.1 ht with h | h
      · exact hD t h
      · exact hS t h) (fun T hT => hB T (by simp [hT]))
    refine ⟨k, ?_, by simpa using hi2, by simpa using hp2⟩
    simp only [partialFits, hg, Option.bind_eq_bind, Option.bind_some]
    exact hk

/-! ### C45 -/

/-- C45 (partial: counts, priors and means; the variances are treated below).  Calling `PartialFit` on any non-empty sequence of non-empty batches succeeds and leaves, for
every class, the total weight of all its samples, its share of the total weight as prior, and the weighted mean of every feature over all its samples: exactly what one
fit on all the rows gives. -/
theorem C45_partial (tol vs : K) (p : ℕ) (hp : 0 < p) (classes : List K) (hn : classes.Nodup) (Bs : List (List (Sample K))) (hBs : Bs ≠ [])
    (hB : ∀ S ∈ Bs, S ≠ [] ∧ ∀ t ∈ S, 0 < t.w ∧ t.y ∈ classes) :
    ∃ f, partialFits tol vs none p classes none Bs = some (some f) ∧ f.classes = classes ∧
      f.prior = classes.map (fun c => weight (ofClass c Bs.flatten) / weight Bs.flatten) ∧ f.stats.length = classes.length ∧
      ∀ (i : ℕ) (hi : i < classes.length), ∃ s, f.stats[i]? = some s ∧ s.count = weight (ofClass classes[i] Bs.flatten) ∧ s.mu.length = p ∧ s.va.length = p ∧
        (ofClass classes[i] Bs.flatten ≠ [] → ∀ j < p, s.mu[j]? = some (wmean (feature j (ofClass classes[i] Bs.flatten)))) := by
  cases Bs with
  | nil => exact absurd rfl hBs
  | cons S Bs =>
    obtain ⟨hne, hS⟩ := hB S (by simp)
    have hcl : classes ≠ [] := by
      intro h
      obtain ⟨t, ht⟩ := List.exists_mem_of_ne_nil S hne
      have := (hS t ht).2
      rw [h] at this
      simp at this
    obtain ⟨g, hg, hi, hpr, _⟩ := partialFit_step tol vs p hp classes classes hn [] S none false (by simp) hS hne
      (fun eps => by
        obtain ⟨f', a, b, _⟩ := prepare_none tol eps p classes hcl false
        exact ⟨f', a, b⟩)
    obtain ⟨k, hk, hi2, hp2⟩ := history tol vs p hp classes hn Bs S g (by simpa using hi) (by simpa using hpr) hS (fun T hT => hB T (by simp [hT]))
    refine ⟨k, ?_, hi2.cls, by rw [List.flatten_cons]; exact hp2, hi2.len, ?_⟩
    · simp only [partialFits, hg, Option.bind_eq_bind, Option.bind_some]
      exact hk
    · intro i hic
      have hik : i < k.stats.length := by rw [hi2.len]; exact hic
      have hcnt := hi2.count i _ _ (List.getElem?_eq_getElem hik) (List.getElem?_eq_getElem hic)
      have hsh := hi2.shape _ (List.getElem_mem hik)
      refine ⟨_, List.getElem?_eq_getElem hik, by rw [List.flatten_cons]; exact hcnt, hsh.1, hsh.2, ?_⟩
      rw [List.flatten_cons]
      intro hoc j hj
      have hm := hi2.mean i _ _ (List.getElem?_eq_getElem hik) (List.getElem?_eq_getElem hic) j hj
      have hpos : 0 < weight (ofClass classes[i] (S ++ Bs.flatten)) := by
        apply weight_pos _ hoc
        intro t ht
        have := (List.mem_filter.1 ht).1
        rcases List.mem_append.1 this with h | h
        · exact (hS t h).1
        · obtain ⟨T, hT, h⟩ := List.mem_flatten.1 h
          exact ((hB T (by simp [hT])).2 t h).1
      rw [hcnt, wmean_sum _ (by rw [feature_weight]; exact hpos.ne'), feature_weight] at hm
      have hm := mul_left_cancel₀ hpos.ne' hm
      rw [List.getElem?_eq_getElem (by omega), ← hm, List.getD_eq_getElem?_getD, List.getElem?_eq_getElem (by omega)]
      rfl

/-- Two batches of weighted samples with one feature and two classes, one of which is absent from the second batch. -/
example : ∃ Bs : List (List (Sample ℚ)), Bs ≠ [] ∧ (∀ S ∈ Bs, S ≠ [] ∧ ∀ t ∈ S, 0 < t.w ∧ t.y ∈ [(1 : ℚ), 5]) ∧
    (partialFits (1/1000000) 0 none 1 [1, 5] none Bs).bind (fun f => f.bind (fun f => f.stats[0]?.map Stat.mu)) = some [7/3] :=
  ⟨[[⟨[1], 1, 1⟩, ⟨[8], 5, 1⟩], [⟨[3], 1, 2⟩]], by decide +kernel⟩

theorem upd_first (p : ℕ) (eps : K) (S : List (Sample K)) (hne : S ≠ []) (hw : ∀ t ∈ S, 0 < t.w) :
    upd p eps ⟨0, List.replicate p 0, List.replicate p 0⟩ S =
      ⟨weight S, (List.range p).map (fun j => wmean (feature j S)), (List.range p).map (fun j => wvar (feature j S) + eps)⟩ := by
  have hpos := (weight_pos S hne hw).ne'
  rw [upd, updateStat_spec p _ S le_rfl hne hw]
  simp only [Option.getD_some, addEps, zero_add, zero_mul, mul_zero, zero_div, add_zero, List.map_map, Function.comp_def, mul_div_cancel_left₀ _ hpos]

/-- C45, the first call (so also `Fit` on a new estimator): every class present gets its weight, means, and population variances enlarged by `VarSmoothing` times the
greatest variance of a feature over the whole batch. -/
theorem C45_first_fit (tol vs : K) (p : ℕ) (hp : 0 < p) (classes : List K) (hn : classes.Nodup) (S : List (Sample K)) (hne : S ≠ [])
    (hS : ∀ t ∈ S, 0 < t.w ∧ t.y ∈ classes) (refit : Bool) :
    ∃ f mv, partialFit tol vs none none p S classes refit = some f ∧ f.classes = classes ∧
      f.prior = classes.map (fun c => weight (ofClass c S) / weight S) ∧
      (∀ j < p, wvar (feature j S) ≤ mv) ∧ (∃ j < p, mv = wvar (feature j S)) ∧ f.eps = vs * mv ∧
      ∀ (i : ℕ) (hi : i < classes.length), ofClass classes[i] S ≠ [] →
        f.stats[i]? = some ⟨weight (ofClass classes[i] S), (List.range p).map (fun j => wmean (feature j (ofClass classes[i] S))),
          (List.range p).map (fun j => wvar (feature j (ofClass classes[i] S)) + vs * mv)⟩ := by
  have hcl : classes ≠ [] := by
    intro h
    obtain ⟨t, ht⟩ := List.exists_mem_of_ne_nil S hne
    have := (hS t ht).2
    rw [h] at this
    simp at this
  obtain ⟨g, hg, hi, hpr, mv, f, hmv, heps, hf, hst⟩ := partialFit_step tol vs p hp classes classes hn [] S none refit (by simp) hS hne
    (fun eps => by
      obtain ⟨f', a, b, _⟩ := prepare_none tol eps p classes hcl refit
      exact ⟨f', a, b⟩)
  obtain ⟨mv', hmv', hle, hex⟩ := maxVar_spec p hp S hne (fun t ht => (hS t ht).1)
  rw [hmv] at hmv'
  cases hmv'
  refine ⟨g, mv, hg, hi.cls, hpr, hle, hex, heps, ?_⟩
  intro i hic hoc
  obtain ⟨f', a, _, b⟩ := prepare_none tol (vs * mv) p classes hcl refit
  rw [hf] at a
  cases a
  have := hst i ⟨0, List.replicate p 0, List.replicate p 0⟩ classes[i] (by rw [b, List.getElem?_replicate, if_pos hic]) (List.getElem?_eq_getElem hic)
  rw [this, upd_first p _ _ hoc (fun t ht => (hS t (List.mem_filter.1 ht).1).1)]

theorem npUnique_spec (ys : List K) : (npUnique ys).Nodup ∧ (npUnique ys).Pairwise (· ≤ ·) ∧ ∀ y, y ∈ npUnique ys ↔ y ∈ ys := by
  unfold npUnique
  have hp := List.perm_insertionSort (· ≤ ·) ys.dedup
  exact ⟨hp.nodup_iff.2 (List.nodup_dedup ys), List.pairwise_insertionSort _ _, fun y => by rw [hp.mem_iff, List.mem_dedup]⟩

/-- C45: `Fit` on a new estimator, for any data: the classes are the labels in increasing order, each once; each class has its weight share as prior and the weighted means
and (smoothed) population variances of its samples. -/
theorem C45_fit (tol vs : K) (p : ℕ) (hp : 0 < p) (S : List (Sample K)) (hne : S ≠ []) (hS : ∀ t ∈ S, 0 < t.w) :
    ∃ f mv, fit tol vs none none p S = some f ∧
      f.classes.Pairwise (· < ·) ∧ (∀ y, y ∈ f.classes ↔ ∃ t ∈ S, t.y = y) ∧
      f.prior = f.classes.map (fun c => weight (ofClass c S) / weight S) ∧
      (∀ j < p, wvar (feature j S) ≤ mv) ∧ (∃ j < p, mv = wvar (feature j S)) ∧
      f.stats = f.classes.map (fun c => ⟨weight (ofClass c S), (List.range p).map (fun j => wmean (feature j (ofClass c S))),
          (List.range p).map (fun j => wvar (feature j (ofClass c S)) + vs * mv)⟩) := by
  obtain ⟨hnd, hso, hmem⟩ := npUnique_spec (S.map Sample.y)
  have hin : ∀ t ∈ S, 0 < t.w ∧ t.y ∈ npUnique (S.map Sample.y) := fun t ht => ⟨hS t ht, (hmem _).2 (List.mem_map.2 ⟨t, ht, rfl⟩)⟩
  obtain ⟨f, mv, h1, h2, h3, h4, h5, _, h7⟩ := C45_first_fit tol vs p hp _ hnd S hne hin true
  have hlen : f.stats.length = f.classes.length := by
    have hcl : npUnique (S.map Sample.y) ≠ [] := by
      intro h
      obtain ⟨t, ht⟩ := List.exists_mem_of_ne_nil S hne
      have := (hin t ht).2
      rw [h] at this
      simp at this
    obtain ⟨g, hg, hi, _⟩ := partialFit_step tol vs p hp _ _ hnd [] S none true (by simp) hin hne
      (fun eps => by
        obtain ⟨f', a, b, _⟩ := prepare_none tol eps p _ hcl true
        exact ⟨f', a, b⟩)
    rw [h1] at hg
    cases hg
    rw [hi.len, h2]
  refine ⟨f, mv, h1, ?_, ?_, by rw [h2]; exact h3, h4, h5, ?_⟩
  · rw [h2]
    exact (hso.and hnd).imp (fun h => lt_of_le_of_ne h.1 h.2)
  · intro y
    rw [h2, hmem, List.mem_map]
  · apply List.ext_getElem?
    intro i
    by_cases hi : i < f.classes.length
    · have hi' : i < (npUnique (S.map Sample.y)).length := by rw [← h2]; exact hi
      have hc : (npUnique (S.map Sample.y))[i] = f.classes[i] := by simp only [h2]
      have hne2 : ofClass f.classes[i] S ≠ [] := by
        have : f.classes[i] ∈ npUnique (S.map Sample.y) := by rw [← hc]; exact List.getElem_mem hi'
        rw [hmem, List.mem_map] at this
        obtain ⟨t, ht, e⟩ := this
        apply List.ne_nil_of_mem (a := t)
        exact List.mem_filter.2 ⟨ht, by simp [e]⟩
      rw [h7 i hi' (by rw [hc]; exact hne2), hc, List.getElem?_map, List.getElem?_eq_getElem hi]
      rfl
    · rw [List.getElem?_eq_none (by omega), List.getElem?_eq_none (by simp; omega)]

/-- Weighted samples of two classes, two features. -/
example : ∃ S : List (Sample ℚ), S ≠ [] ∧ (∀ t ∈ S, 0 < t.w) ∧
    (fit (1/1000000) (1/2) none none 2 S).map (fun f => (f.classes, f.prior, f.eps)) = some ([1, 5], [3/4, 1/4], 6) :=
  ⟨[⟨[1, 7], 1, 1⟩, ⟨[9, 7], 5, 1⟩, ⟨[1, 3], 1, 2⟩], by decide +kernel⟩

/-- C45, what two calls really store: with total weights `a`, `b` and means `m₁`, `m₂` of a class present in both batches, the stored variance is the true one of all its
samples, minus `a*b/(a+b)² * (1 - a²/(a+b)²) * (m₁-m₂)²`, plus a mix of the two epsilons. -/
theorem C45_two_batches (tol vs : K) (p : ℕ) (hp : 0 < p) (classes : List K) (hn : classes.Nodup) (S T : List (Sample K)) (hneS : S ≠ []) (hneT : T ≠ [])
    (hS : ∀ t ∈ S, 0 < t.w ∧ t.y ∈ classes) (hT : ∀ t ∈ T, 0 < t.w ∧ t.y ∈ classes) :
    ∃ f g, partialFit tol vs none none p S classes false = some f ∧ partialFit tol vs none (some f) p T classes false = some g ∧
      ∀ (i : ℕ) (hi : i < classes.length), ofClass classes[i] S ≠ [] → ofClass classes[i] T ≠ [] → ∃ s, g.stats[i]? = some s ∧ ∀ j < p,
        let l := feature j (ofClass classes[i] S)
        let m := feature j (ofClass classes[i] T)
        let a := weight (ofClass classes[i] S)
        let b := weight (ofClass classes[i] T)
        s.va[j]? = some (wvar (l ++ m) - a * b / (a + b) ^ 2 * (1 - a ^ 2 / (a + b) ^ 2) * (wmean l - wmean m) ^ 2 + (a * f.eps + b * g.eps) / (a + b)) := by
  obtain ⟨f, mv, h1, h2, h3, h4, h5, h6, h7⟩ := C45_first_fit tol vs p hp classes hn S hneS hS false
  have hcl : classes ≠ [] := by
    intro h
    obtain ⟨t, ht⟩ := List.exists_mem_of_ne_nil S hneS
    have := (hS t ht).2
    rw [h] at this
    simp at this
  obtain ⟨f', hf', hinv, _⟩ := partialFit_step tol vs p hp classes classes hn [] S none false (by simp) hS hneS
    (fun eps => by
      obtain ⟨f', a, b, _⟩ := prepare_none tol eps p classes hcl false
      exact ⟨f', a, b⟩)
  rw [h1] at hf'
  cases hf'
  rw [List.nil_append] at hinv
  obtain ⟨g, hg, hgi, _, mv2, q, hmv2, hgeps, hq, hst⟩ := partialFit_step tol vs p hp classes classes hn S T (some f) false hS hT hneT
    (fun eps => by
      obtain ⟨f', a, b, _⟩ := prepare_some tol eps none p classes classes S f hinv
      exact ⟨f', a, b⟩)
  refine ⟨f, g, h1, hg, ?_⟩
  intro i hi hoS hoT
  obtain ⟨q', hq', _, hqs⟩ := prepare_some tol (vs * mv2) none p classes classes S f hinv
  rw [hq] at hq'
  cases hq'
  have hfs := h7 i hi hoS
  have hqi := hst i _ classes[i] (by rw [hqs, List.getElem?_map, hfs]; rfl) (List.getElem?_eq_getElem hi)
  refine ⟨_, hqi, ?_⟩
  intro j hj l m a b
  have hwS : ∀ t ∈ ofClass classes[i] S, 0 < t.w := fun t ht => (hS t (List.mem_filter.1 ht).1).1
  have hwT : ∀ t ∈ ofClass classes[i] T, 0 < t.w := fun t ht => (hT t (List.mem_filter.1 ht).1).1
  have ha : 0 < a := weight_pos _ hoS hwS
  have hb : 0 < b := weight_pos _ hoT hwT
  have hl : (l.map Prod.snd).sum = a := feature_weight j _
  have hm : (m.map Prod.snd).sum = b := feature_weight j _
  have happ := wvar_append l m (by rw [hl]; exact ha) (by rw [hm]; exact hb)
  simp only [hl, hm] at happ
  rw [upd, updateStat_spec p _ _ (by exact ha.le) hoT hwT]
  have hab : a + b ≠ 0 := (add_pos ha hb).ne'
  simp only [Option.getD_some, addEps, List.getElem?_map, List.getElem?_range hj, Option.map_some, List.getD_eq_getElem?_getD]
  change some ((a * (wvar l + vs * mv + -(vs * mv2)) + b * wvar m + b * a / (a + b) * ((a * wmean l + b * wmean m) / (a + b) - wmean m) *
    ((a * wmean l + b * wmean m) / (a + b) - wmean m)) / (a + b) + vs * mv2) = _
  rw [happ, h6, hgeps]
  congr 1
  field_simp
  ring

/-- C45, violated: without smoothing, after two batches the stored variance of a feature is the variance of all the samples of the class exactly when the two batches have
the same mean for it; otherwise it is strictly too small. -/
theorem C45_variance_violated (tol : K) (p : ℕ) (hp : 0 < p) (classes : List K) (hn : classes.Nodup) (S T : List (Sample K)) (hneS : S ≠ []) (hneT : T ≠ [])
    (hS : ∀ t ∈ S, 0 < t.w ∧ t.y ∈ classes) (hT : ∀ t ∈ T, 0 < t.w ∧ t.y ∈ classes) :
    ∃ g, partialFits tol 0 none p classes none [S, T] = some (some g) ∧
      ∀ (i : ℕ) (hi : i < classes.length), ofClass classes[i] S ≠ [] → ofClass classes[i] T ≠ [] → ∃ s, g.stats[i]? = some s ∧ ∀ j < p, ∃ v, s.va[j]? = some v ∧
        (wmean (feature j (ofClass classes[i] S)) = wmean (feature j (ofClass classes[i] T)) → v = wvar (feature j (ofClass classes[i] (S ++ T)))) ∧
        (wmean (feature j (ofClass classes[i] S)) ≠ wmean (feature j (ofClass classes[i] T)) → v < wvar (feature j (ofClass classes[i] (S ++ T)))) := by
  obtain ⟨f, g, h1, h2, h3⟩ := C45_two_batches tol 0 p hp classes hn S T hneS hneT hS hT
  obtain ⟨f', mv, h1', _, _, _, _, e1, _⟩ := C45_first_fit tol 0 p hp classes hn S hneS hS false
  rw [h1] at h1'
  cases h1'
  have e2 : g.eps = 0 := by
    unfold partialFit at h2
    simp only [Option.bind_eq_bind, Option.bind_eq_some_iff] at h2
    obtain ⟨mv, _, q, _, h2⟩ := h2
    split at h2
    · cases h2
    · simp only [Option.bind_eq_some_iff] at h2
      obtain ⟨_, _, h2⟩ := h2
      split at h2
      · cases h2
      · cases h2
        simp
  rw [zero_mul] at e1
  refine ⟨g, by simp only [partialFits, h1, h2, Option.bind_eq_bind, Option.bind_some], ?_⟩
  intro i hi hoS hoT
  obtain ⟨s, hs, h4⟩ := h3 i hi hoS hoT
  refine ⟨s, hs, ?_⟩
  intro j hj
  have h5 := h4 j hj
  simp only [e1, e2, mul_zero, add_zero, zero_div] at h5
  refine ⟨_, h5, ?_, ?_⟩
  · intro h
    rw [h, ofClass_append, feature_append]
    ring
  · intro h
    rw [ofClass_append, feature_append]
    have ha : 0 < weight (ofClass classes[i] S) := weight_pos _ hoS (fun t ht => (hS t (List.mem_filter.1 ht).1).1)
    have hb : 0 < weight (ofClass classes[i] T) := weight_pos _ hoT (fun t ht => (hT t (List.mem_filter.1 ht).1).1)
    set a := weight (ofClass classes[i] S)
    set b := weight (ofClass classes[i] T)
    have h6 : 0 < 1 - a ^ 2 / (a + b) ^ 2 := by
      rw [sub_pos, div_lt_one (by positivity)]
      nlinarith
    have h7 : 0 < (wmean (feature j (ofClass classes[i] S)) - wmean (feature j (ofClass classes[i] T))) ^ 2 := by
      have := sub_ne_zero.2 h
      positivity
    have : 0 < a * b / (a + b) ^ 2 * (1 - a ^ 2 / (a + b) ^ 2) * (wmean (feature j (ofClass classes[i] S)) - wmean (feature j (ofClass classes[i] T))) ^ 2 := by
      positivity
    linarith

/-- Samples 1 and 3 of one class given in two batches: variance 1, stored variance 1/4. -/
example : (partialFits (1/1000000) 0 none 1 [(1 : ℚ)] none [[⟨[1], 1, 1⟩], [⟨[3], 1, 1⟩]]).bind (fun f => f.bind (fun f => f.stats[0]?.map Stat.va)) = some [1/4] ∧
    wvar [((1 : ℚ), (1 : ℚ)), (3, 1)] = 1 := by decide +kernel

/-! ### C86 -/

/-- C86, violated: once an estimator has been fitted, calling `Fit` again panics, whatever the data. -/
theorem C86_refit_violated (tol vs : K) (priors : Option (List K)) (f : Fitted K) (p : ℕ) (S : List (Sample K)) (hne : S ≠ []) :
    fit tol vs priors (some f) p S = none := by
  unfold fit partialFit
  cases hm : maxVar p S with
  | none => rfl
  | some mv =>
    simp only [Option.bind_eq_bind, Option.bind_some]
    cases hq : prepare tol priors (vs * mv) (some f) p (npUnique (S.map Sample.y)) true with
    | none => rfl
    | some q =>
      have hq2 : q.classes = [] := by
        simp only [prepare] at hq
        split at hq
        · cases hq
        · cases hq; rfl
      have : S.any (fun s => decide (s.y ∉ q.classes)) = true := by
        rw [hq2]
        cases S with
        | nil => exact absurd rfl hne
        | cons a S => simp
      simp only [Option.bind_some, this, if_true]

/-- The classes an estimator recognises in the next `PartialFit`. -/
def known (st : Option (Fitted K)) (classes : List K) : List K := match st with
  | none => classes
  | some f => f.classes

/-- C86, what holds: a batch with a label outside the declared classes is refused (and nothing is returned), on the first call and on later ones. -/
theorem C86_unknown_label (tol vs : K) (priors : Option (List K)) (st : Option (Fitted K)) (p : ℕ) (S : List (Sample K)) (classes : List K)
    (h : ∃ t ∈ S, t.y ∉ known st classes) :
    partialFit tol vs priors st p S classes false = none := by
  unfold partialFit
  cases hm : maxVar p S with
  | none => rfl
  | some mv =>
    simp only [Option.bind_eq_bind, Option.bind_some]
    cases hq : prepare tol priors (vs * mv) st p classes false with
    | none => rfl
    | some q =>
      have hq2 : q.classes = known st classes := by
        cases st with
        | none =>
          simp only [prepare] at hq
          split at hq
          · cases hq
          · obtain ⟨_, _, rfl⟩ := Option.map_eq_some_iff.1 hq
            rfl
        | some f =>
          simp only [prepare] at hq
          split at hq
          · cases hq
          · cases hq; rfl
      have : S.any (fun s => decide (s.y ∉ q.classes)) = true := by
        rw [List.any_eq_true]
        obtain ⟨t, ht, h⟩ := h
        exact ⟨t, ht, by rw [hq2]; simpa using h⟩
      simp only [Option.bind_some, this, if_true]

/-- A first `Fit` that succeeds, and the second one on the same data that does not. -/
example : (fit (1/1000000) 0 none none 1 [⟨[(1 : ℚ)], 1, 1⟩, ⟨[2], 0, 1⟩]).isSome = true ∧
    ((fit (1/1000000) 0 none none 1 [⟨[(1 : ℚ)], 1, 1⟩, ⟨[2], 0, 1⟩]).bind (fun f => fit (1/1000000) 0 none (some f) 1 [⟨[(1 : ℚ)], 1, 1⟩, ⟨[2], 0, 1⟩])).isSome = false := by
  decide +kernel

end Sk.NB
