import Verif.Model.ConfusionMulti
import Verif.Props.Classification
import Verif.Lemmas.ListX
import Mathlib.Tactic.LinearCombination
import Mathlib.Data.List.OfFn
import Mathlib.Data.Fin.VecNotation
import Mathlib.Algebra.BigOperators.Fin
import Mathlib.Algebra.BigOperators.Ring.Finset

/-!
# C169: `ConfusionMatrix` with several label columns

The documentation says "operate only on 1st Y column".  A sample is its row of true labels, its row of predictions and its weight.
-/
set_option autoImplicit false

namespace Sk.Metrics

open Sk.Label Sk.GoSort

variable {K : Type} [Field K] [LinearOrder K] [IsStrictOrderedRing K] {L : Type} [LinearOrder L]

/-- A sample with `d` label columns. -/
abbrev Row (d : ℕ) (L K : Type) := (Fin d → L) × (Fin d → L) × K

/-- `ConfusionMatrix` on samples with `d` columns: the number of classes and the matrix. -/
def cmOf {d : ℕ} (S : List (Row d L K)) : Option (ℕ × List K) :=
  (confusionM d (S.map (fun s => List.ofFn s.1)) (S.map (fun s => List.ofFn s.2.1)) (some (S.map (fun s => s.2.2)))).map (fun r => (r.1, r.2.1))

/-- `ConfusionMatrix` on the column `j` alone. -/
def cmCol {d : ℕ} (S : List (Row d L K)) (j : Fin d) : Option (ℕ × List K) :=
  (confusion (S.map (fun s => s.1 j)) (S.map (fun s => s.2.1 j)) (some (S.map (fun s => s.2.2)))).map (fun r => (r.1, r.2.1))

/-- The encoder of column `j`. -/
def encAt {d : ℕ} (S : List (Row d L K)) (j : Fin d) : Enc L := (S.map (fun s => s.1 j)).foldl Enc.add Enc.empty

/-- What the two loops add, in order. -/
def hits {d : ℕ} (e : Fin d → Enc L) (S : List (Row d L K)) : List (ℤ × ℤ × K) :=
  S.flatMap (fun s => List.ofFn fun j => ((e j).code (s.1 j), (e j).code (s.2.1 j), s.2.2))

theorem transformRow_ofFn : ∀ {d : ℕ} (e : Fin d → Enc L) (v : Fin d → L),
    transformRow (List.ofFn e) (List.ofFn v) = some (List.ofFn fun j => (e j).code (v j)) := by
  intro d
  induction d with
  | zero => intro e v; simp [transformRow]
  | succ d ih =>
    intro e v
    rw [List.ofFn_succ, List.ofFn_succ, List.ofFn_succ, transformRow, ih]
    rfl

/-- The one-column loop is the fold of `cmAt` over the hits. -/
theorem cmLoop_foldlM (n : ℕ) (T : List (ℤ × ℤ × K)) : ∀ (pre : List (ℤ × ℤ × K)) (cm : List K),
    cmLoop n (some ((pre ++ T).map (fun t => t.2.2))) (T.map (fun t => t.1)) (T.map (fun t => t.2.1)) pre.length cm =
      T.foldlM (fun cm t => cmAt n t.2.2 t.1 t.2.1 cm) cm := by
  induction T with
  | nil => intro pre cm; simp [cmLoop]
  | cons a T ih =>
    intro pre cm
    have hw : weightAt (some ((pre ++ a :: T).map (fun t => t.2.2))) pre.length = some a.2.2 := by
      simp only [weightAt, List.map_append, List.map_cons]
      rw [List.getElem?_append_right (by simp)]
      simp
    have h := ih (pre ++ [a])
    simp only [List.append_assoc, List.singleton_append, List.length_append, List.length_singleton] at h
    rw [List.map_cons, List.map_cons, cmLoop, hw, List.foldlM_cons]
    simp only [Option.bind_eq_bind, Option.bind_some]
    rw [show cmAt n a.2.2 a.1 a.2.1 cm = if a.1 * (n : ℤ) + a.2.1 < 0 then none else (cm[(a.1 * (n : ℤ) + a.2.1).toNat]?).map
      (fun old => cm.set (a.1 * (n : ℤ) + a.2.1).toNat (old + a.2.2)) from rfl]
    split
    · simp
    · cases cm[(a.1 * (n : ℤ) + a.2.1).toNat]? with
      | none => rfl
      | some old => simp only [Option.bind_some, Option.map_some]; rw [h]

theorem cmRow_foldlM (n : ℕ) (wi : K) : ∀ {d : ℕ} (r c : Fin d → ℤ) (cm : List K),
    cmRow n wi (List.ofFn r) (List.ofFn c) cm = (List.ofFn fun j => (r j, c j, wi)).foldlM (fun cm t => cmAt n t.2.2 t.1 t.2.1 cm) cm := by
  intro d
  induction d with
  | zero => intro r c cm; simp [cmRow]
  | succ d ih =>
    intro r c cm
    rw [List.ofFn_succ, List.ofFn_succ, List.ofFn_succ, cmRow, List.foldlM_cons]
    simp only [Option.bind_eq_bind]
    congr 1
    funext cm'
    exact ih _ _ _

theorem cmRows_foldlM (n : ℕ) {d : ℕ} (e : Fin d → Enc L) (S : List (Row d L K)) : ∀ (pre : List (Row d L K)) (cm : List K),
    cmRows n (some ((pre ++ S).map (fun s => s.2.2))) (S.map (fun s => List.ofFn fun j => (e j).code (s.1 j)))
      (S.map (fun s => List.ofFn fun j => (e j).code (s.2.1 j))) pre.length cm = (hits e S).foldlM (fun cm t => cmAt n t.2.2 t.1 t.2.1 cm) cm := by
  induction S with
  | nil => intro pre cm; simp [cmRows, hits]
  | cons a S ih =>
    intro pre cm
    have hw : weightAt (some ((pre ++ a :: S).map (fun s => s.2.2))) pre.length = some a.2.2 := by
      simp only [weightAt, List.map_append, List.map_cons]
      rw [List.getElem?_append_right (by simp)]
      simp
    have h := ih (pre ++ [a])
    simp only [List.append_assoc, List.singleton_append, List.length_append, List.length_singleton] at h
    rw [List.map_cons, List.map_cons, cmRows, hw, Option.bind_some, cmRow_foldlM]
    have hh : hits e (a :: S) = (List.ofFn fun j => ((e j).code (a.1 j), (e j).code (a.2.1 j), a.2.2)) ++ hits e S := rfl
    rw [hh, List.foldlM_append, Option.bind_eq_bind]
    congr 1
    funext cm'
    exact h cm'

/-- `ConfusionMatrix` as a fold over the hits. -/
theorem cmOf_eq {d : ℕ} (hd : 0 < d) (S : List (Row d L K)) : cmOf S =
    ((hits (encAt S) S).foldlM (fun cm t => cmAt (encAt S ⟨0, hd⟩).classes.length t.2.2 t.1 t.2.1 cm)
      (List.replicate ((encAt S ⟨0, hd⟩).classes.length * (encAt S ⟨0, hd⟩).classes.length) 0)).map
        (fun cm => ((encAt S ⟨0, hd⟩).classes.length, cm)) := by
  have hles : (List.range d).map (fun j => ((S.map (fun s => List.ofFn s.1)).filterMap (fun row => row[j]?)).foldl Enc.add (Enc.empty : Enc L)) =
      List.ofFn (encAt S) := by
    apply List.ext_getElem
    · simp
    · intro j h1 h2
      have hj : j < d := by simpa using h1
      simp only [List.getElem_map, List.getElem_range, List.getElem_ofFn, encAt, List.filterMap_map]
      congr 1
      rw [← List.filterMap_eq_map]
      congr 1
      funext s
      simp [hj]
  have hrow : ∀ f : Row d L K → Fin d → L, (S.map (fun s => List.ofFn (f s))).mapM (transformRow (List.ofFn (encAt S))) =
      some (S.map (fun s => List.ofFn fun j => (encAt S j).code (f s j))) := by
    intro f
    apply (ListX.mapM_forall2 _ _ _).2
    rw [List.forall₂_map_left_iff, List.forall₂_map_right_iff]
    exact List.forall₂_same.2 (fun s _ => transformRow_ofFn _ _)
  unfold cmOf confusionM
  simp only [hles]
  rw [hrow (fun s => s.1), hrow (fun s => s.2.1)]
  have h0 : (List.ofFn (encAt S))[0]? = some (encAt S ⟨0, hd⟩) := by simp [hd]
  rw [Option.bind_some, Option.bind_some, h0, Option.bind_some, Option.map_map]
  have := cmRows_foldlM (encAt S ⟨0, hd⟩).classes.length (encAt S) S []
    (List.replicate ((encAt S ⟨0, hd⟩).classes.length * (encAt S ⟨0, hd⟩).classes.length) 0)
  simp only [List.nil_append, List.length_nil] at this
  rw [this]
  rfl

theorem sum_hits {d : ℕ} (e : Fin d → Enc L) (S : List (Row d L K)) :
    ((hits e S).map (fun t => t.2.2)).sum = (d : K) * (S.map (fun s => s.2.2)).sum := by
  induction S with
  | nil => simp [hits]
  | cons a S ih =>
    have hh : hits e (a :: S) = (List.ofFn fun j => ((e j).code (a.1 j), (e j).code (a.2.1 j), a.2.2)) ++ hits e S := rfl
    rw [hh, List.map_append, List.sum_append, ih, List.map_ofFn, List.sum_ofFn, List.map_cons, List.sum_cons, mul_add]
    simp

/-- **C169 (partial).** With one column `ConfusionMatrix` is the matrix of that column (what C28 is about).  Missing: two columns or more, where
the later columns are not ignored, see `C169_all_columns` and `C169_columns_violated`. -/
theorem C169_one_partial (S : List (Row 1 L K)) : cmOf S = cmCol S 0 := by
  rw [cmOf_eq (by omega)]
  unfold cmCol confusion
  have hT := cmLoop_foldlM (encAt S 0).classes.length (hits (encAt S) S) []
    (List.replicate ((encAt S 0).classes.length * (encAt S 0).classes.length) 0)
  have hh : hits (encAt S) S = S.map (fun s => ((encAt S 0).code (s.1 0), (encAt S 0).code (s.2.1 0), s.2.2)) := by
    unfold hits
    rw [List.map_eq_flatMap]
    simp
  simp only [List.nil_append, List.length_nil] at hT
  have h0 : (⟨0, by omega⟩ : Fin 1) = 0 := rfl
  rw [h0, ← hT, hh]
  simp only [List.map_map, Option.bind_eq_bind]
  change _ = Option.map _ (Option.bind (cmLoop (encAt S 0).classes.length _ (S.map ((encAt S 0).code ∘ fun s => s.1 0))
    (S.map ((encAt S 0).code ∘ fun s => s.2.1 0)) 0 _) _)
  have e1 : S.map ((fun t : ℤ × ℤ × K => t.1) ∘ fun s : Row 1 L K => ((encAt S 0).code (s.1 0), (encAt S 0).code (s.2.1 0), s.2.2)) =
    S.map ((encAt S 0).code ∘ fun s => s.1 0) := rfl
  have e2 : S.map ((fun t : ℤ × ℤ × K => t.2.1) ∘ fun s : Row 1 L K => ((encAt S 0).code (s.1 0), (encAt S 0).code (s.2.1 0), s.2.2)) =
    S.map ((encAt S 0).code ∘ fun s => s.2.1 0) := rfl
  have e3 : S.map ((fun t : ℤ × ℤ × K => t.2.2) ∘ fun s : Row 1 L K => ((encAt S 0).code (s.1 0), (encAt S 0).code (s.2.1 0), s.2.2)) =
    S.map (fun s => s.2.2) := rfl
  rw [e1, e2, e3]
  change _ = Option.map _ (Option.bind (cmLoop (encAt S 0).classes.length _ _ _ 0
    (List.replicate ((encAt S 0).classes.length * (encAt S 0).classes.length) 0)) _)
  generalize (cmLoop _ _ _ _ _ _ : Option (List K)) = o
  cases o <;> rfl

theorem wsum_ofFn {d : ℕ} {T : Type} (w : T → K) (p : T → Prop) [DecidablePred p] (f : Fin d → T) :
    wsum w p (List.ofFn f) = ∑ j, if p (f j) then w (f j) else 0 := by
  unfold wsum
  rw [List.map_ofFn, List.sum_ofFn]
  rfl

theorem encAt_card {d : ℕ} (S : List (Row d L K)) (j : Fin d) : (encAt S j).classes.length = (S.map (fun s => s.1 j)).toFinset.card := by
  obtain ⟨a, b⟩ := enc_spec (S.map (fun s => s.1 j))
  have hnod : (encAt S j).classes.Nodup := a.imp (fun {a b} h => ne_of_lt h)
  rw [← List.toFinset_card_of_nodup hnod]
  congr 1
  ext v
  rw [List.mem_toFinset, List.mem_toFinset]
  exact b v

theorem all_columns {d : ℕ} (hd : 0 < d) (S : List (Row d L K)) (hknown : ∀ j, ∀ s ∈ S, ∃ t ∈ S, t.1 j = s.2.1 j)
    (hsize : ∀ j, (encAt S j).classes.length ≤ (encAt S ⟨0, hd⟩).classes.length) :
    ∃ cm, cmOf S = some ((encAt S ⟨0, hd⟩).classes.length, cm) ∧
      cm.length = (encAt S ⟨0, hd⟩).classes.length * (encAt S ⟨0, hd⟩).classes.length ∧
      (∀ j, (encAt S j).classes.Pairwise (· < ·) ∧ ∀ v, v ∈ (encAt S j).classes ↔ ∃ s ∈ S, s.1 j = v) ∧
      ∀ r < (encAt S ⟨0, hd⟩).classes.length, ∀ c < (encAt S ⟨0, hd⟩).classes.length,
        cm.getD (r * (encAt S ⟨0, hd⟩).classes.length + c) 0 =
          ∑ j, wsum (fun s => s.2.2) (fun s => (encAt S j).classes[r]? = some (s.1 j) ∧ (encAt S j).classes[c]? = some (s.2.1 j)) S := by
  set n := (encAt S ⟨0, hd⟩).classes.length with hn
  have hspec : ∀ j, (encAt S j).classes.Pairwise (· < ·) ∧ ∀ v, v ∈ (encAt S j).classes ↔ ∃ s ∈ S, s.1 j = v := by
    intro j
    obtain ⟨a, b⟩ := enc_spec (S.map (fun s => s.1 j))
    exact ⟨a, fun v => (b v).trans List.mem_map⟩
  have hcode : ∀ j v, (∃ s ∈ S, s.1 j = v) → ∃ i, i < n ∧ (encAt S j).code v = (i : ℤ) ∧ ∀ k, (encAt S j).classes[k]? = some v ↔ i = k := by
    intro j v hv
    obtain ⟨i, hi, e⟩ := List.getElem_of_mem (((hspec j).2 v).2 hv)
    have hnod : (encAt S j).classes.Nodup := (hspec j).1.imp (fun {a b} h => ne_of_lt h)
    refine ⟨i, lt_of_lt_of_le hi (hsize j), by rw [← e]; exact code_mem _ (hspec j).1 i hi, fun k => ?_⟩
    rw [List.getElem?_eq_some_iff]
    constructor
    · rintro ⟨hk, ek⟩
      exact (hnod.getElem_inj_iff).1 (e.trans ek.symm)
    · rintro rfl; exact ⟨hi, e⟩
  have hflat : ∀ i j : ℕ, ((i : ℤ) * (n : ℤ) + (j : ℤ)) = ((i * n + j : ℕ) : ℤ) := by intro i j; push_cast; ring
  have hin : ∀ t ∈ hits (encAt S) S, 0 ≤ t.1 * (n : ℤ) + t.2.1 ∧ (t.1 * (n : ℤ) + t.2.1).toNat < (List.replicate (n * n) (0 : K)).length := by
    intro t ht
    obtain ⟨s, hs, ht⟩ := List.mem_flatMap.1 ht
    obtain ⟨j, rfl⟩ := (List.mem_ofFn' _ _).1 ht
    obtain ⟨a, ha, ea, _⟩ := hcode j (s.1 j) ⟨s, hs, rfl⟩
    obtain ⟨b, hb, eb, _⟩ := hcode j (s.2.1 j) (hknown j s hs)
    simp only [ea, eb, hflat]
    refine ⟨by positivity, ?_⟩
    rw [List.length_replicate, Int.toNat_natCast]
    exact cell_lt ha hb
  obtain ⟨cm, e, hl, hk⟩ := cmLoop_spec n (fun t : ℤ × ℤ × K => t.1) (fun t => t.2.1) (fun t => t.2.2) (hits (encAt S) S) [] _ hin
  rw [cmLoop_foldlM] at e
  refine ⟨cm, ?_, by simpa using hl, hspec, ?_⟩
  · rw [cmOf_eq hd, ← hn, e]; rfl
  · intro r hr c hc
    rw [hk _ (by rw [List.length_replicate]; exact cell_lt hr hc)]
    have h0 : (List.replicate (n * n) (0 : K)).getD (r * n + c) 0 = 0 := by
      rw [List.getD_eq_getElem?_getD, List.getElem?_replicate]
      split <;> rfl
    rw [h0, zero_add]
    have hall : ∀ S' : List (Row d L K), (∀ s ∈ S', s ∈ S) →
        wsum (fun t => t.2.2) (fun t => (t.1 * (n : ℤ) + t.2.1).toNat = r * n + c) (hits (encAt S) S') =
          ∑ j, wsum (fun s => s.2.2) (fun s => (encAt S j).classes[r]? = some (s.1 j) ∧ (encAt S j).classes[c]? = some (s.2.1 j)) S' := by
      intro S'
      induction S' with
      | nil => intro _; simp [hits, wsum]
      | cons a S' ih =>
        intro hS'
        have hh : hits (encAt S) (a :: S') =
            (List.ofFn fun j => ((encAt S j).code (a.1 j), (encAt S j).code (a.2.1 j), a.2.2)) ++ hits (encAt S) S' := rfl
        rw [hh, wsum_append, ih (fun s hs => hS' s (by simp [hs]))]
        simp only [wsum_cons, Finset.sum_add_distrib]
        congr 1
        rw [wsum_ofFn]
        apply Finset.sum_congr rfl
        intro j _
        have haS := hS' a (by simp)
        obtain ⟨i, hi, ei, vi⟩ := hcode j (a.1 j) ⟨a, haS, rfl⟩
        obtain ⟨k, hk', ek, vk⟩ := hcode j (a.2.1 j) (hknown j a haS)
        simp only [ei, ek, hflat, Int.toNat_natCast, vi, vk, cell_inj hk' hc]
    exact hall S (fun s hs => hs)

/-- **C169.** What is returned with several columns: if the predicted labels of every column occur among its true labels, and no column has more
distinct labels than the first, cell (r, c) is the sum over all columns of the weight of the samples whose true label is the r-th class of that column
and whose prediction is its c-th class. -/
theorem C169_all_columns {d : ℕ} (hd : 0 < d) (S : List (Row d L K)) (hknown : ∀ j, ∀ s ∈ S, ∃ t ∈ S, t.1 j = s.2.1 j)
    (hsize : ∀ j, (S.map (fun s => s.1 j)).toFinset.card ≤ (S.map (fun s => s.1 ⟨0, hd⟩)).toFinset.card) :
    ∃ (classes : Fin d → List L) (n : ℕ) (cm : List K), cmOf S = some (n, cm) ∧ n = (classes ⟨0, hd⟩).length ∧ cm.length = n * n ∧
      (∀ j, (classes j).Pairwise (· < ·) ∧ ∀ v, v ∈ classes j ↔ ∃ s ∈ S, s.1 j = v) ∧
      ∀ r < n, ∀ c < n, cm.getD (r * n + c) 0 =
        ∑ j, wsum (fun s => s.2.2) (fun s => (classes j)[r]? = some (s.1 j) ∧ (classes j)[c]? = some (s.2.1 j)) S := by
  obtain ⟨cm, a, b, c, e⟩ := all_columns hd S hknown (fun j => by rw [encAt_card, encAt_card]; exact hsize j)
  exact ⟨fun j => (encAt S j).classes, _, cm, a, rfl, b, c, e⟩

/-- **C169.** Whatever the labels: if a matrix is returned for `d` columns, its entries sum to `d` times the total weight. -/
theorem C169_total {d : ℕ} (hd : 0 < d) (S : List (Row d L K)) (n : ℕ) (cm : List K) (h : cmOf S = some (n, cm)) :
    cm.sum = (d : K) * (S.map (fun s => s.2.2)).sum := by
  rw [cmOf_eq hd] at h
  obtain ⟨cm', h', e⟩ := Option.map_eq_some_iff.1 h
  obtain ⟨_, rfl⟩ := Prod.mk.inj e
  have hT := cmLoop_foldlM (encAt S ⟨0, hd⟩).classes.length (hits (encAt S) S) []
    (List.replicate ((encAt S ⟨0, hd⟩).classes.length * (encAt S ⟨0, hd⟩).classes.length) 0)
  rw [h'] at hT
  simp only [List.nil_append, List.length_nil] at hT
  have := cmLoop_total _ _ _ (fun t : ℤ × ℤ × K => t.2.2) _ _ _ hT
  rw [this, sum_hits]
  simp

/-- **C169 is violated.** With two columns or more and a non zero total weight, `ConfusionMatrix` never returns the matrix of the first column
(nor of any other column). -/
theorem C169_columns_violated {d : ℕ} (hd : 2 ≤ d) (S : List (Row d L K)) (hw : (S.map (fun s => s.2.2)).sum ≠ 0) (j : Fin d) (r : ℕ × List K)
    (h : cmOf S = some r) : cmCol S j ≠ some r := by
  intro h'
  have h1 := C169_total (by omega) S r.1 r.2 h
  have h2 : r.2.sum = (S.map (fun s => s.2.2)).sum := by
    unfold cmCol at h'
    obtain ⟨⟨n, cm, le⟩, hc, e⟩ := Option.map_eq_some_iff.1 h'
    have := C28_total (S.map (fun s => (s.1 j, s.2.1 j, s.2.2))) n cm le (by simpa [List.map_map, Function.comp_def] using hc)
    rw [← e]
    simpa [List.map_map, Function.comp_def] using this
  rw [h1] at h2
  have h3 : ((d : K) - 1) * (S.map (fun s => s.2.2)).sum = 0 := by linear_combination h2
  rcases mul_eq_zero.1 h3 with h4 | h4
  · have : (2 : K) ≤ d := by exact_mod_cast hd
    linarith
  · exact hw h4

/-- **C169 is violated.** A second column with two classes makes the function panic when the first column has one class only, although the first
column alone gives a matrix. -/
theorem C169_panic_violated (x a b : L) (hab : a < b) (w : K) :
    cmOf [((![x, a] : Fin 2 → L), (![x, a] : Fin 2 → L), w), (![x, b], ![x, b], w)] = none ∧
    cmCol [((![x, a] : Fin 2 → L), (![x, a] : Fin 2 → L), w), (![x, b], ![x, b], w)] 0 = some (1, [w + w]) := by
  have hx : [x, x].foldl Enc.add Enc.empty = (⟨[x], [2]⟩ : Enc L) := by
    have h1 : Enc.add (Enc.empty : Enc L) x = ⟨[x], [1]⟩ := by
      rw [add_new_max (Enc.empty : Enc L) (by simp [Enc.empty]) rfl x (by simp [Enc.empty])]; rfl
    rw [List.foldl_cons, List.foldl_cons, List.foldl_nil, h1]
    have hpos : searchFloat64s [x] x = 0 := by
      have := searchFloat64s_getElem [x] (by simp) 0 (by simp)
      simpa using this
    unfold Enc.add
    simp [hpos]
  have hab' := foldl_add_two a b hab
  have hs : ([a, b] : List L).Pairwise (· < ·) := by simp [hab]
  have cx : (⟨[x], [2]⟩ : Enc L).code x = 0 := code_mem _ (by simp) 0 (by simp)
  have ca : (⟨[a, b], [1, 1]⟩ : Enc L).code a = 0 := code_mem _ hs 0 (by simp)
  have cb : (⟨[a, b], [1, 1]⟩ : Enc L).code b = 1 := code_mem _ hs 1 (by simp)
  constructor
  · rw [cmOf_eq (by omega)]
    have e0 : encAt [((![x, a] : Fin 2 → L), (![x, a] : Fin 2 → L), w), (![x, b], ![x, b], w)] 0 = ⟨[x], [2]⟩ := by
      unfold encAt; simpa using hx
    have e1 : encAt [((![x, a] : Fin 2 → L), (![x, a] : Fin 2 → L), w), (![x, b], ![x, b], w)] 1 = ⟨[a, b], [1, 1]⟩ := by
      unfold encAt; simpa using hab'
    have h0 : (⟨0, by omega⟩ : Fin 2) = 0 := rfl
    rw [h0, e0]
    unfold hits
    simp [List.ofFn_succ, e0, e1, cx, ca, cb, cmAt]
  · unfold cmCol confusion
    simp [hx, cx, cmLoop, weightAt]

/-- Samples meeting the hypotheses of `C169_all_columns` and `C169_columns_violated`. -/
example : (∀ j, ∀ s ∈ [((![0, 5] : Fin 2 → ℕ), (![1, 5] : Fin 2 → ℕ), (1 : ℚ)), (![1, 7], ![1, 5], 2)],
      ∃ t ∈ [((![0, 5] : Fin 2 → ℕ), (![1, 5] : Fin 2 → ℕ), (1 : ℚ)), (![1, 7], ![1, 5], 2)], t.1 j = s.2.1 j) ∧
    (∀ j : Fin 2, (([((![0, 5] : Fin 2 → ℕ), (![1, 5] : Fin 2 → ℕ), (1 : ℚ)), (![1, 7], ![1, 5], 2)]).map (fun s => s.1 j)).toFinset.card = 2) := by
  decide +kernel
example : cmOf [((![0, 5] : Fin 2 → ℕ), (![1, 5] : Fin 2 → ℕ), (1 : ℚ)), (![1, 7], ![1, 5], 2)] = some (2, [1, 1, 2, 2]) := by decide +kernel
example : cmCol [((![0, 5] : Fin 2 → ℕ), (![1, 5] : Fin 2 → ℕ), (1 : ℚ)), (![1, 7], ![1, 5], 2)] 0 = some (2, [0, 1, 0, 2]) := by decide +kernel

end Sk.Metrics
