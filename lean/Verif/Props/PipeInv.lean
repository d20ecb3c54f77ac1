import Verif.Model.PipeInv
import Verif.Props.PipeObj
import Mathlib.Data.Rat.Floor

/-! # C168: which transformers a pipeline can predict through -/
set_option autoImplicit false

namespace Sk.PipeObj
open Sk.Label

variable {K : Type} [LinearOrder K] [Zero K] {P S : Type} (nan : K) (trunc : K → ℤ) (fitT : Tr K → List (List K) → List (List K) → Option (Tr K))
  (trans : Tr K → List (List K) → List (List K) → Option (List (List K) × List (List K))) (fitP : P → List (List K) → List (List K) → Option P) (predictP : P → List (List K) → List (List K) → Option (List (List K)))
  (scoreP : P → List (List K) → List (List K) → Option S) (isClf : P → Bool) (nOut : P → ℕ) (zeros : List (List K) → ℕ → Option (List (List K))) (cols : List (List K) → ℕ)

/-- The transformers that say nothing about the targets and can be taken back without X. -/
def Tr.Plain (t : Tr K) : Prop := t = .minMax ∨ t = .standard ∨ t = .robust ∨ t = .poly ∨ t = .pca ∨ t = .imputer

/-- The transformers that cannot be taken back without X, or not at all. -/
def Tr.Blocking (t : Tr K) : Prop :=
  t = .oneHot ∨ t = .shuffler ∨ t = .maxAbs ∨ t = .normalizer ∨ t = .kBins ∨ t = .power ∨ t = .binarizer ∨ t = .kernelCenterer ∨ t = .quantile ∨ t = .multiLabel ∨ t = .function none

/-- X and Y go through the transforms one after the other. -/
inductive Transformed (trans : Tr K → List (List K) → List (List K) → Option (List (List K) × List (List K))) : List (Tr K) → List (List K) × List (List K) → List (List K) × List (List K) → Prop
  | nil (d : List (List K) × List (List K)) : Transformed trans [] d d
  | cons (t : Tr K) (ts : List (Tr K)) (d d' d'' : List (List K) × List (List K)) (h : trans t d.1 d.2 = some d') (hr : Transformed trans ts d' d'') : Transformed trans (t :: ts) d d''

local notation "lib" => library nan trunc fitT trans fitP predictP scoreP isClf nOut zeros cols

def named (ts : List (String × Tr K)) : List (String × (Tr K ⊕ P)) := ts.map (fun p => (p.1, .inl p.2))

theorem through_named (n : String) (p : P) : ∀ (ts : List (String × Tr K)) (d d' : List (List K) × List (List K)),
    Through lib (named ts ++ [(n, .inr p)]) d d' ↔ ∃ d₁, Transformed trans (ts.map Prod.snd) d d₁ ∧ nOut p ≠ 0 ∧ ∃ z, zeros d₁.1 (nOut p) = some z ∧ predictP p d₁.1 z = some d'.2 ∧ d'.1 = d₁.1 := by
  intro ts
  induction ts with
  | nil =>
    intro d d'
    constructor
    · intro h
      cases h with
      | cons _ _ _ e _ h1 h2 =>
        cases h2
        rcases h1 with ⟨h, -⟩ | ⟨-, -, h1, z, hz, hp, he⟩
        · cases h
        · exact ⟨d, .nil d, h1, z, hz, hp, he⟩
    · rintro ⟨d₁, h, h1, z, hz, hp, he⟩
      cases h
      exact .cons _ _ _ d' _ (.inr ⟨rfl, rfl, h1, z, hz, hp, he⟩) (.nil _)
  | cons t ts ih =>
    intro d d'
    constructor
    · intro h
      cases h with
      | cons _ _ _ e _ h1 h2 =>
        obtain ⟨d₁, h3, h4⟩ := (ih e d').1 h2
        rcases h1 with ⟨-, h1⟩ | ⟨h, -⟩
        · exact ⟨d₁, .cons t.2 _ d e d₁ h1 h3, h4⟩
        · cases h
    · rintro ⟨d₁, h3, h4⟩
      cases h3 with
      | cons _ _ _ e _ h1 h2 => exact .cons _ _ _ e _ (.inl ⟨rfl, h1⟩) ((ih e d').2 ⟨d₁, h2, h4⟩)

theorem back_plain : ∀ (ts : List (String × Tr K)), (∀ t ∈ ts, t.2.Plain) → ∀ y r, Back lib (named ts) y r ↔ r = y := by
  intro ts
  induction ts using List.reverseRecOn with
  | nil =>
    intro _ y r
    constructor
    · intro h
      generalize hl : named (P := P) ([] : List (String × Tr K)) = l at h
      cases h with
      | nil => rfl
      | snoc p l => simp [named] at hl
    · rintro rfl; exact .nil _
  | append_singleton ts t ih =>
    intro hp y r
    have ht := hp t (by simp)
    have hn : named (P := P) (ts ++ [t]) = named ts ++ [(t.1, .inl t.2)] := by simp [named]
    rw [hn]
    have hinv : t.2.inverseNil nan trunc y = some y := by rcases ht with h | h | h | h | h | h <;> rw [h] <;> rfl
    have himp : t.2.implementsInverse = true := by rcases ht with h | h | h | h | h | h <;> rw [h] <;> rfl
    constructor
    · intro h
      generalize hl : named ts ++ [(t.1, Sum.inl t.2)] = l at h
      cases h with
      | nil => simp at hl
      | snoc p l _ y' _ hi h1 h2 =>
        obtain ⟨rfl, hq⟩ := List.append_inj' hl rfl
        cases hq
        have h1' : t.2.inverseNil nan trunc y = some y' := h1
        rw [hinv] at h1'
        cases h1'
        exact (ih (fun t ht => hp t (by simp [ht])) y r).1 h2
    · rintro rfl
      exact .snoc _ _ _ r _ himp hinv ((ih (fun t ht => hp t (by simp [ht])) r r).2 rfl)

/-- **C168, partial.** With MinMaxScaler, StandardScaler, RobustScaler, PolynomialFeatures, PCA and Imputer before a predicter, `Pipeline.Predict` succeeds just if the predicter has outputs, the transforms and the prediction succeed, and gives the
predicter's prediction for the transformed X.  Missing: the other transformers, for which it is false, see `C168_blocked_violated` and `C168_labels`. -/
theorem C168_predict_partial (ts : List (String × Tr K)) (n : String) (p : P) (x y r : List (List K)) (hp : ∀ t ∈ ts, t.2.Plain) :
    predict lib (named ts ++ [(n, .inr p)]) x y = some r ↔
      ∃ d, Transformed trans (ts.map Prod.snd) (x, y) d ∧ nOut p ≠ 0 ∧ ∃ z, zeros d.1 (nOut p) = some z ∧ predictP p d.1 z = some r := by
  rw [(C167_predict lib (named ts) n (.inr p) x y).1 r]
  simp only [through_named, back_plain nan trunc fitT trans fitP predictP scoreP isClf nOut zeros cols ts hp]
  constructor
  · rintro ⟨d, ⟨d₁, h1, h2, z, hz, hpr, -⟩, rfl⟩; exact ⟨d₁, h1, h2, z, hz, hpr⟩
  · rintro ⟨d₁, h1, h2, z, hz, hpr⟩; exact ⟨(d₁.1, r), ⟨d₁, h1, h2, z, hz, hpr, rfl⟩, rfl⟩

/-- **C168, violation.** A pipeline with a OneHotEncoder, Shuffler, MaxAbsScaler, Normalizer, KBinsDiscretizer, PowerTransformer, Binarizer, KernelCenterer, QuantileTransformer, MultiLabelBinarizer or a FunctionTransformer without `InverseFunc` anywhere
before its last step panics in every `Predict`, whatever the data. -/
theorem C168_blocked_violated (ts us : List (String × (Tr K ⊕ P))) (t : Tr K) (n m : String) (e : Tr K ⊕ P) (x y : List (List K)) (ht : t.Blocking) : predict lib (ts ++ (n, .inl t) :: us ++ [(m, e)]) x y = none := by
  have himp : t.implementsInverse = true → ∀ y, t.inverseNil nan trunc y = none := by
    intro hi y
    rcases ht with h | h | h | h | h | h | h | h | h | h | h <;> rw [h] at hi ⊢ <;> first | rfl | cases hi
  have hb : ∀ (us : List (String × (Tr K ⊕ P))) y r, ¬ Back lib (ts ++ (n, .inl t) :: us) y r := by
    intro us
    induction us using List.reverseRecOn with
    | nil =>
      intro y r h
      generalize hl : ts ++ [(n, Sum.inl t)] = l at h
      cases h with
      | nil => simp at hl
      | snoc p l _ y' _ hi h1 h2 =>
        obtain ⟨rfl, hq⟩ := List.append_inj' hl rfl
        cases hq
        have h3 := himp hi y
        have h1' : t.inverseNil nan trunc y = some y' := h1
        rw [h3] at h1'
        cases h1'
    | append_singleton us u ih =>
      intro y r h
      rw [← List.cons_append, ← List.append_assoc] at h
      generalize hl : ts ++ (n, Sum.inl t) :: us ++ [u] = l at h
      cases h with
      | nil => simp at hl
      | snoc p l _ y' _ hi h1 h2 =>
        obtain ⟨rfl, hq⟩ := List.append_inj' hl rfl
        exact ih y' r h2
  cases hpr : predict lib (ts ++ (n, .inl t) :: us ++ [(m, e)]) x y with
  | none => rfl
  | some r =>
    obtain ⟨d, -, h⟩ := ((C167_predict lib (ts ++ (n, .inl t) :: us) m e x y).1 r).1 hpr
    exact absurd h (hb us d.2 r)

/-- **C168 (labels).** With one LabelEncoder before a predicter that gives class numbers, every predicted number `k` of column `j` comes back as the `k`-th class of that column. -/
theorem C168_labels (encs : List (Enc K)) (n m : String) (p : P) (x y x' y' z : List (List K)) (codes : List (List K)) (labels : List (List K)) (htr : trans (.labelEncoder encs) x y = some (x', y')) (hn : nOut p ≠ 0)
    (hz : zeros x' (nOut p) = some z) (hp : predictP p x' z = some codes)
    (hc : List.Forall₂ (fun cr lr => cr.length = encs.length ∧ lr.length = encs.length ∧ ∀ (j : ℕ) c l e, cr[j]? = some c → lr[j]? = some l → encs[j]? = some e → ∃ k : ℕ, trunc c = k ∧ e.classes[k]? = some l) codes labels) :
    predict lib [(n, .inl (.labelEncoder encs)), (m, .inr p)] x y = some labels := by
  have hrow : ∀ (es : List (Enc K)) (cr lr : List K), cr.length = es.length → lr.length = es.length → (∀ (j : ℕ) c l e, cr[j]? = some c → lr[j]? = some l → es[j]? = some e → ∃ k : ℕ, trunc c = k ∧ e.classes[k]? = some l) →
      inverseRow es (cr.map trunc) = some (lr.map Cell.label) := by
    intro es
    induction es with
    | nil => intro cr lr h1 h2 _; rw [List.length_nil, List.length_eq_zero_iff] at h1 h2; subst h1 h2; rfl
    | cons e es ih =>
      intro cr lr h1 h2 h
      cases cr with
      | nil => simp at h1
      | cons c cr =>
        cases lr with
        | nil => simp at h2
        | cons l lr =>
          obtain ⟨k, hk, hl⟩ := h 0 c l e rfl rfl rfl
          have hlt : k < e.classes.length := by by_contra hge; rw [List.getElem?_eq_none (by omega)] at hl; cases hl
          have hi := ih cr lr (by simpa using h1) (by simpa using h2) (fun j c l e' h3 h4 h5 => h (j + 1) c l e' h3 h4 h5)
          rw [List.map_cons, inverseRow, hk, if_neg (by omega), Int.toNat_natCast, hl]
          dsimp only
          rw [hi]; rfl
  have hinv : Tr.inverseNil nan trunc (.labelEncoder encs) codes = some labels := by
    show codes.mapM _ = _
    rw [ListX.mapM_forall2]
    refine hc.imp (fun cr lr h => ?_)
    rw [hrow encs cr lr h.1 h.2.1 h.2.2, Option.map_some, List.map_map]
    congr 1
    exact List.map_id' lr
  refine ((C167_predict lib [(n, .inl (.labelEncoder encs))] m (.inr p) x y).1 labels).2 ⟨(x', codes), ?_, ?_⟩
  · exact .cons _ _ _ (x', y') _ (.inl ⟨rfl, htr⟩) (.cons _ _ _ (x', codes) _ (.inr ⟨rfl, rfl, hn, z, hz, hp, rfl⟩) (.nil _))
  · exact Back.snoc (n, Sum.inl (Tr.labelEncoder encs)) [] codes labels labels rfl hinv (.nil _)

/-- A pipeline of a StandardScaler-like and a MaxAbsScaler-like step: the first predicts, the second panics. -/
private def toyLib : Kit (List (List ℚ)) (Tr ℚ ⊕ ℚ) ℚ :=
  library 0 Int.floor (fun t _ _ => some t) (fun t x y => match t with | .labelEncoder _ => some (x, y) | _ => some (x.map (fun r => r.map (· / 2)), y)) (fun p _ _ => some p)
    (fun p x _ => some (x.map (fun r => [r.sum + p]))) (fun _ _ _ => none) (fun _ => false) (fun _ => 1) (fun x k => if k = 0 then none else some (x.map (fun _ => List.replicate k 0))) (fun y => (y.head?.map List.length).getD 0)

example : predict toyLib [("s", .inl .standard), ("i", .inl .imputer), ("p", .inr 1)] [[4, 8], [0, 4]] [[0], [0]] = some [[4], [2]] := by decide +kernel
example : predict toyLib [("s", .inl .standard), ("m", .inl .maxAbs), ("p", .inr 1)] [[4, 8], [0, 4]] [[0], [0]] = none := by decide +kernel
example : predict toyLib [("l", .inl (.labelEncoder [⟨[10, 20, 30], [1, 1, 1]⟩])), ("p", .inr 1)] [[1], [0]] [[10], [20]] = some [[30], [20]] := by decide +kernel

end Sk.PipeObj
