import Verif.Model.PipeHeapInv
import Verif.Props.PipeHeap
import Mathlib.Tactic.Common

/-! # C214: what `InverseTransform` does to the matrices of the caller -/
set_option autoImplicit false

namespace Sk.PipeHeap

variable {M E S : Type}

/-! ## Specification -/

/-- The transformers whose `InverseTransform` gives a new X, and those where it gives a new Y. -/
def InvNewX (n : Name) : Prop := n ∈ [.minMax, .standard, .robust, .pca, .poly, .oneHot, .maxAbs, .power, .kBins]
def InvNewY (n : Name) : Prop := n ∈ [.labelBinarizer, .labelEncoder, .multiLabel]

/-- The features transformers whose `InverseTransform` is given the Y of the caller back. -/
def InvKeepsY (n : Name) : Prop := n ∈ [.minMax, .standard, .robust, .pca, .oneHot, .maxAbs, .power]

/-- **C214 (arguments).** `InverseTransform` of every transformer but `Shuffler` and `FunctionTransformer` leaves all existing matrices as they were.
Missing for the full claim: what `C214_shuffler_violated`, `C214_lost_violated`, `C214_normalizer_violated`, `C214_shared_violated` refute. -/
theorem C214_unchanged_partial {f : Inv M} (h1 : f.name ≠ .shuffler) (h2 : f.name ≠ .function) {h : Mem M} {x y : Option ℕ} {r : Mem M × Option ℕ × Option ℕ} (e : invert f h x y = some r) : KeptBut none h r.1 := by
  suffices hh : ∃ ext, r.1 = h ++ ext by
    obtain ⟨ext, hh⟩ := hh
    intro a ha _
    rw [hh, get_append ha]
  have hs : f.name.invShape ≠ .overXY ∧ f.name.invShape ≠ .user := by
    cases hn : f.name <;> simp_all [Name.invShape]
  unfold invert at e
  cases hk : f.name.invShape <;> rw [hk] at e <;> simp only at e
  · split at e
    · obtain rfl := Option.some.inj e
      exact ⟨[], by simp⟩
    · obtain ⟨X, -, e⟩ := Option.bind_eq_some_iff.1 e
      obtain ⟨Z, -, rfl⟩ := Option.map_eq_some_iff.1 e
      exact ⟨_, rfl⟩
  · split at e
    · obtain rfl := Option.some.inj e
      exact ⟨[], by simp⟩
    · obtain ⟨X, -, e⟩ := Option.bind_eq_some_iff.1 e
      obtain ⟨Z, -, rfl⟩ := Option.map_eq_some_iff.1 e
      exact ⟨_, rfl⟩
  · obtain ⟨X, -, e⟩ := Option.bind_eq_some_iff.1 e
    obtain ⟨Z, -, rfl⟩ := Option.map_eq_some_iff.1 e
    exact ⟨_, rfl⟩
  · obtain ⟨X, -, e⟩ := Option.bind_eq_some_iff.1 e
    obtain ⟨Z, -, rfl⟩ := Option.map_eq_some_iff.1 e
    exact ⟨_, rfl⟩
  · obtain rfl := Option.some.inj e
    exact ⟨[], by simp⟩
  · obtain ⟨X, -, e⟩ := Option.bind_eq_some_iff.1 e
    obtain ⟨Z, -, rfl⟩ := Option.map_eq_some_iff.1 e
    exact ⟨_, rfl⟩
  · exact absurd hk hs.1
  · cases e
  · exact absurd hk hs.2
  · cases e

open Classical in
/-- A non-nil X: the new matrix is at the end of the memory. -/
theorem invert_newX {f : Inv M} (hn : InvNewX f.name) {h : Mem M} {a : ℕ} {X Z : M} (hX : h[a]? = some X) (hZ : f.val X = some Z) (y : Option ℕ) :
    invert f h (some a) y = some (h ++ [Z], some h.length, if f.name = .poly ∨ f.name = .kBins then none else y) := by
  have hr : read h (some a) = some X := hX
  unfold InvNewX at hn
  unfold invert
  cases hk : f.name <;> rw [hk] at hn <;> simp_all [Name.invShape]

theorem invert_newY {f : Inv M} (hn : InvNewY f.name) {h : Mem M} {b : ℕ} {Y Z : M} (hY : h[b]? = some Y) (hZ : f.val Y = some Z) (x : Option ℕ) :
    invert f h x (some b) = some (h ++ [Z], x, some h.length) := by
  have hr : read h (some b) = some Y := hY
  unfold InvNewY at hn
  unfold invert
  cases hk : f.name <;> rw [hk] at hn <;> simp_all [Name.invShape]

/-- **C214 (values).** The transformers of features give, for a non-nil X, exactly what they compute from it, in a new matrix; the label transformers do so for Y. They answer exactly if the computation does not panic.
Missing for the full claim: what `C214_shuffler_violated`, `C214_lost_violated`, `C214_normalizer_violated`, `C214_shared_violated` refute. -/
theorem C214_new_partial (f : Inv M) (h : Mem M) (a b : ℕ) (X Y : M) (hX : h[a]? = some X) (hY : h[b]? = some Y) :
    (InvNewX f.name → ((invert f h (some a) (some b)).map fun r => read r.1 r.2.1) = (f.val X).map some ∧ ∀ r, invert f h (some a) (some b) = some r → r.2.1 = some h.length) ∧
    (InvNewY f.name → ((invert f h (some a) (some b)).map fun r => read r.1 r.2.2) = (f.val Y).map some ∧ ∀ r, invert f h (some a) (some b) = some r → r.2.2 = some h.length) := by
  constructor
  · intro hn
    cases hv : f.val X with
    | some Z =>
      rw [invert_newX hn hX hv]
      refine ⟨by rw [Option.map_some, Option.map_some, read_new], ?_⟩
      intro r e
      obtain rfl := Option.some.inj e
      rfl
    | none =>
      have hr : read h (some a) = some X := hX
      have : invert f h (some a) (some b) = none := by
        unfold InvNewX at hn
        unfold invert
        cases hk : f.name <;> rw [hk] at hn <;> simp_all [Name.invShape]
      rw [this]
      exact ⟨rfl, fun r e => by cases e⟩
  · intro hn
    cases hv : f.val Y with
    | some Z =>
      rw [invert_newY hn hY hv]
      refine ⟨by rw [Option.map_some, Option.map_some, read_new], ?_⟩
      intro r e
      obtain rfl := Option.some.inj e
      rfl
    | none =>
      have hr : read h (some b) = some Y := hY
      have : invert f h (some a) (some b) = none := by
        unfold InvNewY at hn
        unfold invert
        cases hk : f.name <;> rw [hk] at hn <;> simp_all [Name.invShape]
      rw [this]
      exact ⟨rfl, fun r e => by cases e⟩

/-- **C214 (round trip, features).** If `InverseTransform` undoes `Transform` on values, then it does so in memory: after both calls the caller holds a new matrix with the contents of X, the Y of the first call, and X, Y and everything else are as they were.
Missing for the full claim: what `C214_shuffler_violated`, `C214_lost_violated`, `C214_normalizer_violated`, `C214_shared_violated` refute. -/
theorem C214_round_trip_partial (f : Fitted M) (g : Inv M) (hf : f.name = g.name) (hn : InvKeepsY g.name) (hp : g.name ≠ .power) (h : Mem M) (a : ℕ) (y : Option ℕ) (X Z : M) (hX : h[a]? = some X) (hZ : f.val X = some Z) (hback : g.val Z = some X) :
    ∃ r, ((transform f h (some a) y).bind fun s => invert g s.1 s.2.1 s.2.2) = some r ∧ (∃ c, r.2.1 = some c ∧ h.length ≤ c ∧ r.1[c]? = some X) ∧ r.2.2 = y ∧ KeptBut none h r.1 := by
  have hs : f.name.shape = .newX := by
    rw [hf]
    unfold InvKeepsY at hn
    cases hk : g.name <;> rw [hk] at hn hp <;> simp_all [Name.shape]
  have hnx : InvNewX g.name := by
    unfold InvKeepsY at hn
    unfold InvNewX
    cases hk : g.name <;> rw [hk] at hn <;> simp_all
  have hno : ¬ (g.name = .poly ∨ g.name = .kBins) := by
    unfold InvKeepsY at hn
    cases hk : g.name <;> rw [hk] at hn <;> simp_all
  have ht : transform f h (some a) y = some (h ++ [Z], some h.length, y) := by
    unfold transform
    rw [hs]
    show (h[a]?.bind _) = _
    rw [hX, Option.bind_some, hZ, Option.map_some]
  have hl : (h ++ [Z])[h.length]? = some Z := read_new h Z
  rw [ht, Option.bind_some, invert_newX hnx hl hback, if_neg hno]
  refine ⟨_, rfl, ⟨_, rfl, by simp, read_new (h ++ [Z]) X⟩, rfl, ?_⟩
  intro c hc _
  rw [List.append_assoc, get_append hc]

/-- **C214 (round trip, labels).** The same for the label transformers and Y.
Missing for the full claim: what `C214_shuffler_violated`, `C214_lost_violated`, `C214_normalizer_violated`, `C214_shared_violated` refute. -/
theorem C214_labels_partial (f : Fitted M) (g : Inv M) (hf : f.name = g.name) (hn : InvNewY g.name) (h : Mem M) (x : Option ℕ) (b : ℕ) (Y Z : M) (hY : h[b]? = some Y) (hZ : f.val Y = some Z) (hback : g.val Z = some Y) :
    ∃ r, ((transform f h x (some b)).bind fun s => invert g s.1 s.2.1 s.2.2) = some r ∧ r.2.1 = x ∧ (∃ c, r.2.2 = some c ∧ h.length ≤ c ∧ r.1[c]? = some Y) ∧ KeptBut none h r.1 := by
  have hs : f.name.shape = .newY := by
    rw [hf]
    unfold InvNewY at hn
    cases hk : g.name <;> rw [hk] at hn <;> simp_all [Name.shape]
  have ht : transform f h x (some b) = some (h ++ [Z], x, some h.length) := by
    unfold transform
    rw [hs]
    show (h[b]?.bind _) = _
    rw [hY, Option.bind_some, hZ, Option.map_some]
  have hl : (h ++ [Z])[h.length]? = some Z := read_new h Z
  rw [ht, Option.bind_some, invert_newY hn hl hback]
  refine ⟨_, rfl, rfl, ⟨_, rfl, by simp, read_new (h ++ [Z]) Y⟩, ?_⟩
  intro c hc _
  rw [List.append_assoc, get_append hc]

/-- **C214 (Shuffler).** `Shuffler.InverseTransform` overwrites both arguments and returns them: the matrices of the caller are gone, and inverting a second time inverts the inverted ones. Only if X and Y are one and the same matrix nothing happens to it, so that it is not inverted at all. -/
theorem C214_shuffler_violated (f : Inv M) (hf : f.name = .shuffler) (h : Mem M) (a b : ℕ) (X Y Z W : M) (hX : h[a]? = some X) (hY : h[b]? = some Y) (hZ : f.val X = some Z) (hW : f.val Y = some W) :
    (a ≠ b → ∃ h', invert f h (some a) (some b) = some (h', some a, some b) ∧ h'[a]? = some Z ∧ h'[b]? = some W ∧ (∀ c, c ≠ a → c ≠ b → h'[c]? = h[c]?) ∧
      ∀ Z' W', f.val Z = some Z' → f.val W = some W' → ∃ h'', invert f h' (some a) (some b) = some (h'', some a, some b) ∧ h''[a]? = some Z' ∧ h''[b]? = some W') ∧
    (a = b → invert f h (some a) (some b) = some (h, some a, some b)) := by
  have hs : f.name.invShape = .overXY := by rw [hf]; rfl
  have ha := (List.getElem?_eq_some_iff.1 hX).1
  have hb := (List.getElem?_eq_some_iff.1 hY).1
  have key : ∀ (g : Mem M) (X Y Z W : M), g[a]? = some X → g[b]? = some Y → f.val X = some Z → f.val Y = some W → invert f g (some a) (some b) = some (if a = b then g else (g.set a Z).set b W, some a, some b) := by
    intro g X Y Z W hX hY hZ hW
    unfold invert
    rw [hs]
    simp only [Option.bind_some]
    rw [hX, Option.bind_some, hY, Option.bind_some, hZ, Option.bind_some, hW, Option.map_some]
  have kept : ∀ (g : Mem M) (Z W : M), a ≠ b → a < g.length → b < g.length → ((g.set a Z).set b W)[a]? = some Z ∧ ((g.set a Z).set b W)[b]? = some W := by
    intro g Z W hab ha hb
    exact ⟨by rw [List.getElem?_set_ne (Ne.symm hab), List.getElem?_set_self ha], by rw [List.getElem?_set_self (by rw [List.length_set]; exact hb)]⟩
  refine ⟨?_, ?_⟩
  · intro hab
    obtain ⟨k1, k2⟩ := kept h Z W hab ha hb
    refine ⟨(h.set a Z).set b W, by rw [key h X Y Z W hX hY hZ hW, if_neg hab], k1, k2, ?_, ?_⟩
    · intro c hca hcb
      rw [List.getElem?_set_ne (Ne.symm hcb), List.getElem?_set_ne (Ne.symm hca)]
    · intro Z' W' hZ' hW'
      obtain ⟨l1, l2⟩ := kept ((h.set a Z).set b W) Z' W' hab (by simpa using ha) (by simpa using hb)
      exact ⟨_, by rw [key _ Z W Z' W' k1 k2 hZ' hW', if_neg hab], l1, l2⟩
  · intro hab
    rw [key h X Y Z W hX hY hZ hW, if_pos hab]

/-- **C214 (Shuffler, round trip).** `Transform` copies, `InverseTransform` does not: after a round trip X and Y of the caller are as before and their contents are given back, but in the place of the shuffled matrices, which the caller may still hold. -/
theorem C214_shuffled_violated (f : Fitted M) (g : Inv M) (hf : f.name = .shuffler) (hg : g.name = .shuffler) (h : Mem M) (a b : ℕ) (X Y Z W : M) (hX : h[a]? = some X) (hY : h[b]? = some Y) (hZ : f.val2 X Y = some (Z, W)) (hbX : g.val Z = some X) (hbY : g.val W = some Y) :
    ∃ s r, transform f h (some a) (some b) = some s ∧ read s.1 s.2.1 = some Z ∧ read s.1 s.2.2 = some W ∧ invert g s.1 s.2.1 s.2.2 = some r ∧
      r.2 = s.2 ∧ read r.1 s.2.1 = some X ∧ read r.1 s.2.2 = some Y ∧ KeptBut none h r.1 := by
  have hs : f.name.shape = .newXY := by rw [hf]; rfl
  have ht : transform f h (some a) (some b) = some (h ++ [Z, W], some h.length, some (h.length + 1)) := by
    unfold transform
    rw [hs]
    show (h[a]?.bind fun X => h[b]?.bind _) = _
    rw [hX, Option.bind_some, hY, Option.bind_some, hZ, Option.map_some]
  have h1 : (h ++ [Z, W])[h.length]? = some Z := by simp
  have h2 : (h ++ [Z, W])[h.length + 1]? = some W := by simp
  obtain ⟨h', e, k1, k2, k3, -⟩ := (C214_shuffler_violated g hg (h ++ [Z, W]) h.length (h.length + 1) Z W X Y h1 h2 hbX hbY).1 (by omega)
  refine ⟨_, _, ht, h1, h2, e, rfl, k1, k2, ?_⟩
  intro c hc _
  rw [k3 c (by omega) (by omega), get_append hc]

/-- **C214 (Y lost).** `PolynomialFeatures.InverseTransform` (for a non-nil X) and `KBinsDiscretizer.InverseTransform` return a nil Y whatever Y they are given. -/
theorem C214_lost_violated (f : Inv M) (hf : f.name = .poly ∨ f.name = .kBins) (h : Mem M) (a : ℕ) (y : Option ℕ) (r : Mem M × Option ℕ × Option ℕ) (e : invert f h (some a) y = some r) : r.2.2 = none := by
  unfold invert at e
  rcases hf with hf | hf <;> rw [hf] at e <;> simp only [Name.invShape] at e
  · rw [if_neg (by simp)] at e
    obtain ⟨X, -, e⟩ := Option.bind_eq_some_iff.1 e
    obtain ⟨Z, -, rfl⟩ := Option.map_eq_some_iff.1 e
    rfl
  · obtain ⟨X, -, e⟩ := Option.bind_eq_some_iff.1 e
    obtain ⟨Z, -, rfl⟩ := Option.map_eq_some_iff.1 e
    rfl

/-- **C214 (Normalizer).** `Normalizer.InverseTransform` panics on all arguments. -/
theorem C214_normalizer_violated (f : Inv M) (hf : f.name = .normalizer) (h : Mem M) (x y : Option ℕ) : invert f h x y = none := by
  unfold invert
  rw [hf]
  rfl

/-- **C214 (shared results).** The Y returned with a new X, the X returned with a new Y, and both results of `Imputer` are the matrices of the caller: a change of the returned one is a change of the argument. -/
theorem C214_shared_violated (f : Inv M) (h : Mem M) (a b : ℕ) (ha : a < h.length) (hb : b < h.length) (r : Mem M × Option ℕ × Option ℕ) (e : invert f h (some a) (some b) = some r) (W : M) :
    (InvKeepsY f.name ∨ f.name = .imputer → r.2.2 = some b ∧ (r.1.set b W)[b]? = some W) ∧ (InvNewY f.name ∨ f.name = .imputer → r.2.1 = some a ∧ (r.1.set a W)[a]? = some W) := by
  have hx : h[a]? = some h[a] := List.getElem?_eq_getElem ha
  have hy : h[b]? = some h[b] := List.getElem?_eq_getElem hb
  have himp : f.name = .imputer → r = (h, some a, some b) := by
    intro hn
    unfold invert at e
    rw [hn] at e
    exact (Option.some.inj e).symm
  have hnx : InvKeepsY f.name → InvNewX f.name ∧ ¬ (f.name = .poly ∨ f.name = .kBins) := by
    intro hn
    unfold InvKeepsY at hn
    unfold InvNewX
    cases hk : f.name <;> rw [hk] at hn <;> simp_all
  constructor
  · rintro (hn | hn)
    · obtain ⟨hn, hno⟩ := hnx hn
      cases hv : f.val h[a] with
      | none =>
        have hr := ((C214_new_partial f h a b _ _ hx hy).1 hn).1
        rw [e, hv] at hr
        cases hr
      | some Z =>
        rw [invert_newX hn hx hv, if_neg hno] at e
        obtain rfl := Option.some.inj e
        exact ⟨rfl, List.getElem?_set_self (by simp; omega)⟩
    · rw [himp hn]
      exact ⟨rfl, List.getElem?_set_self hb⟩
  · rintro (hn | hn)
    · cases hv : f.val h[b] with
      | none =>
        have hr := ((C214_new_partial f h a b _ _ hx hy).2 hn).1
        rw [e, hv] at hr
        cases hr
      | some Z =>
        rw [invert_newY hn hy hv] at e
        obtain rfl := Option.some.inj e
        exact ⟨rfl, List.getElem?_set_self (by simp; omega)⟩
    · rw [himp hn]
      exact ⟨rfl, List.getElem?_set_self ha⟩

/-- **C214 (pipelines).** What a transformer does to the prediction on its way back: the scalers, `PolynomialFeatures`, `PCA` and `Imputer` nothing, `LabelBinarizer` and `LabelEncoder` decode it into a new matrix (a nil prediction panics), everything else but `FunctionTransformer` panics. -/
theorem C214_pipeline (f : Inv M) (h : Mem M) (y : Option ℕ) :
    (f.name ∈ [.minMax, .standard, .robust, .poly, .pca, .imputer] → goBack f (h, y) = some (h, y)) ∧
    (f.name ∈ [.labelBinarizer, .labelEncoder] → goBack f (h, y) = ((read h y).bind f.val).map fun Z => (h ++ [Z], some h.length)) ∧
    (f.name ∈ [.oneHot, .maxAbs, .power, .kBins, .multiLabel, .shuffler, .normalizer, .binarizer, .kernelCenterer, .quantile] → goBack f (h, y) = none) := by
  refine ⟨?_, ?_, ?_⟩
  · intro hn
    unfold goBack invert
    cases hk : f.name <;> rw [hk] at hn <;> simp_all [Name.invShape, Name.isInverse]
  · intro hn
    unfold goBack invert
    cases hk : f.name <;> rw [hk] at hn <;> simp_all [Name.invShape, Name.isInverse]
    all_goals
      cases hr : read h y with
      | none => rfl
      | some Y =>
        show ((f.val Y).map _).map _ = (f.val Y).map _
        cases f.val Y <;> rfl
  · intro hn
    have hr : read h none = none := rfl
    unfold goBack invert
    cases hk : f.name <;> rw [hk] at hn <;> simp_all [Name.invShape, Name.isInverse]

/-! ## Examples -/

/-- A scaler that adds one and its inverse; X is at place 0, Y at place 1. -/
example : ((transform (⟨.standard, fun x => some (x + 1), fun _ _ => none, false, fun _ => none, fun _ _ _ => none⟩ : Fitted Int) [10, 7] (some 0) (some 1)).bind fun s => invert ⟨.standard, fun x => some (x - 1), fun _ _ _ => none⟩ s.1 s.2.1 s.2.2) = some ([10, 7, 11, 10], some 3, some 1) := by decide

/-- Labels. -/
example : ((transform (⟨.labelEncoder, fun x => some (x + 1), fun _ _ => none, false, fun _ => none, fun _ _ _ => none⟩ : Fitted Int) [10, 7] (some 0) (some 1)).bind fun s => invert ⟨.labelEncoder, fun x => some (x - 1), fun _ _ _ => none⟩ s.1 s.2.1 s.2.2) = some ([10, 7, 8, 7], some 0, some 3) := by decide

/-- The arguments of `Shuffler.InverseTransform` are overwritten; one and the same matrix is not inverted. -/
example : invert (⟨.shuffler, fun x => some (x - 1), fun _ _ _ => none⟩ : Inv Int) [10, 7] (some 0) (some 1) = some ([9, 6], some 0, some 1) ∧ invert (⟨.shuffler, fun x => some (x - 1), fun _ _ _ => none⟩ : Inv Int) [10, 7] (some 0) (some 0) = some ([10, 7], some 0, some 0) := by decide

example : invert (⟨.poly, fun x => some (x - 1), fun _ _ _ => none⟩ : Inv Int) [10, 7] (some 0) (some 1) = some ([10, 7, 9], some 2, none) := by decide

example : goBack (⟨.labelEncoder, fun x => some (x - 1), fun _ _ _ => none⟩ : Inv Int) ([10, 7], some 1) = some ([10, 7, 6], some 2) ∧ goBack (⟨.maxAbs, fun x => some (x - 1), fun _ _ _ => none⟩ : Inv Int) ([10, 7], some 1) = none := by decide

end Sk.PipeHeap
