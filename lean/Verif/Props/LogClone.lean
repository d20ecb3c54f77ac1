import Verif.Model.LogClone
import Verif.Props.TransClone
import Verif.Props.TransClone2
import Mathlib.Tactic.Ring
import Mathlib.Tactic.Linarith

/-!
# C164, C165: clones of perceptrons, of DBSCAN and of KMeans are independent of their originals
-/
set_option autoImplicit false

namespace Sk.LogClone

variable {D V P R E : Type}

/-! ## Specification: estimators that own everything they show -/

/-- The estimators by name, each with its own fields, parameters, list and source. -/
abbrev Own (V P R E : Type) := ℕ → Option (View V P R E)

/-- `Fit` of an estimator that owns everything: it starts from its own source (or the seed) and from its own parameters when warm, and its list is extended. -/
def ownFit (I : Impl D V P R E) (s : Own V P R E) (i : ℕ) (d : D) (seed : R) : Option (Own V P R E) :=
  (s i).bind (fun o =>
    let r := (o.src.map Prod.fst).getD seed
    (if I.warm o.priv then o.params.map (fun p => (p, r)) else I.fresh o.priv d r).bind (fun pr =>
      (I.train o.priv d pr.1 pr.2).map (fun t =>
        Function.update s i (some ⟨t.1, some t.2.1, o.log ++ t.2.2.1, some (t.2.2.2, (o.src.map Prod.snd).getD I.newClonable)⟩))))

/-- A statement; a clone is a copy. -/
def ownStep (I : Impl D V P R E) (s : Own V P R E) : Op D V R → Option (Own V P R E)
  | .create i => some (Function.update s i (some ⟨I.v0, none, [], none⟩))
  | .clone i j => (s i).map (fun o => Function.update s j (some o))
  | .set i f => (s i).map (fun o => Function.update s i (some { o with priv := f o.priv }))
  | .source i r c => (s i).map (fun o => Function.update s i (some { o with src := some (r, c) }))
  | .fit i d seed => ownFit I s i d seed

def ownRun (I : Impl D V P R E) (ops : List (Op D V R)) : Option (Own V P R E) := ops.foldlM (ownStep I) (fun _ => none)

/-- Every estimator has no random source when it is cloned, or one that can be cloned and is. -/
def SourcesCloned (I : Impl D V P R E) (ops : List (Op D V R)) : Prop :=
  ∀ pre i j post, ops = pre ++ .clone i j :: post → ∀ s, ownRun I pre = some s → ∀ o, s i = some o → o.src = none ∨ (I.cloneSource = true ∧ ∃ r, o.src = some (r, true))

/-- Only estimators that were not fitted are cloned (no parameters, nothing appended). -/
def ClonesUnfitted (I : Impl D V P R E) (ops : List (Op D V R)) : Prop :=
  ∀ pre i j post, ops = pre ++ .clone i j :: post → ∀ s, ownRun I pre = some s → ∀ o, s i = some o → o.params = none ∧ o.log = []

/-- No fit continues with the parameters of an earlier one. -/
def NoWarmFit (I : Impl D V P R E) (ops : List (Op D V R)) : Prop :=
  ∀ pre i d seed post, ops = pre ++ .fit i d seed :: post → ∀ s, ownRun I pre = some s → ∀ o, s i = some o → I.warm o.priv = false

/-! ## `append` -/

/-- What appending `xs` to `s` does. -/
structure Ext (h : Arrays E) (s : Slice) (h' : Arrays E) (s' : Slice) (xs : List E) : Prop where
  readEq : read h' s' = read h s ++ xs
  len : s'.len = s.len + xs.length
  cap : s'.len ≤ (h'.arr s'.addr).length
  lt : s'.addr < h'.free
  mono : h.free ≤ h'.free
  loc : s'.addr = s.addr ∨ h.free ≤ s'.addr
  other : ∀ b, b < h.free → b ≠ s.addr → h'.arr b = h.arr b
  caps : ∀ b, b < h.free → (h'.arr b).length = (h.arr b).length
  pre : ∀ n, n ≤ s.len → (h'.arr s.addr).take n = (h.arr s.addr).take n
  empty : xs = [] → s' = s

theorem Ext.refl {h : Arrays E} {s : Slice} (hc : s.len ≤ (h.arr s.addr).length) (hl : s.addr < h.free) : Ext h s h s [] :=
  ⟨by simp, by simp, hc, hl, le_refl _, .inl rfl, fun _ _ _ => rfl, fun _ _ => rfl, fun _ _ => rfl, fun _ => rfl⟩

theorem Ext.trans {h h₁ h₂ : Arrays E} {s s₁ s₂ : Slice} {xs ys : List E} (hl : s.addr < h.free) (a : Ext h s h₁ s₁ xs) (b : Ext h₁ s₁ h₂ s₂ ys) : Ext h s h₂ s₂ (xs ++ ys) where
  readEq := by rw [b.readEq, a.readEq, List.append_assoc]
  len := by rw [b.len, a.len, List.length_append]; omega
  cap := b.cap
  lt := b.lt
  mono := le_trans a.mono b.mono
  loc := by
    have := a.mono
    rcases b.loc with h1 | h1
    · rw [h1]; exact a.loc
    · right; omega
  other c hc hne := by
    have := a.mono
    rw [b.other c (by omega) (by rcases a.loc with h1 | h1 <;> omega), a.other c hc hne]
  caps c hc := by
    have := a.mono
    rw [b.caps c (by omega), a.caps c hc]
  pre n hn := by
    have hm := a.mono
    rw [← a.pre n hn]
    by_cases he : s₁.addr = s.addr
    · have h2 := b.pre n (by have := a.len; omega)
      rwa [he] at h2
    · rw [b.other s.addr (by omega) (fun e => he e.symm)]
  empty e := by
    have h1 := List.append_eq_nil_iff.mp e
    rw [b.empty h1.2, a.empty h1.1]

theorem append_ext (grow : ℕ → ℕ) (zero : E) (h : Arrays E) (s : Slice) (x : E) (hc : s.len ≤ (h.arr s.addr).length) (hl : s.addr < h.free) :
    Ext h s (append grow zero h s x).1 (append grow zero h s x).2 [x] := by
  unfold append
  by_cases hs : s.len < (h.arr s.addr).length
  · rw [if_pos hs]
    refine ⟨?_, rfl, ?_, hl, le_refl _, .inl rfl, ?_, ?_, ?_, by simp⟩
    · simp only [read, Function.update_self]
      rw [List.take_add_one, List.take_set_of_le (le_refl _), List.getElem?_set_self hs]
      rfl
    · simp only [Function.update_self, List.length_set]; omega
    · intro b _ hne
      simp [Function.update_of_ne hne]
    · intro b _
      by_cases hb : b = s.addr
      · subst hb; simp
      · simp [Function.update_of_ne hb]
    · intro n hn
      simp only [Function.update_self]
      exact List.take_set_of_le hn
  · rw [if_neg hs]
    have he : s.len = (h.arr s.addr).length := by omega
    have hne : s.addr ≠ h.free := by omega
    have hrl : (read h s).length = s.len := by simp [read, he]
    refine ⟨?_, rfl, ?_, Nat.lt_succ_self _, Nat.le_succ _, .inr (le_refl _), ?_, ?_, ?_, by simp⟩
    · simp only [read, Function.update_self]
      change (read h s ++ x :: List.replicate (grow s.len) zero).take (s.len + 1) = read h s ++ [x]
      rw [List.take_append, hrl, List.take_of_length_le (by omega), Nat.add_sub_cancel_left]
      simp
    · simp only [Function.update_self, List.length_append, List.length_cons, hrl]; omega
    · intro b hb _
      simp [Function.update_of_ne (show b ≠ h.free by omega)]
    · intro b hb
      simp [Function.update_of_ne (show b ≠ h.free by omega)]
    · intro n _
      simp [Function.update_of_ne hne]

theorem appendAll_ext (grow : ℕ → ℕ) (zero : E) (xs : List E) : ∀ (h : Arrays E) (s : Slice), s.len ≤ (h.arr s.addr).length → s.addr < h.free →
    Ext h s (appendAll grow zero h s xs).1 (appendAll grow zero h s xs).2 xs := by
  induction xs with
  | nil => intro h s hc hl; exact Ext.refl hc hl
  | cons x xs ih =>
    intro h s hc hl
    have a := append_ext grow zero h s x hc hl
    exact Ext.trans hl a (ih _ _ a.cap a.lt)

/-! ## The invariant -/

/-- The estimator `o` of the program shows what the estimator `w` owns; the list only if `U`. -/
structure Shows (U : Prop) (st : St V P R E) (o : Obj V) (w : View V P R E) : Prop where
  priv : w.priv = o.priv
  params : w.params = o.ptr.bind st.params
  ptr : ∀ a, o.ptr = some a → a < st.pfree ∧ ∃ p, st.params a = some p
  src : w.src = o.src.bind (fun s => (st.sources s.1).map (fun r => (r, s.2)))
  srcLt : ∀ a c, o.src = some (a, c) → a < st.sfree ∧ ∃ r, st.sources a = some r
  len : w.log.length = o.log.len
  cap : o.log.len ≤ (st.arrays.arr o.log.addr).length
  lt : o.log.addr < st.arrays.free
  nil : o.log.len = 0 → o.log.addr = 0
  log : U → w.log = read st.arrays o.log

structure Inv (U : Prop) (st : St V P R E) (s : Own V P R E) : Prop where
  absent : ∀ i, st.objs i = none ↔ s i = none
  shows : ∀ i o w, st.objs i = some o → s i = some w → Shows U st o w
  zero : st.arrays.arr 0 = []
  pos : 0 < st.arrays.free
  srcNe : ∀ i j o o' a c a' c', i ≠ j → st.objs i = some o → st.objs j = some o' → o.src = some (a, c) → o'.src = some (a', c') → a ≠ a'
  ptrNe : U → ∀ i j o o' a a', i ≠ j → st.objs i = some o → st.objs j = some o' → o.ptr = some a → o'.ptr = some a' → a ≠ a'
  logNe : U → ∀ i j o o', i ≠ j → st.objs i = some o → st.objs j = some o' → o.log.addr = o'.log.addr → o.log.addr = 0

theorem Inv.get {U : Prop} {st : St V P R E} {s : Own V P R E} (h : Inv U st s) (i : ℕ) :
    (st.objs i = none ∧ s i = none) ∨ ∃ o w, st.objs i = some o ∧ s i = some w ∧ Shows U st o w := by
  have hn := h.absent i
  rcases ho : st.objs i with _ | o
  · exact .inl ⟨rfl, hn.mp ho⟩
  · rcases hw : s i with _ | w
    · rw [hn.mpr hw] at ho; simp at ho
    · exact .inr ⟨o, w, rfl, rfl, h.shows i o w ho hw⟩

/-- The general step: the object `i` becomes `o'`, the rest of the state only grows. -/
theorem Inv.update {U : Prop} {st st' : St V P R E} {s : Own V P R E} (h : Inv U st s) (i : ℕ) (o' : Obj V) (w' : View V P R E) (hobjs : st'.objs = Function.update st.objs i (some o'))
    (hz : st'.arrays.arr 0 = []) (hp : 0 < st'.arrays.free)
    (hi : Shows U st' o' w') (hj : ∀ j, j ≠ i → ∀ o w, st.objs j = some o → s j = some w → Shows U st' o w)
    (hs : ∀ j, j ≠ i → ∀ o a c a' c', st.objs j = some o → o.src = some (a, c) → o'.src = some (a', c') → a ≠ a')
    (hpt : U → ∀ j, j ≠ i → ∀ o a a', st.objs j = some o → o.ptr = some a → o'.ptr = some a' → a ≠ a')
    (hlog : U → ∀ j, j ≠ i → ∀ o, st.objs j = some o → o.log.addr = o'.log.addr → o'.log.addr = 0) : Inv U st' (Function.update s i (some w')) := by
  refine ⟨?_, ?_, hz, hp, ?_, ?_, ?_⟩
  · intro j
    rw [hobjs]
    by_cases e : j = i
    · subst e; simp
    · simp only [Function.update_of_ne e]; exact h.absent j
  · intro j o w ho hw
    rw [hobjs] at ho
    by_cases e : j = i
    · subst e
      simp only [Function.update_self, Option.some.injEq] at ho hw
      subst ho hw; exact hi
    · rw [Function.update_of_ne e] at ho hw
      exact hj j e o w ho hw
  · intro a b o₁ o₂ x c y d hne h1 h2 e1 e2
    rw [hobjs] at h1 h2
    by_cases ea : a = i
    · subst ea
      have hb : b ≠ a := fun e => hne e.symm
      rw [Function.update_of_ne hb] at h2
      simp only [Function.update_self, Option.some.injEq] at h1
      subst h1
      exact (hs b hb o₂ y d x c h2 e2 e1).symm
    · rw [Function.update_of_ne ea] at h1
      by_cases eb : b = i
      · subst eb
        simp only [Function.update_self, Option.some.injEq] at h2
        subst h2
        exact hs a ea o₁ x c y d h1 e1 e2
      · rw [Function.update_of_ne eb] at h2
        exact h.srcNe a b o₁ o₂ x c y d hne h1 h2 e1 e2
  · intro hU a b o₁ o₂ x y hne h1 h2 e1 e2
    rw [hobjs] at h1 h2
    by_cases ea : a = i
    · subst ea
      have hb : b ≠ a := fun e => hne e.symm
      rw [Function.update_of_ne hb] at h2
      simp only [Function.update_self, Option.some.injEq] at h1
      subst h1
      exact (hpt hU b hb o₂ y x h2 e2 e1).symm
    · rw [Function.update_of_ne ea] at h1
      by_cases eb : b = i
      · subst eb
        simp only [Function.update_self, Option.some.injEq] at h2
        subst h2
        exact hpt hU a ea o₁ x y h1 e1 e2
      · rw [Function.update_of_ne eb] at h2
        exact h.ptrNe hU a b o₁ o₂ x y hne h1 h2 e1 e2
  · intro hU a b o₁ o₂ hne h1 h2 e
    rw [hobjs] at h1 h2
    by_cases ea : a = i
    · subst ea
      have hb : b ≠ a := fun e => hne e.symm
      rw [Function.update_of_ne hb] at h2
      simp only [Function.update_self, Option.some.injEq] at h1
      subst h1
      exact hlog hU b hb o₂ h2 e.symm
    · rw [Function.update_of_ne ea] at h1
      by_cases eb : b = i
      · subst eb
        simp only [Function.update_self, Option.some.injEq] at h2
        subst h2
        have := hlog hU a ea o₁ h1 e
        rw [e]; exact this
      · rw [Function.update_of_ne eb] at h2
        exact h.logNe hU a b o₁ o₂ hne h1 h2 e

/-- Growing the source heap keeps what is shown. -/
theorem Shows.source {U : Prop} {st : St V P R E} {o : Obj V} {w : View V P R E} (h : Shows U st o w) (objs : ℕ → Option (Obj V)) (r : R) :
    Shows U { st with objs := objs, sources := Function.update st.sources st.sfree (some r), sfree := st.sfree + 1 } o w := by
  refine ⟨h.priv, h.params, h.ptr, ?_, ?_, h.len, h.cap, h.lt, h.nil, h.log⟩
  · rw [h.src]
    rcases hs : o.src with _ | ⟨a, c⟩
    · rfl
    · have := (h.srcLt a c hs).1
      simp only [Option.bind_some]
      rw [Function.update_of_ne (by omega)]
  · intro a c hs
    obtain ⟨h1, r', h2⟩ := h.srcLt a c hs
    refine ⟨Nat.lt_succ_of_lt h1, r', ?_⟩
    change Function.update st.sources st.sfree (some r) a = some r'
    rw [Function.update_of_ne (by omega)]
    exact h2

theorem Shows.objs {U : Prop} {st : St V P R E} {o : Obj V} {w : View V P R E} (h : Shows U st o w) (objs : ℕ → Option (Obj V)) : Shows U { st with objs := objs } o w :=
  ⟨h.priv, h.params, h.ptr, h.src, h.srcLt, h.len, h.cap, h.lt, h.nil, h.log⟩

theorem clone_sim (I : Impl D V P R E) {U : Prop} {st : St V P R E} {s : Own V P R E} (h : Inv U st s) (i j : ℕ)
    (hsrc : ∀ w, s i = some w → w.src = none ∨ (I.cloneSource = true ∧ ∃ r, w.src = some (r, true))) (hu : U → ∀ w, s i = some w → w.params = none ∧ w.log = []) :
    (clone I st i j = none ∧ (s i).map (fun o => Function.update s j (some o)) = none) ∨
    ∃ st', clone I st i j = some st' ∧ ∃ w, s i = some w ∧ Inv U st' (Function.update s j (some w)) := by
  rcases h.get i with ⟨h1, h2⟩ | ⟨o, w, h1, h2, hsh⟩
  · left; simp [clone, h1, h2]
  · right
    have hptr : U → o.ptr = none := by
      intro hU
      rcases hp : o.ptr with _ | a
      · rfl
      · obtain ⟨_, p, e⟩ := hsh.ptr a hp
        have := (hu hU w h2).1
        rw [hsh.params, hp] at this
        simp [e] at this
    have hlog : U → o.log.addr = 0 := by
      intro hU
      refine hsh.nil ?_
      rw [← hsh.len, (hu hU w h2).2]; rfl
    rcases hsrc w h2 with e | ⟨hc, r, e⟩
    · have hs : o.src = none := by
        rcases hos : o.src with _ | ⟨a, c⟩
        · rfl
        · obtain ⟨_, r, e'⟩ := hsh.srcLt a c hos
          rw [hsh.src, hos] at e
          simp [e'] at e
      refine ⟨{ st with objs := Function.update st.objs j (some o) }, by simp [clone, h1, hs], w, h2, ?_⟩
      refine h.update j o w rfl h.zero h.pos (hsh.objs _) (fun k _ o₁ w₁ a b => (h.shows k o₁ w₁ a b).objs _) ?_ ?_ ?_
      · intro k _ o₁ a c a' c' _ _ e2
        rw [hs] at e2; simp at e2
      · intro hU k _ o₁ a a' _ _ e2
        rw [hptr hU] at e2; simp at e2
      · intro hU k _ o₁ _ _
        exact hlog hU
    · obtain ⟨a, hs, ha⟩ : ∃ a, o.src = some (a, true) ∧ st.sources a = some r := by
        rw [hsh.src] at e
        rcases hos : o.src with _ | ⟨a, c⟩
        · rw [hos] at e; simp at e
        · rw [hos] at e
          obtain ⟨_, r', e'⟩ := hsh.srcLt a c hos
          simp only [Option.bind_some, e', Option.map_some, Option.some.injEq, Prod.mk.injEq] at e
          obtain ⟨e1, e2⟩ := e
          subst e1 e2
          exact ⟨a, rfl, e'⟩
      refine ⟨{ st with objs := Function.update st.objs j (some { o with src := some (st.sfree, true) }), sources := Function.update st.sources st.sfree (some r), sfree := st.sfree + 1 },
        by simp [clone, h1, hs, hc, ha], w, h2, ?_⟩
      refine h.update j { o with src := some (st.sfree, true) } w rfl h.zero h.pos ?_ (fun k _ o₁ w₁ a b => (h.shows k o₁ w₁ a b).source _ r) ?_ ?_ ?_
      · refine ⟨hsh.priv, hsh.params, hsh.ptr, ?_, ?_, hsh.len, hsh.cap, hsh.lt, hsh.nil, hsh.log⟩
        · rw [e]; simp
        · intro b c hb
          simp only [Option.some.injEq, Prod.mk.injEq] at hb
          obtain ⟨rfl, rfl⟩ := hb
          exact ⟨Nat.lt_succ_self _, r, by simp⟩
      · intro k hk o₁ b c b' c' hk1 hb hb'
        simp only [Option.some.injEq, Prod.mk.injEq] at hb'
        obtain ⟨rfl, rfl⟩ := hb'
        obtain ⟨w₁, hw₁⟩ : ∃ w₁, s k = some w₁ := by
          rcases h.get k with ⟨x, _⟩ | ⟨_, w₁, _, y, _⟩
          · rw [hk1] at x; simp at x
          · exact ⟨w₁, y⟩
        have := ((h.shows k o₁ w₁ hk1 hw₁).srcLt b c hb).1
        omega
      · intro hU k _ o₁ b b' _ _ e2
        have e3 : o.ptr = some b' := e2
        rw [hptr hU] at e3; simp at e3
      · intro hU k _ o₁ _ _
        exact hlog hU

/-- The end of `Fit`: the state after writing parameters, slice and source. -/
theorem fit_write {U : Prop} {st : St V P R E} {s : Own V P R E} (h : Inv U st s) (i : ℕ) (o : Obj V) (w : View V P R E) (ho : st.objs i = some o) (hw : s i = some w) (grow : ℕ → ℕ) (zero : E) (nc : Bool)
    (a pfree : ℕ) (ha : (a = st.pfree ∧ pfree = st.pfree + 1) ∨ (U ∧ o.ptr = some a ∧ pfree = st.pfree)) (v : V) (p : P) (es : List E) (r : R) :
    Inv U { objs := Function.update st.objs i (some ⟨v, some a, (appendAll grow zero st.arrays o.log es).2, some (o.src.getD (st.sfree, nc))⟩),
            params := Function.update st.params a (some p), pfree := pfree,
            arrays := (appendAll grow zero st.arrays o.log es).1,
            sources := Function.update st.sources (o.src.getD (st.sfree, nc)).1 (some r), sfree := if o.src.isNone then st.sfree + 1 else st.sfree }
      (Function.update s i (some ⟨v, some p, w.log ++ es, some (r, (w.src.map Prod.snd).getD nc)⟩)) := by
  have hsh := h.shows i o w ho hw
  have hx := appendAll_ext grow zero es st.arrays o.log hsh.cap hsh.lt
  set al := appendAll grow zero st.arrays o.log es with hal
  have hz : al.1.arr 0 = [] := by
    have := hx.caps 0 h.pos
    rw [h.zero] at this
    exact List.length_eq_zero_iff.mp this
  have hpf : st.pfree ≤ pfree := by rcases ha with ⟨_, e⟩ | ⟨_, _, e⟩ <;> omega
  have hap : a < pfree := by
    rcases ha with ⟨e, e'⟩ | ⟨_, e, e'⟩
    · omega
    · have := (hsh.ptr a e).1; omega
  have hsa : (o.src.getD (st.sfree, nc)).1 < (if o.src.isNone then st.sfree + 1 else st.sfree) ∧ st.sfree ≤ (if o.src.isNone then st.sfree + 1 else st.sfree) ∧
      (w.src.map Prod.snd).getD nc = (o.src.getD (st.sfree, nc)).2 := by
    rcases hos : o.src with _ | ⟨b, c⟩
    · have : w.src = none := by rw [hsh.src, hos]; rfl
      rw [this]; simp
    · obtain ⟨h1, r', h2⟩ := hsh.srcLt b c hos
      have : w.src = some (r', c) := by rw [hsh.src, hos]; simp [h2]
      rw [this]; simpa using h1
  have hget : ∀ k, ∀ o₁, st.objs k = some o₁ → ∃ w₁, s k = some w₁ := by
    intro k o₁ hk
    rcases h.get k with ⟨x, _⟩ | ⟨_, w₁, _, y, _⟩
    · rw [hk] at x; simp at x
    · exact ⟨w₁, y⟩
  have hsne : ∀ k, k ≠ i → ∀ o₁ b c, st.objs k = some o₁ → o₁.src = some (b, c) → b ≠ (o.src.getD (st.sfree, nc)).1 := by
    intro k hk o₁ b c hk1 hb
    obtain ⟨w₁, hw₁⟩ := hget k o₁ hk1
    have hlt := ((h.shows k o₁ w₁ hk1 hw₁).srcLt b c hb).1
    rcases hos : o.src with _ | ⟨b', c'⟩
    · simp only [Option.getD_none]; omega
    · simp only [Option.getD_some]
      exact h.srcNe k i o₁ o b c b' c' hk hk1 ho hb hos
  have hpne : ∀ k, k ≠ i → ∀ o₁ b, st.objs k = some o₁ → o₁.ptr = some b → b ≠ a := by
    intro k hk o₁ b hk1 hb
    obtain ⟨w₁, hw₁⟩ := hget k o₁ hk1
    have hlt := ((h.shows k o₁ w₁ hk1 hw₁).ptr b hb).1
    rcases ha with ⟨e, _⟩ | ⟨hU, e, _⟩
    · omega
    · exact h.ptrNe hU k i o₁ o b a hk hk1 ho hb e
  refine h.update i _ _ rfl hz (lt_of_lt_of_le h.pos hx.mono) ?_ ?_ ?_ ?_ ?_
  · refine ⟨rfl, by simp, ?_, ?_, ?_, ?_, hx.cap, hx.lt, ?_, ?_⟩
    · intro b hb
      simp only [Option.some.injEq] at hb
      subst hb
      exact ⟨hap, p, by simp⟩
    · simp only [Option.bind_some, Function.update_self, Option.map_some]
      rw [hsa.2.2]
    · intro b c hb
      simp only [Option.some.injEq] at hb
      refine ⟨?_, r, ?_⟩
      · have := hsa.1; rw [hb] at this; exact this
      · simp only [hb, Function.update_self]
    · simp only [List.length_append]
      rw [hsh.len]; exact hx.len.symm
    · intro e
      have hl := hx.len
      have he : es = [] := List.length_eq_zero_iff.mp (by change al.2.len = 0 at e; omega)
      have := hx.empty he
      change al.2.addr = 0
      rw [this]
      refine hsh.nil ?_
      change al.2.len = 0 at e; omega
    · intro hU
      change w.log ++ es = read al.1 al.2
      rw [hx.readEq, hsh.log hU]
  · intro k hk o₁ w₁ hk1 hw₁
    have h1 := h.shows k o₁ w₁ hk1 hw₁
    refine ⟨h1.priv, ?_, ?_, ?_, ?_, h1.len, ?_, lt_of_lt_of_le h1.lt hx.mono, h1.nil, ?_⟩
    · rw [h1.params]
      rcases hp1 : o₁.ptr with _ | b
      · rfl
      · simp only [Option.bind_some]
        rw [Function.update_of_ne (hpne k hk o₁ b hk1 hp1)]
    · intro b hb
      obtain ⟨h2, p', h3⟩ := h1.ptr b hb
      refine ⟨lt_of_lt_of_le h2 hpf, p', ?_⟩
      change Function.update st.params a (some p) b = some p'
      rw [Function.update_of_ne (hpne k hk o₁ b hk1 hb)]; exact h3
    · rw [h1.src]
      rcases hs1 : o₁.src with _ | ⟨b, c⟩
      · rfl
      · simp only [Option.bind_some]
        rw [Function.update_of_ne (hsne k hk o₁ b c hk1 hs1)]
    · intro b c hb
      obtain ⟨h2, r', h3⟩ := h1.srcLt b c hb
      refine ⟨lt_of_lt_of_le h2 hsa.2.1, r', ?_⟩
      change Function.update st.sources (o.src.getD (st.sfree, nc)).1 (some r) b = some r'
      rw [Function.update_of_ne (hsne k hk o₁ b c hk1 hb)]; exact h3
    · rw [hx.caps _ h1.lt]; exact h1.cap
    · intro hU
      rw [h1.log hU]
      by_cases e : o₁.log.addr = o.log.addr
      · have e0 := h.logNe hU k i o₁ o hk hk1 ho e
        simp only [read, e0, hz, h.zero]
      · simp only [read]
        rw [hx.other _ h1.lt e]
  · intro k hk o₁ b c b' c' hk1 hb hb'
    simp only [Option.some.injEq] at hb'
    have := hsne k hk o₁ b c hk1 hb
    rw [hb'] at this; exact this
  · intro _ k hk o₁ b b' hk1 hb hb'
    simp only [Option.some.injEq] at hb'
    subst hb'
    exact hpne k hk o₁ b hk1 hb
  · intro hU k hk o₁ hk1 e
    change o₁.log.addr = al.2.addr at e
    change al.2.addr = 0
    obtain ⟨w₁, hw₁⟩ := hget k o₁ hk1
    have h1 := h.shows k o₁ w₁ hk1 hw₁
    rcases hx.loc with e1 | e1
    · rw [e1]
      have := h.logNe hU k i o₁ o hk hk1 ho (e.trans e1)
      rw [← e1, ← e]; exact this
    · have := h1.lt; omega

theorem fit_sim (I : Impl D V P R E) (grow : ℕ → ℕ) {U : Prop} {st : St V P R E} {s : Own V P R E} (h : Inv U st s) (i : ℕ) (d : D) (seed : R)
    (hw : U ∨ ∀ w, s i = some w → I.warm w.priv = false) :
    (fit I grow st i d seed = none ∧ ownFit I s i d seed = none) ∨ ∃ st' s', fit I grow st i d seed = some st' ∧ ownFit I s i d seed = some s' ∧ Inv U st' s' := by
  rcases h.get i with ⟨h1, h2⟩ | ⟨o, w, h1, h2, hsh⟩
  · left; simp [fit, ownFit, h1, h2]
  · have hr : (if o.src.isNone then some seed else st.sources (o.src.getD (st.sfree, I.newClonable)).1) = some ((w.src.map Prod.fst).getD seed) := by
      rcases hos : o.src with _ | ⟨b, c⟩
      · have : w.src = none := by rw [hsh.src, hos]; rfl
        rw [this]; simp
      · obtain ⟨_, r', h3⟩ := hsh.srcLt b c hos
        have : w.src = some (r', c) := by rw [hsh.src, hos]; simp [h3]
        rw [this]; simpa using h3
    set r := (w.src.map Prod.fst).getD seed with hrd
    by_cases hwm : I.warm o.priv = true
    · have hU : U := by
        rcases hw with hU | hf
        · exact hU
        · have := hf w h2
          rw [hsh.priv] at this; rw [this] at hwm; simp at hwm
      rcases hp : o.ptr with _ | a
      · left
        have hwp : w.params = none := by rw [hsh.params, hp]; rfl
        constructor
        · simp only [fit, h1, Option.bind_some, hr, hwm, if_true, hp, Option.bind_none]
        · simp [ownFit, h2, hsh.priv, hwm, hwp]
      · obtain ⟨_, p, e⟩ := hsh.ptr a hp
        have hwp : w.params = some p := by rw [hsh.params, hp]; exact e
        rcases ht : I.train o.priv d p r with _ | t
        · left
          constructor
          · simp only [fit, h1, Option.bind_some, hr, hwm, if_true, hp, e, Option.map_some, ht, Option.map_none]
          · simp [ownFit, h2, hsh.priv, hwm, hwp, ← hrd, ht]
        · right
          refine ⟨_, _, ?_, ?_, fit_write h i o w h1 h2 grow I.zero I.newClonable a st.pfree (.inr ⟨hU, hp, rfl⟩) t.1 t.2.1 t.2.2.1 t.2.2.2⟩
          · simp only [fit, h1, Option.bind_some, hr, hwm, if_true, hp, e, Option.map_some, ht, Option.map_none]
          · simp [ownFit, h2, hsh.priv, hwm, hwp, ← hrd, ht]
    · have hwm : I.warm o.priv = false := by simpa using hwm
      rcases hf : I.fresh o.priv d r with _ | pr
      · left
        constructor
        · simp only [fit, h1, Option.bind_some, hr, hwm, Bool.false_eq_true, if_false, hf, Option.bind_none]
        · simp [ownFit, h2, hsh.priv, hwm, ← hrd, hf]
      · rcases ht : I.train o.priv d pr.1 pr.2 with _ | t
        · left
          constructor
          · simp only [fit, h1, Option.bind_some, hr, hwm, Bool.false_eq_true, if_false, hf, ht, Option.map_none, Option.map_some]
          · simp [ownFit, h2, hsh.priv, hwm, ← hrd, hf, ht]
        · right
          refine ⟨_, _, ?_, ?_, fit_write h i o w h1 h2 grow I.zero I.newClonable st.pfree (st.pfree + 1) (.inl ⟨rfl, rfl⟩) t.1 t.2.1 t.2.2.1 t.2.2.2⟩
          · simp only [fit, h1, Option.bind_some, hr, hwm, Bool.false_eq_true, if_false, hf, ht, Option.map_none, Option.map_some]
          · simp [ownFit, h2, hsh.priv, hwm, ← hrd, hf, ht]

theorem step_sim (I : Impl D V P R E) (grow : ℕ → ℕ) {U : Prop} {st : St V P R E} {s : Own V P R E} (h : Inv U st s) (op : Op D V R)
    (hsrc : ∀ i j, op = .clone i j → ∀ w, s i = some w → w.src = none ∨ (I.cloneSource = true ∧ ∃ r, w.src = some (r, true)))
    (hu : U → ∀ i j, op = .clone i j → ∀ w, s i = some w → w.params = none ∧ w.log = [])
    (hw : U ∨ ∀ i d seed, op = .fit i d seed → ∀ w, s i = some w → I.warm w.priv = false) :
    (step I grow st op = none ∧ ownStep I s op = none) ∨ ∃ st' s', step I grow st op = some st' ∧ ownStep I s op = some s' ∧ Inv U st' s' := by
  cases op with
  | create i =>
    right
    refine ⟨_, _, rfl, rfl, ?_⟩
    refine h.update i _ _ rfl h.zero h.pos ?_ (fun k _ o₁ w₁ a b => (h.shows k o₁ w₁ a b).objs _) ?_ ?_ ?_
    · refine ⟨rfl, rfl, by simp, rfl, by simp, rfl, by simp [Slice.nil], h.pos, fun _ => rfl, fun _ => by simp [read, Slice.nil]⟩
    · intro k _ o₁ a c a' c' _ _ e; simp at e
    · intro _ k _ o₁ a a' _ _ e; simp at e
    · intro _ k _ o₁ _ _; rfl
  | clone i j =>
    rcases clone_sim I h i j (hsrc i j rfl) (fun hU => hu hU i j rfl) with hn | ⟨st', h1, w, h2, h3⟩
    · exact .inl hn
    · right
      exact ⟨st', _, h1, by simp [ownStep, h2], h3⟩
  | set i f =>
    rcases h.get i with ⟨h1, h2⟩ | ⟨o, w, h1, h2, hsh⟩
    · left; simp [step, ownStep, h1, h2]
    · right
      refine ⟨_, _, congrArg (Option.map _) h1, congrArg (Option.map _) h2, ?_⟩
      refine h.update i _ _ rfl h.zero h.pos ?_ (fun k _ o₁ w₁ a b => (h.shows k o₁ w₁ a b).objs _) ?_ ?_ ?_
      · exact ⟨by simp [hsh.priv], hsh.params, hsh.ptr, hsh.src, hsh.srcLt, hsh.len, hsh.cap, hsh.lt, hsh.nil, hsh.log⟩
      · intro k hk o₁ a c a' c' hk1 e1 e2
        exact h.srcNe k i o₁ o a c a' c' hk hk1 h1 e1 e2
      · intro hU k hk o₁ a a' hk1 e1 e2
        exact h.ptrNe hU k i o₁ o a a' hk hk1 h1 e1 e2
      · intro hU k hk o₁ hk1 e
        have := h.logNe hU k i o₁ o hk hk1 h1 e
        rw [← e]; exact this
  | source i r c =>
    rcases h.get i with ⟨h1, h2⟩ | ⟨o, w, h1, h2, hsh⟩
    · left; simp [step, ownStep, h1, h2]
    · right
      refine ⟨_, _, congrArg (Option.map _) h1, congrArg (Option.map _) h2, ?_⟩
      refine h.update i _ _ rfl h.zero h.pos ?_ (fun k _ o₁ w₁ a b => (h.shows k o₁ w₁ a b).source _ r) ?_ ?_ ?_
      · refine ⟨hsh.priv, hsh.params, hsh.ptr, by simp, ?_, hsh.len, hsh.cap, hsh.lt, hsh.nil, hsh.log⟩
        intro b c' hb
        simp only [Option.some.injEq, Prod.mk.injEq] at hb
        obtain ⟨rfl, rfl⟩ := hb
        exact ⟨Nat.lt_succ_self _, r, by simp⟩
      · intro k hk o₁ b d b' d' hk1 hb hb'
        simp only [Option.some.injEq, Prod.mk.injEq] at hb'
        obtain ⟨rfl, rfl⟩ := hb'
        rcases h.get k with ⟨x, _⟩ | ⟨o₂, w₂, x, y, z⟩
        · rw [hk1] at x; simp at x
        · rw [hk1] at x
          simp only [Option.some.injEq] at x
          subst x
          have := (z.srcLt b d hb).1
          omega
      · intro hU k hk o₁ a a' hk1 e1 e2
        exact h.ptrNe hU k i o₁ o a a' hk hk1 h1 e1 e2
      · intro hU k hk o₁ hk1 e
        have := h.logNe hU k i o₁ o hk hk1 h1 e
        rw [← e]; exact this
  | fit i d seed => exact fit_sim I grow h i d seed (hw.imp id (fun hf => hf i d seed rfl))

theorem run_snoc (I : Impl D V P R E) (grow : ℕ → ℕ) (ops : List (Op D V R)) (op : Op D V R) : run I grow (ops ++ [op]) = (run I grow ops).bind (fun st => step I grow st op) :=
  TransClone.foldlM_snoc _ _ _ _

theorem ownRun_snoc (I : Impl D V P R E) (ops : List (Op D V R)) (op : Op D V R) : ownRun I (ops ++ [op]) = (ownRun I ops).bind (fun s => ownStep I s op) :=
  TransClone.foldlM_snoc _ _ _ _

theorem sim (I : Impl D V P R E) (grow : ℕ → ℕ) (U : Prop) (ops : List (Op D V R)) (hsrc : SourcesCloned I ops) (hu : U → ClonesUnfitted I ops) (hw : U ∨ NoWarmFit I ops) :
    (run I grow ops = none ∧ ownRun I ops = none) ∨ ∃ st s, run I grow ops = some st ∧ ownRun I ops = some s ∧ Inv U st s := by
  induction ops using List.reverseRecOn with
  | nil =>
    right
    refine ⟨init, fun _ => none, rfl, rfl, ⟨by simp [init], by simp [init], rfl, by simp [init], by simp [init], by simp [init], by simp [init]⟩⟩
  | append_singleton ops op ih =>
    have hpre : ∀ pre x post, ops = pre ++ x :: post → ops ++ [op] = pre ++ x :: (post ++ [op]) := by
      intro pre x post e; simp [e]
    rcases ih (fun pre i j post e => hsrc pre i j _ (hpre _ _ _ e)) (fun hU pre i j post e => hu hU pre i j _ (hpre _ _ _ e))
      (hw.imp id (fun hf pre i d sd post e => hf pre i d sd _ (hpre _ _ _ e))) with ⟨h1, h2⟩ | ⟨st, s, h1, h2, h3⟩
    · left
      rw [run_snoc, ownRun_snoc, h1, h2]
      exact ⟨rfl, rfl⟩
    · rw [run_snoc, ownRun_snoc, h1, h2]
      simp only [Option.bind_some]
      refine step_sim I grow h3 op ?_ ?_ ?_
      · rintro i j rfl w hw'
        exact hsrc ops i j [] rfl s h2 w hw'
      · rintro hU i j rfl w hw'
        exact hu hU ops i j [] rfl s h2 w hw'
      · refine hw.imp id (fun hf => ?_)
        rintro i d seed rfl w hw'
        exact hf ops i d seed [] rfl s h2 w hw'

theorem Inv.view {U : Prop} {st : St V P R E} {s : Own V P R E} (h : Inv U st s) (hU : U) : LogClone.view st = s := by
  funext i
  rcases h.get i with ⟨h1, h2⟩ | ⟨o, w, h1, h2, hsh⟩
  · simp [LogClone.view, h1, h2]
  · rw [h2]
    simp only [LogClone.view, h1, Option.map_some, Option.some.injEq]
    obtain ⟨a, b, c, d⟩ := w
    rw [View.mk.injEq]
    exact ⟨hsh.priv.symm, hsh.params.symm, (hsh.log hU).symm, hsh.src.symm⟩

/-- What an estimator shows except for the elements of its list: fields, parameters, number of elements, source. -/
def shown (v : View V P R E) : V × Option P × ℕ × Option (R × Bool) := (v.priv, v.params, v.log.length, v.src)

theorem Inv.shown {U : Prop} {st : St V P R E} {s : Own V P R E} (h : Inv U st s) : (fun i => (LogClone.view st i).map LogClone.shown) = fun i => (s i).map LogClone.shown := by
  funext i
  rcases h.get i with ⟨h1, h2⟩ | ⟨o, w, h1, h2, hsh⟩
  · simp [LogClone.view, h1, h2]
  · simp only [LogClone.view, h1, h2, Option.map_some, LogClone.shown, Option.some.injEq, Prod.mk.injEq]
    refine ⟨hsh.priv.symm, hsh.params.symm, ?_, hsh.src.symm⟩
    rw [hsh.len]
    simp only [read, List.length_take]
    have := hsh.cap
    omega

/-- Estimators cloned before they are fitted are independent in everything. -/
theorem unfitted_independent (I : Impl D V P R E) (grow : ℕ → ℕ) (ops : List (Op D V R)) (hsrc : SourcesCloned I ops) (hu : ClonesUnfitted I ops) : (run I grow ops).map view = ownRun I ops := by
  rcases sim I grow True ops hsrc (fun _ => hu) (.inl trivial) with ⟨h1, h2⟩ | ⟨st, s, h1, h2, h3⟩
  · rw [h1, h2]; rfl
  · rw [h1, h2, Option.map_some, h3.view trivial]

/-- Without warm fits, clones of fitted estimators are independent in everything except the elements of the list. -/
theorem cold_independent (I : Impl D V P R E) (grow : ℕ → ℕ) (ops : List (Op D V R)) (hsrc : SourcesCloned I ops) (hw : NoWarmFit I ops) :
    (run I grow ops).map (fun st i => (view st i).map shown) = (ownRun I ops).map (fun s i => (s i).map shown) := by
  rcases sim I grow False ops hsrc (fun h => h.elim) (.inr hw) with ⟨h1, h2⟩ | ⟨st, s, h1, h2, h3⟩
  · rw [h1, h2]; rfl
  · rw [h1, h2, Option.map_some, Option.map_some, h3.shown]

/-! ## What is shared -/

/-- Slices are inside their arrays, in every state a program reaches. -/
def Inside (st : St V P R E) : Prop := ∀ i o, st.objs i = some o → o.log.len ≤ (st.arrays.arr o.log.addr).length ∧ o.log.addr < st.arrays.free

theorem inside_update {st : St V P R E} (h : Inside st) (i : ℕ) (o : Obj V) (st' : St V P R E) (ho : st'.objs = Function.update st.objs i (some o)) (ha : st'.arrays = st.arrays)
    (hl : o.log.len ≤ (st.arrays.arr o.log.addr).length ∧ o.log.addr < st.arrays.free) : Inside st' := by
  intro k o' hk
  rw [ho] at hk
  rw [ha]
  by_cases e : k = i
  · subst e
    simp only [Function.update_self, Option.some.injEq] at hk
    subst hk; exact hl
  · rw [Function.update_of_ne e] at hk
    exact h k o' hk

theorem clone_some {I : Impl D V P R E} {st st' : St V P R E} {i j : ℕ} (h : clone I st i j = some st') :
    ∃ o src, st.objs i = some o ∧ st'.objs = Function.update st.objs j (some { o with src := src }) ∧ st'.arrays = st.arrays ∧ st'.params = st.params ∧ st'.pfree = st.pfree := by
  unfold clone at h
  rcases ho : st.objs i with _ | o
  · simp [ho] at h
  · simp only [ho, Option.bind_some] at h
    rcases hs : o.src with _ | ⟨a, c⟩
    · simp only [hs, Option.some.injEq] at h
      subst h
      exact ⟨o, o.src, rfl, rfl, rfl, rfl, rfl⟩
    · cases c with
      | false =>
        simp only [hs, Option.some.injEq] at h
        subst h
        exact ⟨o, o.src, rfl, rfl, rfl, rfl, rfl⟩
      | true =>
        simp only [hs] at h
        by_cases hc : I.cloneSource = true
        · rw [if_pos hc] at h
          rcases hr : st.sources a with _ | r
          · simp [hr] at h
          · simp only [hr, Option.map_some, Option.some.injEq] at h
            subst h
            exact ⟨o, some (st.sfree, true), rfl, rfl, rfl, rfl, rfl⟩
        · rw [if_neg hc] at h
          simp only [Option.some.injEq] at h
          subst h
          exact ⟨o, o.src, rfl, rfl, rfl, rfl, rfl⟩

theorem fit_some {I : Impl D V P R E} {grow : ℕ → ℕ} {st st' : St V P R E} {i : ℕ} {d : D} {seed : R} (h : fit I grow st i d seed = some st') :
    ∃ o a p r t, st.objs i = some o ∧ I.train o.priv d p r = some t ∧ (I.warm o.priv = true → o.ptr = some a ∧ st.params a = some p) ∧
      st'.objs = Function.update st.objs i (some ⟨t.1, some a, (appendAll grow I.zero st.arrays o.log t.2.2.1).2, some (o.src.getD (st.sfree, I.newClonable))⟩) ∧
      st'.params = Function.update st.params a (some t.2.1) ∧ st'.arrays = (appendAll grow I.zero st.arrays o.log t.2.2.1).1 ∧
      st'.sources = Function.update st.sources (o.src.getD (st.sfree, I.newClonable)).1 (some t.2.2.2) := by
  unfold fit at h
  rcases ho : st.objs i with _ | o
  · simp [ho] at h
  · simp only [ho, Option.bind_some] at h
    rcases hr : (if o.src.isNone then some seed else st.sources (o.src.getD (st.sfree, I.newClonable)).1) with _ | r
    · simp only [hr, Option.bind_none, reduceCtorEq] at h
    · simp only [hr, Option.bind_some] at h
      by_cases hw : I.warm o.priv = true
      · simp only [hw, if_true] at h
        rcases hp : o.ptr with _ | a
        · simp [hp] at h
        · simp only [hp, Option.bind_some] at h
          rcases hq : st.params a with _ | p
          · simp [hq] at h
          · simp only [hq, Option.map_some, Option.bind_some] at h
            rcases ht : I.train o.priv d p r with _ | t
            · simp [ht] at h
            · simp only [ht, Option.map_some, Option.some.injEq] at h
              subst h
              exact ⟨o, a, p, r, t, rfl, ht, fun _ => ⟨hp, hq⟩, rfl, rfl, rfl, rfl⟩
      · simp only [hw, Bool.false_eq_true, if_false, Option.bind_some] at h
        rcases hf : I.fresh o.priv d r with _ | pr
        · simp [hf] at h
        · simp only [hf, Option.bind_some] at h
          rcases ht : I.train o.priv d pr.1 pr.2 with _ | t
          · simp [ht] at h
          · simp only [ht, Option.map_some, Option.some.injEq] at h
            subst h
            exact ⟨o, st.pfree, pr.1, pr.2, t, rfl, ht, fun e => absurd e hw, rfl, rfl, rfl, rfl⟩

theorem inside_step (I : Impl D V P R E) (grow : ℕ → ℕ) {st st' : St V P R E} (h : Inside st) (hp : 0 < st.arrays.free) (op : Op D V R) (hs : step I grow st op = some st') : Inside st' ∧ 0 < st'.arrays.free := by
  cases op with
  | create i =>
    simp only [step, Option.some.injEq] at hs
    subst hs
    exact ⟨inside_update h i _ _ rfl rfl ⟨by simp [Slice.nil], hp⟩, hp⟩
  | clone i j =>
    obtain ⟨o, src, h1, h2, h3, _⟩ := clone_some hs
    exact ⟨inside_update h j _ _ h2 h3 (h i o h1), by rw [h3]; exact hp⟩
  | set i f =>
    rcases ho : st.objs i with _ | o
    · simp [step, ho] at hs
    · simp only [step, ho, Option.map_some, Option.some.injEq] at hs
      subst hs
      exact ⟨inside_update h i _ _ rfl rfl (h i o ho), hp⟩
  | source i r c =>
    rcases ho : st.objs i with _ | o
    · simp [step, ho] at hs
    · simp only [step, ho, Option.map_some, Option.some.injEq] at hs
      subst hs
      exact ⟨inside_update h i _ _ rfl rfl (h i o ho), hp⟩
  | fit i d seed =>
    obtain ⟨o, a, p, r, t, h1, _, _, h2, _, h3, _⟩ := fit_some hs
    have hx := appendAll_ext grow I.zero t.2.2.1 st.arrays o.log (h i o h1).1 (h i o h1).2
    refine ⟨?_, by rw [h3]; exact lt_of_lt_of_le hp hx.mono⟩
    intro k o' hk
    rw [h2] at hk
    rw [h3]
    by_cases e : k = i
    · subst e
      simp only [Function.update_self, Option.some.injEq] at hk
      subst hk
      exact ⟨hx.cap, hx.lt⟩
    · rw [Function.update_of_ne e] at hk
      obtain ⟨q1, q2⟩ := h k o' hk
      exact ⟨by rw [hx.caps _ q2]; exact q1, lt_of_lt_of_le q2 hx.mono⟩

theorem inside_run (I : Impl D V P R E) (grow : ℕ → ℕ) (ops : List (Op D V R)) (st : St V P R E) (h : run I grow ops = some st) : Inside st ∧ 0 < st.arrays.free := by
  induction ops using List.reverseRecOn generalizing st with
  | nil =>
    simp only [run, List.foldlM_nil, Option.pure_def, Option.some.injEq] at h
    subst h
    exact ⟨by intro i o ho; simp [init] at ho, by simp [init]⟩
  | append_singleton ops op ih =>
    rw [run_snoc] at h
    rcases hr : run I grow ops with _ | st₀
    · simp [hr] at h
    · simp only [hr, Option.bind_some] at h
      obtain ⟨h1, h2⟩ := ih st₀ hr
      exact inside_step I grow h1 h2 op h

/-- The array of a slice after appending: the new elements stand in the spare capacity, as far as it goes. -/
theorem appendAll_arr (grow : ℕ → ℕ) (zero : E) (xs : List E) : ∀ (h : Arrays E) (s : Slice), s.len ≤ (h.arr s.addr).length → s.addr < h.free →
    (appendAll grow zero h s xs).1.arr s.addr = (h.arr s.addr).take s.len ++ xs.take ((h.arr s.addr).length - s.len) ++ (h.arr s.addr).drop (s.len + xs.length) := by
  induction xs with
  | nil => intro h s _ _; simp [appendAll]
  | cons x xs ih =>
    intro h s hc hl
    by_cases hs : s.len < (h.arr s.addr).length
    · have e : append grow zero h s x = (⟨Function.update h.arr s.addr ((h.arr s.addr).set s.len x), h.free⟩, ⟨s.addr, s.len + 1⟩) := by rw [append, if_pos hs]
      have e2 : appendAll grow zero h s (x :: xs) = appendAll grow zero (append grow zero h s x).1 (append grow zero h s x).2 xs := rfl
      rw [e2, e]
      have := ih ⟨Function.update h.arr s.addr ((h.arr s.addr).set s.len x), h.free⟩ ⟨s.addr, s.len + 1⟩ (by simp; omega) hl
      simp only at this
      rw [this]
      simp only [Function.update_self, List.length_set]
      rw [List.take_add_one, List.take_set_of_le (le_refl _), List.getElem?_set_self hs]
      obtain ⟨m, hm⟩ : ∃ m, (h.arr s.addr).length - s.len = m + 1 := ⟨(h.arr s.addr).length - s.len - 1, by omega⟩
      have hm' : (h.arr s.addr).length - (s.len + 1) = m := by omega
      rw [hm, hm', List.drop_set_of_lt (by omega)]
      simp only [Option.toList_some, List.take_succ_cons, List.append_assoc, List.cons_append, List.nil_append, List.length_cons]
      congr 4
      omega
    · have he : s.len = (h.arr s.addr).length := by omega
      have e : append grow zero h s x = (⟨Function.update h.arr h.free (read h s ++ x :: List.replicate (grow s.len) zero), h.free + 1⟩, ⟨h.free, s.len + 1⟩) := by rw [append, if_neg hs]
      have hx := append_ext grow zero h s x hc hl
      have e2 : appendAll grow zero h s (x :: xs) = appendAll grow zero (append grow zero h s x).1 (append grow zero h s x).2 xs := rfl
      have hy := appendAll_ext grow zero xs (append grow zero h s x).1 (append grow zero h s x).2 hx.cap hx.lt
      rw [e2, hy.other s.addr (lt_of_lt_of_le hl hx.mono) (by rw [e]; simp only; omega), e]
      simp only
      rw [Function.update_of_ne (by omega), he]
      simp

/-- The slice stays in its array while there is room. -/
theorem appendAll_stays (grow : ℕ → ℕ) (zero : E) (xs : List E) : ∀ (h : Arrays E) (s : Slice), s.len + xs.length ≤ (h.arr s.addr).length → (appendAll grow zero h s xs).2 = ⟨s.addr, s.len + xs.length⟩ := by
  induction xs with
  | nil => intro h s _; rfl
  | cons x xs ih =>
    intro h s hc
    simp only [List.length_cons] at hc
    have e : append grow zero h s x = (⟨Function.update h.arr s.addr ((h.arr s.addr).set s.len x), h.free⟩, ⟨s.addr, s.len + 1⟩) := by rw [append, if_pos (by omega)]
    have e2 : appendAll grow zero h s (x :: xs) = appendAll grow zero (append grow zero h s x).1 (append grow zero h s x).2 xs := rfl
    rw [e2, e, ih _ _ (by simp; omega)]
    simp only [List.length_cons, Slice.mk.injEq, true_and]
    omega

theorem run_two (I : Impl D V P R E) (grow : ℕ → ℕ) (ops : List (Op D V R)) (x y : Op D V R) (st st₂ : St V P R E) (h : run I grow ops = some st) (h2 : run I grow (ops ++ [x, y]) = some st₂) :
    ∃ st₁, step I grow st x = some st₁ ∧ step I grow st₁ y = some st₂ := by
  have e : ops ++ [x, y] = (ops ++ [x]) ++ [y] := by simp
  rw [e, run_snoc, run_snoc, h, Option.bind_some] at h2
  rcases hs : step I grow st x with _ | st₁
  · simp [hs] at h2
  · simp only [hs, Option.bind_some] at h2
    exact ⟨st₁, rfl, h2⟩

/-- Fitting a clone once does not change what the original shows of its list; fitting the original afterwards overwrites what the clone had appended, as long as that had fitted into the spare capacity. -/
theorem shared_log (I : Impl D V P R E) (grow : ℕ → ℕ) (ops : List (Op D V R)) (st : St V P R E) (hrun : run I grow ops = some st) (i j : ℕ) (hij : i ≠ j) (o : Obj V) (ho : st.objs i = some o)
    (d₁ d₂ : D) (s₁ s₂ : R) (st₂ st₃ : St V P R E) (h₂ : run I grow (ops ++ [.clone i j, .fit j d₂ s₂]) = some st₂) (h₃ : run I grow (ops ++ [.clone i j, .fit j d₂ s₂, .fit i d₁ s₁]) = some st₃) :
    ∃ es₁ es₂, (view st i).map View.log = some (read st.arrays o.log) ∧
      (view st₂ j).map View.log = some (read st.arrays o.log ++ es₂) ∧ (view st₂ i).map View.log = some (read st.arrays o.log) ∧
      (view st₃ i).map View.log = some (read st.arrays o.log ++ es₁) ∧
      (o.log.len + es₂.length ≤ (st.arrays.arr o.log.addr).length → (view st₃ j).map View.log = some (read st.arrays o.log ++ (es₁.take es₂.length ++ es₂.drop es₁.length))) := by
  obtain ⟨hin, _⟩ := inside_run I grow ops st hrun
  obtain ⟨hcap, hlt⟩ := hin i o ho
  obtain ⟨st₁, hc, hf⟩ := run_two I grow ops _ _ st st₂ hrun h₂
  have h3' : step I grow st₂ (.fit i d₁ s₁) = some st₃ := by
    have e : ops ++ [.clone i j, .fit j d₂ s₂, .fit i d₁ s₁] = (ops ++ [.clone i j, .fit j d₂ s₂]) ++ [.fit i d₁ s₁] := by simp
    rw [e, run_snoc, h₂] at h₃
    exact h₃
  obtain ⟨o', src, ho', hobj₁, harr₁, _, _⟩ := clone_some hc
  rw [ho] at ho'
  simp only [Option.some.injEq] at ho'
  subst ho'
  obtain ⟨o₂, a₂, p₂, r₂, t₂, hj₁, _, _, hobj₂, _, harr₂, _⟩ := fit_some hf
  rw [hobj₁, Function.update_self, Option.some.injEq] at hj₁
  subst hj₁
  simp only at hobj₂ harr₂
  obtain ⟨o₃, a₃, p₃, r₃, t₃, hi₂, _, _, hobj₃, _, harr₃, _⟩ := fit_some h3'
  have hi₂' : o₃ = o := by
    rw [hobj₂, Function.update_of_ne hij, hobj₁, Function.update_of_ne hij, ho, Option.some.injEq] at hi₂
    exact hi₂.symm
  subst hi₂'
  rw [harr₁] at harr₂ hobj₂
  have hx₂ := appendAll_ext grow I.zero t₂.2.2.1 st.arrays o₃.log hcap hlt
  have hcap₂ : o₃.log.len ≤ (st₂.arrays.arr o₃.log.addr).length := by rw [harr₂, hx₂.caps _ hlt]; exact hcap
  have hlt₂ : o₃.log.addr < st₂.arrays.free := by rw [harr₂]; exact lt_of_lt_of_le hlt hx₂.mono
  have hread₂ : read st₂.arrays o₃.log = read st.arrays o₃.log := by
    simp only [read]
    rw [harr₂]; exact hx₂.pre _ (le_refl _)
  have hx₃ := appendAll_ext grow I.zero t₃.2.2.1 st₂.arrays o₃.log hcap₂ hlt₂
  refine ⟨t₃.2.2.1, t₂.2.2.1, ?_, ?_, ?_, ?_, ?_⟩
  · simp [view, ho]
  · simp only [view, hobj₂, Function.update_self, Option.map_some, Option.some.injEq]
    rw [harr₂]; exact hx₂.readEq
  · simp only [view, hi₂, Option.map_some, hread₂]
  · simp only [view, hobj₃, Function.update_self, Option.map_some, Option.some.injEq]
    rw [harr₃, hx₃.readEq, hread₂]
  · intro hroom
    have hj : st₃.objs j = some ⟨t₂.1, some a₂, ⟨o₃.log.addr, o₃.log.len + t₂.2.2.1.length⟩, some (src.getD (st₁.sfree, I.newClonable))⟩ := by
      rw [hobj₃, Function.update_of_ne (Ne.symm hij), hobj₂, Function.update_self, appendAll_stays grow I.zero _ _ _ hroom]
    simp only [view, hj, Option.map_some, Option.some.injEq, read]
    rw [harr₃, appendAll_arr grow I.zero _ _ _ hcap₂ hlt₂]
    have hl₂ : (st₂.arrays.arr o₃.log.addr).length = (st.arrays.arr o₃.log.addr).length := by rw [harr₂, hx₂.caps _ hlt]
    have harr : st₂.arrays.arr o₃.log.addr = (st.arrays.arr o₃.log.addr).take o₃.log.len ++ t₂.2.2.1 ++ (st.arrays.arr o₃.log.addr).drop (o₃.log.len + t₂.2.2.1.length) := by
      rw [harr₂, appendAll_arr grow I.zero _ _ _ hcap hlt, List.take_of_length_le (l := t₂.2.2.1) (by omega)]
    have hpre : (st₂.arrays.arr o₃.log.addr).take o₃.log.len = (st.arrays.arr o₃.log.addr).take o₃.log.len := hread₂
    rw [hpre, hl₂]
    generalize hA : (st.arrays.arr o₃.log.addr).take o₃.log.len = A at harr ⊢
    have hAl : A.length = o₃.log.len := by rw [← hA, List.length_take]; omega
    rw [harr, List.append_assoc, List.append_assoc, List.take_append, hAl, List.take_of_length_le (l := A) (by omega), Nat.add_sub_cancel_left]
    congr 1
    rw [List.drop_append, hAl, Nat.add_sub_cancel_left, List.drop_eq_nil_of_le (as := A) (by omega), List.nil_append]
    by_cases hle : t₃.2.2.1.length ≤ t₂.2.2.1.length
    · rw [List.take_of_length_le (l := t₃.2.2.1) (by omega), List.take_append, List.take_of_length_le (l := t₃.2.2.1) hle, List.drop_append_of_le_length hle, List.take_append]
      have e1 : t₂.2.2.1.length - t₃.2.2.1.length - (t₂.2.2.1.drop t₃.2.2.1.length).length = 0 := by simp
      rw [e1, List.take_zero, List.append_nil, List.take_of_length_le (by simp)]
    · rw [List.drop_eq_nil_of_le (as := t₂.2.2.1) (by omega), List.append_nil, List.take_append_of_le_length (by rw [List.length_take]; omega), List.take_take]
      congr 1
      omega

/-- A warm fit of a clone writes into the parameters of the original. -/
theorem warm_shared (I : Impl D V P R E) (grow : ℕ → ℕ) (ops : List (Op D V R)) (st : St V P R E) (hrun : run I grow ops = some st) (i j : ℕ) (hij : i ≠ j) (o : Obj V) (ho : st.objs i = some o)
    (f : V → V) (hw : I.warm (f o.priv) = true) (d : D) (seed : R) (st₂ : St V P R E) (h₂ : run I grow (ops ++ [.clone i j, .set j f, .fit j d seed]) = some st₂) :
    ∃ p r t, (view st i).bind View.params = some p ∧ I.train (f o.priv) d p r = some t ∧ (view st₂ i).bind View.params = some t.2.1 ∧ (view st₂ j).bind View.params = some t.2.1 := by
  have e : ops ++ [.clone i j, .set j f, .fit j d seed] = (ops ++ [.clone i j]) ++ [.set j f, .fit j d seed] := by simp
  have hst₁ : ∃ st₁, run I grow (ops ++ [.clone i j]) = some st₁ := by
    rcases h : run I grow (ops ++ [.clone i j]) with _ | st₁
    · have e2 : ops ++ [.clone i j, .set j f, .fit j d seed] = ((ops ++ [.clone i j]) ++ [.set j f]) ++ [.fit j d seed] := by simp
      rw [e2, run_snoc, run_snoc, h] at h₂
      simp at h₂
    · exact ⟨st₁, h⟩
  obtain ⟨st₁, h₁⟩ := hst₁
  rw [e] at h₂
  obtain ⟨st', hset, hfit⟩ := run_two I grow _ _ _ st₁ st₂ h₁ h₂
  have hc : step I grow st (.clone i j) = some st₁ := by
    rw [run_snoc, hrun] at h₁; exact h₁
  obtain ⟨o', src, ho', hobj₁, _, hpar₁, _⟩ := clone_some hc
  rw [ho] at ho'
  simp only [Option.some.injEq] at ho'
  subst ho'
  simp only [step, hobj₁, Function.update_self, Option.map_some, Option.some.injEq] at hset
  obtain ⟨o₂, a, p, r, t, hj, ht, hwarm, hobj₂, hpar₂, _, _⟩ := fit_some hfit
  rw [← hset] at hj
  simp only [Function.update_self, Option.some.injEq] at hj
  subst hj
  obtain ⟨hp, hq⟩ := hwarm hw
  rw [← hset] at hq
  simp only at hq hp
  rw [hpar₁] at hq
  have hobj₂i : st₂.objs i = some o := by
    rw [hobj₂, Function.update_of_ne hij, ← hset]
    simp only
    rw [Function.update_of_ne hij, Function.update_of_ne hij, ho]
  refine ⟨p, r, t, ?_, ht, ?_, ?_⟩
  · simp [view, ho, hp, hq]
  · simp only [view, hobj₂i, Option.map_some, Option.bind_some, hp, hpar₂, Function.update_self]
  · simp only [view, hobj₂, Function.update_self, Option.map_some, Option.bind_some, hpar₂]

/-- A source that is not cloned is advanced for the original by a fit of the clone. -/
theorem source_shared (I : Impl D V P R E) (grow : ℕ → ℕ) (ops : List (Op D V R)) (st : St V P R E) (hrun : run I grow ops = some st) (i j : ℕ) (hij : i ≠ j) (o : Obj V) (ho : st.objs i = some o)
    (a : ℕ) (c : Bool) (hs : o.src = some (a, c)) (hc : I.cloneSource = false ∨ c = false) (d : D) (seed : R) (st₂ : St V P R E) (h₂ : run I grow (ops ++ [.clone i j, .fit j d seed]) = some st₂) :
    ∃ p r t, I.train o.priv d p r = some t ∧ (view st₂ i).bind View.src = some (t.2.2.2, c) ∧ (view st₂ j).bind View.src = some (t.2.2.2, c) := by
  obtain ⟨st₁, hcl, hf⟩ := run_two I grow ops _ _ st st₂ hrun h₂
  have hst₁ : st₁ = { st with objs := Function.update st.objs j (some o) } := by
    have hcl' : clone I st i j = some st₁ := hcl
    simp only [clone, ho, Option.bind_some, hs] at hcl'
    cases c with
    | false =>
      simp only [Option.some.injEq] at hcl'
      exact hcl'.symm
    | true =>
      have : I.cloneSource = false := by simpa using hc
      simp only [this, Bool.false_eq_true, if_false, Option.some.injEq] at hcl'
      exact hcl'.symm
  subst hst₁
  obtain ⟨o₂, b, p, r, t, hj, ht, _, hobj₂, _, _, hsrc₂⟩ := fit_some hf
  simp only [Function.update_self, Option.some.injEq] at hj
  subst hj
  simp only [hs, Option.getD_some] at hobj₂ hsrc₂
  have hobj₂i : st₂.objs i = some o := by
    rw [hobj₂, Function.update_of_ne hij, Function.update_of_ne hij, ho]
  refine ⟨p, r, t, ht, ?_, ?_⟩
  · simp [view, hobj₂i, hs, hsrc₂]
  · simp [view, hobj₂, hsrc₂]

/-! ## C164: perceptrons -/

section Mlp
variable {W : Type}

/-- C164.  Perceptrons that are cloned before they are fitted (without random source, or a regressor with a source that can be cloned) are independent in everything they show: settings, parameters, loss curve, source.
Missing: clones of fitted perceptrons, and of classifiers with a random source; both are false in general (below). -/
theorem C164_unfitted_partial (regressor : Bool) (w0 : W) (zero : E) (fresh : W → D → R → Option (P × R)) (train : W → D → P → R → Option (W × P × List E × R)) (grow : ℕ → ℕ) (ops : List (Op D (Bool × W) R))
    (hsrc : SourcesCloned (mlp regressor w0 zero fresh train) ops) (hu : ClonesUnfitted (mlp regressor w0 zero fresh train) ops) :
    (run (mlp regressor w0 zero fresh train) grow ops).map view = ownRun (mlp regressor w0 zero fresh train) ops := unfitted_independent _ grow ops hsrc hu

/-- C164.  If no perceptron has WarmStart set when it is fitted, perceptrons cloned at any time (with such sources) are independent in settings, parameters and source; the loss curves have the right lengths.
Missing: the elements of the loss curves, and warm starts; both are false in general (below). -/
theorem C164_cold_partial (regressor : Bool) (w0 : W) (zero : E) (fresh : W → D → R → Option (P × R)) (train : W → D → P → R → Option (W × P × List E × R)) (grow : ℕ → ℕ) (ops : List (Op D (Bool × W) R))
    (hsrc : SourcesCloned (mlp regressor w0 zero fresh train) ops) (hw : ∀ pre i d seed post, ops = pre ++ .fit i d seed :: post → ∀ s, ownRun (mlp regressor w0 zero fresh train) pre = some s → ∀ o, s i = some o → o.priv.1 = false) :
    (run (mlp regressor w0 zero fresh train) grow ops).map (fun st i => (view st i).map shown) = (ownRun (mlp regressor w0 zero fresh train) ops).map (fun s i => (s i).map shown) :=
  cold_independent _ grow ops hsrc (fun pre i d seed post h s hs o ho => hw pre i d seed post h s hs o ho)

/-- C164, violation.  In every program: if a fitted perceptron `i` is cloned, and the clone is fitted with WarmStart, then the original predicts with the parameters trained for the clone. -/
theorem C164_warm_violated (regressor : Bool) (w0 : W) (zero : E) (fresh : W → D → R → Option (P × R)) (train : W → D → P → R → Option (W × P × List E × R)) (grow : ℕ → ℕ) (ops : List (Op D (Bool × W) R))
    (st : St (Bool × W) P R E) (hrun : run (mlp regressor w0 zero fresh train) grow ops = some st) (i j : ℕ) (hij : i ≠ j) (o : Obj (Bool × W)) (ho : st.objs i = some o) (d : D) (seed : R)
    (st₂ : St (Bool × W) P R E) (h₂ : run (mlp regressor w0 zero fresh train) grow (ops ++ [.clone i j, .set j (fun v => (true, v.2)), .fit j d seed]) = some st₂) :
    ∃ p r t, (view st i).bind View.params = some p ∧ train o.priv.2 d p r = some t ∧ (view st₂ i).bind View.params = some t.2.1 ∧ (view st₂ j).bind View.params = some t.2.1 := by
  obtain ⟨p, r, t, h1, h2, h3, h4⟩ := warm_shared (mlp regressor w0 zero fresh train) grow ops st hrun i j hij o ho (fun v => (true, v.2)) rfl d seed st₂ h₂
  change (train o.priv.2 d p r).map (fun t => ((true, t.1), t.2)) = some t at h2
  rcases ht : train o.priv.2 d p r with _ | t'
  · simp [ht] at h2
  · simp only [ht, Option.map_some, Option.some.injEq] at h2
    subst h2
    exact ⟨p, r, t', h1, ht, h3, h4⟩

/-- C164, violation.  In every program: after cloning a perceptron, fitting the clone and then the original, the clone's loss curve contains the losses of the original's fit in place of its own, when its own had
fitted into the spare capacity of the array. -/
theorem C164_curve_violated (regressor : Bool) (w0 : W) (zero : E) (fresh : W → D → R → Option (P × R)) (train : W → D → P → R → Option (W × P × List E × R)) (grow : ℕ → ℕ) (ops : List (Op D (Bool × W) R))
    (st : St (Bool × W) P R E) (hrun : run (mlp regressor w0 zero fresh train) grow ops = some st) (i j : ℕ) (hij : i ≠ j) (o : Obj (Bool × W)) (ho : st.objs i = some o) (d₁ d₂ : D) (s₁ s₂ : R)
    (st₂ st₃ : St (Bool × W) P R E) (h₂ : run (mlp regressor w0 zero fresh train) grow (ops ++ [.clone i j, .fit j d₂ s₂]) = some st₂)
    (h₃ : run (mlp regressor w0 zero fresh train) grow (ops ++ [.clone i j, .fit j d₂ s₂, .fit i d₁ s₁]) = some st₃) :
    ∃ es₁ es₂, (view st i).map View.log = some (read st.arrays o.log) ∧
      (view st₂ j).map View.log = some (read st.arrays o.log ++ es₂) ∧ (view st₂ i).map View.log = some (read st.arrays o.log) ∧
      (view st₃ i).map View.log = some (read st.arrays o.log ++ es₁) ∧
      (o.log.len + es₂.length ≤ (st.arrays.arr o.log.addr).length → (view st₃ j).map View.log = some (read st.arrays o.log ++ (es₁.take es₂.length ++ es₂.drop es₁.length))) :=
  shared_log _ grow ops st hrun i j hij o ho d₁ d₂ s₁ s₂ st₂ st₃ h₂ h₃

/-- C164, violation.  In every program: fitting a clone of a classifier that has a random source advances the source of the original (the regressor's source too if it cannot be cloned). -/
theorem C164_source_violated (regressor : Bool) (w0 : W) (zero : E) (fresh : W → D → R → Option (P × R)) (train : W → D → P → R → Option (W × P × List E × R)) (grow : ℕ → ℕ) (ops : List (Op D (Bool × W) R))
    (st : St (Bool × W) P R E) (hrun : run (mlp regressor w0 zero fresh train) grow ops = some st) (i j : ℕ) (hij : i ≠ j) (o : Obj (Bool × W)) (ho : st.objs i = some o) (a : ℕ) (c : Bool)
    (hs : o.src = some (a, c)) (hc : regressor = false ∨ c = false) (d : D) (seed : R) (st₂ : St (Bool × W) P R E)
    (h₂ : run (mlp regressor w0 zero fresh train) grow (ops ++ [.clone i j, .fit j d seed]) = some st₂) :
    ∃ p r t, train o.priv.2 d p r = some t ∧ (view st₂ i).bind View.src = some (t.2.2.2, c) ∧ (view st₂ j).bind View.src = some (t.2.2.2, c) := by
  obtain ⟨p, r, t, h1, h2, h3⟩ := source_shared (mlp regressor w0 zero fresh train) grow ops st hrun i j hij o ho a c hs hc d seed st₂ h₂
  change (train o.priv.2 d p r).map (fun t => ((o.priv.1, t.1), t.2)) = some t at h1
  rcases ht : train o.priv.2 d p r with _ | t'
  · simp [ht] at h1
  · simp only [ht, Option.map_some, Option.some.injEq] at h1
    subst h1
    exact ⟨p, r, t', ht, h2, h3⟩

/-- C164, violation.  In every program: the source that `Fit` makes for a perceptron without one is shared with the clones made afterwards, regressors included: fitting such a clone advances the source of the original. -/
theorem C164_default_source_violated (regressor : Bool) (w0 : W) (zero : E) (fresh : W → D → R → Option (P × R)) (train : W → D → P → R → Option (W × P × List E × R)) (grow : ℕ → ℕ) (ops : List (Op D (Bool × W) R))
    (st : St (Bool × W) P R E) (hrun : run (mlp regressor w0 zero fresh train) grow ops = some st) (i j : ℕ) (hij : i ≠ j) (o : Obj (Bool × W)) (ho : st.objs i = some o) (hs : o.src = none) (d₁ d₂ : D) (s₁ s₂ : R)
    (st₁ : St (Bool × W) P R E) (h₁ : run (mlp regressor w0 zero fresh train) grow (ops ++ [.fit i d₁ s₁]) = some st₁)
    (st₂ : St (Bool × W) P R E) (h₂ : run (mlp regressor w0 zero fresh train) grow (ops ++ [.fit i d₁ s₁] ++ [.clone i j, .fit j d₂ s₂]) = some st₂) :
    ∃ w p r t, train w d₂ p r = some t ∧ (view st₂ i).bind View.src = some (t.2.2.2, false) ∧ (view st₂ j).bind View.src = some (t.2.2.2, false) := by
  have hf := h₁
  rw [run_snoc, hrun, Option.bind_some] at hf
  obtain ⟨o', a, p, r, t, ho', -, -, hobj, -⟩ := fit_some hf
  rw [ho] at ho'
  cases ho'
  have h : st₁.objs i = some ⟨t.1, some a, (appendAll grow (mlp regressor w0 zero fresh train).zero st.arrays o.log t.2.2.1).2, some (st.sfree, false)⟩ := by
    rw [hobj, Function.update_self, hs]
    rfl
  obtain ⟨p, r, t, h1, h2, h3⟩ := C164_source_violated regressor w0 zero fresh train grow _ st₁ h₁ i j hij _ h st.sfree false rfl (.inr rfl) d₂ s₂ st₂ h₂
  exact ⟨_, p, r, t, h1, h2, h3⟩

/-! A toy perceptron: the parameter is a number, a new one is drawn from the source (a counter), training adds the data to it and reports one loss. -/

private def toy (regressor : Bool) : Impl ℕ (Bool × Unit) ℕ ℕ ℕ := mlp regressor () 0 (fun _ _ r => some (100 * r, r + 1)) (fun _ d p r => some ((), p + d, [d], r + 1))

/-- The hypotheses of `C164_unfitted_partial` for a program that clones a new regressor with a source and fits both. -/
example : (run (toy true) (fun n => n - 1) [.create 0, .source 0 7 true, .clone 0 1, .fit 0 5 0, .fit 1 6 0]).bind (fun st => (view st 0).map shown) =
    some ((false, ()), some 705, 1, some (9, true)) := by decide +kernel
example : (run (toy true) (fun n => n - 1) [.create 0, .source 0 7 true, .clone 0 1, .fit 0 5 0, .fit 1 6 0]).bind (fun st => (view st 1).map shown) =
    some ((false, ()), some 706, 1, some (9, true)) := by decide +kernel
example : SourcesCloned (toy true) [.create 0, .source 0 7 true, .clone 0 1, .fit 0 5 0, .fit 1 6 0] ∧ ClonesUnfitted (toy true) [.create 0, .source 0 7 true, .clone 0 1, .fit 0 5 0, .fit 1 6 0] := by
  have key : ∀ (pre : List (Op ℕ (Bool × Unit) ℕ)) i j post, [.create 0, .source 0 7 true, .clone 0 1, .fit 0 5 0, .fit 1 6 0] = pre ++ .clone i j :: post → pre = [.create 0, .source 0 7 true] ∧ i = 0 := by
    intro pre i j post e
    rcases pre with _ | ⟨a, _ | ⟨b, _ | ⟨c, _ | ⟨d, _ | ⟨f, pre⟩⟩⟩⟩⟩ <;> simp at e ⊢
    exact ⟨⟨e.1.symm, e.2.1.symm⟩, e.2.2.1.1.symm⟩
  constructor
  · intro pre i j post e s hs o ho
    obtain ⟨rfl, rfl⟩ := key pre i j post e
    simp only [ownRun, List.foldlM_cons, List.foldlM_nil, ownStep, Option.bind_eq_bind, Option.bind_some, Function.update_self, Option.map_some, Option.pure_def, Option.some.injEq] at hs
    subst hs
    simp only [Function.update_self, Option.some.injEq] at ho
    subst ho
    exact .inr ⟨rfl, 7, rfl⟩
  · intro pre i j post e s hs o ho
    obtain ⟨rfl, rfl⟩ := key pre i j post e
    simp only [ownRun, List.foldlM_cons, List.foldlM_nil, ownStep, Option.bind_eq_bind, Option.bind_some, Function.update_self, Option.map_some, Option.pure_def, Option.some.injEq] at hs
    subst hs
    simp only [Function.update_self, Option.some.injEq] at ho
    subst ho
    exact ⟨rfl, rfl⟩
/-- The classifier's clone continues with the source of the original. -/
example : (run (toy false) (fun n => n - 1) [.create 0, .source 0 7 true, .clone 0 1, .fit 0 5 0, .fit 1 6 0]).bind (fun st => (view st 1).map shown) =
    some ((false, ()), some 906, 1, some (11, true)) := by decide +kernel
/-- Without a source: the one made by the first fit (seed 7, left at 9) is advanced to 11 by the fit of the clone, for the original too. -/
example : (run (toy true) (fun n => n - 1) [.create 0, .fit 0 5 7, .clone 0 1, .fit 1 6 0]).bind (fun st => (view st 0).map shown) =
    some ((false, ()), some 705, 1, some (11, false)) := by decide +kernel
/-- A warm fit of the clone changes the parameters of the original from 705 to 711. -/
example : (run (toy true) (fun n => n - 1) [.create 0, .source 0 7 true, .fit 0 5 0, .clone 0 1, .set 1 (fun v => (true, v.2)), .fit 1 6 0]).bind (fun st => (view st 0).map shown) =
    some ((false, ()), some 711, 1, some (9, true)) := by decide +kernel
/-- A loss curve of 3 elements has capacity 4: the last fit (of the original, loss 30) overwrites the loss 20 of the clone. -/
example : (run (toy true) (fun n => n - 1) [.create 0, .source 0 7 true, .fit 0 5 0, .fit 0 6 0, .fit 0 7 0, .clone 0 1, .fit 1 20 0, .fit 0 30 0]).bind (fun st => (view st 1).map View.log) =
    some [5, 6, 7, 30] := by decide +kernel

end Mlp

/-! ## C165: DBSCAN and KMeans -/

section Cluster
variable {K X Dist : Type} [Field K] [LinearOrder K] [IsStrictOrderedRing K] [LinearOrder Dist]

/-- `DBSCAN.Fit` appends its core samples to those that are there and replaces the labels. -/
theorem dbscan_fit_appends (sort : List (Dist × ℕ) → List (Dist × ℕ)) (dist : X → X → Dist) (eps : Dist) (minSamples : K) (weight : Option (List K)) (xs : List X) (st : Dbscan.State) :
    Dbscan.fit sort dist eps minSamples weight xs st = (Dbscan.fit sort dist eps minSamples weight xs ⟨[], []⟩).map (fun r => ⟨r.labels, st.core ++ r.core⟩) := by
  unfold Dbscan.fit Dbscan.fitOn
  simp only [Option.bind_eq_bind, Option.map_bind, Function.comp_def, Option.pure_def, Option.map_some, List.nil_append]

/-- DBSCAN has no random source; a program does not set one. -/
def NoSource {D V R : Type} (ops : List (Op D V R)) : Prop := ∀ i r c, Op.source i r c ∉ ops

theorem dbscan_sources (sort : List (Dist × ℕ) → List (Dist × ℕ)) (dist : X → X → Dist) (eps : Dist) (minSamples : K) (ops : List (Op (List X) ((Dist × K × Option (List K)) × List ℤ) Unit)) (hn : NoSource ops) :
    ∀ s, ownRun (dbscan sort dist eps minSamples) ops = some s → ∀ i o, s i = some o → o.src = none ∨ o.src = some ((), true) := by
  induction ops using List.reverseRecOn with
  | nil =>
    intro s hs i o ho
    simp only [ownRun, List.foldlM_nil, Option.pure_def, Option.some.injEq] at hs
    subst hs; simp at ho
  | append_singleton ops op ih =>
    intro s hs i o ho
    have ih' := ih (fun i r c hm => hn i r c (by simp [hm]))
    rw [ownRun_snoc] at hs
    rcases hr : ownRun (dbscan sort dist eps minSamples) ops with _ | s₀
    · simp [hr] at hs
    · have ih₀ := ih' s₀ hr
      simp only [hr, Option.bind_some] at hs
      cases op with
      | create k =>
        simp only [ownStep, Option.some.injEq] at hs
        subst hs
        by_cases e : i = k
        · subst e
          simp only [Function.update_self, Option.some.injEq] at ho
          subst ho; left; rfl
        · rw [Function.update_of_ne e] at ho; exact ih₀ i o ho
      | clone k l =>
        rcases hk : s₀ k with _ | w
        · simp [ownStep, hk] at hs
        · simp only [ownStep, hk, Option.map_some, Option.some.injEq] at hs
          subst hs
          by_cases e : i = l
          · subst e
            simp only [Function.update_self, Option.some.injEq] at ho
            subst ho; exact ih₀ k _ hk
          · rw [Function.update_of_ne e] at ho; exact ih₀ i o ho
      | set k f =>
        rcases hk : s₀ k with _ | w
        · simp [ownStep, hk] at hs
        · simp only [ownStep, hk, Option.map_some, Option.some.injEq] at hs
          subst hs
          by_cases e : i = k
          · subst e
            simp only [Function.update_self, Option.some.injEq] at ho
            subst ho; exact ih₀ _ w hk
          · rw [Function.update_of_ne e] at ho; exact ih₀ i o ho
      | source k r c => exact absurd (by simp) (hn k r c)
      | fit k d seed =>
        rcases hk : s₀ k with _ | w
        · simp [ownStep, ownFit, hk] at hs
        · have hw : (dbscan sort dist eps minSamples).warm w.priv = false := rfl
          have hf : ∀ r, (dbscan sort dist eps minSamples).fresh w.priv d r = some ((), ()) := fun _ => rfl
          simp only [ownStep, ownFit, hk, Option.bind_some, hw, Bool.false_eq_true, if_false, hf] at hs
          rcases ht : (dbscan sort dist eps minSamples).train w.priv d () () with _ | t
          · simp [ht] at hs
          · simp only [ht, Option.map_some, Option.some.injEq] at hs
            subst hs
            by_cases e : i = k
            · subst e
              simp only [Function.update_self, Option.some.injEq] at ho
              subst ho
              right
              rcases ih₀ _ _ hk with e1 | e1 <;> simp [e1, dbscan]
            · rw [Function.update_of_ne e] at ho; exact ih₀ i o ho

theorem dbscan_sourcesCloned (sort : List (Dist × ℕ) → List (Dist × ℕ)) (dist : X → X → Dist) (eps : Dist) (minSamples : K) (ops : List (Op (List X) ((Dist × K × Option (List K)) × List ℤ) Unit)) (hn : NoSource ops) :
    SourcesCloned (dbscan sort dist eps minSamples) ops := by
  intro pre i j post e s hs o ho
  have hpre : NoSource pre := fun a r c hm => hn a r c (by rw [e]; simp [hm])
  rcases dbscan_sources sort dist eps minSamples pre hpre s hs i o ho with h | h
  · exact .inl h
  · exact .inr ⟨rfl, (), h⟩

/-- C165.  Whatever is cloned and fitted in whatever order, every DBSCAN has its own settings, the labels of its own last fit, and the right number of core sample indices.
Missing: the indices themselves, which is false in general (below). -/
theorem C165_labels_partial (sort : List (Dist × ℕ) → List (Dist × ℕ)) (dist : X → X → Dist) (eps : Dist) (minSamples : K) (grow : ℕ → ℕ) (ops : List (Op (List X) ((Dist × K × Option (List K)) × List ℤ) Unit)) (hn : NoSource ops) :
    (run (dbscan sort dist eps minSamples) grow ops).map (fun st i => (view st i).map shown) = (ownRun (dbscan sort dist eps minSamples) ops).map (fun s i => (s i).map shown) :=
  cold_independent _ grow ops (dbscan_sourcesCloned sort dist eps minSamples ops hn) (fun _ _ _ _ _ _ _ _ _ _ => rfl)

/-- C165.  If only DBSCANs that were not fitted are cloned, the core sample indices are their own as well.
Missing for the full claim: what `C165_core_violated`, `C165_witness_violated` refute. -/
theorem C165_core_partial (sort : List (Dist × ℕ) → List (Dist × ℕ)) (dist : X → X → Dist) (eps : Dist) (minSamples : K) (grow : ℕ → ℕ) (ops : List (Op (List X) ((Dist × K × Option (List K)) × List ℤ) Unit)) (hn : NoSource ops)
    (hu : ClonesUnfitted (dbscan sort dist eps minSamples) ops) :
    (run (dbscan sort dist eps minSamples) grow ops).map view = ownRun (dbscan sort dist eps minSamples) ops :=
  unfitted_independent _ grow ops (dbscan_sourcesCloned sort dist eps minSamples ops hn) hu

/-- C165.  In every program: a fit of a DBSCAN leaves the settings, replaces the labels by those found for its data and settings, and adds the core samples found to those it had. -/
theorem C165_fit (sort : List (Dist × ℕ) → List (Dist × ℕ)) (dist : X → X → Dist) (eps : Dist) (minSamples : K) (grow : ℕ → ℕ) (ops : List (Op (List X) ((Dist × K × Option (List K)) × List ℤ) Unit))
    (st st' : St ((Dist × K × Option (List K)) × List ℤ) Unit Unit ℕ) (hrun : run (dbscan sort dist eps minSamples) grow ops = some st) (i : ℕ) (xs : List X)
    (h : run (dbscan sort dist eps minSamples) grow (ops ++ [.fit i xs ()]) = some st') :
    ∃ v v' r, view st i = some v ∧ view st' i = some v' ∧ Dbscan.fit sort dist v.priv.1.1 v.priv.1.2.1 v.priv.1.2.2 xs ⟨[], []⟩ = some r ∧ v'.priv = (v.priv.1, r.labels) ∧ v'.log = v.log ++ r.core := by
  rw [run_snoc, hrun, Option.bind_some] at h
  obtain ⟨o, a, p, r, t, ho, ht, -, hobj, -, harr, -⟩ := fit_some h
  obtain ⟨hin, -⟩ := inside_run _ grow ops st hrun
  have hext := appendAll_ext grow (dbscan (K := K) (X := X) sort dist eps minSamples).zero t.2.2.1 st.arrays o.log (hin i o ho).1 (hin i o ho).2
  change (Dbscan.fit sort dist o.priv.1.1 o.priv.1.2.1 o.priv.1.2.2 xs ⟨[], []⟩).map _ = some t at ht
  rw [Option.map_eq_some_iff] at ht
  obtain ⟨r', hr', rfl⟩ := ht
  refine ⟨_, _, r', by rw [view, ho, Option.map_some], by rw [view, hobj, Function.update_self, Option.map_some], hr', rfl, ?_⟩
  dsimp only
  rw [harr]
  exact hext.readEq

/-- C165, violation.  In every program: after cloning a DBSCAN, fitting the clone and then the original, the clone's core samples are those found by the original's fit in place of its own, when its own had fitted into the
spare capacity of the array. -/
theorem C165_core_violated (sort : List (Dist × ℕ) → List (Dist × ℕ)) (dist : X → X → Dist) (eps : Dist) (minSamples : K) (grow : ℕ → ℕ) (ops : List (Op (List X) ((Dist × K × Option (List K)) × List ℤ) Unit))
    (st : St ((Dist × K × Option (List K)) × List ℤ) Unit Unit ℕ) (hrun : run (dbscan sort dist eps minSamples) grow ops = some st) (i j : ℕ) (hij : i ≠ j) (o : Obj ((Dist × K × Option (List K)) × List ℤ)) (ho : st.objs i = some o)
    (xs₁ xs₂ : List X) (st₂ st₃ : St ((Dist × K × Option (List K)) × List ℤ) Unit Unit ℕ) (h₂ : run (dbscan sort dist eps minSamples) grow (ops ++ [.clone i j, .fit j xs₂ ()]) = some st₂)
    (h₃ : run (dbscan sort dist eps minSamples) grow (ops ++ [.clone i j, .fit j xs₂ (), .fit i xs₁ ()]) = some st₃) :
    ∃ c₁ c₂, (view st i).map View.log = some (read st.arrays o.log) ∧
      (view st₂ j).map View.log = some (read st.arrays o.log ++ c₂) ∧ (view st₂ i).map View.log = some (read st.arrays o.log) ∧
      (view st₃ i).map View.log = some (read st.arrays o.log ++ c₁) ∧
      (o.log.len + c₂.length ≤ (st.arrays.arr o.log.addr).length → (view st₃ j).map View.log = some (read st.arrays o.log ++ (c₁.take c₂.length ++ c₂.drop c₁.length))) :=
  shared_log _ grow ops st hrun i j hij o ho xs₁ xs₂ () () st₂ st₃ h₂ h₃

/-- C165.  KMeans estimators are independent of their clones: each shows the centroids of its own last fit. -/
theorem C165_kmeans (dist : List K → List K → Dist) (k m : ℕ) (ops : List (TransClone.Op (List (List K) × (ℕ → List ℕ) × ℕ))) (hops : TransClone.FitOnly ops) :
    (TransClone.run (kmeans dist k m) ops).map TransClone.view = TransClone.ownRun (kmeans dist k m) ops :=
  TransClone.C151_fit_partial (kmeans dist k m) (fun _ => rfl) ops hops

/-- C165.  In every program: after a fit a KMeans shows the centroids found for its data (the data come with the order of the additions and a bound on the rounds). -/
theorem C165_kmeans_fit (dist : List K → List K → Dist) (k m : ℕ) (ops : List (TransClone.Op (List (List K) × (ℕ → List ℕ) × ℕ))) (st st' : TransClone.St Unit (List (List K))) (i : ℕ) (d : List (List K) × (ℕ → List ℕ) × ℕ)
    (hrun : TransClone.run (kmeans dist k m) ops = some st) (h : TransClone.run (kmeans dist k m) (ops ++ [.fit i d]) = some st') :
    ∃ c, KMeans.fit dist k m d.1 d.2.1 d.2.2 = some c ∧ TransClone.view st' i = some ((), some c) := by
  obtain ⟨v, r, -, hr, h⟩ := TransClone.alloc_fit _ _ _ ops st st' hrun i d h
  obtain ⟨x, hx, rfl⟩ := Option.map_eq_some_iff.1 hr
  exact ⟨x, hx, h⟩

end Cluster

/-! The witness: points on a line, radius 1, more than 2 neighbours, capacities doubling as in Go.  Three core samples leave room for one more. -/

private def db : Impl (List ℤ) ((ℤ × ℚ × Option (List ℚ)) × List ℤ) Unit Unit ℕ := dbscan (fun l => l.insertionSort (fun a b => a.1 ≤ b.1)) (fun a b => |a - b|) 1 2

private def prog : List (Op (List ℤ) ((ℤ × ℚ × Option (List ℚ)) × List ℤ) Unit) := [.create 0, .fit 0 [0, 0, 0] (), .clone 0 1, .fit 1 [0, -1, 1] ()]

example : NoSource prog := by
  intro i r c h
  simp [prog] at h

/-- Before the original is fitted again the clone has the core samples 0, 1, 2 and 0, afterwards 0, 1, 2 and 1. -/
theorem C165_witness_violated :
    (run db (fun n => n - 1) prog).bind (fun st => (view st 1).map View.log) = some [0, 1, 2, 0] ∧
    (run db (fun n => n - 1) (prog ++ [.fit 0 [-1, 0, 1] ()])).bind (fun st => (view st 1).map View.log) = some [0, 1, 2, 1] := by
  constructor <;> decide +kernel

end Sk.LogClone
