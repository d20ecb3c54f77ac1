import Verif.Model.PipeObj
import Verif.Lemmas.ListX
import Mathlib.Data.List.Induction
import Mathlib.Tactic.NormNum

/-! # C167: pipelines and their clones -/
set_option autoImplicit false

namespace Sk.PipeObj

variable {M E S : Type}

/-! ### Specification -/

/-- What a fitted step hands to the next one: a transformer its transformed X and Y, a predicter with outputs X itself and its prediction. -/
def Passes (I : Kit M E S) (e : E) (d d' : M × M) : Prop :=
  (I.isT e = true ∧ I.transform e d.1 d.2 = some d') ∨
  (I.isT e = false ∧ I.isP e = true ∧ I.nOut e ≠ 0 ∧ ∃ z, I.zeros d.1 (I.nOut e) = some z ∧ I.predict e d.1 z = some d'.2 ∧ d'.1 = d.1)

/-- Each step of the first list is fitted, to a step of the second, with what the fitted steps before it make of the data. -/
inductive FitChain (I : Kit M E S) : List (String × E) → M → M → List (String × E) → Prop
  | nil (x y : M) : FitChain I [] x y []
  | last (n : String) (e e' : E) (x y : M) (h : I.fit e x y = some e') : FitChain I [(n, e)] x y [(n, e')]
  | cons (n : String) (e e' : E) (x y x' y' : M) (p : String × E) (l l' : List (String × E)) (h : I.fit e x y = some e') (hp : Passes I e' (x, y) (x', y')) (ht : FitChain I (p :: l) x' y' l') :
      FitChain I ((n, e) :: p :: l) x y ((n, e') :: l')

/-- The data pass through the steps, the first one first. -/
inductive Through (I : Kit M E S) : List (String × E) → M × M → M × M → Prop
  | nil (d : M × M) : Through I [] d d
  | cons (p : String × E) (l : List (String × E)) (d d' d'' : M × M) (h : Passes I p.2 d d') (ht : Through I l d' d'') : Through I (p :: l) d d''

/-- The targets are taken back through the inverse transforms of the steps, the last one first. -/
inductive Back (I : Kit M E S) : List (String × E) → M → M → Prop
  | nil (y : M) : Back I [] y y
  | snoc (p : String × E) (l : List (String × E)) (y y' y'' : M) (hi : I.isI p.2 = true) (h : I.inverse p.2 y = some y') (ht : Back I l y' y'') : Back I (l ++ [p]) y y''

/-- The clone of a step: of a transformer its `TransformerClone`, of another predicter its `PredicterClone`. -/
def ClonedStep (I : Kit M E S) (p q : String × E) : Prop :=
  q.1 = p.1 ∧ ((I.isT p.2 = true ∧ q.2 = I.tclone p.2) ∨ (I.isT p.2 = false ∧ I.isP p.2 = true ∧ q.2 = I.pclone p.2))

/-- What can be seen of a pipeline: its named steps and `NOutputs`. -/
def view (st : St E) (i : ℕ) : Option (List (String × E) × ℕ) := (st.pipes i).bind (fun o => (stepsOf st o).map (fun l => (l, o.nOut)))

/-- The struct a step variable points to. -/
def viewStep (st : St E) (s : ℕ) : Option E := (st.vars s).bind st.heap

/-- The operation assigns the pipeline variable `j`. -/
def Op.Assigns (j : ℕ) : Op M E → Prop
  | .newPipe i _ => i = j
  | .makePipe i _ => i = j
  | .clone _ k => k = j
  | _ => False

/-- The operation fits the pipeline `j`. -/
def Op.Fits (j : ℕ) : Op M E → Prop
  | .fit i _ _ => i = j
  | _ => False

/-! ### Lemmas -/

theorem passes_iff (I : Kit M E S) (e : E) (x y : M) (d' : M × M) : transformStep I e x y = some d' ↔ Passes I e (x, y) d' := by
  obtain ⟨a, b⟩ := d'
  unfold transformStep Passes
  cases hT : I.isT e <;> cases hP : I.isP e <;> simp [Option.bind_eq_some_iff]
  intro
  constructor
  · rintro ⟨z, hz, hp, rfl⟩; exact ⟨z, hz, hp, rfl⟩
  · rintro ⟨z, hz, hp, rfl⟩; exact ⟨z, hz, hp, rfl⟩

theorem cloned_iff (I : Kit M E S) (n : String) (e c : E) : cloneStep I e = some c ↔ ClonedStep I (n, e) (n, c) := by
  unfold cloneStep ClonedStep
  cases hT : I.isT e <;> cases hP : I.isP e <;> simp [eq_comm]

def deref (h : ℕ → Option E) (l : List (String × ℕ)) : Option (List (String × E)) := l.mapM (fun p => (h p.2).map (fun e => (p.1, e)))

theorem deref_cons (h : ℕ → Option E) (n : String) (a : ℕ) (l : List (String × ℕ)) (L : List (String × E)) :
    deref h ((n, a) :: l) = some L ↔ ∃ e L', h a = some e ∧ deref h l = some L' ∧ L = (n, e) :: L' := by
  simp only [deref, List.mapM_cons, Option.bind_eq_bind, Option.bind_eq_some_iff, Option.map_eq_some_iff, Option.pure_def, Option.some.injEq]
  constructor
  · rintro ⟨_, ⟨e, he, rfl⟩, L', hL, rfl⟩; exact ⟨e, L', he, hL, rfl⟩
  · rintro ⟨e, L', he, hL, rfl⟩; exact ⟨_, ⟨e, he, rfl⟩, L', hL, rfl⟩

theorem deref_congr (h h' : ℕ → Option E) (l : List (String × ℕ)) (heq : ∀ p ∈ l, h' p.2 = h p.2) : deref h' l = deref h l := by
  induction l with
  | nil => rfl
  | cons p l ih =>
    have h1 := heq p (by simp)
    have h2 := ih (fun q hq => heq q (by simp [hq]))
    unfold deref at h2 ⊢
    rw [List.mapM_cons, List.mapM_cons, h1, h2]

theorem deref_length (h : ℕ → Option E) (l : List (String × ℕ)) (L : List (String × E)) (hd : deref h l = some L) : L.length = l.length :=
  (((ListX.mapM_forall2 _ l L).1 hd).length_eq).symm

theorem deref_some (h : ℕ → Option E) (l : List (String × ℕ)) (hs : ∀ p ∈ l, (h p.2).isSome) : ∃ L, deref h l = some L := by
  induction l with
  | nil => exact ⟨[], rfl⟩
  | cons p l ih =>
    obtain ⟨L, hL⟩ := ih (fun q hq => hs q (by simp [hq]))
    obtain ⟨e, he⟩ := Option.isSome_iff_exists.1 (hs p (by simp))
    exact ⟨(p.1, e) :: L, (deref_cons h p.1 p.2 l _).2 ⟨e, L, he, hL, rfl⟩⟩

theorem fitLoop_frame (I : Kit M E S) : ∀ (as : List ℕ) (x y : M) (h h' : ℕ → Option E), fitLoop I as x y h = some h' → (∀ b, b ∉ as → h' b = h b) ∧ (∀ b, (h b).isSome → (h' b).isSome) := by
  intro as
  induction as with
  | nil => intro x y h h' hf; cases hf; exact ⟨fun _ _ => rfl, fun _ h => h⟩
  | cons a as ih =>
    intro x y h h' hf
    cases as with
    | nil =>
      simp only [fitLoop, Option.bind_eq_some_iff, Option.map_eq_some_iff] at hf
      obtain ⟨e, he, e', he', rfl⟩ := hf
      refine ⟨fun b hb => Function.update_of_ne (by simpa using hb) _ _, fun b hb => ?_⟩
      by_cases hba : b = a
      · subst hba; rw [Function.update_self]; rfl
      · rwa [Function.update_of_ne hba]
    | cons b as =>
      simp only [fitLoop, Option.bind_eq_some_iff] at hf
      obtain ⟨e, he, e', he', t, ht, hf⟩ := hf
      obtain ⟨h1, h2⟩ := ih t.1 t.2 _ h' hf
      refine ⟨fun c hc => ?_, fun c hc => h2 c ?_⟩
      · rw [List.mem_cons, not_or] at hc
        rw [h1 c hc.2, Function.update_of_ne hc.1]
      · by_cases hca : c = a
        · subst hca; rw [Function.update_self]; rfl
        · rwa [Function.update_of_ne hca]

/-- With different steps the loop of `Fit` fits the chain. -/
theorem fitLoop_chain (I : Kit M E S) : ∀ (l : List (String × ℕ)) (x y : M) (h : ℕ → Option E) (L : List (String × E)), (l.map Prod.snd).Nodup → deref h l = some L →
    (∀ h', fitLoop I (l.map Prod.snd) x y h = some h' → ∃ L', deref h' l = some L' ∧ FitChain I L x y L') ∧
    (∀ L', FitChain I L x y L' → ∃ h', fitLoop I (l.map Prod.snd) x y h = some h') := by
  intro l
  induction l with
  | nil =>
    intro x y h L _ hd
    cases hd
    exact ⟨fun h' hf => ⟨[], rfl, .nil x y⟩, fun L' _ => ⟨h, rfl⟩⟩
  | cons p l ih =>
    intro x y h L hn hd
    obtain ⟨n, a⟩ := p
    obtain ⟨e, L0, he, hL0, rfl⟩ := (deref_cons h n a l L).1 hd
    cases l with
    | nil =>
      cases hL0
      refine ⟨fun h' hf => ?_, fun L' hc => ?_⟩
      · simp only [List.map_cons, List.map_nil, fitLoop, he, Option.bind_some, Option.map_eq_some_iff] at hf
        obtain ⟨e', he', rfl⟩ := hf
        exact ⟨[(n, e')], (deref_cons _ n a [] _).2 ⟨e', [], Function.update_self .., rfl, rfl⟩, .last n e e' x y he'⟩
      · cases hc with
        | last n e e' x y h1 => exact ⟨_, by simp only [List.map_cons, List.map_nil, fitLoop, he, Option.bind_some, h1, Option.map_some]; rfl⟩
    | cons q l =>
      have hna : a ∉ (q :: l).map Prod.snd := (List.nodup_cons.1 hn).1
      have hn' := (List.nodup_cons.1 hn).2
      have hupd : ∀ v, deref (Function.update h a v) (q :: l) = some L0 := fun v => by
        rw [deref_congr h _ (q :: l) (fun r hr => Function.update_of_ne (fun (hc : r.2 = a) => hna (List.mem_map.2 ⟨r, hr, hc⟩)) _ _), hL0]
      obtain ⟨m, b⟩ := q
      obtain ⟨eb, L1, heb, hL1, rfl⟩ := (deref_cons h m b l L0).1 hL0
      refine ⟨fun h' hf => ?_, fun L' hc => ?_⟩
      · simp only [List.map_cons, fitLoop, he, Option.bind_some, Option.bind_eq_some_iff] at hf
        obtain ⟨e', he', t, ht, hf⟩ := hf
        obtain ⟨L', hL', hC⟩ := (ih t.1 t.2 (Function.update h a (some e')) _ hn' (hupd _)).1 h' hf
        refine ⟨(n, e') :: L', (deref_cons h' n a _ _).2 ⟨e', L', ?_, hL', rfl⟩, .cons n e e' x y t.1 t.2 _ _ _ he' ((passes_iff I e' x y t).1 ht) hC⟩
        rw [(fitLoop_frame I _ _ _ _ _ hf).1 a hna, Function.update_self]
      · cases hc with
        | cons n e e' x y x' y' p l0 l' h1 hp hC =>
          obtain ⟨h', hf⟩ := (ih x' y' (Function.update h a (some e')) _ hn' (hupd _)).2 l' hC
          refine ⟨h', ?_⟩
          simp only [List.map_cons, fitLoop, he, Option.bind_some, h1, (passes_iff I e' x y (x', y')).2 hp]
          exact hf

theorem cloneLoop_spec (I : Kit M E S) : ∀ (l : List (String × ℕ)) (h : ℕ → Option E) (f : ℕ) (L : List (String × E)), (∀ p ∈ l, p.2 < f) → deref h l = some L →
    (∀ r, cloneLoop I l h f = some r → r.2.2 = f + l.length ∧ r.1.map Prod.snd = List.range' f l.length ∧ (∀ b, b < f → r.2.1 b = h b) ∧
      (∀ b, f ≤ b → b < f + l.length → (r.2.1 b).isSome) ∧
      ∃ L', deref r.2.1 r.1 = some L' ∧ List.Forall₂ (ClonedStep I) L L') ∧
    (cloneLoop I l h f = none ↔ ∃ p ∈ L, I.isT p.2 = false ∧ I.isP p.2 = false) := by
  intro l
  induction l with
  | nil =>
    intro h f L _ hd
    cases hd
    refine ⟨fun r hr => ?_, by simp [cloneLoop]⟩
    cases hr
    exact ⟨rfl, rfl, fun _ _ => rfl, fun b h1 h2 => absurd h2 (by simpa using h1), [], rfl, .nil⟩
  | cons p l ih =>
    intro h f L hlt hd
    obtain ⟨n, a⟩ := p
    obtain ⟨e, L0, he, hL0, rfl⟩ := (deref_cons h n a l L).1 hd
    have hlt' : ∀ p ∈ l, p.2 < f + 1 := fun p hp => Nat.lt_succ_of_lt (hlt p (by simp [hp]))
    have hupd : ∀ v, deref (Function.update h f v) l = some L0 := fun v => by
      rw [deref_congr h _ l (fun r hr => Function.update_of_ne (Nat.ne_of_lt (hlt r (by simp [hr]))) _ _), hL0]
    refine ⟨fun r hr => ?_, ?_⟩
    · simp only [cloneLoop, he, Option.bind_some, Option.bind_eq_some_iff, Option.map_eq_some_iff] at hr
      obtain ⟨c, hc, r, hr, rfl⟩ := hr
      obtain ⟨h1, h2, h3, h4, L', hL', hF⟩ := (ih _ (f + 1) L0 hlt' (hupd (some c))).1 r hr
      have hf : r.2.1 f = some c := by rw [h3 f (Nat.lt_succ_self f), Function.update_self]
      refine ⟨by dsimp only; rw [h1, List.length_cons]; omega, by simp only [List.map_cons, h2, List.length_cons, List.range'_succ], fun b hb => ?_, fun b hb1 hb2 => ?_,
        (n, c) :: L', (deref_cons _ n f r.1 _).2 ⟨c, L', hf, hL', rfl⟩, .cons ((cloned_iff I n e c).1 hc) hF⟩
      · dsimp only; rw [h3 b (Nat.lt_succ_of_lt hb), Function.update_of_ne (Nat.ne_of_lt hb)]
      · dsimp only
        rcases Nat.eq_or_lt_of_le hb1 with rfl | hb
        · rw [hf]; rfl
        · exact h4 b hb (by rw [List.length_cons] at hb2; omega)
    · simp only [cloneLoop, he, Option.bind_some, List.mem_cons, exists_eq_or_imp]
      cases hc : cloneStep I e with
      | none =>
        simp only [Option.bind_none, true_iff]
        left
        unfold cloneStep at hc
        revert hc
        cases I.isT e <;> cases I.isP e <;> simp
      | some c =>
        rw [Option.bind_some, Option.map_eq_none_iff, (ih _ (f + 1) L0 hlt' (hupd (some c))).2]
        constructor
        · exact Or.inr
        · rintro (⟨hT, hP⟩ | h)
          · simp [cloneStep, hT, hP] at hc
          · exact h

/-! ### Reachable states -/

structure Inv (st : St E) : Prop where
  vars : ∀ (s : ℕ) a, st.vars s = some a → a < st.hfree
  heap : ∀ a : ℕ, a < st.hfree → (st.heap a).isSome
  slices : ∀ (s : ℕ) b, st.slices s = some b → b < st.afree
  pipes : ∀ (i : ℕ) o, st.pipes i = some o → o.steps < st.afree
  arrs : ∀ b : ℕ, b < st.afree → (st.arrs b).isSome
  elems : ∀ (b : ℕ) l, st.arrs b = some l → ∀ p ∈ l, p.2 < st.hfree

/-- The steps of pipeline `j`, in the array `b`, are reached from `j` only, and are different. -/
structure Priv (st : St E) (j b : ℕ) (l : List (String × ℕ)) : Prop where
  pipe : ∃ n, st.pipes j = some ⟨b, n⟩
  arr : st.arrs b = some l
  nodup : (l.map Prod.snd).Nodup
  slices : ∀ s : ℕ, st.slices s ≠ some b
  pipes : ∀ (i : ℕ) o, i ≠ j → st.pipes i = some o → o.steps ≠ b
  vars : ∀ p ∈ l, ∀ s : ℕ, st.vars s ≠ some p.2
  elems : ∀ p ∈ l, ∀ (c : ℕ) l', c ≠ b → st.arrs c = some l' → ∀ q ∈ l', q.2 ≠ p.2

theorem resolve_mem (vars : ℕ → Option ℕ) (l l' : List (String × ℕ)) (h : resolve vars l = some l') : ∀ p ∈ l', ∃ s, vars s = some p.2 := by
  have h2 := (ListX.mapM_forall2 _ l l').1 h
  induction h2 with
  | nil => simp
  | cons hab hF ih =>
    intro p hp
    obtain ⟨a, ha, rfl⟩ := Option.map_eq_some_iff.1 hab
    rcases List.mem_cons.1 hp with rfl | hp
    · exact ⟨_, ha⟩
    · exact ih ((ListX.mapM_forall2 _ _ _).2 hF) p hp

theorem inv_init : Inv (init : St E) := by
  refine ⟨?_, ?_, ?_, ?_, ?_, ?_⟩ <;> simp [init]

theorem upd_cases {B : Type} {f : ℕ → Option B} {i k : ℕ} {v w : B} (h : Function.update f i (some v) k = some w) : (k = i ∧ w = v) ∨ (k ≠ i ∧ f k = some w) := by
  by_cases hk : k = i
  · subst hk; rw [Function.update_self] at h; exact .inl ⟨rfl, (Option.some.inj h).symm⟩
  · rw [Function.update_of_ne hk] at h; exact .inr ⟨hk, h⟩

theorem upd_isSome {B : Type} {f : ℕ → Option B} {i : ℕ} {v : B} {n : ℕ} (h : ∀ a, a < n → (f a).isSome) (a : ℕ) (ha : a < n ∨ a = i) : (Function.update f i (some v) a).isSome := by
  by_cases hk : a = i
  · subst hk; rw [Function.update_self]; rfl
  · rw [Function.update_of_ne hk]; exact h a (ha.resolve_right hk)

theorem inv_deref (st : St E) (hI : Inv st) (b : ℕ) (l : List (String × ℕ)) (hb : st.arrs b = some l) : ∃ L, deref st.heap l = some L :=
  deref_some _ _ (fun p hp => hI.heap _ (hI.elems b l hb p hp))

theorem mem_range'_snd {l : List (String × ℕ)} {f n : ℕ} (h : l.map Prod.snd = List.range' f n) (p : String × ℕ) (hp : p ∈ l) : f ≤ p.2 ∧ p.2 < f + n := by
  have := List.mem_map_of_mem (f := Prod.snd) hp
  rw [h, List.mem_range'_1] at this
  exact this

theorem inv_step (I : Kit M E S) (st st' : St E) (op : Op M E) (hI : Inv st) (h : step I st op = some st') : Inv st' := by
  cases op with
  | step s e =>
    simp only [step, Option.some.injEq] at h; subst h
    refine ⟨fun t a ht => ?_, fun a ha => upd_isSome hI.heap a (by dsimp only at ha; omega), hI.slices, hI.pipes, hI.arrs, fun b l hb p hp => Nat.lt_succ_of_lt (hI.elems b l hb p hp)⟩
    rcases upd_cases ht with ⟨-, rfl⟩ | ⟨-, ht⟩
    · exact Nat.lt_succ_self _
    · exact Nat.lt_succ_of_lt (hI.vars t a ht)
  | slice a l =>
    simp only [step, Option.map_eq_some_iff] at h
    obtain ⟨l', hl', rfl⟩ := h
    refine ⟨hI.vars, hI.heap, fun s b hb => ?_, fun i o ho => Nat.lt_succ_of_lt (hI.pipes i o ho), fun b hb => upd_isSome hI.arrs b (by dsimp only at hb; omega), fun b l0 hb p hp => ?_⟩
    · rcases upd_cases hb with ⟨-, rfl⟩ | ⟨-, hb⟩
      · exact Nat.lt_succ_self _
      · exact Nat.lt_succ_of_lt (hI.slices s b hb)
    · rcases upd_cases hb with ⟨-, rfl⟩ | ⟨-, hb⟩
      · obtain ⟨s, hs⟩ := resolve_mem _ _ _ hl' p hp
        exact hI.vars s _ hs
      · exact hI.elems b l0 hb p hp
  | setElem a k n s =>
    simp only [step, Option.bind_eq_some_iff] at h
    obtain ⟨b, hb, l, hl, q, hq, h⟩ := h
    split at h
    · cases h
      refine ⟨hI.vars, hI.heap, hI.slices, hI.pipes, fun c hc => upd_isSome hI.arrs c (.inl hc), fun c l0 hc p hp => ?_⟩
      rcases upd_cases hc with ⟨-, rfl⟩ | ⟨-, hc⟩
      · rcases List.mem_or_eq_of_mem_set hp with hp | rfl
        · exact hI.elems b l hl p hp
        · exact hI.vars s q hq
      · exact hI.elems c l0 hc p hp
    · exact absurd h (by simp)
  | newPipe i a =>
    simp only [step, Option.map_eq_some_iff] at h
    obtain ⟨b, hb, rfl⟩ := h
    refine ⟨hI.vars, hI.heap, hI.slices, fun k o ho => ?_, hI.arrs, hI.elems⟩
    rcases upd_cases ho with ⟨-, rfl⟩ | ⟨-, ho⟩
    · exact hI.slices a b hb
    · exact hI.pipes k o ho
  | makePipe i l =>
    simp only [step, Option.map_eq_some_iff] at h
    obtain ⟨l', hl', rfl⟩ := h
    refine ⟨hI.vars, hI.heap, fun s b hb => Nat.lt_succ_of_lt (hI.slices s b hb), fun k o ho => ?_, fun b hb => upd_isSome hI.arrs b (by dsimp only at hb; omega), fun b l0 hb p hp => ?_⟩
    · rcases upd_cases ho with ⟨-, rfl⟩ | ⟨-, ho⟩
      · exact Nat.lt_succ_self _
      · exact Nat.lt_succ_of_lt (hI.pipes k o ho)
    · rcases upd_cases hb with ⟨-, rfl⟩ | ⟨-, hb⟩
      · obtain ⟨s, hs⟩ := resolve_mem _ _ _ hl' p hp
        exact hI.vars s _ hs
      · exact hI.elems b l0 hb p hp
  | clone i j =>
    simp only [step, clone, Option.bind_eq_some_iff, Option.map_eq_some_iff] at h
    obtain ⟨o, ho, l, hl, r, hr, rfl⟩ := h
    obtain ⟨L, hL⟩ := inv_deref st hI _ l hl
    obtain ⟨h1, h2, h3, h4, -⟩ := (cloneLoop_spec I l st.heap st.hfree L (hI.elems _ l hl) hL).1 r hr
    refine ⟨fun s a hs => ?_, fun a ha => ?_, fun s b hb => Nat.lt_succ_of_lt (hI.slices s b hb), fun k o' ho' => ?_, fun b hb => upd_isSome hI.arrs b (by dsimp only at hb; omega), fun b l0 hb p hp => ?_⟩
    · dsimp only; rw [h1]; exact Nat.lt_add_right _ (hI.vars s a hs)
    · dsimp only at ha ⊢
      by_cases haf : a < st.hfree
      · rw [h3 a haf]; exact hI.heap a haf
      · exact h4 a (by omega) (by omega)
    · rcases upd_cases ho' with ⟨-, rfl⟩ | ⟨-, ho'⟩
      · exact Nat.lt_succ_self _
      · exact Nat.lt_succ_of_lt (hI.pipes k o' ho')
    · dsimp only; rw [h1]
      rcases upd_cases hb with ⟨-, rfl⟩ | ⟨-, hb⟩
      · exact (mem_range'_snd h2 p hp).2
      · exact Nat.lt_add_right _ (hI.elems b l0 hb p hp)
  | fit i x y =>
    simp only [step, fit, Option.bind_eq_some_iff, Option.map_eq_some_iff] at h
    obtain ⟨o, ho, l, hl, h', hf, rfl⟩ := h
    refine ⟨hI.vars, fun a ha => (fitLoop_frame I _ _ _ _ _ hf).2 a (hI.heap a ha), hI.slices, fun k o' ho' => ?_, hI.arrs, hI.elems⟩
    rcases upd_cases ho' with ⟨-, rfl⟩ | ⟨-, ho'⟩
    · exact hI.pipes i o ho
    · exact hI.pipes k o' ho'
  | fitStep s x y =>
    simp only [step, Option.bind_eq_some_iff, Option.map_eq_some_iff] at h
    obtain ⟨a, ha, e, he, e', he', rfl⟩ := h
    exact ⟨hI.vars, fun b hb => upd_isSome hI.heap b (.inl hb), hI.slices, hI.pipes, hI.arrs, hI.elems⟩

theorem run_snoc (I : Kit M E S) (ops : List (Op M E)) (op : Op M E) : run I (ops ++ [op]) = (run I ops).bind (fun st => step I st op) := by
  simp only [run, List.foldlM_append, List.foldlM_cons, List.foldlM_nil, Option.bind_eq_bind]
  congr 1
  funext st
  cases step I st op <;> rfl

theorem inv_run (I : Kit M E S) (ops : List (Op M E)) : ∀ st, run I ops = some st → Inv st := by
  induction ops using List.reverseRecOn with
  | nil => intro st h; cases h; exact inv_init
  | append_singleton ops op ih =>
    intro st h
    rw [run_snoc, Option.bind_eq_some_iff] at h
    obtain ⟨st0, h0, h1⟩ := h
    exact inv_step I st0 st op (ih st0 h0) h1

theorem view_of (st : St E) (j b n : ℕ) (l : List (String × ℕ)) (hp : st.pipes j = some ⟨b, n⟩) (ha : st.arrs b = some l) : view st j = (deref st.heap l).map (fun L => (L, n)) := by
  simp only [view, hp, Option.bind_some, stepsOf, ha]
  rfl

theorem view_congr (st st' : St E) (j b n : ℕ) (l : List (String × ℕ)) (hp : st.pipes j = some ⟨b, n⟩) (ha : st.arrs b = some l) (hp' : st'.pipes j = some ⟨b, n⟩) (ha' : st'.arrs b = some l)
    (hh : ∀ p ∈ l, st'.heap p.2 = st.heap p.2) : view st' j = view st j := by
  rw [view_of st j b n l hp ha, view_of st' j b n l hp' ha', deref_congr st.heap st'.heap l hh]

/-- Operations that do not assign a private pipeline keep it private; only its own fits change it, and these change nothing else. -/
theorem priv_step (I : Kit M E S) (st st' : St E) (op : Op M E) (j b : ℕ) (l : List (String × ℕ)) (hI : Inv st) (hP : Priv st j b l) (hA : ¬ op.Assigns j) (h : step I st op = some st') :
    Priv st' j b l ∧ (¬ op.Fits j → view st' j = view st j) ∧ (op.Fits j → (∀ k, k ≠ j → view st' k = view st k) ∧ (∀ s, viewStep st' s = viewStep st s)) := by
  obtain ⟨n, hn⟩ := hP.pipe
  have hbl : b < st.afree := hI.pipes j _ hn
  have hltl : ∀ p ∈ l, p.2 < st.hfree := hI.elems b l hP.arr
  cases op with
  | step s e =>
    simp only [step, Option.some.injEq] at h; subst h
    refine ⟨⟨⟨n, hn⟩, hP.arr, hP.nodup, hP.slices, hP.pipes, fun p hp t ht => ?_, hP.elems⟩, fun _ => ?_, fun hF => absurd hF id⟩
    · rcases upd_cases ht with ⟨-, he⟩ | ⟨-, ht⟩
      · have := hltl p hp; omega
      · exact hP.vars p hp t ht
    · exact view_congr st _ j b n l hn hP.arr hn hP.arr (fun p hp => Function.update_of_ne (Nat.ne_of_lt (hltl p hp)) _ _)
  | slice a l1 =>
    simp only [step, Option.map_eq_some_iff] at h
    obtain ⟨l', hl', rfl⟩ := h
    have harr : Function.update st.arrs st.afree (some l') b = some l := by rw [Function.update_of_ne (Nat.ne_of_lt hbl)]; exact hP.arr
    refine ⟨⟨⟨n, hn⟩, harr, hP.nodup, fun s hs => ?_, hP.pipes, hP.vars, fun p hp c l0 hc hl0 q hq => ?_⟩, fun _ => ?_, fun hF => absurd hF id⟩
    · rcases upd_cases hs with ⟨-, he⟩ | ⟨-, hs⟩
      · omega
      · exact hP.slices s hs
    · rcases upd_cases hl0 with ⟨-, rfl⟩ | ⟨-, hl0⟩
      · obtain ⟨s, hs⟩ := resolve_mem _ _ _ hl' q hq
        exact fun he => hP.vars p hp s (he ▸ hs)
      · exact hP.elems p hp c l0 hc hl0 q hq
    · exact view_congr st _ j b n l hn hP.arr hn harr (fun _ _ => rfl)
  | setElem a k m s =>
    simp only [step, Option.bind_eq_some_iff] at h
    obtain ⟨c, hc, l1, hl1, q, hq, h⟩ := h
    split at h
    · cases h
      have hcb : b ≠ c := fun he => hP.slices a (he ▸ hc)
      have harr : Function.update st.arrs c (some (l1.set k (m, q))) b = some l := by rw [Function.update_of_ne hcb]; exact hP.arr
      refine ⟨⟨⟨n, hn⟩, harr, hP.nodup, hP.slices, hP.pipes, hP.vars, fun p hp c' l0 hc' hl0 r hr => ?_⟩, fun _ => ?_, fun hF => absurd hF id⟩
      · rcases upd_cases hl0 with ⟨-, rfl⟩ | ⟨-, hl0⟩
        · rcases List.mem_or_eq_of_mem_set hr with hr | rfl
          · exact hP.elems p hp c l1 (Ne.symm hcb) hl1 r hr
          · exact fun he => hP.vars p hp s (by rw [hq, ← he])
        · exact hP.elems p hp c' l0 hc' hl0 r hr
      · exact view_congr st _ j b n l hn hP.arr hn harr (fun _ _ => rfl)
    · exact absurd h (by simp)
  | newPipe i a =>
    simp only [step, Option.map_eq_some_iff] at h
    obtain ⟨c, hc, rfl⟩ := h
    have hij : j ≠ i := fun he => hA he.symm
    have hn' : Function.update st.pipes i (some ⟨c, 0⟩) j = some ⟨b, n⟩ := by rw [Function.update_of_ne hij]; exact hn
    refine ⟨⟨⟨n, hn'⟩, hP.arr, hP.nodup, hP.slices, fun k o hk ho => ?_, hP.vars, hP.elems⟩, fun _ => ?_, fun hF => absurd hF id⟩
    · rcases upd_cases ho with ⟨-, rfl⟩ | ⟨-, ho⟩
      · exact fun he => hP.slices a (he ▸ hc)
      · exact hP.pipes k o hk ho
    · exact view_congr st _ j b n l hn hP.arr hn' hP.arr (fun _ _ => rfl)
  | makePipe i l1 =>
    simp only [step, Option.map_eq_some_iff] at h
    obtain ⟨l', hl', rfl⟩ := h
    have hij : j ≠ i := fun he => hA he.symm
    have hn' : Function.update st.pipes i (some ⟨st.afree, 0⟩) j = some ⟨b, n⟩ := by rw [Function.update_of_ne hij]; exact hn
    have harr : Function.update st.arrs st.afree (some l') b = some l := by rw [Function.update_of_ne (Nat.ne_of_lt hbl)]; exact hP.arr
    refine ⟨⟨⟨n, hn'⟩, harr, hP.nodup, hP.slices, fun k o hk ho => ?_, hP.vars, fun p hp c l0 hc hl0 q hq => ?_⟩, fun _ => ?_, fun hF => absurd hF id⟩
    · rcases upd_cases ho with ⟨-, rfl⟩ | ⟨-, ho⟩
      · exact Nat.ne_of_gt hbl
      · exact hP.pipes k o hk ho
    · rcases upd_cases hl0 with ⟨-, rfl⟩ | ⟨-, hl0⟩
      · obtain ⟨s, hs⟩ := resolve_mem _ _ _ hl' q hq
        exact fun he => hP.vars p hp s (he ▸ hs)
      · exact hP.elems p hp c l0 hc hl0 q hq
    · exact view_congr st _ j b n l hn hP.arr hn' harr (fun _ _ => rfl)
  | clone i k =>
    simp only [step, clone, Option.bind_eq_some_iff, Option.map_eq_some_iff] at h
    obtain ⟨o, ho, l1, hl1, r, hr, rfl⟩ := h
    obtain ⟨L, hL⟩ := inv_deref st hI _ l1 hl1
    obtain ⟨h1, h2, h3, h4, -⟩ := (cloneLoop_spec I l1 st.heap st.hfree L (hI.elems _ l1 hl1) hL).1 r hr
    have hij : j ≠ k := fun he => hA he.symm
    have hn' : Function.update st.pipes k (some { o with steps := st.afree }) j = some ⟨b, n⟩ := by rw [Function.update_of_ne hij]; exact hn
    have harr : Function.update st.arrs st.afree (some r.1) b = some l := by rw [Function.update_of_ne (Nat.ne_of_lt hbl)]; exact hP.arr
    refine ⟨⟨⟨n, hn'⟩, harr, hP.nodup, hP.slices, fun i' o' hk ho' => ?_, hP.vars, fun p hp c l0 hc hl0 q hq => ?_⟩, fun _ => ?_, fun hF => absurd hF id⟩
    · rcases upd_cases ho' with ⟨-, rfl⟩ | ⟨-, ho'⟩
      · exact Nat.ne_of_gt hbl
      · exact hP.pipes i' o' hk ho'
    · rcases upd_cases hl0 with ⟨-, rfl⟩ | ⟨-, hl0⟩
      · have := (mem_range'_snd h2 q hq).1
        have := hltl p hp
        omega
      · exact hP.elems p hp c l0 hc hl0 q hq
    · exact view_congr st _ j b n l hn hP.arr hn' harr (fun p hp => h3 p.2 (hltl p hp))
  | fit i x y =>
    simp only [step, fit, Option.bind_eq_some_iff, Option.map_eq_some_iff] at h
    obtain ⟨o, ho, l1, hl1, h', hf, rfl⟩ := h
    have hfr := (fitLoop_frame I _ _ _ _ _ hf).1
    by_cases hij : i = j
    · subst hij
      rw [hn] at ho; cases ho
      rw [hP.arr] at hl1; cases hl1
      refine ⟨⟨⟨I.cols y, by dsimp only; rw [Function.update_self]⟩, hP.arr, hP.nodup, hP.slices, fun k o hk ho => ?_, hP.vars, hP.elems⟩, fun hF => absurd rfl hF, fun _ => ⟨fun k hk => ?_, fun s => ?_⟩⟩
      · rcases upd_cases ho with ⟨hc, -⟩ | ⟨-, ho⟩
        · exact absurd hc hk
        · exact hP.pipes k o hk ho
      · unfold view
        dsimp only
        rw [Function.update_of_ne hk]
        cases hpk : st.pipes k with
        | none => rfl
        | some o =>
          simp only [Option.bind_some, stepsOf]
          cases hao : st.arrs o.steps with
          | none => rfl
          | some l2 =>
            simp only [Option.bind_some]
            have hob := hP.pipes k o hk hpk
            show (deref h' l2).map _ = (deref st.heap l2).map _
            rw [deref_congr st.heap h' l2 (fun q hq => hfr q.2 (fun hm => ?_))]
            obtain ⟨p, hp, he⟩ := List.mem_map.1 hm
            exact hP.elems p hp o.steps l2 hob hao q hq he.symm
      · unfold viewStep
        dsimp only
        cases hs : st.vars s with
        | none => rfl
        | some a =>
          refine hfr a (fun hm => ?_)
          obtain ⟨p, hp, he⟩ := List.mem_map.1 hm
          exact hP.vars p hp s (he ▸ hs)
    · have hn' : Function.update st.pipes i (some { o with nOut := I.cols y }) j = some ⟨b, n⟩ := by rw [Function.update_of_ne (Ne.symm hij)]; exact hn
      have hob := hP.pipes i o hij ho
      refine ⟨⟨⟨n, hn'⟩, hP.arr, hP.nodup, hP.slices, fun k o' hk ho' => ?_, hP.vars, hP.elems⟩, fun _ => ?_, fun hF => absurd hF hij⟩
      · rcases upd_cases ho' with ⟨-, rfl⟩ | ⟨-, ho'⟩
        · exact hob
        · exact hP.pipes k o' hk ho'
      · refine view_congr st _ j b n l hn hP.arr hn' hP.arr (fun p hp => hfr p.2 (fun hm => ?_))
        obtain ⟨q, hq, he⟩ := List.mem_map.1 hm
        exact hP.elems p hp o.steps l1 hob hl1 q hq he
  | fitStep s x y =>
    simp only [step, Option.bind_eq_some_iff, Option.map_eq_some_iff] at h
    obtain ⟨a, ha, e, he, e', he', rfl⟩ := h
    refine ⟨⟨⟨n, hn⟩, hP.arr, hP.nodup, hP.slices, hP.pipes, hP.vars, hP.elems⟩, fun _ => ?_, fun hF => absurd hF id⟩
    exact view_congr st _ j b n l hn hP.arr hn hP.arr (fun p hp => Function.update_of_ne (fun hc => hP.vars p hp s (by rw [ha, hc])) _ _)

/-- A clone is private and shows the clones of the steps. -/
theorem clone_priv (I : Kit M E S) (st st' : St E) (i j : ℕ) (hI : Inv st) (h : step I st (.clone i j) = some st') :
    (∃ b l, Priv st' j b l) ∧ (∃ L n L', view st i = some (L, n) ∧ view st' j = some (L', n) ∧ List.Forall₂ (ClonedStep I) L L') ∧ (∀ k, k ≠ j → view st' k = view st k) ∧ (∀ s, viewStep st' s = viewStep st s) := by
  simp only [step, clone, Option.bind_eq_some_iff, Option.map_eq_some_iff] at h
  obtain ⟨o, ho, l1, hl1, r, hr, rfl⟩ := h
  obtain ⟨L, hL⟩ := inv_deref st hI _ l1 hl1
  obtain ⟨h1, h2, h3, h4, L', hL', hF⟩ := (cloneLoop_spec I l1 st.heap st.hfree L (hI.elems _ l1 hl1) hL).1 r hr
  have hpj : Function.update st.pipes j (some { o with steps := st.afree }) j = some ⟨st.afree, o.nOut⟩ := Function.update_self ..
  have haj : Function.update st.arrs st.afree (some r.1) st.afree = some r.1 := Function.update_self ..
  refine ⟨⟨st.afree, r.1, ⟨o.nOut, hpj⟩, haj, ?_, fun s hs => ?_, fun k o' hk ho' => ?_, fun p hp s hs => ?_, fun p hp c l0 hc hl0 q hq => ?_⟩, ⟨L, o.nOut, L', ?_, ?_, hF⟩, fun k hk => ?_, fun s => ?_⟩
  · rw [h2]; exact List.nodup_range'
  · exact absurd (hI.slices s _ hs) (Nat.lt_irrefl _)
  · rcases upd_cases ho' with ⟨hc, -⟩ | ⟨-, ho'⟩
    · exact absurd hc hk
    · exact Nat.ne_of_lt (hI.pipes k o' ho')
  · have := hI.vars s _ hs
    have := (mem_range'_snd h2 p hp).1
    omega
  · rcases upd_cases hl0 with ⟨hc', -⟩ | ⟨-, hl0⟩
    · exact absurd hc' hc
    · have := hI.elems c l0 hl0 q hq
      have := (mem_range'_snd h2 p hp).1
      omega
  · rw [view_of st i o.steps o.nOut l1 ho hl1, hL]; rfl
  · rw [view_of _ j st.afree o.nOut r.1 hpj haj]
    dsimp only
    rw [hL']; rfl
  · unfold view
    dsimp only
    rw [Function.update_of_ne hk]
    cases hpk : st.pipes k with
    | none => rfl
    | some o' =>
      simp only [Option.bind_some, stepsOf]
      have hlt := hI.pipes k o' hpk
      rw [Function.update_of_ne (Nat.ne_of_lt hlt)]
      cases hao : st.arrs o'.steps with
      | none => rfl
      | some l2 =>
        simp only [Option.bind_some]
        show (deref r.2.1 l2).map _ = (deref st.heap l2).map _
        rw [deref_congr st.heap r.2.1 l2 (fun q hq => h3 q.2 (hI.elems _ l2 hao q hq))]
  · unfold viewStep
    dsimp only
    cases hs : st.vars s with
    | none => rfl
    | some a => exact h3 a (hI.vars s a hs)

theorem priv_run (I : Kit M E S) (st : St E) (j b : ℕ) (l : List (String × ℕ)) (hI : Inv st) (hP : Priv st j b l) (ops : List (Op M E)) : ∀ st', (∀ op ∈ ops, ¬ op.Assigns j) → ops.foldlM (step I) st = some st' →
    Inv st' ∧ Priv st' j b l ∧ ((∀ op ∈ ops, ¬ op.Fits j) → view st' j = view st j) := by
  induction ops using List.reverseRecOn with
  | nil => intro st' _ h; cases h; exact ⟨hI, hP, fun _ => rfl⟩
  | append_singleton ops op ih =>
    intro st' hA h
    simp only [List.foldlM_append, List.foldlM_cons, List.foldlM_nil, Option.bind_eq_bind, Option.bind_eq_some_iff, Option.pure_def, Option.some.injEq] at h
    obtain ⟨st1, h1, _, h2, rfl⟩ := h
    obtain ⟨hI1, hP1, hv⟩ := ih st1 (fun o ho => hA o (by simp [ho])) h1
    obtain ⟨hP2, hv2, -⟩ := priv_step I st1 _ op j b l hI1 hP1 (hA op (by simp)) h2
    exact ⟨inv_step I st1 _ op hI1 h2, hP2, fun hF => by rw [hv2 (hF op (by simp)), hv (fun o ho => hF o (by simp [ho]))]⟩

theorem run_append (I : Kit M E S) (ops ops' : List (Op M E)) : run I (ops ++ ops') = (run I ops).bind (fun st => ops'.foldlM (step I) st) := by
  simp only [run, List.foldlM_append, Option.bind_eq_bind]

/-! ### Properties -/

/-- **C167 (clones).** In any program: `j := i.PredicterClone()` makes a pipeline of the same names, with clones of the steps and the same `NOutputs`; no other pipeline and no step changes. -/
theorem C167_clone (I : Kit M E S) (ops : List (Op M E)) (st st' : St E) (i j : ℕ) (hrun : run I ops = some st) (h : run I (ops ++ [.clone i j]) = some st') :
    (∃ L n L', view st i = some (L, n) ∧ view st' j = some (L', n) ∧ List.Forall₂ (ClonedStep I) L L') ∧ (∀ k, k ≠ j → view st' k = view st k) ∧ (∀ s, viewStep st' s = viewStep st s) := by
  rw [run_snoc, hrun, Option.bind_some] at h
  exact (clone_priv I st st' i j (inv_run I ops st hrun) h).2

/-- **C167 (a clone stands alone).** After `j := i.PredicterClone()`, whatever the program does to the original, its steps, the slices it was built from and other pipelines, the clone stays as it is. -/
theorem C167_isolated (I : Kit M E S) (ops ops' : List (Op M E)) (st st' : St E) (i j : ℕ) (hrun : run I (ops ++ [.clone i j]) = some st) (hno : ∀ op ∈ ops', ¬ op.Assigns j ∧ ¬ op.Fits j)
    (h : run I (ops ++ [.clone i j] ++ ops') = some st') : view st' j = view st j := by
  rw [run_append, hrun, Option.bind_some] at h
  rw [run_snoc, Option.bind_eq_some_iff] at hrun
  obtain ⟨st0, h0, h1⟩ := hrun
  have hI0 := inv_run I ops st0 h0
  obtain ⟨⟨b, l, hP⟩, -⟩ := clone_priv I st0 st i j hI0 h1
  exact (priv_run I st j b l (inv_step I st0 st _ hI0 h1) hP ops' st' (fun op ho => (hno op ho).1) h).2.2 (fun op ho => (hno op ho).2)

/-- **C167 (fitting a clone).** After `j := i.PredicterClone()` and anything else that does not assign `j`, `j.Fit(x, y)` succeeds just if its steps can be fitted in a chain, leaves the chain of fitted steps in `j` and the number of columns of `y` as
`NOutputs`, and changes no other pipeline and no step variable. -/
theorem C167_clone_fit (I : Kit M E S) (ops ops' : List (Op M E)) (st : St E) (i j : ℕ) (x y : M) (hno : ∀ op ∈ ops', ¬ op.Assigns j) (hrun : run I (ops ++ [.clone i j] ++ ops') = some st) :
    ∃ L n, view st j = some (L, n) ∧
      ((∃ st', run I (ops ++ [.clone i j] ++ ops' ++ [.fit j x y]) = some st') ↔ ∃ L', FitChain I L x y L') ∧
      ∀ st', run I (ops ++ [.clone i j] ++ ops' ++ [.fit j x y]) = some st' →
        (∃ L', FitChain I L x y L' ∧ view st' j = some (L', I.cols y)) ∧ (∀ k, k ≠ j → view st' k = view st k) ∧ (∀ s, viewStep st' s = viewStep st s) := by
  have hrun' := hrun
  rw [run_append, Option.bind_eq_some_iff] at hrun'
  obtain ⟨st1, hr1, hops'⟩ := hrun'
  rw [run_snoc, Option.bind_eq_some_iff] at hr1
  obtain ⟨st0, h0, h1⟩ := hr1
  have hI0 := inv_run I ops st0 h0
  obtain ⟨⟨b, l, hP1⟩, -⟩ := clone_priv I st0 st1 i j hI0 h1
  obtain ⟨hI, hP, -⟩ := priv_run I st1 j b l (inv_step I st0 st1 _ hI0 h1) hP1 ops' st hno hops'
  obtain ⟨n, hn⟩ := hP.pipe
  obtain ⟨L, hL⟩ := inv_deref st hI b l hP.arr
  have hch := fitLoop_chain I l x y st.heap L hP.nodup hL
  have hst : ∀ st', step I st (.fit j x y) = some st' ↔ ∃ h', fitLoop I (l.map Prod.snd) x y st.heap = some h' ∧ { st with heap := h', pipes := Function.update st.pipes j (some ⟨b, I.cols y⟩) } = st' := by
    intro st'
    simp only [step, fit, hn, Option.bind_some, hP.arr, Option.map_eq_some_iff]
  refine ⟨L, n, by rw [view_of st j b n l hn hP.arr, hL]; rfl, ?_, fun st' h => ?_⟩
  · simp only [run_snoc I (ops ++ [Op.clone i j] ++ ops') (.fit j x y), hrun, Option.bind_some]
    constructor
    · rintro ⟨st', h⟩
      obtain ⟨h', hf, -⟩ := (hst st').1 h
      obtain ⟨L', -, hC⟩ := hch.1 h' hf
      exact ⟨L', hC⟩
    · rintro ⟨L', hC⟩
      obtain ⟨h', hf⟩ := hch.2 L' hC
      exact ⟨_, (hst _).2 ⟨h', hf, rfl⟩⟩
  · rw [run_snoc I (ops ++ [Op.clone i j] ++ ops') (.fit j x y), hrun, Option.bind_some] at h
    refine ⟨?_, (priv_step I st st' _ j b l hI hP (fun hh => by simpa [Op.Assigns] using hh) h).2.2 rfl⟩
    obtain ⟨h', hf, rfl⟩ := (hst st').1 h
    obtain ⟨L', hL', hC⟩ := hch.1 h' hf
    refine ⟨L', hC, ?_⟩
    exact (view_of { st with heap := h', pipes := Function.update st.pipes j (some ⟨b, I.cols y⟩) } j b (I.cols y) l (Function.update_self ..) hP.arr).trans (by dsimp only; rw [hL']; rfl)

theorem resolve_deref (vars : ℕ → Option ℕ) (heap : ℕ → Option E) (l l' : List (String × ℕ)) (h : resolve vars l = some l') (hh : ∀ s a, vars s = some a → (heap a).isSome) :
    ∃ L, l'.mapM (fun p => (heap p.2).map (fun e => (p.1, e))) = some L ∧ List.Forall₂ (fun p q => q.1 = p.1 ∧ (vars p.2).bind heap = some q.2) l L := by
  have h2 := (ListX.mapM_forall2 _ l l').1 h
  clear h
  induction h2 with
  | nil => exact ⟨[], by simp, .nil⟩
  | @cons p p' l l' hab hF ih =>
    obtain ⟨L, hL, hF'⟩ := ih
    obtain ⟨a, ha, rfl⟩ := Option.map_eq_some_iff.1 hab
    obtain ⟨e, he⟩ := Option.isSome_iff_exists.1 (hh _ _ ha)
    exact ⟨(p.1, e) :: L, by simp [he, hL], .cons ⟨rfl, by simp [ha, he]⟩ hF'⟩

/-- C167: a new pipeline, made by `MakePipeline` or by `NewPipeline` from a slice of steps, has exactly the steps given, in their order and with their names, and no outputs yet; it is made unless a step is missing. -/
theorem C167_make (I : Kit M E S) (ops : List (Op M E)) (st : St E) (i a : ℕ) (l : List (String × ℕ)) (hrun : run I ops = some st) (op : List (Op M E)) (hop : op = [.makePipe i l] ∨ op = [.slice a l, .newPipe i a]) :
    (∀ st', run I (ops ++ op) = some st' → ∃ L, view st' i = some (L, 0) ∧ List.Forall₂ (fun p q => q.1 = p.1 ∧ viewStep st p.2 = some q.2) l L ∧ (∀ k, k ≠ i → view st' k = view st k) ∧ ∀ s, viewStep st' s = viewStep st s) ∧
    (run I (ops ++ op) = none ↔ ∃ p ∈ l, viewStep st p.2 = none) := by
  have hI := inv_run I ops st hrun
  have hkey : run I (ops ++ op) = (resolve st.vars l).map (fun l' => { st with arrs := Function.update st.arrs st.afree (some l'), afree := st.afree + 1, pipes := Function.update st.pipes i (some ⟨st.afree, 0⟩), slices := if op.length = 1 then st.slices else Function.update st.slices a (some st.afree) }) := by
    rw [run_append, hrun, Option.bind_some]
    rcases hop with rfl | rfl
    · simp only [List.foldlM_cons, List.foldlM_nil, step, List.length_singleton, if_true]
      cases resolve st.vars l <;> rfl
    · simp only [List.foldlM_cons, List.foldlM_nil, step]
      cases resolve st.vars l <;> simp
  rw [hkey]
  refine ⟨fun st' h => ?_, ?_⟩
  · obtain ⟨l', hl', rfl⟩ := Option.map_eq_some_iff.1 h
    obtain ⟨L, hL, hF⟩ := resolve_deref st.vars st.heap l l' hl' (fun s b hs => hI.heap _ (hI.vars _ _ hs))
    refine ⟨L, by simp [view, stepsOf, hL], hF, fun k hk => ?_, fun s => rfl⟩
    simp only [view, stepsOf, Function.update_of_ne hk]
    cases ho : st.pipes k with
    | none => rfl
    | some o =>
      have := hI.pipes k o ho
      simp only [Option.bind_some, Function.update_of_ne (show o.steps ≠ st.afree by omega)]
  · rw [Option.map_eq_none_iff]
    constructor
    · intro h
      by_contra hne
      push Not at hne
      have : ∃ l', resolve st.vars l = some l' := by
        clear h hkey hop
        induction l with
        | nil => exact ⟨[], by simp [resolve]⟩
        | cons p l ih =>
          obtain ⟨l', hl'⟩ := ih (fun q hq => hne q (List.mem_cons_of_mem _ hq))
          obtain ⟨e, he⟩ := Option.ne_none_iff_exists'.1 (hne p List.mem_cons_self)
          obtain ⟨b, hb, -⟩ := Option.bind_eq_some_iff.1 he
          exact ⟨(p.1, b) :: l', by simp only [resolve] at hl' ⊢; simp [hb, hl']⟩
      obtain ⟨l', hl'⟩ := this
      rw [h] at hl'
      cases hl'
    · rintro ⟨p, hp, hn⟩
      by_contra hne
      obtain ⟨l', hl'⟩ := Option.ne_none_iff_exists'.1 hne
      obtain ⟨L, -, hF⟩ := resolve_deref st.vars st.heap l l' hl' (fun s b hs => hI.heap _ (hI.vars _ _ hs))
      obtain ⟨k, hk, rfl⟩ := List.getElem_of_mem hp
      have hq := (hF.get hk (by rw [← hF.length_eq]; exact hk)).2
      simp only [List.get_eq_getElem] at hq
      rw [viewStep, hq] at hn
      cases hn

example : ∃ (I : Kit ℕ ℕ ℕ) (st : St ℕ), run I [.step 0 7, .step 1 9] = some st ∧ ((run I ([.step 0 7, .step 1 9] ++ [.makePipe 0 [("a", 1), ("b", 0)]])).bind (fun st => view st 0)) = some ([("a", 9), ("b", 7)], 0) :=
  ⟨⟨fun _ => true, fun _ => true, fun _ => true, fun _ _ _ => none, id, id, fun _ _ _ => none, fun _ _ => none, fun _ _ _ => none, fun _ _ _ => none, fun _ => true, id, fun _ _ => none, id⟩, _, rfl, by decide +kernel⟩

/-- **C167 (which pipelines can be cloned).** `PredicterClone` of an existing pipeline panics just if one of its steps is neither a transformer nor a predicter. -/
theorem C167_clone_panics (I : Kit M E S) (ops : List (Op M E)) (st : St E) (i j : ℕ) (L : List (String × E)) (n : ℕ) (hrun : run I ops = some st) (hv : view st i = some (L, n)) :
    run I (ops ++ [.clone i j]) = none ↔ ∃ p ∈ L, I.isT p.2 = false ∧ I.isP p.2 = false := by
  have hI := inv_run I ops st hrun
  simp only [view, stepsOf, Option.bind_eq_some_iff, Option.map_eq_some_iff, Prod.mk.injEq] at hv
  obtain ⟨o, ho, L0, ⟨l, hl, hL⟩, rfl, rfl⟩ := hv
  rw [run_snoc, hrun, Option.bind_some, ← (cloneLoop_spec I l st.heap st.hfree L0 (hI.elems _ l hl) hL).2]
  simp only [step, clone, ho, hl, Option.bind_some, Option.map_eq_none_iff]

/-- **C167 (fit), partial.** In any program: if the steps of pipeline `i` are different pointers, `i.Fit(x, y)` succeeds just if they can be fitted in a chain, and leaves that chain; `NOutputs` is the number of columns of `y`.
Missing: pipelines that hold a step twice, for which it is false, see `C167_twice_violated`. -/
theorem C167_fit_partial (I : Kit M E S) (ops : List (Op M E)) (st : St E) (i : ℕ) (x y : M) (o : Obj) (l : List (String × ℕ)) (hrun : run I ops = some st) (ho : st.pipes i = some o) (hl : st.arrs o.steps = some l)
    (hn : (l.map Prod.snd).Nodup) :
    ∃ L n, view st i = some (L, n) ∧ ((∃ st', run I (ops ++ [.fit i x y]) = some st') ↔ ∃ L', FitChain I L x y L') ∧
      ∀ st', run I (ops ++ [.fit i x y]) = some st' → ∃ L', FitChain I L x y L' ∧ view st' i = some (L', I.cols y) := by
  have hI := inv_run I ops st hrun
  obtain ⟨L, hL⟩ := inv_deref st hI o.steps l hl
  have hch := fitLoop_chain I l x y st.heap L hn hL
  have hst : ∀ st', step I st (.fit i x y) = some st' ↔ ∃ h', fitLoop I (l.map Prod.snd) x y st.heap = some h' ∧ { st with heap := h', pipes := Function.update st.pipes i (some ⟨o.steps, I.cols y⟩) } = st' := by
    intro st'
    simp only [step, fit, ho, Option.bind_some, hl, Option.map_eq_some_iff]
  refine ⟨L, o.nOut, by rw [view_of st i o.steps o.nOut l ho hl, hL]; rfl, ?_, fun st' h => ?_⟩
  · simp only [run_snoc, hrun, Option.bind_some]
    constructor
    · rintro ⟨st', h⟩
      obtain ⟨h', hf, -⟩ := (hst st').1 h
      obtain ⟨L', -, hC⟩ := hch.1 h' hf
      exact ⟨L', hC⟩
    · rintro ⟨L', hC⟩
      obtain ⟨h', hf⟩ := hch.2 L' hC
      exact ⟨_, (hst _).2 ⟨h', hf, rfl⟩⟩
  · rw [run_snoc, hrun, Option.bind_some] at h
    obtain ⟨h', hf, rfl⟩ := (hst st').1 h
    obtain ⟨L', hL', hC⟩ := hch.1 h' hf
    refine ⟨L', hC, ?_⟩
    exact (view_of { st with heap := h', pipes := Function.update st.pipes i (some ⟨o.steps, I.cols y⟩) } i o.steps (I.cols y) l (Function.update_self ..) hl).trans (by dsimp only; rw [hL']; rfl)

/-- **C167 (one step twice), violation.** A pipeline that holds the same step twice has, after `Fit(x, y)`, twice the step fitted last: fitted with `x, y`, then again with what it made of them; so predictions pass the data through a step that was never fitted with such data. -/
theorem C167_twice_violated (I : Kit M E S) (e e1 e2 : E) (n m : String) (x y x' y' : M) (h1 : I.fit e x y = some e1) (hp : Passes I e1 (x, y) (x', y')) (h2 : I.fit e1 x' y' = some e2) :
    ((run I [.step 0 e, .makePipe 0 [(n, 0), (m, 0)], .fit 0 x y]).bind (fun st => view st 0)) = some ([(n, e2), (m, e2)], I.cols y) := by
  have ht := (passes_iff I e1 x y (x', y')).2 hp
  simp [run, step, init, resolve, fit, fitLoop, view, stepsOf, h1, h2, ht, Function.update]

/-- **C167 (one slice, two pipelines), violation.** Pipelines made of the same slice by `NewPipeline(a...)` show the same steps ever after, whatever is fitted or assigned in the slice (until one of the variables is assigned again): a fit of the one is a fit of the other. -/
theorem C167_shared_violated (I : Kit M E S) (ops ops' : List (Op M E)) (st : St E) (i j a : ℕ) (hij : i ≠ j) (hno : ∀ op ∈ ops', ¬ op.Assigns i ∧ ¬ op.Assigns j)
    (h : run I (ops ++ [.newPipe i a, .newPipe j a] ++ ops') = some st) : ∃ L n m, view st i = some (L, n) ∧ view st j = some (L, m) := by
  suffices H : ∀ ops' : List (Op M E), (∀ op ∈ ops', ¬ op.Assigns i ∧ ¬ op.Assigns j) → ∀ st, run I (ops ++ [.newPipe i a, .newPipe j a] ++ ops') = some st → ∃ b n m, st.pipes i = some ⟨b, n⟩ ∧ st.pipes j = some ⟨b, m⟩ by
    obtain ⟨b, n, m, h1, h2⟩ := H ops' hno st h
    have hI := inv_run I _ st h
    obtain ⟨l, hl⟩ := Option.isSome_iff_exists.1 (hI.arrs b (hI.pipes i _ h1))
    obtain ⟨L, hL⟩ := inv_deref st hI b l hl
    exact ⟨L, n, m, by rw [view_of st i b n l h1 hl, hL]; rfl, by rw [view_of st j b m l h2 hl, hL]; rfl⟩
  clear h hno st ops'
  intro ops'
  induction ops' using List.reverseRecOn with
  | nil =>
    intro _ st h
    rw [List.append_nil, run_append, Option.bind_eq_some_iff] at h
    obtain ⟨st0, -, h⟩ := h
    simp only [List.foldlM_cons, List.foldlM_nil, step, Option.bind_eq_bind, Option.bind_eq_some_iff, Option.map_eq_some_iff, Option.pure_def, Option.some.injEq] at h
    obtain ⟨_, ⟨b, hb, rfl⟩, _, ⟨b', hb', rfl⟩, rfl⟩ := h
    dsimp only at hb' ⊢
    rw [hb] at hb'; cases hb'
    exact ⟨b, 0, 0, by rw [Function.update_of_ne hij, Function.update_self], by rw [Function.update_self]⟩
  | append_singleton ops' op ih =>
    intro hno st h
    rw [← List.append_assoc, run_snoc, Option.bind_eq_some_iff] at h
    obtain ⟨st0, h0, h1⟩ := h
    obtain ⟨b, n, m, hi, hj⟩ := ih (fun o ho => hno o (by simp [ho])) st0 h0
    obtain ⟨hA1, hA2⟩ := hno op (by simp)
    cases op with
    | step s e => simp only [step, Option.some.injEq] at h1; subst h1; exact ⟨b, n, m, hi, hj⟩
    | slice a l => simp only [step, Option.map_eq_some_iff] at h1; obtain ⟨_, _, rfl⟩ := h1; exact ⟨b, n, m, hi, hj⟩
    | setElem a k n' s =>
      simp only [step, Option.bind_eq_some_iff] at h1
      obtain ⟨_, _, _, _, _, _, h1⟩ := h1
      split at h1
      · cases h1; exact ⟨b, n, m, hi, hj⟩
      · exact absurd h1 (by simp)
    | newPipe k a =>
      simp only [step, Option.map_eq_some_iff] at h1; obtain ⟨_, _, rfl⟩ := h1
      exact ⟨b, n, m, by dsimp only; rw [Function.update_of_ne (fun he => hA1 he.symm)]; exact hi, by dsimp only; rw [Function.update_of_ne (fun he => hA2 he.symm)]; exact hj⟩
    | makePipe k l =>
      simp only [step, Option.map_eq_some_iff] at h1; obtain ⟨_, _, rfl⟩ := h1
      exact ⟨b, n, m, by dsimp only; rw [Function.update_of_ne (fun he => hA1 he.symm)]; exact hi, by dsimp only; rw [Function.update_of_ne (fun he => hA2 he.symm)]; exact hj⟩
    | clone i' k =>
      simp only [step, clone, Option.bind_eq_some_iff, Option.map_eq_some_iff] at h1; obtain ⟨_, _, _, _, _, _, rfl⟩ := h1
      exact ⟨b, n, m, by dsimp only; rw [Function.update_of_ne (fun he => hA1 he.symm)]; exact hi, by dsimp only; rw [Function.update_of_ne (fun he => hA2 he.symm)]; exact hj⟩
    | fit k x y =>
      simp only [step, fit, Option.bind_eq_some_iff, Option.map_eq_some_iff] at h1; obtain ⟨o, ho, _, _, _, _, rfl⟩ := h1
      by_cases hki : k = i
      · subst hki
        rw [hi] at ho; cases ho
        exact ⟨b, _, m, Function.update_self .., by dsimp only; rw [Function.update_of_ne hij.symm]; exact hj⟩
      · by_cases hkj : k = j
        · subst hkj
          rw [hj] at ho; cases ho
          exact ⟨b, n, _, by dsimp only; rw [Function.update_of_ne hij]; exact hi, Function.update_self ..⟩
        · exact ⟨b, n, m, by dsimp only; rw [Function.update_of_ne (Ne.symm hki)]; exact hi, by dsimp only; rw [Function.update_of_ne (Ne.symm hkj)]; exact hj⟩
    | fitStep s x y => simp only [step, Option.bind_eq_some_iff, Option.map_eq_some_iff] at h1; obtain ⟨_, _, _, _, _, _, rfl⟩ := h1; exact ⟨b, n, m, hi, hj⟩

/-- **C167 (kind of a pipeline).** A pipeline is a classifier just if its last step is a predicter that is one; `GetNOutputs` is that of the last step if this is a predicter, 0 without steps, and panics if the last step is not a predicter. -/
theorem C167_kind (I : Kit M E S) (l : List (String × E)) (n : String) (e : E) :
    (isClassifier I (l ++ [(n, e)]) = true ↔ I.isP e = true ∧ I.isClf e = true) ∧ isClassifier I [] = false ∧
    (∀ k, getNOutputs I (l ++ [(n, e)]) = some k ↔ I.isP e = true ∧ I.nOut e = k) ∧ (getNOutputs I (l ++ [(n, e)]) = none ↔ I.isP e = false) ∧ getNOutputs I ([] : List (String × E)) = some 0 := by
  refine ⟨?_, rfl, fun k => ?_, ?_, rfl⟩
  · simp only [isClassifier, List.getLast?_concat]; cases I.isP e <;> simp
  · simp only [getNOutputs, List.getLast?_concat]; cases I.isP e <;> simp
  · simp only [getNOutputs, List.getLast?_concat]; cases I.isP e <;> simp

/-- **C167 (Transform of a pipeline).** `Transform` gives back X itself, not the X transformed by the steps, beside the predictions that `Predict` makes; a pipeline that was only constructed panics (a matrix of rows without columns cannot be made). -/
theorem C167_transform (I : Kit M E S) (l : List (String × E)) (k : ℕ) (x : M) :
    (∀ xo yo, transform I l k x = some (xo, yo) ↔ xo = x ∧ ∃ z, I.zeros x k = some z ∧ predict I l x z = some yo) ∧
    (∀ (ops : List (Op M E)) (st : St E) (i : ℕ) (op : Op M E), (∃ a, op = .newPipe i a) ∨ (∃ l, op = .makePipe i l) → run I (ops ++ [op]) = some st →
      I.zeros x 0 = none → ∃ L n, view st i = some (L, n) ∧ transform I L n x = none) := by
  refine ⟨fun xo yo => ?_, fun ops st i op hop h hz => ?_⟩
  · simp only [transform, Option.bind_eq_some_iff, Option.map_eq_some_iff, Prod.mk.injEq]
    constructor
    · rintro ⟨z, hz, y, hy, rfl, rfl⟩; exact ⟨rfl, z, hz, hy⟩
    · rintro ⟨rfl, z, hz, hy⟩; exact ⟨z, hz, yo, hy, rfl, rfl⟩
  · have hI := inv_run I _ st h
    rw [run_snoc, Option.bind_eq_some_iff] at h
    obtain ⟨st0, -, h⟩ := h
    have key : ∃ b, st.pipes i = some ⟨b, 0⟩ := by
      rcases hop with ⟨a, rfl⟩ | ⟨l, rfl⟩
      · simp only [step, Option.map_eq_some_iff] at h; obtain ⟨b, _, rfl⟩ := h; exact ⟨b, Function.update_self ..⟩
      · simp only [step, Option.map_eq_some_iff] at h; obtain ⟨b, _, rfl⟩ := h; exact ⟨_, Function.update_self ..⟩
    obtain ⟨b, hb⟩ := key
    obtain ⟨l, hl⟩ := Option.isSome_iff_exists.1 (hI.arrs b (hI.pipes i _ hb))
    obtain ⟨L, hL⟩ := inv_deref st hI b l hl
    exact ⟨L, 0, by rw [view_of st i b 0 l hb hl, hL]; rfl, by simp [transform, hz]⟩

theorem through_iff (I : Kit M E S) (l : List (String × E)) : ∀ d d' : M × M, l.foldlM (fun (xy : M × M) p => transformStep I p.2 xy.1 xy.2) d = some d' ↔ Through I l d d' := by
  induction l with
  | nil =>
    intro d d'
    simp only [List.foldlM_nil, Option.pure_def, Option.some.injEq]
    constructor
    · rintro rfl; exact .nil d
    · rintro ⟨⟩; rfl
  | cons p l ih =>
    intro d d'
    simp only [List.foldlM_cons, Option.bind_eq_bind, Option.bind_eq_some_iff, ih, passes_iff]
    constructor
    · rintro ⟨t, h1, h2⟩; exact .cons p l d t d' h1 h2
    · intro h
      cases h with
      | cons _ _ _ t _ h1 h2 => exact ⟨t, h1, h2⟩

theorem back_iff (I : Kit M E S) (l : List (String × E)) : ∀ y r : M, l.reverse.foldlM (fun y (p : String × E) => if I.isI p.2 then I.inverse p.2 y else none) y = some r ↔ Back I l y r := by
  induction l using List.reverseRecOn with
  | nil =>
    intro y r
    simp only [List.reverse_nil, List.foldlM_nil, Option.pure_def, Option.some.injEq]
    constructor
    · rintro rfl; exact .nil y
    · intro h
      generalize hl : ([] : List (String × E)) = l at h
      cases h with
      | nil => rfl
      | snoc p l => simp at hl
  | append_singleton l p ih =>
    intro y r
    rw [List.reverse_append, List.reverse_singleton, List.singleton_append]
    simp only [List.foldlM_cons, Option.bind_eq_bind, Option.bind_eq_some_iff, ih]
    constructor
    · rintro ⟨t, h1, h2⟩
      cases hi : I.isI p.2 with
      | false => rw [hi] at h1; simp at h1
      | true => rw [hi, if_pos rfl] at h1; exact .snoc p l y t r hi h1 h2
    · intro h
      generalize hl : l ++ [p] = l' at h
      cases h with
      | nil => simp at hl
      | snoc q l0 _ t _ hi h1 h2 =>
        obtain ⟨rfl, hq⟩ := List.append_inj' hl rfl
        cases hq
        exact ⟨t, by rw [hi, if_pos rfl]; exact h1, h2⟩

/-- **C167 (predictions and scores).** `Predict` succeeds with `r` just if X and the destination pass through all steps and the resulting targets are taken back by the inverse transforms of all steps but the last; `Score` just if X, Y pass through
all steps but the last, which is a predicter, and is then the score of that step for the transformed X and the Y given.  Without steps `Predict` gives the destination and `Score` panics. -/
theorem C167_predict (I : Kit M E S) (l : List (String × E)) (n : String) (e : E) (x y : M) :
    (∀ r, predict I (l ++ [(n, e)]) x y = some r ↔ ∃ d, Through I (l ++ [(n, e)]) (x, y) d ∧ Back I l d.2 r) ∧ predict I [] x y = some y ∧
    (∀ s, score I (l ++ [(n, e)]) x y = some s ↔ I.isP e = true ∧ ∃ d, Through I l (x, y) d ∧ I.score e d.1 y = some s) ∧ score I [] x y = none := by
  refine ⟨fun r => ?_, rfl, fun s => ?_, rfl⟩
  · simp only [predict, Option.bind_eq_some_iff, List.dropLast_concat, through_iff, back_iff]
  · simp only [score, List.getLast?_concat, Option.bind_eq_some_iff, List.dropLast_concat, through_iff]
    constructor
    · rintro ⟨d, hd, h⟩
      cases hP : I.isP e with
      | false => rw [hP] at h; simp at h
      | true => rw [hP, if_pos rfl] at h; exact ⟨rfl, d, hd, h⟩
    · rintro ⟨hP, d, hd, h⟩
      exact ⟨d, hd, by rw [hP, if_pos rfl]; exact h⟩

/-! ### A concrete case -/

/-- Matrices are numbers; a step is a transformer that subtracts what it was fitted with, a predicter of its target, or something that only fits. -/
private inductive Step0 where
  | sub (a : ℤ)
  | pred (a : ℤ)
  | other

private def kit0 : Kit ℤ Step0 ℤ where
  isT | .sub _ => true | _ => false
  isP | .pred _ => true | _ => false
  isI | .sub _ => true | _ => false
  fit | .sub _, x, _ => some (.sub x) | .pred _, _, y => some (.pred y) | .other, _, _ => some .other
  tclone := id
  pclone := id
  transform | .sub a, x, y => some (x - a, y) | _, _, _ => none
  inverse | .sub _, y => some y | _, _ => none
  predict | .pred a, x, _ => some (x + a) | _, _, _ => none
  score | .pred a, x, y => some (x + a - y) | _, _, _ => none
  isClf _ := false
  nOut | .pred _ => 1 | _ => 0
  zeros _ k := if k = 0 then none else some 0
  cols _ := 1

/-- A pipeline with the same step twice, and its clone, fitted with the same data: the clone, which has two steps, keeps them apart. -/
example : (run kit0 [.step 0 (.sub 0), .step 1 (.pred 0), .makePipe 0 [("a", 0), ("b", 0), ("p", 1)], .clone 0 1, .fit 0 5 7, .fit 1 5 7]).bind (fun st => (view st 0).bind (fun v => (view st 1).map (fun w => (v, w))))
    = some (([("a", .sub 0), ("b", .sub 0), ("p", .pred 7)], 1), ([("a", .sub 5), ("b", .sub 0), ("p", .pred 7)], 1)) := rfl
example : Passes kit0 (.sub 5) (5, 7) (0, 7) ∧ kit0.fit (.sub 0) 5 7 = some (.sub 5) ∧ kit0.fit (.sub 5) 0 7 = some (.sub 0) := ⟨.inl ⟨rfl, rfl⟩, rfl, rfl⟩
example : FitChain kit0 [("a", .sub 0), ("b", .sub 0), ("p", .pred 0)] 5 7 [("a", .sub 5), ("b", .sub 0), ("p", .pred 7)] :=
  .cons _ _ _ _ _ 0 7 _ _ _ rfl (.inl ⟨rfl, rfl⟩) (.cons _ _ _ _ _ 0 7 _ _ _ rfl (.inl ⟨rfl, rfl⟩) (.last _ _ _ _ _ rfl))
/-- Two pipelines from one slice. -/
example : (run kit0 [.step 0 (.sub 0), .slice 0 [("a", 0)], .newPipe 0 0, .newPipe 1 0, .fit 0 5 7]).bind (fun st => view st 1) = some ([("a", .sub 5)], 0) := rfl
/-- The step of a different pipeline is not touched by the fit of a clone, and a step that only fits cannot be cloned. -/
example : (run kit0 [.step 0 (.sub 3), .makePipe 0 [("a", 0)], .clone 0 1, .fit 1 5 7]).bind (fun st => viewStep st 0) = some (.sub 3) := rfl
example : (run kit0 [.step 0 .other, .makePipe 0 [("a", 0)]]).bind (fun st => view st 0) = some ([("a", .other)], 0) ∧ (run kit0 [.step 0 .other, .makePipe 0 [("a", 0)], .clone 0 1]).isNone := ⟨rfl, rfl⟩
example : kit0.zeros 4 0 = none ∧ transform kit0 [("a", .sub 5), ("p", .pred 7)] 1 5 = some (5, 7) := ⟨rfl, rfl⟩
example : predict kit0 [("a", .sub 5), ("p", .pred 7)] 6 0 = some 8 ∧ score kit0 [("a", .sub 5), ("p", .pred 7)] 6 9 = some (-1) ∧ predict kit0 [("p", .pred 7), ("q", .pred 7)] 6 0 = none := ⟨rfl, rfl, rfl⟩

end Sk.PipeObj
