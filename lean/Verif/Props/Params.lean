import Verif.Model.Params
import Mathlib.Data.List.Perm.Basic
import Mathlib.Data.List.Nodup

/-!
# C155: hyperparameters are set by name
-/
set_option autoImplicit false

namespace Sk.Params

variable {N F : Type} [DecidableEq F]

/-! ## Specification -/

/-- Field `i` is the one meant by the name `k`: its name differs at most in case, no field with such a name is nearer, and it is the only one at its depth. -/
def Means (fold : N → F) (fs : List (Field N)) (k : N) (i : ℕ) : Prop :=
  ∃ f, fs[i]? = some f ∧ fold f.name = fold k ∧ ∀ j g, fs[j]? = some g → fold g.name = fold k → j ≠ i → f.depth < g.depth

/-- The value can be stored in a field of this kind, and is then this value. -/
inductive Stores : Kind → Val → Val → Prop
  | str (s : String) : Stores .str (.str s) (.str s)
  | int (z : ℤ) : Stores .int (.int z) (.int z)
  | whole (z : ℤ) : Stores .flt (.int z) (.f64 z)
  | single (q : ℚ) : Stores .flt (.f32 q) (.f64 q)
  | double (q : ℚ) : Stores .flt (.f64 q) (.f64 q)
  | iface (ok : Val → Bool) (v : Val) (h : v ≠ .nil) (h' : ok v = true) : Stores (.iface ok) v v
  | other (t p : ℕ) : Stores (.other t) (.other t p) (.other t p)

theorem convert_iff (c : Kind) (v v' : Val) : convert c v = some v' ↔ Stores c v v' := by
  constructor
  · intro h
    cases c <;> cases v <;> simp [convert] at h
    case str.str => subst h; exact .str _
    case flt.int => subst h; exact .whole _
    case flt.f32 => subst h; exact .single _
    case flt.f64 => subst h; exact .double _
    case int.int => subst h; exact .int _
    case other.other => obtain ⟨rfl, rfl⟩ := h; exact .other _ _
    all_goals (obtain ⟨h1, rfl⟩ := h; exact .iface _ _ (by simp) h1)
  · intro h
    cases h with
    | iface ok v h h' => simp [convert, h, h']
    | _ => simp [convert]

theorem mem_matchesAt (fold : N → F) (fs : List (Field N)) (k : N) (d i : ℕ) : i ∈ matchesAt fold fs k d ↔ ∃ f, fs[i]? = some f ∧ f.depth = d ∧ fold f.name = fold k := by
  unfold matchesAt
  rw [List.mem_filter, List.mem_range]
  constructor
  · rintro ⟨h1, h2⟩
    rw [List.getElem?_eq_getElem h1] at h2
    exact ⟨fs[i], List.getElem?_eq_getElem h1, by simpa using h2⟩
  · rintro ⟨f, h1, h2, h3⟩
    refine ⟨(List.getElem?_eq_some_iff.1 h1).1, ?_⟩
    rw [h1]
    simp [h2, h3]

theorem search_spec (fold : N → F) (fs : List (Field N)) (k : N) : ∀ (n d : ℕ), (∀ f ∈ fs, fold f.name = fold k → d ≤ f.depth ∧ f.depth < d + n) → ∀ i, search fold fs k d n = some i ↔ Means fold fs k i
  | 0, d, h, i => by
    constructor
    · intro h'; cases h'
    · rintro ⟨f, h1, h2, _⟩
      have := h f (List.mem_of_getElem? h1) h2
      omega
  | n + 1, d, h, i => by
    unfold search
    split
    · rename_i he
      have hn : ∀ f ∈ fs, fold f.name = fold k → f.depth ≠ d := by
        intro f hf hk hd
        obtain ⟨j, hj⟩ := List.getElem?_of_mem hf
        have := (mem_matchesAt fold fs k d j).2 ⟨f, hj, hd, hk⟩
        rw [he] at this
        cases this
      exact search_spec fold fs k n (d + 1) (fun f hf hk => by have := h f hf hk; have := hn f hf hk; omega) i
    · rename_i j he
      have hj := (mem_matchesAt fold fs k d j).1 (by rw [he]; exact List.mem_singleton.2 rfl)
      obtain ⟨f, h1, h2, h3⟩ := hj
      constructor
      · intro h'
        cases h'
        refine ⟨f, h1, h3, fun j' g hg hk hne => ?_⟩
        have h4 := h g (List.mem_of_getElem? hg) hk
        rcases eq_or_lt_of_le h4.1 with h5 | h5
        · have := (mem_matchesAt fold fs k d j').2 ⟨g, hg, h5.symm, hk⟩
          rw [he, List.mem_singleton] at this
          exact absurd this hne
        · omega
      · rintro ⟨f', h1', h3', h4'⟩
        by_contra hne
        have hne : j ≠ i := fun e => hne (by rw [e])
        have := h4' j f h1 h3 hne
        have := h f' (List.mem_of_getElem? h1') h3'
        omega
    · rename_i hne0 hne1
      constructor
      · intro h'; cases h'
      · rintro ⟨f, h1, h3, h4⟩
        exfalso
        rcases hm : matchesAt fold fs k d with _ | ⟨a, _ | ⟨b, l⟩⟩
        · exact hne0 hm
        · exact hne1 a hm
        · have ha := (mem_matchesAt fold fs k d a).1 (by rw [hm]; simp)
          have hb := (mem_matchesAt fold fs k d b).1 (by rw [hm]; simp)
          obtain ⟨fa, a1, a2, a3⟩ := ha
          obtain ⟨fb, b1, b2, b3⟩ := hb
          have hd : (matchesAt fold fs k d).Nodup := List.Nodup.filter _ List.nodup_range
          rw [hm] at hd
          have hab : a ≠ b := by
            intro e
            subst e
            simp at hd
          have hf := h f (List.mem_of_getElem? h1) h3
          by_cases e : a = i
          · have := h4 b fb b1 b3 (fun e' => hab (e.trans e'.symm))
            subst e
            rw [a1] at h1
            cases h1
            omega
          · have := h4 a fa a1 a3 e
            omega

/-- All fields are at depths below `levels`. -/
def Deep (levels : ℕ) (fs : List (Field N)) : Prop := ∀ f ∈ fs, f.depth < levels

theorem find_spec (fold : N → F) (levels : ℕ) (fs : List (Field N)) (hl : Deep levels fs) (k : N) (i : ℕ) : find fold levels fs k = some i ↔ Means fold fs k i :=
  search_spec fold fs k levels 0 (fun f hf _ => ⟨Nat.zero_le _, by rw [Nat.zero_add]; exact hl f hf⟩) i

/-- **C155**: `setParam` succeeds exactly when the name means an exported field and the value can be stored there; it changes this field only. -/
theorem C155_set (fold : N → F) (levels : ℕ) (fs : List (Field N)) (hl : Deep levels fs) (vals : List Val) (k : N) (v : Val) (vals' : List Val) :
    setParam fold levels fs vals k v = some vals' ↔ ∃ i f v', Means fold fs k i ∧ fs[i]? = some f ∧ f.exported = true ∧ Stores f.kind v v' ∧ vals' = vals.set i v' := by
  unfold setParam
  simp only [Option.bind_eq_bind, Option.bind_eq_some_iff, find_spec fold levels fs hl, convert_iff]
  constructor
  · rintro ⟨i, h1, f, h2, v', h3, h4⟩
    split at h4
    · rename_i he
      cases h4
      exact ⟨i, f, v', h1, h2, he, h3, rfl⟩
    · cases h4
  · rintro ⟨i, f, v', h1, h2, h3, h4, rfl⟩
    exact ⟨i, h1, f, h2, v', h4, by rw [if_pos h3]⟩

theorem find_fold (fold : N → F) (levels : ℕ) (fs : List (Field N)) (k k' : N) (h : fold k = fold k') : find fold levels fs k = find fold levels fs k' := by
  have : ∀ n d, search fold fs k d n = search fold fs k' d n := by
    intro n
    induction n with
    | zero => intro d; rfl
    | succ n ih => intro d; unfold search matchesAt; rw [h, ih]
  exact this _ _

/-- **C155**: reading back what was set, under any name that differs in case only, gives the stored value; other names read as before. -/
theorem C155_get (fold : N → F) (levels : ℕ) (fs : List (Field N)) (hl : Deep levels fs) (vals : List Val) (hv : vals.length = fs.length) (k : N) (v : Val) (vals' : List Val) (h : setParam fold levels fs vals k v = some vals') :
    (∀ k', fold k' = fold k → ∃ f ∈ fs, ∃ v', fold f.name = fold k ∧ Stores f.kind v v' ∧ getParam fold levels fs vals' k' = some (some v')) ∧
    (∀ k', fold k' ≠ fold k → getParam fold levels fs vals' k' = getParam fold levels fs vals k') := by
  rw [C155_set fold levels fs hl] at h
  obtain ⟨i, f, v', h1, h2, h3, h4, rfl⟩ := h
  obtain ⟨f', h5, h6, -⟩ := id h1
  rw [h2] at h5
  cases h5
  have hi : i < vals.length := by rw [hv]; exact (List.getElem?_eq_some_iff.1 h2).1
  constructor
  · intro k' hk
    refine ⟨f, List.mem_of_getElem? h2, v', h6, h4, ?_⟩
    unfold getParam
    rw [find_fold fold levels fs k' k hk, (find_spec fold levels fs hl k i).2 h1]
    simp only [h2, h3, if_true]
    rw [List.getElem?_set_self hi]
  · intro k' hk
    unfold getParam
    rcases hf : find fold levels fs k' with _ | j
    · rfl
    · obtain ⟨g, hg, hg', -⟩ := (find_spec fold levels fs hl k' j).1 hf
      simp only [hg]
      have hne : i ≠ j := by
        rintro rfl
        rw [h2] at hg
        cases hg
        exact hk (hg'.symm.trans h6)
      rw [List.getElem?_set_ne hne]

/-- **C155**: reading a name gives the value of the exported field it means; it panics exactly for the name of an unexported field, and reports that there is no such parameter exactly when the name means no field. -/
theorem C155_read (fold : N → F) (levels : ℕ) (fs : List (Field N)) (hl : Deep levels fs) (vals : List Val) (hv : vals.length = fs.length) (k : N) :
    (∀ v, getParam fold levels fs vals k = some (some v) ↔ ∃ i f, Means fold fs k i ∧ fs[i]? = some f ∧ f.exported = true ∧ vals[i]? = some v) ∧
    (getParam fold levels fs vals k = none ↔ ∃ i f, Means fold fs k i ∧ fs[i]? = some f ∧ f.exported = false) ∧
    (getParam fold levels fs vals k = some none ↔ ∀ i, ¬ Means fold fs k i) := by
  unfold getParam
  rcases hf : find fold levels fs k with _ | i
  · have hn : ∀ i, ¬ Means fold fs k i := fun i h => by rw [(find_spec fold levels fs hl k i).2 h] at hf; cases hf
    exact ⟨fun v => ⟨fun h => (by simp at h), fun ⟨i, _, h, _⟩ => absurd h (hn i)⟩, ⟨fun h => (by simp at h), fun ⟨i, _, h, _⟩ => absurd h (hn i)⟩, ⟨fun _ => hn, fun _ => rfl⟩⟩
  · have hi := (find_spec fold levels fs hl k i).1 hf
    have hu : ∀ j, Means fold fs k j → j = i := fun j hj => by
      have := (find_spec fold levels fs hl k j).2 hj
      rw [hf] at this
      exact (Option.some.inj this).symm
    obtain ⟨f, h1, -⟩ := id hi
    have hlt : i < vals.length := by rw [hv]; exact (List.getElem?_eq_some_iff.1 h1).1
    have hvi : vals[i]? = some vals[i] := List.getElem?_eq_getElem hlt
    simp only [h1]
    refine ⟨fun v => ⟨fun h => ?_, ?_⟩, ⟨fun h => ?_, ?_⟩, ⟨fun h => ?_, fun h => absurd hi (h i)⟩⟩
    · split at h
      · rename_i he
        exact ⟨i, f, hi, h1, he, Option.some.inj h⟩
      · cases h
    · rintro ⟨j, g, h2, h3, h4, h5⟩
      rw [hu j h2] at h3 h5
      rw [h1] at h3
      cases h3
      rw [if_pos h4, h5]
    · split at h
      · cases h
      · rename_i he
        exact ⟨i, f, hi, h1, by simpa using he⟩
    · rintro ⟨j, g, h2, h3, h4⟩
      rw [hu j h2, h1] at h3
      cases h3
      simp [h4]
    · split at h
      · rw [hvi] at h
        cases h
      · cases h

theorem set_comm (fold : N → F) (levels : ℕ) (fs : List (Field N)) (hl : Deep levels fs) (vals : List Val) (k k' : N) (v v' : Val) (h : fold k ≠ fold k') :
    (setParam fold levels fs vals k v).bind (fun vs => setParam fold levels fs vs k' v') = (setParam fold levels fs vals k' v').bind (fun vs => setParam fold levels fs vs k v) := by
  ext r
  simp only [Option.mem_def, Option.bind_eq_some_iff, C155_set fold levels fs hl]
  have key : ∀ (k k' : N) (v v' : Val), fold k ≠ fold k' →
      (∃ a, (∃ i f w, Means fold fs k i ∧ fs[i]? = some f ∧ f.exported = true ∧ Stores f.kind v w ∧ a = vals.set i w) ∧ ∃ i f w, Means fold fs k' i ∧ fs[i]? = some f ∧ f.exported = true ∧ Stores f.kind v' w ∧ r = a.set i w) →
      ∃ a, (∃ i f w, Means fold fs k' i ∧ fs[i]? = some f ∧ f.exported = true ∧ Stores f.kind v' w ∧ a = vals.set i w) ∧ ∃ i f w, Means fold fs k i ∧ fs[i]? = some f ∧ f.exported = true ∧ Stores f.kind v w ∧ r = a.set i w := by
    rintro k k' v v' h ⟨a, ⟨i, f, w, h1, h2, h3, h4, rfl⟩, i', f', w', h1', h2', h3', h4', rfl⟩
    refine ⟨_, ⟨i', f', w', h1', h2', h3', h4', rfl⟩, i, f, w, h1, h2, h3, h4, ?_⟩
    apply List.set_comm
    rintro rfl
    obtain ⟨g, g1, g2, -⟩ := h1
    obtain ⟨g', g1', g2', -⟩ := h1'
    rw [g1] at g1'
    cases g1'
    exact h (g2.symm.trans g2')
  exact ⟨key k k' v v' h, key k' k v' v (Ne.symm h)⟩

/-- C155, grid: the order in which Go visits the parameters of a point of the grid does not matter, for names that differ in more than case (panics included).
Missing: names that differ in case only, `C155_case_violated`. -/
theorem C155_order_partial (fold : N → F) (levels : ℕ) (fs : List (Field N)) (hl : Deep levels fs) (ps ps' : List (N × Val)) (hp : ps.Perm ps') (hd : (ps.map (fun p => fold p.1)).Nodup) (vals : List Val) :
    setAll fold levels fs vals ps = setAll fold levels fs vals ps' := by
  induction hp generalizing vals with
  | nil => rfl
  | cons p _ ih =>
    unfold setAll at ih ⊢
    simp only [List.foldlM_cons]
    rw [List.map_cons, List.nodup_cons] at hd
    have hd' := hd.2
    exact bind_congr (fun a => ih hd' a)
  | swap p q l =>
    unfold setAll
    simp only [List.foldlM_cons]
    have hne : fold q.1 ≠ fold p.1 := by
      intro e
      simp only [List.map_cons, List.nodup_cons, List.mem_cons] at hd
      exact hd.1 (Or.inl e)
    have := set_comm fold levels fs hl vals q.1 p.1 q.2 p.2 hne
    rw [← bind_assoc, ← bind_assoc]
    exact congrArg (fun o => o.bind (fun vs => l.foldlM (fun vs p => setParam fold levels fs vs p.1 p.2) vs)) this
  | trans h1 _ ih1 ih2 =>
    rw [ih1 hd vals]
    exact ih2 (((h1.map _).nodup_iff).1 hd) vals

/-- **C155 is violated** for names that differ in case only, like "Alpha" and "alpha": which of the two values is used depends on the order in which Go visits the map. -/
theorem C155_case_violated (fold : N → F) (levels : ℕ) (fs : List (Field N)) (hl : Deep levels fs) (vals : List Val) (hv : vals.length = fs.length) (k k' : N) (hk : fold k = fold k') (i : ℕ) (f : Field N) (hi : Means fold fs k i) (hf : fs[i]? = some f)
    (he : f.exported = true) (v v' w w' : Val) (hw : Stores f.kind v w) (hw' : Stores f.kind v' w') (hne : w ≠ w') : setAll fold levels fs vals [(k, v), (k', v')] ≠ setAll fold levels fs vals [(k', v'), (k, v)] := by
  have hi' : Means fold fs k' i := by
    rw [← find_spec fold levels fs hl, ← find_fold fold levels fs k k' hk, find_spec fold levels fs hl]
    exact hi
  have h1 : ∀ vs, setParam fold levels fs vs k v = some (vs.set i w) := fun vs => (C155_set fold levels fs hl vs k v _).2 ⟨i, f, w, hi, hf, he, hw, rfl⟩
  have h2 : ∀ vs, setParam fold levels fs vs k' v' = some (vs.set i w') := fun vs => (C155_set fold levels fs hl vs k' v' _).2 ⟨i, f, w', hi', hf, he, hw', rfl⟩
  have hlen : i < vals.length := by rw [hv]; exact (List.getElem?_eq_some_iff.1 hf).1
  intro h
  simp only [setAll, List.foldlM_cons, List.foldlM_nil, h1, h2, Option.bind_eq_bind, Option.bind_some, Option.pure_def, List.set_set, Option.some.injEq] at h
  have h3 := congrArg (fun l : List Val => l[i]?) h
  simp only [List.getElem?_set_self hlen, Option.some.injEq] at h3
  exact hne h3.symm

/-- An estimator with a field `Alpha` and an embedded struct with `FitIntercept` and another `Alpha`. -/
def ridge : List (Field String) := [⟨0, "Alpha", true, .flt⟩, ⟨0, "base", false, .other 0⟩, ⟨1, "FitIntercept", true, .other 1⟩, ⟨1, "Alpha", true, .str⟩]

/-- Hypotheses met. -/
example : Deep 2 ridge ∧ setParam (fun s : String => s.toLower) 2 ridge [.f64 1, .nil, .other 1 0, .str ""] "alpha" (.int 3) = some [.f64 3, .nil, .other 1 0, .str ""] ∧
    setParam (fun s : String => s.toLower) 2 ridge [.f64 1, .nil, .other 1 0, .str ""] "fitIntercept" (.other 1 1) = some [.f64 1, .nil, .other 1 1, .str ""] ∧
    setParam (fun s : String => s.toLower) 2 ridge [.f64 1, .nil, .other 1 0, .str ""] "base" (.other 0 1) = none ∧
    setParam (fun s : String => s.toLower) 2 ridge [.f64 1, .nil, .other 1 0, .str ""] "Alfa" (.int 1) = none := by
  refine ⟨?_, ?_, ?_, ?_, ?_⟩
  · unfold Deep; decide
  all_goals decide +kernel

/-- Hypotheses met: both orders for "alpha" and "Alpha", and for two different names. -/
example : setAll (fun s : String => s.toLower) 2 ridge [.f64 1, .nil, .other 1 0, .str ""] [("alpha", .int 3), ("Alpha", .int 4)] = some [.f64 4, .nil, .other 1 0, .str ""] ∧
    setAll (fun s : String => s.toLower) 2 ridge [.f64 1, .nil, .other 1 0, .str ""] [("Alpha", .int 4), ("alpha", .int 3)] = some [.f64 3, .nil, .other 1 0, .str ""] ∧
    setAll (fun s : String => s.toLower) 2 ridge [.f64 1, .nil, .other 1 0, .str ""] [("alpha", .int 3), ("fitintercept", .other 1 1)] = some [.f64 3, .nil, .other 1 1, .str ""] := by
  refine ⟨?_, ?_, ?_⟩ <;> decide +kernel

end Sk.Params
