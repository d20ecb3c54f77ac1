import Verif.Model.Source
import Mathlib.Logic.Function.Iterate
import Mathlib.Tactic.Set

/-!
# C149: the locked random source under concurrent use
-/
set_option autoImplicit false

namespace Sk.Source

variable {S V : Type}

/-- One draw of a source used by one goroutine alone. -/
def Gen.next (g : Gen S V) (s : S) : V × S := g.half₂ (g.half₁ s)

/-- Sequential histories: starting in the state `s`, the events `l` happen one after the other and lead to the state `s'`. -/
inductive Hist (g : Gen S V) (s : S) : List (Ev S V) → S → Prop where
  | nil : Hist g s [] s
  | drew {l s'} : Hist g s l s' → Hist g s (l ++ [.drew (g.next s').1]) (g.next s').2
  | seeded {l s'} (s'' : S) : Hist g s l s' → Hist g s (l ++ [.seeded s'']) s''
  | called {l s'} (f : S → S) : Hist g s l s' → Hist g s (l ++ [.called f]) (f s')

/-- The call of which an event is the effect. -/
def Ev.op : Ev S V → Op S
  | .drew _ => .draw
  | .seeded s => .seed s
  | .called f => .withLock f
  | .panicked f => .withLockPanic f
  | .cloned _ => .clone

/-- `Uint64`, `Seed` and `WithLock` with a function that returns. -/
def Op.Safe : Op S → Prop
  | .draw => True
  | .seed _ => True
  | .withLock _ => True
  | _ => False

/-- The calls of goroutine `t` that have taken effect, in order. -/
def done (st : State S V) (t : ℕ) : List (Op S) := (st.log.filter (fun e => e.1 = t)).map (fun e => e.2.op)

/-- The calls of goroutine `t` that have not taken effect. -/
def todo (st : State S V) (t : ℕ) : List (Op S) := if (st.th t).pc = 3 then (st.th t).prog.tail else (st.th t).prog

structure Inv (g : Gen S V) (s0 : S) (prog : ℕ → List (Op S)) (st : State S V) : Prop where
  free : st.lock = none → (∀ t, (st.th t).pc = 0) ∧ Hist g s0 (st.log.map Prod.snd) st.src
  held : ∀ t, st.lock = some t → (∀ u, u ≠ t → (st.th u).pc = 0) ∧ (st.th t).prog ≠ [] ∧
    (((st.th t).pc = 1 ∧ Hist g s0 (st.log.map Prod.snd) st.src) ∨ ((st.th t).pc = 3 ∧ Hist g s0 (st.log.map Prod.snd) st.src) ∨
      ((st.th t).pc = 2 ∧ (∃ rest, (st.th t).prog = .draw :: rest) ∧ ∃ s, Hist g s0 (st.log.map Prod.snd) s ∧ st.src = g.half₁ s))
  order : ∀ t, done st t ++ todo st t = prog t
  safe : ∀ t, ∀ op ∈ (st.th t).prog, op.Safe

theorem inv_init (g : Gen S V) (s0 : S) (prog : ℕ → List (Op S)) (hs : ∀ t, ∀ op ∈ prog t, op.Safe) : Inv g s0 prog (init s0 prog) :=
  ⟨fun _ => ⟨fun _ => rfl, Hist.nil⟩, fun t h => by simp [init] at h, fun t => by simp [done, todo, init], hs⟩

theorem done_snoc (st : State S V) (src : S) (lock : Option ℕ) (th : ℕ → Thread S) (t u : ℕ) (e : Ev S V) :
    done (⟨src, lock, th, st.log ++ [(t, e)]⟩ : State S V) u = if u = t then done st u ++ [e.op] else done st u := by
  unfold done
  simp only [List.filter_append, List.map_append]
  by_cases h : u = t
  · subst h; simp
  · rw [if_neg h, List.filter_cons_of_neg (by simpa using fun hc => h hc.symm)]; simp

theorem inv_step (g : Gen S V) (s0 : S) (prog : ℕ → List (Op S)) (st : State S V) (h : Inv g s0 prog st) (t : ℕ) : Inv g s0 prog (step g st t) := by
  unfold step
  rcases hp : (st.th t).prog with _ | ⟨op, rest⟩
  · exact h
  have hop : op.Safe := h.safe t op (by simp [hp])
  have hrest : ∀ q ∈ rest, q.Safe := fun q hq => h.safe t q (by simp [hp, hq])
  have hsafe : ∀ (x : Thread S), (∀ q ∈ x.prog, q.Safe) → ∀ u, ∀ q ∈ (Function.update st.th t x u).prog, q.Safe := by
    intro x hx u q hq
    by_cases hu : u = t
    · subst hu; rw [Function.update_self] at hq; exact hx q hq
    · rw [Function.update_of_ne hu] at hq; exact h.safe u q hq
  have hcons : ∀ q ∈ op :: rest, q.Safe := fun q hq => h.safe t q (by rw [hp]; exact hq)
  have hord := h.order t
  simp only
  rcases hpc : (st.th t).pc with _ | _ | _ | k
  · -- before `Lock`
    have hgen : ∀ (st' : State S V), (match st.lock with
        | none => { st with lock := some t, th := Function.update st.th t ⟨op :: rest, 1⟩ }
        | some _ => st) = st' → Inv g s0 prog st' := by
      intro st' he
      rcases hl : st.lock with _ | u
      · rw [hl] at he
        simp only at he
        subst he
        obtain ⟨h0, hh⟩ := h.free hl
        refine ⟨fun hc => by simp at hc, ?_, ?_, hsafe _ hcons⟩
        · intro u hu
          simp only [Option.some.injEq] at hu
          subst hu
          refine ⟨fun v hv => by simp only; rw [Function.update_of_ne hv]; exact h0 v, by simp, Or.inl ⟨by simp, hh⟩⟩
        · intro u
          have := h.order u
          unfold done todo at this ⊢
          by_cases hu : u = t
          · subst hu
            simp only [Function.update_self]
            rw [hpc, hp] at this
            simpa using this
          · simp only [Function.update_of_ne hu]; exact this
      · rw [hl] at he
        simp only at he
        subst he
        exact h
    cases op with
    | clone => exact absurd hop id
    | draw => exact hgen _ rfl
    | seed s => exact hgen _ rfl
    | withLock f => exact hgen _ rfl
    | withLockPanic f => exact hgen _ rfl
  all_goals
    have hlock : st.lock = some t := by
      rcases hl : st.lock with _ | u
      · have := (h.free hl).1 t; omega
      · by_cases hu : t = u
        · rw [hu]
        · have := (h.held u hl).1 t hu; omega
    obtain ⟨ho, hne, hcase⟩ := h.held t hlock
  · -- locked
    have hh : Hist g s0 (st.log.map Prod.snd) st.src := by
      rcases hcase with ⟨_, hh⟩ | ⟨h3, _⟩ | ⟨h2, _⟩
      · exact hh
      · omega
      · omega
    have hord' : done st t ++ (op :: rest) = prog t := by
      unfold todo at hord; rw [hpc, hp] at hord; simpa using hord
    have hoth : ∀ (x : Thread S), ∀ u, u ≠ t → (Function.update st.th t x u).pc = 0 := fun x u hu => by rw [Function.update_of_ne hu]; exact ho u hu
    cases op with
    | clone => exact absurd hop id
    | withLockPanic f => exact absurd hop id
    | draw =>
      refine ⟨fun hc => by simp [hlock] at hc, ?_, ?_, hsafe _ hcons⟩
      · intro u hu
        simp only [hlock, Option.some.injEq] at hu
        subst hu
        exact ⟨hoth _, by simp, Or.inr (Or.inr ⟨by simp, ⟨rest, by simp⟩, st.src, hh, rfl⟩)⟩
      · intro u
        have := h.order u
        unfold done todo at this ⊢
        by_cases hu : u = t
        · subst hu
          simp only [Function.update_self]
          rw [hpc, hp] at this
          simpa using this
        · simp only [Function.update_of_ne hu]; exact this
    | seed s =>
      show Inv g s0 prog (⟨s, st.lock, Function.update st.th t ⟨.seed s :: rest, 3⟩, st.log ++ [(t, .seeded s)]⟩ : State S V)
      refine ⟨fun hc => by simp [hlock] at hc, ?_, ?_, hsafe _ hcons⟩
      · intro u hu
        simp only [hlock, Option.some.injEq] at hu
        subst hu
        refine ⟨hoth _, by simp, Or.inr (Or.inl ⟨by simp, ?_⟩)⟩
        simp only [List.map_append, List.map_cons, List.map_nil]
        exact Hist.seeded s hh
      · intro u
        rw [done_snoc]
        by_cases hu : u = t
        · subst hu
          simp only [if_pos, todo, Function.update_self, List.tail_cons]
          rw [← hord']; simp [Ev.op]
        · rw [if_neg hu, ← h.order u]
          simp only [todo, Function.update_of_ne hu]
    | withLock f =>
      show Inv g s0 prog (⟨f st.src, st.lock, Function.update st.th t ⟨.withLock f :: rest, 3⟩, st.log ++ [(t, .called f)]⟩ : State S V)
      refine ⟨fun hc => by simp [hlock] at hc, ?_, ?_, hsafe _ hcons⟩
      · intro u hu
        simp only [hlock, Option.some.injEq] at hu
        subst hu
        refine ⟨hoth _, by simp, Or.inr (Or.inl ⟨by simp, ?_⟩)⟩
        simp only [List.map_append, List.map_cons, List.map_nil]
        exact Hist.called f hh
      · intro u
        rw [done_snoc]
        by_cases hu : u = t
        · subst hu
          simp only [if_pos, todo, Function.update_self, List.tail_cons]
          rw [← hord']; simp [Ev.op]
        · rw [if_neg hu, ← h.order u]
          simp only [todo, Function.update_of_ne hu]
  · -- between the two writes
    have hord' : done st t ++ (op :: rest) = prog t := by
      unfold todo at hord; rw [hpc, hp] at hord; simpa using hord
    obtain ⟨⟨r', hr'⟩, s, hh, hsrc⟩ : (∃ rest, (st.th t).prog = .draw :: rest) ∧ ∃ s, Hist g s0 (st.log.map Prod.snd) s ∧ st.src = g.half₁ s := by
      rcases hcase with ⟨h1, _⟩ | ⟨h3, _⟩ | ⟨_, h2⟩
      · omega
      · omega
      · exact h2
    have hdraw : op = .draw := by rw [hp] at hr'; injection hr'
    subst hdraw
    show Inv g s0 prog (⟨(g.half₂ st.src).2, st.lock, Function.update st.th t ⟨.draw :: rest, 3⟩, st.log ++ [(t, .drew (g.half₂ st.src).1)]⟩ : State S V)
    refine ⟨fun hc => by simp [hlock] at hc, ?_, ?_, hsafe _ hcons⟩
    · intro u hu
      simp only [hlock, Option.some.injEq] at hu
      subst hu
      refine ⟨fun u hu => by simp only; rw [Function.update_of_ne hu]; exact ho u hu, by simp, Or.inr (Or.inl ⟨by simp, ?_⟩)⟩
      simp only [List.map_append, List.map_cons, List.map_nil, hsrc]
      exact Hist.drew hh
    · intro u
      rw [done_snoc]
      by_cases hu : u = t
      · subst hu
        simp only [if_pos, todo, Function.update_self, List.tail_cons]
        rw [← hord']; simp [Ev.op]
      · rw [if_neg hu, ← h.order u]
        simp only [todo, Function.update_of_ne hu]
  · -- before `Unlock`
    have hk : (st.th t).pc = 3 ∧ Hist g s0 (st.log.map Prod.snd) st.src := by
      rcases hcase with ⟨h1, _⟩ | h3 | ⟨h2, _⟩
      · omega
      · exact h3
      · omega
    refine ⟨?_, fun u hu => by simp at hu, ?_, hsafe _ hrest⟩
    · intro _
      refine ⟨fun u => ?_, hk.2⟩
      by_cases hu : u = t
      · subst hu; simp
      · simp only [Function.update_of_ne hu]; exact ho u hu
    · intro u
      have := h.order u
      unfold done todo at this ⊢
      by_cases hu : u = t
      · subst hu
        simp only [Function.update_self]
        rw [hk.1, hp] at this
        simpa using this
      · simp only [Function.update_of_ne hu]; exact this

theorem inv_run (g : Gen S V) (s0 : S) (prog : ℕ → List (Op S)) : ∀ (sched : List ℕ) (st : State S V), Inv g s0 prog st → Inv g s0 prog (run g st sched) := by
  intro sched
  induction sched with
  | nil => intro st h; exact h
  | cons t sched ih => intro st h; exact ih _ (inv_step g s0 prog st h t)

/-- **C149, what holds**: whatever the schedule, concurrent calls of `Uint64`, `Seed` and `WithLock` take effect as in a sequential history of the source: every draw returns what a source used alone would return at this point.
Each goroutine's calls take effect in the order in which it makes them, none is lost or repeated.
Missing from the full statement: `SourceClone` (`C149_clone_violated`) and functions that panic under the lock (`C149_panic_violated`). -/
theorem C149_linearizable_partial (g : Gen S V) (s0 : S) (prog : ℕ → List (Op S)) (hs : ∀ t, ∀ op ∈ prog t, op.Safe) (sched : List ℕ) :
    (∃ s, Hist g s0 ((run g (init s0 prog) sched).log.map Prod.snd) s) ∧
    ∀ t, ∃ rest, (((run g (init s0 prog) sched).log.filter (fun e => e.1 = t)).map (fun e => e.2.op)) ++ rest = prog t ∧
      (((run g (init s0 prog) sched).th t).prog = [] → rest = []) := by
  have h := inv_run g s0 prog sched _ (inv_init g s0 prog hs)
  refine ⟨?_, fun t => ⟨_, h.order t, ?_⟩⟩
  · rcases hl : (run g (init s0 prog) sched).lock with _ | t
    · exact ⟨_, (h.free hl).2⟩
    · obtain ⟨_, _, ⟨_, hh⟩ | ⟨_, hh⟩ | ⟨_, _, s, hh, _⟩⟩ := h.held t hl
      · exact ⟨_, hh⟩
      · exact ⟨_, hh⟩
      · exact ⟨_, hh⟩
  · intro hc
    unfold todo
    rw [hc]
    simp

/-- How many steps a goroutine needs at most for its remaining calls. -/
def left (x : Thread S) : ℕ := 4 * x.prog.length - x.pc

/-- **C149, progress**: as long as some goroutine is not finished there is one that can be scheduled and moves on, and no other one is moved: the source never deadlocks. -/
theorem C149_progress (g : Gen S V) (s0 : S) (prog : ℕ → List (Op S)) (hs : ∀ t, ∀ op ∈ prog t, op.Safe) (sched : List ℕ) (u : ℕ)
    (hu : ((run g (init s0 prog) sched).th u).prog ≠ []) :
    ∃ t, left ((step g (run g (init s0 prog) sched) t).th t) < left ((run g (init s0 prog) sched).th t) ∧
      ∀ v, v ≠ t → (step g (run g (init s0 prog) sched) t).th v = (run g (init s0 prog) sched).th v := by
  have h := inv_run g s0 prog sched _ (inv_init g s0 prog hs)
  set st := run g (init s0 prog) sched with hst
  rcases hl : st.lock with _ | t
  · refine ⟨u, ?_⟩
    have h0 := (h.free hl).1 u
    rcases hp : (st.th u).prog with _ | ⟨op, rest⟩
    · exact absurd hp hu
    have hop := h.safe u op (by simp [hp])
    have : step g st u = { st with lock := some u, th := Function.update st.th u ⟨op :: rest, 1⟩ } := by
      unfold step
      rw [hp, h0]
      cases op <;> simp only [hl] <;> exact absurd hop id
    rw [this]
    refine ⟨?_, fun v hv => by simp only [Function.update_of_ne hv]⟩
    simp only [Function.update_self, left, hp, h0, List.length_cons]
    omega
  · refine ⟨t, ?_⟩
    obtain ⟨_, hne, hc⟩ := h.held t hl
    rcases hp : (st.th t).prog with _ | ⟨op, rest⟩
    · exact absurd hp hne
    have hop := h.safe t op (by simp [hp])
    rcases hc with ⟨h1, _⟩ | ⟨h1, _⟩ | ⟨h1, _⟩
    · unfold step
      rw [hp, h1]
      cases op with
      | clone => exact absurd hop id
      | withLockPanic f => exact absurd hop id
      | draw => exact ⟨by simp only [Function.update_self, left, hp, h1, List.length_cons]; omega, fun v hv => by simp only [Function.update_of_ne hv]⟩
      | seed s => exact ⟨by simp only [Function.update_self, left, hp, h1, List.length_cons]; omega, fun v hv => by simp only [Function.update_of_ne hv]⟩
      | withLock f => exact ⟨by simp only [Function.update_self, left, hp, h1, List.length_cons]; omega, fun v hv => by simp only [Function.update_of_ne hv]⟩
    · unfold step
      rw [hp, h1]
      exact ⟨by simp only [Function.update_self, left, hp, h1, List.length_cons]; omega, fun v hv => by simp only [Function.update_of_ne hv]⟩
    · unfold step
      rw [hp, h1]
      exact ⟨by simp only [Function.update_self, left, hp, h1, List.length_cons]; omega, fun v hv => by simp only [Function.update_of_ne hv]⟩

/-- A counter with a second word that is set during a draw; two goroutines, interleaved. -/
def counter : Gen (ℕ × Bool) ℕ := ⟨fun s => (s.1, true), fun s => (s.1, (s.1 + 1, false))⟩

example : ((run counter (init (5, false) (fun t => if t < 2 then [.draw, .draw] else [])) [0, 1, 0, 1, 0, 0, 1, 0, 1, 1, 1]).log.map (fun e => (e.1, match e.2 with | .drew v => v | _ => 0))) = [(0, 5), (1, 6)] := by
  decide

/-- **C149 fails for `SourceClone`**: it does not take the lock, so while another goroutine draws it can copy a state between the two writes; when that state is not one the source ever has between calls, the clone's state belongs to no point of the stream. -/
theorem C149_clone_violated (g : Gen S V) (s0 : S) (hmid : ∀ k, ((fun s => (g.next s).2)^[k]) s0 ≠ g.half₁ s0) :
    ∃ (sched : List ℕ) (c : S), (1, Ev.cloned c) ∈ (run g (init s0 (fun t => if t = 0 then [.draw] else if t = 1 then [.clone] else [])) sched).log ∧
      ∀ k, ((fun s => (g.next s).2)^[k]) s0 ≠ c := by
  refine ⟨[0, 0, 1], g.half₁ s0, ?_, hmid⟩
  simp [run, step, init, Function.update]

/-- The hypothesis holds for the counter. -/
example (k : ℕ) : ((fun s => (counter.next s).2)^[k]) (5, false) ≠ counter.half₁ (5, false) := by
  have : ∀ k (s : ℕ × Bool), s.2 = false → (((fun s => (counter.next s).2)^[k]) s).2 = false := by
    intro k
    induction k with
    | zero => intro s h; exact h
    | succ k ih => intro s h; rw [Function.iterate_succ_apply]; exact ih _ rfl
  intro h
  have h2 := this k (5, false) rfl
  rw [h] at h2
  exact absurd h2 (by decide)

/-- Once the lock is held by nobody who will release it, nothing happens any more except clones. -/
theorem stuck (g : Gen S V) (t0 : ℕ) : ∀ (sched : List ℕ) (st : State S V), st.lock = some t0 → (∀ t, (st.th t).pc = 0) → (∀ t, ∀ op ∈ (st.th t).prog, op.Safe) →
    (run g st sched) = st := by
  intro sched
  induction sched with
  | nil => intros; rfl
  | cons t sched ih =>
    intro st hl hpc hs
    have : step g st t = st := by
      unfold step
      rcases hp : (st.th t).prog with _ | ⟨op, rest⟩
      · rfl
      · have := hs t op (by simp [hp])
        rw [hpc t]
        cases op <;> simp only [hl] <;> exact absurd this id
    show run g (step g st t) sched = st
    rw [this]
    exact ih st hl hpc hs

/-- **C149 fails when a function given to `WithLock` panics** (the caller recovers): the mutex stays locked, so the source is dead: whatever is scheduled afterwards, no call of any goroutine, the panicking one included, ever takes effect. -/
theorem C149_panic_violated (g : Gen S V) (s0 : S) (f : S → S) (after : List (Op S)) (prog : ℕ → List (Op S)) (hs : ∀ t, ∀ op ∈ prog t, op.Safe) (ha : ∀ op ∈ after, op.Safe) (sched : List ℕ) :
    (run g (init s0 (Function.update prog 0 (.withLockPanic f :: after))) (0 :: 0 :: sched)).log = [(0, Ev.panicked f)] ∧
    ∀ t, ((run g (init s0 (Function.update prog 0 (.withLockPanic f :: after))) (0 :: 0 :: sched)).th t).prog = Function.update prog 0 after t := by
  have h2 : run g (init s0 (Function.update prog 0 (.withLockPanic f :: after))) (0 :: 0 :: sched) =
      run g (⟨f s0, some 0, Function.update (fun t => ⟨prog t, 0⟩) 0 ⟨after, 0⟩, [(0, Ev.panicked f)]⟩ : State S V) sched := by
    unfold run
    simp only [List.foldl_cons]
    congr 1
    simp only [step, init, Function.update_self, List.nil_append, State.mk.injEq, true_and, and_true]
    funext t
    by_cases ht : t = 0
    · subst ht; simp
    · simp [Function.update_of_ne ht]
  have h3 := stuck g 0 sched (⟨f s0, some 0, Function.update (fun t => ⟨prog t, 0⟩) 0 ⟨after, 0⟩, [(0, Ev.panicked f)]⟩ : State S V) rfl
    (fun t => by by_cases ht : t = 0
                 · subst ht; simp
                 · simp [Function.update_of_ne ht])
    (fun t op hop => by by_cases ht : t = 0
                        · subst ht; simp at hop; exact ha op hop
                        · simp [Function.update_of_ne ht] at hop; exact hs t op hop)
  rw [h2, h3]
  refine ⟨rfl, fun t => ?_⟩
  by_cases ht : t = 0
  · subst ht; simp
  · simp [Function.update_of_ne ht]

end Sk.Source
