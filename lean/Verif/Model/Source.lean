import Mathlib.Logic.Function.Basic
import Mathlib.Data.Nat.Notation

/-!
# `base/source.go`: `LockedSource` used by several goroutines

A state machine; a schedule is the list of the goroutines that are given the processor, one step each.  A blocked goroutine does nothing in its step.
The generator (`randomkit.RKState`, not in the repository) has a state `S`; one draw writes the state twice, `half₁` then `half₂`
(it is a Mersenne Twister: the key words and the position are written one after the other).  Memory is sequentially consistent.
-/
set_option autoImplicit false

namespace Sk.Source

/-- The generator: the two writes of `Uint64`, the second one with the value returned. -/
structure Gen (S V : Type) where
  half₁ : S → S
  half₂ : S → V × S

/-- What a goroutine calls: `Uint64`, `Seed` (with the state that the seed gives), `WithLock` with a function that changes the source or with one that panics (the caller recovers), `SourceClone`. -/
inductive Op (S : Type) where
  | draw
  | seed (s : S)
  | withLock (f : S → S)
  | withLockPanic (f : S → S)
  | clone

/-- What has happened. -/
inductive Ev (S V : Type) where
  | drew (v : V)
  | seeded (s : S)
  | called (f : S → S)
  | panicked (f : S → S)
  | cloned (s : S)

/-- A goroutine: the calls it has not finished, and its place in the first of them (0: before `Lock`; 1: locked; 2: between the writes of a draw; 3: before `Unlock`). -/
structure Thread (S : Type) where
  prog : List (Op S)
  pc : ℕ

structure State (S V : Type) where
  src : S
  lock : Option ℕ
  th : ℕ → Thread S
  log : List (ℕ × Ev S V)

variable {S V : Type}

/-- One step of the goroutine `t`: `WithLock` /repo/base/source.go:37-41, `Uint64` 44-49, `Seed` 52-56, `SourceClone` 59-61 (reads the source without the lock).
Nothing is deferred: when the function given to `WithLock` panics the mutex is not unlocked. -/
def step (g : Gen S V) (st : State S V) (t : ℕ) : State S V :=
  match (st.th t).prog with
  | [] => st
  | op :: rest =>
    match (st.th t).pc with
    | 0 =>
      match op with
      | .clone => { st with th := Function.update st.th t ⟨rest, 0⟩, log := st.log ++ [(t, .cloned st.src)] }
      | op => match st.lock with
        | none => { st with lock := some t, th := Function.update st.th t ⟨op :: rest, 1⟩ }
        | some _ => st
    | 1 =>
      match op with
      | .draw => { st with src := g.half₁ st.src, th := Function.update st.th t ⟨op :: rest, 2⟩ }
      | .seed s => { st with src := s, th := Function.update st.th t ⟨op :: rest, 3⟩, log := st.log ++ [(t, .seeded s)] }
      | .withLock f => { st with src := f st.src, th := Function.update st.th t ⟨op :: rest, 3⟩, log := st.log ++ [(t, .called f)] }
      | .withLockPanic f => { st with src := f st.src, th := Function.update st.th t ⟨rest, 0⟩, log := st.log ++ [(t, .panicked f)] }
      | .clone => st
    | 2 => { st with src := (g.half₂ st.src).2, th := Function.update st.th t ⟨op :: rest, 3⟩, log := st.log ++ [(t, .drew (g.half₂ st.src).1)] }
    | _ => { st with lock := none, th := Function.update st.th t ⟨rest, 0⟩ }

/-- The goroutines with their programs, before the first step. -/
def init (s : S) (prog : ℕ → List (Op S)) : State S V := ⟨s, none, fun t => ⟨prog t, 0⟩, []⟩

/-- A run with a schedule. -/
def run (g : Gen S V) (st : State S V) (sched : List ℕ) : State S V := sched.foldl (step g) st

end Sk.Source
