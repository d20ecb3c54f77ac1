import Verif.Model.Parallel
import Mathlib.Data.List.Basic
import Mathlib.Tactic.Ring

set_option autoImplicit false

namespace Sk.Parallel

/-- indices of the range of a call -/
def Call.indices (c : Call) : List Nat := List.range' c.start (c.stop - c.start)

theorem dispatch_indices (N s : Nat) : ∀ (rem th : Nat), N ≤ (th + rem) * s → th * s ≤ N →
    (dispatch N s rem th).flatMap Call.indices = List.range' (th * s) (N - th * s)
  | 0, th, h, h2 => by
      have : N - th * s = 0 := by simp at h; omega
      simp [dispatch, this]
  | rem + 1, th, h, h2 => by
      unfold dispatch
      split
      · rename_i h1
        split
        · rename_i h3
          have : N - th * s = 0 := by omega
          simp [this]
        · rename_i h3
          have hnil : dispatch N s rem (th + 1) = [] := by
            cases rem with
            | zero => rfl
            | succ r =>
              have h4 : (th + 1 + 1) * s > N := by
                have : (th + 1 + 1) * s = (th + 1) * s + s := by ring
                omega
              have h5 : N ≤ (th + 1) * s := by omega
              unfold dispatch
              simp [h4, h5]
          simp [hnil, Call.indices]
      · rename_i h1
        have h4 : (th + 1) * s ≤ N := by omega
        have ih := dispatch_indices N s rem (th + 1) (by
          have : th + 1 + rem = th + (rem + 1) := by omega
          rw [this]; exact h) h4
        have h5 : (th + 1) * s = th * s + s := by ring
        rw [List.flatMap_cons, ih]
        simp only [Call.indices]
        rw [h5]
        have h6 : N - th * s = (th * s + s - th * s) + (N - (th * s + s)) := by omega
        rw [h6, ← List.range'_append_1]
        congr 2
        omega

theorem dispatch_ok (N s : Nat) : ∀ (rem th : Nat), ∀ c ∈ dispatch N s rem th,
    th ≤ c.th ∧ c.th < th + rem ∧ c.start ≤ c.stop ∧ c.stop ≤ N
  | 0, th, c, h => by simp [dispatch] at h
  | rem + 1, th, c, h => by
      have hs : (th + 1) * s = th * s + s := by ring
      unfold dispatch at h
      split at h
      · split at h
        · simp at h
        · rcases List.mem_cons.1 h with h | h
          · subst h; simp; omega
          · have := dispatch_ok N s rem (th + 1) c h; omega
      · rcases List.mem_cons.1 h with h | h
        · subst h; simp; omega
        · have := dispatch_ok N s rem (th + 1) c h; omega

theorem dispatch_sorted (N s : Nat) : ∀ (rem th : Nat),
    (dispatch N s rem th).Pairwise (fun a b => a.th < b.th)
  | 0, th => by simp [dispatch]
  | rem + 1, th => by
      unfold dispatch
      split
      · split
        · simp
        · refine List.Pairwise.cons ?_ (dispatch_sorted N s rem (th + 1))
          intro c hc
          have := dispatch_ok N s rem (th + 1) c hc
          simp; omega
      · refine List.Pairwise.cons ?_ (dispatch_sorted N s rem (th + 1))
        intro c hc
        have := dispatch_ok N s rem (th + 1) c hc
        simp; omega

theorem ceil_mul_ge (N t : Nat) (ht : 0 < t) : N ≤ t * ((N + t - 1) / t) := by
  have h := Nat.div_add_mod (N + t - 1) t
  have h2 := Nat.mod_lt (N + t - 1) ht
  omega

/-! ### interleavings -/

theorem runSeq_append {α : Type} : ∀ (as bs : List (Act α)) (m : Nat → α),
    runSeq (as ++ bs) m = runSeq bs (runSeq as m)
  | [], _, _ => rfl
  | a :: as, bs, m => by simp [runSeq, runSeq_append as bs]

/-- The final content of one cell only depends on the actions on that cell. -/
theorem runSeq_cell {α : Type} : ∀ (as : List (Act α)) (m : Nat → α) (i : Nat),
    runSeq as m i = (as.filter (fun a => a.idx = i)).foldl (fun x a => a.upd x) (m i)
  | [], _, _ => rfl
  | a :: as, m, i => by
      rw [runSeq, runSeq_cell as]
      by_cases h : a.idx = i
      · simp [h, Act.apply]
      · have : ¬ i = a.idx := fun e => h e.symm
        simp [h, Act.apply, this]

/-- Worker `k` is the only one that touches the cells of its part. -/
def OwnCells {α : Type} (ws : List (List (Act α))) : Prop :=
  ws.Pairwise (fun w w' => ∀ a ∈ w, ∀ b ∈ w', a.idx ≠ b.idx)

theorem run_cell {α : Type} {ws : List (List (Act α))} {m m' : Nat → α} (h : Run ws m m') :
    OwnCells ws → ∀ i, m' i = runSeq ws.flatten m i := by
  induction h with
  | done h0 =>
    intro _ i
    rw [List.flatten_eq_nil_iff.2 h0]; rfl
  | step hr ih =>
    intro hd i
    rename_i pre a w post m m'
    have hd' : OwnCells (pre ++ w :: post) := by
      unfold OwnCells at hd ⊢
      rw [List.pairwise_append] at hd ⊢
      obtain ⟨h1, h2, h3⟩ := hd
      rw [List.pairwise_cons] at h2 ⊢
      refine ⟨h1, ⟨fun w' hw' x hx => h2.1 w' hw' x (List.mem_cons_of_mem _ hx), h2.2⟩, ?_⟩
      intro p hp q hq x hx y hy
      rcases List.mem_cons.1 hq with hq | hq
      · subst hq
        exact h3 p hp _ List.mem_cons_self x hx y (List.mem_cons_of_mem _ hy)
      · exact h3 p hp q (List.mem_cons_of_mem _ hq) x hx y hy
    rw [ih hd' i]
    simp only [List.flatten_append, List.flatten_cons, List.cons_append]
    rw [runSeq_cell, runSeq_cell]
    simp only [List.filter_append, List.foldl_append, List.filter_cons]
    by_cases hi : a.idx = i
    · -- no action of `pre` touches cell i
      have hp : pre.flatten.filter (fun b => decide (b.idx = i)) = [] := by
        rw [List.filter_eq_nil_iff]
        intro b hb
        rw [List.mem_flatten] at hb
        obtain ⟨p, hp, hb⟩ := hb
        unfold OwnCells at hd
        rw [List.pairwise_append] at hd
        have := hd.2.2 p hp _ List.mem_cons_self b hb a List.mem_cons_self
        simp
        omega
      simp [hi, hp, Act.apply]
    · have : ¬ i = a.idx := fun e => hi e.symm
      simp [hi, Act.apply, this]

end Sk.Parallel
