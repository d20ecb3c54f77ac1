import Verif.Model.Split
import Mathlib.Data.List.Basic
import Mathlib.Data.List.Permutation
import Mathlib.Algebra.BigOperators.Group.List.Basic
import Mathlib.Tactic.Ring
import Mathlib.Tactic.Linarith

set_option autoImplicit false

namespace Sk.Split

theorem swapAt_some {α : Type*} {a b : List α} {p : ℕ × ℕ} (h : swapAt a p = some b) : b.Perm a := by
  unfold swapAt at h
  split at h
  · rename_i x y hx hy
    rw [Option.some.injEq] at h
    subst h
    rw [List.getElem?_eq_some_iff] at hx hy
    obtain ⟨h1, rfl⟩ := hx
    obtain ⟨h2, rfl⟩ := hy
    exact List.set_set_perm h1 h2
  · cases h

theorem swapAt_isSome {α : Type*} (a : List α) (p : ℕ × ℕ) (h1 : p.1 < a.length) (h2 : p.2 < a.length) :
    ∃ b, swapAt a p = some b := by
  unfold swapAt
  rw [List.getElem?_eq_getElem h1, List.getElem?_eq_getElem h2]
  exact ⟨_, rfl⟩

theorem swaps_ok {α : Type*} : ∀ (ps : List (ℕ × ℕ)) (a : List α), (∀ p ∈ ps, p.1 < a.length ∧ p.2 < a.length) →
    ∃ b, ps.foldlM (fun a p => swapAt a p) a = some b ∧ b.Perm a
  | [], a, _ => ⟨a, rfl, List.Perm.refl _⟩
  | p :: ps, a, h => by
      obtain ⟨b, hb⟩ := swapAt_isSome a p (h p List.mem_cons_self).1 (h p List.mem_cons_self).2
      have hp := swapAt_some hb
      obtain ⟨c, hc, hpc⟩ := swaps_ok ps b (by
        intro q hq
        rw [hp.length_eq]
        exact h q (List.mem_cons_of_mem _ hq))
      refine ⟨c, ?_, hpc.trans hp⟩
      simp [List.foldlM_cons, hb, hc]

theorem nTest_le (N n i : ℕ) (hn : 0 < n) : nTest N n i ≤ N := by
  unfold nTest
  have h := Nat.div_add_mod N n
  have h2 : N / n ≤ n * (N / n) := Nat.le_mul_of_pos_left _ hn
  split <;> omega

theorem splitOne_ok (N n : ℕ) (hn : 0 < n) (shuffle : Bool) (i : ℕ) (d : Draw) (hd : d.Valid N)
    (hN : shuffle = true ∨ 0 < N) :
    ∃ f, splitOne N n shuffle i d = some f ∧ (f.train ++ f.test).Perm (List.range N) ∧
      f.test.length = nTest N n i := by
  have hle := nTest_le N n i hn
  have key : ∃ a', (if shuffle then (List.range N) |> d.swaps.foldlM (fun a p => swapAt a p)
    else if N = 0 then none
    else (List.range N) |> (windowSwaps N (nTest N n i) d.start).foldlM (fun a p => swapAt a p)) = some a' ∧
      a'.Perm (List.range N) := by
    cases shuffle with
    | true =>
      simpa using swaps_ok d.swaps (List.range N) (by simpa using fun a b h => hd.1 (a, b) h)
    | false =>
      have hN : 0 < N := by simpa using hN
      have : N ≠ 0 := by omega
      simp only [Bool.false_eq_true, if_false, this]
      refine swaps_ok _ (List.range N) ?_
      intro p hp
      simp only [windowSwaps, List.mem_map, List.mem_range] at hp
      obtain ⟨j, hj, rfl⟩ := hp
      simp only [List.length_range]
      refine ⟨Nat.mod_lt _ hN, by omega⟩
  obtain ⟨a', ha, hp⟩ := key
  refine ⟨_, by unfold splitOne; simp only; rw [ha]; rfl, ?_, ?_⟩
  · simpa using hp
  · have := hp.length_eq
    simp at this
    simp
    omega

theorem sum_range_ite (q m : ℕ) : ∀ n, m ≤ n →
    ((List.range n).map (fun i => if i < m then q + 1 else q)).sum = n * q + m := by
  intro n
  induction n with
  | zero => intro h; simp at h; simp [h]
  | succ n ih =>
    intro h
    rw [List.range_succ, List.map_append, List.sum_append]
    by_cases hm : m ≤ n
    · rw [ih hm]
      have : ¬ n < m := by omega
      simp [this]; ring
    · have hm' : m = n + 1 := by omega
      subst hm'
      have : (List.range n).map (fun i => if i < n + 1 then q + 1 else q) = (List.range n).map (fun _ => q + 1) := by
        apply List.map_congr_left
        intro a ha
        simp at ha
        have : a < n + 1 := by omega
        simp [this]
      rw [this]
      simp
      ring

theorem sum_nTest (N n : ℕ) (hn : 0 < n) : ((List.range n).map (nTest N n)).sum = N := by
  have h := sum_range_ite (N / n) (N % n) n (Nat.le_of_lt (Nat.mod_lt _ hn))
  have h2 := Nat.div_add_mod N n
  show ((List.range n).map (fun i => if i < N % n then N / n + 1 else N / n)).sum = N
  rw [h]; exact h2

theorem mapM_ok {α β : Type*} (f : α → Option β) (P : α → β → Prop) : ∀ (l : List α),
    (∀ a ∈ l, ∃ b, f a = some b ∧ P a b) → ∃ r, l.mapM f = some r ∧ List.Forall₂ P l r
  | [], _ => ⟨[], rfl, List.Forall₂.nil⟩
  | a :: l, h => by
      obtain ⟨b, hb, hP⟩ := h a List.mem_cons_self
      obtain ⟨r, hr, hF⟩ := mapM_ok f P l (fun x hx => h x (List.mem_cons_of_mem _ hx))
      refine ⟨b :: r, ?_, List.Forall₂.cons hP hF⟩
      simp [List.mapM_cons, hb, hr]

theorem swapAt_self {α : Type*} (a : List α) (i : ℕ) (h : i < a.length) : swapAt a (i, i) = some a := by
  unfold swapAt
  simp [List.getElem?_eq_getElem h]

theorem selfswaps {α : Type*} : ∀ (ps : List (ℕ × ℕ)) (a : List α), (∀ p ∈ ps, p.1 = p.2 ∧ p.2 < a.length) →
    ps.foldlM (fun a p => swapAt a p) a = some a
  | [], a, _ => rfl
  | p :: ps, a, h => by
      obtain ⟨h1, h2⟩ := h p List.mem_cons_self
      have : swapAt a p = some a := by
        have : p = (p.2, p.2) := by ext <;> simp [h1]
        rw [this]; exact swapAt_self a _ h2
      simp [List.foldlM_cons, this, selfswaps ps a (fun q hq => h q (List.mem_cons_of_mem _ hq))]

/-- a draw that leaves the identity permutation in place -/
def idDraw (N n i : ℕ) : Draw := ⟨[], N - nTest N n i⟩

theorem splitOne_id (N n : ℕ) (hn : 0 < n) (hN : 0 < N) (shuffle : Bool) (i : ℕ) :
    splitOne N n shuffle i (idDraw N n i) =
      some ⟨(List.range N).take (N - nTest N n i), (List.range N).drop (N - nTest N n i)⟩ := by
  have hle := nTest_le N n i hn
  unfold splitOne
  cases shuffle with
  | true => simp [idDraw]
  | false =>
    have h0 : N ≠ 0 := by omega
    simp only [Bool.false_eq_true, if_false, h0, idDraw]
    rw [selfswaps]
    · rfl
    · intro p hp
      simp only [windowSwaps, List.mem_map, List.mem_range] at hp
      obtain ⟨j, hj, rfl⟩ := hp
      simp only [List.length_range]
      refine ⟨Nat.mod_eq_of_lt (by omega), by omega⟩

theorem mapM_getElem?_map {ρ : Type} (X : List ρ) : ∀ (ind : List ℕ) (h : ∀ j ∈ ind, j < X.length),
    ind.mapM (fun j => X[j]?) = some (ind.pmap (fun j hj => X[j]'hj) h)
  | [], _ => rfl
  | j :: ind, h => by
      have hj := h j List.mem_cons_self
      rw [List.mapM_cons, mapM_getElem?_map X ind (fun j hj => h j (List.mem_cons_of_mem _ hj))]
      simp [List.getElem?_eq_getElem hj]

theorem pmap_range_getElem {ρ : Type} (X : List ρ) (h : ∀ j ∈ List.range X.length, j < X.length) :
    (List.range X.length).pmap (fun j hj => X[j]'hj) h = X := by
  apply List.ext_getElem
  · simp
  · intro i h1 h2
    simp

theorem zip_pmap {ρ σ : Type} (X : List ρ) (Y : List σ) : ∀ (ind : List ℕ) (h1 : ∀ j ∈ ind, j < X.length)
    (h2 : ∀ j ∈ ind, j < Y.length) (h3 : ∀ j ∈ ind, j < (X.zip Y).length),
    (ind.pmap (fun j hj => X[j]'hj) h1).zip (ind.pmap (fun j hj => Y[j]'hj) h2)
      = ind.pmap (fun j hj => (X.zip Y)[j]'hj) h3
  | [], _, _, _ => rfl
  | j :: ind, h1, h2, h3 => by
      simp only [List.pmap_cons, List.zip_cons_cons]
      rw [zip_pmap X Y ind _ _ (fun j hj => h3 j (List.mem_cons_of_mem _ hj)), List.getElem_zip]

end Sk.Split
