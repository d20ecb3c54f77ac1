import Verif.Model.RawLoops
import Mathlib.Algebra.Order.Ring.Rat
import Mathlib.Data.List.GetD
import Mathlib.Data.List.Nodup
import Mathlib.Tactic.Linarith
import Mathlib.Tactic.Ring

/-! # C206: a view of a wider matrix is transformed like a copy of it -/
set_option autoImplicit false

namespace Sk.RawLoops

variable {α β : Type}

/-! ## Specification -/

/-- The cell in row `r` and column `c`, as `At` reads it. -/
def Raw.cell (M : Raw α) (r c : ℕ) : Option α := if r < M.rows ∧ c < M.cols then M.data[r * M.stride + c]? else none

/-- A matrix as `RawMatrix()` gives it: at least one row and column, rows do not overlap, and every cell is there. -/
structure Valid (M : Raw α) : Prop where
  rows_pos : 0 < M.rows
  cols_pos : 0 < M.cols
  stride : M.cols ≤ M.stride
  there : ∀ r < M.rows, r * M.stride + M.cols ≤ M.data.length

/-- The same sizes and the same cells, in whatever layout. -/
structure Same (M M' : Raw α) : Prop where
  rows : M'.rows = M.rows
  cols : M'.cols = M.cols
  cell : ∀ r c, M'.cell r c = M.cell r c

/-! ## The loops -/

theorem jumps_eq (stride : ℕ) (hs : 0 < stride) (bound : ℕ) : ∀ (n k fuel : ℕ), bound = (k + n) * stride → n ≤ fuel → jumps stride bound fuel (k * stride) = (List.range' k n).map (· * stride) := by
  intro n
  induction n with
  | zero =>
    intro k fuel hb hf
    cases fuel with
    | zero => rfl
    | succ fuel =>
      rw [jumps, if_neg (by rw [hb, Nat.add_zero]; omega)]
      rfl
  | succ n ih =>
    intro k fuel hb hf
    obtain ⟨fuel, rfl⟩ : ∃ g, fuel = g + 1 := ⟨fuel - 1, by omega⟩
    rw [jumps, if_pos (by rw [hb]; exact Nat.mul_lt_mul_of_pos_right (by omega) hs)]
    rw [List.range'_succ, List.map_cons]
    congr 1
    rw [show k * stride + stride = (k + 1) * stride by ring]
    exact ih (k + 1) fuel (by rw [hb]; ring) (by omega)

theorem offsets_eq {M : Raw α} (h : Valid M) : M.offsets = (List.range M.rows).map (· * M.stride) := by
  have hs : 0 < M.stride := lt_of_lt_of_le h.cols_pos h.stride
  have := jumps_eq M.stride hs (M.rows * M.stride) M.rows 0 (M.rows * M.stride) (by ring) (Nat.le_mul_of_pos_right _ hs)
  rw [Nat.zero_mul] at this
  rw [Raw.offsets, this, List.range_eq_range']

theorem offsets_zipIdx {M : Raw α} (h : Valid M) : M.offsets.zipIdx = (List.range M.rows).map (fun r => (r * M.stride, r)) := by
  rw [offsets_eq h]
  apply List.ext_getElem
  · simp
  · intro i h1 h2
    simp

theorem foldlM_congr {σ ι : Type} {f g : σ → ι → Option σ} : ∀ (l : List ι) (s : σ), (∀ i ∈ l, ∀ s, f s i = g s i) → l.foldlM f s = l.foldlM g s := by
  intro l
  induction l with
  | nil => intro s _; rfl
  | cons a l ih =>
    intro s h
    rw [List.foldlM_cons, List.foldlM_cons, h a (by simp)]
    cases g s a with
    | none => rfl
    | some t => exact ih t (fun i hi => h i (by simp [hi]))

theorem foldlM_map {σ ι κ : Type} (f : σ → κ → Option σ) (g : ι → κ) : ∀ (l : List ι) (s : σ), (l.map g).foldlM f s = l.foldlM (fun s i => f s (g i)) s := by
  intro l
  induction l with
  | nil => intro s; rfl
  | cons a l ih =>
    intro s
    rw [List.map_cons, List.foldlM_cons, List.foldlM_cons]
    cases f s (g a) with
    | none => rfl
    | some t => exact ih t

theorem cell_read {M : Raw α} (r c : ℕ) (hr : r < M.rows) (hc : c < M.cols) : M.data[r * M.stride + c]? = M.cell r c := by
  rw [Raw.cell, if_pos ⟨hr, hc⟩]

theorem colLoop_eq {M : Raw α} (h : Valid M) (width : ℕ) (f : ℕ → α → Option β) (out : List β) :
    colLoop M width f out = (List.range M.cols).foldlM (fun out i => (List.range M.rows).foldlM (fun out r => (M.cell r i).bind fun v => (f i v).bind fun w => setAt out (r * width + i) w) out) out := by
  unfold colLoop
  rw [offsets_zipIdx h]
  refine foldlM_congr _ _ (fun i hi s => ?_)
  rw [foldlM_map]
  refine foldlM_congr _ _ (fun r hr s => ?_)
  simp only
  rw [cell_read r i (List.mem_range.1 hr) (List.mem_range.1 hi)]

/-- The cells of row `r`. -/
def Raw.row (M : Raw α) (r : ℕ) : List α := (List.range M.cols).filterMap (M.cell r)

theorem cut_row {M : Raw α} (h : Valid M) {r : ℕ} (hr : r < M.rows) : cut M.data (r * M.stride) (r * M.stride + M.cols) = some (M.row r) := by
  have hl := h.there r hr
  unfold cut
  rw [if_pos ⟨by omega, hl⟩]
  congr 1
  rw [show r * M.stride + M.cols - r * M.stride = M.cols by omega]
  have hrow : ∀ c ∈ List.range M.cols, M.cell r c = some (M.data[r * M.stride + c]?.getD (M.data[r * M.stride]'(by have := h.cols_pos; omega))) := by
    intro c hc
    have hc' := List.mem_range.1 hc
    rw [Raw.cell, if_pos ⟨hr, hc'⟩, List.getElem?_eq_getElem (by omega)]
    rfl
  unfold Raw.row
  rw [List.filterMap_congr hrow, List.filterMap_eq_map']
  apply List.ext_getElem
  · simp
    omega
  · intro i h1 h2
    have hi : i < M.cols := by simpa using h2
    simp only [List.getElem_take, List.getElem_drop, List.getElem_map, List.getElem_range]
    rw [List.getElem?_eq_getElem (by omega)]
    rfl

theorem rowLoop_eq {M : Raw α} (h : Valid M) (width : ℕ) (f : ℕ → α → Option (β × Bool)) (out : List β) :
    rowLoop M width f out = (List.range M.rows).foldlM (fun out r => inRow f (r * width) (M.row r) 0 out) out := by
  unfold rowLoop
  rw [offsets_zipIdx h, foldlM_map]
  refine foldlM_congr _ _ (fun r hr s => ?_)
  simp only
  rw [cut_row h (List.mem_range.1 hr)]
  rfl

theorem row_same {M M' : Raw α} (hs : Same M M') (r : ℕ) : M'.row r = M.row r := by
  unfold Raw.row
  rw [hs.cols]
  exact List.filterMap_congr (fun c _ => hs.cell r c)

/-! ## Views and copies -/

theorem colLoop_same {M M' : Raw α} (h : Valid M) (h' : Valid M') (hs : Same M M') (width : ℕ) (f : ℕ → α → Option β) (out : List β) : colLoop M' width f out = colLoop M width f out := by
  rw [colLoop_eq h, colLoop_eq h', hs.cols, hs.rows]
  simp only [hs.cell]

theorem rowLoop_same {M M' : Raw α} (h : Valid M) (h' : Valid M') (hs : Same M M') (width : ℕ) (f : ℕ → α → Option (β × Bool)) (out : List β) : rowLoop M' width f out = rowLoop M width f out := by
  rw [rowLoop_eq h, rowLoop_eq h', hs.rows]
  simp only [row_same hs]

theorem mapM_some {ι : Type} {f : ι → Option β} : ∀ (l : List ι), (∀ i ∈ l, (f i).isSome = true) → ∃ l', l.mapM f = some l' ∧ l'.length = l.length ∧ ∀ k : ℕ, l'[k]? = l[k]?.bind f := by
  intro l
  induction l with
  | nil => intro _; exact ⟨[], rfl, rfl, fun k => by simp⟩
  | cons a l ih =>
    intro h
    obtain ⟨l', e, hl, hk⟩ := ih (fun i hi => h i (by simp [hi]))
    obtain ⟨b, hb⟩ := Option.isSome_iff_exists.1 (h a (by simp))
    refine ⟨b :: l', ?_, by simp [hl], ?_⟩
    · rw [List.mapM_cons, hb, e]; rfl
    · intro k
      cases k with
      | zero => simp [hb]
      | succ k => simpa using hk k

/-- **C206 (reading).** Reading column `i` of a matrix of any layout gives the cells of the column from top to bottom. -/
theorem C206_column {M : Raw α} (h : Valid M) (i : ℕ) (hi : i < M.cols) : ∃ l, column M i = some l ∧ l.length = M.rows ∧ ∀ r < M.rows, l[r]? = M.cell r i := by
  have hex : ∀ r < M.rows, r * M.stride + i < M.data.length := fun r hr => by
    have := h.there r hr
    omega
  obtain ⟨l, e, hl, hk⟩ := mapM_some (f := fun jX => M.data[jX + i]?) M.offsets (by
    intro j hj
    rw [offsets_eq h] at hj
    obtain ⟨r, hr, rfl⟩ := List.mem_map.1 hj
    rw [List.getElem?_eq_getElem (hex r (List.mem_range.1 hr))]
    rfl)
  refine ⟨l, e, by rw [hl, offsets_eq h]; simp, ?_⟩
  intro r hr
  rw [hk, offsets_eq h, List.getElem?_map, List.getElem?_range hr, Raw.cell, if_pos ⟨hr, hi⟩]
  rfl

/-! ## Sequences of writes -/

theorem foldlM_flatMap {σ ι κ : Type} (f : σ → κ → Option σ) (g : ι → List κ) : ∀ (l : List ι) (s : σ), (l.flatMap g).foldlM f s = l.foldlM (fun s i => (g i).foldlM f s) s := by
  intro l
  induction l with
  | nil => intro s; rfl
  | cons a l ih =>
    intro s
    rw [List.flatMap_cons, List.foldlM_append, List.foldlM_cons]
    cases (g a).foldlM f s with
    | none => rfl
    | some t => exact ih t

theorem writes {ι : Type} (pos : ι → ℕ) (val : ι → Option β) : ∀ (ps : List ι) (out : List β), (ps.map pos).Nodup → (∀ p ∈ ps, pos p < out.length) → (∀ p ∈ ps, (val p).isSome = true) →
    ∃ out', ps.foldlM (fun out p => (val p).bind fun w => setAt out (pos p) w) out = some out' ∧ out'.length = out.length ∧ (∀ p ∈ ps, out'[pos p]? = val p) ∧ ∀ q, q ∉ ps.map pos → out'[q]? = out[q]? := by
  intro ps
  induction ps with
  | nil => intro out _ _ _; exact ⟨out, rfl, rfl, by simp, by simp⟩
  | cons a ps ih =>
    intro out hn hl hv
    obtain ⟨w, hw⟩ := Option.isSome_iff_exists.1 (hv a (by simp))
    have ha := hl a (by simp)
    rw [List.map_cons, List.nodup_cons] at hn
    obtain ⟨out', e, h1, h2, h3⟩ := ih (out.set (pos a) w) hn.2 (by intro p hp; rw [List.length_set]; exact hl p (by simp [hp])) (fun p hp => hv p (by simp [hp]))
    refine ⟨out', ?_, by rw [h1, List.length_set], ?_, ?_⟩
    · rw [List.foldlM_cons, hw]
      simp only [Option.bind_some, setAt, if_pos ha]
      exact e
    · intro p hp
      rcases List.mem_cons.1 hp with rfl | hp
      · rw [h3 _ hn.1, hw, List.getElem?_set_self ha]
      · exact h2 p hp
    · intro q hq
      rw [List.map_cons, List.mem_cons, not_or] at hq
      rw [h3 q hq.2, List.getElem?_set_ne (fun e => hq.1 e.symm)]

theorem writes_fail {ι : Type} (pos : ι → ℕ) (val : ι → Option β) : ∀ (ps : List ι) (out : List β), (∃ p ∈ ps, val p = none) → ps.foldlM (fun out p => (val p).bind fun w => setAt out (pos p) w) out = none := by
  intro ps
  induction ps with
  | nil => rintro out ⟨p, hp, -⟩; cases hp
  | cons a ps ih =>
    rintro out ⟨p, hp, hv⟩
    rw [List.foldlM_cons]
    cases e : val a with
    | none => rfl
    | some w =>
      simp only [Option.bind_some]
      unfold setAt
      split
      · rcases List.mem_cons.1 hp with rfl | hp
        · rw [e] at hv; cases hv
        · exact ih _ ⟨p, hp, hv⟩
      · rfl

/-- The result of writing `f c x` for every cell: the table of results, or a panic when one of them fails. -/
def Wrote (M : Raw α) (f : ℕ → α → Option β) (res : Option (List β)) : Prop :=
  ((∀ r < M.rows, ∀ c < M.cols, ((M.cell r c).bind (f c)).isSome = true) →
    ∃ out, res = some out ∧ out.length = M.rows * M.cols ∧ ∀ r < M.rows, ∀ c < M.cols, out[r * M.cols + c]? = (M.cell r c).bind (f c)) ∧
  ((∃ r < M.rows, ∃ c < M.cols, (M.cell r c).bind (f c) = none) → res = none)

theorem flat_inj {n r c r' c' : ℕ} (hc : c < n) (hc' : c' < n) (h : r * n + c = r' * n + c') : r = r' ∧ c = c' := by
  have h1 : (r * n + c) / n = r := by rw [Nat.mul_comm, Nat.mul_add_div (by omega), Nat.div_eq_of_lt hc, Nat.add_zero]
  have h2 : (r' * n + c') / n = r' := by rw [Nat.mul_comm, Nat.mul_add_div (by omega), Nat.div_eq_of_lt hc', Nat.add_zero]
  have : r = r' := by rw [← h1, ← h2, h]
  subst this
  exact ⟨rfl, by omega⟩

theorem wrote_of {M : Raw α} (f : ℕ → α → Option β) (ps : List (ℕ × ℕ)) (hmem : ∀ r c, (r, c) ∈ ps ↔ r < M.rows ∧ c < M.cols) (hn : ps.Nodup) (out : List β) (hl : out.length = M.rows * M.cols) :
    Wrote M f (ps.foldlM (fun out p => ((M.cell p.1 p.2).bind (f p.2)).bind fun w => setAt out (p.1 * M.cols + p.2) w) out) := by
  refine ⟨fun h => ?_, fun h => ?_⟩
  · obtain ⟨out', e, h1, h2, -⟩ := writes (fun p : ℕ × ℕ => p.1 * M.cols + p.2) (fun p => (M.cell p.1 p.2).bind (f p.2)) ps out (by
      refine (List.nodup_map_iff_inj_on hn).2 ?_
      rintro ⟨r, c⟩ h1 ⟨r', c'⟩ h2 e
      obtain ⟨a, b⟩ := flat_inj ((hmem r c).1 h1).2 ((hmem r' c').1 h2).2 e
      exact Prod.ext a b) (by
      rintro ⟨r, c⟩ hp
      have := (hmem r c).1 hp
      rw [hl]
      calc r * M.cols + c < r * M.cols + M.cols := by omega
        _ = (r + 1) * M.cols := by ring
        _ ≤ M.rows * M.cols := Nat.mul_le_mul_right _ (by omega)) (by
      rintro ⟨r, c⟩ hp
      exact h r ((hmem r c).1 hp).1 c ((hmem r c).1 hp).2)
    exact ⟨out', e, by rw [h1, hl], fun r hr c hc => h2 (r, c) ((hmem r c).2 ⟨hr, hc⟩)⟩
  · obtain ⟨r, hr, c, hc, e⟩ := h
    exact writes_fail (fun p : ℕ × ℕ => p.1 * M.cols + p.2) (fun p => (M.cell p.1 p.2).bind (f p.2)) ps out ⟨(r, c), (hmem r c).2 ⟨hr, hc⟩, e⟩

theorem colLoop_wrote {M : Raw α} (h : Valid M) (f : ℕ → α → Option β) (z : β) : Wrote M f (colLoop M M.cols f (List.replicate (M.rows * M.cols) z)) := by
  have := wrote_of (M := M) f ((List.range M.cols).flatMap (fun c => (List.range M.rows).map (fun r => (r, c)))) (by
    intro r c
    simp [and_comm]) (by
    rw [List.nodup_flatMap]
    refine ⟨fun c _ => List.Nodup.map (fun a b e => (Prod.mk.inj e).1) List.nodup_range, ?_⟩
    refine List.Pairwise.imp ?_ (List.nodup_range (n := M.cols))
    intro a b hab p h1 h2
    obtain ⟨_, -, rfl⟩ := List.mem_map.1 h1
    obtain ⟨_, -, e⟩ := List.mem_map.1 h2
    exact hab (Prod.mk.inj e).2.symm) (List.replicate (M.rows * M.cols) z) (by simp)
  rw [foldlM_flatMap] at this
  rw [colLoop_eq h]
  simp only [foldlM_map] at this
  simp only [← Option.bind_assoc]
  exact this

theorem inRow_eq (g : ℕ → α → Option β) (pos : ℕ) : ∀ (vs : List α) (i : ℕ) (out : List β),
    inRow (fun i v => (g i v).map (fun w => (w, false))) pos vs i out = (vs.zipIdx i).foldlM (fun out p => (g p.2 p.1).bind fun w => setAt out (pos + p.2) w) out := by
  intro vs
  induction vs with
  | nil => intro i out; rfl
  | cons v vs ih =>
    intro i out
    rw [inRow, List.zipIdx_cons, List.foldlM_cons]
    cases g i v with
    | none => rfl
    | some w =>
      simp only [Option.map_some, Option.bind_some]
      cases setAt out (pos + i) w with
      | none => rfl
      | some out' => exact ih (i + 1) out'

theorem row_zipIdx {M : Raw α} (h : Valid M) {r : ℕ} (hr : r < M.rows) (k : α → ℕ → List β → Option (List β)) (out : List β) :
    (M.row r).zipIdx.foldlM (fun out p => k p.1 p.2 out) out = (List.range M.cols).foldlM (fun out c => (M.cell r c).bind fun v => k v c out) out := by
  have hl := h.there r hr
  have hp := h.cols_pos
  have hrow : ∀ c ∈ List.range M.cols, M.cell r c = some (M.data[r * M.stride + c]?.getD (M.data[r * M.stride]'(by omega))) := by
    intro c hc
    have hc' := List.mem_range.1 hc
    rw [Raw.cell, if_pos ⟨hr, hc'⟩, List.getElem?_eq_getElem (by omega)]
    rfl
  have e : (M.row r).zipIdx = (List.range M.cols).map (fun c => (M.data[r * M.stride + c]?.getD (M.data[r * M.stride]'(by omega)), c)) := by
    unfold Raw.row
    rw [List.filterMap_congr hrow, List.filterMap_eq_map']
    apply List.ext_getElem
    · simp
    · intro i h1 h2
      simp
  rw [e, foldlM_map]
  refine foldlM_congr _ _ (fun c hc s => ?_)
  rw [hrow c hc]
  rfl

theorem rowLoop_wrote {M : Raw α} (h : Valid M) (g : ℕ → α → Option β) (z : β) : Wrote M g (rowLoop M M.cols (fun i v => (g i v).map (fun w => (w, false))) (List.replicate (M.rows * M.cols) z)) := by
  have := wrote_of (M := M) g ((List.range M.rows).flatMap (fun r => (List.range M.cols).map (fun c => (r, c)))) (by
    intro r c
    simp) (by
    rw [List.nodup_flatMap]
    refine ⟨fun c _ => List.Nodup.map (fun a b e => (Prod.mk.inj e).2) List.nodup_range, ?_⟩
    refine List.Pairwise.imp ?_ (List.nodup_range (n := M.rows))
    intro a b hab p h1 h2
    obtain ⟨_, -, rfl⟩ := List.mem_map.1 h1
    obtain ⟨_, -, e⟩ := List.mem_map.1 h2
    exact hab (Prod.mk.inj e).1.symm) (List.replicate (M.rows * M.cols) z) (by simp)
  rw [foldlM_flatMap] at this
  rw [rowLoop_eq h]
  simp only [foldlM_map] at this
  have e : ∀ out : List β, (List.range M.rows).foldlM (fun out r => inRow (fun i v => (g i v).map (fun w => (w, false))) (r * M.cols) (M.row r) 0 out) out =
      (List.range M.rows).foldlM (fun out r => (List.range M.cols).foldlM (fun out c => ((M.cell r c).bind (g c)).bind fun w => setAt out (r * M.cols + c) w) out) out := by
    intro out
    refine foldlM_congr _ _ (fun r hr s => ?_)
    rw [inRow_eq, row_zipIdx h (List.mem_range.1 hr) (fun v c out => (g c v).bind fun w => setAt out (r * M.cols + c) w)]
    refine foldlM_congr _ _ (fun c _ s => ?_)
    rw [Option.bind_assoc]
  rw [e]
  exact this

/-! ## The transformers -/

/-- `res` is the row-major table of the same size as `M` that holds `g c x` where `M` holds `x` in column `c`. -/
def Table (M : Raw α) (g : ℕ → α → β) (res : Option (List β)) : Prop :=
  ∃ out, res = some out ∧ out.length = M.rows * M.cols ∧ ∀ r c x, M.cell r c = some x → out[r * M.cols + c]? = some (g c x)

theorem cell_some {M : Raw α} (h : Valid M) {r c : ℕ} (hr : r < M.rows) (hc : c < M.cols) : ∃ x, M.cell r c = some x := by
  have := h.there r hr
  exact ⟨M.data[r * M.stride + c]'(by omega), by rw [Raw.cell, if_pos ⟨hr, hc⟩, List.getElem?_eq_getElem]⟩

theorem cell_lt {M : Raw α} {r c : ℕ} {x : α} (h : M.cell r c = some x) : r < M.rows ∧ c < M.cols := by
  unfold Raw.cell at h
  split at h
  · assumption
  · cases h

theorem table_of {M : Raw α} (h : Valid M) {f : ℕ → α → Option β} {g : ℕ → α → β} {res : Option (List β)} (hw : Wrote M f res) (hf : ∀ c < M.cols, ∀ x, f c x = some (g c x)) : Table M g res := by
  obtain ⟨out, e, hl, ho⟩ := hw.1 (by
    intro r hr c hc
    obtain ⟨x, hx⟩ := cell_some h hr hc
    rw [hx, Option.bind_some, hf c hc]
    rfl)
  refine ⟨out, e, hl, ?_⟩
  intro r c x hx
  obtain ⟨hr, hc⟩ := cell_lt hx
  rw [ho r hr c hc, hx, Option.bind_some, hf c hc]

theorem none_of {M : Raw α} (h : Valid M) {f : ℕ → α → Option β} {res : Option (List β)} (hw : Wrote M f res) {c : ℕ} (hc : c < M.cols) (hf : ∀ x, f c x = none) : res = none := by
  refine hw.2 ⟨0, h.rows_pos, c, hc, ?_⟩
  obtain ⟨x, hx⟩ := cell_some h h.rows_pos hc
  rw [hx, Option.bind_some, hf]

section Field
variable {K : Type} [Field K] [LinearOrder K]

/-- The entry for column `c` of a fitted row of values, or `d` when the setting is off. -/
def entry (o : Option (List K)) (d : K) (c : ℕ) : K := (o.map (fun l => l.getD c d)).getD d

theorem entry_read (o : Option (List K)) (d : K) {c n : ℕ} (hc : c < n) (ho : ∀ l, o = some l → n ≤ l.length) : (o.map (·[c]?)).getD (some d) = some (entry o d c) := by
  cases o with
  | none => rfl
  | some l =>
    have := ho l rfl
    simp only [Option.map_some, Option.getD_some, entry]
    rw [List.getElem?_eq_getElem (by omega), List.getD_eq_getElem _ _ (by omega)]

/-- **C206 (standard scaler).** Whatever the layout of the matrix, every cell is centred and scaled by the values of its column, and back. -/
theorem C206_standard {M : Raw K} (h : Valid M) (mean scale : Option (List K)) (hm : ∀ l, mean = some l → M.cols ≤ l.length) (hs : ∀ l, scale = some l → M.cols ≤ l.length) :
    Table M (fun c x => (x - entry mean 0 c) / entry scale 1 c) (stdTransform mean scale M) ∧ Table M (fun c x => entry mean 0 c + x * entry scale 1 c) (stdInverse mean scale M) := by
  constructor
  · refine table_of h (colLoop_wrote h _ 0) (fun c hc x => ?_)
    rw [entry_read mean 0 hc hm, entry_read scale 1 hc hs]
    rfl
  · refine table_of h (colLoop_wrote h _ 0) (fun c hc x => ?_)
    rw [entry_read mean 0 hc hm, entry_read scale 1 hc hs]
    rfl

/-- **C206 (imputer).** Present values are kept, NaN becomes the value of its column. -/
theorem C206_imputer {M : Raw (Option K)} (h : Valid M) (missing : List (Option K)) (hm : M.cols ≤ missing.length) :
    Table M (fun c x => match x with | some v => some v | none => missing.getD c none) (impute missing M) := by
  refine table_of h (colLoop_wrote h _ (some 0)) (fun c hc x => ?_)
  rw [List.getElem?_eq_getElem (by omega), List.getD_eq_getElem _ _ (by omega)]
  cases x <;> rfl

/-- **C206 (maximum-absolute scaler).** -/
theorem C206_max_abs {M : Raw K} (h : Valid M) (scale : List K) (hs : M.cols ≤ scale.length) :
    Table M (fun c x => x / scale.getD c 1) (maxAbsTransform scale M) ∧ Table M (fun c x => x * scale.getD c 1) (maxAbsInverse scale M) := by
  constructor
  · have hw := rowLoop_wrote (β := K) h (fun i v => scale[i]?.map fun s => v / s) 0
    simp only [Option.map_map] at hw
    refine table_of h hw (fun c hc x => ?_)
    rw [List.getElem?_eq_getElem (by omega), List.getD_eq_getElem _ _ (by omega)]
    rfl
  · have hw := rowLoop_wrote (β := K) h (fun i v => scale[i]?.map fun s => v * s) 0
    simp only [Option.map_map] at hw
    refine table_of h hw (fun c hc x => ?_)
    rw [List.getElem?_eq_getElem (by omega), List.getD_eq_getElem _ _ (by omega)]
    rfl

/-- **C206 (label encoder).** Every label becomes the number of fitted classes of its column below it, or -1 when all are. -/
theorem C206_label_encoder {M : Raw K} (h : Valid M) (classes : List (List K)) (hs : M.cols ≤ classes.length) :
    Table M (fun c x => if ∀ y ∈ classes.getD c [], y < x then -1 else ((classes.getD c []).findIdx (fun y => decide (x ≤ y)) : K)) (encode classes M) := by
  have hw := rowLoop_wrote (β := K) h (fun i v => classes[i]?.map fun cl => if cl.length ≤ search cl v then -1 else (search cl v : K)) 0
  simp only [Option.map_map] at hw
  refine table_of h hw (fun c hc x => ?_)
  rw [List.getElem?_eq_getElem (by omega), List.getD_eq_getElem _ _ (by omega)]
  simp only [Option.map_some, search]
  congr 1
  have : (classes[c].length ≤ classes[c].findIdx fun y => decide (x ≤ y)) ↔ ∀ y ∈ classes[c], y < x := by
    have hle := List.findIdx_le_length (xs := classes[c]) (p := fun y => decide (x ≤ y))
    constructor
    · intro hge y hy
      have := List.findIdx_eq_length.1 (le_antisymm hle hge) y hy
      simpa using this
    · intro hall
      exact le_of_eq (List.findIdx_eq_length.2 (fun y hy => by simpa using hall y hy)).symm
  simp only [this]

/-- **C206 (too few fitted features).** A matrix with more columns than were fitted panics, in any layout. -/
theorem C206_unfitted {M : Raw K} (h : Valid M) (l : List K) (hl : l.length < M.cols) :
    (∀ o, stdTransform (some l) o M = none ∧ stdInverse (some l) o M = none) ∧ maxAbsTransform l M = none ∧ maxAbsInverse l M = none := by
  refine ⟨fun o => ⟨?_, ?_⟩, ?_, ?_⟩
  · refine none_of h (colLoop_wrote h _ 0) hl (fun x => ?_)
    simp
  · refine none_of h (colLoop_wrote h _ 0) hl (fun x => ?_)
    simp
  · have hw := rowLoop_wrote (β := K) h (fun i v => l[i]?.map fun s => v / s) 0
    simp only [Option.map_map] at hw
    exact none_of h hw hl (fun x => by simp)
  · have hw := rowLoop_wrote (β := K) h (fun i v => l[i]?.map fun s => v * s) 0
    simp only [Option.map_map] at hw
    exact none_of h hw hl (fun x => by simp)

theorem raw_same {M M' : Raw α} (hs : Same M M') {r c : ℕ} (hr : r < M.rows) (hc : c < M.cols) : M'.data[r * M'.stride + c]? = M.data[r * M.stride + c]? := by
  rw [cell_read r c hr hc, cell_read r c (by rw [hs.rows]; exact hr) (by rw [hs.cols]; exact hc), hs.cell]

theorem cut_same {M M' : Raw α} (h : Valid M) (h' : Valid M') (hs : Same M M') {r : ℕ} (hr : r < M.rows) :
    cut M'.data (r * M'.stride) (r * M'.stride + M'.cols) = cut M.data (r * M.stride) (r * M.stride + M.cols) := by
  rw [cut_row h hr, cut_row h' (by rw [hs.rows]; exact hr), row_same hs]

theorem binarizeFrom_same {M M' : Raw K} (hs : Same M M') (pos neg : K) (width : ℕ) (classes : List (List K)) :
    ∀ n j base out, j + n ≤ M.cols → binarizeFrom pos neg M' width classes n j base out = binarizeFrom pos neg M width classes n j base out := by
  intro n
  induction n with
  | zero => intro j base out _; rfl
  | succ n ih =>
    intro j base out hj
    rw [binarizeFrom, binarizeFrom]
    cases classes[j]? with
    | none => rfl
    | some cl =>
      have e : binarizeCol pos neg M' width j base cl out = binarizeCol pos neg M width j base cl out := by
        unfold binarizeCol
        rw [hs.rows]
        refine foldlM_congr _ _ (fun r hr s => ?_)
        rw [raw_same hs (List.mem_range.1 hr) (by omega)]
      simp only [Option.bind_some]
      rw [e]
      cases binarizeCol pos neg M width j base cl out with
      | none => rfl
      | some out' => exact ih (j + 1) (base + cl.length) out' (by omega)

/-- **C206.** Two matrices with the same cells - a view of a wider matrix and a copy of it, say - are treated alike: all the transformers that work on raw data give the same result (the same table, or both panic), and the
maxima of `MaxAbsScaler`, learned from raw data, are the same. -/
theorem C206_views {M M' : Raw K} (h : Valid M) (h' : Valid M') (hs : Same M M') :
    (∀ mean scale, stdTransform mean scale M' = stdTransform mean scale M ∧ stdInverse mean scale M' = stdInverse mean scale M) ∧
    (∀ ma, maxAbs M' ma = maxAbs M ma) ∧ (∀ scale, maxAbsTransform scale M' = maxAbsTransform scale M ∧ maxAbsInverse scale M' = maxAbsInverse scale M) ∧
    (∀ classes, encode classes M' = encode classes M ∧ ∀ int, decode int classes M' = decode int classes M) ∧
    (∀ powers, (∀ p ∈ powers, p.length ≤ M.cols) → poly powers M' = poly powers M) ∧
    (∀ pos neg classes, binarize pos neg classes M' = binarize pos neg classes M) ∧
    (∀ fitRows fitAll, center fitRows fitAll M' = center fitRows fitAll M) := by
  refine ⟨fun mean scale => ⟨?_, ?_⟩, fun ma => ?_, fun scale => ⟨?_, ?_⟩, fun classes => ⟨?_, fun int => ?_⟩, fun powers hp => ?_, fun pos neg classes => ?_, fun fitRows fitAll => ?_⟩
  · unfold stdTransform; rw [hs.cols, hs.rows, colLoop_same h h' hs]
  · unfold stdInverse; rw [hs.cols, hs.rows, colLoop_same h h' hs]
  · unfold maxAbs
    rw [offsets_eq h, offsets_eq h', hs.rows, foldlM_map, foldlM_map]
    refine foldlM_congr _ _ (fun r hr s => ?_)
    rw [cut_same h h' hs (List.mem_range.1 hr)]
  · unfold maxAbsTransform; rw [hs.cols, hs.rows, rowLoop_same h h' hs]
  · unfold maxAbsInverse; rw [hs.cols, hs.rows, rowLoop_same h h' hs]
  · unfold encode; rw [hs.cols, hs.rows, rowLoop_same h h' hs]
  · unfold decode; rw [hs.cols, hs.rows, rowLoop_same h h' hs]
  · unfold poly
    rw [hs.rows]
    refine foldlM_congr _ _ (fun r hr s => ?_)
    refine foldlM_congr _ _ (fun p hpm s => ?_)
    congr 1
    refine foldlM_congr _ _ (fun e he v => ?_)
    obtain ⟨q, i⟩ := e
    have hi := List.mem_zipIdx he
    obtain ⟨q', j⟩ := p
    have hj : q' ∈ powers := by
      have := List.mem_zipIdx hpm
      rw [this.2.2]
      exact List.getElem_mem _
    have := hp q' hj
    simp only at hi ⊢
    rw [raw_same hs (List.mem_range.1 hr) (by omega)]
  · unfold binarize
    rw [hs.rows, hs.cols]
    exact binarizeFrom_same hs pos neg _ classes _ 0 0 _ (by omega)
  · unfold center
    rw [hs.rows, hs.cols]
    refine foldlM_congr _ _ (fun r hr s => ?_)
    have := cut_same h h' hs (List.mem_range.1 hr)
    rw [hs.cols] at this
    rw [this]

/-- The same for an imputer. -/
theorem C206_views_imputer {M M' : Raw (Option K)} (h : Valid M) (h' : Valid M') (hs : Same M M') (missing : List (Option K)) : impute missing M' = impute missing M := by
  unfold impute
  rw [hs.cols, hs.rows, colLoop_same h h' hs]

end Field

/-- The first two columns of a matrix of three, and a copy of them. -/
example : stdTransform (K := ℚ) (some [1, 2]) (some [2, 4]) ⟨2, 2, 3, [1, 2, 100, 3, 6]⟩ = some [0, 0, 1, 1] ∧ stdTransform (K := ℚ) (some [1, 2]) (some [2, 4]) ⟨2, 2, 2, [1, 2, 3, 6]⟩ = some [0, 0, 1, 1] := by
  decide +kernel

example : Valid (⟨2, 2, 3, [1, 2, 100, 3, 6]⟩ : Raw ℚ) := ⟨by decide, by decide, by decide, fun r hr => by
  have : r = 0 ∨ r = 1 := by simp only at hr; omega
  rcases this with rfl | rfl <;> simp⟩

end Sk.RawLoops
