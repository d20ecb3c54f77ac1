import Verif.Model.Octave
import Mathlib.Data.List.Basic
import Mathlib.Tactic.Ring
import Mathlib.Tactic.NormNum
import Mathlib.Tactic.IntervalCases

/-!
# Reading Octave binary files (C59)

The file format is stated by `Sk.Octave.fileBytes`; the bytes the code skips without looking are arbitrary.
-/
set_option autoImplicit false

namespace Sk.Octave

/-! ## Specification: what a well formed file is -/

/-- `k` bytes of a number, least significant first. -/
def leBytes : ℕ → ℕ → List UInt8
  | 0, _ => []
  | k + 1, n => UInt8.ofNat n :: leBytes k (n / 256)

/-- The bytes the reader skips: length of the documentation, global flag, marker of the number of dimensions, type of the cells. -/
structure Filler where
  doc : List UInt8
  flag : List UInt8
  marker : List UInt8
  kind : List UInt8

/-- They have their sizes. -/
def Filler.OK (f : Filler) : Prop := f.doc.length = 4 ∧ f.flag.length = 1 ∧ f.marker.length = 4 ∧ f.kind.length = 1

/-- A variable that can be written. -/
def Var.OK (v : Var) : Prop := v.name.length < 2 ^ 32 ∧ 0 < v.rows ∧ 0 < v.cols.length ∧ v.rows * v.cols.length < 2 ^ 32 ∧ (∀ c ∈ v.cols, c.length = v.rows) ∧ ∀ c ∈ v.cols, ∀ x ∈ c, x < 2 ^ 64

/-- The fields of a variable in the order of the file, those before the cells marked: length of the name, name, filler, 0xff, "matrix" with its length, filler, rows, columns, filler, cells column after column. -/
def varFields (f : Filler) (v : Var) : List (Bool × List UInt8) :=
  [(true, leBytes 4 v.name.length), (true, v.name), (true, f.doc), (true, f.flag), (true, [0xff]), (true, leBytes 4 6), (true, [109, 97, 116, 114, 105, 120]), (true, f.marker), (true, leBytes 4 v.rows), (true, leBytes 4 v.cols.length), (true, f.kind)]
    ++ v.cols.map (fun c => (false, c.flatMap (leBytes 8)))

/-- The fields of a file: "Octave-1-L", one byte, the variables. -/
def fileFields (b : UInt8) (vs : List (Filler × Var)) : List (Bool × List UInt8) :=
  [(true, [79, 99, 116, 97, 118, 101, 45, 49, 45, 76]), (true, [b])] ++ vs.flatMap (fun p => varFields p.1 p.2)

/-- The bytes of fields. -/
def bytes (fs : List (Bool × List UInt8)) : List UInt8 := fs.flatMap Prod.snd

/-- The bytes of a file. -/
def fileBytes (b : UInt8) (vs : List (Filler × Var)) : List UInt8 := bytes (fileFields b vs)

/-- A file whose variables can be written. -/
def Good (vs : List (Filler × Var)) : Prop := ∀ p ∈ vs, p.1.OK ∧ p.2.OK

/-! ## Numbers -/

theorem leBytes_length (k n : ℕ) : (leBytes k n).length = k := by
  induction k generalizing n with
  | zero => rfl
  | succ k ih => rw [leBytes, List.length_cons, ih]

theorem leNat_leBytes (k n : ℕ) (h : n < 256 ^ k) : leNat (leBytes k n) = n := by
  induction k generalizing n with
  | zero =>
    rw [pow_zero] at h
    simp only [leBytes, leNat]
    omega
  | succ k ih =>
    have h2 : n / 256 < 256 ^ k := by
      rw [pow_succ] at h
      exact Nat.div_lt_of_lt_mul (by rw [mul_comm]; exact h)
    simp only [leBytes, leNat]
    rw [ih _ h2, UInt8.toNat_ofNat']
    have := Nat.mod_add_div n 256
    exact this

/-! ## Chunks -/

/-- A chunk ends `p` bytes from the beginning. -/
def Ends (cs : Chunks) (p : ℕ) : Prop := ∃ A B, cs = A ++ B ∧ A.flatten.length = p

/-- A chunk ends strictly inside the `n` bytes that follow the first `k`. -/
def Inside (cs : Chunks) (k n : ℕ) : Prop := ∃ p, Ends cs p ∧ k < p ∧ p < k + n

/-- A chunk ends strictly inside a marked field; the fields start after `k` bytes. -/
def Broken (cs : Chunks) : ℕ → List (Bool × List UInt8) → Prop
  | _, [] => False
  | k, (b, f) :: fs => (b = true ∧ Inside cs k f.length) ∨ Broken cs (k + f.length) fs

/-- No chunk is empty. -/
def Solid (cs : Chunks) : Prop := ∀ c ∈ cs, c ≠ []

/-- All bytes in one chunk. -/
def one (bs : List UInt8) : Chunks := if bs = [] then [] else [bs]

/-! ## Basic facts -/

theorem bind_apply {α β : Type} (p : P α) (f : α → P β) (cs : Chunks) : (p >>= f) cs = match p cs with | .ok a r => f a r | .eof => .eof | .panic => .panic := rfl

theorem pure_apply {α : Type} (a : α) (cs : Chunks) : (pure a : P α) cs = .ok a cs := rfl

theorem bind_ok {α β : Type} {p : P α} {f : α → P β} {cs : Chunks} {a : α} {r : Chunks} (h : p cs = .ok a r) : (p >>= f) cs = f a r := by
  rw [bind_apply, h]

theorem bind_eof {α β : Type} {p : P α} {f : α → P β} {cs : Chunks} (h : p cs = .eof) : (p >>= f) cs = .eof := by
  rw [bind_apply, h]

theorem bind_panic {α β : Type} {p : P α} {f : α → P β} {cs : Chunks} (h : p cs = .panic) : (p >>= f) cs = .panic := by
  rw [bind_apply, h]

theorem flatten_push (c : List UInt8) (cs : Chunks) : (push c cs).flatten = c ++ cs.flatten := by
  unfold push
  split
  · rename_i h
    rw [h, List.nil_append]
  · rw [List.flatten_cons]

theorem flatten_one (bs : List UInt8) : (one bs).flatten = bs := by
  unfold one
  split
  · rename_i h
    rw [h]
    rfl
  · simp

theorem solid_push {c : List UInt8} {cs : Chunks} (h : Solid cs) : Solid (push c cs) := by
  unfold push
  split
  · exact h
  · rename_i hh
    intro x hx
    rcases List.mem_cons.mp hx with rfl | hx
    · exact hh
    · exact h x hx

theorem solid_one (c : List UInt8) : Solid (one c) := solid_push (cs := []) (fun x hx => absurd hx (by simp))

theorem solid_tail {c : List UInt8} {cs : Chunks} (h : Solid (c :: cs)) : Solid cs := fun x hx => h x (List.mem_cons_of_mem _ hx)

theorem solid_nil {cs : Chunks} (h : Solid cs) (he : cs.flatten = []) : cs = [] := by
  rcases cs with _ | ⟨c, cs⟩
  · rfl
  · rw [List.flatten_cons] at he
    exact absurd (List.append_eq_nil_iff.mp he).1 (h c (by simp))

theorem ends_zero (cs : Chunks) : Ends cs 0 := ⟨[], cs, rfl, rfl⟩

theorem ends_cons (c : List UInt8) (cs : Chunks) (p : ℕ) : Ends (c :: cs) p ↔ p = 0 ∨ ∃ r, p = c.length + r ∧ Ends cs r := by
  constructor
  · rintro ⟨A, B, h1, h2⟩
    rcases A with _ | ⟨a, A⟩
    · left
      exact h2.symm
    · right
      rw [List.cons_append, List.cons.injEq] at h1
      rw [List.flatten_cons, List.length_append, ← h1.1] at h2
      exact ⟨_, h2.symm, A, B, h1.2, rfl⟩
  · rintro (h | ⟨r, h, A, B, h1, h2⟩)
    · rw [h]
      exact ends_zero _
    · refine ⟨c :: A, B, by rw [h1, List.cons_append], ?_⟩
      rw [List.flatten_cons, List.length_append, h2, h]

theorem ends_push (c : List UInt8) (cs : Chunks) (p : ℕ) : Ends (push c cs) p ↔ p = 0 ∨ ∃ r, p = c.length + r ∧ Ends cs r := by
  unfold push
  split
  · rename_i h
    rw [h]
    simp only [List.length_nil, Nat.zero_add, exists_eq_left']
    exact ⟨Or.inr, fun h => h.elim (fun h => by rw [h]; exact ends_zero _) id⟩
  · exact ends_cons c cs p

theorem ends_nil (p : ℕ) : Ends [] p ↔ p = 0 := by
  constructor
  · rintro ⟨A, B, h1, h2⟩
    rw [(List.append_eq_nil_iff.mp h1.symm).1] at h2
    exact h2.symm
  · rintro rfl
    exact ends_zero _

/-- What is left after `n` bytes: the same chunk ends, counted from there. -/
def Rest (n : ℕ) (cs cs' : Chunks) : Prop := ∀ p, 0 < p → (Ends cs' p ↔ Ends cs (n + p))

theorem Rest.trans {n m : ℕ} {a b c : Chunks} (h : Rest n a b) (h' : Rest m b c) : Rest (n + m) a c := fun p hp => by
  rw [h' p hp, h (m + p) (by omega), Nat.add_assoc]

theorem Rest.inside {m : ℕ} {cs cs' : Chunks} (h : Rest m cs cs') (k n : ℕ) : Inside cs (m + k) n ↔ Inside cs' k n := by
  constructor
  · rintro ⟨p, h1, h2, h3⟩
    refine ⟨p - m, (h (p - m) (by omega)).mpr ?_, by omega, by omega⟩
    rw [show m + (p - m) = p by omega]
    exact h1
  · rintro ⟨p, h1, h2, h3⟩
    exact ⟨m + p, (h p (by omega)).mp h1, by omega, by omega⟩

theorem Rest.broken {m : ℕ} {cs cs' : Chunks} (h : Rest m cs cs') (fs : List (Bool × List UInt8)) (k : ℕ) : Broken cs (m + k) fs ↔ Broken cs' k fs := by
  induction fs generalizing k with
  | nil => exact Iff.rfl
  | cons f fs ih =>
    unfold Broken
    rw [h.inside, Nat.add_assoc, ih]

theorem broken_append (cs : Chunks) (fs gs : List (Bool × List UInt8)) (k : ℕ) : Broken cs k (fs ++ gs) ↔ Broken cs k fs ∨ Broken cs (k + (bytes fs).length) gs := by
  induction fs generalizing k with
  | nil =>
    unfold bytes
    simp [Broken]
  | cons f fs ih =>
    have e : ∀ l, Broken cs k (f :: l) ↔ (f.1 = true ∧ Inside cs k f.2.length) ∨ Broken cs (k + f.2.length) l := fun l => Iff.rfl
    rw [List.cons_append, e, e, ih, or_assoc]
    unfold bytes
    rw [List.flatMap_cons, List.length_append, Nat.add_assoc]

theorem bytes_append (fs gs : List (Bool × List UInt8)) : bytes (fs ++ gs) = bytes fs ++ bytes gs := List.flatMap_append ..

theorem bytes_one (x : Bool × List UInt8) : bytes [x] = x.2 := by
  unfold bytes
  simp

/-! ## Pieces that read given fields -/

/-- `p` reads the fields `fs` and returns `a`, or panics if a chunk ends inside a marked field. -/
def Reads {α : Type} (p : P α) (fs : List (Bool × List UInt8)) (a : α) : Prop := ∀ cs g, Solid cs → cs.flatten = bytes fs ++ g →
  (Broken cs 0 fs → p cs = .panic) ∧ (¬ Broken cs 0 fs → ∃ cs', p cs = .ok a cs' ∧ Solid cs' ∧ cs'.flatten = g ∧ Rest (bytes fs).length cs cs')

theorem reads_pure {α : Type} (a : α) : Reads (pure a) [] a := fun cs g hs hf => ⟨fun h => h.elim, fun _ => ⟨cs, rfl, hs, hf, fun p _ => by
  unfold bytes
  simp⟩⟩

theorem reads_require (b : Bool) (h : b = true) : Reads (require b) [] () := fun cs g hs hf => ⟨fun h => h.elim, fun _ => ⟨cs, by unfold require; rw [if_pos h], hs, hf, fun p _ => by
  unfold bytes
  simp⟩⟩

theorem Reads.bind {α β : Type} {p : P α} {k : α → P β} {fs gs : List (Bool × List UInt8)} {a : α} {b : β} (h : Reads p fs a) (h' : Reads (k a) gs b) : Reads (p >>= k) (fs ++ gs) b := by
  intro cs g hs hf
  rw [bytes_append, List.append_assoc] at hf
  obtain ⟨h1, h2⟩ := h cs _ hs hf
  rw [broken_append]
  by_cases hb : Broken cs 0 fs
  · exact ⟨fun _ => bind_panic (h1 hb), fun hn => absurd (Or.inl hb) hn⟩
  · obtain ⟨cs', e, s', f', r'⟩ := h2 hb
    obtain ⟨k1, k2⟩ := h' cs' g s' f'
    rw [bind_ok e]
    have hiff : Broken cs (0 + (bytes fs).length) gs ↔ Broken cs' 0 gs := by
      rw [Nat.add_comm]
      exact r'.broken gs 0
    rw [hiff]
    refine ⟨fun hh => k1 (hh.resolve_left hb), fun hh => ?_⟩
    obtain ⟨cs'', e2, s2, f2, r2⟩ := k2 (fun x => hh (Or.inr x))
    refine ⟨cs'', e2, s2, f2, ?_⟩
    rw [bytes_append, List.length_append]
    exact r'.trans r2

theorem Reads.bind' {α β : Type} {p : P α} {k : α → P β} {gs : List (Bool × List UInt8)} {a : α} {b : β} (h : Reads p [] a) (h' : Reads (k a) gs b) : Reads (p >>= k) gs b := h.bind h'

theorem Reads.must {α : Type} {p : P α} {fs : List (Bool × List UInt8)} {a : α} (h : Reads p fs a) : Reads (must p) fs a := by
  intro cs g hs hf
  obtain ⟨h1, h2⟩ := h cs g hs hf
  unfold Octave.must
  refine ⟨fun hb => by rw [h1 hb], fun hb => ?_⟩
  obtain ⟨cs', e, r⟩ := h2 hb
  exact ⟨cs', by rw [e], r⟩

theorem rest_cut (c : List UInt8) (cs : Chunks) (n : ℕ) (h : n ≤ c.length) (h0 : c ≠ []) : Rest n (c :: cs) (push (c.drop n) cs) := by
  intro p hp
  rw [ends_push, ends_cons, List.length_drop]
  constructor
  · rintro (h | ⟨r, h1, h2⟩)
    · omega
    · exact Or.inr ⟨r, by omega, h2⟩
  · rintro (h | ⟨r, h1, h2⟩)
    · omega
    · exact Or.inr ⟨r, by omega, h2⟩

theorem reads_read (f : List UInt8) (n : ℕ) (h : f.length = n) : Reads (read n) [(true, f)] f := by
  intro cs g hs hf
  have hb : Broken cs 0 [(true, f)] ↔ Inside cs 0 n := by
    unfold Broken Broken
    rw [h]
    simp
  rw [bytes_one] at hf ⊢
  rw [hb]
  simp only at hf ⊢
  unfold read
  by_cases h0 : n = 0
  · have hnil : f = [] := List.length_eq_zero_iff.mp (h.trans h0)
    refine ⟨fun ⟨p, _, h2, h3⟩ => by omega, fun _ => ⟨cs, ?_, hs, ?_, ?_⟩⟩
    · rw [if_pos h0, hnil]
    · rw [hf, hnil, List.nil_append]
    · intro p _
      rw [hnil, List.length_nil, Nat.zero_add]
  · rw [if_neg h0]
    rcases cs with _ | ⟨c, cs⟩
    · have := congrArg List.length hf
      rw [List.flatten_nil, List.length_nil, List.length_append] at this
      omega
    · simp only
      rw [List.flatten_cons] at hf
      have hc0 : 0 < c.length := List.length_pos_of_ne_nil (hs c (by simp))
      by_cases hc : n ≤ c.length
      · rw [if_pos hc]
        have ht : c.take n = f := by
          have := congrArg (List.take n) hf
          rwa [List.take_append_of_le_length hc, List.take_left' h] at this
        have hdr : c.drop n ++ cs.flatten = g := by
          have := congrArg (List.drop n) hf
          rwa [List.drop_append_of_le_length hc, List.drop_left' h] at this
        refine ⟨fun ⟨p, h1, h2, h3⟩ => ?_, fun _ => ⟨push (c.drop n) cs, by rw [ht], solid_push (solid_tail hs), by rw [flatten_push]; exact hdr, ?_⟩⟩
        · rcases (ends_cons c cs p).mp h1 with h | ⟨r, h, _⟩ <;> omega
        · rw [h]
          exact rest_cut c cs n hc (hs c (by simp))
      · rw [if_neg hc]
        refine ⟨fun _ => rfl, fun hn => absurd ⟨c.length, (ends_cons c cs _).mpr (Or.inr ⟨0, rfl, ends_zero _⟩), hc0, by omega⟩ hn⟩

theorem reads_skip (f : List UInt8) (n : ℕ) (h : f.length = n) : Reads (skip n) [(true, f)] () := by
  intro cs g hs hf
  obtain ⟨h1, h2⟩ := reads_read f n h cs g hs hf
  unfold skip
  refine ⟨fun hb => by rw [h1 hb], fun hb => ?_⟩
  obtain ⟨cs', e, r⟩ := h2 hb
  exact ⟨cs', by rw [e], r⟩

theorem reads_u32 (n : ℕ) (h : n < 2 ^ 32) : Reads readU32 [(true, leBytes 4 n)] n := by
  have h1 := (reads_read (leBytes 4 n) 4 (leBytes_length 4 n)).bind (k := fun b => pure (leNat b)) (reads_pure _)
  rw [leNat_leBytes 4 n (by norm_num at *; exact h)] at h1
  exact h1

theorem reads_str (s : List UInt8) (h : s.length < 2 ^ 32) : Reads readStr [(true, leBytes 4 s.length), (true, s)] s := (reads_u32 s.length h).bind (gs := [(true, s)]) (reads_read s _ rfl)

/-- Cells may be split in any way. -/
theorem readFull_spec (cs : Chunks) (hs : Solid cs) (f g : List UInt8) (h : cs.flatten = f ++ g) : ∃ cs', readFull f.length cs = .ok f cs' ∧ Solid cs' ∧ cs'.flatten = g ∧ Rest f.length cs cs' := by
  induction cs generalizing f with
  | nil =>
    rw [List.flatten_nil] at h
    obtain ⟨h1, h2⟩ := List.append_eq_nil_iff.mp h.symm
    refine ⟨[], ?_, hs, h2.symm, ?_⟩
    · rw [h1]
      unfold readFull
      rw [List.length_nil, if_pos rfl]
    · intro p hp
      rw [h1, List.length_nil, Nat.zero_add]
  | cons c cs ih =>
    rw [List.flatten_cons] at h
    by_cases h0 : f = []
    · refine ⟨c :: cs, ?_, hs, by rw [List.flatten_cons, h, h0, List.nil_append], ?_⟩
      · rw [h0]
        unfold readFull
        rw [List.length_nil, if_pos rfl]
      · intro p hp
        rw [h0, List.length_nil, Nat.zero_add]
    · have hl : f.length ≠ 0 := fun hh => h0 (List.length_eq_zero_iff.mp hh)
      unfold readFull
      rw [if_neg hl]
      simp only
      by_cases hc : f.length ≤ c.length
      · rw [if_pos hc]
        have ht : c.take f.length = f := by
          have := congrArg (List.take f.length) h
          rwa [List.take_append_of_le_length hc, List.take_left] at this
        have hdr : c.drop f.length ++ cs.flatten = g := by
          have := congrArg (List.drop f.length) h
          rwa [List.drop_append_of_le_length hc, List.drop_left] at this
        rw [ht]
        exact ⟨push (c.drop f.length) cs, rfl, solid_push (solid_tail hs), by rw [flatten_push]; exact hdr, rest_cut c cs _ hc (hs c (by simp))⟩
      · rw [if_neg hc]
        have hf : f = c ++ f.drop c.length := by
          have := congrArg (List.take c.length) h
          rw [List.take_left, List.take_append_of_le_length (by omega)] at this
          conv_lhs => rw [← List.take_append_drop c.length f]
          rw [← this]
        have hrest : cs.flatten = f.drop c.length ++ g := by
          have := congrArg (List.drop c.length) h
          rwa [List.drop_left, List.drop_append_of_le_length (by omega)] at this
        obtain ⟨d', s3, s1, s2, s4⟩ := ih (solid_tail hs) (f.drop c.length) hrest
        rw [List.length_drop] at s3 s4
        refine ⟨d', ?_, s1, s2, ?_⟩
        · rw [s3]
          simp only
          rw [← hf]
        · intro p hp
          rw [s4 p hp, ends_cons]
          constructor
          · intro hh
            exact Or.inr ⟨_, by omega, hh⟩
          · rintro (hh | ⟨r, h1, h2⟩)
            · omega
            · rwa [show f.length - c.length + p = r by omega]

theorem words_bytes (c : List ℕ) (h : ∀ x ∈ c, x < 2 ^ 64) : words c.length (c.flatMap (leBytes 8)) = c := by
  induction c with
  | nil => rfl
  | cons x c ih =>
    rw [List.flatMap_cons, List.length_cons, words, List.take_left' (leBytes_length 8 x), List.drop_left' (leBytes_length 8 x), leNat_leBytes 8 x (by have := h x (by simp); norm_num at *; exact this), ih (fun y hy => h y (List.mem_cons_of_mem _ hy))]

theorem col_length (c : List ℕ) : (c.flatMap (leBytes 8)).length = 8 * c.length := by
  induction c with
  | nil => rfl
  | cons x c ih =>
    rw [List.flatMap_cons, List.length_append, leBytes_length, ih, List.length_cons]
    ring

theorem reads_cols (rows : ℕ) (l : List (List ℕ)) (hr : ∀ c ∈ l, c.length = rows) (hx : ∀ c ∈ l, ∀ x ∈ c, x < 2 ^ 64) : Reads (readCols rows l.length) (l.map (fun c => (false, c.flatMap (leBytes 8)))) l := by
  induction l with
  | nil => exact reads_pure []
  | cons c l ih =>
    have h1 : Reads (readFull (8 * rows) : P _) [(false, c.flatMap (leBytes 8))] (c.flatMap (leBytes 8)) := by
      intro cs g hs hf
      rw [bytes_one] at hf ⊢
      obtain ⟨cs', e, r⟩ := readFull_spec cs hs _ g hf
      rw [col_length, hr c (by simp)] at e
      refine ⟨fun hb => ?_, fun _ => ⟨cs', e, r⟩⟩
      unfold Broken Broken at hb
      simp at hb
    have h2 := ih (fun c hc => hr c (List.mem_cons_of_mem _ hc)) (fun c hc => hx c (List.mem_cons_of_mem _ hc))
    have hw := words_bytes c (hx c (by simp))
    rw [hr c (by simp)] at hw
    have h3 := h1.bind (k := fun b => do let l ← readCols rows l.length; pure (words rows b :: l)) (h2.bind (k := fun l => pure (words rows (c.flatMap (leBytes 8)) :: l)) (reads_pure _))
    rw [hw, List.append_nil] at h3
    exact h3

theorem reads_var (f : Filler) (v : Var) (hf : f.OK) (hv : v.OK) : Reads readVar (varFields f v) v := by
  obtain ⟨f1, f2, f3, f4⟩ := hf
  obtain ⟨v1, v2, v3, v4, v5, v6⟩ := hv
  have hc32 : v.cols.length < 2 ^ 32 := lt_of_le_of_lt (Nat.le_mul_of_pos_left _ v2) v4
  have hr32 : v.rows < 2 ^ 32 := lt_of_le_of_lt (Nat.le_mul_of_pos_right _ v3) v4
  refine (reads_str v.name v1).bind (gs := _ :: _) ?_
  refine (reads_skip f.doc 4 f1).bind (gs := _ :: _) ?_
  refine (reads_skip f.flag 1 f2).bind (gs := _ :: _) ?_
  refine (reads_read [0xff] 1 rfl).must.bind (gs := _ :: _) ?_
  refine (reads_require _ (by decide)).bind' ?_
  refine (reads_str [109, 97, 116, 114, 105, 120] (by norm_num)).must.bind (gs := _ :: _) ?_
  refine (reads_require _ (by decide)).bind' ?_
  refine (reads_skip f.marker 4 f3).bind (gs := _ :: _) ?_
  refine (reads_u32 v.rows hr32).must.bind (gs := _ :: _) ?_
  refine (reads_u32 v.cols.length hc32).must.bind (gs := _ :: _) ?_
  refine (reads_skip f.kind 1 f4).bind ?_
  refine (reads_require _ (by simp only [decide_eq_true_eq]; exact ⟨v2, v3, v4⟩)).bind' ?_
  have h := (reads_cols v.rows v.cols v5 v6).bind (k := fun l => pure (⟨v.name, v.rows, l⟩ : Var)) (reads_pure _)
  rw [List.append_nil] at h
  exact h

theorem reads_magic (b : UInt8) : Reads readMagic [(true, [79, 99, 116, 97, 118, 101, 45, 49, 45, 76]), (true, [b])] () := by
  refine (reads_read [79, 99, 116, 97, 118, 101, 45, 49, 45, 76] 10 rfl).must.bind (gs := _ :: _) ?_
  refine (reads_require _ (by decide)).bind' ?_
  exact (reads_read [b] 1 rfl).must.bind (k := fun _ => pure ()) (reads_pure ())

/-! ## Progress -/

/-- What is left is a part of what was there. -/
def Keeps {α : Type} (p : P α) : Prop := ∀ cs a r, p cs = .ok a r → size r ≤ size cs

theorem keeps_bind {α β : Type} {p : P α} {k : α → P β} (h : Keeps p) (h' : ∀ a, Keeps (k a)) : Keeps (p >>= k) := by
  intro cs b r e
  rw [bind_apply] at e
  cases hp : p cs with
  | ok a s =>
    rw [hp] at e
    exact le_trans (h' a s b r e) (h cs a s hp)
  | eof =>
    rw [hp] at e
    cases e
  | panic =>
    rw [hp] at e
    cases e

theorem keeps_pure {α : Type} (a : α) : Keeps (pure a) := by
  intro cs b r e
  rw [pure_apply] at e
  cases e
  exact le_refl _

theorem keeps_require (b : Bool) : Keeps (require b) := by
  intro cs a r e
  unfold require at e
  split at e
  · cases e
    exact le_refl _
  · cases e

theorem read_size {n : ℕ} {cs : Chunks} {a : List UInt8} {r : Chunks} (h : read n cs = .ok a r) : cs.flatten = a ++ r.flatten ∧ a.length = n := by
  unfold read at h
  by_cases h0 : n = 0
  · rw [if_pos h0] at h
    cases h
    exact ⟨rfl, h0.symm⟩
  · rw [if_neg h0] at h
    rcases cs with _ | ⟨c, cs⟩
    · cases h
    · simp only at h
      split at h
      · rename_i hc
        cases h
        refine ⟨?_, by rw [List.length_take]; omega⟩
        rw [flatten_push, List.flatten_cons, ← List.append_assoc, List.take_append_drop]
      · cases h

theorem keeps_read (n : ℕ) : Keeps (read n) := by
  intro cs a r e
  have := congrArg List.length (read_size e).1
  rw [List.length_append] at this
  unfold size
  omega

theorem keeps_must {α : Type} {p : P α} (h : Keeps p) : Keeps (must p) := by
  intro cs a r e
  unfold must at e
  cases hp : p cs with
  | ok b s =>
    rw [hp] at e
    cases e
    exact h cs a r hp
  | eof =>
    rw [hp] at e
    cases e
  | panic =>
    rw [hp] at e
    cases e

theorem keeps_skip (n : ℕ) : Keeps (skip n) := by
  intro cs a r e
  unfold skip at e
  cases hp : read n cs with
  | ok b s =>
    rw [hp] at e
    cases e
    exact keeps_read n cs b r hp
  | eof =>
    rw [hp] at e
    cases e
    exact Nat.zero_le _
  | panic =>
    rw [hp] at e
    cases e

theorem keeps_full (n : ℕ) : Keeps (readFull n : P _) := by
  intro cs
  induction cs generalizing n with
  | nil =>
    intro a r e
    unfold readFull at e
    split at e
    · cases e
      exact le_refl _
    · cases e
  | cons c cs ih =>
    intro a r e
    unfold readFull at e
    split at e
    · cases e
      exact le_refl _
    · simp only at e
      split at e
      · cases e
        unfold size
        rw [flatten_push, List.flatten_cons, List.length_append, List.length_append, List.length_drop]
        omega
      · cases hp : readFull (n - c.length) cs with
        | ok b s =>
          rw [hp] at e
          cases e
          have := ih _ _ _ hp
          unfold size at *
          rw [List.flatten_cons, List.length_append]
          omega
        | eof =>
          rw [hp] at e
          cases e
        | panic =>
          rw [hp] at e
          cases e

theorem keeps_u32 : Keeps readU32 := keeps_bind (keeps_read 4) (fun _ => keeps_pure _)

theorem keeps_str : Keeps readStr := keeps_bind keeps_u32 (fun n => keeps_read n)

theorem keeps_cols (rows k : ℕ) : Keeps (readCols rows k) := by
  induction k with
  | zero => exact keeps_pure _
  | succ k ih => exact keeps_bind (keeps_full _) (fun _ => keeps_bind ih (fun _ => keeps_pure _))

/-- The rest of a turn of the loop after the length of the name. -/
theorem keeps_tail : ∃ k : ℕ → P Var, readVar = readU32 >>= k ∧ ∀ n, Keeps (k n) := by
  refine ⟨fun n => read n >>= fun name => do
    skip 4
    skip 1
    let t ← must (read 1)
    require (t = [0xff])
    let ty ← must readStr
    require (ty = matrixName)
    skip 4
    let rows ← must readU32
    let cols ← must readU32
    skip 1
    require (0 < rows ∧ 0 < cols ∧ rows * cols < 2 ^ 32)
    let l ← readCols rows cols
    pure ⟨name, rows, l⟩, ?_, ?_⟩
  · funext cs
    unfold readVar readStr
    rw [bind_apply, bind_apply, bind_apply]
    cases readU32 cs <;> rfl
  · intro n
    refine keeps_bind (keeps_read n) (fun name => keeps_bind (keeps_skip 4) (fun _ => keeps_bind (keeps_skip 1) (fun _ => keeps_bind (keeps_must (keeps_read 1)) (fun t => keeps_bind (keeps_require _) (fun _ => keeps_bind (keeps_must keeps_str) (fun ty => keeps_bind (keeps_require _) (fun _ => ?_)))))))
    exact keeps_bind (keeps_skip 4) (fun _ => keeps_bind (keeps_must keeps_u32) (fun rows => keeps_bind (keeps_must keeps_u32) (fun cols => keeps_bind (keeps_skip 1) (fun _ => keeps_bind (keeps_require _) (fun _ => keeps_bind (keeps_cols rows cols) (fun l => keeps_pure _))))))

/-- Every turn of the loop consumes bytes. -/
theorem readVar_progress (cs : Chunks) (v : Var) (r : Chunks) (h : readVar cs = .ok v r) : size r < size cs := by
  obtain ⟨k, hk, hk'⟩ := keeps_tail
  rw [hk, bind_apply] at h
  cases hp : readU32 cs with
  | ok n s =>
    rw [hp] at h
    have h1 := hk' n s v r h
    unfold readU32 at hp
    rw [bind_apply] at hp
    cases hq : read 4 cs with
    | ok b t =>
      rw [hq] at hp
      cases hp
      obtain ⟨e1, e2⟩ := read_size hq
      have := congrArg List.length e1
      rw [List.length_append, e2] at this
      unfold size at *
      omega
    | eof =>
      rw [hq] at hp
      cases hp
    | panic =>
      rw [hq] at hp
      cases hp
  | eof =>
    rw [hp] at h
    cases h
  | panic =>
    rw [hp] at h
    cases h

theorem loadVars_eq (cs : Chunks) : loadVars cs = match readVar cs with | .panic => none | .eof => some [] | .ok v r => (loadVars r).map (v :: ·) := by
  conv_lhs => rw [loadVars]
  cases h : readVar cs with
  | ok v r =>
    simp only
    rw [if_pos (readVar_progress cs v r h)]
  | eof => rfl
  | panic => rfl

/-! ## C59: round trip and chunks -/

theorem loadVars_file (vs : List (Filler × Var)) (hg : Good vs) (cs : Chunks) (hs : Solid cs) (hf : cs.flatten = bytes (vs.flatMap (fun p => varFields p.1 p.2))) :
    (Broken cs 0 (vs.flatMap (fun p => varFields p.1 p.2)) → loadVars cs = none) ∧ (¬ Broken cs 0 (vs.flatMap (fun p => varFields p.1 p.2)) → loadVars cs = some (vs.map Prod.snd)) := by
  induction vs generalizing cs with
  | nil =>
    refine ⟨fun h => h.elim, fun _ => ?_⟩
    rw [solid_nil hs hf, loadVars_eq]
    rfl
  | cons p vs ih =>
    obtain ⟨hp1, hp2⟩ := hg p (by simp)
    rw [List.flatMap_cons] at hf ⊢
    rw [bytes_append] at hf
    obtain ⟨h1, h2⟩ := reads_var p.1 p.2 hp1 hp2 cs _ hs hf
    rw [broken_append]
    by_cases hb : Broken cs 0 (varFields p.1 p.2)
    · refine ⟨fun _ => ?_, fun hn => absurd (Or.inl hb) hn⟩
      rw [loadVars_eq, h1 hb]
    · obtain ⟨cs', e, s', f', r'⟩ := h2 hb
      obtain ⟨k1, k2⟩ := ih (fun q hq => hg q (List.mem_cons_of_mem _ hq)) cs' s' f'
      rw [Nat.zero_add, show (bytes (varFields p.1 p.2)).length = (bytes (varFields p.1 p.2)).length + 0 from rfl, r'.broken _ 0, loadVars_eq, e]
      simp only
      refine ⟨fun hh => ?_, fun hh => ?_⟩
      · rw [k1 (hh.resolve_left hb)]
        rfl
      · rw [k2 (fun x => hh (Or.inr x))]
        rfl

/-- C59, exact effect of the chunks: a well formed file is returned as it was written, unless a chunk of the reader ends strictly inside a field other than the cells; then reading panics.
Missing for the full claim: what `C59_chunks_violated`, `C59_truncation_violated`, `C59_documentation_violated` refute. -/
theorem C59_chunks_exact_partial (b : UInt8) (vs : List (Filler × Var)) (hg : Good vs) (cs : Chunks) (hs : Solid cs) (hf : cs.flatten = fileBytes b vs) :
    (¬ Broken cs 0 (fileFields b vs) → load cs = some (vs.map Prod.snd)) ∧ (Broken cs 0 (fileFields b vs) → load cs = none) := by
  unfold fileBytes fileFields at hf
  rw [bytes_append] at hf
  obtain ⟨h1, h2⟩ := reads_magic b cs _ hs hf
  unfold fileFields load
  rw [broken_append]
  by_cases hb : Broken cs 0 [(true, [79, 99, 116, 97, 118, 101, 45, 49, 45, 76]), (true, [b])]
  · refine ⟨fun hn => absurd (Or.inl hb) hn, fun _ => ?_⟩
    rw [h1 hb]
  · obtain ⟨cs', e, s', f', r'⟩ := h2 hb
    obtain ⟨k1, k2⟩ := loadVars_file vs hg cs' s' f'
    rw [e, Nat.zero_add, ← Nat.add_zero (bytes _).length, r'.broken _ 0]
    exact ⟨fun hh => k2 (fun x => hh (Or.inr x)), fun hh => k1 (hh.resolve_left hb)⟩

theorem not_broken_of_ends (cs : Chunks) (fs : List (Bool × List UInt8)) (k : ℕ) (h : ∀ p, Ends cs p → p ≤ k ∨ k + (bytes fs).length ≤ p) : ¬ Broken cs k fs := by
  induction fs generalizing k with
  | nil => exact fun h => h
  | cons f fs ih =>
    have hl : (bytes (f :: fs)).length = f.2.length + (bytes fs).length := by
      unfold bytes
      rw [List.flatMap_cons, List.length_append]
    rw [hl] at h
    rintro (⟨_, p, h1, h2, h3⟩ | hb)
    · rcases h p h1 with h | h <;> omega
    · refine ih _ (fun p hp => ?_) hb
      rcases h p hp with h | h <;> omega

theorem ends_one (bs : List UInt8) (p : ℕ) (h : Ends (one bs) p) : p = 0 ∨ p = bs.length := by
  unfold one at h
  split at h
  · left
    exact (ends_nil p).mp h
  · rcases (ends_cons _ _ p).mp h with h | ⟨r, h1, h2⟩
    · exact Or.inl h
    · rw [(ends_nil r).mp h2] at h1
      exact Or.inr h1

/-- C59, round trip: a well formed file that arrives in one piece is returned as it was written, and under each name the map has the last variable of that name. -/
theorem C59_round_trip (b : UInt8) (vs : List (Filler × Var)) (hg : Good vs) :
    load (one (fileBytes b vs)) = some (vs.map Prod.snd) ∧ ∀ (pre : List Var) (v : Var) (post : List Var), vs.map Prod.snd = pre ++ v :: post → (∀ w ∈ post, w.name ≠ v.name) → get (vs.map Prod.snd) v.name = some v := by
  constructor
  · refine (C59_chunks_exact_partial b vs hg _ (solid_one _) (flatten_one _)).1 (not_broken_of_ends _ _ _ (fun p hp => ?_))
    rcases ends_one _ p hp with h | h
    · exact Or.inl (by omega)
    · right
      rw [h, Nat.zero_add]
      exact le_refl _
  · intro pre v post h hn
    unfold get
    rw [h, List.reverse_append, List.reverse_cons, List.append_assoc, List.find?_append, List.find?_eq_none.mpr (fun w hw => by
      have := hn w (List.mem_reverse.mp hw)
      simpa using this)]
    simp

/-- C59 violated: every well formed file is refused by some reader (one that returns the first five bytes first). -/
theorem C59_chunks_violated (b : UInt8) (vs : List (Filler × Var)) (hg : Good vs) : ∃ cs, Solid cs ∧ cs.flatten = fileBytes b vs ∧ load cs = none := by
  have hl : 5 < (fileBytes b vs).length := by
    unfold fileBytes fileFields
    rw [bytes_append, List.length_append]
    have : (bytes [(true, [79, 99, 116, 97, 118, 101, 45, 49, 45, 76]), (true, [b])]).length = 11 := rfl
    omega
  have hs : Solid [(fileBytes b vs).take 5, (fileBytes b vs).drop 5] := by
    intro c hc
    rcases List.mem_cons.mp hc with rfl | hc
    · intro hh
      have := congrArg List.length hh
      rw [List.length_take, List.length_nil] at this
      omega
    · rw [List.mem_singleton.mp hc]
      intro hh
      have := congrArg List.length hh
      rw [List.length_drop, List.length_nil] at this
      omega
  have hf : [(fileBytes b vs).take 5, (fileBytes b vs).drop 5].flatten = fileBytes b vs := by
    rw [List.flatten_cons, List.flatten_cons, List.flatten_nil, List.append_nil, List.take_append_drop]
  refine ⟨_, hs, hf, (C59_chunks_exact_partial b vs hg _ hs hf).2 (Or.inl ⟨rfl, 5, ⟨[(fileBytes b vs).take 5], [(fileBytes b vs).drop 5], rfl, ?_⟩, by norm_num, by simp⟩)⟩
  rw [List.flatten_cons, List.flatten_nil, List.append_nil, List.length_take]
  omega

/-! ## C59: chunks never change the result -/

/-- In one piece the same is read. -/
def Same {α : Type} (p : P α) : Prop := ∀ cs, (∀ a r, p cs = .ok a r → p (one cs.flatten) = .ok a (one r.flatten)) ∧ (p cs = .eof → p (one cs.flatten) = .eof)

theorem same_pure {α : Type} (a : α) : Same (pure a) := by
  refine fun cs => ⟨fun b r h => ?_, fun h => by cases h⟩
  cases h
  rfl

theorem same_require (b : Bool) : Same (require b) := by
  intro cs
  unfold require
  split
  · refine ⟨fun a r h => ?_, fun h => by cases h⟩
    cases h
    rfl
  · exact ⟨fun a r h => (by cases h), fun h => (by cases h)⟩

theorem same_bind {α β : Type} {p : P α} {k : α → P β} (h : Same p) (h' : ∀ a, Same (k a)) : Same (p >>= k) := by
  intro cs
  rw [bind_apply]
  cases hp : p cs with
  | ok a s =>
    rw [bind_ok ((h cs).1 a s hp)]
    exact h' a s
  | eof =>
    rw [bind_eof ((h cs).2 hp)]
    exact ⟨fun a r h => (by cases h), fun _ => rfl⟩
  | panic => exact ⟨fun a r h => (by cases h), fun h => (by cases h)⟩

theorem same_must {α : Type} {p : P α} (h : Same p) : Same (must p) := by
  intro cs
  unfold must
  cases hp : p cs with
  | ok a s =>
    rw [(h cs).1 a s hp]
    refine ⟨fun b r h => ?_, fun h => by cases h⟩
    cases h
    rfl
  | eof => exact ⟨fun a r h => (by cases h), fun h => (by cases h)⟩
  | panic => exact ⟨fun a r h => (by cases h), fun h => (by cases h)⟩

theorem not_inside_one (f g : List UInt8) : ¬ Broken (one (f ++ g)) 0 [(true, f)] := by
  rintro (⟨_, p, h1, h2, h3⟩ | h)
  · change p < 0 + f.length at h3
    rcases ends_one _ p h1 with h | h
    · omega
    · rw [List.length_append] at h
      omega
  · exact h

theorem one_of_solid {cs : Chunks} (bs : List UInt8) (n : ℕ) (f : List UInt8) (hn : f.length = n) (h : read n (one (f ++ bs)) = .ok f cs) : cs = one bs := by
  unfold read at h
  by_cases h0 : n = 0
  · rw [if_pos h0] at h
    have : f = [] := List.length_eq_zero_iff.mp (hn.trans h0)
    rw [this] at h
    cases h
    rfl
  · rw [if_neg h0] at h
    unfold one at h
    by_cases hn' : f ++ bs = []
    · rw [if_pos hn'] at h
      cases h
    · rw [if_neg hn'] at h
      change (if n ≤ (f ++ bs).length then Out.ok ((f ++ bs).take n) (push ((f ++ bs).drop n) []) else Out.panic) = _ at h
      rw [if_pos (by rw [List.length_append]; omega), List.drop_left' hn] at h
      injection h with _ h2
      exact h2.symm

/-- A field at the front of the only chunk is read. -/
theorem read_one (f g : List UInt8) (n : ℕ) (h : f.length = n) : read n (one (f ++ g)) = .ok f (one g) := by
  obtain ⟨cs', e, _⟩ := (reads_read f n h (one (f ++ g)) g (solid_one _) (by rw [flatten_one, bytes_one])).2 (not_inside_one f g)
  rw [e, one_of_solid g n f h e]

theorem read_eof {n : ℕ} {cs : Chunks} (h : read n cs = .eof) : cs = [] := by
  unfold read at h
  split at h
  · cases h
  · rcases cs with _ | ⟨c, cs⟩
    · rfl
    · simp only at h
      split at h <;> cases h

theorem same_read (n : ℕ) : Same (read n) := by
  intro cs
  refine ⟨fun a r h => ?_, fun h => ?_⟩
  · obtain ⟨h1, h2⟩ := read_size h
    rw [h1]
    exact read_one a _ n h2
  · have := read_eof h
    subst this
    exact h

theorem same_skip (n : ℕ) : Same (skip n) := by
  intro cs
  unfold skip
  cases hp : read n cs with
  | ok a s =>
    rw [(same_read n cs).1 a s hp]
    refine ⟨fun b r h => ?_, fun h => by cases h⟩
    cases h
    rfl
  | eof =>
    rw [(same_read n cs).2 hp]
    refine ⟨fun b r h => ?_, fun h => by cases h⟩
    cases h
    rfl
  | panic => exact ⟨fun a r h => (by cases h), fun h => (by cases h)⟩

theorem full_size {n : ℕ} {cs : Chunks} {a : List UInt8} {r : Chunks} (h : readFull n cs = .ok a r) : cs.flatten = a ++ r.flatten ∧ a.length = n := by
  induction cs generalizing n a with
  | nil =>
    unfold readFull at h
    split at h
    · rename_i h0
      cases h
      exact ⟨rfl, h0.symm⟩
    · cases h
  | cons c cs ih =>
    unfold readFull at h
    split at h
    · rename_i h0
      cases h
      exact ⟨rfl, h0.symm⟩
    · simp only at h
      split at h
      · rename_i hc
        cases h
        refine ⟨?_, by rw [List.length_take]; omega⟩
        rw [flatten_push, List.flatten_cons, ← List.append_assoc, List.take_append_drop]
      · cases hp : readFull (n - c.length) cs with
        | ok b s =>
          rw [hp] at h
          cases h
          obtain ⟨e1, e2⟩ := ih hp
          refine ⟨by rw [List.flatten_cons, e1, List.append_assoc], ?_⟩
          rw [List.length_append, e2]
          omega
        | eof =>
          rw [hp] at h
          cases h
        | panic =>
          rw [hp] at h
          cases h

theorem full_one (f g : List UInt8) : readFull f.length (one (f ++ g)) = .ok f (one g) := by
  have hr := read_one f g _ rfl
  unfold read at hr
  unfold readFull
  by_cases h0 : f.length = 0
  · rw [if_pos h0] at hr ⊢
    exact hr
  · rw [if_neg h0] at hr ⊢
    unfold one at hr ⊢
    by_cases hn : f ++ g = []
    · rw [if_pos hn] at hr
      cases hr
    · rw [if_neg hn] at hr ⊢
      simp only at hr ⊢
      have : f.length ≤ (f ++ g).length := by rw [List.length_append]; omega
      rw [if_pos this] at hr ⊢
      exact hr

theorem same_full (n : ℕ) : Same (readFull n : P _) := by
  intro cs
  refine ⟨fun a r h => ?_, fun h => ?_⟩
  · obtain ⟨h1, h2⟩ := full_size h
    rw [h1, ← h2]
    exact full_one a _
  · exfalso
    induction cs generalizing n with
    | nil =>
      unfold readFull at h
      split at h <;> cases h
    | cons c cs ih =>
      unfold readFull at h
      split at h
      · cases h
      · simp only at h
        split at h
        · cases h
        · cases hp : readFull (n - c.length) cs with
          | ok b s =>
            rw [hp] at h
            cases h
          | eof => exact ih _ hp
          | panic =>
            rw [hp] at h
            cases h

theorem same_u32 : Same readU32 := same_bind (same_read 4) (fun _ => same_pure _)

theorem same_str : Same readStr := same_bind same_u32 (fun n => same_read n)

theorem same_cols (rows k : ℕ) : Same (readCols rows k) := by
  induction k with
  | zero => exact same_pure _
  | succ k ih => exact same_bind (same_full _) (fun _ => same_bind ih (fun _ => same_pure _))

theorem same_var : Same readVar :=
  same_bind same_str (fun _ => same_bind (same_skip 4) (fun _ => same_bind (same_skip 1) (fun _ => same_bind (same_must (same_read 1)) (fun _ => same_bind (same_require _) (fun _ => same_bind (same_must same_str) (fun _ => same_bind (same_require _) (fun _ =>
    same_bind (same_skip 4) (fun _ => same_bind (same_must same_u32) (fun rows => same_bind (same_must same_u32) (fun cols => same_bind (same_skip 1) (fun _ => same_bind (same_require _) (fun _ => same_bind (same_cols rows cols) (fun _ => same_pure _)))))))))))))

theorem same_magic : Same readMagic := same_bind (same_must (same_read 10)) (fun _ => same_bind (same_require _) (fun _ => same_bind (same_must (same_read 1)) (fun _ => same_pure _)))

theorem loadVars_same (n : ℕ) : ∀ cs, size cs ≤ n → ∀ r, loadVars cs = some r → loadVars (one cs.flatten) = some r := by
  induction n with
  | zero =>
    intro cs hn r h
    rw [loadVars_eq] at h
    cases hp : readVar cs with
    | ok v s =>
      have := readVar_progress cs v s hp
      omega
    | eof =>
      rw [hp] at h
      rw [loadVars_eq, (same_var cs).2 hp]
      exact h
    | panic =>
      rw [hp] at h
      cases h
  | succ n ih =>
    intro cs hn r h
    rw [loadVars_eq] at h
    cases hp : readVar cs with
    | ok v s =>
      have hpr := readVar_progress cs v s hp
      rw [hp] at h
      simp only at h
      rw [loadVars_eq, (same_var cs).1 v s hp]
      simp only
      obtain ⟨t, h1, h2⟩ := Option.map_eq_some_iff.mp h
      rw [ih s (by omega) t h1]
      exact congrArg some h2
    | eof =>
      rw [hp] at h
      rw [loadVars_eq, (same_var cs).2 hp]
      exact h
    | panic =>
      rw [hp] at h
      cases h

/-- C59: whatever the bytes, if a file is read from some chunks then it is read with the same result in one piece; two readers of the same bytes never give two different results.
Missing for the full claim: what `C59_chunks_violated`, `C59_truncation_violated`, `C59_documentation_violated` refute. -/
theorem C59_same_result_partial (cs cs' : Chunks) (h : cs.flatten = cs'.flatten) (r r' : List Var) (hr : load cs = some r) (hr' : load cs' = some r') : r = r' ∧ load (one cs.flatten) = some r := by
  have key : ∀ cs r, load cs = some r → load (one cs.flatten) = some r := by
    intro cs r h
    unfold load at h ⊢
    cases hp : readMagic cs with
    | ok v s =>
      rw [hp] at h
      rw [(same_magic cs).1 v s hp]
      exact loadVars_same _ s (le_refl _) r h
    | eof =>
      rw [hp] at h
      cases h
    | panic =>
      rw [hp] at h
      cases h
  have h1 := key cs r hr
  have h2 := key cs' r' hr'
  rw [← h, h1] at h2
  exact ⟨Option.some.inj h2, h1⟩

/-! ## C59: truncated files -/

/-- On a proper prefix of the bytes of the fields, in one piece, `p` panics. -/
def Stops {α : Type} (p : P α) (fs : List (Bool × List UInt8)) : Prop := ∀ q, q <+: bytes fs → q.length < (bytes fs).length → p (one q) = .panic

/-- `p` reads the fields from the only chunk. -/
def Takes {α : Type} (p : P α) (fs : List (Bool × List UInt8)) (a : α) : Prop := ∀ g, p (one (bytes fs ++ g)) = .ok a (one g)

theorem prefix_cases (q f g : List UInt8) (h : q <+: f ++ g) : (q.length < f.length ∧ q <+: f) ∨ ∃ q', q = f ++ q' ∧ q' <+: g := by
  by_cases hl : q.length < f.length
  · exact Or.inl ⟨hl, List.prefix_of_prefix_length_le h (List.prefix_append f g) hl.le⟩
  · right
    have hf : f <+: q := List.prefix_of_prefix_length_le (List.prefix_append f g) h (by omega)
    obtain ⟨q', rfl⟩ := hf
    exact ⟨q', rfl, (List.prefix_append_right_inj f).mp h⟩

theorem takes_of_reads {α : Type} {p : P α} {fs : List (Bool × List UInt8)} {a : α} (h : Reads p fs a) (hs : Same p) : Takes p fs a := by
  intro g
  have hnb : ¬ Broken (one (bytes fs ++ g)) 0 fs := not_broken_of_ends _ _ _ (fun p hp => by
    rcases ends_one _ p hp with h | h
    · exact Or.inl (by omega)
    · right
      rw [List.length_append] at h
      omega)
  obtain ⟨cs', e, _, f', _⟩ := (h (one (bytes fs ++ g)) g (solid_one _) (flatten_one _)).2 hnb
  have := (hs _).1 _ _ e
  rw [flatten_one, f'] at this
  exact this

theorem stops_bind {α β : Type} {p : P α} {k : α → P β} {fs gs : List (Bool × List UInt8)} {a : α} (h : Stops p fs) (ht : Takes p fs a) (h' : Stops (k a) gs) : Stops (p >>= k) (fs ++ gs) := by
  intro q hq hl
  rw [bytes_append] at hq hl
  rcases prefix_cases q _ _ hq with ⟨h1, h2⟩ | ⟨q', rfl, h2⟩
  · exact bind_panic (h q h2 h1)
  · rw [bind_ok (ht q')]
    refine h' q' h2 ?_
    rw [List.length_append, List.length_append] at hl
    omega

theorem read_short (n : ℕ) (q : List UInt8) (h : q.length < n) : read n (one q) = if q = [] then .eof else .panic := by
  unfold read
  rw [if_neg (by omega)]
  unfold one
  by_cases hq : q = []
  · rw [if_pos hq, if_pos hq]
  · rw [if_neg hq, if_neg hq]
    simp only
    rw [if_neg (by omega)]

theorem stops_skip {β : Type} {k : Unit → P β} {f : List UInt8} {n : ℕ} {gs : List (Bool × List UInt8)} (hn : f.length = n) (h' : Stops (k ()) gs) (hne : bytes gs ≠ []) : Stops (skip n >>= k) ((true, f) :: gs) := by
  intro q hq hl
  rw [show ((true, f) :: gs) = [(true, f)] ++ gs from rfl, bytes_append, bytes_one] at hq hl
  rcases prefix_cases q _ _ hq with ⟨h1, h2⟩ | ⟨q', rfl, h2⟩
  · have hr := read_short n q (by rw [← hn]; exact h1)
    by_cases h0 : q = []
    · rw [if_pos h0] at hr
      have hs : skip n (one q) = .ok () [] := by
        unfold skip
        rw [hr]
      rw [bind_ok hs]
      exact h' [] (List.nil_prefix) (List.length_pos_of_ne_nil hne)
    · rw [if_neg h0] at hr
      refine bind_panic ?_
      unfold skip
      rw [hr]
  · have hs : skip n (one (f ++ q')) = .ok () (one q') := by
      unfold skip
      rw [read_one f q' n hn]
    rw [bind_ok hs]
    refine h' q' h2 ?_
    simp only [List.length_append] at hl
    omega

theorem stops_must_read (f : List UInt8) (n : ℕ) (hn : f.length = n) : Stops (must (read n)) [(true, f)] := by
  intro q hq hl
  rw [bytes_one] at hl
  have hr := read_short n q (by rw [← hn]; exact hl)
  unfold must
  rw [hr]
  by_cases h0 : q = []
  · rw [if_pos h0]
  · rw [if_neg h0]

theorem stops_must_u32 (n : ℕ) : Stops (must readU32) [(true, leBytes 4 n)] := by
  intro q hq hl
  rw [bytes_one, leBytes_length] at hl
  have hr := read_short 4 q hl
  unfold must readU32
  rw [bind_apply, hr]
  by_cases h0 : q = []
  · rw [if_pos h0]
  · rw [if_neg h0]

theorem stops_must_str (s : List UInt8) (h : s.length < 2 ^ 32) : Stops (must readStr) [(true, leBytes 4 s.length), (true, s)] := by
  intro q hq hl
  rw [show [(true, leBytes 4 s.length), (true, s)] = [(true, leBytes 4 s.length)] ++ [(true, s)] from rfl, bytes_append] at hq hl
  rcases prefix_cases q _ _ hq with ⟨h1, h2⟩ | ⟨q', rfl, h2⟩
  · have := stops_must_u32 s.length q h2 h1
    unfold must readStr at *
    rw [bind_apply]
    cases hp : readU32 (one q) with
    | ok a r =>
      rw [hp] at this
      cases this
    | eof => rfl
    | panic => rfl
  · have ht := takes_of_reads (reads_u32 s.length h) same_u32 q'
    unfold must readStr
    rw [bind_ok ht, read_short s.length q' (by
      rw [List.length_append, List.length_append, bytes_one, bytes_one] at hl
      change _ < _ + s.length at hl
      omega)]
    by_cases h0 : q' = []
    · rw [if_pos h0]
    · rw [if_neg h0]

theorem stops_pure_empty {α : Type} (a : α) : Stops (pure a) [] := by
  intro q hq hl
  unfold bytes at hl
  simp at hl

theorem stops_require {β : Type} {k : Unit → P β} {gs : List (Bool × List UInt8)} (b : Bool) (h : Stops (k ()) gs) (hb : b = true) : Stops (require b >>= k) gs := by
  intro q hq hl
  have : require b (one q) = .ok () (one q) := by
    unfold require
    rw [if_pos hb]
  rw [bind_ok this]
  exact h q hq hl

theorem full_short (n : ℕ) (q : List UInt8) (h : q.length < n) : readFull n (one q) = .panic := by
  unfold readFull
  rw [if_neg (by omega)]
  unfold one
  split
  · rename_i hh
    split at hh
    · rfl
    · cases hh
  · rename_i hh
    split at hh
    · cases hh
    · rw [List.cons.injEq] at hh
      rw [← hh.1, ← hh.2, if_neg (by omega)]
      unfold readFull
      rw [if_neg (by omega)]

theorem stops_cols (rows : ℕ) (l : List (List ℕ)) (hr : ∀ c ∈ l, c.length = rows) : Stops (readCols rows l.length) (l.map (fun c => (false, c.flatMap (leBytes 8)))) := by
  induction l with
  | nil => exact stops_pure_empty _
  | cons c l ih =>
    have h1 : Stops (readFull (8 * rows) : P _) [(false, c.flatMap (leBytes 8))] := by
      intro q hq hl
      rw [bytes_one, col_length, hr c (by simp)] at hl
      exact full_short _ q hl
    have h2 : Takes (readFull (8 * rows) : P _) [(false, c.flatMap (leBytes 8))] (c.flatMap (leBytes 8)) := by
      intro g
      have := full_one (c.flatMap (leBytes 8)) g
      rw [col_length, hr c (by simp)] at this
      rw [bytes_one]
      exact this
    refine stops_bind (gs := l.map (fun c => (false, c.flatMap (leBytes 8)))) h1 h2 ?_
    intro q hq hl
    exact bind_panic (ih (fun c hc => hr c (List.mem_cons_of_mem _ hc)) q hq hl)

theorem bytes_cons (x : Bool × List UInt8) (fs : List (Bool × List UInt8)) : bytes (x :: fs) = x.2 ++ bytes fs := rfl

/-- A variable cut short: nothing, or only the length of a name that is not empty, counts as the end of the file; anything else panics. -/
theorem readVar_short (f : Filler) (v : Var) (hf : f.OK) (hv : v.OK) (q : List UInt8) (hq : q <+: bytes (varFields f v)) (hl : q.length < (bytes (varFields f v)).length) :
    readVar (one q) = if q = [] ∨ (q = leBytes 4 v.name.length ∧ v.name ≠ []) then .eof else .panic := by
  obtain ⟨f1, f2, f3, f4⟩ := hf
  obtain ⟨v1, v2, v3, v4, v5, v6⟩ := hv
  have hc32 : v.cols.length < 2 ^ 32 := lt_of_le_of_lt (Nat.le_mul_of_pos_left _ v2) v4
  have hr32 : v.rows < 2 ^ 32 := lt_of_le_of_lt (Nat.le_mul_of_pos_right _ v3) v4
  have hlen4 : ∀ q' : List UInt8, leBytes 4 v.name.length ++ q' ≠ [] := fun q' h => by
    have := congrArg List.length h
    rw [List.length_append, leBytes_length, List.length_nil] at this
    omega
  let tail : List (Bool × List UInt8) := [(true, f.doc), (true, f.flag), (true, [0xff]), (true, leBytes 4 6), (true, [109, 97, 116, 114, 105, 120]), (true, f.marker), (true, leBytes 4 v.rows), (true, leBytes 4 v.cols.length), (true, f.kind)] ++ v.cols.map (fun c => (false, c.flatMap (leBytes 8)))
  have hfields : bytes (varFields f v) = leBytes 4 v.name.length ++ (v.name ++ bytes tail) := rfl
  have htail : Stops (do
      skip 4
      skip 1
      let t ← must (read 1)
      require (t = [0xff])
      let ty ← must readStr
      require (ty = matrixName)
      skip 4
      let rows ← must readU32
      let cols ← must readU32
      skip 1
      require (0 < rows ∧ 0 < cols ∧ rows * cols < 2 ^ 32)
      let l ← readCols rows cols
      pure (⟨v.name, rows, l⟩ : Var)) tail := by
    have hcells : bytes (v.cols.map (fun c => (false, c.flatMap (leBytes 8)))) ≠ [] := by
      rcases hcl : v.cols with _ | ⟨c, l⟩
      · rw [hcl] at v3
        exact absurd v3 (by simp)
      · rw [List.map_cons, bytes_cons]
        intro h
        have h1 := congrArg List.length (List.append_eq_nil_iff.mp h).1
        simp only [List.length_nil] at h1
        rw [col_length, v5 c (by rw [hcl]; simp)] at h1
        omega
    refine stops_skip (gs := _ :: _) f1 ?_ (by rw [bytes_cons]; intro h; have := congrArg List.length (List.append_eq_nil_iff.mp h).1; simp only [List.length_nil] at this; omega)
    refine stops_skip (gs := _ :: _) f2 ?_ (by rw [bytes_cons]; exact fun h => absurd (List.append_eq_nil_iff.mp h).1 (by simp))
    refine stops_bind (gs := _ :: _) (stops_must_read [0xff] 1 rfl) (takes_of_reads (reads_read [0xff] 1 rfl).must (same_must (same_read 1))) ?_
    refine stops_require _ ?_ (by decide)
    refine stops_bind (gs := _ :: _) (stops_must_str [109, 97, 116, 114, 105, 120] (by norm_num)) (takes_of_reads (reads_str [109, 97, 116, 114, 105, 120] (by norm_num)).must (same_must same_str)) ?_
    refine stops_require _ ?_ (by decide)
    refine stops_skip (gs := _ :: _) f3 ?_ (by rw [bytes_cons]; intro h; have := congrArg List.length (List.append_eq_nil_iff.mp h).1; simp only [leBytes_length, List.length_nil] at this; omega)
    refine stops_bind (gs := _ :: _) (stops_must_u32 v.rows) (takes_of_reads (reads_u32 v.rows hr32).must (same_must same_u32)) ?_
    refine stops_bind (gs := _ :: _) (stops_must_u32 v.cols.length) (takes_of_reads (reads_u32 v.cols.length hc32).must (same_must same_u32)) ?_
    refine stops_skip f4 ?_ hcells
    refine stops_require _ ?_ (by simp only [decide_eq_true_eq]; exact ⟨v2, v3, v4⟩)
    intro q hq hl
    exact bind_panic (stops_cols v.rows v.cols v5 q hq hl)
  rw [hfields] at hq hl
  rcases prefix_cases q _ _ hq with ⟨h1, h2⟩ | ⟨q', rfl, h2⟩
  · rw [leBytes_length] at h1
    have hr := read_short 4 q h1
    have hs : readStr (one q) = if q = [] then .eof else .panic := by
      unfold readStr readU32
      rw [bind_apply, bind_apply, hr]
      by_cases h0 : q = []
      · rw [if_pos h0]
      · rw [if_neg h0]
    have hne : ¬ (q = leBytes 4 v.name.length ∧ v.name ≠ []) := fun h => by
      rw [h.1, leBytes_length] at h1
      omega
    unfold readVar
    rw [bind_apply, hs]
    by_cases h0 : q = []
    · rw [if_pos h0, if_pos (Or.inl h0)]
    · rw [if_neg h0, if_neg (fun h => h.elim h0 hne)]
  · have hu : readU32 (one (leBytes 4 v.name.length ++ q')) = .ok v.name.length (one q') := takes_of_reads (reads_u32 v.name.length v1) same_u32 q'
    rcases prefix_cases q' _ _ h2 with ⟨h3, h4⟩ | ⟨q'', rfl, h4⟩
    · have hs : readStr (one (leBytes 4 v.name.length ++ q')) = if q' = [] then .eof else .panic := by
        unfold readStr
        rw [bind_ok hu, read_short _ q' h3]
      unfold readVar
      rw [bind_apply, hs]
      have hnm : v.name ≠ [] := fun h => by
        rw [h] at h3
        exact absurd h3 (by simp)
      by_cases h0 : q' = []
      · rw [if_pos h0, if_pos (Or.inr ⟨by rw [h0, List.append_nil], hnm⟩)]
      · rw [if_neg h0, if_neg]
        rintro (h | ⟨h, _⟩)
        · exact hlen4 _ h
        · exact h0 (List.append_right_eq_self.mp h)
    · have hs : readStr (one (leBytes 4 v.name.length ++ (v.name ++ q''))) = .ok v.name (one q'') := by
        unfold readStr
        rw [bind_ok hu]
        exact read_one v.name q'' _ rfl
      unfold readVar
      rw [bind_ok hs, htail q'' h4 (by
        rw [List.length_append, List.length_append, List.length_append, List.length_append] at hl
        omega), if_neg]
      rintro (h | ⟨h, hn⟩)
      · exact hlen4 _ h
      · exact hn (List.append_eq_nil_iff.mp (List.append_right_eq_self.mp h)).1

theorem loadVars_short (vs : List (Filler × Var)) (hg : Good vs) (q : List UInt8) (hq : q <+: bytes (vs.flatMap (fun p => varFields p.1 p.2))) (r : List Var) :
    loadVars (one q) = some r ↔ ∃ pre post, vs = pre ++ post ∧ r = pre.map Prod.snd ∧
      (q = bytes (pre.flatMap (fun p => varFields p.1 p.2)) ∨ ∃ p rest, post = p :: rest ∧ p.2.name ≠ [] ∧ q = bytes (pre.flatMap (fun p => varFields p.1 p.2)) ++ leBytes 4 p.2.name.length) := by
  induction vs generalizing q r with
  | nil =>
    have : q = [] := List.prefix_nil.mp hq
    rw [this, loadVars_eq]
    have he : readVar (one []) = .eof := rfl
    rw [he]
    constructor
    · intro h
      refine ⟨[], [], rfl, ?_, Or.inl rfl⟩
      exact (Option.some.inj h).symm
    · rintro ⟨pre, post, h1, h2, _⟩
      rw [(List.append_eq_nil_iff.mp h1.symm).1] at h2
      rw [h2]
      rfl
  | cons p vs ih =>
    obtain ⟨hp1, hp2⟩ := hg p (by simp)
    rw [List.flatMap_cons, bytes_append] at hq
    have hbl : 4 < (bytes (varFields p.1 p.2)).length := by
      have : bytes (varFields p.1 p.2) = leBytes 4 p.2.name.length ++ (p.2.name ++ (p.1.doc ++ bytes ((varFields p.1 p.2).drop 3))) := rfl
      rw [this, List.length_append, leBytes_length, List.length_append, List.length_append, hp1.1]
      omega
    rcases prefix_cases q _ _ hq with ⟨h1, h2⟩ | ⟨q', rfl, h2⟩
    · rw [loadVars_eq, readVar_short p.1 p.2 hp1 hp2 q h2 h1]
      have hnolong : ∀ (a : Filler × Var) (pre : List (Filler × Var)) (x : List UInt8), p = a → q ≠ bytes ((a :: pre).flatMap (fun p => varFields p.1 p.2)) ++ x := by
        rintro a pre x rfl h
        have := congrArg List.length h
        rw [List.flatMap_cons, bytes_append, List.length_append, List.length_append] at this
        omega
      constructor
      · intro h
        by_cases hc : q = [] ∨ (q = leBytes 4 p.2.name.length ∧ p.2.name ≠ [])
        · rw [if_pos hc] at h
          refine ⟨[], p :: vs, rfl, (Option.some.inj h).symm, ?_⟩
          rcases hc with hc | ⟨hc, hn⟩
          · exact Or.inl hc
          · exact Or.inr ⟨p, vs, rfl, hn, hc⟩
        · rw [if_neg hc] at h
          cases h
      · rintro ⟨pre, post, e1, e2, e3⟩
        rcases pre with _ | ⟨a, pre⟩
        · rw [if_pos]
          · rw [e2]
            rfl
          · rcases e3 with e3 | ⟨p', rest, h3, h4, h5⟩
            · exact Or.inl e3
            · rw [List.nil_append, h3, List.cons.injEq] at e1
              rw [← e1.1] at h4 h5
              exact Or.inr ⟨h5, h4⟩
        · exfalso
          rw [List.cons_append, List.cons.injEq] at e1
          rcases e3 with e3 | ⟨p', rest, h3, h4, h5⟩
          · exact hnolong a pre [] e1.1 (by rw [List.append_nil]; exact e3)
          · exact hnolong a pre _ e1.1 h5
    · have ht := takes_of_reads (reads_var p.1 p.2 hp1 hp2) same_var q'
      rw [loadVars_eq, ht]
      simp only
      rw [Option.map_eq_some_iff]
      constructor
      · rintro ⟨t, h3, rfl⟩
        obtain ⟨pre, post, e1, e2, e3⟩ := (ih (fun q hq => hg q (List.mem_cons_of_mem _ hq)) q' h2 t).mp h3
        refine ⟨p :: pre, post, by rw [e1, List.cons_append], by rw [e2, List.map_cons], ?_⟩
        rw [List.flatMap_cons, bytes_append]
        rcases e3 with e3 | ⟨p', rest, h4, h5, h6⟩
        · exact Or.inl (by rw [e3])
        · exact Or.inr ⟨p', rest, h4, h5, by rw [h6, List.append_assoc]⟩
      · rintro ⟨pre, post, e1, e2, e3⟩
        rcases pre with _ | ⟨a, pre⟩
        · exfalso
          rcases e3 with e3 | ⟨p', rest, h4, h5, h6⟩
          · have := congrArg List.length e3
            rw [List.length_append] at this
            have h0 : (bytes (([] : List (Filler × Var)).flatMap (fun p => varFields p.1 p.2))).length = 0 := rfl
            omega
          · have := congrArg List.length h6
            rw [List.length_append, List.length_append, leBytes_length] at this
            have h0 : (bytes (([] : List (Filler × Var)).flatMap (fun p => varFields p.1 p.2))).length = 0 := rfl
            omega
        · rw [List.cons_append, List.cons.injEq] at e1
          obtain ⟨rfl, e1⟩ := e1
          refine ⟨pre.map Prod.snd, (ih (fun q hq => hg q (List.mem_cons_of_mem _ hq)) q' h2 _).mpr ⟨pre, post, e1, rfl, ?_⟩, by rw [e2, List.map_cons]⟩
          rw [List.flatMap_cons, bytes_append] at e3
          rcases e3 with e3 | ⟨p', rest, h4, h5, h6⟩
          · exact Or.inl (List.append_cancel_left e3)
          · rw [List.append_assoc] at h6
            exact Or.inr ⟨p', rest, h4, h5, List.append_cancel_left h6⟩

/-- C59, truncation: what a file cut anywhere gives.  It is accepted exactly when the cut falls between two variables, or just after the length of a name; the variables before the cut are returned.
Missing for the full claim: what `C59_chunks_violated`, `C59_truncation_violated`, `C59_documentation_violated` refute. -/
theorem C59_truncation_partial (b : UInt8) (vs : List (Filler × Var)) (hg : Good vs) (q : List UInt8) (hq : q <+: fileBytes b vs) (r : List Var) :
    load (one q) = some r ↔ ∃ pre post, vs = pre ++ post ∧ r = pre.map Prod.snd ∧ (q = fileBytes b pre ∨ ∃ p rest, post = p :: rest ∧ p.2.name ≠ [] ∧ q = fileBytes b pre ++ leBytes 4 p.2.name.length) := by
  have hfb : ∀ l, fileBytes b l = bytes [(true, [79, 99, 116, 97, 118, 101, 45, 49, 45, 76]), (true, [b])] ++ bytes (l.flatMap (fun p => varFields p.1 p.2)) := fun l => by
    unfold fileBytes fileFields
    rw [bytes_append]
  rw [hfb] at hq
  unfold load
  rcases prefix_cases q _ _ hq with ⟨h1, h2⟩ | ⟨q', rfl, h2⟩
  · have hst : Stops readMagic [(true, [79, 99, 116, 97, 118, 101, 45, 49, 45, 76]), (true, [b])] := by
      refine stops_bind (gs := _ :: _) (stops_must_read [79, 99, 116, 97, 118, 101, 45, 49, 45, 76] 10 rfl) (takes_of_reads (reads_read [79, 99, 116, 97, 118, 101, 45, 49, 45, 76] 10 rfl).must (same_must (same_read 10))) ?_
      refine stops_require _ ?_ (by decide)
      intro q hq hl
      exact bind_panic (stops_must_read [b] 1 rfl q hq hl)
    rw [hst q h2 h1]
    constructor
    · intro h
      cases h
    · rintro ⟨pre, post, _, _, e3⟩
      exfalso
      rcases e3 with e3 | ⟨p, rest, _, _, e3⟩
      · have := congrArg List.length e3
        rw [hfb, List.length_append] at this
        omega
      · have := congrArg List.length e3
        rw [hfb, List.length_append, List.length_append] at this
        omega
  · rw [takes_of_reads (reads_magic b) same_magic q']
    simp only
    rw [loadVars_short vs hg q' h2 r]
    simp only [hfb, List.append_assoc, List.append_cancel_left_eq]

/-- C59 violated: a file cut after one of its variables, or just after the length of the next name, is accepted without a report and the rest is missing. -/
theorem C59_truncation_violated (b : UInt8) (pre : List (Filler × Var)) (p : Filler × Var) (rest : List (Filler × Var)) (hg : Good (pre ++ p :: rest)) :
    ∃ q, q <+: fileBytes b (pre ++ p :: rest) ∧ q ≠ fileBytes b (pre ++ p :: rest) ∧ load (one q) = some (pre.map Prod.snd) ∧
      (p.2.name ≠ [] → load (one (q ++ leBytes 4 p.2.name.length)) = some (pre.map Prod.snd)) := by
  have e1 : fileBytes b (pre ++ p :: rest) = fileBytes b pre ++ (leBytes 4 p.2.name.length ++ bytes ((varFields p.1 p.2).tail ++ rest.flatMap (fun p => varFields p.1 p.2))) := by
    unfold fileBytes fileFields
    rw [List.flatMap_append, List.flatMap_cons]
    simp only [bytes_append, List.append_assoc]
    rfl
  have hp1 : fileBytes b pre <+: fileBytes b (pre ++ p :: rest) := by
    rw [e1]
    exact List.prefix_append _ _
  have hp2 : fileBytes b pre ++ leBytes 4 p.2.name.length <+: fileBytes b (pre ++ p :: rest) := by
    rw [e1, ← List.append_assoc]
    exact List.prefix_append _ _
  refine ⟨fileBytes b pre, hp1, ?_, (C59_truncation_partial b _ hg _ hp1 _).mpr ⟨pre, p :: rest, rfl, rfl, Or.inl rfl⟩, fun hn => (C59_truncation_partial b _ hg _ hp2 _).mpr ⟨pre, p :: rest, rfl, rfl, Or.inr ⟨p, rest, rfl, hn, rfl⟩⟩⟩
  intro h
  rw [e1] at h
  have := congrArg List.length h
  rw [List.length_append, List.length_append, leBytes_length] at this
  omega

/-! ## C59: documentation -/

/-- C59 violated: a variable with a documentation string (of bytes other than 0xff) makes reading panic: the string is not skipped. -/
theorem C59_documentation_violated (b : UInt8) (vs : List (Filler × Var)) (hg : Good vs) (name : List UInt8) (hname : name.length < 2 ^ 32) (doc : List UInt8) (hdoc : doc ≠ []) (hff : ∀ x ∈ doc, x ≠ 0xff) (flag : UInt8) (hflag : flag ≠ 0xff) (more : List UInt8) :
    load (one (fileBytes b vs ++ (leBytes 4 name.length ++ (name ++ (leBytes 4 doc.length ++ (doc ++ (flag :: more))))))) = none := by
  have hlast : readVar (one (leBytes 4 name.length ++ (name ++ (leBytes 4 doc.length ++ (doc ++ (flag :: more)))))) = .panic := by
    obtain ⟨d, ds, rfl⟩ := List.exists_cons_of_ne_nil hdoc
    obtain ⟨y, ys, hy, hne⟩ : ∃ y ys, (ds ++ flag :: more) = y :: ys ∧ y ≠ 0xff := by
      rcases ds with _ | ⟨y, ys⟩
      · exact ⟨flag, more, rfl, hflag⟩
      · exact ⟨y, ys ++ flag :: more, rfl, hff y (by simp)⟩
    have h1 : readStr (one (leBytes 4 name.length ++ (name ++ (leBytes 4 (d :: ds).length ++ ((d :: ds) ++ (flag :: more)))))) = .ok name (one (leBytes 4 (d :: ds).length ++ ((d :: ds) ++ (flag :: more)))) := by
      have := takes_of_reads (reads_str name hname) same_str (leBytes 4 (d :: ds).length ++ ((d :: ds) ++ (flag :: more)))
      simpa [bytes] using this
    have h2 : skip 4 (one (leBytes 4 (d :: ds).length ++ ((d :: ds) ++ (flag :: more)))) = .ok () (one ((d :: ds) ++ (flag :: more))) := by
      unfold skip
      rw [read_one _ _ 4 (leBytes_length _ _)]
    have h3 : skip 1 (one ((d :: ds) ++ (flag :: more))) = .ok () (one (y :: ys)) := by
      unfold skip
      rw [List.cons_append, hy, show d :: y :: ys = [d] ++ (y :: ys) from rfl, read_one [d] _ 1 rfl]
    have h4 : must (read 1) (one (y :: ys)) = .ok [y] (one ys) := by
      unfold must
      rw [show y :: ys = [y] ++ ys from rfl, read_one [y] _ 1 rfl]
    unfold readVar
    rw [bind_ok h1, bind_ok h2, bind_ok h3, bind_ok h4]
    refine bind_panic ?_
    unfold require
    rw [if_neg]
    simpa using hne
  have hvars : ∀ vs : List (Filler × Var), Good vs → loadVars (one (bytes (vs.flatMap (fun p => varFields p.1 p.2)) ++ (leBytes 4 name.length ++ (name ++ (leBytes 4 doc.length ++ (doc ++ (flag :: more))))))) = none := by
    intro vs
    induction vs with
    | nil =>
      intro _
      rw [loadVars_eq, List.flatMap_nil]
      have : bytes [] = [] := rfl
      rw [this, List.nil_append, hlast]
    | cons p vs ih =>
      intro hg
      obtain ⟨hp1, hp2⟩ := hg p (by simp)
      rw [List.flatMap_cons, bytes_append, List.append_assoc, loadVars_eq, takes_of_reads (reads_var p.1 p.2 hp1 hp2) same_var]
      simp only
      rw [ih (fun q hq => hg q (List.mem_cons_of_mem _ hq))]
      rfl
  unfold load fileBytes fileFields
  rw [bytes_append, List.append_assoc, takes_of_reads (reads_magic b) same_magic]
  exact hvars vs hg

/-! ## C59: what is accepted is well formed -/

theorem leBytes_leNat (l : List UInt8) : leBytes l.length (leNat l) = l := by
  induction l with
  | nil => rfl
  | cons b l ih =>
    have hb := b.toNat_lt
    simp only [List.length_cons, leBytes, leNat]
    have h1 : UInt8.ofNat (b.toNat + 256 * leNat l) = b := by
      apply UInt8.toNat_inj.mp
      rw [UInt8.toNat_ofNat']
      have : (2 : ℕ) ^ 8 = 256 := by norm_num
      omega
    have h2 : (b.toNat + 256 * leNat l) / 256 = leNat l := by
      have : (2 : ℕ) ^ 8 = 256 := by norm_num
      omega
    rw [h1, h2, ih]

theorem leNat_lt (l : List UInt8) : leNat l < 256 ^ l.length := by
  induction l with
  | nil => norm_num [leNat]
  | cons b l ih =>
    have hb := b.toNat_lt
    rw [List.length_cons, pow_succ]
    simp only [leNat]
    have : (2 : ℕ) ^ 8 = 256 := by norm_num
    omega

theorem bind_inv {α β : Type} {p : P α} {k : α → P β} {cs : Chunks} {b : β} {r : Chunks} (h : (p >>= k) cs = .ok b r) : ∃ a s, p cs = .ok a s ∧ k a s = .ok b r := by
  rw [bind_apply] at h
  cases hp : p cs with
  | ok a s =>
    rw [hp] at h
    exact ⟨a, s, rfl, h⟩
  | eof =>
    rw [hp] at h
    cases h
  | panic =>
    rw [hp] at h
    cases h

theorem bind_eof_inv {α β : Type} {p : P α} {k : α → P β} {cs : Chunks} (h : (p >>= k) cs = .eof) : p cs = .eof ∨ ∃ a s, p cs = .ok a s ∧ k a s = .eof := by
  rw [bind_apply] at h
  cases hp : p cs with
  | ok a s =>
    rw [hp] at h
    exact Or.inr ⟨a, s, rfl, h⟩
  | eof => exact Or.inl rfl
  | panic =>
    rw [hp] at h
    cases h

theorem must_inv {α : Type} {p : P α} {cs : Chunks} {a : α} {r : Chunks} (h : must p cs = .ok a r) : p cs = .ok a r := by
  unfold must at h
  cases hp : p cs with
  | ok b s =>
    rw [hp] at h
    exact h
  | eof =>
    rw [hp] at h
    cases h
  | panic =>
    rw [hp] at h
    cases h

theorem must_not_eof {α : Type} {p : P α} {cs : Chunks} : must p cs ≠ .eof := by
  unfold must
  cases p cs <;> simp

theorem require_inv {b : Bool} {cs r : Chunks} (h : require b cs = .ok () r) : b = true ∧ r = cs := by
  unfold require at h
  split at h
  · rename_i hb
    injection h with _ h
    exact ⟨hb, h.symm⟩
  · cases h

theorem skip_inv {n : ℕ} {cs r : Chunks} (h : skip n cs = .ok () r) : (∃ f, f.length = n ∧ cs.flatten = f ++ r.flatten) ∨ r = [] := by
  unfold skip at h
  cases hp : read n cs with
  | ok a s =>
    rw [hp] at h
    injection h with _ h
    obtain ⟨h1, h2⟩ := read_size hp
    rw [← h]
    exact Or.inl ⟨a, h2, h1⟩
  | eof =>
    rw [hp] at h
    injection h with _ h
    exact Or.inr h.symm
  | panic =>
    rw [hp] at h
    cases h

theorem u32_inv {n : ℕ} {cs r : Chunks} (h : readU32 cs = .ok n r) : n < 2 ^ 32 ∧ cs.flatten = leBytes 4 n ++ r.flatten := by
  obtain ⟨b, s, h1, h2⟩ := bind_inv h
  rw [pure_apply] at h2
  injection h2 with h2 h3
  obtain ⟨e1, e2⟩ := read_size h1
  subst h2 h3
  have hlt := leNat_lt b
  have hb := leBytes_leNat b
  rw [e2] at hlt hb
  exact ⟨by norm_num at *; exact hlt, by rw [hb]; exact e1⟩

theorem str_inv {f : List UInt8} {cs r : Chunks} (h : readStr cs = .ok f r) : f.length < 2 ^ 32 ∧ cs.flatten = leBytes 4 f.length ++ (f ++ r.flatten) := by
  obtain ⟨n, s, h1, h2⟩ := bind_inv h
  obtain ⟨e1, e2⟩ := u32_inv h1
  obtain ⟨e3, e4⟩ := read_size h2
  rw [← e4] at e1 e2
  exact ⟨e1, by rw [e2, e3]⟩

theorem words_inv (n : ℕ) (b : List UInt8) (h : b.length = 8 * n) : (words n b).length = n ∧ (∀ x ∈ words n b, x < 2 ^ 64) ∧ (words n b).flatMap (leBytes 8) = b := by
  induction n generalizing b with
  | zero =>
    refine ⟨rfl, fun x hx => absurd hx (by simp [words]), ?_⟩
    rw [List.length_eq_zero_iff.mp h]
    rfl
  | succ n ih =>
    obtain ⟨h1, h2, h3⟩ := ih (b.drop 8) (by rw [List.length_drop]; omega)
    have ht : (b.take 8).length = 8 := by rw [List.length_take]; omega
    have hlt := leNat_lt (b.take 8)
    have hb := leBytes_leNat (b.take 8)
    rw [ht] at hlt hb
    refine ⟨by rw [words, List.length_cons, h1], fun x hx => ?_, ?_⟩
    · rw [words] at hx
      rcases List.mem_cons.mp hx with rfl | hx
      · norm_num at *
        exact hlt
      · exact h2 x hx
    · rw [words, List.flatMap_cons, h3, hb, List.take_append_drop]

theorem cols_inv (rows k : ℕ) (cs : Chunks) (l : List (List ℕ)) (r : Chunks) (h : readCols rows k cs = .ok l r) :
    l.length = k ∧ (∀ c ∈ l, c.length = rows) ∧ (∀ c ∈ l, ∀ x ∈ c, x < 2 ^ 64) ∧ cs.flatten = bytes (l.map (fun c => (false, c.flatMap (leBytes 8)))) ++ r.flatten := by
  induction k generalizing cs l with
  | zero =>
    injection h with h1 h2
    subst h1 h2
    exact ⟨rfl, fun c hc => absurd hc (by simp), fun c hc => absurd hc (by simp), rfl⟩
  | succ k ih =>
    obtain ⟨b, s, h1, h2⟩ := bind_inv h
    obtain ⟨l', s', h3, h4⟩ := bind_inv h2
    rw [pure_apply] at h4
    injection h4 with h4 h5
    subst h4 h5
    obtain ⟨e1, e2⟩ := full_size h1
    obtain ⟨i1, i2, i3, i4⟩ := ih s l' h3
    obtain ⟨w1, w2, w3⟩ := words_inv rows b e2
    refine ⟨by rw [List.length_cons, i1], fun c hc => ?_, fun c hc => ?_, ?_⟩
    · rcases List.mem_cons.mp hc with rfl | hc
      · exact w1
      · exact i2 c hc
    · rcases List.mem_cons.mp hc with rfl | hc
      · exact w2
      · exact i3 c hc
    · rw [List.map_cons, bytes_cons, e1, i4]
      simp only
      rw [w3, List.append_assoc]

theorem read_nil_must {n : ℕ} (h : 0 < n) : must (read n) [] = .panic := by
  unfold must read
  rw [if_neg (by omega)]

theorem full_nil {n : ℕ} (h : 0 < n) : readFull n [] = .panic := by
  unfold readFull
  rw [if_neg (by omega)]

theorem must_u32_nil : must readU32 [] = .panic := rfl

/-- A variable that was read was well formed. -/
theorem var_inv (cs : Chunks) (v : Var) (r : Chunks) (h : readVar cs = .ok v r) : ∃ f : Filler, f.OK ∧ v.OK ∧ cs.flatten = bytes (varFields f v) ++ r.flatten := by
  obtain ⟨name, s1, a1, h⟩ := bind_inv h
  obtain ⟨_, s2, a2, h⟩ := bind_inv h
  obtain ⟨_, s3, a3, h⟩ := bind_inv h
  obtain ⟨t, s4, a4, h⟩ := bind_inv h
  obtain ⟨_, s5, a5, h⟩ := bind_inv h
  obtain ⟨ty, s6, a6, h⟩ := bind_inv h
  obtain ⟨_, s7, a7, h⟩ := bind_inv h
  obtain ⟨_, s8, a8, h⟩ := bind_inv h
  obtain ⟨rows, s9, a9, h⟩ := bind_inv h
  obtain ⟨cols, s10, a10, h⟩ := bind_inv h
  obtain ⟨_, s11, a11, h⟩ := bind_inv h
  obtain ⟨_, s12, a12, h⟩ := bind_inv h
  obtain ⟨l, s13, a13, h⟩ := bind_inv h
  rw [pure_apply] at h
  injection h with hv hr
  subst hv hr
  obtain ⟨n1, n2⟩ := str_inv a1
  obtain ⟨b5, rfl⟩ := require_inv a5
  obtain ⟨b7, rfl⟩ := require_inv a7
  obtain ⟨b12, rfl⟩ := require_inv a12
  rw [decide_eq_true_eq] at b5 b7 b12
  subst b5 b7
  have t4 := must_inv a4
  have t6 := must_inv a6
  have t9 := must_inv a9
  have t10 := must_inv a10
  have hs3 : s3 ≠ [] := fun hh => by
    rw [hh, read_nil_must (by norm_num)] at a4
    cases a4
  have hs2 : s2 ≠ [] := fun hh => by
    rw [hh] at a3
    have : skip 1 [] = .ok () [] := rfl
    rw [this] at a3
    injection a3 with _ a3
    exact hs3 a3.symm
  have hs8 : s8 ≠ [] := fun hh => by
    rw [hh, must_u32_nil] at a9
    cases a9
  obtain ⟨c1, c2, c3⟩ := b12
  have hs12 : s12 ≠ [] := fun hh => by
    rw [hh] at a13
    obtain ⟨k, rfl⟩ : ∃ k, cols = k + 1 := ⟨cols - 1, by omega⟩
    rw [readCols] at a13
    obtain ⟨b, s, e, _⟩ := bind_inv a13
    rw [full_nil (by omega)] at e
    cases e
  obtain ⟨doc, d1, d2⟩ := (skip_inv a2).resolve_right hs2
  obtain ⟨flag, g1, g2⟩ := (skip_inv a3).resolve_right hs3
  obtain ⟨marker, m1, m2⟩ := (skip_inv a8).resolve_right hs8
  obtain ⟨kind, k1, k2⟩ := (skip_inv a11).resolve_right hs12
  obtain ⟨x4, _⟩ := read_size t4
  obtain ⟨_, x6⟩ := str_inv t6
  obtain ⟨_, x9⟩ := u32_inv t9
  obtain ⟨_, x10⟩ := u32_inv t10
  obtain ⟨y1, y2, y3, y4⟩ := cols_inv rows cols _ l _ a13
  refine ⟨⟨doc, flag, marker, kind⟩, ⟨d1, g1, m1, k1⟩, ⟨n1, c1, by rw [y1]; exact c2, by rw [y1]; exact c3, y2, y3⟩, ?_⟩
  rw [n2, d2, g2, x4, x6, m2, x9, x10, k2, y4, ← y1]
  simp only [varFields, List.cons_append, List.nil_append, bytes_cons, List.append_assoc, matrixName]
  rfl

/-- An end of the file is reported only where nothing, or only the length of a name, is left. -/
theorem var_eof (cs : Chunks) (h : readVar cs = .eof) : cs.flatten = [] ∨ (cs.flatten.length = 4 ∧ leNat cs.flatten ≠ 0) := by
  have hstr : readStr cs = .eof := by
    rcases bind_eof_inv h with h | ⟨name, s, _, h⟩
    · exact h
    · exfalso
      rcases bind_eof_inv h with h | ⟨_, s2, _, h⟩
      · unfold skip at h
        cases hp : read 4 s <;> rw [hp] at h <;> cases h
      rcases bind_eof_inv h with h | ⟨_, s3, _, h⟩
      · unfold skip at h
        cases hp : read 1 s2 <;> rw [hp] at h <;> cases h
      rcases bind_eof_inv h with h | ⟨_, s4, _, h⟩
      · exact must_not_eof h
      rcases bind_eof_inv h with h | ⟨_, s5, _, h⟩
      · unfold require at h
        split at h <;> cases h
      rcases bind_eof_inv h with h | ⟨_, s6, _, h⟩
      · exact must_not_eof h
      rcases bind_eof_inv h with h | ⟨_, s7, _, h⟩
      · unfold require at h
        split at h <;> cases h
      rcases bind_eof_inv h with h | ⟨_, s8, _, h⟩
      · unfold skip at h
        cases hp : read 4 s7 <;> rw [hp] at h <;> cases h
      rcases bind_eof_inv h with h | ⟨_, s9, _, h⟩
      · exact must_not_eof h
      rcases bind_eof_inv h with h | ⟨_, s10, _, h⟩
      · exact must_not_eof h
      rcases bind_eof_inv h with h | ⟨_, s11, _, h⟩
      · unfold skip at h
        cases hp : read 1 s10 <;> rw [hp] at h <;> cases h
      rcases bind_eof_inv h with h | ⟨_, s12, _, h⟩
      · unfold require at h
        split at h <;> cases h
      rcases bind_eof_inv h with h | ⟨_, s13, _, h⟩
      · have hno : ∀ (rows k : ℕ) (cs : Chunks), readCols rows k cs ≠ .eof := by
          intro rows k
          induction k with
          | zero =>
            intro cs h
            cases h
          | succ k ih =>
            intro cs h
            rcases bind_eof_inv h with h | ⟨_, s, _, h⟩
            · have hf := (same_full (8 * rows) cs).2 h
              have hf2 : ∀ q : List UInt8, readFull (8 * rows) (one q) ≠ .eof := by
                intro q hq
                by_cases hl : q.length < 8 * rows
                · rw [full_short _ _ hl] at hq
                  cases hq
                · have := full_one (q.take (8 * rows)) (q.drop (8 * rows))
                  rw [List.take_append_drop, List.length_take, Nat.min_eq_left (by omega), hq] at this
                  cases this
              exact hf2 _ hf
            · rcases bind_eof_inv h with h | ⟨_, s', _, h⟩
              · exact ih s h
              · cases h
        exact hno _ _ _ h
      · cases h
  rcases bind_eof_inv hstr with h | ⟨n, s, h1, h2⟩
  · left
    rcases bind_eof_inv h with h | ⟨_, s, _, h⟩
    · rw [read_eof h]
      rfl
    · cases h
  · right
    have hs := read_eof h2
    subst hs
    obtain ⟨e1, e2⟩ := u32_inv h1
    rw [List.flatten_nil, List.append_nil] at e2
    rw [e2, leBytes_length, leNat_leBytes 4 n (by norm_num at *; exact e1)]
    refine ⟨rfl, fun hn => ?_⟩
    rw [hn] at h2
    have : read 0 [] = .ok [] [] := rfl
    rw [this] at h2
    cases h2

theorem vars_inv (n : ℕ) : ∀ cs, size cs ≤ n → ∀ r, loadVars cs = some r →
    ∃ (vs : List (Filler × Var)) (tail : List UInt8), Good vs ∧ r = vs.map Prod.snd ∧ cs.flatten = bytes (vs.flatMap (fun p => varFields p.1 p.2)) ++ tail ∧ (tail = [] ∨ (tail.length = 4 ∧ leNat tail ≠ 0)) := by
  induction n with
  | zero =>
    intro cs hn r h
    rw [loadVars_eq] at h
    cases hp : readVar cs with
    | ok v s =>
      have := readVar_progress cs v s hp
      omega
    | eof =>
      rw [hp] at h
      exact ⟨[], cs.flatten, fun p hp => absurd hp (by simp), (Option.some.inj h).symm, rfl, var_eof cs hp⟩
    | panic =>
      rw [hp] at h
      cases h
  | succ n ih =>
    intro cs hn r h
    rw [loadVars_eq] at h
    cases hp : readVar cs with
    | ok v s =>
      have hpr := readVar_progress cs v s hp
      rw [hp] at h
      obtain ⟨t, h1, h2⟩ := Option.map_eq_some_iff.mp h
      obtain ⟨vs, tail, g1, g2, g3, g4⟩ := ih s (by omega) t h1
      obtain ⟨f, hf, hv, e⟩ := var_inv cs v s hp
      refine ⟨(f, v) :: vs, tail, fun p hp => ?_, by rw [← h2, g2, List.map_cons], ?_, g4⟩
      · rcases List.mem_cons.mp hp with rfl | hp
        · exact ⟨hf, hv⟩
        · exact g1 p hp
      · rw [e, g3, List.flatMap_cons, bytes_append, List.append_assoc]
    | eof =>
      rw [hp] at h
      exact ⟨[], cs.flatten, fun p hp => absurd hp (by simp), (Option.some.inj h).symm, rfl, var_eof cs hp⟩
    | panic =>
      rw [hp] at h
      cases h

/-- C59, soundness: whatever the bytes and chunks, what is returned was written: the bytes are a well formed file of exactly the returned variables, perhaps followed by the length of one more name.
Missing for the full claim: what `C59_chunks_violated`, `C59_truncation_violated`, `C59_documentation_violated` refute. -/
theorem C59_accepted_partial (cs : Chunks) (r : List Var) (h : load cs = some r) :
    ∃ (b : UInt8) (vs : List (Filler × Var)) (tail : List UInt8), Good vs ∧ r = vs.map Prod.snd ∧ cs.flatten = fileBytes b vs ++ tail ∧ (tail = [] ∨ (tail.length = 4 ∧ leNat tail ≠ 0)) := by
  unfold load at h
  cases hp : readMagic cs with
  | ok u s =>
    rw [hp] at h
    obtain ⟨m, s1, a1, hp⟩ := bind_inv hp
    obtain ⟨_, s2, a2, hp⟩ := bind_inv hp
    obtain ⟨c, s3, a3, hp⟩ := bind_inv hp
    rw [pure_apply] at hp
    injection hp with _ hp
    subst hp
    obtain ⟨b2, rfl⟩ := require_inv a2
    rw [decide_eq_true_eq] at b2
    subst b2
    obtain ⟨e1, _⟩ := read_size (must_inv a1)
    obtain ⟨e2, l2⟩ := read_size (must_inv a3)
    obtain ⟨b, rfl⟩ := List.length_eq_one_iff.mp l2
    obtain ⟨vs, tail, g1, g2, g3, g4⟩ := vars_inv _ s3 (le_refl _) r h
    refine ⟨b, vs, tail, g1, g2, ?_, g4⟩
    rw [e1, e2, g3]
    unfold fileBytes fileFields
    rw [bytes_append]
    rfl
  | eof =>
    rw [hp] at h
    cases h
  | panic =>
    rw [hp] at h
    cases h

/-! ## Concrete cases -/

/-- A file with the 1 by 2 matrix "A" and the 2 by 1 matrix "B". -/
private def sample : List (Filler × Var) :=
  [(⟨[0, 0, 0, 0], [0], [0xfe, 0xff, 0xff, 0xff], [7]⟩, ⟨[65], 1, [[1], [2 ^ 63]]⟩), (⟨[0, 0, 0, 0], [0], [0xfe, 0xff, 0xff, 0xff], [7]⟩, ⟨[66], 2, [[4607182418800017408, 5]]⟩)]

private theorem sample_good : Good sample := by
  intro p hp
  unfold sample at hp
  simp only [List.mem_cons, List.not_mem_nil, or_false] at hp
  rcases hp with rfl | rfl
  · exact ⟨⟨rfl, rfl, rfl, rfl⟩, by norm_num, by norm_num, by norm_num, by norm_num, by simp, by simp⟩
  · exact ⟨⟨rfl, rfl, rfl, rfl⟩, by norm_num, by norm_num, by norm_num, by norm_num, by simp, by simp⟩

example : load (one (fileBytes 0 sample)) = some [⟨[65], 1, [[1], [2 ^ 63]]⟩, ⟨[66], 2, [[4607182418800017408, 5]]⟩] := (C59_round_trip 0 sample sample_good).1

/-- Cut before "B": "A" alone, without a report. -/
example : ∃ q, q <+: fileBytes 0 sample ∧ q ≠ fileBytes 0 sample ∧ load (one q) = some [⟨[65], 1, [[1], [2 ^ 63]]⟩] := by
  obtain ⟨q, h1, h2, h3, _⟩ := C59_truncation_violated 0 (sample.take 1) (sample.getD 1 (sample.getD 0 (⟨[], [], [], []⟩, ⟨[], 0, []⟩))) [] sample_good
  exact ⟨q, h1, h2, h3⟩

/-- Cut inside the cells of "B": refused. -/
example (r : List Var) : load (one ((fileBytes 0 sample).take 100)) ≠ some r := by
  intro h
  obtain ⟨pre, post, h1, _, h3⟩ := (C59_truncation_partial 0 sample sample_good _ (List.take_prefix 100 _) r).mp h
  have hl : ((fileBytes 0 sample).take 100).length = 100 := by decide
  have hpre : pre = sample.take pre.length := by rw [h1, List.take_left]
  have hle : pre.length ≤ 2 := by
    have := congrArg List.length h1
    rw [List.length_append] at this
    have h2 : sample.length = 2 := rfl
    omega
  have hval : (fileBytes 0 pre).length ∈ [11, 61, 111] := by
    rw [hpre]
    interval_cases pre.length <;> decide
  rcases h3 with h3 | ⟨p, rest, _, _, h3⟩
  · rw [← h3, hl] at hval
    exact absurd hval (by decide)
  · have := congrArg List.length h3
    rw [hl, List.length_append, leBytes_length] at this
    have hv : (fileBytes 0 pre).length = 96 := by omega
    rw [hv] at hval
    exact absurd hval (by decide)

end Sk.Octave
