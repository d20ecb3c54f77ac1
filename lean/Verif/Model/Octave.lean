import Mathlib.Data.List.Basic
import Mathlib.Data.UInt

/-!
# `datasets/octave.go`: `LoadOctaveBin`

The open file (or the decompressor) is a reader that returns its bytes in chunks: one call of `Read` never returns bytes of two chunks.  Not modelled: opening and decompressing the file, readers that return bytes together with an error or an error other than `io.EOF`, `PosReader.Pos` (written, never read), and the decoding of a 64-bit pattern as `float64` (cells are the patterns).  Strings are lists of bytes.
-/
set_option autoImplicit false

namespace Sk.Octave

/-- The bytes still to come, in the chunks the reader will return them in. -/
abbrev Chunks := List (List UInt8)

/-- What a piece of the reading code does: a value and the rest, the error `io.EOF`, or a panic. -/
inductive Out (α : Type) where
  | ok (a : α) (rest : Chunks)
  | eof
  | panic

/-- A piece of reading code. -/
def P (α : Type) : Type := Chunks → Out α

/-- Sequencing: an error or panic ends the piece. -/
def P.bind {α β : Type} (p : P α) (f : α → P β) : P β := fun cs =>
  match p cs with
  | .ok a r => f a r
  | .eof => .eof
  | .panic => .panic

instance : Monad P where
  pure a := fun cs => .ok a cs
  bind := P.bind

/-- The rest of a chunk put back in front. -/
def push (c : List UInt8) (cs : Chunks) : Chunks := if c = [] then cs else c :: cs

/-- `read`, /repo/datasets/octave.go:26-40: one call of `Read`; fewer bytes than asked for is a panic.  (`Read` into an empty slice is taken to succeed.) -/
def read (n : ℕ) : P (List UInt8) := fun cs =>
  if n = 0 then .ok [] cs else
  match cs with
  | [] => .eof
  | c :: cs => if n ≤ c.length then .ok (c.take n) (push (c.drop n) cs) else .panic

/-- `check(err)` after a read, /repo/datasets/octave.go:78, 84, 100, 106, 114, 116: the error is a panic. -/
def must {α : Type} (p : P α) : P α := fun cs =>
  match p cs with
  | .eof => .panic
  | r => r

/-- A read whose results, the error among them, are ignored, /repo/datasets/octave.go:95, 97, 111, 119. -/
def skip (n : ℕ) : P Unit := fun cs =>
  match read n cs with
  | .ok _ r => .ok () r
  | .eof => .ok () []
  | .panic => .panic

/-- A panic unless a condition holds. -/
def require (b : Bool) : P Unit := fun cs => if b then .ok () cs else .panic

/-- The number written by bytes, least significant first (`binary.LittleEndian`). -/
def leNat : List UInt8 → ℕ
  | [] => 0
  | b :: bs => b.toNat + 256 * leNat bs

/-- `readUint32`, /repo/datasets/octave.go:41-48. -/
def readU32 : P ℕ := do
  let b ← read 4
  pure (leNat b)

/-- `readString`, /repo/datasets/octave.go:49-60. -/
def readStr : P (List UInt8) := do
  let n ← readU32
  read n

/-- The `io.ReadFull` inside `binary.Read`, /repo/datasets/octave.go:125-126: as many calls of `Read` as needed; any error is a panic. -/
def readFull (n : ℕ) (cs : Chunks) : Out (List UInt8) :=
  if n = 0 then .ok [] cs else
  match cs with
  | [] => .panic
  | c :: cs =>
    if n ≤ c.length then .ok (c.take n) (push (c.drop n) cs) else
    match readFull (n - c.length) cs with
    | .ok b r => .ok (c ++ b) r
    | .eof => .eof
    | .panic => .panic

/-- The 64-bit patterns of `n` cells. -/
def words : ℕ → List UInt8 → List ℕ
  | 0, _ => []
  | n + 1, b => leNat (b.take 8) :: words n (b.drop 8)

/-- The loop over the columns, /repo/datasets/octave.go:124-129. -/
def readCols (rows : ℕ) : ℕ → P (List (List ℕ))
  | 0 => pure []
  | k + 1 => do
    let b ← (readFull (8 * rows) : P _)
    let l ← readCols rows k
    pure (words rows b :: l)

/-- A variable: its name, its number of rows and its columns. -/
structure Var where
  name : List UInt8
  rows : ℕ
  cols : List (List ℕ)
  deriving DecidableEq

/-- The bytes of "matrix". -/
def matrixName : List UInt8 := [109, 97, 116, 114, 105, 120]

/-- The bytes of "Octave-1-L". -/
def magic : List UInt8 := [79, 99, 116, 97, 118, 101, 45, 49, 45, 76]

/-- One turn of the loop, /repo/datasets/octave.go:88-130.  The sizes are those for which `mat.NewDense` (120-121) does not panic: none is 0 and `Rows*Cols`, computed in 32 bits for the slice, does not wrap. -/
def readVar : P Var := do
  let name ← readStr
  skip 4
  skip 1
  let t ← must (read 1)
  require (t = [0xff])
  let ty ← must readStr
  require (ty = matrixName)
  skip 4
  let rows ← must readU32
  let cols ← must readU32
  skip 1
  require (0 < rows ∧ 0 < cols ∧ rows * cols < 2 ^ 32)
  let l ← readCols rows cols
  pure ⟨name, rows, l⟩

/-- The number of bytes to come. -/
def size (cs : Chunks) : ℕ := cs.flatten.length

/-- The loop, /repo/datasets/octave.go:85-131: the variables in the order of the file, or `none` for a panic.  The test of progress is only there to end the recursion; it always holds (`readVar_progress`). -/
def loadVars (cs : Chunks) : Option (List Var) :=
  match readVar cs with
  | .panic => none
  | .eof => some []
  | .ok v r => if size r < size cs then (loadVars r).map (v :: ·) else none
termination_by size cs

/-- The check of the magic, /repo/datasets/octave.go:76-84. -/
def readMagic : P Unit := do
  let b ← must (read 10)
  require (b = magic)
  let _ ← must (read 1)
  pure ()

/-- `LoadOctaveBin`, /repo/datasets/octave.go:16-133. -/
def load (cs : Chunks) : Option (List Var) :=
  match readMagic cs with
  | .ok _ r => loadVars r
  | _ => none

/-- `retval[name]`: a later variable replaces an earlier one of the same name, /repo/datasets/octave.go:130. -/
def get (vs : List Var) (name : List UInt8) : Option Var := vs.reverse.find? (fun v => v.name = name)

end Sk.Octave
