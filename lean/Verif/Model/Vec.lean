import Verif.Go

/-!
# Model of `math/bigpoly/vec.go` and `math/bigpoly/utils.go`

The vector kernels work on slices of pointers to field elements.  They are modelled on an
explicit heap, so that aliasing between output and input slices can be stated: a heap maps
cell numbers to field elements and a slice is the list of the cell numbers it points to.
-/

namespace Ringo

variable {F : Type _}

/-- The heap cells holding field elements (`*Uint` values in Go). -/
abbrev Heap (F : Type _) := Nat → F

/-- One element operation `out.Op(a, b)`: read both operands, then overwrite `out`.
`element.go` computes the result before storing it, so `out` may be `a` or `b`. -/
def heapOp2 (op : F → F → F) (h : Heap F) (out a b : Nat) : Heap F :=
  Function.update h out (op (h a) (h b))

/-- The common shape of `addVecTo`, `subVecTo` and `mulVecTo`.
vec.go:9-30 (addVecTo), 32-53 (subVecTo), 99-120 (mulVecTo): blocks of eight through
unsafe `*[8]E` windows up to `M = (len >> 3) << 3`, then a bounds-checked tail. -/
def vec2To (op : F → F → F) (h : Heap F) (xOut x0 x1 : List Nat) : Go (Heap F) := do
  let M := xOut.length / 8 * 8
  let h ← forRange 0 M 8 h (fun h i => do
    addr xOut i
    addr x0 i
    addr x1 i
    [0, 1, 2, 3, 4, 5, 6, 7].foldlM (fun h k => do
      let o ← uidx xOut (i + k)
      let a ← uidx x0 (i + k)
      let b ← uidx x1 (i + k)
      pure (heapOp2 op h o a b)) h)
  forRange M xOut.length 1 h (fun h i => do
    let o ← idx xOut i
    let a ← idx x0 i
    let b ← idx x1 i
    pure (heapOp2 op h o a b))

/-- The common shape of `negVecTo` (vec.go:55-75) and `scalarMulVecTo` (vec.go:77-97). -/
def vec1To (op : F → F) (h : Heap F) (xOut x0 : List Nat) : Go (Heap F) := do
  let M := xOut.length / 8 * 8
  let h ← forRange 0 M 8 h (fun h i => do
    addr xOut i
    addr x0 i
    [0, 1, 2, 3, 4, 5, 6, 7].foldlM (fun h k => do
      let o ← uidx xOut (i + k)
      let a ← uidx x0 (i + k)
      pure (Function.update h o (op (h a)))) h)
  forRange M xOut.length 1 h (fun h i => do
    let o ← idx xOut i
    let a ← idx x0 i
    pure (Function.update h o (op (h a))))

/-- vec.go:9-30. -/
def addVecTo [Add F] (h : Heap F) (xOut x0 x1 : List Nat) : Go (Heap F) :=
  vec2To (· + ·) h xOut x0 x1

/-- vec.go:32-53. -/
def subVecTo [Sub F] (h : Heap F) (xOut x0 x1 : List Nat) : Go (Heap F) :=
  vec2To (· - ·) h xOut x0 x1

/-- vec.go:99-120. -/
def mulVecTo [Mul F] (h : Heap F) (xOut x0 x1 : List Nat) : Go (Heap F) :=
  vec2To (· * ·) h xOut x0 x1

/-- vec.go:55-75. -/
def negVecTo [Neg F] (h : Heap F) (xOut x0 : List Nat) : Go (Heap F) :=
  vec1To (fun x => -x) h xOut x0

/-- vec.go:77-97.  The scalar `c` is a pointer too; the model takes its value, i.e. it assumes
`c` is not one of the output cells (true for every caller). -/
def scalarMulVecTo [Mul F] (h : Heap F) (xOut x0 : List Nat) (c : F) : Go (Heap F) :=
  vec1To (fun x => x * c) h xOut x0

/-- The contents of a slice. -/
def Heap.read (h : Heap F) (x : List Nat) : List F := x.map h

/-- Inner loop of vec.go:127-130, `for j >= bit { j -= bit; bit >>= 1 }`.  Once `bit` is zero
the condition `j >= 0` never becomes false and nothing changes any more: the loop hangs. -/
def brInner (j bit : Nat) : Go (Nat × Nat) :=
  if bit ≤ j then
    if 0 < bit then brInner (j - bit) (bit / 2) else Except.error Fault.hang
  else Except.ok (j, bit)
  termination_by j
  decreasing_by omega

/-- vec.go:122-136 (`bitReverseInPlace`); the loop state is the slice and `j`. -/
def bitReverseInPlace {α : Type _} (v : List α) : Go (List α) := do
  let s ← forRange 1 v.length 1 (v, 0) (fun (s : List α × Nat) i => do
    let (j, bit) ← brInner s.2 (v.length / 2)
    let j := j + bit
    if i < j then
      let a ← idx s.1 i
      let b ← idx s.1 j
      let v1 ← setIdx s.1 i b
      let v2 ← setIdx v1 j a
      pure (v2, j)
    else
      pure (s.1, j))
  pure s.1

/-- utils.go:4-6 (`isPowerOfTwo`), for the non-negative `int`s it is called with. -/
def isPowerOfTwo (n : Nat) : Bool := decide (0 < n) && (n &&& (n - 1)) == 0

end Ringo
