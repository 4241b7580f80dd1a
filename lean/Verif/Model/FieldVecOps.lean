import Verif.Model.FieldMem

/-!
# Model of the arithmetic of `Vector`

Lines of `buckler/internal/zp110/vector.go` (`vector_purego.go` only forwards to these functions).  A slice of
elements is a pointer and a length: its element `i` is at the pointer plus `i` times the size `8n` of an
element, so slices of one array may overlap.  `none` is a panic.
-/

namespace Ringo

/-- A slice of field elements. -/
structure Slice where
  ptr : Nat
  len : Nat

namespace FieldPkg

variable (P : FieldPkg)

/-- `&v[i]`. -/
def elemPtr (v i : Nat) : Nat := v + 8 * P.n * i

/-- The loops 306-308, 315-317, 350-352: `res[i].op(&a[i], &b[i])` for `k` successive `i`. -/
def vecLoop (op : Mem → Nat → Nat → Nat → Mem) (res a b : Nat) : Nat → Nat → Mem → Mem
  | 0, _, m => m
  | k + 1, i, m => vecLoop op res a b k (i + 1) (op m (P.elemPtr res i) (P.elemPtr a i) (P.elemPtr b i))

/-- 302-309, 311-318 and 346-353 (`addVecGeneric`, `subVecGeneric`, `mulVecGeneric`). -/
def vecOp (op : Mem → Nat → Nat → Nat → Mem) (m : Mem) (res a b : Slice) : Option Mem :=
  if a.len ≠ b.len ∨ a.len ≠ res.len then none else some (P.vecLoop op res.ptr a.ptr b.ptr a.len 0 m)

/-- 302-309 (`Add`). -/
def vecAdd (m : Mem) (res a b : Slice) : Option Mem := P.vecOp P.addAt m res a b

/-- 311-318 (`Sub`). -/
def vecSub (m : Mem) (res a b : Slice) : Option Mem := P.vecOp P.subAt m res a b

/-- 346-353 (`Mul`). -/
def vecMul (m : Mem) (res a b : Slice) : Option Mem := P.vecOp P.mulAt m res a b

/-- 324-326: `res[i].Mul(&a[i], b)` for `k` successive `i`. -/
def scalarLoop (res a b : Nat) : Nat → Nat → Mem → Mem
  | 0, _, m => m
  | k + 1, i, m => scalarLoop res a b k (i + 1) (P.mulAt m (P.elemPtr res i) (P.elemPtr a i) b)

/-- 320-327 (`ScalarMul`). -/
def vecScalarMul (m : Mem) (res a : Slice) (b : Nat) : Option Mem :=
  if a.len ≠ res.len then none else some (P.scalarLoop res.ptr a.ptr b a.len 0 m)

/-- 329-333 (`Sum`); `res` is a local variable. -/
def vecSum (m : Mem) (a : Slice) : List Nat :=
  (List.range a.len).foldl (fun r i => P.add r (m (P.elemPtr a.ptr i))) (List.replicate P.n 0)

/-- 335-344 (`InnerProduct`); `res` and `tmp` are local variables. -/
def vecInner (m : Mem) (a b : Slice) : Option (List Nat) :=
  if a.len ≠ b.len then none
  else some ((List.range a.len).foldl
    (fun r i => P.add r (P.mul (m (P.elemPtr a.ptr i)) (m (P.elemPtr b.ptr i)))) (List.replicate P.n 0))

/-- 264-266 (`Less`), for indices in the slice. -/
def vecLess (m : Mem) (v : Slice) (i j : Nat) : Bool := P.cmp (m (P.elemPtr v.ptr i)) (m (P.elemPtr v.ptr j)) == -1

/-- 269-271 (`Swap`), for indices in the slice. -/
def vecSwap (m : Mem) (v : Slice) (i j : Nat) : Mem :=
  Function.update (Function.update m (P.elemPtr v.ptr i) (m (P.elemPtr v.ptr j)))
    (P.elemPtr v.ptr j) (m (P.elemPtr v.ptr i))

/-- 298-300 (`Equal`): `slices.Equal`. -/
def vecEqual (m : Mem) (v w : Slice) : Bool :=
  v.len == w.len && (List.range v.len).all fun i => m (P.elemPtr v.ptr i) == m (P.elemPtr w.ptr i)

end FieldPkg

end Ringo
