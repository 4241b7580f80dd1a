import Verif.Model.FieldInv
import Verif.Model.FieldMem

/-!
# Field packages: `Halve`, `Div`, `Exp`, `BatchInvert`, `SetRandom`

Lines as in `Verif.Model.Field`: "jindo" is jindo/internal/zp/element.go, "mult" examples/mult/zp/element.go;
the other packages are the same up to the number of words.  `Inverse` is passed as the function `invert`, which
is `none` while its loop has not ended (`Verif.Model.FieldInv`); in mult it is `some ∘ inverseBig`.
-/

namespace Ringo

namespace FieldPkg

variable (P : FieldPkg)

/-- jindo:382-385: all words shifted right by one bit, `top` the bit that enters at the top. -/
def shift1 : List Nat → Nat → List Nat
  | [], _ => []
  | [a], top => [(a >>> 1) ||| ((top <<< 63) % 2 ^ 64)]
  | a :: a' :: as, top => ((a >>> 1) ||| ((a' <<< 63) % 2 ^ 64)) :: shift1 (a' :: as) top

/-- jindo:370-387 and mult:343-362 (`Halve`): only mult keeps the carry of the addition and sets the highest
bit of the result if it is not 0. -/
def halve (z : List Nat) : List Nat :=
  let (z, carry) := if z.headD 0 &&& 1 = 1 then addChain z P.q 0 else (z, 0)
  shift1 z (if P.full && carry != 0 then 1 else 0)

/-- `z.Inverse(x)` on memory, by the function `invert`: `*x` is copied before `*z` is written (jindo:1400 and
1531), so that the pointers may be equal. -/
def inverseAt (invert : List Nat → Option (List Nat)) (m : Mem) (z x : Nat) : Option Mem :=
  (invert (m x)).map (Function.update m z)

/-- jindo:204-209 and mult:191-196 (`Div`). -/
def div (invert : List Nat → Option (List Nat)) (x y : List Nat) : Option (List Nat) :=
  (invert y).map (P.mul x)

/-- jindo:751-779 and mult:638-666 (`Exp`). -/
def exp (invert : List Nat → Option (List Nat)) (x : List Nat) (k : Int) : Option (List Nat) :=
  if k = 0 then some P.one
  else if k < 0 then (invert x).map fun x => P.expBits x (-k).toNat
  else some (P.expBits x k.toNat)

/-- mult:571-578: the first loop of `BatchInvert`, from the value `acc` of `accumulator`; `res[i]` of the
elements, and `accumulator` at the end. -/
def batchForward : List Nat → List (List Nat) → List (List Nat) × List Nat
  | acc, [] => ([], acc)
  | acc, x :: xs =>
    if isZero x then
      let (r, A) := batchForward acc xs
      (List.replicate P.n 0 :: r, A)
    else
      let (r, A) := batchForward (P.mul acc x) xs
      (acc :: r, A)

/-- mult:582-588: the second loop of `BatchInvert`, which goes from the last element to the first. -/
def batchBackward (acc : List Nat) : List (List Nat) → List (List Nat) → List (List Nat) × List Nat
  | x :: xs, r :: rs =>
    let (rs, acc) := batchBackward acc xs rs
    if isZero x then (r :: rs, acc) else (P.mul r acc :: rs, P.mul acc x)
  | _, _ => ([], acc)

/-- mult:562-591 (`BatchInvert`). -/
def batchInvert (invert : List Nat → Option (List Nat)) (a : List (List Nat)) : Option (List (List Nat)) :=
  if a.length = 0 then some []
  else
    let (r, A) := P.batchForward P.one a
    (invert A).map fun A => (P.batchBackward A a r).1

/-- jindo:313-320: the number of bytes read for one candidate, and of bits kept in the last of them. -/
def randBytes (bitLen : Nat) : Nat × Nat := ((bitLen + 7) / 8, if bitLen % 8 = 0 then 8 else bitLen % 8)

/-- jindo:330-336: the candidate from the bytes read.  `bytes[k:l]` is zero. -/
def candidate (bitLen : Nat) (b : List UInt8) : List Nat :=
  let (k, t) := randBytes bitLen
  let b := b.set (k - 1) (b.getD (k - 1) 0 &&& UInt8.ofNat (2 ^ t - 1))
  let b := b ++ List.replicate (8 * P.n - k) 0
  (List.range P.n).map fun i => getLE b (8 * i)

/-- jindo:303-344 (`SetRandom`): `bytes` is what `rand.Reader` returns before it fails; the element and the
bytes left, or `none` (the error). -/
def setRandom (bitLen : Nat) (bytes : List UInt8) : Option (List Nat × List UInt8) :=
  let k := (randBytes bitLen).1
  if _h : k ≤ bytes.length ∧ 0 < k then
    let z := P.candidate bitLen (bytes.take k)
    if !P.smaller z then setRandom bitLen (bytes.drop k) else some (z, bytes.drop k)
  else none
termination_by bytes.length
decreasing_by simp only [List.length_drop]; omega

end FieldPkg

/-- `bitLen` in `SetRandom` of the packages: mult:286, jindo:311, examples/bfv/zp/element.go:311,
buckler/internal/zp110/element.go:286, zp220/element.go:311, zp440/element.go:341, zp880/element.go:418. -/
def multBits : Nat := 128
@[inherit_doc multBits] def jindoBits : Nat := 255
@[inherit_doc multBits] def bfvBits : Nat := 240
@[inherit_doc multBits] def zp110Bits : Nat := 110
@[inherit_doc multBits] def zp220Bits : Nat := 220
@[inherit_doc multBits] def zp440Bits : Nat := 440
@[inherit_doc multBits] def zp880Bits : Nat := 880

end Ringo
