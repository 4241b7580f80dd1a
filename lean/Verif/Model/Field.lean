import Verif.Go
import Mathlib.Data.ZMod.Basic
import Mathlib.Data.Nat.Digits.Defs

/-!
# Model of the generated field packages

The seven field packages of the repository (`jindo/internal/zp`, `buckler/internal/zp110`, `zp220`,
`zp440`, `zp880`, `examples/bfv/zp`, `examples/mult/zp`) are unrolled by a code generator for a fixed
number of words and a fixed modulus.  The model has the number of words and the modulus as parameters:
a sequence of statements the generator has unrolled is a recursion over the list of words.  The lines
cited are those of `jindo/internal/zp` (`jindo:`, four words) and `examples/mult/zp` (`mult:`, two words,
no spare bit in the top word).

A `uint64` is a natural number below `2^64`, an element is the list of its words, least significant
first.  This is the portable code (`element.go`, `element_purego.go`, `arith.go`); for the assembly that
replaces `Mul`, `fromMont` and `reduce` on amd64 and arm64 see `Verif.Model.AsmAmd64` and `Verif.Model.AsmArm64`.  Functions return the new value
of the receiver.  They read word `i` of their arguments before they write word `i` of the receiver, and
`Mul` and `Square` read all words before they write any; `Verif.Model.FieldMem` treats calls whose
receiver is one of the arguments.
-/

namespace Ringo

/-- `bits.Mul64`: high and low word of the product. -/
def mul64 (a b : Nat) : Nat × Nat := (a * b / 2 ^ 64, a * b % 2 ^ 64)

/-- `bits.Add64`: sum and carry. -/
def add64 (a b c : Nat) : Nat × Nat := ((a + b + c) % 2 ^ 64, (a + b + c) / 2 ^ 64)

/-- `bits.Sub64`: difference and borrow. -/
def sub64 (a b c : Nat) : Nat × Nat :=
  if a < b + c then (a + 2 ^ 64 - (b + c), 1) else (a - (b + c), 0)

/-- arith.go:13-19 (`madd0`). -/
def madd0 (a b c : Nat) : Nat :=
  let (hi, lo) := mul64 a b
  let (_, carry) := add64 lo c 0
  (add64 hi 0 carry).1

/-- arith.go:22-28 (`madd1`). -/
def madd1 (a b c : Nat) : Nat × Nat :=
  let (hi, lo) := mul64 a b
  let (lo, carry) := add64 lo c 0
  ((add64 hi 0 carry).1, lo)

/-- arith.go:31-39 (`madd2`). -/
def madd2 (a b c d : Nat) : Nat × Nat :=
  let (hi, lo) := mul64 a b
  let (c, carry) := add64 c d 0
  let (hi, _) := add64 hi 0 carry
  let (lo, carry) := add64 lo c 0
  ((add64 hi 0 carry).1, lo)

/-- A sequence of `z[i], carry = bits.Add64(x[i], y[i], carry)`: the words and the last carry. -/
def addChain : List Nat → List Nat → Nat → List Nat × Nat
  | x :: xs, y :: ys, c =>
    let (z, c) := add64 x y c
    let (zs, c) := addChain xs ys c
    (z :: zs, c)
  | _, _, c => ([], c)

/-- A sequence of `z[i], b = bits.Sub64(x[i], y[i], b)`. -/
def subChain : List Nat → List Nat → Nat → List Nat × Nat
  | x :: xs, y :: ys, c =>
    let (z, c) := sub64 x y c
    let (zs, c) := subChain xs ys c
    (z :: zs, c)
  | _, _, c => ([], c)

/-- A sequence of `C, t[i] = madd1(v, x[i], C)`: the words and the last `C`. -/
def madd1Row (v : Nat) : List Nat → Nat → List Nat × Nat
  | x :: xs, C =>
    let (C, t) := madd1 v x C
    let (ts, C) := madd1Row v xs C
    (t :: ts, C)
  | [], C => ([], C)

/-- A sequence of `C, t[j] = madd2(v, x[i], t[i], C)`. -/
def madd2Row (v : Nat) : List Nat → List Nat → Nat → List Nat × Nat
  | x :: xs, t :: ts, C =>
    let (C, t) := madd2 v x t C
    let (ts, C) := madd2Row v xs ts C
    (t :: ts, C)
  | _, _, C => ([], C)

/-- The comparison of `smallerThanModulus`, from the most significant word on. -/
def ltTop : List Nat → List Nat → Bool
  | z :: zs, q :: qs => decide (z < q) || (decide (z = q) && ltTop zs qs)
  | _, _ => false

/-- The constants of a package, and which variants of the code the generator has chosen. -/
structure FieldPkg where
  /-- The words of the modulus (jindo:46-51). -/
  q : List Nat
  /-- jindo:72 -/
  qInvNeg : Nat
  /-- jindo:784-789 -/
  rSquare : List Nat
  /-- jindo:195-201 -/
  one : List Nat
  /-- `Mul` has the form of mult: element_purego.go:40-104 (otherwise jindo: element_purego.go:46-213). -/
  cios : Bool
  /-- `Add` looks at the last carry (mult:372-394); otherwise jindo:397-414. -/
  full : Bool

namespace FieldPkg

variable (P : FieldPkg)

/-- The number of words. -/
def n : Nat := P.q.length

/-- jindo:61 and 77-79 (`_modulus`): the number with the words `q`. -/
def p : Nat := Nat.ofDigits (2 ^ 64) P.q

/-- jindo:358-360 (`smallerThanModulus`). -/
def smaller (z : List Nat) : Bool := ltTop z.reverse P.q.reverse

/-- jindo:655-665 (`_reduceGeneric`), also at the end of most other functions. -/
def reduce (z : List Nat) : List Nat :=
  if !P.smaller z then (subChain z P.q 0).1 else z

/-- jindo:397-414 and mult:372-394 (`Add`). -/
def add (x y : List Nat) : List Nat :=
  let (z, carry) := addChain x y 0
  if P.full && carry != 0 then (subChain z P.q 0).1 else P.reduce z

/-- jindo:437-451 (`Sub`). -/
def sub (x y : List Nat) : List Nat :=
  let (z, b) := subChain x y 0
  if b != 0 then (addChain z P.q 0).1 else z

/-- jindo:222-224 (`IsZero`). -/
def isZero (x : List Nat) : Bool := x.foldl (fun a b => b ||| a) 0 == 0

/-- jindo:454-465 (`Neg`). -/
def neg (x : List Nat) : List Nat :=
  if isZero x then List.replicate P.n 0 else (subChain P.q x 0).1

/-! ### Multiplication, variant of `examples/mult/zp` and `buckler/internal/zp880` -/

/-- mult: element_purego.go:58-66: the second loop; `t` and `top` are `t[0], ..., t[n-1]` and
`t[n]`. -/
def ciosReduce (t : List Nat) (top D : Nat) : List Nat × Nat :=
  let m := t.headD 0 * P.qInvNeg % 2 ^ 64
  let C := madd0 m (P.q.headD 0) (t.headD 0)
  let (ts, C) := madd2Row m P.q.tail t.tail C
  let (last, C) := add64 top C 0
  (ts ++ [last], (add64 0 D C).1)

/-- mult: element_purego.go:48-66: the first round. -/
def ciosFirst (x : List Nat) (y0 : Nat) : List Nat × Nat :=
  let (C, t0) := mul64 y0 (x.headD 0)
  let (ts, C) := madd1Row y0 x.tail C
  let (top, D) := add64 0 C 0
  P.ciosReduce (t0 :: ts) top D

/-- mult: element_purego.go:69-83: a later round. -/
def ciosNext (x : List Nat) (s : List Nat × Nat) (yi : Nat) : List Nat × Nat :=
  let (C, t0) := madd1 yi (x.headD 0) (s.1.headD 0)
  let (ts, C) := madd2Row yi x.tail s.1.tail C
  let (top, D) := add64 s.2 C 0
  P.ciosReduce (t0 :: ts) top D

/-- mult: element_purego.go:40-104 (`Mul`). -/
def mulCios (x y : List Nat) : List Nat :=
  let (t, top) := y.tail.foldl (P.ciosNext x) (P.ciosFirst x (y.headD 0))
  if top != 0 then (subChain t P.q 0).1 else P.reduce t

/-! ### Multiplication, variant of the other packages -/

/-- A sequence of `bits.Mul64(v, y[i])`: the high words. -/
def hiRow (v : Nat) (y : List Nat) : List Nat := y.map fun a => (mul64 v a).1

/-- A sequence of `bits.Mul64(v, y[i])`: the low words. -/
def loRow (v : Nat) (y : List Nat) : List Nat := y.map fun a => (mul64 v a).2

/-- jindo: element_purego.go:58-65: the first product; the words `t` and `c2`. -/
def ncFirst (v : Nat) (y : List Nat) : List Nat × Nat :=
  let u := hiRow v y
  let t := loRow v y
  let (ts, c0) := addChain u.dropLast t.tail 0
  (t.headD 0 :: ts, (add64 (u.getLastD 0) 0 c0).1)

/-- jindo: element_purego.go:90-103: a later product, added to `t`. -/
def ncNext (v : Nat) (y t : List Nat) : List Nat × Nat :=
  let u := hiRow v y
  let (t, c0) := addChain (loRow v y) t 0
  let c2 := (add64 0 0 c0).1
  let (ts, c0) := addChain u.dropLast t.tail 0
  (t.headD 0 :: ts, (add64 (u.getLastD 0) c2 c0).1)

/-- jindo: element_purego.go:67-84: the Montgomery step. -/
def ncReduce (s : List Nat × Nat) : List Nat :=
  let (t, c2) := s
  let m := P.qInvNeg * t.headD 0 % 2 ^ 64
  let u := hiRow m P.q
  let l := loRow m P.q
  let (_, c0) := add64 (t.headD 0) (l.headD 0) 0
  let (r, c0) := addChain (t.tail.dropLast ++ [0]) l.tail c0
  let (uLast, _) := add64 (u.getLastD 0) 0 c0
  let (r, c0) := addChain u.dropLast r 0
  let (c2, _) := add64 c2 0 c0
  let (a, c0) := add64 (t.getLastD 0) (r.getLastD 0) 0
  let (b, _) := add64 uLast c2 c0
  r.dropLast ++ [a, b]

/-- jindo: element_purego.go:46-213 (`Mul`). -/
def mulNoCarry (x y : List Nat) : List Nat :=
  let t := x.tail.foldl (fun t v => P.ncReduce (ncNext v y t)) (P.ncReduce (ncFirst (x.headD 0) y))
  P.reduce t

/-- `Mul`.  `Square` (jindo: element_purego.go:218-385, mult: element_purego.go:107-172) is the same code with
`x` in place of `y`. -/
def mul (x y : List Nat) : List Nat := if P.cios then P.mulCios x y else P.mulNoCarry x y

/-- jindo:604-653 (`_fromMontGeneric`): one block. -/
def fromMontStep (z : List Nat) : List Nat :=
  let m := z.headD 0 * P.qInvNeg % 2 ^ 64
  let C := madd0 m (P.q.headD 0) (z.headD 0)
  let (zs, C) := madd2Row m P.q.tail z.tail C
  zs ++ [C]

/-- jindo:604-653 (`_fromMontGeneric`). -/
def fromMont (z : List Nat) : List Nat := P.reduce (Nat.iterate P.fromMontStep P.n z)

/-- jindo:793-795 (`toMont`). -/
def toMont (z : List Nat) : List Nat := P.mul z P.rSquare

/-! ### Integers -/

/-- jindo:94-98 (`SetUint64`). -/
def setUint64 (v : Nat) : List Nat := P.toMont (v :: List.replicate (P.n - 1) 0)

/-- jindo:101-113 (`SetInt64`): two's complement. -/
def setInt64 (v : BitVec 64) : List Nat :=
  let m := v.sshiftRight 63
  let z := P.setUint64 ((v ^^^ m) - m).toNat
  if m ≠ 0 then P.neg z else z

/-- `v.Bits()` for `v >= 0`, padded with zeros to `k` words. -/
def natWords : Nat → Nat → List Nat
  | 0, _ => []
  | k + 1, v => v % 2 ^ 64 :: natWords k (v / 2 ^ 64)

/-- jindo:961-979 (`setBigInt`). -/
def setBigIntWords (v : Nat) : List Nat := P.toMont (natWords P.n v)

/-- jindo:931-958 (`SetBigInt`); `big.Int.Mod` is Euclidean. -/
def setBigInt (v : Int) : List Nat :=
  if v = P.p then List.replicate P.n 0
  else if ¬ v > P.p ∧ ¬ v < 0 then P.setBigIntWords v.toNat
  else P.setBigIntWords (v % P.p).toNat

/-- `binary.BigEndian.PutUint64`. -/
def putBE (v : Nat) : List UInt8 := (List.range 8).map fun i => UInt8.ofNat (v / 2 ^ (56 - 8 * i))

/-- jindo:804-812 (`toBigInt`) and 1093-1099 (`PutElement`): the bytes, most significant word first. -/
def wordBytes (z : List Nat) : List UInt8 := z.reverse.flatMap putBE

/-- `big.Int.SetBytes`. -/
def beVal (b : List UInt8) : Nat := b.foldl (fun acc x => acc * 256 + x.toNat) 0

/-- jindo:849-853 (`BigInt`). -/
def bigInt (z : List Nat) : Nat := beVal (wordBytes (P.fromMont z))

/-- jindo:866-870 (`Bits`) and 1769-1773 (`Slice`). -/
def bits (z : List Nat) : List Nat := P.fromMont z

/-- The loop of jindo:256-277, from the most significant word on. -/
def cmpTop : List Nat → List Nat → Int
  | z :: zs, x :: xs => if z > x then 1 else if z < x then -1 else cmpTop zs xs
  | _, _ => 0

/-- jindo:255-279 (`Cmp`). -/
def cmp (z x : List Nat) : Int := cmpTop (P.bits z).reverse (P.bits x).reverse

/-- jindo:217-219 (`NotEqual`) and 212-214 (`Equal`). -/
def equal (z x : List Nat) : Bool := ((z.zip x).foldl (fun a b => a ||| (b.1 ^^^ b.2)) 0) == 0

/-! ### Bytes -/

/-- jindo:873-882 (`Bytes`, `Marshal`). -/
def marshal (z : List Nat) : List UInt8 := wordBytes (P.fromMont z)

/-- `binary.BigEndian.Uint64(b[a:a+8])`. -/
def getBE (b : List UInt8) (a : Nat) : Nat := beVal ((b.drop a).take 8)

/-- jindo:1078-1091 (`bigEndian.Element`); `none` is the error. -/
def element (b : List UInt8) : Option (List Nat) :=
  let z := (List.range P.n).map fun i => getBE b (8 * (P.n - 1 - i))
  if !P.smaller z then none else some (P.toMont z)

/-- jindo:891-913 (`SetBytes`). -/
def setBytes (e : List UInt8) : List Nat :=
  if e.length = 8 * P.n then
    match P.element e with
    | some v => v
    | none => P.setBigInt (beVal e)
  else P.setBigInt (beVal e)

/-! ### Random elements -/

/-- `binary.LittleEndian.Uint64(bytes[a:a+8])`. -/
def getLE (b : List UInt8) (a : Nat) : Nat := beVal ((b.drop a).take 8).reverse

/-! ### Inversion -/

/-- jindo:1550-1565 (`inverseExp`), with the bits of the exponent from the second highest on. -/
def expBits (x : List Nat) (e : Nat) : List Nat :=
  ((List.range (e.size - 1)).reverse).foldl (fun z i =>
    let z := P.mul z z
    if e.testBit i then P.mul z x else z) x

/-- jindo:1550-1565 (`inverseExp`). -/
def inverseExp (x : List Nat) : List Nat := P.expBits x (P.p - 2)

/-- mult:1105-1111 (`Inverse`).  `big.Int.ModInverse` leaves its receiver alone if there is no inverse
(for `0` the receiver is `0`, which is then converted). -/
def inverseBig (x : List Nat) : List Nat :=
  let v := P.bigInt x
  let r := if Nat.gcd v (P.p) = 1 then ((v : ZMod (P.p))⁻¹).val else v
  P.setBigInt r

/-- jindo:1506-1543: the end of `Inverse`, from the value `v` the loops have left; `corr` is the correction
factor.  `IsOne` compares with the words of one. -/
def inverseFinish (corr : List Nat) (x v : List Nat) : List Nat :=
  let z := P.mul v corr
  let w := P.mul x z
  if !equal w P.one && !isZero x then P.inverseExp x else z

end FieldPkg

end Ringo
