import Verif.Model.Field

/-!
# Model of `Inverse` (binary GCD on approximations)

jindo:1376-1565 and the functions it calls (`jindo:` is `jindo/internal/zp/element.go`; the other packages
except `examples/mult/zp` have the same code for their number of words).  An `int64` is a `BitVec 64`,
a `uint64` a natural number below `2^64`.  Receivers that are also arguments are read before they are
written: `yTimes` is computed before the receiver of `linearCombNonModular` is touched, and
`mulWNonModular` reads word `i` before it writes word `i`.
-/

namespace Ringo

namespace FieldPkg

/-- jindo:708-719 (`BitLen`), from word `i - 1` downwards. -/
def bitLenFrom (z : List Nat) : Nat → Nat
  | 0 => 0
  | i + 1 => if z.getD i 0 ≠ 0 then 64 * i + (z.getD i 0).size else bitLenFrom z i

/-- jindo:708-719 (`BitLen`); `bits.Len64` is `Nat.size`. -/
def bitLen (z : List Nat) : Nat := bitLenFrom z z.length

/-- `^(1<<s - 1)` for a `uint64`. -/
def notLow (s : Nat) : Nat := 2 ^ 64 - 1 - ((1 <<< s) % 2 ^ 64 + (2 ^ 64 - 1)) % 2 ^ 64

/-- jindo:1569-1590 (`approximate`). -/
def approximate (x : List Nat) (nBits : Nat) : Nat :=
  if nBits ≤ 64 then x.getD 0 0
  else
    let lo := (2 ^ 31 - 1) &&& x.getD 0 0
    let hiWordIndex := (nBits - 1) / 64
    let avail := nBits - hiWordIndex * 64
    let used := min avail 33
    let hi := ((x.getD hiWordIndex 0 &&& notLow (avail - used)) <<< (64 - avail)) % 2 ^ 64
    let mid := (notLow (31 + used) &&& x.getD (hiWordIndex - 1) 0) >>> used
    lo ||| mid ||| hi

/-- The variables of the inner loop. -/
structure GcdApprox where
  aA : Nat
  bA : Nat
  c0 : BitVec 64
  c1 : BitVec 64

/-- jindo:1433-1460: one pass of the inner loop. -/
def gcdStep (s : GcdApprox) : GcdApprox :=
  if s.aA &&& 1 = 0 then { aA := s.aA / 2, bA := s.bA, c0 := s.c0, c1 := s.c1 * 2 }
  else
    let (d, borrow) := sub64 s.aA s.bA 0
    if borrow = 1 then
      { aA := (s.bA + 2 ^ 64 - s.aA) % 2 ^ 64 / 2, bA := s.aA, c0 := s.c1 - s.c0, c1 := s.c0 * 2 }
    else { aA := d / 2, bA := s.bA, c0 := s.c0 - s.c1, c1 := s.c1 * 2 }

/-- jindo:1704-1710 (`updateFactorsDecompose`). -/
def decompose (c : BitVec 64) : BitVec 64 × BitVec 64 :=
  let c := c + 0x7fffffff7fffffff#64
  ((c &&& 0xFFFFFFFF#64) - 0x7FFFFFFF#64, (c.sshiftRight 32 &&& 0xFFFFFFFF#64) - 0x7FFFFFFF#64)

/-- jindo:1713-1723 (`negL`): the words and the new most significant word. -/
def negL (x : List Nat) (hi : Nat) : List Nat × Nat :=
  let (z, b) := subChain (List.replicate x.length 0) x 0
  (z, (sub64 0 hi b).1)

/-- The rows `c, z[i] = madd1(x[i], w, c)` of `mulWNonModular`. -/
def mulWRow (w : Nat) : List Nat → Nat → List Nat × Nat
  | x :: xs, C =>
    let (C, t) := madd1 x w C
    let (ts, C) := mulWRow w xs C
    (t :: ts, C)
  | [], C => ([], C)

/-- jindo:1726-1743 (`mulWNonModular`). -/
def mulW (x : List Nat) (y : BitVec 64) : List Nat × Nat :=
  let m := y.sshiftRight 63
  let w := ((y ^^^ m) - m).toNat
  let (c, z0) := mul64 (x.headD 0) w
  let (zs, c) := mulWRow w x.tail c
  if y.slt 0 then negL (z0 :: zs) c else (z0 :: zs, c)

/-- jindo:1746-1761 (`linearCombNonModular`). -/
def linComb (x : List Nat) (xC : BitVec 64) (y : List Nat) (yC : BitVec 64) : List Nat × Nat :=
  let (yt, yHi) := mulW y yC
  let (xt, xHi) := mulW x xC
  let (z, carry) := addChain xt yt 0
  (z, (add64 xHi yHi carry).1)

/-- jindo:1473-1476: the words of `[x | hi]` shifted right by 31 bits. -/
def shift31 : List Nat → Nat → List Nat
  | [], _ => []
  | [a], hi => [(a >>> 31) ||| ((hi <<< 33) % 2 ^ 64)]
  | a :: a' :: as, hi => ((a >>> 31) ||| ((a' <<< 33) % 2 ^ 64)) :: shift31 (a' :: as) hi

/-- jindo:1466-1476 and 1480-1490: one of the two new values, and its update factors. -/
def gcdRow (s b : List Nat) (f g : BitVec 64) : List Nat × BitVec 64 × BitVec 64 :=
  let (z, hi) := linComb s f b g
  if hi &&& 2 ^ 63 ≠ 0 then
    let (z, hi) := negL z hi
    (shift31 z hi, -f, -g)
  else (shift31 z hi, f, g)

/-- jindo:1604-1695 (`montReduceSigned`). -/
def montReduceSigned (P : FieldPkg) (x : List Nat) (xHi : Nat) : List Nat :=
  let mustNeg := xHi &&& 2 ^ 63 ≠ 0
  let xHi := xHi &&& (2 ^ 63 - 1)
  let m := x.headD 0 * P.qInvNeg % 2 ^ 64
  let C := madd0 m (P.q.headD 0) (x.headD 0)
  let (t, C) := madd2Row m P.q.tail x.tail C
  let t := t ++ [(xHi + C) % 2 ^ 64]
  let z := P.reduce (Nat.iterate P.fromMontStep (P.n - 1) t)
  if mustNeg then
    let (z, b) := subChain z (2 ^ 63 :: List.replicate (P.n - 1) 0) 0
    if b ≠ 0 then (addChain (z.dropLast ++ [2 ^ 64 - 1]) P.q 0).1 else z
  else z

/-- jindo:1595-1600 (`linearComb`). -/
def linearComb (P : FieldPkg) (x : List Nat) (xC : BitVec 64) (y : List Nat) (yC : BitVec 64) : List Nat :=
  let (z, hi) := linComb x xC y yC
  P.montReduceSigned z hi

/-- The variables of the outer loop; `pf0`, `pg0`, `pf1`, `pg1` are the saved update factors. -/
structure GcdState where
  a : List Nat
  b : List Nat
  u : List Nat
  v : List Nat
  pf0 : BitVec 64
  pg0 : BitVec 64
  pf1 : BitVec 64
  pg1 : BitVec 64
  i : Nat

/-- jindo:1424-1460: the approximations after the inner loop. -/
def gcdInner (a b : List Nat) : GcdApprox :=
  let n := max (bitLen a) (bitLen b)
  Nat.iterate gcdStep 31 { aA := approximate a n, bA := approximate b n, c0 := 1, c1 := 2 ^ 32 }

/-- jindo:1462-1516: the end of a pass, from the new `a` and `b` with their update factors. -/
def gcdFinish (P : FieldPkg) (s : GcdState) (ra rb : List Nat × BitVec 64 × BitVec 64) : GcdState :=
  if s.i % 2 = 1 then
    let F0 := ra.2.1 * s.pf0 + ra.2.2 * s.pf1
    let G0 := ra.2.1 * s.pg0 + ra.2.2 * s.pg1
    let F1 := rb.2.1 * s.pf0 + rb.2.2 * s.pf1
    let G1 := rb.2.1 * s.pg0 + rb.2.2 * s.pg1
    { s with a := ra.1, b := rb.1, u := P.linearComb s.u F0 s.v G0, v := P.linearComb s.u F1 s.v G1,
             i := s.i + 1 }
  else { s with a := ra.1, b := rb.1, pf0 := ra.2.1, pg0 := ra.2.2, pf1 := rb.2.1, pg1 := rb.2.2,
                i := s.i + 1 }

/-- jindo:1424-1517: one pass of the outer loop. -/
def gcdPass (P : FieldPkg) (s : GcdState) : GcdState :=
  let r := gcdInner s.a s.b
  P.gcdFinish s (gcdRow s.a s.b (decompose r.c0).1 (decompose r.c0).2)
    (gcdRow s.a s.b (decompose r.c1).1 (decompose r.c1).2)

/-- jindo:1424: the condition of the outer loop. -/
def gcdRuns (s : GcdState) : Bool := s.i % 2 == 1 || !isZero s.a

/-- jindo:1424-1517: the outer loop, at most `fuel` passes; `none` if they are not enough. -/
def gcdLoop (P : FieldPkg) : Nat → GcdState → Option GcdState
  | 0, s => if gcdRuns s then none else some s
  | fuel + 1, s => if gcdRuns s then gcdLoop P fuel (P.gcdPass s) else some s

/-- jindo:1396-1422: the variables before the loop. -/
def gcdInit (P : FieldPkg) (x : List Nat) : GcdState :=
  { a := x, b := P.q, u := 1 :: List.replicate (P.n - 1) 0, v := List.replicate P.n 0,
    pf0 := 0, pg0 := 0, pf1 := 0, pg1 := 0, i := 0 }

/-- jindo:1520-1529: `for ; i < invIterationsN; i += 2 { v.Mul(&v, &a) }`. -/
def gcdCorrect (P : FieldPkg) (iters : Nat) (i : Nat) (v : List Nat) : List Nat :=
  Nat.iterate (fun v => P.mul v (2 ^ 62 :: List.replicate (P.n - 1) 0)) ((iters - i + 1) / 2) v

/-- jindo:1396-1548 (`Inverse`), the outer loop limited to `fuel` passes.  `inv` are the constants of
jindo:1383-1389: the words of the correction factor and `invIterationsN`. -/
def inverse (P : FieldPkg) (inv : List Nat × Nat) (fuel : Nat) (x : List Nat) : Option (List Nat) :=
  (P.gcdLoop fuel (P.gcdInit x)).map fun s =>
    P.inverseFinish inv.1 x (P.gcdCorrect inv.2 s.i s.v)

end FieldPkg

end Ringo
