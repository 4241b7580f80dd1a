import Verif.Model.FieldInv

/-!
# Model of `Legendre` (binary GCD on approximations)

jindo:1145-1308 (`jindo:` is `jindo/internal/zp/element.go`; the other packages except `examples/mult/zp` have
the same code for their number of words).  Conventions as in `Verif.Model.FieldInv`.
-/

namespace Ringo

namespace FieldPkg

/-- jindo:1287-1308 (`approximateForLegendre`). -/
def approximateLeg (x : List Nat) (nBits : Nat) : Nat :=
  if nBits ≤ 64 then x.getD 0 0
  else
    let lo := (2 ^ 32 - 1) &&& x.getD 0 0
    let hiWordIndex := (nBits - 1) / 64
    let avail := nBits - hiWordIndex * 64
    let used := min avail 32
    let hi := ((x.getD hiWordIndex 0 &&& notLow (avail - used)) <<< (64 - avail)) % 2 ^ 64
    let mid := (notLow (32 + used) &&& x.getD (hiWordIndex - 1) 0) >>> used
    lo ||| mid ||| hi

/-- The variables of the inner loop. -/
structure LegApprox extends GcdApprox where
  l : Int

/-- jindo:1198-1200 and 1226-1228: `l`, negated if `bMod8` is 3 or 5. -/
def legHalve (bA : Nat) (l : Int) : Int := if bA &&& 7 = 3 ∨ bA &&& 7 = 5 then -l else l

/-- jindo:1182-1232: one pass of the inner loop. -/
def legStep (s : LegApprox) : LegApprox :=
  if s.aA &&& 1 = 0 then
    { aA := s.aA / 2, bA := s.bA, c0 := s.c0, c1 := s.c1 * 2, l := legHalve s.bA s.l }
  else
    let (d, borrow) := sub64 s.aA s.bA 0
    if borrow = 1 then
      let l := if s.bA &&& 3 = 3 ∧ s.aA &&& 3 = 3 then -s.l else s.l
      { aA := (s.bA + 2 ^ 64 - s.aA) % 2 ^ 64 / 2, bA := s.aA, c0 := s.c1 - s.c0, c1 := s.c0 * 2,
        l := legHalve s.aA l }
    else
      { aA := d / 2, bA := s.bA, c0 := s.c0 - s.c1, c1 := s.c1 * 2, l := legHalve s.bA s.l }

/-- jindo:1251-1254: the words of `[x | hi]` shifted right by 30 bits. -/
def shift30 : List Nat → Nat → List Nat
  | [], _ => []
  | [a], hi => [(a >>> 30) ||| ((hi <<< 34) % 2 ^ 64)]
  | a :: a' :: as, hi => ((a >>> 30) ||| ((a' <<< 34) % 2 ^ 64)) :: shift30 (a' :: as) hi

/-- jindo:1239-1254 and 1259-1270: one of the two new values, and whether it had to be negated. -/
def legRow (s b : List Nat) (f g : BitVec 64) : List Nat × Bool :=
  let (z, hi) := linComb s f b g
  if hi &&& 2 ^ 63 ≠ 0 then
    let (z, hi) := negL z hi
    (shift30 z hi, true)
  else (shift30 z hi, false)

/-- The variables of the outer loop. -/
structure LegState where
  a : List Nat
  b : List Nat
  l : Int

/-- jindo:1174-1232: the approximations after the inner loop. -/
def legInner (s : LegState) : LegApprox :=
  let n := max (bitLen s.a) (bitLen s.b)
  Nat.iterate legStep 30
    { aA := approximateLeg s.a n, bA := approximateLeg s.b n, c0 := 1, c1 := 2 ^ 32, l := s.l }

/-- jindo:1174-1270: one pass of the outer loop. -/
def legPass (s : LegState) : LegState :=
  let r := legInner s
  let a := legRow s.a s.b (decompose r.c0).1 (decompose r.c0).2
  let l := if a.2 ∧ r.bA &&& 3 = 3 then -r.l else r.l
  let b := legRow s.a s.b (decompose r.c1).1 (decompose r.c1).2
  { a := a.1, b := b.1, l := l }

/-- jindo:1173-1271: the outer loop, at most `fuel` passes; `none` if they are not enough. -/
def legLoop : Nat → LegState → Option LegState
  | 0, s => if isZero s.a then some s else none
  | fuel + 1, s => if isZero s.a then some s else legLoop fuel (legPass s)

/-- jindo:1145-1278 (`Legendre`), the outer loop limited to `fuel` passes. -/
def legendre (P : FieldPkg) (fuel : Nat) (z : List Nat) : Option Int :=
  (legLoop fuel { a := z, b := P.q, l := 1 }).map fun s =>
    if s.b.headD 0 = 1 ∧ isZero s.b.tail then s.l else 0

end FieldPkg

end Ringo
