import Verif.Model.FieldSqrt
import Verif.Model.FieldExtra
import Verif.Model.FieldVec

/-!
# Model of the text form of field elements

`Text`, `String`, `SetString`, `MarshalJSON`, `UnmarshalJSON`, `SetInterface`, `Hash` and the byte orders
of the field packages, and `Vector.String`.  Lines without a file are those of
`jindo/internal/zp/element.go`; the functions are the same in all seven packages.

A string is the list of its bytes, written as characters.  What the code takes from the standard library is
written out here from its documentation and source: `strconv.FormatUint` and `big.Int.Text` (`formatNat`),
`big.Int.SetString` with base 0 (`bigSetString`).  The pool of big integers is left out: every `big.Int` taken
from it is set before it is read.  The receiver is not nil, except where a theorem says so.
-/

namespace Ringo

/-- The digits of `strconv` and `math/big`. -/
def digitTable : List Char := "0123456789abcdefghijklmnopqrstuvwxyz".toList

/-- `strconv.FormatUint(v, base)`, and `Text(base)` of a nonnegative `big.Int`. -/
def formatNat (base v : Nat) : List Char :=
  if _h : 2 ≤ base ∧ base ≤ v then formatNat base (v / base) ++ [digitTable.getD (v % base) '0']
  else [digitTable.getD v '0']
termination_by v
decreasing_by exact Nat.div_lt_self (by omega) (by omega)

/-- math/big/natconv.go: the value of a digit; `63` for what is no digit. -/
def digitVal (c : Char) : Nat :=
  if '0' ≤ c ∧ c ≤ '9' then c.toNat - '0'.toNat
  else if 'a' ≤ c ∧ c ≤ 'z' then c.toNat - 'a'.toNat + 10
  else if 'A' ≤ c ∧ c ≤ 'Z' then c.toNat - 'A'.toNat + 10
  else 63

/-- The variables of `nat.scan`: the number and the number of digits so far, whether the previous
character is a digit or a prefix (`'0'`), an underscore or neither (`'.'`), and whether an underscore has
been found in the wrong place. -/
structure ScanSt where
  val : Nat
  count : Nat
  prev : Char
  inval : Bool

/-- math/big/natconv.go, the loop of `nat.scan`: the variables and the rest of the input. -/
def scanDigits (b : Nat) : List Char → ScanSt → ScanSt × List Char
  | [], st => (st, [])
  | c :: s, st =>
    if c = '_' then
      scanDigits b s { st with inval := st.inval || st.prev ≠ '0', prev := '_' }
    else if digitVal c ≥ b then (st, c :: s)
    else scanDigits b s
      { st with val := st.val * b + digitVal c, count := st.count + 1, prev := '0' }

/-- math/big/natconv.go, the end of `nat.scan`, for `prefix` not `'0'` and for `prefix = '0'` (`oct`). -/
def scanEnd (oct : Bool) : ScanSt × List Char → Option (Nat × List Char)
  | (st, rest) =>
    if st.inval ∨ st.prev = '_' then none
    else if st.count = 0 then (if oct then some (0, rest) else none)
    else some (st.val, rest)

/-- math/big/natconv.go, `nat.scan` with base 0 and without fractions: the number and the rest of the input,
or `none` (the error). -/
def natScan : List Char → Option (Nat × List Char)
  | '0' :: c :: s =>
    if c = 'b' ∨ c = 'B' then scanEnd false (scanDigits 2 s ⟨0, 0, '0', false⟩)
    else if c = 'o' ∨ c = 'O' then scanEnd false (scanDigits 8 s ⟨0, 0, '0', false⟩)
    else if c = 'x' ∨ c = 'X' then scanEnd false (scanDigits 16 s ⟨0, 0, '0', false⟩)
    else scanEnd true (scanDigits 8 (c :: s) ⟨0, 0, '0', false⟩)
  | ['0'] => scanEnd false (⟨0, 1, '0', false⟩, [])
  | s => scanEnd false (scanDigits 10 s ⟨0, 0, '.', false⟩)

/-- math/big/int.go, intconv.go: `SetString(s, 0)`, a sign, a number, and nothing after it. -/
def bigSetString (s : List Char) : Option Int :=
  let (neg, s) := match s with
    | '-' :: s => (true, s)
    | '+' :: s => (false, s)
    | s => (false, s)
  match natScan s with
  | some (v, []) => some (if neg then -(v : Int) else v)
  | _ => none

namespace FieldPkg
variable (P : FieldPkg)

/-- 820-846 (`Text`); `none` is the panic. -/
def text (base : Nat) (z : List Nat) : Option (List Char) :=
  if base < 2 ∨ base > 36 then none
  else
    let zzNeg := P.fromMont (P.neg z)
    if base = 10 ∧ fitsOneWord zzNeg ∧ zzNeg.getD 0 0 ≤ 65535 ∧ zzNeg.getD 0 0 ≠ 0 then
      some ('-' :: formatNat base (zzNeg.getD 0 0))
    else
      let zz := P.fromMont z
      if fitsOneWord zz then some (formatNat base (zz.getD 0 0))
      else some (formatNat base (beVal (wordBytes zz)))

/-- 799-801 (`String`) -/
def toStr (z : List Nat) : List Char := (P.text 10 z).getD []

/-- 998-1012 (`SetString`): the new value, or `none` (the error, the receiver unchanged). -/
def setString (s : List Char) : Option (List Nat) := (bigSetString s).map P.setBigInt

/-- 1016-1030 (`MarshalJSON`); `none` is the nil pointer. -/
def marshalJSON : Option (List Nat) → List Char
  | none => "null".toList
  | some z =>
    let s := P.toStr z
    if s.length ≤ 15 then s else '"' :: s ++ ['"']

/-- 1034-1060 (`UnmarshalJSON`), with the constant `Bits`: the new value, or `none` (the error, the receiver
unchanged). -/
def unmarshalJSON (bits : Nat) (s : List Char) : Option (List Nat) :=
  if s.length > bits * 3 then none
  else
    let s := if s.head? = some '"' then s.tail else s
    let s := if s.getLast? = some '"' then s.dropLast else s
    (bigSetString s).map P.setBigInt

/-- vector.go:246-257 (`Vector.String`), the loop at index `i`. -/
def vecStrLoop (len : Nat) : Nat → List (List Nat) → List Char
  | _, [] => []
  | i, z :: v => P.toStr z ++ (if i + 1 ≠ len then [','] else []) ++ vecStrLoop len (i + 1) v

/-- vector.go:246-257 (`Vector.String`) -/
def vecStr (v : List (List Nat)) : List Char := '[' :: P.vecStrLoop v.length 0 v ++ [']']

/-- 1108-1121 (`littleEndian.Element`); `none` is the error. -/
def elementLE (b : List UInt8) : Option (List Nat) :=
  let z := (List.range P.n).map fun i => getLE b (8 * i)
  if !P.smaller z then none else some (P.toMont z)

/-- 1123-1129 (`littleEndian.PutElement`) -/
def putElementLE (z : List Nat) : List UInt8 := (P.fromMont z).flatMap putLE

/-- 723-748 (`Hash`): `expand n` is `hash.ExpandMsgXmd(msg, dst, n)`, `none` an error. -/
def hash (bits : Nat) (expand : Nat → Option (List UInt8)) (count : Nat) : Option (List (List Nat)) :=
  let bytes := 1 + (bits - 1) / 8
  let L := 16 + bytes
  (expand (count * L)).map fun b =>
    (List.range count).map fun i => P.setBigInt (beVal ((b.drop (i * L)).take L))

/-- The arguments `SetInterface` knows, by type; `other` is everything else, nil included. -/
inductive GoValue
  | uint (z : List Nat)
  | uintPtr (z : Option (List Nat))
  | unsigned (v : Nat)
  | signed (v : BitVec 64)
  | string (s : List Char)
  | bigPtr (v : Option Int)
  | big (v : Int)
  | bytes (b : List UInt8)
  | other

/-- 136-183 (`SetInterface`): the new value, or `none` (the error).  `uint8` to `uint64` are `unsigned`, `int8` to
`int64` are `signed`, extended to 64 bits. -/
def setInterface : GoValue → Option (List Nat)
  | .uint z => some z
  | .uintPtr none => none
  | .uintPtr (some z) => some z
  | .unsigned v => some (P.setUint64 v)
  | .signed v => some (P.setInt64 v)
  | .string s => P.setString s
  | .bigPtr none => none
  | .bigPtr (some v) => some (P.setBigInt v)
  | .big v => some (P.setBigInt v)
  | .bytes b => some (P.setBytes b)
  | .other => none

end FieldPkg

end Ringo
