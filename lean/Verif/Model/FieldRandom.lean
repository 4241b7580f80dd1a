import Verif.Model.FieldExtra

/-!
# Random vectors of field elements

Line numbers of `examples/bfv/zp/vector.go`; the files of the other packages have the same functions.
-/

namespace Ringo

namespace FieldPkg

variable (P : FieldPkg)

/-- bfv:279-286 (`Vector.SetRandom`) and 291-297 (`MustSetRandom`) for a vector of the given length: `bytes` is what
`rand.Reader` returns before it fails; the elements and the bytes left, or `none` (the error of `SetRandom`, the panic
of `MustSetRandom`). -/
def vecSetRandom (bitLen : Nat) : Nat → List UInt8 → Option (List (List Nat) × List UInt8)
  | 0, bytes => some ([], bytes)
  | n + 1, bytes =>
    match P.setRandom bitLen bytes with
    | none => none
    | some (z, bytes) => (vecSetRandom bitLen n bytes).map fun r => (z :: r.1, r.2)

end FieldPkg

end Ringo
