import Verif.Props.FieldSqrt

/-! What a vector of field elements looks like on the wire, from the comment of `ReadFrom` (vector.go:188-191). -/

namespace Ringo

/-- `e` is the encoding of the vector `l` of residues: the length in four bytes, then `8n` bytes for every
element, most significant byte first. -/
def VecBytes (p n : Nat) (l : List (ZMod p)) (e : List UInt8) : Prop :=
  ∃ hd body, e = hd ++ List.flatten body ∧ hd.length = 4 ∧ bigEndian hd = l.length ∧
    List.Forall₂ (fun (a : ZMod p) (c : List UInt8) => c.length = 8 * n ∧ bigEndian c = a.val) l body

/-- The words `w` hold the vector `l`. -/
def VecForm (p n : Nat) (w : List (List Nat)) (l : List (ZMod p)) : Prop := List.Forall₂ (MontForm p n) w l

end Ringo
