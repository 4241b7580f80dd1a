import Verif.Model.Arm64

/-!
# States of the arm64 processor
-/

namespace Ringo.Arm64

/-- The words of the memory are 64-bit words.  Nothing is said about the registers and the carry: the programs
do not read what they have not written. -/
structure St.Ok (s : St) : Prop where
  mem : ∀ a, ∀ w ∈ s.mem a, w < 2 ^ 64

end Ringo.Arm64
