import Verif.Spec.Rom
import Verif.Proof.Asker
import Mathlib.Data.Set.Finite.List

/-!
# There are finitely many byte strings of bounded length
-/

namespace Ringo

noncomputable instance Query.fintype (n : Nat) : Fintype (Query n) :=
  (List.finite_length_le UInt8 n).fintype

end Ringo
