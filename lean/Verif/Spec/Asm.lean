import Verif.Model.Asm

/-!
# States of the amd64 processor
-/

namespace Ringo.Amd64

/-- A state of the processor: every register, stack word, argument and memory word is a 64-bit word, and the
flags are bits.  Nothing else is said about them: what is in the registers and on the stack when a function is
called is arbitrary. -/
structure St.Ok (s : St) : Prop where
  loc : ∀ r, s.loc r < 2 ^ 64
  cf : s.cf ≤ 1
  of : s.of ≤ 1
  mem : ∀ a, ∀ w ∈ s.mem a, w < 2 ^ 64
  arg : ∀ i, s.arg i < 2 ^ 64

end Ringo.Amd64
