import Verif.Model.Field
import Mathlib.Algebra.Field.ZMod

/-!
# What an element of a field package stands for

Independent of the code: a list of `n` words stands for a residue `a` modulo the prime `p` if it is the
number `a * 2^(64 n) mod p`, written with `n` words in base `2^64`, least significant word first.
-/

namespace Ringo

/-- The words `z` are the reduced Montgomery form of `a`: `n` words, a number below `p`, congruent to
`a * 2^(64 n)`. -/
structure MontForm (p n : Nat) (z : List Nat) (a : ZMod p) : Prop where
  len : z.length = n
  words : ∀ w ∈ z, w < 2 ^ 64
  lt : Nat.ofDigits (2 ^ 64) z < p
  val : ((Nat.ofDigits (2 ^ 64) z : Nat) : ZMod p) = a * (2 ^ 64) ^ n

/-- What the constants of a package must satisfy: at least two words, a prime modulus, `qInvNeg` the negative
inverse of the modulus modulo `2^64`, `rSquare` and `one` the numbers `2^(128 n) mod p` and `2^(64 n) mod p`;
and a spare bit in the top word (`2 p <= 2^(64 n)`) unless the variants of `Mul` and `Add` are the ones that
do without. -/
structure FieldPkg.Good (P : FieldPkg) : Prop where
  two_le : 2 ≤ P.n
  q_words : ∀ w ∈ P.q, w < 2 ^ 64
  prime : P.p.Prime
  inv : (P.qInvNeg * P.p + 1) % 2 ^ 64 = 0
  rSquare_len : P.rSquare.length = P.n
  rSquare_words : ∀ w ∈ P.rSquare, w < 2 ^ 64
  rSquare_val : Nat.ofDigits (2 ^ 64) P.rSquare = (2 ^ 64) ^ (2 * P.n) % P.p
  one_len : P.one.length = P.n
  one_words : ∀ w ∈ P.one, w < 2 ^ 64
  one_val : Nat.ofDigits (2 ^ 64) P.one = (2 ^ 64) ^ P.n % P.p
  spare_mul : P.cios = false → 2 * P.p ≤ (2 ^ 64) ^ P.n
  spare_add : P.full = false → 2 * P.p ≤ (2 ^ 64) ^ P.n

end Ringo
