import Verif.Spec.Piop
import Verif.Model.Digits
import Mathlib.Data.ZMod.ValMinAbs
import Mathlib.Data.ZMod.Basic

/-!
# Specification: an assignment that satisfies a circuit

`pw` and `sw` are the vectors assigned to the public and secret witnesses; `users n` is the caller's
`n`-th linear map.  Nothing here mentions the prover or the verifier.
-/

namespace Ringo

open Finset

/-- The bound `b` is met by the integer `z` in a way that the library's digits can express: `|z| ≤ b`,
and `|z| ≠ b` if `b` is a power of two (see C23). -/
def Within (z : Int) (b : Nat) : Prop := |z| ≤ b ∧ ((∃ k, 1 ≤ k ∧ b = 2 ^ k) → |z| ≠ b)

/-- The assignment satisfies the constraint added by a call.  Declared sums other than zero are left
out (see `C39_refuted`). -/
def CtxOp.HonestFor {p : Nat} (N : Nat) (users : Nat → LinearChecker (ZMod p))
    (pw sw : List (List (ZMod p))) : CtxOp (ZMod p) → Prop
  | .arith c => ∀ i < N, c.onRow pw sw i = 0
  | .sum c s => s = 0 ∧ ∑ i ∈ range N, c.onRow pw sw i = 0
  | .lin o i n => (users n).transformTo (List.replicate N 0) (sw.getD i []) = .ok (sw.getD o [])
  | .inf w b => 0 ≤ b ∧ ∀ i < N, Within (rowOf sw i w).valMinAbs b.toNat
  | .sq w b => 2 ≤ b ∧ 2 * b < p ∧ (∀ base, decomposeBase b = .ok base → base.length ≤ N) ∧
      Within ((∑ i ∈ range N, rowOf sw i w ^ 2).val : Int) b
  | .approx w b => 128 ≤ N ∧ 1 ≤ b ∧ 2 * (N * b) < p ∧
      (∀ base, decomposeBase (N * b) = .ok base → 128 * base.length ≤ N) ∧
      (∀ i < N, |(rowOf sw i w).valMinAbs| ≤ b) ∧
      ((∃ k, N * b = 2 ^ k) → ∃ i < N, |(rowOf sw i w).valMinAbs| < b)

end Ringo
