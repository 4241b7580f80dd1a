import Verif.Model.Piop
import Verif.Spec.Poly
import Mathlib.SetTheory.Cardinal.Finite

/-!
# Specification: proofs that say nothing about the witness

A proof is a function of the statement, the witness and the prover's coins.  Nothing about the witness
can be learnt from it if, for every proof, the number of coins that lead to it does not depend on the
witness.
-/

namespace Ringo

/-- A function on the first `n` numbers, continued by `d`. -/
def extend {α : Type} {n : Nat} (d : α) (f : Fin n → α) (i : Nat) : α := if h : i < n then f ⟨i, h⟩ else d

/-- The field elements the prover draws: one for each witness, and the coefficients of the two masks. -/
abbrev FieldCoins {p : Nat} (cp : Compilation (ZMod p)) : Type :=
  (Fin cp.ctx.wCnt → ZMod p) × (Fin (2 * cp.ctx.rank) → ZMod p) ×
    (Fin cp.ctx.sumCheckMaxRank → ZMod p)

/-- The coins of the commitment scheme: for `n` commitments and for `Evaluate`. -/
abbrev PCSCoins {F : Type} (P : PCS F) (n : Nat) : Type := (Fin n → P.Rnd) × P.Rnd

/-- The prover's randomness, given by finitely many coins. -/
def tapeOf {p : Nat} {P : PCS (ZMod p)} {cp : Compilation (ZMod p)} {n : Nat} (u : FieldCoins cp)
    (c : PCSCoins P n) : Tape (ZMod p) P.Rnd where
  enc := extend 0 u.1
  linMask := extend 0 u.2.1
  sumMask := extend 0 u.2.2
  com := extend c.2 c.1
  ev := c.2

/-- Committing to the polynomials `fs` with the coins `c` and evaluating at `x` yields the commitments,
the values and the evaluation proof in `out`. -/
def PCS.Yields {F : Type} (P : PCS F) (x : F) (fs : List (List F)) {n : Nat} (c : PCSCoins P n)
    (out : List P.Com × List F × P.Pf) : Prop :=
  ∃ cs : List (P.Com × P.Open), cs.length = fs.length ∧
    (∀ (i : Nat) (f : List F), fs[i]? = some f → ∃ e, cs[i]? = some e ∧
      P.commit f (extend c.2 c.1 i) = .ok e) ∧
    cs.map (·.1) = out.1 ∧ P.evaluate x fs (cs.map (·.1)) (cs.map (·.2)) c.2 = .ok out.2

/-- A commitment scheme, used for `n` polynomials and one evaluation point, shows the lengths and the
values at the point of the polynomials, and nothing else. -/
def PCS.HidesAllBut {F : Type} [Field F] (P : PCS F) (n : Nat) : Prop :=
  ∀ (x : F) (fs gs : List (List F)), fs.length = n → gs.length = n →
    (∀ (i : Nat) (f g : List F), fs[i]? = some f → gs[i]? = some g →
      f.length = g.length ∧ 1 ≤ f.length ∧ f.length ≤ P.rank ∧
      evalAt f.length f x = evalAt g.length g x) →
    ∀ out, Nat.card {c : PCSCoins P n // P.Yields x fs c out} =
      Nat.card {c : PCSCoins P n // P.Yields x gs c out}

end Ringo
