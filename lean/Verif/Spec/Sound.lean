import Verif.Spec.Piop
import Verif.Model.Piop
import Verif.Proof.Piop3

/-!
# Specification: soundness over a commitment scheme that fixes the values
-/

namespace Ringo

open Finset

variable {p : Nat} [Fact p.Prime]

/-- To every commitment belongs a polynomial, and no proof for `n` commitments is accepted unless these
polynomials have at most `Rank()` coefficients and the claimed values are theirs. -/
def PCS.Fixes (P : PCS (ZMod p)) (n : Nat) (poly : P.Com → List (ZMod p)) : Prop :=
  ∀ x cs ys pf, P.verify x cs ys pf = .ok true →
    cs.length = n ∧ (∀ c ∈ cs, (poly c).length ≤ P.rank) ∧
    ys = cs.map (fun c => (listPoly (poly c)).eval x)

/-- What the checks of the code enforce (see C36 and C40 for what they do not): on every row the
arithmetic constraints sum to zero; every linear constraint holds; the sumcheck constraints, summed over
all rows, sum to zero. -/
structure Enforced (ctx : Context (ZMod p)) (users : Nat → LinearChecker (ZMod p))
    (proj : List (List Bool)) (pw sw : List (List (ZMod p))) : Prop where
  arith : ∀ i < ctx.rank, (ctx.arith.map (fun c => c.onRow pw sw i)).sum = 0
  lin : ∀ e ∈ ctx.lin, ∀ w ∈ e.2, ∃ L, resolve users proj e.1 = .ok L ∧
    L.transformTo (List.replicate ctx.rank 0) (sw.getD w.2 []) = .ok (sw.getD w.1 [])
  sums : ∑ i ∈ range ctx.rank, (ctx.sums.map (fun c => c.onRow pw sw i)).sum = 0

/-- `Verify` (verifier.go:29-217, see `verify`) with the challenges `ch` in place of the hashes, as in the
interactive protocol. -/
def verifyWith (E : Env (ZMod p)) (cp : Compilation (ZMod p)) (two : List TwoEntry) (c : Circ (ZMod p))
    (pf : BProof (ZMod p) E.pcs) (ch : Challenges) : Go Bool := do
  if cp.ctx.circType ≠ c.ty then pure false
  else
    match ← assignV cp two c.val with
    | none => pure false
    | some pw =>
      let pwEcd ← pw.mapM (fun v => cp.ecd.encode v)
      match ← challengesV E cp pf with
      | none => pure false
      | some (_, linMaskEval, sumMaskEval, next) =>
        if !(← E.pcs.verify (E.setBytes ch.x) pf.witness pf.evals pf.evalProof) then pure false
        else checksV E cp pf pwEcd ch linMaskEval sumMaskEval next

/-- A prover of the interactive protocol, after the projection matrix has been drawn: the commitments and
mask sums it sends then, the commitments it sends after the four batching challenges `ab`, `lb`, `lc`,
`sb`, and its answer to the evaluation point. -/
structure Cheater (P : PCS (ZMod p)) where
  first : List P.Com
  linSum : Option (ZMod p)
  sumSum : Option (ZMod p)
  second : ZMod p → ZMod p → ZMod p → ZMod p → List P.Com
  evals : ZMod p → ZMod p → ZMod p → ZMod p → ZMod p → List (ZMod p)
  proof : ZMod p → ZMod p → ZMod p → ZMod p → ZMod p → P.Pf

/-- What the prover has sent in the end. -/
def Cheater.run {P : PCS (ZMod p)} (A : Cheater P) (ab lb lc sb x : ZMod p) : BProof (ZMod p) P :=
  ⟨A.first ++ A.second ab lb lc sb, A.linSum, A.sumSum, A.evals ab lb lc sb x, A.proof ab lb lc sb x⟩

end Ringo
