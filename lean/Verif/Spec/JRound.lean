import Verif.Model.JRound
import Verif.Spec.JParams

/-!
# What is assumed of floating-point arithmetic, and what rounded parameters have to satisfy
-/

namespace Ringo

open Real

/-- IEEE binary64 without overflow and underflow: rounding moves a number by at most `2^-53` of it and keeps
numbers with 53 significant bits; `math.Log2` is accurate to eight units in the last place and exact on powers of
two; `math.Exp2` likewise, and exact on integers. -/
structure Flt.Ok (F : Flt) : Prop where
  round_err : ∀ x, |F.round x - x| ≤ |x| / 2 ^ 53
  round_exact : ∀ a j : ℤ, |a| ≤ 2 ^ 53 → F.round (a * 2 ^ j) = a * 2 ^ j
  log2_err : ∀ x, 0 < x → |F.log2 x - logb 2 x| ≤ (1 + |logb 2 x|) / 2 ^ 50
  log2_pow : ∀ j : ℤ, F.log2 (2 ^ j) = j
  exp2_err : ∀ x, |F.exp2 x - 2 ^ x| ≤ 2 ^ x / 2 ^ 50
  exp2_int : ∀ j : ℤ, F.exp2 j = 2 ^ j

/-- The tolerance `2^-36`. -/
noncomputable def tol : ℝ := 1 / 2 ^ 36

/-- Equal up to the tolerance. -/
def WithinTol (x y : ℝ) : Prop := |x - y| ≤ tol * y

namespace RParams
variable (P : RParams)

/-- `MSISHard` for the root Hermite factor `1.00500001`. -/
def MSISHardTol (d q : ℝ) (rank : ℤ) (beta : ℝ) : Prop :=
  beta ≤ 2 ^ (2 * √(rank * d * logb 2 q * logb 2 1.00500001))

/-- `Sound`, up to the tolerance. -/
structure SoundTol : Prop where
  inRank : 1 ≤ P.inRank ∧ P.inRank ≤ 33
  outRank : 1 ≤ P.outRank ∧ P.outRank ≤ 33
  dcmpLen : P.dcmpLen = (P.shape.cols + 1) * P.inRank
  mlweRank : P.mlweRank = ⌊2 ^ 13 / P.deg⌋
  ecdDev : WithinTol (P.ecdStdDev * √(2 * π) * (P.shape.base - 1)) (2 * 6 * (P.shape.base + 1))
  mlweDev : WithinTol (P.mlweStdDev * √(2 * π)) (2 * √2 * 6)
  maskDev : WithinTol P.maskStdDev (P.chal * P.ecdStdDev)
  blindDev : WithinTol P.ecdBlindStdDev (√P.shape.exp * P.shape.base * P.ecdStdDev)
  maskBlindDev : WithinTol P.maskBlindStdDev (P.chal * P.ecdBlindStdDev)
  maskMLWEDev : WithinTol P.maskMLWEStdDev (P.chal * P.mlweStdDev)
  response : WithinTol ((P.resTwoNm / 2) ^ 2) (P.deg * ((P.shape.rows - 1) * P.resRow ^ 2 + P.resBlind ^ 2 +
    (P.inRank + 2 ^ 13 / P.deg) * P.resMLWE ^ 2))
  rings : ∃ (Q Q' : List Nat) (q q' : ℝ), P.qs = some Q ∧ P.qs' = some Q' ∧
    q ≤ Q.prod ∧ q' ≤ Q'.prod ∧ q ≤ 2 ^ 240 ∧ q' ≤ 2 ^ 240 ∧
    P.inBeta ≤ (1 + tol) * q ∧ MSISHardTol P.deg q P.inRank P.inBeta ∧
    P.outBeta ≤ (1 + tol) * q' ∧ MSISHardTol P.deg q' P.outRank P.outBeta ∧
    0 < P.resTwoNm ∧ 8 * P.resTwoNm ≤ (1 + tol) * Q.prod ∧
    0 < P.inComDcmpTwoNm ∧ 4 * P.inComDcmpTwoNm ≤ (1 + tol) * Q'.prod ∧
    √(P.dcmpLen * P.deg) * P.batchGrowth * (q / 2 / 2 ^ P.inCut) ≤ (1 + tol) * (P.inComDcmpTwoNm / 2)
  inCut : 6 ≤ P.inCut ∧ (1 + √P.shape.cols * P.chal) * √(P.inRank * P.deg) * P.batchGrowth * 2 ^ P.inCut ≤
    (1 + tol) * (P.resTwoNm / 2)
  outCut : 0 ≤ P.outCut ∧ √(P.outRank * P.deg) * P.batchGrowth * 2 ^ P.outCut ≤
    (1 + tol) * (P.inComDcmpTwoNm / 2)

end RParams

end Ringo
