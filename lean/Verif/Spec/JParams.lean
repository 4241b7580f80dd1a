import Verif.Model.JFloat

/-!
# What the parameters of Jindo have to satisfy

Over the real numbers.  `n` is the number of columns, `d` the degree of the rings, `c` the bound used for the
challenges.
-/

namespace Ringo

open Real

namespace RParams
variable (P : RParams)

/-- The degree of the rings. -/
noncomputable def deg : ℝ := max P.shape.exp 256

/-- The bound `sqrt k min(b, 2^(120/k)) / 2` for a challenge. -/
noncomputable def chal : ℝ := √P.shape.exp * min (P.shape.base : ℝ) (2 ^ (120 / (P.shape.exp : ℝ))) / 2

/-- By how much the combination of a batch grows. -/
noncomputable def batchGrowth : ℝ := if P.shape.batch > 1 then √P.shape.batch * P.chal else 1

/-- The norm for which the inner commitment has to be binding, if the verifier accepts responses of norm
`resTwoNm`. -/
noncomputable def inBeta : ℝ :=
  (if P.shape.batch = 1 then 8 * P.chal else 64 * P.chal ^ 4) * P.resTwoNm

/-- The same for the outer commitment and decompositions of norm `inComDcmpTwoNm`. -/
noncomputable def outBeta : ℝ := (if P.shape.batch = 1 then 4 else 8 * P.chal) * P.inComDcmpTwoNm

/-- `tau = 5 sqrt(2 pi)`: a sample of standard deviation `s` is taken to be at most `tau s`. -/
noncomputable def tail : ℝ := 5 * √(2 * π)

/-- The bound for a coefficient of a row of the response other than the first and last: a combination of
`cols` rows by challenges, and the row of the mask.  A sum of `n` independent terms counts `sqrt n` times. -/
noncomputable def resRow : ℝ :=
  P.batchGrowth * tail * (P.shape.base + 1) *
    (√P.shape.cols * P.chal * P.ecdStdDev + √(P.shape.cols + 1) * P.maskStdDev)

/-- The same for the row that blinds the others. -/
noncomputable def resBlind : ℝ :=
  P.batchGrowth * tail * (P.shape.base + 1) * (√P.shape.cols * P.chal * (√P.shape.rows * P.ecdBlindStdDev) +
    √(P.shape.rows * P.shape.cols + 1) * P.maskBlindStdDev)

/-- The same for the MLWE secrets. -/
noncomputable def resMLWE : ℝ :=
  P.batchGrowth * tail * (√P.shape.cols * P.chal * P.mlweStdDev + √(P.shape.cols + 1) * P.maskMLWEStdDev)

/-- Short solutions of norm `beta` modulo a number `q` in rank `rank` are out of reach: the best attack with
root Hermite factor `1.005` finds vectors of length `2 ^ (2 sqrt (rank d log q log 1.005))`. -/
def MSISHard (d q : ℝ) (rank : ℤ) (beta : ℝ) : Prop :=
  beta ≤ 2 ^ (2 * √(rank * d * logb 2 q * logb 2 1.005))

/-- Parameters that fit each other. -/
structure Sound : Prop where
  /-- the ranks are small positive numbers -/
  inRank : 1 ≤ P.inRank ∧ P.inRank ≤ 33
  outRank : 1 ≤ P.outRank ∧ P.outRank ≤ 33
  dcmpLen : P.dcmpLen = (P.shape.cols + 1) * P.inRank
  mlweRank : P.mlweRank = ⌊2 ^ 13 / P.deg⌋
  /-- encodings and MLWE secrets are sampled with the smoothing parameter 6; masks are wider than what they
  hide by the bound for a challenge, blinding rows by `sqrt k b` -/
  ecdDev : P.ecdStdDev * √(2 * π) * (P.shape.base - 1) = 2 * 6 * (P.shape.base + 1)
  mlweDev : P.mlweStdDev * √(2 * π) = 2 * √2 * 6
  maskDev : P.maskStdDev = P.chal * P.ecdStdDev
  blindDev : P.ecdBlindStdDev = √P.shape.exp * P.shape.base * P.ecdStdDev
  maskBlindDev : P.maskBlindStdDev = P.chal * P.ecdBlindStdDev
  maskMLWEDev : P.maskMLWEStdDev = P.chal * P.mlweStdDev
  /-- half of the bound for the response is the norm of a response with coefficients at their bounds -/
  response : (P.resTwoNm / 2) ^ 2 = P.deg * ((P.shape.rows - 1) * P.resRow ^ 2 + P.resBlind ^ 2 +
    (P.inRank + 2 ^ 13 / P.deg) * P.resMLWE ^ 2)
  /-- both rings are there, their moduli are at least `q` and `q'`, of at most 240 bits, and the norms for
  which the commitments have to be binding are below these and out of reach; in particular no response
  within the bound of the verifier wraps around; half of the bound for the decompositions is enough for
  inner commitments with `inCut` bits cut off -/
  rings : ∃ (Q Q' : List Nat) (q q' : ℝ), P.qs = some Q ∧ P.qs' = some Q' ∧
    q ≤ Q.prod ∧ q' ≤ Q'.prod ∧ q ≤ 2 ^ 240 ∧ q' ≤ 2 ^ 240 ∧
    P.inBeta ≤ q ∧ MSISHard P.deg q P.inRank P.inBeta ∧
    P.outBeta ≤ q' ∧ MSISHard P.deg q' P.outRank P.outBeta ∧
    0 < P.resTwoNm ∧ 8 * P.resTwoNm ≤ Q.prod ∧
    0 < P.inComDcmpTwoNm ∧ 4 * P.inComDcmpTwoNm ≤ Q'.prod ∧
    √(P.dcmpLen * P.deg) * P.batchGrowth * (q / 2 / 2 ^ P.inCut) ≤ P.inComDcmpTwoNm / 2
  /-- what is cut off from the commitments uses at most half of the norm bounds -/
  inCut : 6 ≤ P.inCut ∧ (1 + √P.shape.cols * P.chal) * √(P.inRank * P.deg) * P.batchGrowth * 2 ^ P.inCut ≤
    P.resTwoNm / 2
  outCut : 0 ≤ P.outCut ∧ √(P.outRank * P.deg) * P.batchGrowth * 2 ^ P.outCut ≤ P.inComDcmpTwoNm / 2

end RParams

/-- lattigo's generator returns as many primes as asked for, all above `2^bits`. -/
def GenOk (gen : ℤ → ℤ → Option (List Nat)) : Prop :=
  ∀ bits limbs : ℤ, 1 ≤ bits → bits ≤ 60 → 1 ≤ limbs → limbs ≤ 4 →
    ∃ l, gen bits limbs = some l ∧ (l.length : ℤ) = limbs ∧ ∀ q ∈ l, (2 : ℤ) ^ bits.toNat < q

end Ringo
