import Verif.Spec.JEnvOf
import Verif.Proof.JCommit

/-!
# Responses within the bounds of `NewParameters`
-/

namespace Ringo

open Real

/-- For the size for which the generator returned them, the primes exceed `2^bits` by at most a sixteenth. -/
def NearPrimes (gen : ℤ → ℤ → Option (List Nat)) (Q : List Nat) : Prop :=
  ∀ bits limbs, gen bits limbs = some Q → ∀ a ∈ Q, 16 * a ≤ 17 * 2 ^ bits.toNat

/-- The bound for a coefficient of a partial evaluation: `rows - 1` rows times digits below the base in absolute
value, and the row that blinds the others. -/
noncomputable def RParams.partBound (P : RParams) : ℝ :=
  P.batchGrowth * RParams.tail * (P.shape.base + 1) *
    (√(P.shape.rows - 1) * (√P.shape.exp * P.shape.base) * P.ecdStdDev + √P.shape.rows * P.ecdBlindStdDev)

/-- The integers behind an opening come from the samples `r`: a cell is zero or the digits of field elements plus
the samples times `X^slots - base` (`CellIs`), and the MLWE secrets are samples. -/
structure JEnv.Sampled {p : Nat} {T T' : Type} (E : JEnv p T T') (r : ComRand p) (I : JInts) : Prop where
  e : ∀ j ≤ E.par.mat.cols, ∀ k < E.par.mat.rows, CellIs E (r.col j) k (I.e j k)
  m : ∀ j ≤ E.par.mat.cols, ∀ k < E.par.mlweRank + E.par.inRank,
    I.m j k = (List.range E.par.enc.N).map ((r.col j).mlwe k)

/-- No coefficient of a response exceeds the bound that `NewParameters` uses for it: five standard deviations,
where a combination by challenges counts as the square root of the number of terms times the bound for a
challenge.  For batches of one nothing has to be asked for of the inner commitments and the remainders of the
outer ones. -/
structure JEnv.Typical {p : Nat} {T T' : Type} (E : JEnv p T T') (P : RParams) (W : JWit) : Prop where
  blind : ∀ c ∈ W.e 0, ((|c| : ℤ) : ℝ) ≤ P.resBlind
  row : ∀ k, 1 ≤ k → k < E.par.mat.rows → ∀ c ∈ W.e k, ((|c| : ℤ) : ℝ) ≤ P.resRow
  mlwe : ∀ k < E.par.mlweRank + E.par.inRank, ∀ c ∈ W.m k, ((|c| : ℤ) : ℝ) ≤ P.resMLWE
  cut : ∀ k < E.par.inRank, ∀ c ∈ W.u k,
    ((|c| : ℤ) : ℝ) ≤ (1 + √P.shape.cols * P.chal) * P.batchGrowth * 2 ^ P.inCut
  part : ∀ j < E.par.mat.cols, ∀ c ∈ W.f j, ((|c| : ℤ) : ℝ) ≤ P.partBound
  trunc : 1 < E.par.batch → ∀ l < E.par.dcmpLen, ∀ c ∈ W.t l,
    ((|c| : ℤ) : ℝ) ≤ P.batchGrowth * (E.ringQ.qs.prod / 2 / 2 ^ P.inCut + 2)
  outCut : 1 < E.par.batch → ∀ k < E.par.outRank, ∀ c ∈ W.s k,
    ((|c| : ℤ) : ℝ) ≤ P.batchGrowth * 2 ^ P.outCut

end Ringo
