import Verif.Model.JEnvOf
import Verif.Spec.Jindo
import Verif.Spec.JRound

/-!
# Provers and verifiers for constructed parameters
-/

namespace Ringo

/-- A prover and a verifier (`NewProver`, `NewVerifier`) for the parameters `P` and a key of `NewCommitKey`.
Assumed are the oracle (it fills buffers of 16 bytes), lattigo's `ModUpQtoP`, the words of a field element
(enough for the modulus), and the conversion of integers to `float64` (monotone, relative error `2^-53`). -/
structure JEnv.From {p : Nat} {T T' : Type} [AddCommGroup T] [AddCommGroup T'] (E : JEnv p T T') (P : RParams) :
    Prop where
  par : ∃ (limbs : Nat) (resNm dcmpNm : ℚ), p ≤ 2 ^ (64 * limbs) ∧ (resNm : ℝ) = P.resTwoNm ∧ (dcmpNm : ℝ) = P.inComDcmpTwoNm ∧
    E.par = P.jpar limbs resNm dcmpNm
  key : ∃ w crs K f f', newCommitKey P.limbPar w crs = .ok K ∧ E.key = K.jkey f f'
  qs : P.qs = some E.ringQ.qs
  qs' : P.qs' = some E.ringQ'.qs
  deg : E.ringQ.N = max P.shape.exp 256
  deg' : E.ringQ'.N = max P.shape.exp 256
  xof : ∀ ms i, (E.xof ms i).length = 16
  modUp : ModUpLawful E.ringQ'.qs E.ringQ.qs (max P.shape.exp 256) E.modUp
  mono : Monotone E.toFloat
  conv : ∀ n, |E.toFloat n - n| ≤ n / 2 ^ 53

end Ringo
