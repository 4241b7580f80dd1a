import Verif.Model.JRound
import Verif.Model.JLimbs
import Verif.Model.JProto

/-!
# From `NewParameters` and `NewCommitKey` to `NewProver` and `NewVerifier`

`Verif.Model.JProto` takes the parameters as a record of numbers; here is that record for what `NewParameters`
returns.
-/

namespace Ringo

/-- params.go:322-443: what the getters of `Parameters` return.  `limbs` is the number of words of a field
element, `resNm` and `dcmpNm` are the two norm bounds as rational numbers (they are `float64`). -/
noncomputable def RParams.jpar (P : RParams) (limbs : Nat) (resNm dcmpNm : ℚ) : JPar where
  enc := ⟨⟨P.shape.base, P.shape.exp⟩, P.shape.slots, max P.shape.exp 256, limbs⟩
  mat := ⟨P.shape.rank, P.shape.rows, P.shape.cols, P.shape.slots⟩
  batch := P.shape.batch
  inRank := P.inRank.toNat
  outRank := P.outRank.toNat
  mlweRank := P.mlweRank.toNat
  inCut := P.inCut.toNat
  outCut := P.outCut.toNat
  dcmpLen := P.dcmpLen.toNat
  resNm := resNm
  dcmpNm := dcmpNm

/-- entities.go:11-18: the key as elements of the two rings; `f` and `f'` say which element the residues stand
for. -/
def LimbKey.jkey {T T' : Type} (K : LimbKey) (f : LimbPoly → T) (f' : LimbPoly → T') : JKey T T' where
  crs := K.crs
  inn := K.inn.map fun r => r.map f
  mlwe := K.mlwe.map fun r => r.map f
  out := K.out.map fun r => r.map f'

end Ringo
