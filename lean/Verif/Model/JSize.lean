import Verif.Model.JRound

/-!
# The estimated sizes (`jindo/params.go`)
-/

namespace Ringo

/-- params.go:453-455 (`Size`); `CommitmentSize` and `ProofSize` (443-450) are the fields. -/
noncomputable def Flt.sizeOf (F : Flt) (P : RParams) : ℝ := F.add P.comSize P.pfSize

end Ringo
