import Verif.Model.JSize

/-!
# Specification: the search for small parameters
-/

namespace Ringo

/-- The numbers of columns among which `NewParameters` searches: the powers of two with which one row, less one column,
does not hold `targetN` coefficients. -/
def Tried (targetN p nn : Nat) : Prop :=
  ∃ e j, newEncodeParameters p = .ok e ∧ nn = 2 ^ j ∧ (nn - 1) * (max e.exp 256 / e.exp) < targetN

/-- With `nn` columns the moduli are not too large, and `C` is what a search that begins with `nn` keeps. -/
def Flt.Candidate (F : Flt) (gen : ℤ → ℤ → Option (List Nat)) (targetN batch p nn : Nat) (C : RParams) : Prop :=
  ∃ e x, newEncodeParameters p = .ok e ∧ F.npStep gen targetN batch e (RParams.zero, none) nn = .ok (C, some x)

end Ringo
