import Verif.Go

/-!
# Model of `buckler/utils.go`: norm digits

Bounds are natural numbers here: a negative bound never reaches `decomposeBase` through
`AddInfNormConstraintBig` (context.go:121-122).
-/

namespace Ringo

/-- `x.BitLen()`. -/
def bitLen (x : Nat) : Nat := if x = 0 then 0 else Nat.log2 x + 1

/-- `x.TrailingZeroBits()` (0 for `x = 0`). -/
def trailingZeroBits (x : Nat) : Nat :=
  if x = 0 then 0 else if x % 2 = 1 then 0 else trailingZeroBits (x / 2) + 1
  termination_by x
  decreasing_by omega

/-- utils.go:10-13: the number of digits. -/
def dcmpLen (x : Nat) : Nat :=
  let dcmpLen := bitLen x
  if 1 <<< trailingZeroBits x = x then dcmpLen - 1 else dcmpLen

/-- utils.go:18-27: one turn of the loop, appending `base[i]` to `base[0..i-1]`. -/
def dcmpStep (x : Nat) (base : List Nat) : List Nat :=
  let sum := base.sum
  let b := x - sum
  let quo := b >>> 1
  let rem := b &&& 1
  base ++ [quo + rem]

/-- utils.go:7-32 (`decomposeBase`).  `base[dcmpLen-1]` panics if there is no digit. -/
def decomposeBase (x : Nat) : Go (List Nat) :=
  let len := dcmpLen x
  let base := (List.range (len - 1)).foldl (fun base _ => dcmpStep x base) []
  if len = 0 then goPanic else pure (base ++ [1])

/-- utils.go:42-54: the greedy loop. -/
def greedy : Int → List Nat → List Int
  | _, [] => []
  | xs, b :: bs =>
    if xs ≥ b then 1 :: greedy (xs - b) bs
    else if xs ≤ -b then -1 :: greedy (xs + b) bs
    else 0 :: greedy xs bs

/-- utils.go:35-39: the signed representative. -/
def signedRep (x q : Nat) : Int := if x > q / 2 then (x : Int) - q else x

/-- utils.go:34-56 (`decomposeBig`). -/
def decomposeBig (x : Nat) (base : List Nat) (q : Nat) : List Int := greedy (signedRep x q) base

end Ringo
