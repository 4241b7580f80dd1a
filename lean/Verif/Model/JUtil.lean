import Verif.Go
import Mathlib.Data.ZMod.Basic

/-!
# Model of `jindo/utils.go` (division and challenges), `jindo/rns.go` and `jindo/params.go`
(encoding parameters)

Machine words (`uint64`) are natural numbers below `2^64`.  A polynomial of a lattigo ring is
modelled coefficient by coefficient: position `i` holds one residue per modulus of the chain, in
the order of `ring.SubRings`.  `big.Int` values are integers.
-/

namespace Ringo

/-- `bits.Div64(hi, lo, y)`: quotient and remainder of `hi * 2^64 + lo` by `y`; panics if `y = 0`
or if the quotient does not fit a word (`y <= hi`). -/
def div64 (hi lo y : Nat) : Go (Nat × Nat) :=
  if y ≤ hi then goPanic else pure ((hi * 2 ^ 64 + lo) / y, (hi * 2 ^ 64 + lo) % y)

/-- utils.go:14-16: the body of the loop of `divMod64`; the state is `(x, r)`. -/
def divModStep (y : Nat) (s : List Nat × Nat) (i : Nat) : Go (List Nat × Nat) := do
  let xi ← idx s.1 i
  let qr ← div64 s.2 xi y
  let x ← setIdx s.1 i qr.1
  pure (x, qr.2)

/-- utils.go:12-18 (`divMod64`): the new contents of `x`, and the remainder. -/
def divMod64 (x : List Nat) (y : Nat) : Go (List Nat × Nat) :=
  forDown x.length 0 (x, 0) (divModStep y)

/-! ## Encoding parameters -/

/-- params.go:12-15 (`encodeParameters`). -/
structure EcdParams where
  base : Nat
  exp : Nat

/-- params.go:23-30: the loop, from `baseBig = n` and `logExp = l`.  `0` and `1` are their own
square roots, so that on them the loop does not end. -/
def ecdLoop (n l : Nat) : Go (Nat × Nat) :=
  if Nat.sqrt n * Nat.sqrt n ≠ n then pure (n, l)
  else if n ≤ 1 then .error .hang
  else ecdLoop (Nat.sqrt n) (l + 1)
  termination_by n
  decreasing_by exact Nat.sqrt_lt_self (by omega)

/-- params.go:18-40 (`newEncodeParameters`), for the field of order `p`: the element `-1` is the
integer `p - 1`. -/
def newEncodeParameters (p : Nat) : Go EcdParams := do
  let bl ← ecdLoop (p - 1) 0
  if bl.1 < 2 ^ 64 then pure ⟨bl.1, 1 <<< bl.2⟩ else goPanic

/-- params.go:358-360 (`ChallengeBound`).  The shift is one of a `uint64`: it is `0` from 64
positions on.  `120 / 0` would panic, but `exp` is a power of two. -/
def challengeBound (e : EcdParams) : Nat :=
  min e.base ((1 <<< (120 / e.exp)) % 2 ^ 64) / 2

/-! ## Signed coefficients -/

/-- `binary.BigEndian.Uint64(b[:8])`; reading fewer than eight bytes panics. -/
def beUint64 (b : List (BitVec 8)) : Go Nat :=
  if b.length < 8 then goPanic
  else pure ((b.take 8).foldl (fun acc x => acc * 256 + x.toNat) 0)

/-- utils.go:32-41: the signed coefficient the code writes for the digit `r`, as the residue it
stores for the modulus `q`: `q - (B - r)` if `r` exceeds `B/2`, otherwise `r`. In the code the first wraps
around `2^64` if `q < B - r`; C107 shows that `B/2` is below every modulus it is used with. -/
def chalResidue (B r q : Nat) : Nat :=
  if r > B / 2 then q - (B - r) else r

/-- utils.go:30-42: one iteration of the loop; the state is the number left to divide, and the
coefficients written so far (coefficient `i * slots`, one residue per modulus). -/
def chalStep (B : Nat) (qs : List Nat) (s : List Nat × List (List Nat)) (_i : Nat) :
    Go (List Nat × List (List Nat)) := do
  let cr ← divMod64 s.1 B
  pure (cr.1, s.2 ++ [qs.map (chalResidue B cr.2)])

/-- utils.go:21-42 (`encodeChallengeTo`, before the change of representation of lines 44-45): the
residues written to the coefficients `0, slots, 2 * slots, ...`; all others are zero. -/
def chalCoeffs (e : EcdParams) (qs : List Nat) (bytes : List (BitVec 8)) :
    Go (List (List Nat)) := do
  let c0 ← beUint64 bytes
  let c1 ← beUint64 (bytes.drop 8)
  let s ← forRange 0 e.exp 1 ([c0, c1], []) (chalStep (challengeBound e) qs)
  pure s.2

/-- utils.go:49-60 (`setCoeffSigned`): the residue stored for the modulus `q`.  Go's `%` truncates
towards zero; the conversion to `uint64` of the (nonnegative) sum is exact. -/
def signedResidue (c : Int) (q : Nat) : Nat :=
  if 0 ≤ c then c.toNat else (c.tmod q + q).toNat

/-- rns.go:108-114 (`setBigCoeffTo`): the residue stored for the modulus `q`; `big.Int.Mod` is
Euclidean. -/
def bigResidue (c : Int) (q : Nat) : Nat := (c % q).toNat

/-! ## RNS reconstruction -/

/-- rns.go:68-73 (`toBalanced`); the moduli are below `2^63`. -/
def toBalanced (x q : Nat) : Int :=
  if x > q / 2 then (x : Int) - q else x

/-- rns.go:37-41: the gadget of the modulus `q` for the product `Q` of all moduli.
`big.Int.ModInverse` returns the inverse in `[0, q)`. -/
def gadget (Q q : Nat) : Nat :=
  let qDiv := Q / q
  let qInv := ((qDiv : ZMod q)⁻¹).val
  qDiv * qInv % Q

/-- rns.go:78-85: whether all residues have the same balanced form. -/
def rnsSmall (c0 : Int) (rest : List (Nat × Nat)) : Bool :=
  rest.all fun cq => c0 == toBalanced cq.1 cq.2

/-- rns.go:92-98: the accumulated sum, reduced. -/
def rnsAcc (Q : Nat) (cqs : List (Nat × Nat)) : Nat :=
  cqs.foldl (fun acc cq => acc + cq.1 * gadget Q cq.2) 0 % Q

/-- rns.go:76-105 (`reconstructTo`) for one coefficient: `cqs` lists the residues with their
moduli.  The chain is not empty. -/
def reconstruct1 (cqs : List (Nat × Nat)) : Go Int := do
  let cq0 ← idx cqs 0
  let c0 := toBalanced cq0.1 cq0.2
  if rnsSmall c0 cqs.tail then pure c0
  else
    let Q := (cqs.map Prod.snd).prod
    let acc := rnsAcc Q cqs
    if Q / 2 ≤ acc then pure ((acc : Int) - Q) else pure acc

/-! ## The modulus generator -/

/-- jindo-modulus/main.go:26-29. -/
def maxRank : Nat := 1 <<< 30
def baseBound : Nat := 1 <<< 25

/-- jindo-modulus/main.go:46-67: the tests on the candidate `(b, k)`, in order.  `prime` is the
answer of `ProbablyPrime(64)`. -/
def modulusOk (prime : Nat → Bool) (bitStart bitEnd b k : Nat) : Bool :=
  let p := b ^ k + 1
  !(decide (p.size < bitStart) || decide (p.size ≥ bitEnd)) &&
    prime p && decide (b ^ k % (2 * maxRank) = 0) && !decide (b > baseBound)

/-- jindo-modulus/main.go:45-69: the loop over the bases `b`, `bStart ≤ b ≤ bEnd`. -/
def findBase (prime : Nat → Bool) (bitStart bitEnd k bStart bEnd : Nat) : Option Nat :=
  (List.range' bStart (bEnd + 1 - bStart)).find? fun b => modulusOk prime bitStart bitEnd b k

/-- jindo-modulus/main.go:31-73 (`findModulus`).  The limits of the loops are computed in floating
point: `maxLog2` and, for each `k`, `bStart` and `bEnd` are arbitrary here.  Returns `b` and `k`;
the modulus is `b^k + 1`. -/
def findModulus (prime : Nat → Bool) (maxLog2 : Nat) (limits : Nat → Nat × Nat)
    (bitStart bitEnd : Nat) : Option (Nat × Nat) :=
  (List.range' 1 (maxLog2 - 1)).findSome? fun logk =>
    let k := 1 <<< logk
    let (bStart, bEnd) := limits k
    if bStart > baseBound then none
    else (findBase prime bitStart bitEnd k bStart bEnd).map fun b => (b, k)

/-- jindo-modulus/main.go:103-120: the branch without `-n`: the program goes on with the modulus
`b^k + 1` if this returns `true`. -/
def acceptBaseExp (prime : Nat → Bool) (b k : Nat) : Bool :=
  !(b == 0 || k == 0) && prime (b ^ k + 1)

end Ringo
