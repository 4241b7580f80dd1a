import Verif.Model.JFloat

/-!
# `NewParameters` with rounding (`jindo/params.go`)

The same code as in `Verif.Model.JFloat`, with every operation rounded: a `float64` is a real number, an
operation returns the rounded exact result.

Simplifications.
* No overflow, no underflow: `round` is a function on all real numbers (`Flt.Ok` in `Verif.Spec.JRound` says what
  is assumed of it).
* `math.Log2` and `math.Exp2` are arbitrary functions with an error bound.
* The compiler may fuse `x*y + z` into one operation (on arm64 it does): `fused`.  In a sum of two products it
  is the first one that is fused.
* `int` does not overflow; lattigo's prime generator is a parameter, as in `Verif.Model.JFloat`.
-/

namespace Ringo

open Real

/-- The floating-point unit and the functions of package `math`. -/
structure Flt where
  /-- rounding to `float64` -/
  round : ℝ → ℝ
  /-- `math.Log2` -/
  log2 : ℝ → ℝ
  /-- `math.Exp2` -/
  exp2 : ℝ → ℝ
  /-- whether `x*y + z` is one operation -/
  fused : Bool

namespace Flt
variable (F : Flt)

/-- `x + y` -/
noncomputable def add (x y : ℝ) : ℝ := F.round (x + y)
/-- `x - y` -/
noncomputable def sub (x y : ℝ) : ℝ := F.round (x - y)
/-- `x * y` -/
noncomputable def mul (x y : ℝ) : ℝ := F.round (x * y)
/-- `x / y` -/
noncomputable def div (x y : ℝ) : ℝ := F.round (x / y)
/-- `math.Sqrt` -/
noncomputable def sqrt (x : ℝ) : ℝ := F.round (√x)
/-- `x*y + z` -/
noncomputable def mulAdd (x y z : ℝ) : ℝ := if F.fused then F.round (x * y + z) else F.add (F.mul x y) z

/-- params.go:53-61 (`findMSISRank`). -/
noncomputable def findMSISRank (d q beta : ℝ) : Go ℤ :=
  if beta > q then goPanic
  else
    let logBeta := F.log2 beta
    let logQ := F.log2 q
    let logDelta := F.log2 (F.round 1.005)
    pure ⌈F.div (F.mul logBeta logBeta) (F.mul (F.mul (F.mul 4 d) logQ) logDelta)⌉

/-- params.go:205, 235, 279, 291: `int(math.Ceil(logQ / 60))`. -/
noncomputable def limbsOf (logQ : ℝ) : ℤ := ⌈F.div logQ 60⌉

/-- params.go:206, 236, 280, 292: `int(math.Ceil(logQ / float64(limbs)))`. -/
noncomputable def bitsOf (logQ : ℝ) : ℤ := ⌈F.div logQ (F.round (F.limbsOf logQ))⌉

/-- params.go:136-149: `t`, `b`, `k`, `d`, `nu`, `n`, `m` in the iteration for `nn`; `l` is `d / k`. -/
noncomputable def npVars (targetN batch : Nat) (e : EcdParams) (nn : Nat) : NPVars :=
  let k := F.round e.exp
  let d := max k 256
  let l := F.div d k
  let n := F.round nn
  { t := F.round batch
    b := F.round e.base
    k := k
    d := d
    nu := F.div (2 ^ 13) d
    n := n
    m := ⌈F.div (F.round targetN) (F.mul n l)⌉ }

variable (V : NPVars)

/-- params.go:151. -/
noncomputable def xOne : ℝ := F.mul (F.sqrt V.k) V.b

/-- params.go:152. -/
noncomputable def cOne : ℝ := F.div (F.mul (F.sqrt V.k) (min V.b (F.exp2 (F.div 120 V.k)))) 2

/-- params.go:154. -/
noncomputable def ecdStdDev : ℝ := F.mul (F.mul (F.div 2 (F.sub V.b 1)) (F.add V.b 1)) 6

/-- params.go:155. -/
noncomputable def ecdBlindStdDev : ℝ :=
  F.mul (F.mul (F.div (F.mul 2 (F.xOne V)) (F.sub V.b 1)) (F.add V.b 1)) 6

/-- params.go:156. -/
noncomputable def maskStdDev : ℝ :=
  F.mul (F.mul (F.div (F.mul 2 (F.cOne V)) (F.sub V.b 1)) (F.add V.b 1)) 6

/-- params.go:157. -/
noncomputable def maskBlindStdDev : ℝ :=
  F.mul (F.mul (F.div (F.mul (F.mul 2 (F.cOne V)) (F.xOne V)) (F.sub V.b 1)) (F.add V.b 1)) 6

/-- params.go:159: a constant expression, rounded once. -/
noncomputable def mlweStdDev : ℝ := F.round (2 * √2 * 6)

/-- params.go:160. -/
noncomputable def maskMLWEStdDev : ℝ := F.mul (F.mul (F.mul 2 (F.cOne V)) (F.round (√2))) 6

/-- params.go:162. -/
noncomputable def fijInf : ℝ := F.mul (F.mul 5 (F.add V.b 1)) (F.ecdStdDev V)

/-- params.go:163. -/
noncomputable def f0jInf : ℝ :=
  F.mul (F.mul (F.mul 5 (F.add V.b 1)) (F.sqrt (F.add V.m 1))) (F.ecdBlindStdDev V)

/-- params.go:164. -/
noncomputable def finInf : ℝ :=
  F.mul (F.mul (F.mul 5 (F.add V.b 1)) (F.sqrt (F.add V.n 1))) (F.maskStdDev V)

/-- params.go:165. -/
noncomputable def f0nInf : ℝ :=
  F.mul (F.mul (F.mul 5 (F.add V.b 1)) (F.sqrt (F.mulAdd (F.add V.m 1) V.n 1))) (F.maskBlindStdDev V)

/-- params.go:170-174, 181-183, 225-227: `x *= math.Sqrt(t) * cOne` if `t > 1`. -/
noncomputable def scaleUp (x : ℝ) : ℝ := if V.t > 1 then F.mul x (F.mul (F.sqrt V.t) (F.cOne V)) else x

/-- params.go:220-222, 244-246: `x /= math.Sqrt(t) * cOne` if `t > 1`. -/
noncomputable def scaleDown (x : ℝ) : ℝ := if V.t > 1 then F.div x (F.mul (F.sqrt V.t) (F.cOne V)) else x

/-- params.go:167, 171. -/
noncomputable def resEcdiInf : ℝ :=
  F.scaleUp V (F.mulAdd (F.mul (F.sqrt V.n) (F.cOne V)) (F.fijInf V) (F.finInf V))

/-- params.go:168, 172. -/
noncomputable def resEcd0Inf : ℝ :=
  F.scaleUp V (F.mulAdd (F.mul (F.sqrt V.n) (F.cOne V)) (F.f0jInf V) (F.f0nInf V))

/-- params.go:169, 173. -/
noncomputable def prInf : ℝ :=
  F.scaleUp V (F.mulAdd (F.mul (F.sqrt V.m) (F.xOne V)) (F.fijInf V) (F.f0jInf V))

/-- params.go:176. -/
noncomputable def resEcdTwo : ℝ :=
  F.sqrt (F.mul V.d (F.mulAdd (F.mul V.m (F.resEcdiInf V)) (F.resEcdiInf V)
    (F.mul (F.resEcd0Inf V) (F.resEcd0Inf V))))

/-- params.go:178-183. -/
noncomputable def resMLWEInf : ℝ :=
  let mlweInf := F.mul 5 F.mlweStdDev
  let maskMLWEInf := F.mul (F.mul 5 (F.sqrt (F.add V.n 1))) (F.maskMLWEStdDev V)
  F.scaleUp V (F.mulAdd (F.mul (F.sqrt V.n) (F.cOne V)) mlweInf maskMLWEInf)

/-- params.go:188-189: `resTwo` in iteration `mu`; `inCutOffTwo` is the same (line 190). -/
noncomputable def resTwo (mu : Nat) : ℝ :=
  let resMLWETwo := F.mul (F.sqrt (F.mul V.d (F.add (F.round mu) V.nu))) (F.resMLWEInf V)
  F.sqrt (F.mulAdd (F.resEcdTwo V) (F.resEcdTwo V) (F.mul resMLWETwo resMLWETwo))

/-- params.go:193-201: `dExtOne`. -/
noncomputable def dExtOne : ℝ := if V.t = 1 then 1 else F.mul 2 (F.cOne V)

/-- params.go:192-203: `inMSISBeta` in iteration `mu`. -/
noncomputable def inMSISBeta (mu : Nat) : ℝ :=
  let r := F.add (F.resTwo V mu) (F.resTwo V mu)
  let extBeta := if V.t = 1 then F.mul 2 r else F.mul (F.mul 2 (F.mul 2 (F.cOne V))) r
  let cExtOne := if V.t = 1 then F.mul 2 (F.cOne V) else F.mul (F.mul 2 (F.cOne V)) (F.mul 2 (F.cOne V))
  F.mul (F.mul (F.mul 2 (F.dExtOne V)) cExtOne) extBeta

/-- params.go:204-207: `qBits * qLimbs` for a norm `beta`. -/
noncomputable def logModulus (beta : ℝ) : ℤ :=
  let logQ : ℝ := ⌈F.log2 beta⌉
  F.bitsOf logQ * F.limbsOf logQ

/-- params.go:207: `q`. -/
noncomputable def inQ (mu : Nat) : ℝ := F.exp2 (F.round (F.logModulus (F.inMSISBeta V mu)))

/-- params.go:187-217: the loop; the result is the last `mu`. -/
noncomputable def inLoop : Go Nat :=
  forever 1 fun mu => do
    let q := F.inQ V mu
    if F.log2 q > 240 then pure none
    else
      let r ← F.findMSISRank V.d q (F.inMSISBeta V mu)
      if r = mu then pure (some mu) else pure none

/-- params.go:219-222: `inCutOffInf`; `inMSISRank` is `float64(mu)`. -/
noncomputable def inCutOffInf (mu : Nat) : ℝ :=
  F.scaleDown V (F.div (F.resTwo V mu)
    (F.mul (F.mulAdd (F.sqrt V.n) (F.cOne V) 1) (F.sqrt (F.mul (F.round mu) V.d))))

/-- params.go:224-227. -/
noncomputable def inDcmpInf (mu : Nat) : ℝ := F.scaleUp V (F.div (F.inQ V mu) (F.inCutOffInf V mu))

/-- params.go:229; `outCutOffTwo` is the same (line 230). -/
noncomputable def inDcmpTwo (mu : Nat) : ℝ :=
  F.mul (F.sqrt (F.mul (F.mul (F.add V.n 1) (F.round mu)) V.d)) (F.inDcmpInf V mu)

/-- params.go:232. -/
noncomputable def outMSISBeta (mu : Nat) : ℝ :=
  F.mul (F.mul 2 (F.dExtOne V)) (F.mul 2 (F.add (F.inDcmpTwo V mu) (F.inDcmpTwo V mu)))

/-- params.go:234-237: `qq`. -/
noncomputable def outQ (mu : Nat) : ℝ := F.exp2 (F.round (F.logModulus (F.outMSISBeta V mu)))

/-- params.go:243-246; `outMSISRank` is `float64` of the rank. -/
noncomputable def outCutOffInf (mu : Nat) (outRank : ℤ) : ℝ :=
  F.scaleDown V (F.div (F.inDcmpTwo V mu) (F.sqrt (F.mul (F.round outRank) V.d)))

/-- params.go:248. -/
noncomputable def comSize (mu : Nat) (outRank : ℤ) : ℝ :=
  F.mul (F.mul (F.mul V.t (F.round outRank)) V.d) (F.log2 (F.div (F.outQ V mu) (F.outCutOffInf V mu outRank)))

/-- params.go:250-256. -/
noncomputable def pfSize (mu : Nat) : ℝ :=
  let s := F.mulAdd (F.mul V.n V.d) (F.log2 (F.prInf V)) 0
  let s := F.mulAdd V.d (F.log2 (F.inQ V mu)) s
  let s := F.mulAdd (F.mul V.m V.d) (F.log2 (F.resEcdiInf V)) s
  let s := F.mulAdd V.d (F.log2 (F.resEcd0Inf V)) s
  let s := F.mulAdd (F.mul (F.add (F.round mu) V.nu) V.d) (F.log2 (F.resMLWEInf V)) s
  F.mulAdd (F.mul (F.mul (F.add V.n 1) (F.round mu)) V.d) (F.log2 (F.inDcmpInf V mu)) s

/-- params.go:279-282, 291-294. -/
noncomputable def primesFor (gen : ℤ → ℤ → Option (List Nat)) (q : ℝ) : Option (List Nat) :=
  gen (F.bitsOf (F.log2 q)) (F.limbsOf (F.log2 q))

/-- params.go:261-268: the sizes, with `int(x)` as rounding down. -/
noncomputable def shapeOf (batch : Nat) (e : EcdParams) : JParams :=
  let l := F.div V.d V.k
  ⟨batch, ⌊V.n⌋₊ * ⌊V.m⌋₊ * ⌊l⌋₊, ⌊V.m⌋₊ + 1, ⌊V.n⌋₊, e.base, e.exp, ⌊V.d⌋₊ / e.exp, none, none⟩

/-- params.go:258-316: what an iteration does to `(params, minSize)` once the candidate is computed. -/
noncomputable def npAssign (gen : ℤ → ℤ → Option (List Nat)) (batch : Nat) (e : EcdParams)
    (nn mu : Nat) (outRank : ℤ) (s : RParams × Option ℝ) : RParams × Option ℝ :=
  let size := F.add (F.comSize V mu outRank) (F.pfSize V mu)
  if (match s.2 with | none => true | some x => decide (size < x)) then
    let params : RParams := { s.1 with
      shape := { F.shapeOf V batch e with ringQ := s.1.shape.ringQ, ringQOut := s.1.shape.ringQOut }
      inRank := ⌊F.round mu⌋
      outRank := ⌊F.round outRank⌋
      mlweRank := ⌊V.nu⌋
      inCut := ⌊F.log2 (F.inCutOffInf V mu)⌋
      outCut := ⌊F.log2 (F.outCutOffInf V mu outRank)⌋
      dcmpLen := ⌊F.mul (F.add V.n 1) (F.round mu)⌋ }
    match F.primesFor gen (F.inQ V mu) with
    | none => (params, some size)
    | some q =>
      let params := { params with qs := some q, shape := { params.shape with ringQ := some nn } }
      match F.primesFor gen (F.outQ V mu) with
      | none => (params, some size)
      | some q' =>
        let sqrt2pi := F.sqrt (F.round (2 * π))
        ({ params with
          qs' := some q'
          shape := { params.shape with ringQOut := some nn }
          ecdStdDev := F.div (F.ecdStdDev V) sqrt2pi
          ecdBlindStdDev := F.div (F.ecdBlindStdDev V) sqrt2pi
          maskStdDev := F.div (F.maskStdDev V) sqrt2pi
          maskBlindStdDev := F.div (F.maskBlindStdDev V) sqrt2pi
          mlweStdDev := F.div F.mlweStdDev sqrt2pi
          maskMLWEStdDev := F.div (F.maskMLWEStdDev V) sqrt2pi
          resTwoNm := F.add (F.resTwo V mu) (F.resTwo V mu)
          inComDcmpTwoNm := F.add (F.inDcmpTwo V mu) (F.inDcmpTwo V mu)
          comSize := F.comSize V mu outRank
          pfSize := F.pfSize V mu }, some size)
  else s

/-- params.go:147-317: one iteration. -/
noncomputable def npStep (gen : ℤ → ℤ → Option (List Nat)) (targetN batch : Nat) (e : EcdParams)
    (s : RParams × Option ℝ) (nn : Nat) : Go (RParams × Option ℝ) := do
  let V := F.npVars targetN batch e nn
  let mu ← F.inLoop V
  if F.log2 (F.outQ V mu) > 240 then pure s
  else
    let outRank ← F.findMSISRank V.d (F.outQ V mu) (F.outMSISBeta V mu)
    pure (F.npAssign V gen batch e nn mu outRank s)

/-- params.go:126-320 (`NewParameters`), all of it, rounded. -/
noncomputable def newParameters (gen : ℤ → ℤ → Option (List Nat)) (targetN batch p : Nat) : Go RParams := do
  if targetN < 1 then goPanic
  else if batch < 1 then goPanic
  else
    let e ← newEncodeParameters p
    let k := F.round e.exp
    let l := F.div (max k 256) k
    let maxCols := ⌈F.div (F.round targetN) l⌉₊
    let s ← (doublings 1 maxCols).foldlM (F.npStep gen targetN batch e) (RParams.zero, none)
    pure s.1

end Flt

end Ringo
