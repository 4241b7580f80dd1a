import Verif.Model.JEncoder
import Mathlib.Analysis.SpecialFunctions.Log.Base
import Mathlib.Analysis.SpecialFunctions.Pow.Real
import Mathlib.Analysis.Real.Sqrt

/-!
# Model of the floating-point computations of `NewParameters` (`jindo/params.go`)

Simplifications.
* `float64` arithmetic, `math.Sqrt`, `math.Log2`, `math.Exp2` and `math.Ceil` are the operations on real
  numbers: nothing is rounded.
* `int` does not overflow: the counter of the loop of line 187 is a natural number.
* lattigo's prime generator is a parameter (`none` if it returns an error); `ring.NewRing` accepts the primes
  it returns.
-/

namespace Ringo

open Real

/-- A loop `for i := start; ; i++` whose body either goes on (`ok none`), or leaves the loop by `break` with
a result, or panics. -/
noncomputable def forever {α : Type} (start : Nat) (body : Nat → Go (Option α)) : Go α :=
  open Classical in
  if h : ∃ i, start ≤ i ∧ body i ≠ .ok none then
    match body (Nat.find h) with
    | .ok (some a) => .ok a
    | .ok none => .error .hang
    | .error e => .error e
  else .error .hang

/-- params.go:53-61 (`findMSISRank`). -/
noncomputable def findMSISRank (d q beta : ℝ) : Go ℤ :=
  if beta > q then goPanic
  else
    let logBeta := logb 2 beta
    let logQ := logb 2 q
    let logDelta := logb 2 1.005
    pure ⌈logBeta * logBeta / (4 * d * logQ * logDelta)⌉

/-- params.go:205, 235: the number of primes of a modulus of `logQ` bits. -/
noncomputable def limbsOf (logQ : ℝ) : ℤ := ⌈logQ / 60⌉

/-- params.go:206, 236: the number of bits of each. -/
noncomputable def bitsOf (logQ : ℝ) : ℤ := ⌈logQ / limbsOf logQ⌉

/-- params.go:136-149: the variables `t`, `b`, `k`, `d`, `nu`, `n`, `m` of an iteration.  The sizes are exact
(`ceilDiv`, as in `newParameters`). -/
structure NPVars where
  t : ℝ
  b : ℝ
  k : ℝ
  d : ℝ
  nu : ℝ
  n : ℝ
  m : ℝ

/-- params.go:136-149. -/
noncomputable def npVars (targetN batch : Nat) (e : EcdParams) (nn : Nat) : NPVars :=
  let d := max e.exp 256
  let l := d / e.exp
  { t := batch, b := e.base, k := e.exp, d := d, nu := 2 ^ 13 / d, n := nn, m := ceilDiv targetN (nn * l) }

namespace NPVars

variable (V : NPVars)

/-- params.go:151. -/
noncomputable def xOne : ℝ := √V.k * V.b

/-- params.go:152. -/
noncomputable def cOne : ℝ := √V.k * min V.b (2 ^ (120 / V.k)) / 2

/-- params.go:154 (`eta = 6`). -/
noncomputable def ecdStdDev : ℝ := 2 / (V.b - 1) * (V.b + 1) * 6

/-- params.go:155. -/
noncomputable def ecdBlindStdDev : ℝ := 2 * V.xOne / (V.b - 1) * (V.b + 1) * 6

/-- params.go:156. -/
noncomputable def maskStdDev : ℝ := 2 * V.cOne / (V.b - 1) * (V.b + 1) * 6

/-- params.go:157. -/
noncomputable def maskBlindStdDev : ℝ := 2 * V.cOne * V.xOne / (V.b - 1) * (V.b + 1) * 6

/-- params.go:159. -/
noncomputable def mlweStdDev : ℝ := 2 * √2 * 6

/-- params.go:160. -/
noncomputable def maskMLWEStdDev : ℝ := 2 * V.cOne * √2 * 6

/-- params.go:162 (`tailCut = 5`). -/
noncomputable def fijInf : ℝ := 5 * (V.b + 1) * V.ecdStdDev

/-- params.go:163. -/
noncomputable def f0jInf : ℝ := 5 * (V.b + 1) * √(V.m + 1) * V.ecdBlindStdDev

/-- params.go:164. -/
noncomputable def finInf : ℝ := 5 * (V.b + 1) * √(V.n + 1) * V.maskStdDev

/-- params.go:165. -/
noncomputable def f0nInf : ℝ := 5 * (V.b + 1) * √((V.m + 1) * V.n + 1) * V.maskBlindStdDev

/-- params.go:170-174, 181-183, 225-227: `x *= math.Sqrt(t) * cOne` if `t > 1`. -/
noncomputable def scaleUp (x : ℝ) : ℝ := if V.t > 1 then x * (√V.t * V.cOne) else x

/-- params.go:220-222, 244-246: `x /= math.Sqrt(t) * cOne` if `t > 1`. -/
noncomputable def scaleDown (x : ℝ) : ℝ := if V.t > 1 then x / (√V.t * V.cOne) else x

/-- params.go:167, 171. -/
noncomputable def resEcdiInf : ℝ := V.scaleUp (√V.n * V.cOne * V.fijInf + V.finInf)

/-- params.go:168, 172. -/
noncomputable def resEcd0Inf : ℝ := V.scaleUp (√V.n * V.cOne * V.f0jInf + V.f0nInf)

/-- params.go:169, 173. -/
noncomputable def prInf : ℝ := V.scaleUp (√V.m * V.xOne * V.fijInf + V.f0jInf)

/-- params.go:176. -/
noncomputable def resEcdTwo : ℝ :=
  √(V.d * (V.m * V.resEcdiInf * V.resEcdiInf + V.resEcd0Inf * V.resEcd0Inf))

/-- params.go:178-183. -/
noncomputable def resMLWEInf : ℝ :=
  let mlweInf := 5 * mlweStdDev
  let maskMLWEInf := 5 * √(V.n + 1) * V.maskMLWEStdDev
  V.scaleUp (√V.n * V.cOne * mlweInf + maskMLWEInf)

/-- params.go:188-189: `resTwo` in iteration `mu`; `inCutOffTwo` is the same (line 190). -/
noncomputable def resTwo (mu : Nat) : ℝ :=
  let resMLWETwo := √(V.d * (mu + V.nu)) * V.resMLWEInf
  √(V.resEcdTwo * V.resEcdTwo + resMLWETwo * resMLWETwo)

/-- params.go:193-201: `dExtOne`. -/
noncomputable def dExtOne : ℝ := if V.t = 1 then 1 else 2 * V.cOne

/-- params.go:192-203: `inMSISBeta` in iteration `mu`. -/
noncomputable def inMSISBeta (mu : Nat) : ℝ :=
  let r := V.resTwo mu + V.resTwo mu
  let extBeta := if V.t = 1 then 2 * r else 2 * (2 * V.cOne) * r
  let cExtOne := if V.t = 1 then 2 * V.cOne else (2 * V.cOne) * (2 * V.cOne)
  2 * V.dExtOne * cExtOne * extBeta

/-- params.go:204-207: `math.Log2(q)` in iteration `mu`. -/
noncomputable def inLogQ (mu : Nat) : ℤ :=
  let logQ : ℝ := ⌈logb 2 (V.inMSISBeta mu)⌉
  bitsOf logQ * limbsOf logQ

/-- params.go:187-217: the loop; the result is the last `mu`, which is `inMSISRank`. -/
noncomputable def inLoop : Go Nat :=
  forever 1 fun mu => do
    let q : ℝ := 2 ^ (V.inLogQ mu : ℝ)
    if logb 2 q > 240 then pure none
    else
      let r ← findMSISRank V.d q (V.inMSISBeta mu)
      if r = mu then pure (some mu) else pure none

/-- params.go:219-222: `inCutOffInf`, for the `mu` the loop ends with. -/
noncomputable def inCutOffInf (mu : Nat) : ℝ :=
  V.scaleDown (V.resTwo mu / ((1 + √V.n * V.cOne) * √(mu * V.d)))

/-- params.go:224-227. -/
noncomputable def inDcmpInf (mu : Nat) : ℝ :=
  V.scaleUp (2 ^ (V.inLogQ mu : ℝ) / V.inCutOffInf mu)

/-- params.go:229; `outCutOffTwo` is the same (line 230). -/
noncomputable def inDcmpTwo (mu : Nat) : ℝ := √((V.n + 1) * mu * V.d) * V.inDcmpInf mu

/-- params.go:232. -/
noncomputable def outMSISBeta (mu : Nat) : ℝ :=
  2 * V.dExtOne * (2 * (V.inDcmpTwo mu + V.inDcmpTwo mu))

/-- params.go:234-237: `math.Log2(qq)`. -/
noncomputable def outLogQ (mu : Nat) : ℤ :=
  let logQ : ℝ := ⌈logb 2 (V.outMSISBeta mu)⌉
  bitsOf logQ * limbsOf logQ

/-- params.go:243-246. -/
noncomputable def outCutOffInf (mu : Nat) (outRank : ℤ) : ℝ :=
  V.scaleDown (V.inDcmpTwo mu / √(outRank * V.d))

/-- params.go:248. -/
noncomputable def comSize (mu : Nat) (outRank : ℤ) : ℝ :=
  V.t * outRank * V.d * logb 2 (2 ^ (V.outLogQ mu : ℝ) / V.outCutOffInf mu outRank)

/-- params.go:250-256. -/
noncomputable def pfSize (mu : Nat) : ℝ :=
  V.n * V.d * logb 2 V.prInf + V.d * logb 2 (2 ^ (V.inLogQ mu : ℝ)) + V.m * V.d * logb 2 V.resEcdiInf +
    V.d * logb 2 V.resEcd0Inf + (mu + V.nu) * V.d * logb 2 V.resMLWEInf +
    (V.n + 1) * mu * V.d * logb 2 (V.inDcmpInf mu)

end NPVars

/-- The fields of `Parameters` (params.go:64-123); the zero value is that of line 134.  `shape` are those of
`JParams`, `qs` and `qs'` the moduli of `ringQ` and `ringQOut`. -/
structure RParams where
  shape : JParams
  inRank : ℤ
  outRank : ℤ
  mlweRank : ℤ
  inCut : ℤ
  outCut : ℤ
  dcmpLen : ℤ
  qs : Option (List Nat)
  qs' : Option (List Nat)
  ecdStdDev : ℝ
  ecdBlindStdDev : ℝ
  maskStdDev : ℝ
  maskBlindStdDev : ℝ
  mlweStdDev : ℝ
  maskMLWEStdDev : ℝ
  resTwoNm : ℝ
  inComDcmpTwoNm : ℝ
  comSize : ℝ
  pfSize : ℝ

/-- params.go:134. -/
noncomputable def RParams.zero : RParams :=
  ⟨JParams.zero, 0, 0, 0, 0, 0, 0, none, none, 0, 0, 0, 0, 0, 0, 0, 0, 0, 0⟩

/-- params.go:281-284, 291-294: the primes for a modulus of `logQ` bits (`gen bits count` is
`NewNTTFriendlyPrimesGenerator(bits, 2d).NextUpstreamPrimes(count)`). -/
noncomputable def primesFor (gen : ℤ → ℤ → Option (List Nat)) (logQ : ℝ) : Option (List Nat) :=
  let limbs := ⌈logQ / 60⌉
  gen ⌈logQ / limbs⌉ limbs

/-- params.go:258-316: what an iteration does to `(params, minSize)` once the candidate is computed. -/
noncomputable def npAssignR (gen : ℤ → ℤ → Option (List Nat)) (targetN batch : Nat) (e : EcdParams) (nn mu : Nat)
    (outRank : ℤ) (s : RParams × Option ℝ) : RParams × Option ℝ :=
  let V := npVars targetN batch e nn
  let size := V.comSize mu outRank + V.pfSize mu
  let qs := primesFor gen (logb 2 (2 ^ (V.inLogQ mu : ℝ)))
  let qs' := primesFor gen (logb 2 (2 ^ (V.outLogQ mu : ℝ)))
  let sh := npAssign targetN batch e nn ⟨false, size, qs.isSome, qs'.isSome⟩ (s.1.shape, s.2)
  if (match s.2 with | none => true | some x => decide (size < x)) then
    let params : RParams := { s.1 with
      shape := sh.1
      inRank := mu
      outRank := outRank
      mlweRank := ⌊V.nu⌋
      inCut := ⌊logb 2 (V.inCutOffInf mu)⌋
      outCut := ⌊logb 2 (V.outCutOffInf mu outRank)⌋
      dcmpLen := ⌊(V.n + 1) * mu⌋ }
    match qs with
    | none => (params, sh.2)
    | some q =>
      let params := { params with qs := some q }
      match qs' with
      | none => (params, sh.2)
      | some q' =>
        ({ params with
          qs' := some q'
          ecdStdDev := V.ecdStdDev / √(2 * π)
          ecdBlindStdDev := V.ecdBlindStdDev / √(2 * π)
          maskStdDev := V.maskStdDev / √(2 * π)
          maskBlindStdDev := V.maskBlindStdDev / √(2 * π)
          mlweStdDev := NPVars.mlweStdDev / √(2 * π)
          maskMLWEStdDev := V.maskMLWEStdDev / √(2 * π)
          resTwoNm := V.resTwo mu + V.resTwo mu
          inComDcmpTwoNm := V.inDcmpTwo mu + V.inDcmpTwo mu
          comSize := V.comSize mu outRank
          pfSize := V.pfSize mu }, sh.2)
  else s

/-- params.go:147-317: one iteration. -/
noncomputable def npStepR (gen : ℤ → ℤ → Option (List Nat)) (targetN batch : Nat) (e : EcdParams)
    (s : RParams × Option ℝ) (nn : Nat) : Go (RParams × Option ℝ) := do
  let V := npVars targetN batch e nn
  let mu ← V.inLoop
  let qq : ℝ := 2 ^ (V.outLogQ mu : ℝ)
  if logb 2 qq > 240 then pure s
  else
    let outRank ← findMSISRank V.d qq (V.outMSISBeta mu)
    pure (npAssignR gen targetN batch e nn mu outRank s)

/-- params.go:126-320 (`NewParameters`), all of it. -/
noncomputable def newParametersR (gen : ℤ → ℤ → Option (List Nat)) (targetN batch p : Nat) : Go RParams := do
  if targetN < 1 then goPanic
  else if batch < 1 then goPanic
  else
    let e ← newEncodeParameters p
    let maxCols := ceilDiv targetN (max e.exp 256 / e.exp)
    let s ← (doublings 1 maxCols).foldlM (npStepR gen targetN batch e) (RParams.zero, none)
    pure s.1

end Ringo
