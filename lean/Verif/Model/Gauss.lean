import Verif.Model.Csprng
import Mathlib.Analysis.SpecialFunctions.Exp
import Mathlib.Analysis.SpecialFunctions.Trigonometric.Basic
import Mathlib.Analysis.Real.Sqrt
import Mathlib.Analysis.SpecialFunctions.Log.Basic
import Mathlib.MeasureTheory.Integral.Bochner.Set
import Mathlib.MeasureTheory.Measure.Lebesgue.Basic

/-!
# Model of the Gaussian samplers (`math/csprng`), with real arithmetic

Simplifications.
* `float64` arithmetic, `math.Exp`, `math.Sqrt`, `math.Round` are the operations on real numbers: nothing
  is rounded.
* Converting a float that is too large to `uint64` gives the largest value.  (Go leaves the result open; it
  matters only for table entries within `2^-65` of one.)
* `int64` arithmetic does not overflow.
* The 52 bits `j` of the ziggurat are the real number `t = j / 2^52`, and the thresholds `kn` are not
  truncated to integers.
-/

namespace Ringo

open Real

/-- `math.Round`: to the nearest integer, halves away from zero. -/
noncomputable def roundAway (x : ℝ) : ℤ := if 0 ≤ x then ⌊x + 1 / 2⌋ else ⌈x - 1 / 2⌉

/-- `uint64(x)` of a float that is an integer and not negative. -/
def satUint64 (x : ℤ) : ℕ := min x.toNat (2 ^ 64 - 1)

/-! ## TwinCDT -/

/-- math/csprng/gaussian_twin_cdt.go:22-23 (`rho`), and the same expression in line 103. -/
noncomputable def cdtRho (center sigma : ℝ) (x : ℤ) : ℝ :=
  exp (-((x : ℝ) - center) * ((x : ℝ) - center) / (2 * sigma * sigma)) / (√(2 * π) * sigma)

/-- math/csprng/gaussian_twin_cdt.go:14 and 57 (`tailHi`, with `tailCut = 9`). -/
noncomputable def cdtTail (sigma : ℝ) : ℤ := ⌈9 * sigma⌉

/-- math/csprng/gaussian_twin_cdt.go:25-29: the table entry for a value of `cdf`. -/
noncomputable def cdtEntry (cdf : ℝ) : ℕ :=
  if cdf > 1 then 2 ^ 64 - 1 else satUint64 (roundAway (cdf * 2 ^ 64))

/-- math/csprng/gaussian_twin_cdt.go:13-33 (`computeCDT`). -/
noncomputable def computeCDT (center sigma : ℝ) : List ℕ :=
  let tailHi := cdtTail sigma
  let tailLo := -tailHi
  let tableSize := (tailHi - tailLo + 1).toNat
  ((List.range tableSize).foldl (fun (st : ℝ × List ℕ) (i : ℕ) =>
    let cdf := st.1 + cdtRho center sigma (tailLo + i)
    (cdf, st.2 ++ [cdtEntry cdf])) (0, [])).2

/-- math/csprng/gaussian_twin_cdt.go:51-69 (`NewTwinCDTGaussianSampler`); the random source is passed to `Sample` as
the word it draws. -/
noncomputable def newTwinCDT (stdDev : ℝ) : TwinCDT where
  tables := (List.range blockSize).map fun (i : ℕ) => computeCDT ((i : ℝ) / blockSize) stdDev
  tailLo := -cdtTail stdDev
  tailHi := cdtTail stdDev

/-- math/csprng/gaussian_twin_cdt.go:99-107: the comparison `p < cdf`. -/
noncomputable def twinBelow (stdDev : ℝ) (cFrac : ℚ) (v0 : ℤ) (u : ℕ) : Bool :=
  open Classical in
  let tailLo := -cdtTail stdDev
  let cdf := (List.range (v0 - tailLo + 1).toNat).foldl
    (fun (cdf : ℝ) (i : ℕ) => cdf + cdtRho cFrac stdDev (tailLo + i)) 0
  let p := (u : ℝ) / 2 ^ 64
  decide (p < cdf)

/-- math/csprng/gaussian_twin_cdt.go:77-111 (`Sample`) of a sampler made by `NewTwinCDTGaussianSampler(stdDev)`, for
the center `center` (a float is a rational number) and the random word `u`. -/
noncomputable def twinSample (stdDev : ℝ) (center : ℚ) (u : ℕ) : Go ℤ :=
  (newTwinCDT stdDev).sample id (twinBelow stdDev) center u

/-! ## Loops that draw until they return -/

/-- A loop `for { ... }` whose body makes some random draws and either returns (`some`) or goes round again
(`none`), on a stream of draws; `none` if it never returns. -/
noncomputable def untilSome {Ω α : Type} (body : Ω → Option α) (draws : ℕ → Ω) : Option α :=
  open Classical in
  if h : ∃ n, body (draws n) ≠ none then body (draws (Nat.find h)) else none

/-! ## COSAC -/

/-- math/csprng/gaussian_cosac.go:25-43: one round of `sampleRound`.  The draws are the result `g` of `normFloat`, the
bit `b` and the float `r` (drawn only if it is needed; here it is ignored otherwise). -/
noncomputable def cosacBody (cFrac stdDev : ℝ) (d : ℝ × Bool × ℝ) : Option ℤ :=
  open Classical in
  let y := stdDev * d.1
  let yRound := if d.2.1 = false then roundAway y - 1 else roundAway y + 1
  let cmp := if d.2.1 = false then (yRound : ℝ) ≤ 0.5 else (yRound : ℝ) ≥ -0.5
  if cmp then
    if d.2.2 < exp (-(((yRound : ℝ) + cFrac) * ((yRound : ℝ) + cFrac) - y * y) / (2 * stdDev * stdDev)) then
      some yRound
    else none
  else none

/-- math/csprng/gaussian_cosac.go:23-45 (`sampleRound`). -/
noncomputable def cosacSampleRound (cFrac stdDev : ℝ) (draws : ℕ → ℝ × Bool × ℝ) : Option ℤ :=
  untilSome (cosacBody cFrac stdDev) draws

/-- math/csprng/gaussian_cosac.go:48-57 (`Sample`), on the float `r` of line 52 and the draws of `sampleRound`. -/
noncomputable def cosacSample (center stdDev : ℝ) (d : ℝ × (ℕ → ℝ × Bool × ℝ)) : Option ℤ :=
  open Classical in
  let cInt := roundAway center
  let cFrac := (cInt : ℝ) - center
  if d.1 < exp (-(cFrac * cFrac) / (2 * stdDev * stdDev)) / (√(2 * π) * stdDev) then some cInt
  else (cosacSampleRound cFrac stdDev d.2).map (· + cInt)

/-! ## The ziggurat -/

/-- math/csprng/gaussian_rounded.go:13 (`rn`). -/
noncomputable def zigR : ℝ := 3.442619855899

/-- math/csprng/gaussian_rounded.go:41-43 (`normal`). -/
noncomputable def zigNormal (x : ℝ) : ℝ := exp (-0.5 * x * x)

/-- `math.Erfc`. -/
noncomputable def goErfc (x : ℝ) : ℝ := 2 / √π * ∫ t in Set.Ioi x, exp (-t ^ 2)

/-- math/csprng/gaussian_rounded.go:45-47 (`normalIntegral`). -/
noncomputable def zigNormalIntegral (x : ℝ) : ℝ := √(π / 2) * goErfc (x / √2)

/-- math/csprng/gaussian_rounded.go:49-51 (`normalInv`). -/
noncomputable def zigNormalInv (x : ℝ) : ℝ := √(-2 * log x)

/-- math/csprng/gaussian_rounded.go:23 (`v`, the area of a layer). -/
noncomputable def zigV : ℝ := zigR * zigNormal zigR + zigNormalIntegral zigR

/-- math/csprng/gaussian_rounded.go:26-29: `xn[127 - k]`, filled from the top. -/
noncomputable def zigTop : ℕ → ℝ
  | 0 => zigR
  | k + 1 => zigNormalInv (zigV / zigTop k + zigNormal (zigTop k))

/-- math/csprng/gaussian_rounded.go:25-29: `xn[i]`; the entry 0 is not set. -/
noncomputable def zigX (i : ℕ) : ℝ := if i = 0 then 0 else zigTop (127 - i)

/-- math/csprng/gaussian_rounded.go:33 and 37: `kn[i] / 2^52`. -/
noncomputable def zigK (i : ℕ) : ℝ := if i = 0 then zigR * zigNormal zigR / zigV else zigX (i - 1) / zigX i

/-- math/csprng/gaussian_rounded.go:34 and 38: `wn[i] * 2^52`. -/
noncomputable def zigW (i : ℕ) : ℝ := if i = 0 then zigV / zigNormal zigR else zigX i

/-- math/csprng/gaussian_rounded.go:35: `fn[i]`; the entry 0 is not set. -/
noncomputable def zigF (i : ℕ) : ℝ := if i = 0 then 0 else zigNormal (zigX i)

/-- math/csprng/gaussian_rounded.go:94-98: one round of the loop for the tail, on two floats. -/
noncomputable def zigTailBody (d : ℝ × ℝ) : Option ℝ :=
  open Classical in
  let u := -log d.1 * (1.0 / zigR)
  let v := -log d.2
  if v + v ≥ u * u then some u else none

/-- math/csprng/gaussian_rounded.go:79-111: one round of `normFloat`.  The draws are the sign bit `b`, the layer `i`, the
mantissa `t = j / 2^52`, the float of line 109 and those of the loop for the tail. -/
noncomputable def zigBody (d : Bool × Fin 128 × ℝ × ℝ × (ℕ → ℝ × ℝ)) : Option ℝ :=
  open Classical in
  let b := d.1
  let i := d.2.1.val
  let t := d.2.2.1
  let x := (if b then -t else t) * zigW i
  if t < zigK i then some x
  else if i = 0 then
    (untilSome zigTailBody d.2.2.2.2).map fun u =>
      let u := u + zigR
      if b then -u else u
  else
    let f0 := zigF (i - 1)
    let f1 := zigF i
    if d.2.2.2.1 * (f0 - f1) < exp (-0.5 * x * x) - f1 then some x else none

/-- math/csprng/gaussian_rounded.go:77-113 (`normFloat`). -/
noncomputable def normFloat (draws : ℕ → Bool × Fin 128 × ℝ × ℝ × (ℕ → ℝ × ℝ)) : Option ℝ :=
  untilSome zigBody draws

/-- math/csprng/gaussian_rounded.go:119-125 (`RoundedGaussianSampler.Sample`); `none` if `normFloat` never
returns. -/
noncomputable def roundedSample (center stdDev : ℝ) (draws : ℕ → Bool × Fin 128 × ℝ × ℝ × (ℕ → ℝ × ℝ)) : Go (Option ℤ) :=
  open Classical in
  if stdDev ≤ 0 then goPanic
  else pure ((normFloat draws).map fun x => roundAway (center + x * stdDev))

end Ringo
