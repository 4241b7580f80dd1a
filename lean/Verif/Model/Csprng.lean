import Verif.Go
import Mathlib.Data.Rat.Floor

/-!
# Model of `math/bignum/bignum.go` and `math/csprng`

The AES-CTR stream is an arbitrary function `ks : Nat → BitVec 8` (byte `i` of the keystream);
`XORKeyStream(dst, src)` xors the next `len(src)` keystream bytes into `src`.  Words (`uint64`)
are natural numbers below `2^64`.
-/

namespace Ringo

/-! ## bignum.Exp -/

/-- The loop of bignum.go:38-44; `r`, `t` and `e` are the loop variables. -/
def expLoop {F : Type} [Mul F] (r t : F) (e : Nat) : F :=
  if e = 0 then r
  else expLoop (if e % 2 = 1 then r * t else r) (t * t) (e / 2)
  termination_by e
  decreasing_by omega

/-- bignum.go:34-46 (`Exp`). -/
def expU64 {F : Type} [One F] [Mul F] (x : F) (e : Nat) : F := expLoop 1 x e

/-! ## UniformSampler -/

/-- uniform.go:12. -/
def bufSize : Nat := 8192

/-- uniform.go:16-21.  `off` is the number of keystream bytes consumed so far. -/
structure Sampler where
  ks : Nat → BitVec 8
  off : Nat
  buf : List (BitVec 8)
  ptr : Nat

/-- uniform.go:38-54 (`NewUniformSamplerWithSeed`), for the keystream the seed determines. -/
def newSampler (ks : Nat → BitVec 8) : Sampler :=
  ⟨ks, 0, List.replicate bufSize 0, bufSize⟩

/-- `s.prng.XORKeyStream(p, p)`. -/
def xorKeyStream (ks : Nat → BitVec 8) (off : Nat) (p : List (BitVec 8)) : List (BitVec 8) :=
  p.mapIdx (fun i b => b ^^^ ks (off + i))

/-- uniform.go:58-61 (`Read`): new contents of `p`, and the reported count. -/
def Sampler.read (s : Sampler) (p : List (BitVec 8)) : Sampler × List (BitVec 8) × Nat :=
  (⟨s.ks, s.off + p.length, s.buf, s.ptr⟩, xorKeyStream s.ks s.off p, p.length)

/-- uniform.go:64-82 (`Sample`). -/
def Sampler.sample (s : Sampler) : Go (Nat × Sampler) := do
  let s := if s.ptr = bufSize then
      (⟨s.ks, s.off + bufSize, xorKeyStream s.ks s.off s.buf, 0⟩ : Sampler)
    else s
  let r := 0
  let b ← idx s.buf (s.ptr + 0)
  let r := r ||| b.toNat
  let b ← idx s.buf (s.ptr + 1)
  let r := r ||| b.toNat <<< 8
  let b ← idx s.buf (s.ptr + 2)
  let r := r ||| b.toNat <<< 16
  let b ← idx s.buf (s.ptr + 3)
  let r := r ||| b.toNat <<< 24
  let b ← idx s.buf (s.ptr + 4)
  let r := r ||| b.toNat <<< 32
  let b ← idx s.buf (s.ptr + 5)
  let r := r ||| b.toNat <<< 40
  let b ← idx s.buf (s.ptr + 6)
  let r := r ||| b.toNat <<< 48
  let b ← idx s.buf (s.ptr + 7)
  let r := r ||| b.toNat <<< 56
  pure (r, ⟨s.ks, s.off, s.buf, s.ptr + 8⟩)

/-- `k` successive calls of `Sample`. -/
def Sampler.samples : Nat → Sampler → Go (List Nat × Sampler)
  | 0, s => pure ([], s)
  | k + 1, s => do
    let (r, s) ← s.sample
    let (rs, s) ← Sampler.samples k s
    pure (r :: rs, s)

/-- uniform.go:86: the rejection bound; `% 0` panics. -/
def sampleNBound (n : Nat) : Go Nat :=
  if n = 0 then goPanic else pure ((2 ^ 64 - 1) - (2 ^ 64 - 1) % n)

/-- uniform.go:85-93 (`SampleN`) as a big-step relation: `SampleN s n r s'` if the call returns
`r` (the loop has no bound, so it need not return). -/
inductive SampleN : Sampler → Nat → Nat → Sampler → Prop
  | accept {s n b r s'} (hb : sampleNBound n = .ok b) (hs : s.sample = .ok (r, s')) (h : r < b) :
      SampleN s n (r % n) s'
  | reject {s n b r s' x s''} (hb : sampleNBound n = .ok b) (hs : s.sample = .ok (r, s'))
      (h : ¬ r < b) (hrec : SampleN s' n x s'') : SampleN s n x s''

/-! ## SampleFloat -/

/-- gaussian_rounded.go:9. -/
def floatPrec : Nat := 52

/-- `math.Float64frombits` on the bits of a positive normal number (biased exponent between 1 and
2046), which is the only way it is used here. -/
def f64frombits (bits : Nat) : ℚ :=
  (1 + (bits % 2 ^ 52 : Nat) / 2 ^ 52) * 2 ^ ((bits / 2 ^ 52 : Nat) - 1023 : Int)

/-- uniform.go:96-100 (`SampleFloat`) on the drawn word `w`; `rnd` is the rounding of the
floating-point division and subtraction. -/
def sampleFloatOf (rnd : ℚ → ℚ) (w : Nat) : ℚ :=
  let r := w % (1 <<< floatPrec)
  let rf := f64frombits (r ||| ((1023 + floatPrec) <<< floatPrec))
  rnd (rnd (rf / 2 ^ floatPrec) - 1)

/-! ## TwinCDT -/

/-- gaussian_rounded.go:8. -/
def blockSize : Nat := 128

/-- The loop of Go's `slices.BinarySearch`. -/
def bsearchLoop (t : List Nat) (u : Nat) (i j : Nat) : Go Nat :=
  if i < j then do
    let h := (i + j) / 2
    let x ← idx t h
    if x < u then bsearchLoop t u (h + 1) j else bsearchLoop t u i h
  else pure i
  termination_by j - i
  decreasing_by all_goals omega

/-- `slices.BinarySearch(t, u)`. -/
def binarySearch (t : List Nat) (u : Nat) : Go (Nat × Bool) := do
  let i ← bsearchLoop t u 0 t.length
  pure (i, decide (t[i]? = some u))

/-- gaussian_twin_cdt.go:36-45.  Only the shape of the tables and the tails are used below; the
table entries are arbitrary. -/
structure TwinCDT where
  tables : List (List Nat)
  tailLo : Int
  tailHi : Int

/-- Conversion of a float to `int64`: implementation-specific outside the range. -/
def toInt64 (x : Int) : Go Int := if -2 ^ 63 ≤ x ∧ x < 2 ^ 63 then pure x else .error .ub

/-- gaussian_twin_cdt.go:77-111 (`Sample`) on the drawn word `u`.  `center` is the exact value of
the float, `rnd` rounds the subtraction and the multiplication, and `below cFrac v0 u` stands
for the outcome of the comparison `p < cdf` of lines 98-107, which is left arbitrary.  Wrap-around
of the final `int64` additions is out of scope: sums are integers. -/
def TwinCDT.sample (s : TwinCDT) (rnd : ℚ → ℚ) (below : ℚ → Int → Nat → Bool) (center : ℚ) (u : Nat) :
    Go Int := do
  let cFloor := ⌊center⌋
  let cFrac := rnd (center - cFloor)
  let c0 ← toInt64 ⌊rnd (blockSize * cFrac)⌋
  let c0 := c0.tmod blockSize
  let c1 ← toInt64 ⌈rnd (blockSize * cFrac)⌉
  let c1 := c1.tmod blockSize
  if c0 < 0 ∨ c1 < 0 then goPanic
  else
    let t0 ← idx s.tables c0.toNat
    let (v0, ok) ← binarySearch t0 u
    let v0 : Int := if ok then v0 - 1 else v0
    let t1 ← idx s.tables c1.toNat
    let (v1, ok) ← binarySearch t1 u
    let v1 : Int := if ok then v1 - 1 else v1
    let cF ← toInt64 cFloor
    if v0 = v1 then pure (v0 + cF + s.tailLo)
    else if below cFrac v0 u then pure (v0 + s.tailLo + cF)
    else pure (v1 + s.tailLo + cF)

/-- gaussian_twin_cdt.go:114-116 (`SampleCoset`). -/
def TwinCDT.sampleCoset (s : TwinCDT) (rnd : ℚ → ℚ) (below : ℚ → Int → Nat → Bool) (center : ℚ) (u : Nat) : Go ℚ := do
  let y ← s.sample rnd below (-center) u
  pure (rnd (center + rnd y))

/-! ## normFloat -/

/-- gaussian_rounded.go:83-85: the sign, the layer and the mantissa taken from a word. -/
def zigBits (r : UInt64) : UInt64 × UInt64 × UInt64 :=
  (r >>> 63, r % ((1 : UInt64) <<< 7), (r >>> 7) % (1 <<< (UInt64.ofNat floatPrec)))

/-- gaussian_rounded.go:87: `int64((j^-b)+b)`. -/
def zigSigned (b j : UInt64) : Int64 := ((j ^^^ (-b)) + b).toInt64

end Ringo
