import Verif.Model.FieldMem

/-!
# Field packages: `Sqrt`, `Select`, `LexicographicallyLargest`, `SetBytesCanonical`, `IsUint64`

Lines as in `Verif.Model.Field`: "jindo" is jindo/internal/zp/element.go; the other packages are the same up to
constants and the number of words.  The loops of `Sqrt` run at most `fuel` times here; the result is `none` if
that is not enough.
-/

namespace Ringo

/-- The constants of `Sqrt`: the exponent, the words of `g` and the first `r`. -/
structure SqrtConsts where
  exponent : Nat
  g : List Nat
  r : Nat

namespace FieldPkg

variable (P : FieldPkg)

/-- `t.Square(&t)`, `k` times. -/
def squares (k : Nat) (t : List Nat) : List Nat := Nat.iterate (fun t => P.mul t t) k t

/-- jindo:1357-1360: `for !t.IsOne() { t.Square(&t); m++ }`; the result is `m`. -/
def sqrtOrder : Nat → List Nat → Nat → Option Nat
  | 0, t, m => if equal t P.one then some m else none
  | fuel + 1, t, m => if equal t P.one then some m else sqrtOrder fuel (P.mul t t) (m + 1)

/-- jindo:1366: `int(r - m - 1)`; `r` and `m` are of type `uint64`. -/
def sqrtGe (r m : Nat) : Int := (BitVec.ofNat 64 r - BitVec.ofNat 64 m - 1).toInt

/-- jindo:1352-1377: the loop. -/
def sqrtLoop : Nat → List Nat → List Nat → List Nat → Nat → Option (List Nat)
  | 0, _, _, _, _ => none
  | fuel + 1, y, b, g, r =>
    match P.sqrtOrder (fuel + 1) b 0 with
    | none => none
    | some m =>
      if m = 0 then some y
      else
        let t := P.squares (sqrtGe r m).toNat g
        let g := P.mul t t
        let y := P.mul y t
        let b := P.mul b g
        sqrtLoop fuel y b g m

/-- jindo:1313-1378 (`Sqrt`): the words written to `*z`, or `none` if `nil` is returned.  The exponent is
positive, so that `Exp` does not invert. -/
def sqrt (S : SqrtConsts) (fuel : Nat) (x : List Nat) : Option (Option (List Nat)) :=
  let w := P.expBits x S.exponent
  let y := P.mul x w
  let b := P.mul w y
  let t := P.squares (S.r - 1) b
  if isZero t then some (some (List.replicate P.n 0))
  else if !equal t P.one then some none
  else (P.sqrtLoop fuel y b S.g S.r).map some

/-- `z.Sqrt(x)` on memory: the memory afterwards, and whether the result is not `nil`.  All other variables
are local; `*x` is read in the first two lines only, `*z` written in the last. -/
def sqrtAt (S : SqrtConsts) (fuel : Nat) (m : Mem) (z x : Nat) : Option (Mem × Bool) :=
  (P.sqrt S fuel (m x)).map fun
    | some w => (Function.update m z w, true)
    | none => (m, false)

/-- jindo:470: `uint64((int64(c) | -int64(c)) >> 63)`. -/
def selectMask (c : BitVec 64) : Nat := ((c ||| -c).sshiftRight 63).toNat

/-- jindo:469-476 (`Select`). -/
def selectAt (c : BitVec 64) (m : Mem) (z x0 x1 : Nat) : Mem :=
  (memLoop (fun a b cC => (a ^^^ (cC &&& (a ^^^ b)), cC)) z (.ptr x0) (.ptr x1) P.n 0 m (selectMask c)).1

/-- jindo:283-297 (`LexicographicallyLargest`); `half` are the constants. -/
def lexLargest (half : List Nat) (z : List Nat) : Bool := (subChain (P.bits z) half 0).2 == 0

/-- jindo:246-248 (`FitsOnOneWord`). -/
def fitsOneWord (z : List Nat) : Bool := isZero z.tail

/-- jindo:232-236 (`IsUint64`). -/
def isUint64 (z : List Nat) : Bool := fitsOneWord (P.fromMont z)

/-- jindo:239-241 (`Uint64`). -/
def uint64 (z : List Nat) : Nat := (P.bits z).getD 0 0

/-- jindo:918-928 (`SetBytesCanonical`): the words written to `*z`; `none` is an error, `*z` is left alone. -/
def setBytesCanonical (e : List UInt8) : Option (List Nat) :=
  if e.length ≠ 8 * P.n then none else P.element e

/-- mult:1020-1034 (`Legendre`); `e` is the exponent, which is positive. -/
def legendreExp (e : Nat) (z : List Nat) : Int :=
  let l := P.expBits z e
  if isZero l then 0 else if equal l P.one then 1 else -1

end FieldPkg

/-- examples/bfv/zp/element.go:1140 (`sqrtExponentUint`), 1329-1334 (`g`), 1335 (`r`). -/
def bfvSqrt : SqrtConsts where
  exponent := 0x41c29dd59aef574f354258d530a831fdcf344adba25ac1c0
  g := [14655322046178210321, 8600732898892329216, 13052992573875837226, 144451123493959]
  r := 48

/-- examples/bfv/zp/element.go:283-297: the constants of `LexicographicallyLargest`. -/
def bfvHalf : List Nat := [13961299582336892929, 3602263100467421786, 6291305763534352552, 72304127482607]

/-- examples/mult/zp/element.go:1015 (`sqrtExponentUint`), 1055-1058 (`g`), 1059 (`r`). -/
def multSqrt : SqrtConsts where
  exponent := 0x415e8156ecc06c47338370
  g := [18281965471625347526, 5653414595089671504]
  r := 40

/-- examples/mult/zp/element.go:260-272: the constants of `LexicographicallyLargest`. -/
def multHalf : List Nat := [3711934212941545473, 4710344470615321671]

/-- examples/mult/zp/element.go:1014 (`_bLegendreExponentUint`). -/
def multLegendre : Nat := 0x415e8156ecc06c473383708000000000

/-- jindo/internal/zp/element.go:1140 (`sqrtExponentUint`), 1329-1334 (`g`), 1335 (`r`). -/
def jindoSqrt : SqrtConsts where
  exponent := 0x2186a2ccb5b157e16b2b21ecf37db2aac74b186e461b9940
  g := [7861078236324571259, 12808264235539173410, 12852661228818466446, 3524878270677412057]
  r := 64

/-- jindo/internal/zp/element.go:283-297: the constants of `LexicographicallyLargest`. -/
def jindoHalf : List Nat := [9223372036854775809, 14360598698702641472, 7722303287637947050, 2415797250236176353]

/-- buckler/internal/zp110/element.go:991 (`sqrtExponentUint`), 1174-1177 (`g`), 1178 (`r`). -/
def zp110Sqrt : SqrtConsts where
  exponent := 0x101021b50f27097fb0
  g := [2825088085054109920, 17690853887682]
  r := 40

/-- buckler/internal/zp110/element.go:260-272: the constants of `LexicographicallyLargest`. -/
def zp110Half : List Nat := [684459732185907201, 17661471035175]

/-- buckler/internal/zp220/element.go:1140 (`sqrtExponentUint`), 1329-1334 (`g`), 1335 (`r`). -/
def zp220Sqrt : SqrtConsts where
  exponent := 0x41cc3cebf514ed8ff5377ec05720157eca0
  g := [5488377356620297857, 2275778013636968824, 8025153367554872598, 90366161]
  r := 80

/-- buckler/internal/zp220/element.go:283-297: the constants of `LexicographicallyLargest`. -/
def zp220Half : List Nat := [1, 392377594678378496, 13785886628261361644, 68993998]

/-- buckler/internal/zp440/element.go:1401 (`sqrtExponentUint`), 1599-1607 (`g`), 1608 (`r`). -/
def zp440Sqrt : SqrtConsts where
  exponent := 0x44b69508dc2e3de3f551a915afe498f5d578ffd599c32af6e9f9e731d9639f57b5ea48250a4b58544bb780
  g := [6611191093250172947, 9090425438193506206, 9438392459541465249, 1914026542183126851, 14561873125545743834, 7556416918195785660, 8947883439312298]
  r := 96

/-- buckler/internal/zp440/element.go:310-327: the constants of `LexicographicallyLargest`. -/
def zp440Half : List Nat := [1, 6074150284970426368, 6320215247664335704, 17792026574272947103, 17714197749527331626, 16426125002558923928, 19341049631354429]

/-- buckler/internal/zp880/element.go:2275 (`sqrtExponentUint`), 2494-2509 (`g`), 2510 (`r`). -/
def zp880Sqrt : SqrtConsts where
  exponent := 0x56d8d0ac041673949716aa5af88fb781839621b613bb3c77b7671f423a8f7e91237969e3cfe5a93afe760337ee7f792d390293985ba3499c94f8d22497cc4f7b9f2d0789870e779a855a64bb18f6d78f8cf8800b78ce095133df135ab5bb2f9c65377103a800
  g := [13449026422178144347, 3875698488331556145, 12673511461088489453, 6488906024615481496, 624029857464721127, 3555258446516631247, 7143499069729489897, 743357534702080030, 14037747186847691252, 4083711436984009715, 10038131488335394757, 14186718200979512254, 18145186873426185417, 61332142241962]
  r := 64

/-- buckler/internal/zp880/element.go:380-404: the constants of `LexicographicallyLargest`. -/
def zp880Half : List Nat := [9223372036854775809, 3430728304943147008, 671374852650350011, 15532788638752143566, 8618347460210399478, 5727346366880515854, 5304278257534015436, 8731697935770213283, 12194338723872632447, 9120109724776517605, 4357152818038192783, 13222994661770400699, 8328447734518053007, 95489213858838]

end Ringo
