import Verif.Model.Field

/-! # The constants of the seven field packages -/

namespace Ringo

/-- examples/bfv/zp/element.go:47-50 (modulus), 72 (`qInvNeg`), 784-789 (`rSquare`), 194
(`SetOne`). -/
def bfvPkg : FieldPkg where
  q :=
    [9475855090964234241, 7204526200934843573, 12582611527068705104, 144608254965214]
  qInvNeg := 9475855090964234239
  rSquare :=
    [13561933690638694040, 221061142821177300, 15249735559512729963, 139249034768994]
  one :=
    [9742693368885808565, 4260726432120292609, 12421114150275980019, 81245581871122]
  cios := false
  full := false

/-- examples/bfv/zp/element.go:1386 (`inversionCorrectionFactorWord`) and 1390 (`invIterationsN`). -/
def bfvInv : List Nat × Nat :=
  ([7140521946332423399, 12000885919126429708, 11078770210265367807, 42300068453621],
    16)

/-- examples/mult/zp/element.go:47-48 (modulus), 68 (`qInvNeg`), 671-674 (`rSquare`), 183
(`SetOne`). -/
def multPkg : FieldPkg where
  q :=
    [7423868425883090945, 9420688941230643342]
  qInvNeg := 7423868425883090943
  rSquare :=
    [17275108839596276795, 116055177256091778]
  one :=
    [11022875647826460671, 9026055132478908273]
  cios := true
  full := true

/-- jindo/internal/zp/element.go:47-50 (modulus), 72 (`qInvNeg`), 784-789 (`rSquare`), 194
(`SetOne`). -/
def jindoPkg : FieldPkg where
  q :=
    [1, 10274453323695731329, 15444606575275894101, 4831594500472352706]
  qInvNeg := 18446744073709551615
  rSquare :=
    [17372242133975344483, 4489541032798193869, 4474567424200409120, 3794296994966180369]
  one :=
    [18446744073709551613, 6070128176331909244, 9006412495300972543, 3951960572292493495]
  cios := false
  full := false

/-- jindo/internal/zp/element.go:1386 (`inversionCorrectionFactorWord`) and 1390 (`invIterationsN`). -/
def jindoInv : List Nat × Nat :=
  ([28489410665777755, 7861887898506807345, 2011563773282140947, 1574395532442623788],
    18)

/-- buckler/internal/zp110/element.go:47-48 (modulus), 68 (`qInvNeg`), 647-650 (`rSquare`), 183
(`SetOne`). -/
def zp110Pkg : FieldPkg where
  q :=
    [1368919464371814401, 35322942070350]
  qInvNeg := 1368919464371814399
  rSquare :=
    [13879880837785790825, 13698196895891]
  one :=
    [11385778256666429449, 8713368562011]
  cios := false
  full := false

/-- buckler/internal/zp110/element.go:1229 (`inversionCorrectionFactorWord`) and 1231 (`invIterationsN`). -/
def zp110Inv : List Nat × Nat :=
  ([5899112762588679200, 5293977088306],
    8)

/-- buckler/internal/zp220/element.go:47-50 (modulus), 72 (`qInvNeg`), 784-789 (`rSquare`), 194
(`SetOne`). -/
def zp220Pkg : FieldPkg where
  q :=
    [1, 784755189356756992, 9125029182813171672, 137987997]
  qInvNeg := 18446744073709551615
  rSquare :=
    [10495774741363576863, 6000655003190775842, 15475808095641166311, 110005274]
  one :=
    [18446743940025866016, 1909964142897266687, 3900263823670622549, 58656979]
  cios := false
  full := false

/-- buckler/internal/zp220/element.go:1386 (`inversionCorrectionFactorWord`) and 1390 (`invIterationsN`). -/
def zp220Inv : List Nat × Nat :=
  ([16461290901190847047, 15046736650053576422, 11618405410754994396, 16538029],
    16)

/-- buckler/internal/zp440/element.go:47-53 (modulus), 78 (`qInvNeg`), 1027-1035 (`rSquare`), 203
(`SetOne`). -/
def zp440Pkg : FieldPkg where
  q :=
    [1, 12148300569940852736, 12640430495328671408, 17137309074836342590, 16981651425345111637,
     14405505931408296241, 38682099262708859]
  qInvNeg := 18446744073709551615
  rSquare :=
    [7957502951512554555, 12345321831659416800, 9520095695786331806, 5925117002441554476,
     18381966231916359909, 12912295097051746070, 25994926958157201]
  one :=
    [18446744073709551140, 9686567852953305087, 15240396326575787910, 14548505031232292721,
     14854569894220019769, 5167972069604189997, 34064824660134360]
  cios := false
  full := false

/-- buckler/internal/zp440/element.go:1659 (`inversionCorrectionFactorWord`) and 1666 (`invIterationsN`). -/
def zp440Inv : List Nat × Nat :=
  ([7742376401336194432, 185937284114290823, 15709758537797783776, 387273538271828812,
     12010647515721412782, 7247590188967459210, 28354177380316052],
    30)

/-- buckler/internal/zp880/element.go:47-60 (modulus), 92 (`qInvNeg`), 1859-1874 (`rSquare`), 231
(`SetOne`). -/
def zp880Pkg : FieldPkg where
  q :=
    [1, 6861456609886294017, 1342749705300700022, 12618833203794735516, 17236694920420798957,
     11454692733761031708, 10608556515068030872, 17463395871540426566, 5941933374035713278,
     18240219449553035211, 8714305636076385566, 7999245249831249782, 16656895469036106015,
     190978427717676]
  qInvNeg := 18446744073709551615
  rSquare :=
    [6724149107626197668, 16792220372990440305, 8305190820361958019, 14390204721070815326,
     16362704777224455256, 4813243323343290509, 4536418450944166679, 367847298019929041,
     3220573572545070938, 923041087129188252, 2720504189881648672, 14272567328117196748,
     12388742575033848094, 115550423513755]
  one :=
    [18446744073709455026, 6527131319631357617, 2863547257242251188, 15515515825119529729,
     77265136900227759, 8491643047143610090, 17712760070780730725, 17764356059016804783,
     2203767215733815146, 7283103597894230941, 10150694748758322631, 13223590197862498766,
     17038010675902365168, 137740459139557]
  cios := true
  full := true

/-- buckler/internal/zp880/element.go:2561 (`inversionCorrectionFactorWord`) and 2575 (`invIterationsN`). -/
def zp880Inv : List Nat × Nat :=
  ([8794233975527786889, 14567973690469742681, 13698722128351944489, 14937021491628014730,
     6632283169875480155, 7808846328221020607, 10862689665090930521, 12552801985186085757,
     803166188795335466, 8046615376414246645, 5298821768459052519, 3494867757056029634,
     9940470852236681379, 112507255830863],
    58)

end Ringo
