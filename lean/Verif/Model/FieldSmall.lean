import Verif.Model.FieldMem
import Verif.Model.FieldPkgs

/-!
# The small functions of the portable field code

`MulBy3`, `MulBy5`, `MulBy13` and `Butterfly` as they are without assembly (files `element_purego.go`; on arm64
`element_arm64.go` has the same first three).  Local variables of type `Uint` are fresh pointers: the
parameter `t`.
-/

namespace Ringo.FieldPkg

variable (P : FieldPkg)

/-- `*t = *x`. -/
def copyAt (m : Mem) (t x : Nat) : Mem := Function.update m t (m x)

/-- jindo: element_purego.go:13-16 (`MulBy3`). -/
def mulBy3At (m : Mem) (x t : Nat) : Mem :=
  let m := copyAt m t x
  let m := P.doubleAt m x x
  P.addAt m x x t

/-- jindo: element_purego.go:19-22 (`MulBy5`). -/
def mulBy5At (m : Mem) (x t : Nat) : Mem :=
  let m := copyAt m t x
  let m := P.doubleAt m x x
  let m := P.doubleAt m x x
  P.addAt m x x t

/-- jindo: element_purego.go:25-33 (`MulBy13`); `c` are the words of the constant. -/
def mulBy13At (c : List Nat) (m : Mem) (x t : Nat) : Mem :=
  let m := Function.update m t c
  P.mulAt m x x t

/-- jindo: element.go:700-704 (`_butterflyGeneric`). -/
def butterflyAt (m : Mem) (a b t : Nat) : Mem :=
  let m := copyAt m t a
  let m := P.addAt m a a b
  P.subAt m b t b

end Ringo.FieldPkg

namespace Ringo

/-- examples/bfv/zp/element_purego.go:25-33 (the constant of `MulBy13`). -/
def bfvThirteen : List Nat :=
  [4983795937637216810, 4957760211019898909, 18055971042978149671, 43934779568091]

/-- examples/mult/zp/element_purego.go:23-29 (the constant of `MulBy13`). -/
def multThirteen : List Nat :=
  [17317474163727794151, 4290449427458087447]

/-- jindo/internal/zp/element_purego.go:25-33 (the constant of `MulBy13`). -/
def jindoThirteen : List Nat :=
  [18446744073709551567, 13060621202776610126, 17977528907282356895, 3059542435078888372]

/-- buckler/internal/zp110/element_purego.go:25-31 (the constant of `MulBy13`). -/
def zp110Thirteen : List Nat :=
  [14781150427581278322, 7304965095100]

/-- buckler/internal/zp220/element_purego.go:23-31 (the constant of `MulBy13`). -/
def zp220Thirteen : List Nat :=
  [18446742335821638811, 2459013837171130367, 5078283793652234778, 72600742]

/-- buckler/internal/zp440/element_purego.go:25-36 (the constant of `MulBy13`). -/
def zp440Thirteen : List Nat :=
  [18446744073709545417, 10740819892753137663, 3740184575741202493, 620165582820036886, 6311242946064028990, 956792027910969390, 17339628691949226]

/-- buckler/internal/zp880/element_purego.go:23-41 (the constant of `MulBy13`). -/
def zp880Thirteen : List Nat :=
  [18446744073708295937, 4652853592521451264, 6694622922733413631, 14345230597563060370, 11894889159301734802, 7299125009017645789, 5661663768570360265, 18425833702225968244, 12065061585637280631, 4305348021485891796, 16636792861751620873, 7679744955183477842, 16241847344277138206, 71820119355160]

end Ringo
