import Verif.Model.Field

/-!
# Field operations on memory

`z.Add(x, y)` writes word `i` of `*z` as soon as it has read word `i` of `*x` and `*y`, and the three pointers
may be equal.  Here the memory maps a pointer to the words it points to, and the operations of
`Verif.Model.Field` are executed one word after the other.  Lines as in `Verif.Model.Field`.
-/

namespace Ringo

/-- The words each pointer points to. -/
abbrev Mem := Nat → List Nat

/-- `z[i] = w`. -/
def Mem.write (m : Mem) (z i w : Nat) : Mem := Function.update m z ((m z).set i w)

/-- An operand: a pointer or a constant (the words `q0`, `q1`, ... of the modulus). -/
inductive Operand
  | ptr (x : Nat)
  | const (l : List Nat)

/-- Word `i` of an operand. -/
def Operand.word (m : Mem) (i : Nat) : Operand → Nat
  | .ptr x => (m x).getD i 0
  | .const l => l.getD i 0

/-- `z[i], c = op(x[i], y[i], c)` for `k` successive `i`. -/
def memLoop (op : Nat → Nat → Nat → Nat × Nat) (z : Nat) (x y : Operand) : Nat → Nat → Mem → Nat → Mem × Nat
  | 0, _, m, c => (m, c)
  | k + 1, i, m, c =>
    let (w, c) := op (x.word m i) (y.word m i) c
    memLoop op z x y k (i + 1) (m.write z i w) c

/-- `z[i] = t[i]` for `k` successive `i`. -/
def memStore (z : Nat) (t : List Nat) : Nat → Nat → Mem → Mem
  | 0, _, m => m
  | k + 1, i, m => memStore z t k (i + 1) (m.write z i (t.getD i 0))

namespace FieldPkg

variable (P : FieldPkg)

/-- `if !z.smallerThanModulus() { z -= q }` (jindo:406-412). -/
def reduceAt (m : Mem) (z : Nat) : Mem :=
  if !P.smaller (m z) then (memLoop sub64 z (.ptr z) (.const P.q) P.n 0 m 0).1 else m

/-- jindo:397-414 and mult:372-394 (`Add`). -/
def addAt (m : Mem) (z x y : Nat) : Mem :=
  let (m, carry) := memLoop add64 z (.ptr x) (.ptr y) P.n 0 m 0
  if P.full && carry != 0 then (memLoop sub64 z (.ptr z) (.const P.q) P.n 0 m 0).1 else P.reduceAt m z

/-- jindo:417-434 and mult:397-419 (`Double`). -/
def doubleAt (m : Mem) (z x : Nat) : Mem :=
  let (m, carry) := memLoop add64 z (.ptr x) (.ptr x) P.n 0 m 0
  if P.full && carry != 0 then (memLoop sub64 z (.ptr z) (.const P.q) P.n 0 m 0).1 else P.reduceAt m z

/-- jindo:437-451 (`Sub`). -/
def subAt (m : Mem) (z x y : Nat) : Mem :=
  let (m, b) := memLoop sub64 z (.ptr x) (.ptr y) P.n 0 m 0
  if b != 0 then (memLoop add64 z (.ptr z) (.const P.q) P.n 0 m 0).1 else m

/-- jindo:454-465 (`Neg`). -/
def negAt (m : Mem) (z x : Nat) : Mem :=
  if isZero (m x) then memStore z (List.replicate P.n 0) P.n 0 m
  else (memLoop sub64 z (.const P.q) (.ptr x) P.n 0 m 0).1

/-- jindo: element_purego.go:46-213 and mult: element_purego.go:40-104 (`Mul`): the rounds use local
variables only, the result is then stored and reduced in place (respectively subtracted from, word by
word). -/
def mulAt (m : Mem) (z x y : Nat) : Mem :=
  if P.cios then
    let (t, top) := (m y).tail.foldl (P.ciosNext (m x)) (P.ciosFirst (m x) ((m y).headD 0))
    if top != 0 then (memLoop sub64 z (.const t) (.const P.q) P.n 0 m 0).1
    else P.reduceAt (memStore z t P.n 0 m) z
  else
    let t := (m x).tail.foldl (fun t v => P.ncReduce (ncNext v (m y) t))
      (P.ncReduce (ncFirst ((m x).headD 0) (m y)))
    P.reduceAt (memStore z t P.n 0 m) z

end FieldPkg

end Ringo
