import Verif.Model.FieldMem

/-!
# The amd64 machine the assembly of the field packages runs on

On amd64 (without the build tag `purego`) the packages `jindo/internal/zp`, `examples/bfv/zp`,
`buckler/internal/zp110` and `buckler/internal/zp440` take `Mul`, `Square`, `fromMont`, `reduce`, `MulBy3`,
`MulBy5`, `MulBy13` and `Butterfly` from assembly files.  This file is the machine; the programs are in
`Verif.Model.AsmAmd64`.

The state has the general registers, the words of the stack frame, the flags `CF`, `OF`, `ZF`, the memory of
`Verif.Model.FieldMem` (a pointer is the name of an element, `16(AX)` is word 2 of the element `AX` points to;
elements do not overlap unless their pointers are equal), the arguments of the call, and the variable
`supportAdx` (element_amd64.go:15).  `·qElement+8i(SB)` and `$const_qi` are the words of the modulus
(element.go:58-77), `$const_qInvNeg` the constant of element.go:81; the numbers are those of `FieldPkg`.

Not modelled: flags other than `CF`, `OF`, `ZF`; the value `ZF` takes after `IMULQ` (undefined on the machine;
here unchanged); what a call into Go does to the registers (after the two `CALL`s there is only `RET`).
-/

namespace Ringo.Amd64

/-- Where an instruction can write a word: a general register, a word of the stack frame (`s0-8(SP)` is
`slot 0`), or a word at the bottom of the frame, where the arguments of an outgoing call are put (`8(SP)` is
`out 1`). -/
inductive Loc
  | AX | BX | CX | DX | SI | DI | BP | R8 | R9 | R10 | R11 | R12 | R13 | R14 | R15
  | slot (i : Nat)
  | out (i : Nat)
deriving DecidableEq

/-- A source operand. -/
inductive Opd
  /-- A register or a word of the frame. -/
  | l (r : Loc)
  /-- A literal, `$0`. -/
  | imm (v : Nat)
  /-- `$const_qInvNeg`. -/
  | qInv
  /-- `$const_qi`. -/
  | cq (i : Nat)
  /-- `·qElement+8i(SB)`. -/
  | q (i : Nat)
  /-- `8i(R)`: word `i` of the element the register points to. -/
  | mem (i : Nat) (base : Loc)
  /-- `name+8i(FP)`: argument `i` of the call. -/
  | arg (i : Nat)

/-- The instructions that occur; source first, destination last, as the Go assembler writes them. -/
inductive Instr
  | mov (src : Opd) (dst : Loc)
  /-- `MOVQ R, 8i(S)`. -/
  | store (src : Loc) (i : Nat) (base : Loc)
  | add (src : Opd) (dst : Loc)
  | adc (src : Opd) (dst : Loc)
  | sub (src : Opd) (dst : Loc)
  | sbb (src : Opd) (dst : Loc)
  | adcx (src : Opd) (dst : Loc)
  | adox (src : Opd) (dst : Loc)
  | mulx (src : Opd) (lo hi : Loc)
  | imul (src : Opd) (dst : Loc)
  | xor (src : Opd) (dst : Loc)
  | cmovcs (src : Opd) (dst : Loc)
  | cmovcc (src : Opd) (dst : Loc)
  /-- `CMPB ·supportAdx(SB), $1`. -/
  | cmpAdx
  | jne (label : Nat)
  | jcc (label : Nat)
  | label (l : Nat)
  /-- `CALL ·_mulGeneric(SB)`. -/
  | callMul
  /-- `CALL ·_fromMontGeneric(SB)`. -/
  | callFromMont
  | ret

/-- The state of the machine.  The flags are 0 or 1. -/
structure St where
  loc : Loc → Nat
  cf : Nat
  of : Nat
  zf : Bool
  mem : Mem
  arg : Nat → Nat
  adx : Bool

/-- The value of an operand. -/
def St.rd (P : FieldPkg) (s : St) : Opd → Nat
  | .l r => s.loc r
  | .imm v => v % 2 ^ 64
  | .qInv => P.qInvNeg
  | .cq i => P.q.getD i 0
  | .q i => P.q.getD i 0
  | .mem i b => (s.mem (s.loc b)).getD i 0
  | .arg i => s.arg i

/-- A word is written to a register or to the frame. -/
def St.set (s : St) (d : Loc) (v : Nat) : St := { s with loc := Function.update s.loc d v }

/-- The sign of a word in two's complement. -/
def sign (a : Nat) : Nat := a / 2 ^ 63

/-- The signed overflow of an addition with result `r`. -/
def ovfAdd (a b r : Nat) : Nat := if sign a = sign b ∧ sign r ≠ sign a then 1 else 0

/-- The signed overflow of a subtraction `a - b` with result `r`. -/
def ovfSub (a b r : Nat) : Nat := if sign a ≠ sign b ∧ sign r ≠ sign a then 1 else 0

/-- A word as a signed number. -/
def signed (a : Nat) : Int := if a < 2 ^ 63 then a else (a : Int) - 2 ^ 64

/-- `CF` and `OF` after `IMULQ`: whether the signed product does not fit. -/
def ovfMul (a b : Nat) : Nat :=
  if -2 ^ 63 ≤ signed a * signed b ∧ signed a * signed b < 2 ^ 63 then 0 else 1

/-- `ADDQ` and `ADCQ` with incoming carry `c`. -/
def St.addc (P : FieldPkg) (s : St) (src : Opd) (d : Loc) (c : Nat) : St :=
  let r := add64 (s.loc d) (s.rd P src) c
  { s.set d r.1 with cf := r.2, of := ovfAdd (s.loc d) (s.rd P src) r.1, zf := r.1 == 0 }

/-- `SUBQ` and `SBBQ` with incoming borrow `c`. -/
def St.subc (P : FieldPkg) (s : St) (src : Opd) (d : Loc) (c : Nat) : St :=
  let r := sub64 (s.loc d) (s.rd P src) c
  { s.set d r.1 with cf := r.2, of := ovfSub (s.loc d) (s.rd P src) r.1, zf := r.1 == 0 }

/-- What one instruction does, jumps apart.  `ADCXQ` adds with the carry in `CF` and writes no other flag,
`ADOXQ` with the carry in `OF`; `MULXQ` multiplies `DX` by its source without touching the flags (its low half
is written first, so that with equal destinations the high half would stay); `XORQ` clears `CF` and `OF`. -/
def exec (P : FieldPkg) (s : St) : Instr → St
  | .mov src d => s.set d (s.rd P src)
  | .store src i b => { s with mem := s.mem.write (s.loc b) i (s.loc src) }
  | .add src d => s.addc P src d 0
  | .adc src d => s.addc P src d s.cf
  | .sub src d => s.subc P src d 0
  | .sbb src d => s.subc P src d s.cf
  | .adcx src d =>
    let r := add64 (s.loc d) (s.rd P src) s.cf
    { s.set d r.1 with cf := r.2 }
  | .adox src d =>
    let r := add64 (s.loc d) (s.rd P src) s.of
    { s.set d r.1 with of := r.2 }
  | .mulx src lo hi =>
    let r := mul64 (s.loc .DX) (s.rd P src)
    (s.set lo r.2).set hi r.1
  | .imul src d =>
    let o := ovfMul (s.loc d) (s.rd P src)
    { s.set d (s.loc d * s.rd P src % 2 ^ 64) with cf := o, of := o }
  | .xor src d =>
    let v := s.loc d ^^^ s.rd P src
    { s.set d v with cf := 0, of := 0, zf := v == 0 }
  | .cmovcs src d => if s.cf = 1 then s.set d (s.rd P src) else s
  | .cmovcc src d => if s.cf = 1 then s else s.set d (s.rd P src)
  | .cmpAdx => { s with zf := s.adx, cf := if s.adx then 0 else 1, of := 0 }
  | .callMul => { s with mem := { P with cios := true }.mulAt s.mem (s.loc (.out 0)) (s.loc (.out 1)) (s.loc (.out 2)) }
  | .callFromMont =>
    { s with mem := Function.update s.mem (s.loc (.out 0)) (P.fromMont (s.mem (s.loc (.out 0)))) }
  | .jne _ | .jcc _ | .label _ | .ret => s

/-- The code after a label; jumps are forward. -/
def jumpTo (l : Nat) : List Instr → List Instr
  | [] => []
  | .label l' :: is => if l = l' then is else jumpTo l is
  | _ :: is => jumpTo l is

theorem jumpTo_length (l : Nat) : ∀ is : List Instr, (jumpTo l is).length ≤ is.length
  | [] => Nat.le_refl _
  | i :: is => by
    have := jumpTo_length l is
    cases i <;> simp only [jumpTo, List.length_cons] <;> first | omega | (split <;> omega)

/-- A run of a program. -/
def run (P : FieldPkg) : List Instr → St → St
  | [], s => s
  | .ret :: _, s => s
  | .jne l :: is, s => if s.zf then run P is s else run P (jumpTo l is) s
  | .jcc l :: is, s => if s.cf = 1 then run P is s else run P (jumpTo l is) s
  | i :: is, s => run P is (exec P s i)
termination_by is => is.length
decreasing_by
  all_goals simp only [List.length_cons]
  all_goals first | omega | (have := jumpTo_length l is; omega)

/-- A call of a function of the package: `args` are its arguments, `s` is the state the caller leaves (its
memory, and whatever is in the registers, the flags and the stack). -/
def call (P : FieldPkg) (code : List Instr) (args : List Nat) (s : St) : Mem :=
  (run P code { s with arg := fun i => args.getD i 0 }).mem

end Ringo.Amd64
