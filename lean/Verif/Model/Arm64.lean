import Verif.Model.FieldMem

/-!
# The arm64 machine the assembly of the field packages runs on

On arm64 (without the build tag `purego`) the packages `jindo/internal/zp`, `examples/bfv/zp` and
`buckler/internal/zp110` take `Mul`, `Square`, `reduce` and `Butterfly` from assembly files; `MulBy3`,
`MulBy5`, `MulBy13` and `fromMont` are the Go code (`Verif.Model.FieldSmall`, `Verif.Model.Field`).  This file is
the machine; the programs are in `Verif.Model.AsmArm64`.

The memory is that of `Verif.Model.FieldMem` (see `Verif.Model.Asm`).  Not modelled: flags other than `C`; the
programs have no jumps and no stack frame.
-/

namespace Ringo.Arm64

/-- The registers that occur; `ZR` reads as zero. -/
inductive Reg
  | R0 | R1 | R2 | R3 | R4 | R5 | R6 | R7 | R8 | R9 | R10 | R11 | R12 | R13 | R14 | R15 | R16 | R17
  | ZR
deriving DecidableEq

/-- The instructions that occur; the destination is last, as the Go assembler writes them. -/
inductive Instr
  /-- `LDP name+8i(FP), (a, b)`: arguments `i` and `i + 1`. -/
  | ldpArg (i : Nat) (a b : Reg)
  /-- `LDP 8i(R), (a, b)`: words `i` and `i + 1` of the element `R` points to. -/
  | ldp (i : Nat) (base a b : Reg)
  /-- `LDP ·qElement+8i(SB), (a, b)`. -/
  | ldpQ (i : Nat) (a b : Reg)
  /-- `STP (a, b), 8i(R)`. -/
  | stp (a b : Reg) (i : Nat) (base : Reg)
  /-- `MOVD name+8i(FP), d`. -/
  | movArg (i : Nat) (d : Reg)
  /-- `MOVD 8i(R), d`. -/
  | movMem (i : Nat) (base d : Reg)
  /-- `MOVD $const_qInvNeg, d`. -/
  | movQInv (d : Reg)
  | adds (a b d : Reg)
  | adcs (a b d : Reg)
  | adc (a b d : Reg)
  /-- `SUBS a, b, d`: `d = b - a`. -/
  | subs (a b d : Reg)
  | sbcs (a b d : Reg)
  /-- `CSEL CS, a, b, d`: `d = a` if the carry is set, otherwise `d = b`. -/
  | csel (a b d : Reg)
  | mul (a b d : Reg)
  | umulh (a b d : Reg)
  | ret

/-- The state of the machine; the carry is 0 or 1. -/
structure St where
  reg : Reg → Nat
  c : Nat
  mem : Mem
  arg : Nat → Nat

/-- The value of a register. -/
def St.rd (s : St) (r : Reg) : Nat := if r = .ZR then 0 else s.reg r

/-- A word is written to a register. -/
def St.set (s : St) (d : Reg) (v : Nat) : St := { s with reg := Function.update s.reg d v }

/-- What one instruction does.  After a subtraction the carry is set if there was no borrow. -/
def exec (P : FieldPkg) (s : St) : Instr → St
  | .ldpArg i a b => (s.set a (s.arg i)).set b (s.arg (i + 1))
  | .ldp i base a b =>
    let w := s.mem (s.rd base)
    (s.set a (w.getD i 0)).set b (w.getD (i + 1) 0)
  | .ldpQ i a b => (s.set a (P.q.getD i 0)).set b (P.q.getD (i + 1) 0)
  | .stp a b i base =>
    { s with mem := (s.mem.write (s.rd base) i (s.rd a)).write (s.rd base) (i + 1) (s.rd b) }
  | .movArg i d => s.set d (s.arg i)
  | .movMem i base d => s.set d ((s.mem (s.rd base)).getD i 0)
  | .movQInv d => s.set d P.qInvNeg
  | .adds a b d =>
    let r := add64 (s.rd b) (s.rd a) 0
    { s.set d r.1 with c := r.2 }
  | .adcs a b d =>
    let r := add64 (s.rd b) (s.rd a) s.c
    { s.set d r.1 with c := r.2 }
  | .adc a b d => s.set d (add64 (s.rd b) (s.rd a) s.c).1
  | .subs a b d =>
    let r := sub64 (s.rd b) (s.rd a) 0
    { s.set d r.1 with c := 1 - r.2 }
  | .sbcs a b d =>
    let r := sub64 (s.rd b) (s.rd a) (1 - s.c)
    { s.set d r.1 with c := 1 - r.2 }
  | .csel a b d => s.set d (if s.c = 1 then s.rd a else s.rd b)
  | .mul a b d => s.set d (mul64 (s.rd b) (s.rd a)).2
  | .umulh a b d => s.set d (mul64 (s.rd b) (s.rd a)).1
  | .ret => s

/-- A run of a program: up to `RET`. -/
def run (P : FieldPkg) : List Instr → St → St
  | [], s => s
  | .ret :: _, s => s
  | i :: is, s => run P is (exec P s i)

/-- A call of a function of the package: `args` are its arguments, `s` is the state the caller leaves. -/
def call (P : FieldPkg) (code : List Instr) (args : List Nat) (s : St) : Mem :=
  (run P code { s with arg := fun i => args.getD i 0 }).mem

end Ringo.Arm64
