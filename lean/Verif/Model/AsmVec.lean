import Verif.Model.Asm
import Verif.Model.FieldVecOps

/-!
# `addVec` and `subVec` of the amd64 assembly

`jindo/internal/zp/asm/element_4w/element_4w_amd64.s`:464-567 (the same file under `examples/bfv/zp`), and the
functions of `jindo/internal/zp/vector_amd64.go` that call them.  These programs have a loop, so the machine of
`Verif.Model.Asm` gets jumps backwards here.  Not modelled: the four functions that use the 512-bit registers
(`scalarMulVec`, `sumVec`, `innerProdVec`, `mulVec`); without AVX-512 they are not called.
-/

namespace Ringo.Amd64

/-- The instructions of the loops. -/
inductive LInstr
  /-- An instruction that does not jump. -/
  | i (x : Instr)
  /-- `TESTQ R, R`. -/
  | test (r : Loc)
  /-- `DECQ R`. -/
  | dec (r : Loc)
  /-- `PREFETCHT0`. -/
  | prefetch
  | jeq (l : Nat)
  | jmp (l : Nat)
  | label (l : Nat)
  | ret

/-- What an instruction does, jumps apart.  `TESTQ` clears `CF` and `OF`; `DECQ` leaves `CF`. -/
def lexec (P : FieldPkg) (s : St) : LInstr → St
  | .i x => exec P s x
  | .test r => { s with cf := 0, of := 0, zf := s.loc r == 0 }
  | .dec r =>
    let v := (sub64 (s.loc r) 1 0).1
    { s.set r v with of := ovfSub (s.loc r) 1 v, zf := v == 0 }
  | .prefetch | .jeq _ | .jmp _ | .label _ | .ret => s

/-- The code after a label. -/
def codeAt (l : Nat) : List LInstr → List LInstr
  | [] => []
  | .label l' :: is => if l = l' then is else codeAt l is
  | _ :: is => codeAt l is

/-- A run of at most `k` instructions of `code` from the position `is` on; `none` if it has not returned by
then. -/
def lrun (P : FieldPkg) (code : List LInstr) : Nat → List LInstr → St → Option St
  | 0, _, _ => none
  | _ + 1, [], s => some s
  | _ + 1, .ret :: _, s => some s
  | k + 1, .jmp l :: _, s => lrun P code k (codeAt l code) s
  | k + 1, .jeq l :: is, s => if s.zf then lrun P code k (codeAt l code) s else lrun P code k is s
  | k + 1, i :: is, s => lrun P code k is (lexec P s i)

/-- A call with the arguments `args` returns, and leaves the memory `m`. -/
def LCall (P : FieldPkg) (code : List LInstr) (args : List Nat) (s : St) (m : Mem) : Prop :=
  ∃ k s', lrun P code k code { s with arg := fun i => args.getD i 0 } = some s' ∧ s'.mem = m

/-- `addVec`, element_4w_amd64.s:465-506. -/
def addVec_4w : List LInstr :=
  [.i (.mov (.arg 0) .CX), .i (.mov (.arg 1) .AX), .i (.mov (.arg 2) .DX), .i (.mov (.arg 3) .BX),
   .label 3, .test .BX, .jeq 4,
   .i (.mov (.mem 0 .AX) .SI), .i (.mov (.mem 1 .AX) .DI), .i (.mov (.mem 2 .AX) .R8),
   .i (.mov (.mem 3 .AX) .R9), .i (.add (.mem 0 .DX) .SI), .i (.adc (.mem 1 .DX) .DI),
   .i (.adc (.mem 2 .DX) .R8), .i (.adc (.mem 3 .DX) .R9), .prefetch, .prefetch,
   .i (.mov (.l .SI) .R10), .i (.sub (.q 0) .SI), .i (.mov (.l .DI) .R11), .i (.sbb (.q 1) .DI),
   .i (.mov (.l .R8) .R12), .i (.sbb (.q 2) .R8), .i (.mov (.l .R9) .R13), .i (.sbb (.q 3) .R9),
   .i (.cmovcs (.l .R10) .SI), .i (.cmovcs (.l .R11) .DI), .i (.cmovcs (.l .R12) .R8),
   .i (.cmovcs (.l .R13) .R9),
   .i (.store .SI 0 .CX), .i (.store .DI 1 .CX), .i (.store .R8 2 .CX), .i (.store .R9 3 .CX),
   .i (.add (.imm 32) .AX), .i (.add (.imm 32) .DX), .i (.add (.imm 32) .CX), .dec .BX, .jmp 3,
   .label 4, .ret]

/-- `subVec`, element_4w_amd64.s:509-567. -/
def subVec_4w : List LInstr :=
  [.i (.mov (.arg 0) .CX), .i (.mov (.arg 1) .AX), .i (.mov (.arg 2) .DX), .i (.mov (.arg 3) .BX),
   .i (.xor (.l .SI) .SI),
   .label 5, .test .BX, .jeq 6,
   .i (.mov (.mem 0 .AX) .DI), .i (.mov (.mem 1 .AX) .R8), .i (.mov (.mem 2 .AX) .R9),
   .i (.mov (.mem 3 .AX) .R10), .i (.sub (.mem 0 .DX) .DI), .i (.sbb (.mem 1 .DX) .R8),
   .i (.sbb (.mem 2 .DX) .R9), .i (.sbb (.mem 3 .DX) .R10), .prefetch, .prefetch,
   .i (.mov (.cq 0) .R11), .i (.mov (.cq 1) .R12), .i (.mov (.cq 2) .R13), .i (.mov (.cq 3) .R14),
   .i (.cmovcc (.l .SI) .R11), .i (.cmovcc (.l .SI) .R12), .i (.cmovcc (.l .SI) .R13),
   .i (.cmovcc (.l .SI) .R14), .i (.add (.l .R11) .DI), .i (.adc (.l .R12) .R8),
   .i (.adc (.l .R13) .R9), .i (.adc (.l .R14) .R10),
   .i (.store .DI 0 .CX), .i (.store .R8 1 .CX), .i (.store .R9 2 .CX), .i (.store .R10 3 .CX),
   .i (.add (.imm 32) .AX), .i (.add (.imm 32) .DX), .i (.add (.imm 32) .CX), .dec .BX, .jmp 5,
   .label 6, .ret]

/-- vector_amd64.go:17-23 and 30-35 (`Add`, `Sub`), with the program `code`: whether the call ends with memory `m`;
`&a[0]` panics for an empty slice, and then nothing is left (`none`). -/
def vecCall (P : FieldPkg) (code : List LInstr) (s : St) (res a b : Slice) (o : Option Mem) : Prop :=
  if a.len ≠ b.len ∨ a.len ≠ res.len then o = none
  else if a.len = 0 then o = none
  else ∃ m, o = some m ∧ LCall P code [res.ptr, a.ptr, b.ptr, a.len] s m

/-- vector_amd64.go:95-109 (`InnerProduct`) without AVX-512. -/
def vecInnerAmd64 (P : FieldPkg) (m : Mem) (a b : Slice) : Option (List Nat) :=
  if a.len = 0 then some (List.replicate P.n 0) else P.vecInner m a b

end Ringo.Amd64
