import Verif.Model.Arm64

/-!
# The arm64 assembly of the field packages

Transcribed instruction by instruction, macros (`DIVSHIFT`, `MUL_WORD_0`, `MUL_WORD_N`) expanded, from

* `element_2w_arm64.s` = /repo/buckler/internal/zp110/asm/element_2w/element_2w_arm64.s,
* `element_4w_arm64.s` = /repo/jindo/internal/zp/asm/element_4w/element_4w_arm64.s (the file of the same name
  under /repo/examples/bfv/zp is identical).
-/

namespace Ringo.Arm64

/-- `reduce`, element_2w_arm64.s:93-106. -/
def reduce_2w : List Instr :=
  [.ldpQ 0 .R2 .R3, .movArg 0 .R4, .ldp 0 .R4 .R0 .R1, .subs .R2 .R0 .R2, .sbcs .R3 .R1 .R3,
   .csel .R2 .R0 .R0, .csel .R3 .R1 .R1, .stp .R0 .R1 0 .R4, .ret]

/-- `Butterfly`, element_2w_arm64.s:8-33. -/
def butterfly_2w : List Instr :=
  [.ldpArg 0 .R8 .R9, .ldp 0 .R8 .R0 .R1, .ldp 0 .R9 .R2 .R3, .adds .R0 .R2 .R4, .adc .R1 .R3 .R5,
   .subs .R2 .R0 .R2, .sbcs .R3 .R1 .R3, .ldpQ 0 .R0 .R1, .csel .ZR .R0 .R6, .csel .ZR .R1 .R7,
   .adds .R2 .R6 .R2, .adc .R3 .R7 .R3, .stp .R2 .R3 0 .R9, .subs .R0 .R4 .R0, .sbcs .R1 .R5 .R1,
   .csel .R0 .R4 .R4, .csel .R1 .R5 .R5, .stp .R4 .R5 0 .R8, .ret]

/-- `mul`, element_2w_arm64.s:38-90. -/
def mul_2w : List Instr :=
  [.movArg 2 .R11, .movArg 1 .R0, .ldp 0 .R0 .R2 .R3, .movMem 0 .R11 .R1, .movQInv .R7,
   .ldpQ 0 .R9 .R10, .mul .R2 .R1 .R4, .mul .R3 .R1 .R5, .umulh .R2 .R1 .R0, .adds .R0 .R5 .R5,
   .umulh .R3 .R1 .R0, .adc .R0 .ZR .R6, .mul .R4 .R7 .R8, .mul .R9 .R8 .R0, .adds .R0 .R4 .R4,
   .mul .R10 .R8 .R0, .adcs .R0 .R5 .R5, .adc .R6 .ZR .R6, .umulh .R9 .R8 .R0, .adds .R0 .R5 .R4,
   .umulh .R10 .R8 .R0, .adcs .R0 .R6 .R5, .movMem 1 .R11 .R1, .mul .R2 .R1 .R0, .adds .R0 .R4 .R4,
   .mul .R4 .R7 .R8, .mul .R3 .R1 .R0, .adcs .R0 .R5 .R5, .adc .ZR .ZR .R6, .umulh .R2 .R1 .R0,
   .adds .R0 .R5 .R5, .umulh .R3 .R1 .R0, .adc .R0 .R6 .R6, .mul .R9 .R8 .R0, .adds .R0 .R4 .R4,
   .mul .R10 .R8 .R0, .adcs .R0 .R5 .R5, .adc .R6 .ZR .R6, .umulh .R9 .R8 .R0, .adds .R0 .R5 .R4,
   .umulh .R10 .R8 .R0, .adcs .R0 .R6 .R5, .subs .R9 .R4 .R9, .sbcs .R10 .R5 .R10, .movArg 0 .R0,
   .csel .R9 .R4 .R4, .csel .R10 .R5 .R5, .stp .R4 .R5 0 .R0, .ret]

/-- `reduce`, element_4w_arm64.s:143-163. -/
def reduce_4w : List Instr :=
  [.ldpQ 0 .R4 .R5, .ldpQ 2 .R6 .R7, .movArg 0 .R8, .ldp 0 .R8 .R0 .R1, .ldp 2 .R8 .R2 .R3,
   .subs .R4 .R0 .R4, .sbcs .R5 .R1 .R5, .sbcs .R6 .R2 .R6, .sbcs .R7 .R3 .R7, .csel .R4 .R0 .R0,
   .csel .R5 .R1 .R1, .stp .R0 .R1 0 .R8, .csel .R6 .R2 .R2, .csel .R7 .R3 .R3, .stp .R2 .R3 2 .R8,
   .ret]

/-- `Butterfly`, element_4w_arm64.s:8-50. -/
def butterfly_4w : List Instr :=
  [.ldpArg 0 .R16 .R17, .ldp 0 .R16 .R0 .R1, .ldp 2 .R16 .R2 .R3, .ldp 0 .R17 .R4 .R5,
   .ldp 2 .R17 .R6 .R7, .adds .R0 .R4 .R8, .adcs .R1 .R5 .R9, .adcs .R2 .R6 .R10,
   .adc .R3 .R7 .R11, .subs .R4 .R0 .R4, .sbcs .R5 .R1 .R5, .sbcs .R6 .R2 .R6, .sbcs .R7 .R3 .R7,
   .ldpQ 0 .R0 .R1, .csel .ZR .R0 .R12, .csel .ZR .R1 .R13, .ldpQ 2 .R2 .R3, .csel .ZR .R2 .R14,
   .csel .ZR .R3 .R15, .adds .R4 .R12 .R4, .adcs .R5 .R13 .R5, .stp .R4 .R5 0 .R17,
   .adcs .R6 .R14 .R6, .adc .R7 .R15 .R7, .stp .R6 .R7 2 .R17, .subs .R0 .R8 .R0,
   .sbcs .R1 .R9 .R1, .sbcs .R2 .R10 .R2, .sbcs .R3 .R11 .R3, .csel .R0 .R8 .R8, .csel .R1 .R9 .R9,
   .stp .R8 .R9 0 .R16, .csel .R2 .R10 .R10, .csel .R3 .R11 .R11, .stp .R10 .R11 2 .R16, .ret]

/-- `mul`, element_4w_arm64.s:55-140. -/
def mul_4w : List Instr :=
  [.movArg 2 .R17, .movArg 1 .R0, .ldp 0 .R0 .R2 .R3, .ldp 2 .R0 .R4 .R5, .movMem 0 .R17 .R1,
   .movQInv .R11, .ldpQ 0 .R13 .R14, .ldpQ 2 .R15 .R16, .mul .R2 .R1 .R6, .mul .R3 .R1 .R7,
   .mul .R4 .R1 .R8, .mul .R5 .R1 .R9, .umulh .R2 .R1 .R0, .adds .R0 .R7 .R7, .umulh .R3 .R1 .R0,
   .adcs .R0 .R8 .R8, .umulh .R4 .R1 .R0, .adcs .R0 .R9 .R9, .umulh .R5 .R1 .R0, .adc .R0 .ZR .R10,
   .mul .R6 .R11 .R12, .mul .R13 .R12 .R0, .adds .R0 .R6 .R6, .mul .R14 .R12 .R0,
   .adcs .R0 .R7 .R7, .mul .R15 .R12 .R0, .adcs .R0 .R8 .R8, .mul .R16 .R12 .R0, .adcs .R0 .R9 .R9,
   .adc .R10 .ZR .R10, .umulh .R13 .R12 .R0, .adds .R0 .R7 .R6, .umulh .R14 .R12 .R0,
   .adcs .R0 .R8 .R7, .umulh .R15 .R12 .R0, .adcs .R0 .R9 .R8, .umulh .R16 .R12 .R0,
   .adcs .R0 .R10 .R9, .movMem 1 .R17 .R1, .mul .R2 .R1 .R0, .adds .R0 .R6 .R6, .mul .R6 .R11 .R12,
   .mul .R3 .R1 .R0, .adcs .R0 .R7 .R7, .mul .R4 .R1 .R0, .adcs .R0 .R8 .R8, .mul .R5 .R1 .R0,
   .adcs .R0 .R9 .R9, .adc .ZR .ZR .R10, .umulh .R2 .R1 .R0, .adds .R0 .R7 .R7, .umulh .R3 .R1 .R0,
   .adcs .R0 .R8 .R8, .umulh .R4 .R1 .R0, .adcs .R0 .R9 .R9, .umulh .R5 .R1 .R0,
   .adc .R0 .R10 .R10, .mul .R13 .R12 .R0, .adds .R0 .R6 .R6, .mul .R14 .R12 .R0,
   .adcs .R0 .R7 .R7, .mul .R15 .R12 .R0, .adcs .R0 .R8 .R8, .mul .R16 .R12 .R0, .adcs .R0 .R9 .R9,
   .adc .R10 .ZR .R10, .umulh .R13 .R12 .R0, .adds .R0 .R7 .R6, .umulh .R14 .R12 .R0,
   .adcs .R0 .R8 .R7, .umulh .R15 .R12 .R0, .adcs .R0 .R9 .R8, .umulh .R16 .R12 .R0,
   .adcs .R0 .R10 .R9, .movMem 2 .R17 .R1, .mul .R2 .R1 .R0, .adds .R0 .R6 .R6, .mul .R6 .R11 .R12,
   .mul .R3 .R1 .R0, .adcs .R0 .R7 .R7, .mul .R4 .R1 .R0, .adcs .R0 .R8 .R8, .mul .R5 .R1 .R0,
   .adcs .R0 .R9 .R9, .adc .ZR .ZR .R10, .umulh .R2 .R1 .R0, .adds .R0 .R7 .R7, .umulh .R3 .R1 .R0,
   .adcs .R0 .R8 .R8, .umulh .R4 .R1 .R0, .adcs .R0 .R9 .R9, .umulh .R5 .R1 .R0,
   .adc .R0 .R10 .R10, .mul .R13 .R12 .R0, .adds .R0 .R6 .R6, .mul .R14 .R12 .R0,
   .adcs .R0 .R7 .R7, .mul .R15 .R12 .R0, .adcs .R0 .R8 .R8, .mul .R16 .R12 .R0, .adcs .R0 .R9 .R9,
   .adc .R10 .ZR .R10, .umulh .R13 .R12 .R0, .adds .R0 .R7 .R6, .umulh .R14 .R12 .R0,
   .adcs .R0 .R8 .R7, .umulh .R15 .R12 .R0, .adcs .R0 .R9 .R8, .umulh .R16 .R12 .R0,
   .adcs .R0 .R10 .R9, .movMem 3 .R17 .R1, .mul .R2 .R1 .R0, .adds .R0 .R6 .R6, .mul .R6 .R11 .R12,
   .mul .R3 .R1 .R0, .adcs .R0 .R7 .R7, .mul .R4 .R1 .R0, .adcs .R0 .R8 .R8, .mul .R5 .R1 .R0,
   .adcs .R0 .R9 .R9, .adc .ZR .ZR .R10, .umulh .R2 .R1 .R0, .adds .R0 .R7 .R7, .umulh .R3 .R1 .R0,
   .adcs .R0 .R8 .R8, .umulh .R4 .R1 .R0, .adcs .R0 .R9 .R9, .umulh .R5 .R1 .R0,
   .adc .R0 .R10 .R10, .mul .R13 .R12 .R0, .adds .R0 .R6 .R6, .mul .R14 .R12 .R0,
   .adcs .R0 .R7 .R7, .mul .R15 .R12 .R0, .adcs .R0 .R8 .R8, .mul .R16 .R12 .R0, .adcs .R0 .R9 .R9,
   .adc .R10 .ZR .R10, .umulh .R13 .R12 .R0, .adds .R0 .R7 .R6, .umulh .R14 .R12 .R0,
   .adcs .R0 .R8 .R7, .umulh .R15 .R12 .R0, .adcs .R0 .R9 .R8, .umulh .R16 .R12 .R0,
   .adcs .R0 .R10 .R9, .subs .R13 .R6 .R13, .sbcs .R14 .R7 .R14, .sbcs .R15 .R8 .R15,
   .sbcs .R16 .R9 .R16, .movArg 0 .R0, .csel .R13 .R6 .R6, .csel .R14 .R7 .R7, .stp .R6 .R7 0 .R0,
   .csel .R15 .R8 .R8, .csel .R16 .R9 .R9, .stp .R8 .R9 2 .R0, .ret]

end Ringo.Arm64
