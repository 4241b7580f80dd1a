import Verif.Model.Asm

/-!
# The amd64 assembly of the field packages

Transcribed instruction by instruction, macros (`REDUCE`, `MACC`, `DIV_SHIFT`, `MUL_WORD_0`, `MUL_WORD_N`)
expanded, from

* `element_2w_amd64.s` = /repo/buckler/internal/zp110/asm/element_2w/element_2w_amd64.s,
* `element_4w_amd64.s` = /repo/jindo/internal/zp/asm/element_4w/element_4w_amd64.s (the file of the same name
  under /repo/examples/bfv/zp is identical),
* `element_7w_amd64.s` = /repo/buckler/internal/zp440/asm/element_7w/element_7w_amd64.s.

An operand `s1-16(SP)` is `.slot 1`, `8(SP)` is `.out 1`, `y+16(FP)` is `.arg 2`, `16(AX)` is `.mem 2 .AX`,
`·qElement+16(SB)` is `.q 2`, `$const_q2` is `.cq 2`.  `NO_LOCAL_POINTERS` (a note to the garbage collector)
is left out.
-/

namespace Ringo.Amd64

/-- `reduce`, element_2w_amd64.s:14-24. -/
def reduce_2w : List Instr :=
  [.mov (.arg 0) .AX, .mov (.mem 0 .AX) .DX, .mov (.mem 1 .AX) .CX, .mov (.l .DX) .BX,
   .sub (.q 0) .DX, .mov (.l .CX) .SI, .sbb (.q 1) .CX, .cmovcs (.l .BX) .DX, .cmovcs (.l .SI) .CX,
   .store .DX 0 .AX, .store .CX 1 .AX, .ret]

/-- `MulBy3`, element_2w_amd64.s:27-45. -/
def mulBy3_2w : List Instr :=
  [.mov (.arg 0) .AX, .mov (.mem 0 .AX) .DX, .mov (.mem 1 .AX) .CX, .add (.l .DX) .DX,
   .adc (.l .CX) .CX, .mov (.l .DX) .BX, .sub (.q 0) .DX, .mov (.l .CX) .SI, .sbb (.q 1) .CX,
   .cmovcs (.l .BX) .DX, .cmovcs (.l .SI) .CX, .add (.mem 0 .AX) .DX, .adc (.mem 1 .AX) .CX,
   .mov (.l .DX) .DI, .sub (.q 0) .DX, .mov (.l .CX) .R8, .sbb (.q 1) .CX, .cmovcs (.l .DI) .DX,
   .cmovcs (.l .R8) .CX, .store .DX 0 .AX, .store .CX 1 .AX, .ret]

/-- `MulBy5`, element_2w_amd64.s:48-72. -/
def mulBy5_2w : List Instr :=
  [.mov (.arg 0) .AX, .mov (.mem 0 .AX) .DX, .mov (.mem 1 .AX) .CX, .add (.l .DX) .DX,
   .adc (.l .CX) .CX, .mov (.l .DX) .BX, .sub (.q 0) .DX, .mov (.l .CX) .SI, .sbb (.q 1) .CX,
   .cmovcs (.l .BX) .DX, .cmovcs (.l .SI) .CX, .add (.l .DX) .DX, .adc (.l .CX) .CX,
   .mov (.l .DX) .DI, .sub (.q 0) .DX, .mov (.l .CX) .R8, .sbb (.q 1) .CX, .cmovcs (.l .DI) .DX,
   .cmovcs (.l .R8) .CX, .add (.mem 0 .AX) .DX, .adc (.mem 1 .AX) .CX, .mov (.l .DX) .R9,
   .sub (.q 0) .DX, .mov (.l .CX) .R10, .sbb (.q 1) .CX, .cmovcs (.l .R9) .DX,
   .cmovcs (.l .R10) .CX, .store .DX 0 .AX, .store .CX 1 .AX, .ret]

/-- `MulBy13`, element_2w_amd64.s:75-113. -/
def mulBy13_2w : List Instr :=
  [.mov (.arg 0) .AX, .mov (.mem 0 .AX) .DX, .mov (.mem 1 .AX) .CX, .add (.l .DX) .DX,
   .adc (.l .CX) .CX, .mov (.l .DX) .BX, .sub (.q 0) .DX, .mov (.l .CX) .SI, .sbb (.q 1) .CX,
   .cmovcs (.l .BX) .DX, .cmovcs (.l .SI) .CX, .add (.l .DX) .DX, .adc (.l .CX) .CX,
   .mov (.l .DX) .DI, .sub (.q 0) .DX, .mov (.l .CX) .R8, .sbb (.q 1) .CX, .cmovcs (.l .DI) .DX,
   .cmovcs (.l .R8) .CX, .mov (.l .DX) .DI, .mov (.l .CX) .R8, .add (.l .DX) .DX,
   .adc (.l .CX) .CX, .mov (.l .DX) .BX, .sub (.q 0) .DX, .mov (.l .CX) .SI, .sbb (.q 1) .CX,
   .cmovcs (.l .BX) .DX, .cmovcs (.l .SI) .CX, .add (.l .DI) .DX, .adc (.l .R8) .CX,
   .mov (.l .DX) .BX, .sub (.q 0) .DX, .mov (.l .CX) .SI, .sbb (.q 1) .CX, .cmovcs (.l .BX) .DX,
   .cmovcs (.l .SI) .CX, .add (.mem 0 .AX) .DX, .adc (.mem 1 .AX) .CX, .mov (.l .DX) .BX,
   .sub (.q 0) .DX, .mov (.l .CX) .SI, .sbb (.q 1) .CX, .cmovcs (.l .BX) .DX, .cmovcs (.l .SI) .CX,
   .store .DX 0 .AX, .store .CX 1 .AX, .ret]

/-- `Butterfly`, element_2w_amd64.s:116-143. -/
def butterfly_2w : List Instr :=
  [.mov (.arg 0) .R15, .mov (.mem 0 .R15) .DX, .mov (.mem 1 .R15) .CX, .mov (.l .DX) .BX,
   .mov (.l .CX) .SI, .xor (.l .R15) .R15, .mov (.arg 1) .AX, .add (.mem 0 .AX) .DX,
   .adc (.mem 1 .AX) .CX, .sub (.mem 0 .AX) .BX, .sbb (.mem 1 .AX) .SI, .mov (.cq 0) .DI,
   .mov (.cq 1) .R8, .cmovcc (.l .R15) .DI, .cmovcc (.l .R15) .R8, .add (.l .DI) .BX,
   .adc (.l .R8) .SI, .store .BX 0 .AX, .store .SI 1 .AX, .mov (.l .DX) .BX, .sub (.q 0) .DX,
   .mov (.l .CX) .SI, .sbb (.q 1) .CX, .cmovcs (.l .BX) .DX, .cmovcs (.l .SI) .CX,
   .mov (.arg 0) .R15, .store .DX 0 .R15, .store .CX 1 .R15, .ret]

/-- `mul`, element_2w_amd64.s:146-224. -/
def mul_2w : List Instr :=
  [.cmpAdx, .jne 1, .mov (.arg 1) .CX, .mov (.mem 0 .CX) .BX, .mov (.mem 1 .CX) .SI,
   .mov (.arg 2) .DI, .mov (.mem 0 .DI) .DX, .xor (.l .AX) .AX, .mulx (.l .BX) .R14 .R13,
   .mulx (.l .SI) .AX .BP, .adox (.l .AX) .R13, .mov (.imm 0) .AX, .adox (.l .AX) .BP,
   .mov .qInv .DX, .imul (.l .R14) .DX, .xor (.l .AX) .AX, .mulx (.q 0) .AX .R8,
   .adcx (.l .R14) .AX, .mov (.l .R8) .R14, .adcx (.l .R13) .R14, .mulx (.q 1) .AX .R13,
   .adox (.l .AX) .R14, .mov (.imm 0) .AX, .adcx (.l .AX) .R13, .adox (.l .BP) .R13,
   .mov (.mem 1 .DI) .DX, .xor (.l .AX) .AX, .mulx (.l .BX) .AX .BP, .adox (.l .AX) .R14,
   .adcx (.l .BP) .R13, .mulx (.l .SI) .AX .BP, .adox (.l .AX) .R13, .mov (.imm 0) .AX,
   .adcx (.l .AX) .BP, .adox (.l .AX) .BP, .mov .qInv .DX, .imul (.l .R14) .DX, .xor (.l .AX) .AX,
   .mulx (.q 0) .AX .R8, .adcx (.l .R14) .AX, .mov (.l .R8) .R14, .adcx (.l .R13) .R14,
   .mulx (.q 1) .AX .R13, .adox (.l .AX) .R14, .mov (.imm 0) .AX, .adcx (.l .AX) .R13,
   .adox (.l .BP) .R13, .mov (.l .R14) .R9, .sub (.q 0) .R14, .mov (.l .R13) .R10,
   .sbb (.q 1) .R13, .cmovcs (.l .R9) .R14, .cmovcs (.l .R10) .R13, .mov (.arg 0) .AX,
   .store .R14 0 .AX, .store .R13 1 .AX, .ret, .label 1, .mov (.arg 0) .AX, .mov (.l .AX) (.out 0),
   .mov (.arg 1) .AX, .mov (.l .AX) (.out 1), .mov (.arg 2) .AX, .mov (.l .AX) (.out 2), .callMul,
   .ret]

/-- `fromMont`, element_2w_amd64.s:226-296. -/
def fromMont_2w : List Instr :=
  [.cmpAdx, .jne 2, .mov (.arg 0) .DX, .mov (.mem 0 .DX) .R13, .mov (.mem 1 .DX) .R14,
   .xor (.l .DX) .DX, .mov .qInv .DX, .imul (.l .R13) .DX, .xor (.l .AX) .AX, .mulx (.q 0) .AX .BP,
   .adcx (.l .R13) .AX, .mov (.l .BP) .R13, .adcx (.l .R14) .R13, .mulx (.q 1) .AX .R14,
   .adox (.l .AX) .R13, .mov (.imm 0) .AX, .adcx (.l .AX) .R14, .adox (.l .AX) .R14,
   .xor (.l .DX) .DX, .mov .qInv .DX, .imul (.l .R13) .DX, .xor (.l .AX) .AX, .mulx (.q 0) .AX .BP,
   .adcx (.l .R13) .AX, .mov (.l .BP) .R13, .adcx (.l .R14) .R13, .mulx (.q 1) .AX .R14,
   .adox (.l .AX) .R13, .mov (.imm 0) .AX, .adcx (.l .AX) .R14, .adox (.l .AX) .R14,
   .mov (.l .R13) .CX, .sub (.q 0) .R13, .mov (.l .R14) .BX, .sbb (.q 1) .R14,
   .cmovcs (.l .CX) .R13, .cmovcs (.l .BX) .R14, .mov (.arg 0) .AX, .store .R13 0 .AX,
   .store .R14 1 .AX, .ret, .label 2, .mov (.arg 0) .AX, .mov (.l .AX) (.out 0), .callFromMont,
   .ret]

/-- `reduce`, element_4w_amd64.s:20-34. -/
def reduce_4w : List Instr :=
  [.mov (.arg 0) .AX, .mov (.mem 0 .AX) .DX, .mov (.mem 1 .AX) .CX, .mov (.mem 2 .AX) .BX,
   .mov (.mem 3 .AX) .SI, .mov (.l .DX) .DI, .sub (.q 0) .DX, .mov (.l .CX) .R8, .sbb (.q 1) .CX,
   .mov (.l .BX) .R9, .sbb (.q 2) .BX, .mov (.l .SI) .R10, .sbb (.q 3) .SI, .cmovcs (.l .DI) .DX,
   .cmovcs (.l .R8) .CX, .cmovcs (.l .R9) .BX, .cmovcs (.l .R10) .SI, .store .DX 0 .AX,
   .store .CX 1 .AX, .store .BX 2 .AX, .store .SI 3 .AX, .ret]

/-- `MulBy3`, element_4w_amd64.s:37-63. -/
def mulBy3_4w : List Instr :=
  [.mov (.arg 0) .AX, .mov (.mem 0 .AX) .DX, .mov (.mem 1 .AX) .CX, .mov (.mem 2 .AX) .BX,
   .mov (.mem 3 .AX) .SI, .add (.l .DX) .DX, .adc (.l .CX) .CX, .adc (.l .BX) .BX,
   .adc (.l .SI) .SI, .mov (.l .DX) .DI, .sub (.q 0) .DX, .mov (.l .CX) .R8, .sbb (.q 1) .CX,
   .mov (.l .BX) .R9, .sbb (.q 2) .BX, .mov (.l .SI) .R10, .sbb (.q 3) .SI, .cmovcs (.l .DI) .DX,
   .cmovcs (.l .R8) .CX, .cmovcs (.l .R9) .BX, .cmovcs (.l .R10) .SI, .add (.mem 0 .AX) .DX,
   .adc (.mem 1 .AX) .CX, .adc (.mem 2 .AX) .BX, .adc (.mem 3 .AX) .SI, .mov (.l .DX) .R11,
   .sub (.q 0) .DX, .mov (.l .CX) .R12, .sbb (.q 1) .CX, .mov (.l .BX) .R13, .sbb (.q 2) .BX,
   .mov (.l .SI) .R14, .sbb (.q 3) .SI, .cmovcs (.l .R11) .DX, .cmovcs (.l .R12) .CX,
   .cmovcs (.l .R13) .BX, .cmovcs (.l .R14) .SI, .store .DX 0 .AX, .store .CX 1 .AX,
   .store .BX 2 .AX, .store .SI 3 .AX, .ret]

/-- `MulBy5`, element_4w_amd64.s:66-100. -/
def mulBy5_4w : List Instr :=
  [.mov (.arg 0) .AX, .mov (.mem 0 .AX) .DX, .mov (.mem 1 .AX) .CX, .mov (.mem 2 .AX) .BX,
   .mov (.mem 3 .AX) .SI, .add (.l .DX) .DX, .adc (.l .CX) .CX, .adc (.l .BX) .BX,
   .adc (.l .SI) .SI, .mov (.l .DX) .DI, .sub (.q 0) .DX, .mov (.l .CX) .R8, .sbb (.q 1) .CX,
   .mov (.l .BX) .R9, .sbb (.q 2) .BX, .mov (.l .SI) .R10, .sbb (.q 3) .SI, .cmovcs (.l .DI) .DX,
   .cmovcs (.l .R8) .CX, .cmovcs (.l .R9) .BX, .cmovcs (.l .R10) .SI, .add (.l .DX) .DX,
   .adc (.l .CX) .CX, .adc (.l .BX) .BX, .adc (.l .SI) .SI, .mov (.l .DX) .R11, .sub (.q 0) .DX,
   .mov (.l .CX) .R12, .sbb (.q 1) .CX, .mov (.l .BX) .R13, .sbb (.q 2) .BX, .mov (.l .SI) .R14,
   .sbb (.q 3) .SI, .cmovcs (.l .R11) .DX, .cmovcs (.l .R12) .CX, .cmovcs (.l .R13) .BX,
   .cmovcs (.l .R14) .SI, .add (.mem 0 .AX) .DX, .adc (.mem 1 .AX) .CX, .adc (.mem 2 .AX) .BX,
   .adc (.mem 3 .AX) .SI, .mov (.l .DX) .DI, .sub (.q 0) .DX, .mov (.l .CX) .R8, .sbb (.q 1) .CX,
   .mov (.l .BX) .R9, .sbb (.q 2) .BX, .mov (.l .SI) .R10, .sbb (.q 3) .SI, .cmovcs (.l .DI) .DX,
   .cmovcs (.l .R8) .CX, .cmovcs (.l .R9) .BX, .cmovcs (.l .R10) .SI, .store .DX 0 .AX,
   .store .CX 1 .AX, .store .BX 2 .AX, .store .SI 3 .AX, .ret]

/-- `MulBy13`, element_4w_amd64.s:103-157. -/
def mulBy13_4w : List Instr :=
  [.mov (.arg 0) .AX, .mov (.mem 0 .AX) .DX, .mov (.mem 1 .AX) .CX, .mov (.mem 2 .AX) .BX,
   .mov (.mem 3 .AX) .SI, .add (.l .DX) .DX, .adc (.l .CX) .CX, .adc (.l .BX) .BX,
   .adc (.l .SI) .SI, .mov (.l .DX) .DI, .sub (.q 0) .DX, .mov (.l .CX) .R8, .sbb (.q 1) .CX,
   .mov (.l .BX) .R9, .sbb (.q 2) .BX, .mov (.l .SI) .R10, .sbb (.q 3) .SI, .cmovcs (.l .DI) .DX,
   .cmovcs (.l .R8) .CX, .cmovcs (.l .R9) .BX, .cmovcs (.l .R10) .SI, .add (.l .DX) .DX,
   .adc (.l .CX) .CX, .adc (.l .BX) .BX, .adc (.l .SI) .SI, .mov (.l .DX) .R11, .sub (.q 0) .DX,
   .mov (.l .CX) .R12, .sbb (.q 1) .CX, .mov (.l .BX) .R13, .sbb (.q 2) .BX, .mov (.l .SI) .R14,
   .sbb (.q 3) .SI, .cmovcs (.l .R11) .DX, .cmovcs (.l .R12) .CX, .cmovcs (.l .R13) .BX,
   .cmovcs (.l .R14) .SI, .mov (.l .DX) .R11, .mov (.l .CX) .R12, .mov (.l .BX) .R13,
   .mov (.l .SI) .R14, .add (.l .DX) .DX, .adc (.l .CX) .CX, .adc (.l .BX) .BX, .adc (.l .SI) .SI,
   .mov (.l .DX) .DI, .sub (.q 0) .DX, .mov (.l .CX) .R8, .sbb (.q 1) .CX, .mov (.l .BX) .R9,
   .sbb (.q 2) .BX, .mov (.l .SI) .R10, .sbb (.q 3) .SI, .cmovcs (.l .DI) .DX,
   .cmovcs (.l .R8) .CX, .cmovcs (.l .R9) .BX, .cmovcs (.l .R10) .SI, .add (.l .R11) .DX,
   .adc (.l .R12) .CX, .adc (.l .R13) .BX, .adc (.l .R14) .SI, .mov (.l .DX) .DI, .sub (.q 0) .DX,
   .mov (.l .CX) .R8, .sbb (.q 1) .CX, .mov (.l .BX) .R9, .sbb (.q 2) .BX, .mov (.l .SI) .R10,
   .sbb (.q 3) .SI, .cmovcs (.l .DI) .DX, .cmovcs (.l .R8) .CX, .cmovcs (.l .R9) .BX,
   .cmovcs (.l .R10) .SI, .add (.mem 0 .AX) .DX, .adc (.mem 1 .AX) .CX, .adc (.mem 2 .AX) .BX,
   .adc (.mem 3 .AX) .SI, .mov (.l .DX) .DI, .sub (.q 0) .DX, .mov (.l .CX) .R8, .sbb (.q 1) .CX,
   .mov (.l .BX) .R9, .sbb (.q 2) .BX, .mov (.l .SI) .R10, .sbb (.q 3) .SI, .cmovcs (.l .DI) .DX,
   .cmovcs (.l .R8) .CX, .cmovcs (.l .R9) .BX, .cmovcs (.l .R10) .SI, .store .DX 0 .AX,
   .store .CX 1 .AX, .store .BX 2 .AX, .store .SI 3 .AX, .ret]

/-- `Butterfly`, element_4w_amd64.s:160-205. -/
def butterfly_4w : List Instr :=
  [.mov (.arg 0) .R15, .mov (.mem 0 .R15) .DX, .mov (.mem 1 .R15) .CX, .mov (.mem 2 .R15) .BX,
   .mov (.mem 3 .R15) .SI, .mov (.l .DX) .DI, .mov (.l .CX) .R8, .mov (.l .BX) .R9,
   .mov (.l .SI) .R10, .xor (.l .R15) .R15, .mov (.arg 1) .AX, .add (.mem 0 .AX) .DX,
   .adc (.mem 1 .AX) .CX, .adc (.mem 2 .AX) .BX, .adc (.mem 3 .AX) .SI, .sub (.mem 0 .AX) .DI,
   .sbb (.mem 1 .AX) .R8, .sbb (.mem 2 .AX) .R9, .sbb (.mem 3 .AX) .R10, .mov (.cq 0) .R11,
   .mov (.cq 1) .R12, .mov (.cq 2) .R13, .mov (.cq 3) .R14, .cmovcc (.l .R15) .R11,
   .cmovcc (.l .R15) .R12, .cmovcc (.l .R15) .R13, .cmovcc (.l .R15) .R14, .add (.l .R11) .DI,
   .adc (.l .R12) .R8, .adc (.l .R13) .R9, .adc (.l .R14) .R10, .store .DI 0 .AX, .store .R8 1 .AX,
   .store .R9 2 .AX, .store .R10 3 .AX, .mov (.l .DX) .DI, .sub (.q 0) .DX, .mov (.l .CX) .R8,
   .sbb (.q 1) .CX, .mov (.l .BX) .R9, .sbb (.q 2) .BX, .mov (.l .SI) .R10, .sbb (.q 3) .SI,
   .cmovcs (.l .DI) .DX, .cmovcs (.l .R8) .CX, .cmovcs (.l .R9) .BX, .cmovcs (.l .R10) .SI,
   .mov (.arg 0) .R15, .store .DX 0 .R15, .store .CX 1 .R15, .store .BX 2 .R15, .store .SI 3 .R15,
   .ret]

/-- `mul`, element_4w_amd64.s:208-306. -/
def mul_4w : List Instr :=
  [.cmpAdx, .jne 1, .mov (.arg 1) .SI, .mov (.mem 0 .SI) .DI, .mov (.mem 1 .SI) .R8,
   .mov (.mem 2 .SI) .R9, .mov (.mem 3 .SI) .R10, .mov (.arg 2) .R11, .mov (.mem 0 .R11) .DX,
   .xor (.l .AX) .AX, .mulx (.l .DI) .R14 .R13, .mulx (.l .R8) .AX .CX, .adox (.l .AX) .R13,
   .mulx (.l .R9) .AX .BX, .adox (.l .AX) .CX, .mulx (.l .R10) .AX .BP, .adox (.l .AX) .BX,
   .mov (.imm 0) .AX, .adox (.l .AX) .BP, .mov .qInv .DX, .imul (.l .R14) .DX, .xor (.l .AX) .AX,
   .mulx (.q 0) .AX .R12, .adcx (.l .R14) .AX, .mov (.l .R12) .R14, .adcx (.l .R13) .R14,
   .mulx (.q 1) .AX .R13, .adox (.l .AX) .R14, .adcx (.l .CX) .R13, .mulx (.q 2) .AX .CX,
   .adox (.l .AX) .R13, .adcx (.l .BX) .CX, .mulx (.q 3) .AX .BX, .adox (.l .AX) .CX,
   .mov (.imm 0) .AX, .adcx (.l .AX) .BX, .adox (.l .BP) .BX, .mov (.mem 1 .R11) .DX,
   .xor (.l .AX) .AX, .mulx (.l .DI) .AX .BP, .adox (.l .AX) .R14, .adcx (.l .BP) .R13,
   .mulx (.l .R8) .AX .BP, .adox (.l .AX) .R13, .adcx (.l .BP) .CX, .mulx (.l .R9) .AX .BP,
   .adox (.l .AX) .CX, .adcx (.l .BP) .BX, .mulx (.l .R10) .AX .BP, .adox (.l .AX) .BX,
   .mov (.imm 0) .AX, .adcx (.l .AX) .BP, .adox (.l .AX) .BP, .mov .qInv .DX, .imul (.l .R14) .DX,
   .xor (.l .AX) .AX, .mulx (.q 0) .AX .R12, .adcx (.l .R14) .AX, .mov (.l .R12) .R14,
   .adcx (.l .R13) .R14, .mulx (.q 1) .AX .R13, .adox (.l .AX) .R14, .adcx (.l .CX) .R13,
   .mulx (.q 2) .AX .CX, .adox (.l .AX) .R13, .adcx (.l .BX) .CX, .mulx (.q 3) .AX .BX,
   .adox (.l .AX) .CX, .mov (.imm 0) .AX, .adcx (.l .AX) .BX, .adox (.l .BP) .BX,
   .mov (.mem 2 .R11) .DX, .xor (.l .AX) .AX, .mulx (.l .DI) .AX .BP, .adox (.l .AX) .R14,
   .adcx (.l .BP) .R13, .mulx (.l .R8) .AX .BP, .adox (.l .AX) .R13, .adcx (.l .BP) .CX,
   .mulx (.l .R9) .AX .BP, .adox (.l .AX) .CX, .adcx (.l .BP) .BX, .mulx (.l .R10) .AX .BP,
   .adox (.l .AX) .BX, .mov (.imm 0) .AX, .adcx (.l .AX) .BP, .adox (.l .AX) .BP, .mov .qInv .DX,
   .imul (.l .R14) .DX, .xor (.l .AX) .AX, .mulx (.q 0) .AX .R12, .adcx (.l .R14) .AX,
   .mov (.l .R12) .R14, .adcx (.l .R13) .R14, .mulx (.q 1) .AX .R13, .adox (.l .AX) .R14,
   .adcx (.l .CX) .R13, .mulx (.q 2) .AX .CX, .adox (.l .AX) .R13, .adcx (.l .BX) .CX,
   .mulx (.q 3) .AX .BX, .adox (.l .AX) .CX, .mov (.imm 0) .AX, .adcx (.l .AX) .BX,
   .adox (.l .BP) .BX, .mov (.mem 3 .R11) .DX, .xor (.l .AX) .AX, .mulx (.l .DI) .AX .BP,
   .adox (.l .AX) .R14, .adcx (.l .BP) .R13, .mulx (.l .R8) .AX .BP, .adox (.l .AX) .R13,
   .adcx (.l .BP) .CX, .mulx (.l .R9) .AX .BP, .adox (.l .AX) .CX, .adcx (.l .BP) .BX,
   .mulx (.l .R10) .AX .BP, .adox (.l .AX) .BX, .mov (.imm 0) .AX, .adcx (.l .AX) .BP,
   .adox (.l .AX) .BP, .mov .qInv .DX, .imul (.l .R14) .DX, .xor (.l .AX) .AX,
   .mulx (.q 0) .AX .R12, .adcx (.l .R14) .AX, .mov (.l .R12) .R14, .adcx (.l .R13) .R14,
   .mulx (.q 1) .AX .R13, .adox (.l .AX) .R14, .adcx (.l .CX) .R13, .mulx (.q 2) .AX .CX,
   .adox (.l .AX) .R13, .adcx (.l .BX) .CX, .mulx (.q 3) .AX .BX, .adox (.l .AX) .CX,
   .mov (.imm 0) .AX, .adcx (.l .AX) .BX, .adox (.l .BP) .BX, .mov (.l .R14) .SI, .sub (.q 0) .R14,
   .mov (.l .R13) .R12, .sbb (.q 1) .R13, .mov (.l .CX) .R11, .sbb (.q 2) .CX, .mov (.l .BX) .DI,
   .sbb (.q 3) .BX, .cmovcs (.l .SI) .R14, .cmovcs (.l .R12) .R13, .cmovcs (.l .R11) .CX,
   .cmovcs (.l .DI) .BX, .mov (.arg 0) .AX, .store .R14 0 .AX, .store .R13 1 .AX, .store .CX 2 .AX,
   .store .BX 3 .AX, .ret, .label 1, .mov (.arg 0) .AX, .mov (.l .AX) (.out 0), .mov (.arg 1) .AX,
   .mov (.l .AX) (.out 1), .mov (.arg 2) .AX, .mov (.l .AX) (.out 2), .callMul, .ret]

/-- `fromMont`, element_4w_amd64.s:308-460. -/
def fromMont_4w : List Instr :=
  [.cmpAdx, .jne 2, .mov (.arg 0) .DX, .mov (.mem 0 .DX) .R13, .mov (.mem 1 .DX) .R14,
   .mov (.mem 2 .DX) .CX, .mov (.mem 3 .DX) .BX, .xor (.l .DX) .DX, .mov .qInv .DX,
   .imul (.l .R13) .DX, .xor (.l .AX) .AX, .mulx (.q 0) .AX .BP, .adcx (.l .R13) .AX,
   .mov (.l .BP) .R13, .adcx (.l .R14) .R13, .mulx (.q 1) .AX .R14, .adox (.l .AX) .R13,
   .adcx (.l .CX) .R14, .mulx (.q 2) .AX .CX, .adox (.l .AX) .R14, .adcx (.l .BX) .CX,
   .mulx (.q 3) .AX .BX, .adox (.l .AX) .CX, .mov (.imm 0) .AX, .adcx (.l .AX) .BX,
   .adox (.l .AX) .BX, .xor (.l .DX) .DX, .mov .qInv .DX, .imul (.l .R13) .DX, .xor (.l .AX) .AX,
   .mulx (.q 0) .AX .BP, .adcx (.l .R13) .AX, .mov (.l .BP) .R13, .adcx (.l .R14) .R13,
   .mulx (.q 1) .AX .R14, .adox (.l .AX) .R13, .adcx (.l .CX) .R14, .mulx (.q 2) .AX .CX,
   .adox (.l .AX) .R14, .adcx (.l .BX) .CX, .mulx (.q 3) .AX .BX, .adox (.l .AX) .CX,
   .mov (.imm 0) .AX, .adcx (.l .AX) .BX, .adox (.l .AX) .BX, .xor (.l .DX) .DX, .mov .qInv .DX,
   .imul (.l .R13) .DX, .xor (.l .AX) .AX, .mulx (.q 0) .AX .BP, .adcx (.l .R13) .AX,
   .mov (.l .BP) .R13, .adcx (.l .R14) .R13, .mulx (.q 1) .AX .R14, .adox (.l .AX) .R13,
   .adcx (.l .CX) .R14, .mulx (.q 2) .AX .CX, .adox (.l .AX) .R14, .adcx (.l .BX) .CX,
   .mulx (.q 3) .AX .BX, .adox (.l .AX) .CX, .mov (.imm 0) .AX, .adcx (.l .AX) .BX,
   .adox (.l .AX) .BX, .xor (.l .DX) .DX, .mov .qInv .DX, .imul (.l .R13) .DX, .xor (.l .AX) .AX,
   .mulx (.q 0) .AX .BP, .adcx (.l .R13) .AX, .mov (.l .BP) .R13, .adcx (.l .R14) .R13,
   .mulx (.q 1) .AX .R14, .adox (.l .AX) .R13, .adcx (.l .CX) .R14, .mulx (.q 2) .AX .CX,
   .adox (.l .AX) .R14, .adcx (.l .BX) .CX, .mulx (.q 3) .AX .BX, .adox (.l .AX) .CX,
   .mov (.imm 0) .AX, .adcx (.l .AX) .BX, .adox (.l .AX) .BX, .mov (.l .R13) .SI, .sub (.q 0) .R13,
   .mov (.l .R14) .DI, .sbb (.q 1) .R14, .mov (.l .CX) .R8, .sbb (.q 2) .CX, .mov (.l .BX) .R9,
   .sbb (.q 3) .BX, .cmovcs (.l .SI) .R13, .cmovcs (.l .DI) .R14, .cmovcs (.l .R8) .CX,
   .cmovcs (.l .R9) .BX, .mov (.arg 0) .AX, .store .R13 0 .AX, .store .R14 1 .AX, .store .CX 2 .AX,
   .store .BX 3 .AX, .ret, .label 2, .mov (.arg 0) .AX, .mov (.l .AX) (.out 0), .callFromMont, .ret]

/-- `reduce`, element_7w_amd64.s:29-49. -/
def reduce_7w : List Instr :=
  [.mov (.arg 0) .AX, .mov (.mem 0 .AX) .DX, .mov (.mem 1 .AX) .CX, .mov (.mem 2 .AX) .BX,
   .mov (.mem 3 .AX) .SI, .mov (.mem 4 .AX) .DI, .mov (.mem 5 .AX) .R8, .mov (.mem 6 .AX) .R9,
   .mov (.l .DX) .R10, .sub (.q 0) .DX, .mov (.l .CX) .R11, .sbb (.q 1) .CX, .mov (.l .BX) .R12,
   .sbb (.q 2) .BX, .mov (.l .SI) .R13, .sbb (.q 3) .SI, .mov (.l .DI) .R14, .sbb (.q 4) .DI,
   .mov (.l .R8) (.slot 0), .sbb (.q 5) .R8, .mov (.l .R9) (.slot 1), .sbb (.q 6) .R9,
   .cmovcs (.l .R10) .DX, .cmovcs (.l .R11) .CX, .cmovcs (.l .R12) .BX, .cmovcs (.l .R13) .SI,
   .cmovcs (.l .R14) .DI, .cmovcs (.l (.slot 0)) .R8, .cmovcs (.l (.slot 1)) .R9, .store .DX 0 .AX,
   .store .CX 1 .AX, .store .BX 2 .AX, .store .SI 3 .AX, .store .DI 4 .AX, .store .R8 5 .AX,
   .store .R9 6 .AX, .ret]

/-- `MulBy3`, element_7w_amd64.s:52-90. -/
def mulBy3_7w : List Instr :=
  [.mov (.arg 0) .AX, .mov (.mem 0 .AX) .DX, .mov (.mem 1 .AX) .CX, .mov (.mem 2 .AX) .BX,
   .mov (.mem 3 .AX) .SI, .mov (.mem 4 .AX) .DI, .mov (.mem 5 .AX) .R8, .mov (.mem 6 .AX) .R9,
   .add (.l .DX) .DX, .adc (.l .CX) .CX, .adc (.l .BX) .BX, .adc (.l .SI) .SI, .adc (.l .DI) .DI,
   .adc (.l .R8) .R8, .adc (.l .R9) .R9, .mov (.l .DX) .R10, .sub (.q 0) .DX, .mov (.l .CX) .R11,
   .sbb (.q 1) .CX, .mov (.l .BX) .R12, .sbb (.q 2) .BX, .mov (.l .SI) .R13, .sbb (.q 3) .SI,
   .mov (.l .DI) .R14, .sbb (.q 4) .DI, .mov (.l .R8) (.slot 0), .sbb (.q 5) .R8,
   .mov (.l .R9) (.slot 1), .sbb (.q 6) .R9, .cmovcs (.l .R10) .DX, .cmovcs (.l .R11) .CX,
   .cmovcs (.l .R12) .BX, .cmovcs (.l .R13) .SI, .cmovcs (.l .R14) .DI, .cmovcs (.l (.slot 0)) .R8,
   .cmovcs (.l (.slot 1)) .R9, .add (.mem 0 .AX) .DX, .adc (.mem 1 .AX) .CX, .adc (.mem 2 .AX) .BX,
   .adc (.mem 3 .AX) .SI, .adc (.mem 4 .AX) .DI, .adc (.mem 5 .AX) .R8, .adc (.mem 6 .AX) .R9,
   .mov (.l .DX) .R10, .sub (.q 0) .DX, .mov (.l .CX) .R11, .sbb (.q 1) .CX, .mov (.l .BX) .R12,
   .sbb (.q 2) .BX, .mov (.l .SI) .R13, .sbb (.q 3) .SI, .mov (.l .DI) .R14, .sbb (.q 4) .DI,
   .mov (.l .R8) (.slot 0), .sbb (.q 5) .R8, .mov (.l .R9) (.slot 1), .sbb (.q 6) .R9,
   .cmovcs (.l .R10) .DX, .cmovcs (.l .R11) .CX, .cmovcs (.l .R12) .BX, .cmovcs (.l .R13) .SI,
   .cmovcs (.l .R14) .DI, .cmovcs (.l (.slot 0)) .R8, .cmovcs (.l (.slot 1)) .R9, .store .DX 0 .AX,
   .store .CX 1 .AX, .store .BX 2 .AX, .store .SI 3 .AX, .store .DI 4 .AX, .store .R8 5 .AX,
   .store .R9 6 .AX, .ret]

/-- `MulBy5`, element_7w_amd64.s:93-142. -/
def mulBy5_7w : List Instr :=
  [.mov (.arg 0) .AX, .mov (.mem 0 .AX) .DX, .mov (.mem 1 .AX) .CX, .mov (.mem 2 .AX) .BX,
   .mov (.mem 3 .AX) .SI, .mov (.mem 4 .AX) .DI, .mov (.mem 5 .AX) .R8, .mov (.mem 6 .AX) .R9,
   .add (.l .DX) .DX, .adc (.l .CX) .CX, .adc (.l .BX) .BX, .adc (.l .SI) .SI, .adc (.l .DI) .DI,
   .adc (.l .R8) .R8, .adc (.l .R9) .R9, .mov (.l .DX) .R10, .sub (.q 0) .DX, .mov (.l .CX) .R11,
   .sbb (.q 1) .CX, .mov (.l .BX) .R12, .sbb (.q 2) .BX, .mov (.l .SI) .R13, .sbb (.q 3) .SI,
   .mov (.l .DI) .R14, .sbb (.q 4) .DI, .mov (.l .R8) (.slot 0), .sbb (.q 5) .R8,
   .mov (.l .R9) (.slot 1), .sbb (.q 6) .R9, .cmovcs (.l .R10) .DX, .cmovcs (.l .R11) .CX,
   .cmovcs (.l .R12) .BX, .cmovcs (.l .R13) .SI, .cmovcs (.l .R14) .DI, .cmovcs (.l (.slot 0)) .R8,
   .cmovcs (.l (.slot 1)) .R9, .add (.l .DX) .DX, .adc (.l .CX) .CX, .adc (.l .BX) .BX,
   .adc (.l .SI) .SI, .adc (.l .DI) .DI, .adc (.l .R8) .R8, .adc (.l .R9) .R9, .mov (.l .DX) .R10,
   .sub (.q 0) .DX, .mov (.l .CX) .R11, .sbb (.q 1) .CX, .mov (.l .BX) .R12, .sbb (.q 2) .BX,
   .mov (.l .SI) .R13, .sbb (.q 3) .SI, .mov (.l .DI) .R14, .sbb (.q 4) .DI,
   .mov (.l .R8) (.slot 0), .sbb (.q 5) .R8, .mov (.l .R9) (.slot 1), .sbb (.q 6) .R9,
   .cmovcs (.l .R10) .DX, .cmovcs (.l .R11) .CX, .cmovcs (.l .R12) .BX, .cmovcs (.l .R13) .SI,
   .cmovcs (.l .R14) .DI, .cmovcs (.l (.slot 0)) .R8, .cmovcs (.l (.slot 1)) .R9,
   .add (.mem 0 .AX) .DX, .adc (.mem 1 .AX) .CX, .adc (.mem 2 .AX) .BX, .adc (.mem 3 .AX) .SI,
   .adc (.mem 4 .AX) .DI, .adc (.mem 5 .AX) .R8, .adc (.mem 6 .AX) .R9, .mov (.l .DX) .R10,
   .sub (.q 0) .DX, .mov (.l .CX) .R11, .sbb (.q 1) .CX, .mov (.l .BX) .R12, .sbb (.q 2) .BX,
   .mov (.l .SI) .R13, .sbb (.q 3) .SI, .mov (.l .DI) .R14, .sbb (.q 4) .DI,
   .mov (.l .R8) (.slot 0), .sbb (.q 5) .R8, .mov (.l .R9) (.slot 1), .sbb (.q 6) .R9,
   .cmovcs (.l .R10) .DX, .cmovcs (.l .R11) .CX, .cmovcs (.l .R12) .BX, .cmovcs (.l .R13) .SI,
   .cmovcs (.l .R14) .DI, .cmovcs (.l (.slot 0)) .R8, .cmovcs (.l (.slot 1)) .R9, .store .DX 0 .AX,
   .store .CX 1 .AX, .store .BX 2 .AX, .store .SI 3 .AX, .store .DI 4 .AX, .store .R8 5 .AX,
   .store .R9 6 .AX, .ret]

/-- `MulBy13`, element_7w_amd64.s:145-223. -/
def mulBy13_7w : List Instr :=
  [.mov (.arg 0) .AX, .mov (.mem 0 .AX) .DX, .mov (.mem 1 .AX) .CX, .mov (.mem 2 .AX) .BX,
   .mov (.mem 3 .AX) .SI, .mov (.mem 4 .AX) .DI, .mov (.mem 5 .AX) .R8, .mov (.mem 6 .AX) .R9,
   .add (.l .DX) .DX, .adc (.l .CX) .CX, .adc (.l .BX) .BX, .adc (.l .SI) .SI, .adc (.l .DI) .DI,
   .adc (.l .R8) .R8, .adc (.l .R9) .R9, .mov (.l .DX) .R10, .sub (.q 0) .DX, .mov (.l .CX) .R11,
   .sbb (.q 1) .CX, .mov (.l .BX) .R12, .sbb (.q 2) .BX, .mov (.l .SI) .R13, .sbb (.q 3) .SI,
   .mov (.l .DI) .R14, .sbb (.q 4) .DI, .mov (.l .R8) (.slot 0), .sbb (.q 5) .R8,
   .mov (.l .R9) (.slot 1), .sbb (.q 6) .R9, .cmovcs (.l .R10) .DX, .cmovcs (.l .R11) .CX,
   .cmovcs (.l .R12) .BX, .cmovcs (.l .R13) .SI, .cmovcs (.l .R14) .DI, .cmovcs (.l (.slot 0)) .R8,
   .cmovcs (.l (.slot 1)) .R9, .add (.l .DX) .DX, .adc (.l .CX) .CX, .adc (.l .BX) .BX,
   .adc (.l .SI) .SI, .adc (.l .DI) .DI, .adc (.l .R8) .R8, .adc (.l .R9) .R9,
   .mov (.l .DX) (.slot 2), .sub (.q 0) .DX, .mov (.l .CX) (.slot 3), .sbb (.q 1) .CX,
   .mov (.l .BX) (.slot 4), .sbb (.q 2) .BX, .mov (.l .SI) (.slot 5), .sbb (.q 3) .SI,
   .mov (.l .DI) (.slot 6), .sbb (.q 4) .DI, .mov (.l .R8) (.slot 7), .sbb (.q 5) .R8,
   .mov (.l .R9) (.slot 8), .sbb (.q 6) .R9, .cmovcs (.l (.slot 2)) .DX,
   .cmovcs (.l (.slot 3)) .CX, .cmovcs (.l (.slot 4)) .BX, .cmovcs (.l (.slot 5)) .SI,
   .cmovcs (.l (.slot 6)) .DI, .cmovcs (.l (.slot 7)) .R8, .cmovcs (.l (.slot 8)) .R9,
   .mov (.l .DX) (.slot 2), .mov (.l .CX) (.slot 3), .mov (.l .BX) (.slot 4),
   .mov (.l .SI) (.slot 5), .mov (.l .DI) (.slot 6), .mov (.l .R8) (.slot 7),
   .mov (.l .R9) (.slot 8), .add (.l .DX) .DX, .adc (.l .CX) .CX, .adc (.l .BX) .BX,
   .adc (.l .SI) .SI, .adc (.l .DI) .DI, .adc (.l .R8) .R8, .adc (.l .R9) .R9, .mov (.l .DX) .R10,
   .sub (.q 0) .DX, .mov (.l .CX) .R11, .sbb (.q 1) .CX, .mov (.l .BX) .R12, .sbb (.q 2) .BX,
   .mov (.l .SI) .R13, .sbb (.q 3) .SI, .mov (.l .DI) .R14, .sbb (.q 4) .DI,
   .mov (.l .R8) (.slot 0), .sbb (.q 5) .R8, .mov (.l .R9) (.slot 1), .sbb (.q 6) .R9,
   .cmovcs (.l .R10) .DX, .cmovcs (.l .R11) .CX, .cmovcs (.l .R12) .BX, .cmovcs (.l .R13) .SI,
   .cmovcs (.l .R14) .DI, .cmovcs (.l (.slot 0)) .R8, .cmovcs (.l (.slot 1)) .R9,
   .add (.l (.slot 2)) .DX, .adc (.l (.slot 3)) .CX, .adc (.l (.slot 4)) .BX,
   .adc (.l (.slot 5)) .SI, .adc (.l (.slot 6)) .DI, .adc (.l (.slot 7)) .R8,
   .adc (.l (.slot 8)) .R9, .mov (.l .DX) .R10, .sub (.q 0) .DX, .mov (.l .CX) .R11,
   .sbb (.q 1) .CX, .mov (.l .BX) .R12, .sbb (.q 2) .BX, .mov (.l .SI) .R13, .sbb (.q 3) .SI,
   .mov (.l .DI) .R14, .sbb (.q 4) .DI, .mov (.l .R8) (.slot 0), .sbb (.q 5) .R8,
   .mov (.l .R9) (.slot 1), .sbb (.q 6) .R9, .cmovcs (.l .R10) .DX, .cmovcs (.l .R11) .CX,
   .cmovcs (.l .R12) .BX, .cmovcs (.l .R13) .SI, .cmovcs (.l .R14) .DI, .cmovcs (.l (.slot 0)) .R8,
   .cmovcs (.l (.slot 1)) .R9, .add (.mem 0 .AX) .DX, .adc (.mem 1 .AX) .CX, .adc (.mem 2 .AX) .BX,
   .adc (.mem 3 .AX) .SI, .adc (.mem 4 .AX) .DI, .adc (.mem 5 .AX) .R8, .adc (.mem 6 .AX) .R9,
   .mov (.l .DX) .R10, .sub (.q 0) .DX, .mov (.l .CX) .R11, .sbb (.q 1) .CX, .mov (.l .BX) .R12,
   .sbb (.q 2) .BX, .mov (.l .SI) .R13, .sbb (.q 3) .SI, .mov (.l .DI) .R14, .sbb (.q 4) .DI,
   .mov (.l .R8) (.slot 0), .sbb (.q 5) .R8, .mov (.l .R9) (.slot 1), .sbb (.q 6) .R9,
   .cmovcs (.l .R10) .DX, .cmovcs (.l .R11) .CX, .cmovcs (.l .R12) .BX, .cmovcs (.l .R13) .SI,
   .cmovcs (.l .R14) .DI, .cmovcs (.l (.slot 0)) .R8, .cmovcs (.l (.slot 1)) .R9, .store .DX 0 .AX,
   .store .CX 1 .AX, .store .BX 2 .AX, .store .SI 3 .AX, .store .DI 4 .AX, .store .R8 5 .AX,
   .store .R9 6 .AX, .ret]

/-- `Butterfly`, element_7w_amd64.s:226-309. -/
def butterfly_7w : List Instr :=
  [.mov (.arg 1) .AX, .mov (.mem 0 .AX) .DX, .mov (.mem 1 .AX) .CX, .mov (.mem 2 .AX) .BX,
   .mov (.mem 3 .AX) .SI, .mov (.mem 4 .AX) .DI, .mov (.mem 5 .AX) .R8, .mov (.mem 6 .AX) .R9,
   .mov (.arg 0) .AX, .add (.mem 0 .AX) .DX, .adc (.mem 1 .AX) .CX, .adc (.mem 2 .AX) .BX,
   .adc (.mem 3 .AX) .SI, .adc (.mem 4 .AX) .DI, .adc (.mem 5 .AX) .R8, .adc (.mem 6 .AX) .R9,
   .mov (.l .DX) .R10, .mov (.l .CX) .R11, .mov (.l .BX) .R12, .mov (.l .SI) .R13,
   .mov (.l .DI) .R14, .mov (.l .R8) (.slot 0), .mov (.l .R9) (.slot 1), .mov (.mem 0 .AX) .DX,
   .mov (.mem 1 .AX) .CX, .mov (.mem 2 .AX) .BX, .mov (.mem 3 .AX) .SI, .mov (.mem 4 .AX) .DI,
   .mov (.mem 5 .AX) .R8, .mov (.mem 6 .AX) .R9, .mov (.arg 1) .AX, .sub (.mem 0 .AX) .DX,
   .sbb (.mem 1 .AX) .CX, .sbb (.mem 2 .AX) .BX, .sbb (.mem 3 .AX) .SI, .sbb (.mem 4 .AX) .DI,
   .sbb (.mem 5 .AX) .R8, .sbb (.mem 6 .AX) .R9, .jcc 1, .mov (.cq 0) .AX, .add (.l .AX) .DX,
   .mov (.cq 1) .AX, .adc (.l .AX) .CX, .mov (.cq 2) .AX, .adc (.l .AX) .BX, .mov (.cq 3) .AX,
   .adc (.l .AX) .SI, .mov (.cq 4) .AX, .adc (.l .AX) .DI, .mov (.cq 5) .AX, .adc (.l .AX) .R8,
   .mov (.cq 6) .AX, .adc (.l .AX) .R9, .label 1, .mov (.arg 1) .AX, .store .DX 0 .AX,
   .store .CX 1 .AX, .store .BX 2 .AX, .store .SI 3 .AX, .store .DI 4 .AX, .store .R8 5 .AX,
   .store .R9 6 .AX, .mov (.l .R10) .DX, .mov (.l .R11) .CX, .mov (.l .R12) .BX,
   .mov (.l .R13) .SI, .mov (.l .R14) .DI, .mov (.l (.slot 0)) .R8, .mov (.l (.slot 1)) .R9,
   .mov (.l .DX) .R10, .sub (.q 0) .DX, .mov (.l .CX) .R11, .sbb (.q 1) .CX, .mov (.l .BX) .R12,
   .sbb (.q 2) .BX, .mov (.l .SI) .R13, .sbb (.q 3) .SI, .mov (.l .DI) .R14, .sbb (.q 4) .DI,
   .mov (.l .R8) (.slot 0), .sbb (.q 5) .R8, .mov (.l .R9) (.slot 1), .sbb (.q 6) .R9,
   .cmovcs (.l .R10) .DX, .cmovcs (.l .R11) .CX, .cmovcs (.l .R12) .BX, .cmovcs (.l .R13) .SI,
   .cmovcs (.l .R14) .DI, .cmovcs (.l (.slot 0)) .R8, .cmovcs (.l (.slot 1)) .R9,
   .mov (.arg 0) .AX, .store .DX 0 .AX, .store .CX 1 .AX, .store .BX 2 .AX, .store .SI 3 .AX,
   .store .DI 4 .AX, .store .R8 5 .AX, .store .R9 6 .AX, .ret]

/-- `mul`, element_7w_amd64.s:312-428. -/
def mul_7w : List Instr :=
  [.cmpAdx, .jne 2, .mov (.arg 1) .R9, .mov (.mem 0 .R9) .R11, .mov (.arg 2) .R12,
   .mov (.mem 0 .R12) .DX, .xor (.l .AX) .AX, .mulx (.l .R11) .R14 .R13,
   .mulx (.mem 1 .R9) .AX .CX, .adox (.l .AX) .R13, .mulx (.mem 2 .R9) .AX .BX, .adox (.l .AX) .CX,
   .mulx (.mem 3 .R9) .AX .SI, .adox (.l .AX) .BX, .mulx (.mem 4 .R9) .AX .DI, .adox (.l .AX) .SI,
   .mulx (.mem 5 .R9) .AX .R8, .adox (.l .AX) .DI, .mulx (.mem 6 .R9) .AX .BP, .adox (.l .AX) .R8,
   .mov (.imm 0) .AX, .adox (.l .AX) .BP, .mov .qInv .DX, .imul (.l .R14) .DX, .xor (.l .AX) .AX,
   .mulx (.q 0) .AX .R10, .adcx (.l .R14) .AX, .mov (.l .R10) .R14, .adcx (.l .R13) .R14,
   .mulx (.q 1) .AX .R13, .adox (.l .AX) .R14, .adcx (.l .CX) .R13, .mulx (.q 2) .AX .CX,
   .adox (.l .AX) .R13, .adcx (.l .BX) .CX, .mulx (.q 3) .AX .BX, .adox (.l .AX) .CX,
   .adcx (.l .SI) .BX, .mulx (.q 4) .AX .SI, .adox (.l .AX) .BX, .adcx (.l .DI) .SI,
   .mulx (.q 5) .AX .DI, .adox (.l .AX) .SI, .adcx (.l .R8) .DI, .mulx (.q 6) .AX .R8,
   .adox (.l .AX) .DI, .mov (.imm 0) .AX, .adcx (.l .AX) .R8, .adox (.l .BP) .R8,
   .mov (.mem 1 .R12) .DX, .xor (.l .AX) .AX, .mulx (.l .R11) .AX .BP, .adox (.l .AX) .R14,
   .adcx (.l .BP) .R13, .mulx (.mem 1 .R9) .AX .BP, .adox (.l .AX) .R13, .adcx (.l .BP) .CX,
   .mulx (.mem 2 .R9) .AX .BP, .adox (.l .AX) .CX, .adcx (.l .BP) .BX, .mulx (.mem 3 .R9) .AX .BP,
   .adox (.l .AX) .BX, .adcx (.l .BP) .SI, .mulx (.mem 4 .R9) .AX .BP, .adox (.l .AX) .SI,
   .adcx (.l .BP) .DI, .mulx (.mem 5 .R9) .AX .BP, .adox (.l .AX) .DI, .adcx (.l .BP) .R8,
   .mulx (.mem 6 .R9) .AX .BP, .adox (.l .AX) .R8, .mov (.imm 0) .AX, .adcx (.l .AX) .BP,
   .adox (.l .AX) .BP, .mov .qInv .DX, .imul (.l .R14) .DX, .xor (.l .AX) .AX,
   .mulx (.q 0) .AX .R10, .adcx (.l .R14) .AX, .mov (.l .R10) .R14, .adcx (.l .R13) .R14,
   .mulx (.q 1) .AX .R13, .adox (.l .AX) .R14, .adcx (.l .CX) .R13, .mulx (.q 2) .AX .CX,
   .adox (.l .AX) .R13, .adcx (.l .BX) .CX, .mulx (.q 3) .AX .BX, .adox (.l .AX) .CX,
   .adcx (.l .SI) .BX, .mulx (.q 4) .AX .SI, .adox (.l .AX) .BX, .adcx (.l .DI) .SI,
   .mulx (.q 5) .AX .DI, .adox (.l .AX) .SI, .adcx (.l .R8) .DI, .mulx (.q 6) .AX .R8,
   .adox (.l .AX) .DI, .mov (.imm 0) .AX, .adcx (.l .AX) .R8, .adox (.l .BP) .R8,
   .mov (.mem 2 .R12) .DX, .xor (.l .AX) .AX, .mulx (.l .R11) .AX .BP, .adox (.l .AX) .R14,
   .adcx (.l .BP) .R13, .mulx (.mem 1 .R9) .AX .BP, .adox (.l .AX) .R13, .adcx (.l .BP) .CX,
   .mulx (.mem 2 .R9) .AX .BP, .adox (.l .AX) .CX, .adcx (.l .BP) .BX, .mulx (.mem 3 .R9) .AX .BP,
   .adox (.l .AX) .BX, .adcx (.l .BP) .SI, .mulx (.mem 4 .R9) .AX .BP, .adox (.l .AX) .SI,
   .adcx (.l .BP) .DI, .mulx (.mem 5 .R9) .AX .BP, .adox (.l .AX) .DI, .adcx (.l .BP) .R8,
   .mulx (.mem 6 .R9) .AX .BP, .adox (.l .AX) .R8, .mov (.imm 0) .AX, .adcx (.l .AX) .BP,
   .adox (.l .AX) .BP, .mov .qInv .DX, .imul (.l .R14) .DX, .xor (.l .AX) .AX,
   .mulx (.q 0) .AX .R10, .adcx (.l .R14) .AX, .mov (.l .R10) .R14, .adcx (.l .R13) .R14,
   .mulx (.q 1) .AX .R13, .adox (.l .AX) .R14, .adcx (.l .CX) .R13, .mulx (.q 2) .AX .CX,
   .adox (.l .AX) .R13, .adcx (.l .BX) .CX, .mulx (.q 3) .AX .BX, .adox (.l .AX) .CX,
   .adcx (.l .SI) .BX, .mulx (.q 4) .AX .SI, .adox (.l .AX) .BX, .adcx (.l .DI) .SI,
   .mulx (.q 5) .AX .DI, .adox (.l .AX) .SI, .adcx (.l .R8) .DI, .mulx (.q 6) .AX .R8,
   .adox (.l .AX) .DI, .mov (.imm 0) .AX, .adcx (.l .AX) .R8, .adox (.l .BP) .R8,
   .mov (.mem 3 .R12) .DX, .xor (.l .AX) .AX, .mulx (.l .R11) .AX .BP, .adox (.l .AX) .R14,
   .adcx (.l .BP) .R13, .mulx (.mem 1 .R9) .AX .BP, .adox (.l .AX) .R13, .adcx (.l .BP) .CX,
   .mulx (.mem 2 .R9) .AX .BP, .adox (.l .AX) .CX, .adcx (.l .BP) .BX, .mulx (.mem 3 .R9) .AX .BP,
   .adox (.l .AX) .BX, .adcx (.l .BP) .SI, .mulx (.mem 4 .R9) .AX .BP, .adox (.l .AX) .SI,
   .adcx (.l .BP) .DI, .mulx (.mem 5 .R9) .AX .BP, .adox (.l .AX) .DI, .adcx (.l .BP) .R8,
   .mulx (.mem 6 .R9) .AX .BP, .adox (.l .AX) .R8, .mov (.imm 0) .AX, .adcx (.l .AX) .BP,
   .adox (.l .AX) .BP, .mov .qInv .DX, .imul (.l .R14) .DX, .xor (.l .AX) .AX,
   .mulx (.q 0) .AX .R10, .adcx (.l .R14) .AX, .mov (.l .R10) .R14, .adcx (.l .R13) .R14,
   .mulx (.q 1) .AX .R13, .adox (.l .AX) .R14, .adcx (.l .CX) .R13, .mulx (.q 2) .AX .CX,
   .adox (.l .AX) .R13, .adcx (.l .BX) .CX, .mulx (.q 3) .AX .BX, .adox (.l .AX) .CX,
   .adcx (.l .SI) .BX, .mulx (.q 4) .AX .SI, .adox (.l .AX) .BX, .adcx (.l .DI) .SI,
   .mulx (.q 5) .AX .DI, .adox (.l .AX) .SI, .adcx (.l .R8) .DI, .mulx (.q 6) .AX .R8,
   .adox (.l .AX) .DI, .mov (.imm 0) .AX, .adcx (.l .AX) .R8, .adox (.l .BP) .R8,
   .mov (.mem 4 .R12) .DX, .xor (.l .AX) .AX, .mulx (.l .R11) .AX .BP, .adox (.l .AX) .R14,
   .adcx (.l .BP) .R13, .mulx (.mem 1 .R9) .AX .BP, .adox (.l .AX) .R13, .adcx (.l .BP) .CX,
   .mulx (.mem 2 .R9) .AX .BP, .adox (.l .AX) .CX, .adcx (.l .BP) .BX, .mulx (.mem 3 .R9) .AX .BP,
   .adox (.l .AX) .BX, .adcx (.l .BP) .SI, .mulx (.mem 4 .R9) .AX .BP, .adox (.l .AX) .SI,
   .adcx (.l .BP) .DI, .mulx (.mem 5 .R9) .AX .BP, .adox (.l .AX) .DI, .adcx (.l .BP) .R8,
   .mulx (.mem 6 .R9) .AX .BP, .adox (.l .AX) .R8, .mov (.imm 0) .AX, .adcx (.l .AX) .BP,
   .adox (.l .AX) .BP, .mov .qInv .DX, .imul (.l .R14) .DX, .xor (.l .AX) .AX,
   .mulx (.q 0) .AX .R10, .adcx (.l .R14) .AX, .mov (.l .R10) .R14, .adcx (.l .R13) .R14,
   .mulx (.q 1) .AX .R13, .adox (.l .AX) .R14, .adcx (.l .CX) .R13, .mulx (.q 2) .AX .CX,
   .adox (.l .AX) .R13, .adcx (.l .BX) .CX, .mulx (.q 3) .AX .BX, .adox (.l .AX) .CX,
   .adcx (.l .SI) .BX, .mulx (.q 4) .AX .SI, .adox (.l .AX) .BX, .adcx (.l .DI) .SI,
   .mulx (.q 5) .AX .DI, .adox (.l .AX) .SI, .adcx (.l .R8) .DI, .mulx (.q 6) .AX .R8,
   .adox (.l .AX) .DI, .mov (.imm 0) .AX, .adcx (.l .AX) .R8, .adox (.l .BP) .R8,
   .mov (.mem 5 .R12) .DX, .xor (.l .AX) .AX, .mulx (.l .R11) .AX .BP, .adox (.l .AX) .R14,
   .adcx (.l .BP) .R13, .mulx (.mem 1 .R9) .AX .BP, .adox (.l .AX) .R13, .adcx (.l .BP) .CX,
   .mulx (.mem 2 .R9) .AX .BP, .adox (.l .AX) .CX, .adcx (.l .BP) .BX, .mulx (.mem 3 .R9) .AX .BP,
   .adox (.l .AX) .BX, .adcx (.l .BP) .SI, .mulx (.mem 4 .R9) .AX .BP, .adox (.l .AX) .SI,
   .adcx (.l .BP) .DI, .mulx (.mem 5 .R9) .AX .BP, .adox (.l .AX) .DI, .adcx (.l .BP) .R8,
   .mulx (.mem 6 .R9) .AX .BP, .adox (.l .AX) .R8, .mov (.imm 0) .AX, .adcx (.l .AX) .BP,
   .adox (.l .AX) .BP, .mov .qInv .DX, .imul (.l .R14) .DX, .xor (.l .AX) .AX,
   .mulx (.q 0) .AX .R10, .adcx (.l .R14) .AX, .mov (.l .R10) .R14, .adcx (.l .R13) .R14,
   .mulx (.q 1) .AX .R13, .adox (.l .AX) .R14, .adcx (.l .CX) .R13, .mulx (.q 2) .AX .CX,
   .adox (.l .AX) .R13, .adcx (.l .BX) .CX, .mulx (.q 3) .AX .BX, .adox (.l .AX) .CX,
   .adcx (.l .SI) .BX, .mulx (.q 4) .AX .SI, .adox (.l .AX) .BX, .adcx (.l .DI) .SI,
   .mulx (.q 5) .AX .DI, .adox (.l .AX) .SI, .adcx (.l .R8) .DI, .mulx (.q 6) .AX .R8,
   .adox (.l .AX) .DI, .mov (.imm 0) .AX, .adcx (.l .AX) .R8, .adox (.l .BP) .R8,
   .mov (.mem 6 .R12) .DX, .xor (.l .AX) .AX, .mulx (.l .R11) .AX .BP, .adox (.l .AX) .R14,
   .adcx (.l .BP) .R13, .mulx (.mem 1 .R9) .AX .BP, .adox (.l .AX) .R13, .adcx (.l .BP) .CX,
   .mulx (.mem 2 .R9) .AX .BP, .adox (.l .AX) .CX, .adcx (.l .BP) .BX, .mulx (.mem 3 .R9) .AX .BP,
   .adox (.l .AX) .BX, .adcx (.l .BP) .SI, .mulx (.mem 4 .R9) .AX .BP, .adox (.l .AX) .SI,
   .adcx (.l .BP) .DI, .mulx (.mem 5 .R9) .AX .BP, .adox (.l .AX) .DI, .adcx (.l .BP) .R8,
   .mulx (.mem 6 .R9) .AX .BP, .adox (.l .AX) .R8, .mov (.imm 0) .AX, .adcx (.l .AX) .BP,
   .adox (.l .AX) .BP, .mov .qInv .DX, .imul (.l .R14) .DX, .xor (.l .AX) .AX,
   .mulx (.q 0) .AX .R10, .adcx (.l .R14) .AX, .mov (.l .R10) .R14, .adcx (.l .R13) .R14,
   .mulx (.q 1) .AX .R13, .adox (.l .AX) .R14, .adcx (.l .CX) .R13, .mulx (.q 2) .AX .CX,
   .adox (.l .AX) .R13, .adcx (.l .BX) .CX, .mulx (.q 3) .AX .BX, .adox (.l .AX) .CX,
   .adcx (.l .SI) .BX, .mulx (.q 4) .AX .SI, .adox (.l .AX) .BX, .adcx (.l .DI) .SI,
   .mulx (.q 5) .AX .DI, .adox (.l .AX) .SI, .adcx (.l .R8) .DI, .mulx (.q 6) .AX .R8,
   .adox (.l .AX) .DI, .mov (.imm 0) .AX, .adcx (.l .AX) .R8, .adox (.l .BP) .R8,
   .mov (.l .R14) .R10, .sub (.q 0) .R14, .mov (.l .R13) .R9, .sbb (.q 1) .R13, .mov (.l .CX) .R12,
   .sbb (.q 2) .CX, .mov (.l .BX) .R11, .sbb (.q 3) .BX, .mov (.l .SI) .AX, .sbb (.q 4) .SI,
   .mov (.l .DI) .DX, .sbb (.q 5) .DI, .mov (.l .R8) (.slot 0), .sbb (.q 6) .R8,
   .cmovcs (.l .R10) .R14, .cmovcs (.l .R9) .R13, .cmovcs (.l .R12) .CX, .cmovcs (.l .R11) .BX,
   .cmovcs (.l .AX) .SI, .cmovcs (.l .DX) .DI, .cmovcs (.l (.slot 0)) .R8, .mov (.arg 0) .AX,
   .store .R14 0 .AX, .store .R13 1 .AX, .store .CX 2 .AX, .store .BX 3 .AX, .store .SI 4 .AX,
   .store .DI 5 .AX, .store .R8 6 .AX, .ret, .label 2, .mov (.arg 0) .AX, .mov (.l .AX) (.out 0),
   .mov (.arg 1) .AX, .mov (.l .AX) (.out 1), .mov (.arg 2) .AX, .mov (.l .AX) (.out 2), .callMul,
   .ret]

/-- `fromMont`, element_7w_amd64.s:430-780. -/
def fromMont_7w : List Instr :=
  [.cmpAdx, .jne 3, .mov (.arg 0) .DX, .mov (.mem 0 .DX) .R13, .mov (.mem 1 .DX) .R14,
   .mov (.mem 2 .DX) .CX, .mov (.mem 3 .DX) .BX, .mov (.mem 4 .DX) .SI, .mov (.mem 5 .DX) .DI,
   .mov (.mem 6 .DX) .R8, .xor (.l .DX) .DX, .mov .qInv .DX, .imul (.l .R13) .DX,
   .xor (.l .AX) .AX, .mulx (.q 0) .AX .BP, .adcx (.l .R13) .AX, .mov (.l .BP) .R13,
   .adcx (.l .R14) .R13, .mulx (.q 1) .AX .R14, .adox (.l .AX) .R13, .adcx (.l .CX) .R14,
   .mulx (.q 2) .AX .CX, .adox (.l .AX) .R14, .adcx (.l .BX) .CX, .mulx (.q 3) .AX .BX,
   .adox (.l .AX) .CX, .adcx (.l .SI) .BX, .mulx (.q 4) .AX .SI, .adox (.l .AX) .BX,
   .adcx (.l .DI) .SI, .mulx (.q 5) .AX .DI, .adox (.l .AX) .SI, .adcx (.l .R8) .DI,
   .mulx (.q 6) .AX .R8, .adox (.l .AX) .DI, .mov (.imm 0) .AX, .adcx (.l .AX) .R8,
   .adox (.l .AX) .R8, .xor (.l .DX) .DX, .mov .qInv .DX, .imul (.l .R13) .DX, .xor (.l .AX) .AX,
   .mulx (.q 0) .AX .BP, .adcx (.l .R13) .AX, .mov (.l .BP) .R13, .adcx (.l .R14) .R13,
   .mulx (.q 1) .AX .R14, .adox (.l .AX) .R13, .adcx (.l .CX) .R14, .mulx (.q 2) .AX .CX,
   .adox (.l .AX) .R14, .adcx (.l .BX) .CX, .mulx (.q 3) .AX .BX, .adox (.l .AX) .CX,
   .adcx (.l .SI) .BX, .mulx (.q 4) .AX .SI, .adox (.l .AX) .BX, .adcx (.l .DI) .SI,
   .mulx (.q 5) .AX .DI, .adox (.l .AX) .SI, .adcx (.l .R8) .DI, .mulx (.q 6) .AX .R8,
   .adox (.l .AX) .DI, .mov (.imm 0) .AX, .adcx (.l .AX) .R8, .adox (.l .AX) .R8,
   .xor (.l .DX) .DX, .mov .qInv .DX, .imul (.l .R13) .DX, .xor (.l .AX) .AX, .mulx (.q 0) .AX .BP,
   .adcx (.l .R13) .AX, .mov (.l .BP) .R13, .adcx (.l .R14) .R13, .mulx (.q 1) .AX .R14,
   .adox (.l .AX) .R13, .adcx (.l .CX) .R14, .mulx (.q 2) .AX .CX, .adox (.l .AX) .R14,
   .adcx (.l .BX) .CX, .mulx (.q 3) .AX .BX, .adox (.l .AX) .CX, .adcx (.l .SI) .BX,
   .mulx (.q 4) .AX .SI, .adox (.l .AX) .BX, .adcx (.l .DI) .SI, .mulx (.q 5) .AX .DI,
   .adox (.l .AX) .SI, .adcx (.l .R8) .DI, .mulx (.q 6) .AX .R8, .adox (.l .AX) .DI,
   .mov (.imm 0) .AX, .adcx (.l .AX) .R8, .adox (.l .AX) .R8, .xor (.l .DX) .DX, .mov .qInv .DX,
   .imul (.l .R13) .DX, .xor (.l .AX) .AX, .mulx (.q 0) .AX .BP, .adcx (.l .R13) .AX,
   .mov (.l .BP) .R13, .adcx (.l .R14) .R13, .mulx (.q 1) .AX .R14, .adox (.l .AX) .R13,
   .adcx (.l .CX) .R14, .mulx (.q 2) .AX .CX, .adox (.l .AX) .R14, .adcx (.l .BX) .CX,
   .mulx (.q 3) .AX .BX, .adox (.l .AX) .CX, .adcx (.l .SI) .BX, .mulx (.q 4) .AX .SI,
   .adox (.l .AX) .BX, .adcx (.l .DI) .SI, .mulx (.q 5) .AX .DI, .adox (.l .AX) .SI,
   .adcx (.l .R8) .DI, .mulx (.q 6) .AX .R8, .adox (.l .AX) .DI, .mov (.imm 0) .AX,
   .adcx (.l .AX) .R8, .adox (.l .AX) .R8, .xor (.l .DX) .DX, .mov .qInv .DX, .imul (.l .R13) .DX,
   .xor (.l .AX) .AX, .mulx (.q 0) .AX .BP, .adcx (.l .R13) .AX, .mov (.l .BP) .R13,
   .adcx (.l .R14) .R13, .mulx (.q 1) .AX .R14, .adox (.l .AX) .R13, .adcx (.l .CX) .R14,
   .mulx (.q 2) .AX .CX, .adox (.l .AX) .R14, .adcx (.l .BX) .CX, .mulx (.q 3) .AX .BX,
   .adox (.l .AX) .CX, .adcx (.l .SI) .BX, .mulx (.q 4) .AX .SI, .adox (.l .AX) .BX,
   .adcx (.l .DI) .SI, .mulx (.q 5) .AX .DI, .adox (.l .AX) .SI, .adcx (.l .R8) .DI,
   .mulx (.q 6) .AX .R8, .adox (.l .AX) .DI, .mov (.imm 0) .AX, .adcx (.l .AX) .R8,
   .adox (.l .AX) .R8, .xor (.l .DX) .DX, .mov .qInv .DX, .imul (.l .R13) .DX, .xor (.l .AX) .AX,
   .mulx (.q 0) .AX .BP, .adcx (.l .R13) .AX, .mov (.l .BP) .R13, .adcx (.l .R14) .R13,
   .mulx (.q 1) .AX .R14, .adox (.l .AX) .R13, .adcx (.l .CX) .R14, .mulx (.q 2) .AX .CX,
   .adox (.l .AX) .R14, .adcx (.l .BX) .CX, .mulx (.q 3) .AX .BX, .adox (.l .AX) .CX,
   .adcx (.l .SI) .BX, .mulx (.q 4) .AX .SI, .adox (.l .AX) .BX, .adcx (.l .DI) .SI,
   .mulx (.q 5) .AX .DI, .adox (.l .AX) .SI, .adcx (.l .R8) .DI, .mulx (.q 6) .AX .R8,
   .adox (.l .AX) .DI, .mov (.imm 0) .AX, .adcx (.l .AX) .R8, .adox (.l .AX) .R8,
   .xor (.l .DX) .DX, .mov .qInv .DX, .imul (.l .R13) .DX, .xor (.l .AX) .AX, .mulx (.q 0) .AX .BP,
   .adcx (.l .R13) .AX, .mov (.l .BP) .R13, .adcx (.l .R14) .R13, .mulx (.q 1) .AX .R14,
   .adox (.l .AX) .R13, .adcx (.l .CX) .R14, .mulx (.q 2) .AX .CX, .adox (.l .AX) .R14,
   .adcx (.l .BX) .CX, .mulx (.q 3) .AX .BX, .adox (.l .AX) .CX, .adcx (.l .SI) .BX,
   .mulx (.q 4) .AX .SI, .adox (.l .AX) .BX, .adcx (.l .DI) .SI, .mulx (.q 5) .AX .DI,
   .adox (.l .AX) .SI, .adcx (.l .R8) .DI, .mulx (.q 6) .AX .R8, .adox (.l .AX) .DI,
   .mov (.imm 0) .AX, .adcx (.l .AX) .R8, .adox (.l .AX) .R8, .mov (.l .R13) .R9, .sub (.q 0) .R13,
   .mov (.l .R14) .R10, .sbb (.q 1) .R14, .mov (.l .CX) .R11, .sbb (.q 2) .CX, .mov (.l .BX) .R12,
   .sbb (.q 3) .BX, .mov (.l .SI) .DX, .sbb (.q 4) .SI, .mov (.l .DI) .AX, .sbb (.q 5) .DI,
   .mov (.l .R8) (.slot 0), .sbb (.q 6) .R8, .cmovcs (.l .R9) .R13, .cmovcs (.l .R10) .R14,
   .cmovcs (.l .R11) .CX, .cmovcs (.l .R12) .BX, .cmovcs (.l .DX) .SI, .cmovcs (.l .AX) .DI,
   .cmovcs (.l (.slot 0)) .R8, .mov (.arg 0) .AX, .store .R13 0 .AX, .store .R14 1 .AX,
   .store .CX 2 .AX, .store .BX 3 .AX, .store .SI 4 .AX, .store .DI 5 .AX, .store .R8 6 .AX, .ret,
   .label 3, .mov (.arg 0) .AX, .mov (.l .AX) (.out 0), .callFromMont, .ret]

end Ringo.Amd64
