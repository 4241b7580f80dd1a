import Verif.Model.AsmAmd64
import Verif.Model.AsmArm64
import Verif.Model.FieldPkgs

/-!
# Which package has which assembly
-/

namespace Ringo.Amd64

/-- The functions a package takes from assembly on amd64 (jindo/internal/zp/element_amd64.go:17-42). -/
structure AsmPkg where
  mul : List Instr
  fromMont : List Instr
  reduce : List Instr
  mulBy3 : List Instr
  mulBy5 : List Instr
  mulBy13 : List Instr
  butterfly : List Instr

/-- Two words (buckler/internal/zp110/element_amd64.s:9). -/
def asm2w : AsmPkg := ⟨mul_2w, fromMont_2w, reduce_2w, mulBy3_2w, mulBy5_2w, mulBy13_2w, butterfly_2w⟩

/-- Four words (jindo/internal/zp/element_amd64.s:9 and examples/bfv/zp/element_amd64.s:9). -/
def asm4w : AsmPkg := ⟨mul_4w, fromMont_4w, reduce_4w, mulBy3_4w, mulBy5_4w, mulBy13_4w, butterfly_4w⟩

/-- Seven words (buckler/internal/zp440/element_amd64.s:9). -/
def asm7w : AsmPkg := ⟨mul_7w, fromMont_7w, reduce_7w, mulBy3_7w, mulBy5_7w, mulBy13_7w, butterfly_7w⟩

/-- The packages that have an `element_amd64.s`; zp220, zp880 and examples/mult/zp have none. -/
def amd64Pkgs : List (FieldPkg × AsmPkg) :=
  [(jindoPkg, asm4w), (bfvPkg, asm4w), (zp110Pkg, asm2w), (zp440Pkg, asm7w)]

end Ringo.Amd64

namespace Ringo.Arm64

/-- The functions a package takes from assembly on arm64 (jindo/internal/zp/element_arm64.go:17-66). -/
structure AsmPkg where
  mul : List Instr
  reduce : List Instr
  butterfly : List Instr

/-- Two words (buckler/internal/zp110/element_arm64.s:9). -/
def asm2w : AsmPkg := ⟨mul_2w, reduce_2w, butterfly_2w⟩

/-- Four words (jindo/internal/zp/element_arm64.s:9 and examples/bfv/zp/element_arm64.s:9). -/
def asm4w : AsmPkg := ⟨mul_4w, reduce_4w, butterfly_4w⟩

/-- The packages that have an `element_arm64.s`. -/
def arm64Pkgs : List (FieldPkg × AsmPkg) := [(jindoPkg, asm4w), (bfvPkg, asm4w), (zp110Pkg, asm2w)]

end Ringo.Arm64
