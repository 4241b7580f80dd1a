import Verif.Proof.AsmArm64
import Verif.Props.Asm

/-!
# C102: the arm64 assembly of the field packages

`arm64Pkgs` (`Verif.Model.AsmPkgs`) lists the packages that take functions from assembly on arm64, with the
programs; `s.Ok` (`Verif.Spec.Arm64`) says that the memory holds 64-bit words.
-/

namespace Ringo

open Arm64

namespace Arm64

theorem consts_of_mem {P : FieldPkg} {A : AsmPkg} (hA : (P, A) ∈ arm64Pkgs) :
    P.Good ∧ P.full = false ∧ ((P.n = 2 ∧ A = asm2w) ∨ (P.n = 4 ∧ A = asm4w)) := by
  simp only [arm64Pkgs, List.mem_cons, List.not_mem_nil, or_false, Prod.mk.injEq] at hA
  rcases hA with ⟨rfl, rfl⟩ | ⟨rfl, rfl⟩ | ⟨rfl, rfl⟩
  · exact ⟨C79_jindo.1, rfl, .inr ⟨rfl, rfl⟩⟩
  · exact ⟨C79_bfv.1, rfl, .inr ⟨rfl, rfl⟩⟩
  · exact ⟨C79_zp110.1, rfl, .inl ⟨rfl, rfl⟩⟩

end Arm64

variable {P : FieldPkg} {A : AsmPkg} (hA : (P, A) ∈ arm64Pkgs) {s : St} (hs : s.Ok)
include hA

/-- **C102**, `mul(z, x, y)` (and with `y = x` `z.Square(x)`): the product of the residues `*x` and `*y` stand
for is left in `*z`, in reduced form, and nothing else changes.  The pointers may be equal. -/
theorem C102_mul {z x y : Nat} {a b : ZMod P.p} (hl : (s.mem z).length = P.n)
    (ha : MontForm P.p P.n (s.mem x) a) (hb : MontForm P.p P.n (s.mem y) b) :
    MontForm P.p P.n (call P A.mul [z, x, y] s z) (a * b) ∧
      ∀ w, w ≠ z → call P A.mul [z, x, y] s w = s.mem w := by
  obtain ⟨h, hf, hn⟩ := Arm64.consts_of_mem hA
  have key : ∃ w, MontForm P.p P.n w (a * b) ∧ call P A.mul [z, x, y] s = Function.update s.mem z w := by
    rcases hn with ⟨hn, rfl⟩ | ⟨hn, rfl⟩
    · exact mul_call h (h.spare_add hf) (by rw [hn]; exact mul_2w_run z x y s) hl ha hb
    · exact mul_call h (h.spare_add hf) (by rw [hn]; exact mul_4w_run z x y s) hl ha hb
  obtain ⟨w, hw, e⟩ := key
  rw [e]
  exact ⟨by rw [Function.update_self]; exact hw, fun v hv => Function.update_of_ne hv _ _⟩

/-- **C102.**  On elements in reduced form the assembly of `Mul` and the portable `Mul` do exactly the same to
the memory. -/
theorem C102_mul_portable {z x y : Nat} {a b : ZMod P.p} (hl : (s.mem z).length = P.n)
    (ha : MontForm P.p P.n (s.mem x) a) (hb : MontForm P.p P.n (s.mem y) b) :
    call P A.mul [z, x, y] s = P.mulAt s.mem z x y := by
  have h := (Arm64.consts_of_mem hA).1
  obtain ⟨h1, h2⟩ := C102_mul hA hl ha hb
  obtain ⟨h3, h4⟩ := C69 h s.mem z x y hl ha hb
  funext w
  by_cases hw : w = z
  · rw [hw]; exact (FieldPkg.MontForm_inj h h1 h3).2 rfl
  · rw [h2 w hw, h4 w hw]

include hs

/-- **C102**, `reduce(x)`: a number below `2 p` is reduced. -/
theorem C102_reduce {x : Nat} (hl : (s.mem x).length = P.n)
    (hlt : Nat.ofDigits (2 ^ 64) (s.mem x) < 2 * P.p) :
    (call P A.reduce [x] s x).length = P.n ∧ (∀ w ∈ call P A.reduce [x] s x, w < 2 ^ 64) ∧
      Nat.ofDigits (2 ^ 64) (call P A.reduce [x] s x) = Nat.ofDigits (2 ^ 64) (s.mem x) % P.p ∧
      ∀ w, w ≠ x → call P A.reduce [x] s w = s.mem w := by
  obtain ⟨h, hf, hn⟩ := Arm64.consts_of_mem hA
  have key : call P A.reduce [x] s = Function.update s.mem x (P.reduce (s.mem x)) := by
    rcases hn with ⟨hn, rfl⟩ | ⟨hn, rfl⟩
    · exact reduce_call h hs (by rw [hn]; exact reduce_2w_run x s) hl
    · exact reduce_call h hs (by rw [hn]; exact reduce_4w_run x s) hl
  obtain ⟨h1, h2, h3⟩ := FieldPkg.reduce_spec h hl (hs.mem x) hlt
  rw [key, Function.update_self]
  exact ⟨h2, h3, h1, fun v hv => Function.update_of_ne hv _ _⟩

/-- What a call of `Butterfly` does, also if its arguments are equal: `*x` is written last. -/
theorem arm_butterfly {x y : Nat} {a b : ZMod P.p} (ha : MontForm P.p P.n (s.mem x) a)
    (hb : MontForm P.p P.n (s.mem y) b) :
    ∃ v w, MontForm P.p P.n v (a + b) ∧ MontForm P.p P.n w (a - b) ∧
      call P A.butterfly [x, y] s = Function.update (Function.update s.mem y w) x v := by
  obtain ⟨h, hf, hn⟩ := Arm64.consts_of_mem hA
  refine ⟨P.add (s.mem y) (s.mem x), _, ?_, FieldPkg.mont_sub h ha hb, ?_⟩
  · rw [add_comm]
    exact FieldPkg.mont_add h hb ha
  · rcases hn with ⟨hn, rfl⟩ | ⟨hn, rfl⟩
    · exact butterfly_call h hs hf (by rw [hn]; exact butterfly_2w_run x y s) ha.len hb.len
    · exact butterfly_call h hs hf (by rw [hn]; exact butterfly_4w_run x y s) ha.len hb.len

/-- **C102**, `Butterfly(x, y)` with different arguments: `*x` becomes the sum and `*y` the difference. -/
theorem C102_butterfly {x y : Nat} (hxy : x ≠ y) {a b : ZMod P.p}
    (ha : MontForm P.p P.n (s.mem x) a) (hb : MontForm P.p P.n (s.mem y) b) :
    MontForm P.p P.n (call P A.butterfly [x, y] s x) (a + b) ∧
      MontForm P.p P.n (call P A.butterfly [x, y] s y) (a - b) ∧
      ∀ w, w ≠ x → w ≠ y → call P A.butterfly [x, y] s w = s.mem w := by
  obtain ⟨v, w, hv, hw, e⟩ := arm_butterfly hA hs ha hb
  rw [e, Function.update_self, Function.update_of_ne hxy.symm, Function.update_self]
  exact ⟨hv, hw, fun u h1 h2 => by rw [Function.update_of_ne h1, Function.update_of_ne h2]⟩

/-- **C102**, `Butterfly(x, x)`: `2 a` is left in `*x`, as on amd64 (C100) and unlike the portable code
(C101). -/
theorem C102_butterfly_self {x : Nat} {a : ZMod P.p} (ha : MontForm P.p P.n (s.mem x) a) :
    MontForm P.p P.n (call P A.butterfly [x, x] s x) (2 * a) := by
  obtain ⟨v, w, hv, hw, e⟩ := arm_butterfly hA hs ha ha
  rw [e, Function.update_self, two_mul]
  exact hv

omit hA hs

/-! ### Concrete cases -/

/-- A state with the elements 3 and -5 of jindo/internal/zp at the pointers 1 and 2, and rubbish elsewhere. -/
def armCase : St where
  reg := fun _ => 2 ^ 64 - 1
  c := 1
  mem := caseMem
  arg := fun _ => 5

theorem armCase_ok : armCase.Ok where
  mem i := by
    by_cases hi : i = 1
    · rw [hi]; exact caseMem_three.words
    · exact (caseMem_neg_five hi).words

/-- `x.Mul(x, y)`: `3 * -5`. -/
example : MontForm jindoPkg.p jindoPkg.n (call jindoPkg asm4w.mul [1, 1, 2] armCase 1) (-15) := by
  have := (C102_mul (s := armCase) (List.mem_cons_self ..) (z := 1) (x := 1) (y := 2) caseMem_three.len caseMem_three
    (caseMem_neg_five (i := 2) (by norm_num))).1
  rw [show (3 : ZMod jindoPkg.p) * -5 = -15 by norm_num] at this
  exact this

/-- `Butterfly(x, y)`: `3 - 5` and `3 + 5`. -/
example : MontForm jindoPkg.p jindoPkg.n (call jindoPkg asm4w.butterfly [1, 2] armCase 2) 8 := by
  have := (C102_butterfly (List.mem_cons_self ..) armCase_ok (x := 1) (y := 2) (by norm_num) caseMem_three
    (caseMem_neg_five (i := 2) (by norm_num))).2.1
  rw [show (3 : ZMod jindoPkg.p) - -5 = 8 by norm_num] at this
  exact this

end Ringo
