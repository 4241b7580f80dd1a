import Verif.Model.AsmPkgs
import Verif.Proof.AsmInst
import Verif.Proof.FieldSmall
import Verif.Props.Field

/-!
# C100, C101: the assembly of the field packages, and the small functions of the portable code

`amd64Pkgs` (`Verif.Model.AsmPkgs`) lists the packages that take functions from assembly on amd64, with the
programs.  `call P code args s` is the memory after a call of the program `code` with the arguments `args`, in
the state `s` the caller leaves.  `s.Ok` (`Verif.Spec.Asm`) says that registers, stack and memory hold 64-bit
words; what they hold is arbitrary, and so is whether the processor has the instructions `ADCX` and `ADOX`.
-/

namespace Ringo

open Amd64

/-! ### The four packages -/

theorem thirteen_form {P : FieldPkg} {c : List Nat} (hl : c.length = P.n) (hw : ∀ w ∈ c, w < 2 ^ 64)
    (hv : Nat.ofDigits (2 ^ 64) c = 13 * (2 ^ 64) ^ P.n % P.p) (hp : 0 < P.p) : MontForm P.p P.n c 13 := by
  refine ⟨hl, hw, hv.trans_lt (Nat.mod_lt _ hp), ?_⟩
  rw [hv, ZMod.natCast_mod, Nat.cast_mul, Nat.cast_pow, Nat.cast_pow, Nat.cast_ofNat, Nat.cast_ofNat]

namespace Amd64

theorem consts_of_mem {P : FieldPkg} {A : AsmPkg} (hA : (P, A) ∈ amd64Pkgs) :
    P.Good ∧ Consts P ∧ P.full = false ∧
      ((P.n = 2 ∧ A = asm2w) ∨ (P.n = 4 ∧ A = asm4w) ∨ (P.n = 7 ∧ A = asm7w)) := by
  simp only [amd64Pkgs, List.mem_cons, List.not_mem_nil, or_false, Prod.mk.injEq] at hA
  rcases hA with ⟨rfl, rfl⟩ | ⟨rfl, rfl⟩ | ⟨rfl, rfl⟩ | ⟨rfl, rfl⟩
  · exact ⟨C79_jindo.1, ⟨C79_jindo.1.q_words, by decide⟩, rfl, .inr (.inl ⟨rfl, rfl⟩)⟩
  · exact ⟨C79_bfv.1, ⟨C79_bfv.1.q_words, by decide⟩, rfl, .inr (.inl ⟨rfl, rfl⟩)⟩
  · exact ⟨C79_zp110.1, ⟨C79_zp110.1.q_words, by decide⟩, rfl, .inl ⟨rfl, rfl⟩⟩
  · exact ⟨C79_zp440.1, ⟨C79_zp440.1.q_words, by decide⟩, rfl, .inr (.inr ⟨rfl, rfl⟩)⟩

end Amd64

variable {P : FieldPkg} {A : AsmPkg} (hA : (P, A) ∈ amd64Pkgs) {s : St} (hs : s.Ok)
include hA hs

/-! ### C100 -/

/-- **C100**, `mul(z, x, y)` (and with `y = x` `z.Square(x)`): the product of the residues `*x` and `*y` stand
for is left in `*z`, in reduced form, and nothing else changes.  The pointers may be equal. -/
theorem C100_mul {z x y : Nat} (hz : z < 2 ^ 64) (hx : x < 2 ^ 64) (hy : y < 2 ^ 64) {a b : ZMod P.p}
    (hl : (s.mem z).length = P.n) (ha : MontForm P.p P.n (s.mem x) a) (hb : MontForm P.p P.n (s.mem y) b) :
    MontForm P.p P.n (call P A.mul [z, x, y] s z) (a * b) ∧
      ∀ w, w ≠ z → call P A.mul [z, x, y] s w = s.mem w := by
  obtain ⟨h, hP, hf, hn⟩ := consts_of_mem hA
  have key : ∃ w, MontForm P.p P.n w (a * b) ∧ call P A.mul [z, x, y] s = Function.update s.mem z w := by
    rcases hn with ⟨hn, rfl⟩ | ⟨hn, rfl⟩ | ⟨hn, rfl⟩
    · exact mul_2w_num h hP hs hz hx hy hn hf hl ha hb
    · exact mul_4w_num h hP hs hz hx hy hn hf hl ha hb
    · exact mul_7w_num h hP hs hz hx hy hn hf hl ha hb
  obtain ⟨w, hw, e⟩ := key
  rw [e]
  exact ⟨by rw [Function.update_self]; exact hw, fun v hv => Function.update_of_ne hv _ _⟩

/-- **C100.**  On elements in reduced form the assembly of `Mul` and the portable `Mul` do exactly the same to
the memory. -/
theorem C100_mul_portable {z x y : Nat} (hz : z < 2 ^ 64) (hx : x < 2 ^ 64) (hy : y < 2 ^ 64)
    {a b : ZMod P.p} (hl : (s.mem z).length = P.n) (ha : MontForm P.p P.n (s.mem x) a)
    (hb : MontForm P.p P.n (s.mem y) b) : call P A.mul [z, x, y] s = P.mulAt s.mem z x y := by
  obtain ⟨h, -⟩ := consts_of_mem hA
  obtain ⟨h1, h2⟩ := C100_mul hA hs hz hx hy hl ha hb
  obtain ⟨h3, h4⟩ := C69 h s.mem z x y hl ha hb
  funext w
  by_cases hw : w = z
  · rw [hw]; exact (FieldPkg.MontForm_inj h h1 h3).2 rfl
  · rw [h2 w hw, h4 w hw]

/-- **C100**, `fromMont(x)`: `*x` becomes the least nonnegative representative. -/
theorem C100_fromMont {x : Nat} (hx : x < 2 ^ 64) {a : ZMod P.p} (ha : MontForm P.p P.n (s.mem x) a) :
    (call P A.fromMont [x] s x).length = P.n ∧ (∀ w ∈ call P A.fromMont [x] s x, w < 2 ^ 64) ∧
      Nat.ofDigits (2 ^ 64) (call P A.fromMont [x] s x) = a.val ∧
      ∀ w, w ≠ x → call P A.fromMont [x] s w = s.mem w := by
  obtain ⟨h, hP, hf, hn⟩ := consts_of_mem hA
  have key : call P A.fromMont [x] s = Function.update s.mem x (P.fromMont (s.mem x)) := by
    rcases hn with ⟨hn, rfl⟩ | ⟨hn, rfl⟩ | ⟨hn, rfl⟩
    · exact fromMont_2w_eq h hP hs hx ha.len hn
    · exact fromMont_4w_eq h hP hs hx ha.len hn
    · exact fromMont_7w_eq h hP hs hx ha.len hn
  obtain ⟨h1, h2, h3⟩ := FieldPkg.mont_fromMont h ha
  rw [key, Function.update_self]
  exact ⟨h2, h3, h1, fun v hv => Function.update_of_ne hv _ _⟩

/-- **C100**, `reduce(x)`: a number below `2 p` is reduced. -/
theorem C100_reduce {x : Nat} (hx : x < 2 ^ 64) (hl : (s.mem x).length = P.n)
    (hlt : Nat.ofDigits (2 ^ 64) (s.mem x) < 2 * P.p) :
    (call P A.reduce [x] s x).length = P.n ∧ (∀ w ∈ call P A.reduce [x] s x, w < 2 ^ 64) ∧
      Nat.ofDigits (2 ^ 64) (call P A.reduce [x] s x) = Nat.ofDigits (2 ^ 64) (s.mem x) % P.p ∧
      ∀ w, w ≠ x → call P A.reduce [x] s w = s.mem w := by
  obtain ⟨h, hP, hf, hn⟩ := consts_of_mem hA
  have key : call P A.reduce [x] s = Function.update s.mem x (P.reduce (s.mem x)) := by
    rcases hn with ⟨hn, rfl⟩ | ⟨hn, rfl⟩ | ⟨hn, rfl⟩
    · exact reduce_2w_eq h hP hs hx hl hn
    · exact reduce_4w_eq h hP hs hx hl hn
    · exact reduce_7w_eq h hP hs hx hl hn
  obtain ⟨h1, h2, h3⟩ := FieldPkg.reduce_spec h hl (hs.mem x) hlt
  rw [key, Function.update_self]
  exact ⟨h2, h3, h1, fun v hv => Function.update_of_ne hv _ _⟩

/-- **C100**, `MulBy3(x)`. -/
theorem C100_mulBy3 {x : Nat} (hx : x < 2 ^ 64) {a : ZMod P.p} (ha : MontForm P.p P.n (s.mem x) a) :
    MontForm P.p P.n (call P A.mulBy3 [x] s x) (3 * a) ∧
      ∀ w, w ≠ x → call P A.mulBy3 [x] s w = s.mem w := by
  obtain ⟨h, hP, hf, hn⟩ := consts_of_mem hA
  have key : call P A.mulBy3 [x] s =
      Function.update s.mem x (P.add (P.add (s.mem x) (s.mem x)) (s.mem x)) := by
    rcases hn with ⟨hn, rfl⟩ | ⟨hn, rfl⟩ | ⟨hn, rfl⟩
    · exact mulBy3_2w_eq h hP hs hx ha.len hf hn
    · exact mulBy3_4w_eq h hP hs hx ha.len hf hn
    · exact mulBy3_7w_eq h hP hs hx ha.len hf hn
  rw [key, Function.update_self, show 3 * a = a + a + a by ring]
  exact ⟨FieldPkg.mont_add h (FieldPkg.mont_add h ha ha) ha, fun v hv => Function.update_of_ne hv _ _⟩

/-- **C100**, `MulBy5(x)`. -/
theorem C100_mulBy5 {x : Nat} (hx : x < 2 ^ 64) {a : ZMod P.p} (ha : MontForm P.p P.n (s.mem x) a) :
    MontForm P.p P.n (call P A.mulBy5 [x] s x) (5 * a) ∧
      ∀ w, w ≠ x → call P A.mulBy5 [x] s w = s.mem w := by
  obtain ⟨h, hP, hf, hn⟩ := consts_of_mem hA
  have key : call P A.mulBy5 [x] s = Function.update s.mem x
      (P.add (P.add (P.add (s.mem x) (s.mem x)) (P.add (s.mem x) (s.mem x))) (s.mem x)) := by
    rcases hn with ⟨hn, rfl⟩ | ⟨hn, rfl⟩ | ⟨hn, rfl⟩
    · exact mulBy5_2w_eq h hP hs hx ha.len hf hn
    · exact mulBy5_4w_eq h hP hs hx ha.len hf hn
    · exact mulBy5_7w_eq h hP hs hx ha.len hf hn
  have h2 := FieldPkg.mont_add h ha ha
  rw [key, Function.update_self, show 5 * a = a + a + (a + a) + a by ring]
  exact ⟨FieldPkg.mont_add h (FieldPkg.mont_add h h2 h2) ha, fun v hv => Function.update_of_ne hv _ _⟩

/-- **C100**, `MulBy13(x)`. -/
theorem C100_mulBy13 {x : Nat} (hx : x < 2 ^ 64) {a : ZMod P.p} (ha : MontForm P.p P.n (s.mem x) a) :
    MontForm P.p P.n (call P A.mulBy13 [x] s x) (13 * a) ∧
      ∀ w, w ≠ x → call P A.mulBy13 [x] s w = s.mem w := by
  obtain ⟨h, hP, hf, hn⟩ := consts_of_mem hA
  have key : call P A.mulBy13 [x] s = Function.update s.mem x
      (let v := s.mem x
       let v4 := P.add (P.add v v) (P.add v v)
       P.add (P.add (P.add v4 v4) v4) v) := by
    rcases hn with ⟨hn, rfl⟩ | ⟨hn, rfl⟩ | ⟨hn, rfl⟩
    · exact mulBy13_2w_eq h hP hs hx ha.len hf hn
    · exact mulBy13_4w_eq h hP hs hx ha.len hf hn
    · exact mulBy13_7w_eq h hP hs hx ha.len hf hn
  have h2 := FieldPkg.mont_add h ha ha
  have h4 := FieldPkg.mont_add h h2 h2
  rw [key, Function.update_self,
    show 13 * a = a + a + (a + a) + (a + a + (a + a)) + (a + a + (a + a)) + a by ring]
  exact ⟨FieldPkg.mont_add h (FieldPkg.mont_add h (FieldPkg.mont_add h h4 h4) h4) ha,
    fun v hv => Function.update_of_ne hv _ _⟩

/-- What a call of `Butterfly` does, also if its arguments are equal: `*x` is written last. -/
theorem asm_butterfly {x y : Nat} (hx : x < 2 ^ 64) (hy : y < 2 ^ 64) {a b : ZMod P.p}
    (ha : MontForm P.p P.n (s.mem x) a) (hb : MontForm P.p P.n (s.mem y) b) :
    ∃ v w, MontForm P.p P.n v (a + b) ∧ MontForm P.p P.n w (a - b) ∧
      call P A.butterfly [x, y] s = Function.update (Function.update s.mem y w) x v := by
  obtain ⟨h, hP, hf, hn⟩ := consts_of_mem hA
  rcases hn with ⟨hn, rfl⟩ | ⟨hn, rfl⟩ | ⟨hn, rfl⟩
  · exact ⟨_, _, FieldPkg.mont_add h ha hb, FieldPkg.mont_sub h ha hb,
      butterfly_2w_eq h hP hs hx ha.len hf hy hb.len hn⟩
  · exact ⟨_, _, FieldPkg.mont_add h ha hb, FieldPkg.mont_sub h ha hb,
      butterfly_4w_eq h hP hs hx ha.len hf hy hb.len hn⟩
  · refine ⟨_, _, ?_, FieldPkg.mont_sub h ha hb, butterfly_7w_eq h hP hs hx ha.len hf hy hb.len hn⟩
    rw [add_comm]
    exact FieldPkg.mont_add h hb ha

/-- **C100**, `Butterfly(x, y)` with different arguments: `*x` becomes the sum and `*y` the difference. -/
theorem C100_butterfly {x y : Nat} (hx : x < 2 ^ 64) (hy : y < 2 ^ 64) (hxy : x ≠ y) {a b : ZMod P.p}
    (ha : MontForm P.p P.n (s.mem x) a) (hb : MontForm P.p P.n (s.mem y) b) :
    MontForm P.p P.n (call P A.butterfly [x, y] s x) (a + b) ∧
      MontForm P.p P.n (call P A.butterfly [x, y] s y) (a - b) ∧
      ∀ w, w ≠ x → w ≠ y → call P A.butterfly [x, y] s w = s.mem w := by
  obtain ⟨v, w, hv, hw, e⟩ := asm_butterfly hA hs hx hy ha hb
  rw [e, Function.update_self, Function.update_of_ne hxy.symm, Function.update_self]
  exact ⟨hv, hw, fun u h1 h2 => by rw [Function.update_of_ne h1, Function.update_of_ne h2]⟩

/-- **C100**, `Butterfly(x, x)`: `2 a` is left in `*x`. -/
theorem C100_butterfly_self {x : Nat} (hx : x < 2 ^ 64) {a : ZMod P.p}
    (ha : MontForm P.p P.n (s.mem x) a) :
    MontForm P.p P.n (call P A.butterfly [x, x] s x) (2 * a) := by
  obtain ⟨v, w, hv, hw, e⟩ := asm_butterfly hA hs hx hx ha ha
  rw [e, Function.update_self, two_mul]
  exact hv

omit hA hs

/-! ### C101: the portable functions -/

/-- **C101.**  The constant of the portable `MulBy13` is 13, in all seven packages. -/
theorem C101_thirteen :
    MontForm jindoPkg.p jindoPkg.n jindoThirteen 13 ∧ MontForm bfvPkg.p bfvPkg.n bfvThirteen 13 ∧
    MontForm multPkg.p multPkg.n multThirteen 13 ∧ MontForm zp110Pkg.p zp110Pkg.n zp110Thirteen 13 ∧
    MontForm zp220Pkg.p zp220Pkg.n zp220Thirteen 13 ∧ MontForm zp440Pkg.p zp440Pkg.n zp440Thirteen 13 ∧
    MontForm zp880Pkg.p zp880Pkg.n zp880Thirteen 13 := by
  refine ⟨thirteen_form rfl (by decide +kernel) (by decide +kernel) C79_jindo.1.pos,
    thirteen_form rfl (by decide +kernel) (by decide +kernel) C79_bfv.1.pos,
    thirteen_form rfl (by decide +kernel) (by decide +kernel) C79_mult.1.pos,
    thirteen_form rfl (by decide +kernel) (by decide +kernel) C79_zp110.1.pos,
    thirteen_form rfl (by decide +kernel) (by decide +kernel) C79_zp220.1.pos,
    thirteen_form rfl (by decide +kernel) (by decide +kernel) C79_zp440.1.pos,
    thirteen_form rfl (by decide +kernel) (by decide +kernel) C79_zp880.1.pos⟩

variable (h : P.Good) (m : Mem) {x y t : Nat} (hxt : x ≠ t) {a b : ZMod P.p}
  (ha : MontForm P.p P.n (m x) a)
include h hxt ha

/-- **C101**, `MulBy3(x)`; `t` is the local variable. -/
theorem C101_mulBy3 : MontForm P.p P.n (P.mulBy3At m x t x) (3 * a) ∧
    ∀ w, w ≠ x → w ≠ t → P.mulBy3At m x t w = m w := by
  obtain ⟨w, hw, e⟩ := FieldPkg.mulBy3At_mont h m hxt ha
  rw [e, Function.update_self]
  exact ⟨hw, fun u h1 h2 => by rw [Function.update_of_ne h1, Function.update_of_ne h2]⟩

/-- **C101**, `MulBy5(x)`. -/
theorem C101_mulBy5 : MontForm P.p P.n (P.mulBy5At m x t x) (5 * a) ∧
    ∀ w, w ≠ x → w ≠ t → P.mulBy5At m x t w = m w := by
  obtain ⟨w, hw, e⟩ := FieldPkg.mulBy5At_mont h m hxt ha
  rw [e, Function.update_self]
  exact ⟨hw, fun u h1 h2 => by rw [Function.update_of_ne h1, Function.update_of_ne h2]⟩

/-- **C101**, `MulBy13(x)`; the constant as in `C101_thirteen`. -/
theorem C101_mulBy13 {c : List Nat} (hc : MontForm P.p P.n c 13) :
    MontForm P.p P.n (P.mulBy13At c m x t x) (13 * a) ∧
      ∀ w, w ≠ x → w ≠ t → P.mulBy13At c m x t w = m w := by
  obtain ⟨w, hw, e⟩ := FieldPkg.mulBy13At_mont h m hxt ha hc
  rw [e, Function.update_self]
  exact ⟨hw, fun u h1 h2 => by rw [Function.update_of_ne h1, Function.update_of_ne h2]⟩

/-- **C101**, `Butterfly(x, y)` with different arguments. -/
theorem C101_butterfly (hyt : y ≠ t) (hxy : x ≠ y) (hb : MontForm P.p P.n (m y) b) :
    MontForm P.p P.n (P.butterflyAt m x y t x) (a + b) ∧
      MontForm P.p P.n (P.butterflyAt m x y t y) (a - b) ∧
      ∀ w, w ≠ x → w ≠ y → w ≠ t → P.butterflyAt m x y t w = m w := by
  obtain ⟨v, w, hv, hw, e⟩ := FieldPkg.butterflyAt_mont h m hxt hyt ha hb
  rw [if_neg hxy] at hw
  rw [e, Function.update_self, Function.update_of_ne hxy, Function.update_self]
  exact ⟨hv, hw, fun u h1 h2 h3 => by
    rw [Function.update_of_ne h2, Function.update_of_ne h1, Function.update_of_ne h3]⟩

/-- **C101**, `Butterfly(x, x)` of the portable code leaves `-a`. -/
theorem C101_butterfly_self : MontForm P.p P.n (P.butterflyAt m x x t x) (-a) := by
  obtain ⟨v, w, hv, hw, e⟩ := FieldPkg.butterflyAt_mont h m hxt hxt ha ha
  rw [if_pos rfl, sub_add_cancel_left] at hw
  rw [e, Function.update_self]
  exact hw

omit h m hxt ha

/-- **C101**, the claim that `Butterfly` does the same with and without assembly is false if its arguments are
equal: for every element that is not zero (and unless `p = 3`, which is not the modulus of any package) the
results differ. -/
theorem C101_butterfly_differ (hA : (P, A) ∈ amd64Pkgs) (hs : s.Ok) (hx : x < 2 ^ 64) (hxt : x ≠ t)
    (ha : MontForm P.p P.n (s.mem x) a) (h0 : a ≠ 0) :
    call P A.butterfly [x, x] s x ≠ P.butterflyAt s.mem x x t x := by
  have h := (consts_of_mem hA).1
  have := Fact.mk h.prime
  intro e
  have e2 := (FieldPkg.MontForm_inj h (C100_butterfly_self hA hs hx ha)
    (C101_butterfly_self h s.mem hxt ha)).1 e
  have e3 : (3 : ZMod P.p) * a = 0 := by linear_combination e2
  have e4 : ((3 : Nat) : ZMod P.p) = 0 := by
    rcases mul_eq_zero.1 e3 with h3 | h3
    · exact_mod_cast h3
    · exact absurd h3 h0
  rw [ZMod.natCast_eq_zero_iff, Nat.dvd_prime Nat.prime_three] at e4
  have hp : 3 < P.p := by
    simp only [amd64Pkgs, List.mem_cons, List.not_mem_nil, or_false, Prod.mk.injEq] at hA
    rcases hA with ⟨rfl, -⟩ | ⟨rfl, -⟩ | ⟨rfl, -⟩ | ⟨rfl, -⟩ <;> decide +kernel
  have := h.prime.one_lt
  omega

/-! ### Concrete cases -/

/-- A state with the elements 3 and -5 of jindo/internal/zp at the pointers 1 and 2, and rubbish elsewhere. -/
def asmCase (adx : Bool) : St where
  loc := fun r => if r = .AX then 2 ^ 64 - 1 else 77
  cf := 1
  of := 1
  zf := true
  mem := caseMem
  arg := fun _ => 5
  adx := adx

theorem caseMem_three : MontForm jindoPkg.p jindoPkg.n (caseMem 1) (3 : ZMod jindoPkg.p) := by
  have := C71_setUint64 C79_jindo.1 (v := 3) (by norm_num)
  rw [Nat.cast_ofNat] at this
  exact this

theorem caseMem_neg_five {i : Nat} (hi : i ≠ 1) :
    MontForm jindoPkg.p jindoPkg.n (caseMem i) (-5 : ZMod jindoPkg.p) := by
  have := C71_setInt64 C79_jindo.1 (-5)
  rw [show ((-5 : BitVec 64)).toInt = -5 by decide, Int.cast_neg, Int.cast_ofNat] at this
  rw [caseMem, if_neg hi]
  exact this

theorem asmCase_ok (adx : Bool) : (asmCase adx).Ok where
  loc r := by
    show (if r = Loc.AX then 2 ^ 64 - 1 else 77) < 2 ^ 64
    split <;> norm_num
  cf := le_refl _
  of := le_refl _
  mem i := by
    by_cases hi : i = 1
    · rw [hi]; exact caseMem_three.words
    · exact (caseMem_neg_five hi).words
  arg i := by show 5 < 2 ^ 64; norm_num

/-- `x.Mul(x, y)` with and without `ADCX`: `3 * -5`. -/
example (adx : Bool) : MontForm jindoPkg.p jindoPkg.n (call jindoPkg asm4w.mul [1, 1, 2] (asmCase adx) 1) (-15) := by
  have := (C100_mul (List.mem_cons_self ..) (asmCase_ok adx) (z := 1) (x := 1) (y := 2) (by norm_num)
    (by norm_num) (by norm_num) caseMem_three.len caseMem_three (caseMem_neg_five (i := 2) (by norm_num))).1
  rw [show (3 : ZMod jindoPkg.p) * -5 = -15 by norm_num] at this
  exact this

/-- `Butterfly(x, y)`: `3 - 5` and `3 + 5`. -/
example : MontForm jindoPkg.p jindoPkg.n (call jindoPkg asm4w.butterfly [1, 2] (asmCase true) 2) 8 := by
  have := (C100_butterfly (List.mem_cons_self ..) (asmCase_ok true) (x := 1) (y := 2) (by norm_num)
    (by norm_num) (by norm_num) caseMem_three (caseMem_neg_five (i := 2) (by norm_num))).2.1
  rw [show (3 : ZMod jindoPkg.p) - -5 = 8 by norm_num] at this
  exact this

end Ringo
