import Verif.Proof.FieldSqrt
import Verif.Props.Field
import Verif.Props.Moduli
import Verif.Model.FieldPkgs

/-!
# C103: `Sqrt`; C104: the small predicates and conversions

`sqrtPkgs` are the seven packages with the constants of their `Sqrt` and `LexicographicallyLargest`.
-/

namespace Ringo

open FieldPkg

/-- The seven packages. -/
def sqrtPkgs : List (FieldPkg × SqrtConsts × List Nat) :=
  [(bfvPkg, bfvSqrt, bfvHalf), (multPkg, multSqrt, multHalf), (jindoPkg, jindoSqrt, jindoHalf),
   (zp110Pkg, zp110Sqrt, zp110Half), (zp220Pkg, zp220Sqrt, zp220Half), (zp440Pkg, zp440Sqrt, zp440Half),
   (zp880Pkg, zp880Sqrt, zp880Half)]

/-- What is checked about the constants of a package. -/
structure SqrtPkgOk (P : FieldPkg) (S : SqrtConsts) (half : List Nat) : Prop where
  good : P.Good
  sqrt : P.SqrtGood S
  len : half.length = P.n
  words : ∀ w ∈ half, w < 2 ^ 64
  val : 2 * Nat.ofDigits (2 ^ 64) half = P.p + 1

theorem bfvSqrt_ok : SqrtPkgOk bfvPkg bfvSqrt bfvHalf := by
  refine ⟨C79_bfv.1, ⟨?_, ?_, ?_, ?_, sqrt_g C79_bfv.1 ?_ ?_ ?_ ?_⟩, ?_, ?_, ?_⟩ <;> decide +kernel

theorem multSqrt_ok : SqrtPkgOk multPkg multSqrt multHalf := by
  refine ⟨C79_mult.1, ⟨?_, ?_, ?_, ?_, sqrt_g C79_mult.1 ?_ ?_ ?_ ?_⟩, ?_, ?_, ?_⟩ <;> decide +kernel

theorem jindoSqrt_ok : SqrtPkgOk jindoPkg jindoSqrt jindoHalf := by
  refine ⟨C79_jindo.1, ⟨?_, ?_, ?_, ?_, sqrt_g C79_jindo.1 ?_ ?_ ?_ ?_⟩, ?_, ?_, ?_⟩ <;> decide +kernel

theorem zp110Sqrt_ok : SqrtPkgOk zp110Pkg zp110Sqrt zp110Half := by
  refine ⟨C79_zp110.1, ⟨?_, ?_, ?_, ?_, sqrt_g C79_zp110.1 ?_ ?_ ?_ ?_⟩, ?_, ?_, ?_⟩ <;> decide +kernel

theorem zp220Sqrt_ok : SqrtPkgOk zp220Pkg zp220Sqrt zp220Half := by
  refine ⟨C79_zp220.1, ⟨?_, ?_, ?_, ?_, sqrt_g C79_zp220.1 ?_ ?_ ?_ ?_⟩, ?_, ?_, ?_⟩ <;> decide +kernel

theorem zp440Sqrt_ok : SqrtPkgOk zp440Pkg zp440Sqrt zp440Half := by
  refine ⟨C79_zp440.1, ⟨?_, ?_, ?_, ?_, sqrt_g C79_zp440.1 ?_ ?_ ?_ ?_⟩, ?_, ?_, ?_⟩ <;> decide +kernel

theorem zp880Sqrt_ok : SqrtPkgOk zp880Pkg zp880Sqrt zp880Half := by
  refine ⟨C79_zp880.1, ⟨?_, ?_, ?_, ?_, sqrt_g C79_zp880.1 ?_ ?_ ?_ ?_⟩, ?_, ?_, ?_⟩ <;> decide +kernel

theorem sqrtPkgs_ok {P : FieldPkg} {S : SqrtConsts} {half : List Nat} (hP : (P, S, half) ∈ sqrtPkgs) :
    SqrtPkgOk P S half := by
  simp only [sqrtPkgs, List.mem_cons, List.not_mem_nil, or_false, Prod.mk.injEq] at hP
  rcases hP with ⟨rfl, rfl, rfl⟩ | ⟨rfl, rfl, rfl⟩ | ⟨rfl, rfl, rfl⟩ | ⟨rfl, rfl, rfl⟩ | ⟨rfl, rfl, rfl⟩ |
    ⟨rfl, rfl, rfl⟩ | ⟨rfl, rfl, rfl⟩
  · exact bfvSqrt_ok
  · exact multSqrt_ok
  · exact jindoSqrt_ok
  · exact zp110Sqrt_ok
  · exact zp220Sqrt_ok
  · exact zp440Sqrt_ok
  · exact zp880Sqrt_ok

/-- **C103**, a square: `z.Sqrt(x)` returns `z`, which then holds a square root of `*x`; it ends within 96
passes of each loop.  The pointers may be equal. -/
theorem C103_square {P : FieldPkg} {S : SqrtConsts} {half : List Nat} (hP : (P, S, half) ∈ sqrtPkgs)
    {fuel : Nat} (hf : 96 ≤ fuel) (m : Mem) (z x : Nat) {a : ZMod P.p} (hx : MontForm P.p P.n (m x) a)
    (ha : IsSquare a) :
    ∃ m' c, P.sqrtAt S fuel m z x = some (m', true) ∧ MontForm P.p P.n (m' z) c ∧ c * c = a ∧
      ∀ w, w ≠ z → m' w = m w := by
  have hok := sqrtPkgs_ok hP
  have hr : S.r ≤ 96 := by
    have : ∀ t ∈ sqrtPkgs, t.2.1.r ≤ 96 := by decide
    exact this _ hP
  obtain ⟨w, c, e, hw, hc⟩ := (mont_sqrt hok.good hok.sqrt (hr.trans hf) hx).1 ha
  refine ⟨Function.update m z w, c, by rw [sqrtAt, e]; rfl, ?_, hc, fun v hv => Function.update_of_ne hv _ _⟩
  rw [Function.update_self]
  exact hw

/-- **C103**, not a square: `z.Sqrt(x)` returns `nil` and changes nothing. -/
theorem C103_nonsquare {P : FieldPkg} {S : SqrtConsts} {half : List Nat} (hP : (P, S, half) ∈ sqrtPkgs)
    {fuel : Nat} (hf : 96 ≤ fuel) (m : Mem) (z x : Nat) {a : ZMod P.p} (hx : MontForm P.p P.n (m x) a)
    (ha : ¬ IsSquare a) : P.sqrtAt S fuel m z x = some (m, false) := by
  have hok := sqrtPkgs_ok hP
  have hr : S.r ≤ 96 := by
    have : ∀ t ∈ sqrtPkgs, t.2.1.r ≤ 96 := by decide
    exact this _ hP
  rw [sqrtAt, (mont_sqrt hok.good hok.sqrt (hr.trans hf) hx).2 ha]
  rfl

/-- In every package there are elements of both kinds: 4, and the `g` of `Sqrt`. -/
theorem C103_case {P : FieldPkg} {S : SqrtConsts} {half : List Nat} (hP : (P, S, half) ∈ sqrtPkgs) :
    MontForm P.p P.n (P.setUint64 4) ((4 : Nat) : ZMod P.p) ∧ IsSquare ((4 : Nat) : ZMod P.p) ∧
      ∃ γ : ZMod P.p, MontForm P.p P.n S.g γ ∧ ¬ IsSquare γ := by
  have hok := sqrtPkgs_ok hP
  have := Fact.mk hok.good.prime
  refine ⟨mont_setUint64 hok.good (by norm_num), ⟨2, by norm_num⟩, ?_⟩
  obtain ⟨γ, hg, h1⟩ := hok.sqrt.g
  refine ⟨γ, hg, ?_⟩
  have h2 : (2 : ZMod P.p) ≠ 0 := by
    have hp := hok.good.odd
    have := (ZMod.natCast_eq_zero_iff 2 P.p).not.2 fun hd => hp ((Nat.prime_dvd_prime_iff_eq hok.good.prime Nat.prime_two).1 hd)
    exact_mod_cast this
  have hne : (-1 : ZMod P.p) ≠ 1 := by
    intro hc
    apply h2
    linear_combination -hc
  have hz : γ ≠ 0 := by
    rintro rfl
    rw [zero_pow (by positivity)] at h1
    exact one_ne_zero (neg_eq_zero.1 h1.symm)
  rintro hs
  have h3 := (ZMod.euler_criterion P.p hz).1 hs
  have h4 : P.p / 2 = 2 ^ (S.r - 1) * (2 * S.exponent + 1) := by
    have e := hok.sqrt.split
    obtain ⟨r, hr⟩ : ∃ r, S.r = r + 1 := ⟨S.r - 1, by have := hok.sqrt.pos; omega⟩
    rw [hr, pow_succ] at e
    rw [hr, Nat.add_sub_cancel]
    have : 2 ^ r * 2 * (2 * S.exponent + 1) = 2 * (2 ^ r * (2 * S.exponent + 1)) := by ring
    omega
  rw [h4, pow_mul, h1, Odd.neg_one_pow ⟨S.exponent, rfl⟩] at h3
  exact hne h3

/-! ## C104 -/

theorem select_zero (b a : Nat) : a ^^^ (0 &&& (a ^^^ b)) = a := by simp

theorem select_ones {a b : Nat} (ha : a < 2 ^ 64) (hb : b < 2 ^ 64) : a ^^^ ((2 ^ 64 - 1) &&& (a ^^^ b)) = b := by
  rw [Nat.and_comm, Nat.and_two_pow_sub_one_eq_mod, Nat.mod_eq_of_lt (Nat.xor_lt_two_pow ha hb), ← Nat.xor_assoc,
    Nat.xor_self, Nat.zero_xor]

theorem selectMask_zero : selectMask 0 = 0 := by decide

theorem selectMask_ne {c : BitVec 64} (hc : c ≠ 0) : selectMask c = 2 ^ 64 - 1 := by
  have hm : (c ||| -c).msb = true := by
    rw [BitVec.msb_or]
    rcases Bool.eq_false_or_eq_true c.msb with h | h
    · rw [h]; rfl
    · rw [h, Bool.false_or, BitVec.msb_neg]
      have h1 : c ≠ 0#64 := hc
      have h2 : c ≠ BitVec.intMin 64 := by
        intro e
        rw [e] at h
        revert h
        decide
      simp [h1, h2, h]
  unfold selectMask
  rw [BitVec.sshiftRight_eq_of_msb_true hm]
  have h0 : ~~~(c ||| -c) >>> 63 = 0#64 := by
    apply BitVec.eq_of_toNat_eq
    rw [BitVec.toNat_ushiftRight, Nat.shiftRight_eq_div_pow]
    have hn : (~~~(c ||| -c)).msb = false := by rw [BitVec.msb_not, hm]; rfl
    rw [BitVec.msb_eq_false_iff_two_mul_lt] at hn
    rw [Nat.div_eq_of_lt (by omega)]
    rfl
  rw [h0]
  decide

theorem chainOp_select_zero : ∀ x y : List Nat, x.length = y.length →
    (chainOp (fun a b cC => (a ^^^ (cC &&& (a ^^^ b)), cC)) x y 0).1 = x
  | [], [], _ => rfl
  | a :: x, b :: y, h => by
    simp only [chainOp, select_zero]
    rw [chainOp_select_zero x y (by simpa using h)]
  | [], _ :: _, h => by simp at h
  | _ :: _, [], h => by simp at h

theorem chainOp_select_ones : ∀ x y : List Nat, x.length = y.length → (∀ w ∈ x, w < 2 ^ 64) →
    (∀ w ∈ y, w < 2 ^ 64) →
    (chainOp (fun a b cC => (a ^^^ (cC &&& (a ^^^ b)), cC)) x y (2 ^ 64 - 1)).1 = y
  | [], [], _, _, _ => rfl
  | a :: x, b :: y, h, hx, hy => by
    simp only [chainOp, select_ones (hx a (by simp)) (hy b (by simp))]
    rw [chainOp_select_ones x y (by simpa using h) (fun w hw => hx w (by simp [hw])) fun w hw => hy w (by simp [hw])]
  | [], _ :: _, h, _, _ => by simp at h
  | _ :: _, [], h, _, _ => by simp at h

/-- **C104**, `Select`: `z.Select(c, x0, x1)` copies `*x0` if `c = 0` and `*x1` otherwise, whichever of the
pointers are equal. -/
theorem C104_select {P : FieldPkg} (c : BitVec 64) (m : Mem) (z x0 x1 : Nat) (hz : (m z).length = P.n)
    (h0 : (m x0).length = P.n) (h1 : (m x1).length = P.n) (w0 : ∀ w ∈ m x0, w < 2 ^ 64)
    (w1 : ∀ w ∈ m x1, w < 2 ^ 64) :
    P.selectAt c m z x0 x1 = Function.update m z (if c = 0 then m x0 else m x1) := by
  unfold selectAt
  rw [memLoop_eq _ z _ _ P.n 0 m _ (by omega), Operand.words_ptr m x0 _ h0, Operand.words_ptr m x1 _ h1,
    List.take_zero, List.nil_append]
  by_cases hc : c = 0
  · rw [if_pos hc, hc, selectMask_zero, chainOp_select_zero _ _ (h0.trans h1.symm)]
  · rw [if_neg hc, selectMask_ne hc, chainOp_select_ones _ _ (h0.trans h1.symm) w0 w1]

/-- **C104**, `LexicographicallyLargest`: the element is larger than its negative. -/
theorem C104_lexLargest {P : FieldPkg} {S : SqrtConsts} {half : List Nat} (hP : (P, S, half) ∈ sqrtPkgs)
    {z : List Nat} {a : ZMod P.p} (hz : MontForm P.p P.n z a) :
    P.lexLargest half z = true ↔ (-a).val < a.val := by
  have hok := sqrtPkgs_ok hP
  have := Fact.mk hok.good.prime
  obtain ⟨e, l, w⟩ := FieldPkg.mont_fromMont hok.good hz
  obtain ⟨h1, h2, h3, h4⟩ := subChain_spec (P.bits z) half 0 w hok.words (l.trans hok.len.symm) (by norm_num)
  have hb : wv (P.bits z) = a.val := e
  have hl : (P.bits z).length = P.n := l
  have hv : 2 * wv half = P.p + 1 := hok.val
  have hlt : wv (subChain (P.bits z) half 0).1 < (2 ^ 64) ^ P.n := by
    have := wv_lt h3
    rwa [h2, hl] at this
  rw [hb, hl] at h1
  have ha : a.val < P.p := a.val_lt
  rw [lexLargest, beq_iff_eq, ZMod.neg_val]
  by_cases h0 : a = 0
  · subst h0
    rw [if_pos rfl, ZMod.val_zero]
    rw [ZMod.val_zero] at h1
    have h2p := hok.good.prime.two_le
    refine ⟨fun hc => ?_, fun hc => absurd hc (lt_irrefl _)⟩
    rw [hc] at h1
    omega
  · rw [if_neg h0]
    rcases Nat.lt_or_ge (subChain (P.bits z) half 0).2 1 with hc | hc
    · have hc : (subChain (P.bits z) half 0).2 = 0 := by omega
      rw [hc] at h1 ⊢
      constructor
      · intro _; omega
      · intro _; rfl
    · have hc : (subChain (P.bits z) half 0).2 = 1 := by omega
      rw [hc] at h1 ⊢
      constructor
      · intro h; omega
      · intro h; omega

/-- Both kinds occur: 1 is not larger than its negative, -1 is. -/
theorem C104_lexLargest_case {P : FieldPkg} {S : SqrtConsts} {half : List Nat} (hP : (P, S, half) ∈ sqrtPkgs) :
    P.lexLargest half P.one = false ∧ P.lexLargest half (P.neg P.one) = true := by
  have hok := sqrtPkgs_ok hP
  have := Fact.mk hok.good.prime
  have h2 : 2 < P.p := by
    have e := hok.sqrt.split
    have h1 := hok.sqrt.pos
    have : 2 ≤ 2 ^ S.r := by calc 2 = 2 ^ 1 := rfl
      _ ≤ 2 ^ S.r := Nat.pow_le_pow_right (by norm_num) h1
    have : 2 * 1 ≤ 2 ^ S.r * (2 * S.exponent + 1) := Nat.mul_le_mul this (by omega)
    omega
  have := Fact.mk h2.le
  have h1 : (1 : ZMod P.p).val = 1 := ZMod.val_one P.p
  have hn : (-1 : ZMod P.p).val = P.p - 1 := by
    rw [ZMod.neg_val, if_neg one_ne_zero, h1]
  constructor
  · rw [Bool.eq_false_iff, Ne, C104_lexLargest hP (mont_one hok.good), h1, hn]
    omega
  · rw [C104_lexLargest hP (mont_neg hok.good (mont_one hok.good)), neg_neg, h1, hn]
    omega

/-- **C104**, `IsUint64` and `Uint64`. -/
theorem C104_uint64 {P : FieldPkg} (h : P.Good) {z : List Nat} {a : ZMod P.p} (hz : MontForm P.p P.n z a) :
    (P.isUint64 z = true ↔ a.val < 2 ^ 64) ∧ P.uint64 z = a.val % 2 ^ 64 := by
  obtain ⟨e, l, w⟩ := FieldPkg.mont_fromMont h hz
  have h2 := h.two_le
  unfold isUint64 fitsOneWord uint64 bits
  cases hf : P.fromMont z with
  | nil => rw [hf] at l; simp at l; omega
  | cons u us =>
    rw [hf] at e w
    rw [wv_cons] at e
    have hu := w.head
    rw [List.tail_cons, isZero_wv, List.getD_cons_zero]
    constructor
    · constructor <;> intro _ <;> omega
    · omega

/-- **C104**, `SetBytesCanonical`: accepts exactly the strings of the right length that stand for a number below
the modulus. -/
theorem C104_canonical {P : FieldPkg} (h : P.Good) (e : List UInt8) :
    (e.length = 8 * P.n ∧ bigEndian e < P.p →
      ∃ w, P.setBytesCanonical e = some w ∧ MontForm P.p P.n w (bigEndian e : ZMod P.p)) ∧
    (¬ (e.length = 8 * P.n ∧ bigEndian e < P.p) → P.setBytesCanonical e = none) := by
  unfold setBytesCanonical
  rw [← beVal_eq_bigEndian]
  by_cases hl : e.length = 8 * P.n
  · rw [if_neg (not_not.2 hl)]
    have hs := smaller_spec h (beWords_length P.n e) (beWords_words P.n e)
    rw [beWords_val P.n e hl] at hs
    have he : P.element e = if !P.smaller (beWords P.n e) then none else some (P.toMont (beWords P.n e)) := rfl
    constructor
    · rintro ⟨-, hlt⟩
      refine ⟨P.toMont (beWords P.n e), ?_, mont_element h hl ?_⟩ <;> rw [he, hs.2 hlt] <;> rfl
    · intro hn
      rw [he, if_pos]
      rw [Bool.not_eq_true', Bool.eq_false_iff]
      exact fun hc => hn ⟨hl, hs.1 hc⟩
  · rw [if_pos hl]
    exact ⟨fun hc => absurd hc.1 hl, fun _ => rfl⟩

theorem bigEndian_inj {b c : List UInt8} (hl : b.length = c.length) (h : bigEndian b = bigEndian c) : b = c := by
  unfold bigEndian at h
  have hw : ∀ b : List UInt8, ∀ w ∈ b.reverse.map UInt8.toNat, w < 256 := by
    intro b w hw
    obtain ⟨u, _, rfl⟩ := List.mem_map.1 hw
    exact u.toNat_lt
  have := Nat.ofDigits_inj_of_len_eq (by norm_num) (by simp [hl]) (hw b) (hw c) h
  have h2 := List.map_injective_iff.2 (fun a b h => UInt8.toNat_inj.1 h) this
  exact List.reverse_injective h2

/-- **C104**: an element has one encoding; what `SetBytesCanonical` accepts, `Marshal` gives back. -/
theorem C104_unique {P : FieldPkg} (h : P.Good) (e : List UInt8) {w : List Nat}
    (he : P.setBytesCanonical e = some w) : P.marshal w = e := by
  have := Fact.mk h.prime
  have hc := C104_canonical h e
  by_cases hok : e.length = 8 * P.n ∧ bigEndian e < P.p
  · obtain ⟨v, hv, hm⟩ := hc.1 hok
    rw [he, Option.some.injEq] at hv
    subst hv
    obtain ⟨h1, h2⟩ := C72_marshal h hm
    apply bigEndian_inj (h1.trans hok.1.symm)
    rw [h2, ZMod.val_natCast, Nat.mod_eq_of_lt hok.2]
  · rw [hc.2 hok] at he
    cases he

/-- **C104**: and `SetBytesCanonical` accepts what `Marshal` writes. -/
theorem C104_marshal {P : FieldPkg} (h : P.Good) {z : List Nat} {a : ZMod P.p} (hz : MontForm P.p P.n z a) :
    P.setBytesCanonical (P.marshal z) = some z := by
  have := Fact.mk h.prime
  obtain ⟨h1, h2⟩ := C72_marshal h hz
  obtain ⟨w, hw, hm⟩ := (C104_canonical h (P.marshal z)).1 ⟨h1, by rw [h2]; exact a.val_lt⟩
  rw [h2, ZMod.natCast_val, ZMod.cast_id] at hm
  rw [hw, (MontForm_inj h hm hz).2 rfl]

end Ringo
