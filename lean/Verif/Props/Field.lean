import Verif.Proof.FieldBytes
import Verif.Proof.FieldMem
import Verif.Props.Moduli

/-!
# C69-C73: the operations of the field packages

`MontForm p n z a` (`Verif.Spec.Field`) says that the words `z` stand for the residue `a`.  `P.Good` lists
what the constants of a package have to satisfy; C79 (`Verif.Props.Moduli`) proves it for the seven packages
of the repository.  The operations act on a memory `m` that maps pointers to words; `z`, `x` and `y` are
arbitrary pointers, so that they may coincide.
-/

namespace Ringo

variable {P : FieldPkg}

/-- The number a byte string stands for, most significant byte first. -/
def bigEndian (b : List UInt8) : Nat := Nat.ofDigits 256 (b.reverse.map UInt8.toNat)

theorem beVal_eq_bigEndian (b : List UInt8) : FieldPkg.beVal b = bigEndian b := by
  induction b with
  | nil => rfl
  | cons a l ih =>
    have e : FieldPkg.beVal (a :: l) = a.toNat * 256 ^ l.length + FieldPkg.beVal l := by
      have := FieldPkg.beVal_append [a] l
      simpa [FieldPkg.beVal] using this
    rw [e, ih, bigEndian, bigEndian, List.reverse_cons, List.map_append, Nat.ofDigits_append]
    simp
    ring

/-- **C69.**  `z.Mul(x, y)` leaves in `*z` the product of the residues `*x` and `*y` stand for, in reduced
form, also if some of the pointers are equal, and changes nothing else. -/
theorem C69 (h : P.Good) (m : Mem) (z x y : Nat) {a b : ZMod P.p} (hz : (m z).length = P.n)
    (hx : MontForm P.p P.n (m x) a) (hy : MontForm P.p P.n (m y) b) :
    MontForm P.p P.n (P.mulAt m z x y z) (a * b) ∧ ∀ w, w ≠ z → P.mulAt m z x y w = m w := by
  rw [FieldPkg.mulAt_eq h m z x y hz hx.len hx.words hy.len hy.words hy.lt]
  refine ⟨?_, fun w hw => Function.update_of_ne hw _ _⟩
  rw [Function.update_self]
  exact FieldPkg.mont_mul' h hx hy

/-- `z.Square(x)`. -/
theorem C69_square (h : P.Good) (m : Mem) (z x : Nat) {a : ZMod P.p} (hz : (m z).length = P.n)
    (hx : MontForm P.p P.n (m x) a) : MontForm P.p P.n (P.mulAt m z x x z) (a ^ 2) := by
  rw [pow_two]
  exact (C69 h m z x x hz hx hx).1

/-- **C70**, `z.Add(x, y)`. -/
theorem C70_add (h : P.Good) (m : Mem) (z x y : Nat) {a b : ZMod P.p} (hz : (m z).length = P.n)
    (hx : MontForm P.p P.n (m x) a) (hy : MontForm P.p P.n (m y) b) :
    MontForm P.p P.n (P.addAt m z x y z) (a + b) ∧ ∀ w, w ≠ z → P.addAt m z x y w = m w := by
  have hl := (addChain_spec (m x) (m y) 0 hx.words hy.words (hx.len.trans hy.len.symm) (by omega)).2.1
  rw [FieldPkg.addAt_eq m z x y hz hx.len hy.len (hl.trans hx.len)]
  refine ⟨?_, fun w hw => Function.update_of_ne hw _ _⟩
  rw [Function.update_self]
  exact FieldPkg.mont_add h hx hy

/-- **C70**, `z.Double(x)`. -/
theorem C70_double (h : P.Good) (m : Mem) (z x : Nat) {a : ZMod P.p} (hz : (m z).length = P.n)
    (hx : MontForm P.p P.n (m x) a) :
    MontForm P.p P.n (P.doubleAt m z x z) (2 * a) ∧ ∀ w, w ≠ z → P.doubleAt m z x w = m w := by
  rw [FieldPkg.doubleAt_eq, two_mul]
  exact C70_add h m z x x hz hx hx

/-- **C70**, `z.Sub(x, y)`. -/
theorem C70_sub (h : P.Good) (m : Mem) (z x y : Nat) {a b : ZMod P.p} (hz : (m z).length = P.n)
    (hx : MontForm P.p P.n (m x) a) (hy : MontForm P.p P.n (m y) b) :
    MontForm P.p P.n (P.subAt m z x y z) (a - b) ∧ ∀ w, w ≠ z → P.subAt m z x y w = m w := by
  have hl := (subChain_spec (m x) (m y) 0 hx.words hy.words (hx.len.trans hy.len.symm) (by omega)).2.1
  rw [FieldPkg.subAt_eq m z x y hz hx.len hy.len (hl.trans hx.len)]
  refine ⟨?_, fun w hw => Function.update_of_ne hw _ _⟩
  rw [Function.update_self]
  exact FieldPkg.mont_sub h hx hy

/-- **C70**, `z.Neg(x)`. -/
theorem C70_neg (h : P.Good) (m : Mem) (z x : Nat) {a : ZMod P.p} (hz : (m z).length = P.n)
    (hx : MontForm P.p P.n (m x) a) :
    MontForm P.p P.n (P.negAt m z x z) (-a) ∧ ∀ w, w ≠ z → P.negAt m z x w = m w := by
  rw [FieldPkg.negAt_eq m z x hz hx.len]
  refine ⟨?_, fun w hw => Function.update_of_ne hw _ _⟩
  rw [Function.update_self]
  exact FieldPkg.mont_neg h hx

/-- **C71**, `SetBigInt`, for every integer. -/
theorem C71_setBigInt (h : P.Good) (v : Int) : MontForm P.p P.n (P.setBigInt v) (v : ZMod P.p) :=
  FieldPkg.mont_setBigInt h v

/-- **C71**, `SetInt64`: two's complement, the least value included. -/
theorem C71_setInt64 (h : P.Good) (v : BitVec 64) :
    MontForm P.p P.n (P.setInt64 v) (v.toInt : ZMod P.p) :=
  FieldPkg.mont_setInt64 h v

/-- **C71**, `SetUint64`. -/
theorem C71_setUint64 (h : P.Good) {v : Nat} (hv : v < 2 ^ 64) :
    MontForm P.p P.n (P.setUint64 v) (v : ZMod P.p) :=
  FieldPkg.mont_setUint64 h hv

/-- **C71**, `BigInt`: the least nonnegative representative. -/
theorem C71_bigInt (h : P.Good) {z : List Nat} {a : ZMod P.p} (hz : MontForm P.p P.n z a) :
    P.bigInt z = a.val := by
  obtain ⟨e, _, w⟩ := FieldPkg.mont_fromMont h hz
  rw [FieldPkg.bigInt, FieldPkg.wordBytes_val w]
  exact e

/-- **C71**, `Slice` and `Bits`: the `n` words of the least nonnegative representative. -/
theorem C71_slice (h : P.Good) {z : List Nat} {a : ZMod P.p} (hz : MontForm P.p P.n z a) :
    (P.bits z).length = P.n ∧ (∀ w ∈ P.bits z, w < 2 ^ 64) ∧
      Nat.ofDigits (2 ^ 64) (P.bits z) = a.val := by
  obtain ⟨e, l, w⟩ := FieldPkg.mont_fromMont h hz
  exact ⟨l, w, e⟩

/-- **C71**, round trip: `BigInt` after `SetBigInt(v)` is `v mod p`. -/
theorem C71_roundTrip (h : P.Good) (v : Int) : (P.bigInt (P.setBigInt v) : Int) = v % P.p := by
  have := Fact.mk h.prime
  rw [C71_bigInt h (C71_setBigInt h v), ZMod.val_intCast]

/-- **C72**, `Marshal`: `8 n` bytes, the least nonnegative representative, most significant byte first. -/
theorem C72_marshal (h : P.Good) {z : List Nat} {a : ZMod P.p} (hz : MontForm P.p P.n z a) :
    (P.marshal z).length = 8 * P.n ∧ bigEndian (P.marshal z) = a.val := by
  obtain ⟨e, l, w⟩ := FieldPkg.mont_fromMont h hz
  refine ⟨by rw [FieldPkg.marshal, FieldPkg.wordBytes_length, l], ?_⟩
  rw [← beVal_eq_bigEndian, FieldPkg.marshal, FieldPkg.wordBytes_val w]
  exact e

/-- **C72**, `SetBytes`, for every byte string. -/
theorem C72_setBytes (h : P.Good) (b : List UInt8) :
    MontForm P.p P.n (P.setBytes b) (bigEndian b : ZMod P.p) := by
  rw [← beVal_eq_bigEndian]
  exact FieldPkg.mont_setBytes h b

/-- **C72**, round trip. -/
theorem C72_roundTrip (h : P.Good) {z : List Nat} {a : ZMod P.p} (hz : MontForm P.p P.n z a) :
    P.setBytes (P.marshal z) = z := by
  have := Fact.mk h.prime
  have hs := C72_setBytes h (P.marshal z)
  rw [(C72_marshal h hz).2, ZMod.natCast_val, ZMod.cast_id] at hs
  exact (FieldPkg.MontForm_inj h hs hz).2 rfl

/-- **C73.**  `Cmp` compares the least nonnegative representatives. -/
theorem C73 (h : P.Good) {z x : List Nat} {a b : ZMod P.p} (hz : MontForm P.p P.n z a)
    (hx : MontForm P.p P.n x b) :
    P.cmp z x = if a.val < b.val then -1 else if b.val < a.val then 1 else 0 := by
  obtain ⟨e1, l1, w1⟩ := FieldPkg.mont_fromMont h hz
  obtain ⟨e2, l2, w2⟩ := FieldPkg.mont_fromMont h hx
  rw [FieldPkg.cmp, FieldPkg.bits, FieldPkg.bits, FieldPkg.cmpTop_spec P.n _ _ l1 l2 w1 w2, e1, e2]

/-- **C73**: `Cmp` is `0`, and `Equal` is true, exactly for equal residues, and then the words agree. -/
theorem C73_equal (h : P.Good) {z x : List Nat} {a b : ZMod P.p} (hz : MontForm P.p P.n z a)
    (hx : MontForm P.p P.n x b) :
    (P.cmp z x = 0 ↔ a = b) ∧ (FieldPkg.equal z x = true ↔ a = b) ∧ (z = x ↔ a = b) := by
  have := Fact.mk h.prime
  refine ⟨?_, ?_, FieldPkg.MontForm_inj h hz hx⟩
  · rw [C73 h hz hx]
    constructor
    · intro h0
      apply ZMod.val_injective
      by_contra hne
      rcases Nat.lt_or_gt_of_ne hne with h1 | h1
      · rw [if_pos h1] at h0; simp at h0
      · rw [if_neg (by omega), if_pos h1] at h0; simp at h0
    · rintro rfl
      simp
  · rw [FieldPkg.equal_iff (hz.len.trans hx.len.symm)]
    exact FieldPkg.MontForm_inj h hz hx

/-! ### Concrete cases -/

/-- Two elements of `jindo/internal/zp`, at pointers 1 and 2. -/
def caseMem : Mem := fun i => if i = 1 then jindoPkg.setUint64 3 else jindoPkg.setInt64 (-5)

/-- `x.Mul(x, y)`, with the receiver among the arguments: `3 * -5`. -/
example : MontForm jindoPkg.p jindoPkg.n (jindoPkg.mulAt caseMem 1 1 2 1) (-15) := by
  have h := C79_jindo.1
  have hx : MontForm jindoPkg.p jindoPkg.n (caseMem 1) (3 : ZMod jindoPkg.p) := by
    have := C71_setUint64 h (v := 3) (by norm_num)
    rw [Nat.cast_ofNat] at this
    exact this
  have hy : MontForm jindoPkg.p jindoPkg.n (caseMem 2) (-5 : ZMod jindoPkg.p) := by
    have := C71_setInt64 h (-5)
    rw [show ((-5 : BitVec 64)).toInt = -5 by decide, Int.cast_neg, Int.cast_ofNat] at this
    exact this
  have := (C69 h caseMem 1 1 2 hx.len hx hy).1
  rw [show (3 : ZMod jindoPkg.p) * -5 = -15 by norm_num] at this
  exact this

/-- The package without a spare bit in the top word, `x.Add(x, x)`: `-1 + -1`, where the sum of the words
exceeds `2^128`. -/
example : MontForm multPkg.p multPkg.n
    (multPkg.addAt (fun _ => multPkg.setBigInt (-1)) 0 0 0 0) (-2) := by
  have h := C79_mult.1
  have hx := C71_setBigInt h (-1)
  have := (C70_add h (fun _ => multPkg.setBigInt (-1)) 0 0 0 hx.len hx hx).1
  rw [show (((-1 : Int) : ZMod multPkg.p) + ((-1 : Int) : ZMod multPkg.p)) = -2 by push_cast; norm_num] at this
  exact this

/-- `-1` marshals to the bytes of `p - 1`. -/
example : bigEndian (zp880Pkg.marshal (zp880Pkg.setBigInt (-1))) = 13694 ^ 64 := by
  have h := C79_zp880
  have := Fact.mk h.1.prime
  rw [(C72_marshal h.1 (C71_setBigInt h.1 (-1))).2]
  have e : (((((-1 : Int) : ZMod zp880Pkg.p).val : Nat)) : Int) = (-1) % (zp880Pkg.p : Int) :=
    ZMod.val_intCast _
  have e2 : (-1 : Int) % (zp880Pkg.p : Int) = ((13694 ^ 64 : Nat) : Int) := by rw [h.2.1]; norm_num
  exact Int.ofNat.inj (e.trans e2)

/-- `Cmp` of `1` and `-1`. -/
example : bfvPkg.cmp (bfvPkg.setUint64 1) (bfvPkg.setInt64 (-1)) = -1 := by
  have h := C79_bfv
  have := Fact.mk h.1.prime
  rw [C73 h.1 (C71_setUint64 h.1 (v := 1) (by norm_num)) (C71_setInt64 h.1 (-1))]
  have e : ((((((-1 : BitVec 64).toInt : Int) : ZMod bfvPkg.p)).val : Nat) : Int) =
      (-1) % (bfvPkg.p : Int) := ZMod.val_intCast _
  have e1 : ((((1 : Nat) : ZMod bfvPkg.p)).val : Nat) = 1 % bfvPkg.p := ZMod.val_natCast _ _
  have e2 : (-1 : Int) % (bfvPkg.p : Int) = ((31432 ^ 16 : Nat) : Int) := by rw [h.2.1]; norm_num
  have e3 : 1 % bfvPkg.p = 1 := by rw [h.2.1]; norm_num
  have e4 := Int.ofNat.inj (e.trans e2)
  rw [if_pos]
  rw [e1, e3, e4]
  norm_num

end Ringo
