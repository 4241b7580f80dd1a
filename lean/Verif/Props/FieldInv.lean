import Verif.Proof.FieldExtra
import Verif.Props.Field
import Mathlib.Data.Set.Card

/-!
# C74, C80, C81: inversion, random elements, and the operations built on them

`Verif.Spec.Field`: `MontForm p n z a` says that the words `z` stand for the residue `a`.
-/

namespace Ringo

open FieldPkg

variable {P : FieldPkg}

/-- What the constants of `Inverse` must satisfy: the correction factor is a reduced element; the factor `2^62`
of the loop after it is below the modulus. -/
structure FieldPkg.InvGood (P : FieldPkg) (inv : List Nat × Nat) : Prop where
  big : 2 ^ 62 < P.p
  len : inv.1.length = P.n
  words : ∀ w ∈ inv.1, w < 2 ^ 64
  lt : Nat.ofDigits (2 ^ 64) inv.1 < P.p

theorem jindo_inv : jindoPkg.InvGood jindoInv := by constructor <;> decide +kernel
theorem bfv_inv : bfvPkg.InvGood bfvInv := by constructor <;> decide +kernel
theorem zp110_inv : zp110Pkg.InvGood zp110Inv := by constructor <;> decide +kernel
theorem zp220_inv : zp220Pkg.InvGood zp220Inv := by constructor <;> decide +kernel
theorem zp440_inv : zp440Pkg.InvGood zp440Inv := by constructor <;> decide +kernel
theorem zp880_inv : zp880Pkg.InvGood zp880Inv := by constructor <;> decide +kernel

/-- **C74** `z.Inverse(x)` (all packages but mult): the loops end, after at most `gcdFuel` passes of the outer
one, `z` becomes the inverse of `x`, or `0` if `x` is `0`, and nothing else changes; `z` and `x` may be the same
pointer. -/
theorem C74 (h : P.Good) {inv : List Nat × Nat} (hi : P.InvGood inv) {fuel : Nat} (hf : P.gcdFuel ≤ fuel)
    (m : Mem) (z x : Nat) {a : ZMod P.p} (hx : MontForm P.p P.n (m x) a) :
    ∃ m' b, FieldPkg.inverseAt (P.inverse inv fuel) m z x = some m' ∧ MontForm P.p P.n (m' z) b ∧
      (a ≠ 0 → b * a = 1) ∧ (a = 0 → b = 0) ∧ ∀ w, w ≠ z → m' w = m w := by
  have := Fact.mk h.prime
  obtain ⟨y, hy⟩ := inverse_ends h inv hx.len hx.words
  have hm := mont_inverse h hi.big hi.len hi.words hi.lt hx (hy fuel hf)
  refine ⟨Function.update m z y, a⁻¹, by rw [inverseAt, hy fuel hf]; rfl, ?_, fun h0 => inv_mul_cancel₀ h0,
    fun h0 => by rw [h0, inv_zero], fun w hw => Function.update_of_ne hw _ _⟩
  rw [Function.update_self]
  exact hm

/-- **C74** `z.Inverse(x)` of mult, by `big.Int.ModInverse`. -/
theorem C74_mult (h : P.Good) (m : Mem) (z x : Nat) {a : ZMod P.p} (hx : MontForm P.p P.n (m x) a) :
    ∃ m' b, FieldPkg.inverseAt (fun x => some (P.inverseBig x)) m z x = some m' ∧ MontForm P.p P.n (m' z) b ∧
      (a ≠ 0 → b * a = 1) ∧ (a = 0 → b = 0) ∧ ∀ w, w ≠ z → m' w = m w := by
  have := Fact.mk h.prime
  refine ⟨Function.update m z _, a⁻¹, rfl, ?_, fun h0 => inv_mul_cancel₀ h0,
    fun h0 => by rw [h0, inv_zero], fun w hw => Function.update_of_ne hw _ _⟩
  rw [Function.update_self]
  exact mont_inverseBig h hx

/-- `Inverse` of the packages, as the other functions call it. -/
theorem inverts (h : P.Good) {inv : List Nat × Nat} (hi : P.InvGood inv) {fuel : Nat} (hf : P.gcdFuel ≤ fuel) :
    P.Inverts (P.inverse inv fuel) := by
  intro x a hx
  obtain ⟨y, hy⟩ := inverse_ends h inv hx.len hx.words
  exact ⟨y, hy fuel hf, mont_inverse h hi.big hi.len hi.words hi.lt hx (hy fuel hf)⟩

theorem inverts_mult (h : P.Good) : P.Inverts fun x => some (P.inverseBig x) :=
  fun x _ hx => ⟨P.inverseBig x, rfl, mont_inverseBig h hx⟩

/-! ### C81 -/

/-- **C81** `z.Div(x, y)`: the quotient, `0` if `y` is `0`. -/
theorem C81_div (h : P.Good) {invert : List Nat → Option (List Nat)} (hi : P.Inverts invert)
    {x y : List Nat} {a b : ZMod P.p} (hx : MontForm P.p P.n x a) (hy : MontForm P.p P.n y b) :
    ∃ z c, P.div invert x y = some z ∧ MontForm P.p P.n z c ∧ (b ≠ 0 → c * b = a) ∧ (b = 0 → c = 0) := by
  have := Fact.mk h.prime
  obtain ⟨z, e, hz⟩ := mont_div h hi hx hy
  refine ⟨z, _, e, hz, fun h0 => by field_simp, fun h0 => by rw [h0, inv_zero, mul_zero]⟩

/-- **C81** `z.Exp(x, k)` for every integer `k`: the power `x^k`, negative powers by the inverse (`0` for
`x = 0`), `1` for `k = 0`. -/
theorem C81_exp (h : P.Good) {invert : List Nat → Option (List Nat)} (hi : P.Inverts invert)
    {x : List Nat} {a : ZMod P.p} (hx : MontForm P.p P.n x a) (k : Int) :
    ∃ z c, P.exp invert x k = some z ∧ MontForm P.p P.n z c ∧ (0 ≤ k → c = a ^ k.toNat) ∧
      (k < 0 → a ≠ 0 → c * a ^ (-k).toNat = 1) ∧ (k < 0 → a = 0 → c = 0) := by
  have := Fact.mk h.prime
  obtain ⟨z, e, hz⟩ := mont_exp h hi hx k
  refine ⟨z, _, e, hz, fun hk => ?_, fun hk h0 => ?_, fun hk h0 => ?_⟩
  · conv_lhs => rw [← Int.toNat_of_nonneg hk]
    exact zpow_natCast _ _
  · rw [← zpow_natCast, Int.toNat_of_nonneg (by omega), ← zpow_add₀ h0]
    simp
  · rw [h0]
    exact zero_zpow _ (by omega)

/-- **C81** `BatchInvert(a)`: a slice of the same length with the inverses of the elements, `0` at the zeros. -/
theorem C81_batchInvert (h : P.Good) {invert : List Nat → Option (List Nat)} (hi : P.Inverts invert)
    {a : List (List Nat)} {c : List (ZMod P.p)} (hac : List.Forall₂ (MontForm P.p P.n) a c) :
    ∃ r d, P.batchInvert invert a = some r ∧ List.Forall₂ (MontForm P.p P.n) r d ∧
      List.Forall₂ (fun y x => (x ≠ 0 → y * x = 1) ∧ (x = 0 → y = 0)) d c := by
  have := Fact.mk h.prime
  obtain ⟨r, e, hr⟩ := mont_batchInvert h hi hac
  refine ⟨r, c.map (·⁻¹), e, ?_, ?_⟩
  · rw [List.forall₂_map_right_iff]; exact hr
  · rw [List.forall₂_map_left_iff, List.forall₂_same]
    exact fun x _ => ⟨fun h0 => inv_mul_cancel₀ h0, fun h0 => by rw [h0, inv_zero]⟩

/-- **C81** `z.Halve()`: the element that doubles to `z`. -/
theorem C81_halve (h : P.Good) {z : List Nat} {a : ZMod P.p} (hz : MontForm P.p P.n z a) :
    ∃ b, MontForm P.p P.n (P.halve z) b ∧ b + b = a := by
  have := Fact.mk h.prime
  refine ⟨_, mont_halve h hz, ?_⟩
  have h20 : (2 : ZMod P.p) ≠ 0 := by
    intro h0
    have : P.p ∣ 2 := (ZMod.natCast_eq_zero_iff 2 P.p).1 (by exact_mod_cast h0)
    have := Nat.le_of_dvd (by norm_num) this
    have := h.prime.two_le
    have := h.odd
    omega
  rw [← two_mul, mul_comm, mul_assoc, inv_mul_cancel₀ h20, mul_one]

/-! ### C80 -/

/-- What the constant `bitLen` of `SetRandom` must satisfy: it is the bit length of the modulus. -/
structure FieldPkg.BitsGood (P : FieldPkg) (bitLen : Nat) : Prop where
  le : P.p ≤ 2 ^ bitLen
  lt : 2 ^ (bitLen - 1) < P.p
  fits : bitLen ≤ 64 * P.n

theorem mult_bits : multPkg.BitsGood multBits := by constructor <;> decide +kernel
theorem jindo_bits : jindoPkg.BitsGood jindoBits := by constructor <;> decide +kernel
theorem bfv_bits : bfvPkg.BitsGood bfvBits := by constructor <;> decide +kernel
theorem zp110_bits : zp110Pkg.BitsGood zp110Bits := by constructor <;> decide +kernel
theorem zp220_bits : zp220Pkg.BitsGood zp220Bits := by constructor <;> decide +kernel
theorem zp440_bits : zp440Pkg.BitsGood zp440Bits := by constructor <;> decide +kernel
theorem zp880_bits : zp880Pkg.BitsGood zp880Bits := by constructor <;> decide +kernel

theorem FieldPkg.BitsGood.pos {bitLen : Nat} (h : P.Good) (hb : P.BitsGood bitLen) : 0 < bitLen := by
  rcases Nat.eq_zero_or_pos bitLen with h0 | h0
  · have := hb.le
    rw [h0] at this
    have := h.prime.two_le
    omega
  · exact h0

/-- The number of the `j`th candidate: `k` bytes from byte `j k` on, least significant first, of which the
lowest `bitLen` bits are kept. -/
def candNum (bitLen : Nat) (bytes : List UInt8) (j : Nat) : Nat :=
  Nat.ofDigits 256 (((bytes.drop (j * ((bitLen + 7) / 8))).take ((bitLen + 7) / 8)).map UInt8.toNat) % 2 ^ bitLen

theorem candNum_succ (bitLen : Nat) (bytes : List UInt8) (j : Nat) :
    candNum bitLen (bytes.drop ((bitLen + 7) / 8)) j = candNum bitLen bytes (j + 1) := by
  unfold candNum
  rw [List.drop_drop, show (bitLen + 7) / 8 + j * ((bitLen + 7) / 8) = (j + 1) * ((bitLen + 7) / 8) by ring]

/-- **C80** `z.SetRandom()`: the first candidate below the modulus; the candidates before it are skipped, and no
byte is read after it. -/
theorem C80 (h : P.Good) {bitLen : Nat} (hb : P.BitsGood bitLen) : ∀ (j : Nat) (bytes : List UInt8),
    (j + 1) * ((bitLen + 7) / 8) ≤ bytes.length → (∀ i < j, P.p ≤ candNum bitLen bytes i) →
      candNum bitLen bytes j < P.p →
    ∃ z, P.setRandom bitLen bytes = some (z, bytes.drop ((j + 1) * ((bitLen + 7) / 8))) ∧
      z.length = P.n ∧ (∀ w ∈ z, w < 2 ^ 64) ∧ Nat.ofDigits (2 ^ 64) z = candNum bitLen bytes j := by
  have h0 := hb.pos h
  have hk : (randBytes bitLen).1 = (bitLen + 7) / 8 := rfl
  have hkp : 0 < (bitLen + 7) / 8 := by omega
  have hkn : (bitLen + 7) / 8 ≤ 8 * P.n := by have := hb.fits; omega
  have cand : ∀ bytes : List UInt8, (bitLen + 7) / 8 ≤ bytes.length →
      (P.candidate bitLen (bytes.take ((bitLen + 7) / 8))).length = P.n ∧
      (∀ w ∈ P.candidate bitLen (bytes.take ((bitLen + 7) / 8)), w < 2 ^ 64) ∧
      Nat.ofDigits (2 ^ 64) (P.candidate bitLen (bytes.take ((bitLen + 7) / 8))) = candNum bitLen bytes 0 := by
    intro bytes hl
    obtain ⟨l, w, e⟩ := candidate_spec (P := P) h0 (by rw [hk]; exact hkn)
      (b := bytes.take ((bitLen + 7) / 8)) (by rw [List.length_take, hk]; omega)
    refine ⟨l, w, e.trans ?_⟩
    unfold candNum
    rw [Nat.zero_mul, List.drop_zero]
    rfl
  intro j
  induction j with
  | zero =>
    intro bytes hl _ hlt
    rw [Nat.zero_add, Nat.one_mul] at hl
    obtain ⟨l, w, e⟩ := cand bytes hl
    refine ⟨_, ?_, l, w, e⟩
    rw [setRandom_step bitLen (by rw [hk]; exact hkp) (by rw [hk]; exact hl), hk, if_pos, Nat.zero_add, Nat.one_mul]
    rw [smaller_spec h l w]
    show Nat.ofDigits _ _ < _
    rw [e]
    exact hlt
  | succ j ih =>
    intro bytes hl hge hlt
    have hl1 : (bitLen + 7) / 8 ≤ bytes.length := le_trans (by nlinarith) hl
    obtain ⟨l, w, e⟩ := cand bytes hl1
    obtain ⟨z, ez, hz⟩ := ih (bytes.drop ((bitLen + 7) / 8))
      (by rw [List.length_drop]; rw [Nat.add_mul, Nat.one_mul] at hl; omega)
      (fun i hi => by rw [candNum_succ]; exact hge (i + 1) (by omega)) (by rw [candNum_succ]; exact hlt)
    rw [candNum_succ] at hz
    refine ⟨z, ?_, hz⟩
    rw [setRandom_step bitLen (by rw [hk]; exact hkp) (by rw [hk]; exact hl1), hk, if_neg, ez, List.drop_drop]
    · congr 3
      ring
    · rw [smaller_spec h l w]
      show ¬ Nat.ofDigits _ _ < _
      rw [e]
      exact not_lt.2 (hge 0 (by omega))

/-- **C80** the only other outcome: the reader fails before a candidate is accepted. -/
theorem C80_error (h : P.Good) {bitLen : Nat} (hb : P.BitsGood bitLen) : ∀ (j : Nat) (bytes : List UInt8),
    bytes.length < (j + 1) * ((bitLen + 7) / 8) → (∀ i < j, P.p ≤ candNum bitLen bytes i) →
    P.setRandom bitLen bytes = none := by
  have h0 := hb.pos h
  have hk : (randBytes bitLen).1 = (bitLen + 7) / 8 := rfl
  have hkp : 0 < (bitLen + 7) / 8 := by omega
  have hkn : (bitLen + 7) / 8 ≤ 8 * P.n := by have := hb.fits; omega
  intro j
  have none0 : ∀ bytes : List UInt8, bytes.length < (bitLen + 7) / 8 → P.setRandom bitLen bytes = none := by
    intro bytes hl
    rw [setRandom, dif_neg]
    rw [hk]; omega
  induction j with
  | zero => intro bytes hl _; exact none0 bytes (by omega)
  | succ j ih =>
    intro bytes hl hge
    by_cases hl1 : bytes.length < (bitLen + 7) / 8
    · exact none0 bytes hl1
    · obtain ⟨l, w, e⟩ := candidate_spec (P := P) h0 (by rw [hk]; exact hkn)
        (b := bytes.take ((bitLen + 7) / 8)) (by rw [List.length_take, hk]; omega)
      rw [setRandom_step bitLen (by rw [hk]; exact hkp) (by rw [hk]; omega), hk, if_neg]
      · apply ih
        · rw [List.length_drop]; rw [Nat.add_mul, Nat.one_mul] at hl; omega
        · intro i hi; rw [candNum_succ]; exact hge (i + 1) (by omega)
      · rw [smaller_spec h l w, e]
        have := hge 0 (by omega)
        unfold candNum at this
        rw [Nat.zero_mul, List.drop_zero] at this
        exact not_lt.2 this

/-- **C80** uniformity: among the strings of `k` bytes, the same number, `2^(8k - bitLen)`, gives each residue. -/
theorem C80_uniform (h : P.Good) {bitLen : Nat} (hb : P.BitsGood bitLen) (a : ZMod P.p) :
    {b : List UInt8 | b.length = (bitLen + 7) / 8 ∧
      ∃ z, P.setRandom bitLen b = some (z, []) ∧ MontForm P.p P.n z a}.ncard =
        2 ^ (8 * ((bitLen + 7) / 8) - bitLen) := by
  have := Fact.mk h.prime
  have h0 := hb.pos h
  have hR := R_ne h
  obtain ⟨v, hv, hva⟩ : ∃ v, v < P.p ∧ ((v : Nat) : ZMod P.p) = a * P.R :=
    ⟨(a * P.R).val, ZMod.val_lt _, ZMod.natCast_zmod_val _⟩
  have hpow : 256 ^ ((bitLen + 7) / 8) = 2 ^ bitLen * 2 ^ (8 * ((bitLen + 7) / 8) - bitLen) := by
    rw [← pow_add, show (256 : Nat) = 2 ^ 8 by norm_num, ← pow_mul]
    congr 1
    omega
  have hlt : v < 2 ^ bitLen := lt_of_lt_of_le hv hb.le
  generalize hm : 2 ^ (8 * ((bitLen + 7) / 8) - bitLen) = M at *
  generalize hk : (bitLen + 7) / 8 = k at *
  have hset : {b : List UInt8 | b.length = k ∧ ∃ z, P.setRandom bitLen b = some (z, []) ∧ MontForm P.p P.n z a} =
      (fun t => leOf k (v + 2 ^ bitLen * t)) '' (Finset.range M : Set Nat) := by
    have bound : ∀ t < M, v + 2 ^ bitLen * t < 256 ^ k := by
      intro t ht
      rw [hpow]
      have : 2 ^ bitLen * (t + 1) ≤ 2 ^ bitLen * M := Nat.mul_le_mul_left _ ht
      rw [Nat.mul_add, Nat.mul_one] at this
      omega
    have cn : ∀ b : List UInt8, b.length = k → candNum bitLen b 0 = leNum b % 2 ^ bitLen := by
      intro b hl
      unfold candNum
      rw [hk, Nat.zero_mul, List.drop_zero, List.take_of_length_le (by omega)]
      rfl
    ext b
    simp only [Set.mem_ofPred_eq, Set.mem_image, Finset.coe_range, Set.mem_Iio]
    constructor
    · rintro ⟨hl, z, ez, hz⟩
      have hc : candNum bitLen b 0 < P.p := by
        by_contra hge
        have := C80_error h hb 1 b (by rw [hk]; have : 0 < k := by omega
                                       omega) (fun i hi => by
          have : i = 0 := by omega
          rw [this]; omega)
        rw [this] at ez
        cases ez
      obtain ⟨z', ez', -, -, e⟩ := C80 h hb 0 b (by rw [hk]; omega) (fun i hi => by omega) hc
      rw [ez] at ez'
      have hzz : z = z' := (Prod.mk.inj (Option.some.inj ez')).1
      rw [← hzz] at e
      have hval := hz.val
      rw [e] at hval
      have hvv : candNum bitLen b 0 = v := by
        have : ((candNum bitLen b 0 : Nat) : ZMod P.p) = (v : Nat) := hval.trans hva.symm
        rw [ZMod.natCast_eq_natCast_iff'] at this
        rwa [Nat.mod_eq_of_lt hc, Nat.mod_eq_of_lt hv] at this
      rw [cn b hl] at hvv
      have hdm := Nat.mod_add_div (leNum b) (2 ^ bitLen)
      refine ⟨leNum b / 2 ^ bitLen, ?_, ?_⟩
      · rw [Nat.div_lt_iff_lt_mul (by positivity), Nat.mul_comm, ← hpow, ← hl]
        exact leNum_lt b
      · rw [← hvv, hdm]
        apply leNum_inj
        · rw [leOf_length, hl]
        · rw [leNum_leOf]
          rw [← hl]
          exact leNum_lt b
    · rintro ⟨t, ht, rfl⟩
      refine ⟨leOf_length _ _, ?_⟩
      have hc : candNum bitLen (leOf k (v + 2 ^ bitLen * t)) 0 = v := by
        rw [cn _ (leOf_length _ _), leNum_leOf _ _ (bound t ht), Nat.add_mul_mod_self_left, Nat.mod_eq_of_lt hlt]
      obtain ⟨z, ez, l, w, e⟩ := C80 h hb 0 (leOf k (v + 2 ^ bitLen * t)) (by rw [hk, leOf_length]; omega)
        (fun i hi => by omega) (by rw [hc]; exact hv)
      rw [hc] at e
      refine ⟨z, ?_, l, w, ?_, ?_⟩
      · rw [ez, hk, Nat.zero_add, Nat.one_mul, List.drop_of_length_le (by rw [leOf_length])]
      · rw [e]; exact hv
      · rw [e]; exact hva
  rw [hset, Set.InjOn.ncard_image, Set.ncard_coe_finset, Finset.card_range]
  intro t ht u hu htu
  have bound : ∀ t < M, v + 2 ^ bitLen * t < 256 ^ k := by
    intro t ht
    rw [hpow]
    have : 2 ^ bitLen * (t + 1) ≤ 2 ^ bitLen * M := Nat.mul_le_mul_left _ ht
    rw [Nat.mul_add, Nat.mul_one] at this
    omega
  have := congrArg leNum htu
  simp only at this
  rw [leNum_leOf _ _ (bound t (by simpa using ht)), leNum_leOf _ _ (bound u (by simpa using hu))] at this
  have hpos : 0 < 2 ^ bitLen := by positivity
  exact Nat.eq_of_mul_eq_mul_left hpos (by omega)

/-! ### Concrete cases -/

/-- `x.Inverse(x)` for `x = 3` in jindo/internal/zp. -/
example : ∃ m' b, FieldPkg.inverseAt (jindoPkg.inverse jindoInv jindoPkg.gcdFuel) caseMem 1 1 = some m' ∧
    MontForm jindoPkg.p jindoPkg.n (m' 1) b ∧ b * 3 = 1 := by
  have h := C79_jindo.1
  have := Fact.mk h.prime
  have hx : MontForm jindoPkg.p jindoPkg.n (caseMem 1) (3 : ZMod jindoPkg.p) := by
    have := C71_setUint64 h (v := 3) (by norm_num)
    rw [Nat.cast_ofNat] at this
    exact this
  obtain ⟨m', b, e, hm, h1, -⟩ := C74 h jindo_inv le_rfl caseMem 1 1 hx
  refine ⟨m', b, e, hm, h1 ?_⟩
  intro h0
  have : jindoPkg.p ∣ 3 := (ZMod.natCast_eq_zero_iff 3 jindoPkg.p).1 (by exact_mod_cast h0)
  have h3 := Nat.le_of_dvd (by norm_num) this
  have := C79_jindo.2.1
  rw [this] at h3
  norm_num at h3

/-- The zero of mult: its "inverse" is zero. -/
example : ∃ m' b, FieldPkg.inverseAt (fun x => some (multPkg.inverseBig x))
    (fun _ => List.replicate multPkg.n 0) 0 1 = some m' ∧ MontForm multPkg.p multPkg.n (m' 0) b ∧ b = 0 := by
  obtain ⟨m', b, e, hm, -, h1, -⟩ := C74_mult C79_mult.1 (fun _ => List.replicate multPkg.n 0) 0 1
    (mont_zero C79_mult.1)
  exact ⟨m', b, e, hm, h1 rfl⟩

/-- `-1` cubed and inverted, in zp880. -/
example : ∃ z, zp880Pkg.exp (zp880Pkg.inverse zp880Inv zp880Pkg.gcdFuel) (zp880Pkg.setBigInt (-1)) (-3) = some z ∧
    ∃ c, MontForm zp880Pkg.p zp880Pkg.n z c ∧ c * (((-1 : Int)) : ZMod zp880Pkg.p) ^ 3 = 1 := by
  have h := C79_zp880.1
  have := Fact.mk h.prime
  obtain ⟨z, c, e, hz, -, h1, -⟩ := C81_exp h (inverts h zp880_inv le_rfl) (C71_setBigInt h (-1)) (-3)
  refine ⟨z, e, c, hz, h1 (by norm_num) ?_⟩
  rw [Int.cast_neg, Int.cast_one]
  exact neg_ne_zero.2 one_ne_zero

/-- In jindo/internal/zp each element is the outcome of 2 strings of 32 bytes; in zp110, of 4 strings of 14. -/
example (a : ZMod jindoPkg.p) : {b : List UInt8 | b.length = 32 ∧
    ∃ z, jindoPkg.setRandom jindoBits b = some (z, []) ∧ MontForm jindoPkg.p jindoPkg.n z a}.ncard = 2 :=
  C80_uniform C79_jindo.1 jindo_bits a

example (a : ZMod zp110Pkg.p) : {b : List UInt8 | b.length = 14 ∧
    ∃ z, zp110Pkg.setRandom zp110Bits b = some (z, []) ∧ MontForm zp110Pkg.p zp110Pkg.n z a}.ncard = 4 :=
  C80_uniform C79_zp110.1 zp110_bits a

end Ringo
