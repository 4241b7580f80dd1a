import Verif.Proof.FieldGcd
import Verif.Proof.FieldBytes
import Mathlib.Data.Nat.Bitwise
import Mathlib.Data.Nat.Size

/-! # `Inverse`: words, approximations, one pass of the outer loop -/

namespace Ringo

namespace FieldPkg

/-! ### Bit lengths -/

theorem size_add_mul {x w k : Nat} (hx : x < 2 ^ k) (hw : w ≠ 0) : (x + 2 ^ k * w).size = k + w.size := by
  apply le_antisymm
  · rw [Nat.size_le, pow_add]
    have h := Nat.lt_size_self w
    have : 2 ^ k * (w + 1) ≤ 2 ^ k * 2 ^ w.size := Nat.mul_le_mul_left _ h
    rw [Nat.mul_add, Nat.mul_one] at this
    omega
  · have hs : 0 < w.size := Nat.size_pos.2 (by omega)
    have : k + (w.size - 1) < (x + 2 ^ k * w).size := by
      rw [Nat.lt_size, pow_add]
      have h : 2 ^ (w.size - 1) ≤ w := by rw [← Nat.lt_size]; omega
      exact (Nat.mul_le_mul_left _ h).trans (by omega)
    omega

theorem bitLenFrom_spec {z : List Nat} (wz : Words z) : ∀ k ≤ z.length,
    bitLenFrom z k = (wv (z.take k)).size
  | 0, _ => by simp [bitLenFrom, wv]
  | k + 1, hk => by
    have hk' : k < z.length := hk
    have e : z.take (k + 1) = z.take k ++ [z.getD k 0] := by
      rw [List.take_add_one, List.getElem?_eq_getElem hk', List.getD_eq_getElem _ _ hk']; rfl
    have hl : (z.take k).length = k := by rw [List.length_take]; omega
    rw [bitLenFrom, e, wv_concat, hl, ← pow_mul]
    split
    · rename_i h0
      have hlt : wv (z.take k) < 2 ^ (64 * k) := by
        have := wv_lt (l := z.take k) (fun w hw => wz w (List.mem_of_mem_take hw))
        rwa [hl, ← pow_mul] at this
      rw [size_add_mul hlt h0]
    · rename_i h0
      have h0 : z.getD k 0 = 0 := by simpa using h0
      rw [h0, Nat.mul_zero, Nat.add_zero]
      exact bitLenFrom_spec wz k (by omega)

theorem bitLen_spec {z : List Nat} (wz : Words z) : bitLen z = (wv z).size := by
  rw [bitLen, bitLenFrom_spec wz _ le_rfl, List.take_length]

/-! ### Approximations -/

theorem getD_wv : ∀ {z : List Nat}, Words z → ∀ i, z.getD i 0 = wv z / 2 ^ (64 * i) % 2 ^ 64
  | [], _, i => by simp [wv]
  | a :: z, h, 0 => by
    rw [List.getD_cons_zero, wv_cons, Nat.mul_zero, pow_zero, Nat.div_one, Nat.add_mul_mod_self_left,
      Nat.mod_eq_of_lt h.head]
  | a :: z, h, i + 1 => by
    rw [List.getD_cons_succ, getD_wv h.tail' i, wv_cons, show 64 * (i + 1) = 64 + 64 * i by ring, pow_add,
      ← Nat.div_div_eq_div_mul, Nat.add_mul_div_left _ _ (by norm_num), Nat.div_eq_of_lt h.head, Nat.zero_add]

theorem notLow_eq {s : Nat} (hs : s ≤ 64) : notLow s = 2 ^ 64 - 2 ^ s := by
  unfold notLow
  rw [Nat.one_shiftLeft]
  rcases Nat.lt_or_ge s 64 with h | h
  · have h1 : 2 ^ s < 2 ^ 64 := Nat.pow_lt_pow_right (by norm_num) h
    have h2 : 0 < 2 ^ s := by positivity
    rw [Nat.mod_eq_of_lt h1]
    generalize 2 ^ s = t at *
    omega
  · have : s = 64 := by omega
    subst this
    norm_num

theorem and_notLow {w s : Nat} (hs : s ≤ 64) (hw : w < 2 ^ 64) : w &&& notLow s = w / 2 ^ s * 2 ^ s := by
  rw [notLow_eq hs]
  apply Nat.eq_of_testBit_eq
  intro i
  have h2 : 0 < 2 ^ s := by positivity
  have e : 2 ^ 64 - 2 ^ s = 2 ^ 64 - ((2 ^ s - 1) + 1) := by
    rw [Nat.sub_add_cancel h2]
  have h3 : 2 ^ s - 1 < 2 ^ 64 := by
    have : 2 ^ s ≤ 2 ^ 64 := Nat.pow_le_pow_right (by norm_num) hs
    omega
  rw [Nat.testBit_and, e, Nat.testBit_two_pow_sub_succ h3, Nat.testBit_two_pow_sub_one, Nat.mul_comm,
    Nat.testBit_two_pow_mul, Nat.testBit_div_two_pow]
  rcases Nat.lt_or_ge i 64 with hi | hi
  · by_cases his : i < s
    · simp [his, hi]
    · have : s ≤ i := by omega
      simp [hi, this]
  · have : w.testBit i = false := Nat.testBit_lt_two_pow (lt_of_lt_of_le hw (Nat.pow_le_pow_right (by norm_num) hi))
    by_cases his : s ≤ i
    · simp [his, this]
    · omega

theorem or_disjoint {a b k : Nat} (ha : a < 2 ^ k) : a ||| 2 ^ k * b = a + 2 ^ k * b := by
  rw [Nat.or_comm, ← Nat.two_pow_add_eq_or_of_lt ha, Nat.add_comm]

/-- The approximation: the low 31 bits, and the 33 bits from bit `n - 33` on. -/
theorem approximate_spec {z : List Nat} (wz : Words z) {n : Nat} (hn : 64 < n) (hz : wv z < 2 ^ n) :
    approximate z n = wv z % 2 ^ 31 + 2 ^ 31 * (wv z / 2 ^ (n - 33)) := by
  unfold approximate
  rw [if_neg (by omega)]
  simp only
  obtain ⟨i, hi⟩ : ∃ i, (n - 1) / 64 = i + 1 := ⟨(n - 1) / 64 - 1, by omega⟩
  obtain ⟨v, hv⟩ : ∃ v, n = 64 * (i + 1) + v ∧ 1 ≤ v ∧ v ≤ 64 := ⟨n - 64 * (i + 1), by omega⟩
  obtain ⟨hnv, hv1, hv2⟩ := hv
  rw [hi, show n - (i + 1) * 64 = v by omega, show i + 1 - 1 = i by omega]
  have hlo : (2 ^ 31 - 1) &&& z.getD 0 0 = wv z % 2 ^ 31 := by
    rw [Nat.and_comm, Nat.and_two_pow_sub_one_eq_mod, getD_wv wz 0, Nat.mul_zero, pow_zero, Nat.div_one,
      Nat.mod_mod_of_dvd _ (by norm_num)]
  rw [hlo]
  -- the words
  obtain ⟨W, hW⟩ : ∃ W, wv z / 2 ^ (64 * (i + 1)) = W := ⟨_, rfl⟩
  have hWlt : W < 2 ^ v := by
    rw [← hW, Nat.div_lt_iff_lt_mul (by positivity), ← pow_add]
    rwa [show v + 64 * (i + 1) = n by omega]
  have hW64 : W < 2 ^ 64 := lt_of_lt_of_le hWlt (Nat.pow_le_pow_right (by norm_num) hv2)
  have e1 : z.getD (i + 1) 0 = W := by rw [getD_wv wz, hW, Nat.mod_eq_of_lt hW64]
  obtain ⟨Y, hY⟩ : ∃ Y, wv z / 2 ^ (64 * i) = Y := ⟨_, rfl⟩
  have hYW : Y / 2 ^ 64 = W := by
    rw [← hY, ← hW, Nat.div_div_eq_div_mul, ← pow_add, show 64 * i + 64 = 64 * (i + 1) by ring]
  have e2 : z.getD i 0 = Y % 2 ^ 64 := by rw [getD_wv wz, hY]
  rw [e1, e2]
  have hYlt : Y % 2 ^ 64 < 2 ^ 64 := Nat.mod_lt _ (by norm_num)
  have hlt : wv z % 2 ^ 31 < 2 ^ 31 := Nat.mod_lt _ (by norm_num)
  rcases Nat.lt_or_ge v 33 with h33 | h33
  · rw [Nat.min_eq_left (by omega), Nat.sub_self, and_notLow (by omega) hW64, pow_zero, Nat.div_one,
      Nat.mul_one, Nat.and_comm, and_notLow (by omega) hYlt, Nat.shiftLeft_eq, Nat.shiftRight_eq_div_pow]
    have hq : wv z / 2 ^ (n - 33) = Y % 2 ^ 64 / 2 ^ (31 + v) + 2 ^ (33 - v) * W := by
      rw [show n - 33 = 64 * i + (31 + v) by omega, pow_add, ← Nat.div_div_eq_div_mul, hY]
      conv_lhs => rw [← Nat.mod_add_div Y (2 ^ 64), hYW]
      rw [show (2 : Nat) ^ 64 * W = 2 ^ (31 + v) * (2 ^ (33 - v) * W) by
        rw [← Nat.mul_assoc, ← pow_add, show 31 + v + (33 - v) = 64 by omega]]
      rw [Nat.add_mul_div_left _ _ (by positivity)]
    have hm : Y % 2 ^ 64 / 2 ^ (31 + v) * 2 ^ (31 + v) / 2 ^ v = 2 ^ 31 * (Y % 2 ^ 64 / 2 ^ (31 + v)) := by
      rw [pow_add, ← Nat.mul_assoc, Nat.mul_div_cancel _ (by positivity), Nat.mul_comm]
    rw [hm, hq]
    have hh : W * 2 ^ (64 - v) % 2 ^ 64 = 2 ^ (64 - v) * W := by
      rw [Nat.mod_eq_of_lt, Nat.mul_comm]
      calc W * 2 ^ (64 - v) < 2 ^ v * 2 ^ (64 - v) := Nat.mul_lt_mul_of_pos_right hWlt (by positivity)
        _ = 2 ^ 64 := by rw [← pow_add, show v + (64 - v) = 64 by omega]
    rw [hh, or_disjoint hlt]
    have hb : Y % 2 ^ 64 / 2 ^ (31 + v) < 2 ^ (33 - v) := by
      rw [Nat.div_lt_iff_lt_mul (by positivity), ← pow_add, show 33 - v + (31 + v) = 64 by omega]
      exact hYlt
    have hb2 : wv z % 2 ^ 31 + 2 ^ 31 * (Y % 2 ^ 64 / 2 ^ (31 + v)) < 2 ^ (64 - v) := by
      rw [show 64 - v = 31 + (33 - v) by omega, pow_add 2 31 (33 - v)]
      generalize Y % 2 ^ 64 / 2 ^ (31 + v) = t at *
      generalize 2 ^ (33 - v) = q at *
      omega
    rw [or_disjoint hb2, show 64 - v = 31 + (33 - v) by omega, pow_add 2 31 (33 - v)]
    ring
  · rw [Nat.min_eq_right h33, and_notLow (by omega) hW64]
    have hmid : (notLow (31 + 33) &&& Y % 2 ^ 64) >>> 33 = 0 := by
      rw [Nat.and_comm, and_notLow (by norm_num) hYlt, show 31 + 33 = 64 by norm_num,
        Nat.div_eq_of_lt hYlt, Nat.zero_mul, Nat.zero_shiftRight]
    rw [hmid, Nat.or_zero, Nat.shiftLeft_eq]
    have hq : wv z / 2 ^ (n - 33) = W / 2 ^ (v - 33) := by
      rw [show n - 33 = 64 * (i + 1) + (v - 33) by omega, pow_add, ← Nat.div_div_eq_div_mul, hW]
    have hh : W / 2 ^ (v - 33) * 2 ^ (v - 33) * 2 ^ (64 - v) % 2 ^ 64 = 2 ^ 31 * (W / 2 ^ (v - 33)) := by
      rw [Nat.mul_assoc, ← pow_add, show v - 33 + (64 - v) = 31 by omega, Nat.mod_eq_of_lt, Nat.mul_comm]
      have : W / 2 ^ (v - 33) < 2 ^ 33 := by
        rw [Nat.div_lt_iff_lt_mul (by positivity), ← pow_add, show 33 + (v - 33) = v by omega]
        exact hWlt
      omega
    rw [hh, hq, or_disjoint hlt]

/-! ### Signed words -/

theorem abs64 (v : BitVec 64) :
    (((v ^^^ v.sshiftRight 63) - v.sshiftRight 63).toNat : Int) = |v.toInt| ∧
      (v.slt 0 = true ↔ v.toInt < 0) := by
  refine ⟨?_, by rw [BitVec.slt_iff_toInt_lt]; rfl⟩
  have hlt := v.isLt
  by_cases hm : v.msb = true
  · have e : v.sshiftRight 63 = BitVec.allOnes 64 := by
      apply BitVec.eq_of_getElem_eq
      intro i hi
      rw [BitVec.getElem_sshiftRight]
      by_cases h0 : i = 0
      · subst h0
        simp [BitVec.msb_eq_getLsbD_last] at hm ⊢
        simpa using hm
      · have : ¬ 63 + i < 64 := by omega
        rw [dif_neg this, hm, BitVec.getElem_allOnes]
    have e2 : (v ^^^ BitVec.allOnes 64) - BitVec.allOnes 64 = -v := by
      rw [BitVec.xor_allOnes, BitVec.neg_eq_not_add, BitVec.sub_eq_add_neg]
      congr 1
    have hv : v.toInt = -(((-v).toNat : Nat) : Int) := by
      rw [BitVec.toInt_eq_msb_cond, hm, BitVec.toNat_neg]
      have : 2 ^ 63 ≤ v.toNat := by
        rw [BitVec.msb_eq_decide] at hm
        simpa using hm
      simp only [if_true]
      rw [Nat.mod_eq_of_lt (by omega)]
      omega
    rw [e, e2, hv, abs_neg, abs_of_nonneg (by omega)]
  · have hm' : v.msb = false := by simpa using hm
    have e : v.sshiftRight 63 = 0#64 := by
      apply BitVec.eq_of_getElem_eq
      intro i hi
      rw [BitVec.getElem_sshiftRight]
      by_cases h0 : i = 0
      · subst h0
        simp [BitVec.msb_eq_getLsbD_last] at hm' ⊢
        simpa using hm'
      · have : ¬ 63 + i < 64 := by omega
        simp [this, hm']
    have e2 : (v ^^^ 0#64) - 0#64 = v := by simp
    have hv : v.toInt = (v.toNat : Int) := by
      rw [BitVec.toInt_eq_msb_cond, hm']; simp
    rw [e, e2, hv, abs_of_nonneg (by omega)]

theorem toInt_small {f : Int} (h1 : -2 ^ 31 < f) (h2 : f ≤ 2 ^ 31) : (BitVec.ofInt 64 f).toInt = f := by
  rw [BitVec.toInt_ofInt]
  apply Int.bmod_eq_of_le <;> omega

theorem decompose_spec {f g : Int} (h1 : -2 ^ 31 < f) (h2 : f ≤ 2 ^ 31) (h3 : -2 ^ 31 < g)
    (h4 : g ≤ 2 ^ 31) :
    decompose (BitVec.ofInt 64 (f + 2 ^ 32 * g)) = (BitVec.ofInt 64 f, BitVec.ofInt 64 g) := by
  obtain ⟨F, hF⟩ : ∃ F : Nat, (F : Int) = f + (2 ^ 31 - 1) := ⟨(f + (2 ^ 31 - 1)).toNat, by omega⟩
  obtain ⟨G, hG⟩ : ∃ G : Nat, (G : Int) = g + (2 ^ 31 - 1) := ⟨(g + (2 ^ 31 - 1)).toNat, by omega⟩
  have hF' : F < 2 ^ 32 := by omega
  have hG' : G < 2 ^ 32 := by omega
  have e : BitVec.ofInt 64 (f + 2 ^ 32 * g) + 0x7fffffff7fffffff#64 = BitVec.ofNat 64 (F + 2 ^ 32 * G) := by
    have : (0x7fffffff7fffffff#64) = BitVec.ofInt 64 0x7fffffff7fffffff := rfl
    rw [this, ← BitVec.ofInt_add, ← BitVec.ofInt_natCast]
    congr 1
    push_cast
    rw [hF, hG]
    ring
  have b : (0x7FFFFFFF#64) = BitVec.ofInt 64 (2 ^ 31 - 1) := rfl
  have m1 : BitVec.ofNat 64 (F + 2 ^ 32 * G) &&& 0xFFFFFFFF#64 = BitVec.ofNat 64 F := by
    apply BitVec.eq_of_toNat_eq
    rw [BitVec.toNat_and, BitVec.toNat_ofNat, BitVec.toNat_ofNat, BitVec.toNat_ofNat,
      show 0xFFFFFFFF % 2 ^ 64 = 2 ^ 32 - 1 by norm_num, Nat.and_two_pow_sub_one_eq_mod]
    omega
  have m2 : (BitVec.ofNat 64 (F + 2 ^ 32 * G)).sshiftRight 32 &&& 0xFFFFFFFF#64 = BitVec.ofNat 64 G := by
    have hs : (BitVec.ofNat 64 (F + 2 ^ 32 * G)).sshiftRight 32 &&& 0xFFFFFFFF#64 =
        (BitVec.ofNat 64 (F + 2 ^ 32 * G)) >>> 32 := by
      apply BitVec.eq_of_getElem_eq
      intro i hi
      have hmask : (0xFFFFFFFF#64).getLsbD i = decide (i < 32) := by
        rw [BitVec.getLsbD_ofNat, show (0xFFFFFFFF : Nat) = 2 ^ 32 - 1 by norm_num, Nat.testBit_two_pow_sub_one]
        simp [hi]
      rw [BitVec.getElem_and, BitVec.getElem_sshiftRight, ← BitVec.getLsbD_eq_getElem (x := 0xFFFFFFFF#64), hmask,
        BitVec.getElem_ushiftRight]
      by_cases h32 : i < 32
      · simp only [h32, decide_true, Bool.and_true]
        rw [dif_pos (by omega), BitVec.getLsbD_eq_getElem (by omega)]
      · simp only [h32, decide_false, Bool.and_false]
        rw [BitVec.getLsbD_of_ge _ _ (by omega)]
    rw [hs]
    apply BitVec.eq_of_toNat_eq
    rw [BitVec.toNat_ushiftRight, BitVec.toNat_ofNat, BitVec.toNat_ofNat, Nat.shiftRight_eq_div_pow]
    omega
  unfold decompose
  simp only
  rw [e, m1, m2, b, ← BitVec.ofInt_natCast, ← BitVec.ofInt_natCast, ofInt_sub', ofInt_sub', hF, hG]
  congr 2 <;> ring

/-! ### Products with a word -/

theorem negL_spec {x : List Nat} (wx : Words x) {hi : Nat} (hh : hi < 2 ^ 64) :
    (∃ k : Int, ((wv (negL x hi).1 : Int) + (2 ^ 64) ^ x.length * (negL x hi).2) =
        -((wv x : Int) + (2 ^ 64) ^ x.length * hi) + (2 ^ 64) ^ (x.length + 1) * k) ∧
      (negL x hi).1.length = x.length ∧ Words (negL x hi).1 ∧ (negL x hi).2 < 2 ^ 64 := by
  obtain ⟨e, l, w, c⟩ := subChain_spec (List.replicate x.length 0) x 0 (Words.replicate _) wx (by simp)
    (by omega)
  obtain ⟨e', l', c'⟩ := sub64_spec (a := 0) (b := hi) (by norm_num) hh c
  rw [List.length_replicate, wv_replicate, Nat.add_zero, Nat.zero_add] at e
  rw [List.length_replicate] at l
  unfold negL
  simp only
  refine ⟨⟨((sub64 0 hi (subChain (List.replicate x.length 0) x 0).2).2 : Nat), ?_⟩, l, w, l'⟩
  generalize (subChain (List.replicate x.length 0) x 0) = r at *
  generalize sub64 0 hi r.2 = t at *
  generalize wv r.1 = R at *
  generalize wv x = X at *
  zify at e e'
  rw [pow_succ ((2 : Int) ^ 64)]
  linear_combination e + (2 ^ 64 : Int) ^ x.length * e'

theorem mulWRow_spec {v : Nat} (hv : v < 2 ^ 64) : ∀ (x : List Nat) (C : Nat), Words x → C < 2 ^ 64 →
    wv (mulWRow v x C).1 + (2 ^ 64) ^ x.length * (mulWRow v x C).2 = v * wv x + C ∧
      (mulWRow v x C).1.length = x.length ∧ Words (mulWRow v x C).1 ∧ (mulWRow v x C).2 < 2 ^ 64
  | [], C, _, hC => by simpa [mulWRow, Words.nil] using hC
  | x :: xs, C, hx, hC => by
    obtain ⟨ha, ha', ha''⟩ := madd1_spec hx.head hv hC
    obtain ⟨h1, h2, h3, h4⟩ := mulWRow_spec hv xs (madd1 x v C).1 hx.tail' ha'
    simp only [mulWRow]
    refine ⟨?_, by simp [h2], h3.cons ha'', h4⟩
    rw [wv_cons, wv_cons, List.length_cons, pow_succ (2 ^ 64) xs.length]
    generalize (2 : Nat) ^ 64 = W at *
    linear_combination ha + W * h1

theorem mulW_spec {x : List Nat} (wx : Words x) (hx : 0 < x.length) (y : BitVec 64) :
    (∃ k : Int, ((wv (mulW x y).1 : Int) + (2 ^ 64) ^ x.length * (mulW x y).2) =
        y.toInt * wv x + (2 ^ 64) ^ (x.length + 1) * k) ∧
      (mulW x y).1.length = x.length ∧ Words (mulW x y).1 ∧ (mulW x y).2 < 2 ^ 64 := by
  rcases x with _ | ⟨x0, xs⟩
  · simp at hx
  obtain ⟨ha, hs⟩ := abs64 y
  unfold mulW
  simp only [List.headD_cons, List.tail_cons]
  have hw := ((y ^^^ y.sshiftRight 63) - y.sshiftRight 63).isLt
  generalize ((y ^^^ y.sshiftRight 63) - y.sshiftRight 63).toNat = w at *
  have hm := mul64_spec x0 w
  obtain ⟨hm1, hm2⟩ := mul64_lt wx.head hw
  obtain ⟨r1, r2, r3, r4⟩ := mulWRow_spec hw xs (mul64 x0 w).1 wx.tail' hm1
  have hN : (wv ((mul64 x0 w).2 :: (mulWRow w xs (mul64 x0 w).1).1) : Int) +
      (2 ^ 64) ^ (xs.length + 1) * (mulWRow w xs (mul64 x0 w).1).2 = w * wv (x0 :: xs) := by
    rw [wv_cons, wv_cons, pow_succ (2 ^ 64) xs.length]
    generalize mulWRow w xs (mul64 x0 w).1 = R at *
    generalize mul64 x0 w = t at *
    generalize wv R.1 = R1 at *
    generalize wv xs = X at *
    zify at hm r1
    push_cast
    linear_combination hm + (2 ^ 64 : Int) * r1
  have hl : ((mul64 x0 w).2 :: (mulWRow w xs (mul64 x0 w).1).1).length = xs.length + 1 := by simp [r2]
  have hW : Words ((mul64 x0 w).2 :: (mulWRow w xs (mul64 x0 w).1).1) := r3.cons hm2
  generalize ((mul64 x0 w).2 :: (mulWRow w xs (mul64 x0 w).1).1) = Z at *
  generalize (mulWRow w xs (mul64 x0 w).1).2 = C at *
  rw [List.length_cons]
  by_cases hneg : y.slt 0 = true
  · rw [if_pos hneg]
    obtain ⟨⟨k, hk⟩, l, w', c⟩ := negL_spec hW r4
    rw [hl] at hk l
    refine ⟨⟨k, ?_⟩, l, w', c⟩
    rw [abs_of_neg (hs.1 hneg)] at ha
    rw [hk, hN, ha]
    ring
  · rw [if_neg hneg]
    have : 0 ≤ y.toInt := by
      by_contra h
      exact hneg (hs.2 (by omega))
    rw [abs_of_nonneg this] at ha
    refine ⟨⟨0, ?_⟩, hl, hW, r4⟩
    simp only
    rw [hN, ha]
    ring

theorem linComb_spec {x y : List Nat} (wx : Words x) (wy : Words y) (hx : 0 < x.length)
    (hl : y.length = x.length) (f g : BitVec 64) :
    (∃ k : Int, ((wv (linComb x f y g).1 : Int) + (2 ^ 64) ^ x.length * (linComb x f y g).2) =
        f.toInt * wv x + g.toInt * wv y + (2 ^ 64) ^ (x.length + 1) * k) ∧
      (linComb x f y g).1.length = x.length ∧ Words (linComb x f y g).1 ∧
      (linComb x f y g).2 < 2 ^ 64 := by
  obtain ⟨⟨k1, e1⟩, l1, w1, c1⟩ := mulW_spec wx hx f
  obtain ⟨⟨k2, e2⟩, l2, w2, c2⟩ := mulW_spec wy (by omega) g
  rw [hl] at e2 l2
  obtain ⟨e3, l3, w3, c3⟩ := addChain_spec (mulW x f).1 (mulW y g).1 0 w1 w2 (by omega) (by omega)
  rw [l1] at e3 l3
  unfold linComb
  simp only
  have e4 := add64_spec (mulW x f).2 (mulW y g).2 (addChain (mulW x f).1 (mulW y g).1 0).2
  refine ⟨⟨k1 + k2 - (add64 (mulW x f).2 (mulW y g).2 (addChain (mulW x f).1 (mulW y g).1 0).2).2, ?_⟩, l3, w3,
    add64_lt _ _ _⟩
  generalize mulW x f = X at *
  generalize mulW y g = Y at *
  generalize addChain X.1 Y.1 0 = Z at *
  generalize add64 X.2 Y.2 Z.2 = A at *
  generalize wv X.1 = X1 at *
  generalize wv Y.1 = Y1 at *
  generalize wv Z.1 = Z1 at *
  zify at e3 e4
  rw [pow_succ ((2 : Int) ^ 64)] at e1 e2 ⊢
  linear_combination e3 + e1 + e2 + (2 ^ 64 : Int) ^ x.length * e4

/-! ### The new values -/

theorem shiftWord {a h : Nat} (ha : a < 2 ^ 64) :
    (a >>> 31) ||| ((h <<< 33) % 2 ^ 64) = a / 2 ^ 31 + 2 ^ 33 * (h % 2 ^ 31) := by
  rw [Nat.shiftRight_eq_div_pow, Nat.shiftLeft_eq]
  have : h * 2 ^ 33 % 2 ^ 64 = 2 ^ 33 * (h % 2 ^ 31) := by omega
  rw [this, or_disjoint (by omega)]

theorem shift31_spec : ∀ (z : List Nat) (hi : Nat), Words z → hi < 2 ^ 31 →
    wv (shift31 z hi) = (wv z + (2 ^ 64) ^ z.length * hi) / 2 ^ 31 ∧ (shift31 z hi).length = z.length ∧
      Words (shift31 z hi)
  | [], hi, _, hh => by
    refine ⟨?_, rfl, Words.nil⟩
    simp only [shift31, wv_nil, List.length_nil, pow_zero]
    omega
  | [a], hi, wz, hh => by
    have ha := wz.head
    simp only [shift31, shiftWord ha]
    refine ⟨?_, rfl, Words.nil.cons (by omega)⟩
    rw [wv_cons, wv_cons, wv_nil, List.length_singleton, pow_one]
    omega
  | a :: a' :: as, hi, wz, hh => by
    obtain ⟨e, l, w⟩ := shift31_spec (a' :: as) hi wz.tail' hh
    have ha := wz.head
    have ha' := wz.tail'.head
    simp only [shift31, shiftWord ha]
    refine ⟨?_, by rw [List.length_cons, l]; rfl, w.cons (by omega)⟩
    rw [wv_cons, e]
    have eN : wv (a :: a' :: as) + (2 ^ 64) ^ (a :: a' :: as).length * hi =
        a + 2 ^ 64 * (wv (a' :: as) + (2 ^ 64) ^ (a' :: as).length * hi) := by
      rw [wv_cons a, List.length_cons (a := a), pow_succ (2 ^ 64)]
      ring
    have eM : (wv (a' :: as) + (2 ^ 64) ^ (a' :: as).length * hi) % 2 ^ 31 = a' % 2 ^ 31 := by
      rw [wv_cons, List.length_cons, pow_succ (2 ^ 64)]
      rw [show a' + 2 ^ 64 * wv as + (2 ^ 64) ^ as.length * 2 ^ 64 * hi =
        a' + 2 ^ 31 * (2 ^ 33 * wv as + (2 ^ 64) ^ as.length * 2 ^ 33 * hi) by ring, Nat.add_mul_mod_self_left]
    rw [eN]
    generalize wv (a' :: as) + (2 ^ 64) ^ (a' :: as).length * hi = N at *
    omega

theorem sign_test {h : Nat} (hh : h < 2 ^ 64) : h &&& 2 ^ 63 ≠ 0 ↔ 2 ^ 63 ≤ h := by
  rw [Nat.and_two_pow]
  have : h.testBit 63 = decide (2 ^ 63 ≤ h) := by
    rw [Nat.testBit_eq_decide_div_mod_eq]
    congr 1
    apply propext
    constructor <;> intro h' <;> omega
  rw [this]
  by_cases h' : 2 ^ 63 ≤ h <;> simp

/-- A new value: the absolute value of the combination, divided by `2^31`. -/
theorem gcdRow_spec {x y : List Nat} (wx : Words x) (wy : Words y) (hx : 0 < x.length)
    (hl : y.length = x.length) (f g : BitVec 64) {X : Int}
    (hX : f.toInt * wv x + g.toInt * wv y = 2 ^ 31 * X) (hb : |X| < (2 ^ 64) ^ x.length) :
    (wv (gcdRow x y f g).1 : Int) = |X| ∧ (gcdRow x y f g).1.length = x.length ∧
      Words (gcdRow x y f g).1 := by
  obtain ⟨⟨k, e⟩, l, w, c⟩ := linComb_spec wx wy hx hl f g
  unfold gcdRow
  simp only
  rw [hX] at e
  generalize linComb x f y g = r at *
  obtain ⟨z, hi⟩ := r
  simp only at e l w c ⊢
  have hlt := wv_lt w
  rw [l] at hlt
  have hpos : (0 : Int) < (2 ^ 64) ^ x.length := by positivity
  have hzlt : (wv z : Int) < (2 ^ 64) ^ x.length := by exact_mod_cast hlt
  have hz0 : (0 : Int) ≤ wv z := by omega
  rw [abs_lt] at hb
  obtain ⟨hb1, hb2⟩ := hb
  rw [pow_succ ((2 : Int) ^ 64)] at e
  -- a nonnegative number with the right value
  have key : ∀ (z : List Nat) (hi : Nat), z.length = x.length → Words z →
      (wv z : Int) + (2 ^ 64) ^ x.length * hi = 2 ^ 31 * |X| →
      (wv (shift31 z hi) : Int) = |X| ∧ (shift31 z hi).length = x.length ∧ Words (shift31 z hi) := by
    intro z hi l w hN
    have hXb : |X| < (2 ^ 64) ^ x.length := abs_lt.2 ⟨hb1, hb2⟩
    have hhi : hi < 2 ^ 31 := by
      by_contra hc
      have h1 : (2 ^ 31 : Int) ≤ hi := by exact_mod_cast not_lt.1 hc
      have h2 : (0 : Int) ≤ wv z := by omega
      nlinarith
    obtain ⟨s1, s2, s3⟩ := shift31_spec z hi w hhi
    rw [l] at s1 s2
    refine ⟨?_, s2, s3⟩
    obtain ⟨A, hA⟩ : ∃ A : Nat, |X| = A := ⟨|X|.toNat, by have := abs_nonneg X; omega⟩
    rw [hA] at hN ⊢
    have hN' : wv z + (2 ^ 64) ^ x.length * hi = 2 ^ 31 * A := by exact_mod_cast hN
    rw [s1, hN', Nat.mul_div_cancel_left _ (by norm_num)]
  by_cases hs : hi &&& 2 ^ 63 ≠ 0
  · rw [if_pos hs]
    have hs' := (sign_test c).1 hs
    obtain ⟨⟨k', e'⟩, l', w', c'⟩ := negL_spec w c
    rw [l] at e' l'
    rw [pow_succ ((2 : Int) ^ 64)] at e'
    simp only
    have hlt' := wv_lt w'
    rw [l'] at hlt'
    have hzlt' : (wv (negL z hi).1 : Int) < (2 ^ 64) ^ x.length := by exact_mod_cast hlt'
    have hz0' : (0 : Int) ≤ wv (negL z hi).1 := by omega
    have h1 : (2 ^ 63 : Int) ≤ hi := by exact_mod_cast hs'
    have h2 : (hi : Int) < 2 ^ 64 := by exact_mod_cast c
    have h3 : (0 : Int) ≤ ((negL z hi).2 : Int) := by omega
    have h4 : ((negL z hi).2 : Int) < 2 ^ 64 := by exact_mod_cast c'
    generalize negL z hi = r at *
    generalize hR1 : wv r.1 = R1 at *
    generalize wv z = Z at *
    generalize ((2 : Int) ^ 64) ^ x.length = B at *
    have q1 := mul_le_mul_of_nonneg_left h1 hpos.le
    have q2 := mul_le_mul_of_nonneg_left (Int.le_sub_one_of_lt h2) hpos.le
    have q3 := mul_nonneg hpos.le h3
    have q4 := mul_le_mul_of_nonneg_left (Int.le_sub_one_of_lt h4) hpos.le
    -- `k = 1`, `X < 0` and `k' = 1`
    have hk1 : k = 1 := by
      have hk2 : k < 2 := by
        by_contra hc
        have := mul_le_mul_of_nonneg_left (not_lt.1 hc) hpos.le
        linarith
      have hk3 : 0 < k := by
        by_contra hc
        have := mul_le_mul_of_nonneg_left (not_lt.1 hc) hpos.le
        linarith
      omega
    subst hk1
    have hXneg : X < 0 := by linarith
    have hk1 : k' = 1 := by
      have hk2 : k' < 2 := by
        by_contra hc
        have := mul_le_mul_of_nonneg_left (not_lt.1 hc) hpos.le
        linarith
      have hk3 : 0 < k' := by
        by_contra hc
        have := mul_le_mul_of_nonneg_left (not_lt.1 hc) hpos.le
        linarith
      omega
    subst hk1
    apply key _ _ l' w'
    rw [abs_of_neg hXneg, hR1]
    linear_combination e' - e
  · rw [if_neg hs]
    have hs' : hi < 2 ^ 63 := by
      by_contra hc
      exact hs ((sign_test c).2 (not_lt.1 hc))
    have h1 : (hi : Int) < 2 ^ 63 := by exact_mod_cast hs'
    have h2 : (0 : Int) ≤ hi := by omega
    generalize hB : ((2 : Int) ^ 64) ^ x.length = B at *
    have q1 := mul_nonneg hpos.le h2
    have q2 := mul_le_mul_of_nonneg_left (Int.le_sub_one_of_lt h1) hpos.le
    have hk1 : k = 0 := by
      have hk2 : k < 1 := by
        by_contra hc
        have := mul_le_mul_of_nonneg_left (not_lt.1 hc) hpos.le
        linarith
      have hk3 : -1 < k := by
        by_contra hc
        have := mul_le_mul_of_nonneg_left (not_lt.1 hc) hpos.le
        linarith
      omega
    subst hk1
    have hX0 : 0 ≤ X := by
      by_contra hc
      linarith
    apply key _ _ l w
    rw [abs_of_nonneg hX0, e]
    ring

end FieldPkg

end Ringo
