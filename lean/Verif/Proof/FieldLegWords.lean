import Verif.Model.FieldLegendre
import Verif.Proof.FieldInvLoop

/-! # `Legendre`: approximations and words, as for `Inverse` with other widths -/

namespace Ringo

namespace FieldPkg

/-- The approximation: the low 32 bits, and the 32 bits from bit `n - 32` on. -/
theorem approximateLeg_spec {z : List Nat} (wz : Words z) {n : Nat} (hn : 64 < n) (hz : wv z < 2 ^ n) :
    approximateLeg z n = wv z % 2 ^ 32 + 2 ^ 32 * (wv z / 2 ^ (n - 32)) := by
  unfold approximateLeg
  rw [if_neg (by omega)]
  simp only
  obtain ⟨i, hi⟩ : ∃ i, (n - 1) / 64 = i + 1 := ⟨(n - 1) / 64 - 1, by omega⟩
  obtain ⟨v, hv⟩ : ∃ v, n = 64 * (i + 1) + v ∧ 1 ≤ v ∧ v ≤ 64 := ⟨n - 64 * (i + 1), by omega⟩
  obtain ⟨hnv, hv1, hv2⟩ := hv
  rw [hi, show n - (i + 1) * 64 = v by omega, show i + 1 - 1 = i by omega]
  have hlo : (2 ^ 32 - 1) &&& z.getD 0 0 = wv z % 2 ^ 32 := by
    rw [Nat.and_comm, Nat.and_two_pow_sub_one_eq_mod, getD_wv wz 0, Nat.mul_zero, pow_zero, Nat.div_one,
      Nat.mod_mod_of_dvd _ (by norm_num)]
  rw [hlo]
  -- the words
  obtain ⟨W, hW⟩ : ∃ W, wv z / 2 ^ (64 * (i + 1)) = W := ⟨_, rfl⟩
  have hWlt : W < 2 ^ v := by
    rw [← hW, Nat.div_lt_iff_lt_mul (by positivity), ← pow_add]
    rwa [show v + 64 * (i + 1) = n by omega]
  have hW64 : W < 2 ^ 64 := lt_of_lt_of_le hWlt (Nat.pow_le_pow_right (by norm_num) hv2)
  have e1 : z.getD (i + 1) 0 = W := by rw [getD_wv wz, hW, Nat.mod_eq_of_lt hW64]
  obtain ⟨Y, hY⟩ : ∃ Y, wv z / 2 ^ (64 * i) = Y := ⟨_, rfl⟩
  have hYW : Y / 2 ^ 64 = W := by
    rw [← hY, ← hW, Nat.div_div_eq_div_mul, ← pow_add, show 64 * i + 64 = 64 * (i + 1) by ring]
  have e2 : z.getD i 0 = Y % 2 ^ 64 := by rw [getD_wv wz, hY]
  rw [e1, e2]
  have hYlt : Y % 2 ^ 64 < 2 ^ 64 := Nat.mod_lt _ (by norm_num)
  have hlt : wv z % 2 ^ 32 < 2 ^ 32 := Nat.mod_lt _ (by norm_num)
  rcases Nat.lt_or_ge v 32 with hv32 | hv32
  · rw [Nat.min_eq_left (by omega), Nat.sub_self, and_notLow (by omega) hW64, pow_zero, Nat.div_one,
      Nat.mul_one, Nat.and_comm, and_notLow (by omega) hYlt, Nat.shiftLeft_eq, Nat.shiftRight_eq_div_pow]
    have hq : wv z / 2 ^ (n - 32) = Y % 2 ^ 64 / 2 ^ (32 + v) + 2 ^ (32 - v) * W := by
      rw [show n - 32 = 64 * i + (32 + v) by omega, pow_add, ← Nat.div_div_eq_div_mul, hY]
      conv_lhs => rw [← Nat.mod_add_div Y (2 ^ 64), hYW]
      rw [show (2 : Nat) ^ 64 * W = 2 ^ (32 + v) * (2 ^ (32 - v) * W) by
        rw [← Nat.mul_assoc, ← pow_add, show 32 + v + (32 - v) = 64 by omega]]
      rw [Nat.add_mul_div_left _ _ (by positivity)]
    have hm : Y % 2 ^ 64 / 2 ^ (32 + v) * 2 ^ (32 + v) / 2 ^ v = 2 ^ 32 * (Y % 2 ^ 64 / 2 ^ (32 + v)) := by
      rw [pow_add, ← Nat.mul_assoc, Nat.mul_div_cancel _ (by positivity), Nat.mul_comm]
    rw [hm, hq]
    have hh : W * 2 ^ (64 - v) % 2 ^ 64 = 2 ^ (64 - v) * W := by
      rw [Nat.mod_eq_of_lt, Nat.mul_comm]
      calc W * 2 ^ (64 - v) < 2 ^ v * 2 ^ (64 - v) := Nat.mul_lt_mul_of_pos_right hWlt (by positivity)
        _ = 2 ^ 64 := by rw [← pow_add, show v + (64 - v) = 64 by omega]
    rw [hh, or_disjoint hlt]
    have hb : Y % 2 ^ 64 / 2 ^ (32 + v) < 2 ^ (32 - v) := by
      rw [Nat.div_lt_iff_lt_mul (by positivity), ← pow_add, show 32 - v + (32 + v) = 64 by omega]
      exact hYlt
    have hb2 : wv z % 2 ^ 32 + 2 ^ 32 * (Y % 2 ^ 64 / 2 ^ (32 + v)) < 2 ^ (64 - v) := by
      rw [show 64 - v = 32 + (32 - v) by omega, pow_add 2 32 (32 - v)]
      generalize Y % 2 ^ 64 / 2 ^ (32 + v) = t at *
      generalize 2 ^ (32 - v) = q at *
      omega
    rw [or_disjoint hb2, show 64 - v = 32 + (32 - v) by omega, pow_add 2 32 (32 - v)]
    ring
  · rw [Nat.min_eq_right hv32, and_notLow (by omega) hW64]
    have hmid : (notLow (32 + 32) &&& Y % 2 ^ 64) >>> 32 = 0 := by
      rw [Nat.and_comm, and_notLow (by norm_num) hYlt, show 32 + 32 = 64 by norm_num,
        Nat.div_eq_of_lt hYlt, Nat.zero_mul, Nat.zero_shiftRight]
    rw [hmid, Nat.or_zero, Nat.shiftLeft_eq]
    have hq : wv z / 2 ^ (n - 32) = W / 2 ^ (v - 32) := by
      rw [show n - 32 = 64 * (i + 1) + (v - 32) by omega, pow_add, ← Nat.div_div_eq_div_mul, hW]
    have hh : W / 2 ^ (v - 32) * 2 ^ (v - 32) * 2 ^ (64 - v) % 2 ^ 64 = 2 ^ 32 * (W / 2 ^ (v - 32)) := by
      rw [Nat.mul_assoc, ← pow_add, show v - 32 + (64 - v) = 32 by omega, Nat.mod_eq_of_lt, Nat.mul_comm]
      have : W / 2 ^ (v - 32) < 2 ^ 32 := by
        rw [Nat.div_lt_iff_lt_mul (by positivity), ← pow_add, show 32 + (v - 32) = v by omega]
        exact hWlt
      omega
    rw [hh, hq, or_disjoint hlt]

theorem shiftWord30 {a h : Nat} (ha : a < 2 ^ 64) :
    (a >>> 30) ||| ((h <<< 34) % 2 ^ 64) = a / 2 ^ 30 + 2 ^ 34 * (h % 2 ^ 30) := by
  rw [Nat.shiftRight_eq_div_pow, Nat.shiftLeft_eq]
  have : h * 2 ^ 34 % 2 ^ 64 = 2 ^ 34 * (h % 2 ^ 30) := by omega
  rw [this, or_disjoint (by omega)]

theorem shift30_spec : ∀ (z : List Nat) (hi : Nat), Words z → hi < 2 ^ 30 →
    wv (shift30 z hi) = (wv z + (2 ^ 64) ^ z.length * hi) / 2 ^ 30 ∧ (shift30 z hi).length = z.length ∧
      Words (shift30 z hi)
  | [], hi, _, hh => by
    refine ⟨?_, rfl, Words.nil⟩
    simp only [shift30, wv_nil, List.length_nil, pow_zero]
    omega
  | [a], hi, wz, hh => by
    have ha := wz.head
    simp only [shift30, shiftWord30 ha]
    refine ⟨?_, rfl, Words.nil.cons (by omega)⟩
    rw [wv_cons, wv_cons, wv_nil, List.length_singleton, pow_one]
    omega
  | a :: a' :: as, hi, wz, hh => by
    obtain ⟨e, l, w⟩ := shift30_spec (a' :: as) hi wz.tail' hh
    have ha := wz.head
    have ha' := wz.tail'.head
    simp only [shift30, shiftWord30 ha]
    refine ⟨?_, by rw [List.length_cons, l]; rfl, w.cons (by omega)⟩
    rw [wv_cons, e]
    have eN : wv (a :: a' :: as) + (2 ^ 64) ^ (a :: a' :: as).length * hi =
        a + 2 ^ 64 * (wv (a' :: as) + (2 ^ 64) ^ (a' :: as).length * hi) := by
      rw [wv_cons a, List.length_cons (a := a), pow_succ (2 ^ 64)]
      ring
    have eM : (wv (a' :: as) + (2 ^ 64) ^ (a' :: as).length * hi) % 2 ^ 30 = a' % 2 ^ 30 := by
      rw [wv_cons, List.length_cons, pow_succ (2 ^ 64)]
      rw [show a' + 2 ^ 64 * wv as + (2 ^ 64) ^ as.length * 2 ^ 64 * hi =
        a' + 2 ^ 30 * (2 ^ 34 * wv as + (2 ^ 64) ^ as.length * 2 ^ 34 * hi) by ring, Nat.add_mul_mod_self_left]
    rw [eN]
    generalize wv (a' :: as) + (2 ^ 64) ^ (a' :: as).length * hi = N at *
    omega

/-- A new value: the absolute value of the combination, divided by `2^31`. -/
theorem legRow_spec {x y : List Nat} (wx : Words x) (wy : Words y) (hx : 0 < x.length)
    (hl : y.length = x.length) (f g : BitVec 64) {X : Int}
    (hX : f.toInt * wv x + g.toInt * wv y = 2 ^ 30 * X) (hb : |X| < (2 ^ 64) ^ x.length) :
    ((legRow x y f g).2 = true ↔ X < 0) ∧ (wv (legRow x y f g).1 : Int) = |X| ∧
      (legRow x y f g).1.length = x.length ∧ Words (legRow x y f g).1 := by
  obtain ⟨⟨k, e⟩, l, w, c⟩ := linComb_spec wx wy hx hl f g
  unfold legRow
  simp only
  rw [hX] at e
  generalize linComb x f y g = r at *
  obtain ⟨z, hi⟩ := r
  simp only at e l w c ⊢
  have hlt := wv_lt w
  rw [l] at hlt
  have hpos : (0 : Int) < (2 ^ 64) ^ x.length := by positivity
  have hzlt : (wv z : Int) < (2 ^ 64) ^ x.length := by exact_mod_cast hlt
  have hz0 : (0 : Int) ≤ wv z := by omega
  rw [abs_lt] at hb
  obtain ⟨hb1, hb2⟩ := hb
  rw [pow_succ ((2 : Int) ^ 64)] at e
  -- a nonnegative number with the right value
  have key : ∀ (z : List Nat) (hi : Nat), z.length = x.length → Words z →
      (wv z : Int) + (2 ^ 64) ^ x.length * hi = 2 ^ 30 * |X| →
      (wv (shift30 z hi) : Int) = |X| ∧ (shift30 z hi).length = x.length ∧ Words (shift30 z hi) := by
    intro z hi l w hN
    have hXb : |X| < (2 ^ 64) ^ x.length := abs_lt.2 ⟨hb1, hb2⟩
    have hhi : hi < 2 ^ 30 := by
      by_contra hc
      have h1 : (2 ^ 30 : Int) ≤ hi := by exact_mod_cast not_lt.1 hc
      have h2 : (0 : Int) ≤ wv z := by omega
      nlinarith
    obtain ⟨s1, s2, s3⟩ := shift30_spec z hi w hhi
    rw [l] at s1 s2
    refine ⟨?_, s2, s3⟩
    obtain ⟨A, hA⟩ : ∃ A : Nat, |X| = A := ⟨|X|.toNat, by have := abs_nonneg X; omega⟩
    rw [hA] at hN ⊢
    have hN' : wv z + (2 ^ 64) ^ x.length * hi = 2 ^ 30 * A := by exact_mod_cast hN
    rw [s1, hN', Nat.mul_div_cancel_left _ (by norm_num)]
  by_cases hs : hi &&& 2 ^ 63 ≠ 0
  · rw [if_pos hs]
    have hs' := (sign_test c).1 hs
    obtain ⟨⟨k', e'⟩, l', w', c'⟩ := negL_spec w c
    rw [l] at e' l'
    rw [pow_succ ((2 : Int) ^ 64)] at e'
    simp only
    have hlt' := wv_lt w'
    rw [l'] at hlt'
    have hzlt' : (wv (negL z hi).1 : Int) < (2 ^ 64) ^ x.length := by exact_mod_cast hlt'
    have hz0' : (0 : Int) ≤ wv (negL z hi).1 := by omega
    have h1 : (2 ^ 63 : Int) ≤ hi := by exact_mod_cast hs'
    have h2 : (hi : Int) < 2 ^ 64 := by exact_mod_cast c
    have h3 : (0 : Int) ≤ ((negL z hi).2 : Int) := by omega
    have h4 : ((negL z hi).2 : Int) < 2 ^ 64 := by exact_mod_cast c'
    generalize negL z hi = r at *
    generalize hR1 : wv r.1 = R1 at *
    generalize wv z = Z at *
    generalize ((2 : Int) ^ 64) ^ x.length = B at *
    have q1 := mul_le_mul_of_nonneg_left h1 hpos.le
    have q2 := mul_le_mul_of_nonneg_left (Int.le_sub_one_of_lt h2) hpos.le
    have q3 := mul_nonneg hpos.le h3
    have q4 := mul_le_mul_of_nonneg_left (Int.le_sub_one_of_lt h4) hpos.le
    -- `k = 1`, `X < 0` and `k' = 1`
    have hk1 : k = 1 := by
      have hk2 : k < 2 := by
        by_contra hc
        have := mul_le_mul_of_nonneg_left (not_lt.1 hc) hpos.le
        linarith
      have hk3 : 0 < k := by
        by_contra hc
        have := mul_le_mul_of_nonneg_left (not_lt.1 hc) hpos.le
        linarith
      omega
    subst hk1
    have hXneg : X < 0 := by linarith
    have hk1 : k' = 1 := by
      have hk2 : k' < 2 := by
        by_contra hc
        have := mul_le_mul_of_nonneg_left (not_lt.1 hc) hpos.le
        linarith
      have hk3 : 0 < k' := by
        by_contra hc
        have := mul_le_mul_of_nonneg_left (not_lt.1 hc) hpos.le
        linarith
      omega
    subst hk1
    refine ⟨⟨fun _ => hXneg, fun _ => trivial⟩, ?_⟩
    apply key _ _ l' w'
    rw [abs_of_neg hXneg, hR1]
    linear_combination e' - e
  · rw [if_neg hs]
    have hs' : hi < 2 ^ 63 := by
      by_contra hc
      exact hs ((sign_test c).2 (not_lt.1 hc))
    have h1 : (hi : Int) < 2 ^ 63 := by exact_mod_cast hs'
    have h2 : (0 : Int) ≤ hi := by omega
    generalize hB : ((2 : Int) ^ 64) ^ x.length = B at *
    have q1 := mul_nonneg hpos.le h2
    have q2 := mul_le_mul_of_nonneg_left (Int.le_sub_one_of_lt h1) hpos.le
    have hk1 : k = 0 := by
      have hk2 : k < 1 := by
        by_contra hc
        have := mul_le_mul_of_nonneg_left (not_lt.1 hc) hpos.le
        linarith
      have hk3 : -1 < k := by
        by_contra hc
        have := mul_le_mul_of_nonneg_left (not_lt.1 hc) hpos.le
        linarith
      omega
    subst hk1
    have hX0 : 0 ≤ X := by
      by_contra hc
      linarith
    refine ⟨⟨fun h => absurd h (by simp), fun h => absurd h (not_lt.2 hX0)⟩, ?_⟩
    apply key _ _ l w
    rw [abs_of_nonneg hX0, e]
    ring

theorem approxLeg_err {z n : Nat} (hn : 64 < n) :
    |(z : Int) - 2 ^ (n - 64) * ((z % 2 ^ 32 + 2 ^ 32 * (z / 2 ^ (n - 32)) : Nat) : Int)| < 2 ^ (n - 32) := by
  have e : (2 : Int) ^ (n - 32) = 2 ^ (n - 64) * 2 ^ 32 := by
    rw [← pow_add, show n - 64 + 32 = n - 32 by omega]
  have h1 : z % 2 ^ (n - 32) + 2 ^ (n - 32) * (z / 2 ^ (n - 32)) = z := Nat.mod_add_div _ _
  have h2 : z % 2 ^ (n - 32) < 2 ^ (n - 32) := Nat.mod_lt _ (by positivity)
  have h3 : z % 2 ^ 32 < 2 ^ 32 := Nat.mod_lt _ (by norm_num)
  generalize z / 2 ^ (n - 32) = q at *
  generalize z % 2 ^ (n - 32) = r at *
  generalize z % 2 ^ 32 = l at *
  zify at h1 h2 h3
  rw [e] at h1 h2 ⊢
  have hp : (0 : Int) < 2 ^ (n - 64) := by positivity
  generalize (2 : Int) ^ (n - 64) = S at *
  push_cast
  rw [← h1, abs_lt]
  have hl : (0 : Int) ≤ l := by omega
  have hr : (0 : Int) ≤ r := by omega
  constructor
  · nlinarith
  · nlinarith

theorem combLeg_le {f g X : Int} {A B : Nat} (hfg : |f| + |g| ≤ 2 ^ 30) (hX : f * A + g * B = 2 ^ 30 * X) :
    |X| ≤ ((max A B : Nat) : Int) := by
  have h1 : (A : Int) ≤ (max A B : Nat) := by exact_mod_cast le_max_left A B
  have h2 : (B : Int) ≤ (max A B : Nat) := by exact_mod_cast le_max_right A B
  generalize max A B = M at *
  have h3 : |2 ^ 30 * X| ≤ |f * A| + |g * B| := by rw [← hX]; exact abs_add_le _ _
  rw [abs_mul, abs_mul, abs_mul, abs_of_nonneg (show (0 : Int) ≤ A by omega),
    abs_of_nonneg (show (0 : Int) ≤ B by omega), abs_of_nonneg (show (0 : Int) ≤ 2 ^ 30 by norm_num)] at h3
  have h4 := mul_le_mul_of_nonneg_left h1 (abs_nonneg f)
  have h5 := mul_le_mul_of_nonneg_left h2 (abs_nonneg g)
  have h6 := mul_le_mul_of_nonneg_right hfg (show (0 : Int) ≤ M by omega)
  linarith

end FieldPkg

end Ringo
