import Verif.Proof.FieldLegendre
import Verif.Proof.FieldSqrt

/-! # `Legendre`: the outer loop ends, and what it returns -/

namespace Ringo

namespace FieldPkg

open NumberTheorySymbols jacobiSym

variable {P : FieldPkg}

/-- The approximations at the start of the inner loop. -/
theorem legInv_init {a b : List Nat} (wa : Words a) (wb : Words b) (hb : wv b % 2 = 1) (l : Int) :
    let n := max (bitLen a) (bitLen b)
    ∃ S E : Int, (E = 1 ∨ 4 * E ≤ 2 ^ (n - 1)) ∧ 0 < E ∧ 0 ≤ S ∧ (E = 1 → S = 1) ∧
      (E = 1 ∨ 2 ^ (30 + 1) * E ≤ max (wv a : Int) (wv b)) ∧
      LegInv (wv a) (wv b) S E (2 ^ (n - 1)) (l * J((wv a : Int) | wv b)) 0 32
        { aA := approximateLeg a n, bA := approximateLeg b n, c0 := 1, c1 := 2 ^ 32, l := l } := by
  intro n
  have hna : wv a < 2 ^ n := by
    rw [← Nat.size_le, ← bitLen_spec wa]; exact le_max_left _ _
  have hnb : wv b < 2 ^ n := by
    rw [← Nat.size_le, ← bitLen_spec wb]; exact le_max_right _ _
  have hmax : 2 ^ (n - 1) ≤ max (wv a) (wv b) := by
    by_contra hc
    rw [not_le, max_lt_iff] at hc
    have h1 := Nat.size_le.2 hc.1
    have h2 := Nat.size_le.2 hc.2
    rw [← bitLen_spec wa] at h1
    rw [← bitLen_spec wb] at h2
    have h3 : 0 < bitLen b := by rw [bitLen_spec wb]; exact Nat.size_pos.2 (by omega)
    have h4 : n ≤ n - 1 := max_le h1 h2
    have h5 : bitLen b ≤ n := le_max_right _ _
    omega
  have common : ∀ (A B : Nat) (S E : Int), (2 ^ 32 : Int) ∣ (wv a : Int) - A → (2 ^ 32 : Int) ∣ (wv b : Int) - B →
      |(wv a : Int) - S * A| < E → |(wv b : Int) - S * B| < E → (wv a = 0 → A = 0) → A < 2 ^ 64 → B < 2 ^ 64 →
      LegInv (wv a) (wv b) S E (2 ^ (n - 1)) (l * J((wv a : Int) | wv b)) 0 32
        { aA := A, bA := B, c0 := 1, c1 := 2 ^ 32, l := l } := by
    intro A B S E d1 d2 k1 k2 z0 l1 l2
    refine ⟨1, 0, 0, 1, wv a, wv b, ⟨⟨rfl, rfl⟩, by norm_num, by norm_num, by constructor <;> ring,
      ⟨d1, d2, by omega, ?_⟩, ⟨k1, k2⟩, ?_, fun _ => rfl, ?_, l1, l2⟩, by norm_num, rfl⟩
    · simp only; omega
    · intro _
      have h1 : |(wv a : Int)| = wv a := abs_of_nonneg (by omega)
      have h2 : |(wv b : Int)| = wv b := abs_of_nonneg (by omega)
      rw [h1, h2]
      exact ⟨le_rfl, fun h => absurd h (by omega)⟩
    · intro h
      have : wv a = 0 := by exact_mod_cast h
      exact ⟨z0 this, h⟩
  rcases Nat.lt_or_ge 64 n with hn | hn
  · refine ⟨2 ^ (n - 64), 2 ^ (n - 32), Or.inr ?_, by positivity, by positivity, ?_, Or.inr ?_, ?_⟩
    · rw [show (4 : Int) = 2 ^ 2 by norm_num, ← pow_add]
      exact pow_le_pow_right₀ (by norm_num) (by omega)
    · intro h
      exfalso
      have : (2 : Int) ^ (n - 32) = 2 * 2 ^ (n - 33) := by
        rw [show n - 32 = (n - 33) + 1 by omega, pow_succ]; ring
      omega
    · rw [← pow_add, show 30 + 1 + (n - 32) = n - 1 by omega]
      exact_mod_cast hmax
    · rw [approximateLeg_spec wa hn hna, approximateLeg_spec wb hn hnb]
      have bnd : ∀ z, z < 2 ^ n → z % 2 ^ 32 + 2 ^ 32 * (z / 2 ^ (n - 32)) < 2 ^ 64 := by
        intro z hz
        have h1 : z / 2 ^ (n - 32) < 2 ^ 32 := by
          rw [Nat.div_lt_iff_lt_mul (by positivity), ← pow_add, show 32 + (n - 32) = n by omega]
          exact hz
        have h3 : z % 2 ^ 32 < 2 ^ 32 := Nat.mod_lt _ (by norm_num)
        omega
      apply common _ _ _ _ _ _ (approxLeg_err hn) (approxLeg_err hn) _ (bnd _ hna) (bnd _ hnb)
      · push_cast; omega
      · push_cast; omega
      · intro h; rw [h]; simp
  · have h64 : ∀ z : List Nat, Words z → wv z < 2 ^ n → approximateLeg z n = wv z := by
      intro z wz hz
      have : wv z < 2 ^ 64 := lt_of_lt_of_le hz (Nat.pow_le_pow_right (by norm_num) hn)
      unfold approximateLeg
      rw [if_pos hn, getD_wv wz 0, Nat.mul_zero, pow_zero, Nat.div_one, Nat.mod_eq_of_lt this]
    have l1 : wv a < 2 ^ 64 := lt_of_lt_of_le hna (Nat.pow_le_pow_right (by norm_num) hn)
    have l2 : wv b < 2 ^ 64 := lt_of_lt_of_le hnb (Nat.pow_le_pow_right (by norm_num) hn)
    refine ⟨1, 1, Or.inl rfl, by norm_num, by norm_num, fun _ => rfl, Or.inl rfl, ?_⟩
    rw [h64 a wa hna, h64 b wb hnb]
    apply common _ _ _ _ _ _ _ _ (fun h => h) l1 l2 <;> simp

/-- One pass of the outer loop. -/
theorem legPass_spec (s : LegState) {k : Nat} (hk : 0 < k) (ha : s.a.length = k) (hb : s.b.length = k)
    (wa : Words s.a) (wb : Words s.b) (hodd : wv s.b % 2 = 1) :
    let t := legPass s
    (t.a.length = k ∧ t.b.length = k ∧ Words t.a ∧ Words t.b ∧ wv t.b % 2 = 1) ∧
      max (wv t.a) (wv t.b) ≤ max (wv s.a) (wv s.b) ∧
      (wv s.a ≠ 0 → 2 ^ (max (wv s.a).size (wv s.b).size - 1) ≤ max (wv t.a) (wv t.b) →
        wv t.a + wv t.b < wv s.a + wv s.b) ∧
      t.l * J((wv t.a : Int) | wv t.b) = s.l * J((wv s.a : Int) | wv s.b) := by
  intro t
  obtain ⟨S, E, hE, hE0, hS, hS1, hbig, hinit⟩ := legInv_init wa wb hodd s.l
  have hend : LegInv (wv s.a) (wv s.b) S E (2 ^ (max (bitLen s.a) (bitLen s.b) - 1))
      (s.l * J((wv s.a : Int) | wv s.b)) 30 2 (legInner s) :=
    legSteps hE hE0 hS hS1 (by omega) (by omega) hbig 30 0 _ (by omega) hinit
  rw [bitLen_spec wa, bitLen_spec wb] at hend
  obtain ⟨r, hr⟩ : ∃ r, r = legInner s := ⟨_, rfl⟩
  rw [← hr] at hend
  have ht : t = { a := (legRow s.a s.b (decompose r.c0).1 (decompose r.c0).2).1,
                  b := (legRow s.a s.b (decompose r.c1).1 (decompose r.c1).2).1,
                  l := if (legRow s.a s.b (decompose r.c0).1 (decompose r.c0).2).2 ∧ r.bA &&& 3 = 3 then -r.l
                    else r.l } := by
    rw [hr]; rfl
  clear_value t
  clear hr hinit
  obtain ⟨f0, g0, f1, g1, x, y, hw, hdet, hc⟩ := hend
  have hsg := leg_signs hw hS (by simpa using hbig) (by omega) (by omega) hdet
  obtain ⟨⟨c0, c1⟩, ⟨⟨l1, u1⟩, ⟨l2, u2⟩, ⟨l3, u3⟩, l4, u4⟩, ⟨r0, r1⟩, ⟨e0, e1⟩,
    ⟨-, cy, hyodd, -⟩, -, hdec, -, -, -, -⟩ := hw
  have hlt : ((max (wv s.a) (wv s.b) : Nat) : Int) < (2 ^ 64) ^ k := by
    have h1 := wv_lt wa
    have h2 := wv_lt wb
    rw [ha] at h1
    rw [hb] at h2
    exact_mod_cast max_lt h1 h2
  have hx := combLeg_le r0 e0
  have hy := combLeg_le r1 e1
  have d0 := decompose_spec (f := f0) (g := g0) (by omega) (by omega) (by omega) (by omega)
  have d1 := decompose_spec (f := f1) (g := g1) (by omega) (by omega) (by omega) (by omega)
  obtain ⟨a0, a1, a2, a3⟩ := legRow_spec wa wb (by omega) (hb.trans ha.symm) (BitVec.ofInt 64 f0)
    (BitVec.ofInt 64 g0) (X := x)
    (by rw [toInt_small (by omega) (by omega), toInt_small (by omega) (by omega)]; exact e0)
    (by rw [ha]; exact hx.trans_lt hlt)
  obtain ⟨-, b1, b2, b3⟩ := legRow_spec wa wb (by omega) (hb.trans ha.symm) (BitVec.ofInt 64 f1)
    (BitVec.ofInt 64 g1) (X := y)
    (by rw [toInt_small (by omega) (by omega), toInt_small (by omega) (by omega)]; exact e1)
    (by rw [ha]; exact hy.trans_lt hlt)
  rw [c0, c1, d0, d1] at ht
  generalize legRow s.a s.b (BitVec.ofInt 64 f0) (BitVec.ofInt 64 g0) = ra at *
  generalize legRow s.a s.b (BitVec.ofInt 64 f1) (BitVec.ofInt 64 g1) = rb at *
  subst ht
  simp only
  rw [ha] at a2 b2
  have ab : wv rb.1 % 2 = 1 := by
    rcases abs_choice y with h | h <;> rw [h] at b1 <;> omega
  refine ⟨⟨a2, b2, a3, b3, ab⟩, ?_, ?_, ?_⟩
  · rw [← a1] at hx
    rw [← b1] at hy
    exact max_le (by exact_mod_cast hx) (by exact_mod_cast hy)
  · intro h0 hL
    have hL' : (2 ^ (max (wv s.a).size (wv s.b).size - 1) : Int) ≤ max |x| |y| := by
      rw [← a1, ← b1]; exact_mod_cast hL
    have := (hdec hL').2 (by norm_num) (by exact_mod_cast h0)
    rw [← a1, ← b1] at this
    exact_mod_cast this
  · have eb : wv rb.1 = y.natAbs := by
      rw [Int.abs_eq_natAbs] at b1; exact_mod_cast b1
    rw [← hc, eb, a1]
    have e4 := mod_four le_rfl cy
    rcases lt_or_ge x 0 with hneg | hnn
    · have hy0 : 0 < y := by omega
      rw [a0.2 hneg, abs_of_neg hneg, show -x = -1 * x by ring, jacobiSym.mul_left, jacobi_neg_one hy0 hyodd]
      by_cases hq : y % 4 = 3
      · rw [if_pos hq, if_pos ⟨rfl, e4.2 hq⟩]; ring
      · rw [if_neg hq, if_neg (fun h => hq (e4.1 h.2))]; ring
    · have : ra.2 ≠ true := fun h => absurd (a0.1 h) (not_lt.2 hnn)
      rw [if_neg (fun h => this h.1), abs_of_nonneg hnn]

/-- The measure: a pass with `a` not zero decreases it. -/
def legMeasure (k : Nat) (s : LegState) : Nat :=
  max (wv s.a).size (wv s.b).size * (2 * (2 ^ 64) ^ k) + (wv s.a + wv s.b)

theorem legMeasure_lt (s : LegState) {k : Nat} (hk : 0 < k) (ha : s.a.length = k) (hb : s.b.length = k)
    (wa : Words s.a) (wb : Words s.b) (hodd : wv s.b % 2 = 1) (h0 : wv s.a ≠ 0) :
    legMeasure k (legPass s) < legMeasure k s := by
  obtain ⟨⟨la, lb, wa', wb', -⟩, hmax, hdec, -⟩ := legPass_spec s hk ha hb wa wb hodd
  generalize legPass s = t at *
  have h1 := wv_lt wa'
  have h2 := wv_lt wb'
  rw [la] at h1
  rw [lb] at h2
  unfold legMeasure
  have hn1 : wv s.a < 2 ^ max (wv s.a).size (wv s.b).size := by rw [← Nat.size_le]; exact le_max_left _ _
  have hn2 : wv s.b < 2 ^ max (wv s.a).size (wv s.b).size := by rw [← Nat.size_le]; exact le_max_right _ _
  have hpos : 0 < max (wv s.a).size (wv s.b).size := lt_max_of_lt_right (Nat.size_pos.2 (by omega))
  generalize hN : max (wv s.a).size (wv s.b).size = n at *
  generalize (2 ^ 64) ^ k = K at *
  rcases Nat.lt_or_ge (max (wv t.a) (wv t.b)) (2 ^ (n - 1)) with hL | hL
  · have s1 : (wv t.a).size ≤ n - 1 := Nat.size_le.2 (lt_of_le_of_lt (le_max_left _ _) hL)
    have s2 : (wv t.b).size ≤ n - 1 := Nat.size_le.2 (lt_of_le_of_lt (le_max_right _ _) hL)
    have s3 := max_le s1 s2
    generalize max (wv t.a).size (wv t.b).size = m at *
    have s4 : (m + 1) * (2 * K) ≤ n * (2 * K) := Nat.mul_le_mul_right _ (by omega)
    rw [Nat.add_mul, Nat.one_mul] at s4
    omega
  · have := hdec h0 hL
    have hm : max (wv t.a) (wv t.b) < 2 ^ n := lt_of_le_of_lt hmax (max_lt hn1 hn2)
    have s1 : (wv t.a).size ≤ n := Nat.size_le.2 (lt_of_le_of_lt (le_max_left _ _) hm)
    have s2 : (wv t.b).size ≤ n := Nat.size_le.2 (lt_of_le_of_lt (le_max_right _ _) hm)
    have s3 := max_le s1 s2
    generalize max (wv t.a).size (wv t.b).size = m at *
    have s4 : m * (2 * K) ≤ n * (2 * K) := Nat.mul_le_mul_right _ s3
    omega

/-- The outer loop: it ends with `a = 0`, and the symbol is kept. -/
theorem legLoop_spec {k : Nat} (hk : 0 < k) : ∀ (fuel : Nat) (s : LegState), legMeasure k s ≤ fuel →
    s.a.length = k → s.b.length = k → Words s.a → Words s.b → wv s.b % 2 = 1 →
    ∃ t, legLoop fuel s = some t ∧ wv t.a = 0 ∧ t.b.length = k ∧ Words t.b ∧ wv t.b % 2 = 1 ∧
      t.l * J((wv t.a : Int) | wv t.b) = s.l * J((wv s.a : Int) | wv s.b)
  | 0, s, hm, ha, hb, wa, wb, hodd => by
    unfold legMeasure at hm
    omega
  | m + 1, s, hm, ha, hb, wa, wb, hodd => by
    rw [legLoop]
    by_cases h0 : wv s.a = 0
    · rw [if_pos (isZero_wv.2 h0)]
      exact ⟨s, rfl, h0, hb, wb, hodd, rfl⟩
    · rw [if_neg (fun h => h0 (isZero_wv.1 h))]
      obtain ⟨⟨la, lb, wa', wb', ho'⟩, -, -, hj⟩ := legPass_spec s hk ha hb wa wb hodd
      have hlt := legMeasure_lt s hk ha hb wa wb hodd h0
      obtain ⟨t, e, h1, h2, h3, h4, h5⟩ := legLoop_spec hk m _ (by omega) la lb wa' wb' ho'
      exact ⟨t, e, h1, h2, h3, h4, h5.trans hj⟩

theorem isOne_words {b : List Nat} (hb : 0 < b.length) (wb : Words b) :
    (b.headD 0 = 1 ∧ isZero b.tail) ↔ wv b = 1 := by
  rcases b with _ | ⟨u, us⟩
  · simp at hb
  · have hu := wb.head
    rw [List.headD_cons, List.tail_cons, isZero_wv, wv_cons]
    constructor
    · rintro ⟨h1, h2⟩; omega
    · intro h; constructor <;> omega

/-- `Legendre`: the Jacobi symbol of the words over the modulus. -/
theorem legendre_jacobi (h : P.Good) {z : List Nat} (hz : z.length = P.n) (wz : Words z) {fuel : Nat}
    (hf : P.gcdFuel ≤ fuel) : P.legendre fuel z = some J((wv z : Int) | P.p) := by
  have h2 := h.two_le
  have hodd : wv P.q % 2 = 1 := h.prime.eq_two_or_odd.resolve_left h.odd
  obtain ⟨s, hs⟩ : ∃ s : LegState, s = { a := z, b := P.q, l := 1 } := ⟨_, rfl⟩
  have hm : legMeasure P.n s ≤ fuel := by
    have := gcdMeasure_le (k := P.n) (s := { P.gcdInit z with a := z, b := P.q }) hz rfl wz h.q_words
    unfold gcdMeasure at this
    unfold legMeasure
    rw [hs]
    simp only at this ⊢
    unfold gcdFuel at hf
    omega
  obtain ⟨t, e, h0, hb, wb, ho, hj⟩ := legLoop_spec (k := P.n) (by omega) fuel s hm (by rw [hs]; exact hz)
    (by rw [hs]; rfl) (by rw [hs]; exact wz) (by rw [hs]; exact h.q_words) (by rw [hs]; exact hodd)
  unfold legendre
  rw [← hs, e, Option.map_some, Option.some.injEq]
  have hgoal : t.l * J((wv t.a : Int) | wv t.b) = J((wv z : Int) | P.p) := by
    rw [hj, hs]
    simp only [one_mul]
    rfl
  rw [← hgoal, h0]
  by_cases h1 : wv t.b = 1
  · rw [if_pos ((isOne_words (by omega) wb).2 h1), h1, jacobiSym.one_right, mul_one]
  · rw [if_neg (fun hc => h1 ((isOne_words (by omega) wb).1 hc))]
    rw [Nat.cast_zero, jacobiSym.zero_left (by omega), mul_zero]

/-- The symbol of the words is that of the element: `2^(64 n)` is a square. -/
theorem jacobi_value (h : P.Good) {z : List Nat} {a : ZMod P.p} (hz : MontForm P.p P.n z a) :
    (a = 0 → J((wv z : Int) | P.p) = 0) ∧ (a ≠ 0 → IsSquare a → J((wv z : Int) | P.p) = 1) ∧
      (¬ IsSquare a → J((wv z : Int) | P.p) = -1) := by
  have := Fact.mk h.prime
  rw [← legendreSym.to_jacobiSym]
  have hR := R_ne h
  have hv : ((wv z : Int) : ZMod P.p) = a * P.R := by
    rw [Int.cast_natCast]; exact hz.val
  have hRs : (P.R : ZMod P.p) = (2 ^ 32) ^ P.n * (2 ^ 32) ^ P.n := by
    rw [← mul_pow]
    show ((2 : ZMod P.p) ^ 64) ^ P.n = _
    congr 1
    norm_num
  have hs0 : ((2 : ZMod P.p) ^ 32) ^ P.n ≠ 0 := by
    intro h0
    rw [hRs, h0, zero_mul] at hR
    exact hR rfl
  have hsq : IsSquare (a * P.R) ↔ IsSquare a := by
    rw [hRs]
    constructor
    · rintro ⟨c, hc⟩
      refine ⟨c * (((2 : ZMod P.p) ^ 32) ^ P.n)⁻¹, ?_⟩
      field_simp
      linear_combination hc
    · rintro ⟨c, hc⟩
      exact ⟨c * (2 ^ 32) ^ P.n, by rw [hc]; ring⟩
  refine ⟨fun h0 => ?_, fun h0 hs => ?_, fun hs => ?_⟩
  · rw [legendreSym.eq_zero_iff, hv, h0, zero_mul]
  · rw [legendreSym.eq_one_iff, hv, hsq]
    · exact hs
    · rw [hv]; exact mul_ne_zero h0 hR
  · rw [legendreSym.eq_neg_one_iff, hv, hsq]
    exact hs

/-- `Legendre` of the package that raises to the power `(p - 1) / 2`. -/
theorem mont_legendreExp (h : P.Good) {e : Nat} (he : 2 * e + 1 = P.p) {z : List Nat} {a : ZMod P.p}
    (hz : MontForm P.p P.n z a) :
    (a = 0 → P.legendreExp e z = 0) ∧ (a ≠ 0 → IsSquare a → P.legendreExp e z = 1) ∧
      (¬ IsSquare a → P.legendreExp e z = -1) := by
  have := Fact.mk h.prime
  have he2 : P.p / 2 = e := by omega
  have hp2 := h.prime.two_le
  have he0 : e ≠ 0 := by
    intro h0
    rw [h0] at he
    omega
  have hl := mont_expBits h hz (Nat.pos_of_ne_zero he0)
  have hz0 := isZero_mont h hl
  have h1 := equal_one h hl
  unfold legendreExp
  simp only
  refine ⟨fun h0 => ?_, fun h0 hs => ?_, fun hs => ?_⟩
  · rw [if_pos (hz0.2 (by rw [h0, zero_pow he0]))]
  · have e1 : a ^ e = 1 := by rw [← he2]; exact (ZMod.euler_criterion P.p h0).1 hs
    rw [if_neg (fun hc => one_ne_zero (e1.symm.trans (hz0.1 hc))), if_pos (h1.2 e1)]
  · have h0 : a ≠ 0 := by
      rintro rfl
      exact hs (IsSquare.zero)
    have e1 : a ^ e ≠ 1 := by rw [← he2]; exact fun hc => hs ((ZMod.euler_criterion P.p h0).2 hc)
    rw [if_neg (fun hc => pow_ne_zero e h0 (hz0.1 hc)), if_neg (fun hc => e1 (h1.1 hc))]

end FieldPkg

end Ringo
