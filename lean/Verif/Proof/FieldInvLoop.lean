import Verif.Proof.FieldInv

/-! # `Inverse`: the outer loop ends, and what it returns -/

namespace Ringo

namespace FieldPkg

variable {P : FieldPkg}

theorem approx_err {z n : Nat} (hn : 64 < n) :
    |(z : Int) - 2 ^ (n - 64) * ((z % 2 ^ 31 + 2 ^ 31 * (z / 2 ^ (n - 33)) : Nat) : Int)| < 2 ^ (n - 33) := by
  have e : (2 : Int) ^ (n - 33) = 2 ^ (n - 64) * 2 ^ 31 := by
    rw [← pow_add, show n - 64 + 31 = n - 33 by omega]
  have h1 : z % 2 ^ (n - 33) + 2 ^ (n - 33) * (z / 2 ^ (n - 33)) = z := Nat.mod_add_div _ _
  have h2 : z % 2 ^ (n - 33) < 2 ^ (n - 33) := Nat.mod_lt _ (by positivity)
  have h3 : z % 2 ^ 31 < 2 ^ 31 := Nat.mod_lt _ (by norm_num)
  generalize z / 2 ^ (n - 33) = q at *
  generalize z % 2 ^ (n - 33) = r at *
  generalize z % 2 ^ 31 = l at *
  zify at h1 h2 h3
  rw [e] at h1 h2 ⊢
  have hp : (0 : Int) < 2 ^ (n - 64) := by positivity
  generalize (2 : Int) ^ (n - 64) = S at *
  push_cast
  rw [← h1, abs_lt]
  have hl : (0 : Int) ≤ l := by omega
  have hr : (0 : Int) ≤ r := by omega
  constructor
  · nlinarith
  · nlinarith

/-- The approximations at the start of the inner loop. -/
theorem gcdInv_init {a b : List Nat} (wa : Words a) (wb : Words b) (hb : wv b % 2 = 1) :
    let n := max (bitLen a) (bitLen b)
    ∃ S E : Int, (E = 1 ∨ 4 * E ≤ 2 ^ (n - 1)) ∧ 0 < E ∧ 0 ≤ S ∧ (E = 1 → S = 1) ∧
      GcdInv (wv a) (wv b) S E (2 ^ (n - 1)) 0 31
        { aA := approximate a n, bA := approximate b n, c0 := 1, c1 := 2 ^ 32 } := by
  intro n
  have hna : wv a < 2 ^ n := by
    rw [← Nat.size_le, ← bitLen_spec wa]; exact le_max_left _ _
  have hnb : wv b < 2 ^ n := by
    rw [← Nat.size_le, ← bitLen_spec wb]; exact le_max_right _ _
  have common : ∀ (A B : Nat) (S E : Int), (2 ^ 31 : Int) ∣ (wv a : Int) - A → (2 ^ 31 : Int) ∣ (wv b : Int) - B →
      |(wv a : Int) - S * A| < E → |(wv b : Int) - S * B| < E → (wv a = 0 → A = 0) → A < 2 ^ 64 → B < 2 ^ 64 →
      GcdInv (wv a) (wv b) S E (2 ^ (n - 1)) 0 31 { aA := A, bA := B, c0 := 1, c1 := 2 ^ 32 } := by
    intro A B S E d1 d2 k1 k2 z0 l1 l2
    refine ⟨1, 0, 0, 1, wv a, wv b, ⟨rfl, rfl⟩, by norm_num, by norm_num, by constructor <;> ring,
      ⟨d1, d2, by omega, ?_⟩, ⟨k1, k2⟩, ?_, fun _ => rfl, ?_, l1, l2⟩
    · simp only; omega
    · intro _
      have h1 : |(wv a : Int)| = wv a := abs_of_nonneg (by omega)
      have h2 : |(wv b : Int)| = wv b := abs_of_nonneg (by omega)
      rw [h1, h2]
      exact ⟨le_rfl, fun h => absurd h (by omega)⟩
    · intro h
      have : wv a = 0 := by exact_mod_cast h
      exact ⟨z0 this, h⟩
  rcases Nat.lt_or_ge 64 n with hn | hn
  · refine ⟨2 ^ (n - 64), 2 ^ (n - 33), Or.inr ?_, by positivity, by positivity, ?_, ?_⟩
    · rw [show (4 : Int) = 2 ^ 2 by norm_num, ← pow_add]
      exact pow_le_pow_right₀ (by norm_num) (by omega)
    · intro h
      exfalso
      have : (2 : Int) ^ (n - 33) = 2 * 2 ^ (n - 34) := by
        rw [show n - 33 = (n - 34) + 1 by omega, pow_succ]; ring
      omega
    · rw [approximate_spec wa hn hna, approximate_spec wb hn hnb]
      have bnd : ∀ z, z < 2 ^ n → z % 2 ^ 31 + 2 ^ 31 * (z / 2 ^ (n - 33)) < 2 ^ 64 := by
        intro z hz
        have h1 : z / 2 ^ (n - 33) < 2 ^ 33 := by
          rw [Nat.div_lt_iff_lt_mul (by positivity), ← pow_add, show 33 + (n - 33) = n by omega]
          exact hz
        have h3 : z % 2 ^ 31 < 2 ^ 31 := Nat.mod_lt _ (by norm_num)
        omega
      apply common _ _ _ _ _ _ (approx_err hn) (approx_err hn) _ (bnd _ hna) (bnd _ hnb)
      · push_cast; omega
      · push_cast; omega
      · intro h; rw [h]; simp
  · have h64 : ∀ z : List Nat, Words z → wv z < 2 ^ n → approximate z n = wv z := by
      intro z wz hz
      have : wv z < 2 ^ 64 := lt_of_lt_of_le hz (Nat.pow_le_pow_right (by norm_num) hn)
      unfold approximate
      rw [if_pos hn, getD_wv wz 0, Nat.mul_zero, pow_zero, Nat.div_one, Nat.mod_eq_of_lt this]
    have l1 : wv a < 2 ^ 64 := lt_of_lt_of_le hna (Nat.pow_le_pow_right (by norm_num) hn)
    have l2 : wv b < 2 ^ 64 := lt_of_lt_of_le hnb (Nat.pow_le_pow_right (by norm_num) hn)
    refine ⟨1, 1, Or.inl rfl, by norm_num, by norm_num, fun _ => rfl, ?_⟩
    rw [h64 a wa hna, h64 b wb hnb]
    apply common _ _ _ _ _ _ _ _ (fun h => h) l1 l2 <;> simp

attribute [local irreducible] gcdStep in
theorem gcdInner_inv {a b : List Nat} (wa : Words a) (wb : Words b) (hb : wv b % 2 = 1) :
    ∃ S E : Int, GcdInv (wv a) (wv b) S E (2 ^ (max (wv a).size (wv b).size - 1)) 31 0 (gcdInner a b) := by
  obtain ⟨S, E, hE, hE0, hS, hS1, hinit⟩ := gcdInv_init wa wb hb
  have hend := gcdSteps hE hE0 hS hS1 31 0 _ hinit
  refine ⟨S, E, ?_⟩
  rw [← bitLen_spec wa, ← bitLen_spec wb]
  exact hend

theorem gcdFinish_a (s : GcdState) (ra rb : List Nat × BitVec 64 × BitVec 64) :
    (P.gcdFinish s ra rb).a = ra.1 := by
  unfold gcdFinish; split <;> rfl

theorem gcdFinish_b (s : GcdState) (ra rb : List Nat × BitVec 64 × BitVec 64) :
    (P.gcdFinish s ra rb).b = rb.1 := by
  unfold gcdFinish; split <;> rfl

theorem gcdFinish_i (s : GcdState) (ra rb : List Nat × BitVec 64 × BitVec 64) :
    (P.gcdFinish s ra rb).i = s.i + 1 := by
  unfold gcdFinish; split <;> rfl

theorem gcdPass_a (s : GcdState) : (P.gcdPass s).a =
    (gcdRow s.a s.b (decompose (gcdInner s.a s.b).c0).1 (decompose (gcdInner s.a s.b).c0).2).1 :=
  gcdFinish_a _ _ _

theorem gcdPass_b (s : GcdState) : (P.gcdPass s).b =
    (gcdRow s.a s.b (decompose (gcdInner s.a s.b).c1).1 (decompose (gcdInner s.a s.b).c1).2).1 :=
  gcdFinish_b _ _ _

theorem gcdPass_i (s : GcdState) : (P.gcdPass s).i = s.i + 1 := gcdFinish_i _ _ _

theorem comb_le {f g X : Int} {A B : Nat} (hfg : |f| + |g| ≤ 2 ^ 31) (hX : f * A + g * B = 2 ^ 31 * X) :
    |X| ≤ ((max A B : Nat) : Int) := by
  have h1 : (A : Int) ≤ (max A B : Nat) := by exact_mod_cast le_max_left A B
  have h2 : (B : Int) ≤ (max A B : Nat) := by exact_mod_cast le_max_right A B
  generalize max A B = M at *
  have h3 : |2 ^ 31 * X| ≤ |f * A| + |g * B| := by rw [← hX]; exact abs_add_le _ _
  rw [abs_mul, abs_mul, abs_mul, abs_of_nonneg (show (0 : Int) ≤ A by omega),
    abs_of_nonneg (show (0 : Int) ≤ B by omega), abs_of_nonneg (show (0 : Int) ≤ 2 ^ 31 by norm_num)] at h3
  have h4 := mul_le_mul_of_nonneg_left h1 (abs_nonneg f)
  have h5 := mul_le_mul_of_nonneg_left h2 (abs_nonneg g)
  have h6 := mul_le_mul_of_nonneg_right hfg (show (0 : Int) ≤ M by omega)
  linarith

/-- One pass of the outer loop: the values it leaves in `a` and `b`. -/
theorem gcdPass_spec (s : GcdState) {k : Nat} (hk : 0 < k) (ha : s.a.length = k) (hb : s.b.length = k)
    (wa : Words s.a) (wb : Words s.b) (hodd : wv s.b % 2 = 1) :
    let t := P.gcdPass s
    (t.a.length = k ∧ t.b.length = k ∧ Words t.a ∧ Words t.b ∧ wv t.b % 2 = 1) ∧
      max (wv t.a) (wv t.b) ≤ max (wv s.a) (wv s.b) ∧
      (wv s.a ≠ 0 → 2 ^ (max (wv s.a).size (wv s.b).size - 1) ≤ max (wv t.a) (wv t.b) →
        wv t.a + wv t.b < wv s.a + wv s.b) ∧
      (wv s.a = 0 → wv t.a = 0) ∧ t.i = s.i + 1 := by
  intro t
  obtain ⟨S, E, hend⟩ := gcdInner_inv wa wb hodd
  obtain ⟨f0, g0, f1, g1, x, y, ⟨c0, c1⟩, ⟨⟨l1, u1⟩, ⟨l2, u2⟩, ⟨l3, u3⟩, l4, u4⟩, ⟨r0, r1⟩, ⟨e0, e1⟩,
    ⟨-, -, hyodd, -⟩, -, hdec, -, hz, -, -⟩ := hend
  have hlt : ((max (wv s.a) (wv s.b) : Nat) : Int) < (2 ^ 64) ^ k := by
    have h1 := wv_lt wa
    have h2 := wv_lt wb
    rw [ha] at h1
    rw [hb] at h2
    exact_mod_cast max_lt h1 h2
  have hx := comb_le r0 e0
  have hy := comb_le r1 e1
  have d0 := decompose_spec l1 u1 l2 u2
  have d1 := decompose_spec l3 u3 l4 u4
  obtain ⟨a1, a2, a3⟩ := gcdRow_spec wa wb (by omega) (hb.trans ha.symm) (BitVec.ofInt 64 f0) (BitVec.ofInt 64 g0)
    (X := x) (by rw [toInt_small l1 u1, toInt_small l2 u2]; exact e0) (by rw [ha]; exact hx.trans_lt hlt)
  obtain ⟨b1, b2, b3⟩ := gcdRow_spec wa wb (by omega) (hb.trans ha.symm) (BitVec.ofInt 64 f1) (BitVec.ofInt 64 g1)
    (X := y) (by rw [toInt_small l3 u3, toInt_small l4 u4]; exact e1) (by rw [ha]; exact hy.trans_lt hlt)
  have ta : t.a = (gcdRow s.a s.b (BitVec.ofInt 64 f0) (BitVec.ofInt 64 g0)).1 := by
    rw [show t.a = _ from gcdPass_a s, c0, d0]
  have tb : t.b = (gcdRow s.a s.b (BitVec.ofInt 64 f1) (BitVec.ofInt 64 g1)).1 := by
    rw [show t.b = _ from gcdPass_b s, c1, d1]
  have ti : t.i = s.i + 1 := gcdPass_i s
  rw [← ta] at a1 a2 a3
  rw [← tb] at b1 b2 b3
  rw [ha] at a2 b2
  have ab : wv t.b % 2 = 1 := by
    rcases abs_choice y with h | h <;> rw [h] at b1 <;> omega
  refine ⟨⟨a2, b2, a3, b3, ab⟩, ?_, ?_, ?_, ti⟩
  · rw [← a1] at hx
    rw [← b1] at hy
    exact max_le (by exact_mod_cast hx) (by exact_mod_cast hy)
  · intro h0 hL
    have hL' : (2 ^ (max (wv s.a).size (wv s.b).size - 1) : Int) ≤ max |x| |y| := by
      rw [← a1, ← b1]; exact_mod_cast hL
    have := (hdec hL').2 (by norm_num) (by exact_mod_cast h0)
    rw [← a1, ← b1] at this
    exact_mod_cast this
  · intro h0
    have := (hz (by exact_mod_cast h0)).2
    rw [this, abs_zero] at a1
    exact_mod_cast a1

/-- The measure: a pass with `a` not zero decreases it. -/
def gcdMeasure (k : Nat) (s : GcdState) : Nat :=
  max (wv s.a).size (wv s.b).size * (2 * (2 ^ 64) ^ k) + (wv s.a + wv s.b)

theorem gcdMeasure_lt (s : GcdState) {k : Nat} (hk : 0 < k) (ha : s.a.length = k) (hb : s.b.length = k)
    (wa : Words s.a) (wb : Words s.b) (hodd : wv s.b % 2 = 1) (h0 : wv s.a ≠ 0) :
    gcdMeasure k (P.gcdPass s) < gcdMeasure k s := by
  obtain ⟨⟨la, lb, wa', wb', -⟩, hmax, hdec, -, -⟩ := gcdPass_spec (P := P) s hk ha hb wa wb hodd
  generalize P.gcdPass s = t at *
  have h1 := wv_lt wa'
  have h2 := wv_lt wb'
  rw [la] at h1
  rw [lb] at h2
  unfold gcdMeasure
  have hn1 : wv s.a < 2 ^ max (wv s.a).size (wv s.b).size := by rw [← Nat.size_le]; exact le_max_left _ _
  have hn2 : wv s.b < 2 ^ max (wv s.a).size (wv s.b).size := by rw [← Nat.size_le]; exact le_max_right _ _
  have hpos : 0 < max (wv s.a).size (wv s.b).size := lt_max_of_lt_right (Nat.size_pos.2 (by omega))
  generalize hN : max (wv s.a).size (wv s.b).size = n at *
  generalize (2 ^ 64) ^ k = K at *
  rcases Nat.lt_or_ge (max (wv t.a) (wv t.b)) (2 ^ (n - 1)) with hL | hL
  · have s1 : (wv t.a).size ≤ n - 1 := Nat.size_le.2 (lt_of_le_of_lt (le_max_left _ _) hL)
    have s2 : (wv t.b).size ≤ n - 1 := Nat.size_le.2 (lt_of_le_of_lt (le_max_right _ _) hL)
    have s3 := max_le s1 s2
    generalize max (wv t.a).size (wv t.b).size = m at *
    have s4 : (m + 1) * (2 * K) ≤ n * (2 * K) := Nat.mul_le_mul_right _ (by omega)
    rw [Nat.add_mul, Nat.one_mul] at s4
    omega
  · have := hdec h0 hL
    have hm : max (wv t.a) (wv t.b) < 2 ^ n := lt_of_le_of_lt hmax (max_lt hn1 hn2)
    have s1 : (wv t.a).size ≤ n := Nat.size_le.2 (lt_of_le_of_lt (le_max_left _ _) hm)
    have s2 : (wv t.b).size ≤ n := Nat.size_le.2 (lt_of_le_of_lt (le_max_right _ _) hm)
    have s3 := max_le s1 s2
    generalize max (wv t.a).size (wv t.b).size = m at *
    have s4 : m * (2 * K) ≤ n * (2 * K) := Nat.mul_le_mul_right _ s3
    omega

theorem isZero_wv {z : List Nat} : isZero z = true ↔ wv z = 0 := by
  rw [isZero_iff rfl]
  constructor
  · intro h; rw [h]; exact wv_replicate _
  · intro h
    have : ∀ z : List Nat, wv z = 0 → z = List.replicate z.length 0 := by
      intro z
      induction z with
      | nil => intro _; rfl
      | cons a z ih =>
        intro h
        rw [wv_cons] at h
        have h1 : a = 0 := by omega
        have h2 : wv z = 0 := by omega
        rw [h1, List.length_cons, List.replicate_succ, ← ih h2]
    exact this z h

/-- The outer loop ends. -/
theorem gcdLoop_ends {k : Nat} (hk : 0 < k) : ∀ (m : Nat) (s : GcdState), gcdMeasure k s ≤ m →
    s.a.length = k → s.b.length = k → Words s.a → Words s.b → wv s.b % 2 = 1 →
    ∃ t, P.gcdLoop (m + 2) s = some t
  | 0, s, hm, ha, hb, wa, wb, hodd => by
    unfold gcdMeasure at hm
    omega
  | m + 1, s, hm, ha, hb, wa, wb, hodd => by
    obtain ⟨⟨la, lb, wa', wb', ho'⟩, -, -, hz, hi⟩ := gcdPass_spec (P := P) s hk ha hb wa wb hodd
    have hlt := gcdMeasure_lt (P := P) s hk ha hb wa wb hodd
    rw [show m + 1 + 2 = (m + 2) + 1 by omega, gcdLoop]
    by_cases hr : gcdRuns s = true
    · rw [if_pos hr]
      by_cases h0 : wv s.a = 0
      · have hi1 : s.i % 2 = 1 := by
          unfold gcdRuns at hr
          rw [isZero_wv.2 h0] at hr
          simpa using hr
        have hstop : gcdRuns (P.gcdPass s) = false := by
          unfold gcdRuns
          rw [isZero_wv.2 (hz h0), hi]
          have : (s.i + 1) % 2 = 0 := by omega
          simp [this]
        refine ⟨P.gcdPass s, ?_⟩
        rw [show m + 2 = (m + 1) + 1 by omega, gcdLoop, if_neg (by simp [hstop])]
      · exact gcdLoop_ends hk m _ (by have := hlt h0; omega) la lb wa' wb' ho'
    · rw [if_neg hr]
      exact ⟨s, rfl⟩

/-! ### `u` and `v` remain elements of `n` words -/

theorem reduce_words (h : P.Good) {z : List Nat} (hz : z.length = P.n) (wz : Words z) :
    (P.reduce z).length = P.n ∧ Words (P.reduce z) := by
  unfold reduce
  split
  · obtain ⟨-, l, w, -⟩ := subChain_spec z P.q 0 wz h.q_words hz (by omega)
    exact ⟨l.trans hz, w⟩
  · exact ⟨hz, wz⟩

theorem fromMontStep_iterate (h : P.Good) : ∀ (k : Nat) {z : List Nat}, z.length = P.n → Words z →
    (Nat.iterate P.fromMontStep k z).length = P.n ∧ Words (Nat.iterate P.fromMontStep k z)
  | 0, _, hz, wz => ⟨hz, wz⟩
  | k + 1, z, hz, wz => by
    obtain ⟨m, -, -, l, w⟩ := fromMontStep_spec h hz wz
    exact fromMontStep_iterate h k l w

theorem dropLast_words {z : List Nat} (wz : Words z) {a : Nat} (ha : a < 2 ^ 64) :
    Words (z.dropLast ++ [a]) :=
  Words.append (fun w hw => wz w (List.dropLast_subset _ hw)) (Words.nil.cons ha)

theorem montReduceSigned_words (h : P.Good) {x : List Nat} (hx : x.length = P.n) (wx : Words x) (hi : Nat) :
    (P.montReduceSigned x hi).length = P.n ∧ Words (P.montReduceSigned x hi) := by
  have h2 := h.two_le
  obtain ⟨q0, qs, hq, hq0, wqs, lqs, ep⟩ := q_split h
  rcases x with _ | ⟨t0, ts⟩
  · simp at hx; omega
  have lts : ts.length + 1 = P.n := by simpa using hx
  have hC := (madd0_spec (a := t0 * P.qInvNeg % 2 ^ 64) (b := q0) (c := t0) (Nat.mod_lt _ (by norm_num)) hq0
    wx.head (low_zero h ep t0)).2
  obtain ⟨-, l1, w1, -⟩ := madd2Row_spec (v := t0 * P.qInvNeg % 2 ^ 64) (Nat.mod_lt _ (by norm_num)) qs ts
    (madd0 (t0 * P.qInvNeg % 2 ^ 64) q0 t0) wqs wx.tail' (by omega) hC
  unfold montReduceSigned
  simp only [hq, List.headD_cons, List.tail_cons]
  generalize madd2Row (t0 * P.qInvNeg % 2 ^ 64) qs ts (madd0 (t0 * P.qInvNeg % 2 ^ 64) q0 t0) = r at *
  have l2 : (r.1 ++ [((hi &&& (2 ^ 63 - 1)) + r.2) % 2 ^ 64]).length = P.n := by simp; omega
  have w2 : Words (r.1 ++ [((hi &&& (2 ^ 63 - 1)) + r.2) % 2 ^ 64]) :=
    w1.append (Words.nil.cons (Nat.mod_lt _ (by norm_num)))
  generalize r.1 ++ [((hi &&& (2 ^ 63 - 1)) + r.2) % 2 ^ 64] = t at *
  obtain ⟨l3, w3⟩ := fromMontStep_iterate h (P.n - 1) l2 w2
  generalize Nat.iterate P.fromMontStep (P.n - 1) t = t' at *
  obtain ⟨l4, w4⟩ := reduce_words h l3 w3
  generalize P.reduce t' = z at *
  split
  · have l5 : (2 ^ 63 :: List.replicate (P.n - 1) 0 : List Nat).length = P.n := by simp; omega
    obtain ⟨-, l6, w6, -⟩ := subChain_spec z (2 ^ 63 :: List.replicate (P.n - 1) 0) 0 w4
      ((Words.replicate _).cons (by norm_num)) (l4.trans l5.symm) (by omega)
    generalize subChain z (2 ^ 63 :: List.replicate (P.n - 1) 0) 0 = c at *
    split
    · have l7 : (c.1.dropLast ++ [2 ^ 64 - 1]).length = P.n := by simp; omega
      obtain ⟨-, l8, w8, -⟩ := addChain_spec (c.1.dropLast ++ [2 ^ 64 - 1]) P.q 0
        (dropLast_words w6 (by norm_num)) h.q_words l7 (by omega)
      rw [hq] at l8 w8
      exact ⟨l8.trans l7, w8⟩
    · exact ⟨l6.trans l4, w6⟩
  · exact ⟨l4, w4⟩

theorem linearComb_words (h : P.Good) {x y : List Nat} (hx : x.length = P.n) (wx : Words x)
    (hy : y.length = P.n) (wy : Words y) (f g : BitVec 64) :
    (P.linearComb x f y g).length = P.n ∧ Words (P.linearComb x f y g) := by
  have h2 := h.two_le
  obtain ⟨-, l, w, -⟩ := linComb_spec wx wy (by omega) (hy.trans hx.symm) f g
  unfold linearComb
  exact montReduceSigned_words h (l.trans hx) w _

/-- `u` and `v` have `n` words. -/
def GcdUV (P : FieldPkg) (s : GcdState) : Prop :=
  (s.u.length = P.n ∧ Words s.u) ∧ s.v.length = P.n ∧ Words s.v

theorem gcdFinish_uv (h : P.Good) {s : GcdState} (hs : P.GcdUV s)
    (ra rb : List Nat × BitVec 64 × BitVec 64) : P.GcdUV (P.gcdFinish s ra rb) := by
  obtain ⟨⟨lu, wu⟩, lv, wv'⟩ := hs
  unfold gcdFinish
  split
  · exact ⟨linearComb_words h lu wu lv wv' _ _, linearComb_words h lu wu lv wv' _ _⟩
  · exact ⟨⟨lu, wu⟩, lv, wv'⟩

theorem gcdLoop_uv (h : P.Good) : ∀ (fuel : Nat) {s t : GcdState}, P.GcdUV s → P.gcdLoop fuel s = some t →
    P.GcdUV t
  | 0, s, t, hs, e => by
    unfold gcdLoop at e
    split at e
    · cases e
    · cases e; exact hs
  | fuel + 1, s, t, hs, e => by
    unfold gcdLoop at e
    split at e
    · exact gcdLoop_uv h fuel (gcdFinish_uv h hs _ _) e
    · cases e; exact hs

theorem gcdLoop_mono : ∀ (fuel : Nat) {s t : GcdState}, P.gcdLoop fuel s = some t → ∀ {fuel'}, fuel ≤ fuel' →
    P.gcdLoop fuel' s = some t
  | 0, s, t, e, fuel', _ => by
    unfold gcdLoop at e
    split at e
    · cases e
    · cases e
      rename_i hr
      cases fuel' <;> (unfold gcdLoop; rw [if_neg hr])
  | fuel + 1, s, t, e, fuel', hf => by
    unfold gcdLoop at e
    obtain ⟨f', rfl⟩ : ∃ f', fuel' = f' + 1 := ⟨fuel' - 1, by omega⟩
    unfold gcdLoop
    split at e
    · rename_i hr
      rw [if_pos hr]
      exact gcdLoop_mono fuel e (by omega)
    · rename_i hr
      rw [if_neg hr]
      exact e

theorem gcdInit_uv (h : P.Good) (x : List Nat) : P.GcdUV (P.gcdInit x) := by
  have h2 := h.two_le
  refine ⟨⟨?_, (Words.replicate _).cons (by norm_num)⟩, by simp [gcdInit], Words.replicate _⟩
  simp [gcdInit]; omega

/-- Reduced words are the Montgomery form of some value. -/
theorem mont_exists (h : P.Good) {z : List Nat} (hz : z.length = P.n) (wz : Words z) (hlt : wv z < P.p) :
    ∃ a : ZMod P.p, MontForm P.p P.n z a := by
  have := Fact.mk h.prime
  refine ⟨(wv z : ZMod P.p) * P.R⁻¹, hz, wz, hlt, ?_⟩
  have hR := R_ne h
  show (wv z : ZMod P.p) = (wv z : ZMod P.p) * P.R⁻¹ * P.R
  rw [mul_assoc, inv_mul_cancel₀ hR, mul_one]

theorem gcdCorrect_words (h : P.Good) (hp : 2 ^ 62 < P.p) (iters i : Nat) {v : List Nat}
    (lv : v.length = P.n) (w : Words v) :
    (P.gcdCorrect iters i v).length = P.n ∧ Words (P.gcdCorrect iters i v) := by
  have h2 := h.two_le
  have ly : (2 ^ 62 :: List.replicate (P.n - 1) 0 : List Nat).length = P.n := by simp; omega
  have wy : Words (2 ^ 62 :: List.replicate (P.n - 1) 0) := (Words.replicate _).cons (by norm_num)
  have hy : wv (2 ^ 62 :: List.replicate (P.n - 1) 0) < P.p := by
    rw [wv_cons, wv_replicate]; simpa using hp
  unfold gcdCorrect
  generalize (2 ^ 62 :: List.replicate (P.n - 1) 0 : List Nat) = y at *
  generalize (iters - i + 1) / 2 = k
  induction k generalizing v with
  | zero => exact ⟨lv, w⟩
  | succ k ih =>
    obtain ⟨-, l, w'⟩ := mul_num h lv w ly wy hy
    exact ih l w'

/-- The end of `Inverse`: the value of the loops is checked. -/
theorem mont_inverseFinish (h : P.Good) {corr x v : List Nat} {a : ZMod P.p} (hx : MontForm P.p P.n x a)
    (hv : v.length = P.n) (wv' : Words v) (hc : corr.length = P.n) (wc : Words corr) (hlt : wv corr < P.p)
    (hz : a = 0 → wv v = 0) : MontForm P.p P.n (P.inverseFinish corr x v) a⁻¹ := by
  have := Fact.mk h.prime
  have hR := R_ne h
  obtain ⟨c, hcorr⟩ := mont_exists h hc wc hlt
  obtain ⟨b, hb⟩ : ∃ b : ZMod P.p, (wv v : ZMod P.p) * c = b * P.R :=
    ⟨(wv v : ZMod P.p) * c * P.R⁻¹, by rw [mul_assoc _ P.R⁻¹, inv_mul_cancel₀ hR, mul_one]⟩
  have hzz := mont_mul h hv wv' hcorr hb
  have hw := mont_mul' h hx hzz
  unfold inverseFinish
  simp only
  split
  · rename_i hcond
    have hne : a ≠ 0 := by
      intro h0
      simp only [Bool.and_eq_true, Bool.not_eq_true'] at hcond
      have := (isZero_mont h hx).2 h0
      rw [this] at hcond
      exact absurd hcond.2 (by simp)
    exact mont_inverseExp h hx hne
  · rename_i hcond
    by_cases h0 : a = 0
    · have hb0 : b = 0 := by
        rw [hz h0, Nat.cast_zero, zero_mul] at hb
        rcases mul_eq_zero.1 hb.symm with h | h
        · exact h
        · exact absurd h hR
      rw [h0, inv_zero]
      rw [hb0] at hzz
      exact hzz
    · have hnz : isZero x = false := by
        by_contra hh
        exact h0 ((isZero_mont h hx).1 (by simpa using hh))
      have heq : equal (P.mul x (P.mul v corr)) P.one = true := by
        simpa [hnz] using hcond
      have hone := mont_one h
      rw [equal_iff (hw.len.trans hone.len.symm)] at heq
      rw [heq] at hw
      have : a * b = 1 := (MontForm_inj h hw hone).1 rfl
      rw [inv_eq_of_mul_eq_one_right this]
      exact hzz

theorem wv_mont_zero (h : P.Good) {z : List Nat} (hz : MontForm P.p P.n z 0) : wv z = 0 := by
  have := Fact.mk h.prime
  have h1 := hz.val
  rw [zero_mul, ZMod.natCast_eq_zero_iff] at h1
  exact Nat.eq_zero_of_dvd_of_lt h1 hz.lt

theorem gcdCorrect_zero (h : P.Good) (hp : 2 ^ 62 < P.p) (iters i : Nat) {v : List Nat}
    (lv : v.length = P.n) (w : Words v) (h0 : wv v = 0) : wv (P.gcdCorrect iters i v) = 0 := by
  have h2 := h.two_le
  have ly : (2 ^ 62 :: List.replicate (P.n - 1) 0 : List Nat).length = P.n := by simp; omega
  have wy : Words (2 ^ 62 :: List.replicate (P.n - 1) 0) := (Words.replicate _).cons (by norm_num)
  have hy : wv (2 ^ 62 :: List.replicate (P.n - 1) 0) < P.p := by
    rw [wv_cons, wv_replicate]; simpa using hp
  unfold gcdCorrect
  generalize (2 ^ 62 :: List.replicate (P.n - 1) 0 : List Nat) = y at *
  obtain ⟨b, hb⟩ := mont_exists h ly wy hy
  generalize (iters - i + 1) / 2 = k
  induction k generalizing v with
  | zero => exact h0
  | succ k ih =>
    have hm := mont_mul h lv w hb (c := 0) (by rw [h0, Nat.cast_zero, zero_mul, zero_mul])
    exact ih hm.len hm.words (wv_mont_zero h hm)

/-- `Inverse`, if the passes suffice. -/
theorem mont_inverse (h : P.Good) (hp : 2 ^ 62 < P.p) {inv : List Nat × Nat} (hc : inv.1.length = P.n)
    (wc : Words inv.1) (hlt : wv inv.1 < P.p) {x : List Nat} {a : ZMod P.p} (hx : MontForm P.p P.n x a)
    {fuel : Nat} {z : List Nat} (e : P.inverse inv fuel x = some z) : MontForm P.p P.n z a⁻¹ := by
  unfold inverse at e
  rw [Option.map_eq_some_iff] at e
  obtain ⟨s, hs, rfl⟩ := e
  obtain ⟨-, lv, wv'⟩ := gcdLoop_uv h fuel (gcdInit_uv h x) hs
  obtain ⟨l, w⟩ := gcdCorrect_words h hp inv.2 s.i lv wv'
  refine mont_inverseFinish h hx l w hc wc hlt fun h0 => ?_
  apply gcdCorrect_zero h hp _ _ lv wv'
  have hx0 : isZero x = true := (isZero_mont h hx).2 h0
  have hr : ¬ gcdRuns (P.gcdInit x) = true := by
    unfold gcdRuns gcdInit
    rw [hx0]
    simp
  have : s = P.gcdInit x := by
    cases fuel <;> (unfold gcdLoop at hs; rw [if_neg hr] at hs; exact (Option.some.inj hs).symm)
  rw [this]
  exact wv_replicate _

/-- A bound on the number of passes of the outer loop of `Inverse`. -/
def gcdFuel (P : FieldPkg) : Nat := 64 * P.n * (2 * (2 ^ 64) ^ P.n) + 2 * (2 ^ 64) ^ P.n + 2

theorem gcdMeasure_le {k : Nat} {s : GcdState} (ha : s.a.length = k) (hb : s.b.length = k)
    (wa : Words s.a) (wb : Words s.b) :
    gcdMeasure k s ≤ 64 * k * (2 * (2 ^ 64) ^ k) + 2 * (2 ^ 64) ^ k := by
  have h1 := wv_lt wa
  have h2 := wv_lt wb
  rw [ha] at h1
  rw [hb] at h2
  have s1 : (wv s.a).size ≤ 64 * k := by rw [Nat.size_le, pow_mul]; exact h1
  have s2 : (wv s.b).size ≤ 64 * k := by rw [Nat.size_le, pow_mul]; exact h2
  have s3 := max_le s1 s2
  unfold gcdMeasure
  generalize max (wv s.a).size (wv s.b).size = m at *
  generalize (2 ^ 64) ^ k = K at *
  have := Nat.mul_le_mul_right (2 * K) s3
  omega

/-- Enough passes of the outer loop of `Inverse`. -/
theorem inverse_ends (h : P.Good) (inv : List Nat × Nat) {x : List Nat} (hx : x.length = P.n) (wx : Words x) :
    ∃ z, ∀ fuel', P.gcdFuel ≤ fuel' → P.inverse inv fuel' x = some z := by
  have h2 := h.two_le
  have hodd : wv (P.gcdInit x).b % 2 = 1 := by
    show P.p % 2 = 1
    exact h.prime.eq_two_or_odd.resolve_left h.odd
  obtain ⟨t, ht⟩ := gcdLoop_ends (P := P) (k := P.n) (by omega) _ (P.gcdInit x) le_rfl hx rfl wx h.q_words hodd
  have hle := gcdMeasure_le (k := P.n) (s := P.gcdInit x) hx rfl wx h.q_words
  refine ⟨P.inverseFinish inv.1 x (P.gcdCorrect inv.2 t.i t.v), fun fuel' hf => ?_⟩
  have hf' : gcdMeasure P.n (P.gcdInit x) + 2 ≤ fuel' :=
    (Nat.add_le_add_right hle 2).trans hf
  unfold inverse
  rw [gcdLoop_mono _ ht hf']
  rfl

/-- `Inverse` of the package that calls `big.Int.ModInverse`. -/
theorem mont_inverseBig (h : P.Good) {x : List Nat} {a : ZMod P.p} (hx : MontForm P.p P.n x a) :
    MontForm P.p P.n (P.inverseBig x) a⁻¹ := by
  have := Fact.mk h.prime
  unfold inverseBig
  simp only
  have hv : P.bigInt x = a.val := by
    obtain ⟨e, _, w⟩ := mont_fromMont h hx
    rw [bigInt, wordBytes_val w]
    exact e
  rw [hv]
  have hs := mont_setBigInt h
  split
  · have := hs ((((a.val : Nat) : ZMod P.p)⁻¹).val : Nat)
    rw [ZMod.natCast_zmod_val] at this
    rw [Int.cast_natCast, ZMod.natCast_zmod_val] at this
    rw [ZMod.natCast_zmod_val]
    exact this
  · rename_i hg
    have h0 : a = 0 := by
      by_contra hne
      apply hg
      apply Nat.Coprime.symm
      rw [Nat.Prime.coprime_iff_not_dvd h.prime]
      intro hd
      have := Nat.eq_zero_of_dvd_of_lt hd (ZMod.val_lt a)
      exact hne ((ZMod.val_eq_zero a).1 this)
    subst h0
    have := hs 0
    rw [ZMod.val_zero, inv_zero]
    rw [Int.cast_zero] at this
    exact this

end FieldPkg

end Ringo
