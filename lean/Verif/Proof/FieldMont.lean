import Verif.Proof.FieldMulNc
import Mathlib.Tactic.FieldSimp

/-! # Montgomery forms -/

namespace Ringo

namespace FieldPkg

variable {P : FieldPkg}

/-- `2^(64 n)` modulo `p`. -/
abbrev R (P : FieldPkg) : ZMod P.p := (2 ^ 64) ^ P.n

theorem Good.odd (h : P.Good) : P.p ≠ 2 := by
  intro h2
  have := h.inv
  rw [h2] at this
  omega

theorem R_ne (h : P.Good) : P.R ≠ 0 := by
  have := Fact.mk h.prime
  apply pow_ne_zero
  apply pow_ne_zero
  intro h2
  have : ((2 : ℕ) : ZMod P.p) = 0 := by exact_mod_cast h2
  rw [ZMod.natCast_eq_zero_iff] at this
  exact h.odd ((Nat.prime_dvd_prime_iff_eq h.prime Nat.prime_two).1 this)

theorem cast_mod (T : Nat) : ((T % P.p : Nat) : ZMod P.p) = T := by simp

theorem cast_R : (((2 ^ 64) ^ P.n : Nat) : ZMod P.p) = P.R := by
  rw [Nat.cast_pow, Nat.cast_pow, Nat.cast_ofNat]

/-- The value of a form is determined by the words and conversely. -/
theorem MontForm_inj (h : P.Good) {x y : List Nat} {a b : ZMod P.p} (hx : MontForm P.p P.n x a)
    (hy : MontForm P.p P.n y b) : x = y ↔ a = b := by
  have := Fact.mk h.prime
  constructor
  · rintro rfl
    have := hx.val.symm.trans hy.val
    exact mul_right_cancel₀ (R_ne h) this
  · rintro rfl
    have e := hx.val.trans hy.val.symm
    rw [ZMod.natCast_eq_natCast_iff] at e
    have e' := Nat.ModEq.eq_of_lt_of_lt e hx.lt hy.lt
    exact wv_inj hx.words hy.words (hx.len.trans hy.len.symm) e'

theorem mont_mul (h : P.Good) {x y : List Nat} (hx : x.length = P.n) (wx : Words x) {b c : ZMod P.p}
    (hy : MontForm P.p P.n y b) (hc : (wv x : ZMod P.p) * b = c * P.R) :
    MontForm P.p P.n (P.mul x y) c := by
  have := Fact.mk h.prime
  obtain ⟨⟨T, M, e, e'⟩, l, w⟩ := mul_num h hx wx hy.len hy.words hy.lt
  refine ⟨l, w, ?_, ?_⟩
  · exact e'.trans_lt (Nat.mod_lt _ h.pos)
  · rw [show Nat.ofDigits (2 ^ 64) (P.mul x y) = T % P.p from e', cast_mod]
    have e2 : P.R * (T : ZMod P.p) = wv x * wv y := by
      have := congrArg (Nat.cast : Nat → ZMod P.p) e
      rwa [Nat.cast_mul, cast_R, Nat.cast_add, Nat.cast_mul, Nat.cast_mul, ZMod.natCast_self, mul_zero,
        add_zero] at this
    have hyv : (wv y : ZMod P.p) = b * P.R := hy.val
    apply mul_left_cancel₀ (R_ne h)
    rw [e2, hyv]
    show _ = P.R * (c * P.R)
    linear_combination P.R * hc

theorem mont_mul' (h : P.Good) {x y : List Nat} {a b : ZMod P.p} (hx : MontForm P.p P.n x a)
    (hy : MontForm P.p P.n y b) : MontForm P.p P.n (P.mul x y) (a * b) :=
  mont_mul h hx.len hx.words hy (by
    have : (wv x : ZMod P.p) = a * P.R := hx.val
    rw [this]; ring)

theorem mont_rSquare (h : P.Good) : MontForm P.p P.n P.rSquare P.R := by
  refine ⟨h.rSquare_len, h.rSquare_words, ?_, ?_⟩
  · rw [h.rSquare_val]; exact Nat.mod_lt _ h.pos
  · rw [h.rSquare_val, cast_mod]
    rw [Nat.mul_comm, pow_mul, pow_two, Nat.cast_mul, cast_R]

theorem mont_one (h : P.Good) : MontForm P.p P.n P.one 1 := by
  refine ⟨h.one_len, h.one_words, ?_, ?_⟩
  · rw [h.one_val]; exact Nat.mod_lt _ h.pos
  · rw [h.one_val, cast_mod, one_mul, cast_R]

theorem mont_zero (h : P.Good) : MontForm P.p P.n (List.replicate P.n 0) 0 := by
  refine ⟨by simp, Words.replicate _, ?_, ?_⟩
  · rw [show Nat.ofDigits (2 ^ 64) (List.replicate P.n 0) = 0 from wv_replicate _]; exact h.pos
  · rw [show Nat.ofDigits (2 ^ 64) (List.replicate P.n 0) = 0 from wv_replicate _]; simp

theorem mont_toMont (h : P.Good) {z : List Nat} (hz : z.length = P.n) (wz : Words z) :
    MontForm P.p P.n (P.toMont z) (wv z : ZMod P.p) :=
  mont_mul h hz wz (mont_rSquare h) rfl

theorem mont_fromMont (h : P.Good) {z : List Nat} {a : ZMod P.p} (hz : MontForm P.p P.n z a) :
    wv (P.fromMont z) = a.val ∧ (P.fromMont z).length = P.n ∧ Words (P.fromMont z) := by
  have := Fact.mk h.prime
  obtain ⟨⟨T, M, e, e'⟩, l, w⟩ := fromMont_num h hz.len hz.words
  refine ⟨?_, l, w⟩
  have e2 : P.R * (T : ZMod P.p) = wv z := by
    have := congrArg (Nat.cast : Nat → ZMod P.p) e
    rwa [Nat.cast_mul, cast_R, Nat.cast_add, Nat.cast_mul, ZMod.natCast_self, mul_zero, add_zero] at this
  have hv : (wv z : ZMod P.p) = a * P.R := hz.val
  have e3 : (T : ZMod P.p) = a := by
    apply mul_left_cancel₀ (R_ne h)
    rw [e2, hv, mul_comm]
  rw [e', ← e3, ZMod.val_natCast]

/-! ### Addition -/

theorem add_num (h : P.Good) {x y : List Nat} (hx : x.length = P.n) (wx : Words x) (hy : y.length = P.n)
    (wy : Words y) (lx : wv x < P.p) (ly : wv y < P.p) :
    wv (P.add x y) = (wv x + wv y) % P.p ∧ (P.add x y).length = P.n ∧ Words (P.add x y) := by
  obtain ⟨e, l, w, b⟩ := addChain_spec x y 0 wx wy (by omega) (by omega)
  rw [hx, Nat.add_zero] at e
  rw [hx] at l
  unfold add
  generalize addChain x y 0 = r at *
  simp only
  by_cases hf : (P.full && r.2 != 0) = true
  · rw [hf, if_pos rfl]
    have hc : r.2 ≠ 0 := by
      rw [Bool.and_eq_true] at hf
      simpa using hf.2
    have hp := p_lt h
    have h1 : r.2 = 1 := by omega
    rw [h1, Nat.mul_one] at e
    obtain ⟨e1, l1, w1⟩ := subtract_spec h l w (c := 1) (by omega) (by omega)
    refine ⟨?_, l1, w1⟩
    rw [← e, show (2 ^ 64) ^ P.n = (2 ^ 64) ^ P.n * 1 from (Nat.mul_one _).symm, ← e1, Nat.add_mod_right,
      Nat.mod_eq_of_lt (by omega)]
  · rw [if_neg hf]
    have hc : r.2 = 0 := by
      by_contra hne
      have hfull : P.full = false := by
        by_contra hff
        apply hf
        simp [hne, Bool.eq_true_of_not_eq_false hff]
      have hsp := h.spare_add hfull
      have : (2 ^ 64) ^ P.n * 1 ≤ (2 ^ 64) ^ P.n * r.2 := Nat.mul_le_mul_left _ (by omega)
      rw [Nat.mul_one] at this
      generalize (2 ^ 64) ^ P.n = B at *
      omega
    rw [hc, Nat.mul_zero, Nat.add_zero] at e
    obtain ⟨e1, l1, w1⟩ := reduce_spec h l w (by omega)
    exact ⟨by rw [e1, e], l1, w1⟩

theorem mont_add (h : P.Good) {x y : List Nat} {a b : ZMod P.p} (hx : MontForm P.p P.n x a)
    (hy : MontForm P.p P.n y b) : MontForm P.p P.n (P.add x y) (a + b) := by
  obtain ⟨e, l, w⟩ := add_num h hx.len hx.words hy.len hy.words hx.lt hy.lt
  refine ⟨l, w, e.trans_lt (Nat.mod_lt _ h.pos), ?_⟩
  rw [show Nat.ofDigits (2 ^ 64) (P.add x y) = _ from e, cast_mod]
  have h1 : (wv x : ZMod P.p) = a * P.R := hx.val
  have h2 : (wv y : ZMod P.p) = b * P.R := hy.val
  push_cast [h1, h2]
  show _ = (a + b) * P.R
  ring

theorem mont_sub (h : P.Good) {x y : List Nat} {a b : ZMod P.p} (hx : MontForm P.p P.n x a)
    (hy : MontForm P.p P.n y b) : MontForm P.p P.n (P.sub x y) (a - b) := by
  have h1 : (wv x : ZMod P.p) = a * P.R := hx.val
  have h2 : (wv y : ZMod P.p) = b * P.R := hy.val
  have lx : wv x < P.p := hx.lt
  have ly : wv y < P.p := hy.lt
  obtain ⟨e, l, w, c⟩ := subChain_spec x y 0 hx.words hy.words (hx.len.trans hy.len.symm) (by omega)
  rw [hx.len, Nat.add_zero] at e
  rw [hx.len] at l
  have hlt := wv_lt w
  rw [l] at hlt
  unfold sub
  generalize subChain x y 0 = r at *
  simp only
  have key : ∀ {z : List Nat}, z.length = P.n → Words z → wv z < P.p →
      (wv z + wv y) % P.p = wv x % P.p → MontForm P.p P.n z (a - b) := by
    intro z lz wz hz ez
    refine ⟨lz, wz, hz, ?_⟩
    have : ((wv z + wv y : Nat) : ZMod P.p) = (wv x : Nat) := by
      rw [ZMod.natCast_eq_natCast_iff]; exact ez
    rw [Nat.cast_add] at this
    show (wv z : ZMod P.p) = (a - b) * P.R
    rw [h1, h2] at this
    linear_combination this
  have hp := p_lt h
  by_cases hc : r.2 = 0
  · have hc' : (r.2 != 0) = false := by simp [hc]
    rw [hc', if_neg (by simp)]
    rw [hc, Nat.mul_zero, Nat.add_zero] at e
    exact key l w (by omega) (by rw [e])
  · have hc' : (r.2 != 0) = true := by simp [hc]
    rw [hc', if_pos rfl]
    have hr : r.2 = 1 := by omega
    rw [hr, Nat.mul_one] at e
    obtain ⟨e2, l2, w2, c2⟩ := addChain_spec r.1 P.q 0 w h.q_words l (by omega)
    rw [l, Nat.add_zero] at e2
    rw [l] at l2
    have hlt2 := wv_lt w2
    rw [l2] at hlt2
    have hq : wv P.q = P.p := rfl
    rw [hq] at e2
    have hcc : (addChain r.1 P.q 0).2 = 1 := by
      by_contra hne
      have h0 : (addChain r.1 P.q 0).2 = 0 := by omega
      rw [h0, Nat.mul_zero] at e2
      generalize (2 ^ 64) ^ P.n = B at *
      omega
    rw [hcc, Nat.mul_one] at e2
    generalize (2 ^ 64) ^ P.n = B at *
    refine key l2 w2 (by omega) ?_
    have : wv (addChain r.1 P.q 0).1 + wv y = wv x + P.p := by omega
    rw [this, Nat.add_mod_right]

theorem foldl_or_zero : ∀ (x : List Nat) (a : Nat), x.foldl (fun a b => b ||| a) a = 0 ↔
    a = 0 ∧ ∀ w ∈ x, w = 0
  | [], a => by simp
  | w :: x, a => by
    rw [List.foldl_cons, foldl_or_zero x, Nat.or_eq_zero_iff]
    simp only [List.mem_cons, forall_eq_or_imp]
    tauto

theorem isZero_iff {x : List Nat} {k : Nat} (hx : x.length = k) :
    isZero x = true ↔ x = List.replicate k 0 := by
  unfold isZero
  rw [beq_iff_eq, foldl_or_zero, List.eq_replicate_iff]
  simp [hx]

theorem isZero_mont (h : P.Good) {x : List Nat} {a : ZMod P.p} (hx : MontForm P.p P.n x a) :
    isZero x = true ↔ a = 0 := by
  rw [isZero_iff hx.len, MontForm_inj h hx (mont_zero h)]

theorem mont_neg (h : P.Good) {x : List Nat} {a : ZMod P.p} (hx : MontForm P.p P.n x a) :
    MontForm P.p P.n (P.neg x) (-a) := by
  unfold neg
  by_cases hz : isZero x = true
  · rw [if_pos hz, (isZero_mont h hx).1 hz, neg_zero]
    exact mont_zero h
  · rw [if_neg hz]
    have hne : x ≠ List.replicate P.n 0 := fun e => hz ((isZero_iff hx.len).2 e)
    have lx : wv x < P.p := hx.lt
    have h0 : wv x ≠ 0 := by
      intro e
      exact hne (wv_inj hx.words (Words.replicate _) (by simp [hx.len]) (by rw [e, wv_replicate]))
    obtain ⟨e, l, w, c⟩ := subChain_spec P.q x 0 h.q_words hx.words hx.len.symm (by omega)
    have hq : wv P.q = P.p := rfl
    have hqn : P.q.length = P.n := rfl
    rw [hq, hqn, Nat.add_zero] at e
    have hlt := wv_lt w
    rw [l, hqn] at hlt
    have hc : (subChain P.q x 0).2 = 0 := by
      by_contra hne
      have h1 : (subChain P.q x 0).2 = 1 := by omega
      rw [h1, Nat.mul_one] at e
      generalize (2 ^ 64) ^ P.n = B at *
      omega
    rw [hc, Nat.mul_zero, Nat.add_zero] at e
    refine ⟨by rw [l]; rfl, w, ?_, ?_⟩
    · show wv (subChain P.q x 0).1 < P.p
      omega
    · show (wv (subChain P.q x 0).1 : ZMod P.p) = -a * P.R
      have h1 : (wv x : ZMod P.p) = a * P.R := hx.val
      have : ((wv (subChain P.q x 0).1 + wv x : Nat) : ZMod P.p) = (P.p : Nat) := by rw [e]
      rw [Nat.cast_add] at this
      rw [h1, ZMod.natCast_self] at this
      linear_combination this

/-! ### Integers -/

theorem natWords_spec : ∀ (k v : Nat), v < (2 ^ 64) ^ k →
    wv (natWords k v) = v ∧ (natWords k v).length = k ∧ Words (natWords k v)
  | 0, v, h => by
    have : v = 0 := by simpa using h
    subst this
    exact ⟨rfl, rfl, Words.nil⟩
  | k + 1, v, h => by
    rw [pow_succ (2 ^ 64) k] at h
    obtain ⟨e, l, w⟩ := natWords_spec k (v / 2 ^ 64) (by
      rw [Nat.div_lt_iff_lt_mul (by norm_num)]; exact h)
    refine ⟨?_, by rw [natWords, List.length_cons, l], w.cons (Nat.mod_lt _ (by norm_num))⟩
    simp only [natWords]
    rw [wv_cons, e]
    exact Nat.mod_add_div v (2 ^ 64)

theorem mont_setUint64 (h : P.Good) {v : Nat} (hv : v < 2 ^ 64) :
    MontForm P.p P.n (P.setUint64 v) (v : ZMod P.p) := by
  have h2 := h.two_le
  have := mont_toMont h (z := v :: List.replicate (P.n - 1) 0) (by simp; omega)
    ((Words.replicate _).cons hv)
  rw [wv_cons, wv_replicate, Nat.mul_zero, Nat.add_zero] at this
  exact this

theorem mont_setBigIntWords (h : P.Good) {v : Nat} (hv : v < P.p) :
    MontForm P.p P.n (P.setBigIntWords v) (v : ZMod P.p) := by
  obtain ⟨e, l, w⟩ := natWords_spec P.n v (hv.trans (p_lt h))
  have := mont_toMont h l w
  rw [e] at this
  exact this

theorem mont_setBigInt (h : P.Good) (v : Int) : MontForm P.p P.n (P.setBigInt v) (v : ZMod P.p) := by
  have hp := h.pos
  unfold setBigInt
  by_cases h1 : v = P.p
  · rw [if_pos h1, h1]
    have : ((P.p : Int) : ZMod P.p) = 0 := by simp
    rw [this]
    exact mont_zero h
  · rw [if_neg h1]
    by_cases h2 : ¬ v > P.p ∧ ¬ v < 0
    · rw [if_pos h2]
      have := mont_setBigIntWords h (v := v.toNat) (by omega)
      have e : ((v.toNat : Nat) : ZMod P.p) = (v : ZMod P.p) := by
        have : ((v.toNat : Int) : ZMod P.p) = (v : ZMod P.p) := by rw [Int.toNat_of_nonneg (by omega)]
        exact_mod_cast this
      rwa [e] at this
    · rw [if_neg h2]
      have hp' : (0 : Int) < P.p := by exact_mod_cast hp
      have hm1 := Int.emod_nonneg v hp'.ne'
      have hm2 := Int.emod_lt_of_pos v hp'
      have := mont_setBigIntWords h (v := (v % P.p).toNat) (by omega)
      have e : (((v % P.p).toNat : Nat) : ZMod P.p) = (v : ZMod P.p) := by
        have : (((v % P.p).toNat : Int) : ZMod P.p) = (v : ZMod P.p) := by
          rw [Int.toNat_of_nonneg hm1, ZMod.intCast_mod]
        exact_mod_cast this
      rwa [e] at this

theorem mont_setInt64 (h : P.Good) (v : BitVec 64) :
    MontForm P.p P.n (P.setInt64 v) (v.toInt : ZMod P.p) := by
  have hlt := v.isLt
  by_cases hm : v.msb = true
  · have e : v.sshiftRight 63 = BitVec.allOnes 64 := by
      apply BitVec.eq_of_getElem_eq
      intro i hi
      rw [BitVec.getElem_sshiftRight]
      by_cases h0 : i = 0
      · subst h0
        simp [BitVec.msb_eq_getLsbD_last] at hm ⊢
        simpa using hm
      · have : ¬ 63 + i < 64 := by omega
        rw [dif_neg this, hm, BitVec.getElem_allOnes]
    have e2 : (v ^^^ BitVec.allOnes 64) - BitVec.allOnes 64 = -v := by
      rw [BitVec.xor_allOnes, BitVec.neg_eq_not_add, BitVec.sub_eq_add_neg]
      congr 1
    have h1 : BitVec.allOnes 64 ≠ 0 := by decide
    have hv : v.toInt = -(((-v).toNat : Nat) : Int) := by
      rw [BitVec.toInt_eq_msb_cond, hm, BitVec.toNat_neg]
      have : 2 ^ 63 ≤ v.toNat := by
        rw [BitVec.msb_eq_decide] at hm
        simpa using hm
      simp only [if_true]
      rw [Nat.mod_eq_of_lt (by omega)]
      omega
    simp only [setInt64, e, e2]
    rw [if_pos h1, hv]
    have := mont_neg h (mont_setUint64 h (v := (-v).toNat) (-v).isLt)
    rwa [Int.cast_neg, Int.cast_natCast]
  · have hm' : v.msb = false := by simpa using hm
    have e : v.sshiftRight 63 = 0#64 := by
      apply BitVec.eq_of_getElem_eq
      intro i hi
      rw [BitVec.getElem_sshiftRight]
      by_cases h0 : i = 0
      · subst h0
        simp [BitVec.msb_eq_getLsbD_last] at hm' ⊢
        simpa using hm'
      · have : ¬ 63 + i < 64 := by omega
        simp [this, hm']
    have e2 : (v ^^^ 0#64) - 0#64 = v := by simp
    have hv : v.toInt = (v.toNat : Int) := by
      rw [BitVec.toInt_eq_msb_cond, hm']; simp
    simp only [setInt64, e, e2]
    rw [if_neg (by simp), hv]
    have := mont_setUint64 h (v := v.toNat) v.isLt
    simpa using this

end FieldPkg

end Ringo
