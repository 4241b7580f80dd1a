import Verif.Props.JForge
import Mathlib.Algebra.Ring.GeomSum

/-!
# Elements of `(ℤ/Q)[X]/(X^N + 1)` that few challenges tell apart from zero
-/

namespace Ringo

open Polynomial Finset

/-! ## Signed digits -/

theorem signed_lt (b : Nat) (hb : 2 ≤ b) (e : Nat) (d : Nat → Int) (hd : ∀ i < e, |d i| ≤ 1) :
    |∑ i ∈ range e, d i * (b : Int) ^ i| < (b : Int) ^ e := by
  induction e with
  | zero => simp
  | succ e ih =>
    rw [sum_range_succ]
    have h1 := ih fun i hi => hd i (by omega)
    have h2 := abs_add_le (∑ i ∈ range e, d i * (b : Int) ^ i) (d e * (b : Int) ^ e)
    have h3 : |d e * (b : Int) ^ e| ≤ (b : Int) ^ e := by
      rw [abs_mul, abs_of_nonneg (a := (b : Int) ^ e) (by positivity)]
      have := mul_le_mul_of_nonneg_right (hd e (by omega)) (show (0 : Int) ≤ (b : Int) ^ e by positivity)
      rwa [one_mul] at this
    have h4 : (b : Int) ^ (e + 1) ≥ (b : Int) ^ e * 2 := by
      rw [pow_succ]
      exact mul_le_mul_of_nonneg_left (by exact_mod_cast hb) (by positivity)
    omega

theorem signed_zero (b : Nat) (hb : 2 ≤ b) (e : Nat) (d : Nat → Int) (hd : ∀ i < e, |d i| ≤ 1)
    (h : ∑ i ∈ range e, d i * (b : Int) ^ i = 0) : ∀ i < e, d i = 0 := by
  induction e generalizing d with
  | zero => intro i hi; omega
  | succ e ih =>
    rw [sum_range_succ'] at h
    simp only [pow_succ, pow_zero, mul_one] at h
    have h1 : (∑ i ∈ range e, d (i + 1) * (b : Int) ^ i) * b = -d 0 := by
      rw [sum_mul]
      have : ∀ i ∈ range e, d (i + 1) * (b : Int) ^ i * b = d (i + 1) * ((b : Int) ^ i * b) :=
        fun i _ => by ring
      rw [sum_congr rfl this]
      omega
    have h0 : d 0 = 0 := by
      have h2 := abs_le.1 (hd 0 (by omega))
      have h3 : (b : Int) ∣ d 0 := ⟨-(∑ i ∈ range e, d (i + 1) * (b : Int) ^ i), by linear_combination h1⟩
      obtain ⟨k, hk⟩ := h3
      have : k = 0 := by
        by_contra hk0
        have : (b : Int) * 1 ≤ |(b : Int) * k| := by
          rw [abs_mul, abs_of_nonneg (a := (b : Int)) (by positivity)]
          exact mul_le_mul_of_nonneg_left (Int.one_le_abs hk0) (by positivity)
        rw [← hk] at this
        have := hd 0 (by omega)
        omega
      rw [hk, this, mul_zero]
    have hs : ∑ i ∈ range e, d (i + 1) * (b : Int) ^ i = 0 := by
      rw [h0, neg_zero] at h1
      rcases mul_eq_zero.1 h1 with h | h
      · exact h
      · omega
    have := ih (fun i => d (i + 1)) (fun i hi => hd (i + 1) (by omega)) hs
    intro i hi
    cases i with
    | zero => exact h0
    | succ i => exact this i (by omega)

/-- Representatives modulo `Q` of an arithmetic progression cannot all decode to the same value modulo
`b^e + 1`, unless the step is zero. -/
theorem reps_decode {p b e : Nat} (hp : p.Prime) (hb : 2 ≤ b) (hpb : p = b ^ e + 1) {Q : Nat} (hQ : 0 < Q)
    (hpQ : ¬ p ∣ Q) (R : Int → Int) (hR : ∀ z, (Q : Int) ∣ R z - z) (hR2 : ∀ y z, |R y - R z| < Q)
    (u k : Nat → Int)
    (h : ∀ a : Nat, ∑ i ∈ range e, (R (u i + a * k i) : ZMod p) * (b : ZMod p) ^ i =
      ∑ i ∈ range e, (R (u i) : ZMod p) * (b : ZMod p) ^ i) :
    ∀ i < e, (Q : Int) ∣ k i := by
  have hQ' : (0 : Int) < Q := by exact_mod_cast hQ
  -- the steps are all the same
  have hstep : ∀ a : Nat, ∀ i < e, R (u i + (a + 1 : Nat) * k i) - R (u i + a * k i) =
      R (u i + (1 : Nat) * k i) - R (u i + (0 : Nat) * k i) := by
    intro a
    have hc : ∀ i, (Q : Int) ∣ (R (u i + (a + 1 : Nat) * k i) - R (u i + a * k i)) -
        (R (u i + (1 : Nat) * k i) - R (u i + (0 : Nat) * k i)) := by
      intro i
      have h1 := hR (u i + (a + 1 : Nat) * k i)
      have h2 := hR (u i + a * k i)
      have h3 := hR (u i + (1 : Nat) * k i)
      have h4 := hR (u i + (0 : Nat) * k i)
      have := dvd_sub (dvd_sub h1 h2) (dvd_sub h3 h4)
      have e : R (u i + (a + 1 : Nat) * k i) - R (u i + a * k i) -
          (R (u i + (1 : Nat) * k i) - R (u i + (0 : Nat) * k i)) =
        R (u i + (a + 1 : Nat) * k i) - (u i + (a + 1 : Nat) * k i) - (R (u i + a * k i) - (u i + a * k i)) -
          (R (u i + (1 : Nat) * k i) - (u i + (1 : Nat) * k i) - (R (u i + (0 : Nat) * k i) - (u i + (0 : Nat) * k i))) := by
        generalize R (u i + (a + 1 : Nat) * k i) = r1
        generalize R (u i + a * k i) = r2
        generalize R (u i + (1 : Nat) * k i) = r3
        generalize R (u i + (0 : Nat) * k i) = r4
        push_cast
        ring
      rw [e]; exact this
    choose d hd using hc
    have hd1 : ∀ i, |d i| ≤ 1 := by
      intro i
      have h1 := abs_lt.1 (hR2 (u i + (a + 1 : Nat) * k i) (u i + a * k i))
      have h2 := abs_lt.1 (hR2 (u i + (1 : Nat) * k i) (u i + (0 : Nat) * k i))
      have h3 := hd i
      have a1 : (Q : Int) * d i < Q * 2 := by omega
      have a2 : (Q : Int) * (-2) < Q * d i := by omega
      have a3 := lt_of_mul_lt_mul_left a1 hQ'.le
      have a4 := lt_of_mul_lt_mul_left a2 hQ'.le
      rw [abs_le]; omega
    have hz : ((Q * ∑ i ∈ range e, d i * (b : Int) ^ i : Int) : ZMod p) = 0 := by
      have e1 := h (a + 1)
      have e2 := h a
      have e3 := h 1
      have e4 := h 0
      have : (Q * ∑ i ∈ range e, d i * (b : Int) ^ i : Int) =
          (∑ i ∈ range e, R (u i + (a + 1 : Nat) * k i) * (b : Int) ^ i -
            ∑ i ∈ range e, R (u i + a * k i) * (b : Int) ^ i) -
          (∑ i ∈ range e, R (u i + (1 : Nat) * k i) * (b : Int) ^ i -
            ∑ i ∈ range e, R (u i + (0 : Nat) * k i) * (b : Int) ^ i) := by
        rw [← sum_sub_distrib, ← sum_sub_distrib, ← sum_sub_distrib, mul_sum]
        apply sum_congr rfl
        intro i _
        linear_combination -(b : Int) ^ i * hd i
      rw [this]
      have cst : ∀ f : Nat → Int, ((∑ i ∈ range e, f i * (b : Int) ^ i : Int) : ZMod p) =
          ∑ i ∈ range e, (f i : ZMod p) * (b : ZMod p) ^ i := by
        intro f; push_cast; rfl
      rw [Int.cast_sub, Int.cast_sub, Int.cast_sub, cst, cst, cst, cst, e1, e2, e3, e4]
      ring
    rw [ZMod.intCast_zmod_eq_zero_iff_dvd] at hz
    have hz2 : (p : Int) ∣ ∑ i ∈ range e, d i * (b : Int) ^ i := by
      rcases (Nat.prime_iff_prime_int.1 hp).dvd_or_dvd hz with h1 | h1
      · exact absurd (Int.natCast_dvd_natCast.1 h1) hpQ
      · exact h1
    have hlt := signed_lt b hb e d (fun i _ => hd1 i)
    have hz3 : ∑ i ∈ range e, d i * (b : Int) ^ i = 0 := by
      apply Int.eq_zero_of_abs_lt_dvd hz2
      rw [hpb]; push_cast; omega
    have := signed_zero b hb e d (fun i _ => hd1 i) hz3
    intro i hi
    have h5 := hd i
    rw [this i hi, mul_zero] at h5
    omega
  intro i hi
  obtain ⟨δ, hδ⟩ : ∃ δ, δ = R (u i + (1 : Nat) * k i) - R (u i + (0 : Nat) * k i) := ⟨_, rfl⟩
  have hlin : ∀ a : Nat, R (u i + a * k i) = R (u i + (0 : Nat) * k i) + a * δ := by
    intro a
    induction a with
    | zero => simp
    | succ a ih =>
      have := hstep a i hi
      rw [ih, ← hδ] at this
      push_cast at this ⊢
      linear_combination this
  have hb' := hR2 (u i + Q * k i) (u i + (0 : Nat) * k i)
  rw [hlin Q, add_sub_cancel_left, abs_mul, abs_of_pos hQ'] at hb'
  have hδ0 : δ = 0 := by
    by_contra h0
    have := mul_le_mul_of_nonneg_left (Int.one_le_abs h0) hQ'.le
    omega
  rw [hδ0] at hδ
  have h1 := hR (u i + (1 : Nat) * k i)
  have h2 := hR (u i + (0 : Nat) * k i)
  have := dvd_sub h2 h1
  have e : R (u i + (1 : Nat) * k i) = R (u i + (0 : Nat) * k i) := by omega
  rw [e] at this
  generalize R (u i + (0 : Nat) * k i) = r at this
  have e2 : r - (u i + (0 : Nat) * k i) - (r - (u i + (1 : Nat) * k i)) = k i := by push_cast; ring
  rwa [e2] at this

/-! ## Polynomials in `X^slots` -/

/-- The coefficients `g 0, g 1, ...` at the multiples of `slots`. -/
def sparse (slots e : Nat) (g : Nat → Int) : List Int :=
  (List.range (slots * e)).map fun t => if t % slots = 0 then g (t / slots) else 0

theorem toR_sparse (qs : List Nat) (slots e : Nat) (hs : 1 ≤ slots) (g : Nat → Int) :
    toR qs (slots * e) (sparse slots e g) =
      ∑ i ∈ range e, (g i : RQ qs (slots * e)) * (AdjoinRoot.root _ ^ slots) ^ i := by
  unfold toR sparse
  rw [List.map_map, listPoly_range, map_sum, sum_slots]
  obtain ⟨m, rfl⟩ : ∃ m, slots = m + 1 := ⟨slots - 1, by omega⟩
  rw [sum_range_succ', sum_eq_zero, zero_add]
  · apply sum_congr rfl
    intro j _
    simp only [Function.comp_apply, add_zero, Nat.mul_mod_left, if_true, Nat.mul_div_cancel _ hs]
    rw [map_mul, map_pow, AdjoinRoot.mk_X, ← pow_mul, Nat.mul_comm (m + 1) j, AdjoinRoot.mk_C, map_intCast]
  · intro i hi
    apply sum_eq_zero
    intro j _
    have hi := mem_range.1 hi
    have : (j * (m + 1) + (i + 1)) % (m + 1) ≠ 0 := by
      rw [Nat.mul_comm, Nat.mul_add_mod, Nat.mod_eq_of_lt (by omega)]
      omega
    simp only [Function.comp_apply, if_neg this, Int.cast_zero, zero_mul, map_zero]

theorem chalInt_sparse (P : EncParams) {p : Nat} (h : P.Good p) (bytes : List (BitVec 8)) :
    chalInt P bytes = sparse P.slots P.ecd.exp fun i => centred (challengeBound P.ecd)
      (chalNum bytes / challengeBound P.ecd ^ i % challengeBound P.ecd) := by
  unfold chalInt sparse
  rw [h.deg]

/-- `X^slots` acts on the element `c a Σ w^(e-1-i) X^(i slots)` as the number `w`. -/
theorem root_mul_slot {qs : List Nat} {slots e : Nat} (hs : 1 ≤ slots) {q c : Nat} (hqc : q * c = qs.prod) {w : Int}
    (hw : (q : Int) ∣ w ^ e + 1) (a : Int) :
    (AdjoinRoot.root (cyclo (ZMod qs.prod) (slots * e)) ^ slots) *
      toR qs (slots * e) (sparse slots e fun i => c * (a * w ^ (e - 1 - i))) =
    (w : RQ qs (slots * e)) * toR qs (slots * e) (sparse slots e fun i => c * (a * w ^ (e - 1 - i))) := by
  obtain ⟨Y, hY⟩ : ∃ Y, Y = AdjoinRoot.root (cyclo (ZMod qs.prod) (slots * e)) ^ slots := ⟨_, rfl⟩
  have hYe : Y ^ e = -1 := by
    have h := AdjoinRoot.eval₂_root (cyclo (ZMod qs.prod) (slots * e))
    rw [cyclo, eval₂_add, eval₂_pow, eval₂_X, eval₂_one] at h
    rw [hY, ← pow_mul]
    exact eq_neg_of_add_eq_zero_left h
  have hQ : ((qs.prod : Nat) : RQ qs (slots * e)) = 0 := by
    rw [← map_natCast (AdjoinRoot.of (cyclo (ZMod qs.prod) (slots * e))), ZMod.natCast_self, map_zero]
  rw [toR_sparse _ _ _ hs, ← hY, ← sub_eq_zero, ← sub_mul]
  have h1 : ∑ i ∈ range e, ((c * (a * w ^ (e - 1 - i)) : Int) : RQ qs (slots * e)) * Y ^ i =
      (c * a : RQ qs (slots * e)) * ∑ i ∈ range e, Y ^ i * (w : RQ qs (slots * e)) ^ (e - 1 - i) := by
    rw [mul_sum]
    apply sum_congr rfl
    intro i _
    push_cast
    ring
  rw [h1, mul_left_comm, mul_comm (Y - _), geom_sum₂_mul, hYe]
  obtain ⟨m, hm⟩ := hw
  have h2 : (w : RQ qs (slots * e)) ^ e = q * m - 1 := by
    have := congrArg (fun z : Int => (z : RQ qs (slots * e))) hm
    push_cast at this
    linear_combination this
  rw [h2]
  have h3 : ((q * c : Nat) : RQ qs (slots * e)) = 0 := by rw [hqc, hQ]
  push_cast at h3
  linear_combination -(a * m : RQ qs (slots * e)) * h3

/-- Challenges with the same value at `w` modulo `q` have the same product with that element. -/
theorem sparse_mul_slot {qs : List Nat} {slots e : Nat} (hs : 1 ≤ slots) {q c : Nat} (hqc : q * c = qs.prod) {w : Int}
    (hw : (q : Int) ∣ w ^ e + 1) (a : Int) (g g' : Nat → Int)
    (hg : (q : Int) ∣ ∑ i ∈ range e, g i * w ^ i - ∑ i ∈ range e, g' i * w ^ i) :
    toR qs (slots * e) (sparse slots e g) * toR qs (slots * e) (sparse slots e fun i => c * (a * w ^ (e - 1 - i))) =
    toR qs (slots * e) (sparse slots e g') * toR qs (slots * e) (sparse slots e fun i => c * (a * w ^ (e - 1 - i))) := by
  have hY := root_mul_slot hs hqc hw a
  obtain ⟨D, hD⟩ : ∃ D, D = toR qs (slots * e) (sparse slots e fun i => c * (a * w ^ (e - 1 - i))) := ⟨_, rfl⟩
  have hqD : (q : RQ qs (slots * e)) * D = 0 := by
    have hQ : ((qs.prod : Nat) : RQ qs (slots * e)) = 0 := by
      rw [← map_natCast (AdjoinRoot.of (cyclo (ZMod qs.prod) (slots * e))), ZMod.natCast_self, map_zero]
    rw [hD, toR_sparse _ _ _ hs, mul_sum]
    apply sum_eq_zero
    intro i _
    have h3 : ((q * c : Nat) : RQ qs (slots * e)) = 0 := by rw [hqc, hQ]
    push_cast at h3 ⊢
    linear_combination (a * w ^ (e - 1 - i) * (AdjoinRoot.root _ ^ slots) ^ i) * h3
  rw [← hD] at hY ⊢
  obtain ⟨Y, hYd⟩ : ∃ Y, Y = AdjoinRoot.root (cyclo (ZMod qs.prod) (slots * e)) ^ slots := ⟨_, rfl⟩
  rw [← hYd] at hY
  have hpow : ∀ i, Y ^ i * D = (w : RQ qs (slots * e)) ^ i * D := by
    intro i
    induction i with
    | zero => simp
    | succ i ih => rw [pow_succ, mul_assoc, hY, mul_left_comm, ih]; ring
  have hev : ∀ f : Nat → Int, toR qs (slots * e) (sparse slots e f) * D =
      ((∑ i ∈ range e, f i * w ^ i : Int) : RQ qs (slots * e)) * D := by
    intro f
    rw [toR_sparse _ _ _ hs, ← hYd, sum_mul, Int.cast_sum, sum_mul]
    apply sum_congr rfl
    intro i _
    rw [mul_assoc, hpow]
    push_cast
    ring
  rw [hev, hev, ← sub_eq_zero, ← sub_mul, ← Int.cast_sub]
  obtain ⟨m, hm⟩ := hg
  rw [hm]
  push_cast
  linear_combination (m : RQ qs (slots * e)) * hqD

/-! ## Pigeonhole -/

theorem exists_large_fibre {α : Type} [Fintype α] {q : Nat} [NeZero q] (f : α → ZMod q) :
    ∃ v, ∃ S : Finset α, Fintype.card α ≤ q * S.card ∧ ∀ a ∈ S, f a = v := by
  classical
  suffices ∃ v, Fintype.card α ≤ q * (univ.filter fun a => f a = v).card by
    obtain ⟨v, hv⟩ := this
    exact ⟨v, _, hv, fun a ha => (mem_filter.1 ha).2⟩
  by_contra hn
  push Not at hn
  have h1 := card_eq_sum_card_fiberwise (s := (univ : Finset α)) (t := (univ : Finset (ZMod q))) (f := f)
    (fun _ _ => by simp)
  rw [card_univ] at h1
  have h2 : ∑ v : ZMod q, q * (univ.filter fun a => f a = v).card < ∑ _v : ZMod q, Fintype.card α :=
    sum_lt_sum_of_nonempty ⟨0, mem_univ _⟩ fun v _ => hn v
  rw [← mul_sum, sum_const, card_univ, ZMod.card, smul_eq_mul, ← h1] at h2
  omega

/-! ## Roots of unity and lists -/

/-- A prime `q` with `2e ∣ q - 1` has an `e`-th root of `-1`. -/
theorem exists_root_neg_one {q e : Nat} (hq : q.Prime) (he : 1 ≤ e) (h : 2 * e ∣ q - 1) :
    ∃ w : Int, (q : Int) ∣ w ^ e + 1 := by
  have : Fact q.Prime := ⟨hq⟩
  obtain ⟨g, hg⟩ := IsCyclic.exists_ofOrder_eq_natCard (α := (ZMod q)ˣ)
  rw [Nat.card_eq_fintype_card, ZMod.card_units] at hg
  obtain ⟨m, hm⟩ := h
  have hq2 := hq.two_le
  have hm0 : 1 ≤ m := by
    rcases Nat.eq_zero_or_pos m with h0 | h0
    · rw [h0, mul_zero] at hm; omega
    · exact h0
  have h1 : ((g : ZMod q) ^ (m * e)) ^ 2 = 1 := by
    rw [← pow_mul, show m * e * 2 = q - 1 by rw [hm]; ring, ← hg, ← Units.val_pow_eq_pow_val, pow_orderOf_eq_one,
      Units.val_one]
  have h2 : (g : ZMod q) ^ (m * e) ≠ 1 := by
    intro h3
    have h4 : g ^ (m * e) = 1 := by
      apply Units.ext
      rw [Units.val_pow_eq_pow_val, h3, Units.val_one]
    have h5 := Nat.le_of_dvd (Nat.mul_pos hm0 he) (orderOf_dvd_of_pow_eq_one h4)
    rw [hg, hm] at h5
    have : 1 ≤ m * e := Nat.mul_pos hm0 he
    rw [mul_assoc, mul_comm e m] at h5
    omega
  have h3 : (g : ZMod q) ^ (m * e) = -1 := by
    rcases mul_eq_zero.1 (show ((g : ZMod q) ^ (m * e) - 1) * ((g : ZMod q) ^ (m * e) + 1) = 0 by linear_combination h1) with h | h
    · exact absurd (sub_eq_zero.1 h) h2
    · exact eq_neg_of_add_eq_zero_left h
  refine ⟨(((g : ZMod q) ^ m).val : Nat), ?_⟩
  rw [← ZMod.intCast_zmod_eq_zero_iff_dvd]
  push_cast
  rw [ZMod.natCast_zmod_val, ← pow_mul, h3, neg_add_cancel]

theorem toR_range_add (qs : List Nat) (N : Nat) (f g : Nat → Int) :
    toR qs N ((List.range N).map fun t => f t + g t) =
      toR qs N ((List.range N).map f) + toR qs N ((List.range N).map g) := by
  unfold toR
  rw [List.map_map, List.map_map, List.map_map, listPoly_range, listPoly_range, listPoly_range, ← map_add,
    ← sum_add_distrib]
  congr 1
  apply sum_congr rfl
  intro i _
  simp only [Function.comp_apply, Int.cast_add, C_add, add_mul]

theorem coeffs_eq_range {z : List Int} {N : Nat} (h : z.length = N) : z = (List.range N).map fun t => z.getD t 0 :=
  h ▸ list_eq_range z

/-- Representatives are unique. -/
theorem RepRange.unique {qs : List Nat} {a b : Int} (ha : RepRange qs a) (hb : RepRange qs b)
    (h : (qs.prod : Int) ∣ a - b) : a = b := by
  have := Int.eq_zero_of_abs_lt_dvd h (ha.sub_lt hb)
  omega

theorem reps_unique {qs : List Nat} (hc : Chain qs) {N : Nat} (hN : 1 ≤ N) {u w : List Int} (hu : u.length = N)
    (hw : w.length = N) (h : toR qs N u = toR qs N w) (hu2 : ∀ c ∈ u, RepRange qs c) (hw2 : ∀ c ∈ w, RepRange qs c) :
    u = w := by
  have h1 := toR_inj hc hN hu hw h
  clear h hu hw
  induction h1 with
  | nil => rfl
  | cons h2 _ ih =>
    rw [RepRange.unique (hu2 _ (by simp)) (hw2 _ (by simp)) h2,
      ih (fun c hc => hu2 c (by simp [hc])) (fun c hc => hw2 c (by simp [hc]))]

end Ringo
