import Verif.Model.Digits
import Mathlib.Data.Nat.Log
import Mathlib.Data.Nat.Bitwise
import Mathlib.Algebra.BigOperators.Group.List.Basic
import Mathlib.Tactic.Ring
import Mathlib.Tactic.Linarith

/-!
# C23, C24: norm digits
-/

namespace Ringo

/-- Recombination of digits: `Σ d_i b_i`. -/
def recombine (ds : List Int) (bs : List Nat) : Int :=
  (List.zipWith (fun (d : Int) (b : Nat) => d * b) ds bs).sum

/-! ### The base -/

theorem trailing_pow_iff (x : Nat) : 1 <<< trailingZeroBits x = x ↔ ∃ k, x = 2 ^ k := by
  rw [Nat.one_shiftLeft]
  constructor
  · intro h; exact ⟨_, h.symm⟩
  · rintro ⟨k, rfl⟩
    congr 1
    induction k with
    | zero => rw [trailingZeroBits]; simp
    | succ k ih =>
      have hp := Nat.two_pow_pos k
      rw [trailingZeroBits, if_neg (by positivity), Nat.pow_succ', if_neg (by omega),
        Nat.mul_div_cancel_left _ (by omega), ih]

theorem half_up (b : Nat) : (b >>> 1) + (b &&& 1) = (b + 1) / 2 := by
  rw [Nat.shiftRight_eq_div_pow, Nat.and_one_is_mod]; omega

/-- After `n` turns the remainder `x - Σ base` is `x / 2^n`, and the digits are the rounded-up
halves of the remainders. -/
theorem dcmp_loop (x n : Nat) :
    ∃ base : List Nat, (List.range n).foldl (fun base _ => dcmpStep x base) [] = base ∧
      base = (List.range n).map (fun i => (x / 2 ^ i + 1) / 2) ∧ base.sum + x / 2 ^ n = x := by
  induction n with
  | zero => exact ⟨[], rfl, rfl, by simp⟩
  | succ n ih =>
    obtain ⟨base, h1, h2, h3⟩ := ih
    have h4 : x - base.sum = x / 2 ^ n := by
      generalize x / 2 ^ n = y at h3 ⊢; omega
    refine ⟨base ++ [(x / 2 ^ n + 1) / 2], ?_, ?_, ?_⟩
    · rw [List.range_succ, List.foldl_append, h1]
      simp only [List.foldl_cons, List.foldl_nil, dcmpStep]
      rw [half_up, h4]
    · rw [List.range_succ, List.map_append, ← h2]; rfl
    · rw [List.sum_append, List.sum_singleton, Nat.pow_succ, ← Nat.div_div_eq_div_mul]
      generalize x / 2 ^ n = y at h3 ⊢; omega

theorem bitLen_spec (x : Nat) (hx : x ≠ 0) : 2 ^ (bitLen x - 1) ≤ x ∧ x < 2 ^ bitLen x := by
  unfold bitLen
  rw [if_neg hx, Nat.add_sub_cancel]
  exact ⟨Nat.log2_self_le hx, Nat.lt_log2_self⟩

/-- What `decomposeBase` returns: the digits are positive, every digit is at most one more than
the sum of the later ones, and they sum to `x` (to `x - 1` for a power of two). -/
inductive GoodBase : List Nat → Prop
  | last : GoodBase [1]
  | cons {b bs} (h1 : 1 ≤ b) (h2 : b ≤ bs.sum + 1) (h3 : GoodBase bs) : GoodBase (b :: bs)

theorem goodBase_of (x n : Nat) (bs : List Nat) (hb : GoodBase bs)
    (hlo : x / 2 ^ n ≤ bs.sum + 1) (hev : ∀ i < n, x / 2 ^ n = bs.sum + 1 → x / 2 ^ i % 2 = 0)
    (hle : bs.sum ≤ x / 2 ^ n) (hpos : ∀ i < n, 1 ≤ x / 2 ^ i) :
    GoodBase ((List.range n).map (fun i => (x / 2 ^ i + 1) / 2) ++ bs) ∧
      ((List.range n).map (fun i => (x / 2 ^ i + 1) / 2) ++ bs).sum + (x / 2 ^ n - bs.sum) = x := by
  induction n generalizing bs with
  | zero => simp at *; exact ⟨hb, by omega⟩
  | succ n ih =>
    rw [List.range_succ, List.map_append, List.append_assoc]
    have hdiv : x / 2 ^ (n + 1) = x / 2 ^ n / 2 := by rw [Nat.pow_succ, Nat.div_div_eq_div_mul]
    have hp := hpos n (by omega)
    have hev' := hev n (by omega)
    set y := x / 2 ^ n with hy
    have hgb : GoodBase ((y + 1) / 2 :: bs) := by
      refine .cons (by omega) ?_ hb
      by_cases hc : x / 2 ^ (n + 1) = bs.sum + 1
      · have := hev' hc; omega
      · omega
    have hsum : ((y + 1) / 2 :: bs).sum = (y + 1) / 2 + bs.sum := by simp
    have := ih ((y + 1) / 2 :: bs) hgb
      (by
        rw [hsum]
        by_cases hc : x / 2 ^ (n + 1) = bs.sum + 1
        · have := hev' hc; omega
        · omega)
      (by
        intro i hi hc
        rw [hsum] at hc
        have hc' : x / 2 ^ (n + 1) = bs.sum + 1 := by omega
        exact hev i (by omega) hc')
      (by rw [hsum]; omega) (fun i hi => hpos i (by omega))
    refine ⟨this.1, ?_⟩
    have h2 := this.2
    rw [hsum] at h2
    simp only [List.map_cons, List.map_nil, List.singleton_append, ← hy]
    rw [hdiv]
    generalize (List.map (fun i => (x / 2 ^ i + 1) / 2) (List.range n) ++ (y + 1) / 2 :: bs).sum = S at h2 ⊢
    omega

theorem not_pow_between {x k : Nat} (h1 : 2 ^ k < x) (h2 : x < 2 ^ (k + 1)) : ¬ ∃ j, x = 2 ^ j := by
  rintro ⟨j, rfl⟩
  have := (Nat.pow_lt_pow_iff_right (by decide : 1 < 2)).1 h1
  have := (Nat.pow_lt_pow_iff_right (by decide : 1 < 2)).1 h2
  omega

theorem decomposeBase_spec (x : Nat) (hx : 2 ≤ x) :
    ∃ base, decomposeBase x = .ok base ∧ GoodBase base ∧
      ((¬ ∃ k, x = 2 ^ k) → base.sum = x) ∧ ((∃ k, x = 2 ^ k) → base.sum = x - 1) := by
  obtain ⟨hb1, hb2⟩ := bitLen_spec x (by omega)
  obtain ⟨k, hk⟩ : ∃ k, bitLen x = k + 1 := ⟨bitLen x - 1, by unfold bitLen; rw [if_neg (by omega)]; omega⟩
  rw [hk, Nat.add_sub_cancel] at hb1
  rw [hk] at hb2
  have hk1 : 1 ≤ k := by
    by_contra hc
    have : k = 0 := by omega
    subst this
    simp at hb2; omega
  by_cases hp : ∃ j, x = 2 ^ j
  · -- power of two
    obtain ⟨j, rfl⟩ := hp
    have hjk : j = k := by
      have h1 := (Nat.pow_le_pow_iff_right (by decide : 1 < 2)).1 hb1
      have h2 := (Nat.pow_lt_pow_iff_right (by decide : 1 < 2)).1 hb2
      omega
    subst hjk
    have hlen : dcmpLen (2 ^ j) = j := by
      unfold dcmpLen
      rw [if_pos ((trailing_pow_iff _).2 ⟨j, rfl⟩), hk]; rfl
    obtain ⟨base, e1, e2, -⟩ := dcmp_loop (2 ^ j) (j - 1)
    have hdiv : ∀ i ≤ j, 2 ^ j / 2 ^ i = 2 ^ (j - i) := fun i hi => Nat.pow_div hi (by decide)
    have h21 : 2 ^ j / 2 ^ (j - 1) = 2 := by rw [hdiv _ (by omega), show j - (j - 1) = 1 by omega]; rfl
    have g := goodBase_of (2 ^ j) (j - 1) [1] .last (by rw [h21]; rfl)
      (by
        intro i hi _
        rw [hdiv i (by omega), show j - i = (j - i - 1) + 1 by omega, Nat.pow_succ]; omega)
      (by rw [h21]; decide)
      (by intro i hi; rw [hdiv i (by omega)]; exact Nat.one_le_two_pow)
    refine ⟨base ++ [1], ?_, ?_, fun h => absurd ⟨j, rfl⟩ h, fun _ => ?_⟩
    · unfold decomposeBase
      simp only [hlen, e1]
      rw [if_neg (by omega)]; rfl
    · rw [e2]; exact g.1
    · rw [e2]
      have := g.2
      rw [h21] at this
      simp only [List.sum_singleton] at this
      omega
  · have hlen : dcmpLen x = k + 1 := by
      unfold dcmpLen
      rw [if_neg (fun h => hp ((trailing_pow_iff _).1 h)), hk]
    obtain ⟨base, e1, e2, -⟩ := dcmp_loop x k
    have h1 : x / 2 ^ k = 1 := by
      apply Nat.div_eq_of_lt_le
      · omega
      · rw [Nat.pow_succ] at hb2; omega
    have g := goodBase_of x k [1] .last (by rw [h1]; decide) (by rw [h1]; intro i _ h; simp at h)
      (by rw [h1]; decide)
      (by
        intro i hi
        apply Nat.div_pos _ (Nat.two_pow_pos i)
        exact le_trans (Nat.pow_le_pow_right (by decide) (by omega)) hb1)
    refine ⟨base ++ [1], ?_, ?_, fun _ => ?_, fun h => absurd h hp⟩
    · unfold decomposeBase
      simp only [hlen, Nat.add_sub_cancel, e1]
      rw [if_neg (by omega)]; rfl
    · rw [e2]; exact g.1
    · rw [e2]
      have := g.2
      rw [h1] at this
      simpa using this

/-! ### The greedy digits -/

theorem greedy_length (x : Int) (bs : List Nat) : (greedy x bs).length = bs.length := by
  induction bs generalizing x with
  | nil => rfl
  | cons b bs ih => unfold greedy; split_ifs <;> simp [ih]

theorem greedy_digit (x : Int) (bs : List Nat) : ∀ d ∈ greedy x bs, d = -1 ∨ d = 0 ∨ d = 1 := by
  induction bs generalizing x with
  | nil => simp [greedy]
  | cons b bs ih =>
    unfold greedy
    split_ifs
    all_goals
      intro d hd
      rcases List.mem_cons.1 hd with rfl | hd
      · simp
      · exact ih _ d hd

theorem greedy_digit_nonneg (x : Int) (bs : List Nat) (hx : 0 ≤ x) (hb : ∀ b ∈ bs, 1 ≤ b) :
    ∀ d ∈ greedy x bs, d = 0 ∨ d = 1 := by
  induction bs generalizing x with
  | nil => simp [greedy]
  | cons b bs ih =>
    have hb1 := hb b (by simp)
    unfold greedy
    split_ifs with h1 h2
    · intro d hd
      rcases List.mem_cons.1 hd with rfl | hd
      · simp
      · exact ih _ (by omega) (fun c hc => hb c (by simp [hc])) d hd
    · omega
    · intro d hd
      rcases List.mem_cons.1 hd with rfl | hd
      · simp
      · exact ih _ hx (fun c hc => hb c (by simp [hc])) d hd

theorem goodBase_pos {bs : List Nat} (h : GoodBase bs) : ∀ b ∈ bs, 1 ≤ b := by
  induction h with
  | last => simp
  | cons h1 _ _ ih => intro c hc; rcases List.mem_cons.1 hc with rfl | hc; exacts [h1, ih c hc]

theorem greedy_recombine {bs : List Nat} (h : GoodBase bs) (x : Int) (hx : |x| ≤ bs.sum) :
    recombine (greedy x bs) bs = x := by
  induction h generalizing x with
  | last =>
    have hx' : |x| ≤ 1 := by simpa using hx
    rw [abs_le] at hx'
    have : x = -1 ∨ x = 0 ∨ x = 1 := by omega
    rcases this with rfl | rfl | rfl <;> decide
  | @cons b bs h1 h2 h3 ih =>
    rw [List.sum_cons, abs_le] at hx
    push_cast at hx
    unfold greedy
    split_ifs with c1 c2
    · have := ih (x - b) (by rw [abs_le]; omega)
      simp only [recombine, List.zipWith_cons_cons, List.sum_cons] at this ⊢
      omega
    · have := ih (x + b) (by rw [abs_le]; omega)
      simp only [recombine, List.zipWith_cons_cons, List.sum_cons] at this ⊢
      omega
    · have := ih x (by rw [abs_le]; omega)
      simp only [recombine, List.zipWith_cons_cons, List.sum_cons] at this ⊢
      omega

theorem recombine_bound (ds : List Int) (bs : List Nat) (hd : ∀ d ∈ ds, d = -1 ∨ d = 0 ∨ d = 1) :
    |recombine ds bs| ≤ bs.sum := by
  induction ds generalizing bs with
  | nil => simp [recombine]
  | cons d ds ih =>
    cases bs with
    | nil => simp [recombine]
    | cons b bs =>
      have := ih bs (fun e he => hd e (by simp [he]))
      simp only [recombine, List.zipWith_cons_cons, List.sum_cons] at this ⊢
      rw [abs_le] at this ⊢
      push_cast
      rcases hd d (by simp) with rfl | rfl | rfl <;> omega

theorem recombine_bound_nonneg (ds : List Int) (bs : List Nat) (hd : ∀ d ∈ ds, d = 0 ∨ d = 1) :
    0 ≤ recombine ds bs := by
  induction ds generalizing bs with
  | nil => simp [recombine]
  | cons d ds ih =>
    cases bs with
    | nil => simp [recombine]
    | cons b bs =>
      have := ih bs (fun e he => hd e (by simp [he]))
      simp only [recombine, List.zipWith_cons_cons, List.sum_cons] at this ⊢
      rcases hd d (by simp) with rfl | rfl <;> omega

/-! ### C23 -/

theorem dcmp_signed (B : Nat) (hB : 2 ≤ B) (q x : Nat)
    (hx : |signedRep x q| ≤ B) (hpow : (∃ k, B = 2 ^ k) → |signedRep x q| ≠ B) :
    ∃ base, decomposeBase B = .ok base ∧
      (decomposeBig x base q).length = base.length ∧
      (∀ d ∈ decomposeBig x base q, d = -1 ∨ d = 0 ∨ d = 1) ∧
      recombine (decomposeBig x base q) base = signedRep x q := by
  obtain ⟨base, h1, h2, h3, h4⟩ := decomposeBase_spec B hB
  refine ⟨base, h1, greedy_length _ _, greedy_digit _ _, greedy_recombine h2 _ ?_⟩
  by_cases hp : ∃ k, B = 2 ^ k
  · have := h4 hp; have := hpow hp; omega
  · rw [h3 hp]; exact hx

theorem signedRep_of {q x : Nat} {z : Int} (hz : 2 * |z| < q) (hx : (x : Int) = z % q) :
    signedRep x q = z := by
  have h1 := neg_abs_le z
  have h2 := le_abs_self z
  unfold signedRep
  by_cases h : 0 ≤ z
  · rw [Int.emod_eq_of_lt h (by omega)] at hx
    rw [if_neg (by omega)]; exact hx
  · have h3 : z % q = z + q := by
      rw [← Int.add_emod_right, Int.emod_eq_of_lt (by omega) (by omega)]
    rw [h3] at hx
    rw [if_pos (by omega)]; omega

/-- **C23**, the part that holds.  For every bound `B ≥ 2` that is not a power of two and every
value `z` of absolute value at most `B` - and for a power of two, at most `B - 1` - given as its
residue `x` modulo `q`, the prover's digits are in `{-1,0,1}` and recombine to the value.  Missing: `|x| = B` for powers of two, see
`C23_refuted`. -/
theorem C23_partial (B : Nat) (hB : 2 ≤ B) (q x : Nat) (z : Int) (hz : |z| ≤ B) (hq : 2 * |z| < q)
    (hx : (x : Int) = z % q) (hpow : (∃ k, B = 2 ^ k) → |z| ≠ B) :
    ∃ base, decomposeBase B = .ok base ∧
      (decomposeBig x base q).length = base.length ∧
      (∀ d ∈ decomposeBig x base q, d = -1 ∨ d = 0 ∨ d = 1) ∧
      recombine (decomposeBig x base q) base = z := by
  have h := signedRep_of hq hx
  have := dcmp_signed B hB q x (by rw [h]; exact hz) (by rw [h]; exact hpow)
  rwa [h] at this

/-- **C23** fails for every power of two: no digits in `{-1,0,1}` whatsoever recombine to the
bound itself, so the honest prover cannot prove the allowed value `B` (nor `-B`). -/
theorem C23_refuted (k : Nat) (hk : 1 ≤ k) (base : List Nat)
    (hb : decomposeBase (2 ^ k) = .ok base) (ds : List Int)
    (hd : ∀ d ∈ ds, d = -1 ∨ d = 0 ∨ d = 1) :
    recombine ds base ≠ 2 ^ k ∧ recombine ds base ≠ -2 ^ k := by
  have h2 : 2 ≤ 2 ^ k := by
    calc 2 = 2 ^ 1 := rfl
      _ ≤ 2 ^ k := Nat.pow_le_pow_right (by decide) hk
  obtain ⟨base', h1, -, -, h4⟩ := decomposeBase_spec (2 ^ k) h2
  rw [hb] at h1; cases h1
  have h5 := recombine_bound ds base hd
  rw [h4 ⟨k, rfl⟩, abs_le] at h5
  push_cast [show 1 ≤ 2 ^ k by omega] at h5
  constructor <;> omega

/-- **C23**: bounds 0 and 1, which `AddSqNormConstraintBig` and `AddApproxInfNormConstraintBig`
do not treat separately, panic. -/
theorem C23_small_bounds_panic : decomposeBase 0 = .error .panic ∧ decomposeBase 1 = .error .panic := by
  decide +kernel

/-- Non-vacuity: base of 10 is `5,3,1,1`; of 8 it is `4,2,1`. -/
example : decomposeBase 10 = .ok [5, 3, 1, 1] ∧ decomposeBase 8 = .ok [4, 2, 1] ∧
    decomposeBig (17 - 9) [5, 3, 1, 1] 17 = [1, 1, 0, 0] ∧
    decomposeBig (17 - 7) [5, 3, 1, 1] 17 = [-1, 0, -1, -1] := by decide +kernel

/-! ### C24 -/

/-- **C24**.  Whatever the digits, they cannot express a value beyond the bound. -/
theorem C24_digits_bounded (B : Nat) (base : List Nat) (hb : decomposeBase B = .ok base)
    (ds : List Int) :
    ((∀ d ∈ ds, d = -1 ∨ d = 0 ∨ d = 1) → |recombine ds base| ≤ B) ∧
    ((∀ d ∈ ds, d = 0 ∨ d = 1) → 0 ≤ recombine ds base ∧ recombine ds base ≤ B) := by
  have hB : 2 ≤ B := by
    by_contra hc
    have : B = 0 ∨ B = 1 := by omega
    rcases this with rfl | rfl
    · rw [C23_small_bounds_panic.1] at hb; cases hb
    · rw [C23_small_bounds_panic.2] at hb; cases hb
  obtain ⟨base', h1, -, h3, h4⟩ := decomposeBase_spec B hB
  rw [hb] at h1; cases h1
  have hsum : base.sum ≤ B := by
    by_cases hp : ∃ k, B = 2 ^ k
    · have := h4 hp; omega
    · have := h3 hp; omega
  constructor
  · intro hd
    have := recombine_bound ds base hd
    omega
  · intro hd
    have h5 := recombine_bound ds base (fun d h => Or.inr (hd d h))
    have h6 := recombine_bound_nonneg ds base hd
    rw [abs_le] at h5
    exact ⟨h6, by omega⟩

/-- Non-vacuity. -/
example : recombine [1, -1, 1, 0] [5, 3, 1, 1] = 3 := by decide

end Ringo
