import Verif.Model.FieldInv
import Mathlib.Tactic.Ring
import Mathlib.Tactic.Linarith
import Mathlib.Tactic.LinearCombination
import Mathlib.Algebra.Order.Group.Unbundled.Int

/-!
# The inner loop of `Inverse`

The loop works on approximations; the invariant relates them to the true values `x`, `y` the update factors
give.  `S` is the scale of the approximation, `E` a bound for its error and `L` the least number with as many
bits as `max a b`.
-/

namespace Ringo

namespace FieldPkg

/-- The invariant after `j` passes, `d` passes before the end, with the update factors and the true values. -/
def GcdWit (a b S E L : Int) (j d : Nat) (s : GcdApprox) (f0 g0 f1 g1 x y : Int) : Prop :=
    (s.c0 = BitVec.ofInt 64 (f0 + 2 ^ 32 * g0) ∧ s.c1 = BitVec.ofInt 64 (f1 + 2 ^ 32 * g1)) ∧
    ((-2 ^ j < f0 ∧ f0 ≤ 2 ^ j) ∧ (-2 ^ j < g0 ∧ g0 ≤ 2 ^ j) ∧
      (-2 ^ j < f1 ∧ f1 ≤ 2 ^ j) ∧ (-2 ^ j < g1 ∧ g1 ≤ 2 ^ j)) ∧
    (|f0| + |g0| ≤ 2 ^ j ∧ |f1| + |g1| ≤ 2 ^ j) ∧
    (f0 * a + g0 * b = 2 ^ j * x ∧ f1 * a + g1 * b = 2 ^ j * y) ∧
    ((2 ^ d : Int) ∣ x - s.aA ∧ (2 ^ d : Int) ∣ y - s.bA ∧ y % 2 = 1 ∧ s.bA % 2 = 1) ∧
    (|x - S * s.aA| < E ∧ |y - S * s.bA| < E) ∧
    (L ≤ max |x| |y| → |x| + |y| ≤ a + b ∧ (0 < j → a ≠ 0 → |x| + |y| < a + b)) ∧
    (j = 0 → x = a) ∧ (a = 0 → s.aA = 0 ∧ x = 0) ∧ s.aA < 2 ^ 64 ∧ s.bA < 2 ^ 64

/-- The invariant after `j` passes, `d` passes before the end. -/
def GcdInv (a b S E L : Int) (j d : Nat) (s : GcdApprox) : Prop :=
  ∃ f0 g0 f1 g1 x y : Int, GcdWit a b S E L j d s f0 g0 f1 g1 x y

theorem ofInt_double (c : Int) : BitVec.ofInt 64 c * 2 = BitVec.ofInt 64 (2 * c) := by
  rw [Int.mul_comm, BitVec.ofInt_mul]; rfl

theorem ofInt_sub' (c d : Int) : BitVec.ofInt 64 c - BitVec.ofInt 64 d = BitVec.ofInt 64 (c - d) := by
  rw [Int.sub_eq_add_neg, BitVec.ofInt_add, BitVec.ofInt_neg, BitVec.sub_eq_add_neg]

/-- The decrease of `|x| + |y|` in a pass that subtracts: `x` is compared with `y` up to an error. -/
theorem gcd_decrease {x y E L : Int} (hE : E = 1 ∨ 4 * E ≤ L) (hE0 : 0 < E) (hx0 : x ≠ 0) (hx : -E < x)
    (hy : -E < y) (hcmp : y - x < 2 * E) (hex : E = 1 → y ≤ x) (hL : L ≤ max |x| |y|) :
    |x - y| < 2 * |x| := by
  rcases abs_cases x with ⟨e1, _⟩ | ⟨e1, _⟩ <;> rcases abs_cases y with ⟨e2, _⟩ | ⟨e2, _⟩ <;>
    rcases abs_cases (x - y) with ⟨e3, _⟩ | ⟨e3, _⟩ <;> rw [e1, e2] at hL <;> rw [e1, e3] <;>
    rcases hE with h | h <;> rcases le_max_iff.1 hL with h' | h' <;> (try have := hex h) <;> omega

theorem dvd_two_of_pow {d : Nat} {z : Int} (h : (2 ^ (d + 1) : Int) ∣ z) : (2 : Int) ∣ z :=
  (dvd_pow_self 2 (Nat.succ_ne_zero d)).trans h

theorem abs_half_le {e E : Int} (h : |2 * e| < E) : |e| < E := by
  rw [abs_mul, abs_two] at h
  have := abs_nonneg e
  omega

theorem gcdWit_even {a b S E L : Int} {j d : Nat} {s : GcdApprox} {f0 g0 f1 g1 x y : Int}
    (hev : s.aA % 2 = 0) (h : GcdWit a b S E L j (d + 1) s f0 g0 f1 g1 x y) :
    ∃ x', x = 2 * x' ∧ GcdWit a b S E L (j + 1) d (gcdStep s) f0 g0 (2 * f1) (2 * g1) x' y := by
  obtain ⟨⟨c0, c1⟩, ⟨⟨l1, u1⟩, ⟨l2, u2⟩, ⟨l3, u3⟩, l4, u4⟩, ⟨r0, r1⟩, ⟨e0, e1⟩,
    ⟨hx, hy, hodd, hbo⟩, ⟨k0, k1⟩, hdec, h0, hz, lt0, lt1⟩ := h
  have hst : gcdStep s = { aA := s.aA / 2, bA := s.bA, c0 := s.c0, c1 := s.c1 * 2 } := by
    unfold gcdStep
    rw [if_pos (by rw [Nat.and_one_is_mod]; exact hev)]
  obtain ⟨A, hA⟩ : ∃ A : Nat, s.aA = 2 * A := ⟨s.aA / 2, by omega⟩
  have hA2 : s.aA / 2 = A := by omega
  have hx2 : (2 : Int) ∣ x := by
    have := dvd_two_of_pow hx
    rw [hA] at this
    omega
  obtain ⟨x', rfl⟩ := hx2
  have hp : (0 : Int) < 2 ^ j := by positivity
  rw [hst]
  refine ⟨x', rfl, ⟨c0, ?_⟩, ?_, ?_, ⟨?_, ?_⟩, ⟨?_, ?_, hodd, hbo⟩, ⟨?_, ?_⟩, ?_, ?_, ?_,
    ?_, lt1⟩
  · simp only; rw [c1, ofInt_double]; congr 1; ring
  · rw [pow_succ]; refine ⟨⟨?_, ?_⟩, ⟨?_, ?_⟩, ⟨?_, ?_⟩, ?_, ?_⟩ <;> linarith
  · rw [abs_mul, abs_mul, abs_two, pow_succ]; constructor <;> linarith
  · rw [e0]; ring
  · linear_combination 2 * e1
  · obtain ⟨k, hk⟩ := hx
    refine ⟨k, ?_⟩
    simp only
    rw [hA2]
    rw [hA] at hk
    push_cast at hk
    rw [pow_succ] at hk
    have : 2 * (x' - A) = 2 * (2 ^ d * k) := by linear_combination hk
    exact mul_left_cancel₀ two_ne_zero this
  · exact (pow_dvd_pow 2 (Nat.le_succ d)).trans hy
  · apply abs_half_le
    simp only
    rw [hA2]
    rw [hA] at k0
    push_cast at k0
    rwa [show 2 * (x' - S * (A : Int)) = 2 * x' - S * (2 * A) by ring]
  · exact k1
  · intro hL
    rw [abs_mul, abs_two] at hdec
    have hn := abs_nonneg x'
    have hL' : L ≤ max (2 * |x'|) |y| := hL.trans (max_le_max (by omega) le_rfl)
    obtain ⟨d1, d2⟩ := hdec hL'
    refine ⟨by omega, fun _ ha => ?_⟩
    rcases Nat.eq_zero_or_pos j with hj | hj
    · have hx0 : x' ≠ 0 := by
        intro h; rw [h] at h0; exact ha (by have := h0 hj; omega)
      have := abs_pos.2 hx0
      omega
    · have := d2 hj ha
      omega
  · intro h; omega
  · intro ha
    obtain ⟨h1, h2⟩ := hz ha
    exact ⟨by simp only; omega, by omega⟩
  · simp only; omega

theorem half_cong {d : Nat} {x y : Int} {A B C : Nat} {x' : Int} (hx : (2 ^ (d + 1) : Int) ∣ x - A)
    (hy : (2 ^ (d + 1) : Int) ∣ y - B) (h' : x - y = 2 * x') (hC : (A : Int) - B = 2 * C) :
    (2 ^ d : Int) ∣ x' - C := by
  have h3 := dvd_sub hx hy
  obtain ⟨k, hk⟩ := h3
  refine ⟨k, ?_⟩
  rw [pow_succ] at hk
  have : 2 * (x' - C) = 2 * (2 ^ d * k) := by linear_combination hk - h' + hC
  exact mul_left_cancel₀ two_ne_zero this

theorem half_err {x y S E : Int} {A B C : Nat} {x' : Int} (hx : |x - S * A| < E) (hy : |y - S * B| < E)
    (h' : x - y = 2 * x') (hC : (A : Int) - B = 2 * C) : |x' - S * C| < E := by
  have e : 2 * (x' - S * C) = (x - S * A) - (y - S * B) := by linear_combination -h' + S * hC
  rw [abs_lt] at *
  constructor <;> nlinarith

theorem gcdWit_odd {a b S E L : Int} {j d : Nat} {s : GcdApprox} {f0 g0 f1 g1 x y : Int}
    (hE : E = 1 ∨ 4 * E ≤ L) (hE0 : 0 < E) (hS : 0 ≤ S) (hS1 : E = 1 → S = 1) (hev : s.aA % 2 = 1)
    (h : GcdWit a b S E L j (d + 1) s f0 g0 f1 g1 x y) :
    x % 2 = 1 ∧
    ((s.aA < s.bA ∧ ∃ x', y - x = 2 * x' ∧
      GcdWit a b S E L (j + 1) d (gcdStep s) (f1 - f0) (g1 - g0) (2 * f0) (2 * g0) x' x) ∨
    ¬ s.aA < s.bA ∧ ∃ x', x - y = 2 * x' ∧
      GcdWit a b S E L (j + 1) d (gcdStep s) (f0 - f1) (g0 - g1) (2 * f1) (2 * g1) x' y) := by
  obtain ⟨⟨c0, c1⟩, ⟨⟨l1, u1⟩, ⟨l2, u2⟩, ⟨l3, u3⟩, l4, u4⟩, ⟨r0, r1⟩, ⟨e0, e1⟩,
    ⟨hx, hy, hodd, hbo⟩, ⟨k0, k1⟩, hdec, h0, hz, lt0, lt1⟩ := h
  have hp : (0 : Int) < 2 ^ j := by positivity
  have ha : a ≠ 0 := by
    intro ha
    have := (hz ha).1
    omega
  have hxo : x % 2 = 1 := by
    have := dvd_two_of_pow hx
    omega
  have hx0 : x ≠ 0 := by omega
  have hy0 : y ≠ 0 := by omega
  have tri : |f0 - f1| + |g0 - g1| ≤ 2 ^ j * 2 := by
    have t1 := abs_sub f0 f1
    have t2 := abs_sub g0 g1
    linarith
  have tri' : |f1 - f0| + |g1 - g0| ≤ 2 ^ j * 2 := by rwa [abs_sub_comm f1, abs_sub_comm g1]
  have exE : E = 1 → x = s.aA ∧ y = s.bA := by
    intro h1
    rw [h1, abs_lt] at k0 k1
    rw [hS1 h1] at k0 k1
    omega
  have K0 := abs_lt.1 k0
  have K1 := abs_lt.1 k1
  have nx : -E < x := by
    have : 0 ≤ S * (s.aA : Int) := mul_nonneg hS (by omega)
    omega
  have ny : -E < y := by
    have : 0 ≤ S * (s.bA : Int) := mul_nonneg hS (by omega)
    omega
  refine ⟨hxo, ?_⟩
  by_cases hlt : s.aA < s.bA
  · -- the values are exchanged
    obtain ⟨C, hC⟩ : ∃ C : Nat, s.bA = s.aA + 2 * C := ⟨(s.bA - s.aA) / 2, by omega⟩
    have hst : gcdStep s = { aA := C, bA := s.aA, c0 := s.c1 - s.c0, c1 := s.c0 * 2 } := by
      unfold gcdStep
      rw [if_neg (by rw [Nat.and_one_is_mod]; omega)]
      simp only [sub64, Nat.add_zero, if_pos hlt, if_true]
      congr 1
      omega
    obtain ⟨x', hx'⟩ : ∃ x', y - x = 2 * x' := ⟨(y - x) / 2, by omega⟩
    have hC' : (s.bA : Int) - s.aA = 2 * C := by rw [hC]; push_cast; ring
    rw [hst]
    refine Or.inl ⟨hlt, x', hx', ⟨?_, ?_⟩, ?_, ⟨?_, ?_⟩, ⟨?_, ?_⟩, ⟨?_, ?_, hxo, hev⟩,
      ⟨?_, ?_⟩, ?_, ?_, ?_, ?_, lt0⟩
    · simp only; rw [c0, c1, ofInt_sub']; congr 1; ring
    · simp only; rw [c0, ofInt_double]; congr 1; ring
    · rw [pow_succ]; refine ⟨⟨?_, ?_⟩, ⟨?_, ?_⟩, ⟨?_, ?_⟩, ?_, ?_⟩ <;> linarith
    · rw [pow_succ]; exact tri'
    · rw [abs_mul, abs_mul, abs_two, pow_succ]; linarith
    · linear_combination e1 - e0 + 2 ^ j * hx'
    · linear_combination 2 * e0
    · exact half_cong hy hx hx' hC'
    · exact (pow_dvd_pow 2 (Nat.le_succ d)).trans hx
    · exact half_err k1 k0 hx' hC'
    · exact k0
    · intro hL
      have hh : |y - x| = 2 * |x'| := by rw [hx', abs_mul, abs_two]
      have hm : |x'| ≤ max |x| |y| := by
        have := abs_sub y x
        rcases le_total |x| |y| with h | h
        · rw [max_eq_right h]; omega
        · rw [max_eq_left h]; omega
      have hL' : L ≤ max |x| |y| := hL.trans (max_le hm (le_max_left _ _))
      have hcmp : x - y < 2 * E := by
        have : 0 ≤ S * ((s.bA : Int) - s.aA) := mul_nonneg hS (by omega)
        have e : S * ((s.bA : Int) - s.aA) = S * s.bA - S * s.aA := by ring
        omega
      have := gcd_decrease hE hE0 hy0 ny nx hcmp (fun h1 => by have := exE h1; omega)
        (by rwa [max_comm])
      obtain ⟨d1, _⟩ := hdec hL'
      exact ⟨by omega, fun _ _ => by omega⟩
    · intro h; omega
    · intro h; exact absurd h ha
    · simp only; omega
  · obtain ⟨C, hC⟩ : ∃ C : Nat, s.aA = s.bA + 2 * C := ⟨(s.aA - s.bA) / 2, by omega⟩
    have hst : gcdStep s = { aA := C, bA := s.bA, c0 := s.c0 - s.c1, c1 := s.c1 * 2 } := by
      unfold gcdStep
      rw [if_neg (by rw [Nat.and_one_is_mod]; omega)]
      simp only [sub64, Nat.add_zero, if_neg hlt]
      rw [if_neg (by decide)]
      congr 1
      omega
    obtain ⟨x', hx'⟩ : ∃ x', x - y = 2 * x' := ⟨(x - y) / 2, by omega⟩
    have hC' : (s.aA : Int) - s.bA = 2 * C := by rw [hC]; push_cast; ring
    rw [hst]
    refine Or.inr ⟨hlt, x', hx', ⟨?_, ?_⟩, ?_, ⟨?_, ?_⟩, ⟨?_, ?_⟩, ⟨?_, ?_, hodd, hbo⟩,
      ⟨?_, ?_⟩, ?_, ?_, ?_, ?_, lt1⟩
    · simp only; rw [c0, c1, ofInt_sub']; congr 1; ring
    · simp only; rw [c1, ofInt_double]; congr 1; ring
    · rw [pow_succ]; refine ⟨⟨?_, ?_⟩, ⟨?_, ?_⟩, ⟨?_, ?_⟩, ?_, ?_⟩ <;> linarith
    · rw [pow_succ]; exact tri
    · rw [abs_mul, abs_mul, abs_two, pow_succ]; linarith
    · linear_combination e0 - e1 + 2 ^ j * hx'
    · linear_combination 2 * e1
    · exact half_cong hx hy hx' hC'
    · exact (pow_dvd_pow 2 (Nat.le_succ d)).trans hy
    · exact half_err k0 k1 hx' hC'
    · exact k1
    · intro hL
      have hh : |x - y| = 2 * |x'| := by rw [hx', abs_mul, abs_two]
      have hm : |x'| ≤ max |x| |y| := by
        have := abs_sub x y
        rcases le_total |x| |y| with h | h
        · rw [max_eq_right h]; omega
        · rw [max_eq_left h]; omega
      have hL' : L ≤ max |x| |y| := hL.trans (max_le hm (le_max_right _ _))
      have hcmp : y - x < 2 * E := by
        have : 0 ≤ S * ((s.aA : Int) - s.bA) := mul_nonneg hS (by omega)
        have e : S * ((s.aA : Int) - s.bA) = S * s.aA - S * s.bA := by ring
        omega
      have := gcd_decrease hE hE0 hx0 nx ny hcmp (fun h1 => by have := exE h1; omega) hL'
      obtain ⟨d1, _⟩ := hdec hL'
      exact ⟨by omega, fun _ _ => by omega⟩
    · intro h; omega
    · intro h; exact absurd h ha
    · simp only; omega

theorem gcdStep_even {a b S E L : Int} {j d : Nat} {s : GcdApprox} (hev : s.aA % 2 = 0)
    (h : GcdInv a b S E L j (d + 1) s) : GcdInv a b S E L (j + 1) d (gcdStep s) := by
  obtain ⟨f0, g0, f1, g1, x, y, h⟩ := h
  obtain ⟨x', -, h'⟩ := gcdWit_even hev h
  exact ⟨_, _, _, _, _, _, h'⟩

theorem gcdStep_odd {a b S E L : Int} {j d : Nat} {s : GcdApprox} (hE : E = 1 ∨ 4 * E ≤ L) (hE0 : 0 < E)
    (hS : 0 ≤ S) (hS1 : E = 1 → S = 1) (hev : s.aA % 2 = 1)
    (h : GcdInv a b S E L j (d + 1) s) : GcdInv a b S E L (j + 1) d (gcdStep s) := by
  obtain ⟨f0, g0, f1, g1, x, y, h⟩ := h
  obtain ⟨-, ⟨-, x', -, h'⟩ | ⟨-, x', -, h'⟩⟩ := gcdWit_odd hE hE0 hS hS1 hev h <;> exact ⟨_, _, _, _, _, _, h'⟩

theorem gcdSteps {a b S E L : Int} (hE : E = 1 ∨ 4 * E ≤ L) (hE0 : 0 < E) (hS : 0 ≤ S)
    (hS1 : E = 1 → S = 1) : ∀ (d j : Nat) (s : GcdApprox), GcdInv a b S E L j d s →
      GcdInv a b S E L (j + d) 0 (Nat.iterate gcdStep d s)
  | 0, j, s, h => h
  | d + 1, j, s, h => by
    have h1 : GcdInv a b S E L (j + 1) d (gcdStep s) := by
      rcases Nat.mod_two_eq_zero_or_one s.aA with h2 | h2
      · exact gcdStep_even h2 h
      · exact gcdStep_odd hE hE0 hS hS1 h2 h
    have := gcdSteps hE hE0 hS hS1 d (j + 1) (gcdStep s) h1
    rw [show j + (d + 1) = j + 1 + d by omega]
    exact this

end FieldPkg

end Ringo
