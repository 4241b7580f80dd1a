import Verif.Proof.FieldLegWords
import Mathlib.NumberTheory.LegendreSymbol.JacobiSymbol

/-!
# `Legendre`: the inner loop keeps `l * (x / |y|)`

The true values `x`, `y` behind the approximations are never both negative, so the Jacobi symbol of `x` over
`|y|` obeys the reciprocity law the code uses.
-/

namespace Ringo

namespace FieldPkg

open NumberTheorySymbols jacobiSym

/-! ### Jacobi symbols of signed numbers -/

theorem jacobi_two {y : Int} {B : Nat} {d : Nat} (hd : 3 ≤ d) (hodd : y % 2 = 1) (h : (2 ^ d : Int) ∣ y - B) :
    J(2 | y.natAbs) = if B &&& 7 = 3 ∨ B &&& 7 = 5 then -1 else 1 := by
  have h8 : (8 : Int) ∣ y - B := (show (8 : Int) ∣ 2 ^ d by
    rw [show (8 : Int) = 2 ^ 3 by norm_num]; exact pow_dvd_pow 2 hd).trans h
  have ho : Odd y.natAbs := by rw [Int.natAbs_odd]; exact Int.odd_iff.2 hodd
  rw [jacobiSym.at_two ho, ZMod.χ₈_nat_eq_if_mod_eight, show (7 : Nat) = 2 ^ 3 - 1 by norm_num,
    Nat.and_two_pow_sub_one_eq_mod, if_neg (by omega)]
  by_cases hc : B % 2 ^ 3 = 3 ∨ B % 2 ^ 3 = 5
  · rw [if_pos hc, if_neg (by omega)]
  · rw [if_neg hc, if_pos (by omega)]

theorem jacobi_neg_one {y : Int} (hy : 0 < y) (hodd : y % 2 = 1) :
    J(-1 | y.natAbs) = if y % 4 = 3 then -1 else 1 := by
  have ho : Odd y.natAbs := by rw [Int.natAbs_odd]; exact Int.odd_iff.2 hodd
  rw [jacobiSym.at_neg_one ho, ZMod.χ₄_nat_eq_if_mod_four, if_neg (by omega)]
  by_cases hc : y % 4 = 3
  · rw [if_pos hc, if_neg (by omega)]
  · rw [if_neg hc, if_pos (by omega)]

/-- Reciprocity for odd numbers of which at most one is negative. -/
theorem jacobi_swap {x y : Int} (hx : x % 2 = 1) (hy : y % 2 = 1) (h : ¬ (x < 0 ∧ y < 0)) :
    J(x | y.natAbs) = (if x % 4 = 3 ∧ y % 4 = 3 then -1 else 1) * J(y | x.natAbs) := by
  -- the case of a positive `y`
  have key : ∀ x y : Int, x % 2 = 1 → y % 2 = 1 → 0 < y →
      J(x | y.natAbs) = (if x % 4 = 3 ∧ y % 4 = 3 then -1 else 1) * J(y | x.natAbs) := by
    intro x y hx hy hpos
    have hox : Odd x.natAbs := by rw [Int.natAbs_odd]; exact Int.odd_iff.2 hx
    have hoy : Odd y.natAbs := by rw [Int.natAbs_odd]; exact Int.odd_iff.2 hy
    have ey : (y.natAbs : Int) = y := by omega
    have hrec : J((x.natAbs : Int) | y.natAbs) =
        (if x.natAbs % 4 = 3 ∧ y.natAbs % 4 = 3 then -1 else 1) * J(y | x.natAbs) := by
      have hr := jacobiSym.quadratic_reciprocity_if (Nat.odd_iff.1 hox) (Nat.odd_iff.1 hoy)
      rw [ey] at hr
      rw [← hr]
      split <;> simp
    rcases lt_or_ge x 0 with hneg | hnn
    · have ex : x = -1 * (x.natAbs : Int) := by omega
      conv_lhs => rw [ex]
      rw [jacobiSym.mul_left, jacobi_neg_one hpos hy, hrec, ← mul_assoc]
      congr 1
      by_cases h4 : y % 4 = 3 <;> by_cases h5 : x % 4 = 3
      · rw [if_pos h4, if_neg (by omega), if_pos ⟨h5, h4⟩]; norm_num
      · rw [if_pos h4, if_pos (by omega), if_neg (by omega)]; norm_num
      · rw [if_neg h4, if_neg (by omega), if_neg (by omega)]; norm_num
      · rw [if_neg h4, if_neg (by omega), if_neg (by omega)]; norm_num
    · have ex : (x.natAbs : Int) = x := by omega
      rw [ex] at hrec
      rw [hrec]
      congr 1
      by_cases hc : x % 4 = 3 ∧ y % 4 = 3
      · rw [if_pos hc, if_pos (by omega)]
      · rw [if_neg hc, if_neg (by omega)]
  rcases lt_or_ge y 0 with hneg | hnn
  · have hx0 : 0 < x := by omega
    have := key y x hy hx hx0
    rw [this, ← mul_assoc]
    by_cases hc : x % 4 = 3 ∧ y % 4 = 3
    · rw [if_pos hc, if_pos hc.symm]; norm_num
    · rw [if_neg hc, if_neg (fun h => hc h.symm)]; norm_num
  · exact key x y hx hy (by omega)

theorem jacobi_sub (x y : Int) : J(x - y | y.natAbs) = J(x | y.natAbs) := by
  rw [jacobiSym.mod_left, jacobiSym.mod_left x]
  congr 1
  apply Int.ModEq.symm
  rw [Int.modEq_iff_dvd]
  have : x - y - x = -y := by ring
  rw [this]
  exact (Int.natAbs_dvd.2 (dvd_neg.2 dvd_rfl))

/-! ### The inner loop -/

theorem legStep_gcd (s : LegApprox) : (legStep s).toGcdApprox = gcdStep s.toGcdApprox := by
  unfold legStep gcdStep
  split
  · rfl
  · simp only
    split <;> rfl

/-- Not both of the true values are negative. -/
theorem leg_signs {a b S E L : Int} {j d : Nat} {s : GcdApprox} {f0 g0 f1 g1 x y : Int}
    (h : GcdWit a b S E L j d s f0 g0 f1 g1 x y) (hS : 0 ≤ S)
    (hbig : E = 1 ∨ 2 ^ (j + 1) * E ≤ max a b) (ha : 0 ≤ a) (hb : 0 ≤ b)
    (hdet : f0 * g1 - f1 * g0 = 2 ^ j ∨ f0 * g1 - f1 * g0 = -2 ^ j) : ¬ (x < 0 ∧ y < 0) := by
  rintro ⟨hx, hy⟩
  obtain ⟨-, -, ⟨r0, r1⟩, ⟨e0, e1⟩, -, ⟨k0, k1⟩, -, -, -, -, -⟩ := h
  have K0 := abs_lt.1 k0
  have K1 := abs_lt.1 k1
  have n0 : 0 ≤ S * (s.aA : Int) := mul_nonneg hS (by omega)
  have n1 : 0 ≤ S * (s.bA : Int) := mul_nonneg hS (by omega)
  rcases hbig with h1 | h1
  · omega
  · have hp : (0 : Int) < 2 ^ j := by positivity
    have ax : |x| < E := by rw [abs_of_neg hx]; omega
    have ay : |y| < E := by rw [abs_of_neg hy]; omega
    have bx := abs_nonneg x
    have bz := abs_nonneg y
    -- `a` and `b` from `x` and `y`
    have ea : |a| = |g1 * x - g0 * y| := by
      have e : 2 ^ j * (g1 * x - g0 * y) = (f0 * g1 - f1 * g0) * a := by
        linear_combination g0 * e1 - g1 * e0
      rcases hdet with hd | hd <;> rw [hd] at e
      · have := mul_left_cancel₀ hp.ne' e
        rw [this]
      · have := mul_left_cancel₀ hp.ne' (show 2 ^ j * (g1 * x - g0 * y) = 2 ^ j * -a by rw [e]; ring)
        rw [this, abs_neg]
    have eb : |b| = |f0 * y - f1 * x| := by
      have e : 2 ^ j * (f0 * y - f1 * x) = (f0 * g1 - f1 * g0) * b := by
        linear_combination f1 * e0 - f0 * e1
      rcases hdet with hd | hd <;> rw [hd] at e
      · have := mul_left_cancel₀ hp.ne' e
        rw [this]
      · have := mul_left_cancel₀ hp.ne' (show 2 ^ j * (f0 * y - f1 * x) = 2 ^ j * -b by rw [e]; ring)
        rw [this, abs_neg]
    have bound : ∀ u v : Int, |u| ≤ 2 ^ j → |v| ≤ 2 ^ j → |u * x - v * y| < 2 ^ (j + 1) * E := by
      intro u v hu hv
      have t := abs_sub (u * x) (v * y)
      rw [abs_mul, abs_mul] at t
      have t1 : |u| * |x| ≤ 2 ^ j * |x| := mul_le_mul_of_nonneg_right hu bx
      have t2 : |v| * |y| ≤ 2 ^ j * |y| := mul_le_mul_of_nonneg_right hv bz
      have t3 : 2 ^ j * |x| < 2 ^ j * E := mul_lt_mul_of_pos_left ax hp
      have t4 : 2 ^ j * |y| < 2 ^ j * E := mul_lt_mul_of_pos_left ay hp
      rw [pow_succ]
      linarith
    have p0 := abs_nonneg f0
    have p1 := abs_nonneg g0
    have p2 := abs_nonneg f1
    have p3 := abs_nonneg g1
    have ba := bound g1 g0 (by omega) (by omega)
    have bb := bound (-f1) (-f0) (by rw [abs_neg]; omega) (by rw [abs_neg]; omega)
    rw [show -f1 * x - -f0 * y = f0 * y - f1 * x by ring] at bb
    rw [← ea, abs_of_nonneg ha] at ba
    rw [← eb, abs_of_nonneg hb] at bb
    rcases le_max_iff.1 h1 with h | h <;> linarith

/-- The invariant of the inner loop of `Legendre`; `c` is the symbol. -/
def LegInv (a b S E L c : Int) (j d : Nat) (s : LegApprox) : Prop :=
  ∃ f0 g0 f1 g1 x y : Int, GcdWit a b S E L j d s.toGcdApprox f0 g0 f1 g1 x y ∧
    (f0 * g1 - f1 * g0 = 2 ^ j ∨ f0 * g1 - f1 * g0 = -2 ^ j) ∧ s.l * J(x | y.natAbs) = c

theorem mod_four {y : Int} {B : Nat} {d : Nat} (hd : 2 ≤ d) (h : (2 ^ d : Int) ∣ y - B) :
    B &&& 3 = 3 ↔ y % 4 = 3 := by
  have h4 : (4 : Int) ∣ y - B := (show (4 : Int) ∣ 2 ^ d by
    rw [show (4 : Int) = 2 ^ 2 by norm_num]; exact pow_dvd_pow 2 hd).trans h
  rw [show (3 : Nat) = 2 ^ 2 - 1 by norm_num, Nat.and_two_pow_sub_one_eq_mod]
  omega

theorem legHalve_spec {y : Int} {B : Nat} {d : Nat} (hd : 3 ≤ d) (hodd : y % 2 = 1) (h : (2 ^ d : Int) ∣ y - B)
    (x' l : Int) : legHalve B l * J(x' | y.natAbs) = l * J(2 * x' | y.natAbs) := by
  rw [jacobiSym.mul_left, jacobi_two hd hodd h, legHalve]
  split <;> ring

theorem legStep_inv {a b S E L c : Int} {j d : Nat} {s : LegApprox} (hE : E = 1 ∨ 4 * E ≤ L) (hE0 : 0 < E)
    (hS : 0 ≤ S) (hS1 : E = 1 → S = 1) (hbig : E = 1 ∨ 2 ^ (j + 1) * E ≤ max a b) (ha : 0 ≤ a) (hb : 0 ≤ b)
    (hd : 2 ≤ d) (h : LegInv a b S E L c j (d + 1) s) : LegInv a b S E L c (j + 1) d (legStep s) := by
  obtain ⟨f0, g0, f1, g1, x, y, h, hdet, hc⟩ := h
  have hsg := leg_signs h hS hbig ha hb hdet
  have hcong := h.2.2.2.2.1
  obtain ⟨cx, cy, yo, bo⟩ := hcong
  rcases Nat.mod_two_eq_zero_or_one s.aA with h2 | h2
  · obtain ⟨x', hx', h'⟩ := gcdWit_even h2 h
    rw [← legStep_gcd] at h'
    refine ⟨_, _, _, _, _, _, h', ?_, ?_⟩
    · rw [pow_succ]; rcases hdet with e | e
      · left; linear_combination 2 * e
      · right; linear_combination 2 * e
    · have el : (legStep s).l = legHalve s.bA s.l := by
        unfold legStep
        rw [if_pos (by rw [Nat.and_one_is_mod]; exact h2)]
      rw [el, legHalve_spec (by omega) yo cy, ← hx', hc]
  · obtain ⟨xo, ⟨hlt, x', hx', h'⟩ | ⟨hlt, x', hx', h'⟩⟩ := gcdWit_odd hE hE0 hS hS1 h2 h
    · rw [← legStep_gcd] at h'
      refine ⟨_, _, _, _, _, _, h', ?_, ?_⟩
      · rw [pow_succ]; rcases hdet with e | e
        · right; linear_combination -2 * e
        · left; linear_combination -2 * e
      · have el : (legStep s).l = legHalve s.aA (if s.bA &&& 3 = 3 ∧ s.aA &&& 3 = 3 then -s.l else s.l) := by
          unfold legStep
          rw [if_neg (by rw [Nat.and_one_is_mod]; omega)]
          simp only [sub64, Nat.add_zero, if_pos hlt, if_true]
        rw [el, legHalve_spec (by omega) xo cx, ← hx', jacobi_sub, ← hc, jacobi_swap xo yo hsg]
        have e3 := mod_four (by omega) cx
        have e4 := mod_four (by omega) cy
        by_cases hq : x % 4 = 3 ∧ y % 4 = 3
        · rw [if_pos hq, if_pos ⟨e4.2 hq.2, e3.2 hq.1⟩]; ring
        · rw [if_neg hq, if_neg (fun h => hq ⟨e3.1 h.2, e4.1 h.1⟩)]; ring
    · rw [← legStep_gcd] at h'
      refine ⟨_, _, _, _, _, _, h', ?_, ?_⟩
      · rw [pow_succ]; rcases hdet with e | e
        · left; linear_combination 2 * e
        · right; linear_combination 2 * e
      · have el : (legStep s).l = legHalve s.bA s.l := by
          unfold legStep
          rw [if_neg (by rw [Nat.and_one_is_mod]; omega)]
          simp only [sub64, Nat.add_zero, if_neg hlt]
          rw [if_neg (by decide)]
        rw [el, legHalve_spec (by omega) yo cy, ← hx', jacobi_sub, hc]

theorem legSteps {a b S E L c : Int} (hE : E = 1 ∨ 4 * E ≤ L) (hE0 : 0 < E) (hS : 0 ≤ S) (hS1 : E = 1 → S = 1)
    (ha : 0 ≤ a) (hb : 0 ≤ b) {N : Nat} (hbig : E = 1 ∨ 2 ^ (N + 1) * E ≤ max a b) :
    ∀ (k j : Nat) (s : LegApprox), j + k ≤ N → LegInv a b S E L c j (k + 2) s →
      LegInv a b S E L c (j + k) 2 (Nat.iterate legStep k s)
  | 0, j, s, _, h => h
  | k + 1, j, s, hk, h => by
    have hj : E = 1 ∨ 2 ^ (j + 1) * E ≤ max a b := by
      refine hbig.imp_right fun h => le_trans ?_ h
      exact mul_le_mul_of_nonneg_right (pow_le_pow_right₀ (by norm_num) (by omega)) hE0.le
    have h1 : LegInv a b S E L c (j + 1) (k + 2) (legStep s) :=
      legStep_inv hE hE0 hS hS1 hj ha hb (by omega) h
    have := legSteps hE hE0 hS hS1 ha hb hbig k (j + 1) (legStep s) (by omega) h1
    rw [show j + (k + 1) = j + 1 + k by omega]
    exact this

end FieldPkg

end Ringo
