import Verif.Model.JUtil
import Mathlib.Data.Nat.Digits.Defs
import Mathlib.Data.Nat.Size

/-!
# C53, C61, C62, C67, C68: division by a word, encoding parameters, truncation, moduli

`Nat.ofDigits (2^64) x` is the number whose little-endian words are `x`.
-/

namespace Ringo

theorem drop_eq_getElem_cons' {x : List Nat} {i : Nat} (h : i < x.length) :
    x.drop i = x[i] :: x.drop (i + 1) := List.drop_eq_getElem_cons h

theorem divMod64_spec (x : List Nat) (y : Nat) (hx : ∀ w ∈ x, w < 2 ^ 64) (hy : 1 ≤ y) :
    ∃ x' r, divMod64 x y = .ok (x', r) ∧ x'.length = x.length ∧ (∀ w ∈ x', w < 2 ^ 64) ∧ r < y ∧
      Nat.ofDigits (2 ^ 64) x = Nat.ofDigits (2 ^ 64) x' * y + r := by
  obtain ⟨s, h1, h2⟩ := forDown_spec (f := divModStep y) x.length 0 (Nat.zero_le _)
    (fun i s => s.1.length = x.length ∧ (∀ w ∈ s.1, w < 2 ^ 64) ∧ s.2 < y ∧
      s.1.take i = x.take i ∧
      Nat.ofDigits (2 ^ 64) (x.drop i) = Nat.ofDigits (2 ^ 64) (s.1.drop i) * y + s.2)
    (x, 0) ⟨rfl, hx, hy, rfl, by simp⟩ (by
      rintro i ⟨x', r⟩ - hi ⟨hl, hw, hr, ht, hv⟩
      have hi' : i < x'.length := by dsimp only at hl; omega
      have hxi : x'[i] = x[i] := by
        have h3 : (x'.take (i + 1))[i]? = (x.take (i + 1))[i]? := by rw [ht]
        rw [List.getElem?_take_of_lt (by omega), List.getElem?_take_of_lt (by omega),
          List.getElem?_eq_getElem hi', List.getElem?_eq_getElem hi] at h3
        exact Option.some.inj h3
      have hlt : x[i] < 2 ^ 64 := hx _ (List.getElem_mem hi)
      refine ⟨(x'.set i ((r * 2 ^ 64 + x[i]) / y), (r * 2 ^ 64 + x[i]) % y), ?_, ?_, ?_, ?_, ?_, ?_⟩
      · unfold divModStep
        simp only [idx_ok hi', go_bind_ok, div64]
        rw [if_neg (by omega)]
        simp [hi', hxi]
      · simpa using hl
      · intro w hw'
        rcases List.mem_or_eq_of_mem_set hw' with h | h
        · exact hw w h
        · rw [h, Nat.div_lt_iff_lt_mul (by omega)]
          dsimp only at hr
          nlinarith
      · exact Nat.mod_lt _ (by omega)
      · dsimp only at ht ⊢
        rw [List.take_set, List.set_eq_of_length_le (by simp)]
        have h4 := congrArg (List.take i) ht
        rwa [List.take_take, List.take_take, Nat.min_eq_left (by omega)] at h4
      · dsimp only at hv ⊢
        rw [drop_eq_getElem_cons' hi, drop_eq_getElem_cons' (x := x'.set i _) (by simpa using hi'),
          List.getElem_set_self, Nat.ofDigits_cons, Nat.ofDigits_cons, hv,
          List.drop_set_of_lt (by omega)]
        have := Nat.div_add_mod (r * 2 ^ 64 + x[i]) y
        generalize (r * 2 ^ 64 + x[i]) / y = a at *
        generalize (r * 2 ^ 64 + x[i]) % y = c at *
        push_cast
        generalize Nat.ofDigits (2 ^ 64) (x'.drop (i + 1)) = q at *
        nlinarith)
  exact ⟨s.1, s.2, h1, h2.1, h2.2.1, h2.2.2.1, by simpa using h2.2.2.2.2⟩

/-- **C53.** `divMod64(x, y)` leaves in `x` the words of `x / y`, and returns `x mod y`. -/
theorem C53_divMod (x : List Nat) (y : Nat) (hx : ∀ w ∈ x, w < 2 ^ 64) (hy : 1 ≤ y) :
    ∃ x', divMod64 x y = .ok (x', Nat.ofDigits (2 ^ 64) x % y) ∧
      x'.length = x.length ∧ (∀ w ∈ x', w < 2 ^ 64) ∧
      Nat.ofDigits (2 ^ 64) x' = Nat.ofDigits (2 ^ 64) x / y := by
  obtain ⟨x', r, h1, h2, h3, h4, h5⟩ := divMod64_spec x y hx hy
  have h6 : Nat.ofDigits (2 ^ 64) x % y = r := by
    rw [h5, Nat.mul_comm, Nat.mul_add_mod, Nat.mod_eq_of_lt h4]
  have h7 : Nat.ofDigits (2 ^ 64) x / y = Nat.ofDigits (2 ^ 64) x' := by
    rw [h5, Nat.mul_comm, Nat.mul_add_div (by omega), Nat.div_eq_of_lt h4, Nat.add_zero]
  exact ⟨x', by rw [h6]; exact h1, h2, h3, h7.symm⟩

/-- **C53.** Dividing by zero panics. -/
theorem C53_zero (x : List Nat) (hx : x ≠ []) : divMod64 x 0 = .error .panic := by
  have hl : 0 < x.length := List.length_pos_of_ne_nil hx
  unfold divMod64 forDown
  obtain ⟨n, hn⟩ : ∃ n, x.length = n + 1 := ⟨x.length - 1, by omega⟩
  rw [Nat.sub_zero, hn, List.range'_concat, List.reverse_append, List.reverse_singleton,
    List.singleton_append, List.foldlM_cons]
  have h : divModStep 0 (x, 0) (0 + 1 * n) = .error .panic := by
    unfold divModStep
    rw [idx_ok (by simp only; omega)]
    rfl
  rw [h]; rfl

/-- A three-word number, divided by ten. -/
example : divMod64 [7, 0, 5] 10 =
    .ok ([((0 * 2 ^ 64 + 5) % 10 * 2 ^ 64 % 10 * 2 ^ 64 + 7) / 10, 9223372036854775808, 0], 7) := by
  decide +kernel

/-! ## Encoding parameters -/

theorem ecdLoop_spec (n l : Nat) (hn : 2 ≤ n) :
    ∃ b m, ecdLoop n l = .ok (b, l + m) ∧ b ^ (2 ^ m) = n ∧ ¬ IsSquare b ∧ 2 ≤ b := by
  induction n using Nat.strong_induction_on generalizing l with
  | _ n ih =>
    rw [ecdLoop]
    by_cases h : Nat.sqrt n * Nat.sqrt n = n
    · rw [if_neg (by simpa using h), if_neg (by omega)]
      have h2 : 2 ≤ Nat.sqrt n := by
        by_contra h3
        have h4 : Nat.sqrt n ≤ 1 := by omega
        have : Nat.sqrt n * Nat.sqrt n ≤ 1 := by nlinarith
        omega
      obtain ⟨b, m, h5, h6, h7, h8⟩ := ih _ (Nat.sqrt_lt_self (by omega)) (l + 1) h2
      refine ⟨b, m + 1, ?_, ?_, h7, h8⟩
      · rw [h5, Nat.add_assoc, Nat.add_comm 1 m]
      · rw [Nat.pow_succ, Nat.pow_mul, h6, sq, h]
    · rw [if_pos h]
      refine ⟨n, 0, rfl, by simp, ?_, hn⟩
      rintro ⟨r, hr⟩
      apply h
      rw [hr, Nat.sqrt_eq]

/-- **C61.** For a field of order `p ≥ 3`, `newEncodeParameters` ends; if it does not panic, then
`base^exp = p - 1`, the exponent is a power of two, and the base is no perfect square (so that the
exponent is as large as possible) and fits a word. -/
theorem C61_result (p : Nat) (hp : 3 ≤ p) (e : EcdParams)
    (h : newEncodeParameters p = .ok e) :
    e.base ^ e.exp = p - 1 ∧ (∃ l, e.exp = 2 ^ l) ∧ ¬ IsSquare e.base ∧ e.base < 2 ^ 64 := by
  obtain ⟨b, m, h1, h2, h3, -⟩ := ecdLoop_spec (p - 1) 0 (by omega)
  unfold newEncodeParameters at h
  rw [h1, go_bind_ok] at h
  dsimp only at h
  split at h
  · rename_i h4
    injection h with h
    subst h
    refine ⟨?_, ⟨m, ?_⟩, h3, h4⟩
    · simpa [Nat.one_shiftLeft] using h2
    · simp [Nat.one_shiftLeft]
  · cases h

/-- **C61.** It panics exactly if `p` is not of that form with a base of one word. -/
theorem C61_panic (p : Nat) (hp : 3 ≤ p) :
    (∃ e, newEncodeParameters p = .ok e) ∨
      (newEncodeParameters p = .error .panic ∧
        ∀ b l, b ^ (2 ^ l) = p - 1 → ¬ IsSquare b → 2 ^ 64 ≤ b) := by
  obtain ⟨b, m, h1, h2, h3, h4⟩ := ecdLoop_spec (p - 1) 0 (by omega)
  unfold newEncodeParameters
  rw [h1, go_bind_ok]
  dsimp only
  by_cases h5 : b < 2 ^ 64
  · exact Or.inl ⟨_, by rw [if_pos h5]; rfl⟩
  · refine Or.inr ⟨by rw [if_neg h5]; rfl, ?_⟩
    intro b' l' h6 h7
    have key : ∀ (u v : Nat) (i j : Nat), i ≤ j → u ^ (2 ^ i) = v ^ (2 ^ j) → ¬ IsSquare u →
        u = v := by
      intro u v i j hij huv hu
      obtain ⟨k, rfl⟩ := Nat.exists_eq_add_of_le hij
      rw [Nat.add_comm i k, Nat.pow_add, Nat.pow_mul] at huv
      have h8 : u = v ^ 2 ^ k := Nat.pow_left_injective (Nat.two_pow_pos i).ne' huv
      cases k with
      | zero => simpa using h8
      | succ k =>
        exact absurd ⟨v ^ 2 ^ k, by rw [h8, Nat.pow_succ, Nat.pow_mul, sq]⟩ hu
    have h8 : b = b' := by
      rcases Nat.le_total m l' with h9 | h9
      · exact key b b' m l' h9 (by rw [h2, h6]) h3
      · exact (key b' b l' m h9 (by rw [h2, h6]) h7).symm
    omega

/-- **C61** needs `p ≥ 3`: over the field of two elements the loop does not end. -/
theorem C61_two : newEncodeParameters 2 = .error .hang := by
  unfold newEncodeParameters
  rw [ecdLoop, show 2 - 1 = 1 from rfl, Nat.sqrt_one, if_neg (by decide), if_pos (by decide)]
  rfl

/-- The field of order `2^16 + 1 = 65537`. -/
theorem encPars_65537 : newEncodeParameters 65537 = .ok ⟨2, 16⟩ := by
  have e1 : Nat.sqrt 65536 = 256 := by rw [show (65536:Nat) = 256 * 256 from rfl, Nat.sqrt_eq]
  have e2 : Nat.sqrt 256 = 16 := by rw [show (256:Nat) = 16 * 16 from rfl, Nat.sqrt_eq]
  have e3 : Nat.sqrt 16 = 4 := by rw [show (16:Nat) = 4 * 4 from rfl, Nat.sqrt_eq]
  have e4 : Nat.sqrt 4 = 2 := by rw [show (4:Nat) = 2 * 2 from rfl, Nat.sqrt_eq]
  have e5 : Nat.sqrt 2 = 1 := (Nat.eq_sqrt.mpr (by decide)).symm
  unfold newEncodeParameters
  rw [show 65537 - 1 = 65536 from rfl]
  rw [ecdLoop, e1, if_neg (by decide), if_neg (by decide),
    ecdLoop, e2, if_neg (by decide), if_neg (by decide),
    ecdLoop, e3, if_neg (by decide), if_neg (by decide),
    ecdLoop, e4, if_neg (by decide), if_neg (by decide),
    ecdLoop, e5, if_pos (by decide)]
  rfl

/-! ## Truncation -/

/-- **C62.** Dropping the low `k` bits of an integer (`big.Int.Rsh`, prover.go:170 and 195) and
multiplying back by `2^k` loses a number in `[0, 2^k)`, whatever the sign. -/
theorem C62_truncation (z : Int) (k : Nat) :
    0 ≤ z - 2 ^ k * (z >>> k) ∧ z - 2 ^ k * (z >>> k) < 2 ^ k := by
  rw [Int.shiftRight_eq_div_pow]
  have h : (0 : Int) < ((2 ^ k : Nat) : Int) := by exact_mod_cast Nat.two_pow_pos k
  have h1 := Int.emod_nonneg z h.ne'
  have h2 := Int.emod_lt_of_pos z h
  have h3 := Int.mul_ediv_add_emod z ((2 ^ k : Nat) : Int)
  push_cast at *
  constructor <;> linarith

/-- A negative number: `-5 >> 2 = -2`, and `-5 - 4 * -2 = 3`. -/
example : (-5 : Int) >>> 2 = -2 ∧ (-5 : Int) - 2 ^ 2 * ((-5 : Int) >>> 2) = 3 := by decide

/-! ## The modulus generator -/

/-- **C67.** Whatever `findModulus` returns passed all tests: the modulus `b^k + 1` has a bit
length in the range, passed the primality test, `k ≥ 2` is a power of two, the base is within
bounds, and `2^31` divides `b^k`, so that the field has roots of unity of that order. -/
theorem C67_found (prime : Nat → Bool) (maxLog2 : Nat) (limits : Nat → Nat × Nat)
    (bitStart bitEnd b k : Nat)
    (h : findModulus prime maxLog2 limits bitStart bitEnd = some (b, k)) :
    (∃ l, 1 ≤ l ∧ k = 2 ^ l) ∧ b ≤ 2 ^ 25 ∧ bitStart ≤ (b ^ k + 1).size ∧
      (b ^ k + 1).size < bitEnd ∧ prime (b ^ k + 1) = true ∧ 2 ^ 31 ∣ b ^ k := by
  unfold findModulus at h
  obtain ⟨logk, hl, h1⟩ := List.exists_of_findSome?_eq_some h
  dsimp only at h1
  split at h1
  · cases h1
  · simp only [Option.map_eq_some_iff] at h1
    obtain ⟨b', h2, h3⟩ := h1
    injection h3 with h3 h4
    subst h3
    have h5 := List.find?_some h2
    rw [h4] at h5
    unfold modulusOk at h5
    simp only [Bool.and_eq_true, Bool.not_eq_true', Bool.or_eq_false_iff,
      decide_eq_false_iff_not, decide_eq_true_eq, not_lt, ge_iff_le, not_le, gt_iff_lt] at h5
    obtain ⟨⟨⟨⟨h6, h7⟩, h8⟩, h9⟩, h10⟩ := h5
    rw [List.mem_range'_1] at hl
    refine ⟨⟨logk, hl.1, by rw [← h4, Nat.one_shiftLeft]⟩, ?_, h6, h7, h8, ?_⟩
    · simpa [baseBound] using h10
    · exact Nat.dvd_of_mod_eq_zero (by simpa [maxRank] using h9)

/-- The search finds the base `60272` of the modulus of `jindo/internal/zp`. -/
example : findModulus (fun _ => true) 9 (fun _ => (60272, 60272)) 255 256 = some (60272, 16) := by
  decide +kernel

/-- **C68** is false: with `-b` and `-k` only the primality of the modulus is tested.  `-b 1 -k 1`
is accepted; the field has two elements, no root of unity of order 2 other than 1, and
`newEncodeParameters` does not return. -/
theorem C68_refuted : ¬ ∀ (prime : Nat → Bool), (∀ n, prime n = true ↔ n.Prime) → ∀ b k,
    acceptBaseExp prime b k = true →
      (4 ∣ b ^ k ∧ ∃ e, newEncodeParameters (b ^ k + 1) = .ok e) := by
  intro h
  have := h (fun n => decide n.Prime) (fun n => by simp) 1 1 (by
    simp only [acceptBaseExp]; decide)
  revert this
  norm_num

/-- **C68, partial**: the modulus is a prime `b^k + 1` with nonzero `b` and `k`.  Missing: any
condition on the two-adicity or on the size of the base. -/
theorem C68_partial (prime : Nat → Bool) (hprime : ∀ n, prime n = true → n.Prime) (b k : Nat)
    (h : acceptBaseExp prime b k = true) : (b ^ k + 1).Prime ∧ b ≠ 0 ∧ k ≠ 0 := by
  simp only [acceptBaseExp, Bool.and_eq_true, Bool.not_eq_true', Bool.or_eq_false_iff,
    beq_eq_false_iff_ne] at h
  exact ⟨hprime _ h.2, h.1⟩

end Ringo
