import Verif.Model.JEncoder
import Verif.Props.JDiv
import Verif.Props.JRns
import Mathlib.Data.List.GetD
import Mathlib.Tactic.LinearCombination
import Mathlib.Algebra.BigOperators.Intervals
import Mathlib.Algebra.BigOperators.Ring.Finset

/-!
# What the loops of the encoder compute
-/

namespace Ringo

open Finset

theorem split_mod {s i : Nat} (j : Nat) (h : i < s) : (j * s + i) % s = i ∧ (j * s + i) / s = j := by
  constructor
  · rw [Nat.mul_comm, Nat.mul_add_mod, Nat.mod_eq_of_lt h]
  · rw [Nat.mul_comm, Nat.mul_add_div (by omega), Nat.div_eq_of_lt h, Nat.add_zero]

theorem split_iff {s i : Nat} (j t : Nat) (h : i < s) :
    j * s + i = t ↔ t % s = i ∧ t / s = j := by
  constructor
  · rintro rfl; exact split_mod j h
  · rintro ⟨h1, h2⟩
    have := Nat.div_add_mod t s
    rw [h1, h2, Nat.mul_comm] at this
    exact this

theorem split_lt {s e i j : Nat} (hi : i < s) (hj : j < e) : j * s + i < s * e := by
  calc j * s + i < j * s + s := by omega
    _ = (j + 1) * s := by ring
    _ ≤ e * s := Nat.mul_le_mul_right _ hj
    _ = s * e := Nat.mul_comm _ _

/-- A list of ok results. -/
theorem mapM_ok {α β : Type} {f : α → Go β} {g : α → β} (l : List α)
    (h : ∀ a ∈ l, f a = .ok (g a)) : l.mapM f = .ok (l.map g) := by
  induction l with
  | nil => rfl
  | cons a l ih =>
    rw [List.mapM_cons, h a (by simp), go_bind_ok, ih (fun x hx => h x (by simp [hx]))]
    rfl

/-- The digit of `x` the encoder writes at position `j`: the last one is not reduced. -/
def ecdDigit (b e x j : Nat) : Nat := if j + 1 < e then x / b ^ j % b else x / b ^ (e - 1)

theorem ecdDigit_sum (b e x : Nat) (he : 1 ≤ e) :
    ∑ j ∈ range e, ecdDigit b e x j * b ^ j = x := by
  obtain ⟨m, rfl⟩ : ∃ m, e = m + 1 := ⟨e - 1, by omega⟩
  rw [sum_range_succ, show ecdDigit b (m + 1) x m = x / b ^ m by simp [ecdDigit]]
  have h : ∀ n, ∑ j ∈ range n, x / b ^ j % b * b ^ j + x / b ^ n * b ^ n = x := by
    intro n
    induction n with
    | zero => simp
    | succ n ih =>
      rw [sum_range_succ]
      conv_rhs => rw [← ih]
      have h1 := Nat.div_add_mod (x / b ^ n) b
      rw [Nat.div_div_eq_div_mul, ← Nat.pow_succ] at h1
      conv_rhs => rw [← h1]
      rw [Nat.pow_succ]
      ring
  rw [← h m]
  congr 1
  · apply sum_congr rfl
    intro j hj
    rw [ecdDigit, if_pos (by have := mem_range.mp hj; omega)]
    rw [h m]
  · rw [h m]

theorem sliceWords_lt (L n : Nat) : ∀ w ∈ sliceWords L n, w < 2 ^ 64 := by
  intro w hw
  obtain ⟨k, -, rfl⟩ := List.mem_map.mp hw
  exact Nat.mod_lt _ (by decide)

theorem sliceWords_val (L n : Nat) : Nat.ofDigits (2 ^ 64) (sliceWords L n) = n % 2 ^ (64 * L) := by
  induction L with
  | zero => simp [sliceWords, Nat.mod_one]
  | succ L ih =>
    unfold sliceWords at *
    rw [List.range_succ, List.map_append, Nat.ofDigits_append, ih]
    simp only [List.map_cons, List.map_nil, List.length_map, List.length_range,
      Nat.ofDigits_singleton]
    rw [← Nat.pow_mul, show 64 * (L + 1) = 64 * L + 64 by ring, Nat.pow_add, Nat.mod_mul]

theorem first_word (c : List Nat) (hc : c ≠ []) (h : Nat.ofDigits (2 ^ 64) c < 2 ^ 64) :
    idx c 0 = .ok (Nat.ofDigits (2 ^ 64) c) := by
  cases c with
  | nil => exact absurd rfl hc
  | cons a c =>
    rw [Nat.ofDigits_cons] at h ⊢
    rw [idx_ok (by simp)]
    congr 1
    simp only [List.getElem_cons_zero]
    have : Nat.ofDigits (2 ^ 64) c = 0 := by
      by_contra h2
      have : 1 ≤ Nat.ofDigits (2 ^ 64) c := by omega
      omega
    rw [this]; simp

variable {p : Nat}

theorem encElem_spec (P : EncParams) (c row : List Nat) (i : Nat) (hb : 1 ≤ P.ecd.base)
    (he : 1 ≤ P.ecd.exp) (hi : i < P.slots) (hr : row.length = P.slots * P.ecd.exp)
    (hc : ∀ w ∈ c, w < 2 ^ 64) (hne : c ≠ [])
    (hV : Nat.ofDigits (2 ^ 64) c / P.ecd.base ^ (P.ecd.exp - 1) < 2 ^ 64) :
    ∃ row', encElem P c row i = .ok row' ∧ row'.length = row.length ∧
      ∀ t, t < row.length → row'[t]? = if t % P.slots = i then
        some (ecdDigit P.ecd.base P.ecd.exp (Nat.ofDigits (2 ^ 64) c) (t / P.slots))
        else row[t]? := by
  set b := P.ecd.base
  set e := P.ecd.exp
  set V := Nat.ofDigits (2 ^ 64) c
  obtain ⟨s, h1, h2⟩ := forRange_spec (f := encDigitStep P i) 0 (e - 1) (Nat.zero_le _)
    (fun j s => (∀ w ∈ s.1, w < 2 ^ 64) ∧ s.1.length = c.length ∧
      Nat.ofDigits (2 ^ 64) s.1 = V / b ^ j ∧ s.2.length = row.length ∧
      ∀ t, t < row.length → s.2[t]? = if t % P.slots = i ∧ t / P.slots < j then
        some (V / b ^ (t / P.slots) % b) else row[t]?)
    (c, row) ⟨hc, rfl, by simp [V], rfl, by simp⟩ (by
      rintro j ⟨x, out⟩ - hj ⟨h1, h2, h3, h4, h5⟩
      dsimp only at h1 h2 h3 h4 h5
      obtain ⟨x', h6, h7, h8, h9⟩ := C53_divMod x b h1 hb
      have hjl : j * P.slots + i < out.length := by
        rw [h4, hr]; exact split_lt hi (by omega)
      refine ⟨(x', out.set (j * P.slots + i) (Nat.ofDigits (2 ^ 64) x % b)), ?_, h8,
        h7.trans h2, ?_, by simpa using h4, ?_⟩
      · unfold encDigitStep; dsimp only
        rw [h6, go_bind_ok, setIdx_ok hjl]; rfl
      · dsimp only; rw [h9, h3, Nat.div_div_eq_div_mul, ← Nat.pow_succ]
      · intro t ht
        dsimp only
        rw [List.getElem?_set]
        by_cases h10 : j * P.slots + i = t
        · obtain ⟨h11, h12⟩ := (split_iff j t hi).mp h10
          rw [if_pos h10, if_pos (by omega), if_pos ⟨h11, by omega⟩, h12, h3]
        · rw [if_neg h10, h5 t ht]
          have h11 : ¬ (t % P.slots = i ∧ t / P.slots = j) := fun h => h10 ((split_iff j t hi).mpr h)
          by_cases h12 : t % P.slots = i ∧ t / P.slots < j
          · rw [if_pos h12, if_pos ⟨h12.1, by omega⟩]
          · rw [if_neg h12, if_neg (fun h => h12 ⟨h.1, by
              have : t / P.slots ≠ j := fun h13 => h11 ⟨h.1, h13⟩
              omega⟩)])
  obtain ⟨h3, h4, h5, h6, h7⟩ := h2
  have hjl : (e - 1) * P.slots + i < s.2.length := by
    rw [h6, hr]; exact split_lt hi (by omega)
  refine ⟨s.2.set ((e - 1) * P.slots + i) (V / b ^ (e - 1)), ?_, by simpa using h6, ?_⟩
  · unfold encElem
    rw [h1, go_bind_ok, first_word s.1 (by
      intro h; rw [h] at h4; exact hne (List.length_eq_zero_iff.mp h4.symm)) (by rw [h5]; exact hV),
      go_bind_ok, h5, setIdx_ok hjl]
  · intro t ht
    rw [List.getElem?_set]
    have hte : t / P.slots < e := by
      rw [Nat.div_lt_iff_lt_mul (by omega), Nat.mul_comm]; omega
    by_cases h10 : (e - 1) * P.slots + i = t
    · obtain ⟨h11, h12⟩ := (split_iff _ t hi).mp h10
      rw [if_pos h10, if_pos (by omega), if_pos h11, ecdDigit, if_neg (by omega)]
    · rw [if_neg h10, h7 t ht]
      by_cases h12 : t % P.slots = i
      · have : t / P.slots ≠ e - 1 := fun h => h10 ((split_iff _ t hi).mpr ⟨h12, h⟩)
        rw [if_pos ⟨h12, by omega⟩, if_pos h12, ecdDigit, if_pos (by omega)]
      · rw [if_neg (fun h => h12 h.1), if_neg h12]

theorem encZero_spec (P : EncParams) (row : List Nat) (i : Nat) (hi : i < P.slots)
    (hr : row.length = P.slots * P.ecd.exp) :
    ∃ row', encZero P row i = .ok row' ∧ row'.length = row.length ∧
      ∀ t, t < row.length → row'[t]? = if t % P.slots = i then some 0 else row[t]? := by
  obtain ⟨s, h1, h2, h3⟩ := forRange_spec
    (f := fun (row : List Nat) j => setIdx row (j * P.slots + i) 0) 0 P.ecd.exp (Nat.zero_le _)
    (fun j s => s.length = row.length ∧
      ∀ t, t < row.length → s[t]? = if t % P.slots = i ∧ t / P.slots < j then some 0 else row[t]?)
    row ⟨rfl, by simp⟩ (by
      rintro j out - hj ⟨h4, h5⟩
      have hjl : j * P.slots + i < out.length := by rw [h4, hr]; exact split_lt hi hj
      refine ⟨_, setIdx_ok hjl, by simpa using h4, ?_⟩
      intro t ht
      rw [List.getElem?_set]
      by_cases h10 : j * P.slots + i = t
      · obtain ⟨h11, h12⟩ := (split_iff j t hi).mp h10
        rw [if_pos h10, if_pos (by omega), if_pos ⟨h11, by omega⟩]
      · rw [if_neg h10, h5 t ht]
        have h11 : ¬ (t % P.slots = i ∧ t / P.slots = j) := fun h => h10 ((split_iff j t hi).mpr h)
        by_cases h12 : t % P.slots = i ∧ t / P.slots < j
        · rw [if_pos h12, if_pos ⟨h12.1, by omega⟩]
        · rw [if_neg h12, if_neg (fun h => h12 ⟨h.1, by
            have : t / P.slots ≠ j := fun h13 => h11 ⟨h.1, h13⟩
            omega⟩)])
  refine ⟨s, h1, h2, ?_⟩
  intro t ht
  have hte : t / P.slots < P.ecd.exp := by
    rw [Nat.div_lt_iff_lt_mul (by omega), Nat.mul_comm]; omega
  rw [h3 t ht]
  by_cases h12 : t % P.slots = i
  · rw [if_pos ⟨h12, hte⟩, if_pos h12]
  · rw [if_neg (fun h => h12 h.1), if_neg h12]

/-- The conditions on the parameters under which the encoder works: the modulus is `base^exp + 1`
and fits the words of a field element, the base fits one word, the ring degree is
`slots * exp`. -/
structure EncParams.Good (P : EncParams) (p : Nat) : Prop where
  base_pos : 1 ≤ P.ecd.base
  base_lt : P.ecd.base < 2 ^ 64
  exp_pos : 1 ≤ P.ecd.exp
  mod : p = P.ecd.base ^ P.ecd.exp + 1
  slots_pos : 1 ≤ P.slots
  deg : P.N = P.slots * P.ecd.exp
  limbs : p ≤ 2 ^ (64 * P.limbs)

theorem EncParams.Good.limbs_pos {P : EncParams} (h : P.Good p) : 1 ≤ P.limbs := by
  by_contra h1
  have h2 := h.limbs
  rw [show P.limbs = 0 by omega] at h2
  have := h.mod
  have := Nat.pow_pos (n := P.ecd.exp) (show 0 < P.ecd.base from h.base_pos)
  simp only [Nat.mul_zero, Nat.pow_zero] at h2
  omega

theorem EncParams.Good.neZero {P : EncParams} (h : P.Good p) : NeZero p :=
  ⟨by rw [h.mod]; omega⟩

theorem top_digit {P : EncParams} (h : P.Good p) (x : ZMod p) :
    x.val / P.ecd.base ^ (P.ecd.exp - 1) ≤ P.ecd.base := by
  have := h.neZero
  have h1 := ZMod.val_lt x
  have h2 : x.val ≤ P.ecd.base ^ P.ecd.exp := by
    have := h.mod; omega
  have h3 : P.ecd.base ^ P.ecd.exp = P.ecd.base ^ (P.ecd.exp - 1) * P.ecd.base := by
    rw [← Nat.pow_succ]; congr 1; have := h.exp_pos; omega
  apply Nat.div_le_of_le_mul
  omega

theorem ecdDigit_le {P : EncParams} (h : P.Good p) (x : ZMod p) (j : Nat) :
    ecdDigit P.ecd.base P.ecd.exp x.val j ≤ P.ecd.base := by
  unfold ecdDigit
  split
  · exact (Nat.mod_lt _ h.base_pos).le
  · exact top_digit h x

theorem baseEncode_spec (P : EncParams) (h : P.Good p) (row : List Nat) (v : List (ZMod p))
    (hv : v.length ≤ P.slots) (hr : row.length = P.N) :
    baseEncode P row v = .ok ((List.range P.N).map fun t =>
      ecdDigit P.ecd.base P.ecd.exp (v.getD (t % P.slots) 0).val (t / P.slots)) := by
  rw [h.deg] at hr
  have hl : ∀ x : ZMod p, Nat.ofDigits (2 ^ 64) (sliceWords P.limbs x.val) = x.val := by
    intro x
    have := h.neZero
    rw [sliceWords_val, Nat.mod_eq_of_lt]
    exact (ZMod.val_lt x).trans_le h.limbs
  unfold baseEncode
  rw [if_neg (by omega)]
  obtain ⟨r1, h1, h2, h3⟩ := forRange_spec
    (f := fun (row : List Nat) i => do
      let x ← idx v i
      encElem P (sliceWords P.limbs x.val) row i) 0 v.length (Nat.zero_le _)
    (fun i s => s.length = row.length ∧ ∀ t, t < row.length → t % P.slots < i →
      s[t]? = some (ecdDigit P.ecd.base P.ecd.exp (v.getD (t % P.slots) 0).val (t / P.slots)))
    row ⟨rfl, by simp⟩ (by
      rintro i s - hi ⟨h4, h5⟩
      obtain ⟨s', h6, h7, h8⟩ := encElem_spec P (sliceWords P.limbs (v[i]).val) s i h.base_pos
        h.exp_pos (by omega) (by omega) (sliceWords_lt _ _) (by
          intro h9
          have := congrArg List.length h9
          have := h.limbs_pos
          simp only [sliceWords, List.length_map, List.length_range, List.length_nil] at *
          omega) (by
          rw [hl]
          exact (top_digit h _).trans_lt h.base_lt)
      refine ⟨s', ?_, by omega, ?_⟩
      · rw [idx_ok hi]; exact h6
      · intro t ht hti
        rw [h8 t (by omega)]
        split
        · rename_i h9
          rw [hl, h9, List.getD_eq_getElem _ _ hi]
        · exact h5 t ht (by omega))
  rw [h1, go_bind_ok]
  obtain ⟨r2, h4, h5, h6⟩ := forRange_spec
    (f := encZero P) v.length P.slots hv
    (fun i s => s.length = row.length ∧ ∀ t, t < row.length → t % P.slots < i →
      s[t]? = some (ecdDigit P.ecd.base P.ecd.exp (v.getD (t % P.slots) 0).val (t / P.slots)))
    r1 ⟨h2, h3⟩ (by
      rintro i s hi1 hi2 ⟨h4, h5⟩
      obtain ⟨s', h6, h7, h8⟩ := encZero_spec P s i hi2 (by omega)
      refine ⟨s', h6, by omega, ?_⟩
      intro t ht hti
      rw [h8 t (by omega)]
      split
      · rename_i h9
        have h10 : v.getD (t % P.slots) 0 = 0 := by
          rw [h9, List.getD_eq_getElem?_getD, List.getElem?_eq_none hi1]; rfl
        rw [h10]
        unfold ecdDigit
        simp
      · exact h5 t ht (by omega))
  rw [h4]
  congr 1
  apply List.ext_getElem?
  intro t
  by_cases ht : t < row.length
  · rw [h6 t ht (Nat.mod_lt _ h.slots_pos), List.getElem?_map, List.getElem?_range (by
      rw [h.deg]; omega)]
    rfl
  · rw [List.getElem?_eq_none (by omega), List.getElem?_eq_none (by simp [h.deg]; omega)]

theorem decodeSlot_spec (P : EncParams) (coeff : List Int) (i : Nat) (hi : i < P.slots)
    (hc : P.slots * P.ecd.exp ≤ coeff.length) :
    decodeSlot (p := p) P coeff i = .ok (∑ j ∈ range P.ecd.exp,
      (coeff.getD (j * P.slots + i) 0 : ZMod p) * (P.ecd.base : ZMod p) ^ j) := by
  unfold decodeSlot
  obtain ⟨s, h1, h2⟩ := forDown_spec
    (f := fun (acc : ZMod p) j => do
      let c ← idx coeff (j * P.slots + i)
      pure (acc * (P.ecd.base : ZMod p) + (c : ZMod p))) P.ecd.exp 0 (Nat.zero_le _)
    (fun j acc => acc = ∑ m ∈ range (P.ecd.exp - j),
      (coeff.getD ((j + m) * P.slots + i) 0 : ZMod p) * (P.ecd.base : ZMod p) ^ m)
    0 (by simp) (by
      rintro j acc - hj h3
      have hjl : j * P.slots + i < coeff.length := (split_lt hi hj).trans_le hc
      refine ⟨_, by rw [idx_ok hjl]; rfl, ?_⟩
      rw [h3, show P.ecd.exp - j = (P.ecd.exp - (j + 1)) + 1 by omega, sum_range_succ']
      simp only [Nat.add_zero, pow_zero, mul_one]
      rw [List.getD_eq_getElem _ _ hjl, sum_mul]
      congr 1
      apply sum_congr rfl
      intro m _
      rw [pow_succ, show j + 1 + m = j + (m + 1) by omega]
      ring)
  rw [h1, h2]
  simp

theorem decodeTo_spec (P : EncParams) (vOut : List (ZMod p)) (coeff : List Int)
    (hv : vOut.length = P.slots) (hc : P.slots * P.ecd.exp ≤ coeff.length) :
    decodeTo P vOut coeff = .ok ((List.range P.slots).map fun i => ∑ j ∈ range P.ecd.exp,
      (coeff.getD (j * P.slots + i) 0 : ZMod p) * (P.ecd.base : ZMod p) ^ j) := by
  unfold decodeTo
  rw [if_neg (by omega)]
  obtain ⟨s, h1, h2, h3⟩ := forRange_spec
    (f := fun (vOut : List (ZMod p)) i => do
      let _ ← idx vOut i
      let x ← decodeSlot P coeff i
      setIdx vOut i x) 0 P.slots (Nat.zero_le _)
    (fun i s => s.length = P.slots ∧ ∀ t < i, s[t]? = some (∑ j ∈ range P.ecd.exp,
      (coeff.getD (j * P.slots + t) 0 : ZMod p) * (P.ecd.base : ZMod p) ^ j))
    vOut ⟨hv, by simp⟩ (by
      rintro i s - hi ⟨h4, h5⟩
      refine ⟨_, by
        rw [idx_ok (by omega), go_bind_ok, decodeSlot_spec P coeff i hi hc, go_bind_ok,
          setIdx_ok (by omega)], by simpa using h4, ?_⟩
      intro t ht
      rw [List.getElem?_set]
      by_cases h6 : i = t
      · subst h6; rw [if_pos rfl, if_pos (by omega)]
      · rw [if_neg h6]; exact h5 t (by omega))
  rw [h1]
  congr 1
  apply List.ext_getElem?
  intro t
  by_cases ht : t < P.slots
  · rw [h3 t ht, List.getElem?_map, List.getElem?_range ht]; rfl
  · rw [List.getElem?_eq_none (by omega), List.getElem?_eq_none (by simp; omega)]

/-- The integer coefficients of a randomised encoding: the message, plus the sample multiplied by
`X^slots - base`. -/
def randCoeff (P : EncParams) (row : List Nat) (s : List Int) (t : Nat) : Int :=
  (row.getD t 0 : Int) + ((if t < P.slots then -(s.getD (P.N - P.slots + t) 0)
    else s.getD (t - P.slots) 0) - P.ecd.base * s.getD t 0)

theorem sampleResidue_spec (s : List Int) (q i : Nat) (hq : 0 < q) :
    sampleResidue s q i < q ∧ (q : Int) ∣ (sampleResidue s q i : Int) - s.getD i 0 := by
  unfold sampleResidue
  refine ⟨Nat.mod_lt _ hq, ?_⟩
  have h1 := (C59_partial (s.getD i 0) q hq).1
  have h2 : (q : Int) ∣ ((signedResidue (s.getD i 0) q % q : Nat) : Int) -
      (signedResidue (s.getD i 0) q : Int) := by
    refine ⟨-((signedResidue (s.getD i 0) q / q : Nat) : Int), ?_⟩
    have h3 := Nat.mod_add_div (signedResidue (s.getD i 0) q) q
    have h4 : ((signedResidue (s.getD i 0) q % q : Nat) : Int) +
      q * (signedResidue (s.getD i 0) q / q : Nat) = signedResidue (s.getD i 0) q := by
      exact_mod_cast h3
    push_cast at *
    linarith
  simpa using dvd_add h2 h1

theorem eq_bigResidue {z : Int} {q r : Nat} (hr : r < q) (h : (q : Int) ∣ (r : Int) - z) :
    r = bigResidue z q := by
  have h1 := bigResidue_cast z (q := q) (by omega)
  have h2 : z % q = r := by
    rw [Int.emod_eq_iff (by omega)]
    obtain ⟨k, hk⟩ := h
    exact ⟨by omega, by omega, ⟨k, by linarith⟩⟩
  omega

/-- The residues written by `randEncodeTo` are those of `randCoeff`. -/
theorem randResidue_eq (P : EncParams) (row : List Nat) (s : List Int) (q t : Nat) (hq : 0 < q) :
    randResidue P row s q t = bigResidue (randCoeff P row s t) q := by
  unfold randResidue
  apply eq_bigResidue (Nat.mod_lt _ hq)
  have hmod : ∀ n : Nat, (q : Int) ∣ ((n % q : Nat) : Int) - n := by
    intro n
    refine ⟨-((n / q : Nat) : Int), ?_⟩
    have h4 : ((n % q : Nat) : Int) + q * (n / q : Nat) = n := by
      exact_mod_cast Nat.mod_add_div n q
    push_cast at *
    linarith
  have hsh : (q : Int) ∣ (shiftResidue P s q t : Int) - (if t < P.slots then
      -(s.getD (P.N - P.slots + t) 0) else s.getD (t - P.slots) 0) := by
    unfold shiftResidue
    split
    · obtain ⟨h1, k, h2⟩ := sampleResidue_spec s q (P.N - P.slots + t) hq
      refine ⟨1 - k, ?_⟩
      rw [Nat.cast_sub h1.le]
      linarith
    · exact (sampleResidue_spec s q (t - P.slots) hq).2
  have hm : (q : Int) ∣ ((q - P.ecd.base * sampleResidue s q t % q : Nat) : Int) -
      (-(P.ecd.base * s.getD t 0)) := by
    obtain ⟨k, h2⟩ := (sampleResidue_spec s q t hq).2
    obtain ⟨l, h3⟩ := hmod (P.ecd.base * sampleResidue s q t)
    refine ⟨1 - l - P.ecd.base * k, ?_⟩
    rw [Nat.cast_sub (Nat.mod_lt _ hq).le]
    push_cast at *
    linear_combination (-1 : Int) * h3 - (P.ecd.base : Int) * h2
  obtain ⟨a, ha⟩ := hsh
  obtain ⟨b, hb⟩ := hm
  obtain ⟨c, hc⟩ := hmod (row.getD t 0 + (shiftResidue P s q t +
    (q - P.ecd.base * sampleResidue s q t % q)))
  refine ⟨a + b + c, ?_⟩
  unfold randCoeff
  push_cast at *
  linear_combination ha + hb + hc

/-- Multiples of `X^slots - base` decode to zero. -/
theorem decode_shift (P : EncParams) (h : P.Good p) (s : List Int) (i : Nat) (hi : i < P.slots) :
    ∑ j ∈ range P.ecd.exp, ((if j * P.slots + i < P.slots then
      -((s.getD (P.N - P.slots + (j * P.slots + i)) 0 : Int) : ZMod p)
      else ((s.getD (j * P.slots + i - P.slots) 0 : Int) : ZMod p)) -
        (P.ecd.base : ZMod p) * ((s.getD (j * P.slots + i) 0 : Int) : ZMod p)) *
          (P.ecd.base : ZMod p) ^ j = 0 := by
  have hp : (P.ecd.base : ZMod p) ^ P.ecd.exp = -1 := by
    have h1 : ((P.ecd.base ^ P.ecd.exp + 1 : Nat) : ZMod p) = 0 := by
      rw [← h.mod]; exact ZMod.natCast_self p
    push_cast at h1
    exact eq_neg_of_add_eq_zero_left h1
  obtain ⟨m, hm⟩ : ∃ m, P.ecd.exp = m + 1 := ⟨P.ecd.exp - 1, by have := h.exp_pos; omega⟩
  have hN : P.N = P.slots * (m + 1) := by rw [h.deg, hm]
  rw [hm] at hp ⊢
  set b := (P.ecd.base : ZMod p)
  let g : Nat → ZMod p := fun j => ((s.getD (j * P.slots + i) 0 : Int) : ZMod p)
  have hterm : ∀ j ∈ range m, ((if (j + 1) * P.slots + i < P.slots then
      -((s.getD (P.N - P.slots + ((j + 1) * P.slots + i)) 0 : Int) : ZMod p)
      else ((s.getD ((j + 1) * P.slots + i - P.slots) 0 : Int) : ZMod p)) -
        b * ((s.getD ((j + 1) * P.slots + i) 0 : Int) : ZMod p)) * b ^ (j + 1) =
      g j * b ^ (j + 1) - g (j + 1) * b ^ (j + 2) := by
    intro j _
    rw [if_neg (by rw [Nat.add_mul]; omega),
      show (j + 1) * P.slots + i - P.slots = j * P.slots + i by rw [Nat.add_mul]; omega]
    ring
  rw [sum_range_succ', sum_congr rfl hterm]
  have htel : ∑ j ∈ range m, (g j * b ^ (j + 1) - g (j + 1) * b ^ (j + 2)) =
      g 0 * b - g m * b ^ (m + 1) := by
    have := Finset.sum_range_sub' (fun j => g j * b ^ (j + 1)) m
    simpa using this
  rw [htel, hp]
  simp only [Nat.zero_mul, Nat.zero_add, pow_zero, mul_one]
  rw [if_pos hi, show P.N - P.slots + i = m * P.slots + i by
    rw [hN, Nat.mul_add, Nat.mul_one, Nat.add_sub_cancel, Nat.mul_comm]]
  change g 0 * b - g m * -1 + (-g m - b * ((s.getD i 0 : Int) : ZMod p)) = 0
  have : g 0 = ((s.getD i 0 : Int) : ZMod p) := by simp [g]
  rw [this]; ring

end Ringo
