import Verif.Model.Field
import Mathlib.Data.Nat.Digits.Lemmas
import Mathlib.Data.List.GetD
import Mathlib.Tactic.Ring
import Mathlib.Tactic.Linarith
import Mathlib.Tactic.LinearCombination

/-! # Word arithmetic of the field packages -/

namespace Ringo

/-- Words: every entry is a `uint64`. -/
def Words (l : List Nat) : Prop := ∀ w ∈ l, w < 2 ^ 64

/-- The number with the given words. -/
abbrev wv (l : List Nat) : Nat := Nat.ofDigits (2 ^ 64) l

theorem Words.nil : Words [] := by simp [Words]

theorem Words.cons {a : Nat} {l : List Nat} (h : a < 2 ^ 64) (hl : Words l) : Words (a :: l) := by
  intro w hw
  rcases List.mem_cons.1 hw with rfl | hw
  · exact h
  · exact hl w hw

theorem Words.head {a : Nat} {l : List Nat} (h : Words (a :: l)) : a < 2 ^ 64 := h a (by simp)

theorem Words.tail' {a : Nat} {l : List Nat} (h : Words (a :: l)) : Words l :=
  fun w hw => h w (by simp [hw])

theorem Words.append {k l : List Nat} (hk : Words k) (hl : Words l) : Words (k ++ l) := by
  intro w hw
  rcases List.mem_append.1 hw with h | h
  · exact hk w h
  · exact hl w h

theorem Words.of_append_left {k l : List Nat} (h : Words (k ++ l)) : Words k :=
  fun w hw => h w (by simp [hw])

theorem Words.of_append_right {k l : List Nat} (h : Words (k ++ l)) : Words l :=
  fun w hw => h w (by simp [hw])

theorem wv_cons (a : Nat) (l : List Nat) : wv (a :: l) = a + 2 ^ 64 * wv l := by
  simp [wv, Nat.ofDigits_cons]

theorem wv_nil : wv [] = 0 := rfl

theorem wv_append (k l : List Nat) : wv (k ++ l) = wv k + (2 ^ 64) ^ k.length * wv l :=
  Nat.ofDigits_append ..

theorem wv_concat (k : List Nat) (a : Nat) : wv (k ++ [a]) = wv k + (2 ^ 64) ^ k.length * a := by
  rw [wv_append]; simp [wv]

theorem wv_lt {l : List Nat} (h : Words l) : wv l < (2 ^ 64) ^ l.length :=
  Nat.ofDigits_lt_base_pow_length (by norm_num) h

theorem wv_replicate (k : Nat) : wv (List.replicate k 0) = 0 := by
  induction k with
  | zero => rfl
  | succ k ih => rw [List.replicate_succ, wv_cons, ih, Nat.mul_zero]

theorem Words.replicate (k : Nat) : Words (List.replicate k 0) := by
  intro w hw
  rw [List.eq_of_mem_replicate hw]; norm_num

theorem wv_inj {k l : List Nat} (hk : Words k) (hl : Words l) (hlen : k.length = l.length)
    (h : wv k = wv l) : k = l :=
  Nat.ofDigits_inj_of_len_eq (by norm_num) hlen hk hl h

/-! ### Single words -/

theorem mul64_spec (a b : Nat) : (mul64 a b).1 * 2 ^ 64 + (mul64 a b).2 = a * b := by
  simp only [mul64]; omega

theorem mul64_lt {a b : Nat} (ha : a < 2 ^ 64) (hb : b < 2 ^ 64) :
    (mul64 a b).1 < 2 ^ 64 ∧ (mul64 a b).2 < 2 ^ 64 := by
  constructor
  · simp only [mul64]
    rw [Nat.div_lt_iff_lt_mul (by norm_num)]
    exact Nat.mul_lt_mul'' ha hb
  · exact Nat.mod_lt _ (by norm_num)

theorem add64_spec (a b c : Nat) : (add64 a b c).1 + 2 ^ 64 * (add64 a b c).2 = a + b + c := by
  simp only [add64]; omega

theorem add64_lt (a b c : Nat) : (add64 a b c).1 < 2 ^ 64 := Nat.mod_lt _ (by norm_num)

theorem add64_carry {a b c : Nat} (ha : a < 2 ^ 64) (hb : b < 2 ^ 64) (hc : c ≤ 1) :
    (add64 a b c).2 ≤ 1 := by
  simp only [add64]; omega

theorem sub64_spec {a b c : Nat} (ha : a < 2 ^ 64) (hb : b < 2 ^ 64) (hc : c ≤ 1) :
    (sub64 a b c).1 + b + c = a + 2 ^ 64 * (sub64 a b c).2 ∧ (sub64 a b c).1 < 2 ^ 64 ∧
      (sub64 a b c).2 ≤ 1 := by
  simp only [sub64]
  split <;> simp only [] <;> omega

theorem madd1_spec {a b c : Nat} (ha : a < 2 ^ 64) (hb : b < 2 ^ 64) (hc : c < 2 ^ 64) :
    (madd1 a b c).1 * 2 ^ 64 + (madd1 a b c).2 = a * b + c ∧ (madd1 a b c).1 < 2 ^ 64 ∧
      (madd1 a b c).2 < 2 ^ 64 := by
  have h : a * b ≤ (2 ^ 64 - 1) * (2 ^ 64 - 1) := Nat.mul_le_mul (by omega) (by omega)
  simp only [madd1, mul64, add64]
  generalize a * b = m at *
  omega

theorem madd2_spec {a b c d : Nat} (ha : a < 2 ^ 64) (hb : b < 2 ^ 64) (hc : c < 2 ^ 64)
    (hd : d < 2 ^ 64) :
    (madd2 a b c d).1 * 2 ^ 64 + (madd2 a b c d).2 = a * b + c + d ∧ (madd2 a b c d).1 < 2 ^ 64 ∧
      (madd2 a b c d).2 < 2 ^ 64 := by
  have h : a * b ≤ (2 ^ 64 - 1) * (2 ^ 64 - 1) := Nat.mul_le_mul (by omega) (by omega)
  simp only [madd2, mul64, add64]
  generalize a * b = m at *
  omega

theorem madd0_spec {a b c : Nat} (ha : a < 2 ^ 64) (hb : b < 2 ^ 64) (hc : c < 2 ^ 64)
    (h0 : (a * b + c) % 2 ^ 64 = 0) :
    madd0 a b c * 2 ^ 64 = a * b + c ∧ madd0 a b c < 2 ^ 64 := by
  have h : a * b ≤ (2 ^ 64 - 1) * (2 ^ 64 - 1) := Nat.mul_le_mul (by omega) (by omega)
  simp only [madd0, mul64, add64]
  generalize a * b = m at *
  omega

/-! ### Rows of words -/

theorem addChain_spec : ∀ (x y : List Nat) (c : Nat), Words x → Words y → x.length = y.length → c ≤ 1 →
    wv (addChain x y c).1 + (2 ^ 64) ^ x.length * (addChain x y c).2 = wv x + wv y + c ∧
      (addChain x y c).1.length = x.length ∧ Words (addChain x y c).1 ∧ (addChain x y c).2 ≤ 1
  | [], [], c, _, _, _, hc => by simp [addChain, Words.nil, hc]
  | x :: xs, y :: ys, c, hx, hy, hl, hc => by
    obtain ⟨h1, h2, h3, h4⟩ := addChain_spec xs ys (add64 x y c).2 hx.tail' hy.tail'
      (by simpa using hl) (add64_carry hx.head hy.head hc)
    have ha := add64_spec x y c
    simp only [addChain]
    refine ⟨?_, by simp [h2], h3.cons (add64_lt x y c), h4⟩
    rw [wv_cons, wv_cons, wv_cons, List.length_cons, pow_succ]
    linear_combination ha + 2 ^ 64 * h1
  | [], _ :: _, _, _, _, hl, _ => by simp at hl
  | _ :: _, [], _, _, _, hl, _ => by simp at hl

theorem subChain_spec : ∀ (x y : List Nat) (c : Nat), Words x → Words y → x.length = y.length → c ≤ 1 →
    wv (subChain x y c).1 + wv y + c = wv x + (2 ^ 64) ^ x.length * (subChain x y c).2 ∧
      (subChain x y c).1.length = x.length ∧ Words (subChain x y c).1 ∧ (subChain x y c).2 ≤ 1
  | [], [], c, _, _, _, hc => by simp [subChain, Words.nil, hc]
  | x :: xs, y :: ys, c, hx, hy, hl, hc => by
    obtain ⟨ha, ha', ha''⟩ := sub64_spec hx.head hy.head hc
    obtain ⟨h1, h2, h3, h4⟩ := subChain_spec xs ys (sub64 x y c).2 hx.tail' hy.tail'
      (by simpa using hl) ha''
    simp only [subChain]
    refine ⟨?_, by simp [h2], h3.cons ha', h4⟩
    rw [wv_cons, wv_cons, wv_cons, List.length_cons, pow_succ]
    linear_combination ha + 2 ^ 64 * h1
  | [], _ :: _, _, _, _, hl, _ => by simp at hl
  | _ :: _, [], _, _, _, hl, _ => by simp at hl

theorem madd1Row_spec {v : Nat} (hv : v < 2 ^ 64) : ∀ (x : List Nat) (C : Nat), Words x → C < 2 ^ 64 →
    wv (madd1Row v x C).1 + (2 ^ 64) ^ x.length * (madd1Row v x C).2 = v * wv x + C ∧
      (madd1Row v x C).1.length = x.length ∧ Words (madd1Row v x C).1 ∧ (madd1Row v x C).2 < 2 ^ 64
  | [], C, _, hC => by simpa [madd1Row, Words.nil] using hC
  | x :: xs, C, hx, hC => by
    obtain ⟨ha, ha', ha''⟩ := madd1_spec hv hx.head hC
    obtain ⟨h1, h2, h3, h4⟩ := madd1Row_spec hv xs (madd1 v x C).1 hx.tail' ha'
    simp only [madd1Row]
    refine ⟨?_, by simp [h2], h3.cons ha'', h4⟩
    rw [wv_cons, wv_cons, List.length_cons, pow_succ]
    linear_combination ha + 2 ^ 64 * h1

theorem madd2Row_spec {v : Nat} (hv : v < 2 ^ 64) : ∀ (x t : List Nat) (C : Nat), Words x → Words t →
    x.length = t.length → C < 2 ^ 64 →
    wv (madd2Row v x t C).1 + (2 ^ 64) ^ x.length * (madd2Row v x t C).2 = v * wv x + wv t + C ∧
      (madd2Row v x t C).1.length = x.length ∧ Words (madd2Row v x t C).1 ∧
      (madd2Row v x t C).2 < 2 ^ 64
  | [], [], C, _, _, _, hC => by simpa [madd2Row, Words.nil] using hC
  | x :: xs, t :: ts, C, hx, ht, hl, hC => by
    obtain ⟨ha, ha', ha''⟩ := madd2_spec hv hx.head ht.head hC
    obtain ⟨h1, h2, h3, h4⟩ := madd2Row_spec hv xs ts (madd2 v x t C).1 hx.tail' ht.tail'
      (by simpa using hl) ha'
    simp only [madd2Row]
    refine ⟨?_, by simp [h2], h3.cons ha'', h4⟩
    rw [wv_cons, wv_cons, wv_cons, List.length_cons, pow_succ]
    linear_combination ha + 2 ^ 64 * h1
  | [], _ :: _, _, _, _, hl, _ => by simp at hl
  | _ :: _, [], _, _, _, hl, _ => by simp at hl

theorem hiRow_loRow (v : Nat) : ∀ y : List Nat,
    wv (FieldPkg.loRow v y) + 2 ^ 64 * wv (FieldPkg.hiRow v y) = v * wv y
  | [] => by simp [FieldPkg.loRow, FieldPkg.hiRow]
  | a :: y => by
    have h := hiRow_loRow v y
    have hm := mul64_spec v a
    have e1 : FieldPkg.loRow v (a :: y) = (mul64 v a).2 :: FieldPkg.loRow v y := rfl
    have e2 : FieldPkg.hiRow v (a :: y) = (mul64 v a).1 :: FieldPkg.hiRow v y := rfl
    rw [e1, e2, wv_cons, wv_cons, wv_cons]
    linear_combination hm + 2 ^ 64 * h

theorem loRow_words {v : Nat} (y : List Nat) : Words (FieldPkg.loRow v y) := by
  intro w hw
  obtain ⟨a, _, rfl⟩ := List.mem_map.1 hw
  exact Nat.mod_lt _ (by norm_num)

theorem hiRow_words {v : Nat} (hv : v < 2 ^ 64) {y : List Nat} (hy : Words y) :
    Words (FieldPkg.hiRow v y) := by
  intro w hw
  obtain ⟨a, ha, rfl⟩ := List.mem_map.1 hw
  exact (mul64_lt hv (hy a ha)).1

@[simp] theorem loRow_length (v : Nat) (y : List Nat) : (FieldPkg.loRow v y).length = y.length := by
  simp [FieldPkg.loRow]

@[simp] theorem hiRow_length (v : Nat) (y : List Nat) : (FieldPkg.hiRow v y).length = y.length := by
  simp [FieldPkg.hiRow]

/-! ### Comparison -/

theorem ltTop_spec : ∀ (k : Nat) (z q : List Nat), z.length = k → q.length = k → Words z → Words q →
    (ltTop z.reverse q.reverse = true ↔ wv z < wv q)
  | 0, z, q, hz, hq, _, _ => by
    rw [List.length_eq_zero_iff] at hz hq
    subst hz; subst hq
    simp [ltTop]
  | k + 1, z, q, hz, hq, wz, wq => by
    obtain ⟨z', a, rfl⟩ : ∃ z' a, z = z' ++ [a] := by
      rcases List.eq_nil_or_concat z with rfl | ⟨z', a, rfl⟩
      · simp at hz
      · exact ⟨z', a, by simp⟩
    obtain ⟨q', b, rfl⟩ : ∃ q' b, q = q' ++ [b] := by
      rcases List.eq_nil_or_concat q with rfl | ⟨q', b, rfl⟩
      · simp at hq
      · exact ⟨q', b, by simp⟩
    have hz' : z'.length = k := by simpa using hz
    have hq' : q'.length = k := by simpa using hq
    have ih := ltTop_spec k z' q' hz' hq' wz.of_append_left wq.of_append_left
    have b1 := wv_lt wz.of_append_left
    have b2 := wv_lt wq.of_append_left
    rw [hz'] at b1
    rw [hq'] at b2
    rw [List.reverse_append, List.reverse_append, wv_concat, wv_concat, hz', hq']
    simp only [List.reverse_cons, List.reverse_nil, List.nil_append, List.cons_append, ltTop,
      Bool.or_eq_true, decide_eq_true_eq, Bool.and_eq_true, ih]
    generalize (2 ^ 64) ^ k = B at *
    constructor
    · rintro (h | ⟨rfl, h⟩)
      · have : B * a + B ≤ B * b := by
          calc B * a + B = B * (a + 1) := by ring
            _ ≤ B * b := Nat.mul_le_mul_left _ h
        omega
      · omega
    · intro h
      rcases Nat.lt_trichotomy a b with h' | h' | h'
      · exact Or.inl h'
      · subst h'; exact Or.inr ⟨rfl, by omega⟩
      · have : B * b + B ≤ B * a := by
          calc B * b + B = B * (b + 1) := by ring
            _ ≤ B * a := Nat.mul_le_mul_left _ h'
        omega

end Ringo
