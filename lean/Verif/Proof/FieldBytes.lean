import Verif.Proof.FieldMont
import Mathlib.FieldTheory.Finite.Basic
import Mathlib.Data.Nat.Size

/-! # Bytes, comparison and exponentiation in the field packages -/

namespace Ringo

namespace FieldPkg

variable {P : FieldPkg}

theorem beVal_foldl (l : List UInt8) : ∀ acc : Nat,
    l.foldl (fun acc x => acc * 256 + x.toNat) acc = acc * 256 ^ l.length + beVal l := by
  induction l with
  | nil => intro acc; simp [beVal]
  | cons x l ih =>
    intro acc
    have e : beVal (x :: l) = x.toNat * 256 ^ l.length + beVal l := by
      have := ih (0 * 256 + x.toNat)
      rw [beVal, List.foldl_cons, this]; ring
    rw [List.foldl_cons, ih, e, List.length_cons, pow_succ]
    ring

theorem beVal_append (k l : List UInt8) : beVal (k ++ l) = beVal k * 256 ^ l.length + beVal l := by
  rw [beVal, List.foldl_append, ← beVal, beVal_foldl]

theorem beVal_lt (l : List UInt8) : beVal l < 256 ^ l.length := by
  induction l with
  | nil => simp [beVal]
  | cons x l ih =>
    have e : beVal (x :: l) = x.toNat * 256 ^ l.length + beVal l := by
      have := beVal_append [x] l
      simpa [beVal] using this
    have hx := x.toNat_lt
    rw [e, List.length_cons, pow_succ]
    have : x.toNat * 256 ^ l.length ≤ 255 * 256 ^ l.length := Nat.mul_le_mul_right _ (by omega)
    omega

theorem putBE_length (v : Nat) : (putBE v).length = 8 := by simp [putBE]

theorem putBE_val {v : Nat} (hv : v < 2 ^ 64) : beVal (putBE v) = v := by
  simp only [putBE, List.range_succ, List.range_zero, List.nil_append, List.map_cons,
    List.map_nil, List.cons_append, beVal, List.foldl_cons, List.foldl_nil, UInt8.toNat_ofNat']
  norm_num
  omega

theorem wordBytes_cons (a : Nat) (z : List Nat) : wordBytes (a :: z) = wordBytes z ++ putBE a := by
  simp [wordBytes]

theorem wordBytes_length (z : List Nat) : (wordBytes z).length = 8 * z.length := by
  induction z with
  | nil => rfl
  | cons a z ih => rw [wordBytes_cons, List.length_append, ih, putBE_length, List.length_cons]; ring

theorem wordBytes_val : ∀ {z : List Nat}, Words z → beVal (wordBytes z) = wv z
  | [], _ => rfl
  | a :: z, h => by
    rw [wordBytes_cons, beVal_append, putBE_length, wordBytes_val h.tail', putBE_val h.head, wv_cons,
      show (256 : Nat) ^ 8 = 2 ^ 64 by norm_num]
    ring

/-- The words of a byte string, most significant first. -/
def beWords (n : Nat) (b : List UInt8) : List Nat :=
  (List.range n).map fun i => getBE b (8 * (n - 1 - i))

theorem getBE_lt (b : List UInt8) (a : Nat) : getBE b a < 2 ^ 64 := by
  have h := beVal_lt ((b.drop a).take 8)
  have hl : ((b.drop a).take 8).length ≤ 8 := by simp
  calc getBE b a < 256 ^ ((b.drop a).take 8).length := h
    _ ≤ 256 ^ 8 := Nat.pow_le_pow_right (by norm_num) hl
    _ = 2 ^ 64 := by norm_num

theorem beWords_words (n : Nat) (b : List UInt8) : Words (beWords n b) := by
  intro w hw
  obtain ⟨i, _, rfl⟩ := List.mem_map.1 hw
  exact getBE_lt ..

theorem beWords_length (n : Nat) (b : List UInt8) : (beWords n b).length = n := by simp [beWords]

theorem beWords_succ (n : Nat) (b : List UInt8) :
    beWords (n + 1) b = beWords n (b.drop 8) ++ [getBE b 0] := by
  unfold beWords
  rw [List.range_succ, List.map_append]
  congr 1
  · apply List.map_congr_left
    intro i hi
    rw [List.mem_range] at hi
    unfold getBE
    rw [List.drop_drop]
    congr 3
    omega
  · simp

theorem beWords_val : ∀ (n : Nat) (b : List UInt8), b.length = 8 * n → wv (beWords n b) = beVal b
  | 0, b, h => by
    have : b = [] := by simpa using h
    subst this; rfl
  | n + 1, b, h => by
    have hd : (b.drop 8).length = 8 * n := by rw [List.length_drop]; omega
    rw [beWords_succ, wv_concat, beWords_val n _ hd, beWords_length]
    have e : beVal b = beVal (b.take 8) * 256 ^ (b.drop 8).length + beVal (b.drop 8) := by
      rw [← beVal_append, List.take_append_drop]
    rw [e, hd, pow_mul, show (256 : Nat) ^ 8 = 2 ^ 64 by norm_num]
    unfold getBE
    rw [List.drop_zero]
    ring

theorem mont_element (h : P.Good) {b : List UInt8} (hb : b.length = 8 * P.n) {v : List Nat}
    (he : P.element b = some v) : MontForm P.p P.n v (beVal b : ZMod P.p) := by
  unfold element at he
  have hw : ((List.range P.n).map fun i => getBE b (8 * (P.n - 1 - i))) = beWords P.n b := rfl
  simp only [hw] at he
  split at he
  · simp at he
  · rw [Option.some.injEq] at he
    rw [← he, ← beWords_val P.n b hb]
    exact mont_toMont h (beWords_length _ _) (beWords_words _ _)

theorem mont_setBytes (h : P.Good) (e : List UInt8) :
    MontForm P.p P.n (P.setBytes e) (beVal e : ZMod P.p) := by
  have hs : MontForm P.p P.n (P.setBigInt (beVal e)) (beVal e : ZMod P.p) := by
    have := mont_setBigInt h (beVal e)
    rwa [Int.cast_natCast] at this
  unfold setBytes
  split
  · rename_i hl
    split
    · rename_i v hv
      exact mont_element h hl hv
    · exact hs
  · exact hs

/-! ### Comparison -/

theorem cmpTop_spec : ∀ (k : Nat) (z x : List Nat), z.length = k → x.length = k → Words z → Words x →
    cmpTop z.reverse x.reverse = if wv z < wv x then -1 else if wv x < wv z then 1 else 0
  | 0, z, q, hz, hq, _, _ => by
    rw [List.length_eq_zero_iff] at hz hq
    subst hz; subst hq
    simp [cmpTop]
  | k + 1, z, q, hz, hq, wz, wq => by
    obtain ⟨z', a, rfl, hz'⟩ := concat_of_length hz
    obtain ⟨q', b, rfl, hq'⟩ := concat_of_length hq
    have ih := cmpTop_spec k z' q' hz' hq' wz.of_append_left wq.of_append_left
    have b1 := wv_lt wz.of_append_left
    have b2 := wv_lt wq.of_append_left
    rw [hz'] at b1
    rw [hq'] at b2
    rw [List.reverse_append, List.reverse_append, wv_concat, wv_concat, hz', hq']
    simp only [List.reverse_cons, List.reverse_nil, List.nil_append, List.cons_append, cmpTop, ih]
    generalize (2 ^ 64) ^ k = B at *
    rcases Nat.lt_trichotomy a b with h' | h' | h'
    · have : B * a + B ≤ B * b := by
        calc B * a + B = B * (a + 1) := by ring
          _ ≤ B * b := Nat.mul_le_mul_left _ h'
      rw [if_neg (by omega), if_pos h', if_pos (by omega)]
    · subst h'
      rw [if_neg (by omega), if_neg (by omega)]
      simp only [Nat.add_lt_add_iff_right]
    · have : B * b + B ≤ B * a := by
        calc B * b + B = B * (b + 1) := by ring
          _ ≤ B * a := Nat.mul_le_mul_left _ h'
      rw [if_pos h', if_neg (by omega), if_pos (by omega)]

theorem xorNat_eq_zero {a b : Nat} : a ^^^ b = 0 ↔ a = b := by
  constructor
  · intro h
    have : a ^^^ (a ^^^ b) = a := by rw [h, Nat.xor_zero]
    rwa [← Nat.xor_assoc, Nat.xor_self, Nat.zero_xor, eq_comm] at this
  · rintro rfl
    exact Nat.xor_self a

theorem foldl_xor_zero : ∀ (l : List (Nat × Nat)) (a : Nat),
    l.foldl (fun a b => a ||| (b.1 ^^^ b.2)) a = 0 ↔ a = 0 ∧ ∀ w ∈ l, w.1 = w.2
  | [], a => by simp
  | w :: x, a => by
    rw [List.foldl_cons, foldl_xor_zero x, Nat.or_eq_zero_iff, xorNat_eq_zero]
    simp only [List.mem_cons, forall_eq_or_imp]
    tauto

theorem equal_iff {x y : List Nat} (hl : x.length = y.length) : equal x y = true ↔ x = y := by
  unfold equal
  rw [beq_iff_eq, foldl_xor_zero]
  constructor
  · rintro ⟨_, h⟩
    apply List.ext_getElem hl
    intro i h1 h2
    exact h (x[i], y[i]) (by
      rw [List.mem_iff_getElem]
      exact ⟨i, by simp; omega, by simp⟩)
  · rintro rfl
    refine ⟨rfl, ?_⟩
    rintro ⟨a, b⟩ hw
    obtain ⟨i, hi, e⟩ := List.mem_iff_getElem.1 hw
    simp at e
    exact e.1.symm.trans e.2

/-! ### Powers -/

theorem expLoop (h : P.Good) {x : List Nat} {a : ZMod P.p} (hx : MontForm P.p P.n x a) (e : Nat) :
    ∀ (k : Nat) (z : List Nat), MontForm P.p P.n z (a ^ (e >>> k)) →
      MontForm P.p P.n ((List.range k).reverse.foldl (fun z i =>
        let z := P.mul z z
        if e.testBit i then P.mul z x else z) z) (a ^ e)
  | 0, z, hz => by simpa using hz
  | k + 1, z, hz => by
    rw [List.range_succ, List.reverse_append, List.reverse_singleton, List.singleton_append,
      List.foldl_cons]
    apply expLoop h hx e k
    have hs := mont_mul' h hz hz
    have e1 : e >>> k = 2 * (e >>> (k + 1)) + (e >>> k) % 2 := by
      rw [Nat.shiftRight_succ]; omega
    simp only
    by_cases hb : e.testBit k = true
    · rw [if_pos hb]
      have h1 : (e >>> k) % 2 = 1 := by
        rw [Nat.testBit, Nat.and_comm, Nat.and_one_is_mod] at hb
        simpa using hb
      have := mont_mul' h hs hx
      rwa [← pow_add, ← pow_succ, ← Nat.two_mul, show 2 * (e >>> (k + 1)) + 1 = e >>> k by omega] at this
    · rw [if_neg hb]
      have h1 : (e >>> k) % 2 = 0 := by
        rw [Nat.testBit, Nat.and_comm, Nat.and_one_is_mod] at hb
        have : ¬ (e >>> k) % 2 = 1 := by simpa using hb
        omega
      rwa [← pow_add, ← Nat.two_mul, show 2 * (e >>> (k + 1)) = e >>> k by omega] at hs

theorem mont_expBits (h : P.Good) {x : List Nat} {a : ZMod P.p} (hx : MontForm P.p P.n x a) {e : Nat}
    (he : 0 < e) : MontForm P.p P.n (P.expBits x e) (a ^ e) := by
  apply expLoop h hx
  have hs : 0 < e.size := Nat.size_pos.2 he
  have h1 : e >>> (e.size - 1) = 1 := by
    rw [Nat.shiftRight_eq_div_pow]
    have hlo : 2 ^ (e.size - 1) ≤ e := by
      rw [← Nat.lt_size]; omega
    have hhi : e < 2 ^ (e.size - 1) * 2 := by
      have := Nat.lt_size_self e
      rwa [show e.size = (e.size - 1) + 1 by omega, pow_succ] at this
    have hpos : 0 < 2 ^ (e.size - 1) := by positivity
    have a1 : e / 2 ^ (e.size - 1) < 2 := by
      rw [Nat.div_lt_iff_lt_mul hpos]; omega
    have a2 : 1 ≤ e / 2 ^ (e.size - 1) := by
      rw [Nat.le_div_iff_mul_le hpos]; omega
    omega
  rw [h1, pow_one]
  exact hx

theorem mont_inverseExp (h : P.Good) {x : List Nat} {a : ZMod P.p} (hx : MontForm P.p P.n x a)
    (ha : a ≠ 0) : MontForm P.p P.n (P.inverseExp x) a⁻¹ := by
  have := Fact.mk h.prime
  have h2 := h.prime.two_le
  have h3 := h.odd
  have := mont_expBits h hx (e := P.p - 2) (by omega)
  have e : a ^ (P.p - 2) = a⁻¹ := by
    apply eq_inv_of_mul_eq_one_left
    rw [← pow_succ, show P.p - 2 + 1 = P.p - 1 by omega]
    exact ZMod.pow_card_sub_one_eq_one ha
  rwa [e] at this

end FieldPkg

end Ringo
