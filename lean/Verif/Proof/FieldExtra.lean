import Verif.Model.FieldExtra
import Verif.Proof.FieldInvLoop

/-! # `Halve`, `Div`, `Exp`, `BatchInvert`, `SetRandom` -/

namespace Ringo

namespace FieldPkg

variable {P : FieldPkg}

theorem shiftWord1 {a h : Nat} (ha : a < 2 ^ 64) :
    (a >>> 1) ||| ((h <<< 63) % 2 ^ 64) = a / 2 + 2 ^ 63 * (h % 2) := by
  rw [Nat.shiftRight_eq_div_pow, Nat.shiftLeft_eq]
  have : h * 2 ^ 63 % 2 ^ 64 = 2 ^ 63 * (h % 2) := by omega
  rw [this, or_disjoint (by omega)]

theorem shift1_spec : ∀ (z : List Nat) (top : Nat), Words z → z ≠ [] → top < 2 →
    wv (shift1 z top) = (wv z + (2 ^ 64) ^ z.length * top) / 2 ∧ (shift1 z top).length = z.length ∧
      Words (shift1 z top)
  | [], _, _, hne, _ => absurd rfl hne
  | [a], top, wz, _, hh => by
    have ha := wz.head
    simp only [shift1, shiftWord1 ha]
    refine ⟨?_, rfl, Words.nil.cons (by omega)⟩
    rw [wv_cons, wv_cons, wv_nil, List.length_singleton, pow_one]
    omega
  | a :: a' :: as, top, wz, _, hh => by
    obtain ⟨e, l, w⟩ := shift1_spec (a' :: as) top wz.tail' (by simp) hh
    have ha := wz.head
    have ha' := wz.tail'.head
    simp only [shift1, shiftWord1 ha]
    refine ⟨?_, by rw [List.length_cons, l]; rfl, w.cons (by omega)⟩
    rw [wv_cons, e]
    have eN : wv (a :: a' :: as) + (2 ^ 64) ^ (a :: a' :: as).length * top =
        a + 2 ^ 64 * (wv (a' :: as) + (2 ^ 64) ^ (a' :: as).length * top) := by
      rw [wv_cons a, List.length_cons (a := a), pow_succ (2 ^ 64)]
      ring
    have eM : (wv (a' :: as) + (2 ^ 64) ^ (a' :: as).length * top) % 2 = a' % 2 := by
      rw [wv_cons, List.length_cons, pow_succ (2 ^ 64)]
      rw [show a' + 2 ^ 64 * wv as + (2 ^ 64) ^ as.length * 2 ^ 64 * top =
        a' + 2 * (2 ^ 63 * wv as + (2 ^ 64) ^ as.length * 2 ^ 63 * top) by ring, Nat.add_mul_mod_self_left]
    rw [eN]
    generalize wv (a' :: as) + (2 ^ 64) ^ (a' :: as).length * top = N at *
    omega

theorem mont_halve (h : P.Good) {z : List Nat} {a : ZMod P.p} (hz : MontForm P.p P.n z a) :
    MontForm P.p P.n (P.halve z) (a * 2⁻¹) := by
  have := Fact.mk h.prime
  have h2 := h.two_le
  have hodd : P.p % 2 = 1 := h.prime.eq_two_or_odd.resolve_left h.odd
  have h20 : (2 : ZMod P.p) ≠ 0 := by
    intro h0
    have : P.p ∣ 2 := (ZMod.natCast_eq_zero_iff 2 P.p).1 (by exact_mod_cast h0)
    have := Nat.le_of_dvd (by norm_num) this
    have := h.prime.two_le
    have := h.odd
    omega
  have hne : z ≠ [] := by intro h0; have := hz.len; rw [h0] at this; simp at this; omega
  have hlow : z.headD 0 &&& 1 = wv z % 2 := by
    rw [Nat.and_one_is_mod]
    rcases z with _ | ⟨t, ts⟩
    · exact absurd rfl hne
    · rw [List.headD_cons, wv_cons]; omega
  have hlt : wv z < P.p := hz.lt
  have hval : (wv z : ZMod P.p) = a * P.R := hz.val
  have fin : ∀ N : Nat, N % 2 = 0 → N < 2 * P.p → ((N : Nat) : ZMod P.p) = a * P.R → ∀ y : List Nat, y.length = P.n →
      Words y → wv y = N / 2 → MontForm P.p P.n y (a * 2⁻¹) := by
    intro N hN hlt' hv y ly wy ey
    refine ⟨ly, wy, ?_, ?_⟩
    · show wv y < P.p
      omega
    · show ((wv y : Nat) : ZMod P.p) = a * 2⁻¹ * P.R
      have : ((2 * wv y : Nat) : ZMod P.p) = a * P.R := by rw [← hv]; congr 1; omega
      generalize wv y = Y at *
      push_cast at this
      field_simp
      linear_combination this
  unfold halve
  rw [hlow]
  by_cases ho : wv z % 2 = 1
  · rw [if_pos ho]
    obtain ⟨e, l, w, c⟩ := addChain_spec z P.q 0 hz.words h.q_words hz.len (by omega)
    have hp : wv P.q = P.p := rfl
    rw [hp, hz.len, Nat.add_zero] at e
    dsimp only
    generalize addChain z P.q 0 = r at *
    have htop : (2 ^ 64) ^ P.n * r.2 = (2 ^ 64) ^ P.n * (if (P.full && r.2 != 0) = true then 1 else 0) := by
      by_cases hf : P.full = true
      · have : r.2 = 0 ∨ r.2 = 1 := by omega
        rcases this with h0 | h0 <;> simp [hf, h0]
      · have hf' : P.full = false := by simpa using hf
        have hs := h.spare_add hf'
        have : r.2 = 0 := by
          by_contra hne
          have : (2 ^ 64) ^ P.n ≤ (2 ^ 64) ^ P.n * r.2 := Nat.le_mul_of_pos_right _ (by omega)
          omega
        simp [this]
    have hr : r.1 ≠ [] := by intro h0; rw [h0] at l; simp at l; have := hz.len; omega
    obtain ⟨e1, l1, w1⟩ := shift1_spec r.1 (if (P.full && r.2 != 0) = true then 1 else 0) w hr
      (by split <;> omega)
    rw [l, hz.len, ← htop, e] at e1
    refine fin (wv z + P.p) (by omega) (by omega) ?_ _ (by rw [l1, l, hz.len]) w1 e1
    rw [Nat.cast_add, ZMod.natCast_self, add_zero, hval]
  · rw [if_neg ho]
    obtain ⟨e1, l1, w1⟩ := shift1_spec z 0 hz.words hne (by omega)
    rw [Nat.mul_zero, Nat.add_zero] at e1
    have : (if (P.full && (0 : Nat) != 0) = true then 1 else 0) = 0 := by simp
    dsimp only
    rw [this]
    exact fin (wv z) (by omega) (by omega) hval _ (l1.trans hz.len) w1 e1

/-- What is required of `Inverse`. -/
def Inverts (P : FieldPkg) (invert : List Nat → Option (List Nat)) : Prop :=
  ∀ (x : List Nat) (a : ZMod P.p), MontForm P.p P.n x a → ∃ z, invert x = some z ∧ MontForm P.p P.n z a⁻¹

theorem mont_div (h : P.Good) {invert : List Nat → Option (List Nat)} (hi : P.Inverts invert)
    {x y : List Nat} {a b : ZMod P.p} (hx : MontForm P.p P.n x a) (hy : MontForm P.p P.n y b) :
    ∃ z, P.div invert x y = some z ∧ MontForm P.p P.n z (a * b⁻¹) := by
  obtain ⟨z, e, hz⟩ := hi y b hy
  refine ⟨_, by rw [div, e]; rfl, mont_mul' h hx hz⟩

theorem mont_exp (h : P.Good) {invert : List Nat → Option (List Nat)} (hi : P.Inverts invert)
    {x : List Nat} {a : ZMod P.p} (hx : MontForm P.p P.n x a) (k : Int) :
    have := Fact.mk h.prime
    ∃ z, P.exp invert x k = some z ∧ MontForm P.p P.n z (a ^ k) := by
  intro _
  unfold exp
  by_cases h0 : k = 0
  · rw [if_pos h0, h0, zpow_zero]
    exact ⟨_, rfl, mont_one h⟩
  rw [if_neg h0]
  by_cases hn : k < 0
  · rw [if_pos hn]
    obtain ⟨z, e, hz⟩ := hi x a hx
    refine ⟨_, by rw [e]; rfl, ?_⟩
    have := mont_expBits h hz (e := (-k).toNat) (by omega)
    have e2 : a⁻¹ ^ (-k).toNat = a ^ k := by
      rw [inv_pow, ← zpow_natCast, ← zpow_neg]
      congr 1
      omega
    rwa [e2] at this
  · rw [if_neg hn]
    refine ⟨_, rfl, ?_⟩
    have := mont_expBits h hx (e := k.toNat) (by omega)
    rw [← zpow_natCast, Int.toNat_of_nonneg (by omega)] at this
    exact this

theorem batch_spec (h : P.Good) (a : List (List Nat)) (c : List (ZMod P.p))
    (hac : List.Forall₂ (MontForm P.p P.n) a c) : ∀ (acc : List Nat) (α : ZMod P.p), MontForm P.p P.n acc α →
      α ≠ 0 → ∃ β : ZMod P.p, β ≠ 0 ∧ MontForm P.p P.n (P.batchForward acc a).2 β ∧
        ∀ A, MontForm P.p P.n A β⁻¹ →
          MontForm P.p P.n (P.batchBackward A a (P.batchForward acc a).1).2 α⁻¹ ∧
            List.Forall₂ (fun r y => MontForm P.p P.n r y⁻¹)
              (P.batchBackward A a (P.batchForward acc a).1).1 c := by
  have := Fact.mk h.prime
  induction hac with
  | nil =>
    intro acc α hα h0
    exact ⟨α, h0, hα, fun A hA => ⟨hA, List.Forall₂.nil⟩⟩
  | @cons x y xs ys hxy _ ih =>
    intro acc α hα h0
    by_cases hz : isZero x = true
    · have hy : y = 0 := (isZero_mont h hxy).1 hz
      obtain ⟨β, hb, h1, h2⟩ := ih acc α hα h0
      refine ⟨β, hb, by simp only [batchForward, hz, if_true]; exact h1, fun A hA => ?_⟩
      obtain ⟨h3, h4⟩ := h2 A hA
      simp only [batchForward, hz, if_true, batchBackward]
      refine ⟨h3, List.Forall₂.cons ?_ h4⟩
      rw [hy, inv_zero]
      exact mont_zero h
    · have hy : y ≠ 0 := fun h0 => hz ((isZero_mont h hxy).2 h0)
      obtain ⟨β, hb, h1, h2⟩ := ih (P.mul acc x) (α * y) (mont_mul' h hα hxy) (mul_ne_zero h0 hy)
      have hz' : isZero x = false := by simpa using hz
      refine ⟨β, hb, by simp only [batchForward, hz', Bool.false_eq_true, if_false]; exact h1, fun A hA => ?_⟩
      obtain ⟨h3, h4⟩ := h2 A hA
      simp only [batchForward, hz', Bool.false_eq_true, if_false, batchBackward]
      refine ⟨?_, List.Forall₂.cons ?_ h4⟩
      · have := mont_mul' h h3 hxy
        rwa [show (α * y)⁻¹ * y = α⁻¹ by field_simp] at this
      · have := mont_mul' h hα h3
        rwa [show α * (α * y)⁻¹ = y⁻¹ by field_simp] at this

theorem mont_batchInvert (h : P.Good) {invert : List Nat → Option (List Nat)} (hi : P.Inverts invert)
    {a : List (List Nat)} {c : List (ZMod P.p)} (hac : List.Forall₂ (MontForm P.p P.n) a c) :
    ∃ r, P.batchInvert invert a = some r ∧ List.Forall₂ (fun r y => MontForm P.p P.n r y⁻¹) r c := by
  have := Fact.mk h.prime
  unfold batchInvert
  split
  · rename_i h0
    have : a = [] := List.length_eq_zero_iff.1 h0
    subst this
    cases hac
    exact ⟨[], rfl, List.Forall₂.nil⟩
  · obtain ⟨β, hb, h1, h2⟩ := batch_spec h a c hac P.one 1 (mont_one h) one_ne_zero
    obtain ⟨A, e, hA⟩ := hi _ _ h1
    refine ⟨_, by dsimp only; rw [e]; rfl, (h2 A hA).2⟩

/-! ### `SetRandom` -/

/-- The number written with the bytes `b`, least significant first. -/
def leNum (b : List UInt8) : Nat := Nat.ofDigits 256 (b.map UInt8.toNat)

theorem leNum_cons (x : UInt8) (b : List UInt8) : leNum (x :: b) = x.toNat + 256 * leNum b := by
  simp [leNum, Nat.ofDigits_cons]

theorem leNum_append (b c : List UInt8) : leNum (b ++ c) = leNum b + 256 ^ b.length * leNum c := by
  simp [leNum, Nat.ofDigits_append]

theorem leNum_lt (b : List UInt8) : leNum b < 256 ^ b.length := by
  have := Nat.ofDigits_lt_base_pow_length (b := 256) (l := b.map UInt8.toNat) (by norm_num) (by
    intro x hx
    obtain ⟨y, -, rfl⟩ := List.mem_map.1 hx
    exact y.toNat_lt)
  simpa [leNum] using this

theorem leNum_reverse (b : List UInt8) : beVal b.reverse = leNum b := by
  induction b with
  | nil => rfl
  | cons x b ih =>
    rw [List.reverse_cons, beVal_append, ih, leNum_cons]
    simp [beVal]
    ring

theorem leNum_zeros (k : Nat) : leNum (List.replicate k 0) = 0 := by
  induction k with
  | zero => rfl
  | succ k ih => rw [List.replicate_succ, leNum_cons, ih]; rfl

theorem leNum_inj : ∀ {b c : List UInt8}, b.length = c.length → leNum b = leNum c → b = c
  | [], [], _, _ => rfl
  | x :: b, y :: c, hl, e => by
    rw [leNum_cons, leNum_cons] at e
    have hx := x.toNat_lt
    have hy := y.toNat_lt
    have h1 : x.toNat = y.toNat := by omega
    have h2 : leNum b = leNum c := by omega
    rw [UInt8.toNat_inj.1 h1, leNum_inj (by simpa using hl) h2]
  | [], _ :: _, hl, _ => by simp at hl
  | _ :: _, [], hl, _ => by simp at hl

/-- The `k` bytes of `v`. -/
def leOf : Nat → Nat → List UInt8
  | 0, _ => []
  | k + 1, v => UInt8.ofNat (v % 256) :: leOf k (v / 256)

theorem leOf_length : ∀ k v, (leOf k v).length = k
  | 0, _ => rfl
  | k + 1, v => by rw [leOf, List.length_cons, leOf_length]

theorem leNum_leOf : ∀ k v, v < 256 ^ k → leNum (leOf k v) = v
  | 0, v, h => by
    have : v = 0 := by simpa using h
    rw [this]; rfl
  | k + 1, v, h => by
    rw [leOf, leNum_cons, leNum_leOf k (v / 256) (by rw [pow_succ] at h; omega), UInt8.toNat_ofNat']
    omega

theorem leWords_val : ∀ (n : Nat) (b : List UInt8), b.length = 8 * n →
    wv ((List.range n).map fun i => getLE b (8 * i)) = leNum b
  | 0, b, h => by
    have : b = [] := List.length_eq_zero_iff.1 (by omega)
    rw [this]; rfl
  | n + 1, b, h => by
    have e : (List.range (n + 1)).map (fun i => getLE b (8 * i)) =
        getLE b 0 :: (List.range n).map fun i => getLE (b.drop 8) (8 * i) := by
      rw [List.range_succ_eq_map, List.map_cons, List.map_map]
      congr 1
      apply List.map_congr_left
      intro i _
      simp only [Function.comp, getLE, List.drop_drop]
      rw [show 8 + 8 * i = 8 * (i + 1) by ring]
    rw [e, wv_cons, leWords_val n _ (by rw [List.length_drop]; omega), getLE, leNum_reverse, List.drop_zero]
    conv_rhs => rw [← List.take_append_drop 8 b, leNum_append, List.length_take]
    rw [show min 8 b.length = 8 by omega]
    norm_num

theorem getLE_lt (b : List UInt8) (a : Nat) : getLE b a < 2 ^ 64 := by
  rw [getLE, leNum_reverse]
  calc leNum ((b.drop a).take 8) < 256 ^ ((b.drop a).take 8).length := leNum_lt _
    _ ≤ 256 ^ 8 := Nat.pow_le_pow_right (by norm_num) (by rw [List.length_take]; omega)
    _ = 2 ^ 64 := by norm_num

theorem randBytes_spec {bitLen : Nat} (h0 : 0 < bitLen) :
    0 < (randBytes bitLen).1 ∧ 1 ≤ (randBytes bitLen).2 ∧ (randBytes bitLen).2 ≤ 8 ∧
      bitLen = 8 * ((randBytes bitLen).1 - 1) + (randBytes bitLen).2 := by
  unfold randBytes
  split <;> simp only <;> omega

theorem candidate_spec {bitLen : Nat} (h0 : 0 < bitLen) (hn : (randBytes bitLen).1 ≤ 8 * P.n) {b : List UInt8}
    (hb : b.length = (randBytes bitLen).1) :
    (P.candidate bitLen b).length = P.n ∧ Words (P.candidate bitLen b) ∧
      wv (P.candidate bitLen b) = leNum b % 2 ^ bitLen := by
  obtain ⟨hk, ht1, ht8, hbl⟩ := randBytes_spec h0
  unfold candidate
  generalize hr : randBytes bitLen = r at *
  obtain ⟨k, t⟩ := r
  simp only at *
  refine ⟨by simp, ?_, ?_⟩
  · intro w hw
    obtain ⟨i, -, rfl⟩ := List.mem_map.1 hw
    exact getLE_lt _ _
  · rw [leWords_val _ _ (by simp; omega), leNum_append, leNum_zeros, Nat.mul_zero, Nat.add_zero]
    obtain ⟨c, x, rfl⟩ : ∃ c x, b = c ++ [x] :=
      ⟨b.dropLast, b.getLast (by intro h; rw [h] at hb; simp at hb; omega), (List.dropLast_append_getLast _).symm⟩
    have hc : c.length = k - 1 := by simp at hb; omega
    rw [← hc, List.getD_eq_getElem _ _ (by simp), List.getElem_append_right (by omega), List.set_append_right _ _ (by omega)]
    simp only [Nat.sub_self, List.getElem_cons_zero, List.set_cons_zero]
    rw [leNum_append, leNum_append, hbl, pow_add, pow_mul, ← hc, Nat.mod_mul]
    rw [show (2 : Nat) ^ 8 = 256 by norm_num]
    have hlt := leNum_lt c
    rw [Nat.add_mul_mod_self_left, Nat.mod_eq_of_lt hlt, Nat.add_mul_div_left _ _ (by positivity),
      Nat.div_eq_of_lt hlt, Nat.zero_add]
    congr 2
    have hm : (UInt8.ofNat (2 ^ t - 1)).toNat = 2 ^ t - 1 := by
      rw [UInt8.toNat_ofNat']
      apply Nat.mod_eq_of_lt
      have : 2 ^ t ≤ 2 ^ 8 := Nat.pow_le_pow_right (by norm_num) ht8
      have : 0 < 2 ^ t := by positivity
      omega
    simp only [leNum, List.map_cons, List.map_nil, Nat.ofDigits_singleton, UInt8.toNat_and]
    rw [hm, Nat.and_two_pow_sub_one_eq_mod]

/-- `SetRandom` on at least one candidate. -/
theorem setRandom_step (bitLen : Nat) {bytes : List UInt8} (hk : 0 < (randBytes bitLen).1)
    (hl : (randBytes bitLen).1 ≤ bytes.length) :
    P.setRandom bitLen bytes =
      if P.smaller (P.candidate bitLen (bytes.take (randBytes bitLen).1)) = true then
        some (P.candidate bitLen (bytes.take (randBytes bitLen).1), bytes.drop (randBytes bitLen).1)
      else P.setRandom bitLen (bytes.drop (randBytes bitLen).1) := by
  rw [setRandom]
  simp only [hl, hk, and_self, dite_true]
  cases P.smaller (P.candidate bitLen (bytes.take (randBytes bitLen).1)) <;> simp

end FieldPkg

end Ringo
