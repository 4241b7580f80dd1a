import Verif.Props.FieldText
import Verif.Proof.FieldVecFill
import Mathlib.Data.Nat.Count
import Mathlib.Data.Int.CardIntervalMod
import Mathlib.Data.Fintype.Pi
import Mathlib.Data.FinEnum
import Mathlib.Data.Fintype.BigOperators

/-!
# C118: field elements from hashes, byte orders and values of other types

`Hash`, `LittleEndian`, `BigEndian` and `SetInterface` of the field packages.
-/

namespace Ringo
open FieldPkg
variable {P : FieldPkg}

/-- The number a byte string stands for, least significant byte first. -/
def littleEndian (b : List UInt8) : Nat := Nat.ofDigits 256 (b.map UInt8.toNat)

/-- **C118**, `LittleEndian.Element`: `8 n` bytes are accepted exactly if the number is below the modulus. -/
theorem C118_elementLE (h : P.Good) {b : List UInt8} (hb : b.length = 8 * P.n) (z : List Nat) :
    P.elementLE b = some z ↔ littleEndian b < P.p ∧ MontForm P.p P.n z (littleEndian b : ZMod P.p) := by
  set ws := (List.range P.n).map fun i => getLE b (8 * i) with hws
  have hl : ws.length = P.n := by simp [hws]
  have hw : Words ws := by
    intro w hw
    rw [hws, List.mem_map] at hw
    obtain ⟨i, _, rfl⟩ := hw
    exact getLE_lt _ _
  have hv : wv ws = littleEndian b := leWords_val P.n b hb
  have hs := smaller_spec h hl hw
  have hm := mont_toMont h hl hw
  rw [hv] at hs hm
  unfold elementLE
  rw [← hws]
  dsimp only
  by_cases hlt : littleEndian b < P.p
  · rw [if_neg (by simp [hs.2 hlt]), Option.some.injEq]
    constructor
    · rintro rfl
      exact ⟨hlt, hm⟩
    · rintro ⟨_, h2⟩
      exact (MontForm_inj h hm h2).2 rfl
  · have : P.smaller ws = false := by
      rw [← Bool.not_eq_true, hs]
      exact hlt
    rw [if_pos (by simp [this])]
    constructor
    · intro h; cases h
    · rintro ⟨h, _⟩; exact (hlt h).elim

theorem littleEndian_append (b c : List UInt8) :
    littleEndian (b ++ c) = littleEndian b + 256 ^ b.length * littleEndian c := leNum_append b c

theorem putLE_littleEndian {v : Nat} (hv : v < 2 ^ 64) : littleEndian (putLE v) = v := by
  have := putLE_val hv
  rwa [leNum_reverse] at this

theorem flatMap_putLE : ∀ {z : List Nat}, Words z →
    (z.flatMap putLE).length = 8 * z.length ∧ littleEndian (z.flatMap putLE) = wv z
  | [], _ => ⟨rfl, rfl⟩
  | w :: z, hz => by
    obtain ⟨h1, h2⟩ := flatMap_putLE (z := z) fun x hx => hz x (by simp [hx])
    rw [List.flatMap_cons, List.length_append, h1, putLE_length, littleEndian_append, h2, putLE_length,
      putLE_littleEndian (hz w (by simp)), wv_cons, List.length_cons]
    refine ⟨by ring, ?_⟩
    norm_num

/-- **C118**, `LittleEndian.PutElement`: `8 n` bytes, the least nonnegative representative, least significant byte
first; that is, the bytes of `Marshal` in the opposite order. -/
theorem C118_putElementLE (h : P.Good) {z : List Nat} {a : ZMod P.p} (hz : MontForm P.p P.n z a) :
    (P.putElementLE z).length = 8 * P.n ∧ littleEndian (P.putElementLE z) = a.val ∧
      P.putElementLE z = (P.marshal z).reverse := by
  obtain ⟨e, l, w⟩ := mont_fromMont h hz
  obtain ⟨h1, h2⟩ := flatMap_putLE w
  rw [l] at h1
  rw [e] at h2
  refine ⟨h1, h2, ?_⟩
  obtain ⟨m1, m2⟩ := C72_marshal h hz
  refine leNum_inj ?_ ?_
  · rw [List.length_reverse, m1]
    exact h1
  · rw [← leNum_reverse (P.marshal z).reverse, List.reverse_reverse, beVal_eq_bigEndian, m2]
    exact h2

/-- **C118**: `LittleEndian.Element` reads what `PutElement` has written. -/
theorem C118_roundTripLE (h : P.Good) {z : List Nat} {a : ZMod P.p} (hz : MontForm P.p P.n z a) :
    P.elementLE (P.putElementLE z) = some z := by
  have := Fact.mk h.prime
  obtain ⟨h1, h2, _⟩ := C118_putElementLE h hz
  rw [C118_elementLE h h1, h2, ZMod.natCast_zmod_val]
  exact ⟨ZMod.val_lt a, hz⟩

/-- **C118**, `BigEndian.Element`: `8 n` bytes are accepted exactly if the number is below the modulus; it reads what
`PutElement` and `Marshal` have written. -/
theorem C118_elementBE (h : P.Good) {b : List UInt8} (hb : b.length = 8 * P.n) (z : List Nat) :
    P.element b = some z ↔ bigEndian b < P.p ∧ MontForm P.p P.n z (bigEndian b : ZMod P.p) := by
  have hv : wv (beWords P.n b) = bigEndian b := by rw [beWords_val P.n b hb, beVal_eq_bigEndian]
  have hs := smaller_spec h (beWords_length P.n b) (beWords_words P.n b)
  have hm := mont_toMont h (beWords_length P.n b) (beWords_words P.n b)
  rw [hv] at hs hm
  have e : P.element b = if !P.smaller (beWords P.n b) then none else some (P.toMont (beWords P.n b)) := rfl
  rw [e]
  by_cases hlt : bigEndian b < P.p
  · rw [if_neg (by simp [hs.2 hlt]), Option.some.injEq]
    constructor
    · rintro rfl
      exact ⟨hlt, hm⟩
    · rintro ⟨_, h2⟩
      exact (MontForm_inj h hm h2).2 rfl
  · have : P.smaller (beWords P.n b) = false := by
      rw [← Bool.not_eq_true, hs]
      exact hlt
    rw [if_pos (by simp [this])]
    constructor
    · intro h; cases h
    · rintro ⟨h, _⟩; exact (hlt h).elim

/-! ### Hash -/

/-- The number of bytes for one element: 16 more than the modulus needs. -/
def hashLen (bits : Nat) : Nat := 16 + (bits + 7) / 8

/-- **C118**, `Hash`: `count` elements from `count` blocks of the bytes of the expander, each the residue of its block,
most significant byte first; an error of the expander is returned. -/
theorem C118_hash (h : P.Good) {bits : Nat} (hb : P.BitsGood bits) (expand : Nat → Option (List UInt8))
    (count : Nat) :
    (expand (count * hashLen bits) = none → P.hash bits expand count = none) ∧
    ∀ B : List (List UInt8), B.length = count → (∀ b ∈ B, b.length = hashLen bits) →
      expand (count * hashLen bits) = some B.flatten →
      ∃ r, P.hash bits expand count = some r ∧ List.Forall₂ (fun z b =>
        MontForm P.p P.n z (bigEndian b : ZMod P.p)) r B := by
  have hpos := hb.pos h
  have hL : 16 + (1 + (bits - 1) / 8) = hashLen bits := by
    unfold hashLen
    omega
  have e : P.hash bits expand count = (expand (count * hashLen bits)).map fun b =>
      (List.range count).map fun i => P.setBigInt (beVal ((b.drop (i * hashLen bits)).take (hashLen bits))) := by
    rw [← hL]; rfl
  rw [e]
  refine ⟨fun he => by rw [he]; rfl, fun B hB hlen he => ?_⟩
  rw [he, Option.map_some]
  refine ⟨_, rfl, ?_⟩
  clear he e
  subst hB
  induction B with
  | nil => exact .nil
  | cons b B ih =>
    have hbl := hlen b (by simp)
    rw [List.length_cons, List.range_succ_eq_map, List.map_cons, List.map_map]
    refine .cons ?_ ?_
    · rw [Nat.zero_mul, List.drop_zero, List.flatten_cons, ← hbl, List.take_left, beVal_eq_bigEndian]
      have := mont_setBigInt h (bigEndian b)
      rwa [Int.cast_natCast] at this
    · have := ih fun x hx => hlen x (by simp [hx])
      convert this using 1
      apply List.map_congr_left
      intro i _
      simp only [Function.comp, List.flatten_cons]
      rw [show i.succ * hashLen bits = b.length + i * hashLen bits by rw [hbl, Nat.succ_mul]; omega,
        ← List.drop_drop, List.drop_left]

theorem bigEndian_bij (k : Nat) : Function.Bijective fun b : Fin k → UInt8 =>
    (⟨bigEndian (List.ofFn b), by
      have := beVal_lt (List.ofFn b)
      rwa [beVal_eq_bigEndian, List.length_ofFn] at this⟩ : Fin (256 ^ k)) := by
  rw [Fintype.bijective_iff_injective_and_card]
  constructor
  · intro b c e
    have e := congrArg Fin.val e
    simp only [← beVal_eq_bigEndian] at e
    rw [← List.reverse_reverse (List.ofFn b), ← List.reverse_reverse (List.ofFn c), leNum_reverse,
      leNum_reverse] at e
    have := leNum_inj (by simp) e
    exact List.ofFn_injective (List.reverse_injective this)
  · have : Fintype.card UInt8 = 256 := by decide +kernel
    rw [Fintype.card_fun, Fintype.card_fin, Fintype.card_fin, this]

/-- **C118**: if the bytes are uniformly distributed then the elements are, up to `2^-128`: of the `M = 256^L` blocks,
`N` give the element `a`, where `|p N - M| < p` and `M >= 2^128 p`; so the probability of `a` differs from `1/p` by less
than `2^-128 / p`. -/
theorem C118_uniform (h : P.Good) {bits : Nat} (hb : P.BitsGood bits) (a : ZMod P.p) :
    let N := (Finset.univ.filter fun b : Fin (hashLen bits) → UInt8 =>
      ((bigEndian (List.ofFn b) : Nat) : ZMod P.p) = a).card
    P.p * N < 256 ^ hashLen bits + P.p ∧ 256 ^ hashLen bits < P.p * N + P.p ∧
      2 ^ 128 * P.p ≤ 256 ^ hashLen bits := by
  have := Fact.mk h.prime
  intro N
  set M := 256 ^ hashLen bits with hM
  have hN : N = Nat.count (· ≡ a.val [MOD P.p]) M := by
    rw [Nat.count_eq_card_filter_range]
    refine Finset.card_bij (fun b _ => bigEndian (List.ofFn b)) ?_ ?_ ?_
    · intro b hb
      rw [Finset.mem_filter] at hb
      rw [Finset.mem_filter, Finset.mem_range]
      refine ⟨by
        have := beVal_lt (List.ofFn b)
        rwa [beVal_eq_bigEndian, List.length_ofFn] at this, ?_⟩
      rw [← ZMod.natCast_eq_natCast_iff, hb.2, ZMod.natCast_zmod_val]
    · intro b _ c _ e
      exact (bigEndian_bij (hashLen bits)).1 (Fin.ext e)
    · intro w hw
      rw [Finset.mem_filter, Finset.mem_range] at hw
      obtain ⟨b, hb⟩ := (bigEndian_bij (hashLen bits)).2 ⟨w, hw.1⟩
      have hb := congrArg Fin.val hb
      refine ⟨b, ?_, hb⟩
      rw [Finset.mem_filter]
      refine ⟨Finset.mem_univ _, ?_⟩
      have e : bigEndian (List.ofFn b) = w := hb
      rw [e, (ZMod.natCast_eq_natCast_iff _ _ _).2 hw.2, ZMod.natCast_zmod_val]
  have hp := h.pos
  have hc := Nat.count_modEq_card M hp a.val
  have hdm := Nat.div_add_mod M P.p
  have hmod := Nat.mod_lt M hp
  have hav : a.val % P.p = a.val := Nat.mod_eq_of_lt (ZMod.val_lt a)
  rw [← hN, hav] at hc
  have hge : 2 ^ 128 * P.p ≤ M := by
    have h1 := hb.le
    calc 2 ^ 128 * P.p ≤ 2 ^ 128 * 2 ^ bits := Nat.mul_le_mul_left _ h1
      _ = 2 ^ (128 + bits) := by rw [pow_add]
      _ ≤ 2 ^ (8 * hashLen bits) := Nat.pow_le_pow_right (by omega) (by unfold hashLen; omega)
      _ = M := by rw [hM, pow_mul]; norm_num
  refine ⟨?_, ?_, hge⟩
  · rw [hc]
    split_ifs
    · rw [Nat.mul_add]; omega
    · rw [Nat.add_zero]; omega
  · rw [hc]
    split_ifs
    · rw [Nat.mul_add]; omega
    · rw [Nat.add_zero]; omega

/-! ### SetInterface -/

/-- What an argument of `SetInterface` stands for; `none` if it is nil, of another type or no number. -/
inductive Stands (P : FieldPkg) : GoValue → ZMod P.p → Prop
  | uint {z a} : MontForm P.p P.n z a → Stands P (.uint z) a
  | uintPtr {z a} : MontForm P.p P.n z a → Stands P (.uintPtr (some z)) a
  | unsigned {v : Nat} : v < 2 ^ 64 → Stands P (.unsigned v) v
  | signed {v : BitVec 64} : Stands P (.signed v) v.toInt
  | string {s v} : SignedLit s v → Stands P (.string s) v
  | bigPtr {v : Int} : Stands P (.bigPtr (some v)) v
  | big {v : Int} : Stands P (.big v) v
  | bytes {b} : Stands P (.bytes b) (bigEndian b : ZMod P.p)

/-- **C118**, `SetInterface`: what the argument stands for, reduced; an error for nil, for strings that are no integer
literals and for all other types. -/
theorem C118_setInterface (h : P.Good) (x : GoValue) :
    (∀ a, Stands P x a → ∃ z, P.setInterface x = some z ∧ MontForm P.p P.n z a) ∧
      (P.setInterface x = none ↔ x = .uintPtr none ∨ x = .bigPtr none ∨ x = .other ∨
        ∃ s, x = .string s ∧ ¬ ∃ v, SignedLit s v) := by
  constructor
  · intro a hx
    cases hx with
    | uint hz => exact ⟨_, rfl, hz⟩
    | uintPtr hz => exact ⟨_, rfl, hz⟩
    | unsigned hv => exact ⟨_, rfl, C71_setUint64 h hv⟩
    | signed => exact ⟨_, rfl, C71_setInt64 h _⟩
    | string hs => exact (C117_setString h _).1 _ hs
    | bigPtr => exact ⟨_, rfl, C71_setBigInt h _⟩
    | big => exact ⟨_, rfl, C71_setBigInt h _⟩
    | bytes => exact ⟨_, rfl, C72_setBytes h _⟩
  · cases x with
    | uint z => simp [setInterface]
    | uintPtr z => cases z <;> simp [setInterface]
    | unsigned v => simp [setInterface]
    | signed v => simp [setInterface]
    | string s =>
      simp only [setInterface, reduceCtorEq, GoValue.string.injEq, false_or, exists_eq_left']
      constructor
      · rintro hn ⟨v, hv⟩
        obtain ⟨z, hz, _⟩ := (C117_setString h s).1 v hv
        rw [hn] at hz
        cases hz
      · intro hn
        cases e : P.setString s with
        | none => rfl
        | some z => exact (hn ((C117_setString h s).2 z e)).elim
    | bigPtr v => cases v <;> simp [setInterface]
    | big v => simp [setInterface]
    | bytes b => simp [setInterface]
    | other => simp [setInterface]

/-- Concrete cases, for the package of Jindo: an element in both byte orders, the modulus refused, a hash with an
expander that returns zeros and a one, and values of several types. -/
theorem C118_case : jindoPkg.Good ∧ jindoPkg.BitsGood jindoBits ∧
    jindoPkg.putElementLE (jindoPkg.setBigInt 258) = [2, 1] ++ List.replicate 30 0 ∧
    jindoPkg.elementLE ((wordBytes jindoPkg.q).reverse) = none ∧
    jindoPkg.element (wordBytes jindoPkg.q) = none ∧ hashLen jindoBits = 48 ∧
    jindoPkg.hash jindoBits (fun k => some (List.replicate (k - 1) 0 ++ [1])) 2 =
      some [jindoPkg.setBigInt 0, jindoPkg.setBigInt 1] ∧
    jindoPkg.setInterface (.signed (-1)) = jindoPkg.setInterface (.string "-1".toList) ∧
    jindoPkg.setInterface (.bytes [1, 0]) = some (jindoPkg.setUint64 256) ∧
    jindoPkg.setInterface (.string "ten".toList) = none := by
  refine ⟨C79_jindo.1, jindo_bits, ?_⟩
  decide +kernel

end Ringo
