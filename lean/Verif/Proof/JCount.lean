import Verif.Proof.JExtract
import Verif.Props.JSound
import Mathlib.Data.Fintype.Pi
import Mathlib.Data.Set.Card

/-!
# How many sixteen bytes give the same challenge
-/

namespace Ringo

open Finset

theorem foldl_byte_inj : ∀ (l l' : List (BitVec 8)) (a a' : Nat), l.length = l'.length →
    l.foldl (fun acc x => acc * 256 + x.toNat) a = l'.foldl (fun acc x => acc * 256 + x.toNat) a' → a = a' ∧ l = l'
  | [], [], a, a', _, h => ⟨h, rfl⟩
  | x :: l, x' :: l', a, a', hl, h => by
    have := foldl_byte_inj l l' _ _ (by simpa using hl) h
    have h1 := x.isLt
    have h2 := x'.isLt
    have h3 : a * 256 + x.toNat = a' * 256 + x'.toNat := this.1
    refine ⟨by omega, ?_⟩
    rw [this.2, BitVec.eq_of_toNat_eq (show x.toNat = x'.toNat by omega)]

theorem foldl_byte_lt : ∀ (l : List (BitVec 8)) (a : Nat),
    l.foldl (fun acc x => acc * 256 + x.toNat) a < (a + 1) * 256 ^ l.length
  | [], a => by simp
  | x :: l, a => by
    have h := foldl_byte_lt l (a * 256 + x.toNat)
    have h1 := x.isLt
    rw [List.foldl_cons, List.length_cons, Nat.pow_succ']
    refine h.trans_le ?_
    rw [← Nat.mul_assoc]
    exact Nat.mul_le_mul_right _ (by omega)

theorem beWord_lt (l : List (BitVec 8)) : beWord l < 2 ^ 64 := by
  unfold beWord
  have h := foldl_byte_lt (l.take 8) 0
  refine h.trans_le ?_
  rw [Nat.zero_add, Nat.one_mul, show (2 : Nat) ^ 64 = 256 ^ 8 by norm_num]
  exact Nat.pow_le_pow_right (by omega) (by simp)

theorem chalNum_inj {l l' : List (BitVec 8)} (h : l.length = 16) (h' : l'.length = 16) (he : chalNum l = chalNum l') :
    l = l' := by
  unfold chalNum at he
  have a1 := beWord_lt l
  have a2 := beWord_lt l'
  have e1 : beWord l = beWord l' ∧ beWord (l.drop 8) = beWord (l'.drop 8) := by omega
  unfold beWord at e1
  have f1 := (foldl_byte_inj _ _ _ _ (by simp; omega) e1.1).2
  have f2 := (foldl_byte_inj _ _ _ _ (by simp; omega) e1.2).2
  rw [List.take_of_length_le (by simp; omega), List.take_of_length_le (by simp; omega)] at f2
  rw [← List.take_append_drop 8 l, ← List.take_append_drop 8 l', f1, f2]

theorem chalNum_lt (l : List (BitVec 8)) : chalNum l < 2 ^ 128 := by
  unfold chalNum
  have a1 := beWord_lt l
  have a2 := beWord_lt (l.drop 8)
  omega

theorem centred_inj {B r r' : Nat} (h : r < B) (h' : r' < B) (he : centred B r = centred B r') : r = r' := by
  unfold centred at he
  split at he <;> split at he <;> omega

theorem digits_mod (B : Nat) (n m : Nat) : ∀ e : Nat, (∀ i < e, n / B ^ i % B = m / B ^ i % B) →
    n % B ^ e = m % B ^ e
  | 0, _ => by simp [Nat.mod_one]
  | e + 1, h => by
    rw [Nat.pow_succ, Nat.mod_mul, Nat.mod_mul, digits_mod B n m e (fun i hi => h i (by omega)), h e (by omega)]

/-- The challenge determines the number modulo the number of challenges. -/
theorem chalInt_mod {p : Nat} {P : EncParams} (h : P.Good p) (hc : 1 ≤ challengeBound P.ecd) {b b' : List (BitVec 8)}
    (he : chalInt P b = chalInt P b') :
    chalNum b % challengeBound P.ecd ^ P.ecd.exp = chalNum b' % challengeBound P.ecd ^ P.ecd.exp := by
  apply digits_mod
  intro i hi
  have hN : i * P.slots < P.N := by
    rw [h.deg, Nat.mul_comm]; exact Nat.mul_lt_mul_of_pos_left hi h.slots_pos
  have h1 := congrArg (fun l => l.getD (i * P.slots) 0) he
  dsimp only [chalInt] at h1
  rw [getD_map_range _ _ _ _ hN, getD_map_range _ _ _ _ hN, if_pos (Nat.mul_mod_left _ _), if_pos (Nat.mul_mod_left _ _),
    Nat.mul_div_cancel _ h.slots_pos] at h1
  exact centred_inj (Nat.mod_lt _ hc) (Nat.mod_lt _ hc) h1

theorem one_challenge {p : Nat} {P : EncParams} (h : P.Good p) (hc : 1 ≤ challengeBound P.ecd)
    (F : Finset (Fin 16 → BitVec 8))
    (hF : ∀ b ∈ F, ∀ b' ∈ F, chalInt P (List.ofFn b) = chalInt P (List.ofFn b')) :
    F.card ≤ 2 ^ 128 / challengeBound P.ecd ^ P.ecd.exp + 1 := by
  have := card_le_card_of_injOn (s := F) (t := range (2 ^ 128 / challengeBound P.ecd ^ P.ecd.exp + 1))
    (fun b => chalNum (List.ofFn b) / challengeBound P.ecd ^ P.ecd.exp) (by
      intro b _
      rw [coe_range, Set.mem_Iio, Nat.lt_succ_iff]
      exact Nat.div_le_div_right (chalNum_lt _).le) (by
      intro b hb b' hb' he
      dsimp only at he
      have h1 := chalInt_mod h hc (hF b hb b' hb')
      have h2 : chalNum (List.ofFn b) = chalNum (List.ofFn b') := by
        rw [← Nat.div_add_mod (chalNum (List.ofFn b)) (challengeBound P.ecd ^ P.ecd.exp), he, h1, Nat.div_add_mod]
      exact List.ofFn_injective (chalNum_inj (by simp) (by simp) h2))
  rwa [card_range] at this

/-- If, whatever the other coordinates are, at most `m` values of coordinate `j` belong to `S`. -/
theorem card_le_of_coord {n : Nat} {α : Type} [Fintype α] [DecidableEq α] [Inhabited α] (j : Fin n) (m : Nat)
    (S : Finset (Fin n → α))
    (h : ∀ f : Fin n → α, (univ.filter fun a => Function.update f j a ∈ S).card ≤ m) :
    S.card ≤ m * Fintype.card α ^ (n - 1) := by
  have h1 := card_le_mul_card_image (f := fun b : Fin n → α => fun i : {i : Fin n // i ≠ j} => b i) S m (by
    intro c _
    refine le_trans ?_ (h fun i => if hi : i ≠ j then c ⟨i, hi⟩ else default)
    refine card_le_card_of_injOn (fun b => b j) ?_ ?_
    · intro b hb
      simp only [coe_filter, Set.mem_ofPred_eq] at hb
      simp only [coe_filter, mem_univ, true_and, Set.mem_ofPred_eq]
      convert hb.1 using 1
      funext i
      by_cases hi : i = j
      · subst hi; simp
      · rw [Function.update_of_ne hi, dif_pos hi, ← hb.2]
    · intro b hb b' hb' he
      simp only [coe_filter, Set.mem_ofPred_eq] at hb hb'
      funext i
      by_cases hi : i = j
      · subst hi; exact he
      · exact congrFun (hb.2.trans hb'.2.symm) ⟨i, hi⟩)
  refine h1.trans (Nat.mul_le_mul_left _ ?_)
  refine (card_le_univ _).trans ?_
  rw [Fintype.card_fun]
  simp [Fintype.card_subtype_compl]

end Ringo
