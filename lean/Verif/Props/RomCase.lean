import Verif.Props.Rom
import Verif.Props.FieldHash
import Verif.Props.Interactive
import Verif.Props.EndToEndEx

/-!
# C121: hash values that become field elements, and a case
-/

namespace Ringo

open Finset

attribute [local instance] prime_65537

/-- Of the hash values, read most significant byte first and reduced modulo `p` (as `SetBytes` does, C72), at
most `256 ^ H / p + 1` become the same field element. -/
theorem C121_bigEndian {p : Nat} [Fact p.Prime] (H : Nat) (a : ZMod p) :
    Nat.card {d : Digest H // ((bigEndian (List.ofFn d) : Nat) : ZMod p) = a} ≤ 256 ^ H / p + 1 := by
  classical
  have hp : 0 < p := (Fact.out : p.Prime).pos
  rw [Nat.card_eq_fintype_card, Fintype.card_subtype]
  have hN : (univ.filter fun d : Digest H => ((bigEndian (List.ofFn d) : Nat) : ZMod p) = a).card ≤
      Nat.count (· ≡ a.val [MOD p]) (256 ^ H) := by
    rw [Nat.count_eq_card_filter_range]
    refine Finset.card_le_card_of_injOn (fun b => bigEndian (List.ofFn b)) ?_ ?_
    · intro b hb
      rw [mem_coe, mem_filter] at hb
      rw [mem_coe, mem_filter, mem_range]
      refine ⟨by
        have := FieldPkg.beVal_lt (List.ofFn b)
        rwa [beVal_eq_bigEndian, List.length_ofFn] at this, ?_⟩
      rw [← ZMod.natCast_eq_natCast_iff, hb.2, ZMod.natCast_zmod_val]
    · intro b _ c _ e
      exact (bigEndian_bij H).1 (Fin.ext e)
  refine hN.trans ?_
  rw [Nat.count_modEq_card _ hp]
  split_ifs <;> omega

/-- Three bytes of a field element, most significant first. -/
def threeBytes {p : Nat} (a : ZMod p) : Bytes :=
  [UInt8.ofNat (a.val / 65536), UInt8.ofNat (a.val / 256), UInt8.ofNat a.val]

/-- The commitment scheme that shows the polynomial, as `rank` coefficients of three bytes. -/
abbrev bytePCS (p rank n : Nat) [NeZero p] : PCS (ZMod p) where
  Com := {v : List (ZMod p) // v.length = rank}
  Open := Unit
  Pf := Unit
  Rnd := Unit
  rank := rank
  commit v _ := if h : v.length ≤ rank then
    .ok (⟨v ++ List.replicate (rank - v.length) 0, by rw [List.length_append, List.length_replicate]; omega⟩, ())
    else goPanic
  evaluate x vs _ _ _ := .ok (vs.map (fun v => evalAt v.length v x), ())
  verify x cs es _ := .ok (decide (cs.length = n ∧ es = cs.map (fun v => evalAt v.1.length v.1 x)))
  ser v := v.1.flatMap threeBytes

theorem bytePCS_fixes {p : Nat} [Fact p.Prime] (rank n : Nat) :
    (bytePCS p rank n).Fixes n Subtype.val := by
  intro x cs ys pf h
  have h' := of_decide_eq_true (Except.ok.inj h)
  refine ⟨h'.1, fun c _ => le_of_eq c.2, h'.2.trans ?_⟩
  apply List.map_congr_left
  intro c _
  exact (listPoly_eval _ _).symm

theorem threeBytes_inj : Function.Injective (threeBytes (p := 65537)) := by
  intro a b e
  have ha := ZMod.val_lt a
  have hb := ZMod.val_lt b
  simp only [threeBytes, List.cons.injEq, and_true] at e
  obtain ⟨e1, e2, e3⟩ := e
  have e1 := congrArg UInt8.toNat e1
  have e2 := congrArg UInt8.toNat e2
  have e3 := congrArg UInt8.toNat e3
  simp only [UInt8.toNat_ofNat'] at e1 e2 e3
  exact ZMod.val_injective _ (by omega)

theorem threeBytes_flat {u v : List (ZMod 65537)} (e : u.flatMap threeBytes = v.flatMap threeBytes) : u = v := by
  induction u generalizing v with
  | nil =>
    cases v with
    | nil => rfl
    | cons b v => cases e
  | cons a u ih =>
    cases v with
    | nil => cases e
    | cons b v =>
      rw [List.flatMap_cons, List.flatMap_cons] at e
      obtain ⟨e1, e2⟩ := List.append_inj e rfl
      rw [threeBytes_inj e1, ih e2]

/-- 3 is not a square modulo 65537. -/
theorem three_not_square (x : ZMod 65537) : x * x ≠ 3 := by
  intro e
  have hx : x ≠ 0 := by
    rintro rfl
    rw [zero_mul] at e
    revert e
    decide +kernel
  have h1 := ZMod.pow_card_sub_one_eq_one hx
  have h2 : (3 : ZMod 65537) ^ 32768 = 1 := by
    rw [← e, ← pow_two, ← pow_mul]
    exact h1
  have h3 : ((3 ^ 32768 : Nat) : ZMod 65537) = (1 : Nat) := by
    rw [Nat.cast_pow, Nat.cast_one]
    exact h2
  rw [ZMod.natCast_eq_natCast_iff] at h3
  revert h3
  unfold Nat.ModEq
  decide +kernel

/-- `C121_randomOracle` applies to `X * X = U` (`p = 65537`, rank 8) with `U = 3`, which is not a square, and
hash values of 32 bytes: whatever the program does, it is accepted for at most the given part of all hash
functions; a program that makes 100 calls, for less than a fifteenth. -/
example (hash : Bytes → Bytes) (xof : Bytes → Nat → UInt8) (users : Nat → LinearChecker (ZMod 65537)) :
    ∃ cp, compile (p := 65537) (2 ^ 3) 0 1 1 ops90 = .ok cp ∧
      ∀ (Q : Nat) (A : Asker (Query 1000) (Digest 32) (BProof (ZMod 65537) (bytePCS 65537 18 2))), A.AtMost Q →
      Nat.card {h : ROracle 1000 32 // verify ⟨bytePCS 65537 18 2, h.hash, xof, threeBytes,
          fun b => (bigEndian b : ZMod 65537), users⟩ cp []
          ⟨0, circ47 (List.replicate 8 3) (List.replicate 8 0)⟩ (A.run h) = .ok true} * 256 ^ 32 ≤
        (Q + 6) * (2 * (Q + 6) + (256 ^ 32 / 65537 + 1) * 41) * Nat.card (ROracle 1000 32) ∧
      (100 + 6) * (2 * (100 + 6) + (256 ^ 32 / 65537 + 1) * 41) * 15 < 256 ^ 32 := by
  obtain ⟨cp, h1, h2⟩ := compile_total (p := 65537) (N := 2 ^ 3) (ty := 0) (pw0 := 1) (w0 := 1)
    (ops := ops90) (K := 3) (Ke := 5) rfl (by norm_num) (by norm_num) rfl (by decide +kernel) (by norm_num) (by norm_num)
  refine ⟨cp, h1, fun Q A hA => ⟨?_, by norm_num⟩⟩
  have hlin : cp.ctx.lin = [] := by rw [h2]; rfl
  have hsum : cp.ctx.sums = [] := by rw [h2]; rfl
  have harith : cp.ctx.arith = [[⟨1, none, [0, 0]⟩, ⟨-1, some 0, []⟩]] := by rw [h2]; rfl
  have hw : cp.ctx.wCnt = 1 := by rw [h2]; rfl
  have hws : cp.ctx.wSecond.length = 0 := by rw [h2]; rfl
  have hr : cp.ctx.rank = 8 := by rw [h2]; rfl
  have hpc : cp.ctx.pwCnt = 1 := by rw [h2]; rfl
  have hb : cp.ctx.batch = 2 := by rw [h2]; rfl
  have hz : linCount cp = 0 := by rw [linCount, hlin]; rfl
  let E : Env (ZMod 65537) := ⟨bytePCS 65537 18 2, hash, xof, threeBytes,
    fun b => (bigEndian b : ZMod 65537), users⟩
  have key := C121_randomOracle (E := E) (K := 3) (by norm_num) h1
    (by
      intro op hop
      simp only [ops90, List.mem_cons, List.not_mem_nil, or_false] at hop
      subst hop
      intro t ht
      simp only [List.mem_cons, List.not_mem_nil, or_false] at ht
      rcases ht with rfl | rfl <;> simp)
    (by rw [h2]; decide +kernel)
    (by
      intro seed e he
      rw [hlin] at he
      cases he)
    (by show 2 ^ 3 - 1 ≤ 18; norm_num) Subtype.val (by rw [hb]; exact bytePCS_fixes 18 2) 41
    (by
      intro c hc
      rw [harith, List.mem_singleton] at hc
      subst hc
      show Constraint.checkDeg (2 ^ 3) 18 _ ≤ 41
      decide +kernel)
    (by
      intro c hc
      rw [hsum] at hc
      cases hc)
    (by show 2 * 18 - 2 ^ 3 ≤ 41; norm_num) (by show 2 ^ 3 + 18 ≤ 41; norm_num)
    (by
      intro a b e
      exact Subtype.ext (threeBytes_flat e))
    (L := 54) (fun c => by
      have : ∀ v : List (ZMod 65537), (v.flatMap threeBytes).length = 3 * v.length := by
        intro v
        induction v with
        | nil => rfl
        | cons a v ih =>
          rw [List.flatMap_cons, List.length_append, ih, List.length_cons]
          show 3 + _ = _
          omega
      rw [this, c.2])
    threeBytes_inj (M := 3) (fun a => rfl) (n := 1000) (H := 32) (κ := 256 ^ 32 / 65537 + 1)
    (by rw [hw, hws, hb]; norm_num) (fun a => C121_bigEndian 32 a) []
    ⟨0, circ47 (List.replicate 8 3) (List.replicate 8 0)⟩ Q A hA
  rw [hz] at key
  refine le_trans (Nat.mul_le_mul_right _ ?_) key
  refine Nat.card_le_card_of_injective
    (fun x => ⟨x.1, x.2, ?_⟩) (fun x y e => Subtype.ext (congrArg (fun z => z.1) e))
  rintro ⟨pw, ch, l, s, k, hpw, -, sw, s1, s2, -, s4⟩
  have hpw' : assignV cp [] (circ47 (List.replicate 8 3) (List.replicate 8 0)) =
      .ok (some [List.replicate 8 3]) := by
    unfold assignV
    rw [hr, hpc]
    rfl
  rw [hpw'] at hpw
  cases hpw
  have := s4.arith 0 (by rw [hr]; norm_num)
  rw [harith] at this
  simp only [List.map_cons, List.map_nil, List.sum_cons, List.sum_nil, Constraint.onRow, Constraint.value,
    Term.value, rowOf, List.prod_cons, List.prod_nil] at this
  generalize (sw.getD 0 []).getD 0 0 = x at this
  have e3 : ([List.replicate 8 (3 : ZMod 65537)].getD 0 []).getD 0 0 = 3 := rfl
  rw [e3] at this
  exact three_not_square x (by linear_combination this)

end Ringo
