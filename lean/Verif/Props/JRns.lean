import Verif.Model.JUtil
import Mathlib.Data.Int.ModEq
import Mathlib.Data.Nat.ModEq
import Mathlib.Algebra.BigOperators.Group.List.Basic
import Mathlib.Data.Nat.GCD.BigOperators
import Mathlib.Data.ZMod.Coprime
import Mathlib.Data.Nat.Digits.Lemmas

/-!
# C58, C59: residues and their reconstruction

A modulus chain is a list of pairwise coprime odd numbers greater than one; `Q` is their product.
-/

namespace Ringo

/-- A modulus chain, as lattigo's rings have: odd, pairwise coprime moduli. -/
structure Chain (qs : List Nat) : Prop where
  ne : qs ≠ []
  one : ∀ q ∈ qs, 1 < q
  odd : ∀ q ∈ qs, q % 2 = 1
  coprime : qs.Pairwise Nat.Coprime

theorem Chain.sub {q : Nat} {qs : List Nat} (h : Chain (q :: qs)) (hne : qs ≠ []) : Chain qs :=
  ⟨hne, fun x hx => h.one x (List.mem_cons_of_mem _ hx),
    fun x hx => h.odd x (List.mem_cons_of_mem _ hx), (List.pairwise_cons.mp h.coprime).2⟩

theorem prod_odd {qs : List Nat} (h : ∀ q ∈ qs, q % 2 = 1) : qs.prod % 2 = 1 := by
  induction qs with
  | nil => rfl
  | cons q qs ih =>
    rw [List.prod_cons, Nat.mul_mod, h q (by simp), ih (fun x hx => h x (by simp [hx]))]

theorem prod_pos' {qs : List Nat} (h : ∀ q ∈ qs, 1 < q) : 0 < qs.prod := by
  apply List.prod_pos
  intro q hq; exact (h q hq).trans' Nat.one_pos

theorem le_prod' {qs : List Nat} (h : ∀ q ∈ qs, 1 < q) {q : Nat} (hq : q ∈ qs) : q ≤ qs.prod :=
  Nat.le_of_dvd (prod_pos' h) (List.dvd_prod hq)

/-- Numbers congruent modulo all members of a pairwise coprime list are congruent modulo the
product. -/
theorem prod_dvd_of_coprime {qs : List Nat} (h : qs.Pairwise Nat.Coprime) {z : Int}
    (hz : ∀ q ∈ qs, (q : Int) ∣ z) : (qs.prod : Int) ∣ z := by
  induction qs with
  | nil => simp
  | cons q qs ih =>
    rw [List.pairwise_cons] at h
    rw [List.prod_cons, Nat.cast_mul]
    refine IsCoprime.mul_dvd ?_ (hz q (by simp)) (ih h.2 (fun x hx => hz x (by simp [hx])))
    rw [Nat.isCoprime_iff_coprime]
    exact Nat.coprime_list_prod_right_iff.mpr h.1

theorem bigResidue_lt (z : Int) {q : Nat} (hq : 0 < q) : bigResidue z q < q := by
  unfold bigResidue
  have h1 := Int.emod_nonneg z (b := (q : Int)) (by omega)
  have h2 := Int.emod_lt_of_pos z (b := (q : Int)) (by omega)
  omega

theorem bigResidue_cast (z : Int) {q : Nat} (hq : 0 < q) : (bigResidue z q : Int) = z % q := by
  unfold bigResidue
  exact Int.toNat_of_nonneg (Int.emod_nonneg z (by omega))

theorem toBalanced_spec {x q : Nat} (hx : x < q) (hq : q % 2 = 1) :
    (q : Int) ∣ toBalanced x q - x ∧ 2 * |toBalanced x q| < q := by
  unfold toBalanced
  split
  · refine ⟨⟨-1, by ring⟩, ?_⟩
    rw [abs_of_neg (by omega)]; omega
  · refine ⟨by simp, ?_⟩
    rw [abs_of_nonneg (by omega)]; omega

theorem dvd_div_of_coprime {Q q q' : Nat} (hq : q ∣ Q) (hq' : q' ∣ Q) (h : Nat.Coprime q' q) :
    q' ∣ Q / q := by
  obtain ⟨k, rfl⟩ := hq
  rcases Nat.eq_zero_or_pos q with h0 | h0
  · subst h0; simp
  · rw [Nat.mul_div_cancel_left _ h0]
    exact h.dvd_of_dvd_mul_left hq'

theorem gadget_other {Q q q' : Nat} (hq : q ∣ Q) (hq' : q' ∣ Q) (h : Nat.Coprime q' q) :
    q' ∣ gadget Q q := by
  unfold gadget
  exact (Nat.dvd_mod_iff hq').mpr (Dvd.dvd.mul_right (dvd_div_of_coprime hq hq' h) _)

theorem gadget_self {Q q : Nat} (hq1 : 0 < q) (hq : q ∣ Q) (h : Nat.Coprime (Q / q) q) :
    (q : Int) ∣ (gadget Q q : Int) - 1 := by
  have : NeZero q := ⟨hq1.ne'⟩
  have h1 : ((gadget Q q : Nat) : ZMod q) = 1 := by
    unfold gadget
    have h2 : ((Q / q * ((Q / q : Nat) : ZMod q)⁻¹.val : Nat) : ZMod q) = 1 := by
      rw [Nat.cast_mul, ZMod.natCast_zmod_val, ZMod.coe_mul_inv_eq_one _ h]
    have h3 := Nat.mod_add_div (Q / q * ((Q / q : Nat) : ZMod q)⁻¹.val) Q
    have h4 : ((Q : Nat) : ZMod q) = 0 := (ZMod.natCast_eq_zero_iff Q q).mpr hq
    rw [← h3, Nat.cast_add, Nat.cast_mul, h4, zero_mul, add_zero] at h2
    exact h2
  rw [← ZMod.intCast_zmod_eq_zero_iff_dvd]
  push_cast
  rw [h1, sub_self]

theorem foldl_add_sum {α : Type} (f : α → Nat) (l : List α) (a : Nat) :
    l.foldl (fun acc x => acc + f x) a = a + (l.map f).sum := by
  induction l generalizing a with
  | nil => simp
  | cons x l ih => rw [List.foldl_cons, ih, List.map_cons, List.sum_cons, Nat.add_assoc]

/-- The accumulated sum has the right residues. -/
theorem rnsAcc_modEq {qs : List Nat} (h : Chain qs) (z : Int) {q : Nat} (hq : q ∈ qs) :
    (q : Int) ∣ (rnsAcc qs.prod (qs.map fun q => (bigResidue z q, q)) : Int) - z := by
  have hQq : q ∣ qs.prod := List.dvd_prod hq
  have hq0 : 0 < q := (h.one q hq).trans' Nat.one_pos
  unfold rnsAcc
  rw [foldl_add_sum, Nat.zero_add, List.map_map]
  set S := (qs.map ((fun cq : Nat × Nat => cq.1 * gadget qs.prod cq.2) ∘
    fun q => (bigResidue z q, q))).sum with hS
  have h1 : (q : Int) ∣ ((S % qs.prod : Nat) : Int) - S := by
    refine dvd_trans (by exact_mod_cast hQq : (q : Int) ∣ (qs.prod : Int)) ?_
    refine ⟨-(S / qs.prod : Nat), ?_⟩
    have := Nat.mod_add_div S qs.prod
    push_cast
    have h2 : ((S % qs.prod : Nat) : Int) + qs.prod * (S / qs.prod : Nat) = S := by
      exact_mod_cast this
    push_cast at h2
    linarith
  have h2 : (q : Int) ∣ (S : Int) - z := by
    obtain ⟨l1, l2, hl⟩ := List.append_of_mem hq
    have hc : ∀ q' ∈ l1 ++ l2, Nat.Coprime q q' := by
      have := h.coprime
      rw [hl, List.pairwise_append, List.pairwise_cons] at this
      intro q' hq'
      rcases List.mem_append.mp hq' with h3 | h3
      · exact (this.2.2 q' h3 q (by simp)).symm
      · exact this.2.1.1 q' h3
    have hdiv : qs.prod / q = (l1 ++ l2).prod := by
      rw [hl, List.prod_append, List.prod_cons, List.prod_append,
        show l1.prod * (q * l2.prod) = q * (l1.prod * l2.prod) by ring, Nat.mul_div_cancel_left _ hq0]
    have hcop : Nat.Coprime (qs.prod / q) q := by
      rw [hdiv]
      exact (Nat.coprime_list_prod_right_iff.mpr hc).symm
    have hz : ∀ l : List Nat, (∀ x ∈ l, x ∈ qs) → (∀ x ∈ l, Nat.Coprime q x) →
        q ∣ (l.map ((fun cq : Nat × Nat => cq.1 * gadget qs.prod cq.2) ∘
          fun q => (bigResidue z q, q))).sum := by
      intro l hl1 hl2
      apply List.dvd_sum
      intro x hx
      obtain ⟨y, hy, rfl⟩ := List.mem_map.mp hx
      exact Dvd.dvd.mul_left (gadget_other (List.dvd_prod (hl1 y hy)) hQq (hl2 y hy)) _
    have hS' : S = (l1.map ((fun cq : Nat × Nat => cq.1 * gadget qs.prod cq.2) ∘
          fun q => (bigResidue z q, q))).sum + (bigResidue z q * gadget qs.prod q +
        (l2.map ((fun cq : Nat × Nat => cq.1 * gadget qs.prod cq.2) ∘
          fun q => (bigResidue z q, q))).sum) := by
      rw [hS]
      conv_lhs => rw [List.map_congr_left (g := (fun cq : Nat × Nat => cq.1 * gadget qs.prod cq.2) ∘
          fun q => (bigResidue z q, q)) (fun _ _ => rfl)]
      conv_lhs => arg 1; arg 2; rw [hl]
      rw [List.map_append, List.sum_append, List.map_cons, List.sum_cons]
      rfl
    obtain ⟨a, ha⟩ := hz l1 (fun x hx => by rw [hl]; simp [hx]) (fun x hx => hc x (by simp [hx]))
    obtain ⟨b, hb⟩ := hz l2 (fun x hx => by rw [hl]; simp [hx]) (fun x hx => hc x (by simp [hx]))
    obtain ⟨g, hg⟩ := gadget_self hq0 hQq hcop
    rw [hS', ha, hb]
    have hr := bigResidue_cast z hq0
    have hd := Int.mul_ediv_add_emod z q
    push_cast
    rw [hr, show (gadget qs.prod q : Int) = 1 + q * g by linarith]
    refine ⟨a + b + z % q * g - z / q, ?_⟩
    linarith [mul_comm (z % (q : Int)) (q * g)]
  have := dvd_add h1 h2
  simpa using this

theorem eq_of_dvd_of_abs_lt {Q x y : Int} (h : Q ∣ x - y) (h1 : x - y < Q) (h2 : -Q < x - y) :
    x = y := by
  have := Int.eq_zero_of_abs_lt_dvd h (by rw [abs_lt]; exact ⟨by linarith, h1⟩)
  linarith

/-- **C58, partial.** For every modulus chain, `reconstructTo` maps the residues of an integer `z`
with `-Q/2 < z < (Q-1)/2` back to `z`.  Missing from C58: the single integer `(Q-1)/2`. -/
theorem C58_partial (qs : List Nat) (h : Chain qs) (z : Int)
    (h1 : -(qs.prod : Int) < 2 * z) (h2 : 2 * z < (qs.prod : Int) - 1) :
    reconstruct1 (qs.map fun q => (bigResidue z q, q)) = .ok z := by
  obtain ⟨q0, qs', rfl⟩ : ∃ q0 qs', qs = q0 :: qs' := by
    cases qs with
    | nil => exact absurd rfl h.ne
    | cons a b => exact ⟨a, b, rfl⟩
  have hodd := prod_odd h.odd
  have hpos := prod_pos' h.one
  set Q := (q0 :: qs').prod with hQ
  unfold reconstruct1
  have hm : (((q0 :: qs').map fun q => (bigResidue z q, q)).map Prod.snd) = q0 :: qs' := by
    rw [List.map_map]; exact List.map_id' _
  rw [hm, ← hQ]
  simp only [List.map_cons, List.tail_cons]
  rw [idx_ok (by simp)]
  simp only [List.getElem_cons_zero, go_bind_ok, go_pure]
  have hb : ∀ q ∈ q0 :: qs', (q : Int) ∣ toBalanced (bigResidue z q) q - z ∧
      2 * |toBalanced (bigResidue z q) q| < q := by
    intro q hq
    have hq0 : 0 < q := (h.one q hq).trans' Nat.one_pos
    obtain ⟨h3, h4⟩ := toBalanced_spec (bigResidue_lt z hq0) (h.odd q hq)
    refine ⟨?_, h4⟩
    have h5 : (q : Int) ∣ (bigResidue z q : Int) - z := by
      rw [bigResidue_cast z hq0]
      exact ⟨-(z / q), by linarith [Int.mul_ediv_add_emod z q]⟩
    simpa using dvd_add h3 h5
  split
  · rename_i hs
    congr 1
    have hall : ∀ q ∈ q0 :: qs', (q : Int) ∣ toBalanced (bigResidue z q0) q0 - z := by
      intro q hq
      rcases List.mem_cons.mp hq with h3 | h3
      · rw [h3]; exact (hb q0 (by simp)).1
      · unfold rnsSmall at hs
        have h4 := List.all_eq_true.mp hs (bigResidue z q, q) (List.mem_map_of_mem h3)
        rw [show toBalanced (bigResidue z q0) q0 = toBalanced (bigResidue z q) q by simpa using h4]
        exact (hb q hq).1
    have h3 := prod_dvd_of_coprime h.coprime hall
    have h4 := (hb q0 (by simp)).2
    have h5 : q0 ≤ Q := le_prod' h.one (by simp)
    have h6 := abs_lt.mp (show |toBalanced (bigResidue z q0) q0| < Q by omega)
    rw [← hQ] at h3
    have h7 := neg_abs_le (toBalanced (bigResidue z q0) q0)
    have h8 := le_abs_self (toBalanced (bigResidue z q0) q0)
    exact eq_of_dvd_of_abs_lt h3 (by omega) (by omega)
  · have h3 := prod_dvd_of_coprime h.coprime (fun q hq => rnsAcc_modEq h z hq)
    rw [← hQ] at h3
    have h4 : rnsAcc Q ((q0 :: qs').map fun q => (bigResidue z q, q)) < Q := Nat.mod_lt _ hpos
    simp only [List.map_cons] at h3 h4
    split
    · rename_i h5
      congr 1
      refine eq_of_dvd_of_abs_lt (Q := Q) ?_ (by omega) (by omega)
      have := dvd_sub h3 (dvd_refl (Q : Int))
      rwa [sub_right_comm] at this
    · congr 1
      exact eq_of_dvd_of_abs_lt h3 (by omega) (by omega)

/-- **C58, partial.** With a single modulus the balanced representative is always returned. -/
theorem C58_single (q : Nat) (x : Nat) (hq : q % 2 = 1) (hx : x < q) :
    ∃ z : Int, reconstruct1 [(x, q)] = .ok z ∧ (q : Int) ∣ z - x ∧ 2 * |z| < q :=
  ⟨toBalanced x q, rfl, toBalanced_spec hx hq⟩

/-- **C58** is false: with two or more moduli, the residues of `(Q-1)/2`, which lies in
`(-Q/2, Q/2]`, are mapped to `-(Q+1)/2`, which does not. -/
theorem C58_refuted (q0 q1 : Nat) (qs : List Nat) (h : Chain (q0 :: q1 :: qs)) :
    let Q := (q0 :: q1 :: qs).prod
    reconstruct1 ((q0 :: q1 :: qs).map fun q => (bigResidue ((Q - 1) / 2 : Nat) q, q)) =
      .ok (-((Q + 1) / 2 : Nat)) := by
  intro Q
  have hodd : Q % 2 = 1 := prod_odd h.odd
  have hpos : 0 < Q := prod_pos' h.one
  have hres : ∀ q ∈ q0 :: q1 :: qs, bigResidue ((Q - 1) / 2 : Nat) q = (q - 1) / 2 := by
    intro q hq
    obtain ⟨k, hk⟩ : q ∣ Q := List.dvd_prod hq
    have hq1 := h.one q hq
    have hq2 := h.odd q hq
    unfold bigResidue
    have hk2 : k % 2 = 1 := by
      have h3 := hodd
      rw [hk, Nat.mul_mod, hq2, Nat.one_mul, Nat.mod_mod] at h3
      exact h3
    have h4 : (Q - 1) / 2 = (q - 1) / 2 + q * ((k - 1) / 2) := by
      obtain ⟨a, rfl⟩ : ∃ a, q = 2 * a + 1 := ⟨q / 2, by omega⟩
      obtain ⟨b, rfl⟩ : ∃ b, k = 2 * b + 1 := ⟨k / 2, by omega⟩
      rw [hk]
      have e1 : (2 * a + 1) * (2 * b + 1) - 1 = 2 * (a + (2 * a + 1) * b) := by
        have : (2 * a + 1) * (2 * b + 1) = 2 * (a + (2 * a + 1) * b) + 1 := by ring
        omega
      rw [e1, Nat.mul_div_cancel_left _ (by decide)]
      simp
    rw [h4]
    norm_cast
    rw [Nat.add_mul_mod_self_left, Nat.mod_eq_of_lt (by omega), Int.toNat_natCast]
  have hbal : ∀ q ∈ q0 :: q1 :: qs, toBalanced ((q - 1) / 2) q = ((q - 1) / 2 : Nat) := by
    intro q hq
    have := h.odd q hq
    unfold toBalanced
    rw [if_neg (by omega)]
  have hne : (q0 - 1) / 2 ≠ (q1 - 1) / 2 := by
    intro h3
    have h4 := h.odd q0 (by simp)
    have h5 := h.odd q1 (by simp)
    have h6 := h.one q0 (by simp)
    have h7 : q0 = q1 := by omega
    have h8 := (List.pairwise_cons.mp h.coprime).1 q1 (by simp)
    rw [h7] at h8
    rw [Nat.coprime_self] at h8
    have := h.one q1 (by simp)
    omega
  have hacc : rnsAcc Q ((q0 :: q1 :: qs).map fun q => (bigResidue ((Q - 1) / 2 : Nat) q, q)) =
      (Q - 1) / 2 := by
    have h3 := prod_dvd_of_coprime h.coprime
      (fun q hq => rnsAcc_modEq h ((Q - 1) / 2 : Nat) hq)
    have h4 : rnsAcc Q ((q0 :: q1 :: qs).map fun q => (bigResidue ((Q - 1) / 2 : Nat) q, q)) < Q :=
      Nat.mod_lt _ hpos
    change (Q : Int) ∣ (rnsAcc Q _ : Int) - _ at h3
    have := eq_of_dvd_of_abs_lt h3 (by omega) (by omega)
    exact_mod_cast this
  unfold reconstruct1
  have hm : (((q0 :: q1 :: qs).map fun q => (bigResidue ((Q - 1) / 2 : Nat) q, q)).map Prod.snd) =
      q0 :: q1 :: qs := by
    rw [List.map_map]; exact List.map_id' _
  rw [hm]
  change (do
    let cq0 : Nat × Nat ← idx _ 0
    if rnsSmall (toBalanced cq0.1 cq0.2) _ = true then _ else
      if Q / 2 ≤ rnsAcc Q _ then pure ((rnsAcc Q _ : Int) - Q) else _) = _
  rw [hacc]
  rw [idx_ok (by simp)]
  simp only [List.map_cons, List.getElem_cons_zero, go_bind_ok, go_pure, List.tail_cons]
  rw [if_neg, if_pos (by omega)]
  · congr 1
    omega
  · unfold rnsSmall
    rw [List.all_cons, hres q0 (by simp), hres q1 (by simp), hbal q0 (by simp), hbal q1 (by simp)]
    simp only [Bool.and_eq_true, beq_iff_eq, not_and]
    intro h3
    exact absurd (by exact_mod_cast h3) hne

/-- A chain of two moduli. -/
theorem chain_97_193 : Chain [97, 193] := ⟨by simp, by decide, by decide, by decide⟩

/-- A negative number with different residues, and one taking the fast path. -/
example : reconstruct1 ([97, 193].map fun q => (bigResidue (-5000) q, q)) = .ok (-5000) ∧
    reconstruct1 ([97, 193].map fun q => (bigResidue (-7) q, q)) = .ok (-7) :=
  ⟨C58_partial _ chain_97_193 _ (by decide) (by decide),
    C58_partial _ chain_97_193 _ (by decide) (by decide)⟩

/-! ## Writing residues -/

/-- **C59.** `setBigCoeffTo` stores the reduced residue of every integer. -/
theorem C59_big (c : Int) (q : Nat) (hq : 0 < q) :
    bigResidue c q < q ∧ (q : Int) ∣ (bigResidue c q : Int) - c := by
  refine ⟨bigResidue_lt c hq, ?_⟩
  rw [bigResidue_cast c hq]
  exact ⟨-(c / q), by linarith [Int.mul_ediv_add_emod c q]⟩

/-- **C59, partial.** `setCoeffSigned` stores a number congruent to `c`, and the reduced residue if
`|c| < q`. -/
theorem C59_partial (c : Int) (q : Nat) (hq : 0 < q) :
    ((q : Int) ∣ (signedResidue c q : Int) - c) ∧ (|c| < q → signedResidue c q < q) := by
  unfold signedResidue
  split
  · rename_i h
    constructor
    · rw [Int.toNat_of_nonneg h]; simp
    · intro h2; rw [abs_of_nonneg h] at h2; omega
  · rename_i h
    have h1 : -(q : Int) < c.tmod q := by
      have := Int.lt_tmod_of_pos c (b := (q : Int)) (by omega)
      exact this
    have h2 := Int.mul_tdiv_add_tmod c q
    constructor
    · rw [Int.toNat_of_nonneg (by omega)]
      refine ⟨1 - c.tdiv q, ?_⟩
      linarith
    · intro h3
      rw [abs_of_neg (by omega)] at h3
      have h4 : c.tmod q = c := by
        have h5 : (-c).tmod q = -c := Int.tmod_eq_of_lt (by omega) (by omega)
        rw [Int.neg_tmod] at h5
        omega
      rw [h4]; omega

/-- **C59** is false for `setCoeffSigned`: the negative multiples of `q` are stored as `q`, and
integers of at least `q` as they are. -/
theorem C59_refuted (q k : Nat) (hq : 0 < q) :
    signedResidue (-((k + 1) * q : Nat)) q = q ∧ signedResidue ((k + 1) * q : Nat) q = (k + 1) * q := by
  constructor
  · unfold signedResidue
    have : 0 < (k + 1) * q := Nat.mul_pos (by omega) hq
    rw [if_neg (by omega)]
    have h : (-(((k + 1) * q : Nat) : Int)).tmod q = 0 := by
      rw [Int.neg_tmod]
      push_cast
      rw [Int.mul_tmod_left]
      rfl
    rw [h]; simp
  · unfold signedResidue
    rw [if_pos (by omega), Int.toNat_natCast]

example : signedResidue (-7) 97 = 90 ∧ signedResidue (-97) 97 = 97 ∧ bigResidue (-97) 97 = 0 := by
  decide

end Ringo
