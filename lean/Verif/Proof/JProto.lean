import Verif.Spec.Lattigo
import Verif.Props.JEncoder
import Verif.Props.JMatrix
import Verif.Props.JChal
import Verif.Proof.Transcript

/-!
# The operations of Jindo's protocol as operations of the ring
-/

namespace Ringo

open Polynomial Finset

theorem idx_getD {α : Type} {l : List α} {i : Nat} (h : i < l.length) (d : α) :
    idx l i = .ok (l.getD i d) := by
  rw [idx_ok h, List.getD_eq_getElem _ _ h]

theorem idxIdx_getD {α : Type} {l : List (List α)} {i j : Nat} (h : i < l.length)
    (hj : j < (l.getD i []).length) (d : α) : idxIdx l i j = .ok ((l.getD i []).getD j d) := by
  unfold idxIdx
  rw [idx_getD h [], go_bind_ok, idx_getD hj d]

theorem accLoop_ok {T : Type} [AddCommGroup T] (n : Nat) (init : T) (f : Nat → Go T) (g : Nat → T)
    (h : ∀ k < n, f k = .ok (g k)) : accLoop n init f = .ok (init + ∑ k ∈ range n, g k) := by
  unfold accLoop
  obtain ⟨s, h1, h2⟩ := forRange_spec (f := fun acc k => do
      let t ← f k
      pure (acc + t)) 0 n (Nat.zero_le _) (fun i s => s = init + ∑ k ∈ range i, g k) init (by simp)
    (by
      intro i s _ hi hs
      refine ⟨s + g i, by rw [h i hi, go_bind_ok, go_pure], ?_⟩
      rw [hs, sum_range_succ, add_assoc])
  rw [h1, h2]

theorem subLoop_ok {T : Type} [AddCommGroup T] (n : Nat) (init : T) (f : Nat → Go T) (g : Nat → T)
    (h : ∀ k < n, f k = .ok (g k)) : subLoop n init f = .ok (init - ∑ k ∈ range n, g k) := by
  unfold subLoop
  obtain ⟨s, h1, h2⟩ := forRange_spec (f := fun acc k => do
      let t ← f k
      pure (acc - t)) 0 n (Nat.zero_le _) (fun i s => s = init - ∑ k ∈ range i, g k) init (by simp)
    (by
      intro i s _ hi hs
      refine ⟨s - g i, by rw [h i hi, go_bind_ok, go_pure], ?_⟩
      rw [hs, sum_range_succ, sub_sub])
  rw [h1, h2]

/-! ## Reconstruction -/

theorem zip_residues (qs : List Nat) (c : Int) :
    (qs.map (bigResidue c)).zip qs = qs.map fun q => (bigResidue c q, q) := by
  induction qs with
  | nil => rfl
  | cons q qs ih => simp only [List.map_cons, List.zip_cons_cons, ih]

/-- Whatever the integer, a number congruent to it is reconstructed, of absolute value at most
`(Q+1)/2`. -/
theorem reconstruct1_congr (qs : List Nat) (h : Chain qs) (z : Int) :
    ∃ w, reconstruct1 (qs.map fun q => (bigResidue z q, q)) = .ok w ∧ (qs.prod : Int) ∣ w - z ∧
      2 * |w| ≤ qs.prod + 1 := by
  obtain ⟨q0, qs', rfl⟩ : ∃ q0 qs', qs = q0 :: qs' := by
    cases qs with
    | nil => exact absurd rfl h.ne
    | cons a b => exact ⟨a, b, rfl⟩
  have hodd := prod_odd h.odd
  have hpos := prod_pos' h.one
  set Q := (q0 :: qs').prod with hQ
  unfold reconstruct1
  have hm : (((q0 :: qs').map fun q => (bigResidue z q, q)).map Prod.snd) = q0 :: qs' := by
    rw [List.map_map]; exact List.map_id' _
  rw [hm, ← hQ]
  simp only [List.map_cons, List.tail_cons]
  rw [idx_ok (by simp)]
  simp only [List.getElem_cons_zero, go_bind_ok, go_pure]
  have hb : ∀ q ∈ q0 :: qs', (q : Int) ∣ toBalanced (bigResidue z q) q - z ∧
      2 * |toBalanced (bigResidue z q) q| < q := by
    intro q hq
    have hq0 : 0 < q := (h.one q hq).trans' Nat.one_pos
    obtain ⟨h3, h4⟩ := toBalanced_spec (bigResidue_lt z hq0) (h.odd q hq)
    refine ⟨?_, h4⟩
    have h5 : (q : Int) ∣ (bigResidue z q : Int) - z := by
      rw [bigResidue_cast z hq0]
      exact ⟨-(z / q), by linarith [Int.mul_ediv_add_emod z q]⟩
    simpa using dvd_add h3 h5
  split
  · rename_i hs
    refine ⟨_, rfl, ?_, ?_⟩
    · refine prod_dvd_of_coprime h.coprime ?_
      intro q hq
      rcases List.mem_cons.mp hq with h3 | h3
      · rw [h3]; exact (hb q0 (by simp)).1
      · unfold rnsSmall at hs
        have h4 := List.all_eq_true.mp hs (bigResidue z q, q) (List.mem_map_of_mem h3)
        rw [show toBalanced (bigResidue z q0) q0 = toBalanced (bigResidue z q) q by simpa using h4]
        exact (hb q hq).1
    · have h4 := (hb q0 (by simp)).2
      have h5 : q0 ≤ Q := le_prod' h.one (by simp)
      omega
  · have h3 := prod_dvd_of_coprime h.coprime (fun q hq => rnsAcc_modEq h z hq)
    rw [← hQ] at h3
    have h4 : rnsAcc Q ((q0 :: qs').map fun q => (bigResidue z q, q)) < Q := Nat.mod_lt _ hpos
    simp only [List.map_cons] at h3 h4
    split
    · rename_i h5
      refine ⟨_, rfl, ?_, ?_⟩
      · have := dvd_sub h3 (dvd_refl (Q : Int))
        rwa [sub_right_comm] at this
      · rw [abs_of_neg (by omega)]; omega
    · refine ⟨_, rfl, h3, ?_⟩
      rw [abs_of_nonneg (by omega)]; omega

theorem reconstructTo_congr (qs : List Nat) (hc : Chain qs) (z : List Int) :
    ∃ w, reconstructTo qs (z.map fun c => qs.map (bigResidue c)) = .ok w ∧ w.length = z.length ∧
      List.Forall₂ (fun a b => (qs.prod : Int) ∣ a - b) w z ∧ ∀ c ∈ w, 2 * |c| ≤ qs.prod + 1 := by
  unfold reconstructTo
  rw [List.mapM_map]
  obtain ⟨w, h1, h2⟩ := mapM_spec ((fun cs => reconstruct1 (cs.zip qs)) ∘ fun c => qs.map (bigResidue c))
    (fun c w => (qs.prod : Int) ∣ w - c ∧ 2 * |w| ≤ qs.prod + 1) z (by
      intro c _
      simp only [Function.comp_apply, zip_residues]
      exact reconstruct1_congr qs hc c)
  refine ⟨w, h1, h2.length_eq.symm, ?_, ?_⟩
  · clear h1
    induction h2 with
    | nil => exact .nil
    | cons h3 _ ih => exact .cons h3.1 ih
  · clear h1
    induction h2 with
    | nil => intro c hc; cases hc
    | cons h3 _ ih =>
      intro c hc
      rcases List.mem_cons.mp hc with h | h
      · rw [h]; exact h3.2
      · exact ih c h

/-! ## The ring of a lawful `LRing` -/

section lawful
variable {T : Type} [AddCommGroup T] {L : LRing T} (A : L.Lawful)
include A

theorem LRing.Lawful.exists_rep (t : T) : ∃ z : List Int, z.length = L.N ∧ A.val t = toR L.qs L.N z := by
  have hc := A.chain
  have : Fact (1 < L.qs.prod) := ⟨hc.nontrivial⟩
  have : NeZero L.qs.prod := ⟨by have := hc.nontrivial; omega⟩
  obtain ⟨v, h1, h2⟩ := exists_coeffs L.N A.pos (A.val t)
  refine ⟨v.map fun c => (c.val : Int), by simpa using h1, ?_⟩
  unfold toR
  rw [List.map_map, ← h2]
  congr 2
  conv_lhs => rw [← List.map_id v]
  apply List.map_congr_left
  intro a _
  simp

/-- `IMForm`, `INTT` and `reconstructTo`: integers which represent the element. -/
theorem LRing.Lawful.reconstruct (t : T) :
    ∃ z : List Int, reconstructTo L.qs (L.unload t) = .ok z ∧ z.length = L.N ∧
      A.val t = toR L.qs L.N z ∧ ∀ c ∈ z, 2 * |c| ≤ L.qs.prod + 1 := by
  obtain ⟨u, h1, h2⟩ := A.exists_rep t
  rw [A.unload_eq t u h1 h2]
  obtain ⟨w, h3, h4, h5, h6⟩ := reconstructTo_congr L.qs A.chain u
  exact ⟨w, h3, by omega, by rw [h2]; exact (toR_congr h5).symm, h6⟩

/-- Integers of small absolute value are found again. -/
theorem LRing.Lawful.reconstruct_eq {t : T} {z : List Int} (hz : z.length = L.N)
    (h : A.val t = toR L.qs L.N z)
    (hr : ∀ c ∈ z, -(L.qs.prod : Int) < 2 * c ∧ 2 * c < (L.qs.prod : Int) - 1) :
    reconstructTo L.qs (L.unload t) = .ok z := by
  rw [A.unload_eq t z hz h]
  exact reconstructTo_ok L.qs A.chain z hr

end lawful

/-! ## Truncation -/

theorem listPoly_map_mul (c : Int) (z : List Int) :
    listPoly (z.map fun a => c * a) = C c * listPoly z := by
  ext n
  rw [coeff_C_mul, listPoly_coeff, listPoly_coeff, List.getD_eq_getElem?_getD,
    List.getD_eq_getElem?_getD, List.getElem?_map]
  cases z[n]? <;> simp

theorem listPoly_map_add (f g : Int → Int) (z : List Int) :
    listPoly (z.map fun a => f a + g a) = listPoly (z.map f) + listPoly (z.map g) := by
  ext n
  rw [coeff_add, listPoly_coeff, listPoly_coeff, listPoly_coeff, List.getD_eq_getElem?_getD,
    List.getD_eq_getElem?_getD, List.getD_eq_getElem?_getD, List.getElem?_map, List.getElem?_map,
    List.getElem?_map]
  cases z[n]? <;> simp

/-- Division with remainder of all coefficients. -/
theorem toZ_divmod (N : Nat) (d : Int) (z : List Int) :
    toZ N z = (d : RZ N) * toZ N (z.map fun c => c / d) + toZ N (z.map fun c => c % d) := by
  have h : z = z.map fun c => d * (c / d) + c % d := by
    conv_lhs => rw [← List.map_id z]
    apply List.map_congr_left
    intro c _
    exact (Int.mul_ediv_add_emod c d).symm
  conv_lhs => rw [h, toZ, listPoly_map_add (fun c => d * (c / d)) (fun c => c % d), map_add]
  congr 1
  rw [show (fun c : Int => d * (c / d)) = (fun a => d * a) ∘ fun c => c / d from rfl,
    ← List.map_map, listPoly_map_mul, map_mul]
  congr 1

theorem toR_divmod (qs : List Nat) (N : Nat) (d : Int) (z : List Int) :
    toR qs N z = (d : RQ qs N) * toR qs N (z.map fun c => c / d) + toR qs N (z.map fun c => c % d) := by
  rw [← redR_toZ, toZ_divmod N d z, map_add, map_mul, redR_toZ, redR_toZ, map_intCast]

/-- Truncation of `cut` bits: `t'` stands for integers `t`, the remainder `ρ` is nonnegative and
below `2^cut`. -/
theorem truncate_spec {T T' : Type} [AddCommGroup T] [AddCommGroup T'] {L : LRing T} {L' : LRing T'}
    (A : L.Lawful) (A' : L'.Lawful) (hN : L'.N = L.N) (cut : Nat) (c : T) :
    ∃ t', truncate L L' cut c = .ok t' ∧ ∃ t ρ : List Int, t.length = L.N ∧ ρ.length = L.N ∧
      A'.val t' = toR L'.qs L'.N t ∧
      A.val c = 2 ^ cut * toR L.qs L.N t + toR L.qs L.N ρ ∧ (∀ r ∈ ρ, 0 ≤ r ∧ r < 2 ^ cut) ∧
      ∀ c ∈ t, 2 ^ (cut + 1) * |c| ≤ L.qs.prod + 1 + 2 ^ (cut + 1) := by
  obtain ⟨z, h1, h2, h3, h4⟩ := A.reconstruct c
  unfold truncate
  rw [h1, go_bind_ok, go_pure]
  have hsh : (z.map fun (z : Int) => L'.qs.map fun q => bigResidue (z >>> cut) q) =
      (z.map fun c => c / 2 ^ cut).map fun c => L'.qs.map (bigResidue c) := by
    rw [List.map_map]
    apply List.map_congr_left
    intro a _
    simp only [Function.comp_apply]
    rw [Int.shiftRight_eq_div_pow]
    push_cast
    rfl
  refine ⟨_, rfl, z.map fun c => c / 2 ^ cut, z.map fun c => c % 2 ^ cut, by simpa using h2,
    by simpa using h2, ?_, ?_, ?_, ?_⟩
  · rw [hsh]
    exact A'.val_load _ _ (by simpa [hN] using h2) (Residues.big A'.chain _)
  · rw [h3, toR_divmod L.qs L.N (2 ^ cut) z]
    push_cast
    rfl
  · intro r hr
    obtain ⟨a, -, rfl⟩ := List.mem_map.mp hr
    have : (0 : Int) < 2 ^ cut := by positivity
    exact ⟨Int.emod_nonneg _ (by omega), Int.emod_lt_of_pos _ this⟩
  · intro r hr
    obtain ⟨a, ha, rfl⟩ := List.mem_map.mp hr
    have h5 := h4 a ha
    have hd : (0 : Int) < 2 ^ cut := by positivity
    have h6 := Int.mul_ediv_self_le (x := a) (k := 2 ^ cut) (by omega)
    have h7 := Int.lt_mul_ediv_self_add (x := a) hd
    have h8 := le_abs_self a
    have h9 := neg_abs_le a
    rw [pow_succ]
    rcases abs_cases (a / 2 ^ cut) with ⟨h10, -⟩ | ⟨h10, -⟩
    · rw [h10]; linarith
    · rw [h10]; linarith

/-! ## Challenges, encodings and samples as integers -/

theorem Residues.of_range {qs : List Nat} (n : Nat) (f : Nat → Nat → Nat) (g : Nat → Int)
    (h : ∀ t < n, ∀ q ∈ qs, (q : Int) ∣ (f t q : Int) - g t) :
    Residues qs ((List.range n).map fun t => qs.map (f t)) ((List.range n).map g) := by
  unfold Residues
  rw [List.forall₂_map_left_iff, List.forall₂_map_right_iff, List.forall₂_same]
  intro t ht
  rw [List.forall₂_map_left_iff, List.forall₂_same]
  exact h t (List.mem_range.mp ht)

/-- Eight bytes, most significant first. -/
def beWord (b : List (BitVec 8)) : Nat := (b.take 8).foldl (fun acc x => acc * 256 + x.toNat) 0

/-- Sixteen bytes as a number: the first word is the less significant one. -/
def chalNum (bytes : List (BitVec 8)) : Nat := beWord bytes + 2 ^ 64 * beWord (bytes.drop 8)

/-- The challenge of sixteen bytes: the digits of the number to the base `B`, made signed, are the
coefficients of `1`, `X^slots`, `X^(2 slots)`, ... -/
def chalInt (P : EncParams) (bytes : List (BitVec 8)) : List Int :=
  (List.range P.N).map fun t => if t % P.slots = 0 then
    centred (challengeBound P.ecd)
      (chalNum bytes / challengeBound P.ecd ^ (t / P.slots) % challengeBound P.ecd) else 0

theorem chalInt_length (P : EncParams) (bytes : List (BitVec 8)) : (chalInt P bytes).length = P.N := by
  simp [chalInt]

theorem chalPoly_spec {p : Nat} {T : Type} [AddCommGroup T] {L : LRing T} (A : L.Lawful)
    {P : EncParams} (hP : P.Good p) (hN : L.N = P.N) (hB : 1 ≤ challengeBound P.ecd)
    (hq : ∀ q ∈ L.qs, challengeBound P.ecd ≤ q) (bytes : List (BitVec 8)) (hb : bytes.length = 16) :
    ∃ t, chalPoly P L bytes = .ok t ∧ A.val t = toR L.qs L.N (chalInt P bytes) := by
  set B := challengeBound P.ecd with hBd
  obtain ⟨c0, h0, hc0⟩ := beUint64_ok bytes (by omega)
  obtain ⟨c1, h1, hc1⟩ := beUint64_ok (bytes.drop 8) (by simp; omega)
  have e0 : c0 = beWord bytes := by
    unfold beUint64 at h0; rw [if_neg (by omega)] at h0; exact (Except.ok.inj h0).symm
  have e1 : c1 = beWord (bytes.drop 8) := by
    unfold beUint64 at h1; rw [if_neg (by simp; omega)] at h1; exact (Except.ok.inj h1).symm
  have hcs := chalCoeffs_eq P.ecd hB bytes h0 h1 hc0 hc1 L.qs hq
  have hn : c0 + 2 ^ 64 * c1 = chalNum bytes := by rw [e0, e1]; rfl
  rw [hn, ← hBd] at hcs
  unfold chalPoly
  rw [hcs, go_bind_ok]
  have hs := hP.slots_pos
  set g : Nat → List Nat := fun j => L.qs.map (bigResidue (centred B (chalNum bytes / B ^ j % B)))
    with hg
  obtain ⟨s, h2, h3, h4⟩ := forRange_spec (f := fun (poly : List (List Nat)) i => do
      let c ← idx ((List.range P.ecd.exp).map g) i
      setIdx poly (i * P.slots) c) 0 P.ecd.exp (Nat.zero_le _)
    (fun i s => s.length = P.N ∧ ∀ t < P.N, s[t]? = some (if t % P.slots = 0 ∧ t / P.slots < i then
      g (t / P.slots) else L.qs.map fun _ => 0)) (zeroPoly L)
    (by
      refine ⟨by simp [zeroPoly, hN], ?_⟩
      intro t ht
      simp [zeroPoly, hN, ht])
    (by
      rintro i s - hi ⟨hl, hs'⟩
      have hlt : i * P.slots < P.N := by
        have := split_lt (s := P.slots) (e := P.ecd.exp) (i := 0) hs hi
        rw [hP.deg]; simpa using this
      rw [idx_getD (by simpa using hi) [], go_bind_ok, getD_map_range _ _ _ _ hi,
        setIdx_ok (by omega)]
      refine ⟨_, rfl, by simpa using hl, ?_⟩
      intro t ht
      rw [List.getElem?_set]
      by_cases h : i * P.slots = t
      · rw [if_pos h, if_pos (by omega)]
        have := (split_iff i t hs).mp (by rw [← h]; omega)
        rw [if_pos ⟨this.1, by omega⟩, this.2]
      · rw [if_neg h, hs' t ht]
        congr 1
        have : ¬ (t % P.slots = 0 ∧ t / P.slots = i) := fun h' => h (by
          have := (split_iff i t hs).mpr h'; omega)
        by_cases h5 : t % P.slots = 0 ∧ t / P.slots < i
        · rw [if_pos h5, if_pos ⟨h5.1, by omega⟩]
        · rw [if_neg h5, if_neg]
          rintro ⟨h6, h7⟩
          rcases Nat.lt_succ_iff_lt_or_eq.mp h7 with h8 | h8
          · exact h5 ⟨h6, h8⟩
          · exact this ⟨h6, h8⟩)
  rw [h2, go_bind_ok, go_pure]
  refine ⟨_, rfl, ?_⟩
  apply A.val_load _ _ (by rw [chalInt_length, hN])
  have hfin : s = (chalInt P bytes).map fun c => L.qs.map (bigResidue c) := by
    apply List.ext_getElem?
    intro t
    by_cases ht : t < P.N
    · rw [h4 t ht, chalInt, List.map_map, List.getElem?_map, List.getElem?_range ht]
      simp only [Option.map_some, Function.comp_apply, ← hBd]
      congr 1
      have hlt : t / P.slots < P.ecd.exp := Nat.div_lt_of_lt_mul (by rw [← hP.deg]; exact ht)
      by_cases h5 : t % P.slots = 0
      · rw [if_pos ⟨h5, hlt⟩, if_pos h5]
      · rw [if_neg (fun h => h5 h.1), if_neg h5]
        apply List.map_congr_left
        intro q _
        simp [bigResidue]
    · rw [List.getElem?_eq_none (by omega), List.getElem?_eq_none (by simp [chalInt]; omega)]
  rw [hfin]
  exact Residues.big A.chain _

/-- The digits of the encoding of `v`. -/
def encInt {p : Nat} (P : EncParams) (v : List (ZMod p)) : List Int :=
  (List.range P.N).map fun t => ((ecdDigit P.ecd.base P.ecd.exp
      (v.getD (t % P.slots) 0).val (t / P.slots) : Nat) : Int)

theorem encInt_length {p : Nat} (P : EncParams) (v : List (ZMod p)) : (encInt P v).length = P.N := by
  simp [encInt]

theorem encodePoly_spec {p : Nat} {T : Type} [AddCommGroup T] {L : LRing T} (A : L.Lawful)
    {P : EncParams} (hP : P.Good p) (hN : L.N = P.N) (v : List (ZMod p)) (hv : v.length ≤ P.slots) :
    ∃ t, encodePoly P L v = .ok t ∧ A.val t = toR L.qs L.N (encInt P v) := by
  unfold encodePoly
  rw [baseEncode_spec P hP _ v hv (by simp), go_bind_ok, go_pure]
  refine ⟨_, rfl, ?_⟩
  apply A.val_load _ _ (by rw [encInt_length, hN])
  rw [List.map_map]
  exact Residues.of_range (qs := L.qs) _ (fun t _ => ecdDigit P.ecd.base P.ecd.exp
      (v.getD (t % P.slots) 0).val (t / P.slots)) _ (fun t _ q _ => by simp)

/-- The integer coefficients of the randomised encoding of `v` with the samples `s`. -/
def cellInt {p : Nat} (P : EncParams) (v : List (ZMod p)) (s : List Int) : List Int :=
  (List.range P.N).map (randCoeff P ((List.range P.N).map fun t =>
    ecdDigit P.ecd.base P.ecd.exp (v.getD (t % P.slots) 0).val (t / P.slots)) s)

theorem cellInt_length {p : Nat} (P : EncParams) (v : List (ZMod p)) (s : List Int) :
    (cellInt P v s).length = P.N := by
  simp [cellInt]

theorem randPoly_spec {p : Nat} {T : Type} [AddCommGroup T] {L : LRing T} (A : L.Lawful)
    {P : EncParams} (hP : P.Good p) (hN : L.N = P.N) (v : List (ZMod p)) (hv : v.length ≤ P.slots)
    (s : List Int) :
    ∃ t, randPoly P L v s = .ok t ∧ A.val t = toR L.qs L.N (cellInt P v s) := by
  unfold randPoly randEncode
  rw [baseEncode_spec P hP _ v hv (by simp), go_bind_ok, go_pure, go_bind_ok, go_pure]
  refine ⟨_, rfl, ?_⟩
  apply A.val_load _ _ (by rw [cellInt_length, hN])
  refine Residues.of_range (qs := L.qs) _ (fun t q => randResidue P _ s q t) _ (fun t _ q hq => ?_)
  have h0 : 0 < q := (A.chain.one q hq).trans' Nat.one_pos
  rw [randResidue_eq P _ s q t h0]
  exact (C59_big _ q h0).2

theorem mlwePoly_spec {T : Type} [AddCommGroup T] {L : LRing T} (A : L.Lawful) (s : Nat → Int) :
    A.val (mlwePoly L s) = toR L.qs L.N ((List.range L.N).map s) := by
  unfold mlwePoly
  apply A.val_load _ _ (by simp)
  exact Residues.of_range (qs := L.qs) _ (fun t q => signedResidue (s t) q) _
    (fun t _ q hq => (C59_partial _ q ((A.chain.one q hq).trans' Nat.one_pos)).1)

/-! ## Decoding on `ℤ[X]/(X^N+1)` -/

/-- Decoding as a homomorphism. -/
noncomputable def decZ {p : Nat} {P : EncParams} (hP : P.Good p) :
    RZ P.N →+* AdjoinRoot (decMod p P) :=
  AdjoinRoot.lift ((decHom p P).comp C) (decHom p P X) (by
    have h := hom_eval₂ (cyclo ℤ P.N) C (decHom p P) X
    rw [eval₂_C_X] at h
    rw [← h, decHom_cyclo hP])

theorem decZ_mk {p : Nat} {P : EncParams} (hP : P.Good p) (f : ℤ[X]) :
    decZ hP (AdjoinRoot.mk _ f) = decHom p P f := by
  unfold decZ
  rw [AdjoinRoot.lift_mk]
  have h := hom_eval₂ f C (decHom p P) X
  rw [eval₂_C_X] at h
  exact h.symm

theorem decZ_toZ {p : Nat} {P : EncParams} (hP : P.Good p) (z : List Int) (hz : z.length = P.N) :
    decZ hP (toZ P.N z) = AdjoinRoot.mk _ (listPoly (decoded p P z)) := by
  unfold toZ
  rw [decZ_mk, decHom_listPoly z (by rw [hz, hP.deg])]

theorem decoded_length {p : Nat} (P : EncParams) (z : List Int) : (decoded p P z).length = P.slots := by
  simp [decoded]

theorem decoded_encInt {p : Nat} {P : EncParams} (hP : P.Good p) (v : List (ZMod p))
    (hv : v.length ≤ P.slots) :
    decoded p P (encInt P v) = v ++ List.replicate (P.slots - v.length) 0 :=
  decoded_row hP v hv _ rfl

theorem decoded_cellInt {p : Nat} {P : EncParams} (hP : P.Good p) (v : List (ZMod p))
    (hv : v.length ≤ P.slots) (s : List Int) (hs : s.length = P.N) :
    decoded p P (cellInt P v s) = v ++ List.replicate (P.slots - v.length) 0 := by
  have hN : P.slots ≤ P.N := by
    rw [hP.deg]; exact Nat.le_mul_of_pos_right _ hP.exp_pos
  apply decoded_eq hP _ _ (cellInt_length P v s) (by simp; omega)
  have h1 := randCoeff_dvd P hN ((List.range P.N).map fun t =>
    ecdDigit P.ecd.base P.ecd.exp (v.getD (t % P.slots) 0).val (t / P.slots)) s (by simp) hs
  rw [cellInt, decHom_congr hP h1, map_add, map_mul, map_sub, decHom_X_slots]
  have h2 : decHom p P (C (P.ecd.base : Int)) =
      AdjoinRoot.mk (decMod p P) (C (P.ecd.base : ZMod p)) := by
    unfold decHom; simp
  rw [h2, sub_self, zero_mul, add_zero, decHom_listPoly _ (by simp [hP.deg])]
  congr 2
  exact decoded_row hP v hv _ (by rw [List.map_map]; rfl)

end Ringo
