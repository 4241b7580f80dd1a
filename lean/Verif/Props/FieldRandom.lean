import Verif.Model.FieldRandom
import Verif.Props.FieldInv

/-!
# C80 for vectors
-/

namespace Ringo

open FieldPkg

variable {P : FieldPkg}

/-- The candidates below the modulus, in the order in which they are read. -/
def goodCands (p bitLen : Nat) (bytes : List UInt8) : List Nat :=
  ((List.range (bytes.length / ((bitLen + 7) / 8))).map (candNum bitLen bytes)).filter (· < p)

theorem goodCands_step {p bitLen : Nat} (h0 : 0 < bitLen) {bytes : List UInt8} (hl : (bitLen + 7) / 8 ≤ bytes.length) :
    goodCands p bitLen bytes = (if candNum bitLen bytes 0 < p then [candNum bitLen bytes 0] else []) ++
      goodCands p bitLen (bytes.drop ((bitLen + 7) / 8)) := by
  have hk : 0 < (bitLen + 7) / 8 := by omega
  have e : bytes.length / ((bitLen + 7) / 8) = (bytes.length - (bitLen + 7) / 8) / ((bitLen + 7) / 8) + 1 := by
    conv_lhs => rw [← Nat.sub_add_cancel hl]
    rw [Nat.add_div_right _ hk]
  unfold goodCands
  rw [e, List.length_drop, List.range_succ_eq_map, List.map_cons, List.filter_cons, List.map_map]
  have e2 : candNum bitLen bytes ∘ Nat.succ = candNum bitLen (bytes.drop ((bitLen + 7) / 8)) := by
    funext j
    exact (candNum_succ bitLen bytes j).symm
  rw [e2]
  by_cases hc : candNum bitLen bytes 0 < p
  · simp [hc]
  · simp [hc]

theorem goodCands_short {p bitLen : Nat} {bytes : List UInt8} (hl : bytes.length < (bitLen + 7) / 8) :
    goodCands p bitLen bytes = [] := by
  unfold goodCands
  rw [Nat.div_eq_of_lt hl]
  rfl

/-- One element: the first good candidate, and the good candidates that are left. -/
theorem setRandom_cands (h : P.Good) {bitLen : Nat} (hb : P.BitsGood bitLen) (n : Nat) :
    ∀ bytes : List UInt8, bytes.length = n →
      (goodCands P.p bitLen bytes = [] → P.setRandom bitLen bytes = none) ∧
      ∀ v r, goodCands P.p bitLen bytes = v :: r → ∃ z rest, P.setRandom bitLen bytes = some (z, rest) ∧
        z.length = P.n ∧ (∀ w ∈ z, w < 2 ^ 64) ∧ Nat.ofDigits (2 ^ 64) z = v ∧ goodCands P.p bitLen rest = r ∧
        rest = bytes.drop (bytes.length - rest.length) ∧ rest.length + (bitLen + 7) / 8 ≤ bytes.length ∧
        (rest.length + (bitLen + 7) / 8 = bytes.length → candNum bitLen bytes 0 = v) := by
  have h0 := hb.pos h
  have hk : 0 < (bitLen + 7) / 8 := by omega
  induction n using Nat.strong_induction_on with
  | _ n ih =>
  intro bytes hn
  by_cases hl : bytes.length < (bitLen + 7) / 8
  · rw [goodCands_short hl]
    exact ⟨fun _ => C80_error h hb 0 bytes (by omega) (fun i hi => by omega), fun v r e => by cases e⟩
  rw [goodCands_step h0 (by omega)]
  by_cases hc : candNum bitLen bytes 0 < P.p
  · rw [if_pos hc]
    refine ⟨fun e => (by simp at e), fun v r e => ?_⟩
    obtain ⟨e1, e2⟩ := List.cons.inj e
    obtain ⟨z, q1, q2, q3, q4⟩ := C80 h hb 0 bytes (by omega) (fun i hi => by omega) hc
    rw [Nat.zero_add, Nat.one_mul] at q1
    refine ⟨z, _, q1, q2, q3, q4.trans e1, e2, ?_, ?_, fun _ => e1⟩
    · rw [List.length_drop]
      congr 1
      omega
    · rw [List.length_drop]
      omega
  · rw [if_neg hc, List.nil_append]
    obtain ⟨i1, i2⟩ := ih (bytes.drop ((bitLen + 7) / 8)).length (by rw [List.length_drop]; omega) _ rfl
    have hskip : P.setRandom bitLen bytes = P.setRandom bitLen (bytes.drop ((bitLen + 7) / 8)) := by
      have hkk : (randBytes bitLen).1 = (bitLen + 7) / 8 := rfl
      rw [setRandom_step bitLen (by rw [hkk]; exact hk) (by rw [hkk]; omega), hkk, if_neg]
      have hkn : (bitLen + 7) / 8 ≤ 8 * P.n := by have := hb.fits; omega
      obtain ⟨l, w, e⟩ := candidate_spec (P := P) h0 (by rw [hkk]; exact hkn)
        (b := bytes.take ((bitLen + 7) / 8)) (by rw [List.length_take, hkk]; omega)
      rw [smaller_spec h l w, e]
      unfold candNum at hc
      rw [Nat.zero_mul, List.drop_zero] at hc
      exact hc
    rw [hskip]
    refine ⟨i1, fun v r e => ?_⟩
    obtain ⟨z, rest, q1, q2, q3, q4, q5, q6, q7, -⟩ := i2 v r e
    rw [List.length_drop] at q6 q7
    refine ⟨z, rest, q1, q2, q3, q4, q5, ?_, by omega, fun hh => by omega⟩
    have e3 : bytes.length - rest.length = (bitLen + 7) / 8 + (bytes.length - (bitLen + 7) / 8 - rest.length) := by omega
    rw [e3, ← List.drop_drop]
    exact q6

/-- **C80, vectors** `vector.SetRandom()`: the first `n` candidates below the modulus become the elements, in order;
it fails exactly if the source has fewer. -/
theorem C80_vector (h : P.Good) {bitLen : Nat} (hb : P.BitsGood bitLen) (n : Nat) : ∀ bytes : List UInt8,
    ((goodCands P.p bitLen bytes).length < n → P.vecSetRandom bitLen n bytes = none) ∧
    (n ≤ (goodCands P.p bitLen bytes).length → ∃ zs rest, P.vecSetRandom bitLen n bytes = some (zs, rest) ∧
      (∀ z ∈ zs, z.length = P.n ∧ ∀ w ∈ z, w < 2 ^ 64) ∧
      zs.map (Nat.ofDigits (2 ^ 64)) = (goodCands P.p bitLen bytes).take n) := by
  induction n with
  | zero => exact fun bytes => ⟨fun hh => absurd hh (by omega), fun _ => ⟨[], bytes, rfl, by simp, by simp⟩⟩
  | succ n ih =>
    intro bytes
    obtain ⟨s1, s2⟩ := setRandom_cands h hb _ bytes rfl
    cases hg : goodCands P.p bitLen bytes with
    | nil =>
      refine ⟨fun _ => ?_, fun hh => absurd hh (by simp)⟩
      rw [vecSetRandom, s1 hg]
    | cons v r =>
      obtain ⟨z, rest, q1, q2, q3, q4, q5, -⟩ := s2 v r hg
      obtain ⟨i1, i2⟩ := ih rest
      rw [q5] at i1 i2
      rw [vecSetRandom, q1, List.length_cons]
      refine ⟨fun hh => ?_, fun hh => ?_⟩
      · simp only [i1 (by omega)]
        rfl
      · obtain ⟨zs, rest', p1, p2, p3⟩ := i2 (by omega)
        refine ⟨z :: zs, rest', by simp only [p1]; rfl, ?_, ?_⟩
        · intro y hy
          rcases List.mem_cons.1 hy with rfl | hy
          · exact ⟨q2, q3⟩
          · exact p2 y hy
        · rw [List.map_cons, p3, q4, List.take_succ_cons]

/-- **C80, vectors** uniformity: among the strings of `n k` bytes, the same number, `2^(n (8k - bitLen))`, gives each
vector of `n` residues: the elements are independent. -/
theorem C80_vector_uniform (h : P.Good) {bitLen : Nat} (hb : P.BitsGood bitLen) (as : List (ZMod P.p)) :
    {b : List UInt8 | b.length = as.length * ((bitLen + 7) / 8) ∧
      ∃ zs, P.vecSetRandom bitLen as.length b = some (zs, []) ∧ List.Forall₂ (MontForm P.p P.n) zs as}.ncard =
        (2 ^ (8 * ((bitLen + 7) / 8) - bitLen)) ^ as.length := by
  have h0 := hb.pos h
  have hk : 0 < (bitLen + 7) / 8 := by omega
  induction as with
  | nil =>
    rw [List.length_nil, pow_zero, Set.ncard_eq_one]
    refine ⟨[], ?_⟩
    ext b
    simp only [Set.mem_ofPred_eq, Set.mem_singleton_iff]
    constructor
    · rintro ⟨hl, -⟩
      exact List.length_eq_zero_iff.1 (by omega)
    · rintro rfl
      exact ⟨by simp, [], rfl, .nil⟩
  | cons a as ih =>
    rw [List.length_cons, pow_succ', ← ih, ← C80_uniform h hb a, ← Set.ncard_prod]
    symm
    refine Set.ncard_congr (fun (c : List UInt8 × List UInt8) _ => c.1 ++ c.2) ?_ ?_ ?_
    · rintro ⟨b, c⟩ ⟨⟨l1, z, e1, m1⟩, l2, zs, e2, m2⟩
      dsimp only at *
      refine ⟨by rw [List.length_append, l1, l2]; ring, z :: zs, ?_, .cons m1 m2⟩
      have hc : candNum bitLen b 0 < P.p := by
        by_contra hge
        have := C80_error h hb 1 b (by omega) (fun i hi => by
          have : i = 0 := by omega
          rw [this]; omega)
        rw [this] at e1
        cases e1
      have hcc : candNum bitLen (b ++ c) 0 = candNum bitLen b 0 := by
        unfold candNum
        rw [Nat.zero_mul, List.drop_zero, List.drop_zero, List.take_append_of_le_length (by omega)]
      obtain ⟨z1, q1, q2, q3, q4⟩ := C80 h hb 0 b (by omega) (fun i hi => by omega) hc
      obtain ⟨z2, r1, r2, r3, r4⟩ := C80 h hb 0 (b ++ c) (by rw [List.length_append]; omega) (fun i hi => by omega)
        (by rw [hcc]; exact hc)
      have hz1 : z = z1 := (Prod.mk.inj (Option.some.inj (e1.symm.trans q1))).1
      have hz2 : z2 = z := by
        rw [hz1]
        exact wv_inj r3 q3 (r2.trans q2.symm) (r4.trans (hcc.trans q4.symm))
      rw [Nat.zero_add, Nat.one_mul, List.drop_append_of_le_length (by omega), List.drop_of_length_le (by omega),
        List.nil_append, hz2] at r1
      rw [vecSetRandom, r1]
      simp only [e2]
      rfl
    · rintro ⟨b, c⟩ ⟨b', c'⟩ ⟨⟨l1, -⟩, -⟩ ⟨⟨l2, -⟩, -⟩ e
      obtain ⟨e1, e2⟩ := List.append_inj e (l1.trans l2.symm)
      exact Prod.ext e1 e2
    · rintro b ⟨hl, zs, e, m⟩
      rw [Nat.succ_mul] at hl
      obtain ⟨s1, s2⟩ := setRandom_cands h hb _ b rfl
      cases hg : goodCands P.p bitLen b with
      | nil =>
        rw [vecSetRandom, s1 hg] at e
        cases e
      | cons v r =>
      obtain ⟨z, rest, q1, q2, q3, q4, q5, q6, q7, q8⟩ := s2 v r hg
      rw [vecSetRandom, q1] at e
      cases e2 : P.vecSetRandom bitLen as.length rest with
      | none =>
        simp only [e2] at e
        cases e
      | some t =>
      obtain ⟨zs', rest'⟩ := t
      simp only [e2] at e
      obtain ⟨e3, e4⟩ := Prod.mk.inj (Option.some.inj e)
      dsimp only at e3 e4
      subst e3 e4
      have hlen : as.length ≤ (goodCands P.p bitLen rest).length := by
        by_contra hh
        rw [(C80_vector h hb as.length rest).1 (by omega)] at e2
        cases e2
      have hle : (goodCands P.p bitLen rest).length ≤ rest.length / ((bitLen + 7) / 8) := by
        unfold goodCands
        refine (List.length_filter_le _ _).trans ?_
        simp
      have hge : as.length * ((bitLen + 7) / 8) ≤ rest.length :=
        (Nat.mul_le_mul_right _ (hlen.trans hle)).trans (Nat.div_mul_le_self _ _)
      have hv := q8 (by omega)
      have hvp : v < P.p := by
        have : v ∈ goodCands P.p bitLen b := by rw [hg]; exact List.mem_cons_self
        unfold goodCands at this
        exact of_decide_eq_true (List.mem_filter.1 this).2
      have hrest : rest = b.drop ((bitLen + 7) / 8) := by
        rw [q6]
        congr 1
        omega
      have hct : candNum bitLen (b.take ((bitLen + 7) / 8)) 0 = v := by
        rw [← hv]
        unfold candNum
        rw [Nat.zero_mul, List.drop_zero, List.drop_zero, List.take_take, min_self]
      obtain ⟨z1, p1, p2, p3, p4⟩ := C80 h hb 0 (b.take ((bitLen + 7) / 8)) (by rw [List.length_take]; omega)
        (fun i hi => by omega) (by rw [hct]; exact hvp)
      have hz : z1 = z := wv_inj p3 q3 (p2.trans q2.symm) (p4.trans (hct.trans q4.symm))
      rw [Nat.zero_add, Nat.one_mul, List.drop_of_length_le (by rw [List.length_take]; omega), hz] at p1
      cases m with
      | cons m1 m2 =>
      refine ⟨(b.take ((bitLen + 7) / 8), b.drop ((bitLen + 7) / 8)),
        ⟨⟨by rw [List.length_take]; omega, z, p1, m1⟩, by rw [List.length_drop]; omega, zs', by rw [← hrest]; exact e2, m2⟩,
        List.take_append_drop _ _⟩

/-- Vectors of three elements in jindo/internal/zp: each is the outcome of 8 strings of 96 bytes. -/
example (a b c : ZMod jindoPkg.p) : {s : List UInt8 | s.length = 96 ∧
    ∃ zs, jindoPkg.vecSetRandom jindoBits 3 s = some (zs, []) ∧
      List.Forall₂ (MontForm jindoPkg.p jindoPkg.n) zs [a, b, c]}.ncard = 8 :=
  C80_vector_uniform C79_jindo.1 jindo_bits [a, b, c]

end Ringo
