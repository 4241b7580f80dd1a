import Verif.Proof.PolyAlg

/-!
# Automorphisms
-/

namespace Ringo

open Finset Polynomial

/-- Where coefficient `i` goes. -/
def autPos (N e i : Nat) : Nat := if i * e % (2 * N) < N then i * e % (2 * N) else i * e % (2 * N) - N

theorem autPos_lt (N e i : Nat) (hN : 0 < N) : autPos N e i < N := by
  unfold autPos
  have : i * e % (2 * N) < 2 * N := Nat.mod_lt _ (by omega)
  split <;> omega

theorem autPos_mod (N e i : Nat) (hN : 0 < N) : autPos N e i % N = i * e % N := by
  have h : i * e % (2 * N) < 2 * N := Nat.mod_lt _ (by omega)
  rw [← Nat.mod_mod_of_dvd (i * e) (⟨2, by ring⟩ : N ∣ 2 * N)]
  unfold autPos
  split
  · rfl
  · rw [Nat.mod_eq_sub_mod (a := i * e % (2 * N)) (by omega)]

theorem autPos_inj (K e i j : Nat) (he : e % 2 = 1) (hi : i < 2 ^ K) (hj : j < 2 ^ K)
    (h : autPos (2 ^ K) e i = autPos (2 ^ K) e j) : i = j := by
  have hN := Nat.two_pow_pos K
  have h1 : i * e % 2 ^ K = j * e % 2 ^ K := by
    rw [← autPos_mod _ _ _ hN, ← autPos_mod _ _ _ hN, h]
  have hc : Nat.gcd (2 ^ K) e = 1 := by
    apply Nat.Coprime.pow_left
    rw [Nat.coprime_two_left]; exact Nat.odd_iff.2 he
  have h2 : i ≡ j [MOD 2 ^ K] := Nat.ModEq.cancel_right_of_coprime hc h1
  rwa [Nat.ModEq, Nat.mod_eq_of_lt hi, Nat.mod_eq_of_lt hj] at h2

theorem autPos_pow {F : Type} [CommRing F] (N e i : Nat) (_hN : 0 < N) (x : F) (hx : x ^ N = -1) :
    x ^ (i * e) = (if i * e % (2 * N) < N then 1 else -1) * x ^ autPos N e i := by
  have h2 : x ^ (2 * N) = 1 := by rw [mul_comm, pow_mul, hx]; ring
  have h3 : x ^ (i * e) = x ^ (i * e % (2 * N)) := by
    conv_lhs => rw [← Nat.div_add_mod (i * e) (2 * N), pow_add, pow_mul, h2, one_pow, one_mul]
  rw [h3]
  unfold autPos
  split
  · rw [one_mul]
  · next h =>
    conv_lhs => rw [show i * e % (2 * N) = N + (i * e % (2 * N) - N) by omega, pow_add, hx]

theorem sum_autPos {F : Type} [CommRing F] (K e : Nat) (he : e % 2 = 1) (f : Nat → F) :
    ∑ j ∈ range (2 ^ K), f j = ∑ i ∈ range (2 ^ K), f (autPos (2 ^ K) e i) := by
  have himg : (range (2 ^ K)).image (autPos (2 ^ K) e) = range (2 ^ K) := by
    apply Finset.eq_of_subset_of_card_le
    · intro a ha
      rw [mem_image] at ha
      obtain ⟨i, _, rfl⟩ := ha
      rw [mem_range]; exact autPos_lt _ _ _ (Nat.two_pow_pos K)
    · rw [card_image_of_injOn]
      intro i hi j hj h
      simp only [coe_range, Set.mem_Iio] at hi hj
      exact autPos_inj K e i j he hi hj h
  conv_lhs => rw [← himg]
  rw [sum_image]
  intro i hi j hj h
  simp only [coe_range, Set.mem_Iio] at hi hj
  exact autPos_inj K e i j he hi hj h

section
variable {F : Type} [Field F] {K : Nat} {ev : Evaluator F}

theorem autCoeff_spec (hr : ev.rank = 2 ^ K) (hK : 3 ≤ K) (buf pOut p : Poly F) (e : Nat)
    (he : e % 2 = 1) (hb : buf.coeffs.length = 2 ^ K) (ho : pOut.coeffs.length = 2 ^ K)
    (hp : p.coeffs.length = 2 ^ K) :
    ∃ w, ev.autCoeffTo buf pOut p e = .ok ⟨w, false⟩ ∧ w.length = 2 ^ K ∧
      (∀ i < 2 ^ K, w.getD (autPos (2 ^ K) e i) 0 =
        (if i * e % (2 * 2 ^ K) < 2 ^ K then 1 else -1) * p.coeffs.getD i 0) ∧
      ∀ x : F, x ^ 2 ^ K = -1 → evalAt (2 ^ K) w x = evalAt (2 ^ K) p.coeffs (x ^ e) := by
  have hN := Nat.two_pow_pos K
  set sg : Nat → F := fun i => if i * e % (2 * 2 ^ K) < 2 ^ K then 1 else -1 with hsg
  have key := forRange_spec (f := fun (buf : List F) i => (do
    let j := (i * e) % (2 * ev.rank)
    let c ← idx p.coeffs i
    if j < ev.rank then setIdx buf j c
    else setIdx buf (j - ev.rank) (-c) : Go (List F))) 0 ev.rank (by omega)
    (fun i b => b.length = 2 ^ K ∧ ∀ i' < i, b.getD (autPos (2 ^ K) e i') 0 = sg i' * p.coeffs.getD i' 0)
    buf.coeffs ⟨hb, fun i' h => by omega⟩ (by
      rintro i b - hi ⟨h1, h2⟩
      rw [hr] at hi
      have hl := autPos_lt (2 ^ K) e i hN
      have hip : i < p.coeffs.length := by omega
      refine ⟨b.set (autPos (2 ^ K) e i) (sg i * p.coeffs.getD i 0), ?_, by simpa using h1, ?_⟩
      · simp only [idx_ok hip, go_bind_ok, hr]
        rw [List.getD_eq_getElem?_getD, List.getElem?_eq_getElem hip, Option.getD_some]
        unfold autPos at hl ⊢
        simp only [hsg]
        split
        · next hc => rw [if_pos hc] at hl; rw [setIdx_ok (by omega), one_mul]
        · next hc => rw [if_neg hc] at hl; rw [setIdx_ok (by omega), neg_one_mul]
      · intro i' hi'
        rw [List.getD_eq_getElem?_getD, List.getElem?_set]
        by_cases hii : i' = i
        · subst hii
          rw [if_pos rfl, if_pos (by omega), Option.getD_some]
        · rw [if_neg (fun h => hii (autPos_inj K e i' i he (by omega) hi h.symm)),
            ← List.getD_eq_getElem?_getD]
          exact h2 i' (by omega))
  obtain ⟨w, h1, h2, h3⟩ := key
  refine ⟨w, ?_, h2, fun i hi => h3 i (by omega), ?_⟩
  · unfold Evaluator.autCoeffTo
    rw [h1, go_bind_ok]
    unfold Poly.copyFrom
    simp only [copy8_eq pOut.coeffs w (by rw [ho]; exact pow8 hK) (by omega)]
    rfl
  · intro x hx
    unfold evalAt
    rw [sum_autPos K e he]
    apply sum_congr rfl
    intro i hi
    rw [mem_range] at hi
    rw [h3 i (by omega), ← pow_mul, mul_comm e i, autPos_pow (2 ^ K) e i hN x hx]
    ring

theorem autNTT_spec (hr : ev.rank = 2 ^ K) (hK : 3 ≤ K) (buf pOut p : Poly F) (e : Nat)
    (he : e % 2 = 1) (hb : buf.coeffs.length = 2 ^ K) (ho : pOut.coeffs.length = 2 ^ K)
    (hp : p.coeffs.length = 2 ^ K) :
    ∃ w, ev.autNTTTo buf pOut p e = .ok ⟨w, true⟩ ∧ w.length = 2 ^ K ∧
      ∀ i < 2 ^ K, ∃ j < 2 ^ K, w.getD i 0 = p.coeffs.getD (rev K j) 0 ∧
        2 * j + 1 = (2 * rev K i + 1) * e % (2 * 2 ^ K) := by
  have hN := Nat.two_pow_pos K
  have hj : ∀ i, ∃ j < 2 ^ K, 2 * j + 1 = (2 * i + 1) * e % (2 * 2 ^ K) ∧
      ((2 * i + 1) * e % (2 * 2 ^ K) - 1) / 2 = j := by
    intro i
    have h1 : (2 * i + 1) * e % (2 * 2 ^ K) % 2 = 1 := by
      rw [Nat.mod_mod_of_dvd _ ⟨2 ^ K, rfl⟩, Nat.mul_mod, he]; omega
    have h2 : (2 * i + 1) * e % (2 * 2 ^ K) < 2 * 2 ^ K := Nat.mod_lt _ (by omega)
    refine ⟨((2 * i + 1) * e % (2 * 2 ^ K) - 1) / 2, ?_, ?_, rfl⟩
    · generalize (2 * i + 1) * e % (2 * 2 ^ K) = a at *
      omega
    · generalize (2 * i + 1) * e % (2 * 2 ^ K) = a at *
      omega
  obtain ⟨b, b1, b2, b3⟩ := bitReverse_getD K p.coeffs 0 hp
  have key := forRange_spec (f := fun (out : List F) i => (do
    let j := ((2 * i + 1) * e) % (2 * ev.rank)
    let j := (j - 1) / 2
    let c ← idx b j
    setIdx out i c : Go (List F))) 0 ev.rank (by omega)
    (fun i o => o.length = 2 ^ K ∧ ∀ i' < i,
      o.getD i' 0 = b.getD (((2 * i' + 1) * e % (2 * 2 ^ K) - 1) / 2) 0) pOut.coeffs
    ⟨ho, fun i' h => by omega⟩ (by
      rintro i o - hi ⟨h1, h2⟩
      rw [hr] at hi
      obtain ⟨j, j1, j2, j3⟩ := hj i
      have hjb : j < b.length := by omega
      refine ⟨o.set i b[j], ?_, by simpa using h1, ?_⟩
      · simp only [hr, j3, idx_ok hjb, go_bind_ok]
        rw [setIdx_ok (by omega)]
      · intro i' hi'
        rw [List.getD_eq_getElem?_getD, List.getElem?_set]
        by_cases hii : i = i'
        · subst hii
          rw [if_pos rfl, if_pos (by omega), Option.getD_some, j3, List.getD_eq_getElem?_getD,
            List.getElem?_eq_getElem hjb, Option.getD_some]
        · rw [if_neg hii, ← List.getD_eq_getElem?_getD]
          exact h2 i' (by omega))
  obtain ⟨o, o1, o2, o3⟩ := key
  obtain ⟨w, w1, w2, w3⟩ := bitReverse_getD K o 0 o2
  refine ⟨w, ?_, w2, ?_⟩
  · unfold Evaluator.autNTTTo Poly.copyFrom
    simp only [copy8_eq buf.coeffs p.coeffs (by rw [hb]; exact pow8 hK) (by omega), go_bind_ok,
      go_pure, b1, o1, w1]
  · intro i hi
    obtain ⟨j, j1, j2, j3⟩ := hj (rev K i)
    refine ⟨j, j1, ?_, j2⟩
    have := rev_lt K i
    rw [w3 i hi, o3 _ (by omega), j3, b3 j j1]

end

end Ringo
