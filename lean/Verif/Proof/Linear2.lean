import Verif.Proof.Linear

/-!
# The NTT and automorphism checkers, and `modInverse`
-/

namespace Ringo

open Finset Polynomial

/-! ### Reversing the slots inverts the points -/

theorem rev_compl (K i : Nat) (hi : i < 2 ^ K) : rev K (2 ^ K - 1 - i) = 2 ^ K - 1 - rev K i := by
  induction K generalizing i with
  | zero => simp [rev]
  | succ K ih =>
    have h2 : 2 ^ (K + 1) = 2 * 2 ^ K := by rw [Nat.pow_succ]; omega
    have hlt := rev_lt K (i / 2)
    have hih := ih (i / 2) (by omega)
    have hdiv : (2 ^ (K + 1) - 1 - i) / 2 = 2 ^ K - 1 - i / 2 := by omega
    rw [rev, rev, hdiv, hih]
    rcases Nat.mod_two_eq_zero_or_one i with h | h
    · rw [h, show (2 ^ (K + 1) - 1 - i) % 2 = 1 by omega]; omega
    · rw [h, show (2 ^ (K + 1) - 1 - i) % 2 = 0 by omega]; omega

section
variable {F : Type} [Field F]

open Classical in
theorem geom_root (N : Nat) (z : F) (hz : z ^ N = 1) :
    ∑ j ∈ range N, z ^ j = if z = 1 then (N : F) else 0 := by
  by_cases h : z = 1
  · subst h; simp
  · rw [if_neg h]
    have := geom_sum_mul z N
    rw [hz, sub_self] at this
    rcases mul_eq_zero.1 this with h1 | h1
    · exact h1
    · exact absurd (sub_eq_zero.1 h1) h

theorem scale_rev_loop (N : Nat) (out v : List F) (ho : out.length = N) (hv : v.length = N) (c : F) :
    ∃ w, forRange 0 N 1 out (fun (vOut : List F) i => do
      let x ← idx v (N - 1 - i)
      setIdx vOut i (x * c)) = .ok w ∧ w.length = N ∧ ∀ i < N, w.getD i 0 = v.getD (N - 1 - i) 0 * c := by
  obtain ⟨w, h1, h2, h3⟩ := forRange_spec (f := fun (vOut : List F) i => do
      let x ← idx v (N - 1 - i)
      setIdx vOut i (x * c)) 0 N (by omega)
    (fun i o => o.length = N ∧ ∀ k < i, o.getD k 0 = v.getD (N - 1 - k) 0 * c) out
    ⟨ho, fun k hk => by omega⟩ (by
      rintro i o - hi ⟨h1, h2⟩
      have hiv : N - 1 - i < v.length := by omega
      refine ⟨o.set i (v[N - 1 - i] * c), ?_, by simpa using h1, fun k hk => ?_⟩
      · rw [idx_ok hiv, go_bind_ok, setIdx_ok (by omega)]
      · rw [getD_set _ _ _ _ (by omega)]
        by_cases hki : k = i
        · subst hki; rw [if_pos rfl, getD_eq hiv]
        · rw [if_neg hki, h2 k (by omega)])
  exact ⟨w, h1, h2, h3⟩

variable {K : Nat} {psi : F} {T : Transformer F} {z : Nat → F}

/-- `TransposeTo` of the NTT checker computes `j ↦ Σ_i u_i pt_i^j`. -/
theorem ntt_transpose (hK : 3 ≤ K) (hT : GoodT K T z)
    (hz : ∀ i < 2 ^ K, z (2 ^ K + i) = psi ^ (2 * rev K i + 1))
    (hprim : IsPrimitiveRoot psi (2 * 2 ^ K))
    (out u : List F) (ho : out.length = 2 ^ K) (hu : u.length = 2 ^ K) :
    ∃ w, (nttChecker T ((2 ^ K : Nat) : F)).transposeTo out u = .ok w ∧ w.length = 2 ^ K ∧
      ∀ j < 2 ^ K, w.getD j 0 = ∑ i ∈ range (2 ^ K), u.getD i 0 * (psi ^ (2 * rev K i + 1)) ^ j := by
  have hN := Nat.two_pow_pos K
  obtain ⟨s, s1, s2, s3⟩ := scale_rev_loop (2 ^ K) out u ho hu ((2 ^ K : Nat) : F)
  -- the claimed result
  set t : List F := (List.range (2 ^ K)).map
    (fun j => ∑ i ∈ range (2 ^ K), u.getD i 0 * (psi ^ (2 * rev K i + 1)) ^ j) with ht
  have htl : t.length = 2 ^ K := by simp [ht]
  have htj : ∀ j < 2 ^ K, t.getD j 0 = ∑ i ∈ range (2 ^ K), u.getD i 0 * (psi ^ (2 * rev K i + 1)) ^ j := by
    intro j hj
    rw [ht, List.getD_eq_getElem?_getD, List.getElem?_map, List.getElem?_range hj]
    rfl
  obtain ⟨f, f1, f2, -, f3⟩ := fwd_spec hK hT s t s2 htl
  have h2N : psi ^ (2 * 2 ^ K) = 1 := hprim.pow_eq_one
  have hfs : f = s := by
    apply list_ext_getD 0 _ f2 s2
    intro i hi
    rw [f3 i hi, s3 i hi, hz i hi]
    unfold evalAt
    have e1 : ∑ j ∈ range (2 ^ K), t.getD j 0 * (psi ^ (2 * rev K i + 1)) ^ j =
        ∑ k ∈ range (2 ^ K), u.getD k 0 *
          ∑ j ∈ range (2 ^ K), (psi ^ (2 * rev K k + 1) * psi ^ (2 * rev K i + 1)) ^ j := by
      simp only [mul_sum]
      rw [sum_comm]
      apply sum_congr rfl
      intro j hj
      rw [mem_range] at hj
      rw [htj j hj, sum_mul]
      exact sum_congr rfl (fun k _ => by rw [mul_pow]; ring)
    rw [e1]
    have hroot : ∀ k, (psi ^ (2 * rev K k + 1) * psi ^ (2 * rev K i + 1)) ^ 2 ^ K = 1 := by
      intro k
      rw [← pow_add, ← pow_mul, show (2 * rev K k + 1 + (2 * rev K i + 1)) * 2 ^ K =
        2 * 2 ^ K * (rev K k + rev K i + 1) by ring, pow_mul, h2N, one_pow]
    have hone : ∀ k < 2 ^ K, psi ^ (2 * rev K k + 1) * psi ^ (2 * rev K i + 1) = 1 ↔ k = 2 ^ K - 1 - i := by
      intro k hk
      have hrk := rev_lt K k
      have hri := rev_lt K i
      rw [← pow_add, hprim.pow_eq_one_iff_dvd]
      constructor
      · rintro ⟨c, hc⟩
        have : c = 1 := by
          have h1 : 2 * rev K k + 1 + (2 * rev K i + 1) < 2 * 2 ^ K * 2 := by omega
          rw [hc] at h1
          have h2 : c < 2 := Nat.lt_of_mul_lt_mul_left h1
          have h3 : c ≠ 0 := by rintro rfl; omega
          omega
        subst this
        apply rev_inj hk (by omega)
        rw [rev_compl K i hi]; omega
      · rintro rfl
        rw [rev_compl K i hi]
        exact ⟨1, by omega⟩
    rw [sum_eq_single (2 ^ K - 1 - i)]
    · rw [geom_root _ _ (hroot _), if_pos ((hone _ (by omega)).2 rfl)]
    · intro k hk hki
      rw [mem_range] at hk
      rw [geom_root _ _ (hroot _), if_neg (fun h => hki ((hone k hk).1 h)), mul_zero]
    · intro h; exact absurd (mem_range.2 (by omega)) h
  have hinv := inv_fwd hK hT s s t s2 s2 htl
  rw [f1, go_bind_ok, hfs] at hinv
  refine ⟨t, ?_, htl, htj⟩
  unfold nttChecker
  simp only [hT.rank]
  rw [s1, go_bind_ok, hinv]

theorem ntt_adjoint (hK : 3 ≤ K) (hT : GoodT K T z)
    (hz : ∀ i < 2 ^ K, z (2 ^ K + i) = psi ^ (2 * rev K i + 1))
    (hprim : IsPrimitiveRoot psi (2 * 2 ^ K)) :
    Adjoint (2 ^ K) (nttChecker T ((2 ^ K : Nat) : F)) := by
  intro out out' u v ho ho' hu hv
  obtain ⟨a, a1, a2, -, a3⟩ := fwd_spec hK hT out v ho hv
  obtain ⟨b, b1, b2, b3⟩ := ntt_transpose hK hT hz hprim out' u ho' hu
  refine ⟨a, b, a1, b1, a2, b2, ?_⟩
  unfold inner
  have h1 : ∑ i ∈ range (2 ^ K), a.getD i 0 * u.getD i 0 =
      ∑ i ∈ range (2 ^ K), ∑ j ∈ range (2 ^ K), v.getD j 0 * (psi ^ (2 * rev K i + 1)) ^ j * u.getD i 0 := by
    apply sum_congr rfl
    intro i hi
    rw [mem_range] at hi
    rw [a3 i hi, hz i hi, evalAt, sum_mul]
  rw [h1, sum_comm]
  apply sum_congr rfl
  intro j hj
  rw [mem_range] at hj
  rw [b3 j hj, mul_sum]
  exact sum_congr rfl (fun i _ => by ring)

end

/-! ### Automorphisms preserve inner products -/

section
variable {F : Type} [Field F] {K : Nat} {psi : F} {ev : Evaluator F}

theorem autCoeff_inner (hr : ev.rank = 2 ^ K) (hK : 3 ≤ K) (buf buf' : Poly F) (o o' a b : List F) (e : Nat)
    (he : e % 2 = 1) (hb : buf.coeffs.length = 2 ^ K) (hb' : buf'.coeffs.length = 2 ^ K)
    (ho : o.length = 2 ^ K) (ho' : o'.length = 2 ^ K) (ha : a.length = 2 ^ K) (hbb : b.length = 2 ^ K)
    (P Q : Poly F) (hP : ev.autCoeffTo buf ⟨o, false⟩ ⟨a, false⟩ e = .ok P)
    (hQ : ev.autCoeffTo buf' ⟨o', false⟩ ⟨b, false⟩ e = .ok Q) :
    inner (2 ^ K) P.coeffs Q.coeffs = inner (2 ^ K) a b := by
  obtain ⟨w, w1, w2, w3, -⟩ := autCoeff_spec hr hK buf ⟨o, false⟩ ⟨a, false⟩ e he hb ho ha
  obtain ⟨x, x1, x2, x3, -⟩ := autCoeff_spec hr hK buf' ⟨o', false⟩ ⟨b, false⟩ e he hb' ho' hbb
  rw [hP] at w1; cases w1
  rw [hQ] at x1; cases x1
  unfold inner
  rw [sum_autPos K e he]
  apply sum_congr rfl
  intro i hi
  rw [mem_range] at hi
  rw [w3 i hi, x3 i hi]
  split_ifs <;> simp

theorem autNTT_inner (hr : ev.rank = 2 ^ K) (hK : 3 ≤ K) (buf buf' : Poly F) (o o' a b : List F) (e : Nat)
    (he : e % 2 = 1) (hb : buf.coeffs.length = 2 ^ K) (hb' : buf'.coeffs.length = 2 ^ K)
    (ho : o.length = 2 ^ K) (ho' : o'.length = 2 ^ K) (ha : a.length = 2 ^ K) (hbb : b.length = 2 ^ K)
    (P Q : Poly F) (hP : ev.autNTTTo buf ⟨o, false⟩ ⟨a, true⟩ e = .ok P)
    (hQ : ev.autNTTTo buf' ⟨o', false⟩ ⟨b, true⟩ e = .ok Q) :
    inner (2 ^ K) P.coeffs Q.coeffs = inner (2 ^ K) a b := by
  obtain ⟨w, w1, w2, w3⟩ := autNTT_spec hr hK buf ⟨o, false⟩ ⟨a, true⟩ e he hb ho ha
  obtain ⟨x, x1, x2, x3⟩ := autNTT_spec hr hK buf' ⟨o', false⟩ ⟨b, true⟩ e he hb' ho' hbb
  rw [hP] at w1; cases w1
  rw [hQ] at x1; cases x1
  -- the common index map
  set s : Nat → Nat := fun i => rev K (((2 * rev K i + 1) * e % (2 * 2 ^ K) - 1) / 2) with hs
  have hw : ∀ i < 2 ^ K, s i < 2 ^ K ∧ w.getD i 0 = a.getD (s i) 0 ∧ x.getD i 0 = b.getD (s i) 0 := by
    intro i hi
    obtain ⟨j, j1, j2, j3⟩ := w3 i hi
    obtain ⟨j', j1', j2', j3'⟩ := x3 i hi
    have e1 : ((2 * rev K i + 1) * e % (2 * 2 ^ K) - 1) / 2 = j := by rw [← j3]; omega
    have e2 : j' = j := by omega
    subst e2
    exact ⟨rev_lt _ _, by rw [j2, hs]; simp only [e1], by rw [j2', hs]; simp only [e1]⟩
  have hinj : ∀ i < 2 ^ K, ∀ i' < 2 ^ K, s i = s i' → i = i' := by
    intro i hi i' hi' h
    obtain ⟨j, j1, j2, j3⟩ := w3 i hi
    obtain ⟨j', j1', j2', j3'⟩ := w3 i' hi'
    have e1 : ((2 * rev K i + 1) * e % (2 * 2 ^ K) - 1) / 2 = j := by rw [← j3]; omega
    have e2 : ((2 * rev K i' + 1) * e % (2 * 2 ^ K) - 1) / 2 = j' := by rw [← j3']; omega
    simp only [hs, e1, e2] at h
    have hjj := rev_inj j1 j1' h
    have hmod : (2 * rev K i + 1) * e % (2 * 2 ^ K) = (2 * rev K i' + 1) * e % (2 * 2 ^ K) := by
      rw [← j3, ← j3', hjj]
    have hc : Nat.gcd (2 * 2 ^ K) e = 1 := by
      rw [← Nat.pow_succ']
      apply Nat.Coprime.pow_left
      rw [Nat.coprime_two_left]; exact Nat.odd_iff.2 he
    have h2 : 2 * rev K i + 1 ≡ 2 * rev K i' + 1 [MOD 2 * 2 ^ K] := Nat.ModEq.cancel_right_of_coprime hc hmod
    have l1 := rev_lt K i
    have l2 := rev_lt K i'
    rw [Nat.ModEq, Nat.mod_eq_of_lt (by omega), Nat.mod_eq_of_lt (by omega)] at h2
    exact rev_inj hi hi' (by omega)
  unfold inner
  have himg : (range (2 ^ K)).image s = range (2 ^ K) := by
    apply Finset.eq_of_subset_of_card_le
    · intro c hc
      rw [mem_image] at hc
      obtain ⟨i, hi, rfl⟩ := hc
      rw [mem_range] at hi ⊢
      exact (hw i hi).1
    · rw [card_image_of_injOn]
      intro i hi j hj h
      simp only [coe_range, Set.mem_Iio] at hi hj
      exact hinj i hi j hj h
  conv_rhs => rw [← himg]
  rw [sum_image]
  · apply sum_congr rfl
    intro i hi
    rw [mem_range] at hi
    rw [(hw i hi).2.1, (hw i hi).2.2]
  · intro i hi j hj h
    simp only [coe_range, Set.mem_Iio] at hi hj
    exact hinj i hi j hj h

theorem autTo_eq (hr : ev.rank = 2 ^ K) (buf pOut p : Poly F) (ho : pOut.coeffs.length = 2 ^ K)
    (hp : p.coeffs.length = 2 ^ K) (i : Int) (hi : i % 2 = 1) :
    ev.autTo buf pOut p i = if p.isNTT then ev.autNTTTo buf pOut p (i % (2 * 2 ^ K : Int)).toNat
      else ev.autCoeffTo buf pOut p (i % (2 * 2 ^ K : Int)).toNat := by
  have hodd : i.tmod 2 ≠ 0 := by
    intro h0
    have := Int.emod_eq_zero_of_dvd (Int.dvd_of_tmod_eq_zero h0)
    omega
  unfold Evaluator.autTo
  rw [checkUnary_ok (by rw [ho, hr]) (by rw [hp, hr]), go_bind_ok, if_neg hodd]
  have := tmod_norm (2 ^ K) (Nat.two_pow_pos K) i
  simp only [hr, Nat.cast_pow, Nat.cast_ofNat] at this ⊢
  rw [this]

theorem odd_rep (K : Nat) (i : Int) (hi : i % 2 = 1) : (i % (2 * 2 ^ K : Int)).toNat % 2 = 1 := by
  have hnn := Int.emod_nonneg i (b := 2 * 2 ^ K) (by positivity)
  have h1 : (((i % (2 * 2 ^ K : Int)).toNat : Nat) : Int) = i % (2 * 2 ^ K) := Int.toNat_of_nonneg hnn
  have h2 : (i % (2 * 2 ^ K : Int)) % 2 = i % 2 := Int.emod_emod_of_dvd i ⟨2 ^ K, rfl⟩
  omega

theorem aut_inner (hr : ev.rank = 2 ^ K) (hK : 3 ≤ K) (buf buf' : Poly F) (o o' a b : List F) (n : Bool) (i : Int)
    (hi : i % 2 = 1) (hb : buf.coeffs.length = 2 ^ K) (hb' : buf'.coeffs.length = 2 ^ K)
    (ho : o.length = 2 ^ K) (ho' : o'.length = 2 ^ K) (ha : a.length = 2 ^ K) (hbb : b.length = 2 ^ K)
    (P Q : Poly F) (hP : ev.autTo buf ⟨o, false⟩ ⟨a, n⟩ i = .ok P)
    (hQ : ev.autTo buf' ⟨o', false⟩ ⟨b, n⟩ i = .ok Q) :
    inner (2 ^ K) P.coeffs Q.coeffs = inner (2 ^ K) a b := by
  rw [autTo_eq hr _ _ _ ho ha i hi] at hP
  rw [autTo_eq hr _ _ _ ho' hbb i hi] at hQ
  cases n with
  | false => exact autCoeff_inner hr hK buf buf' o o' a b _ (odd_rep K i hi) hb hb' ho ho' ha hbb P Q hP hQ
  | true => exact autNTT_inner hr hK buf buf' o o' a b _ (odd_rep K i hi) hb hb' ho ho' ha hbb P Q hP hQ

/-- The automorphism checker with any inverse index. -/
theorem aut_adjoint (h : GoodEv K (X ^ 2 ^ K + 1) (fun i => psi ^ (2 * rev K i + 1)) ev)
    (hpsi : psi ^ 2 ^ K = -1) (buf : Poly F) (hb : buf.coeffs.length = 2 ^ K) (n : Bool)
    (i iInv : Int) (hi : i % 2 = 1) (hii : i * iInv % (2 * 2 ^ K) = 1) :
    Adjoint (2 ^ K) (autChecker ev buf i iInv n) := by
  intro out out' u v ho ho' hu hv
  have hodd : iInv % 2 = 1 := by
    have h1 : (i * iInv % (2 * 2 ^ K)) % 2 = i * iInv % 2 := Int.emod_emod_of_dvd _ ⟨2 ^ K, rfl⟩
    rw [hii, Int.mul_emod, hi] at h1
    rcases Int.emod_two_eq_zero_or_one iInv with h2 | h2
    · rw [h2] at h1; norm_num at h1
    · exact h2
  have he : ∀ i : Int, (((i % (2 * 2 ^ K : Int)).toNat : Nat) : Int) % (2 * 2 ^ K) = i % (2 * 2 ^ K) := by
    intro i
    have hnn := Int.emod_nonneg i (b := 2 * 2 ^ K) (by positivity)
    rw [Int.toNat_of_nonneg hnn, Int.emod_emod_of_dvd _ dvd_rfl]
  obtain ⟨f, sf⟩ := sf_exists h ⟨v, n⟩ hv
  obtain ⟨g, sg⟩ := sf_exists h ⟨u, n⟩ hu
  obtain ⟨P, P1, P2, P3⟩ := aut_total h hpsi buf ⟨out, false⟩ ⟨v, n⟩ f i _ hi (he i) hb ho sf
  obtain ⟨Q, Q1, Q2, Q3⟩ := aut_total h hpsi buf ⟨out', false⟩ ⟨u, n⟩ g iInv _ hodd (he iInv) hb ho' sg
  -- applying the automorphism to `Q` gives `u` back
  obtain ⟨R, R1, R2, R3⟩ := aut_total h hpsi buf ⟨out, false⟩ Q _ i _ hi (he i) hb ho Q3
  have hRu : R = ⟨u, n⟩ := by
    have hodd2 : i * iInv % 2 = 1 := by rw [Int.mul_emod, hi, hodd]; rfl
    set ea := (i % (2 * 2 ^ K : Int)).toNat with hea
    set eb := (iInv % (2 * 2 ^ K : Int)).toNat with heb
    have heab : ((ea * eb : Nat) : Int) % (2 * 2 ^ K) = i * iInv % (2 * 2 ^ K) := by
      push_cast
      rw [Int.mul_emod, he i, he iInv, ← Int.mul_emod]
    have hcomp : (g.comp (X ^ eb)).comp (X ^ ea) = g.comp (X ^ (ea * eb)) := by
      rw [comp_assoc, X_pow_comp, ← pow_mul]
    rw [hcomp] at R3
    obtain ⟨w, w1, w2, w3⟩ := aut_total h hpsi buf ⟨out, false⟩ ⟨u, n⟩ g (i * iInv) 1 hodd2
      (by rw [hii]; push_cast; exact Int.emod_eq_of_lt (by omega) (by have := Nat.one_le_two_pow (n := K); norm_cast; omega))
      hb ho sg
    obtain ⟨w', w1', w2', w3'⟩ := aut_total h hpsi buf ⟨out, false⟩ ⟨u, n⟩ g (i * iInv) (ea * eb) hodd2 heab
      hb ho sg
    rw [w1] at w1'; cases w1'
    have e1 := sf_unique h R3 w3' (by rw [R2, Q2, w2])
    rw [pow_one, comp_X] at w3
    have e2 := sf_unique h w3 sg w2
    rw [e1, e2]
  have hQl : Q.coeffs.length = 2 ^ K := Q3.1
  have hQn : Q = ⟨Q.coeffs, n⟩ := by cases Q; simp only at Q2; rw [Q2]
  rw [hQn] at R1
  have := aut_inner h.rank h.hK buf buf out out v Q.coeffs n i hi hb hb ho ho hv hQl P R P1 R1
  rw [hRu] at this
  refine ⟨P.coeffs, Q.coeffs, ?_, ?_, P3.1, hQl, this⟩
  · unfold autChecker; simp only; rw [P1]; rfl
  · unfold autChecker; simp only; rw [Q1]; rfl

end

/-! ### `modInverse` -/

theorem modInverseLoop_spec (m x : Nat) (hm : m ∣ 2 ^ 64) (b : UInt64) :
    ∀ a u v : UInt64, a.toNat ≡ u.toNat * x [MOD m] → b.toNat ≡ v.toNat * x [MOD m] →
      (modInverseLoop a b u v).1.toNat = Nat.gcd a.toNat b.toNat ∧
      (modInverseLoop a b u v).1.toNat ≡ (modInverseLoop a b u v).2.toNat * x [MOD m] := by
  induction hn : b.toNat using Nat.strong_induction_on generalizing b with
  | _ n ih =>
    intro a u v ha hb
    rw [modInverseLoop]
    by_cases hb0 : b = 0
    · rw [if_pos hb0]
      have : n = 0 := by rw [← hn, hb0]; rfl
      rw [this]
      exact ⟨by simp, ha⟩
    · rw [if_neg hb0]
      have hdec := modInverse_dec a b hb0
      have hbpos : 0 < b.toNat := by omega
      have h1 : (a / b * b).toNat = a.toNat / b.toNat * b.toNat := by
        rw [UInt64.toNat_mul, UInt64.toNat_div, Nat.mod_eq_of_lt]
        exact lt_of_le_of_lt (Nat.div_mul_le_self _ _) a.toNat_lt
      have h2 : a / b * b ≤ a := by
        rw [UInt64.le_iff_toNat_le, h1]; exact Nat.div_mul_le_self _ _
      have h3 : (a - a / b * b).toNat = a.toNat % b.toNat := by
        rw [UInt64.toNat_sub_of_le _ _ h2, h1]
        have := Nat.div_add_mod a.toNat b.toNat
        rw [Nat.mul_comm] at this; omega
      have hcast : ∀ t : Nat, ((t % 2 ^ 64 : Nat) : ZMod m) = (t : ZMod m) := by
        intro t
        have : t % 2 ^ 64 ≡ t [MOD m] := Nat.ModEq.of_dvd hm (Nat.mod_modEq t _)
        exact (ZMod.natCast_eq_natCast_iff _ _ _).2 this
      have h264 : ((2 ^ 64 : Nat) : ZMod m) = 0 := (ZMod.natCast_eq_zero_iff _ _).2 hm
      have hnew : (a - a / b * b).toNat ≡ (u - a / b * v).toNat * x [MOD m] := by
        rw [← ZMod.natCast_eq_natCast_iff] at ha hb ⊢
        have e1 : ((a - a / b * b).toNat : ZMod m) = (a.toNat : ZMod m) - (a.toNat / b.toNat : Nat) * b.toNat := by
          rw [h3, eq_sub_iff_add_eq]
          rw [← Nat.cast_mul, ← Nat.cast_add]
          congr 1
          have := Nat.div_add_mod a.toNat b.toNat
          rw [Nat.mul_comm] at this; omega
        have e2 : (((u - a / b * v).toNat : Nat) : ZMod m) =
            (u.toNat : ZMod m) - (a.toNat / b.toNat : Nat) * v.toNat := by
          rw [UInt64.toNat_sub, UInt64.toNat_mul, UInt64.toNat_div, hcast, Nat.cast_add,
            Nat.cast_sub (le_of_lt (Nat.mod_lt _ (by norm_num))), hcast, h264, Nat.cast_mul]
          ring
        rw [Nat.cast_mul, e1, e2]
        push_cast at ha hb ⊢
        rw [ha, hn, hb]; ring
      have := ih (a - a / b * b).toNat (by omega) (a - a / b * b) rfl b v (u - a / b * v) (by rw [hn]; exact hb)
        hnew
      refine ⟨?_, this.2⟩
      rw [this.1, h3, ← hn, Nat.gcd_comm a.toNat, Nat.gcd_rec b.toNat a.toNat, Nat.gcd_comm]

end Ringo
