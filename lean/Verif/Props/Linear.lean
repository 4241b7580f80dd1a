import Verif.Proof.Linear2
import Verif.Proof.BEncoder
import Verif.Props.Poly

/-!
# C28 - C33: the Buckler encoder and the linear checkers
-/

namespace Ringo

open Finset Polynomial

/-! ## C28 -/

/-- **C28**.  Whatever encoder `newEncoder(rank, embRank)` returns, there is one primitive
`rank`-th root `g` such that `Encode(v)` has only zero coefficients from `rank` on and takes the
value `v[i]` at the `i`-th domain point `g^(rev i)`. -/
theorem C28_encode (p : Nat) [Fact p.Prime] (K : Nat) (hK : 3 ≤ K) (embRank : Nat)
    (hemb : 2 ^ K ≤ embRank) (ecd : BEncoder (ZMod p))
    (he : newBEncoder p (2 ^ K) embRank = .ok ecd) :
    ∃ g : ZMod p, IsPrimitiveRoot g (2 ^ K) ∧ ∀ v : List (ZMod p), v.length = 2 ^ K →
      ∃ w, ecd.encode v = .ok ⟨w, false⟩ ∧ w.length = embRank ∧
        (∀ (i : Nat), 2 ^ K ≤ i → i < embRank → w[i]? = some 0) ∧
        (∀ i < 2 ^ K, v[i]? = some ((listPoly w).eval (g ^ rev K i))) := by
  obtain ⟨hr, g, hg⟩ := newBEncoder_good p K hK embRank ecd he
  refine ⟨g, hg.prim, fun v hv => ?_⟩
  have hl : (newPoly ecd.embedRank false : Poly (ZMod p)).coeffs.length = embRank := by simp [newPoly, hr]
  obtain ⟨w, w1, w2, w3, w4⟩ := hg.encodeTo_spec (newPoly ecd.embedRank false) v (by omega) (by omega)
  refine ⟨w, w1, by omega, fun i h1 h2 => ?_, fun i hi => ?_⟩
  · have := w3 i h1
    rw [List.getElem?_eq_getElem (by omega), getD_eq (F := ZMod p), this]
  · rw [List.getElem?_eq_getElem (by omega), getD_eq (F := ZMod p), ← w4 i hi, listPoly_eval]
    congr 1
    unfold evalAt
    apply sum_subset (range_subset_range.2 (by omega))
    intro j _ hj
    rw [mem_range] at hj
    rw [w3 j (by omega), zero_mul]

/-- **C28**, consequence: two vectors whose encodings agree at the domain points are equal. -/
theorem C28_determines (p : Nat) [Fact p.Prime] (K : Nat) (hK : 3 ≤ K) (embRank : Nat)
    (hemb : 2 ^ K ≤ embRank) (ecd : BEncoder (ZMod p))
    (he : newBEncoder p (2 ^ K) embRank = .ok ecd) (v v' : List (ZMod p)) (hv : v.length = 2 ^ K)
    (hv' : v'.length = 2 ^ K) (P P' : Poly (ZMod p)) (hP : ecd.encode v = .ok P)
    (hP' : ecd.encode v' = .ok P')
    (h : ∀ x : ZMod p, x ^ 2 ^ K = 1 → (listPoly P.coeffs).eval x = (listPoly P'.coeffs).eval x) :
    v = v' := by
  obtain ⟨g, g1, g2⟩ := C28_encode p K hK embRank hemb ecd he
  obtain ⟨w, w1, -, -, w4⟩ := g2 v hv
  obtain ⟨w', w1', -, -, w4'⟩ := g2 v' hv'
  rw [hP] at w1; cases w1
  rw [hP'] at w1'; cases w1'
  apply List.ext_getElem? 
  intro i
  by_cases hi : i < 2 ^ K
  · rw [w4 i hi, w4' i hi, h]
    rw [← pow_mul, mul_comm, pow_mul, g1.pow_eq_one, one_pow]
  · rw [List.getElem?_eq_none (by omega), List.getElem?_eq_none (by omega)]

/-- Non-vacuity: an encoder of rank 8 embedding in rank 16 exists over the field of 17 elements. -/
theorem becd17 : ∃ ecd, @newBEncoder 17 ⟨by norm_num⟩ (2 ^ 3) 16 = .ok ecd := by
  have : Fact (Nat.Prime 17) := ⟨by norm_num⟩
  obtain ⟨T, g, h1, -⟩ := cyclic_good 17 3 (by norm_num) (by norm_num)
  exact ⟨⟨T, 16⟩, by unfold newBEncoder; rw [h1]; rfl⟩

/-! ## C29 -/

/-- **C29**.  For every random draw `r`, `RandEncode(v)` takes the value `v[i]` at the `i`-th
domain point and has no coefficient above degree `rank`; at any point that is not a domain
point, its value is a bijective function of `r`. -/
theorem C29_randEncode (p : Nat) [Fact p.Prime] (K : Nat) (hK : 3 ≤ K) (embRank : Nat)
    (hemb : 2 ^ K < embRank) (ecd : BEncoder (ZMod p))
    (he : newBEncoder p (2 ^ K) embRank = .ok ecd) :
    ∃ g : ZMod p, IsPrimitiveRoot g (2 ^ K) ∧ ∀ v : List (ZMod p), v.length = 2 ^ K →
      ∃ w : ZMod p → List (ZMod p), (∀ r, ecd.randEncode v r = .ok ⟨w r, false⟩ ∧
          (w r).length = embRank ∧
          (∀ (i : Nat), 2 ^ K < i → i < embRank → (w r)[i]? = some 0) ∧
          (∀ i < 2 ^ K, v[i]? = some ((listPoly (w r)).eval (g ^ rev K i)))) ∧
        ∀ x, (∀ i < 2 ^ K, x ≠ g ^ rev K i) →
          Function.Bijective (fun r => (listPoly (w r)).eval x) := by
  obtain ⟨hr, g, hg⟩ := newBEncoder_good p K hK embRank ecd he
  refine ⟨g, hg.prim, fun v hv => ?_⟩
  have hl : (newPoly ecd.embedRank false : Poly (ZMod p)).coeffs.length = embRank := by simp [newPoly, hr]
  have hN := Nat.two_pow_pos K
  have hspec := fun r => hg.randEncodeTo_spec (newPoly ecd.embedRank false) v r (by omega) (by omega)
  choose w e h1 h2 h3 h4 h5 using hspec
  obtain ⟨e0, a1, a2, a3, a4⟩ := hg.encodeTo_spec (newPoly ecd.embedRank false) v (by omega) (by omega)
  have he0 : ∀ r, e r = e0 := by
    intro r
    have := h2 r
    rw [a1] at this
    injection this with this
    injection this with this
    exact this.symm
  have hroot : ∀ i, (g ^ rev K i) ^ 2 ^ K = 1 := by
    intro i
    rw [← pow_mul, mul_comm, pow_mul, hg.prim.pow_eq_one, one_pow]
  refine ⟨w, fun r => ⟨h1 r, by rw [h3, hl], fun i hi1 hi2 => ?_, fun i hi => ?_⟩, fun x hx => ?_⟩
  · have hc := congrArg (fun q => q.coeff i) (h5 r)
    simp only [listPoly_coeff, coeff_add, coeff_C_mul, coeff_sub, coeff_X_pow, coeff_one] at hc
    rw [if_neg (by omega), if_neg (by omega), he0, a3 i (by omega)] at hc
    have hlen := h3 r
    rw [List.getElem?_eq_getElem (by omega), getD_eq (F := ZMod p), hc]; simp
  · rw [List.getElem?_eq_getElem (by omega), getD_eq (F := ZMod p), ← a4 i hi, h5, eval_add, eval_mul,
      eval_sub, eval_pow, eval_X, eval_one, hroot, sub_self, mul_zero, add_zero, he0, listPoly_eval]
    congr 1
    unfold evalAt
    apply sum_subset (range_subset_range.2 (by omega))
    intro j _ hj
    rw [mem_range] at hj
    rw [a3 j (by omega), zero_mul]
  · have hxN : x ^ 2 ^ K - 1 ≠ 0 := by
      intro h0
      have h1 : x ^ 2 ^ K = 1 := sub_eq_zero.1 h0
      have : NeZero (2 ^ K) := ⟨by omega⟩
      obtain ⟨i, hi, hgi⟩ := hg.prim.eq_pow_of_pow_eq_one h1
      exact hx (rev K i) (rev_lt K i) (by rw [rev_rev K i hi, hgi])
    have hval : ∀ r, (listPoly (w r)).eval x = (listPoly e0).eval x + r * (x ^ 2 ^ K - 1) := by
      intro r
      rw [h5, he0]; simp
    constructor
    · intro r s hrs
      simp only [hval] at hrs
      exact mul_right_cancel₀ hxN (add_left_cancel hrs)
    · intro y
      refine ⟨(y - (listPoly e0).eval x) / (x ^ 2 ^ K - 1), ?_⟩
      simp only [hval]
      rw [div_mul_cancel₀ _ hxN]; ring

/-- Non-vacuity: in the field of 17 elements `3` is not an 8th root of unity. -/
example : (3 : ZMod 17) ^ 2 ^ 3 ≠ 1 ∧ 2 ^ 3 < 16 := by decide

/-! ## C30 -/

/-- **C30**.  `TransformTo` of any checker returned by `NewNTTChecker` is the negacyclic NTT, and
`TransposeTo` its adjoint for the inner product. -/
theorem C30_nttChecker (p : Nat) [Fact p.Prime] (K : Nat) (hK : 3 ≤ K) (L : LinearChecker (ZMod p))
    (hL : newNTTChecker p (2 ^ K) = .ok L) :
    Adjoint (2 ^ K) L ∧ ∃ psi : ZMod p, IsPrimitiveRoot psi (2 * 2 ^ K) ∧
      ∀ out v : List (ZMod p), out.length = 2 ^ K → v.length = 2 ^ K →
        ∃ w, L.transformTo out v = .ok w ∧ w.length = 2 ^ K ∧
          ∀ i < 2 ^ K, w[i]? = some (evalAt (2 ^ K) v (psi ^ (2 * rev K i + 1))) := by
  unfold newNTTChecker at hL
  cases hT : newCyclotomicTransformer p (2 ^ K) with
  | error e => rw [hT] at hL; cases hL
  | ok T =>
    rw [hT] at hL; cases hL
    obtain ⟨psi, h1, h2, h⟩ := cyclotomicEv_good p K hK ⟨2 ^ K, T⟩
      (by unfold newCyclotomicEvaluator; rw [hT]; rfl)
    obtain ⟨z, z1, z2⟩ := h.good
    refine ⟨ntt_adjoint hK z1 z2 h1, C11_cyclotomicForward p K hK T hT⟩

/-- Non-vacuity. -/
example : ∃ L, @newNTTChecker 17 ⟨by norm_num⟩ (2 ^ 3) = .ok L := by
  have : Fact (Nat.Prime 17) := ⟨by norm_num⟩
  obtain ⟨T, g, h1, -⟩ := C09_cyclotomic 17 3 (by norm_num)
  exact ⟨_, by unfold newNTTChecker; rw [h1]; rfl⟩

/-! ## C32 -/

/-- **C32**.  `modInverse` on 64-bit words: for a power of two `m` and odd `x` the result is the
inverse modulo `m`; for even `x` (and `m > 1`) it panics. -/
theorem C32_modInverse (k : Nat) (hk : k ≤ 63) (x m : UInt64) (hm : m.toNat = 2 ^ k) :
    (x.toNat % 2 = 1 → ∃ y, modInverse x m = .ok y ∧ y.toNat < 2 ^ k ∧
      x.toNat * y.toNat % 2 ^ k = 1 % 2 ^ k) ∧
    (x.toNat % 2 = 0 → 1 ≤ k → modInverse x m = .error .panic) := by
  have hp := Nat.two_pow_pos k
  have hm0 : m ≠ 0 := by
    intro h0
    rw [h0] at hm
    have : (0 : UInt64).toNat = 0 := rfl
    omega
  have hd : m.toNat ∣ 2 ^ 64 := by rw [hm]; exact pow_dvd_pow 2 (by omega)
  have hx : (x % m).toNat = x.toNat % 2 ^ k := by rw [UInt64.toNat_mod, hm]
  have hs := modInverseLoop_spec m.toNat x.toNat hd m (x % m) 1 0
    (by rw [hx, hm]; show _ ≡ 1 * _ [MOD _]; rw [one_mul]; exact Nat.mod_modEq _ _)
    (by show _ ≡ 0 * _ [MOD _]; rw [zero_mul]; exact (Nat.modEq_zero_iff_dvd).2 dvd_rfl)
  have hg : Nat.gcd (x % m).toNat m.toNat = Nat.gcd x.toNat (2 ^ k) := by
    rw [hx, hm, ← Nat.gcd_rec, Nat.gcd_comm]
  unfold modInverse
  rw [if_neg hm0]
  rcases hlp : modInverseLoop (x % m) m 1 0 with ⟨a, u⟩
  rw [hlp] at hs
  simp only at hs
  rw [hg] at hs
  simp only [hlp]
  constructor
  · intro hodd
    have hc : Nat.gcd x.toNat (2 ^ k) = 1 := by
      apply Nat.Coprime.pow_right
      rw [Nat.coprime_two_right]; exact Nat.odd_iff.2 hodd
    rw [hc] at hs
    have ha : a = 1 := UInt64.toNat_inj.1 (by rw [hs.1]; rfl)
    refine ⟨u % m, by rw [if_neg (by simp [ha])]; rfl, ?_, ?_⟩
    · rw [UInt64.toNat_mod, hm]; exact Nat.mod_lt _ hp
    · rw [UInt64.toNat_mod, hm, Nat.mul_mod_mod, mul_comm]
      have := hs.2
      rw [hs.1, hm] at this
      exact this.symm
  · intro hev hk1
    have h2 : 2 ∣ Nat.gcd x.toNat (2 ^ k) :=
      Nat.dvd_gcd (Nat.dvd_of_mod_eq_zero hev) (dvd_pow_self 2 (by omega))
    have ha : a ≠ 1 := by
      intro h
      rw [h] at hs
      have h1 := hs.1
      have : (1 : UInt64).toNat = 1 := rfl
      rw [this] at h1
      rw [← h1] at h2
      omega
    rw [if_pos ha]; rfl

/-- Non-vacuity: the loop wraps around; the inverse of `2^64-1` modulo 16 is 15. -/
example : modInverse 18446744073709551615 16 = .ok 15 ∧ modInverse 6 16 = .error .panic := by
  decide +kernel

/-! ## C31 -/

/-- **C31**.  For every odd index (negative ones included), in coefficient and in NTT form,
`NewAutChecker` succeeds and its two methods are adjoint; `TransformTo` is `AutTo`.  Even indices
make the constructor panic.  `buf` is the arbitrary content of the pooled scratch polynomial. -/
theorem C31_autChecker (p : Nat) [Fact p.Prime] (K : Nat) (hK : 3 ≤ K) (hK2 : K ≤ 62)
    (ev : Evaluator (ZMod p)) (hev : newCyclotomicEvaluator p (2 ^ K) = .ok ev)
    (buf : Poly (ZMod p)) (hb : buf.coeffs.length = 2 ^ K) (i : Int) (n : Bool) :
    (i % 2 = 1 → ∃ L, newAutChecker ev buf i n = .ok L ∧ Adjoint (2 ^ K) L ∧
      ∀ out v, L.transformTo out v = (ev.autTo buf ⟨out, false⟩ ⟨v, n⟩ i).map Poly.coeffs) ∧
    (i % 2 = 0 → newAutChecker ev buf i n = .error .panic) := by
  obtain ⟨psi, h1, h2, h⟩ := cyclotomicEv_good p K hK ev hev
  have hp := Nat.two_pow_pos K
  have hle : 2 ^ K ≤ 2 ^ 62 := Nat.pow_le_pow_right (by decide) hK2
  have hm : (UInt64.ofNat (2 * ev.rank)).toNat = 2 ^ (K + 1) := by
    rw [h.rank, UInt64.toNat_ofNat', Nat.pow_succ' (n := K)]
    exact Nat.mod_eq_of_lt (by norm_num at hle ⊢; omega)
  have hi64 : (intToUint64 i).toNat = (i % 2 ^ 64).toNat := by
    unfold intToUint64
    rw [UInt64.toNat_ofNat']
    apply Nat.mod_eq_of_lt
    have := Int.emod_lt_of_pos i (b := 2 ^ 64) (by norm_num)
    have := Int.emod_nonneg i (b := 2 ^ 64) (by norm_num)
    omega
  have hnn := Int.emod_nonneg i (b := 2 ^ 64) (by norm_num)
  have hcast : (((intToUint64 i).toNat : Nat) : Int) = i % 2 ^ 64 := by
    rw [hi64, Int.toNat_of_nonneg hnn]
  have hpar : (((intToUint64 i).toNat : Nat) : Int) % 2 = i % 2 := by
    rw [hcast]; exact Int.emod_emod_of_dvd i (by norm_num)
  have hC := C32_modInverse (K + 1) (by omega) (intToUint64 i) _ hm
  constructor
  · intro hi
    obtain ⟨y, y1, y2, y3⟩ := hC.1 (by omega)
    refine ⟨autChecker ev buf i y.toNat n, by unfold newAutChecker; rw [y1]; rfl, ?_, ?_⟩
    · refine aut_adjoint h h2 buf hb n i _ hi ?_
      have hdvd : (2 * 2 ^ K : Int) ∣ 2 ^ 64 := by
        rw [← pow_succ']; exact pow_dvd_pow 2 (by omega)
      have e1 : i * (y.toNat : Int) % (2 * 2 ^ K) =
          (((intToUint64 i).toNat * y.toNat : Nat) : Int) % (2 * 2 ^ K) := by
        push_cast
        rw [hcast, Int.mul_emod (i % 2 ^ 64), Int.emod_emod_of_dvd i hdvd, ← Int.mul_emod]
      rw [e1]
      have h4 : 1 < 2 ^ (K + 1) := Nat.one_lt_two_pow (by omega)
      rw [Nat.mod_eq_of_lt h4] at y3
      rw [← pow_succ']
      exact_mod_cast y3
    · intro out v
      unfold autChecker
      simp only
      cases ev.autTo buf ⟨out, false⟩ ⟨v, n⟩ i <;> rfl
  · intro hi
    unfold newAutChecker
    rw [hC.2 (by omega) (by omega)]
    rfl

/-- Non-vacuity: see `ev17`; index -5 is odd, and `(-5) * 3 = 1` modulo 16. -/
example : (-5 : Int) % 2 = 1 ∧ modInverse (intToUint64 (-5)) 16 = .ok 3 ∧
    ∃ ev, @newCyclotomicEvaluator 17 ⟨by norm_num⟩ (2 ^ 3) = .ok ev :=
  ⟨by norm_num, by decide +kernel, ev17⟩

/-! ## C33 -/

/-- **C33** (random projection): any 128 rows of length `rank ≥ 128`. -/
theorem C33_projChecker {F : Type} [Field F] (N : Nat) (hN : 128 ≤ N) (proj : List (List Bool))
    (h128 : proj.length = 128) (hrow : ∀ r ∈ proj, r.length = N) :
    Adjoint (F := F) N (projChecker proj) ∧
    ∀ out v : List F, out.length = N → v.length = N →
      ∃ w, (projChecker proj).transformTo out v = .ok w ∧ w.length = N ∧ ∀ i < N,
        w[i]? = some (if i < 128 then
          ∑ j ∈ range N, (if (proj.getD i []).getD j false then v.getD j 0 else 0) else 0) := by
  refine ⟨proj_adjoint proj N (by omega) (by omega) hrow, fun out v ho hv => ?_⟩
  obtain ⟨w, w1, w2, w3⟩ := proj_transform proj N (by omega) hrow out v ho hv
  refine ⟨w, w1, w2, fun i hi => ?_⟩
  rw [List.getElem?_eq_getElem (by omega), getD_eq (F := F), w3 i hi, h128]
  congr 2
  apply sum_congr rfl
  intro j _
  unfold projAt
  split_ifs <;> simp

/-- **C33** (recomposition): every non-empty digit base. -/
theorem C33_projRecomposeChecker {F : Type} [Field F] (N bound : Nat) (L : LinearChecker F)
    (hL : newProjRecomposeChecker bound = .ok L) :
    Adjoint N L ∧ ∃ base : List Nat, decomposeBase bound = .ok base ∧
    ∀ out v : List F, out.length = N → v.length = N →
      ∃ w, L.transformTo out v = .ok w ∧ w.length = N ∧ ∀ i < N,
        w[i]? = some (if i < N / base.length then
          ∑ j ∈ range base.length, (base.getD j 0 : F) * v.getD (i * base.length + j) 0 else 0) := by
  unfold newProjRecomposeChecker at hL
  cases hb : decomposeBase bound with
  | error e => rw [hb] at hL; cases hL
  | ok base =>
    rw [hb] at hL; cases hL
    have hpos : 0 < base.length := by
      unfold decomposeBase at hb
      simp only at hb
      split at hb
      · cases hb
      · cases hb; simp
    refine ⟨recompose_adjoint _ N (by simpa using hpos), base, rfl, fun out v ho hv => ?_⟩
    obtain ⟨w, w1, w2, w3⟩ := recompose_transform (base.map (fun (b : Nat) => (b : F))) N (by simpa using hpos) out v ho hv
    refine ⟨w, w1, w2, fun i hi => ?_⟩
    rw [List.getElem?_eq_getElem (by omega), getD_eq (F := F), w3 i hi, List.length_map]
    congr 2
    apply sum_congr rfl
    intro j hj
    rw [mem_range] at hj
    simp [List.getD_eq_getElem?_getD, hj]

/-- Non-vacuity: a concrete projection matrix and a concrete bound. -/
example : ∃ proj : List (List Bool), proj.length = 128 ∧ (∀ r ∈ proj, r.length = 128) ∧
    (∃ r ∈ proj, true ∈ r) ∧ ∃ L, newProjRecomposeChecker (F := ZMod 17) 10 = .ok L :=
  ⟨List.replicate 128 (List.replicate 128 true), by simp,
    fun r hr => by rw [List.eq_of_mem_replicate hr]; simp,
    ⟨List.replicate 128 true, by simp, by simp⟩,
    ⟨projRecomposeChecker ([5, 3, 1, 1].map (fun (b : Nat) => (b : ZMod 17))), by
      unfold newProjRecomposeChecker
      rw [show decomposeBase 10 = .ok [5, 3, 1, 1] by decide +kernel]; rfl⟩⟩

end Ringo
