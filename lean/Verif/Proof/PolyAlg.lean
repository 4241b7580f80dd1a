import Verif.Spec.Ring
import Verif.Proof.NTTFinal

/-!
# Evaluator operations and the ring elements they compute
-/

namespace Ringo

open Finset Polynomial

section ring
variable {F : Type} [CommRing F]

theorem listPoly_coeff (v : List F) (n : Nat) : (listPoly v).coeff n = v.getD n 0 := by
  unfold listPoly
  simp only [finsetSum_coeff, coeff_C_mul_X_pow]
  by_cases h : n < v.length
  · rw [Finset.sum_eq_single n]
    · simp
    · intro b _ hb; rw [if_neg (Ne.symm hb)]
    · intro hn; simp at hn; omega
  · rw [Finset.sum_eq_zero]
    · rw [List.getD_eq_getElem?_getD, List.getElem?_eq_none (by omega)]; rfl
    · intro b hb; rw [mem_range] at hb; rw [if_neg (by omega)]

theorem listPoly_eval (v : List F) (x : F) : (listPoly v).eval x = evalAt v.length v x := by
  simp [listPoly, evalAt, eval_finsetSum]

theorem listPoly_degree (v : List F) : (listPoly v).degree < (v.length : WithBot ℕ) := by
  rw [degree_lt_iff_coeff_zero]
  intro m hm
  rw [listPoly_coeff, List.getD_eq_getElem?_getD, List.getElem?_eq_none hm]; rfl

theorem listPoly_injective {v w : List F} (hl : v.length = w.length) (h : listPoly v = listPoly w) :
    v = w := by
  refine list_ext_getD 0 v.length rfl hl.symm (fun i _ => ?_)
  rw [← listPoly_coeff, ← listPoly_coeff, h]

theorem getD_zipWith (op : F → F → F) (a b : List F) (hl : a.length = b.length) (i : Nat)
    (h0 : op 0 0 = 0) :
    (List.zipWith op a b).getD i 0 = op (a.getD i 0) (b.getD i 0) := by
  simp only [List.getD_eq_getElem?_getD, List.getElem?_zipWith]
  by_cases h : i < a.length
  · rw [List.getElem?_eq_getElem h, List.getElem?_eq_getElem (by omega)]; rfl
  · rw [List.getElem?_eq_none (by omega), List.getElem?_eq_none (by omega)]
    simp [h0]

theorem getD_map (op : F → F) (a : List F) (i : Nat) (h0 : op 0 = 0) :
    (a.map op).getD i 0 = op (a.getD i 0) := by
  simp only [List.getD_eq_getElem?_getD, List.getElem?_map]
  cases a[i]? <;> simp [h0]

theorem listPoly_add (a b : List F) (hl : a.length = b.length) :
    listPoly (List.zipWith (· + ·) a b) = listPoly a + listPoly b := by
  ext n; rw [coeff_add, listPoly_coeff, listPoly_coeff, listPoly_coeff, getD_zipWith _ _ _ hl _ (by simp)]

theorem listPoly_sub (a b : List F) (hl : a.length = b.length) :
    listPoly (List.zipWith (· - ·) a b) = listPoly a - listPoly b := by
  ext n; rw [coeff_sub, listPoly_coeff, listPoly_coeff, listPoly_coeff, getD_zipWith _ _ _ hl _ (by simp)]

theorem listPoly_neg (a : List F) : listPoly (a.map (fun x => -x)) = -listPoly a := by
  ext n; rw [coeff_neg, listPoly_coeff, listPoly_coeff, getD_map _ _ _ (by simp)]

theorem listPoly_smul (a : List F) (c : F) : listPoly (a.map (· * c)) = C c * listPoly a := by
  ext n; rw [coeff_C_mul, listPoly_coeff, listPoly_coeff, getD_map _ _ _ (by simp), mul_comm]

theorem getElem?_of_getD {l : List F} {i : Nat} {x : F} (hi : i < l.length) :
    l[i]? = some x ↔ l.getD i 0 = x := by
  rw [List.getD_eq_getElem?_getD, List.getElem?_eq_getElem hi]; simp

end ring

section field
variable {F : Type} [Field F]

/-- `N` distinct roots of a monic polynomial of degree `N`. -/
structure Pts (N : Nat) (M : F[X]) (pt : Nat → F) : Prop where
  inj : Set.InjOn pt (range N)
  root : ∀ i < N, M.eval (pt i) = 0
  monic : M.Monic
  deg : M.degree = (N : WithBot ℕ)

theorem Pts.dvd_iff {N : Nat} {M : F[X]} {pt : Nat → F} (h : Pts N M pt) (f : F[X]) :
    M ∣ f ↔ ∀ i < N, f.eval (pt i) = 0 := by
  constructor
  · rintro ⟨q, rfl⟩ i hi
    rw [eval_mul, h.root i hi, zero_mul]
  · intro hf
    rw [← modByMonic_eq_zero_iff_dvd h.monic]
    have hd : (f %ₘ M).degree < (N : WithBot ℕ) := by
      rw [← h.deg]; exact degree_modByMonic_lt _ h.monic
    apply eq_zero_of_degree_lt_of_eval_index_eq_zero (s := range N) (v := pt) h.inj
    · rw [card_range]; exact hd
    · intro i hi
      rw [mem_range] at hi
      have h1 := congrArg (eval (pt i)) (modByMonic_add_div f M)
      rw [eval_add, eval_mul, h.root i hi, zero_mul, add_zero, hf i hi] at h1
      exact h1

/-- Everything the evaluator proofs need. -/
structure GoodEv (K : Nat) (M : F[X]) (pt : Nat → F) (ev : Evaluator F) : Prop where
  rank : ev.rank = 2 ^ K
  hK : 3 ≤ K
  pts : Pts (2 ^ K) M pt
  good : ∃ z, GoodT K ev.ntt z ∧ ∀ i < 2 ^ K, z (2 ^ K + i) = pt i

variable {K : Nat} {M : F[X]} {pt : Nat → F} {ev : Evaluator F}

theorem GoodEv.nttTo_ok (h : GoodEv K M pt ev) (pOut p : Poly F) (ho : pOut.coeffs.length = 2 ^ K)
    (hp : p.coeffs.length = 2 ^ K) (hn : p.isNTT = false) :
    ∃ w, ev.nttTo pOut p = .ok ⟨w, true⟩ ∧ w.length = 2 ^ K ∧
      ∀ i < 2 ^ K, w.getD i 0 = evalAt (2 ^ K) p.coeffs (pt i) := by
  obtain ⟨z, hz, hpt⟩ := h.good
  obtain ⟨w, h1, h2, -, h3⟩ := fwd_spec h.hK hz pOut.coeffs p.coeffs ho hp
  refine ⟨w, ?_, h2, fun i hi => by rw [h3 i hi, hpt i hi]⟩
  unfold Evaluator.nttTo checkUnary
  rw [if_neg (by rw [h.rank]; simp [ho, hp]), hn, h1]
  rfl

theorem GoodEv.invNTTTo_ok (h : GoodEv K M pt ev) (pOut p : Poly F) (ho : pOut.coeffs.length = 2 ^ K)
    (hp : p.coeffs.length = 2 ^ K) (hn : p.isNTT = true) :
    ∃ w, ev.invNTTTo pOut p = .ok ⟨w, false⟩ ∧ w.length = 2 ^ K ∧
      ∀ i < 2 ^ K, evalAt (2 ^ K) w (pt i) = p.coeffs.getD i 0 := by
  obtain ⟨z, hz, hpt⟩ := h.good
  have hfi := fwd_inv h.hK hz pOut.coeffs pOut.coeffs p.coeffs ho ho hp
  obtain ⟨w, h1, h2, h3⟩ := inv_spec h.hK hz pOut.coeffs p.coeffs ho hp
  obtain ⟨u, u1, u2, -, u3⟩ := fwd_spec h.hK hz pOut.coeffs w ho h2
  rw [h1, go_bind_ok, u1] at hfi
  injection hfi with hfi
  refine ⟨w, ?_, h2, fun i hi => ?_⟩
  · unfold Evaluator.invNTTTo checkUnary
    rw [if_neg (by rw [h.rank]; simp [ho, hp]), hn, h1]
    rfl
  · rw [← hpt i hi, ← u3 i hi, hfi]

theorem standsFor_ntt_iff {N : Nat} {M : F[X]} {pt : Nat → F} (hp : Pts N M pt) (p : Poly F) (f : F[X])
    (hl : p.coeffs.length = N) :
    StandsFor N M pt p f ↔ ∀ i < N, f.eval (pt i) =
      if p.isNTT then p.coeffs.getD i 0 else evalAt N p.coeffs (pt i) := by
  unfold StandsFor
  cases hn : p.isNTT with
  | true =>
    simp only [hl, true_and, if_true]
    constructor
    · intro h i hi
      have := h i hi
      rw [getElem?_of_getD (by omega)] at this
      rw [this]
    · intro h i hi
      rw [getElem?_of_getD (by omega), h i hi]
  | false =>
    simp only [hl, true_and, Bool.false_eq_true, if_false]
    rw [hp.dvd_iff]
    constructor
    · intro h i hi
      have := h i hi
      rw [eval_sub, listPoly_eval, hl] at this
      exact sub_eq_zero.1 this
    · intro h i hi
      rw [eval_sub, listPoly_eval, hl, h i hi, sub_self]

theorem evalAt_zipWith_add {N : Nat} (a b : List F) (ha : a.length = N) (hb : b.length = N) (x : F) :
    evalAt N (List.zipWith (· + ·) a b) x = evalAt N a x + evalAt N b x := by
  have := congrArg (eval x) (listPoly_add a b (by omega))
  rw [eval_add, listPoly_eval, listPoly_eval, listPoly_eval] at this
  simpa [ha, hb] using this

theorem evalAt_zipWith_sub {N : Nat} (a b : List F) (ha : a.length = N) (hb : b.length = N) (x : F) :
    evalAt N (List.zipWith (· - ·) a b) x = evalAt N a x - evalAt N b x := by
  have := congrArg (eval x) (listPoly_sub a b (by omega))
  rw [eval_sub, listPoly_eval, listPoly_eval, listPoly_eval] at this
  simpa [ha, hb] using this

theorem evalAt_map_neg {N : Nat} (a : List F) (ha : a.length = N) (x : F) :
    evalAt N (a.map (fun y => -y)) x = - evalAt N a x := by
  have := congrArg (eval x) (listPoly_neg a)
  rw [eval_neg, listPoly_eval, listPoly_eval] at this
  simpa [ha] using this

theorem evalAt_map_mul {N : Nat} (a : List F) (ha : a.length = N) (c x : F) :
    evalAt N (a.map (· * c)) x = c * evalAt N a x := by
  have := congrArg (eval x) (listPoly_smul a c)
  rw [eval_mul, eval_C, listPoly_eval, listPoly_eval] at this
  simpa [ha] using this

/-- The value at point `i` that a polynomial stands for. -/
def valAt (N : Nat) (pt : Nat → F) (p : Poly F) (i : Nat) : F :=
  if p.isNTT then p.coeffs.getD i 0 else evalAt N p.coeffs (pt i)

theorem valAt_zip_add {N : Nat} {pt : Nat → F} (a b : List F) (n : Bool) (ha : a.length = N)
    (hb : b.length = N) (i : Nat) :
    valAt N pt ⟨List.zipWith (· + ·) a b, n⟩ i = valAt N pt ⟨a, n⟩ i + valAt N pt ⟨b, n⟩ i := by
  cases n with
  | true => simp only [valAt, if_true]; exact getD_zipWith _ _ _ (by omega) _ (by simp)
  | false => simp only [valAt, Bool.false_eq_true, if_false]; exact evalAt_zipWith_add a b ha hb _

theorem valAt_zip_sub {N : Nat} {pt : Nat → F} (a b : List F) (n : Bool) (ha : a.length = N)
    (hb : b.length = N) (i : Nat) :
    valAt N pt ⟨List.zipWith (· - ·) a b, n⟩ i = valAt N pt ⟨a, n⟩ i - valAt N pt ⟨b, n⟩ i := by
  cases n with
  | true => simp only [valAt, if_true]; exact getD_zipWith _ _ _ (by omega) _ (by simp)
  | false => simp only [valAt, Bool.false_eq_true, if_false]; exact evalAt_zipWith_sub a b ha hb _

theorem valAt_map_neg {N : Nat} {pt : Nat → F} (a : List F) (n : Bool) (ha : a.length = N) (i : Nat) :
    valAt N pt ⟨a.map (fun y => -y), n⟩ i = - valAt N pt ⟨a, n⟩ i := by
  cases n with
  | true => simp only [valAt, if_true]; exact getD_map _ _ _ (by simp)
  | false => simp only [valAt, Bool.false_eq_true, if_false]; exact evalAt_map_neg a ha _

theorem valAt_map_mul {N : Nat} {pt : Nat → F} (a : List F) (n : Bool) (c : F) (ha : a.length = N) (i : Nat) :
    valAt N pt ⟨a.map (· * c), n⟩ i = c * valAt N pt ⟨a, n⟩ i := by
  cases n with
  | true => simp only [valAt, if_true]; rw [getD_map _ _ _ (by simp), mul_comm]
  | false => simp only [valAt, Bool.false_eq_true, if_false]; exact evalAt_map_mul a ha c _

end field

section zmod
variable (p : Nat) [hp : Fact p.Prime]

theorem X_pow_sub_C_monic {F : Type} [Field F] (N : Nat) (hN : N ≠ 0) (c : F) :
    (X ^ N - C c : F[X]).Monic ∧ (X ^ N - C c : F[X]).degree = (N : WithBot ℕ) :=
  ⟨monic_X_pow_sub_C c hN, degree_X_pow_sub_C (Nat.pos_of_ne_zero hN) c⟩

theorem cyclicEv_good (K : Nat) (hK : 3 ≤ K) (ev : Evaluator (ZMod p))
    (hev : newCyclicEvaluator p (2 ^ K) = .ok ev) :
    ∃ g, IsPrimitiveRoot g (2 ^ K) ∧ GoodEv K (X ^ 2 ^ K - 1) (fun i => g ^ rev K i) ev := by
  unfold newCyclicEvaluator at hev
  cases hT : newCyclicTransformer p (2 ^ K) with
  | error e => rw [hT] at hev; cases hev
  | ok T =>
    rw [hT] at hev
    injection hev with hev
    subst hev
    by_cases hd : 2 * 2 ^ K ∣ p - 1
    · obtain ⟨T', g, h1, h2, h3⟩ := cyclic_good p K (by omega) hd
      rw [hT] at h1; injection h1 with h1; subst h1
      have hprim := isPrimitiveRoot_of_neg_one (neg_one_ne_one p K hd) g (K - 1) h2
      rw [show K - 1 + 1 = K by omega] at hprim
      obtain ⟨m1, m2⟩ := X_pow_sub_C_monic (F := ZMod p) (2 ^ K) (by have := Nat.two_pow_pos K; omega) 1
      refine ⟨g, hprim, rfl, hK, ⟨?_, ?_, ?_, ?_⟩, cycZ g K, h3, fun i hi => cycZ_eq g K K i hi⟩
      · intro i hi j hj he
        simp only [coe_range, Set.mem_Iio] at hi hj
        exact rev_inj hi hj (hprim.pow_inj (rev_lt K i) (rev_lt K j) he)
      · intro i _
        rw [eval_sub, eval_pow, eval_X, eval_one, ← pow_mul, mul_comm, pow_mul, hprim.pow_eq_one,
          one_pow, sub_self]
      · simpa using m1
      · simpa using m2
    · have : newCyclicTransformer p (2 ^ K) = .error .panic := by
        unfold newCyclicTransformer
        have h1 : isPowerOfTwo (2 ^ K) = true := (isPowerOfTwo_iff _).2 ⟨K, rfl⟩
        have h2 : (p - 1) % (2 * 2 ^ K) ≠ 0 := fun he => hd (Nat.dvd_of_mod_eq_zero he)
        simp [h1, h2, goPanic]
      rw [hT] at this; cases this

theorem cyclotomicEv_good (K : Nat) (hK : 3 ≤ K) (ev : Evaluator (ZMod p))
    (hev : newCyclotomicEvaluator p (2 ^ K) = .ok ev) :
    ∃ psi, IsPrimitiveRoot psi (2 * 2 ^ K) ∧ psi ^ 2 ^ K = -1 ∧
      GoodEv K (X ^ 2 ^ K + 1) (fun i => psi ^ (2 * rev K i + 1)) ev := by
  unfold newCyclotomicEvaluator at hev
  cases hT : newCyclotomicTransformer p (2 ^ K) with
  | error e => rw [hT] at hev; cases hev
  | ok T =>
    rw [hT] at hev
    injection hev with hev
    subst hev
    by_cases hd : 2 * 2 ^ K ∣ p - 1
    · obtain ⟨T', g, h1, h2, h3⟩ := cyclotomic_good p K hd
      rw [hT] at h1; injection h1 with h1; subst h1
      have hprim := isPrimitiveRoot_of_neg_one (neg_one_ne_one p K hd) g K h2
      rw [Nat.pow_succ'] at hprim
      obtain ⟨m1, m2⟩ := X_pow_sub_C_monic (F := ZMod p) (2 ^ K) (by have := Nat.two_pow_pos K; omega) (-1)
      refine ⟨g, hprim, h2, rfl, hK, ⟨?_, ?_, ?_, ?_⟩, _, h3, fun i hi => ?_⟩
      · intro i hi j hj he
        simp only [coe_range, Set.mem_Iio] at hi hj
        have := rev_lt K i
        have := rev_lt K j
        have := hprim.pow_inj (by omega) (by omega) he
        exact rev_inj hi hj (by omega)
      · intro i _
        rw [eval_add, eval_pow, eval_X, eval_one, ← pow_mul, mul_comm, pow_mul, h2,
          Odd.neg_one_pow ⟨_, rfl⟩]; ring
      · simpa using m1
      · simpa using m2
      · rw [(rev_add_pow K i hi).2]
    · have : newCyclotomicTransformer p (2 ^ K) = .error .panic := by
        unfold newCyclotomicTransformer
        have h1 : isPowerOfTwo (2 ^ K) = true := (isPowerOfTwo_iff _).2 ⟨K, rfl⟩
        have h2 : (p - 1) % (2 * 2 ^ K) ≠ 0 := fun he => hd (Nat.dvd_of_mod_eq_zero he)
        simp [h1, h2, goPanic]
      rw [hT] at this; cases this

end zmod

end Ringo
