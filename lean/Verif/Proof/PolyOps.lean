import Verif.Proof.Aut

/-!
# Each evaluator operation does to the data what it should do to the ring element
-/

namespace Ringo

open Finset Polynomial

section
variable {F : Type} [Field F] {K : Nat} {M : F[X]} {pt : Nat → F} {ev : Evaluator F}

theorem sf_iff (h : GoodEv K M pt ev) (p : Poly F) (f : F[X]) :
    StandsFor (2 ^ K) M pt p f ↔ p.coeffs.length = 2 ^ K ∧
      ∀ i < 2 ^ K, f.eval (pt i) = valAt (2 ^ K) pt p i := by
  constructor
  · intro hs
    exact ⟨hs.1, (standsFor_ntt_iff h.pts p f hs.1).1 hs⟩
  · rintro ⟨h1, h2⟩
    exact (standsFor_ntt_iff h.pts p f h1).2 h2

/-- Two polynomials in the same form standing for the same element are equal. -/
theorem sf_unique (h : GoodEv K M pt ev) {p q : Poly F} {f : F[X]}
    (hp : StandsFor (2 ^ K) M pt p f) (hq : StandsFor (2 ^ K) M pt q f)
    (hn : p.isNTT = q.isNTT) : p = q := by
  obtain ⟨cp, np⟩ := p
  obtain ⟨cq, nq⟩ := q
  simp only at hn
  subst hn
  obtain ⟨hp1, hp2⟩ := hp
  obtain ⟨hq1, hq2⟩ := hq
  simp only at hp1 hq1
  congr 1
  cases np with
  | true =>
    simp only [if_true] at hp2 hq2
    apply List.ext_getElem? ; intro i
    by_cases hi : i < 2 ^ K
    · rw [hp2 i hi, hq2 i hi]
    · rw [List.getElem?_eq_none (by omega), List.getElem?_eq_none (by omega)]
  | false =>
    simp only [Bool.false_eq_true, if_false] at hp2 hq2
    have hd : M ∣ listPoly cq - listPoly cp := by
      have := dvd_sub hp2 hq2
      convert this using 1; ring
    apply listPoly_injective (by omega)
    have h0 : listPoly cq - listPoly cp = 0 := by
      apply eq_zero_of_dvd_of_degree_lt hd
      rw [h.pts.deg]
      refine lt_of_le_of_lt (degree_sub_le _ _) (max_lt ?_ ?_)
      · have := listPoly_degree cq; rwa [hq1] at this
      · have := listPoly_degree cp; rwa [hp1] at this
    exact (sub_eq_zero.1 h0).symm

omit [Field F] in
theorem checkUnary_ok {rank : Nat} {pOut p : Poly F} (ho : pOut.coeffs.length = rank)
    (hp : p.coeffs.length = rank) : checkUnary rank pOut p = .ok () := by
  unfold checkUnary; rw [if_neg (by simp [ho, hp])]; rfl

omit [Field F] in
theorem checkBinary_ok {rank : Nat} {pOut p q : Poly F} (ho : pOut.coeffs.length = rank)
    (hp : p.coeffs.length = rank) (hq : q.coeffs.length = rank) (hn : p.isNTT = q.isNTT) :
    checkBinary rank pOut p q = .ok () := by
  unfold checkBinary; rw [if_neg (by simp [ho, hp, hq]), if_neg (by simp [hn])]; rfl

omit [Field F] in
theorem checkUnary_inv {rank : Nat} {pOut p : Poly F} {u : Unit}
    (h : checkUnary rank pOut p = .ok u) : pOut.coeffs.length = rank ∧ p.coeffs.length = rank := by
  unfold checkUnary at h
  split at h
  · cases h
  · next hc => push Not at hc; exact hc

omit [Field F] in
theorem checkBinary_inv {rank : Nat} {pOut p q : Poly F} {u : Unit}
    (h : checkBinary rank pOut p q = .ok u) :
    pOut.coeffs.length = rank ∧ p.coeffs.length = rank ∧ q.coeffs.length = rank ∧
      p.isNTT = q.isNTT := by
  unfold checkBinary at h
  split at h
  · cases h
  · next hc =>
    push Not at hc
    split at h
    · cases h
    · next hn => push Not at hn; exact ⟨hc.1, hc.2.1, hc.2.2, hn⟩

theorem bind_ok_inv {α β : Type} {x : Go α} {f : α → Go β} {b : β} (h : (x >>= f) = .ok b) :
    ∃ a, x = .ok a ∧ f a = .ok b := by
  cases x with
  | error e => cases h
  | ok a => exact ⟨a, rfl, h⟩

theorem sf_add (h : GoodEv K M pt ev) {pOut a b q : Poly F} {f g : F[X]}
    (ha : StandsFor (2 ^ K) M pt a f) (hb : StandsFor (2 ^ K) M pt b g)
    (hq : ev.addTo pOut a b = .ok q) : StandsFor (2 ^ K) M pt q (f + g) := by
  unfold Evaluator.addTo at hq
  obtain ⟨_, hc, hq⟩ := bind_ok_inv hq
  obtain ⟨-, h1, h2, h3⟩ := checkBinary_inv hc
  rw [go_pure] at hq; cases hq
  rw [sf_iff h] at ha hb ⊢
  refine ⟨by simp [ha.1, hb.1], fun i hi => ?_⟩
  rw [eval_add, ha.2 i hi, hb.2 i hi, valAt_zip_add _ _ _ ha.1 hb.1]
  rw [show valAt (2 ^ K) pt ⟨b.coeffs, a.isNTT⟩ i = valAt (2 ^ K) pt b i by rw [h3]]

theorem sf_sub (h : GoodEv K M pt ev) {pOut a b q : Poly F} {f g : F[X]}
    (ha : StandsFor (2 ^ K) M pt a f) (hb : StandsFor (2 ^ K) M pt b g)
    (hq : ev.subTo pOut a b = .ok q) : StandsFor (2 ^ K) M pt q (f - g) := by
  unfold Evaluator.subTo at hq
  obtain ⟨_, hc, hq⟩ := bind_ok_inv hq
  obtain ⟨-, h1, h2, h3⟩ := checkBinary_inv hc
  rw [go_pure] at hq; cases hq
  rw [sf_iff h] at ha hb ⊢
  refine ⟨by simp [ha.1, hb.1], fun i hi => ?_⟩
  rw [eval_sub, ha.2 i hi, hb.2 i hi, valAt_zip_sub _ _ _ ha.1 hb.1]
  rw [show valAt (2 ^ K) pt ⟨b.coeffs, a.isNTT⟩ i = valAt (2 ^ K) pt b i by rw [h3]]

theorem sf_neg (h : GoodEv K M pt ev) {pOut a q : Poly F} {f : F[X]}
    (ha : StandsFor (2 ^ K) M pt a f)
    (hq : ev.negTo pOut a = .ok q) : StandsFor (2 ^ K) M pt q (-f) := by
  unfold Evaluator.negTo at hq
  obtain ⟨_, hc, hq⟩ := bind_ok_inv hq
  rw [go_pure] at hq; cases hq
  rw [sf_iff h] at ha ⊢
  refine ⟨by simp [ha.1], fun i hi => ?_⟩
  rw [eval_neg, ha.2 i hi, valAt_map_neg _ _ ha.1]

theorem sf_smul (h : GoodEv K M pt ev) {pOut a q : Poly F} {f : F[X]} {c : F}
    (ha : StandsFor (2 ^ K) M pt a f)
    (hq : ev.scalarMulTo pOut a c = .ok q) : StandsFor (2 ^ K) M pt q (C c * f) := by
  unfold Evaluator.scalarMulTo at hq
  obtain ⟨_, hc, hq⟩ := bind_ok_inv hq
  rw [go_pure] at hq; cases hq
  rw [sf_iff h] at ha ⊢
  refine ⟨by simp [ha.1], fun i hi => ?_⟩
  rw [eval_mul, eval_C, ha.2 i hi, valAt_map_mul _ _ _ ha.1]

theorem sf_smulAdd (h : GoodEv K M pt ev) {pOut a q : Poly F} {f g : F[X]} {c : F}
    (ho : StandsFor (2 ^ K) M pt pOut g) (ha : StandsFor (2 ^ K) M pt a f)
    (hn : pOut.isNTT = a.isNTT)
    (hq : ev.scalarMulAddTo pOut a c = .ok q) : StandsFor (2 ^ K) M pt q (g + C c * f) := by
  unfold Evaluator.scalarMulAddTo at hq
  obtain ⟨_, hc, hq⟩ := bind_ok_inv hq
  simp only [go_pure] at hq; cases hq
  rw [sf_iff h] at ha ho ⊢
  refine ⟨by simp [ha.1, ho.1], fun i hi => ?_⟩
  rw [eval_add, eval_mul, eval_C, ha.2 i hi, ho.2 i hi,
    valAt_zip_add _ _ _ ho.1 (by simp [ha.1]), valAt_map_mul _ _ _ ha.1]
  rw [show valAt (2 ^ K) pt ⟨pOut.coeffs, a.isNTT⟩ i = valAt (2 ^ K) pt pOut i by rw [← hn]]

theorem sf_smulSub (h : GoodEv K M pt ev) {pOut a q : Poly F} {f g : F[X]} {c : F}
    (ho : StandsFor (2 ^ K) M pt pOut g) (ha : StandsFor (2 ^ K) M pt a f)
    (hn : pOut.isNTT = a.isNTT)
    (hq : ev.scalarMulSubTo pOut a c = .ok q) : StandsFor (2 ^ K) M pt q (g - C c * f) := by
  unfold Evaluator.scalarMulSubTo at hq
  obtain ⟨_, hc, hq⟩ := bind_ok_inv hq
  simp only [go_pure] at hq; cases hq
  rw [sf_iff h] at ha ho ⊢
  refine ⟨by simp [ha.1, ho.1], fun i hi => ?_⟩
  rw [eval_sub, eval_mul, eval_C, ha.2 i hi, ho.2 i hi,
    valAt_zip_sub _ _ _ ho.1 (by simp [ha.1]), valAt_map_mul _ _ _ ha.1]
  rw [show valAt (2 ^ K) pt ⟨pOut.coeffs, a.isNTT⟩ i = valAt (2 ^ K) pt pOut i by rw [← hn]]

theorem sf_zipMul (h : GoodEv K M pt ev) {a b : Poly F} {f g : F[X]}
    (ha : StandsFor (2 ^ K) M pt a f) (hb : StandsFor (2 ^ K) M pt b g)
    (na : a.isNTT = true) (nb : b.isNTT = true) :
    StandsFor (2 ^ K) M pt ⟨List.zipWith (· * ·) a.coeffs b.coeffs, true⟩ (f * g) := by
  rw [sf_iff h] at ha hb ⊢
  refine ⟨by simp [ha.1, hb.1], fun i hi => ?_⟩
  rw [eval_mul, ha.2 i hi, hb.2 i hi]
  unfold valAt
  rw [if_pos na, if_pos nb, if_pos rfl, getD_zipWith _ _ _ (by rw [ha.1, hb.1]) _ (by simp)]

theorem sf_mul (h : GoodEv K M pt ev) {pOut a b q : Poly F} {f g : F[X]}
    (ha : StandsFor (2 ^ K) M pt a f) (hb : StandsFor (2 ^ K) M pt b g)
    (hq : ev.mulTo pOut a b = .ok q) : StandsFor (2 ^ K) M pt q (f * g) := by
  unfold Evaluator.mulTo at hq
  obtain ⟨_, hc, hq⟩ := bind_ok_inv hq
  split at hq
  · cases hq
  · next hn =>
    simp only [Bool.or_eq_true, Bool.not_eq_true', not_or, Bool.not_eq_false] at hn
    rw [go_pure] at hq; cases hq
    exact sf_zipMul h ha hb hn.1 hn.2

theorem sf_mulAdd (h : GoodEv K M pt ev) {pOut a b q : Poly F} {e f g : F[X]}
    (ho : StandsFor (2 ^ K) M pt pOut e)
    (ha : StandsFor (2 ^ K) M pt a f) (hb : StandsFor (2 ^ K) M pt b g)
    (hno : pOut.isNTT = true)
    (hq : ev.mulAddTo pOut a b = .ok q) : StandsFor (2 ^ K) M pt q (e + f * g) := by
  unfold Evaluator.mulAddTo at hq
  obtain ⟨_, hc, hq⟩ := bind_ok_inv hq
  split at hq
  · cases hq
  · next hn =>
    simp only [Bool.or_eq_true, Bool.not_eq_true', not_or, Bool.not_eq_false] at hn
    simp only [go_pure] at hq; cases hq
    have hm := sf_zipMul h ha hb hn.1 hn.2
    rw [sf_iff h] at hm ho ⊢
    refine ⟨by simp at hm; simp [hm.1, ho.1], fun i hi => ?_⟩
    rw [eval_add, hm.2 i hi, ho.2 i hi, valAt_zip_add _ _ _ ho.1 hm.1]
    rw [show valAt (2 ^ K) pt ⟨pOut.coeffs, true⟩ i = valAt (2 ^ K) pt pOut i by rw [← hno]]

theorem sf_mulSub (h : GoodEv K M pt ev) {pOut a b q : Poly F} {e f g : F[X]}
    (ho : StandsFor (2 ^ K) M pt pOut e)
    (ha : StandsFor (2 ^ K) M pt a f) (hb : StandsFor (2 ^ K) M pt b g)
    (hno : pOut.isNTT = true)
    (hq : ev.mulSubTo pOut a b = .ok q) : StandsFor (2 ^ K) M pt q (e - f * g) := by
  unfold Evaluator.mulSubTo at hq
  obtain ⟨_, hc, hq⟩ := bind_ok_inv hq
  split at hq
  · cases hq
  · next hn =>
    simp only [Bool.or_eq_true, Bool.not_eq_true', not_or, Bool.not_eq_false] at hn
    simp only [go_pure] at hq; cases hq
    have hm := sf_zipMul h ha hb hn.1 hn.2
    rw [sf_iff h] at hm ho ⊢
    refine ⟨by simp at hm; simp [hm.1, ho.1], fun i hi => ?_⟩
    rw [eval_sub, hm.2 i hi, ho.2 i hi, valAt_zip_sub _ _ _ ho.1 hm.1]
    rw [show valAt (2 ^ K) pt ⟨pOut.coeffs, true⟩ i = valAt (2 ^ K) pt pOut i by rw [← hno]]

theorem sf_ntt (h : GoodEv K M pt ev) {pOut a q : Poly F} {f : F[X]}
    (ha : StandsFor (2 ^ K) M pt a f) (hq : ev.nttTo pOut a = .ok q) :
    StandsFor (2 ^ K) M pt q f ∧ q.isNTT = true := by
  have hq' := hq
  unfold Evaluator.nttTo at hq
  obtain ⟨_, hc, hq⟩ := bind_ok_inv hq
  obtain ⟨h1, h2⟩ := checkUnary_inv hc
  rw [h.rank] at h1 h2
  split at hq
  · cases hq
  · next hn =>
    obtain ⟨w, w1, w2, w3⟩ := h.nttTo_ok pOut a h1 h2 (by simpa using hn)
    rw [w1] at hq'; cases hq'
    rw [sf_iff h] at ha ⊢
    refine ⟨⟨w2, fun i hi => ?_⟩, rfl⟩
    rw [ha.2 i hi]
    unfold valAt
    rw [if_neg hn, if_pos rfl, w3 i hi]

theorem sf_intt (h : GoodEv K M pt ev) {pOut a q : Poly F} {f : F[X]}
    (ha : StandsFor (2 ^ K) M pt a f) (hq : ev.invNTTTo pOut a = .ok q) :
    StandsFor (2 ^ K) M pt q f ∧ q.isNTT = false := by
  have hq' := hq
  unfold Evaluator.invNTTTo at hq
  obtain ⟨_, hc, hq⟩ := bind_ok_inv hq
  obtain ⟨h1, h2⟩ := checkUnary_inv hc
  rw [h.rank] at h1 h2
  split at hq
  · cases hq
  · next hn =>
    have hn' : a.isNTT = true := by simpa using hn
    obtain ⟨w, w1, w2, w3⟩ := h.invNTTTo_ok pOut a h1 h2 hn'
    rw [w1] at hq'; cases hq'
    rw [sf_iff h] at ha ⊢
    refine ⟨⟨w2, fun i hi => ?_⟩, rfl⟩
    rw [ha.2 i hi]
    unfold valAt
    rw [if_pos hn', if_neg (by simp), w3 i hi]

theorem sf_copy (h : GoodEv K M pt ev) {pOut a q : Poly F} {f : F[X]}
    (ho : pOut.coeffs.length = 2 ^ K)
    (ha : StandsFor (2 ^ K) M pt a f) (hq : pOut.copyFrom a = .ok q) :
    StandsFor (2 ^ K) M pt q f := by
  unfold Poly.copyFrom at hq
  rw [copy8_eq pOut.coeffs a.coeffs (by rw [ho]; exact pow8 h.hK) (by rw [ho, ha.1])] at hq
  cases hq
  exact ha

theorem sf_clear (h : GoodEv K M pt ev) {a : Poly F} (hl : a.coeffs.length = 2 ^ K) :
    StandsFor (2 ^ K) M pt a.clear 0 := by
  rw [sf_iff h]
  refine ⟨by simp [Poly.clear, hl], fun i hi => ?_⟩
  have h0 : ∀ j, (a.coeffs.map (fun _ => (0 : F))).getD j 0 = 0 := by
    intro j
    rw [List.getD_eq_getElem?_getD, List.getElem?_map]
    cases a.coeffs[j]? <;> rfl
  rw [eval_zero]
  unfold valAt Poly.clear evalAt
  simp only [h0, zero_mul, sum_const_zero, ite_self]

/-- Any well-sized polynomial stands for something. -/
theorem sf_exists (h : GoodEv K M pt ev) (p : Poly F) (hl : p.coeffs.length = 2 ^ K) :
    ∃ f, StandsFor (2 ^ K) M pt p f := by
  cases hn : p.isNTT with
  | false =>
    refine ⟨listPoly p.coeffs, hl, ?_⟩
    rw [hn]; simp
  | true =>
    obtain ⟨w, w1, w2, w3⟩ := h.invNTTTo_ok p p hl hl hn
    refine ⟨listPoly w, ?_⟩
    rw [sf_iff h]
    refine ⟨hl, fun i hi => ?_⟩
    rw [listPoly_eval, w2, w3 i hi]
    unfold valAt
    rw [if_pos hn]

end

section
variable {F : Type} [Field F] {K : Nat} {psi : F} {ev : Evaluator F}

/-- The index Go computes from `idx`. -/
theorem tmod_norm (N : Nat) (hN : 0 < N) (i : Int) :
    (if i.tmod (2 * N) < 0 then i.tmod (2 * N) + 2 * N else i.tmod (2 * N)) = i % (2 * N : Int) := by
  have hp : (0 : Int) < 2 * N := by omega
  rcases le_or_gt 0 i with h | h
  · rw [Int.tmod_eq_emod_of_nonneg h]
    have := Int.emod_nonneg i (b := 2 * N) (by omega)
    rw [if_neg (by omega)]
  · rw [Int.tmod_eq_emod]
    have h1 := Int.emod_nonneg i (b := 2 * N) (by omega)
    have h2 := Int.emod_lt_of_pos i hp
    have h3 : (Int.natAbs (2 * N : Int) : Int) = 2 * N := Int.natAbs_of_nonneg (by omega)
    by_cases hd : 0 ≤ i ∨ (2 * N : Int) ∣ i
    · rw [if_pos hd]; split_ifs <;> omega
    · rw [if_neg hd, h3]; split_ifs <;> omega

theorem aut_total (h : GoodEv K (X ^ 2 ^ K + 1) (fun i => psi ^ (2 * rev K i + 1)) ev)
    (hpsi : psi ^ 2 ^ K = -1) (buf pOut p : Poly F) (f : F[X]) (i : Int) (e : Nat)
    (hi : i % 2 = 1) (he : (e : Int) % (2 * 2 ^ K) = i % (2 * 2 ^ K))
    (hb : buf.coeffs.length = 2 ^ K) (ho : pOut.coeffs.length = 2 ^ K)
    (hp : StandsFor (2 ^ K) (X ^ 2 ^ K + 1) (fun i => psi ^ (2 * rev K i + 1)) p f) :
    ∃ q, ev.autTo buf pOut p i = .ok q ∧ q.isNTT = p.isNTT ∧
      StandsFor (2 ^ K) (X ^ 2 ^ K + 1) (fun i => psi ^ (2 * rev K i + 1)) q (f.comp (X ^ e)) := by
  have hN := Nat.two_pow_pos K
  have hr := h.rank
  have hcu : checkUnary ev.rank pOut p = .ok () :=
    checkUnary_ok (by rw [ho, hr]) (by rw [hp.1, hr])
  have hodd : i.tmod 2 ≠ 0 := by
    intro h0
    have := Int.emod_eq_zero_of_dvd (Int.dvd_of_tmod_eq_zero h0)
    omega
  set e' := (i % (2 * 2 ^ K : Int)).toNat with he'
  have hnn := Int.emod_nonneg i (b := 2 * 2 ^ K) (by positivity)
  have he1 : e' % 2 = 1 := by
    have h1 : (e' : Int) = i % (2 * 2 ^ K) := Int.toNat_of_nonneg hnn
    have h2 : (e' : Int) % 2 = i % 2 := by
      rw [h1]; exact Int.emod_emod_of_dvd i ⟨2 ^ K, rfl⟩
    omega
  have hee : e % (2 * 2 ^ K) = e' % (2 * 2 ^ K) := by
    have h1 : (e' : Int) = i % (2 * 2 ^ K) := Int.toNat_of_nonneg hnn
    have h2 : (e : Int) % (2 * 2 ^ K) = (e' : Int) % (2 * 2 ^ K) := by
      rw [h1, he, Int.emod_emod_of_dvd _ dvd_rfl]
    exact_mod_cast h2
  have hx2 : ∀ x : F, x ^ 2 ^ K = -1 → x ^ e = x ^ e' := by
    intro x hx
    have h2 : x ^ (2 * 2 ^ K) = 1 := by rw [mul_comm, pow_mul, hx]; ring
    have hr : ∀ t, x ^ t = x ^ (t % (2 * 2 ^ K)) := by
      intro t
      conv_lhs => rw [← Nat.div_add_mod t (2 * 2 ^ K), pow_add, pow_mul, h2, one_pow, one_mul]
    rw [hr e, hr e', hee]
  have hptK : ∀ j, (psi ^ (2 * rev K j + 1)) ^ 2 ^ K = -1 := by
    intro j
    rw [← pow_mul, mul_comm, pow_mul, hpsi]
    exact Odd.neg_one_pow ⟨_, rfl⟩
  have hun : ev.autTo buf pOut p i =
      if p.isNTT then ev.autNTTTo buf pOut p e' else ev.autCoeffTo buf pOut p e' := by
    unfold Evaluator.autTo
    rw [hcu, go_bind_ok, if_neg hodd]
    have := tmod_norm (2 ^ K) hN i
    simp only [hr, Nat.cast_pow, Nat.cast_ofNat] at this ⊢
    rw [this]
  rw [hun]
  have hp' := (sf_iff h p f).1 hp
  cases hn : p.isNTT with
  | true =>
    obtain ⟨w, w1, w2, w3⟩ := autNTT_spec hr h.hK buf pOut p e' he1 hb ho hp.1
    refine ⟨⟨w, true⟩, by rw [if_pos rfl, w1], rfl, ?_⟩
    rw [sf_iff h]
    refine ⟨w2, fun j hj => ?_⟩
    obtain ⟨t, t1, t2, t3⟩ := w3 j hj
    have hrt := rev_lt K t
    have hv := hp'.2 (rev K t) hrt
    unfold valAt at hv ⊢
    rw [if_pos hn, rev_rev K t t1] at hv
    rw [if_pos rfl, t2, ← hv, eval_comp, eval_pow, eval_X, hx2 _ (hptK j), ← pow_mul]
    have h2 : psi ^ (2 * 2 ^ K) = 1 := by rw [mul_comm, pow_mul, hpsi]; ring
    rw [t3]
    conv_lhs => rw [← Nat.div_add_mod ((2 * rev K j + 1) * e') (2 * 2 ^ K), pow_add, pow_mul, h2,
      one_pow, one_mul]
  | false =>
    obtain ⟨w, w1, w2, -, w3⟩ := autCoeff_spec hr h.hK buf pOut p e' he1 hb ho hp.1
    refine ⟨⟨w, false⟩, by rw [if_neg (by simp), w1], rfl, ?_⟩
    rw [sf_iff h]
    refine ⟨w2, fun j hj => ?_⟩
    have hx := hptK j
    unfold valAt
    simp only [Bool.false_eq_true, if_false]
    rw [w3 _ hx, eval_comp, eval_pow, eval_X, hx2 _ hx]
    -- `f` and the coefficients agree at every root of `X^N+1`
    obtain ⟨c, hc⟩ : X ^ 2 ^ K + 1 ∣ f - listPoly p.coeffs := by
      have := hp.2; rw [hn] at this; simpa using this
    have hroot : ((psi ^ (2 * rev K j + 1)) ^ e') ^ 2 ^ K = -1 := by
      rw [← pow_mul, mul_comm e' _, pow_mul, hx]
      exact Odd.neg_one_pow (Nat.odd_iff.2 he1)
    have := congrArg (eval ((psi ^ (2 * rev K j + 1)) ^ e')) hc
    rw [eval_sub, eval_mul, eval_add, eval_pow, eval_X, eval_one, hroot, neg_add_cancel, zero_mul,
      sub_eq_zero, listPoly_eval, hp.1] at this
    exact this

theorem aut_even (buf pOut p : Poly F) (i : Int) (hi : i % 2 = 0) :
    ev.autTo buf pOut p i = goPanic := by
  unfold Evaluator.autTo
  have : i.tmod 2 = 0 := by
    rw [Int.tmod_eq_emod, hi]; simp [Int.dvd_of_emod_eq_zero hi]
  rw [if_pos this]
  unfold checkUnary
  split <;> rfl

end

end Ringo
