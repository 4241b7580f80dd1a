import Verif.Proof.Piop1
import Verif.Proof.Context

/-!
# What a compiled circuit looks like, and honest encodings
-/

namespace Ringo

open Finset Polynomial

section
variable {p : Nat} [Fact p.Prime]

/-- What the proofs need to know about a compiled circuit. -/
structure GoodCp (K Ke : Nat) (g ge : ZMod p) (cp : Compilation (ZMod p)) : Prop where
  hK : 3 ≤ K
  rank : cp.ctx.rank = 2 ^ K
  emb : cp.ctx.embRank = 2 ^ Ke
  ev : GoodEv Ke (X ^ 2 ^ Ke - 1) (fun i => ge ^ rev Ke i) cp.ev
  ecd : GoodEcd K g cp.ecd
  embed : cp.ecd.embedRank = 2 ^ Ke
  lt : 2 ^ K < 2 ^ Ke
  arithMax : ∀ c ∈ cp.ctx.arith, c.maxRank (2 ^ K) ≤ cp.ctx.arithCheckMaxRank
  sumMax : ∀ c ∈ cp.ctx.sums, c.maxRank (2 ^ K) ≤ cp.ctx.sumCheckMaxRank
  linMax : cp.ctx.lin ≠ [] → 2 * 2 ^ K - 1 ≤ cp.ctx.arithCheckMaxRank
  arithLe : cp.ctx.arithCheckMaxRank ≤ 2 ^ Ke
  sumLe : cp.ctx.sumCheckMaxRank ≤ 2 ^ Ke
  linNe : ∀ e ∈ cp.ctx.lin, e.2 ≠ []

theorem compile_inv {N ty pw0 w0 : Nat} {ops : List (CtxOp (ZMod p))} {cp : Compilation (ZMod p)}
    (h : compile N ty pw0 w0 ops = .ok cp) :
    (newContext (ZMod p) N ty pw0 w0).define ops = .ok cp.ctx ∧
      newCyclicEvaluator p cp.ctx.embRank = .ok cp.ev ∧
      newBEncoder p N cp.ctx.embRank = .ok cp.ecd := by
  unfold compile at h
  obtain ⟨ctx, h1, h⟩ := bind_ok_inv h
  obtain ⟨ev, h2, h⟩ := bind_ok_inv h
  obtain ⟨ecd, h3, h⟩ := bind_ok_inv h
  cases h
  exact ⟨h1, h2, h3⟩

theorem compile_good {K ty pw0 w0 : Nat} {ops : List (CtxOp (ZMod p))} {cp : Compilation (ZMod p)}
    (hK : 3 ≤ K) (h : compile (2 ^ K) ty pw0 w0 ops = .ok cp)
    (hlt : 2 ^ K < max cp.ctx.arithCheckMaxRank cp.ctx.sumCheckMaxRank) :
    ∃ Ke g ge, GoodCp K Ke g ge cp := by
  obtain ⟨h1, h2, h3⟩ := compile_inv h
  have hi : CtxInv (2 ^ K) pw0 w0 cp.ctx := CtxInv.define ops (CtxInv.new _ _ _ _) h1
  have hne : max cp.ctx.arithCheckMaxRank cp.ctx.sumCheckMaxRank ≠ 0 := by
    intro h0; rw [h0] at hlt; exact absurd hlt (Nat.not_lt_zero _)
  obtain ⟨Ke, hKe⟩ := cp.ctx.embRank_pow hne
  have hge := cp.ctx.embRank_ge hne
  rw [hKe] at h2 h3 hge
  have hlt' : 2 ^ K < 2 ^ Ke := lt_of_lt_of_le hlt hge
  have hKe3 : 3 ≤ Ke := by
    have := (Nat.pow_lt_pow_iff_right (show 1 < 2 by norm_num)).mp hlt'
    omega
  obtain ⟨ge, -, gev⟩ := cyclicEv_good p Ke hKe3 cp.ev h2
  obtain ⟨hemb, g, gecd⟩ := newBEncoder_good p K hK (2 ^ Ke) cp.ecd h3
  exact ⟨Ke, g, ge, hK, hi.rank, hKe, gev, gecd, hemb, hlt', hi.arithMax, hi.sumMax, hi.linMax,
    le_trans (le_max_left _ _) hge, le_trans (le_max_right _ _) hge, hi.linNe⟩

theorem compile_refs {N ty pw0 w0 : Nat} {ops : List (CtxOp (ZMod p))} {cp : Compilation (ZMod p)}
    (h : compile N ty pw0 w0 ops = .ok cp) (hv : ∀ op ∈ ops, op.Valid pw0 w0) :
    CtxRefs pw0 w0 cp.ctx := by
  refine CtxRefs.define ops hv ?_ (compile_inv h).1
  exact ⟨le_rfl, le_rfl, by simp [newContext], by simp [newContext], by simp [newContext]⟩

theorem X_pow_sub_one_monic (N : Nat) (hN : N ≠ 0) : (X ^ N - 1 : (ZMod p)[X]).Monic := by
  have := monic_X_pow_sub_C (1 : ZMod p) hN; rwa [C_1] at this

theorem X_pow_sub_one_degree (N : Nat) (hN : 0 < N) : (X ^ N - 1 : (ZMod p)[X]).degree = N := by
  have := degree_X_pow_sub_C hN (1 : ZMod p); rwa [C_1] at this

/-! ## Encodings -/

variable {K Ke : Nat} {g ge : ZMod p} {cp : Compilation (ZMod p)}

theorem listPoly_eval_of_zero {F : Type} [Field F] (w : List F) (N : Nat) (hN : N ≤ w.length)
    (h0 : ∀ i, N ≤ i → w.getD i 0 = 0) (x : F) : (listPoly w).eval x = evalAt N w x := by
  rw [listPoly_eval]
  unfold evalAt
  symm
  apply sum_subset (range_subset_range.mpr hN)
  intro j _ hj
  rw [mem_range, not_lt] at hj
  rw [h0 j hj, zero_mul]

theorem listPoly_natDegree_of_zero {F : Type} [Field F] (w : List F) (N : Nat) (hN : 0 < N)
    (h0 : ∀ i, N ≤ i → w.getD i 0 = 0) : (listPoly w).natDegree ≤ N - 1 := by
  rw [natDegree_le_iff_coeff_eq_zero]
  intro i hi
  rw [listPoly_coeff]
  exact h0 i (by omega)

/-- An encoding: degree below the rank, the vector on the domain. -/
theorem GoodCp.encodeTo (h : GoodCp K Ke g ge cp) (pOut : Poly (ZMod p)) (v : List (ZMod p))
    (ho : pOut.coeffs.length = 2 ^ Ke) (hv : v.length = 2 ^ K) :
    ∃ e, cp.ecd.encodeTo pOut v = .ok ⟨e, false⟩ ∧ e.length = 2 ^ Ke ∧
      (listPoly e).natDegree ≤ 2 ^ K - 1 ∧
      ∀ i < 2 ^ K, (listPoly e).eval (g ^ rev K i) = v.getD i 0 := by
  have hlt := h.lt
  obtain ⟨w, w1, w2, w3, w4⟩ := h.ecd.encodeTo_spec pOut v (by omega) (by omega)
  refine ⟨w, w1, by omega, listPoly_natDegree_of_zero w _ (Nat.two_pow_pos K) w3, ?_⟩
  intro i hi
  rw [listPoly_eval_of_zero w _ (by omega) w3, w4 i hi]

theorem GoodCp.encode (h : GoodCp K Ke g ge cp) (v : List (ZMod p)) (hv : v.length = 2 ^ K) :
    ∃ e, cp.ecd.encode v = .ok ⟨e, false⟩ ∧ e.length = 2 ^ Ke ∧
      (listPoly e).natDegree ≤ 2 ^ K - 1 ∧
      ∀ i < 2 ^ K, (listPoly e).eval (g ^ rev K i) = v.getD i 0 := by
  unfold BEncoder.encode
  exact h.encodeTo _ v (by simp [newPoly, h.embed]) hv

theorem GoodCp.domain (h : GoodCp K Ke g ge cp) (j : Nat) :
    (X ^ 2 ^ K - 1 : (ZMod p)[X]).eval (g ^ j) = 0 := by
  rw [eval_sub, eval_pow, eval_X, eval_one, ← pow_mul, mul_comm, pow_mul, h.ecd.prim.pow_eq_one,
    one_pow, sub_self]

theorem GoodCp.randEncode (h : GoodCp K Ke g ge cp) (v : List (ZMod p)) (r : ZMod p)
    (hv : v.length = 2 ^ K) :
    ∃ w, cp.ecd.randEncode v r = .ok ⟨w, false⟩ ∧ w.length = 2 ^ Ke ∧
      (listPoly w).natDegree ≤ 2 ^ K ∧
      ∀ i < 2 ^ K, (listPoly w).eval (g ^ rev K i) = v.getD i 0 := by
  have hlt := h.lt
  have ho : (newPoly cp.ecd.embedRank false : Poly (ZMod p)).coeffs.length = 2 ^ Ke := by
    simp [newPoly, h.embed]
  obtain ⟨w, e, w1, e1, w2, e2, w3⟩ := h.ecd.randEncodeTo_spec
    (newPoly cp.ecd.embedRank false) v r (by omega) (by omega)
  obtain ⟨e', e1', -, e3, e4⟩ := h.encodeTo _ v ho hv
  rw [e1] at e1'; cases e1'
  refine ⟨w, w1, by omega, ?_, ?_⟩
  · rw [w3]
    refine (natDegree_add_le _ _).trans (max_le (by omega) ?_)
    refine natDegree_mul_le.trans ?_
    have : (X ^ 2 ^ K - 1 : (ZMod p)[X]).natDegree = 2 ^ K :=
      natDegree_eq_of_degree_eq_some (X_pow_sub_one_degree _ (Nat.two_pow_pos K))
    rw [this, natDegree_C, zero_add]
  · intro i hi
    rw [w3, eval_add, eval_mul, h.domain, mul_zero, add_zero, e4 i hi]

/-- Transforming a polynomial given by its coefficients. -/
theorem GoodCp.toNTT (h : GoodCp K Ke g ge cp) (w : List (ZMod p)) (hw : w.length = 2 ^ Ke) :
    ∃ q, cp.ev.toNTT ⟨w, false⟩ = .ok q ∧ q.isNTT = true ∧
      StandsFor (2 ^ Ke) (X ^ 2 ^ Ke - 1) (fun i => ge ^ rev Ke i) q (listPoly w) := by
  unfold Evaluator.toNTT
  exact nttTo_sf h.ev (by simp [newPoly, h.ev.rank]) (sf_coeffs _ _ w hw) rfl

/-- Points of the domain determine divisibility by `X^N - 1`. -/
theorem GoodCp.pts (h : GoodCp K Ke g ge cp) :
    Pts (2 ^ K) (X ^ 2 ^ K - 1) (fun i => g ^ rev K i) where
  inj := by
    intro i hi j hj hij
    simp only [coe_range, Set.mem_Iio] at hi hj
    exact rev_inj hi hj (h.ecd.prim.pow_inj (rev_lt K i) (rev_lt K j) hij)
  root := fun i _ => h.domain _
  monic := X_pow_sub_one_monic _ (Nat.two_pow_pos K).ne'
  deg := X_pow_sub_one_degree _ (Nat.two_pow_pos K)

/-! ## Encoded tables -/

/-- What the prover does with the secret slots (prover.go:149-151, 197-199): slot `i` is encoded
with randomness `enc i` to the coefficients `wps[i]`, and `wNTT[i]` is its transform. -/
def EncodedWit (cp : Compilation (ZMod p)) (sw : List (List (ZMod p))) (enc : Nat → ZMod p)
    (wps : List (List (ZMod p))) (wNTT : List (Option (Poly (ZMod p)))) : Prop :=
  wps.length = sw.length ∧ wNTT.length = sw.length ∧
  ∀ (i : Nat) (v : List (ZMod p)), sw[i]? = some v → ∃ e q,
    cp.ecd.randEncode v (enc i) = .ok e ∧ cp.ev.toNTT e = .ok q ∧
      wps[i]? = some e.coeffs ∧ wNTT[i]? = some (some q)

theorem encodedWit_exists (h : GoodCp K Ke g ge cp) (sw : List (List (ZMod p))) (enc : Nat → ZMod p)
    (hsw : ∀ v ∈ sw, v.length = 2 ^ K) : ∃ wps wNTT, EncodedWit cp sw enc wps wNTT := by
  have hall : ∀ i : Fin sw.length, ∃ e q, cp.ecd.randEncode sw[i] (enc i) = .ok e ∧
      cp.ev.toNTT e = .ok q := by
    intro i
    obtain ⟨w, w1, w2, -⟩ := h.randEncode sw[i] (enc i) (hsw _ (List.getElem_mem _))
    obtain ⟨q, q1, -⟩ := h.toNTT w w2
    exact ⟨_, q, w1, q1⟩
  choose e q he hq using hall
  refine ⟨List.ofFn (fun i => (e i).coeffs), List.ofFn (fun i => some (q i)), by simp, by simp, ?_⟩
  intro i v hv
  obtain ⟨hi, rfl⟩ := List.getElem?_eq_some_iff.mp hv
  exact ⟨e ⟨i, hi⟩, q ⟨i, hi⟩, he ⟨i, hi⟩, hq ⟨i, hi⟩, by simp [hi], by simp [hi]⟩

/-- The polynomial committed for witness `i`. -/
noncomputable def witPoly (wps : List (List (ZMod p))) (i : Nat) : (ZMod p)[X] := listPoly (wps.getD i [])

theorem encodePub_spec (h : GoodCp K Ke g ge cp) (pw : List (List (ZMod p)))
    (hpw : ∀ v ∈ pw, v.length = 2 ^ K) :
    ∃ (pps : List (List (ZMod p))) (pwNTT : List (Poly (ZMod p))), pw.mapM (fun v => cp.ecd.encode v) = .ok (pps.map (fun e => ⟨e, false⟩)) ∧
      encodePub cp pw = .ok pwNTT ∧ pps.length = pw.length ∧ pwNTT.length = pw.length ∧
      ∀ i < pw.length, (pps.getD i []).length = 2 ^ Ke ∧
        (listPoly (pps.getD i [])).natDegree ≤ 2 ^ K - 1 ∧
        (∀ j < 2 ^ K, (listPoly (pps.getD i [])).eval (g ^ rev K j) = (pw.getD i []).getD j 0) ∧
        ∃ q, idx pwNTT i = .ok q ∧ q.isNTT = true ∧
          StandsFor (2 ^ Ke) (X ^ 2 ^ Ke - 1) (fun i => ge ^ rev Ke i) q (listPoly (pps.getD i [])) := by
  induction pw with
  | nil => exact ⟨[], [], rfl, rfl, rfl, rfl, by simp⟩
  | cons v pw ih =>
    obtain ⟨pps, pwNTT, i1, i2, i3, i4, i5⟩ := ih (fun u hu => hpw u (by simp [hu]))
    obtain ⟨e, e1, e2, e3, e4⟩ := h.encode v (hpw v (by simp))
    obtain ⟨q, q1, q2, q3⟩ := h.toNTT e e2
    refine ⟨e :: pps, q :: pwNTT, ?_, ?_, by simp [i3], by simp [i4], ?_⟩
    · rw [List.mapM_cons, e1, go_bind_ok, i1]; rfl
    · unfold encodePub at i2 ⊢
      rw [List.mapM_cons, e1, go_bind_ok, q1, go_bind_ok, i2]; rfl
    · intro i hi
      cases i with
      | zero => exact ⟨by simpa using e2, by simpa using e3, by simpa using e4, q, by simp [idx], q2,
          by simpa using q3⟩
      | succ i =>
        have := i5 i (by simpa using hi)
        simpa [idx] using this

/-- The tables the prover works with. -/
theorem tables_spec (h : GoodCp K Ke g ge cp) {pw sw wps : List (List (ZMod p))}
    {enc : Nat → ZMod p} {wNTT : List (Option (Poly (ZMod p)))}
    (hpw : ∀ v ∈ pw, v.length = 2 ^ K) (hsw : ∀ v ∈ sw, v.length = 2 ^ K)
    (henc : EncodedWit cp sw enc wps wNTT) :
    ∃ (pps : List (List (ZMod p))) (pwNTT : List (Poly (ZMod p))), pw.mapM (fun v => cp.ecd.encode v) = .ok (pps.map (fun e => ⟨e, false⟩)) ∧
      encodePub cp pw = .ok pwNTT ∧ pps.length = pw.length ∧
      NttTables Ke (X ^ 2 ^ Ke - 1) (fun i => ge ^ rev Ke i) pw.length sw.length pwNTT wNTT
        (witPoly pps) (witPoly wps) ∧
      (∀ i < pw.length, (witPoly pps i).natDegree ≤ 2 ^ K - 1 ∧
        ∀ j < 2 ^ K, (witPoly pps i).eval (g ^ rev K j) = (pw.getD i []).getD j 0) ∧
      (∀ i < sw.length, (witPoly wps i).natDegree ≤ 2 ^ K ∧
        ∀ j < 2 ^ K, (witPoly wps i).eval (g ^ rev K j) = (sw.getD i []).getD j 0) := by
  obtain ⟨pps, pwNTT, p1, p2, p3, p4, p5⟩ := encodePub_spec h pw hpw
  have hw : ∀ i < sw.length, ((witPoly wps i).natDegree ≤ 2 ^ K ∧
        ∀ j < 2 ^ K, (witPoly wps i).eval (g ^ rev K j) = (sw.getD i []).getD j 0) ∧
        ∃ q, slot wNTT i = .ok q ∧ q.isNTT = true ∧
          StandsFor (2 ^ Ke) (X ^ 2 ^ Ke - 1) (fun i => ge ^ rev Ke i) q (witPoly wps i) := by
    intro i hi
    obtain ⟨e, q, e1, q1, h3, h4⟩ := henc.2.2 i sw[i] (by simp [hi])
    obtain ⟨w, w1, w2, w3, w4⟩ := h.randEncode sw[i] (enc i) (hsw _ (List.getElem_mem _))
    rw [e1] at w1; cases w1
    obtain ⟨q', q1', q2, q3⟩ := h.toNTT w w2
    rw [q1] at q1'; cases q1'
    have hwp : witPoly wps i = listPoly w := by
      unfold witPoly; rw [List.getD_eq_getElem?_getD, h3]; rfl
    refine ⟨⟨by rw [hwp]; exact w3, ?_⟩, q, ?_, q2, by rw [hwp]; exact q3⟩
    · intro j hj
      rw [hwp, w4 j hj]; simp [hi]
    · unfold slot idx; rw [h4]; rfl
  refine ⟨pps, pwNTT, p1, p2, p3, ⟨?_, fun i hi => (hw i hi).2⟩, ?_, fun i hi => (hw i hi).1⟩
  · intro i hi; exact (p5 i hi).2.2.2
  · intro i hi; exact ⟨(p5 i hi).2.1, (p5 i hi).2.2.1⟩

/-! ## The arithmetic check of the prover -/

theorem listPoly_take {F : Type} [Field F] (l : List F) (m : Nat)
    (h : (listPoly l).degree < (m : WithBot ℕ)) : listPoly (l.take m) = listPoly l := by
  ext n
  rw [listPoly_coeff, listPoly_coeff, List.getD_eq_getElem?_getD, List.getElem?_take]
  split
  · rw [List.getD_eq_getElem?_getD]
  · have := coeff_eq_zero_of_degree_lt (lt_of_lt_of_le h
      (show (m : WithBot ℕ) ≤ (n : WithBot ℕ) by exact_mod_cast (by omega : m ≤ n)))
    rw [listPoly_coeff] at this
    rw [this]; rfl

theorem divByMonic_degree (f : (ZMod p)[X]) (N m : Nat) (hN : 0 < N) (hm : N ≤ m)
    (hf : f.degree < (m : WithBot ℕ)) :
    (f /ₘ (X ^ N - 1)).degree < ((m - N : Nat) : WithBot ℕ) := by
  by_cases h0 : f /ₘ (X ^ N - 1) = 0
  · rw [h0, degree_zero]; exact WithBot.bot_lt_coe _
  · rw [degree_eq_natDegree h0, natDegree_divByMonic f (X_pow_sub_one_monic N hN.ne')]
    have hd : (X ^ N - 1 : (ZMod p)[X]).natDegree = N :=
      natDegree_eq_of_degree_eq_some (X_pow_sub_one_degree _ hN)
    have hge : ¬ f.degree < (X ^ N - 1 : (ZMod p)[X]).degree := fun hlt =>
      h0 ((divByMonic_eq_zero_iff (X_pow_sub_one_monic N hN.ne')).2 hlt)
    rw [X_pow_sub_one_degree _ hN, not_lt] at hge
    have hf0 : f ≠ 0 := by rintro rfl; exact h0 (zero_divByMonic _)
    rw [degree_eq_natDegree hf0] at hf hge
    have h1 : f.natDegree < m := by exact_mod_cast hf
    have h2 : N ≤ f.natDegree := by exact_mod_cast hge
    rw [hd]
    exact_mod_cast (by omega : f.natDegree - N < m - N)

theorem GoodCp.quoRem (h : GoodCp K Ke g ge cp) (v : List (ZMod p)) (hv : v.length = 2 ^ Ke) :
    ∃ quo rem, cp.ev.quoRemByVanishing ⟨v, false⟩ (2 ^ K) = .ok (⟨quo, false⟩, ⟨rem, false⟩) ∧
      quo.length = 2 ^ Ke ∧ rem.length = 2 ^ Ke ∧
      listPoly quo = listPoly v /ₘ (X ^ 2 ^ K - 1) ∧
      listPoly rem = listPoly v %ₘ (X ^ 2 ^ K - 1) := by
  have h8 : cp.ev.rank % 8 = 0 := by
    rw [h.ev.rank]
    have := h.ev.hK
    have e : 2 ^ Ke = 8 * 2 ^ (Ke - 3) := by
      rw [show (8 : Nat) = 2 ^ 3 by norm_num, ← pow_add]; congr 1; omega
    rw [e]; exact Nat.mul_mod_right _ _
  obtain ⟨quo, rem, h1, h2, h3, h4, h5, -⟩ := C19_quoRem cp.ev h8 (2 ^ K) (Nat.one_le_two_pow) v
    (by rw [h.ev.rank, hv])
  rw [h.ev.rank] at h2 h3
  exact ⟨quo, rem, h1, h2, h3, h4, h5⟩

theorem sliceTo_ok {α : Type} (l : List α) (a b : Nat) (h1 : b ≤ a) (h2 : a - b ≤ l.length) :
    sliceTo l a b = .ok (l.take (a - b)) := by
  unfold sliceTo
  rw [if_neg (by omega), if_neg (by omega)]; rfl

theorem arithCheckP_spec (h : GoodCp K Ke g ge cp) {pwCnt wCnt : Nat}
    {pwNTT : List (Poly (ZMod p))} {wNTT : List (Option (Poly (ZMod p)))}
    {pubP witP : Nat → (ZMod p)[X]}
    (ht : NttTables Ke (X ^ 2 ^ Ke - 1) (fun i => ge ^ rev Ke i) pwCnt wCnt pwNTT wNTT pubP witP)
    (hr : ∀ c ∈ cp.ctx.arith, c.Refs pwCnt wCnt)
    (hp : ∀ i < pwCnt, (pubP i).natDegree ≤ 2 ^ K - 1) (hw : ∀ i < wCnt, (witP i).natDegree ≤ 2 ^ K)
    (hle : 2 ^ K ≤ cp.ctx.arithCheckMaxRank) (b : ZMod p) :
    ∃ quo, arithCheckP cp b pwNTT wNTT = .ok quo ∧
      quo.length = cp.ctx.arithCheckMaxRank - 2 ^ K ∧
      listPoly quo = circuitPoly b cp.ctx.arith pubP witP /ₘ (X ^ 2 ^ K - 1) := by
  obtain ⟨q, q1, q2, q3⟩ := evalCircuit_spec h.ev ht b cp.ctx.arith hr
  obtain ⟨⟨v, n⟩, v1, v2, v3⟩ := invNTTTo_sf h.ev q3.1 q3 q2
  simp only at v2; subst v2
  have hdeg := circuitPoly_degree (2 ^ K) cp.ctx.arithCheckMaxRank b cp.ctx.arith pubP witP pwCnt wCnt
    hr hp hw h.arithMax
  have hex := sf_exact h.ev v3 rfl (lt_of_lt_of_le hdeg (by exact_mod_cast h.arithLe))
  simp only at hex
  obtain ⟨quo, rem, r1, r2, r3, r4, r5⟩ := h.quoRem v v3.1
  have hal : cp.ctx.arithCheckMaxRank - 2 ^ K ≤ quo.length := by
    rw [r2]; exact le_trans (Nat.sub_le _ _) h.arithLe
  refine ⟨quo.take (cp.ctx.arithCheckMaxRank - 2 ^ K), ?_, ?_, ?_⟩
  · unfold arithCheckP
    rw [q1, go_bind_ok, v1, go_bind_ok, h.rank, r1, go_bind_ok]
    exact sliceTo_ok _ _ _ hle hal
  · rw [List.length_take]; exact Nat.min_eq_left hal
  · rw [listPoly_take, r4, hex]
    rw [r4, hex]
    exact divByMonic_degree _ _ _ (Nat.two_pow_pos K) hle hdeg

end

end Ringo
