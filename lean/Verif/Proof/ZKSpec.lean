import Verif.Proof.ZKPlan

/-!
# What the committed polynomials are
-/

namespace Ringo

open Finset Polynomial

set_option linter.unusedSectionVars false

section
variable {p : Nat} [Fact p.Prime] {E : Env (ZMod p)} {cp : Compilation (ZMod p)}
variable {K Ke : Nat} {g ge : ZMod p}

/-- A blinded encoding. -/
noncomputable def blindP (K : Nat) (cp : Compilation (ZMod p)) (sw2 : List (List (ZMod p)))
    (enc : Nat → ZMod p) (i : Nat) : (ZMod p)[X] :=
  match sw2[i]? with
  | some v => encP cp v + C (enc i) * (X ^ 2 ^ K - 1)
  | none => 0

/-- The combination of the linear check. -/
noncomputable def linG (K : Nat) (E : Env (ZMod p)) (cp : Compilation (ZMod p)) (ch : Challenges)
    (w : Nat → (ZMod p)[X]) : (ZMod p)[X] :=
  C (E.setBytes ch.lb) * horner (C (E.setBytes ch.lb)) (linTerms cp E.users
    (projMatrix E.xof ch.proj (2 ^ K)) w ((List.range (2 ^ K)).map (fun i => E.setBytes ch.lc ^ i))
    cp.ctx.lin) 0

/-- The combination of the sumcheck. -/
noncomputable def sumG (E : Env (ZMod p)) (cp : Compilation (ZMod p)) (ch : Challenges)
    (pub w : Nat → (ZMod p)[X]) : (ZMod p)[X] :=
  C (E.setBytes ch.sb) * circuitPoly (E.setBytes ch.sb) cp.ctx.sums pub w

/-- One masked check: mask, quotient, low and shifted remainder of `G + mask`. -/
structure MaskedSpec (N jrank maskRank : Nat) (r : Nat → ZMod p) (G : (ZMod p)[X])
    (mask quo lo hi : List (ZMod p)) : Prop where
  lMask : mask.length = maskRank
  lQuo : quo.length = maskRank - N
  lLo : lo.length = N - 1
  lHi : hi.length = jrank
  pMask : listPoly mask = maskPoly N maskRank r
  pQuo : listPoly quo = quoV N (G + maskPoly N maskRank r)
  pLo : listPoly lo = remV N (G + maskPoly N maskRank r)
  pHi : listPoly hi = X ^ (jrank - (N - 1)) * listPoly lo
  eq : ∀ x, G.eval x + (listPoly mask).eval x =
    (listPoly quo).eval x * (x ^ N - 1) + (listPoly lo).eval x * x + r 0

structure PlanSpec (K : Nat) (E : Env (ZMod p)) (cp : Compilation (ZMod p)) (ch : Challenges)
    (pps sw2 : List (List (ZMod p))) (enc lin sum : Nat → ZMod p) (P : Nat → List (ZMod p)) : Prop where
  wit : ∀ i < cp.ctx.wCnt, (P i).length = 2 ^ K + 1 ∧ listPoly (P i) = blindP K cp sw2 enc i
  lin : cp.ctx.lin.length > 0 → MaskedSpec (2 ^ K) E.pcs.rank (2 * 2 ^ K) lin
    (linG K E cp ch (blindP K cp sw2 enc)) (P cp.ctx.wCnt) (P (linAt cp.ctx)) (P (linAt cp.ctx + 1))
    (P (linAt cp.ctx + 2))
  sum : cp.ctx.sums.length > 0 → MaskedSpec (2 ^ K) E.pcs.rank cp.ctx.sumCheckMaxRank sum
    (sumG E cp ch (witPoly pps) (blindP K cp sw2 enc)) (P (sumMaskAt cp.ctx)) (P (sumAt cp.ctx))
    (P (sumAt cp.ctx + 1)) (P (sumAt cp.ctx + 2))
  arith : cp.ctx.arith.length > 0 → (P (nextOf cp.ctx)).length = cp.ctx.arithCheckMaxRank - 2 ^ K ∧
    ∀ x, (circuitPoly (E.setBytes ch.ab) cp.ctx.arith (witPoly pps) (blindP K cp sw2 enc)).eval x =
      (listPoly (P (nextOf cp.ctx))).eval x * (x ^ 2 ^ K - 1)

theorem GoodCp.randEncode_blind (h : GoodCp K Ke g ge cp) (v : List (ZMod p)) (r : ZMod p)
    (hv : v.length = 2 ^ K) {e : Poly (ZMod p)} (he : cp.ecd.randEncode v r = .ok e) :
    e.coeffs.length = 2 ^ Ke ∧ listPoly e.coeffs = encP cp v + C r * (X ^ 2 ^ K - 1) := by
  have hlt := h.lt
  have ho : (newPoly cp.ecd.embedRank false : Poly (ZMod p)).coeffs.length = 2 ^ Ke := by
    simp [newPoly, h.embed]
  obtain ⟨w, e', w1, e1, w2, e2, w3⟩ := h.ecd.randEncodeTo_spec
    (newPoly cp.ecd.embedRank false) v r (by omega) (by omega)
  obtain ⟨e'', e1', -, e3⟩ := h.encodeTo_encP _ v ho hv
  rw [e1] at e1'; cases e1'
  unfold BEncoder.randEncode at he
  rw [w1] at he
  cases he
  exact ⟨by simp only; omega, by rw [w3, e3]⟩

theorem EncodedWit.blind (h : GoodCp K Ke g ge cp) {sw2 wps : List (List (ZMod p))}
    {enc : Nat → ZMod p} {wNTT : List (Option (Poly (ZMod p)))} (he : EncodedWit cp sw2 enc wps wNTT)
    (hs : ∀ v ∈ sw2, v.length = 2 ^ K) : witPoly wps = blindP K cp sw2 enc := by
  funext i
  unfold witPoly blindP
  cases hi : sw2[i]? with
  | none =>
    rw [List.getElem?_eq_none_iff] at hi
    rw [List.getD_eq_getElem?_getD, List.getElem?_eq_none (by rw [he.1]; exact hi)]
    simp [listPoly]
  | some v =>
    obtain ⟨e, q, e1, -, e3, -⟩ := he.2.2 i v hi
    rw [List.getD_eq_getElem?_getD, e3]
    exact (h.randEncode_blind v _ (hs v (List.mem_of_getElem? hi)) e1).2

/-- A masked check of the prover. -/
theorem masked_spec {jrank maskRank : Nat}
    (h2 : maskRank ≤ 2 ^ Ke) (r : Nat → ZMod p) {G : (ZMod p)[X]} {mask : List (ZMod p)}
    (m2 : mask.length = 2 ^ Ke) (m3 : ∀ i, maskRank ≤ i → mask.getD i 0 = 0)
    (m4 : listPoly mask = maskPoly (2 ^ K) maskRank r) {quo lo hi : List (ZMod p)} {f : (ZMod p)[X]}
    (lq : quo.length = maskRank - 2 ^ K) (ll : lo.length = 2 ^ K - 1) (lh : hi.length = jrank)
    (f1 : f = G + listPoly mask)
    (f2 : f = listPoly quo * (X ^ 2 ^ K - 1) + X * listPoly lo + C ((f %ₘ (X ^ 2 ^ K - 1)).coeff 0))
    (f3 : listPoly hi = X ^ (jrank - (2 ^ K - 1)) * listPoly lo)
    (heq : ∀ x, G.eval x + (listPoly mask).eval x =
      (listPoly quo).eval x * (x ^ 2 ^ K - 1) + (listPoly lo).eval x * x + r 0) :
    MaskedSpec (2 ^ K) jrank maskRank r G (mask.take maskRank) quo lo hi := by
  have hm : listPoly (mask.take maskRank) = listPoly mask :=
    listPoly_take mask _ (listPoly_degree_of_zero mask _ m3)
  obtain ⟨q1, q2⟩ := quoRem_of_split (Nat.two_pow_pos K) (by rw [← ll]; exact listPoly_degree lo) f2
  refine ⟨by rw [List.length_take, m2]; exact Nat.min_eq_left h2, lq, ll, lh, by rw [hm, m4],
    by rw [q1, f1, m4], by rw [q2, f1, m4], f3, ?_⟩
  intro x
  rw [hm]; exact heq x

/-- The plan of an honest prover exists for all challenges, and its polynomials are known. -/
theorem plan_exists (h : GoodCp K Ke g ge cp) (hf : Fits K cp.ctx E.pcs.rank)
    {pw0 w0 : Nat} (hr : CtxRefs pw0 w0 cp.ctx) {ord : Orders} (ch : Challenges)
    {pw sw : List (List (ZMod p))} (hh : Honest K E cp ord pw sw)
    {pps : List (List (ZMod p))} (hpps : pw.mapM (fun v => cp.ecd.encode v) =
      .ok (pps.map (fun e => ⟨e, false⟩)))
    {pwNTT : List (Poly (ZMod p))} (hpw : encodePub cp pw = .ok pwNTT)
    {sw2 : List (List (ZMod p))}
    (hfill : projStep cp ord (projMatrix E.xof ch.proj (2 ^ K)) sw = .ok sw2)
    (enc lin sum : Nat → ZMod p) :
    sw2.length = cp.ctx.wCnt ∧ ∃ wNTT P, Plan E cp ord ch pwNTT sw enc lin sum sw2 wNTT P ∧
      PlanSpec K E cp ch pps sw2 enc lin sum P := by
  obtain ⟨sw2', a1, a2, a3, a4, a5, a6, a7⟩ := hh.fill _ (projMatrix_good E.xof ch.proj (2 ^ K))
  rw [hfill] at a1; cases a1
  obtain ⟨wps, wNTT, henc⟩ := encodedWit_exists h sw2 enc a2.2
  have hrow : ∀ i, (if i ∈ cp.ctx.wSecond then sw2 else sw)[i]? = sw2[i]? := by
    intro i
    by_cases his : i ∈ cp.ctx.wSecond
    · rw [if_pos his]
    · rw [if_neg his]
      exact (getElem?_of_cell a2 hh.swS (fun j => a3 i his j)).symm
  obtain ⟨pps', pwNTT', p1, p2, p3, ht, p4, p5⟩ := tables_spec h hh.pwS.2 a2.2 henc
  rw [hpw] at p2; cases p2
  have hpe : pps' = pps := by
    rw [hpps] at p1
    have := Except.ok.inj p1
    have hinj : Function.Injective (fun e : List (ZMod p) => (⟨e, false⟩ : Poly (ZMod p))) := by
      intro a b hab; simpa using hab
    exact (List.map_injective_iff.2 hinj this).symm
  subst hpe
  have hbl := henc.blind h a2.2
  have hwl := henc.1
  refine ⟨a2.1, ?_⟩
  have hK8 : 2 ^ 3 ≤ 2 ^ K := Nat.pow_le_pow_right (by norm_num) h.hK
  have hltKe := h.lt
  -- evaluations
  have hEO : ∀ x, EvalsOf wps x (wps.map (fun v => evalAt v.length v x)) := by
    intro x i v hv
    rw [List.getElem?_map, hv]; rfl
  -- the witnesses
  have hwit : ∀ i < cp.ctx.wCnt, ∃ w ecd q,
      WitOf cp enc (if i ∈ cp.ctx.wSecond then sw2 else sw) i w ecd q ∧ wNTT[i]? = some (some q) ∧
      ∃ poly, sliceTo ecd.coeffs (cp.ctx.rank + 1) 0 = .ok poly ∧ poly.length = 2 ^ K + 1 ∧
        listPoly poly = blindP K cp sw2 enc i := by
    intro i hi
    have hi2 : i < sw2.length := by rw [a2.1]; exact hi
    have hsw2 : sw2[i]? = some sw2[i] := List.getElem?_eq_getElem hi2
    obtain ⟨e, q, e1, e2, e3, e4⟩ := henc.2.2 i _ hsw2
    obtain ⟨l1, l2⟩ := h.randEncode_blind _ _ (a2.2 _ (List.getElem_mem hi2)) e1
    have hd : (listPoly e.coeffs).degree < ((2 ^ K + 1 : Nat) : WithBot ℕ) := by
      have h1 := (p5 i hi2).1
      have h2 : witPoly wps i = listPoly e.coeffs := by
        unfold witPoly
        rw [List.getD_eq_getElem?_getD, e3]; rfl
      rw [h2] at h1
      refine lt_of_le_of_lt degree_le_natDegree ?_
      exact_mod_cast (by omega : (listPoly e.coeffs).natDegree < 2 ^ K + 1)
    refine ⟨_, e, q, ⟨by rw [hrow]; exact hsw2, e1, e2⟩, e4, e.coeffs.take (2 ^ K + 1), ?_, ?_, ?_⟩
    · rw [h.rank, sliceTo_ok _ _ _ (by omega) (by omega), Nat.sub_zero]
    · rw [List.length_take]; exact Nat.min_eq_left (by omega)
    · rw [listPoly_take _ _ hd, l2]
      unfold blindP
      rw [hsw2]
  -- the linear check
  have hlin : ∃ m : Poly (ZMod p) × ZMod p, ∃ mk quo lo hi, cp.ctx.lin.length > 0 →
      sumCheckMask cp.ev cp.ctx.rank (2 * cp.ctx.rank) lin = .ok m ∧
      sliceTo m.1.coeffs (2 * cp.ctx.rank) 0 = .ok mk ∧
      linCheckP cp E.users (projMatrix E.xof ch.proj cp.ctx.rank) E.pcs.rank (E.setBytes ch.lb)
        (E.setBytes ch.lc) m.1 wNTT = .ok (quo, lo, hi) ∧
      MaskedSpec (2 ^ K) E.pcs.rank (2 * 2 ^ K) lin (linG K E cp ch (blindP K cp sw2 enc)) mk quo lo hi := by
    by_cases hn : cp.ctx.lin.length > 0
    · have f1 := hf.lin (length_pos_ne.1 hn)
      obtain ⟨mask, m1, m2, m3, m4⟩ := h.sumCheckMask_poly (2 * 2 ^ K) (by omega) h.lin_emb lin
      obtain ⟨mask', m1', -, -, m4'⟩ := h.sumCheckMask (2 * 2 ^ K) (by omega) h.lin_emb lin
      rw [m1] at m1'; cases m1'
      have hle := h.lin_emb
      obtain ⟨quo, lo, hi, e1, e2, e3, e4, f, f1', f2, f3⟩ := linCheckP_spec h ht
        (fun i hi => (p5 i hi).1) a7 (by rw [a2.1]; exact hr.lin) (jrank := E.pcs.rank) (by omega)
        (E.setBytes ch.lb) (E.setBytes ch.lc) mask m2 (listPoly_degree_of_zero mask _ m3)
      obtain ⟨quo', lo', hi', e1', -, -, -, e5⟩ := linComplete h hwl ht p5 a2.2 a7
        (by rw [a2.1]; exact hr.lin) a6 (jrank := E.pcs.rank) (by omega) (E.setBytes ch.lb)
        (E.setBytes ch.lc) mask m2 (listPoly_degree_of_zero mask _ m3) (lin 0) m4'
      rw [e1] at e1'; cases e1'
      refine ⟨(⟨mask, false⟩, lin 0), mask.take (2 * 2 ^ K), quo, lo, hi, fun _ => ⟨?_, ?_, ?_, ?_⟩⟩
      · rw [h.rank]; exact m1
      · rw [h.rank, sliceTo_ok _ _ _ (by omega) (by simp only; omega), Nat.sub_zero]
      · rw [h.rank]; exact e1
      · rw [hbl] at f1'
        refine masked_spec hle lin m2 m3 m4 (by omega) e3 e4 f1' f2 f3 ?_
        intro x
        have hv := e5 x _ (hEO x)
        rw [linCheckV_spec h (by omega) a7 _ (by
          intro e he y hy
          rw [List.length_map, hwl, a2.1]
          exact hr.lin e he y hy)] at hv
        have hv := of_decide_eq_true (Except.ok.inj hv)
        rw [linVals_eval cp E.users _ wps _ _ x (hEO x) _ (by
          rw [hwl, a2.1]; exact hr.lin), expU64_eq, h.rank] at hv
        unfold linG
        rw [eval_mul, eval_C, horner_eval, eval_zero, ← hbl]
        exact hv.2
    · exact ⟨(⟨[], false⟩, 0), [], [], [], [], fun hc => absurd hc hn⟩
  have hsum : ∃ m : Poly (ZMod p) × ZMod p, ∃ mk quo lo hi, cp.ctx.sums.length > 0 →
      sumCheckMask cp.ev cp.ctx.rank cp.ctx.sumCheckMaxRank sum = .ok m ∧
      sliceTo m.1.coeffs cp.ctx.sumCheckMaxRank 0 = .ok mk ∧
      sumCheckP cp E.pcs.rank (E.setBytes ch.sb) m.1 pwNTT wNTT = .ok (quo, lo, hi) ∧
      MaskedSpec (2 ^ K) E.pcs.rank cp.ctx.sumCheckMaxRank sum
        (sumG E cp ch (witPoly pps') (blindP K cp sw2 enc)) mk quo lo hi := by
    by_cases hn : cp.ctx.sums.length > 0
    · obtain ⟨f1, f2⟩ := hf.sum (length_pos_ne.1 hn)
      obtain ⟨mask, m1, m2, m3, m4⟩ := h.sumCheckMask_poly cp.ctx.sumCheckMaxRank f1.le h.sumLe sum
      obtain ⟨mask', m1', -, -, m4'⟩ := h.sumCheckMask cp.ctx.sumCheckMaxRank f1.le h.sumLe sum
      rw [m1] at m1'; cases m1'
      have hle := h.sumLe
      have hrs : ∀ c ∈ cp.ctx.sums, c.Refs pw.length sw2.length := by
        rw [hh.pwS.1, a2.1]; exact hr.sums
      obtain ⟨quo, lo, hi, e1, e2, e3, e4, f, f1', f2', f3⟩ := sumCheckP_spec h ht hrs
        (fun i hi => (p4 i hi).1) (fun i hi => (p5 i hi).1) f1.le (jrank := E.pcs.rank) (by omega)
        (E.setBytes ch.sb) mask m2 (listPoly_degree_of_zero mask _ m3)
      obtain ⟨quo', lo', hi', e1', -, -, -, e5⟩ := sumCheck_run h hwl p3 ht p4 p5 hrs f1.le
        (jrank := E.pcs.rank) (by omega) (E.setBytes ch.sb) mask m2
        (listPoly_degree_of_zero mask _ m3) (sum 0) m4'
      rw [e1] at e1'; cases e1'
      refine ⟨(⟨mask, false⟩, sum 0), mask.take cp.ctx.sumCheckMaxRank, quo, lo, hi,
        fun _ => ⟨?_, ?_, e1, ?_⟩⟩
      · rw [h.rank]; exact m1
      · rw [sliceTo_ok _ _ _ (by omega) (by simp only; omega), Nat.sub_zero]
      · rw [hbl] at f1'
        refine masked_spec hle sum m2 m3 m4 e2 e3 e4 f1' f2' f3 ?_
        intro x
        have h0 : ∑ i ∈ range (2 ^ K), (cp.ctx.sums.map (fun c => c.onRow pw sw2 i)).sum = 0 := by
          rw [sum_map_sum]
          have : cp.ctx.sums.map (fun c => ∑ i ∈ range (2 ^ K), c.onRow pw sw2 i) =
              cp.ctx.sums.map (fun _ => (0 : ZMod p)) := List.map_congr_left (fun c hc => a5 c hc)
          rw [this]; simp
        have hv := e5 x _ (hEO x)
        rw [h0, sumCheckV_spec cp.ctx (by rw [h.rank]; omega) _ _ pw.length sw2.length hrs
          (by simp [p3]) (by simp [hwl])] at hv
        simp only [mul_zero, decide_true] at hv
        have hv := of_decide_eq_true (Except.ok.inj hv)
        have hval : (cp.ctx.sums.map (fun c => c.value ((pps'.map (fun e => evalAt e.length e x)).getD · 0)
            ((wps.map (fun v => evalAt v.length v x)).getD · 0))) =
            cp.ctx.sums.map (fun c => c.value (fun a => (witPoly pps' a).eval x)
            (fun a => (witPoly wps a).eval x)) := by
          apply List.map_congr_left
          intro c hcm
          refine Constraint.value_congr c _ _ _ _ _ _ (hrs c hcm) (fun a ha => ?_) (fun a ha => ?_)
          · unfold witPoly
            rw [listPoly_eval]
            simp [p3, ha]
          · exact (hEO x).getD a (by rw [hwl]; exact ha)
        unfold sumG
        rw [eval_mul, eval_C, circuitPoly_eval, ← hbl, ← hval]
        rw [expU64_eq, h.rank] at hv
        exact hv.2
    · exact ⟨(⟨[], false⟩, 0), [], [], [], [], fun hc => absurd hc hn⟩
  have har : ∃ quo, cp.ctx.arith.length > 0 → arithCheckP cp (E.setBytes ch.ab) pwNTT wNTT = .ok quo ∧
      quo.length = cp.ctx.arithCheckMaxRank - 2 ^ K ∧
      ∀ x, (circuitPoly (E.setBytes ch.ab) cp.ctx.arith (witPoly pps') (blindP K cp sw2 enc)).eval x =
        (listPoly quo).eval x * (x ^ 2 ^ K - 1) := by
    by_cases hn : cp.ctx.arith.length > 0
    · obtain ⟨f1, f2⟩ := hf.arith (length_pos_ne.1 hn)
      have hra : ∀ c ∈ cp.ctx.arith, c.Refs pw.length sw2.length := by
        rw [hh.pwS.1, a2.1]; exact hr.arith
      obtain ⟨quo, q1, q2, q3⟩ := arithCheckP_spec h ht hra (fun i hi => (p4 i hi).1)
        (fun i hi => (p5 i hi).1) f1.le (E.setBytes ch.ab)
      refine ⟨quo, fun _ => ⟨q1, q2, ?_⟩⟩
      have hdvd : (X ^ 2 ^ K - 1) ∣ circuitPoly (E.setBytes ch.ab) cp.ctx.arith (witPoly pps')
          (witPoly wps) := by
        rw [h.pts.dvd_iff]
        intro i hi
        rw [circuitPoly_eval]
        have : (cp.ctx.arith.map (fun c => c.value (fun a => (witPoly pps' a).eval (g ^ rev K i))
            (fun a => (witPoly wps a).eval (g ^ rev K i)))) =
            cp.ctx.arith.map (fun c => c.onRow pw sw2 i) := by
          apply List.map_congr_left
          intro c hcm
          exact Constraint.value_congr c _ _ _ _ _ _ (hra c hcm) (fun a ha => (p4 a ha).2 i hi)
            (fun a ha => (p5 a ha).2 i hi)
        rw [this, a4 i hi, mul_zero]
      have hmul := modByMonic_add_div (circuitPoly (E.setBytes ch.ab) cp.ctx.arith (witPoly pps')
        (witPoly wps)) (X ^ 2 ^ K - 1)
      rw [(modByMonic_eq_zero_iff_dvd (X_pow_sub_one_monic _ (Nat.two_pow_pos K).ne')).2 hdvd,
        zero_add, ← q3] at hmul
      intro x
      rw [← hbl, ← hmul]
      simp [mul_comm]
    · exact ⟨[], fun hc => absurd hc hn⟩
  obtain ⟨ml, mkl, ql, ll, hl, HL⟩ := hlin
  obtain ⟨ms, mks, qs, ls, hs, HS⟩ := hsum
  obtain ⟨qa, HA⟩ := har
  have hwp : ∃ W : Nat → List (ZMod p), ∀ i < cp.ctx.wCnt, ∃ w ecd q,
      WitOf cp enc (if i ∈ cp.ctx.wSecond then sw2 else sw) i w ecd q ∧ wNTT[i]? = some (some q) ∧
      sliceTo ecd.coeffs (cp.ctx.rank + 1) 0 = .ok (W i) ∧ (W i).length = 2 ^ K + 1 ∧
        listPoly (W i) = blindP K cp sw2 enc i := by
    have : ∀ i, ∃ poly : List (ZMod p), i < cp.ctx.wCnt → ∃ w ecd q,
        WitOf cp enc (if i ∈ cp.ctx.wSecond then sw2 else sw) i w ecd q ∧ wNTT[i]? = some (some q) ∧
        sliceTo ecd.coeffs (cp.ctx.rank + 1) 0 = .ok poly ∧ poly.length = 2 ^ K + 1 ∧
        listPoly poly = blindP K cp sw2 enc i := by
      intro i
      by_cases hi : i < cp.ctx.wCnt
      · obtain ⟨w, ecd, q, b1, b2, poly, b3⟩ := hwit i hi
        exact ⟨poly, fun _ => ⟨w, ecd, q, b1, b2, b3⟩⟩
      · exact ⟨[], fun hc => absurd hc hi⟩
    choose W hW using this
    exact ⟨W, hW⟩
  obtain ⟨W, hW⟩ := hwp
  let ctx := cp.ctx
  let P : Nat → List (ZMod p) := fun i =>
    if i < ctx.wCnt then W i
    else if ctx.lin.length > 0 ∧ i = ctx.wCnt then mkl
    else if ctx.sums.length > 0 ∧ i = sumMaskAt ctx then mks
    else if ctx.arith.length > 0 ∧ i = nextOf ctx then qa
    else if ctx.lin.length > 0 ∧ i = linAt ctx then ql
    else if ctx.lin.length > 0 ∧ i = linAt ctx + 1 then ll
    else if ctx.lin.length > 0 ∧ i = linAt ctx + 2 then hl
    else if ctx.sums.length > 0 ∧ i = sumAt ctx then qs
    else if ctx.sums.length > 0 ∧ i = sumAt ctx + 1 then ls
    else hs
  have hPw : ∀ i < ctx.wCnt, P i = W i := fun i hi => if_pos hi
  have hPl : ctx.lin.length > 0 → P ctx.wCnt = mkl ∧ P (linAt ctx) = ql ∧ P (linAt ctx + 1) = ll ∧
      P (linAt ctx + 2) = hl := by
    intro hn
    simp only [P, sumAt, linAt, sumMaskAt, nextOf, hn, true_and, if_true]
    refine ⟨?_, ?_, ?_, ?_⟩
    · rw [if_neg (by omega)]
    · repeat' rw [if_neg (by split_ifs <;> omega)]
    · repeat' rw [if_neg (by split_ifs <;> omega)]
    · repeat' rw [if_neg (by split_ifs <;> omega)]
  have hPs : ctx.sums.length > 0 → P (sumMaskAt ctx) = mks ∧ P (sumAt ctx) = qs ∧
      P (sumAt ctx + 1) = ls ∧ P (sumAt ctx + 2) = hs := by
    intro hn
    simp only [P, sumAt, linAt, sumMaskAt, nextOf, hn, true_and, if_true]
    refine ⟨?_, ?_, ?_, ?_⟩
    · repeat' rw [if_neg (by split_ifs <;> omega)]
    · repeat' rw [if_neg (by split_ifs <;> omega)]
    · repeat' rw [if_neg (by split_ifs <;> omega)]
    · repeat' rw [if_neg (by split_ifs <;> omega)]
  have hPa : ctx.arith.length > 0 → P (nextOf ctx) = qa := by
    intro hn
    simp only [P, sumAt, linAt, sumMaskAt, nextOf, hn, true_and, if_true]
    repeat' rw [if_neg (by split_ifs <;> omega)]
  refine ⟨wNTT, P, ⟨by rw [h.rank]; exact hfill, by rw [henc.2.1, a2.1], ?_, ?_, ?_, ?_⟩, ?_, ?_, ?_, ?_⟩
  · intro i hi
    obtain ⟨w, ecd, q, b1, b2, b3, -⟩ := hW i hi
    exact ⟨w, ecd, q, b1, b2, by rw [hPw i hi]; exact b3⟩
  · intro hn
    obtain ⟨b1, b2, b3, -⟩ := HL hn
    obtain ⟨c1, c2, c3, c4⟩ := hPl hn
    exact ⟨ml, b1, by rw [c1]; exact b2, by rw [c2, c3, c4]; exact b3⟩
  · intro hn
    obtain ⟨b1, b2, b3, -⟩ := HS hn
    obtain ⟨c1, c2, c3, c4⟩ := hPs hn
    exact ⟨ms, b1, by rw [c1]; exact b2, by rw [c2, c3, c4]; exact b3⟩
  · intro hn
    rw [hPa hn]; exact (HA hn).1
  · intro i hi
    obtain ⟨w, ecd, q, -, -, -, b4⟩ := hW i hi
    rw [hPw i hi]; exact b4
  · intro hn
    obtain ⟨c1, c2, c3, c4⟩ := hPl hn
    rw [c1, c2, c3, c4]; exact (HL hn).2.2.2
  · intro hn
    obtain ⟨c1, c2, c3, c4⟩ := hPs hn
    rw [c1, c2, c3, c4]; exact (HS hn).2.2.2
  · intro hn
    rw [hPa hn]; exact (HA hn).2

end

end Ringo
