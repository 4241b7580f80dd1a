import Verif.Proof.Complete

/-!
# Completeness of the protocol: putting the parts together
-/

namespace Ringo

open Finset Polynomial

set_option linter.unusedSectionVars false

section
variable {p : Nat} [Fact p.Prime] {E : Env (ZMod p)} {cp : Compilation (ZMod p)}

/-- A correct polynomial commitment scheme, for batches of `n` polynomials.  Every polynomial with
between one and `Rank()` coefficients can be committed to; for every batch of `n` commitments and
every point, `Evaluate` returns the values of the polynomials and a proof that `Verify` accepts. -/
structure PCS.Correct (P : PCS (ZMod p)) (n : Nat) : Prop where
  commit : P.CommitOk
  eval : ∀ (x : ZMod p) (batch : List (List (ZMod p) × P.Com × P.Open)) (rnd : Nat → P.Rnd) (r : P.Rnd),
    batch.length = n →
    (∀ (i : Nat) (e : List (ZMod p) × P.Com × P.Open), batch[i]? = some e →
      P.commit e.1 (rnd i) = .ok e.2) →
    ∃ pf, P.evaluate x (batch.map (·.1)) (batch.map (·.2.1)) (batch.map (·.2.2)) r =
        .ok (batch.map (fun e => evalAt e.1.length e.1 x), pf) ∧
      P.verify x (batch.map (·.2.1)) (batch.map (fun e => evalAt e.1.length e.1 x)) pf = .ok true

/-- The prover's half of it: `Evaluate` returns the values of the polynomials and some proof. -/
structure PCS.Evaluates (P : PCS (ZMod p)) (n : Nat) : Prop where
  commit : P.CommitOk
  eval : ∀ (x : ZMod p) (batch : List (List (ZMod p) × P.Com × P.Open)) (rnd : Nat → P.Rnd) (r : P.Rnd),
    batch.length = n →
    (∀ (i : Nat) (e : List (ZMod p) × P.Com × P.Open), batch[i]? = some e →
      P.commit e.1 (rnd i) = .ok e.2) →
    ∃ pf, P.evaluate x (batch.map (·.1)) (batch.map (·.2.1)) (batch.map (·.2.2)) r =
        .ok (batch.map (fun e => evalAt e.1.length e.1 x), pf)

theorem PCS.Correct.evaluates {P : PCS (ZMod p)} {n : Nat} (h : P.Correct n) : P.Evaluates n :=
  ⟨h.commit, fun x batch rnd r h1 h2 => by
    obtain ⟨pf, h3, -⟩ := h.eval x batch rnd r h1 h2
    exact ⟨pf, h3⟩⟩

variable {K Ke : Nat} {g ge : ZMod p}

/-- The tables of a run are the encodings of its witnesses. -/
theorem wNTT_unique {sw wps : List (List (ZMod p))} {enc : Nat → ZMod p}
    {wNTT wNTT' : List (Option (Poly (ZMod p)))} (h : EncodedWit cp sw enc wps wNTT')
    (hl : wNTT.length = sw.length)
    (hw : ∀ i < sw.length, ∃ w ecd q, WitOf cp enc sw i w ecd q ∧ wNTT[i]? = some (some q)) :
    wNTT = wNTT' := by
  apply List.ext_getElem?
  intro i
  by_cases hi : i < sw.length
  · obtain ⟨w, ecd, q, ⟨a1, a2, a3⟩, a4⟩ := hw i hi
    obtain ⟨e, q', b1, b2, -, b4⟩ := h.2.2 i w a1
    rw [a2] at b1; cases b1
    rw [a3] at b2; cases b2
    rw [a4, b4]
  · rw [List.getElem?_eq_none (by omega), List.getElem?_eq_none (by rw [h.2.1]; omega)]

/-- The witness tables after the first rounds. -/
theorem RoundsRun.wit {t : Tape (ZMod p) E.pcs.Rnd} {ord : Orders} {sw : List (List (ZMod p))}
    {st : PState E.pcs} {next : Nat} {proj : List (List Bool)}
    {lm sm : Option (Poly (ZMod p) × ZMod p)} {seed : Bytes} {sw2 : List (List (ZMod p))}
    {tr1 : Transcript} {s1 s2 s3 : PState E.pcs} {n1 : Nat} {ev1 ev2 evl evs : List (Ev E.pcs)}
    (R : RoundsRun E cp t ord sw st next proj lm sm seed sw2 tr1 s1 s2 s3 n1 ev1 ev2 evl evs)
    (hsl : sw.length = cp.ctx.wCnt) :
    st.wNTT.length = cp.ctx.wCnt ∧ ∀ i < cp.ctx.wCnt, ∃ w ecd q,
      WitOf cp t.enc (if i ∈ cp.ctx.wSecond then sw2 else sw) i w ecd q ∧
        st.wNTT[i]? = some (some q) := by
  have hwn : st.wNTT = s2.wNTT := by
    obtain ⟨PL, -, -, -⟩ := R.lmask.piece
    obtain ⟨PS, -, -, -⟩ := R.smask.piece
    rw [PS.wNTT, PL.wNTT]
  have inv : ∀ (l : List (Ev E.pcs)) (is : List Nat), l.map (·.i) = is → ∀ i ∈ is, ∃ e ∈ l, e.i = i := by
    rintro l is rfl i hi
    simpa using hi
  refine ⟨by rw [hwn, R.second.len]; simp [R.first.len], fun i hi => ?_⟩
  by_cases his : i ∈ cp.ctx.wSecond
  · obtain ⟨e, he, rfl⟩ := inv _ _ R.second.idx i his
    obtain ⟨w, ecd, q, b1, b2, b3⟩ := R.second.wit e he
    rw [if_pos his]
    exact ⟨w, ecd, q, b1, by rw [hwn]; exact b3⟩
  · obtain ⟨e, he, rfl⟩ := inv _ _ R.first.idx i (by
      unfold firstSlots
      rw [List.mem_filter, List.mem_range, hsl]
      exact ⟨hi, by simpa using his⟩)
    obtain ⟨w, ecd, q, b1, b2, b3⟩ := R.first.wit e he
    rw [if_neg his]
    refine ⟨w, ecd, q, b1, ?_⟩
    rw [hwn, R.second.other _ his]; exact b3

theorem getElem?_of_cell {n N : Nat} {a b : List (List (ZMod p))} (ha : Shape n N a) (hb : Shape n N b)
    {i : Nat} (h : ∀ j, cell a i j = cell b i j) : a[i]? = b[i]? := by
  by_cases hi : i < n
  · have h1 := row_ext ha hi (hb.row hi).1 (fun j _ => h j)
    have hal := ha.1
    have hbl := hb.1
    rw [List.getElem?_eq_getElem (by omega), List.getElem?_eq_getElem (by omega)]
    rw [List.getD_eq_getElem?_getD, List.getD_eq_getElem?_getD, List.getElem?_eq_getElem (by omega),
      List.getElem?_eq_getElem (by omega)] at h1
    simpa using h1
  · rw [List.getElem?_eq_none (by rw [ha.1]; omega), List.getElem?_eq_none (by rw [hb.1]; omega)]

/-- The situation of an honest prover after `assign`.  Of the arithmetic constraints only the sum is ever
checked. -/
structure Honest (K : Nat) (E : Env (ZMod p)) (cp : Compilation (ZMod p)) (ord : Orders)
    (pw sw : List (List (ZMod p))) : Prop where
  pwS : Shape cp.ctx.pwCnt (2 ^ K) pw
  swS : Shape cp.ctx.wCnt (2 ^ K) sw
  fill : ∀ proj, GoodProj (2 ^ K) proj → ∃ sw2, projStep cp ord proj sw = .ok sw2 ∧
    Shape cp.ctx.wCnt (2 ^ K) sw2 ∧ (∀ a, a ∉ cp.ctx.wSecond → ∀ i, cell sw2 a i = cell sw a i) ∧
    (∀ i < 2 ^ K, (cp.ctx.arith.map (fun c => c.onRow pw sw2 i)).sum = 0) ∧
    (∀ c ∈ cp.ctx.sums, ∑ i ∈ range (2 ^ K), c.onRow pw sw2 i = 0) ∧
    LinHolds cp E.users proj sw2 ∧ LinOK (2 ^ K) E.users proj cp.ctx.lin

/-- In a run of an honest prover all checks are good. -/
theorem run_good (h : GoodCp K Ke g ge cp) (hf : Fits K cp.ctx E.pcs.rank)
    {pw0 w0 : Nat} (hr : CtxRefs pw0 w0 cp.ctx) (t : Tape (ZMod p) E.pcs.Rnd) {ord : Orders}
    {pw sw : List (List (ZMod p))} (hh : Honest K E cp ord pw sw) (seed : Bytes)
    {sw2 : List (List (ZMod p))}
    (hfill : projStep cp ord (projMatrix E.xof seed (2 ^ K)) sw = .ok sw2)
    {wNTT : List (Option (Poly (ZMod p)))} (hwl : wNTT.length = cp.ctx.wCnt)
    (hw : ∀ i < cp.ctx.wCnt, ∃ w ecd q,
      WitOf cp t.enc (if i ∈ cp.ctx.wSecond then sw2 else sw) i w ecd q ∧
        wNTT[i]? = some (some q)) :
    ∃ (pps : List (List (ZMod p))) (pwNTT : List (Poly (ZMod p))) (wps : List (List (ZMod p))),
      pw.mapM (fun v => cp.ecd.encode v) = .ok (pps.map (fun e => ⟨e, false⟩)) ∧
      encodePub cp pw = .ok pwNTT ∧ EncodedWit cp sw2 t.enc wps wNTT ∧
      (∀ (i : Nat) (w : List (ZMod p)), sw2[i]? = some w →
        (if i ∈ cp.ctx.wSecond then sw2 else sw)[i]? = some w) ∧
      sw2.length = cp.ctx.wCnt ∧ (∀ i < cp.ctx.wCnt, (witPoly wps i).natDegree ≤ 2 ^ K) ∧
      ChecksGood E cp t (projMatrix E.xof seed (2 ^ K)) pwNTT wNTT pps wps := by
  obtain ⟨sw2', a1, a2, a3, a4, a5, a6, a7⟩ := hh.fill _ (projMatrix_good E.xof seed (2 ^ K))
  rw [hfill] at a1; cases a1
  obtain ⟨wps, wNTT', henc⟩ := encodedWit_exists h sw2 t.enc a2.2
  have hrow : ∀ i, (if i ∈ cp.ctx.wSecond then sw2 else sw)[i]? = sw2[i]? := by
    intro i
    by_cases his : i ∈ cp.ctx.wSecond
    · rw [if_pos his]
    · rw [if_neg his]
      exact (getElem?_of_cell a2 hh.swS (fun j => a3 i his j)).symm
  have hu : wNTT = wNTT' := by
    refine wNTT_unique henc (by rw [hwl, a2.1]) (fun i hi => ?_)
    obtain ⟨w, ecd, q, ⟨b1, b2, b3⟩, b4⟩ := hw i (by rw [← a2.1]; exact hi)
    exact ⟨w, ecd, q, ⟨by rw [← hrow i]; exact b1, b2, b3⟩, b4⟩
  subst hu
  obtain ⟨pps, pwNTT, p1, p2, p3, ht, p4, p5⟩ := tables_spec h hh.pwS.2 a2.2 henc
  refine ⟨pps, pwNTT, wps, p1, p2, henc, ?_, a2.1, ?_, ?_⟩
  · intro i w hi; rw [hrow i]; exact hi
  · intro i hi
    exact (p5 i (by rw [a2.1]; exact hi)).1
  · exact checksGood h hf t hh.pwS a2 henc.1 p3 ht p4 p5 hr a4 a5 a6 a7

/-- The prover succeeds. -/
theorem honest_proves (h : GoodCp K Ke g ge cp) (hf : Fits K cp.ctx E.pcs.rank)
    (hi : CtxInv2 (2 ^ K) cp.ctx)
    {pw0 w0 : Nat} (hr : CtxRefs pw0 w0 cp.ctx) (hP : E.pcs.Evaluates cp.ctx.batch)
    (t : Tape (ZMod p) E.pcs.Rnd) {ord : Orders} {c : Circ (ZMod p)} (hty : c.ty = cp.ctx.circType)
    {pw sw : List (List (ZMod p))} (ha : assign cp ord c.val = .ok (some (pw, sw)))
    (hh : Honest K E cp ord pw sw) :
    ∃ r, proveT E cp t ord c = .ok (some r) := by
  obtain ⟨st, proj, lm, sm, h1, h2⟩ := rounds_total h hP.commit hf hi.lt t ord hh.swS (fun seed => by
    obtain ⟨sw2, a1, a2, -⟩ := hh.fill _ (projMatrix_good E.xof seed (2 ^ K))
    exact ⟨sw2, a1, a2⟩)
  obtain ⟨seed, sw2, tr1, s1, s2, s3, n1, ev1, ev2, evl, evs, R⟩ := proveRounds_inv hi.nodup h1
  obtain ⟨w1, w2⟩ := R.wit hh.swS.1
  have hpr := R.hproj
  rw [h.rank] at hpr
  have hfl := R.fill
  rw [hpr] at hfl
  obtain ⟨pps, pwNTT, wps, p1, p2, p3, -, -, -, G⟩ := run_good h hf hr t hh seed hfl w1 w2
  rw [← hpr] at G
  have hck : ChecksOk E cp proj pwNTT st.wNTT lm sm := by
    refine ⟨?_, ?_, ?_, ?_, ?_⟩
    · intro hn b
      obtain ⟨quo, q1, q2, q3, -⟩ := G.arith (length_pos_ne.1 hn) b
      exact ⟨quo, q1, q2, q3⟩
    · intro m hm
      by_cases hn : cp.ctx.lin.length > 0
      · refine ⟨hn, fun b lc => ?_⟩
        obtain ⟨e, x, -, e1, -, -, -, -, e2, -⟩ := R.lmask.some hn
        obtain ⟨m', poly, m1, -, m3⟩ := G.lin (length_pos_ne.1 hn)
        rw [m1] at e2; cases e2
        rw [hm] at e1; cases e1
        obtain ⟨r, r1, r2, r3, r4, -⟩ := m3 b lc
        exact ⟨r, r1, r2, r3, r4⟩
      · have := (R.lmask.none (by omega)).2.1
        rw [hm] at this; cases this
    · intro hm
      by_contra hn
      obtain ⟨e, x, -, e1, -⟩ := R.lmask.some (by omega)
      rw [hm] at e1; cases e1
    · intro m hm
      by_cases hn : cp.ctx.sums.length > 0
      · refine ⟨hn, fun b => ?_⟩
        obtain ⟨e, x, -, e1, -, -, -, -, e2, -⟩ := R.smask.some hn
        obtain ⟨m', poly, m1, -, m3⟩ := G.sum (length_pos_ne.1 hn)
        rw [m1] at e2; cases e2
        rw [hm] at e1; cases e1
        obtain ⟨r, r1, r2, r3, r4, -⟩ := m3 b
        exact ⟨r, r1, r2, r3, r4⟩
      · have := (R.smask.none (by omega)).2.1
        rw [hm] at this; cases this
    · intro hm
      by_contra hn
      obtain ⟨e, x, -, e1, -⟩ := R.smask.some (by omega)
      rw [hm] at e1; cases e1
  obtain ⟨r, hr'⟩ := checks_total hP.commit t h2 hck (fun x polys hl hm => by
    obtain ⟨pf, e1⟩ := hP.eval x polys t.com t.ev hl hm
    exact ⟨_, e1⟩)
  refine ⟨r, ?_⟩
  unfold proveT
  rw [if_neg (by simp [hty]), ha, go_bind_ok]
  simp only
  rw [p2, go_bind_ok, h1, go_bind_ok]
  exact hr'

/-- The verifier accepts what an honest prover returns. -/
theorem honest_accepted (h : GoodCp K Ke g ge cp) (hf : Fits K cp.ctx E.pcs.rank)
    (hi : CtxInv2 (2 ^ K) cp.ctx)
    {pw0 w0 : Nat} (hr : CtxRefs pw0 w0 cp.ctx) (hP : E.pcs.Evaluates cp.ctx.batch)
    (t : Tape (ZMod p) E.pcs.Rnd) {ord : Orders} {two : List TwoEntry} {c' : Circ (ZMod p)}
    (hty : c'.ty = cp.ctx.circType)
    {pw sw : List (List (ZMod p))}
    (ha' : assignV cp two c'.val = .ok (some pw))
    (hh : Honest K E cp ord pw sw) {pf : BProof (ZMod p) E.pcs} {vals : List Bytes}
    {pwNTT : List (Poly (ZMod p))} (hpN : encodePub cp pw = .ok pwNTT)
    {sw2 : List (List (ZMod p))} {wNTT : List (Option (Poly (ZMod p)))}
    {lm sm : Option (Poly (ZMod p) × ZMod p)} {all : List (List (ZMod p) × E.pcs.Com × E.pcs.Open)}
    (R : FullRun E cp t ord pwNTT sw pf vals sw2 wNTT lm sm all)
    (hvf : E.pcs.verify (E.setBytes (chalsOf E cp.ctx pf).x) pf.witness pf.evals pf.evalProof = .ok true) :
    verify E cp two c' pf = .ok true := by
  have hmade : ∀ (i : Nat) (e : List (ZMod p) × E.pcs.Com × E.pcs.Open), all[i]? = some e →
      E.pcs.commit e.1 (t.com i) = .ok e.2 := by
    intro i e he
    have hil := (List.getElem?_eq_some_iff.1 he).1
    obtain ⟨e', h1, h2⟩ := R.made i (by rw [← R.len]; exact hil)
    rw [he] at h1; cases h1; exact h2
  set x := E.setBytes (chalsOf E cp.ctx pf).x with hx
  obtain ⟨pf', hev⟩ := hP.eval x all t.com t.ev R.len hmade
  have hRev := R.ev
  rw [hev] at hRev
  simp only [Except.ok.injEq, Prod.mk.injEq] at hRev
  obtain ⟨hevals, hpf'⟩ := hRev
  have hevlen : pf.evals.length = all.length := by rw [← hevals]; simp
  have hch := challengesV_eq pf hi.lt (R.shape hevlen)
  have hfl := R.fill
  rw [h.rank] at hfl
  obtain ⟨pps, pwNTT', wps, p1, p2, p3, prow, p4, pdeg, G⟩ := run_good h hf hr t hh _ hfl R.wlen
    (fun i hi => by
      obtain ⟨w, ecd, q, poly, e, b1, b2, -⟩ := R.wit i hi
      exact ⟨w, ecd, q, b1, b2⟩)
  rw [hpN] at p2; cases p2
  have hat : ∀ (i : Nat) (e : List (ZMod p) × E.pcs.Com × E.pcs.Open), all[i]? = some e →
      idx pf.evals i = .ok (evalAt e.1.length e.1 x) := by
    intro i e he
    rw [idx_ok_iff, ← hevals, List.getElem?_map, he]; rfl
  have hEO : EvalsOf wps x pf.evals := by
    intro i v hv
    have hil : i < cp.ctx.wCnt := by
      have := (List.getElem?_eq_some_iff.1 hv).1
      rw [p3.1, p4] at this; exact this
    obtain ⟨w, ecd, q, poly, e, ⟨b1, b2, b3⟩, b4, b5, b6⟩ := R.wit i hil
    have hw2 : sw2[i]? = some w := by
      have h1 : sw2[i]? = some (sw2[i]'(by rw [p4]; exact hil)) := List.getElem?_eq_getElem _
      have h2 := prow i _ h1
      rw [b1] at h2
      injection h2 with h2
      rw [h1, ← h2]
    obtain ⟨e', q', c1, c2, c3, c4⟩ := p3.2.2 i w hw2
    rw [b2] at c1; cases c1
    rw [hv] at c3; cases c3
    have := hat i _ b6
    rw [idx_ok_iff] at this
    rw [this]
    have hlen : sliceTo ecd.coeffs (cp.ctx.rank + 1) 0 = .ok (ecd.coeffs.take (2 ^ K + 1)) := by
      have := h.lt
      unfold sliceTo at b5
      rw [if_neg (by omega)] at b5
      split at b5
      · cases b5
      · unfold sliceTo
        rw [if_neg (by omega), if_neg (by assumption), h.rank, Nat.sub_zero]; rfl
    rw [hlen] at b5
    injection b5 with b5
    rw [← b5]
    simp only
    have hd : (listPoly ecd.coeffs).degree < ((2 ^ K + 1 : Nat) : WithBot ℕ) := by
      have h1 := pdeg i hil
      have h2 : witPoly wps i = listPoly ecd.coeffs := by
        unfold witPoly
        rw [List.getD_eq_getElem?_getD, hv]; rfl
      rw [h2] at h1
      refine lt_of_le_of_lt degree_le_natDegree ?_
      exact_mod_cast (by omega : (listPoly ecd.coeffs).natDegree < 2 ^ K + 1)
    rw [evalAt_take hd, listPoly_eval]
  unfold verify
  rw [if_neg (by simp [hty]), ha', go_bind_ok]
  simp only
  rw [p1, go_bind_ok, hch, go_bind_ok]
  simp only
  rw [← hx, hvf, go_bind_ok]
  simp only [Bool.not_true, Bool.false_eq_true, if_false]
  unfold checksV
  rw [← hx, evaluate_map, go_bind_ok]
  -- the arithmetic check
  have hA : arithStepV E cp pf (pps.map (fun e => evalAt e.length e x)) (chalsOf E cp.ctx pf)
      (nextOf cp.ctx) = .ok (true, nextOf cp.ctx + (if cp.ctx.arith.length > 0 then 1 else 0)) := by
    unfold arithStepV
    by_cases hn : cp.ctx.arith.length > 0
    · rw [if_pos hn, if_pos hn]
      obtain ⟨quo, e, q1, q2⟩ := R.arith hn
      obtain ⟨quo', q1', -, -, q3⟩ := G.arith (length_pos_ne.1 hn) _
      rw [q1] at q1'; cases q1'
      rw [hat _ _ q2, go_bind_ok, ← hx, q3 x pf.evals hEO]; rfl
    · rw [if_neg hn, if_neg hn]; rfl
  rw [hA, go_bind_ok]
  simp only [Bool.not_true, Bool.false_eq_true, if_false]
  -- the linear check
  have hL : linStepV E cp pf (chalsOf E cp.ctx pf)
      (if cp.ctx.lin.length > 0 then some (pf.evals.getD cp.ctx.wCnt 0) else none)
      (nextOf cp.ctx + (if cp.ctx.arith.length > 0 then 1 else 0)) =
      .ok (true, nextOf cp.ctx + (if cp.ctx.arith.length > 0 then 1 else 0) +
        (if cp.ctx.lin.length > 0 then 3 else 0)) := by
    unfold linStepV
    by_cases hn : cp.ctx.lin.length > 0
    · rw [if_pos hn, if_pos hn, if_pos hn]
      obtain ⟨m, poly, e, m1, m2, m3, m4⟩ := R.linMask hn
      obtain ⟨r, e0, e1, e2, r1, r2, r3, r4⟩ := R.lin m m1
      obtain ⟨m', poly', g1, g2, g3⟩ := G.lin (length_pos_ne.1 hn)
      rw [m2] at g1; cases g1
      rw [m3] at g2; cases g2
      obtain ⟨r', k1, -, -, -, k5⟩ := g3 (E.setBytes (chalsOf E cp.ctx pf).lb)
        (E.setBytes (chalsOf E cp.ctx pf).lc)
      rw [h.rank] at r1
      rw [r1] at k1; cases k1
      rw [hat _ _ r2, go_bind_ok, hat _ _ r3, go_bind_ok, hat _ _ r4, go_bind_ok]
      have hme : pf.evals.getD cp.ctx.wCnt 0 = evalAt poly.length poly x := by
        have := hat _ _ m4
        rw [idx_ok_iff] at this
        rw [List.getD_eq_getElem?_getD, this]; rfl
      rw [R.pfL, m1, hme]
      simp only [nonNil, Option.map_some, go_pure, go_bind_ok]
      rw [← hx]
      have hk := k5 x pf.evals hEO
      rw [h.rank] at hk ⊢
      rw [hk]; rfl
    · rw [if_neg hn, if_neg hn]; rfl
  rw [hL, go_bind_ok]
  simp only [Bool.not_true, Bool.false_eq_true, if_false]
  unfold sumStepV
  by_cases hn : cp.ctx.sums.length > 0
  · rw [if_pos hn, if_pos hn]
    obtain ⟨m, poly, e, m1, m2, m3, m4⟩ := R.sumMask hn
    obtain ⟨r, e0, e1, e2, r1, r2, r3, r4⟩ := R.sum m m1
    obtain ⟨m', poly', g1, g2, g3⟩ := G.sum (length_pos_ne.1 hn)
    rw [m2] at g1; cases g1
    rw [m3] at g2; cases g2
    obtain ⟨r', k1, -, -, -, k5⟩ := g3 (E.setBytes (chalsOf E cp.ctx pf).sb)
    rw [r1] at k1; cases k1
    rw [hat _ _ r2, go_bind_ok, hat _ _ r3, go_bind_ok, hat _ _ r4, go_bind_ok]
    have hme : pf.evals.getD (cp.ctx.wCnt + if cp.ctx.lin.length > 0 then 1 else 0) 0 =
        evalAt poly.length poly x := by
      have := hat _ _ m4
      rw [idx_ok_iff] at this
      rw [List.getD_eq_getElem?_getD, this]; rfl
    rw [R.pfS, m1, hme]
    simp only [nonNil, Option.map_some, go_pure, go_bind_ok]
    exact k5 x pf.evals hEO
  · rw [if_neg hn]; rfl

end

end Ringo
