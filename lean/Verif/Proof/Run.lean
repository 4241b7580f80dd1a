import Verif.Props.LinSum

/-!
# What a run of the prover produces

Inversion lemmas: if the prover does not panic and returns no error, then every slot of its tables was
filled by exactly one commitment, the transcript has the following content, and so on.
-/

namespace Ringo

open Polynomial Finset

set_option linter.unusedSectionVars false

section
variable {p : Nat} [Fact p.Prime] {E : Env (ZMod p)} {cp : Compilation (ZMod p)}

/-- One commitment made by the prover. -/
structure Ev (P : PCS (ZMod p)) where
  i : Nat
  poly : List (ZMod p)
  com : P.Com
  op : P.Open

/-- The commitment was made with `Commit` and the randomness for its slot. -/
def Ev.Made {P : PCS (ZMod p)} (t : Tape (ZMod p) P.Rnd) (e : Ev P) : Prop :=
  P.commit e.poly (t.com e.i) = .ok (e.com, e.op)

/-- The table after some commitments. -/
def putAll {P : PCS (ZMod p)} (tbl : List (Option (List (ZMod p) × P.Com × P.Open)))
    (evs : List (Ev P)) : List (Option (List (ZMod p) × P.Com × P.Open)) :=
  evs.foldl (fun tbl e => tbl.set e.i (some (e.poly, e.com, e.op))) tbl

theorem putAll_append {P : PCS (ZMod p)} (tbl : List (Option (List (ZMod p) × P.Com × P.Open)))
    (a b : List (Ev P)) : putAll (putAll tbl a) b = putAll tbl (a ++ b) := by
  simp [putAll]

theorem putAll_length {P : PCS (ZMod p)} (tbl : List (Option (List (ZMod p) × P.Com × P.Open)))
    (evs : List (Ev P)) : (putAll tbl evs).length = tbl.length := by
  induction evs generalizing tbl with
  | nil => rfl
  | cons e evs ih => rw [putAll, List.foldl_cons, ← putAll, ih]; simp

theorem putAll_notMem {P : PCS (ZMod p)} (tbl : List (Option (List (ZMod p) × P.Com × P.Open)))
    (evs : List (Ev P)) (i : Nat) (hi : i ∉ evs.map (·.i)) : (putAll tbl evs)[i]? = tbl[i]? := by
  induction evs generalizing tbl with
  | nil => rfl
  | cons e evs ih =>
    simp only [List.map_cons, List.mem_cons, not_or] at hi
    rw [putAll, List.foldl_cons, ← putAll, ih _ hi.2, List.getElem?_set_ne (Ne.symm hi.1)]

theorem putAll_mem {P : PCS (ZMod p)} (tbl : List (Option (List (ZMod p) × P.Com × P.Open)))
    (evs : List (Ev P)) (hnd : (evs.map (·.i)).Nodup) (hlt : ∀ e ∈ evs, e.i < tbl.length)
    (e : Ev P) (he : e ∈ evs) : (putAll tbl evs)[e.i]? = some (some (e.poly, e.com, e.op)) := by
  induction evs generalizing tbl with
  | nil => simp at he
  | cons e' evs ih =>
    simp only [List.map_cons, List.nodup_cons] at hnd
    rw [putAll, List.foldl_cons, ← putAll]
    rcases List.mem_cons.1 he with rfl | he
    · rw [putAll_notMem _ _ _ hnd.1, List.getElem?_set_self (hlt e (by simp))]
    · exact ih _ hnd.2 (fun e he => by simpa using hlt e (by simp [he])) he

/-- Binding several values. -/
def Transcript.bindAll (tr : Transcript) (c : Chal) (bs : List Bytes) : Transcript :=
  bs.foldl (fun tr b => tr.bind c b) tr

theorem Transcript.bindAll_eq (tr : Transcript) (c : Chal) (bs : List Bytes)
    (h : tr.vals.length ≤ c.pos) :
    tr.bindAll c bs = ⟨tr.binds ++ bs.map (fun b => (c, b)), tr.vals⟩ := by
  induction bs generalizing tr with
  | nil => simp [Transcript.bindAll]
  | cons b bs ih =>
    rw [Transcript.bindAll, List.foldl_cons, ← Transcript.bindAll]
    have hb : tr.bind c b = ⟨tr.binds ++ [(c, b)], tr.vals⟩ := by
      unfold Transcript.bind; rw [if_neg (by omega)]
    rw [hb, ih ⟨tr.binds ++ [(c, b)], tr.vals⟩ h]; simp

theorem Transcript.compute_next (hash : Bytes → Bytes) (binds : List (Chal × Bytes))
    (vals : List Bytes) (c : Chal) (h : c.pos = vals.length) :
    (⟨binds, vals⟩ : Transcript).compute hash c =
      some (hash (c.name ++ vals.getLast?.getD [] ++
          (binds.filter (fun b => b.1 = c)).flatMap (fun b => b.2)),
        ⟨binds, vals ++ [hash (c.name ++ vals.getLast?.getD [] ++
          (binds.filter (fun b => b.1 = c)).flatMap (fun b => b.2))]⟩) := by
  unfold Transcript.compute
  rw [dif_neg (by simp [h]), if_pos h]

theorem filter_bound (c : Chal) (bs : List Bytes) :
    (bs.map (fun b => (c, b))).filter (fun b => b.1 = c) = bs.map (fun b => (c, b)) := by
  simp

theorem filter_other (c c' : Chal) (h : c ≠ c') (bs : List Bytes) :
    (bs.map (fun b => (c, b))).filter (fun b => b.1 = c') = [] := by
  simp [h]

/-- Inversion of a foldl that succeeds. -/
theorem foldlM_cons_inv {σ α : Type} {f : σ → α → Go σ} {a : α} {l : List α} {s s' : σ}
    (h : (a :: l).foldlM f s = .ok s') : ∃ s1, f s a = .ok s1 ∧ l.foldlM f s1 = .ok s' := by
  rw [List.foldlM_cons] at h
  exact bind_ok_inv h

theorem commitAt_inv {t : Tape (ZMod p) E.pcs.Rnd} {st st' : PState E.pcs} {i : Nat}
    {poly : List (ZMod p)} {c : Chal} (h : commitAt E t st i poly c = .ok st') :
    ∃ e : Ev E.pcs, e.i = i ∧ e.poly = poly ∧ e.Made t ∧ i < st.tbl.length ∧
      st' = ⟨putAll st.tbl [e], st.wNTT, st.tr.bind c (E.pcs.ser e.com)⟩ := by
  unfold commitAt at h
  obtain ⟨co, hco, h⟩ := bind_ok_inv h
  obtain ⟨tbl, htbl, h⟩ := bind_ok_inv h
  have hi : i < st.tbl.length := by
    by_contra hc
    rw [setIdx, if_neg hc] at htbl; cases htbl
  rw [setIdx_ok hi] at htbl
  injection htbl with htbl
  injection h with h
  exact ⟨⟨i, poly, co.1, co.2⟩, rfl, rfl, hco, hi, by rw [← h, ← htbl]; rfl⟩

/-- Slot `i` of the witnesses is encoded to the polynomial of `e`, with transform `q`. -/
def WitOf (cp : Compilation (ZMod p)) (enc : Nat → ZMod p) (sw : List (List (ZMod p)))
    (i : Nat) (w : List (ZMod p)) (ecd q : Poly (ZMod p)) : Prop :=
  sw[i]? = some w ∧ cp.ecd.randEncode w (enc i) = .ok ecd ∧ cp.ev.toNTT ecd = .ok q

theorem commitWitness_inv {t : Tape (ZMod p) E.pcs.Rnd} {sw : List (List (ZMod p))}
    {st st' : PState E.pcs} {i : Nat} {c : Chal} (h : commitWitness E cp t sw st i c = .ok st') :
    ∃ (e : Ev E.pcs) (w : List (ZMod p)) (ecd q : Poly (ZMod p)), e.i = i ∧
      sliceTo ecd.coeffs (cp.ctx.rank + 1) 0 = .ok e.poly ∧
      e.Made t ∧ i < st.tbl.length ∧ i < st.wNTT.length ∧ WitOf cp t.enc sw i w ecd q ∧
      st' = ⟨putAll st.tbl [e], st.wNTT.set i (some q), st.tr.bind c (E.pcs.ser e.com)⟩ := by
  unfold commitWitness at h
  obtain ⟨w, hw, h⟩ := bind_ok_inv h
  obtain ⟨ecd, hecd, h⟩ := bind_ok_inv h
  obtain ⟨q, hq, h⟩ := bind_ok_inv h
  obtain ⟨wn, hwn, h⟩ := bind_ok_inv h
  obtain ⟨poly, hpoly, h⟩ := bind_ok_inv h
  have hi : i < st.wNTT.length := by
    by_contra hc
    rw [setIdx, if_neg hc] at hwn; cases hwn
  rw [setIdx_ok hi] at hwn
  injection hwn with hwn
  obtain ⟨e, h1, h2, h3, h4, h5⟩ := commitAt_inv h
  exact ⟨e, w, ecd, q, h1, h2 ▸ hpoly, h3, h4, hi, ⟨idx_ok_iff.1 hw, hecd, hq⟩, by rw [h5, ← hwn]⟩

/-- The outcome of committing to the witnesses `is`. -/
structure WitRun (E : Env (ZMod p)) (cp : Compilation (ZMod p)) (t : Tape (ZMod p) E.pcs.Rnd)
    (sw : List (List (ZMod p))) (c : Chal) (st st' : PState E.pcs) (is : List Nat)
    (evs : List (Ev E.pcs)) : Prop where
  idx : evs.map (·.i) = is
  made : ∀ e ∈ evs, e.Made t
  lt : ∀ e ∈ evs, e.i < st.tbl.length
  tbl : st'.tbl = putAll st.tbl evs
  tr : st'.tr = st.tr.bindAll c (evs.map (fun e => E.pcs.ser e.com))
  len : st'.wNTT.length = st.wNTT.length
  wit : ∀ e ∈ evs, ∃ w ecd q, WitOf cp t.enc sw e.i w ecd q ∧
    sliceTo ecd.coeffs (cp.ctx.rank + 1) 0 = .ok e.poly ∧ st'.wNTT[e.i]? = some (some q)
  other : ∀ i, i ∉ is → st'.wNTT[i]? = st.wNTT[i]?

theorem witRun_inv {t : Tape (ZMod p) E.pcs.Rnd} {sw : List (List (ZMod p))} {c : Chal}
    (is : List Nat) (hnd : is.Nodup) (st st' : PState E.pcs)
    (h : is.foldlM (fun st i => commitWitness E cp t sw st i c) st = .ok st') :
    ∃ evs, WitRun E cp t sw c st st' is evs := by
  induction is generalizing st with
  | nil =>
    injection h with h
    subst h
    exact ⟨[], ⟨rfl, by simp, by simp, rfl, rfl, rfl, by simp, by simp⟩⟩
  | cons i is ih =>
    obtain ⟨s1, hs1, h⟩ := foldlM_cons_inv h
    obtain ⟨e, w, ecd, q, h1, h2, h3, h4, h5, h6, h7⟩ := commitWitness_inv hs1
    obtain ⟨hni, hnd⟩ := List.nodup_cons.1 hnd
    obtain ⟨evs, r⟩ := ih hnd s1 h
    have hs1l : s1.wNTT.length = st.wNTT.length := by rw [h7]; simp
    have hs1t : s1.tbl.length = st.tbl.length := by rw [h7]; exact putAll_length _ _
    refine ⟨e :: evs, ⟨by simp [h1, r.idx], ?_, ?_, ?_, ?_, ?_, ?_, ?_⟩⟩
    · intro e' he'
      rcases List.mem_cons.1 he' with rfl | he'
      · exact h3
      · exact r.made e' he'
    · intro e' he'
      rcases List.mem_cons.1 he' with rfl | he'
      · rw [h1]; exact h4
      · rw [← hs1t]; exact r.lt e' he'
    · rw [r.tbl, h7]; exact putAll_append _ [e] evs
    · rw [r.tr, h7]; rfl
    · rw [r.len, hs1l]
    · intro e' he'
      rcases List.mem_cons.1 he' with rfl | he'
      · refine ⟨w, ecd, q, h1 ▸ h6, h2, ?_⟩
        rw [h1, r.other i hni, h7]
        exact List.getElem?_set_self h5
      · exact r.wit e' he'
    · intro j hj
      simp only [List.mem_cons, not_or] at hj
      rw [r.other j hj.2, h7]
      exact List.getElem?_set_ne (Ne.symm hj.1)

theorem foldlM_skip {σ : Type} (f : σ → Nat → Go σ) (q : Nat → Prop) [DecidablePred q] (l : List Nat)
    (s : σ) : l.foldlM (fun s i => if q i then pure s else f s i) s =
      (l.filter (fun i => ¬ q i)).foldlM f s := by
  induction l generalizing s with
  | nil => rfl
  | cons a l ih =>
    rw [List.foldlM_cons, List.filter_cons]
    by_cases h : q a
    · simp only [h, if_true, not_true, decide_false]
      exact ih s
    · simp only [h, if_false, not_false_eq_true, decide_true, if_true, List.foldlM_cons]
      congr 1; funext s'; exact ih s'

theorem forRange_zero {σ : Type} (n : Nat) (s : σ) (f : σ → Nat → Go σ) :
    forRange 0 n 1 s f = (List.range n).foldlM f s := by
  unfold forRange
  rw [List.range_eq_range']; simp

/-- The slots committed in the first round. -/
def firstSlots (ctx : Context (ZMod p)) (n : Nat) : List Nat :=
  (List.range n).filter (fun i => ¬ i ∈ ctx.wSecond)

theorem firstRound_inv {t : Tape (ZMod p) E.pcs.Rnd} {sw : List (List (ZMod p))}
    {st st' : PState E.pcs} (h : firstRound E cp t sw st = .ok st') :
    ∃ evs, WitRun E cp t sw .projConst st st' (firstSlots cp.ctx sw.length) evs := by
  unfold firstRound at h
  rw [forRange_zero, foldlM_skip (fun st i => commitWitness E cp t sw st i .projConst)
    (fun i => i ∈ cp.ctx.wSecond)] at h
  exact witRun_inv _ (List.nodup_range.filter _) _ _ h

/-- The outcome of a mask: `none` if the check is not there. -/
structure MaskRun (E : Env (ZMod p)) (cp : Compilation (ZMod p)) (t : Tape (ZMod p) E.pcs.Rnd)
    (n maskRank : Nat) (r : Nat → ZMod p) (st st' : PState E.pcs) (next next' : Nat)
    (m : Option (Poly (ZMod p) × ZMod p)) (evs : List (Ev E.pcs)) : Prop where
  none : n = 0 → evs = [] ∧ m = none ∧ st' = st ∧ next' = next
  some : n > 0 → ∃ e x, evs = [e] ∧ m = some x ∧ next' = next + 1 ∧ e.i = next ∧ e.Made t ∧
    next < st.tbl.length ∧ sumCheckMask cp.ev cp.ctx.rank maskRank r = .ok x ∧
    sliceTo x.1.coeffs maskRank 0 = .ok e.poly ∧
    st' = ⟨putAll st.tbl [e], st.wNTT,
      st.tr.bindAll .arithBatchConst [E.pcs.ser e.com, E.marshal x.2]⟩

theorem maskRun_inv {t : Tape (ZMod p) E.pcs.Rnd} {n maskRank : Nat} {r : Nat → ZMod p}
    {st st' : PState E.pcs} {next next' : Nat} {m : Option (Poly (ZMod p) × ZMod p)}
    (h : maskStep E cp t n maskRank r st next = .ok (st', next', m)) :
    ∃ evs, MaskRun E cp t n maskRank r st st' next next' m evs := by
  unfold maskStep at h
  by_cases hn : n > 0
  · rw [if_pos hn] at h
    obtain ⟨a, ha, h⟩ := bind_ok_inv h
    unfold maskRound at ha
    obtain ⟨x, hx, ha⟩ := bind_ok_inv ha
    obtain ⟨poly, hpoly, ha⟩ := bind_ok_inv ha
    obtain ⟨s1, hs1, ha⟩ := bind_ok_inv ha
    injection ha with ha
    injection h with h
    obtain ⟨e, h1, h2, h3, h4, h5⟩ := commitAt_inv hs1
    refine ⟨[e], ⟨by omega, fun _ => ⟨e, x, rfl, ?_⟩⟩⟩
    subst ha
    simp only [Prod.mk.injEq] at h
    obtain ⟨r1, r2, r3⟩ := h
    refine ⟨r3.symm, r2.symm, h1, h3, h4, hx, h2 ▸ hpoly, ?_⟩
    rw [← r1, h5]; rfl
  · rw [if_neg hn] at h
    injection h with h
    simp only [Prod.mk.injEq] at h
    obtain ⟨r1, r2, r3⟩ := h
    exact ⟨[], ⟨fun _ => ⟨rfl, r3.symm, r1.symm, r2.symm⟩, by omega⟩⟩

/-- The outcome of `proveRounds`. -/
structure RoundsRun (E : Env (ZMod p)) (cp : Compilation (ZMod p)) (t : Tape (ZMod p) E.pcs.Rnd)
    (ord : Orders) (sw : List (List (ZMod p))) (st : PState E.pcs) (next : Nat)
    (proj : List (List Bool)) (lm sm : Option (Poly (ZMod p) × ZMod p))
    (seed : Bytes) (sw2 : List (List (ZMod p))) (tr1 : Transcript) (s1 s2 s3 : PState E.pcs) (n1 : Nat)
    (ev1 ev2 evl evs : List (Ev E.pcs)) : Prop where
  first : WitRun E cp t sw .projConst
    ⟨List.replicate cp.ctx.batch none, List.replicate cp.ctx.wCnt none, .new⟩ s1
    (firstSlots cp.ctx sw.length) ev1
  hseed : s1.tr.compute E.hash .projConst = some (seed, tr1)
  hproj : proj = projMatrix E.xof seed cp.ctx.rank
  fill : projStep cp ord proj sw = .ok sw2
  second : WitRun E cp t sw2 .arithBatchConst { s1 with tr := tr1 } s2 cp.ctx.wSecond ev2
  lmask : MaskRun E cp t cp.ctx.lin.length (2 * cp.ctx.rank) t.linMask s2 s3 cp.ctx.wCnt n1 lm evl
  smask : MaskRun E cp t cp.ctx.sums.length cp.ctx.sumCheckMaxRank t.sumMask s3 st n1 next sm evs

theorem proveRounds_inv {t : Tape (ZMod p) E.pcs.Rnd} {ord : Orders} {sw : List (List (ZMod p))}
    (hnd : cp.ctx.wSecond.Nodup)
    {st : PState E.pcs} {next : Nat} {proj : List (List Bool)}
    {lm sm : Option (Poly (ZMod p) × ZMod p)}
    (h : proveRounds E cp t ord sw = .ok (some (st, next, proj, lm, sm))) :
    ∃ seed sw2 tr1 s1 s2 s3 n1 ev1 ev2 evl evs,
      RoundsRun E cp t ord sw st next proj lm sm seed sw2 tr1 s1 s2 s3 n1 ev1 ev2 evl evs := by
  unfold proveRounds at h
  obtain ⟨s1, h1, h⟩ := bind_ok_inv h
  obtain ⟨ev1, r1⟩ := firstRound_inv h1
  cases hc : s1.tr.compute E.hash .projConst with
  | none => rw [hc] at h; cases h
  | some v =>
    obtain ⟨seed, tr1⟩ := v
    rw [hc] at h
    obtain ⟨sw2, h2, h⟩ := bind_ok_inv h
    obtain ⟨s2, h3, h⟩ := bind_ok_inv h
    obtain ⟨ev2, r2⟩ := witRun_inv _ hnd _ _ h3
    obtain ⟨⟨s3, n1, lm'⟩, h4, h⟩ := bind_ok_inv h
    obtain ⟨evl, r3⟩ := maskRun_inv h4
    obtain ⟨⟨s4, n2, sm'⟩, h5, h⟩ := bind_ok_inv h
    obtain ⟨evs, r4⟩ := maskRun_inv h5
    injection h with h
    injection h with h
    simp only [Prod.mk.injEq] at h
    obtain ⟨q1, q2, q3, q4, q5⟩ := h
    subst q1 q2 q4 q5
    refine ⟨seed, sw2, tr1, s1, s2, s3, n1, ev1, ev2, evl, evs, ⟨r1, hc, q3.symm, ?_, r2, r3, r4⟩⟩
    rw [← q3]; exact h2

/-- The outcome of the three messages of a check. -/
structure Msg3Run (E : Env (ZMod p)) (t : Tape (ZMod p) E.pcs.Rnd) (st st' : PState E.pcs)
    (next : Nat) (m : List (ZMod p) × List (ZMod p) × List (ZMod p)) (evs : List (Ev E.pcs)) : Prop where
  idx : evs.map (·.i) = [next, next + 1, next + 2]
  polys : evs.map (·.poly) = [m.1, m.2.1, m.2.2]
  made : ∀ e ∈ evs, e.Made t
  lt : ∀ e ∈ evs, e.i < st.tbl.length
  out : st' = ⟨putAll st.tbl evs, st.wNTT,
    st.tr.bindAll .evalPoint (evs.map (fun e => E.pcs.ser e.com))⟩

theorem commit3_inv {t : Tape (ZMod p) E.pcs.Rnd} {st st' : PState E.pcs} {i : Nat}
    {m : List (ZMod p) × List (ZMod p) × List (ZMod p)} (h : commit3 E t st i m = .ok st') :
    ∃ evs, Msg3Run E t st st' i m evs := by
  unfold commit3 at h
  obtain ⟨s1, h1, h⟩ := bind_ok_inv h
  obtain ⟨s2, h2, h⟩ := bind_ok_inv h
  obtain ⟨e1, a1, a2, a3, a4, a5⟩ := commitAt_inv h1
  obtain ⟨e2, b1, b2, b3, b4, b5⟩ := commitAt_inv h2
  obtain ⟨e3, c1, c2, c3, c4, c5⟩ := commitAt_inv h
  subst a5; subst b5; subst c5
  simp only [putAll_length] at b4 c4
  refine ⟨[e1, e2, e3], ⟨by simp [a1, b1, c1], by simp [a2, b2, c2], ?_, ?_, ?_⟩⟩
  · intro e he
    simp only [List.mem_cons, List.not_mem_nil, or_false] at he
    rcases he with rfl | rfl | rfl <;> assumption
  · intro e he
    simp only [List.mem_cons, List.not_mem_nil, or_false] at he
    rcases he with rfl | rfl | rfl <;> omega
  · rfl

/-- The outcome of `proveChecks`. -/
structure ChecksRun (E : Env (ZMod p)) (cp : Compilation (ZMod p)) (t : Tape (ZMod p) E.pcs.Rnd)
    (pwNTT : List (Poly (ZMod p))) (st : PState E.pcs) (next : Nat)
    (proj : List (List Bool)) (lm sm : Option (Poly (ZMod p) × ZMod p))
    (pf : BProof (ZMod p) E.pcs) (vals : List Bytes)
    (ab lb lc sb x : Bytes) (tr1 tr2 tr3 tr4 tr5 : Transcript) (s1 s2 s3 : PState E.pcs) (n1 n2 : Nat)
    (all : List (List (ZMod p) × E.pcs.Com × E.pcs.Open))
    (eva evl evs : List (Ev E.pcs)) : Prop where
  hab : st.tr.compute E.hash .arithBatchConst = some (ab, tr1)
  arith0 : cp.ctx.arith.length = 0 → eva = [] ∧ s1 = { st with tr := tr1 } ∧ n1 = next
  arith : cp.ctx.arith.length > 0 → ∃ e, eva = [e] ∧ n1 = next + 1 ∧ e.i = next ∧ e.Made t ∧
    next < st.tbl.length ∧ arithCheckP cp (E.setBytes ab) pwNTT st.wNTT = .ok e.poly ∧
    s1 = ⟨putAll st.tbl [e], st.wNTT, tr1.bindAll .evalPoint [E.pcs.ser e.com]⟩
  hlb : s1.tr.compute E.hash .linCheckBatchConst = some (lb, tr2)
  hlc : tr2.compute E.hash .linCheckConst = some (lc, tr3)
  lin0 : lm = none → evl = [] ∧ s2 = { s1 with tr := tr3 } ∧ n2 = n1
  lin : ∀ m, lm = some m → ∃ r, n2 = n1 + 3 ∧ linCheckP cp E.users proj E.pcs.rank (E.setBytes lb)
    (E.setBytes lc) m.1 s1.wNTT = .ok r ∧ Msg3Run E t { s1 with tr := tr3 } s2 n1 r evl
  hsb : s2.tr.compute E.hash .sumCheckBatchConst = some (sb, tr4)
  sum0 : sm = none → evs = [] ∧ s3 = { s2 with tr := tr4 }
  sum : ∀ m, sm = some m → ∃ r, sumCheckP cp E.pcs.rank (E.setBytes sb) m.1 pwNTT s2.wNTT = .ok r ∧
    Msg3Run E t { s2 with tr := tr4 } s3 n2 r evs
  hx : s3.tr.compute E.hash .evalPoint = some (x, tr5)
  hall : (List.range s3.tbl.length).mapM (fun i => slot s3.tbl i) = .ok all
  ev : E.pcs.evaluate (E.setBytes x) (all.map (·.1)) (all.map (·.2.1)) (all.map (·.2.2)) t.ev =
    .ok (pf.evals, pf.evalProof)
  pfW : pf.witness = all.map (·.2.1)
  pfL : pf.linMaskSum = lm.map (·.2)
  pfS : pf.sumMaskSum = sm.map (·.2)
  hvals : vals = tr5.vals

theorem proveChecks_inv {t : Tape (ZMod p) E.pcs.Rnd} {pwNTT : List (Poly (ZMod p))}
    {st : PState E.pcs} {next : Nat} {proj : List (List Bool)}
    {lm sm : Option (Poly (ZMod p) × ZMod p)} {pf : BProof (ZMod p) E.pcs} {vals : List Bytes}
    (h : proveChecks E cp t pwNTT (st, next, proj, lm, sm) = .ok (some (pf, vals))) :
    ∃ ab lb lc sb x tr1 tr2 tr3 tr4 tr5 s1 s2 s3 n1 n2 all eva evl evs,
      ChecksRun E cp t pwNTT st next proj lm sm pf vals ab lb lc sb x tr1 tr2 tr3 tr4 tr5 s1 s2 s3 n1
        n2 all eva evl evs := by
  unfold proveChecks at h
  simp only at h
  cases hab : st.tr.compute E.hash .arithBatchConst with
  | none => rw [hab] at h; cases h
  | some v =>
  obtain ⟨ab, tr1⟩ := v
  rw [hab] at h
  simp only at h
  obtain ⟨⟨s1, n1⟩, h1, h⟩ := bind_ok_inv h
  simp only at h
  have hA : ∃ eva : List (Ev E.pcs),
      (cp.ctx.arith.length = 0 → eva = [] ∧ s1 = { st with tr := tr1 } ∧ n1 = next) ∧
      (cp.ctx.arith.length > 0 → ∃ e, eva = [e] ∧ n1 = next + 1 ∧ e.i = next ∧ e.Made t ∧
        next < st.tbl.length ∧ arithCheckP cp (E.setBytes ab) pwNTT st.wNTT = .ok e.poly ∧
        s1 = ⟨putAll st.tbl [e], st.wNTT, tr1.bindAll .evalPoint [E.pcs.ser e.com]⟩) := by
    unfold arithStep at h1
    by_cases hn : cp.ctx.arith.length > 0
    · rw [if_pos hn] at h1
      obtain ⟨quo, hq, h1⟩ := bind_ok_inv h1
      obtain ⟨s, hs, h1⟩ := bind_ok_inv h1
      obtain ⟨e, a1, a2, a3, a4, a5⟩ := commitAt_inv hs
      injection h1 with h1
      simp only [Prod.mk.injEq] at h1
      refine ⟨[e], by omega, fun _ => ⟨e, rfl, h1.2.symm, a1, a3, a4, a2 ▸ hq, ?_⟩⟩
      rw [← h1.1, a5]; rfl
    · rw [if_neg hn] at h1
      injection h1 with h1
      simp only [Prod.mk.injEq] at h1
      exact ⟨[], fun _ => ⟨rfl, h1.1.symm, h1.2.symm⟩, by omega⟩
  obtain ⟨eva, hA0, hA1⟩ := hA
  cases hlb : s1.tr.compute E.hash .linCheckBatchConst with
  | none => rw [hlb] at h; cases h
  | some v =>
  obtain ⟨lb, tr2⟩ := v
  rw [hlb] at h
  simp only at h
  cases hlc : tr2.compute E.hash .linCheckConst with
  | none => rw [hlc] at h; cases h
  | some v =>
  obtain ⟨lc, tr3⟩ := v
  rw [hlc] at h
  simp only at h
  obtain ⟨⟨s2, n2⟩, h2, h⟩ := bind_ok_inv h
  simp only at h
  have hL : ∃ evl : List (Ev E.pcs),
      (lm = none → evl = [] ∧ s2 = { s1 with tr := tr3 } ∧ n2 = n1) ∧
      ∀ m, lm = some m → ∃ r, n2 = n1 + 3 ∧ linCheckP cp E.users proj E.pcs.rank (E.setBytes lb)
        (E.setBytes lc) m.1 s1.wNTT = .ok r ∧ Msg3Run E t { s1 with tr := tr3 } s2 n1 r evl := by
    unfold linStep at h2
    cases lm with
    | none =>
      injection h2 with h2
      simp only [Prod.mk.injEq] at h2
      exact ⟨[], fun _ => ⟨rfl, h2.1.symm, h2.2.symm⟩, by simp⟩
    | some m =>
      obtain ⟨r, hr, h2⟩ := bind_ok_inv h2
      obtain ⟨s, hs, h2⟩ := bind_ok_inv h2
      injection h2 with h2
      simp only [Prod.mk.injEq] at h2
      obtain ⟨evl, hm⟩ := commit3_inv hs
      refine ⟨evl, by simp, fun m' hm' => ?_⟩
      injection hm' with hm'
      subst hm'
      exact ⟨r, h2.2.symm, hr, h2.1 ▸ hm⟩
  obtain ⟨evl, hL0, hL1⟩ := hL
  cases hsb : s2.tr.compute E.hash .sumCheckBatchConst with
  | none => rw [hsb] at h; cases h
  | some v =>
  obtain ⟨sb, tr4⟩ := v
  rw [hsb] at h
  simp only at h
  obtain ⟨s3, h3, h⟩ := bind_ok_inv h
  have hS : ∃ evs : List (Ev E.pcs),
      (sm = none → evs = [] ∧ s3 = { s2 with tr := tr4 }) ∧
      ∀ m, sm = some m → ∃ r, sumCheckP cp E.pcs.rank (E.setBytes sb) m.1 pwNTT s2.wNTT = .ok r ∧
        Msg3Run E t { s2 with tr := tr4 } s3 n2 r evs := by
    unfold sumStep at h3
    cases sm with
    | none =>
      injection h3 with h3
      exact ⟨[], fun _ => ⟨rfl, h3.symm⟩, by simp⟩
    | some m =>
      obtain ⟨r, hr, h3⟩ := bind_ok_inv h3
      obtain ⟨evl, hm⟩ := commit3_inv h3
      refine ⟨evl, by simp, fun m' hm' => ?_⟩
      injection hm' with hm'
      subst hm'
      exact ⟨r, hr, hm⟩
  obtain ⟨evs, hS0, hS1⟩ := hS
  cases hx : s3.tr.compute E.hash .evalPoint with
  | none => rw [hx] at h; cases h
  | some v =>
  obtain ⟨x, tr5⟩ := v
  rw [hx] at h
  simp only at h
  obtain ⟨all, hall, h⟩ := bind_ok_inv h
  obtain ⟨r, hr, h⟩ := bind_ok_inv h
  injection h with h
  injection h with h
  simp only [Prod.mk.injEq] at h
  obtain ⟨hpf, hvals⟩ := h
  subst hpf
  exact ⟨ab, lb, lc, sb, x, tr1, tr2, tr3, tr4, tr5, s1, s2, s3, n1, n2, all, eva, evl, evs,
    ⟨hab, hA0, hA1, hlb, hlc, hL0, hL1, hsb, hS0, hS1, hx, hall, hr, rfl, rfl, rfl, hvals.symm⟩⟩

end

end Ringo
