import Verif.Props.Protocol

/-!
# Completeness of the protocol

First that every step of the prover succeeds, then that the verifier accepts.
-/

namespace Ringo

open Finset Polynomial

set_option linter.unusedSectionVars false

section
variable {p : Nat} [Fact p.Prime] {E : Env (ZMod p)} {cp : Compilation (ZMod p)}

/-- `Commit` accepts every polynomial with between one and `Rank()` coefficients. -/
def PCS.CommitOk (P : PCS (ZMod p)) : Prop :=
  ∀ poly r, 1 ≤ poly.length → poly.length ≤ P.rank → ∃ co, P.commit poly r = .ok co

/-! ## The prover's steps succeed -/

/-- The prover's state after `V` challenges, with the slots in `T` filled. -/
structure StOk (t : Tape (ZMod p) E.pcs.Rnd) (ctx : Context (ZMod p)) (V : Nat) (T : Nat → Prop) (st : PState E.pcs) : Prop where
  tl : st.tbl.length = ctx.batch
  wl : st.wNTT.length = ctx.wCnt
  vl : st.tr.vals.length = V
  fl : ∀ i, T i → ∃ e, st.tbl[i]? = some (some e)
  made : ∀ (i : Nat) (e : List (ZMod p) × E.pcs.Com × E.pcs.Open), st.tbl[i]? = some (some e) →
    E.pcs.commit e.1 (t.com i) = .ok e.2

theorem Transcript.bind_vals (tr : Transcript) (c : Chal) (b : Bytes) :
    (tr.bind c b).vals = tr.vals := by
  unfold Transcript.bind; split <;> rfl

theorem Transcript.compute_total (hash : Bytes → Bytes) (tr : Transcript) (c : Chal)
    (h : tr.vals.length = c.pos) :
    ∃ v tr', tr.compute hash c = some (v, tr') ∧ tr'.vals.length = c.pos + 1 := by
  refine ⟨_, _, Transcript.compute_next hash tr.binds tr.vals c h.symm, ?_⟩
  simp [h]

theorem StOk.setTr {t : Tape (ZMod p) E.pcs.Rnd} {V V' : Nat} {T : Nat → Prop} {st : PState E.pcs} (h : StOk t cp.ctx V T st)
    (tr : Transcript) (ht : tr.vals.length = V') : StOk t cp.ctx V' T { st with tr := tr } :=
  ⟨h.tl, h.wl, ht, h.fl, h.made⟩

theorem commitAt_total (hP : E.pcs.CommitOk) (t : Tape (ZMod p) E.pcs.Rnd) {V : Nat} {T : Nat → Prop}
    {st : PState E.pcs} (h : StOk t cp.ctx V T st) (i : Nat) (hi : i < cp.ctx.batch)
    (poly : List (ZMod p)) (h1 : 1 ≤ poly.length) (h2 : poly.length ≤ E.pcs.rank) (c : Chal) :
    ∃ st', commitAt E t st i poly c = .ok st' ∧ StOk t cp.ctx V (fun j => T j ∨ j = i) st' ∧
      st'.wNTT = st.wNTT := by
  obtain ⟨co, hco⟩ := hP poly (t.com i) h1 h2
  have hit : i < st.tbl.length := by rw [h.tl]; exact hi
  refine ⟨⟨st.tbl.set i (some (poly, co.1, co.2)), st.wNTT, st.tr.bind c (E.pcs.ser co.1)⟩, ?_, ?_, rfl⟩
  · unfold commitAt
    rw [hco, go_bind_ok, setIdx_ok hit]; rfl
  · refine ⟨by simp [h.tl], h.wl, by rw [← h.vl]; simp [Transcript.bind_vals], ?_, ?_⟩
    swap
    · intro j e hje
      simp only at hje
      by_cases hji : i = j
      · subst hji
        rw [List.getElem?_set_self hit] at hje
        injection hje with hje
        injection hje with hje
        rw [← hje]; exact hco
      · rw [List.getElem?_set_ne hji] at hje
        exact h.made j e hje
    intro j hj
    by_cases hji : i = j
    · subst hji
      exact ⟨_, List.getElem?_set_self hit⟩
    · rcases hj with hj | hj
      · obtain ⟨e, he⟩ := h.fl j hj
        exact ⟨e, by simp only; rw [List.getElem?_set_ne hji]; exact he⟩
      · exact absurd hj.symm hji

variable {K Ke : Nat} {g ge : ZMod p}

theorem wCnt_le_next (ctx : Context (ZMod p)) : ctx.wCnt ≤ nextOf ctx := by
  unfold nextOf; omega

theorem next_le_batch (ctx : Context (ZMod p)) : nextOf ctx ≤ ctx.batch := by
  rw [batch_eq]; omega

theorem commitWitness_total (h : GoodCp K Ke g ge cp) (hP : E.pcs.CommitOk)
    (hj : 2 ^ K + 1 ≤ E.pcs.rank) (t : Tape (ZMod p) E.pcs.Rnd) {sw : List (List (ZMod p))}
    (hs : Shape cp.ctx.wCnt (2 ^ K) sw) {V : Nat} {T : Nat → Prop}
    {st : PState E.pcs} (hst : StOk t cp.ctx V T st) (i : Nat) (hi : i < cp.ctx.wCnt) (c : Chal) :
    ∃ st', commitWitness E cp t sw st i c = .ok st' ∧ StOk t cp.ctx V (fun j => T j ∨ j = i) st' := by
  obtain ⟨r1, r2⟩ := hs.row hi
  obtain ⟨w, w1, w2, -⟩ := h.randEncode (sw.getD i []) (t.enc i) r1
  obtain ⟨q, q1, -⟩ := h.toNTT w w2
  have hlt := h.lt
  unfold commitWitness
  rw [r2, go_bind_ok, w1, go_bind_ok, q1, go_bind_ok,
    setIdx_ok (show i < st.wNTT.length by rw [hst.wl]; exact hi), go_bind_ok, h.rank,
    sliceTo_ok _ _ _ (by omega) (by simp only; omega), go_bind_ok]
  have hst' : StOk t cp.ctx V T { st with wNTT := st.wNTT.set i (some q) } :=
    ⟨hst.tl, by simp [hst.wl], hst.vl, hst.fl, hst.made⟩
  obtain ⟨st', a1, a2, -⟩ := commitAt_total hP t hst' i
    (by have := wCnt_le_next cp.ctx; have := next_le_batch cp.ctx; omega)
    (w.take (2 ^ K + 1 - 0)) (by simp; omega) (by simp; omega) c
  exact ⟨st', a1, a2⟩

theorem StOk.weaken {t : Tape (ZMod p) E.pcs.Rnd} {V : Nat} {T T' : Nat → Prop} {st : PState E.pcs} (h : StOk t cp.ctx V T st)
    (hT : ∀ i, T' i → T i) : StOk t cp.ctx V T' st := 
  ⟨h.tl, h.wl, h.vl, fun i hi => h.fl i (hT i hi), h.made⟩

theorem witnesses_total (h : GoodCp K Ke g ge cp) (hP : E.pcs.CommitOk)
    (hj : 0 < cp.ctx.wCnt → 2 ^ K + 1 ≤ E.pcs.rank) (t : Tape (ZMod p) E.pcs.Rnd)
    {sw : List (List (ZMod p))}
    (hs : Shape cp.ctx.wCnt (2 ^ K) sw) {V : Nat} (c : Chal) :
    ∀ (is : List Nat) (T : Nat → Prop) (st : PState E.pcs), StOk t cp.ctx V T st →
      (∀ i ∈ is, i < cp.ctx.wCnt) →
      ∃ st', is.foldlM (fun st i => commitWitness E cp t sw st i c) st = .ok st' ∧
        StOk t cp.ctx V (fun j => T j ∨ j ∈ is) st' := by
  intro is
  induction is with
  | nil => intro T st hst _; exact ⟨st, rfl, hst.weaken (by simp)⟩
  | cons i is ih =>
    intro T st hst hlt
    have hi := hlt i (by simp)
    obtain ⟨s1, a1, a2⟩ := commitWitness_total h hP (hj (by omega)) t hs hst i hi c
    obtain ⟨st', b1, b2⟩ := ih _ s1 a2 (fun j hj => hlt j (by simp [hj]))
    refine ⟨st', ?_, b2.weaken ?_⟩
    · rw [List.foldlM_cons, a1, go_bind_ok, b1]
    · intro j hj
      simp only [List.mem_cons] at hj
      tauto

theorem maskStep_total (h : GoodCp K Ke g ge cp) (hP : E.pcs.CommitOk)
    (t : Tape (ZMod p) E.pcs.Rnd) (n maskRank : Nat) (r : Nat → ZMod p)
    (h1 : n > 0 → 2 ^ K ≤ maskRank) (h2 : n > 0 → maskRank ≤ 2 ^ Ke)
    (h3 : n > 0 → maskRank ≤ E.pcs.rank) (next : Nat)
    (hn : n > 0 → next < cp.ctx.batch) {T : Nat → Prop} {V : Nat}
    {st : PState E.pcs} (hst : StOk t cp.ctx V T st) :
    ∃ st' m, maskStep E cp t n maskRank r st next =
        .ok (st', next + (if n > 0 then 1 else 0), m) ∧
      StOk t cp.ctx V (fun j => T j ∨ n > 0 ∧ j = next) st' := by
  unfold maskStep
  by_cases hp : n > 0
  · rw [if_pos hp, if_pos hp]
    obtain ⟨mask, m1, m2, -, -⟩ := h.sumCheckMask maskRank (h1 hp) (h2 hp) r
    have hm := h2 hp
    have hpos := Nat.two_pow_pos K
    have hm1 := h1 hp
    obtain ⟨st', a1, a2, -⟩ := commitAt_total hP t hst next (hn hp) (mask.take (maskRank - 0))
      (by simp; omega) (by have := h3 hp; simp; omega) .arithBatchConst
    refine ⟨{ st' with tr := st'.tr.bind .arithBatchConst (E.marshal (r 0)) },
      some (⟨mask, false⟩, r 0), ?_, ?_⟩
    · unfold maskRound
      rw [h.rank, m1, go_bind_ok]
      simp only
      rw [sliceTo_ok _ _ _ (by omega) (by omega), go_bind_ok, a1]; rfl
    · refine (a2.setTr (V' := V) _ (by rw [Transcript.bind_vals, a2.vl])).weaken ?_
      intro j hj; tauto
  · rw [if_neg hp, if_neg hp]
    exact ⟨st, none, rfl, hst.weaken (by intro j hj; tauto)⟩

/-- What the rank of the commitment scheme has to be. -/
structure Fits (K : Nat) (ctx : Context (ZMod p)) (jrank : Nat) : Prop where
  wit : 0 < ctx.wCnt → 2 ^ K + 1 ≤ jrank
  arith : ctx.arith ≠ [] → 2 ^ K < ctx.arithCheckMaxRank ∧ ctx.arithCheckMaxRank - 2 ^ K ≤ jrank
  lin : ctx.lin ≠ [] → 2 * 2 ^ K ≤ jrank
  sum : ctx.sums ≠ [] → 2 ^ K < ctx.sumCheckMaxRank ∧ ctx.sumCheckMaxRank ≤ jrank

theorem length_pos_ne {α : Type} {l : List α} : l.length > 0 ↔ l ≠ [] := by
  rw [gt_iff_lt, List.length_pos_iff]

theorem rounds_total (h : GoodCp K Ke g ge cp) (hP : E.pcs.CommitOk) (hf : Fits K cp.ctx E.pcs.rank)
    (hlt : ∀ i ∈ cp.ctx.wSecond, i < cp.ctx.wCnt)
    (t : Tape (ZMod p) E.pcs.Rnd) (ord : Orders) {sw : List (List (ZMod p))}
    (hs : Shape cp.ctx.wCnt (2 ^ K) sw)
    (hfill : ∀ seed, ∃ sw2, projStep cp ord (projMatrix E.xof seed (2 ^ K)) sw = .ok sw2 ∧
      Shape cp.ctx.wCnt (2 ^ K) sw2) :
    ∃ st proj lm sm, proveRounds E cp t ord sw = .ok (some (st, nextOf cp.ctx, proj, lm, sm)) ∧
      StOk t cp.ctx 1 (fun i => i < nextOf cp.ctx) st := by
  have h0 : StOk t cp.ctx 0 (fun _ => False)
      ⟨List.replicate cp.ctx.batch none, List.replicate cp.ctx.wCnt none, .new⟩ :=
    ⟨by simp, by simp, rfl, by simp, by
      intro i e h
      simp only at h
      rw [List.getElem?_replicate] at h
      split at h <;> simp at h⟩
  obtain ⟨s1, a1, a2⟩ := witnesses_total h hP hf.wit t hs .projConst (firstSlots cp.ctx sw.length) _ _ h0
    (by
      intro i hi
      unfold firstSlots at hi
      rw [List.mem_filter, List.mem_range, hs.1] at hi
      exact hi.1)
  obtain ⟨seed, tr1, c1, c2⟩ := Transcript.compute_total E.hash s1.tr .projConst a2.vl
  obtain ⟨sw2, d1, d2⟩ := hfill seed
  obtain ⟨s2, e1, e2⟩ := witnesses_total h hP hf.wit t d2 .arithBatchConst cp.ctx.wSecond _ _
    (a2.setTr tr1 c2) hlt
  have hlin : ∀ {l : List (CheckerKey × List (Nat × Nat))}, l.length > 0 → l ≠ [] := fun h => length_pos_ne.1 h
  have hb := batch_eq cp.ctx
  obtain ⟨s3, lm, f1, f2⟩ := maskStep_total h hP t cp.ctx.lin.length (2 * cp.ctx.rank) t.linMask
    (by intro _; rw [h.rank]; omega) (by intro _; rw [h.rank]; exact h.lin_emb)
    (by intro hn; rw [h.rank]; exact hf.lin (length_pos_ne.1 hn)) cp.ctx.wCnt
    (by intro hn; rw [hb]; unfold nextOf; rw [if_pos hn]; omega) e2
  obtain ⟨s4, sm, g1, g2⟩ := maskStep_total h hP t cp.ctx.sums.length cp.ctx.sumCheckMaxRank t.sumMask
    (by intro hn; exact (hf.sum (length_pos_ne.1 hn)).1.le) (by intro _; exact h.sumLe)
    (by intro hn; exact (hf.sum (length_pos_ne.1 hn)).2)
    (cp.ctx.wCnt + (if cp.ctx.lin.length > 0 then 1 else 0))
    (by intro hn; rw [hb]; unfold nextOf; rw [if_pos hn]; omega) f2
  refine ⟨s4, projMatrix E.xof seed cp.ctx.rank, lm, sm, ?_, ?_⟩
  · have hfr : firstRound E cp t sw
        ⟨List.replicate cp.ctx.batch none, List.replicate cp.ctx.wCnt none, .new⟩ = .ok s1 := by
      unfold firstRound
      rw [forRange_zero, foldlM_skip (fun st i => commitWitness E cp t sw st i .projConst)
        (fun i => i ∈ cp.ctx.wSecond)]
      exact a1
    unfold proveRounds
    simp only
    rw [hfr, go_bind_ok]
    simp only [c1]
    rw [h.rank, d1, go_bind_ok]
    unfold secondRound
    rw [e1, go_bind_ok]
    rw [h.rank] at f1
    rw [f1, go_bind_ok]
    simp only
    rw [g1]
    rfl
  · refine g2.weaken ?_
    intro i hi
    by_cases hw : i < cp.ctx.wCnt
    · left; left
      by_cases his : i ∈ cp.ctx.wSecond
      · exact .inr his
      · left; right
        unfold firstSlots
        rw [List.mem_filter, List.mem_range, hs.1]
        exact ⟨hw, by simpa using his⟩
    · unfold nextOf at hi
      by_cases h1 : cp.ctx.lin.length > 0
      · rw [if_pos h1] at hi ⊢
        by_cases h2 : cp.ctx.sums.length > 0
        · rw [if_pos h2] at hi
          by_cases h3 : i = cp.ctx.wCnt
          · exact .inl (.inr ⟨h1, h3⟩)
          · exact .inr ⟨h2, by omega⟩
        · rw [if_neg h2] at hi
          exact .inl (.inr ⟨h1, by omega⟩)
      · rw [if_neg h1] at hi ⊢
        by_cases h2 : cp.ctx.sums.length > 0
        · rw [if_pos h2] at hi
          exact .inr ⟨h2, by omega⟩
        · rw [if_neg h2] at hi
          omega

theorem commit3_total (hP : E.pcs.CommitOk) (t : Tape (ZMod p) E.pcs.Rnd) {V : Nat} {T : Nat → Prop}
    {st : PState E.pcs} (h : StOk t cp.ctx V T st) (i : Nat) (hi : i + 2 < cp.ctx.batch)
    (m : List (ZMod p) × List (ZMod p) × List (ZMod p))
    (h1 : 1 ≤ m.1.length ∧ m.1.length ≤ E.pcs.rank)
    (h2 : 1 ≤ m.2.1.length ∧ m.2.1.length ≤ E.pcs.rank)
    (h3 : 1 ≤ m.2.2.length ∧ m.2.2.length ≤ E.pcs.rank) :
    ∃ st', commit3 E t st i m = .ok st' ∧
      StOk t cp.ctx V (fun j => T j ∨ j = i ∨ j = i + 1 ∨ j = i + 2) st' ∧ st'.wNTT = st.wNTT := by
  obtain ⟨s1, a1, a2, a3⟩ := commitAt_total hP t h i (by omega) m.1 h1.1 h1.2 .evalPoint
  obtain ⟨s2, b1, b2, b3⟩ := commitAt_total hP t a2 (i + 1) (by omega) m.2.1 h2.1 h2.2 .evalPoint
  obtain ⟨s3, c1, c2, c3⟩ := commitAt_total hP t b2 (i + 2) (by omega) m.2.2 h3.1 h3.2 .evalPoint
  refine ⟨s3, ?_, c2.weaken (by intro j hj; tauto), by rw [c3, b3, a3]⟩
  unfold commit3
  rw [a1, go_bind_ok, b1, go_bind_ok, c1]

theorem mapM_slot_total {α : Type} (tbl : List (Option α)) :
    ∀ (is : List Nat), (∀ i ∈ is, ∃ e, tbl[i]? = some (some e)) →
      ∃ all, is.mapM (fun i => slot tbl i) = .ok all ∧ all.length = is.length
  | [], _ => ⟨[], rfl, rfl⟩
  | i :: is, h => by
    obtain ⟨e, he⟩ := h i (by simp)
    obtain ⟨all, h1, h2⟩ := mapM_slot_total tbl is (fun j hj => h j (by simp [hj]))
    refine ⟨e :: all, ?_, by simp [h2]⟩
    have hs : slot tbl i = .ok e := by
      unfold slot
      rw [idx_ok_iff.2 he]; rfl
    rw [List.mapM_cons, hs, go_bind_ok, h1]; rfl

/-- What the prover's three checks deliver. -/
structure ChecksOk (E : Env (ZMod p)) (cp : Compilation (ZMod p)) (proj : List (List Bool))
    (pwNTT : List (Poly (ZMod p))) (wNTT : List (Option (Poly (ZMod p))))
    (lm sm : Option (Poly (ZMod p) × ZMod p)) : Prop where
  arith : cp.ctx.arith.length > 0 → ∀ b, ∃ quo, arithCheckP cp b pwNTT wNTT = .ok quo ∧
    1 ≤ quo.length ∧ quo.length ≤ E.pcs.rank
  lin : ∀ m, lm = some m → cp.ctx.lin.length > 0 ∧ ∀ b lc, ∃ r,
    linCheckP cp E.users proj E.pcs.rank b lc m.1 wNTT = .ok r ∧
    (1 ≤ r.1.length ∧ r.1.length ≤ E.pcs.rank) ∧ (1 ≤ r.2.1.length ∧ r.2.1.length ≤ E.pcs.rank) ∧
    (1 ≤ r.2.2.length ∧ r.2.2.length ≤ E.pcs.rank)
  lin0 : lm = none → cp.ctx.lin.length = 0
  sum : ∀ m, sm = some m → cp.ctx.sums.length > 0 ∧ ∀ b, ∃ r,
    sumCheckP cp E.pcs.rank b m.1 pwNTT wNTT = .ok r ∧
    (1 ≤ r.1.length ∧ r.1.length ≤ E.pcs.rank) ∧ (1 ≤ r.2.1.length ∧ r.2.1.length ≤ E.pcs.rank) ∧
    (1 ≤ r.2.2.length ∧ r.2.2.length ≤ E.pcs.rank)
  sum0 : sm = none → cp.ctx.sums.length = 0

theorem checks_total (hP : E.pcs.CommitOk) (t : Tape (ZMod p) E.pcs.Rnd)
    {pwNTT : List (Poly (ZMod p))} {st : PState E.pcs} {proj : List (List Bool)}
    {lm sm : Option (Poly (ZMod p) × ZMod p)} (hst : StOk t cp.ctx 1 (fun i => i < nextOf cp.ctx) st)
    (hc : ChecksOk E cp proj pwNTT st.wNTT lm sm)
    (hev : ∀ (x : ZMod p) (polys : List (List (ZMod p) × E.pcs.Com × E.pcs.Open)),
      polys.length = cp.ctx.batch →
      (∀ (i : Nat) (e : List (ZMod p) × E.pcs.Com × E.pcs.Open), polys[i]? = some e →
        E.pcs.commit e.1 (t.com i) = .ok e.2) →
      ∃ r, E.pcs.evaluate x (polys.map (·.1)) (polys.map (·.2.1)) (polys.map (·.2.2)) t.ev = .ok r) :
    ∃ r, proveChecks E cp t pwNTT (st, nextOf cp.ctx, proj, lm, sm) = .ok (some r) := by
  have hb := batch_eq cp.ctx
  obtain ⟨ab, tr1, a1, a2⟩ := Transcript.compute_total E.hash st.tr .arithBatchConst hst.vl
  have hst1 := hst.setTr tr1 a2
  obtain ⟨s1, b1, b2, b3⟩ : ∃ s1, arithStep E cp t pwNTT ab { st with tr := tr1 } (nextOf cp.ctx) =
      .ok (s1, nextOf cp.ctx + (if cp.ctx.arith.length > 0 then 1 else 0)) ∧
      StOk t cp.ctx 2 (fun i => i < nextOf cp.ctx + (if cp.ctx.arith.length > 0 then 1 else 0)) s1 ∧
      s1.wNTT = st.wNTT := by
    unfold arithStep
    by_cases hn : cp.ctx.arith.length > 0
    · rw [if_pos hn, if_pos hn]
      rw [if_pos hn] at hb
      obtain ⟨quo, q1, q2, q3⟩ := hc.arith hn (E.setBytes ab)
      obtain ⟨s1, c1, c2, c3⟩ := commitAt_total hP t hst1 (nextOf cp.ctx) (by omega) quo q2 q3 .evalPoint
      refine ⟨s1, ?_, c2.weaken (by intro j hj; omega), c3⟩
      simp only
      rw [q1, go_bind_ok, c1]; rfl
    · rw [if_neg hn, if_neg hn]
      exact ⟨_, rfl, hst1.weaken (by intro j hj; omega), rfl⟩
  obtain ⟨lb, tr2, d1, d2⟩ := Transcript.compute_total E.hash s1.tr .linCheckBatchConst b2.vl
  obtain ⟨lc, tr3, d3, d4⟩ := Transcript.compute_total E.hash tr2 .linCheckConst d2
  have hst2 := b2.setTr tr3 d4
  set n1 := nextOf cp.ctx + (if cp.ctx.arith.length > 0 then 1 else 0) with hn1
  obtain ⟨s2, e1, e2, e3⟩ : ∃ s2, linStep E cp t proj lm lb lc { s1 with tr := tr3 } n1 =
      .ok (s2, n1 + (if cp.ctx.lin.length > 0 then 3 else 0)) ∧
      StOk t cp.ctx 4 (fun i => i < n1 + (if cp.ctx.lin.length > 0 then 3 else 0)) s2 ∧
      s2.wNTT = st.wNTT := by
    cases hl : lm with
    | none =>
      rw [if_neg (by rw [hc.lin0 hl]; omega)]
      exact ⟨_, rfl, hst2.weaken (by intro j hj; omega), b3⟩
    | some m =>
      obtain ⟨hn, hr⟩ := hc.lin m hl
      obtain ⟨r, r1, r2, r3, r4⟩ := hr (E.setBytes lb) (E.setBytes lc)
      rw [if_pos hn]
      rw [if_pos hn] at hb
      obtain ⟨s2, c1, c2, c3⟩ := commit3_total hP t hst2 n1 (by omega) r r2 r3 r4
      refine ⟨s2, ?_, c2.weaken (by intro j hj; omega), by rw [c3]; exact b3⟩
      unfold linStep
      simp only
      rw [b3, r1, go_bind_ok, ← b3, c1]; rfl
  obtain ⟨sb, tr4, f1, f2⟩ := Transcript.compute_total E.hash s2.tr .sumCheckBatchConst e2.vl
  have hst3 := e2.setTr tr4 f2
  set n2 := n1 + (if cp.ctx.lin.length > 0 then 3 else 0) with hn2
  obtain ⟨s3, g1, g2⟩ : ∃ s3, sumStep E cp t pwNTT sm sb { s2 with tr := tr4 } n2 = .ok s3 ∧
      StOk t cp.ctx 5 (fun i => i < cp.ctx.batch) s3 := by
    cases hl : sm with
    | none =>
      rw [if_neg (show ¬ cp.ctx.sums.length > 0 by rw [hc.sum0 hl]; omega)] at hb
      exact ⟨_, rfl, hst3.weaken (by intro j hj; omega)⟩
    | some m =>
      obtain ⟨hn, hr⟩ := hc.sum m hl
      obtain ⟨r, r1, r2, r3, r4⟩ := hr (E.setBytes sb)
      rw [if_pos hn] at hb
      obtain ⟨s3, c1, c2, c3⟩ := commit3_total hP t hst3 n2 (by omega) r r2 r3 r4
      refine ⟨s3, ?_, c2.weaken (by intro j hj; omega)⟩
      unfold sumStep
      simp only
      rw [e3, r1, go_bind_ok, ← e3, c1]
  obtain ⟨x, tr5, i1, -⟩ := Transcript.compute_total E.hash s3.tr .evalPoint g2.vl
  obtain ⟨all, j1, j2⟩ := mapM_slot_total s3.tbl (List.range s3.tbl.length)
    (fun i hi => g2.fl i (by rw [← g2.tl]; exact List.mem_range.1 hi))
  obtain ⟨-, hall⟩ := slots_inv _ _ j1
  obtain ⟨r, k1⟩ := hev (E.setBytes x) all (by rw [j2, List.length_range, g2.tl]) (by
    intro i e he
    have hi : i < s3.tbl.length := by
      have := (List.getElem?_eq_some_iff.1 he).1
      rw [j2, List.length_range] at this; exact this
    obtain ⟨e', he'⟩ := g2.fl i (by rw [← g2.tl]; exact hi)
    have := hall i e' he'
    rw [he] at this
    injection this with this
    subst this
    exact g2.made i e he')
  refine ⟨(⟨all.map (·.2.1), lm.map (·.2), sm.map (·.2), r.1, r.2⟩, tr5.vals), ?_⟩
  unfold proveChecks
  simp only [a1, b1, go_bind_ok, d1, d3, e1, f1, g1, i1, j1, k1]
  rfl

/-! ## The verifier accepts -/

theorem evalAt_take {l : List (ZMod p)} {m : Nat} (h : (listPoly l).degree < (m : WithBot ℕ))
    (x : ZMod p) : evalAt (l.take m).length (l.take m) x = (listPoly l).eval x := by
  rw [← listPoly_eval, listPoly_take l m h]

/-- What the prover's checks deliver for an honest prover, and that the verifier accepts it. -/
structure ChecksGood (E : Env (ZMod p)) (cp : Compilation (ZMod p)) (t : Tape (ZMod p) E.pcs.Rnd)
    (proj : List (List Bool))
    (pwNTT : List (Poly (ZMod p))) (wNTT : List (Option (Poly (ZMod p))))
    (pps wps : List (List (ZMod p))) : Prop where
  arith : cp.ctx.arith ≠ [] → ∀ b, ∃ quo, arithCheckP cp b pwNTT wNTT = .ok quo ∧
    1 ≤ quo.length ∧ quo.length ≤ E.pcs.rank ∧ ∀ x evals, EvalsOf wps x evals →
      arithCheckV cp.ctx b (expU64 x cp.ctx.rank - 1) (evalAt quo.length quo x) evals
        (pps.map (fun e => evalAt e.length e x)) = .ok true
  lin : cp.ctx.lin ≠ [] → ∃ m poly,
    sumCheckMask cp.ev cp.ctx.rank (2 * cp.ctx.rank) t.linMask = .ok m ∧
    sliceTo m.1.coeffs (2 * cp.ctx.rank) 0 = .ok poly ∧ ∀ b lc, ∃ r,
    linCheckP cp E.users proj E.pcs.rank b lc m.1 wNTT = .ok r ∧
    (1 ≤ r.1.length ∧ r.1.length ≤ E.pcs.rank) ∧ (1 ≤ r.2.1.length ∧ r.2.1.length ≤ E.pcs.rank) ∧
    (1 ≤ r.2.2.length ∧ r.2.2.length ≤ E.pcs.rank) ∧ ∀ x evals, EvalsOf wps x evals →
      linCheckV cp E.users proj E.pcs.rank b lc (evalAt poly.length poly x) x
        (expU64 x cp.ctx.rank - 1) m.2 (evalAt r.1.length r.1 x) (evalAt r.2.1.length r.2.1 x)
        (evalAt r.2.2.length r.2.2 x) evals = .ok true
  sum : cp.ctx.sums ≠ [] → ∃ m poly,
    sumCheckMask cp.ev cp.ctx.rank cp.ctx.sumCheckMaxRank t.sumMask = .ok m ∧
    sliceTo m.1.coeffs cp.ctx.sumCheckMaxRank 0 = .ok poly ∧ ∀ b, ∃ r,
    sumCheckP cp E.pcs.rank b m.1 pwNTT wNTT = .ok r ∧
    (1 ≤ r.1.length ∧ r.1.length ≤ E.pcs.rank) ∧ (1 ≤ r.2.1.length ∧ r.2.1.length ≤ E.pcs.rank) ∧
    (1 ≤ r.2.2.length ∧ r.2.2.length ≤ E.pcs.rank) ∧ ∀ x evals, EvalsOf wps x evals →
      sumCheckV cp.ctx E.pcs.rank b (evalAt poly.length poly x) x
        (expU64 x cp.ctx.rank - 1) m.2 (evalAt r.1.length r.1 x) (evalAt r.2.1.length r.2.1 x)
        (evalAt r.2.2.length r.2.2 x) evals (pps.map (fun e => evalAt e.length e x)) = .ok true

theorem checksGood (h : GoodCp K Ke g ge cp) (hf : Fits K cp.ctx E.pcs.rank)
    (t : Tape (ZMod p) E.pcs.Rnd) {proj : List (List Bool)}
    {pw sw wps pps : List (List (ZMod p))} {pwNTT : List (Poly (ZMod p))}
    {wNTT : List (Option (Poly (ZMod p)))}
    (hpw : Shape cp.ctx.pwCnt (2 ^ K) pw) (hsw : Shape cp.ctx.wCnt (2 ^ K) sw)
    (hwl : wps.length = sw.length) (hpl : pps.length = pw.length)
    (ht : NttTables Ke (X ^ 2 ^ Ke - 1) (fun i => ge ^ rev Ke i) pw.length sw.length pwNTT wNTT
      (witPoly pps) (witPoly wps))
    (p4 : ∀ i < pw.length, (witPoly pps i).natDegree ≤ 2 ^ K - 1 ∧
        ∀ j < 2 ^ K, (witPoly pps i).eval (g ^ rev K j) = (pw.getD i []).getD j 0)
    (p5 : ∀ i < sw.length, (witPoly wps i).natDegree ≤ 2 ^ K ∧
        ∀ j < 2 ^ K, (witPoly wps i).eval (g ^ rev K j) = (sw.getD i []).getD j 0)
    {pw0 w0 : Nat} (hr : CtxRefs pw0 w0 cp.ctx)
    (hA : ∀ i < 2 ^ K, (cp.ctx.arith.map (fun c => c.onRow pw sw i)).sum = 0)
    (hS : ∀ c ∈ cp.ctx.sums, ∑ i ∈ range (2 ^ K), c.onRow pw sw i = 0)
    (hL : LinHolds cp E.users proj sw) (hlin : LinOK (2 ^ K) E.users proj cp.ctx.lin) :
    ChecksGood E cp t proj pwNTT wNTT pps wps := by
  have hK8 : 2 ^ 3 ≤ 2 ^ K := Nat.pow_le_pow_right (by norm_num) h.hK
  refine ⟨?_, ?_, ?_⟩
  · intro hne b
    obtain ⟨f1, f2⟩ := hf.arith hne
    obtain ⟨quo, q1, q2, q3⟩ := arithCheck_run h hwl hpl ht p4 p5
      (by rw [hpw.1, hsw.1]; exact hr.arith) f1.le hA b
    exact ⟨quo, q1, by omega, by omega, q3⟩
  · intro hne
    have f1 := hf.lin hne
    obtain ⟨mask, m1, m2, m3, m4⟩ := h.sumCheckMask (2 * 2 ^ K) (by omega) h.lin_emb t.linMask
    have hle := h.lin_emb
    rw [h.rank]
    refine ⟨_, mask.take (2 * 2 ^ K - 0), m1,
      sliceTo_ok _ _ _ (by omega) (by simp only; omega), ?_⟩
    intro b lc
    obtain ⟨quo, lo, hi, e1, e2, e3, e4, e5⟩ := linComplete h hwl ht p5 hsw.2 hlin
      (by rw [hsw.1]; exact hr.lin) hL (jrank := E.pcs.rank) (by omega) b lc mask m2
      (listPoly_degree_of_zero mask _ m3) (t.linMask 0) m4
    refine ⟨(quo, lo, hi), e1, ⟨by simp only; omega, by simp only; omega⟩,
      ⟨by simp only; omega, by simp only; omega⟩, ⟨by simp only; omega, by simp only; omega⟩, ?_⟩
    intro x evals hev
    have := e5 x evals hev
    rw [Nat.sub_zero, evalAt_take (listPoly_degree_of_zero mask _ m3), ← listPoly_eval,
      ← listPoly_eval, ← listPoly_eval, ← h.rank]
    exact this
  · intro hne
    obtain ⟨f1, f2⟩ := hf.sum hne
    obtain ⟨mask, m1, m2, m3, m4⟩ := h.sumCheckMask cp.ctx.sumCheckMaxRank f1.le h.sumLe t.sumMask
    have hle := h.sumLe
    rw [h.rank]
    refine ⟨_, mask.take (cp.ctx.sumCheckMaxRank - 0), m1,
      sliceTo_ok _ _ _ (by omega) (by simp only; omega), ?_⟩
    intro b
    obtain ⟨quo, lo, hi, e1, e2, e3, e4, e5⟩ := sumCheck_run h hwl hpl ht p4 p5
      (by rw [hpw.1, hsw.1]; exact hr.sums) f1.le (jrank := E.pcs.rank) (by omega) b mask m2
      (listPoly_degree_of_zero mask _ m3) (t.sumMask 0) m4
    refine ⟨(quo, lo, hi), e1, ⟨by simp only; omega, by simp only; omega⟩,
      ⟨by simp only; omega, by simp only; omega⟩, ⟨by simp only; omega, by simp only; omega⟩, ?_⟩
    intro x evals hev
    have h1 := e5 x evals hev
    have h0 : ∑ i ∈ range (2 ^ K), (cp.ctx.sums.map (fun c => c.onRow pw sw i)).sum = 0 := by
      rw [sum_map_sum]
      have : cp.ctx.sums.map (fun c => ∑ i ∈ range (2 ^ K), c.onRow pw sw i) =
          cp.ctx.sums.map (fun _ => (0 : ZMod p)) := List.map_congr_left (fun c hc => hS c hc)
      rw [this]; simp
    rw [h0] at h1
    rw [Nat.sub_zero, evalAt_take (listPoly_degree_of_zero mask _ m3), ← listPoly_eval,
      ← listPoly_eval, ← listPoly_eval, ← h.rank, h1]
    simp

end

end Ringo
