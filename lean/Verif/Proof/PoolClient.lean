import Verif.Proof.PoolEval

/-! Each operation, and each goroutine, does in memory what it does alone. -/

namespace Ringo
open PoolProg Polynomial

section
variable {F : Type} [Field F] {own ro : Nat → Prop} {base : Nat} {len : Nat → Nat} {K : Nat} {M : F[X]}
  {pt : Nat → F} {ev : Evaluator F} {held : List Nat} {h : PHeap F} {σ : Nat → Poly F}
  {Q : Bool → List Nat → PHeap F → Prop}

/-- What is known about an operation: its programs ends with the result and the polynomials of `after`. -/
def OpOk (own ro : Nat → Prop) (base : Nat) (len : Nat → Nat) (ev : Evaluator F) (o : EvalOp F) : Prop :=
  ∀ (held : List Nat) (h : PHeap F) (σ : Nat → Poly F) (Q : Bool → List Nat → PHeap F → Prop),
    PoolRel own ro len h σ →
    (∀ h', PoolRel own ro len h' (o.after ev σ).2 → Q (o.after ev σ).1 held h') →
    Runs own ro base (o.prog ev len) held h Q

theorem rd_of {own ro : Nat → Prop} {q : Nat} {held : List Nat} (h : own q ∨ ro q) :
    own q ∨ ro q ∨ q ∈ held := h.elim Or.inl fun x => Or.inr (Or.inl x)

theorem opOk_add {out p0 p1 : Nat} (ho : own out) (h0 : own p0 ∨ ro p0)
    (h1 : own p1 ∨ ro p1) : OpOk own ro base len ev (.add out p0 p1) := by
  intro held h σ Q rel hQ
  have e : (EvalOp.add out p0 p1).result ev σ = ev.addTo (polyAt len h out) (polyAt len h p0) (polyAt len h p1) := by
    rw [rel out (Or.inl ho), rel p0 h0, rel p1 h1]; rfl
  refine runs_checkB h0 h1 (fun l l0 l1 hf hc => ?_) fun hc => ?_
  · have := after_ok (o := .add out p0 p1) (ev := ev) (σ := σ)
      (P := ⟨listOf ev.rank fun i => h.c p0 i + h.c p1 i, h.f p0⟩) (by
        rw [e]; unfold Evaluator.addTo
        rw [hc, go_bind_ok, polyAt_eq h l0, polyAt_eq h l1]
        exact congrArg Except.ok (by rw [listOf_zip]))
    rw [this] at hQ
    refine runs_vec2 (Or.inl ho) (rd_of h0) (rd_of h1) (runs_getFlag (rd_of h0) (runs_putFlag (Or.inl ho)
      (runs_pure (hQ _ ?_))))
    rw [setC_f]
    exact rel.update (polyAt_set h l _ _) fun q _ e => set_keeps h _ _ e
  · have := after_panic (o := .add out p0 p1) (ev := ev) (σ := σ) (by
      rw [e]; unfold Evaluator.addTo; rw [hc]; rfl)
    rw [this] at hQ
    exact hQ h rel

theorem opOk_sub {out p0 p1 : Nat} (ho : own out) (h0 : own p0 ∨ ro p0)
    (h1 : own p1 ∨ ro p1) : OpOk own ro base len ev (.sub out p0 p1) := by
  intro held h σ Q rel hQ
  have e : (EvalOp.sub out p0 p1).result ev σ = ev.subTo (polyAt len h out) (polyAt len h p0) (polyAt len h p1) := by
    rw [rel out (Or.inl ho), rel p0 h0, rel p1 h1]; rfl
  refine runs_checkB h0 h1 (fun l l0 l1 hf hc => ?_) fun hc => ?_
  · have := after_ok (o := .sub out p0 p1) (ev := ev) (σ := σ)
      (P := ⟨listOf ev.rank fun i => h.c p0 i - h.c p1 i, h.f p0⟩) (by
        rw [e]; unfold Evaluator.subTo
        rw [hc, go_bind_ok, polyAt_eq h l0, polyAt_eq h l1]
        exact congrArg Except.ok (by rw [listOf_zip]))
    rw [this] at hQ
    refine runs_vec2 (Or.inl ho) (rd_of h0) (rd_of h1) (runs_getFlag (rd_of h0) (runs_putFlag (Or.inl ho)
      (runs_pure (hQ _ ?_))))
    rw [setC_f]
    exact rel.update (polyAt_set h l _ _) fun q _ e => set_keeps h _ _ e
  · have := after_panic (o := .sub out p0 p1) (ev := ev) (σ := σ) (by
      rw [e]; unfold Evaluator.subTo; rw [hc]; rfl)
    rw [this] at hQ
    exact hQ h rel

theorem opOk_mul {out p0 p1 : Nat} (ho : own out) (h0 : own p0 ∨ ro p0)
    (h1 : own p1 ∨ ro p1) : OpOk own ro base len ev (.mul out p0 p1) := by
  intro held h σ Q rel hQ
  have e : (EvalOp.mul out p0 p1).result ev σ = ev.mulTo (polyAt len h out) (polyAt len h p0) (polyAt len h p1) := by
    rw [rel out (Or.inl ho), rel p0 h0, rel p1 h1]; rfl
  refine runs_checkB h0 h1 (fun l l0 l1 hf hc => ?_) fun hc => ?_
  · refine runs_inputsNTT h0 h1 (fun hn => ?_) fun hn => ?_
    · have := after_ok (o := .mul out p0 p1) (ev := ev) (σ := σ)
        (P := ⟨listOf ev.rank fun i => h.c p0 i * h.c p1 i, true⟩) (by
          rw [e]; unfold Evaluator.mulTo
          rw [hc, go_bind_ok, polyAt_eq h l0, polyAt_eq h l1]
          simp only [hn]
          exact congrArg Except.ok (by rw [listOf_zip]))
      rw [this] at hQ
      refine runs_vec2 (Or.inl ho) (rd_of h0) (rd_of h1) (runs_putFlag (Or.inl ho) (runs_pure (hQ _ ?_)))
      exact rel.update (polyAt_set h l _ _) fun q _ e => set_keeps h _ _ e
    · have := after_panic (o := .mul out p0 p1) (ev := ev) (σ := σ) (by
        rw [e]; unfold Evaluator.mulTo
        rw [hc, go_bind_ok, polyAt_eq h l0, polyAt_eq h l1]
        simp only [hn, if_true])
      rw [this] at hQ
      exact hQ h rel
  · have := after_panic (o := .mul out p0 p1) (ev := ev) (σ := σ) (by
      rw [e]; unfold Evaluator.mulTo; rw [hc]; rfl)
    rw [this] at hQ
    exact hQ h rel

theorem opOk_mulAdd (hbase : ∀ q, own q ∨ ro q → q < base) {out p0 p1 : Nat}
    (ho : own out) (h0 : own p0 ∨ ro p0) (h1 : own p1 ∨ ro p1) :
    OpOk own ro base len ev (.mulAdd out p0 p1) := by
  intro held h σ Q rel hQ
  have e : (EvalOp.mulAdd out p0 p1).result ev σ =
      ev.mulAddTo (polyAt len h out) (polyAt len h p0) (polyAt len h p1) := by
    rw [rel out (Or.inl ho), rel p0 h0, rel p1 h1]; rfl
  refine runs_checkB h0 h1 (fun l l0 l1 hf hc => ?_) fun hc => ?_
  · refine runs_inputsNTT h0 h1 (fun hn => ?_) fun hn => ?_
    · have := after_ok (o := .mulAdd out p0 p1) (ev := ev) (σ := σ)
        (P := ⟨listOf ev.rank fun i => h.c out i + h.c p0 i * h.c p1 i, true⟩) (by
          rw [e]; unfold Evaluator.mulAddTo
          rw [hc, go_bind_ok, polyAt_eq h l0, polyAt_eq h l1, polyAt_eq h l]
          simp only [hn]
          exact congrArg Except.ok (by rw [listOf_zip, listOf_zip]))
      rw [this] at hQ
      refine runs_poolGet fun b r fl hb hnb => ?_
      refine runs_vec2 (Or.inr List.mem_cons_self) (rd_of h0) (rd_of h1) ?_
      refine runs_vec2 (Or.inl ho) (Or.inl ho) (Or.inr (Or.inr List.mem_cons_self)) ?_
      refine runs_putFlag (Or.inl ho) (runs_poolPut (runs_pure ?_))
      exact runs_buffered (· * ·) (· + ·) hbase ho h0 h1 l rel true rfl hQ b r fl hb
    · have := after_panic (o := .mulAdd out p0 p1) (ev := ev) (σ := σ) (by
        rw [e]; unfold Evaluator.mulAddTo
        rw [hc, go_bind_ok, polyAt_eq h l0, polyAt_eq h l1]
        simp only [hn, if_true])
      rw [this] at hQ
      exact hQ h rel
  · have := after_panic (o := .mulAdd out p0 p1) (ev := ev) (σ := σ) (by
      rw [e]; unfold Evaluator.mulAddTo; rw [hc]; rfl)
    rw [this] at hQ
    exact hQ h rel

theorem opOk_mulSub (hbase : ∀ q, own q ∨ ro q → q < base) {out p0 p1 : Nat}
    (ho : own out) (h0 : own p0 ∨ ro p0) (h1 : own p1 ∨ ro p1) :
    OpOk own ro base len ev (.mulSub out p0 p1) := by
  intro held h σ Q rel hQ
  have e : (EvalOp.mulSub out p0 p1).result ev σ =
      ev.mulSubTo (polyAt len h out) (polyAt len h p0) (polyAt len h p1) := by
    rw [rel out (Or.inl ho), rel p0 h0, rel p1 h1]; rfl
  refine runs_checkB h0 h1 (fun l l0 l1 hf hc => ?_) fun hc => ?_
  · refine runs_inputsNTT h0 h1 (fun hn => ?_) fun hn => ?_
    · have := after_ok (o := .mulSub out p0 p1) (ev := ev) (σ := σ)
        (P := ⟨listOf ev.rank fun i => h.c out i - h.c p0 i * h.c p1 i, true⟩) (by
          rw [e]; unfold Evaluator.mulSubTo
          rw [hc, go_bind_ok, polyAt_eq h l0, polyAt_eq h l1, polyAt_eq h l]
          simp only [hn]
          exact congrArg Except.ok (by rw [listOf_zip, listOf_zip]))
      rw [this] at hQ
      refine runs_poolGet fun b r fl hb hnb => ?_
      refine runs_vec2 (Or.inr List.mem_cons_self) (rd_of h0) (rd_of h1) ?_
      refine runs_vec2 (Or.inl ho) (Or.inl ho) (Or.inr (Or.inr List.mem_cons_self)) ?_
      refine runs_putFlag (Or.inl ho) (runs_poolPut (runs_pure ?_))
      exact runs_buffered (· * ·) (· - ·) hbase ho h0 h1 l rel true rfl hQ b r fl hb
    · have := after_panic (o := .mulSub out p0 p1) (ev := ev) (σ := σ) (by
        rw [e]; unfold Evaluator.mulSubTo
        rw [hc, go_bind_ok, polyAt_eq h l0, polyAt_eq h l1]
        simp only [hn, if_true])
      rw [this] at hQ
      exact hQ h rel
  · have := after_panic (o := .mulSub out p0 p1) (ev := ev) (σ := σ) (by
      rw [e]; unfold Evaluator.mulSubTo; rw [hc]; rfl)
    rw [this] at hQ
    exact hQ h rel

theorem opOk_neg {out p : Nat} (ho : own out) (h0 : own p ∨ ro p) :
    OpOk own ro base len ev (.neg out p) := by
  intro held h σ Q rel hQ
  have e : (EvalOp.neg out p).result ev σ = ev.negTo (polyAt len h out) (polyAt len h p) := by
    rw [rel out (Or.inl ho), rel p h0]; rfl
  refine runs_checkU (fun l l0 hc => ?_) fun hc => ?_
  · have := after_ok (o := .neg out p) (ev := ev) (σ := σ)
      (P := ⟨listOf ev.rank fun i => -h.c p i, h.f p⟩) (by
        rw [e]; unfold Evaluator.negTo
        rw [hc, go_bind_ok, polyAt_eq h l0]
        exact congrArg Except.ok (by rw [listOf_map]))
    rw [this] at hQ
    refine runs_vec1 (Or.inl ho) (rd_of h0) (runs_getFlag (rd_of h0) (runs_putFlag (Or.inl ho)
      (runs_pure (hQ _ ?_))))
    rw [setC_f]
    exact rel.update (polyAt_set h l _ _) fun q _ e => set_keeps h _ _ e
  · have := after_panic (o := .neg out p) (ev := ev) (σ := σ) (by
      rw [e]; unfold Evaluator.negTo; rw [hc]; rfl)
    rw [this] at hQ
    exact hQ h rel

theorem opOk_smul {out p : Nat} {c : F} (ho : own out) (h0 : own p ∨ ro p) :
    OpOk own ro base len ev (.smul out p c) := by
  intro held h σ Q rel hQ
  have e : (EvalOp.smul out p c).result ev σ = ev.scalarMulTo (polyAt len h out) (polyAt len h p) c := by
    rw [rel out (Or.inl ho), rel p h0]; rfl
  refine runs_checkU (fun l l0 hc => ?_) fun hc => ?_
  · have := after_ok (o := .smul out p c) (ev := ev) (σ := σ)
      (P := ⟨listOf ev.rank fun i => h.c p i * c, h.f p⟩) (by
        rw [e]; unfold Evaluator.scalarMulTo
        rw [hc, go_bind_ok, polyAt_eq h l0]
        exact congrArg Except.ok (by rw [listOf_map]))
    rw [this] at hQ
    refine runs_vec1 (Or.inl ho) (rd_of h0) (runs_getFlag (rd_of h0) (runs_putFlag (Or.inl ho)
      (runs_pure (hQ _ ?_))))
    rw [setC_f]
    exact rel.update (polyAt_set h l _ _) fun q _ e => set_keeps h _ _ e
  · have := after_panic (o := .smul out p c) (ev := ev) (σ := σ) (by
      rw [e]; unfold Evaluator.scalarMulTo; rw [hc]; rfl)
    rw [this] at hQ
    exact hQ h rel

omit [Field F] in
theorem buf_flag (h : PHeap F) {out b p : Nat} (r r' r'' : Nat → F) (fl : Bool) (e : p ≠ b) :
    ((((h.setC b r).setF b fl).setC b r').setC out r'').f p = h.f p := by
  rw [setC_f, setC_f, setF_ne _ _ e, setC_f]

theorem opOk_smulAdd (hbase : ∀ q, own q ∨ ro q → q < base) {out p : Nat} {c : F}
    (ho : own out) (h0 : own p ∨ ro p) : OpOk own ro base len ev (.smulAdd out p c) := by
  intro held h σ Q rel hQ
  have e : (EvalOp.smulAdd out p c).result ev σ =
      ev.scalarMulAddTo (polyAt len h out) (polyAt len h p) c := by
    rw [rel out (Or.inl ho), rel p h0]; rfl
  refine runs_checkU (fun l l0 hc => ?_) fun hc => ?_
  · have := after_ok (o := .smulAdd out p c) (ev := ev) (σ := σ)
      (P := ⟨listOf ev.rank fun i => h.c out i + h.c p i * c, h.f p⟩) (by
        rw [e]; unfold Evaluator.scalarMulAddTo
        rw [hc, go_bind_ok, polyAt_eq h l0, polyAt_eq h l]
        exact congrArg Except.ok (by rw [listOf_map, listOf_zip]))
    rw [this] at hQ
    refine runs_poolGet fun b r fl hb hnb => ?_
    refine runs_vec1 (Or.inr List.mem_cons_self) (rd_of h0) ?_
    refine runs_vec2 (Or.inl ho) (Or.inl ho) (Or.inr (Or.inr List.mem_cons_self)) ?_
    refine runs_getFlag (rd_of h0) (runs_putFlag (Or.inl ho) (runs_poolPut (runs_pure ?_)))
    rw [buf_flag h _ _ _ _ (fun e => by have := hbase p h0; omega)]
    exact runs_buffered (fun x _ => x * c) (· + ·) hbase ho h0 h0 l rel _ rfl hQ b r fl hb
  · have := after_panic (o := .smulAdd out p c) (ev := ev) (σ := σ) (by
      rw [e]; unfold Evaluator.scalarMulAddTo; rw [hc]; rfl)
    rw [this] at hQ
    exact hQ h rel

theorem opOk_smulSub (hbase : ∀ q, own q ∨ ro q → q < base) {out p : Nat} {c : F}
    (ho : own out) (h0 : own p ∨ ro p) : OpOk own ro base len ev (.smulSub out p c) := by
  intro held h σ Q rel hQ
  have e : (EvalOp.smulSub out p c).result ev σ =
      ev.scalarMulSubTo (polyAt len h out) (polyAt len h p) c := by
    rw [rel out (Or.inl ho), rel p h0]; rfl
  refine runs_checkU (fun l l0 hc => ?_) fun hc => ?_
  · have := after_ok (o := .smulSub out p c) (ev := ev) (σ := σ)
      (P := ⟨listOf ev.rank fun i => h.c out i - h.c p i * c, h.f p⟩) (by
        rw [e]; unfold Evaluator.scalarMulSubTo
        rw [hc, go_bind_ok, polyAt_eq h l0, polyAt_eq h l]
        exact congrArg Except.ok (by rw [listOf_map, listOf_zip]))
    rw [this] at hQ
    refine runs_poolGet fun b r fl hb hnb => ?_
    refine runs_vec1 (Or.inr List.mem_cons_self) (rd_of h0) ?_
    refine runs_vec2 (Or.inl ho) (Or.inl ho) (Or.inr (Or.inr List.mem_cons_self)) ?_
    refine runs_getFlag (rd_of h0) (runs_putFlag (Or.inl ho) (runs_poolPut (runs_pure ?_)))
    rw [buf_flag h _ _ _ _ (fun e => by have := hbase p h0; omega)]
    exact runs_buffered (fun x _ => x * c) (· - ·) hbase ho h0 h0 l rel _ rfl hQ b r fl hb
  · have := after_panic (o := .smulSub out p c) (ev := ev) (σ := σ) (by
      rw [e]; unfold Evaluator.scalarMulSubTo; rw [hc]; rfl)
    rw [this] at hQ
    exact hQ h rel

omit [Field F] in
theorem polyAt_row (h : PHeap F) {out n : Nat} (ho : len out = n) (r : Nat → F) (b : Bool) :
    polyAt len ((h.setC out r).setF out b) out = ⟨listOf n r, b⟩ := by
  rw [polyAt_eq _ ho, setF_c, setF_f, setC_c]

theorem opOk_ntt (hg : GoodEv K M pt ev) {out p : Nat} (ho : own out) (h0 : own p ∨ ro p) :
    OpOk own ro base len ev (.ntt out p) := by
  intro held h σ Q rel hQ
  have e : (EvalOp.ntt out p).result ev σ = ev.nttTo (polyAt len h out) (polyAt len h p) := by
    rw [rel out (Or.inl ho), rel p h0]; rfl
  refine runs_checkU (fun l l0 hc => ?_) fun hc => ?_
  · refine runs_getFlag (rd_of h0) ?_
    cases hf : h.f p with
    | true =>
      have := after_panic (o := .ntt out p) (ev := ev) (σ := σ) (by
        rw [e]; unfold Evaluator.nttTo
        rw [hc, go_bind_ok, polyAt_eq h l0]
        simp only [hf, if_true])
      rw [this] at hQ
      rw [if_pos rfl]
      exact runs_pure (hQ h rel)
    | false =>
      have hr := hg.rank
      have := after_ok (o := .ntt out p) (ev := ev) (σ := σ)
        (P := ⟨listOf ev.rank (((doublings 1 (ev.rank / 2)).flatMap fun m => layerSteps m (ev.rank / (2 * m))).foldl
          (fun r x => bflyRow butterfly (fun i => ev.ntt.tw.getD i 0) x r)
          (headRow ev.rank (fun i => id (h.c p i)) (h.c out))), true⟩) (by
          rw [e]; unfold Evaluator.nttTo
          rw [hc, go_bind_ok, polyAt_eq h l0]
          simp only [hf]
          rw [show listOf ev.rank (h.c p) = listOf (2 ^ K)
              (headRow ev.rank (fun i => id (h.c p i)) (h.c out)) by
            rw [← hr, listOf_head]; rfl,
            ntt_listOf hg _ (by rw [polyAt_length, l, hr])]
          rw [← hr]
          rfl)
      rw [this] at hQ
      rw [if_neg (by simp)]
      refine runs_vec1 (Or.inl ho) (rd_of h0) ?_
      refine runs_rows (q := out) (bflyRow butterfly (fun i => ev.ntt.tw.getD i 0)) (fun x hx h' Q' hQ' => ?_) ?_
      · refine runs_bfly ?_ (Or.inl ho) hQ'
        obtain ⟨m, hm, hx⟩ := List.mem_flatMap.1 hx
        rw [hr, doublings_half] at hm
        obtain ⟨k, hk, rfl⟩ := List.mem_map.1 hm
        rw [hr] at hx
        have hk := List.mem_range.1 hk
        refine (layerIdx_bounds hk (x := x) ?_).2.2.2
        have := steps_eq K [k] (by simpa using hk)
        simp only [List.map_cons, List.map_nil, List.flatMap_cons, List.flatMap_nil, List.append_nil] at this
        rwa [this] at hx
      · refine runs_putFlag (Or.inl ho) (runs_pure (hQ _ ?_))
        rw [setC_setC, setC_c]
        exact rel.update (polyAt_row h l _ _) fun q _ e => set_keeps h _ _ e
  · have := after_panic (o := .ntt out p) (ev := ev) (σ := σ) (by
      rw [e]; unfold Evaluator.nttTo; rw [hc]; rfl)
    rw [this] at hQ
    exact hQ h rel

theorem opOk_intt (hg : GoodEv K M pt ev) {out p : Nat} (ho : own out) (h0 : own p ∨ ro p) :
    OpOk own ro base len ev (.intt out p) := by
  intro held h σ Q rel hQ
  have e : (EvalOp.intt out p).result ev σ = ev.invNTTTo (polyAt len h out) (polyAt len h p) := by
    rw [rel out (Or.inl ho), rel p h0]; rfl
  refine runs_checkU (fun l l0 hc => ?_) fun hc => ?_
  · refine runs_getFlag (rd_of h0) ?_
    cases hf : h.f p with
    | false =>
      have := after_panic (o := .intt out p) (ev := ev) (σ := σ) (by
        rw [e]; unfold Evaluator.invNTTTo
        rw [hc, go_bind_ok, polyAt_eq h l0]
        simp only [hf]
        rfl)
      rw [this] at hQ
      rw [if_pos (by rfl)]
      exact runs_pure (hQ h rel)
    | true =>
      have hr := hg.rank
      have := after_ok (o := .intt out p) (ev := ev) (σ := σ)
        (P := ⟨listOf ev.rank fun j => ((halvings (ev.rank / 2) 1).flatMap fun m => layerSteps m (ev.rank / (2 * m))).foldl
          (fun r x => bflyRow invButterfly (fun i => ev.ntt.twInv.getD i 0) x r)
          (headRow ev.rank (fun i => id (h.c p i)) (h.c out)) j * ev.ntt.rankInv, false⟩) (by
          rw [e]; unfold Evaluator.invNTTTo
          rw [hc, go_bind_ok, polyAt_eq h l0]
          simp only [hf]
          rw [show listOf ev.rank (h.c p) = listOf (2 ^ K)
              (headRow ev.rank (fun i => id (h.c p i)) (h.c out)) by
            rw [← hr, listOf_head]; rfl,
            intt_listOf hg _ (by rw [polyAt_length, l, hr])]
          rw [← hr]
          rfl)
      rw [this] at hQ
      rw [if_neg (by simp)]
      refine runs_vec1 (Or.inl ho) (rd_of h0) ?_
      refine runs_rows (q := out) (bflyRow invButterfly (fun i => ev.ntt.twInv.getD i 0)) (fun x hx h' Q' hQ' => ?_) ?_
      · refine runs_invBfly ?_ (Or.inl ho) hQ'
        obtain ⟨m, hm, hx⟩ := List.mem_flatMap.1 hx
        rw [hr, halvings_half] at hm
        obtain ⟨k, hk, rfl⟩ := List.mem_map.1 hm
        rw [hr] at hx
        have hk : k < K := by simpa using hk
        refine (layerIdx_bounds hk (x := x) ?_).2.2.2
        have := steps_eq K [k] (by simpa using hk)
        simp only [List.map_cons, List.map_nil, List.flatMap_cons, List.flatMap_nil, List.append_nil] at this
        rwa [this] at hx
      · refine runs_vec1 (Or.inl ho) (Or.inl ho) (runs_putFlag (Or.inl ho) (runs_pure (hQ _ ?_)))
        rw [setC_setC, setC_c, setC_setC, setC_c]
        refine rel.update ?_ fun q _ e => set_keeps h _ _ e
        exact (polyAt_row h l _ _).trans (by rw [listOf_head])
  · have := after_panic (o := .intt out p) (ev := ev) (σ := σ) (by
      rw [e]; unfold Evaluator.invNTTTo; rw [hc]; rfl)
    rw [this] at hQ
    exact hQ h rel

theorem opOk_aut (hg : GoodEv K M pt ev) (hbase : ∀ q, own q ∨ ro q → q < base)
    (hbuf : ∀ (buf out p : Poly F) (i : Int), buf.coeffs.length = ev.rank →
      ev.autTo buf out p i = ev.autTo (newPoly ev.rank true) out p i)
    {out p : Nat} {i : Int} (ho : own out) (h0 : own p ∨ ro p) :
    OpOk own ro base len ev (.aut out p i) := by
  intro held h σ Q rel hQ
  have e : ∀ buf : Poly F, buf.coeffs.length = ev.rank →
      (EvalOp.aut out p i).result ev σ = ev.autTo buf (polyAt len h out) (polyAt len h p) i := by
    intro buf hb
    rw [hbuf buf _ _ _ hb, rel out (Or.inl ho), rel p h0]; rfl
  have e0 := e (newPoly ev.rank true) (by simp [newPoly])
  have hr := hg.rank
  refine runs_checkU (fun l l0 hc => ?_) fun hc => ?_
  · by_cases hi : i.tmod 2 = 0
    · have := after_panic (o := .aut out p i) (ev := ev) (σ := σ) (by
        rw [e0]; unfold Evaluator.autTo
        rw [hc, go_bind_ok, if_pos hi])
      rw [this] at hQ
      rw [if_pos hi]
      exact runs_pure (hQ h rel)
    rw [if_neg hi]
    refine runs_getFlag (rd_of h0) ?_
    have hlo := hbase out (Or.inl ho)
    have hlp := hbase p h0
    obtain ⟨j, hj⟩ : ∃ j, j = (if i.tmod (2 * (ev.rank : Int)) < 0 then
      i.tmod (2 * (ev.rank : Int)) + 2 * (ev.rank : Int) else i.tmod (2 * (ev.rank : Int))).toNat := ⟨_, rfl⟩
    cases hf : h.f p with
    | true =>
      rw [if_pos rfl]
      change Runs own ro base (autNTTProg ev.rank out p _) held h Q
      rw [← hj]
      refine runs_poolGet fun b r fl hb hnb => ?_
      have hob : out ≠ b := by omega
      have hpb : p ≠ b := by omega
      have := after_ok (o := .aut out p i) (ev := ev) (σ := σ)
        (P := ⟨listOf ev.rank ((brSwaps ev.rank).foldl (fun r x => swapRow x r)
        ((List.range ev.rank).foldl (fun r' i => gatherRow ev.rank j
          ((brSwaps ev.rank).foldl (fun r x => swapRow x r) (headRow ev.rank (h.c p) r)) i r') (h.c out))), true⟩) (by
          rw [e0]; unfold Evaluator.autTo
          rw [hc, go_bind_ok, if_neg hi, polyAt_eq h l0, polyAt_eq h l]
          simp only [hf, if_true, ← hj]
          rw [← listOf_head ev.rank (h.c p) r, hr]
          exact autNTT_listOf hg (newPoly (2 ^ K) true) (by simp [newPoly]) _ _ _ _ _)
      rw [this] at hQ
      refine runs_vec1 (Or.inr List.mem_cons_self) (rd_of h0) ?_
      refine runs_getFlag (rd_of h0) ?_
      refine runs_putFlag (Or.inr List.mem_cons_self) ?_
      refine runs_bitRev (Or.inr List.mem_cons_self) ?_
      refine runs_bind _ _ _ _ ?_
      refine runs_loop _ _ (fun i h => h.setC out (gatherRow ev.rank j (h.c b) i (h.c out)))
        (fun i _ h Q' hQ' => ?_) _ _ ?_
      · refine runs_get (Or.inr (Or.inr List.mem_cons_self)) ?_
        exact runs_put' (Or.inl ho) hQ'
      refine runs_bitRev (Or.inl ho) (runs_putFlag (Or.inl ho) (runs_poolPut (runs_pure (hQ _ ?_))))
      generalize hH : PHeap.setC _ b ((brSwaps ev.rank).foldl _ _) = H
      have hHo : H.c out = h.c out := by
        rw [← hH]; simp only [setC_ne _ _ hob, setF_c]
      have hHb : H.c b = (brSwaps ev.rank).foldl (fun r x => swapRow x r) (headRow ev.rank (h.c p) r) := by
        rw [← hH]; simp only [setC_c, setF_c, setC_ne _ _ hpb, id]
      have hHq : ∀ q, q ≠ b → H.c q = h.c q ∧ H.f q = h.f q := by
        intro q hq
        rw [← hH]
        simp only [setC_ne _ _ hq, setF_c, setC_f, setF_ne _ _ hq]
        exact ⟨trivial, trivial⟩
      have hfold := foldl_row (List.range ev.rank) out
        (fun i h => h.setC out (gatherRow ev.rank j (h.c b) i (h.c out)))
        (fun i r => gatherRow ev.rank j (H.c b) i r) H (fun x _ r => by
          rw [setC_setC, setC_c, setC_ne _ _ (Ne.symm hob)]) (H.c out)
      rw [setC_self] at hfold
      rw [hfold, setC_setC, setC_c, hHo, hHb]
      refine rel.update ((polyAt_row H l _ _).trans rfl) fun q hq e => ?_
      obtain ⟨h1, h2⟩ := set_keeps H ((brSwaps ev.rank).foldl (fun r x => swapRow x r)
        ((List.range ev.rank).foldl (fun r' i => gatherRow ev.rank j
          ((brSwaps ev.rank).foldl (fun r x => swapRow x r) (headRow ev.rank (h.c p) r)) i r') (h.c out))) true
        (show q ≠ out from e)
      have hqb : q ≠ b := by have := hbase q hq; omega
      exact ⟨h1.trans (hHq q hqb).1, h2.trans (hHq q hqb).2⟩
    | false =>
      rw [if_neg (by simp)]
      change Runs own ro base (autCoeffProg ev.rank out p _) held h Q
      rw [← hj]
      refine runs_poolGet fun b r fl hb hnb => ?_
      have hob : out ≠ b := by omega
      have hpb : p ≠ b := by omega
      have := after_ok (o := .aut out p i) (ev := ev) (σ := σ)
        (P := ⟨listOf ev.rank ((List.range ev.rank).foldl (fun r i => autRow ev.rank j (h.c p) i r) r), false⟩) (by
          rw [e ⟨listOf ev.rank r, true⟩ (by simp [listOf])]; unfold Evaluator.autTo
          rw [hc, go_bind_ok, if_neg hi, polyAt_eq h l0, polyAt_eq h l]
          simp only [hf, ← hj]
          rw [hr]
          exact autCoeff_listOf hg _ (by simp [listOf]) _ _ _ _ _)
      rw [this] at hQ
      refine runs_bind _ _ _ _ ?_
      refine runs_loop _ _ (fun i h => h.setC b (autRow ev.rank j (h.c p) i (h.c b)))
        (fun i _ h Q' hQ' => ?_) _ _ ?_
      · refine runs_get (rd_of h0) ?_
        unfold autRow at hQ'
        by_cases hlt : i * j % (2 * ev.rank) < ev.rank
        · rw [if_pos hlt] at hQ'
          simp only [if_pos hlt]
          exact runs_put' (Or.inr List.mem_cons_self) hQ'
        · rw [if_neg hlt] at hQ'
          simp only [if_neg hlt]
          exact runs_put' (Or.inr List.mem_cons_self) hQ'
      refine runs_vec1 (Or.inl ho) (Or.inr (Or.inr List.mem_cons_self)) ?_
      refine runs_getFlag (Or.inr (Or.inr List.mem_cons_self)) ?_
      refine runs_putFlag (Or.inl ho) (runs_putFlag (Or.inl ho) (runs_poolPut (runs_pure (hQ _ ?_))))
      generalize hH : (h.setC b r).setF b fl = H
      have hHb : H.c b = r := by rw [← hH]; simp only [setC_c, setF_c]
      have hHq : ∀ q, q ≠ b → H.c q = h.c q ∧ H.f q = h.f q := by
        intro q hq
        rw [← hH]
        simp only [setC_ne _ _ hq, setF_c, setC_f, setF_ne _ _ hq]
        exact ⟨trivial, trivial⟩
      have hfold := foldl_row (List.range ev.rank) b
        (fun i h => h.setC b (autRow ev.rank j (h.c p) i (h.c b)))
        (fun i r => autRow ev.rank j (H.c p) i r) H (fun x _ r => by
          rw [setC_setC, setC_c, setC_ne _ _ hpb]) (H.c b)
      rw [setC_self] at hfold
      rw [hfold, hHb, (hHq p hpb).1, setC_c]
      refine rel.update ?_ fun q hq e => ?_
      · refine (polyAt_eq _ l).trans ?_
        rw [setF_f, setF_c, setF_c, setC_c, listOf_head]
        rfl
      · have hqb : q ≠ b := by have := hbase q hq; omega
        have e : q ≠ out := e
        simp only [setF_c, setC_ne _ _ e, setC_ne _ _ hqb, setF_ne _ _ e, setC_f]
        exact hHq q hqb
  · have := after_panic (o := .aut out p i) (ev := ev) (σ := σ) (by
      rw [e0]; unfold Evaluator.autTo; rw [hc]; rfl)
    rw [this] at hQ
    exact hQ h rel

end

section
variable {F : Type} [Field F] {own ro : Nat → Prop} {base : Nat} {len : Nat → Nat} {K : Nat} {M : F[X]}
  {pt : Nat → F} {ev : Evaluator F} {R : Type} {cyc : Prop}

/-- What is needed of the evaluator: it has the tables of its rank, and `AutTo`, if it has that method,
does not depend on what is in the buffer. -/
structure PoolEv (K : Nat) (M : F[X]) (pt : Nat → F) (cyc : Prop) (ev : Evaluator F) : Prop where
  good : GoodEv K M pt ev
  buf : cyc → ∀ (buf out p : Poly F) (i : Int), buf.coeffs.length = ev.rank →
    ev.autTo buf out p i = ev.autTo (newPoly ev.rank true) out p i

theorem opOk (hev : PoolEv K M pt cyc ev) (hbase : ∀ q, own q ∨ ro q → q < base) (o : EvalOp F)
    (ho : own o.out) (hi : ∀ q ∈ o.ins, own q ∨ ro q) (ha : o.isAut = true → cyc) :
    OpOk own ro base len ev o := by
  cases o with
  | add out p q => exact opOk_add ho (hi p (by simp [EvalOp.ins])) (hi q (by simp [EvalOp.ins]))
  | sub out p q => exact opOk_sub ho (hi p (by simp [EvalOp.ins])) (hi q (by simp [EvalOp.ins]))
  | mul out p q => exact opOk_mul ho (hi p (by simp [EvalOp.ins])) (hi q (by simp [EvalOp.ins]))
  | mulAdd out p q => exact opOk_mulAdd hbase ho (hi p (by simp [EvalOp.ins])) (hi q (by simp [EvalOp.ins]))
  | mulSub out p q => exact opOk_mulSub hbase ho (hi p (by simp [EvalOp.ins])) (hi q (by simp [EvalOp.ins]))
  | neg out p => exact opOk_neg ho (hi p (by simp [EvalOp.ins]))
  | smul out p c => exact opOk_smul ho (hi p (by simp [EvalOp.ins]))
  | smulAdd out p c => exact opOk_smulAdd hbase ho (hi p (by simp [EvalOp.ins]))
  | smulSub out p c => exact opOk_smulSub hbase ho (hi p (by simp [EvalOp.ins]))
  | ntt out p => exact opOk_ntt hev.good ho (hi p (by simp [EvalOp.ins]))
  | intt out p => exact opOk_intt hev.good ho (hi p (by simp [EvalOp.ins]))
  | aut out p i => exact opOk_aut hev.good hbase (hev.buf (ha rfl)) ho (hi p (by simp [EvalOp.ins]))

/-- A goroutine gets what it gets alone. -/
theorem runs_client (hev : PoolEv K M pt cyc ev) (hbase : ∀ q, own q ∨ ro q → q < base)
    (c : PoolClient F R) (hc : c.Keeps own ro len cyc) (held : List Nat) :
    ∀ (h : PHeap F) (σ : Nat → Poly F), PoolRel own ro len h σ →
      Runs own ro base (c.prog ev len) held h
        (fun r held' h' => held' = held ∧ r = (c.alone ev σ).1 ∧ PoolRel own ro len h' (c.alone ev σ).2) := by
  induction c with
  | done r => intro h σ rel; exact ⟨rfl, rfl, rel⟩
  | call o k ih =>
    intro h σ rel
    obtain ⟨ho, hi, ha, hk⟩ := hc
    refine runs_bind _ _ _ _ ?_
    exact opOk hev hbase o ho hi ha held h σ _ rel fun h' rel' => ih _ (hk _) h' _ rel'
  | look q i k ih =>
    intro h σ rel
    obtain ⟨hq, hi, hk⟩ := hc
    refine ⟨rd_of hq, ?_⟩
    have : h.c q i = (σ q).coeffs.getD i 0 := by
      rw [← rel q hq, List.getD_eq_getElem?_getD]
      simp [polyAt, hi]
    rw [this]
    exact ih _ (hk _) h σ rel
  | lookFlag q k ih =>
    intro h σ rel
    obtain ⟨hq, hk⟩ := hc
    refine ⟨rd_of hq, ?_⟩
    have : h.f q = (σ q).isNTT := by rw [← rel q hq]; rfl
    rw [this]
    exact ih _ (hk _) h σ rel
  | set q i v k ih =>
    intro h σ rel
    obtain ⟨hq, hi, hk⟩ := hc
    refine ⟨Or.inl hq, ?_⟩
    refine ih hk _ _ (rel.update ?_ fun q' _ e => ⟨setC_ne _ _ e, by rw [setC_f]⟩)
    rw [← rel q (Or.inl hq), polyAt_eq _ rfl, polyAt_eq _ rfl, setC_c, setC_f, listOf_set]
  | setFlag q b k ih =>
    intro h σ rel
    obtain ⟨hq, hk⟩ := hc
    refine ⟨Or.inl hq, ?_⟩
    refine ih hk _ _ (rel.update ?_ fun q' _ e => ⟨by rw [setF_c], setF_ne _ _ e⟩)
    rw [← rel q (Or.inl hq), polyAt_eq _ rfl, polyAt_eq _ rfl, setF_c, setF_f]

end

section
variable {K p : Nat} [Fact p.Prime] {ev : Evaluator (ZMod p)}

theorem cyclotomic_poolEv (hK : 3 ≤ K) (hev : newCyclotomicEvaluator p (2 ^ K) = .ok ev) :
    ∃ M pt, PoolEv K M pt True ev := by
  obtain ⟨psi, -, h1, hg⟩ := cyclotomicEv_good p K hK ev hev
  refine ⟨_, _, hg, fun _ buf out q i hb => ?_⟩
  have hr := hg.rank
  by_cases hl : out.coeffs.length = 2 ^ K ∧ q.coeffs.length = 2 ^ K
  · obtain ⟨ho, hq⟩ := hl
    rcases Int.emod_two_eq_zero_or_one i with h0 | h0
    · rw [aut_even _ _ _ _ h0, aut_even _ _ _ _ h0]
    · obtain ⟨f, hf⟩ := sf_exists hg q hq
      have he : (((i % (2 * 2 ^ K)).toNat : Nat) : Int) % (2 * 2 ^ K) = i % (2 * 2 ^ K) := by
        rw [Int.toNat_of_nonneg (Int.emod_nonneg _ (by positivity)), Int.emod_emod]
      obtain ⟨w, w1, w2, w3⟩ := aut_total hg h1 buf out q f i _ h0 he (by rw [hb, hr]) ho hf
      obtain ⟨w', w1', w2', w3'⟩ := aut_total hg h1 (newPoly ev.rank true) out q f i _ h0 he
        (by simp [newPoly, hr]) ho hf
      rw [w1, w1', sf_unique hg w3 w3' (by rw [w2, w2'])]
  · have : checkUnary ev.rank out q = goPanic := by
      unfold checkUnary
      rw [if_pos (by rw [hr]; by_contra h; exact hl (by simpa using h))]
    unfold Evaluator.autTo
    rw [this]
    rfl

theorem cyclic_poolEv (hK : 3 ≤ K) (hev : newCyclicEvaluator p (2 ^ K) = .ok ev) :
    ∃ M pt, PoolEv K M pt False ev := by
  obtain ⟨w, -, hg⟩ := cyclicEv_good p K hK ev hev
  exact ⟨_, _, hg, fun h => h.elim⟩

end
end Ringo
