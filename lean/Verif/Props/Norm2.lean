import Verif.Proof.Honest

/-!
# C43 - C45: several two-norm constraints, repeated infinity-norm constraints, approximate norm
-/

namespace Ringo

open Finset

section
variable {p : Nat} [Fact p.Prime]

/-! ## C43 -/

/-- If the digits written for `e` are those of `v`, its sum constraint has the value
`squared norm - v`. -/
theorem two_digits {N : Nat} {pw pw' sw sw' : List (List (ZMod p))} {e : TwoEntry}
    {base : List Nat} (hb : decomposeBase e.bound = .ok base) (hB : 2 ≤ e.bound) (hp : 2 * e.bound < p)
    (hN : base.length ≤ N) (v : Nat)
    (p3 : ∀ i, cell pw' e.base i = if i < base.length then ((base.getD i 0 : Nat) : ZMod p)
        else cell pw e.base i)
    (z1 : ∀ i, cell pw e.base i = 0)
    (s1 : ∀ i, cell sw' e.dcmp i = if i < base.length then
        (((decomposeBig v base p).getD i 0 : Int) : ZMod p) else cell sw e.dcmp i)
    (s2 : ∀ i, cell sw' e.id i = cell sw e.id i)
    (hw : v ≤ e.bound) (hpow : (∃ k, e.bound = 2 ^ k) → v ≠ e.bound) :
    ∑ i ∈ range N, (sqSum e : Constraint (ZMod p)).onRow pw' sw' i =
      ∑ i ∈ range N, cell sw e.id i ^ 2 - (v : ZMod p) := by
  have : NeZero p := ⟨(Fact.out : p.Prime).ne_zero⟩
  have hsr : signedRep v p = v := by
    unfold signedRep; rw [if_neg (by omega)]
  obtain ⟨base', b1, b2, b3, b4⟩ := dcmp_signed e.bound hB p v (by rw [hsr]; simpa using hw) (by
    intro hk; rw [hsr]; have := hpow hk; simpa using this)
  rw [hb] at b1; cases b1
  have hdl : (decomposeBig v base p).length = base.length := b2
  have h1 : ∑ i ∈ range N, rowOf pw' i e.base * rowOf sw' i e.dcmp =
      ((recombine (decomposeBig v base p) base : Int) : ZMod p) := by
    rw [← sum_recombine base _ hdl]
    push_cast
    rw [← sum_subset (s₁ := range base.length) (by
      intro i hi; rw [mem_range] at hi ⊢; omega)]
    · apply sum_congr rfl
      intro i hi
      rw [mem_range] at hi
      have h2 : rowOf pw' i e.base = _ := p3 i
      have h3 : rowOf sw' i e.dcmp = _ := s1 i
      rw [h2, h3, if_pos hi, if_pos hi]
    · intro i _ hi
      rw [mem_range] at hi
      have h2 : rowOf pw' i e.base = _ := p3 i
      rw [h2, if_neg hi, z1, zero_mul]
  have h2 : ∑ i ∈ range N, (sqSum e : Constraint (ZMod p)).onRow pw' sw' i =
      ∑ i ∈ range N, cell sw e.id i ^ 2 - ∑ i ∈ range N, rowOf pw' i e.base * rowOf sw' i e.dcmp := by
    rw [← sum_sub_distrib]
    apply sum_congr rfl
    intro i _
    unfold Constraint.onRow
    rw [sqSum_value]
    have : rowOf sw' i e.id = cell sw e.id i := s2 i
    rw [this]; ring
  rw [h2, h1, b4, hsr]
  simp

/-- **C43, the part that holds.** With any number of two-norm constraints on different witnesses
(`TwoOrder`: the slots allocated for them are different and exist), and whatever the order of
iteration, a constraint is satisfied by what the prover writes if the squared norms of all
witnesses visited *before* it are zero modulo `p`.  In particular the first one visited is. -/
theorem C43_partial {m n N : Nat} (order pre post : List TwoEntry) (e : TwoEntry)
    (hsplit : order = pre ++ e :: post) (ho : TwoOrder m n N order)
    (pw sw : List (List (ZMod p))) (hpw : Shape m N pw) (hsw : Shape n N sw) (hp : 2 * e.bound < p)
    (h0 : ∀ i, rowOf pw i e.base = 0 ∧ rowOf pw i e.mask = 0 ∧ rowOf sw i e.dcmp = 0)
    (hpre : ∀ f ∈ pre, ∑ i ∈ range N, rowOf sw i f.id ^ 2 = 0)
    (hw : Within ((∑ i ∈ range N, rowOf sw i e.id ^ 2).val : Int) e.bound) :
    ∃ pw' sw', fillTwo N order (pw, sw) = .ok (pw', sw') ∧
      (∀ i, (sqBin e : Constraint (ZMod p)).onRow pw' sw' i = 0) ∧
      ∑ i ∈ range N, (sqSum e : Constraint (ZMod p)).onRow pw' sw' i = 0 := by
  have : NeZero p := ⟨(Fact.out : p.Prime).ne_zero⟩
  have hm : e ∈ order := by rw [hsplit]; simp
  obtain ⟨k1, k2, k3, k4, k5, k6, k7⟩ := ho.ok e hm
  obtain ⟨base, hb, -⟩ := decomposeBase_spec e.bound k6
  obtain ⟨pw', sw', a', r1, r2, r3, r4, r5, r6, r7, r8⟩ := twoFold_spec order pw sw 0 ho hpw hsw
  have hrun : (0 + (pre.map (fun e => sqNorm N sw e.id)).sum + sqNorm N sw e.id) % p =
      sqNorm N sw e.id % p := by
    have : (((pre.map (fun e => sqNorm N sw e.id)).sum : Nat) : ZMod p) = 0 := by
      clear hsplit r5
      induction pre with
      | nil => simp
      | cons f fs ih =>
        rw [List.map_cons, List.sum_cons, Nat.cast_add, ih (fun g hg => hpre g (by simp [hg])),
          sqNorm_cast]
        have := hpre f (by simp)
        exact (add_zero _).trans this
    rw [ZMod.natCast_eq_zero_iff] at this
    obtain ⟨q, hq⟩ := this
    rw [hq, zero_add, Nat.mul_add_mod]
  refine ⟨pw', sw', ?_, ?_⟩
  · rw [fillTwo_eq]
    simp only
    rw [r1]; rfl
  · refine twoEntry_complete hb k6 hp (k7 base hb) (pw := pw) (sw := sw)
      (fun i => (r7 e hm base hb i).1) (fun i => (r7 e hm base hb i).2) (fun i => (h0 i).1)
      (fun i => (h0 i).2.2) ?_ ?_ ?_ ?_
    · intro i
      rw [r5 pre e post hsplit base hb i, hrun]
    · exact r6 e.id (fun f hf => ho.sep e hm f hf)
    · have := hw.1
      rw [Nat.abs_cast] at this
      exact_mod_cast this
    · rintro ⟨k, hk⟩ heq
      refine hw.2 ⟨k, ?_, hk⟩ ?_
      · by_contra hk0
        rw [show k = 0 by omega] at hk
        omega
      · rw [Nat.abs_cast]
        exact_mod_cast heq

/-- The second of two visited constraints fails if the first witness has nonzero norm. -/
theorem two_second_wrong {m n N : Nat} (e1 e : TwoEntry) (ho : TwoOrder m n N [e1, e])
    (pw sw : List (List (ZMod p))) (hpw : Shape m N pw) (hsw : Shape n N sw) (hp : 2 * e.bound < p)
    (h0 : ∀ i, rowOf pw i e.base = 0)
    (hpre : ∑ i ∈ range N, rowOf sw i e1.id ^ 2 ≠ 0)
    (hw : (∑ i ∈ range N, rowOf sw i e1.id ^ 2).val + (∑ i ∈ range N, rowOf sw i e.id ^ 2).val < e.bound) :
    ∃ pw' sw', fillTwo N [e1, e] (pw, sw) = .ok (pw', sw') ∧
      ∑ i ∈ range N, (sqSum e : Constraint (ZMod p)).onRow pw' sw' i ≠ 0 := by
  have : NeZero p := ⟨(Fact.out : p.Prime).ne_zero⟩
  have hm : e ∈ [e1, e] := by simp
  obtain ⟨k1, k2, k3, k4, k5, k6, k7⟩ := ho.ok e hm
  obtain ⟨base, hb, -⟩ := decomposeBase_spec e.bound k6
  obtain ⟨pw', sw', a', r1, r2, r3, r4, r5, r6, r7, r8⟩ := twoFold_spec [e1, e] pw sw 0 ho hpw hsw
  have hrun : (0 + (([e1] : List TwoEntry).map (fun e => sqNorm N sw e.id)).sum + sqNorm N sw e.id) % p =
      (∑ i ∈ range N, rowOf sw i e1.id ^ 2).val + (∑ i ∈ range N, rowOf sw i e.id ^ 2).val := by
    have h1 : sqNorm N sw e1.id % p = (∑ i ∈ range N, rowOf sw i e1.id ^ 2).val := by
      have := sqNorm_cast N sw e1.id
      rw [← ZMod.val_natCast, this]; rfl
    have h2 : sqNorm N sw e.id % p = (∑ i ∈ range N, rowOf sw i e.id ^ 2).val := by
      have := sqNorm_cast N sw e.id
      rw [← ZMod.val_natCast, this]; rfl
    simp only [List.map_cons, List.map_nil, List.sum_cons, List.sum_nil, zero_add, add_zero]
    rw [Nat.add_mod, h1, h2, Nat.mod_eq_of_lt (by omega)]
  refine ⟨pw', sw', ?_, ?_⟩
  · rw [fillTwo_eq]
    simp only
    rw [r1]; rfl
  · rw [two_digits hb k6 hp (k7 base hb) (pw := pw) (sw := sw) _
      (fun i => (r7 e hm base hb i).1) h0 (fun i => by
        rw [r5 [e1] e [] rfl base hb i, hrun]) (r6 e.id (fun f hf => ho.sep e hm f hf))
      (le_of_lt hw) (fun _ => ne_of_lt hw)]
    push_cast
    rw [ZMod.natCast_zmod_val, ZMod.natCast_zmod_val]
    intro h
    apply hpre
    have h3 : ∑ i ∈ range N, cell sw e.id i ^ 2 = ∑ i ∈ range N, rowOf sw i e.id ^ 2 := rfl
    rw [h3] at h
    linear_combination -h

/-- **C43 fails.** Take any context without two-norm constraints and add one on each of two different
witnesses whose squared norms `s1`, `s2` are nonzero and whose sum is below both bounds.  Then both
assignments meet their bounds, but in both orders of iteration what the prover writes violates the
sum constraint of the witness visited second, and which one that is depends on the order. -/
theorem C43_refuted (ctx : Context (ZMod p)) (w1 w2 B1 B2 : Nat) (hctx : ctx.twoDcmp = [])
    (hne : w1 ≠ w2) (hw1 : w1 < ctx.wCnt) (hw2 : w2 < ctx.wCnt)
    (hB1 : 2 * B1 < p) (hB2 : 2 * B2 < p)
    (hlen1 : ∀ base, decomposeBase B1 = .ok base → base.length ≤ ctx.rank)
    (hlen2 : ∀ base, decomposeBase B2 = .ok base → base.length ≤ ctx.rank)
    (pw sw : List (List (ZMod p)))
    (hpw : Shape (ctx.pwCnt + 4) ctx.rank pw) (hsw : Shape (ctx.wCnt + 2) ctx.rank sw)
    (hpz : ∀ a ≥ ctx.pwCnt, ∀ i, rowOf pw i a = 0) (hsz : ∀ a ≥ ctx.wCnt, ∀ i, rowOf sw i a = 0)
    (hs1 : ∑ i ∈ range ctx.rank, rowOf sw i w1 ^ 2 ≠ 0)
    (hs2 : ∑ i ∈ range ctx.rank, rowOf sw i w2 ^ 2 ≠ 0)
    (hlt1 : (∑ i ∈ range ctx.rank, rowOf sw i w1 ^ 2).val +
      (∑ i ∈ range ctx.rank, rowOf sw i w2 ^ 2).val < B1)
    (hlt2 : (∑ i ∈ range ctx.rank, rowOf sw i w1 ^ 2).val +
      (∑ i ∈ range ctx.rank, rowOf sw i w2 ^ 2).val < B2) :
    ∃ e1 e2 c1 c2, ((ctx.addSq w1 B1).addSq w2 B2).twoDcmp = [e1, e2] ∧
      ((ctx.addSq w1 B1).addSq w2 B2).sums = ctx.sums ++ [c1, c2] ∧
      (∃ pw' sw', fillTwo ctx.rank [e1, e2] (pw, sw) = .ok (pw', sw') ∧
        ∑ i ∈ range ctx.rank, c1.onRow pw' sw' i = 0 ∧ ∑ i ∈ range ctx.rank, c2.onRow pw' sw' i ≠ 0) ∧
      (∃ pw' sw', fillTwo ctx.rank [e2, e1] (pw, sw) = .ok (pw', sw') ∧
        ∑ i ∈ range ctx.rank, c2.onRow pw' sw' i = 0 ∧ ∑ i ∈ range ctx.rank, c1.onRow pw' sw' i ≠ 0) := by
  have : NeZero p := ⟨(Fact.out : p.Prime).ne_zero⟩
  have hv1 : 0 < (∑ i ∈ range ctx.rank, rowOf sw i w1 ^ 2).val := ZMod.val_pos.mpr hs1
  have hv2 : 0 < (∑ i ∈ range ctx.rank, rowOf sw i w2 ^ 2).val := ZMod.val_pos.mpr hs2
  have ok1 : TwoOK (ctx.pwCnt + 4) (ctx.wCnt + 2) ctx.rank (sqEntry ctx w1 B1) := by
    constructor <;> simp only [sqEntry] <;> first | omega | exact hlen1
  have ok2 : TwoOK (ctx.pwCnt + 4) (ctx.wCnt + 2) ctx.rank (sqEntry (ctx.addSq w1 B1) w2 B2) := by
    constructor <;> simp only [sqEntry, Context.addSq, Context.addArith, Context.addSum] <;>
      first | omega | exact hlen2
  have hd : (sqEntry ctx w1 B1).dcmp = ctx.wCnt ∧ (sqEntry (ctx.addSq w1 B1) w2 B2).dcmp = ctx.wCnt + 1 ∧
      (sqEntry ctx w1 B1).base = ctx.pwCnt ∧ (sqEntry ctx w1 B1).mask = ctx.pwCnt + 1 ∧
      (sqEntry (ctx.addSq w1 B1) w2 B2).base = ctx.pwCnt + 2 ∧
      (sqEntry (ctx.addSq w1 B1) w2 B2).mask = ctx.pwCnt + 3 ∧
      (sqEntry ctx w1 B1).id = w1 ∧ (sqEntry (ctx.addSq w1 B1) w2 B2).id = w2 ∧
      (sqEntry ctx w1 B1).bound = B1 ∧ (sqEntry (ctx.addSq w1 B1) w2 B2).bound = B2 :=
    ⟨rfl, rfl, rfl, rfl, rfl, rfl, rfl, rfl, rfl, rfl⟩
  have hsums : ((ctx.addSq w1 B1).addSq w2 B2).sums = ctx.sums ++
      [sqSum (sqEntry ctx w1 B1), sqSum (sqEntry (ctx.addSq w1 B1) w2 B2)] := by
    rw [(addSq_spec (ctx.addSq w1 B1) w2 B2).2.1, (addSq_spec ctx w1 B1).2.1]; simp
  have htwo : ((ctx.addSq w1 B1).addSq w2 B2).twoDcmp =
      [sqEntry ctx w1 B1, sqEntry (ctx.addSq w1 B1) w2 B2] := by
    rw [(addSq_spec (ctx.addSq w1 B1) w2 B2).2.2.2.1, (addSq_spec ctx w1 B1).2.2.2.1, hctx]
    simp [sqEntry, hne]
  generalize sqEntry ctx w1 B1 = e1 at *
  generalize sqEntry (ctx.addSq w1 B1) w2 B2 = e2 at *
  obtain ⟨d1, d2, d3, d4, d5, d6, d7, d8, d9, d10⟩ := hd
  have o12 : TwoOrder (ctx.pwCnt + 4) (ctx.wCnt + 2) ctx.rank [e1, e2] := by
    refine ⟨?_, ?_, ?_, ?_⟩
    · intro e he
      rcases List.mem_pair.mp he with rfl | rfl
      · exact ok1
      · exact ok2
    · intro e he f hf
      rcases List.mem_pair.mp he with rfl | rfl <;> rcases List.mem_pair.mp hf with rfl | rfl <;> omega
    · simp; omega
    · simp; omega
  have o21 : TwoOrder (ctx.pwCnt + 4) (ctx.wCnt + 2) ctx.rank [e2, e1] := by
    refine ⟨?_, ?_, ?_, ?_⟩
    · intro e he
      rcases List.mem_pair.mp he with rfl | rfl
      · exact ok2
      · exact ok1
    · intro e he f hf
      rcases List.mem_pair.mp he with rfl | rfl <;> rcases List.mem_pair.mp hf with rfl | rfl <;> omega
    · simp; omega
    · simp; omega
  refine ⟨e1, e2, _, _, htwo, hsums, ?_, ?_⟩
  · obtain ⟨pw', sw', r1, -, r3⟩ := C43_partial [e1, e2] [] [e2] e1 rfl o12 pw sw hpw hsw (by omega)
      (fun i => ⟨hpz _ (by omega) i, hpz _ (by omega) i, hsz _ (by omega) i⟩) (by simp) (by
        rw [d7, d9]
        refine ⟨?_, fun _ => ?_⟩
        · rw [Nat.abs_cast]; omega
        · rw [Nat.abs_cast]; omega)
    obtain ⟨pw'', sw'', q1, q2⟩ := two_second_wrong e1 e2 o12 pw sw hpw hsw (by omega)
      (fun i => hpz _ (by omega) i) (by rw [d7]; exact hs1) (by rw [d7, d8, d10]; exact hlt2)
    rw [r1] at q1; cases q1
    exact ⟨_, _, r1, r3, q2⟩
  · obtain ⟨pw', sw', r1, -, r3⟩ := C43_partial [e2, e1] [] [e1] e2 rfl o21 pw sw hpw hsw (by omega)
      (fun i => ⟨hpz _ (by omega) i, hpz _ (by omega) i, hsz _ (by omega) i⟩) (by simp) (by
        rw [d8, d10]
        refine ⟨?_, fun _ => ?_⟩
        · rw [Nat.abs_cast]; omega
        · rw [Nat.abs_cast]; omega)
    obtain ⟨pw'', sw'', q1, q2⟩ := two_second_wrong e2 e1 o21 pw sw hpw hsw (by omega)
      (fun i => hpz _ (by omega) i) (by rw [d8]; exact hs2) (by rw [d7, d8, d9]; omega)
    rw [r1] at q1; cases q1
    exact ⟨_, _, r1, r3, q2⟩

/-! ## C44 -/

/-- **C44 fails.** Take a context without infinity-norm constraints and constrain the same witness
twice, with bounds of at least 2.  The map of digit witnesses only keeps the second call, so for every
assignment with a nonzero entry the prover's table violates one of the constraints.  Nothing is said
about the entry except that it is not zero: it may well meet both bounds. -/
theorem C44_refuted (ctx ctx1 ctx2 : Context (ZMod p)) (w : Nat) (B1 B2 : Int) (hctx : ctx.infDcmp = [])
    (hB1 : 2 ≤ B1) (hB2 : 2 ≤ B2) (h1 : ctx.addInf w B1 = .ok ctx1) (h2 : ctx1.addInf w B2 = .ok ctx2)
    (hw : w < ctx.wCnt) (order : List InfEntry) (hord : order.Perm ctx2.infDcmp)
    (sw : List (List (ZMod p))) (hsw : Shape ctx2.wCnt ctx.rank sw)
    (hz : ∀ a ≥ ctx.wCnt, ∀ i, rowOf sw i a = 0) (i : Nat) (hi : rowOf sw i w ≠ 0) :
    ∃ sw', fillInf ctx.rank order sw = .ok sw' ∧
      (∀ a < ctx.wCnt, ∀ j, rowOf sw' j a = rowOf sw j a) ∧
      ∀ pw, ∃ c ∈ ctx2.arith, c.onRow pw sw' i ≠ 0 := by
  obtain ⟨b1, a1, a2, a3, a4, a5⟩ := addInf_arith hB1 h1
  obtain ⟨b2, c1, c2, c3, c4, c5⟩ := addInf_arith hB2 h2
  rw [hctx] at a3
  rw [a3] at c3
  simp only [List.filter_nil, List.nil_append, ne_eq, not_true_eq_false, decide_false, List.filter_cons,
    Bool.false_eq_true, if_false] at c3
  rw [c3, List.perm_singleton] at hord
  have ho : InfOrder ctx2.wCnt order := by
    rw [hord]
    refine ⟨?_, ?_, by simp⟩
    · intro e he
      rw [List.mem_singleton] at he
      subst he
      refine ⟨by simp only; omega, by simp only; omega, ?_, ?_, ?_⟩
      · intro x hx
        simp only [List.mem_map, List.mem_range] at hx
        obtain ⟨a, ha, rfl⟩ := hx
        omega
      · exact (List.nodup_range).map (fun a b h => by simpa using h)
      · intro base hb
        rw [c1] at hb; cases hb; simp
    · intro e he e' he'
      rw [List.mem_singleton] at he he'
      subst he; subst he'
      simp only [List.mem_map, List.mem_range, not_exists, not_and]
      intro x _; omega
  obtain ⟨sw', f1, f2, f3, f4⟩ := fillInf_spec order ho sw hsw
  have hold : ∀ a < ctx1.wCnt, ∀ j, cell sw' a j = cell sw a j := by
    intro a ha
    apply f4
    intro e he
    rw [hord, List.mem_singleton] at he
    subst he
    simp only [List.mem_map, List.mem_range, not_exists, not_and]
    intro x _; omega
  refine ⟨sw', f1, fun a ha j => hold a (by omega) j, fun pw => ?_⟩
  refine ⟨Context.infDcmpConstraint w b1 ((List.range b1.length).map (ctx.wCnt + ·)), ?_, ?_⟩
  · rw [c2, a2]; simp
  · unfold Constraint.onRow
    rw [infDcmp_value]
    have hzero : (List.zipWith (fun (b d : Nat) => (b : ZMod p) * rowOf sw' i d) b1
        ((List.range b1.length).map (ctx.wCnt + ·))).sum = 0 := by
      apply List.sum_eq_zero
      intro x hx
      obtain ⟨k, hk, rfl⟩ := List.getElem_of_mem hx
      rw [List.getElem_zipWith]
      simp only [List.length_zipWith, List.length_map, List.length_range, min_self] at hk
      simp only [List.getElem_map, List.getElem_range]
      have := hold (ctx.wCnt + k) (by omega) i
      rw [rowOf_cell, this, ← rowOf_cell, hz _ (by omega), mul_zero]
    rw [hzero, sub_zero, rowOf_cell, hold w (by omega) i]
    exact hi

/-- **C44, the part that holds** (and the completeness half of C41, C42 and C45 in combination). Let a
circuit be defined by any calls that mention existing witnesses, with at most one infinity-norm
constraint of bound at least 2 per witness, at most one two-norm constraint, and at most one
approximate constraint per witness.  For every assignment meeting all of them and every order of
iteration, what the prover writes satisfies every constraint of the circuit, and the caller's vectors
are unchanged. -/
theorem C44_partial (hp2 : p % 2 = 1) (N ty pw0 w0 : Nat) (ops : List (CtxOp (ZMod p)))
    (ctx : Context (ZMod p)) (hdef : (newContext (ZMod p) N ty pw0 w0).define ops = .ok ctx)
    (hv : ∀ op ∈ ops, op.Valid pw0 w0) (hinf : (ops.filterMap CtxOp.infId).Nodup)
    (hsq : (ops.filterMap CtxOp.sqId).length ≤ 1) (happ : (ops.filterMap CtxOp.approxId).Nodup)
    (ord : Orders) (hord : GoodOrders ctx ord) (users : Nat → LinearChecker (ZMod p))
    (pw sw : List (List (ZMod p))) (hpw : Shape ctx.pwCnt N pw) (hsw : Shape ctx.wCnt N sw)
    (hpz : ∀ a ≥ pw0, ∀ i, rowOf pw i a = 0) (hsz : ∀ a ≥ w0, ∀ i, rowOf sw i a = 0)
    (hon : ∀ op ∈ ops, op.HonestFor N users pw sw) (proj : List (List Bool))
    (hproj : proj.length = 128 ∧ ∀ r ∈ proj, r.length = N) :
    ∃ s1 pw' s2 sw', fillInf N ord.inf sw = .ok s1 ∧ fillTwo N ord.two (pw, s1) = .ok (pw', s2) ∧
      (if ctx.hasProj then fillProj ord proj s2 else pure s2) = .ok sw' ∧
      (∀ a < pw0, ∀ i < N, rowOf pw' i a = rowOf pw i a) ∧
      (∀ a < w0, ∀ i < N, rowOf sw' i a = rowOf sw i a) ∧
      (∀ c ∈ ctx.arith, ∀ i < N, c.onRow pw' sw' i = 0) ∧
      (∀ c ∈ ctx.sums, ∑ i ∈ range N, c.onRow pw' sw' i = 0) ∧
      (∀ e ∈ ctx.lin, ∀ x ∈ e.2, ∃ L, resolve users proj e.1 = .ok L ∧
        L.transformTo (List.replicate N 0) (sw'.getD x.2 []) = .ok (sw'.getD x.1 [])) := by
  have hsqn : (ops.filterMap CtxOp.sqId).Nodup := by
    match h : ops.filterMap CtxOp.sqId, hsq with
    | [], _ => simp
    | [_], _ => simp
    | _ :: _ :: _, h2 => simp at h2
  have hprov := Prov.define ops hv [] _ _ (by simpa using hinf) (by simpa using hsqn)
    (by simpa using happ) (Prov.new N ty pw0 w0) hdef
  rw [List.nil_append] at hprov
  obtain ⟨s1, pw', sw1, a1, a2, a3, a4, a5, a6, a7, a8⟩ := fill_master hp2 hprov hv hord
    (by rw [hprov.twoLen]; exact hsq) users hpw hsw (fun a ha i => hpz a ha i) (fun a ha i => hsz a ha i) hon
  obtain ⟨sw2, b1, b2, b3, b4, b5, b6⟩ := a8 proj hproj
  refine ⟨s1, pw', sw1, sw2, a1, a2, b1, fun a ha i _ => a6 a ha i, ?_, b4, b5, b6⟩
  intro a ha i _
  rw [rowOf_cell, b3 a (fun hm => ?_) i]
  · exact a7 a ha i
  · have hge := hprov.ge
    rcases List.mem_append.mp (hprov.second.mem_iff.mp hm) with h | h
    · obtain ⟨e, he, rfl⟩ := List.mem_map.mp h
      have := (hge.proj e he).1; omega
    · obtain ⟨e, he, rfl⟩ := List.mem_map.mp h
      have := (hge.projInf e he).1; omega

/-! ## C45 -/

theorem goodBase_last {bs : List Nat} (h : GoodBase bs) : bs.getD (bs.length - 1) 0 = 1 ∧ 1 ≤ bs.length := by
  induction h with
  | last => simp
  | @cons b bs h1 h2 h3 ih =>
    obtain ⟨ih1, ih2⟩ := ih
    refine ⟨?_, by simp⟩
    rw [List.length_cons, Nat.add_sub_cancel, show bs.length = (bs.length - 1) + 1 by omega,
      List.getD_cons_succ]
    exact ih1

/-- **C45 fails.** `AddApproxInfNormConstraint` adds two linear relations and nothing else: no
constraint makes the digits small.  So for every matrix with at least one nonzero entry `(i, j)` and
every table of witnesses there is a table `sw'`, differing only in the constrained witness and the two
auxiliary witnesses, that satisfies everything the call added although the `i`-th projection of the
witness exceeds `rank * B`. -/
theorem C45_refuted (hp2 : p % 2 = 1) (ctx ctx' : Context (ZMod p)) (w B : Nat)
    (h : ctx.addApprox w B = .ok ctx')
    (hw : w < ctx.wCnt) (hB : 2 ≤ ctx.rank * B) (hp : 2 * (ctx.rank * B + 1) < p) (h128 : 128 ≤ ctx.rank)
    (hfit : ∀ base, decomposeBase (ctx.rank * B) = .ok base → 128 * base.length ≤ ctx.rank)
    (users : Nat → LinearChecker (ZMod p)) (proj : List (List Bool))
    (hproj : proj.length = 128 ∧ ∀ r ∈ proj, r.length = ctx.rank) (i j : Nat) (hi : i < 128)
    (hj : j < ctx.rank) (hij : (proj.getD i []).getD j false = true)
    (sw : List (List (ZMod p))) (hsw : Shape ctx'.wCnt ctx.rank sw) :
    ctx'.arith = ctx.arith ∧ ctx'.sums = ctx.sums ∧
    ∃ sw', Shape ctx'.wCnt ctx.rank sw' ∧ (∀ a < ctx.wCnt, a ≠ w → sw'.getD a [] = sw.getD a []) ∧
      (∀ e ∈ ctx'.lin, ∀ x ∈ e.2, (∃ e' ∈ ctx.lin, e'.1 = e.1 ∧ x ∈ e'.2) ∨
        ∃ L, resolve users proj e.1 = .ok L ∧
          L.transformTo (List.replicate ctx.rank 0) (sw'.getD x.2 []) = .ok (sw'.getD x.1 [])) ∧
      |(∑ k ∈ range ctx.rank, (if (proj.getD i []).getD k false then rowOf sw' k w else 0)).valMinAbs| >
        (ctx.rank * B : Nat) := by
  unfold Context.addApprox at h
  obtain ⟨base, hb, h⟩ := bind_ok_inv h
  have hb : decomposeBase (ctx.rank * B) = .ok base := hb
  injection h with h
  have hlin : ctx'.lin = Context.linAppend (.recomp ctx.wCnt (ctx.rank * B)) (ctx.wCnt, ctx.wCnt + 1)
      (Context.linAppend .proj (ctx.wCnt, w) ctx.lin) := by rw [← h]; rfl
  have hcnt : ctx'.wCnt = ctx.wCnt + 2 := by rw [← h]; rfl
  refine ⟨by rw [← h]; rfl, by rw [← h]; rfl, ?_⟩
  clear h
  obtain ⟨base', hb', hgood, -⟩ := decomposeBase_spec _ hB
  rw [hb] at hb'; cases hb'
  obtain ⟨hlast, hlen⟩ := goodBase_last hgood
  have hfit := hfit base hb
  set N := ctx.rank with hN
  set v : List (ZMod p) := (List.range N).map (fun k => if k = j then ((N * B + 1 : Nat) : ZMod p) else 0) with hv
  have hvl : v.length = N := by simp [hv]
  have hvD : ∀ k < N, v.getD k 0 = if k = j then ((N * B + 1 : Nat) : ZMod p) else 0 := by
    intro k hk
    rw [hv, List.getD_eq_getElem?_getD, List.getElem?_map, List.getElem?_range hk]; rfl
  set u := projVec N proj v with hu
  set d : List (ZMod p) := (List.range N).map (fun k =>
    if k % base.length = base.length - 1 ∧ k / base.length < 128 then u.getD (k / base.length) 0 else 0) with hd
  have hdD : ∀ k < N, d.getD k 0 = if k % base.length = base.length - 1 ∧ k / base.length < 128 then
      u.getD (k / base.length) 0 else 0 := by
    intro k hk
    rw [hd, List.getD_eq_getElem?_getD, List.getElem?_map, List.getElem?_range hk]; rfl
  obtain ⟨s1, q1, q2, q3, q4⟩ := setRow_spec hsw (a := w) (by omega) v hvl
  obtain ⟨s2, r1, r2, r3, r4⟩ := setRow_spec q2 (a := ctx.wCnt) (by omega) u (projVec_length _ _ _)
  obtain ⟨s3, t1, t2, t3, t4⟩ := setRow_spec r2 (a := ctx.wCnt + 1) (by omega) d (by simp [hd])
  have e1 : s3.getD w [] = v := by rw [t4 w (by omega), r4 w (by omega), q3]
  have e2 : s3.getD ctx.wCnt [] = u := by rw [t4 _ (by omega), r3]
  refine ⟨s3, t2, ?_, ?_, ?_⟩
  · intro a ha hne
    rw [t4 a (by omega), r4 a (by omega), q4 a hne]
  · rw [hlin]
    let P : CheckerKey → Nat × Nat → Prop := fun k x => (∃ e' ∈ ctx.lin, e'.1 = k ∧ x ∈ e'.2) ∨
        ∃ L, resolve users proj k = .ok L ∧
          L.transformTo (List.replicate N 0) (s3.getD x.2 []) = .ok (s3.getD x.1 [])
    refine linAppend_from P _ _ _ (Or.inr ?_) (linAppend_from P _ _ _ (Or.inr ?_) ?_)
    · simp only
      rw [t3, e2]
      have hnew : ∃ L : LinearChecker (ZMod p), newProjRecomposeChecker (N * B) = .ok L := by
        unfold newProjRecomposeChecker; rw [hb]; exact ⟨_, rfl⟩
      obtain ⟨L, hL⟩ := hnew
      refine ⟨L, hL, ?_⟩
      obtain ⟨-, base', hb', hspec⟩ := C33_projRecomposeChecker (F := ZMod p) N (N * B) L hL
      rw [hb] at hb'; cases hb'
      obtain ⟨y, y1, y2, y3⟩ := hspec (List.replicate N 0) d (by simp) (by simp [hd])
      rw [y1]
      congr 1
      apply List.ext_getElem?
      intro k
      by_cases hk : k < N
      · rw [y3 k hk, List.getElem?_eq_getElem (by rw [projVec_length]; exact hk)]
        congr 1
        have hud : u[k]'(by rw [projVec_length]; exact hk) = u.getD k 0 := by
          rw [List.getD_eq_getElem?_getD, List.getElem?_eq_getElem (by rw [projVec_length]; exact hk)]; rfl
        rw [hud, hu, projVec_getD _ _ hk]
        split_ifs with hk2
        · have hk3 : ∀ l < base.length, k * base.length + l < N := by
            intro l hl
            have h1 : (k + 1) * base.length ≤ N / base.length * base.length :=
              Nat.mul_le_mul_right _ hk2
            have h2 := Nat.div_mul_le_self N base.length
            rw [Nat.add_mul, one_mul] at h1
            omega
          have hdk : ∀ l < base.length, d.getD (k * base.length + l) 0 =
              if l = base.length - 1 ∧ k < 128 then u.getD k 0 else 0 := by
            intro l hl
            rw [hdD _ (hk3 l hl), Nat.mul_comm k, Nat.mul_add_mod, Nat.mod_eq_of_lt hl,
              Nat.mul_add_div (by omega), Nat.div_eq_of_lt hl, add_zero]
          rw [sum_congr rfl (fun l hl => by rw [hdk l (mem_range.mp hl)]),
            sum_eq_single (base.length - 1)]
          · rw [hlast]
            by_cases hk4 : k < 128
            · rw [if_pos ⟨rfl, hk4⟩, hu, projVec_getD _ _ hk]; simp
            · rw [if_neg (by tauto)]
              unfold projVal
              rw [if_neg hk4]; simp
          · intro l hl hne
            rw [if_neg (by tauto), mul_zero]
          · intro hl
            exact absurd (mem_range.mpr (by omega)) hl
        · unfold projVal
          rw [if_neg]
          intro hk4
          apply hk2
          have : 128 ≤ N / base.length := by
            rw [Nat.le_div_iff_mul_le (by omega)]; exact hfit
          omega
      · rw [List.getElem?_eq_none (by omega), List.getElem?_eq_none (by rw [projVec_length]; omega)]
    · simp only
      rw [e1, e2]
      exact ⟨_, rfl, proj_apply h128 hproj _ _ (by simp) hvl⟩
    · intro e he x hx
      exact Or.inl ⟨e, he, rfl, hx⟩
  · have hsum : ∑ k ∈ range N, (if (proj.getD i []).getD k false then rowOf s3 k w else 0) =
        (((N * B + 1 : Nat) : Int) : ZMod p) := by
      rw [sum_eq_single j]
      · rw [hij, if_pos rfl, rowOf, e1, hvD j hj, if_pos rfl]
        push_cast; rfl
      · intro k hk hne
        rw [rowOf, e1, hvD k (mem_range.mp hk), if_neg hne]; simp
      · intro hn; exact absurd (mem_range.mpr hj) hn
    rw [valMinAbs_of hsum (le_refl _) (by rw [Nat.abs_cast]; exact_mod_cast hp), Nat.abs_cast]
    exact_mod_cast Nat.lt_succ_self _

/-- **C45, the part that holds.** If the two linear relations of `AddApproxInfNormConstraint(w, B)` hold
and *in addition* every entry of the digit witness is -1, 0 or 1 (the constraint that is commented out
in the code), every random projection of `w` is at most `rank * B` in absolute value. -/
theorem C45_partial (N B : Nat) (hB : 2 ≤ N * B) (hp : 2 * (N * B) < p) (h128 : 128 ≤ N)
    (hfit : ∀ base, decomposeBase (N * B) = .ok base → 128 * base.length ≤ N)
    (proj : List (List Bool)) (hproj : proj.length = 128 ∧ ∀ r ∈ proj, r.length = N)
    (users : Nat → LinearChecker (ZMod p)) (wProj : Nat) (L : LinearChecker (ZMod p))
    (hL : resolve users proj (.recomp wProj (N * B)) = .ok L) (v u d : List (ZMod p))
    (hv : v.length = N) (hd : d.length = N)
    (h1 : (projChecker proj).transformTo (List.replicate N 0) v = .ok u)
    (h2 : L.transformTo (List.replicate N 0) d = .ok u)
    (htern : ∀ x ∈ d, x = -1 ∨ x = 0 ∨ x = 1) (i : Nat) (hi : i < 128) :
    |(∑ k ∈ range N, (if (proj.getD i []).getD k false then v.getD k 0 else 0)).valMinAbs| ≤
      (N * B : Nat) := by
  obtain ⟨-, base, hb, hspec⟩ := C33_projRecomposeChecker (F := ZMod p) N (N * B) L hL
  obtain ⟨base', hb', hgood, hs1, hs2⟩ := decomposeBase_spec _ hB
  rw [hb] at hb'; cases hb'
  obtain ⟨-, hspec'⟩ := C33_projChecker (F := ZMod p) N h128 proj hproj.1 hproj.2
  obtain ⟨y, y1, y2, y3⟩ := hspec (List.replicate N 0) d (by simp) hd
  obtain ⟨y', y1', y2', y3'⟩ := hspec' (List.replicate N 0) v (by simp) hv
  rw [h1] at y1'; rw [h2] at y1; cases y1; cases y1'
  have hfit := hfit base hb
  have hlen := (goodBase_last hgood).2
  have h3 := y3 i (by omega)
  rw [y3' i (by omega), if_pos hi, if_pos (by
    have : 128 ≤ N / base.length := by
      rw [Nat.le_div_iff_mul_le (by omega)]; exact hfit
    omega)] at h3
  rw [Option.some.inj h3]
  have hz : ∀ l : Nat, ∃ z : Int, (z = -1 ∨ z = 0 ∨ z = 1) ∧ d.getD (i * base.length + l) 0 = (z : ZMod p) := by
    intro l
    by_cases hl : i * base.length + l < d.length
    · have hm : d.getD (i * base.length + l) 0 ∈ d := by
        rw [List.getD_eq_getElem?_getD, List.getElem?_eq_getElem hl]; exact List.getElem_mem _
      rcases htern _ hm with h | h | h <;> rw [h]
      · exact ⟨-1, by simp, by simp⟩
      · exact ⟨0, by simp, by simp⟩
      · exact ⟨1, by simp, by simp⟩
    · exact ⟨0, by simp, by
        rw [List.getD_eq_getElem?_getD, List.getElem?_eq_none (by omega)]; simp⟩
  choose z hz1 hz2 using hz
  have hsum : ∑ l ∈ range base.length, (base.getD l 0 : ZMod p) * d.getD (i * base.length + l) 0 =
      ((recombine ((List.range base.length).map z) base : Int) : ZMod p) := by
    rw [← sum_digits base _ (by simp)]
    apply sum_congr rfl
    intro l hl
    rw [hz2 l]
    congr 2
    rw [List.getD_eq_getElem?_getD, List.getElem?_map, List.getElem?_range (mem_range.mp hl)]; rfl
  have hbd := recombine_bound ((List.range base.length).map z) base (by
    intro d hd
    obtain ⟨a, -, rfl⟩ := List.mem_map.mp hd
    exact hz1 a)
  have hle : base.sum ≤ N * B := by
    by_cases hpow : ∃ k, N * B = 2 ^ k
    · rw [hs2 hpow]; omega
    · rw [hs1 hpow]
  have hle' : |recombine ((List.range base.length).map z) base| ≤ ((N * B : Nat) : Int) :=
    le_trans hbd (by exact_mod_cast hle)
  rw [valMinAbs_of hsum hle' (by exact_mod_cast hp)]
  exact hle'

/-! ## The hypotheses can be met -/

/-- Two witnesses `(1, 0, ...)`, `(0, 1, 0, ...)` and free slots. -/
def sw43 : List (List (ZMod 97)) :=
  [[1, 0, 0, 0, 0, 0, 0, 0], [0, 1, 0, 0, 0, 0, 0, 0], List.replicate 8 0, List.replicate 8 0]

/-- For `C43_refuted`: both witnesses bounded by 5. -/
example : (newContext (ZMod 97) 8 0 0 2).twoDcmp = [] ∧ 2 * 5 < 97 ∧
    (∀ base, decomposeBase 5 = .ok base → base.length ≤ 8) ∧
    Shape 4 8 (List.replicate 4 (List.replicate 8 (0 : ZMod 97))) ∧ Shape 4 8 sw43 ∧
    (∑ i ∈ range 8, rowOf sw43 i 0 ^ 2).val + (∑ i ∈ range 8, rowOf sw43 i 1 ^ 2).val < 5 ∧
    ∑ i ∈ range 8, rowOf sw43 i 0 ^ 2 ≠ 0 ∧ ∑ i ∈ range 8, rowOf sw43 i 1 ^ 2 ≠ 0 := by
  refine ⟨rfl, by norm_num, fun base h => ?_, ⟨rfl, by decide +kernel⟩, ⟨rfl, by decide +kernel⟩,
    by decide +kernel, by decide +kernel, by decide +kernel⟩
  rw [base5] at h; cases h; decide

/-- For `C43_partial`: the entry made for the second witness, visited first. -/
example : TwoOrder 4 4 8 [⟨1, 5, 2, 3, 3⟩, ⟨0, 5, 0, 1, 2⟩] ∧
    Within ((∑ i ∈ range 8, rowOf sw43 i 1 ^ 2).val : Int) 5 := by
  have hb : ∀ base, decomposeBase 5 = .ok base → base.length ≤ 8 := fun base h => by
    rw [base5] at h; cases h; decide
  refine ⟨⟨?_, by decide, by decide, by decide⟩, ?_⟩
  · intro e he
    rcases List.mem_pair.mp he with rfl | rfl <;>
      exact ⟨by decide, by decide, by decide, by decide, by decide, by decide, hb⟩
  · have : (∑ i ∈ range 8, rowOf sw43 i 1 ^ 2).val = 1 := by decide +kernel
    rw [this]
    exact ⟨by norm_num, fun _ => by norm_num⟩

/-- For `C44_refuted`: bounds 5 and 4 on the same witness, which is `(1, 0, ...)`. -/
example : ∃ ctx1 ctx2, (newContext (ZMod 97) 8 0 0 1).addInf 0 5 = .ok ctx1 ∧
    ctx1.addInf 0 4 = .ok ctx2 ∧ ctx2.wCnt = 6 ∧
    Shape 6 8 ([1, 0, 0, 0, 0, 0, 0, 0] :: List.replicate 5 (List.replicate 8 (0 : ZMod 97))) := by
  refine ⟨_, _, by unfold Context.addInf; rw [if_neg (by norm_num), if_neg (by norm_num),
    if_neg (by norm_num), show (5 : Int).toNat = 5 from rfl, base5]; rfl, by
    unfold Context.addInf; rw [if_neg (by norm_num), if_neg (by norm_num),
      if_neg (by norm_num), show (4 : Int).toNat = 4 from rfl, base4]; rfl, rfl, ⟨rfl, by decide +kernel⟩⟩

/-- For `C44_partial`: an infinity-norm, a two-norm and an arithmetic constraint, all met by `sw`. -/
example : ∃ ctx, (newContext (ZMod 97) 8 0 0 1).define [.inf 0 5, .sq 0 5, .arith [⟨1, none, [0, 0]⟩, ⟨96, none, [0]⟩]]
      = .ok ctx ∧ ctx.wCnt = 5 ∧ ctx.pwCnt = 2 ∧
    ∀ users : Nat → LinearChecker (ZMod 97), ∀ op ∈ ([.inf 0 5, .sq 0 5, .arith [⟨1, none, [0, 0]⟩, ⟨96, none, [0]⟩]] : List (CtxOp (ZMod 97))),
      op.Valid 0 1 ∧ op.HonestFor 8 users (List.replicate 2 (List.replicate 8 0))
        ([1, 0, 0, 0, 0, 0, 0, 0] :: List.replicate 4 (List.replicate 8 0)) := by
  refine ⟨_, by
    unfold Context.define
    rw [List.foldlM_cons]
    simp only [Context.apply]
    unfold Context.addInf; rw [if_neg (by norm_num), if_neg (by norm_num),
      if_neg (by norm_num), show (5 : Int).toNat = 5 from rfl, base5]; rfl, rfl, rfl, ?_⟩
  intro users op hop
  simp only [List.mem_cons, List.not_mem_nil, or_false] at hop
  rcases hop with rfl | rfl | rfl
  · refine ⟨by simp [CtxOp.Valid], by norm_num, fun i hi => ⟨?_, fun _ => ?_⟩⟩
    · revert i; decide +kernel
    · revert i; decide +kernel
  · refine ⟨by simp [CtxOp.Valid], by norm_num, by norm_num, fun base h => ?_, ?_⟩
    · rw [base5] at h; cases h; decide
    · have : (∑ i ∈ range 8, rowOf ([1, 0, 0, 0, 0, 0, 0, 0] :: List.replicate 4 (List.replicate 8 0) :
        List (List (ZMod 97))) i 0 ^ 2).val = 1 := by decide +kernel
      rw [this]
      exact ⟨by norm_num, fun _ => by norm_num⟩
  · refine ⟨?_, ?_⟩
    · intro t ht
      simp only [List.mem_cons, List.not_mem_nil, or_false] at ht
      rcases ht with rfl | rfl <;> simp
    · intro i hi
      revert i
      decide +kernel

instance : Fact (Nat.Prime 12289) := ⟨by norm_num⟩

theorem base2048 : decomposeBase 2048 = .ok [1024, 512, 256, 128, 64, 32, 16, 8, 4, 2, 1] := by
  decide +kernel

/-- For `C45_refuted` and `C45_partial`: rank 2048 and bound 1 modulo 12289. -/
example : (∃ ctx', (newContext (ZMod 12289) 2048 0 0 1).addApprox 0 1 = .ok ctx') ∧
    2 * (2048 * 1 + 1) < 12289 ∧ (∀ base, decomposeBase (2048 * 1) = .ok base → 128 * base.length ≤ 2048) := by
  have h2 : decomposeBase ((newContext (ZMod 12289) 2048 0 0 1).rank * 1) = _ := base2048
  refine ⟨?_, by norm_num, fun base h => ?_⟩
  · unfold Context.addApprox
    simp only [Context.addLin]
    rw [h2]
    exact ⟨_, rfl⟩
  · rw [base2048] at h; cases h; decide

end

end Ringo
