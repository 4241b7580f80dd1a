import Verif.Proof.Examples

/-! # Lemmas on the examples: what makes a proof be accepted -/

set_option linter.unusedSectionVars false

namespace Ringo

open Finset Polynomial

/-- By how much `z` is outside `[-B, B]`. -/
def excess (B : Nat) (z : Int) : Int := if (B : Int) < z then z - B else if z < -(B : Int) then z + B else 0

theorem excess_zero {B : Nat} {z : Int} : excess B z = 0 ↔ |z| ≤ B := by
  unfold excess
  rw [abs_le]
  split_ifs <;> omega

theorem greedy_above (bs : List Nat) (x : Int) (h : (bs.sum : Int) ≤ x) :
    recombine (greedy x bs) bs = bs.sum := by
  induction bs generalizing x with
  | nil => simp [recombine]
  | cons b bs ih =>
    rw [List.sum_cons, Nat.cast_add] at h ⊢
    have hs : (0 : Int) ≤ (bs.sum : Int) := Int.natCast_nonneg _
    unfold greedy
    rw [if_pos (by omega)]
    have := ih (x - b) (by omega)
    unfold recombine at this ⊢
    rw [List.zipWith_cons_cons, List.sum_cons, this]
    ring

theorem greedy_below (bs : List Nat) (hb : ∀ b ∈ bs, 1 ≤ b) (x : Int) (h : x ≤ -(bs.sum : Int)) :
    recombine (greedy x bs) bs = -(bs.sum : Int) := by
  induction bs generalizing x with
  | nil => simp [recombine]
  | cons b bs ih =>
    rw [List.sum_cons, Nat.cast_add] at h ⊢
    have hs : (0 : Int) ≤ (bs.sum : Int) := Int.natCast_nonneg _
    have h1 := hb b (by simp)
    unfold greedy
    rw [if_neg (by omega), if_pos (by omega)]
    have := ih (fun b hm => hb b (by simp [hm])) (x + b) (by omega)
    unfold recombine at this ⊢
    rw [List.zipWith_cons_cons, List.sum_cons, this]
    ring

theorem GoodBase.pos {bs : List Nat} (h : GoodBase bs) : ∀ b ∈ bs, 1 ≤ b := by
  induction h with
  | last => simp
  | cons h1 h2 h3 ih =>
    intro b hb
    rcases List.mem_cons.1 hb with rfl | hb
    · exact h1
    · exact ih b hb

/-- The digits of a number of any size add up to the nearest number that has digits. -/
theorem greedy_excess {bs : List Nat} (h : GoodBase bs) (x : Int) :
    x - recombine (greedy x bs) bs = excess bs.sum x := by
  unfold excess
  split_ifs with h1 h2
  · rw [greedy_above bs x (by omega)]
  · rw [greedy_below bs h.pos x (by omega)]; ring
  · rw [greedy_recombine h x (by rw [abs_le]; omega)]; ring

section
variable {p : Nat} [Fact p.Prime]

/-- The constraints of a norm check sum to what the witness exceeds the bound by. -/
theorem inf_sum (hp2 : p % 2 = 1) {N : Nat} {sw sw' : List (List (ZMod p))} {e : InfEntry} {base : List Nat}
    (hb : decomposeBase e.bound = .ok base) (hbd : 2 ≤ e.bound) (hl : e.dcmp.length = base.length)
    (hfill : ∀ j < base.length, ∀ i < N, cell sw' (e.dcmp.getD j 0) i =
          (((decomposeBig (cell sw e.id i).val base p).getD j 0 : Int) : ZMod p))
    (hid : ∀ i, cell sw' e.id i = cell sw e.id i) (pw : List (List (ZMod p))) (i : Nat) (hi : i < N) :
    (∀ d ∈ e.dcmp, (Context.ternary d : Constraint (ZMod p)).onRow pw sw' i = 0) ∧
      (Context.infDcmpConstraint e.id base e.dcmp : Constraint (ZMod p)).onRow pw sw' i =
        ((excess base.sum (cell sw e.id i).valMinAbs : Int) : ZMod p) := by
  obtain ⟨base', b1, b2, -⟩ := decomposeBase_spec e.bound hbd
  rw [hb] at b1; cases b1
  have hlen : (decomposeBig (cell sw e.id i).val base p).length = base.length := greedy_length _ _
  constructor
  · intro d hd
    obtain ⟨j, hj, rfl⟩ := List.mem_iff_getElem.mp hd
    refine zero_ternary ((decomposeBig (cell sw e.id i).val base p).getD j 0) ?_ ?_
    · apply greedy_digit (signedRep (cell sw e.id i).val p) base
      rw [List.getD_eq_getElem?_getD, List.getElem?_eq_getElem (by omega)]
      exact List.getElem_mem _
    · have := hfill j (by omega) i hi
      rw [List.getD_eq_getElem?_getD (l := e.dcmp), List.getElem?_eq_getElem hj] at this
      exact this
  · unfold Constraint.onRow
    rw [infDcmp_value, zipWith_recombine base e.dcmp (decomposeBig (cell sw e.id i).val base p)
      (rowOf sw' i) (by omega) (fun j hj => hfill j (by omega) i hi)]
    have h1 : rowOf sw' i e.id = cell sw e.id i := hid i
    have h2 := greedy_excess b2 (signedRep (cell sw e.id i).val p)
    rw [h1, ← signedRep_eq hp2, ← h2]
    unfold decomposeBig
    push_cast
    rw [sub_left_inj]
    rw [signedRep_eq hp2]; simp

/-- A circuit without two-norm, approximate-norm and sum constraints: the prover gets a proof accepted as soon as
the sum of the arithmetic constraints and the linear constraints hold. -/
theorem plain_run {K ty pw0 w0 : Nat} (hK : 3 ≤ K) {ops : List (CtxOp (ZMod p))} {cp : Compilation (ZMod p)}
    (hc : compile (2 ^ K) ty pw0 w0 ops = .ok cp) (hv : ∀ op ∈ ops, op.Valid pw0 w0) (hpl : Plain (2 ^ K) cp.ctx)
    (hA : 2 ^ K < cp.ctx.arithCheckMaxRank) (R : Run p) (L : LinearChecker (ZMod p)) (hL : Adjoint (2 ^ K) L)
    (hP : R.pcs.Correct cp.ctx.batch) (hrank : cp.ctx.commitRank ≤ R.pcs.rank)
    (hord : GoodOrders cp.ctx (R.ord cp.ctx)) (htwo : (R.two cp.ctx).Perm cp.ctx.twoDcmp)
    (hlin : ∀ e ∈ cp.ctx.lin, ∃ n, e.1 = .user n) {a a' : Val (ZMod p)} {pw sw sw' : List (List (ZMod p))}
    (h1 : prvCollect (2 ^ K) cp.ctx.pwCnt cp.ctx.wCnt a = .ok (pw, sw, false))
    (h2 : vrfCollect (2 ^ K) cp.ctx.pwCnt a' = .ok (pw, false))
    (hpw : Shape cp.ctx.pwCnt (2 ^ K) pw)
    (h3 : fillInf (2 ^ K) (R.ord cp.ctx).inf sw = .ok sw') (hsw : Shape cp.ctx.wCnt (2 ^ K) sw')
    (hsum : ∀ i < 2 ^ K, (cp.ctx.arith.map (fun c => c.onRow pw sw' i)).sum = 0)
    (hl : ∀ e ∈ cp.ctx.lin, ∀ x ∈ e.2,
      L.transformTo (List.replicate (2 ^ K) 0) (sw'.getD x.2 []) = .ok (sw'.getD x.1 [])) :
    proveAndVerify R L cp ty a a' = .ok true := by
  have ht0 : (R.ord cp.ctx).two = [] := by
    have := hord.two; rw [hpl.two] at this; exact this.eq_nil
  have ht1 : R.two cp.ctx = [] := by rw [hpl.two] at htwo; exact htwo.eq_nil
  have d1 : assign cp (R.ord cp.ctx) a = .ok (some (pw, sw')) := by
    unfold assign
    rw [hpl.rank, h1, go_bind_ok]
    simp only [Bool.false_eq_true, if_false]
    rw [h3, go_bind_ok, ht0]; rfl
  have d2 : assignV cp (R.two cp.ctx) a' = .ok (some pw) := by
    unfold assignV
    rw [hpl.rank, h2, go_bind_ok]
    simp only [Bool.false_eq_true, if_false]
    rw [ht1]; rfl
  have d3 : Honest K (R.env L) cp (R.ord cp.ctx) pw sw' := by
    refine ⟨hpw, hsw, fun proj _ => ⟨sw', ?_, hsw, fun _ _ _ => rfl, hsum, by rw [hpl.sums]; simp, ?_, ?_⟩⟩
    · unfold projStep; rw [hpl.has]; rfl
    · intro e he x hx
      obtain ⟨n, hn⟩ := hlin e he
      refine ⟨L, by rw [hn]; rfl, ?_⟩
      rw [hpl.rank]; exact hl e he x hx
    · intro e he
      obtain ⟨n, hn⟩ := hlin e he
      exact ⟨L, by rw [hn]; rfl, hL⟩
  obtain ⟨pf, e1, all, e2, e3, e4, e5, e6⟩ := honest_run (E := R.env L) hK ops a a' hc hv (lt_max_of_lt_left hA)
    (fun _ => hA) (fun h => absurd hpl.sums h) hP.evaluates hrank d1 d2 d3 R.tape
  unfold proveAndVerify
  rw [e1, go_bind_ok]
  refine e6 ?_
  have hP' : (R.env L).pcs.Correct cp.ctx.batch := hP
  obtain ⟨pf', h7, h8⟩ := hP'.eval ((R.env L).setBytes (chalsOf (R.env L) cp.ctx pf).x) all R.tape.com R.tape.ev e2 e4
  rw [e5] at h7
  simp only [Except.ok.injEq, Prod.mk.injEq] at h7
  rw [e3, h7.1, h7.2]
  exact h8

/-! ## examples/mult -/

theorem mult_collect {N : Nat} (y x z xn zn : List (ZMod p)) (hy : y.length = N) (hx : x.length = N)
    (hz : z.length = N) (hxn : xn.length = N) (hzn : zn.length = N) :
    prvCollect N 1 7 (MultCircuit.val ⟨.nilPtr, y, x, z, xn, zn⟩) =
      .ok ([y], [x, z, xn, zn, List.replicate N 0, List.replicate N 0, List.replicate N 0], false) ∧
    vrfCollect N 1 (MultCircuit.val ⟨.nilPtr, y, [], [], [], []⟩) = .ok ([y], false) := by
  constructor
  · simp [prvCollect, MultCircuit.val, prvWalk, prvWalks, setIdx, hy, hx, hz, hxn, hzn, List.replicate]
  · simp [vrfCollect, MultCircuit.val, vrfWalk, vrfWalks, setIdx, hy]

theorem multOps_valid : ∀ op ∈ (multOps : List (CtxOp (ZMod p))), op.Valid 1 4 := by
  intro op hop
  simp only [multOps, List.mem_cons, List.not_mem_nil, or_false] at hop
  rcases hop with rfl | rfl | rfl | rfl
  · exact ⟨by norm_num, by norm_num⟩
  · exact ⟨by norm_num, by norm_num⟩
  · intro t ht
    simp only [List.mem_cons, List.not_mem_nil, or_false] at ht
    rcases ht with rfl | rfl <;> simp
  · show 0 < 4; norm_num

/-- When the proof of the multiplication circuit is accepted. -/
theorem mult_run (hp2 : p % 2 = 1) {K : Nat} (hK : 3 ≤ K) (hd : 2 ^ (K + 3) ∣ p - 1) (R : Run p)
    (hP : R.pcs.Correct 12) (hrank : 2 * 2 ^ K + 1 ≤ R.pcs.rank) (hord : ∀ ctx, GoodOrders ctx (R.ord ctx))
    (htwo : ∀ ctx, (R.two ctx).Perm ctx.twoDcmp) (ty : Nat) {L : LinearChecker (ZMod p)} (hL : Adjoint (2 ^ K) L)
    {cp : Compilation (ZMod p)} (hc : compile (2 ^ K) ty 1 4 (multOps : List (CtxOp (ZMod p))) = .ok cp)
    (y x z xn zn : List (ZMod p)) (hy : y.length = 2 ^ K) (hx : x.length = 2 ^ K) (hz : z.length = 2 ^ K)
    (hxn : xn.length = 2 ^ K) (hzn : zn.length = 2 ^ K)
    (h1 : L.transformTo (List.replicate (2 ^ K) 0) x = .ok xn)
    (h2 : L.transformTo (List.replicate (2 ^ K) 0) z = .ok zn)
    (h3 : ∀ i < 2 ^ K, y.getD i 0 * xn.getD i 0 - zn.getD i 0 + ((excess 5 (x.getD i 0).valMinAbs : Int) : ZMod p) = 0) :
    proveAndVerify R L cp ty (MultCircuit.val ⟨.nilPtr, y, x, z, xn, zn⟩)
      (MultCircuit.val ⟨.nilPtr, y, [], [], [], []⟩) = .ok true := by
  obtain ⟨cp', c1, hpl, c2, c3, c4, c5, c6, c7, c8, c9⟩ := mult_compile (p := p) (K := K) (by omega) hd ty
  rw [hc] at c1; cases c1
  obtain ⟨e1, e2⟩ := mult_collect y x z xn zn hy hx hz hxn hzn
  have hi : (R.ord cp.ctx).inf = [⟨0, 5, [4, 5, 6]⟩] := by
    have := (hord cp.ctx).inf
    rw [c6] at this
    exact List.perm_singleton.1 this
  have hio : InfOrder 7 [(⟨0, 5, [4, 5, 6]⟩ : InfEntry)] := by
    refine ⟨?_, ?_, by simp⟩
    · intro e he
      rw [List.mem_singleton] at he; subst he
      constructor
      all_goals simp [base5]
    · simp
  obtain ⟨sw', f1, f2, f3, f4⟩ := fillInf_spec (N := 2 ^ K) [(⟨0, 5, [4, 5, 6]⟩ : InfEntry)] hio
    [x, z, xn, zn, List.replicate (2 ^ K) 0, List.replicate (2 ^ K) 0, List.replicate (2 ^ K) 0]
    ⟨rfl, by simp [hx, hz, hxn, hzn]⟩
  have hS0 : Shape 7 (2 ^ K) [x, z, xn, zn, List.replicate (2 ^ K) 0, List.replicate (2 ^ K) 0,
    List.replicate (2 ^ K) (0 : ZMod p)] := ⟨rfl, by simp [hx, hz, hxn, hzn]⟩
  have hsame : ∀ b < 4, sw'[b]? = [x, z, xn, zn, List.replicate (2 ^ K) 0, List.replicate (2 ^ K) 0,
      List.replicate (2 ^ K) (0 : ZMod p)][b]? := by
    intro b hb
    refine getElem?_of_cell f2 hS0 (fun j => f4 b ?_ j)
    simp only [forall_eq, List.mem_cons, List.not_mem_nil, or_false]
    omega
  have g0 : sw'[0]? = some x := hsame 0 (by norm_num)
  have g1 : sw'[1]? = some z := hsame 1 (by norm_num)
  have g2 : sw'[2]? = some xn := hsame 2 (by norm_num)
  have g3 : sw'[3]? = some zn := hsame 3 (by norm_num)
  refine plain_run hK hc multOps_valid hpl (by rw [c2]; omega) R L hL (by rw [c9]; exact hP) (by rw [c8]; exact hrank)
    (hord _) (htwo _) (by rw [c5]; simp) (pw := [y]) (by rw [c3, c4]; exact e1) (by rw [c3]; exact e2)
    (by rw [c3]; exact ⟨rfl, by simp [hy]⟩) (by rw [hi]; exact f1) (by rw [c4]; exact f2) ?_ ?_
  · intro i hilt
    obtain ⟨s1, s2⟩ := inf_sum hp2 (e := ⟨0, 5, [4, 5, 6]⟩) base5 (by norm_num) rfl (f3 _ (by simp) _ base5)
      (fun i => f4 0 (by simp) i) [y] i hilt
    rw [c7]
    have t4 := s1 4 (by simp)
    have t5 := s1 5 (by simp)
    have t6 := s1 6 (by simp)
    simp only [List.map_cons, List.map_nil, List.sum_cons, List.sum_nil, t4, t5, t6, s2]
    have := h3 i hilt
    have hm : Constraint.onRow [⟨1, some 0, [2]⟩, ⟨-1, none, [3]⟩] [y] sw' i =
        y.getD i 0 * xn.getD i 0 - zn.getD i 0 := by
      simp only [Constraint.onRow, Constraint.value, Term.value, rowOf, List.getD_eq_getElem?_getD, g2, g3,
        List.map_cons, List.map_nil, List.prod_cons, List.prod_nil, List.sum_cons, List.sum_nil, Option.getD_some]
      simp
      ring
    rw [hm]
    have hcell : cell [x, z, xn, zn, List.replicate (2 ^ K) 0, List.replicate (2 ^ K) 0,
      List.replicate (2 ^ K) (0 : ZMod p)] 0 i = x.getD i 0 := rfl
    rw [hcell]
    rw [show (3 + (1 + (1 + 0)) : Nat) = 5 from rfl]
    linear_combination this
  · rw [c5]
    intro e he x' hx'
    rw [List.mem_singleton] at he; subst he
    simp only [List.mem_cons, List.not_mem_nil, or_false] at hx'
    rcases hx' with rfl | rfl
    · simp only [List.getD_eq_getElem?_getD, g0, g2, Option.getD_some]; exact h1
    · simp only [List.getD_eq_getElem?_getD, g1, g3, Option.getD_some]; exact h2

end

end Ringo
