import Verif.Proof.Examples2

/-! # Lemmas on the BFV example: the compiled circuit, and what makes a proof be accepted -/

set_option linter.unusedSectionVars false

namespace Ringo

open Finset Polynomial

section
variable {p : Nat} [Fact p.Prime]

/-- What `Define` of `CiphertextCircuit` adds. -/
def ctOps (delta : Int) (b1 b2 : Nat) : List (CtxOp (ZMod p)) :=
  [.lin 1 2 0, .lin 3 4 0,
    .arith [⟨1, some 0, []⟩, ⟨1, some 1, [0]⟩, ⟨((-delta : Int) : ZMod p), none, [1]⟩, ⟨-1, none, [3]⟩],
    .inf 2 (b1 : Int), .inf 4 (b2 : Int)]

theorem ctOps_valid (delta : Int) (b1 b2 : Nat) : ∀ op ∈ (ctOps delta b1 b2 : List (CtxOp (ZMod p))), op.Valid 2 5 := by
  intro op hop
  simp only [ctOps, List.mem_cons, List.not_mem_nil, or_false] at hop
  rcases hop with rfl | rfl | rfl | rfl | rfl
  · exact ⟨by norm_num, by norm_num⟩
  · exact ⟨by norm_num, by norm_num⟩
  · intro t ht
    simp only [List.mem_cons, List.not_mem_nil, or_false] at ht
    rcases ht with rfl | rfl | rfl | rfl <;> simp
  · show 2 < 5; norm_num
  · show 4 < 5; norm_num

theorem ctWalk (chk dl : Val (ZMod p)) (hchk : NoLeaf chk) (hdl : NoLeaf dl) (c : CtCircuit (ZMod p)) :
    ∃ chk' dl', firstWalk (CtCircuit.val dl { c with nttChecker := chk }) ⟨0, 0⟩ =
      (CtCircuit.val dl' { c with
        nttChecker := chk', ctNTT0 := idToPublicWitness p (UInt64.ofNat 0), ctNTT1 := idToPublicWitness p (UInt64.ofNat 1)
        secretKeyNTT := idToWitness p (UInt64.ofNat 0), messageNTT := idToWitness p (UInt64.ofNat 1)
        messageCoeffs := idToWitness p (UInt64.ofNat 2), errorNTT := idToWitness p (UInt64.ofNat 3)
        errorCoeffs := idToWitness p (UInt64.ofNat 4) },
        ⟨2, 5⟩, false) := by
  refine ⟨(firstWalk chk ⟨0, 0⟩).1, (firstWalk dl ⟨2, 1⟩).1, ?_⟩
  simp [CtCircuit.val, firstWalk, firstWalks, (firstWalk_noLeaf chk ⟨0, 0⟩ hchk).1,
    (firstWalk_noLeaf dl ⟨2, 1⟩ hdl).1]

/-- `Define` applied to what the walk has left in the circuit. -/
theorem ctDefine (hp : 11 < p) (chk dl : Val (ZMod p)) (hchk : NoLeaf chk) (hdl : NoLeaf dl) (c : CtCircuit (ZMod p)) :
    (({ c with nttChecker := chk } : CtCircuit (ZMod p)).read
      (firstWalk (CtCircuit.val dl { c with nttChecker := chk }) ⟨0, 0⟩).1 >>= CtCircuit.define) =
      .ok (ctOps c.delta (c.plaintextModulus - 1) c.errBound) := by
  obtain ⟨chk', dl', hw⟩ := ctWalk chk dl hchk hdl c
  rw [hw]
  simp only [CtCircuit.val, CtCircuit.read, go_pure, go_bind_ok, CtCircuit.define]
  obtain ⟨a0, b0, c0⟩ := idOf (p := p) (n := 0) (by norm_num) (by omega)
  obtain ⟨a1, b1, c1⟩ := idOf (p := p) (n := 1) (by norm_num) (by omega)
  obtain ⟨a2, -, c2⟩ := idOf (p := p) (n := 2) (by norm_num) (by omega)
  obtain ⟨a3, -, c3⟩ := idOf (p := p) (n := 3) (by norm_num) (by omega)
  obtain ⟨a4, -, c4⟩ := idOf (p := p) (n := 4) (by norm_num) (by omega)
  simp only [b0, b1, a0, a1, a2, a3, a4, go_bind_ok, c0, c1, c2, c3, c4]
  rfl

theorem compileCt_eq (hp : 11 < p) (rank ty : Nat) (chk dl : Val (ZMod p)) (hchk : NoLeaf chk) (hdl : NoLeaf dl)
    (c : CtCircuit (ZMod p)) :
    compileCt rank ty dl { c with nttChecker := chk } =
      compile rank ty 2 5 (ctOps c.delta (c.plaintextModulus - 1) c.errBound : List (CtxOp (ZMod p))) := by
  have hdef := ctDefine hp chk dl hchk hdl c
  obtain ⟨chk', dl', hw⟩ := ctWalk chk dl hchk hdl c
  unfold compileCt
  rw [hw] at hdef ⊢
  simp only [CtCircuit.val, CtCircuit.read, go_pure, go_bind_ok] at hdef ⊢
  rw [hdef, go_bind_ok]

/-- The compiled ciphertext circuit. -/
theorem ct_compile {K : Nat} (hK : 1 ≤ K) (hd : 2 ^ (K + 3) ∣ p - 1) (ty : Nat) (delta : Int) {b1 b2 : Nat}
    (h1 : 2 ≤ b1) (h2 : 2 ≤ b2) {base1 base2 : List Nat} (hb1 : decomposeBase b1 = .ok base1)
    (hb2 : decomposeBase b2 = .ok base2) :
    ∃ cp, compile (2 ^ K) ty 2 5 (ctOps delta b1 b2 : List (CtxOp (ZMod p))) = .ok cp ∧ Plain (2 ^ K) cp.ctx ∧
      cp.ctx.arithCheckMaxRank = 3 * 2 ^ K + 1 ∧ cp.ctx.pwCnt = 2 ∧
      cp.ctx.wCnt = 5 + base1.length + base2.length ∧
      cp.ctx.lin = [(.user 0, [(1, 2), (3, 4)])] ∧
      cp.ctx.infDcmp = [⟨2, b1, (List.range base1.length).map (5 + ·)⟩,
        ⟨4, b2, (List.range base2.length).map (5 + base1.length + ·)⟩] ∧
      cp.ctx.arith = [[⟨1, some 0, []⟩, ⟨1, some 1, [0]⟩, ⟨((-delta : Int) : ZMod p), none, [1]⟩, ⟨-1, none, [3]⟩]] ++
        (((List.range base1.length).map (5 + ·)).map Context.ternary ++
          [Context.infDcmpConstraint 2 base1 ((List.range base1.length).map (5 + ·))]) ++
        (((List.range base2.length).map (5 + base1.length + ·)).map Context.ternary ++
          [Context.infDcmpConstraint 4 base2 ((List.range base2.length).map (5 + base1.length + ·))]) ∧
      cp.ctx.commitRank = 2 * 2 ^ K + 1 ∧ cp.ctx.batch = 10 + base1.length + base2.length := by
  have hN := Nat.two_pow_pos K
  obtain ⟨ctx0, h0, hpl, a1, a2, a3, a4, a5⟩ : ∃ ctx0, (newContext (ZMod p) (2 ^ K) ty 2 5).define
      [.lin 1 2 0, .lin 3 4 0,
        .arith [⟨1, some 0, []⟩, ⟨1, some 1, [0]⟩, ⟨((-delta : Int) : ZMod p), none, [1]⟩, ⟨-1, none, [3]⟩]] =
        .ok ctx0 ∧ Plain (2 ^ K) ctx0 ∧
      ctx0.pwCnt = 2 ∧ ctx0.wCnt = 5 ∧ ctx0.lin = [(.user 0, [(1, 2), (3, 4)])] ∧ ctx0.infDcmp = [] ∧
      ctx0.arith = [[⟨1, some 0, []⟩, ⟨1, some 1, [0]⟩, ⟨((-delta : Int) : ZMod p), none, [1]⟩, ⟨-1, none, [3]⟩]] := by
    refine ⟨_, rfl, Plain.arith (Plain.lin (Plain.lin (Plain.new _ _ _ _) _ _ _) _ _ _) _ (maxRank_le ?_),
      rfl, rfl, rfl, rfl, rfl⟩
    intro t ht
    simp only [List.mem_cons, List.not_mem_nil, or_false] at ht
    rcases ht with rfl | rfl | rfl | rfl <;> simp [Term.deg] <;> omega
  obtain ⟨ctx1, d1, d2, d3, d4, d5, d6, d7, d8⟩ := hpl.inf 2 b1 h1 (by simp [a4]) hb1
  rw [a4, a2, List.nil_append] at d7
  rw [a2] at d5 d8
  obtain ⟨ctx, e1, e2, e3, e4, e5, e6, e7, e8⟩ := d2.inf 4 b2 h2 (by simp [d7]) hb2
  rw [d5] at e5 e7 e8
  have hdef : (newContext (ZMod p) (2 ^ K) ty 2 5).define (ctOps delta b1 b2) = .ok ctx := by
    have : (ctOps delta b1 b2 : List (CtxOp (ZMod p))) =
      [.lin 1 2 0, .lin 3 4 0,
        .arith [⟨1, some 0, []⟩, ⟨1, some 1, [0]⟩, ⟨((-delta : Int) : ZMod p), none, [1]⟩, ⟨-1, none, [3]⟩]] ++
        [.inf 2 (b1 : Int), .inf 4 (b2 : Int)] := rfl
    unfold Context.define at h0 ⊢
    rw [this, List.foldlM_append, h0, go_bind_ok, List.foldlM_cons, d1, go_bind_ok, List.foldlM_cons, e1]; rfl
  have hd1 : 2 * 2 ^ K ∣ p - 1 := by
    refine dvd_trans ?_ hd
    rw [← pow_succ']
    exact pow_dvd_pow 2 (by omega)
  have hd2 : 2 * 2 ^ (K + 2) ∣ p - 1 := by
    rw [← pow_succ']; exact hd
  obtain ⟨cp, c1, c2⟩ := compile_total (p := p) (K := K) (Ke := K + 2) rfl hK (by omega) hdef
    (embRank_eq e3 e2.scm) hd1 hd2
  refine ⟨cp, c1, ?_⟩
  rw [c2]
  have hlin : ctx.lin = [(.user 0, [(1, 2), (3, 4)])] := by rw [e6, d6, a3]
  have hari := e8
  rw [d8, a5] at hari
  have hne : base1 ≠ [] := decomposeBase_ne hb1
  obtain ⟨s1, s2⟩ := e2.sizes hN (by omega) (by simp [hlin]) (d := 5) (by
    rw [hari]
    refine List.mem_append_left _ (List.mem_append_right _ (List.mem_append_left _ ?_))
    rw [List.map_map, List.mem_map]
    exact ⟨0, List.mem_range.2 (List.length_pos_iff.2 hne), rfl⟩)
  exact ⟨e2, e3, by rw [e4, d4, a1], e5, hlin, by rw [e7, d7]; rfl, hari, s1, by rw [s2, e5]; omega⟩

theorem ct_collect {N n : Nat} (c0 c1 s mn mc en ec : List (ZMod p)) (h0 : c0.length = N) (h1 : c1.length = N)
    (hs : s.length = N) (hmn : mn.length = N) (hmc : mc.length = N) (hen : en.length = N) (hec : ec.length = N) :
    prvCollect N 2 (5 + n) (CtCircuit.val .nilPtr ⟨.nilPtr, 0, 0, c0, c1, s, 0, mn, mc, en, ec⟩) =
      .ok ([c0, c1], [s, mn, mc, en, ec] ++ List.replicate n (List.replicate N 0), false) ∧
    vrfCollect N 2 (CtCircuit.val .nilPtr ⟨.nilPtr, 0, 0, c0, c1, [], 0, [], [], [], []⟩) = .ok ([c0, c1], false) := by
  constructor
  · have hr : List.replicate (5 + n) ([] : List (ZMod p)) = [[], [], [], [], []] ++ List.replicate n [] := by
      rw [List.replicate_add]; rfl
    simp [prvCollect, CtCircuit.val, prvWalk, prvWalks, setIdx, hr, h0, h1, hs, hmn, hmc, hen, hec, List.replicate]
  · simp [vrfCollect, CtCircuit.val, vrfWalk, vrfWalks, setIdx, h0, h1, List.replicate]

theorem sum_zero_of {α : Type} (l : List α) (f : α → ZMod p) (h : ∀ a ∈ l, f a = 0) : (l.map f).sum = 0 := by
  rw [List.map_congr_left h]; simp

/-- When the proof of the ciphertext circuit is accepted. -/
theorem ct_run {K : Nat} (hK : 3 ≤ K) (hp2 : p % 2 = 1) (hd : 2 ^ (K + 3) ∣ p - 1) (R : Run p)
    (delta : Int) {b1 b2 : Nat} (hb1 : 2 ≤ b1) (hb2 : 2 ≤ b2) {base1 base2 : List Nat}
    (hd1 : decomposeBase b1 = .ok base1) (hd2 : decomposeBase b2 = .ok base2)
    (hP : R.pcs.Correct (10 + base1.length + base2.length)) (hrank : 2 * 2 ^ K + 1 ≤ R.pcs.rank)
    (hord : ∀ ctx, GoodOrders ctx (R.ord ctx)) (htwo : ∀ ctx, (R.two ctx).Perm ctx.twoDcmp) (ty : Nat)
    {L : LinearChecker (ZMod p)} (hL : Adjoint (2 ^ K) L) {cp : Compilation (ZMod p)}
    (hc : compile (2 ^ K) ty 2 5 (ctOps delta b1 b2 : List (CtxOp (ZMod p))) = .ok cp)
    (c0 c1 s mn mc en ec : List (ZMod p)) (h0 : c0.length = 2 ^ K) (h1 : c1.length = 2 ^ K)
    (hs : s.length = 2 ^ K) (hmn : mn.length = 2 ^ K) (hmc : mc.length = 2 ^ K) (hen : en.length = 2 ^ K)
    (hec : ec.length = 2 ^ K)
    (l1 : L.transformTo (List.replicate (2 ^ K) 0) mc = .ok mn)
    (l2 : L.transformTo (List.replicate (2 ^ K) 0) ec = .ok en)
    (hsum : ∀ i < 2 ^ K, c0.getD i 0 + c1.getD i 0 * s.getD i 0 - (delta : ZMod p) * mn.getD i 0 - en.getD i 0 +
      ((excess base1.sum (mc.getD i 0).valMinAbs : Int) : ZMod p) +
      ((excess base2.sum (ec.getD i 0).valMinAbs : Int) : ZMod p) = 0) :
    proveAndVerify R L cp ty (CtCircuit.val .nilPtr ⟨.nilPtr, 0, 0, c0, c1, s, 0, mn, mc, en, ec⟩)
      (CtCircuit.val .nilPtr ⟨.nilPtr, 0, 0, c0, c1, [], 0, [], [], [], []⟩) = .ok true := by
  obtain ⟨cp', c, hpl, e2, e3, e4, e5, e6, e7, e8, e9⟩ := ct_compile (p := p) (K := K) (by omega) hd ty delta hb1 hb2
    hd1 hd2
  rw [hc] at c; cases c
  have hv := ctOps_valid (p := p) delta b1 b2
  have hprov := Prov.define _ hv [] _ _ (by
      have : ((ctOps delta b1 b2 : List (CtxOp (ZMod p))).filterMap CtxOp.infId) = [2, 4] := by
        simp only [ctOps, List.filterMap_cons, List.filterMap_nil, CtxOp.infId]
        rw [if_pos (by omega), if_pos (by omega)]
      rw [List.nil_append, this]; decide)
    (by show ([] : List Nat).Nodup; decide) (by show ([] : List Nat).Nodup; decide) (Prov.new (2 ^ K) ty 2 5) (compile_inv hc).1
  rw [List.nil_append] at hprov
  have hio := hprov.infOrder hv (hord cp.ctx).inf
  obtain ⟨f1, f2⟩ := ct_collect (n := base1.length + base2.length) c0 c1 s mn mc en ec h0 h1 hs hmn hmc hen hec
  set sw := [s, mn, mc, en, ec] ++ List.replicate (base1.length + base2.length) (List.replicate (2 ^ K) (0 : ZMod p))
    with hsw
  have hS0 : Shape cp.ctx.wCnt (2 ^ K) sw := by
    rw [e4]
    refine ⟨by simp [hsw]; omega, ?_⟩
    intro v hv
    simp only [hsw, List.mem_append, List.mem_cons, List.not_mem_nil, or_false, List.mem_replicate] at hv
    rcases hv with (rfl | rfl | rfl | rfl | rfl) | ⟨-, rfl⟩ <;> simp [*]
  obtain ⟨sw', g1, g2, g3, g4⟩ := fillInf_spec (N := 2 ^ K) _ hio sw hS0
  have hmem : ∀ e ∈ cp.ctx.infDcmp, e ∈ (R.ord cp.ctx).inf := fun e he => (hord cp.ctx).inf.mem_iff.2 he
  have hmem' : ∀ e ∈ (R.ord cp.ctx).inf, e ∈ cp.ctx.infDcmp := fun e he => (hord cp.ctx).inf.mem_iff.1 he
  have hlow : ∀ b < 5, ∀ e ∈ (R.ord cp.ctx).inf, b ∉ e.dcmp := by
    intro b hb e he hbe
    have := hmem' e he
    rw [e6] at this
    simp only [List.mem_cons, List.not_mem_nil, or_false] at this
    rcases this with rfl | rfl
    · simp only [List.mem_map, List.mem_range] at hbe
      obtain ⟨a, -, ha⟩ := hbe; omega
    · simp only [List.mem_map, List.mem_range] at hbe
      obtain ⟨a, -, ha⟩ := hbe; omega
  have hsame : ∀ b < 5, sw'[b]? = sw[b]? := fun b hb => getElem?_of_cell g2 hS0 (fun j => g4 b (hlow b hb) j)
  have k0 : sw'[0]? = some s := hsame 0 (by norm_num)
  have k1 : sw'[1]? = some mn := hsame 1 (by norm_num)
  have k2 : sw'[2]? = some mc := hsame 2 (by norm_num)
  have k3 : sw'[3]? = some en := hsame 3 (by norm_num)
  have k4 : sw'[4]? = some ec := hsame 4 (by norm_num)
  refine plain_run hK hc hv hpl (by rw [e2]; omega) R L hL (by rw [e9]; exact hP) (by rw [e8]; exact hrank)
    (hord _) (htwo _) (by rw [e5]; simp) (pw := [c0, c1]) (by rw [e3, e4, Nat.add_assoc]; exact f1)
    (by rw [e3]; exact f2) (by rw [e3]; exact ⟨rfl, by simp [h0, h1]⟩) g1 g2 ?_ ?_
  · intro i hi
    have m1 : (⟨2, b1, (List.range base1.length).map (5 + ·)⟩ : InfEntry) ∈ (R.ord cp.ctx).inf :=
      hmem _ (by rw [e6]; simp)
    have m2 : (⟨4, b2, (List.range base2.length).map (5 + base1.length + ·)⟩ : InfEntry) ∈ (R.ord cp.ctx).inf :=
      hmem _ (by rw [e6]; simp)
    obtain ⟨s1, s2⟩ := inf_sum hp2 hd1 hb1 (by simp) (g3 _ m1 _ hd1)
      (fun i => g4 2 (hlow 2 (by norm_num)) i) [c0, c1] i hi
    obtain ⟨s3, s4⟩ := inf_sum hp2 hd2 hb2 (by simp) (g3 _ m2 _ hd2)
      (fun i => g4 4 (hlow 4 (by norm_num)) i) [c0, c1] i hi
    have z1 := sum_zero_of (p := p) ((List.range base1.length).map (5 + ·)) _ s1
    have z2 := sum_zero_of (p := p) ((List.range base2.length).map (5 + base1.length + ·)) _ s3
    rw [e7]
    have t1 : ∀ l : List Nat, (l.map Context.ternary).map (fun c : Constraint (ZMod p) => c.onRow [c0, c1] sw' i) =
        l.map (fun d => (Context.ternary d).onRow [c0, c1] sw' i) := fun l => by
      rw [List.map_map]; rfl
    simp only [List.map_append, List.sum_append, t1]
    rw [z1, z2]
    simp only [List.map_cons, List.map_nil, List.sum_cons, List.sum_nil]
    rw [s2, s4]
    have hm : Constraint.onRow
        [⟨1, some 0, []⟩, ⟨1, some 1, [0]⟩, ⟨((-delta : Int) : ZMod p), none, [1]⟩, ⟨-1, none, [3]⟩] [c0, c1] sw' i =
        c0.getD i 0 + c1.getD i 0 * s.getD i 0 - (delta : ZMod p) * mn.getD i 0 - en.getD i 0 := by
      simp only [Constraint.onRow, Constraint.value, Term.value, rowOf, List.getD_eq_getElem?_getD, k0, k1, k3,
        List.map_cons, List.map_nil, List.prod_cons, List.prod_nil, List.sum_cons, List.sum_nil, Option.getD_some]
      simp
      ring
    rw [hm]
    have q2 : cell sw 2 i = mc.getD i 0 := rfl
    have q4 : cell sw 4 i = ec.getD i 0 := rfl
    simp only [q2, q4]
    linear_combination hsum i hi
  · rw [e5]
    intro e he x' hx'
    rw [List.mem_singleton] at he; subst he
    simp only [List.mem_cons, List.not_mem_nil, or_false] at hx'
    rcases hx' with rfl | rfl
    · simp only [List.getD_eq_getElem?_getD, k1, k2, Option.getD_some]; exact l1
    · simp only [List.getD_eq_getElem?_getD, k3, k4, Option.getD_some]; exact l2

end

end Ringo
