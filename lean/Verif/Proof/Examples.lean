import Verif.Model.Examples
import Verif.Props.Complete
import Verif.Props.Digits
import Verif.Props.Arith

/-!
# The contexts of the example circuits
-/

namespace Ringo

open Finset Polynomial

set_option linter.unusedSectionVars false

section
variable {p : Nat} [Fact p.Prime]

theorem ternary_maxRank (N w : Nat) : (Context.ternary w : Constraint (ZMod p)).maxRank N = 3 * N + 1 := by
  simp only [Context.ternary, Constraint.addTermWithConst, Constraint.maxRank, Term.deg, List.nil_append,
    List.cons_append, List.foldl, List.length_cons, List.length_nil, Option.isSome_none, Bool.false_eq_true, if_false]
  split_ifs <;> omega

theorem infDcmp_maxRank (N w : Nat) (base dcmp : List Nat) :
    (Context.infDcmpConstraint w base dcmp : Constraint (ZMod p)).maxRank N = N + 1 := by
  have key : ∀ (l : List (Nat × Nat)) (c : Constraint (ZMod p)), c.maxRank N = N + 1 →
      (l.foldl (fun c bd => c.addTermWithConst (-(bd.1 : ZMod p)) none [bd.2]) c).maxRank N = N + 1 := by
    intro l
    induction l with
    | nil => intro c h; exact h
    | cons a l ih =>
      intro c h
      rw [List.foldl_cons]
      apply ih
      unfold Constraint.maxRank at h ⊢
      unfold Constraint.addTermWithConst
      rw [List.foldl_append]
      generalize List.foldl _ 0 c = m at h ⊢
      simp only [List.foldl, Term.deg, Option.isSome_none, Bool.false_eq_true, if_false, List.length_cons,
        List.length_nil]
      split_ifs <;> omega
  apply key
  simp only [Constraint.addTermWithConst, Constraint.maxRank, Term.deg, List.nil_append, List.foldl,
    Option.isSome_none, Bool.false_eq_true, if_false, List.length_cons, List.length_nil]
  split_ifs <;> omega

theorem ternaries_eq (l : List Nat) (ctx : Context (ZMod p)) :
    l.foldl (fun ctx d => ctx.addArith (Context.ternary d)) ctx = { ctx with
      arith := ctx.arith ++ l.map Context.ternary
      arithCheckMaxRank := if l = [] then ctx.arithCheckMaxRank else max ctx.arithCheckMaxRank (3 * ctx.rank + 1) } := by
  induction l generalizing ctx with
  | nil => simp
  | cons a l ih =>
    rw [List.foldl_cons, ih]
    simp only [Context.addArith, ternary_maxRank, List.map_cons, List.append_assoc, List.cons_append,
      List.nil_append]
    congr 1
    split_ifs <;> simp_all

/-- `AddInfNormConstraint` with a bound of at least two. -/
theorem addInf_run (ctx : Context (ZMod p)) (w b : Nat) (hb : 2 ≤ b) {base : List Nat}
    (hbase : decomposeBase b = .ok base) (hne : base ≠ []) :
    ctx.addInf w (b : Int) = .ok { ctx with
      infDcmp := ctx.infDcmp.filter (fun e => e.id ≠ w) ++ [⟨w, b, (List.range base.length).map (ctx.wCnt + ·)⟩]
      wCnt := ctx.wCnt + base.length
      arith := ctx.arith ++ (((List.range base.length).map (ctx.wCnt + ·)).map Context.ternary ++
        [Context.infDcmpConstraint w base ((List.range base.length).map (ctx.wCnt + ·))])
      arithCheckMaxRank := max ctx.arithCheckMaxRank (3 * ctx.rank + 1) } := by
  unfold Context.addInf
  rw [if_neg (by omega), if_neg (by omega), if_neg (by omega), Int.toNat_natCast, hbase, go_bind_ok]
  simp only [ternaries_eq]
  rw [if_neg (by simpa using hne)]
  simp only [Context.addArith, infDcmp_maxRank, List.append_assoc]
  have : max (max ctx.arithCheckMaxRank (3 * ctx.rank + 1)) (ctx.rank + 1) =
      max ctx.arithCheckMaxRank (3 * ctx.rank + 1) := by omega
  rw [this]
  rfl

theorem decomposeBase_ne {x : Nat} {base : List Nat} (h : decomposeBase x = .ok base) : base ≠ [] := by
  unfold decomposeBase at h
  simp only at h
  split at h
  · cases h
  · cases h; simp

theorem embRank_eq {K : Nat} {ctx : Context (ZMod p)} (h : ctx.arithCheckMaxRank = 3 * 2 ^ K + 1)
    (h2 : ctx.sumCheckMaxRank = 0) : ctx.embRank = 2 ^ (K + 2) := by
  have hp := Nat.two_pow_pos K
  unfold Context.embRank
  simp only [h, h2]
  rw [show max (3 * 2 ^ K + 1) 0 = 3 * 2 ^ K + 1 by omega, if_neg (by omega), Nat.add_sub_cancel]
  unfold bitLen
  rw [if_neg (by omega), show Nat.log2 (3 * 2 ^ K) = K + 1 from
    (Nat.log2_eq_iff (by omega)).2 ⟨by rw [pow_succ]; omega, by rw [pow_succ, pow_succ]; omega⟩]

theorem foldl_max_eq {α : Type} (f : α → Nat) (l : List α) (n R : Nat) (hn : n ≤ R) (hl : ∀ c ∈ l, f c ≤ R) :
    l.foldl (fun r c => max r (f c)) n ≤ R := by
  induction l generalizing n with
  | nil => exact hn
  | cons a l ih => exact ih _ (max_le hn (hl a (by simp))) (fun c hc => hl c (by simp [hc]))

theorem foldl_max_ge {α : Type} (f : α → Nat) (l : List α) (n : Nat) :
    n ≤ l.foldl (fun r c => max r (f c)) n ∧ ∀ c ∈ l, f c ≤ l.foldl (fun r c => max r (f c)) n := by
  induction l generalizing n with
  | nil => simp
  | cons a l ih =>
    obtain ⟨h1, h2⟩ := ih (max n (f a))
    refine ⟨by rw [List.foldl_cons]; omega, fun c hc => ?_⟩
    rw [List.foldl_cons]
    rcases List.mem_cons.1 hc with rfl | hc
    · omega
    · exact h2 c hc

/-- A context with arithmetic, linear and infinity-norm constraints only, of degree at most that of a ternary
constraint. -/
structure Plain (N : Nat) (ctx : Context (ZMod p)) : Prop where
  rank : ctx.rank = N
  second : ctx.wSecond = []
  acm : ctx.arithCheckMaxRank ≤ 3 * N + 1
  scm : ctx.sumCheckMaxRank = 0
  deg : ∀ c ∈ ctx.arith, c.maxRank N ≤ 3 * N + 1
  sums : ctx.sums = []
  two : ctx.twoDcmp = []
  has : ctx.hasProj = false
  projWit : ctx.projWit = []
  projInf : ctx.projInf = []

theorem Plain.new (N ty pw0 w0 : Nat) : Plain N (newContext (ZMod p) N ty pw0 w0) :=
  ⟨rfl, rfl, Nat.zero_le _, rfl, by simp [newContext], rfl, rfl, rfl, rfl, rfl⟩

theorem Plain.lin {N : Nat} {ctx : Context (ZMod p)} (h : Plain N ctx) (o i : Nat) (k : CheckerKey) :
    Plain N (ctx.addLin o i k) := by
  refine ⟨h.rank, h.second, ?_, h.scm, h.deg, h.sums, h.two, h.has, h.projWit, h.projInf⟩
  have := h.acm
  simp only [Context.addLin, h.rank]
  split_ifs <;> omega

theorem Plain.arith {N : Nat} {ctx : Context (ZMod p)} (h : Plain N ctx) (c : Constraint (ZMod p))
    (hc : c.maxRank N ≤ 3 * N + 1) : Plain N (ctx.addArith c) := by
  refine ⟨h.rank, h.second, ?_, h.scm, ?_, h.sums, h.two, h.has, h.projWit, h.projInf⟩
  · have := h.acm
    simp only [Context.addArith, h.rank]
    omega
  · intro c' hc'
    simp only [Context.addArith, List.mem_append, List.mem_singleton] at hc'
    rcases hc' with hc' | rfl
    · exact h.deg c' hc'
    · exact hc

theorem maxRank_le {N R : Nat} {c : Constraint (ZMod p)} (h : ∀ t ∈ c, t.deg N ≤ R) : c.maxRank N ≤ R + 1 := by
  have key : ∀ (l : List (Term (ZMod p))) (n : Nat), n ≤ R → (∀ t ∈ l, t.deg N ≤ R) →
      l.foldl (fun m t => if t.deg N > m then t.deg N else m) n ≤ R := by
    intro l
    induction l with
    | nil => intro n hn _; exact hn
    | cons a l ih =>
      intro n hn hl
      rw [List.foldl_cons]
      refine ih _ ?_ (fun t ht => hl t (by simp [ht]))
      have := hl a (by simp)
      split_ifs <;> omega
  have := key c 0 (Nat.zero_le _) h
  unfold Constraint.maxRank
  omega

/-- The effect of an infinity-norm constraint on such a context. -/
theorem Plain.inf {N : Nat} {ctx : Context (ZMod p)} (h : Plain N ctx) (w b : Nat) (hb : 2 ≤ b)
    (hnew : ∀ e ∈ ctx.infDcmp, e.id ≠ w) {base : List Nat} (hbase : decomposeBase b = .ok base) :
    ∃ ctx', ctx.apply (.inf w b) = .ok ctx' ∧ Plain N ctx' ∧ ctx'.arithCheckMaxRank = 3 * N + 1 ∧
      ctx'.pwCnt = ctx.pwCnt ∧ ctx'.wCnt = ctx.wCnt + base.length ∧ ctx'.lin = ctx.lin ∧
      ctx'.infDcmp = ctx.infDcmp ++ [⟨w, b, (List.range base.length).map (ctx.wCnt + ·)⟩] ∧
      ctx'.arith = ctx.arith ++ (((List.range base.length).map (ctx.wCnt + ·)).map Context.ternary ++
        [Context.infDcmpConstraint w base ((List.range base.length).map (ctx.wCnt + ·))]) := by
  have hne := decomposeBase_ne hbase
  have hrun := addInf_run ctx w b hb hbase hne
  rw [show ctx.infDcmp.filter (fun e => e.id ≠ w) = ctx.infDcmp by
    rw [List.filter_eq_self]; intro e he; simpa using hnew e he] at hrun
  have hacm := h.acm
  refine ⟨_, hrun, ⟨h.rank, h.second, ?_, h.scm, ?_, h.sums, h.two, h.has, h.projWit, h.projInf⟩, ?_, rfl, rfl, rfl,
    rfl, rfl⟩
  · simp only [h.rank]; omega
  · intro c hc
    simp only [List.mem_append, List.mem_map, List.mem_singleton] at hc
    rcases hc with hc | ⟨d, -, rfl⟩ | rfl
    · exact h.deg c hc
    · rw [ternary_maxRank]
    · rw [infDcmp_maxRank]; omega
  · simp only [h.rank]; omega

/-- What `Compile` asks of the commitment scheme for such a context. -/
theorem Plain.sizes {N : Nat} {ctx : Context (ZMod p)} (h : Plain N ctx) (hN : 0 < N) (hw : 0 < ctx.wCnt)
    (hl : ctx.lin ≠ []) {d : Nat} (ht : Context.ternary d ∈ ctx.arith) :
    ctx.commitRank = 2 * N + 1 ∧ ctx.batch = ctx.wCnt + 5 := by
  have hll := length_pos_ne.2 hl
  have hal : ctx.arith.length > 0 := List.length_pos_of_mem ht
  constructor
  · unfold Context.commitRank
    simp only [h.sums, List.foldl_nil, if_pos hll, if_pos hw, h.rank]
    have h1 := foldl_max_eq (fun c : Constraint (ZMod p) => c.maxRank N - N) ctx.arith (N + 1) (2 * N + 1) (by omega)
      (fun c hc => by have := h.deg c hc; omega)
    have h2 := (foldl_max_ge (fun c : Constraint (ZMod p) => c.maxRank N - N) ctx.arith (N + 1)).2 _ ht
    simp only [ternary_maxRank] at h1 h2
    omega
  · unfold Context.batch
    simp only [h.sums, List.length_nil, if_pos hll, if_pos hal]
    simp

/-! ## The ring -/

/-- The evaluator and the checker of the examples. -/
theorem ring_setup {K : Nat} (hK : 3 ≤ K) (hd : 2 * 2 ^ K ∣ p - 1) : ∃ ev L, ∃ psi : ZMod p,
    newCyclotomicEvaluator p (2 ^ K) = .ok ev ∧ newNTTChecker p (2 ^ K) = .ok L ∧
    GoodEv K (X ^ 2 ^ K + 1) (fun i => psi ^ (2 * rev K i + 1)) ev ∧ Adjoint (2 ^ K) L ∧
    (∀ v : List (ZMod p), v.length = 2 ^ K → ∃ w, w.length = 2 ^ K ∧ ev.toNTT ⟨v, false⟩ = .ok ⟨w, true⟩ ∧
      L.transformTo (List.replicate (2 ^ K) 0) v = .ok w ∧
      (∀ i < 2 ^ K, w.getD i 0 = (listPoly v).eval (psi ^ (2 * rev K i + 1)))) ∧
    (∀ w : List (ZMod p), w.length = 2 ^ K → ∃ v, v.length = 2 ^ K ∧ ev.toCoeff ⟨w, true⟩ = .ok ⟨v, false⟩ ∧
      L.transformTo (List.replicate (2 ^ K) 0) v = .ok w) := by
  obtain ⟨T, -, hT, -⟩ := cyclotomic_good p K hd
  have hev : newCyclotomicEvaluator p (2 ^ K) = .ok ⟨2 ^ K, T⟩ := by
    unfold newCyclotomicEvaluator; rw [hT]; rfl
  have hL : newNTTChecker p (2 ^ K) = .ok (nttChecker T ((2 ^ K : Nat) : ZMod p)) := by
    unfold newNTTChecker; rw [hT]; rfl
  obtain ⟨psi, -, -, hg⟩ := cyclotomicEv_good p K hK _ hev
  have hfwd : ∀ v : List (ZMod p), v.length = 2 ^ K → ∃ w, w.length = 2 ^ K ∧
      Evaluator.toNTT ⟨2 ^ K, T⟩ ⟨v, false⟩ = .ok ⟨w, true⟩ ∧
      (nttChecker T ((2 ^ K : Nat) : ZMod p)).transformTo (List.replicate (2 ^ K) 0) v = .ok w ∧
      (∀ i < 2 ^ K, w.getD i 0 = (listPoly v).eval (psi ^ (2 * rev K i + 1))) := by
    intro v hv
    obtain ⟨w, w1, w2, w3⟩ := hg.nttTo_ok (newPoly (2 ^ K) true) ⟨v, false⟩ (by simp [newPoly]) hv rfl
    refine ⟨w, w2, w1, ?_, fun i hi => ?_⟩
    · unfold Evaluator.nttTo checkUnary at w1
      rw [if_neg (by simp [newPoly, hv])] at w1
      simp only [go_pure, go_bind_ok, Bool.false_eq_true, if_false] at w1
      obtain ⟨c, c1, c2⟩ := bind_ok_inv w1
      injection c2 with c2
      injection c2 with c2
      subst c2
      exact c1
    · rw [w3 i hi, listPoly_eval, hv]
  refine ⟨_, _, psi, hev, hL, hg, (C30_nttChecker p K hK _ hL).1, hfwd, ?_⟩
  intro w hw
  obtain ⟨v, v1, v2, v3⟩ := hg.invNTTTo_ok (newPoly (2 ^ K) false) ⟨w, true⟩ (by simp [newPoly]) hw rfl
  obtain ⟨w', x1, -, x2, x3⟩ := hfwd v v2
  have : w' = w := by
    apply List.ext_getElem (by omega)
    intro i h1 h2
    have e1 := x3 i (by omega)
    have e2 := v3 i (by omega)
    rw [listPoly_eval, v2, e2] at e1
    simpa [List.getD_eq_getElem?_getD, List.getElem?_eq_getElem h1, List.getElem?_eq_getElem h2] using e1
  subst this
  exact ⟨v, v2, v1, x2⟩

theorem mul_ok {K : Nat} {M : (ZMod p)[X]} {pt : Nat → ZMod p} {ev : Evaluator (ZMod p)} (h : GoodEv K M pt ev)
    (a b : List (ZMod p)) (ha : a.length = 2 ^ K) (hb : b.length = 2 ^ K) :
    ev.mul ⟨a, true⟩ ⟨b, true⟩ = .ok ⟨List.zipWith (· * ·) a b, true⟩ := by
  unfold Evaluator.mul Evaluator.mulTo checkBinary
  rw [h.rank, if_neg (by simp [newPoly, ha, hb]), if_neg (by simp)]
  rfl

/-! ## examples/mult -/

/-- The calls of `MultCircuit.Define`, with the indices of the fields. -/
def multOps : List (CtxOp (ZMod p)) :=
  [.lin 2 0 0, .lin 3 1 0, .arith [⟨1, some 0, [2]⟩, ⟨-1, none, [3]⟩], .inf 0 5]

theorem idOf {n : Nat} (hn : n < 2 ^ 62) (hp : 2 * n + 3 < p) :
    witnessToID (idToWitness p (UInt64.ofNat n)) = .ok (UInt64.ofNat n) ∧
    witnessToID (idToPublicWitness p (UInt64.ofNat n)) = .ok (UInt64.ofNat n) ∧ (UInt64.ofNat n).toNat = n := by
  have : (UInt64.ofNat n).toNat = n := by
    rw [UInt64.toNat_ofNat']
    exact Nat.mod_eq_of_lt (by omega)
  obtain ⟨h1, h2⟩ := C25_decode p (UInt64.ofNat n) (by rw [this]; exact hn) (by rw [this]; exact hp)
  exact ⟨h1, h2, this⟩

theorem multWalk (chk : Val (ZMod p)) (hchk : NoLeaf chk) (y xc zc xn zn : List (ZMod p)) :
    ∃ chk', firstWalk (MultCircuit.val ⟨chk, y, xc, zc, xn, zn⟩) ⟨0, 0⟩ =
      (MultCircuit.val ⟨chk', idToPublicWitness p (UInt64.ofNat 0), idToWitness p (UInt64.ofNat 0),
        idToWitness p (UInt64.ofNat 1), idToWitness p (UInt64.ofNat 2), idToWitness p (UInt64.ofNat 3)⟩,
        ⟨1, 4⟩, false) := by
  refine ⟨(firstWalk chk ⟨0, 0⟩).1, ?_⟩
  simp [MultCircuit.val, firstWalk, firstWalks, (firstWalk_noLeaf chk ⟨0, 0⟩ hchk).1]

theorem compileMult_eq (hp : 9 < p) (rank ty : Nat) (chk : Val (ZMod p)) (hchk : NoLeaf chk)
    (y xc zc xn zn : List (ZMod p)) :
    compileMult rank ty ⟨chk, y, xc, zc, xn, zn⟩ = compile rank ty 1 4 (multOps : List (CtxOp (ZMod p))) := by
  obtain ⟨chk', hw⟩ := multWalk chk hchk y xc zc xn zn
  unfold compileMult
  rw [hw]
  simp only [MultCircuit.val, MultCircuit.read, go_pure, go_bind_ok, MultCircuit.define]
  obtain ⟨a0, b0, c0⟩ := idOf (p := p) (n := 0) (by norm_num) (by omega)
  obtain ⟨a1, -, c1⟩ := idOf (p := p) (n := 1) (by norm_num) (by omega)
  obtain ⟨a2, -, c2⟩ := idOf (p := p) (n := 2) (by norm_num) (by omega)
  obtain ⟨a3, -, c3⟩ := idOf (p := p) (n := 3) (by norm_num) (by omega)
  simp only [b0, a0, a1, a2, a3, go_bind_ok, c0, c1, c2, c3]
  rfl

/-- The compiled multiplication circuit. -/
theorem mult_compile {K : Nat} (hK : 1 ≤ K) (hd : 2 ^ (K + 3) ∣ p - 1) (ty : Nat) :
    ∃ cp, compile (2 ^ K) ty 1 4 (multOps : List (CtxOp (ZMod p))) = .ok cp ∧ Plain (2 ^ K) cp.ctx ∧
      cp.ctx.arithCheckMaxRank = 3 * 2 ^ K + 1 ∧ cp.ctx.pwCnt = 1 ∧ cp.ctx.wCnt = 7 ∧
      cp.ctx.lin = [(.user 0, [(2, 0), (3, 1)])] ∧ cp.ctx.infDcmp = [⟨0, 5, [4, 5, 6]⟩] ∧
      cp.ctx.arith = [[⟨1, some 0, [2]⟩, ⟨-1, none, [3]⟩], Context.ternary 4, Context.ternary 5, Context.ternary 6,
        Context.infDcmpConstraint 0 [3, 1, 1] [4, 5, 6]] ∧
      cp.ctx.commitRank = 2 * 2 ^ K + 1 ∧ cp.ctx.batch = 12 := by
  have hN := Nat.two_pow_pos K
  obtain ⟨ctx0, h0, hpl, a1, a2, a3, a4, a5⟩ : ∃ ctx0, (newContext (ZMod p) (2 ^ K) ty 1 4).define
      [.lin 2 0 0, .lin 3 1 0, .arith [⟨1, some 0, [2]⟩, ⟨-1, none, [3]⟩]] = .ok ctx0 ∧ Plain (2 ^ K) ctx0 ∧
      ctx0.pwCnt = 1 ∧ ctx0.wCnt = 4 ∧ ctx0.lin = [(.user 0, [(2, 0), (3, 1)])] ∧ ctx0.infDcmp = [] ∧
      ctx0.arith = [[⟨1, some 0, [2]⟩, ⟨-1, none, [3]⟩]] := by
    refine ⟨_, rfl, Plain.arith (Plain.lin (Plain.lin (Plain.new _ _ _ _) _ _ _) _ _ _) _ (maxRank_le ?_),
      rfl, rfl, rfl, rfl, rfl⟩
    intro t ht
    simp only [List.mem_cons, List.not_mem_nil, or_false] at ht
    rcases ht with rfl | rfl <;> simp [Term.deg] <;> omega
  obtain ⟨ctx, b1, b2, b3, b4, b5, b6, b7, b8⟩ := hpl.inf 0 5 (by norm_num) (by simp [a4]) base5
  have hdef : (newContext (ZMod p) (2 ^ K) ty 1 4).define multOps = .ok ctx := by
    have : (multOps : List (CtxOp (ZMod p))) =
      [.lin 2 0 0, .lin 3 1 0, .arith [⟨1, some 0, [2]⟩, ⟨-1, none, [3]⟩]] ++ [.inf 0 5] := rfl
    unfold Context.define at h0 ⊢
    rw [this, List.foldlM_append, h0, go_bind_ok, List.foldlM_cons]
    rw [show ((5 : Nat) : Int) = 5 from rfl] at b1
    rw [b1]; rfl
  have hd1 : 2 * 2 ^ K ∣ p - 1 := by
    refine dvd_trans ?_ hd
    rw [← pow_succ']
    exact pow_dvd_pow 2 (by omega)
  have hd2 : 2 * 2 ^ (K + 2) ∣ p - 1 := by
    rw [← pow_succ']; exact hd
  obtain ⟨cp, c1, c2⟩ := compile_total (p := p) (K := K) (Ke := K + 2) rfl hK (by omega) hdef
    (embRank_eq b3 b2.scm) hd1 hd2
  refine ⟨cp, c1, ?_⟩
  rw [c2]
  have hari : ctx.arith = [[⟨1, some 0, [2]⟩, ⟨-1, none, [3]⟩], Context.ternary 4, Context.ternary 5,
      Context.ternary 6, Context.infDcmpConstraint 0 [3, 1, 1] [4, 5, 6]] := by rw [b8, a5, a2]; rfl
  have hlin : ctx.lin = [(.user 0, [(2, 0), (3, 1)])] := by rw [b6, a3]
  have hw : ctx.wCnt = 7 := by rw [b5, a2]; rfl
  obtain ⟨s1, s2⟩ := b2.sizes hN (by omega) (by simp [hlin]) (d := 4) (by rw [hari]; simp)
  exact ⟨b2, b3, by rw [b4, a1], hw, hlin, by rw [b7, a4, a2]; rfl, hari, s1, by rw [s2, hw]⟩

end

end Ringo
