import Verif.Props.Complete
import Verif.Props.JTypical
import Verif.Props.Unsound

/-! # Buckler with Jindo, from `Compile` to `Verify` -/

namespace Ringo

open Finset

section
variable {p : Nat} [Fact p.Prime] {T T' : Type} [AddCommGroup T] [AddCommGroup T'] [DecidableEq T]

theorem commit_ok_args {J : JEnv p T T'} {v : List (ZMod p)} {r : ComRand p} {co} (h : J.commit v r = .ok co) :
    v ≠ [] ∧ v.length ≤ J.par.mat.rank := by
  unfold JEnv.commit at h
  split at h
  · cases h
  · rename_i hl
    refine ⟨?_, by omega⟩
    rintro rfl
    obtain ⟨fl, h1, -⟩ := bind_ok_inv h
    unfold genFirstLastRow at h1
    dsimp only at h1
    split at h1
    · cases h1
    · obtain ⟨v0, h2, -⟩ := bind_ok_inv h1
      cases h2

/-- Commitments are determined by the polynomials and the randomness. -/
theorem commit_align {J : JEnv p T T'} {n : Nat} {all : List (List (ZMod p) × List T' × JOpen T T')}
    {rs : Nat → ComRand p} (hn : all.length = n) (hm : ∀ i e, all[i]? = some e → J.commit e.1 (rs i) = .ok e.2)
    {coms : List (List T')} {opens : List (JOpen T T')} (h1 : coms.length = n) (h2 : opens.length = n)
    (h : ∀ i < n, J.commit ((all.map (·.1)).getD i []) (rs i) =
      .ok (coms.getD i [], opens.getD i ⟨[], [], []⟩)) :
    coms = all.map (·.2.1) ∧ opens = all.map (·.2.2) := by
  have key : ∀ (i : Nat) (hi : i < n), (coms[i]'(by omega), opens[i]'(by omega)) = (all[i]'(by omega)).2 := by
    intro i hi
    have e1 := hm i _ (List.getElem?_eq_getElem (by omega))
    have e2 := h i hi
    rw [List.getD_eq_getElem _ _ (by simp; omega), List.getElem_map, e1, List.getD_eq_getElem _ _ (by omega),
      List.getD_eq_getElem _ _ (by omega)] at e2
    exact (Except.ok.inj e2).symm
  constructor
  · refine List.ext_getElem (by simp; omega) fun i hi hi' => ?_
    rw [List.getElem_map, ← key i (by omega)]
  · refine List.ext_getElem (by simp; omega) fun i hi hi' => ?_
    rw [List.getElem_map, ← key i (by omega)]

theorem all_args {J : JEnv p T T'} {all : List (List (ZMod p) × List T' × JOpen T T')}
    {rs : Nat → ComRand p} (hm : ∀ i e, all[i]? = some e → J.commit e.1 (rs i) = .ok e.2) :
    ∀ v ∈ all.map (·.1), v ≠ [] ∧ v.length ≤ J.par.mat.rank := by
  intro v hv
  obtain ⟨e, he, rfl⟩ := List.mem_map.mp hv
  obtain ⟨i, hi, rfl⟩ := List.mem_iff_getElem.mp he
  exact commit_ok_args (hm i _ (List.getElem?_eq_getElem hi))

theorem evaluate_made (J : JEnv p T T') (hJ : J.Good) (A : J.ringQ.Lawful) (A' : J.ringQ'.Lawful) (x : ZMod p)
    (all : List (List (ZMod p) × List T' × JOpen T T')) (rs : Nat → ComRand p) (hl : all.length = J.par.batch)
    (hm : ∀ i e, all[i]? = some e → J.commit e.1 (rs i) = .ok e.2) :
    ∃ pf, J.evaluate x (all.map (·.1)) (all.map (·.2.1)) (all.map (·.2.2)) =
      .ok (all.map fun e => evalAt e.1.length e.1 x, pf) := by
  obtain ⟨coms, opens, I, pf, g1, g2, g3, g4, -⟩ := complete_sampled J hJ A A' x (all.map (·.1))
    (by simpa using hl) (all_args hm) rs
  obtain ⟨rfl, rfl⟩ := commit_align hl hm g2 g3 fun i hi => (g1 i hi).1
  refine ⟨pf, ?_⟩
  rw [g4, List.map_map]
  rfl

/-- Given commitments, `Evaluate` returns the right values. -/
theorem jindo_evaluates (J : JEnv p T T') (hJ : J.Good) (A : J.ringQ.Lawful) (A' : J.ringQ'.Lawful)
    (ser : List T' → Bytes) : (jindoPCS J ser).Evaluates J.par.batch := by
  constructor
  · intro poly r h1 h2
    obtain ⟨coms, opens, I, a1, a2, a3⟩ := commitAll J hJ A A' [poly]
      (by simpa using ⟨List.ne_nil_of_length_pos h1, h2⟩) (fun _ => r)
    exact ⟨_, (a3 0 Nat.one_pos).1⟩
  · intro x all rs r hl hm
    exact evaluate_made J hJ A A' x all rs hl hm

/-- **C109.**  A circuit `v` whose `Define` makes the calls `ops`, in the cases of C48_partial; the parameters are
what `NewParameters` returns for the numbers `Compile` asks for.  For every assignment `a` that satisfies the
constraints, all randomness and every oracle, `Prove` returns a proof `pf` with commitments to polynomials `vs` and
their values at the point.  `Verify` accepts it if the responses of the evaluation proof are within the bounds that
`NewParameters` computes with. -/
theorem C109_complete (hp2 : p % 2 = 1) {K ty : Nat} (hK : 3 ≤ K) (ops : List (CtxOp (ZMod p)))
    {cp : Compilation (ZMod p)}
    (v a a' : Val (ZMod p)) (hset : Settable v) (hshape : SameShape v a) (hfull : FullRank (2 ^ K) a)
    (hpub : SamePublic a a')
    (hc : compile (2 ^ K) ty (firstWalk v ⟨0, 0⟩).2.1.pw (firstWalk v ⟨0, 0⟩).2.1.w ops = .ok cp)
    (h62 : cp.ctx.wCnt ≤ 2 ^ 62 ∧ cp.ctx.pwCnt ≤ 2 ^ 62)
    (hp : 2 * cp.ctx.wCnt + 1 < p ∧ 2 * cp.ctx.pwCnt + 1 < p)
    (hv : ∀ op ∈ ops, op.Valid (firstWalk v ⟨0, 0⟩).2.1.pw (firstWalk v ⟨0, 0⟩).2.1.w)
    (hinf : (ops.filterMap CtxOp.infId).Nodup) (hsq : (ops.filterMap CtxOp.sqId).length ≤ 1)
    (happ : (ops.filterMap CtxOp.approxId).Nodup)
    (hlt : 2 ^ K < max cp.ctx.arithCheckMaxRank cp.ctx.sumCheckMaxRank)
    (hA : cp.ctx.arith ≠ [] → 2 ^ K < cp.ctx.arithCheckMaxRank)
    (hS : cp.ctx.sums ≠ [] → 2 ^ K < cp.ctx.sumCheckMaxRank)
    (E0 : Env (ZMod p)) (hus : ∀ o i n, CtxOp.lin o i n ∈ ops → Adjoint (2 ^ K) (E0.users n))
    {F : Flt} (hF : F.Ok) {gen : ℤ → ℤ → Option (List Nat)} (hg : GenOk gen) (h47 : cp.ctx.commitRank ≤ 2 ^ 47)
    (h53 : cp.ctx.batch ≤ 2 ^ 53) {P : RParams}
    (hP : F.newParameters gen cp.ctx.commitRank cp.ctx.batch p = .ok P) (hP0 : P ≠ RParams.zero)
    (h2 : 2 ≤ P.shape.exp) (h64 : P.shape.exp ≤ 64) (J : JEnv p T T') (hJ : J.From P)
    (hn : NearPrimes gen J.ringQ.qs) (A : J.ringQ.Lawful) (A' : J.ringQ'.Lawful) (ser : List T' → Bytes)
    (ord : Orders) (hord : GoodOrders cp.ctx ord) (two : List TwoEntry) (htwo : two.Perm cp.ctx.twoDcmp)
    (hon : ∀ pw sw, AssignedTo v a pw sw → ∀ op ∈ ops, op.HonestFor (2 ^ K) E0.users pw sw)
    (t : Tape (ZMod p) (ComRand p)) :
    let E : Env (ZMod p) := { E0 with pcs := jindoPCS J ser }
    ∃ pf : BProof (ZMod p) (jindoPCS J ser), prove E cp t ord ⟨ty, a⟩ = .ok (some pf) ∧
      let x := E.setBytes (chalsOf E cp.ctx pf).x
      let coms : List (List T') := pf.witness
      ∃ (vs : List (List (ZMod p))) (opens : List (JOpen T T')) (I : Nat → JInts),
        vs.length = cp.ctx.batch ∧ coms.length = cp.ctx.batch ∧ opens.length = cp.ctx.batch ∧
        (∀ i < cp.ctx.batch, J.commit (vs.getD i []) (t.com i) = .ok (coms.getD i [], opens.getD i ⟨[], [], []⟩) ∧
          J.Opens A A' (vs.getD i []) (coms.getD i []) (opens.getD i ⟨[], [], []⟩) (I i) ∧
          J.Sampled (t.com i) (I i)) ∧
        J.evaluate x vs coms opens = .ok (pf.evals, pf.evalProof) ∧
        pf.evals = vs.map (fun v => ∑ i ∈ range v.length, v.getD i 0 * x ^ i) ∧
        (∃ W, J.Honest x coms pf.evalProof I W) ∧
        ∀ W, J.Honest x coms pf.evalProof I W → J.Typical P W → verify E cp two ⟨ty, a'⟩ pf = .ok true := by
  intro E
  have hp3 : 3 ≤ p := by
    have := (Fact.out : p.Prime).two_le
    omega
  obtain ⟨hgood, hbatch, hrank⟩ := C107_good hF hg hp3 h47 h53 hP hP0 h2 h64 J hJ
  have hsrank : P.shape.rank = J.par.mat.rank := by
    obtain ⟨_, _, _, -, -, -, hpar⟩ := hJ.par
    rw [hpar]; rfl
  obtain ⟨pf, g1, all, g2, g3, g4, g5, g6⟩ := C48_run (E := E) hp2 hK ops v a a' hset hshape hfull hpub hc h62 hp hv
    hinf hsq happ hlt hA hS hus (hbatch ▸ jindo_evaluates J hgood A A' ser) hrank ord hord two htwo hon t
  refine ⟨pf, g1, ?_⟩
  intro x coms
  change List (List (ZMod p) × List T' × JOpen T T') at all
  obtain ⟨coms', opens, I, pf', k1, k2, k3, k4, k5, k6⟩ := C108_complete hF hg hp3 h47 h53 hP hP0 h2 h64 J hJ hn A A' x
    (all.map (·.1)) ((List.length_map _).trans g2) (by rw [hsrank]; exact all_args g4) t.com
  obtain ⟨e1, e2⟩ := commit_align g2 g4 k2 k3 fun i hi => (k1 i hi).1
  have hcoms : coms = coms' := by rw [e1]; exact g3
  have hev : J.evaluate x (all.map (·.1)) coms' opens = .ok (pf.evals, pf.evalProof) := by
    rw [e1, e2]; exact g5
  have k7 := Except.ok.inj (hev.symm.trans k4)
  have k8 : pf.evals = _ := congrArg Prod.fst k7
  have k9 : pf.evalProof = pf' := congrArg Prod.snd k7
  subst k9
  refine ⟨all.map (·.1), opens, I, (List.length_map _).trans g2, hcoms ▸ k2, k3, hcoms ▸ k1, hcoms ▸ hev, k8, hcoms ▸ k5, ?_⟩
  intro W hW hT
  refine g6 ?_
  show J.verify x coms pf.evals pf.evalProof = _
  rw [k8, hcoms]
  exact k6 W (hcoms ▸ hW) hT

end

end Ringo
