import Verif.Props.JBuckler
import Verif.Props.EndToEnd

/-!
# C127: Buckler over the repaired Jindo is complete
-/

namespace Ringo

open Finset

set_option linter.unusedSectionVars false

variable {p : Nat} [Fact p.Prime] {T T' : Type} [AddCommGroup T] [AddCommGroup T']

/-- Acceptance with one verifier of openings gives acceptance with another that accepts at the point. -/
theorem verify_swap (E0 : Env (ZMod p)) {Com Open Pf Rnd Open' Rnd' : Type} {rank : Nat}
    {commit : List (ZMod p) → Rnd → Go (Com × Open)} {commit' : List (ZMod p) → Rnd' → Go (Com × Open')}
    {evaluate : ZMod p → List (List (ZMod p)) → List Com → List Open → Rnd → Go (List (ZMod p) × Pf)}
    {evaluate' : ZMod p → List (List (ZMod p)) → List Com → List Open' → Rnd' → Go (List (ZMod p) × Pf)}
    {vf vf' : ZMod p → List Com → List (ZMod p) → Pf → Go Bool} {ser : Com → Bytes} (cp : Compilation (ZMod p))
    (two : List TwoEntry) (ci : Circ (ZMod p)) (w : List Com) (ls ss : Option (ZMod p)) (y : List (ZMod p)) (pf pf' : Pf)
    (h : verify { E0 with pcs := ⟨Com, Open, Pf, Rnd, rank, commit, evaluate, vf, ser⟩ } cp two ci ⟨w, ls, ss, y, pf⟩ =
      .ok true)
    (hv : ∀ ch r, challengesV { E0 with pcs := ⟨Com, Open, Pf, Rnd, rank, commit, evaluate, vf, ser⟩ } cp
      ⟨w, ls, ss, y, pf⟩ = .ok (some (ch, r)) → vf' (E0.setBytes ch.x) w y pf' = .ok true) :
    verify { E0 with pcs := ⟨Com, Open', Pf, Rnd', rank, commit', evaluate', vf', ser⟩ } cp two ci ⟨w, ls, ss, y, pf'⟩ =
      .ok true := by
  unfold verify at h ⊢
  by_cases hty : cp.ctx.circType ≠ ci.ty
  · rw [if_pos hty] at h
    exact absurd h (by simp [pure, Except.pure])
  rw [if_neg hty] at h ⊢
  cases ha : assignV cp two ci.val with
  | error e => rw [ha] at h; exact absurd h (by simp [bind, Except.bind])
  | ok o =>
    rw [ha] at h
    cases o with
    | none => exact absurd h (by simp [bind, Except.bind, pure, Except.pure])
    | some pw =>
      simp only [bind, Except.bind] at h ⊢
      cases hm : List.mapM (fun v => cp.ecd.encode v) pw with
      | error e => rw [hm] at h; exact absurd h (by simp)
      | ok q =>
        rw [hm] at h
        simp only at h ⊢
        have hcv : challengesV { E0 with pcs := ⟨Com, Open', Pf, Rnd', rank, commit', evaluate', vf', ser⟩ } cp
            ⟨w, ls, ss, y, pf'⟩ = challengesV { E0 with pcs := ⟨Com, Open, Pf, Rnd, rank, commit, evaluate, vf, ser⟩ } cp
            ⟨w, ls, ss, y, pf⟩ := rfl
        rw [hcv]
        cases hc : challengesV { E0 with pcs := ⟨Com, Open, Pf, Rnd, rank, commit, evaluate, vf, ser⟩ } cp
            ⟨w, ls, ss, y, pf⟩ with
        | error e => rw [hc] at h; exact absurd h (by simp)
        | ok o =>
          rw [hc] at h
          cases o with
          | none => exact absurd h (by simp [pure, Except.pure])
          | some r =>
            obtain ⟨r1, r2, r3, r4⟩ := r
            simp only at h ⊢
            cases hx : vf (E0.setBytes r1.x) w y pf with
            | error e => rw [hx] at h; exact absurd h (by simp)
            | ok v =>
              rw [hx] at h
              cases v with
              | false => exact absurd h (by simp [pure, Except.pure])
              | true =>
                rw [hv _ _ hc]
                exact h

/-- **C127.**  The repaired protocol of C125 is complete.  In the situation of C48_partial, with randomness of size at
most `S` and parameters that leave room for it: `Prove` returns a proof, and with its commitments, mask sums and values
the prover can answer all of Jindo's challenges.  After the bytes `b` of the batching challenges there are partial
evaluations short enough for the additional check, and after the bytes `c` there is an opening with which Buckler's
`Verify` accepts. -/
theorem C127_complete [DecidableEq T] (J : JEnv p T T') (h : J.Good) (A : J.ringQ.Lawful) (A' : J.ringQ'.Lawful)
    (F S : Nat)
    (hF : J.par.mat.rows * (J.par.enc.N * (J.par.enc.ecd.base * JEnv.batchGrow J (JEnv.encSize J S))) ≤ F)
    (b1 : J.toFloat (Nat.sqrt
      (J.par.dcmpLen * (J.par.enc.N * JEnv.batchGrow J (JEnv.truncMax J) ^ 2) +
        J.par.outRank * (J.par.enc.N * JEnv.batchGrow J (2 ^ J.par.outCut) ^ 2))) < J.par.dcmpNm)
    (b2 : J.toFloat (Nat.sqrt
      (J.par.mat.rows * (J.par.enc.N * JEnv.combGrow J (JEnv.encSize J S) ^ 2) +
        (J.par.mlweRank + J.par.inRank) * (J.par.enc.N * JEnv.combGrow J S ^ 2) +
        J.par.inRank * (J.par.enc.N * JEnv.combGrow J (2 ^ J.par.inCut) ^ 2))) < J.par.resNm)
    (b3 : 2 * F + 1 < J.ringQ.qs.prod)
    (hp2 : p % 2 = 1) {K ty : Nat} (hK : 3 ≤ K) (ops : List (CtxOp (ZMod p))) {cp : Compilation (ZMod p)}
    (v a a' : Val (ZMod p)) (hset : Settable v) (hshape : SameShape v a) (hfull : FullRank (2 ^ K) a)
    (hpub : SamePublic a a')
    (hc : compile (2 ^ K) ty (firstWalk v ⟨0, 0⟩).2.1.pw (firstWalk v ⟨0, 0⟩).2.1.w ops = .ok cp)
    (h62 : cp.ctx.wCnt ≤ 2 ^ 62 ∧ cp.ctx.pwCnt ≤ 2 ^ 62)
    (hp : 2 * cp.ctx.wCnt + 1 < p ∧ 2 * cp.ctx.pwCnt + 1 < p)
    (hv : ∀ op ∈ ops, op.Valid (firstWalk v ⟨0, 0⟩).2.1.pw (firstWalk v ⟨0, 0⟩).2.1.w)
    (hinf : (ops.filterMap CtxOp.infId).Nodup) (hsq : (ops.filterMap CtxOp.sqId).length ≤ 1)
    (happ : (ops.filterMap CtxOp.approxId).Nodup)
    (hlt : 2 ^ K < max cp.ctx.arithCheckMaxRank cp.ctx.sumCheckMaxRank)
    (hA : cp.ctx.arith ≠ [] → 2 ^ K < cp.ctx.arithCheckMaxRank)
    (hS : cp.ctx.sums ≠ [] → 2 ^ K < cp.ctx.sumCheckMaxRank)
    (E0 : Env (ZMod p)) (hus : ∀ o i n, CtxOp.lin o i n ∈ ops → Adjoint (2 ^ K) (E0.users n))
    (hb : J.par.batch = cp.ctx.batch) (hrank : cp.ctx.commitRank ≤ J.par.mat.rank) (ser : List T' → Bytes)
    (ord : Orders) (hord : GoodOrders cp.ctx ord) (two : List TwoEntry) (htwo : two.Perm cp.ctx.twoDcmp)
    (hon : ∀ pw sw, AssignedTo v a pw sw → ∀ op ∈ ops, op.HonestFor (2 ^ K) E0.users pw sw)
    (t : Tape (ZMod p) (ComRand p))
    (ht : ∀ i j k l, (((t.com i).col j).cell k l).natAbs ≤ S ∧ (((t.com i).col j).mlwe k l).natAbs ≤ S) :
    let E : Env (ZMod p) := { E0 with pcs := jindoPCS J ser }
    ∃ pf : BProof (ZMod p) (jindoPCS J ser), prove E cp t ord ⟨ty, a⟩ = .ok (some pf) ∧
      let x := E.setBytes (chalsOf E cp.ctx pf).x
      let coms : List (List T') := pf.witness
      ∀ b : Fin J.par.batch → Fin 16 → BitVec 8, ∃ (parts : List T) (pm : T), J.ShortParts A F parts ∧
        ∀ c : ColBytes J, ∃ jpf : JProof T T', jpf.parts = parts ∧ jpf.partMask = pm ∧
          verify { E0 with pcs := jindoPCS (J.withBytes x coms (bytesOf b) parts pm (bytesOf c)) ser } cp two ⟨ty, a'⟩
            ⟨coms, pf.linMaskSum, pf.sumMaskSum, pf.evals, jpf⟩ = .ok true := by
  intro E
  obtain ⟨pf, g1, all, g2, g3, g4, g5, g6⟩ := C48_run (E := E) hp2 hK ops v a a' hset hshape hfull hpub hc h62 hp hv
    hinf hsq happ hlt hA hS hus (hb ▸ jindo_evaluates J h A A' ser) hrank ord hord two htwo hon t
  refine ⟨pf, g1, ?_⟩
  intro x coms
  change List (List (ZMod p) × List T' × JOpen T T') at all
  have hb3 : 2 * (J.par.mat.rows * (J.par.enc.N * (J.par.enc.ecd.base *
      JEnv.batchGrow J (JEnv.encSize J S)))) + 1 < J.ringQ.qs.prod := by omega
  have hl : (all.map (·.1)).length = J.par.batch := (List.length_map _).trans (g2.trans hb.symm)
  have hargs := all_args g4
  have g5 : J.evaluate x (all.map (·.1)) (all.map (·.2.1)) (all.map (·.2.2)) = .ok (pf.evals, pf.evalProof) := g5
  have hcm : coms = all.map (·.2.1) := g3
  -- with its own bytes
  obtain ⟨hy, hown⟩ : pf.evals = (all.map (·.1)).map (fun v => ∑ i ∈ range v.length, v.getD i 0 * x ^ i) ∧
      J.verify x coms pf.evals pf.evalProof = .ok true := by
    obtain ⟨coms', opens', jp, c1, m1, m2, e1, e2⟩ := C63_bounded J h A A' x (all.map (·.1)) hl hargs t.com S ht b1 b2 hb3
    obtain ⟨q1, q2⟩ := commit_align (J := J) (g2.trans hb.symm) g4 m1 m2 c1
    rw [q1, q2] at e1
    have k := Except.ok.inj (g5.symm.trans e1)
    have k1 : pf.evals = (all.map (·.1)).map (fun v => ∑ i ∈ range v.length, v.getD i 0 * x ^ i) := congrArg Prod.fst k
    have k2 : pf.evalProof = jp := congrArg Prod.snd k
    rw [q1, ← hcm, ← k1, ← k2] at e2
    exact ⟨k1, e2⟩
  have hver : verify E cp two ⟨ty, a'⟩ pf = .ok true := g6 hown
  have hpoint : ∀ ch r, challengesV E cp pf = .ok (some (ch, r)) → E0.setBytes ch.x = x := by
    intro ch r hch
    unfold prove at g1
    obtain ⟨o, o1, o2⟩ := bind_ok_inv g1
    cases o with
    | none => cases o2
    | some o =>
      obtain ⟨pf', vals⟩ := o
      have e : pf' = pf := Option.some.inj (Except.ok.inj o2)
      rw [e] at o1
      have hi : CtxInv2 (2 ^ K) cp.ctx := CtxInv2.define ops (CtxInv2.new _ _ _ _) (compile_inv hc).1
      obtain ⟨-, _, _, _, _, _, _, _, all', -, -, R⟩ := proveT_run hc o1
      have := challengesV_eq pf hi.lt (R.shape (by
        rw [R.len, hy, List.length_map, hl, hb]))
      rw [this] at hch
      have := congrArg Prod.fst (Option.some.inj (Except.ok.inj hch))
      rw [← show _ = ch from this]
  intro b
  let J1 := J.answer (J.firstMsgs x coms) (bytesOf b)
  have h1 : J1.Good := answer_good h _ (bytesOf_length b)
  obtain ⟨coms', opens', jp, c1, m1, m2, e1, hcv⟩ := C84_honest J1 h1 A A' x (all.map (·.1)) hl hargs t.com S ht b1 b2 hb3
  have hs := honest_short J1 h1 A A' x (all.map (·.1)) hl hargs t.com S ht b1 b2 m1 m2 c1 e1
  obtain ⟨q1, q2⟩ := commit_align (J := J) (g2.trans hb.symm) g4 m1 m2 c1
  have hcoms : coms' = coms := q1.trans hcm.symm
  rw [hcoms, ← hy] at hcv
  refine ⟨jp.parts, jp.partMask, fun j hj => ?_, fun c => ?_⟩
  · obtain ⟨z, z1, z2⟩ := hs j hj
    exact ⟨z, ⟨z1.1, fun c hc => (z1.2 c hc).trans hF⟩, z2⟩
  · obtain ⟨jpf, f1, f2, f3⟩ := hcv (bytesOf c) (bytesOf_length c)
    refine ⟨jpf, f1, f2, ?_⟩
    refine verify_swap E0 (vf := J.verify) (commit := J.commit)
      (evaluate := fun x vs coms opens _ => J.evaluate x vs coms opens) cp two ⟨ty, a'⟩ coms pf.linMaskSum pf.sumMaskSum
      pf.evals pf.evalProof jpf hver ?_
    intro ch r hch
    rw [hpoint ch r hch]
    exact f3

end Ringo
