import Verif.Proof.Complete2

/-!
# What the verifier decides
-/

namespace Ringo

open Finset Polynomial

set_option linter.unusedSectionVars false

section
variable {F : Type}

structure VWalkInv (rank m : Nat) (st : VWalkState F) : Prop where
  pl : st.pw.length = m
  pc : st.cnt ≤ m
  pr : ∀ (i : Nat) (v : List F), i < st.cnt → st.pw[i]? = some v → v.length = rank

mutual
theorem vrfWalk_inv {rank m : Nat} : ∀ (a : Val F) (st st' : VWalkState F) (e : Bool),
    VWalkInv rank m st → vrfWalk rank a st = .ok (st', e) → VWalkInv rank m st'
  | .pub s i w, st, st', e, hi, h => by
    unfold vrfWalk at h
    cases i with
    | false => cases h
    | true =>
    obtain ⟨pw, hpw, h⟩ := bind_ok_inv h
    obtain ⟨h1, rfl⟩ := setIdx_inv hpw
    by_cases hw : w.length ≠ rank
    · rw [if_pos hw] at h
      injection h with h
      simp only [Prod.mk.injEq] at h
      obtain ⟨rfl, -⟩ := h
      refine ⟨by simpa using hi.pl, hi.pc, ?_⟩
      intro j v hj hv
      simp only at hj hv
      rw [List.getElem?_set_ne (by omega)] at hv
      exact hi.pr j v hj hv
    · rw [if_neg hw] at h
      injection h with h
      simp only [Prod.mk.injEq] at h
      obtain ⟨rfl, -⟩ := h
      have hpl := hi.pl
      refine ⟨by simpa using hi.pl, by simp only; omega, ?_⟩
      intro j v hj hv
      simp only at hj hv
      by_cases hjc : st.cnt = j
      · subst hjc
        rw [List.getElem?_set_self h1] at hv
        injection hv with hv
        rw [← hv]; exact not_not.1 hw
      · rw [List.getElem?_set_ne hjc] at hv
        exact hi.pr j v (by omega) hv
  | .wit s i w, st, st', e, hi, h => by
    unfold vrfWalk at h
    injection h with h
    simp only [Prod.mk.injEq] at h
    rw [← h.1]; exact hi
  | .ptr v, st, st', e, hi, h => by
    unfold vrfWalk at h
    obtain ⟨r, hr, h⟩ := bind_ok_inv h
    injection h with h
    simp only [Prod.mk.injEq] at h
    rw [← h.1]
    exact vrfWalk_inv v st r.1 r.2 hi hr
  | .nilPtr, st, st', e, hi, h => by
    unfold vrfWalk at h
    injection h with h
    simp only [Prod.mk.injEq] at h
    rw [← h.1]; exact hi
  | .fields vs, st, st', e, hi, h => by
    unfold vrfWalk at h
    obtain ⟨r, hr, h⟩ := bind_ok_inv h
    injection h with h
    simp only [Prod.mk.injEq] at h
    rw [← h.1]
    exact vrfWalks_inv vs st r hi hr
  | .other, st, st', e, hi, h => by
    unfold vrfWalk at h
    injection h with h
    simp only [Prod.mk.injEq] at h
    rw [← h.1]; exact hi
theorem vrfWalks_inv {rank m : Nat} : ∀ (as : List (Val F)) (st st' : VWalkState F),
    VWalkInv rank m st → vrfWalks rank as st = .ok st' → VWalkInv rank m st'
  | [], st, st', hi, h => by
    unfold vrfWalks at h
    injection h with h
    rw [← h]; exact hi
  | a :: as, st, st', hi, h => by
    unfold vrfWalks at h
    obtain ⟨r, hr, h⟩ := bind_ok_inv h
    exact vrfWalks_inv as _ _ (vrfWalk_inv a st r.1 r.2 hi hr) h
end

end

section
variable {p : Nat} [Fact p.Prime]
variable {E : Env (ZMod p)} {cp : Compilation (ZMod p)} {K Ke : Nat} {g ge : ZMod p}

/-- The verifier's public table. -/
theorem assignV_shape {two : List TwoEntry} {a : Val (ZMod p)} {pw : List (List (ZMod p))}
    (h : assignV cp two a = .ok (some pw)) : Shape cp.ctx.pwCnt cp.ctx.rank pw := by
  unfold assignV at h
  obtain ⟨⟨pw0, b⟩, h1, h⟩ := bind_ok_inv h
  cases b with
  | true => simp only [if_true] at h; cases h
  | false =>
    simp only [Bool.false_eq_true, if_false] at h
    obtain ⟨pw1, h2, h⟩ := bind_ok_inv h
    injection h with h; injection h with h; subst h
    refine foldlM_pres (Shape cp.ctx.pwCnt cp.ctx.rank) (fun s e s' hs h => fillTwoPub_shape hs h)
      _ _ _ ?_ h2
    unfold vrfCollect at h1
    obtain ⟨⟨st, e⟩, h3, h1⟩ := bind_ok_inv h1
    have hi := vrfWalk_inv (m := cp.ctx.pwCnt) a _ _ _ (⟨by simp, by simp, by simp⟩) h3
    cases e with
    | true => injection h1 with h1; simp at h1
    | false =>
      injection h1 with h1
      simp only [Prod.mk.injEq] at h1
      obtain ⟨rfl, -⟩ := h1
      exact take_shape _ hi.pl hi.pc hi.pr

/-- The three equations of the verifier at the point `x`, in terms of the claimed evaluations `ev` and
the values `pe` of the public encodings. -/
structure Accepts (E : Env (ZMod p)) (cp : Compilation (ZMod p)) (pf : BProof (ZMod p) E.pcs)
    (pe : Nat → ZMod p) (ch : Challenges) (lm sm ls ss : ZMod p) (nA nL nS : Nat) : Prop where
  arith : cp.ctx.arith ≠ [] →
    E.setBytes ch.ab * (cp.ctx.arith.map (fun c => c.value pe (pf.evals.getD · 0))).sum =
      pf.evals.getD nA 0 * (E.setBytes ch.x ^ cp.ctx.rank - 1)
  lin : cp.ctx.lin ≠ [] →
    pf.evals.getD (nL + 2) 0 =
      E.setBytes ch.x ^ (E.pcs.rank - (cp.ctx.rank - 1)) * pf.evals.getD (nL + 1) 0 ∧
    E.setBytes ch.lb * horner (E.setBytes ch.lb)
      (linVals cp E.users (projMatrix E.xof ch.proj cp.ctx.rank) pf.evals
        ((List.range cp.ctx.rank).map (fun i => E.setBytes ch.lc ^ i)) (E.setBytes ch.x) cp.ctx.lin) 0
        + lm =
      pf.evals.getD nL 0 * (E.setBytes ch.x ^ cp.ctx.rank - 1) +
        pf.evals.getD (nL + 1) 0 * E.setBytes ch.x + ls
  sum : cp.ctx.sums ≠ [] →
    pf.evals.getD (nS + 2) 0 =
      E.setBytes ch.x ^ (E.pcs.rank - (cp.ctx.rank - 1)) * pf.evals.getD (nS + 1) 0 ∧
    E.setBytes ch.sb * (E.setBytes ch.sb *
      (cp.ctx.sums.map (fun c => c.value pe (pf.evals.getD · 0))).sum) + sm =
      pf.evals.getD nS 0 * (E.setBytes ch.x ^ cp.ctx.rank - 1) +
        pf.evals.getD (nS + 1) 0 * E.setBytes ch.x + ss

open Classical in
/-- On a proof of the right shape the verifier decides the three equations, after the check of the
commitment scheme. -/
theorem verify_spec (h : GoodCp K Ke g ge cp) (hj : 2 ^ K - 1 ≤ E.pcs.rank)
    (hi : CtxInv2 (2 ^ K) cp.ctx) {pw0 w0 : Nat} (hr : CtxRefs pw0 w0 cp.ctx)
    {two : List TwoEntry} {c' : Circ (ZMod p)} (hty : c'.ty = cp.ctx.circType)
    {pw : List (List (ZMod p))} (ha' : assignV cp two c'.val = .ok (some pw))
    (pf : BProof (ZMod p) E.pcs)
    (hlin : LinOK (2 ^ K) E.users (projMatrix E.xof (chalsOf E cp.ctx pf).proj (2 ^ K)) cp.ctx.lin)
    (hwl : pf.witness.length = cp.ctx.batch) (hel : pf.evals.length = cp.ctx.batch)
    (hl : cp.ctx.lin ≠ [] → pf.linMaskSum ≠ none) (hs : cp.ctx.sums ≠ [] → pf.sumMaskSum ≠ none)
    {b : Bool} (hb : E.pcs.verify (E.setBytes (chalsOf E cp.ctx pf).x) pf.witness pf.evals pf.evalProof
      = .ok b) :
    ∃ pps : List (List (ZMod p)), pps.length = pw.length ∧
      pw.mapM (fun v => cp.ecd.encode v) = .ok (pps.map (fun e => ⟨e, false⟩)) ∧
      verify E cp two c' pf = .ok (decide (b = true ∧ Accepts E cp pf
        (fun i => (listPoly (pps.getD i [])).eval (E.setBytes (chalsOf E cp.ctx pf).x))
        (chalsOf E cp.ctx pf) (pf.evals.getD cp.ctx.wCnt 0)
        (pf.evals.getD (cp.ctx.wCnt + (if cp.ctx.lin.length > 0 then 1 else 0)) 0)
        (pf.linMaskSum.getD 0) (pf.sumMaskSum.getD 0) (nextOf cp.ctx)
        (nextOf cp.ctx + (if cp.ctx.arith.length > 0 then 1 else 0))
        (nextOf cp.ctx + (if cp.ctx.arith.length > 0 then 1 else 0) +
          (if cp.ctx.lin.length > 0 then 3 else 0)))) := by
  have hbe := batch_eq cp.ctx
  have hpw := assignV_shape ha'
  rw [h.rank] at hpw
  have hch := challengesV_eq pf hi.lt (E := E) (cp := cp) ⟨by omega, by omega,
    fun h => Option.ne_none_iff_exists'.1 (hl (length_pos_ne.1 h)),
    fun h => Option.ne_none_iff_exists'.1 (hs (length_pos_ne.1 h))⟩
  obtain ⟨pps, pwNTT, p1, -, p3, -, -⟩ := encodePub_spec h pw hpw.2
  refine ⟨pps, p3, p1, ?_⟩
  set ch := chalsOf E cp.ctx pf with hchd
  set x := E.setBytes ch.x with hx
  have hw : cp.ctx.wCnt ≤ pf.evals.length := by rw [hel, hbe]; unfold nextOf; omega
  have hpl : (pps.map (fun e => evalAt e.length e x)).length = cp.ctx.pwCnt := by simp [p3, hpw.1]
  have hpe : ∀ cs : List (Constraint (ZMod p)),
      (cs.map (fun c => c.value ((pps.map (fun e => evalAt e.length e x)).getD · 0)
        (pf.evals.getD · 0))).sum =
      (cs.map (fun c => c.value (fun i => (listPoly (pps.getD i [])).eval x) (pf.evals.getD · 0))).sum := by
    intro cs
    congr 1
    apply List.map_congr_left
    intro c _
    congr 1
    funext i
    rw [List.getD_eq_getElem?_getD, List.getElem?_map, List.getD_eq_getElem?_getD, listPoly_eval]
    cases pps[i]? <;> simp [evalAt]
  have hidx : ∀ i, i < cp.ctx.batch → idx pf.evals i = .ok (pf.evals.getD i 0) := by
    intro i hi
    have : i < pf.evals.length := by omega
    rw [idx_ok this, getD_eq this]
  unfold verify
  rw [if_neg (by simp [hty]), ha', go_bind_ok]
  simp only
  rw [p1, go_bind_ok, hch, go_bind_ok]
  simp only
  rw [← hx, hb, go_bind_ok]
  cases b with
  | false => simp
  | true =>
  simp only [Bool.not_true, Bool.false_eq_true, if_false, true_and]
  unfold checksV
  rw [← hx, evaluate_map, go_bind_ok]
  have hA : arithStepV E cp pf (pps.map (fun e => evalAt e.length e x)) ch (nextOf cp.ctx) =
      .ok (decide (cp.ctx.arith ≠ [] →
        E.setBytes ch.ab * (cp.ctx.arith.map (fun c => c.value
          (fun i => (listPoly (pps.getD i [])).eval x) (pf.evals.getD · 0))).sum =
        pf.evals.getD (nextOf cp.ctx) 0 * (x ^ cp.ctx.rank - 1)),
        nextOf cp.ctx + (if cp.ctx.arith.length > 0 then 1 else 0)) := by
    unfold arithStepV
    by_cases hn : cp.ctx.arith.length > 0
    · have hne := length_pos_ne.1 hn
      rw [if_pos hn, if_pos hn, hidx _ (by rw [hbe, if_pos hn]; omega), go_bind_ok]
      unfold arithCheckV
      rw [evalCircuitV_spec _ _ _ _ cp.ctx.pwCnt cp.ctx.wCnt hr.arith hpl.ge hw, go_bind_ok, go_pure,
        go_bind_ok, hpe, ← hx, C01_exp]
      simp only [go_pure, hne, not_false_eq_true, ne_eq, true_imp_iff]
      rfl
    · have hne : ¬ cp.ctx.arith ≠ [] := fun h => hn (length_pos_ne.2 h)
      rw [if_neg hn, if_neg hn]; simp [hne]
  rw [hA, go_bind_ok]
  simp only
  have hL : linStepV E cp pf ch
      (if cp.ctx.lin.length > 0 then some (pf.evals.getD cp.ctx.wCnt 0) else none)
      (nextOf cp.ctx + (if cp.ctx.arith.length > 0 then 1 else 0)) = .ok (decide (cp.ctx.lin ≠ [] →
        pf.evals.getD (nextOf cp.ctx + (if cp.ctx.arith.length > 0 then 1 else 0) + 2) 0 =
          x ^ (E.pcs.rank - (cp.ctx.rank - 1)) *
            pf.evals.getD (nextOf cp.ctx + (if cp.ctx.arith.length > 0 then 1 else 0) + 1) 0 ∧
        E.setBytes ch.lb * horner (E.setBytes ch.lb)
          (linVals cp E.users (projMatrix E.xof ch.proj cp.ctx.rank) pf.evals
          ((List.range cp.ctx.rank).map (fun i => E.setBytes ch.lc ^ i)) x cp.ctx.lin) 0
          + pf.evals.getD cp.ctx.wCnt 0 =
        pf.evals.getD (nextOf cp.ctx + (if cp.ctx.arith.length > 0 then 1 else 0)) 0 * (x ^ cp.ctx.rank - 1) +
        pf.evals.getD (nextOf cp.ctx + (if cp.ctx.arith.length > 0 then 1 else 0) + 1) 0 * x +
          pf.linMaskSum.getD 0),
        nextOf cp.ctx + (if cp.ctx.arith.length > 0 then 1 else 0) +
          (if cp.ctx.lin.length > 0 then 3 else 0)) := by
    unfold linStepV
    by_cases hn : cp.ctx.lin.length > 0
    · have hne := length_pos_ne.1 hn
      rw [if_pos hn, if_pos hn, if_pos hn, hidx _ (by rw [hbe, if_pos hn]; omega), go_bind_ok,
        hidx _ (by rw [hbe, if_pos hn]; omega), go_bind_ok, hidx _ (by rw [hbe, if_pos hn]; omega), go_bind_ok]
      obtain ⟨s, hs⟩ := Option.ne_none_iff_exists'.1 (hl hne)
      rw [hs]
      simp only [nonNil, go_pure, go_bind_ok]
      rw [← h.rank] at hlin hj
      rw [← hx, C01_exp]
      rw [h.rank] at hlin hj ⊢
      rw [linCheckV_spec h hj hlin pf.evals (fun e he w hw' => by
        obtain ⟨h1, h2⟩ := hr.lin e he w hw'; exact ⟨by omega, by omega⟩), go_bind_ok]
      simp only [hne, not_false_eq_true, ne_eq, true_imp_iff, Option.getD_some]
    · have hne : ¬ cp.ctx.lin ≠ [] := fun h => hn (length_pos_ne.2 h)
      rw [if_neg hn, if_neg hn]; simp [hne]
  rw [hL]
  have hS : sumStepV E cp pf (pps.map (fun e => evalAt e.length e x)) ch
      (if cp.ctx.sums.length > 0 then some (pf.evals.getD (cp.ctx.wCnt +
        (if cp.ctx.lin.length > 0 then 1 else 0)) 0) else none)
      (nextOf cp.ctx + (if cp.ctx.arith.length > 0 then 1 else 0) +
          (if cp.ctx.lin.length > 0 then 3 else 0)) = .ok (decide (cp.ctx.sums ≠ [] →
        pf.evals.getD (nextOf cp.ctx + (if cp.ctx.arith.length > 0 then 1 else 0) +
          (if cp.ctx.lin.length > 0 then 3 else 0) + 2) 0 =
          x ^ (E.pcs.rank - (cp.ctx.rank - 1)) *
            pf.evals.getD (nextOf cp.ctx + (if cp.ctx.arith.length > 0 then 1 else 0) +
          (if cp.ctx.lin.length > 0 then 3 else 0) + 1) 0 ∧
        E.setBytes ch.sb * (E.setBytes ch.sb *
          (cp.ctx.sums.map (fun c => c.value (fun i => (listPoly (pps.getD i [])).eval x)
            (pf.evals.getD · 0))).sum) +
          pf.evals.getD (cp.ctx.wCnt + (if cp.ctx.lin.length > 0 then 1 else 0)) 0 =
        pf.evals.getD (nextOf cp.ctx + (if cp.ctx.arith.length > 0 then 1 else 0) +
          (if cp.ctx.lin.length > 0 then 3 else 0)) 0 * (x ^ cp.ctx.rank - 1) +
        pf.evals.getD (nextOf cp.ctx + (if cp.ctx.arith.length > 0 then 1 else 0) +
          (if cp.ctx.lin.length > 0 then 3 else 0) + 1) 0 * x + pf.sumMaskSum.getD 0)) := by
    unfold sumStepV
    by_cases hn : cp.ctx.sums.length > 0
    · have hne := length_pos_ne.1 hn
      rw [if_pos hn, if_pos hn, hidx _ (by rw [hbe, if_pos hn]; omega), go_bind_ok,
        hidx _ (by rw [hbe, if_pos hn]; omega), go_bind_ok, hidx _ (by rw [hbe, if_pos hn]; omega), go_bind_ok]
      obtain ⟨s, hs⟩ := Option.ne_none_iff_exists'.1 (hs hne)
      rw [hs]
      simp only [nonNil, go_pure, go_bind_ok]
      rw [← h.rank] at hj
      rw [← hx, C01_exp, sumCheckV_spec cp.ctx hj pf.evals _ cp.ctx.pwCnt cp.ctx.wCnt hr.sums hpl.ge hw,
        hpe]
      simp only [hne, not_false_eq_true, ne_eq, true_imp_iff, Option.getD_some]
    · have hne : ¬ cp.ctx.sums ≠ [] := fun h => hn (length_pos_ne.2 h)
      rw [if_neg hn]; simp [hne]
  rw [go_bind_ok]
  simp only
  rw [hS]
  have key : ∀ A B C : Prop, ∀ (_ : Decidable A) (_ : Decidable B) (_ : Decidable C),
      (if (!decide A) = true then (pure false : Go Bool) else if (!decide B) = true then pure false
        else .ok (decide C)) = .ok (decide (A ∧ B ∧ C)) := by
    intro A B C _ _ _
    by_cases hA : A <;> by_cases hB : B <;> simp [hA, hB]
  rw [key]
  congr 1
  apply decide_eq_decide.2
  constructor
  · rintro ⟨a, b, c⟩; exact ⟨a, b, c⟩
  · rintro ⟨a, b, c⟩; exact ⟨a, b, c⟩

end

end Ringo
