import Verif.Proof.Transcript
import Verif.Proof.Assign

/-!
# C46: the transcript
-/

namespace Ringo

open Finset Polynomial

set_option linter.unusedSectionVars false

section
variable {p : Nat} [Fact p.Prime] {E : Env (ZMod p)} {cp : Compilation (ZMod p)}

/-- `Evaluate` returns one evaluation for each polynomial. -/
def PCS.EvalLength (P : PCS (ZMod p)) : Prop :=
  ∀ x polys coms opens r evals pf, P.evaluate x polys coms opens r = .ok (evals, pf) →
    evals.length = polys.length

theorem FullRun.shape {t : Tape (ZMod p) E.pcs.Rnd} {ord : Orders} {pwNTT : List (Poly (ZMod p))}
    {sw : List (List (ZMod p))} {pf : BProof (ZMod p) E.pcs} {vals : List Bytes}
    {sw2 : List (List (ZMod p))} {wNTT : List (Option (Poly (ZMod p)))}
    {lm sm : Option (Poly (ZMod p) × ZMod p)} {all : List (List (ZMod p) × E.pcs.Com × E.pcs.Open)}
    (h : FullRun E cp t ord pwNTT sw pf vals sw2 wNTT lm sm all) (he : pf.evals.length = all.length) :
    PfShape cp.ctx pf := by
  have hb := batch_eq cp.ctx
  have hl := h.len
  refine ⟨?_, ?_, ?_, ?_⟩
  · rw [h.pfW, List.length_map, hl, hb]; omega
  · rw [he, hl, hb]; omega
  · intro hn
    obtain ⟨m, -, -, h1, -⟩ := h.linMask hn
    exact ⟨m.2, by rw [h.pfL, h1]; rfl⟩
  · intro hn
    obtain ⟨m, -, -, h1, -⟩ := h.sumMask hn
    exact ⟨m.2, by rw [h.pfS, h1]; rfl⟩

/-- A proof returned by the prover comes from a run of its rounds. -/
theorem proveT_run {N ty pw0 w0 : Nat} {ops : List (CtxOp (ZMod p))}
    (hc : compile N ty pw0 w0 ops = .ok cp) {t : Tape (ZMod p) E.pcs.Rnd} {ord : Orders}
    {c : Circ (ZMod p)} {pf : BProof (ZMod p) E.pcs} {vals : List Bytes}
    (h : proveT E cp t ord c = .ok (some (pf, vals))) :
    c.ty = cp.ctx.circType ∧ ∃ pw sw pwNTT sw2 wNTT lm sm all,
      assign cp ord c.val = .ok (some (pw, sw)) ∧
      encodePub cp pw = .ok pwNTT ∧ FullRun E cp t ord pwNTT sw pf vals sw2 wNTT lm sm all := by
  obtain ⟨hty, pw, sw, pwNTT, ⟨st, next, proj, lm, sm⟩, h1, h2, h3, h4⟩ := proveT_inv h
  obtain ⟨_, _, _, -, -, -, -, hs⟩ := assign_inv h1
  have hi : CtxInv2 N cp.ctx := CtxInv2.define ops (CtxInv2.new _ _ _ _) (compile_inv hc).1
  obtain ⟨sw2, wNTT, lm, sm, all, hr⟩ := fullRun hi.nodup hi.lt hs.1 h3 h4
  exact ⟨hty, pw, sw, pwNTT, sw2, wNTT, lm, sm, all, h1, h2, hr⟩

/-- **C46.** For every circuit (any sequence `ops` of constraint-adding calls), every assignment and
all randomness: if the prover returns a proof, having computed the challenges `vals` (in this order),
then the verifier recomputes from the proof exactly these challenges.  Nothing is assumed of the
constraints, of the hash function, or of the commitment scheme except that it returns as many
evaluations as it is given polynomials. -/
theorem C46_transcript {N ty pw0 w0 : Nat} {ops : List (CtxOp (ZMod p))}
    (hc : compile N ty pw0 w0 ops = .ok cp) (hE : E.pcs.EvalLength) (t : Tape (ZMod p) E.pcs.Rnd)
    (ord : Orders) (c : Circ (ZMod p)) (pf : BProof (ZMod p) E.pcs) (vals : List Bytes)
    (h : proveT E cp t ord c = .ok (some (pf, vals))) :
    ∃ ch linMaskEval sumMaskEval next,
      challengesV E cp pf = .ok (some (ch, linMaskEval, sumMaskEval, next)) ∧
      vals = [ch.proj, ch.ab, ch.lb, ch.lc, ch.sb, ch.x] := by
  obtain ⟨-, pw, sw, pwNTT, sw2, wNTT, lm, sm, all, -, -, hr⟩ := proveT_run hc h
  have hi : CtxInv2 N cp.ctx := CtxInv2.define ops (CtxInv2.new _ _ _ _) (compile_inv hc).1
  have hev := hE _ _ _ _ _ _ _ hr.ev
  rw [List.length_map] at hev
  exact ⟨_, _, _, _, challengesV_eq pf hi.lt (hr.shape hev), hr.hvals⟩

end

end Ringo
