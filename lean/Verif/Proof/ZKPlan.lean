import Verif.Proof.ZKMask
import Verif.Props.Protocol

/-!
# The polynomials an honest prover commits to, for given challenges
-/

namespace Ringo

open Finset Polynomial

set_option linter.unusedSectionVars false

section
variable {p : Nat} [Fact p.Prime] {E : Env (ZMod p)} {cp : Compilation (ZMod p)}

/-- The index of the quotient of the linear check. -/
def linAt (ctx : Context (ZMod p)) : Nat := nextOf ctx + (if ctx.arith.length > 0 then 1 else 0)

/-- The index of the quotient of the sumcheck. -/
def sumAt (ctx : Context (ZMod p)) : Nat := linAt ctx + (if ctx.lin.length > 0 then 3 else 0)

/-- The index of the mask of the sumcheck. -/
def sumMaskAt (ctx : Context (ZMod p)) : Nat := ctx.wCnt + (if ctx.lin.length > 0 then 1 else 0)

/-- `P i` is the `i`-th polynomial the prover commits to when the challenges are `ch`. -/
structure Plan (E : Env (ZMod p)) (cp : Compilation (ZMod p)) (ord : Orders) (ch : Challenges)
    (pwNTT : List (Poly (ZMod p))) (sw : List (List (ZMod p))) (enc lin sum : Nat → ZMod p)
    (sw2 : List (List (ZMod p))) (wNTT : List (Option (Poly (ZMod p))))
    (P : Nat → List (ZMod p)) : Prop where
  fill : projStep cp ord (projMatrix E.xof ch.proj cp.ctx.rank) sw = .ok sw2
  wlen : wNTT.length = cp.ctx.wCnt
  wit : ∀ i < cp.ctx.wCnt, ∃ w ecd q, WitOf cp enc (if i ∈ cp.ctx.wSecond then sw2 else sw) i w ecd q ∧
    wNTT[i]? = some (some q) ∧ sliceTo ecd.coeffs (cp.ctx.rank + 1) 0 = .ok (P i)
  lin : cp.ctx.lin.length > 0 → ∃ m, sumCheckMask cp.ev cp.ctx.rank (2 * cp.ctx.rank) lin = .ok m ∧
    sliceTo m.1.coeffs (2 * cp.ctx.rank) 0 = .ok (P cp.ctx.wCnt) ∧
    linCheckP cp E.users (projMatrix E.xof ch.proj cp.ctx.rank) E.pcs.rank (E.setBytes ch.lb)
      (E.setBytes ch.lc) m.1 wNTT =
      .ok (P (linAt cp.ctx), P (linAt cp.ctx + 1), P (linAt cp.ctx + 2))
  sum : cp.ctx.sums.length > 0 → ∃ m,
    sumCheckMask cp.ev cp.ctx.rank cp.ctx.sumCheckMaxRank sum = .ok m ∧
    sliceTo m.1.coeffs cp.ctx.sumCheckMaxRank 0 = .ok (P (sumMaskAt cp.ctx)) ∧
    sumCheckP cp E.pcs.rank (E.setBytes ch.sb) m.1 pwNTT wNTT =
      .ok (P (sumAt cp.ctx), P (sumAt cp.ctx + 1), P (sumAt cp.ctx + 2))
  arith : cp.ctx.arith.length > 0 →
    arithCheckP cp (E.setBytes ch.ab) pwNTT wNTT = .ok (P (nextOf cp.ctx))

/-- A run follows the plan for its challenges. -/
theorem FullRun.plan {t : Tape (ZMod p) E.pcs.Rnd} {ord : Orders} {pwNTT : List (Poly (ZMod p))}
    {sw : List (List (ZMod p))} {pf : BProof (ZMod p) E.pcs} {vals : List Bytes}
    {sw2 : List (List (ZMod p))} {wNTT : List (Option (Poly (ZMod p)))}
    {lm sm : Option (Poly (ZMod p) × ZMod p)} {all : List (List (ZMod p) × E.pcs.Com × E.pcs.Open)}
    (R : FullRun E cp t ord pwNTT sw pf vals sw2 wNTT lm sm all) :
    Plan E cp ord (chalsOf E cp.ctx pf) pwNTT sw t.enc t.linMask t.sumMask sw2 wNTT
      (fun i => ((all.map (·.1))[i]?).getD []) := by
  have hat : ∀ (i : Nat) (q : List (ZMod p)) e, all[i]? = some (q, e) → ((all.map (·.1))[i]?).getD [] = q := by
    intro i q e h
    rw [List.getElem?_map, h]; rfl
  refine ⟨R.fill, R.wlen, ?_, ?_, ?_, ?_⟩
  · intro i hi
    obtain ⟨w, ecd, q, poly, e, b1, b2, b3, b4⟩ := R.wit i hi
    exact ⟨w, ecd, q, b1, b2, by rw [hat _ _ _ b4]; exact b3⟩
  · intro hn
    obtain ⟨m, poly, e, m1, m2, m3, m4⟩ := R.linMask hn
    obtain ⟨r, e0, e1, e2, r1, r2, r3, r4⟩ := R.lin m m1
    refine ⟨m, m2, by rw [hat _ _ _ m4]; exact m3, ?_⟩
    unfold linAt
    rw [r1, hat _ _ _ r2, hat _ _ _ r3, hat _ _ _ r4]
  · intro hn
    obtain ⟨m, poly, e, m1, m2, m3, m4⟩ := R.sumMask hn
    obtain ⟨r, e0, e1, e2, r1, r2, r3, r4⟩ := R.sum m m1
    refine ⟨m, m2, by unfold sumMaskAt; rw [hat _ _ _ m4]; exact m3, ?_⟩
    unfold sumAt linAt
    rw [r1, hat _ _ _ r2, hat _ _ _ r3, hat _ _ _ r4]
  · intro hn
    obtain ⟨quo, e, q1, q2⟩ := R.arith hn
    rw [hat _ _ _ q2]; exact q1

/-! ## Determinacy -/

section
variable {ord : Orders} {ch ch' : Challenges} {pwNTT : List (Poly (ZMod p))} {sw : List (List (ZMod p))}
  {enc lin sum : Nat → ZMod p} {sw2 sw2' : List (List (ZMod p))}
  {wNTT wNTT' : List (Option (Poly (ZMod p)))} {P P' : Nat → List (ZMod p)}

theorem Plan.first (h : Plan E cp ord ch pwNTT sw enc lin sum sw2 wNTT P)
    (h' : Plan E cp ord ch' pwNTT sw enc lin sum sw2' wNTT' P') {i : Nat} (hi : i < cp.ctx.wCnt)
    (hs : i ∉ cp.ctx.wSecond) : P i = P' i := by
  obtain ⟨w, ecd, q, ⟨a1, a2, a3⟩, a4, a5⟩ := h.wit i hi
  obtain ⟨w', ecd', q', ⟨b1, b2, b3⟩, b4, b5⟩ := h'.wit i hi
  rw [if_neg hs] at a1 b1
  rw [a1] at b1; cases b1
  rw [a2] at b2; cases b2
  rw [a5] at b5; exact Except.ok.inj b5

theorem Plan.second (h : Plan E cp ord ch pwNTT sw enc lin sum sw2 wNTT P)
    (h' : Plan E cp ord ch' pwNTT sw enc lin sum sw2' wNTT' P') (hp : ch.proj = ch'.proj) :
    sw2 = sw2' ∧ wNTT = wNTT' ∧ ∀ i < cp.ctx.wCnt, P i = P' i := by
  have h1 := h.fill
  rw [hp, h'.fill] at h1
  cases h1
  have key : ∀ i < cp.ctx.wCnt, wNTT[i]? = wNTT'[i]? ∧ P i = P' i := by
    intro i hi
    obtain ⟨w, ecd, q, ⟨a1, a2, a3⟩, a4, a5⟩ := h.wit i hi
    obtain ⟨w', ecd', q', ⟨b1, b2, b3⟩, b4, b5⟩ := h'.wit i hi
    rw [a1] at b1; cases b1
    rw [a2] at b2; cases b2
    rw [a3] at b3; cases b3
    rw [a5] at b5
    exact ⟨by rw [a4, b4], Except.ok.inj b5⟩
  refine ⟨rfl, ?_, fun i hi => (key i hi).2⟩
  apply List.ext_getElem?
  intro i
  by_cases hi : i < cp.ctx.wCnt
  · exact (key i hi).1
  · rw [List.getElem?_eq_none (by rw [h.wlen]; omega), List.getElem?_eq_none (by rw [h'.wlen]; omega)]

theorem Plan.linMask (h : Plan E cp ord ch pwNTT sw enc lin sum sw2 wNTT P)
    (h' : Plan E cp ord ch' pwNTT sw enc lin sum sw2' wNTT' P') (hn : cp.ctx.lin.length > 0) :
    P cp.ctx.wCnt = P' cp.ctx.wCnt := by
  obtain ⟨m, m1, m2, -⟩ := h.lin hn
  obtain ⟨m', m1', m2', -⟩ := h'.lin hn
  rw [m1] at m1'; cases m1'
  rw [m2] at m2'; exact Except.ok.inj m2'

theorem Plan.sumMask (h : Plan E cp ord ch pwNTT sw enc lin sum sw2 wNTT P)
    (h' : Plan E cp ord ch' pwNTT sw enc lin sum sw2' wNTT' P') (hn : cp.ctx.sums.length > 0) :
    P (sumMaskAt cp.ctx) = P' (sumMaskAt cp.ctx) := by
  obtain ⟨m, m1, m2, -⟩ := h.sum hn
  obtain ⟨m', m1', m2', -⟩ := h'.sum hn
  rw [m1] at m1'; cases m1'
  rw [m2] at m2'; exact Except.ok.inj m2'

/-- The positions of the commitments. -/
theorem slot_cases (ctx : Context (ZMod p)) (i : Nat) (hi : i < ctx.batch) :
    i < ctx.wCnt ∨ (ctx.lin.length > 0 ∧ i = ctx.wCnt) ∨ (ctx.sums.length > 0 ∧ i = sumMaskAt ctx) ∨
    (ctx.arith.length > 0 ∧ i = nextOf ctx) ∨
    (ctx.lin.length > 0 ∧ (i = linAt ctx ∨ i = linAt ctx + 1 ∨ i = linAt ctx + 2)) ∨
    (ctx.sums.length > 0 ∧ (i = sumAt ctx ∨ i = sumAt ctx + 1 ∨ i = sumAt ctx + 2)) := by
  rw [batch_eq] at hi
  unfold sumAt linAt sumMaskAt
  unfold nextOf at *
  split_ifs at * <;> omega

theorem Plan.rest (h : Plan E cp ord ch pwNTT sw enc lin sum sw2 wNTT P)
    (h' : Plan E cp ord ch' pwNTT sw enc lin sum sw2' wNTT' P') (hp : ch.proj = ch'.proj)
    (hab : ch.ab = ch'.ab) (hlb : ch.lb = ch'.lb) (hlc : ch.lc = ch'.lc) (hsb : ch.sb = ch'.sb)
    {i : Nat} (hi : i < cp.ctx.batch) : P i = P' i := by
  obtain ⟨rfl, rfl, hw⟩ := h.second h' hp
  rcases slot_cases cp.ctx i hi with hc | ⟨hn, rfl⟩ | ⟨hn, rfl⟩ | ⟨hn, rfl⟩ | ⟨hn, hc⟩ | ⟨hn, hc⟩
  · exact hw i hc
  · exact h.linMask h' hn
  · exact h.sumMask h' hn
  · have h1 := h.arith hn
    have h2 := h'.arith hn
    rw [hab, h2] at h1
    injection h1 with h1; exact h1.symm
  · obtain ⟨m, m1, m2, m3⟩ := h.lin hn
    obtain ⟨m', m1', m2', m3'⟩ := h'.lin hn
    rw [m1] at m1'; cases m1'
    rw [hp, hlb, hlc, m3'] at m3
    simp only [Except.ok.injEq, Prod.mk.injEq] at m3
    rcases hc with rfl | rfl | rfl
    · exact m3.1.symm
    · exact m3.2.1.symm
    · exact m3.2.2.symm
  · obtain ⟨m, m1, m2, m3⟩ := h.sum hn
    obtain ⟨m', m1', m2', m3'⟩ := h'.sum hn
    rw [m1] at m1'; cases m1'
    rw [hsb, m3'] at m3
    simp only [Except.ok.injEq, Prod.mk.injEq] at m3
    rcases hc with rfl | rfl | rfl
    · exact m3.1.symm
    · exact m3.2.1.symm
    · exact m3.2.2.symm

end

end

end Ringo
