import Verif.Proof.ZKCount

/-!
# Coins that lead to a given proof
-/

namespace Ringo

open Finset Polynomial

set_option linter.unusedSectionVars false

section
variable {p : Nat} [Fact p.Prime] {E : Env (ZMod p)} {cp : Compilation (ZMod p)}
variable {K Ke : Nat} {g ge : ZMod p}
variable {t : Tape (ZMod p) E.pcs.Rnd} {ord : Orders} {pwNTT : List (Poly (ZMod p))}
    {sw : List (List (ZMod p))} {pf : BProof (ZMod p) E.pcs} {vals : List Bytes}
    {sw2 : List (List (ZMod p))} {wNTT : List (Option (Poly (ZMod p)))}
    {lm sm : Option (Poly (ZMod p) × ZMod p)} {all : List (List (ZMod p) × E.pcs.Com × E.pcs.Open)}

theorem FullRun.maskSums (h : GoodCp K Ke g ge cp) (hf : Fits K cp.ctx E.pcs.rank)
    (R : FullRun E cp t ord pwNTT sw pf vals sw2 wNTT lm sm all) :
    pf.linMaskSum = (if cp.ctx.lin.length > 0 then some (t.linMask 0) else none) ∧
    pf.sumMaskSum = (if cp.ctx.sums.length > 0 then some (t.sumMask 0) else none) := by
  have hKe : K < Ke := (Nat.pow_lt_pow_iff_right (by norm_num : 1 < 2)).1 h.lt
  constructor
  · rw [R.pfL]
    by_cases hn : cp.ctx.lin.length > 0
    · obtain ⟨m, poly, e, h1, h2, -⟩ := R.linMask hn
      have h2K : 2 * 2 ^ K ≤ 2 ^ Ke := by
        rw [← pow_succ']; exact Nat.pow_le_pow_right (by norm_num) hKe
      obtain ⟨mask, k1, -⟩ := h.sumCheckMask_poly (2 * 2 ^ K) (by omega) h2K t.linMask
      rw [h.rank, k1] at h2
      cases h2
      rw [if_pos hn, h1]; rfl
    · have := R.lmSome
      rw [if_neg hn]
      simp only [hn, decide_false] at this
      cases lm with
      | none => rfl
      | some m => simp at this
  · rw [R.pfS]
    by_cases hn : cp.ctx.sums.length > 0
    · obtain ⟨m, poly, e, h1, h2, -⟩ := R.sumMask hn
      obtain ⟨f1, -⟩ := hf.sum (length_pos_ne.1 hn)
      obtain ⟨mask, k1, -⟩ := h.sumCheckMask_poly cp.ctx.sumCheckMaxRank (by omega) h.sumLe t.sumMask
      rw [h.rank, k1] at h2
      cases h2
      rw [if_pos hn, h1]; rfl
    · have := R.smSome
      rw [if_neg hn]
      simp only [hn, decide_false] at this
      cases sm with
      | none => rfl
      | some m => simp at this

theorem FullRun.poly (R : FullRun E cp t ord pwNTT sw pf vals sw2 wNTT lm sm all)
    {P : Nat → List (ZMod p)}
    (hP : ∀ i < cp.ctx.batch, P i = ((all.map (·.1))[i]?).getD []) :
    all.map (·.1) = (List.range cp.ctx.batch).map P := by
  apply List.ext_getElem?
  intro i
  by_cases hi : i < cp.ctx.batch
  · obtain ⟨e, e1, -⟩ := R.made i hi
    have := hP i hi
    rw [List.getElem?_map, e1] at this
    rw [List.getElem?_map, e1, List.getElem?_map, List.getElem?_range hi, Option.map_some,
      Option.map_some, this]; rfl
  · rw [List.getElem?_eq_none (by rw [List.length_map, R.len]; omega),
      List.getElem?_eq_none (by simpa using hi)]

/-- What a run publishes is what its polynomials yield. -/
theorem FullRun.yields (R : FullRun E cp t ord pwNTT sw pf vals sw2 wNTT lm sm all)
    {sw2' : List (List (ZMod p))} {wNTT' : List (Option (Poly (ZMod p)))} {P : Nat → List (ZMod p)}
    (hpl : Plan E cp ord (chalsOf E cp.ctx pf) pwNTT sw t.enc t.linMask t.sumMask sw2' wNTT' P)
    (c : PCSCoins E.pcs cp.ctx.batch) (hcom : t.com = extend c.2 c.1) (hev : t.ev = c.2) :
    E.pcs.Yields (E.setBytes (chalsOf E cp.ctx pf).x) ((List.range cp.ctx.batch).map P) c
      (pf.witness, pf.evals, pf.evalProof) := by
  have hP : ∀ i < cp.ctx.batch, P i = ((all.map (·.1))[i]?).getD [] := fun i hi =>
    hpl.rest R.plan rfl rfl rfl rfl rfl hi
  have hpoly := R.poly hP
  refine ⟨all.map (·.2), by simp [R.len], ?_, by rw [R.pfW, List.map_map]; rfl, ?_⟩
  · intro i f hfi
    have hi : i < cp.ctx.batch := by
      have := (List.getElem?_eq_some_iff.1 hfi).1
      simpa using this
    obtain ⟨e, e1, e2⟩ := R.made i hi
    rw [← hpoly, List.getElem?_map, e1] at hfi
    cases hfi
    exact ⟨e.2, by rw [List.getElem?_map, e1]; rfl, by rw [← hcom]; exact e2⟩
  · rw [← hpoly, List.map_map, List.map_map, ← hev]
    exact R.ev

/-- A run whose polynomials, for the challenges of `π`, yield `π`, returns `π`. -/
theorem FullRun.eq_of_yields (hlt : ∀ i ∈ cp.ctx.wSecond, i < cp.ctx.wCnt)
    (R : FullRun E cp t ord pwNTT sw pf vals sw2 wNTT lm sm all) {π : BProof (ZMod p) E.pcs}
    {sw2' : List (List (ZMod p))} {wNTT' : List (Option (Poly (ZMod p)))} {P : Nat → List (ZMod p)}
    (hpl : Plan E cp ord (chalsOf E cp.ctx π) pwNTT sw t.enc t.linMask t.sumMask sw2' wNTT' P)
    (c : PCSCoins E.pcs cp.ctx.batch) (hcom : t.com = extend c.2 c.1) (hev : t.ev = c.2)
    (hy : E.pcs.Yields (E.setBytes (chalsOf E cp.ctx π).x) ((List.range cp.ctx.batch).map P) c
      (π.witness, π.evals, π.evalProof))
    (hL : pf.linMaskSum = π.linMaskSum) (hS : pf.sumMaskSum = π.sumMaskSum) : pf = π := by
  obtain ⟨cs, c1, c2, c3, c4⟩ := hy
  simp only at c3 c4
  have hb := batch_eq cp.ctx
  have hnx : nextOf cp.ctx = cp.ctx.wCnt + (if cp.ctx.lin.length > 0 then 1 else 0) +
    (if cp.ctx.sums.length > 0 then 1 else 0) := rfl
  have hbw : cp.ctx.wCnt ≤ cp.ctx.batch := by omega
  have hlenπ : π.witness.length = cp.ctx.batch := by rw [← c3]; simp [c1]
  have hlen : pf.witness.length = cp.ctx.batch := by rw [R.pfW, List.length_map, R.len]
  have key : ∀ i < cp.ctx.batch, P i = ((all.map (·.1))[i]?).getD [] →
      all[i]?.map (·.2) = cs[i]? ∧ pf.witness[i]? = π.witness[i]? := by
    intro i hi hPi
    obtain ⟨e, e1, e2⟩ := R.made i hi
    obtain ⟨e', f1, f2⟩ := c2 i (P i) (by rw [List.getElem?_map, List.getElem?_range hi]; rfl)
    rw [List.getElem?_map, e1] at hPi
    simp only [Option.map_some, Option.getD_some] at hPi
    rw [hPi, ← hcom, e2] at f2
    cases f2
    refine ⟨by rw [e1, f1]; rfl, ?_⟩
    rw [R.pfW, ← c3, List.getElem?_map, List.getElem?_map, e1, f1]; rfl
  have hser : ∀ i, pf.witness[i]? = π.witness[i]? → serW pf i = serW π i := by
    intro i hi
    unfold serW
    rw [hi]
  -- first round
  have hproj : (chalsOf E cp.ctx π).proj = (chalsOf E cp.ctx pf).proj := by
    unfold chalsOf chals
    simp only
    congr 2
    rw [List.map_congr_left (f := serW π) (g := serW pf)]
    intro i hi
    unfold firstSlots at hi
    rw [List.mem_filter, List.mem_range] at hi
    obtain ⟨hi1, hi2⟩ := hi
    simp only [decide_eq_true_eq] at hi2
    exact (hser i (key i (lt_of_lt_of_le hi1 hbw) (hpl.first R.plan hi1 hi2)).2).symm
  obtain ⟨-, -, hw⟩ := hpl.second R.plan hproj
  have hmsg : msgs2 E cp.ctx π = msgs2 E cp.ctx pf := by
    unfold msgs2
    rw [← hL, ← hS]
    congr 1
    · congr 1
      · apply List.map_congr_left
        intro i hi
        have := hlt i hi
        exact (hser i (key i (lt_of_lt_of_le this hbw) (hw i this)).2).symm
      · unfold maskMsg
        by_cases hn : cp.ctx.lin.length > 0
        · rw [if_pos hn, if_pos hn, hser _ (key cp.ctx.wCnt (by rw [if_pos hn] at hb hnx; omega)
            (hpl.linMask R.plan hn)).2]
        · rw [if_neg hn, if_neg hn]
    · unfold maskMsg
      by_cases hn : cp.ctx.sums.length > 0
      · have hk := hser _ (key (sumMaskAt cp.ctx)
          (by unfold sumMaskAt; rw [if_pos hn] at hnx; omega) (hpl.sumMask R.plan hn)).2
        unfold sumMaskAt at hk
        rw [if_pos hn, if_pos hn, hk]
      · rw [if_neg hn, if_neg hn]
  have hv0 : E.hash (Chal.projConst.name ++ [] ++ ((firstSlots cp.ctx cp.ctx.wCnt).map (serW π)).flatten) =
      E.hash (Chal.projConst.name ++ [] ++ ((firstSlots cp.ctx cp.ctx.wCnt).map (serW pf)).flatten) := hproj
  have hab : (chalsOf E cp.ctx π).ab = (chalsOf E cp.ctx pf).ab := by
    unfold chalsOf chals
    simp only
    rw [hv0, hmsg]
  have hlb : (chalsOf E cp.ctx π).lb = (chalsOf E cp.ctx pf).lb := by
    unfold chalsOf chals
    simp only
    rw [hv0, hmsg]
  have hlc : (chalsOf E cp.ctx π).lc = (chalsOf E cp.ctx pf).lc := by
    unfold chalsOf chals
    simp only
    rw [hv0, hmsg]
  have hsb : (chalsOf E cp.ctx π).sb = (chalsOf E cp.ctx pf).sb := by
    unfold chalsOf chals
    simp only
    rw [hv0, hmsg]
  have hP : ∀ i < cp.ctx.batch, P i = ((all.map (·.1))[i]?).getD [] := fun i hi =>
    hpl.rest R.plan hproj hab hlb hlc hsb hi
  have hcs : all.map (·.2) = cs := by
    apply List.ext_getElem?
    intro i
    rw [List.getElem?_map]
    by_cases hi : i < cp.ctx.batch
    · exact (key i hi (hP i hi)).1
    · rw [List.getElem?_eq_none (by rw [R.len]; omega), List.getElem?_eq_none (by
        rw [c1]; simpa using hi)]; rfl
  have hwit : pf.witness = π.witness := by
    rw [R.pfW, ← c3, ← hcs, List.map_map]; rfl
  have hx : (chalsOf E cp.ctx π).x = (chalsOf E cp.ctx pf).x := by
    unfold chalsOf chals
    simp only
    rw [hv0, hmsg, hlen, hlenπ]
    congr 3
    apply List.map_congr_left
    intro i _
    unfold serW
    rw [hwit]
  have hev' := R.ev
  rw [R.poly hP, ← hx, hev] at hev'
  rw [← hcs, List.map_map, List.map_map] at c4
  have h12 := hev'.symm.trans c4
  injection h12 with h12
  injection h12 with h1 h2
  cases pf; cases π
  simp only [BProof.mk.injEq]
  exact ⟨hwit, hL, hS, h1, h2⟩

end

end Ringo
