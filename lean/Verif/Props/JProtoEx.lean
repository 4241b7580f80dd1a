import Verif.Props.JForge
import Mathlib.Tactic.NormNum.GCD

/-!
# Environments that meet the hypotheses of C63, C64, C77 and C78
-/

namespace Ringo

open Finset

set_option linter.unusedSectionVars false

/-- `ModUpQtoP` from one modulus. -/
def centreUp (q' : Nat) (qs : List Nat) (poly : List (List Nat)) : List (List Nat) :=
  poly.map fun r => qs.map (bigResidue
    (if 2 * r.getD 0 0 > q' then (r.getD 0 0 : Int) - q' else r.getD 0 0))

theorem centreUp_lawful {q' : Nat} (hq : 1 < q') {qs : List Nat} (hc : Chain qs) (N : Nat) :
    ModUpLawful [q'] qs N (centreUp q' qs) := by
  intro z hz hb
  have : centreUp q' qs (z.map fun c => [q'].map (bigResidue c)) =
      z.map fun c => qs.map (bigResidue c) := by
    unfold centreUp
    rw [List.map_map]
    apply List.map_congr_left
    intro c hc
    have h1 := hb c hc
    rw [List.prod_singleton] at h1
    simp only [Function.comp_apply, List.map_cons, List.map_nil, List.getD_cons_zero]
    have h2 := C59_big c q' (by omega)
    have h3 : (if 2 * bigResidue c q' > q' then (bigResidue c q' : Int) - q' else bigResidue c q') = c := by
      have h4 := abs_lt.mp (show |c| < q' by omega)
      obtain ⟨k, hk⟩ := h2.2
      have h5 : (bigResidue c q' : Int) < q' := by exact_mod_cast h2.1
      have h6 : (0 : Int) ≤ bigResidue c q' := by omega
      have h7 := neg_abs_le c
      have h8 := le_abs_self c
      have hk0 : k = 0 ∨ k = 1 := by
        have a1 : (q' : Int) * k < q' * 2 := by omega
        have a2 : (q' : Int) * (-1) < q' * k := by omega
        have a3 := lt_of_mul_lt_mul_left a1 (by omega)
        have a4 := lt_of_mul_lt_mul_left a2 (by omega)
        omega
      rcases hk0 with rfl | rfl
      · split <;> omega
      · split <;> omega
    rw [h3]
  rw [this]
  exact Residues.big hc z

/-- Environments exist for all parameters that fit together. -/
theorem env_exists {p : Nat} (par : JPar) (qs : List Nat) (q' : Nat) (hqs : Chain qs)
    (hq' : Chain [q']) (henc : par.enc.Good p) (hmat : par.mat.Good)
    (hsl : par.mat.slots = par.enc.slots) (hcb : 1 ≤ challengeBound par.enc.ecd)
    (hcq : ∀ q ∈ q' :: qs, challengeBound par.enc.ecd + 1 < q) (hb : 1 ≤ par.batch)
    (hi : 1 ≤ par.inRank) (ho : 1 ≤ par.outRank) (hd : par.dcmpLen = (par.mat.cols + 1) * par.inRank)
    (hres : par.resNm ≤ (((qs.prod - 1) / 2 : Nat) : ℚ)) (hdc : par.dcmpNm ≤ (((q' - 1) / 2 : Nat) : ℚ))
    (xof : List (JMsg (RQ qs par.enc.N) (RQ [q'] par.enc.N) (ZMod p)) → Nat → List (BitVec 8))
    (hx : ∀ ms i, (xof ms i).length = 16) :
    ∃ E : JEnv p (RQ qs par.enc.N) (RQ [q'] par.enc.N), E.par = par ∧ E.xof = xof ∧
      E.toFloat = (fun n : Nat => (n : ℚ)) ∧ E.ringQ.qs = qs ∧ E.ringQ'.qs = [q'] ∧ E.Good ∧
      Nonempty E.ringQ.Lawful ∧ Nonempty E.ringQ'.Lawful := by
  have hN : 1 ≤ par.enc.N := by
    rw [henc.deg]; exact Nat.mul_pos henc.slots_pos henc.exp_pos
  obtain ⟨L, h1, h2, h3⟩ := lawful_exists qs hqs par.enc.N hN
  obtain ⟨L', h1', h2', h3'⟩ := lawful_exists [q'] hq' par.enc.N hN
  refine ⟨⟨par, L, L', centreUp q' qs, ⟨[1, 2, 3], List.replicate par.inRank
    (List.replicate par.mat.rows 1), List.replicate par.inRank (List.replicate par.mlweRank 1),
    List.replicate par.outRank (List.replicate par.dcmpLen 1)⟩, xof, fun n => (n : ℚ)⟩,
    rfl, rfl, rfl, h1, h1', ?_, h3, h3'⟩
  constructor
  · exact henc
  · exact hmat
  · exact hsl
  · exact h2
  · exact h2'
  · exact hcb
  · intro q hq; dsimp only at hq; rw [h1] at hq; exact hcq q (List.mem_cons_of_mem _ hq)
  · intro _ q hq; dsimp only at hq; rw [h1'] at hq
    rw [List.mem_singleton.mp hq]; exact hcq q' (by simp)
  · exact hx
  · exact hb
  · exact hi
  · exact ho
  · exact hd
  · simp
  · intro r hr; rw [List.eq_of_mem_replicate hr]; simp
  · simp
  · intro r hr; rw [List.eq_of_mem_replicate hr]; simp
  · simp
  · intro r hr; rw [List.eq_of_mem_replicate hr]; simp
  · dsimp only
    rw [h1, h1']
    exact centreUp_lawful (hq'.one q' (by simp)) hqs _
  · intro a b hab
    dsimp only
    exact_mod_cast hab
  · dsimp only; rw [h1]; exact hres
  · dsimp only; rw [h1', List.prod_singleton]; exact hdc

/-- `p = 257 = 16^2 + 1`, degree 4, two rows, one column and the mask. -/
def exPar (batch : Nat) : JPar where
  enc := ⟨⟨16, 2⟩, 2, 4, 1⟩
  mat := ⟨2, 2, 1, 2⟩
  batch := batch
  inRank := 1
  outRank := 1
  mlweRank := 1
  inCut := 40
  outCut := 20
  dcmpLen := 2
  resNm := 2 ^ 60
  dcmpNm := 2 ^ 59

/-- Two moduli, `2^61 - 1` and `2^31 - 1`. -/
def exQs : List Nat := [2305843009213693951, 2147483647]

theorem exQs_chain : Chain exQs := by
  refine ⟨by simp [exQs], by simp [exQs], by simp [exQs], ?_⟩
  simp only [exQs, List.pairwise_cons, List.mem_cons, List.not_mem_nil, or_false, forall_eq]
  refine ⟨by norm_num, by simp, List.Pairwise.nil⟩

theorem exQ'_chain : Chain [2305843009213693951] :=
  ⟨by simp, by simp, by simp, by simp⟩

theorem exEnv (batch : Nat) (hb : 1 ≤ batch)
    (xof : List (JMsg (RQ exQs 4) (RQ [2305843009213693951] 4) (ZMod 257)) → Nat → List (BitVec 8))
    (hx : ∀ ms i, (xof ms i).length = 16) :
    ∃ E : JEnv 257 (RQ exQs 4) (RQ [2305843009213693951] 4), E.par = exPar batch ∧ E.xof = xof ∧
      E.toFloat = (fun n : Nat => (n : ℚ)) ∧ E.ringQ.qs = exQs ∧ E.ringQ'.qs = [2305843009213693951] ∧
      E.Good ∧ Nonempty E.ringQ.Lawful ∧ Nonempty E.ringQ'.Lawful := by
  apply env_exists (exPar batch) exQs 2305843009213693951 exQs_chain exQ'_chain
  · constructor <;> norm_num [exPar]
  · constructor <;> norm_num [exPar]
  · rfl
  · exact (show 1 ≤ challengeBound ⟨16, 2⟩ by decide)
  · have h : challengeBound (exPar batch).enc.ecd = 8 := (show challengeBound ⟨16, 2⟩ = 8 by decide)
    rw [h]; simp [exQs]
  · exact hb
  · simp [exPar]
  · simp [exPar]
  · simp [exPar]
  · norm_num [exPar, exQs]
  · norm_num [exPar]
  · exact hx

/-- The hypotheses of `C63_bounded` with samples of absolute value at most three and batches of one
or two. -/
theorem ex_bounds (batch : Nat) (hb : batch = 1 ∨ batch = 2)
    (E : JEnv 257 (RQ exQs 4) (RQ [2305843009213693951] 4)) (hp : E.par = exPar batch)
    (hf : E.toFloat = (fun n : Nat => (n : ℚ))) (hq : E.ringQ.qs = exQs) :
    E.toFloat (Nat.sqrt
      (E.par.dcmpLen * (E.par.enc.N * JEnv.batchGrow E (JEnv.truncMax E) ^ 2) +
        E.par.outRank * (E.par.enc.N * JEnv.batchGrow E (2 ^ E.par.outCut) ^ 2))) < E.par.dcmpNm ∧
    E.toFloat (Nat.sqrt
      (E.par.mat.rows * (E.par.enc.N * JEnv.combGrow E (JEnv.encSize E 3) ^ 2) +
        (E.par.mlweRank + E.par.inRank) * (E.par.enc.N * JEnv.combGrow E 3 ^ 2) +
        E.par.inRank * (E.par.enc.N * JEnv.combGrow E (2 ^ E.par.inCut) ^ 2))) < E.par.resNm ∧
    2 * (E.par.mat.rows * (E.par.enc.N * (E.par.enc.ecd.base *
      JEnv.batchGrow E (JEnv.encSize E 3)))) + 1 < E.ringQ.qs.prod := by
  have h8 : challengeBound ⟨16, 2⟩ = 8 := by decide
  have hs : ∀ n m : Nat, n < m * m → ((Nat.sqrt n : Nat) : ℚ) < (m : ℚ) := by
    intro n m h
    exact_mod_cast Nat.sqrt_lt.mpr h
  rw [hf]
  refine ⟨?_, ?_, ?_⟩
  · have := hs (E.par.dcmpLen * (E.par.enc.N * JEnv.batchGrow E (JEnv.truncMax E) ^ 2) +
        E.par.outRank * (E.par.enc.N * JEnv.batchGrow E (2 ^ E.par.outCut) ^ 2)) (2 ^ 59) (by
      unfold JEnv.batchGrow JEnv.chalGrow JEnv.truncMax
      rw [hp, hq]
      simp only [exPar, h8]
      rcases hb with rfl | rfl <;> norm_num [exQs])
    rw [hp] at this ⊢
    refine lt_of_lt_of_eq this ?_
    norm_num [exPar]
  · have := hs (E.par.mat.rows * (E.par.enc.N * JEnv.combGrow E (JEnv.encSize E 3) ^ 2) +
        (E.par.mlweRank + E.par.inRank) * (E.par.enc.N * JEnv.combGrow E 3 ^ 2) +
        E.par.inRank * (E.par.enc.N * JEnv.combGrow E (2 ^ E.par.inCut) ^ 2)) (2 ^ 60) (by
      unfold JEnv.combGrow JEnv.batchGrow JEnv.chalGrow JEnv.encSize
      rw [hp]
      simp only [exPar, h8]
      rcases hb with rfl | rfl <;> norm_num)
    rw [hp] at this ⊢
    refine lt_of_lt_of_eq this ?_
    norm_num [exPar]
  · unfold JEnv.batchGrow JEnv.chalGrow JEnv.encSize
    rw [hp, hq]
    simp only [exPar, h8]
    rcases hb with rfl | rfl <;> norm_num [exQs]

/-- Samples in use: not all zero. -/
def exRand (i : Nat) : ComRand 257 where
  row j := (j : ZMod 257) + 5
  col j := ⟨fun k t => if (i + j + k + t) % 2 = 0 then 3 else -2, fun k s => (k : ZMod 257) + s + 7,
    fun k t => if (j + k + t) % 3 = 0 then -1 else 2⟩

theorem exRand_le (i j k t : Nat) : (((exRand i).col j).cell k t).natAbs ≤ 3 ∧
    (((exRand i).col j).mlwe k t).natAbs ≤ 3 := by
  constructor
  · simp only [exRand]; split <;> decide
  · simp only [exRand]; split <;> decide

open Classical in
/-- **Case for C63 and C77**: two polynomials, any hash function. -/
theorem C63_case
    (xof : List (JMsg (RQ exQs 4) (RQ [2305843009213693951] 4) (ZMod 257)) → Nat → List (BitVec 8))
    (hx : ∀ ms i, (xof ms i).length = 16) :
    ∃ E : JEnv 257 (RQ exQs 4) (RQ [2305843009213693951] 4), E.Good ∧ E.xof = xof ∧
      Nonempty E.ringQ.Lawful ∧ Nonempty E.ringQ'.Lawful ∧
      ∃ com opens pf, E.evaluate 3 [[5, 7], [11]] com opens = .ok ([26, 11], pf) ∧
        E.verify 3 com [26, 11] pf = .ok true := by
  obtain ⟨E, h1, h2, h3, h4, h5, h6, ⟨A⟩, ⟨A'⟩⟩ := exEnv 2 (by omega) xof hx
  refine ⟨E, h6, h2, ⟨A⟩, ⟨A'⟩, ?_⟩
  obtain ⟨b1, b2, b3⟩ := ex_bounds 2 (Or.inr rfl) E h1 h3 h4
  obtain ⟨coms, opens, pf, -, -, -, e1, e2⟩ := C63_bounded E h6 A A' 3 [[5, 7], [11]]
    (by rw [h1]; rfl) (by rw [h1]; simp [exPar]) exRand 3 exRand_le b1 b2 b3
  have hval : ([[5, 7], [11]].map fun v : List (ZMod 257) =>
      ∑ i ∈ range v.length, v.getD i 0 * 3 ^ i) = [26, 11] := by
    simp [sum_range_succ]
    norm_num
  rw [hval] at e1 e2
  exact ⟨coms, opens, pf, e1, e2⟩

/-- The partial evaluations do not depend on the challenges of the columns. -/
theorem evaluate_parts {p : Nat} {T T' : Type} [AddCommGroup T] [AddCommGroup T'] (E : JEnv p T T')
    (h : E.Good) (A : E.ringQ.Lawful) (A' : E.ringQ'.Lawful)
    (xof2 : List (JMsg T T' (ZMod p)) → Nat → List (BitVec 8)) (hx2 : ∀ ms i, (xof2 ms i).length = 16)
    (x : ZMod p) (vs : List (List (ZMod p))) (com : List (List T')) (opens : List (JOpen T T'))
    (hv : vs.length = E.par.batch) (hc : com.length = E.par.batch) (hl : opens.length = E.par.batch)
    (hr : ∀ v ∈ vs, v.length ≤ E.par.mat.rank) (I : Nat → JInts)
    (ho : ∀ i < E.par.batch, E.Opens A A' (vs.getD i []) (com.getD i [])
      (opens.getD i ⟨[], [], []⟩) (I i))
    (hbet : ∀ i < E.par.batch, JEnv.betInt { E with xof := xof2 } x com i = E.betInt x com i)
    (y y2 : List (ZMod p)) (pf pf2 : JProof T T') (he : E.evaluate x vs com opens = .ok (y, pf))
    (he2 : JEnv.evaluate { E with xof := xof2 } x vs com opens = .ok (y2, pf2)) :
    pf2.parts = pf.parts ∧ pf2.partMask = pf.partMask := by
  have h2 : JEnv.Good { E with xof := xof2 } := { h with xof := hx2 }
  obtain ⟨q1, e1, -, l1, -, -, -, p1, m1, -⟩ := JEnv.evaluate_spec h A A' x vs com opens hv hc hl hr
    _ _ _ (fun i hi => (ho i hi).openIs)
  obtain ⟨q2, e2, -, l2, -, -, -, p2, m2, -⟩ := JEnv.evaluate_spec h2 A A' x vs com opens hv hc hl hr
    (fun i l => A'.val ((opens.getD i ⟨[], [], []⟩).inCommit.getD l 0))
    (fun i j k => toR E.ringQ.qs E.ringQ.N ((I i).e j k))
    (fun i j k => toR E.ringQ.qs E.ringQ.N ((I i).m j k)) (fun i hi => by
      have := (ho i hi).openIs
      exact ⟨this.inLen, this.encLen, this.encLen2, this.mlweLen, this.mlweLen2, this.inn, this.enc,
        this.mlwe⟩)
  rw [he] at e1
  rw [he2] at e2
  obtain rfl : pf = q1 := (Prod.mk.inj (Except.ok.inj e1)).2
  obtain rfl : pf2 = q2 := (Prod.mk.inj (Except.ok.inj e2)).2
  dsimp only at l2 p2 m2
  have hs : ∀ (g : Nat → RQ E.ringQ.qs E.ringQ.N), ∑ i ∈ range E.par.batch, toR E.ringQ.qs E.ringQ.N
      (JEnv.betInt { E with xof := xof2 } x com i) * g i = ∑ i ∈ range E.par.batch,
        toR E.ringQ.qs E.ringQ.N (E.betInt x com i) * g i :=
    fun g => sum_congr rfl fun i hi => by rw [hbet i (mem_range.mp hi)]
  simp only [hs] at p2 m2
  constructor
  · apply List.ext_getElem (by rw [l1, l2])
    intro j h3 h4
    have a1 := p1 j (by omega)
    have a2 := p2 j (by omega)
    rw [List.getD_eq_getElem _ _ (by omega)] at a1 a2
    exact A.val.injective (a2.trans a1.symm)
  · exact A.val.injective (m2.trans m1.symm)

open Classical in
/-- **Case for C64**: the proofs of one opening for two hash functions, with different challenges. -/
theorem C64_case : ∃ (E : JEnv 257 (RQ exQs 4) (RQ [2305843009213693951] 4))
      (xof2 : List (JMsg (RQ exQs 4) (RQ [2305843009213693951] 4) (ZMod 257)) → Nat →
        List (BitVec 8)),
    E.Good ∧ Nonempty E.ringQ.Lawful ∧ Nonempty E.ringQ'.Lawful ∧ E.par.mat.cols = 1 ∧
    (∀ ms i, (xof2 ms i).length = 16) ∧ ∃ com pf pf2, pf2.parts = pf.parts ∧
      pf2.partMask = pf.partMask ∧ E.verify 3 com [26] pf = .ok true ∧
      JEnv.verify { E with xof := xof2 } 3 com [26] pf2 = .ok true ∧
      (∀ i < E.par.batch, JEnv.betInt { E with xof := xof2 } 3 com i = E.betInt 3 com i) ∧
      JEnv.gamInt { E with xof := xof2 } 3 com pf.parts pf.partMask 0 = [2, 0, 1, 0] ∧
      E.gamInt 3 com pf.parts pf.partMask 0 = [1, 0, 0, 0] := by
  obtain ⟨E, h1, h2, h3, h4, h5, h6, ⟨A⟩, ⟨A'⟩⟩ := exEnv 1 (by omega)
    (fun _ _ => beBytes 1 ++ beBytes 0) (by simp [beBytes])
  refine ⟨E, fun _ _ => beBytes 10 ++ beBytes 0, h6, ⟨A⟩, ⟨A'⟩, by rw [h1]; rfl,
    by simp [beBytes], ?_⟩
  have hE2 : JEnv.Good { E with xof := fun _ _ => beBytes 10 ++ beBytes 0 } :=
    { h6 with xof := by simp [beBytes] }
  obtain ⟨b1, b2, b3⟩ := ex_bounds 1 (Or.inl rfl) E h1 h3 h4
  have hl : ([[5, 7]] : List (List (ZMod 257))).length = E.par.batch := by rw [h1]; rfl
  have hv : ∀ v ∈ ([[5, 7]] : List (List (ZMod 257))), v ≠ [] ∧ v.length ≤ E.par.mat.rank := by
    rw [h1]; simp [exPar]
  have hval : ([[5, 7]].map fun v : List (ZMod 257) =>
      ∑ i ∈ range v.length, v.getD i 0 * 3 ^ i) = [26] := by
    simp [sum_range_succ]
    norm_num
  obtain ⟨coms, opens, pf, c1, l1, m1, e1, v1⟩ := C63_bounded E h6 A A' 3 [[5, 7]] hl hv exRand 3
    exRand_le b1 b2 b3
  obtain ⟨coms2, opens2, pf2, c2, l2, m2, e2, v2⟩ := C63_bounded
    { E with xof := fun _ _ => beBytes 10 ++ beBytes 0 } hE2 A A' 3 [[5, 7]] hl hv exRand 3
    exRand_le b1 b2 b3
  obtain ⟨coms3, opens3, I, l3, m3, c3⟩ := commitAll E h6 A A' [[5, 7]] hv exRand
  have hb1 : E.par.batch = 1 := by rw [h1]; rfl
  have hone : ∀ {U : Type} {l : List U} (d : U), l.length = 1 → l = [l.getD 0 d] := by
    intro U l d hl
    match l, hl with
    | [a], _ => rfl
  have k1 := c1 0 (by omega)
  have k2 := c2 0 (by dsimp only; omega)
  have k3 := c3 0 (by simp)
  have e12 : coms2.getD 0 [] = coms.getD 0 [] ∧
      opens2.getD 0 ⟨[], [], []⟩ = opens.getD 0 ⟨[], [], []⟩ :=
    Prod.mk.inj (Except.ok.inj (k2.symm.trans k1))
  have e13 : coms3.getD 0 [] = coms.getD 0 [] ∧
      opens3.getD 0 ⟨[], [], []⟩ = opens.getD 0 ⟨[], [], []⟩ :=
    Prod.mk.inj (Except.ok.inj (k3.1.symm.trans k1))
  dsimp only at l2 m2
  obtain rfl : coms2 = coms := by
    rw [hone [] (l2.trans hb1), hone (l := coms) [] (l1.trans hb1), e12.1]
  obtain rfl : opens2 = opens := by
    rw [hone ⟨[], [], []⟩ (m2.trans hb1), hone (l := opens) ⟨[], [], []⟩ (m1.trans hb1), e12.2]
  obtain rfl : coms3 = coms2 := by
    rw [hone [] l3, hone (l := coms2) [] (l1.trans hb1), e13.1]
  obtain rfl : opens3 = opens2 := by
    rw [hone ⟨[], [], []⟩ m3, hone (l := opens2) ⟨[], [], []⟩ (m1.trans hb1), e13.2]
  have hbet : ∀ i < E.par.batch, JEnv.betInt { E with xof := fun _ _ => beBytes 10 ++ beBytes 0 }
      (3 : ZMod 257) coms3 i = E.betInt 3 coms3 i := by
    intro i _
    unfold JEnv.betInt
    have : ¬ E.par.batch > 1 := by omega
    simp only [if_neg this]
  obtain ⟨r1, r2⟩ := evaluate_parts E h6 A A' _ hE2.xof 3 [[5, 7]] coms3 opens3 hl l1 m1
    (fun v hm => (hv v hm).2) I (fun i hi => (c3 i (by omega)).2.1) hbet _ _ pf pf2 e1 e2
  rw [hval] at v1 v2
  refine ⟨coms3, pf, pf2, r1, r2, v1, v2, hbet, ?_, ?_⟩
  · unfold JEnv.gamInt
    dsimp only
    rw [h1]
    exact (show chalInt ⟨⟨16, 2⟩, 2, 4, 1⟩ (beBytes 10 ++ beBytes 0) = [2, 0, 1, 0] by decide)
  · unfold JEnv.gamInt
    rw [h1, h2]
    exact (show chalInt ⟨⟨16, 2⟩, 2, 4, 1⟩ (beBytes 1 ++ beBytes 0) = [1, 0, 0, 0] by decide)

/-- `p = 2^64 + 1` (exponent 64), degree 64: the challenge bound is one. -/
def exPar64 (batch : Nat) : JPar where
  enc := ⟨⟨2, 64⟩, 1, 64, 2⟩
  mat := ⟨1, 2, 1, 1⟩
  batch := batch
  inRank := 1
  outRank := 1
  mlweRank := 1
  inCut := 44
  outCut := 20
  dcmpLen := 2
  resNm := 2 ^ 80
  dcmpNm := 2 ^ 59

theorem exEnv64 (batch : Nat) (hb : 1 ≤ batch)
    (xof : List (JMsg (RQ exQs 64) (RQ [2305843009213693951] 64) (ZMod (2 ^ 64 + 1))) → Nat →
      List (BitVec 8)) (hx : ∀ ms i, (xof ms i).length = 16) :
    ∃ E : JEnv (2 ^ 64 + 1) (RQ exQs 64) (RQ [2305843009213693951] 64), E.par = exPar64 batch ∧
      E.xof = xof ∧ E.toFloat = (fun n : Nat => (n : ℚ)) ∧ E.ringQ.qs = exQs ∧
      E.ringQ'.qs = [2305843009213693951] ∧
      E.Good ∧ Nonempty E.ringQ.Lawful ∧ Nonempty E.ringQ'.Lawful := by
  apply env_exists (exPar64 batch) exQs 2305843009213693951 exQs_chain exQ'_chain
  · constructor <;> norm_num [exPar64]
  · constructor <;> norm_num [exPar64]
  · rfl
  · exact (show 1 ≤ challengeBound ⟨2, 64⟩ by decide)
  · have h : challengeBound (exPar64 batch).enc.ecd = 1 :=
      (show challengeBound ⟨2, 64⟩ = 1 by decide)
    rw [h]; simp [exQs]
  · exact hb
  · simp [exPar64]
  · simp [exPar64]
  · simp [exPar64]
  · norm_num [exPar64, exQs]
  · norm_num [exPar64]
  · exact hx

open Classical in
/-- **Case for C78**: an honest commitment to the polynomial `5`, and an accepted proof that its
value at `3` is `6`. -/
theorem C78_case
    (xof : List (JMsg (RQ exQs 64) (RQ [2305843009213693951] 64) (ZMod (2 ^ 64 + 1))) → Nat →
      List (BitVec 8)) (hx : ∀ ms i, (xof ms i).length = 16) (r : ComRand (2 ^ 64 + 1))
    (hr : ∀ j k t, ((r.col j).cell k t).natAbs ≤ 3 ∧ ((r.col j).mlwe k t).natAbs ≤ 3) :
    ∃ E : JEnv (2 ^ 64 + 1) (RQ exQs 64) (RQ [2305843009213693951] 64), E.Good ∧ E.xof = xof ∧
      challengeBound E.par.enc.ecd = 1 ∧ Nonempty E.ringQ.Lawful ∧ Nonempty E.ringQ'.Lawful ∧
      ∃ com o, E.commit [5] r = .ok (com, o) ∧ (∃ pf, E.verify 3 [com] [5] pf = .ok true) ∧
        ∃ pf, E.verify 3 [com] [6] pf = .ok true := by
  obtain ⟨E, h1, h2, h3, h4, h5, h6, ⟨A⟩, ⟨A'⟩⟩ := exEnv64 1 (by omega) xof hx
  have hcb : challengeBound ⟨2, 64⟩ = 1 := by decide
  have hE : challengeBound E.par.enc.ecd = 1 := by rw [h1]; exact hcb
  refine ⟨E, h6, h2, hE, ⟨A⟩, ⟨A'⟩, ?_⟩
  have hs : ∀ n m : Nat, n < m * m → ((Nat.sqrt n : Nat) : ℚ) < (m : ℚ) := by
    intro n m h
    exact_mod_cast Nat.sqrt_lt.mpr h
  obtain ⟨coms, opens, pf, c1, l1, m1, e1, v1⟩ := C63_bounded E h6 A A' 3 [[5]] (by rw [h1]; rfl)
    (by rw [h1]; simp [exPar64]) (fun _ => r) 3 (fun _ => hr)
    (by
      rw [h3]
      have := hs (E.par.dcmpLen * (E.par.enc.N * JEnv.batchGrow E (JEnv.truncMax E) ^ 2) +
        E.par.outRank * (E.par.enc.N * JEnv.batchGrow E (2 ^ E.par.outCut) ^ 2)) (2 ^ 59) (by
          unfold JEnv.batchGrow JEnv.chalGrow JEnv.truncMax
          rw [h1, h4]
          simp only [exPar64, hcb]
          norm_num [exQs])
      rw [h1] at this ⊢
      refine lt_of_lt_of_eq this ?_
      norm_num [exPar64])
    (by
      rw [h3]
      have := hs (E.par.mat.rows * (E.par.enc.N * JEnv.combGrow E (JEnv.encSize E 3) ^ 2) +
        (E.par.mlweRank + E.par.inRank) * (E.par.enc.N * JEnv.combGrow E 3 ^ 2) +
        E.par.inRank * (E.par.enc.N * JEnv.combGrow E (2 ^ E.par.inCut) ^ 2)) (2 ^ 80) (by
          unfold JEnv.combGrow JEnv.batchGrow JEnv.chalGrow JEnv.encSize
          rw [h1]
          simp only [exPar64, hcb]
          norm_num)
      rw [h1] at this ⊢
      refine lt_of_lt_of_eq this ?_
      norm_num [exPar64])
    (by
      unfold JEnv.batchGrow JEnv.chalGrow JEnv.encSize
      rw [h1, h4]
      simp only [exPar64, hcb]
      norm_num [exQs])
  have hb1 : E.par.batch = 1 := by rw [h1]; rfl
  have hval : ([[5]].map fun v : List (ZMod (2 ^ 64 + 1)) =>
      ∑ i ∈ range v.length, v.getD i 0 * 3 ^ i) = [5] := by
    simp
  rw [hval] at v1
  have hc : coms = [coms.getD 0 []] := by
    match coms, l1.trans hb1 with
    | [a], _ => rfl
  rw [hc] at v1
  refine ⟨coms.getD 0 [], opens.getD 0 ⟨[], [], []⟩, c1 0 (by omega), ⟨pf, v1⟩, ?_⟩
  exact C78_refuted E h6 A A' hE (by rw [h1, h4]; norm_num [exPar64, exQs]) 3 _ [5] pf v1 [6]
    (by rw [hb1]; rfl)

end Ringo
