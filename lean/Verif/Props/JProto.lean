import Verif.Proof.JBound

/-!
# C63, C64, C77 and C78: Jindo's protocol
-/

namespace Ringo

open Finset

set_option linter.unusedSectionVars false

variable {p : Nat} {T T' : Type} [AddCommGroup T] [AddCommGroup T']

/-- **C63, commitments.**  `Commit` succeeds for every non-empty vector that fits, with all
randomness, and what it returns stands for integers that open the commitment. -/
theorem C63_commit (E : JEnv p T T') (h : E.Good) (A : E.ringQ.Lawful) (A' : E.ringQ'.Lawful)
    (v : List (ZMod p)) (hv : v ≠ []) (hr : v.length ≤ E.par.mat.rank) (r : ComRand p) :
    ∃ com o, E.commit v r = .ok (com, o) ∧ ∃ I : JInts, E.Opens A A' v com o I := by
  obtain ⟨com, o, h1, I, h2, -⟩ := JEnv.commit_spec h A A' v hv hr r
  exact ⟨com, o, h1, I, h2⟩

/-- Commitments to the vectors `vs`. -/
theorem commitAll (E : JEnv p T T') (h : E.Good) (A : E.ringQ.Lawful) (A' : E.ringQ'.Lawful)
    (vs : List (List (ZMod p))) (hv : ∀ v ∈ vs, v ≠ [] ∧ v.length ≤ E.par.mat.rank)
    (rs : Nat → ComRand p) :
    ∃ coms : List (List T'), ∃ opens : List (JOpen T T'), ∃ I : Nat → JInts,
      coms.length = vs.length ∧ opens.length = vs.length ∧
      ∀ i < vs.length, E.commit (vs.getD i []) (rs i) =
        .ok (coms.getD i [], opens.getD i ⟨[], [], []⟩) ∧
        E.Opens A A' (vs.getD i []) (coms.getD i []) (opens.getD i ⟨[], [], []⟩) (I i) ∧
        (∀ j ≤ E.par.mat.cols, ∀ k < E.par.mat.rows, JEnv.CellIs E ((rs i).col j) k ((I i).e j k)) ∧
        ∀ j ≤ E.par.mat.cols, ∀ k < E.par.mlweRank + E.par.inRank,
          (I i).m j k = (List.range E.par.enc.N).map (((rs i).col j).mlwe k) := by
  have hone : ∀ i, ∃ com o, ∃ I : JInts, i < vs.length → (E.commit (vs.getD i []) (rs i) =
        .ok (com, o) ∧ E.Opens A A' (vs.getD i []) com o I ∧
        (∀ j ≤ E.par.mat.cols, ∀ k < E.par.mat.rows, JEnv.CellIs E ((rs i).col j) k (I.e j k)) ∧
        ∀ j ≤ E.par.mat.cols, ∀ k < E.par.mlweRank + E.par.inRank,
          I.m j k = (List.range E.par.enc.N).map (((rs i).col j).mlwe k)) := by
    intro i
    by_cases hi : i < vs.length
    · have hm : vs.getD i [] ∈ vs := by
        rw [List.getD_eq_getElem _ _ hi]; exact List.getElem_mem hi
      obtain ⟨com, o, h1, I, h2, h3, h4, -⟩ := JEnv.commit_spec h A A' _ (hv _ hm).1 (hv _ hm).2 (rs i)
      exact ⟨com, o, I, fun _ => ⟨h1, h2, h3, h4⟩⟩
    · exact ⟨[], ⟨[], [], []⟩, ⟨fun _ _ => [], fun _ _ => [], fun _ _ => [], fun _ _ => [], fun _ => []⟩,
        fun h => absurd h hi⟩
  choose com o I hI using hone
  refine ⟨(List.range vs.length).map com, (List.range vs.length).map o, I, by simp, by simp, ?_⟩
  intro i hi
  rw [getD_map_range _ _ _ _ hi, getD_map_range _ _ _ _ hi]
  exact hI i hi

/-- **C63.**  For all polynomials, points, hash outputs and samples: commit to every polynomial of
the batch, and evaluate at `x`.  Nothing panics, the values are the values of the polynomials, and
`Verify` accepts, provided that

* the norm of the batched inner commitments together with the remainders of the outer ones, and
* the norm of the response together with the remainders of the inner commitments

are below the bounds `inComDcmpTwoNm` and `resTwoNm`, and that

* the batched partial evaluations, as integers, are below `Q/2`

(the integers are those of `Honest`: the combinations of what was committed by the challenges). -/
theorem C63_completeness [DecidableEq T] (E : JEnv p T T') (h : E.Good) (A : E.ringQ.Lawful)
    (A' : E.ringQ'.Lawful) (x : ZMod p) (vs : List (List (ZMod p))) (hl : vs.length = E.par.batch)
    (hv : ∀ v ∈ vs, v ≠ [] ∧ v.length ≤ E.par.mat.rank) (rs : Nat → ComRand p) :
    ∃ coms : List (List T'), ∃ opens : List (JOpen T T'), ∃ I : Nat → JInts, ∃ pf : JProof T T',
      (∀ i < E.par.batch, E.commit (vs.getD i []) (rs i) =
          .ok (coms.getD i [], opens.getD i ⟨[], [], []⟩) ∧
        E.Opens A A' (vs.getD i []) (coms.getD i []) (opens.getD i ⟨[], [], []⟩) (I i)) ∧
      coms.length = E.par.batch ∧ opens.length = E.par.batch ∧
      E.evaluate x vs coms opens =
        .ok (vs.map fun v => ∑ i ∈ range v.length, v.getD i 0 * x ^ i, pf) ∧
      (∃ W, E.Honest x coms pf I W) ∧
      ∀ W, E.Honest x coms pf I W →
        E.toFloat (Nat.sqrt (jSqSum ((List.range E.par.dcmpLen).map W.t ++
          (List.range E.par.outRank).map W.s))) < E.par.dcmpNm →
        E.toFloat (Nat.sqrt (jSqSum ((List.range E.par.mat.rows).map W.e ++
          (List.range (E.par.mlweRank + E.par.inRank)).map W.m ++
          (List.range E.par.inRank).map W.u))) < E.par.resNm →
        (∀ j < E.par.mat.cols, ∀ c ∈ W.f j, 2 * |c| < E.ringQ.qs.prod - 1) →
        E.verify x coms (vs.map fun v => ∑ i ∈ range v.length, v.getD i 0 * x ^ i) pf = .ok true := by
  obtain ⟨coms, opens, I, h1, h2, h3⟩ := commitAll E h A A' vs hv rs
  rw [hl] at h1 h2 h3
  obtain ⟨pf, h4, h5⟩ := JEnv.honest_accepted h A A' x vs coms opens hl h1 h2
    (fun v hm => (hv v hm).2) I (fun i hi => (h3 i hi).2.1)
  refine ⟨coms, opens, I, pf, fun i hi => ⟨(h3 i hi).1, (h3 i hi).2.1⟩, h1, h2, h4, ?_, ?_⟩
  · have hex : ∀ r : RZ E.par.enc.N, ∃ z : List Int, z.length = E.par.enc.N ∧ toZ E.par.enc.N z = r :=
      fun r => exists_coeffs _ (JEnv.encN_pos h) r
    choose z hz1 hz2 using hex
    refine ⟨⟨fun l => z (∑ i ∈ range E.par.batch, toZ E.par.enc.N (E.betInt x coms i) *
      toZ E.par.enc.N ((I i).t (l / E.par.inRank) (l % E.par.inRank))), fun k => z _, fun k => z _,
      fun k => z _, fun k => z _, fun j => z _⟩, ⟨?_, fun k _ => ⟨hz1 _, hz2 _⟩,
      fun k _ => ⟨hz1 _, hz2 _⟩, fun k _ => ⟨hz1 _, hz2 _⟩, fun k _ => ⟨hz1 _, hz2 _⟩,
      fun k _ => ⟨hz1 _, hz2 _⟩⟩⟩
    intro j hj k hk
    have e1 : (j * E.par.inRank + k) / E.par.inRank = j := by
      rw [Nat.mul_comm, Nat.mul_add_div h.inRank, Nat.div_eq_of_lt hk, Nat.add_zero]
    have e2 : (j * E.par.inRank + k) % E.par.inRank = k := by
      rw [Nat.mul_comm, Nat.mul_add_mod, Nat.mod_eq_of_lt hk]
    refine ⟨hz1 _, ?_⟩
    dsimp only
    rw [hz2, e1, e2]
  · intro W hW n1 n2 n3
    apply JEnv.verify_complete h A A' W (h5 W hW n1 n2)
    intro j hj c hc
    have := n3 j hj c hc
    have h6 := neg_abs_le c
    have h7 := le_abs_self c
    exact .of_lt (by omega) (by omega)

/-- **C63, worst case.**  If all samples are at most `S` in absolute value, and the parameters
leave room for the largest combinations that can then occur, `Verify` accepts for all polynomials,
points and hash outputs. -/
theorem C63_bounded [DecidableEq T] (E : JEnv p T T') (h : E.Good) (A : E.ringQ.Lawful)
    (A' : E.ringQ'.Lawful) (x : ZMod p) (vs : List (List (ZMod p))) (hl : vs.length = E.par.batch)
    (hv : ∀ v ∈ vs, v ≠ [] ∧ v.length ≤ E.par.mat.rank) (rs : Nat → ComRand p) (S : Nat)
    (hS : ∀ i j k t, (((rs i).col j).cell k t).natAbs ≤ S ∧ (((rs i).col j).mlwe k t).natAbs ≤ S)
    (b1 : E.toFloat (Nat.sqrt
      (E.par.dcmpLen * (E.par.enc.N * JEnv.batchGrow E (JEnv.truncMax E) ^ 2) +
        E.par.outRank * (E.par.enc.N * JEnv.batchGrow E (2 ^ E.par.outCut) ^ 2))) < E.par.dcmpNm)
    (b2 : E.toFloat (Nat.sqrt
      (E.par.mat.rows * (E.par.enc.N * JEnv.combGrow E (JEnv.encSize E S) ^ 2) +
        (E.par.mlweRank + E.par.inRank) * (E.par.enc.N * JEnv.combGrow E S ^ 2) +
        E.par.inRank * (E.par.enc.N * JEnv.combGrow E (2 ^ E.par.inCut) ^ 2))) < E.par.resNm)
    (b3 : 2 * (E.par.mat.rows * (E.par.enc.N * (E.par.enc.ecd.base *
      JEnv.batchGrow E (JEnv.encSize E S)))) + 1 < E.ringQ.qs.prod) :
    ∃ coms : List (List T'), ∃ opens : List (JOpen T T'), ∃ pf : JProof T T',
      (∀ i < E.par.batch, E.commit (vs.getD i []) (rs i) =
          .ok (coms.getD i [], opens.getD i ⟨[], [], []⟩)) ∧
      coms.length = E.par.batch ∧ opens.length = E.par.batch ∧
      E.evaluate x vs coms opens =
        .ok (vs.map fun v => ∑ i ∈ range v.length, v.getD i 0 * x ^ i, pf) ∧
      E.verify x coms (vs.map fun v => ∑ i ∈ range v.length, v.getD i 0 * x ^ i) pf = .ok true := by
  obtain ⟨coms, opens, I, h1, h2, h3⟩ := commitAll E h A A' vs hv rs
  rw [hl] at h1 h2 h3
  obtain ⟨pf, h4, h5⟩ := JEnv.honest_accepted h A A' x vs coms opens hl h1 h2
    (fun v hm => (hv v hm).2) I (fun i hi => (h3 i hi).2.1)
  obtain ⟨W, hW, wt, ws, we, wm, wu, wf⟩ := JEnv.honest_sizes h A A' x vs coms opens pf I
    (fun i hi => (h3 i hi).2.1) rs (fun i hi => (h3 i hi).2.2.1) (fun i hi => (h3 i hi).2.2.2) S
    (fun i _ j _ k t => hS i j k t)
  have hmap : ∀ (n B : Nat) (g : Nat → List Int), (∀ k < n, (g k).length = E.par.enc.N) →
      (∀ k < n, ∀ c ∈ g k, c.natAbs ≤ B) →
      jSqSum ((List.range n).map g) ≤ n * (E.par.enc.N * B ^ 2) := by
    intro n B g hg hB
    have := jSqSum_le (zs := (List.range n).map g) (N := E.par.enc.N) (B := B)
      (by intro z hz; obtain ⟨k, hk, rfl⟩ := List.mem_map.mp hz; exact hg k (List.mem_range.mp hk))
      (by intro z hz; obtain ⟨k, hk, rfl⟩ := List.mem_map.mp hz; exact hB k (List.mem_range.mp hk))
    simpa using this
  refine ⟨coms, opens, pf, fun i hi => (h3 i hi).1, h1, h2, h4, ?_⟩
  apply JEnv.verify_complete h A A' W (h5 W hW ?_ ?_)
  · intro j hj c hc
    have h6 := wf j hj c hc
    exact .of_lt (by omega) (by omega)
  · refine lt_of_le_of_lt (h.mono (Nat.sqrt_le_sqrt ?_)) b1
    rw [jSqSum_append]
    exact Nat.add_le_add (hmap _ _ _ (fun l hl => (wt l hl).1) (fun l hl => (wt l hl).2))
      (hmap _ _ _ (fun k hk => (hW.s k hk).1) ws)
  · refine lt_of_le_of_lt (h.mono (Nat.sqrt_le_sqrt ?_)) b2
    rw [jSqSum_append, jSqSum_append]
    exact Nat.add_le_add (Nat.add_le_add (hmap _ _ _ (fun k hk => (hW.e k hk).1) we)
      (hmap _ _ _ (fun k hk => (hW.m k hk).1) wm)) (hmap _ _ _ (fun k hk => (hW.u k hk).1) wu)

/-- **C77.**  What acceptance means: `Verify` accepts a proof if and only if it has the shape of an honest one and
stands for integers of small norm that satisfy the equations of `Accepted`, the partial evaluations being decoded from
the representatives in `RepRange` (about `-Q/2` to `Q/2`). -/
theorem C77 [DecidableEq T] (E : JEnv p T T') (h : E.Good) (A : E.ringQ.Lawful)
    (A' : E.ringQ'.Lawful) (x : ZMod p) (com : List (List T')) (y : List (ZMod p)) (pf : JProof T T') :
    E.verify x com y pf = .ok true ↔
    ∃ W : JWit, JEnv.Accepted E A A' x com y pf W ∧ ∀ j < E.par.mat.cols, ∀ c ∈ W.f j, RepRange E.ringQ.qs c :=
  ⟨fun hv => JEnv.verify_sound h A A' hv, fun ⟨W, hW, hr⟩ => JEnv.verify_complete h A A' W hW hr⟩

/-- **C64.**  Two accepting proofs for the same commitments and point with the same partial
evaluations, for hash functions that give the same batching challenges and column challenges that
differ in column `j0` only.  Either the inner commitments differ, and their difference with the
difference of the remainders is a short vector in the kernel of the outer commitment matrix; or the
inner commitments are the same, and then the difference of the responses opens the inner commitment
of column `j0` times the difference of the challenges, and its combination by the powers of `x` is
the partial evaluation times the difference of the challenges. -/
theorem C64_special_soundness [DecidableEq T] (E : JEnv p T T') (h : E.Good) (A : E.ringQ.Lawful)
    (A' : E.ringQ'.Lawful) (xof2 : List (JMsg T T' (ZMod p)) → Nat → List (BitVec 8))
    (hx2 : ∀ ms i, (xof2 ms i).length = 16) (x : ZMod p) (com : List (List T')) (y y2 : List (ZMod p))
    (pf pf2 : JProof T T') (hparts : pf2.parts = pf.parts) (hmask : pf2.partMask = pf.partMask)
    (hv : E.verify x com y pf = .ok true)
    (hv2 : JEnv.verify { E with xof := xof2 } x com y2 pf2 = .ok true)
    (hbet : ∀ i < E.par.batch, JEnv.betInt { E with xof := xof2 } x com i = E.betInt x com i)
    (j0 : Nat) (hj0 : j0 < E.par.mat.cols)
    (hgam : ∀ j < E.par.mat.cols, j ≠ j0 →
      JEnv.gamInt { E with xof := xof2 } x com pf.parts pf.partMask j =
        E.gamInt x com pf.parts pf.partMask j) :
    ∃ W W2 : JWit, JEnv.Accepted E A A' x com y pf W ∧
      JEnv.Accepted { E with xof := xof2 } A A' x com y2 pf2 W2 ∧
      let q := toR E.ringQ.qs E.ringQ.N
      let q' := toR E.ringQ'.qs E.ringQ'.N
      let d := q (E.gamInt x com pf.parts pf.partMask j0) -
        q (JEnv.gamInt { E with xof := xof2 } x com pf.parts pf.partMask j0)
      ((∃ l < E.par.dcmpLen, W.t l ≠ W2.t l) ∧ ∀ k < E.par.outRank,
        ∑ l ∈ range E.par.dcmpLen, A'.val (at2 E.key.out k l) * (q' (W.t l) - q' (W2.t l)) +
          (q' (W.s k) - q' (W2.s k)) = 0) ∨
      ((∀ l < E.par.dcmpLen, W.t l = W2.t l) ∧
        (∀ k < E.par.inRank, 2 ^ E.par.inCut * (d * q (W.t (j0 * E.par.inRank + k))) =
          ∑ l ∈ range E.par.mat.rows, A.val (at2 E.key.inn k l) * (q (W.e l) - q (W2.e l)) +
          ∑ l ∈ range E.par.mlweRank, A.val (at2 E.key.mlwe k l) * (q (W.m l) - q (W2.m l)) +
          (q (W.m (E.par.mlweRank + k)) - q (W2.m (E.par.mlweRank + k))) +
          (q (W.u k) - q (W2.u k))) ∧
        ∑ k ∈ range E.par.mat.rows, q (E.leftInt x k) * (q (W.e k) - q (W2.e k)) =
          d * A.val (pf.parts.getD j0 0)) := by
  have h2 : JEnv.Good { E with xof := xof2 } := { h with xof := hx2 }
  obtain ⟨W, hW, -⟩ := JEnv.verify_sound h A A' hv
  obtain ⟨W2, hW2, -⟩ := JEnv.verify_sound h2 A A' hv2
  refine ⟨W, W2, hW, hW2, ?_⟩
  dsimp only
  by_cases ht : ∀ l < E.par.dcmpLen, W.t l = W2.t l
  · right
    have hsum : ∀ a : Nat → RQ E.ringQ.qs E.ringQ.N,
        ∑ j ∈ range E.par.mat.cols, toR E.ringQ.qs E.ringQ.N
            (E.gamInt x com pf.parts pf.partMask j) * a j -
          ∑ j ∈ range E.par.mat.cols, toR E.ringQ.qs E.ringQ.N
            (JEnv.gamInt { E with xof := xof2 } x com pf.parts pf.partMask j) * a j =
          (toR E.ringQ.qs E.ringQ.N (E.gamInt x com pf.parts pf.partMask j0) - toR E.ringQ.qs E.ringQ.N
            (JEnv.gamInt { E with xof := xof2 } x com pf.parts pf.partMask j0)) * a j0 := by
      intro a
      rw [← sum_sub_distrib, sum_eq_single j0, sub_mul]
      · intro j hj hne
        rw [hgam j (mem_range.mp hj) hne, sub_self]
      · intro hn; exact absurd (mem_range.mpr hj0) hn
    have hidx : ∀ j ≤ E.par.mat.cols, ∀ k < E.par.inRank, j * E.par.inRank + k < E.par.dcmpLen := by
      intro j hj k hk
      rw [h.dcmp]
      have := Nat.mul_le_mul_right E.par.inRank hj
      rw [Nat.succ_mul]
      omega
    refine ⟨ht, ?_, ?_⟩
    · intro k hk
      have e1 := hW.inner k hk
      have e2 := hW2.inner k hk
      have e3 := hsum (fun j => toR E.ringQ.qs E.ringQ.N (W.t (j * E.par.inRank + k)))
      rw [hparts, hmask] at e2
      dsimp only at e2
      rw [← ht _ (hidx _ le_rfl k hk)] at e2
      have e4 : ∀ j ∈ range E.par.mat.cols, toR E.ringQ.qs E.ringQ.N
            (JEnv.gamInt { E with xof := xof2 } x com pf.parts pf.partMask j) *
            toR E.ringQ.qs E.ringQ.N (W2.t (j * E.par.inRank + k)) = toR E.ringQ.qs E.ringQ.N
            (JEnv.gamInt { E with xof := xof2 } x com pf.parts pf.partMask j) *
            toR E.ringQ.qs E.ringQ.N (W.t (j * E.par.inRank + k)) := by
        intro j hj
        rw [ht _ (hidx _ (mem_range.mp hj).le k hk)]
      rw [sum_congr rfl e4] at e2
      simp only [mul_sub, sum_sub_distrib]
      linear_combination e1 - e2 - 2 ^ E.par.inCut * e3
    · have e1 := hW.consistent
      have e2 := hW2.consistent
      rw [hparts, hmask] at e2
      dsimp only at e2
      have e5 : ∀ j < E.par.mat.cols, toR E.ringQ.qs E.ringQ.N (W2.f j) = A.val (pf.parts.getD j 0) := by
        intro j hj
        rw [← hparts]
        exact ((hW2.parts j hj).2).symm
      have e6 : ∀ j < E.par.mat.cols, toR E.ringQ.qs E.ringQ.N (W.f j) = A.val (pf.parts.getD j 0) := by
        intro j hj
        exact ((hW.parts j hj).2).symm
      have e3 := hsum (fun j => A.val (pf.parts.getD j 0))
      have e7 : ∀ g : Nat → RQ E.ringQ.qs E.ringQ.N,
          ∑ j ∈ range E.par.mat.cols, g j * toR E.ringQ.qs E.ringQ.N (W.f j) =
          ∑ j ∈ range E.par.mat.cols, g j * A.val (pf.parts.getD j 0) :=
        fun g => sum_congr rfl fun j hj => by rw [e6 j (mem_range.mp hj)]
      have e8 : ∀ g : Nat → RQ E.ringQ.qs E.ringQ.N,
          ∑ j ∈ range E.par.mat.cols, g j * toR E.ringQ.qs E.ringQ.N (W2.f j) =
          ∑ j ∈ range E.par.mat.cols, g j * A.val (pf.parts.getD j 0) :=
        fun g => sum_congr rfl fun j hj => by rw [e5 j (mem_range.mp hj)]
      rw [e7] at e1
      rw [e8] at e2
      have e9 : ∑ k ∈ range E.par.mat.rows, toR E.ringQ.qs E.ringQ.N (E.leftInt x k) *
          (toR E.ringQ.qs E.ringQ.N (W.e k) - toR E.ringQ.qs E.ringQ.N (W2.e k)) =
          ∑ k ∈ range E.par.mat.rows, toR E.ringQ.qs E.ringQ.N (E.leftInt x k) *
            toR E.ringQ.qs E.ringQ.N (W.e k) -
          ∑ k ∈ range E.par.mat.rows, toR E.ringQ.qs E.ringQ.N
            (JEnv.leftInt { E with xof := xof2 } x k) * toR E.ringQ.qs E.ringQ.N (W2.e k) := by
        rw [← sum_sub_distrib]
        exact sum_congr rfl fun k _ => mul_sub _ _ _
      rw [e9]
      linear_combination e1 - e2 + e3
  · left
    push Not at ht
    refine ⟨ht, ?_⟩
    intro k hk
    have e1 := hW.outer k hk
    have e2 := hW2.outer k hk
    dsimp only at e2
    rw [sum_congr rfl (fun i hi => by rw [hbet i (mem_range.mp hi)])] at e2
    simp only [mul_sub, sum_sub_distrib]
    linear_combination e2 - e1

end Ringo
