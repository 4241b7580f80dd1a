import Verif.Proof.JVerify

/-!
# `Evaluate`, and why its proofs are accepted
-/

namespace Ringo

open Finset

set_option linter.unusedSectionVars false

theorem mapM2_range_spec {β : Type} [Zero β] (n m : Nat) (f : Nat → Nat → Go β)
    (Q : Nat → Nat → β → Prop) (h : ∀ j < n, ∀ k < m, ∃ b, f j k = .ok b ∧ Q j k b) :
    ∃ r, ((List.range n).mapM fun j => (List.range m).mapM fun k => f j k) = .ok r ∧ r.length = n ∧
      (∀ j < n, (r.getD j []).length = m) ∧ ∀ j < n, ∀ k < m, Q j k (at2 r j k) := by
  obtain ⟨r, h1, h2, h3⟩ := mapM_range_spec n (fun j => (List.range m).mapM fun k => f j k)
    (fun j l => l.length = m ∧ ∀ k < m, Q j k (l.getD k 0)) []
    (fun j hj => mapM_range_spec m (f j) (Q j) 0 (h j hj))
  exact ⟨r, h1, h2, fun j hj => (h3 j hj).1, fun j hj => (h3 j hj).2⟩

namespace JEnv

variable {p : Nat} {T T' : Type} [AddCommGroup T] [AddCommGroup T'] {E : JEnv p T T'}

/-- An opening whose polynomials stand for given elements. -/
structure OpenIs (E : JEnv p T T') (A : E.ringQ.Lawful) (A' : E.ringQ'.Lawful) (o : JOpen T T')
    (t : Nat → RQ E.ringQ'.qs E.ringQ'.N) (e m : Nat → Nat → RQ E.ringQ.qs E.ringQ.N) : Prop where
  inLen : o.inCommit.length = E.par.dcmpLen
  encLen : o.encode.length = E.par.mat.cols + 1
  encLen2 : ∀ j < E.par.mat.cols + 1, (o.encode.getD j []).length = E.par.mat.rows
  mlweLen : o.mlwe.length = E.par.mat.cols + 1
  mlweLen2 : ∀ j < E.par.mat.cols + 1, (o.mlwe.getD j []).length = E.par.mlweRank + E.par.inRank
  inn : ∀ l < E.par.dcmpLen, A'.val (o.inCommit.getD l 0) = t l
  enc : ∀ j < E.par.mat.cols + 1, ∀ k < E.par.mat.rows, A.val (at2 o.encode j k) = e j k
  mlwe : ∀ j < E.par.mat.cols + 1, ∀ k < E.par.mlweRank + E.par.inRank,
    A.val (at2 o.mlwe j k) = m j k

theorem batchOpen_spec (h : E.Good) (A : E.ringQ.Lawful) (A' : E.ringQ'.Lawful) {x : ZMod p}
    {com : List (List T')} {bb : List T × List T'} (hB : Batch E A A' x com bb)
    (opens : List (JOpen T T')) (hl : opens.length = E.par.batch)
    (t : Nat → Nat → RQ E.ringQ'.qs E.ringQ'.N) (e m : Nat → Nat → Nat → RQ E.ringQ.qs E.ringQ.N)
    (ho : ∀ i < E.par.batch, OpenIs E A A' (opens.getD i ⟨[], [], []⟩) (t i) (e i) (m i)) :
    ∃ o, E.batchOpen bb.1 bb.2 opens = .ok o ∧ OpenIs E A A' o
      (fun l => ∑ i ∈ range E.par.batch, toR E.ringQ'.qs E.ringQ'.N (E.betInt x com i) * t i l)
      (fun j k => ∑ i ∈ range E.par.batch, toR E.ringQ.qs E.ringQ.N (E.betInt x com i) * e i j k)
      (fun j k => ∑ i ∈ range E.par.batch, toR E.ringQ.qs E.ringQ.N (E.betInt x com i) * m i j k) := by
  unfold batchOpen
  by_cases hb : E.par.batch > 1
  · rw [if_pos hb]
    obtain ⟨r1, h1, h2, h3⟩ := mapM_range_spec E.par.dcmpLen (fun j =>
      accLoop E.par.batch 0 fun i => do
        let o ← idx opens i
        let t ← idx o.inCommit j
        let c ← idx bb.2 i
        pure (E.ringQ'.mul t c)) (fun l a => A'.val a = ∑ i ∈ range E.par.batch,
          toR E.ringQ'.qs E.ringQ'.N (E.betInt x com i) * t i l) 0 (by
      intro l hl'
      rw [accLoop_ok _ _ _ (fun i => E.ringQ'.mul ((opens.getD i ⟨[], [], []⟩).inCommit.getD l 0)
          (bb.2.getD i 0)) (by
        intro i hi
        rw [idx_getD (by omega) ⟨[], [], []⟩, go_bind_ok,
          idx_getD (by rw [(ho i hi).inLen]; exact hl') 0, go_bind_ok,
          idx_getD (by rw [hB.len' hb]; exact hi) 0, go_bind_ok, go_pure])]
      refine ⟨_, rfl, ?_⟩
      rw [zero_add, map_sum]
      apply sum_congr rfl
      intro i hi
      have hi := mem_range.mp hi
      rw [A'.val_mul, hB.val' hb i hi, (ho i hi).inn l hl', mul_comm])
    have acc2 : ∀ (sel : JOpen T T' → List (List T)) (w : Nat) (e : Nat → Nat → Nat → RQ E.ringQ.qs E.ringQ.N)
        (hs1 : ∀ i < E.par.batch, (sel (opens.getD i ⟨[], [], []⟩)).length = E.par.mat.cols + 1)
        (hs2 : ∀ i < E.par.batch, ∀ j < E.par.mat.cols + 1,
          ((sel (opens.getD i ⟨[], [], []⟩)).getD j []).length = w)
        (hs3 : ∀ i < E.par.batch, ∀ j < E.par.mat.cols + 1, ∀ k < w,
          A.val (at2 (sel (opens.getD i ⟨[], [], []⟩)) j k) = e i j k),
        ∀ j < E.par.mat.cols + 1, ∀ k < w, ∃ a, (accLoop E.par.batch 0 fun i => do
          let o ← idx opens i
          let t ← idxIdx (sel o) j k
          let c ← idx bb.1 i
          pure (E.ringQ.mul t c)) = .ok a ∧ A.val a = ∑ i ∈ range E.par.batch,
            toR E.ringQ.qs E.ringQ.N (E.betInt x com i) * e i j k := by
      intro sel w e hs1 hs2 hs3 j hj k hk
      rw [accLoop_ok _ _ _ (fun i => E.ringQ.mul (at2 (sel (opens.getD i ⟨[], [], []⟩)) j k)
          (bb.1.getD i 0)) (by
        intro i hi
        rw [idx_getD (by omega) ⟨[], [], []⟩, go_bind_ok,
          idxIdx_getD (by rw [hs1 i hi]; exact hj) (by rw [hs2 i hi j hj]; exact hk) 0, go_bind_ok,
          idx_getD (by rw [hB.len hb]; exact hi) 0, go_bind_ok, go_pure]
        rfl)]
      refine ⟨_, rfl, ?_⟩
      rw [zero_add, map_sum]
      apply sum_congr rfl
      intro i hi
      have hi := mem_range.mp hi
      rw [A.val_mul, hB.val hb i hi, hs3 i hi j hj k hk, mul_comm]
    obtain ⟨r2, h4, h5, h6, h7⟩ := mapM2_range_spec (E.par.mat.cols + 1) E.par.mat.rows _ _
      (acc2 JOpen.encode E.par.mat.rows e (fun i hi => (ho i hi).encLen)
        (fun i hi => (ho i hi).encLen2) (fun i hi => (ho i hi).enc))
    obtain ⟨r3, h8, h9, h10, h11⟩ := mapM2_range_spec (E.par.mat.cols + 1)
      (E.par.mlweRank + E.par.inRank) _ _
      (acc2 JOpen.mlwe (E.par.mlweRank + E.par.inRank) m (fun i hi => (ho i hi).mlweLen)
        (fun i hi => (ho i hi).mlweLen2) (fun i hi => (ho i hi).mlwe))
    rw [h1, go_bind_ok, h4, go_bind_ok, h8, go_bind_ok, go_pure]
    exact ⟨_, rfl, h2, h5, h6, h9, h10, h3, h7, h11⟩
  · obtain ⟨h1, h2⟩ := batch_one h hb x com
    rw [if_neg hb, idx_getD (by omega) ⟨[], [], []⟩]
    refine ⟨_, rfl, ?_⟩
    have := ho 0 (by omega)
    simp only [h1, sum_range_one, h2, toR_one, one_mul]
    exact this

theorem partialEval_spec (A : E.ringQ.Lawful) (A' : E.ringQ'.Lawful) {o : JOpen T T'}
    {t : Nat → RQ E.ringQ'.qs E.ringQ'.N} {e m : Nat → Nat → RQ E.ringQ.qs E.ringQ.N}
    (ho : OpenIs E A A' o t e m) {x : ZMod p} {left : List T} (hl : left.length = E.par.mat.rows)
    (hv : ∀ k < E.par.mat.rows, A.val (left.getD k 0) = toR E.ringQ.qs E.ringQ.N (E.leftInt x k))
    (j : Nat) (hj : j < E.par.mat.cols + 1) :
    ∃ a, E.partialEval left o j = .ok a ∧ A.val a =
      ∑ k ∈ range E.par.mat.rows, toR E.ringQ.qs E.ringQ.N (E.leftInt x k) * e j k := by
  unfold partialEval
  rw [accLoop_ok _ _ _ (fun k => E.ringQ.mul (left.getD k 0) (at2 o.encode j k)) (by
    intro k hk
    rw [idx_getD (by omega) 0, go_bind_ok, idxIdx_getD (by rw [ho.encLen]; exact hj)
      (by rw [ho.encLen2 j hj]; exact hk) 0, go_bind_ok, go_pure]
    rfl)]
  refine ⟨_, rfl, ?_⟩
  rw [zero_add, map_sum]
  apply sum_congr rfl
  intro k hk
  have hk := mem_range.mp hk
  rw [A.val_mul, hv k hk, ho.enc j hj k hk]

theorem response_spec (A : E.ringQ.Lawful) {cs : List T} (hcl : cs.length = E.par.mat.cols)
    (col : List (List T)) (w : Nat) (hl : col.length = E.par.mat.cols + 1)
    (hl2 : ∀ j < E.par.mat.cols + 1, (col.getD j []).length = w) (k : Nat) (hk : k < w) :
    ∃ a, E.response cs col k = .ok a ∧ A.val a = A.val (at2 col E.par.mat.cols k) +
      ∑ j ∈ range E.par.mat.cols, A.val (cs.getD j 0) * A.val (at2 col j k) := by
  unfold response
  rw [idxIdx_getD (by omega) (by rw [hl2 _ (by omega)]; exact hk) 0, go_bind_ok,
    accLoop_ok _ _ _ (fun j => E.ringQ.mul (cs.getD j 0) (at2 col j k)) (by
    intro j hj
    rw [idx_getD (by omega) 0, go_bind_ok, idxIdx_getD (by omega)
      (by rw [hl2 j (by omega)]; exact hk) 0, go_bind_ok, go_pure]
    rfl)]
  refine ⟨_, rfl, ?_⟩
  rw [map_add, map_sum]
  simp only [A.val_mul]
  rfl

theorem evaluate_spec (h : E.Good) (A : E.ringQ.Lawful) (A' : E.ringQ'.Lawful) (x : ZMod p)
    (vs : List (List (ZMod p))) (com : List (List T')) (opens : List (JOpen T T'))
    (hv : vs.length = E.par.batch) (hc : com.length = E.par.batch) (hl : opens.length = E.par.batch)
    (hr : ∀ v ∈ vs, v.length ≤ E.par.mat.rank)
    (t : Nat → Nat → RQ E.ringQ'.qs E.ringQ'.N) (e m : Nat → Nat → Nat → RQ E.ringQ.qs E.ringQ.N)
    (ho : ∀ i < E.par.batch, OpenIs E A A' (opens.getD i ⟨[], [], []⟩) (t i) (e i) (m i)) :
    ∃ pf, E.evaluate x vs com opens =
        .ok (vs.map fun v => ∑ i ∈ range v.length, v.getD i 0 * x ^ i, pf) ∧
      pf.inCommit.length = E.par.dcmpLen ∧ pf.parts.length = E.par.mat.cols ∧
      pf.encode.length = E.par.mat.rows ∧ pf.mlwe.length = E.par.mlweRank + E.par.inRank ∧
      (∀ l < E.par.dcmpLen, A'.val (pf.inCommit.getD l 0) = ∑ i ∈ range E.par.batch,
        toR E.ringQ'.qs E.ringQ'.N (E.betInt x com i) * t i l) ∧
      (∀ j < E.par.mat.cols, A.val (pf.parts.getD j 0) = ∑ k ∈ range E.par.mat.rows,
        toR E.ringQ.qs E.ringQ.N (E.leftInt x k) * ∑ i ∈ range E.par.batch,
          toR E.ringQ.qs E.ringQ.N (E.betInt x com i) * e i j k) ∧
      (A.val pf.partMask = ∑ k ∈ range E.par.mat.rows,
        toR E.ringQ.qs E.ringQ.N (E.leftInt x k) * ∑ i ∈ range E.par.batch,
          toR E.ringQ.qs E.ringQ.N (E.betInt x com i) * e i E.par.mat.cols k) ∧
      (∀ k < E.par.mat.rows, A.val (pf.encode.getD k 0) =
        ∑ i ∈ range E.par.batch, toR E.ringQ.qs E.ringQ.N (E.betInt x com i) *
          e i E.par.mat.cols k +
        ∑ j ∈ range E.par.mat.cols, toR E.ringQ.qs E.ringQ.N
            (E.gamInt x com pf.parts pf.partMask j) *
          ∑ i ∈ range E.par.batch, toR E.ringQ.qs E.ringQ.N (E.betInt x com i) * e i j k) ∧
      (∀ k < E.par.mlweRank + E.par.inRank, A.val (pf.mlwe.getD k 0) =
        ∑ i ∈ range E.par.batch, toR E.ringQ.qs E.ringQ.N (E.betInt x com i) *
          m i E.par.mat.cols k +
        ∑ j ∈ range E.par.mat.cols, toR E.ringQ.qs E.ringQ.N
            (E.gamInt x com pf.parts pf.partMask j) *
          ∑ i ∈ range E.par.batch, toR E.ringQ.qs E.ringQ.N (E.betInt x com i) * m i j k) := by
  obtain ⟨bb, hbb, hB⟩ := batchChals_spec h A A' x com
  obtain ⟨o, h1, hO⟩ := batchOpen_spec h A A' hB opens hl t e m ho
  obtain ⟨left, h2, h3, h4⟩ := mapM_range_spec E.par.mat.rows (fun i => do
      let l ← idx ((List.range E.par.mat.rows).map (E.leftAt x)) i
      encodePoly E.par.enc E.ringQ [l])
    (fun k a => A.val a = toR E.ringQ.qs E.ringQ.N (E.leftInt x k)) 0 (by
      intro k hk
      rw [idx_getD (by simpa using hk) 0, go_bind_ok, getD_map_range _ _ _ _ hk]
      exact leftPoly_spec h A x k)
  obtain ⟨parts, h5, h6, h7⟩ := mapM_range_spec E.par.mat.cols _ _ 0
    (fun j hj => partialEval_spec A A' hO h3 h4 j (by omega))
  obtain ⟨pm, h8, h9⟩ := partialEval_spec A A' hO h3 h4 E.par.mat.cols (by omega)
  obtain ⟨cs, h10, h11, h12⟩ := colChals_spec h A x com parts pm
  obtain ⟨en, h13, h14, h15⟩ := mapM_range_spec E.par.mat.rows _ _ 0
    (fun k hk => response_spec A h11 o.encode _ hO.encLen hO.encLen2 k hk)
  obtain ⟨ml, h16, h17, h18⟩ := mapM_range_spec (E.par.mlweRank + E.par.inRank) _ _ 0
    (fun k hk => response_spec A h11 o.mlwe _ hO.mlweLen hO.mlweLen2 k hk)
  have hev : (vs.mapM fun u => (Poly.mk u false).evaluate x) =
      .ok (vs.map fun v => ∑ i ∈ range v.length, v.getD i 0 * x ^ i) :=
    mapM_ok _ (fun v _ => (C20_evaluate v x).1)
  refine ⟨⟨o.inCommit, parts, pm, en, ml⟩, ?_, hO.inLen, h6, h14, h17, hO.inn, h7, h9, ?_, ?_⟩
  · unfold evaluate
    rw [if_neg (by omega), if_neg (by omega), if_neg (by
      rw [List.any_eq_true]
      rintro ⟨v, h20, h21⟩
      have := hr v h20
      simp at h21
      omega), hbb, go_bind_ok, h1, go_bind_ok, leftVec_eq h x, go_bind_ok, h2, go_bind_ok, h5,
      go_bind_ok, h8, go_bind_ok, h10, go_bind_ok, h13, go_bind_ok, h16, go_bind_ok, hev, go_bind_ok,
      go_pure]
  · intro k hk
    dsimp only
    rw [h15 k hk, hO.enc _ (by omega) k hk]
    congr 1
    apply sum_congr rfl
    intro j hj
    have hj := mem_range.mp hj
    rw [h12 j hj, hO.enc j (by omega) k hk]
  · intro k hk
    dsimp only
    rw [h18 k hk, hO.mlwe _ (by omega) k hk]
    congr 1
    apply sum_congr rfl
    intro j hj
    have hj := mem_range.mp hj
    rw [h12 j hj, hO.mlwe j (by omega) k hk]

/-! ## Decoding combinations -/

/-- The scalar a challenge decodes to. -/
theorem decZ_chal (h : E.Good) (bytes : List (BitVec 8)) :
    decZ h.enc (toZ E.par.enc.N (chalInt E.par.enc bytes)) =
      AdjoinRoot.of _ ((decoded p E.par.enc (chalInt E.par.enc bytes)).getD 0 0) := by
  rw [decZ_toZ h.enc _ (chalInt_length _ _)]
  have hd : listPoly (decoded p E.par.enc (chalInt E.par.enc bytes)) =
      Polynomial.C ((decoded p E.par.enc (chalInt E.par.enc bytes)).getD 0 0) := by
    ext n
    rw [listPoly_coeff, Polynomial.coeff_C]
    by_cases hn : n = 0
    · rw [if_pos hn, hn]
    rw [if_neg hn]
    by_cases hns : n < E.par.enc.slots
    · unfold decoded
      rw [getD_map_range _ _ _ _ hns]
      apply sum_eq_zero
      intro j hj
      have hj := mem_range.mp hj
      have hlt : j * E.par.enc.slots + n < E.par.enc.N := by
        rw [h.enc.deg, Nat.mul_comm E.par.enc.slots]
        have := Nat.mul_le_mul_right E.par.enc.slots hj
        rw [Nat.succ_mul] at this
        omega
      unfold chalInt
      rw [getD_map_range _ _ _ _ hlt, if_neg (by
        rw [Nat.mul_add_mod_self_right, Nat.mod_eq_of_lt hns]; exact hn)]
      simp
    · rw [List.getD_eq_default _ _ (by rw [decoded_length]; omega)]
  rw [hd]
  rfl

theorem decZ_bet (h : E.Good) (x : ZMod p) (com : List (List T')) (i : Nat) :
    decZ h.enc (toZ E.par.enc.N (E.betInt x com i)) =
      AdjoinRoot.of _ ((decoded p E.par.enc (E.betInt x com i)).getD 0 0) := by
  by_cases hb : E.par.batch > 1
  · have : E.betInt x com i = chalInt E.par.enc (E.xof (E.firstMsgs x com) i) := by
      unfold betInt; rw [if_pos hb]
    rw [this]
    exact decZ_chal h _
  · rw [(batch_one h hb x com).2, toZ_one, decoded_one h, map_one, map_one]

theorem decZ_left (h : E.Good) (x : ZMod p) (k : Nat) :
    decZ h.enc (toZ E.par.enc.N (E.leftInt x k)) = AdjoinRoot.of _ (E.leftAt x k) := by
  have hs := h.enc.slots_pos
  unfold leftInt
  rw [decZ_toZ h.enc _ (encInt_length _ _), decoded_encInt h.enc _ (by simpa using hs)]
  have : listPoly ([E.leftAt x k] ++ List.replicate (E.par.enc.slots - [E.leftAt x k].length) 0) =
      Polynomial.C (E.leftAt x k) := by
    ext n
    rw [listPoly_coeff, Polynomial.coeff_C]
    cases n with
    | zero => simp
    | succ n =>
      rw [if_neg (by omega), List.getD_eq_getElem?_getD, List.singleton_append,
        List.getElem?_cons_succ, List.getElem?_replicate]
      split <;> rfl
  rw [this]
  rfl

/-- A combination by scalars decodes slot by slot. -/
theorem decoded_comb (h : E.Good) {ι : Type} (S : Finset ι) (c : ι → RZ E.par.enc.N) (b : ι → ZMod p)
    (hc : ∀ i ∈ S, decZ h.enc (c i) = AdjoinRoot.of _ (b i)) (z : ι → List Int)
    (hz : ∀ i ∈ S, (z i).length = E.par.enc.N) (w : List Int) (hw : w.length = E.par.enc.N)
    (he : toZ E.par.enc.N w = ∑ i ∈ S, c i * toZ E.par.enc.N (z i)) (s : Nat) :
    (decoded p E.par.enc w).getD s 0 = ∑ i ∈ S, b i * (decoded p E.par.enc (z i)).getD s 0 := by
  by_cases hs : s < E.par.enc.slots
  swap
  · rw [List.getD_eq_default _ _ (by rw [decoded_length]; omega), sum_eq_zero]
    intro i _
    rw [List.getD_eq_default _ _ (by rw [decoded_length]; omega), mul_zero]
  have h1 : decoded p E.par.enc w = (List.range E.par.enc.slots).map fun s =>
      ∑ i ∈ S, b i * (decoded p E.par.enc (z i)).getD s 0 := by
    apply decoded_eq h.enc w _ hw (by simp)
    rw [← decZ_mk h.enc]
    have h2 := congrArg (decZ h.enc) he
    unfold toZ at h2
    rw [h2, map_sum]
    have h3 : listPoly ((List.range E.par.enc.slots).map fun s =>
        ∑ i ∈ S, b i * (decoded p E.par.enc (z i)).getD s 0) =
        ∑ i ∈ S, Polynomial.C (b i) * listPoly (decoded p E.par.enc (z i)) := by
      ext n
      rw [listPoly_coeff, Polynomial.finsetSum_coeff]
      by_cases hn : n < E.par.enc.slots
      · rw [getD_map_range _ _ _ _ hn]
        apply sum_congr rfl
        intro i _
        rw [Polynomial.coeff_C_mul, listPoly_coeff]
      · rw [List.getD_eq_default _ _ (by simp; omega), sum_eq_zero]
        intro i _
        rw [Polynomial.coeff_C_mul, listPoly_coeff,
          List.getD_eq_default _ _ (by rw [decoded_length]; omega), mul_zero]
    rw [h3, map_sum]
    apply sum_congr rfl
    intro i hi
    rw [map_mul, hc i hi, map_mul]
    have := decZ_toZ h.enc (z i) (hz i hi)
    unfold toZ at this
    rw [this]
    rfl
  rw [h1, getD_map_range _ _ _ _ hs]

/-! ## Honest proofs -/

theorem Opens.openIs {A : E.ringQ.Lawful} {A' : E.ringQ'.Lawful} {v : List (ZMod p)} {com : List T'}
    {o : JOpen T T'} {I : JInts} (h : E.Opens A A' v com o I) :
    OpenIs E A A' o (fun l => A'.val (o.inCommit.getD l 0))
      (fun j k => toR E.ringQ.qs E.ringQ.N (I.e j k))
      (fun j k => toR E.ringQ.qs E.ringQ.N (I.m j k)) where
  inLen := h.inLen
  encLen := h.encLen
  encLen2 := fun j hj => h.encLen2 _ (getD_mem (by rw [h.encLen]; exact hj) _)
  mlweLen := h.mlweLen
  mlweLen2 := fun j hj => h.mlweLen2 _ (getD_mem (by rw [h.mlweLen]; exact hj) _)
  inn := fun _ _ => rfl
  enc := fun j hj k hk => (h.enc j (by omega) k hk).2
  mlwe := fun j hj k hk => (h.mlwe j (by omega) k hk).2

theorem split_index {a b l : Nat} (h : l < a * b) : ∃ j < a, ∃ k < b, l = j * b + k := by
  have hb : 0 < b := by
    rcases Nat.eq_zero_or_pos b with rfl | hb
    · simp at h
    · exact hb
  refine ⟨l / b, Nat.div_lt_of_lt_mul (by rwa [Nat.mul_comm] at h), l % b, Nat.mod_lt _ hb, ?_⟩
  rw [Nat.mul_comm]
  exact (Nat.div_add_mod l b).symm

/-- Combination of the columns by the challenges, the mask column with coefficient one. -/
def comb {R : Type} [CommRing R] (nb nc : Nat) (b g : Nat → R) (f : Nat → Nat → R) : R :=
  ∑ i ∈ range nb, b i * (f i nc + ∑ j ∈ range nc, g j * f i j)

section
variable {R : Type} [CommRing R] (nb nc : Nat) (b g : Nat → R)

theorem comb_split (f : Nat → Nat → R) : comb nb nc b g f =
    ∑ i ∈ range nb, b i * f i nc + ∑ j ∈ range nc, g j * ∑ i ∈ range nb, b i * f i j := by
  unfold comb
  simp only [mul_add, sum_add_distrib, mul_sum]
  rw [sum_comm]
  congr 1
  apply sum_congr rfl
  intro j _
  apply sum_congr rfl
  intro i _
  ring

theorem comb_congr (f f' : Nat → Nat → R) (h : ∀ i < nb, ∀ j ≤ nc, f i j = f' i j) :
    comb nb nc b g f = comb nb nc b g f' := by
  unfold comb
  apply sum_congr rfl
  intro i hi
  have hi := mem_range.mp hi
  rw [h i hi nc le_rfl, sum_congr rfl (fun j hj => by rw [h i hi j (mem_range.mp hj).le])]

theorem comb_add (f f' : Nat → Nat → R) : comb nb nc b g (fun i j => f i j + f' i j) =
    comb nb nc b g f + comb nb nc b g f' := by
  unfold comb
  rw [← sum_add_distrib]
  apply sum_congr rfl
  intro i _
  simp only [mul_add, sum_add_distrib]
  ring

theorem comb_mul (c : R) (f : Nat → Nat → R) : comb nb nc b g (fun i j => c * f i j) =
    c * comb nb nc b g f := by
  unfold comb
  rw [mul_sum]
  apply sum_congr rfl
  intro i _
  rw [mul_left_comm c, mul_add c, mul_sum]
  congr 2
  apply sum_congr rfl
  intro j _
  ring

theorem comb_sum (n : Nat) (c : Nat → R) (f : Nat → Nat → Nat → R) :
    comb nb nc b g (fun i j => ∑ l ∈ range n, c l * f i j l) =
    ∑ l ∈ range n, c l * comb nb nc b g (fun i j => f i j l) := by
  induction n with
  | zero => simp [comb]
  | succ n ih =>
    rw [sum_range_succ, ← ih, ← comb_mul, ← comb_add]
    simp only [sum_range_succ]

theorem inner_alg (c : R) (n n' : Nat) (K M : Nat → R) (e m : Nat → Nat → Nat → R)
    (mm t rho : Nat → Nat → R)
    (h : ∀ i < nb, ∀ j ≤ nc, ∑ l ∈ range n, K l * e i j l + ∑ l ∈ range n', M l * m i j l +
      mm i j = c * t i j + rho i j) :
    c * comb nb nc b g t = ∑ l ∈ range n, K l * comb nb nc b g (fun i j => e i j l) +
      ∑ l ∈ range n', M l * comb nb nc b g (fun i j => m i j l) + comb nb nc b g mm +
      -comb nb nc b g rho := by
  rw [← comb_sum, ← comb_sum, ← comb_add, ← comb_add, comb_congr nb nc b g _ _ h, comb_add, comb_mul]
  ring

theorem consist_alg (n : Nat) (L : Nat → R) (e : Nat → Nat → Nat → R) :
    ∑ k ∈ range n, L k * comb nb nc b g (fun i j => e i j k) =
    ∑ j ∈ range nc, g j * (∑ k ∈ range n, L k * ∑ i ∈ range nb, b i * e i j k) +
      ∑ k ∈ range n, L k * ∑ i ∈ range nb, b i * e i nc k := by
  simp only [comb_split, mul_add, sum_add_distrib]
  rw [add_comm]
  congr 1
  simp only [mul_sum]
  rw [sum_comm]
  apply sum_congr rfl
  intro j _
  apply sum_congr rfl
  intro k _
  apply sum_congr rfl
  intro i _
  ring

theorem outer_alg (c : R) (n : Nat) (K : Nat → R) (t : Nat → Nat → R) (com sig : Nat → R)
    (h : ∀ i < nb, ∑ l ∈ range n, K l * t i l = c * com i + sig i) :
    c * ∑ i ∈ range nb, b i * com i =
      ∑ l ∈ range n, K l * ∑ i ∈ range nb, b i * t i l + -∑ i ∈ range nb, b i * sig i := by
  have h1 : ∑ l ∈ range n, K l * ∑ i ∈ range nb, b i * t i l =
      ∑ i ∈ range nb, b i * ∑ l ∈ range n, K l * t i l := by
    simp only [mul_sum]
    rw [sum_comm]
    apply sum_congr rfl
    intro i _
    apply sum_congr rfl
    intro l _
    ring
  have h2 : ∑ i ∈ range nb, b i * ∑ l ∈ range n, K l * t i l =
      ∑ i ∈ range nb, b i * (c * com i + sig i) :=
    sum_congr rfl (fun i hi => by rw [h i (mem_range.mp hi)])
  rw [h1, h2]
  simp only [mul_add, sum_add_distrib, mul_sum]
  rw [add_neg_cancel_right]
  apply sum_congr rfl
  intro i _
  ring

end

/-- The value the partial evaluations of an honest proof decode to. -/
theorem honest_eval (h : E.Good) (A : E.ringQ.Lawful) (A' : E.ringQ'.Lawful) (x : ZMod p)
    (vs : List (List (ZMod p))) (com : List (List T')) (opens : List (JOpen T T')) (pf : JProof T T')
    (hv : vs.length = E.par.batch) (I : Nat → JInts)
    (ho : ∀ i < E.par.batch, E.Opens A A' (vs.getD i []) (com.getD i [])
      (opens.getD i ⟨[], [], []⟩) (I i)) (W : JWit) (hW : E.Honest x com pf I W) :
    ∑ j ∈ range E.par.mat.cols, ∑ s ∈ range E.par.mat.slots, x ^ (j * E.par.mat.slots + s) *
      (decoded p E.par.enc (W.f j)).getD s 0 =
    ∑ i ∈ range E.par.batch, (decoded p E.par.enc (E.betInt x com i)).getD 0 0 *
      (vs.map fun v => ∑ i ∈ range v.length, v.getD i 0 * x ^ i).getD i 0 := by
  have hd : ∀ j < E.par.mat.cols, ∀ s, (decoded p E.par.enc (W.f j)).getD s 0 =
      ∑ k ∈ range E.par.mat.rows, E.leftAt x k * ∑ i ∈ range E.par.batch,
        (decoded p E.par.enc (E.betInt x com i)).getD 0 0 *
          (decoded p E.par.enc ((I i).e j k)).getD s 0 := by
    intro j hj s
    have e1 := (hW.f j hj).2
    simp only [mul_sum, ← mul_assoc] at e1
    rw [← sum_product' (f := fun k i => toZ E.par.enc.N (E.leftInt x k) *
      toZ E.par.enc.N (E.betInt x com i) * toZ E.par.enc.N ((I i).e j k))] at e1
    rw [decoded_comb h (range E.par.mat.rows ×ˢ range E.par.batch)
      (fun q => toZ E.par.enc.N (E.leftInt x q.1) * toZ E.par.enc.N (E.betInt x com q.2))
      (fun q => E.leftAt x q.1 * (decoded p E.par.enc (E.betInt x com q.2)).getD 0 0)
      (by
        intro q _
        rw [map_mul, decZ_left h, decZ_bet h, map_mul])
      (fun q => (I q.2).e j q.1)
      (by
        intro q hq
        rw [mem_product, mem_range, mem_range] at hq
        exact ((ho q.2 hq.2).enc j hj.le q.1 hq.1).1) (W.f j) (hW.f j hj).1 e1 s]
    rw [sum_product]
    apply sum_congr rfl
    intro k _
    rw [mul_sum]
    apply sum_congr rfl
    intro i _
    ring
  have e2 : ∀ i ∈ range E.par.batch, (decoded p E.par.enc (E.betInt x com i)).getD 0 0 *
      (vs.map fun v => ∑ i ∈ range v.length, v.getD i 0 * x ^ i).getD i 0 =
      ∑ k ∈ range E.par.mat.rows, ∑ j ∈ range E.par.mat.cols, ∑ s ∈ range E.par.mat.slots,
        (decoded p E.par.enc (E.betInt x com i)).getD 0 0 * (E.leftAt x k *
          ((decoded p E.par.enc ((I i).e j k)).getD s 0 * x ^ (j * E.par.mat.slots + s))) := by
    intro i hi
    have hi := mem_range.mp hi
    have e3 : (vs.map fun v => ∑ i ∈ range v.length, v.getD i 0 * x ^ i).getD i 0 =
        ∑ t ∈ range (vs.getD i []).length, (vs.getD i []).getD t 0 * x ^ t := by
      rw [List.getD_eq_getElem _ _ (by simpa using by omega), List.getD_eq_getElem _ _ (by omega),
        List.getElem_map]
    rw [e3, ← (ho i hi).eval x, mul_sum]
    apply sum_congr rfl
    intro k _
    rw [mul_sum, mul_sum]
    apply sum_congr rfl
    intro j _
    rw [mul_sum, mul_sum]
  rw [sum_congr rfl e2]
  have e4 : ∀ j ∈ range E.par.mat.cols, ∀ s ∈ range E.par.mat.slots,
      x ^ (j * E.par.mat.slots + s) * (decoded p E.par.enc (W.f j)).getD s 0 =
      ∑ i ∈ range E.par.batch, ∑ k ∈ range E.par.mat.rows,
        (decoded p E.par.enc (E.betInt x com i)).getD 0 0 * (E.leftAt x k *
          ((decoded p E.par.enc ((I i).e j k)).getD s 0 * x ^ (j * E.par.mat.slots + s))) := by
    intro j hj s _
    rw [hd j (mem_range.mp hj) s, mul_sum, sum_comm]
    apply sum_congr rfl
    intro k _
    rw [mul_sum, mul_sum]
    apply sum_congr rfl
    intro i _
    ring
  rw [sum_congr rfl (fun j hj => sum_congr rfl (e4 j hj))]
  -- reorder the four sums
  rw [sum_congr rfl (fun j _ => sum_comm), sum_comm]
  apply sum_congr rfl
  intro i _
  rw [sum_congr rfl (fun j _ => sum_comm), sum_comm]

theorem honest_accepted (h : E.Good) (A : E.ringQ.Lawful) (A' : E.ringQ'.Lawful) (x : ZMod p)
    (vs : List (List (ZMod p))) (com : List (List T')) (opens : List (JOpen T T'))
    (hv : vs.length = E.par.batch) (hc : com.length = E.par.batch) (hl : opens.length = E.par.batch)
    (hr : ∀ v ∈ vs, v.length ≤ E.par.mat.rank) (I : Nat → JInts)
    (ho : ∀ i < E.par.batch, E.Opens A A' (vs.getD i []) (com.getD i [])
      (opens.getD i ⟨[], [], []⟩) (I i)) :
    ∃ pf, E.evaluate x vs com opens =
        .ok (vs.map fun v => ∑ i ∈ range v.length, v.getD i 0 * x ^ i, pf) ∧
      (∀ W : JWit, E.Honest x com pf I W →
        E.toFloat (Nat.sqrt (jSqSum ((List.range E.par.dcmpLen).map W.t ++
          (List.range E.par.outRank).map W.s))) < E.par.dcmpNm →
        E.toFloat (Nat.sqrt (jSqSum ((List.range E.par.mat.rows).map W.e ++
          (List.range (E.par.mlweRank + E.par.inRank)).map W.m ++
          (List.range E.par.inRank).map W.u))) < E.par.resNm →
        Accepted E A A' x com (vs.map fun v => ∑ i ∈ range v.length, v.getD i 0 * x ^ i) pf W) := by
  obtain ⟨pf, h1, h2, h3, h4, h5, h6, h7, h8, h9, h10⟩ := evaluate_spec h A A' x vs com opens hv hc hl hr
    _ _ _ (fun i hi => (ho i hi).openIs)
  refine ⟨pf, h1, ?_⟩
  intro W hW hn1 hn2
  have hN : E.par.enc.N = E.ringQ.N := h.deg.symm
  have hN' : E.par.enc.N = E.ringQ'.N := h.deg'.symm
  -- the equations of the honest integers, in both rings
  have ht : ∀ j ≤ E.par.mat.cols, ∀ k < E.par.inRank,
      toR E.ringQ.qs E.ringQ.N (W.t (j * E.par.inRank + k)) = ∑ i ∈ range E.par.batch,
        toR E.ringQ.qs E.ringQ.N (E.betInt x com i) * toR E.ringQ.qs E.ringQ.N ((I i).t j k) := by
    intro j hj k hk
    have := (hW.t j hj k hk).2
    rw [hN] at this
    rw [toR_of_toZ this, map_sum]
    simp only [map_mul, redR_toZ]
  have ht' : ∀ j ≤ E.par.mat.cols, ∀ k < E.par.inRank,
      toR E.ringQ'.qs E.ringQ'.N (W.t (j * E.par.inRank + k)) = ∑ i ∈ range E.par.batch,
        toR E.ringQ'.qs E.ringQ'.N (E.betInt x com i) *
          toR E.ringQ'.qs E.ringQ'.N ((I i).t j k) := by
    intro j hj k hk
    have := (hW.t j hj k hk).2
    rw [hN'] at this
    rw [toR_of_toZ this, map_sum]
    simp only [map_mul, redR_toZ]
  have hs : ∀ k < E.par.outRank, toR E.ringQ'.qs E.ringQ'.N (W.s k) = -∑ i ∈ range E.par.batch,
        toR E.ringQ'.qs E.ringQ'.N (E.betInt x com i) *
          toR E.ringQ'.qs E.ringQ'.N ((I i).sig k) := by
    intro k hk
    have := (hW.s k hk).2
    rw [hN'] at this
    rw [toR_of_toZ this, map_neg, map_sum]
    simp only [map_mul, redR_toZ]
  have he : ∀ k < E.par.mat.rows, toR E.ringQ.qs E.ringQ.N (W.e k) = comb E.par.batch E.par.mat.cols
      (fun i => toR E.ringQ.qs E.ringQ.N (E.betInt x com i))
      (fun j => toR E.ringQ.qs E.ringQ.N (E.gamInt x com pf.parts pf.partMask j))
      (fun i j => toR E.ringQ.qs E.ringQ.N ((I i).e j k)) := by
    intro k hk
    have := (hW.e k hk).2
    rw [hN] at this
    rw [toR_of_toZ this, map_sum]
    simp only [map_mul, redR_toZ, map_add, map_sum, comb]
  have hm : ∀ k < E.par.mlweRank + E.par.inRank, toR E.ringQ.qs E.ringQ.N (W.m k) =
      comb E.par.batch E.par.mat.cols
      (fun i => toR E.ringQ.qs E.ringQ.N (E.betInt x com i))
      (fun j => toR E.ringQ.qs E.ringQ.N (E.gamInt x com pf.parts pf.partMask j))
      (fun i j => toR E.ringQ.qs E.ringQ.N ((I i).m j k)) := by
    intro k hk
    have := (hW.m k hk).2
    rw [hN] at this
    rw [toR_of_toZ this, map_sum]
    simp only [map_mul, redR_toZ, map_add, map_sum, comb]
  have hf : ∀ j < E.par.mat.cols, toR E.ringQ.qs E.ringQ.N (W.f j) = A.val (pf.parts.getD j 0) := by
    intro j hj
    have := (hW.f j hj).2
    rw [hN] at this
    rw [toR_of_toZ this, h7 j hj, map_sum]
    simp only [map_mul, redR_toZ, map_sum]
  have hu : ∀ k < E.par.inRank, toR E.ringQ.qs E.ringQ.N (W.u k) = -comb E.par.batch E.par.mat.cols
      (fun i => toR E.ringQ.qs E.ringQ.N (E.betInt x com i))
      (fun j => toR E.ringQ.qs E.ringQ.N (E.gamInt x com pf.parts pf.partMask j))
      (fun i j => toR E.ringQ.qs E.ringQ.N ((I i).rho j k)) := by
    intro k hk
    have := (hW.u k hk).2
    rw [hN] at this
    rw [toR_of_toZ this, map_neg, map_sum]
    simp only [map_mul, redR_toZ, map_add, map_sum, comb]
  have htl : ∀ l < E.par.dcmpLen, A'.val (pf.inCommit.getD l 0) = toR E.ringQ'.qs E.ringQ'.N (W.t l) := by
    intro l hl
    obtain ⟨j, hj, k, hk, rfl⟩ := split_index (h.dcmp ▸ hl)
    rw [h6 _ hl, ht' j (by omega) k hk]
    apply sum_congr rfl
    intro i hi
    rw [((ho i (mem_range.mp hi)).trunc j (by omega) k hk).2]
  refine ⟨⟨hc, ?_, by simpa using hv, h2, h3, h4, h5⟩, ?_, ?_, ?_, ?_, ?_, ?_, ?_, hn1, ?_, hn2, ?_,
    honest_eval h A A' x vs com opens pf hv I ho W hW⟩
  · intro c hc'
    obtain ⟨i, hi, rfl⟩ := List.getElem_of_mem hc'
    have := (ho i (by omega)).comLen
    rw [List.getD_eq_getElem _ _ hi] at this
    omega
  · intro l hl
    refine ⟨?_, htl l hl⟩
    obtain ⟨j, hj, k, hk, rfl⟩ := split_index (h.dcmp ▸ hl)
    rw [(hW.t j (by omega) k hk).1, hN']
  · intro k hk
    rw [(hW.s k hk).1, hN']
  · intro k hk
    exact ⟨by rw [(hW.e k hk).1, hN], by rw [he k hk, comb_split, h9 k hk]⟩
  · intro k hk
    exact ⟨by rw [(hW.m k hk).1, hN], by rw [hm k hk, comb_split, h10 k hk]⟩
  · intro k hk
    rw [(hW.u k hk).1, hN]
  · intro j hj
    exact ⟨by rw [(hW.f j hj).1, hN], (hf j hj).symm⟩
  · intro k hk
    rw [hs k hk, outer_alg E.par.batch (fun i => toR E.ringQ'.qs E.ringQ'.N (E.betInt x com i))
      (2 ^ E.par.outCut) E.par.dcmpLen (fun l => A'.val (at2 E.key.out k l))
      (fun i l => A'.val ((opens.getD i ⟨[], [], []⟩).inCommit.getD l 0))
      (fun i => A'.val (at2 com i k)) (fun i => toR E.ringQ'.qs E.ringQ'.N ((I i).sig k))
      (fun i hi => (ho i hi).outer k hk)]
    congr 1
    apply sum_congr rfl
    intro l hl
    rw [← htl l (mem_range.mp hl), h6 l (mem_range.mp hl)]
  · intro k hk
    have key := inner_alg E.par.batch E.par.mat.cols
      (fun i => toR E.ringQ.qs E.ringQ.N (E.betInt x com i))
      (fun j => toR E.ringQ.qs E.ringQ.N (E.gamInt x com pf.parts pf.partMask j))
      (2 ^ E.par.inCut) E.par.mat.rows E.par.mlweRank (fun l => A.val (at2 E.key.inn k l))
      (fun l => A.val (at2 E.key.mlwe k l)) (fun i j l => toR E.ringQ.qs E.ringQ.N ((I i).e j l))
      (fun i j l => toR E.ringQ.qs E.ringQ.N ((I i).m j l))
      (fun i j => toR E.ringQ.qs E.ringQ.N ((I i).m j (E.par.mlweRank + k)))
      (fun i j => toR E.ringQ.qs E.ringQ.N ((I i).t j k))
      (fun i j => toR E.ringQ.qs E.ringQ.N ((I i).rho j k))
      (fun i hi j hj => (ho i hi).inner j hj k hk)
    rw [comb_split (f := fun i j => toR E.ringQ.qs E.ringQ.N ((I i).t j k))] at key
    have ht2 : ∑ j ∈ range E.par.mat.cols, toR E.ringQ.qs E.ringQ.N
          (E.gamInt x com pf.parts pf.partMask j) *
        toR E.ringQ.qs E.ringQ.N (W.t (j * E.par.inRank + k)) = ∑ j ∈ range E.par.mat.cols,
        toR E.ringQ.qs E.ringQ.N (E.gamInt x com pf.parts pf.partMask j) *
          ∑ i ∈ range E.par.batch, toR E.ringQ.qs E.ringQ.N (E.betInt x com i) *
            toR E.ringQ.qs E.ringQ.N ((I i).t j k) :=
      sum_congr rfl (fun j hj => by rw [ht j (mem_range.mp hj).le k hk])
    rw [ht _ le_rfl k hk, ht2, key, hu k hk, hm _ (by omega)]
    congr 3
    · apply sum_congr rfl
      intro l hl
      rw [he l (mem_range.mp hl)]
    · apply sum_congr rfl
      intro l hl
      rw [hm l (by have := mem_range.mp hl; omega)]
  · rw [h8, sum_congr rfl (fun k hk => by rw [he k (mem_range.mp hk)]), consist_alg]
    congr 1
    apply sum_congr rfl
    intro j hj
    rw [hf j (mem_range.mp hj), h7 j (mem_range.mp hj)]

end JEnv

end Ringo
