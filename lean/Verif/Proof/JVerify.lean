import Verif.Proof.JCommit
import Verif.Proof.JRep
import Verif.Props.Poly2

/-!
# `Verify`, step by step
-/

namespace Ringo

open Finset

set_option linter.unusedSectionVars false

theorem toR_one (qs : List Nat) (N : Nat) : toR qs N [1] = 1 := by
  unfold toR
  have : listPoly ([1].map fun c : Int => (c : ZMod qs.prod)) = 1 := by
    simp [listPoly]
  rw [this, map_one]

theorem toZ_one (N : Nat) : toZ N [1] = 1 := by
  unfold toZ
  have : listPoly ([1] : List Int) = 1 := by simp [listPoly]
  rw [this, map_one]

namespace JEnv

variable {p : Nat} {T T' : Type} [AddCommGroup T] [AddCommGroup T'] {E : JEnv p T T'}

theorem Good.chal_le (h : E.Good) : ∀ q ∈ E.ringQ.qs, challengeBound E.par.enc.ecd ≤ q :=
  fun q hq => by have := h.chalQ q hq; omega

theorem Good.chal_le' (h : E.Good) (hb : 1 < E.par.batch) : ∀ q ∈ E.ringQ'.qs, challengeBound E.par.enc.ecd ≤ q :=
  fun q hq => by have := h.chalQ' hb q hq; omega

/-- The batching challenges, in both rings. -/
structure Batch (E : JEnv p T T') (A : E.ringQ.Lawful) (A' : E.ringQ'.Lawful) (x : ZMod p)
    (com : List (List T')) (bb : List T × List T') : Prop where
  len : E.par.batch > 1 → bb.1.length = E.par.batch
  len' : E.par.batch > 1 → bb.2.length = E.par.batch
  val : E.par.batch > 1 → ∀ i < E.par.batch,
    A.val (bb.1.getD i 0) = toR E.ringQ.qs E.ringQ.N (E.betInt x com i)
  val' : E.par.batch > 1 → ∀ i < E.par.batch,
    A'.val (bb.2.getD i 0) = toR E.ringQ'.qs E.ringQ'.N (E.betInt x com i)

theorem batchChals_spec (h : E.Good) (A : E.ringQ.Lawful) (A' : E.ringQ'.Lawful) (x : ZMod p)
    (com : List (List T')) : ∃ bb, E.batchChals x com = .ok bb ∧ Batch E A A' x com bb := by
  unfold batchChals
  by_cases hb : E.par.batch > 1
  · rw [if_pos hb]
    unfold batchBytes
    rw [List.mapM_map, List.mapM_map]
    obtain ⟨b, h1, h2, h3⟩ := mapM_range_spec E.par.batch
      ((fun bs => chalPoly E.par.enc E.ringQ bs) ∘ fun i => E.xof (E.firstMsgs x com) i)
      (fun i a => A.val a = toR E.ringQ.qs E.ringQ.N (chalInt E.par.enc (E.xof (E.firstMsgs x com) i)))
      0 (fun i _ => chalPoly_spec A h.enc h.deg h.chal h.chal_le _ (h.xof _ _))
    obtain ⟨b', h1', h2', h3'⟩ := mapM_range_spec E.par.batch
      ((fun bs => chalPoly E.par.enc E.ringQ' bs) ∘ fun i => E.xof (E.firstMsgs x com) i)
      (fun i a => A'.val a = toR E.ringQ'.qs E.ringQ'.N
        (chalInt E.par.enc (E.xof (E.firstMsgs x com) i)))
      0 (fun i _ => chalPoly_spec A' h.enc h.deg' h.chal (h.chal_le' hb) _ (h.xof _ _))
    rw [h1, go_bind_ok, h1', go_bind_ok, go_pure]
    refine ⟨_, rfl, fun _ => h2, fun _ => h2', ?_, ?_⟩
    · intro _ i hi
      unfold betInt
      rw [if_pos hb]
      exact h3 i hi
    · intro _ i hi
      unfold betInt
      rw [if_pos hb]
      exact h3' i hi
  · rw [if_neg hb]
    exact ⟨([], []), rfl, fun h' => absurd h' hb, fun h' => absurd h' hb, fun h' => absurd h' hb,
      fun h' => absurd h' hb⟩

theorem colChals_spec (h : E.Good) (A : E.ringQ.Lawful) (x : ZMod p) (com : List (List T'))
    (parts : List T) (partMask : T) :
    ∃ cs, E.colChals x com parts partMask = .ok cs ∧ cs.length = E.par.mat.cols ∧
      ∀ j < E.par.mat.cols, A.val (cs.getD j 0) =
        toR E.ringQ.qs E.ringQ.N (E.gamInt x com parts partMask j) := by
  unfold colChals
  exact mapM_range_spec E.par.mat.cols _ (fun j a => A.val a =
    toR E.ringQ.qs E.ringQ.N (E.gamInt x com parts partMask j)) 0
    (fun i _ => chalPoly_spec A h.enc h.deg h.chal h.chal_le _ (h.xof _ _))

/-- With a batch of one, the sum has one term and the challenge is one. -/
theorem batch_one (h : E.Good) (hb : ¬ E.par.batch > 1) (x : ZMod p) (com : List (List T')) :
    E.par.batch = 1 ∧ ∀ i, E.betInt x com i = [1] := by
  refine ⟨by have := h.batch; omega, ?_⟩
  intro i
  unfold betInt
  rw [if_neg hb]

/-! ## Norms -/

theorem natAbs_sq_sum (z : List Int) :
    (z.map fun c => (c * c).natAbs).sum = (z.map fun c => c.natAbs ^ 2).sum := by
  congr 1
  apply List.map_congr_left
  intro c _
  rw [Int.natAbs_mul, sq]

theorem forall₂_mapM {α β γ : Type} {R : α → β → Prop} {l : List α} {r : List β} (g : α → γ)
    (f : γ → Go β) (h : List.Forall₂ R l r) (hf : ∀ a b, R a b → f (g a) = .ok b) :
    (l.map g).mapM f = .ok r := by
  induction h with
  | nil => rfl
  | cons h1 _ ih =>
    rw [List.map_cons, List.mapM_cons, hf _ _ h1, go_bind_ok, ih, go_bind_ok]
    rfl

/-- `verifyNorm` compares the norm of the integers it reconstructs. -/
theorem verifyNorm_of {U : Type} [AddCommGroup U] {L : LRing U} (ts : List U) (zs : List (List Int))
    (nm : ℚ) (h : List.Forall₂ (fun t z => reconstructTo L.qs (L.unload t) = .ok z) ts zs) :
    E.verifyNorm L.qs (ts.map L.unload) nm =
      .ok (decide (E.toFloat (Nat.sqrt (jSqSum zs)) < nm)) := by
  unfold verifyNorm
  rw [forall₂_mapM L.unload (fun c => reconstructTo L.qs c) h (fun _ _ h => h), go_bind_ok]
  simp only [natAbs_sq_sum]
  rfl

theorem verifyNorm_sound {U : Type} [AddCommGroup U] {L : LRing U} (A : L.Lawful) (ts : List U)
    (nm : ℚ) : ∃ zs : List (List Int), List.Forall₂ (Rep A) ts zs ∧
      E.verifyNorm L.qs (ts.map L.unload) nm =
        .ok (decide (E.toFloat (Nat.sqrt (jSqSum zs)) < nm)) := by
  have h : ∀ ts : List U, ∃ zs : List (List Int), List.Forall₂ (Rep A) ts zs ∧
      List.Forall₂ (fun t z => reconstructTo L.qs (L.unload t) = .ok z) ts zs := by
    intro ts
    induction ts with
    | nil => exact ⟨[], .nil, .nil⟩
    | cons t ts ih =>
      obtain ⟨zs, h1, h2⟩ := ih
      obtain ⟨z, h3, h4, h5, -⟩ := A.reconstruct t
      exact ⟨z :: zs, .cons ⟨h4, h5⟩ h1, .cons h3 h2⟩
  obtain ⟨zs, h1, h2⟩ := h ts
  exact ⟨zs, h1, verifyNorm_of ts zs nm h2⟩

theorem sq_le_jSqSum {zs : List (List Int)} {z : List Int} (hz : z ∈ zs) {c : Int} (hc : c ∈ z) :
    c.natAbs ^ 2 ≤ jSqSum zs := by
  unfold jSqSum
  refine le_trans ?_ (List.single_le_sum (fun _ _ => Nat.zero_le _) _ (List.mem_map_of_mem hz))
  exact List.single_le_sum (fun _ _ => Nat.zero_le _) _
    (List.mem_map_of_mem (f := fun c : Int => c.natAbs ^ 2) hc)

/-- A norm below the bound leaves no room for a reduction modulo `Q`. -/
theorem range_of_norm (hm : Monotone E.toFloat) {Q : Nat} {nm : ℚ}
    (hnm : nm ≤ E.toFloat ((Q - 1) / 2)) {zs : List (List Int)}
    (h : E.toFloat (Nat.sqrt (jSqSum zs)) < nm) {z : List Int} (hz : z ∈ zs) {c : Int} (hc : c ∈ z) :
    2 * |c| < Q - 1 := by
  have h1 : Nat.sqrt (jSqSum zs) < (Q - 1) / 2 := by
    by_contra h2
    have := hm (Nat.le_of_not_lt h2)
    exact absurd (lt_of_lt_of_le h hnm) (not_lt.mpr this)
  have h2 : c.natAbs ≤ Nat.sqrt (jSqSum zs) := by
    rw [Nat.le_sqrt]
    have := sq_le_jSqSum hz hc
    rwa [sq] at this
  rw [Int.abs_eq_natAbs]
  omega

theorem verifyNorm_complete (hm : Monotone E.toFloat) {U : Type} [AddCommGroup U] {L : LRing U}
    (A : L.Lawful) {nm : ℚ} (hnm : nm ≤ E.toFloat ((L.qs.prod - 1) / 2)) (ts : List U)
    (zs : List (List Int)) (h : List.Forall₂ (Rep A) ts zs)
    (hn : E.toFloat (Nat.sqrt (jSqSum zs)) < nm) :
    E.verifyNorm L.qs (ts.map L.unload) nm = .ok true := by
  have h1 : List.Forall₂ (fun t z => reconstructTo L.qs (L.unload t) = .ok z) ts zs := by
    have h2 : ∀ z ∈ zs, ∀ c ∈ z, 2 * |c| < (L.qs.prod : Int) - 1 :=
      fun z hz c hc => range_of_norm hm hnm hn hz hc
    clear hn hnm
    induction h with
    | nil => exact .nil
    | @cons t z ts zs h3 _ ih =>
      refine .cons ?_ (ih (fun z hz => h2 z (by simp [hz])))
      apply A.reconstruct_eq h3.1 h3.2
      intro c hc
      have h4 := h2 z (by simp) c hc
      have h5 := neg_abs_le c
      have h6 := le_abs_self c
      omega
  rw [verifyNorm_of ts zs nm h1, decide_eq_true hn]

/-! ## The shape of a proof -/

theorem unloadTo_ok {U : Type} (L : LRing U) (n : Nat) (l : List U) (zero : List (List Nat))
    (hl : l.length = n) : unloadTo L n l zero = .ok (l.map L.unload) := by
  unfold unloadTo
  rw [if_neg (by omega), show n - l.length = 0 by omega]
  simp

/-! ## The outer commitment -/

theorem batchCom_spec (h : E.Good) (A : E.ringQ.Lawful) (A' : E.ringQ'.Lawful) {x : ZMod p}
    {com : List (List T')} {bb : List T × List T'} (hb : Batch E A A' x com bb)
    (hc : com.length = E.par.batch) (hc2 : ∀ c ∈ com, E.par.outRank ≤ c.length) (k : Nat)
    (hk : k < E.par.outRank) :
    ∃ c, E.batchCom bb.2 com k = .ok c ∧ A'.val c = ∑ i ∈ range E.par.batch,
      toR E.ringQ'.qs E.ringQ'.N (E.betInt x com i) * A'.val (at2 com i k) := by
  have hat : ∀ i < E.par.batch, idxIdx com i k = .ok (at2 com i k) := by
    intro i hi
    exact idxIdx_getD (by omega) (hk.trans_le (hc2 _ (getD_mem (by omega) _))) 0
  unfold batchCom
  by_cases hb1 : E.par.batch > 1
  · rw [if_pos hb1, accLoop_ok _ _ _ (fun i => E.ringQ'.mul (at2 com i k) (bb.2.getD i 0)) (by
      intro i hi
      rw [hat i hi, go_bind_ok, idx_getD (by rw [hb.len' hb1]; exact hi) 0, go_bind_ok, go_pure])]
    refine ⟨_, rfl, ?_⟩
    rw [zero_add, map_sum]
    apply sum_congr rfl
    intro i hi
    rw [A'.val_mul, hb.val' hb1 i (mem_range.mp hi), mul_comm]
  · obtain ⟨h1, h2⟩ := batch_one h hb1 x com
    rw [if_neg hb1, hat 0 (by omega)]
    refine ⟨_, rfl, ?_⟩
    rw [h1, sum_range_one, h2, toR_one, one_mul]

theorem outerCut_spec (h : E.Good) (A : E.ringQ.Lawful) (A' : E.ringQ'.Lawful) {x : ZMod p}
    {com : List (List T')} {bb : List T × List T'} (hb : Batch E A A' x com bb)
    (hc : com.length = E.par.batch) (hc2 : ∀ c ∈ com, E.par.outRank ≤ c.length) (ts : List T')
    (hl : ts.length = E.par.dcmpLen) (k : Nat) (hk : k < E.par.outRank) :
    ∃ c, E.outerCut bb.2 com ts k = .ok c ∧ A'.val c =
      2 ^ E.par.outCut * ∑ i ∈ range E.par.batch,
        toR E.ringQ'.qs E.ringQ'.N (E.betInt x com i) * A'.val (at2 com i k) -
      ∑ l ∈ range E.par.dcmpLen, A'.val (at2 E.key.out k l) * A'.val (ts.getD l 0) := by
  obtain ⟨c, h1, h2⟩ := batchCom_spec h A A' hb hc hc2 k hk
  unfold outerCut
  rw [h1, go_bind_ok]
  dsimp only
  rw [subLoop_ok _ _ _ (fun l => E.ringQ'.mul (at2 E.key.out k l) (ts.getD l 0)) (by
      intro l hl'
      rw [h.out_at hk hl', go_bind_ok, idx_getD (by omega) 0, go_bind_ok, go_pure])]
  refine ⟨_, rfl, ?_⟩
  rw [map_sub, A'.val_scale, h2, map_sum]
  simp only [A'.val_mul]
  push_cast
  rfl

theorem verifyOuter_spec (h : E.Good) (A : E.ringQ.Lawful) (A' : E.ringQ'.Lawful) {x : ZMod p}
    {com : List (List T')} {bb : List T × List T'} (hb : Batch E A A' x com bb)
    {y : List (ZMod p)} {pf : JProof T T'} (hs : Shape E com y pf) :
    ∃ cut : List T', cut.length = E.par.outRank ∧
      (∀ k < E.par.outRank, A'.val (cut.getD k 0) =
        2 ^ E.par.outCut * ∑ i ∈ range E.par.batch,
          toR E.ringQ'.qs E.ringQ'.N (E.betInt x com i) * A'.val (at2 com i k) -
        ∑ l ∈ range E.par.dcmpLen, A'.val (at2 E.key.out k l) * A'.val (pf.inCommit.getD l 0)) ∧
      E.verifyOuter bb.2 com pf (pf.inCommit.map E.ringQ'.unload) =
        E.verifyNorm E.ringQ'.qs ((pf.inCommit ++ cut).map E.ringQ'.unload) E.par.dcmpNm := by
  obtain ⟨cut, h1, h2, h3⟩ := mapM_range_spec E.par.outRank
    (fun i => E.outerCut bb.2 com pf.inCommit i) _ 0
    (fun k hk => outerCut_spec h A A' hb hs.comLen hs.comLen2 pf.inCommit hs.inCommit k hk)
  refine ⟨cut, h2, h3, ?_⟩
  unfold verifyOuter
  rw [h1, go_bind_ok, List.map_append]

/-! ## The inner commitment -/

/-- Entry `l` of the inner commitments of the proof, lifted to the large ring. -/
noncomputable def lifted (E : JEnv p T T') (A : E.ringQ.Lawful) (pf : JProof T T') (l : Nat) :
    RQ E.ringQ.qs E.ringQ.N :=
  A.val (E.ringQ.load (E.modUp (E.ringQ'.unload (pf.inCommit.getD l 0))))

theorem lifted_eq (h : E.Good) (A : E.ringQ.Lawful) (A' : E.ringQ'.Lawful) (pf : JProof T T') (l : Nat)
    (z : List Int) (hz : Rep A' (pf.inCommit.getD l 0) z)
    (hr : ∀ c ∈ z, 2 * |c| < (E.ringQ'.qs.prod : Int)) :
    lifted E A pf l = toR E.ringQ.qs E.ringQ.N z := by
  unfold lifted
  rw [A'.unload_eq _ z hz.1 hz.2]
  apply A.val_load _ _ (by rw [hz.1, h.deg, h.deg'])
  exact h.modUp z (by rw [hz.1, h.deg']) hr

theorem innerCut_spec (h : E.Good) (A : E.ringQ.Lawful) {com : List (List T')} {y : List (ZMod p)}
    {pf : JProof T T'} (hs : Shape E com y pf) {cs : List T} (hcl : cs.length = E.par.mat.cols)
    (k : Nat) (hk : k < E.par.inRank) :
    ∃ c, E.innerCut cs pf (pf.inCommit.map E.ringQ'.unload) k = .ok c ∧ A.val c =
      2 ^ E.par.inCut * (lifted E A pf (E.par.mat.cols * E.par.inRank + k) +
        ∑ j ∈ range E.par.mat.cols, A.val (cs.getD j 0) * lifted E A pf (j * E.par.inRank + k)) -
      ∑ l ∈ range E.par.mat.rows, A.val (at2 E.key.inn k l) * A.val (pf.encode.getD l 0) -
      ∑ l ∈ range E.par.mlweRank, A.val (at2 E.key.mlwe k l) * A.val (pf.mlwe.getD l 0) -
      A.val (pf.mlwe.getD (E.par.mlweRank + k) 0) := by
  have hidx : ∀ j ≤ E.par.mat.cols, j * E.par.inRank + k < pf.inCommit.length := by
    intro j hj
    rw [hs.inCommit, h.dcmp]
    have := Nat.mul_le_mul_right E.par.inRank hj
    rw [Nat.succ_mul]
    omega
  unfold innerCut
  rw [accLoop_ok _ _ _ (fun j => if j = E.par.mat.cols then
        E.ringQ.load (E.modUp (E.ringQ'.unload (pf.inCommit.getD (j * E.par.inRank + k) 0)))
      else E.ringQ.mul (E.ringQ.load (E.modUp (E.ringQ'.unload
        (pf.inCommit.getD (j * E.par.inRank + k) 0)))) (cs.getD j 0)) (by
      intro j hj
      have hj' := hidx j (by omega)
      rw [idx_getD (by simpa using hj') [], go_bind_ok]
      have : (pf.inCommit.map E.ringQ'.unload).getD (j * E.par.inRank + k) [] =
          E.ringQ'.unload (pf.inCommit.getD (j * E.par.inRank + k) 0) := by
        rw [List.getD_eq_getElem _ _ (by simpa using hj'), List.getD_eq_getElem _ _ hj',
          List.getElem_map]
      rw [this]
      dsimp only
      by_cases hjc : j = E.par.mat.cols
      · rw [if_pos hjc, if_pos hjc]; rfl
      · rw [if_neg hjc, if_neg hjc, idx_getD (by omega) 0, go_bind_ok]
        rfl), go_bind_ok]
  dsimp only
  rw [subLoop_ok _ _ _ (fun l => E.ringQ.mul (at2 E.key.inn k l) (pf.encode.getD l 0)) (by
      intro l hl'
      rw [h.inn_at hk hl', go_bind_ok, idx_getD (by rw [hs.encode]; exact hl') 0, go_bind_ok, go_pure]),
    go_bind_ok,
    subLoop_ok _ _ _ (fun l => E.ringQ.mul (at2 E.key.mlwe k l) (pf.mlwe.getD l 0)) (by
      intro l hl'
      rw [h.mlwe_at hk hl', go_bind_ok, idx_getD (by rw [hs.mlwe]; omega) 0, go_bind_ok, go_pure]),
    go_bind_ok, idx_getD (by rw [hs.mlwe]; omega) 0, go_bind_ok, go_pure]
  refine ⟨_, rfl, ?_⟩
  have hsum : A.val (0 + ∑ j ∈ range (E.par.mat.cols + 1), if j = E.par.mat.cols then
        E.ringQ.load (E.modUp (E.ringQ'.unload (pf.inCommit.getD (j * E.par.inRank + k) 0)))
      else E.ringQ.mul (E.ringQ.load (E.modUp (E.ringQ'.unload
        (pf.inCommit.getD (j * E.par.inRank + k) 0)))) (cs.getD j 0)) =
      lifted E A pf (E.par.mat.cols * E.par.inRank + k) +
        ∑ j ∈ range E.par.mat.cols, A.val (cs.getD j 0) * lifted E A pf (j * E.par.inRank + k) := by
    rw [zero_add, sum_range_succ, if_pos rfl, map_add, map_sum, add_comm]
    congr 1
    apply sum_congr rfl
    intro j hj
    rw [if_neg (by have := mem_range.mp hj; omega), A.val_mul, mul_comm]
    rfl
  rw [map_sub, map_sub, map_sub, A.val_scale, hsum, map_sum, map_sum]
  simp only [A.val_mul]
  push_cast
  rfl

theorem verifyInner_spec (h : E.Good) (A : E.ringQ.Lawful) {com : List (List T')}
    {y : List (ZMod p)} {pf : JProof T T'} (hs : Shape E com y pf) {cs : List T}
    (hcl : cs.length = E.par.mat.cols) :
    ∃ cut : List T, cut.length = E.par.inRank ∧
      (∀ k < E.par.inRank, A.val (cut.getD k 0) =
      2 ^ E.par.inCut * (lifted E A pf (E.par.mat.cols * E.par.inRank + k) +
        ∑ j ∈ range E.par.mat.cols, A.val (cs.getD j 0) * lifted E A pf (j * E.par.inRank + k)) -
      ∑ l ∈ range E.par.mat.rows, A.val (at2 E.key.inn k l) * A.val (pf.encode.getD l 0) -
      ∑ l ∈ range E.par.mlweRank, A.val (at2 E.key.mlwe k l) * A.val (pf.mlwe.getD l 0) -
      A.val (pf.mlwe.getD (E.par.mlweRank + k) 0)) ∧
      E.verifyInner cs pf (pf.inCommit.map E.ringQ'.unload) (pf.encode.map E.ringQ.unload)
        (pf.mlwe.map E.ringQ.unload) =
        E.verifyNorm E.ringQ.qs ((pf.encode ++ pf.mlwe ++ cut).map E.ringQ.unload) E.par.resNm := by
  obtain ⟨cut, h1, h2, h3⟩ := mapM_range_spec E.par.inRank
    (fun i => E.innerCut cs pf (pf.inCommit.map E.ringQ'.unload) i) _ 0
    (fun k hk => innerCut_spec h A hs hcl k hk)
  refine ⟨cut, h2, h3, ?_⟩
  unfold verifyInner
  rw [h1, go_bind_ok, List.map_append, List.map_append]

/-! ## Consistency -/

theorem leftVec_eq (h : E.Good) (x : ZMod p) :
    leftVec E.par.mat x = .ok ((List.range E.par.mat.rows).map (E.leftAt x)) :=
  leftVec_spec h.mat x

theorem leftPoly_spec (h : E.Good) (A : E.ringQ.Lawful) (x : ZMod p) (k : Nat) :
    ∃ t, encodePoly E.par.enc E.ringQ [E.leftAt x k] = .ok t ∧
      A.val t = toR E.ringQ.qs E.ringQ.N (E.leftInt x k) :=
  encodePoly_spec A h.enc h.deg _ (by have := h.enc.slots_pos; simpa using this)

theorem consistency_spec (h : E.Good) (A : E.ringQ.Lawful) {com : List (List T')} {y : List (ZMod p)}
    {pf : JProof T T'} (hs : Shape E com y pf) {cs : List T} (hcl : cs.length = E.par.mat.cols)
    (x : ZMod p) :
    ∃ t, E.consistency x cs pf = .ok t ∧ A.val t =
      ∑ k ∈ range E.par.mat.rows, toR E.ringQ.qs E.ringQ.N (E.leftInt x k) *
        A.val (pf.encode.getD k 0) -
      ∑ j ∈ range E.par.mat.cols, A.val (cs.getD j 0) * A.val (pf.parts.getD j 0) -
      A.val pf.partMask := by
  choose lp hl1 hl2 using leftPoly_spec h A x
  unfold consistency
  rw [leftVec_eq h x, go_bind_ok,
    accLoop_ok _ _ _ (fun k => E.ringQ.mul (lp k) (pf.encode.getD k 0)) (by
      intro k hk
      rw [idx_getD (by simpa using hk) 0, go_bind_ok, getD_map_range _ _ _ _ hk, hl1, go_bind_ok,
        idx_getD (by rw [hs.encode]; exact hk) 0, go_bind_ok, go_pure]), go_bind_ok,
    subLoop_ok _ _ _ (fun j => E.ringQ.mul (cs.getD j 0) (pf.parts.getD j 0)) (by
      intro j hj
      rw [idx_getD (by omega) 0, go_bind_ok, idx_getD (by rw [hs.parts]; exact hj) 0, go_bind_ok,
        go_pure]), go_bind_ok, go_pure]
  refine ⟨_, rfl, ?_⟩
  simp only [map_sub, map_sum, zero_add, A.val_mul, hl2]

/-! ## Evaluation -/

theorem decodePoly_of (h : E.Good) {t : T} {z : List Int}
    (hz : reconstructTo E.ringQ.qs (E.ringQ.unload t) = .ok z) (hl : z.length = E.ringQ.N) :
    E.decodePoly (E.ringQ.unload t) = .ok (decoded p E.par.enc z) := by
  unfold decodePoly
  rw [hz, go_bind_ok]
  exact decodeTo_spec _ _ _ (by simp) (by rw [hl, h.deg, h.enc.deg])

theorem chalInt_range (h : E.Good) (bytes : List (BitVec 8)) :
    ∀ c ∈ chalInt E.par.enc bytes, 2 * |c| ≤ challengeBound E.par.enc.ecd := by
  intro c hc
  unfold chalInt at hc
  obtain ⟨t, -, rfl⟩ := List.mem_map.mp hc
  split
  · have := centred_range (Nat.mod_lt (chalNum bytes / challengeBound E.par.enc.ecd ^ (t / E.par.enc.slots))
      (show challengeBound E.par.enc.ecd > 0 from h.chal))
    rcases abs_cases (centred (challengeBound E.par.enc.ecd)
      (chalNum bytes / challengeBound E.par.enc.ecd ^ (t / E.par.enc.slots) %
        challengeBound E.par.enc.ecd)) with h1 | h1 <;> omega
  · simp

theorem Good.chal_lt (h : E.Good) (A : E.ringQ.Lawful) :
    challengeBound E.par.enc.ecd + 1 < E.ringQ.qs.prod := by
  obtain ⟨q, hq⟩ := List.exists_mem_of_ne_nil _ A.chain.ne
  have := h.chalQ q hq
  have := le_prod' A.chain.one hq
  omega

theorem decoded_one (h : E.Good) : (decoded p E.par.enc [1]).getD 0 0 = 1 := by
  unfold decoded
  rw [getD_map_range _ _ _ _ h.enc.slots_pos]
  obtain ⟨m, hm⟩ : ∃ m, E.par.enc.ecd.exp = m + 1 := ⟨E.par.enc.ecd.exp - 1, by
    have := h.enc.exp_pos; omega⟩
  rw [hm, sum_range_succ', sum_eq_zero]
  · simp
  · intro j _
    rw [List.getD_eq_default [1] _ (by
      have := Nat.mul_le_mul_left (j + 1) h.enc.slots_pos
      simp; omega)]
    simp

theorem batchEval_spec (h : E.Good) (A : E.ringQ.Lawful) (A' : E.ringQ'.Lawful) {x : ZMod p}
    {com : List (List T')} {bb : List T × List T'} (hb : Batch E A A' x com bb)
    (y : List (ZMod p)) (hy : y.length = E.par.batch) :
    E.batchEval bb.1 y = .ok (∑ i ∈ range E.par.batch,
      (decoded p E.par.enc (E.betInt x com i)).getD 0 0 * y.getD i 0) := by
  unfold batchEval
  by_cases hb1 : E.par.batch > 1
  · rw [if_pos hb1, accLoop_ok _ _ _ (fun i =>
      (decoded p E.par.enc (E.betInt x com i)).getD 0 0 * y.getD i 0) (by
      intro i hi
      have hr : reconstructTo E.ringQ.qs (E.ringQ.unload (bb.1.getD i 0)) = .ok (E.betInt x com i) := by
        have hv := hb.val hb1 i hi
        unfold betInt at hv ⊢
        rw [if_pos hb1] at hv ⊢
        refine A.reconstruct_eq (by rw [chalInt_length, h.deg]) hv ?_
        intro c hc
        have h1 := chalInt_range h _ c hc
        have h2 := h.chal_lt A
        have h5 := neg_abs_le c
        have h6 := le_abs_self c
        omega
      rw [idx_getD (by rw [hb.len hb1]; exact hi) 0, go_bind_ok, decodePoly_of h hr (by
          unfold betInt; rw [if_pos hb1, chalInt_length, h.deg]), go_bind_ok,
        idx_getD (by rw [decoded_length]; exact h.enc.slots_pos) 0, go_bind_ok,
        idx_getD (by omega) 0, go_bind_ok, go_pure]), zero_add]
  · obtain ⟨h1, h2⟩ := batch_one h hb1 x com
    rw [if_neg hb1, idx_getD (by omega) 0, h1, sum_range_one, h2, decoded_one h, one_mul]

theorem partsEval_of (h : E.Good) {com : List (List T')} {y : List (ZMod p)} {pf : JProof T T'}
    (hs : Shape E com y pf) (x : ZMod p) (z : Nat → List Int)
    (hz : ∀ j < E.par.mat.cols, (z j).length = E.ringQ.N ∧
      reconstructTo E.ringQ.qs (E.ringQ.unload (pf.parts.getD j 0)) = .ok (z j)) :
    E.partsEval x (pf.parts.map E.ringQ.unload) = .ok (∑ j ∈ range E.par.mat.cols,
      ∑ s ∈ range E.par.mat.slots, x ^ (j * E.par.mat.slots + s) *
        (decoded p E.par.enc (z j)).getD s 0) := by
  unfold partsEval
  rw [rightVec_spec h.mat x, go_bind_ok, accLoop_ok _ _ _ (fun j =>
      ∑ s ∈ range E.par.mat.slots, x ^ (j * E.par.mat.slots + s) *
        (decoded p E.par.enc (z j)).getD s 0) (by
    intro j hj
    have hj' : j < pf.parts.length := by rw [hs.parts]; exact hj
    rw [idx_getD (by simpa using hj') [], go_bind_ok]
    have : (pf.parts.map E.ringQ.unload).getD j [] = E.ringQ.unload (pf.parts.getD j 0) := by
      rw [List.getD_eq_getElem _ _ (by simpa using hj'), List.getD_eq_getElem _ _ hj',
        List.getElem_map]
    rw [this, decodePoly_of h (hz j hj).2 (hz j hj).1, go_bind_ok, accLoop_ok _ _ _ (fun s =>
      x ^ (j * E.par.mat.slots + s) * (decoded p E.par.enc (z j)).getD s 0) (by
      intro s hs'
      have hlt : j * E.par.mat.slots + s < E.par.mat.cols * E.par.mat.slots := by
        have := Nat.mul_le_mul_right E.par.mat.slots hj
        rw [Nat.succ_mul] at this
        omega
      rw [idx_getD (by simpa using hlt) 0, go_bind_ok, getD_map_range _ _ _ _ hlt,
        idx_getD (by rw [decoded_length, ← h.slots]; exact hs') 0, go_bind_ok, go_pure]), zero_add]),
    zero_add]

/-! ## All of it -/

theorem verify_comp [DecidableEq T] {x : ZMod p} {com : List (List T')} {y : List (ZMod p)}
    {pf : JProof T T'} (hs : Shape E com y pf) {bb : List T × List T'} {cs : List T} {b1 b2 b4 : Bool}
    {t : T} (hbb : E.batchChals x com = .ok bb)
    (hcs : E.colChals x com pf.parts pf.partMask = .ok cs)
    (h1 : E.verifyOuter bb.2 com pf (pf.inCommit.map E.ringQ'.unload) = .ok b1)
    (h2 : E.verifyInner cs pf (pf.inCommit.map E.ringQ'.unload) (pf.encode.map E.ringQ.unload)
        (pf.mlwe.map E.ringQ.unload) = .ok b2)
    (h3 : E.consistency x cs pf = .ok t)
    (h4 : E.verifyEval x bb.1 y (pf.parts.map E.ringQ.unload) = .ok b4) :
    E.verify x com y pf = .ok (b1 && b2 && decide (t = 0) && b4) := by
  unfold verify
  rw [if_neg (by rw [hs.comLen, hs.yLen]; simp), hbb, go_bind_ok, hcs, go_bind_ok,
    unloadTo_ok _ _ _ _ hs.parts, go_bind_ok, unloadTo_ok _ _ _ _ hs.encode, go_bind_ok,
    unloadTo_ok _ _ _ _ hs.mlwe, go_bind_ok, unloadTo_ok _ _ _ _ hs.inCommit, go_bind_ok, h1,
    go_bind_ok]
  cases b1
  · rfl
  · simp only [Bool.not_true, Bool.false_eq_true, if_false]
    rw [h2, go_bind_ok]
    cases b2
    · rfl
    · simp only [Bool.not_true, Bool.false_eq_true, if_false]
      rw [h3, go_bind_ok]
      by_cases ht : t = 0
      · rw [if_neg (by simpa using ht), h4]; simp [ht]
      · rw [if_pos ht, go_pure]; simp [ht]

/-! ## Acceptance implies the shape -/

theorem loop_ok_inv {U : Type} (n : Nat) (init : U) (g : U → U → U) (f : Nat → Go U) (r : U)
    (h : forRange 0 n 1 init (fun acc k => do
      let t ← f k
      pure (g acc t)) = .ok r) : ∀ k < n, ∃ a, f k = .ok a := by
  rw [forRange_one] at h
  have : ∀ (l : List Nat) (init : U), l.foldlM (fun acc k => do
      let t ← f k
      pure (g acc t)) init = .ok r → ∀ k ∈ l, ∃ a, f k = .ok a := by
    intro l
    induction l with
    | nil => intro _ _ k hk; simp at hk
    | cons a l ih =>
      intro init h k hk
      rw [List.foldlM_cons] at h
      obtain ⟨s, h1, h2⟩ := bind_ok_inv h
      obtain ⟨b, h3, -⟩ := bind_ok_inv h1
      rcases List.mem_cons.mp hk with rfl | hk
      · exact ⟨b, h3⟩
      · exact ih s h2 k hk
  intro k hk
  exact this _ _ h k (by simpa using hk)

theorem accLoop_inv {U : Type} [AddCommGroup U] {n : Nat} {init : U} {f : Nat → Go U} {r : U}
    (h : accLoop n init f = .ok r) : ∀ k < n, ∃ a, f k = .ok a :=
  loop_ok_inv n init (· + ·) f r h

theorem subLoop_inv {U : Type} [AddCommGroup U] {n : Nat} {init : U} {f : Nat → Go U} {r : U}
    (h : subLoop n init f = .ok r) : ∀ k < n, ∃ a, f k = .ok a :=
  loop_ok_inv n init (· - ·) f r h

theorem idx_lt {α : Type} {l : List α} {i : Nat} {a : α} (h : idx l i = .ok a) : i < l.length := by
  by_contra h1
  rw [idx_panic (by omega)] at h
  cases h

theorem unloadTo_inv {U : Type} {L : LRing U} {n : Nat} {l : List U} {zero : List (List Nat)} {r}
    (h : unloadTo L n l zero = .ok r) : l.length ≤ n := by
  unfold unloadTo at h
  split at h
  · cases h
  · omega

theorem mapM_range_inv {α : Type} {n : Nat} {f : Nat → Go α} {r : List α}
    (h : (List.range n).mapM f = .ok r) : ∀ k < n, ∃ a, f k = .ok a := by
  intro k hk
  obtain ⟨a, h1, -⟩ := (mapM_ok_inv f _ r h).2 k k (by simp [hk])
  exact ⟨a, h1⟩

/-- `Verify` checks no lengths of the proof, but panics for others before it can accept. -/
theorem verify_shape [DecidableEq T] (h : E.Good) {x : ZMod p} {com : List (List T')}
    {y : List (ZMod p)} {pf : JProof T T'} (hv : E.verify x com y pf = .ok true) :
    Shape E com y pf := by
  unfold verify at hv
  split at hv
  · cases hv
  rename_i hl
  rw [not_or, not_not, not_not] at hl
  obtain ⟨bb, hbb, hv⟩ := bind_ok_inv hv
  obtain ⟨cs, hcs, hv⟩ := bind_ok_inv hv
  obtain ⟨i1, h1, hv⟩ := bind_ok_inv hv
  obtain ⟨i2, h2, hv⟩ := bind_ok_inv hv
  obtain ⟨i3, h3, hv⟩ := bind_ok_inv hv
  obtain ⟨i4, h4, hv⟩ := bind_ok_inv hv
  obtain ⟨b1, h5, hv⟩ := bind_ok_inv hv
  cases b1 with
  | false => cases hv
  | true =>
  simp only [Bool.not_true, Bool.false_eq_true, if_false] at hv
  obtain ⟨b2, h6, hv⟩ := bind_ok_inv hv
  cases b2 with
  | false => cases hv
  | true =>
  simp only [Bool.not_true, Bool.false_eq_true, if_false] at hv
  obtain ⟨t, h7, -⟩ := bind_ok_inv hv
  have hout := h.outRank
  have hin := h.inRank
  have hbat := h.batch
  unfold verifyOuter at h5
  obtain ⟨cut, h8, -⟩ := bind_ok_inv h5
  unfold verifyInner at h6
  obtain ⟨cut', h9, -⟩ := bind_ok_inv h6
  obtain ⟨c0, h10⟩ := mapM_range_inv h9 0 (by omega)
  unfold innerCut at h10
  obtain ⟨_, -, h10⟩ := bind_ok_inv h10
  obtain ⟨_, h11, h10⟩ := bind_ok_inv h10
  obtain ⟨_, -, h10⟩ := bind_ok_inv h10
  have hml : pf.mlwe.length = E.par.mlweRank + E.par.inRank := by
    refine le_antisymm (unloadTo_inv h3) ?_
    obtain ⟨c0, h10⟩ := mapM_range_inv h9 (E.par.inRank - 1) (by omega)
    unfold innerCut at h10
    obtain ⟨_, -, h10⟩ := bind_ok_inv h10
    obtain ⟨_, -, h10⟩ := bind_ok_inv h10
    obtain ⟨_, -, h10⟩ := bind_ok_inv h10
    obtain ⟨_, h12, -⟩ := bind_ok_inv h10
    have h12 := idx_lt h12
    omega
  refine ⟨hl.1, ?_, hl.2, le_antisymm (unloadTo_inv h4) ?_, le_antisymm (unloadTo_inv h1) ?_,
    le_antisymm (unloadTo_inv h2) ?_, hml⟩
  · intro c hc
    obtain ⟨c1, h13⟩ := mapM_range_inv h8 (E.par.outRank - 1) (by omega)
    unfold outerCut at h13
    obtain ⟨_, h14, -⟩ := bind_ok_inv h13
    obtain ⟨i, hi, rfl⟩ := List.getElem_of_mem hc
    have h15 : ∃ a, idxIdx com i (E.par.outRank - 1) = .ok a := by
      unfold batchCom at h14
      split at h14
      · obtain ⟨a, h15⟩ := accLoop_inv h14 i (by omega)
        obtain ⟨b, h16, -⟩ := bind_ok_inv h15
        exact ⟨b, h16⟩
      · obtain rfl : i = 0 := by omega
        exact ⟨_, h14⟩
    obtain ⟨a, h15⟩ := h15
    unfold idxIdx at h15
    rw [idx_ok hi, go_bind_ok] at h15
    have := idx_lt h15
    omega
  · by_contra hlt
    obtain ⟨c1, h13⟩ := mapM_range_inv h8 0 (by omega)
    unfold outerCut at h13
    obtain ⟨_, -, h14⟩ := bind_ok_inv h13
    obtain ⟨a, h15⟩ := subLoop_inv h14 pf.inCommit.length (by omega)
    obtain ⟨_, -, h15⟩ := bind_ok_inv h15
    obtain ⟨_, h15, -⟩ := bind_ok_inv h15
    have := idx_lt h15
    omega
  · by_contra hlt
    unfold consistency at h7
    obtain ⟨_, -, h7⟩ := bind_ok_inv h7
    obtain ⟨_, -, h7⟩ := bind_ok_inv h7
    obtain ⟨_, h7, -⟩ := bind_ok_inv h7
    obtain ⟨a, h15⟩ := subLoop_inv h7 pf.parts.length (by omega)
    obtain ⟨_, -, h15⟩ := bind_ok_inv h15
    obtain ⟨_, h15, -⟩ := bind_ok_inv h15
    have := idx_lt h15
    omega
  · by_contra hlt
    obtain ⟨a, h15⟩ := subLoop_inv h11 pf.encode.length (by omega)
    obtain ⟨_, -, h15⟩ := bind_ok_inv h15
    obtain ⟨_, h15, -⟩ := bind_ok_inv h15
    have := idx_lt h15
    omega

/-! ## Integers behind lists -/

theorem forall₂_fun {U V : Type} [Zero U] [Inhabited V] {R : U → V → Prop} {l : List U} {zs : List V} {n : Nat}
    (hn : l.length = n) (h : List.Forall₂ R l zs) :
    ∃ f : Nat → V, zs = (List.range n).map f ∧ ∀ i < n, R (l.getD i 0) (f i) := by
  have hl := h.length_eq
  refine ⟨fun i => zs.getD i default, ?_, ?_⟩
  · apply List.ext_getElem (by simp; omega)
    intro i h1 h2
    rw [List.getElem_map, List.getElem_range, List.getD_eq_getElem _ _ h1]
  · intro i hi
    dsimp only
    rw [List.getD_eq_getElem _ _ (by omega), List.getD_eq_getElem _ _ (by omega)]
    exact h.get (by omega) (by omega)

theorem fun_forall₂ {U V : Type} [Zero U] {R : U → V → Prop} {l : List U} {n : Nat}
    (hn : l.length = n) (f : Nat → V) (h : ∀ i < n, R (l.getD i 0) (f i)) :
    List.Forall₂ R l ((List.range n).map f) := by
  rw [List.forall₂_iff_get]
  refine ⟨by simp [hn], ?_⟩
  intro i h1 h2
  have := h i (by omega)
  rw [List.getD_eq_getElem _ _ h1] at this
  simpa using this

theorem forall₂_append_inv {U V : Type} {R : U → V → Prop} {l₁ l₂ : List U} {zs : List V}
    (h : List.Forall₂ R (l₁ ++ l₂) zs) :
    ∃ z₁ z₂, zs = z₁ ++ z₂ ∧ List.Forall₂ R l₁ z₁ ∧ List.Forall₂ R l₂ z₂ := by
  induction l₁ generalizing zs with
  | nil => exact ⟨[], zs, rfl, .nil, h⟩
  | cons a l ih =>
    cases h with
    | cons h1 h2 =>
      obtain ⟨z₁, z₂, rfl, h3, h4⟩ := ih h2
      exact ⟨_ :: z₁, z₂, rfl, .cons h1 h3, h4⟩

/-! ## Acceptance -/

theorem verify_sound [DecidableEq T] (h : E.Good) (A : E.ringQ.Lawful) (A' : E.ringQ'.Lawful)
    {x : ZMod p} {com : List (List T')} {y : List (ZMod p)} {pf : JProof T T'}
    (hv : E.verify x com y pf = .ok true) : ∃ W : JWit, Accepted E A A' x com y pf W ∧
      ∀ j < E.par.mat.cols, ∀ c ∈ W.f j, RepRange E.ringQ.qs c := by
  have hs := verify_shape h hv
  obtain ⟨bb, hbb, hB⟩ := batchChals_spec h A A' x com
  obtain ⟨cs, hcs, hcl, hcv⟩ := colChals_spec h A x com pf.parts pf.partMask
  obtain ⟨cut, o1, o2, o3⟩ := verifyOuter_spec h A A' hB hs
  obtain ⟨zo, o4, o5⟩ := verifyNorm_sound (E := E) A' (pf.inCommit ++ cut) E.par.dcmpNm
  rw [o5] at o3
  obtain ⟨cutI, n1, n2, n3⟩ := verifyInner_spec h A hs hcl
  obtain ⟨zi, n4, n5⟩ := verifyNorm_sound (E := E) A (pf.encode ++ pf.mlwe ++ cutI) E.par.resNm
  rw [n5] at n3
  obtain ⟨ct, c1, c2⟩ := consistency_spec h A hs hcl x
  have hrec : ∀ j, ∃ z, z.length = E.ringQ.N ∧
      reconstructTo E.ringQ.qs (E.ringQ.unload (pf.parts.getD j 0)) = .ok z ∧
      A.val (pf.parts.getD j 0) = toR E.ringQ.qs E.ringQ.N z ∧
      ∀ c ∈ z, RepRange E.ringQ.qs c := by
    intro j
    obtain ⟨z, h1, h2, h3⟩ := A.exists_reps (pf.parts.getD j 0)
    exact ⟨z, h1, A.reconstruct_rep h1 h2 h3, h2, h3⟩
  choose f f1 f2 f3 f4 using hrec
  have e1 := partsEval_of h hs x f (fun j _ => ⟨f1 j, f2 j⟩)
  have e2 := batchEval_spec h A A' hB y hs.yLen
  have e3 : E.verifyEval x bb.1 y (pf.parts.map E.ringQ.unload) = .ok (decide
      (∑ j ∈ range E.par.mat.cols, ∑ s ∈ range E.par.mat.slots, x ^ (j * E.par.mat.slots + s) *
        (decoded p E.par.enc (f j)).getD s 0 =
      ∑ i ∈ range E.par.batch, (decoded p E.par.enc (E.betInt x com i)).getD 0 0 * y.getD i 0)) := by
    unfold verifyEval
    rw [e2, go_bind_ok, e1, go_bind_ok]; rfl
  rw [verify_comp hs hbb hcs o3 n3 c1 e3] at hv
  injection hv with hv
  simp only [Bool.and_eq_true, decide_eq_true_eq] at hv
  obtain ⟨⟨⟨v1, v2⟩, v3⟩, v4⟩ := hv
  obtain ⟨zt, zs, rfl, r1, r2⟩ := forall₂_append_inv o4
  obtain ⟨zem, zu, rfl, r3, r4⟩ := forall₂_append_inv n4
  obtain ⟨ze, zm, rfl, r5, r6⟩ := forall₂_append_inv r3
  obtain ⟨t, rfl, t1⟩ := forall₂_fun hs.inCommit r1
  obtain ⟨s, rfl, s1⟩ := forall₂_fun o1 r2
  obtain ⟨e, rfl, e1'⟩ := forall₂_fun hs.encode r5
  obtain ⟨m, rfl, m1⟩ := forall₂_fun hs.mlwe r6
  obtain ⟨u, rfl, u1⟩ := forall₂_fun n1 r4
  have hidx : ∀ j ≤ E.par.mat.cols, ∀ k < E.par.inRank, j * E.par.inRank + k < E.par.dcmpLen := by
    intro j hj k hk
    rw [h.dcmp]
    have := Nat.mul_le_mul_right E.par.inRank hj
    rw [Nat.succ_mul]
    omega
  have hlift : ∀ l < E.par.dcmpLen, lifted E A pf l = toR E.ringQ.qs E.ringQ.N (t l) := by
    intro l hl
    apply lifted_eq h A A' pf l (t l) (t1 l hl)
    intro c hc
    have := range_of_norm h.mono h.dcmpNm v1 (z := t l)
      (by simp only [List.mem_append, List.mem_map, List.mem_range]; exact .inl ⟨l, hl, rfl⟩) hc
    omega
  refine ⟨⟨t, s, e, m, u, f⟩, ⟨hs, t1, fun k hk => (s1 k hk).1, e1', m1, fun k hk => (u1 k hk).1,
    fun j _ => ⟨f1 j, f3 j⟩, ?_, v1, ?_, v2, ?_, v4⟩, fun j _ => f4 j⟩
  · intro k hk
    have h1 := o2 k hk
    rw [(s1 k hk).2] at h1
    rw [← sub_eq_iff_eq_add', h1]
    congr 1
    apply sum_congr rfl
    intro l hl
    rw [(t1 l (mem_range.mp hl)).2]
  · intro k hk
    have h1 := n2 k hk
    rw [(u1 k hk).2, (m1 _ (show E.par.mlweRank + k < _ by omega)).2,
      hlift _ (hidx _ le_rfl k hk)] at h1
    have s1 : ∑ j ∈ range E.par.mat.cols, A.val (cs.getD j 0) * lifted E A pf (j * E.par.inRank + k) =
        ∑ j ∈ range E.par.mat.cols, toR E.ringQ.qs E.ringQ.N
          (E.gamInt x com pf.parts pf.partMask j) *
          toR E.ringQ.qs E.ringQ.N (t (j * E.par.inRank + k)) := by
      apply sum_congr rfl
      intro j hj
      have hj := mem_range.mp hj
      rw [hcv j hj, hlift _ (hidx j hj.le k hk)]
    have s2 : ∑ l ∈ range E.par.mat.rows, A.val (at2 E.key.inn k l) * A.val (pf.encode.getD l 0) =
        ∑ l ∈ range E.par.mat.rows, A.val (at2 E.key.inn k l) * toR E.ringQ.qs E.ringQ.N (e l) :=
      sum_congr rfl (fun l hl => by rw [(e1' l (mem_range.mp hl)).2])
    have s3 : ∑ l ∈ range E.par.mlweRank, A.val (at2 E.key.mlwe k l) * A.val (pf.mlwe.getD l 0) =
        ∑ l ∈ range E.par.mlweRank, A.val (at2 E.key.mlwe k l) * toR E.ringQ.qs E.ringQ.N (m l) :=
      sum_congr rfl (fun l hl => by
        have := mem_range.mp hl
        rw [(m1 l (by omega)).2])
    rw [s1, s2, s3] at h1
    dsimp only
    rw [h1]
    ring
  · rw [v3, map_zero] at c2
    have s1 : ∑ k ∈ range E.par.mat.rows, toR E.ringQ.qs E.ringQ.N (E.leftInt x k) *
        A.val (pf.encode.getD k 0) = ∑ k ∈ range E.par.mat.rows,
        toR E.ringQ.qs E.ringQ.N (E.leftInt x k) * toR E.ringQ.qs E.ringQ.N (e k) :=
      sum_congr rfl (fun l hl => by rw [(e1' l (mem_range.mp hl)).2])
    have s2 : ∑ j ∈ range E.par.mat.cols, A.val (cs.getD j 0) * A.val (pf.parts.getD j 0) =
        ∑ j ∈ range E.par.mat.cols, toR E.ringQ.qs E.ringQ.N
          (E.gamInt x com pf.parts pf.partMask j) * toR E.ringQ.qs E.ringQ.N (f j) :=
      sum_congr rfl (fun j hj => by rw [hcv j (mem_range.mp hj), f3])
    rw [s1, s2] at c2
    dsimp only
    linear_combination -c2

theorem verify_complete [DecidableEq T] (h : E.Good) (A : E.ringQ.Lawful) (A' : E.ringQ'.Lawful)
    {x : ZMod p} {com : List (List T')} {y : List (ZMod p)} {pf : JProof T T'} (W : JWit)
    (hW : Accepted E A A' x com y pf W)
    (hr : ∀ j < E.par.mat.cols, ∀ c ∈ W.f j, RepRange E.ringQ.qs c) :
    E.verify x com y pf = .ok true := by
  have hs := hW.shape
  obtain ⟨bb, hbb, hB⟩ := batchChals_spec h A A' x com
  obtain ⟨cs, hcs, hcl, hcv⟩ := colChals_spec h A x com pf.parts pf.partMask
  obtain ⟨cut, o1, o2, o3⟩ := verifyOuter_spec h A A' hB hs
  obtain ⟨cutI, n1, n2, n3⟩ := verifyInner_spec h A hs hcl
  obtain ⟨ct, c1, c2⟩ := consistency_spec h A hs hcl x
  have hidx : ∀ j ≤ E.par.mat.cols, ∀ k < E.par.inRank, j * E.par.inRank + k < E.par.dcmpLen := by
    intro j hj k hk
    rw [h.dcmp]
    have := Nat.mul_le_mul_right E.par.inRank hj
    rw [Nat.succ_mul]
    omega
  have hlift : ∀ l < E.par.dcmpLen, lifted E A pf l = toR E.ringQ.qs E.ringQ.N (W.t l) := by
    intro l hl
    apply lifted_eq h A A' pf l (W.t l) (hW.inCommit l hl)
    intro c hc
    have := range_of_norm h.mono h.dcmpNm hW.outerNorm (z := W.t l)
      (by simp only [List.mem_append, List.mem_map, List.mem_range]; exact .inl ⟨l, hl, rfl⟩) hc
    omega
  have b1 : E.verifyOuter bb.2 com pf (pf.inCommit.map E.ringQ'.unload) = .ok true := by
    rw [o3]
    refine verifyNorm_complete h.mono A' h.dcmpNm _ _ ?_ hW.outerNorm
    refine List.rel_append (fun_forall₂ hs.inCommit _ hW.inCommit) (fun_forall₂ o1 _ ?_)
    intro k hk
    refine ⟨hW.sLen k hk, ?_⟩
    rw [o2 k hk, hW.outer k hk, sub_eq_iff_eq_add']
    congr 1
    apply sum_congr rfl
    intro l hl
    rw [(hW.inCommit l (mem_range.mp hl)).2]
  have b2 : E.verifyInner cs pf (pf.inCommit.map E.ringQ'.unload) (pf.encode.map E.ringQ.unload)
        (pf.mlwe.map E.ringQ.unload) = .ok true := by
    rw [n3]
    refine verifyNorm_complete h.mono A h.resNm _ _ ?_ hW.innerNorm
    refine List.rel_append (List.rel_append (fun_forall₂ hs.encode _ hW.encode)
      (fun_forall₂ hs.mlwe _ hW.mlwe)) (fun_forall₂ n1 _ ?_)
    intro k hk
    refine ⟨hW.uLen k hk, ?_⟩
    have h1 := n2 k hk
    rw [(hW.mlwe _ (show E.par.mlweRank + k < _ by omega)).2, hlift _ (hidx _ le_rfl k hk)] at h1
    have s1 : ∑ j ∈ range E.par.mat.cols, A.val (cs.getD j 0) * lifted E A pf (j * E.par.inRank + k) =
        ∑ j ∈ range E.par.mat.cols, toR E.ringQ.qs E.ringQ.N
          (E.gamInt x com pf.parts pf.partMask j) *
          toR E.ringQ.qs E.ringQ.N (W.t (j * E.par.inRank + k)) := by
      apply sum_congr rfl
      intro j hj
      have hj := mem_range.mp hj
      rw [hcv j hj, hlift _ (hidx j hj.le k hk)]
    have s2 : ∑ l ∈ range E.par.mat.rows, A.val (at2 E.key.inn k l) * A.val (pf.encode.getD l 0) =
        ∑ l ∈ range E.par.mat.rows, A.val (at2 E.key.inn k l) * toR E.ringQ.qs E.ringQ.N (W.e l) :=
      sum_congr rfl (fun l hl => by rw [(hW.encode l (mem_range.mp hl)).2])
    have s3 : ∑ l ∈ range E.par.mlweRank, A.val (at2 E.key.mlwe k l) * A.val (pf.mlwe.getD l 0) =
        ∑ l ∈ range E.par.mlweRank, A.val (at2 E.key.mlwe k l) * toR E.ringQ.qs E.ringQ.N (W.m l) :=
      sum_congr rfl (fun l hl => by
        have := mem_range.mp hl
        rw [(hW.mlwe l (by omega)).2])
    rw [h1, s1, s2, s3, hW.inner k hk]
    ring
  have b3 : ct = 0 := by
    apply A.val.injective
    have s1 : ∑ k ∈ range E.par.mat.rows, toR E.ringQ.qs E.ringQ.N (E.leftInt x k) *
        A.val (pf.encode.getD k 0) = ∑ k ∈ range E.par.mat.rows,
        toR E.ringQ.qs E.ringQ.N (E.leftInt x k) * toR E.ringQ.qs E.ringQ.N (W.e k) :=
      sum_congr rfl (fun l hl => by rw [(hW.encode l (mem_range.mp hl)).2])
    have s2 : ∑ j ∈ range E.par.mat.cols, A.val (cs.getD j 0) * A.val (pf.parts.getD j 0) =
        ∑ j ∈ range E.par.mat.cols, toR E.ringQ.qs E.ringQ.N
          (E.gamInt x com pf.parts pf.partMask j) * toR E.ringQ.qs E.ringQ.N (W.f j) :=
      sum_congr rfl (fun j hj => by
        rw [hcv j (mem_range.mp hj), (hW.parts j (mem_range.mp hj)).2])
    rw [c2, s1, s2, hW.consistent, map_zero]
    ring
  have e1 := partsEval_of h hs x W.f (fun j hj => ⟨(hW.parts j hj).1,
    A.reconstruct_rep (hW.parts j hj).1 (hW.parts j hj).2 (hr j hj)⟩)
  have e2 := batchEval_spec h A A' hB y hs.yLen
  have e3 : E.verifyEval x bb.1 y (pf.parts.map E.ringQ.unload) = .ok true := by
    unfold verifyEval
    rw [e2, go_bind_ok, e1, go_bind_ok, decide_eq_true hW.eval]; rfl
  rw [verify_comp hs hbb hcs b1 b2 c1 e3, b3]
  simp

end JEnv

end Ringo
