import Verif.Props.JProto

/-!
# C78: the evaluation is bound to the commitment

False whenever `ChallengeBound` is one, that is, for exponents from 61 to 120 (`C60_refuted`): all
challenges are zero then.
-/

namespace Ringo

open Finset

set_option linter.unusedSectionVars false

variable {p : Nat} {T T' : Type} [AddCommGroup T] [AddCommGroup T']

theorem chalInt_one {P : EncParams} (h : challengeBound P.ecd = 1) (bytes : List (BitVec 8)) :
    chalInt P bytes = List.replicate P.N 0 := by
  unfold chalInt
  rw [h, List.eq_replicate_iff]
  refine ⟨by simp, ?_⟩
  intro c hc
  obtain ⟨t, -, rfl⟩ := List.mem_map.mp hc
  simp [centred, Nat.mod_one]

theorem getD_rep_zero {U : Type} [Zero U] (n k : Nat) : (List.replicate n (0 : U)).getD k 0 = 0 := by
  rw [List.getD_eq_getElem?_getD, List.getElem?_replicate]
  split <;> rfl

/-- **C78** is false if the challenge bound is one: from any accepted proof of an evaluation at `x`
one obtains a proof, of the same commitments, of any other evaluation `y` at `x`. -/
theorem C78_refuted [DecidableEq T] (E : JEnv p T T') (h : E.Good) (A : E.ringQ.Lawful)
    (A' : E.ringQ'.Lawful) (hB : challengeBound E.par.enc.ecd = 1)
    (hQ : 2 * E.par.enc.ecd.base + 1 < E.ringQ.qs.prod) (x : ZMod p) (com : List (List T'))
    (y0 : List (ZMod p)) (pf : JProof T T') (hv : E.verify x com y0 pf = .ok true)
    (y : List (ZMod p)) (hy : y.length = E.par.batch) :
    ∃ pf', E.verify x com y pf' = .ok true := by
  obtain ⟨W, hW, -⟩ := JEnv.verify_sound h A A' hv
  have hg : ∀ parts pm j, toR E.ringQ.qs E.ringQ.N (E.gamInt x com parts pm j) = 0 := by
    intro parts pm j
    unfold JEnv.gamInt
    rw [chalInt_one hB, toR_zero]
  obtain ⟨Y, hY⟩ : ∃ Y, Y = ∑ i ∈ range E.par.batch,
    (decoded p E.par.enc (E.betInt x com i)).getD 0 0 * y.getD i 0 := ⟨_, rfl⟩
  obtain ⟨f, hf⟩ : ∃ f : Nat → List Int,
    f = fun j => encInt E.par.enc (if j = 0 then [Y] else []) := ⟨_, rfl⟩
  have hsl := h.enc.slots_pos
  have hflen : ∀ j, (if j = 0 then [Y] else []).length ≤ E.par.enc.slots := by
    intro j; split <;> simp; omega
  obtain ⟨pm, hpm⟩ : ∃ pm, A.val pm = ∑ k ∈ range E.par.mat.rows,
      toR E.ringQ.qs E.ringQ.N (E.leftInt x k) * toR E.ringQ.qs E.ringQ.N (W.e k) :=
    ⟨A.val.symm (∑ k ∈ range E.par.mat.rows,
      toR E.ringQ.qs E.ringQ.N (E.leftInt x k) * toR E.ringQ.qs E.ringQ.N (W.e k)), by simp⟩
  refine ⟨⟨pf.inCommit, (List.range E.par.mat.cols).map fun j =>
    A.val.symm (toR E.ringQ.qs E.ringQ.N (f j)), pm, pf.encode, pf.mlwe⟩, ?_⟩
  apply JEnv.verify_complete h A A' { W with f := f }
  · constructor
    · exact ⟨hW.shape.comLen, hW.shape.comLen2, hy, hW.shape.inCommit, by simp, hW.shape.encode,
        hW.shape.mlwe⟩
    · exact hW.inCommit
    · exact hW.sLen
    · exact hW.encode
    · exact hW.mlwe
    · exact hW.uLen
    · intro j hj
      refine ⟨by rw [hf, encInt_length, h.deg], ?_⟩
      dsimp only
      rw [getD_map_range _ _ _ _ hj]
      simp
    · exact hW.outer
    · exact hW.outerNorm
    · intro k hk
      have := hW.inner k hk
      simp only [hg, zero_mul, sum_const_zero, add_zero] at this ⊢
      exact this
    · exact hW.innerNorm
    · simp only [hg, zero_mul, sum_const_zero, zero_add]
      exact hpm.symm
    · rw [← hY]
      obtain ⟨n, hn⟩ : ∃ n, E.par.mat.cols = n + 1 := ⟨E.par.mat.cols - 1, by
        have := h.mat.cols; omega⟩
      obtain ⟨m, hm⟩ : ∃ m, E.par.mat.slots = m + 1 := ⟨E.par.mat.slots - 1, by
        have := h.mat.slots; omega⟩
      have hd : ∀ j s, (decoded p E.par.enc (f j)).getD s 0 = if j = 0 ∧ s = 0 then Y else 0 := by
        intro j s
        rw [hf]
        dsimp only
        rw [decoded_encInt h.enc _ (hflen j)]
        by_cases hj : j = 0
        · rw [if_pos hj]
          cases s with
          | zero => simp [hj]
          | succ s => simp [hj, List.getElem?_replicate]; split <;> rfl
        · simp [hj, List.getElem?_replicate]; split <;> rfl
      simp only [hd]
      rw [hn, sum_range_succ', sum_eq_zero, hm, sum_range_succ', sum_eq_zero]
      · simp
      · intro s _; simp
      · intro j _
        apply sum_eq_zero
        intro s _; simp
  · intro j hj c hc
    dsimp only at hc
    rw [hf] at hc
    unfold encInt at hc
    obtain ⟨t, -, rfl⟩ := List.mem_map.mp hc
    have h6 := ecdDigit_le h.enc ((if j = 0 then [Y] else []).getD (t % E.par.enc.slots) 0)
      (t / E.par.enc.slots)
    exact .of_lt (by omega) (by omega)

/-- **C78** is false if the challenge bound is one: with a batch of more than one polynomial, a
proof of zeros is accepted for all commitments and all values. -/
theorem C78_refuted_batch [DecidableEq T] (E : JEnv p T T') (h : E.Good) (A : E.ringQ.Lawful)
    (A' : E.ringQ'.Lawful) (hB : challengeBound E.par.enc.ecd = 1) (hb : 2 ≤ E.par.batch)
    (hn : E.toFloat 0 < E.par.dcmpNm) (hn' : E.toFloat 0 < E.par.resNm)
    (x : ZMod p) (com : List (List T')) (hc : com.length = E.par.batch)
    (hc2 : ∀ c ∈ com, c.length = E.par.outRank) (y : List (ZMod p)) (hy : y.length = E.par.batch) :
    E.verify x com y ⟨List.replicate E.par.dcmpLen 0, List.replicate E.par.mat.cols 0, 0,
      List.replicate E.par.mat.rows 0, List.replicate (E.par.mlweRank + E.par.inRank) 0⟩ =
        .ok true := by
  have hg : ∀ parts pm j, toR E.ringQ.qs E.ringQ.N (E.gamInt x com parts pm j) = 0 := by
    intro parts pm j
    unfold JEnv.gamInt
    rw [chalInt_one hB, toR_zero]
  have hbet : ∀ i, E.betInt x com i = List.replicate E.par.enc.N 0 := by
    intro i
    unfold JEnv.betInt
    rw [if_pos (by omega), chalInt_one hB]
  have hz : ∀ n : Nat, jSqSum ((List.range n).map fun _ => List.replicate E.par.enc.N 0) = 0 := by
    intro n
    have := jSqSum_le (zs := (List.range n).map fun _ => List.replicate E.par.enc.N (0 : Int))
      (N := E.par.enc.N) (B := 0) (by simp) (by
        intro z hz c hc
        obtain ⟨k, -, rfl⟩ := List.mem_map.mp hz
        rw [List.eq_of_mem_replicate hc]; simp)
    simpa using this
  apply JEnv.verify_complete h A A' ⟨fun _ => List.replicate E.par.enc.N 0,
    fun _ => List.replicate E.par.enc.N 0, fun _ => List.replicate E.par.enc.N 0,
    fun _ => List.replicate E.par.enc.N 0, fun _ => List.replicate E.par.enc.N 0,
    fun _ => List.replicate E.par.enc.N 0⟩
  · have hrep : ∀ n k, JEnv.Rep A ((List.replicate n (0 : T)).getD k 0)
        (List.replicate E.par.enc.N 0) := by
      intro n k
      refine ⟨by simp [h.deg], ?_⟩
      rw [getD_rep_zero, map_zero, toR_zero]
    constructor
    · exact ⟨hc, fun c hm => (hc2 c hm).ge, hy, by simp, by simp, by simp, by simp⟩
    · intro l _
      refine ⟨by simp [h.deg'], ?_⟩
      dsimp only
      rw [getD_rep_zero, map_zero, toR_zero]
    · intro k _; simp [h.deg']
    · exact fun k _ => hrep _ k
    · exact fun k _ => hrep _ k
    · intro k _; simp [h.deg]
    · exact fun k _ => hrep _ k
    · intro k _
      simp [hbet, toR_zero]
    · dsimp only
      rw [jSqSum_append, hz, hz]
      exact hn
    · intro k _
      simp [toR_zero]
    · dsimp only
      rw [jSqSum_append, jSqSum_append, hz, hz, hz]
      exact hn'
    · simp [toR_zero]
    · simp only [hbet, decoded_zero, mul_zero, zero_mul, sum_const_zero]
  · intro j _ c hc'
    rw [List.eq_of_mem_replicate hc']
    have := A.chain.nontrivial
    exact .of_lt (by omega) (by omega)

end Ringo
