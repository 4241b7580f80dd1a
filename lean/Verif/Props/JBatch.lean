import Verif.Props.JSound

/-!
# C85: a proof is a proof of one vector of values

False for batches of two and more.  The challenges that combine the polynomials of a batch do not depend on the values
claimed for them, and only the combined value is checked.
-/

namespace Ringo

open Finset

set_option linter.unusedSectionVars false

variable {p : Nat} {T T' : Type} [AddCommGroup T] [AddCommGroup T']

/-- **C85, what is bound.**  Given one vector of values for which a proof is accepted, it is accepted for exactly the
vectors with the same combination by the batching challenges. -/
theorem C85_values [DecidableEq T] (E : JEnv p T T') (h : E.Good) (A : E.ringQ.Lawful) (A' : E.ringQ'.Lawful)
    (x : ZMod p) (com : List (List T')) (y : List (ZMod p)) (pf : JProof T T') (hv : E.verify x com y pf = .ok true)
    (y' : List (ZMod p)) :
    E.verify x com y' pf = .ok true ↔ y'.length = E.par.batch ∧
      ∑ i ∈ range E.par.batch, (decoded p E.par.enc (E.betInt x com i)).getD 0 0 * y'.getD i 0 =
      ∑ i ∈ range E.par.batch, (decoded p E.par.enc (E.betInt x com i)).getD 0 0 * y.getD i 0 := by
  obtain ⟨W, hW, hr⟩ := JEnv.verify_sound h A A' hv
  constructor
  · intro hv'
    obtain ⟨W', hW', hr'⟩ := JEnv.verify_sound h A A' hv'
    refine ⟨hW'.shape.yLen, ?_⟩
    rw [← hW.eval, ← hW'.eval]
    apply sum_congr rfl
    intro j hj
    have hj := mem_range.1 hj
    have : W'.f j = W.f j := reps_unique A.chain A.pos (hW'.parts j hj).1 (hW.parts j hj).1
      ((hW'.parts j hj).2.symm.trans (hW.parts j hj).2) (hr' j hj) (hr j hj)
    rw [this]
  · rintro ⟨hl, he⟩
    apply JEnv.verify_complete h A A' W _ hr
    exact { hW with
      shape := { hW.shape with yLen := hl }
      eval := hW.eval.trans he.symm }

/-- **C85** is false for batches of two and more: every accepted proof is also accepted for other values. -/
theorem C85_refuted [DecidableEq T] [Fact p.Prime] (E : JEnv p T T') (h : E.Good) (A : E.ringQ.Lawful)
    (A' : E.ringQ'.Lawful) (hb : 2 ≤ E.par.batch) (x : ZMod p) (com : List (List T')) (y : List (ZMod p))
    (pf : JProof T T') (hv : E.verify x com y pf = .ok true) :
    ∃ y', y' ≠ y ∧ E.verify x com y' pf = .ok true := by
  have hyl : y.length = E.par.batch := by
    obtain ⟨W, hW, -⟩ := JEnv.verify_sound h A A' hv
    exact hW.shape.yLen
  obtain ⟨β, hβ⟩ : ∃ β : Nat → ZMod p, β = fun i => (decoded p E.par.enc (E.betInt x com i)).getD 0 0 := ⟨_, rfl⟩
  -- a vector in the kernel
  obtain ⟨d0, d1, hd, hd2⟩ : ∃ d0 d1 : ZMod p, β 0 * d0 + β 1 * d1 = 0 ∧ (d0 ≠ 0 ∨ d1 ≠ 0) := by
    by_cases h0 : β 0 = 0
    · exact ⟨1, 0, by rw [h0]; ring, .inl one_ne_zero⟩
    · exact ⟨-β 1, β 0, by ring, .inr h0⟩
  refine ⟨(List.range E.par.batch).map fun i => y.getD i 0 + if i = 0 then d0 else if i = 1 then d1 else 0, ?_, ?_⟩
  · intro he
    have h1 : ∀ i < E.par.batch, (if i = 0 then d0 else if i = 1 then d1 else 0) = 0 := by
      intro i hi
      have := congrArg (fun l => l.getD i 0) he
      simp only [getD_map_range _ _ _ _ hi] at this
      exact add_eq_left.1 this
    rcases hd2 with h2 | h2
    · exact h2 (by simpa using h1 0 (by omega))
    · exact h2 (by simpa using h1 1 (by omega))
  · rw [C85_values E h A A' x com y pf hv]
    refine ⟨by simp, ?_⟩
    obtain ⟨n, hn⟩ : ∃ n, E.par.batch = n + 1 + 1 := ⟨E.par.batch - 2, by omega⟩
    have h1 : ∀ i ∈ range E.par.batch, (decoded p E.par.enc (E.betInt x com i)).getD 0 0 *
        ((List.range E.par.batch).map fun i => y.getD i 0 + if i = 0 then d0 else if i = 1 then d1 else 0).getD i 0 =
        β i * y.getD i 0 + β i * if i = 0 then d0 else if i = 1 then d1 else 0 := by
      intro i hi
      rw [getD_map_range _ _ _ _ (mem_range.1 hi), mul_add, hβ]
    rw [sum_congr rfl h1, sum_add_distrib]
    have h2 : ∑ i ∈ range E.par.batch, (β i * if i = 0 then d0 else if i = 1 then d1 else 0) = 0 := by
      rw [hn, sum_range_succ', sum_range_succ', sum_eq_zero]
      · simp only [zero_add, one_ne_zero, if_false, if_true]
        linear_combination hd
      · intro i _
        simp
    rw [h2, add_zero, hβ]

/-- **C85** for a batch of one: the values are determined. -/
theorem C85_partial [DecidableEq T] (E : JEnv p T T') (h : E.Good) (A : E.ringQ.Lawful) (A' : E.ringQ'.Lawful)
    (hb : E.par.batch = 1) (x : ZMod p) (com : List (List T')) (y y' : List (ZMod p)) (pf : JProof T T')
    (hv : E.verify x com y pf = .ok true) (hv' : E.verify x com y' pf = .ok true) : y' = y := by
  have h1 := (C85_values E h A A' x com y pf hv y).1 hv
  have h2 := (C85_values E h A A' x com y pf hv y').1 hv'
  have hd : (decoded p E.par.enc (E.betInt x com 0)).getD 0 0 = 1 := by
    unfold JEnv.betInt
    rw [if_neg (by omega)]
    exact JEnv.decoded_one h
  rw [hb] at h1 h2
  obtain ⟨a, rfl⟩ := List.length_eq_one_iff.1 h1.1
  obtain ⟨b, rfl⟩ := List.length_eq_one_iff.1 h2.1
  have h3 := h2.2
  rw [sum_range_one, sum_range_one, hd] at h3
  simpa using h3

open Classical in
/-- **Case for C85**: the polynomials `5 + 7X` and `11`, whose values at `3` are `26` and `11`. -/
theorem C85_case
    (xof : List (JMsg (RQ exQs 4) (RQ [2305843009213693951] 4) (ZMod 257)) → Nat → List (BitVec 8))
    (hx : ∀ ms i, (xof ms i).length = 16) :
    ∃ E : JEnv 257 (RQ exQs 4) (RQ [2305843009213693951] 4), E.Good ∧ E.xof = xof ∧
      ∃ com opens pf, E.evaluate 3 [[5, 7], [11]] com opens = .ok ([26, 11], pf) ∧
        E.verify 3 com [26, 11] pf = .ok true ∧ ∃ y', y' ≠ [26, 11] ∧ E.verify 3 com y' pf = .ok true := by
  have : Fact (Nat.Prime 257) := ⟨by norm_num⟩
  obtain ⟨E, h1, h2, ⟨A⟩, ⟨A'⟩, com, opens, pf, h3, h4⟩ := C63_case xof hx
  refine ⟨E, h1, h2, com, opens, pf, h3, h4, C85_refuted E h1 A A' ?_ 3 com _ pf h4⟩
  obtain ⟨W, hW, -⟩ := JEnv.verify_sound h1 A A' h4
  have := hW.shape.yLen
  simp at this
  omega

end Ringo
