import Verif.Props.JProtoEx

/-!
# C97: what Jindo's `Verify` does with a proof of the wrong shape
-/

namespace Ringo

open Finset

set_option linter.unusedSectionVars false

theorem foldlM_panic {σ : Type} (f : σ → Nat → Go σ) : ∀ (m n : Nat) (s : σ), m < n →
    (∀ k < m, ∀ s, ∃ t, f s k = .ok t) → (∀ s, f s m = .error .panic) →
    (List.range n).foldlM f s = .error .panic := by
  intro m n s hmn h1 h2
  obtain ⟨d, rfl⟩ : ∃ d, n = m + 1 + d := ⟨n - (m + 1), by omega⟩
  rw [List.range_add, List.foldlM_append, List.range_succ, List.foldlM_append]
  have : ∃ t, (List.range m).foldlM f s = .ok t := by
    clear h2 hmn
    induction m with
    | zero => exact ⟨s, rfl⟩
    | succ m ih =>
      obtain ⟨t, ht⟩ := ih fun k hk => h1 k (by omega)
      rw [List.range_succ, List.foldlM_append, ht, go_bind_ok]
      obtain ⟨u, hu⟩ := h1 m (by omega) t
      exact ⟨u, by rw [List.foldlM_cons, hu]; rfl⟩
  obtain ⟨t, ht⟩ := this
  rw [ht, go_bind_ok, List.foldlM_cons, h2]
  rfl

theorem subLoop_panic {U : Type} [AddCommGroup U] {n m : Nat} {init : U} {f : Nat → Go U} (hm : m < n)
    (h1 : ∀ k < m, ∃ t, f k = .ok t) (h2 : f m = .error .panic) : subLoop n init f = .error .panic := by
  unfold subLoop
  rw [forRange_one, Nat.sub_zero, ← List.range_eq_range']
  refine foldlM_panic _ m n init hm ?_ ?_
  · intro k hk s
    obtain ⟨t, ht⟩ := h1 k hk
    exact ⟨s - t, by rw [ht]; rfl⟩
  · intro s
    rw [h2]; rfl

theorem mapM_range_panic {α : Type} {n : Nat} {f : Nat → Go α} (hn : 1 ≤ n) (h : f 0 = .error .panic) :
    (List.range n).mapM f = .error .panic := by
  obtain ⟨d, rfl⟩ : ∃ d, n = d + 1 := ⟨n - 1, by omega⟩
  rw [List.range_succ_eq_map, List.mapM_cons, h]
  rfl

theorem unloadTo_or {U : Type} (L : LRing U) (n : Nat) (l : List U) (zero : List (List Nat)) :
    (l.length ≤ n ∧ ∃ r, JEnv.unloadTo L n l zero = .ok r) ∨
      (n < l.length ∧ JEnv.unloadTo L n l zero = .error .panic) := by
  unfold JEnv.unloadTo
  by_cases h : l.length > n
  · exact .inr ⟨h, by rw [if_pos h]; rfl⟩
  · exact .inl ⟨by omega, _, by rw [if_neg h]; rfl⟩

variable {p : Nat} {T T' : Type} [AddCommGroup T] [AddCommGroup T']

/-- **C97**, the true part.  `Verify` returns a verdict for every proof with as many polynomials as the
parameters ask for, whatever the polynomials are. -/
theorem C97_partial [DecidableEq T] (E : JEnv p T T') (h : E.Good) (A : E.ringQ.Lawful) (A' : E.ringQ'.Lawful)
    (x : ZMod p) (com : List (List T')) (y : List (ZMod p)) (pf : JProof T T')
    (hs : JEnv.Shape E com y pf) : ∃ b, E.verify x com y pf = .ok b := by
  obtain ⟨bb, hbb, hB⟩ := JEnv.batchChals_spec h A A' x com
  obtain ⟨cs, hcs, hcl, -⟩ := JEnv.colChals_spec h A x com pf.parts pf.partMask
  obtain ⟨cut, o1, o2, o3⟩ := JEnv.verifyOuter_spec h A A' hB hs
  obtain ⟨zo, -, o5⟩ := JEnv.verifyNorm_sound (E := E) A' (pf.inCommit ++ cut) E.par.dcmpNm
  rw [o5] at o3
  obtain ⟨cutI, n1, n2, n3⟩ := JEnv.verifyInner_spec h A hs hcl
  obtain ⟨zi, -, n5⟩ := JEnv.verifyNorm_sound (E := E) A (pf.encode ++ pf.mlwe ++ cutI) E.par.resNm
  rw [n5] at n3
  obtain ⟨ct, c1, -⟩ := JEnv.consistency_spec h A hs hcl x
  have hrec : ∀ j, ∃ z, z.length = E.ringQ.N ∧
      reconstructTo E.ringQ.qs (E.ringQ.unload (pf.parts.getD j 0)) = .ok z := by
    intro j
    obtain ⟨z, h1, h2, h3⟩ := A.exists_reps (pf.parts.getD j 0)
    exact ⟨z, h1, A.reconstruct_rep h1 h2 h3⟩
  choose f f1 f2 using hrec
  have e1 := JEnv.partsEval_of h hs x f (fun j _ => ⟨f1 j, f2 j⟩)
  have e2 := JEnv.batchEval_spec h A A' hB y hs.yLen
  have e3 : ∃ b, E.verifyEval x bb.1 y (pf.parts.map E.ringQ.unload) = .ok b := by
    unfold JEnv.verifyEval
    rw [e2, go_bind_ok, e1, go_bind_ok]
    exact ⟨_, rfl⟩
  obtain ⟨b, e3⟩ := e3
  exact ⟨_, JEnv.verify_comp hs hbb hcs o3 n3 c1 e3⟩

/-- **C97, refuted.**  With any number of inner commitments but the right one, and with too many
polynomials of any other kind, `Verify` panics. -/
theorem C97_refuted [DecidableEq T] (E : JEnv p T T') (h : E.Good) (A : E.ringQ.Lawful) (A' : E.ringQ'.Lawful)
    (x : ZMod p) (com : List (List T')) (y : List (ZMod p)) (pf : JProof T T')
    (hc : com.length = E.par.batch) (hc2 : ∀ c ∈ com, E.par.outRank ≤ c.length) (hy : y.length = E.par.batch)
    (hbad : pf.inCommit.length ≠ E.par.dcmpLen ∨ E.par.mat.cols < pf.parts.length ∨
      E.par.mat.rows < pf.encode.length ∨ E.par.mlweRank + E.par.inRank < pf.mlwe.length) :
    E.verify x com y pf = .error .panic := by
  obtain ⟨bb, hbb, hB⟩ := JEnv.batchChals_spec h A A' x com
  obtain ⟨cs, hcs, hcl, -⟩ := JEnv.colChals_spec h A x com pf.parts pf.partMask
  unfold JEnv.verify
  rw [if_neg (by rw [hc, hy]; simp), hbb, go_bind_ok, hcs, go_bind_ok]
  rcases unloadTo_or E.ringQ E.par.mat.cols pf.parts (zeroPoly E.ringQ) with ⟨l1, r1, e1⟩ | ⟨-, e1⟩
  swap
  · rw [e1]; rfl
  rw [e1, go_bind_ok]
  rcases unloadTo_or E.ringQ E.par.mat.rows pf.encode (zeroPoly E.ringQ) with ⟨l2, r2, e2⟩ | ⟨-, e2⟩
  swap
  · rw [e2]; rfl
  rw [e2, go_bind_ok]
  rcases unloadTo_or E.ringQ (E.par.mlweRank + E.par.inRank) pf.mlwe (zeroPoly E.ringQ) with
    ⟨l3, r3, e3⟩ | ⟨-, e3⟩
  swap
  · rw [e3]; rfl
  rw [e3, go_bind_ok]
  rcases unloadTo_or E.ringQ' E.par.dcmpLen pf.inCommit (zeroPoly E.ringQ') with ⟨l4, r4, e4⟩ | ⟨-, e4⟩
  swap
  · rw [e4]; rfl
  rw [e4, go_bind_ok]
  have hlt : pf.inCommit.length < E.par.dcmpLen := by omega
  have hout := h.outRank
  obtain ⟨c, hcm, -⟩ := JEnv.batchCom_spec h A A' hB hc hc2 0 (by omega)
  have hcut : E.outerCut bb.2 com pf.inCommit 0 = .error .panic := by
    unfold JEnv.outerCut
    rw [hcm, go_bind_ok]
    refine subLoop_panic (m := pf.inCommit.length) hlt ?_ ?_
    · intro k hk
      rw [h.out_at (by omega) (by omega), go_bind_ok, idx_getD hk 0, go_bind_ok]
      exact ⟨_, rfl⟩
    · rw [h.out_at (by omega) hlt, go_bind_ok, idx_panic le_rfl]
      rfl
  have hvo : E.verifyOuter bb.2 com pf r4 = .error .panic := by
    unfold JEnv.verifyOuter
    rw [mapM_range_panic hout hcut]
    rfl
  rw [hvo]
  rfl

/-- A proof that is accepted has the right shape. -/
theorem C97_accepts [DecidableEq T] (E : JEnv p T T') (h : E.Good) (x : ZMod p) (com : List (List T'))
    (y : List (ZMod p)) (pf : JProof T T') (hv : E.verify x com y pf = .ok true) : JEnv.Shape E com y pf :=
  JEnv.verify_shape h hv

open Classical in
/-- In the setting of `C63_case`: the accepted proof of two values, cut down to no inner commitments, makes
`Verify` panic; with other polynomials of the same number it returns. -/
theorem case97
    (xof : List (JMsg (RQ exQs 4) (RQ [2305843009213693951] 4) (ZMod 257)) → Nat → List (BitVec 8))
    (hx : ∀ ms i, (xof ms i).length = 16) :
    ∃ E : JEnv 257 (RQ exQs 4) (RQ [2305843009213693951] 4), ∃ com pf, E.Good ∧ E.xof = xof ∧
      E.verify 3 com [26, 11] pf = .ok true ∧
      E.verify 3 com [26, 11] { pf with inCommit := [] } = .error .panic ∧
      ∃ b, E.verify 3 com [26, 11] { pf with encode := pf.encode.map fun _ => 1 } = .ok b := by
  obtain ⟨E, h, h2, ⟨A⟩, ⟨A'⟩, com, opens, pf, -, hv⟩ := C63_case xof hx
  have hs := JEnv.verify_shape h hv
  refine ⟨E, com, pf, h, h2, hv, C97_refuted E h A A' 3 com _ _ hs.comLen hs.comLen2 hs.yLen (.inl ?_),
    C97_partial E h A A' 3 com _ _ { hs with encode := by simpa using hs.encode }⟩
  have := h.inRank
  rw [h.dcmp]
  exact (Nat.mul_pos (Nat.succ_pos _) this).ne

end Ringo
