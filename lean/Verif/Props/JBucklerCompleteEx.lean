import Verif.Props.JBucklerComplete
import Verif.Props.JBucklerEx

/-!
# Case for C127: squares can be proved where C125 says that other values cannot
-/

namespace Ringo

open Finset

attribute [local instance] prime_257_125

/-- **Case for C127**, with the instance of `C125_case`: for randomness of size at most 3, all hash functions and every
`X` of length 8, the prover of `X * X = U` can answer all challenges; nobody can prove that `3` is a square, except for
few challenges. -/
theorem C127_case (xof : List (JMsg (RQ exQs125 16) (RQ [exQ125] 16) (ZMod 257)) → Nat → List (BitVec 8))
    (hx : ∀ ms i, (xof ms i).length = 16) [DecidableEq (RQ exQs125 16)] :
    ∃ (J : JEnv 257 (RQ exQs125 16) (RQ [exQ125] 16)) (A : J.ringQ.Lawful) (cp : Compilation (ZMod 257)),
      J.xof = xof ∧ compile (p := 257) (2 ^ 3) 0 1 1 opsSq257 = .ok cp ∧
      (∀ (ser : List (RQ [exQ125] 16) → Bytes) (E0 : Env (ZMod 257)) (t : Tape (ZMod 257) (ComRand 257))
        (X : List (ZMod 257)), X.length = 8 →
        (∀ i j k l, (((t.com i).col j).cell k l).natAbs ≤ 3 ∧ (((t.com i).col j).mlwe k l).natAbs ≤ 3) →
        let E : Env (ZMod 257) := { E0 with pcs := jindoPCS J ser }
        ∃ pf : BProof (ZMod 257) (jindoPCS J ser),
          prove E cp t ⟨[], [], [], []⟩ ⟨0, circ47 (X.map fun a => a * a) X⟩ = .ok (some pf) ∧
          let x := E.setBytes (chalsOf E cp.ctx pf).x
          let coms : List (List (RQ [exQ125] 16)) := pf.witness
          ∀ b : Fin J.par.batch → Fin 16 → BitVec 8, ∃ parts pm, J.ShortParts A (2 ^ 30) parts ∧
            ∀ c : ColBytes J, ∃ jpf : JProof (RQ exQs125 16) (RQ [exQ125] 16), jpf.parts = parts ∧ jpf.partMask = pm ∧
              verify { E0 with pcs := jindoPCS (J.withBytes x coms (bytesOf b) parts pm (bytesOf c)) ser } cp []
                ⟨0, circ47 (X.map fun a => a * a) (List.replicate 8 0)⟩
                ⟨coms, pf.linMaskSum, pf.sumMaskSum, pf.evals, jpf⟩ = .ok true) ∧
      ∀ (ser : List (RQ [exQ125] 16) → Bytes) (E0 : Env (ZMod 257)) (enc : ZMod 257 → Bytes) (seed : Bytes)
        (P : JCheater 257 J.par.batch (RQ exQs125 16) (RQ [exQ125] 16)),
      (∀ a, E0.setBytes (enc a) = a) → P.first.length = 1 →
      {t : Chal5 257 × (Fin J.par.batch → Fin 16 → BitVec 8) × ColBytes J |
          P.Wins J A (2 ^ 30) ser E0 cp [] ⟨0, circ47 (List.replicate 8 3) []⟩ seed enc t.1 t.2.1 t.2.2}.ncard ≤
        257 ^ 4 * 58 * ((2 ^ 128) ^ 2 * 2 ^ 128) + 257 ^ 5 * ((2 ^ 128 / 64 + 1) * 2 ^ 128) * 2 ^ 128 +
        257 ^ 5 * (2 ^ 128) ^ 2 * (2 ^ 128 / 64 + 1) := by
  obtain ⟨cp, c1, c2, c3, c4, c5, c6, c7, c8, c9, c10, c11, c12, c13, c14⟩ : ∃ cp,
      compile (p := 257) (2 ^ 3) 0 1 1 opsSq257 = .ok cp ∧ cp.ctx.wCnt = 1 ∧ cp.ctx.lin = [] ∧ cp.ctx.sums = [] ∧
      cp.ctx.arithCheckMaxRank = 17 ∧ cp.ctx.batch = 2 ∧ cp.ctx.rank = 8 ∧ cp.ctx.circType = 0 ∧ cp.ctx.pwCnt = 1 ∧
      cp.ctx.twoDcmp = [] ∧ cp.ctx.infDcmp = [] ∧ cp.ctx.projWit = [] ∧ cp.ctx.projInf = [] ∧ cp.ctx.commitRank = 9 := by
    have hdef : ∃ ctx, (newContext (ZMod 257) (2 ^ 3) 0 1 1).define opsSq257 = .ok ctx ∧ ctx.embRank = 32 ∧
        ctx.wCnt = 1 ∧ ctx.lin = [] ∧ ctx.sums = [] ∧ ctx.arithCheckMaxRank = 17 ∧ ctx.batch = 2 ∧ ctx.rank = 8 ∧
        ctx.circType = 0 ∧ ctx.pwCnt = 1 ∧ ctx.twoDcmp = [] ∧ ctx.infDcmp = [] ∧ ctx.projWit = [] ∧ ctx.projInf = [] ∧
        ctx.commitRank = 9 :=
      ⟨_, rfl, rfl, rfl, rfl, rfl, rfl, rfl, rfl, rfl, rfl, rfl, rfl, rfl, rfl, rfl⟩
    obtain ⟨ctx, a1, a2, a3⟩ := hdef
    obtain ⟨cp, h1, h2⟩ := compile_total (p := 257) (N := 2 ^ 3) (ty := 0) (pw0 := 1) (w0 := 1)
      (K := 3) (Ke := 5) rfl (by norm_num) (by norm_num) a1 a2 (by norm_num) (by norm_num)
    exact ⟨cp, h1, by rw [h2]; exact a3⟩
  obtain ⟨J, A, A', h1, h2, h3, h4, h5, h6, hi, ho⟩ := exEnv125 xof hx
  have hcb : challengeBound J.par.enc.ecd = 8 := by rw [h1]; exact (show challengeBound ⟨16, 2⟩ = 8 by decide)
  have hs : ∀ n m : Nat, n < m * m → ((Nat.sqrt n : Nat) : ℚ) < (m : ℚ) := by
    intro n m h
    exact_mod_cast Nat.sqrt_lt.mpr h
  refine ⟨J, A, cp, h2, c1, ?_, fun ser E0 enc seed P henc hfirst =>
    bound125 c1 J A A' h1 h3 h4 h6 hi ho ser E0 enc seed P henc hfirst⟩
  intro ser E0 t X hX ht
  refine C127_complete J h6 A A' (2 ^ 30) 3 ?_ ?_ ?_ ?_ (by norm_num) (K := 3) (ty := 0) (by norm_num) opsSq257 (cp := cp)
    (circ47 [] []) (circ47 (X.map fun a => a * a) X) (circ47 (X.map fun a => a * a) (List.replicate 8 0))
    (fun path s i w h => (circ47_leaf h).1) (.ptr (.cons .pub (.cons .wit .nil)))
    (fun path s i w h => by
      obtain ⟨-, h2, rfl | rfl⟩ := circ47_leaf h
      · exact ⟨h2, by simp [hX]⟩
      · exact ⟨h2, hX⟩)
    (.ptr (.cons .pub (.cons .wit .nil))) c1 (by rw [c2, c9]; norm_num) (by rw [c2, c9]; norm_num) ?_
    List.nodup_nil (Nat.zero_le 1) List.nodup_nil (by rw [c5]; simp) (fun _ => by rw [c5]; norm_num)
    (fun h => absurd c4 h) E0 (by simp [opsSq257]) (by rw [h1, c6]; rfl) (by rw [h1, c14]; norm_num [exPar125]) ser
    ⟨[], [], [], []⟩ ⟨by rw [c11], by rw [c10], by rw [c12], by rw [c13]⟩ [] (by rw [c10]) ?_ t ht
  · unfold JEnv.batchGrow JEnv.chalGrow JEnv.encSize
    rw [hcb, h1]
    simp [exPar125]
  · rw [h3]
    have := hs (J.par.dcmpLen * (J.par.enc.N * JEnv.batchGrow J (JEnv.truncMax J) ^ 2) +
      J.par.outRank * (J.par.enc.N * JEnv.batchGrow J (2 ^ J.par.outCut) ^ 2)) (2 ^ 215) (by
        unfold JEnv.batchGrow JEnv.chalGrow JEnv.truncMax
        rw [hcb, h1, h4]
        norm_num [exPar125, exQs125])
    rw [h1] at this ⊢
    refine lt_of_lt_of_eq this ?_
    norm_num [exPar125]
  · rw [h3]
    have := hs (J.par.mat.rows * (J.par.enc.N * JEnv.combGrow J (JEnv.encSize J 3) ^ 2) +
      (J.par.mlweRank + J.par.inRank) * (J.par.enc.N * JEnv.combGrow J 3 ^ 2) +
      J.par.inRank * (J.par.enc.N * JEnv.combGrow J (2 ^ J.par.inCut) ^ 2)) (2 ^ 24) (by
        unfold JEnv.combGrow JEnv.batchGrow JEnv.chalGrow JEnv.encSize
        rw [hcb, h1]
        norm_num [exPar125])
    rw [h1] at this ⊢
    refine lt_of_lt_of_eq this ?_
    norm_num [exPar125]
  · rw [h4]
    norm_num [exQs125]
  · intro op hop
    simp only [opsSq257, List.mem_cons, List.not_mem_nil, or_false] at hop
    subst hop
    intro t ht
    simp only [List.mem_cons, List.not_mem_nil, or_false] at ht
    rcases ht with rfl | rfl <;> simp [circ47, firstWalk, firstWalks]
  · intro pw sw hA op hop
    obtain ⟨a1, a2⟩ := circ47_assigned (by norm_num) hA
    simp only [opsSq257, List.mem_cons, List.not_mem_nil, or_false] at hop
    subst hop
    intro i hi
    simp only [Constraint.onRow, Constraint.value, Term.value, rowOf, List.getD_eq_getElem?_getD, a1, a2,
      List.map_cons, List.map_nil, List.prod_cons, List.prod_nil, List.sum_cons, List.sum_nil, Option.getD_some,
      List.getElem?_map]
    rw [List.getElem?_eq_getElem (by omega)]
    simp

end Ringo
