import Verif.Proof.LinRev
import Verif.Spec.Rom

/-!
# Soundness, with the bad challenges in the order of the code and independent of the hash function
-/

namespace Ringo

open Finset Polynomial

section
variable {p : Nat} [Fact p.Prime] {E : Env (ZMod p)} {cp : Compilation (ZMod p)} {K : Nat}

theorem linBad_rev {ty pw0 w0 : Nat} {ops : List (CtxOp (ZMod p))} (hK : 3 ≤ K)
    (hc : compile (2 ^ K) ty pw0 w0 ops = .ok cp) (hv : ∀ op ∈ ops, op.Valid pw0 w0)
    (users : Nat → LinearChecker (ZMod p)) (jrank : Nat) (hj : 2 ^ K - 1 ≤ jrank)
    (D : Nat) (hD1 : 2 * jrank - 2 ^ K ≤ D) (hD2 : 2 ^ K + jrank - 1 ≤ D)
    (M : List (List Bool)) (w : List (List (ZMod p))) (mask : List (ZMod p)) (maskSum : ZMod p) :
    ∃ badB : Finset (ZMod p), (badB.card ≤ linCount cp ∧ (cp.ctx.lin = [] → badB = ∅)) ∧
      ∀ b, ∃ badC : Finset (ZMod p), (badC.card ≤ 2 ^ K - 1 ∧ (cp.ctx.lin = [] → badC = ∅)) ∧
      (LinOK (2 ^ K) users M cp.ctx.lin → w.length = cp.ctx.wCnt → (∀ v ∈ w, v.length ≤ jrank) →
        b ∉ badB → mask.length ≤ jrank → ∀ lc ∉ badC,
        ∀ quo remLo remHi : List (ZMod p), quo.length ≤ jrank → remLo.length ≤ jrank →
          remHi.length ≤ jrank → ∀ S : Finset (ZMod p),
          (∀ y ∈ S, ∃ evals, EvalsOf w y evals ∧
            linCheckV cp users M jrank b lc (evalAt mask.length mask y) y
              (expU64 y cp.ctx.rank - 1) maskSum (evalAt quo.length quo y)
              (evalAt remLo.length remLo y) (evalAt remHi.length remHi y) evals = .ok true) →
          D < S.card → LinEnf K cp users M w) := by
  by_cases hlin : LinOK (2 ^ K) users M cp.ctx.lin
  swap
  · exact ⟨∅, ⟨by simp, fun _ => rfl⟩, fun _ => ⟨∅, ⟨by simp, fun _ => rfl⟩, fun h => absurd h hlin⟩⟩
  by_cases hwl : w.length = cp.ctx.wCnt
  swap
  · exact ⟨∅, ⟨by simp, fun _ => rfl⟩, fun _ => ⟨∅, ⟨by simp, fun _ => rfl⟩, fun _ h => absurd h hwl⟩⟩
  by_cases hwr : ∀ v ∈ w, v.length ≤ jrank
  swap
  · exact ⟨∅, ⟨by simp, fun _ => rfl⟩, fun _ => ⟨∅, ⟨by simp, fun _ => rfl⟩, fun _ _ h => absurd h hwr⟩⟩
  by_cases hm : mask.length ≤ jrank
  swap
  · exact ⟨∅, ⟨by simp, fun _ => rfl⟩, fun _ => ⟨∅, ⟨by simp, fun _ => rfl⟩, fun _ _ _ _ h => absurd h hm⟩⟩
  by_cases hh : LinEnf K cp users M w
  · exact ⟨∅, ⟨by simp, fun _ => rfl⟩, fun _ => ⟨∅, ⟨by simp, fun _ => rfl⟩,
      fun _ _ _ _ _ _ _ _ _ _ _ _ _ _ _ _ => hh⟩⟩
  unfold LinEnf at hh
  push Not at hh
  obtain ⟨sw, s1, s2, s3, e, he, x, hx, s4⟩ := hh
  have hne : cp.ctx.lin ≠ [] := List.ne_nil_of_mem he
  obtain ⟨badB, b1, b2⟩ := linSound_rev hK hc hv users M hlin jrank hj sw w s1 hwl s2 hwr s3 e he x hx s4
    mask maskSum hm
  refine ⟨badB, ⟨b1, fun h => absurd h hne⟩, fun b => ?_⟩
  by_cases hb : b ∈ badB
  · exact ⟨∅, ⟨by simp, fun _ => rfl⟩, fun _ _ _ h => absurd hb h⟩
  obtain ⟨badC, c1, c2⟩ := b2 b hb
  refine ⟨badC, ⟨c1, fun h => absurd h hne⟩, fun _ _ _ _ _ lc hlc quo lo hi hq hl hh S hS hcard => ?_⟩
  have := c2 lc hlc quo lo hi hq hl hh S hS
  have h3 : max (2 * jrank - 2 ^ K) (2 ^ K + jrank - 1) ≤ D := max_le hD1 hD2
  omega

/-- The claimed sum of a mask, if there is one. -/
def sumIf {α : Type} (l : List α) (s : Option (ZMod p)) : ZMod p := if l.length > 0 then s.getD 0 else 0

theorem PassAll.sumIf {users : Nat → LinearChecker (ZMod p)} {jrank : Nat} {pw : List (List (ZMod p))}
    {M : List (List Bool)} {f : List (List (ZMod p))} {ls ss : Option (ZMod p)} {ab lb lc sb x : ZMod p}
    (h : PassAll cp users jrank pw M f (ls.getD 0) (ss.getD 0) ab lb lc sb x) :
    PassAll cp users jrank pw M f (sumIf cp.ctx.lin ls) (sumIf cp.ctx.sums ss) ab lb lc sb x := by
  obtain ⟨pwEcd, pwEvals, h1, h2, h3, h4, h5⟩ := h
  refine ⟨pwEcd, pwEvals, h1, h2, h3, fun hne => ?_, fun hne => ?_⟩
  · have : Ringo.sumIf cp.ctx.lin ls = ls.getD 0 := if_pos (List.length_pos_iff.2 hne)
    rw [this]
    exact h4 hne
  · have : Ringo.sumIf cp.ctx.sums ss = ss.getD 0 := if_pos (List.length_pos_iff.2 hne)
    rw [this]
    exact h5 hne

/-- As `sound_core`, in the order of the code: the bad values of `lc` depend on `lb`. -/
theorem sound_core_rev {ty pw0 w0 : Nat} {ops : List (CtxOp (ZMod p))} (hK : 3 ≤ K)
    (hc : compile (2 ^ K) ty pw0 w0 ops = .ok cp) (hv : ∀ op ∈ ops, op.Valid pw0 w0)
    (hlt : 2 ^ K < max cp.ctx.arithCheckMaxRank cp.ctx.sumCheckMaxRank)
    (hlin : ∀ seed, LinOK (2 ^ K) E.users (projMatrix E.xof seed (2 ^ K)) cp.ctx.lin)
    (hj : 2 ^ K - 1 ≤ E.pcs.rank) (poly : E.pcs.Com → List (ZMod p))
    (hfix : E.pcs.Fixes cp.ctx.batch poly) (D : Nat)
    (hDa : ∀ c ∈ cp.ctx.arith, c.checkDeg (2 ^ K) E.pcs.rank ≤ D)
    (hDs : ∀ c ∈ cp.ctx.sums, c.checkDeg (2 ^ K) E.pcs.rank ≤ D)
    (hD1 : 2 * E.pcs.rank - 2 ^ K ≤ D) (hD2 : 2 ^ K + E.pcs.rank ≤ D) :
    ∃ (badL : List (List Bool) → List (List (ZMod p)) → List (ZMod p) → ZMod p → Finset (ZMod p))
      (badC : List (List Bool) → List (List (ZMod p)) → List (ZMod p) → ZMod p → ZMod p → Finset (ZMod p))
      (badS : List (List (ZMod p)) → List (List (ZMod p)) → List (ZMod p) → ZMod p → Finset (ZMod p))
      (badX : List (List (ZMod p)) → List (List Bool) → List (List (ZMod p)) → ZMod p → ZMod p →
        ZMod p → ZMod p → ZMod p → ZMod p → Finset (ZMod p)),
      (∀ M w m s, (badL M w m s).card ≤ linCount cp ∧ (cp.ctx.lin = [] → badL M w m s = ∅)) ∧
      (∀ M w m s b, (badC M w m s b).card ≤ 2 ^ K - 1 ∧ (cp.ctx.lin = [] → badC M w m s b = ∅)) ∧
      (∀ pw w m s, (badS pw w m s).card ≤ 2 ∧ (cp.ctx.sums = [] → badS pw w m s = ∅)) ∧
      (∀ pw M f ls ss ab lb lc sb, (badX pw M f ls ss ab lb lc sb).card ≤ D) ∧
      ∀ (hash : Bytes → Bytes) (two : List TwoEntry) (c : Circ (ZMod p)) (π : BProof (ZMod p) E.pcs)
        (ch : Challenges), verifyWith (E.withHash hash) cp two c π ch = .ok true →
        ∃ pw, assignV cp two c.val = .ok (some pw) ∧ π.witness.length = cp.ctx.batch ∧
          π.evals.length = cp.ctx.batch ∧ (cp.ctx.lin.length > 0 → π.linMaskSum ≠ none) ∧
          (cp.ctx.sums.length > 0 → π.sumMaskSum ≠ none) ∧
          let f := π.witness.map poly
          let w := f.take cp.ctx.wCnt
          let M := projMatrix E.xof ch.proj (2 ^ K)
          let ls := sumIf cp.ctx.lin π.linMaskSum
          let ss := sumIf cp.ctx.sums π.sumMaskSum
          E.setBytes ch.ab = 0 ∨ E.setBytes ch.lb ∈ badL M w (f.getD cp.ctx.wCnt []) ls ∨
          E.setBytes ch.lc ∈ badC M w (f.getD cp.ctx.wCnt []) ls (E.setBytes ch.lb) ∨
          E.setBytes ch.sb ∈ badS pw w
            (f.getD (cp.ctx.wCnt + (if cp.ctx.lin.length > 0 then 1 else 0)) []) ss ∨
          E.setBytes ch.x ∈ badX pw M f ls ss (E.setBytes ch.ab) (E.setBytes ch.lb) (E.setBytes ch.lc)
            (E.setBytes ch.sb) ∨
          ∃ sw : List (List (ZMod p)), sw.length = cp.ctx.wCnt ∧ (∀ v ∈ sw, v.length = 2 ^ K) ∧
            (∀ (i : Nat) (v u : List (ZMod p)), sw[i]? = some v → w[i]? = some u → Encodes cp v u) ∧
            Enforced cp.ctx E.users M pw sw := by
  choose badL hL1 badC hC1 hL2 using linBad_rev hK hc hv E.users E.pcs.rank hj D hD1 (by omega)
  choose badS hS1 hS2 using sumBad hK hc hv hlt E.pcs.rank hj D hDs hD1 (by omega)
  refine ⟨badL, badC, badS, badPoints cp E.users E.pcs.rank D, hL1, hC1, hS1, badPoints_card _ _ _ _, ?_⟩
  intro hash two c π ch hver
  have hi : CtxInv2 (2 ^ K) cp.ctx := CtxInv2.define ops (CtxInv2.new _ _ _ _) (compile_inv hc).1
  obtain ⟨Ke, g, ge, h⟩ := compile_good hK hc hlt
  have href := compile_refs hc hv
  obtain ⟨pw, h1, h3, h4, h5⟩ := verifyWith_passAll (E := E.withHash hash) hi hfix hver
  have hpw := assignV_shape h1
  rw [h.rank] at hpw h5
  obtain ⟨_, _, _, _, _, _, _, _, _, _, v4, _, -, vL, vS⟩ := verifyWith_true_inv hver
  have h3 : π.witness.length = cp.ctx.batch := h3
  have h4 : ∀ v ∈ π.witness.map poly, v.length ≤ E.pcs.rank := h4
  have h6 : PassAll cp E.users E.pcs.rank pw (projMatrix E.xof ch.proj (2 ^ K)) (π.witness.map poly)
      (sumIf cp.ctx.lin π.linMaskSum) (sumIf cp.ctx.sums π.sumMaskSum) (E.setBytes ch.ab)
      (E.setBytes ch.lb) (E.setBytes ch.lc) (E.setBytes ch.sb) (E.setBytes ch.x) := h5.sumIf
  refine ⟨pw, h1, h3, by rw [(hfix _ _ _ _ v4).2.2, List.length_map]; exact h3,
    fun hl => by obtain ⟨_, _, _, _, t, _, _, _, _, ht, _⟩ := vL hl; rw [ht]; simp,
    fun hl => by obtain ⟨_, _, _, _, t, _, _, _, _, ht, _⟩ := vS hl; rw [ht]; simp, ?_⟩
  simp only
  set f := π.witness.map poly with hf
  set w := f.take cp.ctx.wCnt with hw
  set M := projMatrix E.xof ch.proj (2 ^ K) with hM
  have hfl : f.length = cp.ctx.batch := by rw [hf, List.length_map, h3]
  have hb := batch_eq cp.ctx
  have hnx : nextOf cp.ctx = cp.ctx.wCnt + (if cp.ctx.lin.length > 0 then 1 else 0) +
    (if cp.ctx.sums.length > 0 then 1 else 0) := rfl
  have hwl : w.length = cp.ctx.wCnt := by rw [hw, List.length_take]; omega
  have hwr : ∀ v ∈ w, v.length ≤ E.pcs.rank := fun v hv => h4 v (List.mem_of_mem_take hv)
  have hgd : ∀ i, (f.getD i []).length ≤ E.pcs.rank := by
    intro i
    rw [List.getD_eq_getElem?_getD]
    cases hi : f[i]? with
    | none => simp
    | some v => exact h4 v (List.mem_of_getElem? hi)
  by_cases hab : E.setBytes ch.ab = 0
  · exact .inl hab
  by_cases hlb : E.setBytes ch.lb ∈ badL M w (f.getD cp.ctx.wCnt []) (sumIf cp.ctx.lin π.linMaskSum)
  · exact .inr (.inl hlb)
  by_cases hlc : E.setBytes ch.lc ∈ badC M w (f.getD cp.ctx.wCnt []) (sumIf cp.ctx.lin π.linMaskSum)
      (E.setBytes ch.lb)
  · exact .inr (.inr (.inl hlc))
  by_cases hsb : E.setBytes ch.sb ∈ badS pw w
      (f.getD (cp.ctx.wCnt + (if cp.ctx.lin.length > 0 then 1 else 0)) []) (sumIf cp.ctx.sums π.sumMaskSum)
  · exact .inr (.inr (.inr (.inl hsb)))
  by_cases hx : E.setBytes ch.x ∈ badPoints cp E.users E.pcs.rank D pw M f (sumIf cp.ctx.lin π.linMaskSum)
      (sumIf cp.ctx.sums π.sumMaskSum) (E.setBytes ch.ab) (E.setBytes ch.lb) (E.setBytes ch.lc) (E.setBytes ch.sb)
  · exact .inr (.inr (.inr (.inr (.inl hx))))
  refine .inr (.inr (.inr (.inr (.inr ?_))))
  obtain ⟨S, hcard, hpass⟩ := many_points h6 hx
  -- the encoded witness
  obtain ⟨sw, s1, s2, s3⟩ : ∃ sw : List (List (ZMod p)), sw.length = cp.ctx.wCnt ∧
      (∀ v ∈ sw, v.length = 2 ^ K) ∧
      (∀ (i : Nat) (v u : List (ZMod p)), sw[i]? = some v → w[i]? = some u → Encodes cp v u) := by
    choose dec d1 d2 using fun u => encodes_exists h u
    refine ⟨w.map dec, by rw [List.length_map, hwl], ?_, ?_⟩
    · intro v hv
      obtain ⟨u, -, rfl⟩ := List.mem_map.1 hv
      exact d1 u
    · intro i v u hv hu
      rw [List.getElem?_map, hu] at hv
      cases hv
      exact d2 u
  refine ⟨sw, s1, s2, s3, ?_, ?_, ?_⟩
  · -- arithmetic
    rw [h.rank]
    intro i hi'
    by_cases hne : cp.ctx.arith = []
    · rw [hne]; rfl
    obtain ⟨pps, pwNTT, p1, -, p3, -, p5⟩ := encodePub_spec h pw hpw.2
    have hkey := C36_partial cp pps w (f.getD (nextOf cp.ctx) []) E.pcs.rank
      (by rw [p3, hpw.1, hwl]; exact href.arith)
      (by
        rw [h.rank]
        intro i
        by_cases hi : i < pw.length
        · exact (p5 i hi).2.1
        · rw [List.getD_eq_getElem?_getD, List.getElem?_eq_none (by omega)]
          simp [listPoly]) hwr (hgd _) (E.setBytes ch.ab) hab S
      (fun c hc => by rw [h.rank]; exact lt_of_le_of_lt (hDa c hc) hcard) (by rw [h.rank]; omega) ?_
      (g ^ rev K i) ?_
    · rw [← hkey]
      congr 1
      apply List.map_congr_left
      intro c hcm
      have hr := href.arith c hcm
      refine Constraint.value_congr c _ _ _ _ _ _ (by rw [← hpw.1, ← hwl] at hr; exact hr) (fun a ha => ?_)
        (fun a ha => ?_)
      · exact ((p5 a ha).2.2.1 i hi').symm
      · have h1 : sw[a]? = some (sw.getD a []) := by
          rw [List.getD_eq_getElem?_getD, List.getElem?_eq_getElem (by omega)]; rfl
        have h2 : w[a]? = some (w.getD a []) := by
          rw [List.getD_eq_getElem?_getD, List.getElem?_eq_getElem (by omega)]; rfl
        exact ((s3 a _ _ h1 h2).eval h (s2 _ (List.mem_of_getElem? h1)) i hi').symm
    · intro x hxS
      obtain ⟨pwEcd, pwEvals, q1, q2, q3, -⟩ := hpass x hxS
      rw [p1] at q1
      cases q1
      rw [evaluate_map] at q2
      cases q2
      refine ⟨valsAt f x, valsAt_evalsOf f _ x, ?_⟩
      have := q3 hne
      simp only [valsAt_getD] at this
      exact this
    · rw [h.rank, ← pow_mul, mul_comm, pow_mul, h.ecd.prim.pow_eq_one, one_pow]
  · rw [h.rank]
    by_cases hne : cp.ctx.lin = []
    · rw [hne]; simp
    refine hL2 M w (f.getD cp.ctx.wCnt []) (sumIf cp.ctx.lin π.linMaskSum) (E.setBytes ch.lb) (hlin _) hwl hwr
      hlb (hgd _) (E.setBytes ch.lc) hlc
      (f.getD (nextOf cp.ctx + (if cp.ctx.arith.length > 0 then 1 else 0)) [])
      (f.getD (nextOf cp.ctx + (if cp.ctx.arith.length > 0 then 1 else 0) + 1) [])
      (f.getD (nextOf cp.ctx + (if cp.ctx.arith.length > 0 then 1 else 0) + 2) [])
      (hgd _) (hgd _) (hgd _) S ?_ hcard sw s1 s2 s3
    intro y hy
    obtain ⟨pwEcd, pwEvals, -, -, -, q4, -⟩ := hpass y hy
    refine ⟨valsAt f y, valsAt_evalsOf f _ y, ?_⟩
    have := q4 hne
    simp only [valsAt_getD] at this
    exact this
  · rw [h.rank]
    by_cases hne : cp.ctx.sums = []
    · rw [hne]; simp
    obtain ⟨pps, pwNTT, p1, -, p3, -, p5⟩ := encodePub_spec h pw hpw.2
    refine hS2 pw w (f.getD (cp.ctx.wCnt + (if cp.ctx.lin.length > 0 then 1 else 0)) [])
      (sumIf cp.ctx.sums π.sumMaskSum) hpw.1 hpw.2 hwl hwr (hgd _) (E.setBytes ch.sb) hsb _ p1
      (f.getD (nextOf cp.ctx + (if cp.ctx.arith.length > 0 then 1 else 0) +
        (if cp.ctx.lin.length > 0 then 3 else 0)) [])
      (f.getD (nextOf cp.ctx + (if cp.ctx.arith.length > 0 then 1 else 0) +
        (if cp.ctx.lin.length > 0 then 3 else 0) + 1) [])
      (f.getD (nextOf cp.ctx + (if cp.ctx.arith.length > 0 then 1 else 0) +
        (if cp.ctx.lin.length > 0 then 3 else 0) + 2) [])
      (hgd _) (hgd _) (hgd _) S ?_ hcard sw s1 s2 s3
    intro y hy
    obtain ⟨pwEcd, pwEvals, q1, q2, -, -, q5⟩ := hpass y hy
    rw [p1] at q1
    cases q1
    refine ⟨valsAt f y, pwEvals, valsAt_evalsOf f _ y, q2, ?_⟩
    have := q5 hne
    simp only [valsAt_getD] at this
    exact this


end

end Ringo
