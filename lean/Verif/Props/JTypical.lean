import Verif.Proof.JTypical
import Verif.Props.JProto

/-!
# C108: responses within the bounds of `NewParameters` are accepted
-/

namespace Ringo

open Finset Real

/-- Lists of coefficients are determined by the element. -/
theorem toZ_inj {N : Nat} (hN : 1 ≤ N) {z w : List Int} (hz : z.length = N) (hw : w.length = N)
    (h : toZ N z = toZ N w) : z = w :=
  listPoly_mk_inj (cyclo_monic (A := ℤ) hN) cyclo_natDegree hz hw h

theorem Bnd.coeffs {N : Nat} (hN : 1 ≤ N) {z : List Int} {B : Nat} (hz : z.length = N)
    (h : Bnd N (toZ N z) B) : ∀ c ∈ z, c.natAbs ≤ B := by
  obtain ⟨w, h1, h2, h3⟩ := h
  rw [← toZ_inj hN h1 hz h2]
  exact h3

namespace RParams
variable {P : RParams}

theorem chal_ge (h2 : 2 ≤ P.shape.exp) (h64 : P.shape.exp ≤ 64) (hb : 2 ≤ P.shape.base) : 1 ≤ P.chal := by
  unfold chal
  have hk : (2 : ℝ) ≤ P.shape.exp := by exact_mod_cast h2
  have hk' : (P.shape.exp : ℝ) ≤ 64 := by exact_mod_cast h64
  have h1 : 1 ≤ √(P.shape.exp : ℝ) := by
    rw [Real.one_le_sqrt]; linarith
  have h3 : (2 : ℝ) ≤ 2 ^ (120 / (P.shape.exp : ℝ)) := by
    calc (2 : ℝ) = 2 ^ (1 : ℝ) := by rw [Real.rpow_one]
      _ ≤ _ := by
        apply Real.rpow_le_rpow_of_exponent_le (by norm_num)
        rw [le_div_iff₀ (by linarith)]
        linarith
  have h4 : (2 : ℝ) ≤ min (P.shape.base : ℝ) (2 ^ (120 / (P.shape.exp : ℝ))) :=
    le_min (by exact_mod_cast hb) h3
  nlinarith

theorem batchGrowth_ge (hc : 1 ≤ P.chal) : 1 ≤ P.batchGrowth := by
  unfold batchGrowth
  split
  · rename_i h
    have h1 : 1 ≤ √(P.shape.batch : ℝ) := by
      rw [Real.one_le_sqrt]; exact_mod_cast (by omega : 1 ≤ P.shape.batch)
    nlinarith
  · exact le_rfl

/-- The partial evaluations are smaller than the response. -/
theorem partBound_le (S : P.SoundTol) (hc : 1 ≤ P.chal) (hr : 2 ≤ P.shape.rows) (hn : 1 ≤ P.shape.cols)
    (hb : 2 ≤ P.shape.base) : 0 ≤ P.resBlind ∧ P.partBound ≤ 2 * P.resBlind := by
  have hb' : (2 : ℝ) ≤ P.shape.base := by exact_mod_cast hb
  have hr' : (2 : ℝ) ≤ P.shape.rows := by exact_mod_cast hr
  have hn' : (1 : ℝ) ≤ P.shape.cols := by exact_mod_cast hn
  have hG := batchGrowth_ge hc
  have hs : 0 ≤ P.ecdStdDev := by
    have := (abs_le.mp S.ecdDev).1
    by_contra hneg
    push Not at hneg
    have h1 : P.ecdStdDev * √(2 * π) * (P.shape.base - 1) ≤ 0 :=
      mul_nonpos_of_nonpos_of_nonneg (mul_nonpos_of_nonpos_of_nonneg hneg.le (Real.sqrt_nonneg _)) (by linarith)
    unfold tol at this
    linarith
  set k := √(P.shape.exp : ℝ) * P.shape.base with hk
  have hk0 : 0 ≤ k := by positivity
  have hks : 0 ≤ k * P.ecdStdDev := by positivity
  have hB := (abs_le.mp S.blindDev).1
  have hM := (abs_le.mp S.maskBlindDev).1
  have htol : tol ≤ 1 / 4 := by unfold tol; norm_num
  have htol0 : 0 ≤ tol := by unfold tol; norm_num
  have hB1 : k * P.ecdStdDev * (3 / 4) ≤ P.ecdBlindStdDev := by nlinarith
  have hB0 : 0 ≤ P.ecdBlindStdDev := by linarith
  have hM1 : P.ecdBlindStdDev * (3 / 4) ≤ P.maskBlindStdDev := by
    have : P.ecdBlindStdDev ≤ P.chal * P.ecdBlindStdDev := by nlinarith
    nlinarith
  have hM0 : 0 ≤ P.maskBlindStdDev := by linarith
  set r := √(P.shape.rows : ℝ) with hrd
  have hr0 : 0 ≤ r := Real.sqrt_nonneg _
  have h1 : √((P.shape.rows : ℝ) - 1) ≤ r := Real.sqrt_le_sqrt (by linarith)
  have h2 : r ≤ √((P.shape.rows : ℝ) * P.shape.cols + 1) := Real.sqrt_le_sqrt (by nlinarith)
  have h3 : 1 ≤ √(P.shape.cols : ℝ) := by rw [Real.one_le_sqrt]; exact hn'
  have h4 : 1 ≤ √(P.shape.cols : ℝ) * P.chal := by nlinarith
  have h5 : r * P.ecdBlindStdDev + r * P.maskBlindStdDev ≤ √(P.shape.cols : ℝ) * P.chal * (r * P.ecdBlindStdDev) +
      √((P.shape.rows : ℝ) * P.shape.cols + 1) * P.maskBlindStdDev := by
    have a1 : r * P.ecdBlindStdDev ≤ √(P.shape.cols : ℝ) * P.chal * (r * P.ecdBlindStdDev) := by
      have : 0 ≤ r * P.ecdBlindStdDev := by positivity
      nlinarith
    have a2 : r * P.maskBlindStdDev ≤ √((P.shape.rows : ℝ) * P.shape.cols + 1) * P.maskBlindStdDev := by gcongr
    linarith
  have h6 : √((P.shape.rows : ℝ) - 1) * k * P.ecdStdDev + r * P.ecdBlindStdDev ≤
      2 * (r * P.ecdBlindStdDev + r * P.maskBlindStdDev) := by
    have a1 : √((P.shape.rows : ℝ) - 1) * k * P.ecdStdDev ≤ r * (k * P.ecdStdDev) := by
      rw [mul_assoc]; gcongr
    have a2 : r * (k * P.ecdStdDev * (3 / 4)) ≤ r * P.ecdBlindStdDev := by gcongr
    have a3 : r * (P.ecdBlindStdDev * (3 / 4)) ≤ r * P.maskBlindStdDev := by gcongr
    have a4 : 0 ≤ r * P.ecdBlindStdDev := by positivity
    linarith
  have ht : 0 ≤ P.batchGrowth * tail * (P.shape.base + 1) := by
    have : 0 ≤ tail := by unfold tail; positivity
    have : 0 ≤ P.batchGrowth := by linarith
    positivity
  constructor
  · unfold resBlind
    refine mul_nonneg ht (le_trans ?_ h5)
    positivity
  · unfold partBound resBlind
    rw [show 2 * (P.batchGrowth * tail * (P.shape.base + 1) * (√(P.shape.cols : ℝ) * P.chal * (r * P.ecdBlindStdDev) +
      √((P.shape.rows : ℝ) * P.shape.cols + 1) * P.maskBlindStdDev)) = P.batchGrowth * tail * (P.shape.base + 1) *
      (2 * (√(P.shape.cols : ℝ) * P.chal * (r * P.ecdBlindStdDev) +
      √((P.shape.rows : ℝ) * P.shape.cols + 1) * P.maskBlindStdDev)) by ring]
    refine mul_le_mul_of_nonneg_left ?_ ht
    linarith

/-- The response is much larger than its blinding row. -/
theorem resBlind_le (S : P.SoundTol) (hr : 2 ≤ P.shape.rows) (hR : 0 < P.resTwoNm) (hB : 0 ≤ P.resBlind) :
    16 * P.resBlind ≤ P.resTwoNm := by
  have hr' : (2 : ℝ) ≤ P.shape.rows := by exact_mod_cast hr
  have hd : (256 : ℝ) ≤ P.deg := le_max_right _ _
  have hir : (0 : ℝ) ≤ P.inRank := by exact_mod_cast (by have := S.inRank.1; omega : (0 : ℤ) ≤ P.inRank)
  have h1 := (abs_le.mp S.response).1
  have h2 : 256 * P.resBlind ^ 2 ≤ P.deg * ((P.shape.rows - 1) * P.resRow ^ 2 + P.resBlind ^ 2 +
      (P.inRank + 2 ^ 13 / P.deg) * P.resMLWE ^ 2) := by
    have a1 : 0 ≤ ((P.shape.rows : ℝ) - 1) * P.resRow ^ 2 := mul_nonneg (by linarith) (sq_nonneg _)
    have a2 : 0 ≤ ((P.inRank : ℝ) + 2 ^ 13 / P.deg) * P.resMLWE ^ 2 := by positivity
    have a3 := sq_nonneg P.resBlind
    calc 256 * P.resBlind ^ 2 ≤ P.deg * P.resBlind ^ 2 := by gcongr
      _ ≤ _ := by
        gcongr
        linarith
  have h3 : (16 * P.resBlind) ^ 2 ≤ P.resTwoNm ^ 2 := by
    unfold tol at h1
    nlinarith [sq_nonneg P.resBlind]
  exact (le_abs_self _).trans (abs_le_of_sq_le_sq h3 hR.le)

end RParams

/-- The room for the inner commitments, for the modulus itself. -/
theorem newParameters_dcmp {p : Nat} {F : Flt} (hF : F.Ok) {gen : ℤ → ℤ → Option (List Nat)} (hg : GenOk gen)
    {targetN batch : Nat} (hp : 3 ≤ p) (ht : targetN ≤ 2 ^ 47) (hb : batch ≤ 2 ^ 53) {P : RParams}
    (h : F.newParameters gen targetN batch p = .ok P) (hP : P ≠ RParams.zero) {Q : List Nat} (hQ : P.qs = some Q)
    (hn : NearPrimes gen Q) : 1 ≤ P.shape.cols ∧ 2 ≤ P.shape.base ∧ ∃ q : ℝ, (Q.prod : ℝ) ≤ 1.275 * q ∧
      √(P.dcmpLen * P.deg) * P.batchGrowth * (q / 2 / 2 ^ P.inCut) ≤ (1 + tol) * (P.inComDcmpTwoNm / 2) := by
  obtain ⟨ht1, hb1, e, he, nn, mu, r, Q1, Q', hit, hfin⟩ := newParameters_from hF hg hp ht hb h hP
  obtain ⟨hb2, he2⟩ := ecd_base_exp hp he
  obtain ⟨c1, c2, -, c4⟩ := C61_result p hp e he
  have hV : (npVars targetN batch e nn).Ok := npVars_ok ht1 hb1 hb2 he2 hit.one
  obtain ⟨hW, -⟩ := fvars hF c2 ht1 ht hb hb2 hit.one hit.le
  have hshape := fshape hF c2 hW
  have hsh : P.shape = { F.shapeOf (F.npVars targetN batch e nn) batch e with
      ringQ := some nn, ringQOut := some nn } := by rw [hfin]; rfl
  rw [hshape] at hsh
  dsimp only at hsh
  have hQ1 : Q1 = Q := by
    rw [hfin] at hQ
    exact Option.some.inj hQ
  subst hQ1
  obtain ⟨a1, a2, L, M, hm, hle, -⟩ := finner hF hV hW hit.inn
  obtain ⟨-, -, -, -, L', M', hm', -, -⟩ := fouter hF hV hW a1 hm hle hit.out hit.rk
  obtain ⟨Qa, hQa, hQp⟩ := primesFor_ok hg hm.pos' (by rw [← hm.eq]; exact hm.le)
  obtain ⟨Qb, hQb, hQp'⟩ := primesFor_ok hg hm'.pos' (by rw [← hm'.eq]; exact hm'.le)
  have e1 : primesFor gen (logb 2 (2 ^ ((bitsOf L * limbsOf L : ℤ) : ℝ))) = some Q1 := by
    rw [← hm.eq, ← fprimes_eq hF gen hm.pos hm.le hm.log]; exact hit.pr
  have e2 : primesFor gen (logb 2 (2 ^ ((bitsOf L' * limbsOf L' : ℤ) : ℝ))) = some Q' := by
    rw [← hm'.eq, ← fprimes_eq hF gen hm'.pos hm'.le hm'.log]; exact hit.pr'
  have hpl := primes_prod_le hg hm.pos' (by rw [← hm.eq]; exact hm.le) e1 hn
  rw [e1] at hQa
  rw [e2] at hQb
  rw [← Option.some.inj hQa, ← hm.eq, ← hm.val] at hQp
  rw [← Option.some.inj hQb, ← hm'.eq, ← hm'.val] at hQp'
  rw [← hm.eq, ← hm.val] at hpl
  refine ⟨by rw [hsh]; exact hit.one, by rw [hsh]; exact hb2, _, hpl, ?_⟩
  rw [hfin]
  exact (final_sound_q hF c2 ht1 ht hb1 hb hb2 hit.one hit.le hit.inn hit.out hit.rk hQp hQp').2

theorem trunc_real {c : ℤ} {Q k : Nat} (h : 2 ^ (k + 1) * |c| ≤ (Q : ℤ) + 1 + 2 ^ (k + 1)) :
    ((|c| : ℤ) : ℝ) ≤ Q / 2 / 2 ^ k + 2 := by
  have h1 := (Int.cast_le (R := ℝ)).mpr h
  have h2 : (1 : ℝ) ≤ 2 ^ k := one_le_pow₀ (by norm_num)
  push_cast at h1 ⊢
  rw [div_div, ← sub_le_iff_le_add, le_div_iff₀ (by positivity)]
  rw [pow_succ] at h1
  nlinarith

theorem le_growth {a B G : ℝ} (hG : 1 ≤ G) (h : a ≤ B) (hB : 0 ≤ B) : a ≤ G * B := by nlinarith

section
variable {p : Nat} {T T' : Type} [AddCommGroup T] [AddCommGroup T']

/-- `C63_completeness`, with the origin of the integers. -/
theorem complete_sampled [DecidableEq T] (E : JEnv p T T') (h : E.Good) (A : E.ringQ.Lawful)
    (A' : E.ringQ'.Lawful) (x : ZMod p) (vs : List (List (ZMod p))) (hl : vs.length = E.par.batch)
    (hv : ∀ v ∈ vs, v ≠ [] ∧ v.length ≤ E.par.mat.rank) (rs : Nat → ComRand p) :
    ∃ coms : List (List T'), ∃ opens : List (JOpen T T'), ∃ I : Nat → JInts, ∃ pf : JProof T T',
      (∀ i < E.par.batch, E.commit (vs.getD i []) (rs i) =
          .ok (coms.getD i [], opens.getD i ⟨[], [], []⟩) ∧
        E.Opens A A' (vs.getD i []) (coms.getD i []) (opens.getD i ⟨[], [], []⟩) (I i) ∧
        E.Sampled (rs i) (I i)) ∧
      coms.length = E.par.batch ∧ opens.length = E.par.batch ∧
      E.evaluate x vs coms opens =
        .ok (vs.map fun v => ∑ i ∈ range v.length, v.getD i 0 * x ^ i, pf) ∧
      (∃ W, E.Honest x coms pf I W) ∧
      ∀ W, E.Honest x coms pf I W →
        E.toFloat (Nat.sqrt (jSqSum ((List.range E.par.dcmpLen).map W.t ++
          (List.range E.par.outRank).map W.s))) < E.par.dcmpNm →
        E.toFloat (Nat.sqrt (jSqSum ((List.range E.par.mat.rows).map W.e ++
          (List.range (E.par.mlweRank + E.par.inRank)).map W.m ++
          (List.range E.par.inRank).map W.u))) < E.par.resNm →
        (∀ j < E.par.mat.cols, ∀ c ∈ W.f j, 2 * |c| < E.ringQ.qs.prod - 1) →
        E.verify x coms (vs.map fun v => ∑ i ∈ range v.length, v.getD i 0 * x ^ i) pf = .ok true := by
  obtain ⟨coms, opens, I, h1, h2, h3⟩ := commitAll E h A A' vs hv rs
  rw [hl] at h1 h2 h3
  obtain ⟨pf, h4, h5⟩ := JEnv.honest_accepted h A A' x vs coms opens hl h1 h2
    (fun v hm => (hv v hm).2) I (fun i hi => (h3 i hi).2.1)
  refine ⟨coms, opens, I, pf, fun i hi => ⟨(h3 i hi).1, (h3 i hi).2.1, (h3 i hi).2.2.1, (h3 i hi).2.2.2⟩, h1, h2, h4, ?_, ?_⟩
  · have hex : ∀ r : RZ E.par.enc.N, ∃ z : List Int, z.length = E.par.enc.N ∧ toZ E.par.enc.N z = r :=
      fun r => exists_coeffs _ (JEnv.encN_pos h) r
    choose z hz1 hz2 using hex
    refine ⟨⟨fun l => z (∑ i ∈ range E.par.batch, toZ E.par.enc.N (E.betInt x coms i) *
      toZ E.par.enc.N ((I i).t (l / E.par.inRank) (l % E.par.inRank))), fun k => z _, fun k => z _,
      fun k => z _, fun k => z _, fun j => z _⟩, ⟨?_, fun k _ => ⟨hz1 _, hz2 _⟩,
      fun k _ => ⟨hz1 _, hz2 _⟩, fun k _ => ⟨hz1 _, hz2 _⟩, fun k _ => ⟨hz1 _, hz2 _⟩,
      fun k _ => ⟨hz1 _, hz2 _⟩⟩⟩
    intro j hj k hk
    have e1 : (j * E.par.inRank + k) / E.par.inRank = j := by
      rw [Nat.mul_comm, Nat.mul_add_div h.inRank, Nat.div_eq_of_lt hk, Nat.add_zero]
    have e2 : (j * E.par.inRank + k) % E.par.inRank = k := by
      rw [Nat.mul_comm, Nat.mul_add_mod, Nat.mod_eq_of_lt hk]
    refine ⟨hz1 _, ?_⟩
    dsimp only
    rw [hz2, e1, e2]
  · intro W hW n1 n2 n3
    apply JEnv.verify_complete h A A' W (h5 W hW n1 n2)
    intro j hj c hc
    have := n3 j hj c hc
    have h6 := neg_abs_le c
    have h7 := le_abs_self c
    exact .of_lt (by omega) (by omega)

set_option maxHeartbeats 1600000 in
/-- **C108.** For parameters that `NewParameters` returns and all polynomials, points, hash outputs and samples:
`Commit` and `Evaluate` succeed, the values are those of the polynomials, and `Verify` accepts unless a coefficient
of the response (the integers of `Honest`) exceeds the bound that `NewParameters` used for it. -/
theorem C108_complete [DecidableEq T] {F : Flt} (hF : F.Ok) {gen : ℤ → ℤ → Option (List Nat)} (hg : GenOk gen)
    {targetN batch : Nat} (hp : 3 ≤ p) (ht : targetN ≤ 2 ^ 47) (hb : batch ≤ 2 ^ 53) {P : RParams}
    (h : F.newParameters gen targetN batch p = .ok P) (hP : P ≠ RParams.zero) (h2 : 2 ≤ P.shape.exp)
    (h64 : P.shape.exp ≤ 64) (E : JEnv p T T') (hE : E.From P) (hn : NearPrimes gen E.ringQ.qs)
    (A : E.ringQ.Lawful) (A' : E.ringQ'.Lawful) (x : ZMod p) (vs : List (List (ZMod p))) (hl : vs.length = batch)
    (hv : ∀ v ∈ vs, v ≠ [] ∧ v.length ≤ P.shape.rank) (rs : Nat → ComRand p) :
    ∃ coms : List (List T'), ∃ opens : List (JOpen T T'), ∃ I : Nat → JInts, ∃ pf : JProof T T',
      (∀ i < batch, E.commit (vs.getD i []) (rs i) = .ok (coms.getD i [], opens.getD i ⟨[], [], []⟩) ∧
        E.Opens A A' (vs.getD i []) (coms.getD i []) (opens.getD i ⟨[], [], []⟩) (I i) ∧
        E.Sampled (rs i) (I i)) ∧
      coms.length = batch ∧ opens.length = batch ∧
      E.evaluate x vs coms opens = .ok (vs.map fun v => ∑ i ∈ range v.length, v.getD i 0 * x ^ i, pf) ∧
      (∃ W, E.Honest x coms pf I W) ∧
      ∀ W, E.Honest x coms pf I W → E.Typical P W →
        E.verify x coms (vs.map fun v => ∑ i ∈ range v.length, v.getD i 0 * x ^ i) pf = .ok true := by
  obtain ⟨hgood, hbatch, -⟩ := C107_good hF hg hp ht hb h hP h2 h64 E hE
  have hsrank : P.shape.rank = E.par.mat.rank := by
    obtain ⟨_, _, _, -, -, -, hpar⟩ := hE.par
    rw [hpar]; rfl
  obtain ⟨hn1, hbase, q, hQq, hdc⟩ := newParameters_dcmp hF hg hp ht hb h hP hE.qs hn
  obtain ⟨S, k1, k2, k3, k4, k5⟩ := (C106_sound hF hg hp ht hb h).resolve_left hP
  have hl' : vs.length = E.par.batch := hl.trans hbatch.symm
  obtain ⟨coms, opens, I, pf, g1, g2, g3, g4, g5, g6⟩ := complete_sampled E hgood A A' x vs hl'
    (fun v hv' => ⟨(hv v hv').1, (hv v hv').2.trans_eq hsrank⟩) rs
  rw [hbatch] at g1 g2 g3
  refine ⟨coms, opens, I, pf, g1, g2, g3, g4, g5, fun W hW hT => ?_⟩
  obtain ⟨limbs, resNm, dcmpNm, hlim, hres, hdcn, hpar⟩ := hE.par
  obtain ⟨Q1, Q1', -, -, w1, w2, -, -, -, -, -, -, -, -, p1, r1, p2, r2, -⟩ := S.rings
  rw [hE.qs] at w1
  rw [← Option.some.inj w1] at r1
  have hc := RParams.chal_ge h2 h64 hbase
  have hG := RParams.batchGrowth_ge hc
  have hd : (256 : ℝ) ≤ P.deg := le_max_right _ _
  have hN : (E.par.enc.N : ℝ) = P.deg := by rw [hpar]; show ((max P.shape.exp 256 : ℕ) : ℝ) = _; simp [RParams.deg]
  have hN1 := JEnv.encN_pos hgood
  have hir1 := S.inRank.1
  have hor1 := S.outRank.1
  have hir : (E.par.inRank : ℝ) = P.inRank := by
    rw [hpar]
    have : ((P.inRank.toNat : ℕ) : ℤ) = P.inRank := Int.toNat_of_nonneg (by omega)
    exact_mod_cast this
  have hor : (E.par.outRank : ℝ) = P.outRank := by
    rw [hpar]
    have : ((P.outRank.toNat : ℕ) : ℤ) = P.outRank := Int.toNat_of_nonneg (by omega)
    exact_mod_cast this
  have hdl0 : 0 ≤ P.dcmpLen := by rw [S.dcmpLen]; positivity
  have hdl : (E.par.dcmpLen : ℝ) = P.dcmpLen := by
    rw [hpar]
    have : ((P.dcmpLen.toNat : ℕ) : ℤ) = P.dcmpLen := Int.toNat_of_nonneg hdl0
    exact_mod_cast this
  have hml : (E.par.mlweRank : ℝ) ≤ 2 ^ 13 / P.deg := by
    rw [hpar]
    have h0 : 0 ≤ P.mlweRank := by rw [S.mlweRank]; positivity
    have : ((P.mlweRank.toNat : ℕ) : ℤ) = P.mlweRank := Int.toNat_of_nonneg h0
    have e : ((P.mlweRank.toNat : ℕ) : ℝ) = (P.mlweRank : ℝ) := by exact_mod_cast this
    show ((P.mlweRank.toNat : ℕ) : ℝ) ≤ _
    rw [e, S.mlweRank]
    exact Int.floor_le _
  have hic : ((2 : ℝ) ^ P.inCut) = 2 ^ E.par.inCut := by
    rw [hpar]
    show _ = (2 : ℝ) ^ P.inCut.toNat
    rw [← zpow_natCast, Int.toNat_of_nonneg (by have := S.inCut.1; omega)]
  have hoc : ((2 : ℝ) ^ P.outCut) = 2 ^ E.par.outCut := by
    rw [hpar]
    show _ = (2 : ℝ) ^ P.outCut.toNat
    rw [← zpow_natCast, Int.toNat_of_nonneg S.outCut.1]
  have hrows : E.par.mat.rows = (P.shape.rows - 1) + 1 := by rw [hpar]; show P.shape.rows = _; omega
  have hrows' : ((P.shape.rows - 1 : ℕ) : ℝ) = (P.shape.rows : ℝ) - 1 := by
    rw [Nat.cast_sub (by omega)]; simp
  have hcols : E.par.mat.cols = P.shape.cols := by rw [hpar]; rfl
  have hpc : (0 : ℝ) < 2 ^ P.inCut := by positivity
  have hcut0 : 0 ≤ (1 + √(P.shape.cols : ℝ) * P.chal) := by positivity
  have hn1' : (1 : ℝ) ≤ P.shape.cols := by exact_mod_cast hn1
  have hir1' : (1 : ℝ) ≤ P.inRank := by exact_mod_cast hir1
  have hor1' : (1 : ℝ) ≤ P.outRank := by exact_mod_cast hor1
  obtain ⟨hB0, hpart⟩ := RParams.partBound_le S hc k3 hn1 hbase
  have hBl := RParams.resBlind_le S k3 p1 hB0
  -- the modulus is large
  have hbig : 200 ≤ (E.ringQ.qs.prod : ℝ) / 2 / 2 ^ P.inCut := by
    have a1 := S.inCut.2
    have a2 : 1 ≤ √(P.shape.cols : ℝ) := by rw [Real.one_le_sqrt]; exact hn1'
    have a3 : 16 ≤ √((P.inRank : ℝ) * P.deg) := by
      apply Real.le_sqrt_of_sq_le
      nlinarith
    have a4 : 2 ≤ 1 + √(P.shape.cols : ℝ) * P.chal := by nlinarith
    have a5 : 2 * 16 * 1 * 2 ^ P.inCut ≤ (1 + √(P.shape.cols : ℝ) * P.chal) * √((P.inRank : ℝ) * P.deg) *
        P.batchGrowth * 2 ^ P.inCut := by gcongr
    rw [le_div_iff₀ hpc]
    unfold tol at *
    linarith
  apply g6 W hW
  · refine toFloat_lt (R := P.inComDcmpTwoNm) (by rw [hpar]; exact hdcn) p2 ?_ (hE.conv _)
    have ht1 : ∀ l < E.par.dcmpLen, (W.t l).length = E.par.enc.N ∧ ∀ c ∈ W.t l,
        ((|c| : ℤ) : ℝ) ≤ P.batchGrowth * (E.ringQ.qs.prod / 2 / 2 ^ P.inCut + 2) := by
      intro l hl
      have hirn := hgood.inRank
      rw [hgood.dcmp] at hl
      have hj : l / E.par.inRank ≤ E.par.mat.cols := by
        have := (Nat.div_lt_iff_lt_mul (by omega : 0 < E.par.inRank)).mpr hl
        omega
      have hk := Nat.mod_lt l (by omega : E.par.inRank > 0)
      have hlk : l / E.par.inRank * E.par.inRank + l % E.par.inRank = l := Nat.div_add_mod' l _
      obtain ⟨y1, y2⟩ := hW.t _ hj _ hk
      rw [hlk] at y1 y2
      refine ⟨y1, ?_⟩
      by_cases hb1 : 1 < E.par.batch
      · exact hT.trunc hb1 l (by rw [hgood.dcmp]; exact hl)
      · have hbe : E.par.batch = 1 := by have := hgood.batch; omega
        obtain ⟨-, ho, -⟩ := g1 0 (by omega)
        rw [hbe, sum_range_one, JEnv.betInt, if_neg hb1, toZ_one, one_mul] at y2
        rw [toZ_inj hN1 y1 (ho.trunc _ hj _ hk).1 y2]
        intro c hc'
        have y3 := ho.truncSize _ hj _ hk c hc'
        have y6 := trunc_real y3
        rw [hic]
        exact le_growth hG y6 (by positivity)
    have hs1 : ∀ k < E.par.outRank, (W.s k).length = E.par.enc.N ∧ ∀ c ∈ W.s k,
        ((|c| : ℤ) : ℝ) ≤ P.batchGrowth * 2 ^ P.outCut := by
      intro k hk
      obtain ⟨y1, y2⟩ := hW.s k hk
      refine ⟨y1, ?_⟩
      by_cases hb1 : 1 < E.par.batch
      · exact hT.outCut hb1 k hk
      · have hbe : E.par.batch = 1 := by have := hgood.batch; omega
        obtain ⟨-, ho, -⟩ := g1 0 (by omega)
        obtain ⟨z1, z2⟩ := ho.outerRem k hk
        rw [hbe, sum_range_one, JEnv.betInt, if_neg hb1, toZ_one, one_mul] at y2
        have hbnd : Bnd E.par.enc.N (toZ E.par.enc.N (W.s k)) (2 ^ E.par.outCut) := by
          rw [y2]
          refine (Bnd.of_list z1 fun c hc' => ?_).neg
          obtain ⟨z3, z4⟩ := z2 c hc'
          have : (c.natAbs : ℤ) < 2 ^ E.par.outCut := by rw [Int.natAbs_of_nonneg z3]; exact z4
          exact_mod_cast this.le
        intro c hc'
        have z5 := hbnd.coeffs hN1 y1 c hc'
        have z6 : ((|c| : ℤ) : ℝ) ≤ 2 ^ E.par.outCut := by
          rw [Int.abs_eq_natAbs]; exact_mod_cast z5
        rw [hoc]
        exact le_growth hG z6 (by positivity)
    rw [jSqSum_append]
    have s1 := jSqSum_range_le (fun l hl => (ht1 l hl).1) (fun l hl => (ht1 l hl).2)
    have s2 := jSqSum_range_le (fun l hl => (hs1 l hl).1) (fun l hl => (hs1 l hl).2)
    rw [hN, hdl] at s1
    rw [hN, hor] at s2
    refine dcmp_le (L := P.dcmpLen) (d := P.deg) (o := P.outRank) (V := 2 ^ P.outCut) (by exact_mod_cast hdl0)
      (by linarith) (by linarith) (by linarith) (by positivity) hpc hdc hQq hbig S.outCut.2 ?_
    rw [Nat.cast_add]
    exact add_le_add s1 s2
  · refine toFloat_lt (R := P.resTwoNm) (by rw [hpar]; exact hres) p1 ?_ (hE.conv _)
    rw [jSqSum_append, jSqSum_append, hrows]
    have s1 := jSqSum_range_le' (n := P.shape.rows - 1) (N := E.par.enc.N) (z := W.e)
      (fun k hk => (hW.e k (by omega)).1) hT.blind (fun k hk hk' => hT.row k hk (by omega))
    have s2 := jSqSum_range_le (fun l hl => (hW.m l hl).1) hT.mlwe
    have s3 := jSqSum_range_le (fun l hl => (hW.u l hl).1) hT.cut
    rw [hN, hrows'] at s1
    rw [hN, Nat.cast_add, hir] at s2
    rw [hN, hir] at s3
    refine response_le (d := P.deg) (ir := P.inRank) (nu := E.par.mlweRank) (by linarith) (by linarith) S.response
      (U := (1 + √(P.shape.cols : ℝ) * P.chal) * P.batchGrowth * 2 ^ P.inCut) ?_ (by positivity) hml ?_
    · refine le_trans (le_of_eq ?_) S.inCut.2
      ring
    · rw [Nat.cast_add, Nat.cast_add]
      exact add_le_add (add_le_add s1 s2) s3
  · intro j hj c hc'
    have y1 := hT.part j hj c hc'
    have hQ64 : (100 : ℝ) ≤ E.ringQ.qs.prod := by
      have y5 : (1 : ℝ) ≤ 2 ^ P.inCut := by rw [hic]; exact one_le_pow₀ (by norm_num)
      rw [div_div, le_div_iff₀ (by positivity)] at hbig
      nlinarith
    have y2 : 2 * ((|c| : ℤ) : ℝ) < E.ringQ.qs.prod - 1 := by
      unfold tol at r1
      linarith
    exact_mod_cast y2

end

end Ringo
