import Verif.Props.JBuckler
import Verif.Props.JBatchExtractEx
import Verif.Props.EndToEndEx

/-!
# Case for C125: a false statement about squares
-/

namespace Ringo

open Finset Polynomial

set_option linter.unusedSectionVars false

/-- Short vectors are not in the kernel of a key with three entries that are far apart. -/
theorem gap3 {qs : List Nat} (hc : Chain qs) {N : Nat} (hN : 1 ≤ N) {a b d : List Int} (w : Nat → Int) {B C : Nat}
    (ha : Short N B a) (hb : Short N B b) (hd : Short N B d) (hw : ∀ i, (w i).natAbs ≤ C) (M M2 M3 : Nat) (h1 : C < M)
    (h2 : M * B + C < M2) (h3 : M * B + M2 * B + C < M3) (h4 : M * B + M2 * B + M3 * B + C < qs.prod)
    (h : (M : RQ qs N) * toR qs N a + (M2 : RQ qs N) * toR qs N b + (M3 : RQ qs N) * toR qs N d +
      toR qs N ((List.range N).map w) = 0) :
    (∀ c ∈ a, c = 0) ∧ (∀ c ∈ b, c = 0) ∧ ∀ c ∈ d, c = 0 := by
  have hz : toR qs N ((List.range N).map fun i => M * a.getD i 0 + M2 * b.getD i 0 + M3 * d.getD i 0 + w i) = 0 := by
    rw [← h]
    conv_rhs => rw [coeffs_eq_range ha.1, coeffs_eq_range hb.1, coeffs_eq_range hd.1]
    simp only [toR_range, mul_sum, ← sum_add_distrib]
    apply sum_congr rfl
    intro i _
    push_cast
    ring
  have h0 : toR qs N ((List.range N).map fun _ => (0 : Int)) = 0 := by
    rw [toR_range]; simp
  have hd' := toR_inj hc hN (by simp) (by simp) (hz.trans h0.symm)
  have key : ∀ i < N, a.getD i 0 = 0 ∧ b.getD i 0 = 0 ∧ d.getD i 0 = 0 := by
    intro i hi
    have h5 := (List.forall₂_iff_get.1 hd').2 i (by simpa using hi) (by simpa using hi)
    simp only [List.get_eq_getElem, List.getElem_map, List.getElem_range, sub_zero] at h5
    have ha := ha.getD i
    have hb := hb.getD i
    have hd := hd.getD i
    have hw := hw i
    generalize a.getD i 0 = u at *
    generalize b.getD i 0 = v at *
    generalize d.getD i 0 = z at *
    generalize w i = t at *
    have mul_le : ∀ (m : Nat) (e : Int), e.natAbs ≤ B → ((m : Int) * e).natAbs ≤ m * B := by
      intro m e he
      rw [Int.natAbs_mul, Int.natAbs_natCast]; exact Nat.mul_le_mul_left _ he
    have le_mul : ∀ (m : Nat) (e : Int), e ≠ 0 → m ≤ ((m : Int) * e).natAbs := by
      intro m e he
      rw [Int.natAbs_mul, Int.natAbs_natCast]
      exact Nat.le_mul_of_pos_right _ (by omega)
    have hMu := mul_le M u ha
    have hMv := mul_le M2 v hb
    have hMz := mul_le M3 z hd
    have h6 : (M : Int) * u + M2 * v + M3 * z + t = 0 := by
      apply Int.eq_zero_of_abs_lt_dvd h5
      rw [Int.abs_eq_natAbs]
      have : ((M : Int) * u + M2 * v + M3 * z + t).natAbs < qs.prod := by omega
      exact_mod_cast this
    have hz : z = 0 := by
      by_contra hz
      have := le_mul M3 z hz
      omega
    subst hz
    have hv : v = 0 := by
      by_contra hv
      have := le_mul M2 v hv
      omega
    subst hv
    refine ⟨?_, rfl, rfl⟩
    by_contra hu
    have := le_mul M u hu
    omega
  have all : ∀ l : List Int, l.length = N → (∀ i < N, l.getD i 0 = 0) → ∀ c ∈ l, c = 0 := by
    intro l hl h c hc
    obtain ⟨i, hi, rfl⟩ := List.mem_iff_getElem.1 hc
    have := h i (by rw [← hl]; exact hi)
    rwa [List.getD_eq_getElem _ _ hi] at this
  exact ⟨all a ha.1 fun i hi => (key i hi).1, all b hb.1 fun i hi => (key i hi).2.1,
    all d hd.1 fun i hi => (key i hi).2.2⟩

/-- The modulus of the inner commitments. -/
def exQs125 : List Nat := [2 ^ 200 + 1]

/-- The modulus of the outer commitments. -/
def exQ125 : Nat := 2 ^ 225 * 2 ^ 225 * 2 ^ 225 + 1

theorem exQs125_chain : Chain exQs125 :=
  ⟨by simp [exQs125], by norm_num [exQs125], by norm_num [exQs125], by simp [exQs125]⟩

/-- Degree 16, polynomials of rank 16, two commitments. -/
def exPar125 : JPar where
  enc := ⟨⟨16, 2⟩, 8, 16, 1⟩
  mat := ⟨16, 3, 1, 8⟩
  batch := 2
  inRank := 1
  outRank := 1
  mlweRank := 1
  inCut := 0
  outCut := 20
  dcmpLen := 2
  resNm := 2 ^ 24
  dcmpNm := 2 ^ 215

theorem exEnv125 (xof : List (JMsg (RQ exQs125 16) (RQ [exQ125] 16) (ZMod 257)) → Nat → List (BitVec 8))
    (hx : ∀ ms i, (xof ms i).length = 16) :
    ∃ (E : JEnv 257 (RQ exQs125 16) (RQ [exQ125] 16)) (A : E.ringQ.Lawful) (A' : E.ringQ'.Lawful), E.par = exPar125 ∧
      E.xof = xof ∧ E.toFloat = (fun n : Nat => (n : ℚ)) ∧ E.ringQ.qs = exQs125 ∧ E.ringQ'.qs = [exQ125] ∧ E.Good ∧
      E.BindsIn A (2 ^ 43) ∧ E.BindsOut A' (2 ^ 221) := by
  have hq : Chain [exQ125] := ⟨by simp, by norm_num [exQ125], by norm_num [exQ125], by simp⟩
  obtain ⟨E, h1, h2, h3, h4, h5, h6, ⟨A⟩, ⟨A'⟩⟩ : ∃ E : JEnv 257 (RQ exQs125 16) (RQ [exQ125] 16), E.par = exPar125 ∧
      E.xof = xof ∧ E.toFloat = (fun n : Nat => (n : ℚ)) ∧ E.ringQ.qs = exQs125 ∧ E.ringQ'.qs = [exQ125] ∧
      E.Good ∧ Nonempty E.ringQ.Lawful ∧ Nonempty E.ringQ'.Lawful := by
    apply env_exists exPar125 exQs125 exQ125 exQs125_chain hq
    · constructor <;> norm_num [exPar125]
    · constructor <;> norm_num [exPar125]
    · rfl
    · exact (show 1 ≤ challengeBound ⟨16, 2⟩ by decide)
    · have h : challengeBound exPar125.enc.ecd = 8 := (show challengeBound ⟨16, 2⟩ = 8 by decide)
      rw [h]; simp [exQs125, exQ125]
    · simp [exPar125]
    · simp [exPar125]
    · simp [exPar125]
    · simp [exPar125]
    · norm_num [exPar125, exQs125]
    · norm_num [exPar125, exQ125]
    · exact hx
  have hN : E.ringQ.N = 16 := by rw [h6.deg, h1]; rfl
  have hN' : E.ringQ'.N = 16 := by rw [h6.deg', h1]; rfl
  let K : JKey (RQ exQs125 16) (RQ [exQ125] 16) := ⟨[1, 2, 3],
    [[A.val.symm ((2 ^ 46 : Nat) : RQ E.ringQ.qs E.ringQ.N), A.val.symm ((2 ^ 91 : Nat) : RQ E.ringQ.qs E.ringQ.N),
      A.val.symm ((2 ^ 136 : Nat) : RQ E.ringQ.qs E.ringQ.N)]],
    [[A.val.symm 1]],
    [[A'.val.symm ((2 ^ 222 : Nat) : RQ E.ringQ'.qs E.ringQ'.N),
      A'.val.symm ((2 ^ 222 * 2 ^ 222 : Nat) : RQ E.ringQ'.qs E.ringQ'.N)]]⟩
  refine ⟨{ E with key := K }, A, A', h1, h2, h3, h4, h5, ?_, ?_, ?_⟩
  · refine { h6 with inn := ?_, inn2 := ?_, mlwe := ?_, mlwe2 := ?_, out := ?_, out2 := ?_ } <;> dsimp only <;> rw [h1] <;>
      simp [K, exPar125]
  · intro e m u he hm hu h0 k hk
    dsimp only at he hm hu h0 hk
    have h0 := h0 0 (by rw [h1]; simp [exPar125])
    rw [h1] at he hm hu h0 hk
    simp only [exPar125, at2, K, List.getD_cons_zero, List.getD_cons_succ, sum_range_succ, sum_range_zero, zero_add,
      AddEquiv.apply_symm_apply, one_mul, add_zero] at he hm hu h0 hk
    have m0 := hm 0 (by omega)
    have m1 := hm 1 (by omega)
    have u0 := hu 0 (by omega)
    have := gap3 (qs := E.ringQ.qs) A.chain A.pos (fun i => (m 0).getD i 0 + (m 1).getD i 0 + (u 0).getD i 0)
      (C := 3 * 2 ^ 43) (he 0 (by omega)) (he 1 (by omega)) (he 2 (by omega)) (by
        intro i
        have := m0.getD i
        have := m1.getD i
        have := u0.getD i
        omega) (2 ^ 46) (2 ^ 91) (2 ^ 136) (by norm_num) (by norm_num) (by norm_num)
      (by rw [h4]; norm_num [exQs125]) (by
        rw [← h0, toR_range]
        rw [add_assoc, add_assoc, add_assoc, add_assoc, add_assoc, add_assoc]
        conv_rhs => rw [coeffs_eq_range m0.1, coeffs_eq_range m1.1, coeffs_eq_range u0.1]
        simp only [toR_range, ← sum_add_distrib]
        congr 3
        apply sum_congr rfl
        intro i _
        push_cast
        ring)
    obtain rfl | rfl | rfl : k = 0 ∨ k = 1 ∨ k = 2 := by omega
    · exact this.1
    · exact this.2.1
    · exact this.2.2
  · intro t s ht hs h0 k hk
    dsimp only at ht hs h0 hk
    have h0 := h0 0 (by rw [h1]; simp [exPar125])
    rw [h1] at ht hs h0 hk
    simp only [exPar125, at2, K, List.getD_cons_zero, List.getD_cons_succ, sum_range_succ, sum_range_zero, zero_add,
      AddEquiv.apply_symm_apply] at ht hs h0 hk
    have s0 := hs 0 (by omega)
    have := gap (qs := E.ringQ'.qs) A'.chain A'.pos (fun i => (s 0).getD i 0)
      (C := 2 ^ 221) (ht 0 (by omega)) (ht 1 (by omega)) (fun i => s0.getD i) (2 ^ 222) (2 ^ 222 * 2 ^ 222) (by norm_num)
      (by norm_num) (by rw [h5]; norm_num [exQ125]) (by
        rw [← h0]
        conv_rhs => rw [coeffs_eq_range s0.1])
    obtain rfl | rfl : k = 0 ∨ k = 1 := by omega
    · exact this.1
    · exact this.2

theorem prime_257_125 : Fact (Nat.Prime 257) := ⟨by norm_num⟩

attribute [local instance] prime_257_125

/-- `X * X = U`. -/
def opsSq257 : List (CtxOp (ZMod 257)) := [.arith [⟨1, none, [0, 0]⟩, ⟨-1, some 0, []⟩]]

theorem compileSq257 : ∃ cp, compile (p := 257) (2 ^ 3) 0 1 1 opsSq257 = .ok cp ∧
    cp.ctx.wCnt = 1 ∧ cp.ctx.lin = [] ∧ cp.ctx.sums = [] ∧ cp.ctx.arithCheckMaxRank = 17 ∧ cp.ctx.batch = 2 ∧
    cp.ctx.rank = 8 ∧ cp.ctx.circType = 0 ∧ cp.ctx.pwCnt = 1 ∧ cp.ctx.twoDcmp = [] ∧
    cp.ctx.arith = [[⟨1, none, [0, 0]⟩, ⟨-1, some 0, []⟩]] := by
  have hdef : ∃ ctx, (newContext (ZMod 257) (2 ^ 3) 0 1 1).define opsSq257 = .ok ctx ∧ ctx.embRank = 32 ∧
      ctx.wCnt = 1 ∧ ctx.lin = [] ∧ ctx.sums = [] ∧ ctx.arithCheckMaxRank = 17 ∧ ctx.batch = 2 ∧
      ctx.rank = 8 ∧ ctx.circType = 0 ∧ ctx.pwCnt = 1 ∧ ctx.twoDcmp = [] ∧
      ctx.arith = [[⟨1, none, [0, 0]⟩, ⟨-1, some 0, []⟩]] :=
    ⟨_, rfl, rfl, rfl, rfl, rfl, rfl, rfl, rfl, rfl, rfl, rfl, rfl⟩
  obtain ⟨ctx, a1, a2, a3⟩ := hdef
  obtain ⟨cp, h1, h2⟩ := compile_total (p := 257) (N := 2 ^ 3) (ty := 0) (pw0 := 1) (w0 := 1)
    (K := 3) (Ke := 5) rfl (by norm_num) (by norm_num) a1 a2 (by norm_num) (by norm_num)
  exact ⟨cp, h1, by rw [h2]; exact a3⟩

/-- The bound of C125 for `X * X = (3, …, 3)`, for every instance with the parameters `exPar125` whose key is binding. -/
theorem bound125 {cp : Compilation (ZMod 257)} (c1 : compile (p := 257) (2 ^ 3) 0 1 1 opsSq257 = .ok cp)
    (J : JEnv 257 (RQ exQs125 16) (RQ [exQ125] 16)) (A : J.ringQ.Lawful) (A' : J.ringQ'.Lawful)
    [DecidableEq (RQ exQs125 16)] (h1 : J.par = exPar125) (h3 : J.toFloat = (fun n : Nat => (n : ℚ)))
    (h4 : J.ringQ.qs = exQs125) (h6 : J.Good) (hi : J.BindsIn A (2 ^ 43)) (ho : J.BindsOut A' (2 ^ 221))
    (ser : List (RQ [exQ125] 16) → Bytes) (E0 : Env (ZMod 257)) (enc : ZMod 257 → Bytes) (seed : Bytes)
    (P : JCheater 257 J.par.batch (RQ exQs125 16) (RQ [exQ125] 16)) (henc : ∀ a, E0.setBytes (enc a) = a)
    (hfirst : P.first.length = 1) :
    {t : Chal5 257 × (Fin J.par.batch → Fin 16 → BitVec 8) × ColBytes J |
        P.Wins J A (2 ^ 30) ser E0 cp [] ⟨0, circ47 (List.replicate 8 3) []⟩ seed enc t.1 t.2.1 t.2.2}.ncard ≤
      257 ^ 4 * 58 * ((2 ^ 128) ^ 2 * 2 ^ 128) + 257 ^ 5 * ((2 ^ 128 / 64 + 1) * 2 ^ 128) * 2 ^ 128 +
      257 ^ 5 * (2 ^ 128) ^ 2 * (2 ^ 128 / 64 + 1) := by
  obtain ⟨cp', c1', c2, c3, c4, c5, c6, c7, c8, c9, c10, c11⟩ := compileSq257
  obtain rfl : cp = cp' := Except.ok.inj (c1.symm.trans c1')
  have h8 : challengeBound ⟨16, 2⟩ = 8 := by decide
  have hcb : challengeBound J.par.enc.ecd = 8 := by rw [h1]; exact h8
  have hexp : J.par.enc.ecd.exp = 2 := by rw [h1]; rfl
  have hcols : J.par.mat.cols = 1 := by rw [h1]; rfl
  have hbat : J.par.batch = 2 := by rw [h1]; rfl
  have hrank : J.par.mat.rank = 16 := by rw [h1]; rfl
  have hrows : J.par.mat.rows = 3 := by rw [h1]; rfl
  have h64 : challengeBound J.par.enc.ecd ^ J.par.enc.ecd.exp = 64 := by rw [hcb, hexp]; norm_num
  have hR : J.Room (2 ^ 24) (2 ^ 215) (2 ^ 30) := by
    constructor
    · intro n hn
      rw [h3, h1] at hn
      have hn : (n : ℚ) < 2 ^ 24 := hn
      have : n < 2 ^ 24 := by exact_mod_cast hn
      exact this.le
    · intro n hn
      rw [h3, h1] at hn
      have hn : (n : ℚ) < 2 ^ 215 := hn
      have : n < 2 ^ 215 := by exact_mod_cast hn
      exact this.le
    · rw [h4]; norm_num [exQs125]
    · rw [hcb, h1, h4]; norm_num [exQs125, exPar125]
  obtain ⟨poly, -, h⟩ := C125 J h6 A A' (by rw [hbat]) (by rw [hrows]) _ _ _ hR (by rw [hcb, hexp]; exact ho)
    (by rw [hcb, hexp]; exact hi) ser E0 (le_refl 3) c1
    (by
      intro op hop
      simp only [opsSq257, List.mem_cons, List.not_mem_nil, or_false] at hop
      subst hop
      intro t ht
      simp only [List.mem_cons, List.not_mem_nil, or_false] at ht
      rcases ht with rfl | rfl <;> simp)
    (by rw [hbat, c6]) (by rw [c5]; simp) (by rw [c3]; intro _ e he; simp at he) (by rw [hrank]; norm_num) 48
    (by rw [c11, hrank]; decide) (by rw [c4]; simp) (by rw [hrank]; norm_num) (by rw [hrank]; norm_num) enc henc seed
  have hl : linCount cp = 0 := by unfold linCount; rw [c3]; rfl
  have := h [] ⟨0, circ47 (List.replicate 8 3) []⟩ P (by rw [hfirst, c2, c3, c4]; rfl) (by
    intro pw sw hpw hsw _ _ hE
    have hpw' : assignV cp [] (circ47 (List.replicate 8 3) []) = .ok (some [List.replicate 8 3]) := by
      unfold assignV
      rw [c7, c9]
      rfl
    rw [hpw'] at hpw
    injection hpw with hpw
    injection hpw with hpw
    subst hpw
    have := hE.arith 0 (by rw [c7]; norm_num)
    rw [c11] at this
    simp only [Constraint.onRow, Constraint.value, Term.value, rowOf, List.map_cons, List.map_nil, List.prod_cons,
      List.prod_nil, List.sum_cons, List.sum_nil, List.getD_cons_zero] at this
    have hsq : ∀ a : ZMod 257, a * a ≠ 3 := by decide +kernel
    exact hsq ((sw.getD 0 []).getD 0 0) (by simp at this ⊢; linear_combination this))
  refine le_trans this (le_of_eq ?_)
  rw [hl, h64, hcols, hbat]
  norm_num

/-- **Case for C125**: `3` is not a square modulo 257.  Whoever wants to prove `X * X = (3, …, 3)` in rank 8 wins,
whatever they commit to, for less than `58 / 257 + 2 / 64` of all challenges, up to rounding. -/
theorem C125_case (xof : List (JMsg (RQ exQs125 16) (RQ [exQ125] 16) (ZMod 257)) → Nat → List (BitVec 8))
    (hx : ∀ ms i, (xof ms i).length = 16) [DecidableEq (RQ exQs125 16)] :
    ∃ (J : JEnv 257 (RQ exQs125 16) (RQ [exQ125] 16)) (A : J.ringQ.Lawful) (cp : Compilation (ZMod 257)), J.Good ∧
      Nonempty J.ringQ'.Lawful ∧ J.xof = xof ∧ J.par.batch = 2 ∧ J.par.mat.cols = 1 ∧
      compile (p := 257) (2 ^ 3) 0 1 1 opsSq257 = .ok cp ∧
      ∀ (ser : List (RQ [exQ125] 16) → Bytes) (E0 : Env (ZMod 257)) (enc : ZMod 257 → Bytes) (seed : Bytes)
        (P : JCheater 257 J.par.batch (RQ exQs125 16) (RQ [exQ125] 16)),
      (∀ a, E0.setBytes (enc a) = a) → P.first.length = 1 →
      {t : Chal5 257 × (Fin J.par.batch → Fin 16 → BitVec 8) × ColBytes J |
          P.Wins J A (2 ^ 30) ser E0 cp [] ⟨0, circ47 (List.replicate 8 3) []⟩ seed enc t.1 t.2.1 t.2.2}.ncard ≤
        257 ^ 4 * 58 * ((2 ^ 128) ^ 2 * 2 ^ 128) + 257 ^ 5 * ((2 ^ 128 / 64 + 1) * 2 ^ 128) * 2 ^ 128 +
        257 ^ 5 * (2 ^ 128) ^ 2 * (2 ^ 128 / 64 + 1) := by
  obtain ⟨cp, c1, -⟩ := compileSq257
  obtain ⟨J, A, A', h1, h2, h3, h4, h5, h6, hi, ho⟩ := exEnv125 xof hx
  exact ⟨J, A, cp, h6, ⟨A'⟩, h2, by rw [h1]; rfl, by rw [h1]; rfl, c1, fun ser E0 enc seed P henc hfirst =>
    bound125 c1 J A A' h1 h3 h4 h6 hi ho ser E0 enc seed P henc hfirst⟩

end Ringo
