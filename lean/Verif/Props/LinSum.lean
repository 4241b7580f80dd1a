import Verif.Proof.Piop4
import Verif.Props.Arith

/-!
# C37–C40: the linear check and the sumcheck
-/

namespace Ringo

open Finset Polynomial

section
variable {p : Nat} [Fact p.Prime]

/-! ## Statements -/

/-- Every linear constraint `wOut = M wIn` of the circuit holds for the vectors `sw`. -/
def LinHolds (cp : Compilation (ZMod p)) (users : Nat → LinearChecker (ZMod p))
    (proj : List (List Bool)) (sw : List (List (ZMod p))) : Prop :=
  ∀ e ∈ cp.ctx.lin, ∀ x ∈ e.2, ∃ L, resolve users proj e.1 = .ok L ∧
    L.transformTo (List.replicate cp.ctx.rank 0) (sw.getD x.2 []) = .ok (sw.getD x.1 [])

/-- The polynomial with coefficients `w` encodes the vector `v`: it agrees with `Encode(v)` on the
domain. -/
def Encodes (cp : Compilation (ZMod p)) (v w : List (ZMod p)) : Prop :=
  ∃ e, cp.ecd.encode v = .ok e ∧ (X ^ cp.ctx.rank - 1) ∣ listPoly w - listPoly e.coeffs

/-- The number of linear constraints. -/
def linCount (cp : Compilation (ZMod p)) : Nat := (cp.ctx.lin.map (fun e => e.2.length)).sum

/-! ## Lemmas -/

theorem linVals_eval (cp : Compilation (ZMod p)) (users : Nat → LinearChecker (ZMod p))
    (proj : List (List Bool)) (wps : List (List (ZMod p))) (evals vec : List (ZMod p)) (x : ZMod p)
    (hev : EvalsOf wps x evals) (lin : List (CheckerKey × List (Nat × Nat)))
    (hx : ∀ e ∈ lin, ∀ y ∈ e.2, y.1 < wps.length ∧ y.2 < wps.length) :
    linVals cp users proj evals vec x lin =
      (linTerms cp users proj (witPoly wps) vec lin).map (eval x) := by
  unfold linVals linTerms
  rw [List.map_flatMap]
  apply List.flatMap_congr
  intro e he
  rw [List.map_map]
  apply List.map_congr_left
  intro y hy
  obtain ⟨h1, h2⟩ := hx e he y hy
  simp only [Function.comp]
  rw [eval_sub, eval_mul, eval_mul, hev.getD _ h1, hev.getD _ h2]

theorem listPoly_degree_of_zero (w : List (ZMod p)) (N : Nat)
    (h0 : ∀ i, N ≤ i → w.getD i 0 = 0) : (listPoly w).degree < (N : WithBot ℕ) := by
  rw [degree_lt_iff_coeff_zero]
  intro i hi
  rw [listPoly_coeff]; exact h0 i (by exact_mod_cast hi)

variable {K Ke : Nat} {g ge : ZMod p} {cp : Compilation (ZMod p)}

/-- Completeness of the linear check, for the tables of the prover. -/
theorem linComplete (h : GoodCp K Ke g ge cp) {pwCnt jrank : Nat}
    {pwNTT : List (Poly (ZMod p))} {wNTT : List (Option (Poly (ZMod p)))} {pubP : Nat → (ZMod p)[X]}
    {sw wps : List (List (ZMod p))} (hwl : wps.length = sw.length)
    (ht : NttTables Ke (X ^ 2 ^ Ke - 1) (fun i => ge ^ rev Ke i) pwCnt sw.length pwNTT wNTT pubP
      (witPoly wps))
    (hw : ∀ i < sw.length, (witPoly wps i).natDegree ≤ 2 ^ K ∧
        ∀ j < 2 ^ K, (witPoly wps i).eval (g ^ rev K j) = (sw.getD i []).getD j 0)
    (hsw : ∀ v ∈ sw, v.length = 2 ^ K)
    {users : Nat → LinearChecker (ZMod p)} {proj : List (List Bool)}
    (hlin : LinOK (2 ^ K) users proj cp.ctx.lin)
    (hx : ∀ e ∈ cp.ctx.lin, ∀ x ∈ e.2, x.1 < sw.length ∧ x.2 < sw.length)
    (hrel : LinHolds cp users proj sw)
    (hj : 2 ^ K - 1 ≤ jrank) (b lc : ZMod p) (mask : List (ZMod p)) (hm : mask.length = 2 ^ Ke)
    (hmd : (listPoly mask).degree < ((2 * 2 ^ K : Nat) : WithBot ℕ)) (maskSum : ZMod p)
    (hms : dsum K g (listPoly mask) = (2 ^ K : Nat) * maskSum) :
    ∃ quo remLo remHi, linCheckP cp users proj jrank b lc ⟨mask, false⟩ wNTT =
        .ok (quo, remLo, remHi) ∧
      quo.length = 2 ^ K ∧ remLo.length = 2 ^ K - 1 ∧ remHi.length = jrank ∧
      ∀ x evals, EvalsOf wps x evals →
        linCheckV cp users proj jrank b lc ((listPoly mask).eval x) x (expU64 x cp.ctx.rank - 1) maskSum
          ((listPoly quo).eval x) ((listPoly remLo).eval x) ((listPoly remHi).eval x) evals = .ok true := by
  obtain ⟨quo, lo, hi, e1, e2, e3, e4, f, f1, f2, f3⟩ := linCheckP_spec h ht (fun i hi => (hw i hi).1)
    hlin hx hj b lc mask hm hmd
  refine ⟨quo, lo, hi, e1, e2, e3, e4, ?_⟩
  intro x evals hev
  have hlen := hev.length
  rw [linCheckV_spec h hj hlin evals (fun e he w hwm => by have := hx e he w hwm; omega)]
  congr 1
  rw [decide_eq_true_iff]
  set vec : List (ZMod p) := (List.range (2 ^ K)).map (fun i => lc ^ i) with hvec
  have hvl : vec.length = 2 ^ K := by simp [hvec]
  -- the constant term is the mask's
  have hz : ∀ t ∈ (linTerms cp users proj (witPoly wps) vec cp.ctx.lin).map (dsum K g), t = 0 := by
    intro t htm
    rw [List.mem_map] at htm
    obtain ⟨q, hq, rfl⟩ := htm
    unfold linTerms at hq
    rw [List.mem_flatMap] at hq
    obtain ⟨e, he, hq⟩ := hq
    rw [List.mem_map] at hq
    obtain ⟨y, hy, rfl⟩ := hq
    obtain ⟨hy1, hy2⟩ := hx e he y hy
    have hlen2 : (sw.getD y.2 []).length = 2 ^ K := by
      rw [List.getD_eq_getElem?_getD, List.getElem?_eq_getElem hy2]
      exact hsw _ (List.getElem_mem _)
    rw [linTerm_dsum h hlin he vec (sw.getD y.2 []) (sw.getD y.1 []) hvl hlen2 _ _ (hw _ hy2).2
      (hw _ hy1).2]
    obtain ⟨L, l1, l2⟩ := hrel e he y hy
    have : keyMap (2 ^ K) users proj e.1 (sw.getD y.2 []) = sw.getD y.1 [] := by
      unfold keyMap; rw [l1]; simp only
      rw [h.rank] at l2
      rw [l2]
    rw [this, sub_self]
  have hc : (f %ₘ (X ^ 2 ^ K - 1)).coeff 0 = maskSum := by
    have h1 := h.dsum_mod f
    have h2 : dsum K g f = (2 ^ K : Nat) * maskSum := by
      rw [f1, dsum_add, dsum_C_mul, horner_dsum]
      have : dsum K g (0 : (ZMod p)[X]) = 0 := by simp [dsum]
      rw [this, horner_zero _ _ hz, mul_zero, zero_add, hms]
    rw [h1] at h2
    exact mul_left_cancel₀ h.two_pow_ne h2
  rw [hc] at f2
  constructor
  · rw [f3, eval_mul, eval_pow, eval_X]
  · rw [linVals_eval cp users proj wps evals vec x hev _ (by rw [hwl]; exact hx), expU64_eq, h.rank]
    have h3 := congrArg (eval x) f2
    rw [f1] at h3
    simp only [eval_add, eval_mul, eval_sub, eval_pow, eval_X, eval_one, eval_C] at h3
    rw [horner_eval, eval_zero] at h3
    rw [h3]; ring

/-- Completeness of the sumcheck, for the tables of the prover; also what happens when the total
is not zero. -/
theorem sumCheck_run (h : GoodCp K Ke g ge cp) {jrank : Nat}
    {pwNTT : List (Poly (ZMod p))} {wNTT : List (Option (Poly (ZMod p)))}
    {pw sw wps pps : List (List (ZMod p))} (hwl : wps.length = sw.length) (hpl : pps.length = pw.length)
    (ht : NttTables Ke (X ^ 2 ^ Ke - 1) (fun i => ge ^ rev Ke i) pw.length sw.length pwNTT wNTT
      (witPoly pps) (witPoly wps))
    (hp : ∀ i < pw.length, (witPoly pps i).natDegree ≤ 2 ^ K - 1 ∧
        ∀ j < 2 ^ K, (witPoly pps i).eval (g ^ rev K j) = (pw.getD i []).getD j 0)
    (hw : ∀ i < sw.length, (witPoly wps i).natDegree ≤ 2 ^ K ∧
        ∀ j < 2 ^ K, (witPoly wps i).eval (g ^ rev K j) = (sw.getD i []).getD j 0)
    (hr : ∀ c ∈ cp.ctx.sums, c.Refs pw.length sw.length)
    (hle : 2 ^ K ≤ cp.ctx.sumCheckMaxRank) (hj : 2 ^ K - 1 ≤ jrank) (b : ZMod p)
    (mask : List (ZMod p)) (hm : mask.length = 2 ^ Ke)
    (hmd : (listPoly mask).degree < (cp.ctx.sumCheckMaxRank : WithBot ℕ)) (maskSum : ZMod p)
    (hms : dsum K g (listPoly mask) = (2 ^ K : Nat) * maskSum) :
    ∃ quo remLo remHi, sumCheckP cp jrank b ⟨mask, false⟩ pwNTT wNTT = .ok (quo, remLo, remHi) ∧
      quo.length = cp.ctx.sumCheckMaxRank - 2 ^ K ∧ remLo.length = 2 ^ K - 1 ∧
      remHi.length = jrank ∧
      ∀ x evals, EvalsOf wps x evals →
        sumCheckV cp.ctx jrank b ((listPoly mask).eval x) x (expU64 x cp.ctx.rank - 1) maskSum
          ((listPoly quo).eval x) ((listPoly remLo).eval x) ((listPoly remHi).eval x) evals
          (pps.map (fun e => evalAt e.length e x)) =
        .ok (decide (b * (b * ∑ i ∈ range (2 ^ K),
          (cp.ctx.sums.map (fun c => c.onRow pw sw i)).sum) = 0)) := by
  obtain ⟨quo, lo, hi, e1, e2, e3, e4, f, f1, f2, f3⟩ := sumCheckP_spec h ht hr
    (fun i hi => (hp i hi).1) (fun i hi => (hw i hi).1) hle hj b mask hm hmd
  refine ⟨quo, lo, hi, e1, e2, e3, e4, ?_⟩
  intro x evals hev
  rw [sumCheckV_spec cp.ctx (by rw [h.rank]; exact hj) evals _ pw.length sw.length hr (by simp [hpl])
    (by rw [← hwl]; exact hev.length)]
  have hval : (cp.ctx.sums.map (fun c => c.value ((pps.map (fun e => evalAt e.length e x)).getD · 0)
      (evals.getD · 0))) = cp.ctx.sums.map (fun c => c.value (fun a => (witPoly pps a).eval x)
      (fun a => (witPoly wps a).eval x)) := by
    apply List.map_congr_left
    intro c hcm
    refine Constraint.value_congr c _ _ _ _ _ _ (hr c hcm) (fun a ha => ?_) (fun a ha => ?_)
    · unfold witPoly
      rw [listPoly_eval]
      simp [hpl, ha]
    · exact hev.getD a (by rw [hwl]; exact ha)
  set T := ∑ i ∈ range (2 ^ K), (cp.ctx.sums.map (fun c => c.onRow pw sw i)).sum with hT
  have hcp : dsum K g (circuitPoly b cp.ctx.sums (witPoly pps) (witPoly wps)) = b * T := by
    unfold dsum
    rw [hT, mul_sum]
    apply sum_congr rfl
    intro i hi
    rw [mem_range] at hi
    rw [circuitPoly_eval]
    congr 2
    apply List.map_congr_left
    intro c hcm
    exact Constraint.value_congr c _ _ _ _ _ _ (hr c hcm) (fun a ha => (hp a ha).2 i hi)
      (fun a ha => (hw a ha).2 i hi)
  have hc : (2 ^ K : Nat) * ((f %ₘ (X ^ 2 ^ K - 1)).coeff 0 - maskSum) = b * (b * T) := by
    rw [mul_sub, ← h.dsum_mod f, f1, dsum_add, dsum_C_mul, hcp, hms]; ring
  have h3 := congrArg (eval x) f2
  have h4 : f.eval x = b * (circuitPoly b cp.ctx.sums (witPoly pps) (witPoly wps)).eval x +
      (listPoly mask).eval x := by rw [f1]; simp
  rw [h4, circuitPoly_eval] at h3
  simp only [eval_add, eval_mul, eval_sub, eval_pow, eval_X, eval_one, eval_C] at h3
  congr 1
  rw [decide_eq_decide, hval, h3, expU64_eq, h.rank]
  constructor
  · rintro ⟨-, h5⟩
    have h6 : (f %ₘ (X ^ 2 ^ K - 1)).coeff 0 = maskSum := by linear_combination h5
    rw [← hc, h6, sub_self, mul_zero]
  · intro h5
    rw [h5] at hc
    have h6 : (f %ₘ (X ^ 2 ^ K - 1)).coeff 0 = maskSum :=
      sub_eq_zero.mp ((mul_eq_zero.mp hc).resolve_left h.two_pow_ne)
    refine ⟨?_, ?_⟩
    · rw [f3, eval_mul, eval_pow, eval_X]
    · rw [h6]; ring

/-! ## C37 -/

/-- **C37.** If `wOut = M wIn` for every linear constraint, the prover's messages pass the verifier's
linear check: for all encoding randomness `enc`, every mask (`r` are its random elements), every
batching challenge `b`, every `lc` and every evaluation point `x`.  The checkers have to meet the
contract of the interface (`LinOK`; for the library's own checkers that is C30–C33), and the rank of
the commitment scheme has to be at least `rank - 1`. -/
theorem C37_linComplete {ty pw0 w0 : Nat} {ops : List (CtxOp (ZMod p))} (hK : 3 ≤ K)
    (hc : compile (2 ^ K) ty pw0 w0 ops = .ok cp) (hv : ∀ op ∈ ops, op.Valid pw0 w0)
    (hne : cp.ctx.lin ≠ []) (sw : List (List (ZMod p))) (hsl : sw.length = cp.ctx.wCnt)
    (hsw : ∀ v ∈ sw, v.length = 2 ^ K)
    (users : Nat → LinearChecker (ZMod p)) (proj : List (List Bool))
    (hlin : LinOK (2 ^ K) users proj cp.ctx.lin) (hrel : LinHolds cp users proj sw)
    (jrank : Nat) (hj : 2 ^ K - 1 ≤ jrank) (enc r : Nat → ZMod p) :
    ∃ wps wNTT mask maskSum, EncodedWit cp sw enc wps wNTT ∧
      sumCheckMask cp.ev cp.ctx.rank (2 * cp.ctx.rank) r = .ok (mask, maskSum) ∧
      ∀ b lc, ∃ quo remLo remHi,
        linCheckP cp users proj jrank b lc mask wNTT = .ok (quo, remLo, remHi) ∧
        ∀ x evals maskEval, EvalsOf wps x evals → mask.evaluate x = .ok maskEval →
          linCheckV cp users proj jrank b lc maskEval x (expU64 x cp.ctx.rank - 1) maskSum
            (evalAt quo.length quo x) (evalAt remLo.length remLo x) (evalAt remHi.length remHi x)
            evals = .ok true := by
  have hlt : 2 ^ K < max cp.ctx.arithCheckMaxRank cp.ctx.sumCheckMaxRank := by
    have hi : CtxInv (2 ^ K) pw0 w0 cp.ctx := CtxInv.define ops (CtxInv.new _ _ _ _) (compile_inv hc).1
    have h1 := hi.linMax hne
    have h2 : 2 ^ 3 ≤ 2 ^ K := Nat.pow_le_pow_right (by norm_num) hK
    refine lt_of_lt_of_le ?_ (le_max_left _ _)
    omega
  obtain ⟨Ke, g, ge, h⟩ := compile_good hK hc hlt
  have href := compile_refs hc hv
  obtain ⟨wps, wNTT, henc⟩ := encodedWit_exists h sw enc hsw
  obtain ⟨pps, pwNTT, p1, p2, p3, ht, p4, p5⟩ := tables_spec h (pw := []) (by simp) hsw henc
  obtain ⟨mask, m1, m2, m3, m4⟩ := h.sumCheckMask (2 * 2 ^ K) (by omega) h.lin_emb r
  refine ⟨wps, wNTT, ⟨mask, false⟩, r 0, henc, by rw [h.rank]; exact m1, ?_⟩
  intro b lc
  obtain ⟨quo, lo, hi, e1, -, -, -, e5⟩ := linComplete h henc.1 ht p5 hsw hlin
    (by rw [hsl]; exact href.lin) hrel hj b lc mask m2 (listPoly_degree_of_zero mask _ m3) (r 0) m4
  refine ⟨quo, lo, hi, e1, ?_⟩
  intro x evals maskEval hev hme
  rw [evaluate_ok] at hme; cases hme
  rw [← listPoly_eval, ← listPoly_eval, ← listPoly_eval]
  exact e5 x evals hev

/-! ## C38 -/

theorem horner_poly (P : List (ZMod p)) :
    (horner (X : (ZMod p)[X]) (P.map C) 0).natDegree ≤ P.length - 1 ∧
    (horner (X : (ZMod p)[X]) (P.map C) 0 = 0 → ∀ c ∈ P, c = 0) ∧
    ∀ b, (horner (X : (ZMod p)[X]) (P.map C) 0).eval b = horner b P 0 := by
  induction P using List.reverseRecOn with
  | nil => simp [horner]
  | append_singleton P c ih =>
    obtain ⟨i1, i2, i3⟩ := ih
    have e : horner (X : (ZMod p)[X]) ((P ++ [c]).map C) 0 =
        X * horner (X : (ZMod p)[X]) (P.map C) 0 + C c := by
      rw [List.map_append, horner_append]; rfl
    rw [e]
    refine ⟨?_, ?_, ?_⟩
    · refine (natDegree_add_le _ _).trans (max_le ?_ ?_)
      · cases hP : P with
        | nil => simp [horner]
        | cons a l =>
          rw [← hP]
          refine natDegree_mul_le.trans ?_
          have : 1 ≤ P.length := by rw [hP]; simp
          rw [natDegree_X, List.length_append, List.length_singleton]
          omega
      · simp
    · intro h0
      have hc0 : c = 0 := by
        have := congrArg (fun q => coeff q 0) h0
        simpa using this
      rw [hc0, C_0, add_zero] at h0
      have h1 := (mul_eq_zero.mp h0).resolve_left X_ne_zero
      intro d hd
      rw [List.mem_append, List.mem_singleton] at hd
      rcases hd with hd | rfl
      · exact i2 h1 d hd
      · exact hc0
    · intro b
      rw [eval_add, eval_mul, eval_X, eval_C, i3, horner_append]; rfl

theorem linTerms_length (users : Nat → LinearChecker (ZMod p)) (proj : List (List Bool))
    (witP : Nat → (ZMod p)[X]) (vec : List (ZMod p)) :
    (linTerms cp users proj witP vec cp.ctx.lin).length = linCount cp := by
  unfold linTerms linCount
  rw [List.length_flatMap]
  congr 1
  apply List.map_congr_left
  intro e _
  simp

theorem Encodes.eval (h : GoodCp K Ke g ge cp) {v w : List (ZMod p)} (hv : v.length = 2 ^ K)
    (he : Encodes cp v w) (i : Nat) (hi : i < 2 ^ K) :
    (listPoly w).eval (g ^ rev K i) = v.getD i 0 := by
  obtain ⟨e, e1, e2⟩ := he
  obtain ⟨e', f1, -, -, f4⟩ := h.encode v hv
  rw [e1] at f1; cases f1
  rw [h.rank, h.pts.dvd_iff] at e2
  have := e2 i hi
  rw [eval_sub, sub_eq_zero] at this
  rw [this, f4 i hi]

/-- Every polynomial encodes a vector. -/
theorem encodes_exists (h : GoodCp K Ke g ge cp) (w : List (ZMod p)) :
    ∃ v, v.length = 2 ^ K ∧ Encodes cp v w := by
  refine ⟨(List.range (2 ^ K)).map (fun i => (listPoly w).eval (g ^ rev K i)), by simp, ?_⟩
  obtain ⟨e, e1, e2, e3, e4⟩ := h.encode
    ((List.range (2 ^ K)).map (fun i => (listPoly w).eval (g ^ rev K i))) (by simp)
  refine ⟨_, e1, ?_⟩
  rw [h.rank, h.pts.dvd_iff]
  intro i hi
  rw [eval_sub, e4 i hi]
  simp [hi]

/-- The identities that follow from a check passing on many points: the remainder has small degree,
so that the sum over the domain is what the prover claimed. -/
theorem remainder_sum (h : GoodCp K Ke g ge cp) {jrank : Nat} (hj : 2 ^ K - 1 ≤ jrank)
    (f : (ZMod p)[X]) (maskSum : ZMod p) (quo lo hi : List (ZMod p)) (hhi : hi.length ≤ jrank)
    (h1 : listPoly hi = X ^ (jrank - (2 ^ K - 1)) * listPoly lo)
    (h2 : f = listPoly quo * (X ^ 2 ^ K - 1) + listPoly lo * X + C maskSum) :
    dsum K g f = (2 ^ K : Nat) * maskSum := by
  have hN : 2 ≤ 2 ^ K := by
    calc 2 = 2 ^ 1 := by norm_num
      _ ≤ 2 ^ K := Nat.pow_le_pow_right (by norm_num) (by have := h.hK; omega)
  have hlo : (listPoly lo * X).natDegree < 2 ^ K := by
    by_cases h0 : listPoly lo = 0
    · rw [h0, zero_mul, natDegree_zero]; omega
    · have h3 := listPoly_natDegree_le hi jrank hhi
      rw [h1, natDegree_mul (pow_ne_zero _ X_ne_zero) h0, natDegree_X_pow] at h3
      rw [natDegree_mul h0 X_ne_zero, natDegree_X]
      omega
  rw [h2, dsum_add, dsum_add, h.dsum_vanish, dsum_C, h.dsum_low _ hlo, coeff_mul_X_zero]
  ring

theorem natDegree_horner_le {m : Nat} (b : ZMod p) (ts : List (ZMod p)[X]) (a : (ZMod p)[X])
    (ha : a.natDegree ≤ m) (ht : ∀ t ∈ ts, t.natDegree ≤ m) : (horner (C b) ts a).natDegree ≤ m := by
  induction ts generalizing a with
  | nil => exact ha
  | cons t ts ih =>
    refine ih _ ?_ (fun u hu => ht u (by simp [hu]))
    refine (natDegree_add_le _ _).trans (max_le ?_ (ht t (by simp)))
    refine natDegree_mul_le.trans ?_
    rw [natDegree_C, zero_add]; exact ha

theorem witPoly_natDegree {wps : List (List (ZMod p))} {jrank : Nat} (hwps : ∀ v ∈ wps, v.length ≤ jrank)
    (i : Nat) : (witPoly wps i).natDegree ≤ jrank - 1 := by
  apply listPoly_natDegree_le
  rw [List.getD_eq_getElem?_getD]
  cases hi : wps[i]? with
  | none => simp
  | some v => exact hwps v (List.mem_of_getElem? hi)

/-- **C38.** Let the committed polynomials `wps` (at most `jrank` coefficients each) encode the
vectors `sw`, and let one linear constraint `wOut = M wIn` fail for `sw`.  Then, except for at most
`rank - 1` values of the challenge `lc`, and, given a mask and its claimed sum, except for at most as
many values of the batching challenge `b` as there are linear constraints, no messages `quo`, `remLo`,
`remHi` pass the verifier's linear check on more points than the degree of the checked identities. -/
theorem C38_linSound {ty pw0 w0 : Nat} {ops : List (CtxOp (ZMod p))} (hK : 3 ≤ K)
    (hc : compile (2 ^ K) ty pw0 w0 ops = .ok cp) (hv : ∀ op ∈ ops, op.Valid pw0 w0)
    (users : Nat → LinearChecker (ZMod p)) (proj : List (List Bool))
    (hlin : LinOK (2 ^ K) users proj cp.ctx.lin)
    (jrank : Nat) (hj : 2 ^ K - 1 ≤ jrank)
    (sw wps : List (List (ZMod p))) (hsl : sw.length = cp.ctx.wCnt) (hwl : wps.length = cp.ctx.wCnt)
    (hsw : ∀ v ∈ sw, v.length = 2 ^ K) (hwps : ∀ w ∈ wps, w.length ≤ jrank)
    (henc : ∀ (i : Nat) (v w : List (ZMod p)), sw[i]? = some v → wps[i]? = some w → Encodes cp v w)
    (e : CheckerKey × List (Nat × Nat)) (he : e ∈ cp.ctx.lin) (x : Nat × Nat) (hx : x ∈ e.2)
    (hfail : ∀ L, resolve users proj e.1 = .ok L →
      L.transformTo (List.replicate (2 ^ K) 0) (sw.getD x.2 []) ≠ .ok (sw.getD x.1 [])) :
    ∃ badLc : Finset (ZMod p), badLc.card ≤ 2 ^ K - 1 ∧ ∀ lc ∉ badLc,
      ∀ (mask : List (ZMod p)) (maskSum : ZMod p), mask.length ≤ jrank →
      ∃ badB : Finset (ZMod p), badB.card ≤ linCount cp ∧ ∀ b ∉ badB,
        ∀ quo remLo remHi : List (ZMod p), quo.length ≤ jrank → remLo.length ≤ jrank →
          remHi.length ≤ jrank → ∀ S : Finset (ZMod p),
          (∀ y ∈ S, ∃ evals, EvalsOf wps y evals ∧
            linCheckV cp users proj jrank b lc (evalAt mask.length mask y) y
              (expU64 y cp.ctx.rank - 1) maskSum (evalAt quo.length quo y)
              (evalAt remLo.length remLo y) (evalAt remHi.length remHi y) evals = .ok true) →
          S.card ≤ max (2 * jrank - 2 ^ K) (2 ^ K + jrank - 1) := by
  have hne : cp.ctx.lin ≠ [] := List.ne_nil_of_mem he
  have hlt : 2 ^ K < max cp.ctx.arithCheckMaxRank cp.ctx.sumCheckMaxRank := by
    have hi : CtxInv (2 ^ K) pw0 w0 cp.ctx := CtxInv.define ops (CtxInv.new _ _ _ _) (compile_inv hc).1
    have h1 := hi.linMax hne
    have h2 : 2 ^ 3 ≤ 2 ^ K := Nat.pow_le_pow_right (by norm_num) hK
    refine lt_of_lt_of_le ?_ (le_max_left _ _)
    omega
  obtain ⟨Ke, g, ge, h⟩ := compile_good hK hc hlt
  have href := compile_refs hc hv
  have hN8 : 2 ^ 3 ≤ 2 ^ K := Nat.pow_le_pow_right (by norm_num) hK
  have hswl : ∀ i < cp.ctx.wCnt, (sw.getD i []).length = 2 ^ K := by
    intro i hi
    rw [List.getD_eq_getElem?_getD, List.getElem?_eq_getElem (by omega)]
    exact hsw _ (List.getElem_mem _)
  have hev : ∀ i < cp.ctx.wCnt, ∀ j < 2 ^ K,
      (witPoly wps i).eval (g ^ rev K j) = (sw.getD i []).getD j 0 := by
    intro i hi j hj
    have h1 : sw[i]? = some (sw.getD i []) := by
      rw [List.getD_eq_getElem?_getD, List.getElem?_eq_getElem (by omega)]; rfl
    have h2 : wps[i]? = some (wps.getD i []) := by
      rw [List.getD_eq_getElem?_getD, List.getElem?_eq_getElem (by omega)]; rfl
    exact (henc i _ _ h1 h2).eval h (hswl i hi) j hj
  obtain ⟨hx1, hx2⟩ := href.lin e he x hx
  -- the failing constraint as a polynomial in lc
  obtain ⟨L, l1, hadj⟩ := hlin e he
  obtain ⟨a, -, a1, -, a3, -, -⟩ := hadj (List.replicate (2 ^ K) 0) (List.replicate (2 ^ K) 0)
    (List.replicate (2 ^ K) 0) (sw.getD x.2 []) (by simp) (by simp) (by simp) (hswl _ hx2)
  have hkm : keyMap (2 ^ K) users proj e.1 (sw.getD x.2 []) = a := by
    unfold keyMap; rw [l1]; simp only; rw [a1]
  have hane : a ≠ sw.getD x.1 [] := by
    intro h0; exact hfail L l1 (by rw [a1, h0])
  set D := listPoly a - listPoly (sw.getD x.1 []) with hD
  have hD0 : D ≠ 0 := by
    intro h0
    exact hane (listPoly_injective (by rw [a3, hswl _ hx1]) (sub_eq_zero.mp h0))
  have hDd : D.natDegree ≤ 2 ^ K - 1 := by
    refine (natDegree_sub_le _ _).trans (max_le ?_ ?_)
    · exact listPoly_natDegree_le _ _ (by omega)
    · exact listPoly_natDegree_le _ _ (by have := hswl _ hx1; omega)
  refine ⟨D.roots.toFinset, ?_, ?_⟩
  · exact le_trans (Multiset.toFinset_card_le _) (le_trans (card_roots' _) hDd)
  intro lc hlc mask maskSum hmask
  have hDlc : D.eval lc ≠ 0 := by
    intro h0; apply hlc; rw [Multiset.mem_toFinset, mem_roots hD0]; exact h0
  set vec : List (ZMod p) := (List.range (2 ^ K)).map (fun i => lc ^ i) with hvec
  have hvl : vec.length = 2 ^ K := by simp [hvec]
  have hinner : ∀ u : List (ZMod p), u.length = 2 ^ K → inner (2 ^ K) u vec = (listPoly u).eval lc := by
    intro u hu
    rw [listPoly_eval, hu]
    unfold inner evalAt
    apply sum_congr rfl
    intro i hi
    rw [mem_range] at hi
    congr 1
    simp [hvec, hi]
  set ts := linTerms cp users proj (witPoly wps) vec cp.ctx.lin with hts
  have hmem : D.eval lc ∈ ts.map (dsum K g) := by
    rw [List.mem_map]
    refine ⟨encP cp (keyTr cp.ctx.rank users proj e.1 vec) * witPoly wps x.2 -
      encP cp vec * witPoly wps x.1, ?_, ?_⟩
    · rw [hts]; unfold linTerms; rw [List.mem_flatMap]
      exact ⟨e, he, List.mem_map.mpr ⟨x, hx, rfl⟩⟩
    · rw [linTerm_dsum h hlin he vec (sw.getD x.2 []) (sw.getD x.1 []) hvl (hswl _ hx2) _ _
        (hev _ hx2) (hev _ hx1), hkm, hinner _ a3, hinner _ (hswl _ hx1), hD, eval_sub]
  -- the batched sum as a polynomial in b
  obtain ⟨q1, q2, q3⟩ := horner_poly (ts.map (dsum K g))
  set Q := horner (X : (ZMod p)[X]) ((ts.map (dsum K g)).map C) 0 with hQ
  have hQ0 : Q ≠ 0 := fun h0 => hDlc (q2 h0 _ hmem)
  obtain ⟨κ, hκ⟩ : ∃ κ, κ = dsum K g (listPoly mask) - (2 ^ K : Nat) * maskSum := ⟨_, rfl⟩
  set B := X * Q + C κ with hB
  have hB0 : B ≠ 0 := by
    intro h0
    apply hQ0
    ext n
    have := congrArg (fun q => coeff q (n + 1)) h0
    simpa [hB, coeff_X_mul] using this
  have hcnt : ts.length = linCount cp := linTerms_length users proj (witPoly wps) vec
  have hcpos : 1 ≤ ts.length := by
    rw [List.mem_map] at hmem
    obtain ⟨t, ht, -⟩ := hmem
    exact List.length_pos_of_mem ht
  have hBd : B.natDegree ≤ linCount cp := by
    refine (natDegree_add_le _ _).trans (max_le ?_ (by simp))
    refine natDegree_mul_le.trans ?_
    rw [natDegree_X]
    rw [List.length_map] at q1
    omega
  refine ⟨B.roots.toFinset, le_trans (Multiset.toFinset_card_le _) (le_trans (card_roots' _) hBd), ?_⟩
  intro b hb quo lo hi hquo hlo hhi S hpass
  by_contra hcard
  push Not at hcard
  apply hb
  rw [Multiset.mem_toFinset, mem_roots hB0]
  have hall : ∀ y ∈ S, (listPoly hi).eval y = y ^ (jrank - (2 ^ K - 1)) * (listPoly lo).eval y ∧
      b * horner b (ts.map (eval y)) 0 + (listPoly mask).eval y =
        (listPoly quo).eval y * (y ^ 2 ^ K - 1) + (listPoly lo).eval y * y + maskSum := by
    intro y hy
    obtain ⟨evals, hevs, hp⟩ := hpass y hy
    have hlen := hevs.length
    rw [linCheckV_spec h hj hlin evals (fun e he w hwm => by have := href.lin e he w hwm; omega)] at hp
    have hp' := of_decide_eq_true (Except.ok.inj hp)
    rw [← listPoly_eval, ← listPoly_eval, ← listPoly_eval, ← listPoly_eval,
      linVals_eval cp users proj wps evals vec y hevs _ (by rw [hwl]; exact href.lin), expU64_eq,
      h.rank] at hp'
    exact hp'
  have hlod := listPoly_natDegree_le lo jrank hlo
  have hhid := listPoly_natDegree_le hi jrank hhi
  have hqud := listPoly_natDegree_le quo jrank hquo
  have hmad := listPoly_natDegree_le mask jrank hmask
  have id1 : listPoly hi = X ^ (jrank - (2 ^ K - 1)) * listPoly lo := by
    rw [← sub_eq_zero]
    refine eq_zero_of_many_roots (D := max (2 * jrank - 2 ^ K) (2 ^ K + jrank - 1)) ?_ S hcard ?_
    · refine (natDegree_sub_le _ _).trans (max_le ?_ ?_)
      · omega
      · refine natDegree_mul_le.trans ?_
        rw [natDegree_X_pow]
        omega
    · intro y hy
      rw [eval_sub, eval_mul, eval_pow, eval_X, (hall y hy).1, sub_self]
  have hterm : ∀ t ∈ ts, t.natDegree ≤ (2 ^ K - 1) + (jrank - 1) := by
    intro t ht
    rw [hts] at ht
    unfold linTerms at ht
    rw [List.mem_flatMap] at ht
    obtain ⟨e', he', ht⟩ := ht
    rw [List.mem_map] at ht
    obtain ⟨y, hy, rfl⟩ := ht
    obtain ⟨-, -, -, hl⟩ := keyTr_spec hlin he' (List.replicate (2 ^ K) 0) vec (by simp) hvl
    refine (natDegree_sub_le _ _).trans (max_le ?_ ?_)
    · refine natDegree_mul_le.trans (Nat.add_le_add ?_ (witPoly_natDegree hwps _))
      exact h.encP_degree _ (by rw [h.rank]; exact hl)
    · exact natDegree_mul_le.trans (Nat.add_le_add (h.encP_degree vec hvl) (witPoly_natDegree hwps _))
  have id2 : C b * horner (C b) ts 0 + listPoly mask =
      listPoly quo * (X ^ 2 ^ K - 1) + listPoly lo * X + C maskSum := by
    rw [← sub_eq_zero]
    refine eq_zero_of_many_roots (D := max (2 * jrank - 2 ^ K) (2 ^ K + jrank - 1)) ?_ S hcard ?_
    · have hvan : (X ^ 2 ^ K - 1 : (ZMod p)[X]).natDegree = 2 ^ K :=
        natDegree_eq_of_degree_eq_some (X_pow_sub_one_degree _ (Nat.two_pow_pos K))
      have d1 : (C b * horner (C b) ts 0).natDegree ≤ (2 ^ K - 1) + (jrank - 1) := by
        refine natDegree_mul_le.trans ?_
        rw [natDegree_C, zero_add]
        exact natDegree_horner_le b ts 0 (by simp) hterm
      have d2 : (listPoly quo * (X ^ 2 ^ K - 1)).natDegree ≤ (jrank - 1) + 2 ^ K := by
        refine natDegree_mul_le.trans ?_; omega
      have d3 : (listPoly lo * X).natDegree ≤ (jrank - 1) + 1 := by
        refine natDegree_mul_le.trans ?_; rw [natDegree_X]; omega
      have d4 : (C maskSum : (ZMod p)[X]).natDegree = 0 := natDegree_C _
      refine (natDegree_sub_le _ _).trans (max_le ?_ ?_)
      · refine (natDegree_add_le _ _).trans (max_le ?_ ?_) <;> omega
      · refine (natDegree_add_le _ _).trans (max_le ?_ (by omega))
        refine (natDegree_add_le _ _).trans (max_le ?_ ?_) <;> omega
    · intro y hy
      have h2 := (hall y hy).2
      simp only [eval_add, eval_mul, eval_sub, eval_pow, eval_X, eval_one, eval_C]
      rw [horner_eval, eval_zero, h2, sub_self]
  have hsum := remainder_sum h hj _ maskSum quo lo hi hhi id1 id2
  rw [dsum_add, dsum_C_mul, horner_dsum] at hsum
  have hz : dsum K g (0 : (ZMod p)[X]) = 0 := by simp [dsum]
  rw [hz] at hsum
  show B.eval b = 0
  rw [hB, eval_add, eval_mul, eval_X, eval_C, q3, hκ]
  linear_combination hsum

/-! ## C39 -/

/-- Every sumcheck constraint sums to its declared value over the rows. -/
def SumsHold (cp : Compilation (ZMod p)) (pw sw : List (List (ZMod p))) : Prop :=
  List.Forall₂ (fun c (s : Int) => ∑ i ∈ range cp.ctx.rank, c.onRow pw sw i = (s : ZMod p))
    cp.ctx.sums cp.ctx.sumCheckSums

/-- What the verifier's sumcheck says to the honest prover's messages: it accepts exactly if
`b * (b * T) = 0`, where `T` is the sum of all sumcheck constraints over all rows. -/
theorem sumCheck_outcome {ty pw0 w0 : Nat} {ops : List (CtxOp (ZMod p))} (hK : 3 ≤ K)
    (hc : compile (2 ^ K) ty pw0 w0 ops = .ok cp) (hv : ∀ op ∈ ops, op.Valid pw0 w0)
    (hlt : 2 ^ K < cp.ctx.sumCheckMaxRank)
    (pw sw : List (List (ZMod p))) (hpl : pw.length = cp.ctx.pwCnt) (hsl : sw.length = cp.ctx.wCnt)
    (hpw : ∀ v ∈ pw, v.length = 2 ^ K) (hsw : ∀ v ∈ sw, v.length = 2 ^ K)
    (jrank : Nat) (hj : 2 ^ K - 1 ≤ jrank) (enc r : Nat → ZMod p) :
    ∃ pwEcd pwNTT wps wNTT mask maskSum, pw.mapM (fun v => cp.ecd.encode v) = .ok pwEcd ∧
      encodePub cp pw = .ok pwNTT ∧ EncodedWit cp sw enc wps wNTT ∧
      sumCheckMask cp.ev cp.ctx.rank cp.ctx.sumCheckMaxRank r = .ok (mask, maskSum) ∧
      ∀ b, ∃ quo remLo remHi, sumCheckP cp jrank b mask pwNTT wNTT = .ok (quo, remLo, remHi) ∧
        ∀ x evals pwEvals maskEval, EvalsOf wps x evals →
          pwEcd.mapM (fun e => e.evaluate x) = .ok pwEvals → mask.evaluate x = .ok maskEval →
          sumCheckV cp.ctx jrank b maskEval x (expU64 x cp.ctx.rank - 1) maskSum
            (evalAt quo.length quo x) (evalAt remLo.length remLo x) (evalAt remHi.length remHi x)
            evals pwEvals =
          .ok (decide (b * (b * ∑ i ∈ range cp.ctx.rank,
            (cp.ctx.sums.map (fun c => c.onRow pw sw i)).sum) = 0)) := by
  obtain ⟨Ke, g, ge, h⟩ := compile_good hK hc (lt_of_lt_of_le hlt (le_max_right _ _))
  have href := compile_refs hc hv
  obtain ⟨wps, wNTT, henc⟩ := encodedWit_exists h sw enc hsw
  obtain ⟨pps, pwNTT, p1, p2, p3, ht, p4, p5⟩ := tables_spec h hpw hsw henc
  have hr : ∀ c ∈ cp.ctx.sums, c.Refs pw.length sw.length := by rw [hpl, hsl]; exact href.sums
  obtain ⟨mask, m1, m2, m3, m4⟩ := h.sumCheckMask cp.ctx.sumCheckMaxRank hlt.le h.sumLe r
  refine ⟨_, pwNTT, wps, wNTT, ⟨mask, false⟩, r 0, p1, p2, henc, by rw [h.rank]; exact m1, fun b => ?_⟩
  obtain ⟨quo, lo, hi, e1, -, -, -, e5⟩ := sumCheck_run h henc.1 p3 ht p4 p5 hr hlt.le hj b mask m2
    (listPoly_degree_of_zero mask _ m3) (r 0) m4
  refine ⟨quo, lo, hi, e1, ?_⟩
  intro x evals pwEvals maskEval hev hpe hme
  rw [evaluate_ok] at hme; cases hme
  rw [evaluate_map] at hpe; cases hpe
  rw [← listPoly_eval, ← listPoly_eval, ← listPoly_eval, e5 x evals hev, h.rank]

theorem forall2_sum {α β : Type} (f : α → ZMod p) (s : β → ZMod p) {l : List α} {m : List β}
    (h : List.Forall₂ (fun a b => f a = s b) l m) : (l.map f).sum = (m.map s).sum := by
  induction h with
  | nil => rfl
  | cons h _ ih => simp [h, ih]

theorem sum_map_sum (cs : List (Constraint (ZMod p))) (N : Nat) (pw sw : List (List (ZMod p))) :
    ∑ i ∈ range N, (cs.map (fun c => c.onRow pw sw i)).sum =
      (cs.map (fun c => ∑ i ∈ range N, c.onRow pw sw i)).sum := by
  induction cs with
  | nil => simp
  | cons c cs ih => simp [sum_add_distrib, ih]

/-- **C39, the part that holds.** If every sumcheck constraint sums to its declared value and the
declared values add up to zero (in particular: all are zero), the prover's messages pass the
verifier's sumcheck for every batching challenge, evaluation point, mask and encoding randomness. -/
theorem C39_partial {ty pw0 w0 : Nat} {ops : List (CtxOp (ZMod p))} (hK : 3 ≤ K)
    (hc : compile (2 ^ K) ty pw0 w0 ops = .ok cp) (hv : ∀ op ∈ ops, op.Valid pw0 w0)
    (hlt : 2 ^ K < cp.ctx.sumCheckMaxRank)
    (pw sw : List (List (ZMod p))) (hpl : pw.length = cp.ctx.pwCnt) (hsl : sw.length = cp.ctx.wCnt)
    (hpw : ∀ v ∈ pw, v.length = 2 ^ K) (hsw : ∀ v ∈ sw, v.length = 2 ^ K)
    (hsum : SumsHold cp pw sw) (hzero : (cp.ctx.sumCheckSums.map (fun s : Int => (s : ZMod p))).sum = 0)
    (jrank : Nat) (hj : 2 ^ K - 1 ≤ jrank) (enc r : Nat → ZMod p) :
    ∃ pwEcd pwNTT wps wNTT mask maskSum, pw.mapM (fun v => cp.ecd.encode v) = .ok pwEcd ∧
      encodePub cp pw = .ok pwNTT ∧ EncodedWit cp sw enc wps wNTT ∧
      sumCheckMask cp.ev cp.ctx.rank cp.ctx.sumCheckMaxRank r = .ok (mask, maskSum) ∧
      ∀ b, ∃ quo remLo remHi, sumCheckP cp jrank b mask pwNTT wNTT = .ok (quo, remLo, remHi) ∧
        ∀ x evals pwEvals maskEval, EvalsOf wps x evals →
          pwEcd.mapM (fun e => e.evaluate x) = .ok pwEvals → mask.evaluate x = .ok maskEval →
          sumCheckV cp.ctx jrank b maskEval x (expU64 x cp.ctx.rank - 1) maskSum
            (evalAt quo.length quo x) (evalAt remLo.length remLo x) (evalAt remHi.length remHi x)
            evals pwEvals = .ok true := by
  obtain ⟨a1, a2, a3, a4, a5, a6, b1, b2, b3, b4, b5⟩ := sumCheck_outcome hK hc hv hlt pw sw hpl hsl
    hpw hsw jrank hj enc r
  refine ⟨a1, a2, a3, a4, a5, a6, b1, b2, b3, b4, fun b => ?_⟩
  obtain ⟨quo, lo, hi, c1, c2⟩ := b5 b
  refine ⟨quo, lo, hi, c1, ?_⟩
  intro x evals pwEvals maskEval h1 h2 h3
  rw [c2 x evals pwEvals maskEval h1 h2 h3, sum_map_sum]
  rw [forall2_sum _ (fun s : Int => (s : ZMod p)) hsum, hzero]
  simp

/-! ## C40 -/

/-- **C40, the part that holds.** Let the committed polynomials `wps` encode `sw`, and let the sum of
all sumcheck constraints over all rows be nonzero.  Then, given a mask and its claimed sum, except for
at most two values of the batching challenge `b`, no messages pass the verifier's sumcheck on more
points than the degree of the checked identities.  What is missing: the single sums, and any declared
value other than zero (see `C40_refuted`). -/
theorem C40_partial {ty pw0 w0 : Nat} {ops : List (CtxOp (ZMod p))} (hK : 3 ≤ K)
    (hc : compile (2 ^ K) ty pw0 w0 ops = .ok cp) (hv : ∀ op ∈ ops, op.Valid pw0 w0)
    (hlt : 2 ^ K < max cp.ctx.arithCheckMaxRank cp.ctx.sumCheckMaxRank)
    (jrank : Nat) (hj : 2 ^ K - 1 ≤ jrank)
    (pw sw wps : List (List (ZMod p))) (pwEcd : List (Poly (ZMod p))) (hpl : pw.length = cp.ctx.pwCnt)
    (hsl : sw.length = cp.ctx.wCnt) (hwl : wps.length = cp.ctx.wCnt)
    (hpw : ∀ v ∈ pw, v.length = 2 ^ K) (hsw : ∀ v ∈ sw, v.length = 2 ^ K)
    (hwps : ∀ w ∈ wps, w.length ≤ jrank)
    (hpe : pw.mapM (fun v => cp.ecd.encode v) = .ok pwEcd)
    (henc : ∀ (i : Nat) (v w : List (ZMod p)), sw[i]? = some v → wps[i]? = some w → Encodes cp v w)
    (hfail : ∑ i ∈ range (2 ^ K), (cp.ctx.sums.map (fun c => c.onRow pw sw i)).sum ≠ 0)
    (mask : List (ZMod p)) (maskSum : ZMod p) (hmask : mask.length ≤ jrank)
    (D : Nat) (hD : ∀ c ∈ cp.ctx.sums, c.checkDeg (2 ^ K) jrank ≤ D)
    (hD1 : 2 * jrank - 2 ^ K ≤ D) (hD2 : 2 ^ K + jrank - 1 ≤ D) :
    ∃ badB : Finset (ZMod p), badB.card ≤ 2 ∧ ∀ b ∉ badB,
      ∀ quo remLo remHi : List (ZMod p), quo.length ≤ jrank → remLo.length ≤ jrank →
        remHi.length ≤ jrank → ∀ S : Finset (ZMod p),
        (∀ y ∈ S, ∃ evals pwEvals, EvalsOf wps y evals ∧
          pwEcd.mapM (fun e => e.evaluate y) = .ok pwEvals ∧
          sumCheckV cp.ctx jrank b (evalAt mask.length mask y) y
            (expU64 y cp.ctx.rank - 1) maskSum (evalAt quo.length quo y)
            (evalAt remLo.length remLo y) (evalAt remHi.length remHi y) evals pwEvals = .ok true) →
        S.card ≤ D := by
  obtain ⟨Ke, g, ge, h⟩ := compile_good hK hc hlt
  have href := compile_refs hc hv
  have hN8 : 2 ^ 3 ≤ 2 ^ K := Nat.pow_le_pow_right (by norm_num) hK
  obtain ⟨pps, pwNTT, p1, -, p3, -, p5⟩ := encodePub_spec h pw hpw
  rw [hpe] at p1; cases p1
  have hr : ∀ c ∈ cp.ctx.sums, c.Refs pw.length sw.length := by rw [hpl, hsl]; exact href.sums
  have hswl : ∀ i < cp.ctx.wCnt, (sw.getD i []).length = 2 ^ K := by
    intro i hi
    rw [List.getD_eq_getElem?_getD, List.getElem?_eq_getElem (by omega)]
    exact hsw _ (List.getElem_mem _)
  have hev : ∀ i < sw.length, ∀ j < 2 ^ K,
      (witPoly wps i).eval (g ^ rev K j) = (sw.getD i []).getD j 0 := by
    intro i hi j hj
    have h1 : sw[i]? = some (sw.getD i []) := by
      rw [List.getD_eq_getElem?_getD, List.getElem?_eq_getElem (by omega)]; rfl
    have h2 : wps[i]? = some (wps.getD i []) := by
      rw [List.getD_eq_getElem?_getD, List.getElem?_eq_getElem (by omega)]; rfl
    exact (henc i _ _ h1 h2).eval h (hswl i (by omega)) j hj
  have hpd : ∀ i, (witPoly pps i).natDegree ≤ 2 ^ K - 1 := by
    intro i
    by_cases hi : i < pw.length
    · exact (p5 i hi).2.1
    · unfold witPoly
      rw [List.getD_eq_getElem?_getD, List.getElem?_eq_none (by omega)]
      simp [listPoly]
  set T := ∑ i ∈ range (2 ^ K), (cp.ctx.sums.map (fun c => c.onRow pw sw i)).sum with hT
  have hcp : ∀ b, dsum K g (circuitPoly b cp.ctx.sums (witPoly pps) (witPoly wps)) = b * T := by
    intro b
    unfold dsum
    rw [hT, mul_sum]
    apply sum_congr rfl
    intro i hi
    rw [mem_range] at hi
    rw [circuitPoly_eval]
    congr 2
    apply List.map_congr_left
    intro c hcm
    exact Constraint.value_congr c _ _ _ _ _ _ (hr c hcm) (fun a ha => (p5 a ha).2.2.1 i hi)
      (fun a ha => hev a ha i hi)
  obtain ⟨κ, hκ⟩ : ∃ κ, κ = dsum K g (listPoly mask) - (2 ^ K : Nat) * maskSum := ⟨_, rfl⟩
  set B : (ZMod p)[X] := C T * X ^ 2 + C κ with hB
  have hB0 : B ≠ 0 := by
    intro h0
    have := congrArg (fun q => coeff q 2) h0
    simp [hB] at this
    exact hfail this
  have hBd : B.natDegree ≤ 2 := by
    refine (natDegree_add_le _ _).trans (max_le (natDegree_C_mul_X_pow_le _ _) (by simp))
  refine ⟨B.roots.toFinset, le_trans (Multiset.toFinset_card_le _) (le_trans (card_roots' _) hBd), ?_⟩
  intro b hb quo lo hi hquo hlo hhi S hpass
  by_contra hcard
  push Not at hcard
  apply hb
  rw [Multiset.mem_toFinset, mem_roots hB0]
  have hall : ∀ y ∈ S, (listPoly hi).eval y = y ^ (jrank - (2 ^ K - 1)) * (listPoly lo).eval y ∧
      b * (circuitPoly b cp.ctx.sums (witPoly pps) (witPoly wps)).eval y + (listPoly mask).eval y =
        (listPoly quo).eval y * (y ^ 2 ^ K - 1) + (listPoly lo).eval y * y + maskSum := by
    intro y hy
    obtain ⟨evals, pwEvals, hevs, hpevs, hp⟩ := hpass y hy
    rw [evaluate_map] at hpevs; cases hpevs
    have hlen := hevs.length
    rw [sumCheckV_spec cp.ctx (by rw [h.rank]; exact hj) evals _ pw.length sw.length hr (by simp [p3])
      (by omega)] at hp
    have hval : (cp.ctx.sums.map (fun c => c.value ((pps.map (fun e => evalAt e.length e y)).getD · 0)
        (evals.getD · 0))) = cp.ctx.sums.map (fun c => c.value (fun a => (witPoly pps a).eval y)
        (fun a => (witPoly wps a).eval y)) := by
      apply List.map_congr_left
      intro c hcm
      refine Constraint.value_congr c _ _ _ _ _ _ (hr c hcm) (fun a ha => ?_) (fun a ha => ?_)
      · unfold witPoly
        rw [listPoly_eval]
        simp [p3, ha]
      · exact hevs.getD a (by omega)
    have hp' := of_decide_eq_true (Except.ok.inj hp)
    rw [hval, ← listPoly_eval, ← listPoly_eval, ← listPoly_eval, ← listPoly_eval, expU64_eq,
      h.rank, ← circuitPoly_eval] at hp'
    exact hp'
  have hlod := listPoly_natDegree_le lo jrank hlo
  have hhid := listPoly_natDegree_le hi jrank hhi
  have hqud := listPoly_natDegree_le quo jrank hquo
  have hmad := listPoly_natDegree_le mask jrank hmask
  have id1 : listPoly hi = X ^ (jrank - (2 ^ K - 1)) * listPoly lo := by
    rw [← sub_eq_zero]
    refine eq_zero_of_many_roots (D := D) ?_ S hcard ?_
    · refine (natDegree_sub_le _ _).trans (max_le (by omega) ?_)
      refine natDegree_mul_le.trans ?_
      rw [natDegree_X_pow]
      omega
    · intro y hy
      rw [eval_sub, eval_mul, eval_pow, eval_X, (hall y hy).1, sub_self]
  have hsumd : ∀ cs : List (Constraint (ZMod p)), (∀ c ∈ cs, c.checkDeg (2 ^ K) jrank ≤ D) →
      ((cs.map (fun (c : Constraint (ZMod p)) => c.poly (witPoly pps) (witPoly wps))).sum).natDegree ≤ D := by
    intro cs
    induction cs with
    | nil => simp
    | cons c cs ih =>
      intro hcs
      simp only [List.map_cons, List.sum_cons]
      refine (natDegree_add_le _ _).trans (max_le ?_ (ih (fun c hc => hcs c (by simp [hc]))))
      exact (Constraint.poly_checkDeg (2 ^ K) jrank c (witPoly pps) (witPoly wps) hpd
        (witPoly_natDegree hwps)).trans (hcs c (by simp))
  have id2 : C b * circuitPoly b cp.ctx.sums (witPoly pps) (witPoly wps) + listPoly mask =
      listPoly quo * (X ^ 2 ^ K - 1) + listPoly lo * X + C maskSum := by
    rw [← sub_eq_zero]
    refine eq_zero_of_many_roots (D := D) ?_ S hcard ?_
    · have hvan : (X ^ 2 ^ K - 1 : (ZMod p)[X]).natDegree = 2 ^ K :=
        natDegree_eq_of_degree_eq_some (X_pow_sub_one_degree _ (Nat.two_pow_pos K))
      have d1 : (C b * circuitPoly b cp.ctx.sums (witPoly pps) (witPoly wps)).natDegree ≤ D := by
        refine natDegree_mul_le.trans ?_
        rw [natDegree_C, zero_add]
        unfold circuitPoly
        refine natDegree_mul_le.trans ?_
        rw [natDegree_C, zero_add]
        exact hsumd _ hD
      have d2 : (listPoly quo * (X ^ 2 ^ K - 1)).natDegree ≤ (jrank - 1) + 2 ^ K := by
        refine natDegree_mul_le.trans ?_; omega
      have d3 : (listPoly lo * X).natDegree ≤ (jrank - 1) + 1 := by
        refine natDegree_mul_le.trans ?_; rw [natDegree_X]; omega
      have d4 : (C maskSum : (ZMod p)[X]).natDegree = 0 := natDegree_C _
      refine (natDegree_sub_le _ _).trans (max_le ?_ ?_)
      · refine (natDegree_add_le _ _).trans (max_le ?_ ?_) <;> omega
      · refine (natDegree_add_le _ _).trans (max_le ?_ (by omega))
        refine (natDegree_add_le _ _).trans (max_le ?_ ?_) <;> omega
    · intro y hy
      have h2 := (hall y hy).2
      simp only [eval_add, eval_mul, eval_sub, eval_pow, eval_X, eval_one, eval_C]
      rw [h2, sub_self]
  have hsum := remainder_sum h hj _ maskSum quo lo hi hhi id1 id2
  rw [dsum_add, dsum_C_mul, hcp] at hsum
  show B.eval b = 0
  rw [hB, eval_add, eval_mul, eval_pow, eval_X, eval_C, eval_C, hκ]
  linear_combination hsum

end

/-! ## Examples and counterexamples -/

/-- One secret `x`, and the sumcheck constraint `Σ x = s`. -/
def ops39 (s : Int) : List (CtxOp (ZMod 97)) := [.sum [⟨1, none, [0]⟩] s]

theorem compile39 (s : Int) : ∃ cp, compile 8 0 0 1 (ops39 s) = .ok cp ∧ cp.ctx.sumCheckMaxRank = 9 ∧
    cp.ctx.rank = 8 ∧ cp.ctx.pwCnt = 0 ∧ cp.ctx.wCnt = 1 ∧
    cp.ctx.sums = [[⟨1, none, [0]⟩]] ∧ cp.ctx.sumCheckSums = [s] ∧
    ∀ op ∈ ops39 s, op.Valid 0 1 := by
  obtain ⟨cp, h1, h2⟩ := compile_total (p := 97) (N := 8) (ty := 0) (pw0 := 0) (w0 := 1)
    (ops := ops39 s) (K := 3) (Ke := 4) rfl (by norm_num) (by norm_num) rfl
    (by unfold Context.embRank; exact (show (if max 0 9 = 0 then 0 else 2 ^ bitLen (max 0 9 - 1)) = 16 from rfl))
    (by norm_num) (by norm_num)
  refine ⟨cp, h1, by rw [h2]; rfl, by rw [h2]; rfl, by rw [h2]; rfl, by rw [h2]; rfl,
    by rw [h2]; rfl, by rw [h2]; rfl, ?_⟩
  intro op hop
  simp only [ops39, List.mem_singleton] at hop
  subst hop
  intro t ht
  simp only [List.mem_singleton] at ht
  subst ht; simp

/-- **C39 is false as stated.** The circuit demands `Σ x = 8`, and `x = 1` on all eight rows does
satisfy it.  Yet the honest messages are rejected for every nonzero batching challenge and every
evaluation point, whatever the masks: the declared sum is never used. -/
theorem C39_refuted : ∃ cp : Compilation (ZMod 97), compile 8 0 0 1 (ops39 8) = .ok cp ∧
    SumsHold cp [] [List.replicate 8 1] ∧
    ∀ (jrank : Nat), 7 ≤ jrank → ∀ enc r : Nat → ZMod 97, ∃ wps wNTT mask maskSum,
      EncodedWit cp [List.replicate 8 1] enc wps wNTT ∧
      sumCheckMask cp.ev cp.ctx.rank cp.ctx.sumCheckMaxRank r = .ok (mask, maskSum) ∧
      ∀ b, b ≠ 0 → ∃ quo remLo remHi, sumCheckP cp jrank b mask [] wNTT = .ok (quo, remLo, remHi) ∧
        ∀ x evals maskEval, EvalsOf wps x evals → mask.evaluate x = .ok maskEval →
          sumCheckV cp.ctx jrank b maskEval x (expU64 x cp.ctx.rank - 1) maskSum
            (evalAt quo.length quo x) (evalAt remLo.length remLo x) (evalAt remHi.length remHi x)
            evals [] = .ok false := by
  obtain ⟨cp, h1, h2, h3, h4, h5, h6, h7, h8⟩ := compile39 8
  refine ⟨cp, h1, ?_, ?_⟩
  · unfold SumsHold
    rw [h6, h7, h3]
    refine List.Forall₂.cons ?_ .nil
    decide +kernel
  · intro jrank hj enc r
    obtain ⟨pwEcd, pwNTT, wps, wNTT, mask, ms, b1, b2, b3, b4, b5⟩ := sumCheck_outcome (K := 3) le_rfl h1
      h8 (by rw [h2]; norm_num) [] [List.replicate 8 1] (by rw [h4]; rfl) (by rw [h5]; rfl) (by simp)
      (by simp) jrank hj enc r
    cases b1; cases b2
    refine ⟨wps, wNTT, mask, ms, b3, b4, fun b hb => ?_⟩
    obtain ⟨quo, lo, hi, c1, c2⟩ := b5 b
    refine ⟨quo, lo, hi, c1, fun x evals maskEval e1 e2 => ?_⟩
    rw [c2 x evals [] maskEval e1 rfl e2]
    have hT : ∑ i ∈ range cp.ctx.rank,
        (cp.ctx.sums.map (fun c => c.onRow [] [List.replicate 8 1] i)).sum = (8 : ZMod 97) := by
      rw [h6, h3]; decide +kernel
    rw [hT]
    congr 1
    rw [decide_eq_false_iff_not]
    exact mul_ne_zero hb (mul_ne_zero hb (by decide))

/-- **C40 is false as stated.** The circuit demands `Σ x = 5`, and `x = 0` does not satisfy it.  Yet
the messages for `x = 0` are accepted for every challenge, evaluation point and mask. -/
theorem C40_refuted : ∃ cp : Compilation (ZMod 97), compile 8 0 0 1 (ops39 5) = .ok cp ∧
    ¬ SumsHold cp [] [List.replicate 8 0] ∧
    ∀ (jrank : Nat), 7 ≤ jrank → ∀ enc r : Nat → ZMod 97, ∃ wps wNTT mask maskSum,
      EncodedWit cp [List.replicate 8 0] enc wps wNTT ∧
      sumCheckMask cp.ev cp.ctx.rank cp.ctx.sumCheckMaxRank r = .ok (mask, maskSum) ∧
      ∀ b, ∃ quo remLo remHi, sumCheckP cp jrank b mask [] wNTT = .ok (quo, remLo, remHi) ∧
        ∀ x evals maskEval, EvalsOf wps x evals → mask.evaluate x = .ok maskEval →
          sumCheckV cp.ctx jrank b maskEval x (expU64 x cp.ctx.rank - 1) maskSum
            (evalAt quo.length quo x) (evalAt remLo.length remLo x) (evalAt remHi.length remHi x)
            evals [] = .ok true := by
  obtain ⟨cp, h1, h2, h3, h4, h5, h6, h7, h8⟩ := compile39 5
  refine ⟨cp, h1, ?_, ?_⟩
  · unfold SumsHold
    rw [h6, h7, h3]
    intro h
    cases h with
    | cons h _ => exact absurd h (by decide +kernel)
  · intro jrank hj enc r
    obtain ⟨pwEcd, pwNTT, wps, wNTT, mask, ms, b1, b2, b3, b4, b5⟩ := sumCheck_outcome (K := 3) le_rfl h1
      h8 (by rw [h2]; norm_num) [] [List.replicate 8 0] (by rw [h4]; rfl) (by rw [h5]; rfl) (by simp)
      (by simp) jrank hj enc r
    cases b1; cases b2
    refine ⟨wps, wNTT, mask, ms, b3, b4, fun b => ?_⟩
    obtain ⟨quo, lo, hi, c1, c2⟩ := b5 b
    refine ⟨quo, lo, hi, c1, fun x evals maskEval e1 e2 => ?_⟩
    rw [c2 x evals [] maskEval e1 rfl e2]
    have hT : ∑ i ∈ range cp.ctx.rank,
        (cp.ctx.sums.map (fun c => c.onRow [] [List.replicate 8 0] i)).sum = (0 : ZMod 97) := by
      rw [h6, h3]; decide +kernel
    rw [hT]
    simp

/-- The hypotheses of C39's positive part hold for `Σ x = 0` with `x = (1, -1, 2, -2, …)`. -/
example : ∃ (cp : Compilation (ZMod 97)) (sw : List (List (ZMod 97))),
    compile (2 ^ 3) 0 0 1 (ops39 0) = .ok cp ∧ (∀ op ∈ ops39 0, op.Valid 0 1) ∧
    2 ^ 3 < cp.ctx.sumCheckMaxRank ∧ sw.length = cp.ctx.wCnt ∧ (∀ v ∈ sw, v.length = 2 ^ 3) ∧
    SumsHold cp [] sw ∧ (cp.ctx.sumCheckSums.map (fun s : Int => (s : ZMod 97))).sum = 0 := by
  obtain ⟨cp, h1, h2, h3, h4, h5, h6, h7, h8⟩ := compile39 0
  refine ⟨cp, [[1, -1, 2, -2, 3, -3, 4, -4]], h1, h8, by rw [h2]; norm_num, by rw [h5]; rfl, by simp, ?_,
    by rw [h7]; rfl⟩
  unfold SumsHold
  rw [h6, h7, h3]
  refine List.Forall₂.cons ?_ .nil
  decide +kernel

/-- A linear constraint: secret 1 is the NTT of secret 0. -/
def ops37 : List (CtxOp (ZMod 97)) := [.lin 1 0 0]

theorem compile37 : ∃ cp, compile 8 0 0 2 ops37 = .ok cp ∧ cp.ctx.rank = 8 ∧ cp.ctx.wCnt = 2 ∧
    cp.ctx.lin = [(.user 0, [(1, 0)])] ∧ (∀ op ∈ ops37, op.Valid 0 2) ∧ cp.ctx.embRank = 16 := by
  obtain ⟨cp, h1, h2⟩ := compile_total (p := 97) (N := 8) (ty := 0) (pw0 := 0) (w0 := 2)
    (ops := ops37) (K := 3) (Ke := 4) rfl (by norm_num) (by norm_num) rfl rfl (by norm_num)
    (by norm_num)
  refine ⟨cp, h1, by rw [h2]; rfl, by rw [h2]; rfl, by rw [h2]; rfl, ?_, by rw [h2]; rfl⟩
  intro op hop
  simp only [ops37, List.mem_singleton] at hop
  subst hop
  exact ⟨by norm_num, by norm_num⟩

/-- C37 applies to an NTT constraint over the field of 97 elements. -/
example : ∃ (cp : Compilation (ZMod 97)) (users : Nat → LinearChecker (ZMod 97))
    (sw : List (List (ZMod 97))), compile (2 ^ 3) 0 0 2 ops37 = .ok cp ∧
    (∀ op ∈ ops37, op.Valid 0 2) ∧ cp.ctx.lin ≠ [] ∧ sw.length = cp.ctx.wCnt ∧
    (∀ v ∈ sw, v.length = 2 ^ 3) ∧ LinOK (2 ^ 3) users [] cp.ctx.lin ∧ LinHolds cp users [] sw ∧
    sw[0]? = some [1, 2, 3, 4, 5, 6, 7, 8] := by
  obtain ⟨cp, h1, h2, h3, h4, h5, h6⟩ := compile37
  obtain ⟨T, -, hT, -⟩ := cyclotomic_good 97 3 (by norm_num)
  obtain ⟨L, hL⟩ : ∃ L, newNTTChecker 97 (2 ^ 3) = .ok L := by
    unfold newNTTChecker; rw [hT]; exact ⟨_, rfl⟩
  obtain ⟨hA, psi, -, hw⟩ := C30_nttChecker 97 3 le_rfl L hL
  obtain ⟨w, w1, w2, -⟩ := hw (List.replicate 8 0) [1, 2, 3, 4, 5, 6, 7, 8] rfl rfl
  refine ⟨cp, fun _ => L, [[1, 2, 3, 4, 5, 6, 7, 8], w], h1, h5, by rw [h4]; simp, by rw [h3]; rfl, ?_, ?_,
    ?_, rfl⟩
  · intro v hv
    simp only [List.mem_cons, List.not_mem_nil, or_false] at hv
    rcases hv with rfl | rfl
    · rfl
    · exact w2
  · rw [h4]; simp only [LinOK, List.mem_singleton, forall_eq]
    exact ⟨L, rfl, hA⟩
  · unfold LinHolds
    rw [h4]
    simp only [List.mem_singleton, forall_eq]
    refine ⟨L, rfl, ?_⟩
    rw [h2]; exact w1

/-- C38 applies: zero is the NTT of zero only, so `(0, (1,…,1))` violates the constraint, and the
encodings of the two vectors are committed. -/
example : ∃ (cp : Compilation (ZMod 97)) (users : Nat → LinearChecker (ZMod 97))
    (sw wps : List (List (ZMod 97))), compile (2 ^ 3) 0 0 2 ops37 = .ok cp ∧
    (∀ op ∈ ops37, op.Valid 0 2) ∧ LinOK (2 ^ 3) users [] cp.ctx.lin ∧ sw.length = cp.ctx.wCnt ∧
    wps.length = cp.ctx.wCnt ∧ (∀ v ∈ sw, v.length = 2 ^ 3) ∧ (∀ w ∈ wps, w.length ≤ 16) ∧
    (∀ (i : Nat) (v w : List (ZMod 97)), sw[i]? = some v → wps[i]? = some w → Encodes cp v w) ∧
    (CheckerKey.user 0, [(1, 0)]) ∈ cp.ctx.lin ∧
    (∀ L, resolve users [] (.user 0) = .ok L →
      L.transformTo (List.replicate (2 ^ 3) 0) (sw.getD 0 []) ≠ .ok (sw.getD 1 [])) := by
  obtain ⟨cp, h1, h2, h3, h4, h5, h6⟩ := compile37
  obtain ⟨T, -, hT, -⟩ := cyclotomic_good 97 3 (by norm_num)
  obtain ⟨L, hL⟩ : ∃ L, newNTTChecker 97 (2 ^ 3) = .ok L := by
    unfold newNTTChecker; rw [hT]; exact ⟨_, rfl⟩
  obtain ⟨hA, psi, -, hw⟩ := C30_nttChecker 97 3 le_rfl L hL
  obtain ⟨w, w1, w2, w3⟩ := hw (List.replicate 8 0) (List.replicate 8 0) rfl rfl
  have hi : CtxInv (2 ^ 3) 0 2 cp.ctx := CtxInv.define ops37 (CtxInv.new _ _ _ _) (compile_inv h1).1
  have hl := hi.linMax (by rw [h4]; simp)
  obtain ⟨Ke, g, ge, h⟩ := compile_good (K := 3) le_rfl h1
    (lt_of_lt_of_le (by norm_num at hl ⊢; omega) (le_max_left _ _))
  have e16 : 2 ^ Ke = 16 := by
    rw [← h.emb, h6]
  obtain ⟨a, a1, a2, -⟩ := h.encode (List.replicate 8 0) rfl
  obtain ⟨b, b1, b2, -⟩ := h.encode (List.replicate 8 1) rfl
  refine ⟨cp, fun _ => L, [List.replicate 8 0, List.replicate 8 1], [a, b], h1, h5, ?_,
    by rw [h3]; rfl, by rw [h3]; rfl, by simp, ?_, ?_, by rw [h4]; simp, ?_⟩
  · rw [h4]; simp only [LinOK, List.mem_singleton, forall_eq]
    exact ⟨L, rfl, hA⟩
  · intro v hv
    simp only [List.mem_cons, List.not_mem_nil, or_false] at hv
    rcases hv with rfl | rfl <;> omega
  · intro i v w hv hw
    match i, hv, hw with
    | 0, hv, hw => cases hv; cases hw; exact ⟨_, a1, by simp⟩
    | 1, hv, hw => cases hv; cases hw; exact ⟨_, b1, by simp⟩
    | (n + 2), hv, _ => simp at hv
  · intro L' hL'
    cases hL'
    intro h0
    have h0' : L.transformTo (List.replicate 8 0) (List.replicate 8 0) = .ok (List.replicate 8 1) := h0
    rw [w1] at h0'
    cases h0'
    have := w3 0 (by norm_num)
    simp [evalAt, sum_range_succ] at this

end Ringo
