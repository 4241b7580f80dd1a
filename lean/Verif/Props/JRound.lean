import Verif.Proof.JRoundOut

/-! # `NewParameters` with rounding -/

namespace Ringo

open Real

/-! ## The variables are exact -/

theorem ceil_eq_ceilDiv {a b : Nat} (hb : 1 ≤ b) : ⌈(a : ℝ) / b⌉ = (ceilDiv a b : ℤ) := by
  have hb0 : (0 : ℝ) < b := by exact_mod_cast hb
  have h1 := Nat.div_add_mod (a + b - 1) b
  have h2 := Nat.mod_lt (a + b - 1) hb
  have e : ceilDiv a b = (a + b - 1) / b := rfl
  rw [← e] at h1
  rw [Int.ceil_eq_iff]
  push_cast
  constructor
  · rw [lt_div_iff₀ hb0, sub_mul, one_mul, sub_lt_iff_lt_add]
    have : ceilDiv a b * b < a + b := by rw [mul_comm]; omega
    exact_mod_cast this
  · rw [div_le_iff₀ hb0]
    have : a ≤ ceilDiv a b * b := by rw [mul_comm]; omega
    exact_mod_cast this

theorem max_pow_eq (i : Nat) : ∃ j ≤ 8, max (2 ^ i) 256 = 2 ^ i * 2 ^ j := by
  rcases Nat.lt_or_ge i 8 with h | h
  · refine ⟨8 - i, by omega, ?_⟩
    have h2 : 2 ^ i ≤ 2 ^ 8 := Nat.pow_le_pow_right (by norm_num) h.le
    rw [← pow_add, show i + (8 - i) = 8 by omega]
    exact max_eq_right h2
  · refine ⟨0, by omega, ?_⟩
    rw [pow_zero, mul_one, max_eq_left]
    calc 256 = 2 ^ 8 := by norm_num
      _ ≤ 2 ^ i := Nat.pow_le_pow_right (by norm_num) h

section
variable {F : Flt} (hF : F.Ok)
include hF

theorem fslots {k : Nat} (hk : ∃ i, k = 2 ^ i) :
    F.round (k : ℝ) = k ∧ max (k : ℝ) 256 = (max k 256 : ℕ) ∧ max k 256 / k ≤ 256 ∧
    F.div ((max k 256 : ℕ) : ℝ) k = (max k 256 / k : ℕ) ∧
    F.div (2 ^ 13) ((max k 256 : ℕ) : ℝ) = 2 ^ 13 / ((max k 256 : ℕ) : ℝ) := by
  obtain ⟨i, rfl⟩ := hk
  obtain ⟨j, hj, h⟩ := max_pow_eq i
  have hdiv : max (2 ^ i) 256 / 2 ^ i = 2 ^ j := by
    rw [h]; exact Nat.mul_div_cancel_left _ (Nat.two_pow_pos i)
  have hle : 2 ^ j ≤ 256 := by
    calc 2 ^ j ≤ 2 ^ 8 := Nat.pow_le_pow_right (by norm_num) hj
      _ = 256 := by norm_num
  refine ⟨?_, ?_, by rw [hdiv]; exact hle, ?_, ?_⟩
  · push_cast; exact round_two_pow hF i
  · push_cast; rfl
  · rw [hdiv, h]
    unfold Flt.div
    push_cast
    rw [mul_div_cancel_left₀ _ (by positivity)]
    exact round_two_pow hF j
  · rw [h]
    unfold Flt.div
    have := hF.round_exact 1 (13 - i - j) (by norm_num)
    have e : (2 : ℝ) ^ 13 / ((2 ^ i * 2 ^ j : ℕ) : ℝ) = ((1 : ℤ) : ℝ) * 2 ^ (13 - i - j : ℤ) := by
      push_cast
      rw [zpow_sub₀ (by norm_num), zpow_sub₀ (by norm_num), one_mul, div_div]
      norm_cast
    rw [e, this]

theorem fvars {targetN batch : Nat} {e : EcdParams} {nn : Nat} (hk : ∃ i, e.exp = 2 ^ i) (ht : 1 ≤ targetN)
    (ht' : targetN ≤ 2 ^ 47) (hb : batch ≤ 2 ^ 53) (hbase : 2 ≤ e.base) (hnn : 1 ≤ nn)
    (hnn' : nn ≤ ceilDiv targetN (max e.exp 256 / e.exp)) :
    VarsNear (F.npVars targetN batch e nn) (npVars targetN batch e nn) ∧ nn ≤ 2 ^ 47 := by
  obtain ⟨s1, s2, s3, s4, s5⟩ := fslots hF hk
  have hexp : 1 ≤ e.exp := by obtain ⟨i, hi⟩ := hk; rw [hi]; exact Nat.two_pow_pos i
  have hl := slots_pos hexp
  set l := max e.exp 256 / e.exp with hldef
  have hcd : ceilDiv targetN l * l < targetN + l := by
    have h1 := Nat.div_add_mod (targetN + l - 1) l
    have h2 : l * ((targetN + l - 1) / l) ≤ targetN + l - 1 := by omega
    unfold ceilDiv
    rw [mul_comm]; omega
  have hnl : nn * l ≤ targetN + l := (Nat.mul_le_mul_right l hnn').trans hcd.le
  have hnn2 : nn ≤ 2 ^ 47 := by
    have : ceilDiv targetN l ≤ targetN := by
      unfold ceilDiv
      apply Nat.le_of_lt_succ
      rw [Nat.div_lt_iff_lt_mul (by omega)]
      nlinarith [Nat.sub_le (targetN + l) 1, Nat.mul_le_mul ht hl, Nat.sub_add_cancel (by omega : 1 ≤ targetN + l)]
    omega
  have rn := round_nat hF (a := nn) (by omega)
  have rl : F.mul (nn : ℝ) (l : ℕ) = ((nn * l : ℕ) : ℝ) := by
    unfold Flt.mul
    rw [← Nat.cast_mul]
    exact round_nat hF (by omega)
  have rt := round_nat hF (a := targetN) (by omega)
  refine ⟨⟨?_, ?_, ?_, ?_, ?_, ?_, ?_, ?_⟩, hnn2⟩
  · exact round_nat hF hb
  · exact s1
  · show max (F.round e.exp) 256 = ((max e.exp 256 : ℕ) : ℝ)
    rw [s1, s2]
  · show F.div (2 ^ 13) (max (F.round e.exp) 256) = 2 ^ 13 / ((max e.exp 256 : ℕ) : ℝ)
    rw [s1, s2, s5]
  · exact rn
  · show ((⌈F.div (F.round targetN) (F.mul (F.round nn) (F.div (max (F.round e.exp) 256) (F.round e.exp)))⌉ : ℤ) : ℝ) =
      ((ceilDiv targetN (nn * l) : ℕ) : ℝ)
    rw [rt, rn, s1, s2, s4, rl]
    have h1 := ceil_round_div hF (a := targetN) (b := (nn * l : ℕ)) (by exact_mod_cast ht)
      (by exact_mod_cast (by omega : targetN < 2 ^ 53)) (by exact_mod_cast Nat.mul_pos hnn hl)
    unfold Flt.div
    simp only [Int.cast_natCast] at h1
    rw [h1, ceil_eq_ceilDiv (Nat.mul_pos hnn hl)]
    norm_cast
  · exact Near.round hF (show (0 : ℝ) < e.base by exact_mod_cast (by omega : 0 < e.base))
  · obtain ⟨i, hi⟩ := hk
    exact ⟨i, by show ((e.exp : ℕ) : ℝ) = _; rw [hi]; push_cast; rfl⟩

theorem fshape {targetN batch : Nat} {e : EcdParams} {nn : Nat} (hk : ∃ i, e.exp = 2 ^ i)
    (hW : VarsNear (F.npVars targetN batch e nn) (npVars targetN batch e nn)) :
    F.shapeOf (F.npVars targetN batch e nn) batch e =
      ⟨batch, nn * ceilDiv targetN (nn * (max e.exp 256 / e.exp)) * (max e.exp 256 / e.exp),
        ceilDiv targetN (nn * (max e.exp 256 / e.exp)) + 1, nn, e.base, e.exp, max e.exp 256 / e.exp, none, none⟩ := by
  obtain ⟨s1, s2, s3, s4, s5⟩ := fslots hF hk
  unfold Flt.shapeOf
  rw [hW.d, hW.k, hW.n, hW.m]
  have e1 : ⌊(npVars targetN batch e nn).n⌋₊ = nn := Nat.floor_natCast nn
  have e2 : ⌊(npVars targetN batch e nn).m⌋₊ = ceilDiv targetN (nn * (max e.exp 256 / e.exp)) := Nat.floor_natCast _
  have e3 : ⌊(npVars targetN batch e nn).d⌋₊ = max e.exp 256 := Nat.floor_natCast _
  have e4 : F.div (npVars targetN batch e nn).d (npVars targetN batch e nn).k = ((max e.exp 256 / e.exp : ℕ) : ℝ) := s4
  rw [e1, e2, e3, e4]
  dsimp only
  rw [Nat.floor_natCast]

end

/-! ## The result of an iteration -/

namespace Flt

/-- What the fields are set to by an iteration. -/
noncomputable def final (F : Flt) (targetN batch : Nat) (e : EcdParams) (nn mu : Nat) (outRank : ℤ)
    (Q Q' : List Nat) : RParams :=
  let V := F.npVars targetN batch e nn
  let sqrt2pi := F.sqrt (F.round (2 * π))
  { shape := { F.shapeOf V batch e with ringQ := some nn, ringQOut := some nn }
    inRank := ⌊F.round mu⌋
    outRank := ⌊F.round outRank⌋
    mlweRank := ⌊V.nu⌋
    inCut := ⌊F.log2 (F.inCutOffInf V mu)⌋
    outCut := ⌊F.log2 (F.outCutOffInf V mu outRank)⌋
    dcmpLen := ⌊F.mul (F.add V.n 1) (F.round mu)⌋
    qs := some Q
    qs' := some Q'
    ecdStdDev := F.div (F.ecdStdDev V) sqrt2pi
    ecdBlindStdDev := F.div (F.ecdBlindStdDev V) sqrt2pi
    maskStdDev := F.div (F.maskStdDev V) sqrt2pi
    maskBlindStdDev := F.div (F.maskBlindStdDev V) sqrt2pi
    mlweStdDev := F.div F.mlweStdDev sqrt2pi
    maskMLWEStdDev := F.div (F.maskMLWEStdDev V) sqrt2pi
    resTwoNm := F.add (F.resTwo V mu) (F.resTwo V mu)
    inComDcmpTwoNm := F.add (F.inDcmpTwo V mu) (F.inDcmpTwo V mu)
    comSize := F.comSize V mu outRank
    pfSize := F.pfSize V mu }

theorem npAssign_eq (F : Flt) {gen : ℤ → ℤ → Option (List Nat)} {targetN batch : Nat} {e : EcdParams} {nn mu : Nat}
    {outRank : ℤ} {Q Q' : List Nat} (hQ : F.primesFor gen (F.inQ (F.npVars targetN batch e nn) mu) = some Q)
    (hQ' : F.primesFor gen (F.outQ (F.npVars targetN batch e nn) mu) = some Q') (s : RParams × Option ℝ) :
    (s.2 ≠ none ∧ F.npAssign (F.npVars targetN batch e nn) gen batch e nn mu outRank s = s) ∨
      ∃ x, F.npAssign (F.npVars targetN batch e nn) gen batch e nn mu outRank s =
        (F.final targetN batch e nn mu outRank Q Q', some x) := by
  unfold npAssign
  simp only [hQ, hQ']
  rcases s with ⟨P, _ | y⟩
  · exact .inr ⟨_, rfl⟩
  · dsimp only
    split
    · exact .inr ⟨_, rfl⟩
    · exact .inl ⟨by simp, rfl⟩

end Flt

theorem one_lt_of {x b : ℝ} (h : 64 ≤ b) (h' : b ≤ x * (1 + 1 / 2 ^ 40)) : 1 < x := by nlinarith

theorem near_const {x : ℝ} (h : 0 < x) : Near 0 x x := Near.refl h

section
variable {F : Flt} (hF : F.Ok) {targetN batch : Nat} {e : EcdParams} {nn mu : Nat} {outRank : ℤ} {Q Q' : List Nat}
include hF

set_option maxHeartbeats 800000 in
theorem final_sound_q (hk : ∃ i, e.exp = 2 ^ i) (ht : 1 ≤ targetN) (ht' : targetN ≤ 2 ^ 47) (hb : 1 ≤ batch)
    (hb' : batch ≤ 2 ^ 53) (hbase : 2 ≤ e.base) (hnn : 1 ≤ nn)
    (hnn' : nn ≤ ceilDiv targetN (max e.exp 256 / e.exp))
    (hin : F.inLoop (F.npVars targetN batch e nn) = .ok mu)
    (hout : F.log2 (F.outQ (F.npVars targetN batch e nn) mu) ≤ 240)
    (hrk : F.findMSISRank (F.npVars targetN batch e nn).d (F.outQ (F.npVars targetN batch e nn) mu)
      (F.outMSISBeta (F.npVars targetN batch e nn) mu) = .ok outRank)
    (hQ : F.inQ (F.npVars targetN batch e nn) mu ≤ Q.prod)
    (hQ' : F.outQ (F.npVars targetN batch e nn) mu ≤ Q'.prod) :
    (F.final targetN batch e nn mu outRank Q Q').SoundTol ∧
      √((F.final targetN batch e nn mu outRank Q Q').dcmpLen * (F.final targetN batch e nn mu outRank Q Q').deg) *
        (F.final targetN batch e nn mu outRank Q Q').batchGrowth * (F.inQ (F.npVars targetN batch e nn) mu / 2 /
        2 ^ (F.final targetN batch e nn mu outRank Q Q').inCut) ≤
        (1 + tol) * ((F.final targetN batch e nn mu outRank Q Q').inComDcmpTwoNm / 2) := by
  have hexp : 1 ≤ e.exp := by obtain ⟨i, hi⟩ := hk; rw [hi]; exact Nat.two_pow_pos i
  have hV : (npVars targetN batch e nn).Ok := npVars_ok ht hb hbase hexp hnn
  obtain ⟨hW, hnn2⟩ := fvars hF hk ht ht' hb' hbase hnn hnn'
  have hshape := fshape hF hk hW
  obtain ⟨h1, h2, L, M, hm, hle, hrkin⟩ := finner hF hV hW hin
  obtain ⟨hbq, hob, r1, r2, L', M', hm', hle', hrkout⟩ := fouter hF hV hW h1 hm hle hout hrk
  obtain ⟨c1, c2, c3⟩ := finCut hF hV hW h1 hm hbq
  obtain ⟨o1, o2⟩ := foutCut hF hV hW h1 hm hbq r1 r2 hm' hle'
  obtain ⟨d1, d2, d3, d4⟩ := NPVars.dcmpTwoOf_facts hV h1 hbq
  have hq0 : 0 < F.inQ (F.npVars targetN batch e nn) mu := by rw [hm.val]; positivity
  have hq0' : 0 < F.outQ (F.npVars targetN batch e nn) mu := by rw [hm'.val]; positivity
  have nres := resTwo_near hF hV hW h1
  have nres2 := nres.fadd hF nres
  have ndc := finDcmpTwo_near hF hV hW h1 hq0
  have ndc2 := ndc.fadd hF ndc
  have nin := inMSISBeta_near hF hV hW h1
  have nout := foutBeta_near hF hV hW h1 hq0
  have hc := NPVars.cOne_ge hV
  have hf := NPVars.batchFac_ge hV
  have hfac := NPVars.inFac_ge hV
  have hr0 := NPVars.resTwo_pos hV mu
  have hrk1 : ⌊F.round (mu : ℝ)⌋ = (mu : ℤ) := by rw [round_nat hF (by omega), Int.floor_natCast]
  have hrk2 : ⌊F.round (outRank : ℝ)⌋ = outRank := by
    rw [round_int hF (by rw [abs_of_pos (by omega)]; omega), Int.floor_intCast]
  -- the parameters without rounding
  set P₀ := npFinal targetN batch e nn mu outRank Q Q' with hP₀
  set P := F.final targetN batch e nn mu outRank Q Q' with hP
  have hsh : P.shape = P₀.shape := by
    show ({ F.shapeOf (F.npVars targetN batch e nn) batch e with ringQ := some nn, ringQOut := some nn } : JParams) = _
    rw [hshape]; rfl
  have hchal : P.chal = (npVars targetN batch e nn).cOne := by unfold RParams.chal; rw [hsh]; rfl
  have hdeg : P.deg = (npVars targetN batch e nn).d := by
    rw [← npFinal_deg (mu := mu) (outRank := outRank) (Q := Q) (Q' := Q')]; unfold RParams.deg; rw [hsh]
  have hgrow : P.batchGrowth = (npVars targetN batch e nn).batchFac := by
    rw [← npFinal_growth (mu := mu) (outRank := outRank) (Q := Q) (Q' := Q')]
    unfold RParams.batchGrowth RParams.chal; rw [hsh]
  have hcols : P.shape.cols = nn := by rw [hsh]; rfl
  have hirank : P.inRank = (mu : ℤ) := hrk1
  have horank : P.outRank = outRank := hrk2
  have hdl : P.dcmpLen = ((nn : ℤ) + 1) * mu := by
    show ⌊F.mul (F.add (F.npVars targetN batch e nn).n 1) (F.round mu)⌋ = _
    have e0 : (F.npVars targetN batch e nn).n = nn := hW.n
    have e1 : F.add (nn : ℝ) 1 = ((nn + 1 : ℕ) : ℝ) := by
      unfold Flt.add
      rw [← Nat.cast_succ]; exact round_nat hF (by omega)
    have e2 : F.mul ((nn + 1 : ℕ) : ℝ) (mu : ℝ) = (((nn + 1) * mu : ℕ) : ℝ) := by
      unfold Flt.mul
      rw [← Nat.cast_mul]
      refine round_nat hF ?_
      calc (nn + 1) * mu ≤ (2 ^ 47 + 1) * 33 := Nat.mul_le_mul (by omega) h2
        _ ≤ 2 ^ 53 := by norm_num
    rw [e0, e1, round_nat hF (show mu ≤ 2 ^ 53 by omega), e2, Int.floor_natCast]
    push_cast; ring
  -- standard deviations
  have hpi := sqrt_two_pi_pos
  have npi : Near 2 (F.sqrt (F.round (2 * π))) (√(2 * π)) := (Near.round hF (by positivity)).fsqrt hF
  have n1 : Near 12 P.ecdStdDev P₀.ecdStdDev := (ecdStdDev_near hF hV hW).fdiv hF npi
  have n2 : Near 17 P.ecdBlindStdDev P₀.ecdBlindStdDev := (ecdBlindStdDev_near hF hV hW).fdiv hF npi
  have n3 : Near 19 P.maskStdDev P₀.maskStdDev := (maskStdDev_near hF hV hW).fdiv hF npi
  have n4 : Near 23 P.maskBlindStdDev P₀.maskBlindStdDev := (maskBlindStdDev_near hF hV hW).fdiv hF npi
  have n5 : Near 4 P.mlweStdDev P₀.mlweStdDev := (mlweStdDev_near hF).fdiv hF npi
  have n6 : Near 13 P.maskMLWEStdDev P₀.maskMLWEStdDev := (maskMLWEStdDev_near hF hV hW).fdiv hF npi
  have hc0 : 0 < (npVars targetN batch e nn).cOne := by linarith
  have hb0 : (0 : ℝ) < (e.base : ℝ) - 1 := by
    have : (2 : ℝ) ≤ e.base := by exact_mod_cast hbase
    linarith
  have hk0 : 0 < √(e.exp : ℝ) := Real.sqrt_pos.mpr (by exact_mod_cast hexp)
  have hnn0 : (0 : ℝ) < nn := by exact_mod_cast hnn
  have hbs : P.shape.base = e.base := by rw [hsh]; rfl
  have hes : P.shape.exp = e.exp := by rw [hsh]; rfl
  have e1 : P₀.ecdStdDev * √(2 * π) * ((e.base : ℝ) - 1) = 2 * 6 * ((e.base : ℝ) + 1) := by
    show (npVars targetN batch e nn).ecdStdDev / √(2 * π) * √(2 * π) * ((npVars targetN batch e nn).b - 1) =
      2 * 6 * ((npVars targetN batch e nn).b + 1)
    have : (npVars targetN batch e nn).b - 1 ≠ 0 := by linarith [hV.b]
    rw [NPVars.ecdStdDev]
    field_simp
  have e2 : P₀.mlweStdDev * √(2 * π) = 2 * √2 * 6 := by
    show NPVars.mlweStdDev / √(2 * π) * √(2 * π) = _
    rw [div_mul_cancel₀ _ hpi.ne']; rfl
  have e3 : P₀.maskStdDev = (npVars targetN batch e nn).cOne * P₀.ecdStdDev := by
    show (npVars targetN batch e nn).maskStdDev / √(2 * π) =
      (npVars targetN batch e nn).cOne * ((npVars targetN batch e nn).ecdStdDev / √(2 * π))
    rw [NPVars.maskStdDev, NPVars.ecdStdDev]; ring
  have e4 : P₀.ecdBlindStdDev = √(e.exp : ℝ) * (e.base : ℝ) * P₀.ecdStdDev := by
    show (npVars targetN batch e nn).ecdBlindStdDev / √(2 * π) =
      (npVars targetN batch e nn).xOne * ((npVars targetN batch e nn).ecdStdDev / √(2 * π))
    rw [NPVars.ecdBlindStdDev, NPVars.ecdStdDev]; ring
  have e5 : P₀.maskBlindStdDev = (npVars targetN batch e nn).cOne * P₀.ecdBlindStdDev := by
    show (npVars targetN batch e nn).maskBlindStdDev / √(2 * π) =
      (npVars targetN batch e nn).cOne * ((npVars targetN batch e nn).ecdBlindStdDev / √(2 * π))
    rw [NPVars.maskBlindStdDev, NPVars.ecdBlindStdDev]; ring
  have e6 : P₀.maskMLWEStdDev = (npVars targetN batch e nn).cOne * P₀.mlweStdDev := by
    show (npVars targetN batch e nn).maskMLWEStdDev / √(2 * π) =
      (npVars targetN batch e nn).cOne * (NPVars.mlweStdDev / √(2 * π))
    rw [NPVars.maskMLWEStdDev, NPVars.mlweStdDev]; ring
  have hbpos : (0 : ℝ) < e.base := by linarith
  have hmpos : (0 : ℝ) < (npVars targetN batch e nn).m := by linarith [hV.m]
  -- the bounds for the response
  have htail : 0 < RParams.tail := by unfold RParams.tail; positivity
  have hconst : Near 0 (P.batchGrowth * RParams.tail * ((P.shape.base : ℝ) + 1))
      (P₀.batchGrowth * RParams.tail * ((P₀.shape.base : ℝ) + 1)) := by
    rw [hgrow, npFinal_growth, hsh]
    refine near_const ?_
    show 0 < _ * _ * ((e.base : ℝ) + 1)
    positivity
  have hconst' : Near 0 (P.batchGrowth * RParams.tail) (P₀.batchGrowth * RParams.tail) := by
    rw [hgrow, npFinal_growth]
    exact near_const (by positivity)
  have hchal0 : P₀.chal = (npVars targetN batch e nn).cOne := rfl
  have hcols0 : P₀.shape.cols = nn := rfl
  have hrows0 : P₀.shape.rows = ceilDiv targetN (nn * (max e.exp 256 / e.exp)) + 1 := rfl
  have hrows : P.shape.rows = P₀.shape.rows := by rw [hsh]
  have hrpos : (0 : ℝ) < P₀.shape.rows := by rw [hrows0]; positivity
  have hrm : (P₀.shape.rows : ℝ) - 1 = (npVars targetN batch e nn).m := by
    rw [hrows0]; push_cast; show _ = ((ceilDiv targetN (nn * (max e.exp 256 / e.exp)) : ℕ) : ℝ); ring
  have nc : Near 0 (√(P.shape.cols : ℝ) * P.chal) (√(P₀.shape.cols : ℝ) * P₀.chal) := by
    rw [hcols, hchal, hcols0, hchal0]; exact near_const (by positivity)
  have m1 : Near 19 P.resRow P₀.resRow := by
    unfold RParams.resRow
    refine (hconst.mul ((nc.mul n1).add (Near.mul (k := 0) ?_ n3))).mono (by norm_num)
    rw [hcols, hcols0]; exact near_const (by positivity)
  have m2 : Near 23 P.resBlind P₀.resBlind := by
    unfold RParams.resBlind
    refine (hconst.mul ((nc.mul (Near.mul (k := 0) ?_ n2)).add (Near.mul (k := 0) ?_ n4))).mono (by norm_num)
    · rw [hrows]; exact near_const (by positivity)
    · rw [hrows, hcols, hcols0]; exact near_const (by positivity)
  have m3 : Near 13 P.resMLWE P₀.resMLWE := by
    unfold RParams.resMLWE
    refine (hconst'.mul ((nc.mul n5).add (Near.mul (k := 0) ?_ n6))).mono (by norm_num)
    rw [hcols, hcols0]; exact near_const (by positivity)
  have hd0 : 0 < (npVars targetN batch e nn).d := by linarith [hV.d]
  have hmu0 : (0 : ℝ) < mu := by exact_mod_cast h1
  have hdeg0 : P₀.deg = (npVars targetN batch e nn).d := npFinal_deg
  have hirank0 : P₀.inRank = (mu : ℤ) := rfl
  have nresp : Near 46 (P.deg * ((P.shape.rows - 1) * P.resRow ^ 2 + P.resBlind ^ 2 +
      (P.inRank + 2 ^ 13 / P.deg) * P.resMLWE ^ 2)) (P₀.deg * ((P₀.shape.rows - 1) * P₀.resRow ^ 2 +
      P₀.resBlind ^ 2 + (P₀.inRank + 2 ^ 13 / P₀.deg) * P₀.resMLWE ^ 2)) := by
    refine ((show Near 0 _ _ from ?_).mul ((((show Near 0 _ _ from ?_).mul m1.pow_two).add m2.pow_two).add
      ((show Near 0 _ _ from ?_).mul m3.pow_two))).mono (by norm_num)
    · rw [hdeg, hdeg0]; exact near_const hd0
    · rw [hrows, hrm]; exact near_const hmpos
    · rw [hdeg, hdeg0, hirank, hirank0]
      refine near_const ?_
      push_cast
      positivity
  have nres2' : Near 166 P.resTwoNm P₀.resTwoNm := nres2.mono (by norm_num)
  have nhalf : Near 332 ((P.resTwoNm / 2) ^ 2) ((P₀.resTwoNm / 2) ^ 2) :=
    ((nres2'.div (near_const two_pos)).pow_two).mono (by norm_num)
  have tol0 : (0 : ℝ) < 1 + 1 / 2 ^ 40 := by norm_num
  have htol3 : (1 + 1 / 2 ^ 40 : ℝ) ^ 3 ≤ 1 + tol := by unfold tol; norm_num
  have htol2 : (1 + 1 / 2 ^ 40 : ℝ) ^ 2 ≤ 1 + tol := by unfold tol; norm_num
  have hresU := nres2'.lower (by norm_num)
  have hresL := nres2'.upper (by norm_num)
  have ndc2' : Near 221 P.inComDcmpTwoNm ((npVars targetN batch e nn).dcmpTwoOf
      (F.inQ (F.npVars targetN batch e nn) mu) mu + (npVars targetN batch e nn).dcmpTwoOf
      (F.inQ (F.npVars targetN batch e nn) mu) mu) := ndc2.mono (by norm_num)
  have hdcU := ndc2'.lower (by norm_num)
  have hdcL := ndc2'.upper (by norm_num)
  have h8 : 8 * P₀.resTwoNm ≤ (npVars targetN batch e nn).inMSISBeta mu := by
    rw [NPVars.inMSISBeta_eq]
    exact mul_le_mul_of_nonneg_right hfac (add_nonneg hr0.le hr0.le)
  have hR0 : P₀.resTwoNm = (npVars targetN batch e nn).resTwo mu + (npVars targetN batch e nn).resTwo mu := rfl
  -- the norms
  have hib : Near 400 P.inBeta (F.inMSISBeta (F.npVars targetN batch e nn) mu) := by
    have : Near 166 P.inBeta ((npVars targetN batch e nn).inMSISBeta mu) := by
      rw [← npFinal_inBeta (outRank := outRank) (Q := Q) (Q' := Q')]
      unfold RParams.inBeta
      refine ((show Near 0 _ _ from ?_).mul nres2').mono (by norm_num)
      rw [hsh, hchal]
      refine near_const ?_
      split <;> positivity
    exact (this.trans nin.symm).mono (by norm_num)
  have hob' : Near 600 P.outBeta (F.outMSISBeta (F.npVars targetN batch e nn) mu) := by
    have : Near 221 P.outBeta ((npVars targetN batch e nn).outBetaOf
        (F.inQ (F.npVars targetN batch e nn) mu) mu) := by
      have he : (npVars targetN batch e nn).outBetaOf (F.inQ (F.npVars targetN batch e nn) mu) mu =
          (if batch = 1 then 4 else 8 * (npVars targetN batch e nn).cOne) *
          ((npVars targetN batch e nn).dcmpTwoOf (F.inQ (F.npVars targetN batch e nn) mu) mu +
            (npVars targetN batch e nn).dcmpTwoOf (F.inQ (F.npVars targetN batch e nn) mu) mu) := by
        have hb1 : (batch = 1) ↔ (npVars targetN batch e nn).t = 1 := by
          show batch = 1 ↔ (batch : ℝ) = 1
          exact Nat.cast_eq_one.symm
        unfold NPVars.outBetaOf NPVars.dExtOne
        simp only [hb1]
        split <;> ring
      rw [he]
      unfold RParams.outBeta
      refine ((show Near 0 _ _ from ?_).mul ndc2').mono (by norm_num)
      rw [show P.shape.batch = batch by rw [hsh]; rfl, hchal]
      refine near_const ?_
      split <;> positivity
    exact (this.trans nout.symm).mono (by norm_num)
  have hib1 := hib.upper (by norm_num)
  have hob1 := hob'.upper (by norm_num)
  have htol1 : (1 + 1 / 2 ^ 40 : ℝ) ≤ 1 + tol := by unfold tol; norm_num
  have hfb := finBeta_ge hF hV hW h1
  have hdcmp : √(P.dcmpLen * P.deg) * P.batchGrowth * (F.inQ (F.npVars targetN batch e nn) mu / 2 / 2 ^ P.inCut) ≤
      (1 + tol) * (P.inComDcmpTwoNm / 2) := by
    rw [hgrow, hdeg, hdl]
    refine le_trans (le_of_eq ?_) (c3.trans ?_)
    · push_cast; rfl
    · have : (npVars targetN batch e nn).dcmpTwoOf (F.inQ (F.npVars targetN batch e nn) mu) mu ≤
          P.inComDcmpTwoNm / 2 * (1 + 1 / 2 ^ 40) := by linarith
      calc _ ≤ P.inComDcmpTwoNm / 2 * (1 + 1 / 2 ^ 40) * (1 + 1 / 2 ^ 40) ^ 2 := by gcongr
        _ = (1 + 1 / 2 ^ 40) ^ 3 * (P.inComDcmpTwoNm / 2) := by ring
        _ ≤ _ := by
          have := ndc2'.xpos
          gcongr
  refine ⟨?_, hdcmp⟩
  constructor
  · rw [hirank]; exact ⟨Int.ofNat_le.mpr h1, Int.ofNat_le.mpr h2⟩
  · rw [horank]; exact ⟨r1, r2⟩
  · rw [hdl, hcols, hirank]
  · rw [hdeg]
    show ⌊(F.npVars targetN batch e nn).nu⌋ = _
    rw [hW.nu]; rfl
  · rw [hbs, ← e1]
    exact (((n1.mul (near_const hpi)).mul (near_const hb0))).within (by norm_num)
  · rw [← e2]
    exact (n5.mul (near_const hpi)).within (by norm_num)
  · refine Near.within (k := 31) ?_ (by norm_num)
    rw [hchal]
    refine (n3.trans (y := P₀.maskStdDev) ?_ : Near (19 + 12) _ _)
    rw [e3]
    exact ((near_const hc0).mul n1.symm).mono (by norm_num)
  · refine Near.within (k := 29) ?_ (by norm_num)
    rw [hbs, hes]
    refine (n2.trans (y := P₀.ecdBlindStdDev) ?_ : Near (17 + 12) _ _)
    rw [e4]
    exact ((near_const (by positivity)).mul n1.symm).mono (by norm_num)
  · refine Near.within (k := 40) ?_ (by norm_num)
    rw [hchal]
    refine (n4.trans (y := P₀.maskBlindStdDev) ?_ : Near (23 + 17) _ _)
    rw [e5]
    exact ((near_const hc0).mul n2.symm).mono (by norm_num)
  · refine Near.within (k := 17) ?_ (by norm_num)
    rw [hchal]
    refine (n6.trans (y := P₀.maskMLWEStdDev) ?_ : Near (13 + 4) _ _)
    rw [e6]
    exact ((near_const hc0).mul n5.symm).mono (by norm_num)
  · refine Near.within (k := 332 + 46) ?_ (by norm_num)
    refine nhalf.trans ?_
    rw [hP₀, npFinal_response hV]
    exact nresp.symm
  · refine ⟨Q, Q', _, _, rfl, rfl, hQ, hQ', ?_, ?_, ?_, ?_, ?_, ?_, nres2'.xpos, ?_, ndc2'.xpos, ?_, ?_⟩
    · rw [hm.val]; exact zp240 (by exact_mod_cast hm.le)
    · rw [hm'.val]; exact zp240 (by exact_mod_cast hm'.le)
    · calc P.inBeta ≤ F.inQ (F.npVars targetN batch e nn) mu * (1 + 1 / 2 ^ 40) := hib1.trans (by gcongr)
        _ ≤ (1 + tol) * F.inQ (F.npVars targetN batch e nn) mu := by rw [mul_comm]; gcongr
    · rw [hdeg, hirank]
      refine msisHardTol_of hd0 (by exact_mod_cast h1) hm.pos hm.val hfb
        (one_lt_of hfb (hib.lower (by norm_num))) hib1 (by exact_mod_cast hrkin)
    · calc P.outBeta ≤ F.outQ (F.npVars targetN batch e nn) mu * (1 + 1 / 2 ^ 40) := hob1.trans (by gcongr)
        _ ≤ (1 + tol) * F.outQ (F.npVars targetN batch e nn) mu := by rw [mul_comm]; gcongr
    · rw [hdeg, horank]
      refine msisHardTol_of hd0 r1 hm'.pos hm'.val hob
        (one_lt_of hob (hob'.lower (by norm_num))) hob1 hrkout
    · calc 8 * P.resTwoNm ≤ 8 * (P₀.resTwoNm * (1 + 1 / 2 ^ 40)) := by gcongr
        _ = 8 * P₀.resTwoNm * (1 + 1 / 2 ^ 40) := by ring
        _ ≤ F.inQ (F.npVars targetN batch e nn) mu * (1 + 1 / 2 ^ 40) * (1 + 1 / 2 ^ 40) :=
          mul_le_mul_of_nonneg_right (h8.trans hbq) tol0.le
        _ = (1 + 1 / 2 ^ 40) ^ 2 * F.inQ (F.npVars targetN batch e nn) mu := by ring
        _ ≤ (1 + tol) * Q.prod := by gcongr
    · have h3 := nout.lower (by norm_num)
      calc 4 * P.inComDcmpTwoNm ≤ 4 * (((npVars targetN batch e nn).dcmpTwoOf
            (F.inQ (F.npVars targetN batch e nn) mu) mu + (npVars targetN batch e nn).dcmpTwoOf
            (F.inQ (F.npVars targetN batch e nn) mu) mu) * (1 + 1 / 2 ^ 40)) := by gcongr
        _ = 4 * ((npVars targetN batch e nn).dcmpTwoOf
            (F.inQ (F.npVars targetN batch e nn) mu) mu + (npVars targetN batch e nn).dcmpTwoOf
            (F.inQ (F.npVars targetN batch e nn) mu) mu) * (1 + 1 / 2 ^ 40) := by ring
        _ ≤ (F.outQ (F.npVars targetN batch e nn) mu * (1 + 1 / 2 ^ 40)) * (1 + 1 / 2 ^ 40) :=
          mul_le_mul_of_nonneg_right ((d4.trans h3).trans (mul_le_mul_of_nonneg_right hle' tol0.le)) tol0.le
        _ = (1 + 1 / 2 ^ 40) ^ 2 * F.outQ (F.npVars targetN batch e nn) mu := by ring
        _ ≤ (1 + tol) * Q'.prod := by gcongr
    · exact hdcmp
  · refine ⟨c1, ?_⟩
    rw [hgrow, hdeg, hcols, hirank, hchal]
    refine le_trans (le_of_eq ?_) (c2.trans ?_)
    · push_cast; rfl
    · have : (npVars targetN batch e nn).resTwo mu ≤ P.resTwoNm / 2 * (1 + 1 / 2 ^ 40) := by
        rw [hR0] at hresU; linarith
      calc _ ≤ P.resTwoNm / 2 * (1 + 1 / 2 ^ 40) * (1 + 1 / 2 ^ 40) ^ 2 := by gcongr
        _ = (1 + 1 / 2 ^ 40) ^ 3 * (P.resTwoNm / 2) := by ring
        _ ≤ _ := by
          have := nres2'.xpos
          gcongr
  · refine ⟨o1, ?_⟩
    rw [hgrow, hdeg, horank]
    refine o2.trans ?_
    have : (npVars targetN batch e nn).dcmpTwoOf (F.inQ (F.npVars targetN batch e nn) mu) mu ≤
        P.inComDcmpTwoNm / 2 * (1 + 1 / 2 ^ 40) := by linarith
    calc _ ≤ P.inComDcmpTwoNm / 2 * (1 + 1 / 2 ^ 40) * (1 + 1 / 2 ^ 40) ^ 2 := by gcongr
      _ = (1 + 1 / 2 ^ 40) ^ 3 * (P.inComDcmpTwoNm / 2) := by ring
      _ ≤ _ := by
        have := ndc2'.xpos
        gcongr

theorem final_sound (hk : ∃ i, e.exp = 2 ^ i) (ht : 1 ≤ targetN) (ht' : targetN ≤ 2 ^ 47) (hb : 1 ≤ batch)
    (hb' : batch ≤ 2 ^ 53) (hbase : 2 ≤ e.base) (hnn : 1 ≤ nn)
    (hnn' : nn ≤ ceilDiv targetN (max e.exp 256 / e.exp))
    (hin : F.inLoop (F.npVars targetN batch e nn) = .ok mu)
    (hout : F.log2 (F.outQ (F.npVars targetN batch e nn) mu) ≤ 240)
    (hrk : F.findMSISRank (F.npVars targetN batch e nn).d (F.outQ (F.npVars targetN batch e nn) mu)
      (F.outMSISBeta (F.npVars targetN batch e nn) mu) = .ok outRank)
    (hQ : F.inQ (F.npVars targetN batch e nn) mu ≤ Q.prod)
    (hQ' : F.outQ (F.npVars targetN batch e nn) mu ≤ Q'.prod) :
    (F.final targetN batch e nn mu outRank Q Q').SoundTol :=
  (final_sound_q hF hk ht ht' hb hb' hbase hnn hnn' hin hout hrk hQ hQ').1

end

/-! ## C106 -/

/-- The facts about the shape, for `targetN` coefficients over the field of order `p`. -/
def RParams.Fits (P : RParams) (targetN batch p : Nat) : Prop :=
  P.shape.batch = batch ∧ P.shape.base ^ P.shape.exp = p - 1 ∧ 2 ≤ P.shape.rows ∧
    P.shape.rank = P.shape.cols * (P.shape.rows - 1) * P.shape.slots ∧ targetN ≤ P.shape.rank

theorem fstep_sound {F : Flt} (hF : F.Ok) {gen : ℤ → ℤ → Option (List Nat)} (hg : GenOk gen)
    {targetN batch p : Nat} {e : EcdParams} {nn : Nat} (hp : e.base ^ e.exp = p - 1)
    (hk : ∃ i, e.exp = 2 ^ i) (ht : 1 ≤ targetN) (ht' : targetN ≤ 2 ^ 47) (hb : 1 ≤ batch)
    (hb' : batch ≤ 2 ^ 53) (hbase : 2 ≤ e.base) (hnn : 1 ≤ nn)
    (hnn' : nn ≤ ceilDiv targetN (max e.exp 256 / e.exp)) {s s' : RParams × Option ℝ}
    (h : F.npStep gen targetN batch e s nn = .ok s') :
    (s' = s ∧ (s.2 = none → ∀ mu, F.inLoop (F.npVars targetN batch e nn) = .ok mu →
      240 < F.log2 (F.outQ (F.npVars targetN batch e nn) mu))) ∨ (s'.1.SoundTol ∧ s'.1.Fits targetN batch p) := by
  have hexp : 1 ≤ e.exp := by obtain ⟨i, hi⟩ := hk; rw [hi]; exact Nat.two_pow_pos i
  have hV : (npVars targetN batch e nn).Ok := npVars_ok ht hb hbase hexp hnn
  obtain ⟨hW, -⟩ := fvars hF hk ht ht' hb' hbase hnn hnn'
  unfold Flt.npStep at h
  obtain ⟨mu, h1, h⟩ := bind_ok_inv h
  split at h
  · rename_i h2
    injection h with h
    refine .inl ⟨h.symm, fun _ mu' hmu' => ?_⟩
    rw [h1] at hmu'
    injection hmu' with hmu'
    rw [← hmu']; exact h2
  · rename_i h2
    push Not at h2
    obtain ⟨r, h3, h⟩ := bind_ok_inv h
    injection h with h
    obtain ⟨a1, a2, L, M, hm, hle, -⟩ := finner hF hV hW h1
    obtain ⟨-, -, -, -, L', M', hm', -, -⟩ := fouter hF hV hW a1 hm hle h2 h3
    obtain ⟨Q, hQ, hQp⟩ := primesFor_ok hg hm.pos' (by rw [← hm.eq]; exact hm.le)
    obtain ⟨Q', hQ', hQp'⟩ := primesFor_ok hg hm'.pos' (by rw [← hm'.eq]; exact hm'.le)
    rw [← hm.eq] at hQ hQp
    rw [← hm'.eq] at hQ' hQp'
    rw [← fprimes_eq hF gen hm.pos hm.le hm.log] at hQ
    rw [← fprimes_eq hF gen hm'.pos hm'.le hm'.log] at hQ'
    rw [← hm.val] at hQp
    rw [← hm'.val] at hQp'
    rcases F.npAssign_eq (outRank := r) hQ hQ' s with ⟨h5, h4⟩ | ⟨x, h4⟩
    · rw [h4] at h; exact .inl ⟨h.symm, fun hn => absurd hn h5⟩
    · rw [h4] at h
      right
      rw [← h]
      refine ⟨final_sound hF hk ht ht' hb hb' hbase hnn hnn' h1 h2 h3 hQp hQp', ?_⟩
      have hsh : (F.final targetN batch e nn mu r Q Q').shape =
          { F.shapeOf (F.npVars targetN batch e nn) batch e with ringQ := some nn, ringQOut := some nn } := rfl
      unfold RParams.Fits
      rw [hsh, fshape hF hk hW]
      have hl := slots_pos hexp
      have hcd := ceilDiv_mul targetN (nn * (max e.exp 256 / e.exp)) (Nat.mul_pos hnn hl)
      have hcp := ceilDiv_pos ht (Nat.mul_pos hnn hl)
      refine ⟨rfl, hp, Nat.succ_le_succ hcp, rfl, hcd.trans (le_of_eq ?_)⟩
      show _ = nn * _ * _
      ring

theorem fmaxCols {F : Flt} (hF : F.Ok) {targetN k : Nat} (hk : ∃ i, k = 2 ^ i) (ht : 1 ≤ targetN)
    (ht' : targetN ≤ 2 ^ 47) :
    ⌈F.div (F.round targetN) (F.div (max (F.round k) 256) (F.round k))⌉₊ = ceilDiv targetN (max k 256 / k) := by
  obtain ⟨s1, s2, s3, s4, s5⟩ := fslots hF hk
  have hk1 : 1 ≤ k := by obtain ⟨i, hi⟩ := hk; rw [hi]; exact Nat.two_pow_pos i
  rw [s1, s2, s4, round_nat hF (by omega)]
  have h1 := ceil_round_div hF (a := targetN) (b := (max k 256 / k : ℕ)) (by exact_mod_cast ht)
    (by exact_mod_cast (by omega : targetN < 2 ^ 53)) (by exact_mod_cast slots_pos hk1)
  simp only [Int.cast_natCast] at h1
  rw [ceil_eq_ceilDiv (slots_pos hk1)] at h1
  unfold Flt.div
  rw [← Int.ceil_toNat, h1, Int.toNat_natCast]

/-- **C106.** `NewParameters` with floating-point rounding: as `C91_sound`, up to the relative error `2^-36`. -/
theorem C106_sound {F : Flt} (hF : F.Ok) {gen : ℤ → ℤ → Option (List Nat)} (hg : GenOk gen)
    {targetN batch p : Nat} (hp : 3 ≤ p) (ht : targetN ≤ 2 ^ 47) (hb : batch ≤ 2 ^ 53)
    {P : RParams} (h : F.newParameters gen targetN batch p = .ok P) :
    P = RParams.zero ∨
      (P.SoundTol ∧ P.shape.batch = batch ∧ P.shape.base ^ P.shape.exp = p - 1 ∧ 2 ≤ P.shape.rows ∧
        P.shape.rank = P.shape.cols * (P.shape.rows - 1) * P.shape.slots ∧ targetN ≤ P.shape.rank) := by
  unfold Flt.newParameters at h
  split at h
  · cases h
  rename_i ht1
  split at h
  · cases h
  rename_i hb1
  obtain ⟨e, he, h⟩ := bind_ok_inv h
  obtain ⟨s, hs, h⟩ := bind_ok_inv h
  injection h with h
  subst h
  obtain ⟨hb2, he2⟩ := ecd_base_exp hp he
  obtain ⟨c1, c2, -⟩ := C61_result p hp e he
  rw [fmaxCols hF c2 (by omega) ht] at hs
  have key : ∀ (L : List Nat), (∀ n ∈ L, 1 ≤ n ∧ n ≤ ceilDiv targetN (max e.exp 256 / e.exp)) →
      ∀ (s0 s1 : RParams × Option ℝ),
      (s0.1 = RParams.zero ∨ (s0.1.SoundTol ∧ s0.1.Fits targetN batch p)) →
      L.foldlM (F.npStep gen targetN batch e) s0 = .ok s1 →
      (s1.1 = RParams.zero ∨ (s1.1.SoundTol ∧ s1.1.Fits targetN batch p)) := by
    intro L
    induction L with
    | nil => intro _ s0 s1 h0 h; injection h with h; rw [← h]; exact h0
    | cons n L ih =>
      intro hL s0 s1 h0 h
      rw [List.foldlM_cons] at h
      obtain ⟨s', h3, h4⟩ := bind_ok_inv h
      refine ih (fun x hx => hL x (by simp [hx])) s' s1 ?_ h4
      obtain ⟨n1, n2⟩ := hL n (by simp)
      rcases fstep_sound hF hg c1 c2 (by omega) ht (by omega) hb hb2 n1 n2 h3 with ⟨h5, -⟩ | h5
      · rw [h5]; exact h0
      · exact .inr h5
  exact key _ (fun n hn => ⟨mem_doublings_pos hn, doublings_le hn⟩) _ s (.inl rfl) hs

/-! ### Panics -/

theorem bind_error_inv {α β : Type} {x : Go α} {f : α → Go β} {w : Fault} (h : (x >>= f) = .error w) :
    x = .error w ∨ ∃ a, x = .ok a ∧ f a = .error w := by
  cases x with
  | error e => left; injection h with h; rw [h]
  | ok a => exact .inr ⟨a, rfl, h⟩

section
variable {F : Flt} (hF : F.Ok)
include hF

/-- A norm above the modulus that was chosen for it. -/
theorem over_q {beta q : ℝ} (hb : 64 ≤ beta) (hq : q = F.exp2 (F.round (F.logModulus beta)))
    (h240 : F.log2 q ≤ 240) (h : q < beta) :
    ∃ M : ℤ, (2 : ℝ) ^ M < beta ∧ beta ≤ 2 ^ M * (1 + 1 / 2 ^ 40) := by
  have hL := one_le_ceil_flog hF (show 2 ≤ beta by linarith)
  obtain ⟨m1, m2, m3, m4⟩ := modulus_ok hF hL (q := q) hq h240
  have hLM := le_bits_limbs hL
  set M := bitsOf ((⌈F.log2 beta⌉ : ℤ) : ℝ) * limbsOf ((⌈F.log2 beta⌉ : ℤ) : ℝ) with hM
  have h1 : F.log2 beta ≤ M := le_trans (Int.le_ceil _) (by exact_mod_cast hLM)
  have h2 : (M : ℝ) ≤ 240 := by exact_mod_cast m2
  have h6 : 6 ≤ logb 2 beta := by
    rw [Real.le_logb_iff_rpow_le (by norm_num) (by linarith)]
    refine le_trans (le_of_eq ?_) hb
    norm_num
  have herr := hF.log2_err beta (by linarith)
  rw [abs_of_pos (show 0 < logb 2 beta by linarith), abs_le] at herr
  have h3 : logb 2 beta ≤ 241 := by linarith
  have h4 : logb 2 beta ≤ M + 1 / 2 ^ 40 := by
    have : (1 + logb 2 beta) / 2 ^ 50 ≤ 1 / 2 ^ 40 := by
      rw [div_le_div_iff₀ (by norm_num) (by norm_num)]; nlinarith
    linarith
  have hqM : q = 2 ^ M := by rw [m1, Real.rpow_intCast]
  refine ⟨M, by rw [← hqM]; exact h, ?_⟩
  calc beta = 2 ^ logb 2 beta := (Real.rpow_logb (by norm_num) (by norm_num) (by linarith)).symm
    _ ≤ 2 ^ ((M : ℝ) + 1 / 2 ^ 40) := Real.rpow_le_rpow_of_exponent_le (by norm_num) h4
    _ = 2 ^ M * 2 ^ (1 / 2 ^ 40 : ℝ) := by rw [Real.rpow_add (by norm_num), Real.rpow_intCast]
    _ ≤ _ := by
      gcongr
      exact two_rpow_small (by norm_num) le_rfl

omit hF in
theorem within_of {x beta y : ℝ} {k : Nat} (hk : k ≤ 1000) (hn : Near k beta x) (hy : 0 < y) (h1 : y < beta)
    (h2 : beta ≤ y * (1 + 1 / 2 ^ 40)) : WithinTol x y := by
  have a := hn.upper hk
  have b := hn.lower hk
  have hx := hn.pos
  unfold WithinTol tol
  rw [abs_le]
  constructor <;> nlinarith

omit hF in
theorem frank_error {d q beta : ℝ} {w : Fault} (h : F.findMSISRank d q beta = .error w) : q < beta := by
  unfold Flt.findMSISRank at h
  split at h
  · assumption
  · cases h

/-- A norm that the iteration for `nn` compares to its modulus: the inner one for the rank `mu`, or the outer one
for the inner modulus `q`. -/
def IsNorm (targetN batch : Nat) (e : EcdParams) (nn : Nat) (x : ℝ) : Prop :=
  ∃ mu, 1 ≤ mu ∧ (x = (npVars targetN batch e nn).inMSISBeta mu ∨
    ∃ M : ℤ, 1 ≤ M ∧ M ≤ 240 ∧ x = (npVars targetN batch e nn).outBetaOf (2 ^ M) mu)

theorem fstep_panic {gen : ℤ → ℤ → Option (List Nat)}
    {targetN batch : Nat} {e : EcdParams} {nn : Nat} (hk : ∃ i, e.exp = 2 ^ i) (ht : 1 ≤ targetN)
    (ht' : targetN ≤ 2 ^ 47) (hb : 1 ≤ batch) (hb' : batch ≤ 2 ^ 53) (hbase : 2 ≤ e.base) (hnn : 1 ≤ nn)
    (hnn' : nn ≤ ceilDiv targetN (max e.exp 256 / e.exp)) {s : RParams × Option ℝ} {w : Fault}
    (h : F.npStep gen targetN batch e s nn = .error w) :
    w = .hang ∨ ∃ x, IsNorm targetN batch e nn x ∧ ∃ j : ℤ, WithinTol x (2 ^ j) := by
  have hexp : 1 ≤ e.exp := by obtain ⟨i, hi⟩ := hk; rw [hi]; exact Nat.two_pow_pos i
  have hV : (npVars targetN batch e nn).Ok := npVars_ok ht hb hbase hexp hnn
  obtain ⟨hW, -⟩ := fvars hF hk ht ht' hb' hbase hnn hnn'
  unfold Flt.npStep at h
  rcases bind_error_inv h with h | ⟨mu, h1, h⟩
  · rcases forever_error_inv h with h | ⟨mu, hmu, h⟩
    · exact .inl h
    right
    dsimp only at h
    split at h
    · cases h
    rename_i h240
    push Not at h240
    rcases bind_error_inv h with h | ⟨r, -, h⟩
    · obtain ⟨M, o1, o2⟩ := over_q hF (finBeta_ge hF hV hW hmu) rfl h240 (frank_error h)
      exact ⟨_, ⟨mu, hmu, .inl rfl⟩, M, within_of (by norm_num) (inMSISBeta_near hF hV hW hmu) (by positivity) o1 o2⟩
    · split at h <;> cases h
  · split at h
    · cases h
    rename_i h240
    push Not at h240
    rcases bind_error_inv h with h | ⟨r, -, h⟩
    · right
      obtain ⟨a1, a2, L, M, hm, hle, -⟩ := finner hF hV hW h1
      have hq0 : 0 < F.inQ (F.npVars targetN batch e nn) mu := by rw [hm.val]; positivity
      have hbq : (npVars targetN batch e nn).inMSISBeta mu ≤
          F.inQ (F.npVars targetN batch e nn) mu * (1 + 1 / 2 ^ 40) :=
        ((inMSISBeta_near hF hV hW a1).lower (by norm_num)).trans (by gcongr)
      obtain ⟨-, d2, -, d4⟩ := NPVars.dcmpTwoOf_facts hV a1 hbq
      have hn := foutBeta_near hF hV hW a1 hq0
      have hob : 64 ≤ F.outMSISBeta (F.npVars targetN batch e nn) mu := by
        have := hn.lower (by norm_num)
        nlinarith
      obtain ⟨j, o1, o2⟩ := over_q hF hob rfl h240 (frank_error h)
      refine ⟨_, ⟨mu, a1, .inr ⟨M, hm.pos, hm.le, rfl⟩⟩, j, ?_⟩
      have hqM : F.inQ (F.npVars targetN batch e nn) mu = 2 ^ M := by rw [hm.val, Real.rpow_intCast]
      rw [hqM] at hn
      exact within_of (by norm_num) hn (by positivity) o1 o2
    · cases h

end

/-- Rounding can make `NewParameters` panic in `findMSISRank`, but only if one of the norms for which a
modulus is chosen is within the tolerance of a power of two. -/
theorem newParameters_panic {F : Flt} (hF : F.Ok) {gen : ℤ → ℤ → Option (List Nat)}
    {targetN batch p : Nat} (hp : 3 ≤ p) (ht : 1 ≤ targetN) (ht' : targetN ≤ 2 ^ 47) (hb : 1 ≤ batch)
    (hb' : batch ≤ 2 ^ 53) {e : EcdParams} (he : newEncodeParameters p = .ok e)
    (h : F.newParameters gen targetN batch p = .error .panic) :
    ∃ nn x, 1 ≤ nn ∧ nn ≤ ceilDiv targetN (max e.exp 256 / e.exp) ∧ IsNorm targetN batch e nn x ∧
      ∃ j : ℤ, WithinTol x (2 ^ j) := by
  unfold Flt.newParameters at h
  rw [if_neg (by omega), if_neg (by omega), he, go_bind_ok] at h
  obtain ⟨hb2, he2⟩ := ecd_base_exp hp he
  obtain ⟨-, c2, -⟩ := C61_result p hp e he
  have hs : (doublings 1 (ceilDiv targetN (max e.exp 256 / e.exp))).foldlM (F.npStep gen targetN batch e)
      (RParams.zero, none) = .error .panic := by
    rcases bind_error_inv h with h | ⟨s, -, h⟩
    · rw [fmaxCols hF c2 ht ht'] at h; exact h
    · cases h
  have key : ∀ (L : List Nat), (∀ n ∈ L, 1 ≤ n ∧ n ≤ ceilDiv targetN (max e.exp 256 / e.exp)) →
      ∀ s0 : RParams × Option ℝ, L.foldlM (F.npStep gen targetN batch e) s0 = .error .panic →
      ∃ nn x, 1 ≤ nn ∧ nn ≤ ceilDiv targetN (max e.exp 256 / e.exp) ∧ IsNorm targetN batch e nn x ∧
        ∃ j : ℤ, WithinTol x (2 ^ j) := by
    intro L
    induction L with
    | nil => intro _ s0 h; cases h
    | cons n L ih =>
      intro hL s0 h
      rw [List.foldlM_cons] at h
      obtain ⟨n1, n2⟩ := hL n (by simp)
      rcases bind_error_inv h with h | ⟨s', -, h⟩
      · rcases fstep_panic hF c2 ht ht' hb hb' hb2 n1 n2 h with h | ⟨x, h1, h2⟩
        · cases h
        · exact ⟨n, x, n1, n2, h1, h2⟩
      · exact ih (fun x hx => hL x (by simp [hx])) s' h
  exact key _ (fun n hn => ⟨mem_doublings_pos hn, doublings_le hn⟩) _ hs

/-! ### Hanging -/

/-- **C92, refuted.** With rounding, too, `NewParameters` does not return for a field of order `b + 1` if
`b` is no square and at least `2^57`, or at least `2^29` with a batch of two or more. -/
theorem C92_hang_round {F : Flt} (hF : F.Ok) (gen : ℤ → ℤ → Option (List Nat)) {targetN batch b : Nat}
    (ht : 1 ≤ targetN) (ht' : targetN ≤ 2 ^ 47) (hb : 1 ≤ batch) (hb' : batch ≤ 2 ^ 53)
    (hsq : ¬ IsSquare b) (h64 : b < 2 ^ 64) (hbig : 2 ^ 57 ≤ b ∨ (2 ^ 29 ≤ b ∧ 2 ≤ batch)) :
    F.newParameters gen targetN batch (b + 1) = .error .hang := by
  have hb2 : 2 ≤ b := by rcases hbig with h | ⟨h, -⟩ <;> omega
  have hk : ∃ i, (⟨b, 1⟩ : EcdParams).exp = 2 ^ i := ⟨0, rfl⟩
  have h1c : 1 ≤ ceilDiv targetN (max (⟨b, 1⟩ : EcdParams).exp 256 / (⟨b, 1⟩ : EcdParams).exp) :=
    ceilDiv_pos ht (slots_pos le_rfl)
  have hV : (npVars targetN batch ⟨b, 1⟩ 1).Ok := npVars_ok ht hb hb2 le_rfl le_rfl
  obtain ⟨hW, -⟩ := fvars (batch := batch) (nn := 1) hF hk ht ht' hb' hb2 le_rfl h1c
  have hloop : F.inLoop (F.npVars targetN batch ⟨b, 1⟩ 1) = .error .hang := by
    apply forever_hang
    intro mu hmu
    dsimp only
    rw [if_pos]
    · rfl
    by_contra hc
    push Not at hc
    have hn := (inMSISBeta_near hF hV hW hmu).lower (by norm_num)
    have hbeta := (inBeta_big ht hb h64 hbig).trans_le (NPVars.inMSISBeta_mono hV hmu)
    have hge := finBeta_ge hF hV hW hmu
    set beta := F.inMSISBeta (F.npVars targetN batch ⟨b, 1⟩ 1) mu with hbe
    have h1 : (2 : ℝ) ^ 240 * 1.4 ≤ beta := by nlinarith
    have hL := one_le_ceil_flog hF (show 2 ≤ beta by linarith)
    obtain ⟨m1, m2, m3, m4⟩ := modulus_ok hF hL (q := F.inQ (F.npVars targetN batch ⟨b, 1⟩ 1) mu) rfl hc
    have hLM := le_bits_limbs hL
    have h240 : F.log2 beta ≤ 240 := by
      have h3 : ⌈F.log2 beta⌉ ≤ 240 := hLM.trans m2
      exact (Int.le_ceil _).trans (by exact_mod_cast h3)
    have hlog : 240 + 0.4 / 1.4 ≤ logb 2 beta := by
      have e1 : logb 2 ((2 : ℝ) ^ 240 * 1.4) = 240 + logb 2 1.4 := by
        rw [Real.logb_mul (by positivity) (by norm_num), Real.logb_pow, Real.logb_self_eq_one (by norm_num)]
        norm_num
      have e2 : 0.4 / 1.4 ≤ logb 2 1.4 := by
        rw [Real.logb, le_div_iff₀ (Real.log_pos (by norm_num))]
        have h3 := Real.one_sub_inv_le_log_of_pos (show (0 : ℝ) < 1.4 by norm_num)
        have h4 := Real.log_two_lt_d9
        refine le_trans ?_ h3
        norm_num at *
        linarith
      have h5 := Real.logb_le_logb_of_le (b := 2) (by norm_num) (by positivity) h1
      rw [e1] at h5
      linarith
    have herr := hF.log2_err beta (by linarith)
    rw [abs_of_pos (show 0 < logb 2 beta by linarith), abs_le] at herr
    have : (1 + logb 2 beta) / 2 ^ 50 ≤ 0.1 + (logb 2 beta - 240) / 2 := by
      rw [div_le_iff₀ (by norm_num)]; nlinarith
    linarith [herr.1]
  unfold Flt.newParameters
  rw [if_neg (by omega), if_neg (by omega), encPars_one hsq h64, go_bind_ok]
  dsimp only
  have hm := fmaxCols hF hk ht ht'
  dsimp only at hm
  rw [hm, doublings, if_pos ⟨le_rfl, h1c⟩, List.foldlM_cons]
  have : F.npStep gen targetN batch ⟨b, 1⟩ (RParams.zero, none) 1 = .error .hang := by
    unfold Flt.npStep
    dsimp only
    rw [hloop]; rfl
  rw [this]; rfl

/-- With a batch of two, a 30-bit field is too large. -/
theorem case_hang_round {F : Flt} (hF : F.Ok) (gen : ℤ → ℤ → Option (List Nat)) :
    F.newParameters gen 4096 2 (2 ^ 29 + 1) = .error .hang :=
  C92_hang_round hF gen (by norm_num) (by norm_num) (by norm_num) (by norm_num)
    (not_square_between (a := 23170) (by norm_num) (by norm_num)) (by norm_num) (.inr ⟨le_rfl, le_rfl⟩)

/-! ### Rounding to 53 bits -/

/-- The exponent of the last of 53 bits of `x`. -/
noncomputable def ulpExp (x : ℝ) : ℤ := Int.log 2 |x| - 52

/-- Round to 53 bits. -/
noncomputable def round53 (x : ℝ) : ℝ := (round (x / 2 ^ ulpExp x) : ℝ) * 2 ^ ulpExp x

/-- IEEE arithmetic with exact logarithms. -/
noncomputable def ieee (fused : Bool) : Flt := ⟨round53, logb 2, fun x => 2 ^ x, fused⟩

theorem ieee_ok (fused : Bool) : (ieee fused).Ok := by
  have hu : ∀ x : ℝ, (0 : ℝ) < 2 ^ ulpExp x := fun x => by positivity
  refine ⟨?_, ?_, ?_, ?_, ?_, ?_⟩
  · intro x
    show |round53 x - x| ≤ |x| / 2 ^ 53
    by_cases hx : x = 0
    · subst hx; simp [round53]
    have hx0 : 0 < |x| := abs_pos.mpr hx
    have h1 : round53 x - x = -((x / 2 ^ ulpExp x - round (x / 2 ^ ulpExp x)) * 2 ^ ulpExp x) := by
      unfold round53
      rw [sub_mul, div_mul_cancel₀ _ (hu x).ne']; ring
    rw [h1, abs_neg, abs_mul, abs_of_pos (hu x)]
    have h2 := abs_sub_round (x / 2 ^ ulpExp x)
    have h3 : (2 : ℝ) ^ Int.log 2 |x| ≤ |x| := by exact_mod_cast Int.zpow_log_le_self (b := 2) (by norm_num) hx0
    have h4 : (2 : ℝ) ^ ulpExp x = 2 ^ Int.log 2 |x| / 2 ^ 52 := by
      unfold ulpExp
      rw [zpow_sub₀ (by norm_num)]; norm_cast
    calc |x / 2 ^ ulpExp x - round (x / 2 ^ ulpExp x)| * 2 ^ ulpExp x ≤ 1 / 2 * 2 ^ ulpExp x := by gcongr
      _ = 2 ^ Int.log 2 |x| / 2 ^ 53 := by rw [h4]; ring
      _ ≤ _ := by gcongr
  · intro a j ha
    show round53 (a * 2 ^ j) = a * 2 ^ j
    by_cases h0 : a = 0
    · subst h0; simp [round53]
    have hx : (0 : ℝ) < |(a : ℝ) * 2 ^ j| := by
      apply abs_pos.mpr
      have : (a : ℝ) ≠ 0 := by exact_mod_cast h0
      positivity
    have hlog : (2 : ℝ) ^ Int.log 2 |(a : ℝ) * 2 ^ j| ≤ |(a : ℝ) * 2 ^ j| := by
      exact_mod_cast Int.zpow_log_le_self (b := 2) (by norm_num) hx
    have hint : ∃ z : ℤ, (a : ℝ) * 2 ^ j / 2 ^ ulpExp (a * 2 ^ j) = z := by
      rcases le_or_gt (ulpExp ((a : ℝ) * 2 ^ j)) j with h | h
      · obtain ⟨n, hn⟩ := Int.eq_ofNat_of_zero_le (sub_nonneg.mpr h)
        refine ⟨a * 2 ^ n, ?_⟩
        rw [mul_div_assoc, ← zpow_sub₀ (by norm_num), hn]
        push_cast; rfl
      · have hl : j + 53 ≤ Int.log 2 |(a : ℝ) * 2 ^ j| := by unfold ulpExp at h; omega
        have h2 : (2 : ℝ) ^ (j + 53) ≤ |(a : ℝ) * 2 ^ j| :=
          le_trans (zpow_le_zpow_right₀ (by norm_num) hl) hlog
        have ha' : |(a : ℝ)| ≤ 2 ^ 53 := by exact_mod_cast ha
        have h3 : |(a : ℝ) * 2 ^ j| = |(a : ℝ)| * 2 ^ j := by
          rw [abs_mul, abs_of_pos (show (0 : ℝ) < 2 ^ j by positivity)]
        have hz : (2 : ℝ) ^ (j + 53) = 2 ^ 53 * 2 ^ j := by
          rw [zpow_add₀ (by norm_num), mul_comm]; norm_cast
        have h4 : |(a : ℝ)| = 2 ^ 53 := by
          rw [h3, hz] at h2
          exact le_antisymm ha' (le_of_mul_le_mul_right h2 (by positivity))
        have h5 : Int.log 2 |(a : ℝ) * 2 ^ j| = j + 53 := by
          rw [h3, h4, ← hz]
          exact_mod_cast Int.log_zpow (R := ℝ) (b := 2) (by norm_num) (j + 53)
        have h6 : ulpExp ((a : ℝ) * 2 ^ j) = j + 1 := by unfold ulpExp; rw [h5]; ring
        have h7 : |a| = 2 ^ 53 := by exact_mod_cast h4
        rcases abs_eq (by norm_num : (0 : ℤ) ≤ 2 ^ 53) |>.mp h7 with h8 | h8
        · refine ⟨2 ^ 52, ?_⟩
          rw [h6, mul_div_assoc, ← zpow_sub₀ (by norm_num), h8, show j - (j + 1) = -1 by ring]
          norm_num
        · refine ⟨-2 ^ 52, ?_⟩
          rw [h6, mul_div_assoc, ← zpow_sub₀ (by norm_num), h8, show j - (j + 1) = -1 by ring]
          norm_num
    obtain ⟨z, hz⟩ := hint
    unfold round53
    rw [hz, round_intCast, ← hz, div_mul_cancel₀ _ (hu _).ne']
  · intro x hx
    show |logb 2 x - logb 2 x| ≤ _
    rw [sub_self, abs_zero]; positivity
  · intro j
    show logb 2 (2 ^ j) = j
    rw [← Real.rpow_intCast, NPVars.logb_two_rpow]
  · intro x
    show |(2 : ℝ) ^ x - 2 ^ x| ≤ _
    rw [sub_self, abs_zero]; positivity
  · intro j
    show (2 : ℝ) ^ ((j : ℤ) : ℝ) = _
    rw [Real.rpow_intCast]

/-! ### The case of `case_sound`, for all floating-point units -/

section
variable {F : Flt} (hF : F.Ok)
include hF

theorem case_near : VarsNear (F.npVars 16 1 ⟨2, 16⟩ 1) ⟨1, 2, 16, 256, 32, 1, 1⟩ := by
  rw [← npVars_case]
  exact (fvars hF ⟨4, rfl⟩ (by norm_num) (by norm_num) (by norm_num) (by norm_num) le_rfl
    (by rw [show ceilDiv 16 (max (EcdParams.mk 2 16).exp 256 / (EcdParams.mk 2 16).exp) = 1 from rfl])).1

/-- A rounded logarithm strictly between integers. -/
theorem ceil_flog {x : ℝ} {j : ℤ} (hj : 1 ≤ j) (hj' : j ≤ 240) (h1 : (2 : ℝ) ^ j * 1.001 ≤ x)
    (h2 : x ≤ 2 ^ (j + 1) * 0.999) : ⌈F.log2 x⌉ = j + 1 := by
  have hp : (0 : ℝ) < 2 ^ j := by positivity
  have hx : 0 < x := by nlinarith
  have hp2 : (2 : ℝ) ^ (j + 1) = 2 * 2 ^ j := by rw [zpow_add_one₀ (by norm_num)]; ring
  have hj0 : (1 : ℝ) ≤ j := by exact_mod_cast hj
  have hj1 : (j : ℝ) ≤ 240 := by exact_mod_cast hj'
  have hl2 := Real.log_two_gt_d9
  have hl2' := Real.log_two_lt_d9
  have hlj : logb 2 ((2 : ℝ) ^ j) = j := by rw [← Real.rpow_intCast, NPVars.logb_two_rpow]
  have e1 : logb 2 x = j + logb 2 (x / 2 ^ j) := by
    rw [Real.logb_div hx.ne' hp.ne', hlj]; ring
  have e2 : 0.0009 ≤ logb 2 (x / 2 ^ j) := by
    rw [Real.logb, le_div_iff₀ (by linarith)]
    have h3 := Real.one_sub_inv_le_log_of_pos (show 0 < x / 2 ^ j by positivity)
    refine le_trans ?_ h3
    have : (x / 2 ^ j)⁻¹ ≤ 1 - 0.00099 := by
      rw [inv_div, div_le_iff₀ hx]; nlinarith
    linarith
  have e3 : logb 2 (x / 2 ^ j) ≤ 1 - 0.0009 := by
    have h3 : logb 2 (x / 2 ^ j) = 1 + logb 2 (x / (2 * 2 ^ j)) := by
      rw [Real.logb_div hx.ne' hp.ne', Real.logb_div hx.ne' (by positivity), Real.logb_mul (by norm_num) hp.ne',
        Real.logb_self_eq_one (by norm_num)]
      ring
    have h4 : logb 2 (x / (2 * 2 ^ j)) ≤ -0.0009 := by
      rw [Real.logb, div_le_iff₀ (by linarith)]
      have h5 := Real.log_le_sub_one_of_pos (show 0 < x / (2 * 2 ^ j) by positivity)
      refine h5.trans ?_
      have : x / (2 * 2 ^ j) ≤ 0.999 := by
        rw [div_le_iff₀ (by positivity), ← hp2]; linarith
      linarith
    linarith
  have herr := hF.log2_err x hx
  rw [abs_of_pos (show 0 < logb 2 x by linarith), abs_le] at herr
  have hsm : (1 + logb 2 x) / 2 ^ 50 ≤ 0.0001 := by
    rw [div_le_iff₀ (by norm_num)]; nlinarith
  rw [Int.ceil_eq_iff]
  push_cast
  constructor <;> linarith

theorem flogModulus {beta : ℝ} {L : ℤ} (hL : 1 ≤ L) (hL' : L ≤ 60) (h : ⌈F.log2 beta⌉ = L) :
    F.logModulus beta = L := by
  unfold Flt.logModulus
  dsimp only
  rw [h, flimbs_eq hF hL (by omega), fbits_eq hF hL (by omega)]
  have h1 : limbsOf (L : ℝ) = 1 := by
    have h0 : (1 : ℝ) ≤ L := by exact_mod_cast hL
    have h1 : (L : ℝ) ≤ 60 := by exact_mod_cast hL'
    unfold limbsOf
    rw [Int.ceil_eq_iff]
    push_cast
    constructor <;> linarith
  have h2 : bitsOf (L : ℝ) = L := by
    unfold bitsOf; rw [h1]; simp
  rw [h1, h2, mul_one]

omit hF in
theorem case_resTwo {mu : Nat} (h1 : 1 ≤ mu) (h2 : mu ≤ 4) :
    840000 ≤ (⟨1, 2, 16, 256, 32, 1, 1⟩ : NPVars).resTwo mu ∧
    (⟨1, 2, 16, 256, 32, 1, 1⟩ : NPVars).resTwo mu ≤ 920000 := by
  have h16 : √(16 : ℝ) = 4 := by
    rw [show (16 : ℝ) = 4 ^ 2 by norm_num, Real.sqrt_sq (by norm_num)]
  have hc : (⟨1, 2, 16, 256, 32, 1, 1⟩ : NPVars).cOne = 4 := case_bounds.2.2
  have a1 : (1.414 : ℝ) ≤ √2 := by rw [Real.le_sqrt' (by norm_num)]; norm_num
  have a2 : √2 ≤ (1.415 : ℝ) := by rw [Real.sqrt_le_left (by norm_num)]; norm_num
  have a3 : (1.732 : ℝ) ≤ √3 := by rw [Real.le_sqrt' (by norm_num)]; norm_num
  have a4 : √3 ≤ (1.733 : ℝ) := by rw [Real.sqrt_le_left (by norm_num)]; norm_num
  have hs : √(2 : ℝ) * √2 = 2 := Real.mul_self_sqrt (by norm_num)
  have h0 : (⟨1, 2, 16, 256, 32, 1, 1⟩ : NPVars).resEcd0Inf = 17280 * √2 + 17280 * √3 := by
    simp only [NPVars.resEcd0Inf, NPVars.scaleUp, hc, NPVars.f0jInf, NPVars.f0nInf, NPVars.ecdBlindStdDev,
      NPVars.maskBlindStdDev, NPVars.xOne, h16, Real.sqrt_one]
    norm_num
    ring
  have h1' : (⟨1, 2, 16, 256, 32, 1, 1⟩ : NPVars).resEcdiInf = 2160 + 2160 * √2 := by
    simp only [NPVars.resEcdiInf, NPVars.scaleUp, hc, NPVars.fijInf, NPVars.finInf, NPVars.ecdStdDev,
      NPVars.maskStdDev, Real.sqrt_one]
    norm_num
    ring
  have h2' : (⟨1, 2, 16, 256, 32, 1, 1⟩ : NPVars).resMLWEInf = 240 * √2 + 480 := by
    simp only [NPVars.resMLWEInf, NPVars.scaleUp, hc, NPVars.mlweStdDev, NPVars.maskMLWEStdDev, Real.sqrt_one]
    norm_num
    nlinarith
  have h3 : (⟨1, 2, 16, 256, 32, 1, 1⟩ : NPVars).resEcdTwo * (⟨1, 2, 16, 256, 32, 1, 1⟩ : NPVars).resEcdTwo =
      256 * ((2160 + 2160 * √2) * (2160 + 2160 * √2) +
        (17280 * √2 + 17280 * √3) * (17280 * √2 + 17280 * √3)) := by
    unfold NPVars.resEcdTwo
    simp only [h0, h1']
    rw [Real.mul_self_sqrt]
    · ring
    · positivity
  have hmu1 : (1 : ℝ) ≤ mu := by exact_mod_cast h1
  have hmu2 : (mu : ℝ) ≤ 4 := by exact_mod_cast h2
  have u1 : 2160 + 2160 * √2 ≤ 5217 := by linarith
  have u2 : 17280 * √2 + 17280 * √3 ≤ 54400 := by linarith
  have l2 : 54300 ≤ 17280 * √2 + 17280 * √3 := by linarith
  have u3 : 240 * √2 + 480 ≤ 820 := by linarith
  have p1 : 0 ≤ √2 := Real.sqrt_nonneg 2
  have p2 : 0 ≤ √3 := Real.sqrt_nonneg 3
  constructor
  · refine le_trans ?_ (NPVars.resTwo_ge_ecd _ mu)
    apply le_of_sq_le_sq _ (Real.sqrt_nonneg _)
    rw [sq _, sq _]
    change _ ≤ (⟨1, 2, 16, 256, 32, 1, 1⟩ : NPVars).resEcdTwo * (⟨1, 2, 16, 256, 32, 1, 1⟩ : NPVars).resEcdTwo
    rw [h3]
    have : (54300 : ℝ) * 54300 ≤ (17280 * √2 + 17280 * √3) * (17280 * √2 + 17280 * √3) := by gcongr
    nlinarith [mul_self_nonneg (2160 + 2160 * √2)]
  · unfold NPVars.resTwo
    simp only [h2']
    rw [h3, Real.sqrt_le_left (by norm_num)]
    have h4 : √((256 : ℝ) * (mu + 32)) * √((256 : ℝ) * (mu + 32)) = 256 * (mu + 32) :=
      Real.mul_self_sqrt (by positivity)
    have h5 : √((256 : ℝ) * (mu + 32)) * (240 * √2 + 480) * (√((256 : ℝ) * (mu + 32)) * (240 * √2 + 480)) =
        256 * (mu + 32) * ((240 * √2 + 480) * (240 * √2 + 480)) := by
      rw [mul_mul_mul_comm, h4]
    rw [h5]
    have g1 : (2160 + 2160 * √2) * (2160 + 2160 * √2) ≤ 5217 * 5217 := by gcongr
    have g2 : (17280 * √2 + 17280 * √3) * (17280 * √2 + 17280 * √3) ≤ 54400 * 54400 := by gcongr
    have g3 : 256 * ((mu : ℝ) + 32) * ((240 * √2 + 480) * (240 * √2 + 480)) ≤ 256 * (4 + 32) * (820 * 820) := by
      gcongr
    norm_num at g1 g2 g3 ⊢
    linarith

theorem case_inner {mu : Nat} (h1 : 1 ≤ mu) (h2 : mu ≤ 4) :
    F.inQ (F.npVars 16 1 ⟨2, 16⟩ 1) mu = 2 ^ 26 ∧
    F.findMSISRank (F.npVars 16 1 ⟨2, 16⟩ 1).d (F.inQ (F.npVars 16 1 ⟨2, 16⟩ 1) mu)
      (F.inMSISBeta (F.npVars 16 1 ⟨2, 16⟩ 1) mu) = .ok 4 := by
  have hW := case_near hF
  have hV : (⟨1, 2, 16, 256, 32, 1, 1⟩ : NPVars).Ok := ⟨by norm_num, by norm_num, by norm_num, by norm_num,
    by norm_num, by norm_num, by norm_num⟩
  obtain ⟨r1, r2⟩ := case_resTwo h1 h2
  have hb : (⟨1, 2, 16, 256, 32, 1, 1⟩ : NPVars).inMSISBeta mu =
      64 * (⟨1, 2, 16, 256, 32, 1, 1⟩ : NPVars).resTwo mu := by
    rw [NPVars.inMSISBeta_eq, NPVars.inFac, if_pos rfl, case_bounds.2.2]; ring
  have hn := inMSISBeta_near hF hV hW h1
  rw [hb] at hn
  have n1 := hn.lower (by norm_num)
  have n2 := hn.upper (by norm_num)
  set beta := F.inMSISBeta (F.npVars 16 1 ⟨2, 16⟩ 1) mu with hbeta
  have b1 : 53000000 ≤ beta := by nlinarith
  have b2 : beta ≤ 60000000 := by nlinarith
  have hceil : ⌈F.log2 beta⌉ = 26 := ceil_flog hF (j := 25) (by norm_num) (by norm_num)
    (by norm_num; linarith) (by norm_num; linarith)
  have hlm := flogModulus hF (by norm_num) (by norm_num) hceil
  have hq : F.inQ (F.npVars 16 1 ⟨2, 16⟩ 1) mu = 2 ^ 26 := by
    unfold Flt.inQ
    rw [← hbeta, hlm, round_int hF (by norm_num), hF.exp2_int]
    norm_num
  refine ⟨hq, ?_⟩
  rw [hq, hW.d]
  unfold Flt.findMSISRank
  rw [if_neg (by push Not; norm_num; linarith)]
  have hlogq : F.log2 (2 ^ 26) = 26 := by
    have := hF.log2_pow 26
    exact_mod_cast this
  have hnear : Near 400 (F.div (F.mul (F.log2 beta) (F.log2 beta))
      (F.mul (F.mul (F.mul 4 256) (F.log2 (2 ^ 26))) (F.log2 (F.round 1.005))))
      (logb 2 beta * logb 2 beta / (4 * 256 * 26 * logb 2 1.005)) := by
    have hx := log2_near hF (show 2 ≤ beta by linarith)
    rw [hlogq]
    exact ((hx.fmul hF hx).fdiv hF ((((Near.refl (by norm_num)).fmul hF (Near.refl (by norm_num))).fmul hF
      (Near.refl (by norm_num))).fmul hF (logDelta_near hF))).mono (by norm_num)
  have g1 : 25 ≤ logb 2 beta := by
    rw [Real.le_logb_iff_rpow_le (by norm_num) (by linarith)]; norm_num; linarith
  have g2 : logb 2 beta ≤ 26 := by
    rw [Real.logb_le_iff_le_rpow (by norm_num) (by linarith)]; norm_num; linarith
  have d1 := logDelta_ge
  have d2 : logb 2 (1.005 : ℝ) ≤ 0.00722 := by
    have hl2 := Real.log_two_gt_d9
    rw [Real.logb, div_le_iff₀ (by linarith)]
    have := Real.log_le_sub_one_of_pos (show (0 : ℝ) < 1.005 by norm_num)
    nlinarith
  have hden : 0 < 4 * 256 * 26 * logb 2 (1.005 : ℝ) := by positivity
  have u := hnear.upper (by norm_num)
  have l := hnear.lower (by norm_num)
  have q1 : 3.2 ≤ logb 2 beta * logb 2 beta / (4 * 256 * 26 * logb 2 1.005) := by
    rw [le_div_iff₀ hden]; nlinarith
  have q2 : logb 2 beta * logb 2 beta / (4 * 256 * 26 * logb 2 1.005) ≤ 3.6 := by
    rw [div_le_iff₀ hden]; nlinarith
  refine congrArg Except.ok ?_
  show ⌈F.div (F.mul (F.log2 beta) (F.log2 beta))
      (F.mul (F.mul (F.mul 4 256) (F.log2 (2 ^ 26))) (F.log2 (F.round 1.005)))⌉ = 4
  rw [Int.ceil_eq_iff]
  push_cast
  constructor <;> nlinarith

theorem case_loop : F.inLoop (F.npVars 16 1 ⟨2, 16⟩ 1) = .ok 4 := by
  have hlogq : F.log2 (2 ^ 26) = 26 := by
    have := hF.log2_pow 26
    exact_mod_cast this
  have hbody : ∀ mu : Nat, 1 ≤ mu → mu ≤ 4 →
      (do
        let q := F.inQ (F.npVars 16 1 ⟨2, 16⟩ 1) mu
        if F.log2 q > 240 then pure none
        else
          let r ← F.findMSISRank (F.npVars 16 1 ⟨2, 16⟩ 1).d q (F.inMSISBeta (F.npVars 16 1 ⟨2, 16⟩ 1) mu)
          if r = mu then pure (some mu) else pure none : Go (Option Nat)) =
      if (4 : ℤ) = mu then .ok (some mu) else .ok none := by
    intro mu h1 h2
    obtain ⟨hq, hr⟩ := case_inner hF h1 h2
    dsimp only
    rw [hr, hq, hlogq, if_neg (by norm_num), go_bind_ok]
    rfl
  refine forever_ok (i := 4) (by norm_num) ?_ ?_
  · rw [hbody 4 (by norm_num) le_rfl]; simp
  · intro j h1 h2
    rw [hbody j h1 (by omega), if_neg (by omega)]

end

/-- The parameters for 16 coefficients over the field of order 65537, for every generator of primes. -/
theorem case_sound_gen {F : Flt} (hF : F.Ok) {gen : ℤ → ℤ → Option (List Nat)} (hg : GenOk gen) :
    ∃ P, F.newParameters gen 16 1 65537 = .ok P ∧ P.SoundTol := by
  have hW := case_near hF
  have hV : (⟨1, 2, 16, 256, 32, 1, 1⟩ : NPVars).Ok := ⟨by norm_num, by norm_num, by norm_num, by norm_num,
    by norm_num, by norm_num, by norm_num⟩
  have hloop := case_loop hF
  obtain ⟨hq, -⟩ := case_inner hF (show 1 ≤ 4 by norm_num) le_rfl
  obtain ⟨r1, r2⟩ := case_resTwo (mu := 4) (by norm_num) le_rfl
  -- the outer norm
  have hD : (⟨1, 2, 16, 256, 32, 1, 1⟩ : NPVars).outBetaOf (2 ^ 26) 4 =
      8 * (√2048 * (2 ^ 26 / ((⟨1, 2, 16, 256, 32, 1, 1⟩ : NPVars).resTwo 4 / 160))) := by
    have hcut : (⟨1, 2, 16, 256, 32, 1, 1⟩ : NPVars).inCutOffInf 4 =
        (⟨1, 2, 16, 256, 32, 1, 1⟩ : NPVars).resTwo 4 / 160 := by
      unfold NPVars.inCutOffInf NPVars.scaleDown
      rw [case_bounds.2.2]
      simp only [Real.sqrt_one]
      rw [show √(((4 : ℕ) : ℝ) * 256) = 32 by
        rw [show (((4 : ℕ) : ℝ) * 256) = 32 ^ 2 by norm_num, Real.sqrt_sq (by norm_num)]]
      norm_num
    unfold NPVars.outBetaOf NPVars.dcmpTwoOf NPVars.scaleUp NPVars.dExtOne
    rw [hcut]
    norm_num
    ring
  have s1 : (45.2 : ℝ) ≤ √2048 := by rw [Real.le_sqrt' (by norm_num)]; norm_num
  have s2 : √2048 ≤ (45.3 : ℝ) := by rw [Real.sqrt_le_left (by norm_num)]; norm_num
  have hn := foutBeta_near hF hV hW (show 1 ≤ 4 by norm_num) (by rw [hq]; norm_num)
  rw [hq, hD] at hn
  have n1 := hn.lower (by norm_num)
  have n2 := hn.upper (by norm_num)
  set R := (⟨1, 2, 16, 256, 32, 1, 1⟩ : NPVars).resTwo 4 with hR
  have x1 : (11670 : ℝ) ≤ 2 ^ 26 / (R / 160) := by
    rw [le_div_iff₀ (by positivity)]; norm_num; linarith
  have x2 : (2 : ℝ) ^ 26 / (R / 160) ≤ 12800 := by
    rw [div_le_iff₀ (by positivity)]; norm_num; linarith
  have y1 : 45.2 * 11670 ≤ √2048 * (2 ^ 26 / (R / 160)) := by gcongr
  have y2 : √2048 * (2 ^ 26 / (R / 160)) ≤ 45.3 * 12800 := by gcongr
  set beta := F.outMSISBeta (F.npVars 16 1 ⟨2, 16⟩ 1) 4 with hbeta
  have b1 : 4200000 ≤ beta := by nlinarith
  have b2 : beta ≤ 8000000 := by nlinarith
  have hceil : ⌈F.log2 beta⌉ = 23 := ceil_flog hF (j := 22) (by norm_num) (by norm_num)
    (by norm_num; linarith) (by norm_num; linarith)
  have hlm := flogModulus hF (by norm_num) (by norm_num) hceil
  have hq' : F.outQ (F.npVars 16 1 ⟨2, 16⟩ 1) 4 = 2 ^ 23 := by
    unfold Flt.outQ
    rw [← hbeta, hlm, round_int hF (by norm_num), hF.exp2_int]
    norm_num
  have hlogq : F.log2 (2 ^ 23) = 23 := by
    have := hF.log2_pow 23
    exact_mod_cast this
  obtain ⟨r, hr⟩ : ∃ r, F.findMSISRank (F.npVars 16 1 ⟨2, 16⟩ 1).d (F.outQ (F.npVars 16 1 ⟨2, 16⟩ 1) 4) beta =
      .ok r := by
    unfold Flt.findMSISRank
    rw [hq', if_neg (by push Not; norm_num; linarith)]
    exact ⟨_, rfl⟩
  have hstep : F.npStep gen 16 1 ⟨2, 16⟩
      (RParams.zero, none) 1 = .ok (F.npAssign (F.npVars 16 1 ⟨2, 16⟩ 1)
      gen 1 ⟨2, 16⟩ 1 4 r
      (RParams.zero, none)) := by
    unfold Flt.npStep
    dsimp only
    rw [hloop, go_bind_ok, ← hbeta, hr, hq', hlogq, if_neg (by norm_num)]
    rfl
  obtain ⟨f1, f2, f3, f4, f5⟩ := fslots hF (k := 16) ⟨4, rfl⟩
  have hret : F.newParameters gen 16 1 65537 =
      .ok (F.npAssign (F.npVars 16 1 ⟨2, 16⟩ 1)
      gen 1 ⟨2, 16⟩ 1 4 r
      (RParams.zero, none)).1 := by
    unfold Flt.newParameters
    rw [if_neg (by norm_num), if_neg (by norm_num), encPars_65537, go_bind_ok]
    dsimp only
    have hmax : ⌈F.div (F.round ((16 : ℕ) : ℝ)) (F.div (max (F.round ((16 : ℕ) : ℝ)) 256) (F.round ((16 : ℕ) : ℝ)))⌉₊ = 1 := by
      rw [f1, f2, f4]
      unfold Flt.div
      have : ((16 : ℕ) : ℝ) / ((max 16 256 / 16 : ℕ) : ℝ) = ((1 : ℕ) : ℝ) := by norm_num
      rw [this, round_nat hF (by norm_num), Nat.ceil_natCast]
    rw [hmax, show doublings 1 1 = [1] by simp [doublings], List.foldlM_cons, hstep]
    rfl
  refine ⟨_, hret, ?_⟩
  rcases fstep_sound hF hg (p := 65537) (by norm_num) ⟨4, rfl⟩ (by norm_num) (by norm_num) le_rfl (by norm_num)
    (by norm_num) le_rfl (by rw [show ceilDiv 16 (max (EcdParams.mk 2 16).exp 256 / (EcdParams.mk 2 16).exp) = 1 from rfl])
    hstep with ⟨-, h⟩ | ⟨h, -⟩
  · have := h rfl 4 hloop
    rw [hq', hlogq] at this
    norm_num at this
  · exact h

/-- The case meets the hypotheses of `C106_sound` for every floating-point unit, and the parameters returned are
not the zero value. -/
theorem case_sound_round {F : Flt} (hF : F.Ok) : ∃ gen, GenOk gen ∧ ∃ P, F.newParameters gen 16 1 65537 = .ok P ∧
    P.SoundTol := by
  have hg : GenOk fun bits limbs => some (List.replicate limbs.toNat (2 ^ bits.toNat + 1)) := by
    intro bits limbs h1 h2 h3 h4
    refine ⟨_, rfl, by rw [List.length_replicate, Int.toNat_of_nonneg (by omega)], fun q hq => ?_⟩
    rw [List.eq_of_mem_replicate hq]
    push_cast
    omega
  exact ⟨_, hg, case_sound_gen hF hg⟩

/-- In particular for rounding to 53 bits, with and without fused operations. -/
theorem case_sound_ieee (fused : Bool) : ∃ gen, GenOk gen ∧ ∃ P, (ieee fused).newParameters gen 16 1 65537 = .ok P ∧
    P.SoundTol := case_sound_round (ieee_ok fused)

end Ringo
