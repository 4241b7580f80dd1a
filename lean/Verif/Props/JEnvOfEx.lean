import Verif.Props.JEnvOf
import Verif.Props.JProtoEx

/-! # A prover and a verifier that meet the hypotheses of C107 -/

namespace Ringo

open Real

/-- `ModUpQtoP` exists for all moduli. -/
theorem modUp_exists {qs' : List Nat} (hc' : Chain qs') {qs : List Nat} (hc : Chain qs) (N : Nat) :
    ∃ f, ModUpLawful qs' qs N f := by
  classical
  let g : List Nat → Int := fun r =>
    if h : ∃ c : Int, 2 * |c| < qs'.prod ∧ qs'.map (bigResidue c) = r then h.choose else 0
  have hg : ∀ c : Int, 2 * |c| < qs'.prod → g (qs'.map (bigResidue c)) = c := by
    intro c h
    have hex : ∃ c' : Int, 2 * |c'| < qs'.prod ∧ qs'.map (bigResidue c') = qs'.map (bigResidue c) := ⟨c, h, rfl⟩
    have e : g (qs'.map (bigResidue c)) = hex.choose := dif_pos hex
    obtain ⟨h1, h2⟩ := hex.choose_spec
    rw [e]
    set c' := hex.choose
    have h3 : (qs'.prod : Int) ∣ c' - c := by
      refine prod_dvd_of_coprime hc'.coprime fun q hq => ?_
      have h4 : bigResidue c' q = bigResidue c q := List.map_inj_left.mp h2 q hq
      have h5 := (C59_big c' q ((hc'.one q hq).trans' Nat.one_pos)).2
      have h6 := (C59_big c q ((hc'.one q hq).trans' Nat.one_pos)).2
      rw [h4] at h5
      have := Int.dvd_sub h6 h5
      rwa [show ((bigResidue c q : Int) - c) - ((bigResidue c q : Int) - c') = c' - c by ring] at this
    have h4 : |c' - c| < qs'.prod := by
      have := abs_sub c' c
      omega
    have := Int.eq_zero_of_abs_lt_dvd h3 h4
    omega
  refine ⟨fun poly => poly.map fun r => qs.map (bigResidue (g r)), ?_⟩
  intro z hz hb
  have : ((z.map fun c => qs'.map (bigResidue c)).map fun r => qs.map (bigResidue (g r))) =
      z.map fun c => qs.map (bigResidue c) := by
    rw [List.map_map]
    apply List.map_congr_left
    intro c hc
    show qs.map (bigResidue (g (qs'.map (bigResidue c)))) = _
    rw [hg c (hb c hc)]
  show Residues qs ((z.map fun c => qs'.map (bigResidue c)).map fun r => qs.map (bigResidue (g r))) z
  rw [this]
  exact Residues.big hc z

/-- Four moduli of 61 bits. -/
def exFour : List Nat := [2 ^ 60 + 1, 2 ^ 60 + 3, 2 ^ 60 + 5, 2 ^ 60 + 7]

def exGen (_bits limbs : ℤ) : Option (List Nat) := some (exFour.take limbs.toNat)

theorem exFour_mem {q : Nat} (h : q ∈ exFour) : 2 ^ 60 < q ∧ q < 2 ^ 61 ∧ q % 2 = 1 := by
  simp only [exFour, List.mem_cons, List.not_mem_nil, or_false] at h
  rcases h with rfl | rfl | rfl | rfl <;> norm_num

theorem exGen_ok : GenOk exGen := by
  intro bits limbs h1 h2 h3 h4
  refine ⟨_, rfl, ?_, ?_⟩
  · have : exFour.length = 4 := rfl
    rw [List.length_take, this]; omega
  · intro q hq
    have h5 := (exFour_mem (List.mem_of_mem_take hq)).1
    have h6 : (2 : ℤ) ^ bits.toNat ≤ 2 ^ 60 := pow_le_pow_right₀ (by norm_num) (by omega)
    omega

theorem exFour_coprime : exFour.Pairwise Nat.Coprime := by
  simp only [exFour, List.pairwise_cons, List.mem_cons, List.not_mem_nil, or_false, forall_eq_or_imp, forall_eq]
  refine ⟨⟨?_, ?_, ?_⟩, ⟨?_, ?_⟩, ?_, by simp, List.Pairwise.nil⟩ <;> norm_num

theorem exGen_chain {bits limbs : ℤ} {Q : List Nat} (h : exGen bits limbs = some Q) (hne : 64 ≤ Q.prod) :
    Chain Q ∧ ∀ q ∈ Q, 1 ≤ q ∧ q ≤ 2 ^ 63 := by
  injection h with h
  have hm : ∀ q ∈ Q, q ∈ exFour := fun q hq => List.mem_of_mem_take (by rw [h]; exact hq)
  refine ⟨⟨?_, ?_, ?_, ?_⟩, ?_⟩
  · rintro rfl
    simp at hne
  · intro q hq; have := exFour_mem (hm q hq); omega
  · intro q hq; exact (exFour_mem (hm q hq)).2.2
  · rw [← h]; exact exFour_coprime.sublist (List.take_sublist _ _)
  · intro q hq; have := exFour_mem (hm q hq); omega

theorem round53_rat (x : ℝ) : ∃ r : ℚ, (r : ℝ) = round53 x :=
  ⟨(round (x / 2 ^ ulpExp x) : ℚ) * 2 ^ ulpExp x, by unfold round53; push_cast; rfl⟩

/-- The moduli for `M` bits, if one modulus is enough. -/
theorem primes_gen {F : Flt} (hF : F.Ok) {gen : ℤ → ℤ → Option (List Nat)} {M : ℤ} (h1 : 1 ≤ M) (h60 : M ≤ 60)
    {q : ℝ} {Q : List Nat} (hq : q = 2 ^ M) (h : F.primesFor gen q = some Q) : gen M 1 = some Q := by
  rw [hq, fprimes_eq hF gen (M := M) h1 (by omega) (by exact_mod_cast hF.log2_pow M)] at h
  unfold primesFor at h
  rw [NPVars.logb_two_rpow] at h
  have m1 : (1 : ℝ) ≤ M := by exact_mod_cast h1
  have m2 : (M : ℝ) ≤ 60 := by exact_mod_cast h60
  have e1 : ⌈(M : ℝ) / 60⌉ = 1 := by
    rw [Int.ceil_eq_iff]
    push_cast
    constructor <;> linarith
  have e2 : ⌈(M : ℝ) / ((1 : ℤ) : ℝ)⌉ = M := by simp
  dsimp only at h
  rw [e1, e2] at h
  exact h

/-- For all parameters that `NewParameters` returns with IEEE arithmetic and a generator of coprime odd numbers, and
every oracle, there are a prover and a verifier. -/
theorem from_exists {fused : Bool} {gen : ℤ → ℤ → Option (List Nat)} (hg : GenOk gen)
    (hch : ∀ bits limbs Q, gen bits limbs = some Q → 64 ≤ Q.prod → Chain Q ∧ ∀ q ∈ Q, 1 ≤ q ∧ q ≤ 2 ^ 63)
    {p targetN batch : Nat} (hp3 : 3 ≤ p) (h47 : targetN ≤ 2 ^ 47) (h53 : batch ≤ 2 ^ 53) {P : RParams}
    (hP : (ieee fused).newParameters gen targetN batch p = .ok P) (hne : P ≠ RParams.zero)
    (hexp : P.shape.exp ≤ 256) :
    ∃ Q Q' : List Nat, P.qs = some Q ∧ P.qs' = some Q' ∧
    ∀ xof : List (JMsg (RQ Q 256) (RQ Q' 256) (ZMod p)) → Nat → List (BitVec 8),
      (∀ ms i, (xof ms i).length = 16) → ∃ E : JEnv p (RQ Q 256) (RQ Q' 256), E.xof = xof ∧ E.From P ∧
        Nonempty E.ringQ.Lawful ∧ Nonempty E.ringQ'.Lawful := by
  have hF := ieee_ok fused
  obtain ⟨ht1, hb1, e, he, nn, mu, r, Q, Q', hit, hfin⟩ := newParameters_from hF hg hp3 h47 h53 hP hne
  obtain ⟨hbase, -⟩ := ecd_base_exp hp3 he
  obtain ⟨-, hk, -⟩ := C61_result p hp3 e he
  obtain ⟨p1, p2⟩ := iter_prod hF hg hk ht1 h47 hb1 h53 hbase hit
  obtain ⟨ch, bd⟩ := hch _ _ _ hit.pr p1
  obtain ⟨ch', bd'⟩ := hch _ _ _ hit.pr' p2
  have q1 : P.qs = some Q := by rw [hfin]; rfl
  have q2 : P.qs' = some Q' := by rw [hfin]; rfl
  refine ⟨Q, Q', q1, q2, ?_⟩
  intro xof hx
  obtain ⟨L, h1, h2, h3⟩ := lawful_exists Q ch 256 (by norm_num)
  obtain ⟨L', h1', h2', h3'⟩ := lawful_exists Q' ch' 256 (by norm_num)
  obtain ⟨mUp, hm⟩ := modUp_exists ch' ch 256
  obtain ⟨a, ha⟩ : ∃ a : ℚ, (a : ℝ) = P.resTwoNm := by rw [hfin]; exact round53_rat _
  obtain ⟨b, hb⟩ : ∃ b : ℚ, (b : ℝ) = P.inComDcmpTwoNm := by rw [hfin]; exact round53_rat _
  obtain ⟨K, hK, -⟩ := C96_key (P := P.limbPar) rfl (by
      unfold RParams.limbPar
      dsimp only
      rw [q1, q2]
      intro q hq
      rcases List.mem_append.mp hq with hq | hq
      · exact bd q hq
      · exact bd' q hq) (w := fun _ i => 12345 * i % 1000) (crs := [1, 2, 3])
    (fun pos => ⟨pos, le_rfl, lt_of_lt_of_le (Nat.mod_lt _ (by norm_num)) (by norm_num)⟩)
  refine ⟨⟨P.jpar p a b, L, L', mUp, K.jkey (fun _ => 1) (fun _ => 1), xof, fun n => (n : ℚ)⟩, rfl, ?_, h3, h3'⟩
  have hN : max P.shape.exp 256 = 256 := by omega
  refine ⟨⟨p, a, b, le_of_lt (lt_of_lt_of_le Nat.lt_two_pow_self (Nat.pow_le_pow_right (by norm_num) (by omega))), ha, hb, rfl⟩, ⟨_, _, K, _, _, hK, rfl⟩, ?_, ?_, ?_, ?_, hx, ?_, ?_, ?_⟩ <;> dsimp only
  · rw [h1]; exact q1
  · rw [h1']; exact q2
  · rw [h2, hN]
  · rw [h2', hN]
  · rw [h1, h1', hN]; exact hm
  · exact fun a b hab => Nat.cast_le.mpr hab
  · intro n
    rw [sub_self, abs_zero]
    positivity

/-- The field of order 65537, 16 coefficients, IEEE arithmetic, any oracle, any generator of coprime odd
numbers. -/
theorem C107_env (fused : Bool) {gen : ℤ → ℤ → Option (List Nat)} (hg : GenOk gen)
    (hch : ∀ bits limbs Q, gen bits limbs = some Q → 64 ≤ Q.prod → Chain Q ∧ ∀ q ∈ Q, 1 ≤ q ∧ q ≤ 2 ^ 63) :
    ∃ (P : RParams) (Q Q' : List Nat),
    (ieee fused).newParameters gen 16 1 65537 = .ok P ∧ P ≠ RParams.zero ∧
    P.shape = ⟨1, 16, 2, 1, 2, 16, 16, some 1, some 1⟩ ∧ P.qs = some Q ∧ gen 26 1 = some Q ∧ P.SoundTol ∧
    ∀ xof : List (JMsg (RQ Q 256) (RQ Q' 256) (ZMod 65537)) → Nat → List (BitVec 8),
      (∀ ms i, (xof ms i).length = 16) → ∃ E : JEnv 65537 (RQ Q 256) (RQ Q' 256), E.xof = xof ∧ E.From P ∧
        Nonempty E.ringQ.Lawful ∧ Nonempty E.ringQ'.Lawful := by
  have hF := ieee_ok fused
  obtain ⟨P, hP, hS⟩ := case_sound_gen hF hg
  have hne : P ≠ RParams.zero := by
    rintro rfl
    have := hS.inRank.1
    simp [RParams.zero] at this
  obtain ⟨ht1, hb1, e, he, nn, mu, r, Q, Q', hit, hfin⟩ := newParameters_from hF hg (by norm_num) (by norm_num)
    (by norm_num) hP hne
  rw [encPars_65537] at he
  injection he with he
  subst he
  have hnn : nn = 1 := by
    have h1 := hit.one
    have h2 := hit.le
    rw [show ceilDiv 16 (max (EcdParams.mk 2 16).exp 256 / (EcdParams.mk 2 16).exp) = 1 from rfl] at h2
    omega
  subst hnn
  have hmu : mu = 4 := by
    have h1 := hit.inn
    rw [case_loop hF] at h1
    exact (Except.ok.inj h1).symm
  subst hmu
  have hgen := primes_gen hF (M := 26) (by norm_num) (by norm_num)
    (by exact_mod_cast (case_inner hF (by norm_num) le_rfl).1) hit.pr
  have hsh : P.shape = ⟨1, 16, 2, 1, 2, 16, 16, some 1, some 1⟩ := by
    rw [hfin]
    show ({ (ieee fused).shapeOf ((ieee fused).npVars 16 1 ⟨2, 16⟩ 1) 1 ⟨2, 16⟩ with
      ringQ := some 1, ringQOut := some 1 } : JParams) = _
    rw [fshape hF ⟨4, rfl⟩ (by rw [npVars_case]; exact case_near hF)]
    rfl
  obtain ⟨R, R', q1, q2, hE⟩ := from_exists hg hch (by norm_num) (by norm_num) (by norm_num) hP hne (by rw [hsh]; norm_num)
  have q3 : P.qs = some Q := by rw [hfin]; rfl
  rw [q1] at q3
  injection q3 with q3
  subst q3
  exact ⟨P, R, R', hP, hne, hsh, q1, hgen, hS, hE⟩

/-- **Case for C107**: the field of order 65537, 16 coefficients, IEEE arithmetic, any oracle. -/
theorem C107_case (fused : Bool) : ∃ (P : RParams) (Q Q' : List Nat),
    (ieee fused).newParameters exGen 16 1 65537 = .ok P ∧ P ≠ RParams.zero ∧ P.shape.exp = 16 ∧
    ∀ xof : List (JMsg (RQ Q 256) (RQ Q' 256) (ZMod 65537)) → Nat → List (BitVec 8),
      (∀ ms i, (xof ms i).length = 16) → ∃ E : JEnv 65537 (RQ Q 256) (RQ Q' 256), E.xof = xof ∧ E.From P ∧
        Nonempty E.ringQ.Lawful ∧ Nonempty E.ringQ'.Lawful := by
  obtain ⟨P, Q, Q', h1, h2, h3, -, -, -, h4⟩ := C107_env fused exGen_ok fun _ _ _ => exGen_chain
  exact ⟨P, Q, Q', h1, h2, by rw [h3], h4⟩

end Ringo
