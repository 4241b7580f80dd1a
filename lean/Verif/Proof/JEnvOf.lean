import Verif.Props.JRound
import Verif.Props.JLimbs

/-! # The primes `NewParameters` chooses exceed the challenges -/

namespace Ringo

open Real

namespace NPVars
variable {V : NPVars}

theorem resTwo_ge_c (hV : V.Ok) (mu : Nat) : 960 * V.cOne * V.b ^ 2 ≤ V.resTwo mu := by
  have hb := hV.b
  have hm := hV.m
  have hn := hV.n
  have hc := cOne_ge hV
  have hf := batchFac_ge hV
  have hx : V.b ≤ V.xOne := by
    unfold xOne
    have : 1 ≤ √V.k := by rw [Real.one_le_sqrt]; exact hV.k
    nlinarith
  have hfrac : 1 ≤ (V.b + 1) / (V.b - 1) := by
    rw [le_div_iff₀ (by linarith)]; linarith
  have hs2 : 1 ≤ √((V.m + 1) * V.n + 1) := by rw [Real.one_le_sqrt]; nlinarith
  have h1 : 0 ≤ V.f0jInf := by
    unfold f0jInf ecdBlindStdDev
    have : 0 < V.b - 1 := by linarith
    have : 0 < V.b := by linarith
    have : 0 < V.xOne := by linarith
    positivity
  have hx0 : 0 < V.xOne := by linarith
  have h2 : 60 * V.cOne * V.b ^ 2 ≤ V.f0nInf := by
    unfold f0nInf maskBlindStdDev
    calc 60 * V.cOne * V.b ^ 2 = 5 * V.b * 1 * (2 * V.cOne * V.b * 1 * 6) := by ring
      _ ≤ 5 * (V.b + 1) * √((V.m + 1) * V.n + 1) * (2 * V.cOne * V.xOne * ((V.b + 1) / (V.b - 1)) * 6) := by
        gcongr; linarith
      _ = _ := by ring
  have h3 : 60 * V.cOne * V.b ^ 2 ≤ V.resEcd0Inf := by
    unfold resEcd0Inf
    rw [scaleUp_eq]
    have h4 : 0 ≤ √V.n * V.cOne * V.f0jInf := by positivity
    have h5 : 60 * V.cOne * V.b ^ 2 ≤ √V.n * V.cOne * V.f0jInf + V.f0nInf := by linarith
    have h6 : 0 ≤ 60 * V.cOne * V.b ^ 2 := by positivity
    nlinarith
  refine le_trans ?_ (resTwo_ge_ecd V mu)
  unfold resEcdTwo
  apply Real.le_sqrt_of_sq_le
  have h4 : 0 ≤ 60 * V.cOne * V.b ^ 2 := by positivity
  have h5 : 0 ≤ V.m * V.resEcdiInf * V.resEcdiInf := by
    rw [mul_assoc]; exact mul_nonneg (by linarith) (mul_self_nonneg _)
  have h6 := mul_self_le_mul_self h4 h3
  have hd := hV.d
  calc (960 * V.cOne * V.b ^ 2) ^ 2 = 256 * ((60 * V.cOne * V.b ^ 2) * (60 * V.cOne * V.b ^ 2)) := by ring
    _ ≤ V.d * (V.m * V.resEcdiInf * V.resEcdiInf + V.resEcd0Inf * V.resEcd0Inf) := by
      gcongr
      linarith

/-- The inner norm bound against a challenge of half the base and the cost at most. -/
theorem inBeta_ge_c (hV : V.Ok) (mu : Nat) {c : ℝ} (h0 : 1 ≤ c) (hc : c ≤ V.cOne) (hb : 2 * c ≤ V.b) :
    2 * (c + 2) ^ 4 ≤ V.inMSISBeta mu := by
  rw [inMSISBeta_eq]
  have h1 := resTwo_ge_c hV mu
  have hc1 := cOne_ge hV
  have h2 : 8 * c ≤ V.inFac := by
    unfold inFac
    split
    · linarith
    · have : V.cOne ≤ V.cOne ^ 4 := le_self_pow₀ hc1 (by norm_num)
      linarith
  have h3 : 960 * c * (2 * c) ^ 2 ≤ V.resTwo mu := by
    refine le_trans ?_ h1
    gcongr
  have h4 : c + 2 ≤ 3 * c := by linarith
  calc 2 * (c + 2) ^ 4 ≤ 2 * (3 * c) ^ 4 := by gcongr
    _ ≤ 8 * c * (960 * c * (2 * c) ^ 2 + 960 * c * (2 * c) ^ 2) := by nlinarith [pow_pos (lt_of_lt_of_le one_pos h0) 4]
    _ ≤ _ := by
      have : 0 ≤ V.inFac := by linarith
      gcongr

/-- The same for the outer norm bound, for a batch of two or more. -/
theorem outBeta_ge_c (hV : V.Ok) {mu : Nat} (hmu : 1 ≤ mu) (ht : V.t ≠ 1) {q : ℝ}
    (hq : V.inMSISBeta mu ≤ q * (1 + 1 / 2 ^ 40)) {c : ℝ} (h0 : 1 ≤ c) (hc : c ≤ V.cOne) :
    2 * (c + 2) ^ 4 ≤ V.outBetaOf q mu := by
  have hc1 := cOne_ge hV
  have hf := batchFac_ge hV
  have hd := hV.d
  have hn := hV.n
  have hmu' : (1 : ℝ) ≤ mu := by exact_mod_cast hmu
  have hcut1 := inCutOffInf_ge' hV hmu
  have hcut2 := inCutOffInf_le hV hmu
  rw [inMSISBeta_eq, inFac, if_neg ht] at hq
  have h1 : 64 * c ^ 4 ≤ q / V.inCutOffInf mu := by
    rw [le_div_iff₀ (by linarith)]
    have h2 : c ^ 4 ≤ V.cOne ^ 4 := by gcongr
    have h3 : 64 * c ^ 4 * (V.inCutOffInf mu + V.inCutOffInf mu) ≤ 64 * V.cOne ^ 4 * (V.resTwo mu + V.resTwo mu) := by
      gcongr
    have h4 : 0 ≤ q := by
      by_contra h
      push Not at h
      have : 0 ≤ 64 * V.cOne ^ 4 * (V.resTwo mu + V.resTwo mu) := by
        have := resTwo_pos hV mu
        positivity
      nlinarith
    nlinarith
  have h2 : 1 ≤ √((V.n + 1) * mu * V.d) := by
    rw [Real.one_le_sqrt]
    have : 1 ≤ (V.n + 1) * mu := by nlinarith
    nlinarith
  have h3 : 64 * c ^ 4 ≤ V.dcmpTwoOf q mu := by
    unfold dcmpTwoOf
    rw [scaleUp_eq]
    have : 0 ≤ q / V.inCutOffInf mu := le_trans (by positivity) h1
    calc 64 * c ^ 4 = 1 * (64 * c ^ 4 * 1) := by ring
      _ ≤ _ := by gcongr
  have h4 : c + 2 ≤ 3 * c := by linarith
  have h5 := dExtOne_ge hV
  unfold outBetaOf
  calc 2 * (c + 2) ^ 4 ≤ 2 * (3 * c) ^ 4 := by gcongr
    _ ≤ 2 * 1 * (2 * (64 * c ^ 4 + 64 * c ^ 4)) := by nlinarith [pow_pos (lt_of_lt_of_le one_pos h0) 4]
    _ ≤ _ := by gcongr

end NPVars

/-- Up to four primes of equal size exceed the fourth root of the modulus. -/
theorem primes_gt {gen : ℤ → ℤ → Option (List Nat)} (hg : GenOk gen) {L : ℤ} (hL : 1 ≤ L)
    (h240 : bitsOf L * limbsOf L ≤ 240) {Q : List Nat}
    (hQ : primesFor gen (logb 2 (2 ^ ((bitsOf L * limbsOf L : ℤ) : ℝ))) = some Q) {c : Nat}
    (hc : ((c : ℝ) + 2) ^ 4 ≤ 2 ^ ((bitsOf L * limbsOf L : ℤ) : ℝ)) : ∀ q ∈ Q, c + 1 < q := by
  have h1 := limbs_pos hL
  have h2 := bits_pos hL
  have h3 : L ≤ 240 := (le_bits_limbs hL).trans h240
  obtain ⟨Q', hQ', hlen, hq⟩ := hg _ _ h2 (bits_le hL) h1 (limbs_le h3)
  rw [NPVars.logb_two_rpow] at hQ
  have e : gen (bitsOf ((bitsOf L * limbsOf L : ℤ) : ℝ)) (limbsOf ((bitsOf L * limbsOf L : ℤ) : ℝ)) = some Q := hQ
  rw [limbs_again hL, bits_again hL, hQ'] at e
  injection e with e
  subst e
  intro q hq'
  have h4 := hq q hq'
  by_contra h5
  push Not at h5
  have h6 : ((bitsOf L * limbsOf L : ℤ) : ℝ) ≤ ((4 * (bitsOf L).toNat : ℕ) : ℝ) := by
    have : (bitsOf L * limbsOf L : ℤ) ≤ ((4 * (bitsOf L).toNat : ℕ) : ℤ) := by
      push_cast
      rw [Int.toNat_of_nonneg (by omega)]
      nlinarith [limbs_le h3]
    exact_mod_cast this
  have h7 : (2 : ℝ) ^ ((bitsOf L * limbsOf L : ℤ) : ℝ) ≤ (2 ^ (bitsOf L).toNat) ^ 4 := by
    calc (2 : ℝ) ^ ((bitsOf L * limbsOf L : ℤ) : ℝ) ≤ 2 ^ ((4 * (bitsOf L).toNat : ℕ) : ℝ) :=
          Real.rpow_le_rpow_of_exponent_le (by norm_num) h6
      _ = _ := by rw [Real.rpow_natCast, mul_comm, pow_mul]
  have h8 : ((2 : ℝ) ^ (bitsOf L).toNat) < (c : ℝ) + 2 := by
    have : (2 : ℤ) ^ (bitsOf L).toNat < c + 2 := by omega
    exact_mod_cast this
  have h9 : ((2 : ℝ) ^ (bitsOf L).toNat) ^ 4 < ((c : ℝ) + 2) ^ 4 := by gcongr
  linarith

/-- The bound for the challenges, against the variables of the search. -/
theorem challengeBound_le (targetN batch : Nat) (e : EcdParams) (nn : Nat) (hk : 1 ≤ e.exp) :
    (challengeBound e : ℝ) ≤ (npVars targetN batch e nn).cOne ∧
      2 * (challengeBound e : ℝ) ≤ (npVars targetN batch e nn).b := by
  have h1 : 2 * challengeBound e ≤ min e.base ((1 <<< (120 / e.exp)) % 2 ^ 64) := by
    unfold challengeBound; omega
  have h2 : 2 * challengeBound e ≤ e.base := h1.trans (min_le_left _ _)
  have h3 : 2 * challengeBound e ≤ 2 ^ (120 / e.exp) := by
    refine (h1.trans (min_le_right _ _)).trans ((Nat.mod_le _ _).trans ?_)
    rw [Nat.one_shiftLeft]
  have h2' : 2 * (challengeBound e : ℝ) ≤ e.base := by exact_mod_cast h2
  have h3' : 2 * (challengeBound e : ℝ) ≤ 2 ^ (120 / e.exp) := by exact_mod_cast h3
  have h4 : (2 : ℝ) ^ (120 / e.exp) ≤ 2 ^ (120 / (e.exp : ℝ)) := by
    rw [← Real.rpow_natCast]
    apply Real.rpow_le_rpow_of_exponent_le (by norm_num)
    have := @Nat.cast_div_le ℝ _ _ _ 120 e.exp
    exact_mod_cast this
  refine ⟨?_, h2'⟩
  have h5 : 1 ≤ √(e.exp : ℝ) := by rw [Real.one_le_sqrt]; exact_mod_cast hk
  show (challengeBound e : ℝ) ≤ √(e.exp : ℝ) * min (e.base : ℝ) (2 ^ (120 / (e.exp : ℝ))) / 2
  have h6 : 2 * (challengeBound e : ℝ) ≤ min (e.base : ℝ) (2 ^ (120 / (e.exp : ℝ))) :=
    le_min h2' (h3'.trans h4)
  have h7 : (0 : ℝ) ≤ 2 * (challengeBound e : ℝ) := by positivity
  nlinarith

theorem challengeBound_pos {e : EcdParams} (hb : 2 ≤ e.base) (h2 : 2 ≤ e.exp) (h120 : e.exp ≤ 120) :
    1 ≤ challengeBound e := by
  unfold challengeBound
  rw [Nat.one_shiftLeft]
  have h1 : 1 ≤ 120 / e.exp := by rw [Nat.le_div_iff_mul_le (by omega)]; omega
  have h3 : 120 / e.exp ≤ 60 := by
    rw [Nat.div_le_iff_le_mul_add_pred (by omega)]; omega
  have h4 : 2 ≤ 2 ^ (120 / e.exp) := by
    calc 2 = 2 ^ 1 := rfl
      _ ≤ _ := Nat.pow_le_pow_right (by norm_num) h1
  have h5 : 2 ^ (120 / e.exp) ≤ 2 ^ 60 := Nat.pow_le_pow_right (by norm_num) h3
  rw [Nat.mod_eq_of_lt (by omega)]
  omega

/-! ## The iteration the parameters come from -/

section
variable {F : Flt} {gen : ℤ → ℤ → Option (List Nat)}

/-- The parameters are those of a successful iteration. -/
structure Flt.FromIter (F : Flt) (gen : ℤ → ℤ → Option (List Nat)) (targetN batch : Nat) (e : EcdParams)
    (nn mu : Nat) (r : ℤ) (Q Q' : List Nat) : Prop where
  one : 1 ≤ nn
  le : nn ≤ ceilDiv targetN (max e.exp 256 / e.exp)
  inn : F.inLoop (F.npVars targetN batch e nn) = .ok mu
  out : F.log2 (F.outQ (F.npVars targetN batch e nn) mu) ≤ 240
  rk : F.findMSISRank (F.npVars targetN batch e nn).d (F.outQ (F.npVars targetN batch e nn) mu)
    (F.outMSISBeta (F.npVars targetN batch e nn) mu) = .ok r
  pr : F.primesFor gen (F.inQ (F.npVars targetN batch e nn) mu) = some Q
  pr' : F.primesFor gen (F.outQ (F.npVars targetN batch e nn) mu) = some Q'

theorem fstep_from (hF : F.Ok) (hg : GenOk gen) {targetN batch : Nat} {e : EcdParams} {nn : Nat}
    (hk : ∃ i, e.exp = 2 ^ i) (ht : 1 ≤ targetN) (ht' : targetN ≤ 2 ^ 47) (hb : 1 ≤ batch)
    (hb' : batch ≤ 2 ^ 53) (hbase : 2 ≤ e.base) (hnn : 1 ≤ nn)
    (hnn' : nn ≤ ceilDiv targetN (max e.exp 256 / e.exp)) {s s' : RParams × Option ℝ}
    (h : F.npStep gen targetN batch e s nn = .ok s') :
    s' = s ∨ ∃ mu r Q Q', F.FromIter gen targetN batch e nn mu r Q Q' ∧
      s'.1 = F.final targetN batch e nn mu r Q Q' := by
  have hexp : 1 ≤ e.exp := by obtain ⟨i, hi⟩ := hk; rw [hi]; exact Nat.two_pow_pos i
  have hV : (npVars targetN batch e nn).Ok := npVars_ok ht hb hbase hexp hnn
  obtain ⟨hW, -⟩ := fvars hF hk ht ht' hb' hbase hnn hnn'
  unfold Flt.npStep at h
  obtain ⟨mu, h1, h⟩ := bind_ok_inv h
  split at h
  · injection h with h
    exact .inl h.symm
  · rename_i h2
    push Not at h2
    obtain ⟨r, h3, h⟩ := bind_ok_inv h
    injection h with h
    obtain ⟨a1, a2, L, M, hm, hle, -⟩ := finner hF hV hW h1
    obtain ⟨-, -, -, -, L', M', hm', -, -⟩ := fouter hF hV hW a1 hm hle h2 h3
    obtain ⟨Q, hQ, -⟩ := primesFor_ok hg hm.pos' (by rw [← hm.eq]; exact hm.le)
    obtain ⟨Q', hQ', -⟩ := primesFor_ok hg hm'.pos' (by rw [← hm'.eq]; exact hm'.le)
    rw [← hm.eq, ← fprimes_eq hF gen hm.pos hm.le hm.log] at hQ
    rw [← hm'.eq, ← fprimes_eq hF gen hm'.pos hm'.le hm'.log] at hQ'
    rcases F.npAssign_eq (outRank := r) hQ hQ' s with ⟨-, h4⟩ | ⟨x, h4⟩
    · rw [h4] at h; exact .inl h.symm
    · rw [h4] at h
      exact .inr ⟨mu, r, Q, Q', ⟨hnn, hnn', h1, h2, h3, hQ, hQ'⟩, by rw [← h]⟩

theorem newParameters_from (hF : F.Ok) (hg : GenOk gen) {targetN batch p : Nat} (hp : 3 ≤ p)
    (ht : targetN ≤ 2 ^ 47) (hb : batch ≤ 2 ^ 53) {P : RParams}
    (h : F.newParameters gen targetN batch p = .ok P) (hP : P ≠ RParams.zero) :
    1 ≤ targetN ∧ 1 ≤ batch ∧ ∃ e, newEncodeParameters p = .ok e ∧ ∃ nn mu r Q Q',
      F.FromIter gen targetN batch e nn mu r Q Q' ∧ P = F.final targetN batch e nn mu r Q Q' := by
  unfold Flt.newParameters at h
  split at h
  · cases h
  rename_i ht1
  split at h
  · cases h
  rename_i hb1
  obtain ⟨e, he, h⟩ := bind_ok_inv h
  obtain ⟨s, hs, h⟩ := bind_ok_inv h
  injection h with h
  subst h
  refine ⟨by omega, by omega, e, he, ?_⟩
  obtain ⟨hb2, he2⟩ := ecd_base_exp hp he
  obtain ⟨c1, c2, -⟩ := C61_result p hp e he
  rw [fmaxCols hF c2 (by omega) ht] at hs
  have key : ∀ (L : List Nat), (∀ n ∈ L, 1 ≤ n ∧ n ≤ ceilDiv targetN (max e.exp 256 / e.exp)) →
      ∀ (s0 s1 : RParams × Option ℝ),
      (s0.1 = RParams.zero ∨ ∃ nn mu r Q Q', F.FromIter gen targetN batch e nn mu r Q Q' ∧
        s0.1 = F.final targetN batch e nn mu r Q Q') →
      L.foldlM (F.npStep gen targetN batch e) s0 = .ok s1 →
      (s1.1 = RParams.zero ∨ ∃ nn mu r Q Q', F.FromIter gen targetN batch e nn mu r Q Q' ∧
        s1.1 = F.final targetN batch e nn mu r Q Q') := by
    intro L
    induction L with
    | nil => intro _ s0 s1 h0 h; injection h with h; rw [← h]; exact h0
    | cons n L ih =>
      intro hL s0 s1 h0 h
      rw [List.foldlM_cons] at h
      obtain ⟨s', h3, h4⟩ := bind_ok_inv h
      refine ih (fun x hx => hL x (by simp [hx])) s' s1 ?_ h4
      obtain ⟨n1, n2⟩ := hL n (by simp)
      rcases fstep_from hF hg c2 (by omega) ht (by omega) hb hb2 n1 n2 h3 with h5 | ⟨mu, r, Q, Q', h5, h6⟩
      · rw [h5]; exact h0
      · exact .inr ⟨n, mu, r, Q, Q', h5, h6⟩
  rcases key _ (fun n hn => ⟨mem_doublings_pos hn, doublings_le hn⟩) _ s (.inl rfl) hs with h | h
  · exact absurd h hP
  · exact h

/-- The primes of both rings exceed the challenges, of the outer ring if there is a batch. -/
theorem iter_primes (hF : F.Ok) (hg : GenOk gen) {targetN batch : Nat} {e : EcdParams} {nn mu : Nat} {r : ℤ}
    {Q Q' : List Nat} (hk : ∃ i, e.exp = 2 ^ i) (ht : 1 ≤ targetN) (ht' : targetN ≤ 2 ^ 47) (hb : 1 ≤ batch)
    (hb' : batch ≤ 2 ^ 53) (hbase : 2 ≤ e.base) (hc : 1 ≤ challengeBound e)
    (h : F.FromIter gen targetN batch e nn mu r Q Q') :
    (∀ q ∈ Q, challengeBound e + 1 < q) ∧ (1 < batch → ∀ q ∈ Q', challengeBound e + 1 < q) := by
  have hexp : 1 ≤ e.exp := by obtain ⟨i, hi⟩ := hk; rw [hi]; exact Nat.two_pow_pos i
  have hV : (npVars targetN batch e nn).Ok := npVars_ok ht hb hbase hexp h.one
  obtain ⟨hW, -⟩ := fvars hF hk ht ht' hb' hbase h.one h.le
  obtain ⟨a1, a2, L, M, hm, hle, -⟩ := finner hF hV hW h.inn
  obtain ⟨hbq, -, -, -, L', M', hm', hle', -⟩ := fouter hF hV hW a1 hm hle h.out h.rk
  obtain ⟨c1, c2⟩ := challengeBound_le targetN batch e nn hexp
  have hc' : (1 : ℝ) ≤ challengeBound e := by exact_mod_cast hc
  have hq0 : 0 < F.inQ (F.npVars targetN batch e nn) mu := by rw [hm.val]; positivity
  have hpow : 0 ≤ ((challengeBound e : ℝ) + 2) ^ 4 := by positivity
  constructor
  · have h1 := NPVars.inBeta_ge_c hV mu hc' c1 c2
    refine primes_gt hg hm.pos' (by rw [← hm.eq]; exact hm.le) (Q := Q) ?_ ?_
    · rw [← hm.eq, ← fprimes_eq hF gen hm.pos hm.le hm.log]; exact h.pr
    · rw [← hm.eq, ← hm.val]
      nlinarith
  · intro hb1
    have ht1 : (npVars targetN batch e nn).t ≠ 1 := by
      show (batch : ℝ) ≠ 1
      exact_mod_cast (by omega : batch ≠ 1)
    have h1 := NPVars.outBeta_ge_c hV a1 ht1 hbq hc' c1
    have h2 := (foutBeta_near hF hV hW a1 hq0).lower (by norm_num)
    refine primes_gt hg hm'.pos' (by rw [← hm'.eq]; exact hm'.le) (Q := Q') ?_ ?_
    · rw [← hm'.eq, ← fprimes_eq hF gen hm'.pos hm'.le hm'.log]; exact h.pr'
    · rw [← hm'.eq, ← hm'.val]
      nlinarith

/-- The moduli are not small. -/
theorem iter_prod (hF : F.Ok) (hg : GenOk gen) {targetN batch : Nat} {e : EcdParams} {nn mu : Nat} {r : ℤ}
    {Q Q' : List Nat} (hk : ∃ i, e.exp = 2 ^ i) (ht : 1 ≤ targetN) (ht' : targetN ≤ 2 ^ 47) (hb : 1 ≤ batch)
    (hb' : batch ≤ 2 ^ 53) (hbase : 2 ≤ e.base) (h : F.FromIter gen targetN batch e nn mu r Q Q') :
    64 ≤ Q.prod ∧ 64 ≤ Q'.prod := by
  have hexp : 1 ≤ e.exp := by obtain ⟨i, hi⟩ := hk; rw [hi]; exact Nat.two_pow_pos i
  have hV : (npVars targetN batch e nn).Ok := npVars_ok ht hb hbase hexp h.one
  obtain ⟨hW, -⟩ := fvars hF hk ht ht' hb' hbase h.one h.le
  obtain ⟨a1, a2, L, M, hm, hle, -⟩ := finner hF hV hW h.inn
  obtain ⟨hbq, hob, -, -, L', M', hm', hle', -⟩ := fouter hF hV hW a1 hm hle h.out h.rk
  have hib := finBeta_ge hF hV hW a1
  obtain ⟨Q1, hQ1, hp1⟩ := primesFor_ok hg hm.pos' (by rw [← hm.eq]; exact hm.le)
  obtain ⟨Q2, hQ2, hp2⟩ := primesFor_ok hg hm'.pos' (by rw [← hm'.eq]; exact hm'.le)
  rw [← hm.eq, ← fprimes_eq hF gen hm.pos hm.le hm.log, h.pr] at hQ1
  rw [← hm'.eq, ← fprimes_eq hF gen hm'.pos hm'.le hm'.log, h.pr'] at hQ2
  rw [← hm.eq, ← hm.val, ← Option.some.inj hQ1] at hp1
  rw [← hm'.eq, ← hm'.val, ← Option.some.inj hQ2] at hp2
  have h1 : (64 : ℝ) ≤ (Q.prod : ℕ) := by linarith
  have h2 : (64 : ℝ) ≤ (Q'.prod : ℕ) := by linarith
  exact ⟨by exact_mod_cast h1, by exact_mod_cast h2⟩

end

end Ringo
