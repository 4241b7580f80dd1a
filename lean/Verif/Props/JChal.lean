import Verif.Props.JDiv
import Verif.Props.JRns

/-!
# C60: challenges

A challenge is a list of `exp` integers, the coefficients at `1, X^slots, X^(2*slots), ...`.
-/

namespace Ringo

/-- The digit `r` moved to the interval `(-B/2, B/2]`. -/
def centred (B r : Nat) : Int := if r > B / 2 then (r : Int) - B else r

theorem centred_range {B r : Nat} (h : r < B) : -(B : Int) < 2 * centred B r ∧ 2 * centred B r ≤ B := by
  unfold centred; split <;> omega

theorem chalResidue_eq {B r q : Nat} (h : r < B) (hq : B ≤ q) :
    chalResidue B r q = bigResidue (centred B r) q := by
  unfold chalResidue centred bigResidue
  split
  · rename_i h1
    have h2 : ((r : Int) - B) % q = q - (B - r) := by
      rw [Int.emod_eq_iff (by omega)]
      exact ⟨by omega, by omega, ⟨1, by ring⟩⟩
    omega
  · norm_cast
    rw [Nat.mod_eq_of_lt (by omega)]; omega

theorem beUint64_ok (b : List (BitVec 8)) (h : 8 ≤ b.length) : ∃ w, beUint64 b = .ok w ∧ w < 2 ^ 64 := by
  obtain ⟨b0, b1, b2, b3, b4, b5, b6, b7, r, rfl⟩ : ∃ b0 b1 b2 b3 b4 b5 b6 b7 r,
      b = b0 :: b1 :: b2 :: b3 :: b4 :: b5 :: b6 :: b7 :: r := by
    match b, h with
    | b0 :: b1 :: b2 :: b3 :: b4 :: b5 :: b6 :: b7 :: r, _ => exact ⟨_, _, _, _, _, _, _, _, _, rfl⟩
  refine ⟨_, by unfold beUint64; rw [if_neg (by simp)]; rfl, ?_⟩
  simp only [List.take_succ_cons, List.take_zero, List.foldl_cons, List.foldl_nil]
  have := b0.isLt; have := b1.isLt; have := b2.isLt; have := b3.isLt
  have := b4.isLt; have := b5.isLt; have := b6.isLt; have := b7.isLt
  omega

/-- The eight bytes of a word, most significant first. -/
def beBytes (w : Nat) : List (BitVec 8) :=
  [BitVec.ofNat 8 (w / 256 ^ 7), BitVec.ofNat 8 (w / 256 ^ 6), BitVec.ofNat 8 (w / 256 ^ 5),
    BitVec.ofNat 8 (w / 256 ^ 4), BitVec.ofNat 8 (w / 256 ^ 3), BitVec.ofNat 8 (w / 256 ^ 2),
    BitVec.ofNat 8 (w / 256), BitVec.ofNat 8 w]

theorem beUint64_beBytes (w : Nat) (hw : w < 2 ^ 64) (r : List (BitVec 8)) :
    beUint64 (beBytes w ++ r) = .ok w := by
  unfold beUint64
  rw [if_neg (by simp [beBytes])]
  simp only [beBytes, List.cons_append, List.nil_append, List.take_succ_cons, List.take_zero,
    List.foldl_cons, List.foldl_nil, BitVec.toNat_ofNat, go_pure]
  congr 1
  omega

theorem chalLoop (B : Nat) (qs : List Nat) (hB : 1 ≤ B) (n : Nat) (c : List Nat)
    (hc : ∀ w ∈ c, w < 2 ^ 64) :
    ∃ c', forRange 0 n 1 (c, []) (chalStep B qs) = .ok (c', (List.range n).map fun j =>
      qs.map (chalResidue B (Nat.ofDigits (2 ^ 64) c / B ^ j % B))) := by
  obtain ⟨s, h1, h2⟩ := forRange_spec (f := chalStep B qs) 0 n (Nat.zero_le _)
    (fun i s => (∀ w ∈ s.1, w < 2 ^ 64) ∧
      Nat.ofDigits (2 ^ 64) s.1 = Nat.ofDigits (2 ^ 64) c / B ^ i ∧
      s.2 = (List.range i).map fun j =>
        qs.map (chalResidue B (Nat.ofDigits (2 ^ 64) c / B ^ j % B)))
    (c, []) ⟨hc, by simp, rfl⟩ (by
      rintro i ⟨x, out⟩ - hi ⟨h1, h2, h3⟩
      dsimp only at h1 h2 h3
      obtain ⟨x', h4, -, h5, h6⟩ := C53_divMod x B h1 hB
      refine ⟨(x', out ++ [qs.map (chalResidue B (Nat.ofDigits (2 ^ 64) x % B))]), ?_, h5, ?_, ?_⟩
      · unfold chalStep; dsimp only; rw [h4]; rfl
      · dsimp only; rw [h6, h2, Nat.div_div_eq_div_mul, ← Nat.pow_succ]
      · dsimp only; rw [List.range_succ, List.map_append, h3, h2]; rfl)
  exact ⟨s.1, by rw [h1, ← h2.2.2]⟩

/-- The challenge as a list of integers, in terms of the number the sixteen bytes stand for. -/
theorem chalCoeffs_eq (e : EcdParams) (hB : 1 ≤ challengeBound e) (bytes : List (BitVec 8))
    {c0 c1 : Nat} (h0 : beUint64 bytes = .ok c0) (h1 : beUint64 (bytes.drop 8) = .ok c1)
    (hc0 : c0 < 2 ^ 64) (hc1 : c1 < 2 ^ 64) (qs : List Nat) (hq : ∀ q ∈ qs, challengeBound e ≤ q) :
    chalCoeffs e qs bytes = .ok ((List.range e.exp).map fun j => qs.map
      (bigResidue (centred (challengeBound e)
        ((c0 + 2 ^ 64 * c1) / challengeBound e ^ j % challengeBound e)))) := by
  unfold chalCoeffs
  obtain ⟨c', h2⟩ := chalLoop (challengeBound e) qs hB e.exp [c0, c1] (by
    intro w hw; simp only [List.mem_cons, List.not_mem_nil, or_false] at hw
    rcases hw with rfl | rfl <;> assumption)
  rw [h0, h1, go_bind_ok, go_bind_ok, h2]
  simp only [go_bind_ok, go_pure]
  congr 1
  apply List.map_congr_left
  intro j _
  apply List.map_congr_left
  intro q hqm
  rw [← chalResidue_eq (Nat.mod_lt _ (by omega)) (hq q hqm)]
  simp [Nat.ofDigits]

/-- **C60.** If the challenge bound `B` is positive, sixteen bytes determine a challenge: `exp`
integers in `(-B/2, B/2]`, whose residues are written for every modulus of every ring with moduli
of at least `B`. -/
theorem C60_short (e : EcdParams) (hB : 1 ≤ challengeBound e) (bytes : List (BitVec 8))
    (hb : bytes.length = 16) :
    ∃ cs : List Int, cs.length = e.exp ∧
      (∀ c ∈ cs, -(challengeBound e : Int) < 2 * c ∧ 2 * c ≤ challengeBound e) ∧
      ∀ qs : List Nat, (∀ q ∈ qs, challengeBound e ≤ q) →
        chalCoeffs e qs bytes = .ok (cs.map fun c => qs.map (bigResidue c)) := by
  obtain ⟨c0, h0, hc0⟩ := beUint64_ok bytes (by omega)
  obtain ⟨c1, h1, hc1⟩ := beUint64_ok (bytes.drop 8) (by simp; omega)
  refine ⟨(List.range e.exp).map fun j => centred (challengeBound e)
        ((c0 + 2 ^ 64 * c1) / challengeBound e ^ j % challengeBound e), by simp, ?_, ?_⟩
  · intro c hc
    obtain ⟨j, -, rfl⟩ := List.mem_map.mp hc
    exact centred_range (Nat.mod_lt _ (by omega))
  · intro qs hq
    rw [chalCoeffs_eq e hB bytes h0 h1 hc0 hc1 qs hq, List.map_map]
    rfl

theorem ofDigits_div_mod (B : Nat) (hB : 1 ≤ B) (ds : List Nat) (hd : ∀ d ∈ ds, d < B) (j : Nat)
    (hj : j < ds.length) : Nat.ofDigits B ds / B ^ j % B = ds[j] := by
  induction ds generalizing j with
  | nil => exact absurd hj (by simp)
  | cons d ds ih =>
    rw [Nat.ofDigits_cons]
    have h1 := hd d (by simp)
    cases j with
    | zero => simp [Nat.add_mul_mod_self_left, Nat.mod_eq_of_lt h1]
    | succ j =>
      have h2 : (d + B * Nat.ofDigits B ds) / B = Nat.ofDigits B ds := by
        rw [Nat.add_mul_div_left _ _ (by omega), Nat.div_eq_of_lt h1, Nat.zero_add]
      rw [Nat.pow_succ', ← Nat.div_div_eq_div_mul]
      rw [h2]
      exact ih (fun x hx => hd x (by simp [hx])) j (by simpa using hj)

theorem ofDigits_lt (B : Nat) (ds : List Nat) (hd : ∀ d ∈ ds, d < B) :
    Nat.ofDigits B ds < B ^ ds.length := by
  induction ds with
  | nil => simp
  | cons d ds ih =>
    have h1 := hd d (by simp)
    have h2 := ih (fun x hx => hd x (by simp [hx]))
    rw [Nat.ofDigits_cons, List.length_cons, Nat.pow_succ']
    nlinarith

theorem challengeBound_pow (e : EcdParams) : challengeBound e ^ e.exp ≤ 2 ^ 120 := by
  have h1 : challengeBound e ≤ 2 ^ (120 / e.exp) := by
    unfold challengeBound
    have h2 := Nat.mod_le (1 <<< (120 / e.exp)) (2 ^ 64)
    rw [Nat.one_shiftLeft] at *
    omega
  calc challengeBound e ^ e.exp ≤ (2 ^ (120 / e.exp)) ^ e.exp := Nat.pow_le_pow_left h1 _
    _ = 2 ^ (120 / e.exp * e.exp) := by rw [Nat.pow_mul]
    _ ≤ 2 ^ 120 := Nat.pow_le_pow_right (by decide) (Nat.div_mul_le_self _ _)

/-- **C60.** Every list of `exp` integers in `(-B/2, B/2]` is the challenge of some sixteen
bytes. -/
theorem C60_onto (e : EcdParams) (hB : 1 ≤ challengeBound e) (cs : List Int)
    (hl : cs.length = e.exp)
    (hc : ∀ c ∈ cs, -(challengeBound e : Int) < 2 * c ∧ 2 * c ≤ challengeBound e) :
    ∃ bytes : List (BitVec 8), bytes.length = 16 ∧
      ∀ qs : List Nat, (∀ q ∈ qs, challengeBound e ≤ q) →
        chalCoeffs e qs bytes = .ok (cs.map fun c => qs.map (bigResidue c)) := by
  set B := challengeBound e with hBdef
  set ds := cs.map (fun c => bigResidue c B) with hds
  have hd : ∀ d ∈ ds, d < B := by
    intro d hd
    obtain ⟨c, -, rfl⟩ := List.mem_map.mp hd
    exact bigResidue_lt c (by omega)
  have hV : Nat.ofDigits B ds < 2 ^ 120 := by
    refine (ofDigits_lt B ds hd).trans_le ?_
    have := challengeBound_pow e
    rw [show ds.length = e.exp by simp [hds, hl]]
    exact this
  set V := Nat.ofDigits B ds with hVdef
  have h0 : beUint64 (beBytes (V % 2 ^ 64) ++ beBytes (V / 2 ^ 64)) = .ok (V % 2 ^ 64) :=
    beUint64_beBytes _ (Nat.mod_lt _ (by decide)) _
  have h1 : beUint64 ((beBytes (V % 2 ^ 64) ++ beBytes (V / 2 ^ 64)).drop 8) =
      .ok (V / 2 ^ 64) := by
    have := beUint64_beBytes (V / 2 ^ 64) (by omega) []
    rw [List.append_nil] at this
    rw [List.drop_left' (by simp [beBytes])]
    exact this
  refine ⟨beBytes (V % 2 ^ 64) ++ beBytes (V / 2 ^ 64), by simp [beBytes], ?_⟩
  intro qs hq
  rw [chalCoeffs_eq e hB _ h0 h1 (Nat.mod_lt _ (by decide)) (by omega) qs hq]
  congr 1
  apply List.ext_getElem (by simp [hl])
  intro j hj1 hj2
  have hj : j < ds.length := by simpa [hds] using hj2
  simp only [List.getElem_map, List.getElem_range]
  rw [Nat.mod_add_div, ← hBdef, hVdef, ofDigits_div_mod B hB ds hd j hj]
  have hjc : j < cs.length := by simpa using hj2
  have hcj := hc cs[j] (List.getElem_mem hjc)
  congr 2
  simp only [hds, List.getElem_map]
  have hr := bigResidue_cast cs[j] (q := B) (by omega)
  have hlt := bigResidue_lt cs[j] (q := B) (by omega)
  generalize bigResidue cs[j] B = r at hr hlt
  generalize cs[j] = c at hr hcj
  unfold centred
  have hdm := Int.mul_ediv_add_emod c B
  rcases lt_or_ge c 0 with hneg | hnn
  · have h2 : c % B = c + B := by
      rw [Int.emod_eq_iff (by omega)]
      exact ⟨by omega, by omega, ⟨1, by ring⟩⟩
    rw [if_pos (by omega)]; omega
  · have h2 : c % B = c := Int.emod_eq_of_lt hnn (by omega)
    rw [if_neg (by omega)]; omega

/-- **C60.** For exponents from 2 to 60 and bases of at least four the bound is at least two, so
that the challenge of `C60_onto` has at least two values in each coefficient. -/
theorem C60_plenty (e : EcdParams) (h1 : 2 ≤ e.exp) (h2 : e.exp ≤ 60) (h3 : 4 ≤ e.base) :
    2 ≤ challengeBound e := by
  unfold challengeBound
  have h4 : 2 ≤ 120 / e.exp := by
    rw [Nat.le_div_iff_mul_le (by omega)]; omega
  have h5 : 120 / e.exp ≤ 60 := Nat.div_le_of_le_mul (by omega)
  have h6 : 4 ≤ 2 ^ (120 / e.exp) := by
    calc 4 = 2 ^ 2 := rfl
      _ ≤ _ := Nat.pow_le_pow_right (by decide) h4
  have h7 : 2 ^ (120 / e.exp) < 2 ^ 64 := Nat.pow_lt_pow_right (by decide) (by omega)
  rw [Nat.one_shiftLeft, Nat.mod_eq_of_lt h7]
  omega

/-- **C60** is false for exponents from 61 to 120 (such as the 64 of `buckler/internal/zp880`):
every challenge is zero. -/
theorem C60_refuted (e : EcdParams) (h1 : 61 ≤ e.exp) (h2 : e.exp ≤ 120) (h3 : 2 ≤ e.base)
    (bytes : List (BitVec 8)) (hb : bytes.length = 16) (qs : List Nat) (hq : ∀ q ∈ qs, 1 ≤ q) :
    chalCoeffs e qs bytes = .ok (List.replicate e.exp (qs.map fun _ => 0)) := by
  have h4 : 120 / e.exp = 1 := by
    rw [Nat.div_eq_iff (by omega)]; omega
  have hB : challengeBound e = 1 := by
    unfold challengeBound
    rw [h4, show ((1 <<< 1) % 2 ^ 64 : Nat) = 2 from rfl]
    omega
  obtain ⟨cs, h5, h6, h7⟩ := C60_short e (by omega) bytes hb
  rw [h7 qs (by rw [hB]; exact hq)]
  congr 1
  apply List.ext_getElem (by simp [h5])
  intro j hj1 hj2
  have hj : j < cs.length := by simpa using hj1
  have := h6 cs[j] (List.getElem_mem hj)
  rw [hB] at this
  simp only [List.getElem_map, List.getElem_replicate]
  apply List.map_congr_left
  intro q _
  rw [show cs[j] = 0 by omega]
  simp [bigResidue]

/-- **C60** is false for the exponent one (a modulus such as `p = b + 1` whose `b` is no square)
and for exponents above 120: the bound is zero, and making a challenge panics. -/
theorem C60_refuted_panic (e : EcdParams) (h : e.exp = 1 ∨ 121 ≤ e.exp)
    (bytes : List (BitVec 8)) (qs : List Nat) : chalCoeffs e qs bytes = .error .panic := by
  have hB : challengeBound e = 0 := by
    unfold challengeBound
    rcases h with h | h
    · rw [h, show ((1 <<< (120 / 1)) % 2 ^ 64 : Nat) = 0 from by decide]
      simp
    · rw [show 120 / e.exp = 0 from Nat.div_eq_of_lt (by omega), show ((1 <<< 0) % 2 ^ 64 : Nat) = 1 from rfl]
      omega
  unfold chalCoeffs
  cases h0 : beUint64 bytes with
  | error x =>
    unfold beUint64 at h0
    split at h0
    · injection h0 with h0; subst h0; rfl
    · cases h0
  | ok c0 =>
    cases h1 : beUint64 (bytes.drop 8) with
    | error x =>
      unfold beUint64 at h1
      split at h1
      · injection h1 with h1; subst h1; rfl
      · cases h1
    | ok c1 =>
      obtain ⟨n, hn⟩ : ∃ n, e.exp = n + 1 := ⟨e.exp - 1, by omega⟩
      have h2 : forRange 0 e.exp 1 ([c0, c1], []) (chalStep (challengeBound e) qs) =
          .error .panic := by
        unfold forRange
        rw [hn, Nat.sub_zero, Nat.sub_self, Nat.add_zero, Nat.div_one, List.range'_succ,
          List.foldlM_cons]
        unfold chalStep
        dsimp only
        rw [hB, C53_zero _ (by simp)]
        rfl
      rw [go_bind_ok, go_bind_ok, h2]
      rfl

/-- The parameters of `jindo/internal/zp`, and of `buckler/internal/zp880`. -/
example : challengeBound ⟨60272, 16⟩ = 64 ∧ challengeBound ⟨13694, 64⟩ = 1 := by decide

end Ringo
