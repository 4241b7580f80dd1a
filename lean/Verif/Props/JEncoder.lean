import Verif.Proof.JRing

/-!
# C54, C55, C56: encoding and decoding

`EncParams.Good P p` says that the parameters fit the field of order `p = base^exp + 1`; a
polynomial of the ring with moduli `qs` is given by the residues of its coefficients.
-/

namespace Ringo

open Polynomial Finset

variable {p : Nat}

/-- Reconstruction of a polynomial given by the residues of integers. -/
theorem reconstructTo_ok (qs : List Nat) (hc : Chain qs) (z : List Int)
    (hz : ∀ c ∈ z, -(qs.prod : Int) < 2 * c ∧ 2 * c < (qs.prod : Int) - 1) :
    reconstructTo qs (z.map fun c => qs.map (bigResidue c)) = .ok z := by
  unfold reconstructTo
  rw [List.mapM_map]
  have : z.mapM ((fun cs => reconstruct1 (cs.zip qs)) ∘ fun c => qs.map (bigResidue c)) =
      .ok (z.map id) := by
    apply mapM_ok
    intro c hcz
    have h1 : (qs.map (bigResidue c)).zip qs = qs.map fun q => (bigResidue c q, q) := by
      clear hz hc
      induction qs with
      | nil => rfl
      | cons q qs ih => simp only [List.map_cons, List.zip_cons_cons, ih]
    simp only [Function.comp_apply, h1, id]
    exact C58_partial qs hc c (hz c hcz).1 (hz c hcz).2
  rw [List.map_id] at this
  exact this

theorem decoded_row {P : EncParams} (h : P.Good p) (v : List (ZMod p)) (hv : v.length ≤ P.slots)
    (z : List Int)
    (hz : z = (List.range P.N).map fun t => ((ecdDigit P.ecd.base P.ecd.exp
      (v.getD (t % P.slots) 0).val (t / P.slots) : Nat) : Int)) :
    decoded p P z = v ++ List.replicate (P.slots - v.length) 0 := by
  have := h.neZero
  unfold decoded
  apply List.ext_getElem (by simp; omega)
  intro i hi1 hi2
  have hi : i < P.slots := by simpa using hi1
  simp only [List.getElem_map, List.getElem_range]
  have h1 : ∀ j ∈ range P.ecd.exp, (z.getD (j * P.slots + i) 0 : ZMod p) * (P.ecd.base : ZMod p) ^ j =
      ((ecdDigit P.ecd.base P.ecd.exp (v.getD i 0).val j * P.ecd.base ^ j : Nat) : ZMod p) := by
    intro j hj
    have hlt : j * P.slots + i < P.N := by
      rw [h.deg]; exact split_lt hi (mem_range.mp hj)
    rw [hz, List.getD_eq_getElem _ _ (by simpa using hlt)]
    simp only [List.getElem_map, List.getElem_range]
    rw [(split_mod j hi).1, (split_mod j hi).2]
    push_cast
    rfl
  rw [sum_congr rfl h1, ← Nat.cast_sum, ecdDigit_sum _ _ _ h.exp_pos, ZMod.natCast_zmod_val]
  by_cases hiv : i < v.length
  · rw [List.getD_eq_getElem _ _ hiv, List.getElem_append_left hiv]
  · rw [List.getD_eq_default _ _ (by omega), List.getElem_append_right (by omega),
      List.getElem_replicate]

/-- **C54.** Encoding a vector of at most `slots` field elements and decoding the result gives the
vector, padded with zeros. -/
theorem C54_roundtrip (P : EncParams) (h : P.Good p) (qs : List Nat) (hc : Chain qs)
    (hq : ∀ q ∈ qs, 2 * P.ecd.base + 1 < q) (v : List (ZMod p)) (hv : v.length ≤ P.slots)
    (row : List Nat) (hr : row.length = P.N) (vOut : List (ZMod p)) (hO : vOut.length = P.slots) :
    ∃ enc coeff, baseEncode P row v = .ok enc ∧
      reconstructTo qs (enc.map fun r => qs.map fun _ => r) = .ok coeff ∧
      decodeTo P vOut coeff = .ok (v ++ List.replicate (P.slots - v.length) 0) := by
  have h1 := baseEncode_spec P h row v hv hr
  set enc := (List.range P.N).map fun t =>
      ecdDigit P.ecd.base P.ecd.exp (v.getD (t % P.slots) 0).val (t / P.slots) with henc
  have hle : ∀ r ∈ enc, r ≤ P.ecd.base := by
    intro r hrm
    obtain ⟨t, -, rfl⟩ := List.mem_map.mp hrm
    exact ecdDigit_le h _ _
  obtain ⟨q0, hq0⟩ := List.exists_mem_of_ne_nil _ hc.ne
  have hQ : 2 * P.ecd.base + 1 < qs.prod := (hq q0 hq0).trans_le (le_prod' hc.one hq0)
  have h2 : enc.map (fun r => qs.map fun _ => r) =
      (enc.map fun n : Nat => (n : Int)).map fun c => qs.map (bigResidue c) := by
    clear_value enc
    rw [List.map_map]
    apply List.map_congr_left
    intro r hrm
    apply List.map_congr_left
    intro q hqm
    refine eq_bigResidue ?_ (by simp)
    have := hle r hrm
    have := hq q hqm
    omega
  refine ⟨enc, enc.map fun n : Nat => (n : Int), h1, ?_, ?_⟩
  · rw [h2]
    apply reconstructTo_ok qs hc
    intro c hcm
    obtain ⟨r, hrm, rfl⟩ := List.mem_map.mp hcm
    have := hle r hrm
    omega
  · rw [decodeTo_spec P vOut _ hO (by simp [henc, h.deg])]
    congr 1
    exact decoded_row h v hv _ (by rw [henc, List.map_map]; rfl)

/-- **C54.** Longer vectors are refused, by the encoder and by the decoder. -/
theorem C54_long (P : EncParams) (v : List (ZMod p)) (hv : P.slots < v.length) (row : List Nat)
    (coeff : List Int) :
    baseEncode P row v = .error .panic ∧ decodeTo P v coeff = .error .panic := by
  constructor
  · unfold baseEncode; rw [if_pos hv]; rfl
  · unfold decodeTo; rw [if_pos hv]; rfl

/-- **C55.** Let `enc` be the encoding of `v`, `s` the samples, and `z` the coefficients of
`enc + (X^slots - base) * s` modulo `X^N + 1`, over the integers.  If they lie below half the
modulus, then the randomised encoding is reconstructed as `z`, and decodes to `v`, padded with
zeros. -/
theorem C55_decode (P : EncParams) (h : P.Good p) (qs : List Nat) (hc : Chain qs)
    (v : List (ZMod p)) (hv : v.length ≤ P.slots) (row enc : List Nat) (hr : row.length = P.N)
    (he : baseEncode P row v = .ok enc) (s : List Int) (hs : s.length = P.N)
    (z : List Int) (hz : z.length = P.N)
    (hzp : (X ^ P.N + 1 : ℤ[X]) ∣ listPoly z - (listPoly (enc.map fun n : Nat => (n : Int)) +
      (X ^ P.slots - C (P.ecd.base : Int)) * listPoly s))
    (hzq : ∀ c ∈ z, -(qs.prod : Int) < 2 * c ∧ 2 * c < (qs.prod : Int) - 1)
    (vOut : List (ZMod p)) (hO : vOut.length = P.slots) :
    ∃ poly, randEncode P qs row v s = .ok poly ∧ reconstructTo qs poly = .ok z ∧
      decodeTo P vOut z = .ok (v ++ List.replicate (P.slots - v.length) 0) := by
  have hN : P.slots ≤ P.N := by
    rw [h.deg]; exact Nat.le_mul_of_pos_right _ h.exp_pos
  have h1 := baseEncode_spec P h row v hv hr
  rw [he] at h1
  injection h1 with h1
  have hel : enc.length = P.N := by rw [h1]; simp
  have hzr : z = (List.range P.N).map (randCoeff P enc s) := by
    refine listPoly_mk_inj (M := cyclo ℤ P.N) (cyclo_monic (by have := h.slots_pos; omega)) cyclo_natDegree hz
      (by simp) ?_
    rw [AdjoinRoot.mk_eq_mk]
    have := dvd_sub hzp (randCoeff_dvd P hN enc s hel hs)
    simpa using this
  refine ⟨z.map fun c => qs.map (bigResidue c), ?_, reconstructTo_ok qs hc z hzq, ?_⟩
  · unfold randEncode
    rw [he, go_bind_ok, hzr, List.map_map, go_pure]
    congr 1
    apply List.map_congr_left
    intro t _
    apply List.map_congr_left
    intro q hq
    exact randResidue_eq P enc s q t ((hc.one q hq).trans' Nat.one_pos)
  · rw [decodeTo_spec P vOut z hO (by rw [hz, h.deg])]
    congr 1
    apply decoded_eq h z _ hz (by simp; omega)
    rw [decHom_congr h hzp, map_add, map_mul, map_sub, decHom_X_slots]
    have h2 : decHom p P (C (P.ecd.base : Int)) =
        AdjoinRoot.mk (decMod p P) (C (P.ecd.base : ZMod p)) := by
      unfold decHom; simp
    rw [h2, sub_self, zero_mul, add_zero, decHom_listPoly _ (by simp [hel, h.deg])]
    congr 2
    exact decoded_row h v hv _ (by rw [h1, List.map_map]; rfl)

/-- **C56.** Decoding commutes with addition. -/
theorem C56_add (P : EncParams) (h : P.Good p) (f g k : List Int) (hf : f.length = P.N)
    (hg : g.length = P.N) (hk : k.length = P.N) (vOut : List (ZMod p)) (hO : vOut.length = P.slots)
    (hsum : (X ^ P.N + 1 : ℤ[X]) ∣ listPoly k - (listPoly f + listPoly g)) :
    ∃ a b, decodeTo P vOut f = .ok a ∧ decodeTo P vOut g = .ok b ∧
      decodeTo P vOut k = .ok (List.zipWith (· + ·) a b) := by
  have hd : ∀ z : List Int, z.length = P.N → decodeTo P vOut z = .ok (decoded p P z) :=
    fun z hz => decodeTo_spec P vOut z hO (by rw [hz, h.deg])
  refine ⟨_, _, hd f hf, hd g hg, ?_⟩
  rw [hd k hk]
  congr 1
  apply decoded_eq h k _ hk (by simp [decoded])
  rw [decHom_congr h hsum, map_add, decHom_listPoly f (by rw [hf, h.deg]),
    decHom_listPoly g (by rw [hg, h.deg]), ← map_add, listPoly_add _ _ (by simp [decoded])]

/-- **C56.** Multiplication modulo `X^N + 1` by a polynomial `c(X^slots)`, such as a challenge or
the encoding of a single element, is decoded to multiplication by the scalar `c(base)`. -/
theorem C56_mul (P : EncParams) (h : P.Good p) (c : ℤ[X]) (f k : List Int) (hf : f.length = P.N)
    (hk : k.length = P.N) (vOut : List (ZMod p)) (hO : vOut.length = P.slots)
    (hmul : (X ^ P.N + 1 : ℤ[X]) ∣ listPoly k - c.comp (X ^ P.slots) * listPoly f) :
    ∃ a, decodeTo P vOut f = .ok a ∧
      decodeTo P vOut k = .ok (a.map (· * ((c.eval (P.ecd.base : ℤ) : ℤ) : ZMod p))) := by
  have hd : ∀ z : List Int, z.length = P.N → decodeTo P vOut z = .ok (decoded p P z) :=
    fun z hz => decodeTo_spec P vOut z hO (by rw [hz, h.deg])
  refine ⟨_, hd f hf, ?_⟩
  rw [hd k hk]
  congr 1
  apply decoded_eq h k _ hk (by simp [decoded])
  rw [decHom_congr h hmul, map_mul, decHom_listPoly f (by rw [hf, h.deg]), listPoly_smul, map_mul]
  congr 1
  rw [Polynomial.comp, Polynomial.hom_eval₂, decHom_X_slots]
  have e : ((c.eval (P.ecd.base : ℤ) : ℤ) : ZMod p) =
      (c.map (Int.castRingHom (ZMod p))).eval (P.ecd.base : ZMod p) := by
    rw [Polynomial.eval_map, show (P.ecd.base : ZMod p) = Int.castRingHom (ZMod p) (P.ecd.base : ℤ) by
      simp, Polynomial.eval₂_hom]
    simp
  rw [e, Polynomial.eval_map]
  have h3 := Polynomial.hom_eval₂ c (Int.castRingHom (ZMod p))
    ((AdjoinRoot.mk (decMod p P)).comp C) (P.ecd.base : ZMod p)
  rw [RingHom.comp_apply, RingHom.comp_apply] at h3
  rw [h3]
  congr 1
  exact RingHom.ext_int _ _

/-- The field of order `17 = 2^4 + 1`, two slots, ring degree 8. -/
def encP17 : EncParams := ⟨⟨2, 4⟩, 2, 8, 1⟩

theorem encP17_good : encP17.Good 17 :=
  ⟨by decide, by decide, by decide, by decide, by decide, by decide, by decide⟩

/-- The element `16 = 2^4` has the digits `0, 0, 0, 2`; `5` has `1, 0, 1, 0`. -/
example : baseEncode (p := 17) encP17 (List.replicate 8 0) [16, 5] = .ok [0, 1, 0, 0, 0, 1, 2, 0] := by
  decide +kernel

example : decodeTo (p := 17) encP17 [0, 0] [0, 1, 0, 0, 0, 1, 2, 0] = .ok [16, 5] := by
  decide +kernel

example := C54_roundtrip encP17 encP17_good [97, 193] chain_97_193 (by decide) [16, 5] (by decide)
  (List.replicate 8 0) rfl [0, 0] rfl

/-- The sample `1 - X` in that ring: `(X^2 - 2)(1 - X) = -2 + 2 X + X^2 - X^3`. -/
example := C55_decode encP17 encP17_good [97, 193] chain_97_193 [16, 5] (by decide)
  (List.replicate 8 0) [0, 1, 0, 0, 0, 1, 2, 0] rfl (by decide +kernel)
  [1, -1, 0, 0, 0, 0, 0, 0] rfl [-2, 3, 1, -1, 0, 1, 2, 0] rfl
  (by
    refine ⟨0, ?_⟩
    simp only [listPoly, encP17, sum_range_succ, List.length_cons, List.length_nil,
      List.map_cons, List.map_nil]
    simp
    ring)
  (by decide) [0, 0] rfl

end Ringo
