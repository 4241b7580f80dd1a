import Verif.Spec.JExtract
import Verif.Proof.JSound

/-!
# Lemmas for C99
-/

namespace Ringo

open Finset Polynomial

/-! ## Sparse elements of `ℤ[X]/(X^N + 1)` -/

theorem toZ_sparse (slots e : Nat) (hs : 1 ≤ slots) (g : Nat → Int) :
    toZ (slots * e) (sparse slots e g) =
      ∑ i ∈ range e, (g i : RZ (slots * e)) * (AdjoinRoot.root (cyclo ℤ (slots * e)) ^ slots) ^ i := by
  unfold sparse
  rw [toZ_range, sum_slots]
  obtain ⟨m, rfl⟩ : ∃ m, slots = m + 1 := ⟨slots - 1, by omega⟩
  rw [sum_range_succ', sum_eq_zero, zero_add]
  · apply sum_congr rfl
    intro j _
    simp only [add_zero, Nat.mul_mod_left, if_true, Nat.mul_div_cancel _ hs]
    rw [← pow_mul, Nat.mul_comm (m + 1) j]
  · intro i hi
    apply sum_eq_zero
    intro j _
    have hi := mem_range.1 hi
    have : (j * (m + 1) + (i + 1)) % (m + 1) ≠ 0 := by
      rw [Nat.mul_comm, Nat.mul_add_mod, Nat.mod_eq_of_lt (by omega)]
      omega
    simp only [if_neg this, Int.cast_zero, zero_mul]

/-- A product with a sparse element: every coefficient is a signed sum of `e` products. -/
theorem Bnd.sparse_mul {slots e N : Nat} (hs : 1 ≤ slots) (hN : N = slots * e) (g : Nat → Int) {C B : Nat}
    (hg : ∀ i < e, (g i).natAbs ≤ C) {r : RZ N} (h : Bnd N r B) :
    Bnd N (toZ N (sparse slots e g) * r) (e * (C * B)) := by
  subst hN
  rw [toZ_sparse slots e hs, sum_mul]
  apply Bnd.sum
  intro i hi
  rw [mul_assoc, ← pow_mul]
  exact ((h.shifts _).smul (g i)).mono (Nat.mul_le_mul_right _ (hg i hi))

theorem Bnd.sub {N : Nat} {r s : RZ N} {B C : Nat} (h : Bnd N r B) (h' : Bnd N s C) : Bnd N (r - s) (B + C) := by
  rw [sub_eq_add_neg]
  exact h.add h'.neg

/-- What is smaller than `Q` and zero modulo `Q` is zero. -/
theorem Bnd.eq_zero {qs : List Nat} (hc : Chain qs) {N : Nat} (hN : 1 ≤ N) {r : RZ N} {B : Nat} (h : Bnd N r B)
    (hB : B < qs.prod) (h0 : redR qs N r = 0) : r = 0 := by
  obtain ⟨z, h1, rfl, h3⟩ := h
  rw [redR_toZ] at h0
  have hz : toZ N ((List.range N).map fun _ => (0 : Int)) = 0 := by
    rw [toZ_range]; simp
  have h4 := toR_inj hc hN h1 (by simp) (h0.trans (by rw [← redR_toZ, hz, map_zero]) :
    toR qs N z = toR qs N ((List.range N).map fun _ => (0 : Int)))
  have h5 : z = (List.range N).map fun _ => (0 : Int) := by
    have hw : ∀ c ∈ (List.range N).map (fun _ => (0 : Int)), c = 0 := by
      intro c hc
      obtain ⟨i, -, rfl⟩ := List.mem_map.1 hc
      rfl
    generalize (List.range N).map (fun _ => (0 : Int)) = w at h4 hw ⊢
    clear h0 h1 hz
    induction h4 with
    | nil => rfl
    | cons h6 _ ih =>
      rw [ih (fun c hc => h3 c (by simp [hc])) (fun c hc => hw c (by simp [hc]))]
      congr 1
      have hb := hw _ List.mem_cons_self
      rw [hb, sub_zero] at h6
      rw [hb]
      apply Int.eq_zero_of_abs_lt_dvd h6
      rw [Int.abs_eq_natAbs]
      exact_mod_cast (h3 _ List.mem_cons_self).trans_lt hB
  rw [h5, hz]

/-! ## Differences -/

/-- The differences of coefficients. -/
def subL (N : Nat) (a b : List Int) : List Int := (List.range N).map fun i => a.getD i 0 - b.getD i 0

theorem subL_length (N : Nat) (a b : List Int) : (subL N a b).length = N := by simp [subL]

theorem toZ_subL {N : Nat} {a b : List Int} (ha : a.length = N) (hb : b.length = N) :
    toZ N (subL N a b) = toZ N a - toZ N b := by
  conv_rhs => rw [coeffs_eq_range ha, coeffs_eq_range hb]
  unfold subL
  rw [toZ_range, toZ_range, toZ_range, ← sum_sub_distrib]
  apply sum_congr rfl
  intro i _
  push_cast
  ring

theorem toR_subL {qs : List Nat} {N : Nat} {a b : List Int} (ha : a.length = N) (hb : b.length = N) :
    toR qs N (subL N a b) = toR qs N a - toR qs N b := by
  rw [← redR_toZ, toZ_subL ha hb, map_sub, redR_toZ, redR_toZ]

theorem Short.getD {N B : Nat} {z : List Int} (h : Short N B z) (i : Nat) : (z.getD i 0).natAbs ≤ B := by
  by_cases hi : i < z.length
  · rw [List.getD_eq_getElem _ _ hi]; exact h.2 _ (List.getElem_mem hi)
  · rw [List.getD_eq_default _ _ (by omega)]; simp

theorem Short.sub {N B : Nat} {a b : List Int} (ha : Short N B a) (hb : Short N B b) : Short N (2 * B) (subL N a b) := by
  refine ⟨subL_length N a b, ?_⟩
  intro c hc
  obtain ⟨i, -, rfl⟩ := List.mem_map.1 hc
  have := Int.natAbs_sub_le (a.getD i 0) (b.getD i 0)
  have := ha.getD i
  have := hb.getD i
  omega

theorem Short.bnd {N B : Nat} {z : List Int} (h : Short N B z) : Bnd N (toZ N z) B := Bnd.of_list h.1 h.2

theorem eq_of_subL {N : Nat} {a b : List Int} (ha : a.length = N) (hb : b.length = N)
    (h : ∀ c ∈ subL N a b, c = 0) : a = b := by
  apply List.ext_getElem (by omega)
  intro i h1 h2
  have := h (a.getD i 0 - b.getD i 0) (List.mem_map.2 ⟨i, List.mem_range.2 (by omega), rfl⟩)
  rw [List.getD_eq_getElem _ _ h1, List.getD_eq_getElem _ _ h2] at this
  omega

/-! ## Challenges -/

/-- The digits of a challenge. -/
def chalDigit (P : EncParams) (bytes : List (BitVec 8)) (i : Nat) : Int :=
  centred (challengeBound P.ecd) (chalNum bytes / challengeBound P.ecd ^ i % challengeBound P.ecd)

theorem chalDigit_range {P : EncParams} (h : 1 ≤ challengeBound P.ecd) (b b' : List (BitVec 8)) (i : Nat) :
    (chalDigit P b i - chalDigit P b' i).natAbs ≤ challengeBound P.ecd - 1 := by
  unfold chalDigit
  have h1 := centred_range (Nat.mod_lt (chalNum b / challengeBound P.ecd ^ i) h)
  have h2 := centred_range (Nat.mod_lt (chalNum b' / challengeBound P.ecd ^ i) h)
  omega

theorem chalInt_digits (P : EncParams) {p : Nat} (h : P.Good p) (b : List (BitVec 8)) :
    chalInt P b = sparse P.slots P.ecd.exp (chalDigit P b) := chalInt_sparse P h b

theorem sparse_sub (slots e : Nat) (f g : Nat → Int) :
    subL (slots * e) (sparse slots e f) (sparse slots e g) = sparse slots e fun i => f i - g i := by
  unfold subL
  apply List.map_congr_left
  intro t ht
  have ht := List.mem_range.1 ht
  unfold sparse
  rw [getD_map_range _ _ _ _ ht, getD_map_range _ _ _ _ ht]
  split <;> simp

/-- Digits below the base in absolute value are determined by the number. -/
theorem digits_zero (b : Nat) (e : Nat) (d : Nat → Int) (hd : ∀ i < e, (d i).natAbs < b)
    (h : ∑ i ∈ range e, d i * (b : Int) ^ i = 0) : ∀ i < e, d i = 0 := by
  induction e generalizing d with
  | zero => intro i hi; omega
  | succ e ih =>
    rw [sum_range_succ'] at h
    have h1 : ∑ i ∈ range e, d (i + 1) * (b : Int) ^ (i + 1) = b * ∑ i ∈ range e, d (i + 1) * (b : Int) ^ i := by
      rw [mul_sum]
      apply sum_congr rfl
      intro i _
      rw [pow_succ]; ring
    rw [h1] at h
    have h0 : d 0 = 0 := by
      apply Int.eq_zero_of_abs_lt_dvd (m := b) (x := d 0)
      · exact ⟨-∑ i ∈ range e, d (i + 1) * (b : Int) ^ i, by linear_combination h⟩
      · have := hd 0 (by omega)
        rw [Int.abs_eq_natAbs]; exact_mod_cast this
    have hb : (b : Int) ≠ 0 := by
      have := hd 0 (by omega)
      omega
    rw [h0] at h
    have h2 : ∑ i ∈ range e, d (i + 1) * (b : Int) ^ i = 0 := by
      rcases mul_eq_zero.1 (by simpa using h : (b : Int) * ∑ i ∈ range e, d (i + 1) * (b : Int) ^ i = 0) with h3 | h3
      · exact absurd h3 hb
      · exact h3
    have := ih (fun i => d (i + 1)) (fun i hi => hd (i + 1) (by omega)) h2
    intro i hi
    rcases i with _ | i
    · exact h0
    · exact this i (by omega)

theorem digits_lt (b : Nat) (hb : 1 ≤ b) (e : Nat) (d : Nat → Int) (hd : ∀ i < e, (d i).natAbs < b) :
    |∑ i ∈ range e, d i * (b : Int) ^ i| < (b : Int) ^ e := by
  induction e with
  | zero => simp
  | succ e ih =>
    rw [sum_range_succ]
    have h1 := ih fun i hi => hd i (by omega)
    have h2 := hd e (by omega)
    have h3 : |d e| ≤ (b : Int) - 1 := by rw [Int.abs_eq_natAbs]; omega
    have hp : (0 : Int) < (b : Int) ^ e := by positivity
    refine lt_of_le_of_lt (abs_add_le _ _) ?_
    rw [abs_mul, abs_of_pos hp, pow_succ]
    have := mul_le_mul_of_nonneg_right h3 hp.le
    linarith

/-- Different challenges are different numbers modulo `p`. -/
theorem chal_ne {p : Nat} {P : EncParams} (h : P.Good p) (hc : 1 ≤ challengeBound P.ecd) (b b' : List (BitVec 8))
    (hne : chalInt P b ≠ chalInt P b') :
    (∑ i ∈ range P.ecd.exp, ((chalDigit P b i - chalDigit P b' i : Int) : ZMod p) * (P.ecd.base : ZMod p) ^ i) ≠ 0 := by
  intro h0
  apply hne
  have hb : challengeBound P.ecd ≤ P.ecd.base := by
    unfold challengeBound
    omega
  have hd : ∀ i < P.ecd.exp, (chalDigit P b i - chalDigit P b' i).natAbs < P.ecd.base := by
    intro i _
    have := chalDigit_range hc b b' i
    omega
  have h1 : ((∑ i ∈ range P.ecd.exp, (chalDigit P b i - chalDigit P b' i) * (P.ecd.base : Int) ^ i : Int) : ZMod p) = 0 := by
    rw [← h0]; push_cast; rfl
  rw [ZMod.intCast_zmod_eq_zero_iff_dvd] at h1
  have h2 := digits_lt P.ecd.base h.base_pos P.ecd.exp _ hd
  have h3 : ∑ i ∈ range P.ecd.exp, (chalDigit P b i - chalDigit P b' i) * (P.ecd.base : Int) ^ i = 0 := by
    apply Int.eq_zero_of_abs_lt_dvd h1
    rw [h.mod]; push_cast; omega
  have h4 := digits_zero P.ecd.base P.ecd.exp _ hd h3
  rw [chalInt_digits P h, chalInt_digits P h]
  unfold sparse
  apply List.map_congr_left
  intro t ht
  have ht := List.mem_range.1 ht
  split
  · have := h4 (t / P.slots) (Nat.div_lt_of_lt_mul ht)
    omega
  · rfl

/-! ## Decoding -/

section

variable {p : Nat} {P : EncParams}

theorem decZ_sparse (h : P.Good p) (g : Nat → Int) :
    decZ h (toZ P.N (sparse P.slots P.ecd.exp g)) = AdjoinRoot.mk (decMod p P)
      (C (∑ i ∈ range P.ecd.exp, (g i : ZMod p) * (P.ecd.base : ZMod p) ^ i)) := by
  have h1 : toZ P.N (sparse P.slots P.ecd.exp g) =
      ∑ i ∈ range P.ecd.exp, (g i : RZ P.N) * (AdjoinRoot.root (cyclo ℤ P.N) ^ P.slots) ^ i := by
    have : ∀ N, N = P.slots * P.ecd.exp → toZ N (sparse P.slots P.ecd.exp g) =
        ∑ i ∈ range P.ecd.exp, (g i : RZ N) * (AdjoinRoot.root (cyclo ℤ N) ^ P.slots) ^ i := by
      rintro N rfl
      exact toZ_sparse _ _ h.slots_pos g
    exact this _ h.deg
  rw [h1, map_sum, map_sum C, map_sum]
  apply sum_congr rfl
  intro i _
  rw [map_mul, map_pow, map_pow, map_intCast, ← AdjoinRoot.mk_X, decZ_mk, ← map_pow, decHom_X_slots]
  simp

theorem decZ_toZ' (h : P.Good p) (z : List Int) (hz : z.length = P.N) :
    decZ h (toZ P.N z) = AdjoinRoot.mk (decMod p P)
      (∑ s ∈ range P.slots, C ((decoded p P z).getD s 0) * X ^ s) := by
  rw [decZ_toZ h z hz]
  unfold listPoly
  rw [decoded_length]

theorem decZ_enc (h : P.Good p) (v : ZMod p) :
    decZ h (toZ P.N (encInt P [v])) = AdjoinRoot.mk (decMod p P) (C v) := by
  rw [decZ_toZ' h _ (encInt_length _ _), decoded_encInt h [v] (by simpa using h.slots_pos)]
  obtain ⟨m, hm⟩ : ∃ m, P.slots = m + 1 := ⟨P.slots - 1, by have := h.slots_pos; omega⟩
  rw [hm, sum_range_succ', sum_eq_zero]
  · simp
  · intro s _
    have : ([v] ++ List.replicate (m + 1 - [v].length) (0 : ZMod p)).getD (s + 1) 0 = 0 := by
      rw [List.singleton_append, List.getD_cons_succ, List.getD_eq_getElem?_getD, List.getElem?_replicate]
      split <;> rfl
    rw [this]; simp

theorem mk_inj (h : P.Good p) (a b : Nat → ZMod p)
    (he : AdjoinRoot.mk (decMod p P) (∑ s ∈ range P.slots, C (a s) * X ^ s) =
      AdjoinRoot.mk (decMod p P) (∑ s ∈ range P.slots, C (b s) * X ^ s)) : ∀ s < P.slots, a s = b s := by
  have := Good_nontrivial h
  rw [← listPoly_range, ← listPoly_range] at he
  have h1 := listPoly_mk_inj (decMod_monic h) (n := P.slots) natDegree_X_pow_sub_C (by simp) (by simp) he
  intro s hs
  have h2 := congrArg (fun l => l.getD s 0) h1
  rwa [getD_map_range _ _ _ _ hs, getD_map_range _ _ _ _ hs] at h2

/-- The difference of two challenges as a number modulo `p`. -/
noncomputable def chalDiff (p : Nat) (P : EncParams) (b b' : List (BitVec 8)) : ZMod p :=
  ∑ i ∈ range P.ecd.exp, ((chalDigit P b i - chalDigit P b' i : Int) : ZMod p) * (P.ecd.base : ZMod p) ^ i

theorem chal_sub (h : P.Good p) {N : Nat} (hN : N = P.N) (b b' : List (BitVec 8)) :
    toZ N (chalInt P b) - toZ N (chalInt P b') =
      toZ N (sparse P.slots P.ecd.exp fun i => chalDigit P b i - chalDigit P b' i) := by
  subst hN
  rw [← toZ_subL (chalInt_length P b) (chalInt_length P b'), chalInt_digits P h, chalInt_digits P h, h.deg, sparse_sub]

theorem decZ_chal (h : P.Good p) (b b' : List (BitVec 8)) :
    decZ h (toZ P.N (chalInt P b) - toZ P.N (chalInt P b')) = AdjoinRoot.mk (decMod p P) (C (chalDiff p P b b')) := by
  rw [chal_sub h rfl, decZ_sparse]
  rfl

/-- A product with a difference of challenges. -/
theorem Bnd.chal_mul (h : P.Good p) (hc : 1 ≤ challengeBound P.ecd) {N : Nat} (hN : N = P.N) (b b' : List (BitVec 8))
    {B : Nat} {r : RZ N} (hr : Bnd N r B) :
    Bnd N ((toZ N (chalInt P b) - toZ N (chalInt P b')) * r) (P.ecd.exp * (challengeBound P.ecd * B)) := by
  rw [chal_sub h hN]
  refine Bnd.sparse_mul h.slots_pos (hN.trans h.deg) _ (fun i _ => ?_) hr
  have := chalDigit_range hc b b' i
  omega

theorem encInt_sparse (h : P.Good p) (v : ZMod p) :
    encInt P [v] = sparse P.slots P.ecd.exp fun i => (ecdDigit P.ecd.base P.ecd.exp v.val i : Int) := by
  unfold encInt sparse
  rw [h.deg]
  apply List.map_congr_left
  intro t ht
  split
  · next h0 => rw [h0]; rfl
  · next h0 =>
    rw [List.getD_eq_default [v] _ (by simp; omega)]
    have := h.neZero
    rw [ZMod.val_zero]
    simp [ecdDigit]

/-- A product with an encoded number. -/
theorem Bnd.enc_mul (h : P.Good p) {N : Nat} (hN : N = P.N) (v : ZMod p) {B : Nat} {r : RZ N} (hr : Bnd N r B) :
    Bnd N (toZ N (encInt P [v]) * r) (P.ecd.exp * (P.ecd.base * B)) := by
  rw [encInt_sparse h]
  refine Bnd.sparse_mul h.slots_pos (hN.trans h.deg) _ (fun i _ => ?_) hr
  simpa using ecdDigit_le h v i

theorem decode_cross (h : P.Good p) {N : Nat} (hN : N = P.N) (b₁ b₁' b₂ b₂' : List (BitVec 8)) {e₁ e₂ : List Int}
    (h₁ : e₁.length = N) (h₂ : e₂.length = N)
    (he : (toZ N (chalInt P b₂) - toZ N (chalInt P b₂')) * toZ N e₁ =
      (toZ N (chalInt P b₁) - toZ N (chalInt P b₁')) * toZ N e₂) :
    ∀ s < P.slots, chalDiff p P b₂ b₂' * (decoded p P e₁).getD s 0 = chalDiff p P b₁ b₁' * (decoded p P e₂).getD s 0 := by
  subst hN
  have h3 := congrArg (decZ h) he
  rw [map_mul, map_mul, decZ_chal, decZ_chal, decZ_toZ' h _ h₁, decZ_toZ' h _ h₂, ← map_mul, ← map_mul, mul_sum,
    mul_sum] at h3
  simp only [← mul_assoc, ← C_mul] at h3
  exact mk_inj h _ _ h3

theorem decode_comb (h : P.Good p) {N : Nat} (hN : N = P.N) (b b' : List (BitVec 8)) {f : List Int} (hf : f.length = N)
    (n : Nat) (l : Nat → ZMod p) (e : Nat → List Int) (hl : ∀ k < n, (e k).length = N)
    (he : (toZ N (chalInt P b) - toZ N (chalInt P b')) * toZ N f =
      ∑ k ∈ range n, toZ N (encInt P [l k]) * toZ N (e k)) :
    ∀ s < P.slots, chalDiff p P b b' * (decoded p P f).getD s 0 = ∑ k ∈ range n, l k * (decoded p P (e k)).getD s 0 := by
  subst hN
  have h3 := congrArg (decZ h) he
  rw [map_mul, decZ_chal, decZ_toZ' h _ hf, ← map_mul, mul_sum, map_sum (decZ h)] at h3
  simp only [← mul_assoc, ← C_mul] at h3
  have h4 : ∑ k ∈ range n, decZ h (toZ P.N (encInt P [l k]) * toZ P.N (e k)) = AdjoinRoot.mk (decMod p P)
      (∑ s ∈ range P.slots, C (∑ k ∈ range n, l k * (decoded p P (e k)).getD s 0) * X ^ s) := by
    have h5 : ∀ k ∈ range n, decZ h (toZ P.N (encInt P [l k]) * toZ P.N (e k)) = AdjoinRoot.mk (decMod p P)
        (∑ s ∈ range P.slots, C (l k * (decoded p P (e k)).getD s 0) * X ^ s) := by
      intro k hk
      rw [map_mul, decZ_enc, decZ_toZ' h _ (hl k (mem_range.1 hk)), ← map_mul, mul_sum]
      simp only [← mul_assoc, ← C_mul]
    rw [sum_congr rfl h5, ← map_sum, sum_comm]
    congr 1
    apply sum_congr rfl
    intro s _
    rw [map_sum C, sum_mul]
  rw [h4] at h3
  exact mk_inj h _ _ h3

end

end Ringo
