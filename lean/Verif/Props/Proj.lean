import Verif.Props.Norm2
import Mathlib.Data.Set.Card
import Mathlib.Data.Fintype.Pi
import Mathlib.Data.Fintype.BigOperators
import Mathlib.Data.ZMod.ValMinAbs
import Mathlib.SetTheory.Cardinal.Finite
import Mathlib.Data.FinEnum
import Mathlib.Data.List.GetD

/-!
# C82, C83: the random projection

`prover.go` and `verifier.go` draw a matrix of 128 rows of bits from an extendable-output function.  C82: all
matrices are equally likely, if the output of that function is uniform.  C83: a vector with one large entry has a
large projection on all but a `2^-128` part of the outputs.
-/

namespace Ringo

open Finset

/-- The output of the extendable-output function that starts with the bytes `s`. -/
def streamOf {N : Nat} (s : Fin (32 * N) → UInt8) : Bytes → Nat → UInt8 :=
  fun _ k => if h : k < 32 * N then s ⟨k, h⟩ else 0

/-- Entry `(i, j)` of the matrix drawn from the stream. -/
def projBit {N : Nat} (s : Fin (32 * N) → UInt8) (i : Fin 128) (j : Fin N) : Bool :=
  ((projMatrix (streamOf s) [] N).getD i []).getD j false

theorem uint8_bit (x : UInt8) {t : Nat} (ht : t < 8) :
    ((x >>> UInt8.ofNat t) &&& 1 == 0) = !x.toNat.testBit t := by
  have h1 : ((x >>> UInt8.ofNat t) &&& 1).toNat = x.toNat >>> t % 2 := by
    rw [UInt8.toNat_and, UInt8.toNat_shiftRight, UInt8.toNat_ofNat', show (1 : UInt8).toNat = 1 from rfl,
      Nat.and_one_is_mod]
    rw [show t % 2 ^ 8 % 8 = t by omega]
  have h2 : x.toNat.testBit t = decide (x.toNat >>> t % 2 = 1) := by
    rw [Nat.testBit_eq_decide_div_mod_eq, Nat.shiftRight_eq_div_pow]
  rw [h2, ← h1]
  have h3 : ((x >>> UInt8.ofNat t) &&& 1).toNat < 2 := by rw [h1]; omega
  generalize (x >>> UInt8.ofNat t) &&& 1 = y at *
  by_cases h0 : y = 0
  · subst h0; rfl
  · have : y.toNat ≠ 0 := fun h => h0 (UInt8.toNat_inj.1 h)
    have h4 : y.toNat = 1 := by omega
    simp [h0, h4]

theorem projBit_eq {N : Nat} (s : Fin (32 * N) → UInt8) (i : Fin 128) (j : Fin N) :
    projBit s i j = !(s ⟨32 * j + i / 8, by omega⟩).toNat.testBit (i % 8) := by
  have hi := i.2
  have hj := j.2
  unfold projBit projMatrix
  rw [List.getD_eq_getElem (l := List.map _ (List.range 128)) (d := []) (n := i.val) (hn := by simp),
    List.getElem_map, List.getElem_range,
    List.getD_eq_getElem (l := List.map _ (List.range N)) (d := false) (n := j.val) (hn := by simp),
    List.getElem_map, List.getElem_range, uint8_bit _ (by omega)]
  unfold streamOf
  rw [dif_pos (by omega)]

/-- The byte whose bits are given. -/
def byteOf (f : Nat → Bool) : UInt8 :=
  UInt8.ofNat (∑ t ∈ range 8, if f t then 2 ^ t else 0)

theorem byte_bits : ∀ b0 b1 b2 b3 b4 b5 b6 b7 : Bool, ∀ t : Fin 8,
    ((0 + (if b0 then 2 ^ 0 else 0) + (if b1 then 2 ^ 1 else 0) + (if b2 then 2 ^ 2 else 0) +
      (if b3 then 2 ^ 3 else 0) + (if b4 then 2 ^ 4 else 0) + (if b5 then 2 ^ 5 else 0) +
      (if b6 then 2 ^ 6 else 0) + (if b7 then 2 ^ 7 else 0) : Nat)).testBit t =
      [b0, b1, b2, b3, b4, b5, b6, b7].getD t false := by decide +kernel

theorem byteOf_bit (f : Nat → Bool) {t : Nat} (ht : t < 8) : (byteOf f).toNat.testBit t = f t := by
  have h : (byteOf f).toNat = ∑ t ∈ range 8, if f t then 2 ^ t else 0 := by
    rw [byteOf, UInt8.toNat_ofNat']
    apply Nat.mod_eq_of_lt
    calc ∑ t ∈ range 8, (if f t then 2 ^ t else 0) ≤ ∑ t ∈ range 8, 2 ^ t :=
          sum_le_sum fun t _ => by split <;> simp
      _ < 2 ^ 8 := by decide
  rw [h]
  simp only [sum_range_succ, sum_range_zero]
  have := byte_bits (f 0) (f 1) (f 2) (f 3) (f 4) (f 5) (f 6) (f 7) ⟨t, ht⟩
  rw [this]
  rcases t with _ | _ | _ | _ | _ | _ | _ | _ | t <;> first | rfl | omega

theorem uint8_xor_bit (x y : UInt8) (t : Nat) : (x ^^^ y).toNat.testBit t = (x.toNat.testBit t ^^ y.toNat.testBit t) := by
  rw [UInt8.toNat_xor, Nat.testBit_xor]

/-- The stream whose bits at the places of the matrix are those of `D`. -/
def maskStream {N : Nat} (D : Fin 128 → Fin N → Bool) : Fin (32 * N) → UInt8 := fun k =>
  byteOf fun t => if h : 8 * (k.val % 32) + t < 128 then D ⟨8 * (k.val % 32) + t, h⟩ ⟨k.val / 32, by omega⟩ else false

theorem projBit_xor {N : Nat} (s : Fin (32 * N) → UInt8) (D : Fin 128 → Fin N → Bool) (i : Fin 128) (j : Fin N) :
    projBit (fun k => s k ^^^ maskStream D k) i j = (projBit s i j ^^ D i j) := by
  have hi := i.2
  have hj := j.2
  rw [projBit_eq, projBit_eq, uint8_xor_bit]
  have : (maskStream D ⟨32 * j + i / 8, by omega⟩).toNat.testBit (i % 8) = D i j := by
    unfold maskStream
    rw [byteOf_bit _ (by omega), dif_pos (by simp only; omega)]
    congr 1
    · congr 1; simp only; omega
    · apply Fin.ext; simp only; omega
  rw [this]
  cases (s ⟨32 * j + i / 8, by omega⟩).toNat.testBit (i % 8) <;> cases D i j <;> rfl

theorem maskStream_invol {N : Nat} (s : Fin (32 * N) → UInt8) (D : Fin 128 → Fin N → Bool) :
    (fun k => (s k ^^^ maskStream D k) ^^^ maskStream D k) = s := by
  funext k
  rw [UInt8.xor_assoc, UInt8.xor_self, UInt8.xor_zero]

theorem card_uint8 : Fintype.card UInt8 = 256 := by decide +kernel

/-- The streams that give the matrix `M`. -/
def fibre {N : Nat} (M : Fin 128 → Fin N → Bool) : Finset (Fin (32 * N) → UInt8) :=
  univ.filter fun s => projBit s = M

theorem fibre_le {N : Nat} (M M' : Fin 128 → Fin N → Bool) : (fibre M).card ≤ (fibre M').card := by
  apply card_le_card_of_injOn (fun s k => s k ^^^ maskStream (fun i j => M i j ^^ M' i j) k)
  · intro s hs
    have hs : projBit s = M := by simpa [fibre] using hs
    have : projBit (fun k => s k ^^^ maskStream (fun i j => M i j ^^ M' i j) k) = M' := by
      funext i j
      rw [projBit_xor, hs]
      cases M i j <;> cases M' i j <;> rfl
    simpa [fibre] using this
  · intro s _ s' _ h
    have h := congrArg (fun f : Fin (32 * N) → UInt8 => fun k => f k ^^^ maskStream (fun i j => M i j ^^ M' i j) k) h
    simp only at h
    rwa [maskStream_invol, maskStream_invol] at h

theorem card_fibre {N : Nat} (M : Fin 128 → Fin N → Bool) : (fibre M).card = 2 ^ (128 * N) := by
  have h1 : (univ : Finset (Fin (32 * N) → UInt8)).card = 2 ^ (256 * N) := by
    rw [card_univ, Fintype.card_fun, card_uint8, Fintype.card_fin, show 256 = 2 ^ 8 from rfl, ← pow_mul]
    congr 1; omega
  have h2 : Fintype.card (Fin 128 → Fin N → Bool) = 2 ^ (128 * N) := by
    rw [Fintype.card_fun, Fintype.card_fun, Fintype.card_bool, Fintype.card_fin, Fintype.card_fin, ← pow_mul,
      Nat.mul_comm]
  have h3 := card_eq_sum_card_fiberwise (s := (univ : Finset (Fin (32 * N) → UInt8)))
    (t := (univ : Finset (Fin 128 → Fin N → Bool))) (f := projBit) (fun _ _ => by simp)
  have h4 : ∀ M' : Fin 128 → Fin N → Bool, (univ.filter fun s : Fin (32 * N) → UInt8 => projBit s = M').card
      = (fibre M).card := fun M' => le_antisymm (fibre_le M' M) (fibre_le M M')
  rw [sum_congr rfl (fun M' _ => h4 M'), sum_const, h1, card_univ, h2, smul_eq_mul,
    show 256 * N = 128 * N + 128 * N by omega, pow_add] at h3
  exact (Nat.eq_of_mul_eq_mul_left (by positivity) h3).symm

/-- **C82** All matrices of 128 rows arise from equally many outputs of the extendable-output function: from
`2^(128 N)` of the `2^(256 N)` strings of `32 N` bytes.  So with uniform output all entries are independent fair
bits. -/
theorem C82 {N : Nat} (M : Fin 128 → Fin N → Bool) :
    {s : Fin (32 * N) → UInt8 | ∀ i j, ((projMatrix (streamOf s) [] N).getD i.val []).getD j.val false = M i j}.ncard
      = 2 ^ (128 * N) ∧
    (Set.univ : Set (Fin (32 * N) → UInt8)).ncard = 2 ^ (256 * N) := by
  constructor
  · rw [← card_fibre M, ← Set.ncard_coe_finset]
    congr 1
    ext s
    simp only [fibre, coe_filter, mem_univ, true_and]
    exact ⟨fun h => funext fun i => funext fun j => h i j, fun h i j => congrFun (congrFun h i) j⟩
  · rw [Set.ncard_univ, Nat.card_eq_fintype_card, Fintype.card_fun, card_uint8, Fintype.card_fin,
      show 256 = 2 ^ 8 from rfl, ← pow_mul]
    congr 1; omega

/-! ## C83 -/

section
variable {p : Nat} [Fact p.Prime]

/-- The projection of `v` by one row. -/
def rowProj {N : Nat} (v : Fin N → ZMod p) (r : Fin N → Bool) : ZMod p := ∑ k, if r k then v k else 0

theorem rowProj_flip {N : Nat} (v : Fin N → ZMod p) (r : Fin N → Bool) (j : Fin N) :
    rowProj v (Function.update r j (!r j)) - rowProj v r = if r j then -v j else v j := by
  unfold rowProj
  rw [← sum_sub_distrib, sum_eq_single j]
  · rw [Function.update_self]; cases r j <;> simp
  · intro k _ hk
    rw [Function.update_of_ne hk, sub_self]
  · simp

/-- The rows that keep the projection of `v` below `T`. -/
def smallRows {N : Nat} (v : Fin N → ZMod p) (T : Nat) : Finset (Fin N → Bool) :=
  univ.filter fun r => (rowProj v r).valMinAbs.natAbs ≤ T

theorem natAbs_sub_le (a b : ZMod p) :
    (a - b).valMinAbs.natAbs ≤ a.valMinAbs.natAbs + b.valMinAbs.natAbs := by
  have := ZMod.natAbs_valMinAbs_add_le a (-b)
  rw [← sub_eq_add_neg] at this
  refine this.trans ((Int.natAbs_add_le _ _).trans ?_)
  rw [ZMod.natAbs_valMinAbs_neg]

theorem card_smallRows {N : Nat} (v : Fin N → ZMod p) (T : Nat) (j : Fin N)
    (hj : 2 * T < (v j).valMinAbs.natAbs) : 2 * (smallRows v T).card ≤ 2 ^ N := by
  have h : (smallRows v T).card ≤ (smallRows v T)ᶜ.card := by
    apply card_le_card_of_injOn (fun r => Function.update r j (!r j))
    · intro r hr
      have hr : (rowProj v r).valMinAbs.natAbs ≤ T := by simpa [smallRows] using hr
      have : ¬ (rowProj v (Function.update r j (!r j))).valMinAbs.natAbs ≤ T := by
        intro h'
        have h1 := natAbs_sub_le (rowProj v (Function.update r j (!r j))) (rowProj v r)
        rw [rowProj_flip] at h1
        have h2 : (if r j then -v j else v j).valMinAbs.natAbs = (v j).valMinAbs.natAbs := by
          split
          · rw [ZMod.natAbs_valMinAbs_neg]
          · rfl
        rw [h2] at h1
        omega
      simpa [smallRows] using this
    · intro r _ r' _ h
      have hk : ∀ k, Function.update r j (!r j) k = Function.update r' j (!r' j) k := fun k => congrFun h k
      funext k
      by_cases e : k = j
      · subst e
        have := hk k
        rw [Function.update_self, Function.update_self] at this
        simpa using this
      · have := hk k
        rwa [Function.update_of_ne e, Function.update_of_ne e] at this
  have h2 := card_add_card_compl (smallRows v T)
  rw [Fintype.card_fun, Fintype.card_bool, Fintype.card_fin] at h2
  omega

theorem card_smallStreams {N : Nat} (v : Fin N → ZMod p) (T : Nat) (j : Fin N)
    (hj : 2 * T < (v j).valMinAbs.natAbs) :
    (univ.filter fun s : Fin (32 * N) → UInt8 => ∀ i, projBit s i ∈ smallRows v T).card * 2 ^ 128 ≤ 2 ^ (256 * N) := by
  have h1 := card_eq_sum_card_fiberwise
    (s := univ.filter fun s : Fin (32 * N) → UInt8 => ∀ i, projBit s i ∈ smallRows v T)
    (t := Fintype.piFinset fun _ : Fin 128 => smallRows v T) (f := projBit) (fun s hs => by
      simpa using hs)
  have h2 : ∀ M ∈ Fintype.piFinset fun _ : Fin 128 => smallRows v T,
      ((univ.filter fun s : Fin (32 * N) → UInt8 => ∀ i, projBit s i ∈ smallRows v T).filter
        fun s => projBit s = M).card = 2 ^ (128 * N) := by
    intro M hM
    rw [← card_fibre M]
    congr 1
    ext s
    simp only [fibre, mem_filter, mem_univ, true_and, and_iff_right_iff_imp]
    rintro rfl i
    exact Fintype.mem_piFinset.1 hM i
  rw [sum_congr rfl h2, sum_const, Fintype.card_piFinset, prod_const, card_univ, Fintype.card_fin,
    smul_eq_mul] at h1
  rw [h1, Nat.mul_right_comm, ← mul_pow, Nat.mul_comm _ 2]
  calc _ ≤ (2 ^ N) ^ 128 * 2 ^ (128 * N) :=
        Nat.mul_le_mul_right _ (Nat.pow_le_pow_left (card_smallRows v T j hj) _)
    _ = 2 ^ (256 * N) := by rw [← pow_mul, ← pow_add]; congr 1; omega

/-- **C83** Let one entry of `v` exceed `2 T` in absolute value.  Then the code's projection of `v` has all its
entries below `T` for at most a `2^-128` part of the outputs of the extendable-output function. -/
theorem C83 {N : Nat} (hN : 128 ≤ N) (v : List (ZMod p)) (hv : v.length = N) (T j : Nat) (hj : j < N)
    (hbig : (2 * T : Int) < |(v.getD j 0).valMinAbs|) :
    {s : Fin (32 * N) → UInt8 | ∃ w, (projChecker (projMatrix (streamOf s) [] N)).transformTo
        (List.replicate N 0) v = .ok w ∧ ∀ x ∈ w, |x.valMinAbs| ≤ T}.ncard * 2 ^ 128 ≤
      (Set.univ : Set (Fin (32 * N) → UInt8)).ncard := by
  rw [(C82 (N := N) fun _ _ => false).2]
  refine le_trans (Nat.mul_le_mul_right _ ?_)
    (card_smallStreams (fun k : Fin N => v.getD k.val 0) T ⟨j, hj⟩ ?_)
  · rw [← Set.ncard_coe_finset]
    refine Set.ncard_le_ncard ?_ (Set.toFinite _)
    rintro s ⟨w, hw, hs⟩
    obtain ⟨w', w1, w2, w3⟩ := (C33_projChecker (F := ZMod p) N hN (projMatrix (streamOf s) [] N)
      (projMatrix_good _ _ _).1 (projMatrix_good _ _ _).2).2 (List.replicate N 0) v (by simp) hv
    rw [hw] at w1; cases w1
    simp only [coe_filter, mem_univ, true_and]
    intro i
    have h3 := w3 i.val (by omega)
    rw [if_pos i.2] at h3
    have hm : w[i.val]? = some _ := h3
    have := hs _ (List.mem_of_getElem? hm)
    simp only [smallRows, mem_filter, mem_univ, true_and]
    have e : rowProj (fun k : Fin N => v.getD k.val 0) (projBit s i) =
        ∑ k ∈ range N, (if ((projMatrix (streamOf s) [] N).getD i.val []).getD k false then v.getD k 0 else 0) := by
      rw [← Fin.sum_univ_eq_sum_range (fun k => if ((projMatrix (streamOf s) [] N).getD i.val []).getD k false then v.getD k 0 else 0)]
      rfl
    rw [e]
    rw [Int.abs_eq_natAbs] at this
    exact_mod_cast this
  · rw [Int.abs_eq_natAbs] at hbig
    exact_mod_cast hbig

/-- **C83**, for the constraint: if an entry of the witness exceeds `2 * rank * B`, then for all but a `2^-128` part
of the outputs there are no digits -1, 0, 1 that meet the two linear relations of
`AddApproxInfNormConstraint(w, B)`.  (The code does not ask for such digits, see C45.) -/
theorem C83_norm (N B : Nat) (hB : 2 ≤ N * B) (hp : 2 * (N * B) < p) (h128 : 128 ≤ N)
    (hfit : ∀ base, decomposeBase (N * B) = .ok base → 128 * base.length ≤ N)
    (users : Nat → LinearChecker (ZMod p)) (wProj : Nat) (v : List (ZMod p)) (hv : v.length = N) (j : Nat) (hj : j < N)
    (hbig : (2 * (N * B : Nat) : Int) < |(v.getD j 0).valMinAbs|) :
    {s : Fin (32 * N) → UInt8 | ∃ L u d,
        resolve users (projMatrix (streamOf s) [] N) (.recomp wProj (N * B)) = .ok L ∧ d.length = N ∧
        (projChecker (projMatrix (streamOf s) [] N)).transformTo (List.replicate N 0) v = .ok u ∧
        L.transformTo (List.replicate N 0) d = .ok u ∧ ∀ x ∈ d, x = -1 ∨ x = 0 ∨ x = 1}.ncard * 2 ^ 128 ≤
      (Set.univ : Set (Fin (32 * N) → UInt8)).ncard := by
  refine le_trans (Nat.mul_le_mul_right _ (Set.ncard_le_ncard ?_ (Set.toFinite _))) (C83 h128 v hv (N * B) j hj hbig)
  rintro s ⟨L, u, d, hL, hd, h1, h2, h3⟩
  refine ⟨u, h1, fun x hx => ?_⟩
  obtain ⟨w', w1, w2, w3⟩ := (C33_projChecker (F := ZMod p) N h128 (projMatrix (streamOf s) [] N)
    (projMatrix_good _ _ _).1 (projMatrix_good _ _ _).2).2 (List.replicate N 0) v (by simp) hv
  have h1' := h1
  rw [h1] at w1; cases w1
  obtain ⟨i, hi⟩ := List.mem_iff_getElem?.1 hx
  have hiN : i < N := by
    rw [← w2]; exact (List.getElem?_eq_some_iff.1 hi).1
  rw [w3 i hiN] at hi
  have hi := Option.some.inj hi
  subst hi
  split_ifs with h
  · exact C45_partial N B hB hp h128 hfit _ (projMatrix_good _ _ _) users wProj L hL v u d hv hd h1' h2 h3 i h
  · simp; positivity

end

/-- For C83_norm: rank 2048, bound 1 modulo 12289, an entry 5000. -/
example : 2 * (2048 * 1) < 12289 ∧ (∀ base, decomposeBase (2048 * 1) = .ok base → 128 * base.length ≤ 2048) ∧
    (2 * (2048 * 1 : Nat) : Int) < |(((List.replicate 2048 (0 : ZMod 12289)).set 3 5000).getD 3 0).valMinAbs| := by
  refine ⟨by norm_num, fun base h => ?_, ?_⟩
  · rw [show 2048 * 1 = 2048 from rfl, base2048] at h; cases h; decide
  · have : ((List.replicate 2048 (0 : ZMod 12289)).set 3 5000).getD 3 0 = 5000 := by
      rw [List.getD_eq_getElem?_getD, List.getElem?_set_self (by rw [List.length_replicate]; norm_num)]; rfl
    rw [this]; decide +kernel

/-- For C83: a vector with the entry 5 at place 3, and the bound 2. -/
example : 128 ≤ 128 ∧ ((List.replicate 128 (0 : ZMod 97)).set 3 5).length = 128 ∧
    (2 * (2 : Nat) : Int) < |(((List.replicate 128 (0 : ZMod 97)).set 3 5).getD 3 0).valMinAbs| := by
  decide +kernel

end Ringo
