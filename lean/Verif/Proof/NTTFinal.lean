import Verif.Proof.NTTNew
import Verif.Spec.Poly
import Mathlib.Algebra.Polynomial.Degree.Lemmas
import Mathlib.LinearAlgebra.Lagrange
import Mathlib.RingTheory.RootsOfUnity.PrimitiveRoots
import Mathlib.Algebra.Polynomial.Div

/-!
# The transformers as a whole
-/

namespace Ringo

open Finset Polynomial

variable {F : Type}

theorem list_ext_getD {v w : List F} (d : F) (n : Nat) (hv : v.length = n) (hw : w.length = n)
    (h : ∀ i < n, v.getD i d = w.getD i d) : v = w := by
  apply List.ext_getElem (by omega)
  intro i h1 h2
  have := h i (by omega)
  rwa [List.getD_eq_getElem?_getD, List.getElem?_eq_getElem h1, Option.getD_some,
    List.getD_eq_getElem?_getD, List.getElem?_eq_getElem h2, Option.getD_some] at this

theorem copy8_step_length {v out out' : List F} {i : Nat}
    (h : (do let x ← uidx v i; usetIdx out i x : Go (List F)) = .ok out') :
    out'.length = out.length := by
  cases hx : uidx v i with
  | error e => rw [hx] at h; cases h
  | ok x =>
    rw [hx, go_bind_ok, usetIdx] at h
    split at h
    · cases h; simp
    · cases h

/-- The full blocks of the copy loop, as one loop over elements. -/
theorem copy8_blocks (out v : List F) (n : Nat) (h1 : 8 * n ≤ out.length) (h2 : 8 * n ≤ v.length) :
    (List.range' 0 n 8).foldlM (fun out i => (do
      addr out i
      addr v i
      [0, 1, 2, 3, 4, 5, 6, 7].foldlM (fun out k => (do
        let x ← uidx v (i + k)
        usetIdx out (i + k) x : Go (List F))) out)) out =
    .ok (v.take (8 * n) ++ out.drop (8 * n)) := by
  rw [foldlM_flat_inv (f := fun out i => (do let x ← uidx v i; usetIdx out i x : Go (List F)))
    (g := fun i => List.range' i 8) (fun q => q.length = out.length) _ _ rfl ?_
    (fun s b s' hs h => by rw [copy8_step_length h, hs]), flatMap_blocks8, ← List.range_eq_range']
  · have key := forRange_spec (f := fun (out : List F) i => (do
      let x ← uidx v i; usetIdx out i x : Go (List F))) 0 (8 * n) (by omega)
      (fun i q => q = v.take i ++ out.drop i) out (by simp) (by
        rintro i q - hi rfl
        have h3 : i < (v.take i ++ out.drop i).length := by simp; omega
        refine ⟨_, by rw [uidx_ok (by omega), go_bind_ok, usetIdx_ok h3], ?_⟩
        rw [List.set_append_right _ _ (by simp), List.take_add_one, List.append_assoc,
          List.getElem?_eq_getElem (by omega : i < v.length)]
        congr 1
        rw [List.length_take, min_eq_left (by omega), Nat.sub_self,
          List.drop_eq_getElem_cons (by omega : i < out.length)]
        rfl)
    rw [forRange_one, ← List.range_eq_range', Nat.sub_zero] at key
    obtain ⟨q, hq, rfl⟩ := key
    exact hq
  · intro q i hi hq
    rw [List.mem_range'] at hi
    obtain ⟨k, hk, rfl⟩ := hi
    simp only [addr_ok (show 0 + 8 * k < q.length by omega),
      addr_ok (show 0 + 8 * k < v.length by omega), go_bind_ok]
    rfl

theorem copy8_eq (out v : List F) (h8 : out.length % 8 = 0) (hl : v.length = out.length) :
    copy8 out v = .ok v := by
  unfold copy8
  rw [forRange, show (out.length - 0 + (8 - 1)) / 8 = out.length / 8 by omega, copy8_blocks _ _ _ (by omega) (by omega)]
  rw [show 8 * (out.length / 8) = out.length by omega, List.drop_length, List.append_nil, ← hl,
    List.take_length]

/-- Whenever the length is not a multiple of eight the copy loop leaves the slice. -/
theorem copy8_ub (out v : List F) (h8 : out.length % 8 ≠ 0) (hl : v.length = out.length) :
    copy8 out v = .error .ub := by
  unfold copy8
  rw [forRange, show (out.length - 0 + (8 - 1)) / 8 = out.length / 8 + 1 by omega, List.range'_concat,
    List.foldlM_append, copy8_blocks _ _ _ (by omega) (by omega)]
  simp only [go_bind_ok, Nat.zero_add, List.foldlM_cons, List.foldlM_nil, bind_pure]
  set q := v.take (8 * (out.length / 8)) ++ out.drop (8 * (out.length / 8)) with hq
  have hql : q.length = out.length := by rw [hq]; simp; omega
  rw [addr_ok (by omega), addr_ok (by omega)]
  simp only [go_bind_ok]
  generalize hb : 8 * (out.length / 8) = b at *
  have hr : out.length = b + out.length % 8 := by omega
  generalize out.length % 8 = r at *
  have hr8 : r < 8 := by omega
  have step : ∀ (u : List F) k, k < r → u.length = b + r →
      ∃ u', (do let x ← uidx v (b + k); usetIdx u (b + k) x : Go (List F)) = .ok u' ∧ u'.length = b + r := by
    intro u k hk hu
    exact ⟨_, by rw [uidx_ok (by omega), go_bind_ok, usetIdx_ok (by omega)], by simpa using hu⟩
  have stop : ∀ (u : List F), (do let x ← uidx v (b + r); usetIdx u (b + r) x : Go (List F)) = .error .ub := by
    intro u
    have : uidx v (b + r) = .error .ub := by simp [uidx, hl, hr]
    rw [this]; rfl
  have hmain : ∀ (L : List Nat) (s : Nat) (u : List F), L = List.range' s (8 - s) → s ≤ r → u.length = b + r →
      L.foldlM (fun out k => (do
        let x ← uidx v (b + k)
        usetIdx out (b + k) x : Go (List F))) u = .error .ub := by
    intro L
    induction L with
    | nil =>
      intro s u hL hs _
      have : (List.range' s (8 - s)).length = 0 := by rw [← hL]; rfl
      rw [List.length_range'] at this; omega
    | cons a L ih =>
      intro s u hL hs hu
      obtain ⟨m, hm⟩ : ∃ m, 8 - s = m + 1 := ⟨8 - s - 1, by omega⟩
      rw [hm, List.range'_succ] at hL
      injection hL with h1 h2
      subst h1
      rw [List.foldlM_cons]
      by_cases has : a = r
      · subst has; rw [stop]; rfl
      · obtain ⟨u', e1, e2⟩ := step u a (by omega) hu
        rw [e1]
        exact ih (a + 1) u' (by rw [h2]; congr 1; omega) (by omega) e2
  have := hmain [0, 1, 2, 3, 4, 5, 6, 7] 0 q rfl (by omega) (by omega)
  simpa only [List.foldlM_cons, List.foldlM_nil, bind_pure] using this

section alg
variable [CommRing F]

theorem nttInPlace_eq (K : Nat) (p tw : List F) (hp : p.length = 2 ^ K) :
    nttInPlace p tw = (List.range K).foldlM (layerK K butterfly tw) p := by
  unfold nttInPlace
  split
  · exact nttRef_eq K p tw hp
  · next h =>
    refine nttUnroll_eq K ?_ p tw hp
    by_contra hK
    have : 2 ^ K ≤ 2 ^ 4 := Nat.pow_le_pow_right (by decide) (by omega)
    omega

theorem inttInPlace_eq (K : Nat) (p tw : List F) (hp : p.length = 2 ^ K) :
    inttInPlace p tw = (List.range K).reverse.foldlM (layerK K invButterfly tw) p := by
  unfold inttInPlace
  split
  · exact inttRef_eq K p tw hp
  · next h =>
    refine inttUnroll_eq K ?_ p tw hp
    by_contra hK
    have : 2 ^ K ≤ 2 ^ 4 := Nat.pow_le_pow_right (by decide) (by omega)
    omega

/-- What the proofs need to know about a transformer. -/
structure GoodT (K : Nat) (T : Transformer F) (z : Nat → F) : Prop where
  rank : T.rank = 2 ^ K
  len : T.tw.length = 2 ^ K
  lenInv : T.twInv.length = 2 ^ K
  tree : TwTree K (fun n => T.tw.getD n 0) z
  inv : ∀ n, 1 ≤ n → n < 2 ^ K → T.twInv.getD n 0 * T.tw.getD n 0 = 1
  rankInv : (2 : F) ^ K * T.rankInv = 1

theorem nttInPlace_spec {K : Nat} {T : Transformer F} {z : Nat → F} (hT : GoodT K T z)
    (p : List F) (hp : p.length = 2 ^ K) :
    ∃ w, nttInPlace p T.tw = .ok w ∧ w.length = 2 ^ K ∧
      ∀ i < 2 ^ K, w.getD i 0 = layersFn K butterfly (fun n => T.tw.getD n 0) (List.range K)
        (fun j => p.getD j 0) i := by
  rw [nttInPlace_eq K p _ hp]
  exact layers_spec K butterfly T.tw p (List.range K) 0 (fun k hk => by simpa using hk) hp
    (by rw [hT.len])

theorem inttInPlace_spec {K : Nat} {T : Transformer F} {z : Nat → F} (hT : GoodT K T z)
    (p : List F) (hp : p.length = 2 ^ K) :
    ∃ w, inttInPlace p T.twInv = .ok w ∧ w.length = 2 ^ K ∧
      ∀ i < 2 ^ K, w.getD i 0 = layersFn K invButterfly (fun n => T.twInv.getD n 0)
        (List.range K).reverse (fun j => p.getD j 0) i := by
  rw [inttInPlace_eq K p _ hp]
  exact layers_spec K invButterfly T.twInv p (List.range K).reverse 0
    (fun k hk => by simpa using hk) hp (by rw [hT.lenInv])

theorem pow8 {K : Nat} (hK : 3 ≤ K) : 2 ^ K % 8 = 0 := by
  rw [show K = (K - 3) + 3 by omega, Nat.pow_add]; omega

theorem fwd_spec {K : Nat} (hK : 3 ≤ K) {T : Transformer F} {z : Nat → F} (hT : GoodT K T z)
    (out v : List F) (ho : out.length = 2 ^ K) (hv : v.length = 2 ^ K) :
    ∃ w, T.fwdNTTTo out v = .ok w ∧ w.length = 2 ^ K ∧
      (∀ i < 2 ^ K, w.getD i 0 = layersFn K butterfly (fun n => T.tw.getD n 0) (List.range K)
        (fun j => v.getD j 0) i) ∧
      ∀ i < 2 ^ K, w.getD i 0 = evalAt (2 ^ K) v (z (2 ^ K + i)) := by
  obtain ⟨w, h1, h2, h3⟩ := nttInPlace_spec hT v hv
  refine ⟨w, ?_, h2, h3, ?_⟩
  · unfold Transformer.fwdNTTTo
    rw [copy8_eq out v (by rw [ho]; exact pow8 hK) (by omega), go_bind_ok, h1]
  · intro i hi
    rw [h3 i hi, fwd_eval K _ z _ hT.tree i hi]
    rfl

theorem getD_map_mul (l : List F) (c : F) (i : Nat) : (l.map (· * c)).getD i 0 = l.getD i 0 * c := by
  rw [List.getD_eq_getElem?_getD, List.getD_eq_getElem?_getD, List.getElem?_map]
  cases l[i]? <;> simp

theorem inv_spec {K : Nat} (hK : 3 ≤ K) {T : Transformer F} {z : Nat → F} (hT : GoodT K T z)
    (out v : List F) (ho : out.length = 2 ^ K) (hv : v.length = 2 ^ K) :
    ∃ w, T.invNTTTo out v = .ok w ∧ w.length = 2 ^ K ∧
      ∀ i < 2 ^ K, w.getD i 0 = layersFn K invButterfly (fun n => T.twInv.getD n 0)
        (List.range K).reverse (fun j => v.getD j 0) i * T.rankInv := by
  obtain ⟨w, h1, h2, h3⟩ := inttInPlace_spec hT v hv
  refine ⟨w.map (· * T.rankInv), ?_, by simpa using h2, ?_⟩
  · unfold Transformer.invNTTTo
    rw [copy8_eq out v (by rw [ho]; exact pow8 hK) (by omega), go_bind_ok, h1]; rfl
  · intro i hi
    rw [getD_map_mul, h3 i hi]

theorem inv_fwd {K : Nat} (hK : 3 ≤ K) {T : Transformer F} {z : Nat → F} (hT : GoodT K T z)
    (out out' v : List F) (ho : out.length = 2 ^ K) (ho' : out'.length = 2 ^ K)
    (hv : v.length = 2 ^ K) : (T.fwdNTTTo out v >>= fun w => T.invNTTTo out' w) = .ok v := by
  obtain ⟨w, h1, h2, h3, -⟩ := fwd_spec hK hT out v ho hv
  obtain ⟨u, u1, u2, u3⟩ := inv_spec hK hT out' w ho' h2
  rw [h1, go_bind_ok, u1]
  congr 1
  refine list_ext_getD 0 _ u2 hv ?_
  intro i hi
  rw [u3 i hi, layersFn_congr K invButterfly _ _ (fun k hk => by simpa using hk) h3 i hi,
    layers_inv_fwd K _ _ hT.inv K le_rfl _ i hi]
  linear_combination (v.getD i 0) * hT.rankInv

theorem layersFn_smul_fwd (K : Nat) (tw : Nat → F) (L : List Nat) (c : F) (f : Nat → F) :
    layersFn K butterfly tw L (fun i => c * f i) = fun i => c * layersFn K butterfly tw L f i := by
  induction L generalizing f with
  | nil => rfl
  | cons k L ih =>
    simp only [layersFn, List.foldl_cons] at ih ⊢
    rw [layerFn_smul_fwd, ih]

theorem fwd_inv {K : Nat} (hK : 3 ≤ K) {T : Transformer F} {z : Nat → F} (hT : GoodT K T z)
    (out out' v : List F) (ho : out.length = 2 ^ K) (ho' : out'.length = 2 ^ K)
    (hv : v.length = 2 ^ K) : (T.invNTTTo out v >>= fun w => T.fwdNTTTo out' w) = .ok v := by
  obtain ⟨w, h1, h2, h3⟩ := inv_spec hK hT out v ho hv
  obtain ⟨u, u1, u2, u3, -⟩ := fwd_spec hK hT out' w ho' h2
  rw [h1, go_bind_ok, u1]
  congr 1
  refine list_ext_getD 0 _ u2 hv ?_
  intro i hi
  have h4 : ∀ j < 2 ^ K, w.getD j 0 = T.rankInv * layersFn K invButterfly (fun n => T.twInv.getD n 0)
        (List.range K).reverse (fun j => v.getD j 0) j := by
    intro j hj; rw [h3 j hj, mul_comm]
  rw [u3 i hi, layersFn_congr K butterfly _ _ (fun k hk => by simpa using hk) h4 i hi,
    layersFn_smul_fwd]
  simp only
  rw [layers_fwd_inv K _ _ hT.inv K le_rfl _ i hi]
  linear_combination (v.getD i 0) * hT.rankInv

end alg

section new
variable (p : Nat) [hp : Fact p.Prime]

theorem two_pow_ne_zero_zmod (K : Nat) (hdvd : 2 * 2 ^ K ∣ p - 1) : ((2 : ZMod p) ^ K) ≠ 0 := by
  have h1 := hp.out.one_lt
  have hp2 : p ≠ 2 := by
    rintro rfl
    have := Nat.le_of_dvd (by omega) hdvd
    have := Nat.two_pow_pos K
    omega
  apply pow_ne_zero
  intro h
  have : ((2 : Nat) : ZMod p) = 0 := by exact_mod_cast h
  rw [ZMod.natCast_eq_zero_iff] at this
  have := Nat.le_of_dvd (by omega) this
  omega

theorem decompose_pow (K n : Nat) (h1 : 1 ≤ n) (h2 : n < 2 ^ K) :
    ∃ k i, k < K ∧ i < 2 ^ k ∧ n = 2 ^ k + i := by
  refine ⟨n.log2, n - 2 ^ n.log2, ?_, ?_, ?_⟩
  · exact (Nat.log2_lt (by omega)).2 h2
  · have := Nat.lt_log2_self (n := n)
    rw [Nat.pow_succ] at this; omega
  · have := Nat.log2_self_le (n := n) (by omega)
    omega

/-- The value tree of the cyclic transform. -/
def cycZ {F : Type} [Monoid F] (g : F) (K n : Nat) : F := g ^ rev K (n - 2 ^ n.log2)

theorem cycZ_eq {F : Type} [Monoid F] (g : F) (K k i : Nat) (hi : i < 2 ^ k) :
    cycZ g K (2 ^ k + i) = g ^ rev K i := by
  have : (2 ^ k + i).log2 = k := by
    rw [Nat.log2_eq_iff (by have := Nat.two_pow_pos k; omega), Nat.pow_succ]; omega
  rw [cycZ, this, Nat.add_sub_cancel_left]

theorem cyclic_good (K : Nat) (hK : 1 ≤ K) (hdvd : 2 * 2 ^ K ∣ p - 1) :
    ∃ T g, newCyclicTransformer p (2 ^ K) = .ok T ∧ g ^ 2 ^ (K - 1) = -1 ∧ GoodT K T (cycZ g K) := by
  obtain ⟨T, g, h1, h2, h3, h4, h5, h6, h7, h8⟩ := newCyclic_spec p K hK hdvd
  refine ⟨T, g, h1, h2, ?_⟩
  have hg0 : g ≠ 0 := by
    rintro rfl
    rw [zero_pow (by have := Nat.two_pow_pos (K - 1); omega)] at h2
    exact absurd h2 (by simp)
  have hK1 : K = (K - 1) + 1 := by omega
  refine ⟨h3, h4, h5, ⟨?_, ?_, ?_⟩, ?_, ?_⟩
  · intro n hn1 hn2
    obtain ⟨k, i, hk, hi, rfl⟩ := decompose_pow K n hn1 hn2
    rw [h7 k i hk hi, show 2 * (2 ^ k + i) = 2 ^ (k + 1) + 2 * i by rw [Nat.pow_succ]; ring,
      cycZ_eq _ _ _ _ (by rw [Nat.pow_succ]; omega)]
    conv_lhs => rw [hK1, rev_two_mul]
  · intro n hn1 hn2
    obtain ⟨k, i, hk, hi, rfl⟩ := decompose_pow K n hn1 hn2
    rw [h7 k i hk hi, show 2 * (2 ^ k + i) + 1 = 2 ^ (k + 1) + (2 * i + 1) by rw [Nat.pow_succ]; ring,
      cycZ_eq _ _ _ _ (by rw [Nat.pow_succ]; omega)]
    conv_lhs => rw [hK1, rev_two_mul_add_one, pow_add, h2]
    ring
  · intro n hn1 hn2
    obtain ⟨k, i, hk, hi, rfl⟩ := decompose_pow K n hn1 hn2
    have hi' : i < 2 ^ (K - 1) := lt_of_lt_of_le hi (Nat.pow_le_pow_right (by decide) (by omega))
    rw [h7 k i hk hi, cycZ_eq _ _ _ _ hi, ← pow_add, ← two_mul]
    conv_rhs => rw [hK1, (rev_add_pow (K - 1) i hi').1]
  · intro n hn1 hn2
    obtain ⟨k, i, hk, hi, rfl⟩ := decompose_pow K n hn1 hn2
    rw [h7 k i hk hi, h8 k i hk hi, ← mul_pow, inv_mul_cancel₀ hg0, one_pow]
  · rw [h6]; push_cast
    exact mul_inv_cancel₀ (two_pow_ne_zero_zmod p K hdvd)

theorem cyclotomic_good (K : Nat) (hdvd : 2 * 2 ^ K ∣ p - 1) :
    ∃ T g, newCyclotomicTransformer p (2 ^ K) = .ok T ∧ g ^ 2 ^ K = -1 ∧
      GoodT K T (fun n => g ^ rev (K + 1) n) := by
  obtain ⟨T, g, h1, h2, h3, h4, h5, h6, h7, h8⟩ := newCyclotomic_spec p K hdvd
  refine ⟨T, g, h1, h2, ?_⟩
  have hg0 : g ≠ 0 := by
    rintro rfl
    rw [zero_pow (by have := Nat.two_pow_pos K; omega)] at h2
    exact absurd h2 (by simp)
  refine ⟨h3, h4, h5, ⟨?_, ?_, ?_⟩, ?_, ?_⟩
  · intro n hn1 hn2
    rw [h7 n hn2, rev_two_mul]
  · intro n hn1 hn2
    rw [h7 n hn2, rev_two_mul_add_one, pow_add, h2]; ring
  · intro n hn1 hn2
    rw [h7 n hn2, ← pow_add, ← two_mul, (rev_add_pow K n hn2).1]
  · intro n hn1 hn2
    rw [h7 n hn2, h8 n hn2, ← mul_pow, inv_mul_cancel₀ hg0, one_pow]
  · rw [h6]; push_cast
    exact mul_inv_cancel₀ (two_pow_ne_zero_zmod p K hdvd)

theorem neg_one_ne_one (K : Nat) (hdvd : 2 * 2 ^ K ∣ p - 1) : (-1 : ZMod p) ≠ 1 := by
  intro h
  have h2 : (2 : ZMod p) = 0 := by linear_combination -h
  have h1 := hp.out.one_lt
  have : ((2 : Nat) : ZMod p) = 0 := by exact_mod_cast h2
  rw [ZMod.natCast_eq_zero_iff] at this
  have := Nat.le_of_dvd (by omega) this
  have := Nat.le_of_dvd (by omega) hdvd
  have := Nat.two_pow_pos K
  omega

/-- An element whose `2^k`-th power is `-1` is a primitive `2^(k+1)`-th root of unity. -/
theorem isPrimitiveRoot_of_neg_one {R : Type} [CommRing R] (h1 : (-1 : R) ≠ 1) (g : R) (k : Nat)
    (hg : g ^ 2 ^ k = -1) : IsPrimitiveRoot g (2 ^ (k + 1)) := by
  have h2 : orderOf g = 2 ^ (k + 1) :=
    orderOf_eq_prime_pow (p := 2) (by rw [hg]; exact h1) (by rw [Nat.pow_succ, pow_mul, hg]; ring)
  rw [← h2]; exact IsPrimitiveRoot.orderOf g

end new

end Ringo
