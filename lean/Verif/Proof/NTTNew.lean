import Verif.Proof.NTTAlg
import Mathlib.NumberTheory.LegendreSymbol.Basic
import Mathlib.FieldTheory.Finite.Basic

/-!
# The transformer constructors
-/

namespace Ringo

theorem rootSearch_spec (p t1 t2 x : Nat)
    (h : ∃ y, x ≤ y ∧ y < p ∧ (y ^ t1 % p) ^ t2 % p ≠ 1) :
    ∃ y, x ≤ y ∧ y < p ∧ (y ^ t1 % p) ^ t2 % p ≠ 1 ∧ rootSearch p t1 t2 x = y ^ t1 % p := by
  obtain ⟨n, hn⟩ : ∃ n, n = p - x := ⟨_, rfl⟩
  induction n generalizing x with
  | zero => obtain ⟨y, h1, h2, _⟩ := h; omega
  | succ n ih =>
    rw [rootSearch, if_pos (by omega)]
    simp only
    split
    · next hx => exact ⟨x, le_rfl, by omega, hx, rfl⟩
    · next hx =>
      obtain ⟨y, h1, h2, h3⟩ := h
      have hne : y ≠ x := by rintro rfl; exact hx h3
      obtain ⟨w, a, b, c, d⟩ := ih (x + 1) ⟨y, by omega, h2, h3⟩ (by omega)
      exact ⟨w, by omega, b, c, d⟩

/-- If `t1 * t2 = (p-1)/2`, the search returns an element whose `t2`-th power is `-1`. -/
theorem rootSearch_root (p : Nat) [hp : Fact p.Prime] (t1 t2 : Nat) (hp2 : p ≠ 2)
    (ht : t1 * t2 = p / 2) : ((rootSearch p t1 t2 2 : Nat) : ZMod p) ^ t2 = -1 := by
  have hcast : ∀ y : Nat, ((y ^ t1 % p) ^ t2 % p ≠ 1) ↔ (y : ZMod p) ^ (p / 2) ≠ 1 := by
    intro y
    have h1 : (1 : Nat) % p = 1 := Nat.mod_eq_of_lt hp.out.one_lt
    rw [← ht, pow_mul, Ne, Ne, not_iff_not]
    rw [← h1, ← ZMod.natCast_eq_natCast_iff']
    simp
  obtain ⟨a, ha⟩ : ∃ a : ZMod p, ¬ IsSquare a :=
    FiniteField.exists_nonsquare (by rw [ZMod.ringChar_zmod_n]; exact hp2)
  have ha0 : a ≠ 0 := by rintro rfl; exact ha (by simp)
  have ha1 : a ≠ 1 := by rintro rfl; exact ha (by simp)
  have hpow : a ^ (p / 2) ≠ 1 := fun h => ha ((ZMod.euler_criterion p ha0).2 h)
  have hval : ((a.val : Nat) : ZMod p) = a := ZMod.natCast_zmod_val a
  obtain ⟨y, h1, h2, h3, h4⟩ := rootSearch_spec p t1 t2 2 ⟨a.val, by
    have : a.val ≠ 0 := by rwa [Ne, ZMod.val_eq_zero]
    have : a.val ≠ 1 := by
      intro h; rw [h] at hval; simp at hval; exact ha1 hval.symm
    omega, ZMod.val_lt a, (hcast _).2 (by rwa [hval])⟩
  have h5 := (hcast y).1 h3
  rw [h4, ZMod.natCast_mod, Nat.cast_pow, ← pow_mul, ht]
  have hy0 : (y : ZMod p) ≠ 0 := by
    intro h
    rw [ZMod.natCast_eq_zero_iff] at h
    have := Nat.le_of_dvd (by omega) h
    omega
  exact (ZMod.pow_div_two_eq_neg_one_or_one p hy0).resolve_left h5

theorem powersOf_spec {F : Type} [Monoid F] (g d : F) (n : Nat) (hn : 0 < n) :
    ∃ v, powersOf g n = .ok v ∧ v.length = n ∧ ∀ i < n, v.getD i d = g ^ i := by
  unfold powersOf
  have key := forRange_spec (f := fun (v : List F) i => (do
      let a ← idx v (i - 1)
      setIdx v i (a * g) : Go (List F))) 1 n (by omega)
    (fun i v => v.length = n ∧ ∀ j < i, v.getD j d = g ^ j) (List.replicate n 1) (by
      refine ⟨by simp, fun j hj => ?_⟩
      have : j = 0 := by omega
      subst this
      simp [List.getD_eq_getElem?_getD, hn]) (by
      rintro i v h1 h2 ⟨h3, h4⟩
      have hi1 : i - 1 < v.length := by omega
      have hi : i < v.length := by omega
      refine ⟨v.set i (v[i-1] * g), by simp [hi1, hi], by simpa using h3, ?_⟩
      intro j hj
      rw [List.getD_eq_getElem?_getD, List.getElem?_set]
      by_cases hij : i = j
      · subst hij
        have := h4 (i - 1) (by omega)
        rw [List.getD_eq_getElem?_getD, List.getElem?_eq_getElem hi1, Option.getD_some] at this
        rw [if_pos rfl, if_pos hi, Option.getD_some, this, ← pow_succ]
        congr 1; omega
      · rw [if_neg hij, ← List.getD_eq_getElem?_getD]
        exact h4 j (by omega))
  obtain ⟨v, h1, h2, h3⟩ := key
  refine ⟨v, ?_, h2, h3⟩
  simp only [addr_ok (show 0 < (List.replicate n (1 : F)).length by simpa using hn), go_bind_ok]
  exact h1

theorem powersOf_zero {F : Type} [Monoid F] (g : F) : powersOf g 0 = .error .panic := by
  simp [powersOf, addr]

theorem fillStage_spec {F : Type} (ref tw : List F) (m : Nat) (d : F) (hm : m ≤ ref.length)
    (htw : 2 * m ≤ tw.length) :
    ∃ tw', forRange 0 m 1 tw (fun tw i => (do
        let a ← idx ref i
        setIdx tw (m + i) a : Go (List F))) = .ok tw' ∧ tw'.length = tw.length ∧
      ∀ n, tw'.getD n d = if m ≤ n ∧ n < 2 * m then ref.getD (n - m) d else tw.getD n d := by
  have key := forRange_spec (f := fun (tw : List F) i => (do
        let a ← idx ref i
        setIdx tw (m + i) a : Go (List F))) 0 m (by omega)
    (fun i tw' => tw'.length = tw.length ∧
      ∀ n, tw'.getD n d = if m ≤ n ∧ n < m + i then ref.getD (n - m) d else tw.getD n d) tw
    ⟨rfl, fun n => by rw [if_neg (by omega)]⟩ (by
      rintro i v h1 h2 ⟨h3, h4⟩
      have hi1 : i < ref.length := by omega
      have hi : m + i < v.length := by omega
      refine ⟨v.set (m + i) ref[i], by simp [hi1, hi], by simpa using h3, ?_⟩
      intro n
      rw [List.getD_eq_getElem?_getD, List.getElem?_set]
      by_cases hn : m + i = n
      · subst hn
        rw [if_pos rfl, if_pos hi, Option.getD_some, if_pos (by omega), Nat.add_sub_cancel_left,
          List.getD_eq_getElem?_getD, List.getElem?_eq_getElem hi1, Option.getD_some]
      · rw [if_neg hn, ← List.getD_eq_getElem?_getD, h4 n]
        by_cases hc : m ≤ n ∧ n < m + i
        · rw [if_pos hc, if_pos (by omega)]
        · rw [if_neg hc, if_neg (by omega)])
  rwa [← two_mul] at key

theorem fill_spec {F : Type} (ref tw : List F) (d : F) (L : List Nat)
    (hL : ∀ k ∈ L, 2 ^ k ≤ ref.length ∧ 2 * 2 ^ k ≤ tw.length) :
    ∃ tw', (L.map (2 ^ ·)).foldlM (fun tw m => forRange 0 m 1 tw (fun tw i => (do
        let a ← idx ref i
        setIdx tw (m + i) a : Go (List F)))) tw = .ok tw' ∧ tw'.length = tw.length ∧
      ∀ k i, i < 2 ^ k → (k ∈ L ∨ tw.getD (2 ^ k + i) d = ref.getD i d) →
        tw'.getD (2 ^ k + i) d = ref.getD i d := by
  induction L generalizing tw with
  | nil =>
    refine ⟨tw, rfl, rfl, ?_⟩
    rintro k i _ (h | h)
    · simp at h
    · exact h
  | cons k0 L ih =>
    obtain ⟨h1, h2⟩ := hL k0 (by simp)
    obtain ⟨tw1, a1, a2, a3⟩ := fillStage_spec ref tw (2 ^ k0) d h1 h2
    obtain ⟨tw2, b1, b2, b3⟩ := ih tw1 (fun k hk => by
      have := hL k (by simp [hk]); omega)
    refine ⟨tw2, ?_, by omega, ?_⟩
    · rw [List.map_cons, List.foldlM_cons, a1]; exact b1
    · intro k i hi hor
      apply b3 k i hi
      by_cases hk : k ∈ L
      · exact Or.inl hk
      · right
        rw [a3]
        by_cases hc : 2 ^ k0 ≤ 2 ^ k + i ∧ 2 ^ k + i < 2 * 2 ^ k0
        · rw [if_pos hc]
          have : k = k0 := by
            rcases Nat.lt_trichotomy k k0 with h | h | h
            · have : 2 ^ (k + 1) ≤ 2 ^ k0 := Nat.pow_le_pow_right (by decide) h
              rw [Nat.pow_succ] at this; omega
            · exact h
            · have : 2 ^ (k0 + 1) ≤ 2 ^ k := Nat.pow_le_pow_right (by decide) h
              rw [Nat.pow_succ] at this; omega
          subst this
          rw [Nat.add_sub_cancel_left]
        · rw [if_neg hc]
          rcases hor with h | h
          · rcases List.mem_cons.1 h with h | h
            · subst h; omega
            · exact absurd h hk
          · exact h

theorem isPowerOfTwo_iff (n : Nat) : isPowerOfTwo n = true ↔ ∃ K, n = 2 ^ K := by
  unfold isPowerOfTwo
  simp only [Bool.and_eq_true, decide_eq_true_eq, beq_iff_eq]
  constructor
  · rintro ⟨h1, h2⟩
    exact (Nat.and_sub_one_eq_zero_iff_isPowerOfTwo (by omega)).1 h2
  · rintro ⟨K, rfl⟩
    exact ⟨Nat.two_pow_pos K, (Nat.and_sub_one_eq_zero_iff_isPowerOfTwo
      (by have := Nat.two_pow_pos K; omega)).2 ⟨K, rfl⟩⟩

theorem bitReverse_getD {α : Type _} (K : Nat) (v : List α) (d : α) (hv : v.length = 2 ^ K) :
    ∃ w, bitReverseInPlace v = .ok w ∧ w.length = 2 ^ K ∧
      ∀ i < 2 ^ K, w.getD i d = v.getD (rev K i) d := by
  obtain ⟨w, h1, h2, h3⟩ := bitReverse_spec K v hv
  refine ⟨w, h1, h2, fun i hi => ?_⟩
  rw [List.getD_eq_getElem?_getD, h3 i hi, ← List.getD_eq_getElem?_getD]

section
variable (p : Nat) [hp : Fact p.Prime]

/-- What a successfully built transformer contains. -/
theorem newCyclic_spec (K : Nat) (hK : 1 ≤ K) (hdvd : 2 * 2 ^ K ∣ p - 1) :
    ∃ T g, newCyclicTransformer p (2 ^ K) = .ok T ∧ g ^ 2 ^ (K - 1) = -1 ∧ T.rank = 2 ^ K ∧
      T.tw.length = 2 ^ K ∧ T.twInv.length = 2 ^ K ∧ T.rankInv = ((2 ^ K : Nat) : ZMod p)⁻¹ ∧
      (∀ k i, k < K → i < 2 ^ k → T.tw.getD (2 ^ k + i) 0 = g ^ rev (K - 1) i) ∧
      (∀ k i, k < K → i < 2 ^ k → T.twInv.getD (2 ^ k + i) 0 = (g⁻¹) ^ rev (K - 1) i) := by
  have hpp := hp.out
  have h1lt := hpp.one_lt
  have h2K : 2 ^ K = 2 * 2 ^ (K - 1) := by rw [← Nat.pow_succ']; congr 1; omega
  have hpos := Nat.two_pow_pos (K - 1)
  obtain ⟨c, hc⟩ := hdvd
  have hc0 : c ≠ 0 := by rintro rfl; omega
  have hp2 : p ≠ 2 := by
    rintro rfl
    have : 2 * 2 ^ K * c ≥ 2 := Nat.le_trans (by omega) (Nat.le_mul_of_pos_right _ (by omega))
    omega
  have hhalf : 2 ^ K / 2 = 2 ^ (K - 1) := by omega
  have ht : (p - 1) / 2 ^ K * (2 ^ K / 2) = p / 2 := by
    rw [hhalf, hc, show 2 * 2 ^ K * c = 2 ^ K * (2 * c) by ring, Nat.mul_div_cancel_left _ (Nat.two_pow_pos K)]
    have : p = 2 * (2 * c * 2 ^ (K - 1)) + 1 := by
      have : 2 * 2 ^ K * c = 2 * (2 * c * 2 ^ (K - 1)) := by rw [h2K]; ring
      omega
    omega
  have hroot := rootSearch_root p ((p - 1) / 2 ^ K) (2 ^ K / 2) hp2 ht
  set g : ZMod p := ((rootSearch p ((p - 1) / 2 ^ K) (2 ^ K / 2) 2 : Nat) : ZMod p) with hg
  obtain ⟨v, v1, v2, v3⟩ := powersOf_spec g 0 (2 ^ K / 2) (by omega)
  obtain ⟨vi, vi1, vi2, vi3⟩ := powersOf_spec g⁻¹ 0 (2 ^ K / 2) (by omega)
  obtain ⟨w, w1, w2, w3⟩ := bitReverse_getD (K - 1) v 0 (by omega)
  obtain ⟨wi, wi1, wi2, wi3⟩ := bitReverse_getD (K - 1) vi 0 (by omega)
  have hlens : ∀ k < K, 2 ^ k ≤ 2 ^ (K - 1) ∧ 2 * 2 ^ k ≤ 2 ^ K := by
    intro k hk
    have : 2 ^ k ≤ 2 ^ (K - 1) := Nat.pow_le_pow_right (by decide) (by omega)
    omega
  obtain ⟨tw, t1, t2, t3⟩ := fill_spec w (List.replicate (2 ^ K) 0) 0 (List.range K) (by
    intro k hk; rw [List.mem_range] at hk; have := hlens k hk; rw [List.length_replicate]; omega)
  obtain ⟨twi, ti1, ti2, ti3⟩ := fill_spec wi (List.replicate (2 ^ K) 0) 0 (List.range K).reverse (by
    intro k hk; rw [List.mem_reverse, List.mem_range] at hk; have := hlens k hk
    rw [List.length_replicate]; omega)
  have hval : ∀ k i, k < K → i < 2 ^ k → i < 2 ^ (K - 1) ∧ rev (K - 1) i < 2 ^ K / 2 := by
    intro k i hk hi
    have := hlens k hk
    have := rev_lt (K - 1) i
    omega
  refine ⟨⟨2 ^ K, tw, twi, ((2 ^ K : Nat) : ZMod p)⁻¹⟩, g, ?_, by rw [← hhalf]; exact hroot, rfl,
    by simpa using t2, by simpa using ti2, rfl, ?_, ?_⟩
  · unfold newCyclicTransformer
    rw [if_neg (by simp [(isPowerOfTwo_iff _).2 ⟨K, rfl⟩]), if_neg (by
      rw [hc, not_not]; exact Nat.mul_mod_right _ _)]
    simp only [← hg, v1, vi1, w1, wi1, go_bind_ok, doublings_half, halvings_half, t1, ti1, go_pure]
  · intro k i hk hi
    obtain ⟨h1, h2⟩ := hval k i hk hi
    rw [t3 k i hi (Or.inl (by simpa using hk)), w3 i h1, v3 _ h2]
  · intro k i hk hi
    obtain ⟨h1, h2⟩ := hval k i hk hi
    rw [ti3 k i hi (Or.inl (by simpa using hk)), wi3 i h1, vi3 _ h2]

theorem newCyclotomic_spec (K : Nat) (hdvd : 2 * 2 ^ K ∣ p - 1) :
    ∃ T g, newCyclotomicTransformer p (2 ^ K) = .ok T ∧ g ^ 2 ^ K = -1 ∧ T.rank = 2 ^ K ∧
      T.tw.length = 2 ^ K ∧ T.twInv.length = 2 ^ K ∧ T.rankInv = ((2 ^ K : Nat) : ZMod p)⁻¹ ∧
      (∀ i < 2 ^ K, T.tw.getD i 0 = g ^ rev K i) ∧
      (∀ i < 2 ^ K, T.twInv.getD i 0 = (g⁻¹) ^ rev K i) := by
  have hpp := hp.out
  have h1lt := hpp.one_lt
  have hpos := Nat.two_pow_pos K
  obtain ⟨c, hc⟩ := hdvd
  have hc0 : c ≠ 0 := by rintro rfl; omega
  have hp2 : p ≠ 2 := by
    rintro rfl
    have : 2 * 2 ^ K * c ≥ 2 := Nat.le_trans (by omega) (Nat.le_mul_of_pos_right _ (by omega))
    omega
  have ht : (p - 1) / (2 * 2 ^ K) * 2 ^ K = p / 2 := by
    rw [hc, Nat.mul_div_cancel_left _ (by omega)]
    have : p = 2 * (c * 2 ^ K) + 1 := by
      have : 2 * 2 ^ K * c = 2 * (c * 2 ^ K) := by ring
      omega
    omega
  have hroot := rootSearch_root p ((p - 1) / (2 * 2 ^ K)) (2 ^ K) hp2 ht
  set g : ZMod p := ((rootSearch p ((p - 1) / (2 * 2 ^ K)) (2 ^ K) 2 : Nat) : ZMod p) with hg
  obtain ⟨v, v1, v2, v3⟩ := powersOf_spec g 0 (2 ^ K) hpos
  obtain ⟨vi, vi1, vi2, vi3⟩ := powersOf_spec g⁻¹ 0 (2 ^ K) hpos
  obtain ⟨w, w1, w2, w3⟩ := bitReverse_getD K v 0 v2
  obtain ⟨wi, wi1, wi2, wi3⟩ := bitReverse_getD K vi 0 vi2
  refine ⟨⟨2 ^ K, w, wi, ((2 ^ K : Nat) : ZMod p)⁻¹⟩, g, ?_, hroot, rfl, w2, wi2, rfl, ?_, ?_⟩
  · unfold newCyclotomicTransformer
    rw [if_neg (by simp [(isPowerOfTwo_iff _).2 ⟨K, rfl⟩]), if_neg (by
      rw [hc, not_not]; exact Nat.mul_mod_right _ _)]
    simp only [← hg, v1, vi1, w1, wi1, go_bind_ok, go_pure]
  · intro i hi
    rw [w3 i hi, v3 _ (rev_lt K i)]
  · intro i hi
    rw [wi3 i hi, vi3 _ (rev_lt K i)]

end

end Ringo
