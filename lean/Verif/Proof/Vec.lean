import Verif.Model.Vec
import Verif.Spec.BitRev

/-!
# Proofs about the vector kernels and bit reversal
-/

namespace Ringo

variable {F σ : Type _}

theorem flatMap_blocks8 (s n : Nat) :
    (List.range' s n 8).flatMap (fun i => List.range' i 8) = List.range' s (8 * n) := by
  induction n generalizing s with
  | zero => rfl
  | succ n ih =>
    rw [List.range'_succ, List.flatMap_cons, ih, show 8 * (n + 1) = 8 + 8 * n by ring]
    simp

/-- A loop over blocks of eight whose body runs eight element steps is the plain loop. -/
theorem forRange_blocks8 (n : Nat) (s : σ) (pre : σ → Nat → Go Unit) (f : σ → Nat → Go σ)
    (hpre : ∀ s i, i + 7 < 8 * n → pre s i = .ok ()) :
    forRange 0 (8 * n) 8 s (fun s i => do
      pre s i
      [0, 1, 2, 3, 4, 5, 6, 7].foldlM (fun s k => f s (i + k)) s) =
    (List.range (8 * n)).foldlM f s := by
  rw [List.range_eq_range', ← flatMap_blocks8, foldlM_flatMap, forRange,
    show (8 * n - 0 + (8 - 1)) / 8 = n by omega]
  refine foldlM_congr_inv (fun _ => True) _ _ trivial ?_ (fun _ _ _ _ _ _ => trivial)
  intro s i hi _
  rw [List.mem_range'] at hi
  obtain ⟨k, hk, rfl⟩ := hi
  rw [hpre s _ (by omega)]
  rfl

theorem forRange_one (lo hi : Nat) (s : σ) (f : σ → Nat → Go σ) :
    forRange lo hi 1 s f = (List.range' lo (hi - lo)).foldlM f s := by
  simp [forRange]

theorem blocks_then_tail (n : Nat) (s : σ) (f : σ → Nat → Go σ) :
    ((List.range (8 * (n / 8))).foldlM f s >>= fun s => forRange (8 * (n / 8)) n 1 s f) =
    (List.range n).foldlM f s := by
  have h : List.range n = List.range (8 * (n / 8)) ++ List.range' (8 * (n / 8)) (n - 8 * (n / 8)) := by
    have := @List.range'_append 0 (8 * (n / 8)) (n - 8 * (n / 8)) 1
    rw [List.range_eq_range', List.range_eq_range', ]
    simp only [Nat.zero_add, one_mul] at this
    rw [this]; congr 1; omega
  rw [h, List.foldlM_append]
  congr 1; funext s; rw [forRange_one]

theorem vec2To_eq (op : F → F → F) (h : Heap F) (xOut x0 x1 : List Nat)
    (h0 : xOut.length ≤ x0.length) (h1 : xOut.length ≤ x1.length) :
    vec2To op h xOut x0 x1 = .ok ((List.range xOut.length).foldl
      (fun h i => heapOp2 op h (xOut.getD i 0) (x0.getD i 0) (x1.getD i 0)) h) := by
  have hf : ∀ (h : Heap F) (i : Nat), i < xOut.length → ((do
      let o ← idx xOut i
      let a ← idx x0 i
      let b ← idx x1 i
      pure (heapOp2 op h o a b)) : Go (Heap F)) =
      .ok (heapOp2 op h (xOut.getD i 0) (x0.getD i 0) (x1.getD i 0)) := by
    intro h i hi
    simp [hi, show i < x0.length by omega, show i < x1.length by omega]
  have hu : ∀ (h : Heap F) (i : Nat), i < xOut.length → ((do
      let o ← uidx xOut i
      let a ← uidx x0 i
      let b ← uidx x1 i
      pure (heapOp2 op h o a b)) : Go (Heap F)) = (do
      let o ← idx xOut i
      let a ← idx x0 i
      let b ← idx x1 i
      pure (heapOp2 op h o a b)) := by
    intro h i hi
    simp [hi, show i < x0.length by omega, show i < x1.length by omega]
  have hb := forRange_blocks8 (xOut.length / 8) h (fun _ i => do addr xOut i; addr x0 i; addr x1 i)
    (fun h i => (do
      let o ← uidx xOut i
      let a ← uidx x0 i
      let b ← uidx x1 i
      pure (heapOp2 op h o a b))) (by
        intro s i hi
        simp [show i < xOut.length by omega, show i < x0.length by omega,
          show i < x1.length by omega])
  unfold vec2To
  simp only [bind_assoc] at hb
  rw [Nat.mul_comm (xOut.length / 8) 8]
  simp only [hb]
  rw [foldlM_congr_inv (fun _ => True) _ _ trivial (fun s a ha _ =>
    hu s a (by rw [List.mem_range] at ha; omega)) (fun _ _ _ _ _ _ => trivial)]
  rw [blocks_then_tail]
  exact (foldlM_pure (fun _ => True) _ _ trivial (fun s a ha _ =>
    ⟨hf s a (by simpa using ha), trivial⟩)).1

theorem vec1To_eq (op : F → F) (h : Heap F) (xOut x0 : List Nat)
    (h0 : xOut.length ≤ x0.length) :
    vec1To op h xOut x0 = .ok ((List.range xOut.length).foldl
      (fun h i => heapOp2 (fun a _ => op a) h (xOut.getD i 0) (x0.getD i 0) (x0.getD i 0)) h) := by
  have hf : ∀ (h : Heap F) (i : Nat), i < xOut.length → ((do
      let o ← idx xOut i
      let a ← idx x0 i
      pure (Function.update h o (op (h a)))) : Go (Heap F)) =
      .ok (heapOp2 (fun a _ => op a) h (xOut.getD i 0) (x0.getD i 0) (x0.getD i 0)) := by
    intro h i hi
    simp [hi, show i < x0.length by omega, heapOp2]
  have hu : ∀ (h : Heap F) (i : Nat), i < xOut.length → ((do
      let o ← uidx xOut i
      let a ← uidx x0 i
      pure (Function.update h o (op (h a)))) : Go (Heap F)) = (do
      let o ← idx xOut i
      let a ← idx x0 i
      pure (Function.update h o (op (h a)))) := by
    intro h i hi
    simp [hi, show i < x0.length by omega]
  have hb := forRange_blocks8 (xOut.length / 8) h (fun _ i => do addr xOut i; addr x0 i)
    (fun h i => (do
      let o ← uidx xOut i
      let a ← uidx x0 i
      pure (Function.update h o (op (h a))))) (by
        intro s i hi
        simp [show i < xOut.length by omega, show i < x0.length by omega])
  unfold vec1To
  simp only [bind_assoc] at hb
  rw [Nat.mul_comm (xOut.length / 8) 8]
  simp only [hb]
  rw [foldlM_congr_inv (fun _ => True) _ _ trivial (fun s a ha _ =>
    hu s a (by rw [List.mem_range] at ha; omega)) (fun _ _ _ _ _ _ => trivial)]
  rw [blocks_then_tail]
  exact (foldlM_pure (fun _ => True) _ _ trivial (fun s a ha _ =>
    ⟨hf s a (by simpa using ha), trivial⟩)).1

/-- The element loop computes every output cell from the *initial* operands. -/
theorem heapLoop_spec (op : F → F → F) (h : Heap F) (o a b : Nat → Nat) (n : Nat)
    (hinj : ∀ i < n, ∀ j < n, o i = o j → i = j)
    (ha : ∀ i < n, ∀ j < n, a j = o i → i = j)
    (hb : ∀ i < n, ∀ j < n, b j = o i → i = j) :
    let h' := (List.range n).foldl (fun h i => heapOp2 op h (o i) (a i) (b i)) h
    (∀ i < n, h' (o i) = op (h (a i)) (h (b i))) ∧
    ∀ c, (∀ i < n, c ≠ o i) → h' c = h c := by
  induction n with
  | zero => exact ⟨fun i hi => absurd hi (by omega), fun c _ => rfl⟩
  | succ n ih =>
    obtain ⟨ih1, ih2⟩ := ih (fun i hi j hj => hinj i (by omega) j (by omega))
      (fun i hi j hj => ha i (by omega) j (by omega))
      (fun i hi j hj => hb i (by omega) j (by omega))
    simp only [List.range_succ, List.foldl_append, List.foldl_cons, List.foldl_nil]
    generalize (List.range n).foldl (fun h i => heapOp2 op h (o i) (a i) (b i)) h = h' at ih1 ih2 ⊢
    refine ⟨fun i hi => ?_, fun c hc => ?_⟩
    · simp only [heapOp2, Function.update_apply]
      by_cases hin : i = n
      · subst hin
        rw [if_pos rfl, ih2 (a i) (fun j hj he => by have := ha j (by omega) i (by omega) he; omega),
          ih2 (b i) (fun j hj he => by have := hb j (by omega) i (by omega) he; omega)]
      · rw [if_neg (fun he => hin (hinj i hi n (by omega) he)), ih1 i (by omega)]
    · simp only [heapOp2, Function.update_apply]
      rw [if_neg (hc n (by omega)), ih2 c (fun i hi => hc i (by omega))]

/-! ### Bit reversal -/

theorem rev_lt (K i : Nat) : rev K i < 2 ^ K := by
  induction K generalizing i with
  | zero => simp [rev]
  | succ K ih =>
    have := ih (i / 2)
    simp only [rev, Nat.pow_succ]
    rcases Nat.mod_two_eq_zero_or_one i with h | h <;> rw [h] <;> omega

theorem rev_rev (K i : Nat) (hi : i < 2 ^ K) : rev K (rev K i) = i := by
  apply Nat.eq_of_testBit_eq
  intro b
  rw [testBit_rev, testBit_rev]
  by_cases hb : b < K
  · simp [hb, show K - 1 - (K - 1 - b) = b by omega, show K - 1 - b < K by omega]
  · simp [hb, Nat.testBit_lt_two_pow (lt_of_lt_of_le hi (Nat.pow_le_pow_right (by decide) (by omega : K ≤ b)))]

theorem rev_inj {K i j : Nat} (hi : i < 2 ^ K) (hj : j < 2 ^ K) (h : rev K i = rev K j) : i = j := by
  rw [← rev_rev K i hi, h, rev_rev K j hj]

@[simp] theorem rev_zero (K : Nat) : rev K 0 = 0 := by
  induction K with
  | zero => rfl
  | succ K ih => simp [rev, ih]

theorem rev_two_mul (K i : Nat) : rev (K + 1) (2 * i) = rev K i := by
  simp [rev]

theorem rev_two_mul_add_one (K i : Nat) : rev (K + 1) (2 * i + 1) = 2 ^ K + rev K i := by
  simp [rev, show (2 * i + 1) / 2 = i by omega]

/-- High-bit decomposition. -/
theorem rev_add_pow (K i : Nat) (hi : i < 2 ^ K) :
    rev (K + 1) i = 2 * rev K i ∧ rev (K + 1) (2 ^ K + i) = 2 * rev K i + 1 := by
  induction K generalizing i with
  | zero =>
    have : i = 0 := by simpa using hi
    subst this; simp [rev]
  | succ K ih =>
    have h2 : i / 2 < 2 ^ K := by rw [Nat.pow_succ] at hi; omega
    obtain ⟨h3, h4⟩ := ih (i / 2) h2
    have h5 : (2 ^ (K + 1) + i) / 2 = 2 ^ K + i / 2 := by rw [Nat.pow_succ]; omega
    have h6 : (2 ^ (K + 1) + i) % 2 = i % 2 := by rw [Nat.pow_succ]; omega
    constructor
    · rw [rev, h3]; conv_rhs => rw [rev]
      rw [Nat.pow_succ]; ring
    · rw [rev, h5, h6, h4]; conv_rhs => rw [rev]
      rw [Nat.pow_succ]; ring

/-- The inner loop increments `j` in bit-reversed order. -/
theorem brInner_rev (K i : Nat) (hi : i + 1 < 2 ^ K) :
    ∃ j bit, brInner (rev K i) (2 ^ K / 2) = .ok (j, bit) ∧ j + bit = rev K (i + 1) := by
  induction K generalizing i with
  | zero => simp at hi
  | succ K ih =>
    have hp : 2 ^ (K + 1) / 2 = 2 ^ K := by rw [Nat.pow_succ]; omega
    rw [hp]
    have hlt := rev_lt K (i / 2)
    rcases Nat.even_or_odd' i with ⟨k, rfl | rfl⟩
    · rw [rev_two_mul, rev_two_mul_add_one]
      refine ⟨rev K k, 2 ^ K, ?_, by omega⟩
      rw [brInner, if_neg (by have := rev_lt K k; omega)]
    · rw [rev_two_mul_add_one, show 2 * k + 1 + 1 = 2 * (k + 1) by ring, rev_two_mul]
      obtain ⟨j, bit, h1, h2⟩ := ih k (by rw [Nat.pow_succ] at hi; omega)
      refine ⟨j, bit, ?_, h2⟩
      rw [brInner, if_pos (by omega), if_pos (Nat.two_pow_pos K)]
      rwa [show 2 ^ K + rev K k - 2 ^ K = rev K k by omega]

theorem bitReverse_spec {α : Type _} (K : Nat) (v : List α) (hv : v.length = 2 ^ K) :
    ∃ w, bitReverseInPlace v = .ok w ∧ w.length = 2 ^ K ∧
      ∀ i, i < 2 ^ K → w[i]? = v[rev K i]? := by
  have hpos := Nat.two_pow_pos K
  let I : Nat → List α × Nat → Prop := fun i s =>
    s.2 = rev K (i - 1) ∧ s.1.length = 2 ^ K ∧
      ∀ x, x < 2 ^ K → s.1[x]? = if min x (rev K x) < i then v[rev K x]? else v[x]?
  have main := forRange_spec (f := fun (s : List α × Nat) i => (do
    let (j, bit) ← brInner s.2 (v.length / 2)
    let j := j + bit
    if i < j then
      let a ← idx s.1 i
      let b ← idx s.1 j
      let v1 ← setIdx s.1 i b
      let v2 ← setIdx v1 j a
      pure (v2, j)
    else
      pure (s.1, j) : Go (List α × Nat))) 1 v.length (by omega) I (v, 0) (by
      refine ⟨by simp, hv, fun x hx => ?_⟩
      split
      · next h =>
        have : x = 0 := by
          rcases Nat.eq_zero_or_pos x with h0 | h0
          · exact h0
          · have : rev K x = 0 := by omega
            have := rev_rev K x hx
            simp_all
        subst this; simp
      · rfl) (by
      rintro i ⟨p, j0⟩ hi1 hi2 ⟨h1, h2, h3⟩
      simp only at h1 h2 h3
      obtain ⟨j, bit, h4, h5⟩ := brInner_rev K (i - 1) (by omega)
      rw [show i - 1 + 1 = i by omega] at h5
      rw [hv] at hi2
      have hr : rev K i < 2 ^ K := rev_lt K i
      simp only [h1, hv, h4, go_bind_ok, h5]
      by_cases hlt : i < rev K i
      · rw [if_pos hlt]
        have hi3 : i < p.length := by omega
        have hj3 : rev K i < p.length := by omega
        refine ⟨_, by simp only [idx_ok hi3, idx_ok hj3, go_bind_ok, setIdx_ok hi3,
          setIdx_ok (show rev K i < (p.set i p[rev K i]).length by simpa using hj3)]; rfl, ?_, ?_, ?_⟩
        · simp
        · simpa using h2
        · intro x hx
          have hpi : p[i]? = v[i]? := by
            rw [h3 i hi2, if_neg (by omega)]
          have hpj : p[rev K i]? = v[rev K i]? := by
            rw [h3 _ hr, if_neg (by rw [rev_rev K i hi2]; omega)]
          simp only [List.getElem?_set]
          by_cases hxj : rev K i = x
          · subst hxj
            simp only [List.length_set, hj3, if_true, rev_rev K i hi2]
            rw [if_pos (by omega), ← hpi, List.getElem?_eq_getElem hi3]
          · rw [if_neg hxj]
            by_cases hxi : i = x
            · subst hxi
              simp only [hi3, if_true]
              rw [if_pos (by omega), ← hpj, List.getElem?_eq_getElem hj3]
            · rw [if_neg hxi, h3 x hx]
              have hne : rev K x ≠ i := fun h => hxj (by rw [← h, rev_rev K x hx])
              by_cases hm : min x (rev K x) < i
              · rw [if_pos hm, if_pos (by omega)]
              · rw [if_neg hm, if_neg (by omega)]
      · rw [if_neg hlt]
        refine ⟨_, rfl, by simp, h2, ?_⟩
        intro x hx
        simp only
        rw [h3 x hx]
        by_cases hm : min x (rev K x) < i
        · rw [if_pos hm, if_pos (by omega)]
        · rw [if_neg hm]
          by_cases hm2 : min x (rev K x) < i + 1
          · rw [if_pos hm2]
            have : x = i ∨ rev K x = i := by omega
            rcases this with h | h
            · subst h
              have : rev K x = x := by omega
              rw [this]
            · have hxx : x = rev K i := by rw [← h, rev_rev K x hx]
              have : rev K x = x := by omega
              rw [this]
          · rw [if_neg hm2])
  obtain ⟨⟨w, j⟩, hw1, hw2, hw3, hw4⟩ := main
  refine ⟨w, ?_, hw3, ?_⟩
  · unfold bitReverseInPlace
    rw [hw1]; rfl
  · intro i hi
    have h := hw4 i hi
    rw [if_pos (by rw [hv]; omega)] at h
    exact h

end Ringo
