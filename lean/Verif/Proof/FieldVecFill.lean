import Verif.Proof.FieldVecAsync
import Verif.Proof.FieldExtra

/-! The part of `AsyncReadFrom` before the goroutine, and the two parts together. -/

namespace Ringo

open FieldPkg

theorem putLE_length (v : Nat) : (putLE v).length = 8 := by simp [putLE]

theorem putLE_val {v : Nat} (hv : v < 2 ^ 64) : beVal (putLE v).reverse = v := by
  simp only [putLE, beVal, List.range, List.range.loop, List.map_cons, List.map_nil, List.foldl_cons,
    List.foldl_nil, UInt8.toNat_ofNat', List.reverse_cons, List.reverse_nil, List.nil_append, List.cons_append]
  omega

theorem putLE_getLE {c : List UInt8} (hc : 8 ≤ c.length) : putLE (getLE c 0) = c.take 8 := by
  have h1 : (putLE (getLE c 0)).reverse = (c.take 8).reverse := by
    apply bigEndian_inj
    · simp [putLE_length, hc]
    · rw [← beVal_eq_bigEndian, ← beVal_eq_bigEndian, putLE_val (getLE_lt c 0)]
      rfl
  exact List.reverse_injective h1

theorem memWords_succ (n : Nat) (b : List UInt8) : memWords (n + 1) b = getLE b 0 :: memWords n (b.drop 8) := by
  unfold memWords
  rw [List.range_succ_eq_map, List.map_cons, List.map_map]
  congr 1
  apply List.map_congr_left
  intro i _
  simp only [Function.comp, getLE, List.drop_drop]
  congr 4
  omega

theorem memBytes_memWords : ∀ (n : Nat) (b : List UInt8), 8 * n ≤ b.length → memBytes (memWords n b) = b.take (8 * n)
  | 0, b, _ => by simp [memBytes, memWords]
  | n + 1, b, h => by
    rw [memWords_succ, memBytes, List.flatMap_cons, putLE_getLE (by omega)]
    have ih := memBytes_memWords n (b.drop 8) (by simp; omega)
    rw [memBytes] at ih
    rw [ih, show 8 * (n + 1) = 8 + 8 * n by ring, List.take_add]

theorem memElems_length (n : Nat) : ∀ (k : Nat) (b : List UInt8), (memElems n k b).length = k
  | 0, _ => rfl
  | k + 1, b => by rw [memElems, List.length_cons, memElems_length n k]

theorem memElems_getD (n : Nat) : ∀ (k : Nat) (b : List UInt8) (i : Nat), i < k →
    (memElems n k b).getD i [] = memWords n (b.drop (i * (8 * n)))
  | 0, _, _, h => absurd h (Nat.not_lt_zero _)
  | k + 1, b, 0, _ => by simp [memElems]
  | k + 1, b, i + 1, h => by
    rw [memElems, List.getD_cons_succ, memElems_getD n k _ i (by omega), List.drop_drop]
    congr 2
    ring

namespace FieldPkg

variable {P : FieldPkg}

theorem asyncFill_spec {max len : Nat} (hmax : 1 ≤ max) : ∀ (k i : Nat) (r : List UInt8) (total : Nat)
    (mem : List UInt8), len ≤ k + i →
    ((len - i) * (8 * P.n) ≤ r.length →
      P.asyncFill max len k i r total mem =
        ⟨total + (len - i) * (8 * P.n), none, memElems P.n len (mem ++ r.take ((len - i) * (8 * P.n))),
          r.drop ((len - i) * (8 * P.n))⟩) ∧
    (r.length < (len - i) * (8 * P.n) → (P.asyncFill max len k i r total mem).err ≠ none) := by
  intro k
  induction k with
  | zero =>
    intro i r total mem hk
    have : len - i = 0 := by omega
    simp [asyncFill, this]
  | succ k ih =>
    intro i r total mem hk
    rw [asyncFill]
    by_cases hi : i < len
    · rw [if_pos hi]
      set m := min (len - i) max with hm
      have hml : m ≤ len - i := Nat.min_le_left _ _
      have hsub : len - (i + max) = len - i - m := by omega
      obtain ⟨ih1, ih2⟩ := ih (i + max) (r.drop (m * (8 * P.n)))
        (total + (r.take (m * (8 * P.n))).length)
        (mem ++ r.take (m * (8 * P.n)) ++
          List.replicate (m * (8 * P.n) - (r.take (m * (8 * P.n))).length) 0) (by omega)
      have hsplit : (len - i) * (8 * P.n) = m * (8 * P.n) + (len - i - m) * (8 * P.n) := by
        rw [← Nat.add_mul]; congr 1; omega
      by_cases hr : m * (8 * P.n) ≤ r.length
      · have hl : (r.take (m * (8 * P.n))).length = m * (8 * P.n) := by simp [hr]
        simp only [readFull_ok hr, reduceCtorEq, if_false, ne_eq, not_true_eq_false]
        rw [hsub] at ih1 ih2
        rw [hl, Nat.sub_self, List.replicate_zero, List.append_nil] at ih1 ih2 ⊢
        constructor
        · intro hx
          rw [ih1 (by rw [List.length_drop]; omega)]
          congr 1
          · omega
          · rw [List.append_assoc, hsplit, List.take_add]
          · rw [List.drop_drop, hsplit]
        · intro hx
          exact ih2 (by rw [List.length_drop]; omega)
      · constructor
        · intro hx
          have : m * (8 * P.n) ≤ (len - i) * (8 * P.n) := Nat.mul_le_mul_right _ hml
          omega
        · intro _
          simp only [readFull, hr, if_false]
          split_ifs <;> simp_all
    · rw [if_neg hi]
      have : len - i = 0 := by omega
      simp [this]

theorem cellZ_mem {b : List UInt8} (h : 8 * P.n ≤ b.length) : P.cellZ (memWords P.n b) = beWords P.n (b.take (8 * P.n)) := by
  unfold cellZ
  rw [memBytes_memWords P.n b h]
  rfl

theorem element_smaller {c : List UInt8} : P.element c =
    if P.smaller (beWords P.n c) then some (P.toMont (beWords P.n c)) else none := by
  have he : P.element c = if !P.smaller (beWords P.n c) then none else some (P.toMont (beWords P.n c)) := rfl
  rw [he]
  cases P.smaller (beWords P.n c) <;> rfl

/-- The bodies of encodings, by position. -/
theorem forall_body {p n : Nat} : ∀ {l : List (ZMod p)} {body : List (List UInt8)},
    List.Forall₂ (fun (a : ZMod p) (c : List UInt8) => c.length = 8 * n ∧ bigEndian c = a.val) l body →
    body.flatten.length = l.length * (8 * n) ∧ ∀ i, (hi : i < l.length) →
      ((body.flatten.drop (i * (8 * n))).take (8 * n)).length = 8 * n ∧
        bigEndian ((body.flatten.drop (i * (8 * n))).take (8 * n)) = (l[i]).val := by
  intro l body h
  induction h with
  | nil => exact ⟨by simp, fun i hi => absurd hi (by simp)⟩
  | @cons a c l body hc _ ih =>
    refine ⟨?_, ?_⟩
    · rw [List.flatten_cons, List.length_append, ih.1, hc.1, List.length_cons]; ring
    · intro i hi
      cases i with
      | zero =>
        have : (c ++ body.flatten).take (8 * n) = c := by rw [← hc.1]; simp
        rw [Nat.zero_mul, List.drop_zero, List.flatten_cons, this]
        exact hc
      | succ i =>
        have : (c ++ body.flatten).drop ((i + 1) * (8 * n)) = body.flatten.drop (i * (8 * n)) := by
          rw [show (i + 1) * (8 * n) = c.length + i * (8 * n) by rw [hc.1]; ring, ← List.drop_drop]
          simp
        rw [List.flatten_cons, this]
        exact ih.2 i (by simpa using hi)

/-- Bytes that split into valid elements. -/
theorem exists_body (h : P.Good) : ∀ (k : Nat) (b : List UInt8), b.length = k * (8 * P.n) →
    (∀ i < k, P.smaller (beWords P.n ((b.drop (i * (8 * P.n))).take (8 * P.n))) = true) →
    ∃ (l : List (ZMod P.p)) (body : List (List UInt8)), l.length = k ∧ b = body.flatten ∧
      List.Forall₂ (fun (a : ZMod P.p) (c : List UInt8) => c.length = 8 * P.n ∧ bigEndian c = a.val) l body
  | 0, b, hb, _ => ⟨[], [], rfl, by simpa using hb, List.Forall₂.nil⟩
  | k + 1, b, hb, hs => by
    have hle : 8 * P.n ≤ b.length := by rw [hb]; exact Nat.le_mul_of_pos_left _ (Nat.succ_pos _)
    have hl : (b.take (8 * P.n)).length = 8 * P.n := by simp [hle]
    obtain ⟨l, body, e1, e2, e3⟩ := exists_body h k (b.drop (8 * P.n))
      (by rw [List.length_drop, hb, Nat.add_mul, Nat.one_mul, Nat.add_sub_cancel]) (by
        intro i hi
        have := hs (i + 1) (by omega)
        rw [List.drop_drop]
        rwa [show (i + 1) * (8 * P.n) = 8 * P.n + i * (8 * P.n) by ring] at this)
    have h0 := hs 0 (Nat.succ_pos _)
    rw [Nat.zero_mul, List.drop_zero] at h0
    rcases element_of_bytes h hl with ⟨w, a, _, _, h3⟩ | ⟨h1, _⟩
    · refine ⟨a :: l, b.take (8 * P.n) :: body, by simp [e1], ?_, List.Forall₂.cons ⟨hl, h3⟩ e3⟩
      rw [List.flatten_cons, ← e2, List.take_append_drop]
    · rw [element_smaller, h0] at h1
      cases h1

theorem vecForm_of_getD {p n : Nat} : ∀ {w : List (List Nat)} {l : List (ZMod p)}, w.length = l.length →
    (∀ i, (hi : i < l.length) → MontForm p n (w.getD i []) l[i]) → VecForm p n w l
  | [], [], _, _ => List.Forall₂.nil
  | a :: w, b :: l, hl, h => List.Forall₂.cons (h 0 (Nat.succ_pos _))
      (vecForm_of_getD (by simpa using hl) fun i hi => h (i + 1) (by simpa using hi))

/-- The two parts on an encoding. -/
theorem async_ok (h : P.Good) {target tasks : Nat} (ht : 1 ≤ tasks) (hg : 8 * P.n ≤ target) (old : List (List Nat))
    {l : List (ZMod P.p)} {e : List UInt8} (he : VecBytes P.p P.n l e) (rest : List UInt8) (sched : List Nat)
    (hd : (P.asyncRun tasks (P.asyncStart target old (e ++ rest)).1.vec
      (P.asyncStart target old (e ++ rest)).2 sched).Done) :
    (P.asyncStart target old (e ++ rest)).1.read = e.length ∧
    (P.asyncStart target old (e ++ rest)).1.err = none ∧
    (P.asyncStart target old (e ++ rest)).1.rest = rest ∧
    (P.asyncRun tasks (P.asyncStart target old (e ++ rest)).1.vec
      (P.asyncStart target old (e ++ rest)).2 sched).errs = 0 ∧
    VecForm P.p P.n (P.asyncRun tasks (P.asyncStart target old (e ++ rest)).1.vec
      (P.asyncStart target old (e ++ rest)).2 sched).vec l := by
  have hn : 0 < 8 * P.n := by have := h.two_le; omega
  obtain ⟨hd', body, rfl, h4, hlen, hb⟩ := he
  obtain ⟨hbl, hbi⟩ := forall_body hb
  have hrf : readFull (hd' ++ body.flatten ++ rest) 4 = (hd', body.flatten ++ rest, none) := by
    rw [← h4, List.append_assoc, readFull_append]
  have hv : P.asyncStart target old (hd' ++ body.flatten ++ rest) =
      (⟨4 + body.flatten.length, none, memElems P.n l.length body.flatten, rest⟩, l.length) := by
    rw [asyncStart, hrf]
    simp only [ne_eq, not_true_eq_false, if_false]
    rw [beVal_eq_bigEndian, hlen]
    by_cases hl0 : l.length = 0
    · rw [if_pos hl0, hl0]
      have : body.flatten = [] := List.length_eq_zero_iff.1 (by rw [hbl, hl0, Nat.zero_mul])
      rw [this]
      rfl
    · rw [if_neg hl0]
      have hf := (asyncFill_spec (P := P) (max := target / (8 * P.n)) (len := l.length)
        ((Nat.one_le_div_iff hn).2 hg) l.length 0 (body.flatten ++ rest) 4 [] (by omega)).1
        (by rw [Nat.sub_zero, ← hbl]; simp)
      rw [Nat.sub_zero, ← hbl] at hf
      rw [hf]
      simp
  rw [hv] at hd ⊢
  dsimp only at hd ⊢
  obtain ⟨k1, k2, _, k4⟩ := asyncRun_done ht (memElems_length P.n l.length body.flatten) sched hd
  have hcell : ∀ i, (hi : i < l.length) → P.cellZ ((memElems P.n l.length body.flatten).getD i []) =
      beWords P.n ((body.flatten.drop (i * (8 * P.n))).take (8 * P.n)) := by
    intro i hi
    rw [memElems_getD _ _ _ _ hi, cellZ_mem]
    have := (hbi i hi).1
    rw [List.length_take] at this
    omega
  have hgood : ∀ i, (hi : i < l.length) →
      P.smaller (P.cellZ ((memElems P.n l.length body.flatten).getD i [])) = true ∧
      MontForm P.p P.n (P.toMont (P.cellZ ((memElems P.n l.length body.flatten).getD i []))) l[i] := by
    intro i hi
    rw [hcell i hi]
    obtain ⟨w, h1, h2⟩ := element_of_val h (hbi i hi).1 (hbi i hi).2
    rw [element_smaller] at h1
    split at h1
    · rename_i hs
      rw [Option.some.injEq] at h1
      exact ⟨hs, h1 ▸ h2⟩
    · cases h1
  refine ⟨by rw [List.length_append, h4], rfl, rfl, k2.2 fun i hi => (hgood i hi).1, ?_⟩
  apply vecForm_of_getD k1
  intro i hi
  have : i ∈ (executeRanges tasks l.length).flatMap (fun r => List.range' r.1 (r.2 - r.1)) :=
    executeRanges_flat ht l.length ▸ List.mem_range.2 hi
  obtain ⟨r, hr, hm⟩ := List.mem_flatMap.1 this
  rw [List.mem_range'_1] at hm
  rw [k4 r hr i hm.1 (by omega), if_pos]
  · exact (hgood i hi).2
  · rw [List.all_eq_true]
    intro j hj
    rw [List.mem_range'_1] at hj
    exact (hgood j (by omega)).1

/-- What the two parts accept is an encoding. -/
theorem async_only (h : P.Good) {target tasks : Nat} (ht : 1 ≤ tasks) (hg : 8 * P.n ≤ target) (old : List (List Nat))
    {r : List UInt8} (sched : List Nat)
    (hd : (P.asyncRun tasks (P.asyncStart target old r).1.vec (P.asyncStart target old r).2 sched).Done)
    (h1 : (P.asyncStart target old r).1.err = none)
    (h2 : (P.asyncRun tasks (P.asyncStart target old r).1.vec (P.asyncStart target old r).2 sched).errs = 0) :
    ∃ (l : List (ZMod P.p)) (e rest : List UInt8), VecBytes P.p P.n l e ∧ r = e ++ rest := by
  have hn : 0 < 8 * P.n := by have := h.two_le; omega
  by_cases h4 : 4 ≤ r.length
  · have hst : P.asyncStart target old r =
        if beVal (r.take 4) = 0 then (⟨4, none, [], r.drop 4⟩, 0)
        else
          if (P.asyncFill (target / (8 * P.n)) (beVal (r.take 4)) (beVal (r.take 4)) 0 (r.drop 4) 4 []).err ≠ none
          then (P.asyncFill (target / (8 * P.n)) (beVal (r.take 4)) (beVal (r.take 4)) 0 (r.drop 4) 4 [], 0)
          else (P.asyncFill (target / (8 * P.n)) (beVal (r.take 4)) (beVal (r.take 4)) 0 (r.drop 4) 4 [],
            beVal (r.take 4)) := by
      rw [asyncStart, readFull_ok h4]
      simp only [ne_eq, not_true_eq_false, if_false]
    have hl4 : (r.take 4).length = 4 := by simp [h4]
    by_cases hl0 : beVal (r.take 4) = 0
    · exact ⟨[], r.take 4, r.drop 4, ⟨r.take 4, [], by simp, hl4, by rw [← beVal_eq_bigEndian, hl0]; rfl,
        List.Forall₂.nil⟩, (List.take_append_drop _ _).symm⟩
    · rw [if_neg hl0] at hst
      generalize hlen : beVal (r.take 4) = len at *
      have hspec := asyncFill_spec (P := P) (max := target / (8 * P.n)) (len := len)
        ((Nat.one_le_div_iff hn).2 hg) len 0 (r.drop 4) 4 [] (by omega)
      rw [Nat.sub_zero] at hspec
      by_cases hlt : (r.drop 4).length < len * (8 * P.n)
      · rw [if_pos (hspec.2 hlt)] at hst
        rw [hst] at h1
        exact absurd h1 (hspec.2 hlt)
      · rw [hspec.1 (not_lt.1 hlt)] at hst
        simp only [ne_eq, not_true_eq_false, if_false, List.nil_append] at hst
        rw [hst] at hd h2
        dsimp only at hd h2
        obtain ⟨_, k2, _, _⟩ := asyncRun_done ht (memElems_length P.n len _) sched hd
        have hall := k2.1 h2
        have hbl : ((r.drop 4).take (len * (8 * P.n))).length = len * (8 * P.n) := by
          rw [List.length_take]; omega
        obtain ⟨l, body, e1, e2, e3⟩ := exists_body h len _ hbl (by
          intro i hi
          have := hall i hi
          rwa [memElems_getD _ _ _ _ hi, cellZ_mem] at this
          rw [List.length_drop, hbl]
          have : (i + 1) * (8 * P.n) ≤ len * (8 * P.n) := Nat.mul_le_mul_right _ hi
          rw [Nat.add_mul, Nat.one_mul] at this
          omega)
        refine ⟨l, r.take 4 ++ body.flatten, (r.drop 4).drop (len * (8 * P.n)), ⟨_, body, rfl, hl4, ?_, e3⟩, ?_⟩
        · rw [← beVal_eq_bigEndian, hlen, e1]
        · rw [← e2, List.append_assoc, List.take_append_drop, List.take_append_drop]
  · exfalso
    rw [asyncStart] at h1
    simp only [readFull, h4, if_false] at h1
    split_ifs at h1 <;> simp_all

end FieldPkg

end Ringo
