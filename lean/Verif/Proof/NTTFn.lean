import Verif.Proof.NTTRefine

/-!
# One NTT layer as a function on coefficient indices
-/

namespace Ringo

variable {F : Type}

/-- What one layer does to position `i`. -/
def layerFn (bt : F → F → F → F × F) (tw : Nat → F) (m t : Nat) (f : Nat → F) (i : Nat) : F :=
  if i % (2 * t) < t then (bt (f i) (f (i + t)) (tw (m + i / (2 * t)))).1
  else (bt (f (i - t)) (f i) (tw (m + i / (2 * t)))).2

theorem flatMap_blocks (m t : Nat) (g : Nat → Nat → Nat × Nat × Nat) :
    ((List.range m).flatMap fun i => (List.range t).map fun r => g i r) =
      (List.range (m * t)).map fun q => g (q / t) (q % t) := by
  induction m with
  | zero => simp
  | succ m ih =>
    rw [List.range_succ, List.flatMap_append, ih, Nat.succ_mul]
    have h : List.range (m * t + t) = List.range (m * t) ++ (List.range t).map (m * t + ·) := by
      rw [List.range_add]
    rw [h, List.map_append]
    congr 1
    simp only [List.flatMap_cons, List.flatMap_nil, List.append_nil, List.map_map]
    apply List.map_congr_left
    intro r hr
    rw [List.mem_range] at hr
    have ht : 0 < t := by omega
    simp only [Function.comp]
    rw [Nat.mul_comm m t, Nat.mul_add_div ht, Nat.mul_add_mod, Nat.div_eq_of_lt hr, Nat.mod_eq_of_lt hr]
    simp

theorem layerIdx_eq (m t : Nat) :
    layerIdx m t = (List.range (m * t)).map fun q =>
      (q / t * (2 * t) + q % t, q / t * (2 * t) + q % t + t, m + q / t) := by
  rw [← flatMap_blocks m t (fun i r => (i * (2 * t) + r, i * (2 * t) + r + t, m + i))]
  unfold layerIdx
  congr 1; funext i
  rw [List.range'_eq_map_range, List.map_map]
  apply List.map_congr_left
  intro r _
  simp only [Function.comp]
  rw [show i * t * 2 = i * (2 * t) by ring]

theorem bflyAt_ok (bt : F → F → F → F × F) (tw p : List F) (a b w : Nat) (d : F)
    (ha : a < p.length) (hb : b < p.length) (hw : w < tw.length) (hab : a ≠ b) :
    ∃ p', bflyAt bt tw p a b w = .ok p' ∧ p'.length = p.length ∧
      ∀ x, p'.getD x d = if x = a then (bt (p.getD a d) (p.getD b d) (tw.getD w d)).1
        else if x = b then (bt (p.getD a d) (p.getD b d) (tw.getD w d)).2 else p.getD x d := by
  refine ⟨(p.set a (bt p[a] p[b] tw[w]).1).set b (bt p[a] p[b] tw[w]).2, ?_, by simp, ?_⟩
  · unfold bflyAt
    simp [ha, hb, hw]
  · intro x
    simp only [List.getD_eq_getElem?_getD, List.getElem?_set, List.length_set, ha, hb, hw,
      List.getElem?_eq_getElem, Option.getD_some, if_true]
    by_cases hxa : x = a
    · subst hxa
      rw [if_neg (by omega), if_pos rfl, if_pos rfl]; rfl
    · by_cases hxb : x = b
      · subst hxb
        rw [if_pos rfl, if_neg hxa, if_pos rfl]; rfl
      · rw [if_neg (by omega), if_neg (by omega), if_neg hxa, if_neg hxb]

/-- The loop of one layer computes `layerFn` at every position. -/
theorem layer_spec (bt : F → F → F → F × F) (tw p : List F) (m t : Nat) (d : F) (ht : 0 < t)
    (hp : p.length = m * (2 * t)) (htw : 2 * m ≤ tw.length) :
    ∃ p', (layerIdx m t).foldlM (bstep bt tw) p = .ok p' ∧ p'.length = p.length ∧
      ∀ x < p.length, p'.getD x d = layerFn bt (tw.getD · d) m t (p.getD · d) x := by
  rw [layerIdx_eq, List.foldlM_map]
  let f := fun (p : List F) (q : Nat) => bstep bt tw p
      (q / t * (2 * t) + q % t, q / t * (2 * t) + q % t + t, m + q / t)
  have key := forRange_spec (f := f) 0 (m * t) (by omega) (fun q p' => p'.length = p.length ∧
    ∀ x < p.length, p'.getD x d = if x / (2 * t) * t + x % t < q then
      layerFn bt (tw.getD · d) m t (p.getD · d) x else p.getD x d) p
    ⟨rfl, fun x _ => by simp⟩ (by
      rintro q p' - hq ⟨h1, h2⟩
      have hqt : q / t < m := by rw [Nat.div_lt_iff_lt_mul ht]; exact hq
      have hr : q % t < t := Nat.mod_lt _ ht
      have hq' : q = q / t * t + q % t := by rw [Nat.mul_comm]; exact (Nat.div_add_mod q t).symm
      generalize q / t = i at *
      generalize q % t = r at *
      subst hq'
      have hle : (i + 1) * (2 * t) ≤ m * (2 * t) := Nat.mul_le_mul_right _ hqt
      have hexp : (i + 1) * (2 * t) = i * (2 * t) + 2 * t := by ring
      have h2t : 0 < 2 * t := by omega
      obtain ⟨p'', h3, h4, h5⟩ := bflyAt_ok bt tw p' (i * (2 * t) + r) (i * (2 * t) + r + t) (m + i) d
        (by omega) (by omega) (by omega) (by omega)
      have dq : (i * t + r) / t = i := by
        rw [Nat.mul_comm, Nat.mul_add_div ht, Nat.div_eq_of_lt hr]; rfl
      have mq : (i * t + r) % t = r := by
        rw [Nat.mul_comm, Nat.mul_add_mod, Nat.mod_eq_of_lt hr]
      refine ⟨p'', ?_, by omega, ?_⟩
      · show bflyAt bt tw p' ((i * t + r) / t * (2 * t) + (i * t + r) % t)
          ((i * t + r) / t * (2 * t) + (i * t + r) % t + t) (m + (i * t + r) / t) = _
        rw [dq, mq]; exact h3
      have da : (i * (2 * t) + r) / (2 * t) = i := by
        rw [Nat.mul_comm, Nat.mul_add_div h2t, Nat.div_eq_of_lt (by omega)]; rfl
      have ma : (i * (2 * t) + r) % (2 * t) = r := by
        rw [Nat.mul_comm, Nat.mul_add_mod, Nat.mod_eq_of_lt (by omega)]
      have db : (i * (2 * t) + r + t) / (2 * t) = i := by
        rw [Nat.add_assoc, Nat.mul_comm, Nat.mul_add_div h2t, Nat.div_eq_of_lt (by omega)]; rfl
      have mb : (i * (2 * t) + r + t) % (2 * t) = r + t := by
        rw [Nat.add_assoc, Nat.mul_comm, Nat.mul_add_mod, Nat.mod_eq_of_lt (by omega)]
      have mta : (i * (2 * t) + r) % t = r := by
        rw [show i * (2 * t) + r = t * (2 * i) + r by ring, Nat.mul_add_mod, Nat.mod_eq_of_lt hr]
      have mtb : (i * (2 * t) + r + t) % t = r := by
        rw [Nat.add_mod_right, mta]
      have va : p'.getD (i * (2 * t) + r) d = p.getD (i * (2 * t) + r) d := by
        rw [h2 _ (by omega), if_neg (by rw [da, mta]; omega)]
      have vb : p'.getD (i * (2 * t) + r + t) d = p.getD (i * (2 * t) + r + t) d := by
        rw [h2 _ (by omega), if_neg (by rw [db, mtb]; omega)]
      intro x hx
      rw [h5, va, vb]
      by_cases hxa : x = i * (2 * t) + r
      · subst hxa
        rw [if_pos rfl, if_pos (by rw [da, mta]; omega)]
        unfold layerFn
        rw [ma, if_pos hr, da]
      · rw [if_neg hxa]
        by_cases hxb : x = i * (2 * t) + r + t
        · subst hxb
          rw [if_pos rfl, if_pos (by rw [db, mtb]; omega)]
          unfold layerFn
          rw [mb, if_neg (by omega), db, Nat.add_sub_cancel]
        · rw [if_neg hxb, h2 x hx]
          have hne : x / (2 * t) * t + x % t ≠ i * t + r := by
            intro he
            have hxr : x % t < t := Nat.mod_lt _ ht
            have h6 : x / (2 * t) = i := by
              have a1 : (x / (2 * t) * t + x % t) / t = (i * t + r) / t := by rw [he]
              rw [dq, Nat.mul_comm (x / (2 * t)) t, Nat.mul_add_div ht, Nat.div_eq_of_lt hxr] at a1
              exact a1
            have h7 : x % t = r := by rw [h6] at he; omega
            have h8 := Nat.div_add_mod x (2 * t)
            rw [h6, Nat.mul_comm] at h8
            have h9 : x % (2 * t) % t = r := by rw [Nat.mod_mod_of_dvd _ ⟨2, by ring⟩, h7]
            have h10 : x % (2 * t) < 2 * t := Nat.mod_lt _ h2t
            by_cases h11 : x % (2 * t) < t
            · rw [Nat.mod_eq_of_lt h11] at h9; omega
            · rw [Nat.mod_eq_sub_mod (by omega), Nat.mod_eq_of_lt (by omega)] at h9; omega
          by_cases hc : x / (2 * t) * t + x % t < i * t + r
          · rw [if_pos hc, if_pos (by omega)]
          · rw [if_neg hc, if_neg (by omega)])
  rw [forRange_one, ← List.range_eq_range', Nat.sub_zero] at key
  obtain ⟨p', h1, h2, h3⟩ := key
  refine ⟨p', h1, h2, fun x hx => ?_⟩
  rw [h3 x hx, if_pos]
  have h2t : 0 < 2 * t := by omega
  have : x / (2 * t) < m := by rw [Nat.div_lt_iff_lt_mul h2t]; omega
  have h4 : x % t < t := Nat.mod_lt _ ht
  have h5 : (x / (2 * t) + 1) * t ≤ m * t := Nat.mul_le_mul_right _ this
  have : (x / (2 * t) + 1) * t = x / (2 * t) * t + t := by ring
  omega

theorem layerFn_congr (bt : F → F → F → F × F) (tw : Nat → F) (m t : Nat) (ht : 0 < t) {f g : Nat → F}
    (h : ∀ i < m * (2 * t), f i = g i) (i : Nat) (hi : i < m * (2 * t)) :
    layerFn bt tw m t f i = layerFn bt tw m t g i := by
  have h2t : 0 < 2 * t := by omega
  have hd := Nat.div_add_mod i (2 * t)
  have hm : i % (2 * t) < 2 * t := Nat.mod_lt _ h2t
  have hlt : i / (2 * t) < m := by rw [Nat.div_lt_iff_lt_mul h2t]; exact hi
  have hle : (i / (2 * t) + 1) * (2 * t) ≤ m * (2 * t) := Nat.mul_le_mul_right _ hlt
  have hexp : (i / (2 * t) + 1) * (2 * t) = 2 * t * (i / (2 * t)) + 2 * t := by ring
  unfold layerFn
  split
  · rw [h i hi, h (i + t) (by omega)]
  · rw [h i hi, h (i - t) (by omega)]

/-- A whole sequence of layers. -/
def layersFn (K : Nat) (bt : F → F → F → F × F) (tw : Nat → F) (L : List Nat) (f : Nat → F) : Nat → F :=
  L.foldl (fun f k => layerFn bt tw (2 ^ k) (2 ^ (K - 1 - k)) f) f

theorem layer_size (K k : Nat) (hk : k < K) : 2 ^ k * (2 * 2 ^ (K - 1 - k)) = 2 ^ K := by
  rw [← Nat.pow_succ', ← Nat.pow_add]; congr 1; omega

theorem layersFn_congr (K : Nat) (bt : F → F → F → F × F) (tw : Nat → F) (L : List Nat)
    (hL : ∀ k ∈ L, k < K) {f g : Nat → F} (h : ∀ i < 2 ^ K, f i = g i) :
    ∀ i < 2 ^ K, layersFn K bt tw L f i = layersFn K bt tw L g i := by
  induction L generalizing f g with
  | nil => exact h
  | cons k L ih =>
    refine ih (fun k hk => hL k (by simp [hk])) ?_
    have hs := layer_size K k (hL k (by simp))
    intro i hi
    exact layerFn_congr bt tw _ _ (Nat.two_pow_pos _) (fun j hj => h j (by omega)) i (by omega)

theorem layers_spec (K : Nat) (bt : F → F → F → F × F) (tw p : List F) (L : List Nat) (d : F)
    (hL : ∀ k ∈ L, k < K) (hp : p.length = 2 ^ K) (htw : 2 ^ K ≤ tw.length) :
    ∃ p', L.foldlM (layerK K bt tw) p = .ok p' ∧ p'.length = 2 ^ K ∧
      ∀ x < 2 ^ K, p'.getD x d = layersFn K bt (tw.getD · d) L (p.getD · d) x := by
  induction L generalizing p with
  | nil => exact ⟨p, rfl, hp, fun _ _ => rfl⟩
  | cons k L ih =>
    have hk := hL k (by simp)
    have hs := layer_size K k hk
    have h2k : 2 * 2 ^ k ≤ 2 ^ K := by
      rw [← Nat.pow_succ']; exact Nat.pow_le_pow_right (by decide) hk
    obtain ⟨p1, h1, h2, h3⟩ := layer_spec bt tw p (2 ^ k) (2 ^ (K - 1 - k)) d (Nat.two_pow_pos _)
      (by omega) (by omega)
    obtain ⟨p2, h4, h5, h6⟩ := ih p1 (fun k hk => hL k (by simp [hk])) (by omega)
    refine ⟨p2, ?_, h5, fun x hx => ?_⟩
    · rw [List.foldlM_cons]
      unfold layerK at h4 ⊢
      rw [h1]; exact h4
    · rw [h6 x hx]
      exact layersFn_congr K bt _ L (fun k hk => hL k (by simp [hk]))
        (fun i hi => by rw [h3 i (by omega)]) x hx

end Ringo
