import Verif.Model.NTT
import Verif.Proof.Vec

/-!
# The loops of `ntt.go` refined to pure layers

Every layer (reference or unrolled) runs the same list of butterflies, and running that list
updates position `i` as the pure function `layerFn` says.
-/

namespace Ringo

variable {F σ α β : Type _}

/-- A loop with an arbitrary body, which under an invariant runs a list of elementary steps. -/
theorem foldlM_flat_inv {body : σ → α → Go σ} {f : σ → β → Go σ} {g : α → List β}
    (P : σ → Prop) (L : List α) (s : σ) (hP : P s)
    (hbody : ∀ s a, a ∈ L → P s → body s a = (g a).foldlM f s)
    (hf : ∀ s b s', P s → f s b = .ok s' → P s') :
    L.foldlM body s = (L.flatMap g).foldlM f s := by
  rw [foldlM_flatMap]
  refine foldlM_congr_inv P L s hP hbody ?_
  intro s a s' _ hs h
  clear hbody hP
  generalize g a = M at h
  induction M generalizing s with
  | nil => cases h; exact hs
  | cons b M ih =>
    rw [List.foldlM_cons] at h
    cases hb : f s b with
    | error e => rw [hb] at h; cases h
    | ok s1 => rw [hb] at h; exact ih s1 (hf s b s1 hs hb) h

/-- A butterfly step as a list element: positions `a`, `b`, twiddle `w`. -/
def bstep (bt : F → F → F → F × F) (tw : List F) (p : List F) (x : Nat × Nat × Nat) :
    Go (List F) := bflyAt bt tw p x.1 x.2.1 x.2.2

/-- The butterflies of the layer with `m` blocks of half-width `t`, in program order. -/
def layerIdx (m t : Nat) : List (Nat × Nat × Nat) :=
  (List.range m).flatMap fun i => (List.range' (i * t * 2) t).map fun j => (j, j + t, m + i)

theorem bflyAt_length {bt : F → F → F → F × F} {tw p p' : List F} {a b w : Nat}
    (h : bflyAt bt tw p a b w = .ok p') : p'.length = p.length := by
  unfold bflyAt at h
  cases h1 : idx p a with
  | error e => rw [h1] at h; cases h
  | ok u =>
    cases h2 : idx p b with
    | error e => rw [h1, h2] at h; cases h
    | ok v =>
      cases h3 : idx tw w with
      | error e => rw [h1, h2, h3] at h; cases h
      | ok t =>
        rw [h1, h2, h3] at h
        simp only [go_bind_ok, setIdx] at h
        split at h
        · simp only [go_bind_ok] at h
          split at h
          · cases h; simp
          · cases h
        · cases h

theorem ubflyAt_eq {bt : F → F → F → F × F} {tw p : List F} {a b w : Nat}
    (ha : a < p.length) (hb : b < p.length) : ubflyAt bt tw p a b w = bflyAt bt tw p a b w := by
  unfold ubflyAt bflyAt
  simp only [uidx_ok ha, uidx_ok hb, idx_ok ha, idx_ok hb, go_bind_ok, usetIdx_ok ha, setIdx_ok ha]
  cases idx tw w with
  | error e => rfl
  | ok t => simp [hb]

/-- A sequence of in-bounds unsafe butterflies is the sequence of checked ones. -/
theorem usteps_eq (bt : F → F → F → F × F) (tw : List F) (L : List (Nat × Nat × Nat)) (p : List F)
    (h : ∀ x ∈ L, x.1 < p.length ∧ x.2.1 < p.length) :
    L.foldlM (fun p x => ubflyAt bt tw p x.1 x.2.1 x.2.2) p = L.foldlM (bstep bt tw) p := by
  refine foldlM_congr_inv (fun q => q.length = p.length) L p rfl ?_ ?_
  · intro q x hx hq
    obtain ⟨h1, h2⟩ := h x hx
    exact ubflyAt_eq (by omega) (by omega)
  · intro q x q' _ hq hq'
    rw [bflyAt_length hq', hq]

theorem layerRef_eq (bt : F → F → F → F × F) (tw p : List F) (m t : Nat) :
    layerRef bt tw p m t = (layerIdx m t).foldlM (bstep bt tw) p := by
  unfold layerRef layerIdx
  rw [forRange_one, ← List.range_eq_range', Nat.sub_zero, foldlM_flatMap]
  congr 1; funext p i
  rw [forRange_one, List.foldlM_map, Nat.add_sub_cancel_left]
  rfl

theorem ubfly8_eq (bt : F → F → F → F × F) (tw p : List F) (j t w : Nat)
    (h : j + t + 7 < p.length) :
    ubfly8 bt tw p j t w =
      ((List.range' j 8).map fun j => (j, j + t, w)).foldlM (bstep bt tw) p := by
  rw [← usteps_eq]
  · unfold ubfly8
    simp only [List.range', List.map_cons, List.map_nil, List.foldlM_cons, List.foldlM_nil,
      addr_ok (show j < p.length by omega), addr_ok (show j + t < p.length by omega), go_bind_ok,
      bind_pure]
    simp only [Nat.add_zero, Nat.add_right_comm _ _ t, Nat.add_assoc, Nat.reduceAdd]
  · intro x hx
    simp only [List.mem_map, List.mem_range'] at hx
    obtain ⟨a, ⟨k, hk, rfl⟩, rfl⟩ := hx
    simp only; omega

theorem layerUnroll_eq (bt : F → F → F → F × F) (tw p : List F) (m t8 : Nat)
    (h : m * (8 * t8) * 2 ≤ p.length) :
    layerUnroll bt tw p m (8 * t8) = (layerIdx m (8 * t8)).foldlM (bstep bt tw) p := by
  unfold layerUnroll layerIdx
  rw [forRange_one, ← List.range_eq_range', Nat.sub_zero]
  refine foldlM_flat_inv (fun q => q.length = p.length) _ _ rfl ?_ ?_
  · intro q i hi hq
    rw [List.mem_range] at hi
    have hle : (i + 1) * (8 * t8) * 2 ≤ m * (8 * t8) * 2 :=
      Nat.mul_le_mul_right _ (Nat.mul_le_mul_right _ hi)
    rw [forRange, show (i * (8 * t8) * 2 + 8 * t8 - i * (8 * t8) * 2 + (8 - 1)) / 8 = t8 by omega,
      ← flatMap_blocks8, List.map_flatMap]
    refine foldlM_flat_inv (fun q => q.length = p.length) _ _ hq ?_ ?_
    · intro q j hj hq
      rw [List.mem_range'] at hj
      obtain ⟨k, hk, rfl⟩ := hj
      rw [ubfly8_eq]
      rw [hq]
      have : (i + 1) * (8 * t8) * 2 = i * (8 * t8) * 2 + 2 * (8 * t8) := by ring
      omega
    · intro q x q' hq h; rw [bflyAt_length h, hq]
  · intro q x q' hq h; rw [bflyAt_length h, hq]

theorem firstLayer_eq (bt : F → F → F → F × F) (tw p : List F) (t8 : Nat)
    (h : 2 * (8 * t8) ≤ p.length) :
    forRange 0 (8 * t8) 8 p (fun p j => ubfly8 bt tw p j (8 * t8) 1) =
      (layerIdx 1 (8 * t8)).foldlM (bstep bt tw) p := by
  rw [← layerUnroll_eq _ _ _ _ _ (by omega)]
  unfold layerUnroll
  rw [forRange_one]
  simp

theorem flatMap_pairs (n s : Nat) (g : Nat → List β) :
    (List.range' s n 2).flatMap (fun i => g i ++ g (i + 1)) = (List.range' s (2 * n)).flatMap g := by
  induction n generalizing s with
  | zero => rfl
  | succ n ih =>
    rw [show 2 * (n + 1) = 2 * n + 1 + 1 by ring, List.range'_succ, List.range'_succ, List.range'_succ,
      List.flatMap_cons, List.flatMap_cons, List.flatMap_cons, ih (s + 2)]
    simp

theorem flatMap_quads (n s : Nat) (g : Nat → List β) :
    (List.range' s n 4).flatMap (fun i => g i ++ g (i + 1) ++ g (i + 2) ++ g (i + 3)) =
      (List.range' s (4 * n)).flatMap g := by
  induction n generalizing s with
  | zero => rfl
  | succ n ih =>
    rw [show 4 * (n + 1) = 4 * n + 1 + 1 + 1 + 1 by ring]
    simp only [List.range'_succ, List.flatMap_cons]
    rw [ih (s + 4)]
    simp only [List.append_assoc]

theorem layer4_eq (bt : F → F → F → F × F) (tw p : List F) (N : Nat) (hN : p.length = N)
    (h8 : N % 8 = 0) :
    layer4 bt tw N p = (layerIdx (N / 8) 4).foldlM (bstep bt tw) p := by
  unfold layer4 layerIdx
  rw [forRange_one, ← List.range_eq_range', Nat.sub_zero]
  refine foldlM_flat_inv (fun q => q.length = N) _ _ hN ?_ ?_
  · intro q i hi hq
    rw [List.mem_range] at hi
    rw [← usteps_eq]
    · simp only [List.range', List.map_cons, List.map_nil, List.foldlM_cons, List.foldlM_nil,
        addr_ok (show 8 * i < q.length by omega), go_bind_ok, bind_pure]
      simp only [Nat.add_zero, Nat.add_assoc, Nat.reduceAdd, show i * 4 * 2 = 8 * i by ring,
        Nat.add_comm i (N / 8)]
    · intro x hx
      simp only [List.mem_map, List.mem_range'] at hx
      obtain ⟨a, ⟨k, hk, rfl⟩, rfl⟩ := hx
      simp only; omega
  · intro q x q' hq h; rw [bflyAt_length h, hq]

theorem layer2_eq (bt : F → F → F → F × F) (tw p : List F) (N : Nat) (hN : p.length = N)
    (h8 : N % 8 = 0) :
    layer2 bt tw N p = (layerIdx (N / 4) 2).foldlM (bstep bt tw) p := by
  unfold layer2 layerIdx
  rw [forRange, List.range_eq_range', show N / 4 = 2 * (N / 8) by omega, ← flatMap_pairs,
    show (2 * (N / 8) - 0 + (2 - 1)) / 2 = N / 8 by omega]
  refine foldlM_flat_inv (fun q => q.length = N) _ _ hN ?_ ?_
  · intro q i hi hq
    rw [List.mem_range'] at hi
    obtain ⟨k, hk, rfl⟩ := hi
    rw [← usteps_eq]
    · simp only [List.range', List.map_cons, List.map_nil, List.foldlM_cons, List.foldlM_nil,
        List.cons_append, List.nil_append,
        addr_ok (show 4 * (0 + 2 * k) < q.length by omega), go_bind_ok, bind_pure]
      simp only [Nat.add_zero, Nat.add_assoc, Nat.reduceAdd, Nat.zero_add,
        show 2 * k * 2 * 2 = 4 * (2 * k) by ring, show (2 * k + 1) * 2 * 2 = 4 * (2 * k) + 4 by ring,
        Nat.add_comm (2 * k) (2 * (N / 8))]
    · intro x hx
      simp only [List.mem_append, List.mem_map, List.mem_range'] at hx
      obtain ⟨a, ⟨k, hk, rfl⟩, rfl⟩ | ⟨a, ⟨k, hk, rfl⟩, rfl⟩ := hx <;> simp only <;> omega
  · intro q x q' hq h; rw [bflyAt_length h, hq]

theorem layer1_eq (bt : F → F → F → F × F) (tw p : List F) (N : Nat) (hN : p.length = N)
    (h8 : N % 8 = 0) :
    layer1 bt tw N p = (layerIdx (N / 2) 1).foldlM (bstep bt tw) p := by
  unfold layer1 layerIdx
  rw [forRange, List.range_eq_range', show N / 2 = 4 * (N / 8) by omega, ← flatMap_quads,
    show (4 * (N / 8) - 0 + (4 - 1)) / 4 = N / 8 by omega]
  refine foldlM_flat_inv (fun q => q.length = N) _ _ hN ?_ ?_
  · intro q i hi hq
    rw [List.mem_range'] at hi
    obtain ⟨k, hk, rfl⟩ := hi
    rw [← usteps_eq]
    · simp only [List.range', List.map_cons, List.map_nil, List.foldlM_cons, List.foldlM_nil,
        List.cons_append, List.nil_append,
        addr_ok (show 2 * (0 + 4 * k) < q.length by omega), go_bind_ok, bind_pure]
      simp only [Nat.add_zero, Nat.add_assoc, Nat.reduceAdd, Nat.zero_add,
        show 4 * k * 1 * 2 = 2 * (4 * k) by ring, show (4 * k + 1) * 1 * 2 = 2 * (4 * k) + 2 by ring,
        show (4 * k + 2) * 1 * 2 = 2 * (4 * k) + 4 by ring,
        show (4 * k + 3) * 1 * 2 = 2 * (4 * k) + 6 by ring,
        Nat.add_comm (4 * k) (4 * (N / 8))]
    · intro x hx
      simp only [List.mem_append, List.mem_map, List.mem_range'] at hx
      obtain ((⟨a, ⟨k, hk, rfl⟩, rfl⟩ | ⟨a, ⟨k, hk, rfl⟩, rfl⟩) | ⟨a, ⟨k, hk, rfl⟩, rfl⟩) |
        ⟨a, ⟨k, hk, rfl⟩, rfl⟩ := hx <;> simp only <;> omega
  · intro q x q' hq h; rw [bflyAt_length h, hq]

/-- The forward loop over layers, with its running `t`. -/
theorem fwdLayers (body : σ → Nat → Nat → Go σ) (K n k0 : Nat) (hk : k0 + n ≤ K) (p : σ) :
    ((List.range' k0 n).map (2 ^ ·)).foldlM (fun (s : σ × Nat) m => do
      let t := s.2 / 2
      let p ← body s.1 m t
      pure (p, t)) (p, 2 ^ (K - k0)) =
    (do
      let p ← (List.range' k0 n).foldlM (fun p k => body p (2 ^ k) (2 ^ (K - 1 - k))) p
      pure (p, 2 ^ (K - k0 - n))) := by
  induction n generalizing k0 p with
  | zero => rfl
  | succ n ih =>
    have h2 : 2 ^ (K - k0) / 2 = 2 ^ (K - 1 - k0) := by
      rw [show K - k0 = (K - 1 - k0) + 1 by omega, Nat.pow_succ]; omega
    simp only [List.range'_succ, List.map_cons, List.foldlM_cons, h2]
    cases body p (2 ^ k0) (2 ^ (K - 1 - k0)) with
    | error e => rfl
    | ok p1 =>
      have := ih (k0 + 1) (by omega) p1
      rw [show K - (k0 + 1) = K - 1 - k0 by omega] at this
      simp only [go_bind_ok, go_pure]
      refine this.trans ?_
      rw [show K - 1 - k0 - n = K - k0 - (n + 1) by omega]; rfl

/-- The inverse loop over layers, with its running `t`. -/
theorem invLayers (body : σ → Nat → Nat → Go σ) (K n k0 : Nat) (hk : k0 + n ≤ K) (p : σ) :
    ((List.range' k0 n).reverse.map (2 ^ ·)).foldlM (fun (s : σ × Nat) m => do
      let p ← body s.1 m s.2
      pure (p, s.2 * 2)) (p, 2 ^ (K - k0 - n)) =
    (do
      let p ← (List.range' k0 n).reverse.foldlM (fun p k => body p (2 ^ k) (2 ^ (K - 1 - k))) p
      pure (p, 2 ^ (K - k0))) := by
  induction n generalizing p with
  | zero => rfl
  | succ n ih =>
    rw [List.range'_concat, List.reverse_append, List.reverse_singleton, List.singleton_append]
    simp only [List.map_cons, List.foldlM_cons, one_mul]
    rw [show K - k0 - (n + 1) = K - 1 - (k0 + n) by omega]
    cases body p (2 ^ (k0 + n)) (2 ^ (K - 1 - (k0 + n))) with
    | error e => rfl
    | ok p1 =>
      have := ih (by omega) p1
      simp only [go_bind_ok, go_pure]
      rw [← Nat.pow_succ, show (K - 1 - (k0 + n)).succ = K - k0 - n by omega]
      exact this

/-- All butterflies of one layer, indexed by `k` (`2^k` blocks). -/
def layerK (K : Nat) (bt : F → F → F → F × F) (tw : List F) (p : List F) (k : Nat) : Go (List F) :=
  (layerIdx (2 ^ k) (2 ^ (K - 1 - k))).foldlM (bstep bt tw) p

theorem foldlM_bstep_length {bt : F → F → F → F × F} {tw : List F} (L : List (Nat × Nat × Nat))
    {p p' : List F} (h : L.foldlM (bstep bt tw) p = .ok p') : p'.length = p.length := by
  induction L generalizing p with
  | nil => cases h; rfl
  | cons x L ih =>
    rw [List.foldlM_cons] at h
    cases hb : bstep bt tw p x with
    | error e => rw [hb] at h; cases h
    | ok q => rw [hb] at h; rw [ih h, bflyAt_length hb]

section alg
variable [Add F] [Sub F] [Mul F]

theorem nttRef_eq (K : Nat) (p tw : List F) (hp : p.length = 2 ^ K) :
    nttInPlaceRef p tw = (List.range K).foldlM (layerK K butterfly tw) p := by
  unfold nttInPlaceRef
  have := fwdLayers (fun p m t => layerRef butterfly tw p m t) K K 0 (by omega) p
  simp only [Nat.sub_zero, ← List.range_eq_range', layerRef_eq] at this
  simp only [hp, doublings_half, layerRef_eq, this]
  unfold layerK
  simp

theorem inttRef_eq (K : Nat) (p tw : List F) (hp : p.length = 2 ^ K) :
    inttInPlaceRef p tw = (List.range K).reverse.foldlM (layerK K invButterfly tw) p := by
  unfold inttInPlaceRef
  have := invLayers (fun p m t => layerRef invButterfly tw p m t) K K 0 (by omega) p
  simp only [Nat.sub_zero, ← List.range_eq_range', layerRef_eq, Nat.sub_self, Nat.pow_zero] at this
  simp only [hp, halvings_half, layerRef_eq, this]
  unfold layerK
  simp

theorem range_split5 (K : Nat) (hK : 5 ≤ K) :
    List.range K = 0 :: (List.range' 1 (K - 4) ++ [K - 3, K - 2, K - 1]) := by
  have h1 : List.range' 0 K = List.range' 0 1 ++ (List.range' 1 (K - 4) ++ List.range' (K - 3) 3) := by
    have ha := @List.range'_append 1 (K - 4) 3 1
    have hb := @List.range'_append 0 1 (K - 4 + 3) 1
    simp only [one_mul, Nat.zero_add] at ha hb
    rw [show 1 + (K - 4) = K - 3 by omega] at ha
    rw [ha, hb]; congr 1; omega
  rw [List.range_eq_range', h1]
  simp only [List.range', List.cons_append, List.nil_append]
  rw [show K - 3 + 1 = K - 2 by omega, show K - 2 + 1 = K - 1 by omega]

theorem pow_div_sub (K j : Nat) (h : j ≤ K) : 2 ^ K / 2 ^ j = 2 ^ (K - j) :=
  Nat.pow_div h (by decide)

theorem doublings2 (K : Nat) (hK : 5 ≤ K) :
    doublings 2 (2 ^ K / 16) = (List.range' 1 (K - 4)).map (2 ^ ·) := by
  have h16 : 2 ^ K / 16 = 2 ^ (K - 4) := pow_div_sub K 4 (by omega)
  rw [h16]
  refine doublings_pow 1 (K - 4) _ ?_ ?_
  · exact Nat.pow_lt_pow_right (by decide) (by omega)
  · intro j hj
    exact Nat.pow_le_pow_right (by decide) (by omega)

theorem halvings2 (K : Nat) (hK : 5 ≤ K) :
    halvings (2 ^ K / 16) 2 = (List.range' 1 (K - 4)).reverse.map (2 ^ ·) := by
  have h16 : 2 ^ K / 16 = 2 ^ (1 + (K - 4)) / 2 := by
    rw [show (16 : Nat) = 2 ^ 4 by rfl, pow_div_sub K 4 (by omega), Nat.pow_add]; omega
  rw [h16]
  exact halvings_pow 1 (K - 4)

omit [Add F] [Sub F] [Mul F] in
theorem middle_eq (K : Nat) (bt : F → F → F → F × F) (tw p : List F) (L : List Nat)
    (hL : ∀ k ∈ L, 1 ≤ k ∧ k ≤ K - 4) (hK : 5 ≤ K) (hp : p.length = 2 ^ K) :
    L.foldlM (fun p k => layerUnroll bt tw p (2 ^ k) (2 ^ (K - 1 - k))) p =
      L.foldlM (layerK K bt tw) p := by
  refine foldlM_congr_inv (fun q => q.length = 2 ^ K) L p hp ?_ ?_
  · intro q k hk hq
    obtain ⟨h1, h2⟩ := hL k hk
    unfold layerK
    have : 2 ^ (K - 1 - k) = 8 * 2 ^ (K - 4 - k) := by
      rw [show K - 1 - k = (K - 4 - k) + 3 by omega, Nat.pow_add]; omega
    rw [this, layerUnroll_eq]
    rw [hq, ← this, ← Nat.pow_add, ← Nat.pow_succ]
    exact Nat.pow_le_pow_right (by decide) (by omega)
  · intro q k q' _ hq h
    rw [foldlM_bstep_length _ h, hq]

theorem nttUnroll_eq (K : Nat) (hK : 5 ≤ K) (p tw : List F) (hp : p.length = 2 ^ K) :
    nttInPlaceUnroll p tw = (List.range K).foldlM (layerK K butterfly tw) p := by
  have h2 : 2 ^ K / 2 = 2 ^ (K - 1) := pow_div_sub K 1 (by omega)
  have h4 : 2 ^ K / 4 = 2 ^ (K - 2) := pow_div_sub K 2 (by omega)
  have h8 : 2 ^ K / 8 = 2 ^ (K - 3) := pow_div_sub K 3 (by omega)
  have h8m : 2 ^ K % 8 = 0 := by
    rw [show K = (K - 3) + 3 by omega, Nat.pow_add]; omega
  have ht : 2 ^ (K - 1) = 8 * 2 ^ (K - 4) := by
    rw [show K - 1 = (K - 4) + 3 by omega, Nat.pow_add]; omega
  have hKK : 2 ^ K = 2 * 2 ^ (K - 1) := by
    rw [← Nat.pow_succ']; congr 1; omega
  rw [range_split5 K hK, List.foldlM_cons]
  simp only [List.foldlM_append]
  unfold nttInPlaceUnroll
  have first : forRange 0 (p.length / 2) 8 p (fun q j => ubfly8 butterfly tw q j (p.length / 2) 1) =
      layerK K butterfly tw p 0 := by
    rw [hp, h2, ht, firstLayer_eq _ _ _ _ (by omega)]
    unfold layerK; rw [← ht]; rfl
  simp only [first]
  cases h : layerK K butterfly tw p 0 with
  | error e => rfl
  | ok q =>
    simp only [go_bind_ok]
    have hq : q.length = 2 ^ K := by rw [← hp]; exact foldlM_bstep_length _ h
    rw [hp, doublings2 K hK, h2, fwdLayers (fun p m t => layerUnroll butterfly tw p m t) K (K - 4) 1 (by omega)]
    rw [middle_eq K butterfly tw q _ (by
      intro k hk; rw [List.mem_range'] at hk; obtain ⟨i, hi, rfl⟩ := hk; omega) hK hq]
    cases h' : (List.range' 1 (K - 4)).foldlM (layerK K butterfly tw) q with
    | error e => rfl
    | ok r =>
      have hr : r.length = 2 ^ K := by
        have : ∀ (L : List Nat) (q r : List F), L.foldlM (layerK K butterfly tw) q = .ok r →
            r.length = q.length := by
          intro L
          induction L with
          | nil => intro q r h; cases h; rfl
          | cons k L ih =>
            intro q r h
            rw [List.foldlM_cons] at h
            cases hb : layerK K butterfly tw q k with
            | error e => rw [hb] at h; cases h
            | ok q1 => rw [hb] at h; rw [ih q1 r h, foldlM_bstep_length _ hb]
        rw [this _ _ _ h', hq]
      simp only [go_bind_ok, go_pure, List.foldlM_cons, List.foldlM_nil, go_bind_ok_right]
      rw [layer4_eq _ _ _ _ hr h8m]
      have e3 : (layerIdx (2 ^ K / 8) 4).foldlM (bstep butterfly tw) r = layerK K butterfly tw r (K - 3) := by
        unfold layerK; rw [h8, show K - 1 - (K - 3) = 2 by omega]; rfl
      rw [e3]
      cases h3 : layerK K butterfly tw r (K - 3) with
      | error e => rfl
      | ok r3 =>
        have hr3 : r3.length = 2 ^ K := by rw [← hr]; exact foldlM_bstep_length _ h3
        simp only [go_bind_ok]
        rw [layer2_eq _ _ _ _ hr3 h8m]
        have e2 : (layerIdx (2 ^ K / 4) 2).foldlM (bstep butterfly tw) r3 = layerK K butterfly tw r3 (K - 2) := by
          unfold layerK; rw [h4, show K - 1 - (K - 2) = 1 by omega]; rfl
        rw [e2]
        cases h5 : layerK K butterfly tw r3 (K - 2) with
        | error e => rfl
        | ok r2 =>
          have hr2 : r2.length = 2 ^ K := by rw [← hr3]; exact foldlM_bstep_length _ h5
          simp only [go_bind_ok]
          rw [layer1_eq _ _ _ _ hr2 h8m]
          unfold layerK
          rw [h2, show K - 1 - (K - 1) = 0 by omega]
          rfl

theorem inttUnroll_eq (K : Nat) (hK : 5 ≤ K) (p tw : List F) (hp : p.length = 2 ^ K) :
    inttInPlaceUnroll p tw = (List.range K).reverse.foldlM (layerK K invButterfly tw) p := by
  have h2 : 2 ^ K / 2 = 2 ^ (K - 1) := pow_div_sub K 1 (by omega)
  have h4 : 2 ^ K / 4 = 2 ^ (K - 2) := pow_div_sub K 2 (by omega)
  have h8 : 2 ^ K / 8 = 2 ^ (K - 3) := pow_div_sub K 3 (by omega)
  have h8m : 2 ^ K % 8 = 0 := by
    rw [show K = (K - 3) + 3 by omega, Nat.pow_add]; omega
  have ht : 2 ^ (K - 1) = 8 * 2 ^ (K - 4) := by
    rw [show K - 1 = (K - 4) + 3 by omega, Nat.pow_add]; omega
  have hKK : 2 ^ K = 2 * 2 ^ (K - 1) := by
    rw [← Nat.pow_succ']; congr 1; omega
  rw [range_split5 K hK]
  simp only [List.reverse_cons, List.reverse_append, List.reverse_nil, List.nil_append,
    List.cons_append, List.foldlM_cons, List.foldlM_append, List.foldlM_nil, bind_pure]
  unfold inttInPlaceUnroll
  simp only [layer1_eq invButterfly tw p _ rfl (by rw [hp]; exact h8m)]
  have e1 : (layerIdx (p.length / 2) 1).foldlM (bstep invButterfly tw) p = layerK K invButterfly tw p (K - 1) := by
    unfold layerK; rw [hp, h2, show K - 1 - (K - 1) = 0 by omega]; rfl
  rw [e1]
  cases h1 : layerK K invButterfly tw p (K - 1) with
  | error e => rfl
  | ok r3 =>
    have hr3 : r3.length = 2 ^ K := by rw [← hp]; exact foldlM_bstep_length _ h1
    simp only [go_bind_ok]
    rw [hp, layer2_eq _ _ _ _ hr3 h8m]
    have e2 : (layerIdx (2 ^ K / 4) 2).foldlM (bstep invButterfly tw) r3 = layerK K invButterfly tw r3 (K - 2) := by
      unfold layerK; rw [h4, show K - 1 - (K - 2) = 1 by omega]; rfl
    rw [e2]
    cases h5 : layerK K invButterfly tw r3 (K - 2) with
    | error e => rfl
    | ok r2 =>
      have hr2 : r2.length = 2 ^ K := by rw [← hr3]; exact foldlM_bstep_length _ h5
      simp only [go_bind_ok]
      rw [layer4_eq _ _ _ _ hr2 h8m]
      have e3 : (layerIdx (2 ^ K / 8) 4).foldlM (bstep invButterfly tw) r2 = layerK K invButterfly tw r2 (K - 3) := by
        unfold layerK; rw [h8, show K - 1 - (K - 3) = 2 by omega]; rfl
      rw [e3]
      cases h6 : layerK K invButterfly tw r2 (K - 3) with
      | error e => rfl
      | ok q =>
        have hq : q.length = 2 ^ K := by rw [← hr2]; exact foldlM_bstep_length _ h6
        simp only [go_bind_ok]
        have il := invLayers (fun p m t => layerUnroll invButterfly tw p m t) K (K - 4) 1 (by omega) q
        rw [show K - 1 - (K - 4) = 3 by omega] at il
        simp only [Nat.reducePow] at il
        rw [halvings2 K hK, il]
        rw [middle_eq K invButterfly tw q _ (by
          intro k hk; rw [List.mem_reverse, List.mem_range'] at hk; obtain ⟨i, hi, rfl⟩ := hk; omega) hK hq]
        cases h' : (List.range' 1 (K - 4)).reverse.foldlM (layerK K invButterfly tw) q with
        | error e => rfl
        | ok r =>
          have hr : r.length = 2 ^ K := by
            have : ∀ (L : List Nat) (q r : List F), L.foldlM (layerK K invButterfly tw) q = .ok r →
                r.length = q.length := by
              intro L
              induction L with
              | nil => intro q r h; cases h; rfl
              | cons k L ih =>
                intro q r h
                rw [List.foldlM_cons] at h
                cases hb : layerK K invButterfly tw q k with
                | error e => rw [hb] at h; cases h
                | ok q1 => rw [hb] at h; rw [ih q1 r h, foldlM_bstep_length _ hb]
            rw [this _ _ _ h', hq]
          simp only [go_bind_ok, go_pure]
          rw [h2, ht, firstLayer_eq _ _ _ _ (by omega)]
          unfold layerK
          rw [← ht]; rfl

end alg

end Ringo
