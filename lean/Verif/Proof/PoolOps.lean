import Verif.Proof.Pool
import Verif.Spec.Pool
import Verif.Proof.PolyOps

/-! The operations of an evaluator with a pool do what they do alone. -/

namespace Ringo
open PoolProg

section
variable {F β : Type} {own ro : Nat → Prop} {base : Nat} {held : List Nat} {h : PHeap F}
  {Q : β → List Nat → PHeap F → Prop}

theorem runs_pure {a : β} (k : Q a held h) : Runs own ro base (pure a) held h Q := k

theorem runs_get {q i : Nat} {g : F → PoolProg F β} (hq : own q ∨ ro q ∨ q ∈ held)
    (k : Runs own ro base (g (h.c q i)) held h Q) : Runs own ro base (get q i >>= g) held h Q := ⟨hq, k⟩

theorem runs_put {q i : Nat} {v : F} {g : Unit → PoolProg F β} (hq : own q ∨ q ∈ held)
    (k : Runs own ro base (g ()) held (h.setC q (Function.update (h.c q) i v)) Q) :
    Runs own ro base (put q i v >>= g) held h Q := ⟨hq, k⟩

theorem runs_put' {q i : Nat} {v : F} {Q : Unit → List Nat → PHeap F → Prop} (hq : own q ∨ q ∈ held)
    (k : Q () held (h.setC q (Function.update (h.c q) i v))) :
    Runs own ro base (put q i v) held h Q := ⟨hq, k⟩

theorem runs_getFlag {q : Nat} {g : Bool → PoolProg F β} (hq : own q ∨ ro q ∨ q ∈ held)
    (k : Runs own ro base (g (h.f q)) held h Q) : Runs own ro base (getFlag q >>= g) held h Q := ⟨hq, k⟩

theorem runs_putFlag {q : Nat} {v : Bool} {g : Unit → PoolProg F β} (hq : own q ∨ q ∈ held)
    (k : Runs own ro base (g ()) held (h.setF q v) Q) :
    Runs own ro base (putFlag q v >>= g) held h Q := ⟨hq, k⟩

theorem runs_poolGet {g : Nat → PoolProg F β}
    (k : ∀ b r fl, base ≤ b → b ∉ held →
      Runs own ro base (g b) (b :: held) ((h.setC b r).setF b fl) Q) :
    Runs own ro base (poolGet >>= g) held h Q := k

theorem runs_poolPut {b : Nat} {g : Unit → PoolProg F β}
    (k : Runs own ro base (g ()) held h Q) :
    Runs own ro base (poolPut b >>= g) (b :: held) h Q := by
  refine ⟨List.mem_cons_self, ?_⟩
  rw [List.erase_cons_head]
  exact k

theorem runs_loop {ι : Type} {held : List Nat} (L : List ι) (g : ι → PoolProg F Unit) (G : ι → PHeap F → PHeap F)
    (hg : ∀ x ∈ L, ∀ (h : PHeap F) (Q : Unit → List Nat → PHeap F → Prop), Q () held (G x h) →
      Runs own ro base (g x) held h Q) : ∀ (h : PHeap F) (Q : Unit → List Nat → PHeap F → Prop),
      Q () held (L.foldl (fun h x => G x h) h) → Runs own ro base (loop L g) held h Q := by
  induction L with
  | nil => intro h Q k; exact k
  | cons x L ih =>
    intro h Q k
    refine runs_bind (g x) (fun _ => loop L g) held h ?_
    refine hg x List.mem_cons_self h _ ?_
    exact ih (fun y hy => hg y (List.mem_cons_of_mem x hy)) _ _ k

/-! ### Loops over one polynomial -/

theorem setC_setC (h : PHeap F) (q : Nat) (r r' : Nat → F) : (h.setC q r).setC q r' = h.setC q r' := by
  simp [PHeap.setC]

theorem setC_c (h : PHeap F) (q : Nat) (r : Nat → F) : (h.setC q r).c q = r := by simp [PHeap.setC]

theorem setC_ne (h : PHeap F) {q q' : Nat} (r : Nat → F) (e : q' ≠ q) : (h.setC q r).c q' = h.c q' := by
  simp [PHeap.setC, Function.update_of_ne e]

theorem setC_f (h : PHeap F) (q : Nat) (r : Nat → F) : (h.setC q r).f = h.f := rfl

theorem setF_c (h : PHeap F) (q : Nat) (b : Bool) : (h.setF q b).c = h.c := rfl

theorem setF_f (h : PHeap F) (q : Nat) (b : Bool) : (h.setF q b).f q = b := by simp [PHeap.setF]

theorem setF_ne (h : PHeap F) {q q' : Nat} (b : Bool) (e : q' ≠ q) : (h.setF q b).f q' = h.f q' := by
  simp [PHeap.setF, Function.update_of_ne e]

theorem setC_self (h : PHeap F) (q : Nat) : h.setC q (h.c q) = h := by
  simp [PHeap.setC]

/-- A loop that changes the coefficients of `q` step by step. -/
theorem foldl_row {ι : Type} (L : List ι) (q : Nat) (G : ι → PHeap F → PHeap F) (R : ι → (Nat → F) → Nat → F)
    (h : PHeap F) (hG : ∀ x ∈ L, ∀ r, G x (h.setC q r) = h.setC q (R x r)) (r : Nat → F) :
    L.foldl (fun h x => G x h) (h.setC q r) = h.setC q (L.foldl (fun r x => R x r) r) := by
  induction L generalizing r with
  | nil => rfl
  | cons x L ih =>
    rw [List.foldl_cons, List.foldl_cons, hG x List.mem_cons_self]
    exact ih (fun y hy => hG y (List.mem_cons_of_mem x hy)) _

/-- The first `n` coefficients are replaced. -/
def headRow (n : Nat) (X r : Nat → F) (j : Nat) : F := if j < n then X j else r j

theorem headRow_succ (n : Nat) (X r : Nat → F) :
    headRow (n + 1) X r = Function.update (headRow n X r) n (X n) := by
  funext j
  by_cases e : j = n
  · subst e; simp [headRow]
  · rw [Function.update_of_ne e]
    unfold headRow
    have : j < n + 1 ↔ j < n := by omega
    simp only [this]

theorem vec2_fold (out p0 p1 : Nat) (g : F → F → F) (h : PHeap F) (n : Nat) :
    (List.range n).foldl (fun h i => h.setC out (Function.update (h.c out) i (g (h.c p0 i) (h.c p1 i)))) h =
      h.setC out (headRow n (fun i => g (h.c p0 i) (h.c p1 i)) (h.c out)) := by
  induction n with
  | zero =>
    have : headRow 0 (fun i => g (h.c p0 i) (h.c p1 i)) (h.c out) = h.c out := by
      funext j; simp [headRow]
    rw [this, setC_self]; rfl
  | succ n ih =>
    rw [List.range_succ, List.foldl_append, ih, List.foldl_cons, List.foldl_nil, setC_setC, setC_c,
      headRow_succ]
    have : ∀ q, (h.setC out (headRow n (fun i => g (h.c p0 i) (h.c p1 i)) (h.c out))).c q n = h.c q n := by
      intro q
      by_cases e : q = out
      · subst e; rw [setC_c]; simp [headRow]
      · rw [setC_ne _ _ e]
    rw [this, this]

theorem vec1_fold (out p : Nat) (g : F → F) (h : PHeap F) (n : Nat) :
    (List.range n).foldl (fun h i => h.setC out (Function.update (h.c out) i (g (h.c p i)))) h =
      h.setC out (headRow n (fun i => g (h.c p i)) (h.c out)) :=
  vec2_fold out p p (fun x _ => g x) h n

theorem runs_vec2 {n out p0 p1 : Nat} {g : F → F → F} {k : Unit → PoolProg F β}
    (ho : own out ∨ out ∈ held) (h0 : own p0 ∨ ro p0 ∨ p0 ∈ held) (h1 : own p1 ∨ ro p1 ∨ p1 ∈ held)
    (hk : Runs own ro base (k ()) held
      (h.setC out (headRow n (fun i => g (h.c p0 i) (h.c p1 i)) (h.c out))) Q) :
    Runs own ro base (vec2Prog n out p0 p1 g >>= k) held h Q := by
  refine runs_bind _ _ _ _ ?_
  refine runs_loop _ _ (fun i h => h.setC out (Function.update (h.c out) i (g (h.c p0 i) (h.c p1 i))))
    (fun i _ h Q' hQ' => by
      refine runs_get h0 ?_
      refine runs_get h1 ?_
      exact runs_put' ho hQ') _ _ ?_
  rw [vec2_fold]
  exact hk

theorem runs_vec1 {n out p : Nat} {g : F → F} {k : Unit → PoolProg F β}
    (ho : own out ∨ out ∈ held) (h0 : own p ∨ ro p ∨ p ∈ held)
    (hk : Runs own ro base (k ()) held (h.setC out (headRow n (fun i => g (h.c p i)) (h.c out))) Q) :
    Runs own ro base (vec1Prog n out p g >>= k) held h Q := by
  refine runs_bind _ _ _ _ ?_
  refine runs_loop _ _ (fun i h => h.setC out (Function.update (h.c out) i (g (h.c p i))))
    (fun i _ h Q' hQ' => by
      refine runs_get h0 ?_
      exact runs_put' ho hQ') _ _ ?_
  rw [vec1_fold]
  exact hk

/-- Loops whose steps only look at and change `q`. -/
theorem runs_rows {ι : Type} {q : Nat} {L : List ι} {g : ι → PoolProg F Unit} {k : Unit → PoolProg F β}
    (R : ι → (Nat → F) → Nat → F)
    (hg : ∀ x ∈ L, ∀ (h : PHeap F) (Q : Unit → List Nat → PHeap F → Prop),
      Q () held (h.setC q (R x (h.c q))) → Runs own ro base (g x) held h Q)
    (hk : Runs own ro base (k ()) held (h.setC q (L.foldl (fun r x => R x r) (h.c q))) Q) :
    Runs own ro base (loop L g >>= k) held h Q := by
  refine runs_bind _ _ _ _ ?_
  refine runs_loop L g (fun x h => h.setC q (R x (h.c q))) hg _ _ ?_
  have := foldl_row L q (fun x h => h.setC q (R x (h.c q))) R h
    (fun x _ r => by simp only [setC_setC, setC_c]) (h.c q)
  rw [setC_self] at this
  rw [this]
  exact hk

/-- Exchanging two coefficients. -/
def swapRow (x : Nat × Nat) (r : Nat → F) : Nat → F :=
  Function.update (Function.update r x.1 (r x.2)) x.2 (r x.1)

theorem runs_bitRev {n q : Nat} {k : Unit → PoolProg F β} (hq : own q ∨ q ∈ held)
    (hk : Runs own ro base (k ()) held
      (h.setC q ((brSwaps n).foldl (fun r x => swapRow x r) (h.c q))) Q) :
    Runs own ro base (bitRevProg n q >>= k) held h Q := by
  have hq' : own q ∨ ro q ∨ q ∈ held := hq.elim Or.inl fun x => Or.inr (Or.inr x)
  refine runs_rows swapRow (fun x _ h Q' hQ' => ?_) hk
  refine runs_get hq' (runs_get hq' (runs_put hq (runs_put' hq ?_)))
  rw [setC_setC, setC_c]
  exact hQ'

/-- A butterfly. -/
def bflyRow (bt : F → F → F → F × F) (tw : Nat → F) (x : Nat × Nat × Nat) (r : Nat → F) : Nat → F :=
  Function.update (Function.update r x.1 (bt (r x.1) (r x.2.1) (tw x.2.2)).1) x.2.1
    (bt (r x.1) (r x.2.1) (tw x.2.2)).2

theorem runs_bfly [CommRing F] {q a b : Nat} {w : F} (hab : a ≠ b) (hq : own q ∨ q ∈ held)
    {Q : Unit → List Nat → PHeap F → Prop}
    (hk : Q () held (h.setC q (Function.update (Function.update (h.c q) a
      (butterfly (h.c q a) (h.c q b) w).1) b (butterfly (h.c q a) (h.c q b) w).2))) :
    Runs own ro base (bflyProg q a b w) held h Q := by
  have hq' : own q ∨ ro q ∨ q ∈ held := hq.elim Or.inl fun x => Or.inr (Or.inr x)
  refine runs_get hq' (runs_put hq (runs_get hq' (runs_get hq' (runs_put hq (runs_get hq'
    (runs_get hq' (runs_put hq (runs_get hq' (runs_get hq' (runs_put' hq ?_))))))))))
  simp only [setC_setC, setC_c, Function.update_self, Function.update_of_ne hab,
    Function.update_of_ne (Ne.symm hab)]
  have e : ∀ (r : Nat → F) (x y z : F), Function.update (Function.update (Function.update
      (Function.update r b x) a y) b z) b (y - z) = Function.update (Function.update r a y) b (y - z) := by
    intro r x y z
    rw [Function.update_idem, Function.update_comm hab.symm, Function.update_idem]
  rw [e]
  exact hk

theorem runs_invBfly [CommRing F] {q a b : Nat} {w : F} (hab : a ≠ b) (hq : own q ∨ q ∈ held)
    {Q : Unit → List Nat → PHeap F → Prop}
    (hk : Q () held (h.setC q (Function.update (Function.update (h.c q) a
      (invButterfly (h.c q a) (h.c q b) w).1) b (invButterfly (h.c q a) (h.c q b) w).2))) :
    Runs own ro base (invBflyProg q a b w) held h Q := by
  have hq' : own q ∨ ro q ∨ q ∈ held := hq.elim Or.inl fun x => Or.inr (Or.inr x)
  refine runs_get hq' (runs_get hq' (runs_put hq (runs_get hq' (runs_get hq' (runs_put hq
    (runs_get hq' (runs_get hq' (runs_put hq (runs_get hq' (runs_put' hq ?_))))))))))
  simp only [setC_setC, setC_c, Function.update_self, Function.update_of_ne hab,
    Function.update_of_ne (Ne.symm hab), Function.update_idem]
  exact hk

end

/-! ### Lists and rows -/

section
variable {F : Type}

/-- The first `n` coefficients as a list. -/
def listOf (n : Nat) (r : Nat → F) : List F := (List.range n).map r

theorem listOf_length (n : Nat) (r : Nat → F) : (listOf n r).length = n := by simp [listOf]

theorem listOf_getElem {n : Nat} {r : Nat → F} {i : Nat} (hi : i < (listOf n r).length) :
    (listOf n r)[i] = r i := by simp [listOf]

theorem listOf_congr {n : Nat} {r r' : Nat → F} (h : ∀ j < n, r j = r' j) : listOf n r = listOf n r' := by
  unfold listOf
  exact List.map_congr_left fun j hj => h j (List.mem_range.1 hj)

theorem listOf_head (n : Nat) (X r : Nat → F) : listOf n (headRow n X r) = listOf n X :=
  listOf_congr fun j hj => by simp [headRow, hj]

theorem listOf_zip (n : Nat) (g : F → F → F) (r r' : Nat → F) :
    List.zipWith g (listOf n r) (listOf n r') = listOf n (fun i => g (r i) (r' i)) := by
  apply List.ext_getElem
  · simp [listOf]
  · intro i h1 h2
    simp [listOf]

theorem listOf_map (n : Nat) (g : F → F) (r : Nat → F) :
    (listOf n r).map g = listOf n (fun i => g (r i)) := by
  simp [listOf]

theorem listOf_set {n i : Nat} (r : Nat → F) (v : F) :
    (listOf n r).set i v = listOf n (Function.update r i v) := by
  apply List.ext_getElem
  · simp [listOf]
  · intro j h1 h2
    simp only [listOf, List.getElem_set, List.getElem_map, List.getElem_range, Function.update_apply]
    by_cases e : i = j
    · subst e; simp
    · simp [e, Ne.symm e]

theorem idx_listOf {n i : Nat} (r : Nat → F) (hi : i < n) : idx (listOf n r) i = .ok (r i) := by
  rw [idx_ok (by rw [listOf_length]; exact hi), listOf_getElem]

theorem setIdx_listOf {n i : Nat} (r : Nat → F) (v : F) (hi : i < n) :
    setIdx (listOf n r) i v = .ok (listOf n (Function.update r i v)) := by
  rw [setIdx_ok (by rw [listOf_length]; exact hi), listOf_set]

theorem bstep_listOf (bt : F → F → F → F × F) (tw : List F) (d : F) {n : Nat} (r : Nat → F) (x : Nat × Nat × Nat)
    (h1 : x.1 < n) (h2 : x.2.1 < n) (h3 : x.2.2 < tw.length) :
    bstep bt tw (listOf n r) x = .ok (listOf n (bflyRow bt (fun i => tw.getD i d) x r)) := by
  unfold bstep bflyAt
  rw [idx_listOf r h1, go_bind_ok, idx_listOf r h2, go_bind_ok, idx_ok h3, go_bind_ok,
    setIdx_listOf _ _ h1, go_bind_ok, setIdx_listOf _ _ h2]
  have e : tw.getD x.2.2 d = tw[x.2.2] := by
    rw [List.getD_eq_getElem?_getD, List.getElem?_eq_getElem h3, Option.getD_some]
  simp only [bflyRow, e]

theorem bsteps_listOf (bt : F → F → F → F × F) (tw : List F) (d : F) {n : Nat} (L : List (Nat × Nat × Nat))
    (hL : ∀ x ∈ L, x.1 < n ∧ x.2.1 < n ∧ x.2.2 < tw.length) (r : Nat → F) :
    L.foldlM (bstep bt tw) (listOf n r) =
      .ok (listOf n (L.foldl (fun r x => bflyRow bt (fun i => tw.getD i d) x r) r)) := by
  induction L generalizing r with
  | nil => rfl
  | cons x L ih =>
    obtain ⟨h1, h2, h3⟩ := hL x List.mem_cons_self
    rw [List.foldlM_cons, bstep_listOf bt tw d r x h1 h2 h3, go_bind_ok]
    exact ih (fun y hy => hL y (List.mem_cons_of_mem x hy)) _

theorem layerSteps_eq (m t : Nat) : layerSteps m t = layerIdx m t := rfl

theorem layerIdx_bounds {K k : Nat} (hk : k < K) {x : Nat × Nat × Nat}
    (hx : x ∈ layerIdx (2 ^ k) (2 ^ (K - 1 - k))) :
    x.1 < 2 ^ K ∧ x.2.1 < 2 ^ K ∧ x.2.2 < 2 ^ K ∧ x.1 ≠ x.2.1 := by
  have hsz := layer_size K k hk
  unfold layerIdx at hx
  obtain ⟨i, hi, hx⟩ := List.mem_flatMap.1 hx
  obtain ⟨j, hj, rfl⟩ := List.mem_map.1 hx
  rw [List.mem_range] at hi
  rw [List.mem_range'] at hj
  obtain ⟨s, hs, rfl⟩ := hj
  have ht := Nat.two_pow_pos (K - 1 - k)
  generalize 2 ^ (K - 1 - k) = t at *
  generalize 2 ^ k = m at *
  have h1 : i * t * 2 + 2 * t ≤ m * (2 * t) := by
    have : (i + 1) * (2 * t) ≤ m * (2 * t) := Nat.mul_le_mul_right _ hi
    calc i * t * 2 + 2 * t = (i + 1) * (2 * t) := by ring
      _ ≤ _ := this
  have h2 : m + m ≤ m * (2 * t) := by
    calc m + m = m * 2 := by ring
      _ ≤ m * (2 * t) := Nat.mul_le_mul_left _ (by omega)
  refine ⟨?_, ?_, ?_, ?_⟩ <;> simp only <;> omega

/-- The butterflies of a transform, layer by layer. -/
theorem layers_listOf (K : Nat) (bt : F → F → F → F × F) (tw : List F) (d : F) (ks : List Nat)
    (hk : ∀ k ∈ ks, k < K) (htw : tw.length = 2 ^ K) (r : Nat → F) :
    ks.foldlM (layerK K bt tw) (listOf (2 ^ K) r) =
      .ok (listOf (2 ^ K) ((ks.flatMap fun k => layerIdx (2 ^ k) (2 ^ (K - 1 - k))).foldl
        (fun r x => bflyRow bt (fun i => tw.getD i d) x r) r)) := by
  induction ks generalizing r with
  | nil => rfl
  | cons k ks ih =>
    rw [List.foldlM_cons, List.flatMap_cons, List.foldl_append]
    unfold layerK
    rw [bsteps_listOf bt tw d _ (fun x hx => by
      obtain ⟨h1, h2, h3, -⟩ := layerIdx_bounds (hk k List.mem_cons_self) hx
      exact ⟨h1, h2, by omega⟩), go_bind_ok]
    exact ih (fun j hj => hk j (List.mem_cons_of_mem k hj)) _

theorem steps_eq (K : Nat) (ks : List Nat) (hk : ∀ k ∈ ks, k < K) :
    (ks.map (2 ^ ·)).flatMap (fun m => layerSteps m (2 ^ K / (2 * m))) =
      ks.flatMap fun k => layerIdx (2 ^ k) (2 ^ (K - 1 - k)) := by
  rw [List.flatMap_map]
  apply List.flatMap_congr
  intro k h
  have : 2 ^ K / (2 * 2 ^ k) = 2 ^ (K - 1 - k) := by
    rw [← Nat.pow_succ', pow_div_sub K (k + 1) (hk k h)]
    congr 1
    omega
  rw [this]
  rfl

/-! ### Bit reversal -/

theorem bitRev_listOf {n : Nat} (r : Nat → F) {v : List F}
    (hv : bitReverseInPlace (listOf n r) = .ok v) :
    v = listOf n ((brSwaps n).foldl (fun r x => swapRow x r) r) := by
  have key : ∀ (L : List Nat) (acc : List (Nat × Nat)) (j : Nat) (s : List F × Nat),
      (∀ i ∈ L, i < n) →
      L.foldlM (fun (s : List F × Nat) i => do
        let (j, bit) ← brInner s.2 (n / 2)
        let j := j + bit
        if i < j then
          let a ← idx s.1 i
          let b ← idx s.1 j
          let v1 ← setIdx s.1 i b
          let v2 ← setIdx v1 j a
          pure (v2, j)
        else pure (s.1, j)) (listOf n (acc.foldl (fun r x => swapRow x r) r), j) = (.ok s : Go _) →
      s.1 = listOf n (((L.foldl (fun s i =>
        match brInner s.2 (n / 2) with
        | .ok (j, bit) => (if i < j + bit then s.1 ++ [(i, j + bit)] else s.1, j + bit)
        | .error _ => s) (acc, j)).1).foldl (fun r x => swapRow x r) r) := by
    intro L
    induction L with
    | nil => intro acc j s _ h; cases h; rfl
    | cons i L ih =>
      intro acc j s hL h
      rw [List.foldlM_cons] at h
      rw [List.foldl_cons]
      cases hb : brInner j (n / 2) with
      | error e => simp only [hb] at h; cases h
      | ok jb =>
        obtain ⟨j', bit⟩ := jb
        simp only [hb, go_bind_ok] at h ⊢
        have hi := hL i List.mem_cons_self
        by_cases hc : i < j' + bit
        · simp only [if_pos hc] at h ⊢
          rw [idx_listOf _ hi, go_bind_ok] at h
          by_cases hj : j' + bit < n
          · rw [idx_listOf _ hj, go_bind_ok, setIdx_listOf _ _ hi, go_bind_ok, setIdx_listOf _ _ hj,
              go_bind_ok] at h
            refine ih _ _ _ (fun y hy => hL y (List.mem_cons_of_mem i hy)) ?_
            rw [List.foldl_append]
            exact h
          · have : idx (listOf n (acc.foldl (fun r x => swapRow x r) r)) (j' + bit) = .error .panic := by
              simp [idx, listOf_length, hj]
            rw [this] at h
            cases h
        · simp only [if_neg hc] at h ⊢
          exact ih _ _ _ (fun y hy => hL y (List.mem_cons_of_mem i hy)) h
  unfold bitReverseInPlace at hv
  rw [forRange_one, listOf_length] at hv
  obtain ⟨s, hs, hv⟩ := bind_ok_inv hv
  injection hv with hv
  subst hv
  exact key _ [] 0 s (fun i hi => by rw [List.mem_range'] at hi; omega) hs

end
end Ringo
