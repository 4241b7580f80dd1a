import Verif.Proof.PoolOps

/-! Each operation, and each goroutine, does in memory what it does alone. -/

namespace Ringo
open PoolProg

section
variable {F : Type} {own ro : Nat → Prop} {base : Nat} {len : Nat → Nat}

/-- The polynomials a goroutine may read are `σ`. -/
def PoolRel (own ro : Nat → Prop) (len : Nat → Nat) (h : PHeap F) (σ : Nat → Poly F) : Prop :=
  ∀ q, own q ∨ ro q → polyAt len h q = σ q

theorem PoolRel.update {h h' : PHeap F} {σ : Nat → Poly F} (rel : PoolRel own ro len h σ) {out : Nat}
    {P : Poly F} (ho : polyAt len h' out = P)
    (hne : ∀ q, own q ∨ ro q → q ≠ out → h'.c q = h.c q ∧ h'.f q = h.f q) :
    PoolRel own ro len h' (Function.update σ out P) := by
  intro q hq
  by_cases e : q = out
  · subst e; rw [Function.update_self, ho]
  · rw [Function.update_of_ne e, ← rel q hq]
    obtain ⟨h1, h2⟩ := hne q hq e
    unfold polyAt
    rw [h1, h2]

theorem polyAt_length (h : PHeap F) (q : Nat) : (polyAt len h q).coeffs.length = len q := by
  simp [polyAt]

theorem polyAt_eq (h : PHeap F) {q n : Nat} (hq : len q = n) :
    polyAt len h q = ⟨listOf n (h.c q), h.f q⟩ := by
  subst hq; rfl

section
variable [Add F] [Sub F] [Mul F] [Neg F] [Zero F]

theorem after_ok {ev : Evaluator F} {σ : Nat → Poly F} {o : EvalOp F} {P : Poly F}
    (h : o.result ev σ = .ok P) : o.after ev σ = (true, Function.update σ o.out P) := by
  unfold EvalOp.after; rw [h]

theorem after_panic {ev : Evaluator F} {σ : Nat → Poly F} {o : EvalOp F}
    (h : o.result ev σ = goPanic) : o.after ev σ = (false, σ) := by
  unfold EvalOp.after; rw [h]; rfl

end

variable {held : List Nat} {h : PHeap F} {Q : Bool → List Nat → PHeap F → Prop}

theorem runs_checkB {n out p0 p1 : Nat} {k : PoolProg F Bool} (h0 : own p0 ∨ ro p0) (h1 : own p1 ∨ ro p1)
    (hk : len out = n → len p0 = n → len p1 = n → h.f p0 = h.f p1 →
      checkBinary n (polyAt len h out) (polyAt len h p0) (polyAt len h p1) = .ok () →
      Runs own ro base k held h Q)
    (hbad : checkBinary n (polyAt len h out) (polyAt len h p0) (polyAt len h p1) = goPanic →
      Q false held h) : Runs own ro base (checkBinaryProg n len out p0 p1 k) held h Q := by
  unfold checkBinaryProg
  by_cases hl : len out ≠ n ∨ len p0 ≠ n ∨ len p1 ≠ n
  · rw [if_pos hl]
    refine runs_pure (hbad ?_)
    unfold checkBinary
    rw [polyAt_length, polyAt_length, polyAt_length, if_pos hl]
  · rw [if_neg hl]
    refine runs_getFlag (h0.elim Or.inl fun x => Or.inr (Or.inl x)) ?_
    refine runs_getFlag (h1.elim Or.inl fun x => Or.inr (Or.inl x)) ?_
    by_cases hf : h.f p0 = h.f p1
    · rw [if_neg (by simpa using hf)]
      have hl' : len out = n ∧ len p0 = n ∧ len p1 = n := by
        refine ⟨?_, ?_, ?_⟩ <;> by_contra hc <;> exact hl (by simp [hc])
      refine hk hl'.1 hl'.2.1 hl'.2.2 hf ?_
      unfold checkBinary
      rw [polyAt_length, polyAt_length, polyAt_length, if_neg hl, if_neg (by simpa [polyAt] using hf)]
      rfl
    · rw [if_pos (by simpa using hf)]
      refine runs_pure (hbad ?_)
      unfold checkBinary
      rw [polyAt_length, polyAt_length, polyAt_length, if_neg hl, if_pos (by simpa [polyAt] using hf)]

theorem runs_checkU {n out p : Nat} {k : PoolProg F Bool}
    (hk : len out = n → len p = n →
      checkUnary n (polyAt len h out) (polyAt len h p) = .ok () → Runs own ro base k held h Q)
    (hbad : checkUnary n (polyAt len h out) (polyAt len h p) = goPanic →
      Q false held h) : Runs own ro base (checkUnaryProg n len out p k) held h Q := by
  unfold checkUnaryProg
  by_cases hl : len out ≠ n ∨ len p ≠ n
  · rw [if_pos hl]
    refine runs_pure (hbad ?_)
    unfold checkUnary
    rw [polyAt_length, polyAt_length, if_pos hl]
  · rw [if_neg hl]
    have hl' : len out = n ∧ len p = n := by
      refine ⟨?_, ?_⟩ <;> by_contra hc <;> exact hl (by simp [hc])
    refine hk hl'.1 hl'.2 ?_
    unfold checkUnary
    rw [polyAt_length, polyAt_length, if_neg hl]
    rfl

theorem runs_inputsNTT {p0 p1 : Nat} {k : PoolProg F Bool} (h0 : own p0 ∨ ro p0) (h1 : own p1 ∨ ro p1)
    (hk : (!h.f p0 || !h.f p1) = false → Runs own ro base k held h Q)
    (hbad : (!h.f p0 || !h.f p1) = true → Q false held h) :
    Runs own ro base (inputsNTTProg p0 p1 k) held h Q := by
  unfold inputsNTTProg
  refine runs_getFlag (h0.elim Or.inl fun x => Or.inr (Or.inl x)) ?_
  cases e0 : h.f p0 with
  | false =>
    rw [if_pos (by rfl)]
    exact runs_pure (hbad (by simp [e0]))
  | true =>
    rw [if_neg (by simp)]
    refine runs_getFlag (h1.elim Or.inl fun x => Or.inr (Or.inl x)) ?_
    cases e1 : h.f p1 with
    | false =>
      rw [if_pos (by rfl)]
      exact runs_pure (hbad (by simp [e1]))
    | true =>
      rw [if_neg (by simp)]
      exact hk (by simp [e0, e1])

end

section
variable {F : Type} {own ro : Nat → Prop} {base : Nat} {len : Nat → Nat} {held : List Nat} {h : PHeap F} {σ : Nat → Poly F}
  {Q : Bool → List Nat → PHeap F → Prop}

theorem polyAt_set (h : PHeap F) {out n : Nat} (ho : len out = n) (X : Nat → F) (b : Bool) :
    polyAt len ((h.setC out (headRow n X (h.c out))).setF out b) out = ⟨listOf n X, b⟩ := by
  rw [polyAt_eq _ ho, setF_c, setF_f, setC_c, listOf_head]

theorem set_keeps (h : PHeap F) {out : Nat} (r : Nat → F) (b : Bool) {q : Nat} (e : q ≠ out) :
    ((h.setC out r).setF out b).c q = h.c q ∧ ((h.setC out r).setF out b).f q = h.f q := by
  rw [setF_c, setC_ne _ _ e, setF_ne _ _ e, setC_f]
  exact ⟨rfl, rfl⟩

/-- Setting `out` after a buffer `b` has been filled. -/
theorem buf_keeps (h : PHeap F) {out b : Nat} (r r' r'' : Nat → F) (fl fl' : Bool) {q : Nat} (e : q ≠ out)
    (eb : q ≠ b) :
    (((((h.setC b r).setF b fl).setC b r').setC out r'').setF out fl').c q = h.c q ∧
      (((((h.setC b r).setF b fl).setC b r').setC out r'').setF out fl').f q = h.f q := by
  simp only [setF_c, setC_ne _ _ e, setC_ne _ _ eb, setF_ne _ _ e, setF_ne _ _ eb, setC_f]
  exact ⟨trivial, trivial⟩

/-- The four operations with a buffer that is a product. -/
theorem runs_buffered {n out p0 p1 : Nat} (g : F → F → F) (g' : F → F → F)
    (hbase : ∀ q, own q ∨ ro q → q < base) (ho : own out) (h0 : own p0 ∨ ro p0) (h1 : own p1 ∨ ro p1)
    (hlo : len out = n) (rel : PoolRel own ro len h σ) {P : Poly F} (fl : Bool)
    (hP : P = ⟨listOf n (fun i => g' (h.c out i) (g (h.c p0 i) (h.c p1 i))), fl⟩)
    (hQ : ∀ h', PoolRel own ro len h' (Function.update σ out P) → Q true held h')
    (b : Nat) (r : Nat → F) (fb : Bool) (hb : base ≤ b) :
    let h1 := ((h.setC b r).setF b fb)
    let h2 := h1.setC b (headRow n (fun i => g (h1.c p0 i) (h1.c p1 i)) (h1.c b))
    let h3 := h2.setC out (headRow n (fun i => g' (h2.c out i) (h2.c b i)) (h2.c out))
    Q true held (h3.setF out fl) := by
  intro h1 h2 h3
  have hne : ∀ q, own q ∨ ro q → q ≠ b := fun q hq e => by have := hbase q hq; omega
  apply hQ
  have e0 : h1.c p0 = h.c p0 := by simp only [h1, setF_c, setC_ne _ _ (hne p0 h0)]
  have e1 : h1.c p1 = h.c p1 := by simp only [h1, setF_c, setC_ne _ _ (hne p1 ‹_›)]
  have eo : h2.c out = h.c out := by
    simp only [h2, h1, setF_c, setC_ne _ _ (hne out (Or.inl ho))]
  refine rel.update ?_ fun q hq e => buf_keeps h _ _ _ _ _ e (hne q hq)
  rw [polyAt_set _ hlo, hP]
  congr 1
  apply listOf_congr
  intro j hj
  rw [eo, show h2.c b = headRow n (fun i => g (h1.c p0 i) (h1.c p1 i)) (h1.c b) from setC_c _ _ _, e0, e1]
  simp [headRow, hj]

end

section
open Polynomial
variable {F : Type} [Field F] {own ro : Nat → Prop} {base : Nat} {len : Nat → Nat} {K : Nat} {M : F[X]}
  {pt : Nat → F} {ev : Evaluator F} {held : List Nat} {h : PHeap F} {σ : Nat → Poly F}
  {Q : Bool → List Nat → PHeap F → Prop}

theorem ntt_listOf (hg : GoodEv K M pt ev) (out : List F) (ho : out.length = 2 ^ K) (r : Nat → F) :
    ev.ntt.fwdNTTTo out (listOf (2 ^ K) r) =
      .ok (listOf (2 ^ K) (((doublings 1 (2 ^ K / 2)).flatMap fun m => layerSteps m (2 ^ K / (2 * m))).foldl
        (fun r x => bflyRow butterfly (fun i => ev.ntt.tw.getD i 0) x r) r)) := by
  obtain ⟨z, hz, -⟩ := hg.good
  unfold Transformer.fwdNTTTo
  rw [copy8_eq _ _ (by rw [ho]; exact pow8 hg.hK) (by rw [listOf_length, ho]), go_bind_ok,
    nttInPlace_eq K _ _ (listOf_length _ _),
    layers_listOf K butterfly _ 0 _ (fun k hk => List.mem_range.1 hk) hz.len, doublings_half,
    steps_eq K _ fun k hk => List.mem_range.1 hk]

theorem intt_listOf (hg : GoodEv K M pt ev) (out : List F) (ho : out.length = 2 ^ K) (r : Nat → F) :
    ev.ntt.invNTTTo out (listOf (2 ^ K) r) =
      .ok (listOf (2 ^ K) fun j => ((halvings (2 ^ K / 2) 1).flatMap fun m => layerSteps m (2 ^ K / (2 * m))).foldl
        (fun r x => bflyRow invButterfly (fun i => ev.ntt.twInv.getD i 0) x r) r j * ev.ntt.rankInv) := by
  obtain ⟨z, hz, -⟩ := hg.good
  unfold Transformer.invNTTTo
  rw [copy8_eq _ _ (by rw [ho]; exact pow8 hg.hK) (by rw [listOf_length, ho]), go_bind_ok,
    inttInPlace_eq K _ _ (listOf_length _ _),
    layers_listOf K invButterfly _ 0 _ (fun k hk => by simpa using hk) hz.lenInv, halvings_half,
    steps_eq K _ fun k hk => by simpa using hk]
  change Except.ok _ = _
  rw [listOf_map]

/-- The scratch polynomial of `autTo`, step by step. -/
def autRow (n idx : Nat) (rp : Nat → F) (i : Nat) (r : Nat → F) : Nat → F :=
  if (i * idx) % (2 * n) < n then Function.update r ((i * idx) % (2 * n)) (rp i)
  else Function.update r ((i * idx) % (2 * n) - n) (-rp i)

theorem autCoeff_listOf (hg : GoodEv K M pt ev) (out : Poly F) (ho : out.coeffs.length = 2 ^ K) (rb rp : Nat → F)
    (fb fp : Bool) (e : Nat) :
    ev.autCoeffTo ⟨listOf (2 ^ K) rb, fb⟩ out ⟨listOf (2 ^ K) rp, fp⟩ e =
      .ok ⟨listOf (2 ^ K) ((List.range (2 ^ K)).foldl (fun r i => autRow (2 ^ K) e rp i r) rb), false⟩ := by
  have hn := Nat.two_pow_pos K
  have key : ∀ (L : List Nat) (r : Nat → F), (∀ i ∈ L, i < 2 ^ K) →
      L.foldlM (fun buf i => do
        let j := (i * e) % (2 * 2 ^ K)
        let c ← idx (listOf (2 ^ K) rp) i
        if j < 2 ^ K then setIdx buf j c
        else setIdx buf (j - 2 ^ K) (-c)) (listOf (2 ^ K) r) =
      (.ok (listOf (2 ^ K) (L.foldl (fun r i => autRow (2 ^ K) e rp i r) r)) : Go (List F)) := by
    intro L
    induction L with
    | nil => intro r _; rfl
    | cons i L ih =>
      intro r hL
      rw [List.foldlM_cons, List.foldl_cons, ← ih _ fun j hj => hL j (List.mem_cons_of_mem i hj)]
      rw [idx_listOf _ (hL i List.mem_cons_self), go_bind_ok]
      have hlt : (i * e) % (2 * 2 ^ K) < 2 * 2 ^ K := Nat.mod_lt _ (by omega)
      unfold autRow
      by_cases hc : (i * e) % (2 * 2 ^ K) < 2 ^ K
      · simp only [if_pos hc]
        rw [setIdx_listOf _ _ hc, go_bind_ok]
      · simp only [if_neg hc]
        rw [setIdx_listOf _ _ (by omega), go_bind_ok]
  unfold Evaluator.autCoeffTo
  rw [forRange_one, hg.rank, ← List.range_eq_range', Nat.sub_zero,
    key _ rb fun i hi => List.mem_range.1 hi, go_bind_ok]
  unfold Poly.copyFrom
  rw [copy8_eq _ _ (by rw [ho]; exact pow8 hg.hK) (by rw [listOf_length, ho])]
  rfl

/-- The gathering loop of `autNTTTo`. -/
def gatherRow (n idx : Nat) (rb : Nat → F) (i : Nat) (r : Nat → F) : Nat → F :=
  Function.update r i (rb ((((2 * i + 1) * idx) % (2 * n) - 1) / 2))

theorem autNTT_listOf (hg : GoodEv K M pt ev) (buf : Poly F) (hb : buf.coeffs.length = 2 ^ K)
    (ro rp : Nat → F) (fo fp : Bool) (e : Nat) :
    ev.autNTTTo buf ⟨listOf (2 ^ K) ro, fo⟩ ⟨listOf (2 ^ K) rp, fp⟩ e =
      .ok ⟨listOf (2 ^ K) ((brSwaps (2 ^ K)).foldl (fun r x => swapRow x r)
        ((List.range (2 ^ K)).foldl (fun r i => gatherRow (2 ^ K) e
          ((brSwaps (2 ^ K)).foldl (fun r x => swapRow x r) rp) i r) ro)), true⟩ := by
  have hn := Nat.two_pow_pos K
  have hbr : ∀ r : Nat → F, bitReverseInPlace (listOf (2 ^ K) r) =
      .ok (listOf (2 ^ K) ((brSwaps (2 ^ K)).foldl (fun r x => swapRow x r) r)) := by
    intro r
    obtain ⟨v, hv, -⟩ := bitReverse_getD K (listOf (2 ^ K) r) 0 (listOf_length _ _)
    rw [hv, bitRev_listOf r hv]
  have key : ∀ (rb : Nat → F) (L : List Nat) (r : Nat → F), (∀ i ∈ L, i < 2 ^ K) →
      L.foldlM (fun out i => do
        let j := ((2 * i + 1) * e) % (2 * 2 ^ K)
        let j := (j - 1) / 2
        let c ← idx (listOf (2 ^ K) rb) j
        setIdx out i c) (listOf (2 ^ K) r) =
      (.ok (listOf (2 ^ K) (L.foldl (fun r i => gatherRow (2 ^ K) e rb i r) r)) : Go (List F)) := by
    intro rb L
    induction L with
    | nil => intro r _; rfl
    | cons i L ih =>
      intro r hL
      rw [List.foldlM_cons, List.foldl_cons, ← ih _ fun j hj => hL j (List.mem_cons_of_mem i hj)]
      have hlt : ((2 * i + 1) * e) % (2 * 2 ^ K) < 2 * 2 ^ K := Nat.mod_lt _ (by omega)
      simp only []
      rw [idx_listOf _ (by omega), go_bind_ok, setIdx_listOf _ _ (hL i List.mem_cons_self), go_bind_ok]
      rfl
  unfold Evaluator.autNTTTo Poly.copyFrom
  rw [copy8_eq _ _ (by rw [hb]; exact pow8 hg.hK) (by rw [listOf_length, hb]), go_bind_ok]
  change (bitReverseInPlace (listOf (2 ^ K) rp) >>= _) = _
  rw [hbr, go_bind_ok, forRange_one, hg.rank, ← List.range_eq_range', Nat.sub_zero,
    key _ _ ro fun i hi => List.mem_range.1 hi, go_bind_ok, hbr, go_bind_ok]
  rfl

end
end Ringo
