import Verif.Proof.JCount

/-!
# C99: with short partial evaluations Jindo is sound
-/

namespace Ringo

open Finset Polynomial

set_option linter.unusedSectionVars false

variable {p : Nat} {T T' : Type} [AddCommGroup T] [AddCommGroup T']

/-- What acceptance means, with the challenges of the columns made from the bytes `s`. -/
structure JEnv.Transcript (E : JEnv p T T') (A : E.ringQ.Lawful) (A' : E.ringQ'.Lawful) (R R' : Nat) (x : ZMod p)
    (com : List (List T')) (y : List (ZMod p)) (parts : List T) (pm : T) (s : Nat → List (BitVec 8)) (W : JWit) :
    Prop where
  tS : ∀ l < E.par.dcmpLen, Short E.ringQ'.N R' (W.t l)
  sS : ∀ k < E.par.outRank, Short E.ringQ'.N R' (W.s k)
  eS : ∀ k < E.par.mat.rows, Short E.ringQ.N R (W.e k)
  mS : ∀ k < E.par.mlweRank + E.par.inRank, Short E.ringQ.N R (W.m k)
  uS : ∀ k < E.par.inRank, Short E.ringQ.N R (W.u k)
  fS : ∀ j < E.par.mat.cols, JEnv.Rep A (parts.getD j 0) (W.f j)
  fR : ∀ j < E.par.mat.cols, ∀ c ∈ W.f j, RepRange E.ringQ.qs c
  outer : ∀ k < E.par.outRank, 2 ^ E.par.outCut * ∑ i ∈ range E.par.batch,
      toR E.ringQ'.qs E.ringQ'.N (E.betInt x com i) * A'.val (at2 com i k) =
    ∑ l ∈ range E.par.dcmpLen, A'.val (at2 E.key.out k l) * toR E.ringQ'.qs E.ringQ'.N (W.t l) +
      toR E.ringQ'.qs E.ringQ'.N (W.s k)
  inner : ∀ k < E.par.inRank,
    2 ^ E.par.inCut * (toR E.ringQ.qs E.ringQ.N (W.t (E.par.mat.cols * E.par.inRank + k)) +
      ∑ j ∈ range E.par.mat.cols, toR E.ringQ.qs E.ringQ.N (chalInt E.par.enc (s j)) *
        toR E.ringQ.qs E.ringQ.N (W.t (j * E.par.inRank + k))) =
    ∑ l ∈ range E.par.mat.rows, A.val (at2 E.key.inn k l) * toR E.ringQ.qs E.ringQ.N (W.e l) +
      ∑ l ∈ range E.par.mlweRank, A.val (at2 E.key.mlwe k l) * toR E.ringQ.qs E.ringQ.N (W.m l) +
      toR E.ringQ.qs E.ringQ.N (W.m (E.par.mlweRank + k)) + toR E.ringQ.qs E.ringQ.N (W.u k)
  consistent :
    ∑ k ∈ range E.par.mat.rows, toR E.ringQ.qs E.ringQ.N (E.leftInt x k) *
      toR E.ringQ.qs E.ringQ.N (W.e k) =
    ∑ j ∈ range E.par.mat.cols, toR E.ringQ.qs E.ringQ.N (chalInt E.par.enc (s j)) *
      toR E.ringQ.qs E.ringQ.N (W.f j) + A.val pm
  eval :
    ∑ j ∈ range E.par.mat.cols, ∑ t ∈ range E.par.mat.slots, x ^ (j * E.par.mat.slots + t) *
      (decoded p E.par.enc (W.f j)).getD t 0 =
    ∑ i ∈ range E.par.batch, (decoded p E.par.enc (E.betInt x com i)).getD 0 0 * y.getD i 0

section

variable {E : JEnv p T T'}

theorem le_of_norm {nm : ℚ} {R : Nat} (hR : ∀ n, E.toFloat n < nm → n ≤ R) {zs : List (List Int)}
    (h : E.toFloat (Nat.sqrt (jSqSum zs)) < nm) {z : List Int} (hz : z ∈ zs) {c : Int} (hc : c ∈ z) : c.natAbs ≤ R := by
  refine le_trans ?_ (hR _ h)
  rw [Nat.le_sqrt]
  have := JEnv.sq_le_jSqSum hz hc
  rwa [sq] at this

theorem transcript [DecidableEq T] (h : E.Good) (A : E.ringQ.Lawful) (A' : E.ringQ'.Lawful)
    {R R' F : Nat} (hR : E.Room R R' F) {x : ZMod p} {com : List (List T')} {y : List (ZMod p)} {parts : List T} {pm : T}
    {s : Nat → List (BitVec 8)} (hs : ∀ i, (s i).length = 16) (hc : E.Convinces x com y parts pm s) :
    ∃ W, E.Transcript A A' R R' x com y parts pm s W := by
  obtain ⟨pf, h1, h2, h3⟩ := hc
  obtain ⟨W, hW, hWr⟩ := JEnv.verify_sound (answer_good h _ hs) A A' h3
  have hg : ∀ j, (E.answer (E.move x com parts pm) s).gamInt x com pf.parts pf.partMask j = chalInt E.par.enc (s j) := by
    intro j; rw [h1, h2, answer_gamInt]
  have hb : ∀ i, (E.answer (E.move x com parts pm) s).betInt x com i = E.betInt x com i := fun i => answer_betInt ..
  refine ⟨W, ?_, ?_, ?_, ?_, ?_, ?_, hWr, ?_, ?_, ?_, ?_⟩
  · intro l hl
    refine ⟨(hW.inCommit l hl).1, fun c hc => le_of_norm hR.dcmp hW.outerNorm (z := W.t l) ?_ hc⟩
    exact List.mem_append.2 (Or.inl (List.mem_map.2 ⟨l, List.mem_range.2 hl, rfl⟩))
  · intro k hk
    refine ⟨hW.sLen k hk, fun c hc => le_of_norm hR.dcmp hW.outerNorm (z := W.s k) ?_ hc⟩
    exact List.mem_append.2 (Or.inr (List.mem_map.2 ⟨k, List.mem_range.2 hk, rfl⟩))
  · intro k hk
    refine ⟨(hW.encode k hk).1, fun c hc => le_of_norm hR.res hW.innerNorm (z := W.e k) ?_ hc⟩
    exact List.mem_append.2 (Or.inl (List.mem_append.2 (Or.inl (List.mem_map.2 ⟨k, List.mem_range.2 hk, rfl⟩))))
  · intro k hk
    refine ⟨(hW.mlwe k hk).1, fun c hc => le_of_norm hR.res hW.innerNorm (z := W.m k) ?_ hc⟩
    exact List.mem_append.2 (Or.inl (List.mem_append.2 (Or.inr (List.mem_map.2 ⟨k, List.mem_range.2 hk, rfl⟩))))
  · intro k hk
    refine ⟨hW.uLen k hk, fun c hc => le_of_norm hR.res hW.innerNorm (z := W.u k) ?_ hc⟩
    exact List.mem_append.2 (Or.inr (List.mem_map.2 ⟨k, List.mem_range.2 hk, rfl⟩))
  · intro j hj
    rw [← h1]
    exact hW.parts j hj
  · intro k hk
    have e1 := hW.outer k hk
    have e2 : ∑ i ∈ range E.par.batch, toR E.ringQ'.qs E.ringQ'.N
        ((E.answer (E.move x com parts pm) s).betInt x com i) * A'.val (at2 com i k) = ∑ i ∈ range E.par.batch,
        toR E.ringQ'.qs E.ringQ'.N (E.betInt x com i) * A'.val (at2 com i k) := by
      simp only [hb]
    exact (congrArg (fun r => 2 ^ E.par.outCut * r) e2).symm.trans e1
  · intro k hk
    have e1 := hW.inner k hk
    simp only [hg] at e1
    exact e1
  · have e1 := hW.consistent
    simp only [hg] at e1
    rw [h2] at e1
    exact e1
  · have e1 := hW.eval
    simp only [hb] at e1
    exact e1

/-- All transcripts for commitments and batching challenges have the same inner commitments. -/
theorem same_inner (A : E.ringQ.Lawful) (A' : E.ringQ'.Lawful) {R R' : Nat} (hb : E.BindsOut A' (2 * R')) {x₁ x₂ : ZMod p}
    {com : List (List T')} {y₁ y₂ : List (ZMod p)} {q₁ q₂ : List T} {m₁ m₂ : T} {s₁ s₂ : Nat → List (BitVec 8)}
    {W₁ W₂ : JWit} (hβ : ∀ i < E.par.batch, E.betInt x₁ com i = E.betInt x₂ com i)
    (h₁ : E.Transcript A A' R R' x₁ com y₁ q₁ m₁ s₁ W₁) (h₂ : E.Transcript A A' R R' x₂ com y₂ q₂ m₂ s₂ W₂) :
    ∀ l < E.par.dcmpLen, W₁.t l = W₂.t l := by
  have h := hb (fun l => subL E.ringQ'.N (W₁.t l) (W₂.t l)) (fun k => subL E.ringQ'.N (W₁.s k) (W₂.s k))
    (fun l hl => (h₁.tS l hl).sub (h₂.tS l hl)) (fun k hk => (h₁.sS k hk).sub (h₂.sS k hk)) (by
      intro k hk
      have e1 := h₁.outer k hk
      have e2 := h₂.outer k hk
      rw [sum_congr rfl fun i hi => by rw [hβ i (mem_range.1 hi)]] at e1
      rw [toR_subL (h₁.sS k hk).1 (h₂.sS k hk).1]
      have e3 : ∀ l ∈ range E.par.dcmpLen, A'.val (at2 E.key.out k l) * toR E.ringQ'.qs E.ringQ'.N
          (subL E.ringQ'.N (W₁.t l) (W₂.t l)) = A'.val (at2 E.key.out k l) * toR E.ringQ'.qs E.ringQ'.N (W₁.t l) -
          A'.val (at2 E.key.out k l) * toR E.ringQ'.qs E.ringQ'.N (W₂.t l) := by
        intro l hl
        have hl := mem_range.1 hl
        rw [toR_subL (h₁.tS l hl).1 (h₂.tS l hl).1, mul_sub]
      rw [sum_congr rfl e3, sum_sub_distrib]
      linear_combination e2 - e1)
  intro l hl
  exact eq_of_subL (h₁.tS l hl).1 (h₂.tS l hl).1 (h l hl)

/-- A relaxed opening of column `j` of the inner commitments `t`: a short vector whose commitment is that of the column
times the difference of two challenges. -/
structure JEnv.ColOpen (E : JEnv p T T') (A : E.ringQ.Lawful) (R : Nat) (t : Nat → List Int) (j : Nat)
    (b b' : List (BitVec 8)) (e m u : Nat → List Int) : Prop where
  ne : chalInt E.par.enc b ≠ chalInt E.par.enc b'
  eS : ∀ k < E.par.mat.rows, Short E.ringQ.N (2 * R) (e k)
  mS : ∀ k < E.par.mlweRank + E.par.inRank, Short E.ringQ.N (2 * R) (m k)
  uS : ∀ k < E.par.inRank, Short E.ringQ.N (2 * R) (u k)
  inner : ∀ k < E.par.inRank,
    2 ^ E.par.inCut * ((toR E.ringQ.qs E.ringQ.N (chalInt E.par.enc b) - toR E.ringQ.qs E.ringQ.N (chalInt E.par.enc b')) *
        toR E.ringQ.qs E.ringQ.N (t (j * E.par.inRank + k))) =
    ∑ l ∈ range E.par.mat.rows, A.val (at2 E.key.inn k l) * toR E.ringQ.qs E.ringQ.N (e l) +
      ∑ l ∈ range E.par.mlweRank, A.val (at2 E.key.mlwe k l) * toR E.ringQ.qs E.ringQ.N (m l) +
      toR E.ringQ.qs E.ringQ.N (m (E.par.mlweRank + k)) + toR E.ringQ.qs E.ringQ.N (u k)

/-- Two transcripts that differ in the challenge of column `j` give a relaxed opening of the column, and its combination
by the powers of the point is the partial evaluation times the difference of the challenges. -/
theorem colOpen (h : E.Good) (A : E.ringQ.Lawful) (A' : E.ringQ'.Lawful) {R R' : Nat} {x : ZMod p}
    {com : List (List T')} {y : List (ZMod p)} {parts : List T} {pm : T} {s s' : Nat → List (BitVec 8)}
    {W W' : JWit} (h₁ : E.Transcript A A' R R' x com y parts pm s W) (h₂ : E.Transcript A A' R R' x com y parts pm s' W')
    (ht : ∀ l < E.par.dcmpLen, W.t l = W'.t l) {j : Nat} (hj : j < E.par.mat.cols) (hs : ∀ i ≠ j, s i = s' i)
    (hne : chalInt E.par.enc (s j) ≠ chalInt E.par.enc (s' j)) :
    E.ColOpen A R W.t j (s j) (s' j) (fun k => subL E.ringQ.N (W.e k) (W'.e k))
      (fun k => subL E.ringQ.N (W.m k) (W'.m k)) (fun k => subL E.ringQ.N (W.u k) (W'.u k)) ∧
    ∑ k ∈ range E.par.mat.rows, toR E.ringQ.qs E.ringQ.N (E.leftInt x k) *
      toR E.ringQ.qs E.ringQ.N (subL E.ringQ.N (W.e k) (W'.e k)) =
    (toR E.ringQ.qs E.ringQ.N (chalInt E.par.enc (s j)) - toR E.ringQ.qs E.ringQ.N (chalInt E.par.enc (s' j))) *
      toR E.ringQ.qs E.ringQ.N (W.f j) := by
  have hsum : ∀ a : Nat → RQ E.ringQ.qs E.ringQ.N,
      ∑ i ∈ range E.par.mat.cols, toR E.ringQ.qs E.ringQ.N (chalInt E.par.enc (s i)) * a i -
        ∑ i ∈ range E.par.mat.cols, toR E.ringQ.qs E.ringQ.N (chalInt E.par.enc (s' i)) * a i =
      (toR E.ringQ.qs E.ringQ.N (chalInt E.par.enc (s j)) - toR E.ringQ.qs E.ringQ.N (chalInt E.par.enc (s' j))) * a j := by
    intro a
    rw [← sum_sub_distrib, sum_eq_single j, sub_mul]
    · intro i _ hne
      rw [hs i hne, sub_self]
    · intro hn; exact absurd (mem_range.mpr hj) hn
  have hidx : ∀ i ≤ E.par.mat.cols, ∀ k < E.par.inRank, i * E.par.inRank + k < E.par.dcmpLen := by
    intro i hi k hk
    rw [h.dcmp]
    have := Nat.mul_le_mul_right E.par.inRank hi
    rw [Nat.succ_mul]
    omega
  have hse : ∀ (n : Nat) (a : Nat → RQ E.ringQ.qs E.ringQ.N) (u v : Nat → List Int),
      (∀ k < n, (u k).length = E.ringQ.N) → (∀ k < n, (v k).length = E.ringQ.N) →
      ∑ k ∈ range n, a k * toR E.ringQ.qs E.ringQ.N (subL E.ringQ.N (u k) (v k)) =
      ∑ k ∈ range n, a k * toR E.ringQ.qs E.ringQ.N (u k) - ∑ k ∈ range n, a k * toR E.ringQ.qs E.ringQ.N (v k) := by
    intro n a u v hu hv
    rw [← sum_sub_distrib]
    apply sum_congr rfl
    intro k hk
    have hk := mem_range.1 hk
    rw [toR_subL (hu k hk) (hv k hk), mul_sub]
  refine ⟨⟨hne, fun k hk => (h₁.eS k hk).sub (h₂.eS k hk), fun k hk => (h₁.mS k hk).sub (h₂.mS k hk),
    fun k hk => (h₁.uS k hk).sub (h₂.uS k hk), ?_⟩, ?_⟩
  · intro k hk
    have e1 := h₁.inner k hk
    have e2 := h₂.inner k hk
    have e3 := hsum (fun i => toR E.ringQ.qs E.ringQ.N (W.t (i * E.par.inRank + k)))
    rw [← ht _ (hidx _ le_rfl k hk)] at e2
    have e4 : ∀ i ∈ range E.par.mat.cols, toR E.ringQ.qs E.ringQ.N (chalInt E.par.enc (s' i)) *
          toR E.ringQ.qs E.ringQ.N (W'.t (i * E.par.inRank + k)) = toR E.ringQ.qs E.ringQ.N (chalInt E.par.enc (s' i)) *
          toR E.ringQ.qs E.ringQ.N (W.t (i * E.par.inRank + k)) := by
      intro i hi
      rw [ht _ (hidx _ (mem_range.mp hi).le k hk)]
    rw [sum_congr rfl e4] at e2
    rw [hse _ _ W.e W'.e (fun k hk => (h₁.eS k hk).1) (fun k hk => (h₂.eS k hk).1),
      hse _ _ W.m W'.m (fun k hk => (h₁.mS k (by omega)).1) (fun k hk => (h₂.mS k (by omega)).1),
      toR_subL (h₁.mS _ (by omega)).1 (h₂.mS _ (by omega)).1, toR_subL (h₁.uS k hk).1 (h₂.uS k hk).1]
    linear_combination e1 - e2 - 2 ^ E.par.inCut * e3
  · have e1 := h₁.consistent
    have e2 := h₂.consistent
    have hf : ∀ i < E.par.mat.cols, toR E.ringQ.qs E.ringQ.N (W'.f i) = toR E.ringQ.qs E.ringQ.N (W.f i) := by
      intro i hi
      rw [← (h₁.fS i hi).2, ← (h₂.fS i hi).2]
    have e4 : ∀ i ∈ range E.par.mat.cols, toR E.ringQ.qs E.ringQ.N (chalInt E.par.enc (s' i)) *
          toR E.ringQ.qs E.ringQ.N (W'.f i) = toR E.ringQ.qs E.ringQ.N (chalInt E.par.enc (s' i)) *
          toR E.ringQ.qs E.ringQ.N (W.f i) := by
      intro i hi
      rw [hf i (mem_range.1 hi)]
    rw [sum_congr rfl e4] at e2
    have e3 := hsum (fun i => toR E.ringQ.qs E.ringQ.N (W.f i))
    rw [hse _ _ W.e W'.e (fun k hk => (h₁.eS k hk).1) (fun k hk => (h₂.eS k hk).1)]
    linear_combination e1 - e2 + e3

/-- Relaxed openings of a column decode to the same numbers up to the differences of the challenges. -/
theorem cross (h : E.Good) (A : E.ringQ.Lawful) {R : Nat}
    (hb : E.BindsIn A (2 * (E.par.enc.ecd.exp * (challengeBound E.par.enc.ecd * (2 * R))))) {t₁ t₂ : Nat → List Int} {j : Nat}
    (ht : ∀ k < E.par.inRank, t₁ (j * E.par.inRank + k) = t₂ (j * E.par.inRank + k))
    {b₁ b₁' b₂ b₂' : List (BitVec 8)} {e₁ m₁ u₁ e₂ m₂ u₂ : Nat → List Int}
    (h₁ : E.ColOpen A R t₁ j b₁ b₁' e₁ m₁ u₁) (h₂ : E.ColOpen A R t₂ j b₂ b₂' e₂ m₂ u₂) :
    ∀ k < E.par.mat.rows, ∀ s < E.par.enc.slots,
      chalDiff p E.par.enc b₂ b₂' * (decoded p E.par.enc (e₁ k)).getD s 0 =
      chalDiff p E.par.enc b₁ b₁' * (decoded p E.par.enc (e₂ k)).getD s 0 := by
  have hN : E.ringQ.N = E.par.enc.N := h.deg
  obtain ⟨d₁, hd₁⟩ : ∃ d, d = toZ E.ringQ.N (chalInt E.par.enc b₁) - toZ E.ringQ.N (chalInt E.par.enc b₁') := ⟨_, rfl⟩
  obtain ⟨d₂, hd₂⟩ : ∃ d, d = toZ E.ringQ.N (chalInt E.par.enc b₂) - toZ E.ringQ.N (chalInt E.par.enc b₂') := ⟨_, rfl⟩
  have hr₁ : redR E.ringQ.qs E.ringQ.N d₁ = toR E.ringQ.qs E.ringQ.N (chalInt E.par.enc b₁) -
      toR E.ringQ.qs E.ringQ.N (chalInt E.par.enc b₁') := by rw [hd₁, map_sub, redR_toZ, redR_toZ]
  have hr₂ : redR E.ringQ.qs E.ringQ.N d₂ = toR E.ringQ.qs E.ringQ.N (chalInt E.par.enc b₂) -
      toR E.ringQ.qs E.ringQ.N (chalInt E.par.enc b₂') := by rw [hd₂, map_sub, redR_toZ, redR_toZ]
  have hex : ∀ z₁ z₂ : List Int, ∃ z, Short E.ringQ.N (2 * R) z₁ → Short E.ringQ.N (2 * R) z₂ →
      Short E.ringQ.N (2 * (E.par.enc.ecd.exp * (challengeBound E.par.enc.ecd * (2 * R)))) z ∧
      toZ E.ringQ.N z = d₂ * toZ E.ringQ.N z₁ - d₁ * toZ E.ringQ.N z₂ := by
    intro z₁ z₂
    by_cases hz : Short E.ringQ.N (2 * R) z₁ ∧ Short E.ringQ.N (2 * R) z₂
    · have := (Bnd.chal_mul h.enc h.chal hN b₂ b₂' hz.1.bnd).sub (Bnd.chal_mul h.enc h.chal hN b₁ b₁' hz.2.bnd)
      rw [← Nat.two_mul, ← hd₁, ← hd₂] at this
      obtain ⟨z, q1, q2, q3⟩ := this
      exact ⟨z, fun _ _ => ⟨⟨q1, q3⟩, q2⟩⟩
    · exact ⟨[], fun a b => absurd ⟨a, b⟩ hz⟩
  choose Z hZ using hex
  have hZr : ∀ z₁ z₂, Short E.ringQ.N (2 * R) z₁ → Short E.ringQ.N (2 * R) z₂ → toR E.ringQ.qs E.ringQ.N (Z z₁ z₂) =
      redR E.ringQ.qs E.ringQ.N d₂ * toR E.ringQ.qs E.ringQ.N z₁ -
      redR E.ringQ.qs E.ringQ.N d₁ * toR E.ringQ.qs E.ringQ.N z₂ := by
    intro z₁ z₂ a b
    rw [← redR_toZ, (hZ z₁ z₂ a b).2, map_sub, map_mul, map_mul, redR_toZ, redR_toZ]
  have hzero := hb (fun k => Z (e₁ k) (e₂ k)) (fun k => Z (m₁ k) (m₂ k)) (fun k => Z (u₁ k) (u₂ k))
    (fun k hk => (hZ _ _ (h₁.eS k hk) (h₂.eS k hk)).1) (fun k hk => (hZ _ _ (h₁.mS k hk) (h₂.mS k hk)).1)
    (fun k hk => (hZ _ _ (h₁.uS k hk) (h₂.uS k hk)).1) (by
      intro k hk
      have i1 := h₁.inner k hk
      have i2 := h₂.inner k hk
      rw [← hr₁] at i1
      rw [← hr₂] at i2
      rw [← ht k hk] at i2
      have s1 : ∀ l ∈ range E.par.mat.rows, A.val (at2 E.key.inn k l) * toR E.ringQ.qs E.ringQ.N (Z (e₁ l) (e₂ l)) =
          redR E.ringQ.qs E.ringQ.N d₂ * (A.val (at2 E.key.inn k l) * toR E.ringQ.qs E.ringQ.N (e₁ l)) -
          redR E.ringQ.qs E.ringQ.N d₁ * (A.val (at2 E.key.inn k l) * toR E.ringQ.qs E.ringQ.N (e₂ l)) := by
        intro l hl
        have hl := mem_range.1 hl
        rw [hZr _ _ (h₁.eS l hl) (h₂.eS l hl)]
        ring
      have s2 : ∀ l ∈ range E.par.mlweRank, A.val (at2 E.key.mlwe k l) * toR E.ringQ.qs E.ringQ.N (Z (m₁ l) (m₂ l)) =
          redR E.ringQ.qs E.ringQ.N d₂ * (A.val (at2 E.key.mlwe k l) * toR E.ringQ.qs E.ringQ.N (m₁ l)) -
          redR E.ringQ.qs E.ringQ.N d₁ * (A.val (at2 E.key.mlwe k l) * toR E.ringQ.qs E.ringQ.N (m₂ l)) := by
        intro l hl
        have hl := mem_range.1 hl
        rw [hZr _ _ (h₁.mS l (by omega)) (h₂.mS l (by omega))]
        ring
      rw [sum_congr rfl s1, sum_congr rfl s2, sum_sub_distrib, sum_sub_distrib, ← mul_sum, ← mul_sum, ← mul_sum, ← mul_sum,
        hZr _ _ (h₁.mS _ (by omega)) (h₂.mS _ (by omega)), hZr _ _ (h₁.uS k hk) (h₂.uS k hk)]
      linear_combination redR E.ringQ.qs E.ringQ.N d₁ * i2 - redR E.ringQ.qs E.ringQ.N d₂ * i1)
  intro k hk
  apply decode_cross h.enc hN b₁ b₁' b₂ b₂' (h₁.eS k hk).1 (h₂.eS k hk).1
  rw [← hd₁, ← hd₂]
  have hz := hZ _ _ (h₁.eS k hk) (h₂.eS k hk)
  have h0 : toZ E.ringQ.N (Z (e₁ k) (e₂ k)) = 0 := by
    rw [coeffs_eq_range hz.1.1, toZ_range]
    apply sum_eq_zero
    intro i _
    have : (Z (e₁ k) (e₂ k)).getD i 0 = 0 := by
      by_cases hi : i < (Z (e₁ k) (e₂ k)).length
      · rw [List.getD_eq_getElem _ _ hi]; exact hzero k hk _ (List.getElem_mem hi)
      · rw [List.getD_eq_default _ _ (by omega)]
    rw [this]; simp
  rw [h0] at hz
  exact sub_eq_zero.1 hz.2.symm

/-- The partial evaluations of the first message have coefficients of absolute value at most `F`: the check that
`Verify` does not make. -/
def JEnv.ShortParts (E : JEnv p T T') (A : E.ringQ.Lawful) (F : Nat) (parts : List T) : Prop :=
  ∀ j < E.par.mat.cols, ∃ z, Short E.ringQ.N F z ∧ A.val (parts.getD j 0) = toR E.ringQ.qs E.ringQ.N z

/-- For every column there are challenges that differ in this column only, all of which the prover can answer after the
first message `parts`, `pm`. -/
def JEnv.Forks [DecidableEq T] (E : JEnv p T T') (x : ZMod p) (com : List (List T')) (y : List (ZMod p))
    (parts : List T) (pm : T) : Prop :=
  ∀ j < E.par.mat.cols, ∃ s s' : Nat → List (BitVec 8), (∀ i, (s i).length = 16) ∧ (∀ i, (s' i).length = 16) ∧
    (∀ i ≠ j, s i = s' i) ∧ chalInt E.par.enc (s j) ≠ chalInt E.par.enc (s' j) ∧
    E.Convinces x com y parts pm s ∧ E.Convinces x com y parts pm s'

/-- What a fork in column `j` gives. -/
theorem fork_col [DecidableEq T] (h : E.Good) (A : E.ringQ.Lawful) (A' : E.ringQ'.Lawful)
    {R R' F : Nat} (hR : E.Room R R' F) (ho : E.BindsOut A' (2 * R')) {x : ZMod p} {com : List (List T')}
    {y : List (ZMod p)} {parts : List T} {pm : T} (hF : E.ShortParts A F parts) (hf : E.Forks x com y parts pm)
    {j : Nat} (hj : j < E.par.mat.cols) :
    ∃ (s : Nat → List (BitVec 8)) (W : JWit) (b b' : List (BitVec 8)) (e m u : Nat → List Int),
      E.Transcript A A' R R' x com y parts pm s W ∧ E.ColOpen A R W.t j b b' e m u ∧
      ∀ t < E.par.enc.slots, chalDiff p E.par.enc b b' * (decoded p E.par.enc (W.f j)).getD t 0 =
        ∑ k ∈ range E.par.mat.rows, E.leftAt x k * (decoded p E.par.enc (e k)).getD t 0 := by
  obtain ⟨s, s', l1, l2, hs, hne, c1, c2⟩ := hf j hj
  obtain ⟨W, hW⟩ := transcript h A A' hR l1 c1
  obtain ⟨W', hW'⟩ := transcript h A A' hR l2 c2
  obtain ⟨q1, q2⟩ := colOpen h A A' hW hW' (same_inner A A' ho (fun _ _ => rfl) hW hW') hj hs hne
  refine ⟨s, W, s j, s' j, _, _, _, hW, q1, ?_⟩
  have hN : E.ringQ.N = E.par.enc.N := h.deg
  apply decode_comb h.enc hN _ _ (hW.fS j hj).1 E.par.mat.rows (fun k => E.leftAt x k) _ (fun k hk => (q1.eS k hk).1)
  obtain ⟨z, z1, z2⟩ := hF j hj
  have hfz : W.f j = z := by
    apply reps_unique A.chain A.pos (hW.fS j hj).1 z1.1 _ (hW.fR j hj)
    · intro c hc
      have := z1.2 c hc
      have := hR.parts
      exact .of_lt (by omega) (by omega)
    · rw [← z2]; exact (hW.fS j hj).2.symm
  rw [← sub_eq_zero]
  apply Bnd.eq_zero A.chain A.pos _ hR.room
  · rw [map_sub, map_mul, map_sub, map_sum]
    simp only [map_mul, redR_toZ]
    rw [← q2, sub_eq_zero]
    rfl
  · apply Bnd.sub
    · rw [hfz]
      exact Bnd.chal_mul h.enc h.chal hN _ _ z1.bnd
    · apply Bnd.sum
      intro k hk
      exact Bnd.enc_mul h.enc hN _ (q1.eS k hk).bnd

end

/-- The polynomial with the coefficients `D k j s`, row by row; the last row is multiplied by `X`. -/
noncomputable def matPoly (M : MatParams) (D : Nat → Nat → Nat → ZMod p) : (ZMod p)[X] :=
  ∑ k ∈ range M.rows, (if k = M.rows - 1 then X else X ^ (M.cols * M.slots * k)) *
    ∑ j ∈ range M.cols, ∑ s ∈ range M.slots, C (D k j s) * X ^ (j * M.slots + s)

theorem matPoly_eval (E : JEnv p T T') (D : Nat → Nat → Nat → ZMod p) (x : ZMod p) :
    (matPoly E.par.mat D).eval x = ∑ k ∈ range E.par.mat.rows, E.leftAt x k * ∑ j ∈ range E.par.mat.cols,
      ∑ s ∈ range E.par.mat.slots, D k j s * x ^ (j * E.par.mat.slots + s) := by
  unfold matPoly JEnv.leftAt
  rw [eval_finsetSum]
  apply sum_congr rfl
  intro k _
  rw [eval_mul, eval_finsetSum]
  congr 1
  · split <;> simp
  · apply sum_congr rfl
    intro j _
    rw [eval_finsetSum]
    apply sum_congr rfl
    intro s _
    simp

theorem matPoly_degree {M : MatParams} (h : M.Good) (D : Nat → Nat → Nat → ZMod p) :
    (matPoly M D).natDegree ≤ M.rank := by
  have hn := h.pos
  have hin : ∀ k, (∑ j ∈ range M.cols, ∑ s ∈ range M.slots, C (D k j s) * X ^ (j * M.slots + s)).natDegree ≤
      M.cols * M.slots - 1 := by
    intro k
    apply natDegree_sum_le_of_forall_le
    intro j hj
    apply natDegree_sum_le_of_forall_le
    intro s hs
    refine (natDegree_C_mul_X_pow_le _ _).trans ?_
    have := Nat.mul_le_mul_right M.slots (mem_range.1 hj)
    have := mem_range.1 hs
    rw [Nat.succ_mul] at *
    omega
  have hr : M.rank = M.cols * M.slots * (M.rows - 1) := by
    rw [h.rank, Nat.mul_right_comm]
  unfold matPoly
  apply natDegree_sum_le_of_forall_le
  intro k hk
  have hk := mem_range.1 hk
  refine natDegree_mul_le.trans ?_
  split
  · refine (Nat.add_le_add natDegree_X_le (hin k)).trans ?_
    rw [hr]
    have := Nat.mul_le_mul_left (M.cols * M.slots) (show 1 ≤ M.rows - 1 by have := h.rows; omega)
    omega
  · refine (Nat.add_le_add (natDegree_X_pow_le _) (hin k)).trans ?_
    rw [hr]
    have := Nat.mul_le_mul_left (M.cols * M.slots) (show k + 1 ≤ M.rows - 1 by omega)
    rw [Nat.mul_succ] at this
    omega

/-- Commitments and batching challenges `β` determine a polynomial whose values are the combinations of the values that
can be proved. -/
theorem bind_comb [DecidableEq T] [Fact p.Prime] (E : JEnv p T T') (h : E.Good) (A : E.ringQ.Lawful)
    (A' : E.ringQ'.Lawful) (R R' F : Nat) (hR : E.Room R R' F) (ho : E.BindsOut A' (2 * R'))
    (hi : E.BindsIn A (2 * (E.par.enc.ecd.exp * (challengeBound E.par.enc.ecd * (2 * R)))))
    (com : List (List T')) (β : Nat → List Int) :
    ∃ P : (ZMod p)[X], P.natDegree ≤ E.par.mat.rank ∧ ∀ (x : ZMod p) (y : List (ZMod p)) (parts : List T) (pm : T),
      (∀ i < E.par.batch, E.betInt x com i = β i) → E.ShortParts A F parts → E.Forks x com y parts pm →
      ∑ i ∈ range E.par.batch, (decoded p E.par.enc (β i)).getD 0 0 * y.getD i 0 = P.eval x := by
  classical
  by_cases hex : ∃ (x : ZMod p) (y : List (ZMod p)) (parts : List T) (pm : T),
      (∀ i < E.par.batch, E.betInt x com i = β i) ∧ E.ShortParts A F parts ∧ E.Forks x com y parts pm
  swap
  · exact ⟨0, by simp, fun x y parts pm h0 h1 h2 => absurd ⟨x, y, parts, pm, h0, h1, h2⟩ hex⟩
  obtain ⟨x₀, y₀, parts₀, pm₀, hβ₀, hF₀, hf₀⟩ := hex
  have hcol : ∀ j, ∃ (s : Nat → List (BitVec 8)) (W : JWit) (b b' : List (BitVec 8)) (e m u : Nat → List Int),
      j < E.par.mat.cols → E.Transcript A A' R R' x₀ com y₀ parts₀ pm₀ s W ∧ E.ColOpen A R W.t j b b' e m u := by
    intro j
    by_cases hj : j < E.par.mat.cols
    · obtain ⟨s, W, b, b', e, m, u, q1, q2, -⟩ := fork_col h A A' hR ho hF₀ hf₀ hj
      exact ⟨s, W, b, b', e, m, u, fun _ => ⟨q1, q2⟩⟩
    · exact ⟨fun _ => [], ⟨fun _ => [], fun _ => [], fun _ => [], fun _ => [], fun _ => [], fun _ => []⟩, [], [],
        fun _ => [], fun _ => [], fun _ => [], fun h => absurd h hj⟩
  choose s₀ W₀ b₀ b₀' e₀ m₀ u₀ h₀ using hcol
  refine ⟨matPoly E.par.mat fun k j t => (chalDiff p E.par.enc (b₀ j) (b₀' j))⁻¹ *
    (decoded p E.par.enc (e₀ j k)).getD t 0, matPoly_degree h.mat _, ?_⟩
  intro x y parts pm hβ hF hf
  rw [matPoly_eval]
  obtain ⟨s₁, W₁, -, -, -, -, -, hW₁, -, -⟩ := fork_col h A A' hR ho hF hf h.mat.cols
  rw [sum_congr rfl fun i hi => by rw [← hβ i (mem_range.1 hi)]]
  refine hW₁.eval.symm.trans ?_
  have hkey : ∀ j < E.par.mat.cols, ∀ t < E.par.mat.slots, (decoded p E.par.enc (W₁.f j)).getD t 0 =
      ∑ k ∈ range E.par.mat.rows, E.leftAt x k * ((chalDiff p E.par.enc (b₀ j) (b₀' j))⁻¹ *
        (decoded p E.par.enc (e₀ j k)).getD t 0) := by
    intro j hj t ht
    rw [h.slots] at ht
    obtain ⟨s, W, b, b', e, m, u, hW, hc, hv⟩ := fork_col h A A' hR ho hF hf hj
    have hfeq : W₁.f j = W.f j := by
      apply reps_unique A.chain A.pos (hW₁.fS j hj).1 (hW.fS j hj).1 _ (hW₁.fR j hj) (hW.fR j hj)
      rw [← (hW₁.fS j hj).2, ← (hW.fS j hj).2]
    have hd : chalDiff p E.par.enc b b' ≠ 0 := chal_ne h.enc h.chal b b' hc.ne
    have hd₀ : chalDiff p E.par.enc (b₀ j) (b₀' j) ≠ 0 := chal_ne h.enc h.chal _ _ (h₀ j hj).2.ne
    have hx := cross h A hi (fun k hk => same_inner A A' ho
      (fun i hi => (hβ₀ i hi).trans (hβ i hi).symm) (h₀ j hj).1 hW _ (by
      rw [h.dcmp]
      have := Nat.mul_le_mul_right E.par.inRank hj
      rw [Nat.succ_mul] at *
      omega)) (h₀ j hj).2 hc
    apply mul_left_cancel₀ hd
    rw [hfeq, hv t ht, mul_sum]
    apply sum_congr rfl
    intro k hk
    have h1 := hx k (mem_range.1 hk) t ht
    have h2 : (decoded p E.par.enc (e k)).getD t 0 = (chalDiff p E.par.enc (b₀ j) (b₀' j))⁻¹ *
        (chalDiff p E.par.enc b b' * (decoded p E.par.enc (e₀ j k)).getD t 0) := by
      rw [h1, inv_mul_cancel_left₀ hd₀]
    rw [h2]
    ring
  have h1 : ∀ j ∈ range E.par.mat.cols, ∀ t ∈ range E.par.mat.slots, x ^ (j * E.par.mat.slots + t) *
      (decoded p E.par.enc (W₁.f j)).getD t 0 = ∑ k ∈ range E.par.mat.rows, E.leftAt x k *
        ((chalDiff p E.par.enc (b₀ j) (b₀' j))⁻¹ * (decoded p E.par.enc (e₀ j k)).getD t 0 *
          x ^ (j * E.par.mat.slots + t)) := by
    intro j hj t ht
    rw [hkey j (mem_range.1 hj) t (mem_range.1 ht), mul_sum]
    apply sum_congr rfl
    intro k _
    ring
  rw [sum_congr rfl fun j hj => sum_congr rfl (h1 j hj)]
  simp only [mul_sum]
  rw [sum_congr rfl fun j _ => sum_comm, sum_comm]

/-- **C99.**  If the keys have no short vectors in their kernels, then for every commitment there is one polynomial such
that every value `y` at every point `x` that a prover can prove with short partial evaluations, with answers to two
different challenges in every column, is the value of this polynomial. -/
theorem C99 [DecidableEq T] [Fact p.Prime] (E : JEnv p T T') (h : E.Good) (A : E.ringQ.Lawful) (A' : E.ringQ'.Lawful)
    (hB : E.par.batch = 1) (R R' F : Nat) (hR : E.Room R R' F) (ho : E.BindsOut A' (2 * R'))
    (hi : E.BindsIn A (2 * (E.par.enc.ecd.exp * (challengeBound E.par.enc.ecd * (2 * R)))))
    (com : List (List T')) :
    ∃ P : (ZMod p)[X], P.natDegree ≤ E.par.mat.rank ∧ ∀ (x : ZMod p) (y : List (ZMod p)) (parts : List T) (pm : T),
      E.ShortParts A F parts → E.Forks x com y parts pm → y.getD 0 0 = P.eval x := by
  obtain ⟨P, h1, h2⟩ := bind_comb E h A A' R R' F hR ho hi com fun _ => [1]
  refine ⟨P, h1, fun x y parts pm hF hf => ?_⟩
  have := h2 x y parts pm (fun i _ => by unfold JEnv.betInt; rw [if_neg (by omega)]) hF hf
  rwa [hB, sum_range_one, JEnv.decoded_one h, one_mul] at this

/-- The challenges of all columns, made from sixteen bytes each. -/
def bytesOf {n : Nat} (b : Fin n → Fin 16 → BitVec 8) (i : Nat) : List (BitVec 8) :=
  if h : i < n then List.ofFn (b ⟨i, h⟩) else List.replicate 16 0

theorem bytesOf_length {n : Nat} (b : Fin n → Fin 16 → BitVec 8) (i : Nat) : (bytesOf b i).length = 16 := by
  unfold bytesOf; split <;> simp

set_option linter.constructorNameAsVariable false in
/-- Without forks, few challenges can be answered. -/
theorem count_of_no_forks [DecidableEq T] (E : JEnv p T T') (h : E.Good) (x : ZMod p) (com : List (List T'))
    (y : List (ZMod p)) (parts : List T) (pm : T) (hf : ¬ E.Forks x com y parts pm) :
    {b : Fin E.par.mat.cols → Fin 16 → BitVec 8 | E.Convinces x com y parts pm (bytesOf b)}.ncard ≤
      (2 ^ 128 / challengeBound E.par.enc.ecd ^ E.par.enc.ecd.exp + 1) * (2 ^ 128) ^ (E.par.mat.cols - 1) := by
  classical
  unfold JEnv.Forks at hf
  push Not at hf
  obtain ⟨j, hj, hf⟩ := hf
  have : Inhabited (BitVec 8) := ⟨0⟩
  have hone := one_challenge h.enc h.chal
  generalize 2 ^ 128 / challengeBound E.par.enc.ecd ^ E.par.enc.ecd.exp + 1 = m at hone ⊢
  have hcnt := card_le_of_coord ⟨j, hj⟩ m
    {b : Fin E.par.mat.cols → Fin 16 → BitVec 8 | E.Convinces x com y parts pm (bytesOf b)}.toFinset
  rw [card_bytes16] at hcnt
  rw [Set.ncard_eq_toFinset_card']
  refine hcnt fun g => hone _ ?_
  intro b hb b' hb'
  simp only [Set.mem_toFinset, Set.mem_ofPred_eq, mem_filter, mem_univ, true_and] at hb hb'
  by_contra hne
  have hat : ∀ a : Fin 16 → BitVec 8, bytesOf (Function.update g ⟨j, hj⟩ a) j = List.ofFn a := by
    intro a
    unfold bytesOf
    rw [dif_pos hj, Function.update_self]
  refine hf _ _ (bytesOf_length _) (bytesOf_length _) ?_ ?_ hb hb'
  · intro i hi
    unfold bytesOf
    split
    · next hlt =>
      rw [Function.update_of_ne (by intro he; exact hi (Fin.mk.inj he)),
        Function.update_of_ne (by intro he; exact hi (Fin.mk.inj he))]
    · rfl
  · rw [hat, hat]
    exact hne

/-- **C99, the error.**  For every commitment there is one polynomial such that a first message with short partial
evaluations for a wrong value at any point can be answered for at most `⌊2^128 / C⌋ + 1` of the `2^128` bytes of some
column, whatever the bytes of the other columns, where `C` is the number of challenges: a fraction of `1 / C`, up to
rounding, of all bytes. -/
theorem C99_error [DecidableEq T] [Fact p.Prime] (E : JEnv p T T') (h : E.Good) (A : E.ringQ.Lawful)
    (A' : E.ringQ'.Lawful) (hB : E.par.batch = 1) (R R' F : Nat) (hR : E.Room R R' F) (ho : E.BindsOut A' (2 * R'))
    (hi : E.BindsIn A (2 * (E.par.enc.ecd.exp * (challengeBound E.par.enc.ecd * (2 * R)))))
    (com : List (List T')) :
    ∃ P : (ZMod p)[X], P.natDegree ≤ E.par.mat.rank ∧ ∀ (x : ZMod p) (y : List (ZMod p)) (parts : List T) (pm : T),
      E.ShortParts A F parts → y.getD 0 0 ≠ P.eval x →
      {b : Fin E.par.mat.cols → Fin 16 → BitVec 8 | E.Convinces x com y parts pm (bytesOf b)}.ncard ≤
        (2 ^ 128 / challengeBound E.par.enc.ecd ^ E.par.enc.ecd.exp + 1) * (2 ^ 128) ^ (E.par.mat.cols - 1) := by
  obtain ⟨P, h1, h2⟩ := C99 E h A A' hB R R' F hR ho hi com
  exact ⟨P, h1, fun x y parts pm hF hy => count_of_no_forks E h x com y parts pm fun hf => hy (h2 x y parts pm hF hf)⟩

/-- The partial evaluations of an honest prover are short. -/
theorem honest_short [DecidableEq T] (E : JEnv p T T') (h : E.Good) (A : E.ringQ.Lawful)
    (A' : E.ringQ'.Lawful) (x : ZMod p) (vs : List (List (ZMod p))) (hl : vs.length = E.par.batch)
    (hv : ∀ v ∈ vs, v ≠ [] ∧ v.length ≤ E.par.mat.rank) (rs : Nat → ComRand p) (S : Nat)
    (hS : ∀ i j k t, (((rs i).col j).cell k t).natAbs ≤ S ∧ (((rs i).col j).mlwe k t).natAbs ≤ S)
    (b1 : E.toFloat (Nat.sqrt
      (E.par.dcmpLen * (E.par.enc.N * JEnv.batchGrow E (JEnv.truncMax E) ^ 2) +
        E.par.outRank * (E.par.enc.N * JEnv.batchGrow E (2 ^ E.par.outCut) ^ 2))) < E.par.dcmpNm)
    (b2 : E.toFloat (Nat.sqrt
      (E.par.mat.rows * (E.par.enc.N * JEnv.combGrow E (JEnv.encSize E S) ^ 2) +
        (E.par.mlweRank + E.par.inRank) * (E.par.enc.N * JEnv.combGrow E S ^ 2) +
        E.par.inRank * (E.par.enc.N * JEnv.combGrow E (2 ^ E.par.inCut) ^ 2))) < E.par.resNm)
    {coms : List (List T')} {opens : List (JOpen T T')} (hc : coms.length = E.par.batch)
    (ho : opens.length = E.par.batch) (hcm : ∀ i < E.par.batch, E.commit (vs.getD i []) (rs i) =
          .ok (coms.getD i [], opens.getD i ⟨[], [], []⟩)) {y : List (ZMod p)} {pf : JProof T T'}
    (he : E.evaluate x vs coms opens = .ok (y, pf)) :
    E.ShortParts A (E.par.mat.rows * (E.par.enc.N * (E.par.enc.ecd.base *
      JEnv.batchGrow E (JEnv.encSize E S)))) pf.parts := by
  obtain ⟨coms', opens', I, h1, h2, h3⟩ := commitAll E h A A' vs hv rs
  rw [hl] at h1 h2 h3
  have ext : ∀ {U : Type} {l l' : List U} (d : U), l.length = E.par.batch → l'.length = E.par.batch →
      (∀ i < E.par.batch, l.getD i d = l'.getD i d) → l = l' := by
    intro U l l' d h1 h2 h3
    apply List.ext_getElem (by omega)
    intro i h4 h5
    have := h3 i (by omega)
    rwa [List.getD_eq_getElem _ _ h4, List.getD_eq_getElem _ _ h5] at this
  have e12 : ∀ i < E.par.batch, coms'.getD i [] = coms.getD i [] ∧
      opens'.getD i ⟨[], [], []⟩ = opens.getD i ⟨[], [], []⟩ :=
    fun i hi => Prod.mk.inj (Except.ok.inj ((h3 i hi).1.symm.trans (hcm i hi)))
  obtain rfl := ext [] h1 hc fun i hi => (e12 i hi).1
  obtain rfl := ext ⟨[], [], []⟩ h2 ho fun i hi => (e12 i hi).2
  obtain ⟨pf', h4, h5⟩ := JEnv.honest_accepted h A A' x vs coms' opens' hl h1 h2
    (fun v hm => (hv v hm).2) I (fun i hi => (h3 i hi).2.1)
  obtain rfl : pf = pf' := (Prod.mk.inj (Except.ok.inj (he.symm.trans h4))).2
  obtain ⟨W, hW, wt, ws, we, wm, wu, wf⟩ := JEnv.honest_sizes h A A' x vs coms' opens' pf I
    (fun i hi => (h3 i hi).2.1) rs (fun i hi => (h3 i hi).2.2.1) (fun i hi => (h3 i hi).2.2.2) S
    (fun i _ j _ k t => hS i j k t)
  have hmap : ∀ (n B : Nat) (g : Nat → List Int), (∀ k < n, (g k).length = E.par.enc.N) →
      (∀ k < n, ∀ c ∈ g k, c.natAbs ≤ B) →
      jSqSum ((List.range n).map g) ≤ n * (E.par.enc.N * B ^ 2) := by
    intro n B g hg hB
    have := jSqSum_le (zs := (List.range n).map g) (N := E.par.enc.N) (B := B)
      (by intro z hz; obtain ⟨k, hk, rfl⟩ := List.mem_map.mp hz; exact hg k (List.mem_range.mp hk))
      (by intro z hz; obtain ⟨k, hk, rfl⟩ := List.mem_map.mp hz; exact hB k (List.mem_range.mp hk))
    simpa using this
  have hacc := h5 W hW (by
    refine lt_of_le_of_lt (h.mono (Nat.sqrt_le_sqrt ?_)) b1
    rw [jSqSum_append]
    exact Nat.add_le_add (hmap _ _ _ (fun l hl => (wt l hl).1) (fun l hl => (wt l hl).2))
      (hmap _ _ _ (fun k hk => (hW.s k hk).1) ws)) (by
    refine lt_of_le_of_lt (h.mono (Nat.sqrt_le_sqrt ?_)) b2
    rw [jSqSum_append, jSqSum_append]
    exact Nat.add_le_add (Nat.add_le_add (hmap _ _ _ (fun k hk => (hW.e k hk).1) we)
      (hmap _ _ _ (fun k hk => (hW.m k hk).1) wm)) (hmap _ _ _ (fun k hk => (hW.u k hk).1) wu))
  intro j hj
  exact ⟨W.f j, ⟨(hacc.parts j hj).1, wf j hj⟩, (hacc.parts j hj).2⟩

/-- A challenge other than that of zero bytes. -/
theorem two_challenges (P : EncParams) {p : Nat} (h : P.Good p) (hc : 2 ≤ challengeBound P.ecd) :
    chalInt P (List.replicate 16 0) ≠ chalInt P (beBytes 1 ++ beBytes 0) := by
  intro he
  have hN : 0 < P.N := by rw [h.deg]; exact Nat.mul_pos h.slots_pos h.exp_pos
  have h1 := congrArg (fun l => l.getD 0 0) he
  dsimp only [chalInt] at h1
  rw [getD_map_range _ _ _ _ hN, getD_map_range _ _ _ _ hN, if_pos (Nat.zero_mod _), if_pos (Nat.zero_mod _),
    show chalNum (List.replicate 16 0) = 0 by decide, show chalNum (beBytes 1 ++ beBytes 0) = 1 by decide] at h1
  simp only [Nat.zero_div, pow_zero, Nat.div_one, Nat.zero_mod, Nat.mod_eq_of_lt hc] at h1
  unfold centred at h1
  split at h1 <;> split at h1 <;> omega

/-- **C99, honest commitments.**  Let `com` be a commitment made by `Commit` to the polynomial with the coefficients `v`,
and let the bound `F` on the partial evaluations be at least what an honest prover needs.  A first message with partial
evaluations below `F` for a value other than that of the polynomial can be answered for a fraction of about `1 / C` of
all challenges only, whereas the first message of the honest prover has partial evaluations below `F` and can be answered
for all challenges. -/
theorem C99_honest [DecidableEq T] [Fact p.Prime] (E : JEnv p T T') (h : E.Good) (A : E.ringQ.Lawful)
    (A' : E.ringQ'.Lawful) (hB : E.par.batch = 1) (hC : 2 ≤ challengeBound E.par.enc.ecd) (R R' F S : Nat)
    (hR : E.Room R R' F) (ho : E.BindsOut A' (2 * R'))
    (hi : E.BindsIn A (2 * (E.par.enc.ecd.exp * (challengeBound E.par.enc.ecd * (2 * R)))))
    (hF : E.par.mat.rows * (E.par.enc.N * (E.par.enc.ecd.base * JEnv.batchGrow E (JEnv.encSize E S))) ≤ F)
    (v : List (ZMod p)) (hv : v ≠ []) (hv2 : v.length ≤ E.par.mat.rank) (r : ComRand p)
    (hS : ∀ j k t, ((r.col j).cell k t).natAbs ≤ S ∧ ((r.col j).mlwe k t).natAbs ≤ S)
    (b1 : E.toFloat (Nat.sqrt
      (E.par.dcmpLen * (E.par.enc.N * JEnv.batchGrow E (JEnv.truncMax E) ^ 2) +
        E.par.outRank * (E.par.enc.N * JEnv.batchGrow E (2 ^ E.par.outCut) ^ 2))) < E.par.dcmpNm)
    (b2 : E.toFloat (Nat.sqrt
      (E.par.mat.rows * (E.par.enc.N * JEnv.combGrow E (JEnv.encSize E S) ^ 2) +
        (E.par.mlweRank + E.par.inRank) * (E.par.enc.N * JEnv.combGrow E S ^ 2) +
        E.par.inRank * (E.par.enc.N * JEnv.combGrow E (2 ^ E.par.inCut) ^ 2))) < E.par.resNm) :
    ∃ com o, E.commit v r = .ok (com, o) ∧ ∀ x : ZMod p,
      (∀ (y : ZMod p) (parts : List T) (pm : T), E.ShortParts A F parts → y ≠ ∑ i ∈ range v.length, v.getD i 0 * x ^ i →
        {b : Fin E.par.mat.cols → Fin 16 → BitVec 8 | E.Convinces x [com] [y] parts pm (bytesOf b)}.ncard ≤
          (2 ^ 128 / challengeBound E.par.enc.ecd ^ E.par.enc.ecd.exp + 1) * (2 ^ 128) ^ (E.par.mat.cols - 1)) ∧
      ∃ pf, E.evaluate x [v] [com] [o] = .ok ([∑ i ∈ range v.length, v.getD i 0 * x ^ i], pf) ∧
        E.ShortParts A F pf.parts ∧ ∀ s : Nat → List (BitVec 8), (∀ i, (s i).length = 16) →
          E.Convinces x [com] [∑ i ∈ range v.length, v.getD i 0 * x ^ i] pf.parts pf.partMask s := by
  have b3 : 2 * (E.par.mat.rows * (E.par.enc.N * (E.par.enc.ecd.base *
      JEnv.batchGrow E (JEnv.encSize E S)))) + 1 < E.ringQ.qs.prod := by
    have := hR.parts
    omega
  obtain ⟨com, o, hcom, -, -⟩ := C63_commit E h A A' v hv hv2 r
  have hx : ∀ x : ZMod p, ∃ pf, E.evaluate x [v] [com] [o] = .ok ([∑ i ∈ range v.length, v.getD i 0 * x ^ i], pf) ∧
        E.ShortParts A F pf.parts ∧ ∀ s : Nat → List (BitVec 8), (∀ i, (s i).length = 16) →
          E.Convinces x [com] [∑ i ∈ range v.length, v.getD i 0 * x ^ i] pf.parts pf.partMask s := by
    intro x
    obtain ⟨coms, opens, pf, c1, l1, m1, e1, hc⟩ := C84_honest E h A A' x [v] (by simp [hB])
      (by simpa using ⟨hv, hv2⟩) (fun _ => r) S (fun _ => hS) b1 b2 b3
    have hs := honest_short E h A A' x [v] (by simp [hB]) (by simpa using ⟨hv, hv2⟩) (fun _ => r) S (fun _ => hS) b1 b2
      l1 m1 c1 e1
    obtain ⟨com', rfl⟩ := List.length_eq_one_iff.1 (l1.trans hB)
    obtain ⟨o', rfl⟩ := List.length_eq_one_iff.1 (m1.trans hB)
    have h1 := Prod.mk.inj (Except.ok.inj (hcom.symm.trans (c1 0 (by omega))))
    obtain rfl : com = com' := h1.1
    obtain rfl : o = o' := h1.2
    refine ⟨pf, e1, ?_, hc⟩
    intro j hj
    obtain ⟨z, z1, z2⟩ := hs j hj
    exact ⟨z, ⟨z1.1, fun c hc => (z1.2 c hc).trans hF⟩, z2⟩
  obtain ⟨P, -, hP⟩ := C99 E h A A' hB R R' F hR ho hi [com]
  refine ⟨com, o, hcom, fun x => ⟨?_, hx x⟩⟩
  intro y parts pm hsh hy
  apply count_of_no_forks E h
  intro hf
  apply hy
  have e1 := hP x [y] parts pm hsh hf
  obtain ⟨pf, -, hs, hc⟩ := hx x
  have e2 := hP x _ pf.parts pf.partMask hs (fun j _ => ⟨fun _ => List.replicate 16 0,
    fun i => if i = j then beBytes 1 ++ beBytes 0 else List.replicate 16 0, by simp,
    fun i => by dsimp only; split <;> simp [beBytes], fun i hi => by dsimp only; rw [if_neg hi], by
      dsimp only; rw [if_pos rfl]; exact two_challenges _ h.enc hC, hc _ (by simp),
      hc _ (fun i => by split <;> simp [beBytes])⟩)
  exact e1.trans e2.symm

end Ringo
