import Verif.Props.JBatchSound

/-!
# C124: the values of a batch that are chosen before the batching challenges
-/

namespace Ringo

open Finset Polynomial

set_option linter.unusedSectionVars false

variable {p : Nat} {T T' : Type} [AddCommGroup T] [AddCommGroup T']

theorem toZ_zero_of {N : Nat} {z : List Int} (hl : z.length = N) (h : ∀ c ∈ z, c = 0) : toZ N z = 0 := by
  rw [coeffs_eq_range hl, toZ_range]
  apply sum_eq_zero
  intro i _
  have : z.getD i 0 = 0 := by
    by_cases hi : i < z.length
    · rw [List.getD_eq_getElem _ _ hi]; exact h _ (List.getElem_mem hi)
    · rw [List.getD_eq_default _ _ (by omega)]
  rw [this]; simp

theorem lift_bnd {N B n : Nat} (f : Nat → RZ N) (h : ∀ k < n, Bnd N (f k) B) :
    ∃ z : Nat → List Int, ∀ k < n, Short N B (z k) ∧ toZ N (z k) = f k := by
  have : ∀ k, ∃ z, k < n → Short N B z ∧ toZ N z = f k := by
    intro k
    by_cases hk : k < n
    · obtain ⟨z, q1, q2, q3⟩ := h k hk
      exact ⟨z, fun _ => ⟨⟨q1, q3⟩, q2⟩⟩
    · exact ⟨[], fun h => absurd h hk⟩
  choose z hz using this
  exact ⟨z, hz⟩

theorem mat_rank_pos {M : MatParams} (h : M.Good) : 0 < M.rank := by
  rw [h.rank]
  have := h.rows
  have := h.pos
  exact Nat.mul_pos (Nat.mul_pos h.cols (by omega)) (Nat.pos_of_mul_pos_left h.pos)

/-- With three rows or more the mask in the last row does not raise the degree. -/
theorem matPoly_degree_lt {M : MatParams} (h : M.Good) (hr : 3 ≤ M.rows) (D : Nat → Nat → Nat → ZMod p) :
    (matPoly M D).natDegree < M.rank := by
  have hn := h.pos
  have hin : ∀ k, (∑ j ∈ range M.cols, ∑ s ∈ range M.slots, C (D k j s) * X ^ (j * M.slots + s)).natDegree ≤
      M.cols * M.slots - 1 := by
    intro k
    apply natDegree_sum_le_of_forall_le
    intro j hj
    apply natDegree_sum_le_of_forall_le
    intro s hs
    refine (natDegree_C_mul_X_pow_le _ _).trans ?_
    have := Nat.mul_le_mul_right M.slots (mem_range.1 hj)
    have := mem_range.1 hs
    rw [Nat.succ_mul] at *
    omega
  have hrk : M.rank = M.cols * M.slots * (M.rows - 1) := by
    rw [h.rank, Nat.mul_right_comm]
  have hle : (matPoly M D).natDegree ≤ M.rank - 1 := by
    unfold matPoly
    apply natDegree_sum_le_of_forall_le
    intro k hk
    have hk := mem_range.1 hk
    refine natDegree_mul_le.trans ?_
    split
    · refine (Nat.add_le_add natDegree_X_le (hin k)).trans ?_
      rw [hrk]
      have := Nat.mul_le_mul_left (M.cols * M.slots) (show 2 ≤ M.rows - 1 by omega)
      omega
    · refine (Nat.add_le_add (natDegree_X_pow_le _) (hin k)).trans ?_
      rw [hrk]
      have := Nat.mul_le_mul_left (M.cols * M.slots) (show k + 1 ≤ M.rows - 1 by omega)
      rw [Nat.mul_succ] at this
      omega
  have := mat_rank_pos h
  omega

section

variable {E : JEnv p T T'}

/-- The inner commitment of integral vectors. -/
noncomputable def JEnv.inMap (E : JEnv p T T') (A : E.ringQ.Lawful) (k : Nat) (e m u : Nat → RZ E.ringQ.N) :
    RQ E.ringQ.qs E.ringQ.N :=
  ∑ l ∈ range E.par.mat.rows, A.val (at2 E.key.inn k l) * redR E.ringQ.qs E.ringQ.N (e l) +
    ∑ l ∈ range E.par.mlweRank, A.val (at2 E.key.mlwe k l) * redR E.ringQ.qs E.ringQ.N (m l) +
    redR E.ringQ.qs E.ringQ.N (m (E.par.mlweRank + k)) + redR E.ringQ.qs E.ringQ.N (u k)

/-- The outer commitment of integral vectors. -/
noncomputable def JEnv.outMap (E : JEnv p T T') (A' : E.ringQ'.Lawful) (k : Nat) (t s : Nat → RZ E.ringQ'.N) :
    RQ E.ringQ'.qs E.ringQ'.N :=
  ∑ l ∈ range E.par.dcmpLen, A'.val (at2 E.key.out k l) * redR E.ringQ'.qs E.ringQ'.N (t l) +
    redR E.ringQ'.qs E.ringQ'.N (s k)

theorem sum_red_lin {qs : List Nat} {N n : Nat} (a : Nat → RQ qs N) (c c' : RZ N) (f g : Nat → RZ N) :
    ∑ l ∈ range n, a l * redR qs N (c * f l - c' * g l) =
      redR qs N c * ∑ l ∈ range n, a l * redR qs N (f l) - redR qs N c' * ∑ l ∈ range n, a l * redR qs N (g l) := by
  rw [mul_sum, mul_sum, ← sum_sub_distrib]
  refine sum_congr rfl fun l _ => ?_
  rw [map_sub, map_mul, map_mul]
  ring

theorem inMap_lin (A : E.ringQ.Lawful) (k : Nat) (a a' : RZ E.ringQ.N) (e m u e' m' u' : Nat → RZ E.ringQ.N) :
    E.inMap A k (fun l => a * e l - a' * e' l) (fun l => a * m l - a' * m' l) (fun l => a * u l - a' * u' l) =
      redR E.ringQ.qs E.ringQ.N a * E.inMap A k e m u - redR E.ringQ.qs E.ringQ.N a' * E.inMap A k e' m' u' := by
  unfold JEnv.inMap
  rw [sum_red_lin, sum_red_lin, map_sub, map_sub, map_mul, map_mul, map_mul, map_mul]
  ring

theorem outMap_lin (A' : E.ringQ'.Lawful) (k : Nat) (a a' : RZ E.ringQ'.N) (t s t' s' : Nat → RZ E.ringQ'.N) :
    E.outMap A' k (fun l => a * t l - a' * t' l) (fun l => a * s l - a' * s' l) =
      redR E.ringQ'.qs E.ringQ'.N a * E.outMap A' k t s - redR E.ringQ'.qs E.ringQ'.N a' * E.outMap A' k t' s' := by
  unfold JEnv.outMap
  rw [sum_red_lin, map_sub, map_mul, map_mul]
  ring

theorem bindsIn_Z (A : E.ringQ.Lawful) {B : Nat} (hb : E.BindsIn A B) (e m u : Nat → RZ E.ringQ.N)
    (he : ∀ k < E.par.mat.rows, Bnd E.ringQ.N (e k) B)
    (hm : ∀ k < E.par.mlweRank + E.par.inRank, Bnd E.ringQ.N (m k) B)
    (hu : ∀ k < E.par.inRank, Bnd E.ringQ.N (u k) B) (h0 : ∀ k < E.par.inRank, E.inMap A k e m u = 0) :
    ∀ k < E.par.mat.rows, e k = 0 := by
  obtain ⟨ze, hze⟩ := lift_bnd e he
  obtain ⟨zm, hzm⟩ := lift_bnd m hm
  obtain ⟨zu, hzu⟩ := lift_bnd u hu
  have := hb ze zm zu (fun k hk => (hze k hk).1) (fun k hk => (hzm k hk).1) (fun k hk => (hzu k hk).1) (by
    intro k hk
    refine Eq.trans ?_ (h0 k hk)
    unfold JEnv.inMap
    rw [← redR_toZ, ← redR_toZ, (hzm _ (by omega)).2, (hzu k hk).2]
    congr 3
    · refine sum_congr rfl fun l hl => ?_
      rw [← redR_toZ, (hze l (mem_range.1 hl)).2]
    · refine sum_congr rfl fun l hl => ?_
      have := mem_range.1 hl
      rw [← redR_toZ, (hzm l (by omega)).2])
  intro k hk
  rw [← (hze k hk).2]
  exact toZ_zero_of (hze k hk).1.1 (this k hk)

theorem bindsOut_Z (A' : E.ringQ'.Lawful) {B : Nat} (hb : E.BindsOut A' B) (t s : Nat → RZ E.ringQ'.N)
    (ht : ∀ k < E.par.dcmpLen, Bnd E.ringQ'.N (t k) B) (hs : ∀ k < E.par.outRank, Bnd E.ringQ'.N (s k) B)
    (h0 : ∀ k < E.par.outRank, E.outMap A' k t s = 0) : ∀ k < E.par.dcmpLen, t k = 0 := by
  obtain ⟨zt, hzt⟩ := lift_bnd t ht
  obtain ⟨zs, hzs⟩ := lift_bnd s hs
  have := hb zt zs (fun k hk => (hzt k hk).1) (fun k hk => (hzs k hk).1) (by
    intro k hk
    refine Eq.trans ?_ (h0 k hk)
    unfold JEnv.outMap
    rw [← redR_toZ, (hzs k hk).2]
    congr 1
    refine sum_congr rfl fun l hl => ?_
    rw [← redR_toZ, (hzt l (mem_range.1 hl)).2])
  intro k hk
  rw [← (hzt k hk).2]
  exact toZ_zero_of (hzt k hk).1.1 (this k hk)

/-- What forks for one choice of batching challenges give: inner commitments, and relaxed openings of all columns. -/
structure CombData where
  t : Nat → List Int
  s : Nat → List Int
  c : Nat → List (BitVec 8)
  c' : Nat → List (BitVec 8)
  e : Nat → Nat → List Int
  m : Nat → Nat → List Int
  u : Nat → Nat → List Int

/-- `w` opens the combination of the commitments by the challenges made from the bytes `B`. -/
structure JEnv.CombOpen (E : JEnv p T T') (A : E.ringQ.Lawful) (A' : E.ringQ'.Lawful) (R R' : Nat) (com : List (List T'))
    (B : Nat → List (BitVec 8)) (w : CombData) : Prop where
  tS : ∀ l < E.par.dcmpLen, Short E.ringQ'.N R' (w.t l)
  sS : ∀ k < E.par.outRank, Short E.ringQ'.N R' (w.s k)
  outer : ∀ k < E.par.outRank, 2 ^ E.par.outCut * ∑ i ∈ range E.par.batch,
      toR E.ringQ'.qs E.ringQ'.N (chalInt E.par.enc (B i)) * A'.val (at2 com i k) =
    ∑ l ∈ range E.par.dcmpLen, A'.val (at2 E.key.out k l) * toR E.ringQ'.qs E.ringQ'.N (w.t l) +
      toR E.ringQ'.qs E.ringQ'.N (w.s k)
  col : ∀ j < E.par.mat.cols, E.ColOpen A R w.t j (w.c j) (w.c' j) (w.e j) (w.m j) (w.u j)

/-- The coefficients that `w` stands for. -/
noncomputable def JEnv.combCoef (E : JEnv p T T') (w : CombData) (k j t : Nat) : ZMod p :=
  (chalDiff p E.par.enc (w.c j) (w.c' j))⁻¹ * (decoded p E.par.enc (w.e j k)).getD t 0

/-- Forks give an opening of the combination, and its value is the combination of the values. -/
theorem forks_comb [DecidableEq T] [Fact p.Prime] (h : E.Good) (A : E.ringQ.Lawful) (A' : E.ringQ'.Lawful)
    {R R' F : Nat} (hR : E.Room R R' F) (ho : E.BindsOut A' (2 * R')) {x : ZMod p} {com : List (List T')}
    {y : List (ZMod p)} {parts : List T} {pm : T} (hF : E.ShortParts A F parts) (hf : E.Forks x com y parts pm)
    {B : Nat → List (BitVec 8)} (hβ : ∀ i < E.par.batch, E.betInt x com i = chalInt E.par.enc (B i)) :
    ∃ w, E.CombOpen A A' R R' com B w ∧
      ∑ i ∈ range E.par.batch, (decoded p E.par.enc (chalInt E.par.enc (B i))).getD 0 0 * y.getD i 0 =
        (matPoly E.par.mat (E.combCoef w)).eval x := by
  obtain ⟨s₁, W₁, -, -, -, -, -, hW₁, -, -⟩ := fork_col h A A' hR ho hF hf h.mat.cols
  have hcol : ∀ j, ∃ (b b' : List (BitVec 8)) (e m u : Nat → List Int),
      j < E.par.mat.cols → E.ColOpen A R W₁.t j b b' e m u ∧
      ∀ t < E.par.enc.slots, chalDiff p E.par.enc b b' * (decoded p E.par.enc (W₁.f j)).getD t 0 =
        ∑ k ∈ range E.par.mat.rows, E.leftAt x k * (decoded p E.par.enc (e k)).getD t 0 := by
    intro j
    by_cases hj : j < E.par.mat.cols
    · obtain ⟨s, W, b, b', e, m, u, hW, q2, hv⟩ := fork_col h A A' hR ho hF hf hj
      refine ⟨b, b', e, m, u, fun _ => ⟨⟨q2.ne, q2.eS, q2.mS, q2.uS, ?_⟩, ?_⟩⟩
      · intro k hk
        rw [same_inner A A' ho (fun _ _ => rfl) hW₁ hW _ (by
          rw [h.dcmp]
          have := Nat.mul_le_mul_right E.par.inRank hj
          rw [Nat.succ_mul] at *
          omega)]
        exact q2.inner k hk
      · have hfeq : W₁.f j = W.f j := by
          apply reps_unique A.chain A.pos (hW₁.fS j hj).1 (hW.fS j hj).1 _ (hW₁.fR j hj) (hW.fR j hj)
          rw [← (hW₁.fS j hj).2, ← (hW.fS j hj).2]
        rw [hfeq]
        exact hv
    · exact ⟨[], [], fun _ => [], fun _ => [], fun _ => [], fun h => absurd h hj⟩
  choose b b' e m u hc using hcol
  refine ⟨⟨W₁.t, W₁.s, b, b', e, m, u⟩, ⟨hW₁.tS, hW₁.sS, ?_, fun j hj => (hc j hj).1⟩, ?_⟩
  · intro k hk
    rw [← hW₁.outer k hk]
    congr 1
    exact sum_congr rfl fun i hi => by rw [hβ i (mem_range.1 hi)]
  · rw [matPoly_eval]
    have hb : ∑ i ∈ range E.par.batch, (decoded p E.par.enc (chalInt E.par.enc (B i))).getD 0 0 * y.getD i 0 =
        ∑ i ∈ range E.par.batch, (decoded p E.par.enc (E.betInt x com i)).getD 0 0 * y.getD i 0 :=
      sum_congr rfl fun i hi => by rw [hβ i (mem_range.1 hi)]
    rw [hb]
    refine hW₁.eval.symm.trans ?_
    have h1 : ∀ j ∈ range E.par.mat.cols, ∀ t ∈ range E.par.mat.slots, x ^ (j * E.par.mat.slots + t) *
        (decoded p E.par.enc (W₁.f j)).getD t 0 = ∑ k ∈ range E.par.mat.rows, E.leftAt x k *
          (E.combCoef ⟨W₁.t, W₁.s, b, b', e, m, u⟩ k j t * x ^ (j * E.par.mat.slots + t)) := by
      intro j hj t ht
      have hj := mem_range.1 hj
      have ht := mem_range.1 ht
      rw [h.slots] at ht
      have hd : chalDiff p E.par.enc (b j) (b' j) ≠ 0 := chal_ne h.enc h.chal _ _ (hc j hj).1.ne
      apply mul_left_cancel₀ hd
      rw [mul_left_comm, (hc j hj).2 t ht, mul_sum, mul_sum]
      apply sum_congr rfl
      intro k _
      unfold JEnv.combCoef
      field_simp
    rw [sum_congr rfl fun j hj => sum_congr rfl (h1 j hj)]
    simp only [mul_sum]
    rw [sum_congr rfl fun j _ => sum_comm, sum_comm]

/-- The difference of two challenges. -/
noncomputable def chalZ (P : EncParams) (N : Nat) (b b' : List (BitVec 8)) : RZ N :=
  toZ N (chalInt P b) - toZ N (chalInt P b')

/-- A pair of openings for batching challenges that differ at `i` only. -/
structure JEnv.PairOpen (E : JEnv p T T') (A : E.ringQ.Lawful) (A' : E.ringQ'.Lawful) (R R' : Nat) (com : List (List T'))
    (i : Nat) (B B' : Nat → List (BitVec 8)) (w w' : CombData) : Prop where
  lt : i < E.par.batch
  off : ∀ a ≠ i, B a = B' a
  ne : chalInt E.par.enc (B i) ≠ chalInt E.par.enc (B' i)
  fst : E.CombOpen A A' R R' com B w
  snd : E.CombOpen A A' R R' com B' w'

/-- The inner commitments of two pairs of openings, each pair with batching challenges that differ only at the place of
one commitment, the same for both pairs, agree up to the differences of the challenges. -/
theorem outer_cross (h : E.Good) (A : E.ringQ.Lawful) (A' : E.ringQ'.Lawful) {R R' : Nat}
    (ho : E.BindsOut A' (2 * (E.par.enc.ecd.exp * (challengeBound E.par.enc.ecd * (2 * R')))))
    {com₁ com₀ : List (List T')} {B₁ B₁' B₀ B₀' : Nat → List (BitVec 8)} {w₁ w₁' w₀ w₀' : CombData} {i₁ i₀ : Nat}
    (hc : com₁.getD i₁ [] = com₀.getD i₀ []) (h₁ : E.PairOpen A A' R R' com₁ i₁ B₁ B₁' w₁ w₁')
    (h₀ : E.PairOpen A A' R R' com₀ i₀ B₀ B₀' w₀ w₀') (N : Nat) (hN : N = E.par.enc.N) :
    ∀ l < E.par.dcmpLen, chalZ E.par.enc N (B₀ i₀) (B₀' i₀) * (toZ N (w₁.t l) - toZ N (w₁'.t l)) =
      chalZ E.par.enc N (B₁ i₁) (B₁' i₁) * (toZ N (w₀.t l) - toZ N (w₀'.t l)) := by
  have hN' : E.ringQ'.N = E.par.enc.N := h.deg'
  obtain rfl : N = E.ringQ'.N := hN.trans hN'.symm
  have hout : ∀ {com B w}, E.CombOpen A A' R R' com B w → ∀ k < E.par.outRank,
      2 ^ E.par.outCut * ∑ i ∈ range E.par.batch,
        toR E.ringQ'.qs E.ringQ'.N (chalInt E.par.enc (B i)) * A'.val (at2 com i k) =
      E.outMap A' k (fun l => toZ E.ringQ'.N (w.t l)) (fun l => toZ E.ringQ'.N (w.s l)) := by
    intro com B w hw k hk
    rw [hw.outer k hk]
    unfold JEnv.outMap
    simp only [redR_toZ]
  have hpair : ∀ {com i B B' w w'}, E.PairOpen A A' R R' com i B B' w w' → ∀ k < E.par.outRank,
      E.outMap A' k (fun l => toZ E.ringQ'.N (w.t l) - toZ E.ringQ'.N (w'.t l))
        (fun l => toZ E.ringQ'.N (w.s l) - toZ E.ringQ'.N (w'.s l)) =
      redR E.ringQ'.qs E.ringQ'.N (chalZ E.par.enc E.ringQ'.N (B i) (B' i)) *
        (2 ^ E.par.outCut * A'.val (at2 com i k)) := by
    intro com i B B' w w' hw k hk
    have e1 := outMap_lin (E := E) A' k 1 1 (fun l => toZ E.ringQ'.N (w.t l)) (fun l => toZ E.ringQ'.N (w.s l))
      (fun l => toZ E.ringQ'.N (w'.t l)) (fun l => toZ E.ringQ'.N (w'.s l))
    simp only [one_mul, map_one] at e1
    rw [e1, ← hout hw.fst k hk, ← hout hw.snd k hk, ← mul_sub, ← sum_sub_distrib, sum_eq_single i]
    · unfold chalZ
      rw [map_sub, redR_toZ, redR_toZ]
      ring
    · intro a _ ha
      rw [hw.off a ha, sub_self]
    · intro hn; exact absurd (mem_range.2 hw.lt) hn
  have hbnd : ∀ (b b' : List (BitVec 8)) {z z' : List Int}, Short E.ringQ'.N R' z → Short E.ringQ'.N R' z' →
      Bnd E.ringQ'.N (chalZ E.par.enc E.ringQ'.N b b' * (toZ E.ringQ'.N z - toZ E.ringQ'.N z'))
        (E.par.enc.ecd.exp * (challengeBound E.par.enc.ecd * (2 * R'))) := by
    intro b b' z z' hz hz'
    have := hz.bnd.sub hz'.bnd
    rw [← Nat.two_mul] at this
    exact Bnd.chal_mul h.enc h.chal hN' b b' this
  have hz := bindsOut_Z A' ho
    (fun l => chalZ E.par.enc E.ringQ'.N (B₀ i₀) (B₀' i₀) * (toZ E.ringQ'.N (w₁.t l) - toZ E.ringQ'.N (w₁'.t l)) -
      chalZ E.par.enc E.ringQ'.N (B₁ i₁) (B₁' i₁) * (toZ E.ringQ'.N (w₀.t l) - toZ E.ringQ'.N (w₀'.t l)))
    (fun l => chalZ E.par.enc E.ringQ'.N (B₀ i₀) (B₀' i₀) * (toZ E.ringQ'.N (w₁.s l) - toZ E.ringQ'.N (w₁'.s l)) -
      chalZ E.par.enc E.ringQ'.N (B₁ i₁) (B₁' i₁) * (toZ E.ringQ'.N (w₀.s l) - toZ E.ringQ'.N (w₀'.s l)))
    (fun l hl => by
      rw [Nat.two_mul]
      exact (hbnd _ _ (h₁.fst.tS l hl) (h₁.snd.tS l hl)).sub (hbnd _ _ (h₀.fst.tS l hl) (h₀.snd.tS l hl)))
    (fun l hl => by
      rw [Nat.two_mul]
      exact (hbnd _ _ (h₁.fst.sS l hl) (h₁.snd.sS l hl)).sub (hbnd _ _ (h₀.fst.sS l hl) (h₀.snd.sS l hl)))
    (fun k hk => by
      rw [outMap_lin (E := E) A' k, hpair h₁ k hk, hpair h₀ k hk]
      have e : at2 com₁ i₁ k = at2 com₀ i₀ k := by unfold at2; rw [hc]
      rw [e]
      ring)
  exact fun l hl => sub_eq_zero.1 (hz l hl)

/-- Decoding of the identity between the responses. -/
theorem decode_cross₂ [Fact p.Prime] {P : EncParams} (h : P.Good p) {N : Nat} (hN : N = P.N)
    (β₀ β₀' β₁ β₁' c₀ c₀' g₀ g₀' c₁ c₁' g₁ g₁' : List (BitVec 8)) {e₀ f₀ e₁ f₁ : List Int}
    (l₀ : e₀.length = N) (k₀ : f₀.length = N) (l₁ : e₁.length = N) (k₁ : f₁.length = N)
    (n₀ : chalDiff p P c₀ c₀' ≠ 0) (n₀' : chalDiff p P g₀ g₀' ≠ 0)
    (n₁ : chalDiff p P c₁ c₁' ≠ 0) (n₁' : chalDiff p P g₁ g₁' ≠ 0)
    (he : chalZ P N β₀ β₀' * (chalZ P N c₀ c₀' * (chalZ P N g₀ g₀' *
        (chalZ P N g₁ g₁' * toZ N e₁ - chalZ P N c₁ c₁' * toZ N f₁))) =
      chalZ P N β₁ β₁' * (chalZ P N c₁ c₁' * (chalZ P N g₁ g₁' *
        (chalZ P N g₀ g₀' * toZ N e₀ - chalZ P N c₀ c₀' * toZ N f₀)))) :
    ∀ s < P.slots, chalDiff p P β₀ β₀' * ((chalDiff p P c₁ c₁')⁻¹ * (decoded p P e₁).getD s 0 -
        (chalDiff p P g₁ g₁')⁻¹ * (decoded p P f₁).getD s 0) =
      chalDiff p P β₁ β₁' * ((chalDiff p P c₀ c₀')⁻¹ * (decoded p P e₀).getD s 0 -
        (chalDiff p P g₀ g₀')⁻¹ * (decoded p P f₀).getD s 0) := by
  subst hN
  have h3 := congrArg (decZ h) he
  simp only [map_mul, map_sub, chalZ] at h3
  simp only [← map_sub, decZ_chal, decZ_toZ' h _ l₀, decZ_toZ' h _ l₁, decZ_toZ' h _ k₀, decZ_toZ' h _ k₁] at h3
  simp only [← map_mul, ← map_sub, mul_sum, ← sum_sub_distrib, ← mul_assoc, ← sub_mul] at h3
  intro s hs
  have h4 := mk_inj h _ _ h3 s hs
  field_simp
  linear_combination h4

/-- The coefficients of two pairs of openings agree up to the differences of the batching challenges. -/
theorem pair_cross [Fact p.Prime] (h : E.Good) (A : E.ringQ.Lawful) (A' : E.ringQ'.Lawful) {R R' : Nat}
    (ho : E.BindsOut A' (2 * (E.par.enc.ecd.exp * (challengeBound E.par.enc.ecd * (2 * R')))))
    (hi : E.BindsIn A (2 * (E.par.enc.ecd.exp * (challengeBound E.par.enc.ecd * (E.par.enc.ecd.exp *
      (challengeBound E.par.enc.ecd * (E.par.enc.ecd.exp * (challengeBound E.par.enc.ecd * (2 * (E.par.enc.ecd.exp *
      (challengeBound E.par.enc.ecd * (2 * R))))))))))))
    {com₁ com₀ : List (List T')} {B₁ B₁' B₀ B₀' : Nat → List (BitVec 8)} {w₁ w₁' w₀ w₀' : CombData} {i₁ i₀ : Nat}
    (hc : com₁.getD i₁ [] = com₀.getD i₀ []) (h₁ : E.PairOpen A A' R R' com₁ i₁ B₁ B₁' w₁ w₁')
    (h₀ : E.PairOpen A A' R R' com₀ i₀ B₀ B₀' w₀ w₀') :
    ∀ k < E.par.mat.rows, ∀ j < E.par.mat.cols, ∀ s < E.par.enc.slots,
      chalDiff p E.par.enc (B₀ i₀) (B₀' i₀) * (E.combCoef w₁ k j s - E.combCoef w₁' k j s) =
      chalDiff p E.par.enc (B₁ i₁) (B₁' i₁) * (E.combCoef w₀ k j s - E.combCoef w₀' k j s) := by
  have hN : E.ringQ.N = E.par.enc.N := h.deg
  intro k hk j hj s hs
  have hcm : ∀ b b' : List (BitVec 8), ∀ {D : Nat} {r : RZ E.ringQ.N}, Bnd E.ringQ.N r D →
      Bnd E.ringQ.N (chalZ E.par.enc E.ringQ.N b b' * r) (E.par.enc.ecd.exp * (challengeBound E.par.enc.ecd * D)) :=
    fun b b' _ _ hr => Bnd.chal_mul h.enc h.chal hN b b' hr
  have o₁ := h₁.fst.col j hj
  have o₁' := h₁.snd.col j hj
  have o₀ := h₀.fst.col j hj
  have o₀' := h₀.snd.col j hj
  have hin : ∀ {t b b' e m u}, E.ColOpen A R t j b b' e m u → ∀ k < E.par.inRank,
      E.inMap A k (fun l => toZ E.ringQ.N (e l)) (fun l => toZ E.ringQ.N (m l)) (fun l => toZ E.ringQ.N (u l)) =
      2 ^ E.par.inCut * (redR E.ringQ.qs E.ringQ.N (chalZ E.par.enc E.ringQ.N b b') *
        redR E.ringQ.qs E.ringQ.N (toZ E.ringQ.N (t (j * E.par.inRank + k)))) := by
    intro t b b' e m u hw k hk
    unfold JEnv.inMap chalZ
    simp only [map_sub, redR_toZ]
    exact (hw.inner k hk).symm
  have hidx : ∀ k < E.par.inRank, j * E.par.inRank + k < E.par.dcmpLen := by
    intro k hk
    rw [h.dcmp]
    have := Nat.mul_le_mul_right E.par.inRank hj
    rw [Nat.succ_mul] at *
    omega
  have ht := outer_cross h A A' ho hc h₁ h₀ E.ringQ.N hN
  let X := fun (b b' : List (BitVec 8)) => chalZ E.par.enc E.ringQ.N b b'
  have hbnd : ∀ (b₁ b₁' b₂ b₂' b₃ b₃' b₄ b₄' b₅ b₅' : List (BitVec 8)) {z z' : List Int},
      Short E.ringQ.N (2 * R) z → Short E.ringQ.N (2 * R) z' →
      Bnd E.ringQ.N (X b₁ b₁' * (X b₂ b₂' * (X b₃ b₃' * (X b₄ b₄' * toZ E.ringQ.N z - X b₅ b₅' * toZ E.ringQ.N z'))))
        (E.par.enc.ecd.exp * (challengeBound E.par.enc.ecd * (E.par.enc.ecd.exp *
          (challengeBound E.par.enc.ecd * (E.par.enc.ecd.exp * (challengeBound E.par.enc.ecd * (2 * (E.par.enc.ecd.exp *
          (challengeBound E.par.enc.ecd * (2 * R)))))))))) := by
    intro b₁ b₁' b₂ b₂' b₃ b₃' b₄ b₄' b₅ b₅' z z' hz hz'
    have := (hcm b₄ b₄' hz.bnd).sub (hcm b₅ b₅' hz'.bnd)
    rw [← Nat.two_mul] at this
    exact hcm _ _ (hcm _ _ (hcm _ _ this))
  let V := fun (v₁ v₁' v₀ v₀' : Nat → List Int) (l : Nat) =>
    X (B₀ i₀) (B₀' i₀) * (X (w₀.c j) (w₀.c' j) * (X (w₀'.c j) (w₀'.c' j) *
      (X (w₁'.c j) (w₁'.c' j) * toZ E.ringQ.N (v₁ l) - X (w₁.c j) (w₁.c' j) * toZ E.ringQ.N (v₁' l)))) -
    X (B₁ i₁) (B₁' i₁) * (X (w₁.c j) (w₁.c' j) * (X (w₁'.c j) (w₁'.c' j) *
      (X (w₀'.c j) (w₀'.c' j) * toZ E.ringQ.N (v₀ l) - X (w₀.c j) (w₀.c' j) * toZ E.ringQ.N (v₀' l))))
  have hz := bindsIn_Z A hi (V (w₁.e j) (w₁'.e j) (w₀.e j) (w₀'.e j)) (V (w₁.m j) (w₁'.m j) (w₀.m j) (w₀'.m j))
    (V (w₁.u j) (w₁'.u j) (w₀.u j) (w₀'.u j))
    (fun l hl => by
      rw [Nat.two_mul]
      exact (hbnd _ _ _ _ _ _ _ _ _ _ (o₁.eS l hl) (o₁'.eS l hl)).sub
        (hbnd _ _ _ _ _ _ _ _ _ _ (o₀.eS l hl) (o₀'.eS l hl)))
    (fun l hl => by
      rw [Nat.two_mul]
      exact (hbnd _ _ _ _ _ _ _ _ _ _ (o₁.mS l hl) (o₁'.mS l hl)).sub
        (hbnd _ _ _ _ _ _ _ _ _ _ (o₀.mS l hl) (o₀'.mS l hl)))
    (fun l hl => by
      rw [Nat.two_mul]
      exact (hbnd _ _ _ _ _ _ _ _ _ _ (o₁.uS l hl) (o₁'.uS l hl)).sub
        (hbnd _ _ _ _ _ _ _ _ _ _ (o₀.uS l hl) (o₀'.uS l hl)))
    (fun k hk => by
      have hV : ∀ v₁ v₁' v₀ v₀' : Nat → List Int, V v₁ v₁' v₀ v₀' = fun l =>
          (X (B₀ i₀) (B₀' i₀) * (X (w₀.c j) (w₀.c' j) * X (w₀'.c j) (w₀'.c' j))) *
            (X (w₁'.c j) (w₁'.c' j) * toZ E.ringQ.N (v₁ l) - X (w₁.c j) (w₁.c' j) * toZ E.ringQ.N (v₁' l)) -
          (X (B₁ i₁) (B₁' i₁) * (X (w₁.c j) (w₁.c' j) * X (w₁'.c j) (w₁'.c' j))) *
            (X (w₀'.c j) (w₀'.c' j) * toZ E.ringQ.N (v₀ l) - X (w₀.c j) (w₀.c' j) * toZ E.ringQ.N (v₀' l)) := by
        intro v₁ v₁' v₀ v₀'
        funext l
        simp only [V]
        ring
      rw [hV, hV, hV, inMap_lin (E := E) A k, inMap_lin (E := E) A k, inMap_lin (E := E) A k, hin o₁ k hk, hin o₁' k hk,
        hin o₀ k hk, hin o₀' k hk]
      have e := congrArg (redR E.ringQ.qs E.ringQ.N) (ht _ (hidx k hk))
      simp only [map_mul, map_sub, X] at e ⊢
      linear_combination (2 ^ E.par.inCut *
        (redR E.ringQ.qs E.ringQ.N (chalZ E.par.enc E.ringQ.N (w₀.c j) (w₀.c' j)) *
        redR E.ringQ.qs E.ringQ.N (chalZ E.par.enc E.ringQ.N (w₀'.c j) (w₀'.c' j)) *
        redR E.ringQ.qs E.ringQ.N (chalZ E.par.enc E.ringQ.N (w₁.c j) (w₁.c' j)) *
        redR E.ringQ.qs E.ringQ.N (chalZ E.par.enc E.ringQ.N (w₁'.c j) (w₁'.c' j)))) * e)
  exact decode_cross₂ h.enc hN (B₀ i₀) (B₀' i₀) (B₁ i₁) (B₁' i₁) (w₀.c j) (w₀.c' j) (w₀'.c j) (w₀'.c' j) (w₁.c j) (w₁.c' j)
    (w₁'.c j) (w₁'.c' j) (o₀.eS k hk).1 (o₀'.eS k hk).1 (o₁.eS k hk).1 (o₁'.eS k hk).1
    (chal_ne h.enc h.chal _ _ o₀.ne) (chal_ne h.enc h.chal _ _ o₀'.ne) (chal_ne h.enc h.chal _ _ o₁.ne)
    (chal_ne h.enc h.chal _ _ o₁'.ne) (sub_eq_zero.1 (hz k hk)) s hs

theorem decoded_chal_sub {P : EncParams} (h : P.Good p) (b b' : List (BitVec 8)) :
    (decoded p P (chalInt P b)).getD 0 0 - (decoded p P (chalInt P b')).getD 0 0 = chalDiff p P b b' := by
  rw [decoded_chal h, decoded_chal h, ← sum_sub_distrib]
  refine sum_congr rfl fun i _ => ?_
  push_cast
  ring

/-- Every commitment has a polynomial that all pairs of openings give, in all batches. -/
theorem pair_poly [Fact p.Prime] (h : E.Good) (A : E.ringQ.Lawful) (A' : E.ringQ'.Lawful) (R R' : Nat)
    (ho : E.BindsOut A' (2 * (E.par.enc.ecd.exp * (challengeBound E.par.enc.ecd * (2 * R')))))
    (hi : E.BindsIn A (2 * (E.par.enc.ecd.exp * (challengeBound E.par.enc.ecd * (E.par.enc.ecd.exp *
      (challengeBound E.par.enc.ecd * (E.par.enc.ecd.exp * (challengeBound E.par.enc.ecd * (2 * (E.par.enc.ecd.exp *
      (challengeBound E.par.enc.ecd * (2 * R))))))))))))
    (cm : List T') :
    ∃ P : (ZMod p)[X], (P.natDegree ≤ E.par.mat.rank ∧ (3 ≤ E.par.mat.rows → P.natDegree < E.par.mat.rank)) ∧
      ∀ (x : ZMod p) (com : List (List T')) (i : Nat) (B B' : Nat → List (BitVec 8)) (w w' : CombData),
      com.getD i [] = cm → E.PairOpen A A' R R' com i B B' w w' → (matPoly E.par.mat (E.combCoef w)).eval x -
        (matPoly E.par.mat (E.combCoef w')).eval x = chalDiff p E.par.enc (B i) (B' i) * P.eval x := by
  by_cases hex : ∃ com₀ i₀ B₀ B₀' w₀ w₀', com₀.getD i₀ [] = cm ∧ E.PairOpen A A' R R' com₀ i₀ B₀ B₀' w₀ w₀'
  swap
  · exact ⟨0, ⟨by simp, fun hr => by simpa using mat_rank_pos h.mat⟩,
      fun x com i B B' w w' hc hp => absurd ⟨com, i, B, B', w, w', hc, hp⟩ hex⟩
  obtain ⟨com₀, i₀, B₀, B₀', w₀, w₀', hc₀, h₀⟩ := hex
  refine ⟨matPoly E.par.mat fun k j s => (chalDiff p E.par.enc (B₀ i₀) (B₀' i₀))⁻¹ *
    (E.combCoef w₀ k j s - E.combCoef w₀' k j s), ⟨matPoly_degree h.mat _, fun hr => matPoly_degree_lt h.mat hr _⟩,
    fun x com i B B' w w' hc hp => ?_⟩
  have hd : chalDiff p E.par.enc (B₀ i₀) (B₀' i₀) ≠ 0 := chal_ne h.enc h.chal _ _ h₀.ne
  rw [matPoly_eval, matPoly_eval, matPoly_eval, ← sum_sub_distrib, mul_sum]
  refine sum_congr rfl fun k hk => ?_
  rw [← mul_sub, mul_left_comm]
  refine congrArg (E.leftAt x k * ·) ?_
  rw [← sum_sub_distrib, mul_sum]
  refine sum_congr rfl fun j hj => ?_
  rw [← sum_sub_distrib, mul_sum]
  refine sum_congr rfl fun s hs => ?_
  have hs := mem_range.1 hs
  rw [h.slots] at hs
  have e := pair_cross h A A' ho hi (hc.trans hc₀.symm) hp h₀ k (mem_range.1 hk) j
    (mem_range.1 hj) s hs
  apply mul_left_cancel₀ hd
  field_simp
  linear_combination x ^ (j * E.par.mat.slots + s) * e

end

theorem BindsOut_mono {E : JEnv p T T'} {A' : E.ringQ'.Lawful} {B B' : Nat} (h : E.BindsOut A' B') (hB : B ≤ B') :
    E.BindsOut A' B :=
  fun t s ht hs => h t s (fun l hl => ⟨(ht l hl).1, fun c hc => ((ht l hl).2 c hc).trans hB⟩)
    fun k hk => ⟨(hs k hk).1, fun c hc => ((hs k hk).2 c hc).trans hB⟩

set_option linter.constructorNameAsVariable false in
/-- A set of bytes without two elements that differ in the challenge at `j` only is small. -/
theorem count_of_no_pairs {P : EncParams} (h : P.Good p) (hc : 1 ≤ challengeBound P.ecd) {n j : Nat} (hj : j < n)
    (S : Set (Fin n → Fin 16 → BitVec 8))
    (hS : ∀ b ∈ S, ∀ b' ∈ S, (∀ i ≠ j, bytesOf b i = bytesOf b' i) →
      chalInt P (bytesOf b j) = chalInt P (bytesOf b' j)) :
    S.ncard ≤ (2 ^ 128 / challengeBound P.ecd ^ P.ecd.exp + 1) * (2 ^ 128) ^ (n - 1) := by
  classical
  have : Inhabited (BitVec 8) := ⟨0⟩
  have hone := one_challenge h hc
  generalize 2 ^ 128 / challengeBound P.ecd ^ P.ecd.exp + 1 = m at hone ⊢
  have hcnt := card_le_of_coord ⟨j, hj⟩ m S.toFinset
  rw [card_bytes16] at hcnt
  rw [Set.ncard_eq_toFinset_card']
  refine hcnt fun g => hone _ ?_
  intro b hb b' hb'
  simp only [Set.mem_toFinset, mem_filter, mem_univ, true_and] at hb hb'
  have hat : ∀ a : Fin 16 → BitVec 8, bytesOf (Function.update g ⟨j, hj⟩ a) j = List.ofFn a := by
    intro a
    unfold bytesOf
    rw [dif_pos hj, Function.update_self]
  have := hS _ hb _ hb' (by
    intro i hi
    unfold bytesOf
    split
    · next hlt =>
      rw [Function.update_of_ne (by intro he; exact hi (Fin.mk.inj he)),
        Function.update_of_ne (by intro he; exact hi (Fin.mk.inj he))]
    · rfl)
  rwa [hat, hat] at this

/-- **C124.**  Every commitment, however it was made, has one polynomial such that the following holds for all batches of
commitments, all points and all values that are chosen before the batching challenges.  If one of the
values is not the value of the polynomial, then for all but a `1 / C` part of the bytes of the batching challenges, up
to rounding, every first message with short partial evaluations can be answered for a `1 / C` part of the bytes of the
columns only. -/
theorem C124 [DecidableEq T] [Fact p.Prime] (E : JEnv p T T') (h : E.Good) (A : E.ringQ.Lawful)
    (A' : E.ringQ'.Lawful) (hB : 2 ≤ E.par.batch) (R R' F : Nat) (hR : E.Room R R' F)
    (ho : E.BindsOut A' (2 * (E.par.enc.ecd.exp * (challengeBound E.par.enc.ecd * (2 * R')))))
    (hi : E.BindsIn A (2 * (E.par.enc.ecd.exp * (challengeBound E.par.enc.ecd * (E.par.enc.ecd.exp *
      (challengeBound E.par.enc.ecd * (E.par.enc.ecd.exp * (challengeBound E.par.enc.ecd * (2 * (E.par.enc.ecd.exp *
      (challengeBound E.par.enc.ecd * (2 * R)))))))))))) :
    ∃ P : List T' → (ZMod p)[X],
      (∀ cm, (P cm).natDegree ≤ E.par.mat.rank ∧ (3 ≤ E.par.mat.rows → (P cm).natDegree < E.par.mat.rank)) ∧
      ∀ (com : List (List T')) (x : ZMod p) (y : List (ZMod p)) (i : Nat),
      i < E.par.batch → y.getD i 0 ≠ (P (com.getD i [])).eval x →
      {b : Fin E.par.batch → Fin 16 → BitVec 8 | ¬ ∀ (parts : List T) (pm : T), E.ShortParts A F parts →
        {c : ColBytes E | (E.answer (E.firstMsgs x com) (bytesOf b)).Convinces x com y parts pm (bytesOf c)}.ncard ≤
          (2 ^ 128 / challengeBound E.par.enc.ecd ^ E.par.enc.ecd.exp + 1) * (2 ^ 128) ^ (E.par.mat.cols - 1)}.ncard ≤
        (2 ^ 128 / challengeBound E.par.enc.ecd ^ E.par.enc.ecd.exp + 1) * (2 ^ 128) ^ (E.par.batch - 1) := by
  choose P h1 h2 using pair_poly h A A' R R' ho hi
  refine ⟨P, h1, fun com x y i hib hne => ?_⟩
  have ho' : E.BindsOut A' (2 * R') := by
    refine BindsOut_mono ho ?_
    have e1 : 1 * (1 * (2 * R')) ≤ E.par.enc.ecd.exp * (challengeBound E.par.enc.ecd * (2 * R')) :=
      Nat.mul_le_mul h.enc.exp_pos (Nat.mul_le_mul_right _ h.chal)
    omega
  apply count_of_no_pairs h.enc h.chal hib
  have hopen : ∀ b : Fin E.par.batch → Fin 16 → BitVec 8, (¬ ∀ (parts : List T) (pm : T), E.ShortParts A F parts →
        {c : ColBytes E | (E.answer (E.firstMsgs x com) (bytesOf b)).Convinces x com y parts pm (bytesOf c)}.ncard ≤
          (2 ^ 128 / challengeBound E.par.enc.ecd ^ E.par.enc.ecd.exp + 1) * (2 ^ 128) ^ (E.par.mat.cols - 1)) →
      ∃ w, E.CombOpen A A' R R' com (bytesOf b) w ∧
        ∑ i ∈ range E.par.batch, (decoded p E.par.enc (chalInt E.par.enc (bytesOf b i))).getD 0 0 * y.getD i 0 =
          (matPoly E.par.mat (E.combCoef w)).eval x := by
    intro b hb
    push Not at hb
    obtain ⟨parts, pm, hsh, hlt⟩ := hb
    have hf : (E.answer (E.firstMsgs x com) (bytesOf b)).Forks x com y parts pm := by
      by_contra hn
      have := count_of_no_forks (E.answer (E.firstMsgs x com) (bytesOf b)) (answer_good h _ (bytesOf_length b)) x com y
        parts pm hn
      exact absurd (lt_of_lt_of_le hlt this) (lt_irrefl _)
    obtain ⟨w, w1, w2⟩ := forks_comb (E := E.answer (E.firstMsgs x com) (bytesOf b)) (answer_good h _ (bytesOf_length b))
      A A' ⟨hR.res, hR.dcmp, hR.parts, hR.room⟩ ho' hsh hf (B := bytesOf b) (by
        intro i _
        unfold JEnv.betInt
        rw [if_pos (show (E.answer (E.firstMsgs x com) (bytesOf b)).par.batch > 1 from hB)]
        have : (E.answer (E.firstMsgs x com) (bytesOf b)).xof
            ((E.answer (E.firstMsgs x com) (bytesOf b)).firstMsgs x com) i = bytesOf b i := if_pos rfl
        rw [this])
    exact ⟨w, ⟨w1.tS, w1.sS, w1.outer, fun j hj =>
      ⟨(w1.col j hj).ne, (w1.col j hj).eS, (w1.col j hj).mS, (w1.col j hj).uS, (w1.col j hj).inner⟩⟩, w2⟩
  intro b hb b' hb' hoff
  by_contra hch
  obtain ⟨w, w1, w2⟩ := hopen b hb
  obtain ⟨w', w1', w2'⟩ := hopen b' hb'
  apply hne
  have e := h2 _ x com i (bytesOf b) (bytesOf b') w w' rfl ⟨hib, hoff, hch, w1, w1'⟩
  rw [← w2, ← w2', ← sum_sub_distrib, sum_eq_single i, ← sub_mul, decoded_chal_sub h.enc] at e
  · exact mul_left_cancel₀ (chal_ne h.enc h.chal _ _ hch) e
  · intro a _ ha
    rw [hoff a ha, sub_self]
  · intro hn; exact absurd (mem_range.2 hib) hn

theorem bound_lt {c e n : Nat} (hc : 2 ≤ c) (he : 1 ≤ e) (hn : 1 ≤ n) :
    (2 ^ 128 / c ^ e + 1) * (2 ^ 128) ^ (n - 1) < (2 ^ 128) ^ n := by
  obtain ⟨m, rfl⟩ : ∃ m, n = m + 1 := ⟨n - 1, by omega⟩
  rw [Nat.add_sub_cancel, pow_succ, Nat.mul_comm]
  refine Nat.mul_lt_mul_of_pos_left ?_ (by positivity)
  have h1 : 2 ≤ c ^ e := hc.trans (Nat.le_self_pow (by omega) c)
  have h2 : 2 ^ 128 / c ^ e ≤ 2 ^ 128 / 2 := Nat.div_le_div_left h1 (by omega)
  generalize 2 ^ 128 / c ^ e = a at h2 ⊢
  omega

/-- **C124, honest commitments.**  For commitments made by `Commit` the polynomials of C124 are those that were
committed to. -/
theorem C124_honest [DecidableEq T] [Fact p.Prime] (E : JEnv p T T') (h : E.Good) (A : E.ringQ.Lawful)
    (A' : E.ringQ'.Lawful) (hB : 2 ≤ E.par.batch) (hC : 2 ≤ challengeBound E.par.enc.ecd) (R R' F S : Nat)
    (hR : E.Room R R' F)
    (ho : E.BindsOut A' (2 * (E.par.enc.ecd.exp * (challengeBound E.par.enc.ecd * (2 * R')))))
    (hi : E.BindsIn A (2 * (E.par.enc.ecd.exp * (challengeBound E.par.enc.ecd * (E.par.enc.ecd.exp *
      (challengeBound E.par.enc.ecd * (E.par.enc.ecd.exp * (challengeBound E.par.enc.ecd * (2 * (E.par.enc.ecd.exp *
      (challengeBound E.par.enc.ecd * (2 * R))))))))))))
    (hF : E.par.mat.rows * (E.par.enc.N * (E.par.enc.ecd.base * JEnv.batchGrow E (JEnv.encSize E S))) ≤ F)
    (vs : List (List (ZMod p))) (hl : vs.length = E.par.batch)
    (hv : ∀ v ∈ vs, v ≠ [] ∧ v.length ≤ E.par.mat.rank) (rs : Nat → ComRand p)
    (hS : ∀ i j k t, (((rs i).col j).cell k t).natAbs ≤ S ∧ (((rs i).col j).mlwe k t).natAbs ≤ S)
    (b1 : E.toFloat (Nat.sqrt
      (E.par.dcmpLen * (E.par.enc.N * JEnv.batchGrow E (JEnv.truncMax E) ^ 2) +
        E.par.outRank * (E.par.enc.N * JEnv.batchGrow E (2 ^ E.par.outCut) ^ 2))) < E.par.dcmpNm)
    (b2 : E.toFloat (Nat.sqrt
      (E.par.mat.rows * (E.par.enc.N * JEnv.combGrow E (JEnv.encSize E S) ^ 2) +
        (E.par.mlweRank + E.par.inRank) * (E.par.enc.N * JEnv.combGrow E S ^ 2) +
        E.par.inRank * (E.par.enc.N * JEnv.combGrow E (2 ^ E.par.inCut) ^ 2))) < E.par.resNm) :
    ∃ coms opens, E.CommitsAll vs rs coms opens ∧ ∀ P : List T' → (ZMod p)[X],
      (∀ (x : ZMod p) (y : List (ZMod p)) (i : Nat), i < E.par.batch → y.getD i 0 ≠ (P (coms.getD i [])).eval x →
        {b : Fin E.par.batch → Fin 16 → BitVec 8 | ¬ ∀ (parts : List T) (pm : T), E.ShortParts A F parts →
          {c : ColBytes E | (E.answer (E.firstMsgs x coms) (bytesOf b)).Convinces x coms y parts pm (bytesOf c)}.ncard ≤
            (2 ^ 128 / challengeBound E.par.enc.ecd ^ E.par.enc.ecd.exp + 1) *
              (2 ^ 128) ^ (E.par.mat.cols - 1)}.ncard ≤
          (2 ^ 128 / challengeBound E.par.enc.ecd ^ E.par.enc.ecd.exp + 1) * (2 ^ 128) ^ (E.par.batch - 1)) →
      ∀ (x : ZMod p) (i : Nat), i < E.par.batch →
        (P (coms.getD i [])).eval x = ∑ k ∈ range (vs.getD i []).length, (vs.getD i []).getD k 0 * x ^ k := by
  have hge : ∀ X : Nat, X ≤ E.par.enc.ecd.exp * (challengeBound E.par.enc.ecd * X) := by
    intro X
    calc X = 1 * (1 * X) := by omega
      _ ≤ _ := Nat.mul_le_mul h.enc.exp_pos (Nat.mul_le_mul_right _ h.chal)
  have ho' : E.BindsOut A' (2 * R') := BindsOut_mono ho (by have := hge (2 * R'); omega)
  have hi' : E.BindsIn A (2 * (E.par.enc.ecd.exp * (challengeBound E.par.enc.ecd * (2 * R)))) := by
    have hle := (hge (2 * (E.par.enc.ecd.exp * (challengeBound E.par.enc.ecd * (2 * R))))).trans ((hge _).trans (hge _))
    exact fun e m u he hm hu => hi e m u
      (fun k hk => ⟨(he k hk).1, fun c hc => ((he k hk).2 c hc).trans (by omega)⟩)
      (fun k hk => ⟨(hm k hk).1, fun c hc => ((hm k hk).2 c hc).trans (by omega)⟩)
      (fun k hk => ⟨(hu k hk).1, fun c hc => ((hu k hk).2 c hc).trans (by omega)⟩)
  obtain ⟨coms, opens, hall, -⟩ := C123_honest E h A A' hC R R' F S hR ho' hi' hF vs hl hv rs hS b1 b2
  refine ⟨coms, opens, hall, fun P hP x i hib => ?_⟩
  by_contra hne
  have hval : (valuesAt vs x).getD i 0 = ∑ k ∈ range (vs.getD i []).length, (vs.getD i []).getD k 0 * x ^ k := by
    unfold valuesAt
    rw [List.getD_eq_getElem _ _ (by simp; omega), List.getElem_map, List.getD_eq_getElem _ _ (by omega)]
  have hle := hP x (valuesAt vs x) i hib (by rw [hval]; exact fun he => hne he.symm)
  have huniv : {b : Fin E.par.batch → Fin 16 → BitVec 8 | ¬ ∀ (parts : List T) (pm : T), E.ShortParts A F parts →
      {c : ColBytes E | (E.answer (E.firstMsgs x coms) (bytesOf b)).Convinces x coms (valuesAt vs x) parts pm
        (bytesOf c)}.ncard ≤ (2 ^ 128 / challengeBound E.par.enc.ecd ^ E.par.enc.ecd.exp + 1) *
          (2 ^ 128) ^ (E.par.mat.cols - 1)} = Set.univ := by
    ext b
    simp only [Set.mem_ofPred_eq, Set.mem_univ, iff_true]
    obtain ⟨coms', opens', hall', hx⟩ := C123_honest (E.answer (E.firstMsgs x coms) (bytesOf b))
      (answer_good h _ (bytesOf_length b)) A A' hC R R' F S
      ⟨hR.res, hR.dcmp, hR.parts, hR.room⟩ ho' hi' hF vs hl hv rs hS b1 b2
    obtain ⟨rfl, rfl⟩ := commitsAll_unique E hall hall'
    obtain ⟨-, pf, -, hsh, hc⟩ := hx x
    intro hcon
    have h1 := hcon pf.parts pf.partMask hsh
    have h2 : {c : ColBytes E | (E.answer (E.firstMsgs x coms) (bytesOf b)).Convinces x coms (valuesAt vs x) pf.parts
        pf.partMask (bytesOf c)} = Set.univ := by
      ext c
      simp only [Set.mem_ofPred_eq, Set.mem_univ, iff_true]
      exact hc _ (bytesOf_length c)
    rw [h2, Set.ncard_univ, Nat.card_eq_fintype_card, Fintype.card_fun, card_bytes16, Fintype.card_fin] at h1
    exact absurd h1 (not_le.2 (bound_lt hC h.enc.exp_pos h.mat.cols))
  rw [huniv, Set.ncard_univ, Nat.card_eq_fintype_card, Fintype.card_fun, card_bytes16, Fintype.card_fin] at hle
  exact absurd hle (not_le.2 (bound_lt hC h.enc.exp_pos (by omega)))

end Ringo
