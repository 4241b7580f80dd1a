import Verif.Proof.JSound
import Verif.Props.JProtoEx
import Mathlib.Data.BitVec

/-!
# C84: how often a wrong value is accepted

Jindo's challenges have between `2^64` and `2^112` values, but a prover can arrange that a wrong value is accepted for
one challenge in `q`, for every prime `q` of the ring (less than 62 bits): `Verify` puts no bound on the partial
evaluations.
-/

namespace Ringo

open Finset

set_option linter.unusedSectionVars false

variable {p : Nat} {T T' : Type} [AddCommGroup T] [AddCommGroup T']

/-- What the oracle has absorbed when it answers with the challenges of the columns. -/
def JEnv.move (E : JEnv p T T') (x : ZMod p) (com : List (List T')) (parts : List T) (pm : T) :
    List (JMsg T T' (ZMod p)) :=
  E.startMsgs x com ++ parts.map .poly ++ [.poly pm]

open Classical in
/-- The environment whose oracle answers `ms` with the bytes `s` and is otherwise that of `E`. -/
noncomputable def JEnv.answer (E : JEnv p T T') (ms : List (JMsg T T' (ZMod p))) (s : Nat → List (BitVec 8)) :
    JEnv p T T' :=
  { E with xof := fun ms' i => if ms' = ms then s i else E.xof ms' i }

/-- A prover that has sent `parts` and `pm` and is then given the bytes `s` for the challenges can complete a proof
that `Verify` accepts. -/
def JEnv.Convinces [DecidableEq T] (E : JEnv p T T') (x : ZMod p) (com : List (List T')) (y : List (ZMod p))
    (parts : List T) (pm : T) (s : Nat → List (BitVec 8)) : Prop :=
  ∃ pf : JProof T T', pf.parts = parts ∧ pf.partMask = pm ∧
    (E.answer (E.move x com parts pm) s).verify x com y pf = .ok true

section

variable {E : JEnv p T T'}

theorem first_ne_move (x : ZMod p) (com : List (List T')) (parts : List T) (pm : T) :
    E.firstMsgs x com ≠ E.move x com parts pm := by
  intro h
  have := congrArg List.length h
  unfold JEnv.move JEnv.startMsgs at this
  split at this <;> simp at this

theorem answer_good (h : E.Good) (ms : List (JMsg T T' (ZMod p))) {s : Nat → List (BitVec 8)}
    (hs : ∀ i, (s i).length = 16) : (E.answer ms s).Good :=
  { h with
    xof := by
      intro ms' i
      unfold JEnv.answer
      dsimp only
      split
      · exact hs i
      · exact h.xof ms' i }

open Classical in
theorem answer_batchBytes (x : ZMod p) (com : List (List T')) (parts : List T) (pm : T) (s : Nat → List (BitVec 8)) :
    (E.answer (E.move x com parts pm) s).batchBytes x com = E.batchBytes x com := by
  unfold JEnv.batchBytes
  apply List.map_congr_left
  intro i _
  show (if E.firstMsgs x com = E.move x com parts pm then s i else E.xof (E.firstMsgs x com) i) = _
  rw [if_neg (first_ne_move x com parts pm)]

open Classical in
theorem answer_betInt (x : ZMod p) (com : List (List T')) (parts : List T) (pm : T) (s : Nat → List (BitVec 8)) (i : Nat) :
    (E.answer (E.move x com parts pm) s).betInt x com i = E.betInt x com i := by
  unfold JEnv.betInt
  show (if E.par.batch > 1 then chalInt E.par.enc
    (if E.firstMsgs x com = E.move x com parts pm then s i else E.xof (E.firstMsgs x com) i) else [1]) = _
  rw [if_neg (first_ne_move x com parts pm)]

theorem answer_startMsgs (x : ZMod p) (com : List (List T')) (parts : List T) (pm : T) (s : Nat → List (BitVec 8)) :
    (E.answer (E.move x com parts pm) s).startMsgs x com = E.startMsgs x com := by
  unfold JEnv.startMsgs
  rw [answer_batchBytes]
  rfl

open Classical in
theorem answer_gamInt (x : ZMod p) (com : List (List T')) (parts : List T) (pm : T) (s : Nat → List (BitVec 8)) (j : Nat) :
    (E.answer (E.move x com parts pm) s).gamInt x com parts pm j = chalInt E.par.enc (s j) := by
  unfold JEnv.gamInt
  rw [answer_startMsgs]
  show chalInt E.par.enc (if E.move x com parts pm = E.move x com parts pm then s j else _) = _
  rw [if_pos rfl]

/-- Other partial evaluations, with the same responses. -/
theorem convinces_of [DecidableEq T] (h : E.Good) (A : E.ringQ.Lawful) (A' : E.ringQ'.Lawful) {x : ZMod p}
    {com : List (List T')} {y y' : List (ZMod p)} {parts parts' : List T} {pm pm' : T} {s : Nat → List (BitVec 8)}
    (hs : ∀ i, (s i).length = 16) {pf : JProof T T'} (h1 : pf.parts = parts) (h2 : pf.partMask = pm) {W : JWit}
    (hW : JEnv.Accepted (E.answer (E.move x com parts pm) s) A A' x com y pf W) (f' : Nat → List Int)
    (hy : y'.length = E.par.batch) (hp : parts'.length = E.par.mat.cols)
    (hf : ∀ j < E.par.mat.cols, JEnv.Rep A (parts'.getD j 0) (f' j))
    (hr : ∀ j < E.par.mat.cols, ∀ c ∈ f' j, RepRange E.ringQ.qs c)
    (hc : ∑ j ∈ range E.par.mat.cols, toR E.ringQ.qs E.ringQ.N (chalInt E.par.enc (s j)) *
        toR E.ringQ.qs E.ringQ.N (f' j) + A.val pm' =
      ∑ j ∈ range E.par.mat.cols, toR E.ringQ.qs E.ringQ.N (chalInt E.par.enc (s j)) *
        toR E.ringQ.qs E.ringQ.N (W.f j) + A.val pm)
    (he : ∑ j ∈ range E.par.mat.cols, ∑ t ∈ range E.par.mat.slots, x ^ (j * E.par.mat.slots + t) *
        (decoded p E.par.enc (f' j)).getD t 0 =
      ∑ i ∈ range E.par.batch, (decoded p E.par.enc (E.betInt x com i)).getD 0 0 * y'.getD i 0) :
    E.Convinces x com y' parts' pm' s := by
  refine ⟨{ pf with parts := parts', partMask := pm' }, rfl, rfl, ?_⟩
  apply JEnv.verify_complete (answer_good h _ hs) A A' { W with f := f' } _ hr
  have hb : ∀ i, (E.answer (E.move x com parts' pm') s).betInt x com i =
      (E.answer (E.move x com parts pm) s).betInt x com i := by
    intro i; rw [answer_betInt, answer_betInt]
  have hg : ∀ j, (E.answer (E.move x com parts' pm') s).gamInt x com parts' pm' j =
      (E.answer (E.move x com parts pm) s).gamInt x com pf.parts pf.partMask j := by
    intro j; rw [h1, h2, answer_gamInt, answer_gamInt]
  constructor
  · exact ⟨hW.shape.comLen, hW.shape.comLen2, hy, hW.shape.inCommit, hp, hW.shape.encode, hW.shape.mlwe⟩
  · exact hW.inCommit
  · exact hW.sLen
  · exact hW.encode
  · exact hW.mlwe
  · exact hW.uLen
  · exact hf
  · intro k hk
    have := hW.outer k hk
    rw [sum_congr rfl fun i _ => by rw [hb i]]
    exact this
  · exact hW.outerNorm
  · intro k hk
    have := hW.inner k hk
    dsimp only
    rw [sum_congr rfl fun j _ => by rw [hg j]]
    exact this
  · exact hW.innerNorm
  · have e1 : ∑ k ∈ range E.par.mat.rows, toR E.ringQ.qs E.ringQ.N (E.leftInt x k) *
        toR E.ringQ.qs E.ringQ.N (W.e k) = ∑ j ∈ range E.par.mat.cols, toR E.ringQ.qs E.ringQ.N
          ((E.answer (E.move x com parts pm) s).gamInt x com pf.parts pf.partMask j) *
          toR E.ringQ.qs E.ringQ.N (W.f j) + A.val pf.partMask := hW.consistent
    show ∑ k ∈ range E.par.mat.rows, toR E.ringQ.qs E.ringQ.N (E.leftInt x k) *
        toR E.ringQ.qs E.ringQ.N (W.e k) = ∑ j ∈ range E.par.mat.cols, toR E.ringQ.qs E.ringQ.N
          ((E.answer (E.move x com parts' pm') s).gamInt x com parts' pm' j) *
          toR E.ringQ.qs E.ringQ.N (f' j) + A.val pm'
    simp only [hg] at e1 ⊢
    rw [e1, h1, h2]
    simp only [answer_gamInt]
    exact hc.symm
  · refine Eq.trans he (sum_congr rfl fun i _ => ?_)
    rw [answer_betInt]
    rfl

end

instance instFintypeByte : Fintype (BitVec 8) := Fintype.ofEquiv (Fin (2 ^ 8)) BitVec.equivFin.toEquiv.symm

theorem card_bytes16 : Fintype.card (Fin 16 → BitVec 8) = 2 ^ 128 := by
  rw [Fintype.card_fun, Fintype.card_fin, Fintype.card_congr BitVec.equivFin.toEquiv, Fintype.card_fin]
  norm_num

/-- **C84** is false.  Let a prover have a first message `parts`, `pm` for the values `y` that it can answer for all
challenges (an honest prover has: `C84_honest`).  Then there is a first message for other values `y'` that can be
answered for at least one in `q` of all sixteen bytes from which the first challenge is made, whatever the other
challenges are.  `q` is any prime of the ring with `2 exp ∣ q - 1` (the primes in use have `2N ∣ q - 1`). -/
theorem C84_refuted [DecidableEq T] [Fact p.Prime] (E : JEnv p T T') (h : E.Good) (A : E.ringQ.Lawful)
    (A' : E.ringQ'.Lawful) (hb : 2 ≤ E.par.enc.ecd.base) (hpQ : ¬ p ∣ E.ringQ.qs.prod) (q : Nat)
    (hq : q ∈ E.ringQ.qs) (hqp : q.Prime) (hq1 : 2 * E.par.enc.ecd.exp ∣ q - 1) (x : ZMod p) (com : List (List T'))
    (y : List (ZMod p)) (parts : List T) (pm : T)
    (hprov : ∀ s : Nat → List (BitVec 8), (∀ i, (s i).length = 16) → E.Convinces x com y parts pm s)
    (i0 : Nat) (hi0 : i0 < E.par.batch) (hbet : (decoded p E.par.enc (E.betInt x com i0)).getD 0 0 ≠ 0) :
    ∃ (y' : List (ZMod p)) (parts' : List T) (pm' : T), y'.length = y.length ∧ y' ≠ y ∧
      2 ^ 128 ≤ q * {b : Fin 16 → BitVec 8 | ∀ s : Nat → List (BitVec 8), (∀ i, (s i).length = 16) →
        s 0 = List.ofFn b → E.Convinces x com y' parts' pm' s}.ncard := by
  classical
  have : NeZero q := ⟨hqp.ne_zero⟩
  obtain ⟨w, hw⟩ := exists_root_neg_one hqp h.enc.exp_pos hq1
  obtain ⟨c, hc⟩ := List.dvd_prod hq
  have hQ1 := A.chain.nontrivial
  have hN : E.ringQ.N = E.par.enc.slots * E.par.enc.ecd.exp := h.deg.trans h.enc.deg
  have hsl := h.enc.slots_pos
  have hexp := h.enc.exp_pos
  have hcol := h.mat.cols
  have hNpos := A.pos
  have hcd : ¬ (E.ringQ.qs.prod : Int) ∣ (c : Int) := by
    intro hd
    have hd := Int.natCast_dvd_natCast.1 hd
    have hc0 : 0 < c := by
      rcases Nat.eq_zero_or_pos c with h0 | h0
      · rw [h0] at hc; omega
      · exact h0
    have h1 := Nat.le_of_dvd hc0 hd
    have h2 := Nat.mul_le_mul_right c hqp.two_le
    omega
  choose R hR1 hR2 using RepRange.exists A.chain
  -- the representatives of the first partial evaluation
  obtain ⟨pf0, e1, e2, e3⟩ := hprov (fun _ => List.replicate 16 0) (by simp)
  obtain ⟨W0, hW0, hW0r⟩ := JEnv.verify_sound (answer_good h _ (by simp)) A A' e3
  obtain ⟨z0, hz0⟩ : ∃ z0, z0 = W0.f 0 := ⟨_, rfl⟩
  have z1 : z0.length = E.ringQ.N := by rw [hz0]; exact (hW0.parts 0 hcol).1
  have z2 : A.val (parts.getD 0 0) = toR E.ringQ.qs E.ringQ.N z0 := by
    rw [hz0, ← e1]; exact (hW0.parts 0 hcol).2
  have z3 : ∀ d ∈ z0, RepRange E.ringQ.qs d := by rw [hz0]; exact hW0r 0 hcol
  have hplen : parts.length = E.par.mat.cols := by rw [← e1]; exact hW0.shape.parts
  have hylen : y.length = E.par.batch := hW0.shape.yLen
  have hfix : ∀ t < E.ringQ.N, R (z0.getD t 0) = z0.getD t 0 := by
    intro t ht
    apply RepRange.unique (hR1 _) _ (hR2 _)
    rw [List.getD_eq_getElem _ _ (by omega)]
    exact z3 _ (List.getElem_mem _)
  -- a change that is decoded to something else
  obtain ⟨a, ha⟩ : ∃ a : Nat, ∑ i ∈ range E.par.enc.ecd.exp,
      (R (z0.getD (i * E.par.enc.slots) 0 + a * (c * w ^ (E.par.enc.ecd.exp - 1 - i))) : ZMod p) *
        (E.par.enc.ecd.base : ZMod p) ^ i ≠
      ∑ i ∈ range E.par.enc.ecd.exp, (R (z0.getD (i * E.par.enc.slots) 0) : ZMod p) *
        (E.par.enc.ecd.base : ZMod p) ^ i := by
    by_contra hn
    push Not at hn
    have := reps_decode (Fact.out : p.Prime) hb h.enc.mod (by omega) hpQ R hR2 (fun a b => (hR1 a).sub_lt (hR1 b))
      (fun i => z0.getD (i * E.par.enc.slots) 0) (fun i => c * w ^ (E.par.enc.ecd.exp - 1 - i)) hn
      (E.par.enc.ecd.exp - 1) (by omega)
    rw [Nat.sub_self, pow_zero, mul_one] at this
    exact hcd this
  obtain ⟨g, hg⟩ : ∃ g : Nat → Int, g = fun i => c * (a * w ^ (E.par.enc.ecd.exp - 1 - i)) := ⟨_, rfl⟩
  obtain ⟨V, hV⟩ : ∃ V, V = (List.range E.ringQ.N).map fun t =>
    R (z0.getD t 0 + (sparse E.par.enc.slots E.par.enc.ecd.exp g).getD t 0) := ⟨_, rfl⟩
  have hVlen : V.length = E.ringQ.N := by rw [hV]; simp
  have hVr : ∀ d ∈ V, RepRange E.ringQ.qs d := by
    intro d hd
    rw [hV] at hd
    obtain ⟨t, -, rfl⟩ := List.mem_map.1 hd
    exact hR1 _
  obtain ⟨D, hD⟩ : ∃ D, D = toR E.ringQ.qs E.ringQ.N (sparse E.par.enc.slots E.par.enc.ecd.exp g) := ⟨_, rfl⟩
  have hspl : (sparse E.par.enc.slots E.par.enc.ecd.exp g).length = E.ringQ.N := by rw [hN]; simp [sparse]
  have hVval : toR E.ringQ.qs E.ringQ.N V = toR E.ringQ.qs E.ringQ.N z0 + D := by
    rw [hD]
    conv_rhs => rw [coeffs_eq_range z1, coeffs_eq_range hspl]
    rw [← toR_range_add, hV]
    apply toR_congr
    rw [List.forall₂_map_left_iff, List.forall₂_map_right_iff, List.forall₂_same]
    intro t _
    exact hR2 _
  have hsp : ∀ t < E.ringQ.N, (sparse E.par.enc.slots E.par.enc.ecd.exp g).getD t 0 =
      if t % E.par.enc.slots = 0 then g (t / E.par.enc.slots) else 0 := by
    intro t ht
    unfold sparse
    rw [getD_map_range _ _ _ _ (by omega)]
  obtain ⟨Δ, hΔ⟩ : ∃ Δ : ZMod p, Δ = ∑ i ∈ range E.par.enc.ecd.exp,
      (R (z0.getD (i * E.par.enc.slots) 0 + a * (c * w ^ (E.par.enc.ecd.exp - 1 - i))) : ZMod p) *
        (E.par.enc.ecd.base : ZMod p) ^ i -
      ∑ i ∈ range E.par.enc.ecd.exp, (R (z0.getD (i * E.par.enc.slots) 0) : ZMod p) *
        (E.par.enc.ecd.base : ZMod p) ^ i := ⟨_, rfl⟩
  have hΔ0 : Δ ≠ 0 := by rw [hΔ]; exact sub_ne_zero.2 ha
  have hdec : ∀ t < E.par.enc.slots, (decoded p E.par.enc V).getD t 0 =
      (decoded p E.par.enc z0).getD t 0 + if t = 0 then Δ else 0 := by
    intro t ht
    have hidx : ∀ i ∈ range E.par.enc.ecd.exp, i * E.par.enc.slots + t < E.ringQ.N := by
      intro i hi
      have h1 := Nat.mul_le_mul_right E.par.enc.slots (mem_range.1 hi)
      rw [hN, Nat.mul_comm E.par.enc.slots]
      rw [Nat.succ_mul] at h1
      omega
    unfold decoded
    rw [getD_map_range _ _ _ _ ht, getD_map_range _ _ _ _ ht]
    have h1 : ∀ i ∈ range E.par.enc.ecd.exp, (V.getD (i * E.par.enc.slots + t) 0 : ZMod p) *
        (E.par.enc.ecd.base : ZMod p) ^ i = (R (z0.getD (i * E.par.enc.slots + t) 0 +
          if t = 0 then g i else 0) : ZMod p) * (E.par.enc.ecd.base : ZMod p) ^ i := by
      intro i hi
      rw [hV, getD_map_range _ _ _ _ (hidx i hi), hsp _ (hidx i hi), Nat.mul_comm i, Nat.mul_add_mod,
        Nat.mod_eq_of_lt ht, Nat.mul_add_div hsl, Nat.div_eq_of_lt ht, Nat.add_zero]
    rw [sum_congr rfl h1]
    have h2 : ∀ i ∈ range E.par.enc.ecd.exp, (z0.getD (i * E.par.enc.slots + t) 0 : ZMod p) *
        (E.par.enc.ecd.base : ZMod p) ^ i = (R (z0.getD (i * E.par.enc.slots + t) 0) : ZMod p) *
        (E.par.enc.ecd.base : ZMod p) ^ i := by
      intro i hi
      rw [hfix _ (hidx i hi)]
    rw [sum_congr rfl h2]
    by_cases ht0 : t = 0
    · subst ht0
      simp only [if_true, add_zero]
      rw [hΔ, add_sub_cancel]
      apply sum_congr rfl
      intro i _
      rw [hg]
      dsimp only
      rw [mul_left_comm]
    · simp only [if_neg ht0, add_zero]
  -- challenges with the same value at the root
  obtain ⟨ch, hch⟩ : ∃ ch : List (BitVec 8) → Nat → Int, ch = fun bytes i =>
    centred (challengeBound E.par.enc.ecd)
      (chalNum bytes / challengeBound E.par.enc.ecd ^ i % challengeBound E.par.enc.ecd) := ⟨_, rfl⟩
  have hchal : ∀ bytes, chalInt E.par.enc bytes = sparse E.par.enc.slots E.par.enc.ecd.exp (ch bytes) := by
    intro bytes; rw [hch]; exact chalInt_sparse E.par.enc h.enc bytes
  obtain ⟨v, F, hv, hF⟩ := exists_large_fibre (fun b : Fin 16 → BitVec 8 =>
    ((∑ i ∈ range E.par.enc.ecd.exp, ch (List.ofFn b) i * w ^ i : Int) : ZMod q))
  rw [card_bytes16] at hv
  obtain ⟨b0, hb0⟩ : ∃ b0 : Fin 16 → BitVec 8,
      ((∑ i ∈ range E.par.enc.ecd.exp, ch (List.ofFn b0) i * w ^ i : Int) : ZMod q) = v := by
    rcases F.eq_empty_or_nonempty with hn | ⟨b0, hb0⟩
    · rw [hn, card_empty, mul_zero] at hv
      norm_num at hv
    · exact ⟨b0, hF b0 hb0⟩
  obtain ⟨G, hG⟩ : ∃ G, G = toR E.ringQ.qs E.ringQ.N (chalInt E.par.enc (List.ofFn b0)) := ⟨_, rfl⟩
  have hsame : ∀ b : Fin 16 → BitVec 8,
      ((∑ i ∈ range E.par.enc.ecd.exp, ch (List.ofFn b) i * w ^ i : Int) : ZMod q) = v →
      toR E.ringQ.qs E.ringQ.N (chalInt E.par.enc (List.ofFn b)) * D = G * D := by
    intro b hbv
    rw [hG, hD, hg, hchal, hchal]
    have hdv := hbv.trans hb0.symm
    rw [ZMod.intCast_eq_intCast_iff_dvd_sub] at hdv
    have key : ∀ N, N = E.par.enc.slots * E.par.enc.ecd.exp →
        toR E.ringQ.qs N (sparse E.par.enc.slots E.par.enc.ecd.exp (ch (List.ofFn b))) *
          toR E.ringQ.qs N (sparse E.par.enc.slots E.par.enc.ecd.exp fun i => c * (a * w ^ (E.par.enc.ecd.exp - 1 - i))) =
        toR E.ringQ.qs N (sparse E.par.enc.slots E.par.enc.ecd.exp (ch (List.ofFn b0))) *
          toR E.ringQ.qs N (sparse E.par.enc.slots E.par.enc.ecd.exp fun i => c * (a * w ^ (E.par.enc.ecd.exp - 1 - i))) := by
      rintro N rfl
      exact (sparse_mul_slot hsl hc.symm hw a _ _ hdv).symm
    exact key _ hN
  -- the other value
  obtain ⟨β, hβ⟩ : ∃ β, β = (decoded p E.par.enc (E.betInt x com i0)).getD 0 0 := ⟨_, rfl⟩
  rw [← hβ] at hbet
  refine ⟨y.set i0 (y.getD i0 0 + Δ * β⁻¹), (List.range E.par.mat.cols).map fun j =>
    if j = 0 then A.val.symm (toR E.ringQ.qs E.ringQ.N V) else parts.getD j 0, A.val.symm (A.val pm - G * D),
    by simp, ?_, ?_⟩
  · intro hy
    have h1 : (y.set i0 (y.getD i0 0 + Δ * β⁻¹)).getD i0 0 = y.getD i0 0 := by rw [hy]
    rw [List.getD_eq_getElem _ _ (by simp; omega), List.getElem_set_self, add_eq_left] at h1
    rcases mul_eq_zero.1 h1 with h2 | h2
    · exact hΔ0 h2
    · exact hbet (inv_eq_zero.1 h2)
  · refine le_trans hv (Nat.mul_le_mul_left _ ?_)
    rw [← Set.ncard_coe_finset]
    refine Set.ncard_le_ncard ?_ (Set.toFinite _)
    intro b hbm
    have hbv := hF b hbm
    intro s hs hs0
    obtain ⟨pf, f1, f2, f3⟩ := hprov s hs
    obtain ⟨W, hW, hWr⟩ := JEnv.verify_sound (answer_good h _ hs) A A' f3
    have hW0f : W.f 0 = z0 := by
      apply reps_unique A.chain hNpos (hW.parts 0 hcol).1 z1 _ (hWr 0 hcol) z3
      rw [← z2, ← f1]
      exact (hW.parts 0 hcol).2.symm
    obtain ⟨n, hn⟩ : ∃ n, E.par.mat.cols = n + 1 := ⟨E.par.mat.cols - 1, by omega⟩
    apply convinces_of h A A' hs f1 f2 hW (fun j => if j = 0 then V else W.f j)
    · simp [hylen]
    · simp
    · intro j hj
      rw [getD_map_range _ _ _ _ hj]
      by_cases hj0 : j = 0
      · simp only [if_pos hj0]
        exact ⟨hVlen, by simp⟩
      · simp only [if_neg hj0]
        rw [← f1]
        exact hW.parts j hj
    · intro j hj
      by_cases hj0 : j = 0
      · simp only [if_pos hj0]; exact hVr
      · simp only [if_neg hj0]; exact hWr j hj
    · rw [hn, sum_range_succ', sum_range_succ']
      simp only [Nat.succ_ne_zero, if_false, if_true]
      rw [hW0f, hVval, hs0, AddEquiv.apply_symm_apply]
      linear_combination hsame b hbv
    · have h1 : ∑ j ∈ range E.par.mat.cols, ∑ t ∈ range E.par.mat.slots, x ^ (j * E.par.mat.slots + t) *
          (decoded p E.par.enc (W.f j)).getD t 0 =
        ∑ i ∈ range E.par.batch, (decoded p E.par.enc (E.betInt x com i)).getD 0 0 * y.getD i 0 := by
        refine Eq.trans hW.eval (sum_congr rfl fun i _ => ?_)
        rw [answer_betInt]
        rfl
      have h2 : ∑ i ∈ range E.par.batch, (decoded p E.par.enc (E.betInt x com i)).getD 0 0 *
          (y.set i0 (y.getD i0 0 + Δ * β⁻¹)).getD i 0 =
        ∑ i ∈ range E.par.batch, ((decoded p E.par.enc (E.betInt x com i)).getD 0 0 * y.getD i 0 +
          if i = i0 then Δ else 0) := by
        apply sum_congr rfl
        intro i hi
        have hi := mem_range.1 hi
        rw [List.getD_eq_getElem (l := y.set i0 (y.getD i0 0 + Δ * β⁻¹)) (n := i) _ (by rw [List.length_set]; omega),
          List.getElem_set]
        by_cases hii : i = i0
        · subst hii
          rw [if_pos rfl, if_pos rfl, ← hβ, mul_add, mul_left_comm, mul_inv_cancel₀ hbet, mul_one]
        · rw [if_neg (fun h => hii h.symm), if_neg hii, add_zero,
            List.getD_eq_getElem (l := y) (n := i) _ (by omega)]
      rw [h2, sum_add_distrib, ← h1, sum_ite_eq', if_pos (mem_range.2 hi0), hn, sum_range_succ', sum_range_succ']
      simp only [Nat.succ_ne_zero, if_false, if_true]
      rw [add_assoc]
      congr 1
      rw [hW0f]
      have h3 : ∀ t ∈ range E.par.mat.slots, x ^ (0 * E.par.mat.slots + t) * (decoded p E.par.enc V).getD t 0 =
          x ^ (0 * E.par.mat.slots + t) * (decoded p E.par.enc z0).getD t 0 + if t = 0 then Δ else 0 := by
        intro t ht
        rw [hdec t (by rw [← h.slots]; exact mem_range.1 ht), mul_add]
        congr 1
        split
        · next h0 => rw [h0]; simp
        · simp
      rw [sum_congr rfl h3, sum_add_distrib, sum_ite_eq', if_pos (mem_range.2 (by rw [h.slots]; exact hsl))]

/-- **C84, the honest prover**: under the bounds of `C63_bounded` the first message of `Evaluate` can be answered for
all challenges. -/
theorem C84_honest [DecidableEq T] (E : JEnv p T T') (h : E.Good) (A : E.ringQ.Lawful)
    (A' : E.ringQ'.Lawful) (x : ZMod p) (vs : List (List (ZMod p))) (hl : vs.length = E.par.batch)
    (hv : ∀ v ∈ vs, v ≠ [] ∧ v.length ≤ E.par.mat.rank) (rs : Nat → ComRand p) (S : Nat)
    (hS : ∀ i j k t, (((rs i).col j).cell k t).natAbs ≤ S ∧ (((rs i).col j).mlwe k t).natAbs ≤ S)
    (b1 : E.toFloat (Nat.sqrt
      (E.par.dcmpLen * (E.par.enc.N * JEnv.batchGrow E (JEnv.truncMax E) ^ 2) +
        E.par.outRank * (E.par.enc.N * JEnv.batchGrow E (2 ^ E.par.outCut) ^ 2))) < E.par.dcmpNm)
    (b2 : E.toFloat (Nat.sqrt
      (E.par.mat.rows * (E.par.enc.N * JEnv.combGrow E (JEnv.encSize E S) ^ 2) +
        (E.par.mlweRank + E.par.inRank) * (E.par.enc.N * JEnv.combGrow E S ^ 2) +
        E.par.inRank * (E.par.enc.N * JEnv.combGrow E (2 ^ E.par.inCut) ^ 2))) < E.par.resNm)
    (b3 : 2 * (E.par.mat.rows * (E.par.enc.N * (E.par.enc.ecd.base *
      JEnv.batchGrow E (JEnv.encSize E S)))) + 1 < E.ringQ.qs.prod) :
    ∃ coms : List (List T'), ∃ opens : List (JOpen T T'), ∃ pf : JProof T T',
      (∀ i < E.par.batch, E.commit (vs.getD i []) (rs i) =
          .ok (coms.getD i [], opens.getD i ⟨[], [], []⟩)) ∧
      coms.length = E.par.batch ∧ opens.length = E.par.batch ∧
      E.evaluate x vs coms opens =
        .ok (vs.map fun v => ∑ i ∈ range v.length, v.getD i 0 * x ^ i, pf) ∧
      ∀ s : Nat → List (BitVec 8), (∀ i, (s i).length = 16) →
        E.Convinces x coms (vs.map fun v => ∑ i ∈ range v.length, v.getD i 0 * x ^ i) pf.parts pf.partMask s := by
  obtain ⟨coms, opens, pf, c1, l1, m1, e1, -⟩ := C63_bounded E h A A' x vs hl hv rs S hS b1 b2 b3
  refine ⟨coms, opens, pf, c1, l1, m1, e1, ?_⟩
  intro s hs
  have h2 := answer_good h (E.move x coms pf.parts pf.partMask) hs
  obtain ⟨coms2, opens2, pf2, c2, l2, m2, e2, v2⟩ := C63_bounded (E.answer (E.move x coms pf.parts pf.partMask) s) h2
    A A' x vs hl hv rs S hS b1 b2 b3
  obtain ⟨coms3, opens3, I, l3, m3, c3⟩ := commitAll E h A A' vs hv rs
  have l2 : coms2.length = E.par.batch := l2
  have m2 : opens2.length = E.par.batch := m2
  have ext : ∀ {U : Type} {l l' : List U} (d : U), l.length = E.par.batch → l'.length = E.par.batch →
      (∀ i < E.par.batch, l.getD i d = l'.getD i d) → l = l' := by
    intro U l l' d h1 h2 h3
    apply List.ext_getElem (by omega)
    intro i h4 h5
    have := h3 i (by omega)
    rwa [List.getD_eq_getElem _ _ h4, List.getD_eq_getElem _ _ h5] at this
  have e12 : ∀ i < E.par.batch, coms2.getD i [] = coms.getD i [] ∧
      opens2.getD i ⟨[], [], []⟩ = opens.getD i ⟨[], [], []⟩ :=
    fun i hi => Prod.mk.inj (Except.ok.inj ((c2 i hi).symm.trans (c1 i hi)))
  have e13 : ∀ i < E.par.batch, coms3.getD i [] = coms.getD i [] ∧
      opens3.getD i ⟨[], [], []⟩ = opens.getD i ⟨[], [], []⟩ :=
    fun i hi => Prod.mk.inj (Except.ok.inj ((c3 i (by omega)).1.symm.trans (c1 i hi)))
  obtain rfl := ext [] l2 l1 fun i hi => (e12 i hi).1
  obtain rfl := ext ⟨[], [], []⟩ m2 m1 fun i hi => (e12 i hi).2
  obtain rfl := ext [] (l3.trans hl) l1 fun i hi => (e13 i hi).1
  obtain rfl := ext ⟨[], [], []⟩ (m3.trans hl) m1 fun i hi => (e13 i hi).2
  obtain ⟨r1, r2⟩ := evaluate_parts E h A A' (E.answer (E.move x coms3 pf.parts pf.partMask) s).xof h2.xof x vs
    coms3 opens3 hl l1 m1 (fun v hm => (hv v hm).2) I (fun i hi => (c3 i (by omega)).2.1)
    (fun i _ => answer_betInt x coms3 pf.parts pf.partMask s i) _ _ pf pf2 e1 e2
  exact ⟨pf2, r1, r2, v2⟩

/-- With a batch of one, and hence the honest first message for a commitment made by `Commit`. -/
theorem C84_refuted_honest [DecidableEq T] [Fact p.Prime] (E : JEnv p T T') (h : E.Good) (A : E.ringQ.Lawful)
    (A' : E.ringQ'.Lawful) (hb : 2 ≤ E.par.enc.ecd.base) (hpQ : ¬ p ∣ E.ringQ.qs.prod) (q : Nat)
    (hq : q ∈ E.ringQ.qs) (hqp : q.Prime) (hq1 : 2 * E.par.enc.ecd.exp ∣ q - 1) (hB : E.par.batch = 1)
    (x : ZMod p) (v : List (ZMod p)) (hv : v ≠ []) (hv2 : v.length ≤ E.par.mat.rank) (r : ComRand p) (S : Nat)
    (hS : ∀ j k t, ((r.col j).cell k t).natAbs ≤ S ∧ ((r.col j).mlwe k t).natAbs ≤ S)
    (b1 : E.toFloat (Nat.sqrt
      (E.par.dcmpLen * (E.par.enc.N * JEnv.batchGrow E (JEnv.truncMax E) ^ 2) +
        E.par.outRank * (E.par.enc.N * JEnv.batchGrow E (2 ^ E.par.outCut) ^ 2))) < E.par.dcmpNm)
    (b2 : E.toFloat (Nat.sqrt
      (E.par.mat.rows * (E.par.enc.N * JEnv.combGrow E (JEnv.encSize E S) ^ 2) +
        (E.par.mlweRank + E.par.inRank) * (E.par.enc.N * JEnv.combGrow E S ^ 2) +
        E.par.inRank * (E.par.enc.N * JEnv.combGrow E (2 ^ E.par.inCut) ^ 2))) < E.par.resNm)
    (b3 : 2 * (E.par.mat.rows * (E.par.enc.N * (E.par.enc.ecd.base *
      JEnv.batchGrow E (JEnv.encSize E S)))) + 1 < E.ringQ.qs.prod) :
    ∃ com o, E.commit v r = .ok (com, o) ∧ ∃ (y' : ZMod p) (parts' : List T) (pm' : T),
      y' ≠ ∑ i ∈ range v.length, v.getD i 0 * x ^ i ∧
      2 ^ 128 ≤ q * {b : Fin 16 → BitVec 8 | ∀ s : Nat → List (BitVec 8), (∀ i, (s i).length = 16) →
        s 0 = List.ofFn b → E.Convinces x [com] [y'] parts' pm' s}.ncard := by
  obtain ⟨coms, opens, pf, c1, l1, m1, -, hc⟩ := C84_honest E h A A' x [v] (by simp [hB])
    (by simpa using ⟨hv, hv2⟩) (fun _ => r) S (fun _ => hS) b1 b2 b3
  obtain ⟨y', parts', pm', hy, hne, hcard⟩ := C84_refuted E h A A' hb hpQ q hq hqp hq1 x coms _ pf.parts pf.partMask hc 0
    (by omega) (by
      unfold JEnv.betInt
      rw [if_neg (by omega)]
      rw [JEnv.decoded_one h]
      exact one_ne_zero)
  have l1 := l1.trans hB
  have hy : y'.length = 1 := by rw [hy]; simp
  obtain ⟨com, rfl⟩ := List.length_eq_one_iff.1 l1
  obtain ⟨y0, rfl⟩ := List.length_eq_one_iff.1 hy
  refine ⟨com, opens.getD 0 ⟨[], [], []⟩, c1 0 (by omega), y0, parts', pm', ?_, hcard⟩
  rintro rfl
  exact hne (by simp)

/-- Three primes; `17` is one modulo eight. -/
def exNtt : List Nat := [144115188075855859, 2147483647, 17]

theorem exNtt_chain : Chain exNtt := by
  refine ⟨by simp [exNtt], by simp [exNtt], by simp [exNtt], ?_⟩
  simp only [exNtt, List.pairwise_cons, List.mem_cons, List.not_mem_nil, or_false, forall_eq_or_imp, forall_eq]
  refine ⟨⟨by norm_num, by norm_num⟩, by norm_num, by simp, List.Pairwise.nil⟩

open Classical in
/-- **Case for C84**: there are 64 challenges, but for a commitment to `5 + 7X` a wrong value at `3` is accepted for one
in 17. -/
theorem C84_case
    (xof : List (JMsg (RQ exNtt 4) (RQ [2305843009213693951] 4) (ZMod 257)) → Nat → List (BitVec 8))
    (hx : ∀ ms i, (xof ms i).length = 16) :
    ∃ E : JEnv 257 (RQ exNtt 4) (RQ [2305843009213693951] 4), E.Good ∧ E.xof = xof ∧
      challengeBound E.par.enc.ecd = 8 ∧ E.par.enc.ecd.exp = 2 ∧
      Nonempty E.ringQ.Lawful ∧ Nonempty E.ringQ'.Lawful ∧
      ∃ com o, E.commit [5, 7] (exRand 0) = .ok (com, o) ∧ ∃ y' parts' pm', y' ≠ 26 ∧
        2 ^ 128 ≤ 17 * {b : Fin 16 → BitVec 8 | ∀ s : Nat → List (BitVec 8), (∀ i, (s i).length = 16) →
          s 0 = List.ofFn b → E.Convinces 3 [com] [y'] parts' pm' s}.ncard := by
  have : Fact (Nat.Prime 257) := ⟨by norm_num⟩
  have h8 : challengeBound ⟨16, 2⟩ = 8 := by decide
  obtain ⟨E, h1, h2, h3, h4, h5, h6, ⟨A⟩, ⟨A'⟩⟩ : ∃ E : JEnv 257 (RQ exNtt 4) (RQ [2305843009213693951] 4),
      E.par = exPar 1 ∧ E.xof = xof ∧ E.toFloat = (fun n : Nat => (n : ℚ)) ∧ E.ringQ.qs = exNtt ∧
      E.ringQ'.qs = [2305843009213693951] ∧ E.Good ∧ Nonempty E.ringQ.Lawful ∧ Nonempty E.ringQ'.Lawful := by
    apply env_exists (exPar 1) exNtt 2305843009213693951 exNtt_chain exQ'_chain
    · constructor <;> norm_num [exPar]
    · constructor <;> norm_num [exPar]
    · rfl
    · exact (show 1 ≤ challengeBound ⟨16, 2⟩ by decide)
    · have h : challengeBound (exPar 1).enc.ecd = 8 := h8
      rw [h]; simp [exNtt]
    · simp [exPar]
    · simp [exPar]
    · simp [exPar]
    · simp [exPar]
    · norm_num [exPar, exNtt]
    · norm_num [exPar]
    · exact hx
  refine ⟨E, h6, h2, by rw [h1]; exact h8, by rw [h1]; rfl, ⟨A⟩, ⟨A'⟩, ?_⟩
  have hs : ∀ n m : Nat, n < m * m → ((Nat.sqrt n : Nat) : ℚ) < (m : ℚ) := by
    intro n m h
    exact_mod_cast Nat.sqrt_lt.mpr h
  obtain ⟨com, o, c1, y', parts', pm', hy, hc⟩ := C84_refuted_honest E h6 A A' (by rw [h1]; simp [exPar])
    (by rw [h4]; norm_num [exNtt]) 17 (by rw [h4]; simp [exNtt]) (by norm_num) (by rw [h1]; norm_num [exPar])
    (by rw [h1]; rfl) 3 [5, 7] (by simp) (by rw [h1]; simp [exPar]) (exRand 0) 3 (exRand_le 0)
    (by
      rw [h3]
      have := hs (E.par.dcmpLen * (E.par.enc.N * JEnv.batchGrow E (JEnv.truncMax E) ^ 2) +
        E.par.outRank * (E.par.enc.N * JEnv.batchGrow E (2 ^ E.par.outCut) ^ 2)) (2 ^ 59) (by
          unfold JEnv.batchGrow JEnv.chalGrow JEnv.truncMax
          rw [h1, h4]
          simp only [exPar, h8]
          norm_num [exNtt])
      rw [h1] at this ⊢
      refine lt_of_lt_of_eq this ?_
      norm_num [exPar])
    (by
      rw [h3]
      have := hs (E.par.mat.rows * (E.par.enc.N * JEnv.combGrow E (JEnv.encSize E 3) ^ 2) +
        (E.par.mlweRank + E.par.inRank) * (E.par.enc.N * JEnv.combGrow E 3 ^ 2) +
        E.par.inRank * (E.par.enc.N * JEnv.combGrow E (2 ^ E.par.inCut) ^ 2)) (2 ^ 60) (by
          unfold JEnv.combGrow JEnv.batchGrow JEnv.chalGrow JEnv.encSize
          rw [h1]
          simp only [exPar, h8]
          norm_num)
      rw [h1] at this ⊢
      refine lt_of_lt_of_eq this ?_
      norm_num [exPar])
    (by
      unfold JEnv.batchGrow JEnv.chalGrow JEnv.encSize
      rw [h1, h4]
      simp only [exPar, h8]
      norm_num [exNtt])
  refine ⟨com, o, c1, y', parts', pm', ?_, hc⟩
  intro h
  apply hy
  rw [h]
  simp [sum_range_succ]
  norm_num

end Ringo
