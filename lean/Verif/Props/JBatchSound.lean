import Verif.Spec.JBatch
import Verif.Props.JRom
import Verif.Props.JBatch

/-!
# C123: soundness of Jindo's openings of a batch
-/

namespace Ringo

open Finset Polynomial

variable {p : Nat} {T T' : Type} [AddCommGroup T] [AddCommGroup T']

/-- **C123.**  For all commitments of a batch and all batching challenges there is one polynomial such that a first
message with short partial evaluations, for values whose combination by the batching challenges is not the value of
the polynomial, can be answered for a `1 / C` part of the bytes, up to rounding, where `C` is the number of challenges
of a column. -/
theorem C123 [DecidableEq T] [Fact p.Prime] (E : JEnv p T T') (h : E.Good) (A : E.ringQ.Lawful)
    (A' : E.ringQ'.Lawful) (R R' F : Nat) (hR : E.Room R R' F) (ho : E.BindsOut A' (2 * R'))
    (hi : E.BindsIn A (2 * (E.par.enc.ecd.exp * (challengeBound E.par.enc.ecd * (2 * R)))))
    (com : List (List T')) :
    ∃ P : List (List Int) → (ZMod p)[X], (∀ β, (P β).natDegree ≤ E.par.mat.rank) ∧
      ∀ (x : ZMod p) (y : List (ZMod p)) (parts : List T) (pm : T), E.ShortParts A F parts →
      E.combined x com y ≠ (P ((List.range E.par.batch).map (E.betInt x com))).eval x →
      {b : ColBytes E | E.Convinces x com y parts pm (bytesOf b)}.ncard ≤
        (2 ^ 128 / challengeBound E.par.enc.ecd ^ E.par.enc.ecd.exp + 1) * (2 ^ 128) ^ (E.par.mat.cols - 1) := by
  choose P h1 h2 using fun β : List (List Int) => bind_comb E h A A' R R' F hR ho hi com fun i => β.getD i []
  refine ⟨P, h1, fun x y parts pm hsh hy => count_of_no_forks E h x com y parts pm fun hf => hy ?_⟩
  have hg : ∀ i < E.par.batch, ((List.range E.par.batch).map (E.betInt x com)).getD i [] = E.betInt x com i :=
    fun i hi => getD_map_range _ _ _ _ hi
  rw [← h2 _ x y parts pm (fun i hi => (hg i hi).symm) hsh hf]
  exact sum_congr rfl fun i hi => by rw [hg i (mem_range.1 hi)]; rfl

/-- The values of the polynomials with the coefficients `vs` at `x`. -/
def valuesAt (vs : List (List (ZMod p))) (x : ZMod p) : List (ZMod p) :=
  vs.map fun v => ∑ i ∈ range v.length, v.getD i 0 * x ^ i

/-- The commitments that `Commit` makes for the polynomials `vs` with the random numbers `rs`. -/
def JEnv.CommitsAll (E : JEnv p T T') (vs : List (List (ZMod p))) (rs : Nat → ComRand p) (coms : List (List T'))
    (opens : List (JOpen T T')) : Prop :=
  coms.length = E.par.batch ∧ opens.length = E.par.batch ∧
    ∀ i < E.par.batch, E.commit (vs.getD i []) (rs i) = .ok (coms.getD i [], opens.getD i ⟨[], [], []⟩)

theorem commitsAll_unique (E : JEnv p T T') {vs : List (List (ZMod p))} {rs : Nat → ComRand p}
    {coms coms' : List (List T')} {opens opens' : List (JOpen T T')} (h : E.CommitsAll vs rs coms opens)
    (h' : E.CommitsAll vs rs coms' opens') : coms = coms' ∧ opens = opens' := by
  have ext : ∀ {U : Type} {l l' : List U} (d : U), l.length = E.par.batch → l'.length = E.par.batch →
      (∀ i < E.par.batch, l.getD i d = l'.getD i d) → l = l' := by
    intro U l l' d h1 h2 h3
    apply List.ext_getElem (by omega)
    intro i h4 h5
    have := h3 i (by omega)
    rwa [List.getD_eq_getElem _ _ h4, List.getD_eq_getElem _ _ h5] at this
  have e : ∀ i < E.par.batch, coms.getD i [] = coms'.getD i [] ∧
      opens.getD i ⟨[], [], []⟩ = opens'.getD i ⟨[], [], []⟩ :=
    fun i hi => Prod.mk.inj (Except.ok.inj ((h.2.2 i hi).symm.trans (h'.2.2 i hi)))
  exact ⟨ext [] h.1 h'.1 fun i hi => (e i hi).1, ext _ h.2.1 h'.2.1 fun i hi => (e i hi).2⟩

/-- **C123, honest commitments.**  For commitments made by `Commit` the combination is that of the values of the
committed polynomials, and the first message of the honest prover is short and can be answered for all challenges. -/
theorem C123_honest [DecidableEq T] [Fact p.Prime] (E : JEnv p T T') (h : E.Good) (A : E.ringQ.Lawful)
    (A' : E.ringQ'.Lawful) (hC : 2 ≤ challengeBound E.par.enc.ecd) (R R' F S : Nat)
    (hR : E.Room R R' F) (ho : E.BindsOut A' (2 * R'))
    (hi : E.BindsIn A (2 * (E.par.enc.ecd.exp * (challengeBound E.par.enc.ecd * (2 * R)))))
    (hF : E.par.mat.rows * (E.par.enc.N * (E.par.enc.ecd.base * JEnv.batchGrow E (JEnv.encSize E S))) ≤ F)
    (vs : List (List (ZMod p))) (hl : vs.length = E.par.batch)
    (hv : ∀ v ∈ vs, v ≠ [] ∧ v.length ≤ E.par.mat.rank) (rs : Nat → ComRand p)
    (hS : ∀ i j k t, (((rs i).col j).cell k t).natAbs ≤ S ∧ (((rs i).col j).mlwe k t).natAbs ≤ S)
    (b1 : E.toFloat (Nat.sqrt
      (E.par.dcmpLen * (E.par.enc.N * JEnv.batchGrow E (JEnv.truncMax E) ^ 2) +
        E.par.outRank * (E.par.enc.N * JEnv.batchGrow E (2 ^ E.par.outCut) ^ 2))) < E.par.dcmpNm)
    (b2 : E.toFloat (Nat.sqrt
      (E.par.mat.rows * (E.par.enc.N * JEnv.combGrow E (JEnv.encSize E S) ^ 2) +
        (E.par.mlweRank + E.par.inRank) * (E.par.enc.N * JEnv.combGrow E S ^ 2) +
        E.par.inRank * (E.par.enc.N * JEnv.combGrow E (2 ^ E.par.inCut) ^ 2))) < E.par.resNm) :
    ∃ coms opens, E.CommitsAll vs rs coms opens ∧ ∀ x : ZMod p,
      (∀ (y : List (ZMod p)) (parts : List T) (pm : T), E.ShortParts A F parts →
        E.combined x coms y ≠ E.combined x coms (valuesAt vs x) →
        {b : ColBytes E | E.Convinces x coms y parts pm (bytesOf b)}.ncard ≤
          (2 ^ 128 / challengeBound E.par.enc.ecd ^ E.par.enc.ecd.exp + 1) * (2 ^ 128) ^ (E.par.mat.cols - 1)) ∧
      ∃ pf, E.evaluate x vs coms opens = .ok (valuesAt vs x, pf) ∧ E.ShortParts A F pf.parts ∧
        ∀ s : Nat → List (BitVec 8), (∀ i, (s i).length = 16) →
          E.Convinces x coms (valuesAt vs x) pf.parts pf.partMask s := by
  have b3 : 2 * (E.par.mat.rows * (E.par.enc.N * (E.par.enc.ecd.base *
      JEnv.batchGrow E (JEnv.encSize E S)))) + 1 < E.ringQ.qs.prod := by
    have := hR.parts
    omega
  obtain ⟨coms, opens, I, l1, l2, l3⟩ := commitAll E h A A' vs hv rs
  have hall : E.CommitsAll vs rs coms opens := ⟨l1.trans hl, l2.trans hl, fun i hi => (l3 i (by omega)).1⟩
  have hx : ∀ x : ZMod p, ∃ pf, E.evaluate x vs coms opens = .ok (valuesAt vs x, pf) ∧ E.ShortParts A F pf.parts ∧
        ∀ s : Nat → List (BitVec 8), (∀ i, (s i).length = 16) →
          E.Convinces x coms (valuesAt vs x) pf.parts pf.partMask s := by
    intro x
    obtain ⟨coms', opens', pf, c1, m1, m2, e1, hc⟩ := C84_honest E h A A' x vs hl hv rs S hS b1 b2 b3
    obtain ⟨rfl, rfl⟩ := commitsAll_unique E hall ⟨m1, m2, c1⟩
    have hs := honest_short E h A A' x vs hl hv rs S hS b1 b2 m1 m2 c1 e1
    refine ⟨pf, e1, ?_, hc⟩
    intro j hj
    obtain ⟨z, z1, z2⟩ := hs j hj
    exact ⟨z, ⟨z1.1, fun c hc => (z1.2 c hc).trans hF⟩, z2⟩
  refine ⟨coms, opens, hall, fun x => ⟨?_, hx x⟩⟩
  obtain ⟨P, -, hP⟩ := bind_comb E h A A' R R' F hR ho hi coms (E.betInt x coms)
  intro y parts pm hsh hy
  apply count_of_no_forks E h
  intro hf
  apply hy
  have e1 := hP x y parts pm (fun _ _ => rfl) hsh hf
  obtain ⟨pf, -, hs, hc⟩ := hx x
  have e2 := hP x _ pf.parts pf.partMask (fun _ _ => rfl) hs (fun j _ => ⟨fun _ => List.replicate 16 0,
    fun i => if i = j then beBytes 1 ++ beBytes 0 else List.replicate 16 0, by simp,
    fun i => by dsimp only; split <;> simp [beBytes], fun i hi => by dsimp only; rw [if_neg hi], by
      dsimp only; rw [if_pos rfl]; exact two_challenges _ h.enc hC, hc _ (by simp),
      hc _ (fun i => by split <;> simp [beBytes])⟩)
  exact e1.trans e2.symm

omit [AddCommGroup T] [AddCommGroup T'] in
theorem decoded_chal {P : EncParams} (h : P.Good p) (b : List (BitVec 8)) : (decoded p P (chalInt P b)).getD 0 0 =
    ∑ i ∈ range P.ecd.exp, (chalDigit P b i : ZMod p) * (P.ecd.base : ZMod p) ^ i := by
  unfold decoded
  rw [getD_map_range _ _ _ _ h.slots_pos]
  refine sum_congr rfl fun i hi => ?_
  have hlt : i * P.slots + 0 < P.N := by
    rw [h.deg, Nat.add_zero, Nat.mul_comm]
    exact Nat.mul_lt_mul_of_pos_left (mem_range.1 hi) h.slots_pos
  unfold chalInt
  rw [getD_map_range _ _ _ _ hlt, Nat.add_zero, Nat.mul_mod_left, if_pos rfl, Nat.mul_div_cancel _ h.slots_pos]
  rfl

set_option linter.constructorNameAsVariable false in
omit [AddCommGroup T] [AddCommGroup T'] in
/-- Few bytes make a given combination zero. -/
theorem comb_zero_count [Fact p.Prime] {P : EncParams} (h : P.Good p) (hc : 1 ≤ challengeBound P.ecd) (n : Nat)
    (δ : Nat → ZMod p) {j : Nat} (hj : j < n) (hd : δ j ≠ 0) :
    {b : Fin n → Fin 16 → BitVec 8 | ∑ i ∈ range n, (decoded p P (chalInt P (bytesOf b i))).getD 0 0 * δ i = 0}.ncard ≤
      (2 ^ 128 / challengeBound P.ecd ^ P.ecd.exp + 1) * (2 ^ 128) ^ (n - 1) := by
  classical
  have : Inhabited (BitVec 8) := ⟨0⟩
  have hone := one_challenge h hc
  generalize 2 ^ 128 / challengeBound P.ecd ^ P.ecd.exp + 1 = m at hone ⊢
  have hcnt := card_le_of_coord ⟨j, hj⟩ m {b : Fin n → Fin 16 → BitVec 8 |
    ∑ i ∈ range n, (decoded p P (chalInt P (bytesOf b i))).getD 0 0 * δ i = 0}.toFinset
  rw [card_bytes16] at hcnt
  rw [Set.ncard_eq_toFinset_card']
  refine hcnt fun g => hone _ ?_
  intro b hb b' hb'
  simp only [Set.mem_toFinset, Set.mem_ofPred_eq, mem_filter, mem_univ, true_and] at hb hb'
  by_contra hne
  have hat : ∀ a : Fin 16 → BitVec 8, bytesOf (Function.update g ⟨j, hj⟩ a) j = List.ofFn a := by
    intro a
    unfold bytesOf
    rw [dif_pos hj, Function.update_self]
  have hoff : ∀ a : Fin 16 → BitVec 8, ∀ i ≠ j, bytesOf (Function.update g ⟨j, hj⟩ a) i = bytesOf g i := by
    intro a i hi
    unfold bytesOf
    split
    · rw [Function.update_of_ne (by intro he; exact hi (Fin.mk.inj he))]
    · rfl
  have hsplit : ∀ a : Fin 16 → BitVec 8, ∑ i ∈ range n,
      (decoded p P (chalInt P (bytesOf (Function.update g ⟨j, hj⟩ a) i))).getD 0 0 * δ i =
      (decoded p P (chalInt P (List.ofFn a))).getD 0 0 * δ j +
        ∑ i ∈ (range n).erase j, (decoded p P (chalInt P (bytesOf g i))).getD 0 0 * δ i := by
    intro a
    rw [← add_sum_erase _ _ (mem_range.2 hj), hat]
    congr 1
    exact sum_congr rfl fun i hi => by rw [hoff a i (mem_erase.1 hi).1]
  rw [hsplit] at hb hb'
  have e : ((decoded p P (chalInt P (List.ofFn b))).getD 0 0 - (decoded p P (chalInt P (List.ofFn b'))).getD 0 0) * δ j = 0 := by
    linear_combination hb - hb'
  apply chal_ne h hc _ _ hne
  rw [← (mul_eq_zero.1 e).resolve_right hd, decoded_chal h, decoded_chal h, ← sum_sub_distrib]
  refine sum_congr rfl fun i _ => ?_
  push_cast
  ring

/-- **C123, values chosen first.**  If the values are chosen before the batching challenges, then all values are bound:
when one of them is not the value of the committed polynomial, then for all but a `1 / C` part of the bytes of the
batching challenges, up to rounding, every first message with short partial evaluations can be answered for a `1 / C`
part of the bytes of the columns only. -/
theorem C123_first [DecidableEq T] [Fact p.Prime] (E : JEnv p T T') (h : E.Good) (A : E.ringQ.Lawful)
    (A' : E.ringQ'.Lawful) (hB : 2 ≤ E.par.batch) (hC : 2 ≤ challengeBound E.par.enc.ecd) (R R' F S : Nat)
    (hR : E.Room R R' F) (ho : E.BindsOut A' (2 * R'))
    (hi : E.BindsIn A (2 * (E.par.enc.ecd.exp * (challengeBound E.par.enc.ecd * (2 * R)))))
    (hF : E.par.mat.rows * (E.par.enc.N * (E.par.enc.ecd.base * JEnv.batchGrow E (JEnv.encSize E S))) ≤ F)
    (vs : List (List (ZMod p))) (hl : vs.length = E.par.batch)
    (hv : ∀ v ∈ vs, v ≠ [] ∧ v.length ≤ E.par.mat.rank) (rs : Nat → ComRand p)
    (hS : ∀ i j k t, (((rs i).col j).cell k t).natAbs ≤ S ∧ (((rs i).col j).mlwe k t).natAbs ≤ S)
    (b1 : E.toFloat (Nat.sqrt
      (E.par.dcmpLen * (E.par.enc.N * JEnv.batchGrow E (JEnv.truncMax E) ^ 2) +
        E.par.outRank * (E.par.enc.N * JEnv.batchGrow E (2 ^ E.par.outCut) ^ 2))) < E.par.dcmpNm)
    (b2 : E.toFloat (Nat.sqrt
      (E.par.mat.rows * (E.par.enc.N * JEnv.combGrow E (JEnv.encSize E S) ^ 2) +
        (E.par.mlweRank + E.par.inRank) * (E.par.enc.N * JEnv.combGrow E S ^ 2) +
        E.par.inRank * (E.par.enc.N * JEnv.combGrow E (2 ^ E.par.inCut) ^ 2))) < E.par.resNm) :
    ∃ coms opens, E.CommitsAll vs rs coms opens ∧ ∀ (x : ZMod p) (y : List (ZMod p)), y.length = E.par.batch →
      y ≠ valuesAt vs x →
      {b : Fin E.par.batch → Fin 16 → BitVec 8 | ¬ ∀ (parts : List T) (pm : T), E.ShortParts A F parts →
        {c : ColBytes E | (E.answer (E.firstMsgs x coms) (bytesOf b)).Convinces x coms y parts pm (bytesOf c)}.ncard ≤
          (2 ^ 128 / challengeBound E.par.enc.ecd ^ E.par.enc.ecd.exp + 1) * (2 ^ 128) ^ (E.par.mat.cols - 1)}.ncard ≤
        (2 ^ 128 / challengeBound E.par.enc.ecd ^ E.par.enc.ecd.exp + 1) * (2 ^ 128) ^ (E.par.batch - 1) := by
  obtain ⟨coms, opens, hall, -⟩ := C123_honest E h A A' hC R R' F S hR ho hi hF vs hl hv rs hS b1 b2
  refine ⟨coms, opens, hall, fun x y hy hne => ?_⟩
  obtain ⟨j, hj, hd⟩ : ∃ j < E.par.batch, y.getD j 0 - (valuesAt vs x).getD j 0 ≠ 0 := by
    by_contra hcon
    push Not at hcon
    apply hne
    have hlen : (valuesAt vs x).length = E.par.batch := by simp [valuesAt, hl]
    apply List.ext_getElem (hy.trans hlen.symm)
    intro i h1 h2
    have := sub_eq_zero.1 (hcon i (by omega))
    rwa [List.getD_eq_getElem _ _ h1, List.getD_eq_getElem _ _ h2] at this
  refine le_trans (Set.ncard_le_ncard ?_ (Set.toFinite _))
    (comb_zero_count h.enc h.chal E.par.batch (fun i => y.getD i 0 - (valuesAt vs x).getD i 0) hj hd)
  intro b hb
  by_contra hz
  apply hb
  intro parts pm hsh
  obtain ⟨coms', opens', hall', hx⟩ := C123_honest (E.answer (E.firstMsgs x coms) (bytesOf b))
    (answer_good h _ (bytesOf_length b)) A A' hC R R' F S
    ⟨hR.res, hR.dcmp, hR.parts, hR.room⟩ ho hi hF vs hl hv rs hS b1 b2
  obtain ⟨rfl, rfl⟩ := commitsAll_unique E hall hall'
  refine (hx x).1 y parts pm hsh fun he => hz ?_
  have hbet : ∀ i, (E.answer (E.firstMsgs x coms) (bytesOf b)).betNum x coms i =
      (decoded p E.par.enc (chalInt E.par.enc (bytesOf b i))).getD 0 0 := by
    intro i
    unfold JEnv.betNum JEnv.betInt
    rw [if_pos (show (E.answer (E.firstMsgs x coms) (bytesOf b)).par.batch > 1 from hB)]
    have : (E.answer (E.firstMsgs x coms) (bytesOf b)).xof ((E.answer (E.firstMsgs x coms) (bytesOf b)).firstMsgs x coms) i =
        bytesOf b i := if_pos rfl
    rw [this]
    rfl
  show ∑ i ∈ range E.par.batch, (decoded p E.par.enc (chalInt E.par.enc (bytesOf b i))).getD 0 0 *
    (y.getD i 0 - (valuesAt vs x).getD i 0) = 0
  have e1 : ∑ i ∈ range E.par.batch, (E.answer (E.firstMsgs x coms) (bytesOf b)).betNum x coms i * y.getD i 0 =
    ∑ i ∈ range E.par.batch, (E.answer (E.firstMsgs x coms) (bytesOf b)).betNum x coms i * (valuesAt vs x).getD i 0 := he
  simp only [hbet] at e1
  simp only [mul_sub, sum_sub_distrib]
  exact sub_eq_zero.2 e1

end Ringo
