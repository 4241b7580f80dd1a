import Verif.Props.JBatchSound

/-!
# C123: batches and a random extendable-output function
-/

namespace Ringo

open Finset Polynomial

variable {p : Nat} {T T' : Type} [AddCommGroup T] [AddCommGroup T']

/-- `Verify` uses the function at two inputs only. -/
theorem verify_congr_batch [DecidableEq T] (E : JEnv p T T')
    {f g : List (JMsg T T' (ZMod p)) → Nat → List (BitVec 8)} {x : ZMod p} {com : List (List T')} {y : List (ZMod p)}
    {pf : JProof T T'} (hf : f (jindoFirst E x com) = E.xof (jindoFirst E x com))
    (hg : g (jindoFirst E x com) = E.xof (jindoFirst E x com))
    (hfg : ∀ i < E.par.mat.cols, f (E.move x com pf.parts pf.partMask) i = g (E.move x com pf.parts pf.partMask) i) :
    ({ E with xof := f } : JEnv p T T').verify x com y pf = ({ E with xof := g } : JEnv p T T').verify x com y pf := by
  obtain ⟨f1, f2⟩ := batchChals_congr E f x com hf
  obtain ⟨g1, g2⟩ := batchChals_congr E g x com hg
  have hc : ({ E with xof := f } : JEnv p T T').colChals x com pf.parts pf.partMask =
      ({ E with xof := g } : JEnv p T T').colChals x com pf.parts pf.partMask := by
    unfold JEnv.colChals
    rw [f2, g2]
    refine mapM_congr_mem _ (fun i hi => ?_)
    have := hfg i (List.mem_range.1 hi)
    unfold JEnv.move at this
    simp only
    rw [this]
  unfold JEnv.verify
  rw [f1, g1, hc]
  rfl

omit [AddCommGroup T] [AddCommGroup T'] in
theorem com_point_inj {x x' : ZMod p} : ∀ {c c' : List T'} {r r' : List (JMsg T T' (ZMod p))},
    c.map JMsg.com ++ JMsg.point x :: r = c'.map JMsg.com ++ JMsg.point x' :: r' → c = c' ∧ x = x' ∧ r = r' := by
  intro c
  induction c with
  | nil =>
    intro c' r r' h
    cases c' with
    | nil => cases h; exact ⟨rfl, rfl, rfl⟩
    | cons a c' => cases (List.cons.inj h).1
  | cons b c ih =>
    intro c' r r' h
    cases c' with
    | nil => cases (List.cons.inj h).1
    | cons a c' =>
      obtain ⟨h1, h2⟩ := List.cons.inj h
      cases h1
      obtain ⟨h3, h4⟩ := ih h2
      exact ⟨by rw [h3], h4⟩

/-- Commitments of the number and size that `Commit` makes. -/
def JEnv.ComShape (E : JEnv p T T') (com : List (List T')) : Prop :=
  com.length = E.par.batch ∧ ∀ c ∈ com, c.length = E.par.outRank

omit [AddCommGroup T] [AddCommGroup T'] in
/-- The input determines everything that is in it. -/
theorem move_inj_batch (E : JEnv p T T') {x x' : ZMod p} {com com' : List (List T')} {parts parts' : List T}
    {pm pm' : T} (hc : E.ComShape com) (hc' : E.ComShape com')
    (e : E.move x com parts pm = E.move x' com' parts' pm') : x = x' ∧ com = com' ∧ parts = parts' ∧ pm = pm' := by
  have hm : ∀ (x : ZMod p) (com : List (List T')) (parts : List T) (pm : T), E.move x com parts pm =
      .crs E.key.crs :: (com.flatten.map .com ++ .point x ::
        ((if E.par.batch > 1 then [.bytes (E.batchBytes x com).flatten] else []) ++ (parts.map .poly ++ [.poly pm]))) := by
    intro x com parts pm
    unfold JEnv.move JEnv.startMsgs JEnv.firstMsgs
    rw [List.map_flatten, List.flatMap_def]
    split <;> simp
  rw [hm, hm] at e
  obtain ⟨h1, rfl, h3⟩ := com_point_inj (List.cons.inj e).2
  have hcom : com = com' := by
    rw [List.eq_iff_flatten_eq]
    refine ⟨h1, ?_⟩
    have key : ∀ l : List (List T'), E.ComShape l → l.map List.length = List.replicate E.par.batch E.par.outRank := by
      rintro l ⟨h1, h2⟩
      rw [← h1]
      exact List.map_eq_replicate_iff.2 h2
    rw [key _ hc, key _ hc']
  subst hcom
  have h4 := List.append_cancel_left h3
  obtain ⟨h5, h6⟩ := List.append_inj' (s₁ := parts.map JMsg.poly) (s₂ := parts'.map JMsg.poly)
    (t₁ := [JMsg.poly pm]) (t₂ := [JMsg.poly pm']) h4 rfl
  cases h6
  exact ⟨rfl, rfl, List.map_injective_iff.2 (fun a b h => by cases h; rfl) h5, rfl⟩

/-- The partial evaluations determine the combination of the values that can be claimed. -/
theorem convinces_combined [DecidableEq T] (E : JEnv p T T') (h : E.Good) (A : E.ringQ.Lawful) (A' : E.ringQ'.Lawful)
    {x : ZMod p} {com : List (List T')} {y y' : List (ZMod p)} {parts : List T} {pm : T}
    {s s' : Nat → List (BitVec 8)} (hs : ∀ i, (s i).length = 16) (hs' : ∀ i, (s' i).length = 16)
    (h1 : E.Convinces x com y parts pm s) (h2 : E.Convinces x com y' parts pm s') :
    E.combined x com y = E.combined x com y' ∧ E.Convinces x com y parts pm s' := by
  have hkey : ∀ (y : List (ZMod p)) (s : Nat → List (BitVec 8)), (∀ i, (s i).length = 16) →
      ∀ pf : JProof T T', pf.parts = parts → (E.answer (E.move x com parts pm) s).verify x com y pf = .ok true →
      y.length = E.par.batch ∧ ∃ W : Nat → List Int, (∀ j < E.par.mat.cols, JEnv.Rep A (parts.getD j 0) (W j)) ∧
        (∀ j < E.par.mat.cols, ∀ c ∈ W j, RepRange E.ringQ.qs c) ∧
        ∑ j ∈ range E.par.mat.cols, ∑ t ∈ range E.par.mat.slots, x ^ (j * E.par.mat.slots + t) *
          (decoded p E.par.enc (W j)).getD t 0 = E.combined x com y := by
    intro y s hs pf e hv
    obtain ⟨W, hW, hr⟩ := JEnv.verify_sound (answer_good h _ hs) A A' hv
    refine ⟨hW.shape.yLen, W.f, fun j hj => by have := hW.parts j hj; rwa [e] at this, hr, ?_⟩
    refine Eq.trans hW.eval ?_
    unfold JEnv.combined JEnv.betNum
    refine sum_congr rfl fun i _ => ?_
    rw [answer_betInt]
    rfl
  obtain ⟨pf, e1, e2, hv⟩ := h1
  obtain ⟨pf', e1', e2', hv'⟩ := h2
  obtain ⟨hl, W, w1, w2, w3⟩ := hkey y s hs pf e1 hv
  obtain ⟨-, W', w1', w2', w3'⟩ := hkey y' s' hs' pf' e1' hv'
  have hc : E.combined x com y = E.combined x com y' := by
    rw [← w3, ← w3']
    refine sum_congr rfl fun j hj => ?_
    have hj := mem_range.1 hj
    rw [reps_unique A.chain A.pos (w1 j hj).1 (w1' j hj).1 ((w1 j hj).2.symm.trans (w1' j hj).2) (w2 j hj) (w2' j hj)]
  refine ⟨hc, pf', e1', e2', ?_⟩
  rw [C85_values _ (answer_good h _ hs') A A' x com y' pf' hv']
  refine ⟨hl, ?_⟩
  have := hc
  unfold JEnv.combined JEnv.betNum at this
  refine (Eq.trans (sum_congr rfl fun i _ => ?_) this).trans (sum_congr rfl fun i _ => ?_)
  · rw [answer_betInt]; rfl
  · rw [answer_betInt]; rfl

open Classical in
/-- From the number of bytes that help with one first message to the functions that help a program. -/
theorem jbatch_count [DecidableEq T] (E : JEnv p T T') (h : E.Good) (A : E.ringQ.Lawful)
    (A' : E.ringQ'.Lawful) (F β : Nat) (Wrong : List (List T') → ZMod p → List (ZMod p) → Prop)
    (hW : ∀ com x y parts pm, E.ShortParts A F parts → Wrong com x y →
      {b : ColBytes E | E.Convinces x com y parts pm (bytesOf b)}.ncard ≤ β)
    (S : Finset (List (JMsg T T' (ZMod p)))) (hS : ∀ x com, jindoFirst E x com ∉ S)
    (Q : Nat) (B : Asker S (ColBytes E) (JClaims p T T')) (hQ : B.AtMost Q) :
    Nat.card {o : S → ColBytes E //
        let c := B.run o
        jindoSecond E c.point c.coms c.proof ∈ S ∧ E.ComShape c.coms ∧
          (E.withXof S o).verify c.point c.coms c.values c.proof = .ok true ∧
          E.ShortParts A F c.proof.parts ∧ Wrong c.coms c.point c.values} * (2 ^ 128) ^ E.par.mat.cols ≤
      (Q + 1) * β * Nat.card (S → ColBytes E) := by
  have hsec : ∀ (x : ZMod p) (com : List (List T')) (pf : JProof T T'),
      jindoSecond E x com pf = E.move x com pf.parts pf.partMask := fun x com pf => (jindoSecond_eq E x com pf).symm
  let Bad : S → ColBytes E → Prop := fun ms b => ∃ x com y parts pm, ms.1 = E.move x com parts pm ∧ E.ComShape com ∧
    E.ShortParts A F parts ∧ Wrong com x y ∧ E.Convinces x com y parts pm (bytesOf b)
  have hbad : ∀ ms : S, {b | Bad ms b}.ncard ≤ β := by
    intro ms
    by_cases hne : ∃ b, Bad ms b
    · obtain ⟨b0, x, com, y, parts, pm, e, hc0, hsh, hy, hc⟩ := hne
      refine le_trans (Set.ncard_le_ncard ?_ (Set.toFinite _)) (hW com x y parts pm hsh hy)
      rintro b ⟨x', com', y', parts', pm', e', hc0', -, -, hc'⟩
      obtain ⟨rfl, rfl, rfl, rfl⟩ := move_inj_batch E hc0 hc0' (e.symm.trans e')
      exact (convinces_combined E h A A' (bytesOf_length _) (bytesOf_length _) hc hc').2
    · rw [Set.eq_empty_of_forall_notMem (s := {b | Bad ms b}) (fun b hb => hne ⟨b, hb⟩)]
      simp
  have hcard : Fintype.card (ColBytes E) = (2 ^ 128) ^ E.par.mat.cols := by
    have h1 : Fintype.card (BitVec 8) = 256 := by
      rw [Fintype.card_congr (BitVec.equivFin).toEquiv, Fintype.card_fin]
      norm_num
    rw [Fintype.card_fun, Fintype.card_fun, h1, Fintype.card_fin, Fintype.card_fin]
    norm_num
  let out : JClaims p T T' → Option S := fun c =>
    if hm : jindoSecond E c.point c.coms c.proof ∈ S then some ⟨_, hm⟩ else none
  have key := Asker.ncard_names Bad β hbad B Q hQ out
  rw [hcard] at key
  rw [Nat.card_eq_fintype_card (α := S → ColBytes E)]
  refine le_trans (Nat.mul_le_mul_right _ ?_) key
  refine le_trans (Nat.card_coe_set_eq {o : S → ColBytes E | _}).le ?_
  refine Set.ncard_le_ncard (fun o hh => ?_) (Set.toFinite _)
  obtain ⟨hm, hcs, hv, hsh, hy⟩ := hh
  refine ⟨⟨_, hm⟩, dif_pos hm, (B.run o).point, (B.run o).coms, (B.run o).values, (B.run o).proof.parts,
    (B.run o).proof.partMask, hsec _ _ _, hcs, hsh, hy, (B.run o).proof, rfl, rfl, ?_⟩
  rw [← hv]
  refine verify_congr_batch E ?_ ?_ (fun i hi => ?_)
  · funext i
    have : jindoFirst E (B.run o).point (B.run o).coms ≠
        E.move (B.run o).point (B.run o).coms (B.run o).proof.parts (B.run o).proof.partMask := by
      rw [← jindoFirst_eq]
      exact first_ne_move _ _ _ _
    exact if_neg this
  · funext i
    exact dif_neg (hS _ _)
  · have hm' := hm
    rw [hsec] at hm'
    have e : (⟨_, hm⟩ : S) = ⟨_, hm'⟩ := Subtype.ext (hsec _ _ _)
    rw [if_pos rfl, dif_pos hm', dif_pos hi, e]
    unfold bytesOf
    rw [dif_pos hi]

open Classical in
/-- **C123, random oracle.**  The commitments of a batch and the batching challenges have a polynomial of degree at most
the rank such that the following holds, whatever the values of the extendable-output function at the inputs of the
batching challenges.  A program makes at most `Q` calls of the function on other inputs, from a finite set `S`, and then
claims values of commitments at a point, all of its choice, with a proof.  The proof is accepted although its partial
evaluations are short and the combination of the values is not the value of the polynomial for at most a
`(Q + 1) * (1 / C + 2 ^ -128)` part of all functions on `S`. -/
theorem C123_randomOracle [DecidableEq T] [Fact p.Prime] (E : JEnv p T T') (h : E.Good) (A : E.ringQ.Lawful)
    (A' : E.ringQ'.Lawful) (R R' F : Nat) (hR : E.Room R R' F) (ho : E.BindsOut A' (2 * R'))
    (hi : E.BindsIn A (2 * (E.par.enc.ecd.exp * (challengeBound E.par.enc.ecd * (2 * R))))) :
    ∃ P : List (List T') → List (List Int) → (ZMod p)[X], (∀ com β, (P com β).natDegree ≤ E.par.mat.rank) ∧
      ∀ (S : Finset (List (JMsg T T' (ZMod p)))), (∀ x com, jindoFirst E x com ∉ S) →
      ∀ (Q : Nat) (B : Asker S (ColBytes E) (JClaims p T T')), B.AtMost Q →
        Nat.card {o : S → ColBytes E //
            let c := B.run o
            jindoSecond E c.point c.coms c.proof ∈ S ∧ E.ComShape c.coms ∧
              (E.withXof S o).verify c.point c.coms c.values c.proof = .ok true ∧
              E.ShortParts A F c.proof.parts ∧ E.combined c.point c.coms c.values ≠
                (P c.coms ((List.range E.par.batch).map (E.betInt c.point c.coms))).eval c.point} *
            (2 ^ 128) ^ E.par.mat.cols ≤
          (Q + 1) * ((2 ^ 128 / challengeBound E.par.enc.ecd ^ E.par.enc.ecd.exp + 1) *
            (2 ^ 128) ^ (E.par.mat.cols - 1)) * Nat.card (S → ColBytes E) := by
  choose P hP1 hP2 using fun com : List (List T') => C123 E h A A' R R' F hR ho hi com
  exact ⟨P, hP1, fun S hS Q B hQ => jbatch_count E h A A' F _
    (fun com x y => E.combined x com y ≠ (P com ((List.range E.par.batch).map (E.betInt x com))).eval x)
    (fun com x y parts pm hsh hy => hP2 com x y parts pm hsh hy) S hS Q B hQ⟩

open Classical in
/-- **C123, random oracle, honest commitments.**  For commitments made by `Commit`, whose randomness the program may
know, the combination is that of the values of the committed polynomials. -/
theorem C123_randomOracle_honest [DecidableEq T] [Fact p.Prime] (E : JEnv p T T') (h : E.Good) (A : E.ringQ.Lawful)
    (A' : E.ringQ'.Lawful) (hC : 2 ≤ challengeBound E.par.enc.ecd) (R R' F S : Nat)
    (hR : E.Room R R' F) (ho : E.BindsOut A' (2 * R'))
    (hi : E.BindsIn A (2 * (E.par.enc.ecd.exp * (challengeBound E.par.enc.ecd * (2 * R)))))
    (hF : E.par.mat.rows * (E.par.enc.N * (E.par.enc.ecd.base * JEnv.batchGrow E (JEnv.encSize E S))) ≤ F)
    (vs : List (List (ZMod p))) (hl : vs.length = E.par.batch)
    (hv : ∀ v ∈ vs, v ≠ [] ∧ v.length ≤ E.par.mat.rank) (rs : Nat → ComRand p)
    (hS : ∀ i j k t, (((rs i).col j).cell k t).natAbs ≤ S ∧ (((rs i).col j).mlwe k t).natAbs ≤ S)
    (b1 : E.toFloat (Nat.sqrt
      (E.par.dcmpLen * (E.par.enc.N * JEnv.batchGrow E (JEnv.truncMax E) ^ 2) +
        E.par.outRank * (E.par.enc.N * JEnv.batchGrow E (2 ^ E.par.outCut) ^ 2))) < E.par.dcmpNm)
    (b2 : E.toFloat (Nat.sqrt
      (E.par.mat.rows * (E.par.enc.N * JEnv.combGrow E (JEnv.encSize E S) ^ 2) +
        (E.par.mlweRank + E.par.inRank) * (E.par.enc.N * JEnv.combGrow E S ^ 2) +
        E.par.inRank * (E.par.enc.N * JEnv.combGrow E (2 ^ E.par.inCut) ^ 2))) < E.par.resNm) :
    ∃ coms opens, E.CommitsAll vs rs coms opens ∧
      ∀ (M : Finset (List (JMsg T T' (ZMod p)))), (∀ x com, jindoFirst E x com ∉ M) →
      ∀ (Q : Nat) (B : Asker M (ColBytes E) (JClaims p T T')), B.AtMost Q →
        Nat.card {o : M → ColBytes E //
            let c := B.run o
            jindoSecond E c.point coms c.proof ∈ M ∧ c.coms = coms ∧
              (E.withXof M o).verify c.point coms c.values c.proof = .ok true ∧
              E.ShortParts A F c.proof.parts ∧
              E.combined c.point coms c.values ≠ E.combined c.point coms (valuesAt vs c.point)} *
            (2 ^ 128) ^ E.par.mat.cols ≤
          (Q + 1) * ((2 ^ 128 / challengeBound E.par.enc.ecd ^ E.par.enc.ecd.exp + 1) *
            (2 ^ 128) ^ (E.par.mat.cols - 1)) * Nat.card (M → ColBytes E) := by
  obtain ⟨coms, opens, hall, hx⟩ := C123_honest E h A A' hC R R' F S hR ho hi hF vs hl hv rs hS b1 b2
  have hshape : E.ComShape coms := by
    obtain ⟨coms', opens', I, l1, l2, l3⟩ := commitAll E h A A' vs hv rs
    obtain ⟨rfl, rfl⟩ := commitsAll_unique E hall ⟨l1.trans hl, l2.trans hl, fun i hi => (l3 i (by omega)).1⟩
    refine ⟨hall.1, fun c hc => ?_⟩
    obtain ⟨i, hi, rfl⟩ := List.mem_iff_getElem.1 hc
    have := (l3 i (by omega)).2.1.comLen
    rwa [List.getD_eq_getElem _ _ hi] at this
  refine ⟨coms, opens, hall, fun M hM Q B hQ => le_trans (Nat.mul_le_mul_right _ ?_)
    (jbatch_count E h A A' F _ (fun com x y => com = coms ∧ E.combined x coms y ≠ E.combined x coms (valuesAt vs x))
      ?_ M hM Q B hQ)⟩
  · refine Nat.card_le_card_of_injective (fun o => ⟨o.1, ?_⟩) fun a b hab => Subtype.ext (Subtype.mk.inj hab)
    obtain ⟨o, h1, h2, h3, h4, h5⟩ := o
    dsimp only
    rw [h2]
    exact ⟨h1, hshape, h3, h4, rfl, h5⟩
  · rintro com x y parts pm hsh ⟨rfl, hy⟩
    exact (hx x).1 y parts pm hsh hy

end Ringo
