import Verif.Spec.JRom
import Verif.Proof.Asker
import Verif.Props.JExtractEx
import Verif.Props.Binding

/-!
# C122: soundness of Jindo's non-interactive openings, for a random extendable-output function
-/

namespace Ringo

open Finset Polynomial

section
variable {p : Nat} {T T' : Type} [AddCommGroup T] [AddCommGroup T']

theorem mapM_congr_mem {α β : Type} {f g : α → Go β} (l : List α) (h : ∀ a ∈ l, f a = g a) : l.mapM f = l.mapM g := by
  induction l with
  | nil => rfl
  | cons a l ih =>
    rw [List.mapM_cons, List.mapM_cons, h a List.mem_cons_self, ih (fun b hb => h b (List.mem_cons_of_mem _ hb))]

/-- With a batch of one, `Verify` uses the function at one input only. -/
theorem verify_congr_one [DecidableEq T] (E : JEnv p T T') (hB : E.par.batch = 1)
    {f g : List (JMsg T T' (ZMod p)) → Nat → List (BitVec 8)} {x : ZMod p} {com : List (List T')} {y : List (ZMod p)}
    {pf : JProof T T'} (hfg : ∀ i < E.par.mat.cols, f (E.move x com pf.parts pf.partMask) i =
      g (E.move x com pf.parts pf.partMask) i) :
    ({ E with xof := f } : JEnv p T T').verify x com y pf = ({ E with xof := g } : JEnv p T T').verify x com y pf := by
  have hn : ¬ E.par.batch > 1 := by omega
  have hs : ∀ k : List (JMsg T T' (ZMod p)) → Nat → List (BitVec 8),
      ({ E with xof := k } : JEnv p T T').startMsgs x com = E.startMsgs x com := by
    intro k
    unfold JEnv.startMsgs
    rw [if_neg hn, if_neg hn]
    rfl
  have hb : ({ E with xof := f } : JEnv p T T').batchChals x com =
      ({ E with xof := g } : JEnv p T T').batchChals x com := by
    unfold JEnv.batchChals
    rw [if_neg hn, if_neg hn]
  have hc : ({ E with xof := f } : JEnv p T T').colChals x com pf.parts pf.partMask =
      ({ E with xof := g } : JEnv p T T').colChals x com pf.parts pf.partMask := by
    unfold JEnv.colChals
    rw [hs, hs]
    refine mapM_congr_mem _ (fun i hi => ?_)
    have := hfg i (List.mem_range.1 hi)
    unfold JEnv.move at this
    simp only
    rw [this, hs g]
  unfold JEnv.verify
  rw [hb, hc]
  rfl

omit [AddCommGroup T] [AddCommGroup T'] in
/-- The input determines everything that is in it. -/
theorem move_inj (E : JEnv p T T') (hB : E.par.batch = 1) {x x' : ZMod p} {com com' : List T'} {parts parts' : List T}
    {pm pm' : T} (e : E.move x [com] parts pm = E.move x' [com'] parts' pm') :
    x = x' ∧ com = com' ∧ parts = parts' ∧ pm = pm' := by
  have hn : ¬ E.par.batch > 1 := by omega
  unfold JEnv.move JEnv.startMsgs at e
  rw [if_neg hn, if_neg hn] at e
  unfold JEnv.firstMsgs at e
  simp only [List.flatMap_cons, List.flatMap_nil, List.append_nil, List.cons_append, List.append_assoc,
    List.cons.injEq, true_and] at e
  have key : ∀ (c c' : List T'), c.map JMsg.com ++ ([JMsg.point x] ++ (parts.map JMsg.poly ++ [JMsg.poly pm])) =
      c'.map JMsg.com ++ ([JMsg.point x'] ++ (parts'.map JMsg.poly ++ [JMsg.poly pm'])) →
      c = c' ∧ ([JMsg.point x] ++ (parts.map JMsg.poly ++ [JMsg.poly pm]) : List (JMsg T T' (ZMod p))) =
        [JMsg.point x'] ++ (parts'.map JMsg.poly ++ [JMsg.poly pm']) := by
    intro c
    induction c with
    | nil =>
      intro c' h
      cases c' with
      | nil => exact ⟨rfl, h⟩
      | cons a c' => cases (List.cons.inj h).1
    | cons b c ih =>
      intro c' h
      cases c' with
      | nil => cases (List.cons.inj h).1
      | cons a c' =>
        obtain ⟨h1, h2⟩ := List.cons.inj h
        cases h1
        obtain ⟨h3, h4⟩ := ih c' h2
        exact ⟨by rw [h3], h4⟩
  obtain ⟨h1, h2⟩ := key _ _ e
  obtain ⟨h3, h4⟩ := List.cons.inj h2
  cases h3
  obtain ⟨h5, h6⟩ := List.append_inj' (s₁ := parts.map JMsg.poly) (s₂ := parts'.map JMsg.poly)
    (t₁ := [JMsg.poly pm]) (t₂ := [JMsg.poly pm']) h4 rfl
  cases h6
  exact ⟨rfl, h1, List.map_injective_iff.2 (fun a b h => by cases h; rfl) h5, rfl⟩

/-- The partial evaluations determine the value that can be claimed. -/
theorem convinces_value [DecidableEq T] (E : JEnv p T T') (h : E.Good) (A : E.ringQ.Lawful) (A' : E.ringQ'.Lawful)
    (hB : E.par.batch = 1) {x : ZMod p} {com : List (List T')} {y y' : ZMod p} {parts : List T} {pm : T}
    {s s' : Nat → List (BitVec 8)} (hs : ∀ i, (s i).length = 16) (hs' : ∀ i, (s' i).length = 16)
    (h1 : E.Convinces x com [y] parts pm s) (h2 : E.Convinces x com [y'] parts pm s') : y = y' := by
  obtain ⟨pf, e1, e2, hv⟩ := h1
  obtain ⟨pf', e1', e2', hv'⟩ := h2
  obtain ⟨W, hW, hr⟩ := JEnv.verify_sound (answer_good h _ hs) A A' hv
  obtain ⟨W', hW', hr'⟩ := JEnv.verify_sound (answer_good h _ hs') A A' hv'
  have hd : ∀ s, (decoded p E.par.enc ((E.answer (E.move x com parts pm) s).betInt x com 0)).getD 0 0 = 1 := by
    intro s
    rw [answer_betInt]
    unfold JEnv.betInt
    rw [if_neg (by omega)]
    exact JEnv.decoded_one h
  have ev : ∑ j ∈ range E.par.mat.cols, ∑ t ∈ range E.par.mat.slots, x ^ (j * E.par.mat.slots + t) *
      (decoded p E.par.enc (W.f j)).getD t 0 = ∑ i ∈ range E.par.batch,
        (decoded p E.par.enc ((E.answer (E.move x com parts pm) s).betInt x com i)).getD 0 0 * [y].getD i 0 := hW.eval
  have ev' : ∑ j ∈ range E.par.mat.cols, ∑ t ∈ range E.par.mat.slots, x ^ (j * E.par.mat.slots + t) *
      (decoded p E.par.enc (W'.f j)).getD t 0 = ∑ i ∈ range E.par.batch,
        (decoded p E.par.enc ((E.answer (E.move x com parts pm) s').betInt x com i)).getD 0 0 * [y'].getD i 0 := hW'.eval
  rw [hB, sum_range_one, hd, one_mul] at ev ev'
  have hf : ∀ j < E.par.mat.cols, W.f j = W'.f j := by
    intro j hj
    have p1 := hW.parts j hj
    have p2 := hW'.parts j hj
    rw [e1] at p1
    rw [e1'] at p2
    exact reps_unique A.chain A.pos p1.1 p2.1 (p1.2.symm.trans p2.2) (hr j hj) (hr' j hj)
  have : ∑ j ∈ range E.par.mat.cols, ∑ t ∈ range E.par.mat.slots, x ^ (j * E.par.mat.slots + t) *
      (decoded p E.par.enc (W.f j)).getD t 0 = ∑ j ∈ range E.par.mat.cols, ∑ t ∈ range E.par.mat.slots,
        x ^ (j * E.par.mat.slots + t) * (decoded p E.par.enc (W'.f j)).getD t 0 :=
    sum_congr rfl (fun j hj => by rw [hf j (mem_range.1 hj)])
  exact ev.symm.trans (this.trans ev')

open Classical in
/-- From the number of bytes that help with one first message to the functions that help a program. -/
theorem jrom_count [DecidableEq T] (E : JEnv p T T') (h : E.Good) (A : E.ringQ.Lawful)
    (A' : E.ringQ'.Lawful) (hB : E.par.batch = 1) (F β : Nat) (Wrong : List T' → ZMod p → ZMod p → Prop)
    (hW : ∀ com x y parts pm, E.ShortParts A F parts → Wrong com x y →
      {b : ColBytes E | E.Convinces x [com] [y] parts pm (bytesOf b)}.ncard ≤ β)
    (S : Finset (List (JMsg T T' (ZMod p)))) (Q : Nat) (B : Asker S (ColBytes E) (JClaim p T T')) (hQ : B.AtMost Q) :
    Nat.card {o : S → ColBytes E //
        let c := B.run o
        jindoSecond E c.point [c.com] c.proof ∈ S ∧
          (E.withXof S o).verify c.point [c.com] [c.value] c.proof = .ok true ∧
          E.ShortParts A F c.proof.parts ∧ Wrong c.com c.point c.value} * (2 ^ 128) ^ E.par.mat.cols ≤
      (Q + 1) * β * Nat.card (S → ColBytes E) := by
  have hsec : ∀ (x : ZMod p) (com : List (List T')) (pf : JProof T T'),
      jindoSecond E x com pf = E.move x com pf.parts pf.partMask := fun x com pf => (jindoSecond_eq E x com pf).symm
  let Bad : S → ColBytes E → Prop := fun ms b => ∃ x com y parts pm, ms.1 = E.move x [com] parts pm ∧
    E.ShortParts A F parts ∧ Wrong com x y ∧ E.Convinces x [com] [y] parts pm (bytesOf b)
  have hbad : ∀ ms : S, {b | Bad ms b}.ncard ≤ β := by
    intro ms
    by_cases hne : ∃ b, Bad ms b
    · obtain ⟨b0, x, com, y, parts, pm, e, hsh, hy, hc⟩ := hne
      refine le_trans (Set.ncard_le_ncard ?_ (Set.toFinite _)) (hW com x y parts pm hsh hy)
      rintro b ⟨x', com', y', parts', pm', e', -, -, hc'⟩
      obtain ⟨rfl, rfl, rfl, rfl⟩ := move_inj E hB (e.symm.trans e')
      obtain rfl := convinces_value E h A A' hB (bytesOf_length _) (bytesOf_length _) hc hc'
      exact hc'
    · rw [Set.eq_empty_of_forall_notMem (s := {b | Bad ms b}) (fun b hb => hne ⟨b, hb⟩)]
      simp
  have hcard : Fintype.card (ColBytes E) = (2 ^ 128) ^ E.par.mat.cols := by
    have h1 : Fintype.card (BitVec 8) = 256 := by
      rw [Fintype.card_congr (BitVec.equivFin).toEquiv, Fintype.card_fin]
      norm_num
    rw [Fintype.card_fun, Fintype.card_fun, h1, Fintype.card_fin, Fintype.card_fin]
    norm_num
  let out : JClaim p T T' → Option S := fun c =>
    if hm : jindoSecond E c.point [c.com] c.proof ∈ S then some ⟨_, hm⟩ else none
  have key := Asker.ncard_names Bad β hbad B Q hQ out
  rw [hcard] at key
  rw [Nat.card_eq_fintype_card (α := S → ColBytes E)]
  refine le_trans (Nat.mul_le_mul_right _ ?_) key
  refine le_trans (Nat.card_coe_set_eq {o : S → ColBytes E | _}).le ?_
  refine Set.ncard_le_ncard (fun o hh => ?_) (Set.toFinite _)
  obtain ⟨hm, hv, hsh, hy⟩ := hh
  refine ⟨⟨_, hm⟩, dif_pos hm, (B.run o).point, (B.run o).com, (B.run o).value, (B.run o).proof.parts,
    (B.run o).proof.partMask, hsec _ _ _, hsh, hy, (B.run o).proof, rfl, rfl, ?_⟩
  rw [← hv]
  refine verify_congr_one E hB (fun i hi => ?_)
  have hm' := hm
  rw [hsec] at hm'
  have e : (⟨_, hm⟩ : S) = ⟨_, hm'⟩ := Subtype.ext (hsec _ _ _)
  rw [if_pos rfl, dif_pos hm', dif_pos hi, e]
  unfold bytesOf
  rw [dif_pos hi]

open Classical in
/-- **C122.** Soundness of Jindo's non-interactive openings of one commitment, in the random oracle model and under
the hypotheses of C99.  Each commitment has a polynomial of degree at most the rank such that the following holds.  A
program makes at most `Q` calls of the extendable-output function, on inputs of a finite set `S`, and then claims a
value of a commitment at a point, all three of its choice, with a proof.  The proof is accepted although its partial
evaluations are short and the value is wrong for at most a `(Q + 1) * (1 / C + 2 ^ -128)` part of all functions, where
`C` is the number of challenges of a column. -/
theorem C122_randomOracle [DecidableEq T] [Fact p.Prime] (E : JEnv p T T') (h : E.Good) (A : E.ringQ.Lawful)
    (A' : E.ringQ'.Lawful) (hB : E.par.batch = 1) (R R' F : Nat) (hR : E.Room R R' F) (ho : E.BindsOut A' (2 * R'))
    (hi : E.BindsIn A (2 * (E.par.enc.ecd.exp * (challengeBound E.par.enc.ecd * (2 * R))))) :
    ∃ P : List T' → (ZMod p)[X], (∀ com, (P com).natDegree ≤ E.par.mat.rank) ∧
      ∀ (S : Finset (List (JMsg T T' (ZMod p)))) (Q : Nat) (B : Asker S (ColBytes E) (JClaim p T T')), B.AtMost Q →
        Nat.card {o : S → ColBytes E //
            let c := B.run o
            jindoSecond E c.point [c.com] c.proof ∈ S ∧
              (E.withXof S o).verify c.point [c.com] [c.value] c.proof = .ok true ∧
              E.ShortParts A F c.proof.parts ∧ c.value ≠ (P c.com).eval c.point} * (2 ^ 128) ^ E.par.mat.cols ≤
          (Q + 1) * ((2 ^ 128 / challengeBound E.par.enc.ecd ^ E.par.enc.ecd.exp + 1) *
            (2 ^ 128) ^ (E.par.mat.cols - 1)) * Nat.card (S → ColBytes E) := by
  choose P hP1 hP2 using fun com : List T' => C99_error E h A A' hB R R' F hR ho hi [com]
  exact ⟨P, hP1, fun S Q B hQ => jrom_count E h A A' hB F _ (fun com x y => y ≠ (P com).eval x)
    (fun com x y parts pm hsh hy => hP2 com x [y] parts pm hsh hy) S Q B hQ⟩

open Classical in
/-- **C122, honest commitments.**  For a commitment made by `Commit` the polynomial is the committed one: a program that
knows everything about the commitment cannot open it to another value any better. -/
theorem C122_honest [DecidableEq T] [Fact p.Prime] (E : JEnv p T T') (h : E.Good) (A : E.ringQ.Lawful)
    (A' : E.ringQ'.Lawful) (hB : E.par.batch = 1) (hC : 2 ≤ challengeBound E.par.enc.ecd) (R R' F S : Nat)
    (hR : E.Room R R' F) (ho : E.BindsOut A' (2 * R'))
    (hi : E.BindsIn A (2 * (E.par.enc.ecd.exp * (challengeBound E.par.enc.ecd * (2 * R)))))
    (hF : E.par.mat.rows * (E.par.enc.N * (E.par.enc.ecd.base * JEnv.batchGrow E (JEnv.encSize E S))) ≤ F)
    (v : List (ZMod p)) (hv : v ≠ []) (hv2 : v.length ≤ E.par.mat.rank) (r : ComRand p)
    (hS : ∀ j k t, ((r.col j).cell k t).natAbs ≤ S ∧ ((r.col j).mlwe k t).natAbs ≤ S)
    (b1 : E.toFloat (Nat.sqrt
      (E.par.dcmpLen * (E.par.enc.N * JEnv.batchGrow E (JEnv.truncMax E) ^ 2) +
        E.par.outRank * (E.par.enc.N * JEnv.batchGrow E (2 ^ E.par.outCut) ^ 2))) < E.par.dcmpNm)
    (b2 : E.toFloat (Nat.sqrt
      (E.par.mat.rows * (E.par.enc.N * JEnv.combGrow E (JEnv.encSize E S) ^ 2) +
        (E.par.mlweRank + E.par.inRank) * (E.par.enc.N * JEnv.combGrow E S ^ 2) +
        E.par.inRank * (E.par.enc.N * JEnv.combGrow E (2 ^ E.par.inCut) ^ 2))) < E.par.resNm) :
    ∃ com o, E.commit v r = .ok (com, o) ∧
      ∀ (M : Finset (List (JMsg T T' (ZMod p)))) (Q : Nat) (B : Asker M (ColBytes E) (JClaim p T T')), B.AtMost Q →
        Nat.card {o : M → ColBytes E //
            let c := B.run o
            jindoSecond E c.point [c.com] c.proof ∈ M ∧
              (E.withXof M o).verify c.point [c.com] [c.value] c.proof = .ok true ∧
              E.ShortParts A F c.proof.parts ∧
              c.com = com ∧ c.value ≠ ∑ i ∈ range v.length, v.getD i 0 * c.point ^ i} * (2 ^ 128) ^ E.par.mat.cols ≤
          (Q + 1) * ((2 ^ 128 / challengeBound E.par.enc.ecd ^ E.par.enc.ecd.exp + 1) *
            (2 ^ 128) ^ (E.par.mat.cols - 1)) * Nat.card (M → ColBytes E) := by
  obtain ⟨com, o, h1, h2⟩ := C99_honest E h A A' hB hC R R' F S hR ho hi hF v hv hv2 r hS b1 b2
  refine ⟨com, o, h1, fun M Q B hQ => jrom_count E h A A' hB F _
    (fun com' x y => com' = com ∧ y ≠ ∑ i ∈ range v.length, v.getD i 0 * x ^ i) ?_ M Q B hQ⟩
  rintro com' x y parts pm hsh ⟨rfl, hy⟩
  exact (h2 x).1 y parts pm hsh hy

end

end Ringo
