import Verif.Model.Piop
import Verif.Spec.Piop
import Verif.Proof.PolyOps
import Verif.Proof.BEncoder
import Verif.Props.Poly2

/-!
# The circuit polynomial computed by the prover
-/

namespace Ringo

open Finset Polynomial

section ops
variable {F : Type} [Field F] {K : Nat} {M : F[X]} {pt : Nat → F} {ev : Evaluator F}

theorem mulTo_sf (h : GoodEv K M pt ev) {pOut a b : Poly F} {f g : F[X]}
    (ho : pOut.coeffs.length = 2 ^ K)
    (ha : StandsFor (2 ^ K) M pt a f) (hb : StandsFor (2 ^ K) M pt b g)
    (na : a.isNTT = true) (nb : b.isNTT = true) :
    ∃ q, ev.mulTo pOut a b = .ok q ∧ q.isNTT = true ∧ StandsFor (2 ^ K) M pt q (f * g) := by
  have hc := checkBinary_ok (rank := ev.rank) (pOut := pOut) (p := a) (q := b) (by rw [h.rank, ho])
    (by rw [h.rank, ha.1]) (by rw [h.rank, hb.1]) (by rw [na, nb])
  have hm : ev.mulTo pOut a b = .ok ⟨List.zipWith (· * ·) a.coeffs b.coeffs, true⟩ := by
    unfold Evaluator.mulTo; rw [hc]; simp [na, nb]
  exact ⟨_, hm, rfl, sf_mul h ha hb hm⟩

theorem addTo_sf (h : GoodEv K M pt ev) {pOut a b : Poly F} {f g : F[X]}
    (ho : pOut.coeffs.length = 2 ^ K)
    (ha : StandsFor (2 ^ K) M pt a f) (hb : StandsFor (2 ^ K) M pt b g)
    (nab : a.isNTT = b.isNTT) :
    ∃ q, ev.addTo pOut a b = .ok q ∧ q.isNTT = a.isNTT ∧ StandsFor (2 ^ K) M pt q (f + g) := by
  have hc := checkBinary_ok (rank := ev.rank) (pOut := pOut) (p := a) (q := b) (by rw [h.rank, ho])
    (by rw [h.rank, ha.1]) (by rw [h.rank, hb.1]) nab
  have hm : ev.addTo pOut a b = .ok ⟨List.zipWith (· + ·) a.coeffs b.coeffs, a.isNTT⟩ := by
    unfold Evaluator.addTo; rw [hc]; simp
  exact ⟨_, hm, rfl, sf_add h ha hb hm⟩

theorem scalarMulTo_sf (h : GoodEv K M pt ev) {pOut a : Poly F} {f : F[X]} (c : F)
    (ho : pOut.coeffs.length = 2 ^ K) (ha : StandsFor (2 ^ K) M pt a f) :
    ∃ q, ev.scalarMulTo pOut a c = .ok q ∧ q.isNTT = a.isNTT ∧
      StandsFor (2 ^ K) M pt q (C c * f) := by
  have hc := checkUnary_ok (rank := ev.rank) (pOut := pOut) (p := a) (by rw [h.rank, ho])
    (by rw [h.rank, ha.1])
  have hm : ev.scalarMulTo pOut a c = .ok ⟨a.coeffs.map (· * c), a.isNTT⟩ := by
    unfold Evaluator.scalarMulTo; rw [hc]; simp
  exact ⟨_, hm, rfl, sf_smul h ha hm⟩

theorem mulSubTo_sf (h : GoodEv K M pt ev) {pOut a b : Poly F} {e f g : F[X]}
    (ho : StandsFor (2 ^ K) M pt pOut e)
    (ha : StandsFor (2 ^ K) M pt a f) (hb : StandsFor (2 ^ K) M pt b g)
    (no : pOut.isNTT = true) (na : a.isNTT = true) (nb : b.isNTT = true) :
    ∃ q, ev.mulSubTo pOut a b = .ok q ∧ q.isNTT = true ∧ StandsFor (2 ^ K) M pt q (e - f * g) := by
  have hc := checkBinary_ok (rank := ev.rank) (pOut := pOut) (p := a) (q := b)
    (by rw [h.rank, ho.1]) (by rw [h.rank, ha.1]) (by rw [h.rank, hb.1]) (by rw [na, nb])
  have hm : ∃ q, ev.mulSubTo pOut a b = .ok q ∧ q.isNTT = true := by
    unfold Evaluator.mulSubTo; rw [hc]; simp [na, nb]
  obtain ⟨q, hq, hn⟩ := hm
  exact ⟨q, hq, hn, sf_mulSub h ho ha hb no hq⟩

theorem nttTo_sf (h : GoodEv K M pt ev) {pOut a : Poly F} {f : F[X]}
    (ho : pOut.coeffs.length = 2 ^ K) (ha : StandsFor (2 ^ K) M pt a f) (na : a.isNTT = false) :
    ∃ q, ev.nttTo pOut a = .ok q ∧ q.isNTT = true ∧ StandsFor (2 ^ K) M pt q f := by
  obtain ⟨w, hw, -⟩ := h.nttTo_ok pOut a ho ha.1 na
  exact ⟨_, hw, rfl, (sf_ntt h ha hw).1⟩

theorem invNTTTo_sf (h : GoodEv K M pt ev) {pOut a : Poly F} {f : F[X]}
    (ho : pOut.coeffs.length = 2 ^ K) (ha : StandsFor (2 ^ K) M pt a f) (na : a.isNTT = true) :
    ∃ q, ev.invNTTTo pOut a = .ok q ∧ q.isNTT = false ∧ StandsFor (2 ^ K) M pt q f := by
  obtain ⟨w, hw, -⟩ := h.invNTTTo_ok pOut a ho ha.1 na
  exact ⟨_, hw, rfl, (sf_intt h ha hw).1⟩

theorem sf_zero_ntt (N : Nat) (M : F[X]) (pt : Nat → F) :
    StandsFor N M pt (newPoly N true) 0 := by
  refine ⟨by simp [newPoly], ?_⟩
  simp only [newPoly, if_true, eval_zero]
  intro i hi; simp [hi]

theorem sf_const_ntt (N : Nat) (M : F[X]) (pt : Nat → F) (c : F) :
    StandsFor N M pt ⟨List.replicate N c, true⟩ (C c) := by
  refine ⟨by simp, ?_⟩
  simp only [if_true, eval_C]
  intro i hi; simp [hi]

theorem sf_coeffs {N : Nat} (M : F[X]) (pt : Nat → F) (v : List F) (hv : v.length = N) :
    StandsFor N M pt ⟨v, false⟩ (listPoly v) := by
  refine ⟨hv, ?_⟩
  simp

/-- In coefficient form a polynomial of small degree is stored exactly. -/
theorem sf_exact (h : GoodEv K M pt ev) {q : Poly F} {f : F[X]} (hq : StandsFor (2 ^ K) M pt q f)
    (hn : q.isNTT = false) (hf : f.degree < (2 ^ K : Nat)) : listPoly q.coeffs = f := by
  have h2 := hq.2
  rw [hn] at h2
  simp only [Bool.false_eq_true, if_false] at h2
  have hd : (f - listPoly q.coeffs).degree < M.degree := by
    rw [h.pts.deg]
    refine lt_of_le_of_lt (degree_sub_le _ _) (max_lt hf ?_)
    have := listPoly_degree q.coeffs
    rwa [hq.1] at this
  have := (h.pts.monic.not_dvd_of_degree_lt · hd)
  by_contra hne
  exact this (fun h0 => hne (sub_eq_zero.mp h0).symm) h2

end ops

section circuit
variable {p : Nat} [Fact p.Prime] {K : Nat} {M : (ZMod p)[X]} {pt : Nat → ZMod p}
  {ev : Evaluator (ZMod p)}

/-- The tables of transformed witnesses stand for the polynomials `pubP` and `witP`. -/
structure NttTables (K : Nat) (M : (ZMod p)[X]) (pt : Nat → ZMod p) (pwCnt wCnt : Nat)
    (pwNTT : List (Poly (ZMod p))) (wNTT : List (Option (Poly (ZMod p))))
    (pubP witP : Nat → (ZMod p)[X]) : Prop where
  pub : ∀ i < pwCnt, ∃ q, idx pwNTT i = .ok q ∧ q.isNTT = true ∧ StandsFor (2 ^ K) M pt q (pubP i)
  wit : ∀ i < wCnt, ∃ q, slot wNTT i = .ok q ∧ q.isNTT = true ∧ StandsFor (2 ^ K) M pt q (witP i)

variable {pwCnt wCnt : Nat} {pwNTT : List (Poly (ZMod p))} {wNTT : List (Option (Poly (ZMod p)))}
  {pubP witP : Nat → (ZMod p)[X]}

theorem termPoly_spec (h : GoodEv K M pt ev)
    (ht : NttTables K M pt pwCnt wCnt pwNTT wNTT pubP witP) (t : Term (ZMod p))
    (hr : (∀ i, t.pub = some i → i < pwCnt) ∧ ∀ j ∈ t.wits, j < wCnt) :
    ∃ q, termPoly ev pwNTT wNTT t = .ok q ∧ q.isNTT = true ∧
      StandsFor (2 ^ K) M pt q (Term.value ⟨C t.coeff, t.pub, t.wits⟩ pubP witP) := by
  have hw : ∀ (ws : List Nat), (∀ j ∈ ws, j < wCnt) → ∀ (a : Poly (ZMod p)) (f : (ZMod p)[X]),
      a.isNTT = true → StandsFor (2 ^ K) M pt a f →
      ∃ q, ws.foldlM (fun term j => do
          let q ← slot wNTT j
          ev.mulTo term term q) a = .ok q ∧ q.isNTT = true ∧
        StandsFor (2 ^ K) M pt q (f * (ws.map witP).prod) := by
    intro ws
    induction ws with
    | nil => intro _ a f ha hf; exact ⟨a, rfl, ha, by simpa using hf⟩
    | cons j ws ih =>
      intro hj a f ha hf
      obtain ⟨q, q1, q2, q3⟩ := ht.wit j (hj j (by simp))
      obtain ⟨r, r1, r2, r3⟩ := mulTo_sf h hf.1 hf q3 ha q2
      obtain ⟨s, s1, s2, s3⟩ := ih (fun k hk => hj k (by simp [hk])) r _ r2 r3
      refine ⟨s, ?_, s2, ?_⟩
      · rw [List.foldlM_cons, q1, go_bind_ok, r1, go_bind_ok, s1]
      · rw [List.map_cons, List.prod_cons, ← mul_assoc]; exact s3
  have h0 := sf_const_ntt (2 ^ K) M pt t.coeff
  unfold termPoly Term.value
  cases hp : t.pub with
  | none =>
    obtain ⟨q, q1, q2, q3⟩ := hw t.wits hr.2 _ _ rfl h0
    refine ⟨q, ?_, q2, by simpa using q3⟩
    simpa [h.rank] using q1
  | some i =>
    obtain ⟨a, a1, a2, a3⟩ := ht.pub i (hr.1 i hp)
    obtain ⟨b, b1, b2, b3⟩ := mulTo_sf h h0.1 h0 a3 rfl a2
    obtain ⟨q, q1, q2, q3⟩ := hw t.wits hr.2 _ _ b2 b3
    refine ⟨q, ?_, q2, by simpa using q3⟩
    simp only [h.rank, a1, b1, go_bind_ok]
    exact q1

theorem constraintPoly_spec (h : GoodEv K M pt ev)
    (ht : NttTables K M pt pwCnt wCnt pwNTT wNTT pubP witP) (c : Constraint (ZMod p))
    (hr : c.Refs pwCnt wCnt) :
    ∃ q, constraintPoly ev pwNTT wNTT c = .ok q ∧ q.isNTT = true ∧
      StandsFor (2 ^ K) M pt q (c.poly pubP witP) := by
  have main : ∀ (c : Constraint (ZMod p)), c.Refs pwCnt wCnt →
      ∀ (a : Poly (ZMod p)) (f : (ZMod p)[X]), a.isNTT = true → StandsFor (2 ^ K) M pt a f →
      ∃ q, c.foldlM (fun eval t => do
          let term ← termPoly ev pwNTT wNTT t
          ev.addTo eval eval term) a = .ok q ∧ q.isNTT = true ∧
        StandsFor (2 ^ K) M pt q (f + c.poly pubP witP) := by
    intro c
    induction c with
    | nil => intro _ a f ha hf; exact ⟨a, rfl, ha, by simpa [Constraint.poly, Constraint.value] using hf⟩
    | cons t c ih =>
      intro hc a f ha hf
      obtain ⟨q, q1, q2, q3⟩ := termPoly_spec h ht t (hc t (by simp))
      obtain ⟨r, r1, r2, r3⟩ := addTo_sf h hf.1 hf q3 (by rw [ha, q2])
      obtain ⟨s, s1, s2, s3⟩ := ih (fun k hk => hc k (by simp [hk])) r _ (by rw [r2, ha]) r3
      refine ⟨s, ?_, s2, ?_⟩
      · rw [List.foldlM_cons, q1, go_bind_ok, r1, go_bind_ok, s1]
      · simp only [Constraint.poly, Constraint.value, List.map_cons, List.sum_cons] at s3 ⊢
        rw [← add_assoc]; exact s3
  obtain ⟨q, q1, q2, q3⟩ := main c hr _ _ rfl (sf_zero_ntt (2 ^ K) M pt)
  refine ⟨q, ?_, q2, by simpa using q3⟩
  unfold constraintPoly; rw [h.rank]; exact q1

/-- The circuit polynomial: every constraint is multiplied by the same batching constant. -/
noncomputable def circuitPoly (b : ZMod p) (cs : List (Constraint (ZMod p)))
    (pubP witP : Nat → (ZMod p)[X]) : (ZMod p)[X] :=
  C b * (cs.map (fun c => c.poly pubP witP)).sum

theorem evalCircuit_spec (h : GoodEv K M pt ev)
    (ht : NttTables K M pt pwCnt wCnt pwNTT wNTT pubP witP) (b : ZMod p)
    (cs : List (Constraint (ZMod p))) (hr : ∀ c ∈ cs, c.Refs pwCnt wCnt) :
    ∃ q, evalCircuit ev b cs pwNTT wNTT = .ok q ∧ q.isNTT = true ∧
      StandsFor (2 ^ K) M pt q (circuitPoly b cs pubP witP) := by
  have main : ∀ (cs : List (Constraint (ZMod p))), (∀ c ∈ cs, c.Refs pwCnt wCnt) →
      ∀ (a : Poly (ZMod p)) (f : (ZMod p)[X]), a.isNTT = true → StandsFor (2 ^ K) M pt a f →
      ∃ q, cs.foldlM (fun pOut c => do
          let eval ← constraintPoly ev pwNTT wNTT c
          let eval ← ev.scalarMulTo eval eval b
          ev.addTo pOut pOut eval) a = .ok q ∧ q.isNTT = true ∧
        StandsFor (2 ^ K) M pt q (f + circuitPoly b cs pubP witP) := by
    intro cs
    induction cs with
    | nil => intro _ a f ha hf; exact ⟨a, rfl, ha, by simpa [circuitPoly] using hf⟩
    | cons c cs ih =>
      intro hc a f ha hf
      obtain ⟨q, q1, q2, q3⟩ := constraintPoly_spec h ht c (hc c (by simp))
      obtain ⟨m, m1, m2, m3⟩ := scalarMulTo_sf h b q3.1 q3
      obtain ⟨r, r1, r2, r3⟩ := addTo_sf h hf.1 hf m3 (by rw [ha, m2, q2])
      obtain ⟨s, s1, s2, s3⟩ := ih (fun k hk => hc k (by simp [hk])) r _ (by rw [r2, ha]) r3
      refine ⟨s, ?_, s2, ?_⟩
      · rw [List.foldlM_cons, q1, go_bind_ok, m1, go_bind_ok, r1, go_bind_ok, s1]
      · simp only [circuitPoly, List.map_cons, List.sum_cons] at s3 ⊢
        rw [mul_add, ← add_assoc]; exact s3
  obtain ⟨q, q1, q2, q3⟩ := main cs hr _ _ rfl (sf_zero_ntt (2 ^ K) M pt)
  refine ⟨q, ?_, q2, by simpa using q3⟩
  unfold evalCircuit; rw [h.rank]; exact q1

/-! ## Evaluation and degree of constraint polynomials -/

theorem Term.value_eval (t : Term (ZMod p)) (pubP witP : Nat → (ZMod p)[X]) (x : ZMod p) :
    (Term.value ⟨C t.coeff, t.pub, t.wits⟩ pubP witP).eval x =
      t.value (fun i => (pubP i).eval x) (fun i => (witP i).eval x) := by
  unfold Term.value
  have hprod : ∀ ws : List Nat, (ws.map witP).prod.eval x =
      (ws.map (fun i => (witP i).eval x)).prod := by
    intro ws; induction ws with
    | nil => simp
    | cons a ws ih => simp [ih]
  rw [eval_mul, eval_mul, eval_C, hprod]
  cases t.pub <;> simp

theorem Constraint.poly_eval (c : Constraint (ZMod p)) (pubP witP : Nat → (ZMod p)[X]) (x : ZMod p) :
    (c.poly pubP witP).eval x =
      c.value (fun i => (pubP i).eval x) (fun i => (witP i).eval x) := by
  unfold Constraint.poly Constraint.value
  induction c with
  | nil => simp
  | cons t c ih =>
    simp only [List.map_cons, List.sum_cons, eval_add]
    rw [ih, Term.value_eval]

theorem circuitPoly_eval (b : ZMod p) (cs : List (Constraint (ZMod p)))
    (pubP witP : Nat → (ZMod p)[X]) (x : ZMod p) :
    (circuitPoly b cs pubP witP).eval x =
      b * (cs.map (fun c => c.value (fun i => (pubP i).eval x) (fun i => (witP i).eval x))).sum := by
  unfold circuitPoly
  rw [eval_mul, eval_C]
  congr 1
  induction cs with
  | nil => simp
  | cons c cs ih => simp only [List.map_cons, List.sum_cons, eval_add, ih, Constraint.poly_eval]

theorem foldl_max_le {α : Type} (f : α → Nat) (l : List α) (m : Nat) :
    m ≤ l.foldl (fun m t => if f t > m then f t else m) m ∧
      ∀ t ∈ l, f t ≤ l.foldl (fun m t => if f t > m then f t else m) m := by
  induction l generalizing m with
  | nil => simp
  | cons a l ih =>
    obtain ⟨h1, h2⟩ := ih (if f a > m then f a else m)
    simp only [List.foldl_cons]
    refine ⟨le_trans (by split_ifs <;> omega) h1, ?_⟩
    intro t ht
    rcases List.mem_cons.mp ht with rfl | ht
    · exact le_trans (by split_ifs <;> omega) h1
    · exact h2 t ht

theorem Term.value_natDegree (rank : Nat) (t : Term (ZMod p)) (pubP witP : Nat → (ZMod p)[X])
    (hp : ∀ i, t.pub = some i → (pubP i).natDegree ≤ rank - 1)
    (hw : ∀ j ∈ t.wits, (witP j).natDegree ≤ rank) :
    (Term.value ⟨C t.coeff, t.pub, t.wits⟩ pubP witP).natDegree ≤ t.deg rank := by
  unfold Term.value Term.deg
  have hprod : ∀ ws : List Nat, (∀ j ∈ ws, (witP j).natDegree ≤ rank) →
      (ws.map witP).prod.natDegree ≤ ws.length * rank := by
    intro ws; induction ws with
    | nil => simp
    | cons a ws ih =>
      intro h
      rw [List.map_cons, List.prod_cons, List.length_cons]
      refine natDegree_mul_le.trans ?_
      have h1 := h a (by simp)
      have h2 := ih (fun j hj => h j (by simp [hj]))
      rw [Nat.add_mul]; omega
  refine natDegree_mul_le.trans (Nat.add_le_add ?_ (hprod _ hw))
  refine natDegree_mul_le.trans ?_
  simp only [natDegree_C, zero_add]
  cases h : t.pub with
  | none => simp
  | some i => simpa using hp i h

theorem Constraint.poly_natDegree' (rank : Nat) (c : Constraint (ZMod p))
    (pubP witP : Nat → (ZMod p)[X]) 
    (hp : ∀ t ∈ c, ∀ i, t.pub = some i → (pubP i).natDegree ≤ rank - 1)
    (hw : ∀ t ∈ c, ∀ j ∈ t.wits, (witP j).natDegree ≤ rank) :
    (c.poly pubP witP).natDegree < c.maxRank rank := by
  have hle : ∀ t ∈ c, t.deg rank ≤ c.maxRank rank - 1 := by
    intro t ht
    unfold Constraint.maxRank
    exact (foldl_max_le (fun t : Term (ZMod p) => t.deg rank) c 0).2 t ht
  have hpos : 0 < c.maxRank rank := by unfold Constraint.maxRank; omega
  have : (c.poly pubP witP).natDegree ≤ c.maxRank rank - 1 := by
    unfold Constraint.poly Constraint.value
    refine le_trans (natDegree_list_sum_le _) ?_
    have key : ∀ l : List Nat, (∀ x ∈ l, x ≤ c.maxRank rank - 1) →
        l.foldr max 0 ≤ c.maxRank rank - 1 := by
      intro l hl
      induction l with
      | nil => simp
      | cons a l ih =>
        simp only [List.foldr_cons]
        exact max_le (hl a (by simp)) (ih (fun x hx => hl x (by simp [hx])))
    apply key
    intro x hx
    simp only [List.map_map, List.mem_map, Function.comp] at hx
    obtain ⟨t, ht, rfl⟩ := hx
    exact (Term.value_natDegree rank t pubP witP (hp t ht) (hw t ht)).trans (hle t ht)
  omega

theorem Constraint.poly_natDegree (rank : Nat) (c : Constraint (ZMod p))
    (pubP witP : Nat → (ZMod p)[X]) (pwCnt wCnt : Nat) (hr : c.Refs pwCnt wCnt)
    (hp : ∀ i < pwCnt, (pubP i).natDegree ≤ rank - 1) (hw : ∀ j < wCnt, (witP j).natDegree ≤ rank) :
    (c.poly pubP witP).natDegree < c.maxRank rank :=
  Constraint.poly_natDegree' rank c pubP witP (fun t ht i hi => hp i ((hr t ht).1 i hi))
    (fun t ht j hj => hw j ((hr t ht).2 j hj))

theorem circuitPoly_degree (rank m : Nat) (b : ZMod p) (cs : List (Constraint (ZMod p)))
    (pubP witP : Nat → (ZMod p)[X]) (pwCnt wCnt : Nat) (hr : ∀ c ∈ cs, c.Refs pwCnt wCnt)
    (hp : ∀ i < pwCnt, (pubP i).natDegree ≤ rank - 1) (hw : ∀ j < wCnt, (witP j).natDegree ≤ rank)
    (hm : ∀ c ∈ cs, c.maxRank rank ≤ m) :
    (circuitPoly b cs pubP witP).degree < (m : WithBot ℕ) := by
  unfold circuitPoly
  have : ((cs.map (fun (c : Constraint (ZMod p)) => c.poly pubP witP)).sum).degree < (m : WithBot ℕ) := by
    induction cs with
    | nil => simp
    | cons c cs ih =>
      simp only [List.map_cons, List.sum_cons]
      refine lt_of_le_of_lt (degree_add_le _ _) (max_lt ?_ ?_)
      · refine lt_of_le_of_lt degree_le_natDegree ?_
        have h1 := Constraint.poly_natDegree rank c pubP witP pwCnt wCnt (hr c (by simp)) hp hw
        have h2 := hm c (by simp)
        exact_mod_cast lt_of_lt_of_le h1 h2
      · exact ih (fun c hc => hr c (by simp [hc])) (fun c hc => hm c (by simp [hc]))
  by_cases hb : b = 0
  · simp only [hb, C_0, zero_mul, degree_zero]; exact WithBot.bot_lt_coe m
  · rwa [degree_C_mul hb]

/-! ## The verifier's evaluation -/

theorem evalCircuitV_spec (b : ZMod p) (cs : List (Constraint (ZMod p))) (evals pwEvals : List (ZMod p))
    (pwCnt wCnt : Nat) (hr : ∀ c ∈ cs, c.Refs pwCnt wCnt) (hp : pwCnt ≤ pwEvals.length)
    (hw : wCnt ≤ evals.length) :
    evalCircuitV b cs evals pwEvals =
      .ok (b * (cs.map (fun c => c.value (pwEvals.getD · 0) (evals.getD · 0))).sum) := by
  have hprod : ∀ (ws : List Nat), (∀ j ∈ ws, j < wCnt) → ∀ a : ZMod p,
      ws.foldlM (fun term j => do
        let q ← idx evals j
        pure (term * q)) a = (.ok (a * (ws.map (evals.getD · 0)).prod) : Go (ZMod p)) := by
    intro ws
    induction ws with
    | nil => intro _ a; simp
    | cons j ws ih =>
      intro hj a
      have hlt : j < evals.length := lt_of_lt_of_le (hj j (by simp)) hw
      rw [List.foldlM_cons, idx_ok hlt]
      simp only [go_bind_ok, go_pure]
      have := ih (fun k hk => hj k (by simp [hk])) (a * evals[j])
      simp only [go_pure] at this ⊢
      rw [this]
      simp [hlt, mul_assoc]
  have hterm : ∀ (t : Term (ZMod p)), ((∀ i, t.pub = some i → i < pwCnt) ∧ ∀ j ∈ t.wits, j < wCnt) →
      ∀ e : ZMod p, (do
        let term := t.coeff
        let term ← match t.pub with
          | none => pure term
          | some i => do
            let q ← idx pwEvals i
            pure (term * q)
        let term ← t.wits.foldlM (fun term j => do
          let q ← idx evals j
          pure (term * q)) term
        pure (e + term) : Go (ZMod p)) = .ok (e + t.value (pwEvals.getD · 0) (evals.getD · 0)) := by
    intro t ht e
    unfold Term.value
    cases hpub : t.pub with
    | none =>
      simp only [go_pure, go_bind_ok]
      have := hprod t.wits ht.2 t.coeff
      simp only [go_pure] at this
      rw [this]; simp
    | some i =>
      have hlt : i < pwEvals.length := lt_of_lt_of_le (ht.1 i hpub) hp
      simp only [go_pure, go_bind_ok, idx_ok hlt]
      have := hprod t.wits ht.2 (t.coeff * pwEvals[i])
      simp only [go_pure] at this
      rw [this]; simp [hlt]
  have hcons : ∀ (c : Constraint (ZMod p)), c.Refs pwCnt wCnt → ∀ e : ZMod p,
      c.foldlM (fun eval t => (do
        let term := t.coeff
        let term ← match t.pub with
          | none => pure term
          | some i => do
            let q ← idx pwEvals i
            pure (term * q)
        let term ← t.wits.foldlM (fun term j => do
          let q ← idx evals j
          pure (term * q)) term
        pure (eval + term) : Go (ZMod p))) e =
        .ok (e + c.value (pwEvals.getD · 0) (evals.getD · 0)) := by
    intro c
    induction c with
    | nil => intro _ e; simp [Constraint.value]
    | cons t c ih =>
      intro hc e
      rw [List.foldlM_cons, hterm t (hc t (by simp)), go_bind_ok, ih (fun k hk => hc k (by simp [hk]))]
      simp [Constraint.value, add_assoc]
  have hmain : ∀ (cs : List (Constraint (ZMod p))), (∀ c ∈ cs, c.Refs pwCnt wCnt) → ∀ o : ZMod p,
      cs.foldlM (fun out c => (do
        let eval ← c.foldlM (fun eval t => (do
          let term := t.coeff
          let term ← match t.pub with
            | none => pure term
            | some i => do
              let q ← idx pwEvals i
              pure (term * q)
          let term ← t.wits.foldlM (fun term j => do
            let q ← idx evals j
            pure (term * q)) term
          pure (eval + term) : Go (ZMod p))) 0
        pure (out + eval * b) : Go (ZMod p))) o =
        .ok (o + b * (cs.map (fun c => c.value (pwEvals.getD · 0) (evals.getD · 0))).sum) := by
    intro cs
    induction cs with
    | nil => intro _ o; simp
    | cons c cs ih =>
      intro hc o
      rw [List.foldlM_cons, hcons c (hc c (by simp)), go_bind_ok, go_pure, go_bind_ok,
        ih (fun k hk => hc k (by simp [hk]))]
      simp only [List.map_cons, List.sum_cons]
      congr 1; ring
  unfold evalCircuitV
  have := hmain cs hr 0
  rw [zero_add] at this
  exact this

end circuit

end Ringo
