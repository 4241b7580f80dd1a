import Verif.Spec.JLimbs
import Verif.Proof.PolyOps
import Verif.Proof.Vec
import Verif.Proof.JFloat

/-!
# Accesses to the rows of polynomials
-/

namespace Ringo

section AllOf
variable {α : Type} {n : Nat} {p : α → Prop} {l : List α}

theorem AllOf.replicate {x : α} (h : p x) : AllOf n p (List.replicate n x) :=
  ⟨List.length_replicate, fun y hy => by rw [List.eq_of_mem_replicate hy]; exact h⟩

theorem AllOf.idx (h : AllOf n p l) {i : Nat} (hi : i < n) : ∃ x, idx l i = .ok x ∧ p x := by
  have hl : i < l.length := by rw [h.len]; exact hi
  exact ⟨l[i], idx_ok hl, h.all _ (List.getElem_mem hl)⟩

theorem AllOf.set (h : AllOf n p l) {i : Nat} {y : α} (hy : p y) : AllOf n p (l.set i y) :=
  ⟨by rw [List.length_set]; exact h.len, fun x hx => by
    rcases List.mem_or_eq_of_mem_set hx with h1 | h1
    · exact h.all x h1
    · rw [h1]; exact hy⟩

theorem AllOf.setIdx (h : AllOf n p l) {i : Nat} (hi : i < n) {y : α} (hy : p y) :
    ∃ l', setIdx l i y = .ok l' ∧ AllOf n p l' :=
  ⟨l.set i y, by unfold Ringo.setIdx; rw [if_pos (by rw [h.len]; exact hi)], h.set hy⟩

theorem AllOf.modIdx (h : AllOf n p l) {i : Nat} (hi : i < n) {f : α → Go α}
    (hf : ∀ x, p x → ∃ y, f x = .ok y ∧ p y) : ∃ l', modIdx l i f = .ok l' ∧ AllOf n p l' := by
  obtain ⟨x, h1, h2⟩ := h.idx hi
  obtain ⟨y, h3, h4⟩ := hf x h2
  obtain ⟨l', h5, h6⟩ := h.setIdx hi h4
  exact ⟨l', by unfold Ringo.modIdx; rw [h1, go_bind_ok, h3, go_bind_ok, h5], h6⟩

end AllOf

theorem shape_new (R : LimbRing) : HasShape R.moduli.length R.n R.newPoly :=
  AllOf.replicate List.length_replicate

/-- A loop that keeps an invariant. -/
theorem forRange_inv {σ : Type} {f : σ → Nat → Go σ} (n : Nat) (I : σ → Prop) (s : σ) (h0 : I s)
    (hstep : ∀ i s, i < n → I s → ∃ s', f s i = .ok s' ∧ I s') : ∃ s', forRange 0 n 1 s f = .ok s' ∧ I s' :=
  forRange_spec 0 n (Nat.zero_le _) (fun _ => I) s h0 fun i s _ hi hs => hstep i s hi hs

theorem mapM_rows {ps : List LimbPoly} {i : Nat} (h : ∀ p ∈ ps, i < p.length) :
    ∃ rows, (ps.mapM fun p => idx p i) = .ok rows := by
  induction ps with
  | nil => exact ⟨[], rfl⟩
  | cons p ps ih =>
    obtain ⟨rows, h1⟩ := ih fun q hq => h q (List.mem_cons_of_mem _ hq)
    refine ⟨p[i]'(h p List.mem_cons_self) :: rows, ?_⟩
    rw [List.mapM_cons, idx_ok (h p List.mem_cons_self), go_bind_ok, h1, go_bind_ok]
    rfl

section op
variable {R : LimbRing} {f : Nat → List (List Nat) → List Nat → List Nat} {ps : List LimbPoly} {t : LimbPoly}
  {L n : Nat}

/-- An operation of a ring succeeds if no operand has fewer rows than the ring. -/
theorem op_ok (hf : ∀ i rows row, row.length = n → (f i rows row).length = n) (hps : ∀ p ∈ ps, R.moduli.length ≤ p.length)
    (ht : HasShape L n t) (hL : R.moduli.length ≤ L) : ∃ t', R.op f ps t = .ok t' ∧ HasShape L n t' := by
  apply forRange_inv _ (HasShape L n) t ht
  intro i s hi hs
  obtain ⟨rows, h1⟩ := mapM_rows (i := i) fun p hp => lt_of_lt_of_le hi (hps p hp)
  obtain ⟨row, h2, h3⟩ := hs.idx (lt_of_lt_of_le hi hL)
  obtain ⟨t', h4, h5⟩ := hs.setIdx (lt_of_lt_of_le hi hL) (hf i rows row h3)
  exact ⟨t', by rw [h1, go_bind_ok, h2, go_bind_ok, h4], h5⟩

/-- It panics if the target has. -/
theorem op_short (hf : ∀ i rows row, row.length = n → (f i rows row).length = n)
    (hps : ∀ p ∈ ps, R.moduli.length ≤ p.length) (ht : HasShape L n t) (hL : L < R.moduli.length) :
    R.op f ps t = .error .panic := by
  have h1 : ∃ t', R.op f ps t = R.op f ps t ∧ HasShape L n t' ∧
      (List.range' 0 L).foldlM (fun t i => do
        let rows ← ps.mapM fun p => idx p i
        let row ← idx t i
        setIdx t i (f i rows row)) t = .ok t' := by
    have := forRange_inv (f := fun t i => do
        let rows ← ps.mapM fun p => idx p i
        let row ← idx t i
        setIdx t i (f i rows row)) L (HasShape L n) t ht fun i s hi hs => by
      obtain ⟨rows, h1⟩ := mapM_rows (i := i) fun p hp => lt_of_lt_of_le (lt_trans hi hL) (hps p hp)
      obtain ⟨row, h2, h3⟩ := hs.idx hi
      obtain ⟨t', h4, h5⟩ := hs.setIdx hi (hf i rows row h3)
      exact ⟨t', by rw [h1, go_bind_ok, h2, go_bind_ok, h4], h5⟩
    obtain ⟨t', h2, h3⟩ := this
    rw [forRange_one] at h2
    exact ⟨t', rfl, h3, h2⟩
  obtain ⟨t', -, h2, h3⟩ := h1
  unfold LimbRing.op
  rw [forRange_one, Nat.sub_zero]
  obtain ⟨k, hk⟩ : ∃ k, R.moduli.length = L + (k + 1) := ⟨R.moduli.length - L - 1, by omega⟩
  rw [hk, ← List.range'_append_1, List.foldlM_append, h3, go_bind_ok, List.range'_succ, List.foldlM_cons]
  obtain ⟨rows, h4⟩ := mapM_rows (ps := ps) (i := 0 + L) fun p hp => lt_of_lt_of_le (by omega) (hps p hp)
  have h5 : idx t' (0 + L) = .error .panic := by
    unfold idx
    rw [List.getElem?_eq_none (by rw [h2.len]; omega)]
  rw [h4, go_bind_ok, h5]
  rfl

end op

theorem reconRows_ok {R : LimbRing} {p : LimbPoly} {L : Nat} (hp : HasShape L R.n p) (hL : R.moduli.length ≤ L)
    (h1 : 1 ≤ R.moduli.length) : ∃ v, reconRows R p = .ok v ∧ v.length = R.n := by
  have key : ∀ (l : List Nat), (∀ i ∈ l, i < R.n) → ∃ v, (l.mapM fun i => do
      let cs ← (List.range R.moduli.length).mapM fun j => do
        let row ← idx p j
        idx row i
      reconstruct1 (cs.zip R.moduli)) = .ok v ∧ v.length = l.length := by
    intro l
    induction l with
    | nil => intro _; exact ⟨[], rfl, rfl⟩
    | cons i l ih =>
      intro hl
      obtain ⟨v, hv, hlen⟩ := ih fun x hx => hl x (List.mem_cons_of_mem _ hx)
      have hi := hl i List.mem_cons_self
      have hcs : ∀ (js : List Nat), (∀ j ∈ js, j < L) → ∃ cs : List Nat, (js.mapM fun j => do
          let row ← idx p j
          idx row i) = .ok cs ∧ cs.length = js.length := by
        intro js
        induction js with
        | nil => intro _; exact ⟨[], rfl, rfl⟩
        | cons j js ih2 =>
          intro hjs
          obtain ⟨cs, h3, h4⟩ := ih2 fun x hx => hjs x (List.mem_cons_of_mem _ hx)
          obtain ⟨row, h5, h6⟩ := hp.idx (hjs j List.mem_cons_self)
          refine ⟨row[i]'(by rw [h6]; exact hi) :: cs, ?_, by simp [h4]⟩
          rw [List.mapM_cons, h5, go_bind_ok, idx_ok (by rw [h6]; exact hi), go_bind_ok, h3, go_bind_ok]
          rfl
      obtain ⟨cs, h3, h4⟩ := hcs (List.range R.moduli.length) fun j hj =>
        lt_of_lt_of_le (List.mem_range.mp hj) hL
      have h5 : ∃ z, reconstruct1 (cs.zip R.moduli) = .ok z := by
        unfold reconstruct1
        have : 0 < (cs.zip R.moduli).length := by
          rw [List.length_zip, h4, List.length_range]; omega
        rw [idx_ok this, go_bind_ok]
        dsimp only
        split
        · exact ⟨_, rfl⟩
        · split <;> exact ⟨_, rfl⟩
      obtain ⟨z, h6⟩ := h5
      refine ⟨z :: v, ?_, by simp [hlen]⟩
      rw [List.mapM_cons, h3, go_bind_ok, h6, go_bind_ok, hv, go_bind_ok]
      rfl
  obtain ⟨v, h2, h3⟩ := key (List.range R.n) fun i hi => List.mem_range.mp hi
  exact ⟨v, h2, by rw [h3, List.length_range]⟩

theorem setBigRows_ok {R : LimbRing} {p : LimbPoly} {L : Nat} {v : List Int} (hp : HasShape L R.n p)
    (hL : R.moduli.length ≤ L) (hv : v.length = R.n) : ∃ p', setBigRows R p v = .ok p' ∧ HasShape L R.n p' := by
  apply forRange_inv _ (HasShape L R.n) p hp
  intro i s hi hs
  apply forRange_inv _ (HasShape L R.n) s hs
  intro l s hl hs
  rw [idx_ok hl, go_bind_ok, idx_ok (by rw [hv]; exact hi), go_bind_ok]
  apply hs.modIdx (lt_of_lt_of_le hl hL)
  intro row hrow
  refine ⟨row.set i (bigResidue v[i] R.moduli[l]), ?_, by rw [List.length_set]; exact hrow⟩
  unfold setIdx
  rw [if_pos (by rw [hrow]; exact hi)]

/-! ## `Commit` -/

section commit
variable {P : LimbPar} {F : ComFns} {K : LimbKey} {N : Nat}

theorem limbMiddle_ok (hF : F.Keep P.ringQ.n) {len i : Nat} {enc : List LimbPoly}
    (h : AllOf P.rows (HasShape P.ringQ.moduli.length P.ringQ.n) enc) :
    ∃ enc', limbMiddle P F len i enc = .ok enc' ∧
      AllOf P.rows (HasShape P.ringQ.moduli.length P.ringQ.n) enc' := by
  have := forRange_spec (f := fun (s : List LimbPoly × Bool) j =>
      if s.2 then (pure s : Go (List LimbPoly × Bool))
      else
        let idxStart := if i = P.cols then j * P.cols * P.slots else j * P.cols * P.slots + i * P.slots
        let idxEnd := j * P.cols * P.slots + (i + 1) * P.slots
        if idxStart > len then pure (s.1, true)
        else if i ≠ P.cols ∧ min idxEnd len < idxStart then goPanic
        else do
          let enc ← modIdx s.1 j fun t => P.ringQ.op (F.enc i j) [] t
          pure (enc, false)) 1 (max 1 (P.rows - 1)) (le_max_left _ _)
    (fun _ s => AllOf P.rows (HasShape P.ringQ.moduli.length P.ringQ.n) s.1) (enc, false) h fun j s h1 h2 hs => by
      have hj : j < P.rows := by omega
      dsimp only
      by_cases hb : s.2 = true
      · rw [if_pos hb]; exact ⟨s, rfl, hs⟩
      rw [if_neg hb]
      have hle : (if i = P.cols then j * P.cols * P.slots else j * P.cols * P.slots + i * P.slots) ≤
          j * P.cols * P.slots + (i + 1) * P.slots := by
        split
        · omega
        · have : i * P.slots ≤ (i + 1) * P.slots := Nat.mul_le_mul_right _ (Nat.le_succ i)
          omega
      by_cases hc : (if i = P.cols then j * P.cols * P.slots else j * P.cols * P.slots + i * P.slots) > len
      · rw [if_pos hc]; exact ⟨_, rfl, hs⟩
      rw [if_neg hc, if_neg (by rintro ⟨-, hx⟩; omega)]
      obtain ⟨e', h3, h4⟩ := hs.modIdx hj (f := fun t => P.ringQ.op (F.enc i j) [] t) fun t ht =>
        op_ok (hF.enc i j) (by simp) ht le_rfl
      exact ⟨(e', false), by rw [h3]; rfl, h4⟩
  obtain ⟨s', h1, h2⟩ := this
  refine ⟨s'.1, ?_, h2⟩
  unfold limbMiddle
  have hr : forRange 1 (P.rows - 1) 1 (enc, false) (fun (s : List LimbPoly × Bool) j =>
      if s.2 then (pure s : Go (List LimbPoly × Bool))
      else
        let idxStart := if i = P.cols then j * P.cols * P.slots else j * P.cols * P.slots + i * P.slots
        let idxEnd := j * P.cols * P.slots + (i + 1) * P.slots
        if idxStart > len then pure (s.1, true)
        else if i ≠ P.cols ∧ min idxEnd len < idxStart then goPanic
        else do
          let enc ← modIdx s.1 j fun t => P.ringQ.op (F.enc i j) [] t
          pure (enc, false)) = .ok s' := by
    rw [← h1, forRange_one, forRange_one]
    congr 2
    omega
  rw [hr]
  rfl

theorem limbEncode_ok (hF : F.Keep P.ringQ.n) (hr : 1 ≤ P.rows) {len i : Nat} {enc : List LimbPoly}
    (h : AllOf P.rows (HasShape P.ringQ.moduli.length P.ringQ.n) enc) :
    ∃ enc', limbEncode P F len i enc = .ok enc' ∧
      AllOf P.rows (HasShape P.ringQ.moduli.length P.ringQ.n) enc' := by
  obtain ⟨e1, h1, h2⟩ := h.modIdx (i := 0) (by omega) (f := fun t => P.ringQ.op (F.enc i 0) [] t) fun t ht =>
    op_ok (hF.enc i 0) (by simp) ht le_rfl
  obtain ⟨e2, h3, h4⟩ := limbMiddle_ok (len := len) (i := i) hF h2
  obtain ⟨e3, h5, h6⟩ := h4.modIdx (i := P.rows - 1) (by omega)
    (f := fun t => P.ringQ.op (F.enc i (P.rows - 1)) [] t) fun t ht =>
    op_ok (hF.enc i (P.rows - 1)) (by simp) ht le_rfl
  refine ⟨e3, ?_, h6⟩
  unfold limbEncode
  rw [h1, go_bind_ok, h3, go_bind_ok, if_neg (by omega), h5]

theorem limbMLWE_ok (hF : F.Keep P.ringQ.n) {i : Nat} {mlwe : List LimbPoly}
    (h : AllOf (P.mlweRank + P.inRank) (HasShape P.ringQ.moduli.length P.ringQ.n) mlwe) :
    ∃ mlwe', limbMLWE P F i mlwe = .ok mlwe' ∧
      AllOf (P.mlweRank + P.inRank) (HasShape P.ringQ.moduli.length P.ringQ.n) mlwe' := by
  apply forRange_inv _ (AllOf (P.mlweRank + P.inRank) (HasShape P.ringQ.moduli.length P.ringQ.n)) mlwe h
  intro j s hj hs
  apply hs.modIdx (by omega)
  intro t ht
  obtain ⟨t1, h1, h2⟩ := op_ok (R := P.ringQ) (hF.mlwe i j) (ps := []) (by simp) ht le_rfl
  obtain ⟨t2, h3, h4⟩ := op_ok (R := P.ringQ) hF.q.load (ps := []) (by simp) h2 le_rfl
  exact ⟨t2, by rw [h1, go_bind_ok, h3], h4⟩

theorem limbInner_ok (hF : F.Keep P.ringQ.n) (hK : K.Fits P) {enc mlwe : List LimbPoly}
    (he : AllOf P.rows (HasShape P.ringQ.moduli.length P.ringQ.n) enc)
    (hm : AllOf (P.mlweRank + P.inRank) (HasShape P.ringQ.moduli.length P.ringQ.n) mlwe) :
    ∃ com, limbInner P F K enc mlwe = .ok com ∧
      AllOf P.inRank (HasShape P.ringQ.moduli.length P.ringQ.n) com := by
  apply forRange_inv _ (AllOf P.inRank (HasShape P.ringQ.moduli.length P.ringQ.n)) _
    (AllOf.replicate (shape_new P.ringQ))
  intro j s hj hs
  obtain ⟨s1, h1, h2⟩ := hs.modIdx hj (f := fun t => forRange 0 P.rows 1 t fun t k => do
        let row ← idx K.inn j
        let a ← idx row k
        let e ← idx enc k
        P.ringQ.op F.q.mulAdd [a, e] t) fun t ht => by
      apply forRange_inv _ (HasShape P.ringQ.moduli.length P.ringQ.n) t ht
      intro k t hk ht
      obtain ⟨row, a1, a2⟩ := hK.inn.idx hj
      obtain ⟨a, a3, a4⟩ := a2.idx hk
      obtain ⟨e, a5, a6⟩ := he.idx hk
      rw [a1, go_bind_ok, a3, go_bind_ok, a5, go_bind_ok]
      refine op_ok hF.q.mulAdd ?_ ht le_rfl
      intro p hp
      rcases List.mem_cons.mp hp with rfl | hp
      · exact a4.len.ge
      · rw [List.mem_singleton] at hp
        rw [hp]; exact a6.len.ge
  obtain ⟨s2, h3, h4⟩ := h2.modIdx hj (f := fun t => forRange 0 P.mlweRank 1 t fun t k => do
        let row ← idx K.mlwe j
        let a ← idx row k
        let m ← idx mlwe k
        P.ringQ.op F.q.mulAdd [a, m] t) fun t ht => by
      apply forRange_inv _ (HasShape P.ringQ.moduli.length P.ringQ.n) t ht
      intro k t hk ht
      obtain ⟨row, a1, a2⟩ := hK.mlwe.idx hj
      obtain ⟨a, a3, a4⟩ := a2.idx hk
      obtain ⟨e, a5, a6⟩ := hm.idx (i := k) (by omega)
      rw [a1, go_bind_ok, a3, go_bind_ok, a5, go_bind_ok]
      refine op_ok hF.q.mulAdd ?_ ht le_rfl
      intro p hp
      rcases List.mem_cons.mp hp with rfl | hp
      · exact a4.len.ge
      · rw [List.mem_singleton] at hp
        rw [hp]; exact a6.len.ge
  obtain ⟨s3, h5, h6⟩ := h4.modIdx hj (f := fun t => do
        let m ← idx mlwe (P.mlweRank + j)
        P.ringQ.op F.q.add [m] t) fun t ht => by
      obtain ⟨e, a5, a6⟩ := hm.idx (i := P.mlweRank + j) (by omega)
      rw [a5, go_bind_ok]
      refine op_ok hF.q.add ?_ ht le_rfl
      intro p hp
      rw [List.mem_singleton] at hp
      rw [hp]; exact a6.len.ge
  exact ⟨s3, by rw [h1, go_bind_ok, h3, go_bind_ok, h5], h6⟩

theorem limbTruncate_ok (hP : P.Ok) (hF : F.Keep P.ringQ.n) {i : Nat} (hi : i < P.cols + 1)
    {com inCommit : List LimbPoly}
    (hc : AllOf P.inRank (HasShape P.ringQ.moduli.length P.ringQ.n) com)
    (h : AllOf P.dcmpLen (HasShape P.ringQOut.moduli.length P.ringQOut.n) inCommit) :
    ∃ inCommit', limbTruncate P F i com inCommit = .ok inCommit' ∧
      AllOf P.dcmpLen (HasShape P.ringQOut.moduli.length P.ringQOut.n) inCommit' := by
  have := forRange_inv (f := fun (s : List LimbPoly × List LimbPoly) j => do
    let com ← modIdx s.1 j fun t => P.ringQ.op F.q.unload [] t
    let c ← idx com j
    let big ← reconRows P.ringQ c
    let inCommit ← modIdx s.2 (i * P.inRank + j) fun t => do
      let t ← setBigRows P.ringQOut t (big.map fun (z : Int) => z >>> F.inCut)
      P.ringQOut.op F.qOut.load [] t
    pure (com, inCommit)) P.inRank
    (fun s => AllOf P.inRank (HasShape P.ringQ.moduli.length P.ringQ.n) s.1 ∧
      AllOf P.dcmpLen (HasShape P.ringQOut.moduli.length P.ringQOut.n) s.2) (com, inCommit) ⟨hc, h⟩ fun j s hj hs => by
    obtain ⟨s1, s2⟩ := hs
    obtain ⟨c1, h1, h2⟩ := s1.modIdx hj (f := fun t => P.ringQ.op F.q.unload [] t) fun t ht =>
      op_ok hF.q.unload (by simp) ht le_rfl
    obtain ⟨c, h3, h4⟩ := h2.idx hj
    obtain ⟨big, h5, h6⟩ := reconRows_ok h4 le_rfl hP.limbs
    have hij : i * P.inRank + j < P.dcmpLen := by
      rw [hP.dcmpLen]
      calc i * P.inRank + j < i * P.inRank + P.inRank := by omega
        _ = (i + 1) * P.inRank := by ring
        _ ≤ (P.cols + 1) * P.inRank := Nat.mul_le_mul_right _ (by omega)
    obtain ⟨d, h7, h8⟩ := s2.modIdx hij (f := fun t => do
      let t ← setBigRows P.ringQOut t (big.map fun (z : Int) => z >>> F.inCut)
      P.ringQOut.op F.qOut.load [] t) fun t ht => by
        obtain ⟨t1, b1, b2⟩ := setBigRows_ok (v := big.map fun (z : Int) => z >>> F.inCut) ht le_rfl
          (by rw [List.length_map, h6, hP.degree])
        obtain ⟨t2, b3, b4⟩ := op_ok (R := P.ringQOut) (ps := []) (by rw [hP.degree]; exact hF.qOut.load) (by simp) b2 le_rfl
        exact ⟨t2, by rw [b1, go_bind_ok, b3], b4⟩
    exact ⟨(c1, d), by rw [h1, go_bind_ok, h3, go_bind_ok, h5, go_bind_ok, h7]; rfl, h2, h8⟩
  obtain ⟨s', h1, h2, h3⟩ := this
  exact ⟨s'.2, by unfold limbTruncate; rw [h1]; rfl, h3⟩

/-- An opening with the dimensions of the parameters. -/
structure LimbOpen.Fits (op : LimbOpen) (P : LimbPar) : Prop where
  inCommit : AllOf P.dcmpLen (HasShape P.ringQOut.moduli.length P.ringQOut.n) op.inCommit
  encode : MatOf (P.cols + 1) P.rows (HasShape P.ringQ.moduli.length P.ringQ.n) op.encode
  mlwe : MatOf (P.cols + 1) (P.mlweRank + P.inRank) (HasShape P.ringQ.moduli.length P.ringQ.n) op.mlwe

theorem newOpening_fits (P : LimbPar) : (newOpening P).Fits P :=
  ⟨AllOf.replicate (shape_new _), AllOf.replicate (AllOf.replicate (shape_new _)),
    AllOf.replicate (AllOf.replicate (shape_new _))⟩

theorem limbCol_ok (hP : P.Ok) (hF : F.Keep P.ringQ.n) (hK : K.Fits P) {len i : Nat} (hi : i < P.cols + 1)
    {op : LimbOpen} (h : op.Fits P) : ∃ op', limbCol P F K len i op = .ok op' ∧ op'.Fits P := by
  obtain ⟨e, h1, h2⟩ := AllOf.modIdx h.encode hi (f := limbEncode P F len i) fun x hx =>
    limbEncode_ok hF (by have := hP.rows; omega) hx
  obtain ⟨m, h3, h4⟩ := AllOf.modIdx h.mlwe hi (f := limbMLWE P F i) fun x hx => limbMLWE_ok hF hx
  obtain ⟨e1, h5, h6⟩ := AllOf.idx h2 hi
  obtain ⟨m1, h7, h8⟩ := AllOf.idx h4 hi
  obtain ⟨com, h9, h10⟩ := limbInner_ok hF hK h6 h8
  obtain ⟨d, h11, h12⟩ := limbTruncate_ok hP hF hi h10 h.inCommit
  refine ⟨⟨d, e, m⟩, ?_, ⟨h12, h2, h4⟩⟩
  unfold limbCol
  rw [h1, go_bind_ok, h3, go_bind_ok, h5, go_bind_ok, h7, go_bind_ok, h9, go_bind_ok, h11]
  rfl

theorem limbOuter_ok (hP : P.Ok) (hF : F.Keep P.ringQ.n) (hK : K.Fits P)
    (hL : P.ringQOut.moduli.length ≤ P.ringQ.moduli.length) {op : LimbOpen} (h : op.Fits P) :
    ∃ com, limbOuter P F K (newCommitment P) op = .ok com ∧
      AllOf P.outRank (HasShape P.ringQ.moduli.length P.ringQ.n) com := by
  apply forRange_inv _ (AllOf P.outRank (HasShape P.ringQ.moduli.length P.ringQ.n)) _
    (AllOf.replicate (shape_new P.ringQ))
  intro i s hi hs
  obtain ⟨s1, h1, h2⟩ := forRange_inv (f := fun com j => do
      let row ← idx K.out i
      let a ← idx row j
      let b ← idx op.inCommit j
      modIdx com i fun t => P.ringQOut.op F.qOut.mulAdd [a, b] t) P.dcmpLen
    (AllOf P.outRank (HasShape P.ringQ.moduli.length P.ringQ.n)) s hs fun j s hj hs => by
      obtain ⟨row, a1, a2⟩ := hK.out.idx hi
      obtain ⟨a, a3, a4⟩ := a2.idx hj
      obtain ⟨b, a5, a6⟩ := h.inCommit.idx hj
      rw [a1, go_bind_ok, a3, go_bind_ok, a5, go_bind_ok]
      apply hs.modIdx hi
      intro t ht
      refine op_ok hF.qOut.mulAdd ?_ ht hL
      intro p hp
      rcases List.mem_cons.mp hp with rfl | hp
      · exact a4.len.ge
      · rw [List.mem_singleton] at hp
        rw [hp]; exact a6.len.ge
  obtain ⟨s2, h3, h4⟩ := h2.modIdx hi (f := fun t => P.ringQOut.op F.qOut.unload [] t) fun t ht =>
    op_ok hF.qOut.unload (by simp) ht hL
  obtain ⟨c, h5, h6⟩ := h4.idx hi
  rw [← hP.degree] at h6
  obtain ⟨big, h7, h8⟩ := reconRows_ok h6 hL hP.limbsOut
  obtain ⟨s3, h9, h10⟩ := h4.modIdx hi (f := fun t => do
      let t ← setBigRows P.ringQOut t (big.map fun (z : Int) => z >>> F.outCut)
      P.ringQOut.op F.qOut.load [] t) fun t ht => by
        rw [← hP.degree] at ht
        obtain ⟨t1, b1, b2⟩ := setBigRows_ok (v := big.map fun (z : Int) => z >>> F.outCut) ht hL
          (by rw [List.length_map, h8])
        obtain ⟨t2, b3, b4⟩ := op_ok (R := P.ringQOut) (ps := []) (by rw [hP.degree]; exact hF.qOut.load) (by simp) b2 hL
        exact ⟨t2, by rw [b1, go_bind_ok, b3], by rw [← hP.degree]; exact b4⟩
  exact ⟨s3, by rw [h1, go_bind_ok, h3, go_bind_ok, h5, go_bind_ok, h7, go_bind_ok, h9], h10⟩

theorem limbOuter_panic (hP : P.Ok) (hin : 1 ≤ P.inRank) (hF : F.Keep P.ringQ.n) (hK : K.Fits P)
    (hL : P.ringQ.moduli.length < P.ringQOut.moduli.length) {op : LimbOpen} (h : op.Fits P) :
    limbOuter P F K (newCommitment P) op = .error .panic := by
  have hd : 0 < P.dcmpLen := by
    rw [hP.dcmpLen]; exact Nat.mul_pos (by omega) (by omega)
  have ho := hP.outRank
  have hs : AllOf P.outRank (HasShape P.ringQ.moduli.length P.ringQ.n) (newCommitment P) :=
    AllOf.replicate (shape_new P.ringQ)
  obtain ⟨k, hk⟩ : ∃ k, P.outRank = k + 1 := ⟨P.outRank - 1, by omega⟩
  obtain ⟨l, hl⟩ : ∃ l, P.dcmpLen = l + 1 := ⟨P.dcmpLen - 1, by omega⟩
  obtain ⟨row, a1, a2⟩ := hK.out.idx (i := 0) (by omega)
  obtain ⟨a, a3, a4⟩ := a2.idx hd
  obtain ⟨b, a5, a6⟩ := h.inCommit.idx hd
  obtain ⟨t, a7, a8⟩ := hs.idx (i := 0) (by omega)
  have hp : ∀ p ∈ [a, b], P.ringQOut.moduli.length ≤ p.length := by
    intro p hp
    rcases List.mem_cons.mp hp with rfl | hp
    · exact a4.len.ge
    · rw [List.mem_singleton] at hp
      rw [hp]; exact a6.len.ge
  have hop := op_short hF.qOut.mulAdd hp a8 hL
  unfold limbOuter
  rw [forRange_one, hk, Nat.sub_zero, List.range'_succ, List.foldlM_cons]
  have : (forRange 0 P.dcmpLen 1 (newCommitment P) fun com j => do
      let row ← idx K.out 0
      let a ← idx row j
      let b ← idx op.inCommit j
      modIdx com 0 fun t => P.ringQOut.op F.qOut.mulAdd [a, b] t) = .error .panic := by
    rw [forRange_one, hl, Nat.sub_zero, List.range'_succ, List.foldlM_cons, a1, go_bind_ok, a3, go_bind_ok, a5,
      go_bind_ok]
    unfold modIdx
    rw [a7, go_bind_ok]
    dsimp only
    rw [hop]
    rfl
  rw [this]
  rfl

end commit

/-! ## `NewCommitKey` -/

section key
variable {w : Nat → Nat}

theorem sampleNAt_ok (hw : ∀ pos, ∃ i, pos ≤ i ∧ w i < 2 ^ 63) (pos : Nat) {q : Nat} (h1 : 1 ≤ q) (h2 : q ≤ 2 ^ 63) :
    ∃ i, pos ≤ i ∧ sampleNAt w pos q = .ok (w i % q, i + 1) ∧ w i < 2 ^ 64 - 1 - (2 ^ 64 - 1) % q := by
  have hb : sampleNBound q = .ok ((2 ^ 64 - 1) - (2 ^ 64 - 1) % q) := by
    unfold sampleNBound; rw [if_neg (by omega)]; rfl
  have hlt : (2 ^ 64 - 1) % q < q := Nat.mod_lt _ (by omega)
  classical
  have hex : ∃ i, pos ≤ i ∧ w i < (2 ^ 64 - 1) - (2 ^ 64 - 1) % q := by
    obtain ⟨i, h3, h4⟩ := hw pos
    exact ⟨i, h3, by omega⟩
  obtain ⟨f1, f2⟩ := Nat.find_spec hex
  refine ⟨Nat.find hex, f1, ?_, f2⟩
  unfold sampleNAt
  rw [hb, go_bind_ok]
  refine forever_ok f1 ?_ ?_
  · rw [if_pos f2]; rfl
  · intro j hj1 hj2
    have := Nat.find_min hex hj2
    rw [if_neg (by tauto)]; rfl

theorem reduced_new {R : LimbRing} (hq : ∀ q ∈ R.moduli, 1 ≤ q) : R.Reduced R.newPoly := by
  refine ⟨shape_new R, fun l row q h1 h2 x hx => ?_⟩
  have hrow : row ∈ R.newPoly := List.mem_of_getElem? h1
  rw [LimbRing.newPoly] at hrow
  rw [List.eq_of_mem_replicate hrow] at hx
  rw [List.eq_of_mem_replicate hx]
  exact hq q (List.mem_of_getElem? h2)

theorem keyPoly_ok (hw : ∀ pos, ∃ i, pos ≤ i ∧ w i < 2 ^ 63) {R : LimbRing}
    (hq : ∀ q ∈ R.moduli, 1 ≤ q ∧ q ≤ 2 ^ 63) (pos : Nat) :
    ∃ s, keyPoly w R R.n pos = .ok s ∧ R.Reduced s.1 := by
  apply forRange_inv _ (fun s : LimbPoly × Nat => R.Reduced s.1) (R.newPoly, pos) (reduced_new fun q h => (hq q h).1)
  intro k s hk hs
  apply forRange_inv _ (fun s : LimbPoly × Nat => R.Reduced s.1) s hs
  intro l s hl hs
  obtain ⟨q1, q2⟩ := hq _ (List.getElem_mem hl)
  obtain ⟨i, -, h1, -⟩ := sampleNAt_ok hw s.2 q1 q2
  obtain ⟨hsh, hred⟩ := hs
  have hl' : l < s.1.length := by rw [hsh.len]; exact hl
  have hrow : (s.1[l]).length = R.n := hsh.all _ (List.getElem_mem hl')
  refine ⟨(s.1.set l ((s.1[l]).set k (w i % R.moduli[l])), i + 1), ?_, hsh.set (by rw [List.length_set]; exact hrow), ?_⟩
  · rw [idx_ok hl, go_bind_ok, h1, go_bind_ok]
    dsimp only
    unfold modIdx
    rw [idx_ok hl', go_bind_ok]
    have h2 : setIdx s.1[l] k (w i % R.moduli[l]) = .ok ((s.1[l]).set k (w i % R.moduli[l])) := by
      unfold setIdx; rw [if_pos (by rw [hrow]; exact hk)]
    dsimp only
    rw [h2, go_bind_ok]
    have h3 : setIdx s.1 l ((s.1[l]).set k (w i % R.moduli[l])) =
        .ok (s.1.set l ((s.1[l]).set k (w i % R.moduli[l]))) := by
      unfold setIdx; rw [if_pos hl']
    rw [h3, go_bind_ok]
    rfl
  · intro l' row q e1 e2 x hx
    dsimp only at e1
    by_cases hll : l = l'
    · subst hll
      rw [List.getElem?_set_self hl'] at e1
      have e1 := Option.some.inj e1
      rw [List.getElem?_eq_getElem hl] at e2
      have e2 := Option.some.inj e2
      rw [← e1] at hx
      rw [← e2]
      rcases List.mem_or_eq_of_mem_set hx with h4 | h4
      · exact hred l _ _ (List.getElem?_eq_getElem hl') (List.getElem?_eq_getElem hl) x h4
      · rw [h4]; exact Nat.mod_lt _ (by omega)
    · rw [List.getElem?_set_ne hll] at e1
      exact hred l' row q e1 e2 x hx

theorem keyMat_ok (hw : ∀ pos, ∃ i, pos ≤ i ∧ w i < 2 ^ 63) {R : LimbRing}
    (hq : ∀ q ∈ R.moduli, 1 ≤ q ∧ q ≤ 2 ^ 63) (a b pos : Nat) :
    ∃ s, keyMat w R R.n a b pos = .ok s ∧ MatOf a b R.Reduced s.1 := by
  apply forRange_spec 0 a (Nat.zero_le _) (fun i (s : List (List LimbPoly) × Nat) => MatOf i b R.Reduced s.1)
  · exact ⟨rfl, by simp⟩
  intro i s _ hi hs
  obtain ⟨r, h1, h2⟩ := forRange_spec (f := fun (s : List LimbPoly × Nat) _ => do
      let (p, pos) ← keyPoly w R R.n s.2
      pure (s.1 ++ [p], pos)) 0 b (Nat.zero_le _) (fun j (s : List LimbPoly × Nat) => AllOf j R.Reduced s.1)
    (([] : List LimbPoly), s.2) ⟨rfl, by simp⟩ fun j s _ hj hs => by
      obtain ⟨t, h1, h2⟩ := keyPoly_ok hw hq s.2
      refine ⟨(s.1 ++ [t.1], t.2), by rw [h1]; rfl, ?_, ?_⟩
      · simp [hs.len]
      · intro x hx
        rcases List.mem_append.mp hx with h | h
        · exact hs.all x h
        · rw [List.mem_singleton] at h; rw [h]; exact h2
  refine ⟨(s.1 ++ [r.1], r.2), by rw [h1]; rfl, ?_, ?_⟩
  · simp [hs.len]
  · intro x hx
    rcases List.mem_append.mp hx with h | h
    · exact hs.all x h
    · rw [List.mem_singleton] at h; rw [h]; exact h2

end key

end Ringo
