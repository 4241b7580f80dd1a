import Verif.Spec.JBuckler
import Verif.Props.JBatchExtract

/-!
# C125: Buckler over the repaired Jindo is sound
-/

namespace Ringo

open Finset Polynomial

set_option linter.unusedSectionVars false

variable {p : Nat} [Fact p.Prime] {T T' : Type} [AddCommGroup T] [AddCommGroup T']

/-- Acceptance contains acceptance by the commitment scheme, and the rest does not depend on it. -/
theorem verifyWith_swap (E0 : Env (ZMod p)) {Com Open Pf Rnd Open' Rnd' : Type} {rank : Nat}
    {commit : List (ZMod p) → Rnd → Go (Com × Open)} {commit' : List (ZMod p) → Rnd' → Go (Com × Open')}
    {evaluate : ZMod p → List (List (ZMod p)) → List Com → List Open → Rnd → Go (List (ZMod p) × Pf)}
    {evaluate' : ZMod p → List (List (ZMod p)) → List Com → List Open' → Rnd' → Go (List (ZMod p) × Pf)}
    {vf vf' : ZMod p → List Com → List (ZMod p) → Pf → Go Bool} {ser : Com → Bytes} (cp : Compilation (ZMod p))
    (two : List TwoEntry) (ci : Circ (ZMod p)) (w : List Com) (ls ss : Option (ZMod p)) (y : List (ZMod p)) (pf pf' : Pf)
    (ch : Challenges)
    (h : verifyWith { E0 with pcs := ⟨Com, Open, Pf, Rnd, rank, commit, evaluate, vf, ser⟩ } cp two ci ⟨w, ls, ss, y, pf⟩ ch =
      .ok true) :
    vf (E0.setBytes ch.x) w y pf = .ok true ∧ (vf' (E0.setBytes ch.x) w y pf' = .ok true →
      verifyWith { E0 with pcs := ⟨Com, Open', Pf, Rnd', rank, commit', evaluate', vf', ser⟩ } cp two ci
        ⟨w, ls, ss, y, pf'⟩ ch = .ok true) := by
  unfold verifyWith at h ⊢
  by_cases hty : cp.ctx.circType ≠ ci.ty
  · rw [if_pos hty] at h
    exact absurd h (by simp [pure, Except.pure])
  rw [if_neg hty] at h ⊢
  cases ha : assignV cp two ci.val with
  | error e => rw [ha] at h; exact absurd h (by simp [bind, Except.bind])
  | ok o =>
    rw [ha] at h
    cases o with
    | none => exact absurd h (by simp [bind, Except.bind, pure, Except.pure])
    | some pw =>
      simp only [bind, Except.bind] at h ⊢
      cases hm : List.mapM (fun v => cp.ecd.encode v) pw with
      | error e => rw [hm] at h; exact absurd h (by simp)
      | ok q =>
        rw [hm] at h
        simp only at h ⊢
        have hcv : challengesV { E0 with pcs := ⟨Com, Open', Pf, Rnd', rank, commit', evaluate', vf', ser⟩ } cp
            ⟨w, ls, ss, y, pf'⟩ = challengesV { E0 with pcs := ⟨Com, Open, Pf, Rnd, rank, commit, evaluate, vf, ser⟩ } cp
            ⟨w, ls, ss, y, pf⟩ := rfl
        rw [hcv]
        cases hc : challengesV { E0 with pcs := ⟨Com, Open, Pf, Rnd, rank, commit, evaluate, vf, ser⟩ } cp
            ⟨w, ls, ss, y, pf⟩ with
        | error e => rw [hc] at h; exact absurd h (by simp)
        | ok o =>
          rw [hc] at h
          cases o with
          | none => exact absurd h (by simp [pure, Except.pure])
          | some r =>
            obtain ⟨r1, r2, r3, r4⟩ := r
            simp only at h ⊢
            cases hv : vf (E0.setBytes ch.x) w y pf with
            | error e => rw [hv] at h; exact absurd h (by simp)
            | ok v =>
              rw [hv] at h
              cases v with
              | false => exact absurd h (by simp [pure, Except.pure])
              | true =>
                refine ⟨rfl, fun hv' => ?_⟩
                rw [hv']
                exact h

/-- The coefficients of a polynomial of degree less than `n`. -/
noncomputable def coeffList (n : Nat) (P : (ZMod p)[X]) : List (ZMod p) := (List.range n).map P.coeff

theorem listPoly_coeffList {n : Nat} {P : (ZMod p)[X]} (h : P.natDegree < n) : listPoly (coeffList n P) = P := by
  unfold coeffList
  rw [listPoly_range]
  simp only [C_mul_X_pow_eq_monomial]
  exact (P.as_sum_range' n h).symm

/-- The scheme that accepts the values of the given polynomials and nothing else, with the commitments of Jindo. -/
noncomputable def idealPCS [DecidableEq T] (J : JEnv p T T') (ser : List T' → Bytes)
    (poly : List T' → List (ZMod p)) : PCS (ZMod p) where
  Com := List T'
  Open := JOpen T T'
  Pf := JProof T T'
  Rnd := ComRand p
  rank := J.par.mat.rank
  commit := J.commit
  evaluate x vs coms opens _ := J.evaluate x vs coms opens
  verify x cs ys _ := by
    classical
    exact .ok (decide (cs.length = J.par.batch ∧ ys = cs.map fun c => (listPoly (poly c)).eval x))
  ser := ser

theorem idealPCS_fixes [DecidableEq T] (J : JEnv p T T') (ser : List T' → Bytes) (poly : List T' → List (ZMod p))
    (hp : ∀ c, (poly c).length ≤ J.par.mat.rank) : (idealPCS J ser poly).Fixes J.par.batch poly := by
  intro x cs ys pf h
  have h1 := of_decide_eq_true (Except.ok.inj h)
  exact ⟨h1.1, fun c _ => hp c, h1.2⟩

/-- Pairs whose second part lies in a small set that depends on the first. -/
theorem card_dep {α β : Type} [Fintype α] [Fintype β] (S : α → Set β) (k : Nat) (h : ∀ a, (S a).ncard ≤ k) :
    {q : α × β | q.2 ∈ S q.1}.ncard ≤ Fintype.card α * k := by
  classical
  have := card_bad (T := α × β) (fun q => q.1) (fun q => q.2) (fun q q' e e' => Prod.ext e e')
    (fun a => (S a).toFinset) k (fun a => by rw [← Set.ncard_eq_toFinset_card']; exact h a)
  rw [Set.ncard_eq_toFinset_card']
  refine le_trans (card_le_card ?_) this
  intro q hq
  simpa using hq

theorem verify_lengths [DecidableEq T] {E : JEnv p T T'} {x : ZMod p} {com : List (List T')} {y : List (ZMod p)}
    {pf : JProof T T'} (h : E.verify x com y pf = .ok true) : com.length = E.par.batch ∧ y.length = E.par.batch := by
  unfold JEnv.verify at h
  by_cases hl : com.length ≠ E.par.batch ∨ y.length ≠ E.par.batch
  · rw [if_pos hl] at h
    exact absurd h (by simp [goPanic])
  · push Not at hl
    exact hl

/-- **C125.**  Buckler over Jindo, as an interactive protocol in which the values are sent before Jindo's batching
challenges and the verifier checks that the partial evaluations are short.  Every commitment has a polynomial such that
the following holds for all provers.  If the first commitments encode no witness for the enforced constraints, then the
prover wins for at most a part of
`(N + 2 + L + D) / p + 2 (⌊2^128 / C⌋ + 1) / 2^128`
of all challenges, where `C` is the number of challenges of Jindo. -/
theorem C125 [DecidableEq T] (J : JEnv p T T') (h : J.Good) (A : J.ringQ.Lawful) (A' : J.ringQ'.Lawful)
    (hB : 2 ≤ J.par.batch) (hrows : 3 ≤ J.par.mat.rows) (R R' F : Nat) (hR : J.Room R R' F)
    (ho : J.BindsOut A' (2 * (J.par.enc.ecd.exp * (challengeBound J.par.enc.ecd * (2 * R')))))
    (hi : J.BindsIn A (2 * (J.par.enc.ecd.exp * (challengeBound J.par.enc.ecd * (J.par.enc.ecd.exp *
      (challengeBound J.par.enc.ecd * (J.par.enc.ecd.exp * (challengeBound J.par.enc.ecd * (2 * (J.par.enc.ecd.exp *
      (challengeBound J.par.enc.ecd * (2 * R))))))))))))
    (ser : List T' → Bytes) (E0 : Env (ZMod p)) {cp : Compilation (ZMod p)} {K ty pw0 w0 : Nat}
    {ops : List (CtxOp (ZMod p))} (hK : 3 ≤ K) (hc : compile (2 ^ K) ty pw0 w0 ops = .ok cp)
    (hv : ∀ op ∈ ops, op.Valid pw0 w0) (hb : J.par.batch = cp.ctx.batch)
    (hlt : 2 ^ K < max cp.ctx.arithCheckMaxRank cp.ctx.sumCheckMaxRank)
    (hlin : ∀ seed, LinOK (2 ^ K) E0.users (projMatrix E0.xof seed (2 ^ K)) cp.ctx.lin)
    (hj : 2 ^ K - 1 ≤ J.par.mat.rank) (D : Nat)
    (hDa : ∀ c ∈ cp.ctx.arith, c.checkDeg (2 ^ K) J.par.mat.rank ≤ D)
    (hDs : ∀ c ∈ cp.ctx.sums, c.checkDeg (2 ^ K) J.par.mat.rank ≤ D)
    (hD1 : 2 * J.par.mat.rank - 2 ^ K ≤ D) (hD2 : 2 ^ K + J.par.mat.rank ≤ D)
    (enc : ZMod p → Bytes) (henc : ∀ a, E0.setBytes (enc a) = a) (seed : Bytes) :
    ∃ poly : List T' → List (ZMod p), (∀ c, (poly c).length ≤ J.par.mat.rank) ∧
      ∀ (two : List TwoEntry) (ci : Circ (ZMod p)) (P : JCheater p J.par.batch T T'),
      P.first.length = cp.ctx.wCnt + (if cp.ctx.lin.length > 0 then 1 else 0) +
        (if cp.ctx.sums.length > 0 then 1 else 0) →
      (∀ pw sw : List (List (ZMod p)), assignV cp two ci.val = .ok (some pw) →
        sw.length = cp.ctx.wCnt → (∀ v ∈ sw, v.length = 2 ^ K) →
        (∀ (i : Nat) (v : List (ZMod p)) (u : List T'), sw[i]? = some v → P.first[i]? = some u →
          Encodes cp v (poly u)) →
        ¬ Enforced cp.ctx E0.users (projMatrix E0.xof seed (2 ^ K)) pw sw) →
      {t : Chal5 p × (Fin J.par.batch → Fin 16 → BitVec 8) × ColBytes J |
          P.Wins J A F ser E0 cp two ci seed enc t.1 t.2.1 t.2.2}.ncard ≤
        p ^ 4 * (2 ^ K + 2 + linCount cp + D) * ((2 ^ 128) ^ J.par.batch * (2 ^ 128) ^ J.par.mat.cols) +
        p ^ 5 * ((2 ^ 128 / challengeBound J.par.enc.ecd ^ J.par.enc.ecd.exp + 1) * (2 ^ 128) ^ (J.par.batch - 1)) *
          (2 ^ 128) ^ J.par.mat.cols +
        p ^ 5 * (2 ^ 128) ^ J.par.batch *
          ((2 ^ 128 / challengeBound J.par.enc.ecd ^ J.par.enc.ecd.exp + 1) * (2 ^ 128) ^ (J.par.mat.cols - 1)) := by
  classical
  obtain ⟨P₀, hdeg, hbind⟩ := C124 J h A A' hB R R' F hR ho hi
  have hlp : ∀ c, listPoly (coeffList J.par.mat.rank (P₀ c)) = P₀ c :=
    fun c => listPoly_coeffList ((hdeg c).2 hrows)
  have hlen : ∀ c, (coeffList J.par.mat.rank (P₀ c)).length ≤ J.par.mat.rank := by simp [coeffList]
  refine ⟨fun c => coeffList J.par.mat.rank (P₀ c), hlen, fun two ci P hfl hno => ?_⟩
  generalize 2 ^ 128 / challengeBound J.par.enc.ecd ^ J.par.enc.ecd.exp + 1 = m at hbind ⊢
  -- the ideal protocol
  let I := idealPCS J ser fun c => coeffList J.par.mat.rank (P₀ c)
  let pf₀ : JProof T T' := ⟨[], [], 0, [], []⟩
  let Q : Cheater I := ⟨P.first, P.linSum, P.sumSum, P.second, fun a b c d x => P.evals (a, b, c, d, x),
    fun _ _ _ _ _ => pf₀⟩
  have h90 := C90_interactive (E := { E0 with pcs := I }) hK hc hv hlt hlin hj
    (fun c => coeffList J.par.mat.rank (P₀ c)) (hb ▸ idealPCS_fixes J ser _ hlen) D hDa hDs hD1 hD2 enc henc seed two ci Q
    hfl hno
  -- the values are wrong
  let wrong := fun t : Chal5 p => ∃ i < J.par.batch, (P.evals t).getD i 0 ≠ (P₀ ((P.coms t).getD i [])).eval t.2.2.2.2
  let bad := fun t : Chal5 p => {b : Fin J.par.batch → Fin 16 → BitVec 8 | wrong t ∧ ¬ ∀ (parts : List T) (pm : T),
    J.ShortParts A F parts → {c : ColBytes J | (J.answer (J.firstMsgs t.2.2.2.2 (P.coms t)) (bytesOf b)).Convinces
      t.2.2.2.2 (P.coms t) (P.evals t) parts pm (bytesOf c)}.ncard ≤ m * (2 ^ 128) ^ (J.par.mat.cols - 1)}
  have hbad : ∀ t, (bad t).ncard ≤ m * (2 ^ 128) ^ (J.par.batch - 1) := by
    intro t
    by_cases hw : wrong t
    · obtain ⟨i, hib, hne⟩ := hw
      refine le_trans (Set.ncard_le_ncard ?_ (Set.toFinite _)) (hbind (P.coms t) t.2.2.2.2 (P.evals t) i hib hne)
      exact fun b hb => hb.2
    · have : bad t = ∅ := by ext b; simp [bad, hw]
      rw [this, Set.ncard_empty]
      exact Nat.zero_le _
  let conv := fun (q : Chal5 p × (Fin J.par.batch → Fin 16 → BitVec 8)) => {c : ColBytes J |
    wrong q.1 ∧ q.2 ∉ bad q.1 ∧ P.Wins J A F ser E0 cp two ci seed enc q.1 q.2 c}
  have hver : ∀ {t b c}, P.Wins J A F ser E0 cp two ci seed enc t b c → ∃ pf : JProof T T', pf.parts = P.parts t b ∧
      pf.partMask = P.mask t b ∧
      (J.withBytes t.2.2.2.2 (P.coms t) (bytesOf b) (P.parts t b) (P.mask t b) (bytesOf c)).verify t.2.2.2.2 (P.coms t)
        (P.evals t) pf = .ok true ∧
      (I.verify t.2.2.2.2 (P.coms t) (P.evals t) pf₀ = .ok true → verifyWith { E0 with pcs := I } cp two ci
        (Q.run t.1 t.2.1 t.2.2.1 t.2.2.2.1 t.2.2.2.2)
        ⟨seed, enc t.1, enc t.2.1, enc t.2.2.1, enc t.2.2.2.1, enc t.2.2.2.2⟩ = .ok true) := by
    rintro t b c ⟨-, pf, e1, e2, e3⟩
    obtain ⟨s1, s2⟩ := verifyWith_swap E0 (vf' := I.verify) (commit' := I.commit) (evaluate' := I.evaluate) cp two ci _ _ _
      _ _ pf₀ _ e3
    rw [henc] at s1 s2
    exact ⟨pf, e1, e2, s1, s2⟩
  have hconv : ∀ q, (conv q).ncard ≤ m * (2 ^ 128) ^ (J.par.mat.cols - 1) := by
    rintro ⟨t, b⟩
    by_cases hw : wrong t ∧ b ∉ bad t
    · have hall : ∀ (parts : List T) (pm : T), J.ShortParts A F parts → {c : ColBytes J |
          (J.answer (J.firstMsgs t.2.2.2.2 (P.coms t)) (bytesOf b)).Convinces t.2.2.2.2 (P.coms t) (P.evals t) parts pm
            (bytesOf c)}.ncard ≤ m * (2 ^ 128) ^ (J.par.mat.cols - 1) := by
        by_contra hcon
        exact hw.2 ⟨hw.1, hcon⟩
      by_cases hs : J.ShortParts A F (P.parts t b)
      · refine le_trans (Set.ncard_le_ncard ?_ (Set.toFinite _)) (hall (P.parts t b) (P.mask t b) hs)
        rintro c ⟨-, -, hwin⟩
        obtain ⟨pf, e1, e2, e3, -⟩ := hver hwin
        exact ⟨pf, e1, e2, e3⟩
      · have : conv (t, b) = ∅ := by
          ext c
          simp only [conv, Set.mem_ofPred_eq, Set.mem_empty_iff_false, iff_false]
          exact fun hc => hs hc.2.2.1
        rw [this, Set.ncard_empty]
        exact Nat.zero_le _
    · have : conv (t, b) = ∅ := by
        ext c
        simp only [conv, Set.mem_ofPred_eq, Set.mem_empty_iff_false, iff_false]
        exact fun hc => hw ⟨hc.1, hc.2.1⟩
      rw [this, Set.ncard_empty]
      exact Nat.zero_le _
  have hright : ∀ {t b c}, P.Wins J A F ser E0 cp two ci seed enc t b c → ¬ wrong t →
      verifyWith { E0 with pcs := I } cp two ci (Q.run t.1 t.2.1 t.2.2.1 t.2.2.2.1 t.2.2.2.2)
        ⟨seed, enc t.1, enc t.2.1, enc t.2.2.1, enc t.2.2.2.1, enc t.2.2.2.2⟩ = .ok true := by
    intro t b c hwin hnw
    obtain ⟨pf, e1, e2, e3, e4⟩ := hver hwin
    apply e4
    obtain ⟨l1, l2⟩ := verify_lengths e3
    have l1 : (P.coms t).length = J.par.batch := l1
    have l2 : (P.evals t).length = J.par.batch := l2
    refine congrArg Except.ok (decide_eq_true ⟨l1, ?_⟩)
    apply List.ext_getElem (by rw [List.length_map, l1, l2])
    intro i h1 h2
    rw [List.getElem_map, hlp]
    by_contra hne
    refine hnw ⟨i, by omega, ?_⟩
    rw [List.getD_eq_getElem _ _ h1, List.getD_eq_getElem _ _ (by omega)]
    exact hne
  -- counting
  have c1 := card_dep (α := (Fin J.par.batch → Fin 16 → BitVec 8) × ColBytes J) (β := Chal5 p)
    (fun _ => {t | verifyWith { E0 with pcs := I } cp two ci (Q.run t.1 t.2.1 t.2.2.1 t.2.2.2.1 t.2.2.2.2)
        ⟨seed, enc t.1, enc t.2.1, enc t.2.2.1, enc t.2.2.2.1, enc t.2.2.2.2⟩ = .ok true})
    (p ^ 4 * (2 ^ K + 2 + linCount cp + D)) (fun _ => by
      rw [Set.ncard_eq_toFinset_card']
      refine le_trans (card_le_card ?_) h90
      intro t ht
      simpa using ht)
  have c2 := card_dep (α := Chal5 p × ColBytes J) (β := Fin J.par.batch → Fin 16 → BitVec 8) (fun q => bad q.1) _
    (fun q => hbad q.1)
  have c3 := card_dep conv _ hconv
  have k1 : Fintype.card (Chal5 p) = p ^ 5 := by
    simp only [Fintype.card_prod, ZMod.card]; ring
  have k2 : ∀ n : Nat, Fintype.card (Fin n → Fin 16 → BitVec 8) = (2 ^ 128) ^ n := by
    intro n
    rw [Fintype.card_fun, card_bytes16, Fintype.card_fin]
  rw [Fintype.card_prod, k2, k2] at c1
  rw [Fintype.card_prod, k1, k2] at c2
  rw [Fintype.card_prod, k1, k2] at c3
  have hsub : {t : Chal5 p × (Fin J.par.batch → Fin 16 → BitVec 8) × ColBytes J |
      P.Wins J A F ser E0 cp two ci seed enc t.1 t.2.1 t.2.2} ⊆
      ((fun q : ((Fin J.par.batch → Fin 16 → BitVec 8) × ColBytes J) × Chal5 p => (q.2, q.1.1, q.1.2)) ''
        {q | q.2 ∈ {t : Chal5 p | verifyWith { E0 with pcs := I } cp two ci (Q.run t.1 t.2.1 t.2.2.1 t.2.2.2.1 t.2.2.2.2)
          ⟨seed, enc t.1, enc t.2.1, enc t.2.2.1, enc t.2.2.2.1, enc t.2.2.2.2⟩ = .ok true}} ∪
      (fun q : (Chal5 p × ColBytes J) × (Fin J.par.batch → Fin 16 → BitVec 8) => (q.1.1, q.2, q.1.2)) ''
        {q | q.2 ∈ bad q.1.1}) ∪
      (fun q : (Chal5 p × (Fin J.par.batch → Fin 16 → BitVec 8)) × ColBytes J => (q.1.1, q.1.2, q.2)) ''
        {q | q.2 ∈ conv q.1} := by
    rintro ⟨t, b, c⟩ hwin
    have hwin : P.Wins J A F ser E0 cp two ci seed enc t b c := hwin
    by_cases hw : wrong t
    · by_cases hbb : b ∈ bad t
      · exact .inl (.inr ⟨((t, c), b), hbb, rfl⟩)
      · exact .inr ⟨((t, b), c), ⟨hw, hbb, hwin⟩, rfl⟩
    · exact .inl (.inl ⟨((b, c), t), hright hwin hw, rfl⟩)
  refine (Set.ncard_le_ncard hsub (Set.toFinite _)).trans ((Set.ncard_union_le _ _).trans ?_)
  refine Nat.add_le_add ((Set.ncard_union_le _ _).trans (Nat.add_le_add ?_ ?_)) ?_
  · refine (Set.ncard_image_le (Set.toFinite _)).trans (c1.trans_eq ?_)
    ring
  · refine (Set.ncard_image_le (Set.toFinite _)).trans (c2.trans_eq ?_)
    ring
  · exact (Set.ncard_image_le (Set.toFinite _)).trans c3

end Ringo
