import Verif.Props.Protocol2
import Verif.Props.JBatch

/-!
# C86: Buckler with Jindo does not prove statements

The evaluations claimed by a proof (`Proof.Evals`) are bound to the commitments by one linear equation only (`C85_values`),
and no challenge depends on them or on the public witnesses.  Whoever commits to arbitrary polynomials, and opens them
honestly, can afterwards choose evaluations that satisfy the equations of the verifier for any public witness.
-/

namespace Ringo

open Finset Polynomial

set_option linter.unusedSectionVars false

section
variable {F : Type} [Field F]

theorem solve_lin (n a b : Nat) (ha : a < n) (hb : b < n) (hab : a ≠ b) (β f : Nat → F) (v Y : F)
    (h : β a * v + β b ≠ 0) :
    ∃ q : F, ∑ i ∈ range n, β i * (f i + q * (if i = a then v else if i = b then 1 else 0)) = Y := by
  have h1 : ∑ i ∈ range n, β i * (if i = a then v else if i = b then 1 else 0) = β a * v + β b := by
    have : ∀ i ∈ range n, β i * (if i = a then v else if i = b then 1 else 0) =
        (if i = a then β a * v else 0) + (if i = b then β b else 0) := by
      intro i _
      by_cases h1 : i = a
      · subst h1; simp [hab]
      · by_cases h2 : i = b
        · subst h2; simp [h1]
        · simp [h1, h2]
    rw [sum_congr rfl this, sum_add_distrib, sum_ite_eq', sum_ite_eq', if_pos (mem_range.2 ha),
      if_pos (mem_range.2 hb)]
  refine ⟨(Y - ∑ i ∈ range n, β i * f i) / (β a * v + β b), ?_⟩
  generalize hq : (Y - ∑ i ∈ range n, β i * f i) / (β a * v + β b) = q
  have h2 : ∀ i ∈ range n, β i * (f i + q * (if i = a then v else if i = b then 1 else 0)) =
      β i * f i + q * (β i * (if i = a then v else if i = b then 1 else 0)) := fun i _ => by ring
  rw [sum_congr rfl h2, sum_add_distrib, ← mul_sum, h1, ← hq]
  field_simp
  ring

end

section
variable {p : Nat} [Fact p.Prime]
variable {E : Env (ZMod p)} {cp : Compilation (ZMod p)} {K : Nat}

theorem linVals_congr (users : Nat → LinearChecker (ZMod p)) (proj : List (List Bool))
    (ev ev' vec : List (ZMod p)) (x : ZMod p) (lin : List (CheckerKey × List (Nat × Nat))) (n : Nat)
    (hl : ∀ e ∈ lin, ∀ w ∈ e.2, w.1 < n ∧ w.2 < n) (h : ∀ i < n, ev.getD i 0 = ev'.getD i 0) :
    linVals cp users proj ev vec x lin = linVals cp users proj ev' vec x lin := by
  unfold linVals
  apply List.flatMap_congr
  intro e he
  apply List.map_congr_left
  intro w hw
  rw [h _ (hl e he w hw).1, h _ (hl e he w hw).2]

/-- Evaluations that satisfy the equations of the verifier, with one left free. -/
theorem accepts_exists {pw0 w0 : Nat} (hr : CtxRefs pw0 w0 cp.ctx) (coms : List E.pcs.Com) (ls ss : ZMod p)
    (ep : E.pcs.Pf) (ch : Challenges) (pe : Nat → ZMod p) (w : Nat → ZMod p)
    (hv : E.setBytes ch.x ^ cp.ctx.rank - 1 ≠ 0) (β : Nat → ZMod p) (Y : ZMod p)
    (hβ : (cp.ctx.lin ≠ [] ∧ β cp.ctx.wCnt * (E.setBytes ch.x ^ cp.ctx.rank - 1) +
        β (nextOf cp.ctx + (if cp.ctx.arith.length > 0 then 1 else 0)) ≠ 0) ∨
      (cp.ctx.sums ≠ [] ∧ β (cp.ctx.wCnt + (if cp.ctx.lin.length > 0 then 1 else 0)) *
        (E.setBytes ch.x ^ cp.ctx.rank - 1) + β (nextOf cp.ctx + (if cp.ctx.arith.length > 0 then 1 else 0) +
          (if cp.ctx.lin.length > 0 then 3 else 0)) ≠ 0)) :
    ∃ ev : List (ZMod p), ev.length = cp.ctx.batch ∧
      ∑ i ∈ range cp.ctx.batch, β i * ev.getD i 0 = Y ∧ (∀ i < cp.ctx.wCnt, ev.getD i 0 = w i) ∧
      Accepts E cp ⟨coms, some ls, some ss, ev, ep⟩ pe ch (ev.getD cp.ctx.wCnt 0)
        (ev.getD (cp.ctx.wCnt + (if cp.ctx.lin.length > 0 then 1 else 0)) 0) ls ss (nextOf cp.ctx)
        (nextOf cp.ctx + (if cp.ctx.arith.length > 0 then 1 else 0))
        (nextOf cp.ctx + (if cp.ctx.arith.length > 0 then 1 else 0) +
          (if cp.ctx.lin.length > 0 then 3 else 0)) := by
  have hbe := batch_eq cp.ctx
  have hno : nextOf cp.ctx = cp.ctx.wCnt + (if cp.ctx.lin.length > 0 then 1 else 0) +
    (if cp.ctx.sums.length > 0 then 1 else 0) := rfl
  obtain ⟨cA, hcA⟩ : ∃ c, c = if cp.ctx.arith.length > 0 then 1 else 0 := ⟨_, rfl⟩
  obtain ⟨cL, hcL⟩ : ∃ c, c = if cp.ctx.lin.length > 0 then 1 else 0 := ⟨_, rfl⟩
  obtain ⟨cS, hcS⟩ : ∃ c, c = if cp.ctx.sums.length > 0 then 1 else 0 := ⟨_, rfl⟩
  have h3L : (if cp.ctx.lin.length > 0 then 3 else 0) = 3 * cL := by rw [hcL]; split <;> rfl
  have h3S : (if cp.ctx.sums.length > 0 then 3 else 0) = 3 * cS := by rw [hcS]; split <;> rfl
  rw [h3L, h3S, ← hcA] at hbe
  rw [← hcL, ← hcS] at hno
  rw [h3L, ← hcA, ← hcL] at hβ
  rw [h3L, ← hcA, ← hcL]
  have kA : cp.ctx.arith ≠ [] → cA = 1 := fun h => by rw [hcA, if_pos (length_pos_ne.2 h)]
  have kL : cp.ctx.lin ≠ [] → cL = 1 := fun h => by rw [hcL, if_pos (length_pos_ne.2 h)]
  have kS : cp.ctx.sums ≠ [] → cS = 1 := fun h => by rw [hcS, if_pos (length_pos_ne.2 h)]
  have hL01 : cL = 0 ∨ cL = 1 := by rw [hcL]; split <;> simp
  clear hcA hcL hcS h3L h3S
  generalize nextOf cp.ctx = nA at *
  generalize hwc : cp.ctx.wCnt = n at *
  set x := E.setBytes ch.x with hx
  set v := x ^ cp.ctx.rank - 1 with hvd
  set w' := (List.range n).map w with hw'
  have hwl : ∀ i < n, w'.getD i 0 = w i := fun i hi => getD_map_range _ _ _ _ hi
  obtain ⟨A, hA⟩ : ∃ A, A = E.setBytes ch.ab * (cp.ctx.arith.map (fun c => c.value pe w)).sum := ⟨_, rfl⟩
  obtain ⟨L, hL⟩ : ∃ L, L = E.setBytes ch.lb * horner (E.setBytes ch.lb)
      (linVals cp E.users (projMatrix E.xof ch.proj cp.ctx.rank) w'
        ((List.range cp.ctx.rank).map (fun i => E.setBytes ch.lc ^ i)) x cp.ctx.lin) 0 := ⟨_, rfl⟩
  obtain ⟨S, hS⟩ : ∃ S, S = E.setBytes ch.sb * (E.setBytes ch.sb *
      (cp.ctx.sums.map (fun c => c.value pe w)).sum) := ⟨_, rfl⟩
  obtain ⟨f0, hf0⟩ : ∃ f0 : Nat → ZMod p, f0 = fun i => if i < n then w i
      else if i = n ∧ cL = 1 then ls - L else if i = n + cL ∧ cS = 1 then ss - S
      else if i = nA ∧ cA = 1 then A / v else 0 := ⟨_, rfl⟩
  -- the equations, for any list with these entries
  have core : ∀ (f : Nat → ZMod p) (ql qs : ZMod p), (∀ i < n, f i = w i) →
      (cA = 1 → f nA = A / v) →
      (cL = 1 → f n = ls - L + ql * v ∧ f (nA + cA) = ql ∧ f (nA + cA + 1) = 0 ∧ f (nA + cA + 2) = 0) →
      (cS = 1 → f (n + cL) = ss - S + qs * v ∧ f (nA + cA + 3 * cL) = qs ∧
        f (nA + cA + 3 * cL + 1) = 0 ∧ f (nA + cA + 3 * cL + 2) = 0) →
      Accepts E cp ⟨coms, some ls, some ss, (List.range cp.ctx.batch).map f, ep⟩ pe ch
        (((List.range cp.ctx.batch).map f).getD n 0) (((List.range cp.ctx.batch).map f).getD (n + cL) 0)
        ls ss nA (nA + cA) (nA + cA + 3 * cL) := by
    intro f ql qs g1 g2 g3 g4
    have e : ∀ i < cp.ctx.batch, ((List.range cp.ctx.batch).map f).getD i 0 = f i :=
      fun i hi => getD_map_range _ _ _ _ hi
    have ew : ∀ i < n, ((List.range cp.ctx.batch).map f).getD i 0 = w i :=
      fun i hi => by rw [e i (by omega), g1 i hi]
    constructor
    · intro hne
      have := kA hne
      simp only
      rw [e nA (by omega), g2 this, ← hx, ← hvd, div_mul_cancel₀ _ hv, hA]
      congr 2
      apply List.map_congr_left
      intro c hc
      exact Constraint.value_congr c _ _ _ _ _ _ (hr.arith c hc) (fun _ _ => rfl) (by rw [hwc]; exact ew)
    · intro hne
      have hc := kL hne
      obtain ⟨a1, a2, a3, a4⟩ := g3 hc
      simp only
      rw [e _ (show nA + cA + 2 < _ by omega), e _ (show nA + cA + 1 < _ by omega), e _ (show nA + cA < _ by omega),
        e n (by omega), a1, a2, a3, a4, mul_zero]
      refine ⟨rfl, ?_⟩
      rw [linVals_congr E.users _ _ w' _ _ _ n (by rw [← hwc]; exact hr.lin)
        (fun i hi => by rw [ew i hi, hwl i hi]), ← hx, ← hL, ← hvd]
      ring
    · intro hne
      have hc := kS hne
      obtain ⟨a1, a2, a3, a4⟩ := g4 hc
      simp only
      rw [e _ (show nA + cA + 3 * cL + 2 < _ by omega), e _ (show nA + cA + 3 * cL + 1 < _ by omega),
        e _ (show nA + cA + 3 * cL < _ by omega), e (n + cL) (by omega), a1, a2, a3, a4, mul_zero]
      refine ⟨rfl, ?_⟩
      have : (cp.ctx.sums.map (fun c => c.value pe (((List.range cp.ctx.batch).map f).getD · 0))).sum =
          (cp.ctx.sums.map (fun c => c.value pe w)).sum := by
        congr 1
        apply List.map_congr_left
        intro c hc
        exact Constraint.value_congr c _ _ _ _ _ _ (hr.sums c hc) (fun _ _ => rfl) (by rw [hwc]; exact ew)
      rw [this, ← hS, ← hx, ← hvd]
      ring
  rcases hβ with ⟨hne, hβ⟩ | ⟨hne, hβ⟩
  · have hc := kL hne
    obtain ⟨q, hq⟩ := solve_lin cp.ctx.batch n (nA + cA) (by omega) (by omega) (by omega) β f0 v Y hβ
    refine ⟨(List.range cp.ctx.batch).map fun i => f0 i + q * (if i = n then v else if i = nA + cA then 1 else 0),
      by simp, ?_, ?_, core _ q 0 ?_ ?_ ?_ ?_⟩
    · rw [← hq]
      exact sum_congr rfl fun i hi => by rw [getD_map_range _ _ _ _ (mem_range.1 hi)]
    · intro i hi
      rw [getD_map_range _ _ _ _ (by omega), if_neg (by omega), if_neg (by omega), hf0]
      simp [hi]
    · intro i hi
      rw [if_neg (by omega), if_neg (by omega), hf0]
      simp [hi]
    · intro h1
      rw [if_neg (by omega), if_neg (by omega), hf0]
      dsimp only
      rw [if_neg (by omega), if_neg (by omega), if_neg (by omega), if_pos (by omega), mul_zero, add_zero]
    · intro _
      refine ⟨?_, ?_, ?_, ?_⟩
      · rw [if_pos rfl, hf0]
        dsimp only
        rw [if_neg (by omega), if_pos (by omega)]
      · rw [if_neg (by omega), if_pos rfl, hf0]
        dsimp only
        rw [if_neg (by omega), if_neg (by omega), if_neg (by omega), if_neg (by omega)]; ring
      · rw [if_neg (by omega), if_neg (by omega), hf0]
        dsimp only
        rw [if_neg (by omega), if_neg (by omega), if_neg (by omega), if_neg (by omega)]; ring
      · rw [if_neg (by omega), if_neg (by omega), hf0]
        dsimp only
        rw [if_neg (by omega), if_neg (by omega), if_neg (by omega), if_neg (by omega)]; ring
    · intro h1
      refine ⟨?_, ?_, ?_, ?_⟩
      · rw [if_neg (by omega), if_neg (by omega), hf0]
        dsimp only
        rw [if_neg (by omega), if_neg (by omega), if_pos (by omega)]; ring
      all_goals
        rw [if_neg (by omega), if_neg (by omega), hf0]
        dsimp only
        rw [if_neg (by omega), if_neg (by omega), if_neg (by omega), if_neg (by omega)]; ring
  · have hc := kS hne
    obtain ⟨q, hq⟩ := solve_lin cp.ctx.batch (n + cL) (nA + cA + 3 * cL) (by omega) (by omega) (by omega) β f0 v Y hβ
    refine ⟨(List.range cp.ctx.batch).map fun i => f0 i + q * (if i = n + cL then v else
      if i = nA + cA + 3 * cL then 1 else 0), by simp, ?_, ?_, core _ 0 q ?_ ?_ ?_ ?_⟩
    · rw [← hq]
      exact sum_congr rfl fun i hi => by rw [getD_map_range _ _ _ _ (mem_range.1 hi)]
    · intro i hi
      rw [getD_map_range _ _ _ _ (by omega), if_neg (by omega), if_neg (by omega), hf0]
      simp [hi]
    · intro i hi
      rw [if_neg (by omega), if_neg (by omega), hf0]
      simp [hi]
    · intro h1
      rw [if_neg (by omega), if_neg (by omega), hf0]
      dsimp only
      rw [if_neg (by omega), if_neg (by omega), if_neg (by omega), if_pos (by omega), mul_zero, add_zero]
    · intro h1
      refine ⟨?_, ?_, ?_, ?_⟩
      · rw [if_neg (by omega), if_neg (by omega), hf0]
        dsimp only
        rw [if_neg (by omega), if_pos (by omega)]; ring
      all_goals
        rw [if_neg (by omega), if_neg (by omega), hf0]
        dsimp only
        rw [if_neg (by omega), if_neg (by omega), if_neg (by omega), if_neg (by omega)]; ring
    · intro h1
      refine ⟨?_, ?_, ?_, ?_⟩
      · rw [if_pos rfl, hf0]
        dsimp only
        rw [if_neg (by omega), if_neg (by omega), if_pos (by omega)]
      · rw [if_neg (by omega), if_pos rfl, hf0]
        dsimp only
        rw [if_neg (by omega), if_neg (by omega), if_neg (by omega), if_neg (by omega)]; ring
      all_goals
        rw [if_neg (by omega), if_neg (by omega), hf0]
        dsimp only
        rw [if_neg (by omega), if_neg (by omega), if_neg (by omega), if_neg (by omega)]; ring

/-- With a commitment scheme that binds the evaluations by one linear equation only, whoever has made a proof for
arbitrary commitments has proofs for all public witnesses. -/
theorem forge_of_linear {ty pw0 w0 : Nat} {ops : List (CtxOp (ZMod p))} (hK : 3 ≤ K)
    (hc : compile (2 ^ K) ty pw0 w0 ops = .ok cp) (hv : ∀ op ∈ ops, op.Valid pw0 w0)
    (hlt : 2 ^ K < max cp.ctx.arithCheckMaxRank cp.ctx.sumCheckMaxRank) (hj : 2 ^ K ≤ E.pcs.rank + 1)
    (hlin : ∀ seed, LinOK (2 ^ K) E.users (projMatrix E.xof seed (2 ^ K)) cp.ctx.lin)
    (coms : List E.pcs.Com) (hcl : coms.length = cp.ctx.batch) (ls ss : ZMod p) :
    ∃ x : ZMod p,
      (∀ evals ep, evals.length = cp.ctx.batch → ∃ ch r,
        challengesV E cp ⟨coms, some ls, some ss, evals, ep⟩ = .ok (some (ch, r)) ∧ x = E.setBytes ch.x) ∧
      (x ^ 2 ^ K ≠ 1 → ∀ (ep : E.pcs.Pf) (β : Nat → ZMod p) (Y : ZMod p),
        (∀ y : List (ZMod p), y.length = cp.ctx.batch → ∑ i ∈ range cp.ctx.batch, β i * y.getD i 0 = Y →
          E.pcs.verify x coms y ep = .ok true) →
        ((cp.ctx.lin ≠ [] ∧ β cp.ctx.wCnt * (x ^ 2 ^ K - 1) +
            β (nextOf cp.ctx + (if cp.ctx.arith.length > 0 then 1 else 0)) ≠ 0) ∨
          (cp.ctx.sums ≠ [] ∧ β (cp.ctx.wCnt + (if cp.ctx.lin.length > 0 then 1 else 0)) *
            (x ^ 2 ^ K - 1) + β (nextOf cp.ctx + (if cp.ctx.arith.length > 0 then 1 else 0) +
            (if cp.ctx.lin.length > 0 then 3 else 0)) ≠ 0)) →
        ∀ (w : Nat → ZMod p) (two : List TwoEntry) (c' : Circ (ZMod p)) (pw : List (List (ZMod p))),
          c'.ty = cp.ctx.circType → assignV cp two c'.val = .ok (some pw) →
          ∃ evals, (∀ i < cp.ctx.wCnt, evals.getD i 0 = w i) ∧
            verify E cp two c' ⟨coms, some ls, some ss, evals, ep⟩ = .ok true) := by
  have hdef := (compile_inv hc).1
  obtain ⟨Ke, g, ge, hgood⟩ := compile_good hK hc hlt
  have hr := CtxRefs.define ops hv (ctx := newContext (ZMod p) (2 ^ K) ty _ _)
    ⟨le_rfl, le_rfl, by simp [newContext], by simp [newContext], by simp [newContext]⟩ hdef
  have hi2 : CtxInv2 (2 ^ K) cp.ctx := CtxInv2.define ops (CtxInv2.new _ _ _ _) hdef
  have hbe := batch_eq cp.ctx
  -- the challenges do not depend on the evaluations
  obtain ⟨ch, hch⟩ : ∃ ch, ∀ ev ep, chalsOf E cp.ctx ⟨coms, some ls, some ss, ev, ep⟩ = ch := by
    by_cases hne : Nonempty E.pcs.Pf
    · obtain ⟨ep0⟩ := hne
      exact ⟨chalsOf E cp.ctx ⟨coms, some ls, some ss, [], ep0⟩, fun _ _ => rfl⟩
    · exact ⟨⟨[], [], [], [], [], []⟩, fun _ ep => (hne ⟨ep⟩).elim⟩
  refine ⟨E.setBytes ch.x, ?_, ?_⟩
  · intro ev ep hl
    have := challengesV_eq (E := E) (cp := cp) ⟨coms, some ls, some ss, ev, ep⟩ hi2.lt ⟨by
      show _ ≤ coms.length; omega, by show _ ≤ ev.length; omega, fun _ => ⟨_, rfl⟩, fun _ => ⟨_, rfl⟩⟩
    rw [hch] at this
    exact ⟨ch, _, this, rfl⟩
  · intro hx ep β Y hpcs hβ w two c' pw hty ha'
    have hpw := assignV_shape ha'
    rw [hgood.rank] at hpw
    obtain ⟨pps, -, p1, -, -, -, -⟩ := encodePub_spec hgood pw hpw.2
    rw [← hgood.rank] at hx hβ
    obtain ⟨ev, e1, e2, e3, e4⟩ := accepts_exists hr coms ls ss ep ch
      (fun i => (listPoly (pps.getD i [])).eval (E.setBytes ch.x)) w (sub_ne_zero.2 hx) β Y hβ
    refine ⟨ev, e3, ?_⟩
    have hb : E.pcs.verify (E.setBytes (chalsOf E cp.ctx ⟨coms, some ls, some ss, ev, ep⟩).x) coms ev ep = .ok true := by
      rw [hch]; exact hpcs ev e1 e2
    obtain ⟨pps', -, q1, q2⟩ := verify_spec hgood (by omega) hi2 hr hty ha' ⟨coms, some ls, some ss, ev, ep⟩
      (hlin _) hcl e1 (fun _ => by simp) (fun _ => by simp) hb
    have hpp : pps' = pps := by
      rw [p1] at q1
      injection q1 with q1
      have := congrArg (List.map Poly.coeffs) q1
      simpa [List.map_map, Function.comp_def] using this.symm
    subst hpp
    rw [q2, hch]
    simp only [Except.ok.injEq, decide_eq_true_eq]
    exact ⟨trivial, e4⟩

end

section
variable {p : Nat} [Fact p.Prime] {T T' : Type} [AddCommGroup T] [AddCommGroup T']

/-- Jindo as the commitment scheme of Buckler.  `Evaluate` draws nothing. `ser` stands for
`Commitment.WriteRawTo`. -/
def jindoPCS [DecidableEq T] (J : JEnv p T T') (ser : List T' → Bytes) : PCS (ZMod p) where
  Com := List T'
  Open := JOpen T T'
  Pf := JProof T T'
  Rnd := ComRand p
  rank := J.par.mat.rank
  commit := J.commit
  evaluate x vs coms opens _ := J.evaluate x vs coms opens
  verify := J.verify
  ser := ser

/-- What the value of polynomial `i` is multiplied with in the combination that is checked. -/
noncomputable def JEnv.weight (J : JEnv p T T') (x : ZMod p) (coms : List (List T')) (i : Nat) : ZMod p :=
  (decoded p J.par.enc (J.betInt x coms i)).getD 0 0

/-- **C86 is false**: for a circuit with a linear or a sum constraint, one set of commitments (to any polynomials
`vs`) and one evaluation proof by the honest Jindo prover are completed to an accepted proof, for every public
witness.  The conditions on `x` and the batching challenges fail with negligible probability. -/
theorem C86_refuted [DecidableEq T] (J : JEnv p T T') (hJ : J.Good) (A : J.ringQ.Lawful)
    (A' : J.ringQ'.Lawful) (ser : List T' → Bytes) (E0 : Env (ZMod p)) {cp : Compilation (ZMod p)} {K : Nat}
    {ty pw0 w0 : Nat} {ops : List (CtxOp (ZMod p))} (hK : 3 ≤ K)
    (hc : compile (2 ^ K) ty pw0 w0 ops = .ok cp) (hv : ∀ op ∈ ops, op.Valid pw0 w0)
    (hlt : 2 ^ K < max cp.ctx.arithCheckMaxRank cp.ctx.sumCheckMaxRank) (hj : 2 ^ K ≤ J.par.mat.rank + 1)
    (hb : J.par.batch = cp.ctx.batch)
    (hlin : ∀ seed, LinOK (2 ^ K) E0.users (projMatrix E0.xof seed (2 ^ K)) cp.ctx.lin)
    (vs : List (List (ZMod p))) (hl : vs.length = J.par.batch)
    (hvs : ∀ v ∈ vs, v ≠ [] ∧ v.length ≤ J.par.mat.rank) (rs : Nat → ComRand p) (S : Nat)
    (hS : ∀ i j k t, (((rs i).col j).cell k t).natAbs ≤ S ∧ (((rs i).col j).mlwe k t).natAbs ≤ S)
    (b1 : J.toFloat (Nat.sqrt
      (J.par.dcmpLen * (J.par.enc.N * JEnv.batchGrow J (JEnv.truncMax J) ^ 2) +
        J.par.outRank * (J.par.enc.N * JEnv.batchGrow J (2 ^ J.par.outCut) ^ 2))) < J.par.dcmpNm)
    (b2 : J.toFloat (Nat.sqrt
      (J.par.mat.rows * (J.par.enc.N * JEnv.combGrow J (JEnv.encSize J S) ^ 2) +
        (J.par.mlweRank + J.par.inRank) * (J.par.enc.N * JEnv.combGrow J S ^ 2) +
        J.par.inRank * (J.par.enc.N * JEnv.combGrow J (2 ^ J.par.inCut) ^ 2))) < J.par.resNm)
    (b3 : 2 * (J.par.mat.rows * (J.par.enc.N * (J.par.enc.ecd.base *
      JEnv.batchGrow J (JEnv.encSize J S)))) + 1 < J.ringQ.qs.prod) (ls ss : ZMod p) :
    ∃ (coms : List (List T')) (x : ZMod p) (ep : JProof T T'),
      (∀ evals ep, evals.length = cp.ctx.batch → ∃ ch r,
        challengesV { E0 with pcs := jindoPCS J ser } cp ⟨coms, some ls, some ss, evals, ep⟩ = .ok (some (ch, r)) ∧
          x = E0.setBytes ch.x) ∧
      (x ^ 2 ^ K ≠ 1 →
        (cp.ctx.lin ≠ [] ∧ J.weight x coms cp.ctx.wCnt * (x ^ 2 ^ K - 1) +
            J.weight x coms (nextOf cp.ctx + (if cp.ctx.arith.length > 0 then 1 else 0)) ≠ 0) ∨
        (cp.ctx.sums ≠ [] ∧
          J.weight x coms (cp.ctx.wCnt + (if cp.ctx.lin.length > 0 then 1 else 0)) * (x ^ 2 ^ K - 1) +
            J.weight x coms (nextOf cp.ctx + (if cp.ctx.arith.length > 0 then 1 else 0) +
            (if cp.ctx.lin.length > 0 then 3 else 0)) ≠ 0) →
        ∀ (w : Nat → ZMod p) (two : List TwoEntry) (c' : Circ (ZMod p)) (pw : List (List (ZMod p))),
          c'.ty = cp.ctx.circType → assignV cp two c'.val = .ok (some pw) →
          ∃ evals, (∀ i < cp.ctx.wCnt, evals.getD i 0 = w i) ∧
            verify { E0 with pcs := jindoPCS J ser } cp two c' ⟨coms, some ls, some ss, evals, ep⟩ = .ok true) := by
  obtain ⟨coms, opens, -, h1, h2, -⟩ := C63_bounded J hJ A A' 0 vs hl hvs rs S hS b1 b2 b3
  obtain ⟨x, h4, h5⟩ := forge_of_linear (E := { E0 with pcs := jindoPCS J ser }) hK hc hv hlt hj hlin coms
    (h2.trans hb) ls ss
  obtain ⟨coms', opens', ep, h1', h2', -, h6, h7⟩ := C63_bounded J hJ A A' x vs hl hvs rs S hS b1 b2 b3
  have hcc : coms' = coms := by
    apply List.ext_getElem (by omega)
    intro i hi hi'
    have a := (h1' i (by omega)).symm.trans (h1 i (by omega))
    have := (Prod.mk.inj (Except.ok.inj a)).1
    rwa [List.getD_eq_getElem _ _ hi, List.getD_eq_getElem _ _ hi'] at this
  subst hcc
  refine ⟨coms', x, ep, h4, fun hx hβ => ?_⟩
  refine h5 hx ep (J.weight x coms') (∑ i ∈ range cp.ctx.batch, J.weight x coms' i *
    (vs.map fun v => ∑ i ∈ range v.length, v.getD i 0 * x ^ i).getD i 0) (fun y hy he => ?_) hβ
  refine (C85_values J hJ A A' x coms' _ ep h7 y).2 ⟨by rw [hb]; exact hy, ?_⟩
  rw [hb]
  exact he

end

/-! ## A case -/

instance prime257 : Fact (Nat.Prime 257) := ⟨by norm_num⟩

/-- The circuit `&struct{ U PublicWitness; X Witness }`. -/
def circ86 {p : Nat} (u x : List (ZMod p)) : Val (ZMod p) := .ptr (.fields [.pub true true u, .wit true true x])

/-- `X = U`, and the entries of `X` sum to zero. -/
def ops86 {p : Nat} : List (CtxOp (ZMod p)) := [.arith [⟨1, none, [0]⟩, ⟨-1, some 0, []⟩], .sum [⟨1, none, [0]⟩] 0]

theorem compile86 : ∃ cp, compile (p := 257) 8 0 1 1 ops86 = .ok cp ∧ cp.ctx.pwCnt = 1 ∧ cp.ctx.wCnt = 1 ∧
    cp.ctx.twoDcmp = [] ∧ cp.ctx.sumCheckMaxRank = 9 ∧ cp.ctx.batch = 6 ∧ cp.ctx.lin = [] ∧ cp.ctx.rank = 8 ∧
    cp.ctx.sums = [[⟨1, none, [0]⟩]] ∧ cp.ctx.arith = [[⟨1, none, [0]⟩, ⟨-1, some 0, []⟩]] ∧ cp.ctx.circType = 0 ∧
    cp.ctx.commitRank = 18 := by
  have hdef : ∃ ctx, (newContext (ZMod 257) 8 0 1 1).define ops86 = .ok ctx ∧ ctx.embRank = 16 ∧
      ctx.pwCnt = 1 ∧ ctx.wCnt = 1 ∧ ctx.twoDcmp = [] ∧ ctx.sumCheckMaxRank = 9 ∧ ctx.batch = 6 ∧ ctx.lin = [] ∧
      ctx.rank = 8 ∧ ctx.sums = [[⟨1, none, [0]⟩]] ∧ ctx.arith = [[⟨1, none, [0]⟩, ⟨-1, some 0, []⟩]] ∧
      ctx.circType = 0 ∧ ctx.commitRank = 18 := by
    refine ⟨_, rfl, rfl, rfl, rfl, rfl, rfl, rfl, rfl, rfl, rfl, rfl, rfl, rfl⟩
  obtain ⟨ctx, a1, a2, a3⟩ := hdef
  obtain ⟨cp, h1, h2⟩ := compile_total (p := 257) (N := 8) (ty := 0) (pw0 := 1) (w0 := 1)
    (K := 3) (Ke := 4) rfl (by norm_num) (by norm_num) a1 a2 (by norm_num) (by norm_num)
  exact ⟨cp, h1, by rw [h2]; exact a3⟩

/-- Parameters for six polynomials with at most 22 coefficients. -/
def exPar86 : JPar where
  enc := ⟨⟨16, 2⟩, 2, 4, 1⟩
  mat := ⟨22, 12, 1, 2⟩
  batch := 6
  inRank := 1
  outRank := 1
  mlweRank := 1
  inCut := 44
  outCut := 20
  dcmpLen := 2
  resNm := 2 ^ 60
  dcmpNm := 2 ^ 59

theorem exEnv86
    (xof : List (JMsg (RQ exQs 4) (RQ [2305843009213693951] 4) (ZMod 257)) → Nat → List (BitVec 8))
    (hx : ∀ ms i, (xof ms i).length = 16) :
    ∃ E : JEnv 257 (RQ exQs 4) (RQ [2305843009213693951] 4), E.par = exPar86 ∧ E.xof = xof ∧
      E.toFloat = (fun n : Nat => (n : ℚ)) ∧ E.ringQ.qs = exQs ∧ E.ringQ'.qs = [2305843009213693951] ∧
      E.Good ∧ Nonempty E.ringQ.Lawful ∧ Nonempty E.ringQ'.Lawful := by
  apply env_exists exPar86 exQs 2305843009213693951 exQs_chain exQ'_chain
  · constructor <;> norm_num [exPar86]
  · constructor <;> norm_num [exPar86]
  · rfl
  · exact (show 1 ≤ challengeBound ⟨16, 2⟩ by decide)
  · have h : challengeBound exPar86.enc.ecd = 8 := (show challengeBound ⟨16, 2⟩ = 8 by decide)
    rw [h]; simp [exQs]
  · simp [exPar86]
  · simp [exPar86]
  · simp [exPar86]
  · simp [exPar86]
  · norm_num [exPar86, exQs]
  · norm_num [exPar86]
  · exact hx

theorem ex_bounds86
    (E : JEnv 257 (RQ exQs 4) (RQ [2305843009213693951] 4)) (hp : E.par = exPar86)
    (hf : E.toFloat = (fun n : Nat => (n : ℚ))) (hq : E.ringQ.qs = exQs) :
    E.toFloat (Nat.sqrt
      (E.par.dcmpLen * (E.par.enc.N * JEnv.batchGrow E (JEnv.truncMax E) ^ 2) +
        E.par.outRank * (E.par.enc.N * JEnv.batchGrow E (2 ^ E.par.outCut) ^ 2))) < E.par.dcmpNm ∧
    E.toFloat (Nat.sqrt
      (E.par.mat.rows * (E.par.enc.N * JEnv.combGrow E (JEnv.encSize E 3) ^ 2) +
        (E.par.mlweRank + E.par.inRank) * (E.par.enc.N * JEnv.combGrow E 3 ^ 2) +
        E.par.inRank * (E.par.enc.N * JEnv.combGrow E (2 ^ E.par.inCut) ^ 2))) < E.par.resNm ∧
    2 * (E.par.mat.rows * (E.par.enc.N * (E.par.enc.ecd.base *
      JEnv.batchGrow E (JEnv.encSize E 3)))) + 1 < E.ringQ.qs.prod := by
  have h8 : challengeBound ⟨16, 2⟩ = 8 := by decide
  have hs : ∀ n m : Nat, n < m * m → ((Nat.sqrt n : Nat) : ℚ) < (m : ℚ) := by
    intro n m h
    exact_mod_cast Nat.sqrt_lt.mpr h
  rw [hf]
  refine ⟨?_, ?_, ?_⟩
  · have := hs (E.par.dcmpLen * (E.par.enc.N * JEnv.batchGrow E (JEnv.truncMax E) ^ 2) +
        E.par.outRank * (E.par.enc.N * JEnv.batchGrow E (2 ^ E.par.outCut) ^ 2)) (2 ^ 59) (by
      unfold JEnv.batchGrow JEnv.chalGrow JEnv.truncMax
      rw [hp, hq]
      simp only [exPar86, h8]
      norm_num [exQs])
    rw [hp] at this ⊢
    refine lt_of_lt_of_eq this ?_
    norm_num [exPar86]
  · have := hs (E.par.mat.rows * (E.par.enc.N * JEnv.combGrow E (JEnv.encSize E 3) ^ 2) +
        (E.par.mlweRank + E.par.inRank) * (E.par.enc.N * JEnv.combGrow E 3 ^ 2) +
        E.par.inRank * (E.par.enc.N * JEnv.combGrow E (2 ^ E.par.inCut) ^ 2)) (2 ^ 60) (by
      unfold JEnv.combGrow JEnv.batchGrow JEnv.chalGrow JEnv.encSize
      rw [hp]
      simp only [exPar86, h8]
      norm_num)
    rw [hp] at this ⊢
    refine lt_of_lt_of_eq this ?_
    norm_num [exPar86]
  · unfold JEnv.batchGrow JEnv.chalGrow JEnv.encSize
    rw [hp, hq]
    simp only [exPar86, h8]
    norm_num [exQs]

theorem chal86 : chalInt ⟨⟨16, 2⟩, 2, 4, 1⟩ (List.replicate 16 1) = [1, 0, 0, 0] := by
  decide +kernel

open Classical in
/-- **Case for C86**: the statement `X = U`, `Σ X = 0` for `U = (1, …, 1)` is false (over the integers modulo 257,
rank 8), and there is an accepted proof of it.  Jindo is run with the parameters `exPar86`; the hash function of the
transcript and the serialisations are arbitrary, `SetBytes` of the challenge is 3, and the bytes of the challenges of
Jindo are all one. -/
theorem C86_case (hash : Bytes → Bytes) (xof : Bytes → Nat → UInt8) (marshal : ZMod 257 → Bytes)
    (users : Nat → LinearChecker (ZMod 257)) (ser : List (RQ [2305843009213693951] 4) → Bytes) :
    (∀ x : List (ZMod 257), ¬ ∀ op ∈ ops86, op.HonestFor 8 users [List.replicate 8 1] [x]) ∧
    ∃ cp, compile (p := 257) 8 0 1 1 ops86 = .ok cp ∧
    ∃ J : JEnv 257 (RQ exQs 4) (RQ [2305843009213693951] 4), J.Good ∧ J.par = exPar86 ∧
      ∃ pf, verify ⟨jindoPCS J ser, hash, xof, marshal, fun _ => 3, users⟩ cp []
        ⟨0, circ86 (List.replicate 8 1) []⟩ pf = .ok true := by
  constructor
  · intro x h
    have h1 := h (.arith [⟨1, none, [0]⟩, ⟨-1, some 0, []⟩]) (by simp [ops86])
    have h2 := h (.sum [⟨1, none, [0]⟩] 0) (by simp [ops86])
    have h3 : ∀ i < 8, x.getD i 0 = 1 := by
      intro i hi
      have := h1 i hi
      simp only [Constraint.onRow, Constraint.value, Term.value, rowOf, List.map_cons, List.map_nil, List.prod_cons,
        List.prod_nil, List.sum_cons, List.sum_nil, List.getD_cons_zero] at this
      rw [List.getD_eq_getElem (List.replicate 8 1) 0 (by simpa using hi), List.getElem_replicate] at this
      linear_combination this
    have h4 := h2.2
    simp only [Constraint.onRow, Constraint.value, Term.value, rowOf, List.map_cons, List.map_nil, List.prod_cons,
      List.prod_nil, List.sum_cons, List.sum_nil, List.getD_cons_zero] at h4
    rw [sum_congr rfl (g := fun _ => (1 : ZMod 257)) (fun i hi => by rw [h3 i (mem_range.1 hi)]; ring)] at h4
    exact absurd h4 (by decide)
  obtain ⟨cp, h1, h2, h3, h4, h5, h6, h7, h8, h9, h10, h11, h12⟩ := compile86
  refine ⟨cp, h1, ?_⟩
  obtain ⟨J, j1, j2, j3, j4, j5, j6, ⟨A⟩, ⟨A'⟩⟩ := exEnv86 (fun _ _ => List.replicate 16 1) (by simp)
  refine ⟨J, j6, j1, ?_⟩
  obtain ⟨b1, b2, b3⟩ := ex_bounds86 J j1 j3 j4
  obtain ⟨coms, x, ep, e1, e2⟩ := C86_refuted J j6 A A' ser
    (⟨jindoPCS J ser, hash, xof, marshal, fun _ => 3, users⟩ : Env (ZMod 257)) (cp := cp) (K := 3) (le_refl 3) h1
    (by
      intro op hop
      simp only [ops86, List.mem_cons, List.not_mem_nil, or_false] at hop
      rcases hop with rfl | rfl
      · intro t ht
        simp only [List.mem_cons, List.not_mem_nil, or_false] at ht
        rcases ht with rfl | rfl <;> simp
      · intro t ht
        simp only [List.mem_cons, List.not_mem_nil, or_false] at ht
        rcases ht with rfl; simp)
    (by rw [h5]; simp) (by rw [j1]; simp [exPar86]) (by rw [j1, h6]; rfl) (by rw [h7]; intro _ e he; simp at he)
    (List.replicate 6 [0]) (by rw [j1]; rfl) (by rw [j1]; simp [exPar86]) exRand 3 exRand_le b1 b2 b3 0 0
  have hx : x = 3 := by
    obtain ⟨ch, r, -, e⟩ := e1 (List.replicate cp.ctx.batch 0) ep (by simp)
    exact e
  subst hx
  have hw : ∀ i, J.weight 3 coms i = 1 := by
    intro i
    unfold JEnv.weight JEnv.betInt
    rw [j2, j1, if_pos (by simp [exPar86])]
    simp only [exPar86, chal86]
    simp [decoded, Finset.sum_range_succ]
  obtain ⟨ev, -, e3⟩ := e2 (by decide) (.inr ⟨by rw [h9]; simp, by rw [hw, hw]; decide⟩) (fun _ => 0) []
    ⟨0, circ86 (List.replicate 8 1) []⟩ [List.replicate 8 1] h11.symm (by
      unfold assignV
      rw [h8, h2]
      rfl)
  exact ⟨_, e3⟩

end Ringo
