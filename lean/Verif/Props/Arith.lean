import Verif.Proof.Piop2
import Verif.Props.Csprng
import Mathlib.Tactic.NormNum.Prime

/-!
# C34–C36: the embedding rank and the arithmetic check
-/

namespace Ringo

open Finset Polynomial

section
variable {p : Nat} [Fact p.Prime]

/-- When `Compile` succeeds. -/
theorem compile_total {N ty pw0 w0 : Nat} {ops : List (CtxOp (ZMod p))} {ctx : Context (ZMod p)}
    {K Ke : Nat} (hN : N = 2 ^ K) (hK : 1 ≤ K) (hKe : 1 ≤ Ke)
    (hd : (newContext (ZMod p) N ty pw0 w0).define ops = .ok ctx)
    (he : ctx.embRank = 2 ^ Ke) (h1 : 2 * 2 ^ K ∣ p - 1) (h2 : 2 * 2 ^ Ke ∣ p - 1) :
    ∃ cp, compile N ty pw0 w0 ops = .ok cp ∧ cp.ctx = ctx := by
  obtain ⟨T, -, t1, -⟩ := cyclic_good p K hK h1
  obtain ⟨Te, -, t2, -⟩ := cyclic_good p Ke hKe h2
  refine ⟨⟨ctx, ⟨2 ^ Ke, Te⟩, ⟨T, 2 ^ Ke⟩⟩, ?_, rfl⟩
  unfold compile
  rw [hd, go_bind_ok]
  simp only [he, newCyclicEvaluator, newBEncoder, hN]
  rw [t1, t2]; rfl

theorem compile_ev_rank {N ty pw0 w0 : Nat} {ops : List (CtxOp (ZMod p))} {cp : Compilation (ZMod p)}
    (h : compile N ty pw0 w0 ops = .ok cp) : cp.ev.rank = cp.ctx.embRank := by
  have h2 := (compile_inv h).2.1
  unfold newCyclicEvaluator at h2
  obtain ⟨T, -, h2⟩ := bind_ok_inv h2
  injection h2 with h2; rw [← h2]

/-- **C34.** Whatever constraint-adding calls a circuit makes, the rank of the compiled prover's
evaluator exceeds the degree of every arithmetic and sumcheck constraint polynomial, and of every
product formed by the linear check.  Public encodings have degree below the witness rank, committed
encodings degree at most the witness rank. -/
theorem C34_noWrap {N ty pw0 w0 : Nat} {ops : List (CtxOp (ZMod p))} {cp : Compilation (ZMod p)}
    (h : compile N ty pw0 w0 ops = .ok cp) (hN : 2 ≤ N) (hpow : ∃ K, N = 2 ^ K)
    (pub wit : Nat → (ZMod p)[X]) (hp : ∀ i, (pub i).natDegree ≤ N - 1)
    (hw : ∀ i, (wit i).natDegree ≤ N) :
    (∀ c ∈ cp.ctx.arith ++ cp.ctx.sums, (c.poly pub wit).natDegree < cp.ev.rank) ∧
      (cp.ctx.lin ≠ [] → ∀ (v : (ZMod p)[X]) (i : Nat), v.natDegree ≤ N - 1 →
        (v * wit i).natDegree < cp.ev.rank) := by
  have hi : CtxInv N pw0 w0 cp.ctx := CtxInv.define ops (CtxInv.new _ _ _ _) (compile_inv h).1
  rw [compile_ev_rank h]
  refine ⟨fun c hc => ?_, fun hl v i hv => ?_⟩
  · have h1 := Constraint.poly_natDegree' N c pub wit (fun _ _ i _ => hp i) (fun _ _ j _ => hw j)
    have h2 : c.maxRank N ≤ max cp.ctx.arithCheckMaxRank cp.ctx.sumCheckMaxRank := by
      rcases List.mem_append.mp hc with hc | hc
      · exact le_trans (hi.arithMax c hc) (le_max_left _ _)
      · exact le_trans (hi.sumMax c hc) (le_max_right _ _)
    have h3 := cp.ctx.embRank_ge (by omega)
    omega
  · have h1 := hi.linMax hl
    have hne : max cp.ctx.arithCheckMaxRank cp.ctx.sumCheckMaxRank ≠ 0 := by omega
    have h2 := cp.ctx.embRank_ge hne
    obtain ⟨k, hk⟩ := cp.ctx.embRank_pow hne
    obtain ⟨K, rfl⟩ := hpow
    have h3 : 2 * 2 ^ K - 1 ≤ 2 ^ k := by rw [← hk]; omega
    have h4 : K < k := by
      rw [← Nat.pow_lt_pow_iff_right (show 1 < 2 by norm_num)]
      rcases Nat.lt_or_ge 2 (2 ^ K) with h | h
      · omega
      · have : 2 ^ K = 2 := by omega
        rcases Nat.lt_or_ge (2 ^ K) (2 ^ k) with h5 | h5
        · exact h5
        · exfalso
          have h6 : 2 ^ k = 1 ∨ 2 ^ k = 2 := by have := Nat.two_pow_pos k; omega
          omega
    have h5 : 2 * 2 ^ K ≤ 2 ^ k := by
      rw [← pow_succ']; exact Nat.pow_le_pow_right (by norm_num) h4
    rw [hk]
    refine lt_of_le_of_lt natDegree_mul_le ?_
    have := hw i
    omega

/-! ## C35 -/

theorem Constraint.value_congr {F : Type} [CommRing F] (c : Constraint F) (pub pub' wit wit' : Nat → F)
    (a b : Nat) (hr : c.Refs a b) (hp : ∀ i < a, pub i = pub' i) (hw : ∀ j < b, wit j = wit' j) :
    c.value pub wit = c.value pub' wit' := by
  unfold Constraint.value
  congr 1
  apply List.map_congr_left
  intro t ht
  unfold Term.value
  have h1 : (t.wits.map wit) = t.wits.map wit' :=
    List.map_congr_left (fun j hj => hw j ((hr t ht).2 j hj))
  rw [h1]
  congr 2
  cases hpub : t.pub with
  | none => rfl
  | some i => exact hp i ((hr t ht).1 i hpub)

theorem expU64_eq {F : Type} [Field F] (x : F) (e : Nat) : expU64 x e = x ^ e := C01_exp x e

/-- The evaluations the verifier works with: entry `i` of `evals` is the value at `x` of the `i`-th
committed polynomial. -/
def EvalsOf (wps : List (List (ZMod p))) (x : ZMod p) (evals : List (ZMod p)) : Prop :=
  ∀ (i : Nat) (v : List (ZMod p)), wps[i]? = some v → evals[i]? = some (evalAt v.length v x)

theorem EvalsOf.getD {wps : List (List (ZMod p))} {x : ZMod p} {evals : List (ZMod p)}
    (h : EvalsOf wps x evals) (i : Nat) (hi : i < wps.length) :
    evals.getD i 0 = (witPoly wps i).eval x := by
  have := h i wps[i] (by simp [hi])
  rw [List.getD_eq_getElem?_getD, this]
  unfold witPoly
  rw [listPoly_eval]
  simp [hi]

omit [Fact p.Prime] in
theorem EvalsOf.length {wps : List (List (ZMod p))} {x : ZMod p} {evals : List (ZMod p)}
    (h : EvalsOf wps x evals) : wps.length ≤ evals.length := by
  by_contra hlt
  push Not at hlt
  have := h evals.length wps[evals.length] (by simp [hlt])
  simp at this

theorem evaluate_map (pps : List (List (ZMod p))) (x : ZMod p) :
    (pps.map (fun e => (⟨e, false⟩ : Poly (ZMod p)))).mapM (fun e => e.evaluate x) =
      .ok (pps.map (fun e => evalAt e.length e x)) := by
  induction pps with
  | nil => rfl
  | cons e pps ih =>
    have he : (⟨e, false⟩ : Poly (ZMod p)).evaluate x = .ok (evalAt e.length e x) :=
      (C20_evaluate e x).1
    rw [List.map_cons, List.mapM_cons, he, go_bind_ok, ih]; rfl

/-- Completeness of the arithmetic check, for the tables of the prover. -/
theorem arithCheck_run {K Ke : Nat} {g ge : ZMod p} {cp : Compilation (ZMod p)}
    (h : GoodCp K Ke g ge cp)
    {pwNTT : List (Poly (ZMod p))} {wNTT : List (Option (Poly (ZMod p)))}
    {pw sw wps pps : List (List (ZMod p))} (hwl : wps.length = sw.length) (hpl : pps.length = pw.length)
    (ht : NttTables Ke (X ^ 2 ^ Ke - 1) (fun i => ge ^ rev Ke i) pw.length sw.length pwNTT wNTT
      (witPoly pps) (witPoly wps))
    (p4 : ∀ i < pw.length, (witPoly pps i).natDegree ≤ 2 ^ K - 1 ∧
        ∀ j < 2 ^ K, (witPoly pps i).eval (g ^ rev K j) = (pw.getD i []).getD j 0)
    (p5 : ∀ i < sw.length, (witPoly wps i).natDegree ≤ 2 ^ K ∧
        ∀ j < 2 ^ K, (witPoly wps i).eval (g ^ rev K j) = (sw.getD i []).getD j 0)
    (hr : ∀ c ∈ cp.ctx.arith, c.Refs pw.length sw.length)
    (hle : 2 ^ K ≤ cp.ctx.arithCheckMaxRank)
    (hsat : ∀ i < 2 ^ K, (cp.ctx.arith.map (fun c => c.onRow pw sw i)).sum = 0) (b : ZMod p) :
    ∃ quo, arithCheckP cp b pwNTT wNTT = .ok quo ∧ quo.length = cp.ctx.arithCheckMaxRank - 2 ^ K ∧
      ∀ x evals, EvalsOf wps x evals →
        arithCheckV cp.ctx b (expU64 x cp.ctx.rank - 1) (evalAt quo.length quo x) evals
          (pps.map (fun e => evalAt e.length e x)) = .ok true := by
  obtain ⟨quo, q1, q2, q3⟩ := arithCheckP_spec h ht hr (fun i hi => (p4 i hi).1)
    (fun i hi => (p5 i hi).1) hle b
  refine ⟨quo, q1, q2, ?_⟩
  intro x evals hev
  have hdvd : (X ^ 2 ^ K - 1) ∣ circuitPoly b cp.ctx.arith (witPoly pps) (witPoly wps) := by
    rw [h.pts.dvd_iff]
    intro i hi
    rw [circuitPoly_eval]
    have : (cp.ctx.arith.map (fun c => c.value (fun a => (witPoly pps a).eval (g ^ rev K i))
        (fun a => (witPoly wps a).eval (g ^ rev K i)))) = cp.ctx.arith.map (fun c => c.onRow pw sw i) := by
      apply List.map_congr_left
      intro c hcm
      exact Constraint.value_congr c _ _ _ _ _ _ (hr c hcm) (fun a ha => (p4 a ha).2 i hi)
        (fun a ha => (p5 a ha).2 i hi)
    rw [this, hsat i hi, mul_zero]
  have hmul : circuitPoly b cp.ctx.arith (witPoly pps) (witPoly wps) = (X ^ 2 ^ K - 1) * listPoly quo := by
    rw [q3]
    have := modByMonic_add_div (circuitPoly b cp.ctx.arith (witPoly pps) (witPoly wps))
      (X ^ 2 ^ K - 1)
    rw [(modByMonic_eq_zero_iff_dvd (X_pow_sub_one_monic _ (Nat.two_pow_pos K).ne')).2 hdvd,
      zero_add] at this
    exact this.symm
  unfold arithCheckV
  rw [evalCircuitV_spec b cp.ctx.arith evals _ pw.length sw.length hr (by simp [hpl])
    (by rw [← hwl]; exact hev.length), go_bind_ok]
  have hval : (cp.ctx.arith.map (fun c => c.value ((pps.map (fun e => evalAt e.length e x)).getD · 0)
      (evals.getD · 0))) = cp.ctx.arith.map (fun c => c.value (fun a => (witPoly pps a).eval x)
      (fun a => (witPoly wps a).eval x)) := by
    apply List.map_congr_left
    intro c hcm
    refine Constraint.value_congr c _ _ _ _ _ _ (hr c hcm) (fun a ha => ?_) (fun a ha => ?_)
    · unfold witPoly
      rw [listPoly_eval]
      simp [hpl, ha]
    · exact hev.getD a (by rw [hwl]; exact ha)
  rw [hval, ← circuitPoly_eval, hmul, eval_mul, eval_sub, eval_pow, eval_X, eval_one, expU64_eq,
    h.rank, listPoly_eval, mul_comm]
  simp

theorem arithComplete_sum {K ty pw0 w0 : Nat} {ops : List (CtxOp (ZMod p))}
    {cp : Compilation (ZMod p)} (hK : 3 ≤ K) (hc : compile (2 ^ K) ty pw0 w0 ops = .ok cp)
    (hv : ∀ op ∈ ops, op.Valid pw0 w0)
    (hlt : 2 ^ K < max cp.ctx.arithCheckMaxRank cp.ctx.sumCheckMaxRank)
    (hle : 2 ^ K ≤ cp.ctx.arithCheckMaxRank)
    (pw sw : List (List (ZMod p))) (hpl : pw.length = cp.ctx.pwCnt) (hsl : sw.length = cp.ctx.wCnt)
    (hpw : ∀ v ∈ pw, v.length = 2 ^ K) (hsw : ∀ v ∈ sw, v.length = 2 ^ K)
    (hsat : ∀ i < 2 ^ K, (cp.ctx.arith.map (fun c => c.onRow pw sw i)).sum = 0) (enc : Nat → ZMod p) :
    ∃ pwEcd pwNTT wps wNTT, pw.mapM (fun v => cp.ecd.encode v) = .ok pwEcd ∧
      encodePub cp pw = .ok pwNTT ∧ EncodedWit cp sw enc wps wNTT ∧
      ∀ b, ∃ quo, arithCheckP cp b pwNTT wNTT = .ok quo ∧
        ∀ x evals pwEvals, EvalsOf wps x evals → pwEcd.mapM (fun e => e.evaluate x) = .ok pwEvals →
          arithCheckV cp.ctx b (expU64 x cp.ctx.rank - 1) (evalAt quo.length quo x) evals pwEvals =
            .ok true := by
  obtain ⟨Ke, g, ge, h⟩ := compile_good hK hc hlt
  have href := compile_refs hc hv
  obtain ⟨wps, wNTT, henc⟩ := encodedWit_exists h sw enc hsw
  obtain ⟨pps, pwNTT, p1, p2, p3, ht, p4, p5⟩ := tables_spec h hpw hsw henc
  have hr : ∀ c ∈ cp.ctx.arith, c.Refs pw.length sw.length := by rw [hpl, hsl]; exact href.arith
  refine ⟨_, pwNTT, wps, wNTT, p1, p2, henc, fun b => ?_⟩
  obtain ⟨quo, q1, -, q3⟩ := arithCheck_run h henc.1 p3 ht p4 p5 hr hle hsat b
  refine ⟨quo, q1, ?_⟩
  intro x evals pwEvals hev hpe
  rw [evaluate_map] at hpe
  cases hpe
  exact q3 x evals hev

/-- **C35.** If every arithmetic constraint is zero on every row, then the prover's quotient passes
the verifier's arithmetic check, for every batching challenge `b`, every evaluation point `x` and all
encoding randomness `enc`.  (`2 ^ K ≤ arithCheckMaxRank` says that some arithmetic constraint has
degree at least the rank; a circuit whose constraints are all smaller makes the prover slice with a
negative length.) -/
theorem C35_arithComplete {K ty pw0 w0 : Nat} {ops : List (CtxOp (ZMod p))}
    {cp : Compilation (ZMod p)} (hK : 3 ≤ K) (hc : compile (2 ^ K) ty pw0 w0 ops = .ok cp)
    (hv : ∀ op ∈ ops, op.Valid pw0 w0)
    (hlt : 2 ^ K < max cp.ctx.arithCheckMaxRank cp.ctx.sumCheckMaxRank)
    (hle : 2 ^ K ≤ cp.ctx.arithCheckMaxRank)
    (pw sw : List (List (ZMod p))) (hpl : pw.length = cp.ctx.pwCnt) (hsl : sw.length = cp.ctx.wCnt)
    (hpw : ∀ v ∈ pw, v.length = 2 ^ K) (hsw : ∀ v ∈ sw, v.length = 2 ^ K)
    (hsat : ∀ c ∈ cp.ctx.arith, ∀ i < 2 ^ K, c.onRow pw sw i = 0) (enc : Nat → ZMod p) :
    ∃ pwEcd pwNTT wps wNTT, pw.mapM (fun v => cp.ecd.encode v) = .ok pwEcd ∧
      encodePub cp pw = .ok pwNTT ∧ EncodedWit cp sw enc wps wNTT ∧
      ∀ b, ∃ quo, arithCheckP cp b pwNTT wNTT = .ok quo ∧
        ∀ x evals pwEvals, EvalsOf wps x evals → pwEcd.mapM (fun e => e.evaluate x) = .ok pwEvals →
          arithCheckV cp.ctx b (expU64 x cp.ctx.rank - 1) (evalAt quo.length quo x) evals pwEvals =
            .ok true := by
  refine arithComplete_sum hK hc hv hlt hle pw sw hpl hsl hpw hsw (fun i hi => ?_) enc
  have : cp.ctx.arith.map (fun c => c.onRow pw sw i) = cp.ctx.arith.map (fun _ => (0 : ZMod p)) :=
    List.map_congr_left (fun c hcm => hsat c hcm i hi)
  rw [this]; simp

/-! ## C36 -/

theorem eq_zero_of_many_roots {f : (ZMod p)[X]} {D : Nat} (hf : f.natDegree ≤ D)
    (S : Finset (ZMod p)) (hS : D < S.card) (h : ∀ x ∈ S, f.eval x = 0) : f = 0 := by
  by_contra hne
  have h1 : S ⊆ f.roots.toFinset := by
    intro x hx
    rw [Multiset.mem_toFinset, mem_roots hne]
    exact h x hx
  have h2 := card_le_card h1
  have h3 := f.roots.toFinset_card_le
  have h4 := f.card_roots'
  omega

/-- The degree of the identity checked by the arithmetic check, for committed polynomials of at most
`jrank` coefficients and public encodings of degree below `rank`. -/
def Constraint.checkDeg (rank jrank : Nat) (c : Constraint (ZMod p)) : Nat :=
  (c.map (fun t => (rank - 1) + t.wits.length * (jrank - 1))).foldr max 0

theorem Constraint.poly_checkDeg (rank jrank : Nat) (c : Constraint (ZMod p))
    (pubP witP : Nat → (ZMod p)[X]) (hp : ∀ i, (pubP i).natDegree ≤ rank - 1)
    (hw : ∀ i, (witP i).natDegree ≤ jrank - 1) :
    (c.poly pubP witP).natDegree ≤ c.checkDeg rank jrank := by
  have hprod : ∀ ws : List Nat, (ws.map witP).prod.natDegree ≤ ws.length * (jrank - 1) := by
    intro ws; induction ws with
    | nil => simp
    | cons a ws ih =>
      rw [List.map_cons, List.prod_cons, List.length_cons]
      refine natDegree_mul_le.trans ?_
      have h1 := hw a
      rw [Nat.add_mul]; omega
  unfold Constraint.poly Constraint.value Constraint.checkDeg
  induction c with
  | nil => simp
  | cons t c ih =>
    simp only [List.map_cons, List.sum_cons, List.foldr_cons] at ih ⊢
    refine (natDegree_add_le _ _).trans (max_le_max ?_ ih)
    unfold Term.value
    refine natDegree_mul_le.trans (Nat.add_le_add ?_ (hprod _))
    refine natDegree_mul_le.trans ?_
    simp only [natDegree_C, zero_add]
    cases t.pub with
    | none => simp
    | some i => exact hp i

theorem listPoly_natDegree_le {F : Type} [Field F] (l : List F) (n : Nat) (h : l.length ≤ n) :
    (listPoly l).natDegree ≤ n - 1 := by
  rw [natDegree_le_iff_coeff_eq_zero]
  intro i hi
  rw [listPoly_coeff, getD_ge (by omega)]

/-- **C36, the part that holds.** Whatever polynomials `wps` and whatever quotient `quo` (both with
at most `jrank` coefficients) the prover committed to: if the arithmetic check passes, with a
non-zero batching challenge, on more points than the degree of the identity, then on every row the
*sum* of all constraints is zero.  A row is a point `y` with `y ^ rank = 1`.  The full claim, that
each constraint is zero, is false: see `C36_refuted`. -/
theorem C36_partial (cp : Compilation (ZMod p)) (pps wps : List (List (ZMod p))) (quo : List (ZMod p))
    (jrank : Nat) (hr : ∀ c ∈ cp.ctx.arith, c.Refs pps.length wps.length)
    (hpps : ∀ (i : Nat), (listPoly (pps.getD i [])).natDegree ≤ cp.ctx.rank - 1)
    (hwps : ∀ v ∈ wps, v.length ≤ jrank) (hquo : quo.length ≤ jrank)
    (b : ZMod p) (hb : b ≠ 0) (S : Finset (ZMod p))
    (hD : ∀ c ∈ cp.ctx.arith, c.checkDeg cp.ctx.rank jrank < S.card)
    (hD' : cp.ctx.rank + (jrank - 1) < S.card)
    (hpass : ∀ x ∈ S, ∃ evals, EvalsOf wps x evals ∧
      arithCheckV cp.ctx b (expU64 x cp.ctx.rank - 1) (evalAt quo.length quo x) evals
        (pps.map (fun e => evalAt e.length e x)) = .ok true) :
    ∀ y : ZMod p, y ^ cp.ctx.rank = 1 →
      (cp.ctx.arith.map (fun c => c.value (fun i => (listPoly (pps.getD i [])).eval y)
        (fun i => (listPoly (wps.getD i [])).eval y))).sum = 0 := by
  have hwd : ∀ i, (witPoly wps i).natDegree ≤ jrank - 1 := by
    intro i
    apply listPoly_natDegree_le
    rw [List.getD_eq_getElem?_getD]
    cases hi : wps[i]? with
    | none => simp
    | some v => exact hwps v (List.mem_of_getElem? hi)
  have hsum : ∀ cs : List (Constraint (ZMod p)),
      (∀ c ∈ cs, c.checkDeg cp.ctx.rank jrank < S.card) →
      ((cs.map (fun (c : Constraint (ZMod p)) => c.poly (witPoly pps) (witPoly wps))).sum).natDegree ≤ S.card - 1 := by
    intro cs
    induction cs with
    | nil => simp
    | cons c cs ih =>
      intro hcs
      simp only [List.map_cons, List.sum_cons]
      refine (natDegree_add_le _ _).trans (max_le ?_ (ih (fun c hc => hcs c (by simp [hc]))))
      have := Constraint.poly_checkDeg cp.ctx.rank jrank c (witPoly pps) (witPoly wps) hpps hwd
      have := hcs c (by simp)
      omega
  have hz : circuitPoly b cp.ctx.arith (witPoly pps) (witPoly wps) -
      listPoly quo * (X ^ cp.ctx.rank - 1) = 0 := by
    refine eq_zero_of_many_roots (D := S.card - 1) ?_ S (by omega) ?_
    · refine (natDegree_sub_le _ _).trans (max_le ?_ ?_)
      · unfold circuitPoly
        refine natDegree_mul_le.trans ?_
        rw [natDegree_C, zero_add]; exact hsum _ hD
      · refine natDegree_mul_le.trans ?_
        have h1 := listPoly_natDegree_le quo jrank hquo
        have h2 : (X ^ cp.ctx.rank - 1 : (ZMod p)[X]).natDegree ≤ cp.ctx.rank := by
          refine (natDegree_sub_le _ _).trans (max_le ?_ ?_)
          · exact natDegree_X_pow_le _
          · simp
        omega
    · intro x hx
      obtain ⟨evals, hev, hp⟩ := hpass x hx
      unfold arithCheckV at hp
      rw [evalCircuitV_spec b cp.ctx.arith _ _ pps.length wps.length hr (by simp) hev.length,
        go_bind_ok] at hp
      have hval : (cp.ctx.arith.map (fun c => c.value
          ((pps.map (fun e => evalAt e.length e x)).getD · 0)
          (evals.getD · 0))) =
          cp.ctx.arith.map (fun c => c.value (fun a => (witPoly pps a).eval x)
            (fun a => (witPoly wps a).eval x)) := by
        apply List.map_congr_left
        intro c hcm
        refine Constraint.value_congr c _ _ _ _ _ _ (hr c hcm) (fun a ha => ?_) (fun a ha => hev.getD a ha)
        unfold witPoly
        rw [listPoly_eval]
        simp [ha]
      rw [hval, ← circuitPoly_eval, expU64_eq] at hp
      have hp' := eq_of_beq (Except.ok.inj hp)
      rw [eval_sub, eval_mul, eval_sub, eval_pow, eval_X, eval_one, listPoly_eval, hp', sub_self]
  intro y hy
  have h1 := congrArg (eval y) hz
  rw [eval_sub, eval_mul, eval_sub, eval_pow, eval_X, eval_one, hy, sub_self, mul_zero, sub_zero,
    eval_zero, circuitPoly_eval] at h1
  exact (mul_eq_zero.mp h1).resolve_left hb

end

/-! ## Examples and the counterexample -/

instance : Fact (Nat.Prime 97) := ⟨by norm_num⟩
instance : Fact (Nat.Prime 193) := ⟨by norm_num⟩

/-- A circuit with two secrets `x`, `y` and a public `u`: `x * y - u = 0`. -/
def ops35 : List (CtxOp (ZMod 193)) := [.arith [⟨1, none, [0, 1]⟩, ⟨-1, some 0, []⟩]]

theorem compile35 : ∃ cp, compile 8 0 1 2 ops35 = .ok cp ∧ cp.ctx.arithCheckMaxRank = 17 ∧
    cp.ctx.embRank = 32 ∧ cp.ctx.pwCnt = 1 ∧ cp.ctx.wCnt = 2 ∧
    cp.ctx.arith = [[⟨1, none, [0, 1]⟩, ⟨-1, some 0, []⟩]] := by
  obtain ⟨cp, h1, h2⟩ := compile_total (p := 193) (N := 8) (ty := 0) (pw0 := 1) (w0 := 2)
    (ops := ops35) (K := 3) (Ke := 5) rfl (by norm_num) (by norm_num) rfl rfl (by norm_num)
    (by norm_num)
  exact ⟨cp, h1, by rw [h2]; rfl, by rw [h2]; rfl, by rw [h2]; rfl, by rw [h2]; rfl, by rw [h2]; rfl⟩

/-- C34 and C35 apply to `x * y = u` with `x = 2`, `y = 3..10`, `u = 2 y`. -/
example : ∃ (cp : Compilation (ZMod 193)) (pw sw : List (List (ZMod 193))),
    compile (2 ^ 3) 0 1 2 ops35 = .ok cp ∧ (∀ op ∈ ops35, op.Valid 1 2) ∧
    2 ^ 3 < max cp.ctx.arithCheckMaxRank cp.ctx.sumCheckMaxRank ∧
    2 ^ 3 ≤ cp.ctx.arithCheckMaxRank ∧ pw.length = cp.ctx.pwCnt ∧ sw.length = cp.ctx.wCnt ∧
    (∀ v ∈ pw, v.length = 2 ^ 3) ∧ (∀ v ∈ sw, v.length = 2 ^ 3) ∧
    ∀ c ∈ cp.ctx.arith, ∀ i < 2 ^ 3, c.onRow pw sw i = 0 := by
  obtain ⟨cp, h1, h2, -, h4, h5, h6⟩ := compile35
  refine ⟨cp, [[6, 8, 10, 12, 14, 16, 18, 20]],
    [[2, 2, 2, 2, 2, 2, 2, 2], [3, 4, 5, 6, 7, 8, 9, 10]], h1, ?_, by rw [h2]; simp, by rw [h2]; norm_num,
    by rw [h4]; rfl, by rw [h5]; rfl, by simp, by simp, ?_⟩
  · intro op hop
    simp only [ops35, List.mem_singleton] at hop
    subst hop
    intro t ht
    simp only [List.mem_cons, List.not_mem_nil, or_false] at ht
    rcases ht with rfl | rfl <;> simp
  · rw [h6]; simp only [List.mem_singleton, forall_eq]; decide +kernel

/-- A circuit with one secret `x` and the two constraints `x = 0` and `-x = 0`. -/
def ops36 : List (CtxOp (ZMod 97)) :=
  [.arith [⟨1, none, [0]⟩], .arith [⟨-1, none, [0]⟩]]

/-- **C36 is false as stated.** The assignment `x = 1` violates both constraints on every row.  Yet
the honest prover's quotient for it passes the verifier's check for every batching challenge and
every evaluation point: `evalCircuit` multiplies all constraints by the same challenge, so that only
their sum is checked. -/
theorem C36_refuted : ∃ cp : Compilation (ZMod 97), compile 8 0 0 1 ops36 = .ok cp ∧
    cp.ctx.arith = [[⟨1, none, [0]⟩], [⟨-1, none, [0]⟩]] ∧
    (∀ c ∈ cp.ctx.arith, ∀ i < 8, c.onRow [] [List.replicate 8 1] i ≠ 0) ∧
    ∀ enc : Nat → ZMod 97, ∃ wps wNTT, EncodedWit cp [List.replicate 8 1] enc wps wNTT ∧
      ∀ b, ∃ quo, arithCheckP cp b [] wNTT = .ok quo ∧
        ∀ x evals, EvalsOf wps x evals →
          arithCheckV cp.ctx b (expU64 x cp.ctx.rank - 1) (evalAt quo.length quo x) evals [] =
            .ok true := by
  obtain ⟨cp, h1, h2⟩ := compile_total (p := 97) (N := 8) (ty := 0) (pw0 := 0) (w0 := 1)
    (ops := ops36) (K := 3) (Ke := 4) rfl (by norm_num) (by norm_num) rfl rfl (by norm_num)
    (by norm_num)
  have ha : cp.ctx.arith = [[⟨1, none, [0]⟩], [⟨-1, none, [0]⟩]] := by rw [h2]; rfl
  have hm : cp.ctx.arithCheckMaxRank = 9 := by rw [h2]; rfl
  refine ⟨cp, h1, ha, ?_, ?_⟩
  · rw [ha]
    intro c hc
    simp only [List.mem_cons, List.not_mem_nil, or_false] at hc
    rcases hc with rfl | rfl <;> decide +kernel
  · intro enc
    obtain ⟨pwEcd, pwNTT, wps, wNTT, w1, w2, w3, w4⟩ := arithComplete_sum (K := 3) le_rfl h1 (by
        intro op hop
        simp only [ops36, List.mem_cons, List.not_mem_nil, or_false] at hop
        rcases hop with rfl | rfl <;>
        · intro t ht
          simp only [List.mem_singleton] at ht
          subst ht; simp) (by rw [hm]; simp) (by rw [hm]; norm_num) [] [List.replicate 8 1]
      (by rw [h2]; rfl) (by rw [h2]; rfl) (by simp) (by simp) (by rw [ha]; decide +kernel) enc
    cases w1; cases w2
    refine ⟨wps, wNTT, w3, fun b => ?_⟩
    obtain ⟨quo, q1, q2⟩ := w4 b
    exact ⟨quo, q1, fun x evals hev => q2 x evals [] hev rfl⟩

/-- The hypotheses of `C36_partial` are met: in the circuit above, the honest run passes on all 97
points, more than the degrees involved. -/
example : ∃ cp : Compilation (ZMod 97), ∃ (wps : List (List (ZMod 97))) (quo : List (ZMod 97)),
    (∀ c ∈ cp.ctx.arith, c.Refs 0 wps.length) ∧ (∀ v ∈ wps, v.length ≤ 16) ∧ quo.length ≤ 16 ∧
    (∀ c ∈ cp.ctx.arith, c.checkDeg cp.ctx.rank 16 < (Finset.univ : Finset (ZMod 97)).card) ∧
    cp.ctx.rank + (16 - 1) < (Finset.univ : Finset (ZMod 97)).card ∧
    ∀ x ∈ (Finset.univ : Finset (ZMod 97)), ∃ evals, EvalsOf wps x evals ∧
      arithCheckV cp.ctx 5 (expU64 x cp.ctx.rank - 1) (evalAt quo.length quo x) evals
        (([] : List (List (ZMod 97))).map (fun e => evalAt e.length e x)) = .ok true := by
  obtain ⟨cp, h1, h2⟩ := compile_total (p := 97) (N := 8) (ty := 0) (pw0 := 0) (w0 := 1)
    (ops := ops36) (K := 3) (Ke := 4) rfl (by norm_num) (by norm_num) rfl rfl (by norm_num)
    (by norm_num)
  have ha : cp.ctx.arith = [[⟨1, none, [0]⟩], [⟨-1, none, [0]⟩]] := by rw [h2]; rfl
  have hcard : (Finset.univ : Finset (ZMod 97)).card = 97 := by
    rw [Finset.card_univ, ZMod.card]
  have hr : cp.ctx.rank = 8 := by rw [h2]; rfl
  refine ⟨cp, [[3, 4]], [], ?_, by simp, by simp, ?_, by rw [hr, hcard]; norm_num, ?_⟩
  · rw [ha]; intro c hc t ht
    simp only [List.mem_cons, List.not_mem_nil, or_false] at hc
    rcases hc with rfl | rfl <;>
    · simp only [List.mem_singleton] at ht
      subst ht; simp
  · rw [ha, hr, hcard]
    intro c hc
    simp only [List.mem_cons, List.not_mem_nil, or_false] at hc
    rcases hc with rfl | rfl <;> decide
  · intro x _
    refine ⟨[evalAt 2 [3, 4] x], ?_, ?_⟩
    · intro i v hv
      cases i with
      | zero => simp at hv; subst hv; rfl
      | succ i => simp at hv
    · unfold arithCheckV
      rw [ha, evalCircuitV_spec 5 _ _ _ 0 1 (by
        intro c hc t ht
        simp only [List.mem_cons, List.not_mem_nil, or_false] at hc
        rcases hc with rfl | rfl <;>
        · simp only [List.mem_singleton] at ht
          subst ht; simp) (by simp) (by simp)]
      simp [Constraint.value, Term.value, evalAt]

end Ringo
