import Verif.Proof.Piop3

/-!
# The verifier's linear check and sumcheck, and the prover's sumcheck
-/

namespace Ringo

open Finset Polynomial

section
variable {p : Nat} [Fact p.Prime]
variable {K Ke : Nat} {g ge : ZMod p} {cp : Compilation (ZMod p)}

theorem remCheckV_spec (N jrank : Nat) (hj : N - 1 ≤ jrank) (x lo hi : ZMod p) :
    remCheckV N jrank x lo hi = .ok (hi == x ^ (jrank - (N - 1)) * lo) := by
  unfold remCheckV
  rw [if_neg (by omega), C01_exp]; rfl

/-- The values the verifier combines in the linear check. -/
noncomputable def linVals (cp : Compilation (ZMod p)) (users : Nat → LinearChecker (ZMod p))
    (proj : List (List Bool)) (evals vec : List (ZMod p)) (x : ZMod p)
    (lin : List (CheckerKey × List (Nat × Nat))) : List (ZMod p) :=
  lin.flatMap (fun e => e.2.map (fun w =>
    (encP cp (keyTr cp.ctx.rank users proj e.1 vec)).eval x * evals.getD w.2 0 -
      (encP cp vec).eval x * evals.getD w.1 0))

theorem evaluate_ok (e : List (ZMod p)) (x : ZMod p) :
    (⟨e, false⟩ : Poly (ZMod p)).evaluate x = .ok ((listPoly e).eval x) := by
  rw [listPoly_eval]; exact (C20_evaluate e x).1

theorem linLoopV_spec (h : GoodCp K Ke g ge cp)
    {users : Nat → LinearChecker (ZMod p)} {proj : List (List Bool)} (vec : List (ZMod p))
    (hvec : vec.length = 2 ^ K) (b x : ZMod p) (evals : List (ZMod p)) :
    ∀ (lin : List (CheckerKey × List (Nat × Nat))), LinOK (2 ^ K) users proj lin →
      (∀ e ∈ lin, ∀ w ∈ e.2, w.1 < evals.length ∧ w.2 < evals.length) →
      ∀ (s : ZMod p × List (ZMod p) × Poly (ZMod p)),
        s.2.1.length = 2 ^ K → s.2.2.coeffs.length = 2 ^ Ke →
        ∃ s', lin.foldlM (fun (s : ZMod p × List (ZMod p) × Poly (ZMod p)) kc => do
            let tr ← resolve users proj kc.1
            let vecTr ← tr.transposeTo s.2.1 vec
            let ecdTr ← cp.ecd.encodeTo s.2.2 vecTr
            let trEval ← ecdTr.evaluate x
            let eval ← kc.2.foldlM (fun (eval : ZMod p) (w : Nat × Nat) => do
              let wOut ← idx evals w.1
              let wIn ← idx evals w.2
              pure (eval * b + (trEval * wIn - (encP cp vec).eval x * wOut))) s.1
            pure (eval, vecTr, ecdTr)) s = .ok s' ∧
          s'.1 = horner b (linVals cp users proj evals vec x lin) s.1 := by
  intro lin
  induction lin with
  | nil => intro _ _ s _ _; exact ⟨s, rfl, rfl⟩
  | cons e lin ih =>
    intro hlin hx s h3 h4
    obtain ⟨L, l1, l2, l3⟩ := keyTr_spec hlin (e := e) (by simp) s.2.1 vec h3 hvec
    obtain ⟨c, c1, c2, c3⟩ := h.encodeTo_encP s.2.2 _ h4 l3
    have inner : ∀ (xs : List (Nat × Nat)), (∀ w ∈ xs, w.1 < evals.length ∧ w.2 < evals.length) →
        ∀ (a : ZMod p), xs.foldlM (fun (eval : ZMod p) (w : Nat × Nat) => (do
              let wOut ← idx evals w.1
              let wIn ← idx evals w.2
              pure (eval * b + ((encP cp (keyTr (2 ^ K) users proj e.1 vec)).eval x * wIn -
                (encP cp vec).eval x * wOut)) : Go (ZMod p))) a =
          .ok (horner b (xs.map (fun w =>
            (encP cp (keyTr (2 ^ K) users proj e.1 vec)).eval x * evals.getD w.2 0 -
              (encP cp vec).eval x * evals.getD w.1 0)) a) := by
      intro xs
      induction xs with
      | nil => intro _ a; rfl
      | cons w xs ihx =>
        intro hxs a
        obtain ⟨hx1, hx2⟩ := hxs w (by simp)
        rw [List.foldlM_cons, idx_ok hx1, go_bind_ok, idx_ok hx2, go_bind_ok, go_pure, go_bind_ok,
          ihx (fun y hy => hxs y (by simp [hy]))]
        simp only [List.map_cons, horner, List.foldl_cons]
        rw [getD_eq hx1, getD_eq hx2, mul_comm a b]
    obtain ⟨s', s1, s2⟩ := ih (fun f hf => hlin f (by simp [hf])) (fun f hf => hx f (by simp [hf]))
      (horner b (e.2.map (fun w =>
            (encP cp (keyTr (2 ^ K) users proj e.1 vec)).eval x * evals.getD w.2 0 -
              (encP cp vec).eval x * evals.getD w.1 0)) s.1,
        keyTr (2 ^ K) users proj e.1 vec, ⟨c, false⟩) l3 c2
    refine ⟨s', ?_, ?_⟩
    · rw [List.foldlM_cons, l1, go_bind_ok, l2, go_bind_ok, c1, go_bind_ok, evaluate_ok, c3,
        go_bind_ok, inner e.2 (hx e (by simp)), go_bind_ok, go_pure, go_bind_ok, s1]
    · rw [s2]
      have : linVals cp users proj evals vec x (e :: lin) =
          e.2.map (fun w => (encP cp (keyTr (2 ^ K) users proj e.1 vec)).eval x * evals.getD w.2 0 -
              (encP cp vec).eval x * evals.getD w.1 0) ++ linVals cp users proj evals vec x lin := by
        unfold linVals; rw [List.flatMap_cons, h.rank]
      rw [this, horner_append]

/-- What the verifier's linear check decides. -/
theorem linCheckV_spec (h : GoodCp K Ke g ge cp) {jrank : Nat} (hj : 2 ^ K - 1 ≤ jrank)
    {users : Nat → LinearChecker (ZMod p)} {proj : List (List Bool)}
    (hlin : LinOK (2 ^ K) users proj cp.ctx.lin) (evals : List (ZMod p))
    (hx : ∀ e ∈ cp.ctx.lin, ∀ w ∈ e.2, w.1 < evals.length ∧ w.2 < evals.length)
    (b lc maskEval x vanishEval maskSum quoEval loEval hiEval : ZMod p) :
    linCheckV cp users proj jrank b lc maskEval x vanishEval maskSum quoEval loEval hiEval evals =
      .ok (decide (hiEval = x ^ (jrank - (2 ^ K - 1)) * loEval ∧
        b * horner b (linVals cp users proj evals ((List.range (2 ^ K)).map (fun i => lc ^ i)) x
          cp.ctx.lin) 0 + maskEval = quoEval * vanishEval + loEval * x + maskSum)) := by
  set vec : List (ZMod p) := (List.range (2 ^ K)).map (fun i => lc ^ i) with hvec
  have hvl : vec.length = 2 ^ K := by simp [hvec]
  unfold linCheckV
  rw [h.rank, remCheckV_spec _ _ hj, go_bind_ok]
  by_cases h1 : hiEval = x ^ (jrank - (2 ^ K - 1)) * loEval
  · obtain ⟨c, c1, c2, c3⟩ := h.encode_encP vec hvl
    obtain ⟨s, s1, s2⟩ := linLoopV_spec h vec hvl b x evals cp.ctx.lin hlin hx
      (0, List.replicate (2 ^ K) 0, newPoly cp.ev.rank false) (by simp) (by simp [newPoly, h.ev.rank])
    rw [if_neg (by simp [h1]), powerVec_spec _ (Nat.two_pow_pos K), go_bind_ok, ← hvec, c1, go_bind_ok,
      evaluate_ok, c3, go_bind_ok, s1, go_bind_ok, s2, go_pure]
    congr 1
    rw [mul_comm _ b]
    simp only [h1, true_and]
    rfl
  · rw [if_pos (by simp [h1])]
    simp only [h1, false_and, decide_false]; rfl

/-- What the verifier's sumcheck decides. -/
theorem sumCheckV_spec (ctx : Context (ZMod p)) {jrank : Nat} (hj : ctx.rank - 1 ≤ jrank)
    (evals pwEvals : List (ZMod p)) (pwCnt wCnt : Nat)
    (hr : ∀ c ∈ ctx.sums, c.Refs pwCnt wCnt) (hp : pwCnt ≤ pwEvals.length)
    (hw : wCnt ≤ evals.length)
    (b maskEval x vanishEval maskSum quoEval loEval hiEval : ZMod p) :
    sumCheckV ctx jrank b maskEval x vanishEval maskSum quoEval loEval hiEval evals pwEvals =
      .ok (decide (hiEval = x ^ (jrank - (ctx.rank - 1)) * loEval ∧
        b * (b * (ctx.sums.map (fun c => c.value (pwEvals.getD · 0) (evals.getD · 0))).sum) + maskEval =
          quoEval * vanishEval + loEval * x + maskSum)) := by
  unfold sumCheckV
  rw [remCheckV_spec _ _ hj, go_bind_ok]
  by_cases h1 : hiEval = x ^ (jrank - (ctx.rank - 1)) * loEval
  · rw [if_neg (by simp [h1]), evalCircuitV_spec b ctx.sums evals pwEvals pwCnt wCnt hr hp hw,
      go_bind_ok, go_pure]
    congr 1
    rw [mul_comm _ b]
    simp only [h1, true_and]
    rfl
  · rw [if_pos (by simp [h1])]
    simp only [h1, false_and, decide_false]; rfl

/-- The prover's sumcheck. -/
theorem sumCheckP_spec (h : GoodCp K Ke g ge cp) {pwCnt wCnt jrank : Nat}
    {pwNTT : List (Poly (ZMod p))} {wNTT : List (Option (Poly (ZMod p)))}
    {pubP witP : Nat → (ZMod p)[X]}
    (ht : NttTables Ke (X ^ 2 ^ Ke - 1) (fun i => ge ^ rev Ke i) pwCnt wCnt pwNTT wNTT pubP witP)
    (hr : ∀ c ∈ cp.ctx.sums, c.Refs pwCnt wCnt)
    (hp : ∀ i < pwCnt, (pubP i).natDegree ≤ 2 ^ K - 1) (hw : ∀ i < wCnt, (witP i).natDegree ≤ 2 ^ K)
    (hle : 2 ^ K ≤ cp.ctx.sumCheckMaxRank) (hj : 2 ^ K - 1 ≤ jrank) (b : ZMod p)
    (mask : List (ZMod p)) (hm : mask.length = 2 ^ Ke)
    (hmd : (listPoly mask).degree < (cp.ctx.sumCheckMaxRank : WithBot ℕ)) :
    ∃ quo remLo remHi, sumCheckP cp jrank b ⟨mask, false⟩ pwNTT wNTT = .ok (quo, remLo, remHi) ∧
      quo.length = cp.ctx.sumCheckMaxRank - 2 ^ K ∧ remLo.length = 2 ^ K - 1 ∧
      remHi.length = jrank ∧
      ∃ f, f = C b * circuitPoly b cp.ctx.sums pubP witP + listPoly mask ∧
        f = listPoly quo * (X ^ 2 ^ K - 1) + X * listPoly remLo +
          C ((f %ₘ (X ^ 2 ^ K - 1)).coeff 0) ∧
        listPoly remHi = X ^ (jrank - (2 ^ K - 1)) * listPoly remLo := by
  obtain ⟨s, s1, s2, s3⟩ := evalCircuit_spec h.ev ht b cp.ctx.sums hr
  obtain ⟨t, t1, t2, t3⟩ := scalarMulTo_sf h.ev b s3.1 s3
  obtain ⟨u, u1, u2, u3⟩ := invNTTTo_sf h.ev t3.1 t3 (by rw [t2, s2])
  obtain ⟨⟨w, nw⟩, w1, w2, w3⟩ := addTo_sf h.ev u3.1 u3
    (sf_coeffs (X ^ 2 ^ Ke - 1) (fun i => ge ^ rev Ke i) mask hm) (by rw [u2])
  rw [u2] at w2; simp only at w2; subst w2
  set f := C b * circuitPoly b cp.ctx.sums pubP witP + listPoly mask with hf
  have hfd : f.degree < (cp.ctx.sumCheckMaxRank : WithBot ℕ) := by
    refine lt_of_le_of_lt (degree_add_le _ _) (max_lt (degree_C_mul_lt b ?_) hmd)
    exact circuitPoly_degree (2 ^ K) _ b cp.ctx.sums pubP witP pwCnt wCnt hr hp hw h.sumMax
  have hex := sf_exact h.ev w3 rfl (lt_of_lt_of_le hfd (by exact_mod_cast h.sumLe))
  simp only at hex
  obtain ⟨qr, remLo, remHi, quo, a1, a2, a3, a4, a5, a6, a7, a8, a9, a10⟩ := h.split (jrank := jrank)
    (m := cp.ctx.sumCheckMaxRank) hj hle h.sumLe w w3.1 (by rw [hex]; exact hfd)
  rw [hex] at a9
  refine ⟨quo, remLo, remHi, ?_, a6, a4, a5, f, rfl, a9, a10⟩
  unfold sumCheckP
  rw [s1, go_bind_ok, t1, go_bind_ok, u1, go_bind_ok, w1, go_bind_ok, h.rank, a1, go_bind_ok, a2,
    go_bind_ok, a3, go_bind_ok]
  rfl

/-! ## Sums of the terms over the domain -/

theorem horner_eval (b : ZMod p) (ts : List (ZMod p)[X]) (a : (ZMod p)[X]) (x : ZMod p) :
    (horner (C b) ts a).eval x = horner b (ts.map (eval x)) (a.eval x) := by
  induction ts generalizing a with
  | nil => rfl
  | cons t ts ih =>
    simp only [horner, List.foldl_cons, List.map_cons] at ih ⊢
    rw [ih]; simp

theorem horner_dsum (b : ZMod p) (ts : List (ZMod p)[X]) (a : (ZMod p)[X]) :
    dsum K g (horner (C b) ts a) = horner b (ts.map (dsum K g)) (dsum K g a) := by
  induction ts generalizing a with
  | nil => rfl
  | cons t ts ih =>
    simp only [horner, List.foldl_cons, List.map_cons] at ih ⊢
    rw [ih, dsum_add, dsum_C_mul]

theorem horner_zero (b : ZMod p) (ts : List (ZMod p)) (h : ∀ t ∈ ts, t = 0) : horner b ts 0 = 0 := by
  induction ts with
  | nil => rfl
  | cons t ts ih =>
    have h1 : b * 0 + t = 0 := by rw [h t (by simp)]; ring
    unfold horner at ih ⊢
    rw [List.foldl_cons, h1]
    exact ih (fun u hu => h u (by simp [hu]))

/-- The sum over the rows of a product of two encodings is the inner product. -/
theorem dsum_mul_inner (f f' : (ZMod p)[X]) (u v : List (ZMod p))
    (hf : ∀ i < 2 ^ K, f.eval (g ^ rev K i) = u.getD i 0)
    (hf' : ∀ i < 2 ^ K, f'.eval (g ^ rev K i) = v.getD i 0) :
    dsum K g (f * f') = inner (2 ^ K) u v := by
  unfold dsum inner
  apply sum_congr rfl
  intro i hi
  rw [mem_range] at hi
  rw [eval_mul, hf i hi, hf' i hi]

/-- The sum over the rows of the polynomial of one linear constraint: `⟨u, M wIn - wOut⟩`. -/
theorem linTerm_dsum (h : GoodCp K Ke g ge cp)
    {users : Nat → LinearChecker (ZMod p)} {proj : List (List Bool)}
    {lin : List (CheckerKey × List (Nat × Nat))} (hlin : LinOK (2 ^ K) users proj lin)
    {e : CheckerKey × List (Nat × Nat)} (he : e ∈ lin) (vec wIn wOut : List (ZMod p))
    (hvec : vec.length = 2 ^ K) (hin : wIn.length = 2 ^ K) (fIn fOut : (ZMod p)[X])
    (hf : ∀ i < 2 ^ K, fIn.eval (g ^ rev K i) = wIn.getD i 0)
    (hf' : ∀ i < 2 ^ K, fOut.eval (g ^ rev K i) = wOut.getD i 0) :
    dsum K g (encP cp (keyTr cp.ctx.rank users proj e.1 vec) * fIn - encP cp vec * fOut) =
      inner (2 ^ K) (keyMap (2 ^ K) users proj e.1 wIn) vec - inner (2 ^ K) wOut vec := by
  rw [h.rank]
  obtain ⟨-, -, -, hl⟩ := keyTr_spec hlin he (List.replicate (2 ^ K) 0) vec (by simp) hvec
  rw [dsum_sub, dsum_mul_inner _ _ _ _ (h.encP_eval _ hl) hf,
    dsum_mul_inner _ _ _ _ (h.encP_eval _ hvec) hf', (key_adjoint hlin he vec wIn hvec hin).2,
    inner_comm _ wIn, inner_comm _ wOut]

end

end Ringo
