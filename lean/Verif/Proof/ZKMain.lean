import Verif.Proof.ZKRun

/-!
# The number of coins leading to a proof does not grow when the witness is exchanged
-/

namespace Ringo

open Finset Polynomial

set_option linter.unusedSectionVars false

section
variable {p : Nat} [Fact p.Prime] {E : Env (ZMod p)} {cp : Compilation (ZMod p)}
variable {K Ke : Nat} {g ge : ZMod p}

theorem extend_lt {α : Type} {n : Nat} (d : α) (f : Fin n → α) {i : Nat} (hi : i < n) :
    extend d f i = f ⟨i, hi⟩ := dif_pos hi

/-- The value at `x` of the encoding of row `i`. -/
noncomputable def rowAt (cp : Compilation (ZMod p)) (x : ZMod p) (sw : List (List (ZMod p))) (i : Nat) :
    ZMod p :=
  match sw[i]? with
  | some v => (encP cp v).eval x
  | none => 0

/-- The change of the coins that turns the evaluations of one witness into those of another. -/
noncomputable def shiftCoins (K : Nat) (E : Env (ZMod p)) (cp : Compilation (ZMod p)) (ch : Challenges)
    (x : ZMod p) (pps sw₁ sw₂ : List (List (ZMod p))) (u : FieldCoins cp) : FieldCoins cp :=
  let e' : Fin cp.ctx.wCnt → ZMod p := fun i =>
    u.1 i + (rowAt cp x sw₁ i - rowAt cp x sw₂ i) / (x ^ 2 ^ K - 1)
  let w₁ := blindP K cp sw₁ (extend 0 u.1)
  let w₂ := blindP K cp sw₂ (extend 0 e')
  (e', fun j => u.2.1 j + (if j.1 = 2 ^ K then shiftQ (2 ^ K) x (linG K E cp ch w₁) (linG K E cp ch w₂)
      else if j.1 = 1 then shiftR (2 ^ K) x (linG K E cp ch w₁) (linG K E cp ch w₂) else 0),
    fun j => u.2.2 j + (if j.1 = 2 ^ K then
        shiftQ (2 ^ K) x (sumG E cp ch (witPoly pps) w₁) (sumG E cp ch (witPoly pps) w₂)
      else if j.1 = 1 then
        shiftR (2 ^ K) x (sumG E cp ch (witPoly pps) w₁) (sumG E cp ch (witPoly pps) w₂) else 0))

theorem shiftCoins_injective (ch : Challenges) (x : ZMod p) (pps sw₁ sw₂ : List (List (ZMod p))) :
    Function.Injective (shiftCoins K E cp ch x pps sw₁ sw₂) := by
  rintro ⟨e, l, s⟩ ⟨e', l', s'⟩ h
  unfold shiftCoins at h
  simp only [Prod.mk.injEq] at h
  obtain ⟨h1, h2, h3⟩ := h
  have he : e = e' := by
    funext i
    exact add_right_cancel (congrFun h1 i)
  subst he
  have hl : l = l' := by
    funext i
    exact add_right_cancel (congrFun h2 i)
  have hs : s = s' := by
    funext i
    exact add_right_cancel (congrFun h3 i)
  rw [hl, hs]

theorem PlanSpec.bounds (hK : 3 ≤ K) (hf : Fits K cp.ctx E.pcs.rank) {ch : Challenges}
    {pps sw : List (List (ZMod p))} {enc lin sum : Nat → ZMod p} {P : Nat → List (ZMod p)}
    (h : PlanSpec K E cp ch pps sw enc lin sum P) :
    ∀ i < cp.ctx.batch, 1 ≤ (P i).length ∧ (P i).length ≤ E.pcs.rank := by
  have hK8 : 2 ^ 3 ≤ 2 ^ K := Nat.pow_le_pow_right (by norm_num) hK
  intro i hi
  rcases slot_cases cp.ctx i hi with hc | ⟨hn, rfl⟩ | ⟨hn, rfl⟩ | ⟨hn, rfl⟩ | ⟨hn, hc⟩ | ⟨hn, hc⟩
  · have := hf.wit (by omega)
    rw [(h.wit i hc).1]; omega
  · have := hf.lin (length_pos_ne.1 hn)
    rw [(h.lin hn).lMask]; omega
  · have := hf.sum (length_pos_ne.1 hn)
    rw [(h.sum hn).lMask]; omega
  · have := hf.arith (length_pos_ne.1 hn)
    rw [(h.arith hn).1]; omega
  · have := hf.lin (length_pos_ne.1 hn)
    have s := h.lin hn
    rcases hc with rfl | rfl | rfl
    · rw [s.lQuo]; omega
    · rw [s.lLo]; omega
    · rw [s.lHi]; omega
  · have := hf.sum (length_pos_ne.1 hn)
    have s := h.sum hn
    rcases hc with rfl | rfl | rfl
    · rw [s.lQuo]; omega
    · rw [s.lLo]; omega
    · rw [s.lHi]; omega

theorem prove_inv {t : Tape (ZMod p) E.pcs.Rnd} {ord : Orders} {c : Circ (ZMod p)}
    {π : BProof (ZMod p) E.pcs} (h : prove E cp t ord c = .ok (some π)) :
    ∃ vals, proveT E cp t ord c = .ok (some (π, vals)) := by
  unfold prove at h
  obtain ⟨r, h1, h2⟩ := bind_ok_inv h
  injection h2 with h2
  cases r with
  | none => cases h2
  | some r =>
    simp only [Option.map_some, Option.some.injEq] at h2
    subst h2
    exact ⟨r.2, h1⟩

theorem coins_le {N ty pw0 w0 pw0' w0' : Nat} {ops : List (CtxOp (ZMod p))}
    (hc : compile N ty pw0' w0' ops = .ok cp)
    (h : GoodCp K Ke g ge cp) (hf : Fits K cp.ctx E.pcs.rank)
    (hi : CtxInv2 (2 ^ K) cp.ctx) (hr : CtxRefs pw0 w0 cp.ctx) (hP : E.pcs.Correct cp.ctx.batch)
    [Finite E.pcs.Rnd] (hz : E.pcs.HidesAllBut cp.ctx.batch)
    {ord₁ ord₂ : Orders} {c₁ c₂ : Circ (ZMod p)} (hty : c₂.ty = cp.ctx.circType)
    {pw sw₁ sw₂ : List (List (ZMod p))} (ha₁ : assign cp ord₁ c₁.val = .ok (some (pw, sw₁)))
    (ha₂ : assign cp ord₂ c₂.val = .ok (some (pw, sw₂)))
    (hh₁ : Honest K E cp ord₁ pw sw₁) (hh₂ : Honest K E cp ord₂ pw sw₂)
    (π : BProof (ZMod p) E.pcs)
    (hx : ∀ ch l s n, challengesV E cp π = .ok (some (ch, l, s, n)) → E.setBytes ch.x ^ 2 ^ K ≠ 1) :
    Nat.card {t : FieldCoins cp × PCSCoins E.pcs cp.ctx.batch //
        prove E cp (tapeOf t.1 t.2) ord₁ c₁ = .ok (some π)} ≤
      Nat.card {t : FieldCoins cp × PCSCoins E.pcs cp.ctx.batch //
        prove E cp (tapeOf t.1 t.2) ord₂ c₂ = .ok (some π)} := by
  classical
  obtain ⟨pps, pwNTT, p1, p2, -⟩ := encodePub_spec h pw hh₁.pwS.2
  set ch := chalsOf E cp.ctx π with hch
  set x := E.setBytes ch.x with hxd
  obtain ⟨s₁, f₁, -⟩ := hh₁.fill _ (projMatrix_good E.xof ch.proj (2 ^ K))
  obtain ⟨s₂, f₂, -⟩ := hh₂.fill _ (projMatrix_good E.xof ch.proj (2 ^ K))
  refine card_fibres_le
    (fun (u : FieldCoins cp) (c : PCSCoins E.pcs cp.ctx.batch) =>
      prove E cp (tapeOf u c) ord₁ c₁ = .ok (some π))
    (fun (u : FieldCoins cp) (c : PCSCoins E.pcs cp.ctx.batch) =>
      prove E cp (tapeOf u c) ord₂ c₂ = .ok (some π))
    (shiftCoins K E cp ch x pps s₁ s₂) (shiftCoins_injective ch x pps s₁ s₂) ?_
  intro u
  by_cases hne : ∃ c : PCSCoins E.pcs cp.ctx.batch, prove E cp (tapeOf u c) ord₁ c₁ = .ok (some π)
  swap
  · have : IsEmpty {c : PCSCoins E.pcs cp.ctx.batch // prove E cp (tapeOf u c) ord₁ c₁ = .ok (some π)} :=
      ⟨fun c => hne ⟨c.1, c.2⟩⟩
    rw [Nat.card_of_isEmpty]
    exact Nat.zero_le _
  set u' := shiftCoins K E cp ch x pps s₁ s₂ u with hu'
  obtain ⟨l₁, w₁, P₁, q₁, S₁⟩ := plan_exists h hf hr ch hh₁ p1 p2 f₁ (extend 0 u.1) (extend 0 u.2.1)
    (extend 0 u.2.2)
  obtain ⟨l₂, w₂, P₂, q₂, S₂⟩ := plan_exists h hf hr ch hh₂ p1 p2 f₂ (extend 0 u'.1) (extend 0 u'.2.1)
    (extend 0 u'.2.2)
  -- a run
  have run₁ : ∀ c : PCSCoins E.pcs cp.ctx.batch, prove E cp (tapeOf u c) ord₁ c₁ = .ok (some π) →
      E.pcs.Yields x ((List.range cp.ctx.batch).map P₁) c (π.witness, π.evals, π.evalProof) ∧
      π.linMaskSum = (if cp.ctx.lin.length > 0 then some (extend 0 u.2.1 0) else none) ∧
      π.sumMaskSum = (if cp.ctx.sums.length > 0 then some (extend 0 u.2.2 0) else none) ∧
      PfShape cp.ctx π := by
    intro c hcπ
    obtain ⟨vals, hv⟩ := prove_inv hcπ
    obtain ⟨-, pw', sw', pwNTT', sw2, wNTT, lm, sm, all, a1, a2, R⟩ := proveT_run hc hv
    rw [ha₁] at a1; cases a1
    rw [p2] at a2; cases a2
    obtain ⟨m1, m2⟩ := R.maskSums h hf
    refine ⟨R.yields q₁ c rfl rfl, m1, m2, R.shape ?_⟩
    obtain ⟨pf', e1, -⟩ := hP.eval (E.setBytes (chalsOf E cp.ctx π).x) all (tapeOf u c).com
      (tapeOf u c).ev R.len (by
        intro i e he
        have hib : i < cp.ctx.batch := by
          rw [← R.len]; exact (List.getElem?_eq_some_iff.1 he).1
        obtain ⟨e', b1, b2⟩ := R.made i hib
        rw [he] at b1; cases b1
        exact b2)
    rw [R.ev] at e1
    injection e1 with e1
    injection e1 with e1 _
    rw [e1]; simp
  obtain ⟨c0, hc0⟩ := hne
  obtain ⟨-, hL, hS, hsh⟩ := run₁ c0 hc0
  have hX : x ^ 2 ^ K ≠ 1 := hx _ _ _ _ (challengesV_eq π hi.lt hsh)
  have hK8 : 2 ^ 3 ≤ 2 ^ K := Nat.pow_le_pow_right (by norm_num) h.hK
  -- the values agree
  have agree := plans_agree h.hK (fun hn => (hf.sum (length_pos_ne.1 hn)).1) l₁ l₂ S₁ S₂ hX
    (by
      intro i hi
      have e1 : s₁[i]? = some s₁[i] := List.getElem?_eq_getElem (by omega)
      have e2 : s₂[i]? = some s₂[i] := List.getElem?_eq_getElem (by omega)
      have hd := sub_ne_zero.2 hX
      unfold blindP
      rw [e1, e2, extend_lt _ _ hi, extend_lt _ _ hi, hu']
      simp only [shiftCoins, rowAt, e1, e2, eval_add, eval_mul, eval_C, eval_sub, eval_pow, eval_X,
        eval_one]
      field_simp
      ring)
    (by
      intro j hj
      have hj' : j < 2 * cp.ctx.rank := by rw [h.rank]; exact hj
      rw [extend_lt _ _ hj', extend_lt _ _ hj', hu']
      rfl)
    (by
      intro j hj
      rw [extend_lt _ _ hj, extend_lt _ _ hj, hu']
      rfl)
  have hget : ∀ (P : Nat → List (ZMod p)) (i : Nat) (f : List (ZMod p)),
      ((List.range cp.ctx.batch).map P)[i]? = some f → i < cp.ctx.batch ∧ P i = f := by
    intro P i f hif
    have hib : i < cp.ctx.batch := by
      have := (List.getElem?_eq_some_iff.1 hif).1
      simpa using this
    rw [List.getElem?_map, List.getElem?_range hib] at hif
    exact ⟨hib, Option.some.inj hif⟩
  have hcount := hz x ((List.range cp.ctx.batch).map P₁) ((List.range cp.ctx.batch).map P₂) (by simp)
    (by simp) (by
      intro i f f' h1 h2
      obtain ⟨hib, rfl⟩ := hget _ _ _ h1
      obtain ⟨-, rfl⟩ := hget _ _ _ h2
      obtain ⟨b1, b2⟩ := S₁.bounds h.hK hf i hib
      obtain ⟨a1, a2⟩ := agree i hib
      rw [listPoly_eval, listPoly_eval] at a2
      exact ⟨a1, b1, b2, a2⟩) (π.witness, π.evals, π.evalProof)
  -- back to a run
  have run₂ : ∀ c : PCSCoins E.pcs cp.ctx.batch,
      E.pcs.Yields x ((List.range cp.ctx.batch).map P₂) c (π.witness, π.evals, π.evalProof) →
      prove E cp (tapeOf u' c) ord₂ c₂ = .ok (some π) := by
    intro c hy
    obtain ⟨⟨pf, vals⟩, hpr⟩ := honest_proves h hf hi hr hP.evaluates (tapeOf u' c) hty ha₂ hh₂
    obtain ⟨-, pw', sw', pwNTT', sw2, wNTT, lm, sm, all, a1, a2, R⟩ := proveT_run hc hpr
    rw [ha₂] at a1; cases a1
    rw [p2] at a2; cases a2
    obtain ⟨m1, m2⟩ := R.maskSums h hf
    have hpf : pf = π := by
      refine R.eq_of_yields hi.lt q₂ c rfl rfl hy ?_ ?_
      · rw [m1, hL]
        congr 2
        have h0 : 0 < 2 * cp.ctx.rank := by rw [h.rank]; omega
        show extend 0 u'.2.1 0 = extend 0 u.2.1 0
        rw [extend_lt _ _ h0, extend_lt _ _ h0, hu']
        simp only [shiftCoins]
        rw [if_neg (by omega), if_neg (by omega), add_zero]
      · rw [m2, hS]
        by_cases hn : cp.ctx.sums.length > 0
        · rw [if_pos hn, if_pos hn]
          congr 1
          have h0 : 0 < cp.ctx.sumCheckMaxRank := by
            have := (hf.sum (length_pos_ne.1 hn)).1
            omega
          show extend 0 u'.2.2 0 = extend 0 u.2.2 0
          rw [extend_lt _ _ h0, extend_lt _ _ h0, hu']
          simp only [shiftCoins]
          rw [if_neg (by omega), if_neg (by omega), add_zero]
        · rw [if_neg hn, if_neg hn]
    unfold prove
    rw [hpr, hpf]; rfl
  calc _ ≤ Nat.card {c : PCSCoins E.pcs cp.ctx.batch //
        E.pcs.Yields x ((List.range cp.ctx.batch).map P₁) c (π.witness, π.evals, π.evalProof)} :=
        Nat.card_le_card_of_injective (Subtype.map id (fun c hcπ => (run₁ c hcπ).1))
          (Subtype.map_injective _ Function.injective_id)
    _ = _ := hcount
    _ ≤ _ := Nat.card_le_card_of_injective (Subtype.map id (fun c hy => run₂ c hy))
          (Subtype.map_injective _ Function.injective_id)

end

end Ringo
