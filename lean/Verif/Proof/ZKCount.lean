import Verif.Proof.ZKSpec
import Verif.Spec.ZeroKnow

/-!
# Two witnesses, the same evaluations
-/

namespace Ringo

open Finset Polynomial

set_option linter.unusedSectionVars false

section
variable {p : Nat} [Fact p.Prime] {E : Env (ZMod p)} {cp : Compilation (ZMod p)}
variable {K Ke : Nat} {g ge : ZMod p}

/-- How far apart the quotients and the remainders of two combinations are at `x`. -/
noncomputable def shiftQ (N : Nat) (x : ZMod p) (G₁ G₂ : (ZMod p)[X]) : ZMod p :=
  (quoV N G₁).eval x - (quoV N G₂).eval x

noncomputable def shiftR (N : Nat) (x : ZMod p) (G₁ G₂ : (ZMod p)[X]) : ZMod p :=
  (remV N G₁).eval x - (remV N G₂).eval x

theorem masked_agree {N jrank maskRank : Nat} (hN : 1 < N) (hm : N < maskRank)
    {r₁ r₂ : Nat → ZMod p} {G₁ G₂ : (ZMod p)[X]}
    {mask₁ quo₁ lo₁ hi₁ mask₂ quo₂ lo₂ hi₂ : List (ZMod p)}
    (h₁ : MaskedSpec N jrank maskRank r₁ G₁ mask₁ quo₁ lo₁ hi₁)
    (h₂ : MaskedSpec N jrank maskRank r₂ G₂ mask₂ quo₂ lo₂ hi₂) {x : ZMod p}
    (hG : G₁.eval x = G₂.eval x)
    (hr : ∀ j < maskRank, r₂ j = r₁ j +
      (if j = N then shiftQ N x G₁ G₂ else if j = 1 then shiftR N x G₁ G₂ else 0)) :
    (listPoly mask₁).eval x = (listPoly mask₂).eval x ∧ (listPoly quo₁).eval x = (listPoly quo₂).eval x ∧
    (listPoly lo₁).eval x = (listPoly lo₂).eval x ∧ (listPoly hi₁).eval x = (listPoly hi₂).eval x := by
  have hs := maskPoly_shift hN hm r₁ r₂ _ _ hr
  obtain ⟨q1, q2⟩ := quoV_shift hN (shiftQ N x G₁ G₂) (shiftR N x G₁ G₂)
  have hq : (listPoly quo₁).eval x = (listPoly quo₂).eval x := by
    rw [h₁.pQuo, h₂.pQuo, hs, add_assoc (maskPoly _ _ _), quoV_add (by omega), quoV_add (by omega),
      quoV_add (by omega), q1]
    simp only [eval_add, eval_C, shiftQ]
    ring
  have hl : (listPoly lo₁).eval x = (listPoly lo₂).eval x := by
    rw [h₁.pLo, h₂.pLo, hs, add_assoc (maskPoly _ _ _), remV_add, remV_add, remV_add, q2]
    simp only [eval_add, eval_C, shiftR]
    ring
  refine ⟨?_, hq, hl, ?_⟩
  · have e1 := h₁.eq x
    have e2 := h₂.eq x
    have h0 := hr 0 (by omega)
    rw [if_neg (by omega), if_neg (by omega), add_zero] at h0
    rw [h0, ← hq, ← hl, ← hG, ← e1] at e2
    exact (add_left_cancel e2).symm
  · rw [h₁.pHi, h₂.pHi, eval_mul, eval_mul, hl]

/-- Two plans with the same values of the witnesses at `x` and suitably shifted masks have the same
values at `x` everywhere. -/
theorem plans_agree (hN : 3 ≤ K) (hS : cp.ctx.sums.length > 0 → 2 ^ K < cp.ctx.sumCheckMaxRank)
    {ch : Challenges} {pps sw₁ sw₂ : List (List (ZMod p))}
    {enc₁ lin₁ sum₁ enc₂ lin₂ sum₂ : Nat → ZMod p} {P₁ P₂ : Nat → List (ZMod p)}
    (l₁ : sw₁.length = cp.ctx.wCnt) (l₂ : sw₂.length = cp.ctx.wCnt)
    (h₁ : PlanSpec K E cp ch pps sw₁ enc₁ lin₁ sum₁ P₁) (h₂ : PlanSpec K E cp ch pps sw₂ enc₂ lin₂ sum₂ P₂)
    {x : ZMod p} (hx : x ^ 2 ^ K ≠ 1)
    (hw : ∀ i < cp.ctx.wCnt, (blindP K cp sw₁ enc₁ i).eval x = (blindP K cp sw₂ enc₂ i).eval x)
    (hl : ∀ j < 2 * 2 ^ K, lin₂ j = lin₁ j + (if j = 2 ^ K then
        shiftQ (2 ^ K) x (linG K E cp ch (blindP K cp sw₁ enc₁)) (linG K E cp ch (blindP K cp sw₂ enc₂))
      else if j = 1 then
        shiftR (2 ^ K) x (linG K E cp ch (blindP K cp sw₁ enc₁)) (linG K E cp ch (blindP K cp sw₂ enc₂))
      else 0))
    (hs : ∀ j < cp.ctx.sumCheckMaxRank, sum₂ j = sum₁ j + (if j = 2 ^ K then
        shiftQ (2 ^ K) x (sumG E cp ch (witPoly pps) (blindP K cp sw₁ enc₁))
          (sumG E cp ch (witPoly pps) (blindP K cp sw₂ enc₂))
      else if j = 1 then
        shiftR (2 ^ K) x (sumG E cp ch (witPoly pps) (blindP K cp sw₁ enc₁))
          (sumG E cp ch (witPoly pps) (blindP K cp sw₂ enc₂))
      else 0)) :
    ∀ i < cp.ctx.batch, (P₁ i).length = (P₂ i).length ∧
      (listPoly (P₁ i)).eval x = (listPoly (P₂ i)).eval x := by
  have hK8 : 2 ^ 3 ≤ 2 ^ K := Nat.pow_le_pow_right (by norm_num) hN
  have hall : ∀ i, (blindP K cp sw₁ enc₁ i).eval x = (blindP K cp sw₂ enc₂ i).eval x := by
    intro i
    by_cases hi : i < cp.ctx.wCnt
    · exact hw i hi
    · unfold blindP
      rw [List.getElem?_eq_none (by rw [l₁]; omega), List.getElem?_eq_none (by rw [l₂]; omega)]
  have hlG : (linG K E cp ch (blindP K cp sw₁ enc₁)).eval x =
      (linG K E cp ch (blindP K cp sw₂ enc₂)).eval x := by
    unfold linG
    rw [eval_mul, eval_mul, horner_eval, horner_eval]
    congr 2
    unfold linTerms
    rw [List.map_flatMap, List.map_flatMap]
    apply List.flatMap_congr
    intro e _
    rw [List.map_map, List.map_map]
    apply List.map_congr_left
    intro y _
    simp only [Function.comp, eval_sub, eval_mul, hall]
  have hcG : ∀ (b : ZMod p) (cs : List (Constraint (ZMod p))),
      (circuitPoly b cs (witPoly pps) (blindP K cp sw₁ enc₁)).eval x =
      (circuitPoly b cs (witPoly pps) (blindP K cp sw₂ enc₂)).eval x := by
    intro b cs
    rw [circuitPoly_eval, circuitPoly_eval]
    simp only [hall]
  have hsG : (sumG E cp ch (witPoly pps) (blindP K cp sw₁ enc₁)).eval x =
      (sumG E cp ch (witPoly pps) (blindP K cp sw₂ enc₂)).eval x := by
    unfold sumG
    rw [eval_mul, eval_mul, hcG]
  intro i hi
  rcases slot_cases cp.ctx i hi with hc | ⟨hn, rfl⟩ | ⟨hn, rfl⟩ | ⟨hn, rfl⟩ | ⟨hn, hc⟩ | ⟨hn, hc⟩
  · obtain ⟨a1, a2⟩ := h₁.wit i hc
    obtain ⟨b1, b2⟩ := h₂.wit i hc
    exact ⟨by rw [a1, b1], by rw [a2, b2]; exact hw i hc⟩
  · obtain ⟨e, -⟩ := masked_agree (by omega) (by omega) (h₁.lin hn) (h₂.lin hn) hlG hl
    exact ⟨by rw [(h₁.lin hn).lMask, (h₂.lin hn).lMask], e⟩
  · obtain ⟨e, -⟩ := masked_agree (by omega) (hS hn) (h₁.sum hn) (h₂.sum hn) hsG hs
    exact ⟨by rw [(h₁.sum hn).lMask, (h₂.sum hn).lMask], e⟩
  · obtain ⟨a1, a2⟩ := h₁.arith hn
    obtain ⟨b1, b2⟩ := h₂.arith hn
    refine ⟨by rw [a1, b1], ?_⟩
    have := (a2 x).symm.trans ((hcG _ _).trans (b2 x))
    exact mul_right_cancel₀ (sub_ne_zero.2 hx) this
  · obtain ⟨-, e1, e2, e3⟩ := masked_agree (by omega) (by omega) (h₁.lin hn) (h₂.lin hn) hlG hl
    have s₁ := h₁.lin hn
    have s₂ := h₂.lin hn
    rcases hc with rfl | rfl | rfl
    · exact ⟨by rw [s₁.lQuo, s₂.lQuo], e1⟩
    · exact ⟨by rw [s₁.lLo, s₂.lLo], e2⟩
    · exact ⟨by rw [s₁.lHi, s₂.lHi], e3⟩
  · obtain ⟨-, e1, e2, e3⟩ := masked_agree (by omega) (hS hn) (h₁.sum hn) (h₂.sum hn) hsG hs
    have s₁ := h₁.sum hn
    have s₂ := h₂.sum hn
    rcases hc with rfl | rfl | rfl
    · exact ⟨by rw [s₁.lQuo, s₂.lQuo], e1⟩
    · exact ⟨by rw [s₁.lLo, s₂.lLo], e2⟩
    · exact ⟨by rw [s₁.lHi, s₂.lHi], e3⟩

/-- Counting pairs fibre by fibre. -/
theorem card_fibres_le {U C : Type} [Finite U] [Finite C] (S₁ S₂ : U → C → Prop) (φ : U → U)
    (hφ : Function.Injective φ)
    (h : ∀ u, Nat.card {c // S₁ u c} ≤ Nat.card {c // S₂ (φ u) c}) :
    Nat.card {t : U × C // S₁ t.1 t.2} ≤ Nat.card {t : U × C // S₂ t.1 t.2} := by
  classical
  have e : ∀ u, Nonempty ({c // S₁ u c} ↪ {c // S₂ (φ u) c}) := by
    intro u
    have := Fintype.ofFinite {c // S₁ u c}
    have := Fintype.ofFinite {c // S₂ (φ u) c}
    have hu := h u
    rw [Nat.card_eq_fintype_card, Nat.card_eq_fintype_card] at hu
    exact Function.Embedding.nonempty_of_card_le hu
  have e' := fun u => Classical.choice (e u)
  refine Nat.card_le_card_of_injective
    (fun t : {t : U × C // S₁ t.1 t.2} =>
      (⟨(φ t.1.1, (e' t.1.1 ⟨t.1.2, t.2⟩).1), (e' t.1.1 ⟨t.1.2, t.2⟩).2⟩ : {t : U × C // S₂ t.1 t.2})) ?_
  rintro ⟨⟨u, c⟩, hc⟩ ⟨⟨u', c'⟩, hc'⟩ hh
  simp only [Subtype.mk.injEq, Prod.mk.injEq] at hh
  obtain ⟨h1, h2⟩ := hh
  have := hφ h1
  subst this
  have := (e' u).injective (Subtype.ext h2)
  simp only [Subtype.mk.injEq] at this
  simp [this]

end

end Ringo
