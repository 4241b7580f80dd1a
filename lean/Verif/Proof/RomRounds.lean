import Verif.Proof.RomCore
import Verif.Proof.RomChain
import Verif.Props.Binding

/-!
# The rounds of Buckler as chains of hash values
-/

namespace Ringo

open Finset

section
variable {p : Nat} [Fact p.Prime] {E : Env (ZMod p)} {cp : Compilation (ZMod p)}

/-- The names of the challenges. -/
def chalNames : List Bytes :=
  ["projConst".toUTF8.toList, "arithBatchConst".toUTF8.toList, "linCheckBatchConst".toUTF8.toList,
   "linCheckConst".toUTF8.toList, "sumCheckBatchConst".toUTF8.toList, "evalPoint".toUTF8.toList]

theorem chalNames_apart : NamesApart chalNames := by
  have h9 : ∀ i < 6, 9 ≤ (chalNames.getD i []).length := by decide +kernel
  have hd : ∀ i < 6, ∀ j < 6, (chalNames.getD i []).take 9 = (chalNames.getD j []).take 9 → i = j := by
    decide +kernel
  intro i hi j hj a b he
  refine hd i hi j hj ?_
  have := congrArg (List.take 9) he
  rw [List.take_append_of_le_length (h9 i hi), List.take_append_of_le_length (h9 j hj)] at this
  exact this

theorem chalNames_length : ∀ i < 6, (chalNames.getD i []).length ≤ 18 := by decide +kernel

/-- The bytes of commitments. -/
theorem comBytes_replicate {L : Nat} (hL : ∀ c, (E.pcs.ser c).length = L) (π : BProof (ZMod p) E.pcs)
    (is : List Nat) (h : ∀ i ∈ is, i < π.witness.length) :
    (comBytes E π is).map List.length = List.replicate is.length L := by
  rw [comBytes_eq π is h, List.map_map, List.eq_replicate_iff]
  refine ⟨by simp, ?_⟩
  intro b hb
  obtain ⟨i, hi, rfl⟩ := List.mem_map.1 hb
  simp only [Function.comp, serW]
  rw [List.getElem?_eq_getElem (h i hi)]
  exact hL _

/-- The lengths of the messages of a proof with the right number of commitments. -/
def roundLens (ctx : Context (ZMod p)) (L M : Nat) : List (List Nat) :=
  [List.replicate ((List.range ctx.wCnt).filter (· ∉ ctx.wSecond)).length L,
   List.replicate ctx.wSecond.length L ++ (if ctx.lin = [] then [] else [L, M]) ++
    (if ctx.sums = [] then [] else [L, M]), [], [], [],
   List.replicate (ctx.batch - (ctx.wCnt + (if ctx.lin = [] then 0 else 1) + (if ctx.sums = [] then 0 else 1))) L]

omit [Fact p.Prime] in
theorem nextOf_eq (ctx : Context (ZMod p)) : nextOf ctx = ctx.wCnt + (if ctx.lin = [] then 0 else 1) +
    (if ctx.sums = [] then 0 else 1) := by
  unfold nextOf
  by_cases h1 : ctx.lin = [] <;> by_cases h2 : ctx.sums = [] <;> simp [h1, h2, List.length_pos_iff]

theorem rounds_shape (hlt : ∀ i ∈ cp.ctx.wSecond, i < cp.ctx.wCnt) {L : Nat}
    (hL : ∀ c, (E.pcs.ser c).length = L) {M : Nat} (hM : ∀ a, (E.marshal a).length = M)
    (π : BProof (ZMod p) E.pcs) (hw : π.witness.length = cp.ctx.batch) :
    RShape chalNames (roundLens cp.ctx L M) (bucklerRounds E cp.ctx π) := by
  have hb := batch_eq cp.ctx
  have hn := nextOf_eq cp.ctx
  refine ⟨rfl, ?_⟩
  unfold bucklerRounds roundLens
  simp only [List.map_cons, List.map_nil, List.cons.injEq, and_true, true_and]
  refine ⟨?_, ?_, ?_⟩
  · refine comBytes_replicate hL π _ (fun i hi => ?_)
    rw [List.mem_filter, List.mem_range] at hi
    omega
  · rw [List.map_append, List.map_append, comBytes_replicate hL π _
      (fun i hi => by have := hlt i hi; omega)]
    congr 1
    · congr 1
      by_cases hl : cp.ctx.lin = []
      · rw [if_pos hl, if_pos hl]; rfl
      · rw [if_neg hl, if_neg hl, List.map_append, comBytes_replicate hL π _
          (fun i hi => by rw [List.mem_singleton] at hi; rw [if_neg hl] at hn; omega)]
        simp [hM]
    · by_cases hl : cp.ctx.sums = []
      · rw [if_pos hl, if_pos hl]; rfl
      · rw [if_neg hl, if_neg hl, List.map_append, comBytes_replicate hL π _
          (fun i hi => by rw [List.mem_singleton] at hi; rw [if_neg hl] at hn; omega)]
        simp [hM]
  · rw [List.map_map, List.eq_replicate_iff]
    refine ⟨by simp [hw], ?_⟩
    intro b hb
    obtain ⟨i, hi, rfl⟩ := List.mem_map.1 hb
    exact hL _

omit [Fact p.Prime] in
/-- No input is longer than this. -/
theorem chainIn_length {H L M : Nat} {R : List (Bytes × List Bytes)}
    (h : RShape chalNames (roundLens cp.ctx L M) R) (c : Nat → Digest H) (j : Nat) (hj : j < 6) :
    (chainIn R c j).length ≤ 18 + H + (cp.ctx.wCnt + cp.ctx.wSecond.length + cp.ctx.batch + 2) * L + 2 * M := by
  have h1 := h.name j
  have h2 : (R.getD j ([], [])).2.map List.length = (roundLens cp.ctx L M).getD j [] := by
    rw [← h.lens, List.getD_eq_getElem?_getD, List.getD_eq_getElem?_getD, List.getElem?_map]
    cases R[j]? <;> rfl
  have h3 := chalNames_length j hj
  have h4 : ((roundLens cp.ctx L M).getD j []).sum ≤
      (cp.ctx.wCnt + cp.ctx.wSecond.length + cp.ctx.batch + 2) * L + 2 * M := by
    have f1 : ((List.range cp.ctx.wCnt).filter (· ∉ cp.ctx.wSecond)).length ≤ cp.ctx.wCnt :=
      (List.length_filter_le _ _).trans (by simp)
    have f2 := Nat.mul_le_mul_right L f1
    have f3 : (cp.ctx.batch - (cp.ctx.wCnt + (if cp.ctx.lin = [] then 0 else 1) +
      (if cp.ctx.sums = [] then 0 else 1))) * L ≤ cp.ctx.batch * L := Nat.mul_le_mul_right L (Nat.sub_le _ _)
    have f4 : (cp.ctx.wCnt + cp.ctx.wSecond.length + cp.ctx.batch + 2) * L =
      cp.ctx.wCnt * L + cp.ctx.wSecond.length * L + cp.ctx.batch * L + 2 * L := by ring
    rw [f4]
    unfold roundLens
    interval_cases j
    · simp only [List.getD_cons_zero, List.sum_replicate, smul_eq_mul]; omega
    · simp only [List.getD_cons_zero, List.getD_cons_succ, List.sum_append, List.sum_replicate, smul_eq_mul]
      have g1 : (if cp.ctx.lin = [] then [] else [L, M]).sum ≤ L + M := by split <;> simp
      have g2 : (if cp.ctx.sums = [] then [] else [L, M]).sum ≤ L + M := by split <;> simp
      omega
    · simp
    · simp
    · simp
    · simp only [List.getD_cons_zero, List.getD_cons_succ, List.sum_replicate, smul_eq_mul]; omega
  unfold chainIn
  rw [List.length_append, List.length_append, List.length_flatten, h2, h1]
  have h5 : (if j = 0 then [] else List.ofFn (c (j - 1))).length ≤ H := by split <;> simp
  omega

/-- Equal messages of the first two rounds. -/
theorem rounds_two (hlt : ∀ i ∈ cp.ctx.wSecond, i < cp.ctx.wCnt) (hser : Function.Injective E.pcs.ser)
    (hmar : Function.Injective E.marshal) (π₁ π₂ : BProof (ZMod p) E.pcs)
    (hw₁ : π₁.witness.length = cp.ctx.batch) (hw₂ : π₂.witness.length = cp.ctx.batch)
    (h : (bucklerRounds E cp.ctx π₁).take 2 = (bucklerRounds E cp.ctx π₂).take 2) :
    (∀ i < nextOf cp.ctx, π₁.witness[i]? = π₂.witness[i]?) ∧
    sumIf cp.ctx.lin π₁.linMaskSum = sumIf cp.ctx.lin π₂.linMaskSum ∧
    sumIf cp.ctx.sums π₁.sumMaskSum = sumIf cp.ctx.sums π₂.sumMaskSum := by
  have hb := batch_eq cp.ctx
  have hn := nextOf_eq cp.ctx
  unfold bucklerRounds at h
  simp only [List.take_succ_cons, List.take_zero, List.cons.injEq, Prod.mk.injEq, true_and, and_true] at h
  obtain ⟨h1, h2⟩ := h
  have minj : ∀ {α : Type} (l : List α) (s₁ s₂ : Option (ZMod p)) (i : Nat), (l ≠ [] → i < cp.ctx.batch) →
      (if l = [] then [] else comBytes E π₁ [i] ++ [E.marshal (s₁.getD 0)]) =
      (if l = [] then [] else comBytes E π₂ [i] ++ [E.marshal (s₂.getD 0)]) →
      (l ≠ [] → π₁.witness[i]? = π₂.witness[i]?) ∧ sumIf l s₁ = sumIf l s₂ := by
    intro α l s₁ s₂ i h he
    by_cases hl : l = []
    · exact ⟨fun h => absurd hl h, by subst hl; rfl⟩
    rw [if_neg hl, if_neg hl] at he
    obtain ⟨e1, e2⟩ := List.append_inj' he rfl
    refine ⟨fun _ => comBytes_inj hser π₁ π₂ [i] (by simpa [hw₁] using h hl) (by simpa [hw₂] using h hl) e1 i
      (by simp), ?_⟩
    simp only [List.cons.injEq, and_true] at e2
    unfold sumIf
    rw [hmar e2]
  have mlen : ∀ {α : Type} (l : List α) (s₁ s₂ : Option (ZMod p)) (i : Nat), (l ≠ [] → i < cp.ctx.batch) →
      (if l = [] then [] else comBytes E π₁ [i] ++ [E.marshal (s₁.getD 0)]).length =
      (if l = [] then [] else comBytes E π₂ [i] ++ [E.marshal (s₂.getD 0)]).length := by
    intro α l s₁ s₂ i h
    by_cases hl : l = []
    · rw [if_pos hl, if_pos hl]
    · rw [if_neg hl, if_neg hl, comBytes_eq π₁ [i] (by simpa [hw₁] using h hl),
        comBytes_eq π₂ [i] (by simpa [hw₂] using h hl)]
      simp
  have hmL : cp.ctx.lin ≠ [] → cp.ctx.wCnt < cp.ctx.batch := fun h => by
    rw [if_neg h] at hn; omega
  have hmS : cp.ctx.sums ≠ [] → cp.ctx.wCnt + (if cp.ctx.lin = [] then 0 else 1) < cp.ctx.batch := fun h => by
    rw [if_neg h] at hn; omega
  obtain ⟨e1, e2⟩ := List.append_inj' h2 (mlen cp.ctx.sums π₁.sumMaskSum π₂.sumMaskSum _ hmS)
  obtain ⟨e3, e4⟩ := List.append_inj' e1 (mlen cp.ctx.lin π₁.linMaskSum π₂.linMaskSum _ hmL)
  have hlt1 : ∀ i ∈ (List.range cp.ctx.wCnt).filter (· ∉ cp.ctx.wSecond), i < cp.ctx.batch := by
    intro i hi
    rw [List.mem_filter, List.mem_range] at hi
    omega
  have hlt2 : ∀ i ∈ cp.ctx.wSecond, i < cp.ctx.batch := fun i h => by have := hlt i h; omega
  have k0 := comBytes_inj hser π₁ π₂ _ (by rw [hw₁]; exact hlt1) (by rw [hw₂]; exact hlt1) h1
  have k1 := comBytes_inj hser π₁ π₂ _ (by rw [hw₁]; exact hlt2) (by rw [hw₂]; exact hlt2) e3
  have k2 := minj cp.ctx.lin _ _ _ hmL e4
  have k3 := minj cp.ctx.sums _ _ _ hmS e2
  refine ⟨?_, k2.2, k3.2⟩
  intro i hi'
  rw [hn] at hi'
  by_cases hw : i < cp.ctx.wCnt
  · by_cases hs : i ∈ cp.ctx.wSecond
    · exact k1 i hs
    · exact k0 i (by rw [List.mem_filter, List.mem_range]; exact ⟨hw, by simpa using hs⟩)
  · by_cases hl : cp.ctx.lin = []
    · rw [if_pos hl] at hi' k3
      by_cases hs : cp.ctx.sums = []
      · rw [if_pos hs] at hi'; omega
      · rw [if_neg hs] at hi'
        have : i = cp.ctx.wCnt + 0 := by omega
        rw [this]; exact k3.1 hs
    · rw [if_neg hl] at hi' k3
      by_cases hil : i = cp.ctx.wCnt
      · rw [hil]; exact k2.1 hl
      · by_cases hs : cp.ctx.sums = []
        · rw [if_pos hs] at hi'; omega
        · rw [if_neg hs] at hi'
          have : i = cp.ctx.wCnt + 1 := by omega
          rw [this]; exact k3.1 hs

/-- Equal messages of all rounds. -/
theorem rounds_all (hlt : ∀ i ∈ cp.ctx.wSecond, i < cp.ctx.wCnt) (hser : Function.Injective E.pcs.ser)
    (hmar : Function.Injective E.marshal) (π₁ π₂ : BProof (ZMod p) E.pcs)
    (hw₁ : π₁.witness.length = cp.ctx.batch) (hw₂ : π₂.witness.length = cp.ctx.batch)
    (h : bucklerRounds E cp.ctx π₁ = bucklerRounds E cp.ctx π₂) : π₁.witness = π₂.witness := by
  obtain ⟨k, -, -⟩ := rounds_two hlt hser hmar π₁ π₂ hw₁ hw₂ (by rw [h])
  have hn := nextOf_eq cp.ctx
  have h3 := congrArg (fun l => (l.getD 5 ([], [])).2) h
  have h3 : (π₁.witness.drop (nextOf cp.ctx)).map E.pcs.ser = (π₂.witness.drop (nextOf cp.ctx)).map E.pcs.ser := by
    rw [hn]; exact h3
  have hd := List.map_injective_iff.2 hser h3
  have ht : π₁.witness.take (nextOf cp.ctx) = π₂.witness.take (nextOf cp.ctx) := by
    apply List.ext_getElem?
    intro i
    rw [List.getElem?_take, List.getElem?_take]
    by_cases hi' : i < nextOf cp.ctx
    · rw [if_pos hi', if_pos hi', k i hi']
    · rw [if_neg hi', if_neg hi']
  rw [← List.take_append_drop (nextOf cp.ctx) π₁.witness, ht, hd, List.take_append_drop]

end

end Ringo
