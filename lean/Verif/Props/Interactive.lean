import Verif.Props.Sound
import Mathlib.Algebra.Order.BigOperators.Group.Finset
import Mathlib.Data.Fintype.BigOperators
import Mathlib.Data.Fintype.Prod

/-!
# C90: soundness error of the interactive protocol
-/

namespace Ringo

open Finset

/-- If one coordinate `g` lies in a set of at most `k` elements determined by the others. -/
theorem card_bad {T A F : Type} [Fintype T] [Fintype A] [DecidableEq F] (f : T → A) (g : T → F)
    (hinj : ∀ t t', f t = f t' → g t = g t' → t = t') (B : A → Finset F) (k : Nat) (hB : ∀ a, (B a).card ≤ k) :
    (univ.filter (fun t => g t ∈ B (f t))).card ≤ Fintype.card A * k := by
  classical
  calc (univ.filter (fun t => g t ∈ B (f t))).card
      ≤ ((univ : Finset A).sigma B).card := by
        apply card_le_card_of_injOn (fun t => (⟨f t, g t⟩ : Σ _ : A, F))
        · intro t ht
          rw [mem_coe, mem_filter] at ht
          rw [mem_coe, mem_sigma]
          exact ⟨mem_univ _, ht.2⟩
        · intro t _ t' _ h
          simp only [Sigma.mk.injEq, heq_eq_eq] at h
          exact hinj t t' h.1 h.2
    _ = ∑ a, (B a).card := card_sigma _ _
    _ ≤ ∑ _a : A, k := sum_le_sum fun a _ => hB a
    _ = Fintype.card A * k := by rw [sum_const, card_univ, smul_eq_mul]

/-- The challenges `ab`, `lb`, `lc`, `sb`, `x`. -/
abbrev Chal5 (p : Nat) : Type := ZMod p × ZMod p × ZMod p × ZMod p × ZMod p

section
variable {p : Nat} [Fact p.Prime] {E : Env (ZMod p)} {cp : Compilation (ZMod p)} {K : Nat}

open Classical in
/-- **C90.** Soundness error of the interactive protocol.  A prover (`Cheater`) has sent the commitments
and mask sums of the first rounds; no witness encoded by the commitments satisfies the enforced
constraints.  However it answers the challenges, of the `p^5` possible challenges `ab`, `lb`, `lc`, `sb`,
`x` at most `p^4 (N + 2 + L + D)` make the verifier accept, where `N` is the rank, `L` the number of linear
constraints and `D` bounds the degrees of the checked identities. -/
theorem C90_interactive {ty pw0 w0 : Nat} {ops : List (CtxOp (ZMod p))} (hK : 3 ≤ K)
    (hc : compile (2 ^ K) ty pw0 w0 ops = .ok cp) (hv : ∀ op ∈ ops, op.Valid pw0 w0)
    (hlt : 2 ^ K < max cp.ctx.arithCheckMaxRank cp.ctx.sumCheckMaxRank)
    (hlin : ∀ seed, LinOK (2 ^ K) E.users (projMatrix E.xof seed (2 ^ K)) cp.ctx.lin)
    (hj : 2 ^ K - 1 ≤ E.pcs.rank) (poly : E.pcs.Com → List (ZMod p))
    (hfix : E.pcs.Fixes cp.ctx.batch poly) (D : Nat)
    (hDa : ∀ c ∈ cp.ctx.arith, c.checkDeg (2 ^ K) E.pcs.rank ≤ D)
    (hDs : ∀ c ∈ cp.ctx.sums, c.checkDeg (2 ^ K) E.pcs.rank ≤ D)
    (hD1 : 2 * E.pcs.rank - 2 ^ K ≤ D) (hD2 : 2 ^ K + E.pcs.rank ≤ D)
    (enc : ZMod p → Bytes) (henc : ∀ a, E.setBytes (enc a) = a) (seed : Bytes)
    (two : List TwoEntry) (c : Circ (ZMod p)) (A : Cheater E.pcs)
    (hlen : A.first.length = cp.ctx.wCnt + (if cp.ctx.lin.length > 0 then 1 else 0) +
      (if cp.ctx.sums.length > 0 then 1 else 0))
    (hno : ∀ pw sw : List (List (ZMod p)), assignV cp two c.val = .ok (some pw) →
      sw.length = cp.ctx.wCnt → (∀ v ∈ sw, v.length = 2 ^ K) →
      (∀ (i : Nat) (v : List (ZMod p)) (u : E.pcs.Com), sw[i]? = some v → A.first[i]? = some u →
        Encodes cp v (poly u)) →
      ¬ Enforced cp.ctx E.users (projMatrix E.xof seed (2 ^ K)) pw sw) :
    (univ.filter (fun t : Chal5 p =>
      verifyWith E cp two c (A.run t.1 t.2.1 t.2.2.1 t.2.2.2.1 t.2.2.2.2)
        ⟨seed, enc t.1, enc t.2.1, enc t.2.2.1, enc t.2.2.2.1, enc t.2.2.2.2⟩ = .ok true)).card ≤
      p ^ 4 * (2 ^ K + 2 + linCount cp + D) := by
  obtain ⟨badC, badL, badS, badX, h1, h2, h3, h4, h⟩ := sound_core hK hc hv hlt hlin hj poly hfix D hDa hDs hD1 hD2
  set M := projMatrix E.xof seed (2 ^ K) with hM
  set f := A.first.map poly with hf
  set w := f.take cp.ctx.wCnt with hw
  set ls := A.linSum.getD 0 with hls
  set ss := A.sumSum.getD 0 with hss
  -- the public witnesses, if they can be assigned
  obtain ⟨pw, hpw⟩ : ∃ pw, ∀ pw', assignV cp two c.val = .ok (some pw') → pw' = pw := by
    by_cases hex : ∃ pw', assignV cp two c.val = .ok (some pw')
    · obtain ⟨pw', h⟩ := hex
      refine ⟨pw', fun pw'' h' => ?_⟩
      rw [h] at h'
      injection h' with h'
      injection h' with h'
      exact h'.symm
    · exact ⟨[], fun pw' h => absurd ⟨pw', h⟩ hex⟩
  have hcard : Fintype.card (ZMod p × ZMod p × ZMod p × ZMod p) = p ^ 4 := by
    simp only [Fintype.card_prod, ZMod.card]; ring
  have b1 := card_bad (T := Chal5 p) (fun t => (t.2.1, t.2.2.1, t.2.2.2.1, t.2.2.2.2)) (fun t => t.1)
    (fun t t' e e' => by
      obtain ⟨a, b, c, d, x⟩ := t; obtain ⟨a', b', c', d', x'⟩ := t'
      simp only [Prod.mk.injEq] at e e' ⊢
      exact ⟨e', e⟩) (fun _ => {0}) 1 (fun _ => by simp)
  have b2 := card_bad (T := Chal5 p) (fun t => (t.1, t.2.1, t.2.2.2.1, t.2.2.2.2)) (fun t => t.2.2.1)
    (fun t t' e e' => by
      obtain ⟨a, b, c, d, x⟩ := t; obtain ⟨a', b', c', d', x'⟩ := t'
      simp only [Prod.mk.injEq] at e e' ⊢
      exact ⟨e.1, e.2.1, e', e.2.2⟩) (fun _ => badC M w) (2 ^ K - 1) (fun _ => h1 _ _)
  have b3 := card_bad (T := Chal5 p) (fun t => (t.1, t.2.2.1, t.2.2.2.1, t.2.2.2.2)) (fun t => t.2.1)
    (fun t t' e e' => by
      obtain ⟨a, b, c, d, x⟩ := t; obtain ⟨a', b', c', d', x'⟩ := t'
      simp only [Prod.mk.injEq] at e e' ⊢
      exact ⟨e.1, e', e.2⟩) (fun t => badL M w t.2.1 (f.getD cp.ctx.wCnt []) ls) (linCount cp) (fun _ => h2 _ _ _ _ _)
  have b4 := card_bad (T := Chal5 p) (fun t => (t.1, t.2.1, t.2.2.1, t.2.2.2.2)) (fun t => t.2.2.2.1)
    (fun t t' e e' => by
      obtain ⟨a, b, c, d, x⟩ := t; obtain ⟨a', b', c', d', x'⟩ := t'
      simp only [Prod.mk.injEq] at e e' ⊢
      exact ⟨e.1, e.2.1, e.2.2.1, e', e.2.2.2⟩) (fun _ => badS pw w
        (f.getD (cp.ctx.wCnt + (if cp.ctx.lin.length > 0 then 1 else 0)) []) ss) 2 (fun _ => (h3 _ _ _ _).1)
  have b5 := card_bad (T := Chal5 p) (fun t => (t.1, t.2.1, t.2.2.1, t.2.2.2.1)) (fun t => t.2.2.2.2)
    (fun t t' e e' => by
      obtain ⟨a, b, c, d, x⟩ := t; obtain ⟨a', b', c', d', x'⟩ := t'
      simp only [Prod.mk.injEq] at e e' ⊢
      exact ⟨e.1, e.2.1, e.2.2.1, e.2.2.2, e'⟩) (fun t => badX pw M ((A.first ++ A.second t.1 t.2.1 t.2.2.1
        t.2.2.2).map poly) ls ss t.1 t.2.1 t.2.2.1 t.2.2.2) D (fun _ => h4 _ _ _ _ _ _ _ _ _)
  rw [hcard] at b1 b2 b3 b4 b5
  dsimp only at b1 b2 b3 b4 b5
  have hsub : (univ.filter (fun t : Chal5 p =>
      verifyWith E cp two c (A.run t.1 t.2.1 t.2.2.1 t.2.2.2.1 t.2.2.2.2)
        ⟨seed, enc t.1, enc t.2.1, enc t.2.2.1, enc t.2.2.2.1, enc t.2.2.2.2⟩ = .ok true)) ⊆
      ((((univ.filter (fun t : Chal5 p => t.1 ∈ ({0} : Finset (ZMod p)))) ∪
        (univ.filter (fun t : Chal5 p => t.2.2.1 ∈ badC M w))) ∪
        (univ.filter (fun t : Chal5 p => t.2.1 ∈ badL M w t.2.2.1 (f.getD cp.ctx.wCnt []) ls))) ∪
        (univ.filter (fun t : Chal5 p => t.2.2.2.1 ∈ badS pw w
          (f.getD (cp.ctx.wCnt + (if cp.ctx.lin.length > 0 then 1 else 0)) []) ss))) ∪
        (univ.filter (fun t : Chal5 p => t.2.2.2.2 ∈ badX pw M ((A.first ++ A.second t.1 t.2.1 t.2.2.1
          t.2.2.2.1).map poly) ls ss t.1 t.2.1 t.2.2.1 t.2.2.2.1)) := by
    rintro ⟨ab, lb, lc, sb, x⟩ ht
    rw [mem_filter] at ht
    obtain ⟨pw', hpw', hr⟩ := h two c _ _ ht.2
    obtain rfl := hpw pw' hpw'
    simp only [Cheater.run, henc, List.map_append] at hr
    have hfl : f.length = A.first.length := by rw [hf, List.length_map]
    have e1 : (f ++ (A.second ab lb lc sb).map poly).take cp.ctx.wCnt = w := by
      rw [hw, List.take_append_of_le_length (by omega)]
    rw [← hf, e1] at hr
    simp only [mem_union, mem_filter, mem_univ, true_and, mem_singleton, List.map_append]
    rw [← hf]
    rcases hr with hr | hr | hr | hr | hr | ⟨sw, s1, s2, s3, s4⟩
    · exact .inl (.inl (.inl (.inl hr)))
    · exact .inl (.inl (.inl (.inr hr)))
    · refine .inl (.inl (.inr ?_))
      by_cases hl : cp.ctx.lin.length > 0
      · rw [if_pos hl] at hlen
        rw [List.getD_append _ _ _ _ (by omega)] at hr
        exact hr
      · exfalso
        have hz : linCount cp = 0 := by
          rw [linCount, List.length_eq_zero_iff.1 (by omega : cp.ctx.lin.length = 0)]
          rfl
        have := h2 M w lc ((f ++ (A.second ab lb lc sb).map poly).getD cp.ctx.wCnt []) ls
        rw [hz, Nat.le_zero, card_eq_zero] at this
        rw [this] at hr
        simp at hr
    · refine .inl (.inr ?_)
      by_cases hl : cp.ctx.sums.length > 0
      · rw [if_pos hl] at hlen
        rw [List.getD_append _ _ _ _ (by omega)] at hr
        exact hr
      · exfalso
        rw [(h3 _ _ _ _).2 (List.length_eq_zero_iff.1 (by omega))] at hr
        simp at hr
    · exact .inr hr
    · exfalso
      refine hno pw' sw hpw' s1 s2 ?_ s4
      intro i v u hsv hu
      have hi : i < cp.ctx.wCnt := by
        rw [← s1]
        exact (List.getElem?_eq_some_iff.1 hsv).1
      refine s3 i v (poly u) hsv ?_
      rw [hw, List.getElem?_take, if_pos hi, hf, List.getElem?_map, hu]
      rfl
  refine (card_le_card hsub).trans ?_
  refine (card_union_le _ _).trans ?_
  have u1 := card_union_le (((univ.filter (fun t : Chal5 p => t.1 ∈ ({0} : Finset (ZMod p)))) ∪
        (univ.filter (fun t : Chal5 p => t.2.2.1 ∈ badC M w))) ∪
        (univ.filter (fun t : Chal5 p => t.2.1 ∈ badL M w t.2.2.1 (f.getD cp.ctx.wCnt []) ls)))
        (univ.filter (fun t : Chal5 p => t.2.2.2.1 ∈ badS pw w
          (f.getD (cp.ctx.wCnt + (if cp.ctx.lin.length > 0 then 1 else 0)) []) ss))
  have u2 := card_union_le ((univ.filter (fun t : Chal5 p => t.1 ∈ ({0} : Finset (ZMod p)))) ∪
        (univ.filter (fun t : Chal5 p => t.2.2.1 ∈ badC M w)))
        (univ.filter (fun t : Chal5 p => t.2.1 ∈ badL M w t.2.2.1 (f.getD cp.ctx.wCnt []) ls))
  have u3 := card_union_le (univ.filter (fun t : Chal5 p => t.1 ∈ ({0} : Finset (ZMod p))))
        (univ.filter (fun t : Chal5 p => t.2.2.1 ∈ badC M w))
  have h2K : 1 ≤ 2 ^ K := Nat.one_le_two_pow
  have e : p ^ 4 * (2 ^ K + 2 + linCount cp + D) =
      p ^ 4 * 1 + p ^ 4 * (2 ^ K - 1) + p ^ 4 * linCount cp + p ^ 4 * 2 + p ^ 4 * D := by
    have : 2 ^ K + 2 + linCount cp + D = 1 + (2 ^ K - 1) + linCount cp + 2 + D := by omega
    rw [this]; ring
  rw [e]
  omega

/-- `X * X = U`. -/
def ops90 : List (CtxOp (ZMod p)) := [.arith [⟨1, none, [0, 0]⟩, ⟨-1, some 0, []⟩]]

open Classical in
/-- `C90_interactive` applies to `X * X = U` (`p = 193`, rank 8) with `U = 5`, not a square: whatever a
prover does, it is accepted for at most `51 / 193` of the challenges. -/
example (hash : Bytes → Bytes) (xof : Bytes → Nat → UInt8) (marshal : ZMod 193 → Bytes)
    (setBytes : Bytes → ZMod 193) (users : Nat → LinearChecker (ZMod 193)) (enc : ZMod 193 → Bytes)
    (henc : ∀ a, setBytes (enc a) = a) (seed : Bytes) :
    ∃ cp, compile (p := 193) (2 ^ 3) 0 1 1 ops90 = .ok cp ∧
      ∀ A : Cheater (fixPCS 193 18 2), A.first.length = 1 →
      (univ.filter (fun t : Chal5 193 =>
        verifyWith ⟨fixPCS 193 18 2, hash, xof, marshal, setBytes, users⟩ cp []
          ⟨0, circ47 (List.replicate 8 5) (List.replicate 8 0)⟩
          (A.run t.1 t.2.1 t.2.2.1 t.2.2.2.1 t.2.2.2.2)
          ⟨seed, enc t.1, enc t.2.1, enc t.2.2.1, enc t.2.2.2.1, enc t.2.2.2.2⟩ = .ok true)).card ≤
        193 ^ 4 * 51 := by
  obtain ⟨cp, h1, h2⟩ := compile_total (p := 193) (N := 2 ^ 3) (ty := 0) (pw0 := 1) (w0 := 1)
    (ops := ops90) (K := 3) (Ke := 5) rfl (by norm_num) (by norm_num) rfl rfl (by norm_num) (by norm_num)
  refine ⟨cp, h1, fun A hA => ?_⟩
  have hlin : cp.ctx.lin = [] := by rw [h2]; rfl
  have hsum : cp.ctx.sums = [] := by rw [h2]; rfl
  have harith : cp.ctx.arith = [[⟨1, none, [0, 0]⟩, ⟨-1, some 0, []⟩]] := by rw [h2]; rfl
  have hw : cp.ctx.wCnt = 1 := by rw [h2]; rfl
  have hr : cp.ctx.rank = 8 := by rw [h2]; rfl
  have hpc : cp.ctx.pwCnt = 1 := by rw [h2]; rfl
  have hb : cp.ctx.batch = 2 := by rw [h2]; rfl
  have hz : linCount cp = 0 := by rw [linCount, hlin]; rfl
  refine (C90_interactive (E := ⟨fixPCS 193 18 2, hash, xof, marshal, setBytes, users⟩) (K := 3) (by norm_num) h1
    ?_ ?_ ?_ (by norm_num) id (by rw [hb]; exact fixPCS_fixes _ _) 41 ?_ ?_ (by norm_num) (by norm_num)
    enc henc seed [] _ A ?_ ?_).trans (by rw [hz]; norm_num)
  · intro op hop
    simp only [ops90, List.mem_cons, List.not_mem_nil, or_false] at hop
    subst hop
    intro t ht
    simp only [List.mem_cons, List.not_mem_nil, or_false] at ht
    rcases ht with rfl | rfl <;> simp
  · rw [h2]; decide +kernel
  · intro seed e he
    rw [hlin] at he
    cases he
  · intro c hc
    rw [harith, List.mem_singleton] at hc
    subst hc
    show Constraint.checkDeg (2 ^ 3) 18 _ ≤ 41
    decide +kernel
  · intro c hc
    rw [hsum] at hc
    cases hc
  · rw [hA, hw, hlin, hsum]; rfl
  · intro pw sw hpw h3 h4 _ h5
    have hpw' : assignV cp [] (circ47 (List.replicate 8 5) (List.replicate 8 0)) =
        .ok (some [List.replicate 8 5]) := by
      unfold assignV
      rw [hr, hpc]
      rfl
    rw [hpw'] at hpw
    cases hpw
    have := h5.arith 0 (by rw [hr]; norm_num)
    rw [harith] at this
    simp only [List.map_cons, List.map_nil, List.sum_cons, List.sum_nil, Constraint.onRow, Constraint.value,
      Term.value, rowOf, List.prod_cons, List.prod_nil] at this
    generalize (sw.getD 0 []).getD 0 0 = x at this
    revert x
    decide +kernel

end

end Ringo
