import Verif.Props.Sound

/-!
# The linear check, with the batching challenge drawn first

`C38_linSound` bounds the bad values of the challenge `lc` and then those of the batching challenge.  The
code draws them in the other order.
-/

namespace Ringo

open Finset Polynomial

section
variable {p : Nat} [Fact p.Prime] {cp : Compilation (ZMod p)} {K : Nat}

/-- The errors of the linear constraints, as polynomials. -/
noncomputable def linDiffs (K : Nat) (cp : Compilation (ZMod p)) (users : Nat → LinearChecker (ZMod p))
    (proj : List (List Bool)) (sw : List (List (ZMod p))) : List (ZMod p)[X] :=
  cp.ctx.lin.flatMap (fun e => e.2.map (fun x =>
    listPoly (keyMap (2 ^ K) users proj e.1 (sw.getD x.2 [])) - listPoly (sw.getD x.1 [])))

theorem linDiffs_length (users : Nat → LinearChecker (ZMod p)) (proj : List (List Bool))
    (sw : List (List (ZMod p))) : (linDiffs K cp users proj sw).length = linCount cp := by
  unfold linDiffs linCount
  rw [List.length_flatMap]
  congr 1
  apply List.map_congr_left
  intro e _
  simp

theorem horner_coeff (b : ZMod p) (ts : List (ZMod p)[X]) (a : (ZMod p)[X]) (k : Nat) :
    (horner (C b) ts a).coeff k = horner b (ts.map (fun t => t.coeff k)) (a.coeff k) := by
  induction ts generalizing a with
  | nil => rfl
  | cons t ts ih =>
    have h1 : horner (C b) (t :: ts) a = horner (C b) ts (C b * a + t) := rfl
    rw [h1, ih, coeff_add, coeff_C_mul]
    rfl

/-- If the check passes at many points, the batched error vanishes. -/
theorem lin_relation {ty pw0 w0 : Nat} {ops : List (CtxOp (ZMod p))} (hK : 3 ≤ K)
    (hc : compile (2 ^ K) ty pw0 w0 ops = .ok cp) (hv : ∀ op ∈ ops, op.Valid pw0 w0) (hne : cp.ctx.lin ≠ [])
    (users : Nat → LinearChecker (ZMod p)) (proj : List (List Bool))
    (hlin : LinOK (2 ^ K) users proj cp.ctx.lin)
    (jrank : Nat) (hj : 2 ^ K - 1 ≤ jrank)
    (sw wps : List (List (ZMod p))) (hsl : sw.length = cp.ctx.wCnt) (hwl : wps.length = cp.ctx.wCnt)
    (hsw : ∀ v ∈ sw, v.length = 2 ^ K) (hwps : ∀ w ∈ wps, w.length ≤ jrank)
    (henc : ∀ (i : Nat) (v w : List (ZMod p)), sw[i]? = some v → wps[i]? = some w → Encodes cp v w)
    (mask : List (ZMod p)) (maskSum : ZMod p) (hmask : mask.length ≤ jrank) :
    ∃ κ : ZMod p, ∀ b lc (quo lo hi : List (ZMod p)), quo.length ≤ jrank → lo.length ≤ jrank →
      hi.length ≤ jrank → ∀ S : Finset (ZMod p),
      (∀ y ∈ S, ∃ evals, EvalsOf wps y evals ∧
        linCheckV cp users proj jrank b lc (evalAt mask.length mask y) y
          (expU64 y cp.ctx.rank - 1) maskSum (evalAt quo.length quo y)
          (evalAt lo.length lo y) (evalAt hi.length hi y) evals = .ok true) →
      max (2 * jrank - 2 ^ K) (2 ^ K + jrank - 1) < S.card →
      b * horner b ((linDiffs K cp users proj sw).map (eval lc)) 0 + κ = 0 := by
  have hlt : 2 ^ K < max cp.ctx.arithCheckMaxRank cp.ctx.sumCheckMaxRank := by
    have hi : CtxInv (2 ^ K) pw0 w0 cp.ctx := CtxInv.define ops (CtxInv.new _ _ _ _) (compile_inv hc).1
    have h1 := hi.linMax hne
    have h2 : 2 ^ 3 ≤ 2 ^ K := Nat.pow_le_pow_right (by norm_num) hK
    refine lt_of_lt_of_le ?_ (le_max_left _ _)
    omega
  obtain ⟨Ke, g, ge, h⟩ := compile_good hK hc hlt
  have href := compile_refs hc hv
  have hN8 : 2 ^ 3 ≤ 2 ^ K := Nat.pow_le_pow_right (by norm_num) hK
  have hswl : ∀ i < cp.ctx.wCnt, (sw.getD i []).length = 2 ^ K := by
    intro i hi
    rw [List.getD_eq_getElem?_getD, List.getElem?_eq_getElem (by omega)]
    exact hsw _ (List.getElem_mem _)
  have hev : ∀ i < cp.ctx.wCnt, ∀ j < 2 ^ K,
      (witPoly wps i).eval (g ^ rev K j) = (sw.getD i []).getD j 0 := by
    intro i hi j hj
    have h1 : sw[i]? = some (sw.getD i []) := by
      rw [List.getD_eq_getElem?_getD, List.getElem?_eq_getElem (by omega)]; rfl
    have h2 : wps[i]? = some (wps.getD i []) := by
      rw [List.getD_eq_getElem?_getD, List.getElem?_eq_getElem (by omega)]; rfl
    exact (henc i _ _ h1 h2).eval h (hswl i hi) j hj
  refine ⟨dsum K g (listPoly mask) - (2 ^ K : Nat) * maskSum, ?_⟩
  intro b lc quo lo hi hquo hlo hhi S hpass hcard
  set vec : List (ZMod p) := (List.range (2 ^ K)).map (fun i => lc ^ i) with hvec
  have hvl : vec.length = 2 ^ K := by simp [hvec]
  have hinner : ∀ u : List (ZMod p), u.length = 2 ^ K → inner (2 ^ K) u vec = (listPoly u).eval lc := by
    intro u hu
    rw [listPoly_eval, hu]
    unfold inner evalAt
    apply sum_congr rfl
    intro i hi
    rw [mem_range] at hi
    congr 1
    simp [hvec, hi]
  set ts := linTerms cp users proj (witPoly wps) vec cp.ctx.lin with hts
  have hdiff : (linDiffs K cp users proj sw).map (eval lc) = ts.map (dsum K g) := by
    rw [hts]
    unfold linDiffs linTerms
    rw [List.map_flatMap, List.map_flatMap]
    refine List.flatMap_congr ?_
    intro e he
    rw [List.map_map, List.map_map]
    apply List.map_congr_left
    intro x hx
    obtain ⟨hx1, hx2⟩ := href.lin e he x hx
    obtain ⟨L, l1, hadj⟩ := hlin e he
    obtain ⟨a, -, a1, -, a3, -, -⟩ := hadj (List.replicate (2 ^ K) 0) (List.replicate (2 ^ K) 0)
      (List.replicate (2 ^ K) 0) (sw.getD x.2 []) (by simp) (by simp) (by simp) (hswl _ hx2)
    have hkm : keyMap (2 ^ K) users proj e.1 (sw.getD x.2 []) = a := by
      unfold keyMap; rw [l1]; simp only; rw [a1]
    show eval lc _ = dsum K g _
    rw [linTerm_dsum h hlin he vec (sw.getD x.2 []) (sw.getD x.1 []) hvl (hswl _ hx2) _ _
      (hev _ hx2) (hev _ hx1), hkm, hinner _ a3, hinner _ (hswl _ hx1), eval_sub, hkm]
  have hall : ∀ y ∈ S, (listPoly hi).eval y = y ^ (jrank - (2 ^ K - 1)) * (listPoly lo).eval y ∧
      b * horner b (ts.map (eval y)) 0 + (listPoly mask).eval y =
        (listPoly quo).eval y * (y ^ 2 ^ K - 1) + (listPoly lo).eval y * y + maskSum := by
    intro y hy
    obtain ⟨evals, hevs, hp⟩ := hpass y hy
    have hlen := hevs.length
    rw [linCheckV_spec h hj hlin evals (fun e he w hwm => by have := href.lin e he w hwm; omega)] at hp
    have hp' := of_decide_eq_true (Except.ok.inj hp)
    rw [← listPoly_eval, ← listPoly_eval, ← listPoly_eval, ← listPoly_eval,
      linVals_eval cp users proj wps evals vec y hevs _ (by rw [hwl]; exact href.lin), expU64_eq,
      h.rank] at hp'
    exact hp'
  have hlod := listPoly_natDegree_le lo jrank hlo
  have hhid := listPoly_natDegree_le hi jrank hhi
  have hqud := listPoly_natDegree_le quo jrank hquo
  have hmad := listPoly_natDegree_le mask jrank hmask
  have id1 : listPoly hi = X ^ (jrank - (2 ^ K - 1)) * listPoly lo := by
    rw [← sub_eq_zero]
    refine eq_zero_of_many_roots (D := max (2 * jrank - 2 ^ K) (2 ^ K + jrank - 1)) ?_ S hcard ?_
    · refine (natDegree_sub_le _ _).trans (max_le ?_ ?_)
      · omega
      · refine natDegree_mul_le.trans ?_
        rw [natDegree_X_pow]
        omega
    · intro y hy
      rw [eval_sub, eval_mul, eval_pow, eval_X, (hall y hy).1, sub_self]
  have hterm : ∀ t ∈ ts, t.natDegree ≤ (2 ^ K - 1) + (jrank - 1) := by
    intro t ht
    rw [hts] at ht
    unfold linTerms at ht
    rw [List.mem_flatMap] at ht
    obtain ⟨e', he', ht⟩ := ht
    rw [List.mem_map] at ht
    obtain ⟨y, hy, rfl⟩ := ht
    obtain ⟨-, -, -, hl⟩ := keyTr_spec hlin he' (List.replicate (2 ^ K) 0) vec (by simp) hvl
    refine (natDegree_sub_le _ _).trans (max_le ?_ ?_)
    · refine natDegree_mul_le.trans (Nat.add_le_add ?_ (witPoly_natDegree hwps _))
      exact h.encP_degree _ (by rw [h.rank]; exact hl)
    · exact natDegree_mul_le.trans (Nat.add_le_add (h.encP_degree vec hvl) (witPoly_natDegree hwps _))
  have id2 : C b * horner (C b) ts 0 + listPoly mask =
      listPoly quo * (X ^ 2 ^ K - 1) + listPoly lo * X + C maskSum := by
    rw [← sub_eq_zero]
    refine eq_zero_of_many_roots (D := max (2 * jrank - 2 ^ K) (2 ^ K + jrank - 1)) ?_ S hcard ?_
    · have hvan : (X ^ 2 ^ K - 1 : (ZMod p)[X]).natDegree = 2 ^ K :=
        natDegree_eq_of_degree_eq_some (X_pow_sub_one_degree _ (Nat.two_pow_pos K))
      have d1 : (C b * horner (C b) ts 0).natDegree ≤ (2 ^ K - 1) + (jrank - 1) := by
        refine natDegree_mul_le.trans ?_
        rw [natDegree_C, zero_add]
        exact natDegree_horner_le b ts 0 (by simp) hterm
      have d2 : (listPoly quo * (X ^ 2 ^ K - 1)).natDegree ≤ (jrank - 1) + 2 ^ K := by
        refine natDegree_mul_le.trans ?_; omega
      have d3 : (listPoly lo * X).natDegree ≤ (jrank - 1) + 1 := by
        refine natDegree_mul_le.trans ?_; rw [natDegree_X]; omega
      have d4 : (C maskSum : (ZMod p)[X]).natDegree = 0 := natDegree_C _
      refine (natDegree_sub_le _ _).trans (max_le ?_ ?_)
      · refine (natDegree_add_le _ _).trans (max_le ?_ ?_) <;> omega
      · refine (natDegree_add_le _ _).trans (max_le ?_ (by omega))
        refine (natDegree_add_le _ _).trans (max_le ?_ ?_) <;> omega
    · intro y hy
      have h2 := (hall y hy).2
      simp only [eval_add, eval_mul, eval_sub, eval_pow, eval_X, eval_one, eval_C]
      rw [horner_eval, eval_zero, h2, sub_self]
  have hsum := remainder_sum h hj _ maskSum quo lo hi hhi id1 id2
  rw [dsum_add, dsum_C_mul, horner_dsum] at hsum
  have hz : dsum K g (0 : (ZMod p)[X]) = 0 := by simp [dsum]
  rw [hz] at hsum
  rw [hdiff]
  linear_combination hsum

/-- **C38, in the order of the code.** If some linear constraint does not hold, then, except for at most as
many values of the batching challenge as there are linear constraints and then `rank - 1` values of the
challenge `lc`, no messages pass the verifier's linear check on more points than the degree of the checked
identities. -/
theorem linSound_rev {ty pw0 w0 : Nat} {ops : List (CtxOp (ZMod p))} (hK : 3 ≤ K)
    (hc : compile (2 ^ K) ty pw0 w0 ops = .ok cp) (hv : ∀ op ∈ ops, op.Valid pw0 w0)
    (users : Nat → LinearChecker (ZMod p)) (proj : List (List Bool))
    (hlin : LinOK (2 ^ K) users proj cp.ctx.lin)
    (jrank : Nat) (hj : 2 ^ K - 1 ≤ jrank)
    (sw wps : List (List (ZMod p))) (hsl : sw.length = cp.ctx.wCnt) (hwl : wps.length = cp.ctx.wCnt)
    (hsw : ∀ v ∈ sw, v.length = 2 ^ K) (hwps : ∀ w ∈ wps, w.length ≤ jrank)
    (henc : ∀ (i : Nat) (v w : List (ZMod p)), sw[i]? = some v → wps[i]? = some w → Encodes cp v w)
    (e : CheckerKey × List (Nat × Nat)) (he : e ∈ cp.ctx.lin) (x : Nat × Nat) (hx : x ∈ e.2)
    (hfail : ∀ L, resolve users proj e.1 = .ok L →
      L.transformTo (List.replicate (2 ^ K) 0) (sw.getD x.2 []) ≠ .ok (sw.getD x.1 []))
    (mask : List (ZMod p)) (maskSum : ZMod p) (hmask : mask.length ≤ jrank) :
    ∃ badB : Finset (ZMod p), badB.card ≤ linCount cp ∧ ∀ b ∉ badB,
      ∃ badLc : Finset (ZMod p), badLc.card ≤ 2 ^ K - 1 ∧ ∀ lc ∉ badLc,
        ∀ quo remLo remHi : List (ZMod p), quo.length ≤ jrank → remLo.length ≤ jrank →
          remHi.length ≤ jrank → ∀ S : Finset (ZMod p),
          (∀ y ∈ S, ∃ evals, EvalsOf wps y evals ∧
            linCheckV cp users proj jrank b lc (evalAt mask.length mask y) y
              (expU64 y cp.ctx.rank - 1) maskSum (evalAt quo.length quo y)
              (evalAt remLo.length remLo y) (evalAt remHi.length remHi y) evals = .ok true) →
          S.card ≤ max (2 * jrank - 2 ^ K) (2 ^ K + jrank - 1) := by
  have hne : cp.ctx.lin ≠ [] := List.ne_nil_of_mem he
  obtain ⟨κ, hrel⟩ := lin_relation hK hc hv hne users proj hlin jrank hj sw wps hsl hwl hsw hwps henc mask
    maskSum hmask
  have href := compile_refs hc hv
  have hswl : ∀ i < cp.ctx.wCnt, (sw.getD i []).length = 2 ^ K := by
    intro i hi
    rw [List.getD_eq_getElem?_getD, List.getElem?_eq_getElem (by omega)]
    exact hsw _ (List.getElem_mem _)
  have hdeg : ∀ t ∈ linDiffs K cp users proj sw, t.natDegree ≤ 2 ^ K - 1 := by
    intro t ht
    unfold linDiffs at ht
    rw [List.mem_flatMap] at ht
    obtain ⟨e', he', ht⟩ := ht
    rw [List.mem_map] at ht
    obtain ⟨y, hy, rfl⟩ := ht
    obtain ⟨hy1, hy2⟩ := href.lin e' he' y hy
    obtain ⟨L, l1, hadj⟩ := hlin e' he'
    obtain ⟨a, -, a1, -, a3, -, -⟩ := hadj (List.replicate (2 ^ K) 0) (List.replicate (2 ^ K) 0)
      (List.replicate (2 ^ K) 0) (sw.getD y.2 []) (by simp) (by simp) (by simp) (hswl _ hy2)
    have hkm : keyMap (2 ^ K) users proj e'.1 (sw.getD y.2 []) = a := by
      unfold keyMap; rw [l1]; simp only; rw [a1]
    rw [hkm]
    refine (natDegree_sub_le _ _).trans (max_le ?_ ?_)
    · exact listPoly_natDegree_le _ _ (by omega)
    · exact listPoly_natDegree_le _ _ (by have := hswl _ hy1; omega)
  obtain ⟨D, hDm, hD0⟩ : ∃ D ∈ linDiffs K cp users proj sw, D ≠ 0 := by
    obtain ⟨hx1, hx2⟩ := href.lin e he x hx
    obtain ⟨L, l1, hadj⟩ := hlin e he
    obtain ⟨a, -, a1, -, a3, -, -⟩ := hadj (List.replicate (2 ^ K) 0) (List.replicate (2 ^ K) 0)
      (List.replicate (2 ^ K) 0) (sw.getD x.2 []) (by simp) (by simp) (by simp) (hswl _ hx2)
    have hkm : keyMap (2 ^ K) users proj e.1 (sw.getD x.2 []) = a := by
      unfold keyMap; rw [l1]; simp only; rw [a1]
    refine ⟨listPoly (keyMap (2 ^ K) users proj e.1 (sw.getD x.2 [])) - listPoly (sw.getD x.1 []), ?_, ?_⟩
    · unfold linDiffs
      rw [List.mem_flatMap]
      exact ⟨e, he, List.mem_map.2 ⟨x, hx, rfl⟩⟩
    · intro h0
      rw [hkm] at h0
      have := listPoly_injective (by rw [a3, hswl _ hx1]) (sub_eq_zero.mp h0)
      exact hfail L l1 (by rw [a1, this])
  obtain ⟨k, hk⟩ : ∃ k, D.coeff k ≠ 0 := by
    by_contra hno
    push Not at hno
    exact hD0 (Polynomial.ext (by simpa using hno))
  set co := (linDiffs K cp users proj sw).map (fun t => t.coeff k) with hco
  obtain ⟨q1, q2, q3⟩ := horner_poly co
  set Q := horner (X : (ZMod p)[X]) (co.map C) 0 with hQ
  have hQ0 : Q ≠ 0 := fun h0 => hk (q2 h0 _ (List.mem_map.2 ⟨D, hDm, rfl⟩))
  set B := X * Q + C ((C κ : (ZMod p)[X]).coeff k) with hB
  have hB0 : B ≠ 0 := by
    intro h0
    apply hQ0
    ext m
    have := congrArg (fun q => coeff q (m + 1)) h0
    simpa [hB, coeff_X_mul] using this
  have hcnt : (linDiffs K cp users proj sw).length = linCount cp := linDiffs_length _ _ _
  have hcpos : 1 ≤ (linDiffs K cp users proj sw).length := List.length_pos_of_mem hDm
  have hBd : B.natDegree ≤ linCount cp := by
    refine (natDegree_add_le _ _).trans (max_le ?_ (by simp))
    refine natDegree_mul_le.trans ?_
    rw [natDegree_X]
    rw [hco, List.length_map] at q1
    omega
  refine ⟨B.roots.toFinset, le_trans (Multiset.toFinset_card_le _) (le_trans (card_roots' _) hBd), ?_⟩
  intro b hb
  have hBb : B.eval b ≠ 0 := by
    intro h0; apply hb; rw [Multiset.mem_toFinset, mem_roots hB0]; exact h0
  set R := C b * horner (C b) (linDiffs K cp users proj sw) 0 + C κ with hR
  have hR0 : R ≠ 0 := by
    intro h0
    apply hBb
    have := congrArg (fun q => coeff q k) h0
    simp only [hR, coeff_add, coeff_C_mul, horner_coeff, coeff_zero] at this
    rw [hB, eval_add, eval_mul, eval_X, eval_C, q3]
    exact this
  have hRd : R.natDegree ≤ 2 ^ K - 1 := by
    refine (natDegree_add_le _ _).trans (max_le ?_ (by simp))
    refine natDegree_mul_le.trans ?_
    rw [natDegree_C, zero_add]
    exact natDegree_horner_le b _ 0 (by simp) hdeg
  refine ⟨R.roots.toFinset, le_trans (Multiset.toFinset_card_le _) (le_trans (card_roots' _) hRd), ?_⟩
  intro lc hlc quo lo hi hquo hlo hhi S hpass
  by_contra hcard
  push Not at hcard
  apply hlc
  rw [Multiset.mem_toFinset, mem_roots hR0]
  have := hrel b lc quo lo hi hquo hlo hhi S hpass hcard
  show R.eval lc = 0
  rw [hR, eval_add, eval_mul, eval_C, eval_C, horner_eval, eval_zero]
  exact this

end

end Ringo
