import Verif.Proof.RomRounds

/-!
# C121: soundness of Buckler's non-interactive proofs, for a random hash function
-/

namespace Ringo

open Finset

section
variable {p : Nat} [Fact p.Prime] {E : Env (ZMod p)} {cp : Compilation (ZMod p)} {K : Nat}

open Classical in
/-- The hash values that become an element of `B`. -/
noncomputable def excSet (E : Env (ZMod p)) (H : Nat) (B : Finset (ZMod p)) : Finset (Digest H) :=
  univ.filter fun d => E.setBytes (List.ofFn d) ∈ B

omit [Fact p.Prime] in
open Classical in
theorem excSet_card {H κ : Nat}
    (hκ : ∀ a, (univ.filter (fun d : Digest H => E.setBytes (List.ofFn d) = a)).card ≤ κ) (B : Finset (ZMod p))
    {e : Nat} (hB : B.card ≤ e) : (excSet E H B).card ≤ κ * e := by
  have h1 : excSet E H B ⊆ B.biUnion (fun a => univ.filter (fun d : Digest H => E.setBytes (List.ofFn d) = a)) := by
    intro d hd
    unfold excSet at hd
    rw [mem_filter] at hd
    exact mem_biUnion.2 ⟨_, hd.2, mem_filter.2 ⟨mem_univ _, rfl⟩⟩
  refine (card_le_card h1).trans (card_biUnion_le.trans ?_)
  refine (sum_le_sum (fun a _ => hκ a)).trans ?_
  rw [sum_const, smul_eq_mul, mul_comm]
  exact Nat.mul_le_mul_left κ hB

omit [Fact p.Prime] in
theorem mem_excSet {H : Nat} {B : Finset (ZMod p)} {d : Digest H} :
    d ∈ excSet E H B ↔ E.setBytes (List.ofFn d) ∈ B := by
  unfold excSet; simp

/-- The hash value of a string. -/
noncomputable def ROracle.dig {n H : Nat} (h : ROracle n H) (b : Bytes) : Digest H :=
  if hb : b.length ≤ n then h ⟨b, hb⟩ else fun _ => 0

theorem ROracle.hash_dig {n H : Nat} (h : ROracle n H) {b : Bytes} (hb : b.length ≤ n) :
    h.hash b = List.ofFn (h.dig b) := by
  unfold ROracle.hash ROracle.dig
  rw [dif_pos hb, dif_pos hb]

/-- The challenges of a proof. -/
noncomputable def ROracle.chal {n H : Nat} (h : ROracle n H) (R : List (Bytes × List Bytes)) : Nat → Digest H
  | 0 => h.dig ((R.getD 0 ([], [])).1 ++ [] ++ (R.getD 0 ([], [])).2.flatten)
  | j + 1 => h.dig ((R.getD (j + 1) ([], [])).1 ++ List.ofFn (h.chal R j) ++ (R.getD (j + 1) ([], [])).2.flatten)

theorem ROracle.chal_eq {n H : Nat} (h : ROracle n H) (R : List (Bytes × List Bytes)) (j : Nat) :
    h.chal R j = h.dig (chainIn R (h.chal R) j) := by
  cases j <;> rfl

omit [Fact p.Prime] in
/-- The inputs of the hash function are those of the chain. -/
theorem fsInputs_chain {n H : Nat} (h : ROracle n H) {L M : Nat} {R : List (Bytes × List Bytes)}
    (hR : RShape chalNames (roundLens cp.ctx L M) R)
    (hn : 18 + H + (cp.ctx.wCnt + cp.ctx.wSecond.length + cp.ctx.batch + 2) * L + 2 * M ≤ n) :
    fsInputs h.hash [] R = (List.range 6).map (chainIn R (h.chal R)) := by
  have hlen : ∀ j < 6, (chainIn R (h.chal R) j).length ≤ n := fun j hj =>
    (chainIn_length hR (h.chal R) j hj).trans hn
  have hh : ∀ j < 6, h.hash (chainIn R (h.chal R) j) = List.ofFn (h.chal R j) := by
    intro j hj
    rw [h.hash_dig (hlen j hj), ← h.chal_eq]
  have hRl : R.length = 6 := by
    have := congrArg List.length hR.names
    rw [List.length_map] at this
    exact this
  match R, hRl, hh with
  | [(n0, m0), (n1, m1), (n2, m2), (n3, m3), (n4, m4), (n5, m5)], _, hh =>
    set c := h.chal [(n0, m0), (n1, m1), (n2, m2), (n3, m3), (n4, m4), (n5, m5)] with hc
    have e0 : chainIn [(n0, m0), (n1, m1), (n2, m2), (n3, m3), (n4, m4), (n5, m5)] c 0 = n0 ++ [] ++ m0.flatten := rfl
    have e1 : chainIn [(n0, m0), (n1, m1), (n2, m2), (n3, m3), (n4, m4), (n5, m5)] c 1 =
      n1 ++ List.ofFn (c 0) ++ m1.flatten := rfl
    have e2 : chainIn [(n0, m0), (n1, m1), (n2, m2), (n3, m3), (n4, m4), (n5, m5)] c 2 =
      n2 ++ List.ofFn (c 1) ++ m2.flatten := rfl
    have e3 : chainIn [(n0, m0), (n1, m1), (n2, m2), (n3, m3), (n4, m4), (n5, m5)] c 3 =
      n3 ++ List.ofFn (c 2) ++ m3.flatten := rfl
    have e4 : chainIn [(n0, m0), (n1, m1), (n2, m2), (n3, m3), (n4, m4), (n5, m5)] c 4 =
      n4 ++ List.ofFn (c 3) ++ m4.flatten := rfl
    have e5 : chainIn [(n0, m0), (n1, m1), (n2, m2), (n3, m3), (n4, m4), (n5, m5)] c 5 =
      n5 ++ List.ofFn (c 4) ++ m5.flatten := rfl
    have h0 := hh 0 (by norm_num)
    have h1 := hh 1 (by norm_num)
    have h2 := hh 2 (by norm_num)
    have h3 := hh 3 (by norm_num)
    have h4 := hh 4 (by norm_num)
    rw [e0] at h0
    rw [e1] at h1
    rw [e2] at h2
    rw [e3] at h3
    rw [e4] at h4
    simp only [fsInputs]
    rw [h0, h1, h2, h3, h4]
    show _ = [_, _, _, _, _, _]
    rw [e0, e1, e2, e3, e4, e5]

/-- **C121.** Soundness of the non-interactive proofs in the random oracle model, for a circuit and public
witnesses fixed in advance, over a commitment scheme that fixes the values (`PCS.Fixes`).  A program that
makes at most `Q` calls of the hash function and then returns a proof convinces `Verify`, without its
commitments being commitments to a witness (`Witnessed`), for at most a
`(Q + 6) * (2 * (Q + 6) + κ * max D linCount) / 256 ^ H` part of all hash functions.  `D` bounds the degrees of
the checked identities and `κ` the number of hash values that become the same field element. -/
theorem C121_randomOracle {ty pw0 w0 : Nat} {ops : List (CtxOp (ZMod p))} (hK : 3 ≤ K)
    (hc : compile (2 ^ K) ty pw0 w0 ops = .ok cp) (hv : ∀ op ∈ ops, op.Valid pw0 w0)
    (hlt : 2 ^ K < max cp.ctx.arithCheckMaxRank cp.ctx.sumCheckMaxRank)
    (hlin : ∀ seed, LinOK (2 ^ K) E.users (projMatrix E.xof seed (2 ^ K)) cp.ctx.lin)
    (hj : 2 ^ K - 1 ≤ E.pcs.rank) (poly : E.pcs.Com → List (ZMod p))
    (hfix : E.pcs.Fixes cp.ctx.batch poly) (D : Nat)
    (hDa : ∀ c ∈ cp.ctx.arith, c.checkDeg (2 ^ K) E.pcs.rank ≤ D)
    (hDs : ∀ c ∈ cp.ctx.sums, c.checkDeg (2 ^ K) E.pcs.rank ≤ D)
    (hD1 : 2 * E.pcs.rank - 2 ^ K ≤ D) (hD2 : 2 ^ K + E.pcs.rank ≤ D)
    (hser : Function.Injective E.pcs.ser) {L : Nat} (hL : ∀ c, (E.pcs.ser c).length = L)
    (hmar : Function.Injective E.marshal) {M : Nat} (hM : ∀ a, (E.marshal a).length = M)
    {n H κ : Nat} (hn : 18 + H + (cp.ctx.wCnt + cp.ctx.wSecond.length + cp.ctx.batch + 2) * L + 2 * M ≤ n)
    (hκ : ∀ a, Nat.card {d : Digest H // E.setBytes (List.ofFn d) = a} ≤ κ)
    (two : List TwoEntry) (c : Circ (ZMod p)) (Q : Nat) (A : Asker (Query n) (Digest H) (BProof (ZMod p) E.pcs)) (hA : A.AtMost Q) :
    Nat.card {h : ROracle n H // verify (E.withHash h.hash) cp two c (A.run h) = .ok true ∧
        ¬ Witnessed (E.withHash h.hash) cp poly two c (A.run h)} * 256 ^ H ≤
      (Q + 6) * (2 * (Q + 6) + κ * max D (linCount cp)) * Nat.card (ROracle n H) := by
  classical
  have hκ' : ∀ a, (univ.filter (fun d : Digest H => E.setBytes (List.ofFn d) = a)).card ≤ κ := by
    intro a
    have := hκ a
    rw [Nat.card_eq_fintype_card, Fintype.card_subtype] at this
    exact this
  have hcardD : Fintype.card (Digest H) = 256 ^ H := by
    have h256 : Fintype.card UInt8 = 256 := by decide +kernel
    rw [Fintype.card_fun, h256, Fintype.card_fin]
  have hi : CtxInv2 (2 ^ K) cp.ctx := CtxInv2.define ops (CtxInv2.new _ _ _ _) (compile_inv hc).1
  have hrank : cp.ctx.rank = 2 ^ K := by
    obtain ⟨Ke, g, ge, h⟩ := compile_good hK hc hlt
    exact h.rank
  obtain ⟨badL, badC, badS, badX, hbL, hbC, hbS, hbX, hsound⟩ :=
    sound_core_rev hK hc hv hlt hlin hj poly hfix D hDa hDs hD1 hD2
  have hb := batch_eq cp.ctx
  -- the public witnesses
  by_cases hpw : ∃ pw, assignV cp two c.val = .ok (some pw)
  swap
  · have : IsEmpty {h : ROracle n H // verify (E.withHash h.hash) cp two c (A.run h) = .ok true ∧
        ¬ Witnessed (E.withHash h.hash) cp poly two c (A.run h)} := by
      refine ⟨fun x => ?_⟩
      obtain ⟨ch, l, s, k, -, hw⟩ := verify_verifyWith x.2.1
      obtain ⟨pw, h1, -⟩ := hsound _ two c _ ch hw
      exact hpw ⟨pw, h1⟩
    rw [Nat.card_of_isEmpty]
    simp
  obtain ⟨pw, hpw⟩ := hpw
  -- the bad challenges
  let fe : Digest H → ZMod p := fun d => E.setBytes (List.ofFn d)
  let Prf := {π : BProof (ZMod p) E.pcs // π.witness.length = cp.ctx.batch}
  let rounds : Prf → List (Bytes × List Bytes) := fun π => bucklerRounds E cp.ctx π.1
  let f : Prf → List (List (ZMod p)) := fun π => π.1.witness.map poly
  let w : Prf → List (List (ZMod p)) := fun π => (f π).take cp.ctx.wCnt
  let Mx : (Nat → Digest H) → List (List Bool) := fun c => projMatrix E.xof (List.ofFn (c 0)) (2 ^ K)
  let ls : Prf → ZMod p := fun π => sumIf cp.ctx.lin π.1.linMaskSum
  let ss : Prf → ZMod p := fun π => sumIf cp.ctx.sums π.1.sumMaskSum
  let m1 : Prf → List (ZMod p) := fun π => (f π).getD cp.ctx.wCnt []
  let m2 : Prf → List (ZMod p) := fun π => (f π).getD (cp.ctx.wCnt + (if cp.ctx.lin.length > 0 then 1 else 0)) []
  let exc : Prf → (Nat → Digest H) → Nat → Finset (Digest H) := fun π c j =>
    match j with
    | 1 => excSet E H {0}
    | 2 => excSet E H (badL (Mx c) (w π) (m1 π) (ls π))
    | 3 => excSet E H (badC (Mx c) (w π) (m1 π) (ls π) (fe (c 2)))
    | 4 => excSet E H (badS pw (w π) (m2 π) (ss π))
    | 5 => excSet E H (badX pw (Mx c) (f π) (ls π) (ss π) (fe (c 1)) (fe (c 2)) (fe (c 3)) (fe (c 4)))
    | _ => ∅
  have h2K : 2 ^ 3 ≤ 2 ^ K := Nat.pow_le_pow_right (by norm_num) hK
  have hexc : ∀ π c j, (exc π c j).card ≤ κ * max D (linCount cp) := by
    intro π c j
    match j with
    | 0 => exact Nat.zero_le _
    | 1 => exact excSet_card hκ' _ (by rw [card_singleton]; exact le_trans (by omega) (le_max_left _ _))
    | 2 => exact excSet_card hκ' _ ((hbL _ _ _ _).1.trans (le_max_right _ _))
    | 3 => exact excSet_card hκ' _ ((hbC _ _ _ _ _).1.trans (le_trans (by omega) (le_max_left _ _)))
    | 4 => exact excSet_card hκ' _ ((hbS _ _ _ _).1.trans (le_trans (by omega) (le_max_left _ _)))
    | 5 => exact excSet_card hκ' _ ((hbX _ _ _ _ _ _ _ _ _).trans (le_max_left _ _))
    | j + 6 => exact Nat.zero_le _
  have hshape : ∀ π : Prf, RShape chalNames (roundLens cp.ctx L M) (rounds π) := fun π =>
    rounds_shape hi.lt hL hM π.1 π.2
  -- they depend only on what was sent before
  have hloc : ∀ (π π' : Prf) (c c' : Nat → Digest H) (j : Nat), j < chalNames.length →
      (rounds π).take (j + 1) = (rounds π').take (j + 1) → (∀ i < j, c i = c' i) → exc π c j = exc π' c' j := by
    intro π π' c c' j hj6 hr hcc
    have two : 1 ≤ j → (∀ i < nextOf cp.ctx, π.1.witness[i]? = π'.1.witness[i]?) ∧ ls π = ls π' ∧ ss π = ss π' := by
      intro h1
      refine rounds_two hi.lt hser hmar π.1 π'.1 π.2 π'.2 ?_
      have := congrArg (List.take 2) hr
      rw [List.take_take, List.take_take, min_eq_left (by omega)] at this
      exact this
    have hf : 1 ≤ j → ∀ i < nextOf cp.ctx, (f π)[i]? = (f π')[i]? := by
      intro h1 i hi'
      show (π.1.witness.map poly)[i]? = (π'.1.witness.map poly)[i]?
      rw [List.getElem?_map, List.getElem?_map, (two h1).1 i hi']
    have hwCnt : cp.ctx.wCnt ≤ nextOf cp.ctx := by unfold nextOf; omega
    have hw : 1 ≤ j → w π = w π' := by
      intro h1
      show (f π).take cp.ctx.wCnt = (f π').take cp.ctx.wCnt
      apply List.ext_getElem?
      intro i
      rw [List.getElem?_take, List.getElem?_take]
      by_cases hi' : i < cp.ctx.wCnt
      · rw [if_pos hi', if_pos hi', hf h1 i (by omega)]
      · rw [if_neg hi', if_neg hi']
    have hm1 : 1 ≤ j → cp.ctx.lin ≠ [] → m1 π = m1 π' := by
      intro h1 hne
      show (f π).getD cp.ctx.wCnt [] = (f π').getD cp.ctx.wCnt []
      rw [List.getD_eq_getElem?_getD, List.getD_eq_getElem?_getD, hf h1 _
        (by unfold nextOf; rw [if_pos (List.length_pos_iff.2 hne)]; omega)]
    have hm2 : 1 ≤ j → cp.ctx.sums ≠ [] → m2 π = m2 π' := by
      intro h1 hne
      show (f π).getD _ [] = (f π').getD _ []
      rw [List.getD_eq_getElem?_getD, List.getD_eq_getElem?_getD, hf h1 _
        (by unfold nextOf; rw [if_pos (List.length_pos_iff.2 hne)]; omega)]
    have hMx : 1 ≤ j → Mx c = Mx c' := by
      intro h1
      show projMatrix E.xof (List.ofFn (c 0)) _ = projMatrix E.xof (List.ofFn (c' 0)) _
      rw [hcc 0 h1]
    match j, hj6 with
    | 0, _ => exact Eq.refl (∅ : Finset (Digest H))
    | 1, _ => exact Eq.refl (excSet E H {0})
    | 2, _ =>
      show excSet E H (badL (Mx c) (w π) (m1 π) (ls π)) = excSet E H (badL (Mx c') (w π') (m1 π') (ls π'))
      by_cases hne : cp.ctx.lin = []
      · rw [(hbL _ _ _ _).2 hne, (hbL _ _ _ _).2 hne]
      · rw [hMx (by norm_num), hw (by norm_num), hm1 (by norm_num) hne, (two (by norm_num)).2.1]
    | 3, _ =>
      show excSet E H (badC (Mx c) (w π) (m1 π) (ls π) (fe (c 2))) =
        excSet E H (badC (Mx c') (w π') (m1 π') (ls π') (fe (c' 2)))
      by_cases hne : cp.ctx.lin = []
      · rw [(hbC _ _ _ _ _).2 hne, (hbC _ _ _ _ _).2 hne]
      · rw [hMx (by norm_num), hw (by norm_num), hm1 (by norm_num) hne, (two (by norm_num)).2.1, hcc 2 (by norm_num)]
    | 4, _ =>
      show excSet E H (badS pw (w π) (m2 π) (ss π)) = excSet E H (badS pw (w π') (m2 π') (ss π'))
      by_cases hne : cp.ctx.sums = []
      · rw [(hbS _ _ _ _).2 hne, (hbS _ _ _ _).2 hne]
      · rw [hw (by norm_num), hm2 (by norm_num) hne, (two (by norm_num)).2.2]
    | 5, _ =>
      have hall : π.1.witness = π'.1.witness := by
        refine rounds_all hi.lt hser hmar π.1 π'.1 π.2 π'.2 ?_
        have l1 : ∀ π : Prf, (bucklerRounds E cp.ctx π.1).take (5 + 1) = bucklerRounds E cp.ctx π.1 := fun _ => rfl
        rw [← l1 π, ← l1 π']
        exact hr
      have hf5 : f π = f π' := by
        show π.1.witness.map poly = π'.1.witness.map poly
        rw [hall]
      show excSet E H (badX pw (Mx c) (f π) (ls π) (ss π) (fe (c 1)) (fe (c 2)) (fe (c 3)) (fe (c 4))) =
        excSet E H (badX pw (Mx c') (f π') (ls π') (ss π') (fe (c' 1)) (fe (c' 2)) (fe (c' 3)) (fe (c' 4)))
      rw [hMx (by norm_num), hf5, (two (by norm_num)).2.1, (two (by norm_num)).2.2, hcc 1 (by norm_num),
        hcc 2 (by norm_num), hcc 3 (by norm_num), hcc 4 (by norm_num)]
    | j + 6, h6 => exact absurd h6 (by show ¬ (j + 6 < 6); omega)
  -- the program followed by the calls of the verifier
  let B : Asker (Query n) (Digest H) Unit := A.bind (fun π => askRounds [] (bucklerRounds E cp.ctx π))
  have hB : B.AtMost (Q + 6) := Asker.bind_atMost (fun π => askRounds_atMost (bucklerRounds E cp.ctx π) []) A Q hA
  let τ0 : RTable (Query n) (Digest H) := fun _ => none
  have hτ0 : ∀ h : ROracle n H, h ∈ τ0.cons := fun h => RTable.mem_cons.2 (fun q d h => by cases h)
  have hτ0c : τ0.cons = univ := by ext h; simp [hτ0 h]
  have hdom0 : τ0.dom = ∅ := by
    ext q
    rw [RTable.mem_dom]
    simp [τ0]
  have hcount := Asker.card_hits (badResults rounds exc chalNames) (Q + 6) (2 * (Q + 6) + κ * max D (linCount cp))
    (fun τ q hτ => (badResults_card rounds exc chalNames_apart hexc τ q).trans (by omega)) B (Q + 6) τ0 hB
    (by rw [hdom0]; simp)
  rw [hτ0c, hcardD] at hcount
  rw [Nat.card_eq_fintype_card, Fintype.card_subtype, Nat.card_eq_fintype_card, ← card_univ]
  refine (Nat.mul_le_mul_right _ (card_le_card ?_)).trans hcount
  intro h hh
  rw [mem_filter] at hh ⊢
  refine ⟨mem_univ _, ?_⟩
  obtain ⟨-, hver, hnw⟩ := hh
  by_contra hnh
  -- what is known in the end
  have hfine : (B.table h τ0).Fine rounds exc chalNames := by
    refine Asker.table_inv _ h _ (fun τ q d h1 h2 h3 => ?_) B τ0 (hτ0 h) ?_ hnh
    · exact h1.add rounds exc chalNames_apart hshape hloc h2 h3
    · refine ⟨fun q q' d h1 _ => absurd h1 (by simp [τ0]), fun π c j _ h1 => ?_⟩
      obtain ⟨_, h2⟩ := RTable.get_some (h1 j (Nat.lt_succ_self j))
      cases h2
  obtain ⟨ch, l, s, k, hch, hwith⟩ := verify_verifyWith hver
  obtain ⟨pw', hpw', hwit, hev, hlsn, hssn, hr⟩ := hsound h.hash two c (A.run h) ch hwith
  rw [hpw] at hpw'
  injection hpw' with hpw'
  injection hpw' with hpw'
  subst hpw'
  let π : Prf := ⟨A.run h, hwit⟩
  have hsh := hshape π
  set cc := h.chal (rounds π) with hcc
  have hin := fsInputs_chain h hsh hn
  have hlen : ∀ j < 6, (chainIn (rounds π) cc j).length ≤ n := fun j hj =>
    (chainIn_length hsh cc j hj).trans hn
  have hchain : (B.table h τ0).Chain (rounds π) cc 6 := by
    intro j hj
    have htab : B.table h τ0 = (askRounds [] (bucklerRounds E cp.ctx (A.run h)) : Asker (Query n) (Digest H) Unit).table h
        (A.table h τ0) := Asker.bind_table _ h A τ0
    obtain ⟨hb', h1⟩ := askRounds_table h (rounds π) [] (A.table h τ0) (Asker.table_mono h A τ0 (hτ0 h)).1
      (by
        intro b hb'
        rw [hin] at hb'
        obtain ⟨i, hi', rfl⟩ := List.mem_map.1 hb'
        exact hlen i (List.mem_range.1 hi')) (chainIn (rounds π) cc j)
      (by rw [hin]; exact List.mem_map.2 ⟨j, List.mem_range.2 hj, rfl⟩)
    unfold RTable.get
    rw [dif_pos hb', htab]
    have h2 : cc j = h ⟨chainIn (rounds π) cc j, hb'⟩ := (h.chal_eq (rounds π) j).trans (dif_pos hb')
    rw [h2]
    exact h1
  have hgood : ∀ j < 6, cc j ∉ exc π cc j := fun j hj =>
    hfine.2 π cc j hj (fun i hi' => hchain i (by omega))
  -- the challenges
  have hshapeπ : PfShape cp.ctx (A.run h) := ⟨by omega, by omega,
    fun hl => Option.ne_none_iff_exists'.1 (hlsn hl), fun hl => Option.ne_none_iff_exists'.1 (hssn hl)⟩
  have hshape' : @PfShape p (E.withHash h.hash) cp.ctx (A.run h) :=
    ⟨hshapeπ.wit, hshapeπ.evals, hshapeπ.lin, hshapeπ.sum⟩
  have hchV := challengesV_eq (E := E.withHash h.hash) (cp := cp) (A.run h) hi.lt hshape'
  rw [hch] at hchV
  simp only [Except.ok.injEq, Option.some.injEq, Prod.mk.injEq] at hchV
  have hnx : nextOf cp.ctx ≤ (A.run h).witness.length := by omega
  have hinp := chalsOf_inputs (E := E.withHash h.hash) (cp := cp) hi.lt (A.run h) hnx
  rw [← hchV.1] at hinp
  have hinp' : (fsInputs h.hash [] (rounds π)).map h.hash = [ch.proj, ch.ab, ch.lb, ch.lc, ch.sb, ch.x] := hinp
  rw [hin, List.map_map] at hinp'
  have hco : ∀ j < 6, h.hash (chainIn (rounds π) cc j) = List.ofFn (cc j) := by
    intro j hj
    rw [h.hash_dig (hlen j hj), ← h.chal_eq]
  have hinp2 : [List.ofFn (cc 0), List.ofFn (cc 1), List.ofFn (cc 2), List.ofFn (cc 3), List.ofFn (cc 4),
      List.ofFn (cc 5)] = [ch.proj, ch.ab, ch.lb, ch.lc, ch.sb, ch.x] := by
    rw [← hinp', ← hco 0 (by norm_num), ← hco 1 (by norm_num), ← hco 2 (by norm_num), ← hco 3 (by norm_num),
      ← hco 4 (by norm_num), ← hco 5 (by norm_num)]
    rfl
  simp only [List.cons.injEq, and_true] at hinp2
  obtain ⟨c0, c1, c2, c3, c4, c5⟩ := hinp2
  simp only at hr
  rw [← c0, ← c1, ← c2, ← c3, ← c4, ← c5] at hr
  rcases hr with hr | hr | hr | hr | hr | ⟨sw, s1, s2, s3, s4⟩
  · exact hgood 1 (by norm_num) (mem_excSet.2 (mem_singleton.2 hr))
  · exact hgood 2 (by norm_num) (mem_excSet.2 hr)
  · exact hgood 3 (by norm_num) (mem_excSet.2 hr)
  · exact hgood 4 (by norm_num) (mem_excSet.2 hr)
  · exact hgood 5 (by norm_num) (mem_excSet.2 hr)
  · apply hnw
    refine ⟨pw, ch, l, s, k, hpw, hch, sw, s1, by rw [hrank]; exact s2, ?_, ?_⟩
    · intro i v u hsv hu
      have hi' : i < cp.ctx.wCnt := by
        rw [← s1]
        exact (List.getElem?_eq_some_iff.1 hsv).1
      have hu : (A.run h).witness[i]? = some u := hu
      refine s3 i v (poly u) hsv ?_
      rw [List.getElem?_take, if_pos hi', List.getElem?_map, hu]
      rfl
    · rw [hrank, ← c0]
      exact s4

end

end Ringo
