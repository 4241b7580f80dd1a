import Verif.Proof.ZKMain
import Verif.Props.Protocol2

/-!
# C87: proofs say nothing about the witness
-/

namespace Ringo

open Finset Polynomial

set_option linter.unusedSectionVars false

section
variable {p : Nat} [Fact p.Prime] {E : Env (ZMod p)} {cp : Compilation (ZMod p)}

/-- **C87.** Let two assignments agree with the verifier's on the public witnesses, and let both satisfy
the constraints of the circuit.  Then for every proof whose evaluation point is not one of the `N` points
carrying the witness, the number of coins on which `Prove` returns this proof is the same for both
assignments.  The commitment scheme is assumed to be correct and to show nothing but the lengths and the
values of the polynomials; the hash functions are arbitrary, and so are the orders in which the two
provers visit the maps of decompositions. -/
theorem C87_zeroKnowledge (hp2 : p % 2 = 1) {K ty : Nat} (hK : 3 ≤ K) (ops : List (CtxOp (ZMod p)))
    (v a₁ a₂ a' : Val (ZMod p)) (hset : Settable v) (hshape₁ : SameShape v a₁) (hshape₂ : SameShape v a₂)
    (hfull₁ : FullRank (2 ^ K) a₁) (hfull₂ : FullRank (2 ^ K) a₂)
    (hpub₁ : SamePublic a₁ a') (hpub₂ : SamePublic a₂ a')
    (hc : compile (2 ^ K) ty (firstWalk v ⟨0, 0⟩).2.1.pw (firstWalk v ⟨0, 0⟩).2.1.w ops = .ok cp)
    (h62 : cp.ctx.wCnt ≤ 2 ^ 62 ∧ cp.ctx.pwCnt ≤ 2 ^ 62)
    (hp : 2 * cp.ctx.wCnt + 1 < p ∧ 2 * cp.ctx.pwCnt + 1 < p)
    (hv : ∀ op ∈ ops, op.Valid (firstWalk v ⟨0, 0⟩).2.1.pw (firstWalk v ⟨0, 0⟩).2.1.w)
    (hinf : (ops.filterMap CtxOp.infId).Nodup) (hsq : (ops.filterMap CtxOp.sqId).length ≤ 1)
    (happ : (ops.filterMap CtxOp.approxId).Nodup)
    (hlt : 2 ^ K < max cp.ctx.arithCheckMaxRank cp.ctx.sumCheckMaxRank)
    (hA : cp.ctx.arith ≠ [] → 2 ^ K < cp.ctx.arithCheckMaxRank)
    (hS : cp.ctx.sums ≠ [] → 2 ^ K < cp.ctx.sumCheckMaxRank)
    (hus : ∀ o i n, CtxOp.lin o i n ∈ ops → Adjoint (2 ^ K) (E.users n))
    (hP : E.pcs.Correct cp.ctx.batch) (hrank : cp.ctx.commitRank ≤ E.pcs.rank)
    [Finite E.pcs.Rnd] (hhide : E.pcs.HidesAllBut cp.ctx.batch)
    (ord₁ ord₂ : Orders) (hord₁ : GoodOrders cp.ctx ord₁) (hord₂ : GoodOrders cp.ctx ord₂)
    (hon₁ : ∀ pw sw, AssignedTo v a₁ pw sw → ∀ op ∈ ops, op.HonestFor (2 ^ K) E.users pw sw)
    (hon₂ : ∀ pw sw, AssignedTo v a₂ pw sw → ∀ op ∈ ops, op.HonestFor (2 ^ K) E.users pw sw)
    (π : BProof (ZMod p) E.pcs)
    (hx : ∀ ch l s n, challengesV E cp π = .ok (some (ch, l, s, n)) → E.setBytes ch.x ^ 2 ^ K ≠ 1) :
    Nat.card {t : FieldCoins cp × PCSCoins E.pcs cp.ctx.batch //
        prove E cp (tapeOf t.1 t.2) ord₁ ⟨ty, a₁⟩ = .ok (some π)} =
      Nat.card {t : FieldCoins cp × PCSCoins E.pcs cp.ctx.batch //
        prove E cp (tapeOf t.1 t.2) ord₂ ⟨ty, a₂⟩ = .ok (some π)} := by
  have hdef := (compile_inv hc).1
  have hi := CtxInv.define ops (CtxInv.new (2 ^ K) ty _ _) hdef
  have hi2 : CtxInv2 (2 ^ K) cp.ctx := CtxInv2.define ops (CtxInv2.new _ _ _ _) hdef
  obtain ⟨Ke, g, ge, hgood⟩ := compile_good hK hc hlt
  have hz : ∀ (n0 n : Nat) (x : List (List (ZMod p))), x.length = n →
      (∀ m, n0 ≤ m → m < n → x[m]? = some (List.replicate (2 ^ K) 0)) → ZeroFrom n0 (2 ^ K) x := by
    intro n0 n x hx h0 b hb i
    unfold cell
    by_cases hbn : b < n
    · rw [List.getD_eq_getElem?_getD (l := x), h0 b hb hbn, Option.getD_some,
        List.getD_eq_getElem?_getD, List.getElem?_replicate]
      split <;> rfl
    · rw [List.getD_eq_getElem?_getD (l := x), List.getElem?_eq_none (by omega)]; simp
  have key : ∀ (a : Val (ZMod p)) (ord : Orders), SameShape v a → FullRank (2 ^ K) a → SamePublic a a' →
      GoodOrders cp.ctx ord →
      (∀ pw sw, AssignedTo v a pw sw → ∀ op ∈ ops, op.HonestFor (2 ^ K) E.users pw sw) →
      ∃ pw' sw', assign cp ord a = .ok (some (pw', sw')) ∧
        assignV cp cp.ctx.twoDcmp a' = .ok (some pw') ∧ Honest K E cp ord pw' sw' := by
    intro a ord hshape hfull hpub hord hon
    obtain ⟨pw, sw, vpw, c1, c2, c3, c4, rfl, c6, c7, c8, c9⟩ := C26_alignment (2 ^ K) v a hset hshape
      hfull cp.ctx.pwCnt cp.ctx.wCnt hi.w hi.pw h62 hp
    have c2' : vrfCollect (2 ^ K) cp.ctx.pwCnt a' = .ok (vpw, false) := by
      rw [← c2]; unfold vrfCollect; rw [vrfWalk_public _ hpub]
    exact honest_assign hp2 hc hv hinf hsq happ hus hord (List.Perm.refl _) c1 c2'
      (hz _ _ _ c3 c9) (hz _ _ _ c4 c8) (hon _ _ ⟨c6, c7⟩)
  obtain ⟨pw, sw₁, d1, d2, d3⟩ := key a₁ ord₁ hshape₁ hfull₁ hpub₁ hord₁ hon₁
  obtain ⟨pw', sw₂, e1, e2, e3⟩ := key a₂ ord₂ hshape₂ hfull₂ hpub₂ hord₂ hon₂
  rw [d2] at e2
  cases e2
  have hf := fits_of_commitRank hi2 hrank hA hS
  have hr := CtxRefs.define ops hv (ctx := newContext (ZMod p) (2 ^ K) ty _ _)
    ⟨le_rfl, le_rfl, by simp [newContext], by simp [newContext], by simp [newContext]⟩ hdef
  have hty : cp.ctx.circType = ty := define_ty ops hdef
  exact le_antisymm
    (coins_le hc hgood hf hi2 hr hP hhide (c₁ := ⟨ty, a₁⟩) (c₂ := ⟨ty, a₂⟩) hty.symm d1 e1 d3 e3 π hx)
    (coins_le hc hgood hf hi2 hr hP hhide (c₁ := ⟨ty, a₂⟩) (c₂ := ⟨ty, a₁⟩) hty.symm e1 d1 e3 d3 π hx)

/-! ## A case -/

/-- A commitment scheme with one-time pads: the commitment is the polynomial plus the randomness. -/
abbrev padPCS (p rank : Nat) : PCS (ZMod p) where
  Com := Fin rank → ZMod p
  Open := Unit
  Pf := Unit
  Rnd := Fin rank → ZMod p
  rank := rank
  commit v r := .ok (fun i => v.getD i 0 + r i, ())
  evaluate x vs _ _ _ := .ok (vs.map (fun v => evalAt v.length v x), ())
  verify _ _ _ _ := .ok true
  ser c := (List.ofFn c).map (fun a => UInt8.ofNat a.val)

theorem padPCS_correct (rank n : Nat) : (padPCS p rank).Correct n where
  commit := fun _ _ _ _ => ⟨_, rfl⟩
  eval := by
    intro x batch rnd r hl hc
    refine ⟨(), ?_, rfl⟩
    show Except.ok ((batch.map (·.1)).map (fun v => evalAt v.length v x), ()) = _
    rw [List.map_map]; rfl

theorem padPCS_yields {rank n : Nat} (x : ZMod p) (fs : List (List (ZMod p))) (hn : fs.length = n)
    (c : PCSCoins (padPCS p rank) n) (out : List (Fin rank → ZMod p) × List (ZMod p) × Unit) :
    (padPCS p rank).Yields x fs c out ↔ out.1.length = n ∧
      (∀ i : Fin n, out.1.getD i.1 (fun _ => 0) = fun j : Fin rank => (fs.getD i.1 []).getD j.1 0 + c.1 i j) ∧
      out.2.1 = fs.map (fun v => evalAt v.length v x) := by
  constructor
  · rintro ⟨cs, h1, h2, h3, h4⟩
    refine ⟨by rw [← h3, List.length_map]; omega, ?_, ?_⟩
    · intro i
      have hi : i.1 < fs.length := by rw [hn]; exact i.2
      obtain ⟨e, e1, e2⟩ := h2 i.1 fs[i.1] (List.getElem?_eq_getElem hi)
      injection e2 with e2
      rw [← h3, List.getD_eq_getElem?_getD, List.getElem?_map, e1, ← e2]
      funext j
      simp only [Option.map_some, Option.getD_some]
      rw [extend_lt _ _ i.2, List.getD_eq_getElem (l := fs) (n := i.1) _ hi]
    · injection h4 with h4
      rw [← h4]
  · rintro ⟨h1, h2, h3⟩
    refine ⟨out.1.map (fun c => (c, ())), by rw [List.length_map]; omega, ?_, ?_, ?_⟩
    · intro i f hf
      obtain ⟨hi, rfl⟩ := List.getElem?_eq_some_iff.1 hf
      have hin : i < n := by omega
      have hio : i < out.1.length := by omega
      refine ⟨(out.1[i], ()), by rw [List.getElem?_map, List.getElem?_eq_getElem hio]; rfl, ?_⟩
      have : out.1.getD i (fun _ => 0) = _ := h2 ⟨i, hin⟩
      rw [List.getD_eq_getElem (l := out.1) (n := i) _ hio,
        List.getD_eq_getElem (l := fs) (n := i) _ hi] at this
      rw [this]
      show Except.ok _ = _
      rw [extend_lt _ _ hin]
    · rw [List.map_map]
      exact List.map_id _
    · show Except.ok _ = Except.ok _
      rw [← h3]

theorem padPCS_hides (rank n : Nat) : (padPCS p rank).HidesAllBut n := by
  intro x fs gs hf hg h out
  have hfg : fs.map (fun v => evalAt v.length v x) = gs.map (fun v => evalAt v.length v x) := by
    apply List.ext_getElem (by simp [hf, hg])
    intro i h1 h2
    rw [List.length_map] at h1 h2
    rw [List.getElem_map, List.getElem_map]
    exact (h i _ _ (List.getElem?_eq_getElem h1) (List.getElem?_eq_getElem h2)).2.2.2
  refine Nat.card_congr
    { toFun := fun c => ⟨(fun i j => c.1.1 i j + (fs.getD i.1 []).getD j 0 - (gs.getD i.1 []).getD j 0,
        c.1.2), ?_⟩
      invFun := fun c => ⟨(fun i j => c.1.1 i j - (fs.getD i.1 []).getD j 0 + (gs.getD i.1 []).getD j 0,
        c.1.2), ?_⟩
      left_inv := ?_
      right_inv := ?_ }
  · obtain ⟨a1, a2, a3⟩ := (padPCS_yields x fs hf c.1 out).1 c.2
    refine (padPCS_yields x gs hg _ out).2 ⟨a1, ?_, by rw [a3, hfg]⟩
    intro i
    rw [a2 i]
    funext j
    simp only
    ring
  · obtain ⟨a1, a2, a3⟩ := (padPCS_yields x gs hg c.1 out).1 c.2
    refine (padPCS_yields x fs hf _ out).2 ⟨a1, ?_, by rw [a3, hfg]⟩
    intro i
    rw [a2 i]
    funext j
    simp only
    ring
  · rintro ⟨⟨c, e⟩, hc⟩
    simp only [Subtype.mk.injEq, Prod.mk.injEq, and_true]
    funext i j
    ring
  · rintro ⟨⟨c, e⟩, hc⟩
    simp only [Subtype.mk.injEq, Prod.mk.injEq, and_true]
    funext i j
    ring

/-- The hypothesis on the commitment scheme is not void: the scheme that publishes the polynomial does
not have it. -/
theorem plainPCS_shows : ¬ (plainPCS p 2).HidesAllBut 1 := by
  intro h
  have hc := h 0 [[0, 0]] [[0, 1]] rfl rfl (by
    intro i f g hf hg
    rcases i with _ | i
    · cases hf; cases hg
      exact ⟨rfl, by simp, by simp, by simp [evalAt, Finset.sum_range_succ]⟩
    · simp at hf) ([[0, 0]], [0], ())
  have h1 : (plainPCS p 2).Yields 0 [[0, 0]] (n := 1) (fun _ => (), ()) ([[0, 0]], [0], ()) := by
    refine ⟨[([0, 0], ())], rfl, ?_, rfl, ?_⟩
    · intro i f hf
      rcases i with _ | i
      · cases hf; exact ⟨_, rfl, rfl⟩
      · simp at hf
    · show Except.ok _ = Except.ok _
      simp [evalAt, Finset.sum_range_succ]
  have h2 : IsEmpty {c : PCSCoins (plainPCS p 2) 1 // (plainPCS p 2).Yields 0 [[0, 1]] c ([[0, 0]], [0], ())} := by
    refine ⟨fun ⟨c, cs, c1, c2, c3, c4⟩ => ?_⟩
    obtain ⟨e, e1, e2⟩ := c2 0 [0, 1] rfl
    have he : (Except.ok (([0, 1] : List (ZMod p)), ()) : Go _) = .ok e := e2
    cases he
    rcases cs with _ | ⟨c0, cs⟩
    · simp at e1
    · simp only [List.getElem?_cons_zero, Option.some.injEq] at e1
      subst e1
      simp at c3
  rw [@Nat.card_of_isEmpty _ h2] at hc
  have : Nonempty {c : PCSCoins (plainPCS p 2) 1 // (plainPCS p 2).Yields 0 [[0, 0]] c ([[0, 0]], [0], ())} :=
    ⟨⟨_, h1⟩⟩
  exact absurd hc (Nat.card_pos).ne'

end

theorem ops48_honest {users : Nat → LinearChecker (ZMod 193)} {x y : List (ZMod 193)}
    (hx : x.length = 8) (hy : y.length = 8) (hb : ∀ i < 8, |(x.getD i 0).valMinAbs| ≤ 5)
    (hs : ∑ i ∈ range 8, x.getD i 0 = 0) {pw sw : List (List (ZMod 193))}
    (hA : AssignedTo (circ48 [] [] []) (circ48 (List.zipWith (· * ·) x y) x y) pw sw) :
    ∀ op ∈ ops48, op.HonestFor 8 users pw sw := by
  intro op hop
  obtain ⟨a1, a2, a3⟩ := circ48_assigned (by norm_num) hA
  have row0 : ∀ i, rowOf sw i 0 = x.getD i 0 := by
    intro i; simp [rowOf, List.getD_eq_getElem?_getD, a2]
  simp only [ops48, List.mem_cons, List.not_mem_nil, or_false] at hop
  rcases hop with rfl | rfl | rfl
  · intro i hi
    simp only [Constraint.onRow, Constraint.value, Term.value, rowOf, List.getD_eq_getElem?_getD, a1, a2, a3,
      List.map_cons, List.map_nil, List.prod_cons, List.prod_nil, List.sum_cons, List.sum_nil, Option.getD_some,
      List.getElem?_zipWith]
    have : y[i]? = some y[i] := List.getElem?_eq_getElem (by omega)
    rw [this]
    have : ∃ z, x[i]? = some z := ⟨_, List.getElem?_eq_getElem (by omega)⟩
    obtain ⟨z, hz⟩ := this
    rw [hz]; simp
  · refine ⟨by norm_num, ?_⟩
    intro i hi
    rw [row0]
    constructor
    · exact hb i hi
    · rintro ⟨k, hk, h⟩
      obtain ⟨m, rfl⟩ : ∃ m, k = m + 1 := ⟨k - 1, by omega⟩
      rw [pow_succ] at h
      have : (5 : Int).toNat = 5 := rfl
      omega
  · refine ⟨rfl, ?_⟩
    have : ∀ i, Constraint.onRow (F := ZMod 193) [⟨1, none, [0]⟩] pw sw i = x.getD i 0 := by
      intro i; rw [← row0]; simp [Constraint.onRow, Constraint.value, Term.value]
    simp only [this]
    exact hs

/-- The circuit `X * Y = U`, `|X| ≤ 5`, `Σ X = 0` with `U = 0` (`p = 193`, rank 8, commitments with
one-time pads): proofs made with `X = (2, -2, 5, -5, 1, -1, 0, 0)` and `Y = 0` are distributed like those
made with `X = 0` and any `Y`. -/
theorem C87_case (hash : Bytes → Bytes) (xof : Bytes → Nat → UInt8) (marshal : ZMod 193 → Bytes)
    (setBytes : Bytes → ZMod 193) (users : Nat → LinearChecker (ZMod 193))
    (y : List (ZMod 193)) (hy : y.length = 8) :
    ∃ cp, compile (p := 193) 8 0 1 2 ops48 = .ok cp ∧
      ∀ π : BProof (ZMod 193) (padPCS 193 32),
        (∀ ch l s n, challengesV ⟨padPCS 193 32, hash, xof, marshal, setBytes, users⟩ cp π =
          .ok (some (ch, l, s, n)) → setBytes ch.x ^ 2 ^ 3 ≠ 1) →
        Nat.card {t : FieldCoins cp × PCSCoins (padPCS 193 32) cp.ctx.batch //
          prove ⟨padPCS 193 32, hash, xof, marshal, setBytes, users⟩ cp (tapeOf t.1 t.2)
            ⟨cp.ctx.infDcmp, cp.ctx.twoDcmp, cp.ctx.projWit, cp.ctx.projInf⟩
            ⟨0, circ48 (List.replicate 8 0) [2, -2, 5, -5, 1, -1, 0, 0] (List.replicate 8 0)⟩ =
            .ok (some π)} =
        Nat.card {t : FieldCoins cp × PCSCoins (padPCS 193 32) cp.ctx.batch //
          prove ⟨padPCS 193 32, hash, xof, marshal, setBytes, users⟩ cp (tapeOf t.1 t.2)
            ⟨cp.ctx.infDcmp, cp.ctx.twoDcmp, cp.ctx.projWit, cp.ctx.projInf⟩
            ⟨0, circ48 (List.replicate 8 0) (List.replicate 8 0) y⟩ = .ok (some π)} := by
  obtain ⟨cp, h1, h2, h3, h4, h5, h6, h7, h8, h9, h10, -⟩ := compile48
  refine ⟨cp, h1, fun π hπ => ?_⟩
  have leaf : ∀ x y : List (ZMod 193), x.length = 8 → y.length = 8 →
      FullRank (2 ^ 3) (circ48 (List.replicate 8 0) x y) := by
    intro x y hx hy path s i w h
    obtain ⟨-, h2, rfl | rfl | rfl⟩ := circ48_leaf h
    · exact ⟨h2, by simp⟩
    · exact ⟨h2, hx⟩
    · exact ⟨h2, hy⟩
  have hz1 : List.replicate 8 (0 : ZMod 193) =
      List.zipWith (· * ·) [2, -2, 5, -5, 1, -1, 0, 0] (List.replicate 8 0) := by decide +kernel
  have hz2 : List.replicate 8 (0 : ZMod 193) = List.zipWith (· * ·) (List.replicate 8 0) y := by
    apply List.ext_getElem (by simp [hy])
    intro i _ _
    rw [List.getElem_zipWith, List.getElem_replicate, zero_mul]
  refine C87_zeroKnowledge (E := ⟨padPCS 193 32, hash, xof, marshal, setBytes, users⟩) (cp := cp)
    (K := 3) (ty := 0) (by norm_num) (by norm_num) ops48 (circ48 [] [] []) _ _
    (circ48 (List.replicate 8 0) (List.replicate 8 0) (List.replicate 8 0))
    (fun path s i w h => (circ48_leaf h).1) (.ptr (.cons .pub (.cons .wit (.cons .wit .nil))))
    (.ptr (.cons .pub (.cons .wit (.cons .wit .nil))))
    (leaf _ _ rfl rfl) (leaf _ _ rfl hy)
    (.ptr (.cons .pub (.cons .wit (.cons .wit .nil)))) (.ptr (.cons .pub (.cons .wit (.cons .wit .nil)))) h1
    (by rw [h2, h3]; norm_num) (by rw [h2, h3]; norm_num) ?_ (by decide) (Nat.zero_le 1) List.nodup_nil
    (by rw [h8]; simp) (fun _ => by rw [h8]; norm_num)
    (fun _ => by rw [h9]; norm_num) (by simp [ops48]) (padPCS_correct _ _) (by rw [h10]; simp)
    (padPCS_hides _ _) _ _ ⟨.refl _, .refl _, .refl _, .refl _⟩ ⟨.refl _, .refl _, .refl _, .refl _⟩
    ?_ ?_ π hπ
  · intro op hop
    simp only [ops48, List.mem_cons, List.not_mem_nil, or_false] at hop
    rcases hop with rfl | rfl | rfl
    · intro t ht
      simp only [List.mem_cons, List.not_mem_nil, or_false] at ht
      rcases ht with rfl | rfl <;> simp [circ48, firstWalk, firstWalks]
    · show 0 < 2; norm_num
    · intro t ht
      simp only [List.mem_cons, List.not_mem_nil, or_false] at ht
      rcases ht with rfl; simp [circ48, firstWalk, firstWalks]
  · intro pw sw hA
    rw [hz1] at hA
    exact ops48_honest rfl rfl (by decide +kernel) (by decide +kernel) hA
  · intro pw sw hA
    have hA' : AssignedTo (circ48 [] [] []) (circ48 (List.zipWith (· * ·) (List.replicate 8 0) y)
        (List.replicate 8 0) y) pw sw := by
      rw [← hz2]; exact hA
    exact ops48_honest rfl hy (by decide +kernel) (by decide +kernel) hA'

end Ringo
