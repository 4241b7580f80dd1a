import Verif.Proof.Complete2
import Verif.Props.Walk
import Verif.Props.Norm2

/-!
# C48: honest proofs verify
-/

namespace Ringo

open Finset Polynomial

set_option linter.unusedSectionVars false

/-- Two values that agree except for the contents of the secret witnesses. -/
inductive SamePublic {F : Type} : Val F → Val F → Prop
  | pub {s i w} : SamePublic (.pub s i w) (.pub s i w)
  | wit {s i w s' i' w'} : SamePublic (.wit s i w) (.wit s' i' w')
  | ptr {v v'} : SamePublic v v' → SamePublic (.ptr v) (.ptr v')
  | nilPtr : SamePublic .nilPtr .nilPtr
  | nil : SamePublic (.fields []) (.fields [])
  | cons {v v' vs vs'} : SamePublic v v' → SamePublic (.fields vs) (.fields vs') →
      SamePublic (.fields (v :: vs)) (.fields (v' :: vs'))
  | other : SamePublic .other .other

theorem vrfWalk_public {F : Type} (rank : Nat) {a b : Val F} (h : SamePublic a b) :
    ∀ st, vrfWalk rank a st = vrfWalk rank b st := by
  induction h with
  | pub => intro st; rfl
  | wit => intro st; rfl
  | ptr _ ih => intro st; simp only [vrfWalk, ih]
  | nilPtr => intro st; rfl
  | nil => intro st; rfl
  | other => intro st; rfl
  | @cons v v' vs vs' h1 h2 ih1 ih2 =>
    have key : ∀ st, vrfWalks rank vs st = vrfWalks rank vs' st := by
      intro st
      have := ih2 st
      simp only [vrfWalk] at this
      cases ha : vrfWalks rank vs st with
      | error e =>
        cases hb : vrfWalks rank vs' st with
        | error e' => rw [ha, hb] at this; simpa using this
        | ok b => rw [ha, hb] at this; simp at this
      | ok a =>
        cases hb : vrfWalks rank vs' st with
        | error e' => rw [ha, hb] at this; simp at this
        | ok b => rw [ha, hb] at this; simpa using this
    intro st
    simp only [vrfWalk, vrfWalks, ih1, key]

section
variable {p : Nat} [Fact p.Prime]

/-- The tables `pw`, `sw` hold every vector of the assignment `a` in the slot of the handle that
`Compile` stored at the same path of the circuit `v`. -/
def AssignedTo (v a : Val (ZMod p)) (pw sw : List (List (ZMod p))) : Prop :=
  (∀ path s i w, a.get? path = some (.wit s i w) →
    ∃ s' i' h id, (firstWalk v ⟨0, 0⟩).1.get? path = some (.wit s' i' h) ∧
      witnessToID h = .ok id ∧ sw[id.toNat]? = some w) ∧
  (∀ path s i w, a.get? path = some (.pub s i w) →
    ∃ s' i' h id, (firstWalk v ⟨0, 0⟩).1.get? path = some (.pub s' i' h) ∧
      witnessToID h = .ok id ∧ pw[id.toNat]? = some w)

theorem foldl_max_bound {α : Type} (f : α → Nat) (l : List α) (n R : Nat)
    (h : l.foldl (fun r c => max r (f c)) n ≤ R) : n ≤ R ∧ ∀ c ∈ l, f c ≤ R := by
  induction l generalizing n with
  | nil => exact ⟨h, by simp⟩
  | cons a l ih =>
    obtain ⟨h1, h2⟩ := ih _ h
    refine ⟨le_trans (le_max_left _ _) h1, ?_⟩
    intro c hc
    rcases List.mem_cons.1 hc with rfl | hc
    · exact le_trans (le_max_right _ _) h1
    · exact h2 c hc

/-- What `commitRank` is enough for. -/
theorem fits_of_commitRank {K : Nat} {ctx : Context (ZMod p)} (hi : CtxInv2 (2 ^ K) ctx) {jrank : Nat}
    (h : ctx.commitRank ≤ jrank)
    (hA : ctx.arith ≠ [] → 2 ^ K < ctx.arithCheckMaxRank)
    (hS : ctx.sums ≠ [] → 2 ^ K < ctx.sumCheckMaxRank) : Fits K ctx jrank := by
  unfold Context.commitRank at h
  simp only at h
  obtain ⟨h1, hs⟩ := foldl_max_bound _ _ _ _ h
  rw [hi.rank] at h1 hs
  have hlin : ctx.lin ≠ [] → 2 * 2 ^ K ≤ jrank := by
    intro hl
    rw [if_pos (length_pos_ne.2 hl)] at h1
    exact le_trans (le_max_right _ _) h1
  have h2 : ctx.arith.foldl (fun rank c => max rank (c.maxRank (2 ^ K) - 2 ^ K))
      (if ctx.wCnt > 0 then 2 ^ K + 1 else 0) ≤ jrank := by
    split at h1
    · exact le_trans (le_max_left _ _) h1
    · exact h1
  obtain ⟨h3, ha⟩ := foldl_max_bound _ _ _ _ h2
  refine ⟨fun hw => by rw [if_pos hw] at h3; exact h3, fun hn => ⟨hA hn, ?_⟩, hlin, fun hn => ⟨hS hn, ?_⟩⟩
  · have := hi.arithUp (jrank + 2 ^ K) (fun c hc => by have := ha c hc; have := Nat.two_pow_pos K; omega)
      (fun hl => by have := hlin hl; omega)
    omega
  · exact hi.sumUp jrank (fun c hc => by have := hs c hc; have := Nat.two_pow_pos K; omega)

theorem ternary_ty (l : List Nat) (ctx : Context (ZMod p)) :
    (l.foldl (fun ctx d => ctx.addArith (Context.ternary d)) ctx).circType = ctx.circType := by
  induction l generalizing ctx with
  | nil => rfl
  | cons d l ih => rw [List.foldl_cons, ih]; rfl

theorem apply_ty {op : CtxOp (ZMod p)} {ctx ctx' : Context (ZMod p)} (h : ctx.apply op = .ok ctx') :
    ctx'.circType = ctx.circType := by
  cases op with
  | arith c => cases h; rfl
  | sum c s => cases h; rfl
  | lin o i n => cases h; rfl
  | inf w b =>
    simp only [Context.apply, Context.addInf] at h
    split at h
    · cases h; rfl
    · split at h
      · cases h; rfl
      · split at h
        · cases h; rfl
        · obtain ⟨base, -, h⟩ := bind_ok_inv h
          cases h
          exact (ternary_ty _ _).trans rfl
  | sq w b =>
    cases h; rfl
  | approx w b =>
    simp only [Context.apply, Context.addApprox] at h
    obtain ⟨base, -, h⟩ := bind_ok_inv h
    cases h; rfl

theorem define_ty (ops : List (CtxOp (ZMod p))) {ctx ctx' : Context (ZMod p)}
    (h : ctx.define ops = .ok ctx') : ctx'.circType = ctx.circType := by
  induction ops generalizing ctx with
  | nil => cases h; rfl
  | cons op ops ih =>
    unfold Context.define at h
    rw [List.foldlM_cons] at h
    obtain ⟨c1, h1, h⟩ := bind_ok_inv h
    rw [ih h, apply_ty h1]

variable {E : Env (ZMod p)} {cp : Compilation (ZMod p)}

/-- An honest assignment leads to the situation `Honest`. -/
theorem honest_assign {K ty pw0 w0 : Nat} {ops : List (CtxOp (ZMod p))} (hp2 : p % 2 = 1)
    (hc : compile (2 ^ K) ty pw0 w0 ops = .ok cp) (hv : ∀ op ∈ ops, op.Valid pw0 w0)
    (hinf : (ops.filterMap CtxOp.infId).Nodup) (hsq : (ops.filterMap CtxOp.sqId).length ≤ 1)
    (happ : (ops.filterMap CtxOp.approxId).Nodup)
    (hus : ∀ o i n, CtxOp.lin o i n ∈ ops → Adjoint (2 ^ K) (E.users n))
    {ord : Orders} (hord : GoodOrders cp.ctx ord) {two : List TwoEntry} (htwo : two.Perm cp.ctx.twoDcmp)
    {a a' : Val (ZMod p)} {pw sw : List (List (ZMod p))}
    (h1 : prvCollect (2 ^ K) cp.ctx.pwCnt cp.ctx.wCnt a = .ok (pw, sw, false))
    (h2 : vrfCollect (2 ^ K) cp.ctx.pwCnt a' = .ok (pw, false))
    (hpz : ZeroFrom pw0 (2 ^ K) pw) (hsz : ZeroFrom w0 (2 ^ K) sw)
    (hon : ∀ op ∈ ops, op.HonestFor (2 ^ K) E.users pw sw) :
    ∃ pw' sw', assign cp ord a = .ok (some (pw', sw')) ∧ assignV cp two a' = .ok (some pw') ∧
      Honest K E cp ord pw' sw' := by
  have hdef := (compile_inv hc).1
  have hi : CtxInv (2 ^ K) pw0 w0 cp.ctx := CtxInv.define ops (CtxInv.new _ _ _ _) hdef
  have hsqn : (ops.filterMap CtxOp.sqId).Nodup := by
    match h : ops.filterMap CtxOp.sqId, hsq with
    | [], _ => simp
    | [_], _ => simp
    | _ :: _ :: _, h2 => simp at h2
  have hprov := Prov.define ops hv [] _ _ (by simpa using hinf) (by simpa using hsqn)
    (by simpa using happ) (Prov.new (2 ^ K) ty pw0 w0) hdef
  rw [List.nil_append] at hprov
  obtain ⟨hpw, hsw⟩ := prvCollect_shape h1
  obtain ⟨s1, pw', sw1, a1, a2, a3, a4, a5, -, -, a8⟩ := fill_master hp2 hprov hv hord
    (by rw [hprov.twoLen]; exact hsq) E.users hpw hsw hpz hsz hon
  refine ⟨pw', sw1, ?_, ?_, a4, a5, ?_⟩
  · unfold assign
    rw [hprov.rank, h1, go_bind_ok]
    simp only [Bool.false_eq_true, if_false]
    rw [a1, go_bind_ok, a2]; rfl
  · unfold assignV
    rw [hprov.rank, h2, go_bind_ok]
    simp only [Bool.false_eq_true, if_false]
    rw [a3 two htwo]; rfl
  · intro proj hproj
    obtain ⟨sw2, b1, b2, b3, b4, b5, b6⟩ := a8 proj hproj
    refine ⟨sw2, b1, b2, b3, fun i hi => ?_, b5, ?_, ?_⟩
    · have : cp.ctx.arith.map (fun c => c.onRow pw' sw2 i) = cp.ctx.arith.map (fun _ => (0 : ZMod p)) :=
        List.map_congr_left (fun c hcm => b4 c hcm i hi)
      rw [this]; simp
    · intro e he x hx
      rw [hprov.rank]; exact b6 e he x hx
    · intro e he
      obtain ⟨x, hx⟩ := List.exists_mem_of_ne_nil _ (hi.linNe e he)
      obtain ⟨L, hL, -⟩ := b6 e he x hx
      refine ⟨L, hL, ?_⟩
      have hfrom := hprov.lin e he x hx
      obtain ⟨k, xs⟩ := e
      simp only at hL hfrom
      cases hfrom with
      | user hm =>
        simp only [resolve, go_pure, Except.ok.injEq] at hL
        subst hL
        exact hus _ _ _ hm
      | proj hm =>
        simp only [resolve, go_pure, Except.ok.injEq] at hL
        subst hL
        obtain ⟨⟨b, hb⟩, -⟩ := hprov.proj _ hm
        have hh := hon _ hb
        exact (C33_projChecker (2 ^ K) hh.1 proj hproj.1 hproj.2).1
      | recomp hm =>
        exact (C33_projRecomposeChecker (2 ^ K) _ L hL).1

/-- A prover in the situation `Honest` returns a proof, and the verifier accepts it if the commitment scheme
accepts the evaluations. -/
theorem honest_run {K ty pw0 w0 : Nat} (hK : 3 ≤ K) (ops : List (CtxOp (ZMod p))) (a a' : Val (ZMod p))
    (hc : compile (2 ^ K) ty pw0 w0 ops = .ok cp) (hv : ∀ op ∈ ops, op.Valid pw0 w0)
    (hlt : 2 ^ K < max cp.ctx.arithCheckMaxRank cp.ctx.sumCheckMaxRank)
    (hA : cp.ctx.arith ≠ [] → 2 ^ K < cp.ctx.arithCheckMaxRank)
    (hS : cp.ctx.sums ≠ [] → 2 ^ K < cp.ctx.sumCheckMaxRank)
    (hP : E.pcs.Evaluates cp.ctx.batch) (hrank : cp.ctx.commitRank ≤ E.pcs.rank)
    {ord : Orders} {two : List TwoEntry} {pw' sw' : List (List (ZMod p))}
    (d1 : assign cp ord a = .ok (some (pw', sw'))) (d2 : assignV cp two a' = .ok (some pw'))
    (d3 : Honest K E cp ord pw' sw') (t : Tape (ZMod p) E.pcs.Rnd) :
    ∃ pf, prove E cp t ord ⟨ty, a⟩ = .ok (some pf) ∧ ∃ all : List (List (ZMod p) × E.pcs.Com × E.pcs.Open),
      all.length = cp.ctx.batch ∧ pf.witness = all.map (·.2.1) ∧
      (∀ (i : Nat) (e : List (ZMod p) × E.pcs.Com × E.pcs.Open), all[i]? = some e →
        E.pcs.commit e.1 (t.com i) = .ok e.2) ∧
      E.pcs.evaluate (E.setBytes (chalsOf E cp.ctx pf).x) (all.map (·.1)) (all.map (·.2.1)) (all.map (·.2.2)) t.ev =
        .ok (pf.evals, pf.evalProof) ∧
      (E.pcs.verify (E.setBytes (chalsOf E cp.ctx pf).x) pf.witness pf.evals pf.evalProof = .ok true →
        verify E cp two ⟨ty, a'⟩ pf = .ok true) := by
  have hdef := (compile_inv hc).1
  have hi2 : CtxInv2 (2 ^ K) cp.ctx := CtxInv2.define ops (CtxInv2.new _ _ _ _) hdef
  obtain ⟨Ke, g, ge, hgood⟩ := compile_good hK hc hlt
  have hf := fits_of_commitRank hi2 hrank hA hS
  have hr := CtxRefs.define ops hv (ctx := newContext (ZMod p) (2 ^ K) ty _ _)
    ⟨le_rfl, le_rfl, by simp [newContext], by simp [newContext], by simp [newContext]⟩ hdef
  have hty : cp.ctx.circType = ty := define_ty ops hdef
  obtain ⟨⟨pf, vals⟩, hpr⟩ := honest_proves hgood hf hi2 hr hP t (c := ⟨ty, a⟩) hty.symm d1 d3
  obtain ⟨-, pw1, sw1, pwNTT, sw2, wNTT, lm, sm, all, e1, e2, R⟩ := proveT_run hc hpr
  rw [d1] at e1
  cases e1
  refine ⟨pf, ?_, all, R.len, R.pfW, ?_, R.ev,
    honest_accepted hgood hf hi2 hr hP t (c' := ⟨ty, a'⟩) hty.symm d2 d3 e2 R⟩
  · unfold prove
    rw [hpr]; rfl
  · intro i e he
    have hil := (List.getElem?_eq_some_iff.1 he).1
    obtain ⟨e', h1, h2⟩ := R.made i (by rw [← R.len]; exact hil)
    rw [he] at h1; cases h1; exact h2

/-- What an honest prover does, and when the verifier accepts: if the commitment scheme accepts the evaluations. -/
theorem C48_run (hp2 : p % 2 = 1) {K ty : Nat} (hK : 3 ≤ K) (ops : List (CtxOp (ZMod p)))
    (v a a' : Val (ZMod p)) (hset : Settable v) (hshape : SameShape v a) (hfull : FullRank (2 ^ K) a)
    (hpub : SamePublic a a')
    (hc : compile (2 ^ K) ty (firstWalk v ⟨0, 0⟩).2.1.pw (firstWalk v ⟨0, 0⟩).2.1.w ops = .ok cp)
    (h62 : cp.ctx.wCnt ≤ 2 ^ 62 ∧ cp.ctx.pwCnt ≤ 2 ^ 62)
    (hp : 2 * cp.ctx.wCnt + 1 < p ∧ 2 * cp.ctx.pwCnt + 1 < p)
    (hv : ∀ op ∈ ops, op.Valid (firstWalk v ⟨0, 0⟩).2.1.pw (firstWalk v ⟨0, 0⟩).2.1.w)
    (hinf : (ops.filterMap CtxOp.infId).Nodup) (hsq : (ops.filterMap CtxOp.sqId).length ≤ 1)
    (happ : (ops.filterMap CtxOp.approxId).Nodup)
    (hlt : 2 ^ K < max cp.ctx.arithCheckMaxRank cp.ctx.sumCheckMaxRank)
    (hA : cp.ctx.arith ≠ [] → 2 ^ K < cp.ctx.arithCheckMaxRank)
    (hS : cp.ctx.sums ≠ [] → 2 ^ K < cp.ctx.sumCheckMaxRank)
    (hus : ∀ o i n, CtxOp.lin o i n ∈ ops → Adjoint (2 ^ K) (E.users n))
    (hP : E.pcs.Evaluates cp.ctx.batch) (hrank : cp.ctx.commitRank ≤ E.pcs.rank)
    (ord : Orders) (hord : GoodOrders cp.ctx ord) (two : List TwoEntry) (htwo : two.Perm cp.ctx.twoDcmp)
    (hon : ∀ pw sw, AssignedTo v a pw sw → ∀ op ∈ ops, op.HonestFor (2 ^ K) E.users pw sw)
    (t : Tape (ZMod p) E.pcs.Rnd) :
    ∃ pf, prove E cp t ord ⟨ty, a⟩ = .ok (some pf) ∧ ∃ all : List (List (ZMod p) × E.pcs.Com × E.pcs.Open),
      all.length = cp.ctx.batch ∧ pf.witness = all.map (·.2.1) ∧
      (∀ (i : Nat) (e : List (ZMod p) × E.pcs.Com × E.pcs.Open), all[i]? = some e →
        E.pcs.commit e.1 (t.com i) = .ok e.2) ∧
      E.pcs.evaluate (E.setBytes (chalsOf E cp.ctx pf).x) (all.map (·.1)) (all.map (·.2.1)) (all.map (·.2.2)) t.ev =
        .ok (pf.evals, pf.evalProof) ∧
      (E.pcs.verify (E.setBytes (chalsOf E cp.ctx pf).x) pf.witness pf.evals pf.evalProof = .ok true →
        verify E cp two ⟨ty, a'⟩ pf = .ok true) := by
  have hdef := (compile_inv hc).1
  have hi := CtxInv.define ops (CtxInv.new (2 ^ K) ty _ _) hdef
  obtain ⟨pw, sw, vpw, c1, c2, c3, c4, rfl, c6, c7, c8, c9⟩ := C26_alignment (2 ^ K) v a hset hshape
    hfull cp.ctx.pwCnt cp.ctx.wCnt hi.w hi.pw h62 hp
  have c2' : vrfCollect (2 ^ K) cp.ctx.pwCnt a' = .ok (vpw, false) := by
    rw [← c2]; unfold vrfCollect; rw [vrfWalk_public _ hpub]
  have hz : ∀ (n0 n : Nat) (x : List (List (ZMod p))), x.length = n →
      (∀ m, n0 ≤ m → m < n → x[m]? = some (List.replicate (2 ^ K) 0)) → ZeroFrom n0 (2 ^ K) x := by
    intro n0 n x hx h0 b hb i
    unfold cell
    by_cases hbn : b < n
    · rw [List.getD_eq_getElem?_getD (l := x), h0 b hb hbn, Option.getD_some,
        List.getD_eq_getElem?_getD, List.getElem?_replicate]
      split <;> rfl
    · rw [List.getD_eq_getElem?_getD (l := x), List.getElem?_eq_none (by omega)]; simp
  obtain ⟨pw', sw', d1, d2, d3⟩ := honest_assign hp2 hc hv hinf hsq happ hus hord htwo c1 c2'
    (hz _ _ _ c3 c9) (hz _ _ _ c4 c8) (hon _ _ ⟨c6, c7⟩)
  exact honest_run hK ops a a' hc hv hlt hA hS hP hrank d1 d2 d3 t

/-- **C48, partial.**  Missing from the full claim, because the code fails there: assignments that
attain a power-of-two norm bound (`C41_refuted`, `C42_refuted`), norm bounds of 0 and 1 for the
two-norm, more than one two-norm constraint (`C43_refuted`), several infinity-norm constraints on one
witness (`C44_refuted`), sums declared nonzero (`C39_refuted`), and circuits in which a check exists
but no constraint of it involves a secret witness (`C48_refuted`).

For every other circuit - a Go value `v` whose `Define` makes the calls `ops` - every assignment `a`
to it satisfying all constraints, every value `a'` with the same public part, all randomness `t`, all
hash functions and XOFs (in `E`), every order in which Go iterates over the maps (`ord`, `two`), and
every correct commitment scheme of at least the requested rank: `Prove` returns a proof and `Verify`
accepts it. -/
theorem C48_partial (hp2 : p % 2 = 1) {K ty : Nat} (hK : 3 ≤ K) (ops : List (CtxOp (ZMod p)))
    (v a a' : Val (ZMod p)) (hset : Settable v) (hshape : SameShape v a) (hfull : FullRank (2 ^ K) a)
    (hpub : SamePublic a a')
    (hc : compile (2 ^ K) ty (firstWalk v ⟨0, 0⟩).2.1.pw (firstWalk v ⟨0, 0⟩).2.1.w ops = .ok cp)
    (h62 : cp.ctx.wCnt ≤ 2 ^ 62 ∧ cp.ctx.pwCnt ≤ 2 ^ 62)
    (hp : 2 * cp.ctx.wCnt + 1 < p ∧ 2 * cp.ctx.pwCnt + 1 < p)
    (hv : ∀ op ∈ ops, op.Valid (firstWalk v ⟨0, 0⟩).2.1.pw (firstWalk v ⟨0, 0⟩).2.1.w)
    (hinf : (ops.filterMap CtxOp.infId).Nodup) (hsq : (ops.filterMap CtxOp.sqId).length ≤ 1)
    (happ : (ops.filterMap CtxOp.approxId).Nodup)
    (hlt : 2 ^ K < max cp.ctx.arithCheckMaxRank cp.ctx.sumCheckMaxRank)
    (hA : cp.ctx.arith ≠ [] → 2 ^ K < cp.ctx.arithCheckMaxRank)
    (hS : cp.ctx.sums ≠ [] → 2 ^ K < cp.ctx.sumCheckMaxRank)
    (hus : ∀ o i n, CtxOp.lin o i n ∈ ops → Adjoint (2 ^ K) (E.users n))
    (hP : E.pcs.Correct cp.ctx.batch) (hrank : cp.ctx.commitRank ≤ E.pcs.rank)
    (ord : Orders) (hord : GoodOrders cp.ctx ord) (two : List TwoEntry) (htwo : two.Perm cp.ctx.twoDcmp)
    (hon : ∀ pw sw, AssignedTo v a pw sw → ∀ op ∈ ops, op.HonestFor (2 ^ K) E.users pw sw)
    (t : Tape (ZMod p) E.pcs.Rnd) :
    ∃ pf, prove E cp t ord ⟨ty, a⟩ = .ok (some pf) ∧ verify E cp two ⟨ty, a'⟩ pf = .ok true := by
  obtain ⟨pf, h1, all, h2, h3, h4, h5, h6⟩ := C48_run hp2 hK ops v a a' hset hshape hfull hpub hc h62 hp hv hinf hsq
    happ hlt hA hS hus hP.evaluates hrank ord hord two htwo hon t
  refine ⟨pf, h1, h6 ?_⟩
  obtain ⟨pf', h7, h8⟩ := hP.eval (E.setBytes (chalsOf E cp.ctx pf).x) all t.com t.ev h2 h4
  rw [h5] at h7
  simp only [Except.ok.injEq, Prod.mk.injEq] at h7
  rw [h3, h7.1, h7.2]
  exact h8

end

end Ringo
