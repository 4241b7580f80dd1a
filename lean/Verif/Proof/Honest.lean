import Verif.Proof.Norm2
import Verif.Spec.Honest

/-!
# The prover's tables satisfy the constraints of the context
-/

namespace Ringo

open Finset

section
variable {p : Nat} [Fact p.Prime]

theorem Prov.define {N pw0 w0 : Nat} (ops : List (CtxOp (ZMod p))) (hv : ∀ op ∈ ops, op.Valid pw0 w0) :
    ∀ (done : List (CtxOp (ZMod p))) (ctx ctx' : Context (ZMod p)),
      ((done ++ ops).filterMap CtxOp.infId).Nodup → ((done ++ ops).filterMap CtxOp.sqId).Nodup →
      ((done ++ ops).filterMap CtxOp.approxId).Nodup → Prov N pw0 w0 done ctx →
      ctx.define ops = .ok ctx' → Prov N pw0 w0 (done ++ ops) ctx' := by
  induction ops with
  | nil => intro done ctx ctx' _ _ _ h hd; cases hd; simpa using h
  | cons op ops ih =>
    intro done ctx ctx' n1 n2 n3 h hd
    unfold Context.define at hd
    rw [List.foldlM_cons] at hd
    obtain ⟨c1, h1, h2⟩ := bind_ok_inv hd
    have key : ∀ (f : CtxOp (ZMod p) → Option Nat), ((done ++ op :: ops).filterMap f).Nodup →
        ∀ w, f op = some w → ∀ o ∈ done, f o ≠ some w := by
      intro f hn w hw o ho heq
      rw [List.filterMap_append, List.nodup_append] at hn
      refine hn.2.2 w (List.mem_filterMap.mpr ⟨o, ho, heq⟩) w ?_ rfl
      exact List.mem_filterMap.mpr ⟨op, by simp, hw⟩
    have hp := h.apply op (hv op (by simp))
      (fun w hw e he heq => by
        obtain ⟨a1, a2, -⟩ := h.inf e he
        refine key _ n1 w hw _ a1 ?_
        simp only [CtxOp.infId]
        rw [if_pos (by exact_mod_cast a2), heq])
      (fun w hw e he heq => by
        obtain ⟨a1, -⟩ := h.two e he
        exact key _ n2 w hw _ a1 (by simp only [CtxOp.sqId]; rw [heq]))
      (fun w hw e he heq => by
        obtain ⟨⟨b, a1⟩, -⟩ := h.proj e he
        exact key _ n3 w hw _ a1 (by simp only [CtxOp.approxId]; rw [heq])) h1
    have := ih (fun o ho => hv o (by simp [ho])) (done ++ [op]) c1 ctx'
      (by simpa using n1) (by simpa using n2) (by simpa using n3) hp h2
    simpa using this

/-- The rows from `k` on are zero. -/
def ZeroFrom (k N : Nat) (sw : List (List (ZMod p))) : Prop := ∀ a, k ≤ a → ∀ i, cell sw a i = 0

theorem rowOf_cell (sw : List (List (ZMod p))) (i a : Nat) : rowOf sw i a = cell sw a i := rfl

theorem onRow_congr {c : Constraint (ZMod p)} {pw pw' sw sw' : List (List (ZMod p))} {i a b : Nat}
    (hr : c.Refs a b) (h1 : ∀ x < a, cell pw x i = cell pw' x i) (h2 : ∀ x < b, cell sw x i = cell sw' x i) :
    c.onRow pw sw i = c.onRow pw' sw' i :=
  Constraint.value_congr c _ _ _ _ _ _ hr h1 h2

theorem row_ext {n N : Nat} {sw : List (List (ZMod p))} (h : Shape n N sw) {a : Nat} (ha : a < n)
    {v : List (ZMod p)} (hv : v.length = N) (he : ∀ i < N, cell sw a i = v.getD i 0) :
    sw.getD a [] = v := by
  have hr := (h.row ha).1
  apply List.ext_getElem?
  intro i
  by_cases hi : i < N
  · have := he i hi
    unfold cell at this
    rw [List.getD_eq_getElem?_getD, List.getD_eq_getElem?_getD (l := v),
      List.getElem?_eq_getElem (by omega), List.getElem?_eq_getElem (by omega)] at this
    rw [List.getElem?_eq_getElem (by omega), List.getElem?_eq_getElem (by omega)]
    simpa using this
  · rw [List.getElem?_eq_none (by omega), List.getElem?_eq_none (by omega)]

/-- The map orders of the prover are the maps of the context, in some order. -/
structure GoodOrders (ctx : Context (ZMod p)) (ord : Orders) : Prop where
  inf : ord.inf.Perm ctx.infDcmp
  two : ord.two.Perm ctx.twoDcmp
  proj : ord.proj.Perm ctx.projWit
  projInf : ord.projInf.Perm ctx.projInf

variable {N pw0 w0 : Nat} {ops : List (CtxOp (ZMod p))} {ctx : Context (ZMod p)} {ord : Orders}

theorem Prov.infOrder (h : Prov N pw0 w0 ops ctx) (hv : ∀ op ∈ ops, op.Valid pw0 w0)
    (ho : ord.inf.Perm ctx.infDcmp) : InfOrder ctx.wCnt ord.inf := by
  have hal := h.allocNodup
  unfold alloc at hal
  have hn : (ctx.infDcmp.flatMap (·.dcmp)).Nodup :=
    (List.nodup_append.mp (List.nodup_append.mp (List.nodup_append.mp hal).1).1).1
  have hn' : (ord.inf.flatMap (·.dcmp)).Nodup := (ho.flatMap_right _).nodup_iff.mpr hn
  rw [List.nodup_flatMap] at hn'
  have hmem : ∀ e ∈ ord.inf, e ∈ ctx.infDcmp := fun e he => ho.mem_iff.mp he
  have hrange : ∀ e ∈ ord.inf, ∀ d ∈ e.dcmp, w0 ≤ d ∧ d < ctx.wCnt := by
    intro e he d hd
    apply h.allocRange
    unfold alloc
    simp only [List.mem_append, List.mem_flatMap]
    exact Or.inl (Or.inl (Or.inl ⟨e, hmem e he, hd⟩))
  have hid : ∀ e ∈ ord.inf, e.id < w0 := fun e he => hv _ (h.inf e (hmem e he)).1
  refine ⟨fun e he => ⟨(h.inf e (hmem e he)).2.1, lt_of_lt_of_le (hid e he) h.wLe,
    fun d hd => (hrange e he d hd).2, hn'.1 e he, ?_⟩, ?_, ?_⟩
  · intro base hb
    obtain ⟨base', hb', hl⟩ := (h.inf e (hmem e he)).2.2
    rw [hb] at hb'; cases hb'; exact hl
  · intro e he e' he' hm
    have := hrange e' he' _ hm
    have := hid e he
    omega
  · refine hn'.2.imp ?_
    intro e e' hd w hw hw'
    exact hd hw hw'

theorem fill_inf (hp2 : p % 2 = 1) (h : Prov N pw0 w0 ops ctx) (hv : ∀ op ∈ ops, op.Valid pw0 w0)
    (ho : ord.inf.Perm ctx.infDcmp) {sw : List (List (ZMod p))} (hs : Shape ctx.wCnt N sw) :
    ∃ sw', fillInf N ord.inf sw = .ok sw' ∧ Shape ctx.wCnt N sw' ∧
      (∀ a, (∀ e ∈ ctx.infDcmp, a ∉ e.dcmp) → ∀ i, cell sw' a i = cell sw a i) ∧
      (∀ e ∈ ctx.infDcmp, ∀ base, decomposeBase e.bound = .ok base → ∀ i < N,
        |(cell sw e.id i).valMinAbs| ≤ e.bound →
        ((∃ k, e.bound = 2 ^ k) → |(cell sw e.id i).valMinAbs| ≠ e.bound) →
        ∀ pw sw'', (∀ d ∈ e.dcmp, cell sw'' d i = cell sw' d i) → cell sw'' e.id i = cell sw e.id i →
        (∀ d ∈ e.dcmp, (Context.ternary d : Constraint (ZMod p)).onRow pw sw'' i = 0) ∧
        (Context.infDcmpConstraint e.id base e.dcmp : Constraint (ZMod p)).onRow pw sw'' i = 0) := by
  have hio := h.infOrder hv ho
  obtain ⟨sw', f1, f2, f3, f4⟩ := fillInf_spec (N := N) ord.inf hio sw hs
  refine ⟨sw', f1, f2, ?_, ?_⟩
  · intro a ha i
    exact f4 a (fun e he => ha e (ho.mem_iff.mp he)) i
  · intro e he base hb i hi hw hpow pw sw'' hd hid
    have heo : e ∈ ord.inf := ho.mem_iff.mpr he
    have hl := (hio.ok e heo).len base hb
    -- only row `i` matters
    obtain ⟨k1, k2⟩ := infEntry_complete hp2 (e := e) (sw := sw) (sw' := sw') hb (hio.ok e heo).bound hl
      (f3 e heo base hb) (fun i => f4 e.id (fun e' he' => hio.sep e heo e' he') i) pw i hi hw hpow
    constructor
    · intro d hdm
      rw [← k1 d hdm]
      unfold Constraint.onRow
      rw [ternary_value, ternary_value, rowOf_cell, rowOf_cell, hd d hdm]
    · rw [← k2]
      unfold Constraint.onRow
      rw [infDcmp_value, infDcmp_value]
      have e1 : rowOf sw'' i e.id = rowOf sw' i e.id := by
        rw [rowOf_cell, rowOf_cell, hid, f4 e.id (fun e' he' => hio.sep e heo e' he') i]
      rw [e1]
      congr 2
      apply List.ext_getElem?
      intro j
      simp only [List.getElem?_zipWith]
      cases hj : e.dcmp[j]? with
      | none => cases base[j]? <;> rfl
      | some d =>
        have : rowOf sw'' i d = rowOf sw' i d := hd d (List.mem_of_getElem? hj)
        cases base[j]? with
        | none => rfl
        | some b => simp [this]

theorem fill_two (h : Prov N pw0 w0 ops ctx) (hv : ∀ op ∈ ops, op.Valid pw0 w0)
    (ho : ord.two.Perm ctx.twoDcmp) (h1 : ctx.twoDcmp.length ≤ 1)
    (hon : ∀ e ∈ ctx.twoDcmp, 2 ≤ e.bound ∧ ∀ base, decomposeBase e.bound = .ok base → base.length ≤ N)
    {pw sw : List (List (ZMod p))} (hp : Shape ctx.pwCnt N pw) (hs : Shape ctx.wCnt N sw)
    (hpz : ZeroFrom pw0 N pw) (hsz : ∀ e ∈ ctx.twoDcmp, ∀ i, cell sw e.dcmp i = 0) :
    ∃ pw' sw', fillTwo N ord.two (pw, sw) = .ok (pw', sw') ∧
      (∀ vt : List TwoEntry, vt.Perm ctx.twoDcmp → vt.foldlM (fun pw e => fillTwoPub e pw) pw = .ok pw') ∧
      Shape ctx.pwCnt N pw' ∧ Shape ctx.wCnt N sw' ∧
      (∀ a < pw0, ∀ i, cell pw' a i = cell pw a i) ∧
      (∀ a, (∀ e ∈ ctx.twoDcmp, a ≠ e.dcmp) → ∀ i, cell sw' a i = cell sw a i) ∧
      (∀ e ∈ ctx.twoDcmp, 2 * e.bound < p → (∑ i ∈ range N, cell sw e.id i ^ 2).val ≤ e.bound →
        ((∃ k, e.bound = 2 ^ k) → (∑ i ∈ range N, cell sw e.id i ^ 2).val ≠ e.bound) →
        ∀ sw'', (∀ i, cell sw'' e.dcmp i = cell sw' e.dcmp i) → (∀ i, cell sw'' e.id i = cell sw e.id i) →
        (∀ i, (sqBin e : Constraint (ZMod p)).onRow pw' sw'' i = 0) ∧
        ∑ i ∈ range N, (sqSum e : Constraint (ZMod p)).onRow pw' sw'' i = 0) := by
  match hl : ctx.twoDcmp, h1 with
  | [], _ =>
    rw [hl] at ho
    rw [ho.eq_nil]
    refine ⟨pw, sw, rfl, ?_, hp, hs, fun _ _ _ => rfl, fun _ _ _ => rfl, by simp⟩
    intro vt hvt
    rw [hvt.eq_nil]; rfl
  | [e], _ =>
    have hm : e ∈ ctx.twoDcmp := by rw [hl]; simp
    rw [hl] at ho
    rw [List.perm_singleton] at ho
    rw [ho]
    obtain ⟨a1, a2, a3, a4⟩ := h.two e hm
    obtain ⟨b1, b2⟩ := hon e hm
    obtain ⟨base, hb, -⟩ := decomposeBase_spec e.bound b1
    have hid : e.id < w0 := hv _ a1
    have hdr : w0 ≤ e.dcmp ∧ e.dcmp < ctx.wCnt := by
      apply h.allocRange
      unfold alloc
      simp only [List.mem_append, List.mem_map]
      exact Or.inl (Or.inl (Or.inr ⟨e, hm, rfl⟩))
    have hwle := h.wLe
    obtain ⟨pw', sw', f1, f2, f3, f4, f5, f6⟩ := fillTwo_single e (m := ctx.pwCnt) (n := ctx.wCnt)
      (by omega) a4 (by omega) (by omega) hdr.2 hb (b2 base hb) pw sw hp hs
    obtain ⟨pw'', q1, q2, q3, q4, q5⟩ := fillTwoPub_spec e (m := ctx.pwCnt) (by omega) a4 (by omega) hb
      (b2 base hb) pw hp
    rw [f2] at q1; cases q1
    refine ⟨pw', sw', f1, ?_, f3, f4, ?_, ?_, ?_⟩
    · intro vt hvt
      rw [List.perm_singleton] at hvt
      rw [hvt, List.foldlM_cons, f2]; rfl
    · intro a ha i
      exact q5 a (by omega) (by omega) i
    · intro a ha i
      exact f6 a (ha e (by simp)) i
    · intro e' he' c1 c2 c3 sw'' d1 d2
      rw [List.mem_singleton] at he'
      subst he'
      refine twoEntry_complete hb b1 c1 (b2 base hb) q3 q4 (fun i => hpz _ a2 i) (hsz e' hm) ?_ d2 c2 c3
      intro i
      rw [d1 i, f5 i]
  | _ :: _ :: _, h1 => simp at h1

/-- The projection of a short vector is short. -/
theorem projVal_within {proj : List (List Bool)} {v : List (ZMod p)} {b : Nat}
    (hp : 2 * (N * b) < p) (hw : ∀ j < N, |(v.getD j 0).valMinAbs| ≤ b)
    (hlt : (∃ k, N * b = 2 ^ k) → ∃ j < N, |(v.getD j 0).valMinAbs| < b) (i : Nat) :
    |(projVal N proj v i).valMinAbs| ≤ (N * b : Nat) ∧
      ((∃ k, N * b = 2 ^ k) → |(projVal N proj v i).valMinAbs| ≠ (N * b : Nat)) := by
  have : NeZero p := ⟨(Fact.out : p.Prime).ne_zero⟩
  set z : Int := if i < 128 then ∑ j ∈ range N,
    (if (proj.getD i []).getD j false then (v.getD j 0).valMinAbs else 0) else 0 with hz
  have hcast : projVal N proj v i = (z : ZMod p) := by
    unfold projVal
    rw [hz]
    split_ifs
    · push_cast
      apply sum_congr rfl
      intro j _
      split_ifs <;> simp
    · simp
  have habs : |z| ≤ ∑ j ∈ range N, |(v.getD j 0).valMinAbs| := by
    rw [hz]
    split_ifs
    · refine le_trans (abs_sum_le_sum_abs _ _) (sum_le_sum ?_)
      intro j _
      split_ifs
      · exact le_rfl
      · simp
    · simp only [abs_zero]
      exact sum_nonneg (fun _ _ => abs_nonneg _)
  have hsum : ∑ j ∈ range N, |(v.getD j 0).valMinAbs| ≤ (N * b : Nat) := by
    calc _ ≤ ∑ j ∈ range N, (b : Int) := sum_le_sum (fun j hj => hw j (mem_range.mp hj))
      _ = (N * b : Nat) := by simp
  have hle : |z| ≤ (N * b : Nat) := le_trans habs hsum
  have hval := valMinAbs_of hcast hle (by exact_mod_cast hp)
  rw [hval]
  refine ⟨hle, fun hk => ?_⟩
  obtain ⟨j, hj, hj2⟩ := hlt hk
  have : ∑ j ∈ range N, |(v.getD j 0).valMinAbs| < (N * b : Nat) := by
    calc _ < ∑ j ∈ range N, (b : Int) := sum_lt_sum (fun j hj => hw j (mem_range.mp hj))
            ⟨j, mem_range.mpr hj, hj2⟩
      _ = (N * b : Nat) := by simp
  exact ne_of_lt (lt_of_le_of_lt habs this)

theorem sum_digits (base : List Nat) (ds : List Int) (hl : ds.length = base.length) :
    ∑ j ∈ range base.length, ((base.getD j 0 : Nat) : ZMod p) * ((ds.getD j 0 : Int) : ZMod p) =
      ((recombine ds base : Int) : ZMod p) := by
  rw [← sum_recombine base ds hl]
  push_cast
  rfl

/-- The digits of the projections recompose to the projections. -/
theorem recomp_holds (hp2 : p % 2 = 1) {n : Nat} {e : ProjInfEntry} {base : List Nat}
    (hb : decomposeBase e.bound = .ok base) (hbd : 2 ≤ e.bound) (hN : 128 * base.length ≤ N)
    {sw sw' : List (List (ZMod p))} (hs' : Shape n N sw') (hid : e.id < n) (hdc : e.dcmp < n)
    (h1 : ∀ i < 128, ∀ j < base.length, cell sw' e.dcmp (i * base.length + j) =
      (((decomposeBig (cell sw e.id i).val base p).getD j 0 : Int) : ZMod p))
    (h2 : ∀ k, 128 * base.length ≤ k → cell sw' e.dcmp k = 0)
    (h3 : ∀ i, cell sw' e.id i = cell sw e.id i)
    (h4 : ∀ i, 128 ≤ i → i < N → cell sw e.id i = 0)
    (h5 : ∀ i < 128, |(cell sw e.id i).valMinAbs| ≤ e.bound ∧
      ((∃ k, e.bound = 2 ^ k) → |(cell sw e.id i).valMinAbs| ≠ e.bound)) :
    ∃ L, newProjRecomposeChecker e.bound = .ok L ∧
      L.transformTo (List.replicate N 0) (sw'.getD e.dcmp []) = .ok (sw'.getD e.id []) := by
  have hL : newProjRecomposeChecker (F := ZMod p) e.bound =
      .ok (projRecomposeChecker (base.map (fun (b : Nat) => (b : ZMod p)))) := by
    unfold newProjRecomposeChecker; rw [hb]; rfl
  refine ⟨_, hL, ?_⟩
  obtain ⟨-, base', hb', hT⟩ := C33_projRecomposeChecker N e.bound _ hL
  rw [hb] at hb'; cases hb'
  obtain ⟨w, w1, w2, w3⟩ := hT (List.replicate N 0) (sw'.getD e.dcmp []) (by simp) (hs'.row hdc).1
  rw [w1]
  congr 1
  symm
  refine row_ext hs' hid w2 ?_
  intro i hi
  have hlen : 0 < base.length := by
    obtain ⟨b', hb', hg, -⟩ := decomposeBase_spec e.bound hbd
    rw [hb] at hb'; cases hb'
    unfold decomposeBase at hb
    simp only at hb
    split at hb
    · cases hb
    · cases hb; simp
  have h128 : 128 ≤ N / base.length := (Nat.le_div_iff_mul_le hlen).mpr hN
  rw [List.getD_eq_getElem?_getD, w3 i hi, Option.getD_some, h3]
  by_cases hi1 : i < 128
  · rw [if_pos (by omega)]
    rw [sum_congr rfl (fun j hj => by
      rw [show (sw'.getD e.dcmp []).getD (i * base.length + j) 0 = cell sw' e.dcmp (i * base.length + j)
        from rfl, h1 i hi1 j (mem_range.mp hj)])]
    obtain ⟨a1, a2⟩ := h5 i hi1
    rw [← signedRep_eq hp2] at a1 a2
    obtain ⟨base', b1, b2, b3, b4⟩ := dcmp_signed e.bound hbd p (cell sw e.id i).val a1 a2
    rw [hb] at b1; cases b1
    rw [sum_digits base _ b2, b4, signedRep_eq hp2]
    simp
  · rw [h4 i (by omega) hi]
    split_ifs with hi2
    · symm
      apply sum_eq_zero
      intro j _
      rw [show (sw'.getD e.dcmp []).getD (i * base.length + j) 0 = cell sw' e.dcmp (i * base.length + j)
        from rfl, h2 _ (by
          have : 128 * base.length ≤ i * base.length := Nat.mul_le_mul_right _ (by omega)
          omega), mul_zero]
    · rfl

/-- The slots allocated for different purposes are different. -/
structure AllocDisj (ctx : Context (ZMod p)) : Prop where
  infTwo : ∀ e ∈ ctx.infDcmp, ∀ d ∈ e.dcmp, ∀ f ∈ ctx.twoDcmp, d ≠ f.dcmp
  infProj : ∀ e ∈ ctx.infDcmp, ∀ d ∈ e.dcmp, ∀ f ∈ ctx.projWit, d ≠ f.proj
  infProjInf : ∀ e ∈ ctx.infDcmp, ∀ d ∈ e.dcmp, ∀ f ∈ ctx.projInf, d ≠ f.dcmp
  twoProj : ∀ e ∈ ctx.twoDcmp, ∀ f ∈ ctx.projWit, e.dcmp ≠ f.proj
  twoProjInf : ∀ e ∈ ctx.twoDcmp, ∀ f ∈ ctx.projInf, e.dcmp ≠ f.dcmp
  projProjInf : ∀ e ∈ ctx.projWit, ∀ f ∈ ctx.projInf, e.proj ≠ f.dcmp
  projNodup : (ctx.projWit.map (·.proj)).Nodup
  projInfNodup : (ctx.projInf.map (·.dcmp)).Nodup

theorem Prov.disj (h : Prov N pw0 w0 ops ctx) : AllocDisj ctx := by
  have hal := h.allocNodup
  unfold alloc at hal
  obtain ⟨h1, h2, h3⟩ := List.nodup_append.mp hal
  obtain ⟨h4, h5, h6⟩ := List.nodup_append.mp h1
  obtain ⟨h7, h8, h9⟩ := List.nodup_append.mp h4
  refine ⟨?_, ?_, ?_, ?_, ?_, ?_, h5, h2⟩
  · intro e he d hd f hf
    exact h9 d (List.mem_flatMap.mpr ⟨e, he, hd⟩) _ (List.mem_map.mpr ⟨f, hf, rfl⟩)
  · intro e he d hd f hf
    exact h6 d (List.mem_append_left _ (List.mem_flatMap.mpr ⟨e, he, hd⟩)) _
      (List.mem_map.mpr ⟨f, hf, rfl⟩)
  · intro e he d hd f hf
    exact h3 d (List.mem_append_left _ (List.mem_append_left _ (List.mem_flatMap.mpr ⟨e, he, hd⟩))) _
      (List.mem_map.mpr ⟨f, hf, rfl⟩)
  · intro e he f hf
    exact h6 _ (List.mem_append_right _ (List.mem_map.mpr ⟨e, he, rfl⟩)) _
      (List.mem_map.mpr ⟨f, hf, rfl⟩)
  · intro e he f hf
    exact h3 _ (List.mem_append_left _ (List.mem_append_right _ (List.mem_map.mpr ⟨e, he, rfl⟩))) _
      (List.mem_map.mpr ⟨f, hf, rfl⟩)
  · intro e he f hf
    exact h3 _ (List.mem_append_right _ (List.mem_map.mpr ⟨e, he, rfl⟩)) _
      (List.mem_map.mpr ⟨f, hf, rfl⟩)

structure AllocGe (w0 : Nat) (ctx : Context (ZMod p)) : Prop where
  inf : ∀ e ∈ ctx.infDcmp, ∀ d ∈ e.dcmp, w0 ≤ d ∧ d < ctx.wCnt
  two : ∀ e ∈ ctx.twoDcmp, w0 ≤ e.dcmp ∧ e.dcmp < ctx.wCnt
  proj : ∀ e ∈ ctx.projWit, w0 ≤ e.proj ∧ e.proj < ctx.wCnt
  projInf : ∀ e ∈ ctx.projInf, w0 ≤ e.dcmp ∧ e.dcmp < ctx.wCnt

theorem Prov.ge (h : Prov N pw0 w0 ops ctx) : AllocGe w0 ctx := by
  have hr := h.allocRange
  unfold alloc at hr
  simp only [List.mem_append, List.mem_flatMap, List.mem_map] at hr
  refine ⟨?_, ?_, ?_, ?_⟩
  · intro e he d hd; exact hr d (Or.inl (Or.inl (Or.inl ⟨e, he, hd⟩)))
  · intro e he; exact hr _ (Or.inl (Or.inl (Or.inr ⟨e, he, rfl⟩)))
  · intro e he; exact hr _ (Or.inl (Or.inr ⟨e, he, rfl⟩))
  · intro e he; exact hr _ (Or.inr ⟨e, he, rfl⟩)

/-- The projection phase. -/
theorem fill_proj (hp2 : p % 2 = 1) (h : Prov N pw0 w0 ops ctx) (hv : ∀ op ∈ ops, op.Valid pw0 w0)
    (hg : GoodOrders ctx ord) (users : Nat → LinearChecker (ZMod p))
    {pw sw sw1 : List (List (ZMod p))} (hs : Shape ctx.wCnt N sw1)
    (hz : ∀ a ∈ ctx.wSecond, ∀ i, cell sw1 a i = 0)
    (hsame : ∀ a < w0, ∀ i, cell sw1 a i = cell sw a i)
    (hon : ∀ op ∈ ops, op.HonestFor N users pw sw)
    {proj : List (List Bool)} (hproj : GoodProj N proj) :
    ∃ sw2, (if ctx.hasProj then fillProj ord proj sw1 else pure sw1) = .ok sw2 ∧
      Shape ctx.wCnt N sw2 ∧ (∀ a, a ∉ ctx.wSecond → ∀ i, cell sw2 a i = cell sw1 a i) ∧
      (∀ e ∈ ctx.projWit, (projChecker proj).transformTo (List.replicate N 0) (sw2.getD e.id []) =
        .ok (sw2.getD e.proj [])) ∧
      (∀ e ∈ ctx.projInf, ∃ L, newProjRecomposeChecker e.bound = .ok L ∧
        L.transformTo (List.replicate N 0) (sw2.getD e.dcmp []) = .ok (sw2.getD e.id [])) := by
  have hd := h.disj
  have hge := h.ge
  have hwle := h.wLe
  by_cases hem : ctx.projWit = [] ∧ ctx.projInf = []
  · obtain ⟨e1, e2⟩ := hem
    refine ⟨sw1, ?_, hs, fun _ _ _ => rfl, by simp [e1], by simp [e2]⟩
    split_ifs
    · have o1 := hg.proj
      have o2 := hg.projInf
      rw [e1] at o1
      rw [e2] at o2
      unfold fillProj
      rw [o1.eq_nil, o2.eq_nil]; rfl
    · rfl
  · have hap : ctx.hasProj = true := by
      by_contra hc
      rw [Bool.not_eq_true] at hc
      exact hem (h.hasProj' hc)
    have h128 : 128 ≤ N := by
      by_cases h1 : ctx.projWit = []
      · have h2 : ctx.projInf ≠ [] := fun h2 => hem ⟨h1, h2⟩
        obtain ⟨e, he⟩ := List.exists_mem_of_ne_nil _ h2
        obtain ⟨⟨w, b, a1, -⟩, -⟩ := h.projInf e he
        exact (hon _ a1).1
      · obtain ⟨e, he⟩ := List.exists_mem_of_ne_nil _ h1
        obtain ⟨⟨b, a1⟩, -⟩ := h.proj e he
        exact (hon _ a1).1
    rw [if_pos hap]
    have m1 : ∀ e, e ∈ ord.proj ↔ e ∈ ctx.projWit := fun e => hg.proj.mem_iff
    have m2 : ∀ e, e ∈ ord.projInf ↔ e ∈ ctx.projInf := fun e => hg.projInf.mem_iff
    have hid : ∀ e ∈ ctx.projWit, e.id < w0 := by
      intro e he
      obtain ⟨⟨b, a1⟩, -⟩ := h.proj e he
      exact hv _ a1
    obtain ⟨s, l1, l2, l3, l4⟩ := projLoop_spec h128 hproj ord.proj sw1 hs
      (fun e he => ⟨by have := hid e ((m1 e).mp he); omega, (hge.proj e ((m1 e).mp he)).2⟩)
      (fun e he e' he' => by
        have := hid e ((m1 e).mp he)
        have := (hge.proj e' ((m1 e').mp he')).1
        omega)
      (by
        have : (ord.proj.map (·.proj)).Nodup := (hg.proj.map _).nodup_iff.mpr hd.projNodup
        rw [List.Nodup, List.pairwise_map] at this
        exact this)
    have hex : ∀ e ∈ ctx.projInf, ∃ f ∈ ctx.projWit, f.proj = e.id ∧ ∃ b, CtxOp.approx f.id b ∈ ops ∧
        e.bound = N * b ∧ ∃ base, decomposeBase e.bound = .ok base := by
      intro e he
      obtain ⟨⟨w, b, a1, a2, a3, a4⟩, -⟩ := h.projInf e he
      exact ⟨⟨w, e.id⟩, a3, rfl, b, a1, a2, a4⟩
    obtain ⟨sw2, k1, k2, k3, k4⟩ := projInfLoop_spec h128 ord.projInf s l2
      (fun e he => by
        obtain ⟨f, f1, f2, b, f3, f4, base, f5⟩ := hex e ((m2 e).mp he)
        refine ⟨by rw [← f2]; exact (hge.proj f f1).2, (hge.projInf e ((m2 e).mp he)).2, base, f5, ?_⟩
        have := (hon _ f3).2.2.2.1 base (by rw [← f4]; exact f5)
        exact this)
      (fun e he e' he' => by
        obtain ⟨f, f1, f2, -⟩ := hex e ((m2 e).mp he)
        rw [← f2]
        exact hd.projProjInf f f1 e' ((m2 e').mp he'))
      (by
        have : (ord.projInf.map (·.dcmp)).Nodup := (hg.projInf.map _).nodup_iff.mpr hd.projInfNodup
        rw [List.Nodup, List.pairwise_map] at this
        exact this)
    have hsec : ∀ a, a ∈ ctx.wSecond ↔ (∃ e ∈ ctx.projWit, e.proj = a) ∨ ∃ e ∈ ctx.projInf, e.dcmp = a := by
      intro a
      rw [h.second.mem_iff]
      simp [List.mem_append, List.mem_map]
    have hrow : ∀ a, (∀ e ∈ ctx.projInf, a ≠ e.dcmp) → a < ctx.wCnt → sw2.getD a [] = s.getD a [] := by
      intro a ha hlt
      refine row_ext k2 hlt (l2.row hlt).1 ?_
      intro i _
      exact k4 a (fun e he => ha e ((m2 e).mp he)) i
    have hrow0 : ∀ a < w0, sw2.getD a [] = sw1.getD a [] := by
      intro a ha
      rw [hrow a (fun e he => by have := (hge.projInf e he).1; omega) (by omega)]
      exact l4 a (fun e he => by have := (hge.proj e ((m1 e).mp he)).1; omega)
    refine ⟨sw2, ?_, k2, ?_, ?_, ?_⟩
    · unfold fillProj
      rw [l1, go_bind_ok]
      exact k1
    · intro a ha i
      rw [hsec] at ha
      push Not at ha
      rw [k4 a (fun e he => Ne.symm (ha.2 e ((m2 e).mp he))) i]
      unfold cell
      rw [l4 a (fun e he => Ne.symm (ha.1 e ((m1 e).mp he)))]
    · intro e he
      have h1 := hid e he
      have h2 := hge.proj e he
      rw [hrow0 e.id h1, hrow e.proj (fun f hf => hd.projProjInf e he f hf) h2.2,
        l3 e ((m1 e).mpr he)]
      exact proj_apply h128 hproj _ _ (by simp) (hs.row (by omega)).1
    · intro e he
      obtain ⟨f, f1, f2, b, f3, f4, base, f5⟩ := hex e he
      obtain ⟨g1, g2, g3, g4, g5, g6⟩ := hon _ f3
      obtain ⟨k5, k6⟩ := k3 e ((m2 e).mpr he) base f5
      have hrid : s.getD e.id [] = projVec N proj (sw1.getD f.id []) := by
        rw [← f2]; exact l3 f ((m1 f).mpr f1)
      have hcell : ∀ i < N, cell s e.id i = projVal N proj (sw1.getD f.id []) i := by
        intro i hi
        unfold cell
        rw [hrid, projVec_getD _ _ hi]
      have hfid := hid f f1
      have hwv : ∀ j, (sw1.getD f.id []).getD j 0 = rowOf sw j f.id := fun j => hsame f.id hfid j
      refine recomp_holds hp2 f5 ?_ ?_ (sw := s) k2 ?_ (hge.projInf e he).2 k5 ?_ ?_ ?_ ?_
      · rw [f4]
        calc 2 ≤ N := by omega
          _ = N * 1 := by ring
          _ ≤ N * b := Nat.mul_le_mul_left _ g2
      · exact g4 base (by rw [← f4]; exact f5)
      · rw [← f2]; exact (hge.proj f f1).2
      · intro k hk
        rw [k6 k hk]
        unfold cell
        rw [l4 e.dcmp (fun f' hf' => Ne.symm (hd.projProjInf f' ((m1 f').mp hf') e he))]
        exact hz e.dcmp ((hsec _).mpr (Or.inr ⟨e, he, rfl⟩)) k
      · intro i
        exact k4 e.id (fun e' he' => by
          rw [← f2]; exact hd.projProjInf f f1 e' ((m2 e').mp he')) i
      · intro i h1 h2
        rw [hcell i h2]
        unfold projVal
        rw [if_neg (by omega)]
      · intro i hi
        rw [hcell i (by omega), f4]
        refine projVal_within g3 (fun j hj => ?_) (fun hk => ?_) i
        · rw [hwv]; exact g5 j hj
        · obtain ⟨j, j1, j2⟩ := g6 hk
          exact ⟨j, j1, by rw [hwv]; exact j2⟩

/-- What the prover writes satisfies every constraint of the context. -/
theorem fill_master (hp2 : p % 2 = 1) (h : Prov N pw0 w0 ops ctx) (hv : ∀ op ∈ ops, op.Valid pw0 w0)
    (hg : GoodOrders ctx ord) (h1 : ctx.twoDcmp.length ≤ 1) (users : Nat → LinearChecker (ZMod p))
    {pw sw : List (List (ZMod p))} (hp : Shape ctx.pwCnt N pw) (hs : Shape ctx.wCnt N sw)
    (hpz : ZeroFrom pw0 N pw) (hsz : ZeroFrom w0 N sw)
    (hon : ∀ op ∈ ops, op.HonestFor N users pw sw) :
    ∃ s1 pw' sw1, fillInf N ord.inf sw = .ok s1 ∧ fillTwo N ord.two (pw, s1) = .ok (pw', sw1) ∧
      (∀ vt : List TwoEntry, vt.Perm ctx.twoDcmp → vt.foldlM (fun pw e => fillTwoPub e pw) pw = .ok pw') ∧
      Shape ctx.pwCnt N pw' ∧ Shape ctx.wCnt N sw1 ∧
      (∀ a < pw0, ∀ i, cell pw' a i = cell pw a i) ∧ (∀ a < w0, ∀ i, cell sw1 a i = cell sw a i) ∧
      ∀ proj, GoodProj N proj → ∃ sw2,
        (if ctx.hasProj then fillProj ord proj sw1 else pure sw1) = .ok sw2 ∧
        Shape ctx.wCnt N sw2 ∧ (∀ a, a ∉ ctx.wSecond → ∀ i, cell sw2 a i = cell sw1 a i) ∧
        (∀ c ∈ ctx.arith, ∀ i < N, c.onRow pw' sw2 i = 0) ∧
        (∀ c ∈ ctx.sums, ∑ i ∈ range N, c.onRow pw' sw2 i = 0) ∧
        (∀ e ∈ ctx.lin, ∀ x ∈ e.2, ∃ L, resolve users proj e.1 = .ok L ∧
          L.transformTo (List.replicate N 0) (sw2.getD x.2 []) = .ok (sw2.getD x.1 [])) := by
  have hd := h.disj
  have hge := h.ge
  have hwle := h.wLe
  have hple := h.pwLe
  obtain ⟨s1, a1, a2, a3, a4⟩ := fill_inf hp2 h hv hg.inf hs
  obtain ⟨pw', sw1, b1, b2, b3, b4, b5, b6, b7⟩ := fill_two h hv hg.two h1
    (fun e he => by
      have := hon _ (h.two e he).1
      exact ⟨this.1, this.2.2.1⟩) hp a2 hpz
    (fun e he i => by
      rw [a3 e.dcmp (fun f hf hm => hd.infTwo f hf _ hm e he rfl) i]
      exact hsz _ (hge.two e he).1 i)
  have hs1 : ∀ a < w0, ∀ i, cell s1 a i = cell sw a i := fun a ha i =>
    a3 a (fun e he hm => by have := (hge.inf e he a hm).1; omega) i
  have hsw1 : ∀ a < w0, ∀ i, cell sw1 a i = cell sw a i := fun a ha i => by
    rw [b6 a (fun e he => by have := (hge.two e he).1; omega) i, hs1 a ha i]
  refine ⟨s1, pw', sw1, a1, b1, b2, b3, b4, b5, hsw1, ?_⟩
  intro proj hproj
  have hsec : ∀ a, a ∈ ctx.wSecond ↔ (∃ e ∈ ctx.projWit, e.proj = a) ∨ ∃ e ∈ ctx.projInf, e.dcmp = a := by
    intro a
    rw [h.second.mem_iff]
    simp [List.mem_append, List.mem_map]
  have hsecge : ∀ a ∈ ctx.wSecond, w0 ≤ a := by
    intro a ha
    rcases (hsec a).mp ha with ⟨e, he, rfl⟩ | ⟨e, he, rfl⟩
    · exact (hge.proj e he).1
    · exact (hge.projInf e he).1
  have hsecinf : ∀ e ∈ ctx.infDcmp, ∀ d ∈ e.dcmp, d ∉ ctx.wSecond := by
    intro e he d hdm hm
    rcases (hsec d).mp hm with ⟨f, hf, heq⟩ | ⟨f, hf, heq⟩
    · exact hd.infProj e he d hdm f hf heq.symm
    · exact hd.infProjInf e he d hdm f hf heq.symm
  have hsectwo : ∀ e ∈ ctx.twoDcmp, e.dcmp ∉ ctx.wSecond := by
    intro e he hm
    rcases (hsec _).mp hm with ⟨f, hf, heq⟩ | ⟨f, hf, heq⟩
    · exact hd.twoProj e he f hf heq.symm
    · exact hd.twoProjInf e he f hf heq.symm
  obtain ⟨sw2, c1, c2, c3, c4, c5⟩ := fill_proj hp2 h hv hg users (pw := pw) (sw := sw) b4
    (fun a ha i => by
      rw [b6 a (fun e he heq => hsectwo e he (heq ▸ ha)) i,
        a3 a (fun e he hm => hsecinf e he a hm ha) i]
      exact hsz a (hsecge a ha) i) hsw1 hon hproj
  have hsw2 : ∀ a < w0, ∀ i, cell sw2 a i = cell sw a i := fun a ha i => by
    rw [c3 a (fun hm => by have := hsecge a hm; omega) i, hsw1 a ha i]
  have hrow2 : ∀ a < w0, sw2.getD a [] = sw.getD a [] := fun a ha =>
    row_ext c2 (by omega) (hs.row (by omega)).1 (fun i _ => hsw2 a ha i)
  refine ⟨sw2, c1, c2, c3, ?_, ?_, ?_⟩
  · intro c hc i hi
    cases h.arith c hc with
    | user ho =>
      rw [onRow_congr (hv _ ho) (fun x hx => b5 x hx i) (fun x hx => hsw2 x hx i)]
      exact hon _ ho i hi
    | @inf0 w ho =>
      have h2 := ((hon _ ho).2 i hi).1
      simp only [Int.toNat_zero, Nat.cast_zero, abs_nonpos_iff, ZMod.valMinAbs_eq_zero] at h2
      unfold Constraint.onRow
      rw [value_addTerm]
      have h3 : rowOf sw2 i w = 0 := by rw [rowOf_cell, hsw2 w (hv _ ho)]; exact h2
      simp [Constraint.value, Term.value, h3]
    | @inf1 w ho =>
      have h2 := ((hon _ ho).2 i hi).1
      refine zero_ternary (rowOf sw i w).valMinAbs ?_ ?_
      · rw [abs_le] at h2; simp at h2; omega
      · rw [rowOf_cell, hsw2 w (hv _ ho), ← rowOf_cell]; simp
    | @infT e d he hdm =>
      obtain ⟨o1, o2, base, o3, o4⟩ := h.inf e he
      obtain ⟨q1, q2⟩ := (hon _ o1).2 i hi
      rw [Int.toNat_natCast] at q1 q2
      refine (a4 e he base o3 i hi q1 (fun ⟨k, hk⟩ => q2 ⟨k, ?_, hk⟩) pw' sw2 ?_ ?_).1 d hdm
      · by_contra hk0
        rw [show k = 0 by omega] at hk
        omega
      · intro d' hd'
        rw [c3 d' (hsecinf e he d' hd') i, b6 d' (fun f hf => hd.infTwo e he d' hd' f hf) i]
      · exact hsw2 e.id (hv _ o1) i
    | @infD e base he hb =>
      obtain ⟨o1, o2, -⟩ := h.inf e he
      obtain ⟨q1, q2⟩ := (hon _ o1).2 i hi
      rw [Int.toNat_natCast] at q1 q2
      refine (a4 e he base hb i hi q1 (fun ⟨k, hk⟩ => q2 ⟨k, ?_, hk⟩) pw' sw2 ?_ ?_).2
      · by_contra hk0
        rw [show k = 0 by omega] at hk
        omega
      · intro d' hd'
        rw [c3 d' (hsecinf e he d' hd') i, b6 d' (fun f hf => hd.infTwo e he d' hd' f hf) i]
      · exact hsw2 e.id (hv _ o1) i
    | @bin e he =>
      obtain ⟨o1, -⟩ := h.two e he
      obtain ⟨q1, q2, q3, q4, q5⟩ := hon _ o1
      have hsum : ∑ i ∈ range N, cell s1 e.id i ^ 2 = ∑ i ∈ range N, rowOf sw i e.id ^ 2 :=
        sum_congr rfl (fun i _ => by rw [hs1 e.id (hv _ o1) i, rowOf_cell])
      refine (b7 e he q2 ?_ ?_ sw2 ?_ ?_).1 i
      · rw [hsum]
        have q4' := q4
        rw [Nat.abs_cast] at q4'
        exact_mod_cast q4'
      · rw [hsum]
        rintro ⟨k, hk⟩ heq
        refine q5 ⟨k, ?_, hk⟩ (by rw [heq]; simp)
        by_contra hk0
        rw [show k = 0 by omega] at hk
        omega
      · exact fun i => c3 _ (hsectwo e he) i
      · exact fun i => by rw [hsw2 e.id (hv _ o1) i, hs1 e.id (hv _ o1) i]
  · intro c hc
    cases h.sums c hc with
    | @user _ s ho =>
      obtain ⟨q1, q2⟩ := hon _ ho
      rw [← q2]
      exact sum_congr rfl (fun i _ =>
        onRow_congr (hv _ ho) (fun x hx => b5 x hx i) (fun x hx => hsw2 x hx i))
    | @dc e he =>
      obtain ⟨o1, -⟩ := h.two e he
      obtain ⟨q1, q2, q3, q4, q5⟩ := hon _ o1
      have hsum : ∑ i ∈ range N, cell s1 e.id i ^ 2 = ∑ i ∈ range N, rowOf sw i e.id ^ 2 :=
        sum_congr rfl (fun i _ => by rw [hs1 e.id (hv _ o1) i, rowOf_cell])
      refine (b7 e he q2 ?_ ?_ sw2 ?_ ?_).2
      · rw [hsum]
        have q4' := q4
        rw [Nat.abs_cast] at q4'
        exact_mod_cast q4'
      · rw [hsum]
        rintro ⟨k, hk⟩ heq
        refine q5 ⟨k, ?_, hk⟩ (by rw [heq]; simp)
        by_contra hk0
        rw [show k = 0 by omega] at hk
        omega
      · exact fun i => c3 _ (hsectwo e he) i
      · exact fun i => by rw [hsw2 e.id (hv _ o1) i, hs1 e.id (hv _ o1) i]
  · intro e he x hx
    have hl := h.lin e he x hx
    generalize he1 : e.1 = key at hl
    cases hl with
    | @user o i n ho =>
      obtain ⟨v1, v2⟩ := hv _ ho
      refine ⟨users n, rfl, ?_⟩
      simp only
      rw [hrow2 i v2, hrow2 o v1]
      exact hon _ ho
    | @proj f hf => exact ⟨_, rfl, c4 f hf⟩
    | @recomp f hf => exact c5 f hf

end


end Ringo
