import Verif.Props.Norm

/-!
# Where the constraints of a context come from
-/

namespace Ringo

open Finset

section
variable {p : Nat} [Fact p.Prime]

/-- The witness a call constrains the infinity norm of with digits. -/
def CtxOp.infId {F : Type} : CtxOp F → Option Nat
  | .inf w b => if 2 ≤ b then some w else none
  | _ => none

/-- The witness a call constrains the two-norm of. -/
def CtxOp.sqId {F : Type} : CtxOp F → Option Nat
  | .sq w _ => some w
  | _ => none

/-- The witness a call constrains the infinity norm of approximately. -/
def CtxOp.approxId {F : Type} : CtxOp F → Option Nat
  | .approx w _ => some w
  | _ => none

inductive ArithFrom (ops : List (CtxOp (ZMod p))) (ctx : Context (ZMod p)) : Constraint (ZMod p) → Prop
  | user {c} (h : CtxOp.arith c ∈ ops) : ArithFrom ops ctx c
  | inf0 {w} (h : CtxOp.inf w 0 ∈ ops) : ArithFrom ops ctx (Constraint.addTermWithConst [] 1 none [w])
  | inf1 {w} (h : CtxOp.inf w 1 ∈ ops) : ArithFrom ops ctx (Context.ternary w)
  | infT {e d} (h : e ∈ ctx.infDcmp) (hd : d ∈ e.dcmp) : ArithFrom ops ctx (Context.ternary d)
  | infD {e base} (h : e ∈ ctx.infDcmp) (hb : decomposeBase e.bound = .ok base) :
      ArithFrom ops ctx (Context.infDcmpConstraint e.id base e.dcmp)
  | bin {e} (h : e ∈ ctx.twoDcmp) : ArithFrom ops ctx (sqBin e)

inductive SumFrom (ops : List (CtxOp (ZMod p))) (ctx : Context (ZMod p)) : Constraint (ZMod p) → Prop
  | user {c s} (h : CtxOp.sum c s ∈ ops) : SumFrom ops ctx c
  | dc {e} (h : e ∈ ctx.twoDcmp) : SumFrom ops ctx (sqSum e)

inductive LinFrom (ops : List (CtxOp (ZMod p))) (ctx : Context (ZMod p)) :
    CheckerKey → Nat × Nat → Prop
  | user {o i n} (h : CtxOp.lin o i n ∈ ops) : LinFrom ops ctx (.user n) (o, i)
  | proj {e} (h : e ∈ ctx.projWit) : LinFrom ops ctx .proj (e.proj, e.id)
  | recomp {e} (h : e ∈ ctx.projInf) : LinFrom ops ctx (.recomp e.id e.bound) (e.id, e.dcmp)

/-- The secret slots allocated by norm constraints. -/
def alloc (ctx : Context (ZMod p)) : List Nat :=
  ctx.infDcmp.flatMap (·.dcmp) ++ ctx.twoDcmp.map (·.dcmp) ++ ctx.projWit.map (·.proj) ++
    ctx.projInf.map (·.dcmp)

structure Prov (N pw0 w0 : Nat) (ops : List (CtxOp (ZMod p))) (ctx : Context (ZMod p)) : Prop where
  rank : ctx.rank = N
  pwLe : pw0 ≤ ctx.pwCnt
  wLe : w0 ≤ ctx.wCnt
  arith : ∀ c ∈ ctx.arith, ArithFrom ops ctx c
  sums : ∀ c ∈ ctx.sums, SumFrom ops ctx c
  lin : ∀ e ∈ ctx.lin, ∀ x ∈ e.2, LinFrom ops ctx e.1 x
  inf : ∀ e ∈ ctx.infDcmp, CtxOp.inf e.id e.bound ∈ ops ∧ 2 ≤ e.bound ∧
    ∃ base, decomposeBase e.bound = .ok base ∧ e.dcmp.length = base.length
  two : ∀ e ∈ ctx.twoDcmp, CtxOp.sq e.id e.bound ∈ ops ∧ pw0 ≤ e.base ∧ e.mask = e.base + 1 ∧
    e.mask < ctx.pwCnt
  proj : ∀ e ∈ ctx.projWit, (∃ b, CtxOp.approx e.id b ∈ ops) ∧ e.proj ∈ ctx.wSecond
  projInf : ∀ e ∈ ctx.projInf, (∃ w b, CtxOp.approx w b ∈ ops ∧ e.bound = N * b ∧
    ⟨w, e.id⟩ ∈ ctx.projWit ∧ (∃ base, decomposeBase e.bound = .ok base)) ∧ e.dcmp ∈ ctx.wSecond
  allocNodup : (alloc ctx).Nodup
  allocRange : ∀ a ∈ alloc ctx, w0 ≤ a ∧ a < ctx.wCnt
  second : ctx.wSecond.Perm (ctx.projWit.map (·.proj) ++ ctx.projInf.map (·.dcmp))
  hasProj : ctx.lin ≠ [] → ctx.hasProj = false → ctx.projWit = [] ∧ ctx.projInf = []
  hasProj' : ctx.hasProj = false → ctx.projWit = [] ∧ ctx.projInf = []
  infNodup : (ctx.infDcmp.map (·.id)).Nodup
  twoLen : ctx.twoDcmp.length = (ops.filterMap CtxOp.sqId).length
  sumsLen : List.Forall₂ (fun c s => (CtxOp.sum c s ∈ ops) ∨ ∃ e ∈ ctx.twoDcmp, c = sqSum e ∧ s = 0)
    ctx.sums ctx.sumCheckSums

theorem Prov.new (N ty pw0 w0 : Nat) : Prov N pw0 w0 [] (newContext (ZMod p) N ty pw0 w0) := by
  constructor <;> simp [newContext, alloc, CtxOp.sqId]

theorem ArithFrom.mono {ops ops' : List (CtxOp (ZMod p))} {ctx ctx' : Context (ZMod p)}
    {c : Constraint (ZMod p)} (h : ArithFrom ops ctx c) (ho : ∀ o ∈ ops, o ∈ ops')
    (h1 : ∀ e ∈ ctx.infDcmp, e ∈ ctx'.infDcmp) (h2 : ∀ e ∈ ctx.twoDcmp, e ∈ ctx'.twoDcmp) :
    ArithFrom ops' ctx' c := by
  cases h with
  | user h => exact .user (ho _ h)
  | inf0 h => exact .inf0 (ho _ h)
  | inf1 h => exact .inf1 (ho _ h)
  | infT h hd => exact .infT (h1 _ h) hd
  | infD h hb => exact .infD (h1 _ h) hb
  | bin h => exact .bin (h2 _ h)

theorem SumFrom.mono {ops ops' : List (CtxOp (ZMod p))} {ctx ctx' : Context (ZMod p)}
    {c : Constraint (ZMod p)} (h : SumFrom ops ctx c) (ho : ∀ o ∈ ops, o ∈ ops')
    (h2 : ∀ e ∈ ctx.twoDcmp, e ∈ ctx'.twoDcmp) : SumFrom ops' ctx' c := by
  cases h with
  | user h => exact .user (ho _ h)
  | dc h => exact .dc (h2 _ h)

theorem LinFrom.mono {ops ops' : List (CtxOp (ZMod p))} {ctx ctx' : Context (ZMod p)}
    {k : CheckerKey} {x : Nat × Nat} (h : LinFrom ops ctx k x) (ho : ∀ o ∈ ops, o ∈ ops')
    (h1 : ∀ e ∈ ctx.projWit, e ∈ ctx'.projWit) (h2 : ∀ e ∈ ctx.projInf, e ∈ ctx'.projInf) :
    LinFrom ops' ctx' k x := by
  cases h with
  | user h => exact .user (ho _ h)
  | proj h => exact .proj (h1 _ h)
  | recomp h => exact .recomp (h2 _ h)

theorem linAppend_from (P : CheckerKey → Nat × Nat → Prop) (key : CheckerKey) (x : Nat × Nat)
    (l : List (CheckerKey × List (Nat × Nat))) (hx : P key x) (h : ∀ e ∈ l, ∀ y ∈ e.2, P e.1 y) :
    ∀ e ∈ Context.linAppend key x l, ∀ y ∈ e.2, P e.1 y := by
  induction l with
  | nil => simp only [Context.linAppend, List.mem_singleton, forall_eq]; exact hx
  | cons a l ih =>
    obtain ⟨k, xs⟩ := a
    unfold Context.linAppend
    split_ifs with hk
    · intro e he y hy
      rcases List.mem_cons.mp he with rfl | he
      · simp only [List.mem_append, List.mem_singleton] at hy
        rcases hy with hy | rfl
        · exact h (k, xs) (by simp) y hy
        · rw [hk]; exact hx
      · exact h e (by simp [he]) y hy
    · intro e he y hy
      rcases List.mem_cons.mp he with rfl | he
      · exact h _ (by simp) y hy
      · exact ih (fun e he => h e (by simp [he])) e he y hy

theorem foldTernary_eq (l : List Nat) (c : Context (ZMod p)) : ∃ M,
    l.foldl (fun ctx d => ctx.addArith (Context.ternary d)) c =
      { c with arith := c.arith ++ l.map Context.ternary, arithCheckMaxRank := M } := by
  induction l generalizing c with
  | nil => exact ⟨c.arithCheckMaxRank, by simp⟩
  | cons a l ih =>
    obtain ⟨M, hM⟩ := ih (c.addArith (Context.ternary a))
    refine ⟨M, ?_⟩
    rw [List.foldl_cons, hM]
    simp [Context.addArith]

theorem addInf_eq {ctx ctx' : Context (ZMod p)} {w : Nat} {B : Int} (hB : 2 ≤ B)
    (h : ctx.addInf w B = .ok ctx') (hnew : ∀ e ∈ ctx.infDcmp, e.id ≠ w) :
    ∃ base M, decomposeBase B.toNat = .ok base ∧ ctx' = { ctx with
      arith := ctx.arith ++ (((List.range base.length).map (ctx.wCnt + ·)).map Context.ternary ++
        [Context.infDcmpConstraint w base ((List.range base.length).map (ctx.wCnt + ·))])
      arithCheckMaxRank := M
      infDcmp := ctx.infDcmp ++ [⟨w, B.toNat, (List.range base.length).map (ctx.wCnt + ·)⟩]
      wCnt := ctx.wCnt + base.length } := by
  unfold Context.addInf at h
  rw [if_neg (by omega), if_neg (by omega), if_neg (by omega)] at h
  obtain ⟨base, hb, h⟩ := bind_ok_inv h
  injection h with h
  have hf : ctx.infDcmp.filter (fun (e : InfEntry) => e.id ≠ w) = ctx.infDcmp := by
    rw [List.filter_eq_self]; intro e he; simpa using hnew e he
  rw [hf] at h
  obtain ⟨M, hM⟩ := foldTernary_eq ((List.range base.length).map (ctx.wCnt + ·))
    { ctx with
      infDcmp := ctx.infDcmp ++ [⟨w, B.toNat, (List.range base.length).map (ctx.wCnt + ·)⟩]
      wCnt := ctx.wCnt + base.length }
  rw [hM] at h
  refine ⟨base, ctx'.arithCheckMaxRank, hb, ?_⟩
  rw [← h]
  simp only [Context.addArith, List.append_assoc]

theorem addApprox_eq {ctx ctx' : Context (ZMod p)} {w b : Nat}
    (h : ctx.addApprox w b = .ok ctx') (hnew : ∀ e ∈ ctx.projWit, e.id ≠ w)
    (hnew' : ∀ e ∈ ctx.projInf, e.id ≠ ctx.wCnt) :
    ∃ base M, decomposeBase (ctx.rank * b) = .ok base ∧ ctx' = { ctx with
      hasProj := true
      wCnt := ctx.wCnt + 2
      arithCheckMaxRank := M
      lin := Context.linAppend (.recomp ctx.wCnt (ctx.rank * b)) (ctx.wCnt, ctx.wCnt + 1)
        (Context.linAppend .proj (ctx.wCnt, w) ctx.lin)
      projWit := ctx.projWit ++ [⟨w, ctx.wCnt⟩]
      projInf := ctx.projInf ++ [⟨ctx.wCnt, ctx.rank * b, ctx.wCnt + 1⟩]
      wSecond := ctx.wSecond ++ [ctx.wCnt, ctx.wCnt + 1] } := by
  unfold Context.addApprox at h
  obtain ⟨base, hb, h⟩ := bind_ok_inv h
  injection h with h
  have hf : ctx.projWit.filter (fun (e : ProjEntry) => e.id ≠ w) = ctx.projWit := by
    rw [List.filter_eq_self]; intro e he; simpa using hnew e he
  have hf' : ctx.projInf.filter (fun (e : ProjInfEntry) => e.id ≠ ctx.wCnt) = ctx.projInf := by
    rw [List.filter_eq_self]; intro e he; simpa using hnew' e he
  refine ⟨base, ctx'.arithCheckMaxRank, hb, ?_⟩
  rw [← h]
  simp only [Context.addLin, hf]
  simp only [hf']

theorem alloc_count {ctx ctx' : Context (ZMod p)} (new : List Nat) {w0 : Nat}
    (hn : (alloc ctx).Nodup) (hr : ∀ a ∈ alloc ctx, w0 ≤ a ∧ a < ctx.wCnt) (hw : w0 ≤ ctx.wCnt)
    (hnn : new.Nodup) (hnr : ∀ a ∈ new, ctx.wCnt ≤ a ∧ a < ctx'.wCnt) (hle : ctx.wCnt ≤ ctx'.wCnt)
    (hp : (alloc ctx').Perm (alloc ctx ++ new)) :
    (alloc ctx').Nodup ∧ ∀ a ∈ alloc ctx', w0 ≤ a ∧ a < ctx'.wCnt := by
  constructor
  · rw [hp.nodup_iff, List.nodup_append]
    refine ⟨hn, hnn, ?_⟩
    rintro a ha b hb rfl
    have := (hr a ha).2
    have := (hnr a hb).1
    omega
  · intro a ha
    rw [hp.mem_iff, List.mem_append] at ha
    rcases ha with ha | ha
    · have := hr a ha; omega
    · have := hnr a ha; omega

theorem Prov.apply {N pw0 w0 : Nat} {ops : List (CtxOp (ZMod p))} {ctx ctx' : Context (ZMod p)}
    (h : Prov N pw0 w0 ops ctx) (op : CtxOp (ZMod p)) (hv : op.Valid pw0 w0)
    (h1 : ∀ w, op.infId = some w → ∀ e ∈ ctx.infDcmp, e.id ≠ w)
    (h2 : ∀ w, op.sqId = some w → ∀ e ∈ ctx.twoDcmp, e.id ≠ w)
    (h3 : ∀ w, op.approxId = some w → ∀ e ∈ ctx.projWit, e.id ≠ w)
    (ho : ctx.apply op = .ok ctx') : Prov N pw0 w0 (ops ++ [op]) ctx' := by
  have hin : ∀ o ∈ ops, o ∈ ops ++ [op] := fun o ho => List.mem_append_left _ ho
  have hop : op ∈ ops ++ [op] := by simp
  cases op with
  | arith c =>
    cases ho
    refine ⟨h.rank, h.pwLe, h.wLe, ?_, fun c hc => (h.sums c hc).mono hin (fun _ h => h),
      fun e he x hx => (h.lin e he x hx).mono hin (fun _ h => h) (fun _ h => h), ?_, ?_, ?_, ?_,
      h.allocNodup, h.allocRange, h.second, h.hasProj, h.hasProj', h.infNodup, ?_, ?_⟩
    · intro d hd
      rcases List.mem_append.mp hd with hd | hd
      · exact (h.arith d hd).mono hin (fun _ h => h) (fun _ h => h)
      · rw [List.mem_singleton] at hd; subst hd; exact .user hop
    · exact fun e he => ⟨hin _ (h.inf e he).1, (h.inf e he).2⟩
    · exact fun e he => ⟨hin _ (h.two e he).1, (h.two e he).2⟩
    · exact fun e he => ⟨⟨_, hin _ (h.proj e he).1.choose_spec⟩, (h.proj e he).2⟩
    · intro e he
      obtain ⟨⟨w, b, a1, a2⟩, a3⟩ := h.projInf e he
      exact ⟨⟨w, b, hin _ a1, a2⟩, a3⟩
    · rw [List.filterMap_append]; simp [CtxOp.sqId]; exact h.twoLen
    · exact h.sumsLen.imp (fun c s hcs => hcs.imp (hin _) id)
  | sum c s =>
    cases ho
    refine ⟨h.rank, h.pwLe, h.wLe, fun c hc => (h.arith c hc).mono hin (fun _ h => h) (fun _ h => h), ?_,
      fun e he x hx => (h.lin e he x hx).mono hin (fun _ h => h) (fun _ h => h), ?_, ?_, ?_, ?_,
      h.allocNodup, h.allocRange, h.second, h.hasProj, h.hasProj', h.infNodup, ?_, ?_⟩
    · intro d hd
      rcases List.mem_append.mp hd with hd | hd
      · exact (h.sums d hd).mono hin (fun _ h => h)
      · rw [List.mem_singleton] at hd; subst hd; exact .user hop
    · exact fun e he => ⟨hin _ (h.inf e he).1, (h.inf e he).2⟩
    · exact fun e he => ⟨hin _ (h.two e he).1, (h.two e he).2⟩
    · exact fun e he => ⟨⟨_, hin _ (h.proj e he).1.choose_spec⟩, (h.proj e he).2⟩
    · intro e he
      obtain ⟨⟨w, b, a1, a2⟩, a3⟩ := h.projInf e he
      exact ⟨⟨w, b, hin _ a1, a2⟩, a3⟩
    · rw [List.filterMap_append]; simp [CtxOp.sqId]; exact h.twoLen
    · exact List.rel_append (h.sumsLen.imp (fun c s hcs => hcs.imp (hin _) id))
        (List.Forall₂.cons (Or.inl hop) .nil)
  | lin o i n =>
    cases ho
    refine ⟨h.rank, h.pwLe, h.wLe, fun c hc => (h.arith c hc).mono hin (fun _ h => h) (fun _ h => h),
      fun c hc => (h.sums c hc).mono hin (fun _ h => h), ?_, ?_, ?_, ?_, ?_,
      h.allocNodup, h.allocRange, h.second, fun _ => h.hasProj', h.hasProj', h.infNodup, ?_, ?_⟩
    · refine linAppend_from _ _ _ _ (.user hop) (fun e he y hy => ?_)
      exact (h.lin e he y hy).mono hin (fun _ h => h) (fun _ h => h)
    · exact fun e he => ⟨hin _ (h.inf e he).1, (h.inf e he).2⟩
    · exact fun e he => ⟨hin _ (h.two e he).1, (h.two e he).2⟩
    · exact fun e he => ⟨⟨_, hin _ (h.proj e he).1.choose_spec⟩, (h.proj e he).2⟩
    · intro e he
      obtain ⟨⟨w, b, a1, a2⟩, a3⟩ := h.projInf e he
      exact ⟨⟨w, b, hin _ a1, a2⟩, a3⟩
    · rw [List.filterMap_append]; simp [CtxOp.sqId]; exact h.twoLen
    · exact h.sumsLen.imp (fun c s hcs => hcs.imp (hin _) id)
  | inf w b =>
    by_cases hb : b < 2
    · -- no digits
      have hgo : ∃ A M, ctx' = { ctx with arith := A, arithCheckMaxRank := M } ∧
          ∀ c ∈ A, c ∈ ctx.arith ∨ ArithFrom (ops ++ [CtxOp.inf w b]) ctx c := by
        simp only [Context.apply, Context.addInf] at ho
        split_ifs at ho with g1 g2 g3
        · cases ho; exact ⟨ctx.arith, ctx.arithCheckMaxRank, rfl, fun c hc => Or.inl hc⟩
        · cases ho
          refine ⟨_, _, rfl, fun c hc => ?_⟩
          rcases List.mem_append.mp hc with hc | hc
          · exact Or.inl hc
          · rw [List.mem_singleton] at hc; subst hc; subst g2; exact Or.inr (.inf0 hop)
        · cases ho
          refine ⟨_, _, rfl, fun c hc => ?_⟩
          rcases List.mem_append.mp hc with hc | hc
          · exact Or.inl hc
          · rw [List.mem_singleton] at hc; subst hc; subst g3; exact Or.inr (.inf1 hop)
        · omega
      obtain ⟨A, M, rfl, hA⟩ := hgo
      refine ⟨h.rank, h.pwLe, h.wLe, ?_, fun c hc => (h.sums c hc).mono hin (fun _ h => h),
        fun e he x hx => (h.lin e he x hx).mono hin (fun _ h => h) (fun _ h => h), ?_, ?_, ?_, ?_,
        h.allocNodup, h.allocRange, h.second, h.hasProj, h.hasProj', h.infNodup, ?_, ?_⟩
      · intro d hd
        rcases hA d hd with hd | hd
        · exact (h.arith d hd).mono hin (fun _ h => h) (fun _ h => h)
        · exact hd.mono (fun _ h => h) (fun _ h => h) (fun _ h => h)
      · exact fun e he => ⟨hin _ (h.inf e he).1, (h.inf e he).2⟩
      · exact fun e he => ⟨hin _ (h.two e he).1, (h.two e he).2⟩
      · exact fun e he => ⟨⟨_, hin _ (h.proj e he).1.choose_spec⟩, (h.proj e he).2⟩
      · intro e he
        obtain ⟨⟨w, b, a1, a2⟩, a3⟩ := h.projInf e he
        exact ⟨⟨w, b, hin _ a1, a2⟩, a3⟩
      · rw [List.filterMap_append]; simp [CtxOp.sqId]; exact h.twoLen
      · exact h.sumsLen.imp (fun c s hcs => hcs.imp (hin _) id)
    · push Not at hb
      have hne := h1 w (by simp [CtxOp.infId, hb])
      obtain ⟨base, M, hbase, rfl⟩ := addInf_eq hb ho hne
      set dcmp := (List.range base.length).map (ctx.wCnt + ·) with hdc
      have hB2 : ((b.toNat : Nat) : Int) = b := Int.toNat_of_nonneg (by omega)
      have hmono : ∀ e ∈ ctx.infDcmp, e ∈ ctx.infDcmp ++ [(⟨w, b.toNat, dcmp⟩ : InfEntry)] :=
        fun e he => List.mem_append_left _ he
      have hal := alloc_count (ctx := ctx)
        (ctx' := { ctx with
          arith := ctx.arith ++ (dcmp.map Context.ternary ++ [Context.infDcmpConstraint w base dcmp])
          arithCheckMaxRank := M
          infDcmp := ctx.infDcmp ++ [⟨w, b.toNat, dcmp⟩]
          wCnt := ctx.wCnt + base.length }) dcmp h.allocNodup h.allocRange h.wLe
        (List.Nodup.map (fun a b h => by simpa using h) List.nodup_range) (by
          intro a ha
          rw [hdc, List.mem_map] at ha
          obtain ⟨k, hk, rfl⟩ := ha
          rw [List.mem_range] at hk
          simp only; omega) (by simp) (by
          unfold alloc
          rw [List.perm_iff_count]
          intro a
          simp only [List.flatMap_append, List.flatMap_singleton, List.count_append]
          omega)
      refine ⟨h.rank, h.pwLe, le_trans h.wLe (Nat.le_add_right _ _), ?_,
        fun c hc => (h.sums c hc).mono hin (fun _ h => h),
        fun e he x hx => (h.lin e he x hx).mono hin (fun _ h => h) (fun _ h => h), ?_, ?_, ?_, ?_,
        hal.1, hal.2, h.second, h.hasProj, h.hasProj', ?_, ?_, ?_⟩
      · intro c hc
        simp only [List.mem_append, List.mem_map, List.mem_singleton] at hc
        rcases hc with hc | ⟨d, hd, rfl⟩ | rfl
        · exact (h.arith c hc).mono hin hmono (fun _ h => h)
        · exact .infT (e := ⟨w, b.toNat, dcmp⟩) (by simp) hd
        · exact .infD (e := ⟨w, b.toNat, dcmp⟩) (by simp) hbase
      · intro e he
        rcases List.mem_append.mp he with he | he
        · exact ⟨hin _ (h.inf e he).1, (h.inf e he).2⟩
        · rw [List.mem_singleton] at he; subst he
          refine ⟨?_, by simp only; omega, base, hbase, by simp [hdc]⟩
          simp only; rw [hB2]; exact hop
      · exact fun e he => ⟨hin _ (h.two e he).1, (h.two e he).2⟩
      · exact fun e he => ⟨⟨_, hin _ (h.proj e he).1.choose_spec⟩, (h.proj e he).2⟩
      · intro e he
        obtain ⟨⟨w, b, a1, a2⟩, a3⟩ := h.projInf e he
        exact ⟨⟨w, b, hin _ a1, a2⟩, a3⟩
      · rw [List.map_append, List.nodup_append]
        refine ⟨h.infNodup, by simp, ?_⟩
        intro a ha b' hb' hab
        simp only [List.map_cons, List.map_nil, List.mem_singleton] at hb'
        obtain ⟨e, he, rfl⟩ := List.mem_map.mp ha
        exact hne e he (by rw [hab, hb'])
      · rw [List.filterMap_append]; simp [CtxOp.sqId]; exact h.twoLen
      · exact h.sumsLen.imp (fun c s hcs => hcs.imp (hin _) id)
  | sq w b =>
    have hne := h2 w rfl
    have hf : ctx.twoDcmp.filter (fun (e : TwoEntry) => e.id ≠ w) = ctx.twoDcmp := by
      rw [List.filter_eq_self]; intro e he; simpa using hne e he
    have ho' : ctx' = ctx.addSq w b := by cases ho; rfl
    subst ho'
    obtain ⟨q1, q2, q3, q4, q5, q6, q7⟩ := addSq_spec ctx w b
    rw [hf] at q4
    have hmono : ∀ e ∈ ctx.twoDcmp, e ∈ (ctx.addSq w b).twoDcmp := by
      rw [q4]; exact fun e he => List.mem_append_left _ he
    have hmem : sqEntry ctx w b ∈ (ctx.addSq w b).twoDcmp := by rw [q4]; simp
    have hal := alloc_count (ctx := ctx) (ctx' := ctx.addSq w b) [ctx.wCnt] h.allocNodup h.allocRange
      h.wLe (by simp) (by rw [q5]; simp) (by rw [q5]; simp) (by
        unfold alloc
        rw [q4, List.perm_iff_count]
        intro a
        simp only [List.map_append, List.map_cons, List.map_nil, List.count_append]
        show List.count a (List.flatMap _ ctx.infDcmp) + _ + List.count a (List.map _ ctx.projWit) +
          List.count a (List.map _ ctx.projInf) = _
        simp only [sqEntry]
        omega)
    refine ⟨h.rank, by rw [q6]; exact le_trans h.pwLe (Nat.le_add_right _ _),
      by rw [q5]; exact le_trans h.wLe (Nat.le_add_right _ _), ?_, ?_,
      fun e he x hx => (h.lin e he x hx).mono hin (fun _ h => h) (fun _ h => h), ?_, ?_, ?_, ?_,
      hal.1, hal.2, h.second, h.hasProj, h.hasProj', h.infNodup, ?_, ?_⟩
    · rw [q1]
      intro c hc
      rcases List.mem_append.mp hc with hc | hc
      · exact (h.arith c hc).mono hin (fun _ h => h) hmono
      · rw [List.mem_singleton] at hc; subst hc; exact .bin hmem
    · rw [q2]
      intro c hc
      rcases List.mem_append.mp hc with hc | hc
      · exact (h.sums c hc).mono hin hmono
      · rw [List.mem_singleton] at hc; subst hc; exact .dc hmem
    · exact fun e he => ⟨hin _ (h.inf e he).1, (h.inf e he).2⟩
    · rw [q4, q6]
      intro e he
      rcases List.mem_append.mp he with he | he
      · obtain ⟨a1, a2, a3, a4⟩ := h.two e he
        exact ⟨hin _ a1, a2, a3, by omega⟩
      · rw [List.mem_singleton] at he; subst he
        exact ⟨hop, h.pwLe, rfl, by simp [sqEntry]⟩
    · exact fun e he => ⟨⟨_, hin _ (h.proj e he).1.choose_spec⟩, (h.proj e he).2⟩
    · intro e he
      obtain ⟨⟨w, b, a1, a2⟩, a3⟩ := h.projInf e he
      exact ⟨⟨w, b, hin _ a1, a2⟩, a3⟩
    · rw [q4, List.filterMap_append]; simp [CtxOp.sqId]; exact h.twoLen
    · rw [q2, q3]
      refine List.rel_append (h.sumsLen.imp (fun c s hcs => hcs.imp (hin _) ?_))
        (List.Forall₂.cons (Or.inr ⟨_, hmem, rfl, rfl⟩) .nil)
      rintro ⟨e, he, r⟩
      exact ⟨e, hmono e he, r⟩
  | approx w b =>
    have hne := h3 w rfl
    have hne' : ∀ e ∈ ctx.projInf, e.id ≠ ctx.wCnt := by
      intro e he heq
      obtain ⟨⟨w', b', -, -, a3, -⟩, -⟩ := h.projInf e he
      have := (h.allocRange e.id (by
        unfold alloc
        simp only [List.mem_append, List.mem_map]
        exact Or.inl (Or.inr ⟨_, a3, rfl⟩))).2
      omega
    obtain ⟨base, M, hbase, rfl⟩ := addApprox_eq ho hne hne'
    have hal := alloc_count (ctx := ctx) (ctx' := { ctx with
      hasProj := true
      wCnt := ctx.wCnt + 2
      arithCheckMaxRank := M
      lin := Context.linAppend (.recomp ctx.wCnt (ctx.rank * b)) (ctx.wCnt, ctx.wCnt + 1)
        (Context.linAppend .proj (ctx.wCnt, w) ctx.lin)
      projWit := ctx.projWit ++ [⟨w, ctx.wCnt⟩]
      projInf := ctx.projInf ++ [⟨ctx.wCnt, ctx.rank * b, ctx.wCnt + 1⟩]
      wSecond := ctx.wSecond ++ [ctx.wCnt, ctx.wCnt + 1] }) [ctx.wCnt, ctx.wCnt + 1] h.allocNodup
      h.allocRange h.wLe (by simp) (by simp) (by simp) (by
        unfold alloc
        rw [List.perm_iff_count]
        intro a
        simp only [List.map_append, List.map_cons, List.map_nil, List.count_append, List.count_cons]
        simp only [List.count_nil]
        omega)
    refine ⟨h.rank, h.pwLe, le_trans h.wLe (Nat.le_add_right _ _),
      fun c hc => (h.arith c hc).mono hin (fun _ h => h) (fun _ h => h),
      fun c hc => (h.sums c hc).mono hin (fun _ h => h), ?_, ?_, ?_, ?_, ?_,
      hal.1, hal.2, ?_, ?_, ?_, h.infNodup, ?_, ?_⟩
    · refine linAppend_from _ _ _ _ ?_ (linAppend_from _ _ _ _ ?_ (fun e he y hy => ?_))
      · exact .recomp (e := ⟨ctx.wCnt, ctx.rank * b, ctx.wCnt + 1⟩) (by simp)
      · exact .proj (e := ⟨w, ctx.wCnt⟩) (by simp)
      · exact (h.lin e he y hy).mono hin (fun _ h => List.mem_append_left _ h)
          (fun _ h => List.mem_append_left _ h)
    · exact fun e he => ⟨hin _ (h.inf e he).1, (h.inf e he).2⟩
    · exact fun e he => ⟨hin _ (h.two e he).1, (h.two e he).2⟩
    · intro e he
      rcases List.mem_append.mp he with he | he
      · exact ⟨⟨_, hin _ (h.proj e he).1.choose_spec⟩, List.mem_append_left _ (h.proj e he).2⟩
      · rw [List.mem_singleton] at he; subst he
        exact ⟨⟨b, hop⟩, by simp⟩
    · intro e he
      rcases List.mem_append.mp he with he | he
      · obtain ⟨⟨w, b, a1, a2, a3, a4⟩, a5⟩ := h.projInf e he
        exact ⟨⟨w, b, hin _ a1, a2, List.mem_append_left _ a3, a4⟩, List.mem_append_left _ a5⟩
      · rw [List.mem_singleton] at he; subst he
        refine ⟨⟨w, b, hop, ?_, by simp, base, hbase⟩, by simp⟩
        simp only; rw [h.rank]
    · have hs := h.second
      rw [List.perm_iff_count] at hs ⊢
      intro a
      have := hs a
      simp only [List.map_append, List.map_cons, List.map_nil, List.count_append, List.count_cons,
        List.count_nil] at this ⊢
      omega
    · intro _ h; simp at h
    · intro h; simp at h
    · rw [List.filterMap_append]; simp [CtxOp.sqId]; exact h.twoLen
    · exact h.sumsLen.imp (fun c s hcs => hcs.imp (hin _) id)

end

end Ringo
