import Verif.Model.Context
import Verif.Spec.Piop
import Verif.Props.Digits
import Verif.Proof.PolyOps

/-!
# Invariants of the context
-/

namespace Ringo

open Finset

section
variable {F : Type}

theorem lt_two_pow_bitLen (m : Nat) : m < 2 ^ bitLen m := by
  unfold bitLen
  split
  · subst_vars; simp
  · exact Nat.lt_log2_self

theorem Context.embRank_ge (ctx : Context F) (h : max ctx.arithCheckMaxRank ctx.sumCheckMaxRank ≠ 0) :
    max ctx.arithCheckMaxRank ctx.sumCheckMaxRank ≤ ctx.embRank := by
  unfold Context.embRank
  simp only [if_neg h]
  have := lt_two_pow_bitLen (max ctx.arithCheckMaxRank ctx.sumCheckMaxRank - 1)
  generalize 2 ^ bitLen (max ctx.arithCheckMaxRank ctx.sumCheckMaxRank - 1) = z at this ⊢
  omega

theorem Context.embRank_pow (ctx : Context F) (h : max ctx.arithCheckMaxRank ctx.sumCheckMaxRank ≠ 0) :
    ∃ k, ctx.embRank = 2 ^ k := by
  unfold Context.embRank
  simp only [if_neg h]
  exact ⟨_, rfl⟩

/-- The facts about a context that hold after every call. -/
structure CtxInv (N pw0 w0 : Nat) (ctx : Context F) : Prop where
  rank : ctx.rank = N
  pw : pw0 ≤ ctx.pwCnt
  w : w0 ≤ ctx.wCnt
  arithMax : ∀ c ∈ ctx.arith, c.maxRank N ≤ ctx.arithCheckMaxRank
  sumMax : ∀ c ∈ ctx.sums, c.maxRank N ≤ ctx.sumCheckMaxRank
  linMax : ctx.lin ≠ [] → 2 * N - 1 ≤ ctx.arithCheckMaxRank
  linNe : ∀ e ∈ ctx.lin, e.2 ≠ []

theorem linAppend_ne (key : CheckerKey) (x : Nat × Nat) (l : List (CheckerKey × List (Nat × Nat)))
    (h : ∀ e ∈ l, e.2 ≠ []) : ∀ e ∈ Context.linAppend key x l, e.2 ≠ [] := by
  induction l with
  | nil => simp [Context.linAppend]
  | cons a l ih =>
    obtain ⟨k, xs⟩ := a
    unfold Context.linAppend
    split
    · intro e he
      rcases List.mem_cons.mp he with rfl | he
      · simp
      · exact h e (by simp [he])
    · intro e he
      rcases List.mem_cons.mp he with rfl | he
      · exact h _ (by simp)
      · exact ih (fun e he => h e (by simp [he])) e he

theorem CtxInv.new (rank ty pw0 w0 : Nat) : CtxInv rank pw0 w0 (newContext F rank ty pw0 w0) :=
  ⟨rfl, le_rfl, le_rfl, by simp [newContext], by simp [newContext], by simp [newContext],
    by simp [newContext]⟩

theorem CtxInv.addArith {rank pw0 w0 : Nat} {ctx : Context F} (h : CtxInv rank pw0 w0 ctx)
    (c : Constraint F) : CtxInv rank pw0 w0 (ctx.addArith c) := by
  refine ⟨h.rank, h.pw, h.w, ?_, h.sumMax, ?_, h.linNe⟩
  · intro d hd
    simp only [Context.addArith, List.mem_append, List.mem_singleton] at hd ⊢
    rcases hd with hd | rfl
    · exact le_trans (h.arithMax d hd) (le_max_left _ _)
    · rw [h.rank]; exact le_max_right _ _
  · intro hl
    exact le_trans (h.linMax hl) (le_max_left _ _)

theorem CtxInv.addSum {rank pw0 w0 : Nat} {ctx : Context F} (h : CtxInv rank pw0 w0 ctx)
    (c : Constraint F) (s : Int) : CtxInv rank pw0 w0 (ctx.addSum c s) := by
  refine ⟨h.rank, h.pw, h.w, h.arithMax, ?_, h.linMax, h.linNe⟩
  intro d hd
  simp only [Context.addSum, List.mem_append, List.mem_singleton] at hd ⊢
  rcases hd with hd | rfl
  · exact le_trans (h.sumMax d hd) (le_max_left _ _)
  · rw [h.rank]; exact le_max_right _ _

theorem CtxInv.addLin {rank pw0 w0 : Nat} {ctx : Context F} (h : CtxInv rank pw0 w0 ctx)
    (o i : Nat) (k : CheckerKey) : CtxInv rank pw0 w0 (ctx.addLin o i k) := by
  have hle : ctx.arithCheckMaxRank ≤ (ctx.addLin o i k).arithCheckMaxRank ∧
      2 * rank - 1 ≤ (ctx.addLin o i k).arithCheckMaxRank := by
    simp only [Context.addLin, h.rank]
    split_ifs <;> omega
  exact ⟨h.rank, h.pw, h.w, fun c hc => le_trans (h.arithMax c hc) hle.1, h.sumMax,
    fun _ => hle.2, linAppend_ne k (o, i) _ h.linNe⟩

section
variable [One F] [Neg F] [NatCast F]

omit [One F] [Neg F] [NatCast F] in
theorem CtxInv.foldArith {rank pw0 w0 : Nat} {α : Type} (f : α → Constraint F) (l : List α) :
    ∀ {ctx : Context F}, CtxInv rank pw0 w0 ctx →
      CtxInv rank pw0 w0 (l.foldl (fun ctx d => ctx.addArith (f d)) ctx) := by
  induction l with
  | nil => intro ctx h; exact h
  | cons a l ih => intro ctx h; exact ih (h.addArith _)

theorem CtxInv.apply {rank pw0 w0 : Nat} {ctx ctx' : Context F} (h : CtxInv rank pw0 w0 ctx)
    (op : CtxOp F) (ho : ctx.apply op = .ok ctx') : CtxInv rank pw0 w0 ctx' := by
  cases op with
  | arith c => cases ho; exact h.addArith c
  | sum c s => cases ho; exact h.addSum c s
  | lin o i n => cases ho; exact h.addLin o i _
  | inf w b =>
    simp only [Context.apply, Context.addInf] at ho
    split_ifs at ho
    · cases ho; exact h
    · cases ho; exact h.addArith _
    · cases ho; exact h.addArith _
    · cases hb : decomposeBase b.toNat with
      | error e => rw [hb] at ho; cases ho
      | ok base =>
        rw [hb] at ho; cases ho
        refine CtxInv.addArith (CtxInv.foldArith _ _ ?_) _
        exact ⟨h.rank, h.pw, le_trans h.w (Nat.le_add_right _ _), h.arithMax, h.sumMax, h.linMax, h.linNe⟩
  | sq w b =>
    cases ho
    refine CtxInv.addSum (CtxInv.addArith ?_ _) _ _
    exact ⟨h.rank, le_trans h.pw (Nat.le_add_right _ _), le_trans h.w (Nat.le_add_right _ _),
      h.arithMax, h.sumMax, h.linMax, h.linNe⟩
  | approx w b =>
    simp only [Context.apply, Context.addApprox] at ho
    obtain ⟨base, hb, ho⟩ := bind_ok_inv ho
    cases ho
    have h1 : CtxInv rank pw0 w0 ({ ctx with hasProj := true, wCnt := ctx.wCnt + 1 } : Context F) :=
      ⟨h.rank, h.pw, le_trans h.w (Nat.le_add_right _ _), h.arithMax, h.sumMax, h.linMax, h.linNe⟩
    have h2 := h1.addLin ctx.wCnt w .proj
    have h3 : CtxInv rank pw0 w0
        ({ ({ ctx with hasProj := true, wCnt := ctx.wCnt + 1 } : Context F).addLin ctx.wCnt w .proj with
          wCnt := ctx.wCnt + 2 } : Context F) :=
      ⟨h2.rank, h2.pw, le_trans h.w (Nat.le_add_right _ _), h2.arithMax, h2.sumMax, h2.linMax, h2.linNe⟩
    have h4 := h3.addLin ctx.wCnt (ctx.wCnt + 1) (.recomp ctx.wCnt (ctx.rank * b))
    exact ⟨h4.rank, h4.pw, h4.w, h4.arithMax, h4.sumMax, h4.linMax, h4.linNe⟩

theorem CtxInv.define {rank pw0 w0 : Nat} (ops : List (CtxOp F)) :
    ∀ {ctx ctx' : Context F}, CtxInv rank pw0 w0 ctx → ctx.define ops = .ok ctx' →
      CtxInv rank pw0 w0 ctx' := by
  induction ops with
  | nil => intro ctx ctx' h ho; cases ho; exact h
  | cons op ops ih =>
    intro ctx ctx' h ho
    unfold Context.define at ho
    rw [List.foldlM_cons] at ho
    obtain ⟨c1, h1, h2⟩ := bind_ok_inv ho
    exact ih (h.apply op h1) h2

/-! ## Every mentioned witness exists -/

/-- The constraints collected so far mention existing slots only. -/
structure CtxRefs (pw0 w0 : Nat) (ctx : Context F) : Prop where
  pw : pw0 ≤ ctx.pwCnt
  w : w0 ≤ ctx.wCnt
  arith : ∀ c ∈ ctx.arith, c.Refs ctx.pwCnt ctx.wCnt
  sums : ∀ c ∈ ctx.sums, c.Refs ctx.pwCnt ctx.wCnt
  lin : ∀ e ∈ ctx.lin, ∀ x ∈ e.2, x.1 < ctx.wCnt ∧ x.2 < ctx.wCnt

omit [One F] [Neg F] [NatCast F] in
theorem Constraint.Refs.mono {c : Constraint F} {a b a' b' : Nat} (h : c.Refs a b) (ha : a ≤ a')
    (hb : b ≤ b') : c.Refs a' b' := fun t ht =>
  ⟨fun i hi => lt_of_lt_of_le ((h t ht).1 i hi) ha, fun j hj => lt_of_lt_of_le ((h t ht).2 j hj) hb⟩

omit [One F] [Neg F] [NatCast F] in
theorem CtxRefs.grow {pw0 w0 : Nat} {ctx : Context F} (h : CtxRefs pw0 w0 ctx) (ctx' : Context F)
    (h1 : ctx.pwCnt ≤ ctx'.pwCnt) (h2 : ctx.wCnt ≤ ctx'.wCnt) (h3 : ctx'.arith = ctx.arith)
    (h4 : ctx'.sums = ctx.sums) (h5 : ctx'.lin = ctx.lin) : CtxRefs pw0 w0 ctx' := by
  refine ⟨le_trans h.pw h1, le_trans h.w h2, ?_, ?_, ?_⟩
  · rw [h3]; exact fun c hc => (h.arith c hc).mono h1 h2
  · rw [h4]; exact fun c hc => (h.sums c hc).mono h1 h2
  · rw [h5]; intro e he x hx; have := h.lin e he x hx; omega

omit [One F] [Neg F] [NatCast F] in
theorem CtxRefs.addArith {pw0 w0 : Nat} {ctx : Context F} (h : CtxRefs pw0 w0 ctx)
    {c : Constraint F} (hc : c.Refs ctx.pwCnt ctx.wCnt) : CtxRefs pw0 w0 (ctx.addArith c) := by
  refine ⟨h.pw, h.w, ?_, h.sums, h.lin⟩
  intro d hd
  simp only [Context.addArith, List.mem_append, List.mem_singleton] at hd ⊢
  rcases hd with hd | rfl
  · exact h.arith d hd
  · exact hc

omit [One F] [Neg F] [NatCast F] in
theorem CtxRefs.addSum {pw0 w0 : Nat} {ctx : Context F} (h : CtxRefs pw0 w0 ctx)
    {c : Constraint F} (hc : c.Refs ctx.pwCnt ctx.wCnt) (s : Int) :
    CtxRefs pw0 w0 (ctx.addSum c s) := by
  refine ⟨h.pw, h.w, h.arith, ?_, h.lin⟩
  intro d hd
  simp only [Context.addSum, List.mem_append, List.mem_singleton] at hd ⊢
  rcases hd with hd | rfl
  · exact h.sums d hd
  · exact hc

omit [One F] [Neg F] [NatCast F] in
theorem linAppend_mem (key : CheckerKey) (x : Nat × Nat) (l : List (CheckerKey × List (Nat × Nat)))
    (P : Nat × Nat → Prop) (hx : P x) (h : ∀ e ∈ l, ∀ y ∈ e.2, P y) :
    ∀ e ∈ Context.linAppend key x l, ∀ y ∈ e.2, P y := by
  induction l with
  | nil => simp only [Context.linAppend, List.mem_singleton, forall_eq]; exact hx
  | cons a l ih =>
    obtain ⟨k, xs⟩ := a
    unfold Context.linAppend
    split
    · intro e he y hy
      rcases List.mem_cons.mp he with rfl | he
      · simp only [List.mem_append, List.mem_singleton] at hy
        rcases hy with hy | rfl
        · exact h (k, xs) (by simp) y hy
        · exact hx
      · exact h e (by simp [he]) y hy
    · intro e he y hy
      rcases List.mem_cons.mp he with rfl | he
      · exact h _ (by simp) y hy
      · exact ih (fun e he => h e (by simp [he])) e he y hy

omit [One F] [Neg F] [NatCast F] in
theorem CtxRefs.addLin {pw0 w0 : Nat} {ctx : Context F} (h : CtxRefs pw0 w0 ctx)
    {o i : Nat} (k : CheckerKey) (ho : o < ctx.wCnt) (hi : i < ctx.wCnt) :
    CtxRefs pw0 w0 (ctx.addLin o i k) :=
  ⟨h.pw, h.w, h.arith, h.sums,
    linAppend_mem k (o, i) ctx.lin (fun x => x.1 < ctx.wCnt ∧ x.2 < ctx.wCnt) ⟨ho, hi⟩ h.lin⟩

omit [NatCast F] in
theorem ternary_refs {w a b : Nat} (h : w < b) : (Context.ternary w : Constraint F).Refs a b := by
  intro t ht
  simp only [Context.ternary, Constraint.addTermWithConst, List.nil_append, List.cons_append,
    List.mem_cons, List.not_mem_nil, or_false] at ht
  rcases ht with rfl | rfl <;> simp [h]

theorem infDcmp_refs {w a b : Nat} (h : w < b) (base dcmp : List Nat) (hd : ∀ d ∈ dcmp, d < b) :
    (Context.infDcmpConstraint w base dcmp : Constraint F).Refs a b := by
  unfold Context.infDcmpConstraint
  have main : ∀ (l : List (Nat × Nat)) (c : Constraint F), (∀ x ∈ l, x.2 < b) → c.Refs a b →
      (l.foldl (fun c bd => c.addTermWithConst (-(bd.1 : F)) none [bd.2]) c).Refs a b := by
    intro l
    induction l with
    | nil => intro c _ hc; exact hc
    | cons x l ih =>
      intro c hl hc
      refine ih _ (fun y hy => hl y (by simp [hy])) ?_
      intro t ht
      simp only [Constraint.addTermWithConst, List.mem_append, List.mem_singleton] at ht
      rcases ht with ht | rfl
      · exact hc t ht
      · simpa using hl x (by simp)
  apply main
  · intro x hx
    exact hd x.2 (List.of_mem_zip (a := x.1) (b := x.2) hx).2
  · intro t ht
    simp only [Constraint.addTermWithConst, List.nil_append, List.mem_singleton] at ht
    subst ht; simpa using h

omit [NatCast F] in
theorem CtxRefs.foldTernary {pw0 w0 : Nat} (l : List Nat) :
    ∀ {ctx : Context F}, CtxRefs pw0 w0 ctx → (∀ d ∈ l, d < ctx.wCnt) →
      CtxRefs pw0 w0 (l.foldl (fun ctx d => ctx.addArith (Context.ternary d)) ctx) ∧
      (l.foldl (fun ctx d => ctx.addArith (Context.ternary d)) ctx).wCnt = ctx.wCnt ∧
      (l.foldl (fun ctx d => ctx.addArith (Context.ternary d)) ctx).pwCnt = ctx.pwCnt := by
  induction l with
  | nil => intro ctx h _; exact ⟨h, rfl, rfl⟩
  | cons a l ih =>
    intro ctx h hl
    exact ih (h.addArith (ternary_refs (hl a (by simp)))) (fun d hd => hl d (by simp [hd]))

theorem CtxRefs.apply {pw0 w0 : Nat} {ctx ctx' : Context F} (h : CtxRefs pw0 w0 ctx)
    (op : CtxOp F) (hv : op.Valid pw0 w0) (ho : ctx.apply op = .ok ctx') :
    CtxRefs pw0 w0 ctx' := by
  have hp := h.pw
  have hw := h.w
  cases op with
  | arith c => cases ho; exact h.addArith (Constraint.Refs.mono hv hp hw)
  | sum c s => cases ho; exact h.addSum (Constraint.Refs.mono hv hp hw) s
  | lin o i n =>
    cases ho
    exact h.addLin _ (lt_of_lt_of_le hv.1 hw) (lt_of_lt_of_le hv.2 hw)
  | inf w b =>
    have hwl : w < ctx.wCnt := lt_of_lt_of_le hv hw
    simp only [Context.apply, Context.addInf] at ho
    split_ifs at ho
    · cases ho; exact h
    · cases ho
      refine h.addArith ?_
      intro t ht
      simp only [Constraint.addTermWithConst, List.nil_append, List.mem_singleton] at ht
      subst ht; simpa using hwl
    · cases ho; exact h.addArith (ternary_refs hwl)
    · cases hb : decomposeBase b.toNat with
      | error e => rw [hb] at ho; cases ho
      | ok base =>
        rw [hb] at ho; cases ho
        have hd : ∀ d ∈ (List.range base.length).map (ctx.wCnt + ·), d < ctx.wCnt + base.length := by
          intro d hd
          simp only [List.mem_map, List.mem_range] at hd
          obtain ⟨k, hk, rfl⟩ := hd
          omega
        have h1 := h.grow ({ ctx with
          infDcmp := ctx.infDcmp.filter (fun (e : InfEntry) => e.id ≠ w) ++
            [⟨w, b.toNat, (List.range base.length).map (ctx.wCnt + ·)⟩]
          wCnt := ctx.wCnt + base.length } : Context F) le_rfl (Nat.le_add_right _ _) rfl rfl rfl
        obtain ⟨h2, h3, h4⟩ := h1.foldTernary _ hd
        refine h2.addArith ?_
        rw [h3, h4]
        exact infDcmp_refs (by simp only; omega) _ _ hd
  | sq w b =>
    cases ho
    have hwl : w < ctx.wCnt := lt_of_lt_of_le hv hw
    have h1 := h.grow ({ ctx with
      wCnt := ctx.wCnt + 1
      pwCnt := ctx.pwCnt + 2
      twoDcmp := ctx.twoDcmp.filter (fun (e : TwoEntry) => e.id ≠ w) ++
        [⟨w, b, ctx.pwCnt, ctx.pwCnt + 1, ctx.wCnt⟩] } : Context F) (Nat.le_add_right _ _)
        (Nat.le_add_right _ _) rfl rfl rfl
    refine CtxRefs.addSum (CtxRefs.addArith h1 ?_) ?_ _
    · intro t ht
      simp only [Constraint.addTermWithConst, List.nil_append, List.cons_append,
        List.mem_cons, List.not_mem_nil, or_false] at ht
      rcases ht with rfl | rfl <;> simp
    · intro t ht
      simp only [Constraint.addTermWithConst, List.nil_append, List.cons_append,
        List.mem_cons, List.not_mem_nil, or_false] at ht
      rcases ht with rfl | rfl
      · simp only [Context.addArith]
        refine ⟨by simp, ?_⟩
        intro j hj
        simp only [List.mem_cons, List.not_mem_nil, or_false, or_self] at hj
        omega
      · simp [Context.addArith]
  | approx w b =>
    have hwl : w < ctx.wCnt := lt_of_lt_of_le hv hw
    simp only [Context.apply, Context.addApprox] at ho
    obtain ⟨base, hb, ho⟩ := bind_ok_inv ho
    cases ho
    have h1 := h.grow ({ ctx with hasProj := true, wCnt := ctx.wCnt + 1 } : Context F)
      le_rfl (Nat.le_add_right _ _) rfl rfl rfl
    have h2 := h1.addLin (o := ctx.wCnt) (i := w) .proj (by simp) (by simp only; omega)
    have h3 := h2.grow ({ ({ ctx with hasProj := true, wCnt := ctx.wCnt + 1 } : Context F).addLin
      ctx.wCnt w .proj with wCnt := ctx.wCnt + 2 } : Context F) le_rfl
      (by simp [Context.addLin]) rfl rfl rfl
    have h4 := h3.addLin (o := ctx.wCnt) (i := ctx.wCnt + 1) (.recomp ctx.wCnt (ctx.rank * b))
      (by simp) (by simp)
    exact ⟨h4.pw, h4.w, h4.arith, h4.sums, h4.lin⟩

theorem CtxRefs.define {pw0 w0 : Nat} (ops : List (CtxOp F)) (hv : ∀ op ∈ ops, op.Valid pw0 w0) :
    ∀ {ctx ctx' : Context F}, CtxRefs pw0 w0 ctx → ctx.define ops = .ok ctx' →
      CtxRefs pw0 w0 ctx' := by
  induction ops with
  | nil => intro ctx ctx' h ho; cases ho; exact h
  | cons op ops ih =>
    intro ctx ctx' h ho
    unfold Context.define at ho
    rw [List.foldlM_cons] at ho
    obtain ⟨c1, h1, h2⟩ := bind_ok_inv ho
    exact ih (fun o ho => hv o (by simp [ho])) (h.apply op (hv op (by simp)) h1) h2

end

end

end Ringo
