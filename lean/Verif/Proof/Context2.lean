import Verif.Proof.Context

/-!
# More invariants of the context
-/

namespace Ringo

section
variable {F : Type}

/-- Slots of the second round are distinct and exist; the recorded ranks are not too large. -/
structure CtxInv2 (N : Nat) (ctx : Context F) : Prop where
  rank : ctx.rank = N
  nodup : ctx.wSecond.Nodup
  lt : ∀ i ∈ ctx.wSecond, i < ctx.wCnt
  arithUp : ∀ R, (∀ c ∈ ctx.arith, c.maxRank N ≤ R) → (ctx.lin ≠ [] → 2 * N - 1 ≤ R) →
    ctx.arithCheckMaxRank ≤ R
  sumUp : ∀ R, (∀ c ∈ ctx.sums, c.maxRank N ≤ R) → ctx.sumCheckMaxRank ≤ R

theorem linAppend_nonempty (key : CheckerKey) (x : Nat × Nat)
    (l : List (CheckerKey × List (Nat × Nat))) : Context.linAppend key x l ≠ [] := by
  cases l with
  | nil => simp [Context.linAppend]
  | cons a l => unfold Context.linAppend; split <;> simp

theorem CtxInv2.new (rank ty pw0 w0 : Nat) : CtxInv2 rank (newContext F rank ty pw0 w0) :=
  ⟨rfl, by simp [newContext], by simp [newContext], by simp [newContext], by simp [newContext]⟩

theorem CtxInv2.addArith {N : Nat} {ctx : Context F} (h : CtxInv2 N ctx)
    (c : Constraint F) : CtxInv2 N (ctx.addArith c) := by
  refine ⟨h.rank, h.nodup, h.lt, ?_, h.sumUp⟩
  intro R h1 h2
  simp only [Context.addArith, List.mem_append, List.mem_singleton] at h1 h2 ⊢
  refine max_le (h.arithUp R (fun c hc => h1 c (.inl hc)) h2) ?_
  rw [h.rank]; exact h1 c (.inr rfl)

theorem CtxInv2.addSum {N : Nat} {ctx : Context F} (h : CtxInv2 N ctx)
    (c : Constraint F) (s : Int) : CtxInv2 N (ctx.addSum c s) := by
  refine ⟨h.rank, h.nodup, h.lt, h.arithUp, ?_⟩
  intro R h1
  simp only [Context.addSum, List.mem_append, List.mem_singleton] at h1 ⊢
  refine max_le (h.sumUp R (fun c hc => h1 c (.inl hc))) ?_
  rw [h.rank]; exact h1 c (.inr rfl)

theorem CtxInv2.addLin {N : Nat} {ctx : Context F} (h : CtxInv2 N ctx)
    (o i : Nat) (k : CheckerKey) : CtxInv2 N (ctx.addLin o i k) := by
  refine ⟨h.rank, h.nodup, h.lt, ?_, h.sumUp⟩
  intro R h1 h2
  have h3 : 2 * N - 1 ≤ R := h2 (linAppend_nonempty _ _ _)
  have h4 := h.arithUp R h1 (fun _ => h3)
  simp only [Context.addLin, h.rank]
  split_ifs <;> omega

/-- Counting more witnesses. -/
theorem CtxInv2.grow {N : Nat} {ctx : Context F} (h : CtxInv2 N ctx) (ctx' : Context F)
    (h1 : ctx'.rank = ctx.rank) (h2 : ctx'.wSecond = ctx.wSecond) (h3 : ctx.wCnt ≤ ctx'.wCnt)
    (h4 : ctx'.arith = ctx.arith) (h5 : ctx'.lin = ctx.lin) (h6 : ctx'.sums = ctx.sums)
    (h7 : ctx'.arithCheckMaxRank = ctx.arithCheckMaxRank)
    (h8 : ctx'.sumCheckMaxRank = ctx.sumCheckMaxRank) : CtxInv2 N ctx' := by
  refine ⟨h1.trans h.rank, h2 ▸ h.nodup, fun i hi => ?_, ?_, ?_⟩
  · rw [h2] at hi; exact lt_of_lt_of_le (h.lt i hi) h3
  · rw [h4, h5, h7]; exact h.arithUp
  · rw [h6, h8]; exact h.sumUp

theorem CtxInv2.foldArith {N : Nat} {α : Type} (f : α → Constraint F) (l : List α) :
    ∀ {ctx : Context F}, CtxInv2 N ctx →
      CtxInv2 N (l.foldl (fun ctx d => ctx.addArith (f d)) ctx) := by
  induction l with
  | nil => intro ctx h; exact h
  | cons a l ih => intro ctx h; exact ih (h.addArith _)

variable [One F] [Neg F] [NatCast F]

theorem CtxInv2.apply {N : Nat} {ctx ctx' : Context F} (h : CtxInv2 N ctx)
    (op : CtxOp F) (ho : ctx.apply op = .ok ctx') : CtxInv2 N ctx' := by
  cases op with
  | arith c => cases ho; exact h.addArith c
  | sum c s => cases ho; exact h.addSum c s
  | lin o i n => cases ho; exact h.addLin o i _
  | inf w b =>
    simp only [Context.apply, Context.addInf] at ho
    split_ifs at ho
    · cases ho; exact h
    · cases ho; exact h.addArith _
    · cases ho; exact h.addArith _
    · cases hb : decomposeBase b.toNat with
      | error e => rw [hb] at ho; cases ho
      | ok base =>
        rw [hb] at ho; cases ho
        refine CtxInv2.addArith (CtxInv2.foldArith _ _ ?_) _
        exact h.grow _ rfl rfl (Nat.le_add_right _ _) rfl rfl rfl rfl rfl
  | sq w b =>
    cases ho
    refine CtxInv2.addSum (CtxInv2.addArith ?_ _) _ _
    exact h.grow _ rfl rfl (Nat.le_add_right _ _) rfl rfl rfl rfl rfl
  | approx w b =>
    simp only [Context.apply, Context.addApprox] at ho
    obtain ⟨base, hb, ho⟩ := bind_ok_inv ho
    cases ho
    have h1 : CtxInv2 N ({ ctx with hasProj := true, wCnt := ctx.wCnt + 1 } : Context F) :=
      h.grow _ rfl rfl (Nat.le_add_right _ _) rfl rfl rfl rfl rfl
    have h2 := h1.addLin ctx.wCnt w .proj
    have h3 : CtxInv2 N
        ({ ({ ctx with hasProj := true, wCnt := ctx.wCnt + 1 } : Context F).addLin ctx.wCnt w .proj with
          wCnt := ctx.wCnt + 2 } : Context F) :=
      h2.grow _ rfl rfl (Nat.le_succ _) rfl rfl rfl rfl rfl
    have h4 := h3.addLin ctx.wCnt (ctx.wCnt + 1) (.recomp ctx.wCnt (ctx.rank * b))
    refine ⟨h4.rank, ?_, ?_, h4.arithUp, h4.sumUp⟩
    · show (ctx.wSecond ++ [ctx.wCnt, ctx.wCnt + 1]).Nodup
      rw [List.nodup_append]
      refine ⟨h.nodup, by simp, ?_⟩
      intro a ha b hb hab
      have := h.lt a ha
      simp only [List.mem_cons, List.not_mem_nil, or_false] at hb
      omega
    · intro i hi
      change i ∈ ctx.wSecond ++ [ctx.wCnt, ctx.wCnt + 1] at hi
      show i < ctx.wCnt + 2
      simp only [List.mem_append, List.mem_cons, List.not_mem_nil, or_false] at hi
      rcases hi with hi | hi | hi
      · have := h.lt i hi; omega
      · omega
      · omega

theorem CtxInv2.define {N : Nat} (ops : List (CtxOp F)) :
    ∀ {ctx ctx' : Context F}, CtxInv2 N ctx → ctx.define ops = .ok ctx' → CtxInv2 N ctx' := by
  induction ops with
  | nil => intro ctx ctx' h ho; cases ho; exact h
  | cons op ops ih =>
    intro ctx ctx' h ho
    unfold Context.define at ho
    rw [List.foldlM_cons] at ho
    obtain ⟨c1, h1, h2⟩ := bind_ok_inv ho
    exact ih (h.apply op h1) h2

end

end Ringo
