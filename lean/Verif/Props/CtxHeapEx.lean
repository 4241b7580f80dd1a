import Verif.Props.CtxHeap
import Verif.Props.Digits
import Mathlib.Data.ZMod.Basic

/-!
# C115: programs outside the discipline, and a case
-/

namespace Ringo

/-- What Go allocates for small slices: a full slice of `n` elements is moved to one of `2 * n`; the
first allocation for bytes has 8. -/
def goGrowth : Growth where
  ptr := fun n => if n = 0 then 1 else 2 * n
  bool := fun n => if n = 0 then 8 else 2 * n
  word := fun n => if n = 0 then 1 else 2 * n
  slice := fun n => if n = 0 then 1 else 2 * n

section
variable {F : Type} [Zero F] [One F] [Neg F] [NatCast F]

/-- Three terms, then two constraints that extend them by a term each:
`c.AddTerm..; c.AddTerm..; c.AddTerm..; a := c; a.AddTerm(x); ctx.Add(a); b := c; b.AddTerm(y);
ctx.Add(b)`. -/
def copyProg (t : Fin 5 → Term F) : List (HOp F) :=
  [.set 0 (t 0).coeff, .set 1 (t 1).coeff, .set 2 (t 2).coeff, .set 3 (t 3).coeff, .set 4 (t 4).coeff,
    .term 0 0 (t 0).pub (t 0).wits, .term 0 1 (t 1).pub (t 1).wits, .term 0 2 (t 2).pub (t 2).wits,
    .copy 1 0, .term 1 3 (t 3).pub (t 3).wits, .arith 1,
    .copy 2 0, .term 2 4 (t 4).pub (t 4).wits, .arith 2]

/-- **C115, refuted for copies.**  Both constraints of the context end with the term of the second
one: the last term of the first constraint is never checked. -/
theorem C115_refuted_copy (rank ty pw w : Nat) (t : Fin 5 → Term F) :
    (newContext F rank ty pw w).define (valueCalls (VState.init F) (copyProg t)) =
      .ok (((newContext F rank ty pw w).addArith [t 0, t 1, t 2, t 3]).addArith
        [t 0, t 1, t 2, t 4]) ∧
    ∃ ctx, ((HState.init (newContext F rank ty pw w)).run goGrowth (copyProg t)).map HState.context =
        .ok ctx ∧
      ctx.arith = [[t 0, t 1, t 2, t 4], [t 0, t 1, t 2, t 4]] := by
  have hp : ∀ t : Term F, (if t.pub.isSome then some (t.pub.getD 0) else none) = t.pub := by
    intro t; cases t.pub <;> rfl
  constructor
  · rfl
  · refine ⟨_, rfl, ?_⟩
    simp [HState.context, HState.init, newContext, CMem.look, CMem.read,
      CMem.addTerm, Backing.append, goGrowth, CStruct.zero, Context.addArith, Function.update_apply,
      List.range_succ, hp]

/-- One element for two coefficients. -/
def coeffProg (a b : F) (w w' : Nat) : List (HOp F) :=
  [.set 0 a, .term 0 0 none [w], .set 0 b, .term 0 0 none [w'], .arith 0]

/-- **C115, refuted for coefficients.**  An element written to again after `AddTermWithConst` changes
the term that was added. -/
theorem C115_refuted_coeff (rank ty pw w i j : Nat) (a b : F) :
    (newContext F rank ty pw w).define (valueCalls (VState.init F) (coeffProg a b i j)) =
      .ok ((newContext F rank ty pw w).addArith [⟨a, none, [i]⟩, ⟨b, none, [j]⟩]) ∧
    ∃ ctx, ((HState.init (newContext F rank ty pw w)).run goGrowth (coeffProg a b i j)).map
        HState.context = .ok ctx ∧ ctx.arith = [[⟨b, none, [i]⟩, ⟨b, none, [j]⟩]] := by
  constructor
  · rfl
  · refine ⟨_, rfl, ?_⟩
    simp [HState.context, HState.init, newContext, CMem.look, CMem.read,
      CMem.addTerm, Backing.append, goGrowth, CStruct.zero, Context.addArith, Function.update_apply,
      List.range_succ]

/-- One big integer for the bounds of two witnesses. -/
def boundProg (i j b b' : Nat) : List (HOp F) :=
  [.setBig 0 b, .sqBig i 0, .setBig 0 b', .sqBig j 0]

/-- **C115, refuted for bounds.**  With one `big.Int` for two two-norm constraints both have the second
bound. -/
theorem C115_refuted_bound (rank ty pw w i j b b' : Nat) (hij : i ≠ j) :
    (∃ ctx, (newContext F rank ty pw w).define (valueCalls (VState.init F) (boundProg i j b b')) =
      .ok ctx ∧ ctx.twoDcmp.map (fun e => (e.id, e.bound)) = [(i, b), (j, b')]) ∧
    ∃ ctx, ((HState.init (newContext F rank ty pw w)).run goGrowth (boundProg i j b b')).map
        HState.context = .ok ctx ∧ ctx.twoDcmp.map (fun e => (e.id, e.bound)) = [(i, b'), (j, b')] := by
  constructor
  · refine ⟨_, rfl, ?_⟩
    simp [newContext, Context.addArith, Context.addSum, Context.addSq, hij, VState.step, VState.init]
  · refine ⟨_, rfl, ?_⟩
    simp [HState.context, HState.init, newContext, CMem.lookBig,
      Context.addArith, Context.addSum, Context.addSq, hij]

omit [Zero F] in
/-- The bound `AddInfNormConstraint` records. -/
theorem addInf_bound (ctx : Context F) (w b : Nat) (hb : 2 ≤ b) :
    ∃ ctx' d, ctx.addInf w (b : Int) = .ok ctx' ∧
      ctx'.infDcmp = ctx.infDcmp.filter (fun e => e.id ≠ w) ++ [⟨w, b, d⟩] := by
  obtain ⟨base, hbase, -⟩ := decomposeBase_spec b hb
  unfold Context.addInf
  rw [if_neg (by omega), if_neg (by omega), if_neg (by omega), Int.toNat_natCast, hbase]
  refine ⟨_, (List.range base.length).map (ctx.wCnt + ·), rfl, ?_⟩
  have hf : ∀ (l : List Nat) (c : Context F),
      (l.foldl (fun ctx d => ctx.addArith (Context.ternary d)) c).infDcmp = c.infDcmp := by
    intro l
    induction l with
    | nil => intro c; rfl
    | cons a l ih => intro c; rw [List.foldl_cons, ih]; rfl
  exact hf _ _

/-- One big integer for the infinity norms of two witnesses. -/
def infBoundProg (i j b b' : Nat) : List (HOp F) :=
  [.setBig 0 b, .infBig i 0, .setBig 0 b', .infBig j 0]

/-- **C115, refuted for bounds of infinity norms.**  With one `big.Int` for two constraints both have the
second bound, although the decomposition of the first was made for the first. -/
theorem C115_refuted_bound_inf (rank ty pw w i j b b' : Nat) (hij : i ≠ j) (hb : 2 ≤ b) (hb' : 2 ≤ b') :
    (∃ ctx, (newContext F rank ty pw w).define (valueCalls (VState.init F) (infBoundProg i j b b')) =
      .ok ctx ∧ ctx.infDcmp.map (fun e => (e.id, e.bound)) = [(i, b), (j, b')]) ∧
    ∃ ctx, ((HState.init (newContext F rank ty pw w)).run goGrowth (infBoundProg i j b b')).map
        HState.context = .ok ctx ∧ ctx.infDcmp.map (fun e => (e.id, e.bound)) = [(i, b'), (j, b')] := by
  obtain ⟨c1, d1, h1, e1⟩ := addInf_bound (newContext F rank ty pw w) i b hb
  obtain ⟨c2, d2, h2, e2⟩ := addInf_bound c1 j b' hb'
  rw [e1] at e2
  have e2 : c2.infDcmp = [⟨i, b, d1⟩, ⟨j, b', d2⟩] := by
    rw [e2]
    simp [newContext, hij]
  constructor
  · refine ⟨c2, ?_, by rw [e2]; rfl⟩
    change ((newContext F rank ty pw w).addInf i (b : Int) >>= fun c => c.addInf j (b' : Int) >>= pure) = _
    rw [h1, go_bind_ok, h2]
    rfl
  · have hs : ∃ st, (HState.init (newContext F rank ty pw w)).run goGrowth (infBoundProg i j b b') = .ok st ∧
        st.ctx = c2 ∧ st.mem.bigs 0 = b' ∧ st.infPtr i = some 0 ∧ st.infPtr j = some 0 := by
      simp [HState.run, infBoundProg, HState.step, HState.call, HState.init, Context.apply, h1, h2,
        bind, Except.bind, pure, Except.pure, hij,
        show ¬ ((b : Int) < 2) by omega, show ¬ ((b' : Int) < 2) by omega]
    obtain ⟨st, hr, hc, hq, hpi, hpj⟩ := hs
    refine ⟨st.context, by rw [hr]; rfl, ?_⟩
    simp [HState.context, hc, e2, hpi, hpj, CMem.lookBig, hq]

end

/-- A case for C115: two constraints on a common beginning of two terms, extended in one copy only;
a bound from a big integer that is not touched again. -/
theorem C115_case : Disciplined Usage.init
      ([.set 0 (3 : ZMod 97), .set 1 5, .term 0 0 none [0], .term 0 1 (some 0) [1], .copy 1 0, .arith 0,
        .term 1 0 none [1, 1], .arith 1, .setBig 0 20, .sqBig 1 0] : List (HOp (ZMod 97))) ∧
    ∃ ctx, ((HState.init (newContext (ZMod 97) 8 0 1 2)).run goGrowth
      [.set 0 3, .set 1 5, .term 0 0 none [0], .term 0 1 (some 0) [1], .copy 1 0, .arith 0,
        .term 1 0 none [1, 1], .arith 1, .setBig 0 20, .sqBig 1 0]).map HState.context = .ok ctx ∧
      ctx.arith.take 2 = [[⟨3, none, [0]⟩, ⟨5, some 0, [1]⟩],
        [⟨3, none, [0]⟩, ⟨5, some 0, [1]⟩, ⟨3, none, [1, 1]⟩]] ∧
      ctx.twoDcmp.map (fun e => (e.id, e.bound)) = [(1, 20)] := by
  have hd : Disciplined Usage.init
      ([.set 0 (3 : ZMod 97), .set 1 5, .term 0 0 none [0], .term 0 1 (some 0) [1], .copy 1 0, .arith 0,
        .term 1 0 none [1, 1], .arith 1, .setBig 0 20, .sqBig 1 0] : List (HOp (ZMod 97))) := by
    simp [Disciplined, Usage.Allows, Usage.step, Usage.init]
  refine ⟨hd, ?_⟩
  rw [C115_values goGrowth _ _ hd]
  refine ⟨_, rfl, rfl, rfl⟩

end Ringo
