import Verif.Model.Linear
import Verif.Model.BEncoder

/-!
# Model of `buckler/constraint.go`, `buckler/context.go` and `Compile`

Witnesses are referred to by their index.  In the code the API passes handles; by C25 decoding a
handle gives back the index, as long as there are fewer than `2^62` fields and `2·count + 1` is
below the modulus.

Simplifications.

* A constraint is a list of terms; the code keeps five slices that are always appended to together
  (constraint.go:33-53).  `wRank` is never read and is left out.  `Model/CtxHeap.lean` has the slices
  and pointers; by C115 lists and numbers are right for a `Define` that does not share them.
* Maps keyed by a witness index are lists of entries without repeated index; two maps that are
  always written together are one list.  Iteration order is a parameter of the prover.
* `linCheckers` and `linCheckConstraints` are one list in order of first use: the map has an entry
  exactly for the checkers in the slice.
* Checkers are told apart by identity (they are pointers): `user n` is the caller's `n`-th checker.
* Bounds of the two-norm and approximate constraints are natural numbers (the `uint64` versions of
  the calls).
-/

namespace Ringo

/-- One term `coeff * pub * wits[0] * wits[1] * ...` of a constraint (constraint.go:7-12). -/
structure Term (F : Type) where
  coeff : F
  pub : Option Nat
  wits : List Nat

/-- constraint.go:7-12 (`ArithmeticConstraint`). -/
abbrev Constraint (F : Type) := List (Term F)

/-- constraint.go:33-53 (`AddTermWithConst`). -/
def Constraint.addTermWithConst {F : Type} (c : Constraint F) (coeff : F) (pub : Option Nat)
    (wits : List Nat) : Constraint F := c ++ [⟨coeff, pub, wits⟩]

/-- constraint.go:17-20 (`AddTerm`). -/
def Constraint.addTerm {F : Type} [One F] (c : Constraint F) (pub : Option Nat)
    (wits : List Nat) : Constraint F := c.addTermWithConst 1 pub wits

/-- constraint.go:25-28 (`SubTerm`). -/
def Constraint.subTerm {F : Type} [One F] [Neg F] (c : Constraint F) (pub : Option Nat)
    (wits : List Nat) : Constraint F := c.addTermWithConst (-1) pub wits

/-- constraint.go:59-64: the degree counted for one term. -/
def Term.deg {F : Type} (rank : Nat) (t : Term F) : Nat :=
  let deg := 0
  let deg := if t.pub.isSome then deg + (rank - 1) else deg
  deg + t.wits.length * rank

/-- constraint.go:56-69 (`maxRank`). -/
def Constraint.maxRank {F : Type} (rank : Nat) (c : Constraint F) : Nat :=
  c.foldl (fun maxDeg t => if t.deg rank > maxDeg then t.deg rank else maxDeg) 0 + 1

/-- Identity of a `LinearChecker`: one of the caller's, the projection checker of the context, or
the recomposition checker made for the projection witness `w` (context.go:224). -/
inductive CheckerKey
  | user (n : Nat)
  | proj
  | recomp (w : Nat) (bound : Nat)
  deriving DecidableEq

/-- An entry of `infDcmpBound`/`infDcmpWitness` (context.go:36-37). -/
structure InfEntry where
  id : Nat
  bound : Nat
  dcmp : List Nat
  deriving DecidableEq

/-- An entry of `twoDcmpBound`/`Base`/`Mask`/`Witness` (context.go:39-42). -/
structure TwoEntry where
  id : Nat
  bound : Nat
  base : Nat
  mask : Nat
  dcmp : Nat
  deriving DecidableEq

/-- An entry of `projWitness` (context.go:45). -/
structure ProjEntry where
  id : Nat
  proj : Nat
  deriving DecidableEq

/-- An entry of `projInfDcmpBound`/`projInfDcmpWitness` (context.go:46-47). -/
structure ProjInfEntry where
  id : Nat
  bound : Nat
  dcmp : Nat
  deriving DecidableEq

/-- context.go:12-48 (`Context`). -/
structure Context (F : Type) where
  rank : Nat
  pwCnt : Nat
  wCnt : Nat
  circType : Nat
  wSecond : List Nat
  arithCheckMaxRank : Nat
  sumCheckMaxRank : Nat
  arith : List (Constraint F)
  sums : List (Constraint F)
  sumCheckSums : List Int
  lin : List (CheckerKey × List (Nat × Nat))
  infDcmp : List InfEntry
  twoDcmp : List TwoEntry
  hasProj : Bool
  projWit : List ProjEntry
  projInf : List ProjInfEntry

/-- context.go:53-76 (`newContext`). -/
def newContext (F : Type) (rank circType pwCnt wCnt : Nat) : Context F where
  rank := rank
  pwCnt := pwCnt
  wCnt := wCnt
  circType := circType
  wSecond := []
  arithCheckMaxRank := 0
  sumCheckMaxRank := 0
  arith := []
  sums := []
  sumCheckSums := []
  lin := []
  infDcmp := []
  twoDcmp := []
  hasProj := false
  projWit := []
  projInf := []

namespace Context
variable {F : Type}

/-- context.go:79-82 (`AddArithmeticConstraint`). -/
def addArith (ctx : Context F) (c : Constraint F) : Context F :=
  { ctx with
    arith := ctx.arith ++ [c]
    arithCheckMaxRank := max ctx.arithCheckMaxRank (c.maxRank ctx.rank) }

/-- context.go:90-94 (`AddSumCheckConstraintBig`). -/
def addSum (ctx : Context F) (c : Constraint F) (sum : Int) : Context F :=
  { ctx with
    sums := ctx.sums ++ [c]
    sumCheckSums := ctx.sumCheckSums ++ [sum]
    sumCheckMaxRank := max ctx.sumCheckMaxRank (c.maxRank ctx.rank) }

/-- `ctx.linCheckConstraints[chker] = append(ctx.linCheckConstraints[chker], x)`, together with the
append to `linCheckers` for a checker not seen before. -/
def linAppend (key : CheckerKey) (x : Nat × Nat) :
    List (CheckerKey × List (Nat × Nat)) → List (CheckerKey × List (Nat × Nat))
  | [] => [(key, [x])]
  | (k, xs) :: rest => if k = key then (k, xs ++ [x]) :: rest else (k, xs) :: linAppend key x rest

/-- context.go:97-109 (`AddLinearConstraint`). -/
def addLin (ctx : Context F) (wOut wIn : Nat) (key : CheckerKey) : Context F :=
  { ctx with
    arithCheckMaxRank :=
      if ctx.arithCheckMaxRank < 2 * ctx.rank - 1 then 2 * ctx.rank - 1 else ctx.arithCheckMaxRank
    lin := linAppend key (wOut, wIn) ctx.lin }

/-- The constraint `w^3 - w` (context.go:127-131, 148-152). -/
def ternary [One F] [Neg F] (w : Nat) : Constraint F :=
  (Constraint.addTermWithConst [] 1 none [w, w, w]).addTermWithConst (-1) none [w]

/-- context.go:154-159: the constraint `w - Σ base[i] * dcmp[i]`. -/
def infDcmpConstraint [One F] [Neg F] [NatCast F] (w : Nat) (base dcmp : List Nat) :
    Constraint F :=
  (List.zip base dcmp).foldl (fun c bd => c.addTermWithConst (-(bd.1 : F)) none [bd.2])
    (Constraint.addTermWithConst [] 1 none [w])

/-- context.go:117-161 (`AddInfNormConstraintBig`). -/
def addInf [One F] [Neg F] [NatCast F] (ctx : Context F) (w : Nat) (bound : Int) :
    Go (Context F) :=
  if bound < 0 then pure ctx
  else if bound = 0 then pure (ctx.addArith (Constraint.addTermWithConst [] 1 none [w]))
  else if bound = 1 then pure (ctx.addArith (ternary w))
  else do
    let base ← decomposeBase bound.toNat
    let dcmp := (List.range base.length).map (ctx.wCnt + ·)
    let ctx : Context F := { ctx with
      infDcmp := ctx.infDcmp.filter (fun (e : InfEntry) => e.id ≠ w) ++ [⟨w, bound.toNat, dcmp⟩]
      wCnt := ctx.wCnt + base.length }
    let ctx := dcmp.foldl (fun ctx d => ctx.addArith (ternary d)) ctx
    pure (ctx.addArith (infDcmpConstraint w base dcmp))

/-- context.go:171-196 (`AddSqNormConstraintBig`). -/
def addSq [One F] [Neg F] (ctx : Context F) (w : Nat) (bound : Nat) : Context F :=
  let dcmp := ctx.wCnt
  let pwBase := ctx.pwCnt
  let pwMask := ctx.pwCnt + 1
  let ctx : Context F := { ctx with
    wCnt := ctx.wCnt + 1
    pwCnt := ctx.pwCnt + 2
    twoDcmp := ctx.twoDcmp.filter (fun (e : TwoEntry) => e.id ≠ w) ++ [⟨w, bound, pwBase, pwMask, dcmp⟩] }
  let bin : Constraint F :=
    (Constraint.addTermWithConst [] 1 none [dcmp, dcmp]).addTermWithConst (-1) (some pwMask) [dcmp]
  let ctx := ctx.addArith bin
  let dc : Constraint F :=
    (Constraint.addTermWithConst [] 1 none [w, w]).addTermWithConst (-1) (some pwBase) [dcmp]
  ctx.addSum dc 0

/-- context.go:206-228 (`AddApproxInfNormConstraintBig`).  `newProjRecomposeChecker` decomposes the
slack bound and panics when that fails. -/
def addApprox (ctx : Context F) (w : Nat) (bound : Nat) : Go (Context F) := do
  let ctx : Context F := { ctx with hasProj := true }
  let wProj := ctx.wCnt
  let ctx : Context F := { ctx with wCnt := ctx.wCnt + 1 }
  let ctx := ctx.addLin wProj w .proj
  let ctx : Context F := { ctx with projWit := ctx.projWit.filter (fun (e : ProjEntry) => e.id ≠ w) ++ [⟨w, wProj⟩] }
  let wProjDcmp := ctx.wCnt
  let ctx : Context F := { ctx with wCnt := ctx.wCnt + 1 }
  let slackBound := ctx.rank * bound
  let ctx : Context F := { ctx with
    projInf := ctx.projInf.filter (fun (e : ProjInfEntry) => e.id ≠ wProj) ++ [⟨wProj, slackBound, wProjDcmp⟩] }
  let _ ← decomposeBase slackBound
  let ctx := ctx.addLin wProj wProjDcmp (.recomp wProj slackBound)
  pure { ctx with wSecond := ctx.wSecond ++ [wProj, wProjDcmp] }

/-- context.go:231-245 (`batch`). -/
def batch (ctx : Context F) : Nat :=
  let batch := ctx.wCnt
  let batch := if ctx.arith.length > 0 then batch + 1 else batch
  let batch := if ctx.lin.length > 0 then batch + 4 else batch
  if ctx.sums.length > 0 then batch + 4 else batch

/-- context.go:248-270 (`commitRank`).  Differences of Go integers may be negative; under `max`
with a non-negative number that is the same as truncated subtraction. -/
def commitRank (ctx : Context F) : Nat :=
  let rank := if ctx.wCnt > 0 then ctx.rank + 1 else 0
  let rank := ctx.arith.foldl (fun rank c => max rank (c.maxRank ctx.rank - ctx.rank)) rank
  let rank := if ctx.lin.length > 0 then max rank (2 * ctx.rank) else rank
  ctx.sums.foldl (fun rank c => max rank (c.maxRank ctx.rank + ctx.rank + 1)) rank

/-- compile.go:180: `1 << bits.Len(uint(max(..)-1))`.  With no constraint the argument is
`uint(-1)`, its length 64, and the shift gives 0. -/
def embRank (ctx : Context F) : Nat :=
  let m := max ctx.arithCheckMaxRank ctx.sumCheckMaxRank
  if m = 0 then 0 else 2 ^ bitLen (m - 1)

end Context

/-- The calls a circuit's `Define` can make. -/
inductive CtxOp (F : Type)
  | arith (c : Constraint F)
  | sum (c : Constraint F) (s : Int)
  | lin (wOut wIn checker : Nat)
  | inf (w : Nat) (bound : Int)
  | sq (w bound : Nat)
  | approx (w bound : Nat)

/-- One call. -/
def Context.apply {F : Type} [One F] [Neg F] [NatCast F] (ctx : Context F) :
    CtxOp F → Go (Context F)
  | .arith c => pure (ctx.addArith c)
  | .sum c s => pure (ctx.addSum c s)
  | .lin o i n => pure (ctx.addLin o i (.user n))
  | .inf w b => ctx.addInf w b
  | .sq w b => pure (ctx.addSq w b)
  | .approx w b => ctx.addApprox w b

/-- `c.Define(ctx)` (compile.go:176): a sequence of calls. -/
def Context.define {F : Type} [One F] [Neg F] [NatCast F] (ctx : Context F)
    (ops : List (CtxOp F)) : Go (Context F) := ops.foldlM Context.apply ctx

end Ringo
