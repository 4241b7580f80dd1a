import Verif.Model.Context

/-!
# Model of building a context with the memory it uses (buckler/constraint.go, buckler/context.go)

In `Model/Context.lean` a constraint is a list of terms and a bound is a number.  In the code a
constraint is a struct of slices, passed by value (context.go:79, 90), its coefficients are pointers
(`E` is `*Uint`), and bounds are pointers to `big.Int` that the context keeps (context.go:144, 182).
Here the code of a caller's `Define` is a program over variables, and the memory is explicit: backing
arrays with Go's `append`, cells for field elements and cells for big integers.

Simplifications.

* Slices begin at index 0 of their backing array: nothing in these files reslices.
* How much `append` allocates is a parameter (`Growth`), one function for each element type.
* The inner slices of `witness` are made in `AddTermWithConst` and only read afterwards
  (constraint.go:43-47); they are values.  The constraints the context makes itself
  (context.go:124-160, 187-195) are local variables, extended once each; they are values too.
* `wRank` is never read.  The big integers of `sumCheckSums` are never read.
-/

namespace Ringo

/-- A slice header; `cap = 0` is the nil slice. -/
structure SliceHdr where
  arr : Nat
  len : Nat
  cap : Nat

/-- The backing arrays of one element type; `next` is the first array not allocated. -/
structure Backing (α : Type) where
  next : Nat
  elem : Nat → Nat → α

/-- `append(s, a)`: in place if there is room, otherwise into a new array of `grow len` elements (at
least `len + 1`). -/
def Backing.append {α : Type} (grow : Nat → Nat) (m : Backing α) (s : SliceHdr) (a : α) :
    Backing α × SliceHdr :=
  if s.len < s.cap then
    (⟨m.next, Function.update m.elem s.arr (Function.update (m.elem s.arr) s.len a)⟩,
      ⟨s.arr, s.len + 1, s.cap⟩)
  else
    (⟨m.next + 1, Function.update m.elem m.next (Function.update (m.elem s.arr) s.len a)⟩,
      ⟨m.next, s.len + 1, max (s.len + 1) (grow s.len)⟩)

/-- constraint.go:6-12 (`ArithmeticConstraint`), without `wRank`. -/
structure CStruct where
  coeffs : SliceHdr
  hasPub : SliceHdr
  pubs : SliceHdr
  wits : SliceHdr

/-- `var c ArithmeticConstraint[E]`. -/
def CStruct.zero : CStruct := ⟨⟨0, 0, 0⟩, ⟨0, 0, 0⟩, ⟨0, 0, 0⟩, ⟨0, 0, 0⟩⟩

/-- The capacity `append` allocates for each element type. -/
structure Growth where
  ptr : Nat → Nat
  bool : Nat → Nat
  word : Nat → Nat
  slice : Nat → Nat

/-- The memory: backing arrays, field elements, big integers. -/
structure CMem (F : Type) where
  ptrs : Backing Nat
  bools : Backing Bool
  words : Backing Nat
  slices : Backing (List Nat)
  cells : Nat → F
  bigs : Nat → Int

/-- What the loops over a constraint read (prover.go:362-370, verifier.go:225-231). -/
def CMem.read {F : Type} (m : CMem F) (c : CStruct) : Constraint F :=
  (List.range c.wits.len).map fun i =>
    ⟨m.cells (m.ptrs.elem c.coeffs.arr i),
      if m.bools.elem c.hasPub.arr i then some (m.words.elem c.pubs.arr i) else none,
      m.slices.elem c.wits.arr i⟩

/-- constraint.go:33-53 (`AddTermWithConst`), `coeff` being the pointer `q`. -/
def CMem.addTerm {F : Type} (G : Growth) (m : CMem F) (c : CStruct) (q : Nat) (pub : Option Nat)
    (ws : List Nat) : CMem F × CStruct :=
  let a := m.ptrs.append G.ptr c.coeffs q
  let b := m.bools.append G.bool c.hasPub pub.isSome
  let d := m.words.append G.word c.pubs (pub.getD 0)
  let e := m.slices.append G.slice c.wits ws
  ({ m with ptrs := a.1, bools := b.1, words := d.1, slices := e.1 }, ⟨a.2, b.2, d.2, e.2⟩)

/-- A statement of the caller's `Define`.  Variables, field elements and big integers are numbered. -/
inductive HOp (F : Type)
  /-- `var x ArithmeticConstraint[E]` -/
  | zero (x : Nat)
  /-- `x = y` -/
  | copy (x y : Nat)
  /-- the caller sets a field element, or a big integer -/
  | set (q : Nat) (v : F)
  | setBig (q : Nat) (v : Int)
  /-- `x.AddTermWithConst(q, pub, ws...)` -/
  | term (x q : Nat) (pub : Option Nat) (ws : List Nat)
  /-- `ctx.AddArithmeticConstraint(x)` -/
  | arith (x : Nat)
  /-- `ctx.AddSumCheckConstraintBig(x, s)`, or `AddSumCheckConstraint` (context.go:85-87) -/
  | sum (x : Nat) (s : Int)
  /-- `ctx.AddInfNormConstraintBig(w, q)` -/
  | infBig (w q : Nat)
  /-- `ctx.AddSqNormConstraintBig(w, q)` -/
  | sqBig (w q : Nat)
  /-- `ctx.AddInfNormConstraint(w, bound)` (context.go:112-114) -/
  | inf (w : Nat) (bound : Nat)
  /-- `ctx.AddSqTwoNormConstraint(w, bound)` (context.go:165-167) -/
  | sq (w : Nat) (bound : Nat)
  /-- `ctx.AddLinearConstraint(wOut, wIn, checker)` -/
  | lin (wOut wIn checker : Nat)
  /-- `ctx.AddApproxInfNormConstraintBig(w, q)` (context.go:206-228; the bound is used at once) -/
  | approxBig (w q : Nat)
  /-- `ctx.AddApproxInfNormConstraint(w, bound)` (context.go:200-202) -/
  | approx (w : Nat) (bound : Nat)

/-- The state of a run.  `ctx` holds what is computed at the time of each call; `arithSrc` and
`sumSrc` say for each constraint whether it is a struct of the caller's, `infPtr` and `twoPtr` which
big integer of the caller's a bound points to. -/
structure HState (F : Type) where
  mem : CMem F
  vars : Nat → CStruct
  ctx : Context F
  arithSrc : List (Option CStruct)
  sumSrc : List (Option CStruct)
  infPtr : Nat → Option Nat
  twoPtr : Nat → Option Nat

/-- The start of `Define`. -/
def HState.init {F : Type} [Zero F] (ctx : Context F) : HState F where
  mem := ⟨⟨0, fun _ _ => 0⟩, ⟨0, fun _ _ => false⟩, ⟨0, fun _ _ => 0⟩, ⟨0, fun _ _ => []⟩, fun _ => 0,
    fun _ => 0⟩
  vars := fun _ => .zero
  ctx := ctx
  arithSrc := ctx.arith.map fun _ => none
  sumSrc := ctx.sums.map fun _ => none
  infPtr := fun _ => none
  twoPtr := fun _ => none

/-- After a call: the constraints it added that are not the caller's. -/
def padSrc {F : Type} (src : List (Option CStruct)) (l : List (Constraint F)) :
    List (Option CStruct) :=
  src ++ List.replicate (l.length - src.length) none

section
variable {F : Type} [One F] [Neg F] [NatCast F]

/-- A call of the context with values. -/
def HState.call (st : HState F) (op : CtxOp F) : Go (HState F) := do
  let ctx ← st.ctx.apply op
  pure { st with
    ctx := ctx
    arithSrc := padSrc st.arithSrc ctx.arith
    sumSrc := padSrc st.sumSrc ctx.sums }

/-- One statement. -/
def HState.step (G : Growth) (st : HState F) : HOp F → Go (HState F)
  | .zero x => pure { st with vars := Function.update st.vars x .zero }
  | .copy x y => pure { st with vars := Function.update st.vars x (st.vars y) }
  | .set q v => pure { st with mem := { st.mem with cells := Function.update st.mem.cells q v } }
  | .setBig q v => pure { st with mem := { st.mem with bigs := Function.update st.mem.bigs q v } }
  | .term x q pub ws =>
    let r := st.mem.addTerm G (st.vars x) q pub ws
    pure { st with mem := r.1, vars := Function.update st.vars x r.2 }
  | .arith x =>
    -- context.go:79-82: the struct is copied, the maximal rank computed now
    pure { st with
      ctx := st.ctx.addArith (st.mem.read (st.vars x))
      arithSrc := st.arithSrc ++ [some (st.vars x)] }
  | .sum x s =>
    -- context.go:90-94
    pure { st with
      ctx := st.ctx.addSum (st.mem.read (st.vars x)) s
      sumSrc := st.sumSrc ++ [some (st.vars x)] }
  | .infBig w q => do
    -- context.go:117-161; the pointer is kept at 144
    let st' ← st.call (.inf w (st.mem.bigs q))
    pure (if st.mem.bigs q < 2 then st' else
      { st' with infPtr := Function.update st.infPtr w (some q) })
  | .sqBig w q => do
    -- context.go:171-196; the pointer is kept at 182
    let st' ← st.call (.sq w (st.mem.bigs q).toNat)
    pure { st' with twoPtr := Function.update st.twoPtr w (some q) }
  | .inf w b => do
    -- context.go:113: a new big integer
    let st' ← st.call (.inf w b)
    pure (if b < 2 then st' else { st' with infPtr := Function.update st.infPtr w none })
  | .sq w b => do
    -- context.go:166
    let st' ← st.call (.sq w b)
    pure { st' with twoPtr := Function.update st.twoPtr w none }
  | .lin o i n => st.call (.lin o i n)
  | .approxBig w q => st.call (.approx w (st.mem.bigs q).toNat)
  | .approx w b => st.call (.approx w b)

/-- The caller's `Define`. -/
def HState.run (G : Growth) (st : HState F) (ops : List (HOp F)) : Go (HState F) :=
  ops.foldlM (HState.step G) st

end

/-- A constraint of the context: if the caller made it, what its slices hold now. -/
def CMem.look {F : Type} (m : CMem F) (c : Constraint F) : Option CStruct → Constraint F
  | some s => m.read s
  | none => c

/-- A bound of the context: if the caller made it, what the pointer points to now. -/
def CMem.lookBig {F : Type} (m : CMem F) (bound : Nat) : Option Nat → Nat
  | some q => (m.bigs q).toNat
  | none => bound

/-- The context as `Compile`, `Prove` and `Verify` find it in memory later (prover.go:78, 89, 362-370,
verifier.go:49, 225-231). -/
def HState.context {F : Type} (st : HState F) : Context F :=
  { st.ctx with
    arith := List.zipWith st.mem.look st.ctx.arith st.arithSrc
    sums := List.zipWith st.mem.look st.ctx.sums st.sumSrc
    infDcmp := st.ctx.infDcmp.map fun e => { e with bound := st.mem.lookBig e.bound (st.infPtr e.id) }
    twoDcmp := st.ctx.twoDcmp.map fun e => { e with bound := st.mem.lookBig e.bound (st.twoPtr e.id) } }

end Ringo
