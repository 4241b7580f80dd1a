import Verif.Model.Poly

/-!
# Model of an evaluator used by several goroutines (math/bigpoly/base_op.go, cyclotomic.go)

`baseOperator` has one mutable field, a `sync.Pool` of scratch polynomials.  Here polynomials are objects
with identities, the operations are programs that read and write single coefficients and flags, and
`pool.Get()` and `pool.Put()` are steps of their own, so that several goroutines with one evaluator can be
interleaved.

Simplifications.

* A coefficient is one memory cell; `Coeffs[i]` always points to the same cell, which belongs to no other
  slice.  (`bitReverseInPlace` exchanges pointers; here it exchanges what they point to.)
* `pool.Get()` takes any polynomial that is in the pool, or makes a new one even if the pool is not empty.
  The garbage collector may remove polynomials from the pool at any time.  `Get` and `Put` are atomic.
* Accesses are sequentially consistent.
* The tables of the transformer are only read and are values here, like the arguments `c` and `idx`.
* The operations that return a new polynomial (`Add`, `Mul`, `Aut`, ...) are `NewPoly` followed by
  one of the operations here, with a polynomial that no other goroutine knows.
* The lengths of slices never change; they are given by a function `len`.  A panic (always before
  `pool.Get()`) ends the operation with `false`.
-/

namespace Ringo

/-- The contents of all polynomials. -/
structure PHeap (F : Type) where
  c : Nat → Nat → F
  f : Nat → Bool

/-- A program of a goroutine. -/
inductive PoolProg (F : Type) (α : Type) : Type
  | ret (a : α)
  /-- reading `q.Coeffs[i]` -/
  | rd (q i : Nat) (k : F → PoolProg F α)
  /-- writing `q.Coeffs[i]` -/
  | wr (q i : Nat) (v : F) (k : PoolProg F α)
  /-- reading `q.IsNTT` -/
  | rdF (q : Nat) (k : Bool → PoolProg F α)
  /-- writing `q.IsNTT` -/
  | wrF (q : Nat) (b : Bool) (k : PoolProg F α)
  /-- `op.pool.Get()` -/
  | take (k : Nat → PoolProg F α)
  /-- `op.pool.Put(b)` -/
  | give (b : Nat) (k : PoolProg F α)

namespace PoolProg
variable {F α β ι : Type}

/-- Sequential composition. -/
def bind : PoolProg F α → (α → PoolProg F β) → PoolProg F β
  | ret a, g => g a
  | rd q i k, g => rd q i fun v => (k v).bind g
  | wr q i v k, g => wr q i v (k.bind g)
  | rdF q k, g => rdF q fun b => (k b).bind g
  | wrF q b k, g => wrF q b (k.bind g)
  | take k, g => take fun b => (k b).bind g
  | give b k, g => give b (k.bind g)

instance : Monad (PoolProg F) where
  pure := ret
  bind := bind

/-- `q.Coeffs[i]` -/
def get (q i : Nat) : PoolProg F F := rd q i ret
/-- `q.Coeffs[i].Set(v)` -/
def put (q i : Nat) (v : F) : PoolProg F Unit := wr q i v (ret ())
/-- `q.IsNTT` -/
def getFlag (q : Nat) : PoolProg F Bool := rdF q ret
/-- `q.IsNTT = b` -/
def putFlag (q : Nat) (b : Bool) : PoolProg F Unit := wrF q b (ret ())
/-- `op.pool.Get().(*Poly[E])` -/
def poolGet : PoolProg F Nat := take ret
/-- `op.pool.Put(b)` -/
def poolPut (b : Nat) : PoolProg F Unit := give b (ret ())

/-- `for _, i := range l { ... }` -/
def loop : List ι → (ι → PoolProg F Unit) → PoolProg F Unit
  | [], _ => ret ()
  | i :: l, g => (g i).bind fun _ => loop l g

end PoolProg

section
variable {F : Type}
open PoolProg

/-- vec.go:9-53, 99-120 (`addVecTo`, `subVecTo`, `mulVecTo`): element by element. -/
def vec2Prog (n out p0 p1 : Nat) (g : F → F → F) : PoolProg F Unit :=
  loop (List.range n) fun i => do
    let x ← get p0 i
    let y ← get p1 i
    put out i (g x y)

/-- vec.go:55-97 (`negVecTo`, `scalarMulVecTo`), poly.go:44-58 and ntt.go:99-112 (copying). -/
def vec1Prog (n out p : Nat) (g : F → F) : PoolProg F Unit :=
  loop (List.range n) fun i => do
    let x ← get p i
    put out i (g x)

/-- vec.go:122-136: the exchanges made by `bitReverseInPlace` for a slice of length `n`. -/
def brSwaps (n : Nat) : List (Nat × Nat) :=
  ((List.range' 1 (n - 1)).foldl (fun s i =>
    match brInner s.2 (n / 2) with
    | .ok (j, bit) => (if i < j + bit then s.1 ++ [(i, j + bit)] else s.1, j + bit)
    | .error _ => s) (([] : List (Nat × Nat)), 0)).1

/-- vec.go:122-136 (`bitReverseInPlace`). -/
def bitRevProg (n q : Nat) : PoolProg F Unit :=
  loop (brSwaps n) fun x => do
    let u ← get q x.1
    let v ← get q x.2
    put q x.1 v
    put q x.2 u

/-- ntt.go:254-259 (`butterfly`). -/
def bflyProg [Add F] [Sub F] [Mul F] (q a b : Nat) (w : F) : PoolProg F Unit := do
  let v ← get q b
  put q b (v * w)
  let u ← get q a
  let v ← get q b
  put q a (u + v)
  let v ← get q b
  let v' ← get q b
  put q b (v + v')
  let u ← get q a
  let v ← get q b
  put q b (u - v)

/-- ntt.go:365-370 (`invButterfly`). -/
def invBflyProg [Add F] [Sub F] [Mul F] (q a b : Nat) (w : F) : PoolProg F Unit := do
  let u ← get q a
  let v ← get q b
  put q a (u + v)
  let v ← get q b
  let v' ← get q b
  put q b (v + v')
  let u ← get q a
  let v ← get q b
  put q b (u - v)
  let v ← get q b
  put q b (v * w)

/-- ntt.go:267-273 and 377-383: the butterflies of a layer, in order: both indices and the index of the
twiddle factor.  The unrolled loops (277-355, 388-466) make the same butterflies in the same order. -/
def layerSteps (m t : Nat) : List (Nat × Nat × Nat) :=
  (List.range m).flatMap fun i =>
    (List.range' (i * t * 2) t).map fun j => (j, j + t, m + i)

/-- ntt.go:246-355 (`nttInPlace`), for `n` a power of two. -/
def nttProg [Add F] [Sub F] [Mul F] [Zero F] (n q : Nat) (tw : List F) : PoolProg F Unit :=
  loop ((doublings 1 (n / 2)).flatMap fun m => layerSteps m (n / (2 * m))) fun x =>
    bflyProg q x.1 x.2.1 (tw.getD x.2.2 0)

/-- ntt.go:357-466 (`inttInPlace`), for `n` a power of two. -/
def inttProg [Add F] [Sub F] [Mul F] [Zero F] (n q : Nat) (tw : List F) : PoolProg F Unit :=
  loop ((halvings (n / 2) 1).flatMap fun m => layerSteps m (n / (2 * m))) fun x =>
    invBflyProg q x.1 x.2.1 (tw.getD x.2.2 0)

/-- A call of an operation; polynomials are given by their identities. -/
inductive EvalOp (F : Type)
  | add (out p0 p1 : Nat) | sub (out p0 p1 : Nat) | mul (out p0 p1 : Nat)
  | mulAdd (out p0 p1 : Nat) | mulSub (out p0 p1 : Nat)
  | neg (out p : Nat) | smul (out p : Nat) (c : F) | smulAdd (out p : Nat) (c : F)
  | smulSub (out p : Nat) (c : F)
  | ntt (out p : Nat) | intt (out p : Nat) | aut (out p : Nat) (i : Int)

variable [Add F] [Sub F] [Mul F] [Neg F] [Zero F]

/-- poly.go:106-111, then `k`. -/
def checkUnaryProg (rank : Nat) (len : Nat → Nat) (out p : Nat) (k : PoolProg F Bool) :
    PoolProg F Bool :=
  if len out ≠ rank ∨ len p ≠ rank then pure false else k

/-- poly.go:114-121, then `k`. -/
def checkBinaryProg (rank : Nat) (len : Nat → Nat) (out p0 p1 : Nat) (k : PoolProg F Bool) :
    PoolProg F Bool :=
  if len out ≠ rank ∨ len p0 ≠ rank ∨ len p1 ≠ rank then pure false
  else do
    let b0 ← getFlag p0
    let b1 ← getFlag p1
    if b0 ≠ b1 then pure false else k

/-- base_op.go:135-137, 146-148, 161-163, then `k`. -/
def inputsNTTProg (p0 p1 : Nat) (k : PoolProg F Bool) : PoolProg F Bool := do
  let b0 ← getFlag p0
  if !b0 then pure false
  else
    let b1 ← getFlag p1
    if !b1 then pure false else k

/-- cyclotomic.go:49-64 (`autTo`). -/
def autCoeffProg (rank out p idx : Nat) : PoolProg F Bool := do
  let b ← poolGet
  loop (List.range rank) fun i => do
    let j := (i * idx) % (2 * rank)
    let c ← get p i
    if j < rank then put b j c else put b (j - rank) (-c)
  vec1Prog rank out b id
  let fl ← getFlag b
  putFlag out fl
  putFlag out false
  poolPut b
  pure true

/-- cyclotomic.go:67-82 (`autNTTTo`). -/
def autNTTProg (rank out p idx : Nat) : PoolProg F Bool := do
  let b ← poolGet
  vec1Prog rank b p id
  let fl ← getFlag p
  putFlag b fl
  bitRevProg rank b
  loop (List.range rank) fun i => do
    let j := ((2 * i + 1) * idx) % (2 * rank)
    let j := (j - 1) / 2
    let c ← get b j
    put out i c
  bitRevProg rank out
  putFlag out true
  poolPut b
  pure true

/-- base_op.go and cyclotomic.go, operation by operation; `false` is a panic. -/
def EvalOp.prog (ev : Evaluator F) (len : Nat → Nat) : EvalOp F → PoolProg F Bool
  -- base_op.go:49-54
  | add out p0 p1 => checkBinaryProg ev.rank len out p0 p1 do
    vec2Prog ev.rank out p0 p1 (· + ·)
    let b ← getFlag p0
    putFlag out b
    pure true
  -- base_op.go:64-69
  | sub out p0 p1 => checkBinaryProg ev.rank len out p0 p1 do
    vec2Prog ev.rank out p0 p1 (· - ·)
    let b ← getFlag p0
    putFlag out b
    pure true
  -- base_op.go:133-141
  | mul out p0 p1 => checkBinaryProg ev.rank len out p0 p1 <| inputsNTTProg p0 p1 do
    vec2Prog ev.rank out p0 p1 (· * ·)
    putFlag out true
    pure true
  -- base_op.go:144-156
  | mulAdd out p0 p1 => checkBinaryProg ev.rank len out p0 p1 <| inputsNTTProg p0 p1 do
    let b ← poolGet
    vec2Prog ev.rank b p0 p1 (· * ·)
    vec2Prog ev.rank out out b (· + ·)
    putFlag out true
    poolPut b
    pure true
  -- base_op.go:159-171
  | mulSub out p0 p1 => checkBinaryProg ev.rank len out p0 p1 <| inputsNTTProg p0 p1 do
    let b ← poolGet
    vec2Prog ev.rank b p0 p1 (· * ·)
    vec2Prog ev.rank out out b (· - ·)
    putFlag out true
    poolPut b
    pure true
  -- base_op.go:79-84
  | neg out p => checkUnaryProg ev.rank len out p do
    vec1Prog ev.rank out p (fun x => -x)
    let b ← getFlag p
    putFlag out b
    pure true
  -- base_op.go:94-99
  | smul out p c => checkUnaryProg ev.rank len out p do
    vec1Prog ev.rank out p (· * c)
    let b ← getFlag p
    putFlag out b
    pure true
  -- base_op.go:102-111
  | smulAdd out p c => checkUnaryProg ev.rank len out p do
    let b ← poolGet
    vec1Prog ev.rank b p (· * c)
    vec2Prog ev.rank out out b (· + ·)
    let fl ← getFlag p
    putFlag out fl
    poolPut b
    pure true
  -- base_op.go:114-123
  | smulSub out p c => checkUnaryProg ev.rank len out p do
    let b ← poolGet
    vec1Prog ev.rank b p (· * c)
    vec2Prog ev.rank out out b (· - ·)
    let fl ← getFlag p
    putFlag out fl
    poolPut b
    pure true
  -- base_op.go:181-189, ntt.go:98-115, 206-223
  | ntt out p => checkUnaryProg ev.rank len out p do
    let fl ← getFlag p
    if fl then pure false
    else
      vec1Prog ev.rank out p id
      nttProg ev.rank out ev.ntt.tw
      putFlag out true
      pure true
  -- base_op.go:199-207, ntt.go:118-136, 226-244
  | intt out p => checkUnaryProg ev.rank len out p do
    let fl ← getFlag p
    if !fl then pure false
    else
      vec1Prog ev.rank out p id
      inttProg ev.rank out ev.ntt.twInv
      vec1Prog ev.rank out out (· * ev.ntt.rankInv)
      putFlag out false
      pure true
  -- cyclotomic.go:29-46
  | aut out p i => checkUnaryProg ev.rank len out p <|
    if i.tmod 2 = 0 then pure false
    else
      let i := i.tmod (2 * ev.rank)
      let i := if i < 0 then i + 2 * ev.rank else i
      do
        let fl ← getFlag p
        if fl then autNTTProg ev.rank out p i.toNat else autCoeffProg ev.rank out p i.toNat

/-- What a goroutine does: calls of operations of the shared evaluator (going on after a panic if it
likes), and reading and setting coefficients and flags itself. -/
inductive PoolClient (F R : Type)
  | done (r : R)
  | call (o : EvalOp F) (k : Bool → PoolClient F R)
  | look (q i : Nat) (k : F → PoolClient F R)
  | lookFlag (q : Nat) (k : Bool → PoolClient F R)
  | set (q i : Nat) (v : F) (k : PoolClient F R)
  | setFlag (q : Nat) (b : Bool) (k : PoolClient F R)

/-- The program of a goroutine. -/
def PoolClient.prog {R : Type} (ev : Evaluator F) (len : Nat → Nat) : PoolClient F R → PoolProg F R
  | done r => .ret r
  | call o k => (o.prog ev len).bind fun b => (k b).prog ev len
  | look q i k => .rd q i fun v => (k v).prog ev len
  | lookFlag q k => .rdF q fun b => (k b).prog ev len
  | set q i v k => .wr q i v (k.prog ev len)
  | setFlag q b k => .wrF q b (k.prog ev len)

end

/-- The polynomials, the pool, and the identity of the next polynomial that is allocated. -/
structure PoolMem (F : Type) where
  heap : PHeap F
  free : List Nat
  next : Nat

section
variable {F α : Type} [Zero F]

/-- One step of a goroutine; `ch` says what `pool.Get()` returns: a polynomial of the pool, or a new
one (base_op.go:24-26). -/
def PoolProg.step (ch : Nat) : PoolProg F α → PoolMem F → PoolProg F α × PoolMem F
  | ret a, m => (ret a, m)
  | rd q i k, m => (k (m.heap.c q i), m)
  | wr q i v k, m =>
    (k, { m with heap := { m.heap with c := Function.update m.heap.c q (Function.update (m.heap.c q) i v) } })
  | rdF q k, m => (k (m.heap.f q), m)
  | wrF q b k, m => (k, { m with heap := { m.heap with f := Function.update m.heap.f q b } })
  | take k, m =>
    match m.free[ch]? with
    | some b => (k b, { m with free := m.free.eraseIdx ch })
    | none => (k m.next,
      { heap := ⟨Function.update m.heap.c m.next (fun _ => 0), Function.update m.heap.f m.next true⟩
        free := m.free
        next := m.next + 1 })
  | give b k, m => (k, { m with free := b :: m.free })

/-- What happens next: a step of goroutine `t`, or the garbage collector takes a polynomial from the
pool. -/
inductive PoolEvent
  | run (t ch : Nat)
  | gc (i : Nat)

/-- The goroutines `ps` and the memory after the events `s`. -/
def poolRun (ps : Nat → PoolProg F α) (m : PoolMem F) :
    List PoolEvent → (Nat → PoolProg F α) × PoolMem F
  | [] => (ps, m)
  | .run t ch :: s => let r := (ps t).step ch m; poolRun (Function.update ps t r.1) r.2 s
  | .gc i :: s => poolRun ps { m with free := m.free.eraseIdx i } s

/-- The next access of a program: the polynomial, the coefficient or the flag, and whether it is a
write.  (`Get` and `Put` are synchronised.) -/
def PoolProg.access : PoolProg F α → Option (Nat × Option Nat × Bool)
  | ret _ => none
  | rd q i _ => some (q, some i, false)
  | wr q i _ _ => some (q, some i, true)
  | rdF q _ => some (q, none, false)
  | wrF q _ _ => some (q, none, true)
  | take _ => none
  | give _ _ => none

end

end Ringo
