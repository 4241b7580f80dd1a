import Verif.Model.NTT

/-!
# Model of `math/bigpoly/poly.go`, `base_op.go`, `cyclic.go`, `cyclotomic.go`

A `*Poly` argument is its current value; an operation that writes to `pOut` takes the old value
of `pOut` and returns the new one.  The element-wise kernels appear at the value level: after
the length checks they are `List.zipWith`/`List.map`, which is what `Verif.Props.Vec` proves of
the heap-level kernels for equal or disjoint slices.
-/

namespace Ringo

variable {F : Type}

/-- poly.go:11-14. -/
structure Poly (F : Type) where
  coeffs : List F
  isNTT : Bool
  deriving DecidableEq

/-- poly.go:17-27. -/
def newPoly [Zero F] (rank : Nat) (isNTT : Bool) : Poly F := ⟨List.replicate rank 0, isNTT⟩

/-- poly.go:44-61 (`CopyFrom`). -/
def Poly.copyFrom (p p0 : Poly F) : Go (Poly F) := do
  let c ← copy8 p.coeffs p0.coeffs
  pure ⟨c, p0.isNTT⟩

/-- poly.go:64-76 (`Evaluate`). -/
def Poly.evaluate [Zero F] [Add F] [Mul F] (p : Poly F) (x : F) : Go F :=
  if p.isNTT then goPanic
  else forDown p.coeffs.length 0 (0 : F) (fun z i => do
    let z := z * x
    let c ← idx p.coeffs i
    pure (z + c))

/-- poly.go:79-83 (`Clear`; the flag is kept). -/
def Poly.clear [Zero F] (p : Poly F) : Poly F := ⟨p.coeffs.map (fun _ => 0), p.isNTT⟩

/-- poly.go:35-41 (`Marshal`), over an arbitrary element encoding. -/
def Poly.marshal {B : Type} (enc : F → List B) (p : Poly F) : List B := p.coeffs.flatMap enc

/-- poly.go:106-111. -/
def checkUnary (rank : Nat) (pOut p : Poly F) : Go Unit :=
  if pOut.coeffs.length ≠ rank ∨ p.coeffs.length ≠ rank then goPanic else pure ()

/-- poly.go:114-121.  Note that `pOut.IsNTT` is not looked at. -/
def checkBinary (rank : Nat) (pOut p0 p1 : Poly F) : Go Unit :=
  if pOut.coeffs.length ≠ rank ∨ p0.coeffs.length ≠ rank ∨ p1.coeffs.length ≠ rank then goPanic
  else if p0.isNTT ≠ p1.isNTT then goPanic
  else pure ()

/-- base_op.go:10-15; the pool only supplies scratch space. -/
structure Evaluator (F : Type) where
  rank : Nat
  ntt : Transformer F

namespace Evaluator
variable (op : Evaluator F)

/-- base_op.go:49-54. -/
def addTo [Add F] (pOut p0 p1 : Poly F) : Go (Poly F) := do
  checkBinary op.rank pOut p0 p1
  pure ⟨List.zipWith (· + ·) p0.coeffs p1.coeffs, p0.isNTT⟩

/-- base_op.go:64-69. -/
def subTo [Sub F] (pOut p0 p1 : Poly F) : Go (Poly F) := do
  checkBinary op.rank pOut p0 p1
  pure ⟨List.zipWith (· - ·) p0.coeffs p1.coeffs, p0.isNTT⟩

/-- base_op.go:79-84. -/
def negTo [Neg F] (pOut p : Poly F) : Go (Poly F) := do
  checkUnary op.rank pOut p
  pure ⟨p.coeffs.map (fun x => -x), p.isNTT⟩

/-- base_op.go:94-99. -/
def scalarMulTo [Mul F] (pOut p : Poly F) (c : F) : Go (Poly F) := do
  checkUnary op.rank pOut p
  pure ⟨p.coeffs.map (· * c), p.isNTT⟩

/-- base_op.go:102-111. -/
def scalarMulAddTo [Add F] [Mul F] (pOut p : Poly F) (c : F) : Go (Poly F) := do
  checkUnary op.rank pOut p
  let pBuf := p.coeffs.map (· * c)
  pure ⟨List.zipWith (· + ·) pOut.coeffs pBuf, p.isNTT⟩

/-- base_op.go:114-123. -/
def scalarMulSubTo [Sub F] [Mul F] (pOut p : Poly F) (c : F) : Go (Poly F) := do
  checkUnary op.rank pOut p
  let pBuf := p.coeffs.map (· * c)
  pure ⟨List.zipWith (· - ·) pOut.coeffs pBuf, p.isNTT⟩

/-- base_op.go:133-141. -/
def mulTo [Mul F] (pOut p0 p1 : Poly F) : Go (Poly F) := do
  checkBinary op.rank pOut p0 p1
  if !p0.isNTT || !p1.isNTT then goPanic
  else pure ⟨List.zipWith (· * ·) p0.coeffs p1.coeffs, true⟩

/-- base_op.go:144-156. -/
def mulAddTo [Add F] [Mul F] (pOut p0 p1 : Poly F) : Go (Poly F) := do
  checkBinary op.rank pOut p0 p1
  if !p0.isNTT || !p1.isNTT then goPanic
  else
    let pBuf := List.zipWith (· * ·) p0.coeffs p1.coeffs
    pure ⟨List.zipWith (· + ·) pOut.coeffs pBuf, true⟩

/-- base_op.go:159-171. -/
def mulSubTo [Sub F] [Mul F] (pOut p0 p1 : Poly F) : Go (Poly F) := do
  checkBinary op.rank pOut p0 p1
  if !p0.isNTT || !p1.isNTT then goPanic
  else
    let pBuf := List.zipWith (· * ·) p0.coeffs p1.coeffs
    pure ⟨List.zipWith (· - ·) pOut.coeffs pBuf, true⟩

/-- base_op.go:181-189. -/
def nttTo [Add F] [Sub F] [Mul F] (pOut p : Poly F) : Go (Poly F) := do
  checkUnary op.rank pOut p
  if p.isNTT then goPanic
  else
    let c ← op.ntt.fwdNTTTo pOut.coeffs p.coeffs
    pure ⟨c, true⟩

/-- base_op.go:199-207. -/
def invNTTTo [Add F] [Sub F] [Mul F] (pOut p : Poly F) : Go (Poly F) := do
  checkUnary op.rank pOut p
  if !p.isNTT then goPanic
  else
    let c ← op.ntt.invNTTTo pOut.coeffs p.coeffs
    pure ⟨c, false⟩

variable [Zero F]

/-- base_op.go:42-46. -/
def add [Add F] (p0 p1 : Poly F) : Go (Poly F) := op.addTo (newPoly op.rank p0.isNTT) p0 p1
/-- base_op.go:57-61. -/
def sub [Sub F] (p0 p1 : Poly F) : Go (Poly F) := op.subTo (newPoly op.rank p0.isNTT) p0 p1
/-- base_op.go:72-76. -/
def neg [Neg F] (p : Poly F) : Go (Poly F) := op.negTo (newPoly op.rank p.isNTT) p
/-- base_op.go:87-91. -/
def scalarMul [Mul F] (p : Poly F) (c : F) : Go (Poly F) :=
  op.scalarMulTo (newPoly op.rank p.isNTT) p c
/-- base_op.go:126-130. -/
def mul [Mul F] (p0 p1 : Poly F) : Go (Poly F) := op.mulTo (newPoly op.rank true) p0 p1
/-- base_op.go:174-178 (and cyclotomic.go:85-89). -/
def toNTT [Add F] [Sub F] [Mul F] (p : Poly F) : Go (Poly F) :=
  op.nttTo (newPoly op.rank true) p
/-- base_op.go:192-196. -/
def toCoeff [Add F] [Sub F] [Mul F] (p : Poly F) : Go (Poly F) :=
  op.invNTTTo (newPoly op.rank false) p

/-- cyclic.go:18-37 (`QuoRemByVanishing`). -/
def quoRemByVanishing [Add F] (p : Poly F) (N : Nat) : Go (Poly F × Poly F) :=
  if p.coeffs.length ≠ op.rank then goPanic
  else if p.isNTT then goPanic
  else do
    let quo := newPoly op.rank false
    let rem ← (newPoly op.rank false).copyFrom p
    let s ← forDown op.rank N (quo.coeffs, rem.coeffs) (fun (s : List F × List F) i => do
      let q ← idx s.1 (i - N)
      let r ← idx s.2 i
      let quo ← setIdx s.1 (i - N) (q + r)
      let r0 ← idx s.2 (i - N)
      let r ← idx s.2 i
      let rem ← setIdx s.2 (i - N) (r0 + r)
      let rem ← setIdx rem i 0
      pure (quo, rem))
    pure (⟨s.1, false⟩, ⟨s.2, rem.isNTT⟩)

/-- cyclotomic.go:49-64 (`autTo`); `buf` is the pooled scratch polynomial. -/
def autCoeffTo [Neg F] (buf pOut p : Poly F) (idx' : Nat) : Go (Poly F) := do
  let buf ← forRange 0 op.rank 1 buf.coeffs (fun buf i => do
    let j := (i * idx') % (2 * op.rank)
    let c ← idx p.coeffs i
    if j < op.rank then setIdx buf j c
    else setIdx buf (j - op.rank) (-c))
  let pOut ← pOut.copyFrom ⟨buf, true⟩
  pure ⟨pOut.coeffs, false⟩

/-- cyclotomic.go:67-82 (`autNTTTo`). -/
def autNTTTo (buf pOut p : Poly F) (idx' : Nat) : Go (Poly F) := do
  let buf ← buf.copyFrom p
  let buf ← bitReverseInPlace buf.coeffs
  let out ← forRange 0 op.rank 1 pOut.coeffs (fun out i => do
    let j := ((2 * i + 1) * idx') % (2 * op.rank)
    let j := (j - 1) / 2
    let c ← idx buf j
    setIdx out i c)
  let out ← bitReverseInPlace out
  pure ⟨out, true⟩

/-- cyclotomic.go:29-46 (`AutTo`); `%` on Go integers truncates towards zero. -/
def autTo [Neg F] (buf pOut p : Poly F) (i : Int) : Go (Poly F) := do
  checkUnary op.rank pOut p
  if i.tmod 2 = 0 then goPanic
  else
    let i := i.tmod (2 * op.rank)
    let i := if i < 0 then i + 2 * op.rank else i
    if p.isNTT then op.autNTTTo buf pOut p i.toNat
    else op.autCoeffTo buf pOut p i.toNat

/-- cyclotomic.go:22-26 (`Aut`). -/
def aut [Neg F] (buf p : Poly F) (i : Int) : Go (Poly F) :=
  op.autTo buf (newPoly op.rank p.isNTT) p i

end Evaluator

/-- The body of the loop in cyclotomic.go:111-121: the integer stored for coefficient `c`,
modulus `Q` on input and `q` on output (`Mod` and `Div` of `math/big` are Euclidean). -/
def modSwitchCoeff (Q q c : Int) : Int :=
  let qBigHalf := Q / 2
  let c := c * q
  let cRem := c.emod Q
  let cRem := if cRem > qBigHalf then cRem - Q else cRem
  let c := c - cRem
  let c := c / Q
  c.emod q

/-- cyclotomic.go:99-124 (`ModSwitchTo`). -/
def modSwitchTo (rank : Nat) (q : Nat) (pOut : Poly (ZMod q)) (pBig : List Int) (Q : Int) :
    Go (Poly (ZMod q)) :=
  if pBig.length ≠ rank then goPanic
  else do
    let out ← forRange 0 rank 1 pOut.coeffs (fun out i => do
      let c ← idx pBig i
      if Q = 0 then goPanic
      else setIdx out i ((modSwitchCoeff Q q c : Int) : ZMod q))
    pure ⟨out, false⟩

/-- cyclic.go:11-15. -/
def newCyclicEvaluator (p : Nat) [Fact p.Prime] (rank : Nat) : Go (Evaluator (ZMod p)) := do
  let T ← newCyclicTransformer p rank
  pure ⟨rank, T⟩

/-- cyclotomic.go:15-19. -/
def newCyclotomicEvaluator (p : Nat) [Fact p.Prime] (rank : Nat) : Go (Evaluator (ZMod p)) := do
  let T ← newCyclotomicTransformer p rank
  pure ⟨rank, T⟩

end Ringo
