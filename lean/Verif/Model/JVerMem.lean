import Verif.Model.JCopy

/-!
# Model of the memory of Jindo's verifiers (jindo/verifier.go, jindo/encoder.go:203-219)

As in `Model/JCopy.lean` the objects have addresses and `Verify` is a program of reads and writes.  A
verifier has an encoder with its buffers, an RNS reconstructor with its buffers, a basis extender, two
scalars and a commitment key of its own; there is no `SafeCopy`.

Simplifications, besides those of `Model/JCopy.lean`.

* What `Verify` makes itself (`chals`, `pfInv`, `cutoff`, `pBig`, `dcd`, `yBatch`, ...) are values.
* The basis extender of lattigo is a table and one buffer that `ModUpQtoP` writes before it reads it.
* The panic on wrong lengths (verifier.go:51-54) comes before any access and is left out: the batch is
  `com`.
-/

namespace Ringo
open MemProg

/-- verifier.go:12-23; `ext` is the table and `extBuf` the buffer of `embQOutToQ`. -/
structure VerifierObj (V : Type) where
  ecd : EncObj V
  rnsOut : RnsObj
  ext : Nat
  extBuf : Nat
  inCutOff : Nat
  outCutOff : Nat
  ck : Nat

section
variable {V : Type} (O : CopyOps V)

/-- verifier.go:26-48 (`NewVerifier`) -/
def newVerifierObj (P : CopyParams) : StateM (CopyHeap V) (VerifierObj V) := do
  let inCutOff ← allocs 1 (O.fn .cutOffIn [])
  let outCutOff ← allocs 1 (O.fn .cutOffOut [])
  let ecd ← newEnc O P
  let rnsOut ← newRns O P.nOut P.levelsOut P.ringQOut
  let ext ← allocs 1 (O.fn .extTables [])
  let extBuf ← allocs 1 (O.fn .blank [])
  let ck ← allocs 1 (O.fn .commitKey [])
  pure ⟨ecd, rnsOut, ext, extBuf, inCutOff, outCutOff, ck⟩

/-- `NewVerifier`, `k` times. -/
def newVerifiers (P : CopyParams) : Nat → StateM (CopyHeap V) (List (VerifierObj V))
  | 0 => pure []
  | k + 1 => do
    let v ← newVerifierObj O P
    let vs ← newVerifiers P k
    pure (v :: vs)

/-- encoder.go:208 (`e.rns.reconstructTo(e.buf.coeffBig, p)`) -/
def reconstructBufProg (e : EncObj V) (p : V) : MemProg V (List Unit) :=
  each (List.range e.rns.n) fun i => do
    let x ← reconstructOne O e.rns p i
    put (e.buf.coeffBig + i) x

/-- encoder.go:212-216: `vOut[i]` after the rounds for the digits `j`. -/
def decodeSlotProg (P : CopyParams) (e : EncObj V) (i : Nat) : List Nat → V → MemProg V V
  | [], x => pure x
  | j :: js, x => do
    let b ← get e.buf.baseE
    let c ← get (e.buf.coeffBig + (j * P.slots + i))
    put e.buf.coeffE (O.fn .bigElem [c])
    let y ← get e.buf.coeffE
    decodeSlotProg P e i js (O.fn .horner [x, b, y])

/-- encoder.go:203-219 (`DecodeTo`): the elements of `vOut`. -/
def decodeProg (P : CopyParams) (e : EncObj V) (p : V) : MemProg V (List V) := do
  let _ ← reconstructBufProg O e p
  put e.buf.baseE (O.fn .baseElem [])
  each (List.range P.slots) fun i => decodeSlotProg O P e i (List.range P.exp).reverse (O.fn .zero [])

/-- verifier.go:264-285 (`verifyNorm`) -/
def verifyNormProg (t : PTest) (r : RnsObj) (ps : List V) : MemProg V Bool := do
  let xs ← each ps (reconstructProg O r)
  pure (O.test t xs.flatten)

/-- verifier.go:134-158 (`verifyOuterCommitment`); `pfv` is `pf`, `inv` the polynomials `pfInv.InCommit`. -/
def verifyOuterProg (P : CopyParams) (v : VerifierObj V) (batch coms : List V) (pfv : V)
    (inv : List V) : MemProg V Bool := do
  let cuts ← each (List.range P.outRank) fun i => do
    let q ← get P.ringQOut
    let s ← get v.outCutOff
    let ck ← get v.ck
    pure (O.fn (.outerCut i) (q :: s :: ck :: pfv :: coms ++ batch))
  verifyNormProg O .normOut v.rnsOut (inv ++ cuts)

/-- verifier.go:161-196 (`verifyInnerCommitment`); `res` are the polynomials `pfInv.Encode` and
`pfInv.MLWE`, `inv` the polynomials `pfInv.InCommit`. -/
def verifyInnerProg (P : CopyParams) (v : VerifierObj V) (chals : List V) (pfv : V)
    (res inv : List V) : MemProg V Bool := do
  let cuts ← each (List.range P.inRank) fun i => do
    let es ← each (List.range (P.cols + 1)) fun j => do
      let q ← get P.ringQOut
      put v.extBuf (O.fn .addHalf [q, inv.getD (j * P.inRank + i) pfv])
      let tb ← get v.ext
      let x ← get v.extBuf
      let q ← get P.ringQ
      pure (O.fn .modUp [tb, x, q])
    let q ← get P.ringQ
    let s ← get v.inCutOff
    let ck ← get v.ck
    pure (O.fn (.innerCut i) (q :: s :: ck :: pfv :: chals ++ es))
  verifyNormProg O .normIn v.ecd.rns (res ++ cuts)

/-- verifier.go:199-218 (`verifyConsistency`) -/
def verifyConsistencyProg (P : CopyParams) (v : VerifierObj V) (x : V) (chals : List V) (pfv : V) :
    MemProg V Bool := do
  let ls ← each (List.range P.rows) fun i => encodeProg O P v.ecd [O.fn (.left i) [x]]
  let q ← get P.ringQ
  pure (O.test .consistent (q :: pfv :: chals ++ ls))

/-- verifier.go:221-257 (`verifyEval`); `inv` are the polynomials `pfInv.Partial`. -/
def verifyEvalProg (P : CopyParams) (v : VerifierObj V) (x : V) (batch ys inv : List V) :
    MemProg V Bool := do
  let bs ← (if ys.length > 1 then each batch fun c => do
      let q ← get P.ringQ
      decodeProg O P v.ecd (O.fn .invBatch [q, c])
    else pure [])
  let ds ← each inv (decodeProg O P v.ecd)
  pure (O.test .evalEq (x :: O.fn .yBatch (ys ++ bs.flatten) :: ds.flatten))

/-- verifier.go:50-131 (`Verify`) -/
def verifyProg (P : CopyParams) (v : VerifierObj V) (x : V) (com ys : List (CallArg V))
    (pf : CallArg V) : MemProg V Bool := do
  -- 56-82
  let ck ← get v.ck
  let coms ← each com CallArg.prog
  let q ← get P.ringQ
  let qOut ← get P.ringQOut
  let batch := if com.length > 1 then
    (List.range com.length).map fun i => O.fn (.batchChal i) (q :: ck :: x :: coms) else []
  let batchOut := if com.length > 1 then
    (List.range com.length).map fun i => O.fn (.batchChalOut i) (qOut :: ck :: x :: coms) else []
  -- 84-95
  let pfv ← pf.prog
  let chals := (List.range P.cols).map fun i => O.fn (.chal i) (q :: ck :: x :: pfv :: coms)
  -- 97-113
  let partials := (List.range P.cols).map fun i => O.fn (.invPartial i) [q, pfv]
  let res := (List.range P.rows).map (fun i => O.fn (.invEncode i) [q, pfv]) ++
    (List.range (P.mlweRank + P.inRank)).map fun i => O.fn (.invMlwe i) [q, pfv]
  let inv := (List.range P.dcmpLen).map fun i => O.fn (.invIn i) [qOut, pfv]
  -- 115-130
  let b ← verifyOuterProg O P v batchOut coms pfv inv
  if b then do
    let b ← verifyInnerProg O P v chals pfv res inv
    if b then do
      let b ← verifyConsistencyProg O P v x chals pfv
      if b then do
        let yv ← each ys CallArg.prog
        verifyEvalProg O P v x batch yv partials
      else pure false
    else pure false
  else pure false

/-- What a goroutine does with its verifier: calls of `Verify`, each depending on the answers before. -/
inductive VerifyClient (V : Type) : Type
  | done (r : V)
  | verify (x : V) (com ys : List (CallArg V)) (pf : CallArg V) (k : Bool → VerifyClient V)

/-- The accesses of a goroutine that uses the verifier `v`. -/
def VerifyClient.prog (P : CopyParams) (v : VerifierObj V) : VerifyClient V → MemProg V V
  | .done r => .ret r
  | .verify x com ys pf k => (verifyProg O P v x com ys pf).bind fun b => (k b).prog P v

end
end Ringo
