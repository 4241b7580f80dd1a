import Verif.Model.Piop

/-!
# Model of `examples/mult/main.go` and `examples/bfv/main.go`

The programs are modelled up to what they print: the result is the verdict of `Verify`, and a Go panic where the
program panics.

Simplifications.

* What `main` draws at random, the commitment scheme made by `Compile` from the CRS, the hash functions, the
  prover's randomness and the order of map iteration are parameters.
* The circuit's `NTTChecker` field is whatever tree `reflect` sees in it (`chk`); as a linear checker it is the
  result of `NewNTTChecker`.
* lattigo's part of the BFV example (key generation, encryption, conversion to big integers) is not modelled: its
  results are parameters.
-/

namespace Ringo

section
variable {p : Nat} [Fact p.Prime]

/-- What both programs are run with. -/
structure Run (p : Nat) where
  pcs : PCS (ZMod p)
  hash : Bytes → Bytes
  xof : Bytes → Nat → UInt8
  marshal : ZMod p → Bytes
  setBytes : Bytes → ZMod p
  tape : Tape (ZMod p) pcs.Rnd
  /-- the order in which the prover iterates over the maps of its context -/
  ord : Context (ZMod p) → Orders
  /-- the order in which the verifier does -/
  two : Context (ZMod p) → List TwoEntry

/-- The environment of the protocol: the only checker is the one of `NewNTTChecker`. -/
def Run.env (R : Run p) (L : LinearChecker (ZMod p)) : Env (ZMod p) :=
  ⟨R.pcs, R.hash, R.xof, R.marshal, R.setBytes, fun _ => L⟩

/-- `prover.Prove`, the check of its error, and `verifier.Verify` (examples/mult/main.go:111-124,
examples/bfv/main.go:207-218). -/
def proveAndVerify (R : Run p) (L : LinearChecker (ZMod p)) (cp : Compilation (ZMod p)) (ty : Nat)
    (assignment publicAssignment : Val (ZMod p)) : Go Bool := do
  match ← prove (R.env L) cp R.tape (R.ord cp.ctx) ⟨ty, assignment⟩ with
  | none => goPanic
  | some proof => verify (R.env L) cp (R.two cp.ctx) ⟨ty, publicAssignment⟩ proof

/-! ## examples/mult -/

/-- examples/mult/main.go:35-45 (`MultCircuit`). -/
structure MultCircuit (F : Type) where
  nttChecker : Val F
  yNTT : List F
  xCoeffs : List F
  zCoeffs : List F
  xNTT : List F
  zNTT : List F

/-- What `reflect` sees behind a `*MultCircuit`. -/
def MultCircuit.val {F : Type} (c : MultCircuit F) : Val F :=
  .ptr (.fields [c.nttChecker, .pub true true c.yNTT, .wit true true c.xCoeffs, .wit true true c.zCoeffs,
    .wit true true c.xNTT, .wit true true c.zNTT])

/-- The fields after a walk has written to them. -/
def MultCircuit.read {F : Type} : Val F → Go (MultCircuit F)
  | .ptr (.fields [chk, .pub _ _ y, .wit _ _ xc, .wit _ _ zc, .wit _ _ xn, .wit _ _ zn]) => pure ⟨chk, y, xc, zc, xn, zn⟩
  | _ => goPanic

/-- examples/mult/main.go:48-65 (`Define`).  The handles in the fields are turned into indices by the context's
methods (context.go:97-109, constraint.go:33-53). -/
def MultCircuit.define (c : MultCircuit (ZMod p)) : Go (List (CtxOp (ZMod p))) := do
  let y ← witnessToID c.yNTT
  let xc ← witnessToID c.xCoeffs
  let zc ← witnessToID c.zCoeffs
  let xn ← witnessToID c.xNTT
  let zn ← witnessToID c.zNTT
  let multConstraint : Constraint (ZMod p) := []
  let multConstraint := multConstraint.addTermWithConst 1 (some y.toNat) [xn.toNat]
  let multConstraint := multConstraint.addTermWithConst (-1) none [zn.toNat]
  pure [.lin xn.toNat xc.toNat 0, .lin zn.toNat zc.toNat 0, .arith multConstraint, .inf xc.toNat 5]

/-- compile.go:164-207 (`Compile`) on a `*MultCircuit`. -/
def compileMult (rank ty : Nat) (c : MultCircuit (ZMod p)) : Go (Compilation (ZMod p)) := do
  let w := firstWalk c.val ⟨0, 0⟩
  let c ← MultCircuit.read w.1
  let ops ← c.define
  compile rank ty w.2.1.pw w.2.1.w ops

/-- examples/mult/main.go:67-129 (`main`), for any rank.  `rx` and `ry` are the values of `rand.Int63()`. -/
def multMain (R : Run p) (rank ty : Nat) (chk : Val (ZMod p)) (rx ry : Nat → Nat) : Go Bool := do
  let ringQ ← newCyclotomicEvaluator p rank
  let X : Poly (ZMod p) := ⟨(List.range ringQ.rank).map (fun i => ((rx i % 6 : Nat) : ZMod p)), false⟩
  let Y : Poly (ZMod p) := ⟨(List.range ringQ.rank).map (fun i => ((ry i : Nat) : ZMod p)), false⟩
  let XNTT ← ringQ.toNTT X
  let YNTT ← ringQ.toNTT Y
  let ZNTT ← ringQ.mul XNTT YNTT
  let Z ← ringQ.toCoeff ZNTT
  let L ← newNTTChecker p rank
  let cp ← compileMult rank ty ⟨chk, [], [], [], [], []⟩
  proveAndVerify R L cp ty
    (MultCircuit.val ⟨.nilPtr, YNTT.coeffs, X.coeffs, Z.coeffs, XNTT.coeffs, ZNTT.coeffs⟩)
    (MultCircuit.val ⟨.nilPtr, YNTT.coeffs, [], [], [], []⟩)

/-! ## examples/bfv -/

/-- examples/bfv/main.go:30-47 (`CiphertextCircuit`). -/
structure CtCircuit (F : Type) where
  nttChecker : Val F
  plaintextModulus : Nat
  errBound : Nat
  ctNTT0 : List F
  ctNTT1 : List F
  secretKeyNTT : List F
  delta : Int
  messageNTT : List F
  messageCoeffs : List F
  errorNTT : List F
  errorCoeffs : List F

/-- What `reflect` sees behind a `*CiphertextCircuit`: `NTTChecker`, `Degree`, `PlaintextModulus`, `ErrBound`,
the array `CiphertextNTT`, `SecretKeyNTT`, `Delta` (`dl`: a nil pointer, or a pointer to a `big.Int`), and the
remaining witnesses. -/
def CtCircuit.val {F : Type} (dl : Val F) (c : CtCircuit F) : Val F :=
  .ptr (.fields [c.nttChecker, .other, .other, .other, .fields [.pub true true c.ctNTT0, .pub true true c.ctNTT1],
    .wit true true c.secretKeyNTT, dl, .wit true true c.messageNTT, .wit true true c.messageCoeffs,
    .wit true true c.errorNTT, .wit true true c.errorCoeffs])

/-- The fields after a walk has written to the witnesses. -/
def CtCircuit.read {F : Type} (c : CtCircuit F) : Val F → Go (CtCircuit F)
  | .ptr (.fields [chk, _, _, _, .fields [.pub _ _ c0, .pub _ _ c1], .wit _ _ s, _, .wit _ _ mn, .wit _ _ mc,
      .wit _ _ en, .wit _ _ ec]) =>
    pure ⟨chk, c.plaintextModulus, c.errBound, c0, c1, s, c.delta, mn, mc, en, ec⟩
  | _ => goPanic

/-- examples/bfv/main.go:49-68 (`Define`). -/
def CtCircuit.define (c : CtCircuit (ZMod p)) : Go (List (CtxOp (ZMod p))) := do
  let c0 ← witnessToID c.ctNTT0
  let c1 ← witnessToID c.ctNTT1
  let s ← witnessToID c.secretKeyNTT
  let mn ← witnessToID c.messageNTT
  let mc ← witnessToID c.messageCoeffs
  let en ← witnessToID c.errorNTT
  let ec ← witnessToID c.errorCoeffs
  let ctConstraint : Constraint (ZMod p) := []
  let ctConstraint := ctConstraint.addTermWithConst 1 (some c0.toNat) []
  let ctConstraint := ctConstraint.addTermWithConst 1 (some c1.toNat) [s.toNat]
  let ctConstraint := ctConstraint.addTermWithConst ((-c.delta : Int) : ZMod p) none [mn.toNat]
  let ctConstraint := ctConstraint.addTermWithConst (-1) none [en.toNat]
  pure [.lin mn.toNat mc.toNat 0, .lin en.toNat ec.toNat 0, .arith ctConstraint,
    .inf mc.toNat ((c.plaintextModulus - 1 : Nat) : Int), .inf ec.toNat (c.errBound : Int)]

/-- compile.go:164-207 (`Compile`) on a `*CiphertextCircuit`. -/
def compileCt (rank ty : Nat) (dl : Val (ZMod p)) (c : CtCircuit (ZMod p)) : Go (Compilation (ZMod p)) := do
  let w := firstWalk (c.val dl) ⟨0, 0⟩
  let c ← c.read w.1
  let ops ← c.define
  compile rank ty w.2.1.pw w.2.1.w ops

/-- examples/bfv/main.go:161-164: `delta`, the inverse of `t` modulo `Q` moved to the modulus of the field. -/
def bfvDelta (p : Nat) (tInv Q : Int) : Int := tInv * p / Q

/-- examples/bfv/main.go:127-223 (`main`, after lattigo's encryption and transforms; cyclotomic.go:92-96 is `ModSwitch`), for any ring degree and moduli.  `sk`,
`pt`, `ct0`, `ct1` are the centred coefficients of the secret key, the plaintext and the ciphertext, `Q` the
ciphertext modulus, `t` the plaintext modulus and `tInv` the inverse of `t` modulo `Q`. -/
def bfvMain (R : Run p) (rank ty : Nat) (chk dl : Val (ZMod p)) (sk pt ct0 ct1 : List Int) (Q tInv : Int) (t : Nat) :
    Go Bool := do
  let bigringQ ← newCyclotomicEvaluator p rank
  let skNTT ← bigringQ.toNTT ⟨sk.map (fun (c : Int) => (c : ZMod p)), false⟩
  let ptCoeffs : Poly (ZMod p) := ⟨pt.map (fun (c : Int) => (c : ZMod p)), false⟩
  let ptNTT ← bigringQ.toNTT ptCoeffs
  let ctCoeffs0 ← modSwitchTo bigringQ.rank p (newPoly bigringQ.rank false) ct0 Q
  let ctCoeffs1 ← modSwitchTo bigringQ.rank p (newPoly bigringQ.rank false) ct1 Q
  let ctNTT0 ← bigringQ.toNTT ctCoeffs0
  let ctNTT1 ← bigringQ.toNTT ctCoeffs1
  let delta := bfvDelta p tInv Q
  let errNTT := newPoly bigringQ.rank true
  let errNTT ← bigringQ.mulTo errNTT ctNTT1 skNTT
  let errNTT ← bigringQ.addTo errNTT errNTT ctNTT0
  let errNTT ← bigringQ.scalarMulSubTo errNTT ptNTT (delta : ZMod p)
  let errCoeffs ← bigringQ.toCoeff errNTT
  let errBound := rank + t
  let L ← newNTTChecker p bigringQ.rank
  let cp ← compileCt bigringQ.rank ty dl ⟨chk, t, errBound, [], [], [], delta, [], [], [], []⟩
  proveAndVerify R L cp ty
    (CtCircuit.val .nilPtr ⟨.nilPtr, 0, 0, ctNTT0.coeffs, ctNTT1.coeffs, skNTT.coeffs, 0, ptNTT.coeffs,
      ptCoeffs.coeffs, errNTT.coeffs, errCoeffs.coeffs⟩)
    (CtCircuit.val .nilPtr ⟨.nilPtr, 0, 0, ctNTT0.coeffs, ctNTT1.coeffs, [], 0, [], [], [], []⟩)

end

end Ringo
