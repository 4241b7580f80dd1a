import Verif.Model.JFloat
import Verif.Model.Csprng

/-!
# The slices of `jindo/entities.go`

`Model/JProto.lean` takes a polynomial for an element of a ring.  Here it is what it is in the program: a slice
of rows (`ring.Poly.Coeffs`), one for each prime, every access of which is checked.

Simplifications.
* The methods of lattigo's `SubRing` (addition, multiplication, number theoretic transform, Montgomery form) are
  functions on rows; the theorems hold for all functions that keep the length of the row.
* So are `randEncodeTo` and the sampling of the MLWE polynomials, on the rows of their targets.
* The two halves of a transform (`IMForm` and `INTT`, `MForm` and `NTT`) are one operation.
-/

namespace Ringo

/-- What the code uses of lattigo's `ring.Ring`: the moduli of `SubRings` and `N`. -/
structure LimbRing where
  moduli : List Nat
  n : Nat

/-- `ring.Poly`: the rows `Coeffs[i]`. -/
abbrev LimbPoly := List (List Nat)

/-- `Ring.NewPoly`. -/
def LimbRing.newPoly (R : LimbRing) : LimbPoly := List.replicate R.moduli.length (List.replicate R.n 0)

/-- A method of `ring.Ring` with operands `ps` and target `t`:
`for i := range SubRings { t.Coeffs[i] = f(i, ps.Coeffs[i], t.Coeffs[i]) }`. -/
def LimbRing.op (R : LimbRing) (f : Nat → List (List Nat) → List Nat → List Nat) (ps : List LimbPoly)
    (t : LimbPoly) : Go LimbPoly :=
  forRange 0 R.moduli.length 1 t fun t i => do
    let rows ← ps.mapM fun p => idx p i
    let row ← idx t i
    setIdx t i (f i rows row)

/-- `l[i] = f(l[i])`. -/
def modIdx {α : Type} (l : List α) (i : Nat) (f : α → Go α) : Go (List α) := do
  let x ← idx l i
  let y ← f x
  setIdx l i y

/-- params.go:64-123: what `entities.go` and `Commit` use of `Parameters`. -/
structure LimbPar where
  rank : Nat
  rows : Nat
  cols : Nat
  slots : Nat
  inRank : Nat
  mlweRank : Nat
  outRank : Nat
  dcmpLen : Nat
  ringQ : LimbRing
  ringQOut : LimbRing

/-- The dimensions of the parameters; both rings have degree `d` (params.go:138, 289, 299). -/
noncomputable def RParams.limbPar (P : RParams) : LimbPar :=
  { rank := P.shape.rank
    rows := P.shape.rows
    cols := P.shape.cols
    slots := P.shape.slots
    inRank := P.inRank.toNat
    mlweRank := P.mlweRank.toNat
    outRank := P.outRank.toNat
    dcmpLen := P.dcmpLen.toNat
    ringQ := ⟨P.qs.getD [], max P.shape.exp 256⟩
    ringQOut := ⟨P.qs'.getD [], max P.shape.exp 256⟩ }

/-! ## `NewCommitKey` -/

/-- uniform.go:85-93 (`SampleN`) on the words `w` of the stream from position `pos` on: the sample and the new
position. -/
noncomputable def sampleNAt (w : Nat → Nat) (pos n : Nat) : Go (Nat × Nat) := do
  let bound ← sampleNBound n
  forever pos fun i => pure (if w i < bound then some (w i % n, i + 1) else none)

/-- entities.go:28-33, 42-47, 56-61: a polynomial of the key; `N` is `ringQOut.N()` also for the polynomials
over `ringQ`. -/
noncomputable def keyPoly (w : Nat → Nat) (R : LimbRing) (N : Nat) (pos : Nat) : Go (LimbPoly × Nat) :=
  forRange 0 N 1 (R.newPoly, pos) fun s k =>
    forRange 0 R.moduli.length 1 s fun s l => do
      let q ← idx R.moduli l
      let (x, pos) ← sampleNAt w s.2 q
      let p ← modIdx s.1 l fun row => setIdx row k x
      pure (p, pos)

/-- entities.go:25-35, 39-49, 53-63: a matrix of the key. -/
noncomputable def keyMat (w : Nat → Nat) (R : LimbRing) (N a b : Nat) (pos : Nat) :
    Go (List (List LimbPoly) × Nat) :=
  forRange 0 a 1 (([] : List (List LimbPoly)), pos) fun s _ => do
    let (row, pos) ← forRange 0 b 1 (([] : List LimbPoly), s.2) fun s _ => do
      let (p, pos) ← keyPoly w R N s.2
      pure (s.1 ++ [p], pos)
    pure (s.1 ++ [row], pos)

/-- entities.go:11-18 (`CommitKey`). -/
structure LimbKey where
  crs : List (BitVec 8)
  inn : List (List LimbPoly)
  mlwe : List (List LimbPoly)
  out : List (List LimbPoly)

/-- entities.go:21-73 (`NewCommitKey`); `w` are the words `NewUniformSamplerWithSeed(crs)` produces. -/
noncomputable def newCommitKey (P : LimbPar) (w : List (BitVec 8) → Nat → Nat) (crs : List (BitVec 8)) :
    Go LimbKey := do
  let (inn, pos) ← keyMat (w crs) P.ringQ P.ringQOut.n P.inRank P.rows 0
  let (mlwe, pos) ← keyMat (w crs) P.ringQ P.ringQOut.n P.inRank P.mlweRank pos
  let (out, _) ← keyMat (w crs) P.ringQOut P.ringQOut.n P.outRank P.dcmpLen pos
  pure ⟨crs, inn, mlwe, out⟩

/-! ## `NewCommitment`, `NewOpening`, `NewProof` -/

/-- entities.go:85-94 (`NewCommitment`). -/
def newCommitment (P : LimbPar) : List LimbPoly := List.replicate P.outRank P.ringQ.newPoly

/-- entities.go:103-107 (`Opening`). -/
structure LimbOpen where
  inCommit : List LimbPoly
  encode : List (List LimbPoly)
  mlwe : List (List LimbPoly)

/-- entities.go:110-136 (`NewOpening`). -/
def newOpening (P : LimbPar) : LimbOpen :=
  { inCommit := List.replicate P.dcmpLen P.ringQOut.newPoly
    encode := List.replicate (P.cols + 1) (List.replicate P.rows P.ringQ.newPoly)
    mlwe := List.replicate (P.cols + 1) (List.replicate (P.mlweRank + P.inRank) P.ringQ.newPoly) }

/-- entities.go:140-147 (`Proof`). -/
structure LimbProof where
  inCommit : List LimbPoly
  parts : List LimbPoly
  partMask : LimbPoly
  encode : List LimbPoly
  mlwe : List LimbPoly

/-- entities.go:150-180 (`NewProof`). -/
def newProof (P : LimbPar) : LimbProof :=
  { parts := List.replicate P.cols P.ringQ.newPoly
    partMask := P.ringQ.newPoly
    encode := List.replicate P.rows P.ringQ.newPoly
    mlwe := List.replicate (P.mlweRank + P.inRank) P.ringQ.newPoly
    inCommit := List.replicate P.dcmpLen P.ringQ.newPoly }

/-! ## `Commit` -/

/-- The functions on the rows of a ring. -/
structure RowFns where
  /-- `MulCoeffsMontgomeryThenAdd` -/
  mulAdd : Nat → List (List Nat) → List Nat → List Nat
  /-- `Add` with the target as second operand -/
  add : Nat → List (List Nat) → List Nat → List Nat
  /-- `IMForm`, then `INTT` -/
  unload : Nat → List (List Nat) → List Nat → List Nat
  /-- `MForm`, then `NTT` -/
  load : Nat → List (List Nat) → List Nat → List Nat

/-- What `Commit` writes to its polynomials, and the operations of the two rings. -/
structure ComFns where
  /-- `randEncodeTo` for column `i` and row `j` -/
  enc : Nat → Nat → Nat → List (List Nat) → List Nat → List Nat
  /-- prover.go:131-142: the MLWE polynomial `j` of column `i` -/
  mlwe : Nat → Nat → Nat → List (List Nat) → List Nat → List Nat
  q : RowFns
  qOut : RowFns
  inCut : Nat
  outCut : Nat

/-- rns.go:76-105 (`reconstructTo`).  All residues of a coefficient are read first; the program reads them as
it needs them, but when one of the rows is missing it gets there for every coefficient. -/
def reconRows (R : LimbRing) (p : LimbPoly) : Go (List Int) :=
  (List.range R.n).mapM fun i => do
    let cs ← (List.range R.moduli.length).mapM fun j => do
      let row ← idx p j
      idx row i
    reconstruct1 (cs.zip R.moduli)

/-- rns.go:108-114 (`setBigCoeffTo`). -/
def setBigRows (R : LimbRing) (p : LimbPoly) (v : List Int) : Go LimbPoly :=
  forRange 0 R.n 1 p fun p i =>
    forRange 0 R.moduli.length 1 p fun p l => do
      let q ← idx R.moduli l
      let z ← idx v i
      modIdx p l fun row => setIdx row i (bigResidue z q)

section
variable (P : LimbPar) (F : ComFns) (K : LimbKey)

/-- prover.go:103-112, 118-126: the rows between the first and the last, up to the `break`; `len` is
`len(v)`. -/
def limbMiddle (len i : Nat) (enc : List LimbPoly) : Go (List LimbPoly) := do
  let s ← forRange 1 (P.rows - 1) 1 (enc, false) fun s j =>
    if s.2 then pure s
    else
      let idxStart := if i = P.cols then j * P.cols * P.slots else j * P.cols * P.slots + i * P.slots
      let idxEnd := j * P.cols * P.slots + (i + 1) * P.slots
      if idxStart > len then pure (s.1, true)
      else if i ≠ P.cols ∧ min idxEnd len < idxStart then goPanic
      else do
        let enc ← modIdx s.1 j fun t => P.ringQ.op (F.enc i j) [] t
        pure (enc, false)
  pure s.1

/-- prover.go:88-128: the encodings of column `i`. -/
def limbEncode (len i : Nat) (enc : List LimbPoly) : Go (List LimbPoly) := do
  let enc ← modIdx enc 0 fun t => P.ringQ.op (F.enc i 0) [] t
  let enc ← limbMiddle P F len i enc
  if P.rows = 0 then goPanic
  else modIdx enc (P.rows - 1) fun t => P.ringQ.op (F.enc i (P.rows - 1)) [] t

/-- prover.go:130-142: the MLWE polynomials of column `i`. -/
def limbMLWE (i : Nat) (mlwe : List LimbPoly) : Go (List LimbPoly) :=
  forRange 0 (P.inRank + P.mlweRank) 1 mlwe fun mlwe j =>
    modIdx mlwe j fun t => do
      let t ← P.ringQ.op (F.mlwe i j) [] t
      P.ringQ.op F.q.load [] t

/-- prover.go:144-158: the inner commitment to a column. -/
def limbInner (enc mlwe : List LimbPoly) : Go (List LimbPoly) :=
  forRange 0 P.inRank 1 (List.replicate P.inRank P.ringQ.newPoly) fun com j => do
    let com ← modIdx com j fun t =>
      forRange 0 P.rows 1 t fun t k => do
        let row ← idx K.inn j
        let a ← idx row k
        let e ← idx enc k
        P.ringQ.op F.q.mulAdd [a, e] t
    let com ← modIdx com j fun t =>
      forRange 0 P.mlweRank 1 t fun t k => do
        let row ← idx K.mlwe j
        let a ← idx row k
        let m ← idx mlwe k
        P.ringQ.op F.q.mulAdd [a, m] t
    modIdx com j fun t => do
      let m ← idx mlwe (P.mlweRank + j)
      P.ringQ.op F.q.add [m] t

/-- prover.go:165-176: the inner commitment is cut off and written to the opening. -/
def limbTruncate (i : Nat) (com inCommit : List LimbPoly) : Go (List LimbPoly) := do
  let s ← forRange 0 P.inRank 1 (com, inCommit) fun s j => do
    let com ← modIdx s.1 j fun t => P.ringQ.op F.q.unload [] t
    let c ← idx com j
    let big ← reconRows P.ringQ c
    let inCommit ← modIdx s.2 (i * P.inRank + j) fun t => do
      let t ← setBigRows P.ringQOut t (big.map fun (z : Int) => z >>> F.inCut)
      P.ringQOut.op F.qOut.load [] t
    pure (com, inCommit)
  pure s.2

/-- prover.go:88-177 (`commitColTo`). -/
def limbCol (len i : Nat) (op : LimbOpen) : Go LimbOpen := do
  let encode ← modIdx op.encode i (limbEncode P F len i)
  let mlwe ← modIdx op.mlwe i (limbMLWE P F i)
  let e ← idx encode i
  let m ← idx mlwe i
  let com ← limbInner P F K e m
  let inCommit ← limbTruncate P F i com op.inCommit
  pure ⟨inCommit, encode, mlwe⟩

/-- prover.go:180-204 (`outerCommitTo`). -/
def limbOuter (com : List LimbPoly) (op : LimbOpen) : Go (List LimbPoly) :=
  forRange 0 P.outRank 1 com fun com i => do
    let com ← forRange 0 P.dcmpLen 1 com fun com j => do
      let row ← idx K.out i
      let a ← idx row j
      let b ← idx op.inCommit j
      modIdx com i fun t => P.ringQOut.op F.qOut.mulAdd [a, b] t
    let com ← modIdx com i fun t => P.ringQOut.op F.qOut.unload [] t
    let c ← idx com i
    let big ← reconRows P.ringQOut c
    modIdx com i fun t => do
      let t ← setBigRows P.ringQOut t (big.map fun (z : Int) => z >>> F.outCut)
      P.ringQOut.op F.qOut.load [] t

/-- prover.go:46-65 (`Commit`) for a vector of length `len`.  Lines 72 and 76 access the last element of the last
row and the first of `v`. -/
def limbCommit (len : Nat) : Go (List LimbPoly × LimbOpen) := do
  if len > P.rank then goPanic
  else if P.cols * P.slots = 0 then goPanic
  else if len = 0 then goPanic
  else
    let op ← forRange 0 (P.cols + 1) 1 (newOpening P) fun op i => limbCol P F K len i op
    let com ← limbOuter P F K (newCommitment P) op
    pure (com, op)

end

end Ringo
