import Verif.Model.JEncoder
import Verif.Model.Poly

/-!
# Model of `jindo/prover.go` and `jindo/verifier.go`

lattigo's rings are a parameter (`LRing`): a type `T` of polynomials as they are kept between
operations (NTT domain, Montgomery form), and the operations the code calls.  What they are assumed
to do is stated separately, in `Verif.Spec.Lattigo`.

Simplifications.
* `MForm` and `NTT` are always called together, and so are `IMForm` and `INTT`: each pair is one
  operation.  A polynomial in the coefficient domain is the list of its coefficients, each the list
  of its residues.
* The oracle (SHAKE128) is an arbitrary function of what was written to it since the last `Reset`:
  `xof msgs i` is the result of the `i`-th read of 16 bytes after that.
* The random samples and elements are arbitrary arguments.
* The polynomials of a commitment, opening or proof are returned instead of being written into
  fresh ones.
-/

namespace Ringo

/-- The operations of a lattigo ring. -/
structure LRing (T : Type) where
  /-- The moduli, `SubRings[i].Modulus`. -/
  qs : List Nat
  N : Nat
  /-- `MForm`, then `NTT`. -/
  load : List (List Nat) → T
  /-- `IMForm`, then `INTT`. -/
  unload : T → List (List Nat)
  /-- `MulCoeffsMontgomery`. -/
  mul : T → T → T
  /-- `MulRNSScalarMontgomery` by the scalar whose Montgomery form was computed from the given
  number (verifier.go:28-36). -/
  scale : Nat → T → T

/-- What `Commit`, `Evaluate` and `Verify` write to the oracle. -/
inductive JMsg (T T' F : Type)
  /-- the CRS (entities.go:75-77) -/
  | crs (b : List (BitVec 8))
  /-- a polynomial of a commitment (entities.go:96-100) -/
  | com (c : T')
  /-- `x.Marshal()` -/
  | point (x : F)
  /-- the bytes of the batching challenges -/
  | bytes (b : List (BitVec 8))
  /-- a polynomial of the proof -/
  | poly (a : T)

/-- params.go:64-123 (`Parameters`), as far as the protocol uses it.  `resNm` and `dcmpNm` are the
norm bounds `resTwoNm` and `inComDcmpTwoNm`. -/
structure JPar where
  enc : EncParams
  mat : MatParams
  batch : Nat
  inRank : Nat
  outRank : Nat
  mlweRank : Nat
  inCut : Nat
  outCut : Nat
  dcmpLen : Nat
  resNm : ℚ
  dcmpNm : ℚ

/-- entities.go:11-18 (`CommitKey`). -/
structure JKey (T T' : Type) where
  crs : List (BitVec 8)
  inn : List (List T)
  mlwe : List (List T)
  out : List (List T')

/-- entities.go:103-107 (`Opening`). -/
structure JOpen (T T' : Type) where
  inCommit : List T'
  encode : List (List T)
  mlwe : List (List T)

/-- entities.go:141-148 (`Proof`). -/
structure JProof (T T' : Type) where
  inCommit : List T'
  parts : List T
  partMask : T
  encode : List T
  mlwe : List T

/-- What prover and verifier share (prover.go:14-25, verifier.go:12-22), and the environment:
`modUp` is `embQOutToQ.ModUpQtoP`, `toFloat` is `big.Int.Float64`. -/
structure JEnv (p : Nat) (T T' : Type) where
  par : JPar
  ringQ : LRing T
  ringQ' : LRing T'
  modUp : List (List Nat) → List (List Nat)
  key : JKey T T'
  xof : List (JMsg T T' (ZMod p)) → Nat → List (BitVec 8)
  toFloat : Nat → ℚ

section
variable {T : Type} [AddCommGroup T]

/-- A loop `for k := range n { ...ThenAdd(..., acc) }`; `f k` is the product that is added. -/
def accLoop (n : Nat) (init : T) (f : Nat → Go T) : Go T :=
  forRange 0 n 1 init fun acc k => do
    let t ← f k
    pure (acc + t)

/-- A loop `for k := range n { ...ThenSub(..., acc) }`. -/
def subLoop (n : Nat) (init : T) (f : Nat → Go T) : Go T :=
  forRange 0 n 1 init fun acc k => do
    let t ← f k
    pure (acc - t)

/-- `l[i][j]`. -/
def idxIdx {α : Type} (l : List (List α)) (i j : Nat) : Go α := do
  let r ← idx l i
  idx r j

/-- The coefficients of a fresh polynomial. -/
def zeroPoly (L : LRing T) : List (List Nat) := List.replicate L.N (L.qs.map fun _ => 0)

/-- utils.go:20-46 (`encodeChallengeTo`). -/
def chalPoly (P : EncParams) (L : LRing T) (bytes : List (BitVec 8)) : Go T := do
  let cs ← chalCoeffs P.ecd L.qs bytes
  let poly ← forRange 0 P.ecd.exp 1 (zeroPoly L) fun poly i => do
    let c ← idx cs i
    setIdx poly (i * P.slots) c
  pure (L.load poly)

/-- encoder.go:112-117 (`encodeTo`), into a fresh polynomial. -/
def encodePoly {p : Nat} (P : EncParams) (L : LRing T) (v : List (ZMod p)) : Go T := do
  let row ← baseEncode P (List.replicate P.N 0) v
  pure (L.load (row.map fun r => L.qs.map fun _ => r))

/-- encoder.go:149-201 (`randEncodeTo`), with the change of representation. -/
def randPoly {p : Nat} (P : EncParams) (L : LRing T) (v : List (ZMod p)) (s : List Int) : Go T := do
  let poly ← randEncode P L.qs (List.replicate P.N 0) v s
  pure (L.load poly)

/-- prover.go:130-142: an MLWE polynomial, from the samples of its coefficients. -/
def mlwePoly (L : LRing T) (s : Nat → Int) : T :=
  L.load ((List.range L.N).map fun k => L.qs.map fun q => signedResidue (s k) q)

/-- prover.go:165-175 and 190-200: `reconstructTo`, `Rsh` (which rounds towards minus infinity) and
`setBigCoeffTo` for the moduli `qs'`. -/
def truncate {T' : Type} (L : LRing T) (L' : LRing T') (cut : Nat) (c : T) : Go T' := do
  let big ← reconstructTo L.qs (L.unload c)
  pure (L'.load (big.map fun (z : Int) => L'.qs.map fun q => bigResidue (z >>> cut) q))

end

/-- The randomness of one column: the samples of its cells, the mask elements and the MLWE
samples. -/
structure ColRand (p : Nat) where
  cell : Nat → Nat → Int
  mask : Nat → Nat → ZMod p
  mlwe : Nat → Nat → Int

/-- The randomness of `Commit`. -/
structure ComRand (p : Nat) where
  row : Nat → ZMod p
  col : Nat → ColRand p

namespace JEnv

variable {p : Nat} {T T' : Type} [AddCommGroup T] [AddCommGroup T'] (E : JEnv p T T')

/-- prover.go:93-115: what is encoded in row `j` of the mask column; `none` if the cell is left
zero. -/
def maskArg (v : List (ZMod p)) (mask : Nat → Nat → ZMod p) (j : Nat) : Option (List (ZMod p)) :=
  let u := (List.range E.par.mat.slots).map (mask j)
  if j = 0 then some u
  else if j = E.par.mat.rows - 1 then some u
  else if j * E.par.mat.cols * E.par.mat.slots > v.length then none
  else some u

/-- prover.go:93-128: what is encoded in cell `(i, j)`; `none` if the cell is left zero. -/
def colArg (v firstRow lastRow : List (ZMod p)) (r : ColRand p) (i j : Nat) :
    Go (Option (List (ZMod p))) :=
  if i = E.par.mat.cols then pure (E.maskArg v r.mask j)
  else cellArg E.par.mat v firstRow lastRow i j

/-- prover.go:93-128: the encodings of column `i`. -/
def encodeCol (v firstRow lastRow : List (ZMod p)) (r : ColRand p) (i : Nat) : Go (List T) :=
  (List.range E.par.mat.rows).mapM fun j => do
    let c ← E.colArg v firstRow lastRow r i j
    match c with
    | none => pure 0
    | some u => randPoly E.par.enc E.ringQ u ((List.range E.ringQ.N).map (r.cell j))

/-- prover.go:130-142: the MLWE polynomials of a column. -/
def mlweCol (r : ColRand p) : List T :=
  (List.range (E.par.inRank + E.par.mlweRank)).map fun j => mlwePoly E.ringQ (r.mlwe j)

/-- prover.go:149-157: polynomial `j` of the inner commitment to a column, before truncation. -/
def innerCom (enc mlwe : List T) (j : Nat) : Go T := do
  let c ← accLoop E.par.mat.rows 0 fun k => do
    let a ← idxIdx E.key.inn j k
    let e ← idx enc k
    pure (E.ringQ.mul a e)
  let c ← accLoop E.par.mlweRank c fun k => do
    let a ← idxIdx E.key.mlwe j k
    let m ← idx mlwe k
    pure (E.ringQ.mul a m)
  let m ← idx mlwe (E.par.mlweRank + j)
  pure (m + c)

/-- prover.go:88-177 (`commitColTo`): the encodings, the MLWE polynomials and the truncated inner
commitment of column `i`. -/
def commitCol (v firstRow lastRow : List (ZMod p)) (r : ColRand p) (i : Nat) :
    Go (List T × List T × List T') := do
  let enc ← E.encodeCol v firstRow lastRow r i
  let mlwe := E.mlweCol r
  let com ← (List.range E.par.inRank).mapM fun j => do
    let c ← E.innerCom enc mlwe j
    truncate E.ringQ E.ringQ' E.par.inCut c
  pure (enc, mlwe, com)

/-- prover.go:180-202 (`outerCommitTo`). -/
def outerCommit (inCommit : List T') : Go (List T') :=
  (List.range E.par.outRank).mapM fun i => do
    let c ← accLoop E.par.dcmpLen 0 fun j => do
      let a ← idxIdx E.key.out i j
      let t ← idx inCommit j
      pure (E.ringQ'.mul a t)
    truncate E.ringQ' E.ringQ' E.par.outCut c

/-- prover.go:42-62 (`Commit`).  The inner commitments of the columns are stored one after the other
(line 172). -/
def commit (v : List (ZMod p)) (r : ComRand p) : Go (List T' × JOpen T T') := do
  if v.length > E.par.mat.rank then goPanic
  else
    let fl ← genFirstLastRow E.par.mat r.row v
    let cols ← (List.range (E.par.mat.cols + 1)).mapM fun i =>
      E.commitCol v fl.1 fl.2 (r.col i) i
    let inCommit := cols.flatMap fun c => c.2.2
    let com ← E.outerCommit inCommit
    pure (com, ⟨inCommit, cols.map fun c => c.1, cols.map fun c => c.2.1⟩)

/-- prover.go:220-225 and verifier.go:56-61: what is written first. -/
def firstMsgs (x : ZMod p) (com : List (List T')) : List (JMsg T T' (ZMod p)) :=
  .crs E.key.crs :: (com.flatMap fun c => c.map .com) ++ [.point x]

/-- prover.go:233-240 and verifier.go:67-74: the bytes of the batching challenges. -/
def batchBytes (x : ZMod p) (com : List (List T')) : List (List (BitVec 8)) :=
  (List.range E.par.batch).map fun i => E.xof (E.firstMsgs x com) i

/-- The messages before the partial evaluations are written (prover.go:220-248, verifier.go:56-83;
with a batch of one, the oracle is not reset, and nothing has been read). -/
def startMsgs (x : ZMod p) (com : List (List T')) : List (JMsg T T' (ZMod p)) :=
  if E.par.batch > 1 then E.firstMsgs x com ++ [.bytes (E.batchBytes x com).flatten]
  else E.firstMsgs x com

/-- prover.go:231-240 and verifier.go:65-74: the batching challenges in both rings; with a batch of
one there are none. -/
def batchChals (x : ZMod p) (com : List (List T')) : Go (List T × List T') := do
  if E.par.batch > 1 then
    let b ← (E.batchBytes x com).mapM fun bs => chalPoly E.par.enc E.ringQ bs
    let b' ← (E.batchBytes x com).mapM fun bs => chalPoly E.par.enc E.ringQ' bs
    pure (b, b')
  else pure ([], [])

/-- prover.go:291-302 and verifier.go:85-96: the challenges of the columns, from the partial
evaluations. -/
def colChals (x : ZMod p) (com : List (List T')) (parts : List T) (partMask : T) : Go (List T) :=
  (List.range E.par.mat.cols).mapM fun i =>
    chalPoly E.par.enc E.ringQ
      (E.xof (E.startMsgs x com ++ parts.map .poly ++ [.poly partMask]) i)

/-- prover.go:250-268: the batched opening.  The loop over the batch is the inner one here; for
openings of the shape `Commit` makes there is no difference. -/
def batchOpen (b : List T) (b' : List T') (opens : List (JOpen T T')) : Go (JOpen T T') := do
  if E.par.batch > 1 then
    let inCommit ← (List.range E.par.dcmpLen).mapM fun j =>
      accLoop E.par.batch 0 fun i => do
        let o ← idx opens i
        let t ← idx o.inCommit j
        let c ← idx b' i
        pure (E.ringQ'.mul t c)
    let encode ← (List.range (E.par.mat.cols + 1)).mapM fun j =>
      (List.range E.par.mat.rows).mapM fun k =>
        accLoop E.par.batch 0 fun i => do
          let o ← idx opens i
          let t ← idxIdx o.encode j k
          let c ← idx b i
          pure (E.ringQ.mul t c)
    let mlwe ← (List.range (E.par.mat.cols + 1)).mapM fun j =>
      (List.range (E.par.mlweRank + E.par.inRank)).mapM fun k =>
        accLoop E.par.batch 0 fun i => do
          let o ← idx opens i
          let t ← idxIdx o.mlwe j k
          let c ← idx b i
          pure (E.ringQ.mul t c)
    pure ⟨inCommit, encode, mlwe⟩
  else idx opens 0

/-- prover.go:281-289: the partial evaluation of column `i`. -/
def partialEval (left : List T) (o : JOpen T T') (i : Nat) : Go T :=
  accLoop E.par.mat.rows 0 fun j => do
    let l ← idx left j
    let e ← idxIdx o.encode i j
    pure (E.ringQ.mul l e)

/-- prover.go:304-316: one polynomial of the response, from column entries `col j` (`j = cols` is
the mask). -/
def response (chals : List T) (col : List (List T)) (i : Nat) : Go T := do
  let m ← idxIdx col E.par.mat.cols i
  accLoop E.par.mat.cols m fun j => do
    let c ← idx chals j
    let e ← idxIdx col j i
    pure (E.ringQ.mul c e)

/-- prover.go:205-324 (`Evaluate`). -/
def evaluate (x : ZMod p) (v : List (List (ZMod p))) (com : List (List T'))
    (opens : List (JOpen T T')) : Go (List (ZMod p) × JProof T T') := do
  if v.length ≠ com.length ∨ v.length ≠ opens.length then goPanic
  else if v.length ≠ E.par.batch then goPanic
  else if v.any fun u => decide (u.length > E.par.mat.rank) then goPanic
  else
    let bb ← E.batchChals x com
    let o ← E.batchOpen bb.1 bb.2 opens
    let leftE ← leftVec E.par.mat x
    let left ← (List.range E.par.mat.rows).mapM fun i => do
      let l ← idx leftE i
      encodePoly E.par.enc E.ringQ [l]
    let parts ← (List.range E.par.mat.cols).mapM fun i => E.partialEval left o i
    let partMask ← E.partialEval left o E.par.mat.cols
    let chals ← E.colChals x com parts partMask
    let encode ← (List.range E.par.mat.rows).mapM fun i => E.response chals o.encode i
    let mlwe ← (List.range (E.par.mlweRank + E.par.inRank)).mapM fun i =>
      E.response chals o.mlwe i
    let evals ← v.mapM fun u => (Poly.mk u false).evaluate x
    pure (evals, ⟨o.inCommit, parts, partMask, encode, mlwe⟩)

/-- verifier.go:98-114: the polynomials `l` in the coefficient domain, written to `n` fresh ones;
writing beyond them panics. -/
def unloadTo {U : Type} (L : LRing U) (n : Nat) (l : List U) (zero : List (List Nat)) :
    Go (List (List (List Nat))) :=
  if l.length > n then goPanic
  else pure (l.map L.unload ++ List.replicate (n - l.length) zero)

/-- verifier.go:262-282 (`verifyNorm`); the two rings have the same degree. -/
def verifyNorm (qs : List Nat) (polys : List (List (List Nat))) (nm : ℚ) : Go Bool := do
  let bigs ← polys.mapM fun c => reconstructTo qs c
  let nmSq := (bigs.map fun z => (z.map fun c => (c * c).natAbs).sum).sum
  pure (decide (E.toFloat (Nat.sqrt nmSq) < nm))

/-- verifier.go:142-148: polynomial `i` of the commitment, batched. -/
def batchCom (b' : List T') (com : List (List T')) (i : Nat) : Go T' :=
  if E.par.batch > 1 then
    accLoop E.par.batch 0 fun j => do
      let c ← idxIdx com j i
      let b ← idx b' j
      pure (E.ringQ'.mul c b)
  else idxIdx com 0 i

/-- verifier.go:140-158: the remainder `i` of the outer commitment. -/
def outerCut (b' : List T') (com : List (List T')) (inCommit : List T') (i : Nat) : Go T' := do
  let c ← E.batchCom b' com i
  let c := E.ringQ'.scale (2 ^ E.par.outCut) c
  subLoop E.par.dcmpLen c fun j => do
    let a ← idxIdx E.key.out i j
    let t ← idx inCommit j
    pure (E.ringQ'.mul a t)

/-- verifier.go:136-161 (`verifyOuterCommitment`). -/
def verifyOuter (b' : List T') (com : List (List T')) (pf : JProof T T')
    (invCommit : List (List (List Nat))) : Go Bool := do
  let cut ← (List.range E.par.outRank).mapM fun i => E.outerCut b' com pf.inCommit i
  E.verifyNorm E.ringQ'.qs (invCommit ++ cut.map E.ringQ'.unload) E.par.dcmpNm

/-- verifier.go:170-197: the remainder `i` of the inner commitment. -/
def innerCut (chals : List T) (pf : JProof T T') (invCommit : List (List (List Nat))) (i : Nat) :
    Go T := do
  let c ← accLoop (E.par.mat.cols + 1) 0 fun j => do
    let t ← idx invCommit (j * E.par.inRank + i)
    let q := E.ringQ.load (E.modUp t)
    if j = E.par.mat.cols then pure q
    else do
      let c ← idx chals j
      pure (E.ringQ.mul q c)
  let c := E.ringQ.scale (2 ^ E.par.inCut) c
  let c ← subLoop E.par.mat.rows c fun j => do
    let a ← idxIdx E.key.inn i j
    let e ← idx pf.encode j
    pure (E.ringQ.mul a e)
  let c ← subLoop E.par.mlweRank c fun j => do
    let a ← idxIdx E.key.mlwe i j
    let m ← idx pf.mlwe j
    pure (E.ringQ.mul a m)
  let m ← idx pf.mlwe (E.par.mlweRank + i)
  pure (c - m)

/-- verifier.go:164-200 (`verifyInnerCommitment`). -/
def verifyInner (chals : List T) (pf : JProof T T')
    (invCommit invEncode invMLWE : List (List (List Nat))) : Go Bool := do
  let cut ← (List.range E.par.inRank).mapM fun i => E.innerCut chals pf invCommit i
  E.verifyNorm E.ringQ.qs (invEncode ++ invMLWE ++ cut.map E.ringQ.unload) E.par.resNm

/-- verifier.go:203-221 (`verifyConsistency`): the polynomial that must be zero.  `leftEcd` is used
again in every iteration; `baseEncodeTo` overwrites all of its coefficients (`C54`), so that a fresh one
is used here. -/
def consistency (x : ZMod p) (chals : List T) (pf : JProof T T') : Go T := do
  let left ← leftVec E.par.mat x
  let t ← accLoop E.par.mat.rows 0 fun i => do
    let l ← idx left i
    let l ← encodePoly E.par.enc E.ringQ [l]
    let e ← idx pf.encode i
    pure (E.ringQ.mul l e)
  let t ← subLoop E.par.mat.cols t fun i => do
    let c ← idx chals i
    let q ← idx pf.parts i
    pure (E.ringQ.mul c q)
  pure (t - pf.partMask)

/-- encoder.go:204-219 (`DecodeTo`), including the reconstruction. -/
def decodePoly (poly : List (List Nat)) : Go (List (ZMod p)) := do
  let coeff ← reconstructTo E.ringQ.qs poly
  decodeTo E.par.enc (List.replicate E.par.enc.slots 0) coeff

/-- verifier.go:227-244: the batched value. -/
def batchEval (b : List T) (y : List (ZMod p)) : Go (ZMod p) := do
  if E.par.batch > 1 then
    accLoop E.par.batch 0 fun i => do
      let c ← idx b i
      let d ← E.decodePoly (E.ringQ.unload c)
      let d0 ← idx d 0
      let yi ← idx y i
      pure (d0 * yi)
  else idx y 0

/-- verifier.go:246-256: the value the partial evaluations give. -/
def partsEval (x : ZMod p) (invParts : List (List (List Nat))) : Go (ZMod p) := do
  let right ← rightVec E.par.mat x
  accLoop E.par.mat.cols 0 fun i => do
    let q ← idx invParts i
    let d ← E.decodePoly q
    accLoop E.par.mat.slots 0 fun j => do
      let r ← idx right (i * E.par.mat.slots + j)
      let e ← idx d j
      pure (r * e)

/-- verifier.go:224-259 (`verifyEval`). -/
def verifyEval (x : ZMod p) (b : List T) (y : List (ZMod p)) (invParts : List (List (List Nat))) :
    Go Bool := do
  let yb ← E.batchEval b y
  let t ← E.partsEval x invParts
  pure (decide (t = yb))

/-- verifier.go:50-133 (`Verify`). -/
def verify [DecidableEq T] (x : ZMod p) (com : List (List T')) (y : List (ZMod p))
    (pf : JProof T T') : Go Bool := do
  if com.length ≠ E.par.batch ∨ y.length ≠ E.par.batch then goPanic
  else
    let bb ← E.batchChals x com
    let chals ← E.colChals x com pf.parts pf.partMask
    let invParts ← unloadTo E.ringQ E.par.mat.cols pf.parts (zeroPoly E.ringQ)
    let invEncode ← unloadTo E.ringQ E.par.mat.rows pf.encode (zeroPoly E.ringQ)
    let invMLWE ← unloadTo E.ringQ (E.par.mlweRank + E.par.inRank) pf.mlwe (zeroPoly E.ringQ)
    let invCommit ← unloadTo E.ringQ' E.par.dcmpLen pf.inCommit (zeroPoly E.ringQ')
    let ok ← E.verifyOuter bb.2 com pf invCommit
    if !ok then pure false
    else
      let ok ← E.verifyInner chals pf invCommit invEncode invMLWE
      if !ok then pure false
      else
        let t ← E.consistency x chals pf
        if t ≠ 0 then pure false
        else E.verifyEval x bb.1 y invParts

end JEnv

end Ringo
