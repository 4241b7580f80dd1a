import Verif.Model.Context
import Verif.Model.Walk
import Verif.Model.Csprng

/-!
# Model of `buckler/prover.go` and `buckler/verifier.go`

Parameters of the model (things outside the two files).

* The polynomial commitment scheme is a record of its three methods (`jindo.Prover.Commit`,
  `jindo.Prover.Evaluate`, `jindo.Verifier.Verify`) with explicit randomness.
* `hash` is the transcript's hash function, `xof` the output stream of SHAKE128, both arbitrary.
  `marshal`, `setBytes` are the field's byte conversions, `users` the caller's linear checkers.
* `Tape` is everything the prover draws at random.
* `Orders` are the orders in which Go iterates over the context's maps.

Simplifications.

* In `evalCircuit` the scratch polynomials `eval` and `term` are fresh for each constraint and
  term; the code clears or overwrites them.
* The slots of `comPolys`, `coms` and `opens` with one index are one slot.
* The caller's elements are values: writing to a slot cannot change the caller's memory in this
  model, so that question (C52) is stated about which slots are written.
-/

namespace Ringo

abbrev Bytes := List UInt8

/-! ## The transcript (gnark-crypto `fiat-shamir`, not in the repository) -/

/-- The challenge names, prover.go:113-120 and verifier.go:60-67. -/
inductive Chal
  | projConst | arithBatchConst | linCheckBatchConst | linCheckConst | sumCheckBatchConst | evalPoint
  deriving DecidableEq

/-- Position of a challenge in the list of names. -/
def Chal.pos : Chal → Nat
  | .projConst => 0
  | .arithBatchConst => 1
  | .linCheckBatchConst => 2
  | .linCheckConst => 3
  | .sumCheckBatchConst => 4
  | .evalPoint => 5

/-- The bytes of the name. -/
def Chal.name : Chal → Bytes
  | .projConst => "projConst".toUTF8.toList
  | .arithBatchConst => "arithBatchConst".toUTF8.toList
  | .linCheckBatchConst => "linCheckBatchConst".toUTF8.toList
  | .linCheckConst => "linCheckConst".toUTF8.toList
  | .sumCheckBatchConst => "sumCheckBatchConst".toUTF8.toList
  | .evalPoint => "evalPoint".toUTF8.toList

/-- A transcript: the values bound to each challenge, in order, and the challenges computed so
far. -/
structure Transcript where
  binds : List (Chal × Bytes)
  vals : List Bytes

/-- `NewTranscript`. -/
def Transcript.new : Transcript := ⟨[], []⟩

/-- `Bind`.  Binding to a computed challenge is an error, which the callers ignore. -/
def Transcript.bind (t : Transcript) (c : Chal) (b : Bytes) : Transcript :=
  if c.pos < t.vals.length then t else { t with binds := t.binds ++ [(c, b)] }

/-- `ComputeChallenge`: the hash of the name, the previous challenge and the bound values.  `none`
is the error returned if the previous challenge was not computed. -/
def Transcript.compute (hash : Bytes → Bytes) (t : Transcript) (c : Chal) :
    Option (Bytes × Transcript) :=
  if h : c.pos < t.vals.length then some (t.vals[c.pos], t)
  else if c.pos = t.vals.length then
    let prev := t.vals.getLast?.getD []
    let bound := (t.binds.filter (fun b => b.1 = c)).flatMap (fun b => b.2)
    let v := hash (c.name ++ prev ++ bound)
    some (v, { t with vals := t.vals ++ [v] })
  else none

/-! ## Parameters -/

/-- A polynomial commitment scheme. -/
structure PCS (F : Type) where
  Com : Type
  Open : Type
  Pf : Type
  Rnd : Type
  /-- `JindoParams.Rank()` -/
  rank : Nat
  /-- `Prover.Commit` -/
  commit : List F → Rnd → Go (Com × Open)
  /-- `Prover.Evaluate` -/
  evaluate : F → List (List F) → List Com → List Open → Rnd → Go (List F × Pf)
  /-- `Verifier.Verify` -/
  verify : F → List Com → List F → Pf → Go Bool
  /-- `Commitment.WriteRawTo` -/
  ser : Com → Bytes

/-- What the protocol is run with. -/
structure Env (F : Type) where
  pcs : PCS F
  hash : Bytes → Bytes
  xof : Bytes → Nat → UInt8
  marshal : F → Bytes
  setBytes : Bytes → F
  users : Nat → LinearChecker F

/-- The prover's randomness: `enc i` blinds witness `i`, `linMask i` and `sumMask i` are the mask
elements drawn for coefficient `i`, `com i` is used by the `i`-th commitment and `ev` by
`Evaluate`. -/
structure Tape (F : Type) (Rnd : Type) where
  enc : Nat → F
  linMask : Nat → F
  sumMask : Nat → F
  com : Nat → Rnd
  ev : Rnd

/-- Orders of iteration over the maps of the context. -/
structure Orders where
  inf : List InfEntry
  two : List TwoEntry
  proj : List ProjEntry
  projInf : List ProjInfEntry

/-- entities.go:9-17 (`Proof`).  The mask sums are pointers, nil when there is no such check. -/
structure BProof (F : Type) (P : PCS F) where
  witness : List P.Com
  linMaskSum : Option F
  sumMaskSum : Option F
  evals : List F
  evalProof : P.Pf

/-- What `Compile` puts in a `Prover` and in a `Verifier` (compile.go:182-206). -/
structure Compilation (F : Type) where
  ctx : Context F
  ev : Evaluator F
  ecd : BEncoder F

/-- A circuit value with its dynamic type. -/
structure Circ (F : Type) where
  ty : Nat
  val : Val F

/-! ## Slices of slices -/

section slices
variable {α : Type}

/-- `t[a][i] = x` -/
def set2 (t : List (List α)) (a i : Nat) (x : α) : Go (List (List α)) := do
  let row ← idx t a
  let row ← setIdx row i x
  setIdx t a row

/-- `t[a][i]` -/
def idx2 (t : List (List α)) (a i : Nat) : Go α := do
  let row ← idx t a
  idx row i

/-- `l[:n]` for a length `n = a - b` of Go integers. -/
def sliceTo (l : List α) (a b : Nat) : Go (List α) :=
  if a < b then goPanic else if l.length < a - b then goPanic else pure (l.take (a - b))

/-- Dereferencing a slot that may still be nil. -/
def slot (t : List (Option α)) (i : Nat) : Go α := do
  match ← idx t i with
  | some x => pure x
  | none => goPanic

end slices

section
variable {p : Nat} [Fact p.Prime]

/-! ## Compile -/

/-- compile.go:164-207 (`Compile`), after the walk: `ops` are the calls made by `Define`. -/
def compile (witnessRank circType pwCnt wCnt : Nat) (ops : List (CtxOp (ZMod p))) :
    Go (Compilation (ZMod p)) := do
  let ctx ← (newContext (ZMod p) witnessRank circType pwCnt wCnt).define ops
  let embRank := ctx.embRank
  let ev ← newCyclicEvaluator p embRank
  let ecd ← newBEncoder p witnessRank embRank
  pure ⟨ctx, ev, ecd⟩

/-! ## The prover -/

/-- prover.go:77-86: the digits of the infinity-norm constraints. -/
def fillInf (rank : Nat) (order : List InfEntry) (sw : List (List (ZMod p))) :
    Go (List (List (ZMod p))) :=
  order.foldlM (fun sw e => do
    let base ← decomposeBase e.bound
    forRange 0 rank 1 sw (fun sw i => do
      let x ← idx2 sw e.id i
      let dcmp := decomposeBig x.val base p
      e.dcmp.zipIdx.foldlM (fun sw wj => do
        let d ← idx dcmp wj.2
        set2 sw wj.1 i ((d : Int) : ZMod p)) sw)) sw

/-- prover.go:94-97 and verifier.go:54-57: the public base and mask of a two-norm constraint. -/
def fillTwoPub (e : TwoEntry) (pw : List (List (ZMod p))) : Go (List (List (ZMod p))) := do
  let base ← decomposeBase e.bound
  forRange 0 base.length 1 pw (fun pw i => do
    let b ← idx base i
    let pw ← set2 pw e.base i ((b : Nat) : ZMod p)
    set2 pw e.mask i 1)

/-- prover.go:88-111: the two-norm constraints.  `sqNm` is declared outside the loop. -/
def fillTwo (rank : Nat) (order : List TwoEntry)
    (s : List (List (ZMod p)) × List (List (ZMod p))) :
    Go (List (List (ZMod p)) × List (List (ZMod p))) := do
  let r ← order.foldlM (fun (s : List (List (ZMod p)) × List (List (ZMod p)) × Nat) e => do
    let base ← decomposeBase e.bound
    let pw ← fillTwoPub e s.1
    let sqNm ← forRange 0 rank 1 s.2.2 (fun sqNm i => do
      let x ← idx2 s.2.1 e.id i
      pure (sqNm + x.val * x.val))
    let sqNm := sqNm % p
    let dcmp := decomposeBig sqNm base p
    let sw ← forRange 0 dcmp.length 1 s.2.1 (fun sw i => do
      let d ← idx dcmp i
      set2 sw e.dcmp i ((d : Int) : ZMod p))
    pure (pw, sw, sqNm)) (s.1, s.2, 0)
  pure (r.1, r.2.1)

/-- prover.go:168-176 and verifier.go:102-111: the projection matrix drawn from the transcript. -/
def projMatrix (xof : Bytes → Nat → UInt8) (seed : Bytes) (rank : Nat) : List (List Bool) :=
  (List.range 128).map (fun i => (List.range rank).map (fun j =>
    ((xof seed (32 * j + i / 8)) >>> (UInt8.ofNat (i % 8))) &&& 1 == 0))

/-- prover.go:178-192: the projections and their digits. -/
def fillProj (order : Orders) (proj : List (List Bool)) (sw : List (List (ZMod p))) :
    Go (List (List (ZMod p))) := do
  let sw ← order.proj.foldlM (fun sw e => do
    let out ← idx sw e.proj
    let v ← idx sw e.id
    let out ← (projChecker proj).transformTo out v
    setIdx sw e.proj out) sw
  order.projInf.foldlM (fun sw e => do
    let base ← decomposeBase e.bound
    forRange 0 128 1 sw (fun sw i => do
      let x ← idx2 sw e.id i
      let dcmp := decomposeBig x.val base p
      forRange 0 base.length 1 sw (fun sw j => do
        let d ← idx dcmp j
        set2 sw e.dcmp (i * base.length + j) ((d : Int) : ZMod p)))) sw

/-- The checker behind a key, once the projection matrix is drawn. -/
def resolve (users : Nat → LinearChecker (ZMod p)) (proj : List (List Bool)) :
    CheckerKey → Go (LinearChecker (ZMod p))
  | .user n => pure (users n)
  | .proj => pure (projChecker proj)
  | .recomp _ bound => newProjRecomposeChecker bound

/-- prover.go:363-371: one term. -/
def termPoly (ev : Evaluator (ZMod p)) (pwNTT : List (Poly (ZMod p)))
    (wNTT : List (Option (Poly (ZMod p)))) (t : Term (ZMod p)) : Go (Poly (ZMod p)) := do
  let term : Poly (ZMod p) := ⟨List.replicate ev.rank t.coeff, true⟩
  let term ← match t.pub with
    | none => pure term
    | some i => do
      let q ← idx pwNTT i
      ev.mulTo term term q
  t.wits.foldlM (fun term j => do
    let q ← slot wNTT j
    ev.mulTo term term q) term

/-- prover.go:361-373: one constraint. -/
def constraintPoly (ev : Evaluator (ZMod p)) (pwNTT : List (Poly (ZMod p)))
    (wNTT : List (Option (Poly (ZMod p)))) (c : Constraint (ZMod p)) : Go (Poly (ZMod p)) :=
  c.foldlM (fun eval t => do
    let term ← termPoly ev pwNTT wNTT t
    ev.addTo eval eval term) (newPoly ev.rank true)

/-- prover.go:355-379 (`evalCircuit`). -/
def evalCircuit (ev : Evaluator (ZMod p)) (batchConst : ZMod p) (cs : List (Constraint (ZMod p)))
    (pwNTT : List (Poly (ZMod p))) (wNTT : List (Option (Poly (ZMod p)))) :
    Go (Poly (ZMod p)) :=
  cs.foldlM (fun pOut c => do
    let eval ← constraintPoly ev pwNTT wNTT c
    let eval ← ev.scalarMulTo eval eval batchConst
    ev.addTo pOut pOut eval) (newPoly ev.rank true)

/-- prover.go:381-397 (`sumCheckMask`); `r i` is the element drawn for coefficient `i`. -/
def sumCheckMask (ev : Evaluator (ZMod p)) (rank maskRank : Nat) (r : Nat → ZMod p) :
    Go (Poly (ZMod p) × ZMod p) := do
  let mask ← forRange 0 rank 1 (newPoly ev.rank false : Poly (ZMod p)).coeffs
    (fun mask i => setIdx mask i (r i))
  let maskSum ← idx mask 0
  let mask ← forRange rank maskRank 1 mask (fun mask i => do
    let mask ← setIdx mask i (r i)
    let a ← idx mask (i - rank)
    let b ← idx mask i
    setIdx mask (i - rank) (a - b))
  pure (⟨mask, false⟩, maskSum)

/-- prover.go:399-404 (`arithCheck`). -/
def arithCheckP (cp : Compilation (ZMod p)) (batchConst : ZMod p) (pwNTT : List (Poly (ZMod p)))
    (wNTT : List (Option (Poly (ZMod p)))) : Go (List (ZMod p)) := do
  let eval ← evalCircuit cp.ev batchConst cp.ctx.arith pwNTT wNTT
  let eval ← cp.ev.invNTTTo eval eval
  let qr ← cp.ev.quoRemByVanishing eval cp.ctx.rank
  sliceTo qr.1.coeffs cp.ctx.arithCheckMaxRank cp.ctx.rank

/-- prover.go:409-413 and verifier.go:258-262: `1, c, c^2, ...`. -/
def powerVec (rank : Nat) (c : ZMod p) : Go (List (ZMod p)) := do
  let v ← setIdx (List.replicate rank 0) 0 1
  forRange 1 rank 1 v (fun v i => do
    let x ← idx v (i - 1)
    setIdx v i (x * c))

/-- prover.go:445-456 (and 471-482): `remLo` and `remHi`. -/
def splitRem (rank jrank : Nat) (rem : Poly (ZMod p)) : Go (List (ZMod p) × List (ZMod p)) := do
  let remLo ← (List.range (rank - 1)).mapM (fun i => idx rem.coeffs (i + 1))
  if jrank < rank - 1 then goPanic
  else pure (remLo, List.replicate (jrank - (rank - 1)) 0 ++ remLo)

/-- prover.go:406-459 (`linCheck`). -/
def linCheckP (cp : Compilation (ZMod p)) (users : Nat → LinearChecker (ZMod p))
    (proj : List (List Bool)) (jrank : Nat) (batchConst linCheckConst : ZMod p)
    (linCheckMask : Poly (ZMod p)) (wNTT : List (Option (Poly (ZMod p)))) :
    Go (List (ZMod p) × List (ZMod p) × List (ZMod p)) := do
  let vec ← powerVec cp.ctx.rank linCheckConst
  let ecd ← cp.ecd.encode vec
  let ecd ← cp.ev.nttTo ecd ecd
  let s ← cp.ctx.lin.foldlM (fun (s : Poly (ZMod p) × List (ZMod p) × Poly (ZMod p)) kc => do
    let tr ← resolve users proj kc.1
    let vecTr ← tr.transposeTo s.2.1 vec
    let ecdTr ← cp.ecd.encodeTo s.2.2 vecTr
    let ecdTr ← cp.ev.nttTo ecdTr ecdTr
    let eval ← kc.2.foldlM (fun eval w => do
      let wOut ← slot wNTT w.1
      let wIn ← slot wNTT w.2
      let term ← cp.ev.mulTo (newPoly cp.ev.rank true) ecdTr wIn
      let term ← cp.ev.mulSubTo term ecd wOut
      let eval ← cp.ev.scalarMulTo eval eval batchConst
      cp.ev.addTo eval eval term) s.1
    pure (eval, vecTr, ecdTr))
    (newPoly cp.ev.rank true, List.replicate cp.ctx.rank 0, newPoly cp.ev.rank false)
  let eval ← cp.ev.scalarMulTo s.1 s.1 batchConst
  let eval ← cp.ev.invNTTTo eval eval
  let eval ← cp.ev.addTo eval eval linCheckMask
  let qr ← cp.ev.quoRemByVanishing eval cp.ctx.rank
  let rem ← splitRem cp.ctx.rank jrank qr.2
  let quo ← sliceTo qr.1.coeffs cp.ctx.rank 0
  pure (quo, rem.1, rem.2)

/-- prover.go:461-485 (`sumCheck`). -/
def sumCheckP (cp : Compilation (ZMod p)) (jrank : Nat) (batchConst : ZMod p)
    (mask : Poly (ZMod p)) (pwNTT : List (Poly (ZMod p)))
    (wNTT : List (Option (Poly (ZMod p)))) :
    Go (List (ZMod p) × List (ZMod p) × List (ZMod p)) := do
  let eval ← evalCircuit cp.ev batchConst cp.ctx.sums pwNTT wNTT
  let eval ← cp.ev.scalarMulTo eval eval batchConst
  let eval ← cp.ev.invNTTTo eval eval
  let eval ← cp.ev.addTo eval eval mask
  let qr ← cp.ev.quoRemByVanishing eval cp.ctx.rank
  let rem ← splitRem cp.ctx.rank jrank qr.2
  let quo ← sliceTo qr.1.coeffs cp.ctx.sumCheckMaxRank cp.ctx.rank
  pure (quo, rem.1, rem.2)

variable (E : Env (ZMod p))

/-- The prover's tables of committed polynomials and its transcript. -/
structure PState (P : PCS (ZMod p)) where
  tbl : List (Option (List (ZMod p) × P.Com × P.Open))
  wNTT : List (Option (Poly (ZMod p)))
  tr : Transcript

/-- prover.go:152-157 and its repetitions: commit, store, bind. -/
def commitAt (t : Tape (ZMod p) E.pcs.Rnd) (st : PState E.pcs) (i : Nat) (poly : List (ZMod p))
    (c : Chal) : Go (PState E.pcs) := do
  let co ← E.pcs.commit poly (t.com i)
  let tbl ← setIdx st.tbl i (some (poly, co.1, co.2))
  pure { st with tbl := tbl, tr := st.tr.bind c (E.pcs.ser co.1) }

/-- prover.go:149-157 and 197-205: encode witness `i`, transform it and commit to it. -/
def commitWitness (cp : Compilation (ZMod p)) (t : Tape (ZMod p) E.pcs.Rnd)
    (sw : List (List (ZMod p))) (st : PState E.pcs) (i : Nat) (c : Chal) : Go (PState E.pcs) := do
  let w ← idx sw i
  let ecd ← cp.ecd.randEncode w (t.enc i)
  let ntt ← cp.ev.toNTT ecd
  let wNTT ← setIdx st.wNTT i (some ntt)
  let poly ← sliceTo ecd.coeffs (cp.ctx.rank + 1) 0
  commitAt E t { st with wNTT := wNTT } i poly c

/-- prover.go:136-158: the first round. -/
def firstRound (cp : Compilation (ZMod p)) (t : Tape (ZMod p) E.pcs.Rnd)
    (sw : List (List (ZMod p))) (st : PState E.pcs) : Go (PState E.pcs) :=
  forRange 0 sw.length 1 st (fun st i =>
    if i ∈ cp.ctx.wSecond then pure st else commitWitness E cp t sw st i .projConst)

/-- prover.go:195-206: the second round. -/
def secondRound (cp : Compilation (ZMod p)) (t : Tape (ZMod p) E.pcs.Rnd)
    (sw : List (List (ZMod p))) (st : PState E.pcs) : Go (PState E.pcs) :=
  cp.ctx.wSecond.foldlM (fun st i => commitWitness E cp t sw st i .arithBatchConst) st

/-- prover.go:212-224 and 228-240: a mask, committed at `i`. -/
def maskRound (cp : Compilation (ZMod p)) (t : Tape (ZMod p) E.pcs.Rnd) (maskRank : Nat)
    (r : Nat → ZMod p) (st : PState E.pcs) (i : Nat) :
    Go (PState E.pcs × Poly (ZMod p) × ZMod p) := do
  let m ← sumCheckMask cp.ev cp.ctx.rank maskRank r
  let poly ← sliceTo m.1.coeffs maskRank 0
  let st ← commitAt E t st i poly .arithBatchConst
  pure ({ st with tr := st.tr.bind .arithBatchConst (E.marshal m.2) }, m.1, m.2)

/-- prover.go:212-224 and 228-240: the mask of a check with `n` constraints, if there are any. -/
def maskStep (cp : Compilation (ZMod p)) (t : Tape (ZMod p) E.pcs.Rnd) (n maskRank : Nat)
    (r : Nat → ZMod p) (st : PState E.pcs) (next : Nat) :
    Go (PState E.pcs × Nat × Option (Poly (ZMod p) × ZMod p)) :=
  if n > 0 then do
    let r ← maskRound E cp t maskRank r st next
    pure (r.1, next + 1, some r.2)
  else pure (st, next, none)

/-- prover.go:278-299 and 312-333: the three messages of a check, committed from `i` on. -/
def commit3 (t : Tape (ZMod p) E.pcs.Rnd) (st : PState E.pcs) (i : Nat)
    (m : List (ZMod p) × List (ZMod p) × List (ZMod p)) : Go (PState E.pcs) := do
  let st ← commitAt E t st i m.1 .evalPoint
  let st ← commitAt E t st (i + 1) m.2.1 .evalPoint
  commitAt E t st (i + 2) m.2.2 .evalPoint

/-- prover.go:49-111: the slots of public and secret witnesses.  `none` is a returned error. -/
def assign (cp : Compilation (ZMod p)) (ord : Orders) (c : Val (ZMod p)) :
    Go (Option (List (List (ZMod p)) × List (List (ZMod p)))) := do
  let a ← prvCollect cp.ctx.rank cp.ctx.pwCnt cp.ctx.wCnt c
  if a.2.2 then pure none
  else
    let sw ← fillInf cp.ctx.rank ord.inf a.2.1
    let r ← fillTwo cp.ctx.rank ord.two (a.1, sw)
    pure (some r)

/-- prover.go:124-129: public witnesses, encoded and transformed. -/
def encodePub (cp : Compilation (ZMod p)) (pw : List (List (ZMod p))) : Go (List (Poly (ZMod p))) :=
  pw.mapM (fun v => do
    let e ← cp.ecd.encode v
    cp.ev.toNTT e)

/-- prover.go:178-193: the projections, if there are approximate norm constraints. -/
def projStep (cp : Compilation (ZMod p)) (ord : Orders) (proj : List (List Bool))
    (sw : List (List (ZMod p))) : Go (List (List (ZMod p))) :=
  if cp.ctx.hasProj then fillProj ord proj sw else pure sw

/-- prover.go:113-240: everything up to the masks; `pw` and `sw` are the slots.  Returns the state,
the number of the next commitment, the projection matrix and the two masks. -/
def proveRounds (cp : Compilation (ZMod p)) (t : Tape (ZMod p) E.pcs.Rnd) (ord : Orders)
    (sw : List (List (ZMod p))) :
    Go (Option (PState E.pcs × Nat × List (List Bool) × Option (Poly (ZMod p) × ZMod p) ×
      Option (Poly (ZMod p) × ZMod p))) := do
  let st : PState E.pcs := ⟨List.replicate cp.ctx.batch none, List.replicate cp.ctx.wCnt none, .new⟩
  let st ← firstRound E cp t sw st
  match st.tr.compute E.hash .projConst with
  | none => pure none
  | some (seed, tr) =>
    let st : PState E.pcs := { st with tr := tr }
    let proj := projMatrix E.xof seed cp.ctx.rank
    let sw ← projStep cp ord proj sw
    let st ← secondRound E cp t sw st
    let next := cp.ctx.wCnt
    let l ← maskStep E cp t cp.ctx.lin.length (2 * cp.ctx.rank) t.linMask st next
    let s ← maskStep E cp t cp.ctx.sums.length cp.ctx.sumCheckMaxRank t.sumMask l.1 l.2.1
    pure (some (s.1, s.2.1, proj, l.2.2, s.2.2))

/-- prover.go:247-260: the arithmetic check, if there are arithmetic constraints. -/
def arithStep (cp : Compilation (ZMod p)) (t : Tape (ZMod p) E.pcs.Rnd)
    (pwNTT : List (Poly (ZMod p))) (ab : Bytes) (st : PState E.pcs) (next : Nat) :
    Go (PState E.pcs × Nat) :=
  if cp.ctx.arith.length > 0 then do
    let quo ← arithCheckP cp (E.setBytes ab) pwNTT st.wNTT
    let st ← commitAt E t st next quo .evalPoint
    pure (st, next + 1)
  else pure (st, next)

/-- prover.go:272-300: the linear check, if there are linear constraints. -/
def linStep (cp : Compilation (ZMod p)) (t : Tape (ZMod p) E.pcs.Rnd)
    (proj : List (List Bool)) (linMask : Option (Poly (ZMod p) × ZMod p)) (lb lc : Bytes)
    (st : PState E.pcs) (next : Nat) : Go (PState E.pcs × Nat) :=
  match linMask with
  | some m => do
    let r ← linCheckP cp E.users proj E.pcs.rank (E.setBytes lb) (E.setBytes lc) m.1 st.wNTT
    let st ← commit3 E t st next r
    pure (st, next + 3)
  | none => pure (st, next)

/-- prover.go:307-334: the sumcheck, if there are sumcheck constraints. -/
def sumStep (cp : Compilation (ZMod p)) (t : Tape (ZMod p) E.pcs.Rnd)
    (pwNTT : List (Poly (ZMod p))) (sumMask : Option (Poly (ZMod p) × ZMod p)) (sb : Bytes)
    (st : PState E.pcs) (next : Nat) : Go (PState E.pcs) :=
  match sumMask with
  | some m => do
    let r ← sumCheckP cp E.pcs.rank (E.setBytes sb) m.1 pwNTT st.wNTT
    commit3 E t st next r
  | none => pure st

/-- prover.go:242-353: the checks, the evaluation point and the opening.  The second component is the
list of challenges the prover has computed; the code does not return it. -/
def proveChecks (cp : Compilation (ZMod p)) (t : Tape (ZMod p) E.pcs.Rnd)
    (pwNTT : List (Poly (ZMod p)))
    (s : PState E.pcs × Nat × List (List Bool) × Option (Poly (ZMod p) × ZMod p) ×
      Option (Poly (ZMod p) × ZMod p)) : Go (Option (BProof (ZMod p) E.pcs × List Bytes)) := do
  let (st, next, proj, linMask, sumMask) := s
  match st.tr.compute E.hash .arithBatchConst with
  | none => pure none
  | some (ab, tr) =>
    let a ← arithStep E cp t pwNTT ab { st with tr := tr } next
    match a.1.tr.compute E.hash .linCheckBatchConst with
    | none => pure none
    | some (lb, tr) =>
      match tr.compute E.hash .linCheckConst with
      | none => pure none
      | some (lc, tr) =>
        let l ← linStep E cp t proj linMask lb lc { a.1 with tr := tr } a.2
        match l.1.tr.compute E.hash .sumCheckBatchConst with
        | none => pure none
        | some (sb, tr) =>
          let st ← sumStep E cp t pwNTT sumMask sb { l.1 with tr := tr } l.2
          match st.tr.compute E.hash .evalPoint with
          | none => pure none
          | some (x, tr) =>
            let all ← (List.range st.tbl.length).mapM (fun i => slot st.tbl i)
            let r ← E.pcs.evaluate (E.setBytes x) (all.map (·.1)) (all.map (·.2.1))
              (all.map (·.2.2)) t.ev
            pure (some (⟨all.map (·.2.1), linMask.map (·.2), sumMask.map (·.2), r.1, r.2⟩, tr.vals))

/-- prover.go:42-353 (`Prove`), together with the prover's challenges.  `none` is a returned error. -/
def proveT (cp : Compilation (ZMod p)) (t : Tape (ZMod p) E.pcs.Rnd) (ord : Orders)
    (c : Circ (ZMod p)) : Go (Option (BProof (ZMod p) E.pcs × List Bytes)) := do
  if c.ty ≠ cp.ctx.circType then pure none
  else
    match ← assign cp ord c.val with
    | none => pure none
    | some (pw, sw) =>
      let pwNTT ← encodePub cp pw
      match ← proveRounds E cp t ord sw with
      | none => pure none
      | some s => proveChecks E cp t pwNTT s

/-- prover.go:42-353 (`Prove`). -/
def prove (cp : Compilation (ZMod p)) (t : Tape (ZMod p) E.pcs.Rnd) (ord : Orders)
    (c : Circ (ZMod p)) : Go (Option (BProof (ZMod p) E.pcs)) := do
  let r ← proveT E cp t ord c
  pure (r.map (·.1))

/-! ## The verifier -/

/-- verifier.go:219-240 (`evalCircuit`). -/
def evalCircuitV (batchConst : ZMod p) (cs : List (Constraint (ZMod p))) (evals pwEvals : List (ZMod p)) :
    Go (ZMod p) :=
  cs.foldlM (fun out c => do
    let eval ← c.foldlM (fun eval t => do
      let term := t.coeff
      let term ← match t.pub with
        | none => pure term
        | some i => do
          let q ← idx pwEvals i
          pure (term * q)
      let term ← t.wits.foldlM (fun term j => do
        let q ← idx evals j
        pure (term * q)) term
      pure (eval + term)) 0
    pure (out + eval * batchConst)) 0

/-- verifier.go:242-247 (`arithCheck`). -/
def arithCheckV (ctx : Context (ZMod p)) (batchConst vanishEval quoEval : ZMod p)
    (evals pwEvals : List (ZMod p)) : Go Bool := do
  let eval ← evalCircuitV batchConst ctx.arith evals pwEvals
  pure (eval == quoEval * vanishEval)

/-- verifier.go:252-256 and 299-303: the degree check of `remLo`.  The exponent is converted to
`uint64`; for a rank below `rank - 1` it would wrap, which the model turns into a panic (never
reached by compiled circuits). -/
def remCheckV (rank jrank : Nat) (evalPoint remLoEval remHiEval : ZMod p) : Go Bool :=
  if jrank < rank - 1 then goPanic
  else pure (remHiEval == expU64 evalPoint (jrank - (rank - 1)) * remLoEval)

/-- verifier.go:249-294 (`linCheck`). -/
def linCheckV (cp : Compilation (ZMod p)) (users : Nat → LinearChecker (ZMod p))
    (proj : List (List Bool)) (jrank : Nat)
    (batchConst linCheckConst maskEval evalPoint vanishEval maskSum quoEval remLoEval
      remHiEval : ZMod p) (evals : List (ZMod p)) : Go Bool := do
  if !(← remCheckV cp.ctx.rank jrank evalPoint remLoEval remHiEval) then pure false
  else
    let vec ← powerVec cp.ctx.rank linCheckConst
    let ecd ← cp.ecd.encode vec
    let linCheckEval ← ecd.evaluate evalPoint
    let s ← cp.ctx.lin.foldlM (fun (s : ZMod p × List (ZMod p) × Poly (ZMod p)) kc => do
      let tr ← resolve users proj kc.1
      let vecTr ← tr.transposeTo s.2.1 vec
      let ecdTr ← cp.ecd.encodeTo s.2.2 vecTr
      let trEval ← ecdTr.evaluate evalPoint
      let eval ← kc.2.foldlM (fun eval w => do
        let wOut ← idx evals w.1
        let wIn ← idx evals w.2
        pure (eval * batchConst + (trEval * wIn - linCheckEval * wOut))) s.1
      pure (eval, vecTr, ecdTr))
      (0, List.replicate cp.ctx.rank 0, newPoly cp.ev.rank false)
    let eval := s.1 * batchConst + maskEval
    pure (eval == quoEval * vanishEval + remLoEval * evalPoint + maskSum)

/-- verifier.go:296-315 (`sumCheck`). -/
def sumCheckV (ctx : Context (ZMod p)) (jrank : Nat)
    (batchConst maskEval evalPoint vanishEval maskSum quoEval remLoEval remHiEval : ZMod p)
    (evals pwEvals : List (ZMod p)) : Go Bool := do
  if !(← remCheckV ctx.rank jrank evalPoint remLoEval remHiEval) then pure false
  else
    let eval ← evalCircuitV batchConst ctx.sums evals pwEvals
    let eval := eval * batchConst + maskEval
    pure (eval == quoEval * vanishEval + remLoEval * evalPoint + maskSum)

/-- A nil element panics when it is used. -/
def nonNil {α : Type} : Option α → Go α
  | some x => pure x
  | none => goPanic

/-- verifier.go:36-58: the public slots. -/
def assignV (cp : Compilation (ZMod p)) (two : List TwoEntry) (c : Val (ZMod p)) :
    Go (Option (List (List (ZMod p)))) := do
  let a ← vrfCollect cp.ctx.rank cp.ctx.pwCnt c
  if a.2 then pure none
  else
    let pw ← two.foldlM (fun pw e => fillTwoPub e pw) a.1
    pure (some pw)

/-- verifier.go:89-91 and its repetitions. -/
def bindCom (pf : BProof (ZMod p) E.pcs) (c : Chal) (tr : Transcript) (i : Nat) :
    Go Transcript := do
  let w ← idx pf.witness i
  pure (tr.bind c (E.pcs.ser w))

/-- The challenges as the verifier recomputes them. -/
structure Challenges where
  proj : Bytes
  ab : Bytes
  lb : Bytes
  lc : Bytes
  sb : Bytes
  x : Bytes
  deriving DecidableEq

/-- verifier.go:122-130 and 132-140: the mask of a check with `n` constraints, if there are any. -/
def maskBind (pf : BProof (ZMod p) E.pcs) (n : Nat) (maskSum : Option (ZMod p)) (tr : Transcript)
    (next : Nat) : Go (Transcript × Nat × Option (ZMod p)) :=
  if n > 0 then do
    let e ← idx pf.evals next
    let tr ← bindCom E pf .arithBatchConst tr next
    let s ← nonNil maskSum
    pure (tr.bind .arithBatchConst (E.marshal s), next + 1, some e)
  else pure (tr, next, none)

/-- verifier.go:76-171: the verifier's transcript.  Also returns the mask evaluations and the index
of the first commitment after the masks. -/
def challengesV (cp : Compilation (ZMod p)) (pf : BProof (ZMod p) E.pcs) :
    Go (Option (Challenges × Option (ZMod p) × Option (ZMod p) × Nat)) := do
  let tr := Transcript.new
  let tr ← forRange 0 cp.ctx.wCnt 1 tr (fun tr i =>
    if i ∈ cp.ctx.wSecond then pure tr else bindCom E pf .projConst tr i)
  match tr.compute E.hash .projConst with
  | none => pure none
  | some (seed, tr) =>
    let tr ← cp.ctx.wSecond.foldlM (fun tr i => bindCom E pf .arithBatchConst tr i) tr
    let next := cp.ctx.wCnt
    let l ← maskBind E pf cp.ctx.lin.length pf.linMaskSum tr next
    let s ← maskBind E pf cp.ctx.sums.length pf.sumMaskSum l.1 l.2.1
    match s.1.compute E.hash .arithBatchConst with
    | none => pure none
    | some (ab, tr) =>
      match tr.compute E.hash .linCheckBatchConst with
      | none => pure none
      | some (lb, tr) =>
        match tr.compute E.hash .linCheckConst with
        | none => pure none
        | some (lc, tr) =>
          match tr.compute E.hash .sumCheckBatchConst with
          | none => pure none
          | some (sb, tr) =>
            let tr ← forRange s.2.1 pf.witness.length 1 tr (fun tr i =>
              bindCom E pf .evalPoint tr i)
            match tr.compute E.hash .evalPoint with
            | none => pure none
            | some (x, _) => pure (some (⟨seed, ab, lb, lc, sb, x⟩, l.2.2, s.2.2, s.2.1))

/-- verifier.go:186-193: the arithmetic check, if there are arithmetic constraints. -/
def arithStepV (cp : Compilation (ZMod p)) (pf : BProof (ZMod p) E.pcs) (pwEvals : List (ZMod p))
    (ch : Challenges) (next : Nat) : Go (Bool × Nat) :=
  if cp.ctx.arith.length > 0 then do
    let quo ← idx pf.evals next
    let ok ← arithCheckV cp.ctx (E.setBytes ch.ab) (expU64 (E.setBytes ch.x) cp.ctx.rank - 1) quo
      pf.evals pwEvals
    pure (ok, next + 1)
  else pure (true, next)

/-- verifier.go:195-204: the linear check, if there are linear constraints. -/
def linStepV (cp : Compilation (ZMod p)) (pf : BProof (ZMod p) E.pcs) (ch : Challenges)
    (linMaskEval : Option (ZMod p)) (next : Nat) : Go (Bool × Nat) :=
  if cp.ctx.lin.length > 0 then do
    let quo ← idx pf.evals next
    let remLo ← idx pf.evals (next + 1)
    let remHi ← idx pf.evals (next + 2)
    let m ← nonNil linMaskEval
    let s ← nonNil pf.linMaskSum
    let ok ← linCheckV cp E.users (projMatrix E.xof ch.proj cp.ctx.rank) E.pcs.rank
      (E.setBytes ch.lb) (E.setBytes ch.lc) m (E.setBytes ch.x)
      (expU64 (E.setBytes ch.x) cp.ctx.rank - 1) s quo remLo remHi pf.evals
    pure (ok, next + 3)
  else pure (true, next)

/-- verifier.go:206-214: the sumcheck, if there are sumcheck constraints. -/
def sumStepV (cp : Compilation (ZMod p)) (pf : BProof (ZMod p) E.pcs) (pwEvals : List (ZMod p))
    (ch : Challenges) (sumMaskEval : Option (ZMod p)) (next : Nat) : Go Bool :=
  if cp.ctx.sums.length > 0 then do
    let quo ← idx pf.evals next
    let remLo ← idx pf.evals (next + 1)
    let remHi ← idx pf.evals (next + 2)
    let m ← nonNil sumMaskEval
    let s ← nonNil pf.sumMaskSum
    sumCheckV cp.ctx E.pcs.rank (E.setBytes ch.sb) m (E.setBytes ch.x)
      (expU64 (E.setBytes ch.x) cp.ctx.rank - 1) s quo remLo remHi pf.evals pwEvals
  else pure true

/-- verifier.go:178-216: the checks. -/
def checksV (cp : Compilation (ZMod p)) (pf : BProof (ZMod p) E.pcs) (pwEcd : List (Poly (ZMod p)))
    (ch : Challenges) (linMaskEval sumMaskEval : Option (ZMod p)) (next : Nat) : Go Bool := do
  let pwEvals ← pwEcd.mapM (fun e => e.evaluate (E.setBytes ch.x))
  let a ← arithStepV E cp pf pwEvals ch next
  if !a.1 then pure false
  else
    let l ← linStepV E cp pf ch linMaskEval a.2
    if !l.1 then pure false else sumStepV E cp pf pwEvals ch sumMaskEval l.2

/-- verifier.go:29-217 (`Verify`). -/
def verify (cp : Compilation (ZMod p)) (two : List TwoEntry) (c : Circ (ZMod p))
    (pf : BProof (ZMod p) E.pcs) : Go Bool := do
  if cp.ctx.circType ≠ c.ty then pure false
  else
    match ← assignV cp two c.val with
    | none => pure false
    | some pw =>
      let pwEcd ← pw.mapM (fun v => cp.ecd.encode v)
      match ← challengesV E cp pf with
      | none => pure false
      | some (ch, linMaskEval, sumMaskEval, next) =>
        if !(← E.pcs.verify (E.setBytes ch.x) pf.witness pf.evals pf.evalProof) then pure false
        else checksV E cp pf pwEcd ch linMaskEval sumMaskEval next

end

end Ringo
