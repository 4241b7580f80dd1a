import Mathlib.Logic.Function.Basic
import Mathlib.Data.List.Basic

/-!
# Model of the memory of Jindo's provers, and of `SafeCopy` (jindo/prover.go:28-40, 327-340)

A prover is a graph of objects: an encoder with buffers, RNS reconstructors with buffers, samplers,
tables, the commitment key.  `SafeCopy` makes a prover that shares some of them.  Here the objects have
addresses, the constructors allocate, and `Commit` and `Evaluate` are programs of reads and writes of
single addresses, so that several goroutines can be interleaved.

Simplifications.

* What is computed between the accesses is uninterpreted: the functions of `PFn` and the tests of
  `PTest` are interpreted by an arbitrary `CopyOps`.  (`Model/JProto.lean` has the arithmetic.)
* One address stands for a field element, a big integer, a sampler (`prng`, `buf` and `ptr`), the limbs
  `buf.coeff`, or one coefficient of `fpSample`, `pSample` or `pSampleShift` in all residues.  Tables
  that are only read (`tables`, `deltaInv`, `gad`, `qBig`, the commitment key, a ring) have one address
  each, like the vectors, commitments and openings of the caller.
* The pointers between the objects are set by the constructors and never changed: they are values.
* Objects made during a call (`com`, `open`, `mask`, `inComBig`, ...) are values.
* `crypto/rand` is safe for concurrent use; what a goroutine gets from it in a call is an argument of
  the call, and what the constructors get is `CopyOps.entropy`.
* The rejection loops of the samplers run at most `fuel` times.  Nothing depends on `fuel`.
* The panics of `Commit` and `Evaluate` on wrong lengths come before any access and are left out.
-/

namespace Ringo

/-- A program of reads and writes. -/
inductive MemProg (V : Type) (α : Type) : Type
  | ret (a : α)
  | rd (a : Nat) (k : V → MemProg V α)
  | wr (a : Nat) (v : V) (k : MemProg V α)

namespace MemProg
variable {V α β ι : Type}

/-- Sequential composition. -/
def bind : MemProg V α → (α → MemProg V β) → MemProg V β
  | ret a, f => f a
  | rd a k, f => rd a (fun v => (k v).bind f)
  | wr a v k, f => wr a v (k.bind f)

instance : Monad (MemProg V) where
  pure := ret
  bind := bind

/-- `*a` -/
def get (a : Nat) : MemProg V V := rd a ret

/-- `*a = v` -/
def put (a : Nat) (v : V) : MemProg V Unit := wr a v (ret ())

/-- `for _, i := range is { ... }`, with the results of the iterations. -/
def each : List ι → (ι → MemProg V β) → MemProg V (List β)
  | [], _ => ret []
  | i :: is, f => (f i).bind fun b => (each is f).bind fun bs => ret (b :: bs)

/-- All elements of an array. -/
def getAll (base n : Nat) : MemProg V (List V) := each (List.range n) fun i => get (base + i)

/-- Setting all elements of an array. -/
def putAll (base n : Nat) (v : Nat → V) : MemProg V (List Unit) :=
  each (List.range n) fun i => put (base + i) (v i)

/-- One access. -/
def step : MemProg V α → (Nat → V) → MemProg V α × (Nat → V)
  | ret a, m => (ret a, m)
  | rd a k, m => (k (m a), m)
  | wr a v k, m => (k, Function.update m a v)

/-- The address of the next access, and whether it is a write. -/
def access : MemProg V α → Option (Nat × Bool)
  | ret _ => none
  | rd a _ => some (a, false)
  | wr a _ _ => some (a, true)

/-- What has been returned. -/
def result : MemProg V α → Option α
  | ret a => some a
  | rd _ _ => none
  | wr _ _ _ => none

/-- Running to the end. -/
def run : MemProg V α → (Nat → V) → α × (Nat → V)
  | ret a, m => (a, m)
  | rd a k, m => (k (m a)).run m
  | wr a v k, m => k.run (Function.update m a v)

/-- The first `n` accesses, with no other goroutine. -/
def alone (p : MemProg V α) (m : Nat → V) : Nat → MemProg V α × (Nat → V)
  | 0 => (p, m)
  | n + 1 => let r := p.step m; alone r.1 r.2 n

/-- Goroutines `ps` run in the order `s`: what is left of each, and the memory. -/
def interleave (ps : Nat → MemProg V α) (m : Nat → V) :
    List Nat → (Nat → MemProg V α) × (Nat → V)
  | [] => (ps, m)
  | t :: s => let r := (ps t).step m; interleave (Function.update ps t r.1) r.2 s

/-- The accesses made in this order: goroutine, address, whether it is a write. -/
def accesses (ps : Nat → MemProg V α) (m : Nat → V) : List Nat → List (Nat × Nat × Bool)
  | [] => []
  | t :: s =>
    let r := (ps t).step m
    ((ps t).access.map (fun x => (t, x.1, x.2))).toList ++
      accesses (Function.update ps t r.1) r.2 s

end MemProg

/-- Functions computed without touching shared memory. -/
inductive PFn
  /-- uniform.go:64-82: the word returned, the sampler afterwards; 96-100 -/
  | word | nextState | float
  /-- uniform.go:26-54: a sampler from a seed -/
  | seeded
  /-- gaussian_rounded.go:77-125 -/
  | zigX | zigTail | rounded
  /-- gaussian_twin_cdt.go:77-111 -/
  | twin
  /-- gaussian_cosac.go:23-57 -/
  | cosacInt | cosacRound | cosacAdd
  /-- a loop that did not end within `fuel` rounds -/
  | stuck
  /-- encoder.go:125-146: limbs of an element, quotient, remainder, last digit, the polynomial -/
  | slice | quot | rem | last | basePoly
  /-- encoder.go:152-171: zero, a coefficient of the polynomial, the updates, the negated center -/
  | fpZero | coeff (i : Nat) | fpAdd (i : Nat) | fpSub (i : Nat) | neg
  /-- encoder.go:173-200: residues of a sample, Montgomery form, shift, negated shift, `MulScalarThenSub`,
  the final sum and transform -/
  | residues | mform | neg2 | mulSub | finish
  /-- encoder.go:113-117 -/
  | transform
  /-- rns.go:76-105 -/
  | small (i : Nat) | zero | residue (j i : Nat) | mul (j : Nat) | add | mod | sub
  /-- rns.go:111, prover.go:170: reduction, shift, the polynomial -/
  | modQ (l : Nat) | shift | bigPoly
  /-- prover.go:65-86: an element of the vector, of the first and of the last row -/
  | elem (i : Nat) | first (i : Nat) | lastZero
  /-- prover.go:130-157: a zero polynomial, an MLWE polynomial, an inner commitment -/
  | zeroPoly | mlwe | inner (j : Nat)
  /-- prover.go:180-202: an outer commitment before and after rounding, the results -/
  | outer (i : Nat) | opening | result
  /-- prover.go:205-324: the entry of `leftVec`, evaluations and proof -/
  | left (i : Nat) | proof
  /-- verifier.go:57-112: the challenges of the batch, in the outer ring and the columns; the
  polynomials of the proof in coefficient form -/
  | batchChal (i : Nat) | batchChalOut (i : Nat) | chal (i : Nat)
  | invPartial (i : Nat) | invEncode (i : Nat) | invMlwe (i : Nat) | invIn (i : Nat)
  /-- verifier.go:137-155, 165-193: `cutoff[i]`; what the basis extender keeps and returns -/
  | outerCut (i : Nat) | innerCut (i : Nat) | addHalf | modUp
  /-- verifier.go:232-241: a challenge of the batch in coefficient form, `yBatch` -/
  | invBatch | yBatch
  /-- encoder.go:209-216: `base` and an integer as field elements, a step of Horner's rule -/
  | baseElem | bigElem | horner
  /-- verifier.go:27-35, 41: `inCutOff` and `outCutOff`, the tables of the basis extender -/
  | cutOffIn | cutOffOut | extTables
  /-- the parameters' standard deviations: mask blinding, mask, encoding blinding, encoding, MLWE mask,
  MLWE -/
  | std (i : Nat)
  /-- encoder.go:49-82, gaussian_twin_cdt.go:52-58, rns.go:33-54, params: tables made by constructors -/
  | deltaInv | tables | qHalf | qBig | gad | commitKey | blank
  deriving DecidableEq

/-- Tests. -/
inductive PTest
  /-- gaussian_rounded.go:87-109 -/
  | inKn | zigZero | tailOk | zigOk
  /-- gaussian_cosac.go:30-43, 53 -/
  | cosacHit | cosacOk | cosacSide
  /-- encoder.go:154, 168 -/
  | deltaZero (i : Nat) | sameStd
  /-- rns.go:78-90, 100 -/
  | isSmall (i : Nat) | geHalf
  /-- verifier.go:280-283 for the two bounds, 217, 256 -/
  | normOut | normIn | consistent | evalEq
  deriving DecidableEq

/-- An interpretation; `entropy k` is the `k`-th seed read from `crypto/rand`. -/
structure CopyOps (V : Type) where
  fn : PFn → List V → V
  test : PTest → List V → Bool
  entropy : Nat → V

/-- The part of `Parameters` that is used: numbers, and the addresses of `ringQ` and `ringQOut`; `zig`
is the address of the package's tables (gaussian_rounded.go:16-20). -/
structure CopyParams where
  rows : Nat
  cols : Nat
  slots : Nat
  exp : Nat
  n : Nat
  levels : Nat
  nOut : Nat
  levelsOut : Nat
  inRank : Nat
  mlweRank : Nat
  outRank : Nat
  dcmpLen : Nat
  ringQ : Nat
  ringQOut : Nat
  zig : Nat

/-- gaussian_twin_cdt.go:38-46 -/
structure TwinObj (V : Type) where
  base : Nat
  stdDev : V
  tables : Nat

/-- gaussian_cosac.go:7-10 -/
structure CosacObj where
  base : Nat
  rounded : Nat

/-- rns.go:10-30 -/
structure RnsObj where
  n : Nat
  levels : Nat
  ringQ : Nat
  qHalf : Nat
  qBig : Nat
  gad : Nat
  coeff : Nat
  mul : Nat
  acc : Nat
  accTmp : Nat

/-- encoder.go:30-46: `pSample`, `pSampleShift`, `fpSample` and `coeffBig` are the addresses of their
first elements. -/
structure EncBufObj where
  coeff : Nat
  fpSample : Nat
  pSample : Nat
  pSampleShift : Nat
  coeffBig : Nat
  baseE : Nat
  coeffE : Nat

/-- encoder.go:13-27 -/
structure EncObj (V : Type) where
  twin : TwinObj V
  cosac : CosacObj
  rounded : Nat
  rns : RnsObj
  deltaInv : Nat
  buf : EncBufObj

/-- prover.go:15-25 -/
structure ProverObj (V : Type) where
  ecd : EncObj V
  rnsOut : RnsObj
  ck : Nat
  uniform : Nat
  rounded : Nat
  mlwe : TwinObj V

/-- Memory with an allocator; `draws` counts the seeds read from `crypto/rand`. -/
structure CopyHeap (V : Type) where
  next : Nat
  draws : Nat
  mem : Nat → V

section
variable {V : Type} (O : CopyOps V)

/-- `n` new cells. -/
def allocs (n : Nat) (v : V) : StateM (CopyHeap V) Nat := fun h =>
  (h.next, ⟨h.next + n, h.draws, fun a => if h.next ≤ a ∧ a < h.next + n then v else h.mem a⟩)

/-- uniform.go:26-54 (`NewUniformSampler`); also `NewRoundedGaussianSampler` (gaussian_rounded.go:61-65),
which only wraps one. -/
def newUniform : StateM (CopyHeap V) Nat := fun h =>
  let r := allocs 1 (O.fn .seeded [O.entropy h.draws]) h
  (r.1, { r.2 with draws := h.draws + 1 })

/-- gaussian_twin_cdt.go:51-69 (`NewTwinCDTGaussianSampler`) -/
def newTwin (stdDev : V) : StateM (CopyHeap V) (TwinObj V) := do
  let tables ← allocs 1 (O.fn .tables [stdDev])
  let base ← newUniform O
  pure ⟨base, stdDev, tables⟩

/-- gaussian_twin_cdt.go:119-129 (`SafeCopy`) -/
def TwinObj.safeCopy (s : TwinObj V) : StateM (CopyHeap V) (TwinObj V) := do
  let base ← newUniform O
  pure ⟨base, s.stdDev, s.tables⟩

/-- gaussian_cosac.go:15-20 (`NewCOSACSampler`) -/
def newCosac : StateM (CopyHeap V) CosacObj := do
  let base ← newUniform O
  let rounded ← newUniform O
  pure ⟨base, rounded⟩

/-- rns.go:33-65 (`newRNSReconstructor`, `newRNSReconstructorBuffer`) -/
def newRns (n levels ringQ : Nat) : StateM (CopyHeap V) RnsObj := do
  let gad ← allocs 1 (O.fn .gad [])
  let qBig ← allocs 1 (O.fn .qBig [])
  let qHalf ← allocs 1 (O.fn .qHalf [])
  let coeff ← allocs 1 (O.fn .blank [])
  let mul ← allocs 1 (O.fn .blank [])
  let acc ← allocs 1 (O.fn .blank [])
  let accTmp ← allocs 1 (O.fn .blank [])
  pure ⟨n, levels, ringQ, qHalf, qBig, gad, coeff, mul, acc, accTmp⟩

/-- rns.go:117-127 (`safeCopy`) -/
def RnsObj.safeCopy (r : RnsObj) : StateM (CopyHeap V) RnsObj := do
  let coeff ← allocs 1 (O.fn .blank [])
  let mul ← allocs 1 (O.fn .blank [])
  let acc ← allocs 1 (O.fn .blank [])
  let accTmp ← allocs 1 (O.fn .blank [])
  pure ⟨r.n, r.levels, r.ringQ, r.qHalf, r.qBig, r.gad, coeff, mul, acc, accTmp⟩

/-- encoder.go:85-103 (`newEncoderBuffer`) -/
def newEncBuf (P : CopyParams) : StateM (CopyHeap V) EncBufObj := do
  let coeffBig ← allocs P.n (O.fn .blank [])
  let coeff ← allocs 1 (O.fn .blank [])
  let fpSample ← allocs P.n (O.fn .blank [])
  let pSample ← allocs P.n (O.fn .blank [])
  let pSampleShift ← allocs P.n (O.fn .blank [])
  let baseE ← allocs 1 (O.fn .blank [])
  let coeffE ← allocs 1 (O.fn .blank [])
  pure ⟨coeff, fpSample, pSample, pSampleShift, coeffBig, baseE, coeffE⟩

/-- encoder.go:49-82 (`newEncoder`) -/
def newEnc (P : CopyParams) : StateM (CopyHeap V) (EncObj V) := do
  let deltaInv ← allocs 1 (O.fn .deltaInv [])
  let twin ← newTwin O (O.fn (.std 3) [])
  let cosac ← newCosac O
  let rounded ← newUniform O
  let rns ← newRns O P.n P.levels P.ringQ
  let buf ← newEncBuf O P
  pure ⟨twin, cosac, rounded, rns, deltaInv, buf⟩

/-- encoder.go:222-236 (`safeCopy`) -/
def EncObj.safeCopy (P : CopyParams) (e : EncObj V) : StateM (CopyHeap V) (EncObj V) := do
  let twin ← e.twin.safeCopy O
  let cosac ← newCosac O
  let rounded ← newUniform O
  let rns ← e.rns.safeCopy O
  let buf ← newEncBuf O P
  pure ⟨twin, cosac, rounded, rns, e.deltaInv, buf⟩

/-- prover.go:28-40 (`NewProver`) -/
def newProverObj (P : CopyParams) : StateM (CopyHeap V) (ProverObj V) := do
  let ecd ← newEnc O P
  let rnsOut ← newRns O P.nOut P.levelsOut P.ringQOut
  let ck ← allocs 1 (O.fn .commitKey [])
  let uniform ← newUniform O
  let rounded ← newUniform O
  let mlwe ← newTwin O (O.fn (.std 5) [])
  pure ⟨ecd, rnsOut, ck, uniform, rounded, mlwe⟩

/-- prover.go:327-340 (`SafeCopy`) -/
def ProverObj.safeCopy (P : CopyParams) (p : ProverObj V) : StateM (CopyHeap V) (ProverObj V) := do
  let ecd ← p.ecd.safeCopy O P
  let rnsOut ← p.rnsOut.safeCopy O
  let uniform ← newUniform O
  let rounded ← newUniform O
  let mlwe ← newTwin O (O.fn (.std 5) [])
  pure ⟨ecd, rnsOut, p.ck, uniform, rounded, mlwe⟩

/-- `NewProver`, then for each `c` a `SafeCopy` of the `c`-th prover made so far. -/
def makeProvers (P : CopyParams) (p₀ : ProverObj V) :
    List Nat → List (ProverObj V) → StateM (CopyHeap V) (List (ProverObj V))
  | [], ps => pure ps
  | c :: cs, ps => do
    let p ← (ps.getD c p₀).safeCopy O P
    makeProvers P p₀ cs (ps ++ [p])

open MemProg

/-- uniform.go:64-82 (`Sample`) -/
def sampleProg (s : Nat) : MemProg V V := do
  let st ← get s
  put s (O.fn .nextState [st])
  pure (O.fn .word [st])

/-- uniform.go:96-100 (`SampleFloat`) -/
def floatProg (s : Nat) : MemProg V V := do
  let w ← sampleProg O s
  pure (O.fn .float [w])

/-- gaussian_rounded.go:91-106: the loop for the tail. -/
def tailProg (s : Nat) (r : V) : Nat → MemProg V V
  | 0 => pure (O.fn .stuck [])
  | fuel + 1 => do
    let u ← floatProg O s
    let v ← floatProg O s
    if O.test .tailOk [u, v] then pure (O.fn .zigTail [r, u]) else tailProg s r fuel

/-- gaussian_rounded.go:77-113 (`normFloat`) -/
def normProg (zig s : Nat) : Nat → MemProg V V
  | 0 => pure (O.fn .stuck [])
  | fuel + 1 => do
    let r ← sampleProg O s
    let z ← get zig
    if O.test .inKn [r, z] then pure (O.fn .zigX [r, z])
    else if O.test .zigZero [r] then tailProg O s r fuel
    else do
      let u ← floatProg O s
      if O.test .zigOk [r, z, u] then pure (O.fn .zigX [r, z]) else normProg zig s fuel

/-- gaussian_rounded.go:119-125 (`RoundedGaussianSampler.Sample`) with center 0 -/
def roundedProg (zig s fuel : Nat) (stdDev : V) : MemProg V V := do
  let x ← normProg O zig s fuel
  pure (O.fn .rounded [x, stdDev])

/-- gaussian_twin_cdt.go:77-111 (`TwinCDTGaussianSampler.Sample`) -/
def twinProg (s : TwinObj V) (center : V) : MemProg V V := do
  let u ← sampleProg O s.base
  let tb ← get s.tables
  pure (O.fn .twin [u, tb, center, s.stdDev])

/-- gaussian_cosac.go:23-45 (`sampleRound`) -/
def cosacRoundProg (zig : Nat) (s : CosacObj) (center stdDev : V) (inner : Nat) : Nat → MemProg V V
  | 0 => pure (O.fn .stuck [])
  | fuel + 1 => do
    let y ← normProg O zig s.rounded inner
    let b ← sampleProg O s.base
    if O.test .cosacSide [y, b, stdDev] then do
      let r ← floatProg O s.base
      if O.test .cosacOk [r, y, b, center, stdDev] then pure (O.fn .cosacRound [y, b, stdDev])
      else cosacRoundProg zig s center stdDev inner fuel
    else cosacRoundProg zig s center stdDev inner fuel

/-- gaussian_cosac.go:48-57 (`COSACSampler.Sample`) -/
def cosacProg (zig : Nat) (s : CosacObj) (center stdDev : V) (fuel : Nat) : MemProg V V := do
  let r ← floatProg O s.base
  if O.test .cosacHit [r, center, stdDev] then pure (O.fn .cosacInt [center])
  else do
    let x ← cosacRoundProg O zig s center stdDev fuel fuel
    pure (O.fn .cosacAdd [x, center])

/-- encoder.go:120-146 (`baseEncodeTo`): the polynomial. -/
def baseEncodeProg (P : CopyParams) (e : EncObj V) (v : List V) : MemProg V V := do
  let ds ← each v fun x => do
    put e.buf.coeff (O.fn .slice [x])
    let rs ← each (List.range (P.exp - 1)) fun _ => do
      let c ← get e.buf.coeff
      put e.buf.coeff (O.fn .quot [c])
      pure (O.fn .rem [c])
    let c ← get e.buf.coeff
    pure (rs ++ [O.fn .last [c]])
  pure (O.fn .basePoly ds.flatten)

/-- encoder.go:106-117 (`encode`, `encodeTo`) -/
def encodeProg (P : CopyParams) (e : EncObj V) (v : List V) : MemProg V V := do
  let f ← baseEncodeProg O P e v
  let q ← get P.ringQ
  pure (O.fn .transform [f, q])

/-- encoder.go:149-201 (`randEncodeTo`): the polynomial. -/
def randEncodeProg (P : CopyParams) (e : EncObj V) (fuel : Nat) (v : List V) (stdDev : V) :
    MemProg V V := do
  let f ← baseEncodeProg O P e v
  -- 152
  let _ ← putAll e.buf.fpSample P.n fun _ => O.fn .fpZero []
  -- 153-164
  let _ ← each (List.range P.exp) fun i => do
    let δ ← get e.deltaInv
    if O.test (.deltaZero i) [δ] then pure [] else do
      let d := P.n - (i + 1) * P.slots
      let _ ← each (List.range (P.n - d)) fun j => do
        let x ← get (e.buf.fpSample + (d + j))
        put (e.buf.fpSample + (d + j)) (O.fn (.fpAdd i) [x, δ, O.fn (.coeff j) [f]])
      each (List.range d) fun j => do
        let x ← get (e.buf.fpSample + j)
        put (e.buf.fpSample + j) (O.fn (.fpSub i) [x, δ, O.fn (.coeff (P.n - d + j)) [f]])
  -- 166-183
  let _ ← each (List.range P.n) fun i => do
    let x ← get (e.buf.fpSample + i)
    let c ← (if O.test .sameStd [stdDev, e.twin.stdDev] then twinProg O e.twin (O.fn .neg [x])
      else cosacProg O P.zig e.cosac (O.fn .neg [x]) stdDev fuel)
    let q ← get P.ringQ
    put (e.buf.pSample + i) (O.fn .residues [c, q])
  -- 184
  let q ← get P.ringQ
  let _ ← each (List.range P.n) fun i => do
    let x ← get (e.buf.pSample + i)
    put (e.buf.pSample + i) (O.fn .mform [x, q])
  -- 186-190
  let _ ← each (List.range (P.n - P.slots)) fun i => do
    let x ← get (e.buf.pSample + i)
    put (e.buf.pSampleShift + (P.slots + i)) x
  -- 191-195
  let _ ← each (List.range P.slots) fun i => do
    let x ← get (e.buf.pSample + (P.n - P.slots + i))
    put (e.buf.pSampleShift + i) (O.fn .neg2 [x, q])
  -- 196
  let _ ← each (List.range P.n) fun i => do
    let x ← get (e.buf.pSample + i)
    let y ← get (e.buf.pSampleShift + i)
    put (e.buf.pSampleShift + i) (O.fn .mulSub [x, y, q])
  -- 198-200
  let ys ← getAll e.buf.pSampleShift P.n
  pure (O.fn .finish (f :: q :: ys))

/-- rns.go:78-104: one iteration of `reconstructTo`. -/
def reconstructOne (r : RnsObj) (p : V) (i : Nat) : MemProg V V := do
  let q ← get r.ringQ
  if O.test (.isSmall i) [p, q] then pure (O.fn (.small i) [p, q]) else do
    put r.acc (O.fn .zero [])
    let _ ← each (List.range r.levels) fun j => do
      put r.coeff (O.fn (.residue j i) [p])
      let c ← get r.coeff
      let g ← get r.gad
      put r.mul (O.fn (.mul j) [c, g])
      let a ← get r.acc
      let m ← get r.mul
      put r.acc (O.fn .add [a, m])
    let a ← get r.acc
    put r.accTmp (O.fn .quot [a, q])
    put r.acc (O.fn .mod [a, q])
    let a ← get r.acc
    let h ← get r.qHalf
    let _ ← (if O.test .geHalf [a, h] then put r.acc (O.fn .sub [a, q]) else pure ())
    get r.acc

/-- rns.go:76-105 (`reconstructTo`): the big integers written to `vOut`, which belong to the caller. -/
def reconstructProg (r : RnsObj) (p : V) : MemProg V (List V) :=
  each (List.range r.n) (reconstructOne O r p)

/-- rns.go:108-114 (`setBigCoeffTo`): the polynomial. -/
def setBigCoeffProg (r : RnsObj) (v : List V) : MemProg V V := do
  let xs ← each v fun x => each (List.range r.levels) fun l => do
    let q ← get r.qBig
    put r.accTmp (O.fn (.modQ l) [x, q])
    get r.accTmp
  pure (O.fn .bigPoly xs.flatten)

/-- What the caller passes: an object in memory, or one that only it has. -/
inductive CallArg (V : Type)
  | addr (a : Nat)
  | val (v : V)

/-- Reading an argument. -/
def CallArg.prog : CallArg V → MemProg V V
  | .addr a => get a
  | .val v => pure v

/-- The part of an `Opening` made by `commitColTo`. -/
structure ColOpen (V : Type) where
  encode : List V
  mlwe : List V
  inCommit : List V

/-- prover.go:93-115: the mask column. -/
def maskColProg (P : CopyParams) (p : ProverObj V) (fuel len : Nat) (rnd : Nat → V) :
    MemProg V (List V) := do
  let mask := fun j => (List.range P.slots).map fun k => rnd (P.cols * P.slots + (j * P.slots + k))
  let a ← randEncodeProg O P p.ecd fuel (mask 0) (O.fn (.std 0) [])
  let bs ← each (List.range (P.rows - 2)) fun j =>
    if (j + 1) * P.cols * P.slots > len then pure (O.fn .zeroPoly [])
    else randEncodeProg O P p.ecd fuel (mask (j + 1)) (O.fn (.std 1) [])
  let c ← randEncodeProg O P p.ecd fuel (mask (P.rows - 1)) (O.fn (.std 1) [])
  pure (a :: bs ++ [c])

/-- prover.go:116-128: another column. -/
def dataColProg (P : CopyParams) (p : ProverObj V) (fuel i len : Nat) (v : V)
    (first last : List V) : MemProg V (List V) := do
  let sl := fun l : List V => (l.drop (i * P.slots)).take P.slots
  let a ← randEncodeProg O P p.ecd fuel (sl first) (O.fn (.std 2) [])
  let bs ← each (List.range (P.rows - 2)) fun j =>
    let start := (j + 1) * P.cols * P.slots + i * P.slots
    if start > len then pure (O.fn .zeroPoly [])
    else randEncodeProg O P p.ecd fuel
      ((List.range (min (start + P.slots) len - start)).map fun k => O.fn (.elem (start + k)) [v])
      (O.fn (.std 3) [])
  let c ← randEncodeProg O P p.ecd fuel (sl last) (O.fn (.std 3) [])
  pure (a :: bs ++ [c])

/-- prover.go:89-177 (`commitColTo`) -/
def commitColProg (P : CopyParams) (p : ProverObj V) (fuel i len : Nat) (v : V)
    (first last : List V) (rnd : Nat → V) : MemProg V (ColOpen V) := do
  let enc ← (if i = P.cols then maskColProg O P p fuel len rnd
    else dataColProg O P p fuel i len v first last)
  -- 129-142
  let q ← get P.ringQ
  let mlwe ← each (List.range (P.inRank + P.mlweRank)) fun _ => do
    let xs ← each (List.range P.n) fun _ =>
      if i = P.cols then roundedProg O P.zig p.rounded fuel (O.fn (.std 4) [])
      else twinProg O p.mlwe (O.fn .zero [])
    pure (O.fn .mlwe (q :: xs))
  -- 144-158
  let ck ← get p.ck
  -- 160-177
  let inc ← each (List.range P.inRank) fun j => do
    let xs ← reconstructProg O p.ecd.rns (O.fn (.inner j) (q :: ck :: enc ++ mlwe))
    let qOut ← get P.ringQOut
    let f ← setBigCoeffProg O p.rnsOut (xs.map fun x => O.fn .shift [x])
    pure (O.fn .transform [f, qOut])
  pure ⟨enc, mlwe, inc⟩

/-- prover.go:180-202 (`outerCommitTo`) -/
def outerProg (P : CopyParams) (p : ProverObj V) (cols : List (ColOpen V)) : MemProg V (List V) :=
  each (List.range P.outRank) fun i => do
    let ck ← get p.ck
    let q ← get P.ringQOut
    let xs ← reconstructProg O p.rnsOut (O.fn (.outer i) (q :: ck :: cols.flatMap ColOpen.inCommit))
    let f ← setBigCoeffProg O p.rnsOut (xs.map fun x => O.fn .shift [x])
    pure (O.fn .transform [f, q])

/-- prover.go:45-62 and 65-86 (`Commit`, `genFirstLastRow`): the commitment with the opening, for a
vector of length `len`. -/
def commitProg (P : CopyParams) (p : ProverObj V) (fuel len : Nat) (vec : CallArg V)
    (rnd : Nat → V) : MemProg V V := do
  let v ← vec.prog
  let w := P.cols * P.slots
  let last := (List.range (w - 1)).map rnd ++ [O.fn .lastZero []]
  let first := (List.range w).map fun i => O.fn (.first i) (v :: last)
  let cols ← each (List.range (P.cols + 1)) fun i =>
    commitColProg O P p fuel i len v first last rnd
  let com ← outerProg O P p cols
  pure (O.fn .result (com ++ cols.map fun c =>
    O.fn .opening (c.encode ++ c.mlwe ++ c.inCommit)))

/-- prover.go:205-324 (`Evaluate`): the evaluations with the proof. -/
def evaluateProg (P : CopyParams) (p : ProverObj V) (x : V) (args : List (CallArg V)) :
    MemProg V V := do
  let ck ← get p.ck
  let vs ← each args CallArg.prog
  let q ← get P.ringQ
  let qOut ← get P.ringQOut
  let ls ← each (List.range P.rows) fun i => encodeProg O P p.ecd [O.fn (.left i) [x]]
  pure (O.fn .proof (ck :: x :: q :: qOut :: vs ++ ls))

/-- What a goroutine does with its prover: calls, each depending on the results of those before. -/
inductive CopyClient (V : Type) : Type
  | done (r : V)
  /-- `Commit` of a vector of length `len`, `rnd` being what it gets from `crypto/rand` -/
  | commit (fuel len : Nat) (vec : CallArg V) (rnd : Nat → V) (k : V → CopyClient V)
  /-- `Evaluate` at `x`, `args` being the vectors, commitments and openings -/
  | evaluate (x : V) (args : List (CallArg V)) (k : V → CopyClient V)

/-- The accesses of a goroutine that uses the prover `p`. -/
def CopyClient.prog (P : CopyParams) (p : ProverObj V) : CopyClient V → MemProg V V
  | .done r => .ret r
  | .commit fuel len vec rnd k =>
    (commitProg O P p fuel len vec rnd).bind fun r => (k r).prog P p
  | .evaluate x args k => (evaluateProg O P p x args).bind fun r => (k r).prog P p

end
end Ringo
