import Verif.Model.JUtil
import Verif.Model.Csprng

/-!
# Model of `jindo/encoder.go`, of the matrix of `jindo/prover.go`, and of the sizes chosen by
`jindo/params.go`

Field elements are elements of `ZMod p`.  The arithmetic of lattigo's rings is that of residues
modulo every modulus; Montgomery form and the NTT of lattigo are changes of representation, which
`encode`, `randEncode` and `DecodeTo` undo: they are left out here (see `JProto` for the protocol,
where they are kept).
-/

namespace Ringo

/-- The parts of `Parameters` the encoder uses (encoder.go:14); `N = ringQ.N()`, and `limbs` is the
number of words of a field element. -/
structure EncParams where
  ecd : EcdParams
  slots : Nat
  N : Nat
  limbs : Nat

/-- What `Slice` leaves in its argument: the words of the canonical representative, least
significant first (see `C72` for the field packages). -/
def sliceWords (L n : Nat) : List Nat := (List.range L).map fun k => n / 2 ^ (64 * k) % 2 ^ 64

/-- encoder.go:127-132: one digit of element `i`; the state is the number left and the row of
coefficients. Every modulus gets the same value, so one row stands for all. -/
def encDigitStep (P : EncParams) (i : Nat) (s : List Nat × List Nat) (j : Nat) :
    Go (List Nat × List Nat) := do
  let cr ← divMod64 s.1 P.ecd.base
  let row ← setIdx s.2 (j * P.slots + i) cr.2
  pure (cr.1, row)

/-- encoder.go:126-136: the body of the first loop, for the words `c` of `v[i]`. -/
def encElem (P : EncParams) (c : List Nat) (row : List Nat) (i : Nat) : Go (List Nat) := do
  let s ← forRange 0 (P.ecd.exp - 1) 1 (c, row) (encDigitStep P i)
  let r ← idx s.1 0
  setIdx s.2 ((P.ecd.exp - 1) * P.slots + i) r

/-- encoder.go:140-144: the body of the second loop. -/
def encZero (P : EncParams) (row : List Nat) (i : Nat) : Go (List Nat) :=
  forRange 0 P.ecd.exp 1 row fun row j => setIdx row (j * P.slots + i) 0

/-- encoder.go:120-146 (`baseEncodeTo`), for the row of any one modulus. -/
def baseEncode {p : Nat} (P : EncParams) (row : List Nat) (v : List (ZMod p)) : Go (List Nat) := do
  if P.slots < v.length then goPanic
  else
    let row ← forRange 0 v.length 1 row fun row i => do
      let x ← idx v i
      encElem P (sliceWords P.limbs x.val) row i
    forRange v.length P.slots 1 row (encZero P)

/-- encoder.go:173-184: the residue of the sample of coefficient `i`, after `MForm`, which
reduces. -/
def sampleResidue (s : List Int) (q i : Nat) : Nat := signedResidue (s.getD i 0) q % q

/-- encoder.go:186-195: coefficient `t` of `X^slots` times the sample. -/
def shiftResidue (P : EncParams) (s : List Int) (q t : Nat) : Nat :=
  if t < P.slots then q - sampleResidue s q (P.N - P.slots + t)
  else sampleResidue s q (t - P.slots)

/-- encoder.go:196-199: the residue of coefficient `t` of the randomised encoding; `row` is the
encoding, `s` are the samples (lines 166-172; they are arbitrary integers here). -/
def randResidue (P : EncParams) (row : List Nat) (s : List Int) (q t : Nat) : Nat :=
  (row.getD t 0 + (shiftResidue P s q t + (q - P.ecd.base * sampleResidue s q t % q))) % q

/-- encoder.go:149-201 (`randEncodeTo`): the residues of all coefficients, for the moduli `qs`. -/
def randEncode {p : Nat} (P : EncParams) (qs : List Nat) (row : List Nat) (v : List (ZMod p))
    (s : List Int) : Go (List (List Nat)) := do
  let row ← baseEncode P row v
  pure ((List.range P.N).map fun t => qs.map fun q => randResidue P row s q t)

/-- rns.go:76-105 (`reconstructTo`) for a whole polynomial. -/
def reconstructTo (qs : List Nat) (poly : List (List Nat)) : Go (List Int) :=
  poly.mapM fun cs => reconstruct1 (cs.zip qs)

/-- encoder.go:212-217: the value computed for slot `i`. -/
def decodeSlot {p : Nat} (P : EncParams) (coeff : List Int) (i : Nat) : Go (ZMod p) :=
  forDown P.ecd.exp 0 (0 : ZMod p) fun acc j => do
    let c ← idx coeff (j * P.slots + i)
    pure (acc * (P.ecd.base : ZMod p) + (c : ZMod p))

/-- encoder.go:204-219 (`DecodeTo`), on the reconstructed coefficients. -/
def decodeTo {p : Nat} (P : EncParams) (vOut : List (ZMod p)) (coeff : List Int) :
    Go (List (ZMod p)) := do
  if P.slots < vOut.length then goPanic
  else
    forRange 0 P.slots 1 vOut fun vOut i => do
      let _ ← idx vOut i
      let x ← decodeSlot P coeff i
      setIdx vOut i x

/-! ## The committed matrix -/

/-- The parts of `Parameters` that give the shape of the matrix (params.go:68-78). -/
structure MatParams where
  rank : Nat
  rows : Nat
  cols : Nat
  slots : Nat

section
variable {F : Type} [CommRing F]

/-- prover.go:65-86 (`genFirstLastRow`); `rand` are the elements drawn. -/
def genFirstLastRow (M : MatParams) (rand : Nat → F) (v : List F) : Go (List F × List F) := do
  let n := M.cols * M.slots
  if n = 0 then goPanic
  else
    let lastRow := (List.range (n - 1)).map rand ++ [0]
    let v0 ← idx v 0
    let firstRow := v0 :: (List.range' 1 (n - 1)).map fun i =>
      if i < v.length then v.getD i 0 - lastRow.getD (i - 1) 0
      else 0 - lastRow.getD (i - 1) 0
    pure (firstRow, lastRow)

/-- `l[a:b]`; here always within the length. -/
def goSlice {α : Type} (l : List α) (a b : Nat) : Go (List α) :=
  if a ≤ b ∧ b ≤ l.length then pure ((l.take b).drop a) else goPanic

/-- prover.go:117-127: what is encoded in cell `(i, j)` (column `i`, row `j`); `none` if the cell
is left zero (the `break` of line 122: the start index grows with `j`, so that all later cells are
left zero, too). -/
def cellArg (M : MatParams) (v firstRow lastRow : List F) (i j : Nat) : Go (Option (List F)) := do
  let rowStart := i * M.slots
  let rowEnd := (i + 1) * M.slots
  if j = 0 then some <$> goSlice firstRow rowStart rowEnd
  else if j = M.rows - 1 then some <$> goSlice lastRow rowStart rowEnd
  else
    let idxStart := j * M.cols * M.slots + rowStart
    let idxEnd := j * M.cols * M.slots + rowEnd
    if idxStart > v.length then pure none
    else some <$> goSlice v idxStart (min idxEnd v.length)

/-- prover.go:45-62 with 89-128: the vectors encoded in all cells of the columns below `cols`,
column by column.  Row 0 is encoded first, but no order matters for the result. -/
def matrixCells (M : MatParams) (rand : Nat → F) (v : List F) : Go (List (List (Option (List F)))) := do
  if v.length > M.rank then goPanic
  else
    let fl ← genFirstLastRow M rand v
    (List.range M.cols).mapM fun i => (List.range M.rows).mapM fun j =>
      cellArg M v fl.1 fl.2 i j

/-- utils.go:63-72 (`leftVec`). -/
def leftVec (M : MatParams) (x : F) : Go (List F) := do
  let skip := expU64 x (M.cols * M.slots)
  let left := List.replicate M.rows (0 : F)
  let left ← setIdx left 0 1
  let left ← forRange 1 M.rows 1 left fun left i => do
    let y ← idx left (i - 1)
    setIdx left i (y * skip)
  setIdx left (M.rows - 1) x

/-- utils.go:75-82 (`rightVec`). -/
def rightVec (M : MatParams) (x : F) : Go (List F) := do
  let right := List.replicate (M.cols * M.slots) (0 : F)
  let right ← setIdx right 0 1
  forRange 1 (M.cols * M.slots) 1 right fun right i => do
    let y ← idx right (i - 1)
    setIdx right i (y * x)

end

/-! ## The sizes chosen by `NewParameters` -/

/-- The results of the floating-point computations of one iteration (params.go:151-256, 279-297):
whether line 238 skips the candidate, its size, and whether enough primes are found for the two
rings. -/
structure Cand (S : Type) where
  skip : Bool
  size : S
  qOk : Bool
  qqOk : Bool

/-- The integer fields of `Parameters` (params.go:64-78), and which rings are set
(`ringQ = some n` if it was set in the iteration for `n`). -/
structure JParams where
  batch : Nat
  rank : Nat
  rows : Nat
  cols : Nat
  base : Nat
  exp : Nat
  slots : Nat
  ringQ : Option Nat
  ringQOut : Option Nat

/-- params.go:134: the zero value. -/
def JParams.zero : JParams := ⟨0, 0, 0, 0, 0, 0, 0, none, none⟩

/-- `math.Ceil(a / b)` for positive integers. -/
def ceilDiv (a b : Nat) : Nat := (a + b - 1) / b

/-- params.go:258-316: what an iteration does to `(params, minSize)` once the candidate is
computed; `minSize = none` is infinity. -/
def npAssign {S : Type} [LT S] [DecidableLT S] (targetN batch : Nat) (e : EcdParams) (nn : Nat) (c : Cand S)
    (s : JParams × Option S) : JParams × Option S :=
  let d := max e.exp 256
  let l := d / e.exp
  let m := ceilDiv targetN (nn * l)
  if (match s.2 with | none => true | some x => decide (c.size < x)) then
    let params : JParams := ⟨batch, nn * m * l, m + 1, nn, e.base, e.exp, d / e.exp,
      s.1.ringQ, s.1.ringQOut⟩
    if !c.qOk then (params, some c.size)
    else
      let params := { params with ringQ := some nn }
      if !c.qqOk then (params, some c.size)
      else ({ params with ringQOut := some nn }, some c.size)
  else s

/-- params.go:147-317: one iteration.  `cand nn` faults if the computation panics (line 55) or does
not end (line 187). -/
def npStep {S : Type} [LT S] [DecidableLT S] (targetN batch : Nat) (e : EcdParams) (cand : Nat → Go (Cand S))
    (s : JParams × Option S) (nn : Nat) : Go (JParams × Option S) := do
  let c ← cand nn
  if c.skip then pure s else pure (npAssign targetN batch e nn c s)

/-- params.go:126-320 (`NewParameters`).  `float64` arithmetic on the sizes (powers of two, and
integers far below `2^53`) is exact. -/
def newParameters {S : Type} [LT S] [DecidableLT S] (targetN batch : Nat) (p : Nat)
    (cand : Nat → Go (Cand S)) : Go JParams := do
  if targetN < 1 then goPanic
  else if batch < 1 then goPanic
  else
    let e ← newEncodeParameters p
    let maxCols := ceilDiv targetN (max e.exp 256 / e.exp)
    let s ← (doublings 1 maxCols).foldlM (npStep targetN batch e cand) (JParams.zero, none)
    pure s.1

end Ringo
